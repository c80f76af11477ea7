import Verif.Lemmas.Twice
import Verif.Props.CliHistories
/-!
# Encrypting an encrypted file again

C49.
-/

namespace Rops.Props
open Rops Spec

/-- `rops encrypt -i` on a file: what it read and what it wrote. -/
theorem encrypted_in_place {P : Proc} {l : EncryptLine} {i : Nat} {es : List Event} (h : P.run (.encrypt l) i = (es, .ok ()))
    (hin : l.inPlace = true) {path : Str} (hl : l.input.file = some path) {x : Fmt}
    (hx : getFormat (some path) l.input.format = .ok x) {s s' : Str} (hfile : P.file path = .data (utf8 s))
    (hafter : filesAfter P.file es path = .data (utf8 s')) :
    ∃ config map f j, P.retrieveConfig l.input.config = .ok config ∧ (P.T x).parse s = some map ∧
      Builder.encrypt P.env
        { map
          partialEncryption := l.setting.or ((ruleFor P.env.rx config (some path)).bind CreationRule.partialEncryption)
          macOnlyEncrypted := if l.macOnlyEncrypted then some true else none
          ageKeyIds := l.keys.age ++ (ruleKeys (ruleFor P.env.rx config (some path))).age
          kmsKeyIds := l.keys.kms ++ (ruleKeys (ruleFor P.env.rx config (some path))).kms } i = .ok (f, j) ∧
      s' = EncFile.toText (P.T x) P.env.C f := by
  obtain ⟨_, _, config, x', s1, map, f, j, hcf, hx', hs, hp', hf, hd⟩ := run_encrypt_ok.1 h
  rw [hl] at hx' hs hf hd
  rw [hx'] at hx
  cases hx
  cases input_of_found hfile hs
  exact ⟨config, map, f, j, hcf, hp', hf, delivered_files hd hin hafter⟩

/-- **C49.** If `rops encrypt -i` is run on a JSON or YAML file that is already encrypted and it succeeds,
what it leaves is not read as an encrypted file any more. -/
theorem C49_encrypted_twice {P : Proc} {l : EncryptLine} {i : Nat} {es : List Event} (h : P.run (.encrypt l) i = (es, .ok ()))
    (hin : l.inPlace = true) {path : Str} (hl : l.input.file = some path) {x : Fmt}
    (hx : getFormat (some path) l.input.format = .ok x) (hnt : x ≠ .toml) {s s' : Str} (hfile : P.file path = .data (utf8 s))
    {f : EncFile x.doc.F} (hf : EncFile.ofText (P.T x) P.O P.env.C s = some f)
    {map : x.doc.F.Map} {m : RMap Value} (hp : (P.T x).parse s = some map) (hm : x.doc.F.toInternal map = .ok m)
    (hafter : filesAfter P.file es path = .data (utf8 s')) (hb : ReadBack P.env.C x (P.T x) m s') :
    EncFile.ofText (P.T x) P.O P.env.C s' = none := by
  obtain ⟨config, map', f', j, _, hp1, hf', rfl⟩ := encrypted_in_place h hin hl hx hfile hafter
  rw [hp] at hp1
  cases hp1
  obtain ⟨p, hp'⟩ := takeSops_of_ofText hf hp
  obtain ⟨m1, m', _, _, _, h1, h2, _, _, h5, _⟩ := Builder.encrypt_ok hf'
  cases Except.ok.inj (hm.symm.trans h1)
  have hk := sops_of_takeSops hp' h1
  rw [← topKeys_shape (RMap.encrypt_ok_iff.1 h2).1] at hk
  obtain ⟨e, he, hek⟩ := List.mem_map.1 hk
  have hT : TextLaws (P.T x) (· = f'.toDoc x.doc P.env.C) :=
    ⟨by rintro d rfl; exact hb _ m' (standsFor_of_encrypt h2) h5 rfl⟩
  cases x with
  | toml => exact absurd rfl hnt
  | json =>
    refine C44_json_sops hT ?_ rfl
    have hkeys := topKeys_mapM (show Tree.mapMapM (JsonScalar.encOfInternal P.env.C) m' = some f'.map from h5)
    have : c!"sops" ∈ topKeys (show RMap JsonScalar from f'.map) := by rw [hkeys]; exact hk
    exact List.mem_map.1 this
  | yaml =>
    refine C44_yaml_sops hT ?_ rfl
    have hmap : Yaml.ofMap (Yaml.ofEncLeaf P.env.C) m' = f'.map := Option.some.inj h5
    rw [← hmap, Yaml.ofMap_eq]
    exact ⟨_, List.mem_map.2 ⟨e, he, rfl⟩, by rw [← hek]⟩

/-- **C49.** Every other command then fails on the file, for everyone. -/
theorem C49_unreadable {P : Proc} {path s : Str} {x : Fmt} (hfile : P.file path = .data (utf8 s))
    (hno : EncFile.ofText (P.T x) P.O P.env.C s = none) {c : Command} (hc : opens c = some path)
    (hx : getFormat (some path) (givenFormat c) = .ok x) (i : Nat) : (P.run c i).2 ≠ .ok () := by
  intro hr
  obtain ⟨es, h⟩ : ∃ es, P.run c i = (es, .ok ()) := ⟨_, Prod.ext rfl hr⟩
  have key : ∀ {x' : Fmt} {s1 : Str} {f : EncFile x'.doc.F}, getFormat (some path) (givenFormat c) = .ok x' →
      InputText P (some path) s1 → EncFile.ofText (P.T x') P.O P.env.C s1 = some f → False := by
    intro x' s1 f h1 h2 h3
    rw [hx] at h1
    cases h1
    cases input_of_found hfile h2
    rw [hno] at h3
    cases h3
  cases c with
  | encrypt l => cases hc
  | decrypt l =>
    obtain ⟨_, _, _, _, _, _, h1, h2, h3, _⟩ := run_decrypt_ok.1 h
    have hc : l.input.file = some path := hc
    rw [hc] at h1 h2
    exact key h1 h2 h3
  | refresh l =>
    obtain ⟨_, _, _, _, _, _, _, h1, h2, h3, _⟩ := run_refresh_ok.1 h
    have hc : l.input.file = some path := hc
    rw [hc] at h1 h2
    exact key h1 h2 h3
  | edit a =>
    obtain ⟨_, _, _, _, _, _, h1, h2, h3, _⟩ := run_edit_ok.1 h
    have hc : a.file = some path := hc
    rw [hc] at h1 h2
    exact key h1 h2 h3
  | addKeys a =>
    obtain ⟨_, _, _, _, _, _, _, _, h1, h2, h3, _⟩ := run_addKeys_ok.1 h
    rw [show some a.file = some path from hc] at h1 h2
    exact key h1 h2 h3
  | removeKeys a =>
    obtain ⟨_, _, _, _, _, _, _, _, _, _, _, h1, h2, h3, _⟩ := run_removeKeys_ok.1 h
    rw [show some a.file = some path from hc] at h1 h2
    exact key h1 h2 h3

/-- **C49.** In TOML the new metadata replaces the old. The file is read, but no one can decrypt it: the
MAC covers the metadata that was replaced. (Up to collisions of the hash function; without
`--mac-only-encrypted`.) -/
theorem C49_toml_twice {P : Proc} (he : EnvLaws P.env) (hc : ∀ i, Calendar (P.env.clock i)) (hO : DocLaws P.O)
    {l : EncryptLine} {i : Nat} {path s s' : Str} (hr : Ran P.env P.O P.T .toml path P (.encrypt l) i s s')
    (honly : l.macOnlyEncrypted = false) {f : EncFile Fmt.toml.doc.F}
    (hf : EncFile.ofText (P.T .toml) P.O P.env.C s = some f) {map : Fmt.toml.doc.F.Map} {m : RMap Value}
    (hp : (P.T .toml).parse s = some map) (hm : Fmt.toml.doc.F.toInternal map = .ok m)
    (hfits : ∀ p, Fits P.env.fl tomlRep p m) (hn : (topKeys m).Nodup) (hb : ReadBack P.env.C .toml (P.T .toml) m s') :
    (∃ f' : EncFile Fmt.toml.doc.F, EncFile.ofText (P.T .toml) P.O P.env.C s' = some f' ∧
      ∀ (host : Host) (g : DecFile Format.toml), f'.decrypt Format.toml (P.env.withHost host) ≠ .ok g) ∨
    ∃ a b, Collide P.env.H a b := by
  obtain ⟨es, h, ha⟩ := hr.run
  obtain ⟨hin, ht⟩ : l.inPlace = true ∧ l.input.file = some path := by
    have ht := hr.target
    unfold target at ht
    simp only at ht
    split at ht
    · rename_i hin; exact ⟨hin, ht⟩
    · cases ht
  obtain ⟨config, map', f1, j, hcf, hp', hf1, rfl⟩ := encrypted_in_place h hin ht hr.format hr.found ha
  rw [hp] at hp'
  cases hp'
  have hcw := hr.config config hcf
  have hkeys : KeysWritable P.O (ruleKeys (ruleFor P.env.rx config (some path))) := by
    cases hrule : ruleFor P.env.rx config (some path) with
    | none => exact ⟨fun _ h => (nomatch h), fun _ h => (nomatch h)⟩
    | some r => exact (hcw r (ruleFor_mem hrule)).1
  have hset : ∀ p, l.setting.or ((ruleFor P.env.rx config (some path)).bind CreationRule.partialEncryption) = some p →
      p.ok P.O = true := by
    intro p hp
    rcases Option.or_eq_some_iff.1 hp with h1 | ⟨_, h1⟩
    · exact hr.setting p h1
    · cases hrule : ruleFor P.env.rx config (some path) with
      | none => rw [hrule] at h1; cases h1
      | some r => rw [hrule] at h1; exact (hcw r (ruleFor_mem hrule)).2 p h1
  obtain ⟨m', _, _, hh, _⟩ := holding_of_builder he (docRep_lawful .toml) hm (hfits _) hf1
  have hw := C43_created he hc (docRep_lawful .toml) hm (hfits _)
    (fun id hid => (List.mem_append.1 hid).elim (hr.keys.1 id) (hkeys.1 id))
    (fun id hid => (List.mem_append.1 hid).elim (hr.keys.2 id) (hkeys.2 id)) hset hf1
  have hmo : f1.metadata.macOnlyEncrypted.getD false = false := by
    obtain ⟨_, _, _, _, _, _, _, _, _, _, h6⟩ := Builder.encrypt_ok hf1
    rw [h6]; simp [honly]
  have hne := macInput_reread_ne (T := P.T .toml) hf hp hm P.env.rx f1.metadata.partialEncryption
  rw [← hmo] at hne
  have hT : TextLaws (P.T .toml) (· = f1.toDoc .toml P.env.C) :=
    ⟨by rintro d rfl; exact hb _ m' hh.sealed.standsFor hh.written rfl⟩
  by_cases hcol : ∃ a b, Collide P.env.H a b
  · exact .inr hcol
  left
  obtain ⟨f', hf', hmd, _⟩ := C44_toml hO hT (show Format.toml.encOfInternal P.env.C m' = some f1.map from hh.written)
    (by rw [holding_topKeys hh]; exact hn) hw rfl
  refine ⟨f', hf', fun host g hg => ?_⟩
  obtain ⟨d, _, _, hd, _⟩ := decrypt_ok_iff.1 hg
  rw [hmd] at hd
  rcases C31_reordered hO (he.withHost host) hT (hh.withHost host) hn hw rfl hd hne with ⟨f2, h2, h3⟩ | hcol'
  · have e : f2 = f' := Option.some.inj (h2.symm.trans hf')
    subst e
    exact h3 g hg
  · exact hcol hcol'

/-- The builder of the second encryption in the example. -/
def againBuilder (f : EncFile Format.json) : Builder Format.json := { Toy.smallBuilder with map := f.toDoc .json Toy.env.C }

-- `rops encrypt -i --age pk2 a.json`, twice: the second run succeeds and the file is lost
example : ∃ (f : EncFile Format.json) (es : List Event) (s' : Str),
    let P := Toy.proc Toy.rule (EncFile.toText Toy.jsonText Toy.env.C f) []
    EncFile.ofText Toy.jsonText Toy.docOps Toy.env.C (EncFile.toText Toy.jsonText Toy.env.C f) = some f ∧
    P.run (.encrypt Toy.encryptLine) 100 = (es, .ok ()) ∧ filesAfter P.file es c!"a.json" = .data (utf8 s') ∧
    EncFile.ofText Toy.jsonText Toy.docOps Toy.env.C s' = none := by
  obtain ⟨f, j, m', hb, _, h1, hh, hw, hr⟩ := Toy.encrypted []
  have hc : (match Toy.smallBuilder.encrypt Toy.env 0 with
      | .error _ => false
      | .ok (f, _) => match (againBuilder f).encrypt Toy.env 100 with
        | .error _ => false
        | .ok _ => true) = true := by decide +kernel
  rw [hb] at hc
  simp only at hc
  split at hc
  · cases hc
  · rename_i r hr
    obtain ⟨f', j'⟩ := r
    have hp : Toy.jsonText.parse (EncFile.toText Toy.jsonText Toy.env.C f) = some (f.toDoc .json Toy.env.C) :=
      Toy.jsonText_laws.parse_render _ trivial
    obtain ⟨m2, _, _, _, _, hm2, _⟩ := Builder.encrypt_ok hr
    have hrun : (Toy.proc Toy.rule (EncFile.toText Toy.jsonText Toy.env.C f) []).run (.encrypt Toy.encryptLine) 100 =
        ([.write c!"a.json" (utf8 (EncFile.toText Toy.jsonText Toy.env.C f')) .done], .ok ()) :=
      run_encrypt_ok.2 ⟨by decide, by decide, [Toy.creationRule], .json, _, _, f', j', Toy.proc_config _ _,
        by decide +kernel, Toy.proc_input _ _ _, hp, hr, .inl ⟨rfl, _, rfl, rfl, rfl⟩⟩
    have hafter : filesAfter (Toy.proc Toy.rule (EncFile.toText Toy.jsonText Toy.env.C f) []).file
        [.write c!"a.json" (utf8 (EncFile.toText Toy.jsonText Toy.env.C f')) .done] c!"a.json" =
        .data (utf8 (EncFile.toText Toy.jsonText Toy.env.C f')) := by simp [filesAfter, effect, Files.put]
    exact ⟨f, _, _, h1, hrun, hafter, C49_encrypted_twice (x := .json) hrun rfl rfl (by decide +kernel) (by decide)
      (P := Toy.proc Toy.rule (EncFile.toText Toy.jsonText Toy.env.C f) []) rfl h1 hp hm2 hafter
      (Toy.readBack Toy.rule _ _)⟩

end Rops.Props
