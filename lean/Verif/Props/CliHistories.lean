import Verif.Lemmas.CliHistory
import Verif.Lemmas.ToyHistory
import Verif.Props.Formats
/-!
# Histories of a file under the commands of the program

C50, C51 and C52.
-/

namespace Rops.Props
open Rops Spec

/-! ## C50 and C51: the document survives -/

/-- **C51.** Whatever commands a file went through since its document was encrypted or edited,
`rops decrypt` by a process that has the private key of a recipient gives this document. -/
theorem C51_document_kept {E : Env} (he : EnvLaws E) (hc : ∀ i, Calendar (E.clock i)) {O : DocOps} (hO : DocLaws O)
    {T : (x : Fmt) → TextOps x.doc} {x : Fmt} {path s : Str} {m : RMap Value} (h : Kept E O T x path s m)
    {P : Proc} (hP : SameProgram E O T P) (hfile : P.file path = .data (utf8 s)) (hin : P.stdin = .terminal)
    {l : PlaceLine} (hl : l.input.file = some path) (hx : getFormat (some path) l.input.format = .ok x)
    {config : Config} (hcf : P.retrieveConfig l.input.config = .ok config)
    (hsave : ∀ b, P.saves path b = .done) (hout : l.inPlace = false → P.stdout = none)
    {f : EncFile x.doc.F} (hf : EncFile.ofText (T x) O E.C s = some f)
    {ks : List E.A.Identity} (hks : retrievePrivateKeys (Age.parsePrivateKey E.A) P.env.host c!"age" = .ok ks)
    {k : E.A.Identity} (hk : k ∈ ks) (hid : E.A.toPublic k ∈ keyIds f.metadata.integration .age) (i : Nat) :
    ∃ (map : x.doc.F.Map) (es : List Event), P.run (.decrypt l) i = (es, .ok ()) ∧ x.doc.F.toInternal map = .ok m ∧
      x.doc.F.ofInternal m = some map ∧ Delivered P l.inPlace (some path) ((T x).render map) es := by
  obtain ⟨f', key, m', hg⟩ := h.good he hc hO
  rw [hg.text] at hf
  cases hf
  obtain ⟨⟨host, hE⟩, rfl, rfl⟩ := hP
  have hhost : P.env.host = host := by rw [hE]; rfl
  rw [hhost] at hks
  have hr := retrieve_of_identity (he.withHost host) hg.holds.key_length (hg.holds.withHost host).units hks hk hid
  obtain ⟨g, h1, h2, _⟩ := decrypt_of_holding (Fo := x.doc.F) (he.withHost host) (docRep_lawful x) (hg.holds.withHost host)
    hg.holds.fits.holds hr
  have hdel : ∃ es, Delivered P l.inPlace (some path) ((P.T x).render g.map) es := by
    cases hi : l.inPlace with
    | true => exact ⟨_, .inl ⟨rfl, path, rfl, hsave _, rfl⟩⟩
    | false => exact ⟨_, .inr ⟨rfl, hout hi, rfl⟩⟩
  obtain ⟨es, hes⟩ := hdel
  refine ⟨g.map, es, ?_, h2.read, ofInternal_of_holding (he.withHost host) (docRep_lawful x) (hg.holds.withHost host)
    hg.holds.fits.holds hr h1, hes⟩
  refine run_decrypt_ok.2 ⟨by rw [hl]; simp, ⟨config, hcf⟩, x, s, f, g, by rw [hl]; exact hx, ?_, ?_, ?_, by rw [hl]; exact hes⟩
  · rw [hl]; exact .inl ⟨path, utf8 s, rfl, hin, hfile, utf8?_utf8 s⟩
  · rw [hE]; exact hg.text
  · rw [hE]; exact h1

/-- Two documents from which the same map is read are the same. -/
theorem sameDoc_of_readAs {d d' : RMap Scalar} {m : RMap Value} (h : ReadAs d m) (h' : ReadAs d' m) : SameDoc d d' := by
  have hlen := length_leaves_of_shape.2.2 _ _ [] [] h.1
  have hlen' := length_leaves_of_shape.2.2 _ _ [] [] h'.1
  refine ⟨h.1.symm.trans h'.1, List.ext_getElem? fun n => ?_⟩
  have hl : (leaves d').length = (leaves d).length := hlen'.symm.trans hlen
  rw [List.getElem?_map, List.getElem?_map]
  by_cases hn : n < (leaves d).length
  · have hn' : n < (leaves d').length := by omega
    rcases hd : (leaves d)[n] with ⟨p, sc⟩
    rcases hd' : (leaves d')[n] with ⟨p', sc'⟩
    have e := List.getElem?_eq_getElem hn
    have e' := List.getElem?_eq_getElem hn'
    rw [hd] at e
    rw [hd'] at e'
    obtain ⟨v, hv, hr⟩ := h.2 n p sc e
    obtain ⟨v', hv', hr'⟩ := h'.2 n p' sc' e'
    rw [hv] at hv'
    cases hv'
    rw [e, e']
    simp only [Option.map_some, Option.some.injEq, Prod.mk.injEq, true_and]
    cases sc <;> cases sc' <;> simp_all [Reads, undated]
    all_goals
      first
        | (obtain ⟨a, rfl, rfl⟩ := hr; obtain ⟨b, hb, rfl⟩ := hr'; cases hb; rfl)
        | (obtain ⟨a, hb, rfl⟩ := hr'; cases hb)
        | skip
  · rw [List.getElem?_eq_none (by omega), List.getElem?_eq_none (by omega)]

theorem docOf_read {x : Fmt} {map : x.doc.F.Map} {m : RMap Value} (h : x.doc.F.toInternal map = .ok m) :
    ∃ d, docOf x map = some d ∧ ReadAs d m := by
  cases x with
  | yaml => exact (C30_yaml_read map m).1 h
  | json => exact ⟨_, rfl, (C30_json_read map m).1 h⟩
  | toml => exact ⟨_, rfl, (C30_toml_read map m).1 h⟩

/-- **C50.** `rops encrypt --in-place` and then `rops decrypt --in-place` by a recipient restores the
document, up to dates that became texts: same keys, order, nesting and scalars. -/
theorem C50_round_trip {E : Env} (he : EnvLaws E) (hc : ∀ i, Calendar (E.clock i)) {O : DocOps} (hO : DocLaws O)
    {T : (x : Fmt) → TextOps x.doc} {x : Fmt} {path s s' : Str} {P : Proc} {l : EncryptLine} {i : Nat}
    (hr : Ran E O T x path P (.encrypt l) i s s') {map : x.doc.F.Map} {m : RMap Value} (hp : (T x).parse s = some map)
    (hm : x.doc.F.toInternal map = .ok m) (hkeep : Keepable E.fl x m) (hb : ReadBack E.C x (T x) m s')
    {P' : Proc} (hP : SameProgram E O T P') (hfile : P'.file path = .data (utf8 s')) (hin : P'.stdin = .terminal)
    {l' : PlaceLine} (hl : l'.input.file = some path) (hpl : l'.inPlace = true)
    (hx : getFormat (some path) l'.input.format = .ok x)
    {config' : Config} (hcf : P'.retrieveConfig l'.input.config = .ok config') (hsave : ∀ b, P'.saves path b = .done)
    {config : Config} (hcf0 : P.retrieveConfig l.input.config = .ok config)
    {ks : List E.A.Identity} (hks : retrievePrivateKeys (Age.parsePrivateKey E.A) P'.env.host c!"age" = .ok ks)
    {k : E.A.Identity} (hk : k ∈ ks)
    (hid : E.A.toPublic k ∈ l.keys.age ∨ ∃ r, ruleFor E.rx config (some path) = some r ∧ E.A.toPublic k ∈ r.keys.age) (i' : Nat) :
    ∃ (map' : x.doc.F.Map) (es : List Event) (d d' : RMap Scalar), P'.run (.decrypt l') i' = (es, .ok ()) ∧
      filesAfter P'.file es path = .data (utf8 ((T x).render map')) ∧
      docOf x map = some d ∧ docOf x map' = some d' ∧ SameDoc d d' := by
  have hkept := Kept.encrypted hr hp hm hkeep hb
  obtain ⟨⟨host, hE⟩, h2, h3⟩ := hr.program
  have hrun := hr.own
  subst h2 h3
  obtain ⟨config1, f, m', hc1, hg, ka, _⟩ := good_encrypted (by rw [hE]; exact he.withHost host) (by rw [hE]; exact hc) hO
    hrun hp hm (by rw [hE]; exact hkeep) (by rw [hE]; exact hb)
  rw [hcf0] at hc1
  cases hc1
  have hmem : E.A.toPublic k ∈ keyIds f.metadata.integration .age := by
    rw [ka, mem_addIds]
    right
    have hrx : P.env.rx = E.rx := by rw [hE]; rfl
    rw [hrx]
    rcases hid with h | ⟨r, h1, h2⟩
    · exact List.mem_append.2 (.inl h)
    · rw [h1]; exact List.mem_append.2 (.inr h2)
  have htext : EncFile.ofText (P.T x) P.O E.C s' = some f := by have := hg.text; rw [hE] at this; exact this
  obtain ⟨map', es, h1, h2, _, hd⟩ := C51_document_kept he hc hO hkept hP hfile hin hl hx hcf hsave (fun h => by rw [hpl] at h; cases h) htext hks hk hmem i'
  obtain ⟨d, hd1, hd2⟩ := docOf_read hm
  obtain ⟨d', hd1', hd2'⟩ := docOf_read h2
  refine ⟨map', es, d, d', h1, ?_, hd1, hd1', sameDoc_of_readAs hd2 hd2'⟩
  rcases hd with ⟨_, p, hp, _, rfl⟩ | ⟨hf, _⟩
  · cases hp
    simp [filesAfter, effect, Files.put]
  · rw [hpl] at hf; cases hf

-- `rops encrypt -i` and `rops decrypt -i` by the owner of "k1", who is in the rule
example : ∃ (s' : Str) (map' : Fmt.json.doc.F.Map) (es : List Event) (d d' : RMap Scalar),
    (Toy.proc Toy.rule (Toy.mapText Toy.small) []).run (.encrypt Toy.encryptLine) 0 =
      ([.write c!"a.json" (utf8 s') .done], .ok ()) ∧
    (Toy.proc Toy.rule s' []).run (.decrypt Toy.placeLine) 70 = (es, .ok ()) ∧
    filesAfter (Toy.proc Toy.rule s' []).file es c!"a.json" = .data (utf8 (Toy.mapText map')) ∧
    docOf .json Toy.small = some d ∧ docOf .json map' = some d' ∧ SameDoc d d' := by
  obtain ⟨f, j, m', hb, hrun, _⟩ := Toy.encrypted []
  obtain ⟨map', es, d, d', h1, h2, h3, h4, h5⟩ := C50_round_trip (x := .json) Toy.env_laws Toy.env_clock Toy.docOps_laws
    (Toy.ran hrun rfl rfl rfl ⟨fun _ _ => rfl, fun _ h => nomatch h⟩ rfl) (Toy.jsonText_laws.parse_render Toy.small trivial) rfl
    Toy.small_keepable (Toy.readBack _ _ _) (Toy.sameProgram Toy.rule _ []) rfl rfl (l' := Toy.placeLine) rfl rfl
    (by decide +kernel) (Toy.proc_config _ _) (fun _ => rfl) (Toy.proc_config _ _) (ks := [c!"k1"]) rfl (k := c!"k1") (.head _)
    (.inr ⟨Toy.creationRule, (by decide +kernel : ruleFor Toy.env.rx [Toy.creationRule] (some c!"a.json") = some Toy.creationRule), by decide⟩) 70
  exact ⟨_, map', es, d, d', hrun, h1, h2, h3, h4, h5⟩

/-! ## C51: the recipients -/

/-- **C51.** `rops encrypt` in place gives exactly the keys of the command line and of the rule for the
path access to the file. -/
theorem C51_recipients {E : Env} (he : EnvLaws E) (hc : ∀ i, Calendar (E.clock i)) {O : DocOps} (hO : DocLaws O)
    {T : (x : Fmt) → TextOps x.doc} {x : Fmt} {path s s' : Str} {P : Proc} {l : EncryptLine} {i : Nat}
    (hr : Ran E O T x path P (.encrypt l) i s s') {map : x.doc.F.Map} {m : RMap Value} (hp : (T x).parse s = some map)
    (hm : x.doc.F.toInternal map = .ok m) (hkeep : Keepable E.fl x m) (hb : ReadBack E.C x (T x) m s') :
    ∃ (config : Config) (f : EncFile x.doc.F), P.retrieveConfig l.input.config = .ok config ∧
      EncFile.ofText (T x) O E.C s' = some f ∧
      (∀ id, id ∈ keyIds f.metadata.integration .age ↔
        id ∈ l.keys.age ∨ ∃ r, ruleFor E.rx config (some path) = some r ∧ id ∈ r.keys.age) ∧
      (∀ id, id ∈ keyIds f.metadata.integration .kms ↔
        id ∈ l.keys.kms ∨ ∃ r, ruleFor E.rx config (some path) = some r ∧ id ∈ r.keys.kms) := by
  obtain ⟨⟨host, hE⟩, h2, h3⟩ := hr.program
  have hrun := hr.own
  subst h2 h3
  obtain ⟨config, f, m', hc1, hg, ka, kk⟩ := good_encrypted (by rw [hE]; exact he.withHost host) (by rw [hE]; exact hc) hO
    hrun hp hm (by rw [hE]; exact hkeep) (by rw [hE]; exact hb)
  have hrx : P.env.rx = E.rx := by rw [hE]; rfl
  rw [hrx] at ka kk
  refine ⟨config, f, hc1, by have := hg.text; rw [hE] at this; exact this, fun id => ?_, fun id => ?_⟩
  · rw [ka, mem_addIds, List.mem_append]
    cases ruleFor E.rx config (some path) <;> simp [ruleKeys]
  · rw [kk, mem_addIds, List.mem_append]
    cases ruleFor E.rx config (some path) <;> simp [ruleKeys]

/-- **C51.** `rops keys add` gives the given keys access and takes it from no one. -/
theorem C51_keys_added {E : Env} (he : EnvLaws E) (hc : ∀ i, Calendar (E.clock i)) {O : DocOps} (hO : DocLaws O)
    {T : (x : Fmt) → TextOps x.doc} {x : Fmt} {path s s' : Str} {m : RMap Value} (h : Kept E O T x path s m)
    {P : Proc} {a : KeyArgs} {i : Nat} (hr : Ran E O T x path P (.addKeys a) i s s') (hb : ReadBack E.C x (T x) m s') :
    ∃ f f' : EncFile x.doc.F, EncFile.ofText (T x) O E.C s = some f ∧ EncFile.ofText (T x) O E.C s' = some f' ∧
      (∀ id, id ∈ keyIds f'.metadata.integration .age ↔ id ∈ keyIds f.metadata.integration .age ∨ id ∈ a.keys.age) ∧
      (∀ id, id ∈ keyIds f'.metadata.integration .kms ↔ id ∈ keyIds f.metadata.integration .kms ∨ id ∈ a.keys.kms) := by
  obtain ⟨f, key, m', hg⟩ := h.good he hc hO
  obtain ⟨⟨host, hE⟩, h2, h3⟩ := hr.program
  have hrun := hr.own
  subst h2 h3
  obtain ⟨f', hg', ka, kk⟩ := good_keysAdded (by rw [hE]; exact he.withHost host) (by rw [hE]; exact hc) hO hrun
    (by rw [hE]; exact hg.withHost host) (by rw [hE]; exact hb)
  exact ⟨f, f', hg.text, by have := hg'.text; rw [hE] at this; exact this, fun id => by rw [ka, mem_addIds],
    fun id => by rw [kk, mem_addIds]⟩

/-- **C51.** `rops keys remove` takes access from exactly the given keys; if one of them had access
the file has a new data key. The date of the last modification stays. -/
theorem C51_keys_removed {E : Env} (he : EnvLaws E) (hc : ∀ i, Calendar (E.clock i)) {O : DocOps} (hO : DocLaws O)
    {T : (x : Fmt) → TextOps x.doc} {x : Fmt} {path s s' : Str} {m : RMap Value} (h : Kept E O T x path s m)
    {P : Proc} {a : KeyArgs} {i : Nat} (hr : Ran E O T x path P (.removeKeys a) i s s') (hb : ReadBack E.C x (T x) m s') :
    ∃ (f f' : EncFile x.doc.F), EncFile.ofText (T x) O E.C s = some f ∧ EncFile.ofText (T x) O E.C s' = some f' ∧
      (∀ id, id ∈ keyIds f'.metadata.integration .age ↔ id ∈ keyIds f.metadata.integration .age ∧ id ∉ a.keys.age) ∧
      (∀ id, id ∈ keyIds f'.metadata.integration .kms ↔ id ∈ keyIds f.metadata.integration .kms ∧ id ∉ a.keys.kms) ∧
      ((∃ id ∈ a.keys.age, id ∈ keyIds f.metadata.integration .age) ∨
        (∃ id ∈ a.keys.kms, id ∈ keyIds f.metadata.integration .kms) →
        ∃ n, i ≤ n ∧ AllWrap E.A E.K f'.metadata.integration (E.newKey n)) ∧
      f'.metadata.lastModified = f.metadata.lastModified := by
  obtain ⟨f, key, m', hg⟩ := h.good he hc hO
  obtain ⟨⟨host, hE⟩, h2, h3⟩ := hr.program
  have hrun := hr.own
  subst h2 h3
  obtain ⟨f', key', m'', hg', ka, kk, hk, hlm⟩ := good_keysRemoved (by rw [hE]; exact he.withHost host) hO hrun
    (by rw [hE]; exact hg.withHost host) (by rw [hE]; exact hb)
  have hka : ∀ id, id ∈ keyIds f'.metadata.integration .age ↔ id ∈ keyIds f.metadata.integration .age ∧ id ∉ a.keys.age := by
    intro id; rw [ka, List.mem_filter, decide_eq_true_eq]
  have hkk : ∀ id, id ∈ keyIds f'.metadata.integration .kms ↔ id ∈ keyIds f.metadata.integration .kms ∧ id ∉ a.keys.kms := by
    intro id; rw [kk, List.mem_filter, decide_eq_true_eq]
  refine ⟨f, f', hg.text, by have := hg'.text; rw [hE] at this; exact this, hka, hkk, fun hrem => ?_, hlm⟩
  rcases hk with ⟨_, hi⟩ | ⟨n, hn, rfl⟩
  · exfalso
    rw [hi] at hka hkk
    rcases hrem with ⟨id, h1, h2⟩ | ⟨id, h1, h2⟩
    · exact ((hka id).1 h2).2 h1
    · exact ((hkk id).1 h2).2 h1
  · refine ⟨n, hn, ?_⟩
    have := hg'.holds.units
    rw [hE] at this
    exact this

theorem run_decrypt_error {P : Proc} {l : PlaceLine} {path : Str} {x : Fmt} {config : Config} {s : Str} {f : EncFile x.doc.F}
    {e : FileDecryptError} (hl : l.input.file = some path) (hx : getFormat (some path) l.input.format = .ok x)
    (hcf : P.retrieveConfig l.input.config = .ok config) (hs : InputText P (some path) s)
    (hf : EncFile.ofText (P.T x) P.O P.env.C s = some f) (he : f.decrypt x.doc.F P.env = .error e) (i : Nat) :
    P.run (.decrypt l) i = ([], .error (.decrypt e)) := by
  rw [run_decrypt, placeArgs_ok.2 ⟨by rw [hl]; simp, rfl⟩]
  simp only [hcf, Proc.decrypt, hl, hx, getInput_ok.2 ⟨hs, by simp⟩, Proc.decryptText, parseFile_ok.2 hf, he]

/-- **C51.** A process none of whose private keys belongs to a recipient of the file is refused, and
nothing is written or printed. -/
theorem C51_locked_out {E : Env} (he : EnvLaws E) (hc : ∀ i, Calendar (E.clock i)) {O : DocOps} (hO : DocLaws O)
    {T : (x : Fmt) → TextOps x.doc} {x : Fmt} {path s : Str} {m : RMap Value} (h : Kept E O T x path s m)
    {P : Proc} (hP : SameProgram E O T P) (hfile : P.file path = .data (utf8 s)) (hin : P.stdin = .terminal)
    {l : PlaceLine} (hl : l.input.file = some path) (hx : getFormat (some path) l.input.format = .ok x)
    {config : Config} (hcf : P.retrieveConfig l.input.config = .ok config)
    {f : EncFile x.doc.F} (hf : EncFile.ofText (T x) O E.C s = some f)
    {ks : List E.A.Identity} (hks : retrievePrivateKeys (Age.parsePrivateKey E.A) P.env.host c!"age" = .ok ks)
    {ps : List AwsPrivateKey} (hps : retrievePrivateKeys AwsPrivateKey.parse P.env.host c!"aws_kms" = .ok ps)
    (hage : ∀ k ∈ ks, E.A.toPublic k ∉ keyIds f.metadata.integration .age)
    (hkms : ∀ p ∈ ps, ∀ id ∈ keyIds f.metadata.integration .kms, p.profile ≠ id.profile) (i : Nat) :
    P.run (.decrypt l) i = ([], .error (.decrypt (.metadata (.retrieval .missingDataKey)))) := by
  obtain ⟨f', key, m', hg⟩ := h.good he hc hO
  rw [hg.text] at hf
  cases hf
  obtain ⟨⟨host, hE⟩, rfl, rfl⟩ := hP
  have hhost : P.env.host = host := by rw [hE]; rfl
  rw [hhost] at hks hps
  have hd := C23_locked_out (Fo := x.doc.F) hg.holds host ks hks ps hps hage hkms
  refine run_decrypt_error hl hx hcf (.inl ⟨path, utf8 s, rfl, hin, hfile, utf8?_utf8 s⟩) (by rw [hE]; exact hg.text) ?_ i
  rw [hE]; exact hd

/-- **C51.** After `rops keys remove` the owner of a removed key is refused, whatever other commands
the file went through before. -/
theorem C51_removed_locked_out {E : Env} (he : EnvLaws E) (hc : ∀ i, Calendar (E.clock i)) {O : DocOps} (hO : DocLaws O)
    {T : (x : Fmt) → TextOps x.doc} {x : Fmt} {path s s' : Str} {m : RMap Value} (h : Kept E O T x path s m)
    {P : Proc} {a : KeyArgs} {i : Nat} (hr : Ran E O T x path P (.removeKeys a) i s s') (hb : ReadBack E.C x (T x) m s')
    {P' : Proc} (hP : SameProgram E O T P') (hfile : P'.file path = .data (utf8 s')) (hin : P'.stdin = .terminal)
    {l : PlaceLine} (hl : l.input.file = some path) (hx : getFormat (some path) l.input.format = .ok x)
    {config : Config} (hcf : P'.retrieveConfig l.input.config = .ok config)
    {k : E.A.Identity} (hks : retrievePrivateKeys (Age.parsePrivateKey E.A) P'.env.host c!"age" = .ok [k])
    (hps : retrievePrivateKeys AwsPrivateKey.parse P'.env.host c!"aws_kms" = .ok [])
    (hk : E.A.toPublic k ∈ a.keys.age) (i' : Nat) :
    P'.run (.decrypt l) i' = ([], .error (.decrypt (.metadata (.retrieval .missingDataKey)))) := by
  obtain ⟨_, f', _, hf', hka, _⟩ := C51_keys_removed he hc hO h hr hb
  refine C51_locked_out he hc hO (.keysRemoved h hr hb) hP hfile hin hl hx hcf hf' hks hps (fun k' hk' => ?_)
    (fun p hp => nomatch hp) i'
  rw [List.mem_singleton] at hk'
  subst hk'
  exact fun hmem => ((hka _).1 hmem).2 hk

-- the example of a history: the owner of "k1" decrypts the file after "pk2" was removed, with its document
example : ∃ (s : Str) (map : Fmt.json.doc.F.Map) (es : List Event), (Toy.proc Toy.rule s []).run (.decrypt Toy.placeLine) 70 = (es, .ok ()) ∧
    Format.json.toInternal map = .ok Toy.smallMap := by
  obtain ⟨s, s1, s2, f, es, hk, hf, hids, hrun1, hr1, _, _⟩ := Toy.history
  obtain ⟨f0, f', hf0, hf', hka, _⟩ := C51_keys_removed Toy.env_laws Toy.env_clock Toy.docOps_laws hk hr1 (Toy.readBack _ _ _)
  have e : f0 = f := Option.some.inj (hf0.symm.trans hf)
  subst e
  have hid : c!"pk1" ∈ keyIds f'.metadata.integration .age := (hka _).2 ⟨by rw [hids]; decide, by decide⟩
  obtain ⟨map, es, h1, h2, _⟩ := C51_document_kept (x := .json) Toy.env_laws Toy.env_clock Toy.docOps_laws
    (.keysRemoved hk hr1 (Toy.readBack _ _ _)) (Toy.sameProgram Toy.rule s1 []) rfl rfl (l := Toy.placeLine) rfl
    (by decide +kernel) (Toy.proc_config _ _) (fun _ => rfl) (fun _ => rfl) hf' (ks := [c!"k1"]) rfl (k := c!"k1") (.head _) hid 70
  exact ⟨s1, map, es, h1, h2⟩

/-- The process of the owner of "k2", with the file. -/
def otherProc (s : Str) : Proc :=
  { Toy.proc Toy.rule s [] with env := Toy.env.withHost (Toy.host (.value c!"k2") .notPresent) }

-- ... and the owner of "k2" does not
example : ∃ s, (otherProc s).run (.decrypt Toy.placeLine) 70 = ([], .error (.decrypt (.metadata (.retrieval .missingDataKey)))) := by
  obtain ⟨s, s1, s2, f, es, hk, hf, hids, hrun1, hr1, _, _⟩ := Toy.history
  exact ⟨s1, C51_removed_locked_out (x := .json) Toy.env_laws Toy.env_clock Toy.docOps_laws hk hr1 (Toy.readBack _ _ _)
    (P' := otherProc s1) ⟨⟨_, rfl⟩, rfl, rfl⟩ rfl rfl (l := Toy.placeLine) rfl (by decide +kernel)
    (Toy.proc_config s1 []) (k := c!"k2") rfl rfl (by decide) 70⟩

/-! ## C52: commands at the same time -/

/-- What a successful command leaves at its target does not depend on what other commands wrote there
in the meantime: it overwrites it, or (a cancelled edit) does not touch it. -/
theorem C52_blind_write {P : Proc} {c : Command} {i : Nat} {es : List Event} (h : P.run c i = (es, .ok ()))
    {path : Str} (ht : target P c = some path) (hpath : P.temp ≠ some path) :
    (∃ b, ∀ fs : Files, filesAfter fs es path = .data b) ∨ (∀ fs : Files, filesAfter fs es path = fs path) := by
  have key : ∀ {b : Bool} {file : Option Str} {out : Str} {es1 es2 : List Event}, Delivered P b file out es2 → b = true →
      file = some path → ∀ fs : Files, filesAfter fs (es1 ++ es2) path = .data (utf8 out) := by
    rintro b file out es1 es2 (⟨_, p, hp, _, rfl⟩ | ⟨hf, _⟩) hb hfile fs
    · rw [hfile] at hp
      cases hp
      rw [filesAfter_append]
      simp [filesAfter, effect, Files.put]
    · rw [hb] at hf; cases hf
  unfold target at ht
  cases c with
  | encrypt l =>
    simp only at ht
    split at ht
    · rename_i hin
      obtain ⟨_, _, _, _, _, _, _, _, _, _, _, _, _, hd⟩ := run_encrypt_ok.1 h
      exact .inl ⟨_, key (es1 := []) hd hin ht⟩
    · cases ht
  | decrypt l =>
    simp only at ht
    split at ht
    · rename_i hin
      obtain ⟨_, _, _, _, _, _, _, _, _, _, hd⟩ := run_decrypt_ok.1 h
      exact .inl ⟨_, key (es1 := []) hd hin ht⟩
    · cases ht
  | refresh l =>
    simp only at ht
    split at ht
    · rename_i hin
      obtain ⟨_, _, _, _, _, _, _, _, _, _, _, hd⟩ := run_refresh_ok.1 h
      exact .inl ⟨_, key (es1 := []) hd hin ht⟩
    · cases ht
  | addKeys a =>
    obtain ⟨_, _, _, _, _, _, _, _, _, _, _, _, _, hd⟩ := run_addKeys_ok.1 h
    exact .inl ⟨_, key (es1 := []) hd rfl ht⟩
  | removeKeys a =>
    obtain ⟨_, _, _, _, _, _, _, _, _, _, _, _, _, _, _, _, _, _, hd⟩ := run_removeKeys_ok.1 h
    exact .inl ⟨_, key (es1 := []) hd rfl ht⟩
  | edit a =>
    obtain ⟨hfile, hterm⟩ := edit_target (a := a) ht
    obtain ⟨_, _, _, _, _, _, _, _, _, _, hses⟩ := run_edit_ok.1 h
    rcases hses with hses | ⟨_, _, _, _, _, _, rfl, hd⟩
    · right
      intro fs
      rcases editSession_shape hses with ⟨hb, _⟩ | ⟨_, he⟩
      · exact filesAfter_other fun e he hp => hpath ((hb.path e he).symm.trans hp)
      · cases he
    · rw [hterm] at hd
      exact .inl ⟨_, key hd rfl hfile⟩

/-- **C52.** Of two successful commands on a file that both read it before either wrote, the one that
writes last wins: the file is as if the other had never run. -/
theorem C52_last_writer_wins {P P' : Proc} {c : Command} {i : Nat} {es es' : List Event}
    (h : P'.run c i = (es', .ok ())) {path : Str} (ht : target P' c = some path) (hpath : P'.temp ≠ some path)
    (hw : filesAfter P'.file es' path ≠ P'.file path) :
    filesAfter (filesAfter P.file es) es' path = filesAfter P'.file es' path := by
  rcases C52_blind_write h ht hpath with ⟨b, hb⟩ | hb
  · rw [hb, hb]
  · exact absurd (hb _) hw

/-- **C52, a consequence.** An edit that was open while someone removed a key undoes the removal: the
owner of the removed key decrypts the file, with the secrets that were written after the removal. -/
theorem C52_removal_undone {E : Env} (he : EnvLaws E) (hc : ∀ i, Calendar (E.clock i)) {O : DocOps} (hO : DocLaws O)
    {T : (x : Fmt) → TextOps x.doc} {x : Fmt} {path s : Str} {m : RMap Value} (h : Kept E O T x path s m)
    -- the removal
    {P : Proc} {a : KeyArgs} {i : Nat} {es : List Event} (_ : P.run (.removeKeys a) i = (es, .ok ()))
    -- the edit, started with the same file
    {P' : Proc} {a' : InputArgs} {i' : Nat} {s' : Str} (hr' : Ran E O T x path P' (.edit a') i' s s') {other : x.doc.F.Map}
    {m' : RMap Value} (hed : Edited (T x).parse other P'.editor) (ho : x.doc.F.toInternal other = .ok m')
    (hkeep : Keepable E.fl x m') (hb : ReadBack E.C x (T x) m' s')
    -- the owner of a removed key
    {f : EncFile x.doc.F} (hf : EncFile.ofText (T x) O E.C s = some f) {k : E.A.Identity}
    (_ : E.A.toPublic k ∈ a.keys.age) (hid : E.A.toPublic k ∈ keyIds f.metadata.integration .age)
    {P'' : Proc} (hP : SameProgram E O T P'') {es' : List Event} (hes' : P'.run (.edit a') i' = (es', .ok ()))
    (hfile : P''.file path = filesAfter (filesAfter P.file es) es' path)
    (hin : P''.stdin = .terminal) {l : PlaceLine} (hl : l.input.file = some path)
    (hx : getFormat (some path) l.input.format = .ok x) {config : Config} (hcf : P''.retrieveConfig l.input.config = .ok config)
    (hsave : ∀ b, P''.saves path b = .done) (hout : l.inPlace = false → P''.stdout = none)
    (hks : retrievePrivateKeys (Age.parsePrivateKey E.A) P''.env.host c!"age" = .ok [k]) (i'' : Nat) :
    ∃ (map : x.doc.F.Map) (es'' : List Event), P''.run (.decrypt l) i'' = (es'', .ok ()) ∧ x.doc.F.toInternal map = .ok m' ∧
      x.doc.F.ofInternal m' = some map ∧ Delivered P'' l.inPlace (some path) ((T x).render map) es'' := by
  obtain ⟨f0, key, me, hg⟩ := h.good he hc hO
  rw [hg.text] at hf
  cases hf
  have hkept : Kept E O T x path s' m' := .edited h hr' hed ho hkeep hb
  have hedf : ∃ f' : EncFile x.doc.F, EncFile.ofText (T x) O E.C s' = some f' ∧
      f'.metadata.integration = f.metadata.integration := by
    obtain ⟨⟨host, hE⟩, h2, h3⟩ := hr'.program
    have hrun := hr'.own
    subst h2 h3
    obtain ⟨f', m'', hg', hi⟩ := good_edited (by rw [hE]; exact he.withHost host) (by rw [hE]; exact hc) hO hrun
      (by rw [hE]; exact hg.withHost host) hed ho (by rw [hE]; exact hkeep) (by rw [hE]; exact hb)
    exact ⟨f', by have := hg'.text; rw [hE] at this; exact this, hi⟩
  obtain ⟨f', hf', hi⟩ := hedf
  have hnt : P'.temp ≠ some path := by
    intro ht
    have := hr'.temp path ht
    rw [hr'.found] at this
    cases this
  have hfinal : P''.file path = .data (utf8 s') := by
    obtain ⟨es1, h1, h2⟩ := hr'.run
    rw [hes'] at h1
    cases h1
    obtain ⟨_, _, _, _, g, _, hx1, _, _, _, hses⟩ := run_edit_ok.1 hes'
    rcases C52_blind_write hes' hr'.target hnt with ⟨b, hb'⟩ | hb'
    · rw [hfile, hb', ← h2, hb']
    · exfalso
      obtain ⟨hfile', hterm⟩ := edit_target hr'.target
      have hx0 := hr'.format
      rw [hfile'] at hx1
      rw [show givenFormat (.edit a') = a'.format from rfl, hx1] at hx0
      cases hx0
      have hT := hr'.program.texts
      rw [← hT] at hed
      have hsnd := editSession_snd (map := g.map) (fun t => editLoop_edited (t := t) hed)
      rcases hses with hses | ⟨_, out, es1, es2, hses, _, rfl, hd⟩
      · rcases hsnd with he | ⟨e, he, _⟩
        · rw [hses] at he; simp at he
        · rw [hses] at he; simp at he
      · rw [hterm, hfile'] at hd
        have := hb' (fun _ => .missing)
        rw [filesAfter_append] at this
        rcases hd with ⟨_, p, hp, _, rfl⟩ | ⟨hf, _⟩
        · cases hp
          simp [filesAfter, effect, Files.put] at this
        · cases hf
  exact C51_document_kept he hc hO hkept hP hfinal hin hl hx hcf hsave hout hf' hks (List.mem_singleton.2 rfl)
    (by rw [hi]; exact hid) i''

-- with an edit that was open while "pk2" was removed, the owner of "k2" reads what was edited
example : ∃ (s : Str) (es es' es'' : List Event) (map : Fmt.json.doc.F.Map) (P : Proc),
    (Toy.proc Toy.rule s []).run (.removeKeys Toy.removeArgs) 50 = (es, .ok ()) ∧
    (Toy.proc Toy.rule s Toy.attempts).run (.edit Toy.input) 60 = (es', .ok ()) ∧
    P.file c!"a.json" = filesAfter (filesAfter (Toy.proc Toy.rule s []).file es) es' c!"a.json" ∧
    P.env.host = Toy.host (.value c!"k2") .notPresent ∧ P.run (.decrypt Toy.placeLine) 70 = (es'', .ok ()) ∧
    Format.json.toInternal map = .ok Toy.otherMap ∧ Delivered P true (some c!"a.json") (Toy.mapText map) es'' := by
  obtain ⟨s, s1, s2, f, es, hk, hf, hids, hrun1, hr1, hrun2, hr2⟩ := Toy.history
  let P : Proc := { otherProc s with
    file := fun p => if p = c!"a.json" then filesAfter (filesAfter (Toy.proc Toy.rule s []).file [.write c!"a.json" (utf8 s1) .done]) es p
      else (otherProc s).file p }
  obtain ⟨map, es'', h1, h2, h3⟩ := C52_removal_undone (x := .json) Toy.env_laws Toy.env_clock Toy.docOps_laws hk hrun1 hr2
    Toy.attempts_edited rfl Toy.other_keepable (Toy.readBack _ _ _) hf (k := c!"k2") (by decide) (by rw [hids]; decide)
    (P'' := P) ⟨⟨_, rfl⟩, rfl, rfl⟩ hrun2 rfl rfl (l := Toy.placeLine) rfl (by decide +kernel) (Toy.proc_config s []) (fun _ => rfl) (fun _ => rfl) rfl 70
  exact ⟨s, _, _, _, _, _, hrun1, hrun2, rfl, rfl, h1, h2, h3.2⟩

end Rops.Props
