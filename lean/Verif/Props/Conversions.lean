import Verif.Props.Edits
import Verif.Lemmas.Messages
/-!
# Conversion between formats

C69. A file can be decrypted to another format than its own and encrypted into yet another (the
parameters `Fo` in crates/lib/src/file/core.rs:103,113,131,142).
-/

namespace Rops.Spec

/-- Any number of conversions of a file, each by decryption to some format and encryption into some
format, with or without saved parameters, in a process of its own. The list has the formats that
were passed through. -/
inductive Conversions (env : Env) : {x y : Fmt} → List Fmt → EncFile x.doc.F → EncFile y.doc.F → Prop
  | none {x : Fmt} (f : EncFile x.doc.F) : Conversions env [] f f
  | plain {x y z w : Fmt} {l : List Fmt} {f : EncFile x.doc.F} {f1 : EncFile y.doc.F} {g : DecFile z.doc.F}
    {f2 : EncFile w.doc.F} {i j : Nat} (host : Host) : Conversions env l f f1 →
    f1.decrypt z.doc.F (env.withHost host) = .ok g → g.encrypt w.doc.F (env.withHost host) i = .ok (f2, j) →
    Conversions env (w :: z :: l) f f2
  | saved {x y z w : Fmt} {l : List Fmt} {f : EncFile x.doc.F} {f1 : EncFile y.doc.F} {g : DecFile z.doc.F}
    {p : SavedParameters} {f2 : EncFile w.doc.F} {i j : Nat} (host : Host) : Conversions env l f f1 →
    f1.decryptAndSave z.doc.F (env.withHost host) = .ok (g, p) →
    g.encryptSaved w.doc.F (env.withHost host) p i = .ok (f2, j) → Conversions env (w :: z :: l) f f2

mutual
/-- The second tree is the first with every text "null" replaced by null. -/
inductive NulledTree : Tree Value → Tree Value → Prop
  | null : NulledTree .null .null
  | text : NulledTree (.leaf (.string c!"null")) .null
  | leaf {v : Value} : v ≠ .string c!"null" → NulledTree (.leaf v) (.leaf v)
  | seq {l l' : List (Tree Value)} : NulledSeq l l' → NulledTree (.seq l) (.seq l')
  | map {m m' : RMap Value} : Nulled m m' → NulledTree (.map m) (.map m')
/-- The same for the elements of a sequence. -/
inductive NulledSeq : List (Tree Value) → List (Tree Value) → Prop
  | nil : NulledSeq [] []
  | cons {t t' : Tree Value} {l l' : List (Tree Value)} : NulledTree t t' → NulledSeq l l' → NulledSeq (t :: l) (t' :: l')
/-- The same for maps. -/
inductive Nulled : RMap Value → RMap Value → Prop
  | nil : Nulled [] []
  | cons {k : Str} {t t' : Tree Value} {m m' : RMap Value} : NulledTree t t' → Nulled m m' →
    Nulled ((k, t) :: m) ((k, t') :: m')
end

end Rops.Spec

namespace Rops.Props
open Rops Spec

/-! ## What can be held -/

theorem conversions_holding {env : Env} (he : EnvLaws env) {x y : Fmt} {l : List Fmt} {f : EncFile x.doc.F}
    {f' : EncFile y.doc.F} (c : Conversions env l f f') {key : Bytes} {m : RMap Value} {m' : RMap EncLeaf}
    (h : Holding env (docRep x) f key m m') (hl : ∀ z ∈ l, Holds (docRep z) m) :
    (∃ m'', Holding env (docRep y) f' key m m'') ∧ f'.metadata = decMetadata f.metadata f'.metadata.mac := by
  induction c with
  | none f => exact ⟨⟨m', h⟩, rfl⟩
  | @plain y z w l f f1 g f2 i j host c hd he2 ih =>
    obtain ⟨⟨m1, h1⟩, hmd1⟩ := ih h fun z hz => hl z (.tail _ (.tail _ hz))
    have hz := hl z (.tail _ (.head _))
    have hw := hl w (.head _)
    obtain ⟨hr, hg, hmd⟩ := of_decrypt_holding (he.withHost host) (docRep_lawful z) (h1.withHost host) hz hd
    have e1 : g.metadata.partialEncryption = f1.metadata.partialEncryption := by rw [hmd]; rfl
    have e2 : g.metadata.integration = f1.metadata.integration := by rw [hmd]; rfl
    unfold DecFile.encrypt at he2
    split at he2
    · cases he2
    · rename_i d hr'
      have hr' : (env.withHost host).retrieveDataKey f1.metadata = .ok d := by rw [hmd] at hr'; exact hr'
      rw [hr] at hr'
      cases hr'
      obtain ⟨m2, _, h2, hmd2, _⟩ := holding_of_encryptWith (he.withHost host) (docRep_lawful w) hg
        (by rw [e1]; exact ⟨h1.fits.canonical, hw, h1.fits.keys⟩) h1.key_length (by rw [e2]; exact h1.units)
        (by rw [e2]; exact h1.ids) (fun _ h => by cases h) (fun _ h => by cases h) he2
      refine ⟨⟨m2, h2.ofHost⟩, ?_⟩
      rw [hmd2, hmd, hmd1]
      rfl
  | @saved y z w l f f1 g p f2 i j host c hd he2 ih =>
    obtain ⟨⟨m1, h1⟩, hmd1⟩ := ih h fun z hz => hl z (.tail _ (.tail _ hz))
    have hz := hl z (.tail _ (.head _))
    have hw := hl w (.head _)
    obtain ⟨hr, hg, hmd, rfl⟩ := of_decryptAndSave_holding (he.withHost host) (docRep_lawful z) (h1.withHost host) hz hd
    have e1 : g.metadata.partialEncryption = f1.metadata.partialEncryption := by rw [hmd]; rfl
    have e2 : g.metadata.integration = f1.metadata.integration := by rw [hmd]; rfl
    obtain ⟨m2, _, h2, hmd2, _⟩ := holding_of_encryptWith (he.withHost host) (docRep_lawful w) hg
      (by rw [e1]; exact ⟨h1.fits.canonical, hw, h1.fits.keys⟩) h1.key_length (by rw [e2]; exact h1.units)
      (by rw [e2]; exact h1.ids) (sealed_saved_sized h1.sealed)
      (fun s hs => by cases hs; exact h1.mac_sized.1) he2
    refine ⟨⟨m2, h2.ofHost⟩, ?_⟩
    rw [hmd2, hmd, hmd1]
    rfl

/-- **C69.** Whatever formats a file is converted through, as long as each of them can hold its values: it has
the same recipients with the same encrypted data keys, the same settings and date, and whoever finds a data key
in it decrypts it, to any format that can hold the values, to the map of the file converted first. -/
theorem C69_same_document {env : Env} (he : EnvLaws env) {x y : Fmt} {l : List Fmt} {f : EncFile x.doc.F}
    {f' : EncFile y.doc.F} (c : Conversions env l f f') {key : Bytes} {m : RMap Value} {m' : RMap EncLeaf}
    (h : Holding env (docRep x) f key m m') (hl : ∀ z ∈ l, Holds (docRep z) m) :
    f'.metadata.integration = f.metadata.integration ∧ f'.metadata.lastModified = f.metadata.lastModified ∧
    f'.metadata.partialEncryption = f.metadata.partialEncryption ∧
    f'.metadata.macOnlyEncrypted = f.metadata.macOnlyEncrypted ∧
    ∀ (z : Fmt) (host : Host) (d : Bytes), Holds (docRep z) m → (env.withHost host).retrieveDataKey f'.metadata = .ok d →
      ∃ g, f'.decrypt z.doc.F (env.withHost host) = .ok g ∧ z.doc.F.toInternal g.map = .ok m := by
  obtain ⟨⟨m2, h2⟩, hmd⟩ := conversions_holding he c h hl
  refine ⟨by rw [hmd]; rfl, by rw [hmd]; rfl, by rw [hmd]; rfl, by rw [hmd]; rfl, fun z host d hz hr => ?_⟩
  obtain ⟨g, h3, h4, _⟩ := decrypt_of_holding (he.withHost host) (docRep_lawful z) (h2.withHost host) hz hr
  exact ⟨g, h3, h4.read⟩

/-- **C69.** And the next conversion succeeds, if the cipher does not fail and the process finds the data key. -/
theorem C69_succeeds {env : Env} (he : EnvLaws env) (hC : env.C.Total) {x y : Fmt} {l : List Fmt} {f : EncFile x.doc.F}
    {f' : EncFile y.doc.F} (c : Conversions env l f f') {key : Bytes} {m : RMap Value} {m' : RMap EncLeaf}
    (h : Holding env (docRep x) f key m m') (hl : ∀ z ∈ l, Holds (docRep z) m) (z w : Fmt) (hz : Holds (docRep z) m)
    (hw : Holds (docRep w) m) (host : Host) (d : Bytes) (hr : (env.withHost host).retrieveDataKey f.metadata = .ok d)
    (i : Nat) : ∃ f2 : EncFile w.doc.F, Conversions env (w :: z :: l) f f2 := by
  obtain ⟨⟨m2, h2⟩, hmd⟩ := conversions_holding he c h hl
  have hr' : (env.withHost host).retrieveDataKey f'.metadata = .ok d := by rw [hmd]; exact hr
  obtain ⟨g, h3, h4, h5, _⟩ := decrypt_of_holding (he.withHost host) (docRep_lawful z) (h2.withHost host) hz hr'
  have e1 : g.metadata.partialEncryption = f'.metadata.partialEncryption := by rw [h5]; rfl
  obtain ⟨f2, j, h6⟩ := encryptWith_total (key := d) (sm := none) (sc := none) (he.withHost host) hC (docRep_lawful w) h4.read
    (by rw [e1]; exact ⟨h2.fits.canonical, hw, h2.fits.keys⟩) (fun _ h => by cases h) i
  refine ⟨f2, .plain (g := g) (i := i) (j := j) host c h3 ?_⟩
  unfold DecFile.encrypt
  rw [h5, show (env.withHost host).retrieveDataKey (decMetadata f'.metadata g.metadata.mac) = .ok d from hr']
  exact h6

/-! ## What cannot be held -/

/-- **C69.** Decryption to JSON of a file that can be decrypted panics exactly if it has a float that is
infinite or no number; otherwise it succeeds. -/
theorem C69_json {env : Env} (he : EnvLaws env) {x : Fmt} {f : EncFile x.doc.F} {key : Bytes} {m : RMap Value}
    {m' : RMap EncLeaf} (h : Holding env (docRep x) f key m m') {d : Bytes} (hr : env.retrieveDataKey f.metadata = .ok d) :
    (f.decrypt Format.json env = .error .panic ↔ ∃ p t, (p, Value.float t) ∈ leaves m ∧ (t = c!"inf" ∨ t = c!"-inf" ∨ t = c!"NaN")) ∧
    ((∃ g, f.decrypt Format.json env = .ok g) ↔
      ∀ p t, (p, Value.float t) ∈ leaves m → t ≠ c!"inf" ∧ t ≠ c!"-inf" ∧ t ≠ c!"NaN") := by
  have hiff : Holds jsonRep m ↔ ∀ p t, (p, Value.float t) ∈ leaves m → t ≠ c!"inf" ∧ t ≠ c!"-inf" ∧ t ≠ c!"NaN" := by
    constructor
    · intro hm p t ht
      exact hm _ ht
    · rintro hm ⟨p, v⟩ hv
      cases v with
      | float t => exact hm p t hv
      | _ => trivial
  by_cases hm : Holds jsonRep m
  · obtain ⟨g, h1, _⟩ := decrypt_of_holding he (docRep_lawful .json) h hm hr
    have h1 : f.decrypt Format.json env = .ok g := h1
    rw [h1]
    refine ⟨⟨(fun h => by cases h), ?_⟩, ⟨fun _ => hiff.1 hm, fun _ => ⟨g, rfl⟩⟩⟩
    rintro ⟨p, t, ht, hc⟩
    obtain ⟨a, b, c⟩ := hiff.1 hm p t ht
    rcases hc with hc | hc | hc <;> contradiction
  · have hp : f.decrypt Format.json env = .error .panic := by
      have hk := retrieve_of_allWrap he h.key_length h.units hr
      subst hk
      have hd : RMap.decrypt (env.decEnv d) m' = .ok m := decrypt_of_sealed he.cipher h.fits.canonical h.sealed
      have hmac := he.cipher.decrypt_encrypt h.mac
      rw [← Env.macOf_eq he.hasher f.metadata m] at hmac
      exact decrypt_error_iff.2 (.inr ⟨d, _, hr, hmac, .inr ⟨m', h.read, .inr ⟨m, hd, .inr ⟨rfl, (C28_json_panics m).2 hm, rfl⟩⟩⟩⟩)
    rw [hp]
    refine ⟨⟨fun _ => ?_, fun _ => rfl⟩, ⟨(fun ⟨g, h⟩ => by cases h), fun h => absurd (hiff.2 h) hm⟩⟩
    refine Classical.byContradiction fun hc => hm (hiff.2 fun p t ht => ⟨?_, ?_, ?_⟩) <;>
      (rintro rfl; exact hc ⟨p, _, ht, by simp⟩)

mutual
theorem toTree_ofTree : ∀ t : Tree Value, ∃ t', Toml.toTree (Toml.ofTree Toml.ofValue t) = .ok t' ∧ NulledTree t t'
  | .null => ⟨.null, by simp [Toml.ofTree, Toml.toTree], .null⟩
  | .leaf v => by
    cases v with
    | string s =>
      by_cases hs : s = tomlNull
      · subst hs
        exact ⟨.null, by simp [Toml.ofTree, Toml.ofValue, Toml.toTree], .text⟩
      · exact ⟨.leaf (.string s), by simp [Toml.ofTree, Toml.ofValue, Toml.toTree, hs],
          .leaf (fun h => hs (Value.string.inj h))⟩
    | boolean b => exact ⟨_, rfl, .leaf (fun h => by cases h)⟩
    | integer i => exact ⟨_, rfl, .leaf (fun h => by cases h)⟩
    | float s => exact ⟨_, rfl, .leaf (fun h => by cases h)⟩
  | .seq l => by
    obtain ⟨l', h1, h2⟩ := toSeq_ofSeq l
    exact ⟨.seq l', by simp [Toml.ofTree, Toml.toTree, h1], .seq h2⟩
  | .map m => by
    obtain ⟨m', h1, h2⟩ := toMap_ofMap m
    exact ⟨.map m', by simp [Toml.ofTree, Toml.toTree, h1], .map h2⟩
theorem toSeq_ofSeq : ∀ l : List (Tree Value), ∃ l', Toml.toSeq (Toml.ofSeq Toml.ofValue l) = .ok l' ∧ NulledSeq l l'
  | [] => ⟨[], rfl, .nil⟩
  | t :: r => by
    obtain ⟨t', h1, h2⟩ := toTree_ofTree t
    obtain ⟨r', h3, h4⟩ := toSeq_ofSeq r
    exact ⟨t' :: r', by simp [Toml.ofSeq, Toml.toSeq, h1, h3], .cons h2 h4⟩
theorem toMap_ofMap : ∀ m : RMap Value, ∃ m', Toml.toMap (Toml.ofMap Toml.ofValue m) = .ok m' ∧ Nulled m m'
  | [] => ⟨[], rfl, .nil⟩
  | (k, t) :: r => by
    obtain ⟨t', h1, h2⟩ := toTree_ofTree t
    obtain ⟨r', h3, h4⟩ := toMap_ofMap r
    exact ⟨(k, t') :: r', by simp [Toml.ofMap, Toml.toMap, h1, h3], .cons h2 h4⟩
end

/-- The leaves that stay. -/
def stays (pv : List Str × Value) : Bool := pv.2 != .string c!"null"

mutual
theorem leavesAt_nulled : ∀ {t t' : Tree Value}, NulledTree t t' → ∀ p, leavesAt p t' = (leavesAt p t).filter stays
  | _, _, .null, _ => rfl
  | _, _, .text, _ => rfl
  | _, _, .leaf (v := v) h, p => by
    have : stays (p, v) = true := by simp [stays, h]
    simp [leavesAt, this]
  | _, _, .seq h, p => by rw [leavesAt, leavesAt]; exact leavesSeq_nulled h p
  | _, _, .map h, p => by rw [leavesAt, leavesAt]; exact leavesMap_nulled h p
theorem leavesSeq_nulled : ∀ {l l' : List (Tree Value)}, NulledSeq l l' → ∀ p, leavesSeq p l' = (leavesSeq p l).filter stays
  | _, _, .nil, _ => rfl
  | _, _, .cons h1 h2, p => by
    rw [leavesSeq, leavesSeq, List.filter_append, leavesAt_nulled h1, leavesSeq_nulled h2]
theorem leavesMap_nulled : ∀ {m m' : RMap Value}, Nulled m m' → ∀ p, leavesMap p m' = (leavesMap p m).filter stays
  | _, _, .nil, _ => rfl
  | _, _, .cons h1 h2, p => by
    rw [leavesMap, leavesMap, List.filter_append, leavesAt_nulled h1, leavesMap_nulled h2]
end

theorem leaves_nulled {m m0 : RMap Value} (h : Nulled m m0) : leaves m0 = (leaves m).filter stays :=
  leavesMap_nulled h []

theorem fits_nulled {fl : FloatOps} {rep rep' : Value → Prop} {cfg : Option PartialEncryption} {m m0 : RMap Value}
    (h : Nulled m m0) (hf : Fits fl rep cfg m) (hr : Holds rep' m0) : Fits fl rep' cfg m0 := by
  have hsub : ∀ pv ∈ leaves m0, pv ∈ leaves m := fun pv hpv => by
    rw [leaves_nulled h] at hpv
    exact (List.mem_filter.1 hpv).1
  refine ⟨fun pv hpv => hf.canonical pv (hsub pv hpv), hr, fun hc => ?_⟩
  rcases hf.keys hc with h1 | h1
  · exact .inl fun pv hpv => h1 pv (hsub pv hpv)
  · exact .inr h1

/-- **C69.** Decryption to TOML always succeeds, but every text "null" becomes null in what is read of the
result. -/
theorem C69_toml {env : Env} (he : EnvLaws env) {x : Fmt} {f : EncFile x.doc.F} {key : Bytes} {m : RMap Value}
    {m' : RMap EncLeaf} (h : Holding env (docRep x) f key m m') {d : Bytes} (hr : env.retrieveDataKey f.metadata = .ok d) :
    ∃ (g : DecFile Format.toml) (m0 : RMap Value), f.decrypt Format.toml env = .ok g ∧
      Format.toml.toInternal g.map = .ok m0 ∧ Nulled m m0 ∧
      g.metadata = decMetadata f.metadata (macText env.H env.rx f.metadata.partialEncryption f.metadata.macOnlyEncrypted m) := by
  have hk := retrieve_of_allWrap he h.key_length h.units hr
  subst hk
  have hd : RMap.decrypt (env.decEnv d) m' = .ok m := decrypt_of_sealed he.cipher h.fits.canonical h.sealed
  have hmac := he.cipher.decrypt_encrypt h.mac
  rw [← Env.macOf_eq he.hasher f.metadata m] at hmac
  obtain ⟨m0, h1, h2⟩ := toMap_ofMap m
  refine ⟨⟨Toml.ofMap Toml.ofValue m, decMetadata f.metadata (env.macOf f.metadata m)⟩, m0,
    decrypt_ok_iff.2 ⟨d, m', m, hr, h.read, hd, hmac, rfl, rfl⟩, h1, h2, ?_⟩
  rw [Env.macOf_eq he.hasher]

theorem coveredBytes_stays (rx : RegexMatch) (cfg : Option PartialEncryption) (only : Bool) (l : List (List Str × Value)) :
    (coveredBytes rx cfg only (l.filter stays)).length ≤ (coveredBytes rx cfg only l).length ∧
    ((∃ p, (p, Value.string c!"null") ∈ l ∧ ¬ (only = true ∧ Plain rx cfg p)) →
      (coveredBytes rx cfg only (l.filter stays)).length < (coveredBytes rx cfg only l).length) ∧
    ((∀ p, (p, Value.string c!"null") ∈ l → only = true ∧ Plain rx cfg p) →
      coveredBytes rx cfg only (l.filter stays) = coveredBytes rx cfg only l) := by
  induction l with
  | nil => exact ⟨Nat.le_refl _, fun ⟨_, h, _⟩ => by (cases h), fun _ => rfl⟩
  | cons x r ih =>
    obtain ⟨p, v⟩ := x
    obtain ⟨ih1, ih2, ih3⟩ := ih
    by_cases hv : v = .string c!"null"
    · subst hv
      rw [List.filter_cons_of_neg (by simp [stays]), coveredBytes_cons]
      refine ⟨by rw [List.length_append]; omega, ?_, ?_⟩
      · rintro ⟨q, hq, hn⟩
        rw [List.length_append]
        rcases List.mem_cons.1 hq with hq | hq
        · cases hq
          rw [if_neg hn]
          have : (plainBytes (.string c!"null")).length = 4 := rfl
          omega
        · have := ih2 ⟨q, hq, hn⟩
          omega
      · intro hall
        rw [if_pos (hall p (.head _)), List.nil_append]
        exact ih3 fun q hq => hall q (.tail _ hq)
    · rw [List.filter_cons_of_pos (by simp [stays, hv]), coveredBytes_cons, coveredBytes_cons]
      simp only [List.length_append]
      refine ⟨by omega, ?_, ?_⟩
      · rintro ⟨q, hq, hn⟩
        rcases List.mem_cons.1 hq with hq | hq
        · cases hq; exact absurd rfl hv
        · have := ih2 ⟨q, hq, hn⟩
          omega
      · intro hall
        rw [ih3 fun q hq => hall q (.tail _ hq)]

/-- **C69.** What becomes of a file that passes through TOML: it is encrypted again without an error, with the
nulls but with the MAC of the texts. If the MAC covers a text "null" nobody can decrypt it any more (up to
collisions of the hash function). If it covers none (with `mac_only_encrypted`, these being stored in
plaintext) the texts are nulls from then on. -/
theorem C69_through_toml {env : Env} (he : EnvLaws env) {x w : Fmt} {f : EncFile x.doc.F} {key : Bytes} {m : RMap Value}
    {m' : RMap EncLeaf} (h : Holding env (docRep x) f key m m') (hw : Holds (docRep w) m ∨ w = .toml) {host : Host}
    {g : DecFile Format.toml} (hg : f.decrypt Format.toml (env.withHost host) = .ok g) {i j : Nat} {f' : EncFile w.doc.F}
    (hf' : g.encrypt w.doc.F (env.withHost host) i = .ok (f', j)) :
    ((∃ p, (p, Value.string c!"null") ∈ leaves m ∧
        ¬ (f.metadata.macOnlyEncrypted = some true ∧ Plain env.rx f.metadata.partialEncryption p)) →
      (∀ (Fo : Format) (host' : Host) (g' : DecFile Fo), f'.decrypt Fo (env.withHost host') ≠ .ok g') ∨
        ∃ a b, Collide env.H a b) ∧
    ((∀ p, (p, Value.string c!"null") ∈ leaves m →
        f.metadata.macOnlyEncrypted = some true ∧ Plain env.rx f.metadata.partialEncryption p) →
      ∃ m0, Nulled m m0 ∧ ∀ (z : Fmt) (host' : Host) (d : Bytes), Holds (docRep z) m0 →
        (env.withHost host').retrieveDataKey f'.metadata = .ok d →
        ∃ g', f'.decrypt z.doc.F (env.withHost host') = .ok g' ∧ z.doc.F.toInternal g'.map = .ok m0) := by
  obtain ⟨d, _, _, hr, _⟩ := decrypt_ok_iff.1 hg
  have hk := retrieve_of_allWrap (he.withHost host) h.key_length h.units hr
  subst hk
  obtain ⟨g1, m0, hg1, hm0, hn, hmd⟩ := C69_toml (he.withHost host) (h.withHost host) hr
  rw [hg] at hg1
  cases hg1
  have hrep : Holds (docRep w) m0 := by
    intro pv hpv
    rw [leaves_nulled hn] at hpv
    obtain ⟨h1, h2⟩ := List.mem_filter.1 hpv
    rcases hw with hw | rfl
    · exact hw pv h1
    · exact fun hc => by simp [stays, hc] at h2
  have hfit := fits_nulled hn h.fits hrep
  have hl := leaves_nulled hn
  unfold DecFile.encrypt at hf'
  rw [hmd, show (env.withHost host).retrieveDataKey (decMetadata f.metadata
    (macText (env.withHost host).H (env.withHost host).rx f.metadata.partialEncryption f.metadata.macOnlyEncrypted m)) =
      .ok d from hr] at hf'
  simp only at hf'
  obtain ⟨m1, m2', i1, k1, k2, k3, k4, k5⟩ := encryptWith_ok_iff.1 hf'
  rw [hm0] at k1
  cases k1
  have e1 : g.metadata.partialEncryption = f.metadata.partialEncryption := by rw [hmd]; rfl
  have hs := sealed_of_encrypt (env := (env.withHost host).encEnv d none) he.cipher he.nonce_length (fun _ h => by cases h)
    (by rw [e1]; exact hfit.keys) k2
  obtain ⟨y, hy1, hy2⟩ := (docRep_lawful w).enc_round_trip env.C he.cipher.name_no_comma env.rx _ m2'
    (encHolds_of_sealed hrep hs)
  have k5 : w.doc.F.encOfInternal env.C m2' = some f'.map := k5
  rw [hy1] at k5
  have hy : y = f'.map := Option.some.inj k5
  subst hy
  have hfm : f'.metadata = decMetadata f.metadata f'.metadata.mac := by rw [k4, hmd]; rfl
  have hmm : g.metadata.mac = macText env.H env.rx f.metadata.partialEncryption f.metadata.macOnlyEncrypted m := by
    rw [hmd]; rfl
  have hsealed : env.C.encrypt f'.metadata.mac.nonce d
      (macText env.H env.rx f.metadata.partialEncryption f.metadata.macOnlyEncrypted m)
      f'.metadata.lastModified.toBytes = some (f'.metadata.mac.data, f'.metadata.mac.tag) := by
    rw [hmm] at k3
    have e3 : g.metadata.lastModified = f'.metadata.lastModified := by rw [hfm, hmd]; rfl
    rw [e3] at k3
    unfold Mac.encrypt at k3
    simp only at k3
    split at k3
    · rename_i data tag hc
      simp only [Except.ok.injEq, Prod.mk.injEq] at k3
      rw [← k3.1]
      exact hc
    · cases k3
  have hdm := he.cipher.decrypt_encrypt hsealed
  have hread : w.doc.F.encToInternal env.C env.rx (Resolved.ofConfig f'.metadata.partialEncryption) f'.map = .ok m2' := by
    rw [hfm]; rw [e1] at hy2; exact hy2
  have hdec : RMap.decrypt (env.decEnv d) m2' = .ok m0 := decrypt_of_sealed he.cipher hfit.canonical hs
  have honly : ∀ P : Prop, (f.metadata.macOnlyEncrypted = some true ∧ P) ↔ (f.metadata.macOnlyEncrypted.getD false = true ∧ P) := by
    intro P
    cases f.metadata.macOnlyEncrypted <;> simp
  have hcov := coveredBytes_stays env.rx f.metadata.partialEncryption (f.metadata.macOnlyEncrypted.getD false) (leaves m)
  have hmo : ∀ md0 : RMap Value, env.macOf f'.metadata md0 =
      macText env.H env.rx f.metadata.partialEncryption f.metadata.macOnlyEncrypted md0 := by
    intro md0
    rw [Env.macOf_eq he.hasher, hfm]; rfl
  have hunits : AllWrap env.A env.K f'.metadata.integration d := by rw [hfm]; exact h.units
  constructor
  · rintro ⟨p, hp, hnp⟩
    by_cases hcol : ∃ a b, Collide env.H a b
    · exact .inr hcol
    refine .inl fun Fo host' g' hg' => hcol ?_
    obtain ⟨d', m3', m3, q1, q2, q3, q4, _⟩ := decrypt_ok_iff.1 hg'
    have := retrieve_of_allWrap (he.withHost host') h.key_length (show AllWrap (env.withHost host').A (env.withHost host').K _ d from hunits) q1
    subst this
    have q2 : w.doc.F.encToInternal env.C env.rx (Resolved.ofConfig f'.metadata.partialEncryption) f'.map = .ok m3' := q2
    rw [hread] at q2
    cases q2
    have q3 : RMap.decrypt (env.decEnv d') m2' = .ok m3 := q3
    rw [hdec] at q3
    cases q3
    have q4 : env.C.decrypt f'.metadata.mac.nonce d' f'.metadata.mac.data f'.metadata.lastModified.toBytes f'.metadata.mac.tag
        = some (env.macOf f'.metadata m0) := q4
    rw [hdm, hmo] at q4
    have hdig := hex_injective (utf8_injective (Option.some.inj q4))
    refine ⟨_, _, ?_, hdig⟩
    intro he'
    have hlen := congrArg List.length he'
    rw [macInput_eq_covered, macInput_eq_covered, List.length_append, List.length_append, hl] at hlen
    have := hcov.2.1 ⟨p, hp, fun hc => hnp ((honly _).2 hc)⟩
    omega
  · intro hall
    refine ⟨m0, hn, fun z host' d' hz hr' => ?_⟩
    have := retrieve_of_allWrap (he.withHost host') h.key_length (show AllWrap (env.withHost host').A (env.withHost host').K _ d from hunits) hr'
    subst this
    obtain ⟨v, hv1, hv2⟩ := (docRep_lawful z).round_trip m0 hz
    refine ⟨⟨v, decMetadata f'.metadata (env.macOf f'.metadata m0)⟩,
      decrypt_ok_iff.2 ⟨d', m2', m0, hr', hread, hdec, ?_, hv1, rfl⟩, hv2⟩
    show env.C.decrypt f'.metadata.mac.nonce d' f'.metadata.mac.data f'.metadata.lastModified.toBytes f'.metadata.mac.tag
        = some (env.macOf f'.metadata m0)
    rw [hdm, hmo]
    unfold macText
    rw [macInput_eq_covered, macInput_eq_covered, hl, hcov.2.2 fun p hp => (honly _).1 (hall p hp)]

/-! ## Examples -/

theorem smallMap_holds (x : Fmt) : Holds (docRep x) Toy.smallMap := by
  have hl : leaves Toy.smallMap = [([c!"a"], Value.string c!"x"), ([c!"b_plain"], .boolean true)] := rfl
  intro pv h
  rw [hl] at h
  simp only [List.mem_cons, List.not_mem_nil, or_false] at h
  rcases h with rfl | rfl <;> cases x <;> first | trivial | (intro h; cases h)

-- from JSON through YAML into TOML, from there through JSON into YAML
example : ∃ (f : EncFile Fmt.json.doc.F) (f' : EncFile Fmt.yaml.doc.F) (g : DecFile Fmt.toml.doc.F),
    Conversions Toy.env [.yaml, .json, .toml, .yaml] f f' ∧ f'.decrypt Fmt.toml.doc.F Toy.env = .ok g ∧
    Fmt.toml.doc.F.toInternal g.map = .ok Toy.smallMap := by
  obtain ⟨f, _, m', _, _, _, hh, _, hr⟩ := Toy.encrypted []
  have hh : Holding Toy.env (docRep .json) f (Toy.env.newKey 0) Toy.smallMap m' := hh
  obtain ⟨f1, c1⟩ := C69_succeeds Toy.env_laws Toy.cipher_total (.none (x := .json) f) hh (fun _ h => by cases h) .yaml .toml
    (smallMap_holds _) (smallMap_holds _) Toy.env.host _ hr 50
  obtain ⟨f2, c2⟩ := C69_succeeds Toy.env_laws Toy.cipher_total c1 hh (fun z _ => smallMap_holds z) .json .yaml
    (smallMap_holds _) (smallMap_holds _) Toy.env.host _ hr 70
  obtain ⟨h1, h2, h3, h4, h5⟩ := C69_same_document Toy.env_laws c2 hh (fun z _ => smallMap_holds z)
  obtain ⟨g, h6, h7⟩ := h5 .toml Toy.env.host _ (smallMap_holds _) (by
    obtain ⟨_, hmd⟩ := conversions_holding Toy.env_laws c2 hh (fun z _ => smallMap_holds z)
    rw [hmd]
    exact hr)
  exact ⟨f, f2, g, c2, h6, h7⟩

/-- A document with the text "null". -/
def nullBuilder : Builder Format.json where
  map := [(c!"a", .leaf (.str c!"null")), (c!"b", .leaf (.str c!"x"))]
  partialEncryption := none
  macOnlyEncrypted := none
  ageKeyIds := [c!"pk1"]
  kmsKeyIds := []

/-- **C69.** A concrete case: a JSON file with a text "null", converted to TOML without any error, has an
invalid MAC and cannot be decrypted any more. -/
theorem C69_null_destroys : ∃ (f : EncFile Format.json) (g : DecFile Format.toml) (f' : EncFile Format.toml) (j j' : Nat)
    (a b : Str), nullBuilder.encrypt Toy.env 0 = .ok (f, j) ∧ f.decrypt Format.toml Toy.env = .ok g ∧
    g.encrypt Format.toml Toy.env j = .ok (f', j') ∧ f'.decrypt Format.toml Toy.env = .error (.macMismatch a b) := by
  have hc : (match nullBuilder.encrypt Toy.env 0 with
    | .error _ => false
    | .ok (f, j) => match f.decrypt Format.toml Toy.env with
      | .error _ => false
      | .ok g => match g.encrypt Format.toml Toy.env j with
        | .error _ => false
        | .ok (f', _) => match f'.decrypt Format.toml Toy.env with
          | .error (.macMismatch _ _) => true
          | _ => false) = true := by decide +kernel
  split at hc
  · cases hc
  rename_i f j h1
  split at hc
  · cases hc
  rename_i g h2
  split at hc
  · cases hc
  rename_i f' j' h3
  split at hc
  · rename_i a b h4
    exact ⟨f, g, f', j, j', a, b, h1, h2, h3, h4⟩
  · cases hc

end Rops.Props
