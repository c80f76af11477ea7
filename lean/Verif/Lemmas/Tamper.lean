import Verif.Lemmas.FileOps
import Verif.Lemmas.Dates
/-! Modified files: when they are accepted. -/

namespace Rops
open Spec

theorem DecryptsTo.unique {env : DecEnv} {ls : List (List Str × EncLeaf)} {vs ws : List (List Str × Value)}
    (h1 : DecryptsTo env ls vs) (h2 : DecryptsTo env ls ws) : vs = ws := by
  induction ls generalizing vs ws with
  | nil => rcases vs with _ | ⟨x, vs⟩ <;> rcases ws with _ | ⟨y, ws⟩ <;> first | rfl | exact h1.elim | exact h2.elim
  | cons x r ih =>
    obtain ⟨p, l⟩ := x
    rcases vs with _ | ⟨⟨q, v⟩, vs⟩
    · exact h1.elim
    rcases ws with _ | ⟨⟨q', w⟩, ws⟩
    · exact h2.elim
    obtain ⟨rfl, h3, h4⟩ := h1
    obtain ⟨rfl, h5, h6⟩ := h2
    rw [h3] at h5
    cases h5
    rw [ih h4 h6]

theorem decrypt_exists {env : DecEnv} {m' : RMap EncLeaf} {vs : List (List Str × Value)}
    (h : DecryptsTo env (leaves m') vs) :
    ∃ m, RMap.decrypt env m' = .ok m ∧ shapeMap m = shapeMap m' ∧ leaves m = vs := by
  have ht := (trav_dec_none (s' := none)).2 ⟨rfl, h⟩
  cases hd : decMap env [] m' none with
  | error e =>
    have := (dec_eq_trav env).2.2 m' [] none
    rw [show (pathText [] : Str) = [] from rfl, hd] at this
    have := travMap_error_iff.1 this.symm
    unfold leaves at ht
    rw [ht] at this
    cases this
  | ok x =>
    obtain ⟨m, s⟩ := x
    have hm : RMap.decrypt env m' = .ok m := by unfold RMap.decrypt; rw [hd]
    obtain ⟨h1, h2⟩ := RMap.decrypt_ok_iff.1 hm
    exact ⟨m, hm, h1, h2.unique h⟩

/-- The bytes of the covered leaves. -/
def coveredBytes (rx : RegexMatch) (cfg : Option PartialEncryption) (only : Bool) (vs : List (List Str × Value)) : Bytes :=
  (((vs.filter fun pv => ¬ (only = true ∧ Plain rx cfg pv.1)).map Prod.snd).flatMap plainBytes)

theorem macInput_eq_covered (rx : RegexMatch) (cfg : Option PartialEncryption) (only : Bool) (m : RMap Value) :
    macInput rx cfg only m = (if only then macPrefix else []) ++ coveredBytes rx cfg only (leaves m) := rfl

theorem coveredBytes_cons (rx : RegexMatch) (cfg : Option PartialEncryption) (only : Bool) (p : List Str) (v : Value)
    (r : List (List Str × Value)) : coveredBytes rx cfg only ((p, v) :: r) =
      (if only = true ∧ Plain rx cfg p then [] else plainBytes v) ++ coveredBytes rx cfg only r := by
  unfold coveredBytes
  by_cases h : only = true ∧ Plain rx cfg p
  · rw [if_pos h, List.filter_cons_of_neg (by simpa using h)]; rfl
  · rw [if_neg h, List.filter_cons_of_pos (by simp only [h, not_false_eq_true, decide_true])]; rfl

theorem coveredBytes_append (rx : RegexMatch) (cfg : Option PartialEncryption) (only : Bool)
    (a b : List (List Str × Value)) :
    coveredBytes rx cfg only (a ++ b) = coveredBytes rx cfg only a ++ coveredBytes rx cfg only b := by
  unfold coveredBytes
  rw [List.filter_append, List.map_append, List.flatMap_append]

/-- A file whose map is replaced by one that decrypts to leaves with the same covered bytes is
accepted. -/
theorem accepted {env : Env} (he : EnvLaws env) {F Fo : Format} {rep rep' : Value → Prop} (hF : Format.Lawful F rep)
    (hFo : Format.Lawful Fo rep') {f : EncFile F} {key : Bytes} {m : RMap Value} {m' : RMap EncLeaf}
    (h : Holding env rep f key m m') {d : Bytes} (hr : env.retrieveDataKey f.metadata = .ok d)
    {m2' : RMap EncLeaf} {vs : List (List Str × Value)}
    (hl : DecryptsTo { C := env.C, fl := env.fl, key } (leaves m2') vs)
    (henc : EncHolds env.C env.rx f.metadata.partialEncryption rep m2') (hrep : ∀ pv ∈ vs, rep' pv.2)
    (hmac : coveredBytes env.rx f.metadata.partialEncryption (f.metadata.macOnlyEncrypted.getD false) vs =
      coveredBytes env.rx f.metadata.partialEncryption (f.metadata.macOnlyEncrypted.getD false) (leaves m)) :
    ∃ x m2, ∃ g : DecFile Fo, F.encOfInternal env.C m2' = some x ∧ EncFile.decrypt Fo env { f with map := x } = .ok g ∧
      Fo.toInternal g.map = .ok m2 ∧ shapeMap m2 = shapeMap m2' ∧ leaves m2 = vs := by
  cases retrieve_of_allWrap he h.key_length h.units hr
  obtain ⟨x, hx1, hx2⟩ := hF.enc_round_trip env.C he.cipher.name_no_comma env.rx _ m2' henc
  obtain ⟨m2, hm2, hs, hlv⟩ := decrypt_exists hl
  obtain ⟨y, hy1, hy2⟩ := hFo.round_trip m2 (by unfold Holds; rw [hlv]; exact hrep)
  have hmi : macText env.H env.rx f.metadata.partialEncryption f.metadata.macOnlyEncrypted m =
      macText env.H env.rx f.metadata.partialEncryption f.metadata.macOnlyEncrypted m2 := by
    unfold macText
    rw [macInput_eq_covered, macInput_eq_covered, hlv, hmac]
  have hmac2 := he.cipher.decrypt_encrypt h.mac
  rw [hmi, ← Env.macOf_eq he.hasher f.metadata m2] at hmac2
  refine ⟨x, m2, { map := y, metadata := decMetadata f.metadata (env.macOf f.metadata m2) }, hx1, ?_, hy2, hs, hlv⟩
  exact decrypt_ok_iff.2 ⟨key, m2', m2, hr, hx2, hm2, hmac2, hy1, rfl⟩

theorem value_of_storedAs {C : Cipher} (hC : C.Lawful) {fl : FloatOps} {rx : RegexMatch} {key : Bytes}
    {cfg : Option PartialEncryption} {p q : List Str} {v : Value} {l : EncLeaf} (hv : v.Canonical fl)
    (h : StoredAs C rx key cfg (p, v) (q, l)) : q = p ∧ DecEnv.value { C, fl, key } p l = .ok v := by
  obtain ⟨h1, h2⟩ := h
  simp only at h1 h2
  refine ⟨h1, ?_⟩
  rcases h2 with ⟨_, rfl⟩ | ⟨_, e, rfl, he⟩
  · rfl
  · exact Value.decrypt_encrypt hC hv (seals_encrypt he)

theorem storedAs_decrypts {C : Cipher} (hC : C.Lawful) {fl : FloatOps} {rx : RegexMatch} {key : Bytes}
    {cfg : Option PartialEncryption} {vs : List (List Str × Value)} {ls : List (List Str × EncLeaf)}
    (hc : ∀ pv ∈ vs, pv.2.Canonical fl) (h : Zip (StoredAs C rx key cfg) vs ls) :
    DecryptsTo { C, fl, key } ls vs := by
  induction h with
  | nil => trivial
  | @cons a b r r' hr _ ih =>
    obtain ⟨p, v⟩ := a
    obtain ⟨q, l⟩ := b
    obtain ⟨rfl, h2⟩ := value_of_storedAs hC (hc _ List.mem_cons_self) hr
    exact ⟨rfl, h2, ih fun pv hpv => hc pv (by simp [hpv])⟩

theorem Spec.Zip.append_inv {α β : Type} {R : α → β → Prop} {l : List α} {a b : List β} (h : Zip R l (a ++ b)) :
    ∃ l1 l2, l = l1 ++ l2 ∧ Zip R l1 a ∧ Zip R l2 b := by
  induction a generalizing l with
  | nil => exact ⟨[], l, rfl, .nil, h⟩
  | cons x r ih =>
    cases h with
    | cons h1 h2 =>
      obtain ⟨l1, l2, rfl, h3, h4⟩ := ih h2
      exact ⟨_ :: l1, l2, rfl, .cons h1 h3, h4⟩

theorem Spec.Zip.append {α β : Type} {R : α → β → Prop} {l1 l2 : List α} {a b : List β} (h1 : Zip R l1 a) (h2 : Zip R l2 b) :
    Zip R (l1 ++ l2) (a ++ b) := by
  induction h1 with
  | nil => exact h2
  | cons h _ ih => exact .cons h ih

theorem DecryptsTo.append {env : DecEnv} {ls ls2 : List (List Str × EncLeaf)} {vs vs2 : List (List Str × Value)}
    (h1 : DecryptsTo env ls vs) (h2 : DecryptsTo env ls2 vs2) : DecryptsTo env (ls ++ ls2) (vs ++ vs2) := by
  induction ls generalizing vs with
  | nil =>
    cases vs with
    | nil => exact h2
    | cons _ _ => exact h1.elim
  | cons x r ih =>
    obtain ⟨p, l⟩ := x
    rcases vs with _ | ⟨⟨q, v⟩, vs⟩
    · exact h1.elim
    obtain ⟨rfl, h3, h4⟩ := h1
    exact ⟨rfl, h3, ih h4⟩

/-- Every value is text. -/
theorem Value.asBytes_utf8 (v : Value) : ∃ s, plainBytes v = utf8 s := by
  cases v with
  | string s => exact ⟨s, rfl⟩
  | integer i => exact ⟨_, rfl⟩
  | float s => exact ⟨s, rfl⟩
  | boolean b => cases b <;> exact ⟨_, rfl⟩

/-! ## Dates -/

theorem Timestamp.toText_inj {t u : Timestamp} (ht : t.Valid) (hu : u.Valid) (h : t.toText = u.toText) :
    t.truncate = u.truncate := by
  have h1 := scanDate_of (relaxed_toText ht)
  have h2 := scanDate_of (relaxed_toText hu)
  rw [h, h2] at h1
  exact (congrArg Prod.fst (Option.some.inj h1)).symm

/-- The date and a key path are never the same associated data. -/
theorem date_ne_path (t : Timestamp) (p : List Str) : t.toBytes ≠ utf8 (pathText p) := by
  intro h
  have h : t.toText = pathText p := utf8_injective h
  rcases List.eq_nil_or_concat p with rfl | ⟨q, k, rfl⟩
  · simp [pathText, Timestamp.toText] at h
  · have h1 := congrArg List.getLast? h
    have e1 : t.toText.getLast? = some 'Z' := by unfold Timestamp.toText; rw [List.getLast?_append]; rfl
    have e2 : (pathText (q ++ [k])).getLast? = some ':' := by
      rw [show pathText (q ++ [k]) = (pathText q ++ k) ++ [':'] by simp [pathText]]
      simp
    rw [List.concat_eq_append] at h1
    rw [e1, e2] at h1
    cases h1

end Rops
