import Verif.Lemmas.Changes
import Verif.Lemmas.FileOps
import Verif.Lemmas.CliRuns
import Verif.Props.Formats
import Verif.Spec.Colons
import Verif.Spec.Leakage
/-! Encrypted maps with any keys: what is stored and what is read. -/

namespace Rops
open Spec

/-- What encryption stores for a leaf, whatever the keys are. -/
def Stored (C : Cipher) (rx : RegexMatch) (key : Bytes) (cfg : Option PartialEncryption)
    (pv : List Str × Value) (pl : List Str × EncLeaf) : Prop :=
  pl.1 = pv.1 ∧ ((Plain rx cfg (pv.1.map lastPart) ∧ pl.2 = .escaped pv.2) ∨
    (¬ Plain rx cfg (pv.1.map lastPart) ∧ ∃ e, pl.2 = .encrypted e ∧ Seals C key pv.1 pv.2 e))

theorem stored_of_encrypt {env : EncEnv} (hC : env.C.Lawful) (ht : ∀ i, (env.tape i).length = env.C.nonceSize)
    (hs : SavedSized env.C env.saved) {cfg : Option PartialEncryption} {m : RMap Value}
    {i j : Nat} {m' : RMap EncLeaf} (h : RMap.encrypt env cfg m i = .ok (m', j)) :
    shapeMap m' = shapeMap m ∧ Zip (Stored env.C env.rx env.key cfg) (leaves m) (leaves m') := by
  obtain ⟨h1, h2⟩ := RMap.encrypt_ok_iff.1 h
  refine ⟨h1, ?_⟩
  revert h2
  generalize leaves m = vs
  generalize leaves m' = ls
  intro h2
  clear h h1
  induction vs generalizing ls i with
  | nil => simp only [travList] at h2; cases h2; exact .nil
  | cons x r ih =>
    obtain ⟨p, v⟩ := x
    obtain ⟨l, i1, ls', h3, h4, rfl⟩ := travList_cons_ok.1 h2
    refine .cons ⟨rfl, ?_⟩ (ih _ h4)
    rw [EncEnv.leafAt_ok] at h3
    rcases h3 with ⟨hp, rfl, _⟩ | ⟨hp, e, rfl, he, _⟩
    · exact .inl ⟨hp, rfl⟩
    · refine .inr ⟨hp, e, rfl, ?_⟩
      have hsz := (Value.sized_of_encrypt hC (nonceFor_length ht hs _ _ _) he).1
      obtain ⟨e1, e2, e3⟩ := Value.encrypt_iff.1 he
      rw [← e2] at e1
      exact ⟨e1, e3, hsz⟩

/-- A written document is read exactly as its scalars say. -/
theorem written_read (x : Fmt) {C : Cipher} {rx : RegexMatch} {cfg : Option PartialEncryption} {m' : RMap EncLeaf}
    (hm : ∀ p v, (p, EncLeaf.escaped v) ∈ leaves m' → docRep x v) {y : x.doc.F.Map}
    (h : x.doc.F.encOfInternal C m' = some y) (m2' : RMap EncLeaf) :
    x.doc.F.encToInternal C rx (Resolved.ofConfig cfg) y = .ok m2' ↔
      shapeMap m2' = shapeMap m' ∧ ∀ (n : Nat) (p : List Str) (l : EncLeaf), (leaves m')[n]? = some (p, l) →
        (Plain rx cfg p → ∃ v, (leaves m2')[n]? = some (p, .escaped v) ∧ Reads (encScalar C l) v) ∧
        (¬ Plain rx cfg p → ∃ t e, encScalar C l = .str t ∧ (leaves m2')[n]? = some (p, .encrypted e) ∧
          EncValue.parse C t = .ok e) := by
  have core : ∀ d : RMap Scalar, WrittenAs (encScalar C) m' d → (EncReadAs C rx cfg d m2' ↔
      shapeMap m2' = shapeMap m' ∧ ∀ (n : Nat) (p : List Str) (l : EncLeaf), (leaves m')[n]? = some (p, l) →
        (Plain rx cfg p → ∃ v, (leaves m2')[n]? = some (p, .escaped v) ∧ Reads (encScalar C l) v) ∧
        (¬ Plain rx cfg p → ∃ t e, encScalar C l = .str t ∧ (leaves m2')[n]? = some (p, .encrypted e) ∧
          EncValue.parse C t = .ok e)) := by
    rintro d ⟨hd1, hd2⟩
    unfold EncReadAs
    rw [hd1, hd2]
    refine and_congr_right fun _ => ⟨fun hh n p l hl => ?_, fun hh n p s hs => ?_⟩
    · exact hh n p (encScalar C l) (by simp [hl])
    · rw [List.getElem?_map] at hs
      cases hl : (leaves m')[n]? with
      | none => rw [hl] at hs; cases hs
      | some pl =>
        obtain ⟨q, l⟩ := pl
        rw [hl] at hs
        simp only [Option.map_some, Option.some.injEq, Prod.mk.injEq] at hs
        obtain ⟨rfl, rfl⟩ := hs
        exact hh n q l hl
  cases x with
  | json => exact (Props.C30_json_enc_read C rx cfg y m2').trans (core _ (Props.C29_json_written h))
  | yaml =>
    obtain ⟨_, d, hd1, hd2⟩ := Props.C29_yaml_written h
    refine (Props.C30_yaml_enc_read C rx cfg y m2').trans (Iff.trans ?_ (core d hd2))
    constructor
    · rintro ⟨d', h1, h2⟩
      rw [hd1] at h1
      cases h1
      exact h2
    · exact fun h2 => ⟨d, hd1, h2⟩
  | toml => exact (Props.C30_toml_enc_read C rx cfg y m2').trans (core _ (Props.C29_toml_written hm h))

theorem encText_ne_null (C : Cipher) (e : EncValue) : encText C e ≠ c!"null" := by
  unfold encText
  intro h
  simp at h

theorem docRep_encText (x : Fmt) (C : Cipher) (e : EncValue) : docRep x (.string (encText C e)) := by
  cases x
  · trivial
  · trivial
  · intro h
    exact encText_ne_null C e (Value.string.inj h)

theorem encText_eq (C : Cipher) (e : EncValue) : e.toText C = encText C e := Props.C03_enc_text C e

/-- Changing the leaves of a map. -/
theorem mapLeaves_exists {α β : Type} (g : List Str → α → β) (m : RMap α) :
    ∃ m2 : RMap β, shapeMap m2 = shapeMap m ∧ leaves m2 = (leaves m).map fun pa => (pa.1, g pa.1 pa.2) := by
  let f : List Str → α → Unit → Except Unit (β × Unit) := fun p a s => .ok (g p a, s)
  have hl : ∀ l : List (List Str × α), travList f l () = .ok (l.map fun pa => (pa.1, g pa.1 pa.2), ()) := by
    intro l
    induction l with
    | nil => rfl
    | cons x r ih => obtain ⟨p, a⟩ := x; simp only [travList, f, ih, List.map_cons] at ih ⊢
  cases ht : travMap f [] m () with
  | error e => have := travMap_error_iff.1 ht; rw [hl] at this; cases this
  | ok r =>
    obtain ⟨m2, ⟨⟩⟩ := r
    obtain ⟨h1, h2⟩ := travMap_ok_iff.1 ht
    rw [hl] at h2
    simp only [Except.ok.injEq, Prod.mk.injEq, and_true] at h2
    exact ⟨m2, h1, h2.symm⟩

/-- What the reader sees of a stored leaf. -/
def seen (C : Cipher) (rx : RegexMatch) (cfg : Option PartialEncryption) (p : List Str) : EncLeaf → EncLeaf
  | .escaped v => .escaped v
  | .encrypted e => if ((Resolved.ofConfig cfg).steps rx p).escape then .escaped (.string (encText C e)) else .encrypted e

theorem seen_plain {C : Cipher} {rx : RegexMatch} {cfg : Option PartialEncryption} {p : List Str} {e : EncValue}
    (h : Plain rx cfg p) : seen C rx cfg p (.encrypted e) = .escaped (.string (encText C e)) := by
  simp only [seen, (Resolved.escape_steps_iff rx cfg p).2 h, if_true]

theorem seen_enc {C : Cipher} {rx : RegexMatch} {cfg : Option PartialEncryption} {p : List Str} {e : EncValue}
    (h : ¬ Plain rx cfg p) : seen C rx cfg p (.encrypted e) = .encrypted e := by
  simp only [seen, Bool.eq_false_iff.2 (fun hh => h ((Resolved.escape_steps_iff rx cfg p).1 hh)), Bool.false_eq_true, if_false]

theorem reads_valueScalar (v : Value) : Reads (valueScalar v) v := by
  cases v with
  | integer i => exact ⟨i, rfl, rfl⟩
  | _ => rfl

/-- The map read from a file encrypted with any keys, if no value is wrongly in plaintext. -/
theorem misread_exists {C : Cipher} (hC : C.Lawful) {rx : RegexMatch} {key : Bytes} {cfg : Option PartialEncryption}
    {fl : FloatOps} {m : RMap Value} {m' : RMap EncLeaf} (hs : shapeMap m' = shapeMap m)
    (hz : Zip (Stored C rx key cfg) (leaves m) (leaves m')) (hm : Canonical fl m)
    (hw : ∀ pv ∈ leaves m, ¬ WronglyPlain rx cfg pv.1) (x : Fmt) (hx : Holds (docRep x) m) {y : x.doc.F.Map}
    (hy : x.doc.F.encOfInternal C m' = some y) :
    ∃ m2' m2, x.doc.F.encToInternal C rx (Resolved.ofConfig cfg) y = .ok m2' ∧
      RMap.decrypt { C, fl, key } m2' = .ok m2 ∧ Misread C rx key cfg m m2 := by
  obtain ⟨m2', h1, h2⟩ := mapLeaves_exists (seen C rx cfg) m'
  have hrep : ∀ p v, (p, EncLeaf.escaped v) ∈ leaves m' → docRep x v := by
    intro p v hpv
    obtain ⟨⟨q, w⟩, hq, hr, h3⟩ := hz.mem' hpv
    simp only at hr h3
    rcases h3 with ⟨_, h4⟩ | ⟨_, e, h4, _⟩
    · cases h4; exact hx _ hq
    · cases h4
  have hvs : ∃ vs, DecryptsTo { C, fl, key } (leaves m2') vs ∧ Zip (MisreadAs C rx key cfg) (leaves m) vs := by
    rw [h2]
    unfold Canonical at hm
    clear hs hx hy hrep h1 h2
    revert hm hw hz
    generalize leaves m = vs
    generalize leaves m' = ls
    intro hz hm hw
    induction hz with
    | nil => exact ⟨[], trivial, .nil⟩
    | @cons a b r r' hr _ ih =>
      obtain ⟨p, v⟩ := a
      obtain ⟨q, l⟩ := b
      obtain ⟨e1, e2⟩ := hr
      simp only at e1 e2
      subst e1
      obtain ⟨ws, i1, i2⟩ := ih (fun pv hpv => hm pv (by simp [hpv])) (fun pv hpv => hw pv (by simp [hpv]))
      have hwp := hw (q, v) (by simp)
      rcases e2 with ⟨hp, rfl⟩ | ⟨hp, e, rfl, he⟩
      · exact ⟨(q, v) :: ws, ⟨rfl, rfl, i1⟩, .cons ⟨rfl, .inl ⟨fun h => h.1 hp, rfl⟩⟩ i2⟩
      · by_cases hp' : Plain rx cfg q
        · refine ⟨(q, .string (encText C e)) :: ws, ⟨rfl, ?_, i1⟩,
            .cons ⟨rfl, .inr ⟨⟨hp, hp'⟩, e, he, rfl⟩⟩ i2⟩
          simp only [seen_plain hp']
          rfl
        · refine ⟨(q, v) :: ws, ⟨rfl, ?_, i1⟩, .cons ⟨rfl, .inl ⟨fun h => hp' h.2, rfl⟩⟩ i2⟩
          simp only [seen_enc hp']
          exact Value.decrypt_encrypt hC (hm _ List.mem_cons_self) (seals_encrypt he)
  obtain ⟨vs, hd, hmis⟩ := hvs
  obtain ⟨m2, a1, a2, a3⟩ := decrypt_exists hd
  refine ⟨m2', m2, (written_read x hrep hy m2').2 ⟨h1, ?_⟩, a1, by rw [a2, h1, hs], a3 ▸ hmis⟩
  intro n p l hl
  have hl2 : (leaves m2')[n]? = some (p, seen C rx cfg p l) := by rw [h2]; simp [hl]
  obtain ⟨⟨q, w⟩, hq, hr, h3⟩ := hz.getElem' hl
  simp only at hr h3
  subst hr
  have hwp := hw _ (List.mem_of_getElem? hq)
  rcases h3 with ⟨hp, rfl⟩ | ⟨hp, e, rfl, he⟩
  · refine ⟨fun _ => ⟨w, hl2, reads_valueScalar w⟩, fun hn => absurd ⟨hp, hn⟩ hwp⟩
  · constructor
    · intro hp'
      rw [seen_plain hp'] at hl2
      exact ⟨_, hl2, rfl⟩
    · intro hp'
      rw [seen_enc hp'] at hl2
      refine ⟨_, e, rfl, hl2, ?_⟩
      rw [← encText_eq]
      exact EncValue.parse_toText hC.name_no_comma he.2.2

/-! ## Lengths -/

theorem length_sextets : ∀ l : List Bool, l.length ≤ 6 * (sextets l).length
  | [] => by simp
  | [_] => by simp [sextets]
  | [_, _] => by simp [sextets]
  | [_, _, _] => by simp [sextets]
  | [_, _, _, _] => by simp [sextets]
  | [_, _, _, _, _] => by simp [sextets]
  | _ :: _ :: _ :: _ :: _ :: _ :: r => by
    have := length_sextets r
    simp only [sextets, List.length_cons]
    omega

theorem length_bits (b : Bytes) : (bits b).length = 8 * b.length := by
  unfold bits
  induction b with
  | nil => rfl
  | cons x r ih => simp only [List.flatMap_cons, List.length_append, ih, List.length_cons, byteBits, List.length_map]; simp; omega

theorem length_base64 (b : Bytes) : b.length ≤ (base64 b).length := by
  have h1 := length_sextets (bits b)
  rw [length_bits] at h1
  unfold base64 base64Symbols
  simp only [List.length_append, List.length_map]
  omega

theorem length_utf8 (s : Str) : s.length ≤ (utf8 s).length := by
  unfold utf8
  induction s with
  | nil => simp
  | cons c r ih =>
    simp only [List.flatMap_cons, List.length_append, List.length_cons]
    have : 0 < (String.utf8EncodeChar c).length := by simp [String.length_utf8EncodeChar, Char.utf8Size_pos]
    omega

theorem length_encText (C : Cipher) (e : EncValue) : e.data.length < (utf8 (encText C e)).length := by
  refine Nat.lt_of_lt_of_le ?_ (length_utf8 _)
  have := length_base64 e.data
  unfold encText
  simp only [List.length_append, List.length_cons]
  omega

/-- A wrongly encrypted value makes the covered bytes longer. -/
theorem covered_longer {C : Cipher} (hL : LengthPreserving C) {rx : RegexMatch} {key : Bytes}
    {cfg : Option PartialEncryption} {vs ws : List (List Str × Value)} (h : Zip (MisreadAs C rx key cfg) vs ws) :
    (coveredBytes rx cfg false vs).length ≤ (coveredBytes rx cfg false ws).length ∧
    ((∃ pv ∈ vs, WronglyEncrypted rx cfg pv.1) →
      (coveredBytes rx cfg false vs).length < (coveredBytes rx cfg false ws).length) := by
  induction h with
  | nil => exact ⟨Nat.le_refl _, by simp⟩
  | @cons a b r r' hr _ ih =>
    obtain ⟨p, v⟩ := a
    obtain ⟨q, w⟩ := b
    obtain ⟨e1, e2⟩ := hr
    simp only at e1 e2
    subst e1
    simp only [coveredBytes_cons, Bool.false_eq_true, false_and, if_false, List.length_append]
    rcases e2 with ⟨hn, rfl⟩ | ⟨hw, e, he, rfl⟩
    · refine ⟨by omega, ?_⟩
      rintro ⟨pv, hpv, hwe⟩
      rcases List.mem_cons.1 hpv with rfl | hpv
      · exact absurd hwe hn
      · have := ih.2 ⟨pv, hpv, hwe⟩; omega
    · have h1 := length_encText C e
      have h2 : e.data.length = (plainBytes v).length := hL he.1
      rw [h2] at h1
      have h3 : (plainBytes (.string (encText C e))).length = (utf8 (encText C e)).length := rfl
      exact ⟨by omega, fun _ => by omega⟩

/-- With `mac_only_encrypted` they are not covered. -/
theorem covered_same {C : Cipher} {rx : RegexMatch} {key : Bytes}
    {cfg : Option PartialEncryption} {vs ws : List (List Str × Value)} (h : Zip (MisreadAs C rx key cfg) vs ws) :
    coveredBytes rx cfg true ws = coveredBytes rx cfg true vs := by
  induction h with
  | nil => rfl
  | @cons a b r r' hr _ ih =>
    obtain ⟨p, v⟩ := a
    obtain ⟨q, w⟩ := b
    obtain ⟨e1, e2⟩ := hr
    simp only at e1 e2
    subst e1
    simp only [coveredBytes_cons, true_and, ih]
    rcases e2 with ⟨hn, rfl⟩ | ⟨hw, e, he, rfl⟩
    · rfl
    · simp only [hw.2, if_true]

end Rops
