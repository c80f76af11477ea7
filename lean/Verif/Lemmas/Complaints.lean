import Verif.Spec.Complaints
import Verif.Lemmas.EncValue
import Verif.Props.Panics
import Verif.Model.Messages
/-!
# Lemmas on what is wrong with an encrypted value
-/

namespace Rops
open Spec Props

theorem fields_iff {s : Str} {fs : List Str} : Fields s fs ↔ splitOn ',' s = fs := by
  constructor
  · intro h
    induction h with
    | last hw => exact splitOn_of_not_mem hw
    | more hw _ ih => rw [splitOn_append _ hw, ih]
  · rintro rfl
    have hno : ∀ w ∈ splitOn ',' s, ',' ∉ w := fun w hw => not_mem_of_mem_splitOn hw
    have hne := splitOn_ne_nil ',' s
    have hj := joinWith_splitOn ',' s
    have gen : ∀ ws : List Str, ws ≠ [] → (∀ w ∈ ws, ',' ∉ w) → Fields (joinWith ',' ws) ws := by
      intro ws
      induction ws with
      | nil => intro h; exact absurd rfl h
      | cons w ws ih =>
        intro _ h
        cases ws with
        | nil => exact .last (h w (by simp))
        | cons v vs => exact .more (h w (by simp)) (ih (by simp) fun u hu => h u (.tail _ hu))
    have := gen _ hne hno
    rwa [hj] at this

theorem component_error {p : EncPart} {pre : Str} {o : Option Str} {e : EncParseError} :
    component p pre o = .error e ↔ e = .missing p ∧ ∀ t, o ≠ some (pre ++ t) := by
  cases h : component p pre o with
  | ok r =>
    rw [component_iff] at h
    simp [h]
  | error e' =>
    have hn : ∀ t, o ≠ some (pre ++ t) := by
      intro t ht
      rw [component_iff.2 ht] at h
      cases h
    have : e' = .missing p := by
      unfold component at h
      split at h
      · cases h; rfl
      · split at h <;> cases h
        rfl
    subst this
    simp only [Except.error.injEq]
    constructor
    · rintro rfl; exact ⟨rfl, hn⟩
    · rintro ⟨rfl, _⟩; rfl

theorem parseData_error {s : Str} {e : EncParseError} :
    parseData s = .error e ↔ e = .base64 s ∧ ∀ b, ¬ Denotes s b := by
  simp only [denotes_iff_decode]
  unfold parseData
  cases Base64.decode s <;> simp [eq_comm]

theorem parseSlice_error {n : Nat} {s : Str} {e : EncParseError} (he : e ≠ .panic) :
    parseSlice n s = .error e ↔ e = .base64 s ∧ ∀ b, ¬ Denotes s b := by
  simp only [denotes_iff_decode]
  unfold parseSlice Base64.decodeSlice
  cases Base64.decode s with
  | none => simp [eq_comm]
  | some b =>
    by_cases hl : b.length ≤ n
    · simp [hl]
    · simp [hl, Ne.symm he]

theorem variant_error {s : Str} : Variant.parse s = none ↔ ∀ v, s ≠ typeName v := by
  cases h : Variant.parse s with
  | none =>
    simp only [true_iff]
    rintro v rfl
    rw [← Variant.toText_eq, Variant.parse_toText] at h
    cases h
  | some v =>
    rw [Variant.parse_eq_some, Variant.toText_eq] at h
    simp only [reduceCtorEq, false_iff]
    exact fun hn => hn v h

/-- The error for the first wrong field. -/
inductive FieldError (C : Cipher) (fs : List Str) : EncParseError → Prop
  | cipher {n r} : fs = n :: r → n ≠ C.name → FieldError C fs (.invalidCipher n)
  | data {r} : Upto C fs .data r → (∀ t r', r ≠ (c!"data:" ++ t) :: r') → FieldError C fs (.missing .data)
  | iv {r} : Upto C fs .iv r → (∀ t r', r ≠ (c!"iv:" ++ t) :: r') → FieldError C fs (.missing .iv)
  | tag {r} : Upto C fs .tag r → (∀ t r', r ≠ (c!"tag:" ++ t) :: r') → FieldError C fs (.missing .tag)
  | type {r} : Upto C fs .type r → (∀ t r', r ≠ (c!"type:" ++ t) :: r') → FieldError C fs (.missing .type)
  | base64 {x t r} : x ≠ .type → Upto C fs x ((x.label ++ t) :: r) → (∀ b, ¬ Denotes t b) → FieldError C fs (.base64 t)
  | unknown {t r} : Upto C fs .type ((c!"type:" ++ t) :: r) → (∀ v, t ≠ typeName v) → FieldError C fs (.variant t)

theorem head_some {r : List Str} {x : Str} : r[0]? = some x ↔ ∃ r', r = x :: r' := by
  cases r <;> simp

theorem parseComponents_error {C : Cipher} {fs : List Str} (hne : fs ≠ []) {e : EncParseError} (he : e ≠ .panic) :
    EncValue.parseComponents C fs = .error e ↔ FieldError C fs e := by
  have none0 : ∀ {r : List Str} {pre : Str}, (∀ t, r[0]? ≠ some (pre ++ t)) ↔ ∀ t r', r ≠ (pre ++ t) :: r' := by
    intro r pre
    constructor
    · rintro h t r' rfl; exact h t rfl
    · intro h t ht
      obtain ⟨r', hr⟩ := head_some.1 ht
      exact h t r' hr
  constructor
  · intro h
    cases fs with
    | nil => exact absurd rfl hne
    | cons name r =>
      simp only [EncValue.parseComponents] at h
      split at h
      · rename_i hn
        cases h
        exact .cipher rfl hn
      rename_i hn
      have hn : name = C.name := Decidable.of_not_not hn
      subst hn
      have u0 : Upto C (C.name :: r) .data r := .data rfl
      simp only [bind, Except.bind_eq_error] at h
      rcases h with (h | ⟨t, h1, h2⟩) | ⟨d, hd, h⟩
      · obtain ⟨rfl, hm⟩ := component_error.1 h
        exact .data u0 (none0.1 hm)
      · obtain ⟨r', rfl⟩ := head_some.1 (component_iff.1 h1)
        obtain ⟨rfl, h⟩ := parseData_error.1 h2
        exact .base64 (x := .data) (by simp) u0 h
      obtain ⟨t, h1, h2⟩ := Except.bind_eq_ok.1 hd
      obtain ⟨r1, rfl⟩ := head_some.1 (component_iff.1 h1)
      have u1 : Upto C _ .iv r1 := .iv u0 (parseData_iff.1 h2)
      simp only [List.getElem?_cons_succ] at h
      rcases h with (h | ⟨t, h1, h2⟩) | ⟨d, hd, h⟩
      · obtain ⟨rfl, hm⟩ := component_error.1 h
        exact .iv u1 (none0.1 hm)
      · obtain ⟨r', rfl⟩ := head_some.1 (component_iff.1 h1)
        obtain ⟨rfl, h⟩ := (parseSlice_error he).1 h2
        exact .base64 (x := .iv) (by simp) u1 h
      obtain ⟨t, h1, h2⟩ := Except.bind_eq_ok.1 hd
      obtain ⟨r2, rfl⟩ := head_some.1 (component_iff.1 h1)
      obtain ⟨b, hb, hl, _⟩ := zeroFilled_iff.2 h2
      have u2 : Upto C _ .tag r2 := .tag u1 hb hl
      simp only [List.getElem?_cons_succ] at h
      rcases h with (h | ⟨t, h1, h2⟩) | ⟨d, hd, h⟩
      · obtain ⟨rfl, hm⟩ := component_error.1 h
        exact .tag u2 (none0.1 hm)
      · obtain ⟨r', rfl⟩ := head_some.1 (component_iff.1 h1)
        obtain ⟨rfl, h⟩ := (parseSlice_error he).1 h2
        exact .base64 (x := .tag) (by simp) u2 h
      obtain ⟨t, h1, h2⟩ := Except.bind_eq_ok.1 hd
      obtain ⟨r3, rfl⟩ := head_some.1 (component_iff.1 h1)
      obtain ⟨b, hb, hl, _⟩ := zeroFilled_iff.2 h2
      have u3 : Upto C _ .type r3 := .type u2 hb hl
      simp only [List.getElem?_cons_succ] at h
      rcases h with h | ⟨t, h1, h⟩
      · obtain ⟨rfl, hm⟩ := component_error.1 h
        exact .type u3 (none0.1 hm)
      obtain ⟨r4, rfl⟩ := head_some.1 (component_iff.1 h1)
      split at h
      · rename_i hv
        cases h
        exact .unknown u3 (variant_error.1 hv)
      · cases h
  · have c0 : ∀ {r}, Upto C fs .data r → fs = C.name :: r := by rintro r ⟨h⟩; exact h
    have c1 : ∀ {r}, Upto C fs .iv r → ∃ t b, fs = C.name :: (c!"data:" ++ t) :: r ∧ Denotes t b := by
      rintro r (_ | ⟨h, hd⟩)
      exact ⟨_, _, c0 h, hd⟩
    have c2 : ∀ {r}, Upto C fs .tag r → ∃ t b t' b', fs = C.name :: (c!"data:" ++ t) :: (c!"iv:" ++ t') :: r ∧ Denotes t b ∧
        Denotes t' b' ∧ b'.length ≤ C.nonceSize := by
      rintro r (_ | _ | ⟨h, hd, hl⟩)
      obtain ⟨t, b, h1, h2⟩ := c1 h
      exact ⟨_, _, _, _, h1, h2, hd, hl⟩
    have c3 : ∀ {r}, Upto C fs .type r → ∃ t b t' b' t'' b'', fs = C.name :: (c!"data:" ++ t) :: (c!"iv:" ++ t') ::
        (c!"tag:" ++ t'') :: r ∧ Denotes t b ∧ (Denotes t' b' ∧ b'.length ≤ C.nonceSize) ∧
        Denotes t'' b'' ∧ b''.length ≤ C.tagSize := by
      rintro r (_ | _ | _ | ⟨h, hd, hl⟩)
      obtain ⟨t, b, t', b', h1, h2, h3⟩ := c2 h
      exact ⟨_, _, _, _, _, _, h1, h2, h3, hd, hl⟩
    have d0 : ∀ {t b}, Denotes t b → (component .data c!"data:" (some (c!"data:" ++ t))).bind parseData = .ok b :=
      fun h => Except.bind_eq_ok.2 ⟨_, component_iff.2 rfl, parseData_iff.2 h⟩
    have d1 : ∀ {p pre n t b}, Denotes t b → b.length ≤ n →
        (component p pre (some (pre ++ t))).bind (parseSlice n) = .ok (b ++ List.replicate (n - b.length) 0) :=
      fun h hl => Except.bind_eq_ok.2 ⟨_, component_iff.2 rfl, zeroFilled_iff.1 ⟨_, h, hl, rfl⟩⟩
    have e0 : ∀ {α} {f : Str → Except EncParseError α} {p pre} {r : List Str}, (∀ t r', r ≠ (pre ++ t) :: r') →
        (component p pre r[0]?).bind f = .error (.missing p) :=
      fun h => Except.bind_eq_error.2 (.inl (component_error.2 ⟨rfl, none0.2 h⟩))
    have e1 : ∀ {p pre n t}, (∀ b, ¬ Denotes t b) →
        (component p pre (some (pre ++ t))).bind (parseSlice n) = .error (.base64 t) :=
      fun h => Except.bind_eq_error.2 (.inr ⟨_, component_iff.2 rfl, (parseSlice_error (by simp)).2 ⟨rfl, h⟩⟩)
    have e2 : ∀ {t}, (∀ b, ¬ Denotes t b) →
        (component .data c!"data:" (some (c!"data:" ++ t))).bind parseData = .error (.base64 t) :=
      fun h => Except.bind_eq_error.2 (.inr ⟨_, component_iff.2 rfl, parseData_error.2 ⟨rfl, h⟩⟩)
    have e3 : ∀ {p pre} {r : List Str}, (∀ t r', r ≠ (pre ++ t) :: r') →
        component p pre r[0]? = .error (.missing p) :=
      fun h => component_error.2 ⟨rfl, none0.2 h⟩
    intro h
    cases h with
    | cipher h hn =>
      rw [h]
      simp only [EncValue.parseComponents]
      rw [if_pos hn]
    | data h hn =>
      rw [c0 h]
      simp only [EncValue.parseComponents]
      rw [if_neg (by simp), e0 hn]
      rfl
    | iv h hn =>
      obtain ⟨t, b, hfs, hd⟩ := c1 h
      rw [hfs]
      simp only [EncValue.parseComponents, List.getElem?_cons_succ]
      rw [if_neg (by simp), List.getElem?_cons_zero, d0 hd, e0 hn]
      rfl
    | tag h hn =>
      obtain ⟨t, b, t', b', hfs, hd, hi, hil⟩ := c2 h
      rw [hfs]
      simp only [EncValue.parseComponents, List.getElem?_cons_succ]
      rw [if_neg (by simp), List.getElem?_cons_zero, List.getElem?_cons_zero, d0 hd, d1 hi hil, e0 hn]
      rfl
    | type h hn =>
      obtain ⟨t, b, t', b', t'', b'', hfs, hd, ⟨hi, hil⟩, ht, htl⟩ := c3 h
      rw [hfs]
      simp only [EncValue.parseComponents, List.getElem?_cons_succ]
      rw [if_neg (by simp), List.getElem?_cons_zero, List.getElem?_cons_zero, List.getElem?_cons_zero, d0 hd, d1 hi hil,
        d1 ht htl, e3 hn]
      rfl
    | base64 hx h hn =>
      rename_i x t r
      cases x with
      | data =>
        rw [c0 h]
        simp only [EncValue.parseComponents, List.getElem?_cons_succ]
        rw [if_neg (by simp), List.getElem?_cons_zero]
        rw [show Field.label .data = c!"data:" from rfl, e2 hn]
        rfl
      | iv =>
        obtain ⟨t, b, hfs, hd⟩ := c1 h
        rw [hfs]
        simp only [EncValue.parseComponents, List.getElem?_cons_succ]
        rw [if_neg (by simp), List.getElem?_cons_zero, List.getElem?_cons_zero, d0 hd,
          show Field.label .iv = c!"iv:" from rfl, e1 hn]
        rfl
      | tag =>
        obtain ⟨t, b, t', b', hfs, hd, hi, hil⟩ := c2 h
        rw [hfs]
        simp only [EncValue.parseComponents, List.getElem?_cons_succ]
        rw [if_neg (by simp), List.getElem?_cons_zero, List.getElem?_cons_zero, List.getElem?_cons_zero, d0 hd, d1 hi hil,
          show Field.label .tag = c!"tag:" from rfl, e1 hn]
        rfl
      | type => exact absurd rfl hx
    | unknown h hn =>
      obtain ⟨t, b, t', b', t'', b'', hfs, hd, ⟨hi, hil⟩, ht, htl⟩ := c3 h
      rw [hfs]
      simp only [EncValue.parseComponents, List.getElem?_cons_succ]
      rw [if_neg (by simp), List.getElem?_cons_zero, List.getElem?_cons_zero, List.getElem?_cons_zero,
        List.getElem?_cons_zero, d0 hd, d1 hi hil, d1 ht htl, component_iff.2 rfl]
      simp only [bind, Except.bind, variant_error.2 hn]

theorem wrongField_iff {C : Cipher} {W : Wording} {fs : List Str} {c : Str} :
    WrongField C W.base64 fs c ↔ ∃ e, FieldError C fs e ∧ (e.report W C).text = c := by
  constructor
  · intro h
    cases h with
    | cipher h hn => exact ⟨_, .cipher h hn, rfl⟩
    | missing h hn =>
      rename_i x r
      cases x with
      | data => exact ⟨_, .data h hn, rfl⟩
      | iv => exact ⟨_, .iv h hn, rfl⟩
      | tag => exact ⟨_, .tag h hn, rfl⟩
      | type => exact ⟨_, .type h hn, rfl⟩
    | base64 hx h hn => exact ⟨_, .base64 hx h hn, rfl⟩
    | type h hn => exact ⟨_, .unknown h hn, rfl⟩
  · rintro ⟨e, h, rfl⟩
    cases h with
    | cipher h hn => exact .cipher h hn
    | data h hn => exact .missing h hn
    | iv h hn => exact .missing h hn
    | tag h hn => exact .missing h hn
    | type h hn => exact .missing h hn
    | base64 hx h hn => exact .base64 hx h hn
    | unknown h hn => exact .type h hn

theorem FieldError.ne_panic {C : Cipher} {fs : List Str} {e : EncParseError} (h : FieldError C fs e) : e ≠ .panic := by
  cases h <;> simp

theorem encBody_error {s : Str} {e : EncParseError} : encBody s = .error e ↔
    (e = .missing .encPrefix ∧ ∀ r, s ≠ c!"ENC" ++ r) ∨
    (e = .missing .openingBracket ∧ (∃ r, s = c!"ENC" ++ r) ∧ ∀ r, s ≠ c!"ENC[" ++ r) ∨
    (e = .missing .closingBracket ∧ (∃ r, s = c!"ENC[" ++ r) ∧ ∀ r, s ≠ c!"ENC[" ++ r ++ c!"]") := by
  unfold encBody
  cases h1 : stripPrefix c!"ENC" s with
  | none =>
    have hn : ∀ r, s ≠ c!"ENC" ++ r := by
      rintro r rfl
      rw [stripPrefix_append] at h1
      cases h1
    have hn2 : ¬ ∃ r, s = c!"ENC[" ++ r := by
      rintro ⟨r, rfl⟩
      exact hn ('[' :: r) rfl
    simp only [Except.error.injEq]
    constructor
    · rintro rfl; exact .inl ⟨rfl, hn⟩
    · rintro (⟨rfl, _⟩ | ⟨_, ⟨r, h⟩, _⟩ | ⟨_, h, _⟩)
      · rfl
      · exact absurd h (hn r)
      · exact absurd h hn2
  | some s1 =>
    have hs := stripPrefix_eq_some.1 h1
    have h0 : ¬ ∀ r, s ≠ c!"ENC" ++ r := fun h => h _ hs
    simp only
    cases h2 : stripPrefix c!"[" s1 with
    | none =>
      have hn : ∀ r, s ≠ c!"ENC[" ++ r := by
        rintro r h
        rw [hs] at h
        have h := List.append_cancel_left (as := c!"ENC") (cs := '[' :: r) h
        rw [h, show ('[' :: r) = c!"[" ++ r from rfl, stripPrefix_append] at h2
        cases h2
      simp only [Except.error.injEq]
      constructor
      · rintro rfl; exact .inr (.inl ⟨rfl, ⟨_, hs⟩, hn⟩)
      · rintro (⟨_, h⟩ | ⟨rfl, _⟩ | ⟨_, ⟨r, h⟩, _⟩)
        · exact absurd h h0
        · rfl
        · exact absurd h (hn r)
    | some s2 =>
      have hs2 : s = c!"ENC[" ++ s2 := by rw [hs, stripPrefix_eq_some.1 h2]; rfl
      simp only
      cases h3 : stripSuffixChar ']' s2 with
      | none =>
        have hn : ∀ r, s ≠ c!"ENC[" ++ r ++ c!"]" := by
          rintro r h
          rw [hs2, List.append_assoc] at h
          have h := List.append_cancel_left h
          rw [h, show (c!"]" : Str) = [']'] from rfl, stripSuffixChar_append] at h3
          cases h3
        simp only [Except.error.injEq]
        constructor
        · rintro rfl; exact .inr (.inr ⟨rfl, ⟨_, hs2⟩, hn⟩)
        · rintro (⟨_, h⟩ | ⟨_, _, h⟩ | ⟨rfl, _⟩)
          · exact absurd h h0
          · exact absurd hs2 (h s2)
          · rfl
      | some s3 =>
        have hs3 : s = c!"ENC[" ++ s3 ++ c!"]" := by rw [hs2, stripSuffixChar_eq_some.1 h3]; rfl
        simp only [reduceCtorEq, false_iff]
        rintro (⟨_, h⟩ | ⟨_, _, h⟩ | ⟨_, _, h⟩)
        · exact h0 h
        · exact h s2 hs2
        · exact h s3 hs3

end Rops
