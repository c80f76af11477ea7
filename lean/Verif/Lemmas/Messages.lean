import Verif.Model.Messages
import Verif.Lemmas.Tamper
import Verif.Lemmas.Value
import Verif.Lemmas.File
/-!
# Lemmas on error messages
-/

namespace Rops
open Spec

/-! ## The first leaf that does not decrypt -/

theorem DecEnv.leafAt_none_eq (env : DecEnv) (p : List Str) (l : EncLeaf) :
    env.leafAt p l none = (match env.value p l with | .ok v => .ok (v, none) | .error e => .error e) := by
  cases l with
  | escaped w => rfl
  | encrypted e =>
    simp only [DecEnv.leafAt, DecEnv.decLeaf, DecEnv.value]
    rfl

theorem trav_dec_error {env : DecEnv} {ls : List (List Str × EncLeaf)} {e : DecryptValueError} :
    travList env.leafAt ls none = .error e ↔ ∃ A p l B, ls = A ++ (p, l) :: B ∧
      (∀ a ∈ A, ∃ v, env.value a.1 a.2 = .ok v) ∧ env.value p l = .error e := by
  induction ls with
  | nil => simp [travList]
  | cons x r ih =>
    obtain ⟨p, l⟩ := x
    simp only [travList, DecEnv.leafAt_none_eq]
    cases h : env.value p l with
    | error e' =>
      simp only [Except.error.injEq]
      constructor
      · rintro rfl
        exact ⟨[], p, l, r, rfl, by simp, h⟩
      · rintro ⟨A, p', l', B, h1, h2, h3⟩
        cases A with
        | nil => cases h1; rw [h] at h3; cases h3; rfl
        | cons a A =>
          cases h1
          obtain ⟨v, hv⟩ := h2 _ List.mem_cons_self
          rw [h] at hv
          cases hv
    | ok v =>
      have hrest : (∃ A p' l' B, (p, l) :: r = A ++ (p', l') :: B ∧
          (∀ a ∈ A, ∃ v, env.value a.1 a.2 = .ok v) ∧ env.value p' l' = .error e) ↔
          ∃ A p' l' B, r = A ++ (p', l') :: B ∧
          (∀ a ∈ A, ∃ v, env.value a.1 a.2 = .ok v) ∧ env.value p' l' = .error e := by
        constructor
        · rintro ⟨A, p', l', B, h1, h2, h3⟩
          cases A with
          | nil => cases h1; rw [h] at h3; cases h3
          | cons a A =>
            cases h1
            exact ⟨A, p', l', B, rfl, fun b hb => h2 b (by simp [hb]), h3⟩
        · rintro ⟨A, p', l', B, rfl, h2, h3⟩
          refine ⟨(p, l) :: A, p', l', B, rfl, ?_, h3⟩
          intro b hb
          rcases List.mem_cons.1 hb with rfl | hb
          · exact ⟨v, h⟩
          · exact h2 b hb
      rw [hrest, ← ih]
      simp only
      cases travList env.leafAt r none <;> simp

theorem RMap.decrypt_error_iff {env : DecEnv} {m' : RMap EncLeaf} {e : DecryptValueError} :
    RMap.decrypt env m' = .error e ↔ ∃ A p l B, leaves m' = A ++ (p, l) :: B ∧
      (∀ a ∈ A, ∃ v, env.value a.1 a.2 = .ok v) ∧ env.value p l = .error e := by
  have h := (dec_eq_trav env).2.2 m' [] none
  rw [show (pathText [] : Str) = [] from rfl] at h
  rw [← trav_dec_error, show leaves m' = leavesMap [] m' from rfl, ← travMap_error_iff, ← h]
  unfold RMap.decrypt
  cases decMap env [] m' none <;> simp

theorem Value.fromBytes_boolean_error {fl : FloatOps} {b c : Bytes} {var : Variant} :
    Value.fromBytes fl b var = .error (.boolean c) ↔
      var = .boolean ∧ c = b ∧ b ≠ Value.boolBytes true ∧ b ≠ Value.boolBytes false := by
  cases var with
  | string =>
    simp only [Value.fromBytes, reduceCtorEq, false_and, iff_false]
    cases utf8? b <;> simp
  | integer =>
    simp only [Value.fromBytes, reduceCtorEq, false_and, iff_false]
    cases utf8? b with
    | none => simp
    | some s => cases h : parseInt s <;> simp [h]
  | float =>
    simp only [Value.fromBytes, reduceCtorEq, false_and, iff_false]
    cases utf8? b with
    | none => simp
    | some s => cases h : fl.reprint s <;> simp [h]
  | boolean =>
    simp only [Value.fromBytes, true_and]
    by_cases ht : b = Value.boolBytes true
    · rw [if_pos ht]; simp [ht]
    · rw [if_neg ht]
      by_cases hf : b = Value.boolBytes false
      · rw [if_pos hf]; simp [hf]
      · rw [if_neg hf]
        simp only [Except.error.injEq, Value.FromBytesError.boolean.injEq, ne_eq, ht, hf, not_false_eq_true, and_true]
        exact eq_comm

/-- Exactly when and with what error a file does not decrypt. -/
theorem decrypt_error_iff {F Fo : Format} {env : Env} {f : EncFile F} {e : FileDecryptError} :
    f.decrypt Fo env = .error e ↔
      (∃ e1, env.decryptMetadata f.metadata = .error e1 ∧ e = .metadata e1) ∨
      ∃ key mac, env.retrieveDataKey f.metadata = .ok key ∧
        env.C.decrypt f.metadata.mac.nonce key f.metadata.mac.data f.metadata.lastModified.toBytes f.metadata.mac.tag
          = some mac ∧
        ((∃ e1, F.encToInternal env.C env.rx (Resolved.ofConfig f.metadata.partialEncryption) f.map = .error e1 ∧
            e = .format e1) ∨
          ∃ m', F.encToInternal env.C env.rx (Resolved.ofConfig f.metadata.partialEncryption) f.map = .ok m' ∧
            ((∃ e1, RMap.decrypt (env.decEnv key) m' = .error e1 ∧ e = .value e1) ∨
              ∃ m, RMap.decrypt (env.decEnv key) m' = .ok m ∧
                (mac ≠ env.macOf f.metadata m ∧ (∃ c, env.macOf f.metadata m = utf8 c ∧
                    ((∃ s, utf8? mac = some s ∧ e = .macMismatch c s) ∨ utf8? mac = none ∧ e = .panic)) ∨
                  mac = env.macOf f.metadata m ∧ Fo.ofInternal m = none ∧ e = .panic))) := by
  unfold EncFile.decrypt
  cases h1 : env.decryptMetadata f.metadata with
  | error e1 =>
    simp only [Except.error.injEq]
    constructor
    · rintro rfl; exact .inl ⟨e1, rfl, rfl⟩
    · rintro (⟨_, rfl, rfl⟩ | ⟨key, mac, hk, hmac, _⟩)
      · rfl
      · rw [decryptMetadata_ok.2 ⟨key, mac, hk, hmac, rfl⟩] at h1
        cases h1
  | ok r =>
    obtain ⟨key, mac, hk, hmac, rfl⟩ := decryptMetadata_ok.1 h1
    simp only [reduceCtorEq, false_and, exists_false, false_or]
    have hone : ∀ {P : Bytes → Bytes → Prop}, (∃ key' mac', env.retrieveDataKey f.metadata = .ok key' ∧
        env.C.decrypt f.metadata.mac.nonce key' f.metadata.mac.data f.metadata.lastModified.toBytes f.metadata.mac.tag
          = some mac' ∧ P key' mac') ↔ P key mac := by
      intro P
      constructor
      · rintro ⟨key', mac', h1, h2, h3⟩
        rw [hk] at h1; cases h1
        rw [hmac] at h2; cases h2
        exact h3
      · exact fun h => ⟨key, mac, hk, hmac, h⟩
    rw [hone]
    rw [show (decMetadata f.metadata mac : Metadata Mac).partialEncryption = f.metadata.partialEncryption from rfl]
    cases h2 : F.encToInternal env.C env.rx (Resolved.ofConfig f.metadata.partialEncryption) f.map with
    | error e1 =>
      simp only [Except.error.injEq, reduceCtorEq, false_and, exists_false, or_false, exists_eq_left', eq_comm]
    | ok m' =>
      simp only [reduceCtorEq, false_and, exists_false, false_or, Except.ok.injEq, exists_eq_left']
      cases h3 : RMap.decrypt (env.decEnv key) m' with
      | error e1 =>
        simp only [Except.error.injEq, reduceCtorEq, false_and, exists_false, or_false, exists_eq_left', eq_comm]
      | ok m =>
        simp only [reduceCtorEq, false_and, exists_false, false_or, Except.ok.injEq, exists_eq_left']
        by_cases hm : mac = env.macOf f.metadata m
        · have hv : env.validateMac m (decMetadata f.metadata mac) = .ok () := validateMac_ok.2 hm
          rw [hv]
          simp only [hm, ne_eq, not_true_eq_false, false_and, true_and, false_or]
          cases Fo.ofInternal m with
          | none => simp [eq_comm]
          | some y => simp
        · obtain ⟨t, ht⟩ := Env.macOf_text env (decMetadata f.metadata mac) m
          have hv := validateMac_ne ht fun e => hm e.symm
          rw [hv]
          have ht' : env.macOf f.metadata m = utf8 t := ht
          rw [show (decMetadata f.metadata mac : Metadata Mac).mac = mac from rfl]
          have hone : ∀ {P : Str → Prop}, (∃ c, env.macOf f.metadata m = utf8 c ∧ P c) ↔ P t := by
            intro P
            constructor
            · rintro ⟨c, h1, h2⟩
              rw [ht'] at h1
              rwa [utf8_injective h1]
            · exact fun h => ⟨t, ht', h⟩
          rw [hone]
          simp only [hm, ne_eq, not_false_eq_true, true_and, false_and, or_false]
          cases utf8? mac with
          | none => simp [eq_comm]
          | some s => simp [eq_comm]

/-! ## Byte vectors -/

theorem toDigits_inj {a b : Nat} (h : Nat.toDigits 10 a = Nat.toDigits 10 b) : a = b := by
  have := congrArg parseNat h
  rw [parseNat_toDigits, parseNat_toDigits] at this
  exact Option.some.inj this

theorem isDigit_toDigits {n : Nat} {c : Char} (h : c ∈ Nat.toDigits 10 n) : c.isDigit = true := by
  have := parseNat_toDigits n
  unfold parseNat at this
  split at this
  · rename_i hd
    exact List.all_eq_true.1 hd.2 _ h
  · cases this

theorem digits_append_inj {a b : Nat} {x y : Str} (hx : ∀ c ∈ x.head?, c.isDigit = false)
    (hy : ∀ c ∈ y.head?, c.isDigit = false) (h : Nat.toDigits 10 a ++ x = Nat.toDigits 10 b ++ y) : a = b ∧ x = y := by
  have aux : ∀ (s t : Str), (∀ c ∈ s, c.isDigit = true) → (∀ c ∈ t, c.isDigit = true) → s ++ x = t ++ y →
      s = t ∧ x = y := by
    intro s
    induction s with
    | nil =>
      intro t _ ht he
      cases t with
      | nil => exact ⟨rfl, he⟩
      | cons c t =>
        rw [List.nil_append, List.cons_append] at he
        have h1 := hx c (by rw [he]; rfl)
        rw [ht c List.mem_cons_self] at h1
        cases h1
    | cons c s ih =>
      intro t hs ht he
      cases t with
      | nil =>
        rw [List.nil_append, List.cons_append] at he
        have h1 := hy c (by rw [← he]; rfl)
        rw [hs c List.mem_cons_self] at h1
        cases h1
      | cons d t =>
        rw [List.cons_append, List.cons_append, List.cons.injEq] at he
        obtain ⟨rfl, he⟩ := he
        obtain ⟨rfl, h2⟩ := ih t (fun c hc => hs c (by simp [hc])) (fun c hc => ht c (by simp [hc])) he
        exact ⟨rfl, h2⟩
  obtain ⟨h1, h2⟩ := aux _ _ (fun c hc => isDigit_toDigits hc) (fun c hc => isDigit_toDigits hc) h
  exact ⟨toDigits_inj h1, h2⟩

theorem debugRest_head (r : Bytes) : ∀ c ∈ (debugRest r ++ [']']).head?, c.isDigit = false := by
  cases r with
  | nil => intro c hc; cases hc; rfl
  | cons b r =>
    intro c hc
    rw [debugRest] at hc
    cases hc
    rfl

theorem debugRest_inj {a b : Bytes} (h : debugRest a ++ [']'] = debugRest b ++ [']']) : a = b := by
  induction a generalizing b with
  | nil =>
    cases b with
    | nil => rfl
    | cons x b => rw [debugRest, debugRest] at h; cases h
  | cons x a ih =>
    cases b with
    | nil => rw [debugRest, debugRest] at h; cases h
    | cons y b =>
      rw [debugRest, debugRest, List.append_assoc, List.append_assoc, List.append_assoc, List.append_assoc] at h
      have h := List.append_cancel_left h
      obtain ⟨h1, h2⟩ := digits_append_inj (debugRest_head a) (debugRest_head b) h
      rw [UInt8.toNat_inj.1 h1, ih h2]

theorem debugBytes_inj {a b : Bytes} (h : debugBytes a = debugBytes b) : a = b := by
  have hne : ∀ (n : Nat), ∃ c r, Nat.toDigits 10 n = c :: r ∧ c.isDigit = true := by
    intro n
    cases hd : Nat.toDigits 10 n with
    | nil =>
      have := parseNat_toDigits n
      rw [hd] at this
      cases this
    | cons c r => exact ⟨c, r, rfl, isDigit_toDigits (n := n) (by rw [hd]; simp)⟩
  cases a with
  | nil =>
    cases b with
    | nil => rfl
    | cons x b =>
      obtain ⟨c, r, h1, h2⟩ := hne x.toNat
      rw [debugBytes, debugBytes, h1] at h
      injection h with _ h
      injection h with h _
      subst h
      cases h2
  | cons x a =>
    cases b with
    | nil =>
      obtain ⟨c, r, h1, h2⟩ := hne x.toNat
      rw [debugBytes, debugBytes, h1] at h
      injection h with _ h
      injection h with h _
      subst h
      cases h2
    | cons y b =>
      rw [debugBytes, debugBytes, List.cons_append, List.cons_append, List.cons_append, List.cons_append,
        List.append_assoc, List.append_assoc] at h
      injection h with _ h
      obtain ⟨h1, h2⟩ := digits_append_inj (debugRest_head a) (debugRest_head b) h
      rw [UInt8.toNat_inj.1 h1, debugRest_inj h2]

end Rops
