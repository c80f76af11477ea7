import Verif.Spec.Leakage
import Verif.Lemmas.FileOps
/-! Encryption of maps that may not be told apart. -/

namespace Rops
open Spec

theorem Value.encrypt_opaque {C : Cipher} {key : Bytes} (hC : Opaque C key) {n : Bytes} {p : Str} {v w : Value}
    (hv : v.variant = w.variant) (hl : (plainBytes v).length = (plainBytes w).length) :
    v.encrypt C n key p = w.encrypt C n key p := by
  unfold Value.encrypt
  rw [Value.asBytes_eq, Value.asBytes_eq, hC n _ _ (utf8 p) hl, hv]

theorem leafAt_looksLike {env : EncEnv} (hC : Opaque env.C env.key)
    {cfg : Option PartialEncryption} {p : List Str} {v w : Value}
    (hp : Plain env.rx cfg (p.map lastPart) → v = w) (hv : v.variant = w.variant)
    (hl : (plainBytes v).length = (plainBytes w).length)
    (hs : ∀ s, env.saved = some s → s.get (pathText p) v = s.get (pathText p) w) (i : Nat) : env.leafAt cfg p v i = env.leafAt cfg p w i := by
  unfold EncEnv.leafAt EncEnv.encLeaf
  by_cases h : ((Resolved.ofConfig cfg).steps env.rx (p.map lastPart)).escape = true
  · rw [hp ((Resolved.escape_steps_iff ..).1 h)]
  · have hn : env.nonceFor (pathText p) v i = env.nonceFor (pathText p) w i := by
      unfold EncEnv.nonceFor
      cases h : env.saved with
      | none => rfl
      | some s => simp only [Option.bind_some, hs s h]
    simp only [h, Bool.false_eq_true, if_false, hn, Value.encrypt_opaque hC hv hl]

theorem travList_zip {α β σ ε : Type} {f : List Str → α → σ → Except ε (β × σ)} {l l' : List (List Str × α)}
    (h : Zip (fun a b => a.1 = b.1 ∧ ∀ s, f a.1 a.2 s = f b.1 b.2 s) l l') (s : σ) :
    travList f l s = travList f l' s := by
  induction h generalizing s with
  | nil => rfl
  | @cons a b _ _ hab _ ih =>
    obtain ⟨p, a⟩ := a
    obtain ⟨q, b⟩ := b
    obtain ⟨rfl, hf⟩ := hab
    simp only [travList]
    rw [hf s]
    cases f p b s with
    | error e => rfl
    | ok r => simp only; rw [ih]

theorem Spec.Zip.imp_mem {α β : Type} {R S : α → β → Prop} {l : List α} {l' : List β} (h : Zip R l l')
    (hi : ∀ a b, a ∈ l → R a b → S a b) : Zip S l l' := by
  induction h with
  | nil => exact .nil
  | cons hab _ ih =>
    exact .cons (hi _ _ (by simp) hab) (ih fun a b ha => hi a b (by simp [ha]))

theorem zip_and {α β : Type} {R S : α → β → Prop} {l : List α} {l' : List β} (h : Zip R l l') (h' : Zip S l l') :
    Zip (fun a b => R a b ∧ S a b) l l' := by
  induction h with
  | nil => exact .nil
  | cons hab _ ih => cases h' with | cons hs hr => exact .cons ⟨hab, hs⟩ (ih hr)

theorem RMap.encrypt_alike {env : EncEnv} (hC : Opaque env.C env.key)
    {cfg : Option PartialEncryption} {m n : RMap Value} (hk : cfg ≠ none → KeysAgree cfg m)
    (h : Alike env.rx cfg m n) (hs : ∀ s, env.saved = some s → Zip (SameNonce s) (leaves m) (leaves n)) (i : Nat) : RMap.encrypt env cfg m i = RMap.encrypt env cfg n i := by
  have ht : travList (env.leafAt cfg) (leaves m) i = travList (env.leafAt cfg) (leaves n) i := by
    refine travList_zip ((zip_and h.2 (S := fun a b => ∀ s, env.saved = some s → SameNonce s a b) ?_).imp_mem ?_) i
    · cases hv : env.saved with
      | none => exact h.2.imp_mem fun _ _ _ _ _ h => by cases h
      | some t => exact (hs t hv).imp_mem fun _ _ _ h s hs => by cases hs; exact h
    · rintro ⟨p, v⟩ ⟨q, w⟩ hm ⟨⟨hpq, hv, hl, hpl⟩, hn⟩
      cases (hpq : p = q)
      exact ⟨rfl, fun s => leafAt_looksLike hC (fun hp => hpl ((plain_lastPart hk hm).1 hp)) hv hl hn s⟩
  rw [RMap.encrypt_eq_trav, RMap.encrypt_eq_trav]
  cases hm : travMap (env.leafAt cfg) [] m i with
  | error e =>
    have := travMap_error_iff.1 hm
    exact (travMap_error_iff.2 (ht.symm.trans this)).symm
  | ok r =>
    obtain ⟨m', j⟩ := r
    obtain ⟨h1, h2⟩ := travMap_ok_iff.1 hm
    exact (travMap_ok_iff.2 ⟨h1.trans h.1, ht.symm.trans h2⟩).symm

theorem length_utf8_hexDigit (n : Nat) (h : n < 16) : (String.utf8EncodeChar (hexDigit n)).length = 1 := by
  have : ∀ n : Fin 16, (String.utf8EncodeChar (hexDigit n)).length = 1 := by decide
  exact this ⟨n, h⟩

theorem length_utf8_hexUpper (b : Bytes) : (utf8 (hexUpper b)).length = 2 * b.length := by
  induction b with
  | nil => rfl
  | cons x r ih =>
    have hx : x.toNat < 256 := x.toNat_lt
    have h1 := length_utf8_hexDigit (x.toNat / 16) (by omega)
    have h2 := length_utf8_hexDigit (x.toNat % 16) (by omega)
    have : hexUpper (x :: r) = hexDigit (x.toNat / 16) :: hexDigit (x.toNat % 16) :: hexUpper r := rfl
    rw [this]
    unfold utf8 at ih ⊢
    simp only [List.flatMap_cons, List.length_append, h1, h2, ih, List.length_cons]
    omega

theorem Mac.compute_length {H : Hasher} (hH : FixedSize H) (rx : RegexMatch) (c c' : MacConfig) (m n : RMap Value) :
    (Mac.compute H rx c m).length = (Mac.compute H rx c' n).length := by
  unfold Mac.compute
  simp only [length_utf8_hexUpper]
  rw [hH]

theorem Mac.encrypt_opaque {C : Cipher} {key : Bytes} (hC : Opaque C key) {tape : Nat → Bytes} {date : Timestamp}
    {saved : Option SavedMacNonce} {a b : Mac} (h : a.length = b.length)
    (hs : ∀ s, saved = some s → (s.mac = a ↔ s.mac = b)) (i : Nat) :
    Mac.encrypt C tape key date saved a i = Mac.encrypt C tape key date saved b i := by
  have hn : Mac.nonceFor tape saved a i = Mac.nonceFor tape saved b i := by
    cases saved with
    | none => rfl
    | some s =>
      simp only [Mac.nonceFor]
      by_cases ha : s.mac = a
      · rw [if_pos ha, if_pos ((hs s rfl).1 ha)]
      · rw [if_neg ha, if_neg fun hb => ha ((hs s rfl).2 hb)]
  unfold Mac.encrypt
  simp only [hn, hC _ a b date.toBytes h]

end Rops
