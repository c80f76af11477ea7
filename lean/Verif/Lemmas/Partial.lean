import Verif.Spec.Tree
import Verif.Lemmas.Text
/-! Lemmas on key paths and the partial encryption decision. -/

namespace Rops
open Spec

theorem pathText_append (a b : List Str) : pathText (a ++ b) = pathText a ++ pathText b := by
  simp [pathText]

theorem pathText_concat (p : List Str) (k : Str) : pathText (p ++ [k]) = KeyPath.join (pathText p) k := by
  simp [pathText, KeyPath.join]

theorem lastPart_of_no_colon {k : Str} (h : ':' ∉ k) : lastPart k = k := by
  unfold lastPart
  have := List.takeWhile_append_of_pos (p := fun c : Char => decide (c ≠ ':')) (l₁ := k.reverse) (l₂ := [])
    (fun c hc => by simpa using fun e : c = ':' => h (e ▸ List.mem_reverse.1 hc))
  rw [List.append_nil] at this
  rw [this]
  simp

theorem lastPart_append_colon (a b : Str) (h : ':' ∉ b) : lastPart (a ++ ':' :: b) = b := by
  unfold lastPart
  rw [List.reverse_append, List.reverse_cons, List.append_assoc, List.takeWhile_append_of_pos, List.singleton_append,
    List.takeWhile_cons_of_neg (by simp), List.append_nil, List.reverse_reverse]
  intro c hc
  simpa using fun e : c = ':' => h (e ▸ List.mem_reverse.1 hc)

/-- A key has no ':', or it ends with a ':' and a part without. -/
theorem lastPart_cases (k : Str) : ':' ∉ k ∨ ∃ a b, k = a ++ ':' :: b ∧ ':' ∉ b := by
  induction k with
  | nil => exact .inl (by simp)
  | cons c r ih =>
    rcases ih with ih | ⟨a, b, rfl, hb⟩
    · by_cases hc : c = ':'
      · exact .inr ⟨[], r, by simp [hc], ih⟩
      · exact .inl (by simp [ih, Ne.symm hc])
    · exact .inr ⟨c :: a, b, rfl, hb⟩

theorem lastPart_eq_splitOn (k : Str) : (splitOn ':' k).getLast? = some (lastPart k) := by
  rcases lastPart_cases k with h | ⟨a, b, rfl, hb⟩
  · rw [lastPart_of_no_colon h, splitOn_of_not_mem h]; rfl
  · rw [lastPart_append_colon a b hb, splitOn_append_sep, List.getLast?_append, splitOn_of_not_mem hb]; rfl

/-- A text without ':' is at the end of a key exactly if it is at the end of the last part. -/
theorem suffix_lastPart {s k : Str} (hs : ':' ∉ s) : s <:+ lastPart k ↔ s <:+ k := by
  rcases lastPart_cases k with h | ⟨a, b, rfl, hb⟩
  · rw [lastPart_of_no_colon h]
  · rw [lastPart_append_colon a b hb]
    constructor
    · rintro ⟨t, rfl⟩; exact ⟨a ++ ':' :: t, by simp⟩
    · intro h
      have h2 : b <:+ a ++ ':' :: b := ⟨a ++ [':'], by simp⟩
      rcases List.suffix_or_suffix_of_suffix h h2 with h3 | ⟨t, rfl⟩
      · exact h3
      · obtain ⟨u, hu⟩ := h
        rw [← List.append_assoc, show a ++ ':' :: b = a ++ [':'] ++ b by simp] at hu
        have := (List.append_inj' hu rfl).1
        rcases List.eq_nil_or_concat t with rfl | ⟨t', c, rfl⟩
        · exact List.suffix_refl _
        · have hc : c = ':' := by
            rw [List.concat_eq_append, ← List.append_assoc] at this
            exact List.singleton_inj.1 (List.append_inj' this rfl).2
          exact absurd (by simp [hc]) hs

theorem getLast?_splitOn_pathText (p : List Str) (k : Str) :
    (splitOn ':' (pathText p ++ k)).getLast? = (splitOn ':' k).getLast? := by
  induction p with
  | nil => rfl
  | cons x xs ih =>
    have : pathText (x :: xs) ++ k = x ++ ':' :: (pathText xs ++ k) := by simp [pathText]
    rw [this, splitOn_append_sep, List.getLast?_append, ih]
    cases h : (splitOn ':' k).getLast? with
    | none => exact absurd (List.getLast?_eq_none_iff.1 h) (splitOn_ne_nil _ _)
    | some l => rfl

theorem KeyPath.last_join (p : List Str) (k : Str) :
    KeyPath.last (KeyPath.join (pathText p) k) = lastPart k := by
  unfold KeyPath.last KeyPath.join
  rw [stripSuffixChar_append]
  simp only [getLast?_splitOn_pathText]
  rw [lastPart_eq_splitOn]

theorem plain_lastPart {rx : RegexMatch} {cfg : Option PartialEncryption} {m : RMap Value}
    (hk : cfg ≠ none → KeysAgree cfg m) {p : List Str} {v : Value} (hp : (p, v) ∈ leaves m) :
    Plain rx cfg (p.map lastPart) ↔ Plain rx cfg p := by
  cases cfg with
  | none => rfl
  | some c =>
    rcases hk (by simp) with hk | ⟨s, hs, h | h⟩
    · have : p.map lastPart = p := by
        conv => rhs; rw [← List.map_id p]
        exact List.map_congr_left fun k hk' => lastPart_of_no_colon (hk _ hp k hk')
      rw [this]
    · cases h
      simp only [Plain, Matches, List.mem_map, forall_exists_index, and_imp, forall_apply_eq_imp_iff₂, suffix_lastPart hs]
    · cases h
      simp only [Plain, Matches, List.mem_map]
      constructor
      · rintro ⟨_, ⟨k, hk, rfl⟩, h⟩; exact ⟨k, hk, (suffix_lastPart hs).1 h⟩
      · rintro ⟨k, hk, h⟩; exact ⟨_, ⟨k, hk, rfl⟩, (suffix_lastPart hs).2 h⟩

/-- The decision after following a list of keys. -/
def Resolved.steps (rx : RegexMatch) (r : Resolved) (keys : List Str) : Resolved :=
  keys.foldl (Resolved.step rx) r

theorem Resolved.steps_concat (rx : RegexMatch) (r : Resolved) (p : List Str) (k : Str) :
    r.steps rx (p ++ [k]) = (r.steps rx p).step rx k := by
  simp [Resolved.steps]

theorem Resolved.steps_yes (rx : RegexMatch) (b : Bool) (keys : List Str) :
    (Resolved.yes b).steps rx keys = .yes b := by
  induction keys with
  | nil => rfl
  | cons k ks ih => exact ih

theorem Resolved.steps_no_cons (rx : RegexMatch) (cfg : PartialEncryption) (k : Str) (ks : List Str) :
    (Resolved.no cfg).steps rx (k :: ks) = (cfg.resolve rx k).steps rx ks := rfl

/-- The decision is the specified one. -/
theorem Resolved.escape_steps_iff (rx : RegexMatch) (cfg : Option PartialEncryption) (keys : List Str) :
    ((Resolved.ofConfig cfg).steps rx keys).escape = true ↔ Plain rx cfg keys := by
  cases cfg with
  | none => simp [Resolved.ofConfig, Resolved.steps_yes, Resolved.escape, Plain]
  | some cfg =>
    simp only [Resolved.ofConfig]
    cases cfg with
    | encryptedSuffix s =>
      simp only [Plain, Matches]
      induction keys with
      | nil => simp [Resolved.steps, Resolved.escape]
      | cons k ks ih =>
        rw [Resolved.steps_no_cons, PartialEncryption.resolve]
        by_cases h : endsWith k s = true
        · have h' := endsWith_iff.1 h
          simp only [h, if_true, Resolved.steps_yes, Resolved.escape, Bool.false_eq_true, List.mem_cons,
            forall_eq_or_imp, h', not_true_eq_false, false_and]
        · have h' : ¬ s <:+ k := fun e => h (endsWith_iff.2 e)
          simp only [h, Bool.false_eq_true, if_false, ih, List.mem_cons, forall_eq_or_imp, h',
            not_false_eq_true, true_and]
    | encryptedRegex r =>
      simp only [Plain, Matches]
      induction keys with
      | nil => simp [Resolved.steps, Resolved.escape]
      | cons k ks ih =>
        rw [Resolved.steps_no_cons, PartialEncryption.resolve]
        by_cases h : rx r k = true
        · simp [h, Resolved.steps_yes, Resolved.escape]
        · simp only [h, Bool.false_eq_true, if_false, ih, List.mem_cons, forall_eq_or_imp,
            not_false_eq_true, true_and]
    | unencryptedSuffix s =>
      simp only [Plain, Matches]
      induction keys with
      | nil => simp [Resolved.steps, Resolved.escape]
      | cons k ks ih =>
        rw [Resolved.steps_no_cons, PartialEncryption.resolve]
        by_cases h : endsWith k s = true
        · have h' := endsWith_iff.1 h
          simp only [h, if_true, Resolved.steps_yes, Resolved.escape, List.mem_cons,
            exists_eq_or_imp, h', true_or]
        · have h' : ¬ s <:+ k := fun e => h (endsWith_iff.2 e)
          simp only [h, Bool.false_eq_true, if_false, ih, List.mem_cons, exists_eq_or_imp, h', false_or]
    | unencryptedRegex r =>
      simp only [Plain, Matches]
      induction keys with
      | nil => simp [Resolved.steps, Resolved.escape]
      | cons k ks ih =>
        rw [Resolved.steps_no_cons, PartialEncryption.resolve]
        by_cases h : rx r k = true
        · simp [h, Resolved.steps_yes, Resolved.escape]
        · simp only [h, Bool.false_eq_true, if_false, ih, List.mem_cons, exists_eq_or_imp, false_or]

theorem pathText_injective {p q : List Str} (hp : ∀ k ∈ p, ':' ∉ k) (hq : ∀ k ∈ q, ':' ∉ k)
    (h : pathText p = pathText q) : p = q := by
  induction p generalizing q with
  | nil =>
    cases q with
    | nil => rfl
    | cons y ys => simp [pathText] at h
  | cons x xs ih =>
    cases q with
    | nil => simp [pathText] at h
    | cons y ys =>
      have e1 : pathText (x :: xs) = x ++ ':' :: pathText xs := by simp [pathText]
      have e2 : pathText (y :: ys) = y ++ ':' :: pathText ys := by simp [pathText]
      rw [e1, e2] at h
      have h1 := congrArg (splitOnce ':') h
      rw [splitOnce_append _ (hp x (by simp)), splitOnce_append _ (hq y (by simp))] at h1
      simp only [Option.some.injEq, Prod.mk.injEq] at h1
      rw [h1.1, ih (fun k hk => hp k (by simp [hk])) (fun k hk => hq k (by simp [hk])) h1.2]

end Rops
