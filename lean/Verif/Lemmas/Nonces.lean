import Verif.Lemmas.MapCrypt
/-! Lemmas on the nonces used by map encryption. -/

namespace Rops
open Spec

section
variable {α β σ ε : Type}

/-- The leaf at each position is handled by `f` in some state. -/
theorem travList_getElem {f : List Str → α → σ → Except ε (β × σ)} {l : List (List Str × α)} {s s' : σ}
    {l' : List (List Str × β)} (h : travList f l s = .ok (l', s')) {n : Nat} {p : List Str} {a : α}
    (hn : l[n]? = some (p, a)) : ∃ b s1 s2, l'[n]? = some (p, b) ∧ f p a s1 = .ok (b, s2) := by
  induction l generalizing s l' n with
  | nil => simp at hn
  | cons x r ih =>
    obtain ⟨q, y⟩ := x
    obtain ⟨b, s1, r', h1, h2, rfl⟩ := travList_cons_ok.1 h
    cases n with
    | zero =>
      simp only [List.getElem?_cons_zero, Option.some.injEq, Prod.mk.injEq] at hn
      obtain ⟨rfl, rfl⟩ := hn
      exact ⟨b, s, s1, rfl, h1⟩
    | succ n =>
      simp only [List.getElem?_cons_succ] at hn ⊢
      exact ih h2 hn

theorem travList_getElem' {f : List Str → α → σ → Except ε (β × σ)} {l : List (List Str × α)} {s s' : σ}
    {l' : List (List Str × β)} (h : travList f l s = .ok (l', s')) {n : Nat} {p : List Str} {b : β}
    (hn : l'[n]? = some (p, b)) : ∃ a s1 s2, l[n]? = some (p, a) ∧ f p a s1 = .ok (b, s2) := by
  induction l generalizing s l' n with
  | nil => simp only [travList] at h; cases h; simp at hn
  | cons x r ih =>
    obtain ⟨q, y⟩ := x
    obtain ⟨b', s1, r', h1, h2, rfl⟩ := travList_cons_ok.1 h
    cases n with
    | zero =>
      simp only [List.getElem?_cons_zero, Option.some.injEq, Prod.mk.injEq] at hn
      obtain ⟨rfl, rfl⟩ := hn
      exact ⟨y, s, s1, rfl, h1⟩
    | succ n =>
      simp only [List.getElem?_cons_succ] at hn ⊢
      exact ih h2 hn

theorem travList_length {f : List Str → α → σ → Except ε (β × σ)} {l : List (List Str × α)} {s s' : σ}
    {l' : List (List Str × β)} (h : travList f l s = .ok (l', s')) : l'.length = l.length := by
  have := congrArg List.length (travList_paths h)
  simpa using this

/-- A traversal whose leaf function always succeeds succeeds. -/
theorem travList_total {f : List Str → α → σ → Except ε (β × σ)} (hf : ∀ p a s, ∃ x, f p a s = .ok x)
    (l : List (List Str × α)) (s : σ) : ∃ x, travList f l s = .ok x := by
  induction l generalizing s with
  | nil => exact ⟨_, rfl⟩
  | cons x r ih =>
    obtain ⟨p, a⟩ := x
    obtain ⟨⟨b, s1⟩, hb⟩ := hf p a s
    obtain ⟨⟨r', s2⟩, hr⟩ := ih s1
    exact ⟨_, travList_cons_ok.2 ⟨b, s1, r', hb, hr, rfl⟩⟩

end

theorem Value.encrypt_total {C : Cipher} (hC : C.Total) (n k : Bytes) (p : Str) (v : Value) :
    ∃ e, v.encrypt C n k p = some e := by
  unfold Value.encrypt
  rw [Value.asBytes_eq]
  have := hC n k (plainBytes v) (utf8 p)
  cases h : C.encrypt n k (plainBytes v) (utf8 p) with
  | none => rw [h] at this; cases this
  | some x => exact ⟨_, rfl⟩

theorem RMap.encrypt_total {env : EncEnv} (hC : env.C.Total) (cfg : Option PartialEncryption) (m : RMap Value)
    (i : Nat) : ∃ m' j, RMap.encrypt env cfg m i = .ok (m', j) := by
  have hf : ∀ p v i, ∃ x, env.leafAt cfg p v i = .ok x := by
    intro p v i
    unfold EncEnv.leafAt EncEnv.encLeaf
    split
    · exact ⟨_, rfl⟩
    · obtain ⟨e, he⟩ := Value.encrypt_total hC (env.nonceFor (pathText p) v i).1 env.key (pathText p) v
      simp only [he]
      exact ⟨_, rfl⟩
  obtain ⟨⟨l, j⟩, hl⟩ := travList_total hf (leaves m) i
  rw [RMap.encrypt_eq_trav]
  cases ht : travMap (env.leafAt cfg) [] m i with
  | ok x => exact ⟨x.1, x.2, rfl⟩
  | error e =>
    have := travMap_error_iff.1 ht
    rw [show leavesMap [] m = leaves m from rfl, hl] at this
    cases this

theorem Value.nonce_of_encrypt {C : Cipher} {n k : Bytes} {p : Str} {v : Value} {e : EncValue}
    (h : v.encrypt C n k p = some e) : e.nonce = n ∧ e.variant = v.variant := by
  unfold Value.encrypt at h
  split at h
  · cases h; exact ⟨rfl, rfl⟩
  · cases h

theorem nonces_fresh {env : EncEnv} (hs : env.saved = none) {cfg : Option PartialEncryption}
    {vs : List (List Str × Value)} {ls : List (List Str × EncLeaf)} {i j : Nat}
    (h : travList (env.leafAt cfg) vs i = .ok (ls, j)) :
    i ≤ j ∧ noncesOf ls = (List.range' i (j - i)).map env.tape := by
  induction vs generalizing ls i with
  | nil => simp only [travList] at h; cases h; simp [noncesOf]
  | cons x r ih =>
    obtain ⟨p, v⟩ := x
    obtain ⟨l, i1, ls', h1, h2, rfl⟩ := travList_cons_ok.1 h
    obtain ⟨hij, ih⟩ := ih h2
    rcases EncEnv.leafAt_ok.1 h1 with ⟨_, rfl, rfl⟩ | ⟨_, e, rfl, he, rfl⟩
    · exact ⟨hij, by simpa [noncesOf] using ih⟩
    · have hn : env.nonceFor (pathText p) v i = (env.tape i, i + 1) := by
        simp [EncEnv.nonceFor, hs]
      rw [hn] at hij ih he
      simp only at hij ih he
      refine ⟨by omega, ?_⟩
      have : j - i = (j - (i + 1)) + 1 := by omega
      rw [this, List.range'_succ]
      simp only [noncesOf, List.filterMap_cons, List.map_cons, (Value.nonce_of_encrypt he).1]
      rw [← ih]
      rfl

/-- A nonce comes from the saved table or is a draw not used before. -/
theorem nonce_source {env : EncEnv} {cfg : Option PartialEncryption}
    {vs : List (List Str × Value)} {ls : List (List Str × EncLeaf)} {i j : Nat}
    (h : travList (env.leafAt cfg) vs i = .ok (ls, j)) :
    i ≤ j ∧ ∀ (n : Nat) (p : List Str) (e : EncValue) (v : Value), ls[n]? = some (p, .encrypted e) → vs[n]? = some (p, v) →
      (∃ s, env.saved = some s ∧ s.get (pathText p) v = some e.nonce) ∨
      (∃ k, i ≤ k ∧ k < j ∧ e.nonce = env.tape k) := by
  induction vs generalizing ls i with
  | nil => simp only [travList] at h; cases h; simp
  | cons x r ih =>
    obtain ⟨p, v⟩ := x
    obtain ⟨l, i1, ls', h1, h2, rfl⟩ := travList_cons_ok.1 h
    obtain ⟨hij, ih⟩ := ih h2
    have hi : i ≤ i1 := by
      rcases EncEnv.leafAt_ok.1 h1 with ⟨_, rfl, rfl⟩ | ⟨_, e, rfl, he, rfl⟩
      · omega
      · unfold EncEnv.nonceFor; split <;> simp
    refine ⟨by omega, ?_⟩
    intro n q e w hl hv
    cases n with
    | succ n =>
      simp only [List.getElem?_cons_succ] at hl hv
      rcases ih n q e w hl hv with h | ⟨k, hk1, hk2, hk3⟩
      · exact .inl h
      · exact .inr ⟨k, by omega, hk2, hk3⟩
    | zero =>
      simp only [List.getElem?_cons_zero, Option.some.injEq, Prod.mk.injEq] at hl hv
      obtain ⟨rfl, rfl⟩ := hl
      obtain ⟨_, rfl⟩ := hv
      rcases EncEnv.leafAt_ok.1 h1 with ⟨_, h3, _⟩ | ⟨_, e', h3, he, hi1⟩
      · cases h3
      · cases h3
        rw [(Value.nonce_of_encrypt he).1]
        unfold EncEnv.nonceFor at hi1 ⊢
        split at hi1
        · rename_i nn hnn
          left
          obtain ⟨s, hs1, hs2⟩ := Option.bind_eq_some_iff.1 hnn
          exact ⟨s, hs1, hs2⟩
        · rename_i hnn
          right
          simp only at hi1
          exact ⟨i, by omega, by omega, rfl⟩

/-! ## The saved table -/

theorem SavedNonces.get_append_some {a b : SavedNonces} {p : Str} {v : Value} {n : Bytes}
    (h : a.get p v = some n) : SavedNonces.get (a ++ b) p v = some n := by
  induction a with
  | nil => cases h
  | cons x r ih =>
    obtain ⟨k, m⟩ := x
    simp only [List.cons_append, SavedNonces.get] at h ⊢
    split at h
    · rename_i hk; rw [if_pos hk]; exact h
    · rename_i hk; rw [if_neg hk]; exact ih h

theorem SavedNonces.get_append_none {a b : SavedNonces} {p : Str} {v : Value}
    (h : a.get p v = none) : SavedNonces.get (a ++ b) p v = b.get p v := by
  induction a with
  | nil => rfl
  | cons x r ih =>
    obtain ⟨k, m⟩ := x
    simp only [List.cons_append, SavedNonces.get] at h ⊢
    split at h
    · cases h
    · rename_i hk; rw [if_neg hk]; exact ih h

/-- An entry of the table stems from a leaf (or was there before). -/
theorem savedAll_get {ls : List (List Str × EncLeaf)} {vs : List (List Str × Value)} {s : SavedNonces}
    {p : Str} {v : Value} {n : Bytes} (h : (savedAll ls vs s).get p v = some n) :
    s.get p v = some n ∨ ∃ (i : Nat) (q : List Str) (e : EncValue) (q' : List Str),
      ls[i]? = some (q, .encrypted e) ∧ vs[i]? = some (q', v) ∧ pathText q = p ∧ e.nonce = n := by
  induction ls generalizing vs s with
  | nil => simp only [savedAll] at h; exact .inl h
  | cons x r ih =>
    obtain ⟨q, l⟩ := x
    rcases vs with _ | ⟨⟨q', w⟩, r'⟩
    · simp only [savedAll] at h; exact .inl h
    · simp only [savedAll] at h
      rcases ih h with h1 | ⟨i, q1, e, q2, h1, h2, h3⟩
      · cases l with
        | escaped _ => exact .inl h1
        | encrypted e =>
          simp only [savedOf, List.cons_append, List.nil_append, SavedNonces.get] at h1
          split at h1
          · rename_i hk
            cases h1
            simp only [Prod.mk.injEq] at hk
            exact .inr ⟨0, q, e, q', rfl, by rw [hk.2]; rfl, hk.1, rfl⟩
          · exact .inl h1
      · exact .inr ⟨i + 1, q1, e, q2, h1, h2, h3⟩

/-- An earlier entry of the table is not lost, only replaced by one for the same key. -/
theorem savedAll_get_isSome_of_base {ls : List (List Str × EncLeaf)} {vs : List (List Str × Value)}
    {s : SavedNonces} {p : Str} {v : Value} (h : (s.get p v).isSome) :
    ((savedAll ls vs s).get p v).isSome := by
  induction ls generalizing vs s with
  | nil => exact h
  | cons x r ih =>
    obtain ⟨q, l⟩ := x
    rcases vs with _ | ⟨⟨q', w⟩, r'⟩
    · exact h
    · simp only [savedAll]
      apply ih
      cases l with
      | escaped _ => exact h
      | encrypted e =>
        simp only [savedOf, List.cons_append, List.nil_append, SavedNonces.get]
        split
        · rfl
        · exact h

theorem savedAll_get_isSome {ls : List (List Str × EncLeaf)} {vs : List (List Str × Value)}
    {s : SavedNonces} {i : Nat} {q q' : List Str} {e : EncValue} {v : Value}
    (hl : ls[i]? = some (q, .encrypted e)) (hv : vs[i]? = some (q', v)) :
    ((savedAll ls vs s).get (pathText q) v).isSome := by
  induction ls generalizing vs s i with
  | nil => simp at hl
  | cons x r ih =>
    obtain ⟨q0, l⟩ := x
    rcases vs with _ | ⟨⟨q1, w⟩, r'⟩
    · simp at hv
    · simp only [savedAll]
      cases i with
      | zero =>
        simp only [List.getElem?_cons_zero, Option.some.injEq, Prod.mk.injEq] at hl hv
        obtain ⟨rfl, rfl⟩ := hl
        obtain ⟨rfl, rfl⟩ := hv
        apply savedAll_get_isSome_of_base
        simp [savedOf, SavedNonces.get]
      | succ i =>
        simp only [List.getElem?_cons_succ] at hl hv
        exact ih hl hv

/-- Encrypted leaves for the same key path and value have the same nonce. -/
def NonceFun (ls : List (List Str × EncLeaf)) (vs : List (List Str × Value)) : Prop :=
  ∀ (i j : Nat) (q1 q2 q1' q2' : List Str) (e1 e2 : EncValue) (v : Value), ls[i]? = some (q1, .encrypted e1) → ls[j]? = some (q2, .encrypted e2) →
    vs[i]? = some (q1', v) → vs[j]? = some (q2', v) → pathText q1 = pathText q2 → e1.nonce = e2.nonce

/-- With `NonceFun` the table gives back each leaf's own nonce. -/
theorem savedAll_get_eq {ls : List (List Str × EncLeaf)} {vs : List (List Str × Value)}
    (hf : NonceFun ls vs) {i : Nat} {q q' : List Str} {e : EncValue} {v : Value}
    (hl : ls[i]? = some (q, .encrypted e)) (hv : vs[i]? = some (q', v)) :
    (savedAll ls vs []).get (pathText q) v = some e.nonce := by
  have h := savedAll_get_isSome (s := []) hl hv
  obtain ⟨n, hn⟩ := Option.isSome_iff_exists.1 h
  rcases savedAll_get hn with h1 | ⟨j, q1, e1, q2, h1, h2, h3, h4⟩
  · cases h1
  · rw [hn, ← h4, hf j i q1 q q2 q' e1 e v h1 hl h2 hv h3]

/-- Encrypting again with a table that gives each leaf its own nonce gives the same leaves. -/
theorem trav_reencrypt {env env' : EncEnv} {cfg : Option PartialEncryption} {t : SavedNonces}
    (hC : env'.C = env.C) (hrx : env'.rx = env.rx) (hk : env'.key = env.key) (hs : env'.saved = some t)
    {vs : List (List Str × Value)} {ls : List (List Str × EncLeaf)} {i j i' : Nat}
    (h : travList (env.leafAt cfg) vs i = .ok (ls, j))
    (ht : ∀ (n : Nat) (q q' : List Str) (e : EncValue) (v : Value), ls[n]? = some (q, .encrypted e) → vs[n]? = some (q', v) →
      t.get (pathText q) v = some e.nonce) :
    travList (env'.leafAt cfg) vs i' = .ok (ls, i') := by
  induction vs generalizing ls i with
  | nil => simp only [travList] at h; cases h; rfl
  | cons x r ih =>
    obtain ⟨p, v⟩ := x
    obtain ⟨l, i1, ls', h1, h2, rfl⟩ := travList_cons_ok.1 h
    refine travList_cons_ok.2 ⟨l, i', ls', ?_, ih h2 (fun n q q' e v hl hv => ht (n + 1) q q' e v hl hv), rfl⟩
    rw [EncEnv.leafAt_ok, hC, hrx, hk]
    rcases EncEnv.leafAt_ok.1 h1 with ⟨hp, rfl, rfl⟩ | ⟨hp, e, rfl, he, rfl⟩
    · exact .inl ⟨hp, rfl, rfl⟩
    · have hget := ht 0 p p e v rfl rfl
      have hn : env'.nonceFor (pathText p) v i' = (e.nonce, i') := by
        simp [EncEnv.nonceFor, hs, hget]
      rw [hn]
      have := (Value.nonce_of_encrypt he).1
      refine .inr ⟨hp, e, rfl, ?_, rfl⟩
      simp only
      rw [this]
      exact he

end Rops
