import Verif.Spec.Tree
import Verif.Lemmas.Text
/-! Induction on trees, and traversals as traversals of the list of leaves. -/

namespace Rops
open Spec

/-- The code's bytes of a value are the specified ones. -/
theorem Value.asBytes_eq (v : Value) : v.asBytes = plainBytes v := by
  cases v with
  | boolean b => cases b <;> rfl
  | integer i =>
    unfold asBytes plainBytes showInt
    dsimp only
    generalize i.toInt = z
    cases z with
    | ofNat n =>
      have h : ¬ Int.ofNat n < 0 := Int.not_lt.2 (Int.natCast_nonneg n)
      rw [if_neg h]
      simp [toString, Int.repr, Nat.repr]
    | negSucc n => simp [toString, Int.repr, Nat.repr, Int.negSucc_lt_zero]
  | _ => rfl

theorem Tree.induct {α : Type} {P : Tree α → Prop} {PL : List (Tree α) → Prop} {PM : RMap α → Prop}
    (seq : ∀ l, PL l → P (.seq l)) (map : ∀ m, PM m → P (.map m)) (null : P .null)
    (leaf : ∀ a, P (.leaf a)) (nilL : PL []) (consL : ∀ t r, P t → PL r → PL (t :: r))
    (nilM : PM []) (consM : ∀ k t r, P t → PM r → PM ((k, t) :: r)) :
    (∀ t, P t) ∧ (∀ l, PL l) ∧ (∀ m, PM m) := by
  refine ⟨fun t => ?_, fun l => ?_, fun m => ?_⟩
  · exact Tree.rec (motive_1 := P) (motive_2 := PL) (motive_3 := PM) (motive_4 := fun p => P p.2)
      (fun l h => seq l h) (fun m h => map m h) null leaf nilL (fun t r h1 h2 => consL t r h1 h2)
      nilM (fun p r h1 h2 => consM p.1 p.2 r h1 h2) (fun _ _ h => h) t
  · exact Tree.rec_1 (motive_1 := P) (motive_2 := PL) (motive_3 := PM) (motive_4 := fun p => P p.2)
      (fun l h => seq l h) (fun m h => map m h) null leaf nilL (fun t r h1 h2 => consL t r h1 h2)
      nilM (fun p r h1 h2 => consM p.1 p.2 r h1 h2) (fun _ _ h => h) l
  · exact Tree.rec_2 (motive_1 := P) (motive_2 := PL) (motive_3 := PM) (motive_4 := fun p => P p.2)
      (fun l h => seq l h) (fun m h => map m h) null leaf nilL (fun t r h1 h2 => consL t r h1 h2)
      nilM (fun p r h1 h2 => consM p.1 p.2 r h1 h2) (fun _ _ h => h) m

/-! ## Shape and leaves determine the tree -/

theorem length_leaves_of_shape {α β : Type} :
    (∀ t : Tree α, ∀ (t' : Tree β) p q, shape t = shape t' → (leavesAt p t).length = (leavesAt q t').length) ∧
    (∀ l : List (Tree α), ∀ (l' : List (Tree β)) p q, shapeSeq l = shapeSeq l' →
      (leavesSeq p l).length = (leavesSeq q l').length) ∧
    (∀ m : RMap α, ∀ (m' : RMap β) p q, shapeMap m = shapeMap m' →
      (leavesMap p m).length = (leavesMap q m').length) := by
  apply Tree.induct
  · intro l ih t' p q h
    cases t' <;> simp only [shape, Tree.seq.injEq, reduceCtorEq] at h
    exact ih _ _ _ h
  · intro l ih t' p q h
    cases t' <;> simp only [shape, Tree.map.injEq, reduceCtorEq] at h
    exact ih _ _ _ h
  · intro t' p q h
    cases t' <;> simp only [shape, reduceCtorEq] at h
    rfl
  · intro a t' p q h
    cases t' <;> simp only [shape, reduceCtorEq] at h
    rfl
  · intro l' p q h
    cases l' <;> simp only [shapeSeq, reduceCtorEq] at h
    rfl
  · intro t r iht ihr l' p q h
    cases l' <;> simp only [shapeSeq, reduceCtorEq, List.cons.injEq] at h
    simp only [leavesSeq, List.length_append]
    rw [iht _ _ _ h.1, ihr _ _ _ h.2]
  · intro l' p q h
    cases l' <;> simp only [shapeMap, reduceCtorEq] at h
    rfl
  · intro k t r iht ihr l' p q h
    cases l' <;> simp only [shapeMap, reduceCtorEq, List.cons.injEq, Prod.mk.injEq] at h
    simp only [leavesMap, List.length_append]
    rw [iht _ _ _ h.1.2, ihr _ _ _ h.2]

theorem ext_of_shape_leaves {α : Type} :
    (∀ t t' : Tree α, ∀ p, shape t = shape t' → leavesAt p t = leavesAt p t' → t = t') ∧
    (∀ l l' : List (Tree α), ∀ p, shapeSeq l = shapeSeq l' → leavesSeq p l = leavesSeq p l' → l = l') ∧
    (∀ m m' : RMap α, ∀ p, shapeMap m = shapeMap m' → leavesMap p m = leavesMap p m' → m = m') := by
  apply Tree.induct
  · intro l ih t' p h hl
    cases t' <;> simp only [shape, Tree.seq.injEq, reduceCtorEq] at h
    rw [ih _ _ h hl]
  · intro l ih t' p h hl
    cases t' <;> simp only [shape, Tree.map.injEq, reduceCtorEq] at h
    rw [ih _ _ h hl]
  · intro t' p h hl
    cases t' <;> simp only [shape, reduceCtorEq] at h
    rfl
  · intro a t' p h hl
    cases t' <;> simp only [shape, reduceCtorEq] at h
    simp only [leavesAt, List.cons.injEq, Prod.mk.injEq, true_and, and_true] at hl
    rw [hl]
  · intro l' p h hl
    cases l' <;> simp only [shapeSeq, reduceCtorEq] at h
    rfl
  · intro t r iht ihr l' p h hl
    cases l' <;> simp only [shapeSeq, reduceCtorEq, List.cons.injEq] at h
    simp only [leavesSeq] at hl
    obtain ⟨h1, h2⟩ := List.append_inj hl (length_leaves_of_shape.1 _ _ _ _ h.1)
    rw [iht _ _ h.1 h1, ihr _ _ h.2 h2]
  · intro l' p h hl
    cases l' <;> simp only [shapeMap, reduceCtorEq] at h
    rfl
  · intro k t r iht ihr l' p h hl
    rcases l' with _ | ⟨⟨k', t'⟩, r'⟩ <;>
      simp only [shapeMap, reduceCtorEq, List.cons.injEq, Prod.mk.injEq] at h
    obtain ⟨⟨rfl, ht⟩, hr⟩ := h
    simp only [leavesMap] at hl
    obtain ⟨h1, h2⟩ := List.append_inj hl (length_leaves_of_shape.1 _ _ _ _ ht)
    rw [iht _ _ ht h1, ihr _ _ hr h2]

/-! ## Traversals -/

section
variable {α β σ ε : Type}

mutual
/-- A traversal that handles each leaf with `f`, threading a state. -/
def travTree (f : List Str → α → σ → Except ε (β × σ)) (p : List Str) :
    Tree α → σ → Except ε (Tree β × σ)
  | .seq l, s => match travSeq f p l s with
    | .ok (l, s) => .ok (.seq l, s)
    | .error e => .error e
  | .map m, s => match travMap f p m s with
    | .ok (m, s) => .ok (.map m, s)
    | .error e => .error e
  | .null, s => .ok (.null, s)
  | .leaf a, s => match f p a s with
    | .ok (b, s) => .ok (.leaf b, s)
    | .error e => .error e
def travSeq (f : List Str → α → σ → Except ε (β × σ)) (p : List Str) :
    List (Tree α) → σ → Except ε (List (Tree β) × σ)
  | [], s => .ok ([], s)
  | t :: r, s => match travTree f p t s with
    | .ok (t, s) => match travSeq f p r s with
      | .ok (r, s) => .ok (t :: r, s)
      | .error e => .error e
    | .error e => .error e
def travMap (f : List Str → α → σ → Except ε (β × σ)) (p : List Str) :
    RMap α → σ → Except ε (RMap β × σ)
  | [], s => .ok ([], s)
  | (k, t) :: r, s => match travTree f (p ++ [k]) t s with
    | .ok (t, s) => match travMap f p r s with
      | .ok (r, s) => .ok ((k, t) :: r, s)
      | .error e => .error e
    | .error e => .error e
end

/-- The traversal of a list of leaves. -/
def travList (f : List Str → α → σ → Except ε (β × σ)) :
    List (List Str × α) → σ → Except ε (List (List Str × β) × σ)
  | [], s => .ok ([], s)
  | (p, a) :: r, s => match f p a s with
    | .ok (b, s) => match travList f r s with
      | .ok (r, s) => .ok ((p, b) :: r, s)
      | .error e => .error e
    | .error e => .error e

theorem travList_append (f : List Str → α → σ → Except ε (β × σ)) (a b : List (List Str × α)) (s : σ) :
    travList f (a ++ b) s = match travList f a s with
      | .ok (a', s) => match travList f b s with
        | .ok (b', s) => .ok (a' ++ b', s)
        | .error e => .error e
      | .error e => .error e := by
  induction a generalizing s with
  | nil =>
    simp only [List.nil_append, travList]
    cases travList f b s with
    | error e => rfl
    | ok x => rfl
  | cons x r ih =>
    obtain ⟨p, x⟩ := x
    simp only [List.cons_append, travList]
    cases f p x s with
    | error e => rfl
    | ok y =>
      obtain ⟨y, s1⟩ := y
      simp only [ih]
      cases travList f r s1 with
      | error e => rfl
      | ok z =>
        obtain ⟨z, s2⟩ := z
        simp only
        cases travList f b s2 with
        | error e => rfl
        | ok w => rfl

theorem trav_spec (f : List Str → α → σ → Except ε (β × σ)) :
    (∀ t p s, match travTree f p t s with
      | .ok (t', s') => shape t' = shape t ∧ travList f (leavesAt p t) s = .ok (leavesAt p t', s')
      | .error e => travList f (leavesAt p t) s = .error e) ∧
    (∀ l p s, match travSeq f p l s with
      | .ok (l', s') => shapeSeq l' = shapeSeq l ∧ travList f (leavesSeq p l) s = .ok (leavesSeq p l', s')
      | .error e => travList f (leavesSeq p l) s = .error e) ∧
    (∀ m p s, match travMap f p m s with
      | .ok (m', s') => shapeMap m' = shapeMap m ∧ travList f (leavesMap p m) s = .ok (leavesMap p m', s')
      | .error e => travList f (leavesMap p m) s = .error e) := by
  apply Tree.induct
  · intro l ih p s
    have := ih p s
    simp only [travTree, leavesAt]
    revert this
    cases travSeq f p l s with
    | error e => exact id
    | ok x => intro h; exact ⟨congrArg _ h.1, h.2⟩
  · intro l ih p s
    have := ih p s
    simp only [travTree, leavesAt]
    revert this
    cases travMap f p l s with
    | error e => exact id
    | ok x => intro h; exact ⟨congrArg _ h.1, h.2⟩
  · intro p s
    exact ⟨rfl, rfl⟩
  · intro a p s
    simp only [travTree, leavesAt, travList]
    cases f p a s with
    | error e => rfl
    | ok x => exact ⟨rfl, rfl⟩
  · intro p s
    exact ⟨rfl, rfl⟩
  · intro t r iht ihr p s
    have h1 := iht p s
    simp only [travSeq, leavesSeq, travList_append]
    revert h1
    cases travTree f p t s with
    | error e => intro h1; rw [h1]
    | ok x =>
      obtain ⟨t', s1⟩ := x
      rintro ⟨h1, h1'⟩
      have h2 := ihr p s1
      revert h2
      simp only [h1']
      cases travSeq f p r s1 with
      | error e => intro h2; rw [h2]
      | ok y =>
        rintro ⟨h2, h2'⟩
        exact ⟨by simp only [shapeSeq, h1, h2], by rw [h2']; rfl⟩
  · intro p s
    exact ⟨rfl, rfl⟩
  · intro k t r iht ihr p s
    have h1 := iht (p ++ [k]) s
    simp only [travMap, leavesMap, travList_append]
    revert h1
    cases travTree f (p ++ [k]) t s with
    | error e => intro h1; rw [h1]
    | ok x =>
      obtain ⟨t', s1⟩ := x
      rintro ⟨h1, h1'⟩
      have h2 := ihr p s1
      revert h2
      simp only [h1']
      cases travMap f p r s1 with
      | error e => intro h2; rw [h2]
      | ok y =>
        rintro ⟨h2, h2'⟩
        exact ⟨by simp only [shapeMap, h1, h2], by rw [h2']; rfl⟩

theorem travMap_ok_iff {f : List Str → α → σ → Except ε (β × σ)} {p : List Str} {m : RMap α}
    {s s' : σ} {m' : RMap β} :
    travMap f p m s = .ok (m', s') ↔
      shapeMap m' = shapeMap m ∧ travList f (leavesMap p m) s = .ok (leavesMap p m', s') := by
  have h := (trav_spec f).2.2 m p s
  revert h
  cases ht : travMap f p m s with
  | error e =>
    intro h
    rw [h]
    simp
  | ok x =>
    obtain ⟨m'', s''⟩ := x
    rintro ⟨h1, h2⟩
    constructor
    · intro h; cases h; exact ⟨h1, h2⟩
    · rintro ⟨h3, h4⟩
      rw [h4] at h2
      injection h2 with h2
      injection h2 with h5 h6
      rw [ext_of_shape_leaves.2.2 m'' m' p (h1.trans h3.symm) h5.symm, h6]

theorem travMap_error_iff {f : List Str → α → σ → Except ε (β × σ)} {p : List Str} {m : RMap α}
    {s : σ} {e : ε} :
    travMap f p m s = .error e ↔ travList f (leavesMap p m) s = .error e := by
  have h := (trav_spec f).2.2 m p s
  revert h
  cases ht : travMap f p m s with
  | error e' => intro h; rw [h]; simp
  | ok x => rintro ⟨_, h2⟩; rw [h2]; simp

/-- The paths are kept. -/
theorem travList_paths {f : List Str → α → σ → Except ε (β × σ)} {l : List (List Str × α)} {s s' : σ}
    {l' : List (List Str × β)} (h : travList f l s = .ok (l', s')) :
    l'.map Prod.fst = l.map Prod.fst := by
  induction l generalizing s l' with
  | nil => simp only [travList] at h; cases h; rfl
  | cons x r ih =>
    obtain ⟨p, x⟩ := x
    simp only [travList] at h
    cases hf : f p x s with
    | error e => rw [hf] at h; cases h
    | ok y =>
      obtain ⟨y, s1⟩ := y
      rw [hf] at h
      simp only at h
      cases hr : travList f r s1 with
      | error e => rw [hr] at h; cases h
      | ok z =>
        rw [hr] at h
        cases h
        simp [ih hr]

/-- Unfolding of a successful traversal of a nonempty list. -/
theorem travList_cons_ok {f : List Str → α → σ → Except ε (β × σ)} {p : List Str} {a : α}
    {r : List (List Str × α)} {s s' : σ} {l' : List (List Str × β)} :
    travList f ((p, a) :: r) s = .ok (l', s') ↔
      ∃ b s1 r', f p a s = .ok (b, s1) ∧ travList f r s1 = .ok (r', s') ∧ l' = (p, b) :: r' := by
  simp only [travList]
  cases f p a s with
  | error e => simp
  | ok y =>
    obtain ⟨y, s1⟩ := y
    simp only [Except.ok.injEq, Prod.mk.injEq]
    cases hr : travList f r s1 with
    | error e =>
      constructor
      · intro h; cases h
      · rintro ⟨b, s2, r', ⟨rfl, rfl⟩, h, _⟩; rw [hr] at h; cases h
    | ok z =>
      obtain ⟨z, s2⟩ := z
      simp only [Except.ok.injEq, Prod.mk.injEq]
      constructor
      · rintro ⟨rfl, rfl⟩; exact ⟨y, s1, z, ⟨rfl, rfl⟩, hr, rfl⟩
      · rintro ⟨b, s3, r', ⟨rfl, rfl⟩, h, rfl⟩
        rw [hr] at h
        cases h
        exact ⟨rfl, rfl⟩

/-- Traversals of maps with leaf functions that agree on the leaves agree. -/
theorem travList_congr {f g : List Str → α → σ → Except ε (β × σ)} {l : List (List Str × α)} {s : σ}
    (h : ∀ pa ∈ l, ∀ s, f pa.1 pa.2 s = g pa.1 pa.2 s) : travList f l s = travList g l s := by
  induction l generalizing s with
  | nil => rfl
  | cons x r ih =>
    obtain ⟨p, a⟩ := x
    simp only [travList]
    rw [h (p, a) (by simp)]
    cases g p a s with
    | error e => rfl
    | ok y => simp only; rw [ih (fun pa hpa => h pa (by simp [hpa]))]

end

/-! ## IndexMap -/

theorem IndexMap.get_eq_none {β : Type} {m : List (Str × β)} {k : Str} :
    IndexMap.get m k = none ↔ k ∉ m.map Prod.fst := by
  induction m with
  | nil => simp [IndexMap.get]
  | cons x r ih =>
    obtain ⟨k', v⟩ := x
    simp only [IndexMap.get, List.map_cons, List.mem_cons, not_or]
    by_cases h : k' = k
    · simp [h]
    · simp only [h, if_false, ih]
      constructor
      · intro h2; exact ⟨fun e => h e.symm, h2⟩
      · exact fun h2 => h2.2

theorem IndexMap.insert_of_not_mem {β : Type} {m : List (Str × β)} {k : Str} {v : β}
    (h : k ∉ m.map Prod.fst) : IndexMap.insert m k v = m ++ [(k, v)] := by
  induction m with
  | nil => rfl
  | cons x r ih =>
    obtain ⟨k', v'⟩ := x
    simp only [List.map_cons, List.mem_cons, not_or] at h
    simp only [IndexMap.insert, if_neg (fun e => h.1 (Eq.symm e)), ih h.2, List.cons_append]

/-- Inserting entries with distinct keys one by one into an empty `IndexMap` gives the list of
the entries. -/
theorem IndexMap.build_eq {β : Type} (m : List (Str × β)) (h : (m.map Prod.fst).Nodup) :
    m.foldl (fun acc kv => IndexMap.insert acc kv.1 kv.2) [] = m := by
  have : ∀ (acc : List (Str × β)), ((acc ++ m).map Prod.fst).Nodup →
      m.foldl (fun acc kv => IndexMap.insert acc kv.1 kv.2) acc = acc ++ m := by
    clear h
    induction m with
    | nil => intro acc _; simp
    | cons x r ih =>
      intro acc hacc
      rw [List.foldl_cons, IndexMap.insert_of_not_mem, ih]
      · simp
      · simpa using hacc
      · intro hm
        simp only [List.map_append, List.map_cons, List.nodup_append] at hacc
        exact hacc.2.2 x.1 hm x.1 (by simp) rfl
  simpa using this [] (by simpa using h)

end Rops
