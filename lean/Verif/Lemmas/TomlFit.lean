import Verif.Lemmas.TomlMeaning
/-!
# Which statements fit together
-/

namespace Rops
open Spec

/-- What an item is. -/
def TomlItem.kind : Option TomlItem → TomlKind
  | none => .nothing
  | some (.value _) => .value
  | some (.tables _) => .tables
  | some (.table i d _) => .table (!i) d

/-- What a path leads to in an item. -/
def kindAt (T : TomlItem) (q : List Str) : TomlKind := TomlItem.kind (TomlItem.lastAt q T)

/-- The last tables of arrays are tables with a header. -/
def GoodTables (T : TomlItem) : Prop := ∀ q l, TomlItem.lastAt q T = some (.tables l) → ∃ l' m, l = l' ++ [.table false false m]

/-- The same marks. -/
def SameMarks : TomlItem → TomlItem → Prop
  | .table i d _, .table i' d' _ => i = i' ∧ d = d'
  | _, _ => False

theorem kind_same {X X' : TomlItem} (h : SameMarks X X') : TomlItem.kind (some X') = TomlItem.kind (some X) := by
  cases X <;> cases X' <;> try exact absurd h id
  obtain ⟨rfl, rfl⟩ := h
  rfl

theorem changed_marks {b : Bool} {X X' T T' : TomlItem} {p : List Str} (h : Changed b X X' p T T') (hm : SameMarks X X') : SameMarks T T' := by
  cases h with
  | here => exact hm
  | _ => exact ⟨rfl, rfl⟩

theorem sameMarks_tables {X X' : TomlItem} (h : SameMarks X X') : IsTable X ∧ IsTable X' := by
  cases X <;> cases X' <;> first | exact absurd h id | exact ⟨trivial, trivial⟩

/-- What paths lead to after a change, apart from those below it. -/
theorem changed_kind {b : Bool} {X X' T T' : TomlItem} {p : List Str} (h : Changed b X X' p T T') (hm : SameMarks X X') (q : List Str)
    (hn : ∀ r, r ≠ [] → q ≠ p ++ r) :
    kindAt T' q = if kindAt T q = .nothing ∧ q <+: p then .table false b else kindAt T q := by
  have hX := (sameMarks_tables hm).1
  have hX' := (sameMarks_tables hm).2
  induction h generalizing q with
  | here =>
    have : q = [] := Classical.byContradiction fun h => hn q h rfl
    subst this
    unfold kindAt
    rw [TomlItem.lastAt, TomlItem.lastAt, kind_same hm]
    cases X with
    | table => simp [TomlItem.kind]
    | _ => exact absurd hX id
  | @new i d m k p t' hg hc ih =>
    cases q with
    | nil => simp [kindAt, TomlItem.lastAt, TomlItem.kind]
    | cons k' q =>
      by_cases hk : k' = k
      · subst hk
        have h1 : kindAt (.table i d (IndexMap.insert m k' t')) (k' :: q) = kindAt t' q := by
          unfold kindAt; rw [lastAt_get (IndexMap.get_insert _ _ _)]
        have h2 : kindAt (.table i d m) (k' :: q) = .nothing := by
          unfold kindAt; rw [lastAt_none hg]; rfl
        rw [h1, h2, ih q (fun r hr hqr => hn r hr (by rw [hqr]; rfl))]
        simp only [List.cons_prefix_cons, true_and]
        by_cases h0 : q = []
        · subst h0
          simp [kindAt, TomlItem.lastAt, TomlItem.kind]
        · have h3 : kindAt (.table true b []) q = .nothing := by
            unfold kindAt; rw [lastAt_empty rfl h0]; rfl
          rw [h3]
          simp
      · have h1 : kindAt (.table i d (IndexMap.insert m k t')) (k' :: q) = kindAt (.table i d m) (k' :: q) := by
          simp only [kindAt, TomlItem.lastAt, TomlItem.entries, get_insert_ne m _ hk]
        rw [h1, if_neg (by simp [hk])]
  | @table i d i1 d1 m m1 k p t' hg _ hc ih =>
    cases q with
    | nil => simp [kindAt, TomlItem.lastAt, TomlItem.kind]
    | cons k' q =>
      by_cases hk : k' = k
      · subst hk
        have h1 : kindAt (.table i d (IndexMap.insert m k' t')) (k' :: q) = kindAt t' q := by
          unfold kindAt; rw [lastAt_get (IndexMap.get_insert _ _ _)]
        have h2 : kindAt (.table i d m) (k' :: q) = kindAt (.table i1 d1 m1) q := by
          unfold kindAt; rw [lastAt_get hg]
        rw [h1, h2, ih q (fun r hr hqr => hn r hr (by rw [hqr]; rfl))]
        simp only [List.cons_prefix_cons, true_and]
      · have h1 : kindAt (.table i d (IndexMap.insert m k t')) (k' :: q) = kindAt (.table i d m) (k' :: q) := by
          simp only [kindAt, TomlItem.lastAt, TomlItem.entries, get_insert_ne m _ hk]
        rw [h1, if_neg (by simp [hk])]
  | @tables i d m l k p t t' hg hc ih =>
    cases q with
    | nil => simp [kindAt, TomlItem.lastAt, TomlItem.kind]
    | cons k' q =>
      by_cases hk : k' = k
      · subst hk
        by_cases h0 : q = []
        · subst h0
          have h1 : kindAt (.table i d (IndexMap.insert m k' (.tables (l ++ [t'])))) [k'] = .tables := by
            unfold kindAt; rw [lastAt_get (IndexMap.get_insert _ _ _)]; rfl
          have h2 : kindAt (.table i d m) [k'] = .tables := by
            unfold kindAt; rw [lastAt_get hg]; rfl
          rw [h1, h2]
          simp
        · have h1 : kindAt (.table i d (IndexMap.insert m k' (.tables (l ++ [t'])))) (k' :: q) = kindAt t' q := by
            unfold kindAt; rw [lastAt_get (IndexMap.get_insert _ _ _), lastAt_tables (changed_isTable' hc hX') h0]
          have h2 : kindAt (.table i d m) (k' :: q) = kindAt t q := by
            unfold kindAt; rw [lastAt_get hg, lastAt_tables (changed_isTable hc hX) h0]
          rw [h1, h2, ih q (fun r hr hqr => hn r hr (by rw [hqr]; rfl))]
          simp only [List.cons_prefix_cons, true_and]
      · have h1 : kindAt (.table i d (IndexMap.insert m k (.tables (l ++ [t'])))) (k' :: q) = kindAt (.table i d m) (k' :: q) := by
          simp only [kindAt, TomlItem.lastAt, TomlItem.entries, get_insert_ne m _ hk]
        rw [h1, if_neg (by simp [hk])]

theorem changed_kind_below {b : Bool} {X X' T T' : TomlItem} {p : List Str} (h : Changed b X X' p T T') (hX : IsTable X) (hX' : IsTable X')
    {r : List Str} (hr : r ≠ []) : kindAt T (p ++ r) = kindAt X r ∧ kindAt T' (p ++ r) = kindAt X' r := by
  obtain ⟨h1, h2⟩ := changed_below h hX hX' hr
  exact ⟨by rw [kindAt, h1]; rfl, by rw [kindAt, h2]; rfl⟩

theorem goodTables_get {i d : Bool} {m : List (Str × TomlItem)} (h : GoodTables (.table i d m)) {k : Str} {x : TomlItem}
    (hg : IndexMap.get m k = some x) : GoodTables x := fun q l hq => h (k :: q) l (by rw [lastAt_get hg]; exact hq)

theorem goodTables_last {l : List TomlItem} {t : TomlItem} (h : GoodTables (.tables (l ++ [t]))) : IsTable t ∧ GoodTables t := by
  obtain ⟨l', m, he⟩ := h [] _ rfl
  obtain ⟨rfl, h1⟩ := List.append_inj' he rfl
  cases h1
  refine ⟨trivial, fun q l hq => ?_⟩
  by_cases h0 : q = []
  · subst h0; cases hq
  · exact h q l (by rw [lastAt_tables (show IsTable (.table false false _) from trivial) h0]; exact hq)

theorem goodTables_table {i d : Bool} {m : List (Str × TomlItem)} (h : ∀ k x, IndexMap.get m k = some x → GoodTables x) : GoodTables (.table i d m) := by
  intro q l hq
  cases q with
  | nil => cases hq
  | cons k q =>
    rw [TomlItem.lastAt] at hq
    simp only [TomlItem.entries] at hq
    split at hq
    · cases hq
    · rename_i x hx
      exact h k x hx q l hq

theorem goodTables_value (v : Toml) : GoodTables (.value v) := by
  intro q l hq
  cases q with
  | nil => cases hq
  | cons k q => cases hq

theorem goodTables_tables (l : List TomlItem) {m : List (Str × TomlItem)} (h : GoodTables (.table false false m)) :
    GoodTables (.tables (l ++ [.table false false m])) := by
  intro q l' hq
  by_cases h0 : q = []
  · subst h0; cases hq; exact ⟨_, _, rfl⟩
  · rw [lastAt_tables (show IsTable (.table false false _) from trivial) h0] at hq
    exact h q l' hq

theorem changed_good {b : Bool} {X X' T T' : TomlItem} {p : List Str} (h : Changed b X X' p T T') (hm : SameMarks X X')
    (hg : GoodTables X → GoodTables X') : GoodTables T → GoodTables T' := by
  have ins : ∀ {i d : Bool} {m : List (Str × TomlItem)} {k : Str} {x : TomlItem}, GoodTables (.table i d m) → GoodTables x →
      GoodTables (.table i d (IndexMap.insert m k x)) := by
    intro i d m k x h hx
    refine goodTables_table fun k' y hy => ?_
    by_cases hk : k' = k
    · subst hk
      rw [IndexMap.get_insert] at hy
      cases hy
      exact hx
    · rw [get_insert_ne m _ hk] at hy
      exact goodTables_get h hy
  induction h with
  | here => exact hg
  | new _ _ ih => exact fun h => ins h (ih (goodTables_table (fun _ _ h => nomatch h)))
  | table hx _ _ ih => exact fun h => ins h (ih (goodTables_get h hx))
  | @tables i d m l k p t t' hx hc ih =>
    intro h
    have h1 := goodTables_get h hx
    obtain ⟨l', m', he⟩ := h1 [] _ rfl
    obtain ⟨rfl, h2⟩ := List.append_inj' he rfl
    cases h2
    have h3 := changed_marks hc hm
    have h4 := ih (goodTables_last h1).2
    cases t' with
    | table i' d' m' =>
      obtain ⟨rfl, rfl⟩ := h3
      exact ins h (goodTables_tables l h4)
    | value => exact absurd h3 id
    | tables => exact absurd h3 id

/-- The table at the end of a path, or the one that is made. -/
def TomlItem.target (b : Bool) (p : List Str) (T : TomlItem) : TomlItem := match TomlItem.lastAt p T with
  | none => .table true b []
  | some (.tables l) => match l.getLast? with
    | some t => t
    | none => .table true b []
  | some x => x

/-- A path that may be descended. -/
def Passable (b : Bool) (p : List Str) (T : TomlItem) : Prop :=
  ∀ r, r ≠ [] → r <+: p → kindAt T r ≠ .value ∧ (b = true → ∀ d, kindAt T r ≠ .table true d)

theorem passable_cons {b : Bool} {p : List Str} {i d : Bool} {m : List (Str × TomlItem)} {k : Str} {x : TomlItem} (hg : IndexMap.get m k = some x) :
    Passable b (k :: p) (.table i d m) ↔ (TomlItem.kind (some x) ≠ .value ∧ (b = true → ∀ d, TomlItem.kind (some x) ≠ .table true d)) ∧ Passable b p x := by
  have hk : ∀ r, kindAt (.table i d m) (k :: r) = kindAt x r := fun r => by unfold kindAt; rw [lastAt_get hg]
  constructor
  · intro h
    refine ⟨by have := h [k] (by simp) (by simp); rwa [hk] at this, fun r hr hp => ?_⟩
    have := h (k :: r) (by simp) (by simpa using hp)
    rwa [hk] at this
  · rintro ⟨h1, h2⟩ r hr hp
    cases r with
    | nil => exact absurd rfl hr
    | cons k' r =>
      rw [List.cons_prefix_cons] at hp
      obtain ⟨rfl, hp⟩ := hp
      rw [hk]
      by_cases h0 : r = []
      · subst h0; exact h1
      · exact h2 r h0 hp

theorem passable_empty {b : Bool} (p : List Str) {T : TomlItem} (h : T.entries = []) : Passable b p T := by
  intro r hr _
  rw [kindAt, lastAt_empty h hr]
  exact ⟨by decide, fun _ d h => nomatch h⟩

theorem target_empty {b : Bool} (p : List Str) : TomlItem.target b p (.table true b []) = .table true b [] := by
  unfold TomlItem.target
  by_cases h : p = []
  · subst h; rfl
  · rw [lastAt_empty rfl h]

theorem descend_isSome {b : Bool} {f : TomlItem → Option TomlItem} {p : List Str} {T : TomlItem} (hT : IsTable T) (hg : GoodTables T) :
    (TomlItem.descend b f p T).isSome ↔ Passable b p T ∧ (f (TomlItem.target b p T)).isSome := by
  induction p generalizing T with
  | nil =>
    rw [TomlItem.descend]
    have : TomlItem.target b [] T = T := by
      cases T with
      | table => rfl
      | _ => exact absurd hT id
    rw [this]
    constructor
    · intro h
      refine ⟨fun r hr hp => absurd (List.prefix_nil.1 hp) hr, h⟩
    · exact And.right
  | cons k p ih =>
    cases T with
    | value => exact absurd hT id
    | tables => exact absurd hT id
    | table i d m =>
      rw [TomlItem.descend]
      cases hx : IndexMap.get m k with
      | none =>
        have h1 : TomlItem.target b (k :: p) (.table i d m) = .table true b [] := by
          unfold TomlItem.target; rw [lastAt_none hx]
        have h2 : Passable b (k :: p) (.table i d m) := by
          intro r hr hp
          cases r with
          | nil => exact absurd rfl hr
          | cons k' r =>
            rw [List.cons_prefix_cons] at hp
            obtain ⟨rfl, hp⟩ := hp
            rw [kindAt, lastAt_none hx]
            exact ⟨by decide, fun _ d h => nomatch h⟩
        have h3 := ih (T := .table true b []) trivial (goodTables_table (fun _ _ h => nomatch h))
        rw [target_empty] at h3
        have h4 : Passable b p (.table true b []) := passable_empty p rfl
        simp only [h4, true_and] at h3
        simp only [h1, h2, true_and]
        rw [← h3]
        cases TomlItem.descend b f p (.table true b []) <;> rfl
      | some x =>
        have h1 : TomlItem.target b (k :: p) (.table i d m) = TomlItem.target b p x := by
          unfold TomlItem.target; rw [lastAt_get hx]
        rw [passable_cons hx, h1]
        have hgx := goodTables_get hg hx
        cases x with
        | value v =>
          simp [TomlItem.kind]
        | table i1 d1 m1 =>
          have h3 := ih (T := .table i1 d1 m1) trivial hgx
          simp only
          by_cases hb : (b && !i1) = true
          · rw [if_pos hb]
            simp only [Bool.and_eq_true, Bool.not_eq_true'] at hb
            obtain ⟨rfl, rfl⟩ := hb
            simp [TomlItem.kind]
          · rw [if_neg hb]
            have h5 : TomlItem.kind (some (.table i1 d1 m1)) ≠ .value ∧ (b = true → ∀ d, TomlItem.kind (some (.table i1 d1 m1)) ≠ .table true d) := by
              refine ⟨by simp [TomlItem.kind], ?_⟩
              rintro rfl d h
              simp only [TomlItem.kind, TomlKind.table.injEq, Bool.not_eq_true'] at h
              rw [h.1] at hb
              exact hb rfl
            rw [and_iff_right h5, ← h3]
            cases TomlItem.descend b f p (.table i1 d1 m1) <;> rfl
        | tables l =>
          obtain ⟨l', m', rfl⟩ := hgx [] _ rfl
          obtain ⟨h6, h7⟩ := goodTables_last hgx
          have h3 := ih (T := .table false false m') h6 h7
          have h8 : Passable b p (.tables (l' ++ [.table false false m'])) ↔ Passable b p (.table false false m') := by
            have : ∀ r, r ≠ [] → kindAt (.tables (l' ++ [.table false false m'])) r = kindAt (.table false false m') r := fun r hr => by
              unfold kindAt; rw [lastAt_tables (show IsTable (.table false false _) from trivial) hr]
            constructor
            · intro h r hr hp; have h' := h r hr hp; rwa [this r hr] at h'
            · intro h r hr hp; rw [this r hr]; exact h r hr hp
          have h9 : TomlItem.target b p (.tables (l' ++ [.table false false m'])) = TomlItem.target b p (.table false false m') := by
            unfold TomlItem.target
            by_cases h0 : p = []
            · subst h0
              simp [TomlItem.lastAt]
            · rw [lastAt_tables (show IsTable (.table false false _) from trivial) h0]
          rw [h8, h9]
          have h5 : TomlItem.kind (some (.tables (l' ++ [.table false false m']))) ≠ .value ∧
              (b = true → ∀ d, TomlItem.kind (some (.tables (l' ++ [.table false false m']))) ≠ .table true d) := by
            simp [TomlItem.kind]
          rw [and_iff_right h5, ← h3]
          simp only [List.getLast?_concat]
          cases TomlItem.descend b f p (.table false false m') <;> rfl

/-! ## The three changes -/

theorem addEntry_kind {dotted : Bool} {k : Str} {v : Toml} {X X' : TomlItem} (h : TomlItem.addEntry dotted k v X = some X')
    {q : List Str} (hq : q ≠ []) : kindAt X' q = if q = [k] then .value else kindAt X q := by
  obtain ⟨i, d, m, rfl, hg, rfl⟩ := addEntry_inv h
  unfold kindAt
  cases q with
  | nil => exact absurd rfl hq
  | cons k' q =>
    by_cases hk : k' = k
    · subst hk
      rw [lastAt_get (get_append_new _ hg), lastAt_none hg]
      cases q with
      | nil => simp [TomlItem.lastAt, TomlItem.kind]
      | cons => rw [if_neg (by simp)]; rfl
    · rw [if_neg (by simp [hk])]
      simp only [TomlItem.lastAt, TomlItem.entries, get_append_ne m _ hk]

theorem addTable_kind {k : Str} {X X' : TomlItem} (h : TomlItem.addTable k X = some X')
    {q : List Str} (hq : q ≠ []) : kindAt X' q = if q = [k] then .table true false else kindAt X q := by
  obtain ⟨i, d, m, m', M, rfl, rfl, hg, hM, hn⟩ := addTable_inv h
  unfold kindAt
  cases q with
  | nil => exact absurd rfl hq
  | cons k' q =>
    by_cases hk : k' = k
    · subst hk
      rw [lastAt_get hM]
      cases q with
      | nil => simp [TomlItem.lastAt, TomlItem.kind]
      | cons k2 q =>
        rw [if_neg (by simp)]
        rcases hg with ⟨hg, rfl⟩ | hg
        · rw [lastAt_none hg]; rfl
        · rw [lastAt_get hg]; rfl
    · rw [if_neg (by simp [hk])]
      simp only [TomlItem.lastAt, TomlItem.entries, hn k' hk]

theorem addElement_kind {k : Str} {X X' : TomlItem} (h : TomlItem.addElement k X = some X')
    {q : List Str} (hq : q ≠ []) : kindAt X' q = if q = [k] then .tables else if [k] <+: q then .nothing else kindAt X q := by
  obtain ⟨i, d, m, l, M, rfl, rfl, hg, hM, hn⟩ := addElement_inv h
  unfold kindAt
  cases q with
  | nil => exact absurd rfl hq
  | cons k' q =>
    by_cases hk : k' = k
    · subst hk
      rw [lastAt_get hM]
      cases q with
      | nil => simp [TomlItem.lastAt, TomlItem.kind]
      | cons k2 q =>
        rw [if_neg (by simp), if_pos (by simp), lastAt_tables (t := .table false false []) trivial (q := k2 :: q) (by simp)]
        rfl
    · rw [if_neg (by simp [hk]), if_neg (by simp [Ne.symm hk])]
      simp only [TomlItem.lastAt, TomlItem.entries, hn k' hk]

theorem goodTables_changed {i d : Bool} {m M : List (Str × TomlItem)} {k : Str} {x : TomlItem} (h : GoodTables (.table i d m))
    (hM : IndexMap.get M k = some x) (hn : ∀ k', k' ≠ k → IndexMap.get M k' = IndexMap.get m k') (hx : GoodTables x) :
    GoodTables (.table i d M) := by
  refine goodTables_table fun k' y hy => ?_
  by_cases hk : k' = k
  · subst hk
    rw [hM] at hy
    cases hy
    exact hx
  · rw [hn k' hk] at hy
    exact goodTables_get h hy

theorem goodTables_empty (i d : Bool) : GoodTables (.table i d []) := goodTables_table (fun _ _ h => nomatch h)

theorem goodTables_marks {i d i' d' : Bool} {m : List (Str × TomlItem)} (h : GoodTables (.table i d m)) : GoodTables (.table i' d' m) :=
  goodTables_table fun _ _ hx => goodTables_get h hx

theorem addEntry_good {dotted : Bool} {k : Str} {v : Toml} {X X' : TomlItem} (h : TomlItem.addEntry dotted k v X = some X') :
    SameMarks X X' ∧ (GoodTables X → GoodTables X') := by
  obtain ⟨i, d, m, rfl, hg, rfl⟩ := addEntry_inv h
  exact ⟨⟨rfl, rfl⟩, fun h => goodTables_changed h (get_append_new _ hg) (fun k' hk => get_append_ne m _ hk) (goodTables_value v)⟩

theorem addTable_good {k : Str} {X X' : TomlItem} (h : TomlItem.addTable k X = some X') : SameMarks X X' ∧ (GoodTables X → GoodTables X') := by
  obtain ⟨i, d, m, m', M, rfl, rfl, hg, hM, hn⟩ := addTable_inv h
  refine ⟨⟨rfl, rfl⟩, fun h => goodTables_changed h hM hn ?_⟩
  rcases hg with ⟨_, rfl⟩ | hg
  · exact goodTables_empty _ _
  · exact goodTables_marks (goodTables_get h hg)

theorem addElement_good {k : Str} {X X' : TomlItem} (h : TomlItem.addElement k X = some X') : SameMarks X X' ∧ (GoodTables X → GoodTables X') := by
  obtain ⟨i, d, m, l, M, rfl, rfl, hg, hM, hn⟩ := addElement_inv h
  exact ⟨⟨rfl, rfl⟩, fun h => goodTables_changed h hM hn (goodTables_tables l (goodTables_empty _ _))⟩

theorem get_none_kind {i d : Bool} {m : List (Str × TomlItem)} {k : Str} : IndexMap.get m k = none ↔ kindAt (.table i d m) [k] = .nothing := by
  cases h : IndexMap.get m k with
  | none => simp [kindAt, TomlItem.lastAt, TomlItem.entries, h, TomlItem.kind]
  | some x => cases x <;> simp [kindAt, TomlItem.lastAt, TomlItem.entries, h, TomlItem.kind]

theorem addEntry_isSome {dotted : Bool} {k : Str} {v : Toml} {i d : Bool} {m : List (Str × TomlItem)} :
    (TomlItem.addEntry dotted k v (.table i d m)).isSome ↔ d = dotted ∧ kindAt (.table i d m) [k] = .nothing := by
  rw [← get_none_kind, TomlItem.addEntry]
  by_cases hd : d = dotted
  · subst hd
    cases IndexMap.get m k <;> simp
  · simp [hd]

theorem addTable_isSome {k : Str} {i d : Bool} {m : List (Str × TomlItem)} :
    (TomlItem.addTable k (.table i d m)).isSome ↔ kindAt (.table i d m) [k] = .nothing ∨ kindAt (.table i d m) [k] = .table false false := by
  rw [TomlItem.addTable]
  cases h : IndexMap.get m k with
  | none => simp [kindAt, TomlItem.lastAt, TomlItem.entries, h, TomlItem.kind]
  | some x =>
    have : kindAt (.table i d m) [k] = TomlItem.kind (some x) := by simp [kindAt, TomlItem.lastAt, TomlItem.entries, h]
    rw [this]
    cases x with
    | value => simp [TomlItem.kind]
    | tables => simp [TomlItem.kind]
    | table i1 d1 m1 => cases i1 <;> cases d1 <;> simp [TomlItem.kind]

theorem addElement_isSome {k : Str} {i d : Bool} {m : List (Str × TomlItem)} :
    (TomlItem.addElement k (.table i d m)).isSome ↔ kindAt (.table i d m) [k] = .nothing ∨ kindAt (.table i d m) [k] = .tables := by
  rw [TomlItem.addElement]
  cases h : IndexMap.get m k with
  | none => simp [kindAt, TomlItem.lastAt, TomlItem.entries, h, TomlItem.kind]
  | some x =>
    have : kindAt (.table i d m) [k] = TomlItem.kind (some x) := by simp [kindAt, TomlItem.lastAt, TomlItem.entries, h]
    rw [this]
    cases x <;> simp [TomlItem.kind]

/-! ## The table at the end of a path -/

theorem target_below {b : Bool} {p : List Str} {T : TomlItem} (hg : GoodTables T) {r : List Str} (hr : r ≠ []) :
    kindAt (TomlItem.target b p T) r = kindAt T (p ++ r) := by
  unfold TomlItem.target kindAt
  rw [lastAt_append]
  cases h : TomlItem.lastAt p T with
  | none => rw [lastAt_empty rfl hr]; rfl
  | some x =>
    cases x with
    | value => rfl
    | table => rfl
    | tables l =>
      obtain ⟨l', m, rfl⟩ := hg p l h
      simp only [List.getLast?_concat, Option.bind_some]
      rw [lastAt_tables (show IsTable (.table false false _) from trivial) hr]

theorem target_table {b : Bool} {p : List Str} {T : TomlItem} (hg : GoodTables T) (hp : kindAt T p ≠ .value) :
    ∃ i d m, TomlItem.target b p T = .table i d m ∧ (kindAt T p = .nothing ∧ i = true ∧ d = b ∨
      kindAt T p = .table (!i) d ∨ kindAt T p = .tables ∧ i = false ∧ d = false) := by
  unfold TomlItem.target
  unfold kindAt at hp ⊢
  cases h : TomlItem.lastAt p T with
  | none => exact ⟨_, _, _, rfl, .inl ⟨rfl, rfl, rfl⟩⟩
  | some x =>
    rw [h] at hp
    cases x with
    | value => exact absurd rfl hp
    | table => exact ⟨_, _, _, rfl, .inr (.inl rfl)⟩
    | tables l =>
      obtain ⟨l', m, rfl⟩ := hg p l h
      simp only [List.getLast?_concat]
      exact ⟨_, _, _, rfl, .inr (.inr ⟨rfl, rfl, rfl⟩)⟩

theorem target_good {b : Bool} {p : List Str} {T : TomlItem} (hg : GoodTables T) : GoodTables (TomlItem.target b p T) := by
  unfold TomlItem.target
  cases h : TomlItem.lastAt p T with
  | none => exact goodTables_empty _ _
  | some x =>
    have hx : GoodTables x := fun q l hq => hg (p ++ q) l (by rw [lastAt_append, h]; exact hq)
    cases x with
    | value => exact hx
    | table => exact hx
    | tables l =>
      obtain ⟨l', m, rfl⟩ := hg p l h
      simp only [List.getLast?_concat]
      exact (goodTables_last hx).2

theorem passed_prefix {T : TomlItem} {p r : List Str} (h : kindAt T (p ++ r) ≠ .nothing) (hv : kindAt T (p ++ r) ≠ .value) :
    kindAt T p ≠ .nothing ∧ kindAt T p ≠ .value := by
  unfold kindAt at *
  rw [lastAt_append] at h hv
  cases hx : TomlItem.lastAt p T with
  | none => rw [hx] at h; exact absurd rfl h
  | some x =>
    rw [hx] at h hv
    cases x with
    | value v =>
      cases r with
      | nil => exact absurd rfl hv
      | cons k r => exact absurd rfl h
    | table => exact ⟨by simp [TomlItem.kind], by simp [TomlItem.kind]⟩
    | tables => exact ⟨by simp [TomlItem.kind], by simp [TomlItem.kind]⟩

/-! ## Statements -/

/-- The document so far is as the statements say. -/
structure Fitted (σ : TomlSketch) (T : TomlItem) : Prop where
  table : kindAt T [] = .table true false
  kind : ∀ q, σ.kind q = kindAt T q
  good : GoodTables T
  header : kindAt T σ.header = .table true false ∨ kindAt T σ.header = .tables

theorem fitted_isTable {σ : TomlSketch} {T : TomlItem} (h : Fitted σ T) : IsTable T := by
  have := h.table
  cases T with
  | table => trivial
  | _ => cases this

theorem fitted_passed {σ : TomlSketch} {T : TomlItem} (h : Fitted σ T) {q : List Str} (hq : q <+: σ.header) :
    kindAt T q ≠ .nothing ∧ kindAt T q ≠ .value := by
  obtain ⟨r, hr⟩ := hq
  have := h.header
  rw [← hr] at this
  refine passed_prefix (r := r) ?_ ?_ <;> rcases this with h | h <;> rw [h] <;> simp

theorem fits_entry {σ : TomlSketch} {T : TomlItem} (h : Fitted σ T) (p : List Str) (k : Str) (v : Toml) :
    ((TomlStmt.entry p k v).apply σ.header T).isSome ↔ σ.Fits (.entry p k v) := by
  have h1 : Passable false σ.header T := fun r _ hr => ⟨(fitted_passed h hr).2, fun h => nomatch h⟩
  obtain ⟨i, d, m, hX, hf⟩ := target_table (b := false) h.good (fitted_passed h (List.prefix_refl _)).2
  have hd : d = false := by
    rcases h.header with h2 | h2 <;> rw [h2] at hf <;> simp at hf
    · exact hf.2
    · exact hf.2
  subst hd
  have hgX : GoodTables (.table i false m) := hX ▸ target_good h.good
  have hb : ∀ r, r ≠ [] → kindAt (.table i false m) r = σ.kind (σ.header ++ r) := fun r hr => by
    rw [h.kind, ← target_below (b := false) h.good hr, hX]
  rw [TomlStmt.apply, descend_isSome (fitted_isTable h) h.good, and_iff_right h1, hX, TomlItem.enter, descend_isSome (T := .table i false m) trivial hgX]
  have hp : Passable true p (.table i false m) ↔
      ∀ r, r ≠ [] → r <+: p → σ.kind (σ.header ++ r) ≠ .value ∧ ∀ d, σ.kind (σ.header ++ r) ≠ .table true d := by
    unfold Passable
    constructor
    · intro h r hr hrp
      have := h r hr hrp
      rw [hb r hr] at this
      exact ⟨this.1, this.2 rfl⟩
    · intro h r hr hrp
      rw [hb r hr]
      exact ⟨(h r hr hrp).1, fun _ => (h r hr hrp).2⟩
  rw [hp]
  simp only [TomlSketch.Fits]
  rw [and_left_comm]
  refine and_congr_right fun hpass => ?_
  have hv : kindAt (.table i false m) p ≠ .value := by
    by_cases h0 : p = []
    · subst h0
      simp [kindAt, TomlItem.lastAt, TomlItem.kind]
    · rw [hb p h0]
      exact (hpass p h0 (List.prefix_refl _)).1
  obtain ⟨i1, d1, m1, hY, hf1⟩ := target_table (b := true) hgX hv
  rw [hY, addEntry_isSome, ← hY, target_below hgX (by simp), hb _ (by simp), and_comm]
  refine and_congr_right fun _ => ?_
  by_cases h0 : p = []
  · subst h0
    rcases hf1 with ⟨h2, _⟩ | h2 | ⟨h2, _⟩ <;> simp [kindAt, TomlItem.lastAt, TomlItem.kind] at h2
    simp [h2.2]
  · have h3 := (hpass p h0 (List.prefix_refl _)).2
    rw [hb p h0] at hf1
    have h4 : (!p.isEmpty) = true := by cases p <;> simp_all
    rw [h4]
    simp only [h0, false_or]
    rcases hf1 with ⟨h2, _, rfl⟩ | h2 | ⟨h2, rfl, rfl⟩
    · simp [h2]
    · rw [h2] at h3 ⊢
      cases i1 with
      | false => exact absurd rfl (h3 d1)
      | true => simp
    · simp [h2]

theorem passable_false {p : List Str} {T : TomlItem} (h0 : kindAt T [] ≠ .value) :
    Passable false p T ↔ ∀ r, r <+: p → kindAt T r ≠ .value := by
  constructor
  · intro h r hr
    by_cases h1 : r = []
    · subst h1; exact h0
    · exact (h r h1 hr).1
  · exact fun h r _ hr => ⟨h r hr, fun h => nomatch h⟩

theorem prefix_snoc {α : Type} {r p : List α} {k : α} : r <+: p ++ [k] ↔ r <+: p ∨ r = p ++ [k] := by
  rw [List.prefix_concat_iff, or_comm]

theorem header_isSome {σ : TomlSketch} {T : TomlItem} (h : Fitted σ T) (p : List Str) (k : Str) {f : TomlItem → Option TomlItem} {P : TomlKind → Prop}
    (hP : ¬ P .value) (hf : ∀ i d m, (f (.table i d m)).isSome ↔ P (kindAt (.table i d m) [k])) :
    (TomlItem.descend false f p T).isSome ↔ (∀ r, r <+: p ++ [k] → σ.kind r ≠ .value) ∧ P (σ.kind (p ++ [k])) := by
  rw [descend_isSome (fitted_isTable h) h.good, passable_false (by rw [h.table]; simp)]
  constructor
  · rintro ⟨h1, h2⟩
    obtain ⟨i, d, m, hX, _⟩ := target_table (b := false) h.good (h1 p (List.prefix_refl _))
    rw [hX, hf, ← hX, target_below h.good (by simp), ← h.kind] at h2
    refine ⟨fun r hr => ?_, h2⟩
    rcases prefix_snoc.1 hr with hr | rfl
    · rw [h.kind]; exact h1 r hr
    · intro h3; rw [h3] at h2; exact hP h2
  · rintro ⟨h1, h2⟩
    have h3 : ∀ r, r <+: p → kindAt T r ≠ .value := fun r hr => by rw [← h.kind]; exact h1 r (prefix_snoc.2 (.inl hr))
    refine ⟨h3, ?_⟩
    obtain ⟨i, d, m, hX, _⟩ := target_table (b := false) h.good (h3 p (List.prefix_refl _))
    rw [hX, hf, ← hX, target_below h.good (by simp), ← h.kind]
    exact h2

theorem fits_table {σ : TomlSketch} {T : TomlItem} (h : Fitted σ T) (p : List Str) :
    ((TomlStmt.table p).apply σ.header T).isSome ↔ σ.Fits (.table p) := by
  rcases List.eq_nil_or_concat p with rfl | ⟨p, k, rfl⟩
  · simp [TomlStmt.apply, TomlSketch.Fits]
  · rw [List.concat_eq_append, TomlStmt.apply]
    simp only [List.getLast?_concat, List.dropLast_concat]
    rw [header_isSome h p k (P := fun x => x = .nothing ∨ x = .table false false) (by simp) (fun _ _ _ => addTable_isSome)]
    unfold TomlSketch.Fits
    exact (and_iff_right (by simp)).symm

theorem fits_element {σ : TomlSketch} {T : TomlItem} (h : Fitted σ T) (p : List Str) :
    ((TomlStmt.element p).apply σ.header T).isSome ↔ σ.Fits (.element p) := by
  rcases List.eq_nil_or_concat p with rfl | ⟨p, k, rfl⟩
  · simp [TomlStmt.apply, TomlSketch.Fits]
  · rw [List.concat_eq_append, TomlStmt.apply]
    simp only [List.getLast?_concat, List.dropLast_concat]
    rw [header_isSome h p k (P := fun x => x = .nothing ∨ x = .tables) (by simp) (fun _ _ _ => addElement_isSome)]
    unfold TomlSketch.Fits
    exact (and_iff_right (by simp)).symm

/-! ## After a statement -/

theorem below_or {α : Type} (p q : List α) : (∃ r, r ≠ [] ∧ q = p ++ r) ∨ ∀ r, r ≠ [] → q ≠ p ++ r := by
  by_cases h : ∃ r, r ≠ [] ∧ q = p ++ r
  · exact .inl h
  · exact .inr fun r hr hq => h ⟨r, hr, hq⟩

theorem fitted_entry {σ : TomlSketch} {T T' : TomlItem} (h : Fitted σ T) {p : List Str} {k : Str} {v : Toml}
    (ha : (TomlStmt.entry p k v).apply σ.header T = some T') : Fitted (σ.step (.entry p k v)) T' := by
  rw [TomlStmt.apply] at ha
  obtain ⟨X, X', hX, h1⟩ := descend_changed ha
  rw [TomlItem.enter] at hX
  obtain ⟨Y, Y', hY, h2⟩ := descend_changed hX
  obtain ⟨mY, gY⟩ := addEntry_good hY
  have mX := changed_marks h2 mY
  obtain ⟨tY, tY'⟩ := sameMarks_tables mY
  obtain ⟨tX, tX'⟩ := sameMarks_tables mX
  have key : ∀ q, kindAt T' q = if q = σ.header ++ (p ++ [k]) then .value
      else if kindAt T q = .nothing ∧ σ.header <+: q ∧ q <+: σ.header ++ p then .table false true else kindAt T q := by
    intro q
    rcases below_or σ.header q with ⟨r, hr, rfl⟩ | hn
    · obtain ⟨h3, h4⟩ := changed_kind_below h1 tX tX' hr
      rw [h3, h4]
      simp only [List.append_cancel_left_eq, List.prefix_append, true_and, List.prefix_append_right_inj]
      rcases below_or p r with ⟨s, hs, rfl⟩ | hm
      · obtain ⟨h5, h6⟩ := changed_kind_below h2 tY tY' hs
        rw [h5, h6, addEntry_kind hY hs]
        have : ¬ p ++ s <+: p := fun h => hs (List.eq_nil_of_length_eq_zero (by have := h.length_le; rw [List.length_append] at this; omega))
        simp [this]
      · rw [changed_kind h2 mY r hm, if_neg (hm [k] (by simp))]
    · rw [changed_kind h1 mX q hn]
      rw [if_neg (fun ⟨h3, h4⟩ => (fitted_passed h h4).1 h3), if_neg (hn _ (by simp)), if_neg]
      rintro ⟨h3, ⟨r, rfl⟩, h5⟩
      by_cases h0 : r = []
      · subst h0
        rw [List.append_nil] at h3
        exact (fitted_passed h (List.prefix_refl _)).1 h3
      · exact hn r h0 rfl
  have hh : ∀ q, q <+: σ.header → kindAt T' q = kindAt T q := by
    intro q hq
    have h0 : q ≠ σ.header ++ (p ++ [k]) := by
      rintro rfl
      have := hq.length_le
      simp only [List.length_append, List.length_singleton] at this
      omega
    rw [key, if_neg h0, if_neg (fun h3 => (fitted_passed h hq).1 h3.1)]
  refine ⟨?_, fun q => ?_, changed_good h1 mX (changed_good h2 mY gY) h.good, ?_⟩
  · rw [hh [] List.nil_prefix, h.table]
  · rw [key]
    simp only [TomlSketch.step, h.kind]
  · show kindAt T' σ.header = _ ∨ kindAt T' σ.header = _
    rw [hh _ (List.prefix_refl _)]
    exact h.header

theorem fitted_header {σ : TomlSketch} {T T' : TomlItem} (h : Fitted σ T) {p : List Str} {k : Str} {f : TomlItem → Option TomlItem} {τ : TomlSketch}
    {g : TomlKind → List Str → TomlKind}
    (ha : TomlItem.descend false f p T = some T') (hf : ∀ X X', f X = some X' → SameMarks X X' ∧ (GoodTables X → GoodTables X'))
    (hg : ∀ X X' q, f X = some X' → q ≠ [] → kindAt X' q = g (kindAt X q) q) (hk : ∀ q, q ≠ [] → τ.kind (p ++ q) = g (σ.kind (p ++ q)) q)
    (hq : ∀ q, (∀ r, r ≠ [] → q ≠ p ++ r) → τ.kind q = if σ.kind q = .nothing ∧ q <+: p then .table false false else σ.kind q)
    (hh : τ.header = p ++ [k]) (hl : ∀ x, g x [k] = .table true false ∨ g x [k] = .tables) : Fitted τ T' := by
  obtain ⟨X, X', hX, h1⟩ := descend_changed ha
  obtain ⟨mX, gX⟩ := hf _ _ hX
  obtain ⟨tX, tX'⟩ := sameMarks_tables mX
  have key : ∀ q, τ.kind q = kindAt T' q := by
    intro q
    rcases below_or p q with ⟨r, hr, rfl⟩ | hn
    · obtain ⟨h3, h4⟩ := changed_kind_below h1 tX tX' hr
      rw [hk r hr, h4, hg _ _ _ hX hr, h.kind, h3]
    · rw [changed_kind h1 mX q hn, hq q hn, h.kind]
  refine ⟨?_, key, changed_good h1 mX gX h.good, ?_⟩
  · rw [← key, hq [] (fun r hr h => hr (List.append_eq_nil_iff.1 h.symm).2), h.kind, h.table]
    rfl
  · rw [← key, hh, hk _ (by simp)]
    exact hl _

theorem fitted_step {σ : TomlSketch} {T T' : TomlItem} (h : Fitted σ T) {s : TomlStmt} (ha : s.apply σ.header T = some T') :
    Fitted (σ.step s) T' := by
  cases s with
  | entry p k v => exact fitted_entry h ha
  | table p =>
    rcases List.eq_nil_or_concat p with rfl | ⟨p, k, rfl⟩
    · cases ha
    · rw [List.concat_eq_append] at ha ⊢
      rw [TomlStmt.apply] at ha
      simp only [List.getLast?_concat, List.dropLast_concat] at ha
      refine fitted_header h (g := fun x q => if q = [k] then .table true false else x) ha (fun _ _ => addTable_good)
        (fun _ _ _ h hq => addTable_kind h hq) ?_ ?_ rfl (fun x => .inl (if_pos rfl))
      · intro q hq
        simp only [TomlSketch.step, List.append_cancel_left_eq, List.prefix_append_right_inj]
        by_cases h1 : q = [k]
        · rw [if_pos h1, if_pos h1]
        · rw [if_neg h1, if_neg h1, if_neg]
          rintro ⟨_, h2⟩
          rcases List.prefix_cons_iff.1 h2 with h3 | ⟨t, rfl, h3⟩
          · exact hq h3
          · rw [List.prefix_nil.1 h3] at h1; exact h1 rfl
      · intro q hn
        simp only [TomlSketch.step]
        rw [if_neg (hn _ (by simp))]
        have : q <+: p ++ [k] ↔ q <+: p := by rw [prefix_snoc, or_iff_left (hn _ (by simp))]
        simp only [this]
  | element p =>
    rcases List.eq_nil_or_concat p with rfl | ⟨p, k, rfl⟩
    · cases ha
    · rw [List.concat_eq_append] at ha ⊢
      rw [TomlStmt.apply] at ha
      simp only [List.getLast?_concat, List.dropLast_concat] at ha
      refine fitted_header h (g := fun x q => if q = [k] then .tables else if [k] <+: q then .nothing else x) ha (fun _ _ => addElement_good)
        (fun _ _ _ h hq => addElement_kind h hq) ?_ ?_ rfl (fun x => .inr (if_pos rfl))
      · intro q hq
        simp only [TomlSketch.step, List.append_cancel_left_eq, List.prefix_append_right_inj]
        by_cases h1 : q = [k]
        · rw [if_pos h1, if_pos h1]
        · rw [if_neg h1, if_neg h1]
          by_cases h4 : [k] <+: q
          · rw [if_pos h4, if_pos h4]
          · rw [if_neg h4, if_neg h4, if_neg]
            rintro ⟨_, h2⟩
            rcases List.prefix_cons_iff.1 h2 with h3 | ⟨t, rfl, h3⟩
            · exact hq h3
            · rw [List.prefix_nil.1 h3] at h1; exact h1 rfl
      · intro q hn
        simp only [TomlSketch.step]
        rw [if_neg (hn _ (by simp)), if_neg]
        · have : q <+: p ++ [k] ↔ q <+: p := by rw [prefix_snoc, or_iff_left (hn _ (by simp))]
          simp only [this]
        · rintro ⟨r, hr⟩
          exact hn (k :: r) (by simp) (by rw [← hr]; simp)

theorem fits_iff {σ : TomlSketch} {T : TomlItem} (h : Fitted σ T) (s : TomlStmt) : (s.apply σ.header T).isSome ↔ σ.Fits s := by
  cases s with
  | entry p k v => exact fits_entry h p k v
  | table p => exact fits_table h p
  | element p => exact fits_element h p

theorem step_header (σ : TomlSketch) (s : TomlStmt) : (σ.step s).header = s.header σ.header := by
  cases s <;> rfl

theorem fitsAll_iff {l : List TomlStmt} : ∀ {σ : TomlSketch} {T : TomlItem}, Fitted σ T → ((TomlStmt.applyAll σ.header T l).isSome ↔ σ.FitsAll l) := by
  induction l with
  | nil => exact fun _ => ⟨fun _ => trivial, fun _ => rfl⟩
  | cons s l ih =>
    intro σ T h
    rw [TomlStmt.applyAll, TomlSketch.FitsAll, ← fits_iff h s]
    cases ha : s.apply σ.header T with
    | none => simp
    | some T' =>
      have h1 := fitted_step h ha
      simp only [Option.isSome_some, true_and]
      rw [← ih h1, step_header]

theorem fitted_start : Fitted TomlSketch.start (.table false false []) where
  table := rfl
  kind q := by
    by_cases h : q = []
    · subst h; rfl
    · rw [kindAt, lastAt_empty rfl h]
      simp [TomlSketch.start, h, TomlItem.kind]
  good := goodTables_empty _ _
  header := .inl rfl

end Rops
