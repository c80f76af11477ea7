import Verif.Spec.TomlMeaning
import Verif.Lemmas.TomlRead
import Verif.Lemmas.TomlSyntax
import Verif.Lemmas.TomlSections
/-!
# What TOML documents say
-/

namespace Rops
open Spec

theorem get_insert_ne {β : Type} (m : List (Str × β)) {k k' : Str} (v : β) (h : k' ≠ k) :
    IndexMap.get (IndexMap.insert m k v) k' = IndexMap.get m k' := by
  induction m with
  | nil => simp [IndexMap.insert, IndexMap.get, h.symm]
  | cons e m ih =>
    obtain ⟨k1, v1⟩ := e
    rw [IndexMap.insert]
    by_cases h1 : k1 = k
    · subst h1
      rw [if_pos rfl, IndexMap.get, IndexMap.get, if_neg h.symm, if_neg h.symm]
    · rw [if_neg h1, IndexMap.get, IndexMap.get, ih]

theorem get_append_ne {β : Type} (m : List (Str × β)) {k k' : Str} (v : β) (h : k' ≠ k) :
    IndexMap.get (m ++ [(k, v)]) k' = IndexMap.get m k' := by
  induction m with
  | nil => simp [IndexMap.get, h.symm]
  | cons e m ih =>
    obtain ⟨k1, v1⟩ := e
    rw [List.cons_append, IndexMap.get, IndexMap.get, ih]

theorem get_append_new {β : Type} {m : List (Str × β)} {k : Str} (v : β) (h : IndexMap.get m k = none) :
    IndexMap.get (m ++ [(k, v)]) k = some v := IndexMap.get_append (IndexMap.get_eq_none.1 h) v

theorem get_filter_same {β : Type} (m : List (Str × β)) (k : Str) : IndexMap.get (m.filter (fun e => e.1 != k)) k = none := by
  rw [IndexMap.get_eq_none]
  intro h
  obtain ⟨e, he, rfl⟩ := List.mem_map.1 h
  simpa using (List.mem_filter.1 he).2

theorem get_filter_ne {β : Type} (m : List (Str × β)) {k k' : Str} (h : k' ≠ k) :
    IndexMap.get (m.filter (fun e => e.1 != k)) k' = IndexMap.get m k' := by
  induction m with
  | nil => rfl
  | cons e m ih =>
    obtain ⟨k1, v1⟩ := e
    rw [List.filter_cons]
    by_cases h1 : k1 = k
    · subst h1
      simp only [bne_self_eq_false, Bool.false_eq_true, if_false]
      rw [ih, IndexMap.get, if_neg h.symm]
    · simp only [bne_iff_ne, ne_eq, h1, not_false_eq_true, if_true]
      rw [IndexMap.get, IndexMap.get, ih]

/-! ## Items along paths -/

/-- The entries of a table, or of the last table of an array. -/
def TomlItem.entries : TomlItem → List (Str × TomlItem)
  | .value _ => []
  | .table _ _ m => m
  | .tables l => match l.getLast? with
    | some (.table _ _ m) => m
    | _ => []

/-- How many tables are in an array of tables. -/
def TomlItem.count : Option TomlItem → Nat
  | some (.tables l) => l.length
  | _ => 0

/-- The item at a path, in the last tables of arrays. -/
def TomlItem.lastAt : List Str → TomlItem → Option TomlItem
  | [], t => some t
  | k :: p, t => match IndexMap.get t.entries k with
    | none => none
    | some x => TomlItem.lastAt p x

theorem lastAt_append (p q : List Str) (t : TomlItem) : TomlItem.lastAt (p ++ q) t = (TomlItem.lastAt p t).bind (TomlItem.lastAt q) := by
  induction p generalizing t with
  | nil => rfl
  | cons k p ih =>
    rw [List.cons_append, TomlItem.lastAt, TomlItem.lastAt]
    cases IndexMap.get t.entries k with
    | none => rfl
    | some x => exact ih x

/-- The step into an array of tables. -/
def lastIndex : Nat → List PlaceStep
  | 0 => []
  | n + 1 => [.index n]

/-- The place of a path in an item. -/
def TomlItem.place : List Str → TomlItem → List PlaceStep
  | [], _ => []
  | k :: p, t => match IndexMap.get t.entries k with
    | none => .key k :: p.map .key
    | some x => .key k :: (lastIndex (TomlItem.count (some x)) ++ TomlItem.place p x)

theorem place_empty {t : TomlItem} (h : t.entries = []) (p : List Str) : TomlItem.place p t = p.map .key := by
  cases p with
  | nil => rfl
  | cons k p => rw [TomlItem.place, h]; rfl

theorem place_append (p q : List Str) (t : TomlItem) : TomlItem.place (p ++ q) t = TomlItem.place p t ++
    (match TomlItem.lastAt p t with
      | some x => TomlItem.place q x
      | none => q.map .key) := by
  induction p generalizing t with
  | nil => rfl
  | cons k p ih =>
    rw [List.cons_append, TomlItem.place, TomlItem.place, TomlItem.lastAt]
    cases IndexMap.get t.entries k with
    | none => simp
    | some x => simp only [ih x, List.cons_append, List.append_assoc]

/-- What is found at a place of an item: a value, or a table or an array of tables. -/
inductive Seen : TomlItem → List PlaceStep → Option Toml → Prop
  | value {t v : Toml} {w : List PlaceStep} : TomlIn t w v → Seen (.value t) w (some v)
  | table {i d : Bool} {m : List (Str × TomlItem)} : Seen (.table i d m) [] none
  | tables {l : List TomlItem} : Seen (.tables l) [] none
  | key {i d : Bool} {m : List (Str × TomlItem)} {k : Str} {x : TomlItem} {w : List PlaceStep} {o : Option Toml} :
    IndexMap.get m k = some x → Seen x w o → Seen (.table i d m) (.key k :: w) o
  | index {l : List TomlItem} {j : Nat} {x : TomlItem} {w : List PlaceStep} {o : Option Toml} : l[j]? = some x → Seen x w o →
    Seen (.tables l) (.index j :: w) o

theorem seen_table_nil {i d : Bool} {m : List (Str × TomlItem)} {o : Option Toml} : Seen (.table i d m) [] o ↔ o = none := by
  constructor
  · intro h; cases h; rfl
  · rintro rfl; exact .table

theorem seen_table_key {i d : Bool} {m : List (Str × TomlItem)} {k : Str} {w : List PlaceStep} {o : Option Toml} :
    Seen (.table i d m) (.key k :: w) o ↔ ∃ x, IndexMap.get m k = some x ∧ Seen x w o := by
  constructor
  · intro h; cases h with | key h h' => exact ⟨_, h, h'⟩
  · rintro ⟨x, h, h'⟩; exact .key h h'

theorem seen_table_index {i d : Bool} {m : List (Str × TomlItem)} {j : Nat} {w : List PlaceStep} {o : Option Toml} :
    ¬ Seen (.table i d m) (.index j :: w) o := by
  intro h; cases h

theorem seen_tables_nil {l : List TomlItem} {o : Option Toml} : Seen (.tables l) [] o ↔ o = none := by
  constructor
  · intro h; cases h; rfl
  · rintro rfl; exact .tables

theorem seen_tables_index {l : List TomlItem} {j : Nat} {w : List PlaceStep} {o : Option Toml} :
    Seen (.tables l) (.index j :: w) o ↔ ∃ x, l[j]? = some x ∧ Seen x w o := by
  constructor
  · intro h; cases h with | index h h' => exact ⟨_, h, h'⟩
  · rintro ⟨x, h, h'⟩; exact .index h h'

theorem seen_tables_key {l : List TomlItem} {k : Str} {w : List PlaceStep} {o : Option Toml} : ¬ Seen (.tables l) (.key k :: w) o := by
  intro h; cases h

/-- A change below the end of a path. -/
inductive Changed (b : Bool) (X X' : TomlItem) : List Str → TomlItem → TomlItem → Prop
  | here : Changed b X X' [] X X'
  | new {i d : Bool} {m : List (Str × TomlItem)} {k : Str} {p : List Str} {t' : TomlItem} : IndexMap.get m k = none →
    Changed b X X' p (.table true b []) t' → Changed b X X' (k :: p) (.table i d m) (.table i d (IndexMap.insert m k t'))
  | table {i d i1 d1 : Bool} {m m1 : List (Str × TomlItem)} {k : Str} {p : List Str} {t' : TomlItem} :
    IndexMap.get m k = some (.table i1 d1 m1) → (b && !i1) = false → Changed b X X' p (.table i1 d1 m1) t' →
    Changed b X X' (k :: p) (.table i d m) (.table i d (IndexMap.insert m k t'))
  | tables {i d : Bool} {m : List (Str × TomlItem)} {l : List TomlItem} {k : Str} {p : List Str} {t t' : TomlItem} :
    IndexMap.get m k = some (.tables (l ++ [t])) → Changed b X X' p t t' →
    Changed b X X' (k :: p) (.table i d m) (.table i d (IndexMap.insert m k (.tables (l ++ [t']))))

theorem descend_changed {b : Bool} {f : TomlItem → Option TomlItem} {p : List Str} {T T' : TomlItem} (h : TomlItem.descend b f p T = some T') :
    ∃ X X', f X = some X' ∧ Changed b X X' p T T' := by
  induction p generalizing T T' with
  | nil => rw [TomlItem.descend] at h; exact ⟨T, T', h, .here⟩
  | cons k p ih =>
    cases T with
    | value v => simp [TomlItem.descend] at h
    | tables l => simp [TomlItem.descend] at h
    | table i d m =>
      rw [TomlItem.descend] at h
      split at h
      · rename_i hg
        split at h
        · cases h
          rename_i t ht
          obtain ⟨X, X', h1, h2⟩ := ih ht
          exact ⟨X, X', h1, .new hg h2⟩
        · cases h
      · rename_i i' d' m' hg
        split at h
        · cases h
        · rename_i hb
          split at h
          · cases h
            rename_i t ht
            obtain ⟨X, X', h1, h2⟩ := ih ht
            exact ⟨X, X', h1, .table hg (by simpa using hb) h2⟩
          · cases h
      · rename_i l hg
        split at h
        · cases h
        · rename_i t hl
          split at h
          · cases h
            rename_i t' ht
            obtain ⟨X, X', h1, h2⟩ := ih ht
            obtain ⟨ys, rfl⟩ := List.getLast?_eq_some_iff.1 hl
            rw [List.dropLast_concat]
            exact ⟨X, X', h1, .tables hg h2⟩
          · cases h
      · cases h

theorem changed_isTable {b : Bool} {X X' T T' : TomlItem} {p : List Str} (h : Changed b X X' p T T') (hX : IsTable X) : IsTable T := by
  cases h with
  | here => exact hX
  | _ => trivial

theorem changed_isTable' {b : Bool} {X X' T T' : TomlItem} {p : List Str} (h : Changed b X X' p T T') (hX : IsTable X') : IsTable T' := by
  cases h with
  | here => exact hX
  | _ => trivial

/-- What is seen after a change is what was seen, the way, and what is new. -/
theorem changed_seen {b : Bool} {X X' T T' : TomlItem} {p : List Str} (h : Changed b X X' p T T') (hX : IsTable X)
    {A : List PlaceStep → Option Toml → Prop} (hA : ∀ w o, Seen X' w o ↔ Seen X w o ∨ A w o) (w : List PlaceStep) (o : Option Toml) :
    Seen T' w o ↔ Seen T w o ∨ (o = none ∧ w <+: TomlItem.place p T) ∨ ∃ w', w = TomlItem.place p T ++ w' ∧ A w' o := by
  induction h generalizing w with
  | here =>
    rw [hA]
    simp only [TomlItem.place, List.nil_append, List.prefix_nil]
    constructor
    · rintro (h | h)
      · exact .inl h
      · exact .inr (.inr ⟨w, rfl, h⟩)
    · rintro (h | ⟨rfl, rfl⟩ | ⟨w', rfl, h⟩)
      · exact .inl h
      · left
        cases X with
        | table => exact .table
        | value => exact absurd hX id
        | tables => exact absurd hX id
      · exact .inr h
  | @new i d m k p t' hg hc ih =>
    have hp : TomlItem.place (k :: p) (.table i d m) = .key k :: p.map .key := by
      rw [TomlItem.place]
      simp only [TomlItem.entries, hg]
    have hp' : TomlItem.place p (.table true b []) = p.map .key := place_empty rfl p
    rw [hp]
    rw [hp'] at ih
    cases w with
    | nil =>
      rw [seen_table_nil, seen_table_nil]
      simp
    | cons s w =>
      cases s with
      | index j =>
        simp only [seen_table_index, List.cons_prefix_cons, List.cons_append, List.cons.injEq, reduceCtorEq, false_and, and_false, or_false,
          exists_false]
      | key k' =>
        rw [seen_table_key, seen_table_key]
        by_cases hk : k' = k
        · subst hk
          simp only [IndexMap.get_insert, hg, Option.some.injEq, exists_eq_left', reduceCtorEq, false_and, exists_false, false_or,
            List.cons_prefix_cons, true_and, List.cons_append, List.cons.injEq]
          rw [ih]
          constructor
          · rintro (h | h)
            · left
              cases w with
              | nil => rw [seen_table_nil] at h; exact ⟨h, List.nil_prefix⟩
              | cons s w =>
                cases h with | key h _ => cases h
            · exact h
          · exact .inr
        · simp only [get_insert_ne m _ hk, List.cons_prefix_cons, List.cons_append, List.cons.injEq, PlaceStep.key.injEq, hk, false_and, and_false,
            exists_false, or_false]
  | @table i d i1 d1 m m1 k p t' hg _ hc ih =>
    have hp : TomlItem.place (k :: p) (.table i d m) = .key k :: TomlItem.place p (.table i1 d1 m1) := by
      rw [TomlItem.place]
      simp only [TomlItem.entries, hg]
      rfl
    rw [hp]
    cases w with
    | nil =>
      rw [seen_table_nil, seen_table_nil]
      simp
    | cons s w =>
      cases s with
      | index j =>
        simp only [seen_table_index, List.cons_prefix_cons, List.cons_append, List.cons.injEq, reduceCtorEq, false_and, and_false, or_false,
          exists_false]
      | key k' =>
        rw [seen_table_key, seen_table_key]
        by_cases hk : k' = k
        · subst hk
          simp only [IndexMap.get_insert, hg, Option.some.injEq, exists_eq_left', 
            List.cons_prefix_cons, true_and, List.cons_append, List.cons.injEq]
          exact ih w
        · simp only [get_insert_ne m _ hk, List.cons_prefix_cons, List.cons_append, List.cons.injEq, PlaceStep.key.injEq, hk, false_and, and_false,
            exists_false, or_false]
  | @tables i d m l k p t t' hg hc ih =>
    have hp : TomlItem.place (k :: p) (.table i d m) = .key k :: .index l.length :: TomlItem.place p t := by
      have ht : IsTable t := changed_isTable hc hX
      have he : TomlItem.place p (.tables (l ++ [t])) = TomlItem.place p t := by
        cases p with
        | nil => rfl
        | cons k p =>
          cases t with
          | table i d m => rw [TomlItem.place, TomlItem.place]; simp only [TomlItem.entries, List.getLast?_concat]
          | value => exact absurd ht id
          | tables => exact absurd ht id
      rw [TomlItem.place]
      simp only [TomlItem.entries, hg, TomlItem.count, List.length_append, List.length_singleton, lastIndex, he]
      rfl
    rw [hp]
    cases w with
    | nil =>
      rw [seen_table_nil, seen_table_nil]
      simp
    | cons s w =>
      cases s with
      | index j =>
        simp only [seen_table_index, List.cons_prefix_cons, List.cons_append, List.cons.injEq, reduceCtorEq, false_and, and_false, or_false,
          exists_false]
      | key k' =>
        rw [seen_table_key, seen_table_key]
        by_cases hk : k' = k
        · subst hk
          simp only [IndexMap.get_insert, hg, Option.some.injEq, exists_eq_left', 
            List.cons_prefix_cons, true_and, List.cons_append, List.cons.injEq]
          cases w with
          | nil => rw [seen_tables_nil, seen_tables_nil]; simp
          | cons s w =>
            cases s with
            | key k =>
              simp only [seen_tables_key, List.cons_prefix_cons, List.cons.injEq, reduceCtorEq, false_and, and_false, or_false,
                exists_false]
            | index j =>
              rw [seen_tables_index, seen_tables_index]
              simp only [List.cons_prefix_cons, List.cons.injEq, PlaceStep.index.injEq]
              by_cases hj : j = l.length
              · subst hj
                simp only [List.getElem?_concat_length, Option.some.injEq, exists_eq_left', true_and]
                exact ih w
              · have : ∀ x : TomlItem, (l ++ [x])[j]? = l[j]? := by
                  intro x
                  by_cases hlt : j < l.length
                  · rw [List.getElem?_append_left hlt]
                  · rw [List.getElem?_eq_none (by simp; omega), List.getElem?_eq_none (by omega)]
                simp only [this, hj, false_and, and_false, exists_false, or_false]
        · simp only [get_insert_ne m _ hk, List.cons_prefix_cons, List.cons_append, List.cons.injEq, PlaceStep.key.injEq, hk, false_and, and_false,
            exists_false, or_false]

/-! ## Paths after a change -/

/-- What was seen below the path was seen where the change is. -/
theorem changed_at {b : Bool} {X X' T T' : TomlItem} {p : List Str} (h : Changed b X X' p T T') {w : List PlaceStep} {o : Option Toml} 
    (hs : Seen T (TomlItem.place p T ++ w) o) : Seen X w o := by
  induction h with
  | here => exact hs
  | @new i d m k p t' hg hc ih =>
    rw [TomlItem.place] at hs
    simp only [TomlItem.entries, hg] at hs
    rw [List.cons_append, seen_table_key] at hs
    obtain ⟨x, hx, _⟩ := hs
    rw [hg] at hx
    cases hx
  | @table i d i1 d1 m m1 k p t' hg _ hc ih =>
    rw [TomlItem.place] at hs
    simp only [TomlItem.entries, hg] at hs
    rw [List.cons_append, seen_table_key] at hs
    obtain ⟨x, hx, hs⟩ := hs
    rw [hg] at hx
    cases hx
    exact ih hs
  | @tables i d m l k p t t' hg hc ih =>
    rw [TomlItem.place] at hs
    simp only [TomlItem.entries, hg] at hs
    rw [List.cons_append, seen_table_key] at hs
    obtain ⟨x, hx, hs⟩ := hs
    rw [hg] at hx
    cases hx
    simp only [TomlItem.count, List.length_append, List.length_singleton, lastIndex, List.cons_append, List.nil_append] at hs
    rw [seen_tables_index, List.getElem?_concat_length] at hs
    obtain ⟨x, hx, hs⟩ := hs
    cases hx
    refine ih ?_
    cases p with
    | nil => exact hs
    | cons k p =>
      cases t with
      | table i d m =>
        rw [TomlItem.place] at hs ⊢
        simpa only [TomlItem.entries, List.getLast?_concat] using hs
      | value v => cases hc
      | tables l => cases hc

theorem lastAt_tables {l : List TomlItem} {t : TomlItem} (ht : IsTable t) {q : List Str} (hq : q ≠ []) :
    TomlItem.lastAt q (.tables (l ++ [t])) = TomlItem.lastAt q t := by
  cases q with
  | nil => exact absurd rfl hq
  | cons k q =>
    cases t with
    | table i d m => rw [TomlItem.lastAt, TomlItem.lastAt]; simp only [TomlItem.entries, List.getLast?_concat]
    | value => exact absurd ht id
    | tables => exact absurd ht id

theorem place_tables {l : List TomlItem} {t : TomlItem} (ht : IsTable t) (q : List Str) :
    TomlItem.place q (.tables (l ++ [t])) = TomlItem.place q t := by
  cases q with
  | nil => rfl
  | cons k q =>
    cases t with
    | table i d m => rw [TomlItem.place, TomlItem.place]; simp only [TomlItem.entries, List.getLast?_concat]
    | value => exact absurd ht id
    | tables => exact absurd ht id

theorem lastAt_empty {t : TomlItem} (h : t.entries = []) {q : List Str} (hq : q ≠ []) : TomlItem.lastAt q t = none := by
  cases q with
  | nil => exact absurd rfl hq
  | cons k q => rw [TomlItem.lastAt, h]; rfl

theorem lastAt_cons {t x : TomlItem} {k : Str} (h : IndexMap.get t.entries k = some x) (q : List Str) :
    TomlItem.lastAt (k :: q) t = TomlItem.lastAt q x := by
  rw [TomlItem.lastAt, h]

theorem lastAt_missing {t : TomlItem} {k : Str} (h : IndexMap.get t.entries k = none) (q : List Str) :
    TomlItem.lastAt (k :: q) t = none := by
  rw [TomlItem.lastAt, h]

theorem place_cons {t x : TomlItem} {k : Str} (h : IndexMap.get t.entries k = some x) (q : List Str) :
    TomlItem.place (k :: q) t = .key k :: (lastIndex (TomlItem.count (some x)) ++ TomlItem.place q x) := by
  rw [TomlItem.place, h]

theorem place_missing {t : TomlItem} {k : Str} (h : IndexMap.get t.entries k = none) (q : List Str) :
    TomlItem.place (k :: q) t = (k :: q).map .key := by
  rw [TomlItem.place, h]
  rfl

theorem lastAt_get {i d : Bool} {m : List (Str × TomlItem)} {x : TomlItem} {k : Str} (h : IndexMap.get m k = some x) (q : List Str) :
    TomlItem.lastAt (k :: q) (.table i d m) = TomlItem.lastAt q x := lastAt_cons (t := .table i d m) h q

theorem lastAt_none {i d : Bool} {m : List (Str × TomlItem)} {k : Str} (h : IndexMap.get m k = none) (q : List Str) :
    TomlItem.lastAt (k :: q) (.table i d m) = none := lastAt_missing (t := .table i d m) h q

theorem place_get {i d : Bool} {m : List (Str × TomlItem)} {x : TomlItem} {k : Str} (h : IndexMap.get m k = some x) (q : List Str) :
    TomlItem.place (k :: q) (.table i d m) = .key k :: (lastIndex (TomlItem.count (some x)) ++ TomlItem.place q x) := place_cons (t := .table i d m) h q

theorem place_none {i d : Bool} {m : List (Str × TomlItem)} {k : Str} (h : IndexMap.get m k = none) (q : List Str) :
    TomlItem.place (k :: q) (.table i d m) = (k :: q).map .key := place_missing (t := .table i d m) h q

theorem count_table {t : TomlItem} (h : IsTable t) : TomlItem.count (some t) = 0 := by
  cases t with
  | table => rfl
  | value => exact absurd h id
  | tables => exact absurd h id

theorem changed_below {b : Bool} {X X' T T' : TomlItem} {p : List Str} (h : Changed b X X' p T T') (hX : IsTable X) (hX' : IsTable X')
    {q : List Str} (hq : q ≠ []) : TomlItem.lastAt (p ++ q) T = TomlItem.lastAt q X ∧ TomlItem.lastAt (p ++ q) T' = TomlItem.lastAt q X' := by
  induction h with
  | here => exact ⟨rfl, rfl⟩
  | @new i d m k p t' hg hc ih =>
    rw [List.cons_append]
    refine ⟨?_, ?_⟩
    · rw [← ih.1, lastAt_none hg, lastAt_empty rfl (by simp [hq])]
    · rw [← ih.2, lastAt_get (IndexMap.get_insert _ _ _)]
  | @table i d i1 d1 m m1 k p t' hg _ hc ih =>
    rw [List.cons_append]
    refine ⟨?_, ?_⟩
    · rw [← ih.1, lastAt_get hg]
    · rw [← ih.2, lastAt_get (IndexMap.get_insert _ _ _)]
  | @tables i d m l k p t t' hg hc ih =>
    rw [List.cons_append]
    refine ⟨?_, ?_⟩
    · rw [← ih.1, lastAt_get hg, lastAt_tables (changed_isTable hc hX) (by simp [hq])]
    · rw [← ih.2, lastAt_get (IndexMap.get_insert _ _ _), lastAt_tables (changed_isTable' hc hX') (by simp [hq])]

theorem changed_beside {b : Bool} {X X' T T' : TomlItem} {p : List Str} (h : Changed b X X' p T T') (hX : IsTable X) (hX' : IsTable X')
    {q : List Str} (hq : q ≠ []) (hn : ∀ r, r ≠ [] → q ≠ p ++ r) :
    TomlItem.count (TomlItem.lastAt q T') = TomlItem.count (TomlItem.lastAt q T) := by
  induction h generalizing q with
  | here => exact absurd rfl (hn q hq)
  | @new i d m k p t' hg hc ih =>
    cases q with
    | nil => exact absurd rfl hq
    | cons k' q =>
      by_cases hk : k' = k
      · subst hk
        rw [lastAt_get (IndexMap.get_insert _ _ _), lastAt_none hg]
        by_cases h0 : q = []
        · subst h0
          exact count_table (changed_isTable' hc hX')
        · rw [ih h0 (fun r hr hqr => hn r hr (by rw [hqr]; rfl)), lastAt_empty rfl h0]
      · simp only [TomlItem.lastAt, TomlItem.entries, get_insert_ne m _ hk]
  | @table i d i1 d1 m m1 k p t' hg _ hc ih =>
    cases q with
    | nil => exact absurd rfl hq
    | cons k' q =>
      by_cases hk : k' = k
      · subst hk
        rw [lastAt_get (IndexMap.get_insert _ _ _), lastAt_get hg]
        by_cases h0 : q = []
        · subst h0
          exact count_table (changed_isTable' hc hX')
        · rw [ih h0 (fun r hr hqr => hn r hr (by rw [hqr]; rfl))]
      · simp only [TomlItem.lastAt, TomlItem.entries, get_insert_ne m _ hk]
  | @tables i d m l k p t t' hg hc ih =>
    cases q with
    | nil => exact absurd rfl hq
    | cons k' q =>
      by_cases hk : k' = k
      · subst hk
        rw [lastAt_get (IndexMap.get_insert _ _ _), lastAt_get hg]
        by_cases h0 : q = []
        · subst h0
          simp [TomlItem.lastAt, TomlItem.count]
        · rw [lastAt_tables (changed_isTable hc hX) h0, lastAt_tables (changed_isTable' hc hX') h0, ih h0 (fun r hr hqr => hn r hr (by rw [hqr]; rfl))]
      · simp only [TomlItem.lastAt, TomlItem.entries, get_insert_ne m _ hk]

theorem changed_place {b : Bool} {X X' T T' : TomlItem} {p : List Str} (h : Changed b X X' p T T') (hX : IsTable X) (hX' : IsTable X')
    (q : List Str) : TomlItem.place (p ++ q) T = TomlItem.place p T ++ TomlItem.place q X ∧
      TomlItem.place (p ++ q) T' = TomlItem.place p T ++ TomlItem.place q X' := by
  induction h with
  | here => exact ⟨rfl, rfl⟩
  | @new i d m k p t' hg hc ih =>
    rw [List.cons_append]
    rw [place_none hg, place_none hg, place_get (IndexMap.get_insert _ _ _), ih.2,
      count_table (changed_isTable' hc hX')]
    have h1 := ih.1
    have he : ∀ r, TomlItem.place r (.table true b []) = r.map .key := place_empty rfl
    rw [he, he, List.map_append] at h1
    rw [he]
    refine ⟨?_, rfl⟩
    rw [List.map_cons, List.map_append, h1]
    rfl
  | @table i d i1 d1 m m1 k p t' hg _ hc ih =>
    rw [List.cons_append]
    rw [place_get hg, place_get hg, place_get (IndexMap.get_insert _ _ _), ih.2, ih.1,
      count_table (changed_isTable' hc hX')]
    exact ⟨rfl, rfl⟩
  | @tables i d m l k p t t' hg hc ih =>
    rw [List.cons_append]
    rw [place_get hg, place_get hg, place_get (IndexMap.get_insert _ _ _)]
    rw [place_tables (changed_isTable hc hX), place_tables (changed_isTable hc hX), place_tables (changed_isTable' hc hX'), ih.2, ih.1]
    simp [TomlItem.count]

/-! ## The three changes -/

theorem addEntry_inv {dotted : Bool} {k : Str} {v : Toml} {X X' : TomlItem} (h : TomlItem.addEntry dotted k v X = some X') :
    ∃ i d m, X = .table i d m ∧ IndexMap.get m k = none ∧ X' = .table i d (m ++ [(k, .value v)]) := by
  cases X with
  | value => cases h
  | tables => cases h
  | table i d m =>
    rw [TomlItem.addEntry] at h
    split at h
    · cases h
    · split at h
      · cases h
        rename_i hg
        exact ⟨i, d, m, rfl, hg, rfl⟩
      · cases h

theorem addTable_inv {k : Str} {X X' : TomlItem} (h : TomlItem.addTable k X = some X') : ∃ i d m m' M, X = .table i d m ∧ X' = .table i d M ∧
    (IndexMap.get m k = none ∧ m' = [] ∨ IndexMap.get m k = some (.table true false m')) ∧
    IndexMap.get M k = some (.table false false m') ∧ ∀ k', k' ≠ k → IndexMap.get M k' = IndexMap.get m k' := by
  cases X with
  | value => cases h
  | tables => cases h
  | table i d m =>
    rw [TomlItem.addTable] at h
    split at h
    · cases h
      rename_i hg
      exact ⟨i, d, m, [], _, rfl, rfl, .inl ⟨hg, rfl⟩, get_append_new _ hg, fun k' hk => get_append_ne m _ hk⟩
    · cases h
      rename_i m' hg
      exact ⟨i, d, m, m', _, rfl, rfl, .inr hg, get_append_new _ (get_filter_same m k), fun k' hk => by
        rw [get_append_ne _ _ hk, get_filter_ne m hk]⟩
    · cases h

theorem addElement_inv {k : Str} {X X' : TomlItem} (h : TomlItem.addElement k X = some X') : ∃ i d m l M, X = .table i d m ∧ X' = .table i d M ∧
    (IndexMap.get m k = none ∧ l = [] ∨ IndexMap.get m k = some (.tables l)) ∧
    IndexMap.get M k = some (.tables (l ++ [.table false false []])) ∧ ∀ k', k' ≠ k → IndexMap.get M k' = IndexMap.get m k' := by
  cases X with
  | value => cases h
  | tables => cases h
  | table i d m =>
    rw [TomlItem.addElement] at h
    split at h
    · cases h
      rename_i hg
      exact ⟨i, d, m, [], _, rfl, rfl, .inl ⟨hg, rfl⟩, get_append_new _ hg, fun k' hk => get_append_ne m _ hk⟩
    · cases h
      rename_i l hg
      exact ⟨i, d, m, l, _, rfl, rfl, .inr hg, IndexMap.get_insert _ _ _, fun k' hk => get_insert_ne m _ hk⟩
    · cases h

theorem addEntry_seen {dotted : Bool} {k : Str} {v : Toml} {X X' : TomlItem} (h : TomlItem.addEntry dotted k v X = some X')
    (w : List PlaceStep) (o : Option Toml) : Seen X' w o ↔ Seen X w o ∨ ∃ w' x, w = .key k :: w' ∧ o = some x ∧ TomlIn v w' x := by
  obtain ⟨i, d, m, rfl, hg, rfl⟩ := addEntry_inv h
  cases w with
  | nil => simp [seen_table_nil]
  | cons s w =>
    cases s with
    | index j => simp [seen_table_index]
    | key k' =>
      rw [seen_table_key, seen_table_key]
      by_cases hk : k' = k
      · subst hk
        simp only [get_append_new _ hg, hg, Option.some.injEq, exists_eq_left', reduceCtorEq, false_and, exists_false, false_or, List.cons.injEq,
          true_and]
        constructor
        · intro h
          cases h with
          | value h => exact ⟨w, _, rfl, rfl, h⟩
        · rintro ⟨w', x, rfl, rfl, h⟩
          exact .value h
      · simp [get_append_ne m _ hk, hk]

theorem addTable_seen {k : Str} {X X' : TomlItem} (h : TomlItem.addTable k X = some X') (w : List PlaceStep) (o : Option Toml) :
    Seen X' w o ↔ Seen X w o ∨ (o = none ∧ w <+: [.key k]) := by
  obtain ⟨i, d, m, m', M, rfl, rfl, hg, hM, hn⟩ := addTable_inv h
  cases w with
  | nil => simp [seen_table_nil]
  | cons s w =>
    cases s with
    | index j => simp [seen_table_index]
    | key k' =>
      rw [seen_table_key, seen_table_key]
      by_cases hk : k' = k
      · subst hk
        simp only [hM, Option.some.injEq, exists_eq_left', List.cons_prefix_cons, true_and, List.prefix_nil]
        rcases hg with ⟨hg, rfl⟩ | hg
        · simp only [hg, reduceCtorEq, false_and, exists_false, false_or]
          cases w with
          | nil => simp [seen_table_nil]
          | cons s w =>
            simp only [reduceCtorEq, and_false, iff_false]
            intro h
            cases h with | key h _ => cases h
        · simp only [hg, Option.some.injEq, exists_eq_left']
          cases w with
          | nil => simp [seen_table_nil]
          | cons s w =>
            simp only [reduceCtorEq, and_false, or_false]
            cases s with
            | index j => simp [seen_table_index]
            | key k => rw [seen_table_key, seen_table_key]
      · simp [hn k' hk, hk]

theorem addElement_seen {k : Str} {X X' : TomlItem} (h : TomlItem.addElement k X = some X') (w : List PlaceStep) (o : Option Toml) :
    Seen X' w o ↔ Seen X w o ∨ (o = none ∧ w <+: TomlItem.place [k] X') := by
  obtain ⟨i, d, m, l, M, rfl, rfl, hg, hM, hn⟩ := addElement_inv h
  have hp : TomlItem.place [k] (.table i d M) = [.key k, .index l.length] := by
    rw [place_get hM]
    simp [TomlItem.count, lastIndex, TomlItem.place]
  rw [hp]
  cases w with
  | nil => simp [seen_table_nil]
  | cons s w =>
    cases s with
    | index j => simp [seen_table_index]
    | key k' =>
      rw [seen_table_key, seen_table_key]
      by_cases hk : k' = k
      · subst hk
        have hl : (∃ x, IndexMap.get m k' = some x ∧ Seen x w o) ↔ (l ≠ [] ∨ IndexMap.get m k' = some (.tables l)) ∧ Seen (.tables l) w o := by
          rcases hg with ⟨hg, rfl⟩ | hg
          · simp [hg]
          · simp [hg]
        rw [hl]
        simp only [hM, Option.some.injEq, exists_eq_left', List.cons_prefix_cons, true_and]
        cases w with
        | nil => simp [seen_tables_nil]
        | cons s w =>
          cases s with
          | key k => simp [seen_tables_key]
          | index j =>
            rw [seen_tables_index, seen_tables_index]
            simp only [List.cons_prefix_cons, PlaceStep.index.injEq, List.prefix_nil]
            by_cases hj : j = l.length
            · subst hj
              simp only [List.getElem?_concat_length, Option.some.injEq, exists_eq_left', List.getElem?_eq_none (Nat.le_refl _), reduceCtorEq,
                false_and, exists_false, and_false, false_or, true_and]
              cases w with
              | nil => simp [seen_table_nil]
              | cons s w =>
                simp only [reduceCtorEq, and_false, iff_false]
                intro h
                cases h with | key h _ => cases h
            · have : (l ++ [TomlItem.table false false []])[j]? = l[j]? := by
                by_cases hlt : j < l.length
                · rw [List.getElem?_append_left hlt]
                · rw [List.getElem?_eq_none (by simp; omega), List.getElem?_eq_none (by omega)]
              simp only [this, hj, false_and, and_false, or_false]
              rcases hg with ⟨hg, rfl⟩ | hg
              · simp
              · simp [hg]
      · simp [hn k' hk, hk]

theorem addEntry_count {dotted : Bool} {k : Str} {v : Toml} {X X' : TomlItem} (h : TomlItem.addEntry dotted k v X = some X')
    {q : List Str} (hq : q ≠ []) : TomlItem.count (TomlItem.lastAt q X') = TomlItem.count (TomlItem.lastAt q X) := by
  obtain ⟨i, d, m, rfl, hg, rfl⟩ := addEntry_inv h
  cases q with
  | nil => exact absurd rfl hq
  | cons k' q =>
    by_cases hk : k' = k
    · subst hk
      rw [lastAt_get (get_append_new _ hg), lastAt_none hg]
      cases q with
      | nil => rfl
      | cons => rfl
    · simp only [TomlItem.lastAt, TomlItem.entries, get_append_ne m _ hk]

theorem addTable_count {k : Str} {X X' : TomlItem} (h : TomlItem.addTable k X = some X')
    {q : List Str} (hq : q ≠ []) : TomlItem.count (TomlItem.lastAt q X') = TomlItem.count (TomlItem.lastAt q X) := by
  obtain ⟨i, d, m, m', M, rfl, rfl, hg, hM, hn⟩ := addTable_inv h
  cases q with
  | nil => exact absurd rfl hq
  | cons k' q =>
    by_cases hk : k' = k
    · subst hk
      rw [lastAt_get hM]
      rcases hg with ⟨hg, rfl⟩ | hg
      · rw [lastAt_none hg]
        cases q with
        | nil => rfl
        | cons => rfl
      · rw [lastAt_get hg]
        cases q with
        | nil => rfl
        | cons => rfl
    · simp only [TomlItem.lastAt, TomlItem.entries, hn k' hk]

theorem addElement_count {k : Str} {X X' : TomlItem} (h : TomlItem.addElement k X = some X')
    {q : List Str} (hq : q ≠ []) : TomlItem.count (TomlItem.lastAt q X') =
      if q = [k] then TomlItem.count (TomlItem.lastAt q X) + 1 else if [k] <+: q then 0 else TomlItem.count (TomlItem.lastAt q X) := by
  obtain ⟨i, d, m, l, M, rfl, rfl, hg, hM, hn⟩ := addElement_inv h
  cases q with
  | nil => exact absurd rfl hq
  | cons k' q =>
    by_cases hk : k' = k
    · subst hk
      rw [lastAt_get hM]
      cases q with
      | nil =>
        rw [if_pos rfl]
        rcases hg with ⟨hg, rfl⟩ | hg
        · rw [lastAt_none hg]
          rfl
        · rw [lastAt_get hg]
          simp [TomlItem.lastAt, TomlItem.count]
      | cons k2 q =>
        rw [if_neg (by simp), if_pos (by simp), lastAt_tables (t := .table false false []) trivial (q := k2 :: q) (by simp)]
        rfl
    · rw [if_neg (by simp [hk]), if_neg (by simp [Ne.symm hk])]
      simp only [TomlItem.lastAt, TomlItem.entries, hn k' hk]

/-! ## Statements -/

theorem tablesSoFar_snoc (a : List TomlStmt) (s : TomlStmt) (q : List Str) : tablesSoFar (a ++ [s]) q = match s with
    | .element r => if r = q then tablesSoFar a q + 1 else if r <+: q then 0 else tablesSoFar a q
    | _ => tablesSoFar a q := by
  unfold tablesSoFar
  rw [List.foldl_append]
  cases s <;> rfl

theorem lastHeader_snoc (a : List TomlStmt) (s : TomlStmt) : lastHeader (a ++ [s]) = s.header (lastHeader a) := by
  unfold lastHeader
  rw [List.foldl_append]
  cases s <;> rfl

/-- The arrays of tables are as long as the statements say. -/
def Counted (a : List TomlStmt) (T : TomlItem) : Prop := ∀ q, q ≠ [] → TomlItem.count (TomlItem.lastAt q T) = tablesSoFar a q

theorem tomlPlace_at {a : List TomlStmt} {T : TomlItem} (h : Counted a T) (p q : List Str) :
    tomlPlace a q p = match TomlItem.lastAt q T with
      | some x => TomlItem.place p x
      | none => p.map .key := by
  induction p generalizing q with
  | nil => cases TomlItem.lastAt q T <;> rfl
  | cons k p ih =>
    have hc := h (q ++ [k]) (by simp)
    rw [tomlPlace, ih, ← hc, lastAt_append]
    cases hx : TomlItem.lastAt q T with
    | none => rfl
    | some x =>
      simp only [Option.bind_some]
      cases hg : IndexMap.get x.entries k with
      | none =>
        rw [lastAt_missing hg, place_missing hg]
        rfl
      | some y =>
        rw [lastAt_cons hg, place_cons hg]
        simp only [TomlItem.lastAt]
        cases TomlItem.count (some y) <;> rfl

theorem tomlPlace_eq {a : List TomlStmt} {T : TomlItem} (h : Counted a T) (p : List Str) : tomlPlace a [] p = TomlItem.place p T :=
  tomlPlace_at h p []

theorem changed_counted {b : Bool} {X X' T T' : TomlItem} {p : List Str} (h : Changed b X X' p T T') (hX : IsTable X) (hX' : IsTable X')
    (hc : ∀ q, q ≠ [] → TomlItem.count (TomlItem.lastAt q X') = TomlItem.count (TomlItem.lastAt q X)) (q : List Str) (hq : q ≠ []) :
    TomlItem.count (TomlItem.lastAt q T') = TomlItem.count (TomlItem.lastAt q T) := by
  by_cases hn : ∀ r, r ≠ [] → q ≠ p ++ r
  · exact changed_beside h hX hX' hq hn
  · simp only [Classical.not_forall, Classical.not_not] at hn
    obtain ⟨r, hr, rfl⟩ := hn
    obtain ⟨h1, h2⟩ := changed_below h hX hX' hr
    rw [h1, h2, hc r hr]

/-- What a statement adds to what is seen, and what it does to arrays of tables. -/
structure Added (a : List TomlStmt) (s : TomlStmt) (T T' : TomlItem) : Prop where
  seen : ∀ w o, Seen T' w o ↔ Seen T w o ∨ SaidBy a s w o
  counted : Counted (a ++ [s]) T'

theorem prefix_two {α : Type} {w P Q : List α} : (w <+: P ∨ ∃ w', w = P ++ w' ∧ w' <+: Q) ↔ w <+: P ++ Q := by
  constructor
  · rintro (h | ⟨w', rfl, h⟩)
    · exact h.trans (List.prefix_append P Q)
    · exact (List.prefix_append_right_inj P).2 h
  · intro h
    rcases List.prefix_or_prefix_of_prefix h (List.prefix_append P Q) with h1 | h1
    · exact .inl h1
    · obtain ⟨w', rfl⟩ := h1
      exact .inr ⟨w', rfl, (List.prefix_append_right_inj P).1 h⟩

theorem added_entry {a : List TomlStmt} {T T' : TomlItem} {p : List Str} {k : Str} {t : Toml} (hc : Counted a T)
    (h : (TomlStmt.entry p k t).apply (lastHeader a) T = some T') : Added a (.entry p k t) T T' ∧
      ∀ o, ¬ Seen T (tomlPlace a [] (lastHeader a ++ p) ++ [.key k]) o := by
  rw [TomlStmt.apply] at h
  obtain ⟨X, X', hX, h1⟩ := descend_changed h
  rw [TomlItem.enter] at hX
  obtain ⟨Y, Y', hY, h2⟩ := descend_changed hX
  obtain ⟨i, d, m, rfl, hg, rfl⟩ := addEntry_inv hY
  have tX := changed_isTable h2 trivial
  have tX' := changed_isTable' h2 trivial
  have hp : tomlPlace a [] (lastHeader a ++ p) = TomlItem.place (lastHeader a) T ++ TomlItem.place p X := by
    rw [tomlPlace_eq hc, (changed_place h1 tX tX' p).1]
  refine ⟨⟨fun w o => ?_, fun q hq => ?_⟩, ?_⟩
  · rw [changed_seen h1 tX (changed_seen h2 trivial (addEntry_seen hY))]
    refine or_congr_right ?_
    constructor
    · rintro (⟨rfl, h⟩ | ⟨w', rfl, ⟨rfl, h⟩ | ⟨w2, rfl, w3, x, rfl, rfl, h⟩⟩)
      · exact .way (by rw [hp]; exact prefix_two.1 (.inl h))
      · exact .way (by rw [hp]; exact prefix_two.1 (.inr ⟨_, rfl, h⟩))
      · have := SaidBy.value (l := a) (p := p) (k := k) h
        rw [hp, List.append_assoc] at this
        exact this
    · intro h
      cases h with
      | @value _ _ _ v w' h =>
        rw [hp, List.append_assoc]
        exact .inr ⟨_, rfl, .inr ⟨_, rfl, _, _, rfl, rfl, h⟩⟩
      | way h =>
        rw [hp] at h
        rcases prefix_two.2 h with h1 | ⟨w', rfl, h1⟩
        · exact .inl ⟨rfl, h1⟩
        · exact .inr ⟨_, rfl, .inl ⟨rfl, h1⟩⟩
  · rw [tablesSoFar_snoc]
    rw [changed_counted h1 tX tX' (changed_counted h2 trivial trivial (fun q hq => addEntry_count hY hq)) q hq]
    exact hc q hq
  · intro o ho
    rw [hp, List.append_assoc] at ho
    have := changed_at h2 (changed_at h1 ho)
    rw [seen_table_key] at this
    obtain ⟨x, hx, _⟩ := this
    rw [hg] at hx
    cases hx

theorem added_table {a : List TomlStmt} {T T' : TomlItem} {p : List Str} {header : List Str} (hc : Counted a T)
    (h : (TomlStmt.table p).apply header T = some T') : Added a (.table p) T T' := by
  rw [TomlStmt.apply] at h
  split at h
  · rename_i k hk
    obtain ⟨q, rfl⟩ := List.getLast?_eq_some_iff.1 hk
    rw [List.dropLast_concat] at h
    obtain ⟨X, X', hX, h1⟩ := descend_changed h
    obtain ⟨i, d, m, m', M, rfl, rfl, hg, hM, hn⟩ := addTable_inv hX
    have hp : tomlPlace a [] (q ++ [k]) = TomlItem.place q T ++ [.key k] := by
      rw [tomlPlace_eq hc, (changed_place h1 trivial trivial [k]).1]
      rcases hg with ⟨hg, _⟩ | hg
      · rw [place_none hg]; rfl
      · rw [place_get hg]; rfl
    refine ⟨fun w o => ?_, fun q' hq => ?_⟩
    · rw [changed_seen h1 trivial (addTable_seen hX)]
      refine or_congr_right ?_
      constructor
      · rintro (⟨rfl, h⟩ | ⟨w', rfl, rfl, h⟩)
        · exact .table (by rw [hp]; exact prefix_two.1 (.inl h))
        · exact .table (by rw [hp]; exact prefix_two.1 (.inr ⟨_, rfl, h⟩))
      · intro h
        cases h with
        | table h =>
          rw [hp] at h
          rcases prefix_two.2 h with h1 | ⟨w', rfl, h1⟩
          · exact .inl ⟨rfl, h1⟩
          · exact .inr ⟨_, rfl, rfl, h1⟩
    · rw [tablesSoFar_snoc]
      rw [changed_counted h1 trivial trivial (fun q hq => addTable_count hX hq) q' hq]
      exact hc q' hq
  · cases h

theorem added_element {a : List TomlStmt} {T T' : TomlItem} {p : List Str} {header : List Str} (hc : Counted a T)
    (h : (TomlStmt.element p).apply header T = some T') : Added a (.element p) T T' := by
  rw [TomlStmt.apply] at h
  split at h
  · rename_i k hk
    obtain ⟨q, rfl⟩ := List.getLast?_eq_some_iff.1 hk
    rw [List.dropLast_concat] at h
    obtain ⟨X, X', hX, h1⟩ := descend_changed h
    obtain ⟨i, d, m, l, M, rfl, rfl, hg, hM, hn⟩ := addElement_inv hX
    have hc' : Counted (a ++ [.element (q ++ [k])]) T' := by
      intro q' hq
      rw [tablesSoFar_snoc]
      simp only
      rw [← hc q' hq]
      by_cases hn : ∀ r, r ≠ [] → q' ≠ q ++ r
      · rw [changed_beside h1 trivial trivial hq hn]
        rw [if_neg (fun h => hn [k] (by simp) h.symm), if_neg]
        rintro ⟨r, rfl⟩
        exact hn ([k] ++ r) (by simp) (by rw [List.append_assoc])
      · simp only [Classical.not_forall, Classical.not_not] at hn
        obtain ⟨r, hr, rfl⟩ := hn
        obtain ⟨h2, h3⟩ := changed_below h1 trivial trivial hr
        rw [h2, h3, addElement_count hX hr]
        simp only [List.append_cancel_left_eq, List.prefix_append_right_inj, eq_comm]
    have hp : tomlPlace (a ++ [.element (q ++ [k])]) [] (q ++ [k]) = TomlItem.place q T ++ TomlItem.place [k] (.table i d M) := by
      rw [tomlPlace_eq hc', (changed_place h1 trivial trivial [k]).2]
    refine ⟨fun w o => ?_, hc'⟩
    rw [changed_seen h1 trivial (addElement_seen hX)]
    refine or_congr_right ?_
    constructor
    · rintro (⟨rfl, h⟩ | ⟨w', rfl, rfl, h⟩)
      · exact .element (by rw [hp]; exact prefix_two.1 (.inl h))
      · exact .element (by rw [hp]; exact prefix_two.1 (.inr ⟨_, rfl, h⟩))
    · intro h
      cases h with
      | element h =>
        rw [hp] at h
        rcases prefix_two.2 h with h1 | ⟨w', rfl, h1⟩
        · exact .inl ⟨rfl, h1⟩
        · exact .inr ⟨_, rfl, rfl, h1⟩
  · cases h

theorem added_stmt {a : List TomlStmt} {T T' : TomlItem} {s : TomlStmt} (hc : Counted a T) (h : s.apply (lastHeader a) T = some T') :
    Added a s T T' := by
  cases s with
  | entry p k t => exact (added_entry hc h).1
  | table p => exact added_table hc h
  | element p => exact added_element hc h

/-- The state after some statements. -/
structure Built (a : List TomlStmt) (T : TomlItem) : Prop where
  counted : Counted a T
  seen : ∀ w o, Seen T w o ↔ Said a w o

theorem said_snoc {a : List TomlStmt} {s : TomlStmt} {w : List PlaceStep} {o : Option Toml} :
    Said (a ++ [s]) w o ↔ Said a w o ∨ SaidBy a s w o := by
  constructor
  · intro h
    cases h with
    | top => exact .inl .top
    | @stmt a1 b s1 _ _ he h =>
      rcases List.eq_nil_or_concat b with rfl | ⟨b', x, rfl⟩
      · obtain ⟨rfl, h1⟩ := List.append_inj' he rfl
        cases h1
        exact .inr h
      · rw [List.concat_eq_append, ← List.cons_append, ← List.append_assoc] at he
        obtain ⟨rfl, h1⟩ := List.append_inj' he rfl
        exact .inl (.stmt rfl h)
  · rintro (h | h)
    · cases h with
      | top => exact .top
      | stmt he h =>
        rw [he, List.append_assoc, List.cons_append]
        exact .stmt rfl h
    · exact .stmt rfl h

theorem built_start : Built [] (.table false false []) where
  counted q hq := by rw [lastAt_empty rfl hq]; rfl
  seen w o := by
    constructor
    · intro h
      cases h with
      | table => exact .top
      | key h => cases h
    · intro h
      cases h with
      | top => exact .table
      | stmt h => simp at h

theorem built_step {a : List TomlStmt} {T T' : TomlItem} {s : TomlStmt} (hb : Built a T) (h : s.apply (lastHeader a) T = some T') :
    Built (a ++ [s]) T' where
  counted := (added_stmt hb.counted h).counted
  seen w o := by rw [(added_stmt hb.counted h).seen, hb.seen, said_snoc]

theorem built_all {l : List TomlStmt} : ∀ {a : List TomlStmt} {T T' : TomlItem}, Built a T → TomlStmt.applyAll (lastHeader a) T l = some T' →
    Built (a ++ l) T' := by
  induction l with
  | nil => intro a T T' hb h; cases h; rw [List.append_nil]; exact hb
  | cons s l ih =>
    intro a T T' hb h
    rw [TomlStmt.applyAll] at h
    split at h
    · rename_i T1 h1
      have := ih (built_step hb h1) (by rw [lastHeader_snoc]; exact h)
      simpa using this
    · cases h

/-! ## What is seen is in the document -/

theorem mem_get {β : Type} {m : List (Str × β)} (hm : (m.map Prod.fst).Nodup) {k : Str} {x : β} (h : (k, x) ∈ m) : IndexMap.get m k = some x := by
  induction m with
  | nil => cases h
  | cons e m ih =>
    obtain ⟨k1, v1⟩ := e
    rw [List.map_cons, List.nodup_cons] at hm
    rw [IndexMap.get]
    rcases List.mem_cons.1 h with h | h
    · cases h
      rw [if_pos rfl]
    · rw [if_neg, ih hm.2 h]
      rintro rfl
      exact hm.1 (List.mem_map.2 ⟨_, h, rfl⟩)

theorem tomlMap_mem {m : List (Str × TomlItem)} {k : Str} {x : TomlItem} (h : (k, x) ∈ m) : (k, x.toml) ∈ TomlItem.tomlMap m := by
  induction m with
  | nil => cases h
  | cons e m ih =>
    obtain ⟨k1, v1⟩ := e
    rw [TomlItem.tomlMap]
    rcases List.mem_cons.1 h with h | h
    · cases h; exact .head _
    · exact .tail _ (ih h)

theorem tomlSeq_map (l : List TomlItem) : TomlItem.tomlSeq l = l.map TomlItem.toml := by
  induction l with
  | nil => rfl
  | cons t l ih => rw [TomlItem.tomlSeq, ih]; rfl

theorem seen_in {S : TomlScalars} {T : TomlItem} (hT : ItemRead S T) {w : List PlaceStep} {o : Option Toml} (h : Seen T w o) :
    ∃ v, TomlIn T.toml w v ∧ (o = some v ∨ (o = none ∧ TomlHolder v)) := by
  induction h with
  | value h => exact ⟨_, h, .inl rfl⟩
  | table => exact ⟨_, .here, .inr ⟨rfl, trivial⟩⟩
  | @tables l =>
    cases hT with
    | tables hl _ => exact ⟨_, .here, .inr ⟨rfl, by rw [TomlItem.toml, tomlSeq_map]; simpa [TomlHolder] using hl⟩⟩
  | key hg _ ih =>
    obtain ⟨v, h1, h2⟩ := ih (itemRead_get hT hg)
    exact ⟨v, .key (tomlMap_mem (get_mem hg)) h1, h2⟩
  | index hg _ ih =>
    obtain ⟨v, h1, h2⟩ := ih (by
      cases hT with
      | tables _ hl => exact hl _ (List.mem_of_getElem? hg))
    refine ⟨v, .index ?_ h1, h2⟩
    rw [tomlSeq_map, List.getElem?_map, hg]
    rfl

theorem in_seen {S : TomlScalars} {T : TomlItem} (hT : ItemRead S T) {w : List PlaceStep} {v : Toml} (h : TomlIn T.toml w v) :
    Seen T w (some v) ∨ (Seen T w none ∧ TomlHolder v) := by
  induction w generalizing T with
  | nil =>
    generalize hv : T.toml = u at h
    cases h
    subst hv
    cases T with
    | value t => exact .inl (.value .here)
    | table i d m => exact .inr ⟨.table, trivial⟩
    | tables l =>
      cases hT with
      | tables hl _ => exact .inr ⟨.tables, by rw [TomlItem.toml, tomlSeq_map]; simpa [TomlHolder] using hl⟩
  | cons s w ih =>
    cases T with
    | value t => exact .inl (.value h)
    | table i d m =>
      cases h with
      | key hm h =>
        obtain ⟨x, hx, rfl⟩ := mem_tomlMap hm
        cases hT with
        | table _ _ hn hr =>
          rcases ih (hr _ hx) h with h | ⟨h, h'⟩
          · exact .inl (.key (mem_get hn hx) h)
          · exact .inr ⟨.key (mem_get hn hx) h, h'⟩
    | tables l =>
      cases h with
      | index hi h =>
        rw [tomlSeq_map, List.getElem?_map, Option.map_eq_some_iff] at hi
        obtain ⟨x, hx, rfl⟩ := hi
        cases hT with
        | tables _ hr =>
          rcases ih (hr _ (List.mem_of_getElem? hx)) h with h | ⟨h, h'⟩
          · exact .inl (.index hx h)
          · exact .inr ⟨.index hx h, h'⟩

theorem tomlIn_unique {S : TomlScalars} {t : Toml} (hT : TomlRead S t) {w : List PlaceStep} {v v' : Toml} (h : TomlIn t w v) (h' : TomlIn t w v') :
    v = v' := by
  induction h with
  | here => cases h'; rfl
  | key hm _ ih =>
    cases h' with
    | key hm' h' =>
      cases hT with
      | table hn hr =>
        have := (mem_get hn hm).symm.trans (mem_get hn hm')
        cases this
        exact ih (hr _ hm) h'
  | index hi _ ih =>
    cases h' with
    | index hi' h' =>
      cases hi.symm.trans hi'
      cases hT with
      | array hr => exact ih (hr _ (List.mem_of_getElem? hi)) h'

/-! ## The table that statements describe -/

theorem means_table {S : TomlScalars} {l : List TomlStmt} {t : Toml} (hr : ∀ x ∈ l, StmtRead S x) (h : tomlInlineTable l = some t) : TomlMeans l t := by
  rw [tomlInlineTable, Option.map_eq_some_iff] at h
  obtain ⟨T, ha, rfl⟩ := h
  have hb : Built l T := built_all (a := []) built_start ha
  have hT := itemRead_applyAll hr (itemRead_empty S _ _) ha
  refine ⟨fun w v h => ?_, fun w h => ?_, fun w v h => ?_, fun w v v' => tomlIn_unique (itemRead_toml hT)⟩
  · obtain ⟨v', h1, h2⟩ := seen_in hT ((hb.seen w _).2 h)
    rcases h2 with h2 | ⟨h2, _⟩
    · cases h2; exact h1
    · cases h2
  · obtain ⟨v', h1, h2⟩ := seen_in hT ((hb.seen w _).2 h)
    rcases h2 with h2 | ⟨_, h2⟩
    · cases h2
    · exact ⟨v', h2, h1⟩
  · rcases in_seen hT h with h | ⟨h, h'⟩
    · exact .inl ((hb.seen w _).1 h)
    · exact .inr ⟨(hb.seen w _).1 h, h'⟩

theorem headerAfter_last (a : List TomlStmt) : headerAfter [] a = lastHeader a := by
  rfl

/-- Nothing was said of the place of an entry before. -/
theorem entry_once {a b : List TomlStmt} {p : List Str} {k : Str} {t u : Toml} (h : tomlInlineTable (a ++ .entry p k t :: b) = some u)
    (o : Option Toml) : ¬ Said a (tomlPlace a [] (lastHeader a ++ p) ++ [.key k]) o := by
  rw [tomlInlineTable, Option.map_eq_some_iff] at h
  obtain ⟨T, ha, rfl⟩ := h
  rw [applyAll_append, Option.bind_eq_some_iff] at ha
  obtain ⟨T1, h1, h2⟩ := ha
  rw [headerAfter_last, TomlStmt.applyAll] at h2
  have hb : Built a T1 := built_all (a := []) built_start h1
  split at h2
  · rename_i T2 h3
    exact fun hs => (added_entry hb.counted h3).2 o ((hb.seen _ _).2 hs)
  · cases h2

theorem document_stmts {S : TomlScalars} (hS : S.date [] = none) {l : List TomlStmt} {s : Str} (hl : TomlDocumentText S l s) : ∀ x ∈ l, StmtRead S x :=
  stmts_read ((tomlStmts_iff hS).2 hl)

theorem pairs_stmts {S : TomlScalars} {l : List TomlStmt} {d : Nat} {x : Str} (hl : TomlSyntax S d (.pairs l) x) : ∀ x ∈ l, StmtRead S x :=
  (values_read S (x.length + 2)).2.2 _ _ _ _ (node_read hl (x.length + 2) [] (by omega)).1

theorem inline_unique {S : TomlScalars} {d : Nat} {x : Str} {l : List TomlStmt} {t : Toml} (hl : TomlSyntax S (d + 1) (.pairs l) x)
    (h : TomlSyntax S d (.value t) ('{' :: (x ++ ['}']))) : tomlInlineTable l = some t := by
  have h1 := node_read h (x.length + 3 + 1) [] (by simp) (afterValue_list fun _ _ h => nomatch h)
  rw [List.append_nil, tomlValue] at h1
  obtain ⟨_, h2, c, r, h3, h4⟩ := node_read hl (x.length + 3) [] (by omega)
  rw [h3] at h1 h2
  split at h1
  · split at h1
    · rename_i h5
      rw [(List.cons.inj h5).1] at h4
      exact absurd rfl (partHead_ne h4 (d := '}') (by decide))
    · rw [h2] at h1
      simp only at h1
      split at h1
      · rename_i h6
        cases h1
        exact h6
      · cases h1
  · cases h1

end Rops
