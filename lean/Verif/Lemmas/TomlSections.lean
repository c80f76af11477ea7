import Verif.Lemmas.TomlLines
/-!
# The texts of TOML documents: sections
-/

namespace Rops
open Spec

/-! ## Index maps -/

theorem IndexMap.get_insert {β : Type} (m : List (Str × β)) (k : Str) (v : β) : IndexMap.get (IndexMap.insert m k v) k = some v := by
  induction m with
  | nil => simp [IndexMap.insert, IndexMap.get]
  | cons e m ih =>
    obtain ⟨k', v'⟩ := e
    rw [IndexMap.insert]
    split
    · simp [IndexMap.get]
    · rename_i h
      rw [IndexMap.get, if_neg h, ih]

theorem IndexMap.insert_insert {β : Type} (m : List (Str × β)) (k : Str) (v w : β) :
    IndexMap.insert (IndexMap.insert m k v) k w = IndexMap.insert m k w := by
  induction m with
  | nil => simp [IndexMap.insert]
  | cons e m ih =>
    obtain ⟨k', v'⟩ := e
    by_cases h : k' = k
    · simp only [IndexMap.insert, if_pos h, if_true]
    · simp only [IndexMap.insert, if_neg h, ih]

theorem IndexMap.get_append {β : Type} {m : List (Str × β)} {k : Str} (h : k ∉ m.map Prod.fst) (v : β) :
    IndexMap.get (m ++ [(k, v)]) k = some v := by
  rw [← IndexMap.insert_of_not_mem h, IndexMap.get_insert]

theorem IndexMap.insert_append {β : Type} {m : List (Str × β)} {k : Str} (h : k ∉ m.map Prod.fst) (v w : β) :
    IndexMap.insert (m ++ [(k, v)]) k w = m ++ [(k, w)] := by
  rw [← IndexMap.insert_of_not_mem h, IndexMap.insert_insert, IndexMap.insert_of_not_mem h]

/-! ## Paths -/

/-- The item is a table. -/
def IsTable : TomlItem → Prop
  | .table _ _ _ => True
  | _ => False

/-- Tables stay tables. -/
def KeepsTable (f : TomlItem → Option TomlItem) : Prop := ∀ t t', IsTable t → f t = some t' → IsTable t'

theorem descend_append (b : Bool) (f : TomlItem → Option TomlItem) (p q : List Str) (t : TomlItem) :
    TomlItem.descend b f (p ++ q) t = TomlItem.descend b (TomlItem.descend b f q) p t := by
  induction p generalizing t with
  | nil => rw [List.nil_append, TomlItem.descend]
  | cons k p ih =>
    rw [List.cons_append]
    cases t with
    | value v => simp only [TomlItem.descend]
    | tables l => simp only [TomlItem.descend]
    | table i d m => simp only [TomlItem.descend, ih]

theorem descend_keeps {b : Bool} {f : TomlItem → Option TomlItem} (hf : KeepsTable f) (p : List Str) : KeepsTable (TomlItem.descend b f p) := by
  intro t t' ht h
  cases p with
  | nil => rw [TomlItem.descend] at h; exact hf t t' ht h
  | cons k p =>
    cases t with
    | value v => cases ht
    | tables l => cases ht
    | table i d m =>
      rw [TomlItem.descend] at h
      repeat' split at h
      all_goals first | cases h; trivial | cases h

theorem descend_comp {f g : TomlItem → Option TomlItem} (hf : KeepsTable f) (p : List Str) (t : TomlItem) :
    (TomlItem.descend false f p t).bind (TomlItem.descend false g p) = TomlItem.descend false (fun t => (f t).bind g) p t := by
  induction p generalizing t with
  | nil =>
    simp only [TomlItem.descend]
  | cons k p ih =>
    cases t with
    | value v => simp only [TomlItem.descend]; rfl
    | tables l => simp only [TomlItem.descend]; rfl
    | table i d m =>
      have next : ∀ {t1 : TomlItem}, IsTable t1 → TomlItem.descend false g (k :: p) (.table i d (IndexMap.insert m k t1)) =
          match TomlItem.descend false g p t1 with
          | some t => some (.table i d (IndexMap.insert m k t))
          | none => none := by
        intro t1 h1
        rw [TomlItem.descend, IndexMap.get_insert]
        cases t1 with
        | value v => cases h1
        | tables l => cases h1
        | table i' d' m' => simp only [Bool.false_and, Bool.false_eq_true, if_false, IndexMap.insert_insert]; rfl
      rw [TomlItem.descend, TomlItem.descend.eq_def _ _ (k :: p)]
      simp only
      cases hg : IndexMap.get m k with
      | none =>
        simp only
        rw [← ih]
        cases h1 : TomlItem.descend false f p (.table true false []) with
        | none => rfl
        | some t1 =>
          simp only [Option.bind_some]
          exact next (descend_keeps hf p (.table _ _ _) _ trivial h1)
      | some x =>
        cases x with
        | value v => rfl
        | table i' d' m' =>
          simp only [Bool.false_and, Bool.false_eq_true, if_false]
          rw [← ih]
          cases h1 : TomlItem.descend false f p (.table i' d' m') with
          | none => rfl
          | some t1 =>
            simp only [Option.bind_some]
            exact next (descend_keeps hf p (.table _ _ _) _ trivial h1)
        | tables l =>
          simp only
          cases l.getLast? with
          | none => rfl
          | some t0 =>
            simp only
            rw [← ih]
            cases h1 : TomlItem.descend false f p t0 with
            | none => rfl
            | some t1 =>
              simp only [Option.bind_some]
              rw [TomlItem.descend, IndexMap.get_insert]
              simp only [List.getLast?_append, List.getLast?_singleton, Option.some_or, List.dropLast_concat, IndexMap.insert_insert]

/-! ## Statements -/

theorem addEntry_keeps (b : Bool) (k : Str) (v : Toml) : KeepsTable (TomlItem.addEntry b k v) := by
  intro t t' _ h
  unfold TomlItem.addEntry at h
  repeat' split at h
  all_goals first | cases h; trivial | cases h

theorem addTable_keeps (k : Str) : KeepsTable (TomlItem.addTable k) := by
  intro t t' _ h
  unfold TomlItem.addTable at h
  repeat' split at h
  all_goals first | cases h; trivial | cases h

theorem addElement_keeps (k : Str) : KeepsTable (TomlItem.addElement k) := by
  intro t t' _ h
  unfold TomlItem.addElement at h
  repeat' split at h
  all_goals first | cases h; trivial | cases h

theorem apply_keeps (h : List Str) (s : TomlStmt) : KeepsTable (fun t => s.apply h t) := by
  intro t t' ht he
  cases s with
  | entry p k v => exact descend_keeps (descend_keeps (addEntry_keeps _ k v) p) h t t' ht he
  | table p =>
    simp only [TomlStmt.apply] at he
    split at he
    · exact descend_keeps (addTable_keeps _) _ t t' ht he
    · cases he
  | element p =>
    simp only [TomlStmt.apply] at he
    split at he
    · exact descend_keeps (addElement_keeps _) _ t t' ht he
    · cases he

/-- Headers have a path. -/
def Headed : TomlStmt → Prop
  | .entry _ _ _ => True
  | .table p => p ≠ []
  | .element p => p ≠ []

theorem apply_under (k : Str) (h : List Str) (t : TomlItem) {s : TomlStmt} (hs : Headed s) :
    (s.under k).apply (k :: h) t = TomlItem.descend false (fun t => s.apply h t) [k] t := by
  cases s with
  | entry p k' v => exact descend_append false _ [k] h t
  | table p =>
    simp only [TomlStmt.under, TomlStmt.apply]
    cases p with
    | nil => exact absurd rfl hs
    | cons a p =>
      rw [List.getLast?_cons_cons, List.dropLast_cons_cons]
      cases h1 : (a :: p).getLast? with
      | none => simp at h1
      | some l => exact descend_append false _ [k] _ t
  | element p =>
    simp only [TomlStmt.under, TomlStmt.apply]
    cases p with
    | nil => exact absurd rfl hs
    | cons a p =>
      rw [List.getLast?_cons_cons, List.dropLast_cons_cons]
      cases h1 : (a :: p).getLast? with
      | none => simp at h1
      | some l => exact descend_append false _ [k] _ t

theorem header_under (k : Str) (h : List Str) (s : TomlStmt) : (s.under k).header (k :: h) = k :: s.header h := by
  cases s <;> rfl

theorem applyAll_cons (h : List Str) (t : TomlItem) (s : TomlStmt) (l : List TomlStmt) :
    TomlStmt.applyAll h t (s :: l) = (s.apply h t).bind fun t => TomlStmt.applyAll (s.header h) t l := by
  rw [TomlStmt.applyAll]
  cases s.apply h t <;> rfl

theorem applyAll_under (k : Str) {l : List TomlStmt} (hl : ∀ s ∈ l, Headed s) (h0 : l ≠ []) (h : List Str) (t : TomlItem) :
    TomlStmt.applyAll (k :: h) t (l.map (TomlStmt.under k)) = TomlItem.descend false (fun t => TomlStmt.applyAll h t l) [k] t := by
  induction l generalizing h t with
  | nil => exact absurd rfl h0
  | cons s l ih =>
    rw [List.map_cons, applyAll_cons, apply_under k h t (hl s (by simp)), header_under]
    cases l with
    | nil =>
      have e : (fun t => TomlStmt.applyAll h t [s]) = fun t => s.apply h t := by
        funext t
        rw [applyAll_cons]
        show (s.apply h t).bind some = _
        cases s.apply h t <;> rfl
      rw [e]
      show (TomlItem.descend false (fun t => s.apply h t) [k] t).bind some = _
      cases TomlItem.descend false (fun t => s.apply h t) [k] t <;> rfl
    | cons s' l =>
      have ih := ih (fun s hs => hl s (by simp [hs])) (by simp) (s.header h)
      have e : (fun t => TomlStmt.applyAll h t (s :: s' :: l)) = fun t => (s.apply h t).bind fun t => TomlStmt.applyAll (s.header h) t (s' :: l) := by
        funext t
        rw [applyAll_cons]
      rw [e, ← descend_comp (apply_keeps h s)]
      congr 1
      funext t
      exact ih t

/-- The header after statements. -/
def headerAfter (h : List Str) (l : List TomlStmt) : List Str := l.foldl (fun h s => s.header h) h

theorem applyAll_append (h : List Str) (t : TomlItem) (a b : List TomlStmt) :
    TomlStmt.applyAll h t (a ++ b) = (TomlStmt.applyAll h t a).bind fun t => TomlStmt.applyAll (headerAfter h a) t b := by
  induction a generalizing h t with
  | nil => rfl
  | cons s a ih =>
    rw [List.cons_append, applyAll_cons, applyAll_cons]
    cases s.apply h t with
    | none => rfl
    | some t => exact ih _ t

/-- No entry is first. -/
def NoEntryFirst (l : List TomlStmt) : Prop := ∀ p k v r, l ≠ .entry p k v :: r

theorem applyAll_header {l : List TomlStmt} (hl : NoEntryFirst l) (h h' : List Str) (t : TomlItem) :
    TomlStmt.applyAll h t l = TomlStmt.applyAll h' t l := by
  cases l with
  | nil => rfl
  | cons s l =>
    cases s with
    | entry p k v => exact absurd rfl (hl p k v l)
    | table p => rfl
    | element p => rfl

theorem noEntryFirst_append {a b : List TomlStmt} (ha : NoEntryFirst a) (hb : NoEntryFirst b) : NoEntryFirst (a ++ b) := by
  intro p k v r h
  cases a with
  | nil => exact hb p k v r h
  | cons s a => exact ha p k v a (by rw [(List.cons.inj h).1])

theorem noEntryFirst_under {l : List TomlStmt} (h : NoEntryFirst l) (k : Str) : NoEntryFirst (l.map (TomlStmt.under k)) := by
  intro p k' v r he
  cases l with
  | nil => cases he
  | cons s l =>
    cases s with
    | entry p k v => exact absurd rfl (h p k v l)
    | table p => cases (List.cons.inj he).1
    | element p => cases (List.cons.inj he).1

theorem noEntryFirst_cons {s : TomlStmt} (h : ∀ p k v, s ≠ .entry p k v) (l : List TomlStmt) : NoEntryFirst (s :: l) :=
  fun p k v _ he => h p k v (List.cons.inj he).1

/-! ## Sections -/

mutual
/-- The items for the sections of a table. -/
def sectionItems : List (Str × Toml) → List (Str × TomlItem)
  | [] => []
  | (k, .table m) :: r =>
    (k, .table (!(m.isEmpty || !(Toml.entryStmts m).isEmpty)) false (valueItems (Toml.plainEntries m) ++ sectionItems m)) ::
      sectionItems r
  | (k, .array l) :: r => if !l.isEmpty && l.all Toml.isTable then (k, .tables (elementItems l)) :: sectionItems r else sectionItems r
  | _ :: r => sectionItems r
/-- The items for the elements of an array of tables. -/
def elementItems : List Toml → List TomlItem
  | [] => []
  | .table m :: r => .table false false (valueItems (Toml.plainEntries m) ++ sectionItems m) :: elementItems r
  | _ :: r => elementItems r
end

theorem entryStmts_eq (m : List (Str × Toml)) : Toml.entryStmts m = plainStmts (Toml.plainEntries m) := by
  induction m with
  | nil => rfl
  | cons e m ih =>
    obtain ⟨k, t⟩ := e
    rw [Toml.entryStmts, Toml.plainEntries]
    split
    · exact ih
    · rw [ih]; rfl

theorem plainEntries_keys {m : List (Str × Toml)} {k : Str} (h : k ∈ (Toml.plainEntries m).map Prod.fst) : k ∈ m.map Prod.fst := by
  induction m with
  | nil => exact h
  | cons e m ih =>
    obtain ⟨k', t⟩ := e
    rw [Toml.plainEntries] at h
    rw [List.map_cons, List.mem_cons]
    split at h
    · exact .inr (ih h)
    · rcases List.mem_cons.1 h with h | h
      · exact .inl h
      · exact .inr (ih h)

theorem plainEntries_nodup {m : List (Str × Toml)} (h : (m.map Prod.fst).Nodup) : ((Toml.plainEntries m).map Prod.fst).Nodup := by
  induction m with
  | nil => exact h
  | cons e m ih =>
    obtain ⟨k', t⟩ := e
    rw [List.map_cons, List.nodup_cons] at h
    rw [Toml.plainEntries]
    split
    · exact ih h.2
    · rw [List.map_cons, List.nodup_cons]
      exact ⟨fun hk => h.1 (plainEntries_keys hk), ih h.2⟩

/-- The entries with sections. -/
def sectionKeys (m : List (Str × Toml)) : List Str := (m.filter fun e => e.2.section).map Prod.fst

theorem sectionKeys_cons (e : Str × Toml) (m : List (Str × Toml)) :
    sectionKeys (e :: m) = if e.2.section then e.1 :: sectionKeys m else sectionKeys m := by
  unfold sectionKeys
  rw [List.filter_cons]
  split <;> rfl

theorem sectionItems_keys (m : List (Str × Toml)) : (sectionItems m).map Prod.fst = sectionKeys m := by
  induction m with
  | nil => rw [sectionItems]; rfl
  | cons e m ih =>
    obtain ⟨k, t⟩ := e
    rw [sectionKeys_cons]
    cases t with
    | table m' => rw [sectionItems, List.map_cons, ih]; rfl
    | array l =>
      rw [sectionItems]
      show _ = if (!l.isEmpty && l.all Toml.isTable) = true then _ else _
      split
      · rw [List.map_cons, ih]
      · exact ih
    | _ => rw [sectionItems]; exact ih; all_goals nofun

theorem sectionKeys_mem {m : List (Str × Toml)} {k : Str} (h : k ∈ sectionKeys m) : k ∈ m.map Prod.fst := by
  unfold sectionKeys at h
  obtain ⟨e, he, rfl⟩ := List.mem_map.1 h
  exact List.mem_map_of_mem (List.mem_filter.1 he).1

theorem plain_not_section {m : List (Str × Toml)} (h : (m.map Prod.fst).Nodup) {k : Str} (hk : k ∈ (Toml.plainEntries m).map Prod.fst) :
    k ∉ sectionKeys m := by
  induction m with
  | nil => cases hk
  | cons e m ih =>
    obtain ⟨k', t⟩ := e
    rw [List.map_cons, List.nodup_cons] at h
    rw [Toml.plainEntries] at hk
    rw [sectionKeys_cons]
    split at hk
    · rename_i hs
      rw [if_pos hs, List.mem_cons, not_or]
      exact ⟨fun he => h.1 (he ▸ plainEntries_keys hk), ih h.2 hk⟩
    · rename_i hs
      rw [if_neg hs]
      rcases List.mem_cons.1 hk with rfl | hk
      · exact fun hm => h.1 (sectionKeys_mem hm)
      · exact ih h.2 hk

theorem headed_entryStmts {m : List (Str × Toml)} {s : TomlStmt} (h : s ∈ Toml.entryStmts m) : Headed s := by
  rw [entryStmts_eq] at h
  obtain ⟨e, _, rfl⟩ := List.mem_map.1 h
  trivial

theorem headed_under {k : Str} {s : TomlStmt} : Headed (s.under k) := by
  cases s
  · trivial
  · exact List.cons_ne_nil _ _
  · exact List.cons_ne_nil _ _

mutual
theorem sectionStmts_shape : ∀ m : List (Str × Toml), NoEntryFirst (Toml.sectionStmts m) ∧ ∀ s ∈ Toml.sectionStmts m, Headed s
  | [] => ⟨by rw [Toml.sectionStmts]; exact (fun _ _ _ _ h => nomatch h), by rw [Toml.sectionStmts]; simp⟩
  | (k, .table m) :: r => by
    obtain ⟨h1, _⟩ := sectionStmts_shape m
    obtain ⟨h3, h4⟩ := sectionStmts_shape r
    rw [Toml.sectionStmts]
    constructor
    · refine noEntryFirst_append ?_ h3
      split
      · exact noEntryFirst_cons (by intro _ _ _ h; cases h) _
      · rename_i h
        have he : Toml.entryStmts m = [] := by
          simp only [Bool.or_eq_true, Bool.not_eq_true', not_or] at h
          simpa using h.2
        rw [he]
        exact noEntryFirst_under h1 k
    · intro s hs
      rcases List.mem_append.1 hs with hs | hs
      · rcases List.mem_append.1 hs with hs | hs
        · split at hs
          · rw [List.mem_singleton.1 hs]; exact List.cons_ne_nil _ _
          · cases hs
        · obtain ⟨s, _, rfl⟩ := List.mem_map.1 hs
          exact headed_under
      · exact h4 s hs
  | (k, .array l) :: r => by
    obtain ⟨h1, h2⟩ := elementStmts_shape k l
    obtain ⟨h3, h4⟩ := sectionStmts_shape r
    rw [Toml.sectionStmts]
    split
    · exact ⟨noEntryFirst_append h1 h3, fun s hs => (List.mem_append.1 hs).elim (h2 s) (h4 s)⟩
    · exact ⟨h3, h4⟩
  | (_, .str _) :: r => by rw [Toml.sectionStmts]; exact sectionStmts_shape r; all_goals exact fun _ _ h => nomatch h
  | (_, .int _) :: r => by rw [Toml.sectionStmts]; exact sectionStmts_shape r; all_goals exact fun _ _ h => nomatch h
  | (_, .float _) :: r => by rw [Toml.sectionStmts]; exact sectionStmts_shape r; all_goals exact fun _ _ h => nomatch h
  | (_, .bool _) :: r => by rw [Toml.sectionStmts]; exact sectionStmts_shape r; all_goals exact fun _ _ h => nomatch h
  | (_, .datetime _) :: r => by rw [Toml.sectionStmts]; exact sectionStmts_shape r; all_goals exact fun _ _ h => nomatch h
theorem elementStmts_shape (k : Str) : ∀ l : List Toml, NoEntryFirst (Toml.elementStmts k l) ∧ ∀ s ∈ Toml.elementStmts k l, Headed s
  | [] => ⟨by rw [Toml.elementStmts]; exact (fun _ _ _ _ h => nomatch h), by rw [Toml.elementStmts]; simp⟩
  | .table m :: r => by
    obtain ⟨h3, h4⟩ := elementStmts_shape k r
    rw [Toml.elementStmts]
    refine ⟨noEntryFirst_cons (by intro _ _ _ h; cases h) _, fun s hs => ?_⟩
    rcases List.mem_append.1 hs with hs | hs
    · rcases List.mem_cons.1 hs with rfl | hs
      · exact List.cons_ne_nil _ _
      · obtain ⟨s, _, rfl⟩ := List.mem_map.1 hs
        exact headed_under
    · exact h4 s hs
  | .str _ :: r => by rw [Toml.elementStmts]; exact elementStmts_shape k r; all_goals exact fun _ h => nomatch h
  | .int _ :: r => by rw [Toml.elementStmts]; exact elementStmts_shape k r; all_goals exact fun _ h => nomatch h
  | .float _ :: r => by rw [Toml.elementStmts]; exact elementStmts_shape k r; all_goals exact fun _ h => nomatch h
  | .bool _ :: r => by rw [Toml.elementStmts]; exact elementStmts_shape k r; all_goals exact fun _ h => nomatch h
  | .datetime _ :: r => by rw [Toml.elementStmts]; exact elementStmts_shape k r; all_goals exact fun _ h => nomatch h
  | .array _ :: r => by rw [Toml.elementStmts]; exact elementStmts_shape k r; all_goals exact fun _ h => nomatch h
end

/-! ## Building sections -/

theorem applyAll_body {m : List (Str × Toml)} (hm : (m.map Prod.fst).Nodup)
    (hs : ∀ (h : List Str) (i : Bool) (I : List (Str × TomlItem)), (∀ k ∈ I.map Prod.fst, k ∉ sectionKeys m) →
      TomlStmt.applyAll h (.table i false I) (Toml.sectionStmts m) = some (.table i false (I ++ sectionItems m))) (i : Bool) :
    TomlStmt.applyAll [] (.table i false []) (Toml.entryStmts m ++ Toml.sectionStmts m) =
      some (.table i false (valueItems (Toml.plainEntries m) ++ sectionItems m)) := by
  rw [applyAll_append, entryStmts_eq, applyAll_plain (plainEntries_nodup hm) (by simp)]
  simp only [List.nil_append, Option.bind_some]
  refine hs _ i _ ?_
  intro k hk
  have : (valueItems (Toml.plainEntries m)).map Prod.fst = (Toml.plainEntries m).map Prod.fst := by
    unfold valueItems
    rw [List.map_map]
    rfl
  rw [this] at hk
  exact plain_not_section hm hk

theorem applyAll_inside {k : Str} {body : List TomlStmt} (hb : ∀ s ∈ body, Headed s) {i i' : Bool} {I X : List (Str × TomlItem)}
    (hk : k ∉ I.map Prod.fst) (h : TomlStmt.applyAll [] (.table i' false []) body = some (.table i' false X)) :
    TomlStmt.applyAll [k] (.table i false (I ++ [(k, .table i' false [])])) (body.map (TomlStmt.under k)) =
      some (.table i false (I ++ [(k, .table i' false X)])) := by
  by_cases h0 : body = []
  · subst h0
    rw [TomlStmt.applyAll] at h
    cases h
    rfl
  · rw [applyAll_under k hb h0, TomlItem.descend, IndexMap.get_append hk]
    simp only [Bool.false_and, Bool.false_eq_true, if_false]
    rw [TomlItem.descend, h]
    simp only [IndexMap.insert_append hk]

theorem applyAll_inside_new {k : Str} {body : List TomlStmt} (hb : ∀ s ∈ body, Headed s) (h0 : body ≠ []) {i : Bool}
    {I X : List (Str × TomlItem)} (hk : k ∉ I.map Prod.fst)
    (h : TomlStmt.applyAll [] (.table true false []) body = some (.table true false X)) :
    TomlStmt.applyAll [k] (.table i false I) (body.map (TomlStmt.under k)) = some (.table i false (I ++ [(k, .table true false X)])) := by
  rw [applyAll_under k hb h0, TomlItem.descend, IndexMap.get_eq_none.2 hk]
  simp only
  rw [TomlItem.descend, h]
  simp only [IndexMap.insert_of_not_mem hk]

theorem applyAll_inside_last {k : Str} {body : List TomlStmt} (hb : ∀ s ∈ body, Headed s) {i : Bool} {I X : List (Str × TomlItem)}
    {l : List TomlItem} (hk : k ∉ I.map Prod.fst) (h : TomlStmt.applyAll [] (.table false false []) body = some (.table false false X)) :
    TomlStmt.applyAll [k] (.table i false (I ++ [(k, .tables (l ++ [.table false false []]))])) (body.map (TomlStmt.under k)) =
      some (.table i false (I ++ [(k, .tables (l ++ [.table false false X]))])) := by
  by_cases h0 : body = []
  · subst h0
    rw [TomlStmt.applyAll] at h
    cases h
    rfl
  · rw [applyAll_under k hb h0, TomlItem.descend, IndexMap.get_append hk]
    simp only [List.getLast?_append, List.getLast?_singleton, Option.some_or, List.dropLast_concat]
    rw [TomlItem.descend, h]
    simp only [IndexMap.insert_append hk]

theorem body_headed (m : List (Str × Toml)) : ∀ s ∈ Toml.entryStmts m ++ Toml.sectionStmts m, Headed s :=
  fun s hs => (List.mem_append.1 hs).elim headed_entryStmts ((sectionStmts_shape m).2 s)

theorem addElement_new {k : Str} {i : Bool} {I : List (Str × TomlItem)} (hk : k ∉ I.map Prod.fst) :
    TomlItem.addElement k (.table i false I) = some (.table i false (I ++ [(k, .tables [.table false false []])])) := by
  unfold TomlItem.addElement
  simp only [IndexMap.get_eq_none.2 hk]

theorem addElement_more {k : Str} {i : Bool} {I : List (Str × TomlItem)} (hk : k ∉ I.map Prod.fst) (l : List TomlItem) :
    TomlItem.addElement k (.table i false (I ++ [(k, .tables l)])) =
      some (.table i false (I ++ [(k, .tables (l ++ [.table false false []]))])) := by
  unfold TomlItem.addElement
  simp only [IndexMap.get_append hk, IndexMap.insert_append hk]

theorem addTable_new {k : Str} {i : Bool} {I : List (Str × TomlItem)} (hk : k ∉ I.map Prod.fst) :
    TomlItem.addTable k (.table i false I) = some (.table i false (I ++ [(k, .table false false [])])) := by
  unfold TomlItem.addTable
  simp only [IndexMap.get_eq_none.2 hk]

/-- A table none of whose entries is a line of its own has sections. -/
theorem sectionItems_ne {m : List (Str × Toml)} (h0 : m ≠ []) (he : Toml.entryStmts m = []) : sectionItems m ≠ [] := by
  intro h
  have hk := sectionItems_keys m
  rw [h, List.map_nil] at hk
  cases m with
  | nil => exact h0 rfl
  | cons e m =>
    rw [sectionKeys_cons] at hk
    split at hk
    · cases hk
    · rename_i hs
      rw [Toml.entryStmts, if_neg hs] at he
      cases he

theorem disjoint_next {k : Str} {t : Toml} {m : List (Str × Toml)} (hm : (((k, t) :: m).map Prod.fst).Nodup) (hs : t.section = true)
    {I : List (Str × TomlItem)} (hd : ∀ a ∈ I.map Prod.fst, a ∉ sectionKeys ((k, t) :: m)) :
    k ∉ I.map Prod.fst ∧ ∀ x, ∀ a ∈ (I ++ [(k, x)]).map Prod.fst, a ∉ sectionKeys m := by
  rw [List.map_cons, List.nodup_cons] at hm
  rw [sectionKeys_cons, if_pos hs] at hd
  refine ⟨fun h => hd k h (by simp), fun x a ha => ?_⟩
  rw [List.map_append, List.mem_append] at ha
  rcases ha with ha | ha
  · exact fun h => hd a ha (by simp [h])
  · simp only [List.map_cons, List.map_nil, List.mem_singleton] at ha
    subst ha
    exact fun h => hm.1 (sectionKeys_mem h)

mutual
theorem applyAll_sections {S : TomlScalars} : ∀ (m : List (Str × Toml)), TomlSoundMap S m → (m.map Prod.fst).Nodup →
    ∀ (h : List Str) (i : Bool) (I : List (Str × TomlItem)), (∀ k ∈ I.map Prod.fst, k ∉ sectionKeys m) →
    TomlStmt.applyAll h (.table i false I) (Toml.sectionStmts m) = some (.table i false (I ++ sectionItems m))
  | [], _, _, h, i, I, _ => by rw [Toml.sectionStmts, sectionItems, List.append_nil]; rfl
  | (k, .table m) :: r, hv, hn, h, i, I, hd => by
    rw [TomlSoundMap, TomlSound] at hv
    obtain ⟨hk, hd'⟩ := disjoint_next hn rfl hd
    have ihm := applyAll_body hv.1.1 (applyAll_sections m hv.1.2 hv.1.1)
    have ihr := fun h x => applyAll_sections r hv.2 (List.nodup_cons.1 hn).2 h i (I ++ [(k, x)]) (hd' x)
    rw [Toml.sectionStmts, sectionItems, applyAll_append]
    split
    · rename_i hvis
      have hi : (!(m.isEmpty || !(Toml.entryStmts m).isEmpty)) = false := by rw [hvis]; rfl
      have h1 : TomlStmt.apply h (.table i false I) (.table [k]) = some (.table i false (I ++ [(k, .table false false [])])) :=
        addTable_new hk
      rw [List.singleton_append, applyAll_cons, h1, hi]
      show ((TomlStmt.applyAll [k] _ _).bind _) = _
      rw [applyAll_inside (body_headed m) hk (ihm false)]
      simp only [Option.bind_some]
      rw [ihr, List.append_assoc]
      rfl
    · rename_i hvis
      have hi : (!(m.isEmpty || !(Toml.entryStmts m).isEmpty)) = true := by simpa using hvis
      have he : Toml.entryStmts m = [] := by
        simp only [Bool.or_eq_true, Bool.not_eq_true', not_or] at hvis
        simpa using hvis.2
      have h0 : m ≠ [] := by
        simp only [Bool.or_eq_true, not_or] at hvis
        simpa using hvis.1
      have hb := ihm true
      rw [he, List.nil_append] at hb
      have hne : Toml.sectionStmts m ≠ [] := by
        intro hz
        rw [hz, TomlStmt.applyAll] at hb
        have : [] = valueItems (Toml.plainEntries m) ++ sectionItems m := by
          injection hb with hb; injection hb
        exact sectionItems_ne h0 he (List.append_eq_nil_iff.1 this.symm).2
      rw [hi, List.nil_append, he, List.nil_append, applyAll_header (noEntryFirst_under (sectionStmts_shape m).1 k) h [k],
        applyAll_inside_new (sectionStmts_shape m).2 hne hk hb]
      simp only [Option.bind_some]
      rw [ihr, List.append_assoc]
      rfl
  | (k, .array l) :: r, hv, hn, h, i, I, hd => by
    rw [TomlSoundMap, TomlSound] at hv
    rw [Toml.sectionStmts, sectionItems]
    by_cases hs : (!l.isEmpty && l.all Toml.isTable) = true
    · obtain ⟨hk, hd'⟩ := disjoint_next hn hs hd
      have ihl := applyAll_elements k l hv.1 h i I [] hk
      have ihr := fun h x => applyAll_sections r hv.2 (List.nodup_cons.1 hn).2 h i (I ++ [(k, x)]) (hd' x)
      have hs' := hs
      simp only [Bool.and_eq_true] at hs'
      rw [if_pos hs, if_pos hs'.2, applyAll_append]
      have hfirst : TomlStmt.applyAll h (.table i false I) (Toml.elementStmts k l) =
          TomlStmt.applyAll h (.table i false (I ++ [(k, .tables [])])) (Toml.elementStmts k l) := by
        cases l with
        | nil => simp at hs
        | cons t l =>
          cases t with
          | table m =>
            rw [Toml.elementStmts, List.cons_append, applyAll_cons, applyAll_cons]
            have e1 : TomlStmt.apply h (.table i false I) (.element [k]) = _ := addElement_new hk
            have e2 : TomlStmt.apply h (.table i false (I ++ [(k, .tables [])])) (.element [k]) = _ := addElement_more hk []
            rw [e1, e2]
            rfl
          | _ => simp [Toml.isTable] at hs
      rw [hfirst, ihl]
      simp only [Option.bind_some, List.nil_append]
      rw [ihr, List.append_assoc]
      rfl
    · have hz : (if l.all Toml.isTable = true then Toml.elementStmts k l else []) = [] := by
        cases l with
        | nil => rw [Toml.elementStmts]; split <;> rfl
        | cons t l =>
          rw [if_neg]
          simpa using hs
      rw [sectionKeys_cons] at hd
      have hd' : ∀ a ∈ I.map Prod.fst, a ∉ sectionKeys r := by
        intro a ha
        have := hd a ha
        rw [if_neg (show ¬(Toml.array l).section = true from hs)] at this
        exact this
      rw [hz, if_neg hs, List.nil_append]
      exact applyAll_sections r hv.2 (List.nodup_cons.1 hn).2 h i I hd'
  | (_, .str _) :: r, hv, hn, h, i, I, hd => by
    rw [Toml.sectionStmts, sectionItems]
    rw [TomlSoundMap] at hv
    exact applyAll_sections r hv.2 (List.nodup_cons.1 hn).2 h i I hd
    all_goals exact fun _ _ h => nomatch h
  | (_, .int _) :: r, hv, hn, h, i, I, hd => by
    rw [Toml.sectionStmts, sectionItems]
    rw [TomlSoundMap] at hv
    exact applyAll_sections r hv.2 (List.nodup_cons.1 hn).2 h i I hd
    all_goals exact fun _ _ h => nomatch h
  | (_, .float _) :: r, hv, hn, h, i, I, hd => by
    rw [Toml.sectionStmts, sectionItems]
    rw [TomlSoundMap] at hv
    exact applyAll_sections r hv.2 (List.nodup_cons.1 hn).2 h i I hd
    all_goals exact fun _ _ h => nomatch h
  | (_, .bool _) :: r, hv, hn, h, i, I, hd => by
    rw [Toml.sectionStmts, sectionItems]
    rw [TomlSoundMap] at hv
    exact applyAll_sections r hv.2 (List.nodup_cons.1 hn).2 h i I hd
    all_goals exact fun _ _ h => nomatch h
  | (_, .datetime _) :: r, hv, hn, h, i, I, hd => by
    rw [Toml.sectionStmts, sectionItems]
    rw [TomlSoundMap] at hv
    exact applyAll_sections r hv.2 (List.nodup_cons.1 hn).2 h i I hd
    all_goals exact fun _ _ h => nomatch h
theorem applyAll_elements {S : TomlScalars} (k : Str) : ∀ (l : List Toml), TomlSoundSeq S l →
    ∀ (h : List Str) (i : Bool) (I : List (Str × TomlItem)) (done : List TomlItem), k ∉ I.map Prod.fst →
    TomlStmt.applyAll h (.table i false (I ++ [(k, .tables done)])) (Toml.elementStmts k l) =
      some (.table i false (I ++ [(k, .tables (done ++ elementItems l))]))
  | [], _, h, i, I, done, _ => by rw [Toml.elementStmts, elementItems, List.append_nil]; rfl
  | .table m :: r, hv, h, i, I, done, hk => by
    rw [TomlSoundSeq, TomlSound] at hv
    have ihm := applyAll_body hv.1.1 (applyAll_sections m hv.1.2 hv.1.1) false
    have ihr := fun h done => applyAll_elements k r hv.2 h i I done hk
    have e2 : TomlStmt.apply h (.table i false (I ++ [(k, .tables done)])) (.element [k]) = _ := addElement_more hk done
    rw [Toml.elementStmts, elementItems, applyAll_append, applyAll_cons, e2]
    show ((TomlStmt.applyAll [k] _ _).bind _) = _
    rw [applyAll_inside_last (body_headed m) hk ihm]
    simp only [Option.bind_some]
    rw [ihr, List.append_assoc]
    rfl
  | .str _ :: r, hv, h, i, I, done, hk => by
    rw [Toml.elementStmts, elementItems]
    rw [TomlSoundSeq] at hv
    exact applyAll_elements k r hv.2 h i I done hk
    all_goals exact fun _ h => nomatch h
  | .int _ :: r, hv, h, i, I, done, hk => by
    rw [Toml.elementStmts, elementItems]
    rw [TomlSoundSeq] at hv
    exact applyAll_elements k r hv.2 h i I done hk
    all_goals exact fun _ h => nomatch h
  | .float _ :: r, hv, h, i, I, done, hk => by
    rw [Toml.elementStmts, elementItems]
    rw [TomlSoundSeq] at hv
    exact applyAll_elements k r hv.2 h i I done hk
    all_goals exact fun _ h => nomatch h
  | .bool _ :: r, hv, h, i, I, done, hk => by
    rw [Toml.elementStmts, elementItems]
    rw [TomlSoundSeq] at hv
    exact applyAll_elements k r hv.2 h i I done hk
    all_goals exact fun _ h => nomatch h
  | .datetime _ :: r, hv, h, i, I, done, hk => by
    rw [Toml.elementStmts, elementItems]
    rw [TomlSoundSeq] at hv
    exact applyAll_elements k r hv.2 h i I done hk
    all_goals exact fun _ h => nomatch h
  | .array _ :: r, hv, h, i, I, done, hk => by
    rw [Toml.elementStmts, elementItems]
    rw [TomlSoundSeq] at hv
    exact applyAll_elements k r hv.2 h i I done hk
    all_goals exact fun _ h => nomatch h
end

end Rops
