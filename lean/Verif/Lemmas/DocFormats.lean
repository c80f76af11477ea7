import Verif.Lemmas.Document
import Verif.Lemmas.Format
/-! Lemmas about the documents of the three formats. -/

namespace Rops
open Spec

theorem filter_ne_self {β : Type} {m : List (Str × β)} {k : Str} (h : k ∉ m.map Prod.fst) :
    m.filter (fun e => e.1 != k) = m := by
  rw [List.filter_eq_self]
  intro e he
  rw [bne_iff_ne]
  intro hek
  exact h (by rw [← hek]; exact List.mem_map_of_mem he)

theorem docField_append_single {β : Type} {m : List (Str × β)} {k : Str} {v : β} (h : k ∉ m.map Prod.fst) :
    docField (m ++ [(k, v)]) k = some (some v) := by
  have h1 : m.filter (fun e => e.1 == k) = [] := by
    rw [List.filter_eq_nil_iff]
    intro e he hek
    exact h (by rw [← beq_iff_eq.1 hek]; exact List.mem_map_of_mem he)
  unfold docField
  rw [List.filter_append, h1]
  simp

/-- A key that is there, and again at the end, is a repeated field. -/
theorem docField_append_twice {β : Type} {m : List (Str × β)} {k : Str} {v : β} (h : k ∈ m.map Prod.fst) :
    docField (m ++ [(k, v)]) k = none := by
  obtain ⟨e, he, hek⟩ := List.mem_map.1 h
  have h1 : e ∈ m.filter (fun e => e.1 == k) := List.mem_filter.2 ⟨he, by simp [hek]⟩
  unfold docField
  rw [List.filter_append]
  cases hf : m.filter (fun e => e.1 == k) with
  | nil => rw [hf] at h1; cases h1
  | cons x r => cases r <;> simp

/-! ## JSON -/

theorem Json.take_add {m : List (Str × Json)} {d : RMap JsonScalar} (h : sopsKey ∉ m.map Prod.fst) :
    Json.takeSops (Json.addSops m d) = some (m, d) := by
  unfold Json.takeSops Json.addSops
  rw [docField_append_single h]
  simp only [List.filter_append, filter_ne_self h]
  simp

theorem Json.take_add_none {m : List (Str × Json)} {d : RMap JsonScalar} (h : sopsKey ∈ m.map Prod.fst) :
    Json.takeSops (Json.addSops m d) = none := by
  unfold Json.takeSops Json.addSops
  rw [docField_append_twice h]

/-! ## YAML -/

theorem Yaml.toDoc_ofDoc :
    (∀ t : Json, Yaml.toDoc (Yaml.ofTree Yaml.ofScalar t) = some t) ∧
    (∀ l : List Json, Yaml.seqToDoc (Yaml.ofSeq Yaml.ofScalar l) = some l) ∧
    (∀ m : RMap JsonScalar, Yaml.mapToDoc (Yaml.ofMap Yaml.ofScalar m) = some m) := by
  apply Tree.induct
  · intro l h; simp only [Yaml.ofTree, Yaml.toDoc, h]
  · intro m h; simp only [Yaml.ofTree, Yaml.toDoc, h]
  · simp only [Yaml.ofTree, Yaml.toDoc]
  · intro a; cases a <;> simp only [Yaml.ofTree, Yaml.ofScalar, Yaml.toDoc]
  · simp only [Yaml.ofSeq, Yaml.seqToDoc]
  · intro t r h1 h2; simp only [Yaml.ofSeq, Yaml.seqToDoc, h1, h2]
  · simp only [Yaml.ofMap, Yaml.mapToDoc]
  · intro k t r h1 h2; simp only [Yaml.ofMap, Yaml.mapToDoc, h1, h2]

theorem Yaml.take_add {m : List (Yaml × Yaml)} {d : RMap JsonScalar} (h : ∀ e ∈ m, e.1 ≠ .str sopsKey) :
    Yaml.takeSops (Yaml.addSops m d) = some (m, d) := by
  have hs : ∀ e ∈ m, e.1.isSops = false := by
    intro e he
    have := h e he
    unfold Yaml.isSops
    split
    · rename_i s hk
      rw [beq_eq_false_iff_ne]
      rintro rfl
      exact this hk
    · rfl
  have h1 : m.filter (fun e => e.1.isSops) = [] := by
    rw [List.filter_eq_nil_iff]; intro e he; simp [hs e he]
  have h2 : m.filter (fun e => !e.1.isSops) = m := by
    rw [List.filter_eq_self]; intro e he; simp [hs e he]
  have h3 : Yaml.isSops (.str sopsKey) = true := by simp [Yaml.isSops]
  unfold Yaml.takeSops Yaml.addSops
  rw [List.filter_append, h1]
  simp only [List.nil_append, List.filter_cons, h3, if_true, List.filter_nil, List.filter_append, h2,
    Yaml.toDoc_ofDoc.2.2 d]
  simp

theorem Yaml.take_add_none {m : List (Yaml × Yaml)} {d : RMap JsonScalar} (h : ∃ e ∈ m, e.1 = .str sopsKey) :
    Yaml.takeSops (Yaml.addSops m d) = none := by
  obtain ⟨e, he, hk⟩ := h
  have h1 : e ∈ m.filter (fun e => e.1.isSops) := List.mem_filter.2 ⟨he, by simp [hk, Yaml.isSops]⟩
  have h3 : Yaml.isSops (.str sopsKey) = true := by simp [Yaml.isSops]
  unfold Yaml.takeSops Yaml.addSops
  rw [List.filter_append]
  cases hf : m.filter (fun e => e.1.isSops) with
  | nil => rw [hf] at h1; cases h1
  | cons x r => cases r <;> simp [h3]

/-! ## TOML -/

theorem Toml.plainEntries_append (a b : List (Str × Toml)) :
    Toml.plainEntries (a ++ b) = Toml.plainEntries a ++ Toml.plainEntries b := by
  induction a with
  | nil => rfl
  | cons x r ih =>
    obtain ⟨k, t⟩ := x
    simp only [List.cons_append, Toml.plainEntries, ih]
    split <;> rfl

theorem Toml.sectionEntries_append (a b : List (Str × Toml)) :
    Toml.sectionEntries (a ++ b) = Toml.sectionEntries a ++ Toml.sectionEntries b := by
  induction a with
  | nil => rfl
  | cons x r ih =>
    obtain ⟨k, t⟩ := x
    simp only [List.cons_append, Toml.sectionEntries, ih]
    split <;> rfl

/-- The table in the order in which it is written. -/
def Toml.ordered (m : List (Str × Toml)) : List (Str × Toml) := Toml.plainEntries m ++ Toml.sectionEntries m

theorem Toml.plainEntries_filter (m : List (Str × Toml)) (k : Str) :
    (Toml.plainEntries m).filter (fun e => e.1 != k) = Toml.plainEntries (m.filter fun e => e.1 != k) := by
  induction m with
  | nil => rfl
  | cons x r ih =>
    obtain ⟨k', t⟩ := x
    rw [List.filter_cons]
    by_cases hk : (k' != k) = true <;> by_cases hs : t.section = true
    · simp only [hk, if_true, Toml.plainEntries, hs, ih]
    · simp only [hk, if_true, Toml.plainEntries, hs, if_false, List.filter_cons, ih, Bool.false_eq_true]
    · simp only [hk, Bool.false_eq_true, if_false, Toml.plainEntries, hs, if_true, ih]
    · simp only [hk, Bool.false_eq_true, if_false, Toml.plainEntries, hs, List.filter_cons, ih]

theorem Toml.sectionEntries_filter (m : List (Str × Toml)) (k : Str) :
    (Toml.sectionEntries m).filter (fun e => e.1 != k) = Toml.sectionEntries (m.filter fun e => e.1 != k) := by
  induction m with
  | nil => rfl
  | cons x r ih =>
    obtain ⟨k', t⟩ := x
    rw [List.filter_cons]
    by_cases hk : (k' != k) = true <;> by_cases hs : t.section = true
    · simp only [hk, if_true, Toml.sectionEntries, hs, List.filter_cons, ih]
    · simp only [hk, if_true, Toml.sectionEntries, hs, if_false, ih, Bool.false_eq_true]
    · simp only [hk, Bool.false_eq_true, if_false, Toml.sectionEntries, hs, if_true, List.filter_cons, ih]
    · simp only [hk, Bool.false_eq_true, if_false, Toml.sectionEntries, hs, ih]

theorem Toml.ordered_filter (m : List (Str × Toml)) (k : Str) :
    (Toml.ordered m).filter (fun e => e.1 != k) = Toml.ordered (m.filter fun e => e.1 != k) := by
  unfold Toml.ordered
  rw [List.filter_append, Toml.plainEntries_filter, Toml.sectionEntries_filter]

/-- The entries of the ordered table are those of the table, ordered. -/
theorem Toml.ordered_perm (m : List (Str × Toml)) :
    (Toml.ordered m).Perm (m.map fun e => (e.1, if e.2.section then Toml.order e.2 else e.2)) := by
  unfold Toml.ordered
  induction m with
  | nil => exact .nil
  | cons x r ih =>
    obtain ⟨k, t⟩ := x
    by_cases hs : t.section = true
    · simp only [Toml.plainEntries, Toml.sectionEntries, hs, if_true, List.map_cons]
      exact List.perm_middle.trans (.cons _ ih)
    · simp only [Toml.plainEntries, Toml.sectionEntries, hs, Bool.false_eq_true, if_false, List.map_cons, List.cons_append]
      exact .cons _ ih

theorem IndexMap.insert_filter {β : Type} (m : List (Str × β)) (k : Str) (v : β) :
    (IndexMap.insert m k v).filter (fun e => e.1 != k) = m.filter (fun e => e.1 != k) := by
  induction m with
  | nil => simp [IndexMap.insert]
  | cons x r ih =>
    obtain ⟨k', v'⟩ := x
    unfold IndexMap.insert
    split
    · rename_i h; subst h; simp
    · rw [List.filter_cons, List.filter_cons, ih]

theorem IndexMap.mem_insert {β : Type} (m : List (Str × β)) (k : Str) (v : β) : (k, v) ∈ IndexMap.insert m k v := by
  induction m with
  | nil => simp [IndexMap.insert]
  | cons x r ih =>
    obtain ⟨k', v'⟩ := x
    unfold IndexMap.insert
    split
    · simp
    · exact .tail _ ih

theorem IndexMap.insert_nodup {β : Type} {m : List (Str × β)} (k : Str) (v : β) (h : (m.map Prod.fst).Nodup) :
    ((IndexMap.insert m k v).map Prod.fst).Nodup := by
  by_cases hk : k ∈ m.map Prod.fst
  · have : (IndexMap.insert m k v).map Prod.fst = m.map Prod.fst := by
      clear h
      induction m with
      | nil => cases hk
      | cons x r ih =>
        obtain ⟨k', v'⟩ := x
        unfold IndexMap.insert
        split
        · rename_i h; subst h; rfl
        · rename_i h
          rw [List.map_cons, List.map_cons, ih]
          rw [List.map_cons, List.mem_cons] at hk
          exact hk.resolve_left fun e => h e.symm
    rw [this]
    exact h
  · rw [IndexMap.insert_of_not_mem hk]
    rw [List.map_append, List.nodup_append]
    refine ⟨h, by simp, ?_⟩
    rintro a ha b hb rfl
    simp only [List.map_cons, List.map_nil, List.mem_singleton] at hb
    exact hk (hb ▸ ha)

/-- Taking the metadata from the document as written. -/
theorem Toml.take_add {m : List (Str × Toml)} (hn : (m.map Prod.fst).Nodup) {d : RMap JsonScalar} :
    Toml.takeSops (Toml.ordered (Toml.addSops m d)) =
      some (Toml.ordered (m.filter fun e => e.1 != sopsKey),
        Toml.mapToDoc (Toml.ordered (Toml.ofMap Toml.ofScalar d))) := by
  have hp := Toml.ordered_perm (Toml.addSops m d)
  have hk := hp.map Prod.fst
  have hkey : ((Toml.addSops m d).map fun e => (e.1, if e.2.section then Toml.order e.2 else e.2)).map Prod.fst =
      (Toml.addSops m d).map Prod.fst := by
    rw [List.map_map]; rfl
  rw [hkey] at hk
  have hins : ((Toml.addSops m d).map Prod.fst).Nodup := by
    unfold Toml.addSops
    exact IndexMap.insert_nodup _ _ hn
  have hn' := hk.nodup_iff.2 hins
  have hm : (sopsKey, Toml.table (Toml.ordered (Toml.ofMap Toml.ofScalar d))) ∈ Toml.ordered (Toml.addSops m d) := by
    rw [hp.mem_iff, List.mem_map]
    refine ⟨(sopsKey, .table (Toml.ofMap Toml.ofScalar d)), IndexMap.mem_insert _ _ _, ?_⟩
    simp only [Toml.section, if_true, Toml.order]
    rfl
  unfold Toml.takeSops
  rw [docField_of_mem hn' hm]
  simp only [Toml.ordered_filter]
  unfold Toml.addSops
  rw [IndexMap.insert_filter]

/-! ### The metadata table -/

/-- A unit table has only texts. -/
theorem Toml.unit_ordered {k : Kind} (u : IUnit k) :
    Toml.mapToDoc (Toml.ordered (Toml.ofMap Toml.ofScalar u.toDoc)) = u.toDoc := by
  obtain ⟨id, cr, enc⟩ := u
  cases k <;> cases cr <;> rfl

theorem Toml.units_ordered {k : Kind} (us : Units k) :
    Toml.seqToDoc (Toml.orderSeq (Toml.ofSeq Toml.ofScalar (us.map fun u => .map u.toDoc))) =
      us.map fun u => .map u.toDoc := by
  induction us with
  | nil => rfl
  | cons u r ih =>
    simp only [List.map_cons, Toml.ofSeq, Toml.ofTree, Toml.orderSeq, Toml.order, Toml.seqToDoc, Toml.toDoc, ih]
    have := Toml.unit_ordered u
    unfold Toml.ordered at this
    rw [this]

theorem Toml.units_section {k : Kind} (us : Units k) :
    (Toml.ofSeq Toml.ofScalar (us.map fun u => .map u.toDoc)).all Toml.isTable = true := by
  induction us with
  | nil => rfl
  | cons u r ih => simp only [List.map_cons, Toml.ofSeq, Toml.ofTree, List.all_cons, Toml.isTable, Bool.true_and, ih]

theorem Toml.ofMap_eq {α : Type} (f : α → Toml) (m : RMap α) :
    Toml.ofMap f m = m.map fun e => (e.1, Toml.ofTree f e.2) := by
  induction m with
  | nil => rfl
  | cons x r ih => obtain ⟨k, t⟩ := x; simp only [Toml.ofMap, List.map_cons, ih]

theorem Toml.mapToDoc_eq (m : List (Str × Toml)) : Toml.mapToDoc m = m.map fun e => (e.1, Toml.toDoc e.2) := by
  induction m with
  | nil => rfl
  | cons x r ih => obtain ⟨k, t⟩ := x; simp only [Toml.mapToDoc, List.map_cons, ih]

/-- A value of the metadata, written to TOML and read. -/
def Toml.reread (t : Json) : Json :=
  Toml.toDoc (if (Toml.ofTree Toml.ofScalar t).section then Toml.order (Toml.ofTree Toml.ofScalar t)
    else Toml.ofTree Toml.ofScalar t)

theorem Toml.reread_units {k : Kind} {us : Units k} (h : us ≠ []) : Toml.reread us.toDoc = us.toDoc := by
  have h1 := Toml.units_section us
  have h2 := Toml.units_ordered us
  have h3 : (Toml.ofSeq Toml.ofScalar (us.map fun u => .map u.toDoc)).isEmpty = false := by
    cases us with
    | nil => exact absurd rfl h
    | cons u r => rfl
  unfold Toml.reread Units.toDoc
  simp only [Toml.ofTree, Toml.section, h3, h1, Bool.not_false, Bool.and_self, if_true, Toml.order, Toml.toDoc, h2]

theorem Toml.reread_metadata {M : Type} (showMac : M → Str) (md : Metadata M) :
    ∀ e ∈ md.toDoc showMac, Toml.reread e.2 = e.2 := by
  intro e he
  unfold Metadata.toDoc unitsField at he
  simp only [List.mem_append] at he
  rcases he with (((he | he) | he) | he) | he
  · split at he
    · cases he
    · rename_i h
      rw [List.mem_singleton] at he; subst he
      exact Toml.reread_units fun h' => h (by rw [h']; rfl)
  · split at he
    · cases he
    · rename_i h
      rw [List.mem_singleton] at he; subst he
      exact Toml.reread_units fun h' => h (by rw [h']; rfl)
  · simp only [List.mem_cons, List.not_mem_nil, or_false] at he
    rcases he with rfl | rfl <;> rfl
  · split at he
    · rename_i p hp
      rw [List.mem_singleton] at he; subst he
      cases p <;> rfl
    · cases he
  · split at he
    · rw [List.mem_singleton] at he; subst he; rfl
    · cases he

/-- The metadata table as read from TOML has the fields of the metadata, in another order. -/
theorem Toml.metadata_perm {M : Type} (showMac : M → Str) (md : Metadata M) :
    (Toml.mapToDoc (Toml.ordered (Toml.ofMap Toml.ofScalar (md.toDoc showMac)))).Perm (md.toDoc showMac) := by
  have h := (Toml.ordered_perm (Toml.ofMap Toml.ofScalar (md.toDoc showMac))).map fun e => (e.1, Toml.toDoc e.2)
  rw [Toml.mapToDoc_eq]
  refine h.trans (.of_eq ?_)
  rw [Toml.ofMap_eq, List.map_map, List.map_map]
  conv => rhs; rw [← List.map_id (md.toDoc showMac)]
  apply List.map_congr_left
  intro e he
  have := Toml.reread_metadata showMac md e he
  unfold Toml.reread at this
  simp only [Function.comp_apply, this, id_eq]

/-! ### The order of trees -/

/-- Leaves are neither tables nor arrays. -/
def TomlLeaf {α : Type} (f : α → Toml) : Prop := ∀ a, (f a).section = false ∧ (f a).isTable = false ∧ Toml.order (f a) = f a

theorem tomlLeaf_ofValue : TomlLeaf Toml.ofValue := by
  intro v; cases v <;> exact ⟨rfl, rfl, by simp [Toml.ofValue, Toml.order]⟩

theorem tomlLeaf_ofEncLeaf (C : Cipher) : TomlLeaf (Toml.ofEncLeaf C) := by
  intro l
  cases l with
  | encrypted e => exact ⟨rfl, rfl, by simp [Toml.ofEncLeaf, Toml.order]⟩
  | escaped v => exact tomlLeaf_ofValue v

theorem Toml.isTable_ofTree {α : Type} {f : α → Toml} (hf : TomlLeaf f) (t : Tree α) :
    (Toml.ofTree f t).isTable = isMap t := by
  cases t with
  | leaf a => simp only [Toml.ofTree, isMap, (hf a).2.1]
  | _ => simp only [Toml.ofTree, isMap, Toml.isTable]

theorem Toml.all_ofSeq {α : Type} {f : α → Toml} (hf : TomlLeaf f) (l : List (Tree α)) :
    (!(Toml.ofSeq f l).isEmpty && (Toml.ofSeq f l).all Toml.isTable) = (!l.isEmpty && l.all isMap) := by
  have : ∀ l : List (Tree α), (Toml.ofSeq f l).all Toml.isTable = l.all isMap := by
    intro l
    induction l with
    | nil => rfl
    | cons t r ih => simp only [Toml.ofSeq, List.all_cons, Toml.isTable_ofTree hf, ih]
  rw [this]
  cases l <;> rfl

theorem Toml.section_ofTree {α : Type} {f : α → Toml} (hf : TomlLeaf f) (t : Tree α) :
    (Toml.ofTree f t).section = isSection t := by
  cases t with
  | leaf a => simp only [Toml.ofTree, isSection, (hf a).1]
  | seq l => simp only [Toml.ofTree, isSection, Toml.section, Toml.all_ofSeq hf]
  | _ => simp only [Toml.ofTree, isSection, Toml.section]

theorem Toml.ofMap_append {α : Type} (f : α → Toml) (a b : RMap α) :
    Toml.ofMap f (a ++ b) = Toml.ofMap f a ++ Toml.ofMap f b := by
  rw [Toml.ofMap_eq, Toml.ofMap_eq, Toml.ofMap_eq, List.map_append]

theorem Toml.plain_ofMap {α : Type} {f : α → Toml} (hf : TomlLeaf f) (m : RMap α) :
    Toml.plainEntries (Toml.ofMap f m) = Toml.ofMap f (tomlPlain m) := by
  induction m with
  | nil => simp only [Toml.ofMap, Toml.plainEntries, tomlPlain]
  | cons x r ih =>
    obtain ⟨k, t⟩ := x
    simp only [Toml.ofMap, Toml.plainEntries, tomlPlain, Toml.section_ofTree hf, ih]
    split
    · rfl
    · simp only [Toml.ofMap]

theorem Toml.order_ofTree {α : Type} {f : α → Toml} (hf : TomlLeaf f) :
    (∀ t : Tree α, Toml.order (Toml.ofTree f t) = Toml.ofTree f (tomlOrder t)) ∧
    (∀ l : List (Tree α), Toml.orderSeq (Toml.ofSeq f l) = Toml.ofSeq f (tomlOrderSeq l)) ∧
    (∀ m : RMap α, Toml.sectionEntries (Toml.ofMap f m) = Toml.ofMap f (tomlSections m)) := by
  apply Tree.induct
  · intro l h
    simp only [Toml.ofTree, Toml.order, tomlOrder, Toml.all_ofSeq hf]
    split
    · rw [h, Toml.ofTree]
    · rw [Toml.ofTree]
  · intro m h
    simp only [Toml.ofTree, Toml.order, tomlOrder, Toml.plain_ofMap hf, h, Toml.ofMap_append]
  · simp only [Toml.ofTree, Toml.order, tomlOrder]
  · intro a; simp only [Toml.ofTree, tomlOrder, (hf a).2.2]
  · simp only [Toml.ofSeq, Toml.orderSeq, tomlOrderSeq]
  · intro t r h1 h2; simp only [Toml.ofSeq, Toml.orderSeq, tomlOrderSeq, h1, h2]
  · simp only [Toml.ofMap, Toml.sectionEntries, tomlSections]
  · intro k t r h1 h2
    simp only [Toml.ofMap, Toml.sectionEntries, tomlSections, Toml.section_ofTree hf, h2]
    split
    · simp only [Toml.ofMap, h1]
    · rfl

/-- The document of a map in TOML order is the ordered document. -/
theorem Toml.ordered_ofMap {α : Type} {f : α → Toml} (hf : TomlLeaf f) (m : RMap α) :
    Toml.ordered (Toml.ofMap f m) = Toml.ofMap f (tomlMapOrder m) := by
  unfold Toml.ordered tomlMapOrder
  rw [Toml.plain_ofMap hf, (Toml.order_ofTree hf).2.2, Toml.ofMap_append]

/-! ### Maps with values first -/

theorem tomlPlain_of_sections {α : Type} {m : RMap α} (h : ∀ e ∈ m, isSection e.2 = true) : tomlPlain m = [] := by
  induction m with
  | nil => rfl
  | cons x r ih =>
    obtain ⟨k, t⟩ := x
    have := h (k, t) (by simp)
    simp only at this
    simp only [tomlPlain, this, if_true]
    exact ih fun e he => h e (by simp [he])

theorem tomlOrder_valuesFirst {α : Type} :
    (∀ t : Tree α, ValuesFirst t → tomlOrder t = t) ∧
    (∀ l : List (Tree α), ValuesFirstSeq l → tomlOrderSeq l = l) ∧
    (∀ m : RMap α, ValuesFirstMap m → tomlPlain m ++ tomlSections m = m) := by
  apply Tree.induct
  · intro l h hv
    unfold ValuesFirst at hv
    unfold tomlOrder
    split
    · rename_i hs
      rw [h (hv hs)]
    · rfl
  · intro m h hv
    unfold ValuesFirst at hv
    simp only [tomlOrder, h hv]
  · intro _; simp only [tomlOrder]
  · intro a _; simp only [tomlOrder]
  · intro _; simp only [tomlOrderSeq]
  · intro t r h1 h2 hv
    unfold ValuesFirstSeq at hv
    simp only [tomlOrderSeq, h1 hv.1, h2 hv.2]
  · intro _; simp only [tomlPlain, tomlSections, List.append_nil]
  · intro k t r h1 h2 hv
    unfold ValuesFirstMap at hv
    obtain ⟨hs, hv1, hv2⟩ := hv
    simp only [tomlPlain, tomlSections, h1 hv1]
    by_cases ht : isSection t = true
    · have hp := tomlPlain_of_sections (hs ht)
      have h2 := h2 hv2
      rw [hp, List.nil_append] at h2
      simp only [ht, if_true, hp, List.nil_append, h2]
    · simp only [ht, Bool.false_eq_true, if_false, List.cons_append, h2 hv2]

theorem tomlMapOrder_eq {α : Type} {m : RMap α} (h : ValuesFirstMap m) : tomlMapOrder m = m :=
  tomlOrder_valuesFirst.2.2 m h

/-! ## Top-level keys of converted maps -/

theorem topKeys_mapM {α β : Type} {f : α → Option β} {m : RMap α} {m' : RMap β} (h : Tree.mapMapM f m = some m') :
    topKeys m' = topKeys m := by
  induction m generalizing m' with
  | nil => simp only [Tree.mapMapM, Option.some.injEq] at h; subst h; rfl
  | cons x r ih =>
    obtain ⟨k, t⟩ := x
    simp only [Tree.mapMapM] at h
    split at h
    · split at h
      · rename_i hr
        cases h
        unfold topKeys at ih ⊢
        simp only [List.map_cons, ih hr]
      · cases h
    · cases h

theorem topKeys_shape {α β : Type} {m : RMap α} {m' : RMap β} (h : shapeMap m = shapeMap m') : topKeys m = topKeys m' := by
  induction m generalizing m' with
  | nil => cases m' with
    | nil => rfl
    | cons y r' => obtain ⟨k', t'⟩ := y; simp [shapeMap] at h
  | cons x r ih =>
    obtain ⟨k, t⟩ := x
    cases m' with
    | nil => simp [shapeMap] at h
    | cons y r' =>
      obtain ⟨k', t'⟩ := y
      simp only [shapeMap, List.cons.injEq, Prod.mk.injEq] at h
      unfold topKeys at ih ⊢
      simp only [List.map_cons, ih h.2, h.1.1]

theorem Toml.keys_ofMap {α : Type} (f : α → Toml) (m : RMap α) : (Toml.ofMap f m).map Prod.fst = topKeys m := by
  rw [Toml.ofMap_eq, List.map_map]; rfl

theorem Yaml.ofMap_eq {α : Type} (f : α → Yaml) (m : RMap α) :
    Yaml.ofMap f m = m.map fun e => (.str e.1, Yaml.ofTree f e.2) := by
  induction m with
  | nil => rfl
  | cons x r ih => obtain ⟨k, t⟩ := x; simp only [Yaml.ofMap, List.map_cons, ih]

end Rops
