import Verif.Lemmas.TomlRead
/-!
# The texts of TOML documents: the order in which they are written
-/

namespace Rops
open Spec

theorem section_order (t : Toml) : t.order.section = t.section := by
  cases t with
  | array l =>
    rw [Toml.order]
    split
    · rename_i h
      show (!(Toml.orderSeq l).isEmpty && (Toml.orderSeq l).all Toml.isTable) = (!l.isEmpty && l.all Toml.isTable)
      rw [h]
      rw [Bool.and_eq_true] at h
      have hall : ∀ l : List Toml, l.all Toml.isTable = true → (Toml.orderSeq l).all Toml.isTable = true := by
        intro l
        induction l with
        | nil => intro _; rw [Toml.orderSeq]; rfl
        | cons t r ih =>
          intro h
          rw [List.all_cons, Bool.and_eq_true] at h
          rw [Toml.orderSeq, List.all_cons, ih h.2, Bool.and_true]
          cases t with
          | table m => rw [Toml.order]; rfl
          | _ => exact absurd h.1 (by simp [Toml.isTable])
      rw [hall l h.2, Bool.and_true]
      cases l with
      | nil => exact h.1
      | cons t r => rw [Toml.orderSeq]; rfl
    · rfl
  | table m => rw [Toml.order]; rfl
  | _ => rw [Toml.order] <;> (intros; first | contradiction | (rename_i h; cases h))

theorem plainEntries_append (a b : List (Str × Toml)) : Toml.plainEntries (a ++ b) = Toml.plainEntries a ++ Toml.plainEntries b := by
  induction a with
  | nil => rw [Toml.plainEntries]; rfl
  | cons e a ih =>
    obtain ⟨k, t⟩ := e
    rw [List.cons_append, Toml.plainEntries, Toml.plainEntries, ih]
    split <;> rfl

theorem sectionEntries_append (a b : List (Str × Toml)) : Toml.sectionEntries (a ++ b) = Toml.sectionEntries a ++ Toml.sectionEntries b := by
  induction a with
  | nil => rw [Toml.sectionEntries]; rfl
  | cons e a ih =>
    obtain ⟨k, t⟩ := e
    rw [List.cons_append, Toml.sectionEntries, Toml.sectionEntries, ih]
    split <;> rfl

theorem plain_plain (m : List (Str × Toml)) : Toml.plainEntries (Toml.plainEntries m) = Toml.plainEntries m ∧
    Toml.sectionEntries (Toml.plainEntries m) = [] := by
  induction m with
  | nil => rw [Toml.plainEntries, Toml.plainEntries, Toml.sectionEntries]; exact ⟨rfl, rfl⟩
  | cons e m ih =>
    obtain ⟨k, t⟩ := e
    rw [Toml.plainEntries]
    split
    · exact ih
    · rename_i h
      rw [Toml.plainEntries, Toml.sectionEntries, if_neg h, if_neg h, ih.1, ih.2]
      exact ⟨rfl, rfl⟩

theorem plain_section (m : List (Str × Toml)) : Toml.plainEntries (Toml.sectionEntries m) = [] := by
  induction m with
  | nil => rw [Toml.sectionEntries, Toml.plainEntries]
  | cons e m ih =>
    obtain ⟨k, t⟩ := e
    rw [Toml.sectionEntries]
    split
    · rename_i h
      rw [Toml.plainEntries, section_order, if_pos h, ih]
    · exact ih

mutual
theorem order_order : ∀ t : Toml, t.order.order = t.order
  | .table m => by
    rw [Toml.order, Toml.order, plainEntries_append, sectionEntries_append, (plain_plain m).1, (plain_plain m).2, plain_section,
      section_section m, List.append_nil, List.nil_append]
  | .array l => by
    rw [Toml.order]
    split
    · rename_i h
      have := section_order (.array l)
      rw [Toml.order, if_pos h] at this
      rw [Toml.order, if_pos (by exact this.trans h), orderSeq_orderSeq l]
    · rename_i h
      rw [Toml.order, if_neg h]
  | .str _ => by rw [Toml.order, Toml.order] <;> (intros; first | contradiction | (rename_i h; cases h))
  | .int _ => by rw [Toml.order, Toml.order] <;> (intros; first | contradiction | (rename_i h; cases h))
  | .float _ => by rw [Toml.order, Toml.order] <;> (intros; first | contradiction | (rename_i h; cases h))
  | .bool _ => by rw [Toml.order, Toml.order] <;> (intros; first | contradiction | (rename_i h; cases h))
  | .datetime _ => by rw [Toml.order, Toml.order] <;> (intros; first | contradiction | (rename_i h; cases h))
theorem orderSeq_orderSeq : ∀ l : List Toml, Toml.orderSeq (Toml.orderSeq l) = Toml.orderSeq l
  | [] => by rw [Toml.orderSeq, Toml.orderSeq]
  | t :: r => by rw [Toml.orderSeq, Toml.orderSeq, order_order t, orderSeq_orderSeq r]
theorem section_section : ∀ m : List (Str × Toml), Toml.sectionEntries (Toml.sectionEntries m) = Toml.sectionEntries m
  | [] => by rw [Toml.sectionEntries, Toml.sectionEntries]
  | (k, t) :: r => by
    rw [Toml.sectionEntries]
    split
    · rename_i h
      rw [Toml.sectionEntries, section_order, if_pos h, order_order t, section_section r]
    · exact section_section r
end

/-- What is in order stays so. -/
theorem order_settled (m : List (Str × Toml)) :
    DocFormat.toml.order (DocFormat.toml.order m) = DocFormat.toml.order m := by
  have := order_order (.table m)
  rw [Toml.order, Toml.order] at this
  exact Toml.table.inj this

theorem entryStmts_append (a b : List (Str × Toml)) : Toml.entryStmts (a ++ b) = Toml.entryStmts a ++ Toml.entryStmts b := by
  induction a with
  | nil => rfl
  | cons e a ih =>
    obtain ⟨k, t⟩ := e
    rw [List.cons_append, Toml.entryStmts, Toml.entryStmts, ih]
    split <;> rfl

theorem sectionStmts_append (a b : List (Str × Toml)) : Toml.sectionStmts (a ++ b) = Toml.sectionStmts a ++ Toml.sectionStmts b := by
  induction a with
  | nil => rw [Toml.sectionStmts]; rfl
  | cons e a ih =>
    obtain ⟨k, t⟩ := e
    cases t with
    | table m => rw [List.cons_append, Toml.sectionStmts, Toml.sectionStmts, ih]; simp only [List.append_assoc]
    | array l => rw [List.cons_append, Toml.sectionStmts, Toml.sectionStmts, ih]; simp only [List.append_assoc]
    | _ =>
      rw [List.cons_append, Toml.sectionStmts, Toml.sectionStmts, ih]
      all_goals (intros; first | contradiction | (rename_i h; cases h))

theorem entryStmts_plain (m : List (Str × Toml)) : Toml.entryStmts (Toml.plainEntries m) = Toml.entryStmts m := by
  rw [entryStmts_eq, entryStmts_eq, (plain_plain m).1]

theorem entryStmts_section (m : List (Str × Toml)) : Toml.entryStmts (Toml.sectionEntries m) = [] := by
  rw [entryStmts_eq, plain_section]; rfl

theorem sectionStmts_none {k : Str} {t : Toml} (h : t.section = false) (r : List (Str × Toml)) :
    Toml.sectionStmts ((k, t) :: r) = Toml.sectionStmts r := by
  cases t with
  | table m => cases h
  | array l =>
    rw [Toml.sectionStmts]
    have h : (!l.isEmpty && l.all Toml.isTable) = false := h
    cases l with
    | nil => rw [if_pos (show ([] : List Toml).all Toml.isTable = true from rfl), Toml.elementStmts]; rfl
    | cons t l => rw [if_neg (by rw [show (!(t :: l).isEmpty) = true from rfl, Bool.true_and] at h; rw [h]; decide)]; rfl
  | _ => rw [Toml.sectionStmts]; all_goals (intros; first | contradiction | (rename_i h; cases h))

theorem sectionStmts_plain (m : List (Str × Toml)) : Toml.sectionStmts (Toml.plainEntries m) = [] := by
  induction m with
  | nil => rw [Toml.plainEntries, Toml.sectionStmts]
  | cons e m ih =>
    obtain ⟨k, t⟩ := e
    rw [Toml.plainEntries]
    split
    · exact ih
    · rename_i h
      rw [sectionStmts_none (by simpa using h), ih]

theorem order_isEmpty (m : List (Str × Toml)) : (Toml.plainEntries m ++ Toml.sectionEntries m).isEmpty = m.isEmpty := by
  cases m with
  | nil => rw [Toml.plainEntries, Toml.sectionEntries]; rfl
  | cons e m =>
    obtain ⟨k, t⟩ := e
    rw [Toml.plainEntries, Toml.sectionEntries]
    split
    · cases Toml.plainEntries m <;> rfl
    · rfl

mutual
theorem sectionStmts_section : ∀ m : List (Str × Toml), Toml.sectionStmts (Toml.sectionEntries m) = Toml.sectionStmts m
  | [] => by rw [Toml.sectionEntries]
  | (k, .table m) :: r => by
    rw [Toml.sectionEntries, if_pos (show (Toml.table m).section = true from rfl), Toml.order, Toml.sectionStmts, Toml.sectionStmts,
      sectionStmts_section r, order_isEmpty, entryStmts_append, entryStmts_plain, entryStmts_section, List.append_nil,
      sectionStmts_append, sectionStmts_plain, sectionStmts_section m, List.nil_append]
  | (k, .array l) :: r => by
    rw [Toml.sectionEntries]
    split
    · rename_i h
      have ho := section_order (.array l)
      rw [h] at ho
      have h' : (!l.isEmpty && l.all Toml.isTable) = true := h
      rw [Toml.order, if_pos h'] at ho ⊢
      have ho : (!(Toml.orderSeq l).isEmpty && (Toml.orderSeq l).all Toml.isTable) = true := ho
      rw [Bool.and_eq_true] at h' ho
      rw [Toml.sectionStmts, Toml.sectionStmts, if_pos ho.2, if_pos h'.2, elementStmts_order k l, sectionStmts_section r]
    · rename_i h
      rw [sectionStmts_none (by simpa using h), sectionStmts_section r]
  | (_, .str _) :: r => by
    rw [Toml.sectionEntries, if_neg (by exact Bool.false_ne_true), sectionStmts_none (by rfl), sectionStmts_section r]
  | (_, .int _) :: r => by
    rw [Toml.sectionEntries, if_neg (by exact Bool.false_ne_true), sectionStmts_none (by rfl), sectionStmts_section r]
  | (_, .float _) :: r => by
    rw [Toml.sectionEntries, if_neg (by exact Bool.false_ne_true), sectionStmts_none (by rfl), sectionStmts_section r]
  | (_, .bool _) :: r => by
    rw [Toml.sectionEntries, if_neg (by exact Bool.false_ne_true), sectionStmts_none (by rfl), sectionStmts_section r]
  | (_, .datetime _) :: r => by
    rw [Toml.sectionEntries, if_neg (by exact Bool.false_ne_true), sectionStmts_none (by rfl), sectionStmts_section r]
theorem elementStmts_order (k : Str) : ∀ l : List Toml, Toml.elementStmts k (Toml.orderSeq l) = Toml.elementStmts k l
  | [] => by rw [Toml.orderSeq]
  | .table m :: r => by
    rw [Toml.orderSeq, Toml.order, Toml.elementStmts, Toml.elementStmts, elementStmts_order k r, entryStmts_append, entryStmts_plain,
      entryStmts_section, List.append_nil, sectionStmts_append, sectionStmts_plain, sectionStmts_section m, List.nil_append]
  | .array l :: r => by
    rw [Toml.orderSeq, Toml.order]
    split <;> (rw [Toml.elementStmts, Toml.elementStmts, elementStmts_order k r]; all_goals (intros; first | contradiction | (rename_i h; cases h)))
  | .str _ :: r => by
    rw [Toml.orderSeq, Toml.order, Toml.elementStmts, Toml.elementStmts, elementStmts_order k r]
    all_goals (intros; first | contradiction | (rename_i h; cases h))
  | .int _ :: r => by
    rw [Toml.orderSeq, Toml.order, Toml.elementStmts, Toml.elementStmts, elementStmts_order k r]
    all_goals (intros; first | contradiction | (rename_i h; cases h))
  | .float _ :: r => by
    rw [Toml.orderSeq, Toml.order, Toml.elementStmts, Toml.elementStmts, elementStmts_order k r]
    all_goals (intros; first | contradiction | (rename_i h; cases h))
  | .bool _ :: r => by
    rw [Toml.orderSeq, Toml.order, Toml.elementStmts, Toml.elementStmts, elementStmts_order k r]
    all_goals (intros; first | contradiction | (rename_i h; cases h))
  | .datetime _ :: r => by
    rw [Toml.orderSeq, Toml.order, Toml.elementStmts, Toml.elementStmts, elementStmts_order k r]
    all_goals (intros; first | contradiction | (rename_i h; cases h))
end

/-- The same text is written for a document in its order. -/
theorem render_order (m : List (Str × Toml)) : Toml.render (DocFormat.toml.order m) = Toml.render m := by
  unfold Toml.render
  show tomlLines true (Toml.entryStmts (Toml.plainEntries m ++ Toml.sectionEntries m) ++
    Toml.sectionStmts (Toml.plainEntries m ++ Toml.sectionEntries m)) = _
  rw [entryStmts_append, entryStmts_plain, entryStmts_section, List.append_nil, sectionStmts_append, sectionStmts_plain,
    sectionStmts_section, List.nil_append]

end Rops
