import Verif.Spec.Complaints
import Verif.Props.ReadErrors
/-!
# Lemmas on the items of documents
-/

namespace Rops
open Spec Props

/-- The error of a result. -/
def errOf {ε α : Type} : Except ε α → Option ε
  | .error e => some e
  | .ok _ => none

theorem errOf_eq {ε α : Type} {x : Except ε α} {e : ε} : errOf x = some e ↔ x = .error e := by
  cases x <;> simp [errOf]

/-- The error for an item of a plain document. -/
def itemErr : List Str × Option Scalar → Option FormatError
  | (_, none) => some .nonStringKey
  | (_, some s) => errOf (rd s)

/-- The error for an item of an encrypted document. -/
def encItemErr (C : Cipher) (rx : RegexMatch) (cfg : Option PartialEncryption) : List Str × Option Scalar → Option FormatError
  | (_, none) => some .nonStringKey
  | (p, some s) => errOf (rdEnc C ((Resolved.ofConfig cfg).steps rx p).escape s)

theorem findSome_append {α β : Type} (f : α → Option β) (a b : List α) :
    (a ++ b).findSome? f = match a.findSome? f with | some x => some x | none => b.findSome? f := by
  rw [List.findSome?_append]
  cases a.findSome? f <;> rfl

theorem findSome_one {α β : Type} (f : α → Option β) (a : α) : [a].findSome? f = f a := by
  rw [List.findSome?_cons]
  cases f a <;> rfl

theorem Yaml.to_eq_items :
    (∀ t p, errOf (Yaml.toTree t) = (yamlItems p t).findSome? itemErr) ∧
    (∀ l p, errOf (Yaml.toSeq l) = (yamlItemsSeq p l).findSome? itemErr) ∧
    (∀ m p, errOf (Yaml.toMap m) = (yamlItemsMap p m).findSome? itemErr) := by
  apply Yaml.induct
  · intro p; rw [Yaml.toTree, yamlItems]; rfl
  · intro b p; rw [Yaml.toTree, yamlItems]; rfl
  · intro n p
    rw [Yaml.toTree, yamlItems, findSome_one, itemErr, rd_number]
    cases rd (numberScalar n) <;> rfl
  · intro s p; rw [Yaml.toTree, yamlItems]; rfl
  · intro l ih p
    rw [Yaml.toTree, yamlItems, ← ih p]
    cases Yaml.toSeq l <;> rfl
  · intro m ih p
    rw [Yaml.toTree, yamlItems, ← ih p]
    cases Yaml.toMap m <;> rfl
  · intro s v ih p; rw [Yaml.toTree, yamlItems, ih p]
  · intro p; rw [Yaml.toSeq, yamlItemsSeq]; rfl
  · intro t r iht ihr p
    rw [Yaml.toSeq, yamlItemsSeq, findSome_append, ← iht p, ← ihr p]
    cases Yaml.toTree t with
    | error e => rfl
    | ok t =>
      simp only [errOf]
      cases Yaml.toSeq r <;> rfl
  · intro p; rw [Yaml.toMap, yamlItemsMap]; rfl
  · intro k t r _ iht ihr p
    cases k with
    | str k =>
      rw [Yaml.toMap, yamlItemsMap, findSome_append, ← iht (p ++ [k]), ← ihr p]
      simp only [Yaml.validateKey]
      cases Yaml.toTree t with
      | error e => rfl
      | ok t =>
        simp only [errOf]
        cases Yaml.toMap r <;> rfl
    | _ =>
      simp only [Yaml.toMap, yamlItemsMap, Yaml.validateKey, List.findSome?_cons, itemErr, errOf]

theorem Yaml.enc_eq_items (C : Cipher) (rx : RegexMatch) (cfg : Option PartialEncryption) :
    (∀ t p, errOf (Yaml.encToTree C rx ((Resolved.ofConfig cfg).steps rx p) t) =
      (yamlItems p t).findSome? (encItemErr C rx cfg)) ∧
    (∀ l p, errOf (Yaml.encToSeq C rx ((Resolved.ofConfig cfg).steps rx p) l) =
      (yamlItemsSeq p l).findSome? (encItemErr C rx cfg)) ∧
    (∀ m p, errOf (Yaml.encToMap C rx ((Resolved.ofConfig cfg).steps rx p) m) =
      (yamlItemsMap p m).findSome? (encItemErr C rx cfg)) := by
  apply Yaml.induct
  · intro p; rw [Yaml.encToTree, yamlItems]; rfl
  · intro b p
    rw [Yaml.encToTree, yamlItems, findSome_one, encItemErr]
    generalize ((Resolved.ofConfig cfg).steps rx p).escape = b'
    cases b' <;> rfl
  · intro n p
    rw [Yaml.encToTree, yamlItems, findSome_one, encItemErr, rd_number]
    generalize ((Resolved.ofConfig cfg).steps rx p).escape = b'
    cases b'
    · simp only [rdEnc, Bool.false_eq_true, if_false]
      cases n <;> rfl
    · simp only [rdEnc, if_true]
      cases rd (numberScalar n) <;> rfl
  · intro s p
    rw [Yaml.encToTree, yamlItems, findSome_one, encItemErr]
    cases ((Resolved.ofConfig cfg).steps rx p).escape
    · simp only [rdEnc, Bool.false_eq_true, if_false]
      cases EncValue.parse C s <;> rfl
    · rfl
  · intro l ih p
    rw [Yaml.encToTree, yamlItems, ← ih p]
    cases Yaml.encToSeq C rx ((Resolved.ofConfig cfg).steps rx p) l <;> rfl
  · intro m ih p
    rw [Yaml.encToTree, yamlItems, ← ih p]
    cases Yaml.encToMap C rx ((Resolved.ofConfig cfg).steps rx p) m <;> rfl
  · intro s v ih p; rw [Yaml.encToTree, yamlItems, ih p]
  · intro p; rw [Yaml.encToSeq, yamlItemsSeq]; rfl
  · intro t r iht ihr p
    rw [Yaml.encToSeq, yamlItemsSeq, findSome_append, ← iht p, ← ihr p]
    cases Yaml.encToTree C rx ((Resolved.ofConfig cfg).steps rx p) t with
    | error e => rfl
    | ok t =>
      simp only [errOf]
      cases Yaml.encToSeq C rx ((Resolved.ofConfig cfg).steps rx p) r <;> rfl
  · intro p; rw [Yaml.encToMap, yamlItemsMap]; rfl
  · intro k t r _ iht ihr p
    cases k with
    | str k =>
      rw [Yaml.encToMap, yamlItemsMap, findSome_append, ← iht (p ++ [k]), ← ihr p]
      simp only [Yaml.validateKey, Resolved.steps_concat]
      cases Yaml.encToTree C rx (((Resolved.ofConfig cfg).steps rx p).step rx k) t with
      | error e => rfl
      | ok t =>
        simp only [errOf]
        cases Yaml.encToMap C rx ((Resolved.ofConfig cfg).steps rx p) r <;> rfl
    | _ =>
      simp only [Yaml.encToMap, yamlItemsMap, Yaml.validateKey, List.findSome?_cons, encItemErr, errOf]

theorem travList_findSome {α β ε : Type} {f : List Str → α → Unit → Except ε (β × Unit)} (l : List (List Str × α)) :
    errOf (travList f l ()) = l.findSome? fun x => errOf (f x.1 x.2 ()) := by
  cases h : l.findSome? fun x => errOf (f x.1 x.2 ()) with
  | none =>
    cases ht : travList f l () with
    | ok _ => rfl
    | error e =>
      obtain ⟨A, p, a, B, rfl, _, h3⟩ := travList_error_iff.1 ht
      have := List.findSome?_eq_none_iff.1 h (p, a) (by simp)
      rw [h3] at this
      cases this
  | some e =>
    obtain ⟨A, x, B, rfl, h1, h2⟩ := List.findSome?_eq_some_iff.1 h
    rw [errOf_eq, travList_error_iff]
    refine ⟨A, x.1, x.2, B, rfl, fun y hy => ?_, errOf_eq.1 h1⟩
    have := h2 y hy
    cases hf : f y.1 y.2 () with
    | ok b => exact ⟨b.1, by cases b; rfl⟩
    | error e' => rw [hf] at this; cases this

theorem findSome_map {α β γ : Type} (g : α → β) (f : β → Option γ) (l : List α) :
    (l.map g).findSome? f = l.findSome? fun x => f (g x) := by
  induction l with
  | nil => rfl
  | cons a l ih => simp only [List.map_cons, List.findSome?_cons, ih]

theorem travMap_findSome {α β : Type} {f : List Str → α → Unit → Except FormatError (β × Unit)} (d : RMap α) :
    errOf (dropUnit (travMap f [] d ())) = (leaves d).findSome? fun x => errOf (f x.1 x.2 ()) := by
  rw [← travList_findSome]
  have h := fun e => travMap_error_iff (f := f) (m := d) (p := []) (s := ()) (e := e)
  cases hx : travList f (leaves d) () with
  | error e =>
    rw [errOf_eq.2 (dropUnit_error.2 ((h e).2 hx))]
    rfl
  | ok r =>
    cases hy : dropUnit (travMap f [] d ()) with
    | ok _ => rfl
    | error e =>
      rw [dropUnit_error, h e] at hy
      rw [show leavesMap [] d = leaves d from rfl, hx] at hy
      cases hy

theorem errOf_rdAt (p : List Str) (s : Scalar) : errOf (rdAt p s ()) = itemErr (p, some s) := by
  simp only [rdAt, itemErr]
  cases rd s <;> rfl

theorem errOf_rdEncAt (C : Cipher) (rx : RegexMatch) (cfg : Option PartialEncryption) (p : List Str) (s : Scalar) :
    errOf (rdEncAt C rx cfg p s ()) = encItemErr C rx cfg (p, some s) := by
  simp only [rdEncAt, encItemErr]
  cases rdEnc C ((Resolved.ofConfig cfg).steps rx p).escape s <;> rfl

/-- The error of reading a plain document. -/
theorem toInternal_findSome (x : Fmt) (m : x.doc.F.Map) : errOf (x.doc.F.toInternal m) = (docItems x m).findSome? itemErr := by
  cases x with
  | yaml => exact Yaml.to_eq_items.2.2 m []
  | json =>
    show errOf (Json.toMap m) = _
    rw [Json.to_eq_trav.2.2 m [], travMap_findSome]
    simp only [docItems, findSome_map, errOf_rdAt]
  | toml =>
    show errOf (Toml.toMap m) = _
    rw [Toml.to_eq_trav.2.2 m [], travMap_findSome]
    simp only [docItems, findSome_map, errOf_rdAt]

/-- The error of reading an encrypted document. -/
theorem encToInternal_findSome (C : Cipher) (rx : RegexMatch) (cfg : Option PartialEncryption) (x : Fmt) (m : x.doc.F.Map) :
    errOf (x.doc.F.encToInternal C rx (Resolved.ofConfig cfg) m) = (docItems x m).findSome? (encItemErr C rx cfg) := by
  cases x with
  | yaml => exact (Yaml.enc_eq_items C rx cfg).2.2 m []
  | json =>
    show errOf (Json.encToMap C rx ((Resolved.ofConfig cfg).steps rx []) m) = _
    rw [(Json.enc_eq_trav C rx cfg).2.2 m [], travMap_findSome]
    simp only [docItems, findSome_map, errOf_rdEncAt]
  | toml =>
    show errOf (Toml.encToMap C rx ((Resolved.ofConfig cfg).steps rx []) m) = _
    rw [(Toml.enc_eq_trav C rx cfg).2.2 m [], travMap_findSome]
    simp only [docItems, findSome_map, errOf_rdEncAt]

/-! ## Integers of documents -/

/-- An integer that documents can hold. -/
def Bounded : Option Scalar → Prop
  | some (.int n) => -2 ^ 63 ≤ n ∧ n < 2 ^ 64
  | _ => True

theorem bounded_number (n : Number) : Bounded (some (numberScalar n)) := by
  cases n with
  | posInt u =>
    have := u.toNat_lt
    simp only [numberScalar, Bounded]
    omega
  | negInt i =>
    have h1 := i.le_toInt
    have h2 := i.toInt_lt
    simp only [numberScalar, Bounded]
    omega
  | float s => trivial

theorem bounded_yaml :
    (∀ t p, ∀ a ∈ yamlItems p t, Bounded a.2) ∧ (∀ l p, ∀ a ∈ yamlItemsSeq p l, Bounded a.2) ∧
    (∀ m p, ∀ a ∈ yamlItemsMap p m, Bounded a.2) := by
  apply Yaml.induct
  · intro p a h; rw [yamlItems] at h; cases h
  · intro b p a h
    rw [yamlItems, List.mem_singleton] at h
    subst h
    trivial
  · intro n p a h
    rw [yamlItems, List.mem_singleton] at h
    subst h
    exact bounded_number n
  · intro b p a h
    rw [yamlItems, List.mem_singleton] at h
    subst h
    trivial
  · intro l ih p a h; rw [yamlItems] at h; exact ih p a h
  · intro l ih p a h; rw [yamlItems] at h; exact ih p a h
  · intro s v ih p a h; rw [yamlItems] at h; exact ih p a h
  · intro p a h; rw [yamlItemsSeq] at h; cases h
  · intro t r iht ihr p a h
    rw [yamlItemsSeq, List.mem_append] at h
    exact h.elim (iht p a) (ihr p a)
  · intro p a h; rw [yamlItemsMap] at h; cases h
  · intro k t r _ iht ihr p a h
    cases k with
    | str k =>
      rw [yamlItemsMap, List.mem_append] at h
      exact h.elim (iht _ a) (ihr p a)
    | _ =>
      simp only [yamlItemsMap, List.mem_cons] at h
      rcases h with rfl | h
      · trivial
      · exact ihr p a h

theorem bounded_json :
    (∀ t p, ∀ a ∈ leavesAt p (jsonDoc t), Bounded (some a.2)) ∧ (∀ l p, ∀ a ∈ leavesSeq p (jsonSeq l), Bounded (some a.2)) ∧
    (∀ m p, ∀ a ∈ leavesMap p (jsonMap m), Bounded (some a.2)) := by
  apply Tree.induct
  · intro l ih p a h; rw [jsonDoc, leavesAt] at h; exact ih p a h
  · intro l ih p a h; rw [jsonDoc, leavesAt] at h; exact ih p a h
  · intro p a h; rw [jsonDoc, leavesAt] at h; cases h
  · intro s p a h
    rw [jsonDoc, leavesAt, List.mem_singleton] at h
    subst h
    cases s with
    | num n => exact bounded_number n
    | _ => trivial
  · intro p a h; rw [jsonSeq, leavesSeq] at h; cases h
  · intro t r iht ihr p a h
    rw [jsonSeq, leavesSeq, List.mem_append] at h
    exact h.elim (iht p a) (ihr p a)
  · intro p a h; rw [jsonMap, leavesMap] at h; cases h
  · intro k t r iht ihr p a h
    rw [jsonMap, leavesMap, List.mem_append] at h
    exact h.elim (iht _ a) (ihr p a)

theorem bounded_toml :
    (∀ t p, ∀ a ∈ leavesAt p (tomlDoc t), Bounded (some a.2)) ∧ (∀ l p, ∀ a ∈ leavesSeq p (tomlSeq l), Bounded (some a.2)) ∧
    (∀ m p, ∀ a ∈ leavesMap p (tomlMap m), Bounded (some a.2)) := by
  have hone : ∀ {s : Scalar} {p : List Str} {a : List Str × Scalar}, Bounded (some s) → a ∈ leavesAt p (.leaf s) →
      Bounded (some a.2) := by
    intro s p a hb h
    rw [leavesAt, List.mem_singleton] at h
    subst h
    exact hb
  apply Toml.induct
  · intro s p a h
    rw [tomlDoc] at h
    split at h
    · rw [leavesAt] at h; cases h
    · exact hone (show Bounded (some _) from by simp only [Bounded]) h
  · intro n p a h
    rw [tomlDoc] at h
    refine hone ?_ h
    have h1 := n.le_toInt
    have h2 := n.toInt_lt
    simp only [Bounded]
    omega
  · intro s p a h; rw [tomlDoc] at h; exact hone (show Bounded (some _) from by simp only [Bounded]) h
  · intro s p a h; rw [tomlDoc] at h; exact hone (show Bounded (some _) from by simp only [Bounded]) h
  · intro s p a h; rw [tomlDoc] at h; exact hone (show Bounded (some _) from by simp only [Bounded]) h
  · intro l ih p a h; rw [tomlDoc, leavesAt] at h; exact ih p a h
  · intro l ih p a h; rw [tomlDoc, leavesAt] at h; exact ih p a h
  · intro p a h; rw [tomlSeq, leavesSeq] at h; cases h
  · intro t r iht ihr p a h
    rw [tomlSeq, leavesSeq, List.mem_append] at h
    exact h.elim (iht p a) (ihr p a)
  · intro p a h; rw [tomlMap, leavesMap] at h; cases h
  · intro k t r iht ihr p a h
    rw [tomlMap, leavesMap, List.mem_append] at h
    exact h.elim (iht _ a) (ihr p a)

theorem items_bounded {x : Fmt} {m : x.doc.F.Map} {p : List Str} {i : Option Scalar} (h : (p, i) ∈ docItems x m) : Bounded i := by
  cases x with
  | yaml => exact bounded_yaml.2.2 m [] _ h
  | json =>
    obtain ⟨a, ha, h⟩ := List.mem_map.1 h
    cases h
    exact bounded_json.2.2 m [] _ ha
  | toml =>
    obtain ⟨a, ha, h⟩ := List.mem_map.1 h
    cases h
    exact bounded_toml.2.2 m [] _ ha

end Rops
