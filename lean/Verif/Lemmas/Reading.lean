import Verif.Model.Reading
import Verif.Lemmas.Document
/-!
# Lemmas on how reading fails
-/

namespace Rops

theorem docField_cons {β : Type} {d : List (Str × β)} {k k' : Str} {v : β} :
    docField ((k', v) :: d) k = if k' = k then (match docField d k with
      | some none => some (some v)
      | _ => none) else docField d k := by
  unfold docField
  by_cases h : k' = k
  · subst h
    simp only [List.filter_cons, beq_self_eq_true, if_true]
    cases hd : d.filter (fun e => e.1 == k') with
    | nil => rfl
    | cons a r => cases r <;> rfl
  · simp [h]

theorem andThen_eq_none {a b : Option Halt} : Halt.andThen a b = none ↔ a = none ∧ b = none := by
  cases a <;> simp [Halt.andThen]

theorem andThen_eq_some {a b : Option Halt} {s : Halt} :
    Halt.andThen a b = some s ↔ a = some s ∨ a = none ∧ b = some s := by
  cases a <;> simp [Halt.andThen]

theorem unless_eq_none {b : Bool} : Halt.unless b = none ↔ b = true := by
  cases b <;> simp [Halt.unless]

theorem unless_ne_panic {b : Bool} : Halt.unless b ≠ some .panic := by
  cases b <;> simp [Halt.unless]

theorem ofKey_eq_none {α : Type} {r : Except IntegrationError α} : Halt.ofKey r = none ↔ ∃ a, r = .ok a := by
  unfold Halt.ofKey
  split <;> simp

theorem ofKey_eq_panic {α : Type} {r : Except IntegrationError α} : Halt.ofKey r = some .panic ↔ r = .error .panic := by
  unfold Halt.ofKey
  split <;> simp_all

theorem ofEnc_eq_none {α : Type} {r : Except EncParseError α} : Halt.ofEnc r = none ↔ ∃ a, r = .ok a := by
  unfold Halt.ofEnc
  split <;> simp

theorem ofEnc_eq_panic {α : Type} {r : Except EncParseError α} : Halt.ofEnc r = some .panic ↔ r = .error .panic := by
  unfold Halt.ofEnc
  split <;> simp_all

theorem requiredHalt_none {names : List Str} {d : RMap JsonScalar} :
    requiredHalt names d = none ↔ ∀ n ∈ names, docField d n ≠ some none := by
  unfold requiredHalt
  rw [unless_eq_none]
  simp only [List.all_eq_true, List.any_eq_true, beq_iff_eq]
  have : ∀ n, (∃ x, x ∈ d ∧ x.1 = n) ↔ docField d n ≠ some none := by
    intro n
    unfold docField
    cases hf : d.filter (fun e => e.1 == n) with
    | nil =>
      simp only [ne_eq, not_true_eq_false, iff_false, not_exists, not_and]
      intro x hx hn
      have : x ∈ d.filter (fun e => e.1 == n) := by simp [hx, hn]
      rw [hf] at this
      cases this
    | cons a r =>
      have ha : a ∈ d.filter (fun e => e.1 == n) := by rw [hf]; simp
      simp only [List.mem_filter, beq_iff_eq] at ha
      constructor
      · intro _
        cases r <;> simp
      · intro _
        exact ⟨a, ha⟩
  constructor
  · intro h n hn
    exact (this n).1 (by obtain ⟨x, hx, h⟩ := h n hn; exact ⟨x, hx, h⟩)
  · intro h n hn
    obtain ⟨x, hx, h⟩ := (this n).2 (h n hn)
    exact ⟨x, hx, h⟩

theorem requiredHalt_ne_panic {names : List Str} {d : RMap JsonScalar} : requiredHalt names d ≠ some .panic := unless_ne_panic

/-- What is required of a field that is read. -/
def FieldOk (d : RMap JsonScalar) (k : Str) (read : Json → Option Halt) : Prop :=
  docField d k = some none ∨ ∃ v, docField d k = some (some v) ∧ read v = none

theorem fieldsHalt_none' {field : Str → Option (Json → Option Halt)} {seen : List Str} {d : RMap JsonScalar} :
    fieldsHalt field seen d = none ↔ ∀ k read, field k = some read →
      docField d k = some none ∨ k ∉ seen ∧ ∃ v, docField d k = some (some v) ∧ read v = none := by
  induction d generalizing seen with
  | nil => simp [fieldsHalt, docField]
  | cons kv r ih =>
    obtain ⟨k', v'⟩ := kv
    simp only [fieldsHalt]
    cases hf : field k' with
    | none =>
      simp only
      rw [ih]
      constructor <;> intro h k read hk
      all_goals
        have hne : k' ≠ k := by rintro rfl; rw [hf] at hk; cases hk
        have := h k read hk
        rw [docField_cons, if_neg hne] at *
        exact this
    | some read' =>
      simp only [List.contains_iff_mem]
      by_cases hs : k' ∈ seen
      · simp only [hs, if_true, reduceCtorEq, false_iff]
        intro h
        rcases h k' read' hf with h | ⟨h, _⟩
        · rw [docField_cons, if_pos rfl] at h
          split at h <;> cases h
        · exact h hs
      · simp only [hs, if_false]
        cases hr : read' v' with
        | some s =>
          simp only [reduceCtorEq, false_iff]
          intro h
          rcases h k' read' hf with h | ⟨_, v, h, h'⟩
          · rw [docField_cons, if_pos rfl] at h
            split at h <;> cases h
          · rw [docField_cons, if_pos rfl] at h
            split at h <;> cases h
            rw [hr] at h'
            cases h'
        | none =>
          simp only
          rw [ih]
          constructor
          · intro h k read hk
            rw [docField_cons]
            by_cases hne : k' = k
            · subst hne
              rw [hf] at hk
              cases hk
              rcases h k' read' hf with h | ⟨h, _⟩
              · rw [if_pos rfl, h]
                exact .inr ⟨hs, v', rfl, hr⟩
              · exact absurd (List.mem_cons_self) h
            · rw [if_neg hne]
              rcases h k read hk with h | ⟨h1, h2⟩
              · exact .inl h
              · exact .inr ⟨fun hh => h1 (List.mem_cons_of_mem _ hh), h2⟩
          · intro h k read hk
            have := h k read hk
            rw [docField_cons] at this
            by_cases hne : k' = k
            · subst hne
              rw [if_pos rfl] at this
              left
              rcases this with h | ⟨_, v, h, _⟩
              · split at h <;> cases h
              · split at h
                · rename_i h0; exact h0
                · cases h
            · rw [if_neg hne] at this
              rcases this with h | ⟨h1, h2⟩
              · exact .inl h
              · refine .inr ⟨?_, h2⟩
                intro hm
                rcases List.mem_cons.1 hm with rfl | hm
                · exact hne rfl
                · exact h1 hm

theorem fieldsHalt_none {field : Str → Option (Json → Option Halt)} {d : RMap JsonScalar} :
    fieldsHalt field [] d = none ↔ ∀ k read, field k = some read → FieldOk d k read := by
  rw [fieldsHalt_none']
  simp [FieldOk]

theorem fieldsHalt_panic {field : Str → Option (Json → Option Halt)} {seen : List Str} {d : RMap JsonScalar}
    (h : fieldsHalt field seen d = some .panic) : ∃ k v read, (k, v) ∈ d ∧ field k = some read ∧ read v = some .panic := by
  induction d generalizing seen with
  | nil => cases h
  | cons kv r ih =>
    obtain ⟨k', v'⟩ := kv
    simp only [fieldsHalt] at h
    split at h
    · obtain ⟨k, v, read, hm, h⟩ := ih h
      exact ⟨k, v, read, List.mem_cons_of_mem _ hm, h⟩
    · rename_i read hf
      split at h
      · cases h
      · split at h
        · rename_i s hr
          cases h
          exact ⟨k', v', read, List.mem_cons_self, hf, hr⟩
        · obtain ⟨k, v, read, hm, h⟩ := ih h
          exact ⟨k, v, read, List.mem_cons_of_mem _ hm, h⟩

/-- One value changed in a struct that is read well. -/
theorem fieldsHalt_replace {field : Str → Option (Json → Option Halt)} {seen : List Str} {a b : RMap JsonScalar}
    {k : Str} {v v' : Json} {read : Json → Option Halt} (hk : field k = some read) {s : Halt} (hv : read v = some s)
    (h : fieldsHalt field seen (a ++ (k, v') :: b) = none) : fieldsHalt field seen (a ++ (k, v) :: b) = some s := by
  induction a generalizing seen with
  | nil =>
    simp only [List.nil_append, fieldsHalt, hk] at h ⊢
    split at h
    · cases h
    · rename_i hs
      rw [if_neg hs, hv]
  | cons kv r ih =>
    simp only [List.cons_append, fieldsHalt] at h ⊢
    split
    · rename_i hf
      rw [hf] at h
      exact ih h
    · rename_i rd hf
      rw [hf] at h
      simp only at h
      split at h
      · cases h
      · rename_i hs
        rw [if_neg hs]
        split at h
        · cases h
        · exact ih h

theorem fieldsHalt_other {field : Str → Option (Json → Option Halt)} {seen : List Str} {a b : RMap JsonScalar}
    {k : Str} (v v' : Json) (hk : field k = none) :
    fieldsHalt field seen (a ++ (k, v) :: b) = fieldsHalt field seen (a ++ (k, v') :: b) := by
  induction a generalizing seen with
  | nil => simp [fieldsHalt, hk]
  | cons kv r ih =>
    simp only [List.cons_append, fieldsHalt]
    simp only [ih]

theorem requiredHalt_other {names : List Str} {a b : RMap JsonScalar} {k : Str} (v v' : Json) :
    requiredHalt names (a ++ (k, v) :: b) = requiredHalt names (a ++ (k, v') :: b) := by
  simp [requiredHalt]

theorem seqHalt_none {f : Json → Option Halt} {l : List Json} : seqHalt f l = none ↔ ∀ v ∈ l, f v = none := by
  induction l with
  | nil => simp [seqHalt]
  | cons v r ih => cases h : f v <;> simp [seqHalt, h, ih]

theorem seqHalt_panic {f : Json → Option Halt} {l : List Json} (h : seqHalt f l = some .panic) :
    ∃ v ∈ l, f v = some .panic := by
  induction l with
  | nil => cases h
  | cons v r ih =>
    simp only [seqHalt] at h
    split at h
    · rename_i hv; cases h; exact ⟨v, List.mem_cons_self, hv⟩
    · obtain ⟨w, hw, h⟩ := ih h
      exact ⟨w, List.mem_cons_of_mem _ hw, h⟩

theorem seqHalt_replace {f : Json → Option Halt} {a b : List Json} {v v' : Json} {s : Halt} (hv : f v = some s)
    (h : seqHalt f (a ++ v' :: b) = none) : seqHalt f (a ++ v :: b) = some s := by
  induction a with
  | nil => simp [seqHalt, hv]
  | cons w r ih =>
    simp only [List.cons_append, seqHalt] at h ⊢
    split at h
    · cases h
    · exact ih h

theorem textHalt_none {f : Str → Option Halt} {v : Json} : textHalt f v = none ↔ ∃ s, v = .leaf (.str s) ∧ f s = none := by
  unfold textHalt
  split <;> simp_all

theorem textHalt_panic {f : Str → Option Halt} {v : Json} :
    textHalt f v = some .panic ↔ ∃ s, v = .leaf (.str s) ∧ f s = some .panic := by
  unfold textHalt
  split <;> simp_all

theorem mapHalt_none {f : RMap JsonScalar → Option Halt} {v : Json} : mapHalt f v = none ↔ ∃ d, v = .map d ∧ f d = none := by
  unfold mapHalt
  split <;> simp_all

theorem mapHalt_panic {f : RMap JsonScalar → Option Halt} {v : Json} :
    mapHalt f v = some .panic ↔ ∃ d, v = .map d ∧ f d = some .panic := by
  unfold mapHalt
  split <;> simp_all

theorem listHalt_none {f : Json → Option Halt} {v : Json} : listHalt f v = none ↔ ∃ l, v = .seq l ∧ ∀ w ∈ l, f w = none := by
  unfold listHalt
  split
  · simp [seqHalt_none]
  · simp_all

theorem listHalt_panic {f : Json → Option Halt} {v : Json} (h : listHalt f v = some .panic) :
    ∃ l, v = .seq l ∧ ∃ w ∈ l, f w = some .panic := by
  unfold listHalt at h
  split at h
  · exact ⟨_, rfl, seqHalt_panic h⟩
  · cases h

/-! ## Agreement with the readers -/

theorem docStr_isSome {d : RMap JsonScalar} {k : Str} : (docStr d k).isSome ↔ ∃ s, docField d k = some (some (.leaf (.str s))) := by
  unfold docStr
  split <;> simp_all

theorem keyId_agrees (O : DocOps) (k : Kind) (d : RMap JsonScalar) :
    (fieldsHalt (keyIdFields O k) [] d = none ∧ requiredHalt (keyIdRequired k) d = none) ↔ (keyIdOfDoc O k d).isSome := by
  rw [fieldsHalt_none, requiredHalt_none]
  cases k with
  | age =>
    simp only [keyIdRequired, List.mem_cons, List.not_mem_nil, or_false, forall_eq]
    constructor
    · rintro ⟨h1, h2⟩
      obtain h | ⟨v, hv, hr⟩ := h1 c!"recipient" _ rfl
      · exact absurd h h2
      · obtain ⟨s, rfl, hs⟩ := textHalt_none.1 hr
        rw [unless_eq_none] at hs
        simp only [keyIdOfDoc, docStr, hv]
        exact hs
    · intro h
      simp only [keyIdOfDoc] at h
      cases hd : docStr d c!"recipient" with
      | none => rw [hd] at h; cases h
      | some s =>
        rw [hd] at h
        simp only at h
        obtain ⟨s', hs'⟩ := docStr_isSome.1 (by rw [hd]; rfl : (docStr d c!"recipient").isSome)
        have : s' = s := by simp only [docStr, hs', Option.some.injEq] at hd; exact hd
        subst this
        refine ⟨?_, by rw [hs']; simp⟩
        intro k read hk
        simp only [keyIdFields] at hk
        split at hk
        · rename_i hn
          subst hn
          cases hk
          exact .inr ⟨_, hs', by rw [textHalt_none]; exact ⟨_, rfl, unless_eq_none.2 h⟩⟩
        · cases hk
  | kms =>
    simp only [keyIdRequired, List.mem_cons, List.not_mem_nil, or_false, forall_eq_or_imp, forall_eq]
    constructor
    · rintro ⟨h1, h2, h3⟩
      obtain h | ⟨v, hv, hr⟩ := h1 c!"aws_profile" _ rfl
      · exact absurd h h2
      obtain h | ⟨w, hw, hr'⟩ := h1 c!"arn" _ rfl
      · exact absurd h h3
      obtain ⟨p, rfl, _⟩ := textHalt_none.1 hr
      obtain ⟨s, rfl, hs⟩ := textHalt_none.1 hr'
      obtain ⟨a, ha⟩ := ofKey_eq_none.1 hs
      simp only [keyIdOfDoc, docStr, hv, hw, ha]
      rfl
    · intro h
      simp only [keyIdOfDoc] at h
      split at h
      · rename_i p s hp hs
        have hp' := docStr_isSome.1 (by rw [hp]; rfl : (docStr d c!"aws_profile").isSome)
        have hs' := docStr_isSome.1 (by rw [hs]; rfl : (docStr d c!"arn").isSome)
        obtain ⟨p', hp'⟩ := hp'
        obtain ⟨s', hs'⟩ := hs'
        have : s' = s := by simp only [docStr, hs', Option.some.injEq] at hs; exact hs
        subst this
        split at h
        · rename_i a ha
          refine ⟨?_, by rw [hp']; simp, by rw [hs']; simp⟩
          intro k read hk
          simp only [keyIdFields] at hk
          split at hk
          · rename_i hn
            subst hn
            cases hk
            exact .inr ⟨_, hp', textHalt_none.2 ⟨_, rfl, rfl⟩⟩
          · split at hk
            · rename_i hn
              subst hn
              cases hk
              exact .inr ⟨_, hs', textHalt_none.2 ⟨_, rfl, ofKey_eq_none.2 ⟨a, ha⟩⟩⟩
            · cases hk
        · cases h
      · cases h

theorem dateField_agrees (O : DocOps) (d : RMap JsonScalar) (k : Str) :
    FieldOk d k (fun v => match v with
      | .null => none
      | v => textHalt (fun s => Halt.unless (O.parseDate s).isSome) v) ↔ (dateOfDoc O d k).isSome := by
  unfold FieldOk dateOfDoc
  cases h : docField d k with
  | none => simp
  | some o =>
    cases o with
    | none => simp
    | some v =>
      simp only [Option.some.injEq, reduceCtorEq, false_or]
      constructor
      · rintro ⟨w, rfl, hw⟩
        split at hw
        · rfl
        · obtain ⟨s, rfl, hs⟩ := textHalt_none.1 hw
          rw [unless_eq_none] at hs
          simp only
          cases hp : O.parseDate s with
          | none => rw [hp] at hs; cases hs
          | some t => rfl
      · intro hv
        refine ⟨v, rfl, ?_⟩
        split
        · rfl
        · rename_i hnull
          rw [textHalt_none]
          split at hv
          · rename_i heq; cases heq
          · rename_i heq
            simp only [Option.some.injEq] at heq
            exact absurd heq hnull
          · rename_i s heq
            simp only [Option.some.injEq] at heq
            subst heq
            refine ⟨s, rfl, ?_⟩
            rw [unless_eq_none]
            cases hp : O.parseDate s with
            | none => rw [hp] at hv; cases hv
            | some t => rfl
          · cases hv

theorem unit_agrees (O : DocOps) (k : Kind) (d : RMap JsonScalar) : unitHalt O k d = none ↔ (IUnit.ofDoc O k d).isSome := by
  unfold unitHalt
  rw [andThen_eq_none, andThen_eq_none, andThen_eq_none, keyId_agrees, fieldsHalt_none, requiredHalt_none]
  simp only [List.mem_cons, List.not_mem_nil, or_false, forall_eq]
  have hiu : (IUnit.ofDoc O k d).isSome ↔
      (keyIdOfDoc O k d).isSome ∧ (dateOfDoc O d c!"created_at").isSome ∧ (docStr d c!"enc").isSome := by
    unfold IUnit.ofDoc
    cases keyIdOfDoc O k d <;> cases dateOfDoc O d c!"created_at" <;> cases docStr d c!"enc" <;> simp
  rw [hiu, ← dateField_agrees]
  constructor
  · rintro ⟨h1, h2, h3⟩
    refine ⟨h3, h1 c!"created_at" _ rfl, ?_⟩
    obtain h | ⟨v, hv, hr⟩ := h1 c!"enc" _ rfl
    · exact absurd h h2
    · obtain ⟨s, rfl, _⟩ := textHalt_none.1 hr
      exact docStr_isSome.2 ⟨s, hv⟩
  · rintro ⟨h3, h1, h2⟩
    obtain ⟨s, hs⟩ := docStr_isSome.1 h2
    refine ⟨?_, by rw [hs]; simp, h3⟩
    intro k read hk
    simp only [unitFields] at hk
    split at hk
    · rename_i hn
      subst hn
      cases hk
      exact h1
    · split at hk
      · rename_i hn
        subst hn
        cases hk
        exact .inr ⟨_, hs, textHalt_none.2 ⟨_, rfl, rfl⟩⟩
      · cases hk

theorem unitsList_agrees (O : DocOps) (k : Kind) (l : List Json) :
    (∀ w ∈ l, mapHalt (unitHalt O k) w = none) ↔ (Units.listOfDoc O k l).isSome := by
  induction l with
  | nil => simp [Units.listOfDoc]
  | cons v r ih =>
    simp only [List.mem_cons, forall_eq_or_imp]
    rw [ih]
    cases v with
    | map d =>
      simp only [mapHalt, unit_agrees, Units.listOfDoc]
      cases IUnit.ofDoc O k d <;> cases Units.listOfDoc O k r <;> simp
    | seq l => simp [mapHalt, Units.listOfDoc]
    | null => simp [mapHalt, Units.listOfDoc]
    | leaf a => simp [mapHalt, Units.listOfDoc]

theorem unitsField_agrees (O : DocOps) (k : Kind) (d : RMap JsonScalar) (n : Str) :
    FieldOk d n (listHalt (mapHalt (unitHalt O k))) ↔ (unitsOfField O k d n).isSome := by
  unfold FieldOk unitsOfField
  cases h : docField d n with
  | none => simp
  | some o =>
    cases o with
    | none => simp
    | some v =>
      simp only [Option.some.injEq, reduceCtorEq, false_or, exists_eq_left', listHalt_none]
      constructor
      · rintro ⟨l, rfl, hl⟩
        rw [unitsList_agrees] at hl
        simp only [Units.ofDoc]
        cases h : Units.listOfDoc O k l with
        | none => rw [h] at hl; cases hl
        | some us => rfl
      · intro hv
        cases v with
        | seq l =>
          refine ⟨l, rfl, ?_⟩
          rw [unitsList_agrees]
          simp only [Units.ofDoc] at hv
          cases h : Units.listOfDoc O k l with
          | none => rw [h] at hv; cases hv
          | some us => rfl
        | map m => cases hv
        | null => cases hv
        | leaf a => cases hv

theorem metadata_agrees (O : DocOps) (C : Cipher) (d : RMap JsonScalar) :
    metadataHalt O C d = none ↔ (Metadata.ofDoc O (fun s => (EncValue.parse C s).toOption) d).isSome := by
  unfold metadataHalt
  rw [andThen_eq_none, andThen_eq_none, fieldsHalt_none, fieldsHalt_none, requiredHalt_none]
  simp only [List.mem_cons, List.not_mem_nil, or_false, forall_eq_or_imp, forall_eq]
  have hmd : (Metadata.ofDoc O (fun s => (EncValue.parse C s).toOption) d).isSome ↔
      (unitsOfField O .kms d c!"kms").isSome ∧ (unitsOfField O .age d c!"age").isSome ∧
      (reqDateOfDoc O d c!"lastmodified").isSome ∧
      (parsedOfDoc (fun s => (EncValue.parse C s).toOption) d c!"mac").isSome ∧
      (boolOfDoc d c!"mac_only_encrypted").isSome := by
    unfold Metadata.ofDoc
    cases unitsOfField O .kms d c!"kms" <;> cases unitsOfField O .age d c!"age" <;>
      cases reqDateOfDoc O d c!"lastmodified" <;>
      cases parsedOfDoc (fun s => (EncValue.parse C s).toOption) d c!"mac" <;>
      cases boolOfDoc d c!"mac_only_encrypted" <;> simp
  rw [hmd, ← unitsField_agrees, ← unitsField_agrees]
  have hdate : (reqDateOfDoc O d c!"lastmodified").isSome ↔
      ∃ s, docField d c!"lastmodified" = some (some (.leaf (.str s))) ∧ (O.parseDate s).isSome := by
    unfold reqDateOfDoc docStr
    cases docField d c!"lastmodified" with
    | none => simp
    | some o =>
      rcases o with _ | (_ | _ | _ | (_ | _ | s)) <;> simp
  have hmac : (parsedOfDoc (fun s => (EncValue.parse C s).toOption) d c!"mac").isSome ↔
      ∃ s, docField d c!"mac" = some (some (.leaf (.str s))) ∧ ∃ e, EncValue.parse C s = .ok e := by
    unfold parsedOfDoc docStr
    cases docField d c!"mac" with
    | none => simp
    | some o =>
      rcases o with _ | (_ | _ | _ | (_ | _ | s)) <;> simp
      cases EncValue.parse C s <;> simp [Except.toOption]
  have hbool : (boolOfDoc d c!"mac_only_encrypted").isSome ↔
      FieldOk d c!"mac_only_encrypted" (fun v => match v with
        | .null => none
        | .leaf (.bool _) => none
        | _ => some .error) := by
    unfold boolOfDoc FieldOk
    cases docField d c!"mac_only_encrypted" with
    | none => simp
    | some o =>
      rcases o with _ | (_ | _ | _ | (_ | _ | s)) <;> simp
  rw [hdate, hmac, hbool]
  constructor
  · rintro ⟨h1, ⟨h2, h3⟩, h4⟩
    refine ⟨h4 c!"kms" _ rfl, h4 c!"age" _ rfl, ?_, ?_, h1 c!"mac_only_encrypted" _ rfl⟩
    · obtain h | ⟨v, hv, hr⟩ := h1 c!"lastmodified" _ rfl
      · exact absurd h h2
      · obtain ⟨s, rfl, hs⟩ := textHalt_none.1 hr
        exact ⟨s, hv, unless_eq_none.1 hs⟩
    · obtain h | ⟨v, hv, hr⟩ := h1 c!"mac" _ rfl
      · exact absurd h h3
      · obtain ⟨s, rfl, hs⟩ := textHalt_none.1 hr
        exact ⟨s, hv, ofEnc_eq_none.1 hs⟩
  · rintro ⟨hk, ha, ⟨s, hs1, hs2⟩, ⟨t, ht1, ht2⟩, hb⟩
    refine ⟨?_, ⟨by rw [hs1]; simp, by rw [ht1]; simp⟩, ?_⟩
    · intro k read hkr
      simp only [metadataFields] at hkr
      split at hkr
      · rename_i hn
        subst hn
        cases hkr
        exact .inr ⟨_, hs1, textHalt_none.2 ⟨_, rfl, unless_eq_none.2 hs2⟩⟩
      · split at hkr
        · rename_i hn
          subst hn
          cases hkr
          exact .inr ⟨_, ht1, textHalt_none.2 ⟨_, rfl, ofEnc_eq_none.2 ht2⟩⟩
        · split at hkr
          · rename_i hn
            subst hn
            cases hkr
            exact hb
          · cases hkr
    · intro k read hkr
      simp only [integrationFields] at hkr
      split at hkr
      · rename_i hn
        subst hn
        cases hkr
        exact hk
      · split at hkr
        · rename_i hn
          subst hn
          cases hkr
          exact ha
        · cases hkr

theorem keysSeq_agrees {α : Type} (parse : Str → Option α) (f : Str → Option Halt)
    (h : ∀ s, f s = none ↔ (parse s).isSome) (l : List Json) :
    (∀ w ∈ l, textHalt f w = none) ↔ (keysOfSeq parse l).isSome := by
  induction l with
  | nil => simp [keysOfSeq]
  | cons v r ih =>
    simp only [List.mem_cons, forall_eq_or_imp]
    rw [ih]
    rcases v with _ | _ | _ | (_ | _ | s) <;> simp [textHalt, keysOfSeq]
    rw [h]
    cases parse s <;> cases keysOfSeq parse r <;> simp

theorem keysField_agrees {α : Type} (parse : Str → Option α) (f : Str → Option Halt)
    (h : ∀ s, f s = none ↔ (parse s).isSome) (d : RMap JsonScalar) (k : Str) :
    FieldOk d k (listHalt (textHalt f)) ↔ (keysOfField parse d k).isSome := by
  unfold FieldOk keysOfField
  cases hd : docField d k with
  | none => simp
  | some o =>
    cases o with
    | none => simp
    | some v =>
      simp only [Option.some.injEq, reduceCtorEq, false_or, exists_eq_left', listHalt_none]
      constructor
      · rintro ⟨l, rfl, hl⟩
        exact (keysSeq_agrees parse f h l).1 hl
      · intro hv
        cases v with
        | seq l => exact ⟨l, rfl, (keysSeq_agrees parse f h l).2 hv⟩
        | map m => cases hv
        | null => cases hv
        | leaf a => cases hv

theorem keysValue_agrees {α : Type} (parse : Str → Option α) (f : Str → Option Halt)
    (h : ∀ s, f s = none ↔ (parse s).isSome) (v : Json) :
    listHalt (textHalt f) v = none ↔ (keysOfValue parse v).isSome := by
  rw [listHalt_none]
  cases v with
  | seq l => simp only [Tree.seq.injEq, exists_eq_left', keysOfValue, keysSeq_agrees parse f h]
  | map m => simp [keysOfValue]
  | null => simp [keysOfValue]
  | leaf a => simp [keysOfValue]

theorem ageKeys_agrees (O : DocOps) (v : Json) :
    ageKeysHalt O v = none ↔ (keysOfValue O.A.parseRecipient v).isSome :=
  keysValue_agrees _ _ (fun _ => unless_eq_none) v

theorem kmsKeys_agrees (O : DocOps) (v : Json) :
    kmsKeysHalt O v = none ↔ (keysOfValue (fun s => (AwsKeyId.parse O.arn s).toOption) v).isSome :=
  keysValue_agrees _ _ (fun s => by rw [ofKey_eq_none]; cases AwsKeyId.parse O.arn s <;> simp [Except.toOption]) v

theorem keysArray_agrees (O : DocOps) (l : List Json) :
    arrayHalt [(false, ageKeysHalt O), (false, kmsKeysHalt O)] l = none ↔ (IntegrationKeys.ofArray O l).isSome := by
  match l with
  | [] => simp [arrayHalt, IntegrationKeys.ofArray]
  | [a] =>
    simp only [arrayHalt, IntegrationKeys.ofArray, andThen_eq_none, ageKeys_agrees, Bool.false_eq_true, if_false, and_true]
    cases keysOfValue O.A.parseRecipient a <;> simp
  | a :: k :: _ =>
    simp only [arrayHalt, IntegrationKeys.ofArray, andThen_eq_none, ageKeys_agrees, kmsKeys_agrees, and_true]
    cases keysOfValue O.A.parseRecipient a <;>
      cases keysOfValue (fun s => (AwsKeyId.parse O.arn s).toOption) k <;> simp

theorem keys_agrees (O : DocOps) (d : RMap JsonScalar) :
    fieldsHalt (keysFields O) [] d = none ↔ (IntegrationKeys.ofDoc O d).isSome := by
  rw [fieldsHalt_none]
  have h1 : ∀ s, Halt.unless (O.A.parseRecipient s).isSome = none ↔ (O.A.parseRecipient s).isSome := fun s => unless_eq_none
  have h2 : ∀ s, Halt.ofKey (AwsKeyId.parse O.arn s) = none ↔ ((AwsKeyId.parse O.arn s).toOption).isSome := by
    intro s
    rw [ofKey_eq_none]
    cases AwsKeyId.parse O.arn s <;> simp [Except.toOption]
  have hk : (IntegrationKeys.ofDoc O d).isSome ↔ (keysOfField O.A.parseRecipient d c!"age").isSome ∧
      (keysOfField (fun s => (AwsKeyId.parse O.arn s).toOption) d c!"aws_kms").isSome := by
    unfold IntegrationKeys.ofDoc
    cases keysOfField O.A.parseRecipient d c!"age" <;>
      cases keysOfField (fun s => (AwsKeyId.parse O.arn s).toOption) d c!"aws_kms" <;> simp
  rw [hk, ← keysField_agrees _ _ h1, ← keysField_agrees _ _ h2]
  constructor
  · intro h
    exact ⟨h c!"age" _ rfl, h c!"aws_kms" _ rfl⟩
  · rintro ⟨ha, hb⟩ k read hkr
    simp only [keysFields] at hkr
    split at hkr
    · rename_i hn
      subst hn
      cases hkr
      exact ha
    · split at hkr
      · rename_i hn
        subst hn
        cases hkr
        exact hb
      · cases hkr

theorem keysStruct_agrees (O : DocOps) (v : Json) : keysHalt O v = none ↔ (IntegrationKeys.ofValue O v).isSome := by
  cases v with
  | map d => exact keys_agrees O d
  | seq l => exact keysArray_agrees O l
  | null => simp [keysHalt, structHalt, IntegrationKeys.ofValue]
  | leaf a => simp [keysHalt, structHalt, IntegrationKeys.ofValue]

theorem optField_agrees {α : Type} (parse : Json → Option α) (f : Json → Option Halt)
    (h : ∀ v, f v = none ↔ (parse v).isSome) (d : RMap JsonScalar) (k : Str) :
    FieldOk d k f ↔ (optField parse d k).isSome := by
  unfold FieldOk optField
  cases hd : docField d k with
  | none => simp
  | some o =>
    cases o with
    | none => simp
    | some v =>
      simp only [Option.some.injEq, reduceCtorEq, false_or, exists_eq_left', h]
      cases parse v <;> simp

theorem rule_agrees (O : DocOps) (d : RMap JsonScalar) : ruleHalt O d = none ↔ (CreationRule.ofDoc O d).isSome := by
  unfold ruleHalt
  rw [andThen_eq_none, fieldsHalt_none, requiredHalt_none]
  simp only [List.mem_cons, List.not_mem_nil, or_false, forall_eq]
  have hif : (IntegrationKeys.ofField O d).isSome ↔
      (optField (IntegrationKeys.ofValue O) d c!"integration_keys").isSome := by
    unfold IntegrationKeys.ofField
    rcases optField (IntegrationKeys.ofValue O) d c!"integration_keys" with _ | _ | _ <;> simp
  have hr : (CreationRule.ofDoc O d).isSome ↔ (∃ s, docField d c!"path_regex" = some (some (.leaf (.str s))) ∧ O.regexOk s = true) ∧
      (optField Json.asBool d c!"mac_only_encrypted").isSome ∧
      (optField (PartialEncryption.ofTable O) d c!"partial_encryption").isSome ∧ (IntegrationKeys.ofField O d).isSome := by
    unfold CreationRule.ofDoc
    have hs : ∀ s, docStr d c!"path_regex" = some s ↔ docField d c!"path_regex" = some (some (.leaf (.str s))) := by
      intro s
      unfold docStr
      split <;> simp_all
    cases hp : docStr d c!"path_regex" with
    | none =>
      simp only [Option.isSome_none, Bool.false_eq_true, false_iff]
      rintro ⟨⟨s, h, _⟩, _⟩
      rw [← hs, hp] at h
      cases h
    | some s =>
      have h' := (hs s).1 hp
      simp only [h', Option.some.injEq, Tree.leaf.injEq, JsonScalar.str.injEq, exists_eq_left']
      cases optField Json.asBool d c!"mac_only_encrypted" <;>
        cases optField (PartialEncryption.ofTable O) d c!"partial_encryption" <;>
        cases IntegrationKeys.ofField O d <;> simp
  rw [hr, hif, ← optField_agrees Json.asBool (fun v => Halt.unless v.asBool.isSome) (fun v => unless_eq_none),
    ← optField_agrees (PartialEncryption.ofTable O) (fun v => Halt.unless (PartialEncryption.ofTable O v).isSome)
      (fun v => unless_eq_none),
    ← optField_agrees (IntegrationKeys.ofValue O) (keysHalt O) (keysStruct_agrees O)]
  constructor
  · rintro ⟨h1, h2⟩
    refine ⟨?_, h1 c!"mac_only_encrypted" _ rfl, h1 c!"partial_encryption" _ rfl, h1 c!"integration_keys" _ rfl⟩
    obtain h | ⟨v, hv, hr⟩ := h1 c!"path_regex" _ rfl
    · exact absurd h h2
    · obtain ⟨s, rfl, hs⟩ := textHalt_none.1 hr
      exact ⟨s, hv, unless_eq_none.1 hs⟩
  · rintro ⟨⟨s, hs1, hs2⟩, hb, hp, hi⟩
    refine ⟨?_, by rw [hs1]; simp⟩
    intro k read hkr
    simp only [ruleFields] at hkr
    split at hkr
    · rename_i hn
      subst hn
      cases hkr
      exact .inr ⟨_, hs1, textHalt_none.2 ⟨_, rfl, unless_eq_none.2 hs2⟩⟩
    · split at hkr
      · rename_i hn
        subst hn
        cases hkr
        exact hb
      · split at hkr
        · rename_i hn
          subst hn
          cases hkr
          exact hp
        · split at hkr
          · rename_i hn
            subst hn
            cases hkr
            exact hi
          · cases hkr

theorem ruleArray_agrees (O : DocOps) (l : List Json) :
    ruleArrayHalt O l = none ↔ (CreationRule.ofArray O l).isSome := by
  unfold ruleArrayHalt
  match l with
  | [] => simp [arrayHalt, CreationRule.ofArray]
  | [a] => simp [arrayHalt, CreationRule.ofArray, andThen_eq_none]
  | [a, b] => simp [arrayHalt, CreationRule.ofArray, andThen_eq_none]
  | a :: b :: p :: r =>
    simp only [arrayHalt, andThen_eq_none, unless_eq_none]
    have ha : textHalt (fun s => Halt.unless (O.regexOk s)) a = none ↔ ∃ s, a = .leaf (.str s) ∧ O.regexOk s = true := by
      rw [textHalt_none]
      simp only [unless_eq_none]
    rw [ha]
    have hr : arrayHalt [(false, keysHalt O)] r = none ↔ (IntegrationKeys.ofRest O r).isSome := by
      cases r with
      | nil => simp [arrayHalt, IntegrationKeys.ofRest]
      | cons k r => simp [arrayHalt, IntegrationKeys.ofRest, andThen_eq_none, keysStruct_agrees]
    rw [hr]
    by_cases hs : ∃ s, a = .leaf (.str s)
    · obtain ⟨s, rfl⟩ := hs
      simp only [Tree.leaf.injEq, JsonScalar.str.injEq, exists_eq_left', CreationRule.ofArray]
      cases b.asBool <;> cases PartialEncryption.ofTable O p <;> 
        cases IntegrationKeys.ofRest O r <;> simp
    · have hn : CreationRule.ofArray O (a :: b :: p :: r) = none := by
        unfold CreationRule.ofArray
        split
        · rename_i s _ _ _ he
          cases he
          exact absurd ⟨s, rfl⟩ hs
        · rfl
      rw [hn]
      simp only [Option.isSome_none, Bool.false_eq_true, iff_false]
      rintro ⟨⟨s, h, _⟩, _⟩
      exact hs ⟨s, h⟩

theorem ruleStruct_agrees (O : DocOps) (v : Json) :
    structHalt (ruleHalt O) (ruleArrayHalt O) v = none ↔ (CreationRule.ofValue O v).isSome := by
  cases v with
  | map d => exact rule_agrees O d
  | seq l => exact ruleArray_agrees O l
  | null => simp [structHalt, CreationRule.ofValue]
  | leaf a => simp [structHalt, CreationRule.ofValue]

theorem ruleSeq_agrees (O : DocOps) (l : List Json) :
    (∀ w ∈ l, structHalt (ruleHalt O) (ruleArrayHalt O) w = none) ↔ (Config.ofSeq O l).isSome := by
  induction l with
  | nil => simp [Config.ofSeq]
  | cons v r ih =>
    simp only [List.mem_cons, forall_eq_or_imp]
    rw [ih, ruleStruct_agrees]
    simp only [Config.ofSeq]
    cases CreationRule.ofValue O v <;> cases Config.ofSeq O r <;> simp

theorem config_agrees (O : DocOps) (d : RMap JsonScalar) : configHalt O d = none ↔ (Config.ofDoc O d).isSome := by
  unfold configHalt
  rw [andThen_eq_none, fieldsHalt_none, requiredHalt_none]
  simp only [List.mem_cons, List.not_mem_nil, or_false, forall_eq]
  constructor
  · rintro ⟨h1, h2⟩
    obtain h | ⟨v, hv, hr⟩ := h1 c!"creation_rules" _ rfl
    · exact absurd h h2
    · obtain ⟨l, rfl, hl⟩ := listHalt_none.1 hr
      simp only [Config.ofDoc, hv]
      exact (ruleSeq_agrees O l).1 hl
  · intro h
    unfold Config.ofDoc at h
    split at h
    · rename_i l hl
      refine ⟨?_, by rw [hl]; simp⟩
      intro k read hkr
      simp only [configFields] at hkr
      split at hkr
      · rename_i hn
        subst hn
        cases hkr
        exact .inr ⟨_, hl, listHalt_none.2 ⟨l, rfl, (ruleSeq_agrees O l).2 h⟩⟩
      · cases hkr
    · cases h

end Rops
