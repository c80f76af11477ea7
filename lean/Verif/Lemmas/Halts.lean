import Verif.Spec.Halts
import Verif.Lemmas.Records
/-! Lemmas on where reading panics. -/

namespace Rops
open Spec

theorem absent_cons {d : RMap JsonScalar} {k k' : Str} {v : Json} : Absent ((k', v) :: d) k ↔ k' ≠ k ∧ Absent d k := by
  constructor
  · intro h
    exact ⟨fun he => h v (by rw [he]; exact List.mem_cons_self), fun w hw => h w (List.mem_cons_of_mem _ hw)⟩
  · rintro ⟨hne, h⟩ w hw
    rcases List.mem_cons.1 hw with hw | hw
    · cases hw; exact hne rfl
    · exact h w hw

theorem fieldsHalt_panic_iff' {field : Str → Option (Json → Option Halt)} {seen : List Str} {d : RMap JsonScalar} :
    fieldsHalt field seen d = some .panic ↔ ∃ a k v b read, d = a ++ (k, v) :: b ∧ fieldsHalt field seen a = none ∧
      Absent a k ∧ k ∉ seen ∧ field k = some read ∧ read v = some .panic := by
  induction d generalizing seen with
  | nil => simp [fieldsHalt]
  | cons kv r ih =>
    obtain ⟨k', v'⟩ := kv
    constructor
    · intro h
      simp only [fieldsHalt] at h
      cases hf : field k' with
      | none =>
        rw [hf] at h
        obtain ⟨a, k, v, b, read, rfl, ha, hab, hs, hk, hv⟩ := ih.1 h
        refine ⟨(k', v') :: a, k, v, b, read, rfl, by simp only [fieldsHalt, hf]; exact ha, absent_cons.2 ⟨?_, hab⟩, hs, hk, hv⟩
        rintro rfl
        rw [hf] at hk
        cases hk
      | some read' =>
        rw [hf] at h
        simp only [List.contains_iff_mem] at h
        split at h
        · cases h
        rename_i hs'
        cases hr : read' v' with
        | some s =>
          rw [hr] at h
          cases h
          exact ⟨[], k', v', r, read', rfl, rfl, (fun _ h => by cases h), hs', hf, hr⟩
        | none =>
          rw [hr] at h
          obtain ⟨a, k, v, b, read, rfl, ha, hab, hs, hk, hv⟩ := ih.1 h
          refine ⟨(k', v') :: a, k, v, b, read, rfl, ?_, absent_cons.2 ⟨?_, hab⟩, fun h => hs (List.mem_cons_of_mem _ h), hk, hv⟩
          · simp only [fieldsHalt, hf, List.contains_iff_mem, hs', if_false, hr]
            exact ha
          · rintro rfl
            exact hs List.mem_cons_self
    · rintro ⟨a, k, v, b, read, hd, ha, hab, hs, hk, hv⟩
      cases a with
      | nil =>
        cases hd
        simp [fieldsHalt, hk, hs, hv]
      | cons e a =>
        simp only [List.cons_append, List.cons.injEq] at hd
        obtain ⟨rfl, rfl⟩ := hd
        obtain ⟨hne, hab⟩ := absent_cons.1 hab
        simp only [fieldsHalt] at ha ⊢
        cases hf : field k' with
        | none =>
          rw [hf] at ha
          exact ih.2 ⟨a, k, v, b, read, rfl, ha, hab, hs, hk, hv⟩
        | some read' =>
          rw [hf] at ha
          simp only at ha ⊢
          split at ha
          · cases ha
          rename_i hc
          rw [if_neg hc]
          cases hr : read' v' with
          | some s => rw [hr] at ha; cases ha
          | none =>
            rw [hr] at ha
            refine ih.2 ⟨a, k, v, b, read, rfl, ha, hab, ?_, hk, hv⟩
            intro h
            rcases List.mem_cons.1 h with h | h
            · exact hne h.symm
            · exact hs h

theorem fieldsHalt_panic_iff {field : Str → Option (Json → Option Halt)} {d : RMap JsonScalar} :
    fieldsHalt field [] d = some .panic ↔ ∃ a k v b read, d = a ++ (k, v) :: b ∧ fieldsHalt field [] a = none ∧
      Absent a k ∧ field k = some read ∧ read v = some .panic := by
  rw [fieldsHalt_panic_iff']
  simp

theorem fieldOk_iff {d : RMap JsonScalar} {k : Str} {read : Json → Option Halt} :
    FieldOk d k read ↔ Absent d k ∨ ∃ v, Spec.Entry d k v ∧ read v = none := by
  unfold FieldOk
  rw [docField_none_iff]
  simp only [docField_some_iff]

/-- The fields of a struct and what is fine for them. -/
def Fields (field : Str → Option (Json → Option Halt)) (fine : List (Str × (Json → Prop))) : Prop :=
  (∀ n P, (n, P) ∈ fine → ∃ read, field n = some read ∧ ∀ v, read v = none ↔ P v) ∧
    ∀ n read, field n = some read → ∃ P, (n, P) ∈ fine

theorem Fields.clean {field : Str → Option (Json → Option Halt)} {fine : List (Str × (Json → Prop))} (h : Fields field fine)
    {d : RMap JsonScalar} : fieldsHalt field [] d = none ↔ Clean d fine := by
  rw [fieldsHalt_none]
  constructor
  · intro hd n P hn
    obtain ⟨read, hr, hP⟩ := h.1 n P hn
    rcases fieldOk_iff.1 (hd n read hr) with h | ⟨v, h, hv⟩
    · exact .inl h
    · exact .inr ⟨v, h, (hP v).1 hv⟩
  · intro hd n read hr
    obtain ⟨P, hn⟩ := h.2 n read hr
    obtain ⟨read', hr', hP⟩ := h.1 n P hn
    rw [hr] at hr'
    cases hr'
    rcases hd n P hn with h | ⟨v, h, hv⟩
    · exact fieldOk_iff.2 (.inl h)
    · exact fieldOk_iff.2 (.inr ⟨v, h, (hP v).2 hv⟩)

theorem clean_cons {d : RMap JsonScalar} {n : Str} {P : Json → Prop} {r : List (Str × (Json → Prop))} :
    Clean d ((n, P) :: r) ↔ (Absent d n ∨ ∃ v, Spec.Entry d n v ∧ P v) ∧ Clean d r := by
  unfold Clean
  constructor
  · intro h
    exact ⟨h n P List.mem_cons_self, fun m Q hm => h m Q (List.mem_cons_of_mem _ hm)⟩
  · rintro ⟨h1, h2⟩ m Q hm
    rcases List.mem_cons.1 hm with hm | hm
    · cases hm; exact h1
    · exact h2 m Q hm

theorem clean_nil {d : RMap JsonScalar} : Clean d [] := fun _ _ h => by cases h

theorem seqHalt_panic_iff {f : Json → Option Halt} {l : List Json} :
    seqHalt f l = some .panic ↔ ∃ a v b, l = a ++ v :: b ∧ (∀ w ∈ a, f w = none) ∧ f v = some .panic := by
  induction l with
  | nil => simp [seqHalt]
  | cons w r ih =>
    simp only [seqHalt]
    cases hw : f w with
    | some s =>
      simp only [Option.some.injEq]
      constructor
      · rintro rfl
        exact ⟨[], w, r, rfl, (fun _ h => by cases h), hw⟩
      · rintro ⟨a, v, b, he, ha, hv⟩
        cases a with
        | nil => cases he; rw [hw] at hv; cases hv; rfl
        | cons x a => cases he; rw [ha w List.mem_cons_self] at hw; cases hw
    | none =>
      simp only
      rw [ih]
      constructor
      · rintro ⟨a, v, b, rfl, ha, hv⟩
        exact ⟨w :: a, v, b, rfl, (fun x hx => by
          rcases List.mem_cons.1 hx with rfl | hx
          · exact hw
          · exact ha x hx), hv⟩
      · rintro ⟨a, v, b, he, ha, hv⟩
        cases a with
        | nil => cases he; rw [hw] at hv; cases hv
        | cons x a => cases he; exact ⟨a, v, b, rfl, fun x hx => ha x (List.mem_cons_of_mem _ hx), hv⟩

theorem listHalt_panic_iff {f : Json → Option Halt} {v : Json} :
    listHalt f v = some .panic ↔ ∃ a w b, v = .seq (a ++ w :: b) ∧ (∀ x ∈ a, f x = none) ∧ f w = some .panic := by
  unfold listHalt
  split
  · rename_i l
    rw [seqHalt_panic_iff]
    simp only [Tree.seq.injEq]
  · rename_i hn
    simp only [Option.some.injEq, reduceCtorEq, false_iff]
    rintro ⟨a, w, b, rfl, _⟩
    exact hn _ rfl

theorem requiredHalt_none_iff {names : List Str} {d : RMap JsonScalar} :
    requiredHalt names d = none ↔ ∀ n ∈ names, ¬ Absent d n := by
  rw [requiredHalt_none]
  simp only [ne_eq, docField_none_iff]

theorem textOf_none {α : Type} {parse : Str → Option α} {v : Json} :
    textHalt (fun s => Halt.unless (parse s).isSome) v = none ↔ TextOf parse v := by
  rw [textHalt_none]
  simp only [unless_eq_none]
  rfl

theorem isText_none {v : Json} : textHalt (fun _ => none) v = none ↔ ∃ s, v = isText s := by
  rw [textHalt_none]
  simp [isText]

/-! ## Units -/

theorem unitFields_clean (O : DocOps) : Fields (unitFields O)
    [(c!"created_at", fun v => v = .null ∨ TextOf O.parseDate v), (c!"enc", fun v => ∃ s, v = isText s)] := by
  constructor
  · intro n P h
    simp only [List.mem_cons, List.not_mem_nil, or_false, Prod.mk.injEq] at h
    rcases h with ⟨rfl, rfl⟩ | ⟨rfl, rfl⟩
    · refine ⟨_, rfl, fun v => ?_⟩
      simp only
      split
      · simp
      · rename_i hn
        rw [textOf_none]
        constructor
        · exact .inr
        · rintro (h | h)
          · exact absurd h hn
          · exact h
    · exact ⟨_, rfl, fun v => isText_none⟩
  · intro n read h
    simp only [unitFields] at h
    split at h
    · rename_i hn; subst hn; exact ⟨_, List.mem_cons_self⟩
    · split at h
      · rename_i hn; subst hn; exact ⟨_, List.mem_cons_of_mem _ List.mem_cons_self⟩
      · cases h

theorem kmsFields_clean (O : DocOps) : Fields (keyIdFields O .kms)
    [(c!"aws_profile", fun v => ∃ s, v = isText s), (c!"arn", TextOf fun s => (KeyArn.parse O.arn s).toOption)] := by
  constructor
  · intro n P h
    simp only [List.mem_cons, List.not_mem_nil, or_false, Prod.mk.injEq] at h
    rcases h with ⟨rfl, rfl⟩ | ⟨rfl, rfl⟩
    · exact ⟨_, rfl, fun v => isText_none⟩
    · refine ⟨_, rfl, fun v => ?_⟩
      rw [textHalt_none]
      simp only [ofKey_eq_none, TextOf, isText]
      refine exists_congr fun s => and_congr_right fun _ => ?_
      cases KeyArn.parse O.arn s <;> simp [Except.toOption]
  · intro n read h
    simp only [keyIdFields] at h
    split at h
    · rename_i hn; subst hn; exact ⟨_, List.mem_cons_self⟩
    · split at h
      · rename_i hn; subst hn; exact ⟨_, List.mem_cons_of_mem _ List.mem_cons_self⟩
      · cases h

theorem kmsUnit_panic_iff {O : DocOps} (hA : O.arn.Lawful) {u : RMap JsonScalar} :
    unitHalt O .kms u = some .panic ↔ UnitPanics O u := by
  unfold unitHalt
  rw [andThen_eq_some, andThen_eq_some, andThen_eq_some]
  have h1 : fieldsHalt (unitFields O) [] u ≠ some .panic := by
    intro h
    obtain ⟨n, v, read, _, hr, hv⟩ := fieldsHalt_panic h
    simp only [unitFields] at hr
    split at hr
    · cases hr
      simp only at hv
      split at hv
      · cases hv
      · obtain ⟨_, _, hv⟩ := textHalt_panic.1 hv
        exact absurd hv unless_ne_panic
    · split at hr
      · cases hr
        obtain ⟨_, _, hv⟩ := textHalt_panic.1 hv
        cases hv
      · cases hr
  have h2 : requiredHalt [c!"enc"] u ≠ some .panic := requiredHalt_ne_panic
  have h3 : requiredHalt (keyIdRequired .kms) u ≠ some .panic := requiredHalt_ne_panic
  simp only [h1, h2, h3, false_or, and_false, or_false]
  rw [(unitFields_clean O).clean, clean_cons, clean_cons, requiredHalt_none_iff, fieldsHalt_panic_iff]
  unfold UnitPanics
  rw [clean_cons]
  simp only [List.mem_cons, List.not_mem_nil, or_false, forall_eq, clean_nil, and_true]
  constructor
  · rintro ⟨⟨hc, he⟩, hne, a, k, v, b, read, rfl, ha, hab, hk, hv⟩
    refine ⟨hc, ?_, ?_⟩
    · rcases he with he | ⟨v, he, s, rfl⟩
      · exact absurd he hne
      · exact ⟨s, he⟩
    · simp only [keyIdFields] at hk
      split at hk
      · cases hk
        obtain ⟨_, _, hv⟩ := textHalt_panic.1 hv
        cases hv
      · split at hk
        · rename_i hn
          subst hn
          cases hk
          obtain ⟨t, rfl, hv⟩ := textHalt_panic.1 hv
          refine ⟨a, t, b, rfl, hab, ?_, (Props.C55_arn_panics_iff hA t).1 (ofKey_eq_panic.1 hv)⟩
          rw [(kmsFields_clean O).clean, clean_cons] at ha
          exact clean_cons.2 ⟨ha.1, clean_nil⟩
        · cases hk
  · rintro ⟨hc, ⟨s, he⟩, a, t, b, rfl, hab, ha, hb⟩
    refine ⟨⟨hc, .inr ⟨_, he, s, rfl⟩⟩, ?_, a, c!"arn", _, b, _, rfl, ?_, hab, rfl,
      textHalt_panic.2 ⟨t, rfl, ofKey_eq_panic.2 ((Props.C55_arn_panics_iff hA t).2 hb)⟩⟩
    · intro h
      obtain ⟨x, y, hxy, _⟩ := he
      exact h (isText s) (by rw [hxy]; simp)
    · rw [(kmsFields_clean O).clean, clean_cons, clean_cons]
      exact ⟨(clean_cons.1 ha).1, .inl hab, clean_nil⟩

theorem ageUnit_ne_panic {O : DocOps} (hA : O.arn.Lawful) {u : RMap JsonScalar} : unitHalt O .age u ≠ some .panic := by
  intro h
  obtain ⟨hk, _⟩ := unit_panic hA h
  cases hk

theorem unit_none_iff {O : DocOps} {k : Kind} {w : Json} :
    mapHalt (unitHalt O k) w = none ↔ ∃ d u, w = .map d ∧ DescribesUnit O k d u := by
  rw [mapHalt_none]
  constructor
  · rintro ⟨d, rfl, h⟩
    rw [unit_agrees, Option.isSome_iff_exists] at h
    obtain ⟨u, h⟩ := h
    exact ⟨d, u, rfl, unit_iff.1 h⟩
  · rintro ⟨d, u, rfl, h⟩
    exact ⟨d, rfl, (unit_agrees O k d).2 (by rw [unit_iff.2 h]; rfl)⟩

theorem unitList_none_iff {O : DocOps} {k : Kind} {v : Json} :
    listHalt (mapHalt (unitHalt O k)) v = none ↔ UnitList O k v := by
  rw [listHalt_none]
  simp only [unit_none_iff]
  rfl

/-! ## Metadata -/

theorem metadataFields_clean (O : DocOps) (C : Cipher) : Fields (metadataFields O C)
    [(c!"lastmodified", TextOf O.parseDate), (c!"mac", TextOf fun s => (EncValue.parse C s).toOption),
      (c!"mac_only_encrypted", fun v => v = .null ∨ ∃ x, v = .leaf (.bool x))] := by
  constructor
  · intro n P h
    simp only [List.mem_cons, List.not_mem_nil, or_false, Prod.mk.injEq] at h
    rcases h with ⟨rfl, rfl⟩ | ⟨rfl, rfl⟩ | ⟨rfl, rfl⟩
    · exact ⟨_, rfl, fun v => textOf_none⟩
    · refine ⟨_, rfl, fun v => ?_⟩
      rw [textHalt_none]
      simp only [ofEnc_eq_none, TextOf, isText]
      refine exists_congr fun s => and_congr_right fun _ => ?_
      cases EncValue.parse C s <;> simp [Except.toOption]
    · refine ⟨_, rfl, fun v => ?_⟩
      rcases v with _ | _ | _ | (_ | _ | _) <;> simp
  · intro n read h
    simp only [metadataFields] at h
    split at h
    · rename_i hn; subst hn; exact ⟨_, List.mem_cons_self⟩
    · split at h
      · rename_i hn; subst hn; exact ⟨_, List.mem_cons_of_mem _ List.mem_cons_self⟩
      · split at h
        · rename_i hn; subst hn; exact ⟨_, List.mem_cons_of_mem _ (List.mem_cons_of_mem _ List.mem_cons_self)⟩
        · cases h

theorem integrationFields_clean (O : DocOps) : Fields (integrationFields O)
    [(c!"kms", UnitList O .kms), (c!"age", UnitList O .age)] := by
  constructor
  · intro n P h
    simp only [List.mem_cons, List.not_mem_nil, or_false, Prod.mk.injEq] at h
    rcases h with ⟨rfl, rfl⟩ | ⟨rfl, rfl⟩
    · exact ⟨_, rfl, fun v => unitList_none_iff⟩
    · exact ⟨_, rfl, fun v => unitList_none_iff⟩
  · intro n read h
    simp only [integrationFields] at h
    split at h
    · rename_i hn; subst hn; exact ⟨_, List.mem_cons_self⟩
    · split at h
      · rename_i hn; subst hn; exact ⟨_, List.mem_cons_of_mem _ List.mem_cons_self⟩
      · cases h

theorem clean_required {d : RMap JsonScalar} {n : Str} {P : Json → Prop} :
    ((Absent d n ∨ ∃ v, Spec.Entry d n v ∧ P v) ∧ ¬ Absent d n) ↔ ∃ v, Spec.Entry d n v ∧ P v := by
  constructor
  · rintro ⟨h | h, hn⟩
    · exact absurd h hn
    · exact h
  · rintro ⟨v, h, hv⟩
    refine ⟨.inr ⟨v, h, hv⟩, fun ha => ?_⟩
    obtain ⟨x, y, hxy, _⟩ := h
    exact ha v (by rw [hxy]; simp)

theorem metadata_panic_iff {O : DocOps} (hA : O.arn.Lawful) {C : Cipher} (hC : C.Lawful) {d : RMap JsonScalar} :
    metadataHalt O C d = some .panic ↔ MetadataPanics O C d := by
  unfold metadataHalt MetadataPanics
  rw [andThen_eq_some, andThen_eq_some]
  have h2 : requiredHalt [c!"lastmodified", c!"mac"] d ≠ some .panic := requiredHalt_ne_panic
  simp only [h2, false_or]
  refine or_congr ?_ ?_
  · rw [fieldsHalt_panic_iff]
    constructor
    · rintro ⟨a, k, v, b, read, rfl, ha, hab, hk, hv⟩
      simp only [metadataFields] at hk
      split at hk
      · cases hk
        obtain ⟨_, _, hv⟩ := textHalt_panic.1 hv
        exact absurd hv unless_ne_panic
      · split at hk
        · rename_i hn
          subst hn
          cases hk
          obtain ⟨t, rfl, hv⟩ := textHalt_panic.1 hv
          refine ⟨a, t, b, rfl, hab, ?_, (Props.C55_enc_text_panics_iff C hC t).1 (ofEnc_eq_panic.1 hv)⟩
          rw [(metadataFields_clean O C).clean, clean_cons, clean_cons] at ha
          exact clean_cons.2 ⟨ha.1, ha.2.2⟩
        · split at hk
          · cases hk
            simp only at hv
            split at hv <;> cases hv
          · cases hk
    · rintro ⟨a, t, b, rfl, hab, ha, ht⟩
      refine ⟨a, c!"mac", _, b, _, rfl, ?_, hab, rfl,
        textHalt_panic.2 ⟨t, rfl, ofEnc_eq_panic.2 ((Props.C55_enc_text_panics_iff C hC t).2 ht)⟩⟩
      rw [(metadataFields_clean O C).clean, clean_cons, clean_cons]
      exact ⟨(clean_cons.1 ha).1, .inl hab, (clean_cons.1 ha).2⟩
  · rw [(metadataFields_clean O C).clean, clean_cons, clean_cons, requiredHalt_none_iff, fieldsHalt_panic_iff]
    simp only [List.mem_cons, List.not_mem_nil, or_false, forall_eq_or_imp, forall_eq]
    have hbad : (∃ a k v b read, d = a ++ (k, v) :: b ∧ fieldsHalt (integrationFields O) [] a = none ∧ Absent a k ∧
        integrationFields O k = some read ∧ read v = some .panic) ↔
        ∃ a l u l' b, d = a ++ (c!"kms", .seq (l ++ .map u :: l')) :: b ∧ Absent a c!"kms" ∧
          Clean a [(c!"age", UnitList O .age)] ∧ UnitList O .kms (.seq l) ∧ UnitPanics O u := by
      constructor
      · rintro ⟨a, k, v, b, read, rfl, ha, hab, hk, hv⟩
        simp only [integrationFields] at hk
        split at hk
        · rename_i hn
          subst hn
          cases hk
          obtain ⟨l, w, l', rfl, hl, hw⟩ := listHalt_panic_iff.1 hv
          obtain ⟨u, rfl, hu⟩ := mapHalt_panic.1 hw
          refine ⟨a, l, u, l', b, rfl, hab, ?_, ⟨l, rfl, fun x hx => unit_none_iff.1 (hl x hx)⟩, (kmsUnit_panic_iff hA).1 hu⟩
          rw [(integrationFields_clean O).clean, clean_cons] at ha
          exact ha.2
        · split at hk
          · cases hk
            obtain ⟨l, w, l', rfl, hl, hw⟩ := listHalt_panic_iff.1 hv
            obtain ⟨u, rfl, hu⟩ := mapHalt_panic.1 hw
            exact absurd hu (ageUnit_ne_panic hA)
          · cases hk
      · rintro ⟨a, l, u, l', b, rfl, hab, ha, ⟨l1, h1, hl⟩, hu⟩
        cases h1
        refine ⟨a, c!"kms", _, b, _, rfl, ?_, hab, rfl, listHalt_panic_iff.2 ⟨l, .map u, l', rfl,
          fun x hx => unit_none_iff.2 (hl x hx), mapHalt_panic.2 ⟨u, rfl, (kmsUnit_panic_iff hA).2 hu⟩⟩⟩
        rw [(integrationFields_clean O).clean, clean_cons]
        exact ⟨.inl hab, ha⟩
    rw [hbad]
    constructor
    · rintro ⟨⟨h1, h2, h3⟩, ⟨h4, h5⟩, h6⟩
      exact ⟨clean_required.1 ⟨h1, h4⟩, clean_required.1 ⟨h2, h5⟩, h3, h6⟩
    · rintro ⟨h1, h2, h3, h6⟩
      obtain ⟨h1, h4⟩ := clean_required.2 h1
      obtain ⟨h2, h5⟩ := clean_required.2 h2
      exact ⟨⟨h1, h2, h3⟩, ⟨h4, h5⟩, h6⟩

/-! ## Configurations -/

theorem awsText_none {O : DocOps} {w : Json} : textHalt (fun s => Halt.ofKey (AwsKeyId.parse O.arn s)) w = none ↔
    TextOf (fun s => (AwsKeyId.parse O.arn s).toOption) w := by
  rw [textHalt_none]
  simp only [ofKey_eq_none, TextOf, isText]
  refine exists_congr fun s => and_congr_right fun _ => ?_
  cases AwsKeyId.parse O.arn s <;> simp [Except.toOption]

theorem ageList_none {O : DocOps} {v : Json} : ageKeysHalt O v = none ↔ AgeKeyList O v := by
  unfold ageKeysHalt AgeKeyList
  rw [listHalt_none]
  simp only [textOf_none]

theorem ageList_ne_panic {O : DocOps} {v : Json} : ageKeysHalt O v ≠ some .panic := by
  intro h
  obtain ⟨_, _, _, _, _, hv⟩ := listHalt_panic_iff.1 h
  obtain ⟨_, _, hv⟩ := textHalt_panic.1 hv
  exact absurd hv unless_ne_panic

theorem kmsList_panic_iff {O : DocOps} (hA : O.arn.Lawful) {v : Json} : kmsKeysHalt O v = some .panic ↔ KmsListPanics O v := by
  unfold kmsKeysHalt KmsListPanics
  rw [listHalt_panic_iff]
  constructor
  · rintro ⟨l, w, l', rfl, hl, hw⟩
    obtain ⟨t, rfl, hw⟩ := textHalt_panic.1 hw
    obtain ⟨profile, arn, rfl, hp, hb⟩ := (awsKeyId_panics_iff hA).1 (ofKey_eq_panic.1 hw)
    exact ⟨l, profile, arn, l', rfl, fun x hx => awsText_none.1 (hl x hx), hp, hb⟩
  · rintro ⟨l, profile, arn, l', rfl, hl, hp, hb⟩
    exact ⟨l, _, l', rfl, fun x hx => awsText_none.2 (hl x hx), textHalt_panic.2 ⟨_, rfl, ofKey_eq_panic.2
      ((awsKeyId_panics_iff hA).2 ⟨profile, arn, rfl, hp, hb⟩)⟩⟩

theorem keysFields_clean (O : DocOps) : Fields (keysFields O)
    [(c!"age", AgeKeyList O), (c!"aws_kms", fun v => kmsKeysHalt O v = none)] := by
  constructor
  · intro n P h
    simp only [List.mem_cons, List.not_mem_nil, or_false, Prod.mk.injEq] at h
    rcases h with ⟨rfl, rfl⟩ | ⟨rfl, rfl⟩
    · exact ⟨_, rfl, fun v => ageList_none⟩
    · exact ⟨_, rfl, fun v => Iff.rfl⟩
  · intro n read h
    simp only [keysFields] at h
    split at h
    · rename_i hn; subst hn; exact ⟨_, List.mem_cons_self⟩
    · split at h
      · rename_i hn; subst hn; exact ⟨_, List.mem_cons_of_mem _ List.mem_cons_self⟩
      · cases h

theorem keysTable_panic_iff {O : DocOps} (hA : O.arn.Lawful) {d : RMap JsonScalar} :
    fieldsHalt (keysFields O) [] d = some .panic ↔ ∃ a w b, d = a ++ (c!"aws_kms", w) :: b ∧ Absent a c!"aws_kms" ∧
      Clean a [(c!"age", AgeKeyList O)] ∧ KmsListPanics O w := by
  rw [fieldsHalt_panic_iff]
  constructor
  · rintro ⟨a, k, v, b, read, rfl, ha, hab, hk, hv⟩
    simp only [keysFields] at hk
    split at hk
    · cases hk
      exact absurd hv ageList_ne_panic
    · split at hk
      · rename_i hn
        subst hn
        cases hk
        rw [(keysFields_clean O).clean, clean_cons] at ha
        exact ⟨a, v, b, rfl, hab, clean_cons.2 ⟨ha.1, clean_nil⟩, (kmsList_panic_iff hA).1 hv⟩
      · cases hk
  · rintro ⟨a, w, b, rfl, hab, ha, hw⟩
    refine ⟨a, c!"aws_kms", _, b, _, rfl, ?_, hab, rfl, (kmsList_panic_iff hA).2 hw⟩
    rw [(keysFields_clean O).clean, clean_cons, clean_cons]
    exact ⟨(clean_cons.1 ha).1, .inl hab, clean_nil⟩

theorem keysArray_panic_iff {O : DocOps} (hA : O.arn.Lawful) {l : List Json} :
    arrayHalt [(false, ageKeysHalt O), (false, kmsKeysHalt O)] l = some .panic ↔
      ∃ a w b, l = a :: w :: b ∧ AgeKeyList O a ∧ KmsListPanics O w := by
  match l with
  | [] => simp [arrayHalt]
  | [a] => simp [arrayHalt, andThen_eq_some, ageList_ne_panic]
  | a :: w :: b =>
    simp only [arrayHalt, andThen_eq_some, ageList_ne_panic, ageList_none, kmsList_panic_iff hA, false_or, List.cons.injEq,
      reduceCtorEq, and_false, or_false]
    constructor
    · exact fun h => ⟨a, w, b, ⟨rfl, rfl, rfl⟩, h⟩
    · rintro ⟨_, _, _, ⟨rfl, rfl, rfl⟩, h⟩; exact h

theorem keys_panic_iff {O : DocOps} (hA : O.arn.Lawful) {v : Json} :
    keysHalt O v = some .panic ↔ KeysPanic O v := by
  unfold keysHalt KeysPanic
  cases v with
  | map d =>
    simp only [structHalt, keysTable_panic_iff hA, Tree.map.injEq, reduceCtorEq, false_and, exists_false, or_false]
  | seq l =>
    simp only [structHalt, keysArray_panic_iff hA, Tree.seq.injEq, reduceCtorEq, false_and, exists_false, false_or]
  | null => simp [structHalt]
  | leaf a => simp [structHalt]

theorem ruleFields_clean (O : DocOps) : Fields (Rops.ruleFields O)
    [(c!"path_regex", fun v => ∃ s, v = isText s ∧ O.regexOk s = true),
      (c!"mac_only_encrypted", fun v => ∃ x, v = .leaf (.bool x)),
      (c!"partial_encryption", fun v => ∃ n x p, v = .map [(n, x)] ∧ DescribesSetting O n x p),
      (c!"integration_keys", fun v => keysHalt O v = none)] := by
  constructor
  · intro n P h
    simp only [List.mem_cons, List.not_mem_nil, or_false, Prod.mk.injEq] at h
    rcases h with ⟨rfl, rfl⟩ | ⟨rfl, rfl⟩ | ⟨rfl, rfl⟩ | ⟨rfl, rfl⟩
    · refine ⟨_, rfl, fun v => ?_⟩
      rw [textHalt_none]
      simp only [unless_eq_none]
      rfl
    · refine ⟨_, rfl, fun v => ?_⟩
      rw [unless_eq_none, Option.isSome_iff_exists]
      simp only [asBool_iff]
    · refine ⟨_, rfl, fun v => ?_⟩
      rw [unless_eq_none, Option.isSome_iff_exists]
      simp only [ofTable_iff]
      constructor
      · rintro ⟨p, n, x, h⟩; exact ⟨n, x, p, h⟩
      · rintro ⟨n, x, p, h⟩; exact ⟨p, n, x, h⟩
    · exact ⟨_, rfl, fun v => Iff.rfl⟩
  · intro n read h
    simp only [Rops.ruleFields] at h
    split at h
    · rename_i hn; subst hn; exact ⟨_, List.mem_cons_self⟩
    · split at h
      · rename_i hn; subst hn; exact ⟨_, List.mem_cons_of_mem _ List.mem_cons_self⟩
      · split at h
        · rename_i hn; subst hn; exact ⟨_, List.mem_cons_of_mem _ (List.mem_cons_of_mem _ List.mem_cons_self)⟩
        · split at h
          · rename_i hn; subst hn
            exact ⟨_, List.mem_cons_of_mem _ (List.mem_cons_of_mem _ (List.mem_cons_of_mem _ List.mem_cons_self))⟩
          · cases h

theorem ruleTable_panic_iff {O : DocOps} (hA : O.arn.Lawful) {d : RMap JsonScalar} :
    ruleHalt O d = some .panic ↔ ∃ a k b, d = a ++ (c!"integration_keys", k) :: b ∧ Absent a c!"integration_keys" ∧
      Clean a [(c!"path_regex", fun v => ∃ s, v = isText s ∧ O.regexOk s = true),
        (c!"mac_only_encrypted", fun v => ∃ x, v = .leaf (.bool x)),
        (c!"partial_encryption", fun v => ∃ n x p, v = .map [(n, x)] ∧ DescribesSetting O n x p)] ∧ KeysPanic O k := by
  unfold ruleHalt
  rw [andThen_eq_some]
  have h2 : requiredHalt [c!"path_regex"] d ≠ some .panic := requiredHalt_ne_panic
  simp only [h2, and_false, or_false]
  rw [fieldsHalt_panic_iff]
  constructor
  · rintro ⟨a, k, v, b, read, rfl, ha, hab, hk, hv⟩
    simp only [Rops.ruleFields] at hk
    split at hk
    · cases hk
      obtain ⟨_, _, hv⟩ := textHalt_panic.1 hv
      exact absurd hv unless_ne_panic
    · split at hk
      · cases hk; exact absurd hv unless_ne_panic
      · split at hk
        · cases hk; exact absurd hv unless_ne_panic
        · split at hk
          · rename_i hn
            subst hn
            cases hk
            rw [(ruleFields_clean O).clean, clean_cons, clean_cons, clean_cons] at ha
            exact ⟨a, v, b, rfl, hab, clean_cons.2 ⟨ha.1, clean_cons.2 ⟨ha.2.1, clean_cons.2 ⟨ha.2.2.1, clean_nil⟩⟩⟩,
              (keys_panic_iff hA).1 hv⟩
          · cases hk
  · rintro ⟨a, k, b, rfl, hab, ha, hk⟩
    refine ⟨a, c!"integration_keys", _, b, _, rfl, ?_, hab, rfl, (keys_panic_iff hA).2 hk⟩
    rw [clean_cons, clean_cons, clean_cons] at ha
    rw [(ruleFields_clean O).clean, clean_cons, clean_cons, clean_cons, clean_cons]
    exact ⟨ha.1, ha.2.1, ha.2.2.1, .inl hab, clean_nil⟩

theorem ruleArray_panic_iff {O : DocOps} (hA : O.arn.Lawful) {l : List Json} :
    ruleArrayHalt O l = some .panic ↔ ∃ s x n t p k rest, l = isText s :: .leaf (.bool x) :: .map [(n, t)] :: k :: rest ∧
      O.regexOk s = true ∧ DescribesSetting O n t p ∧ KeysPanic O k := by
  have h1 : ∀ v, textHalt (fun s => Halt.unless (O.regexOk s)) v ≠ some .panic := by
    intro v h
    obtain ⟨_, _, hv⟩ := textHalt_panic.1 h
    exact absurd hv unless_ne_panic
  have h2 : ∀ b, Halt.unless b ≠ some .panic := fun b h => absurd h unless_ne_panic
  unfold ruleArrayHalt
  match l with
  | [] => simp [arrayHalt]
  | [a] => simp [arrayHalt, andThen_eq_some, h1]
  | [a, b] => simp [arrayHalt, andThen_eq_some, h1, h2]
  | [a, b, c] => simp [arrayHalt, andThen_eq_some, h1, h2]
  | a :: b :: c :: k :: rest =>
    simp only [arrayHalt, andThen_eq_some, h1, h2, false_or, unless_eq_none, textHalt_none, keys_panic_iff hA, reduceCtorEq,
      and_false, or_false, Option.isSome_iff_exists, asBool_iff, ofTable_iff, List.cons.injEq]
    constructor
    · rintro ⟨⟨s, rfl, hs⟩, ⟨x, rfl⟩, ⟨p, n, t, rfl, ht⟩, hk⟩
      exact ⟨s, x, n, t, p, k, rest, ⟨rfl, rfl, rfl, rfl, rfl⟩, hs, ht, hk⟩
    · rintro ⟨s, x, n, t, p, k, rest, ⟨rfl, rfl, rfl, rfl, rfl⟩, hs, ht, hk⟩
      exact ⟨⟨s, rfl, hs⟩, ⟨x, rfl⟩, ⟨p, n, t, rfl, ht⟩, hk⟩

theorem rule_panic_iff {O : DocOps} (hA : O.arn.Lawful) {v : Json} :
    structHalt (ruleHalt O) (ruleArrayHalt O) v = some .panic ↔ RulePanics O v := by
  unfold RulePanics
  cases v with
  | map d =>
    simp only [structHalt, ruleTable_panic_iff hA, Tree.map.injEq, reduceCtorEq, false_and, exists_false, or_false]
  | seq l =>
    simp only [structHalt, ruleArray_panic_iff hA, Tree.seq.injEq, reduceCtorEq, false_and, exists_false, false_or]
  | null => simp [structHalt]
  | leaf a => simp [structHalt]

theorem rule_none_iff {O : DocOps} {w : Json} :
    structHalt (ruleHalt O) (ruleArrayHalt O) w = none ↔ ∃ c, DescribesRule O w c := by
  rw [ruleStruct_agrees, Option.isSome_iff_exists]
  simp only [creationRule_iff]

theorem config_panic_iff {O : DocOps} (hA : O.arn.Lawful) {d : RMap JsonScalar} :
    configHalt O d = some .panic ↔ ConfigPanics O d := by
  unfold configHalt ConfigPanics
  rw [andThen_eq_some]
  have h2 : requiredHalt [c!"creation_rules"] d ≠ some .panic := requiredHalt_ne_panic
  simp only [h2, and_false, or_false]
  rw [fieldsHalt_panic_iff]
  constructor
  · rintro ⟨a, k, v, b, read, rfl, ha, hab, hk, hv⟩
    simp only [configFields] at hk
    split at hk
    · rename_i hn
      subst hn
      cases hk
      obtain ⟨l, w, l', rfl, hl, hw⟩ := listHalt_panic_iff.1 hv
      exact ⟨a, l, w, l', b, rfl, hab, fun x hx => rule_none_iff.1 (hl x hx), (rule_panic_iff hA).1 hw⟩
    · cases hk
  · rintro ⟨a, l, r, l', b, rfl, hab, hl, hr⟩
    refine ⟨a, c!"creation_rules", _, b, _, rfl, ?_, hab, rfl, listHalt_panic_iff.2 ⟨l, _, l', rfl,
      fun x hx => rule_none_iff.2 (hl x hx), (rule_panic_iff hA).2 hr⟩⟩
    rw [fieldsHalt_none]
    intro n read hn
    simp only [configFields] at hn
    split at hn
    · rename_i he
      subst he
      exact fieldOk_iff.2 (.inl hab)
    · cases hn

end Rops

namespace Rops

theorem firstEntry_iff {β : Type} {d : List (Str × β)} {k : Str} {v : β} :
    IndexMap.get d k = some v ↔ ∃ a b, d = a ++ (k, v) :: b ∧ ∀ e ∈ a, e.1 ≠ k := by
  induction d with
  | nil => simp [IndexMap.get]
  | cons e r ih =>
    obtain ⟨k', v'⟩ := e
    by_cases hk : k' = k
    · subst hk
      constructor
      · intro h
        simp [IndexMap.get] at h
        subst h
        exact ⟨[], r, rfl, by simp⟩
      · rintro ⟨a, b, h, ha⟩
        cases a with
        | nil => cases h; simp [IndexMap.get]
        | cons x a => cases h; exact absurd rfl (ha _ List.mem_cons_self)
    · constructor
      · intro h
        have h' : IndexMap.get r k = some v := by
          simpa [IndexMap.get, hk] using h
        obtain ⟨a, b, rfl, ha⟩ := ih.1 h'
        exact ⟨(k', v') :: a, b, rfl, fun x hx => by
          rcases List.mem_cons.1 hx with rfl | hx
          · exact hk
          · exact ha x hx⟩
      · rintro ⟨a, b, h, ha⟩
        cases a with
        | nil => cases h; exact absurd rfl hk
        | cons x a =>
          cases h
          have := ih.2 ⟨a, b, rfl, fun x hx => ha x (List.mem_cons_of_mem _ hx)⟩
          simpa [IndexMap.get, hk] using this

end Rops
