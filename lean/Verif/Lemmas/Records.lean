import Verif.Spec.Records
import Verif.Lemmas.Document
/-!
# Lemmas about records in documents
-/

namespace Rops

open Spec (Absent Entry isText Optionally Nullable Listed Zip)

theorem docField_none_iff {d : RMap JsonScalar} {k : Str} : docField d k = some none ↔ Absent d k := by
  unfold docField
  constructor
  · intro h v hv
    split at h
    · rename_i hf
      have := List.filter_eq_nil_iff.1 hf (k, v) hv
      simp at this
    · cases h
    · cases h
  · intro h
    have : d.filter (fun e => e.1 == k) = [] := by
      rw [List.filter_eq_nil_iff]
      rintro ⟨k', v⟩ he hk
      have : k' = k := by simpa using hk
      subst this
      exact h v he
    rw [this]

theorem docField_some_iff {d : RMap JsonScalar} {k : Str} {v : Json} : docField d k = some (some v) ↔ Entry d k v := by
  constructor
  · intro h
    have hf : d.filter (fun e => e.1 == k) = [(k, v)] := by
      unfold docField at h
      split at h
      · cases h
      · rename_i k' v' hf
        cases h
        have : (k', v) ∈ d.filter (fun e => e.1 == k) := by rw [hf]; simp
        have := (List.mem_filter.1 this).2
        rw [show k' = k by simpa using this] at hf
        exact hf
      · cases h
    induction d with
    | nil => cases hf
    | cons e d ih =>
      obtain ⟨k', v'⟩ := e
      by_cases hk : k' = k
      · subst hk
        rw [List.filter_cons, if_pos (by simp)] at hf
        injection hf with h1 h2
        cases h1
        refine ⟨[], d, rfl, fun _ h => (nomatch h), fun w hw => ?_⟩
        have := List.filter_eq_nil_iff.1 h2 (k', w) hw
        simp at this
      · rw [List.filter_cons, if_neg (by simpa using hk)] at hf
        have h' : docField d k = some (some v) := by
          unfold docField
          rw [hf]
        obtain ⟨a, b, rfl, h1, h2⟩ := ih h' hf
        refine ⟨(k', v') :: a, b, rfl, fun w hw => ?_, h2⟩
        rcases List.mem_cons.1 hw with hw | hw
        · cases hw; exact hk rfl
        · exact h1 w hw
  · rintro ⟨a, b, rfl, h1, h2⟩
    have hnil : ∀ l : RMap JsonScalar, Absent l k → l.filter (fun e => e.1 == k) = [] := by
      intro l hl
      rw [List.filter_eq_nil_iff]
      rintro ⟨k', w⟩ he hk
      have : k' = k := by simpa using hk
      subst this
      exact hl w he
    unfold docField
    rw [List.filter_append, List.filter_cons, if_pos (by simp), hnil a h1, hnil b h2]
    rfl

theorem docStr_iff {d : RMap JsonScalar} {k s : Str} : docStr d k = some s ↔ Entry d k (isText s) := by
  rw [← docField_some_iff]
  unfold docStr isText
  constructor
  · intro h
    split at h
    · rename_i hf; cases h; exact hf
    · cases h
  · intro h
    rw [h]

theorem optField_iff {α : Type} {parse : Json → Option α} {R : Json → α → Prop} (hp : ∀ v a, parse v = some a ↔ R v a)
    {d : RMap JsonScalar} {k : Str} {o : Option α} : optField parse d k = some o ↔ Optionally d k R o := by
  unfold optField
  cases o with
  | none =>
    show _ ↔ Absent d k
    rw [← docField_none_iff]
    constructor
    · intro h
      split at h
      · assumption
      · split at h <;> cases h
      · cases h
    · intro h; rw [h]
  | some a =>
    show _ ↔ ∃ v, Entry d k v ∧ R v a
    constructor
    · intro h
      split at h
      · cases h
      · rename_i v hf
        split at h
        · rename_i a' ha; cases h; exact ⟨v, docField_some_iff.1 hf, (hp v a).1 ha⟩
        · cases h
      · cases h
    · rintro ⟨v, hv, hr⟩
      rw [docField_some_iff.2 hv]
      simp only [(hp v a).2 hr]

theorem keysOfSeq_iff {α : Type} {parse : Str → Option α} {l : List Json} {r : List α} :
    keysOfSeq parse l = some r ↔ ∃ ts, l = ts.map isText ∧ Zip (fun t x => parse t = some x) ts r := by
  induction l generalizing r with
  | nil =>
    constructor
    · intro h; cases h; exact ⟨[], rfl, .nil⟩
    · rintro ⟨ts, hl, hz⟩
      cases ts with
      | nil => cases hz; rfl
      | cons => cases hl
  | cons j l ih =>
    constructor
    · intro h
      unfold keysOfSeq at h
      split at h
      · cases ‹_ :: _ = []›
      · rename_i s r' heq
        cases heq
        split at h
        · rename_i a l' h1 h2
          cases h
          obtain ⟨ts, rfl, hz⟩ := ih.1 h2
          exact ⟨s :: ts, rfl, .cons h1 hz⟩
        · cases h
      · cases h
    · rintro ⟨ts, hl, hz⟩
      cases ts with
      | nil => cases hl
      | cons t ts =>
        cases hl
        cases hz with
        | cons h1 h2 =>
          simp only [isText, keysOfSeq, h1]
          rw [show keysOfSeq parse (List.map isText ts) = _ from ih.2 ⟨ts, rfl, h2⟩]

theorem keysOfField_iff {α : Type} {parse : Str → Option α} {d : RMap JsonScalar} {k : Str} {r : List α} :
    keysOfField parse d k = some r ↔ Listed d k (fun t x => parse t = some x) r := by
  unfold keysOfField Listed
  constructor
  · intro h
    split at h
    · rename_i hf; cases h; exact Or.inl ⟨docField_none_iff.1 hf, rfl⟩
    · rename_i l hf
      obtain ⟨ts, rfl, hz⟩ := keysOfSeq_iff.1 h
      exact Or.inr ⟨ts, docField_some_iff.1 hf, hz⟩
    · cases h
  · rintro (⟨h, rfl⟩ | ⟨ts, h, hz⟩)
    · rw [docField_none_iff.2 h]
    · rw [docField_some_iff.2 h]
      exact keysOfSeq_iff.2 ⟨ts, rfl, hz⟩

theorem zip_congr {α β : Type} {R S : α → β → Prop} (h : ∀ a b, R a b ↔ S a b) {l : List α} {r : List β} :
    Zip R l r ↔ Zip S l r := by
  constructor
  · intro hz; induction hz with
    | nil => exact .nil
    | cons h1 _ ih => exact .cons ((h _ _).1 h1) ih
  · intro hz; induction hz with
    | nil => exact .nil
    | cons h1 _ ih => exact .cons ((h _ _).2 h1) ih

theorem toOption_iff {ε α : Type} {x : Except ε α} {a : α} : x.toOption = some a ↔ x = .ok a := by
  cases x <;> simp [Except.toOption]

theorem keysOfValue_iff {α : Type} {parse : Str → Option α} {v : Json} {r : List α} :
    keysOfValue parse v = some r ↔ Spec.ListOf (fun t x => parse t = some x) v r := by
  unfold keysOfValue Spec.ListOf
  split
  · rename_i l
    rw [keysOfSeq_iff]
    simp only [Tree.seq.injEq]
  · rename_i hn
    simp only [reduceCtorEq, false_iff]
    rintro ⟨ts, rfl, _⟩
    exact hn _ rfl

theorem kmsOfValue_iff {O : DocOps} {v : Json} {r : List AwsKeyId} :
    keysOfValue (fun s => (AwsKeyId.parse O.arn s).toOption) v = some r ↔ Spec.ListOf (Spec.ReadsKms O) v r := by
  rw [keysOfValue_iff]
  unfold Spec.ListOf
  simp only [zip_congr (fun (t : Str) (x : AwsKeyId) => toOption_iff (x := AwsKeyId.parse O.arn t) (a := x))]
  rfl

theorem ageOfValue_iff {O : DocOps} {v : Json} {r : List Str} :
    keysOfValue O.A.parseRecipient v = some r ↔ Spec.ListOf (Spec.ReadsAge O) v r := keysOfValue_iff

theorem keysArray_iff {O : DocOps} {l : List Json} {k : IntegrationKeys} :
    IntegrationKeys.ofArray O l = some k ↔ Spec.KeysInOrder O l k := by
  constructor
  · intro h
    match l with
    | [] => cases h; exact .none
    | [a] =>
      simp only [IntegrationKeys.ofArray] at h
      split at h
      · rename_i h1; cases h; exact .age (ageOfValue_iff.1 h1)
      · cases h
    | a :: w :: _ =>
      simp only [IntegrationKeys.ofArray] at h
      split at h
      · rename_i h1 h2; cases h; exact .both (ageOfValue_iff.1 h1) (kmsOfValue_iff.1 h2)
      · cases h
  · intro h
    cases h with
    | none => rfl
    | age h1 => simp only [IntegrationKeys.ofArray, ageOfValue_iff.2 h1]
    | both h1 h2 => simp only [IntegrationKeys.ofArray, ageOfValue_iff.2 h1, kmsOfValue_iff.2 h2]

theorem keysTable_iff {O : DocOps} {d : RMap JsonScalar} {k : IntegrationKeys} :
    IntegrationKeys.ofDoc O d = some k ↔ Spec.KeysByName O d k := by
  have hk : ∀ r, keysOfField (fun s => (AwsKeyId.parse O.arn s).toOption) d c!"aws_kms" = some r ↔
      Listed d c!"aws_kms" (Spec.ReadsKms O) r := by
    intro r
    rw [keysOfField_iff]
    unfold Listed
    simp only [zip_congr (fun (t : Str) (x : AwsKeyId) => toOption_iff (x := AwsKeyId.parse O.arn t) (a := x))]
    rfl
  have ha : ∀ r, keysOfField O.A.parseRecipient d c!"age" = some r ↔ Listed d c!"age" (Spec.ReadsAge O) r := fun r => keysOfField_iff
  unfold IntegrationKeys.ofDoc Spec.KeysByName
  rw [← ha, ← hk]
  constructor
  · intro h
    split at h
    · rename_i h1 h2; cases h; exact ⟨h1, h2⟩
    · cases h
  · rintro ⟨h1, h2⟩
    rw [h1, h2]

theorem integrationKeys_iff {O : DocOps} {v : Json} {k : IntegrationKeys} :
    IntegrationKeys.ofValue O v = some k ↔ Spec.DescribesKeys O v k := by
  unfold Spec.DescribesKeys
  cases v with
  | map d =>
    simp only [IntegrationKeys.ofValue, keysTable_iff, Tree.map.injEq, exists_eq_left', reduceCtorEq, false_and,
      exists_false, or_false]
  | seq l =>
    simp only [IntegrationKeys.ofValue, keysArray_iff, Tree.seq.injEq, exists_eq_left', reduceCtorEq, false_and,
      exists_false, false_or]
  | null => simp [IntegrationKeys.ofValue]
  | leaf a => simp [IntegrationKeys.ofValue]

theorem describesSetting_iff {O : DocOps} {n : Str} {v : Json} {p : PartialEncryption} :
    Spec.DescribesSetting O n v p ↔ ∃ make s, PartialEncryption.ofName n = some make ∧ v = isText s ∧ p = make s ∧ p.ok O = true := by
  constructor
  · intro h
    cases h with
    | encryptedSuffix s => exact ⟨.encryptedSuffix, s, rfl, rfl, rfl, rfl⟩
    | unencryptedSuffix s => exact ⟨.unencryptedSuffix, s, rfl, rfl, rfl, rfl⟩
    | encryptedRegex h => exact ⟨.encryptedRegex, _, rfl, rfl, rfl, h⟩
    | unencryptedRegex h => exact ⟨.unencryptedRegex, _, rfl, rfl, rfl, h⟩
  · rintro ⟨make, s, hn, rfl, rfl, hok⟩
    simp only [PartialEncryption.ofName] at hn
    split at hn
    · rename_i h; cases hn; subst h; exact .encryptedSuffix s
    split at hn
    · rename_i h; cases hn; subst h; exact .encryptedRegex hok
    split at hn
    · rename_i h; cases hn; subst h; exact .unencryptedSuffix s
    split at hn
    · rename_i h; cases hn; subst h; exact .unencryptedRegex hok
    cases hn

theorem ofTable_iff {O : DocOps} {v : Json} {p : PartialEncryption} :
    PartialEncryption.ofTable O v = some p ↔ ∃ n x, v = .map [(n, x)] ∧ Spec.DescribesSetting O n x p := by
  constructor
  · intro h
    unfold PartialEncryption.ofTable at h
    split at h
    · rename_i k s
      split at h
      · rename_i make hn
        split at h
        · rename_i hok
          cases h
          exact ⟨k, _, rfl, describesSetting_iff.2 ⟨make, s, hn, rfl, rfl, hok⟩⟩
        · cases h
      · cases h
    · cases h
  · rintro ⟨n, x, rfl, h⟩
    obtain ⟨make, s, hn, rfl, rfl, hok⟩ := describesSetting_iff.1 h
    simp only [PartialEncryption.ofTable, isText, hn, hok, if_true]

theorem asBool_iff {v : Json} {b : Bool} : v.asBool = some b ↔ v = .leaf (.bool b) := by
  unfold Json.asBool
  split
  · simp [eq_comm]
  · rename_i hn
    simp only [reduceCtorEq, false_iff]
    rintro rfl
    exact hn b rfl

theorem ofField_iff {O : DocOps} {d : RMap JsonScalar} {k : IntegrationKeys} :
    IntegrationKeys.ofField O d = some k ↔ (Absent d c!"integration_keys" ∧ k = { age := [], kms := [] }) ∨
      ∃ v, Entry d c!"integration_keys" v ∧ Spec.DescribesKeys O v k := by
  have hp : ∀ v k, IntegrationKeys.ofValue O v = some k ↔ Spec.DescribesKeys O v k := fun v k => integrationKeys_iff
  unfold IntegrationKeys.ofField
  constructor
  · intro h
    split at h
    · rename_i k' ho
      cases h
      exact Or.inr ((optField_iff hp).1 ho)
    · rename_i ho
      cases h
      exact Or.inl ⟨(optField_iff hp).1 ho, rfl⟩
    · cases h
  · rintro (⟨h, rfl⟩ | h)
    · rw [(optField_iff hp (o := none)).2 h]
    · rw [(optField_iff hp (o := some k)).2 h]

theorem ruleTable_iff {O : DocOps} {d : RMap JsonScalar} {r : CreationRule} :
    CreationRule.ofDoc O d = some r ↔ Spec.RuleByName O d r := by
  unfold CreationRule.ofDoc
  constructor
  · intro h
    split at h
    · rename_i path mac part keys h1 h2 h3 h4
      split at h
      · rename_i hok
        cases h
        exact ⟨docStr_iff.1 h1, hok, (optField_iff fun _ _ => asBool_iff).1 h2, (optField_iff fun _ _ => ofTable_iff).1 h3,
          ofField_iff.1 h4⟩
      · cases h
    · cases h
  · rintro ⟨h1, h2, h3, h4, h5⟩
    rw [docStr_iff.2 h1, (optField_iff fun _ _ => asBool_iff).2 h3, (optField_iff fun _ _ => ofTable_iff).2 h4, ofField_iff.2 h5]
    simp only [h2, if_true]

theorem ruleArray_iff {O : DocOps} {l : List Json} {r : CreationRule} :
    CreationRule.ofArray O l = some r ↔ Spec.RuleInOrder O l r := by
  constructor
  · intro h
    unfold CreationRule.ofArray at h
    split at h
    · rename_i s m p rest
      split at h
      · rename_i m' p' keys h1 h2 h3
        split at h
        · rename_i hok
          cases h
          obtain ⟨n, x, rfl, hx⟩ := ofTable_iff.1 h2
          rw [asBool_iff.1 h1]
          cases rest with
          | nil => cases h3; exact .noKeys hok hx
          | cons v rest => exact .keys hok hx (integrationKeys_iff.1 h3)
        · cases h
      · cases h
    · cases h
  · intro h
    cases h with
    | noKeys hok hx =>
      simp only [isText, CreationRule.ofArray, IntegrationKeys.ofRest, asBool_iff.2 rfl, ofTable_iff.2 ⟨_, _, rfl, hx⟩, hok, if_true]
    | keys hok hx hk =>
      simp only [isText, CreationRule.ofArray, IntegrationKeys.ofRest, asBool_iff.2 rfl, ofTable_iff.2 ⟨_, _, rfl, hx⟩, integrationKeys_iff.2 hk, hok, if_true]

theorem creationRule_iff {O : DocOps} {v : Json} {r : CreationRule} :
    CreationRule.ofValue O v = some r ↔ Spec.DescribesRule O v r := by
  unfold Spec.DescribesRule
  cases v with
  | map d =>
    simp only [CreationRule.ofValue, ruleTable_iff, Tree.map.injEq, exists_eq_left', reduceCtorEq, false_and,
      exists_false, or_false]
  | seq l =>
    simp only [CreationRule.ofValue, ruleArray_iff, Tree.seq.injEq, exists_eq_left', reduceCtorEq, false_and,
      exists_false, false_or]
  | null => simp [CreationRule.ofValue]
  | leaf a => simp [CreationRule.ofValue]

theorem configSeq_iff {O : DocOps} {l : List Json} {c : Config} :
    Config.ofSeq O l = some c ↔ Zip (Spec.DescribesRule O) l c := by
  induction l generalizing c with
  | nil =>
    constructor
    · intro h; cases h; exact .nil
    · intro h; cases h; rfl
  | cons j l ih =>
    constructor
    · intro h
      unfold Config.ofSeq at h
      split at h
      · rename_i a l' h1 h2
        cases h
        exact .cons (creationRule_iff.1 h1) (ih.1 h2)
      · cases h
    · intro h
      cases h with
      | cons h1 h2 => simp only [Config.ofSeq, creationRule_iff.2 h1, ih.2 h2]

theorem configDoc_iff {O : DocOps} {d : RMap JsonScalar} {c : Config} :
    Config.ofDoc O d = some c ↔ Spec.DescribesConfig O d c := by
  unfold Config.ofDoc Spec.DescribesConfig
  constructor
  · intro h
    split at h
    · rename_i l hf
      exact ⟨l, docField_some_iff.1 hf, configSeq_iff.1 h⟩
    · cases h
  · rintro ⟨vs, hd, hz⟩
    rw [docField_some_iff.2 hd]
    exact configSeq_iff.2 hz

/-! ## Metadata -/

theorem keyId_age_iff {O : DocOps} {d : RMap JsonScalar} {x : Kind.age.Id} :
    keyIdOfDoc O .age d = some x ↔ Spec.DescribesKey O d .age x := by
  show (match docStr d c!"recipient" with | some s => O.A.parseRecipient s | none => none) = some x ↔
    ∃ t, Entry d c!"recipient" (isText t) ∧ O.A.parseRecipient t = some x
  constructor
  · intro h
    split at h
    · rename_i s hs; exact ⟨s, docStr_iff.1 hs, h⟩
    · cases h
  · rintro ⟨s, hs, h⟩
    rw [docStr_iff.2 hs]; exact h

theorem keyId_kms_iff {O : DocOps} {d : RMap JsonScalar} {x : AwsKeyId} :
    keyIdOfDoc O .kms d = some x ↔ Spec.DescribesKey O d .kms x := by
  show (match docStr d c!"aws_profile", docStr d c!"arn" with
      | some profile, some s => (match KeyArn.parse O.arn s with
        | .ok arn => some ({ profile, arn } : AwsKeyId)
        | .error _ => none)
      | _, _ => none) = some x ↔
    ∃ t, Entry d c!"aws_profile" (isText x.profile) ∧ Entry d c!"arn" (isText t) ∧ KeyArn.parse O.arn t = .ok x.arn
  constructor
  · intro h
    split at h
    · rename_i p s hp hs
      split at h
      · rename_i arn ha; cases h; exact ⟨s, docStr_iff.1 hp, docStr_iff.1 hs, ha⟩
      · cases h
    · cases h
  · rintro ⟨s, hp, hs, h⟩
    rw [docStr_iff.2 hp, docStr_iff.2 hs]
    simp only [h]

theorem keyId_iff {O : DocOps} {k : Kind} {d : RMap JsonScalar} {x : k.Id} :
    keyIdOfDoc O k d = some x ↔ Spec.DescribesKey O d k x := by
  cases k with
  | age => exact keyId_age_iff
  | kms => exact keyId_kms_iff

theorem date_iff {O : DocOps} {d : RMap JsonScalar} {k : Str} {o : Option Timestamp} :
    dateOfDoc O d k = some o ↔ Nullable d k (fun v t => ∃ s, v = isText s ∧ O.parseDate s = some t) o := by
  unfold dateOfDoc
  cases o with
  | none =>
    show _ ↔ Absent d k ∨ Entry d k .null
    rw [← docField_none_iff, ← docField_some_iff]
    constructor
    · intro h
      split at h
      · exact Or.inl ‹_›
      · exact Or.inr ‹_›
      · split at h <;> cases h
      · cases h
    · rintro (h | h) <;> rw [h]
  | some t =>
    show _ ↔ ∃ v, Entry d k v ∧ ∃ s, v = isText s ∧ O.parseDate s = some t
    constructor
    · intro h
      split at h
      · cases h
      · cases h
      · rename_i s hs
        split at h
        · rename_i ht; cases h; exact ⟨_, docField_some_iff.1 hs, s, rfl, ht⟩
        · cases h
      · cases h
    · rintro ⟨_, hv, s, rfl, ht⟩
      rw [docField_some_iff.2 hv]
      simp only [isText, ht]

theorem bool_iff {d : RMap JsonScalar} {k : Str} {o : Option Bool} :
    boolOfDoc d k = some o ↔ Nullable d k (fun v b => v = .leaf (.bool b)) o := by
  unfold boolOfDoc
  cases o with
  | none =>
    show _ ↔ Absent d k ∨ Entry d k .null
    rw [← docField_none_iff, ← docField_some_iff]
    constructor
    · intro h
      split at h
      · exact Or.inl ‹_›
      · exact Or.inr ‹_›
      · cases h
      · cases h
    · rintro (h | h) <;> rw [h]
  | some b =>
    show _ ↔ ∃ v, Entry d k v ∧ v = .leaf (.bool b)
    constructor
    · intro h
      split at h
      · cases h
      · cases h
      · rename_i hs; cases h; exact ⟨_, docField_some_iff.1 hs, rfl⟩
      · cases h
    · rintro ⟨_, hv, rfl⟩
      rw [docField_some_iff.2 hv]

theorem unit_iff {O : DocOps} {k : Kind} {d : RMap JsonScalar} {u : IUnit k} :
    IUnit.ofDoc O k d = some u ↔ Spec.DescribesUnit O k d u := by
  unfold IUnit.ofDoc
  constructor
  · intro h
    split at h
    · rename_i h1 h2 h3
      cases h
      exact ⟨keyId_iff.1 h1, date_iff.1 h2, docStr_iff.1 h3⟩
    · cases h
  · rintro ⟨h1, h2, h3⟩
    rw [keyId_iff.2 h1, date_iff.2 h2, docStr_iff.2 h3]

theorem unitsList_iff {O : DocOps} {k : Kind} {l : List Json} {us : List (IUnit k)} :
    Units.listOfDoc O k l = some us ↔ ∃ ds : List (RMap JsonScalar), l = ds.map .map ∧ Zip (Spec.DescribesUnit O k) ds us := by
  induction l generalizing us with
  | nil =>
    constructor
    · intro h; cases h; exact ⟨[], rfl, .nil⟩
    · rintro ⟨ds, hl, hz⟩
      cases ds with
      | nil => cases hz; rfl
      | cons => cases hl
  | cons j l ih =>
    constructor
    · intro h
      unfold Units.listOfDoc at h
      split at h
      · cases ‹_ :: _ = []›
      · rename_i d r' heq
        cases heq
        split at h
        · rename_i a l' h1 h2
          cases h
          obtain ⟨ds, rfl, hz⟩ := ih.1 h2
          exact ⟨d :: ds, rfl, .cons (unit_iff.1 h1) hz⟩
        · cases h
      · cases h
    · rintro ⟨ds, hl, hz⟩
      cases ds with
      | nil => cases hl
      | cons d ds =>
        cases hl
        cases hz with
        | cons h1 h2 =>
          simp only [Units.listOfDoc, unit_iff.2 h1]
          rw [show Units.listOfDoc O k (List.map Tree.map ds) = _ from ih.2 ⟨ds, rfl, h2⟩]

theorem mem_firsts {α : Type} [DecidableEq α] {l : List α} {x : α} : x ∈ Spec.firsts l ↔ x ∈ l := by
  induction l with
  | nil => simp [Spec.firsts]
  | cons y l ih =>
    simp only [Spec.firsts, List.mem_cons, List.mem_filter, ih]
    by_cases h : x = y <;> simp [h]

theorem firsts_nodup {α : Type} [DecidableEq α] (l : List α) : (Spec.firsts l).Nodup := by
  induction l with
  | nil => exact List.nodup_nil
  | cons y l ih =>
    rw [Spec.firsts, List.nodup_cons]
    exact ⟨fun h => by simpa using (List.mem_filter.1 h).2, ih.filter _⟩

theorem firsts_append_single {α : Type} [DecidableEq α] (l : List α) (x : α) :
    Spec.firsts (l ++ [x]) = if x ∈ l then Spec.firsts l else Spec.firsts l ++ [x] := by
  induction l with
  | nil => simp [Spec.firsts]
  | cons y l ih =>
    rw [List.cons_append, Spec.firsts, ih]
    by_cases hx : x ∈ l
    · rw [if_pos hx, if_pos (List.mem_cons_of_mem _ hx), Spec.firsts]
    · rw [if_neg hx]
      by_cases hy : x = y
      · subst hy
        rw [if_pos List.mem_cons_self, Spec.firsts, List.filter_append]
        simp
      · rw [if_neg (by simp [hx, hy]), Spec.firsts, List.filter_append]
        simp [hy]

/-- Inserting the units of a list one after another. -/
theorem lastUnits_foldl {k : Kind} (us : List (IUnit k)) : Spec.LastUnits us (us.foldl Units.insert []) := by
  rw [← List.reverse_reverse us]
  induction us.reverse with
  | nil => exact ⟨rfl, fun _ h => (nomatch h)⟩
  | cons u r ih =>
    rw [List.reverse_cons, List.foldl_append]
    obtain ⟨h1, h2⟩ := ih
    refine ⟨?_, fun x hx => ?_⟩
    · show (Units.insert _ u).map IUnit.keyId = _
      rw [Units.map_insert, List.map_append, List.map_singleton, firsts_append_single, h1]
      simp only [mem_firsts]
    · have hx : x ∈ Units.insert (r.reverse.foldl Units.insert []) u := hx
      by_cases hk : x.keyId = u.keyId
      · have : x = u := by
          have hnd : ((Units.insert (r.reverse.foldl Units.insert []) u).map IUnit.keyId).Nodup := by
            rw [Units.map_insert, h1]
            have := firsts_nodup ((r.reverse.map IUnit.keyId) ++ [u.keyId])
            rw [firsts_append_single] at this
            simpa only [mem_firsts] using this
          exact eq_of_nodup_map hnd hx (Units.mem_insert_self _ _) hk
        subst this
        exact ⟨r.reverse, [], by simp, fun _ h => (nomatch h)⟩
      · rcases Units.of_mem_insert hx with rfl | hm
        · exact absurd rfl hk
        · obtain ⟨a, b, e, hb⟩ := h2 x hm
          refine ⟨a, b ++ [u], by rw [e]; simp, fun v hv => ?_⟩
          rcases List.mem_append.1 hv with hv | hv
          · exact hb v hv
          · cases List.mem_singleton.1 hv
            exact fun e => hk e.symm

theorem lastUnits_unique {k : Kind} {us r r' : List (IUnit k)} (h : Spec.LastUnits us r) (h' : Spec.LastUnits us r') : r = r' := by
  have hsame : ∀ x ∈ r, ∀ y ∈ r', x.keyId = y.keyId → x = y := by
    intro x hx y hy e
    obtain ⟨a, b, e1, h1⟩ := h.2 x hx
    obtain ⟨a', b', e2, h2⟩ := h'.2 y hy
    rw [e1] at e2
    rcases List.append_eq_append_iff.1 e2 with ⟨c, rfl, ec⟩ | ⟨c, rfl, ec⟩
    · cases c with
      | nil => injection ec
      | cons z c =>
        injection ec with _ ec
        exact absurd e.symm (h1 y (by rw [ec]; simp))
    · cases c with
      | nil => injection ec with ec _; exact ec.symm
      | cons z c =>
        injection ec with _ ec
        exact absurd e (h2 x (by rw [ec]; simp))
  have hids := h.1.trans h'.1.symm
  clear h h'
  induction r generalizing r' with
  | nil => cases r' with
    | nil => rfl
    | cons => cases hids
  | cons x r ih => cases r' with
    | nil => cases hids
    | cons y r' =>
      injection hids with e1 e2
      rw [hsame x (by simp) y (by simp) e1, ih (fun a ha b hb => hsame a (by simp [ha]) b (by simp [hb])) e2]

theorem unitsOfField_iff {O : DocOps} {k : Kind} {d : RMap JsonScalar} {n : Str} {r : List (IUnit k)} :
    unitsOfField O k d n = some r ↔ Spec.DescribesUnits O k d n r := by
  unfold unitsOfField Spec.DescribesUnits
  constructor
  · intro h
    split at h
    · cases h
    · rename_i hf; cases h; exact Or.inl ⟨docField_none_iff.1 hf, rfl⟩
    · rename_i v hf
      unfold Units.ofDoc at h
      split at h
      · rename_i l
        split at h
        · rename_i us hl
          cases h
          obtain ⟨ds, rfl, hz⟩ := unitsList_iff.1 hl
          exact Or.inr ⟨ds, us, docField_some_iff.1 hf, hz, lastUnits_foldl us⟩
        · cases h
      · cases h
  · rintro (⟨h, rfl⟩ | ⟨ds, us, h, hz, hl⟩)
    · rw [docField_none_iff.2 h]
    · rw [docField_some_iff.2 h]
      simp only [Units.ofDoc, unitsList_iff.2 ⟨ds, rfl, hz⟩]
      rw [lastUnits_unique hl (lastUnits_foldl us)]

theorem ofName_none_iff {n : Str} : PartialEncryption.ofName n = none ↔ n ∉ Spec.settingNames := by
  simp only [PartialEncryption.ofName, Spec.settingNames, List.mem_cons, List.not_mem_nil, or_false, not_or]
  repeat' split
  all_goals simp_all

theorem describesSetting_of_ofName {O : DocOps} {n : Str} {make : Str → PartialEncryption} (h : PartialEncryption.ofName n = some make)
    {v : Json} {p : PartialEncryption} : Spec.DescribesSetting O n v p ↔ ∃ s, v = isText s ∧ p = make s ∧ p.ok O = true := by
  rw [describesSetting_iff]
  constructor
  · rintro ⟨make', s, hn, hv, hp, hok⟩
    cases h.symm.trans hn
    exact ⟨s, hv, hp, hok⟩
  · rintro ⟨s, hv, hp, hok⟩
    exact ⟨make, s, h, hv, hp, hok⟩

theorem someSetting_describes (O : DocOps) (d : RMap JsonScalar) : Spec.DescribesSomeSetting O d (PartialEncryption.ofDoc O d) := by
  induction d with
  | nil => exact Or.inl ⟨fun _ h => (nomatch h), rfl⟩
  | cons e d ih =>
    obtain ⟨n, v⟩ := e
    cases hn : PartialEncryption.ofName n with
    | none =>
      rw [PartialEncryption.ofDoc, hn]
      have hn' := ofName_none_iff.1 hn
      rcases ih with ⟨h, hp⟩ | ⟨a, n', v', b, rfl, ha, hm, hp⟩
      · refine Or.inl ⟨fun e he => ?_, hp⟩
        rcases List.mem_cons.1 he with rfl | he
        · exact hn'
        · exact h e he
      · refine Or.inr ⟨(n, v) :: a, n', v', b, rfl, fun e he => ?_, hm, hp⟩
        rcases List.mem_cons.1 he with rfl | he
        · exact hn'
        · exact ha e he
    | some make =>
      have hm : n ∈ Spec.settingNames := Classical.byContradiction fun h => by
        rw [ofName_none_iff.2 h] at hn; cases hn
      refine Or.inr ⟨[], n, v, d, rfl, fun _ h => (nomatch h), hm, ?_⟩
      simp only [PartialEncryption.ofDoc, hn, describesSetting_of_ofName hn]
      split
      · rename_i s
        split
        · rename_i hok; exact Or.inl ⟨_, rfl, s, rfl, rfl, hok⟩
        · rename_i hok
          refine Or.inr ⟨rfl, ?_⟩
          rintro q ⟨s', hs, rfl, hok'⟩
          cases hs
          exact hok hok'
      · rename_i hv
        refine Or.inr ⟨rfl, ?_⟩
        rintro q ⟨s', rfl, _⟩
        exact hv s' rfl

theorem describesSetting_unique {O : DocOps} {n : Str} {v : Json} {p q : PartialEncryption} (h : Spec.DescribesSetting O n v p)
    (h' : Spec.DescribesSetting O n v q) : p = q := by
  obtain ⟨m, s, hn, rfl, rfl, -⟩ := describesSetting_iff.1 h
  obtain ⟨m', s', hn', hs, rfl, -⟩ := describesSetting_iff.1 h'
  cases hn.symm.trans hn'
  cases hs
  rfl

theorem someSetting_unique {O : DocOps} {d : RMap JsonScalar} {p q : Option PartialEncryption} (h : Spec.DescribesSomeSetting O d p)
    (h' : Spec.DescribesSomeSetting O d q) : p = q := by
  induction d with
  | nil =>
    rcases h with ⟨-, rfl⟩ | ⟨a, n, v, b, e, -⟩
    · rcases h' with ⟨-, rfl⟩ | ⟨a, n, v, b, e, -⟩
      · rfl
      · simp at e
    · simp at e
  | cons e d ih =>
    have key : ∀ {r : Option PartialEncryption}, Spec.DescribesSomeSetting O (e :: d) r →
        (e.1 ∉ Spec.settingNames ∧ Spec.DescribesSomeSetting O d r) ∨
        (e.1 ∈ Spec.settingNames ∧ ((∃ q, r = some q ∧ Spec.DescribesSetting O e.1 e.2 q) ∨ (r = none ∧ ∀ q, ¬ Spec.DescribesSetting O e.1 e.2 q))) := by
      rintro r (⟨h, rfl⟩ | ⟨a, n, v, b, e1, ha, hn, hp⟩)
      · exact Or.inl ⟨h e (by simp), Or.inl ⟨fun x hx => h x (by simp [hx]), rfl⟩⟩
      · cases a with
        | nil => cases e1; exact Or.inr ⟨hn, hp⟩
        | cons x a =>
          cases e1
          exact Or.inl ⟨ha e (by simp), Or.inr ⟨a, n, v, b, rfl, fun y hy => ha y (by simp [hy]), hn, hp⟩⟩
    rcases key h with ⟨hn, h1⟩ | ⟨hn, h1⟩
    · rcases key h' with ⟨-, h2⟩ | ⟨hn', -⟩
      · exact ih h1 h2
      · exact absurd hn' hn
    · rcases key h' with ⟨hn', -⟩ | ⟨-, h2⟩
      · exact absurd hn hn'
      · rcases h1 with ⟨a, rfl, ha⟩ | ⟨rfl, ha⟩
        · rcases h2 with ⟨b, rfl, hb⟩ | ⟨rfl, hb⟩
          · rw [describesSetting_unique ha hb]
          · exact absurd ha (hb a)
        · rcases h2 with ⟨b, rfl, hb⟩ | ⟨rfl, hb⟩
          · exact absurd hb (ha b)
          · rfl

theorem metadataDoc_iff {M : Type} {O : DocOps} {parseMac : Str → Option M} {d : RMap JsonScalar} {md : Metadata M} :
    Metadata.ofDoc O parseMac d = some md ↔ Spec.DescribesMetadata O parseMac d md := by
  have hdate : ∀ t, reqDateOfDoc O d c!"lastmodified" = some t ↔ ∃ s, Entry d c!"lastmodified" (isText s) ∧ O.parseDate s = some t := by
    intro t
    unfold reqDateOfDoc
    constructor
    · intro h
      split at h
      · rename_i s hs; exact ⟨s, docStr_iff.1 hs, h⟩
      · cases h
    · rintro ⟨s, hs, h⟩
      rw [docStr_iff.2 hs]; exact h
  have hmac : ∀ t, parsedOfDoc parseMac d c!"mac" = some t ↔ ∃ s, Entry d c!"mac" (isText s) ∧ parseMac s = some t := by
    intro t
    unfold parsedOfDoc
    constructor
    · intro h
      split at h
      · rename_i s hs; exact ⟨s, docStr_iff.1 hs, h⟩
      · cases h
    · rintro ⟨s, hs, h⟩
      rw [docStr_iff.2 hs]; exact h
  unfold Metadata.ofDoc
  constructor
  · intro h
    split at h
    · rename_i h1 h2 h3 h4 h5
      cases h
      exact ⟨unitsOfField_iff.1 h1, unitsOfField_iff.1 h2, (hdate _).1 h3, (hmac _).1 h4, bool_iff.1 h5, someSetting_describes O d⟩
    · cases h
  · rintro ⟨h1, h2, h3, h4, h5, h6⟩
    rw [unitsOfField_iff.2 h1, unitsOfField_iff.2 h2, (hdate _).2 h3, (hmac _).2 h4, bool_iff.2 h5,
      ← someSetting_unique h6 (someSetting_describes O d)]

/-! ## Which part is the metadata -/

open Spec

mutual
theorem seenYaml_iff : ∀ (y : Yaml) (j : Json), Yaml.toDoc y = some j ↔ SeenYaml y j
  | .null, j => ⟨fun h => by simp only [Yaml.toDoc] at h; cases h; exact .null, fun h => by cases h; rfl⟩
  | .bool b, j => ⟨fun h => by simp only [Yaml.toDoc] at h; cases h; exact .bool b, fun h => by cases h; rfl⟩
  | .num n, j => ⟨fun h => by simp only [Yaml.toDoc] at h; cases h; exact .num n, fun h => by cases h; rfl⟩
  | .str s, j => ⟨fun h => by simp only [Yaml.toDoc] at h; cases h; exact .str s, fun h => by cases h; rfl⟩
  | .seq l, j => by
    constructor
    · intro h
      rw [Yaml.toDoc] at h
      split at h
      · rename_i l' hl
        cases h
        exact .seq ((seenYamls_iff l l').1 hl)
      · cases h
    · intro h
      cases h with
      | seq h => rw [Yaml.toDoc, (seenYamls_iff l _).2 h]
  | .map m, j => by
    constructor
    · intro h
      rw [Yaml.toDoc] at h
      split at h
      · rename_i d hd
        cases h
        exact .map ((seenYamlMap_iff m d).1 hd)
      · cases h
    · intro h
      cases h with
      | map h => rw [Yaml.toDoc, (seenYamlMap_iff m _).2 h]
  | .tagged t v, j => ⟨fun h => by simp [Yaml.toDoc] at h, fun h => by cases h⟩
theorem seenYamls_iff : ∀ (l : List Yaml) (l' : List Json), Yaml.seqToDoc l = some l' ↔ SeenYamls l l'
  | [], l' => ⟨fun h => by simp only [Yaml.seqToDoc] at h; cases h; exact .nil, fun h => by cases h; rfl⟩
  | y :: r, l' => by
    constructor
    · intro h
      rw [Yaml.seqToDoc] at h
      split at h
      · rename_i h1 h2
        cases h
        exact .cons ((seenYaml_iff y _).1 h1) ((seenYamls_iff r _).1 h2)
      · cases h
    · intro h
      cases h with
      | cons h1 h2 => rw [Yaml.seqToDoc, (seenYaml_iff y _).2 h1, (seenYamls_iff r _).2 h2]
theorem seenYamlMap_iff : ∀ (m : List (Yaml × Yaml)) (d : RMap JsonScalar), Yaml.mapToDoc m = some d ↔ SeenYamlMap m d
  | [], d => ⟨fun h => by simp only [Yaml.mapToDoc] at h; cases h; exact .nil, fun h => by cases h; rfl⟩
  | (k, y) :: r, d => by
    constructor
    · intro h
      rw [Yaml.mapToDoc] at h
      split at h
      · rename_i h1 h2
        have h1 := (seenYaml_iff y _).1 h1
        have h2 := (seenYamlMap_iff r _).1 h2
        split at h
        · cases h; exact .text h1 h2
        · cases h; exact .other trivial h1 h2
        · cases h; exact .other trivial h1 h2
        · cases h; exact .other trivial h1 h2
        · cases h
      · cases h
    · intro h
      cases h with
      | text h1 h2 => rw [Yaml.mapToDoc, (seenYaml_iff y _).2 h1, (seenYamlMap_iff r _).2 h2]
      | other hk h1 h2 =>
        rw [Yaml.mapToDoc, (seenYaml_iff y _).2 h1, (seenYamlMap_iff r _).2 h2]
        cases k <;> first | rfl | exact hk.elim
end

theorem ofI64_iff {n : Int64} {x : Number} : Number.ofI64 n = x ↔
    (∃ u : UInt64, n.toInt = u.toNat ∧ x = .posInt u) ∨ (n.toInt < 0 ∧ x = .negInt n) := by
  unfold Number.ofI64
  have hlt := n.toInt_lt
  split
  · rename_i h
    have hu : (UInt64.ofNat n.toInt.toNat).toNat = n.toInt.toNat := UInt64.toNat_ofNat_of_lt' (by have : UInt64.size = 2 ^ 64 := rfl; omega)
    constructor
    · rintro rfl
      exact .inl ⟨_, by omega, rfl⟩
    · rintro (⟨u, h', rfl⟩ | ⟨h', _⟩)
      · rw [Number.posInt.injEq, ← UInt64.toNat_inj]
        omega
      · omega
  · rename_i h
    constructor
    · rintro rfl; exact .inr ⟨by omega, rfl⟩
    · rintro (⟨u, h', _⟩ | ⟨_, rfl⟩)
      · omega
      · rfl

mutual
theorem seenToml_iff : ∀ (t : Toml) (j : Json), Toml.toDoc t = j ↔ SeenToml t j
  | .str s, j => ⟨fun h => by rw [← h, Toml.toDoc]; exact .str s, fun h => by cases h; rfl⟩
  | .int n, j => by
    constructor
    · intro h
      rw [← h, Toml.toDoc]
      rcases ofI64_iff.1 (rfl : Number.ofI64 n = Number.ofI64 n) with ⟨u, hn, hx⟩ | ⟨hn, hx⟩
      · rw [hx]; exact .pos hn
      · rw [hx]; exact .neg hn
    · intro h
      rw [Toml.toDoc]
      cases h with
      | pos hn => rw [ofI64_iff.2 (.inl ⟨_, hn, rfl⟩)]
      | neg hn => rw [ofI64_iff.2 (.inr ⟨hn, rfl⟩)]
  | .float s, j => ⟨fun h => by rw [← h, Toml.toDoc]; exact .float s, fun h => by cases h; rfl⟩
  | .bool s, j => ⟨fun h => by rw [← h, Toml.toDoc]; exact .bool s, fun h => by cases h; rfl⟩
  | .datetime s, j => ⟨fun h => by rw [← h, Toml.toDoc]; exact .datetime s, fun h => by cases h; rfl⟩
  | .array l, j => by
    constructor
    · intro h
      rw [← h, Toml.toDoc]
      exact .array ((seenTomls_iff l _).1 rfl)
    · intro h
      cases h with
      | array h => rw [Toml.toDoc, (seenTomls_iff l _).2 h]
  | .table m, j => by
    constructor
    · intro h
      rw [← h, Toml.toDoc]
      exact .table ((seenTomlMap_iff m _).1 rfl)
    · intro h
      cases h with
      | table h => rw [Toml.toDoc, (seenTomlMap_iff m _).2 h]
theorem seenTomls_iff : ∀ (l : List Toml) (l' : List Json), Toml.seqToDoc l = l' ↔ SeenTomls l l'
  | [], l' => ⟨fun h => by rw [← h, Toml.seqToDoc]; exact .nil, fun h => by cases h; rfl⟩
  | t :: r, l' => by
    constructor
    · intro h
      rw [← h, Toml.seqToDoc]
      exact .cons ((seenToml_iff t _).1 rfl) ((seenTomls_iff r _).1 rfl)
    · intro h
      cases h with
      | cons h1 h2 => rw [Toml.seqToDoc, (seenToml_iff t _).2 h1, (seenTomls_iff r _).2 h2]
theorem seenTomlMap_iff : ∀ (m : List (Str × Toml)) (d : RMap JsonScalar), Toml.mapToDoc m = d ↔ SeenTomlMap m d
  | [], d => ⟨fun h => by rw [← h, Toml.mapToDoc]; exact .nil, fun h => by cases h; rfl⟩
  | (k, t) :: r, d => by
    constructor
    · intro h
      rw [← h, Toml.mapToDoc]
      exact .cons ((seenToml_iff t _).1 rfl) ((seenTomlMap_iff r _).1 rfl)
    · intro h
      cases h with
      | cons h1 h2 => rw [Toml.mapToDoc, (seenToml_iff t _).2 h1, (seenTomlMap_iff r _).2 h2]
end

theorem apart_iff {κ β : Type} {d rest : List (κ × β)} {k : κ} {v : β} {p : κ → Bool} (hp : ∀ x, p x = true ↔ x = k) :
    Apart d k v rest ↔ d.filter (fun e => p e.1) = [(k, v)] ∧ rest = d.filter (fun e => !p e.1) := by
  have hp' : ∀ x, p x = false ↔ x ≠ k := fun x => by rw [← Bool.not_eq_true, hp]
  constructor
  · rintro ⟨a, b, rfl, rfl, h⟩
    have ha : ∀ e ∈ a, e.1 ≠ k := fun e he => h e (List.mem_append_left _ he)
    have hb : ∀ e ∈ b, e.1 ≠ k := fun e he => h e (List.mem_append_right _ he)
    have h1 : ∀ l : List (κ × β), (∀ e ∈ l, e.1 ≠ k) → l.filter (fun e => p e.1) = [] := by
      intro l hl
      rw [List.filter_eq_nil_iff]
      intro e he
      rw [hp]
      exact hl e he
    have h2 : ∀ l : List (κ × β), (∀ e ∈ l, e.1 ≠ k) → l.filter (fun e => !p e.1) = l := by
      intro l hl
      rw [List.filter_eq_self]
      intro e he
      rw [(hp' _).2 (hl e he)]
      rfl
    have hk := (hp k).2 rfl
    constructor
    · simp [List.filter_append, h1 a ha, h1 b hb, hk]
    · simp [List.filter_append, h2 a ha, h2 b hb, hk]
  · rintro ⟨h, rfl⟩
    have hrest : ∀ l : List (κ × β), ∀ e ∈ l.filter (fun e => !p e.1), e.1 ≠ k := by
      intro l e he
      rw [← hp', ← Bool.not_eq_true']
      exact (List.mem_filter.1 he).2
    induction d with
    | nil => cases h
    | cons e r ih =>
      by_cases he : p e.1 = true
      · rw [List.filter_cons_of_pos (by exact he)] at h
        injection h with h1 h2
        refine ⟨[], r, by rw [h1]; rfl, ?_, hrest _⟩
        rw [List.filter_cons_of_neg (by simp [he]), List.nil_append, List.filter_eq_self]
        intro x hx
        have := List.filter_eq_nil_iff.1 h2 x hx
        simpa using this
      · rw [List.filter_cons_of_neg (by exact he)] at h
        obtain ⟨a, b, h1, h2, _⟩ := ih h
        refine ⟨e :: a, b, by rw [h1]; rfl, ?_, hrest _⟩
        rw [List.filter_cons_of_pos (by simp [he]), h2]; rfl

theorem docField_filter {β : Type} {d : List (Str × β)} {k : Str} {v : β} :
    docField d k = some (some v) ↔ d.filter (fun e => e.1 == k) = [(k, v)] := by
  unfold docField
  constructor
  · intro h
    split at h
    · cases h
    · rename_i n w hf
      cases h
      have : (n, v) ∈ d.filter (fun e => e.1 == k) := by rw [hf]; exact List.mem_singleton.2 rfl
      have hn : n = k := beq_iff_eq.1 (List.mem_filter.1 this).2
      rw [hf, hn]
    · cases h
  · intro h
    rw [h]

end Rops
