import Verif.Spec.Document
import Verif.Lemmas.Keys
import Verif.Lemmas.EncValue
/-! Lemmas about metadata documents. -/

namespace Rops
open Spec

/-! ## Fields -/

theorem docField_of_mem {β : Type} {d : List (Str × β)} (hn : (d.map Prod.fst).Nodup) {k : Str} {v : β} (h : (k, v) ∈ d) :
    docField d k = some (some v) := by
  have : d.filter (fun e => e.1 == k) = [(k, v)] := by
    induction d with
    | nil => cases h
    | cons x r ih =>
      rw [List.map_cons, List.nodup_cons] at hn
      rcases List.mem_cons.1 h with rfl | h
      · rw [List.filter_cons, if_pos (by simp)]
        congr 1
        rw [List.filter_eq_nil_iff]
        intro e he hek
        exact hn.1 (List.mem_map.2 ⟨e, he, beq_iff_eq.1 hek⟩)
      · have hx : ¬ (x.1 == k) = true := by
          intro hx
          exact hn.1 (by rw [beq_iff_eq.1 hx]; exact List.mem_map.2 ⟨(k, v), h, rfl⟩)
        rw [List.filter_cons, if_neg hx]
        exact ih hn.2 h
  unfold docField
  rw [this]

theorem docField_of_not_mem {β : Type} {d : List (Str × β)} {k : Str} (h : k ∉ d.map Prod.fst) :
    docField d k = some none := by
  have : d.filter (fun e => e.1 == k) = [] := by
    rw [List.filter_eq_nil_iff]
    intro e he hek
    exact h (by rw [← beq_iff_eq.1 hek]; exact List.mem_map_of_mem he)
  unfold docField
  rw [this]

/-! ## Units -/

theorem IUnit.ofDoc_toDoc {O : DocOps} (hO : DocLaws O) {k : Kind} {u : IUnit k} (hk : KeyWritable O k u.keyId)
    (ht : ∀ t, u.createdAt = some t → Calendar t) : IUnit.ofDoc O k u.toDoc = some u := by
  obtain ⟨id, cr, enc⟩ := u
  cases k with
  | age =>
    have hw : O.A.parseRecipient id = some id := hk
    cases cr with
    | none =>
      simp [IUnit.ofDoc, IUnit.toDoc, keyIdToDoc, keyIdOfDoc, docStr, docField, dateOfDoc, Json.text, hw]
    | some t =>
      have := hO.date t (ht t rfl)
      simp [IUnit.ofDoc, IUnit.toDoc, keyIdToDoc, keyIdOfDoc, docStr, docField, dateOfDoc, Json.text, hw, this]
  | kms =>
    have hw : KeyArn.parse O.arn id.arn.toText = .ok id.arn := hk
    cases cr with
    | none =>
      simp [IUnit.ofDoc, IUnit.toDoc, keyIdToDoc, keyIdOfDoc, docStr, docField, dateOfDoc, Json.text, hw]
    | some t =>
      have := hO.date t (ht t rfl)
      simp [IUnit.ofDoc, IUnit.toDoc, keyIdToDoc, keyIdOfDoc, docStr, docField, dateOfDoc, Json.text, hw, this]

theorem Units.listOfDoc_toDoc {O : DocOps} {k : Kind} {us : Units k}
    (h : ∀ u ∈ us, IUnit.ofDoc O k u.toDoc = some u) :
    Units.listOfDoc O k (us.map fun u => .map u.toDoc) = some us := by
  induction us with
  | nil => rfl
  | cons u r ih =>
    simp only [List.map_cons, Units.listOfDoc, h u (by simp), ih fun x hx => h x (by simp [hx])]

theorem Units.insert_append {k : Kind} {us : Units k} {u : IUnit k} (h : ∀ x ∈ us, x.keyId ≠ u.keyId) :
    Units.insert us u = us ++ [u] := by
  induction us with
  | nil => rfl
  | cons x r ih =>
    rw [Units.insert, if_neg (h x (by simp)), ih fun y hy => h y (by simp [hy])]
    rfl

theorem Units.foldl_insert {k : Kind} (us acc : Units k) (h : ((acc ++ us).map IUnit.keyId).Nodup) :
    us.foldl Units.insert acc = acc ++ us := by
  induction us generalizing acc with
  | nil => simp
  | cons u r ih =>
    have hu : ∀ x ∈ acc, x.keyId ≠ u.keyId := by
      intro x hx
      rw [List.map_append, List.nodup_append] at h
      exact h.2.2 _ (List.mem_map_of_mem hx) _ (by simp)
    rw [List.foldl_cons, Units.insert_append hu, ih _ (by simpa using h)]
    simp

theorem Units.ofDoc_toDoc {O : DocOps} {k : Kind} {us : Units k} (hn : (us.map IUnit.keyId).Nodup)
    (h : ∀ u ∈ us, IUnit.ofDoc O k u.toDoc = some u) : Units.ofDoc O k us.toDoc = some us := by
  simp only [Units.ofDoc, Units.toDoc, Units.listOfDoc_toDoc h, Units.foldl_insert us [] (by simpa using hn), List.nil_append]

/-! ## Metadata -/

theorem toDoc_keys_nodup {M : Type} (showMac : M → Str) (md : Metadata M) :
    ((md.toDoc showMac).map Prod.fst).Nodup := by
  unfold Metadata.toDoc unitsField
  cases md.integration.kms <;> cases md.integration.age <;> cases md.macOnlyEncrypted <;>
    (cases md.partialEncryption with
      | none => simp
      | some p => cases p <;> simp [PartialEncryption.toDoc])

theorem PartialEncryption.ofName_toDoc (p : PartialEncryption) :
    ∃ make s, PartialEncryption.ofName p.toDoc.1 = some make ∧ p.toDoc.2 = .leaf (.str s) ∧ make s = p := by
  cases p <;> exact ⟨_, _, rfl, rfl, rfl⟩

theorem PartialEncryption.ofDoc_none {O : DocOps} {d : RMap JsonScalar}
    (h : ∀ e ∈ d, PartialEncryption.ofName e.1 = none) : PartialEncryption.ofDoc O d = none := by
  induction d with
  | nil => rfl
  | cons x r ih =>
    obtain ⟨k, v⟩ := x
    have := h (k, v) (by simp)
    simp only at this
    simp only [PartialEncryption.ofDoc, this]
    exact ih fun e he => h e (by simp [he])

theorem PartialEncryption.ofDoc_some {O : DocOps} {d : RMap JsonScalar} {p : PartialEncryption} (hp : p.ok O = true)
    (hm : p.toDoc ∈ d) (h : ∀ e ∈ d, e = p.toDoc ∨ PartialEncryption.ofName e.1 = none) :
    PartialEncryption.ofDoc O d = some p := by
  induction d with
  | nil => cases hm
  | cons x r ih =>
    obtain ⟨k, v⟩ := x
    rcases h (k, v) (by simp) with he | he
    · obtain ⟨make, s, h1, h2, h3⟩ := p.ofName_toDoc
      rw [← he] at h1 h2
      simp only at h1 h2
      simp only [PartialEncryption.ofDoc, h1, h2, h3, hp, if_true]
    · simp only at he
      simp only [PartialEncryption.ofDoc, he]
      rcases List.mem_cons.1 hm with hm | hm
      · obtain ⟨make, s, h1, _⟩ := p.ofName_toDoc
        rw [hm] at h1
        rw [he] at h1
        cases h1
      · exact ih hm fun e h' => h e (by simp [h'])

theorem ofDoc_pe {M : Type} {O : DocOps} (showMac : M → Str) (md : Metadata M)
    (hs : ∀ p, md.partialEncryption = some p → p.ok O = true) {d : RMap JsonScalar} (hd : d.Perm (md.toDoc showMac)) :
    PartialEncryption.ofDoc O d = md.partialEncryption := by
  have hrest : ∀ e ∈ md.toDoc showMac, (∃ p, md.partialEncryption = some p ∧ e = p.toDoc) ∨
      PartialEncryption.ofName e.1 = none := by
    intro e he
    unfold Metadata.toDoc unitsField at he
    simp only [List.mem_append] at he
    rcases he with (((he | he) | he) | he) | he
    · split at he
      · cases he
      · rw [List.mem_singleton] at he; subst he; exact .inr rfl
    · split at he
      · cases he
      · rw [List.mem_singleton] at he; subst he; exact .inr rfl
    · simp only [List.mem_cons, List.not_mem_nil, or_false] at he
      rcases he with rfl | rfl <;> exact .inr rfl
    · split at he
      · rename_i p hp
        rw [List.mem_singleton] at he
        exact .inl ⟨p, hp, he⟩
      · cases he
    · split at he
      · rw [List.mem_singleton] at he; subst he; exact .inr rfl
      · cases he
  cases hp : md.partialEncryption with
  | none =>
    refine PartialEncryption.ofDoc_none fun e he => ?_
    rcases hrest e (hd.mem_iff.1 he) with ⟨p, h, _⟩ | h
    · rw [hp] at h; cases h
    · exact h
  | some p =>
    refine PartialEncryption.ofDoc_some (hs p hp) ?_ fun e he => ?_
    · rw [hd.mem_iff]
      unfold Metadata.toDoc
      simp [hp]
    · rcases hrest e (hd.mem_iff.1 he) with ⟨q, h, h'⟩ | h
      · rw [hp] at h; cases h; exact .inl h'
      · exact .inr h

/-- Reading metadata back, with its fields in any order. -/
theorem Metadata.ofDoc_perm {M : Type} {O : DocOps} (hO : DocLaws O) {showMac : M → Str} {parseMac : Str → Option M}
    {md : Metadata M} (h : Writable O showMac parseMac md) {d : RMap JsonScalar} (hd : d.Perm (md.toDoc showMac)) :
    Metadata.ofDoc O parseMac d = some md := by
  have hn : (d.map Prod.fst).Nodup := (hd.map Prod.fst).nodup_iff.2 (toDoc_keys_nodup showMac md)
  have hmem : ∀ {e}, e ∈ md.toDoc showMac → e ∈ d := fun he => hd.mem_iff.2 he
  have hnot : ∀ {k}, k ∉ (md.toDoc showMac).map Prod.fst → k ∉ d.map Prod.fst :=
    fun hk hk' => hk ((hd.map Prod.fst).mem_iff.1 hk')
  have hkms : unitsOfField O .kms d c!"kms" = some md.integration.kms := by
    unfold unitsOfField
    by_cases he : md.integration.kms = []
    · rw [docField_of_not_mem (hnot ?_), he]
      unfold Metadata.toDoc unitsField
      rw [he]
      cases md.integration.age <;> cases md.macOnlyEncrypted <;>
        (cases md.partialEncryption with
          | none => simp
          | some p => cases p <;> simp [PartialEncryption.toDoc])
    · have hm : (c!"kms", Units.toDoc md.integration.kms) ∈ md.toDoc showMac := by
        unfold Metadata.toDoc unitsField
        simp [he]
      rw [docField_of_mem hn (hmem hm)]
      exact Units.ofDoc_toDoc (h.ids .kms) fun u hu =>
        IUnit.ofDoc_toDoc hO (h.keys .kms _ (List.mem_map_of_mem hu)) (h.created .kms u hu)
  have hage : unitsOfField O .age d c!"age" = some md.integration.age := by
    unfold unitsOfField
    by_cases he : md.integration.age = []
    · rw [docField_of_not_mem (hnot ?_), he]
      unfold Metadata.toDoc unitsField
      rw [he]
      cases md.integration.kms <;> cases md.macOnlyEncrypted <;>
        (cases md.partialEncryption with
          | none => simp
          | some p => cases p <;> simp [PartialEncryption.toDoc])
    · have hm : (c!"age", Units.toDoc md.integration.age) ∈ md.toDoc showMac := by
        unfold Metadata.toDoc unitsField
        simp [he]
      rw [docField_of_mem hn (hmem hm)]
      exact Units.ofDoc_toDoc (h.ids .age) fun u hu =>
        IUnit.ofDoc_toDoc hO (h.keys .age _ (List.mem_map_of_mem hu)) (h.created .age u hu)
  have hlm : reqDateOfDoc O d c!"lastmodified" = some md.lastModified := by
    have hm : (c!"lastmodified", Json.text md.lastModified.docText) ∈ md.toDoc showMac := by
      unfold Metadata.toDoc; simp
    unfold reqDateOfDoc docStr
    rw [docField_of_mem hn (hmem hm)]
    exact hO.date _ h.modified
  have hmac : parsedOfDoc parseMac d c!"mac" = some md.mac := by
    have hm : (c!"mac", Json.text (showMac md.mac)) ∈ md.toDoc showMac := by
      unfold Metadata.toDoc; simp
    unfold parsedOfDoc docStr
    rw [docField_of_mem hn (hmem hm)]
    exact h.mac
  have hmo : boolOfDoc d c!"mac_only_encrypted" = some md.macOnlyEncrypted := by
    unfold boolOfDoc
    cases hb : md.macOnlyEncrypted with
    | none =>
      rw [docField_of_not_mem (hnot ?_)]
      unfold Metadata.toDoc unitsField
      rw [hb]
      cases md.integration.kms <;> cases md.integration.age <;>
        (cases md.partialEncryption with
          | none => simp
          | some p => cases p <;> simp [PartialEncryption.toDoc])
    | some b =>
      have hm : (c!"mac_only_encrypted", Tree.leaf (JsonScalar.bool b)) ∈ md.toDoc showMac := by
        unfold Metadata.toDoc; simp [hb]
      rw [docField_of_mem hn (hmem hm)]
  unfold Metadata.ofDoc
  simp only [hkms, hage, hlm, hmac, hmo, ofDoc_pe showMac md h.setting hd]

end Rops
