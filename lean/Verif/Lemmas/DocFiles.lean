import Verif.Lemmas.DocFormats
import Verif.Lemmas.FileOps
import Verif.Lemmas.Tamper
/-! Files written and read. -/

namespace Rops
open Spec

/-! ## Writable metadata -/

/-- All units can be written and read. -/
def UnitsOk (O : DocOps) (im : IntegrationMetadata) : Prop :=
  ∀ k, ∀ u ∈ im.units k, KeyWritable O k u.keyId ∧ ∀ t, u.createdAt = some t → Calendar t

theorem encWritable_of {O : DocOps} {env : Env} (he : EnvLaws env) {F : Format} {rep : Value → Prop} {f : EncFile F}
    {key : Bytes} {m : RMap Value} {m' : RMap EncLeaf} (h : Holding env rep f key m m') (hu : UnitsOk O f.metadata.integration)
    (hd : Calendar f.metadata.lastModified) (hs : ∀ p, f.metadata.partialEncryption = some p → p.ok O = true) :
    EncWritable O env.C f.metadata where
  ids := h.ids
  keys := by
    intro k id hid
    obtain ⟨u, hu1, rfl⟩ := List.mem_map.1 hid
    exact (hu k u hu1).1
  created := fun k u hu1 => (hu k u hu1).2
  modified := hd
  mac := by
    show (EncValue.parse env.C (f.metadata.mac.toText env.C)).toOption = _
    rw [EncValue.parse_toText he.cipher.name_no_comma h.mac_sized]
    rfl
  setting := hs

theorem Spec.Writable.unitsOk {M : Type} {O : DocOps} {showMac : M → Str} {parseMac : Str → Option M} {md : Metadata M}
    (h : Writable O showMac parseMac md) : UnitsOk O md.integration :=
  fun k u hu => ⟨h.keys k _ (List.mem_map_of_mem hu), h.created k u hu⟩

theorem Spec.Calendar.truncate {t : Timestamp} (h : Calendar t) : Calendar t.truncate :=
  ⟨h.year, h.month, h.day, h.hour, h.minute, h.second, by simp [Timestamp.truncate]⟩

theorem unitsOk_addKeys {O : DocOps} {env : KeyEnv} (hc : ∀ i, Calendar (env.clock i)) {k : Kind} {d : Bytes}
    {ids : List k.Id} (hids : ∀ id ∈ ids, KeyWritable O k id) {im : IntegrationMetadata} (h : UnitsOk O im) {i : Nat}
    {res : Except IntegrationError Unit} {im' : IntegrationMetadata} {j : Nat}
    (ha : env.addKeys k d ids im i = (res, im', j)) : UnitsOk O im' := by
  induction ids generalizing im i with
  | nil => simp only [KeyEnv.addKeys] at ha; cases ha; exact h
  | cons id r ih =>
    simp only [KeyEnv.addKeys] at ha
    cases hu : env.newUnit k id d i with
    | error e => rw [hu] at ha; cases ha; exact h
    | ok u =>
      rw [hu] at ha
      refine ih (fun x hx => hids x (by simp [hx])) ?_ ha
      have hu' : KeyWritable O k u.keyId ∧ ∀ t, u.createdAt = some t → Calendar t := by
        unfold KeyEnv.newUnit at hu
        split at hu
        · cases hu
        · cases hu
          refine ⟨hids id (by simp), fun t ht => ?_⟩
          simp only at ht
          split at ht
          · cases ht; exact (hc i).truncate
          · cases ht
      intro k' x hx
      by_cases hk : k' = k
      · subst hk
        rw [IntegrationMetadata.units_setUnits] at hx
        rcases Units.of_mem_insert hx with rfl | hx
        · exact hu'
        · exact h k' x hx
      · rw [IntegrationMetadata.units_setUnits_ne _ hk] at hx
        exact h k' x hx

theorem unitsOk_updateUnits {O : DocOps} {env : KeyEnv} {k : Kind} {d : Bytes} {us us' : Units k} {i j : Nat}
    {res : Except IntegrationError Unit}
    (h : ∀ u ∈ us, KeyWritable O k u.keyId ∧ ∀ t, u.createdAt = some t → Calendar t)
    (hu : env.updateUnits k d us i = (res, us', j)) :
    ∀ u ∈ us', KeyWritable O k u.keyId ∧ ∀ t, u.createdAt = some t → Calendar t := by
  obtain ⟨h1, _⟩ := updateUnits_spec env k d us i hu
  intro u hu
  have : (u.keyId, u.createdAt) ∈ us.map (fun u => (u.keyId, u.createdAt)) := by
    rw [← h1]; exact List.mem_map_of_mem hu
  obtain ⟨v, hv, he⟩ := List.mem_map.1 this
  simp only [Prod.mk.injEq] at he
  rw [← he.1, ← he.2]
  exact h v hv

theorem unitsOk_removeKey {O : DocOps} {env : KeyEnv} {k : Kind} {id : k.Id} {im im' : IntegrationMetadata} {i j : Nat}
    {res : Except IntegrationError (Option (IUnit k))} (h : UnitsOk O im)
    (hr : env.removeKey k id im i = (res, im', j)) : UnitsOk O im' := by
  unfold KeyEnv.removeKey at hr
  cases hx : (im.units k).remove id with
  | none => rw [hx] at hr; cases hr; exact h
  | some p =>
    obtain ⟨u, rest⟩ := p
    rw [hx] at hr
    simp only at hr
    obtain ⟨a, b, h1, h2, _⟩ := Units.remove_eq_some hx
    have h0 : UnitsOk O (im.setUnits k rest) := by
      intro k' x hx
      by_cases hk : k' = k
      · subst hk
        rw [IntegrationMetadata.units_setUnits, h2] at hx
        apply h k' x
        rw [h1]
        rcases List.mem_append.1 hx with hx | hx
        · exact List.mem_append_left _ hx
        · exact List.mem_append_right _ (.tail _ hx)
      · rw [IntegrationMetadata.units_setUnits_ne _ hk] at hx
        exact h k' x hx
    generalize im.setUnits k rest = im0 at h0 hr
    cases ha : env.updateUnits .age (env.newKey i) im0.age (i + 1) with
    | mk r1 p =>
      obtain ⟨age, i1⟩ := p
      have hage := unitsOk_updateUnits (h0 .age) ha
      rw [ha] at hr
      cases r1 with
      | error e =>
        simp only at hr
        cases hr
        intro k'
        cases k'
        · exact hage
        · exact h0 .kms
      | ok _ =>
        simp only at hr
        cases hb : env.updateUnits .kms (env.newKey i) im0.kms i1 with
        | mk r2 p =>
          obtain ⟨kms, i2⟩ := p
          have hkms := unitsOk_updateUnits (h0 .kms) hb
          rw [hb] at hr
          cases r2 with
          | error e =>
            simp only at hr
            cases hr
            intro k'
            cases k'
            · exact hage
            · exact hkms
          | ok _ =>
            simp only at hr
            cases hr
            intro k'
            cases k'
            · exact hage
            · exact hkms

theorem unitsOk_intoMetadata {O : DocOps} {env : KeyEnv} (hc : ∀ i, Calendar (env.clock i)) {age : List (Kind.Id .age)}
    {kms : List (Kind.Id .kms)} (ha : ∀ id ∈ age, KeyWritable O .age id) (hk : ∀ id ∈ kms, KeyWritable O .kms id)
    {d : Bytes} {i j : Nat} {im : IntegrationMetadata} (h : env.intoMetadata age kms d i = .ok (im, j)) : UnitsOk O im := by
  unfold KeyEnv.intoMetadata at h
  split at h
  · cases h
  have h0 : UnitsOk O IntegrationMetadata.empty := by intro k u hu; cases k <;> cases hu
  rcases h1 : env.addKeys .age d age .empty i with ⟨r1, im1, i1⟩
  have hx1 := unitsOk_addKeys hc ha h0 h1
  rw [h1] at h
  cases r1 with
  | error e => simp at h
  | ok u =>
    simp only at h
    rcases h2 : env.addKeys .kms d kms im1 i1 with ⟨r2, im2, i2⟩
    have hx2 := unitsOk_addKeys hc hk hx1 h2
    rw [h2] at h
    cases r2 with
    | error e => simp at h
    | ok u =>
      simp only [Except.ok.injEq, Prod.mk.injEq] at h
      obtain ⟨rfl, rfl⟩ := h
      exact hx2

/-! ## Sealed maps in TOML order -/

theorem Spec.Zip.of_append {α β : Type} {R : α → β → Prop} {a : List α} {a' : List β} {b : List α} {b' : List β}
    (hl : a.length = a'.length) (h : Zip R (a ++ b) (a' ++ b')) : Zip R a a' ∧ Zip R b b' := by
  induction a generalizing a' with
  | nil =>
    cases a' with
    | nil => exact ⟨.nil, h⟩
    | cons _ _ => cases hl
  | cons x r ih =>
    cases a' with
    | nil => cases hl
    | cons y r' =>
      cases h with
      | cons hr h =>
        obtain ⟨h1, h2⟩ := ih (by simpa using hl) h
        exact ⟨.cons hr h1, h2⟩

/-- Two trees of the same shape whose leaves are related one by one. -/
def Alike {α β : Type} (R : List Str × α → List Str × β → Prop) (p : List Str) (t : Tree α) (t' : Tree β) : Prop :=
  shape t = shape t' ∧ Zip R (leavesAt p t) (leavesAt p t')

/-- The same for maps. -/
def AlikeMap {α β : Type} (R : List Str × α → List Str × β → Prop) (p : List Str) (m : RMap α) (m' : RMap β) : Prop :=
  shapeMap m = shapeMap m' ∧ Zip R (leavesMap p m) (leavesMap p m')

/-- The same for sequences. -/
def AlikeSeq {α β : Type} (R : List Str × α → List Str × β → Prop) (p : List Str) (l : List (Tree α)) (l' : List (Tree β)) : Prop :=
  shapeSeq l = shapeSeq l' ∧ Zip R (leavesSeq p l) (leavesSeq p l')

theorem AlikeMap.cons_iff {α β : Type} {R : List Str × α → List Str × β → Prop} {p : List Str} {k k' : Str} {t : Tree α}
    {t' : Tree β} {r : RMap α} {r' : RMap β} : AlikeMap R p ((k, t) :: r) ((k', t') :: r') ↔
      k = k' ∧ Alike R (p ++ [k]) t t' ∧ AlikeMap R p r r' := by
  unfold AlikeMap Alike
  simp only [shapeMap, leavesMap, List.cons.injEq, Prod.mk.injEq]
  constructor
  · rintro ⟨⟨⟨rfl, h1⟩, h2⟩, h3⟩
    obtain ⟨h4, h5⟩ := h3.of_append (length_leaves_of_shape.1 t t' _ _ h1)
    exact ⟨rfl, ⟨h1, h4⟩, h2, h5⟩
  · rintro ⟨rfl, ⟨h1, h4⟩, h2, h5⟩
    exact ⟨⟨⟨rfl, h1⟩, h2⟩, h4.append h5⟩

theorem AlikeSeq.cons_iff {α β : Type} {R : List Str × α → List Str × β → Prop} {p : List Str} {t : Tree α}
    {t' : Tree β} {r : List (Tree α)} {r' : List (Tree β)} : AlikeSeq R p (t :: r) (t' :: r') ↔
      Alike R p t t' ∧ AlikeSeq R p r r' := by
  unfold AlikeSeq Alike
  simp only [shapeSeq, leavesSeq, List.cons.injEq]
  constructor
  · rintro ⟨⟨h1, h2⟩, h3⟩
    obtain ⟨h4, h5⟩ := h3.of_append (length_leaves_of_shape.1 t t' _ _ h1)
    exact ⟨⟨h1, h4⟩, h2, h5⟩
  · rintro ⟨⟨h1, h4⟩, h2, h5⟩
    exact ⟨⟨h1, h2⟩, h4.append h5⟩

theorem AlikeMap.nil {α β : Type} {R : List Str × α → List Str × β → Prop} {p : List Str} : AlikeMap R p ([] : RMap α) ([] : RMap β) :=
  ⟨rfl, .nil⟩

theorem AlikeMap.append {α β : Type} {R : List Str × α → List Str × β → Prop} {p : List Str} {a b : RMap α} {a' b' : RMap β}
    (h : AlikeMap R p a a') (h' : AlikeMap R p b b') : AlikeMap R p (a ++ b) (a' ++ b') := by
  induction a generalizing a' with
  | nil =>
    cases a' with
    | nil => exact h'
    | cons y r => obtain ⟨h, _⟩ := h; simp [shapeMap] at h
  | cons x r ih =>
    cases a' with
    | nil => obtain ⟨h, _⟩ := h; simp [shapeMap] at h
    | cons y r' =>
      obtain ⟨k, t⟩ := x
      obtain ⟨k', t'⟩ := y
      obtain ⟨h1, h2, h3⟩ := AlikeMap.cons_iff.1 h
      exact AlikeMap.cons_iff.2 ⟨h1, h2, ih h3⟩

theorem isMap_of_shape {α β : Type} {t : Tree α} {t' : Tree β} (h : shape t = shape t') : isMap t = isMap t' := by
  cases t <;> cases t' <;> simp_all [shape, isMap]

theorem isSection_seq {α β : Type} {l : List (Tree α)} {l' : List (Tree β)} (h : shapeSeq l = shapeSeq l') :
    (!l.isEmpty && l.all isMap) = (!l'.isEmpty && l'.all isMap) := by
  have : ∀ (l : List (Tree α)) (l' : List (Tree β)), shapeSeq l = shapeSeq l' → l.isEmpty = l'.isEmpty ∧ l.all isMap = l'.all isMap := by
    intro l
    induction l with
    | nil => intro l' h; cases l' <;> simp_all [shapeSeq]
    | cons t r ih =>
      intro l' h
      cases l' with
      | nil => simp [shapeSeq] at h
      | cons t' r' =>
        simp only [shapeSeq, List.cons.injEq] at h
        simp only [List.all_cons, isMap_of_shape h.1, (ih r' h.2).2, List.isEmpty_cons, and_self]
  rw [(this l l' h).1, (this l l' h).2]

theorem isSection_of_shape {α β : Type} {t : Tree α} {t' : Tree β} (h : shape t = shape t') : isSection t = isSection t' := by
  cases t <;> cases t' <;> simp only [shape, reduceCtorEq, Tree.seq.injEq, Tree.map.injEq] at h <;>
    simp only [isSection]
  exact isSection_seq h

theorem tomlPlain_alike {α β : Type} {R : List Str × α → List Str × β → Prop} {p : List Str} {m : RMap α} {m' : RMap β}
    (h : AlikeMap R p m m') : AlikeMap R p (tomlPlain m) (tomlPlain m') := by
  induction m generalizing m' with
  | nil =>
    cases m' with
    | nil => simp only [tomlPlain]; exact .nil
    | cons y r => obtain ⟨h, _⟩ := h; simp [shapeMap] at h
  | cons x r ih =>
    cases m' with
    | nil => obtain ⟨h, _⟩ := h; simp [shapeMap] at h
    | cons y r' =>
      obtain ⟨k, t⟩ := x
      obtain ⟨k', t'⟩ := y
      obtain ⟨h1, h2, h3⟩ := AlikeMap.cons_iff.1 h
      simp only [tomlPlain, isSection_of_shape h2.1]
      split
      · exact ih h3
      · exact AlikeMap.cons_iff.2 ⟨h1, h2, ih h3⟩

theorem tomlOrder_alike {α β : Type} {R : List Str × α → List Str × β → Prop} :
    (∀ t : Tree α, ∀ (t' : Tree β) p, Alike R p t t' → Alike R p (tomlOrder t) (tomlOrder t')) ∧
    (∀ l : List (Tree α), ∀ (l' : List (Tree β)) p, AlikeSeq R p l l' → AlikeSeq R p (tomlOrderSeq l) (tomlOrderSeq l')) ∧
    (∀ m : RMap α, ∀ (m' : RMap β) p, AlikeMap R p m m' → AlikeMap R p (tomlSections m) (tomlSections m')) := by
  apply Tree.induct
  · intro l ih t' p h
    cases t' with
    | seq l' =>
      have hs : shapeSeq l = shapeSeq l' := by
        have := h.1
        simpa only [shape, Tree.seq.injEq] using this
      have hz : Zip R (leavesSeq p l) (leavesSeq p l') := by
        have := h.2
        simpa only [leavesAt] using this
      simp only [tomlOrder, isSection_seq hs]
      split
      · obtain ⟨h1, h2⟩ := ih l' p ⟨hs, hz⟩
        exact ⟨by simp only [shape, h1], by simp only [leavesAt]; exact h2⟩
      · exact h
    | _ => have := h.1; simp [shape] at this
  · intro m ih t' p h
    cases t' with
    | map m' =>
      have hm : AlikeMap R p m m' := by
        refine ⟨?_, ?_⟩
        · have := h.1
          simpa only [shape, Tree.map.injEq] using this
        · have := h.2
          simpa only [leavesAt] using this
      simp only [tomlOrder]
      obtain ⟨h1, h2⟩ := (tomlPlain_alike hm).append (ih m' p hm)
      exact ⟨by simp only [shape, h1], by simp only [leavesAt]; exact h2⟩
    | _ => have := h.1; simp [shape] at this
  · intro t' p h
    cases t' with
    | null => simpa only [tomlOrder] using h
    | _ => have := h.1; simp [shape] at this
  · intro a t' p h
    cases t' with
    | leaf b => simpa only [tomlOrder] using h
    | _ => have := h.1; simp [shape] at this
  · intro l' p h
    cases l' with
    | nil => simpa only [tomlOrderSeq] using h
    | cons y r => obtain ⟨h, _⟩ := h; simp [shapeSeq] at h
  · intro t r h1 h2 l' p h
    cases l' with
    | nil => obtain ⟨h, _⟩ := h; simp [shapeSeq] at h
    | cons t' r' =>
      obtain ⟨h3, h4⟩ := AlikeSeq.cons_iff.1 h
      simp only [tomlOrderSeq]
      exact AlikeSeq.cons_iff.2 ⟨h1 t' p h3, h2 r' p h4⟩
  · intro m' p h
    cases m' with
    | nil => simpa only [tomlSections] using h
    | cons y r => obtain ⟨h, _⟩ := h; simp [shapeMap] at h
  · intro k t r h1 h2 m' p h
    cases m' with
    | nil => obtain ⟨h, _⟩ := h; simp [shapeMap] at h
    | cons y r' =>
      obtain ⟨k', t'⟩ := y
      obtain ⟨hk, h3, h4⟩ := AlikeMap.cons_iff.1 h
      simp only [tomlSections, isSection_of_shape h3.1]
      split
      · exact AlikeMap.cons_iff.2 ⟨hk, h1 t' _ h3, h2 r' p h4⟩
      · exact h2 r' p h4

theorem tomlMapOrder_alike {α β : Type} {R : List Str × α → List Str × β → Prop} {p : List Str} {m : RMap α} {m' : RMap β}
    (h : AlikeMap R p m m') : AlikeMap R p (tomlMapOrder m) (tomlMapOrder m') :=
  (tomlPlain_alike h).append (tomlOrder_alike.2.2 m m' p h)

theorem filter_alike {α β : Type} {R : List Str × α → List Str × β → Prop} {p : List Str} {m : RMap α} {m' : RMap β} (k : Str)
    (h : AlikeMap R p m m') : AlikeMap R p (m.filter fun e => e.1 != k) (m'.filter fun e => e.1 != k) := by
  induction m generalizing m' with
  | nil =>
    cases m' with
    | nil => exact .nil
    | cons y r => obtain ⟨h, _⟩ := h; simp [shapeMap] at h
  | cons x r ih =>
    cases m' with
    | nil => obtain ⟨h, _⟩ := h; simp [shapeMap] at h
    | cons y r' =>
      obtain ⟨a, t⟩ := x
      obtain ⟨a', t'⟩ := y
      obtain ⟨h1, h2, h3⟩ := AlikeMap.cons_iff.1 h
      subst h1
      rw [List.filter_cons, List.filter_cons]
      simp only
      split
      · exact AlikeMap.cons_iff.2 ⟨rfl, h2, ih h3⟩
      · exact ih h3

theorem sealed_tomlReread {C : Cipher} {rx : RegexMatch} {key : Bytes} {cfg : Option PartialEncryption}
    {m : RMap Value} {m' : RMap EncLeaf} (h : Sealed C rx key cfg m m') :
    Sealed C rx key cfg (tomlReread m) (tomlReread m') := by
  have h' : AlikeMap (StoredAs C rx key cfg) [] m m' := ⟨h.1.symm, h.2⟩
  obtain ⟨h1, h2⟩ := tomlMapOrder_alike (filter_alike sopsKey h')
  exact ⟨h1.symm, h2⟩

theorem mem_leaves_order {α : Type} :
    (∀ t : Tree α, ∀ p pv, pv ∈ leavesAt p (tomlOrder t) → pv ∈ leavesAt p t) ∧
    (∀ l : List (Tree α), ∀ p pv, pv ∈ leavesSeq p (tomlOrderSeq l) → pv ∈ leavesSeq p l) ∧
    (∀ m : RMap α, ∀ p pv, pv ∈ leavesMap p (tomlSections m) ∨ pv ∈ leavesMap p (tomlPlain m) → pv ∈ leavesMap p m) := by
  have happ : ∀ (a b : RMap α) p, leavesMap p (a ++ b) = leavesMap p a ++ leavesMap p b := by
    intro a b p
    induction a with
    | nil => rfl
    | cons x r ih => obtain ⟨k, t⟩ := x; simp only [List.cons_append, leavesMap, ih, List.append_assoc]
  apply Tree.induct
  · intro l ih p pv h
    simp only [tomlOrder] at h
    split at h
    · simp only [leavesAt] at h ⊢; exact ih p pv h
    · exact h
  · intro m ih p pv h
    simp only [tomlOrder, leavesAt, happ, List.mem_append] at h ⊢
    exact ih p pv h.symm
  · intro p pv h; simpa only [tomlOrder] using h
  · intro a p pv h; simpa only [tomlOrder] using h
  · intro p pv h; simpa only [tomlOrderSeq] using h
  · intro t r h1 h2 p pv h
    simp only [tomlOrderSeq, leavesSeq, List.mem_append] at h ⊢
    rcases h with h | h
    · exact .inl (h1 p pv h)
    · exact .inr (h2 p pv h)
  · intro p pv h
    simp only [tomlSections, tomlPlain, or_self] at h
    exact h
  · intro k t r h1 h2 p pv h
    simp only [tomlSections, tomlPlain] at h
    simp only [leavesMap, List.mem_append]
    split at h
    · rcases h with h | h
      · simp only [leavesMap, List.mem_append] at h
        rcases h with h | h
        · exact .inl (h1 _ _ h)
        · exact .inr (h2 _ _ (.inl h))
      · exact .inr (h2 _ _ (.inr h))
    · rcases h with h | h
      · exact .inr (h2 _ _ (.inl h))
      · simp only [leavesMap, List.mem_append] at h
        rcases h with h | h
        · exact .inl h
        · exact .inr (h2 _ _ (.inr h))

theorem mem_leaves_reread {α : Type} {m : RMap α} {pv : List Str × α} (h : pv ∈ leaves (tomlReread m)) : pv ∈ leaves m := by
  have hf : ∀ (m : RMap α) (k : Str), pv ∈ leaves (m.filter fun e => e.1 != k) → pv ∈ leaves m := by
    intro m k h
    unfold leaves at h ⊢
    induction m with
    | nil => exact h
    | cons x r ih =>
      obtain ⟨a, t⟩ := x
      rw [List.filter_cons] at h
      simp only at h
      simp only [leavesMap, List.mem_append]
      split at h
      · simp only [leavesMap, List.mem_append] at h
        exact h.imp_right ih
      · exact .inr (ih h)
  apply hf m sopsKey
  have happ : ∀ (a b : RMap α) p, leavesMap p (a ++ b) = leavesMap p a ++ leavesMap p b := by
    intro a b p
    induction a with
    | nil => rfl
    | cons x r ih => obtain ⟨k, t⟩ := x; simp only [List.cons_append, leavesMap, ih, List.append_assoc]
  unfold tomlReread tomlMapOrder leaves at h
  rw [happ, List.mem_append] at h
  exact mem_leaves_order.2.2 _ _ _ h.symm

theorem fits_tomlReread {fl : FloatOps} {rep : Value → Prop} {cfg : Option PartialEncryption} {m : RMap Value}
    (h : Fits fl rep cfg m) : Fits fl rep cfg (tomlReread m) where
  canonical := fun pv hpv => h.canonical pv (mem_leaves_reread hpv)
  holds := fun pv hpv => h.holds pv (mem_leaves_reread hpv)
  keys := fun hc => (h.keys hc).imp_left fun h pv hpv => h pv (mem_leaves_reread hpv)

end Rops
