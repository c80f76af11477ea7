import Verif.Lemmas.Tamper
import Verif.Props.Values
import Verif.Spec.Changes
/-! Changes of the map of an encrypted file: when they are accepted. -/

namespace Rops
open Spec

theorem itemLeaves_append (a b : List FileItem) : itemLeaves (a ++ b) = itemLeaves a ++ itemLeaves b := by
  simp [itemLeaves]

/-- The values of the items. -/
def itemValues (its : List FileItem) : List (List Str × Value) := its.map fun it => (it.path, it.value)

theorem zip_items {R : List Str × Value → List Str × EncLeaf → Prop} {vs : List (List Str × Value)}
    {ls : List (List Str × EncLeaf)} (h : Zip R vs ls) (hR : ∀ a b, R a b → b.1 = a.1) :
    itemLeaves (List.zipWith (fun pv pl => ⟨pv.1, pl.2, pv.2⟩) vs ls) = ls ∧
    itemValues (List.zipWith (fun pv pl => ⟨pv.1, pl.2, pv.2⟩) vs ls) = vs ∧
    ∀ it ∈ List.zipWith (fun (pv : List Str × Value) (pl : List Str × EncLeaf) => (⟨pv.1, pl.2, pv.2⟩ : FileItem)) vs ls,
      R (it.path, it.value) (it.path, it.leaf) := by
  induction h with
  | nil => exact ⟨rfl, rfl, by simp⟩
  | @cons a b r r' h _ ih =>
    obtain ⟨h1, h2, h3⟩ := ih
    have hp := hR _ _ h
    simp only [itemLeaves, itemValues, List.zipWith_cons_cons, List.map_cons, List.mem_cons, forall_eq_or_imp] at h1 h2 h3 ⊢
    refine ⟨by rw [h1, ← hp], by rw [h2], ?_, h3⟩
    rw [← show b = (a.1, b.2) by rw [← hp]]
    exact h

theorem Spec.Holding.items {env : Env} {F : Format} {rep : Value → Prop} {f : EncFile F} {key : Bytes} {m : RMap Value}
    {m' : RMap EncLeaf} (h : Holding env rep f key m m') :
    itemLeaves (Spec.items m m') = leaves m' ∧ itemValues (Spec.items m m') = leaves m ∧
    ∀ it ∈ Spec.items m m', StoredAs env.C env.rx key f.metadata.partialEncryption (it.path, it.value) (it.path, it.leaf) :=
  zip_items h.sealed.2 fun _ _ h => h.1

theorem coveredBytes_items (rx : RegexMatch) (cfg : Option PartialEncryption) (only : Bool) (its : List FileItem) :
    coveredBytes rx cfg only (itemValues its) = its.flatMap (FileItem.bytes rx cfg only) := by
  induction its with
  | nil => rfl
  | cons it r ih =>
    simp only [itemValues, List.map_cons, List.flatMap_cons] at ih ⊢
    rw [coveredBytes_cons, ih]
    rfl

theorem macInput_items (rx : RegexMatch) (md : Metadata EncValue) {m : RMap Value} {its : List FileItem}
    (h : leaves m = itemValues its) :
    macInput rx md.partialEncryption (md.macOnlyEncrypted.getD false) m = hashedBytes rx md its := by
  rw [macInput_eq_covered, h, coveredBytes_items]
  unfold hashedBytes
  generalize md.macOnlyEncrypted = o
  rcases o with _ | _ | _ <;> rfl

theorem makeable_value {env : Env} (he : EnvLaws env) {F : Format} {rep : Value → Prop} {f : EncFile F} {key : Bytes}
    {m : RMap Value} {m' : RMap EncLeaf} (h : Holding env rep f key m m') {it : FileItem}
    (hm : Makeable env.fl env.rx f.metadata.partialEncryption rep (items m m') it) :
    DecEnv.value { C := env.C, fl := env.fl, key } it.path it.leaf = .ok it.value := by
  rcases hm with ⟨hl, _⟩ | ⟨o, ho, e, t, h1, h2, h3, _, h5⟩
  · rw [hl]; rfl
  · rw [h2]
    obtain ⟨_, ⟨_, hs⟩ | ⟨_, e', he', hs⟩⟩ := h.items.2.2 o ho
    · simp only at hs; rw [h1] at hs; cases hs
    · simp only at he'
      rw [h1] at he'
      cases he'
      show EncValue.decrypt _ _ _ _ _ = _
      unfold EncValue.decrypt
      simp only [h3, he.cipher.decrypt_encrypt hs.1]
      rw [(Props.C05_read_iff env.fl _ t _).2 h5]

theorem decryptsTo_items {env : DecEnv} {its : List FileItem} (h : ∀ it ∈ its, env.value it.path it.leaf = .ok it.value) :
    DecryptsTo env (itemLeaves its) (itemValues its) := by
  induction its with
  | nil => trivial
  | cons it r ih => exact ⟨rfl, h it (by simp), ih fun i hi => h i (by simp [hi])⟩

theorem items_of_decryptsTo {env : DecEnv} {ls : List (List Str × EncLeaf)} {vs : List (List Str × Value)}
    (h : DecryptsTo env ls vs) : ∃ its : List FileItem, itemLeaves its = ls ∧ itemValues its = vs ∧
      ∀ it ∈ its, env.value it.path it.leaf = .ok it.value := by
  induction ls generalizing vs with
  | nil => rcases vs with _ | ⟨x, vs⟩; exact ⟨[], rfl, rfl, by simp⟩; exact h.elim
  | cons x r ih =>
    obtain ⟨p, l⟩ := x
    rcases vs with _ | ⟨⟨q, v⟩, vs⟩
    · exact h.elim
    obtain ⟨rfl, h1, h2⟩ := h
    obtain ⟨its, a, b, c⟩ := ih h2
    refine ⟨⟨p, l, v⟩ :: its, by simp [itemLeaves] at a ⊢; exact a, by simp [itemValues] at b ⊢; exact b, ?_⟩
    intro it hit
    rcases List.mem_cons.1 hit with rfl | hit
    · exact h1
    · exact c it hit

theorem encHolds_makeable {env : Env} {F : Format} {rep : Value → Prop} {f : EncFile F} {key : Bytes}
    {m : RMap Value} {m' m2' : RMap EncLeaf} (h : Holding env rep f key m m') {its : List FileItem}
    (hl : leaves m2' = itemLeaves its)
    (hm : ∀ it ∈ its, Makeable env.fl env.rx f.metadata.partialEncryption rep (items m m') it) :
    EncHolds env.C env.rx f.metadata.partialEncryption rep m2' := by
  unfold EncHolds
  rw [hl]
  constructor
  · intro p e hpe
    obtain ⟨it, hit, he⟩ := List.mem_map.1 hpe
    obtain ⟨rfl, hle⟩ := Prod.mk.inj he
    rcases hm it hit with ⟨hl, _⟩ | ⟨o, ho, e', t, h1, h2, h3, h4, h5⟩
    · simp_all
    · refine ⟨h4, ?_⟩
      obtain ⟨_, ⟨_, hs⟩ | ⟨_, e'', he', hs⟩⟩ := h.items.2.2 o ho
      · simp only at hs; rw [h1] at hs; cases hs
      · simp only at he'
        rw [h1] at he'
        cases he'
        have : e = { e' with variant := t } := by simp_all
        rw [this]
        exact ⟨hs.2.2.1, hs.2.2.2⟩
  · intro p v hpv
    obtain ⟨it, hit, he⟩ := List.mem_map.1 hpv
    rcases hm it hit with ⟨hl, h1, h2⟩ | ⟨o, ho, e', t, h1, h2, _⟩
    · simp_all
    · simp_all

theorem readsAs_of_decrypt {C : Cipher} {fl : FloatOps} {key b : Bytes} {aad : Str} {e : EncValue} {v : Value}
    (h : EncValue.decrypt C fl key aad e = .ok v) (hb : C.decrypt e.nonce key e.data (utf8 aad) e.tag = some b) :
    ReadsAs fl b e.variant v := by
  unfold EncValue.decrypt at h
  rw [hb] at h
  dsimp only at h
  refine (Props.C05_read_iff fl b e.variant v).1 ?_
  cases hfb : Value.fromBytes fl b e.variant with
  | ok w => rw [hfb] at h; cases h; rfl
  | error e => rw [hfb] at h; cases h

/-- The items of a file are among those that can be made. -/
theorem makeable_of_mem {env : Env} (he : EnvLaws env) {F : Format} {rep : Value → Prop} {f : EncFile F} {key : Bytes}
    {m : RMap Value} {m' : RMap EncLeaf} (h : Holding env rep f key m m') {it : FileItem} (hit : it ∈ items m m')
    {q : List Str} (hq : q = it.path) :
    Makeable env.fl env.rx f.metadata.partialEncryption rep (items m m') ⟨q, it.leaf, it.value⟩ := by
  subst hq
  have hs := h.items.2.2 it hit
  have hin : (it.path, it.value) ∈ leaves m := by rw [← h.items.2.1]; exact List.mem_map_of_mem hit
  have hv := (value_of_storedAs (fl := env.fl) he.cipher (h.fits.canonical _ hin) hs).2
  obtain ⟨_, ⟨hp, hl⟩ | ⟨hp, e, hl, hse⟩⟩ := hs
  · exact .inl ⟨hl, hp, h.fits.holds _ hin⟩
  · right
    simp only at hl hp
    rw [hl] at hv
    refine ⟨it, hit, e, e.variant, hl, hl, rfl, hp, ?_⟩
    exact readsAs_of_decrypt hv (he.cipher.decrypt_encrypt hse.1)

theorem hashedBytes_append_cancel {rx : RegexMatch} {md : Metadata EncValue} (A X Y B : List FileItem) :
    hashedBytes rx md (A ++ X ++ B) = hashedBytes rx md (A ++ Y ++ B) ↔
      X.flatMap (FileItem.bytes rx md.partialEncryption (md.macOnlyEncrypted.getD false)) =
        Y.flatMap (FileItem.bytes rx md.partialEncryption (md.macOnlyEncrypted.getD false)) := by
  simp [hashedBytes]

/-- Two words commute exactly when they are repetitions of one word. -/
theorem commute_iff {α : Type} (x y : List α) :
    x ++ y = y ++ x ↔ ∃ (w : List α) (i j : Nat), x = (List.replicate i w).flatten ∧ y = (List.replicate j w).flatten := by
  constructor
  · induction hn : x.length + y.length using Nat.strongRecOn generalizing x y with
    | ind n ih =>
      intro h
      subst hn
      rcases Nat.le_total x.length y.length with hle | hle
      · by_cases hx : x = []
        · subst hx; exact ⟨y, 0, 1, rfl, by simp⟩
        obtain ⟨z, rfl⟩ : ∃ z, y = x ++ z := by
          refine ⟨y.drop x.length, ?_⟩
          have := congrArg (List.take x.length) h
          rw [List.take_left', List.take_append_of_le_length hle] at this
          · conv => lhs; rw [← List.take_append_drop x.length y, ← this]
          · rfl
        have hpos : 0 < x.length := List.length_pos_iff.2 hx
        obtain ⟨w, i, j, e1, e2⟩ := ih (x.length + z.length) (by simp; omega) x z rfl (by
          rw [List.append_assoc] at h
          exact List.append_cancel_left h)
        refine ⟨w, i, i + j, e1, ?_⟩
        rw [← List.replicate_append_replicate, List.flatten_append, ← e1, ← e2]
      · by_cases hy : y = []
        · subst hy; exact ⟨x, 1, 0, by simp, rfl⟩
        obtain ⟨z, rfl⟩ : ∃ z, x = y ++ z := by
          refine ⟨x.drop y.length, ?_⟩
          have := congrArg (List.take y.length) h
          rw [List.take_append_of_le_length hle, List.take_left'] at this
          · conv => lhs; rw [← List.take_append_drop y.length x, this]
          · rfl
        have hpos : 0 < y.length := List.length_pos_iff.2 hy
        obtain ⟨w, i, j, e1, e2⟩ := ih (z.length + y.length) (by simp; omega) z y rfl (by
          rw [List.append_assoc] at h
          exact List.append_cancel_left h)
        refine ⟨w, j + i, j, ?_, e2⟩
        rw [← List.replicate_append_replicate, List.flatten_append, ← e1, ← e2]
  · rintro ⟨w, i, j, rfl, rfl⟩
    rw [← List.flatten_append, ← List.flatten_append, List.replicate_append_replicate, List.replicate_append_replicate, Nat.add_comm]

/-- Words of one positive length are told apart in their concatenation. -/
theorem flatten_eq_of_length {α : Type} {n : Nat} (hn : 0 < n) : ∀ {xs ys : List (List α)},
    (∀ x ∈ xs, x.length = n) → (∀ y ∈ ys, y.length = n) → (xs.flatten = ys.flatten ↔ xs = ys)
  | [], [], _, _ => by simp
  | [], y :: ys, _, hy => by
    have := hy y (by simp)
    constructor
    · intro h; have := congrArg List.length h; simp only [List.flatten_nil, List.length_nil, List.flatten_cons, List.length_append] at this; omega
    · intro h; cases h
  | x :: xs, [], hx, _ => by
    have := hx x (by simp)
    constructor
    · intro h; have := congrArg List.length h; simp only [List.flatten_nil, List.length_nil, List.flatten_cons, List.length_append] at this; omega
    · intro h; cases h
  | x :: xs, y :: ys, hx, hy => by
    have h1 := hx x (by simp)
    have h2 := hy y (by simp)
    have ih := flatten_eq_of_length hn (xs := xs) (ys := ys) (fun a ha => hx a (by simp [ha])) (fun a ha => hy a (by simp [ha]))
    constructor
    · intro h
      rw [List.flatten_cons, List.flatten_cons] at h
      obtain ⟨e1, e2⟩ := List.append_inj h (by omega)
      rw [e1, ih.1 e2]
    · intro h; rw [h]

theorem utf8_eq_nil {s : Str} (h : utf8 s = []) : s = [] :=
  utf8_injective (h.trans (show [] = utf8 [] from rfl))

theorem plainBytes_nil {fl : FloatOps} (hfl : fl.reprint [] = none) {v : Value} (hv : v.Canonical fl) :
    plainBytes v = [] ↔ v = .string [] := by
  constructor
  · intro h
    cases v with
    | string s => cases utf8_eq_nil h; rfl
    | boolean b => cases b <;> exact absurd h (by decide)
    | integer i =>
      rw [← Value.asBytes_eq] at h
      have h := utf8_eq_nil h
      have := parseInt_showInt i
      rw [h, show parseInt [] = none from rfl] at this
      cases this
    | float t =>
      cases utf8_eq_nil h
      have : fl.reprint [] = some [] := hv
      rw [hfl] at this
      cases this
  · rintro rfl; rfl

theorem item_bytes_nil {fl : FloatOps} (hfl : fl.reprint [] = none) {rx : RegexMatch} {cfg : Option PartialEncryption}
    {only : Option Bool} {x : FileItem} (hx : x.value.Canonical fl) :
    FileItem.bytes rx cfg (only.getD false) x = [] ↔ x.value = .string [] ∨ only = some true ∧ Plain rx cfg x.path := by
  unfold FileItem.bytes
  have ho : only.getD false = true ↔ only = some true := by rcases only with _ | _ | _ <;> simp
  simp only [ho]
  split
  · simp_all
  · rename_i hn
    rw [plainBytes_nil hfl hx]
    simp [hn]

end Rops
