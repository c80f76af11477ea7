import Verif.Spec.JsonFiles
import Verif.Lemmas.JsonKeys
import Verif.Lemmas.Tamper
import Verif.Lemmas.CliHistory
import Verif.Lemmas.Twice
/-!
# Encrypted JSON files are read from their texts
-/

namespace Rops
open Spec

/-! ## Shapes -/

theorem shape_nesting {α : Type} :
    (∀ t : Tree α, nesting (shape t) = nesting t) ∧
    (∀ l : List (Tree α), nestingSeq (shapeSeq l) = nestingSeq l) ∧
    (∀ m : RMap α, nestingMap (shapeMap m) = nestingMap m) := by
  apply Tree.induct
  · intro l ih; simp only [shape, nesting, ih]
  · intro m ih; simp only [shape, nesting, ih]
  · rfl
  · intro a; rfl
  · rfl
  · intro t r h1 h2; simp only [shapeSeq, nestingSeq, h1, h2]
  · rfl
  · intro k t r h1 h2; simp only [shapeMap, nestingMap, h1, h2]

theorem shapeMap_keys {α : Type} (m : RMap α) : (shapeMap m).map Prod.fst = m.map Prod.fst := by
  induction m with
  | nil => rfl
  | cons e r ih =>
    obtain ⟨k, t⟩ := e
    simp only [shapeMap, List.map_cons, ih]

theorem shape_distinct {α : Type} :
    (∀ t : Tree α, DistinctKeys (shape t) ↔ DistinctKeys t) ∧
    (∀ l : List (Tree α), DistinctKeysSeq (shapeSeq l) ↔ DistinctKeysSeq l) ∧
    (∀ m : RMap α, DistinctKeysMap (shapeMap m) ↔ DistinctKeysMap m) := by
  apply Tree.induct
  · intro l ih; simp only [shape, DistinctKeys, ih]
  · intro m ih; simp only [shape, DistinctKeys, ih, shapeMap_keys]
  · simp only [shape, DistinctKeys]
  · intro a; simp only [shape, DistinctKeys]
  · simp only [shapeSeq, DistinctKeysSeq]
  · intro t r h1 h2; simp only [shapeSeq, DistinctKeysSeq, h1, h2]
  · simp only [shapeMap, DistinctKeysMap]
  · intro k t r h1 h2; simp only [shapeMap, DistinctKeysMap, h1, h2]

/-- Entries of maps of the same shape have the same keys and shapes. -/
theorem entry_of_shape {α β : Type} {m : RMap α} {m' : RMap β} (h : shapeMap m' = shapeMap m) {e : Str × Tree β} (he : e ∈ m') :
    ∃ t, (e.1, t) ∈ m ∧ shape e.2 = shape t := by
  induction m generalizing m' with
  | nil =>
    cases m' with
    | nil => cases he
    | cons e' r => obtain ⟨k, t⟩ := e'; simp only [shapeMap] at h; cases h
  | cons a r ih =>
    obtain ⟨k, t⟩ := a
    cases m' with
    | nil => cases he
    | cons e' r' =>
      obtain ⟨k', t'⟩ := e'
      simp only [shapeMap, List.cons.injEq, Prod.mk.injEq] at h
      rcases List.mem_cons.1 he with rfl | he
      · exact ⟨t, by simp [h.1.1], h.1.2⟩
      · obtain ⟨t2, h1, h2⟩ := ih h.2 he
        exact ⟨t2, .tail _ h1, h2⟩

/-! ## Converted trees -/

theorem mapM_zip {α β : Type} {f : α → Option β} :
    (∀ t : Tree α, ∀ z, Tree.mapM f t = some z → shape z = shape t ∧
      ∀ p, Zip (fun a b => b.1 = a.1 ∧ f a.2 = some b.2) (leavesAt p t) (leavesAt p z)) ∧
    (∀ l : List (Tree α), ∀ z, Tree.mapSeqM f l = some z → shapeSeq z = shapeSeq l ∧
      ∀ p, Zip (fun a b => b.1 = a.1 ∧ f a.2 = some b.2) (leavesSeq p l) (leavesSeq p z)) ∧
    (∀ m : RMap α, ∀ z, Tree.mapMapM f m = some z → shapeMap z = shapeMap m ∧
      ∀ p, Zip (fun a b => b.1 = a.1 ∧ f a.2 = some b.2) (leavesMap p m) (leavesMap p z)) := by
  apply Tree.induct
  · intro l ih z h
    simp only [Tree.mapM] at h
    split at h
    · rename_i l' hl
      cases h
      obtain ⟨a, b⟩ := ih l' hl
      exact ⟨by simp only [shape, a], fun p => by simp only [leavesAt]; exact b p⟩
    · cases h
  · intro m ih z h
    simp only [Tree.mapM] at h
    split at h
    · rename_i l' hl
      cases h
      obtain ⟨a, b⟩ := ih l' hl
      exact ⟨by simp only [shape, a], fun p => by simp only [leavesAt]; exact b p⟩
    · cases h
  · intro z h
    simp only [Tree.mapM, Option.some.injEq] at h
    subst h
    exact ⟨rfl, fun p => .nil⟩
  · intro a z h
    simp only [Tree.mapM] at h
    split at h
    · rename_i b hb
      cases h
      exact ⟨rfl, fun p => .cons ⟨rfl, hb⟩ .nil⟩
    · cases h
  · intro z h
    simp only [Tree.mapSeqM, Option.some.injEq] at h
    subst h
    exact ⟨rfl, fun p => .nil⟩
  · intro t r h1 h2 z h
    simp only [Tree.mapSeqM] at h
    split at h
    · rename_i t' ht
      split at h
      · rename_i r' hr
        cases h
        obtain ⟨a, b⟩ := h1 t' ht
        obtain ⟨c, d⟩ := h2 r' hr
        exact ⟨by simp only [shapeSeq, a, c], fun p => by simp only [leavesSeq]; exact (b p).append (d p)⟩
      · cases h
    · cases h
  · intro z h
    simp only [Tree.mapMapM, Option.some.injEq] at h
    subst h
    exact ⟨rfl, fun p => .nil⟩
  · intro k t r h1 h2 z h
    simp only [Tree.mapMapM] at h
    split at h
    · rename_i t' ht
      split at h
      · rename_i r' hr
        cases h
        obtain ⟨a, b⟩ := h1 t' ht
        obtain ⟨c, d⟩ := h2 r' hr
        exact ⟨by simp only [shapeMap, a, c], fun p => by simp only [leavesMap]; exact (b _).append (d p)⟩
      · cases h
    · cases h

theorem Json.to_zip :
    (∀ t : Json, ∀ z, Json.toTree t = .ok z → shape z = shape t ∧
      ∀ p, Zip (fun a b => b.1 = a.1 ∧ a.2.toInternal = .ok b.2) (leavesAt p t) (leavesAt p z)) ∧
    (∀ l : List Json, ∀ z, Json.toSeq l = .ok z → shapeSeq z = shapeSeq l ∧
      ∀ p, Zip (fun a b => b.1 = a.1 ∧ a.2.toInternal = .ok b.2) (leavesSeq p l) (leavesSeq p z)) ∧
    (∀ m : List (Str × Json), ∀ z, Json.toMap m = .ok z → shapeMap z = shapeMap m ∧
      ∀ p, Zip (fun a b => b.1 = a.1 ∧ a.2.toInternal = .ok b.2) (leavesMap p m) (leavesMap p z)) := by
  apply Tree.induct
  · intro l ih z h
    simp only [Json.toTree] at h
    split at h
    · rename_i l' hl
      cases h
      obtain ⟨a, b⟩ := ih l' hl
      exact ⟨by simp only [shape, a], fun p => by simp only [leavesAt]; exact b p⟩
    · cases h
  · intro m ih z h
    simp only [Json.toTree] at h
    split at h
    · rename_i l' hl
      cases h
      obtain ⟨a, b⟩ := ih l' hl
      exact ⟨by simp only [shape, a], fun p => by simp only [leavesAt]; exact b p⟩
    · cases h
  · intro z h
    simp only [Json.toTree, Except.ok.injEq] at h
    subst h
    exact ⟨rfl, fun p => .nil⟩
  · intro a z h
    simp only [Json.toTree] at h
    split at h
    · rename_i b hb
      cases h
      exact ⟨rfl, fun p => .cons ⟨rfl, hb⟩ .nil⟩
    · cases h
  · intro z h
    simp only [Json.toSeq, Except.ok.injEq] at h
    subst h
    exact ⟨rfl, fun p => .nil⟩
  · intro t r h1 h2 z h
    simp only [Json.toSeq] at h
    split at h
    · rename_i t' ht
      split at h
      · rename_i r' hr
        cases h
        obtain ⟨a, b⟩ := h1 t' ht
        obtain ⟨c, d⟩ := h2 r' hr
        exact ⟨by simp only [shapeSeq, a, c], fun p => by simp only [leavesSeq]; exact (b p).append (d p)⟩
      · cases h
    · cases h
  · intro z h
    simp only [Json.toMap, Except.ok.injEq] at h
    subst h
    exact ⟨rfl, fun p => .nil⟩
  · intro k t r h1 h2 z h
    simp only [Json.toMap] at h
    split at h
    · rename_i t' ht
      split at h
      · rename_i r' hr
        cases h
        obtain ⟨a, b⟩ := h1 t' ht
        obtain ⟨c, d⟩ := h2 r' hr
        exact ⟨by simp only [shapeMap, a, c], fun p => by simp only [leavesMap]; exact (b _).append (d p)⟩
      · cases h
    · cases h

theorem Spec.Zip.left {α β : Type} {R : α → β → Prop} {l : List α} {r : List β} (h : Zip R l r) {b : β} (hb : b ∈ r) :
    ∃ a ∈ l, R a b := by
  induction h with
  | nil => cases hb
  | cons h _ ih =>
    rcases List.mem_cons.1 hb with rfl | hb
    · exact ⟨_, .head _, h⟩
    · obtain ⟨a, ha, hr⟩ := ih hb
      exact ⟨a, .tail _ ha, hr⟩

theorem Spec.Zip.comp {α β γ : Type} {R : α → β → Prop} {S : β → γ → Prop} {l : List α} {r : List β} {t : List γ} (h : Zip R l r)
    (h' : Zip S r t) : Zip (fun a c => ∃ b, R a b ∧ S b c) l t := by
  induction h generalizing t with
  | nil => cases h'; exact .nil
  | cons h _ ih =>
    cases h' with
    | cons h1 h2 => exact .cons ⟨_, h, h1⟩ (ih h2)

/-- A scalar of a document that was read is written as it was. -/
theorem JsonScalar.written_back {J : JsonFloats} {a b : JsonScalar} {v : Value} (ha : ScalarKept J a) (h : a.toInternal = .ok v)
    (h' : JsonScalar.ofInternal v = some b) : b = a := by
  match a, ha with
  | .bool x, _ => cases h; cases h'; rfl
  | .str x, _ => cases h; cases h'; rfl
  | .num (.float s), _ =>
    cases h
    simp only [JsonScalar.ofInternal] at h'
    split at h'
    · cases h'; rfl
    · cases h'
  | .num (.negInt i), ha =>
    cases h
    have ha : i.toInt < 0 := ha
    simp only [JsonScalar.ofInternal, Number.ofI64, Option.some.injEq] at h'
    rw [if_neg (by omega)] at h'
    exact h'.symm
  | .num (.posInt u), _ =>
    simp only [JsonScalar.toInternal, Number.toInternal] at h
    split at h
    · rename_i i hi
      cases h
      simp only [JsonScalar.ofInternal, Option.some.injEq] at h'
      rw [← h']
      congr 1
      simp only [Number.asI64] at hi
      split at hi
      · rename_i hu
        cases hi
        unfold Number.ofI64
        rw [Int64.toInt_ofNat_of_lt hu, if_pos (by omega), Int.toNat_natCast]
        simp
      · cases hi
    · cases h

/-! ## Metadata -/

/-- Texts and Booleans only. -/
def PlainScalar : JsonScalar → Prop
  | .num _ => False
  | _ => True

/-- A value with texts and Booleans only. -/
def PlainTree (t : Json) : Prop := AllScalars PlainScalar t

theorem plainTree_text (s : Str) : PlainTree (Json.text s) := by
  intro p pv hp
  simp only [Json.text, leavesAt, List.mem_singleton] at hp
  subst hp
  trivial

theorem plainTree_map {m : RMap JsonScalar} (h : ∀ e ∈ m, PlainTree e.2) : PlainTree (.map m) := by
  intro p pv hp
  simp only [leavesAt] at hp
  obtain ⟨e, he, hpe⟩ := mem_leavesMap.1 hp
  exact h e he _ pv hpe

theorem plainTree_seq {l : List Json} (h : ∀ t ∈ l, PlainTree t) : PlainTree (.seq l) := by
  intro p pv hp
  simp only [leavesAt] at hp
  induction l with
  | nil => simp only [leavesSeq] at hp; cases hp
  | cons t r ih =>
    simp only [leavesSeq, List.mem_append] at hp
    rcases hp with hp | hp
    · exact h t (.head _) p pv hp
    · exact ih (fun t ht => h t (.tail _ ht)) hp

theorem nestingSeq_le {α : Type} {l : List (Tree α)} {n : Nat} : nestingSeq l ≤ n ↔ ∀ t ∈ l, nesting t ≤ n := by
  induction l with
  | nil => simp [nestingSeq]
  | cons t r ih => simp only [nestingSeq, Nat.max_le, ih, List.forall_mem_cons]

theorem unit_entries {k : Kind} (u : IUnit k) : ∀ e ∈ u.toDoc, ∃ s, e.2 = Json.text s := by
  intro e he
  unfold IUnit.toDoc at he
  rw [List.mem_append, List.mem_append] at he
  rcases he with (he | he) | he
  · cases k with
    | age => simp only [keyIdToDoc, List.mem_singleton] at he; subst he; exact ⟨_, rfl⟩
    | kms =>
      simp only [keyIdToDoc, List.mem_cons, List.not_mem_nil, or_false] at he
      rcases he with rfl | rfl <;> exact ⟨_, rfl⟩
  · split at he
    · simp only [List.mem_singleton] at he; subst he; exact ⟨_, rfl⟩
    · cases he
  · simp only [List.mem_singleton] at he; subst he; exact ⟨_, rfl⟩

theorem units_entries {k : Kind} {name : Str} {us : Units k} : ∀ e ∈ unitsField name us, PlainTree e.2 ∧ nesting e.2 ≤ 2 := by
  intro e he
  unfold unitsField at he
  split at he
  · cases he
  · simp only [List.mem_singleton] at he
    subst he
    unfold Units.toDoc
    constructor
    · refine plainTree_seq fun t ht => ?_
      obtain ⟨u, _, rfl⟩ := List.mem_map.1 ht
      refine plainTree_map fun e he => ?_
      obtain ⟨s, hs⟩ := unit_entries u e he
      rw [hs]
      exact plainTree_text s
    · simp only [nesting]
      refine Nat.succ_le_succ (nestingSeq_le.2 fun t ht => ?_)
      obtain ⟨u, _, rfl⟩ := List.mem_map.1 ht
      simp only [nesting]
      refine Nat.succ_le_succ (nestingMap_le.2 fun e he => ?_)
      obtain ⟨s, hs⟩ := unit_entries u e he
      rw [hs]
      exact Nat.le_refl _

theorem metadata_entries {M : Type} {showMac : M → Str} {md : Metadata M} :
    ∀ e ∈ md.toDoc showMac, PlainTree e.2 ∧ nesting e.2 ≤ 2 := by
  intro e he
  have text : ∀ {e : Str × Json} s, e.2 = Json.text s → PlainTree e.2 ∧ nesting e.2 ≤ 2 := fun {e} s h => by
    rw [h]; exact ⟨plainTree_text s, Nat.zero_le _⟩
  unfold Metadata.toDoc at he
  simp only [List.mem_append] at he
  rcases he with (((he | he) | he) | he) | he
  · exact units_entries e he
  · exact units_entries e he
  · simp only [List.mem_cons, List.not_mem_nil, or_false] at he
    rcases he with rfl | rfl <;> exact text _ rfl
  · split at he
    · rename_i p _
      simp only [List.mem_singleton] at he
      subst he
      cases p <;> exact text _ rfl
    · cases he
  · split at he
    · simp only [List.mem_singleton] at he
      subst he
      refine ⟨fun p pv hp => ?_, Nat.zero_le _⟩
      simp only [leavesAt, List.mem_singleton] at hp
      subst hp
      trivial
    · cases he

/-! ## Files -/

/-- See `kept_of_standsFor`. -/
theorem kept_with_metadata {J : JsonFloats} {C : Cipher} {d : List (Str × Json)} (hk : JsonKept J d) {m : RMap Value}
    (hm : Json.toMap d = .ok m) {m' : RMap EncLeaf} (hs : StandsFor m m') {fm : List (Str × Json)} {md : RMap JsonScalar}
    (hf : Tree.mapMapM (JsonScalar.encOfInternal C) m' = some fm) (hmd : ∀ e ∈ md, PlainTree e.2 ∧ nesting e.2 ≤ 2) :
    JsonKept J (fm ++ [(c!"sops", .map md)]) := by
  obtain ⟨a1, a2⟩ := Json.to_zip.2.2 d m hm
  obtain ⟨b1, b2⟩ := mapM_zip.2.2 m' fm hf
  obtain ⟨c1, c2⟩ := hs
  have hsh : shapeMap fm = shapeMap d := b1.trans (c1.trans a1)
  have hz := ((a2 []).comp c2).comp (b2 [])
  refine ⟨?_, fun pv hp => ?_, ?_, fun e he hne => ?_⟩
  · refine Nat.lt_succ_of_le (nestingMap_le.2 fun e he => ?_)
    rcases List.mem_append.1 he with he | he
    · have h1 := shape_nesting.2.2 fm
      rw [hsh, shape_nesting.2.2] at h1
      exact nestingMap_le.1 (by have := hk.depth; omega) e he
    · simp only [List.mem_singleton] at he
      subst he
      simp only [nesting]
      have : nestingMap md ≤ 2 := nestingMap_le.2 fun e he => (hmd e he).2
      omega
  · obtain ⟨e, he, hpe⟩ := mem_leavesMap.1 hp
    rcases List.mem_append.1 he with he | he
    · obtain ⟨a, ha, b, ⟨c, ⟨_, h1⟩, _, h2⟩, _, h3⟩ := hz.left (mem_leavesMap.2 ⟨e, he, hpe⟩)
      have hka := hk.scalars a ha
      rcases h2 with h2 | ⟨e, h2⟩
      · rw [h2] at h3
        rw [JsonScalar.written_back hka h1 h3]
        exact hka
      · rw [h2] at h3
        rw [← Option.some.inj h3]
        trivial
    · simp only [List.mem_singleton] at he
      subst he
      have := plainTree_map (fun e he => (hmd e he).1) _ pv hpe
      obtain ⟨p, v⟩ := pv
      match v, this with
      | .bool _, _ => trivial
      | .str _, _ => trivial
  · have hkeys := shapeMap_keys fm
    rw [hsh, shapeMap_keys] at hkeys
    rw [List.map_append, ← hkeys, List.filter_append]
    simpa using hk.keys
  · rcases List.mem_append.1 he with he | he
    · obtain ⟨t, h1, h2⟩ := entry_of_shape hsh he
      have := hk.inner _ h1 hne
      rw [← shape_distinct.1, ← h2, shape_distinct.1] at this
      exact this
    · simp only [List.mem_singleton] at he
      subst he
      exact absurd rfl hne

/-- The document of an encrypted file for a document that is kept is kept. -/
theorem kept_of_standsFor {J : JsonFloats} {C : Cipher} {d : List (Str × Json)} (hk : JsonKept J d) {m : RMap Value}
    (hm : Json.toMap d = .ok m) {m' : RMap EncLeaf} (hs : StandsFor m m') {f : EncFile Format.json}
    (hf : Format.json.encOfInternal C m' = some f.map) : JsonKept J (f.toDoc .json C) :=
  kept_with_metadata hk hm hs hf metadata_entries

theorem readBack_of_kept {J : JsonFloats} {C : Cipher} {d : List (Str × Json)} (hk : JsonKept J d) {m : RMap Value}
    (hm : Json.toMap d = .ok m) (s : Str) : ReadBack C .json J.ops m s := fun f m' hs hf hd => by
  rw [hd]
  exact parse_render_kept (kept_of_standsFor hk hm hs hf)

/-- What is written for the values of a document that is kept is this document. -/
theorem ofInternal_of_kept {J : JsonFloats} {d : List (Str × Json)} (hk : JsonKept J d) {m : RMap Value}
    (hm : Json.toMap d = .ok m) {d' : List (Str × Json)} (h : Format.json.ofInternal m = some d') : d' = d := by
  obtain ⟨a1, a2⟩ := Json.to_zip.2.2 d m hm
  obtain ⟨b1, b2⟩ := mapM_zip.2.2 m d' h
  refine ext_of_shape_leaves.2.2 d' d [] (b1.trans a1) ?_
  have hz := (a2 []).comp (b2 [])
  have hs : ∀ pv ∈ leavesMap [] d, ScalarKept J pv.2 := hk.scalars
  revert hz hs
  generalize leavesMap [] d = l
  generalize leavesMap [] d' = l'
  intro hz hs
  induction hz with
  | nil => rfl
  | cons h _ ih =>
    rename_i a c _ _ _
    obtain ⟨b, ⟨h1, h2⟩, h3, h4⟩ := h
    rw [ih fun pv hp => hs pv (.tail _ hp)]
    congr 1
    exact Prod.ext (h3.trans h1) (JsonScalar.written_back (hs _ (.head _)) h2 h4)

theorem portable_kept {J : JsonFloats} {s : Str} {d : List (Str × Json)} (hp : J.ops.parse s = some d) (h : Portable J d) :
    JsonKept J d := kept_of_parse hp h.floats

theorem portable_keepable {J : JsonFloats} {fl : FloatOps} (hJ : JsonFloatLaws J fl) {s : Str} {d : List (Str × Json)}
    (hp : J.ops.parse s = some d) (h : Portable J d) {m : RMap Value} (hm : Json.toMap d = .ok m) : Keepable fl .json m := by
  obtain ⟨a1, a2⟩ := Json.to_zip.2.2 d m hm
  have hfl : ∀ pv ∈ leaves d, ∀ f, pv.2 = .num (.float f) → fl.Canonical f ∧ f ≠ c!"inf" ∧ f ≠ c!"-inf" ∧ f ≠ c!"NaN" :=
    parsed_scalars (P := fun v => ∀ f, v = .num (.float f) → fl.Canonical f ∧ f ≠ c!"inf" ∧ f ≠ c!"-inf" ∧ f ≠ c!"NaN") (fun _ _ h => nomatch h) (fun _ _ h => nomatch h)
      (fun x n hx f hf => by
        cases hf
        exact hJ _ _ hx) hp
  have hv : ∀ pv ∈ leaves m, pv.2.Canonical fl ∧ jsonRep pv.2 := by
    intro pv hpv
    obtain ⟨a, ha, h1, h2⟩ := (a2 []).left hpv
    obtain ⟨p, v⟩ := pv
    cases v with
    | float f =>
      have e : a.2 = .num (.float f) := by
        obtain ⟨_, a⟩ := a
        match a, h2 with
        | .num (.float f), h2 => cases h2; rfl
        | .num (.posInt u), h2 =>
          simp only [JsonScalar.toInternal, Number.toInternal] at h2
          split at h2 <;> cases h2
      exact hfl a ha f e
    | string s => exact ⟨trivial, trivial⟩
    | boolean b => exact ⟨trivial, trivial⟩
    | integer i => exact ⟨trivial, trivial⟩
  refine ⟨fun p => ⟨fun pv h => (hv pv h).1, fun pv h => (hv pv h).2, fun _ => .inl fun pv hpv k hk => ?_⟩, ?_, fun h => nomatch h⟩
  · obtain ⟨a, ha, h1, _⟩ := (a2 []).left hpv
    rw [h1] at hk
    exact h.colon a ha k hk
  · have := Json.topKeys_toMap hm
    rw [this]
    exact h.sops

theorem edited_internal {P : Proc} {x : Fmt} {path : Str} {a : InputArgs} {i : Nat} {s s' : Str}
    (hr : Ran P.env P.O P.T x path P (.edit a) i s s') {other : x.doc.F.Map} (hed : Edited (P.T x).parse other P.editor) :
    ∃ m, x.doc.F.toInternal other = .ok m := by
  obtain ⟨es, h, ha⟩ := hr.run
  obtain ⟨ht, hterm⟩ := edit_target hr.target
  have hx := hr.format
  obtain ⟨_, x', s1, f0, g, p, hx', hs, hf, h1, hses⟩ := run_edit_ok.1 h
  rw [ht] at hx' hs
  rw [show givenFormat (.edit a) = a.format from rfl, hx'] at hx
  cases hx
  have hsnd := editSession_snd (map := g.map) (fun t => editLoop_edited (t := t) hed)
  rcases hses with hses | ⟨mm, out, es1, es2, hses, hout, rfl, hd⟩
  · exfalso
    rcases hsnd with he | ⟨e, he, _⟩
    · rw [hses] at he; simp at he
    · rw [hses] at he; simp at he
  · have hmm : mm = other := by
      rcases hsnd with he | ⟨e, he, _⟩
      · rw [hses] at he; simpa using he
      · rw [hses] at he; simp at he
    subst hmm
    unfold Proc.editedText at hout
    split at hout
    · cases hout
    · rename_i g' hset
      unfold DecFile.setMap at hset
      cases ho : x.doc.F.toInternal mm with
      | ok m => exact ⟨m, rfl⟩
      | error e => simp only [ho] at hset; cases hset

theorem edited_parsed {α : Type} {parse : Str → Option α} {d : α} {l : List Attempt} (h : Edited parse d l) :
    ∃ s, parse s = some d := by
  induction h with
  | now _ hp => exact ⟨_, hp⟩
  | again _ _ _ ih => exact ih

end Rops
