import Verif.Spec.Reread
import Verif.Lemmas.JsonFiles
/-!
# What is read from the text of a JSON file
-/

namespace Rops
open Spec

mutual
/-- The tree with other leaves. -/
def Tree.relabel {α β : Type} (g : α → β) : Tree α → Tree β
  | .seq l => .seq (Tree.relabelSeq g l)
  | .map m => .map (Tree.relabelMap g m)
  | .null => .null
  | .leaf a => .leaf (g a)
/-- See `Tree.relabel`. -/
def Tree.relabelSeq {α β : Type} (g : α → β) : List (Tree α) → List (Tree β)
  | [] => []
  | t :: r => Tree.relabel g t :: Tree.relabelSeq g r
/-- See `Tree.relabel`. -/
def Tree.relabelMap {α β : Type} (g : α → β) : RMap α → RMap β
  | [] => []
  | (k, t) :: r => (k, Tree.relabel g t) :: Tree.relabelMap g r
end

theorem relabel_shape {α β : Type} (g : α → β) :
    (∀ t : Tree α, shape (t.relabel g) = shape t) ∧
    (∀ l : List (Tree α), shapeSeq (Tree.relabelSeq g l) = shapeSeq l) ∧
    (∀ m : RMap α, shapeMap (Tree.relabelMap g m) = shapeMap m) := by
  apply Tree.induct
  · intro l ih; simp only [Tree.relabel, shape, ih]
  · intro m ih; simp only [Tree.relabel, shape, ih]
  · rfl
  · intro a; rfl
  · rfl
  · intro t r h1 h2; simp only [Tree.relabelSeq, shapeSeq, h1, h2]
  · rfl
  · intro k t r h1 h2; simp only [Tree.relabelMap, shapeMap, h1, h2]

theorem relabel_leaves {α β : Type} (g : α → β) :
    (∀ t : Tree α, ∀ p, leavesAt p (t.relabel g) = (leavesAt p t).map fun pv => (pv.1, g pv.2)) ∧
    (∀ l : List (Tree α), ∀ p, leavesSeq p (Tree.relabelSeq g l) = (leavesSeq p l).map fun pv => (pv.1, g pv.2)) ∧
    (∀ m : RMap α, ∀ p, leavesMap p (Tree.relabelMap g m) = (leavesMap p m).map fun pv => (pv.1, g pv.2)) := by
  apply Tree.induct
  · intro l ih p; simp only [Tree.relabel, leavesAt, ih]
  · intro m ih p; simp only [Tree.relabel, leavesAt, ih]
  · intro p; rfl
  · intro a p; rfl
  · intro p; rfl
  · intro t r h1 h2 p; simp only [Tree.relabelSeq, leavesSeq, h1, h2, List.map_append]
  · intro p; rfl
  · intro k t r h1 h2 p; simp only [Tree.relabelMap, leavesMap, h1, h2, List.map_append]

theorem relabelMap_append {α β : Type} (g : α → β) (a b : RMap α) :
    Tree.relabelMap g (a ++ b) = Tree.relabelMap g a ++ Tree.relabelMap g b := by
  induction a with
  | nil => rfl
  | cons e r ih =>
    obtain ⟨k, t⟩ := e
    simp only [List.cons_append, Tree.relabelMap, ih]

theorem relabel_keys {α β : Type} (g : α → β) (m : RMap α) : (Tree.relabelMap g m).map Prod.fst = m.map Prod.fst := by
  rw [← shapeMap_keys, (relabel_shape g).2.2, shapeMap_keys]

theorem relabel_id {α : Type} {g : α → α} {m : RMap α} (h : ∀ pv ∈ leaves m, g pv.2 = pv.2) : Tree.relabelMap g m = m := by
  refine ext_of_shape_leaves.2.2 _ _ [] ((relabel_shape g).2.2 m) ?_
  rw [(relabel_leaves g).2.2]
  conv => rhs; rw [← List.map_id (leavesMap [] m)]
  exact List.map_congr_left fun pv hp => Prod.ext rfl (h pv hp)

theorem relabel_isEmpty {α β : Type} (g : α → β) (m : RMap α) : (Tree.relabelMap g m = []) ↔ m = [] := by
  cases m with
  | nil => exact ⟨fun _ => rfl, fun _ => rfl⟩
  | cons e r => obtain ⟨k, t⟩ := e; simp [Tree.relabelMap]

theorem relabelSeq_isEmpty {α β : Type} (g : α → β) (l : List (Tree α)) : (Tree.relabelSeq g l = []) ↔ l = [] := by
  cases l with
  | nil => exact ⟨fun _ => rfl, fun _ => rfl⟩
  | cons e r => simp [Tree.relabelSeq]

/-- What the writer gives is a text of a value with other leaves, if these have the texts of the leaves. -/
theorem pretty_relabel (J : JsonFloats) (g : JsonScalar → JsonScalar) :
    (∀ t : Json, ∀ p n, (∀ pv ∈ leavesAt p t, JsonText J (.leaf (g pv.2)) (pv.2.text J)) →
      JsonText J (t.relabel g) (Json.pretty J n t)) ∧
    (∀ l : List Json, ∀ p n w, (∀ pv ∈ leavesSeq p l, JsonText J (.leaf (g pv.2)) (pv.2.text J)) → JsonWs w → l ≠ [] →
      JsonElems J (Tree.relabelSeq g l) (Json.prettySeq J n true l ++ w)) ∧
    (∀ m : List (Str × Json), ∀ p n w, (∀ pv ∈ leavesMap p m, JsonText J (.leaf (g pv.2)) (pv.2.text J)) → JsonWs w → m ≠ [] →
      JsonMembers J (Tree.relabelMap g m) (Json.prettyMap J n true m ++ w)) := by
  apply Tree.induct
  · intro l ih p n h
    simp only [leavesAt] at h
    simp only [Tree.relabel, JsonText, Json.pretty]
    cases l with
    | nil => exact ⟨[], by simp only [Tree.relabelSeq, JsonElems]; exact jsonWs_nil, by simp [Json.prettySeq]⟩
    | cons t r => exact ⟨_, ih p (n + 1) (jsonLine n) h (jsonLine_ws n) (by simp), by simp⟩
  · intro m ih p n h
    simp only [leavesAt] at h
    simp only [Tree.relabel, JsonText, Json.pretty]
    cases m with
    | nil => exact ⟨[], by simp only [Tree.relabelMap, JsonMembers]; exact jsonWs_nil, by simp [Json.prettyMap]⟩
    | cons t r => exact ⟨_, ih p (n + 1) (jsonLine n) h (jsonLine_ws n) (by simp), by simp⟩
  · intro p n h
    simp only [Tree.relabel, JsonText, Json.pretty]
  · intro a p n h
    simp only [leavesAt] at h
    simp only [Tree.relabel, Json.pretty]
    exact h _ (.head _)
  · intro p n w h hw hne
    exact absurd rfl hne
  · intro t r h1 h2 p n w h hw _
    simp only [leavesSeq] at h
    have a := h1 p n fun pv hp => h pv (List.mem_append_left _ hp)
    have b := fun pv hp => h pv (List.mem_append_right _ hp)
    simp only [Tree.relabelSeq, JsonElems]
    by_cases hr : r = []
    · subst hr
      exact ⟨jsonLine n, _, w, [], jsonLine_ws n, a, hw, by simp only [Tree.relabelSeq, JsonElems]; exact jsonWs_nil,
        .inl ⟨rfl, rfl, by simp [Json.prettySeq]⟩⟩
    · exact ⟨jsonLine n, _, [], _, jsonLine_ws n, a, jsonWs_nil, h2 p n w b hw hr,
        .inr ⟨fun h => hr ((relabelSeq_isEmpty g r).1 h), by simp [Json.prettySeq, prettySeq_false J n hr]⟩⟩
  · intro p n w h hw hne
    exact absurd rfl hne
  · intro k t r h1 h2 p n w h hw _
    simp only [leavesMap] at h
    have a := h1 (p ++ [k]) n fun pv hp => h pv (List.mem_append_left _ hp)
    have b := fun pv hp => h pv (List.mem_append_right _ hp)
    simp only [Tree.relabelMap, JsonMembers]
    have hsp : JsonWs [' '] := by
      intro c hc
      simp only [List.mem_cons, List.not_mem_nil, or_false] at hc
      exact .inl hc
    by_cases hr : r = []
    · subst hr
      exact ⟨jsonLine n, _, [], [' '], _, w, [], jsonLine_ws n, jsonQuote_string k, jsonWs_nil, hsp, a, hw,
        by simp only [Tree.relabelMap, JsonMembers]; exact jsonWs_nil, .inl ⟨rfl, rfl, by simp [Json.prettyMap]⟩⟩
    · exact ⟨jsonLine n, _, [], [' '], _, [], _, jsonLine_ws n, jsonQuote_string k, jsonWs_nil, hsp, a, jsonWs_nil,
        h2 p n w b hw hr, .inr ⟨fun h => hr ((relabel_isEmpty g r).1 h), by simp [Json.prettyMap, prettyMap_false J n hr]⟩⟩

/-- A document is read as one with other leaves. -/
theorem parse_render_relabel {J : JsonFloats} {g : JsonScalar → JsonScalar} {d : List (Str × Json)}
    (hd : nestingMap d < 127) (hk : ((d.map Prod.fst).filter (· ≠ c!"sops")).Nodup)
    (hi : ∀ e ∈ d, e.1 ≠ c!"sops" → DistinctKeys e.2)
    (hs : ∀ pv ∈ leaves d, JsonText J (.leaf (g pv.2)) (pv.2.text J)) :
    Json.parse J (Json.render J d) = some (Tree.relabelMap g d) := by
  have h0 := (pretty_relabel J g).1 (.map d) [] 0 (by simp only [leavesAt]; exact hs)
  simp only [Tree.relabel] at h0
  refine parse_iff.2 ⟨_, ⟨[], _, [], jsonWs_nil, h0, jsonWs_nil, by simp [Json.render]⟩, ?_, ?_⟩
  · simp only [nesting]
    have := shape_nesting.2.2 (Tree.relabelMap g d)
    rw [(relabel_shape g).2.2, shape_nesting.2.2] at this
    omega
  · refine (settleTop_kept [] ?_ fun e he hne => ?_).symm
    · rw [List.nil_append, relabel_keys]
      exact hk
    · obtain ⟨t, h1, h2⟩ := entry_of_shape ((relabel_shape g).2.2 d) he
      have := hi _ h1 hne
      rw [← shape_distinct.1, ← h2, shape_distinct.1] at this
      exact this

/-! ## Files -/

/-- What a scalar of a document becomes. -/
def rereadScalar (J : JsonFloats) : JsonScalar → JsonScalar
  | .num (.float f) => .num (.float (readAnew J f))
  | a => a

theorem relabel_plain {J : JsonFloats} {md : RMap JsonScalar} (h : ∀ e ∈ md, PlainTree e.2) :
    Tree.relabelMap (rereadScalar J) md = md := by
  refine relabel_id fun pv hp => ?_
  obtain ⟨e, he, hpe⟩ := mem_leavesMap.1 hp
  have := h e he _ pv hpe
  obtain ⟨p, v⟩ := pv
  match v, this with
  | .bool _, _ => rfl
  | .str _, _ => rfl

/-- Nesting and keys of a document that is read. -/
structure JsonShaped (d : List (Str × Json)) : Prop where
  depth : nestingMap d < 127
  keys : ((d.map Prod.fst).filter (· ≠ c!"sops")).Nodup
  inner : ∀ e ∈ d, e.1 ≠ c!"sops" → DistinctKeys e.2

theorem shaped_of_parse {J : JsonFloats} {s : Str} {d : List (Str × Json)} (hp : J.ops.parse s = some d) : JsonShaped d := by
  obtain ⟨m, _, hn, rfl⟩ := parse_iff.1 hp
  have h := topSettled_of m
  simp only [nesting] at hn
  have from' := settled_from h
  have hm := nestingMap_le.1 (show nestingMap m ≤ 126 by omega)
  refine ⟨?_, ?_, fun e he hk => ?_⟩
  · refine Nat.lt_of_le_of_lt (nestingMap_le.2 fun e he => ?_) (by omega : 126 < 127)
    obtain ⟨t, ht, ⟨e', _⟩ | ⟨e', _⟩⟩ := from' e he
    · rw [e']; exact hm _ ht
    · rw [e']; exact Nat.le_trans ((settle_spec (fun _ => True)).1 t).1 (hm _ ht)
  · have := topFirsts_nodup (entryKeys m)
    rw [← h.keys] at this
    exact this
  · obtain ⟨t, ht, ⟨_, e'⟩ | ⟨e', _⟩⟩ := from' e he
    · exact absurd e' hk
    · rw [e']; exact ((settle_spec (fun _ => True)).1 t).2.1

theorem shaped_with_metadata {d fm : List (Str × Json)} (hk : JsonShaped d) (hsh : shapeMap fm = shapeMap d) {md : RMap JsonScalar}
    (hmd : ∀ e ∈ md, PlainTree e.2 ∧ nesting e.2 ≤ 2) : JsonShaped (fm ++ [(c!"sops", .map md)]) := by
  refine ⟨?_, ?_, fun e he hne => ?_⟩
  · refine Nat.lt_succ_of_le (nestingMap_le.2 fun e he => ?_)
    rcases List.mem_append.1 he with he | he
    · have h1 := shape_nesting.2.2 fm
      rw [hsh, shape_nesting.2.2] at h1
      exact nestingMap_le.1 (by have := hk.depth; omega) e he
    · simp only [List.mem_singleton] at he
      subst he
      simp only [nesting]
      have : nestingMap md ≤ 2 := nestingMap_le.2 fun e he => (hmd e he).2
      omega
  · have hkeys := shapeMap_keys fm
    rw [hsh, shapeMap_keys] at hkeys
    rw [List.map_append, ← hkeys, List.filter_append]
    simpa using hk.keys
  · rcases List.mem_append.1 he with he | he
    · obtain ⟨t, h1, h2⟩ := entry_of_shape hsh he
      have := hk.inner _ h1 hne
      rw [← shape_distinct.1, ← h2, shape_distinct.1] at this
      exact this
    · simp only [List.mem_singleton] at he
      subst he
      exact absurd rfl hne

theorem mapM_relabel {α β : Type} {f : α → Option β} {g : α → α} {h : β → β} :
    (∀ t : Tree α, ∀ p z, (∀ pv ∈ leavesAt p t, ∀ b, f pv.2 = some b → f (g pv.2) = some (h b)) → Tree.mapM f t = some z →
      Tree.mapM f (t.relabel g) = some (z.relabel h)) ∧
    (∀ l : List (Tree α), ∀ p z, (∀ pv ∈ leavesSeq p l, ∀ b, f pv.2 = some b → f (g pv.2) = some (h b)) → Tree.mapSeqM f l = some z →
      Tree.mapSeqM f (Tree.relabelSeq g l) = some (Tree.relabelSeq h z)) ∧
    (∀ m : RMap α, ∀ p z, (∀ pv ∈ leavesMap p m, ∀ b, f pv.2 = some b → f (g pv.2) = some (h b)) → Tree.mapMapM f m = some z →
      Tree.mapMapM f (Tree.relabelMap g m) = some (Tree.relabelMap h z)) := by
  apply Tree.induct
  · intro l ih p z hl hz
    simp only [leavesAt] at hl
    simp only [Tree.mapM] at hz
    split at hz
    · rename_i l' hl'
      cases hz
      simp only [Tree.relabel, Tree.mapM, ih p l' hl hl']
    · cases hz
  · intro l ih p z hl hz
    simp only [leavesAt] at hl
    simp only [Tree.mapM] at hz
    split at hz
    · rename_i l' hl'
      cases hz
      simp only [Tree.relabel, Tree.mapM, ih p l' hl hl']
    · cases hz
  · intro p z _ hz
    simp only [Tree.mapM, Option.some.injEq] at hz
    subst hz
    rfl
  · intro a p z hl hz
    simp only [Tree.mapM] at hz
    split at hz
    · rename_i b hb
      cases hz
      simp only [leavesAt] at hl
      simp only [Tree.relabel, Tree.mapM, hl _ (.head _) b hb]
    · cases hz
  · intro p z _ hz
    simp only [Tree.mapSeqM, Option.some.injEq] at hz
    subst hz
    rfl
  · intro t r h1 h2 p z hl hz
    simp only [leavesSeq] at hl
    simp only [Tree.mapSeqM] at hz
    split at hz
    · rename_i t' ht
      split at hz
      · rename_i r' hr
        cases hz
        simp only [Tree.relabelSeq, Tree.mapSeqM, h1 p t' (fun pv hp => hl pv (List.mem_append_left _ hp)) ht,
          h2 p r' (fun pv hp => hl pv (List.mem_append_right _ hp)) hr]
      · cases hz
    · cases hz
  · intro p z _ hz
    simp only [Tree.mapMapM, Option.some.injEq] at hz
    subst hz
    rfl
  · intro k t r h1 h2 p z hl hz
    simp only [leavesMap] at hl
    simp only [Tree.mapMapM] at hz
    split at hz
    · rename_i t' ht
      split at hz
      · rename_i r' hr
        cases hz
        simp only [Tree.relabelMap, Tree.mapMapM, h1 _ t' (fun pv hp => hl pv (List.mem_append_left _ hp)) ht,
          h2 p r' (fun pv hp => hl pv (List.mem_append_right _ hp)) hr]
      · cases hz
    · cases hz

/-- What the leaves of an encrypted file are read as. -/
theorem encLeaf_text {J : JsonFloats} {C : Cipher} {l : EncLeaf} {a : JsonScalar} (h : JsonScalar.encOfInternal C l = some a)
    (hf : ∀ f, l = .escaped (.float f) → JsonNumber J (.float (readAnew J f)) (J.write f)) :
    JsonText J (.leaf (rereadScalar J a)) (a.text J) := by
  cases l with
  | encrypted e =>
    cases h
    exact scalar_text (J := J) (a := .str _) trivial
  | escaped v =>
    cases v with
    | string s => cases h; exact scalar_text (J := J) (a := .str _) trivial
    | boolean b => cases h; exact scalar_text (J := J) (a := .bool _) trivial
    | integer i =>
      cases h
      unfold Number.ofI64
      split
      · exact scalar_text (J := J) (a := .num (.posInt _)) trivial
      · rename_i hi
        exact scalar_text (J := J) (a := .num (.negInt i)) (show i.toInt < 0 by omega)
    | float f =>
      simp only [JsonScalar.encOfInternal, JsonScalar.ofInternal] at h
      split at h
      · cases h
        exact hf f rfl
      · cases h

theorem encLeaf_reread {J : JsonFloats} {C : Cipher} {l : EncLeaf} {a : JsonScalar} (h : JsonScalar.encOfInternal C l = some a)
    (hf : ∀ f, l = .escaped (.float f) → floatFinite (readAnew J f) = true) :
    JsonScalar.encOfInternal C (rereadLeaf J l) = some (rereadScalar J a) := by
  cases l with
  | encrypted e => cases h; rfl
  | escaped v =>
    cases v with
    | string s => cases h; rfl
    | boolean b => cases h; rfl
    | integer i =>
      cases h
      show some (JsonScalar.num (Number.ofI64 i)) = some (rereadScalar J (.num (Number.ofI64 i)))
      unfold Number.ofI64
      split <;> rfl
    | float f =>
      simp only [JsonScalar.encOfInternal, JsonScalar.ofInternal] at h
      split at h
      · cases h
        simp only [rereadLeaf, JsonScalar.encOfInternal, JsonScalar.ofInternal, hf f rfl, if_true, rereadScalar]
      · cases h

/-- The document of an encrypted file is read with its floats read anew. -/
theorem found_of_standsFor {O : DocOps} (hO : DocLaws O) {J : JsonFloats} {C : Cipher} {s : Str} {d : List (Str × Json)}
    (hp : J.ops.parse s = some d) (hsops : c!"sops" ∉ entryKeys d) {m : RMap Value} (hm : Json.toMap d = .ok m)
    {m' : RMap EncLeaf} (hs : StandsFor m m') {f : EncFile Format.json} (hf : Format.json.encOfInternal C m' = some f.map)
    (hw : EncWritable O C f.metadata) (hr : FloatsRead J m') :
    EncFile.ofText J.ops O C (EncFile.toText J.ops C (show EncFile DocFormat.json.F from f)) =
      some ({ f with map := Tree.relabelMap (rereadScalar J) (show RMap JsonScalar from f.map) } : EncFile Format.json) := by
  obtain ⟨a1, _⟩ := Json.to_zip.2.2 d m hm
  obtain ⟨b1, b2⟩ := mapM_zip.2.2 m' f.map hf
  have hsh : shapeMap (show RMap JsonScalar from f.map) = shapeMap d := b1.trans (hs.1.trans a1)
  have hmd := metadata_entries (showMac := fun e : EncValue => e.toText C) (md := f.metadata)
  have hshaped := shaped_with_metadata (shaped_of_parse hp) hsh hmd
  have hread : Json.parse J (Json.render J ((show RMap JsonScalar from f.map) ++ [(c!"sops", .map (f.metadata.toDoc fun e => e.toText C))])) =
      some (Tree.relabelMap (rereadScalar J) (show RMap JsonScalar from f.map) ++ [(c!"sops", .map (f.metadata.toDoc fun e => e.toText C))]) := by
    rw [parse_render_relabel (g := rereadScalar J) hshaped.depth hshaped.keys hshaped.inner ?_, relabelMap_append]
    · congr 2
      show [(c!"sops", Tree.map (Tree.relabelMap _ _))] = _
      rw [relabel_plain fun e he => (hmd e he).1]
    · intro pv hpv
      obtain ⟨e, he, hpe⟩ := mem_leavesMap.1 hpv
      rcases List.mem_append.1 he with he | he
      · obtain ⟨a, ha, ha1, ha2⟩ := (b2 []).left (mem_leavesMap.2 ⟨e, he, hpe⟩)
        exact encLeaf_text ha2 fun g hg => hr a.1 g (by rw [← hg]; exact ha)
      · simp only [List.mem_singleton] at he
        subst he
        have := plainTree_map (fun e he => (hmd e he).1) _ pv hpe
        obtain ⟨p, v⟩ := pv
        match v, this with
        | .bool b, _ => exact scalar_text (J := J) (a := .bool b) trivial
        | .str x, _ => exact scalar_text (J := J) (a := .str x) trivial
  have hk' : sopsKey ∉ (Tree.relabelMap (rereadScalar J) (show RMap JsonScalar from f.map)).map Prod.fst := by
    rw [relabel_keys, ← shapeMap_keys, hsh, shapeMap_keys]
    exact hsops
  unfold EncFile.ofText EncFile.toText
  rw [show J.ops.parse (J.ops.render (EncFile.toDoc DocFormat.json C (show EncFile DocFormat.json.F from f))) = some _ from hread]
  show EncFile.ofDoc .json O C (Json.addSops _ (f.metadata.toDoc fun e => e.toText C)) = _
  unfold EncFile.ofDoc
  have ht : DocFormat.json.takeSops (Json.addSops (Tree.relabelMap (rereadScalar J) (show RMap JsonScalar from f.map)) (f.metadata.toDoc fun e => e.toText C)) =
    some (Tree.relabelMap (rereadScalar J) (show RMap JsonScalar from f.map), f.metadata.toDoc fun e => e.toText C) := Json.take_add hk'
  rw [ht]
  simp only [Metadata.ofDoc_perm hO hw (List.Perm.refl _)]
  rfl

end Rops
