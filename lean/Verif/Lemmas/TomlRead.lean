import Verif.Lemmas.TomlRound
import Verif.Lemmas.TomlFloats
/-!
# The texts of TOML documents: what is read
-/

namespace Rops
open Spec

/-- See `TomlRead`. -/
inductive ItemRead (S : TomlScalars) : TomlItem → Prop
  | value {v : Toml} : TomlRead S v → ItemRead S (.value v)
  | table (i d : Bool) {m : List (Str × TomlItem)} : (m.map Prod.fst).Nodup → (∀ e ∈ m, ItemRead S e.2) → ItemRead S (.table i d m)
  | tables {l : List TomlItem} : l ≠ [] → (∀ t ∈ l, ItemRead S t) → ItemRead S (.tables l)

theorem tomlMap_keys (m : List (Str × TomlItem)) : (TomlItem.tomlMap m).map Prod.fst = m.map Prod.fst := by
  induction m with
  | nil => rw [TomlItem.tomlMap]; rfl
  | cons e m ih =>
    obtain ⟨k, t⟩ := e
    rw [TomlItem.tomlMap, List.map_cons, List.map_cons, ih]

theorem mem_tomlMap {m : List (Str × TomlItem)} {e : Str × Toml} (h : e ∈ TomlItem.tomlMap m) : ∃ t, (e.1, t) ∈ m ∧ e.2 = t.toml := by
  induction m with
  | nil => rw [TomlItem.tomlMap] at h; cases h
  | cons a m ih =>
    obtain ⟨k, t⟩ := a
    rw [TomlItem.tomlMap] at h
    rcases List.mem_cons.1 h with rfl | h
    · exact ⟨t, .head _, rfl⟩
    · obtain ⟨t', h1, h2⟩ := ih h
      exact ⟨t', .tail _ h1, h2⟩

theorem mem_tomlSeq {l : List TomlItem} {v : Toml} (h : v ∈ TomlItem.tomlSeq l) : ∃ t ∈ l, v = t.toml := by
  induction l with
  | nil => rw [TomlItem.tomlSeq] at h; cases h
  | cons a m ih =>
    rw [TomlItem.tomlSeq] at h
    rcases List.mem_cons.1 h with rfl | h
    · exact ⟨a, .head _, rfl⟩
    · obtain ⟨t', h1, h2⟩ := ih h
      exact ⟨t', .tail _ h1, h2⟩

theorem itemRead_toml {S : TomlScalars} {t : TomlItem} (h : ItemRead S t) : TomlRead S t.toml := by
  induction h with
  | value h => rw [TomlItem.toml]; exact h
  | table i d hn _ ih =>
    rw [TomlItem.toml]
    refine .table (by rw [tomlMap_keys]; exact hn) fun e he => ?_
    obtain ⟨t, h1, h2⟩ := mem_tomlMap he
    rw [h2]
    exact ih _ h1
  | tables _ _ ih =>
    rw [TomlItem.toml]
    refine .array fun v hv => ?_
    obtain ⟨t, h1, h2⟩ := mem_tomlSeq hv
    rw [h2]
    exact ih _ h1

theorem get_mem {β : Type} {m : List (Str × β)} {k : Str} {v : β} (h : IndexMap.get m k = some v) : (k, v) ∈ m := by
  induction m with
  | nil => cases h
  | cons e m ih =>
    obtain ⟨k', v'⟩ := e
    rw [IndexMap.get] at h
    split at h
    · rename_i hk
      cases h
      rw [hk]
      exact .head _
    · exact .tail _ (ih h)

theorem itemRead_insert {S : TomlScalars} {i d : Bool} {m : List (Str × TomlItem)} (h : ItemRead S (.table i d m)) (k : Str) {t : TomlItem}
    (ht : ItemRead S t) : ItemRead S (.table i d (IndexMap.insert m k t)) := by
  cases h with
  | table _ _ hn hm =>
    refine .table i d (IndexMap.insert_nodup k t hn) fun e he => ?_
    rcases IndexMap.mem_of_insert he with he | he
    · exact hm e he
    · rw [he]; exact ht

theorem itemRead_append {S : TomlScalars} {i d : Bool} {m : List (Str × TomlItem)} (h : ItemRead S (.table i d m)) {k : Str} {t : TomlItem}
    (hk : IndexMap.get m k = none) (ht : ItemRead S t) : ItemRead S (.table i d (m ++ [(k, t)])) := by
  have := itemRead_insert h k ht
  rwa [IndexMap.insert_of_not_mem (IndexMap.get_eq_none.1 hk)] at this

theorem itemRead_get {S : TomlScalars} {i d : Bool} {m : List (Str × TomlItem)} (h : ItemRead S (.table i d m)) {k : Str} {t : TomlItem}
    (hk : IndexMap.get m k = some t) : ItemRead S t := by
  cases h with
  | table _ _ hn hm => exact hm _ (get_mem hk)

theorem itemRead_empty (S : TomlScalars) (i d : Bool) : ItemRead S (.table i d []) := .table i d List.nodup_nil (fun _ h => nomatch h)

theorem itemRead_descend {S : TomlScalars} {dotted : Bool} {f : TomlItem → Option TomlItem}
    (hf : ∀ t t', ItemRead S t → f t = some t' → ItemRead S t') : ∀ (p : List Str) {t t' : TomlItem}, ItemRead S t →
    TomlItem.descend dotted f p t = some t' → ItemRead S t'
  | [], t, t', h, hd => by
    rw [TomlItem.descend] at hd
    exact hf t t' h hd
  | k :: p, .table i d m, t', h, hd => by
    rw [TomlItem.descend] at hd
    split at hd
    · split at hd
      · rename_i t1 h1
        cases hd
        exact itemRead_insert h k (itemRead_descend hf p (itemRead_empty S _ _) h1)
      · cases hd
    · rename_i i' d' m' hg
      split at hd
      · cases hd
      split at hd
      · rename_i t1 h1
        cases hd
        exact itemRead_insert h k (itemRead_descend hf p (itemRead_get h hg) h1)
      · cases hd
    · rename_i l hg
      have hl := itemRead_get h hg
      split at hd
      · cases hd
      · rename_i t0 hl0
        cases hl with
        | tables _ hl =>
          split at hd
          · rename_i t1 h1
            cases hd
            refine itemRead_insert h k (.tables (by simp) fun t ht => ?_)
            rcases List.mem_append.1 ht with ht | ht
            · exact hl t ((List.dropLast_sublist l).subset ht)
            · rw [List.mem_singleton.1 ht]
              exact itemRead_descend hf p (hl _ (List.mem_of_getLast? hl0)) h1
          · cases hd
    · cases hd
  | _ :: _, .value _, _, _, hd => by rw [TomlItem.descend] at hd <;> first | cases hd | (intros; contradiction)
  | _ :: _, .tables _, _, _, hd => by rw [TomlItem.descend] at hd <;> first | cases hd | (intros; contradiction)

theorem itemRead_addEntry {S : TomlScalars} (dotted : Bool) (k : Str) {v : Toml} (hv : TomlRead S v) (t t' : TomlItem) (h : ItemRead S t)
    (ha : TomlItem.addEntry dotted k v t = some t') : ItemRead S t' := by
  unfold TomlItem.addEntry at ha
  split at ha
  · split at ha
    · cases ha
    split at ha
    · rename_i hg
      cases ha
      exact itemRead_append h hg (.value hv)
    · cases ha
  · cases ha

theorem itemRead_addTable {S : TomlScalars} (k : Str) (t t' : TomlItem) (h : ItemRead S t) (ha : TomlItem.addTable k t = some t') :
    ItemRead S t' := by
  unfold TomlItem.addTable at ha
  split at ha
  · split at ha
    · rename_i hg
      cases ha
      exact itemRead_append h hg (itemRead_empty S _ _)
    · rename_i i d m m' hg
      cases ha
      have hg' := itemRead_get h hg
      cases h with
      | table _ _ hn hm =>
        cases hg' with
        | table _ _ hn' hm' =>
          refine .table _ _ ?_ fun e he => ?_
          · rw [List.map_append, List.nodup_append]
            refine ⟨hn.sublist ((List.filter_sublist).map _), List.nodup_cons.2 ⟨(fun h => nomatch h), List.nodup_nil⟩, fun a ha b hb => ?_⟩
            obtain ⟨e, he, rfl⟩ := List.mem_map.1 ha
            rw [List.mem_singleton.1 hb]
            have := (List.mem_filter.1 he).2
            simpa using this
          · rcases List.mem_append.1 he with he | he
            · exact hm e ((List.mem_filter.1 he).1)
            · rw [List.mem_singleton.1 he]
              exact .table _ _ hn' hm'
    · cases ha
  · cases ha

theorem itemRead_addElement {S : TomlScalars} (k : Str) (t t' : TomlItem) (h : ItemRead S t) (ha : TomlItem.addElement k t = some t') :
    ItemRead S t' := by
  unfold TomlItem.addElement at ha
  split at ha
  · split at ha
    · rename_i hg
      cases ha
      refine itemRead_append h hg (.tables (by simp) fun t ht => ?_)
      rw [List.mem_singleton.1 ht]
      exact itemRead_empty S _ _
    · rename_i l hg
      cases ha
      have hl := itemRead_get h hg
      cases hl with
      | tables _ hl =>
        refine itemRead_insert h k (.tables (by simp) fun t ht => ?_)
        rcases List.mem_append.1 ht with ht | ht
        · exact hl t ht
        · rw [List.mem_singleton.1 ht]
          exact itemRead_empty S _ _
    · cases ha
  · cases ha

/-- The value in a statement. -/
def StmtRead (S : TomlScalars) : TomlStmt → Prop
  | .entry _ _ v => TomlRead S v
  | _ => True

theorem itemRead_apply {S : TomlScalars} {header : List Str} {t t' : TomlItem} {s : TomlStmt} (hs : StmtRead S s) (h : ItemRead S t)
    (ha : s.apply header t = some t') : ItemRead S t' := by
  cases s with
  | entry p k v =>
    exact itemRead_descend (fun t t' h h' => itemRead_descend (itemRead_addEntry _ k hs) p h h') header h ha
  | table p =>
    unfold TomlStmt.apply at ha
    simp only at ha
    split at ha
    · exact itemRead_descend (itemRead_addTable _) _ h ha
    · cases ha
  | element p =>
    unfold TomlStmt.apply at ha
    simp only at ha
    split at ha
    · exact itemRead_descend (itemRead_addElement _) _ h ha
    · cases ha

theorem itemRead_applyAll {S : TomlScalars} : ∀ {l : List TomlStmt} {header : List Str} {t t' : TomlItem}, (∀ s ∈ l, StmtRead S s) → ItemRead S t →
    TomlStmt.applyAll header t l = some t' → ItemRead S t'
  | [], _, _, _, _, h, ha => by
    rw [TomlStmt.applyAll] at ha
    cases ha
    exact h
  | s :: l, _, _, _, hs, h, ha => by
    rw [TomlStmt.applyAll] at ha
    split at ha
    · rename_i t1 h1
      exact itemRead_applyAll (fun s h => hs s (.tail _ h)) (itemRead_apply (hs s (.head _)) h h1) ha
    · cases ha

theorem scalarRead {S : TomlScalars} {s : Str} {v : Toml} (h : tomlScalar S s = some v) : TomlRead S v := by
  unfold tomlScalar at h
  split at h
  · cases h; exact .bool _
  split at h
  · cases h; exact .bool _
  split at h
  · cases h; exact .int _
  split at h
  · rename_i hf
    cases h; exact .float hf
  · cases hd : S.date s with
    | none => rw [hd] at h; cases h
    | some d => rw [hd] at h; cases h; exact .datetime hd

theorem values_read (S : TomlScalars) : ∀ n : Nat,
    (∀ d s v r, tomlValue S n d s = some (v, r) → TomlRead S v) ∧
    (∀ d s l r, tomlElems S n d s = some (l, r) → ∀ t ∈ l, TomlRead S t) ∧
    (∀ d s l r, tomlPairs S n d s = some (l, r) → ∀ t ∈ l, StmtRead S t) := by
  intro n
  induction n with
  | zero =>
    refine ⟨fun d s v r h => ?_, fun d s v r h => ?_, fun d s v r h => ?_⟩
    · rw [tomlValue] at h; cases h
    · rw [tomlElems] at h; cases h
    · rw [tomlPairs] at h; cases h
  | succ n ih =>
    obtain ⟨ih1, ih2, ih3⟩ := ih
    refine ⟨fun d s v r h => ?_, fun d s v r h => ?_, fun d s v r h => ?_⟩
    · rw [tomlValue.eq_def] at h
      simp only at h
      split at h
      · split at h
        · split at h
          · rename_i h1
            cases h
            exact .array (ih2 _ _ _ _ h1)
          · cases h
        · cases h
      · split at h
        · split at h
          · cases h
            exact .table List.nodup_nil (fun _ h => nomatch h)
          · split at h
            · rename_i h1
              split at h
              · rename_i h2
                cases h
                unfold tomlInlineTable at h2
                cases h3 : TomlStmt.applyAll [] (.table false false []) _ with
                | none => rw [h3] at h2; cases h2
                | some t =>
                  rw [h3] at h2
                  cases h2
                  exact itemRead_toml (itemRead_applyAll (ih3 _ _ _ _ h1) (itemRead_empty S _ _) h3)
              · cases h
            · cases h
        · cases h
      · split at h
        · split at h
          · cases h; exact .str _
          · cases h
        · split at h
          · rename_i h1
            cases h
            exact scalarRead h1
          · cases h
      · cases h
    · rw [tomlElems.eq_def] at h
      simp only at h
      split at h
      · cases h
      · cases h; exact fun _ h => nomatch h
      · split at h
        · cases h
        · rename_i t r' h1
          have ht := ih1 _ _ _ _ h1
          split at h
          · split at h
            · rename_i h2
              cases h
              intro x hx
              rcases List.mem_cons.1 hx with rfl | hx
              · exact ht
              · exact ih2 _ _ _ _ h2 x hx
            · cases h
          · cases h
            intro x hx
            rw [List.mem_singleton.1 hx]
            exact ht
          · cases h
    · rw [tomlPairs.eq_def] at h
      simp only at h
      split at h
      · split at h
        · cases h
        · rename_i t r' h1
          have ht := ih1 _ _ _ _ h1
          split at h
          · split at h
            · rename_i h2
              cases h
              intro x hx
              rcases List.mem_cons.1 hx with rfl | hx
              · exact ht
              · exact ih3 _ _ _ _ h2 x hx
            · cases h
          · cases h
            intro x hx
            rw [List.mem_singleton.1 hx]
            exact ht
          · cases h
      · cases h

theorem stmts_read {S : TomlScalars} : ∀ {n : Nat} {s : Str} {l : List TomlStmt}, tomlStmts S n s = some l → ∀ x ∈ l, StmtRead S x := by
  intro n
  induction n with
  | zero => intro s l h; rw [tomlStmts] at h; cases h
  | succ n ih =>
    intro s l h
    have map : ∀ {e : TomlStmt} {r : Str} {l : List TomlStmt}, StmtRead S e → (tomlStmts S n r).map (e :: ·) = some l → ∀ x ∈ l, StmtRead S x := by
      intro e r l he h
      cases hr : tomlStmts S n r with
      | none => rw [hr] at h; cases h
      | some l' =>
        rw [hr] at h
        cases h
        intro x hx
        rcases List.mem_cons.1 hx with rfl | hx
        · exact he
        · exact ih hr x hx
    rw [tomlStmts.eq_def] at h
    simp only at h
    split at h
    · cases h; exact fun _ h => nomatch h
    · split at h
      · exact ih h
      · cases h
    · split at h
      · exact map (e := .element _) trivial h
      · cases h
    · split at h
      · exact map (e := .table _) trivial h
      · cases h
    · split at h
      · exact ih h
      · split at h
        · rename_i he
          refine map ?_ h
          unfold tomlEntry at he
          split at he
          · split at he
            · cases he
            · rename_i h1
              split at he
              · cases he
                exact (values_read S _).1 _ _ _ _ h1
              · cases he
          · cases he
        · cases h

theorem parse_read {S : TomlScalars} {s : Str} {d : List (Str × Toml)} (h : Toml.parse S s = some d) : TomlRead S (.table d) := by
  unfold Toml.parse at h
  split at h
  · cases h
  · rename_i h1
    split at h
    · rename_i h2
      cases h
      have := itemRead_toml (itemRead_applyAll (stmts_read h1) (itemRead_empty S _ _) h2)
      rw [TomlItem.toml] at this
      exact this
    · cases h

mutual
/-- What is read is sound if floats and dates are kept. -/
theorem sound_of_read {S : TomlScalars} (hf : ∀ t f, tomlReadFloat S t = some f → TomlScalarKept S (tomlFloat f) (.float f))
    (hd : ∀ t d, S.date t = some d → TomlScalarKept S d (.datetime d)) : ∀ v : Toml, TomlRead S v → TomlSound S v
  | .str _, _ => by rw [TomlSound] <;> (first | exact trivial | (intros; contradiction))
  | .int _, _ => by rw [TomlSound] <;> (first | exact trivial | (intros; contradiction))
  | .bool _, _ => by rw [TomlSound] <;> (first | exact trivial | (intros; contradiction))
  | .float _, h => by
    rw [TomlSound]
    cases h with
    | float h => exact hf _ _ h
  | .datetime _, h => by
    rw [TomlSound]
    cases h with
    | datetime h => exact hd _ _ h
  | .array l, h => by
    rw [TomlSound]
    cases h with
    | array h => exact soundSeq_of_read hf hd l h
  | .table m, h => by
    rw [TomlSound]
    cases h with
    | table hn h => exact ⟨hn, soundMap_of_read hf hd m h⟩
/-- See `sound_of_read`. -/
theorem soundSeq_of_read {S : TomlScalars} (hf : ∀ t f, tomlReadFloat S t = some f → TomlScalarKept S (tomlFloat f) (.float f))
    (hd : ∀ t d, S.date t = some d → TomlScalarKept S d (.datetime d)) : ∀ l : List Toml, (∀ t ∈ l, TomlRead S t) → TomlSoundSeq S l
  | [], _ => by rw [TomlSoundSeq]; trivial
  | t :: r, h => by
    rw [TomlSoundSeq]
    exact ⟨sound_of_read hf hd t (h t (.head _)), soundSeq_of_read hf hd r fun t ht => h t (.tail _ ht)⟩
/-- See `sound_of_read`. -/
theorem soundMap_of_read {S : TomlScalars} (hf : ∀ t f, tomlReadFloat S t = some f → TomlScalarKept S (tomlFloat f) (.float f))
    (hd : ∀ t d, S.date t = some d → TomlScalarKept S d (.datetime d)) : ∀ m : List (Str × Toml), (∀ e ∈ m, TomlRead S e.2) → TomlSoundMap S m
  | [], _ => by rw [TomlSoundMap]; trivial
  | (k, t) :: r, h => by
    rw [TomlSoundMap]
    exact ⟨sound_of_read hf hd t (h (k, t) (.head _)), soundMap_of_read hf hd r fun t ht => h t (.tail _ ht)⟩
end

/-- The floats that are read from texts are those of Rust. -/
theorem readFloat_show {date : Str → Option Str} {t f : Str} (h : tomlReadFloat (rustScalars date) t = some f) :
    ∃ x : F64, InRange x ∧ f = x.show := by
  unfold tomlReadFloat at h
  simp only at h
  split at h
  · cases h
    exact ⟨.infinite (tomlSign t).1, trivial, by cases (tomlSign t).1 <;> rfl⟩
  split at h
  · cases h; exact ⟨.nan, trivial, rfl⟩
  · cases h1 : tomlDecimal ((tomlSign t).2.takeWhile fun c => c.isDigit || c == '_') with
    | none => rw [h1] at h; cases h
    | some ds =>
      rw [h1, Option.bind_some] at h
      cases h2 : tomlFraction ((tomlSign t).2.dropWhile fun c => c.isDigit || c == '_') with
      | none => rw [h2] at h; cases h
      | some fs =>
        rw [h2, Option.bind_some] at h
        change rustFloat _ = some f at h
        unfold rustFloat at h
        split at h
        · cases h
        · cases h
        · rename_i x hx _
          cases h
          exact ⟨_, inRange_parse (by assumption), rfl⟩

end Rops
