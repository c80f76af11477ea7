import Verif.Lemmas.LinesYaml
import Verif.Model.TomlText
/-!
# Lines that stay: TOML
-/

namespace Rops

open Spec

/-! ## Values on one line -/

/-- A value that is no collection, on one line. -/
structure Toml.Flat (t : Toml) : Prop where
  noArray : ∀ l, t ≠ .array l
  noTable : ∀ m, t ≠ .table m
  line : '\n' ∉ t.inline

theorem no_break_tomlEscape (c : Char) : '\n' ∉ tomlEscape false c := by
  have hx : ∀ n, n < 16 → '\n' ≠ tomlHex n := by decide
  unfold tomlEscape
  split; · decide
  split; · decide
  split; · decide
  split; · decide
  split; · decide
  split; · decide
  split; · decide
  split
  · rename_i h
    simp only [List.mem_cons, List.not_mem_nil, or_false, not_or]
    exact ⟨by decide, by decide, by decide, by decide, hx _ (by omega), hx _ (by omega)⟩
  · rename_i h _ _ _
    rw [List.mem_singleton]
    rintro rfl
    exact h (by decide)

theorem no_break_basic (s : Str) : '\n' ∉ tomlBasic s := by
  unfold tomlBasic
  simp only [List.mem_cons, List.mem_append, List.mem_flatMap, List.not_mem_nil, or_false, not_or, not_exists, not_and]
  exact ⟨by decide, fun c _ => no_break_tomlEscape c, by decide⟩

theorem no_break_tomlString {s : Str} (h : '\n' ∉ s) : '\n' ∉ tomlString s := by
  unfold tomlString
  rw [if_neg (by simpa using h)]
  split
  · split
    · exact no_break_append (by decide) (no_break_append h (by decide))
    · exact no_break_cons (by decide) (no_break_append h (by decide))
  · exact no_break_basic s

theorem flat_str {s : Str} (h : '\n' ∉ s) : Toml.Flat (.str s) :=
  ⟨fun _ => nofun, fun _ => nofun, by rw [Toml.inline]; exact no_break_tomlString h⟩

theorem flat_value {v : Value} (h : OneLineValue v) : (Toml.ofValue v).Flat := by
  cases v with
  | string s => exact flat_str (h s (.inl rfl))
  | boolean b => exact ⟨fun _ => nofun, fun _ => nofun, by cases b <;> simp only [Toml.ofValue, Toml.inline] <;> decide⟩
  | integer i => exact ⟨fun _ => nofun, fun _ => nofun, by simp only [Toml.ofValue, Toml.inline]; exact no_break_int i⟩
  | float s =>
    refine ⟨fun _ => nofun, fun _ => nofun, ?_⟩
    simp only [Toml.ofValue, Toml.inline]
    unfold tomlFloat
    have hs := h s (.inr rfl)
    split
    · decide
    split
    · exact hs
    split
    · exact hs
    · exact no_break_append hs (by decide)

/-! ## Values that differ in few places -/

/-- Two values that differ only in values on one line, and how many of these there are. -/
inductive Toml.Near : Nat → Toml → Toml → Prop
  | refl (t : Toml) : Near 0 t t
  | one {t t' : Toml} : t.Flat → t'.Flat → Near 1 t t'
  | item {a b : Nat} {t t' : Toml} {l l' : List Toml} : Near a t t' → Near b (.array l) (.array l') → Near (a + b) (.array (t :: l)) (.array (t' :: l'))
  | field {a b : Nat} (k : Str) {t t' : Toml} {m m' : List (Str × Toml)} :
    Near a t t' → Near b (.table m) (.table m') → Near (a + b) (.table ((k, t) :: m)) (.table ((k, t') :: m'))

/-- The same of the lines of a document. -/
inductive TomlStmt.Near : Nat → List TomlStmt → List TomlStmt → Prop
  | nil : Near 0 [] []
  | same {n : Nat} {r r' : List TomlStmt} (s : TomlStmt) : Near n r r' → Near n (s :: r) (s :: r')
  | entry {a n : Nat} {r r' : List TomlStmt} (p : List Str) (k : Str) {v v' : Toml} :
    FewLines a v.inline v'.inline → Near n r r' → Near (a + n) (.entry p k v :: r) (.entry p k v' :: r')

theorem TomlStmt.Near.refl : ∀ l : List TomlStmt, Near 0 l l
  | [] => .nil
  | s :: r => .same s (refl r)

theorem TomlStmt.Near.append {a b : Nat} {l l' r r' : List TomlStmt} (h : Near a l l') (h' : Near b r r') : Near (a + b) (l ++ r) (l' ++ r') := by
  induction h with
  | nil => rwa [Nat.zero_add]
  | same s _ ih => exact .same s ih
  | entry p k hv _ ih => rw [Nat.add_assoc]; exact .entry p k hv ih

theorem TomlStmt.Near.under {a : Nat} {l l' : List TomlStmt} (h : Near a l l') (k : Str) :
    Near a (l.map (TomlStmt.under k)) (l'.map (TomlStmt.under k)) := by
  induction h with
  | nil => exact .nil
  | same s _ ih => exact .same _ ih
  | entry p k hv _ ih => exact .entry p k hv ih

theorem TomlStmt.Near.empty {a : Nat} {l l' : List TomlStmt} (h : Near a l l') : l.isEmpty = l'.isEmpty := by
  cases h <;> rfl

theorem TomlStmt.Near.lines {a : Nat} {l l' : List TomlStmt} (h : Near a l l') (b : Bool) : FewLines a (tomlLines b l) (tomlLines b l') := by
  induction h generalizing b with
  | nil => exact .refl _
  | same s _ ih =>
    cases s with
    | entry p k v => exact .prepend _ (.prepend _ (.prepend _ (.cons _ (ih false))))
    | table p => exact .prepend _ (.cons _ (.prepend _ (.prepend _ (ih false))))
    | element p => exact .prepend _ (.prepend _ (.prepend _ (.prepend _ (ih false))))
  | entry p k hv _ ih => exact .prepend _ (.prepend _ (hv.append (.cons _ (ih false))))

theorem near_parts {n : Nat} {t t' : Toml} (h : Toml.Near n t t') :
    FewLines n t.inline t'.inline ∧ t.isTable = t'.isTable ∧ t.section = t'.section ∧
    (∀ l l', t = .array l → t' = .array l' → l.isEmpty = l'.isEmpty ∧ l.all Toml.isTable = l'.all Toml.isTable ∧
      FewLines n (Toml.inlineSeq l) (Toml.inlineSeq l') ∧
      ∀ k, ∃ a, a ≤ n ∧ TomlStmt.Near a (Toml.elementStmts k l) (Toml.elementStmts k l')) ∧
    (∀ m m', t = .table m → t' = .table m' → m.isEmpty = m'.isEmpty ∧ (∀ b, FewLines n (Toml.inlineMap b m) (Toml.inlineMap b m')) ∧
      ∃ a b, a + b ≤ n ∧ TomlStmt.Near a (Toml.entryStmts m) (Toml.entryStmts m') ∧ TomlStmt.Near b (Toml.sectionStmts m) (Toml.sectionStmts m')) ∧
    ((∃ l, t = .array l) ↔ ∃ l, t' = .array l) ∧ ((∃ m, t = .table m) ↔ ∃ m, t' = .table m) := by
  induction h with
  | refl t =>
    refine ⟨.refl _, rfl, rfl, ?_, ?_, .rfl, .rfl⟩
    · rintro l _ rfl h
      cases h
      exact ⟨rfl, rfl, .refl _, fun k => ⟨0, Nat.le_refl _, .refl _⟩⟩
    · rintro m _ rfl h
      cases h
      exact ⟨rfl, fun b => .refl _, 0, 0, Nat.le_refl _, .refl _, .refl _⟩
  | @one t t' h h' =>
    have e1 : t.isTable = t'.isTable := by
      cases t <;> first | exact (h.noTable _ rfl).elim | exact (h.noArray _ rfl).elim | (cases t' <;> first | rfl | exact (h'.noTable _ rfl).elim)
    have e2 : t.section = t'.section := by
      cases t <;> first | exact (h.noTable _ rfl).elim | exact (h.noArray _ rfl).elim |
        (cases t' <;> first | rfl | exact (h'.noTable _ rfl).elim | exact (h'.noArray _ rfl).elim)
    exact ⟨.one h.line h'.line, e1, e2, fun l _ e => (h.noArray l e).elim, fun m _ e => (h.noTable m e).elim,
      ⟨fun ⟨l, e⟩ => (h.noArray l e).elim, fun ⟨l, e⟩ => (h'.noArray l e).elim⟩,
      ⟨fun ⟨l, e⟩ => (h.noTable l e).elim, fun ⟨l, e⟩ => (h'.noTable l e).elim⟩⟩
  | @item a b t t' l l' _ _ ih1 ih2 =>
    obtain ⟨i1, i2, i3, i4, i5, i6, i7⟩ := ih1
    obtain ⟨j1, j2, j3, j4, _⟩ := ih2
    obtain ⟨k1, k2, k3, k4⟩ := j4 l l' rfl rfl
    have hall : (t :: l).all Toml.isTable = (t' :: l').all Toml.isTable := by simp only [List.all_cons, i2, k2]
    have hseq : FewLines (a + b) (Toml.inlineSeq (t :: l)) (Toml.inlineSeq (t' :: l')) := by
      simp only [Toml.inlineSeq]
      exact .prepend _ (i1.append (.cons _ k3))
    refine ⟨?_, rfl, ?_, ?_, fun _ _ => nofun, ⟨fun _ => ⟨_, rfl⟩, fun _ => ⟨_, rfl⟩⟩, ⟨fun ⟨_, e⟩ => (by cases e), fun ⟨_, e⟩ => (by cases e)⟩⟩
    · cases l with
      | nil => cases l' with
        | nil =>
          simp only [Toml.inline]
          exact .cons _ ((i1.mono (Nat.le_add_right a b)).postpend _)
        | cons _ _ => cases k1
      | cons _ _ => cases l' with
        | nil => cases k1
        | cons _ _ =>
          simp only [Toml.inline]
          exact .cons _ (hseq.postpend _)
    · simp only [Toml.section, hall, List.isEmpty_cons]
    · rintro _ _ ⟨⟩ ⟨⟩
      refine ⟨rfl, hall, hseq, fun k => ?_⟩
      obtain ⟨c, hc, hn⟩ := k4 k
      by_cases ht : ∃ m, t = .table m
      · obtain ⟨m', rfl⟩ := i7.1 ht
        obtain ⟨m, rfl⟩ := ht
        obtain ⟨_, _, x, y, hxy, h1, h2⟩ := i5 m m' rfl rfl
        simp only [Toml.elementStmts]
        exact ⟨x + y + c, by omega, .append (.same _ ((h1.append h2).under k)) hn⟩
      · have ht' : ¬ ∃ m, t' = .table m := fun h => ht (i7.2 h)
        have e1 : Toml.elementStmts k (t :: l) = Toml.elementStmts k l := by
          cases t <;> first | rfl | exact (ht ⟨_, rfl⟩).elim | (simp only [Toml.elementStmts])
        have e2 : Toml.elementStmts k (t' :: l') = Toml.elementStmts k l' := by
          cases t' <;> first | rfl | exact (ht' ⟨_, rfl⟩).elim | (simp only [Toml.elementStmts])
        rw [e1, e2]
        exact ⟨c, by omega, hn⟩
  | @field a b k t t' m m' _ _ ih1 ih2 =>
    obtain ⟨i1, i2, i3, i4, i5, i6, i7⟩ := ih1
    obtain ⟨j1, j2, j3, _, j5, _⟩ := ih2
    obtain ⟨k1, k2, x, y, hxy, h1, h2⟩ := j5 m m' rfl rfl
    have hmap : ∀ f, FewLines (a + b) (Toml.inlineMap f ((k, t) :: m)) (Toml.inlineMap f ((k, t') :: m')) := by
      intro f
      simp only [Toml.inlineMap]
      exact .prepend _ (.cons _ (.prepend _ (.prepend _ (i1.append (k2 false)))))
    refine ⟨?_, rfl, rfl, fun _ _ => nofun, ?_, ⟨fun ⟨_, e⟩ => (by cases e), fun ⟨_, e⟩ => (by cases e)⟩, ⟨fun _ => ⟨_, rfl⟩, fun _ => ⟨_, rfl⟩⟩⟩
    · simp only [Toml.inline]
      exact .cons _ ((hmap true).postpend _)
    · rintro _ _ ⟨⟩ ⟨⟩
      refine ⟨rfl, hmap, ?_⟩
      by_cases hs : t.section = true
      · have he : TomlStmt.Near x (Toml.entryStmts ((k, t) :: m)) (Toml.entryStmts ((k, t') :: m')) := by
          simp only [Toml.entryStmts, ← i3, if_pos hs]
          exact h1
        by_cases ht : ∃ m, t = .table m
        · obtain ⟨n', rfl⟩ := i7.1 ht
          obtain ⟨n, rfl⟩ := ht
          obtain ⟨g1, _, x', y', hxy', h1', h2'⟩ := i5 n n' rfl rfl
          refine ⟨x, x' + y' + y, by omega, he, ?_⟩
          simp only [Toml.sectionStmts, ← g1, ← h1'.empty]
          refine .append ?_ h2
          have := (TomlStmt.Near.refl (if (n.isEmpty || !(Toml.entryStmts n).isEmpty) = true then [TomlStmt.table [k]] else [])).append ((h1'.append h2').under k)
          rwa [Nat.zero_add] at this
        · obtain ⟨l, rfl⟩ : ∃ l, t = .array l := by
            cases t <;> first | exact ⟨_, rfl⟩ | exact (ht ⟨_, rfl⟩).elim | cases hs
          obtain ⟨l', rfl⟩ := i6.1 ⟨l, rfl⟩
          obtain ⟨g1, g2, _, g4⟩ := i4 l l' rfl rfl
          obtain ⟨c, hc, hn⟩ := g4 k
          simp only [Toml.sectionStmts, ← g2]
          by_cases hl : l.all Toml.isTable = true
          · rw [if_pos hl, if_pos hl]
            exact ⟨x, c + y, by omega, he, hn.append h2⟩
          · rw [if_neg hl, if_neg hl]
            exact ⟨x, y, by omega, he, h2⟩
      · have hs' : ¬ t'.section = true := by rw [← i3]; exact hs
        have e1 : ∀ {t : Toml} {m : List (Str × Toml)}, ¬ t.section = true → Toml.sectionStmts ((k, t) :: m) = Toml.sectionStmts m := by
          intro t m hs
          cases t with
          | table m => exact (hs rfl).elim
          | array l =>
            simp only [Toml.sectionStmts]
            cases l with
            | nil => simp [Toml.elementStmts]
            | cons u r =>
              rw [if_neg (by simpa [Toml.section] using hs), List.nil_append]
          | _ => simp only [Toml.sectionStmts]
        refine ⟨a + x, y, by omega, ?_, ?_⟩
        · simp only [Toml.entryStmts, if_neg hs, if_neg hs']
          exact .entry [] k i1 h1
        · rw [e1 hs, e1 hs']
          exact h2

theorem near_render {n : Nat} {m m' : List (Str × Toml)} (h : Toml.Near n (.table m) (.table m')) : FewLines n (Toml.render m) (Toml.render m') := by
  obtain ⟨_, _, _, _, h5, _⟩ := near_parts h
  obtain ⟨_, _, a, b, hab, h1, h2⟩ := h5 m m' rfl rfl
  exact ((h1.append h2).lines true).mono hab

/-! ## Trees -/

/-- Where two lists of leaves differ, these are on one line. -/
def FlatChanges {α : Type} (f : α → Toml) (l l' : List (List Str × α)) : Prop :=
  ∀ x ∈ l.zip l', x.1 ≠ x.2 → (f x.1.2).Flat ∧ (f x.2.2).Flat

theorem FlatChanges.split {α : Type} {f : α → Toml} {a b c d : List (List Str × α)} (hl : a.length = b.length) (h : FlatChanges f (a ++ c) (b ++ d)) :
    FlatChanges f a b ∧ FlatChanges f c d := by
  unfold FlatChanges at h ⊢
  rw [List.zip_append hl] at h
  exact ⟨fun x hx => h x (List.mem_append_left _ hx), fun x hx => h x (List.mem_append_right _ hx)⟩

theorem near_trees {α : Type} [DecidableEq α] {f : α → Toml} :
    (∀ t : Tree α, ∀ (t' : Tree α) p, shape t = shape t' → FlatChanges f (leavesAt p t) (leavesAt p t') →
      Toml.Near (changes (leavesAt p t) (leavesAt p t')) (Toml.ofTree f t) (Toml.ofTree f t')) ∧
    (∀ l : List (Tree α), ∀ (l' : List (Tree α)) p, shapeSeq l = shapeSeq l' → FlatChanges f (leavesSeq p l) (leavesSeq p l') →
      Toml.Near (changes (leavesSeq p l) (leavesSeq p l')) (.array (Toml.ofSeq f l)) (.array (Toml.ofSeq f l'))) ∧
    (∀ m : RMap α, ∀ (m' : RMap α) p, shapeMap m = shapeMap m' → FlatChanges f (leavesMap p m) (leavesMap p m') →
      Toml.Near (changes (leavesMap p m) (leavesMap p m')) (.table (Toml.ofMap f m)) (.table (Toml.ofMap f m'))) := by
  apply Tree.induct
  · intro l ih t' p h hf
    cases t' <;> simp only [shape, Tree.seq.injEq, reduceCtorEq] at h
    exact ih _ p h hf
  · intro l ih t' p h hf
    cases t' <;> simp only [shape, Tree.map.injEq, reduceCtorEq] at h
    exact ih _ p h hf
  · intro t' p h hf
    cases t' <;> simp only [shape, reduceCtorEq] at h
    exact .refl _
  · intro a t' p h hf
    cases t' <;> simp only [shape, reduceCtorEq] at h
    rename_i b
    simp only [leavesAt, changes_cons, changes_nil, Toml.ofTree]
    by_cases e : a = b
    · rw [e, if_pos rfl]; exact .refl _
    · rw [if_neg (by simpa using e)]
      obtain ⟨h1, h2⟩ := hf _ (List.mem_cons_self ..) (by simpa using e)
      exact .one h1 h2
  · intro l' p h hf
    cases l' <;> simp only [shapeSeq, reduceCtorEq] at h
    exact .refl _
  · intro t r iht ihr l' p h hf
    cases l' <;> simp only [shapeSeq, reduceCtorEq, List.cons.injEq] at h
    have hl := length_leaves_of_shape.1 _ _ p p h.1
    simp only [leavesSeq, Toml.ofSeq] at hf ⊢
    obtain ⟨h1, h2⟩ := hf.split hl
    rw [changes_append hl]
    exact .item (iht _ p h.1 h1) (ihr _ p h.2 h2)
  · intro l' p h hf
    cases l' <;> simp only [shapeMap, reduceCtorEq] at h
    exact .refl _
  · intro k t r iht ihr l' p h hf
    rcases l' with _ | ⟨⟨k', t'⟩, r'⟩ <;> simp only [shapeMap, reduceCtorEq, List.cons.injEq, Prod.mk.injEq] at h
    obtain ⟨⟨rfl, ht⟩, hr⟩ := h
    simp only [leavesMap, Toml.ofMap] at hf ⊢
    have hl := length_leaves_of_shape.1 t t' (p ++ [k]) (p ++ [k]) ht
    obtain ⟨h1, h2⟩ := hf.split hl
    rw [changes_append hl]
    exact .field k (iht _ _ ht h1) (ihr _ p hr h2)

theorem near_insert {α : Type} [DecidableEq α] {f : α → Toml} {d : Nat} {x x' : Toml} (hx : Toml.Near d x x') (s : Str) : ∀ (m m' : RMap α) (p : List Str),
    shapeMap m = shapeMap m' → FlatChanges f (leavesMap p m) (leavesMap p m') →
    ∃ k, k ≤ changes (leavesMap p m) (leavesMap p m') + d ∧
      Toml.Near k (.table (IndexMap.insert (Toml.ofMap f m) s x)) (.table (IndexMap.insert (Toml.ofMap f m') s x'))
  | [], [], p, _, _ => ⟨d + 0, by simp, .field s hx (.refl _)⟩
  | [], _ :: _, _, h, _ => by simp [shapeMap] at h
  | _ :: _, [], _, h, _ => by simp [shapeMap] at h
  | (k, t) :: r, (k', t') :: r', p, h, hf => by
    simp only [shapeMap, List.cons.injEq, Prod.mk.injEq] at h
    obtain ⟨⟨rfl, ht⟩, hr⟩ := h
    simp only [leavesMap, Toml.ofMap] at hf ⊢
    have hl := length_leaves_of_shape.1 t t' (p ++ [k]) (p ++ [k]) ht
    obtain ⟨h1, h2⟩ := hf.split hl
    rw [changes_append hl]
    simp only [IndexMap.insert]
    by_cases e : k = s
    · rw [if_pos e, if_pos e]
      exact ⟨_, by omega, .field s hx (near_trees.2.2 r r' p hr h2)⟩
    · rw [if_neg e, if_neg e]
      obtain ⟨n, hn, hn'⟩ := near_insert hx s r r' p hr h2
      exact ⟨_, by omega, .field k (near_trees.1 t t' _ ht h1) hn'⟩

/-! ## Files -/

theorem FlatChanges.self {α : Type} {f : α → Toml} (l : List (List Str × α)) : FlatChanges f l l := by
  intro x hx hne
  refine (hne ?_).elim
  induction l with
  | nil => cases hx
  | cons a r ih =>
    rw [List.zip_cons_cons] at hx
    rcases List.mem_cons.1 hx with rfl | hx
    · rfl
    · exact ih hx

theorem FlatChanges.append {α : Type} {f : α → Toml} {a b c d : List (List Str × α)} (hl : a.length = b.length) (h : FlatChanges f a b)
    (h' : FlatChanges f c d) : FlatChanges f (a ++ c) (b ++ d) := by
  intro x hx
  rw [List.zip_append hl] at hx
  exact (List.mem_append.1 hx).elim (h x) (h' x)

theorem toDoc_flat {C : Cipher} (hC : NameOfWords C) (md : Metadata EncValue) (date : Timestamp) (mac : EncValue) (p : List Str) :
    FlatChanges Toml.ofScalar (leavesMap p (md.toDoc fun e => EncValue.toText C e))
      (leavesMap p ({ md with lastModified := date, mac := mac }.toDoc fun e => EncValue.toText C e)) := by
  simp only [Metadata.toDoc, leavesMap_append, List.append_assoc]
  refine .append rfl (.self _) (.append rfl (.self _) (.append rfl ?_ (.self _)))
  intro x hx _
  simp only [leavesMap, leavesAt, Json.text, List.cons_append, List.nil_append, List.zip_cons_cons, List.zip_nil_left, List.mem_cons, List.not_mem_nil, or_false] at hx
  rcases hx with rfl | rfl
  · exact ⟨flat_str (no_break_docText _), flat_str (no_break_docText _)⟩
  · exact ⟨flat_str (no_break_encText hC _), flat_str (no_break_encText hC _)⟩

theorem toml_file_lines {S : TomlScalars} {C : Cipher} (hC : NameOfWords C) {f f1 : EncFile DocFormat.toml.F} {m m1 : RMap EncLeaf}
    (hw : DocFormat.toml.F.encOfInternal C m = some f.map) (hw1 : DocFormat.toml.F.encOfInternal C m1 = some f1.map)
    (hs : shapeMap m = shapeMap m1) (hb : FlatChanges (Toml.ofEncLeaf C) (leaves m) (leaves m1))
    {date : Timestamp} {mac : EncValue} (hmd : f1.metadata = { f.metadata with lastModified := date, mac := mac }) :
    FewLines (changes (leaves m) (leaves m1) + 2) (EncFile.toText S.ops C f) (EncFile.toText S.ops C f1) := by
  have e0 : f.map = Toml.ofMap (Toml.ofEncLeaf C) m := (Option.some.inj hw).symm
  have e1 : f1.map = Toml.ofMap (Toml.ofEncLeaf C) m1 := (Option.some.inj hw1).symm
  obtain ⟨e3, h3⟩ := toDoc_lines (fun e => EncValue.toText C e) f.metadata date mac
  have hd := near_trees.2.2 _ _ [] e3 (toDoc_flat hC f.metadata date mac [])
  obtain ⟨k, hk, hn⟩ := near_insert hd sopsKey m m1 [] hs hb
  have := near_render hn
  rw [← e0, ← e1, ← hmd] at this
  exact this.mono (Nat.le_trans hk (Nat.add_le_add_left (h3 []) _))

end Rops
