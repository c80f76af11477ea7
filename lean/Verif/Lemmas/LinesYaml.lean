import Verif.Lemmas.Lines
import Verif.Lemmas.YamlShown
/-!
# Lines of YAML files that stay
-/

namespace Rops

open Spec

/-! ## Characters -/

theorem no_break_append {a b : Str} (ha : '\n' ∉ a) (hb : '\n' ∉ b) : '\n' ∉ a ++ b := by
  rw [List.mem_append, not_or]
  exact ⟨ha, hb⟩

theorem no_break_cons {c : Char} {a : Str} (hc : '\n' ≠ c) (ha : '\n' ∉ a) : '\n' ∉ c :: a := by
  rw [List.mem_cons, not_or]
  exact ⟨hc, ha⟩

theorem no_break_replicate {n : Nat} {c : Char} (hc : '\n' ≠ c) : '\n' ∉ List.replicate n c := fun h => hc (List.mem_replicate.1 h).2

theorem no_break_int (n : Int64) : '\n' ∉ showInt n := by
  simp only [showInt]
  split
  · exact no_break_cons (by decide) (no_break_digits _)
  · exact no_break_digits _

theorem no_break_sign (b : Bool) : '\n' ∉ signText b := by cases b <;> decide

theorem no_break_ryu (n : Bool) (v : Nat) : '\n' ∉ F64.ryu n v := by
  have he : ∀ e, '\n' ∉ exponentText e := fun e => no_break_cons (by decide) (no_break_append (no_break_sign _) (no_break_digits _))
  have hd : ∀ (d : Nat) (k : Int), '\n' ∉ ryuDecimal d k := fun d k => by
    have h0 := no_break_digits d
    have ht : ∀ i, '\n' ∉ (Nat.toDigits 10 d).take i := fun i h => h0 (List.mem_of_mem_take h)
    have hr : ∀ i, '\n' ∉ (Nat.toDigits 10 d).drop i := fun i h => h0 (List.mem_of_mem_drop h)
    unfold ryuDecimal
    simp only
    split
    · exact no_break_append (no_break_append h0 (no_break_replicate (by decide))) (by decide)
    split
    · exact no_break_append (ht _) (no_break_cons (by decide) (hr _))
    split
    · exact no_break_append (no_break_append (by decide) (no_break_replicate (by decide))) h0
    split
    · exact no_break_append h0 (he _)
    · exact no_break_append (no_break_append (ht _) (no_break_cons (by decide) (hr _))) (he _)
  refine no_break_append (no_break_sign n) ?_
  split
  · decide
  · exact hd _ _

theorem no_break_serde (s : Str) : '\n' ∉ serdeFloats.write s := by
  unfold serdeFloats
  simp only
  split
  · exact no_break_ryu _ _
  · decide

theorem no_break_yamlNumber (n : Number) : '\n' ∉ yamlNumber n := by
  cases n with
  | posInt n => exact no_break_digits _
  | negInt n => exact no_break_int n
  | float f =>
    show '\n' ∉ yamlFloat f
    unfold yamlFloat
    split
    · exact no_break_ryu _ _
    · decide
    · decide
    · decide

theorem no_break_pad (m : Nat) : '\n' ∉ yamlPad m := no_break_replicate (by decide)

theorem no_break_shown {s : Str} (h : Shown s) : '\n' ∉ s := fun hm => absurd (h _ hm) (by decide)

/-! ## Every line is one -/

mutual
/-- Plain scalars have no line break. -/
def YamlNode.Unbroken : YamlNode → Prop
  | .plain s => '\n' ∉ s
  | .free _ => True
  | .quoted _ => True
  | .seq l => YamlNode.UnbrokenSeq l
  | .map l => YamlNode.UnbrokenMap l
  | .tagged _ v => v.Unbroken
/-- See `YamlNode.Unbroken`. -/
def YamlNode.UnbrokenSeq : List YamlNode → Prop
  | [] => True
  | v :: r => v.Unbroken ∧ YamlNode.UnbrokenSeq r
/-- See `YamlNode.Unbroken`. -/
def YamlNode.UnbrokenMap : List (YamlNode × YamlNode) → Prop
  | [] => True
  | (k, v) :: r => k.Unbroken ∧ v.Unbroken ∧ YamlNode.UnbrokenMap r
end

mutual
theorem unbroken_node : ∀ v : Yaml, v.node.Unbroken
  | .null => by show '\n' ∉ c!"null"; decide
  | .bool b => by cases b <;> (simp only [Yaml.node, YamlNode.Unbroken]; decide)
  | .num n => no_break_yamlNumber n
  | .str s => by
    show (yamlTextNode s).Unbroken
    unfold yamlTextNode
    split <;> exact trivial
  | .seq l => unbroken_nodes l
  | .map m => unbroken_entries m
  | .tagged _ v => unbroken_node v
theorem unbroken_nodes : ∀ l : List Yaml, YamlNode.UnbrokenSeq (Yaml.nodes l)
  | [] => trivial
  | v :: r => ⟨unbroken_node v, unbroken_nodes r⟩
theorem unbroken_entries : ∀ m : List (Yaml × Yaml), YamlNode.UnbrokenMap (Yaml.entryNodes m)
  | [] => trivial
  | (k, v) :: r => ⟨unbroken_node k, unbroken_node v, unbroken_entries r⟩
end

/-- Lines without line breaks in them. -/
def WholeLines (l : List Str) : Prop := ∀ s ∈ l, '\n' ∉ s

theorem WholeLines.cons {s : Str} {l : List Str} (hs : '\n' ∉ s) (hl : WholeLines l) : WholeLines (s :: l) := fun t ht => by
  rcases List.mem_cons.1 ht with rfl | ht
  · exact hs
  · exact hl t ht

theorem WholeLines.append {a b : List Str} (ha : WholeLines a) (hb : WholeLines b) : WholeLines (a ++ b) := fun t ht =>
  (List.mem_append.1 ht).elim (ha t) (hb t)

theorem whole_shown {l : List Str} (h : ShownLines l) : WholeLines l := fun s hs => no_break_shown (h s hs)

theorem whole_mark {l : List Str} (h : WholeLines l) (m : Nat) {c : Char} (hc : '\n' ≠ c) : WholeLines (markLine m c l) := by
  cases l with
  | nil => exact h
  | cons s l =>
    exact .cons (no_break_append (no_break_pad m) (no_break_cons hc fun hd => h s List.mem_cons_self (List.mem_of_mem_drop hd)))
      fun s hs => h s (List.mem_cons_of_mem _ hs)

theorem whole_key {k : YamlNode} (hk : k.Unbroken) {t : Str} (h : k.keyText = some t) : '\n' ∉ t := by
  cases k with
  | plain s =>
    obtain ⟨-, rfl⟩ := ifSome (show (if simpleText s = true then some s else none) = some t from h)
    exact hk
  | free s =>
    obtain ⟨hs, rfl⟩ := ifSome (show (if simpleText s = true then some (freeForm s).1 else none) = some t from h)
    exact no_break_shown (shown_free s).1
  | quoted s =>
    obtain ⟨hs, rfl⟩ := ifSome (show (if simpleText s = true then some (quotedForm s).1 else none) = some t from h)
    exact no_break_shown (shown_quoted s).1
  | seq l => cases h
  | map l => cases h
  | tagged t v => cases h

theorem whole_scalar {x : Str} {ls : List Str} (hx : '\n' ∉ x) (h : WholeLines ls) (m : Nat) :
    WholeLines ((yamlPad m ++ x) :: literalLines m ls) ∧ ∀ k, '\n' ∉ k → WholeLines ((k ++ (c!": " ++ x)) :: literalLines (m + 2) ls) := by
  have hl : ∀ m, WholeLines (literalLines m ls) := by
    intro m s hs
    obtain ⟨t, ht, rfl⟩ := List.mem_map.1 hs
    split
    · exact List.not_mem_nil
    · exact no_break_append (no_break_pad m) (h t ht)
  exact ⟨.cons (no_break_append (no_break_pad m) hx) (hl m), fun k hk => .cons (no_break_append hk (no_break_append (by decide) hx)) (hl _)⟩

mutual
theorem whole_lines : ∀ (v : YamlNode), v.Unbroken → ∀ m, WholeLines (v.lines m) ∧ ∀ k, '\n' ∉ k → WholeLines (v.afterKey m k)
  | .plain s, hv, m => whole_scalar (ls := []) hv nofun m
  | .free s, hv, m => whole_scalar (no_break_shown (shown_free s).1) (whole_shown (shown_free s).2) m
  | .quoted s, hv, m => whole_scalar (no_break_shown (shown_quoted s).1) (whole_shown (shown_quoted s).2) m
  | .seq [], hv, m => whole_scalar (x := c!"[]") (ls := []) (by decide) nofun m
  | .map [], hv, m => whole_scalar (x := c!"{}") (ls := []) (by decide) nofun m
  | .seq (v :: l), hv, m =>
    ⟨whole_seqLines (v :: l) hv m, fun k hk => .cons (no_break_append hk (by decide)) (whole_seqLines (v :: l) hv m)⟩
  | .map (e :: l), hv, m =>
    ⟨whole_mapLines (e :: l) hv m, fun k hk => .cons (no_break_append hk (by decide)) (whole_mapLines (e :: l) hv (m + 2))⟩
  | .tagged _ v, hv, m => whole_lines v hv m
theorem whole_seqLines : ∀ (l : List YamlNode), YamlNode.UnbrokenSeq l → ∀ m, WholeLines (YamlNode.seqLines l m)
  | [], _, _ => nofun
  | v :: l, hl, m => .append (whole_mark (whole_lines v hl.1 (m + 2)).1 m (by decide)) (whole_seqLines l hl.2 m)
theorem whole_mapLines : ∀ (l : List (YamlNode × YamlNode)), YamlNode.UnbrokenMap l → ∀ m, WholeLines (YamlNode.mapLines l m)
  | [], _, _ => nofun
  | (k, v) :: l, hl, m => by
    rw [YamlNode.mapLines]
    refine .append ?_ (whole_mapLines l hl.2.2 m)
    cases hk : k.keyText with
    | some t => exact (whole_lines v hl.2.1 m).2 _ (no_break_append (no_break_pad m) (whole_key hl.1 hk))
    | none => exact .append (whole_mark (whole_lines k hl.1 (m + 2)).1 m (by decide)) (whole_mark (whole_lines v hl.2.1 (m + 2)).1 m (by decide))
end

theorem textLines_join : ∀ {ls : List Str}, WholeLines ls → TextLines (yamlJoin ls) (ls ++ [[]])
  | [], _ => ⟨rfl, by simp⟩
  | l :: r, h => by
    have ih := textLines_join (ls := r) fun s hs => h s (List.mem_cons_of_mem _ hs)
    have e : yamlJoin (l :: r) = l ++ '\n' :: yamlJoin r := by simp [yamlJoin]
    rw [e, List.cons_append]
    cases hr : r ++ [[]] with
    | nil => simp at hr
    | cons a b =>
      rw [hr] at ih
      exact ⟨_, rfl, h l List.mem_cons_self, ih⟩

/-! ## Lines in which two documents differ -/

/-- Two lists of lines are as long and differ in few. -/
def Few (k : Nat) (a b : List Str) : Prop := a.length = b.length ∧ changes a b ≤ k

theorem Few.refl (a : List Str) : Few 0 a a := ⟨rfl, by rw [changes_self]; exact Nat.le_refl _⟩

theorem Few.append {k l : Nat} {a b c d : List Str} (h : Few k a b) (h' : Few l c d) : Few (k + l) (a ++ c) (b ++ d) :=
  ⟨by rw [List.length_append, List.length_append, h.1, h'.1], by rw [changes_append h.1]; exact Nat.add_le_add h.2 h'.2⟩

theorem Few.mono {k l : Nat} {a b : List Str} (h : Few k a b) (hk : k ≤ l) : Few l a b := ⟨h.1, Nat.le_trans h.2 hk⟩

theorem Few.cons {k : Nat} {a b : List Str} (s : Str) (h : Few k a b) : Few k (s :: a) (s :: b) := by
  have := (Few.refl [s]).append h
  rwa [Nat.zero_add] at this

theorem Few.mark {k : Nat} {a b : List Str} (h : Few k a b) (m : Nat) (c : Char) : Few k (markLine m c a) (markLine m c b) := by
  obtain ⟨h1, h2⟩ := h
  cases a with
  | nil => cases b with
    | nil => exact ⟨rfl, h2⟩
    | cons _ _ => cases h1
  | cons x a => cases b with
    | nil => cases h1
    | cons y b =>
      refine ⟨by simpa [markLine] using h1, ?_⟩
      simp only [markLine]
      rw [changes_cons] at h2 ⊢
      by_cases e : x = y
      · rw [e, if_pos rfl]; omega
      · rw [if_neg e] at h2
        split <;> omega

theorem Few.join {k : Nat} {a b : List Str} (h : Few k a b) (ha : WholeLines a) (hb : WholeLines b) : FewLines k (yamlJoin a) (yamlJoin b) := by
  have := h.append (Few.refl [[]])
  exact ⟨_, _, textLines_join ha, textLines_join hb, this.1, this.2⟩

/-- A node on one line. -/
def Brief (v : YamlNode) : Prop := ∃ x, (∀ m, v.lines m = [yamlPad m ++ x]) ∧ ∀ m k, v.afterKey m k = [k ++ (c!": " ++ x)]

theorem brief_plain (s : Str) : Brief (.plain s) := ⟨s, fun _ => rfl, fun _ _ => rfl⟩

theorem brief_text {s : Str} (h : '\n' ∉ s) : Brief (yamlTextNode s) := by
  have hq := quoted_line h
  have hf : (freeForm s).2 = [] := by
    unfold freeForm
    split
    · rfl
    · exact hq
  unfold yamlTextNode
  split
  · exact ⟨(freeForm s).1, fun m => by simp [YamlNode.lines, hf, literalLines], fun m k => by simp [YamlNode.afterKey, hf, literalLines]⟩
  · exact ⟨(quotedForm s).1, fun m => by simp [YamlNode.lines, hq, literalLines], fun m k => by simp [YamlNode.afterKey, hq, literalLines]⟩

/-- Leaves that differ are on one line. -/
def BriefChanges {α : Type} (f : α → Yaml) (l l' : List (List Str × α)) : Prop :=
  ∀ x ∈ l.zip l', x.1 ≠ x.2 → Brief (f x.1.2).node ∧ Brief (f x.2.2).node

theorem BriefChanges.split {α : Type} {f : α → Yaml} {a b c d : List (List Str × α)} (hl : a.length = b.length) (h : BriefChanges f (a ++ c) (b ++ d)) :
    BriefChanges f a b ∧ BriefChanges f c d := by
  unfold BriefChanges at h
  rw [List.zip_append hl] at h
  exact ⟨fun x hx => h x (List.mem_append_left _ hx), fun x hx => h x (List.mem_append_right _ hx)⟩

theorem yaml_lines {α : Type} [DecidableEq α] {f : α → Yaml} :
    (∀ t : Tree α, ∀ (t' : Tree α) p, shape t = shape t' → BriefChanges f (leavesAt p t) (leavesAt p t') → ∀ n,
      Few (changes (leavesAt p t) (leavesAt p t')) ((Yaml.ofTree f t).node.lines n) ((Yaml.ofTree f t').node.lines n) ∧ ∀ k,
      Few (changes (leavesAt p t) (leavesAt p t')) ((Yaml.ofTree f t).node.afterKey n k) ((Yaml.ofTree f t').node.afterKey n k)) ∧
    (∀ l : List (Tree α), ∀ (l' : List (Tree α)) p, shapeSeq l = shapeSeq l' → BriefChanges f (leavesSeq p l) (leavesSeq p l') →
      (Yaml.nodes (Yaml.ofSeq f l)).isEmpty = (Yaml.nodes (Yaml.ofSeq f l')).isEmpty ∧ ∀ n,
      Few (changes (leavesSeq p l) (leavesSeq p l')) (YamlNode.seqLines (Yaml.nodes (Yaml.ofSeq f l)) n) (YamlNode.seqLines (Yaml.nodes (Yaml.ofSeq f l')) n)) ∧
    (∀ m : RMap α, ∀ (m' : RMap α) p, shapeMap m = shapeMap m' → BriefChanges f (leavesMap p m) (leavesMap p m') →
      (Yaml.entryNodes (Yaml.ofMap f m)).isEmpty = (Yaml.entryNodes (Yaml.ofMap f m')).isEmpty ∧ ∀ n,
      Few (changes (leavesMap p m) (leavesMap p m')) (YamlNode.mapLines (Yaml.entryNodes (Yaml.ofMap f m)) n)
        (YamlNode.mapLines (Yaml.entryNodes (Yaml.ofMap f m')) n)) := by
  apply Tree.induct
  · intro l ih t' p h hb n
    cases t' <;> simp only [shape, Tree.seq.injEq, reduceCtorEq] at h
    simp only [leavesAt] at hb ⊢
    obtain ⟨h1, h2⟩ := ih _ p h hb
    simp only [Yaml.ofTree, Yaml.node, YamlNode.lines, YamlNode.afterKey, h1]
    constructor
    · split
      · exact (Few.refl _).mono (Nat.zero_le _)
      · exact h2 n
    · intro k
      split
      · exact (Few.refl _).mono (Nat.zero_le _)
      · exact (h2 n).cons _
  · intro l ih t' p h hb n
    cases t' <;> simp only [shape, Tree.map.injEq, reduceCtorEq] at h
    simp only [leavesAt] at hb ⊢
    obtain ⟨h1, h2⟩ := ih _ p h hb
    simp only [Yaml.ofTree, Yaml.node, YamlNode.lines, YamlNode.afterKey, h1]
    constructor
    · split
      · exact (Few.refl _).mono (Nat.zero_le _)
      · exact h2 n
    · intro k
      split
      · exact (Few.refl _).mono (Nat.zero_le _)
      · exact (h2 (n + 2)).cons _
  · intro t' p h hb n
    cases t' <;> simp only [shape, reduceCtorEq] at h
    exact ⟨Few.refl _, fun k => Few.refl _⟩
  · intro a t' p h hb n
    cases t' <;> simp only [shape, reduceCtorEq] at h
    rename_i b
    simp only [leavesAt, Yaml.ofTree] at hb ⊢
    by_cases e : a = b
    · subst e
      exact ⟨(Few.refl _).mono (Nat.zero_le _), fun k => (Few.refl _).mono (Nat.zero_le _)⟩
    · have e2 : (p, a) ≠ (p, b) := by simpa using e
      obtain ⟨⟨x, h1, h2⟩, ⟨y, h3, h4⟩⟩ := hb ((p, a), (p, b)) (by simp) e2
      rw [changes_cons, if_neg e2, changes_nil, h1, h3]
      refine ⟨⟨rfl, changes_le_length ..⟩, fun k => ?_⟩
      rw [h2, h4]
      exact ⟨rfl, changes_le_length ..⟩
  · intro l' p h hb
    cases l' <;> simp only [shapeSeq, reduceCtorEq] at h
    exact ⟨rfl, fun n => Few.refl _⟩
  · intro t r iht ihr l' p h hb
    cases l' <;> simp only [shapeSeq, reduceCtorEq, List.cons.injEq] at h
    simp only [leavesSeq] at hb ⊢
    have hlen := (length_leaves_of_shape (α := α) (β := α)).1 _ _ p p h.1
    obtain ⟨hb1, hb2⟩ := hb.split hlen
    refine ⟨rfl, fun n => ?_⟩
    rw [changes_append hlen]
    exact ((iht _ p h.1 hb1 (n + 2)).1.mark n '-').append ((ihr _ p h.2 hb2).2 n)
  · intro l' p h hb
    cases l' <;> simp only [shapeMap, reduceCtorEq] at h
    exact ⟨rfl, fun n => Few.refl _⟩
  · intro k t r iht ihr l' p h hb
    rcases l' with _ | ⟨⟨k', t'⟩, r'⟩ <;> simp only [shapeMap, reduceCtorEq, List.cons.injEq, Prod.mk.injEq] at h
    obtain ⟨⟨rfl, ht⟩, hr⟩ := h
    simp only [leavesMap] at hb ⊢
    have hlen := (length_leaves_of_shape (α := α) (β := α)).1 _ _ (p ++ [k]) (p ++ [k]) ht
    obtain ⟨hb1, hb2⟩ := hb.split hlen
    refine ⟨rfl, fun n => ?_⟩
    rw [changes_append hlen]
    simp only [Yaml.ofMap, Yaml.entryNodes, YamlNode.mapLines]
    refine Few.append ?_ ((ihr _ p hr hb2).2 n)
    split
    · exact (iht _ _ ht hb1 n).2 _
    · have := (Few.refl (markLine n '?' ((Yaml.str k).node.lines (n + 2)))).append ((iht _ _ ht hb1 (n + 2)).1.mark n ':')
      rwa [Nat.zero_add] at this

/-! ## Files -/

theorem no_break_docText (t : Timestamp) : '\n' ∉ t.docText := by
  have hd : ∀ n, '\n' ≠ digit n := fun n => by
    have : ∀ k : Fin 10, '\n' ≠ Nat.digitChar k := by decide
    exact this ⟨n % 10, Nat.mod_lt _ (by omega)⟩
  have h2 : ∀ n, '\n' ∉ pad2 n := fun n => no_break_cons (hd _) (no_break_cons (hd _) List.not_mem_nil)
  have h4 : ∀ n, '\n' ∉ pad4 n := fun n => no_break_cons (hd _) (no_break_cons (hd _) (h2 _))
  have hp : ∀ w n, '\n' ∉ padDigits w n := fun w => by
    induction w with
    | zero => exact fun n => List.not_mem_nil
    | succ w ih => exact fun n => no_break_append (ih _) (no_break_cons (hd _) List.not_mem_nil)
  have hy : ∀ y, '\n' ∉ yearText y := fun y => by
    unfold yearText
    split
    · exact h4 _
    · refine no_break_cons (by split <;> decide) ?_
      split
      · exact h4 _
      · exact no_break_digits _
  unfold Timestamp.docText
  have c : ∀ {c : Char}, '\n' ≠ c → '\n' ∉ [c] := fun h => no_break_cons h List.not_mem_nil
  refine no_break_append (no_break_append (no_break_append (no_break_append (no_break_append (no_break_append (no_break_append (no_break_append
    (no_break_append (no_break_append (no_break_append (no_break_append (hy _) (c (by decide))) (h2 _)) (c (by decide))) (h2 _)) (c (by decide))) (h2 _))
    (c (by decide))) (h2 _)) (c (by decide))) (h2 _)) ?_) (c (by decide))
  split
  · exact List.not_mem_nil
  split
  · exact no_break_cons (by decide) (hp _ _)
  split
  · exact no_break_cons (by decide) (hp _ _)
  · exact no_break_cons (by decide) (hp _ _)

theorem no_break_encText {C : Cipher} (hC : NameOfWords C) (e : EncValue) : '\n' ∉ e.toText C := fun h =>
  absurd (encText_chars hC e _ h) (by decide)

theorem BriefChanges.self {α : Type} {f : α → Yaml} (l : List (List Str × α)) : BriefChanges f l l := by
  intro x hx hne
  refine (hne ?_).elim
  induction l with
  | nil => cases hx
  | cons a r ih =>
    rw [List.zip_cons_cons] at hx
    rcases List.mem_cons.1 hx with rfl | hx
    · rfl
    · exact ih hx

theorem BriefChanges.append {α : Type} {f : α → Yaml} {a b c d : List (List Str × α)} (hl : a.length = b.length) (h : BriefChanges f a b)
    (h' : BriefChanges f c d) : BriefChanges f (a ++ c) (b ++ d) := by
  intro x hx
  rw [List.zip_append hl] at hx
  exact (List.mem_append.1 hx).elim (h x) (h' x)

theorem toDoc_brief {C : Cipher} (hC : NameOfWords C) (md : Metadata EncValue) (date : Timestamp) (mac : EncValue) (p : List Str) :
    BriefChanges Yaml.ofScalar (leavesMap p (md.toDoc fun e => EncValue.toText C e))
      (leavesMap p ({ md with lastModified := date, mac := mac }.toDoc fun e => EncValue.toText C e)) := by
  simp only [Metadata.toDoc, leavesMap_append, List.append_assoc]
  refine .append rfl (.self _) (.append rfl (.self _) (.append rfl ?_ (.self _)))
  intro x hx _
  simp only [leavesMap, leavesAt, Json.text, List.cons_append, List.nil_append, List.zip_cons_cons, List.zip_nil_left, List.mem_cons, List.not_mem_nil, or_false] at hx
  rcases hx with rfl | rfl
  · exact ⟨brief_text (no_break_docText _), brief_text (no_break_docText _)⟩
  · exact ⟨brief_text (no_break_encText hC _), brief_text (no_break_encText hC _)⟩

theorem entryNodes_append : ∀ a b : List (Yaml × Yaml), Yaml.entryNodes (a ++ b) = Yaml.entryNodes a ++ Yaml.entryNodes b
  | [], _ => rfl
  | (k, v) :: r, b => by rw [List.cons_append, Yaml.entryNodes, Yaml.entryNodes, entryNodes_append r b]; rfl

theorem mapLines_append (n : Nat) : ∀ a b : List (YamlNode × YamlNode), YamlNode.mapLines (a ++ b) n = YamlNode.mapLines a n ++ YamlNode.mapLines b n
  | [], _ => rfl
  | (k, v) :: r, b => by rw [List.cons_append, YamlNode.mapLines, YamlNode.mapLines, mapLines_append n r b, List.append_assoc]

theorem yaml_sops {m : List (Yaml × Yaml)} {d : RMap JsonScalar} :
    blockLayout.ops.render (Yaml.addSops m d) = yamlJoin (YamlNode.mapLines (Yaml.entryNodes m) 0 ++
      YamlNode.mapLines (Yaml.entryNodes [(.str sopsKey, .map (Yaml.ofMap Yaml.ofScalar d))]) 0) := by
  show yamlJoin ((YamlNode.map (Yaml.entryNodes (m ++ [_]))).lines 0) = _
  rw [YamlNode.lines, entryNodes_append, if_neg, mapLines_append]
  cases Yaml.entryNodes m <;> simp [Yaml.entryNodes]

theorem yaml_file_lines {C : Cipher} (hC : NameOfWords C) {f f1 : EncFile DocFormat.yaml.F} {m m1 : RMap EncLeaf}
    (hw : DocFormat.yaml.F.encOfInternal C m = some f.map) (hw1 : DocFormat.yaml.F.encOfInternal C m1 = some f1.map)
    (hs : shapeMap m = shapeMap m1) (hb : BriefChanges (Yaml.ofEncLeaf C) (leaves m) (leaves m1))
    {date : Timestamp} {mac : EncValue} (hmd : f1.metadata = { f.metadata with lastModified := date, mac := mac }) :
    FewLines (changes (leaves m) (leaves m1) + 2) (EncFile.toText blockLayout.ops C f) (EncFile.toText blockLayout.ops C f1) := by
  have e0 : f.map = Yaml.ofMap (Yaml.ofEncLeaf C) m := (Option.some.inj hw).symm
  have e1 : f1.map = Yaml.ofMap (Yaml.ofEncLeaf C) m1 := (Option.some.inj hw1).symm
  have t0 : EncFile.toText blockLayout.ops C f = _ := yaml_sops (m := f.map) (d := f.metadata.toDoc fun e => EncValue.toText C e)
  have t1 : EncFile.toText blockLayout.ops C f1 = _ := yaml_sops (m := f1.map) (d := f1.metadata.toDoc fun e => EncValue.toText C e)
  rw [t0, t1, e0, e1, hmd]
  obtain ⟨e3, h3⟩ := toDoc_lines (fun e => EncValue.toText C e) f.metadata date mac
  have hd : shapeMap [(sopsKey, Tree.map (f.metadata.toDoc fun e => EncValue.toText C e))] =
      shapeMap [(sopsKey, Tree.map ({ f.metadata with lastModified := date, mac := mac }.toDoc fun e => EncValue.toText C e))] := by
    simp only [shapeMap, shape, e3]
  have h4 := ((yaml_lines (f := Yaml.ofScalar)).2.2 _ _ [] hd (by
    simp only [leavesMap, leavesAt, List.append_nil]
    exact toDoc_brief hC _ _ _ _)).2 0
  have h5 := ((yaml_lines (f := Yaml.ofEncLeaf C)).2.2 m m1 [] hs hb).2 0
  refine ((h5.append h4).mono (Nat.add_le_add_left ?_ _)).join ?_ ?_
  · simp only [leavesMap, leavesAt, List.append_nil]
    exact h3 _
  · exact .append (whole_mapLines _ (unbroken_entries _) 0) (whole_mapLines _ (unbroken_entries _) 0)
  · exact .append (whole_mapLines _ (unbroken_entries _) 0) (whole_mapLines _ (unbroken_entries _) 0)

theorem brief_value {v : Value} (h : OneLineValue v) : Brief (Yaml.ofValue v).node := by
  cases v with
  | string s => exact brief_text (h s (.inl rfl))
  | boolean b => exact brief_plain _
  | integer i => exact brief_plain _
  | float s => exact brief_plain _

end Rops
