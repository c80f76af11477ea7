import Verif.Spec.Lines
import Verif.Lemmas.Verbatim
import Verif.Lemmas.Tree
import Verif.Lemmas.FileOps
import Verif.Lemmas.Twice
import Verif.Lemmas.JsonFiles
/-!
# Lines that stay
-/

namespace Rops

open Spec

/-! ## Counting -/

theorem changes_nil {α : Type} [DecidableEq α] : changes ([] : List α) [] = 0 := rfl

theorem changes_cons {α : Type} [DecidableEq α] (a b : α) (l l' : List α) :
    changes (a :: l) (b :: l') = (if a = b then 0 else 1) + changes l l' := by
  unfold changes
  rw [List.zip_cons_cons, List.filter_cons]
  by_cases h : a = b
  · simp [h]
  · simp [h]; omega

theorem changes_self {α : Type} [DecidableEq α] (l : List α) : changes l l = 0 := by
  induction l with
  | nil => rfl
  | cons a r ih => rw [changes_cons, ih, if_pos rfl]

theorem changes_append {α : Type} [DecidableEq α] {l l' : List α} (h : l.length = l'.length) (r r' : List α) :
    changes (l ++ r) (l' ++ r') = changes l l' + changes r r' := by
  induction l generalizing l' with
  | nil => cases l' with
    | nil => simp [changes_nil]
    | cons _ _ => cases h
  | cons a l ih => cases l' with
    | nil => cases h
    | cons b l' =>
      rw [List.cons_append, List.cons_append, changes_cons, changes_cons, ih (by simpa using h)]
      omega

theorem changes_le_length {α : Type} [DecidableEq α] (l l' : List α) : changes l l' ≤ l.length := by
  unfold changes
  exact Nat.le_trans (List.length_filter_le ..) (by rw [List.length_zip]; omega)

/-- If a second pair of lists agrees wherever the first does, it has no more changes. -/
theorem changes_mono {α β : Type} [DecidableEq α] [DecidableEq β] {l l' : List α} {r r' : List β} (h1 : l.length = l'.length)
    (h2 : r.length = l.length) (h3 : r'.length = l.length) (h : ∀ i : Nat, i < l.length → l[i]? = l'[i]? → r[i]? = r'[i]?) : changes r r' ≤ changes l l' := by
  induction l generalizing l' r r' with
  | nil =>
    cases r with
    | nil => cases r' with
      | nil => exact Nat.zero_le _
      | cons _ _ => cases h3
    | cons _ _ => cases h2
  | cons a l ih =>
    obtain ⟨b, l', rfl⟩ := List.exists_cons_of_length_pos (l := l') (by simp at h1; omega)
    obtain ⟨c, r, rfl⟩ := List.exists_cons_of_length_pos (l := r) (by simp at h2; omega)
    obtain ⟨d, r', rfl⟩ := List.exists_cons_of_length_pos (l := r') (by simp at h3; omega)
    rw [changes_cons, changes_cons]
    have h4 := ih (l' := l') (r := r) (r' := r') (by simpa using h1) (by simpa using h2) (by simpa using h3)
      fun i hi e => by simpa using h (i + 1) (by simpa using hi) (by simpa using e)
    have h0 := h 0 (by simp)
    simp only [List.getElem?_cons_zero, Option.some.injEq] at h0
    by_cases e : a = b
    · rw [if_pos e, if_pos (h0 e)]; omega
    · rw [if_neg e]; split <;> omega

/-! ## Lines -/

/-- The lines of a text followed by another. -/
def glue : List Str → List Str → List Str
  | [], lt => lt
  | [l], [] => [l]
  | [l], h :: r => (l ++ h) :: r
  | l :: ls, lt => l :: glue ls lt

theorem textLines_glue {s t : Str} : ∀ {ls lt : List Str}, TextLines s ls → TextLines t lt → TextLines (s ++ t) (glue ls lt)
  | [], _, h, _ => h.elim
  | [l], [], _, h' => h'.elim
  | [l], [h], h1, h2 => ⟨by rw [h1.1, h2.1], by simp [h1.2, h2.2]⟩
  | [l], h :: h' :: r, h1, h2 => by
    obtain ⟨u, rfl, hh, hu⟩ := h2
    exact ⟨u, by simp [h1.1], by simp [h1.2, hh], hu⟩
  | l :: l' :: r, lt, h1, h2 => by
    obtain ⟨u, rfl, hh, hu⟩ := h1
    have := textLines_glue hu h2
    rw [glue]
    · cases e : glue (l' :: r) lt with
      | nil => rw [e] at this; exact this.elim
      | cons a b => rw [e] at this; exact ⟨u ++ t, by simp, hh, this⟩
    all_goals simp

theorem glue_cons (l l' : Str) (r lt : List Str) : glue (l :: l' :: r) lt = l :: glue (l' :: r) lt := by
  rw [glue] <;> simp

theorem glue_changes : ∀ {ls ls' lt lt' : List Str}, ls ≠ [] → ls' ≠ [] → lt ≠ [] → lt' ≠ [] → ls.length = ls'.length → lt.length = lt'.length →
    (glue ls lt).length = (glue ls' lt').length ∧ changes (glue ls lt) (glue ls' lt') ≤ changes ls ls' + changes lt lt'
  | [l], [l'], h :: r, h' :: r', _, _, _, _, _, e => by
    refine ⟨by simpa [glue] using e, ?_⟩
    simp only [glue, changes_cons, changes_nil]
    by_cases e1 : l = l'
    · by_cases e2 : h = h'
      · simp [e1, e2]
      · rw [if_neg e2]; split <;> omega
    · rw [if_neg e1]; split <;> split <;> omega
  | l :: l2 :: ls, l' :: l2' :: ls', lt, lt', _, _, h1, h2, e, e' => by
    obtain ⟨h3, h4⟩ := glue_changes (ls := l2 :: ls) (ls' := l2' :: ls') (by simp) (by simp) h1 h2 (by simpa using e) e'
    rw [glue_cons, glue_cons]
    refine ⟨by simpa using h3, ?_⟩
    rw [changes_cons, changes_cons l l']
    omega
  | [_], _ :: _ :: _, _, _, _, _, _, _, e, _ => by simp at e
  | _ :: _ :: _, [_], _, _, _, _, _, _, e, _ => by simp at e
  | [], _, _, _, h, _, _, _, _, _ => (h rfl).elim
  | _, [], _, _, _, h, _, _, _, _ => (h rfl).elim
  | _, _, [], _, _, _, h, _, _, _ => (h rfl).elim
  | _, _, _, [], _, _, _, h, _, _ => (h rfl).elim

theorem Spec.TextLines.ne_nil {s : Str} {ls : List Str} (h : TextLines s ls) : ls ≠ [] := by
  rintro rfl
  exact h

theorem Spec.FewLines.append {k k' : Nat} {s s' t t' : Str} (h : FewLines k s s') (h' : FewLines k' t t') : FewLines (k + k') (s ++ t) (s' ++ t') := by
  obtain ⟨ls, ls', h1, h2, h3, h4⟩ := h
  obtain ⟨lt, lt', g1, g2, g3, g4⟩ := h'
  obtain ⟨e1, e2⟩ := glue_changes h1.ne_nil h2.ne_nil g1.ne_nil g2.ne_nil h3 g3
  exact ⟨_, _, textLines_glue h1 g1, textLines_glue h2 g2, e1, by omega⟩

theorem textLines_exist : ∀ s : Str, ∃ ls, TextLines s ls
  | [] => ⟨[[]], rfl, by simp⟩
  | c :: s => by
    obtain ⟨ls, h⟩ := textLines_exist s
    by_cases e : c = '\n'
    · subst e
      cases ls with
      | nil => exact h.elim
      | cons l r => exact ⟨[] :: l :: r, s, rfl, by simp, h⟩
    · have h0 : TextLines [c] [[c]] := ⟨rfl, by simpa using fun h => e h.symm⟩
      exact ⟨_, textLines_glue h0 h⟩

theorem Spec.FewLines.refl (s : Str) : FewLines 0 s s := by
  obtain ⟨ls, h⟩ := textLines_exist s
  exact ⟨ls, ls, h, h, rfl, by rw [changes_self]; exact Nat.le_refl 0⟩

theorem Spec.FewLines.mono {k k' : Nat} {s s' : Str} (h : FewLines k s s') (hk : k ≤ k') : FewLines k' s s' := by
  obtain ⟨ls, ls', h1, h2, h3, h4⟩ := h
  exact ⟨ls, ls', h1, h2, h3, by omega⟩

theorem Spec.FewLines.one {s s' : Str} (h : '\n' ∉ s) (h' : '\n' ∉ s') : FewLines 1 s s' :=
  ⟨[s], [s'], ⟨rfl, h⟩, ⟨rfl, h'⟩, rfl, changes_le_length ..⟩

theorem Spec.FewLines.prepend {k : Nat} {s s' : Str} (p : Str) (h : FewLines k s s') : FewLines k (p ++ s) (p ++ s') := by
  have := (FewLines.refl p).append h
  rwa [Nat.zero_add] at this

theorem Spec.FewLines.postpend {k : Nat} {s s' : Str} (h : FewLines k s s') (q : Str) : FewLines k (s ++ q) (s' ++ q) := h.append (FewLines.refl q)

theorem Spec.FewLines.cons {k : Nat} {s s' : Str} (c : Char) (h : FewLines k s s') : FewLines k (c :: s) (c :: s') := h.prepend [c]

/-! ## JSON -/

theorem no_break_quote (s : Str) : '\n' ∉ jsonQuote s := by
  have hx : ∀ n, n < 16 → '\n' ≠ jsonHex n := by decide
  have hc : ∀ c, '\n' ∉ jsonEscape c := by
    intro c
    unfold jsonEscape
    split; · decide
    split; · decide
    split; · decide
    split; · decide
    split; · decide
    split; · decide
    split; · decide
    split
    · simp only [List.mem_cons, List.not_mem_nil, or_false, not_or]
      exact ⟨by decide, by decide, by decide, by decide, hx _ (by omega), hx _ (by omega)⟩
    · rename_i h
      rw [List.mem_singleton]
      rintro rfl
      exact h (by decide)
  unfold jsonQuote
  simp only [List.mem_cons, List.mem_append, List.mem_flatMap, List.not_mem_nil, or_false, not_or, not_exists, not_and]
  exact ⟨by decide, fun c _ => hc c, by decide⟩

theorem no_break_digits (n : Nat) : '\n' ∉ Nat.toDigits 10 n := fun h => by
  have := Nat.isDigit_of_mem_toDigits (by decide) (by decide) h
  revert this
  decide

theorem no_break_scalar {J : JsonFloats} (hJ : ∀ s, '\n' ∉ J.write s) (a : JsonScalar) : '\n' ∉ a.text J := by
  rcases a with (_ | _) | (n | n | s) | s
  · simp only [JsonScalar.text]; decide
  · simp only [JsonScalar.text]; decide
  · exact no_break_digits _
  · simp only [JsonScalar.text, Number.jsonText, showInt]
    split
    · simp only [List.mem_cons, not_or]
      exact ⟨by decide, no_break_digits _⟩
    · exact no_break_digits _
  · exact hJ s
  · exact no_break_quote s

theorem pretty_lines {J : JsonFloats} (hJ : ∀ s, '\n' ∉ J.write s) :
    (∀ t : Json, ∀ (t' : Json) p n, shape t = shape t' → FewLines (changes (leavesAt p t) (leavesAt p t')) (Json.pretty J n t) (Json.pretty J n t')) ∧
    (∀ l : List Json, ∀ (l' : List Json) p n f, shapeSeq l = shapeSeq l' →
      FewLines (changes (leavesSeq p l) (leavesSeq p l')) (Json.prettySeq J n f l) (Json.prettySeq J n f l') ∧ l.isEmpty = l'.isEmpty) ∧
    (∀ m : List (Str × Json), ∀ (m' : List (Str × Json)) p n f, shapeMap m = shapeMap m' →
      FewLines (changes (leavesMap p m) (leavesMap p m')) (Json.prettyMap J n f m) (Json.prettyMap J n f m') ∧ m.isEmpty = m'.isEmpty) := by
  apply Tree.induct
  · intro l ih t' p n h
    cases t' <;> simp only [shape, Tree.seq.injEq, reduceCtorEq] at h
    obtain ⟨h1, h2⟩ := ih _ p (n + 1) true h
    simp only [leavesAt, Json.pretty, h2]
    exact (h1.postpend _).cons _
  · intro l ih t' p n h
    cases t' <;> simp only [shape, Tree.map.injEq, reduceCtorEq] at h
    obtain ⟨h1, h2⟩ := ih _ p (n + 1) true h
    simp only [leavesAt, Json.pretty, h2]
    exact (h1.postpend _).cons _
  · intro t' p n h
    cases t' <;> simp only [shape, reduceCtorEq] at h
    exact (FewLines.refl _)
  · intro a t' p n h
    cases t' <;> simp only [shape, reduceCtorEq] at h
    rename_i b
    simp only [leavesAt, Json.pretty, changes_cons, changes_nil]
    by_cases e : a = b
    · rw [e]; exact (FewLines.refl _).mono (Nat.zero_le _)
    · rw [if_neg (by simpa using e)]
      exact .one (no_break_scalar hJ a) (no_break_scalar hJ b)
  · intro l' p n f h
    cases l' <;> simp only [shapeSeq, reduceCtorEq] at h
    exact ⟨FewLines.refl _, rfl⟩
  · intro t r iht ihr l' p n f h
    cases l' <;> simp only [shapeSeq, reduceCtorEq, List.cons.injEq] at h
    simp only [leavesSeq, Json.prettySeq]
    rw [changes_append (length_leaves_of_shape.1 _ _ _ _ h.1)]
    exact ⟨.prepend _ (.prepend _ ((iht _ p n h.1).append (ihr _ p n false h.2).1)), rfl⟩
  · intro l' p n f h
    cases l' <;> simp only [shapeMap, reduceCtorEq] at h
    exact ⟨FewLines.refl _, rfl⟩
  · intro k t r iht ihr l' p n f h
    rcases l' with _ | ⟨⟨k', t'⟩, r'⟩ <;> simp only [shapeMap, reduceCtorEq, List.cons.injEq, Prod.mk.injEq] at h
    obtain ⟨⟨rfl, ht⟩, hr⟩ := h
    simp only [leavesMap, Json.prettyMap]
    rw [changes_append (length_leaves_of_shape.1 _ _ _ _ ht)]
    exact ⟨.prepend _ (.prepend _ (.prepend _ (.cons _ (.cons _ ((iht _ _ n ht).append (ihr _ p n false hr).1))))), rfl⟩

theorem render_lines {J : JsonFloats} (hJ : ∀ s, '\n' ∉ J.write s) {m m' : List (Str × Json)} (h : shapeMap m = shapeMap m') :
    FewLines (changes (leaves m) (leaves m')) (Json.render J m) (Json.render J m') := by
  have := (pretty_lines hJ).1 (.map m) (.map m') [] 0 (by simp only [shape, h])
  exact this

/-! ## Files -/

theorem shapeMap_append {α : Type} : ∀ (a b : RMap α), shapeMap (a ++ b) = shapeMap a ++ shapeMap b
  | [], _ => rfl
  | (k, t) :: r, b => by simp only [List.cons_append, shapeMap, shapeMap_append r b]

theorem zip_changes {α β : Type} [DecidableEq α] [DecidableEq β] {f : α → Option β} {l l' : List (List Str × α)} {r r' : List (List Str × β)}
    (h : Zip (fun a b => b.1 = a.1 ∧ f a.2 = some b.2) l r) (h' : Zip (fun a b => b.1 = a.1 ∧ f a.2 = some b.2) l' r')
    (hl : l.length = l'.length) : changes r r' ≤ changes l l' := by
  induction h generalizing l' r' with
  | nil => cases h' with
    | nil => exact Nat.le_refl _
    | cons _ _ => cases hl
  | cons h1 _ ih => cases h' with
    | nil => cases hl
    | cons h1' h2' =>
      rw [changes_cons, changes_cons]
      have := ih h2' (by simpa using hl)
      split <;> split <;> try omega
      rename_i h3 h4
      subst h4
      refine (h3 ?_).elim
      exact Prod.ext (h1.1.trans h1'.1.symm) (Option.some.inj (h1.2.symm.trans h1'.2))

theorem toDoc_lines {M : Type} (showMac : M → Str) (md : Metadata M) (date : Timestamp) (mac : M) :
    shapeMap (md.toDoc showMac) = shapeMap ({ md with lastModified := date, mac := mac }.toDoc showMac) ∧
    ∀ p, changes (leavesMap p (md.toDoc showMac)) (leavesMap p ({ md with lastModified := date, mac := mac }.toDoc showMac)) ≤ 2 := by
  constructor
  · simp only [Metadata.toDoc, shapeMap_append, shapeMap, Json.text, shape]
  · intro p
    simp only [Metadata.toDoc, leavesMap_append, List.append_assoc]
    rw [changes_append rfl, changes_append rfl, changes_append (by simp [leavesMap, leavesAt, Json.text]), changes_append rfl]
    simp only [changes_self]
    have := changes_le_length (leavesMap p [(c!"lastmodified", Json.text md.lastModified.docText), (c!"mac", Json.text (showMac md.mac))])
      (leavesMap p [(c!"lastmodified", Json.text date.docText), (c!"mac", Json.text (showMac mac))])
    have h2 : (leavesMap p [(c!"lastmodified", Json.text md.lastModified.docText), (c!"mac", Json.text (showMac md.mac))]).length = 2 := rfl
    omega

theorem sops_lines {a b : List (Str × Json)} (h : shapeMap a = shapeMap b) {d d' : RMap JsonScalar} (hd : shapeMap d = shapeMap d')
    {n : Nat} (hn : ∀ p, changes (leavesMap p d) (leavesMap p d') ≤ n) :
    shapeMap (Json.addSops a d) = shapeMap (Json.addSops b d') ∧
    changes (leaves (Json.addSops a d)) (leaves (Json.addSops b d')) ≤ changes (leaves a) (leaves b) + n := by
  constructor
  · simp only [Json.addSops, shapeMap_append, h, shapeMap, shape, hd]
  · simp only [Json.addSops, leaves, leavesMap_append]
    rw [changes_append (length_leaves_of_shape.2.2 _ _ _ _ h)]
    refine Nat.add_le_add_left ?_ _
    simp only [leavesMap, leavesAt, List.append_nil]
    exact hn _

theorem json_file_lines {J : JsonFloats} (hJ : ∀ s, '\n' ∉ J.write s) {C : Cipher} {f f1 : EncFile DocFormat.json.F} {m m1 : RMap EncLeaf}
    (hw : DocFormat.json.F.encOfInternal C m = some f.map) (hw1 : DocFormat.json.F.encOfInternal C m1 = some f1.map)
    (hs : shapeMap m = shapeMap m1) {date : Timestamp} {mac : EncValue} (hmd : f1.metadata = { f.metadata with lastModified := date, mac := mac }) :
    FewLines (changes (leaves m) (leaves m1) + 2) (EncFile.toText J.ops C f) (EncFile.toText J.ops C f1) := by
  obtain ⟨e1, z1⟩ := mapM_zip.2.2 m f.map hw
  obtain ⟨e2, z2⟩ := mapM_zip.2.2 m1 f1.map hw1
  obtain ⟨e3, h3⟩ := toDoc_lines (fun e => EncValue.toText C e) f.metadata date mac
  have hsh : shapeMap f.map = shapeMap f1.map := by rw [e1, e2, hs]
  have hc : changes (leaves (α := JsonScalar) f.map) (leaves f1.map) ≤ changes (leaves m) (leaves m1) :=
    zip_changes (z1 []) (z2 []) (length_leaves_of_shape.2.2 _ _ _ _ hs)
  obtain ⟨h4, h5⟩ := sops_lines hsh e3 h3
  have e : f1.toDoc DocFormat.json C = Json.addSops f1.map ({ f.metadata with lastModified := date, mac := mac }.toDoc fun e => EncValue.toText C e) := by
    rw [← hmd]; rfl
  rw [← e] at h4 h5
  exact (render_lines hJ (m := f.toDoc DocFormat.json C) (m' := f1.toDoc DocFormat.json C) h4).mono (Nat.le_trans h5 (Nat.add_le_add_right hc 2))

/-! ## Edits -/

/-- What an edit leaves unchanged. -/
theorem edit_keeps {env : Env} (he : EnvLaws env) {F Fo : Format} {rep rep' : Value → Prop} (hFo : Format.Lawful Fo rep')
    {f f1 : EncFile F} {key : Bytes} {m m1 : RMap Value} {m' : RMap EncLeaf} (h : Holding env rep f key m m') (hm' : Holds rep' m)
    (hu : OneNonceEach m m') {g g1 : DecFile Fo} {p : SavedParameters} (hd : f.decryptAndSave Fo env = .ok (g, p)) {other : Fo.Map} {c : Nat}
    (hs : g.setMap env other c = .ok g1) (hr : Fo.toInternal g1.map = .ok m1) {i j : Nat} (h1 : g1.encryptSaved F env p i = .ok (f1, j)) :
    ∃ m1', F.encOfInternal env.C m1' = some f1.map ∧ shapeMap m1' = shapeMap m1 ∧
      (∀ (a b : Nat) (q : List Str) (v : Value) (l : EncLeaf), (leaves m)[a]? = some (q, v) → (leaves m')[a]? = some (q, l) →
        (leaves m1)[b]? = some (q, v) → (leaves m1')[b]? = some (q, l)) ∧
      (∀ (b : Nat) (q : List Str) (l : EncLeaf), (leaves m1')[b]? = some (q, l) → ∃ w, (leaves m1)[b]? = some (q, w) ∧
        ((∃ e, l = .encrypted e) ∨ l = .escaped w ∧ Plain env.rx f.metadata.partialEncryption (q.map lastPart))) ∧
      f1.metadata = { f.metadata with lastModified := f1.metadata.lastModified, mac := f1.metadata.mac } := by
  obtain ⟨_, hg, hmd, rfl⟩ := of_decryptAndSave_holding he hFo h hm' hd
  have hg1 : g1.metadata = { g.metadata with lastModified := g1.metadata.lastModified, mac := g1.metadata.mac } := by
    unfold DecFile.setMap at hs
    simp only at hs
    split at hs
    · cases hs
    split at hs
    · cases hs
    · cases hs; rfl
  obtain ⟨m2, m1', i1, h2, h3, h4, h5, h6⟩ := encryptWith_ok_iff.1 h1
  rw [hr] at h2
  cases h2
  obtain ⟨hsh, ht⟩ := RMap.encrypt_ok_iff.1 h3
  refine ⟨m1', h6, hsh, fun a b q v l ha hl hb => ?_, fun b q l hb => ?_, ?_⟩
  · have hlen : (leaves m1').length = (leaves m1).length := length_leaves_of_shape.2.2 _ _ _ _ hsh
    have hb2 : b < (leaves m1').length := by rw [hlen]; exact (List.getElem?_eq_some_iff.1 hb).1
    have hb3 : (leaves m1')[b]? = some ((leaves m1')[b].1, (leaves m1')[b].2) := List.getElem?_eq_getElem hb2
    obtain ⟨v1, s1, s2, hv1, hf⟩ := travList_getElem' ht hb3
    rw [hb] at hv1
    obtain ⟨e1, e2⟩ := Prod.mk.inj (Option.some.inj hv1)
    rw [hb3, ← e1]
    rw [← e1, ← e2, EncEnv.leafAt_ok] at hf
    have hpl : Plain env.rx f.metadata.partialEncryption (q.map lastPart) ↔ Plain env.rx f.metadata.partialEncryption q :=
      plain_lastPart h.fits.keys (List.mem_of_getElem? ha)
    have hcfg : g1.metadata.partialEncryption = f.metadata.partialEncryption := by rw [hg1, hmd]; rfl
    rw [hcfg] at hf
    have hf : (Plain env.rx f.metadata.partialEncryption (q.map lastPart) ∧ _) ∨ (¬ Plain env.rx f.metadata.partialEncryption (q.map lastPart) ∧ _) := hf
    rw [hpl] at hf
    obtain ⟨⟨q2, v2⟩, z1, hz⟩ := h.sealed.2.getElem' hl
    rw [ha] at z1
    cases z1
    obtain ⟨_, hz⟩ := hz
    rcases hf with ⟨hp, e3, _⟩ | ⟨hp, e, e3, he3, _⟩
    · rw [e3]
      rcases hz with ⟨_, e4⟩ | ⟨hn, _⟩
      · simp only at e4
        rw [e4]
      · exact (hn hp).elim
    · rw [e3]
      rcases hz with ⟨hn, _⟩ | ⟨_, e', e4, hse⟩
      · exact (hp hn).elim
      · simp only at e4
        rw [e4] at hl ⊢
        have hget := savedAll_get_eq (ls := leaves m') (vs := leaves m) (fun a b q1 q2 q1' q2' x y w g1 g2 g3 g4 g5 => by
          obtain ⟨⟨p1, v1⟩, z1, r1⟩ := h.sealed.2.getElem' g1
          obtain ⟨⟨p2, v2⟩, z2, r2⟩ := h.sealed.2.getElem' g2
          rw [g3] at z1; cases z1
          rw [g4] at z2; cases z2
          cases r1.1; cases r2.1
          exact hu a b _ _ w x y g3 g4 g1 g2 g5) hl ha
        have hn : (env.encEnv key (some (savedAll (leaves m') (leaves m) []))).nonceFor (pathText q) v s1 = (e'.nonce, s1) := by
          simp [EncEnv.nonceFor, Env.encEnv, hget]
        rw [hn] at he3
        have h7 := seals_encrypt hse
        have he3 : v.encrypt env.C e'.nonce key (pathText q) = some e := he3
        rw [h7] at he3
        cases he3
        rfl
  · obtain ⟨v1, s1, s2, hv1, hf⟩ := travList_getElem' ht hb
    have hcfg : g1.metadata.partialEncryption = f.metadata.partialEncryption := by rw [hg1, hmd]; rfl
    rw [EncEnv.leafAt_ok, hcfg] at hf
    refine ⟨v1, hv1, ?_⟩
    rcases hf with ⟨hp, e3, _⟩ | ⟨_, e, e3, _⟩
    · exact .inr ⟨e3, hp⟩
    · exact .inl ⟨e, e3⟩
  · rw [h5, hg1, hmd]
    rfl

theorem paths_of_shape {α β : Type} :
    (∀ t : Tree α, ∀ (t' : Tree β) p, shape t = shape t' → (leavesAt p t).map Prod.fst = (leavesAt p t').map Prod.fst) ∧
    (∀ l : List (Tree α), ∀ (l' : List (Tree β)) p, shapeSeq l = shapeSeq l' → (leavesSeq p l).map Prod.fst = (leavesSeq p l').map Prod.fst) ∧
    (∀ m : RMap α, ∀ (m' : RMap β) p, shapeMap m = shapeMap m' → (leavesMap p m).map Prod.fst = (leavesMap p m').map Prod.fst) := by
  apply Tree.induct
  · intro l ih t' p h
    cases t' <;> simp only [shape, Tree.seq.injEq, reduceCtorEq] at h
    exact ih _ _ h
  · intro l ih t' p h
    cases t' <;> simp only [shape, Tree.map.injEq, reduceCtorEq] at h
    exact ih _ _ h
  · intro t' p h
    cases t' <;> simp only [shape, reduceCtorEq] at h
    rfl
  · intro a t' p h
    cases t' <;> simp only [shape, reduceCtorEq] at h
    rfl
  · intro l' p h
    cases l' <;> simp only [shapeSeq, reduceCtorEq] at h
    rfl
  · intro t r iht ihr l' p h
    cases l' <;> simp only [shapeSeq, reduceCtorEq, List.cons.injEq] at h
    simp only [leavesSeq, List.map_append]
    rw [iht _ _ h.1, ihr _ _ h.2]
  · intro l' p h
    cases l' <;> simp only [shapeMap, reduceCtorEq] at h
    rfl
  · intro k t r iht ihr l' p h
    rcases l' with _ | ⟨⟨k', t'⟩, r'⟩ <;> simp only [shapeMap, reduceCtorEq, List.cons.injEq, Prod.mk.injEq] at h
    obtain ⟨⟨rfl, ht⟩, hr⟩ := h
    simp only [leavesMap, List.map_append]
    rw [iht _ _ ht, ihr _ _ hr]

theorem path_at {α β : Type} {m : RMap α} {m' : RMap β} (h : shapeMap m = shapeMap m') {i : Nat} {q : List Str} {a : α}
    (ha : (leaves m)[i]? = some (q, a)) : ∃ b, (leaves m')[i]? = some (q, b) := by
  have h1 := congrArg (fun l => l[i]?) (paths_of_shape.2.2 m m' [] h)
  simp only [List.getElem?_map] at h1
  have ha' : (leavesMap [] m)[i]? = some (q, a) := ha
  rw [ha'] at h1
  cases e : (leavesMap [] m')[i]? with
  | none => rw [e] at h1; cases h1
  | some x =>
    rw [e] at h1
    obtain ⟨q', b⟩ := x
    simp only [Option.map_some, Option.some.injEq] at h1
    subst h1
    exact ⟨b, e⟩

/-- Leaves that stay keep the count of changes. -/
theorem kept_changes {m m1 : RMap Value} {m' m1' : RMap EncLeaf} (h : shapeMap m' = shapeMap m) (h1 : shapeMap m1' = shapeMap m1)
    (hs : shapeMap m = shapeMap m1)
    (hk : ∀ (a b : Nat) (q : List Str) (v : Value) (l : EncLeaf), (leaves m)[a]? = some (q, v) → (leaves m')[a]? = some (q, l) →
        (leaves m1)[b]? = some (q, v) → (leaves m1')[b]? = some (q, l)) : changes (leaves m') (leaves m1') ≤ changes (leaves m) (leaves m1) := by
  have len : ∀ {α β : Type} {x : RMap α} {y : RMap β}, shapeMap x = shapeMap y → (leaves x).length = (leaves y).length :=
    fun h => length_leaves_of_shape.2.2 _ _ _ _ h
  refine changes_mono (len hs) (len h) ((len h1).trans (len hs).symm) fun i hi e => ?_
  have hv : (leaves m)[i]? = some ((leaves m)[i].1, (leaves m)[i].2) := List.getElem?_eq_getElem hi
  obtain ⟨l, hl⟩ := path_at h.symm hv
  rw [hl, hk i i _ _ l hv hl (e.symm.trans hv)]

end Rops
