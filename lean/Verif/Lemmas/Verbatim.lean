import Verif.Model.YamlLayout
import Verif.Model.TomlText
import Verif.Model.JsonText
import Verif.Lemmas.Encoding
import Verif.Spec.Verbatim
import Verif.Model.Document
/-!
# Encrypted values as they stand in files
-/

namespace Rops

open Spec

theorem Spec.Within.refl (b : Str) : Within b b := ⟨[], [], by simp⟩

theorem Spec.Within.trans {a b c : Str} (h : Within a b) (h' : Within b c) : Within a c := by
  obtain ⟨p, q, rfl⟩ := h
  obtain ⟨p', q', rfl⟩ := h'
  exact ⟨p' ++ p, q ++ q', by simp⟩

theorem Spec.Within.left {a b : Str} (h : Within a b) (p : Str) : Within a (p ++ b) := h.trans ⟨p, [], by simp⟩
theorem Spec.Within.right {a b : Str} (h : Within a b) (q : Str) : Within a (b ++ q) := h.trans ⟨[], q, by simp⟩
theorem Spec.Within.cons {a b : Str} (h : Within a b) (c : Char) : Within a (c :: b) := h.left [c]

/-! ## The characters of an encrypted value -/

/-- A character that is written as it is everywhere. -/
def TextChar (c : Char) : Prop := 0x21 ≤ c.toNat ∧ c.toNat ≤ 0x7e ∧ c ≠ '"' ∧ c ≠ '\\' ∧ c ≠ '#'

instance (c : Char) : Decidable (TextChar c) := by unfold TextChar; infer_instance

theorem textChar_getD {l : Str} (h : ∀ c ∈ l, TextChar c) (i : Nat) : TextChar (l.getD i '?') := by
  rw [List.getD_eq_getElem?_getD]
  cases e : l[i]? with
  | none => decide
  | some c => exact h c (List.mem_of_getElem? e)

theorem base64_chars (b : Bytes) : ∀ c ∈ Base64.encode b, TextChar c := by
  rw [Base64.encode_eq_spec, base64]
  intro c hc
  rcases List.mem_append.1 hc with h | h
  · rw [base64Symbols, List.mem_map] at h
    obtain ⟨g, _, rfl⟩ := h
    exact textChar_getD (by unfold base64Alphabet; decide) _
  · rw [(List.mem_replicate.1 h).2]
    decide

theorem encText_chars {C : Cipher} (hC : NameOfWords C) (e : EncValue) : ∀ c ∈ e.toText C, TextChar c := by
  have hn : ∀ c ∈ C.name, TextChar c := fun c hc => by
    rcases hC c hc with h | rfl
    · simp only [Char.isAlphanum, Char.isAlpha, Char.isUpper, Char.isLower, Char.isDigit, Bool.or_eq_true, Bool.and_eq_true, decide_eq_true_eq] at h
      have h2 : c.toNat = c.val.toNat := rfl
      refine ⟨?_, ?_, ?_, ?_, ?_⟩
      · rcases h with (⟨h, _⟩ | ⟨h, _⟩) | ⟨h, _⟩ <;> · have := UInt32.le_iff_toNat_le.1 h; simp at this; omega
      · rcases h with (⟨_, h⟩ | ⟨_, h⟩) | ⟨_, h⟩ <;> · have := UInt32.le_iff_toNat_le.1 h; simp at this; omega
      all_goals rintro rfl; revert h; decide
    · decide
  intro c hc
  simp only [EncValue.toText, List.mem_append] at hc
  have lit : ∀ l : Str, (∀ c ∈ l, TextChar c) → c ∈ l → TextChar c := fun l h => h c
  rcases hc with (((((((((h | h) | h) | h) | h) | h) | h) | h) | h) | h) | h
  · exact lit _ (by decide) h
  · exact hn c h
  · exact lit _ (by decide) h
  · exact base64_chars _ c h
  · exact lit _ (by decide) h
  · exact base64_chars _ c h
  · exact lit _ (by decide) h
  · exact base64_chars _ c h
  · exact lit _ (by decide) h
  · exact lit _ (by cases e.variant <;> decide) h
  · exact lit _ (by decide) h

theorem encText_begins {C : Cipher} (e : EncValue) : ∃ r, e.toText C = 'E' :: 'N' :: 'C' :: (r ++ [']']) :=
  ⟨'[' :: (C.name ++ c!",data:" ++ Base64.encode e.data ++ c!",iv:" ++ Base64.encode e.nonce ++ c!",tag:" ++ Base64.encode e.tag ++
    c!",type:" ++ e.variant.toText), by simp [EncValue.toText]⟩

/-! ## Leaves -/

/-- A leaf is in a tree. -/
inductive InTree {α : Type} (a : α) : Tree α → Prop
  | leaf : InTree a (.leaf a)
  | seq {l : List (Tree α)} {t : Tree α} : t ∈ l → InTree a t → InTree a (.seq l)
  | map {m : RMap α} {k : Str} {t : Tree α} : (k, t) ∈ m → InTree a t → InTree a (.map m)

mutual
theorem inTree_of {α : Type} {a : α} : ∀ (t : Tree α) {p q : List Str}, (p, a) ∈ leavesAt q t → InTree a t
  | .leaf b, p, q, h => by
    simp only [leavesAt, List.mem_singleton, Prod.mk.injEq] at h
    rw [h.2]
    exact .leaf
  | .null, p, q, h => by simp [leavesAt] at h
  | .seq l, p, q, h => by
    obtain ⟨t, ht, h⟩ := inSeq_of l (by simpa only [leavesAt] using h)
    exact .seq ht h
  | .map m, p, q, h => by
    obtain ⟨k, t, ht, h⟩ := inMap_of m (by simpa only [leavesAt] using h)
    exact .map ht h
theorem inSeq_of {α : Type} {a : α} : ∀ (l : List (Tree α)) {p q : List Str}, (p, a) ∈ leavesSeq q l → ∃ t ∈ l, InTree a t
  | [], p, q, h => by simp [leavesSeq] at h
  | t :: r, p, q, h => by
    simp only [leavesSeq, List.mem_append] at h
    rcases h with h | h
    · exact ⟨t, List.mem_cons_self, inTree_of t h⟩
    · obtain ⟨u, hu, h⟩ := inSeq_of r h
      exact ⟨u, List.mem_cons_of_mem _ hu, h⟩
theorem inMap_of {α : Type} {a : α} : ∀ (m : RMap α) {p q : List Str}, (p, a) ∈ leavesMap q m → ∃ k t, (k, t) ∈ m ∧ InTree a t
  | [], p, q, h => by simp [leavesMap] at h
  | (k, t) :: r, p, q, h => by
    simp only [leavesMap, List.mem_append] at h
    rcases h with h | h
    · exact ⟨k, t, List.mem_cons_self, inTree_of t h⟩
    · obtain ⟨k', u, hu, h⟩ := inMap_of r h
      exact ⟨k', u, List.mem_cons_of_mem _ hu, h⟩
end

/-! ## JSON -/

theorem quote_plain {s : Str} (h : ∀ c ∈ s, TextChar c) : jsonQuote s = '"' :: (s ++ ['"']) := by
  have : s.flatMap jsonEscape = s := by
    induction s with
    | nil => rfl
    | cons c r ih =>
      obtain ⟨h1, h2, h3, h4, _⟩ := h c List.mem_cons_self
      rw [List.flatMap_cons, ih fun d hd => h d (List.mem_cons_of_mem _ hd), jsonEscape, if_neg h3, if_neg h4, if_neg (by omega), if_neg (by omega),
        if_neg (by omega), if_neg (by omega), if_neg (by omega), if_neg (by omega)]
      rfl
  rw [jsonQuote, this]

theorem prettySeq_within {J : JsonFloats} {b : Str} {n : Nat} {t : Json} (h : Within b (Json.pretty J n t)) :
    ∀ {l : List Json} {f : Bool}, t ∈ l → Within b (Json.prettySeq J n f l)
  | u :: r, f, ht => by
    rw [Json.prettySeq]
    refine .left (.left ?_ _) _
    rcases List.mem_cons.1 ht with rfl | ht
    · exact h.right _
    · exact .left (prettySeq_within h ht) _

theorem prettyMap_within {J : JsonFloats} {b : Str} {n : Nat} {k : Str} {t : Json} (h : Within b (Json.pretty J n t)) :
    ∀ {l : List (Str × Json)} {f : Bool}, (k, t) ∈ l → Within b (Json.prettyMap J n f l)
  | (k', u) :: r, f, ht => by
    rw [Json.prettyMap]
    refine .left (.left (.left (.cons (.cons ?_ _) _) _) _) _
    rcases List.mem_cons.1 ht with e | ht
    · cases e; exact h.right _
    · exact .left (prettyMap_within h ht) _

theorem pretty_within {J : JsonFloats} {s : Str} {t : Json} (h : InTree (.str s) t) : ∀ n, Within (jsonQuote s) (Json.pretty J n t) := by
  induction h with
  | leaf => intro n; rw [Json.pretty, JsonScalar.text]; exact .refl _
  | seq ht _ ih => intro n; rw [Json.pretty]; exact .cons (.right (prettySeq_within (ih _) ht) _) _
  | map ht _ ih => intro n; rw [Json.pretty]; exact .cons (.right (prettyMap_within (ih _) ht) _) _

theorem mapSeqM_mem {α β : Type} {f : α → Option β} : ∀ {l : List (Tree α)} {l' : List (Tree β)} {t : Tree α}, Tree.mapSeqM f l = some l' → t ∈ l →
    ∃ t' ∈ l', Tree.mapM f t = some t'
  | u :: r, l', t, h, ht => by
    rw [Tree.mapSeqM] at h
    split at h
    · rename_i u' hu
      split at h
      · rename_i r' hr
        cases h
        rcases List.mem_cons.1 ht with rfl | ht
        · exact ⟨u', List.mem_cons_self, hu⟩
        · obtain ⟨t', h1, h2⟩ := mapSeqM_mem hr ht
          exact ⟨t', List.mem_cons_of_mem _ h1, h2⟩
      · cases h
    · cases h

theorem mapMapM_mem {α β : Type} {f : α → Option β} : ∀ {l : RMap α} {l' : RMap β} {k : Str} {t : Tree α}, Tree.mapMapM f l = some l' → (k, t) ∈ l →
    ∃ t', (k, t') ∈ l' ∧ Tree.mapM f t = some t'
  | (k', u) :: r, l', k, t, h, ht => by
    rw [Tree.mapMapM] at h
    split at h
    · rename_i u' hu
      split at h
      · rename_i r' hr
        cases h
        rcases List.mem_cons.1 ht with e | ht
        · cases e; exact ⟨u', List.mem_cons_self, hu⟩
        · obtain ⟨t', h1, h2⟩ := mapMapM_mem hr ht
          exact ⟨t', List.mem_cons_of_mem _ h1, h2⟩
      · cases h
    · cases h

theorem inTree_mapM {α β : Type} {f : α → Option β} {a : α} {b : β} (hf : f a = some b) {t : Tree α} (h : InTree a t) :
    ∀ {t' : Tree β}, Tree.mapM f t = some t' → InTree b t' := by
  induction h with
  | leaf => intro t' h; rw [Tree.mapM, hf] at h; cases h; exact .leaf
  | seq ht _ ih =>
    intro t' h
    rw [Tree.mapM] at h
    split at h
    · rename_i hl
      cases h
      obtain ⟨u, hu, h⟩ := mapSeqM_mem hl ht
      exact .seq hu (ih h)
    · cases h
  | map ht _ ih =>
    intro t' h
    rw [Tree.mapM] at h
    split at h
    · rename_i hl
      cases h
      obtain ⟨u, hu, h⟩ := mapMapM_mem hl ht
      exact .map hu (ih h)
    · cases h

/-! ## TOML -/

theorem basic_plain {s : Str} (h : ∀ c ∈ s, TextChar c) : tomlString s = '"' :: (s ++ ['"']) := by
  have hf : s.flatMap (tomlEscape false) = s := by
    induction s with
    | nil => rfl
    | cons c r ih =>
      obtain ⟨h1, h2, h3, h4, _⟩ := h c List.mem_cons_self
      rw [List.flatMap_cons, ih fun d hd => h d (List.mem_cons_of_mem _ hd), tomlEscape, if_neg h3, if_neg h4, if_neg (by omega), if_neg (by omega),
        if_neg (by omega), if_neg (by omega), if_neg (by omega), if_neg (by omega)]
      rfl
  have hno : ∀ c : Char, ¬ TextChar c → s.contains c = false := fun c hc => by
    rw [← Bool.not_eq_true, List.contains_iff_mem]
    exact fun hm => hc (h c hm)
  rw [tomlString, hno '\n' (by decide), tomlLiteral, hno '"' (by decide), hno '\\' (by decide)]
  simp [tomlBasic, hf]

/-- A text is in a value of TOML. -/
inductive InToml (s : Str) : Toml → Prop
  | str : InToml s (.str s)
  | array {l : List Toml} {t : Toml} : t ∈ l → InToml s t → InToml s (.array l)
  | table {m : List (Str × Toml)} {k : Str} {t : Toml} : (k, t) ∈ m → InToml s t → InToml s (.table m)

theorem inlineSeq_within {b : Str} {t : Toml} (h : Within b t.inline) : ∀ {l : List Toml}, t ∈ l → Within b (Toml.inlineSeq l)
  | u :: r, ht => by
    rw [Toml.inlineSeq]
    refine .left ?_ _
    rcases List.mem_cons.1 ht with rfl | ht
    · exact h.right _
    · exact .left (.cons (inlineSeq_within h ht) _) _

theorem inlineMap_within {b : Str} {k : Str} {t : Toml} (h : Within b t.inline) :
    ∀ {l : List (Str × Toml)} {f : Bool}, (k, t) ∈ l → Within b (Toml.inlineMap f l)
  | (k', u) :: r, f, ht => by
    rw [Toml.inlineMap]
    refine .left (.cons (.left (.left ?_ _) _) _) _
    rcases List.mem_cons.1 ht with e | ht
    · cases e; exact h.right _
    · exact .left (inlineMap_within h ht) _

theorem inline_within {s : Str} {t : Toml} (h : InToml s t) : Within (tomlString s) t.inline := by
  induction h with
  | str => rw [Toml.inline]; exact .refl _
  | @array l t ht _ ih =>
    cases l with
    | nil => cases ht
    | cons a r => cases r with
      | nil =>
        rw [Toml.inline]
        rw [List.mem_singleton] at ht
        subst ht
        exact .cons (ih.right _) _
      | cons b r => rw [Toml.inline]; exact .cons (.right (inlineSeq_within ih ht) _) _
  | @table m k t ht _ ih =>
    cases m with
    | nil => cases ht
    | cons a r => rw [Toml.inline]; exact .cons (.right (inlineMap_within ih ht) _) _

/-- A statement gives the text. -/
def Gives (s : Str) (l : List TomlStmt) : Prop := ∃ p k v, TomlStmt.entry p k v ∈ l ∧ InToml s v

theorem Gives.under {s k : Str} {l : List TomlStmt} (h : Gives s l) : Gives s (l.map (TomlStmt.under k)) := by
  obtain ⟨p, k', v, h, hv⟩ := h
  exact ⟨p, k', v, List.mem_map.2 ⟨_, h, rfl⟩, hv⟩

theorem Gives.left {s : Str} {l : List TomlStmt} (h : Gives s l) (r : List TomlStmt) : Gives s (l ++ r) := by
  obtain ⟨p, k, v, h, hv⟩ := h
  exact ⟨p, k, v, List.mem_append_left _ h, hv⟩

theorem Gives.right {s : Str} {l : List TomlStmt} (h : Gives s l) (r : List TomlStmt) : Gives s (r ++ l) := by
  obtain ⟨p, k, v, h, hv⟩ := h
  exact ⟨p, k, v, List.mem_append_right _ h, hv⟩

theorem entryStmts_mem {k : Str} {t : Toml} (hs : t.section = false) : ∀ {m : List (Str × Toml)}, (k, t) ∈ m → .entry [] k t ∈ Toml.entryStmts m
  | (k', u) :: r, h => by
    rw [Toml.entryStmts]
    rcases List.mem_cons.1 h with e | h
    · cases e; rw [hs]; simp
    · split
      · exact entryStmts_mem hs h
      · exact List.mem_cons_of_mem _ (entryStmts_mem hs h)

theorem elementStmts_gives {s k : Str} {m : List (Str × Toml)} (h : Gives s (Toml.entryStmts m ++ Toml.sectionStmts m)) :
    ∀ {l : List Toml}, .table m ∈ l → Gives s (Toml.elementStmts k l)
  | u :: r, ht => by
    by_cases e : u = .table m
    · subst e
      rw [Toml.elementStmts]
      exact .left (.right h.under [_]) _
    · have hr := elementStmts_gives (k := k) h ((List.mem_cons.1 ht).resolve_left fun h => e h.symm)
      cases u <;> rw [Toml.elementStmts]
      case table => exact .right hr _
      all_goals first | exact hr | (intro _ h; cases h)

theorem sectionStmts_more {s : Str} {e : Str × Toml} {r : List (Str × Toml)} (h : Gives s (Toml.sectionStmts r)) : Gives s (Toml.sectionStmts (e :: r)) := by
  obtain ⟨k, t⟩ := e
  cases t <;> rw [Toml.sectionStmts]
  case table => exact .right h _
  case array => exact .right h _
  all_goals first | exact h | (intro _ _ e; exact nomatch (Prod.mk.inj e).2)

theorem sectionStmts_table {s k : Str} {m : List (Str × Toml)} (h : Gives s (Toml.entryStmts m ++ Toml.sectionStmts m)) :
    ∀ {l : List (Str × Toml)}, (k, .table m) ∈ l → Gives s (Toml.sectionStmts l)
  | e :: r, ht => by
    rcases List.mem_cons.1 ht with rfl | ht
    · rw [Toml.sectionStmts]
      exact .left (.right h.under _) _
    · exact sectionStmts_more (sectionStmts_table h ht)

theorem sectionStmts_array {s k : Str} {a : List Toml} (ha : a.all Toml.isTable = true) (h : Gives s (Toml.elementStmts k a)) :
    ∀ {l : List (Str × Toml)}, (k, .array a) ∈ l → Gives s (Toml.sectionStmts l)
  | e :: r, ht => by
    rcases List.mem_cons.1 ht with rfl | ht
    · rw [Toml.sectionStmts, if_pos ha]
      exact .left h _
    · exact sectionStmts_more (sectionStmts_array ha h ht)

theorem stmts_gives {s : Str} {t : Toml} (h : InToml s t) : (∀ {m : List (Str × Toml)} {k : Str}, (k, t) ∈ m →
      Gives s (Toml.entryStmts m ++ Toml.sectionStmts m)) ∧ (∀ m, t = .table m → Gives s (Toml.entryStmts m ++ Toml.sectionStmts m)) := by
  induction h with
  | str => exact ⟨fun hm => .left ⟨_, _, _, entryStmts_mem rfl hm, .str⟩ _, fun _ h => nomatch h⟩
  | @array l t ht h ih =>
    refine ⟨fun {m k} hm => ?_, fun _ h => nomatch h⟩
    by_cases hs : (Toml.array l).section = true
    · have ha : l.all Toml.isTable = true := by simp [Toml.section] at hs; simpa using hs.2
      have hi := List.all_eq_true.1 ha t ht
      cases t with
      | table m' => exact .right (sectionStmts_array ha (elementStmts_gives (ih.2 _ rfl) ht) hm) _
      | _ => cases hi
    · exact .left ⟨_, _, _, entryStmts_mem (by simpa using hs) hm, .array ht h⟩ _
  | @table m k t ht h ih =>
    refine ⟨fun {m' k'} hm => .right (sectionStmts_table (ih.1 ht) hm) _, fun _ e => ?_⟩
    cases e
    exact ih.1 ht

theorem tomlLines_within {s : Str} : ∀ {l : List TomlStmt} {f : Bool}, Gives s l → Within (tomlString s) (tomlLines f l)
  | [], _, ⟨_, _, _, h, _⟩ => nomatch h
  | x :: r, f, ⟨p, k, v, h, hv⟩ => by
    rcases List.mem_cons.1 h with e | h
    · subst e
      rw [tomlLines]
      exact .left (.left (.right (inline_within hv) _) _) _
    · have hr := tomlLines_within (f := false) ⟨p, k, v, h, hv⟩
      cases x <;> rw [tomlLines]
      · exact .left (.left (.left (.cons hr _) _) _) _
      · exact .left (.cons (.left (.left hr _) _) _) _
      · exact .left (.left (.left (.left hr _) _) _) _

theorem ofSeq_mem {α : Type} {f : α → Toml} {t : Tree α} : ∀ {l : List (Tree α)}, t ∈ l → Toml.ofTree f t ∈ Toml.ofSeq f l
  | u :: r, ht => by
    rw [Toml.ofSeq]
    rcases List.mem_cons.1 ht with rfl | ht
    · exact List.mem_cons_self
    · exact List.mem_cons_of_mem _ (ofSeq_mem ht)

theorem ofMap_mem {α : Type} {f : α → Toml} {k : Str} {t : Tree α} : ∀ {l : RMap α}, (k, t) ∈ l → (k, Toml.ofTree f t) ∈ Toml.ofMap f l
  | (k', u) :: r, ht => by
    rw [Toml.ofMap]
    rcases List.mem_cons.1 ht with e | ht
    · cases e; exact List.mem_cons_self
    · exact List.mem_cons_of_mem _ (ofMap_mem ht)

theorem ofTree_inToml {α : Type} {f : α → Toml} {a : α} {s : Str} (hf : f a = .str s) {t : Tree α} (h : InTree a t) : InToml s (Toml.ofTree f t) := by
  induction h with
  | leaf => rw [Toml.ofTree, hf]; exact .str
  | seq ht _ ih => rw [Toml.ofTree]; exact .array (ofSeq_mem ht) ih
  | map ht _ ih => rw [Toml.ofTree]; exact .table (ofMap_mem ht) ih

theorem toml_within {s k : Str} {t : Toml} {d : List (Str × Toml)} (h : InToml s t) (hm : (k, t) ∈ d) : Within (tomlString s) (Toml.render d) :=
  tomlLines_within ((stmts_gives h).1 hm)

/-! ## YAML -/

theorem plainRest_of : ∀ {s : Str}, (∀ c ∈ s, TextChar c) → s.getLast? ≠ some ':' → plainRest false s = true
  | [], _, _ => rfl
  | c :: r, h, hl => by
    have hc := h c List.mem_cons_self
    have hr : plainRest false r = true := plainRest_of (fun d hd => h d (List.mem_cons_of_mem _ hd)) (by
      cases r with
      | nil => simp
      | cons d r => rwa [List.getLast?_cons_cons] at hl)
    have hs : (c == ' ') = false := by
      rw [beq_eq_false_iff_ne]
      rintro rfl
      exact absurd hc (by decide)
    have hh : (c == '#') = false := beq_eq_false_iff_ne.2 hc.2.2.2.2
    have hb : (c == ':' && blankNext r) = false := by
      cases r with
      | nil =>
        have : c ≠ ':' := fun e => hl (by rw [e]; rfl)
        simp [this]
      | cons d r =>
        have hd := h d (List.mem_cons_of_mem _ List.mem_cons_self)
        have : (d == ' ') = false := by
          rw [beq_eq_false_iff_ne]
          rintro rfl
          exact absurd hd (by decide)
        simp [blankNext, this]
    rw [plainRest, hs, hh, hb, hr]
    rfl

theorem enc_plainAllowed {s : Str} (h : ∀ c ∈ s, TextChar c) {r : Str} (e : s = 'E' :: 'N' :: 'C' :: (r ++ [']'])) : plainAllowed s = true := by
  have hl : s.getLast? = some ']' := by
    rw [e, show 'E' :: 'N' :: 'C' :: (r ++ [']']) = ('E' :: 'N' :: 'C' :: r) ++ [']'] from rfl, List.getLast?_append]
    rfl
  have h1 : plainFirst s = true := by rw [e]; rfl
  have h2 : plainRest false s.tail = true := plainRest_of (fun c hc => h c (List.mem_of_mem_tail hc)) (by
    rw [e, List.tail_cons, show 'N' :: 'C' :: (r ++ [']']) = ('N' :: 'C' :: r) ++ [']'] from rfl, List.getLast?_append]
    exact fun h => absurd (Option.some.inj h) (by decide))
  have h3 : documentMark s = false := by rw [e]; rfl
  have h4 : s.all yamlPrintable = true := List.all_eq_true.2 fun c hc => by
    obtain ⟨a, b, _⟩ := h c hc
    simp only [yamlPrintable, Bool.or_eq_true, Bool.and_eq_true, decide_eq_true_eq]
    exact .inl (.inl ⟨by omega, b⟩)
  rw [plainAllowed, h1, h2, h3, h4, hl]
  rfl

theorem enc_visit (r : Str) : yamlVisit ('E' :: 'N' :: 'C' :: r) = .text := by
  have hd : digitsNotNumber ('E' :: 'N' :: 'C' :: r) = false := rfl
  have hr : radixDigits 10 ('E' :: 'N' :: 'C' :: r) = none := by
    rw [radixDigits, if_neg]
    rintro ⟨_, h⟩
    have := List.all_eq_true.1 h 'E' List.mem_cons_self
    revert this
    decide
  have hu : ∀ b, yamlUnsigned b ('E' :: 'N' :: 'C' :: r) = none := fun b => by
    have : yamlUnsigned b ('E' :: 'N' :: 'C' :: r) = unsignedRadix 10 b ('E' :: 'N' :: 'C' :: r) := rfl
    rw [this, unsignedRadix]
    · rw [hr]; rfl
    · intro _ h; cases h
  have hn : ∀ b, yamlNegative b ('E' :: 'N' :: 'C' :: r) = none := fun b => by
    have : yamlNegative b ('E' :: 'N' :: 'C' :: r) = signedRadix 10 b ('E' :: 'N' :: 'C' :: r) := rfl
    rw [this, signedRadix]
    · rw [hr]; rfl
    · intro _ h; cases h
    · intro _ h; cases h
  have hf : yamlReadFloat ('E' :: 'N' :: 'C' :: r) = none := by
    have hp : F64.parse ('E' :: 'N' :: 'C' :: r) = none := by
      have e1 : (splitSign ('E' :: 'N' :: 'C' :: r)).2 = 'E' :: 'N' :: 'C' :: r := rfl
      have e2 : floatDecimal ('E' :: 'N' :: 'C' :: r) = none := rfl
      unfold F64.parse
      simp only [e1, e2]
      rw [if_neg, if_neg]
      · rfl
      · intro h; have := (List.cons.inj h).1; revert this; decide
      · rintro (h | h) <;> · have := (List.cons.inj h).1; revert this; decide
    unfold yamlReadFloat
    rw [show stripPlus ('E' :: 'N' :: 'C' :: r) = 'E' :: 'N' :: 'C' :: r from rfl, hp]
    simp [finiteFloat]
  have hi : yamlReadInt ('E' :: 'N' :: 'C' :: r) = none := by
    unfold yamlReadInt
    simp [hu, hn]
  unfold yamlVisit
  rw [hi]
  simp [hd, hf]

theorem enc_node {s : Str} (h : ∀ c ∈ s, TextChar c) {r : Str} (e : s = 'E' :: 'N' :: 'C' :: r) : yamlTextNode s = .free s := by
  have hn : '\n' ∉ s := fun hm => absurd (h _ hm) (by decide)
  have hb : s ∉ yamlOldBools := by rw [e]; simp [yamlOldBools]
  have hd : digitsNotNumber s = false := by rw [e]; rfl
  rw [yamlTextNode, if_pos]
  rw [yamlStyle, if_neg hb, if_neg hn, show yamlVisit s = .text by rw [e]; exact enc_visit _]
  simp [hd]

/-- A text that is written as it is stands in a node. -/
inductive InNode (s : Str) : YamlNode → Prop
  | here : InNode s (.free s)
  | seq {l : List YamlNode} {t : YamlNode} : t ∈ l → InNode s t → InNode s (.seq l)
  | map {m : List (YamlNode × YamlNode)} {k t : YamlNode} : (k, t) ∈ m → InNode s t → InNode s (.map m)

/-- A line ends with the text, after a space at this column or behind it. -/
def LineEnds (s : Str) (m : Nat) (ls : List Str) : Prop := ∃ l ∈ ls, ∃ p, l = p ++ ' ' :: s ∧ m ≤ p.length + 1

theorem LineEnds.left {s : Str} {m : Nat} {ls : List Str} (h : LineEnds s m ls) (r : List Str) : LineEnds s m (ls ++ r) := by
  obtain ⟨l, hl, h⟩ := h
  exact ⟨l, List.mem_append_left _ hl, h⟩

theorem LineEnds.right {s : Str} {m : Nat} {ls : List Str} (h : LineEnds s m ls) (r : List Str) : LineEnds s m (r ++ ls) := by
  obtain ⟨l, hl, h⟩ := h
  exact ⟨l, List.mem_append_right _ hl, h⟩

theorem LineEnds.less {s : Str} {m n : Nat} {ls : List Str} (h : LineEnds s m ls) (hn : n ≤ m) : LineEnds s n ls := by
  obtain ⟨l, hl, p, e, h⟩ := h
  exact ⟨l, hl, p, e, Nat.le_trans hn h⟩

theorem LineEnds.mark {s : Str} {n : Nat} {c : Char} {ls : List Str} (h : LineEnds s (n + 2) ls) : LineEnds s n (markLine n c ls) := by
  obtain ⟨l, hl, p, e, h⟩ := h
  cases ls with
  | nil => cases hl
  | cons a r =>
    rw [markLine]
    rcases List.mem_cons.1 hl with rfl | hl
    · refine ⟨_, List.mem_cons_self, yamlPad n ++ c :: p.drop (n + 1), ?_, ?_⟩
      · rw [e, List.drop_append_of_le_length (by omega)]
        simp
      · simp [yamlPad]
        omega
    · exact ⟨l, List.mem_cons_of_mem _ hl, p, e, by omega⟩

theorem seqLines_ends {s : Str} {t : YamlNode} {n : Nat} (h : LineEnds s (n + 2) (t.lines (n + 2))) :
    ∀ {l : List YamlNode}, t ∈ l → LineEnds s n (YamlNode.seqLines l n)
  | u :: r, ht => by
    rw [YamlNode.seqLines]
    rcases List.mem_cons.1 ht with rfl | ht
    · exact .left h.mark _
    · exact .right (seqLines_ends h ht) _

theorem mapLines_ends {s : Str} {k t : YamlNode} {n : Nat} (h : LineEnds s (n + 2) (t.lines (n + 2)))
    (h' : ∀ k : Str, n ≤ k.length → LineEnds s n (t.afterKey n k)) :
    ∀ {l : List (YamlNode × YamlNode)}, (k, t) ∈ l → LineEnds s n (YamlNode.mapLines l n)
  | (k', u) :: r, ht => by
    rw [YamlNode.mapLines]
    rcases List.mem_cons.1 ht with e | ht
    · cases e
      refine .left ?_ _
      split
      · exact h' _ (by simp [yamlPad])
      · exact .right h.mark _
    · exact .right (mapLines_ends h h' ht) _

theorem lines_ends {s : Str} (hp : plainAllowed s = true) {t : YamlNode} (h : InNode s t) :
    (∀ m, 1 ≤ m → LineEnds s m (t.lines m)) ∧ (∀ n (k : Str), n ≤ k.length → LineEnds s n (t.afterKey n k)) := by
  induction h with
  | here =>
    refine ⟨fun m hm => ?_, fun n k hk => ?_⟩
    · rw [YamlNode.lines, freeForm, if_pos hp]
      obtain ⟨m, rfl⟩ : ∃ i, m = i + 1 := ⟨m - 1, by omega⟩
      refine ⟨_, List.mem_cons_self, yamlPad m, ?_, by simp [yamlPad]⟩
      rw [yamlPad, List.replicate_succ', List.append_assoc]
      rfl
    · rw [YamlNode.afterKey, freeForm, if_pos hp]
      exact ⟨_, List.mem_cons_self, k ++ [':'], by simp, by simp; omega⟩
  | @seq l t ht _ ih =>
    have hl : l.isEmpty = false := by cases l with | nil => cases ht | cons => rfl
    refine ⟨fun m hm => ?_, fun n k hk => ?_⟩
    · rw [YamlNode.lines, hl]
      exact seqLines_ends (ih.1 _ (by omega)) ht
    · rw [YamlNode.afterKey, hl]
      exact .right (seqLines_ends (ih.1 _ (by omega)) ht) [_]
  | @map l k t ht _ ih =>
    have hl : l.isEmpty = false := by cases l with | nil => cases ht | cons => rfl
    refine ⟨fun m hm => ?_, fun n k' hk => ?_⟩
    · rw [YamlNode.lines, hl]
      exact mapLines_ends (ih.1 _ (by omega)) (ih.2 _) ht
    · rw [YamlNode.afterKey, hl]
      exact .right (LineEnds.less (mapLines_ends (ih.1 _ (by omega)) (ih.2 _) ht) (by omega)) [_]

theorem join_within {s : Str} {n : Nat} {ls : List Str} (h : LineEnds s n ls) : Within (' ' :: (s ++ ['\n'])) (yamlJoin ls) := by
  obtain ⟨l, hl, p, rfl, _⟩ := h
  obtain ⟨a, b, rfl⟩ := List.append_of_mem hl
  exact ⟨yamlJoin a ++ p, yamlJoin b, by simp [yamlJoin]⟩

theorem nodes_mem {v : Yaml} : ∀ {l : List Yaml}, v ∈ l → v.node ∈ Yaml.nodes l
  | u :: r, h => by
    rw [Yaml.nodes]
    rcases List.mem_cons.1 h with rfl | h
    · exact List.mem_cons_self
    · exact List.mem_cons_of_mem _ (nodes_mem h)

theorem entryNodes_mem {k v : Yaml} : ∀ {l : List (Yaml × Yaml)}, (k, v) ∈ l → (k.node, v.node) ∈ Yaml.entryNodes l
  | (k', u) :: r, h => by
    rw [Yaml.entryNodes]
    rcases List.mem_cons.1 h with e | h
    · cases e; exact List.mem_cons_self
    · exact List.mem_cons_of_mem _ (entryNodes_mem h)

theorem yamlSeq_mem {α : Type} {f : α → Yaml} {t : Tree α} : ∀ {l : List (Tree α)}, t ∈ l → Yaml.ofTree f t ∈ Yaml.ofSeq f l
  | u :: r, ht => by
    rw [Yaml.ofSeq]
    rcases List.mem_cons.1 ht with rfl | ht
    · exact List.mem_cons_self
    · exact List.mem_cons_of_mem _ (yamlSeq_mem ht)

theorem yamlMap_mem {α : Type} {f : α → Yaml} {k : Str} {t : Tree α} : ∀ {l : RMap α}, (k, t) ∈ l → (.str k, Yaml.ofTree f t) ∈ Yaml.ofMap f l
  | (k', u) :: r, ht => by
    rw [Yaml.ofMap]
    rcases List.mem_cons.1 ht with e | ht
    · cases e; exact List.mem_cons_self
    · exact List.mem_cons_of_mem _ (yamlMap_mem ht)

theorem ofTree_inNode {α : Type} {f : α → Yaml} {a : α} {s : Str} (hf : (f a).node = .free s) {t : Tree α} (h : InTree a t) :
    InNode s (Yaml.ofTree f t).node := by
  induction h with
  | leaf => rw [Yaml.ofTree, hf]; exact .here
  | seq ht _ ih => rw [Yaml.ofTree, Yaml.node]; exact .seq (nodes_mem (yamlSeq_mem ht)) ih
  | map ht _ ih => rw [Yaml.ofTree, Yaml.node]; exact .map (entryNodes_mem (yamlMap_mem ht)) ih

theorem yaml_within {s : Str} (hp : plainAllowed s = true) {k v : Yaml} (h : InNode s v.node) {d : List (Yaml × Yaml)} (hm : (k, v) ∈ d) :
    Within (' ' :: (s ++ ['\n'])) (blockLayout.write (Yaml.entryNodes d)) := by
  have hm' := entryNodes_mem hm
  have hl : (Yaml.entryNodes d).isEmpty = false := by
    cases h : Yaml.entryNodes d with
    | nil => rw [h] at hm'; cases hm'
    | cons => rfl
  show Within _ (yamlJoin ((YamlNode.map _).lines 0))
  rw [YamlNode.lines, hl]
  exact join_within (mapLines_ends ((lines_ends hp h).1 _ (by omega)) ((lines_ends hp h).2 _) hm')

/-! ## The metadata -/

theorem mac_inTree {M : Type} (f : M → Str) (md : Metadata M) : (c!"mac", Json.text (f md.mac)) ∈ md.toDoc f := by
  simp [Metadata.toDoc]

mutual
theorem leavesAt_prefix {α : Type} : ∀ (t : Tree α) {p q : List Str} {a : α}, (p, a) ∈ leavesAt q t → q <+: p
  | .leaf b, p, q, a, h => by
    simp only [leavesAt, List.mem_singleton, Prod.mk.injEq] at h
    rw [h.1]
    exact List.prefix_refl _
  | .null, p, q, a, h => by simp [leavesAt] at h
  | .seq l, p, q, a, h => leavesSeq_prefix l (by simpa only [leavesAt] using h)
  | .map m, p, q, a, h => leavesMap_prefix m (by simpa only [leavesAt] using h)
theorem leavesSeq_prefix {α : Type} : ∀ (l : List (Tree α)) {p q : List Str} {a : α}, (p, a) ∈ leavesSeq q l → q <+: p
  | [], p, q, a, h => by simp [leavesSeq] at h
  | t :: r, p, q, a, h => by
    simp only [leavesSeq, List.mem_append] at h
    exact h.elim (leavesAt_prefix t) (leavesSeq_prefix r)
theorem leavesMap_prefix {α : Type} : ∀ (m : RMap α) {p q : List Str} {a : α}, (p, a) ∈ leavesMap q m → q <+: p
  | [], p, q, a, h => by simp [leavesMap] at h
  | (k, t) :: r, p, q, a, h => by
    simp only [leavesMap, List.mem_append] at h
    exact h.elim (fun h => (List.prefix_append _ _).trans (leavesAt_prefix t h)) (leavesMap_prefix r)
end

theorem inTop_of {α : Type} {a : α} : ∀ {m : RMap α} {p : List Str}, (p, a) ∈ leaves m → ∃ k t, (k, t) ∈ m ∧ InTree a t ∧ p.head? = some k
  | [], p, h => by simp [leaves, leavesMap] at h
  | (k, t) :: r, p, h => by
    simp only [leaves, leavesMap, List.mem_append] at h
    rcases h with h | h
    · obtain ⟨q, rfl⟩ := leavesAt_prefix t h
      exact ⟨k, t, List.mem_cons_self, inTree_of t h, rfl⟩
    · obtain ⟨k', t', h1, h2⟩ := inTop_of (m := r) h
      exact ⟨k', t', List.mem_cons_of_mem _ h1, h2⟩

theorem insert_new {β : Type} (k : Str) (v : β) : ∀ m : List (Str × β), (k, v) ∈ IndexMap.insert m k v
  | [] => List.mem_singleton.2 rfl
  | (k', v') :: r => by
    rw [IndexMap.insert]
    split
    · exact List.mem_cons_self
    · exact List.mem_cons_of_mem _ (insert_new k v r)

theorem insert_other {β : Type} {k k' : Str} {v v' : β} (hk : k' ≠ k) : ∀ {m : List (Str × β)}, (k', v') ∈ m → (k', v') ∈ IndexMap.insert m k v
  | (k2, v2) :: r, h => by
    rw [IndexMap.insert]
    rcases List.mem_cons.1 h with e | h
    · cases e
      rw [if_neg hk]
      exact List.mem_cons_self
    · split
      · exact List.mem_cons_of_mem _ h
      · exact List.mem_cons_of_mem _ (insert_other hk h)

end Rops
