import Verif.Spec.CommandLine
import Verif.Lemmas.Text
/-!
# Lemmas about command lines
-/

namespace Rops

open Spec (Item Written Takes IsFlag Flags PlainWord)

theorem takes_iff {a : Arg} {n : Str} {c : Option Char} :
    Takes a n c ↔ a.takesValue = true ∧ a.long = n ∧ a.short = c := by
  constructor
  · rintro ⟨⟩ <;> exact ⟨rfl, rfl, rfl⟩
  · rintro ⟨h, rfl, rfl⟩
    cases a <;> first | (simp [Arg.takesValue] at h; done) | constructor

theorem isFlag_iff {a : Arg} {n : Str} {c : Option Char} :
    IsFlag a n c ↔ a.takesValue = false ∧ a ≠ .help ∧ a.long = n ∧ a.short = c := by
  constructor
  · rintro ⟨⟩ <;> exact ⟨rfl, by decide, rfl, rfl⟩
  · rintro ⟨h, h', rfl, rfl⟩
    cases a <;> first | (simp [Arg.takesValue] at h; done) | (exact absurd rfl h') | constructor

theorem Arg.long_inj {a b : Arg} (h : a.long = b.long) : a = b := by
  cases a <;> cases b <;> first | rfl | (exfalso; revert h; decide)

theorem Arg.short_inj {a b : Arg} {c : Char} (h : a.short = some c) (h' : b.short = some c) : a = b := by
  rw [← h'] at h
  cases a <;> cases b <;> first | rfl | (exfalso; revert h; decide) | (exfalso; revert h'; simp [Arg.short])

theorem find_long {args : List Arg} {n : Str} {a : Arg} :
    args.find? (fun a => a.long == n) = some a ↔ a ∈ args ∧ a.long = n := by
  constructor
  · intro h
    exact ⟨List.mem_of_find?_eq_some h, by simpa using List.find?_some h⟩
  · rintro ⟨h, rfl⟩
    cases hf : args.find? (fun b => b.long == a.long) with
    | none => simpa using List.find?_eq_none.1 hf a h
    | some b =>
      have hb : b.long = a.long := by simpa using List.find?_some hf
      rw [Arg.long_inj hb]

theorem find_short {args : List Arg} {c : Char} {a : Arg} :
    args.find? (fun a => a.short == some c) = some a ↔ a ∈ args ∧ a.short = some c := by
  constructor
  · intro h
    exact ⟨List.mem_of_find?_eq_some h, by simpa using List.find?_some h⟩
  · rintro ⟨h, hc⟩
    cases hf : args.find? (fun b => b.short == some c) with
    | none => simpa [hc] using List.find?_eq_none.1 hf a h
    | some b =>
      have hb : b.short = some c := by simpa using List.find?_some hf
      rw [Arg.short_inj hb hc]

theorem Arg.no_equals (a : Arg) : '=' ∉ a.long := by cases a <;> decide

theorem Arg.long_ne_nil (a : Arg) : a.long ≠ [] := by cases a <;> decide

theorem Arg.short_ne_dash (a : Arg) : a.short ≠ some '-' := by cases a <;> decide

/-- One item, in the order of the words. -/
def Matches.item (O : DocOps) (m : Matches) : Item → Except Stop Matches
  | .option a v => m.option O a v
  | .flag a => m.flag a
  | .file p => m.positional p

/-- Items in order. -/
def Matches.items (O : DocOps) (m : Matches) : List Item → Except Stop Matches
  | [] => .ok m
  | i :: is => match m.item O i with
    | .ok m => m.items O is
    | .error e => .error e

theorem items_append (O : DocOps) (m : Matches) (is js : List Item) :
    m.items O (is ++ js) = match m.items O is with
      | .ok m => m.items O js
      | .error e => .error e := by
  induction is generalizing m with
  | nil => rfl
  | cons i is ih =>
    simp only [List.cons_append, Matches.items]
    cases m.item O i with
    | error e => rfl
    | ok m => exact ih m

theorem positionals_eq (O : DocOps) (m : Matches) (ps : List Str) : m.positionals ps = m.items O (ps.map .file) := by
  induction ps generalizing m with
  | nil => rfl
  | cons p ps ih =>
    simp only [Matches.positionals, List.map_cons, Matches.items, Matches.item]
    cases m.positional p with
    | error e => rfl
    | ok m => exact ih m

theorem isOptionWord_iff {w : Str} : isOptionWord w = false ↔ PlainWord w := by
  unfold PlainWord
  match w with
  | [] => simp [isOptionWord]
  | [c] => simp only [isOptionWord, true_iff]; by_cases h : c = '-' <;> simp [h]
  | c :: d :: r => by_cases h : c = '-' <;> simp [isOptionWord, h]

theorem plain_ne_escape {w : Str} (h : PlainWord w) : w ≠ c!"--" := by
  rintro rfl
  rcases h with h | h
  · exact absurd h (by decide)
  · exact h ['-'] rfl

theorem word_plain {O : DocOps} {args : List Arg} {m : Matches} {w : Str} (h : PlainWord w) :
    m.word O args w = match m.positional w with
      | .ok m => .ok (m, none)
      | .error e => .error e := by
  rcases h with rfl | h
  · rfl
  · match w with
    | [] => rfl
    | c :: r =>
      have hc : c ≠ '-' := fun e => h r (by rw [e])
      unfold Matches.word
      split
      · rename_i heq; simp at heq; exact absurd heq.1 hc
      · rename_i heq; simp at heq; exact absurd heq.1 hc
      · rfl

/-- What a word of short names does, given the flags at its beginning. -/
theorem cluster_flags {O : DocOps} {args : List Arg} {allowed : Arg → Prop} (ha : ∀ a, a ∈ args ↔ allowed a ∨ a = .help)
    {fs : List Item} {s : Str} (h : Flags allowed fs s) (m : Matches) (t : Str) :
    m.cluster O args (s ++ t) = match m.items O fs with
      | .ok m => m.cluster O args t
      | .error e => .error e := by
  induction h generalizing m with
  | nil => rfl
  | @cons a n c is s hal hf _ ih =>
    obtain ⟨h1, h2, h3, h4⟩ := isFlag_iff.1 hf
    rw [List.cons_append, Matches.cluster, find_short.2 ⟨(ha a).2 (Or.inl hal), h4⟩]
    simp only [h1, Bool.false_eq_true, if_false, Matches.items, Matches.item]
    cases m.flag a with
    | error e => rfl
    | ok m => exact ih m

theorem words_none_cons {O : DocOps} {args : List Arg} {m : Matches} {w : Str} {ws : List Str} (h : w ≠ c!"--") :
    m.words O args none (w :: ws) = match m.word O args w with
      | .ok (m, p) => m.words O args p ws
      | .error e => .error e := by
  rw [Matches.words, if_neg h]; rfl

theorem flags_head {allowed : Arg → Prop} {fs : List Item} {s : Str} (h : Flags allowed fs s) : s.head? ≠ some '-' := by
  cases h with
  | nil => simp
  | @cons a n c is s _ hf _ =>
    have := (isFlag_iff.1 hf).2.2.2
    have h' := Arg.short_ne_dash a
    rw [this] at h'
    simpa using h'

theorem word_cluster {O : DocOps} {args : List Arg} {m : Matches} {s : Str} (hs : s ≠ []) (h : s.head? ≠ some '-') :
    m.word O args ('-' :: s) = m.cluster O args s := by
  match s with
  | [] => exact absurd rfl hs
  | c :: r =>
    have hc : c ≠ '-' := by simpa using h
    unfold Matches.word
    split
    · rename_i heq; simp at heq; exact absurd heq.1 hc
    · rename_i c' w' _ heq; simp at heq; obtain ⟨rfl, rfl⟩ := heq; rfl
    · rename_i h1 h2; exact absurd rfl (h2 c r)

theorem cluster_ne_escape {s : Str} (h : s.head? ≠ some '-') : ('-' :: s) ≠ c!"--" := by
  intro e
  have : s = ['-'] := by simpa using e
  rw [this] at h; exact h rfl

theorem cluster_value {O : DocOps} {args : List Arg} {m : Matches} {a : Arg} {c : Char} {v : Str}
    (hf : args.find? (fun a => a.short == some c) = some a) (ht : a.takesValue = true) (hv : v ≠ []) (he : v.head? ≠ some '=') :
    m.cluster O args (c :: v) = match m.option O a v with
      | .ok m => .ok (m, none)
      | .error e => .error e := by
  rw [Matches.cluster, hf]
  simp only [ht, if_true]
  split
  · exact absurd rfl hv
  · exact absurd rfl he
  · rfl

/-- The words say the items, in order. -/
theorem words_of_written {O : DocOps} {args : List Arg} {allowed : Arg → Prop} (ha : ∀ a, a ∈ args ↔ allowed a ∨ a = .help)
    {is : List Item} {ws : List Str} (h : Written allowed is ws) (m : Matches) : m.words O args none ws = m.items O is := by
  have hvalue : ∀ (a : Arg) (v : Str) (is : List Item) (ws : List Str),
      (∀ m : Matches, m.words O args none ws = m.items O is) → ∀ m : Matches,
      (match (match m.option O a v with | .ok m => Except.ok (m, none) | .error e => .error e : Except Stop (Matches × Option Arg)) with
        | .ok (m, p) => m.words O args p ws
        | .error e => .error e) = m.items O (.option a v :: is) := by
    intro a v is ws ih m
    simp only [Matches.items, Matches.item]
    cases m.option O a v with
    | error e => rfl
    | ok m => exact ih m
  have hnext : ∀ (a : Arg) (v : Str) (is : List Item) (ws : List Str), PlainWord v →
      (∀ m : Matches, m.words O args none ws = m.items O is) → ∀ m : Matches,
      m.words O args (some a) (v :: ws) = m.items O (.option a v :: is) := by
    intro a v is ws hp ih m
    rw [Matches.words, isOptionWord_iff.2 hp]
    simp only [Bool.false_eq_true, if_false, Matches.items, Matches.item]
    cases m.option O a v with
    | error e => rfl
    | ok m => exact ih m
  have hflags : ∀ (fs js : List Item) (s t : Str) (w : Str) (ws : List Str), w = '-' :: (s ++ t) → s ++ t ≠ [] →
      (s ++ t).head? ≠ some '-' → Flags allowed fs s →
      (∀ m : Matches, (match m.cluster O args t with
        | .ok (m, p) => m.words O args p ws
        | .error e => .error e) = m.items O js) → ∀ m : Matches,
      m.words O args none (w :: ws) = m.items O (fs ++ js) := by
    intro fs js s t w ws hw hne hh hf ih m
    subst hw
    rw [words_none_cons (cluster_ne_escape hh), word_cluster hne hh, cluster_flags ha hf, items_append]
    cases m.items O fs with
    | error e => rfl
    | ok m => exact ih m
  have hhead : ∀ (fs : List Item) (s t : Str) (a : Arg) (c : Char), Flags allowed fs s → a.short = some c →
      (s ++ c :: t).head? ≠ some '-' := by
    intro fs s t a c hf hc
    match s with
    | [] =>
      have := Arg.short_ne_dash a
      rw [hc] at this
      simpa using this
    | d :: r => simpa using flags_head hf
  induction h generalizing m with
  | nil => rfl
  | rest ps => rw [Matches.words, if_pos rfl, positionals_eq O]
  | @file p is ws hp _ ih =>
    rw [words_none_cons (plain_ne_escape hp), word_plain hp]
    simp only [Matches.items, Matches.item]
    cases m.positional p with
    | error e => rfl
    | ok m => exact ih m
  | @long a n c v is ws hal ht hp _ ih =>
    obtain ⟨h1, rfl, _⟩ := takes_iff.1 ht
    have hne : c!"--" ++ a.long ≠ c!"--" := by simpa using a.long_ne_nil
    rw [words_none_cons hne]
    have : m.word O args (c!"--" ++ a.long) = .ok (m, some a) := by
      show m.longWord O args a.long = _
      rw [Matches.longWord, splitOnce_eq_none.2 a.no_equals]
      simp only [find_long.2 ⟨(ha a).2 (Or.inl hal), rfl⟩, h1, if_true]
    rw [this]
    exact hnext a v is ws hp ih m
  | @longEq a n c v is ws hal ht _ ih =>
    obtain ⟨h1, rfl, _⟩ := takes_iff.1 ht
    have hne : c!"--" ++ a.long ++ '=' :: v ≠ c!"--" := by
      intro e
      have := congrArg List.length e
      simp at this
    rw [words_none_cons hne]
    have : m.word O args (c!"--" ++ a.long ++ '=' :: v) = match m.option O a v with
        | .ok m => .ok (m, none)
        | .error e => .error e := by
      show m.longWord O args (a.long ++ '=' :: v) = _
      rw [Matches.longWord, splitOnce_append _ a.no_equals]
      simp only [find_long.2 ⟨(ha a).2 (Or.inl hal), rfl⟩, h1, if_true]
      rfl
    rw [this]
    exact hvalue a v is ws ih m
  | @longFlag a n c is ws hal hf _ ih =>
    obtain ⟨h1, _, rfl, _⟩ := isFlag_iff.1 hf
    have hne : c!"--" ++ a.long ≠ c!"--" := by simpa using a.long_ne_nil
    rw [words_none_cons hne]
    have : m.word O args (c!"--" ++ a.long) = match m.flag a with
        | .ok m => .ok (m, none)
        | .error e => .error e := by
      show m.longWord O args a.long = _
      rw [Matches.longWord, splitOnce_eq_none.2 a.no_equals]
      simp only [find_long.2 ⟨(ha a).2 (Or.inl hal), rfl⟩, h1, Bool.false_eq_true, if_false]
      rfl
    rw [this]
    simp only [Matches.items, Matches.item]
    cases m.flag a with
    | error e => rfl
    | ok m => exact ih m
  | @shorts fs s is ws hf hs _ ih =>
    refine hflags fs is s [] _ ws (by simp) (by simpa using hs) (by simpa using flags_head hf) hf (fun m => ?_) m
    exact ih m
  | @shortsValue fs s a n c v is ws hf hal ht hv he _ ih =>
    obtain ⟨h1, _, h3⟩ := takes_iff.1 ht
    refine hflags fs (.option a v :: is) s (c :: v) _ ws rfl (by simp) (hhead fs s v a c hf h3) hf (fun m => ?_) m
    rw [cluster_value (find_short.2 ⟨(ha a).2 (Or.inl hal), h3⟩) h1 hv he]
    exact hvalue a v is ws ih m
  | @shortsEq fs s a n c v is ws hf hal ht _ ih =>
    obtain ⟨h1, _, h3⟩ := takes_iff.1 ht
    refine hflags fs (.option a v :: is) s (c :: '=' :: v) _ ws rfl (by simp) (hhead fs s _ a c hf h3) hf (fun m => ?_) m
    rw [Matches.cluster, find_short.2 ⟨(ha a).2 (Or.inl hal), h3⟩]
    simp only [h1, if_true]
    exact hvalue a v is ws ih m
  | @shortsNext fs s a n c v is ws hf hal ht hp _ ih =>
    obtain ⟨h1, _, h3⟩ := takes_iff.1 ht
    refine hflags fs (.option a v :: is) s [c] _ (v :: ws) rfl (by simp) (hhead fs s _ a c hf h3) hf (fun m => ?_) m
    rw [Matches.cluster, find_short.2 ⟨(ha a).2 (Or.inl hal), h3⟩]
    simp only [h1, if_true]
    exact hnext a v is ws hp ih m

/-- A word of short names that is read consists of flags and perhaps an option. -/
theorem cluster_ok {O : DocOps} {args : List Arg} {allowed : Arg → Prop} (ha : ∀ a, a ∈ args ↔ allowed a ∨ a = .help)
    {m m1 : Matches} {t : Str} {p : Option Arg} (h : m.cluster O args t = .ok (m1, p)) :
    ∃ fs s m2, Flags allowed fs s ∧ m.items O fs = .ok m2 ∧
      ((t = s ∧ p = none ∧ m1 = m2) ∨
        ∃ a c, allowed a ∧ a.takesValue = true ∧ a.short = some c ∧
          ((t = s ++ [c] ∧ p = some a ∧ m1 = m2) ∨
            (p = none ∧ ∃ v, m2.option O a v = .ok m1 ∧
              (t = s ++ c :: '=' :: v ∨ (t = s ++ c :: v ∧ v ≠ [] ∧ v.head? ≠ some '='))))) := by
  induction t generalizing m with
  | nil =>
    rw [Matches.cluster] at h
    cases h
    exact ⟨[], [], _, .nil, rfl, Or.inl ⟨rfl, rfl, rfl⟩⟩
  | cons c r ih =>
    rw [Matches.cluster] at h
    cases hf : args.find? (fun a => a.short == some c) with
    | none => simp [hf] at h
    | some a =>
      obtain ⟨hmem, hshort⟩ := find_short.1 hf
      simp only [hf] at h
      by_cases ht : a.takesValue = true
      · have hal : allowed a := by
          rcases (ha a).1 hmem with h | h
          · exact h
          · rw [h] at ht; exact absurd ht (by decide)
        simp only [ht, if_true] at h
        refine ⟨[], [], m, .nil, rfl, Or.inr ⟨a, c, hal, ht, hshort, ?_⟩⟩
        split at h
        · cases h; exact Or.inl ⟨rfl, rfl, rfl⟩
        · rename_i v
          split at h
          · rename_i m' hm; cases h; exact Or.inr ⟨rfl, v, hm, Or.inl rfl⟩
          · cases h
        · rename_i hn he
          split at h
          · rename_i m' hm; cases h
            refine Or.inr ⟨rfl, r, hm, Or.inr ⟨rfl, hn, ?_⟩⟩
            intro hh
            match r, hh with
            | _ :: v, hh => simp at hh; exact he v (by rw [hh])
          · cases h
      · simp only [ht, Bool.false_eq_true, if_false] at h
        split at h
        · rename_i m' hm
          have hne : a ≠ .help := by rintro rfl; simp [Matches.flag] at hm
          have hal : allowed a := by
            rcases (ha a).1 hmem with h | h
            · exact h
            · exact absurd h hne
          obtain ⟨fs, s, m2, h1, h2, h3⟩ := ih h
          have hflag : IsFlag a a.long (some c) := isFlag_iff.2 ⟨by simpa using ht, hne, rfl, hshort⟩
          refine ⟨.flag a :: fs, c :: s, m2, .cons hal hflag h1, by simp [Matches.items, Matches.item, hm, h2], ?_⟩
          rcases h3 with ⟨rfl, h4, h5⟩ | ⟨a', c', g1, g2, g3, g4⟩
          · exact Or.inl ⟨rfl, h4, h5⟩
          · refine Or.inr ⟨a', c', g1, g2, g3, ?_⟩
            rcases g4 with ⟨rfl, g5, g6⟩ | ⟨g5, v, g6, rfl | ⟨rfl, g7⟩⟩
            · exact Or.inl ⟨rfl, g5, g6⟩
            · exact Or.inr ⟨g5, v, g6, Or.inl rfl⟩
            · exact Or.inr ⟨g5, v, g6, Or.inr ⟨rfl, g7⟩⟩
        · cases h

theorem items_cons_option {O : DocOps} {m m' m1 : Matches} {a : Arg} {v : Str} {is : List Item}
    (h : m.option O a v = .ok m1) (h' : m1.items O is = .ok m') : m.items O (.option a v :: is) = .ok m' := by
  simp [Matches.items, Matches.item, h, h']

/-- The words say items, the first of which may wait for its value. -/
def WrittenFrom (O : DocOps) (allowed : Arg → Prop) (m m' : Matches) (ws : List Str) : Option Arg → Prop
  | none => ∃ is, Written allowed is ws ∧ m.items O is = .ok m'
  | some a => ∃ v is ws', ws = v :: ws' ∧ PlainWord v ∧ Written allowed is ws' ∧ m.items O (.option a v :: is) = .ok m'

/-- Words that are read say items. -/
theorem written_of_words {O : DocOps} {args : List Arg} {allowed : Arg → Prop} (ha : ∀ a, a ∈ args ↔ allowed a ∨ a = .help)
    {ws : List Str} {m m' : Matches} {p : Option Arg} (h : m.words O args p ws = .ok m') :
    WrittenFrom O allowed m m' ws p := by
  induction ws generalizing m p with
  | nil =>
    cases p with
    | none => cases h; exact ⟨[], .nil, rfl⟩
    | some a => cases h
  | cons w ws ih =>
    cases p with
    | some a =>
      rw [Matches.words] at h
      split at h
      · cases h
      · rename_i hw
        split at h
        · rename_i m1 hm
          obtain ⟨is, h1, h2⟩ := ih h
          exact ⟨w, is, ws, rfl, isOptionWord_iff.1 (by simpa using hw), h1, items_cons_option hm h2⟩
        · cases h
    | none =>
      by_cases he : w = c!"--"
      · rw [Matches.words, if_pos he, positionals_eq O] at h
        rw [he]
        exact ⟨_, .rest ws, h⟩
      rw [words_none_cons he] at h
      split at h
      · rename_i m1 p hm
        unfold Matches.word at hm
        split at hm
        · -- a long name
          rename_i w
          unfold Matches.longWord at hm
          cases hs : splitOnce '=' w with
          | none =>
            simp only [hs] at hm
            split at hm
            · cases hm
            · rename_i a hf
              obtain ⟨hmem, rfl⟩ := find_long.1 hf
              split at hm
              · rename_i ht
                have hal : allowed a := by
                  rcases (ha a).1 hmem with h | h
                  · exact h
                  · rw [h] at ht; exact absurd ht (by decide)
                cases hm
                obtain ⟨v, is, ws', rfl, h1, h2, h3⟩ := ih h
                exact ⟨_, .long hal (takes_iff.2 ⟨ht, rfl, rfl⟩) h1 h2, h3⟩
              · rename_i ht
                split at hm
                · rename_i m2 ho
                  cases hm
                  have hne : a ≠ .help := by rintro rfl; simp [Matches.flag] at ho
                  have hal : allowed a := by
                    rcases (ha a).1 hmem with h | h
                    · exact h
                    · exact absurd h hne
                  obtain ⟨is, h1, h2⟩ := ih h
                  exact ⟨_, .longFlag hal (isFlag_iff.2 ⟨by simpa using ht, hne, rfl, rfl⟩) h1,
                    by simp [Matches.items, Matches.item, ho, h2]⟩
                · cases hm
          | some nv =>
            obtain ⟨n, v⟩ := nv
            simp only [hs] at hm
            obtain ⟨rfl, -⟩ := splitOnce_eq_some.1 hs
            split at hm
            · cases hm
            · rename_i a hf
              obtain ⟨hmem, rfl⟩ := find_long.1 hf
              split at hm
              · rename_i ht
                have hal : allowed a := by
                  rcases (ha a).1 hmem with h | h
                  · exact h
                  · rw [h] at ht; exact absurd ht (by decide)
                split at hm
                · rename_i m2 ho
                  cases hm
                  obtain ⟨is, h1, h2⟩ := ih h
                  have := Written.longEq (v := v) hal (takes_iff.2 ⟨ht, rfl, rfl⟩) h1
                  exact ⟨_, by simpa using this, items_cons_option ho h2⟩
                · cases hm
              · cases hm
        · -- short names
          rename_i c w hcw
          obtain ⟨fs, s, m2, h1, h2, h3⟩ := cluster_ok ha hm
          have happ : ∀ {js : List Item}, m2.items O js = .ok m' → m.items O (fs ++ js) = .ok m' := by
            intro js hj; rw [items_append, h2]; exact hj
          rcases h3 with ⟨rfl, rfl, rfl⟩ | ⟨a, c', g1, g2, g3, g4⟩
          · obtain ⟨is, h4, h5⟩ := ih h
            exact ⟨_, .shorts h1 (by simp) h4, happ h5⟩
          · have ht := takes_iff.2 ⟨g2, rfl, g3⟩
            rcases g4 with ⟨g5, rfl, rfl⟩ | ⟨rfl, v, g6, g5 | ⟨g5, g7, g8⟩⟩
            · obtain ⟨v, is, ws', rfl, h4, h5, h6⟩ := ih h
              rw [g5]
              exact ⟨_, .shortsNext h1 g1 ht h4 h5, happ h6⟩
            · obtain ⟨is, h4, h5⟩ := ih h
              rw [g5]
              exact ⟨_, .shortsEq h1 g1 ht h4, happ (items_cons_option g6 h5)⟩
            · obtain ⟨is, h4, h5⟩ := ih h
              rw [g5]
              exact ⟨_, .shortsValue h1 g1 ht g7 g8 h4, happ (items_cons_option g6 h5)⟩
        · rename_i hn1 hn2
          split at hm
          · rename_i m2 ho
            cases hm
            obtain ⟨is, h1, h2⟩ := ih h
            refine ⟨.file w :: is, .file ?_ h1, by simp [Matches.items, Matches.item, ho, h2]⟩
            rw [← isOptionWord_iff]
            unfold isOptionWord
            split
            · rename_i c r; exact absurd rfl (hn2 c r)
            · rfl
          · cases hm
      · cases h

/-- What the words of a subcommand say. -/
theorem words_iff {O : DocOps} {args : List Arg} {allowed : Arg → Prop} (ha : ∀ a, a ∈ args ↔ allowed a ∨ a = .help)
    {ws : List Str} {m m' : Matches} :
    m.words O args none ws = .ok m' ↔ ∃ is, Written allowed is ws ∧ m.items O is = .ok m' := by
  constructor
  · exact fun h => written_of_words ha h
  · rintro ⟨is, h1, h2⟩
    rw [words_of_written ha h1, h2]

/-- The values of an option that may be given once. -/
def onceOf {α : Type} (parse : Str → Option α) : Option α → List Str → Option (Option α)
  | old, [] => some old
  | none, [v] => (parse v).map some
  | _, _ => none

theorem onceOf_cons {α : Type} {parse : Str → Option α} {old new : Option α} {v : Str} {vs : List Str} :
    onceOf parse old (v :: vs) = some new ↔ ∃ x, setOnce old (parse v) = .ok x ∧ onceOf parse x vs = some new := by
  cases old with
  | some a => simp [onceOf, setOnce]
  | none =>
    cases hp : parse v with
    | none => cases vs <;> simp [onceOf, setOnce, hp]
    | some a => cases vs <;> simp [onceOf, setOnce, hp]

/-- How often a flag may be given. -/
def onceFlag (old : Bool) (n : Nat) (new : Bool) : Prop := (if old then 1 else 0) + n = if new then 1 else 0

theorem onceFlag_zero {old new : Bool} : onceFlag old 0 new ↔ old = new := by
  cases old <;> cases new <;> simp [onceFlag]

theorem onceFlag_succ {old new : Bool} {n : Nat} : onceFlag old (n + 1) new ↔ old = false ∧ onceFlag true n new := by
  cases old <;> cases new <;> simp [onceFlag] <;> omega

/-- Options have values, flags have none, and the flag for help does not occur. -/
def knownItem : Item → Bool
  | .option a _ => a.takesValue
  | .flag a => a == .macOnlyEncrypted || a == .inPlace
  | .file _ => true

/-- All values after reading items. -/
structure After (O : DocOps) (m : Matches) (is : List Item) (m' : Matches) : Prop where
  age : m.age.map some ++ (Spec.values .age is).map O.A.parseRecipient = m'.age.map some
  kms : m.kms.map .ok ++ (Spec.values .awsKms is).map (AwsKeyId.parse O.arn) = m'.kms.map .ok
  encryptedSuffix : onceOf some m.settings.encryptedSuffix (Spec.values .encryptedSuffix is) = some m'.settings.encryptedSuffix
  encryptedRegex : onceOf (regexValue O) m.settings.encryptedRegex (Spec.values .encryptedRegex is) =
    some m'.settings.encryptedRegex
  unencryptedSuffix : onceOf some m.settings.unencryptedSuffix (Spec.values .unencryptedSuffix is) =
    some m'.settings.unencryptedSuffix
  unencryptedRegex : onceOf (regexValue O) m.settings.unencryptedRegex (Spec.values .unencryptedRegex is) =
    some m'.settings.unencryptedRegex
  config : onceOf pathValue m.config (Spec.values .config is) = some m'.config
  format : onceOf Fmt.ofName m.format (Spec.values .format is) = some m'.format
  file : onceOf pathValue m.file (Spec.files is) = some m'.file
  macOnlyEncrypted : onceFlag m.macOnlyEncrypted (Spec.times .macOnlyEncrypted is) m'.macOnlyEncrypted
  inPlace : onceFlag m.inPlace (Spec.times .inPlace is) m'.inPlace
  known : is.all knownItem = true

theorem values_nil (a : Arg) : Spec.values a [] = [] := rfl

theorem values_option (a b : Arg) (v : Str) (is : List Item) :
    Spec.values a (.option b v :: is) = if b = a then v :: Spec.values a is else Spec.values a is := by
  unfold Spec.values
  rw [List.filterMap_cons]
  by_cases h : b = a <;> simp [h]

theorem values_flag (a b : Arg) (is : List Item) : Spec.values a (.flag b :: is) = Spec.values a is := rfl

theorem values_file (a : Arg) (p : Str) (is : List Item) : Spec.values a (.file p :: is) = Spec.values a is := rfl

theorem files_option (b : Arg) (v : Str) (is : List Item) : Spec.files (.option b v :: is) = Spec.files is := rfl

theorem files_flag (b : Arg) (is : List Item) : Spec.files (.flag b :: is) = Spec.files is := rfl

theorem files_file (p : Str) (is : List Item) : Spec.files (.file p :: is) = p :: Spec.files is := rfl

theorem times_option (a b : Arg) (v : Str) (is : List Item) : Spec.times a (.option b v :: is) = Spec.times a is := by
  simp [Spec.times]

theorem times_file (a : Arg) (p : Str) (is : List Item) : Spec.times a (.file p :: is) = Spec.times a is := by
  simp [Spec.times]

theorem times_flag (a b : Arg) (is : List Item) :
    Spec.times a (.flag b :: is) = if b = a then Spec.times a is + 1 else Spec.times a is := by
  by_cases h : b = a <;> simp [Spec.times, h]

theorem map_some_append_cons {α : Type} {l r : List α} {x : Option α} {t : List (Option α)} :
    l.map some ++ x :: t = r.map some ↔ ∃ k, x = some k ∧ (l ++ [k]).map some ++ t = r.map some := by
  constructor
  · intro h
    have : x ∈ r.map some := by rw [← h]; simp
    obtain ⟨k, _, rfl⟩ := List.mem_map.1 this
    exact ⟨k, rfl, by simpa using h⟩
  · rintro ⟨k, rfl, h⟩
    simpa using h

theorem map_ok_append_cons {ε α : Type} {l r : List α} {x : Except ε α} {t : List (Except ε α)} :
    l.map Except.ok ++ x :: t = r.map Except.ok ↔ ∃ k, x = .ok k ∧ (l ++ [k]).map Except.ok ++ t = r.map Except.ok := by
  constructor
  · intro h
    have : x ∈ r.map Except.ok := by rw [← h]; simp
    obtain ⟨k, _, rfl⟩ := List.mem_map.1 this
    exact ⟨k, rfl, by simpa using h⟩
  · rintro ⟨k, rfl, h⟩
    simpa using h

theorem map_ok_inj {ε α : Type} {l r : List α} (h : l.map (Except.ok (ε := ε)) = r.map Except.ok) : l = r := by
  induction l generalizing r with
  | nil => cases r with
    | nil => rfl
    | cons => simp at h
  | cons x l ih => cases r with
    | nil => simp at h
    | cons y r => simp only [List.map_cons, List.cons.injEq, Except.ok.injEq] at h; rw [h.1, ih h.2]

theorem map_some_inj {α : Type} {l r : List α} (h : l.map some = r.map some) : l = r := by
  induction l generalizing r with
  | nil => cases r with
    | nil => rfl
    | cons => simp at h
  | cons x l ih => cases r with
    | nil => simp at h
    | cons y r => simp only [List.map_cons, List.cons.injEq, Option.some.injEq] at h; rw [h.1, ih h.2]

theorem items_iff {O : DocOps} {m m' : Matches} {is : List Item} : m.items O is = .ok m' ↔ After O m is m' := by
  induction is generalizing m with
  | nil =>
    constructor
    · intro h
      cases h
      exact ⟨by simp [values_nil], by simp [values_nil], rfl, rfl, rfl, rfl, rfl, rfl, rfl, onceFlag_zero.2 rfl,
        onceFlag_zero.2 rfl, by simp⟩
    · rintro ⟨h1, h2, h3, h4, h5, h6, h7, h8, h9, h10, h11, -⟩
      simp only [values_nil, List.map_nil, List.append_nil] at h1 h2
      replace h1 := map_some_inj h1
      replace h2 := map_ok_inj h2
      replace h10 := onceFlag_zero.1 h10
      replace h11 := onceFlag_zero.1 h11
      simp only [values_nil, onceOf, Option.some.injEq, Spec.files, List.filterMap_nil] at h3 h4 h5 h6 h7 h8 h9
      obtain ⟨_, _, ⟨_, _, _, _⟩, _, _, _, _, _⟩ := m
      obtain ⟨_, _, ⟨_, _, _, _⟩, _, _, _, _, _⟩ := m'
      simp only at h1 h2 h3 h4 h5 h6 h7 h8 h9 h10 h11
      subst h1 h2 h3 h4 h5 h6 h7 h8 h9 h10 h11
      rfl
  | cons i is ih =>
    have hcons : m.items O (i :: is) = .ok m' ↔ ∃ m1, m.item O i = .ok m1 ∧ After O m1 is m' := by
      simp only [Matches.items]
      cases m.item O i with
      | error e => simp
      | ok m1 => simp [ih]
    rw [hcons]
    cases i with
    | option a v =>
      cases a
      case encryptedSuffix =>
        simp only [Matches.item, Matches.option]
        constructor
        · rintro ⟨m1, h, ha⟩
          split at h
          · rename_i x hx
            cases h
            cases ha
            constructor <;> simp_all [values_option, files_option, times_option, onceOf_cons, List.all_cons, knownItem, Arg.takesValue]
          · cases h
        · intro ha
          have h := ha.encryptedSuffix
          rw [values_option, if_pos rfl, onceOf_cons] at h
          obtain ⟨x, hx, h⟩ := h
          simp only [hx]
          refine ⟨_, rfl, ?_⟩
          cases ha
          constructor <;> simp_all [values_option, files_option, times_option, List.all_cons]
      case encryptedRegex =>
        simp only [Matches.item, Matches.option]
        constructor
        · rintro ⟨m1, h, ha⟩
          split at h
          · rename_i x hx
            cases h
            cases ha
            constructor <;> simp_all [values_option, files_option, times_option, onceOf_cons, List.all_cons, knownItem, Arg.takesValue]
          · cases h
        · intro ha
          have h := ha.encryptedRegex
          rw [values_option, if_pos rfl, onceOf_cons] at h
          obtain ⟨x, hx, h⟩ := h
          simp only [hx]
          refine ⟨_, rfl, ?_⟩
          cases ha
          constructor <;> simp_all [values_option, files_option, times_option, List.all_cons]
      case unencryptedSuffix =>
        simp only [Matches.item, Matches.option]
        constructor
        · rintro ⟨m1, h, ha⟩
          split at h
          · rename_i x hx
            cases h
            cases ha
            constructor <;> simp_all [values_option, files_option, times_option, onceOf_cons, List.all_cons, knownItem, Arg.takesValue]
          · cases h
        · intro ha
          have h := ha.unencryptedSuffix
          rw [values_option, if_pos rfl, onceOf_cons] at h
          obtain ⟨x, hx, h⟩ := h
          simp only [hx]
          refine ⟨_, rfl, ?_⟩
          cases ha
          constructor <;> simp_all [values_option, files_option, times_option, List.all_cons]
      case unencryptedRegex =>
        simp only [Matches.item, Matches.option]
        constructor
        · rintro ⟨m1, h, ha⟩
          split at h
          · rename_i x hx
            cases h
            cases ha
            constructor <;> simp_all [values_option, files_option, times_option, onceOf_cons, List.all_cons, knownItem, Arg.takesValue]
          · cases h
        · intro ha
          have h := ha.unencryptedRegex
          rw [values_option, if_pos rfl, onceOf_cons] at h
          obtain ⟨x, hx, h⟩ := h
          simp only [hx]
          refine ⟨_, rfl, ?_⟩
          cases ha
          constructor <;> simp_all [values_option, files_option, times_option, List.all_cons]
      case config =>
        simp only [Matches.item, Matches.option]
        constructor
        · rintro ⟨m1, h, ha⟩
          split at h
          · rename_i x hx
            cases h
            cases ha
            constructor <;> simp_all [values_option, files_option, times_option, onceOf_cons, List.all_cons, knownItem, Arg.takesValue]
          · cases h
        · intro ha
          have h := ha.config
          rw [values_option, if_pos rfl, onceOf_cons] at h
          obtain ⟨x, hx, h⟩ := h
          simp only [hx]
          refine ⟨_, rfl, ?_⟩
          cases ha
          constructor <;> simp_all [values_option, files_option, times_option, List.all_cons]
      case format =>
        simp only [Matches.item, Matches.option]
        constructor
        · rintro ⟨m1, h, ha⟩
          split at h
          · rename_i x hx
            cases h
            cases ha
            constructor <;> simp_all [values_option, files_option, times_option, onceOf_cons, List.all_cons, knownItem, Arg.takesValue]
          · cases h
        · intro ha
          have h := ha.format
          rw [values_option, if_pos rfl, onceOf_cons] at h
          obtain ⟨x, hx, h⟩ := h
          simp only [hx]
          refine ⟨_, rfl, ?_⟩
          cases ha
          constructor <;> simp_all [values_option, files_option, times_option, List.all_cons]
      case age =>
        simp only [Matches.item, Matches.option]
        constructor
        · rintro ⟨m1, h, ha⟩
          split at h
          · rename_i x hx
            cases h
            cases ha
            constructor <;> simp_all [values_option, files_option, times_option, List.all_cons, knownItem, Arg.takesValue]
          · cases h
        · intro ha
          have h := ha.age
          rw [values_option, if_pos rfl, List.map_cons, map_some_append_cons] at h
          obtain ⟨x, hx, h⟩ := h
          simp only [hx]
          refine ⟨_, rfl, ?_⟩
          cases ha
          constructor <;> simp_all [values_option, files_option, times_option, List.all_cons]
      case awsKms =>
        simp only [Matches.item, Matches.option]
        constructor
        · rintro ⟨m1, h, ha⟩
          split at h
          · rename_i x hx
            cases h
            cases ha
            constructor <;> simp_all [values_option, files_option, times_option, List.all_cons, knownItem, Arg.takesValue]
          · cases h
          · cases h
        · intro ha
          have h := ha.kms
          rw [values_option, if_pos rfl, List.map_cons, map_ok_append_cons] at h
          obtain ⟨x, hx, h⟩ := h
          simp only [hx]
          refine ⟨_, rfl, ?_⟩
          cases ha
          constructor <;> simp_all [values_option, files_option, times_option, List.all_cons]
      all_goals
        simp only [Matches.item, Matches.option]
        constructor
        · rintro ⟨_, h, _⟩
          cases h
        · intro ha
          have := ha.known
          simp [knownItem, Arg.takesValue] at this
    | flag a =>
      cases a
      case macOnlyEncrypted =>
        simp only [Matches.item, Matches.flag]
        constructor
        · rintro ⟨m1, h, ha⟩
          split at h
          · cases h
          · rename_i hx
            cases h
            cases ha
            constructor <;> simp_all [values_flag, files_flag, times_flag, onceFlag_succ, List.all_cons, knownItem, Arg.takesValue]
        · intro ha
          have h := ha.macOnlyEncrypted
          rw [times_flag, if_pos rfl, onceFlag_succ] at h
          rw [h.1]
          refine ⟨_, rfl, ?_⟩
          cases ha
          constructor <;> simp_all [values_flag, files_flag, times_flag, List.all_cons]
      case inPlace =>
        simp only [Matches.item, Matches.flag]
        constructor
        · rintro ⟨m1, h, ha⟩
          split at h
          · cases h
          · rename_i hx
            cases h
            cases ha
            constructor <;> simp_all [values_flag, files_flag, times_flag, onceFlag_succ, List.all_cons, knownItem, Arg.takesValue]
        · intro ha
          have h := ha.inPlace
          rw [times_flag, if_pos rfl, onceFlag_succ] at h
          rw [h.1]
          refine ⟨_, rfl, ?_⟩
          cases ha
          constructor <;> simp_all [values_flag, files_flag, times_flag, List.all_cons]
      all_goals
        simp only [Matches.item, Matches.flag]
        constructor
        · rintro ⟨_, h, _⟩
          cases h
        · intro ha
          have := ha.known
          simp [knownItem] at this
    | file p =>
      simp only [Matches.item, Matches.positional]
      constructor
      · rintro ⟨m1, h, ha⟩
        split at h
        · rename_i x hx
          cases h
          cases ha
          constructor <;> simp_all [values_file, files_file, times_file, onceOf_cons, knownItem]
        · cases h
      · intro ha
        have h := ha.file
        rw [files_file, onceOf_cons] at h
        obtain ⟨x, hx, h⟩ := h
        simp only [hx]
        refine ⟨_, rfl, ?_⟩
        cases ha
        constructor <;> simp_all [values_file, files_file, times_file]

end Rops
