import Verif.Lemmas.Shlex
import Verif.Props.Crashes
/-!
# The editor that is run

C89: $EDITOR is read as a shell reads words, so that any program with any arguments can be given; the path of the
temporary file is the last argument, as it is.
-/

namespace Rops.Props
open Rops Spec

/-- **C89.** `shlex::split` gives exactly the words of the text, and none if the text is not one of words. -/
theorem C89_split (s : Str) (ws : List Str) : shlexSplit s = some ws ↔ ShellText ws s := split_iff

/-- **C89.** A text is one of at most one list of words. -/
theorem C89_unambiguous {s : Str} {ws ws' : List Str} (h : ShellText ws s) (h' : ShellText ws' s) : ws = ws' :=
  Option.some.inj ((split_iff.2 h).symm.trans (split_iff.2 h'))

theorem selectEditor_ok {P : Proc} (hP : P.shlex = shlexSplit) {c : Str} {args : List Str} :
    P.selectEditor = .ok (c, args) ↔ EditorIs P c args := by
  constructor
  · intro h
    unfold Proc.selectEditor at h
    rw [hP] at h
    cases hv : P.editorVar with
    | some b =>
      rw [hv] at h
      cases hb : utf8? b with
      | none => simp only [hb] at h; cases h
      | some s =>
        simp only [hb] at h
        cases hs : shlexSplit s with
        | none => simp only [hs] at h; cases h
        | some ws =>
          simp only [hs] at h
          cases ws with
          | nil => cases h
          | cons w ws =>
            have := Except.ok.inj h
            rw [Prod.mk.injEq] at this
            obtain ⟨rfl, rfl⟩ := this
            exact .words hv hb (split_iff.1 hs)
    | none =>
      rw [hv] at h
      simp only at h
      have key : ∀ (b : Bytes) (before after : List Str) (name : Str), [c!"vim", c!"nano", c!"vi"] = before ++ name :: after →
          (∀ n ∈ before, P.which n = none) → P.which name = some b →
          (match utf8? b with | none => (.error .panic : Except CliError (Str × List Str)) | some path => .ok (path, [])) = .ok (c, args) →
          EditorIs P c args := by
        intro b before after name h1 h2 h3 h4
        cases hb : utf8? b with
        | none => rw [hb] at h4; cases h4
        | some path =>
          rw [hb] at h4
          have := Except.ok.inj h4
          rw [Prod.mk.injEq] at this
          obtain ⟨rfl, rfl⟩ := this
          exact .found hv rfl h1 h2 h3 hb
      cases h1 : P.which c!"vim" with
      | some b =>
        simp only [h1, Option.some_or] at h
        exact key b [] _ _ rfl (by simp) h1 h
      | none =>
        cases h2 : P.which c!"nano" with
        | some b =>
          simp only [h1, h2, Option.some_or, Option.none_or] at h
          exact key b [c!"vim"] _ _ rfl (by simpa using h1) h2 h
        | none =>
          cases h3 : P.which c!"vi" with
          | some b =>
            simp only [h1, h2, h3, Option.none_or] at h
            exact key b [c!"vim", c!"nano"] _ _ rfl (by simpa using ⟨h1, h2⟩) h3 h
          | none => simp only [h1, h2, h3, Option.none_or] at h; cases h
  · intro h
    unfold Proc.selectEditor
    cases h with
    | words hv hb hs => rw [hP]; simp only [hv, hb, split_iff.2 hs]
    | @found b before after name hv ha h1 h2 h3 h4 =>
      subst ha
      rw [hv]
      simp only
      have : ((P.which c!"vim").or (P.which c!"nano")).or (P.which c!"vi") = some b := by
        rcases before with _ | ⟨n1, _ | ⟨n2, _ | ⟨n3, before⟩⟩⟩
        · have := (List.cons.inj h1).1
          subst this
          rw [h3]; rfl
        · obtain ⟨e1, e⟩ := List.cons.inj h1
          have := (List.cons.inj e).1
          subst e1 this
          rw [h2 _ (by simp), h3]; rfl
        · obtain ⟨e1, e⟩ := List.cons.inj h1
          obtain ⟨e2, e⟩ := List.cons.inj e
          have := (List.cons.inj e).1
          subst e1 e2 this
          rw [h2 _ (.head _), h2 _ (.tail _ (.head _)), h3]; rfl
        · have := congrArg List.length h1
          simp at this
      rw [this]
      simp only [h4]

/-- **C89.** What is run is the editor: the words of $EDITOR or the first of vim, nano and vi that there is, and
after its arguments the path of the temporary file, as it is, as one argument. -/
theorem C89_command {P : Proc} (hP : P.shlex = shlexSplit) (temp : Str) (v : List Str) :
    P.editCommand temp = .ok v ↔ ∃ c args, EditorIs P c args ∧ v = c :: (args ++ [temp]) := by
  unfold Proc.editCommand
  cases h : P.selectEditor with
  | error e =>
    constructor
    · intro h'; cases h'
    · rintro ⟨c, args, he, _⟩
      rw [(selectEditor_ok hP).2 he] at h
      cases h
  | ok ca =>
    obtain ⟨c, args⟩ := ca
    constructor
    · intro h'
      exact ⟨c, args, (selectEditor_ok hP).1 h, (Except.ok.inj h').symm⟩
    · rintro ⟨c', args', he, rfl⟩
      rw [(selectEditor_ok hP).2 he] at h
      have := Except.ok.inj h
      rw [Prod.mk.injEq] at this
      rw [this.1, this.2]

/-- **C89.** The panic of an empty $EDITOR is that of white space and comments; no other text that is UTF-8 has it. -/
theorem C89_panic {P : Proc} (hP : P.shlex = shlexSplit) {b : Bytes} (hv : P.editorVar = some b) :
    P.selectEditor = .error .panic ↔ ∃ s g c, utf8? b = some s ∧ s = g ++ c ∧ ShellGap g ∧ LastComment c := by
  unfold Proc.selectEditor
  rw [hv, hP]
  constructor
  · intro h
    cases hb : utf8? b with
    | none => simp only [hb] at h; cases h
    | some s =>
      simp only [hb] at h
      cases hs : shlexSplit s with
      | none => simp only [hs] at h; cases h
      | some ws =>
        simp only [hs] at h
        cases ws with
        | cons w ws => cases h
        | nil =>
          have ht := split_iff.1 hs
          cases ht with
          | nil hg hc => exact ⟨_, _, _, rfl, rfl, hg, hc⟩
  · rintro ⟨s, g, c, hb, rfl, hg, hc⟩
    have := split_iff.2 (ShellText.nil hg hc)
    simp only [hb, this]

/-- **C89.** If what is set is not a text of words, an error says so and no editor is run. -/
theorem C89_refused {P : Proc} (hP : P.shlex = shlexSplit) {b : Bytes} (hv : P.editorVar = some b) :
    P.selectEditor = .error .editor ↔ ∀ s ws, utf8? b = some s → ¬ ShellText ws s := by
  unfold Proc.selectEditor
  rw [hv, hP]
  constructor
  · intro h s ws hb ht
    simp only [hb, split_iff.2 ht] at h
    cases ws <;> cases h
  · intro h
    cases hb : utf8? b with
    | none => simp only [hb]
    | some s =>
      cases hs : shlexSplit s with
      | none => simp only [hb, hs]
      | some ws => exact absurd (split_iff.1 hs) (h s ws hb)

/-! ## Any words can be given -/

/-- A word in single quotes, with its own ones as `'\''`. -/
def quoteWord (w : Str) : Str := '\'' :: (w.flatMap (fun c => if c = '\'' then c!"'\\''" else [c]) ++ ['\''])

/-- Words in single quotes, with a space before each. -/
def quoteWords : List Str → Str
  | [] => []
  | w :: ws => ' ' :: (quoteWord w ++ quoteWords ws)

theorem quoted_run : ∀ (w acc r : Str),
    shlexRun (.single acc) (w.flatMap (fun c => if c = '\'' then c!"'\\''" else [c]) ++ '\'' :: r) = shlexRun (.word (some (acc ++ w))) r
  | [], acc, r => by simp [run_single_end]
  | c :: w, acc, r => by
    rw [List.flatMap_cons]
    by_cases hc : c = '\''
    · subst hc
      have := quoted_run w (acc ++ ['\'']) r
      show shlexRun (.single acc) ('\'' :: '\\' :: '\'' :: '\'' :: (w.flatMap _ ++ '\'' :: r)) = _
      rw [run_single_end, run_escape _ _ (by decide), run_open_single]
      simp only [Option.getD_some]
      rw [this]
      simp
    · rw [if_neg hc, List.append_assoc, List.singleton_append, run_single_next _ _ hc, quoted_run w (acc ++ [c]) r]
      simp

/-- **C89.** Whatever a program and its arguments are, there is a text for them. -/
theorem C89_quoted : ∀ ws : List Str, shlexSplit (quoteWords ws) = some ws
  | [] => rfl
  | w :: ws => by
    have ih := C89_quoted ws
    unfold shlexSplit at ih ⊢
    rw [quoteWords, run_blank _ _ (.inl rfl), quoteWord, List.cons_append, run_open_single, List.append_assoc, List.singleton_append, quoted_run]
    cases ws with
    | nil => simp [quoteWords, shlexRun]
    | cons w' ws =>
      rw [quoteWords, run_blank _ _ (.inl rfl)] at ih ⊢
      simp at ih ⊢
      exact ih

/-! ## Runs of the program -/

theorem editSession_edited {P : Proc} {x : Fmt} {m : x.doc.F.Map} {p : Str} {e : Entry}
    (h : .edited p e ∈ (P.editSession x m).1) : ∃ ca, P.selectEditor = .ok ca := by
  cases hs : P.selectEditor with
  | ok ca => exact ⟨ca, rfl⟩
  | error er =>
    exfalso
    unfold Proc.editSession at h
    cases ht : P.temp with
    | none => rw [ht] at h; simp at h
    | some t =>
      rw [ht] at h
      simp only [Proc.editTemp, hs, withTemp, Proc.write] at h
      by_cases hw : P.saves t (utf8 ((P.T x).render m)) = .done
      · simp only [hw, if_true] at h
        split at h
        · rename_i heq
          rw [← (Prod.mk.inj heq).1] at h
          simp at h
        · rename_i heq
          rw [← (Prod.mk.inj heq).1] at h
          simp at h
      · simp only [hw, if_false] at h
        simp at h

/-- **C89.** When an editor has been run, it is the editor. -/
theorem C89_edited {P : Proc} (hP : P.shlex = shlexSplit) {a : InputArgs} {i : Nat} {p : Str} {e : Entry}
    (h : .edited p e ∈ (P.run (.edit a) i).1) : ∃ c args, EditorIs P c args := by
  suffices ∃ ca, P.selectEditor = .ok ca by
    obtain ⟨ca, h⟩ := this
    exact ⟨ca.1, ca.2, (selectEditor_ok hP).1 h⟩
  rw [run_edit] at h
  cases hc : P.retrieveConfig a.config with
  | error er => rw [hc] at h; simp at h
  | ok config =>
    rw [hc] at h
    simp only [Proc.edit] at h
    cases hx : getFormat a.file a.format with
    | error er => rw [hx] at h; simp at h
    | ok x =>
      rw [hx] at h
      simp only [Proc.editFile] at h
      cases h1 : P.getInput a.file none with
      | error er => rw [h1] at h; simp at h
      | ok s =>
        simp only [h1] at h
        cases h2 : P.parseFile x s with
        | error er => rw [h2] at h; simp at h
        | ok f =>
          simp only [h2] at h
          cases h3 : f.decryptAndSave x.doc.F P.env with
          | error er => rw [h3] at h; simp at h
          | ok gp =>
            obtain ⟨g, sp⟩ := gp
            simp only [h3] at h
            have key : .edited p e ∈ (P.editSession x g.map).1 := by
              rcases hes : P.editSession x g.map with ⟨es, _ | _ | m⟩
              · rw [hes] at h; exact h
              · rw [hes] at h; exact h
              · rw [hes] at h
                simp only at h ⊢
                split at h
                · exact h
                · split at h
                  · simpa [Proc.write] using h
                  · exact h
                  · unfold Proc.printLine at h
                    cases ho : P.stdout <;> rw [ho] at h <;> simpa using h
            exact editSession_edited key

/-- A program with a space in its path and an argument with quotes; the comment is left out. -/
example : shlexSplit c!"'/opt/my editor/bin' --cmd \"say \\\"hi\\\" \\n\" a\\ b # wait" =
    some [c!"/opt/my editor/bin", c!"--cmd", c!"say \"hi\" \\n", c!"a b"] := by decide +kernel

/-- A path with a space that is not quoted is two words; an open quote is refused; an escaped line end is an empty word. -/
example : shlexSplit c!"/opt/my editor" = some [c!"/opt/my", c!"editor"] ∧ shlexSplit c!"vim 'a" = none ∧ shlexSplit c!"vim \\" = none ∧
    shlexSplit c!"\\\n vim" = some [[], c!"vim"] ∧ shlexSplit c!" # vim" = some [] := by decide +kernel

/-- A process whose $EDITOR is `code --wait`. -/
def waiting (P : Proc) : Proc := { P with editorVar := some (utf8 c!"code --wait"), shlex := shlexSplit }

example (P : Proc) : (waiting P).editCommand c!"/tmp/a b" = .ok [c!"code", c!"--wait", c!"/tmp/a b"] := by
  refine (C89_command rfl _ _).2 ⟨c!"code", [c!"--wait"], .words (b := utf8 c!"code --wait") rfl (utf8?_utf8 _) ?_, rfl⟩
  exact (C89_split _ _).1 (by decide +kernel)

/-- White space and a comment: the panic. -/
example (P : Proc) : ({ waiting P with editorVar := some (utf8 c!"  # none") }).selectEditor = .error .panic :=
  (C89_panic rfl rfl).2 ⟨_, c!"  ", c!"# none", utf8?_utf8 _, rfl, .blank (.inl rfl) (.blank (.inl rfl) .nil), .inr ⟨_, by decide, rfl⟩⟩

/-- An open quote is refused. -/
example (P : Proc) : ({ waiting P with editorVar := some (utf8 c!"vim \"") }).selectEditor = .error .editor :=
  (C89_refused rfl rfl).2 fun s ws hs ht => by
    rw [utf8?_utf8] at hs
    cases hs
    have h := (C89_split _ _).2 ht
    have h' : shlexSplit c!"vim \"" = none := by decide +kernel
    rw [h'] at h
    cases h

/-- `code --wait` is run on an encrypted file, and the temporary file is then gone. -/
example : ∃ P : Proc, P.shlex = shlexSplit ∧ .edited c!"/tmp/t" .missing ∈ (P.run (.edit Toy.input) 7).1 := by
  obtain ⟨f, _, m', _, _, h1, hh, _, hr⟩ := Toy.encrypted []
  obtain ⟨g, p, _, _, hg⟩ := Toy.decrypted hh hr
  let P := waiting (Toy.proc Toy.rule (EncFile.toText Toy.jsonText Toy.env.C f) [.left .missing .key])
  have hsel : P.selectEditor = .ok (c!"code", [c!"--wait"]) :=
    (selectEditor_ok rfl).2 (.words (b := utf8 c!"code --wait") rfl (utf8?_utf8 _) ((C89_split _ _).1 (by decide +kernel)))
  have hses : P.editSession .json g.map = ([.create c!"/tmp/t", .write c!"/tmp/t" (utf8 ((P.T .json).render g.map)) .done,
      .edited c!"/tmp/t" .missing, .delete c!"/tmp/t"], .error .io) := by
    unfold Proc.editSession Proc.editTemp
    rw [hsel]
    rfl
  have hrun := run_edit_error (P := P) (i := 7) (a := Toy.input) (x := .json)
    (Toy.proc_config (EncFile.toText Toy.jsonText Toy.env.C f) [.left .missing .key]) (by decide +kernel)
    (Toy.proc_input Toy.rule (EncFile.toText Toy.jsonText Toy.env.C f) [.left .missing .key]) h1 hg hses
  exact ⟨P, rfl, by rw [hrun]; exact .tail _ (.tail _ (.head _))⟩

end Rops.Props
