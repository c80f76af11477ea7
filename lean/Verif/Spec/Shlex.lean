import Verif.Model.Cli
/-!
# Words of a shell
-/

namespace Rops.Spec

/-- White space. -/
def ShellSpace (c : Char) : Prop := c = ' ' ∨ c = '\t' ∨ c = '\n'

/-- What stands between double quotes for a text: a backslash is kept, but for before a dollar sign, a backtick, a
double quote or a backslash, which then stand for themselves, and before the end of a line, which is left out. -/
inductive DoubleQuoted : Str → Str → Prop
  | nil : DoubleQuoted [] []
  | plain {c : Char} {w s : Str} : c ≠ '"' → c ≠ '\\' → DoubleQuoted w s → DoubleQuoted (c :: w) (c :: s)
  | escaped {c : Char} {w s : Str} : c = '$' ∨ c = '`' ∨ c = '"' ∨ c = '\\' → DoubleQuoted w s → DoubleQuoted (c :: w) ('\\' :: c :: s)
  | line {w s : Str} : DoubleQuoted w s → DoubleQuoted w ('\\' :: '\n' :: s)
  | kept {c : Char} {w s : Str} : ¬ (c = '$' ∨ c = '`' ∨ c = '"' ∨ c = '\\') → c ≠ '\n' → DoubleQuoted w s →
    DoubleQuoted ('\\' :: c :: w) ('\\' :: c :: s)

/-- A part of a word with a text for it. -/
inductive ShellPart : Str → Str → Prop
  | plain {c : Char} : c ≠ '"' → c ≠ '\'' → c ≠ '\\' → ¬ ShellSpace c → ShellPart [c] [c]
  | escaped {c : Char} : c ≠ '\n' → ShellPart [c] ['\\', c]
  | line : ShellPart [] ['\\', '\n']
  | single {w : Str} : '\'' ∉ w → ShellPart w ('\'' :: (w ++ ['\'']))
  | double {w s : Str} : DoubleQuoted w s → ShellPart w ('"' :: (s ++ ['"']))

/-- Parts of a word with a text for them. -/
inductive ShellParts : Str → Str → Prop
  | nil : ShellParts [] []
  | cons {w w' s s' : Str} : ShellPart w s → ShellParts w' s' → ShellParts (w ++ w') (s ++ s')

/-- White space and comments, which end with their lines. -/
inductive ShellGap : Str → Prop
  | nil : ShellGap []
  | blank {c : Char} {s : Str} : ShellSpace c → ShellGap s → ShellGap (c :: s)
  | comment {x s : Str} : '\n' ∉ x → ShellGap s → ShellGap ('#' :: (x ++ '\n' :: s))

/-- A last comment, possibly none. -/
def LastComment (s : Str) : Prop := s = [] ∨ ∃ x, '\n' ∉ x ∧ s = '#' :: x

/-- A text of words: gaps, and words that do not start with '#', each with white space behind it if it is not at the end. -/
inductive ShellText : List Str → Str → Prop
  | nil {g c : Str} : ShellGap g → LastComment c → ShellText [] (g ++ c)
  | cons {g w t r : Str} {ws : List Str} : ShellGap g → ShellParts w t → t ≠ [] → t.head? ≠ some '#' →
    (r = [] ∨ ∃ c x, ShellSpace c ∧ r = c :: x) → ShellText ws r → ShellText (w :: ws) (g ++ (t ++ r))

/-- The program that is run and its arguments: the words of $EDITOR if it is set, otherwise the first of vim, nano and
vi that there is. -/
inductive EditorIs (P : Proc) (command : Str) (args : List Str) : Prop
  | words {b : Bytes} {s : Str} : P.editorVar = some b → utf8? b = some s → ShellText (command :: args) s → EditorIs P command args
  | found {b : Bytes} {before after : List Str} {name : Str} : P.editorVar = none → args = [] → [c!"vim", c!"nano", c!"vi"] = before ++ name :: after →
    (∀ n ∈ before, P.which n = none) → P.which name = some b → utf8? b = some command → EditorIs P command args

end Rops.Spec
