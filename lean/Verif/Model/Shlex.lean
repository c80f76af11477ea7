import Verif.Model.Cli
/-!
# How $EDITOR is split into words

`shlex::split` (1.3.0 in Cargo.lock), which `select_editor` uses (crates/cli/src/cli/edit.rs:70). This is
library code whose source is not in /repo; it is written down from its documented behaviour. It works on the bytes
of UTF-8; as all characters that it knows are ASCII, the model works on characters.
-/

namespace Rops

/-- White space between words. -/
def shellBlank (c : Char) : Bool := c == ' ' || c == '\t' || c == '\n'

/-- Where the reader is: between words or in one (with what was read of it), in a comment, in quotes. -/
inductive ShellMode where
  | word (w : Option Str)
  | comment
  | single (w : Str)
  | double (w : Str)
deriving DecidableEq

/-- The characters that a backslash escapes in double quotes. -/
def shellEscapes : List Char := ['$', '`', '"', '\\']

/-- `Shlex::next`, `parse_word`, `parse_double` and `parse_single`, again and again; none if something is left open. -/
def shlexRun : ShellMode → Str → Option (List Str)
  | .word w, [] => some w.toList
  | .comment, [] => some []
  | .single _, [] => none
  | .double _, [] => none
  | .comment, c :: r => if c = '\n' then shlexRun (.word none) r else shlexRun .comment r
  | .single w, c :: r => if c = '\'' then shlexRun (.word (some w)) r else shlexRun (.single (w ++ [c])) r
  | .double _, ['\\'] => none
  | .double w, '\\' :: c :: r =>
    if c ∈ shellEscapes then shlexRun (.double (w ++ [c])) r
    else if c = '\n' then shlexRun (.double w) r
    else shlexRun (.double (w ++ ['\\', c])) r
  | .double w, c :: r => if c = '"' then shlexRun (.word (some w)) r else shlexRun (.double (w ++ [c])) r
  | .word _, ['\\'] => none
  | .word w, '\\' :: c :: r => if c = '\n' then shlexRun (.word (some (w.getD []))) r else shlexRun (.word (some (w.getD [] ++ [c]))) r
  | .word w, c :: r =>
    if c = '"' then shlexRun (.double (w.getD [])) r
    else if c = '\'' then shlexRun (.single (w.getD [])) r
    else if shellBlank c then (shlexRun (.word none) r).map (w.toList ++ ·)
    else if c = '#' ∧ w = none then shlexRun .comment r
    else shlexRun (.word (some (w.getD [] ++ [c]))) r

/-- `shlex::split`. -/
def shlexSplit (s : Str) : Option (List Str) := shlexRun (.word none) s

/-- What is run (cli/edit.rs:85-88): the program, its arguments and, last, the path of the temporary file. -/
def Proc.editCommand (P : Proc) (temp : Str) : Except CliError (List Str) :=
  match P.selectEditor with
  | .error e => .error e
  | .ok (command, args) => .ok (command :: (args ++ [temp]))

end Rops
