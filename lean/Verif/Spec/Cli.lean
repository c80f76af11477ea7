import Verif.Model.Cli
import Verif.Spec.Keys
import Verif.Spec.Format
/-!
# Specification vocabulary for the command line program
-/

namespace Rops.Spec

/-- What the paths name. -/
abbrev Files := Str → Entry

/-- A path gets another content. -/
def Files.put (fs : Files) (p : Str) (e : Entry) : Files := fun q => if q = p then e else fs q

/-- What an effect does to the files. -/
def effect (fs : Files) : Event → Files
  | .print _ => fs
  | .create p => fs.put p (.data [])
  | .write p b .done => fs.put p (.data b)
  | .write _ _ .notOpened => fs
  | .write p b (.failed n) => fs.put p (.data (b.take n))
  | .edited p e => fs.put p e
  | .delete p => fs.put p .missing

/-- The files after some effects. -/
def filesAfter (fs : Files) (es : List Event) : Files := es.foldl effect fs

/-- The states of the files that a crash can leave, at any point during the effects. A write
first makes the file empty and then longer. -/
inductive CrashState : Files → List Event → Files → Prop where
  | now {fs es} : CrashState fs es fs
  | writing {fs p b r es} (n : Nat) (hn : n ≤ b.length) (hr : r ≠ .notOpened)
      (hf : ∀ k, r = .failed k → n ≤ k) : CrashState fs (.write p b r :: es) (fs.put p (.data (b.take n)))
  | later {fs e es fs'} (h : CrashState (effect fs e) es fs') : CrashState fs (e :: es) fs'

/-- The file that a command may change, other than a temporary one. -/
def target (P : Proc) : Command → Option Str
  | .encrypt l => if l.inPlace then l.input.file else none
  | .decrypt l => if l.inPlace then l.input.file else none
  | .refresh l => if l.inPlace then l.input.file else none
  | .addKeys a => some a.file
  | .removeKeys a => some a.file
  | .edit a => match P.stdin with
    | .terminal => a.file
    | .piped _ => none

/-- The name of a new temporary file was not in use. -/
def FreshTemp (P : Proc) : Prop := ∀ t, P.temp = some t → P.file t = .missing

/-- The first rule whose pattern matches the path. -/
def ruleFor (rx : RegexMatch) (config : Config) (path : Option Str) : Option CreationRule :=
  config.find? fun r => rx r.pathRegex (path.getD [])

/-- The keys of a rule, none without a rule. -/
def ruleKeys (r : Option CreationRule) : IntegrationKeys :=
  match r with
  | some r => r.keys
  | none => { age := [], kms := [] }

/-- The rule describes the metadata: same settings, same sets of keys. -/
def Describes {M : Type} (r : CreationRule) (md : Metadata M) : Prop :=
  r.macOnlyEncrypted = md.macOnlyEncrypted ∧ r.partialEncryption = md.partialEncryption ∧
  (∀ id, id ∈ r.keys.age ↔ id ∈ keyIds md.integration .age) ∧
  (∀ id, id ∈ r.keys.kms ↔ id ∈ keyIds md.integration .kms)

/-- The values that files of the format can hold. -/
def docRep : Fmt → Value → Prop
  | .yaml => yamlRep
  | .json => jsonRep
  | .toml => tomlRep

/-- The text a command reads: of the file if there is one, and then standard input has to be a
terminal; otherwise of standard input. -/
def InputText (P : Proc) (file : Option Str) (s : Str) : Prop :=
  (∃ p b, file = some p ∧ P.stdin = .terminal ∧ P.file p = .data b ∧ utf8? b = some s) ∨
  (∃ b, file = none ∧ P.stdin = .piped (some b) ∧ utf8? b = some s)

/-- The text is what a command gives: written to the file, or printed. -/
def Delivered (P : Proc) (inPlace : Bool) (file : Option Str) (out : Str) (es : List Event) : Prop :=
  (inPlace = true ∧ ∃ p, file = some p ∧ P.saves p (utf8 out) = .done ∧ es = [.write p (utf8 out) .done]) ∨
  (inPlace = false ∧ P.stdout = none ∧ es = [.print (out ++ ['\n'])])

/-- The directories from a directory to the root, each innermost component first. -/
def ancestors : List Str → List (List Str)
  | [] => [[]]
  | c :: r => (c :: r) :: ancestors r

/-- The path of the configuration in a directory. -/
def configPath (dir : List Str) : Str := (dir.reverse ++ [c!".rops.toml"]).flatMap fun c => '/' :: c

/-- The path made of these components. -/
def PathOf (p : Str) (cs : List Str) : Prop :=
  cs ≠ [] ∧ (∀ c ∈ cs, '/' ∉ c) ∧ p = List.intercalate ['/'] cs

/-- A component that makes no difference: between, before or after two '/', or a point. -/
def Idle (c : Str) : Prop := c = [] ∨ c = c!"."

/-- A path whose last component, but for idle ones, is `n`. -/
def LastComponent (p n : Str) : Prop :=
  ∃ cs ts, PathOf p (cs ++ n :: ts) ∧ ¬ Idle n ∧ ∀ t ∈ ts, Idle t

/-- The extensions of a format, in lower case. -/
def extensions : Fmt → List Str
  | .yaml => [c!"yaml", c!"yml"]
  | .json => [c!"json"]
  | .toml => [c!"toml"]

/-- The path of the first of the editors that are tried. -/
def fallback (P : Proc) : Option Bytes := [c!"vim", c!"nano", c!"vi"].findSome? P.which

/-- There is an editor: the first word of the variable EDITOR or, without this, one that is found;
and interrupts can be handled. -/
def EditorReady (P : Proc) : Prop :=
  ((∃ b s w ws, P.editorVar = some b ∧ utf8? b = some s ∧ P.shlex s = some (w :: ws)) ∨
    (P.editorVar = none ∧ ∃ b s, fallback P = some b ∧ utf8? b = some s)) ∧ P.handlerSet = true

/-- The editor leaves texts that cannot be parsed until the user interrupts. -/
inductive Cancelled {α : Type} (parse : Str → Option α) : List Attempt → Prop where
  | now {b s r} (hu : utf8? b = some s) (hp : parse s = none) : Cancelled parse (.left (.data b) .interrupted :: r)
  | again {b s r} (hu : utf8? b = some s) (hp : parse s = none) (h : Cancelled parse r) :
    Cancelled parse (.left (.data b) .key :: r)

/-- The editor leaves, perhaps after some texts that cannot be parsed, a text for `m`. -/
inductive Edited {α : Type} (parse : Str → Option α) (m : α) : List Attempt → Prop where
  | now {b s k r} (hu : utf8? b = some s) (hp : parse s = some m) : Edited parse m (.left (.data b) k :: r)
  | again {b s r} (hu : utf8? b = some s) (hp : parse s = none) (h : Edited parse m r) :
    Edited parse m (.left (.data b) .key :: r)

end Rops.Spec
