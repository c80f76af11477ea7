import Verif.Spec.Leakage
import Verif.Spec.Cli
/-!
# Specification vocabulary for what a command shows

What somebody without the data key can see of a run of the program.
-/

namespace Rops.Spec

/-- Two processes that differ at most in the contents of files and of standard input. -/
def OtherContents (P Q : Proc) : Prop := Q = { P with file := Q.file, stdin := Q.stdin }

/-- Two processes that differ at most in what is done in the editor. -/
def OtherEdits (P Q : Proc) : Prop := Q = { P with editor := Q.editor }

/-- The effect does not concern the temporary file. -/
def Lasting (P : Proc) : Event → Bool
  | .print _ => true
  | .write p _ _ => P.temp != some p
  | .create _ => false
  | .edited _ _ => false
  | .delete _ => false

/-- The effects of a run that do not concern the temporary file. -/
def lasting (P : Proc) (es : List Event) : List Event := es.filter (Lasting P)

/-- The setting with which `rops encrypt` encrypts: that of the flags, or that of the rule. -/
def settingFor (rx : RegexMatch) (config : Config) (l : EncryptLine) : Option PartialEncryption :=
  l.setting.or ((ruleFor rx config l.input.file).bind CreationRule.partialEncryption)

end Rops.Spec
