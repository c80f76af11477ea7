import Verif.Spec.Toy
import Verif.Spec.Keys
import Verif.Lemmas.Base64
import Verif.Lemmas.Text
/-!
# Small instances of the key parameters

Only used in examples and in witnesses of negative results.
-/

namespace Rops.Toy

/-- A recipient is "p" and the identity; a wrapped text is the recipient, ',' and base64. -/
def age : AgeOps where
  Identity := Str
  parseIdentity s := if s = [] then none else some s
  parseRecipient s := some s
  toPublic id := 'p' :: id
  wrap r d _ := .ok (r ++ ',' :: Base64.encode d)
  unwrap id t := match stripPrefix (('p' :: id) ++ [',']) t with
    | none => .error .decryption
    | some t => match Base64.decode t with
      | none => .error .decryption
      | some b => .ok b

theorem age_laws : Spec.AgeLaws age where
  unwrap_wrap := by
    intro id r d i t hr ht
    have hr : 'p' :: id = r := hr
    have ht : Except.ok (r ++ ',' :: Base64.encode d) = Except.ok (ε := IntegrationError) t := ht
    cases ht
    subst hr
    have : ('p' :: id) ++ ',' :: Base64.encode d = (('p' :: id) ++ [',']) ++ Base64.encode d := by simp
    simp only [age, this, stripPrefix_append, Base64.decode_encode]

/-- The encryption is the key id followed by the data. -/
def kms : KmsOps where
  encrypt _ k d _ := .blob (utf8 k ++ d)
  decrypt _ k b := if (utf8 k).isPrefixOf b then .blob (b.drop (utf8 k).length) else .error

theorem kms_laws : Spec.KmsLaws kms where
  decrypt_encrypt := by
    intro c c' k d i b d' h h'
    have h : KmsAnswer.blob (utf8 k ++ d) = .blob b := h
    cases h
    have h' : (if (utf8 k).isPrefixOf (utf8 k ++ d) then KmsAnswer.blob ((utf8 k ++ d).drop (utf8 k).length) else .error)
      = .blob d' := h'
    rw [if_pos (by simp [List.isPrefixOf_iff_prefix])] at h'
    simpa using h'.symm

/-- A process whose environment variables hold the given private keys. -/
def host (ageKeys kmsKeys : EnvVar) : Host where
  var n := if n = c!"ROPS_AGE" then ageKeys else if n = c!"ROPS_AWS_KMS" then kmsKeys else .notPresent
  varPath _ := none
  configDir := some c!"/home"
  file _ := .missing

/-- Letters and digits. -/
def isWord (s : Str) : Bool := s ≠ [] && s.all fun c => c.isAlphanum || c == '-'

/-- Identifiers are words; a resource is words separated by ':' or '/'. -/
def arns : ArnChecks where
  ident := isWord
  account := isWord
  resource s := s ≠ [] && s.all fun c => c.isAlphanum || c == '-' || c == '/' || c == ':'

theorem isWord_chars {s : Str} (h : isWord s = true) : ':' ∉ s ∧ '/' ∉ s := by
  simp only [isWord, Bool.and_eq_true, List.all_eq_true] at h
  constructor
  · intro hc; have := h.2 _ hc; revert this; decide
  · intro hc; have := h.2 _ hc; revert this; decide

theorem arns_lawful : arns.Lawful where
  ident_ne := by decide
  ident_chars := isWord_chars
  account_ne := by decide
  account_chars h := (isWord_chars h).1

end Rops.Toy
