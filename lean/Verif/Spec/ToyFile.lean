import Verif.Spec.ToyKeys
import Verif.Spec.File
/-! A small environment for files, used only in examples and witnesses. -/

namespace Rops.Toy
open Rops Spec

/-- The process of the owner of the age identity "k1". -/
def env : Env where
  A := age
  K := kms
  host := host (.value c!"k1") .notPresent
  newKey i := UInt8.ofNat i :: List.replicate 31 7
  clock i := ⟨2024, 1, 2, 3, 4, i % 60, 99⟩
  C := cipher
  H := hasher
  fl := floats
  rx := fun r k => endsWith k r
  nonce i := [UInt8.ofNat i, UInt8.ofNat (i / 256)]

theorem env_laws : EnvLaws env where
  cipher := cipher_lawful
  hasher := hasher_streaming
  age := age_laws
  kms := kms_laws
  nonce_length := fun _ => rfl
  key_length := fun i => by simp [env, dataKeySize]

theorem env_noRepeat : NoRepeat env.nonce 0 65536 := by
  intro a b _ ha _ hb h
  have h : ([UInt8.ofNat a, UInt8.ofNat (a / 256)] : Bytes) = [UInt8.ofNat b, UInt8.ofNat (b / 256)] := h
  injection h with h1 h2
  injection h2 with h2 _
  have h1 := congrArg UInt8.toNat h1
  have h2 := congrArg UInt8.toNat h2
  simp only [UInt8.toNat_ofNat'] at h1 h2
  omega

/-- A JSON document. -/
def doc : Format.json.Map :=
  [(c!"user", .leaf (.str c!"root")),
   (c!"db", .map [(c!"port_plain", .leaf (.num (.posInt 5432))), (c!"pw", .leaf (.str c!"x")), (c!"none", .null)]),
   (c!"l", .seq [.leaf (.bool true), .leaf (.num (.float c!"1.5")), .map [(c!"a_plain", .leaf (.num (.negInt (-1))))]])]

/-- The map of `doc`. -/
def docMap : RMap Value :=
  [(c!"user", .leaf (.string c!"root")),
   (c!"db", .map [(c!"port_plain", .leaf (.integer 5432)), (c!"pw", .leaf (.string c!"x")), (c!"none", .null)]),
   (c!"l", .seq [.leaf (.boolean true), .leaf (.float c!"1.5"), .map [(c!"a_plain", .leaf (.integer (-1)))]])]

/-- A builder for `doc` with two recipients, one given twice. -/
def builder : Builder Format.json where
  map := doc
  partialEncryption := some (.unencryptedSuffix c!"_plain")
  macOnlyEncrypted := none
  ageKeyIds := [c!"pk1", c!"pk2", c!"pk1"]
  kmsKeyIds := []

theorem doc_read : Format.json.toInternal doc = .ok docMap := rfl

theorem docMap_fits : Fits env.fl jsonRep (some (.unencryptedSuffix c!"_plain")) docMap := by
  have hl : leaves docMap = [([c!"user"], Value.string c!"root"), ([c!"db", c!"port_plain"], .integer 5432),
      ([c!"db", c!"pw"], .string c!"x"), ([c!"l"], .boolean true), ([c!"l"], .float c!"1.5"),
      ([c!"l", c!"a_plain"], .integer (-1))] := rfl
  refine ⟨?_, ?_, fun _ => ?_⟩
  · unfold Canonical
    rw [hl]
    intro pv h
    simp only [List.mem_cons, List.not_mem_nil, or_false] at h
    rcases h with rfl | rfl | rfl | rfl | rfl | rfl
    · trivial
    · trivial
    · trivial
    · trivial
    · show Toy.floats.Canonical _; unfold FloatOps.Canonical; decide
    · trivial
  · unfold Holds
    rw [hl]
    intro pv h
    simp only [List.mem_cons, List.not_mem_nil, or_false] at h
    rcases h with rfl | rfl | rfl | rfl | rfl | rfl
    · trivial
    · trivial
    · trivial
    · trivial
    · show _ ∧ _ ∧ _; decide
    · trivial
  · exact .inl (by unfold NoColon; decide)

theorem builder_ok : ∃ f j, builder.encrypt env 0 = .ok (f, j) ∧ j < 65536 := by
  have h : (match builder.encrypt env 0 with | .ok (_, j) => decide (j < 65536) | .error _ => false) = true := by
    decide +kernel
  cases hb : builder.encrypt env 0 with
  | error e => rw [hb] at h; cases h
  | ok r => rw [hb] at h; exact ⟨r.1, r.2, rfl, of_decide_eq_true h⟩

end Rops.Toy
