import Verif.Props.Complaints
import Verif.Props.Terminal
/-!
# C98: messages on a terminal
-/

namespace Rops.Props
open Rops Spec

/-- **C98.** The messages about plain documents have no control characters other than those of the YAML text of a key (which has none but
line breaks by `C98_yaml`). -/
theorem C98_plain_message {C : Cipher} {W : Wording} (hk : ∀ c ∈ W.yamlKey, Quiet c) {x : Fmt} {m : x.doc.F.Map} {e : FormatError}
    (h : x.doc.F.toInternal m = .error e) : ∀ l ∈ (e.report W C).lines, ∀ c ∈ l, Quiet c := by
  have hq : ∀ s : Str, (∀ c ∈ s, 32 ≤ c.toNat ∧ c.toNat ≠ 127) → ∀ c ∈ s, Quiet c := fun s h c hc => .inr (.inr (h c hc))
  obtain ⟨t, ht, A, p, i, B, _, _, hb⟩ := (C70_plain_document C W x m _).1 ⟨e, h, rfl⟩
  rw [ht]
  intro l hl c hc
  rw [List.mem_singleton] at hl
  subst hl
  cases hb with
  | key =>
    rcases List.mem_append.1 hc with hc | hc
    · exact hq _ (by decide) c hc
    · exact hk c hc
  | range n _ =>
    rcases List.mem_append.1 hc with hc | hc
    · exact hq _ (by decide) c hc
    · have := isDigit_toDigits hc
      simp only [Char.isDigit, Bool.and_eq_true, decide_eq_true_eq, UInt32.le_iff_toNat_le] at this
      have h1 : 48 ≤ c.toNat := this.1
      have h2 : c.toNat ≤ 57 := this.2
      exact .inr (.inr ⟨by omega, by omega⟩)

/-- A document with a secret that would clear the screen, and an integer that does not fit. -/
example : ∀ l ∈ ((FormatError.integerOutOfRange 9223372036854775808).report noWording Toy.cipher).lines, ∀ c ∈ l, Quiet c :=
  C98_plain_message (x := .json) (m := [(c!"a", .leaf (.str clearScreen)), (c!"b", .leaf (.num (.posInt 9223372036854775808)))])
    (by simp [noWording]) rfl

/-- **C98.** Messages, unlike documents, have no escapes: if the first ciphertext that cannot be read names a cipher of its own, then
`rops decrypt` prints that name as it is, whatever its characters are. -/
theorem C98_message {P : Proc} {l : PlaceLine} {path : Str} {x : Fmt} {config : Config} {s : Str} {f : EncFile x.doc.F}
    (hl : l.input.file = some path) (hx : getFormat (some path) l.input.format = .ok x)
    (hcf : P.retrieveConfig l.input.config = .ok config) (hs : InputText P (some path) s)
    (hf : EncFile.ofText (P.T x) P.O P.env.C s = some f) {md : Metadata Mac × Bytes × SavedMacNonce}
    (hmd : P.env.decryptMetadata f.metadata = .ok md) {A B : List (List Str × Option Scalar)} {p : List Str} {t : Str}
    (hd : docItems x f.map = A ++ (p, some (.str (c!"ENC[" ++ t ++ c!"]"))) :: B)
    (hA : ∀ a ∈ A, GoodEncItem P.env.C P.env.rx f.metadata.partialEncryption a.1 a.2)
    (hp : ¬ Plain P.env.rx f.metadata.partialEncryption p) (ht : ',' ∉ t) (hn : t ≠ P.env.C.name) (W : Wording) (i : Nat) :
    (P.run (.decrypt l) i).1 = [] ∧ P.messages W (P.run (.decrypt l) i) ≠ [] ∧ ∀ m ∈ P.messages W (P.run (.decrypt l) i),
      ∃ pre, m = pre ++ c!"invalid cipher: " ++ t ++ c!", expected: " ++ P.env.C.name := by
  have hfs : Fields t [t] := fields_iff.2 (by rw [splitOn_of_not_mem ht])
  have h := C70_decrypt hl hx hcf hs hf hmd (W := W) ⟨A, p, _, B, hd, hA, .text hp (.field rfl hfs (.cipher rfl hn))⟩ i
  refine ⟨h.1, by rw [h.2]; simp, fun m hm => ?_⟩
  rw [h.2] at hm
  simp only [List.mem_cons, List.not_mem_nil, or_false] at hm
  rcases hm with rfl | rfl | rfl
  · exact ⟨c!"invalid encrypted map format; unable to parse encrypted value components: ", by simp⟩
  · exact ⟨c!"unable to parse encrypted value components: ", by simp⟩
  · exact ⟨[], by simp⟩

/-- A changed file that clears the screen of whoever decrypts it. -/
example (W : Wording) : ∃ P : Proc, (P.run (.decrypt Toy.placeLine) 0).1 = [] ∧
    P.messages W (P.run (.decrypt Toy.placeLine) 0) ≠ [] ∧ ∀ m ∈ P.messages W (P.run (.decrypt Toy.placeLine) 0), ¬ ∀ c ∈ m, Quiet c := by
  obtain ⟨f, _, m', h0, _, _, hh, hw, hr⟩ := Toy.encrypted []
  let f' : EncFile Format.json :=
    { f with map := [(c!"b_plain", .leaf (.num (.posInt 1))), (c!"a", .leaf (.str (c!"ENC[" ++ clearScreen ++ c!"]")))] }
  have hf' : EncFile.ofText Toy.jsonText Toy.docOps Toy.env.C (EncFile.toText Toy.jsonText Toy.env.C f') = some f' :=
    C44_json Toy.docOps_laws Toy.jsonText_laws (f := f') (fun e he => by
      rcases List.mem_cons.1 he with rfl | he
      · decide
      · rw [List.mem_singleton] at he; subst he; decide) hw trivial
  have hset : f.metadata.partialEncryption = some (.unencryptedSuffix c!"_plain") := by
    obtain ⟨_, _, _, _, _, _, _, _, _, _, h6⟩ := Builder.encrypt_ok h0
    rw [h6]
    rfl
  have hmd := decryptMetadata_ok.2 ⟨_, _, hr, Toy.env_laws.cipher.decrypt_encrypt hh.mac, rfl⟩
  have hplain : ∀ p, Plain Toy.env.rx f.metadata.partialEncryption p ↔
      ((Resolved.ofConfig (some (.unencryptedSuffix c!"_plain"))).steps Toy.env.rx p).escape = true := by
    intro p
    rw [hset, Resolved.escape_steps_iff]
  have h := C98_message (P := Toy.proc Toy.rule (EncFile.toText Toy.jsonText Toy.env.C f') []) (l := Toy.placeLine) (path := c!"a.json")
    (x := .json) rfl (by decide +kernel) (Toy.proc_config _ _) (Toy.proc_input _ _ _) hf' hmd (A := [([c!"b_plain"], some (.int 1))])
    (p := [c!"a"]) (t := clearScreen) (B := []) rfl (fun a ha => by
      rw [List.mem_singleton] at ha
      subst ha
      exact ⟨fun _ => ⟨.integer 1, 1, rfl, by decide⟩, fun h => absurd ((hplain [c!"b_plain"]).2 (by decide +kernel)) h⟩)
    (fun h => absurd ((hplain [c!"a"]).1 h) (by decide +kernel)) (by decide)
    (show clearScreen ≠ Toy.env.C.name by decide +kernel) W 0
  refine ⟨_, h.1, h.2.1, fun m hm hq => ?_⟩
  obtain ⟨pre, rfl⟩ := h.2.2 m hm
  exact absurd (hq '\x1b' (by simp [clearScreen])) (by decide)

end Rops.Props
