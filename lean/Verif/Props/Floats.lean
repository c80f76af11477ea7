import Verif.Lemmas.Floats
import Verif.Props.JsonFiles
/-!
# C73: floats in files
-/

namespace Rops.Props
open Spec

/-- **C73.** Rounding gives a float, and no float is nearer to the fraction. -/
theorem C73_nearest {p q : Nat} (hq : 0 < q) : IsFloat (f64Round p q) ∧
    ∀ w, IsFloat w → (f64Round p q * q - p) + (p - f64Round p q * q) ≤ (w * q - p) + (p - w * q) := by
  refine ⟨isFloat_round p q, fun w hw => round_nearest hq hw⟩

-- a half more than 2 ^ 53 units, and two halves of a unit
example : f64Round (2 ^ 54 + 1) 2 = 2 ^ 53 ∧ f64Round 3 2 = 2 ∧ f64Round 5 2 = 2 ∧ f64Round (2 ^ 53 + 1) 1 = 2 ^ 53 := by decide +kernel

/-- **C73.** The text that is printed for a float is read as this float, so what rops keeps of floats
(`RopsFloat`, a text) determines them. -/
theorem C73_printed {f : F64} (h : InRange f) : F64.parse f.show = some f := parse_show h

/-- **C73.** Only floats are read. -/
theorem C73_parsed {s : Str} {f : F64} (h : F64.parse s = some f) : InRange f := inRange_parse h

example : (F64.parse c!"0.30").map F64.show = some c!"0.3" ∧ (F64.parse c!"-1e3").map F64.show = some c!"-1000" ∧
    (F64.parse c!"9007199254740993").map F64.show = some c!"9007199254740992" ∧
    (F64.parse c!"1e999").map F64.show = some c!"inf" := by decide +kernel

/-- **C73.** What JSON texts need of floats holds: a number is read as a finite float, given by the
text that Rust prints for it. -/
theorem C73_json_laws : JsonFloatLaws serdeFloats f64Floats := by
  intro x f h
  cases h with
  | float _ _ _ _ _ hr =>
    obtain ⟨g, hg, rfl⟩ := Option.map_eq_some_iff.1 hr
    obtain ⟨n, v, rfl, hv⟩ := inRange_serdeRead hg
    exact ⟨show (F64.parse _).map F64.show = _ by rw [parse_show hv]; rfl, show_finite_ne hv⟩

/-- **C73.** A finite float is written in JSON as a number that stands for this float. -/
theorem C73_json_written {n : Bool} {v : Nat} (h : InRange (.finite n v)) :
    F64.parse (serdeFloats.write (F64.show (.finite n v))) = some (.finite n v) := by
  show F64.parse (match F64.parse (F64.show (.finite n v)) with | some (.finite n v) => F64.ryu n v | _ => c!"null") = _
  rw [parse_show h]
  exact parse_ryu h

example : serdeFloats.write c!"0.1" = c!"0.1" ∧ serdeFloats.write c!"-1000" = c!"-1000.0" ∧
    serdeFloats.write c!"100000000000000000" = c!"1e17" ∧ serdeFloats.write c!"0.0000012" = c!"1.2e-6" := by decide +kernel

/-- **C73.** Numbers with few digits are read exactly: up to 2 ^ 53, scaled by up to 22 tens. -/
theorem C73_short_exact {x : Str} {n : Nat} {e : Int} (h : DecimalText x n e) (hn : n ≤ 2 ^ 53) (he : e.natAbs ≤ 22) (sg : Bool) :
    serdeFloats.read (signText sg ++ x) = f64Floats.reprint (signText sg ++ x) := serdeRead_exact h hn he sg

example : DecimalText c!"12.5e-3" 125 (-4) :=
  ⟨c!"12", c!"5", c!"e-3", -3, ⟨12, .more 2 (.digit 1 (by decide)) (by decide)⟩,
    .more (s := c!"12") 5 (.more (s := c!"1") 2 (.digit 1 (by decide)) (by decide)) (by decide), by decide,
    .inr ⟨'e', c!"3", 3, .inl rfl, .digit 3 (by decide), .inr (.inr ⟨rfl, rfl⟩)⟩, rfl⟩

/-- **C73.** A float that is written with few digits survives in JSON. -/
theorem C73_survives {n : Bool} {v : Nat} (h : InRange (.finite n v)) {sg : Bool} {x : Str} {d : Nat} {e : Int}
    (hx : serdeFloats.write (F64.show (.finite n v)) = signText sg ++ x) (hd : DecimalText x d e) (hn : d ≤ 2 ^ 53) (he : e.natAbs ≤ 22) :
    JsonNumber serdeFloats (.float (F64.show (.finite n v))) (serdeFloats.write (F64.show (.finite n v))) := by
  refine written_number h ?_
  rw [hx, C73_short_exact hd hn he, ← hx]
  show (F64.parse _).map F64.show = _
  rw [C73_json_written h]
  rfl

/-- **C73.** So a document that is read from a JSON text and whose floats are short can be encrypted, as
far as its syntax is concerned. -/
theorem C73_portable {s : Str} {d : List (Str × Json)} (hp : serdeFloats.ops.parse s = some d) (hs : c!"sops" ∉ entryKeys d)
    (hc : NoColon d) (hf : ∀ p f, (p, .num (.float f)) ∈ leaves d → ShortFloat f) : Portable serdeFloats d where
  sops := hs
  colon := hc
  floats p f h := by
    have hk : ∀ g, JsonScalar.num (.float f) = .num (.float g) → ∃ n v, g = F64.show (.finite n v) ∧ InRange (.finite n v) :=
      parsed_scalars (P := fun v => ∀ g, v = .num (.float g) → ∃ n v, g = F64.show (.finite n v) ∧ InRange (.finite n v))
        (fun _ _ h => nomatch h) (fun _ _ h => nomatch h) (fun x w hx g hg => by
          cases hg
          cases hx with
          | float _ _ _ _ _ hr =>
            obtain ⟨g, hg, rfl⟩ := Option.map_eq_some_iff.1 hr
            obtain ⟨n, v, rfl, hv⟩ := inRange_serdeRead hg
            exact ⟨n, v, rfl, hv⟩) hp _ h
    obtain ⟨n, v, rfl, hv⟩ := hk f rfl
    obtain ⟨sg, x, m, e, h1, h2, h3, h4⟩ := hf p _ h
    exact C73_survives hv h1 h2 h3 h4

/-- A document with a short float, as it is read. -/
def fewDigitsDoc : List (Str × Json) := [(c!"a_plain", .leaf (.num (.float c!"-12.5")))]

theorem fewDigitsDoc_parsed : serdeFloats.ops.parse (serdeFloats.ops.render fewDigitsDoc) = some fewDigitsDoc := by
  have h : (match serdeFloats.ops.parse (serdeFloats.ops.render fewDigitsDoc) with
    | some [(k, .leaf (.num (.float f)))] => decide (k = c!"a_plain" ∧ f = c!"-12.5")
    | _ => false) = true := by decide +kernel
  split at h
  · rename_i he
    obtain ⟨rfl, rfl⟩ := of_decide_eq_true h
    exact he
  · cases h

theorem fewDigitsDoc_short (p : List Str) (f : Str) (h : (p, JsonScalar.num (.float f)) ∈ leaves fewDigitsDoc) : ShortFloat f := by
  have hl : leaves fewDigitsDoc = [([c!"a_plain"], JsonScalar.num (.float c!"-12.5"))] := rfl
  rw [hl] at h
  simp only [List.mem_singleton, Prod.mk.injEq, JsonScalar.num.injEq, Number.float.injEq] at h
  rw [h.2]
  exact ⟨true, c!"12.5", 125, -1, by decide +kernel,
    ⟨c!"12", c!"5", [], 0, ⟨12, .more 2 (.digit 1 (by decide)) (by decide)⟩,
      .more (s := c!"12") 5 (.more (s := c!"1") 2 (.digit 1 (by decide)) (by decide)) (by decide), by decide, .inl ⟨rfl, rfl⟩, rfl⟩,
    by decide, by decide⟩

theorem fewDigitsDoc_portable : Portable serdeFloats fewDigitsDoc :=
  C73_portable fewDigitsDoc_parsed (by decide) (by unfold NoColon; decide) fewDigitsDoc_short

/-- The environment of the examples, with floats. -/
def floatEnv : Env := { Toy.env with fl := f64Floats }

theorem floatEnv_laws : EnvLaws floatEnv :=
  ⟨Toy.env_laws.cipher, Toy.env_laws.hasher, Toy.env_laws.age, Toy.env_laws.kms, Toy.env_laws.nonce_length, Toy.env_laws.key_length⟩

/-- The process of the examples, with the syntax of JSON and with floats. -/
def floatProc (content : Str) : Proc :=
  { jsonProc content with
    env := floatEnv
    T := fun x => match x with
      | .json => serdeFloats.ops
      | .yaml => Toy.texts Toy.rule .yaml
      | .toml => Toy.texts Toy.rule .toml }

theorem floatProc_config (content : Str) : (floatProc content).retrieveConfig none = .ok [Toy.creationRule] := by
  have h : (floatProc []).readConfig c!"/.rops.toml" = .ok [Toy.creationRule] := by decide +kernel
  exact h

theorem floatProc_input (content : Str) : InputText (floatProc content) (some c!"a.json") content :=
  .inl ⟨_, _, rfl, rfl, rfl, utf8?_utf8 content⟩

/-- The builder for `fewDigitsDoc`. -/
def fewDigitsBuilder : Builder Format.json := { Toy.smallBuilder with map := fewDigitsDoc }

theorem floatProc_encrypts : ∃ s', Ran floatEnv Toy.docOps (floatProc []).T .json c!"a.json" (floatProc (serdeFloats.ops.render fewDigitsDoc))
    (.encrypt Toy.encryptLine) 0 (serdeFloats.ops.render fewDigitsDoc) s' := by
  have hc : (match fewDigitsBuilder.encrypt floatEnv 0 with
      | .error _ => false
      | .ok _ => true) = true := by decide +kernel
  split at hc
  · cases hc
  · rename_i r hr
    obtain ⟨f, j⟩ := r
    refine ⟨EncFile.toText serdeFloats.ops Toy.env.C f, ?_⟩
    have hrun : (floatProc (serdeFloats.ops.render fewDigitsDoc)).run (.encrypt Toy.encryptLine) 0 =
        ([.write c!"a.json" (utf8 (EncFile.toText serdeFloats.ops Toy.env.C f)) .done], .ok ()) :=
      run_encrypt_ok.2 ⟨by decide, by decide, [Toy.creationRule], .json, _, fewDigitsDoc, f, j, floatProc_config _,
        by decide +kernel, floatProc_input _, fewDigitsDoc_parsed, hr, .inl ⟨rfl, _, rfl, rfl, rfl⟩⟩
    exact {
      program := ⟨⟨Toy.env.host, rfl⟩, rfl, rfl⟩
      target := rfl
      format := by decide +kernel
      run := ⟨_, hrun, by simp [filesAfter, effect, Files.put]⟩
      found := rfl
      config := fun config h => by
        rw [show (Command.encrypt Toy.encryptLine).configPath = none from rfl, floatProc_config] at h
        cases h
        exact Toy.config_writable
      keys := ⟨fun _ _ => rfl, fun _ h => nomatch h⟩
      setting := fun p h => nomatch h
      temp := Toy.fresh Toy.rule _ [] }

/-- **C73.** A JSON file that is formatted as rops formats and whose floats are short is the same, byte for
byte, after `rops encrypt -i` and `rops decrypt -i`; nothing is assumed of the syntax, nor of floats. -/
theorem C73_restored {E : Env} (he : EnvLaws E) (hfl : E.fl = f64Floats) (hc : ∀ i, Calendar (E.clock i)) {O : DocOps} (hO : DocLaws O)
    {T : (x : Fmt) → TextOps x.doc} (hT : T .json = serdeFloats.ops) {path s' : Str}
    {P : Proc} {l : EncryptLine} {i : Nat} {d : List (Str × Json)}
    (hr : Ran E O T .json path P (.encrypt l) i (serdeFloats.ops.render d) s')
    (hp : serdeFloats.ops.parse (serdeFloats.ops.render d) = some d) (hs : c!"sops" ∉ entryKeys d)
    (hcol : NoColon d) (hf : ∀ p f, (p, .num (.float f)) ∈ leaves d → ShortFloat f)
    {P' : Proc} (hP : SameProgram E O T P') (hfile : P'.file path = .data (utf8 s')) (hin : P'.stdin = .terminal)
    {l' : PlaceLine} (hl : l'.input.file = some path) (hpl : l'.inPlace = true)
    (hx : getFormat (some path) l'.input.format = .ok .json)
    {config' : Config} (hcf : P'.retrieveConfig l'.input.config = .ok config') (hsave : ∀ b, P'.saves path b = .done)
    {config : Config} (hcf0 : P.retrieveConfig l.input.config = .ok config)
    {ks : List E.A.Identity} (hks : retrievePrivateKeys (Age.parsePrivateKey E.A) P'.env.host c!"age" = .ok ks)
    {k : E.A.Identity} (hk : k ∈ ks)
    (hid : E.A.toPublic k ∈ l.keys.age ∨ ∃ r, ruleFor E.rx config (some path) = some r ∧ E.A.toPublic k ∈ r.keys.age) (i' : Nat) :
    ∃ es, P'.run (.decrypt l') i' = (es, .ok ()) ∧ filesAfter P'.file es path = .data (utf8 (serdeFloats.ops.render d)) := by
  have hd := C73_portable hp hs hcol hf
  exact C72_round_trip he hc hO hT (hfl ▸ C73_json_laws) hr (portable_kept hp hd) hd hP hfile hin hl hpl hx hcf hsave hcf0 hks hk hid i'

example : ∃ s' es, Ran floatEnv Toy.docOps (floatProc []).T .json c!"a.json" (floatProc (serdeFloats.ops.render fewDigitsDoc))
      (.encrypt Toy.encryptLine) 0 (serdeFloats.ops.render fewDigitsDoc) s' ∧
    (floatProc s').run (.decrypt Toy.placeLine) 70 = (es, .ok ()) ∧
    filesAfter (floatProc s').file es c!"a.json" = .data (utf8 (serdeFloats.ops.render fewDigitsDoc)) := by
  obtain ⟨s', hr⟩ := floatProc_encrypts
  obtain ⟨es, h1, h2⟩ := C73_restored floatEnv_laws rfl Toy.env_clock Toy.docOps_laws rfl hr fewDigitsDoc_parsed (by decide)
    (by unfold NoColon; decide) fewDigitsDoc_short (P' := floatProc s') ⟨⟨Toy.env.host, rfl⟩, rfl, rfl⟩ rfl rfl
    (l' := Toy.placeLine) rfl rfl (by decide +kernel) (floatProc_config _) (fun _ => rfl) (floatProc_config _)
    (ks := [c!"k1"]) rfl (k := c!"k1") (.head _) (.inr ⟨Toy.creationRule, by decide +kernel, by decide⟩) 70
  exact ⟨s', es, hr, h1, h2⟩

/-- **C73.** It is not so for all floats: this one is written with 16 digits and read as another one. -/
theorem C73_drifts : ∃ x f f' : Str, JsonNumber serdeFloats (.float f) x ∧ JsonNumber serdeFloats (.float f') (serdeFloats.write f) ∧
    f64Floats.Canonical f ∧ f ≠ f' :=
  ⟨c!"9.074340925238958", c!"9.074340925238959", c!"9.07434092523896",
    .float (sg := []) (ds := c!"9") (frac := c!".074340925238958") (exp := []) (.inl rfl) ⟨.digit 9 (by decide), .inr (by decide)⟩
      (.inr ⟨c!"074340925238958", digits_iff.2 ⟨by decide, by decide⟩, rfl⟩) (.inl rfl) (fun h => nomatch h) (by decide +kernel), by
    rw [show serdeFloats.write c!"9.074340925238959" = c!"9.074340925238959" by decide +kernel]
    exact .float (sg := []) (ds := c!"9") (frac := c!".074340925238959") (exp := []) (.inl rfl) ⟨.digit 9 (by decide), .inr (by decide)⟩
      (.inr ⟨c!"074340925238959", digits_iff.2 ⟨by decide, by decide⟩, rfl⟩) (.inl rfl) (fun h => nomatch h) (by decide +kernel),
    by unfold FloatOps.Canonical; decide +kernel, by decide⟩

/-- A document with a plaintext float, as it is read. -/
def driftDoc : DocFormat.json.F.Map := [(c!"a_plain", .leaf (.num (.float c!"9.074340925238959")))]

/-- The builder for it. -/
def driftBuilder : Builder Format.json := { Toy.smallBuilder with map := driftDoc }

/-- **C73.** So a JSON file with such a float can be lost: `rops encrypt -i` succeeds, but what it wrote is
refused by `rops decrypt`, as its MAC is one of another float. -/
theorem C73_lost : ∃ s' computed stored,
    (floatProc c!"{\"a_plain\": 9.074340925238958}").run (.encrypt Toy.encryptLine) 0 = ([.write c!"a.json" (utf8 s') .done], .ok ()) ∧
    (floatProc s').run (.decrypt Toy.placeLine) 100 = ([], .error (.decrypt (.macMismatch computed stored))) := by
  have hp : serdeFloats.ops.parse c!"{\"a_plain\": 9.074340925238958}" = some driftDoc := by
    have h : (match serdeFloats.ops.parse c!"{\"a_plain\": 9.074340925238958}" with
      | some [(k, .leaf (.num (.float f)))] => decide (k = c!"a_plain" ∧ f = c!"9.074340925238959")
      | _ => false) = true := by decide +kernel
    split at h
    · rename_i he
      obtain ⟨rfl, rfl⟩ := of_decide_eq_true h
      exact he
    · cases h
  have hc : (match driftBuilder.encrypt floatEnv 0 with
      | .error _ => false
      | .ok (f, _) => match EncFile.ofText serdeFloats.ops Toy.docOps Toy.env.C (EncFile.toText serdeFloats.ops Toy.env.C f) with
        | none => false
        | some f' => match f'.decrypt Format.json floatEnv with
          | .error (.macMismatch _ _) => true
          | _ => false) = true := by decide +kernel
  split at hc
  · cases hc
  · rename_i f j hb
    split at hc
    · cases hc
    · rename_i f' hf
      split at hc
      · rename_i c1 c2 hd
        exact ⟨EncFile.toText serdeFloats.ops Toy.env.C f, c1, c2,
          run_encrypt_ok.2 ⟨by decide, by decide, [Toy.creationRule], .json, _, driftDoc, f, j, floatProc_config _,
            by decide +kernel, floatProc_input _, hp, hb, .inl ⟨rfl, _, rfl, rfl, rfl⟩⟩,
          run_decrypt_error (l := Toy.placeLine) (path := c!"a.json") (x := .json) (config := [Toy.creationRule]) rfl (by decide +kernel)
            (floatProc_config _) (floatProc_input _) hf hd 100⟩
      · cases hc

end Rops.Props
