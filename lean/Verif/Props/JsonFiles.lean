import Verif.Lemmas.JsonFiles
import Verif.Lemmas.ToyHistory
import Verif.Props.JsonText
import Verif.Props.Twice
import Verif.Props.CliHistories
/-!
# C72: JSON files, with the syntax of JSON
-/

namespace Rops.Props
open Spec

/-- For the examples: only the floats of the examples are read. -/
def fewFloats : JsonFloats where
  write s := s
  read s := if s = c!"1.5" ∨ s = c!"0.1" then some s else none

theorem fewFloats_laws : JsonFloatLaws fewFloats Toy.env.fl := by
  intro x f h
  cases h with
  | float _ _ _ _ _ hr =>
    unfold fewFloats at hr
    simp only at hr
    split at hr
    · rename_i hs
      cases hr
      rcases hs with hs | hs
      · rw [hs]; exact ⟨by unfold FloatOps.Canonical; decide, by decide, by decide, by decide⟩
      · rw [hs]; exact ⟨by unfold FloatOps.Canonical; decide, by decide, by decide, by decide⟩
    · cases hr

theorem doc_portable : Portable fewFloats Toy.doc where
  sops := by decide
  colon := by unfold NoColon; decide
  floats p f h := by
    have hl : leaves Toy.doc = [([c!"user"], JsonScalar.str c!"root"), ([c!"db", c!"port_plain"], .num (.posInt 5432)),
      ([c!"db", c!"pw"], .str c!"x"), ([c!"l"], .bool true), ([c!"l"], .num (.float c!"1.5")),
      ([c!"l", c!"a_plain"], .num (.negInt (-1)))] := rfl
    rw [hl] at h
    simp only [List.mem_cons, List.not_mem_nil, or_false, Prod.mk.injEq, JsonScalar.num.injEq, Number.float.injEq, reduceCtorEq,
      and_false, false_or] at h
    rw [h.2]
    exact .float (sg := []) (ds := c!"1") (frac := c!".5") (exp := []) (n := 1) (.inl rfl) ⟨.digit 1 (by decide), .inr (by decide)⟩
      (.inr ⟨c!"5", ⟨5, .digit 5 (by decide)⟩, rfl⟩) (.inl rfl) (fun h => nomatch h) rfl

set_option maxRecDepth 20000 in
theorem doc_parsed : fewFloats.ops.parse (fewFloats.ops.render Toy.doc) = some Toy.doc := by rfl

/-- The process of the examples, with the syntax of JSON. -/
def jsonProc (content : Str) : Proc :=
  { Toy.proc Toy.rule content [] with
    T := fun x => match x with
      | .json => fewFloats.ops
      | .yaml => Toy.texts Toy.rule .yaml
      | .toml => Toy.texts Toy.rule .toml }

theorem jsonProc_config (content : Str) : (jsonProc content).retrieveConfig none = .ok [Toy.creationRule] := by
  have h : (jsonProc []).readConfig c!"/.rops.toml" = .ok [Toy.creationRule] := by decide +kernel
  exact h

/-- The builder that `encryptLine` and the rule make. -/
def docBuilder : Builder Format.json := { Toy.smallBuilder with map := Toy.doc }

/-- The document of the examples is encrypted. -/
theorem jsonProc_encrypts : ∃ s', Ran Toy.env Toy.docOps (jsonProc []).T .json c!"a.json" (jsonProc (fewFloats.ops.render Toy.doc))
    (.encrypt Toy.encryptLine) 0 (fewFloats.ops.render Toy.doc) s' := by
  have hc : (match docBuilder.encrypt Toy.env 0 with
      | .error _ => false
      | .ok _ => true) = true := by decide +kernel
  split at hc
  · cases hc
  · rename_i r hr
    obtain ⟨f, j⟩ := r
    refine ⟨EncFile.toText fewFloats.ops Toy.env.C f, ?_⟩
    have hrun : (jsonProc (fewFloats.ops.render Toy.doc)).run (.encrypt Toy.encryptLine) 0 =
        ([.write c!"a.json" (utf8 (EncFile.toText fewFloats.ops Toy.env.C f)) .done], .ok ()) :=
      run_encrypt_ok.2 ⟨by decide, by decide, [Toy.creationRule], .json, _, Toy.doc, f, j, jsonProc_config _,
        by decide +kernel, Toy.proc_input Toy.rule _ [], doc_parsed, hr, .inl ⟨rfl, _, rfl, rfl, rfl⟩⟩
    exact {
      program := ⟨⟨Toy.env.host, rfl⟩, rfl, rfl⟩
      target := rfl
      format := by decide +kernel
      run := ⟨_, hrun, by simp [filesAfter, effect, Files.put]⟩
      found := rfl
      config := fun config h => by
        rw [show (Command.encrypt Toy.encryptLine).configPath = none from rfl, jsonProc_config] at h
        cases h
        exact Toy.config_writable
      keys := ⟨fun _ _ => rfl, fun _ h => nomatch h⟩
      setting := fun p h => nomatch h
      temp := Toy.fresh Toy.rule _ [] }

/-- **C72.** An encrypted JSON file for a document that was read from a text is read from the text
that is written for it. -/
theorem C72_file {O : DocOps} (hO : DocLaws O) {J : JsonFloats} {s : Str} {d : List (Str × Json)}
    (hp : J.ops.parse s = some d) (hd : Portable J d) {m : RMap Value} (hm : Json.toMap d = .ok m) {env : Env}
    {f : EncFile Format.json} {key : Bytes} {rep : Value → Prop} {m' : RMap EncLeaf} (hh : Holding env rep f key m m')
    (hw : EncWritable O env.C f.metadata) : EncFile.ofText J.ops O env.C (EncFile.toText J.ops env.C f) = some f := by
  have hs : c!"sops" ∉ topKeys m := by
    rw [Json.topKeys_toMap hm]
    exact hd.sops
  have := C44_json_encryption hO (C71_laws J) (f := (show EncFile DocFormat.json.F from f)) hh hw
    (kept_of_standsFor (portable_kept hp hd) hm hh.sealed.standsFor hh.written)
  rw [if_neg hs] at this
  exact this

example : ∃ (f : EncFile Format.json) (j : Nat), docBuilder.encrypt Toy.env 0 = .ok (f, j) ∧
    EncFile.ofText fewFloats.ops Toy.docOps Toy.env.C (EncFile.toText fewFloats.ops Toy.env.C f) = some f := by
  have hc : (match docBuilder.encrypt Toy.env 0 with
      | .error _ => false
      | .ok _ => true) = true := by decide +kernel
  split at hc
  · cases hc
  · rename_i r hr
    obtain ⟨m', _, _, hh, _⟩ := holding_of_builder (b := docBuilder) Toy.env_laws Format.json_lawful Toy.doc_read Toy.docMap_fits hr
    exact ⟨r.1, r.2, hr, C72_file Toy.docOps_laws doc_parsed doc_portable Toy.doc_read hh
      (C43_created (O := Toy.docOps) (b := docBuilder) Toy.env_laws Toy.env_clock Format.json_lawful Toy.doc_read Toy.docMap_fits
        (fun _ _ => rfl) (fun _ h => nomatch h) (fun _ h => by cases h; rfl) hr)⟩

/-- **C72.** What a history of a JSON file says of its document, it says of the values in it: the
theorems on histories (C51, C52) hold with nothing assumed of the syntax but how floats are read. -/
theorem C72_history {E : Env} {O : DocOps} {T : (x : Fmt) → TextOps x.doc} {J : JsonFloats} (hT : T .json = J.ops)
    (hJ : JsonFloatLaws J E.fl) {path s : Str} {d : List (Str × Json)} (h : JsonHistory E O T J path s d) :
    ∃ m, Json.toMap d = .ok m ∧ JsonKept J d ∧ Kept E O T .json path s m := by
  induction h with
  | encrypted hr hp hd =>
    rename_i P l i s s' d
    obtain ⟨⟨host, hE⟩, h2, h3⟩ := id hr.program
    obtain ⟨es, hrun, ha⟩ := hr.run
    obtain ⟨hin, ht⟩ : l.inPlace = true ∧ l.input.file = some path := by
      have ht := hr.target
      unfold target at ht
      simp only at ht
      split at ht
      · rename_i hin; exact ⟨hin, ht⟩
      · cases ht
    obtain ⟨config, map', f1, j, hcf, hp', hf1, _⟩ := encrypted_in_place hrun hin ht hr.format hr.found ha
    rw [h3, hT] at hp'
    cases Option.some.inj (hp.symm.trans hp')
    obtain ⟨m, _, _, _, _, hm, _⟩ := Builder.encrypt_ok hf1
    have hk := portable_kept hp hd
    exact ⟨m, hm, hk, .encrypted hr (by rw [hT]; exact hp) hm (portable_keepable hJ hp hd hm) (by rw [hT]; exact readBack_of_kept hk hm _)⟩
  | keysAdded _ hr ih =>
    obtain ⟨m, hm, hk, h⟩ := ih
    exact ⟨m, hm, hk, .keysAdded h hr (by rw [hT]; exact readBack_of_kept hk hm _)⟩
  | keysRemoved _ hr ih =>
    obtain ⟨m, hm, hk, h⟩ := ih
    exact ⟨m, hm, hk, .keysRemoved h hr (by rw [hT]; exact readBack_of_kept hk hm _)⟩
  | refreshed _ hr ih =>
    obtain ⟨m, hm, hk, h⟩ := ih
    exact ⟨m, hm, hk, .refreshed h hr (by rw [hT]; exact readBack_of_kept hk hm _)⟩
  | cancelled _ hr hc ih =>
    obtain ⟨m, hm, hk, h⟩ := ih
    exact ⟨m, hm, hk, .cancelled h hr (by rw [hT]; exact hc)⟩
  | edited _ hr hed hd ih =>
    rename_i P a i s s' d d' _
    obtain ⟨_, _, _, h⟩ := ih
    obtain ⟨⟨host, hE⟩, h2, h3⟩ := id hr.program
    obtain ⟨m, hm⟩ := edited_internal hr.own (other := (show Fmt.json.doc.F.Map from d')) (by rw [h3, hT]; exact hed)
    obtain ⟨t, ht⟩ := edited_parsed hed
    have hk := portable_kept ht hd
    exact ⟨m, hm, hk, .edited h hr (by rw [hT]; exact hed) hm (portable_keepable hJ ht hd hm) (by rw [hT]; exact readBack_of_kept hk hm _)⟩

/-- **C72.** Whatever commands a JSON file went through since its document was encrypted or edited,
`rops decrypt` by a recipient gives exactly the text that is written for this document. -/
theorem C72_decrypted {E : Env} (he : EnvLaws E) (hc : ∀ i, Calendar (E.clock i)) {O : DocOps} (hO : DocLaws O)
    {T : (x : Fmt) → TextOps x.doc} {J : JsonFloats} (hT : T .json = J.ops) (hJ : JsonFloatLaws J E.fl) {path s : Str}
    {d : List (Str × Json)} (h : JsonHistory E O T J path s d)
    {P : Proc} (hP : SameProgram E O T P) (hfile : P.file path = .data (utf8 s)) (hin : P.stdin = .terminal)
    {l : PlaceLine} (hl : l.input.file = some path) (hx : getFormat (some path) l.input.format = .ok .json)
    {config : Config} (hcf : P.retrieveConfig l.input.config = .ok config)
    (hsave : ∀ b, P.saves path b = .done) (hout : l.inPlace = false → P.stdout = none)
    {f : EncFile Format.json} (hf : EncFile.ofText J.ops O E.C s = some f)
    {ks : List E.A.Identity} (hks : retrievePrivateKeys (Age.parsePrivateKey E.A) P.env.host c!"age" = .ok ks)
    {k : E.A.Identity} (hk : k ∈ ks) (hid : E.A.toPublic k ∈ keyIds f.metadata.integration .age) (i : Nat) :
    ∃ es, P.run (.decrypt l) i = (es, .ok ()) ∧ Delivered P l.inPlace (some path) (J.ops.render d) es := by
  obtain ⟨m, hm, hkd, h⟩ := C72_history hT hJ h
  obtain ⟨map, es, h1, _, h3, h4⟩ := C51_document_kept (x := .json) he hc hO h hP hfile hin hl hx hcf hsave hout
    (by rw [hT]; exact hf) hks hk hid i
  rw [hT, ofInternal_of_kept hkd hm h3] at h4
  exact ⟨es, h1, h4⟩

/-- **C72.** A JSON file that is formatted as rops formats is the same, byte for byte, after
`rops encrypt -i` and `rops decrypt -i`. -/
theorem C72_round_trip {E : Env} (he : EnvLaws E) (hc : ∀ i, Calendar (E.clock i)) {O : DocOps} (hO : DocLaws O)
    {T : (x : Fmt) → TextOps x.doc} {J : JsonFloats} (hT : T .json = J.ops) (hJ : JsonFloatLaws J E.fl) {path s' : Str}
    {P : Proc} {l : EncryptLine} {i : Nat} {d : List (Str × Json)}
    (hr : Ran E O T .json path P (.encrypt l) i (J.ops.render d) s') (hkd : JsonKept J d) (hd : Portable J d)
    {P' : Proc} (hP : SameProgram E O T P') (hfile : P'.file path = .data (utf8 s')) (hin : P'.stdin = .terminal)
    {l' : PlaceLine} (hl : l'.input.file = some path) (hpl : l'.inPlace = true)
    (hx : getFormat (some path) l'.input.format = .ok .json)
    {config' : Config} (hcf : P'.retrieveConfig l'.input.config = .ok config') (hsave : ∀ b, P'.saves path b = .done)
    {config : Config} (hcf0 : P.retrieveConfig l.input.config = .ok config)
    {ks : List E.A.Identity} (hks : retrievePrivateKeys (Age.parsePrivateKey E.A) P'.env.host c!"age" = .ok ks)
    {k : E.A.Identity} (hk : k ∈ ks)
    (hid : E.A.toPublic k ∈ l.keys.age ∨ ∃ r, ruleFor E.rx config (some path) = some r ∧ E.A.toPublic k ∈ r.keys.age) (i' : Nat) :
    ∃ es, P'.run (.decrypt l') i' = (es, .ok ()) ∧ filesAfter P'.file es path = .data (utf8 (J.ops.render d)) := by
  have hp : J.ops.parse (J.ops.render d) = some d := (C71_laws J).parse_render d hkd
  have hh : JsonHistory E O T J path s' d := .encrypted hr hp hd
  obtain ⟨m, hm, _, _⟩ := C72_history hT hJ hh
  obtain ⟨config1, f, hc1, hf, ha, _⟩ := C51_recipients (x := .json) he hc hO hr (by rw [hT]; exact hp) hm
    (portable_keepable hJ hp hd hm) (by rw [hT]; exact readBack_of_kept hkd hm _)
  rw [hcf0] at hc1
  cases hc1
  obtain ⟨es, h1, h2⟩ := C72_decrypted he hc hO hT hJ hh hP hfile hin hl hx hcf hsave (fun h => by rw [hpl] at h; cases h)
    (by rw [← hT]; exact hf) hks hk ((ha _).2 hid) i'
  refine ⟨es, h1, ?_⟩
  rcases h2 with ⟨_, p, hp, _, rfl⟩ | ⟨hn, _⟩
  · cases hp
    simp [filesAfter, effect, Files.put]
  · rw [hpl] at hn; cases hn

-- `rops encrypt -i --age pk2 a.json`, then `rops decrypt -i a.json`
example : ∃ s' es, let T := (jsonProc []).T
    Ran Toy.env Toy.docOps T .json c!"a.json" (jsonProc (fewFloats.ops.render Toy.doc)) (.encrypt Toy.encryptLine) 0
      (fewFloats.ops.render Toy.doc) s' ∧
    JsonHistory Toy.env Toy.docOps T fewFloats c!"a.json" s' Toy.doc ∧
    (jsonProc s').run (.decrypt Toy.placeLine) 70 = (es, .ok ()) ∧
    filesAfter (jsonProc s').file es c!"a.json" = .data (utf8 (fewFloats.ops.render Toy.doc)) := by
  obtain ⟨s', hr⟩ := jsonProc_encrypts
  obtain ⟨es, h1, h2⟩ := C72_round_trip Toy.env_laws Toy.env_clock Toy.docOps_laws (J := fewFloats) rfl fewFloats_laws hr
    (portable_kept doc_parsed doc_portable) doc_portable (P' := jsonProc s') ⟨⟨Toy.env.host, rfl⟩, rfl, rfl⟩ rfl rfl
    (l' := Toy.placeLine) rfl rfl (by decide +kernel) (jsonProc_config _) (fun _ => rfl) (jsonProc_config _)
    (ks := [c!"k1"]) rfl (k := c!"k1") (.head _) (.inr ⟨Toy.creationRule, by decide +kernel, by decide⟩) 70
  exact ⟨s', es, hr, .encrypted hr doc_parsed doc_portable, h1, h2⟩

end Rops.Props
