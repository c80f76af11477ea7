import Verif.Props.Gcm
import Verif.Props.Floats
import Verif.Props.Tamper
import Verif.Lemmas.Dates
/-!
# C76: dates
-/

namespace Rops.Props
open Spec

/-- **C76.** The texts that are read as a date, and what they are read as: a date and time in the calendar, with an offset of
less than a day, that is the given one less the offset. -/
theorem C76_read_iff (s : Str) (u : Timestamp) : chronoDate s = some u ↔
    ∃ t m, RelaxedDate s t m ∧ Calendar t ∧ m.natAbs < 1440 ∧ Calendar u ∧ LaterBy (-m) u t :=
  chronoDate_iff

/-- **C76.** A text is at most one date and time with one offset. -/
theorem C76_one_meaning {s : Str} {t u : Timestamp} {m n : Int} (h : RelaxedDate s t m) (h' : RelaxedDate s u n) : t = u ∧ m = n := by
  have := (scanDate_of h).symm.trans (scanDate_of h')
  simpa using this

/-- **C76.** There is one date for each minute, second and nanosecond. -/
theorem C76_one_date {t u : Timestamp} (ht : Calendar t) (hu : Calendar u) (h : LaterBy 0 t u) : t = u :=
  minuteNumber_inj ⟨ht.month, ht.day⟩ ⟨hu.month, hu.day⟩ ht.hour ht.minute hu.hour hu.minute (by have := h.1; omega) h.2.1 h.2.2

/-- **C76.** Dates are read as they are written. -/
theorem C76_read_written {t : Timestamp} (h : Calendar t) : chronoDate t.docText = some t :=
  chronoDate_docText h

/-- **C76.** What is read as a date can be written, and is read as the same then. -/
theorem C76_rewritten {s : Str} {t : Timestamp} (h : chronoDate s = some t) : Calendar t ∧ chronoDate t.docText = some t := by
  obtain ⟨_, _, _, _, _, hu, _⟩ := chronoDate_iff.1 h
  exact ⟨hu, chronoDate_docText hu⟩

/-- **C76.** What is assumed of dates in documents holds. -/
theorem C76_laws {O : DocOps} (h : O.parseDate = chronoDate) : DocLaws O := by
  constructor
  rw [h]
  exact fun _ h => chronoDate_docText h

/-- The same point in time in three time zones, and a leap day, a leap second and years of five digits. -/
example : chronoDate c!"2024-02-29T23:59:59Z" = some ⟨2024, 2, 29, 23, 59, 59, 0⟩ ∧
    chronoDate c!"2024-03-01T01:29:59+01:30" = some ⟨2024, 2, 29, 23, 59, 59, 0⟩ ∧
    chronoDate c!" 2024-2-29 18 : 59:59.00 −0500 " = some ⟨2024, 2, 29, 23, 59, 59, 0⟩ ∧
    chronoDate c!"2023-02-29T23:59:59Z" = none ∧ chronoDate c!"2024-02-29T23:59:59" = none ∧
    chronoDate c!"2023-12-31T20:59:60.1234567899-03:00" = some ⟨2023, 12, 31, 23, 59, 60, 123456789⟩ ∧
    chronoDate c!"-0001-01-01T00:00:00+00:01" = some ⟨-2, 12, 31, 23, 59, 0, 0⟩ ∧
    chronoDate c!"+10000-01-01t00:00:00utc" = some ⟨10000, 1, 1, 0, 0, 0, 0⟩ ∧
    chronoDate c!"10000-01-01T00:00:00Z" = none := by decide +kernel

example : LaterBy (-90) ⟨2024, 2, 29, 23, 59, 59, 0⟩ ⟨2024, 3, 1, 1, 29, 59, 0⟩ := by unfold LaterBy; decide

theorem docField_redated {β : Type} (a b : List (Str × β)) (x y : β) {k k' : Str} (h : k ≠ k') :
    docField (a ++ (k, x) :: b) k' = docField (a ++ (k, y) :: b) k' := by
  unfold docField
  simp only [List.filter_append, List.filter_cons]
  rw [show (k == k') = false by simpa using h]
  rfl

theorem settings_redated (O : DocOps) (a b : RMap JsonScalar) (x y : Json) :
    PartialEncryption.ofDoc O (a ++ (c!"lastmodified", x) :: b) = PartialEncryption.ofDoc O (a ++ (c!"lastmodified", y) :: b) := by
  induction a with
  | nil =>
    have : PartialEncryption.ofName c!"lastmodified" = none := by decide
    simp [PartialEncryption.ofDoc, this]
  | cons e a ih =>
    obtain ⟨k, v⟩ := e
    simp only [List.cons_append, PartialEncryption.ofDoc, ih]

theorem metadata_redated {M : Type} {O : DocOps} {parse : Str → Option M} {a b : RMap JsonScalar} {s s' : Str} {t' : Timestamp}
    {md : Metadata M} (h : Metadata.ofDoc O parse (a ++ (c!"lastmodified", Json.text s) :: b) = some md)
    (hs' : O.parseDate s' = some t') :
    O.parseDate s = some md.lastModified ∧
    Metadata.ofDoc O parse (a ++ (c!"lastmodified", Json.text s') :: b) = some { md with lastModified := t' } := by
  have e : ∀ k, c!"lastmodified" ≠ k → docField (a ++ (c!"lastmodified", Json.text s) :: b) k =
      docField (a ++ (c!"lastmodified", Json.text s') :: b) k := fun k hk => docField_redated a b _ _ hk
  have h1 : unitsOfField O .kms (a ++ (c!"lastmodified", Json.text s) :: b) c!"kms" =
      unitsOfField O .kms (a ++ (c!"lastmodified", Json.text s') :: b) c!"kms" := by
    unfold unitsOfField; rw [e _ (by decide)]
  have h2 : unitsOfField O .age (a ++ (c!"lastmodified", Json.text s) :: b) c!"age" =
      unitsOfField O .age (a ++ (c!"lastmodified", Json.text s') :: b) c!"age" := by
    unfold unitsOfField; rw [e _ (by decide)]
  have h3 : parsedOfDoc parse (a ++ (c!"lastmodified", Json.text s) :: b) c!"mac" =
      parsedOfDoc parse (a ++ (c!"lastmodified", Json.text s') :: b) c!"mac" := by
    unfold parsedOfDoc docStr; rw [e _ (by decide)]
  have h4 : boolOfDoc (a ++ (c!"lastmodified", Json.text s) :: b) c!"mac_only_encrypted" =
      boolOfDoc (a ++ (c!"lastmodified", Json.text s') :: b) c!"mac_only_encrypted" := by
    unfold boolOfDoc; rw [e _ (by decide)]
  have h5 : ∀ t, reqDateOfDoc O (a ++ (c!"lastmodified", Json.text s) :: b) c!"lastmodified" = some t →
      O.parseDate s = some t ∧ reqDateOfDoc O (a ++ (c!"lastmodified", Json.text s') :: b) c!"lastmodified" = some t' := by
    intro t ht
    unfold reqDateOfDoc docStr docField at ht ⊢
    simp only [List.filter_append, List.filter_cons, beq_self_eq_true, if_true] at ht ⊢
    generalize a.filter (fun e => e.1 == c!"lastmodified") = a' at ht ⊢
    generalize b.filter (fun e => e.1 == c!"lastmodified") = b' at ht ⊢
    match a', b' with
    | [], [] => exact ⟨ht, hs'⟩
    | [], _ :: _ => cases ht
    | [_], _ => cases ht
    | _ :: _ :: _, _ => cases ht
  unfold Metadata.ofDoc at h ⊢
  rw [← h1, ← h2, ← h3, ← h4, ← settings_redated O a b (Json.text s)]
  split at h
  · rename_i k g l m o hk hg hl hm ho
    cases h
    obtain ⟨h6, h7⟩ := h5 _ hl
    refine ⟨h6, ?_⟩
    rw [hk, hg, hm, ho, h7]
  · cases h

/-- **C76.** The date of a file may be written in any other way, in any time zone, and with any fraction of a second: it
decrypts as before, and with the new date. -/
theorem C76_redated {E : Env} {O : DocOps} (hO : O.parseDate = chronoDate) {F Fo : Format} {map : F.Map} {a b : RMap JsonScalar}
    {s s' : Str} {md : Metadata EncValue} {g : DecFile Fo} {t t' : Timestamp} {m m' : Int}
    (h : Metadata.ofDoc O (fun s => (EncValue.parse E.C s).toOption) (a ++ (c!"lastmodified", Json.text s) :: b) = some md)
    (hd : EncFile.decrypt Fo E { map, metadata := md } = .ok g)
    (hs : RelaxedDate s t m) (hs' : RelaxedDate s' t' m') (ht' : Calendar t') (hm' : m'.natAbs < 1440)
    (hy : -262142 ≤ t'.year ∧ t'.year ≤ 262141)
    (hsame : minuteNumber t - m = minuteNumber t' - m' ∧ t.second = t'.second) :
    ∃ u, Metadata.ofDoc O (fun s => (EncValue.parse E.C s).toOption) (a ++ (c!"lastmodified", Json.text s') :: b) =
        some { md with lastModified := u } ∧ LaterBy (-m') u t' ∧
      EncFile.decrypt Fo E { map, metadata := { md with lastModified := u } } =
        .ok { g with metadata := { g.metadata with lastModified := u } } := by
  obtain ⟨k1, k2, k3, k4⟩ := toUtc_ok ⟨ht'.month, ht'.day⟩ ht'.hour ht'.minute hm'
  have hyear : Calendar (t'.toUtc m') := by
    refine ⟨?_, k1.1, k1.2, k2, k3, by rw [k4.2.1]; exact ht'.second, by rw [k4.2.2]; exact ht'.nano⟩
    have hb : (t'.dayBefore).year = t'.year ∨ (t'.dayBefore).year = t'.year - 1 := by
      unfold Timestamp.dayBefore
      split
      · exact .inl rfl
      · split
        · exact .inl rfl
        · exact .inr rfl
    have ha : (t'.dayAfter).year = t'.year ∨ (t'.dayAfter).year = t'.year + 1 := by
      unfold Timestamp.dayAfter
      split
      · exact .inl rfl
      · split
        · exact .inl rfl
        · exact .inr rfl
    unfold Timestamp.toUtc
    simp only
    split
    · simp only; omega
    · split
      · simp only; omega
      · simp only; omega
  have hread : chronoDate s' = some (t'.toUtc m') := chronoDate_iff.2 ⟨t', m', hs', ht', hm', hyear, k4⟩
  obtain ⟨h1, h2⟩ := metadata_redated h (by rw [hO]; exact hread)
  rw [hO] at h1
  obtain ⟨t0, m0, r1, r2, r3, r4, r5⟩ := chronoDate_iff.1 h1
  obtain ⟨rfl, rfl⟩ := C76_one_meaning r1 hs
  refine ⟨_, h2, k4, ?_⟩
  have e : { md.lastModified with nano := (t'.toUtc m').nano } = t'.toUtc m' := by
    refine minuteNumber_inj (t := { md.lastModified with nano := (t'.toUtc m').nano }) ⟨r4.month, r4.day⟩ k1 r4.hour r4.minute k2 k3 ?_ ?_ rfl
    · show minuteNumber md.lastModified = _
      rw [r5.1, k4.1]
      have := hsame.1
      omega
    · show md.lastModified.second = _
      rw [r5.2.1, k4.2.1]
      exact hsame.2
  have := C20_subseconds_free (Fo := Fo) { map, metadata := md } (t'.toUtc m').nano g hd
  simp only [e] at this
  exact this

/-- A file with a date such as 2024-01-02T03:04:04Z, and the same with the date in another time zone and a fraction of a
second, decrypt; with another second the file does not. -/
example :
    let redated (s : Str) : Bool := match Toy.smallBuilder.encrypt Toy.env 0 with
      | .error _ => false
      | .ok (f, _) =>
        let md := (f.metadata.toDoc fun e => e.toText Toy.env.C).map fun e =>
          if e.1 = c!"lastmodified" then (e.1, Json.text s) else e
        match Metadata.ofDoc Toy.docOps (fun s => (EncValue.parse Toy.env.C s).toOption) md with
        | none => false
        | some md => (EncFile.decrypt Format.json Toy.env { f with metadata := md }).toBool
    redated c!"2024-01-02T03:04:04Z" = true ∧ redated c!"2024-1-2 01:04:04.75 -02:00" = true ∧
      redated c!"2024-01-02T03:04:03Z" = false := by decide +kernel

/-- **C76.** Everything together: a JSON file that is formatted as rops formats and whose floats are short is the same, byte
for byte, after `rops encrypt -i` and `rops decrypt -i`. Assumed are only that `age` and AWS KMS decrypt what they
encrypt, and that the clock gives dates. -/
theorem C76_restored {E : Env} (hC : E.C = aesGcm) (hH : E.H = sha512) (hage : AgeLaws E.A) (hkms : KmsLaws E.K)
    (hn : ∀ i, (E.nonce i).length = 32) (hkey : ∀ i, (E.newKey i).length = 32) (hfl : E.fl = f64Floats)
    (hc : ∀ i, Calendar (E.clock i)) {O : DocOps} (hO : O.parseDate = chronoDate)
    {T : (x : Fmt) → TextOps x.doc} (hT : T .json = serdeFloats.ops) {path s' : Str}
    {P : Proc} {l : EncryptLine} {i : Nat} {d : List (Str × Json)}
    (hr : Ran E O T .json path P (.encrypt l) i (serdeFloats.ops.render d) s')
    (hp : serdeFloats.ops.parse (serdeFloats.ops.render d) = some d) (hs : c!"sops" ∉ entryKeys d)
    (hcol : NoColon d) (hf : ∀ p f, (p, .num (.float f)) ∈ leaves d → ShortFloat f)
    {P' : Proc} (hP : SameProgram E O T P') (hfile : P'.file path = .data (utf8 s')) (hin : P'.stdin = .terminal)
    {l' : PlaceLine} (hl : l'.input.file = some path) (hpl : l'.inPlace = true)
    (hx : getFormat (some path) l'.input.format = .ok .json)
    {config' : Config} (hcf : P'.retrieveConfig l'.input.config = .ok config') (hsave : ∀ b, P'.saves path b = .done)
    {config : Config} (hcf0 : P.retrieveConfig l.input.config = .ok config)
    {ks : List E.A.Identity} (hks : retrievePrivateKeys (Age.parsePrivateKey E.A) P'.env.host c!"age" = .ok ks)
    {k : E.A.Identity} (hk : k ∈ ks)
    (hid : E.A.toPublic k ∈ l.keys.age ∨ ∃ r, ruleFor E.rx config (some path) = some r ∧ E.A.toPublic k ∈ r.keys.age) (i' : Nat) :
    ∃ es, P'.run (.decrypt l') i' = (es, .ok ()) ∧ filesAfter P'.file es path = .data (utf8 (serdeFloats.ops.render d)) :=
  C73_restored (C75_env hC hH hage hkms hn hkey) hfl hc (C76_laws hO) hT hr hp hs hcol hf hP hfile hin hl hpl hx hcf hsave hcf0
    hks hk hid i'

/-- The process of the examples, with AES-256-GCM and SHA-512. -/
def gcmProc (content : Str) : Proc := { floatProc content with env := gcmEnv }

theorem gcmProc_config (content : Str) : (gcmProc content).retrieveConfig none = .ok [Toy.creationRule] := by
  have h : (gcmProc []).readConfig c!"/.rops.toml" = .ok [Toy.creationRule] := by decide +kernel
  exact h

theorem gcmProc_encrypts : ∃ s', Ran gcmEnv Toy.docOps (gcmProc []).T .json c!"a.json" (gcmProc (serdeFloats.ops.render fewDigitsDoc))
    (.encrypt Toy.encryptLine) 0 (serdeFloats.ops.render fewDigitsDoc) s' := by
  have hc : (match fewDigitsBuilder.encrypt gcmEnv 0 with
      | .error _ => false
      | .ok _ => true) = true := by decide +kernel
  split at hc
  · cases hc
  · rename_i r hr
    obtain ⟨f, j⟩ := r
    refine ⟨EncFile.toText serdeFloats.ops gcmEnv.C f, ?_⟩
    have hrun : (gcmProc (serdeFloats.ops.render fewDigitsDoc)).run (.encrypt Toy.encryptLine) 0 =
        ([.write c!"a.json" (utf8 (EncFile.toText serdeFloats.ops gcmEnv.C f)) .done], .ok ()) :=
      run_encrypt_ok.2 ⟨by decide, by decide, [Toy.creationRule], .json, _, fewDigitsDoc, f, j, gcmProc_config _,
        by decide +kernel, .inl ⟨_, _, rfl, rfl, rfl, utf8?_utf8 _⟩, fewDigitsDoc_parsed, hr, .inl ⟨rfl, _, rfl, rfl, rfl⟩⟩
    exact {
      program := ⟨⟨Toy.env.host, rfl⟩, rfl, rfl⟩
      target := rfl
      format := by decide +kernel
      run := ⟨_, hrun, by simp [filesAfter, effect, Files.put]⟩
      found := rfl
      config := fun config h => by
        rw [show (Command.encrypt Toy.encryptLine).configPath = none from rfl, gcmProc_config] at h
        cases h
        exact Toy.config_writable
      keys := ⟨fun _ _ => rfl, fun _ h => nomatch h⟩
      setting := fun p h => nomatch h
      temp := Toy.fresh Toy.rule _ [] }

example : ∃ s' es, Ran gcmEnv Toy.docOps (gcmProc []).T .json c!"a.json" (gcmProc (serdeFloats.ops.render fewDigitsDoc))
      (.encrypt Toy.encryptLine) 0 (serdeFloats.ops.render fewDigitsDoc) s' ∧
    (gcmProc s').run (.decrypt Toy.placeLine) 70 = (es, .ok ()) ∧
    filesAfter (gcmProc s').file es c!"a.json" = .data (utf8 (serdeFloats.ops.render fewDigitsDoc)) := by
  obtain ⟨s', hr⟩ := gcmProc_encrypts
  obtain ⟨es, h1, h2⟩ := C76_restored (E := gcmEnv) rfl rfl Toy.env_laws.age Toy.env_laws.kms (fun i => natBytes_length 32 i)
    (fun i => Toy.env_laws.key_length i) rfl Toy.env_clock Toy.docOps_date rfl hr fewDigitsDoc_parsed (by decide)
    (by unfold NoColon; decide) fewDigitsDoc_short (P' := gcmProc s') ⟨⟨Toy.env.host, rfl⟩, rfl, rfl⟩ rfl rfl
    (l' := Toy.placeLine) rfl rfl (by decide +kernel) (gcmProc_config _) (fun _ => rfl) (gcmProc_config _)
    (ks := [c!"k1"]) rfl (k := c!"k1") (.head _) (.inr ⟨Toy.creationRule, by decide +kernel, by decide⟩) 70
  exact ⟨s', es, hr, h1, h2⟩

end Rops.Props
