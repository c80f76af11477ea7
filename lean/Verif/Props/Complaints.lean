import Verif.Lemmas.Complaints
import Verif.Lemmas.Items
import Verif.Props.Messages
import Verif.Props.Edits
/-!
# What is said about bad documents

C70. Which defect of an encrypted value, of an encrypted document and of a plain document is named
in the error message; and C55 for encrypted documents of all formats, whatever their keys.
-/

namespace Rops.Props
open Rops Spec

/-! ## Encrypted values -/

/-- **C70.** A text that should be one of an encrypted value is refused with a message exactly if
the message names what is wrong first: the "ENC" at its start, a bracket, the cipher, or the first
of the fields data, iv, tag and type that is missing or cannot be read. -/
theorem C70_value (C : Cipher) (W : Wording) (s c : Str) :
    (∃ e, EncValue.parse C s = .error e ∧ e ≠ .panic ∧ (e.report W C).lines = [c]) ↔ Complaint C W.base64 s c := by
  have hone : ∀ {e : EncParseError}, (e.report W C).lines = [c] ↔ (e.report W C).text = c := by
    intro e
    cases e <;> simp [Report.lines, EncParseError.report]
  simp only [hone]
  constructor
  · rintro ⟨e, h, hp, rfl⟩
    unfold EncValue.parse at h
    rw [Except.bind_eq_error] at h
    rcases h with h | ⟨r, h1, h2⟩
    · rcases encBody_error.1 h with ⟨rfl, h1⟩ | ⟨rfl, ⟨r, h1⟩, h2⟩ | ⟨rfl, ⟨r, h1⟩, h2⟩
      · exact .start h1
      · exact .opening h1 h2
      · exact .closing h1 h2
    · rw [parseComponents_error (splitOn_ne_nil _ _) hp] at h2
      exact .field (encBody_iff.1 h1) (fields_iff.2 rfl) (wrongField_iff.2 ⟨e, h2, rfl⟩)
  · intro h
    unfold EncValue.parse
    simp only [Except.bind_eq_error]
    cases h with
    | start h => exact ⟨_, .inl (encBody_error.2 (.inl ⟨rfl, h⟩)), by simp, rfl⟩
    | opening h1 h2 => exact ⟨_, .inl (encBody_error.2 (.inr (.inl ⟨rfl, ⟨_, h1⟩, h2⟩))), by simp, rfl⟩
    | closing h1 h2 => exact ⟨_, .inl (encBody_error.2 (.inr (.inr ⟨rfl, ⟨_, h1⟩, h2⟩))), by simp, rfl⟩
    | field h1 h2 h3 =>
      obtain ⟨e, he, rfl⟩ := wrongField_iff.1 h3
      have hs := fields_iff.1 h2
      refine ⟨e, .inr ⟨_, encBody_iff.2 h1, ?_⟩, he.ne_panic, rfl⟩
      rw [hs]
      exact (parseComponents_error (by rw [← hs]; exact splitOn_ne_nil _ _) he.ne_panic).2 he

/-- **C70.** Every text is one of an encrypted value, makes the program panic, or has something wrong
with it that is named; never two of these, and never two things named. -/
theorem C70_cases {C : Cipher} (hC : C.Lawful) (why : Str → Str) (s : Str) :
    ((∃ e, EncSyntax C s e) ∨ Overlong C s ∨ ∃ c, Complaint C why s c) ∧
    ¬ ((∃ e, EncSyntax C s e) ∧ Overlong C s) ∧ ¬ ((∃ e, EncSyntax C s e) ∧ ∃ c, Complaint C why s c) ∧
    ¬ (Overlong C s ∧ ∃ c, Complaint C why s c) ∧ ∀ c c', Complaint C why s c → Complaint C why s c' → c = c' := by
  have hs : ∀ e, EncSyntax C s e ↔ EncValue.parse C s = .ok e := fun e => (EncValue.parse_iff hC.name_no_comma).symm
  have hv := C70_value C { noWording with base64 := why } s
  simp only [hs, ← C55_enc_text_panics_iff C hC, ← hv]
  cases h : EncValue.parse C s with
  | ok e => simp
  | error e =>
    by_cases hp : e = .panic
    · subst hp
      simp
    · refine ⟨.inr (.inr ⟨(e.report { noWording with base64 := why } C).text, e, rfl, hp, by cases e <;> rfl⟩), by simp, by simp,
        by simp [hp], ?_⟩
      rintro c c' ⟨e1, h1, _, h2⟩ ⟨e2, h3, _, h4⟩
      cases h1
      cases h3
      rw [h2] at h4
      exact List.head_eq_of_cons_eq h4

/-! ## Documents -/

theorem itemErr_none {a : List Str × Option Scalar} : itemErr a = none ↔ GoodItem a.1 a.2 := by
  obtain ⟨p, i⟩ := a
  cases i with
  | none => simp [itemErr, GoodItem]
  | some s =>
    simp only [itemErr, GoodItem]
    cases s with
    | int n =>
      simp only [rd, Reads]
      by_cases hn : -2 ^ 63 ≤ n ∧ n < 2 ^ 63
      · rw [if_pos hn]
        simp only [errOf, true_iff]
        exact ⟨_, Int64.ofInt n, rfl, Int64.toInt_ofInt_of_le hn.1 hn.2⟩
      · rw [if_neg hn]
        simp only [errOf, reduceCtorEq, false_iff]
        rintro ⟨_, k, _, rfl⟩
        exact hn ⟨k.le_toInt, k.toInt_lt⟩
    | _ => simp [rd, errOf, Reads]

theorem itemErr_says {W : Wording} {C : Cipher} {p : List Str} {i : Option Scalar} (hb : Bounded i) {c : Str} :
    (∃ e, itemErr (p, i) = some e ∧ (e.report W C).lines = [c]) ↔ SaysPlain W p i c := by
  cases i with
  | none =>
    constructor
    · rintro ⟨e, h, hl⟩
      cases h
      cases hl
      exact .key
    · intro h
      cases h
      exact ⟨_, rfl, rfl⟩
  | some s =>
    cases s with
    | int n =>
      simp only [itemErr, errOf_eq, rd]
      simp only [Bounded] at hb
      constructor
      · rintro ⟨e, h, hl⟩
        split at h
        · cases h
        · rename_i hn
          cases h
          cases hl
          obtain ⟨k, rfl⟩ : ∃ k : Nat, n = k := ⟨n.toNat, by omega⟩
          have : (UInt64.ofNat (k : Int).toNat).toNat = k := by
            rw [Int.toNat_natCast]
            exact UInt64.toNat_ofNat_of_lt' (by simp only [UInt64.size]; omega)
          simp only [FormatError.report, this]
          exact .range k (by omega)
      · intro h
        cases h with
        | range k hk =>
          rw [if_neg (by omega)]
          refine ⟨_, rfl, ?_⟩
          have : (UInt64.ofNat (k : Int).toNat).toNat = k := by
            rw [Int.toNat_natCast]
            exact UInt64.toNat_ofNat_of_lt' (by simp only [UInt64.size]; omega)
          simp only [FormatError.report, Report.lines, this]
    | _ =>
      constructor
      · rintro ⟨e, h, _⟩; cases h
      · intro h; cases h

/-- **C70.** A plain document is refused with a message exactly if the message names what is first
found wrong with it: a key that is no string or an integer that does not fit, with its digits. -/
theorem C70_plain_document (C : Cipher) (W : Wording) (x : Fmt) (m : x.doc.F.Map) (L : List Str) :
    (∃ e, x.doc.F.toInternal m = .error e ∧ (e.report W C).lines = L) ↔
      ∃ c, L = [c] ∧ FirstBad (docItems x m) GoodItem (fun p i => SaysPlain W p i c) := by
  simp only [← errOf_eq, toInternal_findSome, List.findSome?_eq_some_iff, itemErr_none]
  constructor
  · rintro ⟨e, ⟨A, ⟨p, i⟩, B, h1, h2, h3⟩, hl⟩
    have hb : Bounded i := items_bounded (p := p) (by rw [h1]; simp)
    obtain ⟨c, hc⟩ : ∃ c, (e.report W C).lines = [c] := by
      cases i with
      | none => cases h2; exact ⟨_, rfl⟩
      | some s =>
        cases s with
        | int n =>
          simp only [itemErr, errOf_eq, rd] at h2
          split at h2 <;> cases h2
          exact ⟨_, rfl⟩
        | _ => cases h2
    exact ⟨c, by rw [← hl, hc], A, p, i, B, h1, h3, (itemErr_says hb).1 ⟨e, h2, hc⟩⟩
  · rintro ⟨c, rfl, A, p, i, B, h1, h2, h3⟩
    obtain ⟨e, he, hl⟩ := (itemErr_says (C := C) (items_bounded (p := p) (by rw [h1]; simp))).2 h3
    exact ⟨e, ⟨A, (p, i), B, h1, he, h2⟩, hl⟩

theorem encItemErr_none {C : Cipher} {rx : RegexMatch} {cfg : Option PartialEncryption} {a : List Str × Option Scalar} :
    encItemErr C rx cfg a = none ↔ GoodEncItem C rx cfg a.1 a.2 := by
  obtain ⟨p, i⟩ := a
  cases i with
  | none => simp [encItemErr, GoodEncItem]
  | some s =>
    simp only [GoodEncItem, ← rdEncAt_ok_iff, ← errOf_rdEncAt]
    cases h : rdEncAt C rx cfg p s () with
    | error e => simp [errOf]
    | ok l =>
      simp only [errOf, true_iff]
      exact ⟨l.1, by cases l; rfl⟩

theorem encItemErr_some {C : Cipher} {rx : RegexMatch} {cfg : Option PartialEncryption} {p : List Str} {s : Scalar}
    {e : FormatError} : encItemErr C rx cfg (p, some s) = some e ↔ Refused C rx cfg p s e := by
  rw [← errOf_rdEncAt, errOf_eq, rdEncAt_error_iff]

theorem encItemErr_says {C : Cipher} {W : Wording} {rx : RegexMatch} {cfg : Option PartialEncryption} {p : List Str}
    {i : Option Scalar} (hb : Bounded i) {L : List Str} :
    (∃ e, encItemErr C rx cfg (p, i) = some e ∧ e ≠ .encryptedValue .panic ∧ (e.report W C).lines = L) ↔
      SaysEnc C W rx cfg p i L := by
  have hnum : ∀ {k : Nat}, k < 2 ^ 64 → (UInt64.ofNat (k : Int).toNat).toNat = k := by
    intro k hk
    rw [Int.toNat_natCast]
    exact UInt64.toNat_ofNat_of_lt' (by simp only [UInt64.size]; omega)
  cases i with
  | none =>
    constructor
    · rintro ⟨e, h, _, rfl⟩
      cases h
      exact .key
    · intro h
      cases h
      exact ⟨_, rfl, by simp, rfl⟩
  | some s =>
    simp only [encItemErr_some]
    constructor
    · rintro ⟨e, h, hp, rfl⟩
      cases h with
      | range n hpl hn =>
        simp only [Bounded] at hb
        obtain ⟨k, rfl⟩ : ∃ k : Nat, n = k := ⟨n.toNat, by omega⟩
        simp only [FormatError.report, Report.lines, hnum (show k < 2 ^ 64 by omega)]
        exact .range k hpl (by omega)
      | text t e hpl ht =>
        have hp' : e ≠ .panic := fun h => hp (by rw [h])
        have hl : (e.report W C).lines = [(e.report W C).text] := by cases e <;> rfl
        have := (C70_value C W t _).1 ⟨e, ht, hp', hl⟩
        have h2 : ((FormatError.encryptedValue e).report W C).lines =
            [c!"unable to parse encrypted value components: " ++ (e.report W C).text, (e.report W C).text] := by
          show _ :: (e.report W C).lines = _
          rw [hl]
          rfl
        rw [h2]
        exact .text hpl this
      | plaintext s hpl hs => exact .plaintext hpl hs
    · intro h
      cases h with
      | range k hpl hk =>
        simp only [Bounded] at hb
        refine ⟨_, .range k hpl (by omega), by simp, ?_⟩
        simp only [FormatError.report, Report.lines, hnum (show k < 2 ^ 64 by omega)]
      | text hpl hc =>
        obtain ⟨e, h1, h2, h3⟩ := (C70_value C W _ _).2 hc
        refine ⟨_, .text _ e hpl h1, fun h => h2 (by cases h; rfl), ?_⟩
        have h4 := h3
        simp only [Report.lines, List.cons.injEq] at h4
        show (c!"unable to parse encrypted value components: " ++ (e.report W C).text) :: (e.report W C).lines = _
        rw [h3, h4.1]
      | plaintext hpl hs => exact ⟨_, .plaintext _ hpl hs, by simp, rfl⟩

/-- **C70.** An encrypted document is refused with a message exactly if the message names what is
first found wrong with it: a key that is no string, an integer in plaintext that does not fit, a
text where a ciphertext is required with what is wrong with it, or something else in its place. -/
theorem C70_encrypted_document (C : Cipher) (W : Wording) (rx : RegexMatch) (cfg : Option PartialEncryption) (x : Fmt)
    (m : x.doc.F.Map) (L : List Str) :
    (∃ e, x.doc.F.encToInternal C rx (Resolved.ofConfig cfg) m = .error e ∧ e ≠ .encryptedValue .panic ∧
      (e.report W C).lines = L) ↔
      FirstBad (docItems x m) (GoodEncItem C rx cfg) (fun p i => SaysEnc C W rx cfg p i L) := by
  simp only [← errOf_eq, encToInternal_findSome, List.findSome?_eq_some_iff, encItemErr_none]
  constructor
  · rintro ⟨e, ⟨A, ⟨p, i⟩, B, h1, h2, h3⟩, hp, hl⟩
    exact ⟨A, p, i, B, h1, h3, (encItemErr_says (items_bounded (p := p) (by rw [h1]; simp))).1 ⟨e, h2, hp, hl⟩⟩
  · rintro ⟨A, p, i, B, h1, h2, h3⟩
    obtain ⟨e, he, hp, hl⟩ := (encItemErr_says (items_bounded (p := p) (by rw [h1]; simp))).2 h3
    exact ⟨e, ⟨A, (p, i), B, h1, he, h2⟩, hp, hl⟩

/-- **C55.** Reading an encrypted document panics exactly if what is first found wrong with it is an
overlong text where a ciphertext is required, whatever its keys. -/
theorem C55_document_panics_iff {C : Cipher} (hC : C.Lawful) (rx : RegexMatch) (cfg : Option PartialEncryption) (x : Fmt)
    (m : x.doc.F.Map) :
    x.doc.F.encToInternal C rx (Resolved.ofConfig cfg) m = .error (.encryptedValue .panic) ↔
      FirstBad (docItems x m) (GoodEncItem C rx cfg)
        (fun p i => ∃ t, i = some (.str t) ∧ ¬ Plain rx cfg p ∧ Overlong C t) := by
  simp only [← errOf_eq, encToInternal_findSome, List.findSome?_eq_some_iff, encItemErr_none]
  constructor
  · rintro ⟨A, ⟨p, i⟩, B, h1, h2, h3⟩
    refine ⟨A, p, i, B, h1, h3, ?_⟩
    cases i with
    | none => cases h2
    | some s =>
      cases encItemErr_some.1 h2 with
      | text t _ hp ht => exact ⟨t, rfl, hp, (C55_enc_text_panics_iff C hC t).1 ht⟩
  · rintro ⟨A, p, i, B, h1, h2, t, rfl, hp, ht⟩
    exact ⟨A, (p, _), B, h1, encItemErr_some.2 (.text t _ hp ((C55_enc_text_panics_iff C hC t).2 ht)), h2⟩

/-! ## Commands -/

/-- **C70.** If the file can be read and its MAC decrypted, but something is wrong with an encrypted
value, `rops decrypt` has no effect and prints what is first found wrong. -/
theorem C70_decrypt {P : Proc} {l : PlaceLine} {path : Str} {x : Fmt} {config : Config} {s : Str} {f : EncFile x.doc.F}
    (hl : l.input.file = some path) (hx : getFormat (some path) l.input.format = .ok x)
    (hcf : P.retrieveConfig l.input.config = .ok config) (hs : InputText P (some path) s)
    (hf : EncFile.ofText (P.T x) P.O P.env.C s = some f) {md : Metadata Mac × Bytes × SavedMacNonce}
    (hmd : P.env.decryptMetadata f.metadata = .ok md) {W : Wording} {c : Str} {L : List Str}
    (hbad : FirstBad (docItems x f.map) (GoodEncItem P.env.C P.env.rx f.metadata.partialEncryption)
      (fun p i => SaysEnc P.env.C W P.env.rx f.metadata.partialEncryption p i (c :: L))) (i : Nat) :
    (P.run (.decrypt l) i).1 = [] ∧
    P.messages W (P.run (.decrypt l) i) = (c!"invalid encrypted map format; " ++ c) :: c :: L := by
  obtain ⟨e, he, _, hL⟩ := (C70_encrypted_document _ _ _ _ _ _ _).2 hbad
  obtain ⟨key, mac, hk, hmac, rfl⟩ := decryptMetadata_ok.1 hmd
  have hd : f.decrypt x.doc.F P.env = .error (.format e) :=
    decrypt_error_iff.2 (.inr ⟨key, mac, hk, hmac, .inl ⟨e, he, rfl⟩⟩)
  have h := C61_command hl hx hcf hs hf hd i W
  refine ⟨h.1, h.2.trans ?_⟩
  have ht : (e.report W P.env.C).text = c := (List.cons.inj hL).1
  show (c!"invalid encrypted map format; " ++ (e.report W P.env.C).text) :: (e.report W P.env.C).lines = _
  rw [hL, ht]

/-- **C70.** If the document can be parsed but not represented, `rops encrypt` has no effect and
prints what is first found wrong, before it looks at any key. -/
theorem C70_encrypt {P : Proc} {l : EncryptLine} {a : EncryptArgs} (hl : l.args = some a) {config : Config}
    (hcfg : P.retrieveConfig l.input.config = .ok config) {x : Fmt} (hx : getFormat l.input.file l.input.format = .ok x)
    {s : Str} (hs : InputText P l.input.file s) {m : x.doc.F.Map} (hm : (P.T x).parse s = some m) {W : Wording} {c : Str}
    (hbad : FirstBad (docItems x m) GoodItem (fun p i => SaysPlain W p i c)) (i : Nat) :
    (P.run (.encrypt l) i).1 = [] ∧
    P.messages W (P.run (.encrypt l) i) = [c!"invalid decrypted map format: " ++ c, c] := by
  obtain ⟨e, he, hL⟩ := (C70_plain_document P.env.C W x m [c]).2 ⟨c, rfl, hbad⟩
  have hi : a.input = l.input := by
    unfold EncryptLine.args at hl
    split at hl
    · cases hl
    · cases hl; rfl
  have hn : ¬ (a.inPlace.getD false = true ∧ l.input.file = none) := by
    unfold EncryptLine.args at hl
    split at hl
    · cases hl
    · rename_i hn
      cases hl
      rintro ⟨h1, h2⟩
      simp [setTrue] at h1
      simp [h1, h2] at hn
  have hmerge : (a.merge P.env.rx config).input = a.input ∧ (a.merge P.env.rx config).inPlace = a.inPlace := by
    rw [merge_eq]; exact ⟨rfl, rfl⟩
  have hset : ∃ o : Option PartialEncryption, (a.merge P.env.rx config).setting = o.map SettingArgs.ofSetting := by
    rw [merge_eq, (encryptArgs_ok.1 hl).2.2]
    refine ⟨l.setting.or ((ruleFor P.env.rx config l.input.file).bind CreationRule.partialEncryption), ?_⟩
    cases l.setting <;> rfl
  have htext : P.encryptText x s (a.merge P.env.rx config) i = .error (.builder (.encrypt (.format e))) := by
    obtain ⟨o, ho⟩ := hset
    have hb : ∀ b : Builder x.doc.F, b.map = m → b.encrypt P.env i = .error (.encrypt (.format e)) := by
      intro b hb
      simp only [Builder.encrypt, hb, he]
    have hmap : ((a.merge P.env.rx config).keys.addToBuilder (Builder.fromMap m)).map = m := by rw [addToBuilder_fromMap]
    simp only [Proc.encryptText, hm, ho]
    cases o with
    | none =>
      simp only [Option.map_none]
      rw [hb]
      split
      · exact hmap
      · exact hmap
    | some p =>
      have hp : (SettingArgs.ofSetting p).toSetting = some p := by cases p <;> rfl
      simp only [Option.map_some, hp]
      rw [hb]
      split
      · exact hmap
      · exact hmap
  have hg : P.getInput l.input.file a.inPlace = .ok s := getInput_ok.2 ⟨hs, hn⟩
  have hr : P.run (.encrypt l) i = ([], .error (.builder (.encrypt (.format e)))) := by
    unfold Proc.run
    rw [if_pos (by simp [Command.accepted, hl])]
    simp only [Command.configPath, hcfg, Proc.dispatch, hl, Proc.encrypt, hmerge.1, hmerge.2, hi, hx, hg, htext]
  rw [hr]
  refine ⟨rfl, ?_⟩
  have ht : (e.report W P.env.C).text = c := (List.cons.inj hL).1
  show (c!"invalid decrypted map format: " ++ (e.report W P.env.C).text) :: (e.report W P.env.C).lines = _
  rw [hL, ht]

/-- **C70.** If the edited document can be parsed but not represented, `rops edit` prints what is
first found wrong. -/
theorem C70_edit {P : Proc} (hfresh : FreshTemp P) {a : InputArgs} {config : Config}
    (hc : P.retrieveConfig a.config = .ok config) {x : Fmt} (hx : getFormat a.file a.format = .ok x) {s : Str}
    (hs : InputText P a.file s) {f : EncFile x.doc.F} (hf : EncFile.ofText (P.T x) P.O P.env.C s = some f)
    {g : DecFile x.doc.F} {p : SavedParameters} (hg : f.decryptAndSave x.doc.F P.env = .ok (g, p))
    {t : Str} (ht : P.temp = some t) (hw : P.saves t (utf8 ((P.T x).render g.map)) = .done) (hr : EditorReady P)
    {edited : x.doc.F.Map} (hed : Edited (P.T x).parse edited P.editor) {W : Wording} {c : Str}
    (hbad : FirstBad (docItems x edited) GoodItem (fun p i => SaysPlain W p i c)) (i : Nat) :
    P.messages W (P.run (.edit a) i) = [c] := by
  obtain ⟨e, he, hL⟩ := (C70_plain_document P.env.C W x edited [c]).2 ⟨c, rfl, hbad⟩
  have := (C64_lost hfresh hx hed he i).2.2.2 hc hs hf hg ht hw hr
  unfold Proc.messages
  rw [this]
  exact hL

/-- **C70.** A command prints a message exactly if it does not succeed. -/
theorem C70_silent (P : Proc) (W : Wording) (c : Command) (i : Nat) :
    P.messages W (P.run c i) = [] ↔ (P.run c i).2 = .ok () := by
  unfold Proc.messages
  cases (P.run c i).2 with
  | ok u => simp
  | error e => simp [Report.lines]

/-! ## Concrete cases -/

/-- Texts that lack a bracket, a field, or have an unreadable one. -/
example (why : Str → Str) : Complaint Toy.cipher why c!"secret" c!"missing ENC prefix" ∧
    Complaint Toy.cipher why c!"ENC(AES256_GCM)" c!"missing opening ('[') bracket" ∧
    Complaint Toy.cipher why c!"ENC[AES256_GCM,data:AA==,tag:AAA=,type:str]"
      c!"missing 'iv' (initialization vector) key-value pair" ∧
    Complaint Toy.cipher why c!"ENC[AES256_GCM,data:AA==,iv:AAA=,tag:AAA=,type:bytes]"
      c!"unable to parse value type: bytes" ∧
    Complaint Toy.cipher why c!"ENC[AES128,data:AA==]" c!"invalid cipher: AES128, expected: AES256_GCM" ∧
    Complaint Toy.cipher why c!"ENC[AES256_GCM,data:A?]" (c!"unable to base64 decode A?, reason: " ++ why c!"A?") := by
  have key : ∀ s e, EncValue.parse Toy.cipher s = .error e → e ≠ .panic →
      Complaint Toy.cipher why s (e.report { noWording with base64 := why } Toy.cipher).text := fun s e h hp =>
    (C70_value Toy.cipher { noWording with base64 := why } s _).1 ⟨e, h, hp, by cases e <;> rfl⟩
  exact ⟨key _ (.missing .encPrefix) (by decide +kernel) (by simp), key _ (.missing .openingBracket) (by decide +kernel) (by simp),
    key _ (.missing .iv) (by decide +kernel) (by simp), key _ (.variant c!"bytes") (by decide +kernel) (by simp),
    key _ (.invalidCipher c!"AES128") (by decide +kernel) (by simp), key _ (.base64 c!"A?") (by decide +kernel) (by simp)⟩

/-- A YAML document with an integer that does not fit before a key that is no string, and the same
the other way round. -/
example (W : Wording) :
    FirstBad (docItems .yaml [(.str c!"a", .str c!"x"), (.str c!"b", .seq [.num (.posInt 9223372036854775809)]), (.bool true, .null)])
      GoodItem (fun p i => SaysPlain W p i
        c!"integer out of range, allowed values must fit inside an i64, found: 9223372036854775809") ∧
    FirstBad (docItems .yaml [(.str c!"a", .map [(.null, .null)]), (.str c!"b", .num (.posInt 9223372036854775809))])
      GoodItem (fun p i => SaysPlain W p i (c!"only string keys are supported, found: " ++ W.yamlKey)) := by
  refine ⟨⟨[([c!"a"], some (.str c!"x"))], [c!"b"], some (.int 9223372036854775809), [([], none)], rfl, ?_, ?_⟩,
    ⟨[], [c!"a"], none, [([c!"b"], some (.int 9223372036854775809))], rfl, (fun a h => by cases h), .key⟩⟩
  · intro a h
    rw [List.mem_singleton] at h
    subst h
    exact ⟨_, rfl⟩
  · exact .range (p := [c!"b"]) 9223372036854775809 (by decide)

theorem tooLarge_bad (W : Wording) : FirstBad (docItems .json tooLarge) GoodItem (fun p i => SaysPlain W p i
    c!"integer out of range, allowed values must fit inside an i64, found: 9223372036854775808") :=
  ⟨[], [c!"a"], some (.int 9223372036854775808), [], rfl, (fun a h => by cases h), .range (p := [c!"a"]) 9223372036854775808 (by decide)⟩

/-- `rops encrypt` and `rops edit` with an integer that does not fit. -/
example (W : Wording) : ∃ P P' : Proc,
    P.messages W (P.run (.encrypt Toy.encryptLine) 0) =
      [c!"invalid decrypted map format: integer out of range, allowed values must fit inside an i64, found: 9223372036854775808",
       c!"integer out of range, allowed values must fit inside an i64, found: 9223372036854775808"] ∧
    P'.messages W (P'.run (.edit Toy.input) 7) =
      [c!"integer out of range, allowed values must fit inside an i64, found: 9223372036854775808"] := by
  let ed : List Attempt := [.left (.data (utf8 c!"{")) .key, .left (.data (utf8 (Toy.mapText tooLarge))) .key]
  obtain ⟨f, _, m', _, _, h1, hh, _, hr⟩ := Toy.encrypted ed
  obtain ⟨g, p, _, _, hg⟩ := Toy.decrypted hh hr
  exact ⟨Toy.proc Toy.rule (Toy.mapText tooLarge) [], Toy.proc Toy.rule (EncFile.toText Toy.jsonText Toy.env.C f) ed,
    (C70_encrypt (l := Toy.encryptLine) (x := .json) rfl (Toy.proc_config _ _) (by decide +kernel) (Toy.proc_input _ _ _)
      (Toy.jsonText_laws.parse_render tooLarge trivial) (tooLarge_bad W) 0).2,
    C70_edit (x := .json) (Toy.fresh _ _ _) (Toy.proc_config _ _) (by decide +kernel) (Toy.proc_input _ _ _) h1 hg rfl rfl
      (Toy.proc_editor _ _ _) (leftBehind tooLarge) (tooLarge_bad W) 7⟩

/-- `rops decrypt` for a file one of whose ciphertexts has lost its nonce. -/
example (W : Wording) : ∃ P : Proc, (P.run (.decrypt Toy.placeLine) 0).1 = [] ∧
    P.messages W (P.run (.decrypt Toy.placeLine) 0) =
      [c!"invalid encrypted map format; unable to parse encrypted value components: missing 'iv' (initialization vector) key-value pair",
       c!"unable to parse encrypted value components: missing 'iv' (initialization vector) key-value pair",
       c!"missing 'iv' (initialization vector) key-value pair"] := by
  obtain ⟨f, _, m', h0, _, _, hh, hw, hr⟩ := Toy.encrypted []
  let f' : EncFile Format.json :=
    { f with map := [(c!"b_plain", .leaf (.num (.posInt 1))),
                     (c!"a", .leaf (.str c!"ENC[AES256_GCM,data:AA==,tag:AAA=,type:str]"))] }
  have hf' : EncFile.ofText Toy.jsonText Toy.docOps Toy.env.C (EncFile.toText Toy.jsonText Toy.env.C f') = some f' :=
    C44_json Toy.docOps_laws Toy.jsonText_laws (f := f') (fun e he => by
      rcases List.mem_cons.1 he with rfl | he
      · decide
      · rw [List.mem_singleton] at he; subst he; decide) hw trivial
  have hset : f.metadata.partialEncryption = some (.unencryptedSuffix c!"_plain") := by
    obtain ⟨_, _, _, _, _, _, _, _, _, _, h6⟩ := Builder.encrypt_ok h0
    rw [h6]
    rfl
  have hmd := decryptMetadata_ok.2 ⟨_, _, hr, Toy.env_laws.cipher.decrypt_encrypt hh.mac, rfl⟩
  have hplain : ∀ p, Plain Toy.env.rx f.metadata.partialEncryption p ↔
      ((Resolved.ofConfig (some (.unencryptedSuffix c!"_plain"))).steps Toy.env.rx p).escape = true := by
    intro p
    rw [hset, Resolved.escape_steps_iff]
  refine ⟨Toy.proc Toy.rule (EncFile.toText Toy.jsonText Toy.env.C f') [],
    C70_decrypt (l := Toy.placeLine) (path := c!"a.json") (x := .json) rfl (by decide +kernel) (Toy.proc_config _ _)
      (Toy.proc_input _ _ _) hf' hmd ⟨[([c!"b_plain"], some (.int 1))], [c!"a"], _, [], rfl, ?_, .text ?_ ?_⟩ 0⟩
  · intro a ha
    rw [List.mem_singleton] at ha
    subst ha
    exact ⟨fun _ => ⟨.integer 1, 1, rfl, by decide⟩, fun h => absurd ((hplain [c!"b_plain"]).2 (by decide +kernel)) h⟩
  · exact fun h => absurd ((hplain [c!"a"]).1 h) (by decide +kernel)
  · exact (C70_value Toy.cipher W _ _).1 ⟨.missing .iv, by decide +kernel, by simp, rfl⟩

end Rops.Props
