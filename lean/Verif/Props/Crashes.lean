import Verif.Lemmas.CrashRuns
import Verif.Lemmas.Halts
import Verif.Lemmas.ArgCrashes
import Verif.Props.CommandLine
import Verif.Lemmas.ToyCli
/-!
# What crashes the program
-/

namespace Rops.Toy
open Spec

/-- A bad ARN. -/
def badArn : Str := c!"arn:aws:kms:eu-1:123:key/"

/-- A rule with a bad ARN. -/
def badRule : List (Str × Toml) :=
  [(c!"path_regex", .str c!"json"), (c!"integration_keys", .table [(c!"aws_kms", .array [.str (c!"p." ++ badArn)])])]

/-- An overlong text. -/
def overlong : Str := c!"ENC[AES256_GCM,data:3S1E,iv:AQIDBA==]"

/-- Metadata with the given MAC. -/
def macMetadata (mac : Str) : RMap JsonScalar :=
  [(c!"lastmodified", .leaf (.str c!"2024-02-29T12:34:56Z")), (c!"mac", .leaf (.str mac)), (c!"version", .null)]

/-- Metadata with the given ARN in its second unit. -/
def arnMetadata (arn : Str) : RMap JsonScalar :=
  let unit (arn : Str) : Json := .map [(c!"aws_profile", .leaf (.str c!"p")), (c!"arn", .leaf (.str arn)),
    (c!"created_at", .leaf (.str c!"2024-02-29T12:34:56Z")), (c!"enc", .leaf (.str c!"x"))]
  [(c!"kms", .seq [unit c!"arn:aws:kms:eu-1:123:key/a", unit arn]),
   (c!"lastmodified", .leaf (.str c!"2024-02-29T12:34:56Z")),
   (c!"mac", .leaf (.str c!"ENC[AES256_GCM,data:AQ==,iv:AQI=,tag:AQI=,type:str]"))]

/-- The syntax without infinite numbers. -/
def strictText : TextOps DocFormat.json where
  render := mapText
  parse s := match jsonText.parse s with
    | none => none
    | some d => match Format.json.toInternal d with
      | .ok m => if (Format.json.ofInternal m).isSome then some d else none
      | .error _ => some d

theorem strict_finite : FiniteTexts strictText := by
  intro s d m h hm
  simp only [strictText] at h
  split at h
  · cases h
  · split at h
    · rename_i m' hm'
      split at h
      · rename_i hs
        cases h
        rw [hm'] at hm
        cases hm
        exact Classical.byContradiction fun hn => by
          rw [(Props.C28_json_panics m).2 hn] at hs
          cases hs
      · cases h
    · rename_i e he
      cases h
      rw [he] at hm
      cases hm

theorem age_calm : Calm env.toKeyEnv := by
  refine ⟨fun r d i h => by simp [env, age] at h, fun k t h => ?_, fun c k d i h => by simp [env, kms] at h,
    fun c k b h => ?_⟩
  rotate_left
  · simp only [env, kms] at h
    split at h <;> cases h
  simp only [env, age] at h
  split at h
  · cases h
  · split at h <;> cases h

/-- The process with this syntax. -/
def strictProc (rule : List (Str × Toml)) (content : Str) (editor : List Attempt) : Proc :=
  { proc rule content editor with
    T := fun
      | .json => strictText
      | x => texts rule x }

end Rops.Toy

namespace Rops.Props
open Spec

/-! ## C63: crashes -/

/-- Reading metadata panics only because of an overlong MAC or a bad ARN in it. -/
theorem C63_metadata_causes {O : DocOps} (hA : O.arn.Lawful) {C : Cipher} (hC : C.Lawful) {md : RMap JsonScalar}
    (h : metadataHalt O C md = some .panic) : BadMetadata O C md := by
  unfold metadataHalt at h
  rw [andThen_eq_some, andThen_eq_some] at h
  rcases h with h | ⟨_, h | ⟨_, h⟩⟩
  · obtain ⟨n, v, read, hm, hr, hv⟩ := fieldsHalt_panic h
    simp only [metadataFields] at hr
    split at hr
    · cases hr
      obtain ⟨_, _, hv⟩ := textHalt_panic.1 hv
      exact absurd hv unless_ne_panic
    · split at hr
      · rename_i hn
        cases hr
        obtain ⟨t, rfl, hv⟩ := textHalt_panic.1 hv
        subst hn
        exact .inl ⟨t, hm, (C55_enc_text_panics_iff C hC t).1 (ofEnc_eq_panic.1 hv)⟩
      · split at hr
        · cases hr
          simp only at hv
          split at hv <;> cases hv
        · cases hr
  · exact absurd h requiredHalt_ne_panic
  · obtain ⟨n, v, read, hm, hr, hv⟩ := fieldsHalt_panic h
    simp only [integrationFields] at hr
    split at hr
    · rename_i hn
      cases hr
      obtain ⟨l, rfl, w, hw, hv⟩ := listHalt_panic hv
      obtain ⟨u, rfl, hu⟩ := mapHalt_panic.1 hv
      obtain ⟨_, t, ht, hb⟩ := unit_panic hA hu
      subst hn
      exact .inr ⟨l, u, t, hm, hw, ht, hb⟩
    · split at hr
      · cases hr
        obtain ⟨l, rfl, w, hw, hv⟩ := listHalt_panic hv
        obtain ⟨u, rfl, hu⟩ := mapHalt_panic.1 hv
        obtain ⟨hk, _⟩ := unit_panic hA hu
        cases hk
      · cases hr

example : BadMetadata Toy.docOps Toy.cipher (Toy.macMetadata Toy.overlong) :=
  C63_metadata_causes Toy.arns_lawful Toy.cipher_lawful (by decide +kernel)

/-- Reading a configuration panics only because of a bad ARN in a rule. -/
theorem C63_config_causes {O : DocOps} (hA : O.arn.Lawful) {d : RMap JsonScalar} (h : configHalt O d = some .panic) :
    BadConfig O d := by
  obtain ⟨a, l, r, l', b, rfl, -, -, hr⟩ := (config_panic_iff hA).1 h
  have hk : ∀ keys, KeysPanic O keys → ∃ ks profile arn, FieldOf c!"aws_kms" 1 (.seq ks) keys ∧
      .leaf (.str (profile ++ '.' :: arn)) ∈ ks ∧ '.' ∉ profile ∧ BadArn O.arn arn := by
    rintro keys (⟨_, w, _, rfl, -, -, hw⟩ | ⟨_, w, _, rfl, -, hw⟩)
    all_goals
      obtain ⟨k, profile, arn, k', rfl, -, hp, hb⟩ := hw
      exact ⟨k ++ isText (profile ++ '.' :: arn) :: k', profile, arn, by simp [FieldOf], List.mem_append_right _ List.mem_cons_self, hp, hb⟩
  rcases hr with ⟨_, keys, _, rfl, -, -, hkeys⟩ | ⟨_, _, _, _, _, keys, _, rfl, -, -, hkeys⟩
  all_goals
    obtain ⟨ks, profile, arn, h1, h2, hp, hb⟩ := hk _ hkeys
    exact ⟨_, _, keys, ks, profile, arn, List.mem_append_right _ List.mem_cons_self,
      List.mem_append_right _ List.mem_cons_self, by simp [FieldOf], h1, h2, hp, hb⟩

example : BadConfig Toy.docOps (Toml.mapToDoc (Toy.configDoc Toy.badRule)) :=
  C63_config_causes Toy.arns_lawful (by decide +kernel)

/-- Metadata that can be read panics when it is read with its MAC replaced by an overlong
text. -/
theorem C63_overlong_mac (O : DocOps) {C : Cipher} (hC : C.Lawful) (A B : RMap JsonScalar) (v : Json) (t : Str)
    (hok : (Metadata.ofDoc O (fun s => (EncValue.parse C s).toOption) (A ++ (c!"mac", v) :: B)).isSome)
    (ht : Overlong C t) : metadataHalt O C (A ++ (c!"mac", .leaf (.str t)) :: B) = some .panic := by
  rw [← metadata_agrees] at hok
  unfold metadataHalt at hok ⊢
  rw [andThen_eq_none] at hok
  rw [andThen_eq_some]
  left
  refine fieldsHalt_replace (read := textHalt fun s => Halt.ofEnc (EncValue.parse C s)) rfl ?_ hok.1
  exact textHalt_panic.2 ⟨t, rfl, ofEnc_eq_panic.2 ((C55_enc_text_panics_iff C hC t).2 ht)⟩

example : metadataHalt Toy.docOps Toy.cipher (Toy.macMetadata Toy.overlong) = some .panic :=
  C63_overlong_mac Toy.docOps Toy.cipher_lawful [(c!"lastmodified", .leaf (.str c!"2024-02-29T12:34:56Z"))]
    [(c!"version", .null)] (.leaf (.str c!"ENC[AES256_GCM,data:AQ==,iv:AQI=,tag:AQI=,type:str]")) Toy.overlong
    (by decide +kernel) ((C55_enc_text_panics_iff Toy.cipher Toy.cipher_lawful _).1 (by decide +kernel))

/-- Metadata that can be read panics when it is read with the ARN of a unit replaced by a bad
one. -/
theorem C63_bad_arn {O : DocOps} (hA : O.arn.Lawful) (C : Cipher) (A B : RMap JsonScalar) (L M : List Json)
    (U V : RMap JsonScalar) (v : Json) (t : Str)
    (hok : (Metadata.ofDoc O (fun s => (EncValue.parse C s).toOption)
      (A ++ (c!"kms", .seq (L ++ .map (U ++ (c!"arn", v) :: V) :: M)) :: B)).isSome)
    (ht : BadArn O.arn t) :
    metadataHalt O C (A ++ (c!"kms", .seq (L ++ .map (U ++ (c!"arn", .leaf (.str t)) :: V) :: M)) :: B) = some .panic := by
  rw [← metadata_agrees] at hok
  unfold metadataHalt at hok ⊢
  rw [andThen_eq_none, andThen_eq_none] at hok
  obtain ⟨h1, h2, h3⟩ := hok
  have hl := fieldsHalt_mem h3 (k := c!"kms") (v := .seq (L ++ .map (U ++ (c!"arn", v) :: V) :: M)) (by simp) rfl
  obtain ⟨l, hl1, hl2⟩ := listHalt_none.1 hl
  cases hl1
  have hu := hl2 (.map (U ++ (c!"arn", v) :: V)) (by simp)
  have hu : unitHalt O .kms (U ++ (c!"arn", v) :: V) = none := hu
  unfold unitHalt at hu
  rw [andThen_eq_none, andThen_eq_none, andThen_eq_none] at hu
  rw [andThen_eq_some, andThen_eq_some]
  right
  refine ⟨(fieldsHalt_other _ _ rfl).trans h1, .inr ⟨(requiredHalt_other _ _).trans h2, ?_⟩⟩
  refine fieldsHalt_replace (read := listHalt (mapHalt (unitHalt O .kms))) rfl ?_ h3
  show seqHalt _ _ = _
  refine seqHalt_replace (v' := .map (U ++ (c!"arn", v) :: V)) ?_ (seqHalt_none.2 hl2)
  show unitHalt O .kms _ = _
  unfold unitHalt
  rw [andThen_eq_some, andThen_eq_some, andThen_eq_some]
  refine .inr ⟨(fieldsHalt_other _ _ rfl).trans hu.1, .inr ⟨(requiredHalt_other _ _).trans hu.2.1, .inl ?_⟩⟩
  refine fieldsHalt_replace (read := textHalt fun s => Halt.ofKey (KeyArn.parse O.arn s)) rfl ?_ hu.2.2.1
  exact textHalt_panic.2 ⟨t, rfl, ofKey_eq_panic.2 ((C55_arn_panics_iff hA t).2 ht)⟩

example : metadataHalt Toy.docOps Toy.cipher (Toy.arnMetadata Toy.badArn) = some .panic :=
  C63_bad_arn Toy.arns_lawful Toy.cipher [] _ [_] [] [_] _ (.leaf (.str c!"arn:aws:kms:eu-1:123:key/b")) Toy.badArn
    (by decide +kernel) ((C55_arn_panics_iff Toy.arns_lawful _).1 (by decide +kernel))

/-- A configuration that can be read panics when it is read with the ARN of a key replaced by
a bad one. -/
theorem C63_bad_config {O : DocOps} (hA : O.arn.Lawful) (A B : RMap JsonScalar) (L M : List Json) (R S : RMap JsonScalar)
    (U V : RMap JsonScalar) (K K' : List Json) (v : Json) (profile arn : Str)
    (hok : (Config.ofDoc O (A ++ (c!"creation_rules", .seq (L ++ .map (R ++ (c!"integration_keys",
      .map (U ++ (c!"aws_kms", .seq (K ++ v :: K')) :: V)) :: S) :: M)) :: B)).isSome)
    (hp : '.' ∉ profile) (hb : BadArn O.arn arn) :
    configHalt O (A ++ (c!"creation_rules", .seq (L ++ .map (R ++ (c!"integration_keys",
      .map (U ++ (c!"aws_kms", .seq (K ++ .leaf (.str (profile ++ '.' :: arn)) :: K')) :: V)) :: S) :: M)) :: B) =
      some .panic := by
  rw [← config_agrees] at hok
  unfold configHalt at hok ⊢
  rw [andThen_eq_none] at hok
  rw [andThen_eq_some]
  left
  have hl := fieldsHalt_mem hok.1 (k := c!"creation_rules") (v := .seq (L ++ .map (R ++ (c!"integration_keys",
      .map (U ++ (c!"aws_kms", .seq (K ++ v :: K')) :: V)) :: S) :: M)) (by simp) rfl
  obtain ⟨l, hl1, hl2⟩ := listHalt_none.1 hl
  cases hl1
  have hr := hl2 (.map (R ++ (c!"integration_keys", .map (U ++ (c!"aws_kms", .seq (K ++ v :: K')) :: V)) :: S)) (by simp)
  have hr : ruleHalt O (R ++ (c!"integration_keys", .map (U ++ (c!"aws_kms", .seq (K ++ v :: K')) :: V)) :: S) = none := hr
  unfold ruleHalt at hr
  rw [andThen_eq_none] at hr
  have hk := fieldsHalt_mem hr.1 (k := c!"integration_keys") (v := .map (U ++ (c!"aws_kms", .seq (K ++ v :: K')) :: V))
    (by simp) rfl
  have hk : fieldsHalt (keysFields O) [] (U ++ (c!"aws_kms", .seq (K ++ v :: K')) :: V) = none := hk
  have hs := fieldsHalt_mem hk (k := c!"aws_kms") (v := .seq (K ++ v :: K')) (by simp) rfl
  have hs : seqHalt (textHalt fun s => Halt.ofKey (AwsKeyId.parse O.arn s)) (K ++ v :: K') = none := hs
  refine fieldsHalt_replace (read := listHalt (structHalt (ruleHalt O) (ruleArrayHalt O))) rfl ?_ hok.1
  show seqHalt _ _ = _
  refine seqHalt_replace ?_ (seqHalt_none.2 hl2)
  show ruleHalt O _ = _
  unfold ruleHalt
  rw [andThen_eq_some]
  left
  refine fieldsHalt_replace (read := keysHalt O) rfl ?_ hr.1
  show fieldsHalt (keysFields O) [] _ = _
  refine fieldsHalt_replace (read := kmsKeysHalt O) rfl ?_ hk
  show seqHalt _ _ = _
  refine seqHalt_replace ?_ hs
  exact textHalt_panic.2 ⟨_, rfl, ofKey_eq_panic.2 ((awsKeyId_panics_iff hA).2 ⟨profile, arn, rfl, hp, hb⟩)⟩

example : configHalt Toy.docOps (Toml.mapToDoc (Toy.configDoc Toy.badRule)) = some .panic :=
  C63_bad_config Toy.arns_lawful [] [] [] [] [_] [] [] [] [] [] (.leaf (.str c!"p.arn:aws:kms:eu-1:123:key/b")) c!"p"
    Toy.badArn (by decide +kernel) (by decide) ((C55_arn_panics_iff Toy.arns_lawful _).1 (by decide +kernel))

/-- Every command crashes without any effect if the configuration it finds panics when it is
read, also if it does not use a configuration. -/
theorem C63_config_crash (P : Proc) (dir : List Str) (hd : P.cwd = some dir) (c : Command) (i : Nat)
    (hc : c.accepted = true) (p s : Str) (b : Bytes)
    (hp : c.configPath.or (P.configVar.or (((ancestors dir).map configPath).find? fun p => P.file p ≠ .missing)) = some p)
    (hb : P.file p = .data b) (hu : utf8? b = some s) (ht : Config.textPanics (P.T .toml) P.O s = true) :
    P.run c i = ([], .error .panic) := by
  unfold Proc.run
  rw [if_pos hc, C42_lookup P dir hd, hp]
  simp only [Proc.readConfig, Proc.readFile, hb, hu, configPanics_none ht, ht, if_true]

example (content : Str) (ed : List Attempt) :
    (Toy.proc Toy.badRule content ed).run (.addKeys { keys := { age := [], kms := [] }, format := none, file := c!"a.json" }) 0
      = ([], .error .panic) :=
  C63_config_crash _ [c!"w"] rfl _ 0 rfl c!"/.rops.toml" c!"config" (utf8 c!"config") (by rfl) rfl
    (utf8?_utf8 _) (show Config.textPanics (Toy.texts Toy.badRule .toml) Toy.docOps c!"config" = true by decide +kernel)

/-- Every command that reads an encrypted file crashes without any effect if the file panics
when it is read. -/
theorem C63_input_crash (P : Proc) (c : Command) (i : Nat) (hc : c.accepted = true) (config : Config)
    (hcfg : P.retrieveConfig c.configPath = .ok config) (hne : ∀ l, c ≠ .encrypt l) (x : Fmt)
    (hx : getFormat (opens c) (givenFormat c) = .ok x) (s : Str) (hs : InputText P (opens c) s)
    (ht : EncFile.textPanics (P.T x) P.O P.env.C s = true) : P.run c i = ([], .error .panic) :=
  run_parseFile_error hc hcfg hne hx hs (parseFile_panics ht)

example (ed : List Attempt) :
    (Toy.proc Toy.rule (Toy.mapText [(c!"a", .null), (c!"sops", .map (Toy.macMetadata Toy.overlong))]) ed).run
      (.edit Toy.input) 0 = ([], .error .panic) :=
  C63_input_crash _ _ 0 rfl [Toy.creationRule] (Toy.proc_config _ _) nofun .json (by decide +kernel) _ (Toy.proc_input _ _ _)
    (show EncFile.textPanics Toy.jsonText Toy.docOps Toy.cipher
      (Toy.mapText [(c!"a", .null), (c!"sops", .map (Toy.macMetadata Toy.overlong))]) = true by decide +kernel)

/-- Reading a text panics only because of the metadata found first in it. -/
theorem C63_file_causes {P : Proc} (hA : P.O.arn.Lawful) (hC : P.env.C.Lawful) {x : Fmt} {s : Str}
    (h : EncFile.textPanics (P.T x) P.O P.env.C s = true) :
    ∃ d md, (P.T x).parse s = some d ∧ x.doc.firstSops d = some md ∧ MetadataPanics P.O P.env.C md := by
  unfold EncFile.textPanics at h
  split at h
  · rename_i d hd
    unfold EncFile.docPanics at h
    split at h
    · rename_i md hm
      exact ⟨d, md, hd, hm, (metadata_panic_iff hA hC).1 (beq_iff_eq.1 h)⟩
    · cases h
  · cases h

example (s : Str) (hs : s = Toy.mapText [(c!"a", .null), (c!"sops", .map (Toy.arnMetadata Toy.badArn))]) :
    ∃ d md, Toy.jsonText.parse s = some d ∧ Json.firstSops d = some md ∧ MetadataPanics Toy.docOps Toy.cipher md :=
  have h : EncFile.textPanics Toy.jsonText Toy.docOps Toy.cipher s = true := by subst hs; decide +kernel
  C63_file_causes (P := Toy.proc Toy.rule [] []) (x := .json) Toy.arns_lawful Toy.cipher_lawful h

/-- Provided age never panics and JSON texts hold finite numbers, the program crashes only
because of the configuration it finds, or, unless it encrypts, because of the encrypted file it
reads, and has then done nothing; or, if it edits, because of how it looks for the editor or talks to
the user, and has then only made and deleted its temporary file; or because standard output fails
when it prints. -/
theorem C63_crashes (P : Proc) (hA : Calm P.env.toKeyEnv) (hT : FiniteTexts (P.T .json)) (hO : P.O.arn.Lawful)
    (hC : P.env.C.Lawful) (c : Command) (i : Nat) (es : List Event) (e : CliError) (h : P.run c i = (es, .error e))
    (hc : Crash e) :
    (es = [] ∧ ∃ p b s d v, ConfigChosen P c p ∧ P.file p = .data b ∧ utf8? b = some s ∧ (P.T .toml).parse s = some d ∧
        SeenTomlMap d v ∧ ConfigPanics P.O v) ∨
    (es = [] ∧ (∀ l, c ≠ .encrypt l) ∧ ∃ x s, getFormat (opens c) (givenFormat c) = .ok x ∧ InputText P (opens c) s ∧
        ((∃ d md, (P.T x).parse s = some d ∧ x.doc.firstSops d = some md ∧ MetadataPanics P.O P.env.C md) ∨
          ∃ f e, EncFile.ofText (P.T x) P.O P.env.C s = some f ∧ f.decrypt x.doc.F P.env = .error e ∧ Panics e)) ∨
    (Between P es ∧ ∃ a x, c = .edit a ∧ getFormat a.file a.format = .ok x ∧ EditorCrash P x) ∨
    (∃ n es' t, P.stdout = some n ∧ es = es' ++ [.print (t.take n)] ∧
        Proc.run { P with stdout := none } c i = (es' ++ [.print t], .ok ())) := by
  have key : ∀ Q : Proc, Q = { P with stdout := none } → Q.run c i = (es, .error e) → _ := fun Q hQ hr =>
    run_crash (P := Q) (by rw [hQ]; exact hA) (by rw [hQ]; exact hT) (by rw [hQ]) hr hc
  have hr : Proc.run { P with stdout := none } c i = (es, .error e) ∨ ∃ n es' t, P.stdout = some n ∧
      es = es' ++ [.print (t.take n)] ∧ Proc.run { P with stdout := none } c i = (es' ++ [.print t], .ok ()) := by
    cases hs : P.stdout with
    | none =>
      left
      rw [show ({ P with stdout := none } : Proc) = P by cases P; cases hs; rfl]
      exact h
    | some n =>
      rcases run_cut hs c i with h' | ⟨es', t, h1, h2⟩
      · exact .inl (h'.symm.trans h)
      · rw [h] at h2
        simp only [Prod.mk.injEq] at h2
        exact .inr ⟨n, es', t, rfl, h2.1, h1⟩
  rcases hr with hr | hr
  · rcases key _ rfl hr with ⟨h0, ⟨p, b, s, h1, h2, h3, h4, _⟩ | ⟨h1, x, s, h2, h3, h4⟩⟩ | ⟨a, x, h1, h2, h3, h4⟩
    · left
      unfold Config.textPanics at h4
      split at h4
      · rename_i d hd
        exact ⟨h0, p, b, s, d, _, h1, h2, h3, hd, (seenTomlMap_iff d _).1 rfl, (config_panic_iff hO).1 (beq_iff_eq.1 h4)⟩
      · cases h4
    · rcases h4 with h4 | h4
      · exact .inr (.inl ⟨h0, h1, x, s, h2, h3, .inl (C63_file_causes hO hC h4)⟩)
      · exact .inr (.inl ⟨h0, h1, x, s, h2, h3, .inr h4⟩)
    · exact .inr (.inr (.inl ⟨h3, a, x, h1, h2, h4⟩))
  · exact .inr (.inr (.inr hr))

/-- A crash of encrypting in place has had no effect. -/
example (content : Str) (ed : List Attempt) (l : EncryptLine) (i : Nat) (es : List Event) (e : CliError)
    (h : (Toy.strictProc Toy.badRule content ed).run (.encrypt l) i = (es, .error e)) (hc : Crash e) : es = [] := by
  rcases C63_crashes _ Toy.age_calm Toy.strict_finite Toy.arns_lawful Toy.cipher_lawful _ i es e h hc with
    h | ⟨h, _⟩ | ⟨_, _, _, h, _⟩ | ⟨n, _, _, h, _⟩
  · exact h.1
  · exact h
  · cases h
  · cases h

/-- `rops edit` does crash if the file opens and the variable EDITOR has no word in it, or the path
of the editor found is not UTF-8, or interrupts cannot be handled, or there is no standard error for
the message about a text that cannot be parsed. The secrets have been in the temporary file, which
is gone. -/
theorem C63_editor (P : Proc) (hfresh : FreshTemp P) (a : InputArgs) (i : Nat) (config : Config)
    (hc : P.retrieveConfig a.config = .ok config) (x : Fmt) (hx : getFormat a.file a.format = .ok x) (s : Str)
    (hs : InputText P a.file s) (f : EncFile x.doc.F) (hf : EncFile.ofText (P.T x) P.O P.env.C s = some f)
    (g : DecFile x.doc.F) (p : SavedParameters) (hg : f.decryptAndSave x.doc.F P.env = .ok (g, p)) (t : Str)
    (ht : P.temp = some t) (hw : P.saves t (utf8 ((P.T x).render g.map)) = .done)
    (hcrash : (∃ b s, P.editorVar = some b ∧ utf8? b = some s ∧ P.shlex s = some []) ∨
      (P.editorVar = none ∧ ∃ b, fallback P = some b ∧ utf8? b = none) ∨
      (P.handlerSet = false ∧ EditorReady { P with handlerSet := true }) ∨
      (EditorReady P ∧ Unheard (P.T x).parse P.editor)) :
    ∃ es, P.run (.edit a) i = (.create t :: .write t (utf8 ((P.T x).render g.map)) .done :: es, .error .panic) ∧
      filesAfter P.file (P.run (.edit a) i).1 = P.file := by
  have hloop : ∀ l, Unheard (P.T x).parse l → (P.editLoop x t l).2 = .error .panic := by
    intro l hl
    induction hl with
    | now hu hp => simp only [Proc.editLoop, hu, hp]
    | again hu hp _ ih => simp only [Proc.editLoop, hu, hp]; exact ih
  have htemp : (P.editTemp x t).2 = .error .panic := by
    unfold Proc.editTemp
    rcases hcrash with ⟨b, s, h1, h2, h3⟩ | ⟨h1, b, h2, h3⟩ | ⟨h1, h2⟩ | ⟨h1, h2⟩
    · have : P.selectEditor = .error .panic := by
        unfold Proc.selectEditor
        simp only [h1, h2, h3]
      rw [this]
    · have : P.selectEditor = .error .panic := by
        unfold Proc.selectEditor
        rw [findSome_or, show List.findSome? P.which [c!"vim", c!"nano", c!"vi"] = fallback P from rfl]
        simp only [h1, h2, h3]
      rw [this]
    · obtain ⟨⟨r, hr⟩, _⟩ := selectEditor_ok.1 h2
      have hr : P.selectEditor = .ok r := hr
      rw [hr]
      simp only [h1]
      rfl
    · obtain ⟨⟨r, hr⟩, hh⟩ := selectEditor_ok.1 h1
      rw [hr]
      simp only [hh, if_true]
      exact hloop _ h2
  have hsess : ∃ es, P.editSession x g.map = (.create t :: .write t (utf8 ((P.T x).render g.map)) .done :: es, .error .panic) := by
    unfold Proc.editSession
    simp only [ht, Proc.write, hw, if_true]
    cases he : P.editTemp x t with
    | mk es res =>
      rw [he] at htemp
      simp only at htemp
      subst htemp
      exact ⟨es ++ [.delete t], rfl⟩
  obtain ⟨es, hes⟩ := hsess
  have hrun := run_edit_error (i := i) hc hx hs hf hg hes
  refine ⟨es, hrun, ?_⟩
  rw [hrun]
  rcases editSession_shape hes with ⟨h, _⟩ | ⟨_, h⟩
  · exact h.files hfresh
  · cases h

/-- With an empty variable EDITOR. -/
example : ∃ P : Proc, P.editorVar = some [] ∧ (P.run (.edit Toy.input) 7).2 = .error .panic ∧
    filesAfter P.file (P.run (.edit Toy.input) 7).1 = P.file := by
  obtain ⟨f, _, m', _, _, h1, hh, _, hr⟩ := Toy.encrypted []
  obtain ⟨g, p, _, _, hg⟩ := Toy.decrypted hh hr
  obtain ⟨es, h, h'⟩ := C63_editor { Toy.proc Toy.rule (EncFile.toText Toy.jsonText Toy.env.C f) [] with editorVar := some [] }
    (Toy.fresh Toy.rule (EncFile.toText Toy.jsonText Toy.env.C f) []) Toy.input 7 _ (Toy.proc_config (EncFile.toText Toy.jsonText Toy.env.C f) []) .json (by decide +kernel) _
    (Toy.proc_input Toy.rule _ []) f h1 g p hg c!"/tmp/t" rfl rfl (.inl ⟨[], [], rfl, rfl, rfl⟩)
  exact ⟨_, rfl, by rw [h], h'⟩

/-- A file that the program has made never makes it crash, whoever opens it and whatever the
command, also if the command fails, provided that standard output works and, for editing, that the
editor and the terminal do. -/
theorem C63_own_files (P : Proc) (he : EnvLaws P.env) (hA : Calm P.env.toKeyEnv) (hT : FiniteTexts (P.T .json))
    (hout : P.stdout = none) (c : Command)
    (i : Nat) (config : Config) (hcfg : P.retrieveConfig c.configPath = .ok config) (x : Fmt)
    (hx : getFormat (opens c) (givenFormat c) = .ok x) (hed : ∀ a, c = .edit a → ¬ EditorCrash P x) (s : Str) (hs : InputText P (opens c) s) (f : EncFile x.doc.F)
    (hf : EncFile.ofText (P.T x) P.O P.env.C s = some f) (key : Bytes) (m : RMap Value) (m' : RMap EncLeaf)
    (h : Holding P.env (docRep x) f key m m') (es : List Event) (e : CliError) (hr : P.run c i = (es, .error e)) :
    ¬ Crash e := by
  intro hc
  rcases run_crash hA hT hout hr hc with ⟨_, ⟨p, b, s', _, _, _, _, h5⟩ | ⟨_, x', s', h2, h3, h4⟩⟩ | ⟨a, x', h1, h2, _, h3⟩
  · rw [hcfg] at h5
    cases h5
  · rw [hx] at h2
    cases h2
    have := Rops.inputText_unique hs h3
    subst this
    rcases h4 with h4 | ⟨f', e', h4, h5, h6⟩
    · rw [textPanics_none h4] at hf
      cases hf
    · rw [hf] at h4
      cases h4
      cases hd : P.env.retrieveDataKey f.metadata with
      | ok d =>
        obtain ⟨g, hg, _⟩ := decrypt_of_holding he (docRep_lawful x) h h.fits.holds hd
        rw [hg] at h5
        cases h5
      | error er =>
        rcases (C55_decrypt_panics_iff he f).1 ⟨e', h5, h6⟩ with h | ⟨_, _, h, _⟩
        · exact retrieveDataKey_calm hA _ h
        · rw [hd] at h
          cases h
  · subst h1
    cases hx.symm.trans h2
    exact hed a rfl h3

example (c : Command) (hc : c = .edit Toy.input ∨ c = .refresh Toy.placeLine) (i : Nat) :
    ∃ f j, Toy.smallBuilder.encrypt Toy.env 0 = .ok (f, j) ∧ ∀ es e,
      (Toy.strictProc Toy.rule (EncFile.toText Toy.jsonText Toy.env.C f) [.failed]).run c i = (es, .error e) → ¬ Crash e := by
  obtain ⟨f, j, m', h1, _, h2, h3, _⟩ := Toy.encrypted []
  refine ⟨f, j, h1, fun es e hr => ?_⟩
  have hk : (match Toy.smallBuilder.encrypt Toy.env 0 with
    | .ok (f, _) => (Toy.strictText.parse (EncFile.toText Toy.jsonText Toy.env.C f)).isSome
    | .error _ => false) = true := by decide +kernel
  rw [h1] at hk
  have hf : EncFile.ofText Toy.strictText Toy.docOps Toy.env.C (EncFile.toText Toy.jsonText Toy.env.C f) = some f := by
    rw [← h2]
    unfold EncFile.ofText
    simp only [Toy.strictText] at hk ⊢
    split at hk
    · cases hk
    · rename_i d hd
      rw [hd]
      split at hk
      · split at hk
        · rename_i hs
          simp only [hs, if_true]
        · cases hk
      · simp only
  refine C63_own_files _ Toy.env_laws Toy.age_calm Toy.strict_finite rfl c i [Toy.creationRule] ?_ .json ?_ ?_ _
    ?_ f hf _ _ m' h3 es e hr
  · rcases hc with rfl | rfl <;> exact Toy.proc_config [] []
  · rcases hc with rfl | rfl <;> decide +kernel
  · rintro _ _ (⟨b, s, h, h', h''⟩ | ⟨h, _⟩ | h | h)
    · cases h
      rw [show utf8? (utf8 c!"ed") = some c!"ed" from utf8?_utf8 _] at h'
      cases h'
      cases h''
    · cases h
    · cases h
    · cases h
  · rcases hc with rfl | rfl <;> exact Toy.proc_input Toy.rule _ [.failed]

/-- A command line panics only because of a bad ARN in a key of AWS KMS given to a command that
takes keys. -/
theorem C63_command_line_causes {O : DocOps} (hA : O.arn.Lawful) {argv : List Str}
    (h : parseArgs O argv = .error .panic) :
    ∃ c pre given rest profile arn, argv = c ++ pre ++ given ++ rest ∧ WithKeys c ∧
      KmsWords (profile ++ '.' :: arn) given ∧ '.' ∉ profile ∧ BadArn O.arn arn := by
  have key : ∀ {args : List Arg} {ws : List Str} {c : List Str}, WithKeys c →
      Matches.empty.words O args none ws = .error .panic →
      ∃ pre given rest profile arn, c ++ ws = c ++ pre ++ given ++ rest ∧
        KmsWords (profile ++ '.' :: arn) given ∧ '.' ∉ profile ∧ BadArn O.arn arn := by
    intro args ws c _ h
    rcases words_panic h with ⟨h0, _⟩ | ⟨_, pre, given, rest, v, rfl, hg, hv⟩
    · cases h0
    · obtain ⟨profile, arn, rfl, hp, hb⟩ := (awsKeyId_panics_iff hA).1 hv
      exact ⟨pre, given, rest, profile, arn, by simp, hg, hp, hb⟩
  have hplace : ∀ ws, placeCommand O ws ≠ .error .panic := by
    intro ws h
    unfold placeCommand at h
    split at h
    · rename_i he
      cases h
      rcases words_panic he with ⟨h0, _⟩ | ⟨hm, _⟩
      · cases h0
      · exact absurd hm (by decide)
    · cases h
  have hedit : ∀ ws, editCommand O ws ≠ .error .panic := by
    intro ws h
    unfold editCommand at h
    split at h
    · rename_i he
      cases h
      rcases words_panic he with ⟨h0, _⟩ | ⟨hm, _⟩
      · cases h0
      · exact absurd hm (by decide)
    · cases h
  have hkeys : ∀ {ws}, keysCommand O ws = .error .panic → Matches.empty.words O keyOptions none ws = .error .panic := by
    intro ws h
    unfold keysCommand at h
    split at h
    · rename_i he; cases h; exact he
    · split at h <;> cases h
  have hnot : ∀ w, notSubcommand w ≠ .panic := by
    intro w h
    unfold notSubcommand at h
    split at h
    · cases h
    · split at h <;> cases h
  have hmap : ∀ {α β : Type} {x : Except Stop α} {f : α → β}, x.map f = .error .panic → x = .error .panic := by
    intro α β x f h
    cases x with
    | ok a => cases h
    | error e => cases h; rfl
  cases argv with
  | nil => cases h
  | cons w ws =>
    simp only [parseArgs] at h
    split at h
    · rename_i hw
      have hc : WithKeys [w] := by rcases hw with rfl | rfl <;> simp [WithKeys]
      unfold encryptCommand at h
      split at h
      · rename_i he
        cases h
        exact ⟨[w], key hc he |>.imp fun _ h => h.imp fun _ h => h.imp fun _ h => h.imp fun _ h => h.imp fun _ h =>
          ⟨h.1, hc, h.2⟩⟩
      · split at h
        · rename_i he
          cases h
          unfold SettingArgs.single at he
          split at he <;> cases he
        · cases h
    split at h
    · exact absurd (hmap h) (hplace _)
    split at h
    · exact absurd (hmap h) (hedit _)
    split at h
    · rename_i hw
      cases ws with
      | nil => cases h
      | cons a ws =>
        have fin (ha : a = c!"add" ∨ a = c!"remove") (hk : keysCommand O ws = .error .panic) :
            ∃ c pre given rest profile arn, w :: a :: ws = c ++ pre ++ given ++ rest ∧ WithKeys c ∧
              KmsWords (profile ++ '.' :: arn) given ∧ '.' ∉ profile ∧ BadArn O.arn arn :=
          have hc : WithKeys [w, a] := .inr (.inr ⟨w, a, rfl, hw, ha⟩)
          ⟨[w, a], key hc (hkeys hk) |>.imp fun _ h => h.imp fun _ h => h.imp fun _ h => h.imp fun _ h => h.imp fun _ h =>
            ⟨h.1, hc, h.2⟩⟩
        simp only [parseKeys] at h
        split at h
        · rename_i ha; exact fin (.inl ha) (hmap h)
        split at h
        · rename_i ha; exact fin (.inr ha) (hmap h)
        · cases hn : notSubcommand a with
          | panic => exact absurd hn (hnot a)
          | help => rw [hn] at h; cases h
          | usage => rw [hn] at h; cases h
    split at h
    · exact absurd (hmap h) (hplace _)
    · cases hn : notSubcommand w with
      | panic => exact absurd hn (hnot w)
      | help => rw [hn] at h; cases h
      | usage => rw [hn] at h; cases h

/-- Such a key does crash the program, whatever follows it, before it has done anything. -/
theorem C63_command_line (P : Proc) (hA : P.O.arn.Lawful) (helpText : Str) {c given : List Str} (hc : WithKeys c)
    {profile arn : Str} (hg : KmsWords (profile ++ '.' :: arn) given) (hd : profile.head? ≠ some '-') (hp : '.' ∉ profile)
    (hb : BadArn P.O.arn arn) (rest : List Str) (i : Nat) :
    P.main helpText (c ++ given ++ rest) i = ([], .error .panic) := by
  have hv := (awsKeyId_panics_iff hA).2 ⟨profile, arn, rfl, hp, hb⟩
  have hw : ∀ args, Arg.awsKms ∈ args → Matches.empty.words P.O args none (given ++ rest) = .error .panic :=
    fun args hm => words_panics _ hm hg (fun _ => .inr (by
      intro r hr
      cases profile with
      | nil => cases hr
      | cons x xs => cases hr; exact hd rfl)) hv rest
  have hm : parseArgs P.O (c ++ given ++ rest) = .error .panic := by
    rcases hc with rfl | rfl | ⟨k, a, rfl, hk, ha⟩
    · simp [parseArgs, encryptCommand, hw encryptOptions (by decide)]
    · simp [parseArgs, encryptCommand, hw encryptOptions (by decide)]
    · have : keysCommand P.O (given ++ rest) = .error .panic := by
        simp [keysCommand, hw keyOptions (by decide)]
      rcases hk with rfl | rfl <;> rcases ha with rfl | rfl <;>
        simp [parseArgs, parseKeys, this, Except.map]
  unfold Proc.main
  rw [hm]

example (ed : List Attempt) (rest : List Str) :
    (Toy.proc Toy.rule [] ed).main [] (c!"e" :: (c!"--aws-kms=p." ++ Toy.badArn) :: rest) 0 = ([], .error .panic) := by
  obtain ⟨c, pre, given, rest', profile, arn, _, _, _, hp, hb⟩ :=
    C63_command_line_causes (O := Toy.docOps) Toy.arns_lawful
      (argv := [c!"e", c!"-i", c!"a.json", c!"--aws-kms", c!"p." ++ Toy.badArn]) (by decide +kernel)
  exact C63_command_line _ Toy.arns_lawful [] (c := [c!"e"]) (given := [c!"--aws-kms=p." ++ Toy.badArn]) (profile := c!"p")
    (arn := Toy.badArn) (.inr (.inl rfl)) (.inr rfl) (by decide) (by decide)
    (by
      obtain ⟨q, arn', h1, h2, h3⟩ := (awsKeyId_panics_iff Toy.arns_lawful).1
        (show AwsKeyId.parse Toy.arns (c!"p." ++ Toy.badArn) = .error .panic by decide +kernel)
      have h1 : c!"p" ++ '.' :: Toy.badArn = q ++ '.' :: arn' := h1
      have := splitOnce_eq_some.2 ⟨h1, h2⟩
      rw [splitOnce_append _ (by decide)] at this
      cases this
      exact h3) rest 0

/-- The whole program crashes only because of the command line, and then has done nothing, or when
running the command that this says (see `C63_crashes`). -/
theorem C63_main {P : Proc} (hA : P.O.arn.Lawful) {helpText : Str} {argv : List Str} {i : Nat} {es : List Event}
    {e : CliError} (h : P.main helpText argv i = (es, .error e)) (hc : Crash e) :
    (es = [] ∧ ∃ c pre given rest profile arn, argv = c ++ pre ++ given ++ rest ∧ WithKeys c ∧
      KmsWords (profile ++ '.' :: arn) given ∧ '.' ∉ profile ∧ BadArn P.O.arn arn) ∨
    ∃ c, Says P.O argv c ∧ P.run c i = (es, .error e) := by
  unfold Proc.main at h
  split at h
  · rename_i c hp
    exact .inr ⟨c, C58_accepted_iff.1 hp, h⟩
  · cases h
  · cases h
    rcases hc with hc | ⟨_, hc, _⟩ <;> cases hc
  · rename_i hp
    cases h
    exact .inl ⟨rfl, C63_command_line_causes hA hp⟩

/-- Of a command that takes no keys it is not the command line. -/
example (ed : List Attempt) (i : Nat) (es : List Event) (e : CliError)
    (h : (Toy.strictProc Toy.badRule [] ed).main [] [c!"edit", c!"a.json"] i = (es, .error e)) (hc : Crash e) :
    ∃ c, Says Toy.docOps [c!"edit", c!"a.json"] c ∧ (Toy.strictProc Toy.badRule [] ed).run c i = (es, .error e) := by
  rcases C63_main Toy.arns_lawful h hc with ⟨_, c, pre, given, rest, profile, arn, h1, h2, _⟩ | h
  · rcases h2 with rfl | rfl | ⟨_, _, rfl, rfl | rfl, _⟩ <;> simp at h1
  · exact h

end Rops.Props
