import Verif.Lemmas.Messages
import Verif.Lemmas.CrashRuns
import Verif.Props.Files
import Verif.Props.Keys
import Verif.Props.CliHistories
/-!
# What error messages show

C61. The messages are described by their texts; the model has them in Model/Messages.lean.
-/

namespace Rops.Props
open Spec

/-- The leaf `(p, e)` of the file holds the value `v` of the map. -/
def Stores (m : RMap Value) (m' : RMap EncLeaf) (p : List Str) (e : EncValue) (v : Value) : Prop :=
  ∃ n : Nat, (leaves m)[n]? = some (p, v) ∧ (leaves m')[n]? = some (p, .encrypted e)

theorem Stores.seals {env : Env} {F : Format} {rep : Value → Prop} {f : EncFile F} {key : Bytes} {m : RMap Value}
    {m' : RMap EncLeaf} (h : Holding env rep f key m m') {p : List Str} {e : EncValue} {v : Value}
    (hs : Stores m m' p e v) : ¬ Plain env.rx f.metadata.partialEncryption p ∧ Seals env.C key p v e := by
  obtain ⟨n, h1, h2⟩ := hs
  obtain ⟨l, h3, h4, h5⟩ := h.sealed.2.getElem h1
  rw [h2] at h3
  cases h3
  rcases h5 with ⟨_, h5⟩ | ⟨hp, e', he, hs⟩
  · cases h5
  · cases he
    exact ⟨hp, hs⟩

/-- The leaves of a file decrypt. -/
theorem leaf_decrypts {env : Env} (he : EnvLaws env) {F : Format} {rep : Value → Prop} {f : EncFile F} {key : Bytes}
    {m : RMap Value} {m' : RMap EncLeaf} (h : Holding env rep f key m m') {a : List Str × EncLeaf} (ha : a ∈ leaves m') :
    ∃ v, DecEnv.value { C := env.C, fl := env.fl, key } a.1 a.2 = .ok v :=
  (storedAs_decrypts he.cipher h.fits.canonical h.sealed.2).mem ha

theorem decrypt_value_error {env : Env} (he : EnvLaws env) {F : Format} (Fo : Format) {rep : Value → Prop} {f : EncFile F}
    {key d : Bytes} {m : RMap Value} {m' : RMap EncLeaf} (h : Holding env rep f key m m')
    (hr : env.retrieveDataKey f.metadata = .ok d) {m2' : RMap EncLeaf} {x : F.Map}
    (hx : F.encToInternal env.C env.rx (Resolved.ofConfig f.metadata.partialEncryption) x = .ok m2')
    {e : DecryptValueError} (hd : RMap.decrypt { C := env.C, fl := env.fl, key } m2' = .error e) :
    EncFile.decrypt Fo env { f with map := x } = .error (.value e) := by
  cases retrieve_of_allWrap he h.key_length h.units hr
  have hmd := decryptMetadata_ok.2 ⟨key, _, hr, he.cipher.decrypt_encrypt h.mac, rfl⟩
  unfold EncFile.decrypt
  simp only [hmd]
  have hx' : F.encToInternal env.C env.rx (Resolved.ofConfig (decMetadata f.metadata (macText env.H env.rx
    f.metadata.partialEncryption f.metadata.macOnlyEncrypted m)).partialEncryption) x = .ok m2' := hx
  have hd' : RMap.decrypt (env.decEnv key) m2' = .error e := hd
  simp only [hx', hd']

/-- **C61.** Whoever can change an encrypted file can make the error message of its decryption show
one of its secrets: it suffices to change the type tag of the secret to "bool". This needs no key,
and other values of the file may be kept or dropped. The only values that cannot be shown in this
way are the texts "True" and "False", which are read as Booleans. -/
theorem C61_retagged_secret {env : Env} (he : EnvLaws env) {F : Format} (Fo : Format) {rep : Value → Prop}
    (hF : Format.Lawful F rep) {f : EncFile F} {key d : Bytes} {m : RMap Value} {m' : RMap EncLeaf}
    (h : Holding env rep f key m m') (hr : env.retrieveDataKey f.metadata = .ok d)
    {p : List Str} {e : EncValue} {v : Value} (hs : Stores m m' p e v)
    (hv : plainBytes v ≠ utf8 c!"True" ∧ plainBytes v ≠ utf8 c!"False")
    (A B : List (List Str × EncLeaf)) (hA : ∀ a ∈ A, a ∈ leaves m') (hB : ∀ b ∈ B, b ∈ leaves m')
    (m2' : RMap EncLeaf) (hl : leaves m2' = A ++ (p, .encrypted { e with variant := .boolean }) :: B) :
    ∃ x err, F.encOfInternal env.C m2' = some x ∧ EncFile.decrypt Fo env { f with map := x } = .error err ∧
      ∀ W, (err.report W env.C).text =
        c!"unable to decrypt map value: unable convert value from decrypted bytes: invalid byte representation for boolean values: "
          ++ debugBytes (plainBytes v) := by
  obtain ⟨hp, hse⟩ := hs.seals h
  have henc := encHolds_of_sealed h.fits.holds h.sealed
  have henc2 : EncHolds env.C env.rx f.metadata.partialEncryption rep m2' := by
    unfold EncHolds at henc ⊢
    rw [hl]
    constructor
    · intro p' e' hpe
      rcases List.mem_append.1 hpe with hpe | hpe
      · exact henc.1 _ _ (hA _ hpe)
      · rcases List.mem_cons.1 hpe with hpe | hpe
        · cases hpe
          exact ⟨hp, hse.2.2.nonce_length, hse.2.2.tag_length⟩
        · exact henc.1 _ _ (hB _ hpe)
    · intro p' v' hpe
      rcases List.mem_append.1 hpe with hpe | hpe
      · exact henc.2 _ _ (hA _ hpe)
      · rcases List.mem_cons.1 hpe with hpe | hpe
        · cases hpe
        · exact henc.2 _ _ (hB _ hpe)
  obtain ⟨x, hx1, hx2⟩ := hF.enc_round_trip env.C he.cipher.name_no_comma env.rx _ m2' henc2
  have hd : RMap.decrypt { C := env.C, fl := env.fl, key } m2' = .error (.fromBytes (.boolean (plainBytes v))) := by
    refine RMap.decrypt_error_iff.2 ⟨A, p, _, B, hl, fun a ha => leaf_decrypts he h (hA a ha), ?_⟩
    simp only [DecEnv.value, EncValue.decrypt, he.cipher.decrypt_encrypt hse.1, Value.fromBytes]
    have h1 : plainBytes v ≠ Value.boolBytes true := hv.1
    have h2 : plainBytes v ≠ Value.boolBytes false := hv.2
    rw [if_neg h1, if_neg h2]
  refine ⟨x, _, hx1, decrypt_value_error he Fo h hr hx2 hd, fun W => ?_⟩
  rfl

/-- C61. The secret can be read from that text: different values have different texts. -/
theorem C61_readable (pre : Str) {a b : Bytes} (h : pre ++ debugBytes a = pre ++ debugBytes b) : a = b :=
  debugBytes_inj (List.append_cancel_left h)

/-- C61. Bytes that are shown in this way are always those of a value of the file whose type tag is
"bool". -/
theorem C61_shown_bytes {env : Env} {F Fo : Format} {f : EncFile F} {b : Bytes}
    (h : f.decrypt Fo env = .error (.value (.fromBytes (.boolean b)))) :
    ∃ key m' p e, env.retrieveDataKey f.metadata = .ok key ∧
      F.encToInternal env.C env.rx (Resolved.ofConfig f.metadata.partialEncryption) f.map = .ok m' ∧
      (p, EncLeaf.encrypted e) ∈ leaves m' ∧ e.variant = .boolean ∧
      env.C.decrypt e.nonce key e.data (utf8 (pathText p)) e.tag = some b ∧ b ≠ utf8 c!"True" ∧ b ≠ utf8 c!"False" := by
  rcases decrypt_error_iff.1 h with ⟨_, _, h⟩ | ⟨key, mac, hk, _, ⟨_, _, h⟩ | ⟨m', hm', ⟨e1, hd, h⟩ | ⟨m, _, h⟩⟩⟩
  · cases h
  · cases h
  · cases h
    obtain ⟨A, p, l, B, hl, _, hv⟩ := RMap.decrypt_error_iff.1 hd
    cases l with
    | escaped w => cases hv
    | encrypted e =>
      refine ⟨key, m', p, e, hk, hm', by rw [hl]; simp, ?_⟩
      simp only [DecEnv.value, EncValue.decrypt, Env.decEnv] at hv
      cases hc : env.C.decrypt e.nonce key e.data (utf8 (pathText p)) e.tag with
      | none => rw [hc] at hv; cases hv
      | some b' =>
        rw [hc] at hv
        simp only at hv
        cases hb : Value.fromBytes env.fl b' e.variant with
        | ok v => rw [hb] at hv; cases hv
        | error err =>
          rw [hb] at hv
          cases hv
          obtain ⟨h1, rfl, h2, h3⟩ := Value.fromBytes_boolean_error.1 hb
          exact ⟨h1, rfl, h2, h3⟩
  · rcases h with ⟨_, c, _, ⟨s, _, h⟩ | ⟨_, h⟩⟩ | ⟨_, _, h⟩ <;> cases h

/-- **C61.** Whoever can change an encrypted file can make the error message of its decryption show
the hash, without salt or key, of any one of its secrets: it suffices to drop the other values.
The text shows the computed MAC twice and never the stored one. -/
theorem C61_hash_of_secret {env : Env} (he : EnvLaws env) {F : Format} (Fo : Format) {rep : Value → Prop}
    (hF : Format.Lawful F rep) {f : EncFile F} {key d : Bytes} {m : RMap Value} {m' : RMap EncLeaf}
    (h : Holding env rep f key m m') (hr : env.retrieveDataKey f.metadata = .ok d)
    {p : List Str} {e : EncValue} {v : Value} (hs : Stores m m' p e v)
    (m2' : RMap EncLeaf) (hl : leaves m2' = [(p, .encrypted e)])
    (hne : env.H.digest ((if f.metadata.macOnlyEncrypted = some true then macPrefix else []) ++ plainBytes v) ≠
      env.H.digest (macInput env.rx f.metadata.partialEncryption (f.metadata.macOnlyEncrypted.getD false) m)) :
    ∃ x err, F.encOfInternal env.C m2' = some x ∧ EncFile.decrypt Fo env { f with map := x } = .error err ∧
      ∀ W, (err.report W env.C).lines =
        [c!"invalid MAC, computed " ++
          hex (env.H.digest ((if f.metadata.macOnlyEncrypted = some true then macPrefix else []) ++ plainBytes v)) ++
          c!", stored " ++
          hex (env.H.digest ((if f.metadata.macOnlyEncrypted = some true then macPrefix else []) ++ plainBytes v))] := by
  obtain ⟨hp, hse⟩ := hs.seals h
  have henc2 : EncHolds env.C env.rx f.metadata.partialEncryption rep m2' := by
    unfold EncHolds
    rw [hl]
    constructor
    · intro p' e' hpe
      cases List.mem_singleton.1 hpe
      exact ⟨hp, hse.2.2⟩
    · intro p' v' hpe
      cases List.mem_singleton.1 hpe
  obtain ⟨x, hx1, hx2⟩ := hF.enc_round_trip env.C he.cipher.name_no_comma env.rx _ m2' henc2
  obtain ⟨n, hn, _⟩ := hs
  have hcan : v.Canonical env.fl := h.fits.canonical (p, v) (List.mem_of_getElem? hn)
  have hd : DecryptsTo { C := env.C, fl := env.fl, key } (leaves m2') [(p, v)] := by
    rw [hl]
    exact ⟨rfl, Value.decrypt_encrypt he.cipher hcan (seals_encrypt hse), trivial⟩
  obtain ⟨m2, hm2, _, hlv⟩ := decrypt_exists hd
  have hin : macInput env.rx f.metadata.partialEncryption (f.metadata.macOnlyEncrypted.getD false) m2 =
      (if f.metadata.macOnlyEncrypted = some true then macPrefix else []) ++ plainBytes v := by
    have hcov : coveredBytes env.rx f.metadata.partialEncryption (f.metadata.macOnlyEncrypted.getD false) [(p, v)] =
        plainBytes v := by
      rw [coveredBytes_cons, if_neg (fun h => hp h.2)]
      exact List.append_nil _
    rw [macInput_eq_covered, hlv, hcov]
    generalize f.metadata.macOnlyEncrypted = o
    rcases o with _ | _ | _ <;> rfl
  have hmac := he.cipher.decrypt_encrypt h.mac
  have hmo : env.macOf f.metadata m2 = utf8 (hex (env.H.digest
      ((if f.metadata.macOnlyEncrypted = some true then macPrefix else []) ++ plainBytes v))) := by
    rw [Env.macOf_eq he.hasher, macText, hin]
  cases retrieve_of_allWrap he h.key_length h.units hr
  have herr : EncFile.decrypt Fo env { f with map := x } = .error (.macMismatch (hex (env.H.digest
      ((if f.metadata.macOnlyEncrypted = some true then macPrefix else []) ++ plainBytes v)))
      (hex (env.H.digest (macInput env.rx f.metadata.partialEncryption (f.metadata.macOnlyEncrypted.getD false) m)))) := by
    refine decrypt_error_iff.2 (.inr ⟨key, _, hr, hmac, .inr ⟨m2', hx2, .inr ⟨m2, hm2, .inl ⟨?_, _, hmo, .inl ⟨_, utf8?_utf8 _, rfl⟩⟩⟩⟩⟩)
    intro hh
    have hh : macText env.H env.rx f.metadata.partialEncryption f.metadata.macOnlyEncrypted m =
      env.macOf f.metadata m2 := hh
    rw [hmo, macText] at hh
    exact hne (hex_injective (utf8_injective hh)).symm
  exact ⟨x, _, hx1, herr, fun W => rfl⟩

/-- **C61.** Every message of a failed decryption. Apart from the bytes of a value with the type tag
"bool" (`C61_shown_bytes`) and the hash of all values, the texts are made from the file and the
private keys alone. -/
theorem C61_decrypt_messages {env : Env} (hH : env.H.Streaming) {F Fo : Format} {f : EncFile F} {err : FileDecryptError}
    (h : f.decrypt Fo env = .error err) (hp : err ≠ .panic) (W : Wording) :
    (∃ e, env.decryptMetadata f.metadata = .error e ∧
      (err.report W env.C).lines = c!"unable to decrypt file metadata" :: (e.report W).lines) ∨
    (∃ e, F.encToInternal env.C env.rx (Resolved.ofConfig f.metadata.partialEncryption) f.map = .error e ∧
      (err.report W env.C).lines =
        (c!"invalid encrypted map format; " ++ (e.report W env.C).text) :: (e.report W env.C).lines) ∨
    (err.report W env.C).lines ∈ [
      [c!"unable to decrypt map value: encountered cipher error: " ++ W.cipher, c!"encountered cipher error: " ++ W.cipher],
      [c!"unable to decrypt map value: unable convert value from decrypted bytes: unable to validate bytes as UTF-8: " ++ W.utf8,
        c!"unable convert value from decrypted bytes: unable to validate bytes as UTF-8: " ++ W.utf8,
        c!"unable to validate bytes as UTF-8: " ++ W.utf8, W.utf8],
      [c!"unable to decrypt map value: unable convert value from decrypted bytes: integer parse error: " ++ W.parseInt,
        c!"unable convert value from decrypted bytes: integer parse error: " ++ W.parseInt,
        c!"integer parse error: " ++ W.parseInt, W.parseInt],
      [c!"unable to decrypt map value: unable convert value from decrypted bytes: float parse error: " ++ W.parseFloat,
        c!"unable convert value from decrypted bytes: float parse error: " ++ W.parseFloat,
        c!"float parse error: " ++ W.parseFloat, W.parseFloat]] ∨
    (∃ b, err = .value (.fromBytes (.boolean b)) ∧ (err.report W env.C).lines =
      [c!"unable to decrypt map value: unable convert value from decrypted bytes: invalid byte representation for boolean values: " ++ debugBytes b,
       c!"unable convert value from decrypted bytes: invalid byte representation for boolean values: " ++ debugBytes b,
       c!"invalid byte representation for boolean values: " ++ debugBytes b]) ∨
    (∃ key m' m, env.retrieveDataKey f.metadata = .ok key ∧
      F.encToInternal env.C env.rx (Resolved.ofConfig f.metadata.partialEncryption) f.map = .ok m' ∧
      RMap.decrypt (env.decEnv key) m' = .ok m ∧ ∃ hash, hash = hex (env.H.digest (macInput env.rx f.metadata.partialEncryption
        (f.metadata.macOnlyEncrypted.getD false) m)) ∧
      (err.report W env.C).lines = [c!"invalid MAC, computed " ++ hash ++ c!", stored " ++ hash]) := by
  rcases decrypt_error_iff.1 h with ⟨e, h1, rfl⟩ | ⟨key, mac, hk, _, ⟨e, h1, rfl⟩ | ⟨m', hm', ⟨e1, hd, rfl⟩ | ⟨m, hmm, h⟩⟩⟩
  · exact .inl ⟨e, h1, rfl⟩
  · exact .inr (.inl ⟨e, h1, rfl⟩)
  · right; right
    rcases e1 with _ | (_ | b | _ | _)
    · exact .inl (List.mem_cons_self ..)
    · exact .inl (.tail _ (List.mem_cons_self ..))
    · exact .inr (.inl ⟨b, rfl, rfl⟩)
    · exact .inl (.tail _ (.tail _ (List.mem_cons_self ..)))
    · exact .inl (.tail _ (.tail _ (.tail _ (List.mem_cons_self ..))))
  · rcases h with ⟨_, c, hc, ⟨s, _, rfl⟩ | ⟨_, rfl⟩⟩ | ⟨_, _, rfl⟩
    · rw [Env.macOf_eq hH, macText] at hc
      exact .inr (.inr (.inr (.inr ⟨key, m', m, hk, hm', hmm, _, rfl, by rw [utf8_injective hc]; rfl⟩)))
    · exact absurd rfl hp
    · exact absurd rfl hp

/-- Reading texts in order stops at the first that is refused. -/
theorem mapResult_stops {α β ε : Type} {f : α → Except ε β} {A B : List α} {x : α} {e : ε}
    (hA : ∀ a ∈ A, ∃ b, f a = .ok b) (hx : f x = .error e) : mapResult f (A ++ x :: B) = .error e := by
  induction A with
  | nil => simp [mapResult, hx]
  | cons a r ih =>
    obtain ⟨b, hb⟩ := hA a (List.mem_cons_self ..)
    simp only [List.cons_append, mapResult, hb, ih fun a ha => hA a (List.mem_cons_of_mem _ ha)]

theorem mapResult_all {α β ε : Type} {f : α → Except ε β} {A : List α}
    (hA : ∀ a ∈ A, ∃ b, f a = .ok b) : ∃ bs, mapResult f A = .ok bs := by
  induction A with
  | nil => exact ⟨[], rfl⟩
  | cons a r ih =>
    obtain ⟨b, hb⟩ := hA a (List.mem_cons_self ..)
    obtain ⟨bs, hbs⟩ := ih fun a ha => hA a (List.mem_cons_of_mem _ ha)
    exact ⟨b :: bs, by simp only [mapResult, hb, hbs]⟩

/-- The part of a text for an AWS key that is missing first. -/
def missingPart (s : Str) : Str :=
  if '.' ∈ s then c!"aws_secret_access_key" else c!"aws_access_key_id"

theorem parse_refuses {s : Str} (h : s.count '.' < 2) :
    AwsPrivateKey.parse s = .error (.privateKeyParsing (some (missingPart s, s))) := by
  have hl := (C46_rejected_iff s).2 h
  unfold AwsPrivateKey.parse at hl ⊢
  have hj := joinWith_splitOn '.' s
  rcases hw : splitOn '.' s with _ | ⟨a, _ | ⟨b, _ | ⟨c, r⟩⟩⟩
  · exact absurd hw (splitOn_ne_nil _ _)
  · have hn : '.' ∉ s := by
      intro hm
      obtain ⟨x, y, rfl⟩ := List.append_of_mem hm
      have := congrArg List.length (Rops.splitOn_append_sep '.' x y)
      rw [hw] at this
      cases hx : splitOn '.' x with
      | nil => exact absurd hx (splitOn_ne_nil _ _)
      | cons w ws =>
        cases hy : splitOn '.' y with
        | nil => exact absurd hy (splitOn_ne_nil _ _)
        | cons v vs => simp [hx, hy] at this
    simp [missingPart, hn]
  · have hn : '.' ∈ s := by
      rw [hw] at hj
      have hj : a ++ '.' :: b = s := hj
      rw [← hj]; simp
    simp [missingPart, hn]
  · rw [hw] at hl
    exact absurd rfl (hl _)

theorem parse_accepts {s : Str} (h : 2 ≤ s.count '.') : ∃ k, AwsPrivateKey.parse s = .ok k := by
  cases hp : AwsPrivateKey.parse s with
  | ok k => exact ⟨k, rfl⟩
  | error e =>
    have := (C46_rejected_iff s).1 (fun k hk => by rw [hp] at hk; cases hk)
    omega

/-- Among the texts given as AWS private keys, `bad` is the first that is refused. -/
def FirstRefused (h : Host) (bad : Str) : Prop :=
  ∃ A B, (∀ a ∈ A, 2 ≤ a.count '.') ∧ bad.count '.' < 2 ∧
    (varTexts h c!"aws_kms" = some (A ++ bad :: B) ∨
      ∃ V, varTexts h c!"aws_kms" = some V ∧ (∀ a ∈ V, 2 ≤ a.count '.') ∧ fileTexts h c!"aws_kms" = some (A ++ bad :: B))

theorem fromEnv_eq {κ : Type} {parse : Str → Except IntegrationError κ} {h : Host} {name : Str} {l : List Str}
    (hv : varTexts h name = some l) : privateKeysFromEnv parse h name = mapResult parse l := by
  unfold privateKeysFromEnv
  unfold varTexts at hv
  rw [show keyVarName name = keyVariable name from rfl]
  cases hh : h.var (keyVariable name) with
  | notPresent => rw [hh] at hv; cases hv; rfl
  | notUnicode b => rw [hh] at hv; cases hv
  | value s => rw [hh] at hv; cases hv; rfl

theorem fromFile_eq {κ : Type} {parse : Str → Except IntegrationError κ} {h : Host} {name : Str} {l : List Str}
    (hv : fileTexts h name = some l) : privateKeysFromFile parse h name = mapResult parse l := by
  unfold privateKeysFromFile
  unfold fileTexts keyFilePath at hv
  rw [show keyFileVarName name = keyFileVariable name from rfl]
  have hread : ∀ path, (match h.file path with
      | .missing => some []
      | .unreadable => none
      | .text s => some (((splitOn '\n' s).map trim).filter (· ≠ []))) = some l →
      (match h.file path with
        | .missing => (.ok [] : Except IntegrationError (List κ))
        | .unreadable => .error .io
        | .text s => mapResult parse (((lines s).map trim).filter (· ≠ []))) = mapResult parse l := by
    intro path hp
    cases hf : h.file path with
    | missing => rw [hf] at hp; cases hp; rfl
    | unreadable => rw [hf] at hp; cases hp
    | text s => rw [hf] at hp; cases hp; simp only [lines_trim]
  cases hvp : h.varPath (keyFileVariable name) with
  | some p => rw [hvp] at hv; exact hread p hv
  | none =>
    rw [hvp] at hv
    cases hc : h.configDir with
    | none => rw [hc] at hv; cases hv
    | some d => rw [hc] at hv; exact hread _ hv

theorem FirstRefused.keys {h : Host} {bad : Str} (hb : FirstRefused h bad) :
    retrievePrivateKeys AwsPrivateKey.parse h c!"aws_kms" =
      .error (.privateKeyParsing (some (missingPart bad, bad))) := by
  obtain ⟨A, B, hA, hbad, hv | ⟨V, hv, hV, hf⟩⟩ := hb
  · unfold retrievePrivateKeys
    rw [fromEnv_eq hv, mapResult_stops (fun a ha => parse_accepts (hA a ha)) (parse_refuses hbad)]
  · obtain ⟨ks, hks⟩ := mapResult_all (f := AwsPrivateKey.parse) fun a ha => parse_accepts (hV a ha)
    unfold retrievePrivateKeys
    rw [fromEnv_eq hv, hks, fromFile_eq hf,
      mapResult_stops (fun a ha => parse_accepts (hA a ha)) (parse_refuses hbad)]

/-- An error of the first stored key that is not passed over is the error of the decryption. -/
theorem decrypt_retrieval_error {env : Env} {F Fo : Format} {f : EncFile F} {e : IntegrationError} {n : Nat}
    (hn : (tries env.toKeyEnv f.metadata.integration)[n]? = some (.error e))
    (hj : ∀ j < n, (tries env.toKeyEnv f.metadata.integration)[j]? = some (.ok none)) :
    f.decrypt Fo env = .error (.metadata (.retrieval (.integration e))) := by
  have h := (C26_error_hides_later env.toKeyEnv f.metadata.integration e).2 ⟨n, hn, hj⟩
  have hm : env.decryptMetadata f.metadata = .error (.retrieval (.integration e)) := by
    unfold Env.decryptMetadata Env.retrieveDataKey
    rw [h]
  unfold EncFile.decrypt
  simp only [hm]

/-- **C61.** A text given as AWS private key that has not all its parts is printed whole, as soon as
a file with an AWS key is decrypted for which no earlier stored key serves. -/
theorem C61_private_key_shown {env : Env} {F : Format} (Fo : Format) {f : EncFile F}
    (hage : ∀ u ∈ f.metadata.integration.age, env.decryptDataKey .age u.keyId u.enc = .ok none)
    {u : IUnit .kms} {r : Units .kms} (hk : f.metadata.integration.kms = u :: r) {b : Bytes}
    (hu : Base64.decode u.enc = some b) {bad : Str} (hbad : FirstRefused env.host bad) :
    ∃ err, f.decrypt Fo env = .error err ∧ ∀ W, (err.report W env.C).lines =
      [c!"unable to decrypt file metadata", c!"unable to retrieve data key", c!"integration error",
       c!"unnable to parse private key string: invalid private key syntax, missing the " ++ missingPart bad ++
        c!" component in: 'profile.aws_access_key_id.aws_secret_access_key', got: '" ++ bad ++ c!"'"] := by
  have ht : tries env.toKeyEnv f.metadata.integration =
      f.metadata.integration.age.map (fun u => env.decryptDataKey .age u.keyId u.enc) ++
      (.error (.privateKeyParsing (some (missingPart bad, bad)))) ::
        r.map (fun u => env.decryptDataKey .kms u.keyId u.enc) := by
    unfold tries
    rw [hk, List.map_cons]
    congr 2
    show Kms.decryptDataKey env.K env.host u.keyId u.enc = _
    unfold Kms.decryptDataKey Kms.findClient
    rw [hu, hbad.keys]
  refine ⟨_, decrypt_retrieval_error (e := .privateKeyParsing (some (missingPart bad, bad)))
    (n := f.metadata.integration.age.length) ?_ ?_, fun W => rfl⟩
  · rw [ht, List.getElem?_append_right (by simp)]
    simp
  · intro j hj
    rw [ht, List.getElem?_append_left (by simpa using hj), List.getElem?_map, List.getElem?_eq_getElem hj]
    simp only [Option.map_some]
    rw [hage _ (List.getElem_mem hj)]

/-- C61. A variable with private keys that is not Unicode is printed whole; shown for age keys. -/
theorem C61_variable_shown {env : Env} {F : Format} (Fo : Format) {f : EncFile F}
    {u : IUnit .age} {r : Units .age} (hage : f.metadata.integration.age = u :: r) {b : Bytes}
    (hv : env.host.var c!"ROPS_AGE" = .notUnicode b) :
    ∃ err, f.decrypt Fo env = .error err ∧ ∀ W, (err.report W env.C).lines =
      [c!"unable to decrypt file metadata", c!"unable to retrieve data key", c!"integration error",
       c!"matched environment variable not valid UTF-8: " ++ W.osString b] := by
  refine ⟨_, decrypt_retrieval_error (n := 0) (e := .envVarNotUnicode b) ?_ (fun j hj => absurd hj (Nat.not_lt_zero _)), fun W => rfl⟩
  unfold tries
  rw [hage, List.map_cons, List.cons_append, List.getElem?_cons_zero]
  congr 1
  show Age.decryptDataKey env.A env.host u.keyId u.enc = _
  unfold Age.decryptDataKey retrievePrivateKeys privateKeysFromEnv
  rw [show keyVarName c!"age" = c!"ROPS_AGE" from by decide, hv]

/-- **C61.** A text given as age key that is none is not shown: the message is the same for every
such text. -/
theorem C61_age_key_hidden {env : Env} {F : Format} (Fo : Format) {f : EncFile F}
    {u : IUnit .age} {r : Units .age} (hage : f.metadata.integration.age = u :: r) {a b : List Str}
    (ha : varTexts env.host c!"age" = some a) (hb : fileTexts env.host c!"age" = some b)
    {bad : Str} (hm : bad ∈ a ++ b) (hbad : env.A.parseIdentity bad = none) :
    ∃ err, f.decrypt Fo env = .error err ∧ ∀ W, (err.report W env.C).lines =
      [c!"unable to decrypt file metadata", c!"unable to retrieve data key", c!"integration error",
       c!"unnable to parse private key string: " ++ W.ageKey] := by
  have hany : ∀ s e, Age.parsePrivateKey env.A s = .error e → e = .privateKeyParsing none := by
    intro s e h
    unfold Age.parsePrivateKey at h
    split at h
    · cases h
    · cases h; rfl
  have hr : retrievePrivateKeys (Age.parsePrivateKey env.A) env.host c!"age" = .error (.privateKeyParsing none) := by
    obtain ⟨e, he⟩ := C41_bad_key (Age.parsePrivateKey env.A) env.host c!"age" ha hb hm
      (e := .privateKeyParsing none) (by unfold Age.parsePrivateKey; rw [hbad])
    rw [he]
    unfold retrievePrivateKeys at he
    rw [fromEnv_eq ha, fromFile_eq hb] at he
    cases h1 : mapResult (Age.parsePrivateKey env.A) a with
    | error e' =>
      rw [h1] at he
      cases he
      obtain ⟨x, _, hx⟩ := mapResult_error h1
      rw [hany _ _ hx]
    | ok ks =>
      rw [h1] at he
      cases h2 : mapResult (Age.parsePrivateKey env.A) b with
      | error e' =>
        rw [h2] at he
        cases he
        obtain ⟨x, _, hx⟩ := mapResult_error h2
        rw [hany _ _ hx]
      | ok ks => rw [h2] at he; cases he
  refine ⟨_, decrypt_retrieval_error (n := 0) (e := .privateKeyParsing none) ?_ (fun j hj => absurd hj (Nat.not_lt_zero _)), fun W => rfl⟩
  unfold tries
  rw [hage, List.map_cons, List.cons_append, List.getElem?_cons_zero]
  congr 1
  show Age.decryptDataKey env.A env.host u.keyId u.enc = _
  unfold Age.decryptDataKey
  rw [hr]

/-- **C61.** `rops decrypt` prints these messages, and nothing else. -/
theorem C61_command {P : Proc} {l : PlaceLine} {path : Str} {x : Fmt} {config : Config} {s : Str} {f : EncFile x.doc.F}
    {e : FileDecryptError} (hl : l.input.file = some path) (hx : getFormat (some path) l.input.format = .ok x)
    (hcf : P.retrieveConfig l.input.config = .ok config) (hs : InputText P (some path) s)
    (hf : EncFile.ofText (P.T x) P.O P.env.C s = some f) (he : f.decrypt x.doc.F P.env = .error e) (i : Nat) (W : Wording) :
    (P.run (.decrypt l) i).1 = [] ∧ P.messages W (P.run (.decrypt l) i) = (e.report W P.env.C).lines := by
  rw [run_decrypt_error hl hx hcf hs hf he]
  exact ⟨rfl, rfl⟩

/-- **C61.** If an encrypted file cannot be read, every command that reads one has no effect and says
only "deserialize error": neither the reason nor anything of the file. -/
theorem C61_unreadable {P : Proc} {c : Command} (hc : c.accepted = true) {config : Config}
    (hcfg : P.retrieveConfig c.configPath = .ok config) (hne : ∀ l, c ≠ .encrypt l) {x : Fmt}
    (hx : getFormat (opens c) (givenFormat c) = .ok x) {s : Str} (hs : InputText P (opens c) s)
    (hf : EncFile.ofText (P.T x) P.O P.env.C s = none) (hp : EncFile.textPanics (P.T x) P.O P.env.C s = false) (i : Nat)
    (W : Wording) :
    (P.run c i).1 = [] ∧ P.messages W (P.run c i) = [c!"deserialize error"] := by
  have hpf : P.parseFile x s = .error .deserialize := by
    unfold Proc.parseFile
    simp [hf, hp]
  rw [run_parseFile_error hc hcfg hne hx hs hpf]
  exact ⟨rfl, rfl⟩

/-- An unencrypted file is not read. -/
example (W : Wording) (i : Nat) (ed : List Attempt) :
    ((Toy.proc Toy.rule (Toy.mapText Toy.small) ed).run (.edit Toy.input) i).1 = [] ∧
    (Toy.proc Toy.rule (Toy.mapText Toy.small) ed).messages W ((Toy.proc Toy.rule (Toy.mapText Toy.small) ed).run (.edit Toy.input) i)
      = [c!"deserialize error"] :=
  C61_unreadable (c := .edit Toy.input) rfl (Toy.proc_config _ _) nofun (x := .json) (by decide +kernel) (Toy.proc_input _ _ _)
    (show EncFile.ofText Toy.jsonText Toy.docOps Toy.env.C _ = none by decide +kernel)
    (show EncFile.textPanics Toy.jsonText Toy.docOps Toy.env.C _ = false by decide +kernel) i W

/-- **C61.** The message about a text that is no map, for `rops encrypt`, is that of the library for
the format, which may quote it. -/
theorem C61_encrypt_unreadable {P : Proc} {l : EncryptLine} {a : EncryptArgs} (hl : l.args = some a) {config : Config}
    (hcfg : P.retrieveConfig l.input.config = .ok config) {x : Fmt} (hx : getFormat l.input.file l.input.format = .ok x)
    {s : Str} (hs : InputText P l.input.file s) (hf : (P.T x).parse s = none) (i : Nat) (W : Wording) :
    (P.run (.encrypt l) i).1 = [] ∧ P.messages W (P.run (.encrypt l) i) = [W.parse s] := by
  have hi : a.input = l.input := by
    unfold EncryptLine.args at hl
    split at hl
    · cases hl
    · cases hl; rfl
  have hn : ¬ (a.inPlace.getD false = true ∧ l.input.file = none) := by
    unfold EncryptLine.args at hl
    split at hl
    · cases hl
    · rename_i hn
      cases hl
      rintro ⟨h1, h2⟩
      simp [setTrue] at h1
      simp [h1, h2] at hn
  have hm : ∀ c : Config, (a.merge P.env.rx c).input = a.input ∧ (a.merge P.env.rx c).inPlace = a.inPlace := by
    intro c
    induction c with
    | nil => exact ⟨rfl, rfl⟩
    | cons r t ih =>
      unfold EncryptArgs.merge
      split
      · exact ⟨rfl, rfl⟩
      · exact ih
  have hg : P.getInput l.input.file a.inPlace = .ok s := getInput_ok.2 ⟨hs, hn⟩
  have hr : P.run (.encrypt l) i = ([], .error (.parse s)) := by
    unfold Proc.run
    rw [if_pos (by simp [Command.accepted, hl])]
    simp only [Command.configPath, hcfg, Proc.dispatch, hl, Proc.encrypt, (hm config).1, (hm config).2, hi, hx, hg,
      Proc.encryptText, hf]
  rw [hr]
  exact ⟨rfl, rfl⟩

-- a text that is no document is not encrypted
example (W : Wording) (i : Nat) :
    ((Toy.proc Toy.rule c!"{\"pw\": \"hi" []).run (.encrypt Toy.encryptLine) i).1 = [] ∧
    (Toy.proc Toy.rule c!"{\"pw\": \"hi" []).messages W ((Toy.proc Toy.rule c!"{\"pw\": \"hi" []).run (.encrypt Toy.encryptLine) i)
      = [W.parse c!"{\"pw\": \"hi"] :=
  C61_encrypt_unreadable (l := Toy.encryptLine) rfl (Toy.proc_config _ _) (x := .json) (by decide +kernel) (Toy.proc_input _ _ _)
    (show Toy.jsonText.parse _ = none by decide +kernel) i W

/-! ## Concrete cases -/

/-- A file with two secrets. -/
def secretsBuilder : Builder Format.json where
  map := [(c!"a", .leaf (.num (.posInt 5))), (c!"pw", .leaf (.str c!"hi!"))]
  partialEncryption := none
  macOnlyEncrypted := none
  ageKeyIds := [c!"pk1"]
  kmsKeyIds := []

/-- Some library texts. -/
def noWording : Wording where
  utf8 := []
  parseInt := []
  parseFloat := []
  cipher := []
  base64 _ := []
  yamlKey := []
  encryption := []
  decryption := []
  keyId := []
  ageKey := []
  io := []
  fromUtf8 := []
  osString _ := []
  usage := []
  config := []
  parse _ := []
  editor := []

/-- The type tag of a ciphertext text changed from "str" to "bool". -/
def boolText (s : Str) : Str := s.take (s.length - 4) ++ c!"bool]"

/-- The file decrypts; with the type tag of its second value changed, the message shows the bytes of
"hi!"; with the first value dropped, it shows a hash. -/
example : (match secretsBuilder.encrypt Toy.env 0 with
    | .error _ => false
    | .ok (f, _) => match f.map with
      | [a, (n, .leaf (.str s))] =>
        (match EncFile.decrypt Format.json Toy.env f with | .ok _ => true | .error _ => false) &&
        (match EncFile.decrypt (F := Format.json) Format.json Toy.env
            { f with map := [a, (n, .leaf (.str (boolText s)))] } with
          | .error e => (e.report noWording Toy.env.C).text =
            c!"unable to decrypt map value: unable convert value from decrypted bytes: invalid byte representation for boolean values: [104, 105, 33]"
          | _ => false) &&
        (match EncFile.decrypt (F := Format.json) Format.json Toy.env
            { f with map := [(n, .leaf (.str s))] } with
          | .error e => (e.report noWording Toy.env.C).text =
            c!"invalid MAC, computed " ++ hex (Toy.env.H.digest (utf8 c!"hi!")) ++ c!", stored " ++
              hex (Toy.env.H.digest (utf8 c!"hi!"))
          | _ => false)
      | _ => false) = true := by decide +kernel

/-- The second secret is stored as the theorems ask. -/
example : ∃ f i m' e, secretsBuilder.encrypt Toy.env 0 = .ok (f, i) ∧
    Format.json.encToInternal Toy.env.C Toy.env.rx (Resolved.ofConfig f.metadata.partialEncryption) f.map = .ok m' ∧
    Stores [(c!"a", .leaf (.integer 5)), (c!"pw", .leaf (.string c!"hi!"))] m' [c!"pw"] e (.string c!"hi!") := by
  have hc : (match secretsBuilder.encrypt Toy.env 0 with
      | .error _ => false
      | .ok (f, _) => match Format.json.encToInternal Toy.env.C Toy.env.rx
          (Resolved.ofConfig f.metadata.partialEncryption) f.map with
        | .ok m' => match leaves m' with
          | [_, (p, .encrypted _)] => p = [c!"pw"]
          | _ => false
        | .error _ => false) = true := by decide +kernel
  split at hc
  · cases hc
  · rename_i f i hf
    split at hc
    · rename_i m' hm
      split at hc
      · rename_i a p e hl
        cases (by simpa using hc : p = [c!"pw"])
        exact ⟨f, i, m', e, hf, hm, 1, rfl, by rw [hl]; rfl⟩
      · cases hc
    · cases hc

/-- The secret of an AWS key without profile is refused, and so shown. -/
example : FirstRefused (Toy.host .notPresent (.value c!"work.AKIA.s3cr3t,AKIA.s3cr3t")) c!"AKIA.s3cr3t" :=
  ⟨[c!"work.AKIA.s3cr3t"], [], by decide, by decide, .inl (by decide +kernel)⟩

/-- The comma at the end of a variable makes an empty text, which is no age key. -/
example : varTexts (Toy.host (.value c!"id1,") .notPresent) c!"age" = some [c!"id1", []] ∧
    fileTexts (Toy.host (.value c!"id1,") .notPresent) c!"age" = some [] ∧ Toy.env.A.parseIdentity [] = none := by
  decide +kernel

/-- An integer that is too large is shown. -/
example : (match ({ secretsBuilder with map := [(c!"n", .leaf (.num (.posInt 9223372036854775808)))] } : Builder Format.json).encrypt Toy.env 0 with
    | .error e => (e.report noWording Toy.env.C).text =
      c!"invalid decrypted map format: integer out of range, allowed values must fit inside an i64, found: 9223372036854775808"
    | .ok _ => false) = true := by decide +kernel

end Rops.Props
