import Verif.Lemmas.Reading
import Verif.Lemmas.CliRuns
import Verif.Lemmas.CliHistory
import Verif.Props.Panics
/-!
# Lemmas on panics of the command line program
-/

namespace Rops.Spec

/-- The `age` library never panics, and the successful answers of KMS have content. -/
structure Calm (env : KeyEnv) : Prop where
  wrap : ∀ r d i, env.A.wrap r d i ≠ .error .panic
  unwrap : ∀ k t, env.A.unwrap k t ≠ .error .panic
  encrypt : ∀ c k d i, env.K.encrypt c k d i ≠ .empty
  decrypt : ∀ c k b, env.K.decrypt c k b ≠ .empty

/-- The numbers in a JSON text are finite. -/
def FiniteTexts (T : TextOps .json) : Prop :=
  ∀ s d m, T.parse s = some d → Format.json.toInternal d = .ok m → Holds jsonRep m

/-- Errors of encryption that stand for a panic. -/
def EncryptPanics : FileEncryptError → Prop
  | .format e => e = .encryptedValue .panic
  | .retrieval e => e = .integration .panic
  | .panic => True
  | _ => False

/-- Errors of the program that stand for a panic. -/
def Crash : CliError → Prop
  | .panic => True
  | .decrypt e => Panics e
  | .encrypt e => EncryptPanics e
  | .builder (.encrypt e) => EncryptPanics e
  | .builder (.integration e) => e = .panic
  | .addKeys (.retrieval e) => e = .integration .panic
  | .addKeys (.addKey e) => e = .panic
  | .removeKey e => e = .panic
  | .setMap (.format e) => e = .encryptedValue .panic
  | .setMap .panic => True
  | _ => False

end Rops.Spec

namespace Rops
open Spec Props

/-! ## Keys -/

theorem mapResult_calm {α β : Type} {f : α → Except IntegrationError β} (hf : ∀ a, f a ≠ .error .panic) (l : List α) :
    mapResult f l ≠ .error .panic := by
  induction l with
  | nil => simp [mapResult]
  | cons a r ih =>
    have := hf a
    cases h : f a with
    | error e => simp only [mapResult, h]; rw [h] at this; exact fun h => this (by cases h; rfl)
    | ok b =>
      cases h' : mapResult f r with
      | error e => simp only [mapResult, h, h']; rw [h'] at ih; exact ih
      | ok bs => simp [mapResult, h, h']

theorem retrieve_calm {κ : Type} {parse : Str → Except IntegrationError κ} (hp : ∀ s, parse s ≠ .error .panic) (h : Host)
    (name : Str) : retrievePrivateKeys parse h name ≠ .error .panic := by
  have h1 : privateKeysFromEnv parse h name ≠ .error .panic := by
    unfold privateKeysFromEnv
    split
    · exact mapResult_calm hp _
    · simp
    · simp
  have h2 : privateKeysFromFile parse h name ≠ .error .panic := by
    unfold privateKeysFromFile
    simp only
    split
    · rename_i e he
      split at he
      · cases he
      · split at he
        · cases he; simp
        · cases he
    · split
      · simp
      · simp
      · exact mapResult_calm hp _
  unfold retrievePrivateKeys
  split
  · rename_i e he; rw [he] at h1; exact h1
  · split
    · rename_i e he; rw [he] at h2; exact h2
    · simp

theorem findClient_calm (h : Host) (k : AwsKeyId) : Kms.findClient h k ≠ .error .panic := by
  have hp : ∀ s, AwsPrivateKey.parse s ≠ .error .panic := by
    intro s
    unfold AwsPrivateKey.parse
    split <;> simp
  have := retrieve_calm hp h c!"aws_kms"
  unfold Kms.findClient
  split
  · rename_i e he; rw [he] at this; exact fun h => this (by cases h; rfl)
  · split <;> simp

theorem encryptDataKey_calm {env : KeyEnv} (hA : Calm env) (k : Kind) (id : k.Id) (d : Bytes) (i : Nat) :
    env.encryptDataKey k id d i ≠ .error .panic := by
  cases k with
  | age => exact hA.wrap _ _ _
  | kms =>
    have := findClient_calm env.host id
    simp only [KeyEnv.encryptDataKey, Kms.encryptDataKey]
    split
    · rename_i e he; rw [he] at this; exact fun h => this (by cases h; rfl)
    · simp
    · split
      · simp
      · rename_i h; exact absurd h (hA.encrypt _ _ _ _)
      · simp

theorem decryptDataKey_calm {env : KeyEnv} (hA : Calm env) (k : Kind) (id : k.Id) (s : Str) :
    env.decryptDataKey k id s ≠ .error .panic := by
  cases k with
  | age =>
    have hp : ∀ s, Age.parsePrivateKey env.A s ≠ .error .panic := by
      intro s
      unfold Age.parsePrivateKey
      split <;> simp
    have := retrieve_calm hp env.host c!"age"
    simp only [KeyEnv.decryptDataKey, Age.decryptDataKey]
    split
    · rename_i e he; rw [he] at this; exact fun h => this (by cases h; rfl)
    · split
      · simp
      · rename_i k' _
        split
        · rename_i e he
          have := hA.unwrap k' s
          rw [he] at this
          exact fun h => this (by cases h; rfl)
        · split <;> simp
  | kms =>
    have := findClient_calm env.host id
    simp only [KeyEnv.decryptDataKey, Kms.decryptDataKey]
    split
    · simp
    · split
      · rename_i e he; rw [he] at this; exact fun h => this (by cases h; rfl)
      · simp
      · split
        · simp
        · rename_i h; exact absurd h (hA.decrypt _ _ _)
        · split <;> simp

theorem findDataKey_calm {env : KeyEnv} (hA : Calm env) (k : Kind) (us : Units k) :
    env.findDataKey k us ≠ some (.error .panic) := by
  induction us with
  | nil => simp [KeyEnv.findDataKey]
  | cons u r ih =>
    have := decryptDataKey_calm hA k u.keyId u.enc
    simp only [KeyEnv.findDataKey]
    split
    · exact ih
    · simp
    · rename_i e he
      rw [he] at this
      exact fun h => this (by cases h; rfl)

theorem retrieveDataKey_calm {M : Type} {env : Env} (hA : Calm env.toKeyEnv) (md : Metadata M) :
    env.retrieveDataKey md ≠ .error (.integration .panic) := by
  have h1 := findDataKey_calm (env := env.toKeyEnv) hA .age md.integration.age
  have h2 := findDataKey_calm (env := env.toKeyEnv) hA .kms md.integration.kms
  unfold Env.retrieveDataKey
  split
  · rename_i e he
    rintro h
    cases h
    unfold KeyEnv.decryptAny at he
    split at he
    · cases he
    · rename_i e' he'; cases he; exact h1 he'
    · split at he
      · cases he
      · rename_i e' he'; cases he; exact h2 he'
      · cases he
  · simp
  · simp

theorem addKeys_calm {env : KeyEnv} (hA : Calm env) (k : Kind) (d : Bytes) (ids : List k.Id) (im : IntegrationMetadata)
    (i : Nat) : (env.addKeys k d ids im i).1 ≠ .error .panic := by
  induction ids generalizing im i with
  | nil => simp [KeyEnv.addKeys]
  | cons id r ih =>
    simp only [KeyEnv.addKeys]
    split
    · rename_i e he
      intro h
      cases h
      unfold KeyEnv.newUnit at he
      split at he
      · rename_i h'; cases he; exact encryptDataKey_calm hA _ _ _ _ h'
      · cases he
    · exact ih _ _

theorem updateUnits_calm {env : KeyEnv} (hA : Calm env) (k : Kind) (d : Bytes) (us : Units k) (i : Nat) :
    (env.updateUnits k d us i).1 ≠ .error .panic := by
  induction us generalizing i with
  | nil => simp [KeyEnv.updateUnits]
  | cons u r ih =>
    simp only [KeyEnv.updateUnits]
    split
    · rename_i e he
      intro h
      cases h
      exact encryptDataKey_calm hA _ _ _ _ he
    · exact ih (i + 1)

theorem removeKey_calm {env : KeyEnv} (hA : Calm env) (k : Kind) (id : k.Id) (im : IntegrationMetadata) (i : Nat) :
    (env.removeKey k id im i).1 ≠ .error .panic := by
  unfold KeyEnv.removeKey
  split
  · simp
  · rename_i removed rest _
    simp only
    split
    · rename_i e age j h
      have := updateUnits_calm hA .age (env.newKey i) (im.setUnits k rest).age (i + 1)
      rw [h] at this
      exact fun h => this (by cases h; rfl)
    · rename_i age j h
      split
      · rename_i e kms j' h'
        have := updateUnits_calm hA .kms (env.newKey i) (im.setUnits k rest).kms j
        rw [h'] at this
        exact fun h => this (by cases h; rfl)
      · simp

/-! ## Formats -/

theorem Number.toInternal_ne_enc (n : Number) (e : EncParseError) : n.toInternal ≠ .error (.encryptedValue e) := by
  unfold Number.toInternal
  repeat' split
  all_goals simp

theorem Json.to_ne_enc (e : EncParseError) : (∀ t, Json.toTree t ≠ .error (.encryptedValue e)) ∧
    (∀ l, Json.toSeq l ≠ .error (.encryptedValue e)) ∧ ∀ m, Json.toMap m ≠ .error (.encryptedValue e) := by
  apply Tree.induct
  · intro l ih; rw [Json.toTree]; split <;> simp_all
  · intro l ih; rw [Json.toTree]; split <;> simp_all
  · simp [Json.toTree]
  · intro a
    rw [Json.toTree]
    split
    · simp
    · rename_i e' he'
      rintro h
      cases h
      cases a <;> simp only [JsonScalar.toInternal, reduceCtorEq] at he'
      exact Number.toInternal_ne_enc _ _ he'
  · simp [Json.toSeq]
  · intro t r iht ihr
    rw [Json.toSeq]
    split
    · split <;> simp_all
    · simp_all
  · simp [Json.toMap]
  · intro k t r iht ihr
    rw [Json.toMap]
    split
    · split <;> simp_all
    · simp_all

mutual
theorem Yaml.toTree_ne_enc (e : EncParseError) : ∀ t, Yaml.toTree t ≠ .error (.encryptedValue e)
  | .tagged _ v => by rw [Yaml.toTree]; exact Yaml.toTree_ne_enc e v
  | .map m => by have := Yaml.toMap_ne_enc e m; rw [Yaml.toTree]; split <;> simp_all
  | .bool b => by simp [Yaml.toTree]
  | .str s => by simp [Yaml.toTree]
  | .num n => by
    have := Number.toInternal_ne_enc n e
    rw [Yaml.toTree]; split <;> simp_all
  | .seq l => by have := Yaml.toSeq_ne_enc e l; rw [Yaml.toTree]; split <;> simp_all
  | .null => by simp [Yaml.toTree]
theorem Yaml.toSeq_ne_enc (e : EncParseError) : ∀ l, Yaml.toSeq l ≠ .error (.encryptedValue e)
  | [] => by simp [Yaml.toSeq]
  | t :: r => by
    have h1 := Yaml.toTree_ne_enc e t
    have h2 := Yaml.toSeq_ne_enc e r
    rw [Yaml.toSeq]
    split
    · split <;> simp_all
    · simp_all
theorem Yaml.toMap_ne_enc (e : EncParseError) : ∀ m, Yaml.toMap m ≠ .error (.encryptedValue e)
  | [] => by simp [Yaml.toMap]
  | (k, t) :: r => by
    have h1 := Yaml.toTree_ne_enc e t
    have h2 := Yaml.toMap_ne_enc e r
    rw [Yaml.toMap]
    split
    · rename_i e' h
      cases k <;> simp_all [Yaml.validateKey]
      all_goals (rw [← h]; simp)
    · split
      · split <;> simp_all
      · simp_all
end

mutual
theorem Toml.toTree_ne_enc (e : EncParseError) : ∀ t, Toml.toTree t ≠ .error (.encryptedValue e)
  | .table m => by have := Toml.toMap_ne_enc e m; rw [Toml.toTree]; split <;> simp_all
  | .bool b => by simp [Toml.toTree]
  | .str s => by rw [Toml.toTree]; split <;> simp
  | .int n => by simp [Toml.toTree]
  | .float n => by simp [Toml.toTree]
  | .array l => by have := Toml.toSeq_ne_enc e l; rw [Toml.toTree]; split <;> simp_all
  | .datetime s => by simp [Toml.toTree]
theorem Toml.toSeq_ne_enc (e : EncParseError) : ∀ l, Toml.toSeq l ≠ .error (.encryptedValue e)
  | [] => by simp [Toml.toSeq]
  | t :: r => by
    have h1 := Toml.toTree_ne_enc e t
    have h2 := Toml.toSeq_ne_enc e r
    rw [Toml.toSeq]
    split
    · split <;> simp_all
    · simp_all
theorem Toml.toMap_ne_enc (e : EncParseError) : ∀ m, Toml.toMap m ≠ .error (.encryptedValue e)
  | [] => by simp [Toml.toMap]
  | (k, t) :: r => by
    have h1 := Toml.toTree_ne_enc e t
    have h2 := Toml.toMap_ne_enc e r
    rw [Toml.toMap]
    split
    · split <;> simp_all
    · simp_all
end

theorem toInternal_ne_enc (x : Fmt) (d : x.doc.F.Map) (e : EncParseError) :
    x.doc.F.toInternal d ≠ .error (.encryptedValue e) := by
  cases x
  · exact Yaml.toMap_ne_enc e d
  · exact (Json.to_ne_enc e).2.2 d
  · exact Toml.toMap_ne_enc e d

theorem mapM_none {α β : Type} (f : α → Option β) :
    (∀ t : Tree α, ∀ p, Tree.mapM f t = none → ∃ pa ∈ leavesAt p t, f pa.2 = none) ∧
    (∀ l : List (Tree α), ∀ p, Tree.mapSeqM f l = none → ∃ pa ∈ leavesSeq p l, f pa.2 = none) ∧
    (∀ m : RMap α, ∀ p, Tree.mapMapM f m = none → ∃ pa ∈ leavesMap p m, f pa.2 = none) := by
  apply Tree.induct
  · intro l ih p h
    rw [Tree.mapM] at h
    split at h
    · cases h
    · rename_i hl; exact ih p hl
  · intro l ih p h
    rw [Tree.mapM] at h
    split at h
    · cases h
    · rename_i hl; exact ih p hl
  · intro p h; simp [Tree.mapM] at h
  · intro a p h
    rw [Tree.mapM] at h
    split at h
    · cases h
    · rename_i ha; exact ⟨(p, a), by simp [leavesAt], ha⟩
  · intro p h; simp [Tree.mapSeqM] at h
  · intro t r iht ihr p h
    rw [Tree.mapSeqM] at h
    split at h
    · split at h
      · cases h
      · rename_i hr
        obtain ⟨pa, h1, h2⟩ := ihr p hr
        exact ⟨pa, by simp [leavesSeq, h1], h2⟩
    · rename_i ht
      obtain ⟨pa, h1, h2⟩ := iht p ht
      exact ⟨pa, by simp [leavesSeq, h1], h2⟩
  · intro p h; simp [Tree.mapMapM] at h
  · intro k t r iht ihr p h
    rw [Tree.mapMapM] at h
    split at h
    · split at h
      · cases h
      · rename_i hr
        obtain ⟨pa, h1, h2⟩ := ihr p hr
        exact ⟨pa, by simp [leavesMap, h1], h2⟩
    · rename_i ht
      obtain ⟨pa, h1, h2⟩ := iht (p ++ [k]) ht
      exact ⟨pa, by simp [leavesMap, h1], h2⟩

/-- The map has only values that can be written. -/
def FiniteMap (x : Fmt) (m : RMap Value) : Prop := x = .json → Holds jsonRep m

/-- The document has only values that can be written. -/
def FiniteDoc (x : Fmt) (d : x.doc.F.Map) : Prop := ∀ m, x.doc.F.toInternal d = .ok m → FiniteMap x m

theorem ofInternal_finite {x : Fmt} {m : RMap Value} {d : x.doc.F.Map} (h : x.doc.F.ofInternal m = some d) : FiniteDoc x d := by
  cases x with
  | yaml => exact fun _ _ h => nomatch h
  | toml => exact fun _ _ h => nomatch h
  | json =>
    intro m' hm' _
    have h : Format.json.ofInternal m = some d := h
    have hm : Holds jsonRep m := by
      apply Classical.byContradiction
      intro hn
      rw [← C28_json_panics, h] at hn
      cases hn
    obtain ⟨d', h1, h2⟩ := C28_json m hm
    rw [h] at h1
    cases h1
    have hm' : Format.json.toInternal d = .ok m' := hm'
    rw [h2] at hm'
    cases hm'
    exact hm

theorem ofInternal_some {x : Fmt} {m : RMap Value} (h : FiniteMap x m) : x.doc.F.ofInternal m ≠ none := by
  cases x with
  | yaml => exact (C55_other_formats m).1
  | toml => exact (C55_other_formats m).2
  | json => exact fun hn => C28_json_panics m |>.1 hn (h rfl)

theorem encOfInternal_some {x : Fmt} {env : EncEnv} {cfg : Option PartialEncryption} {m : RMap Value} {m' : RMap EncLeaf}
    {i j : Nat} {C : Cipher} (h : FiniteMap x m) (he : RMap.encrypt env cfg m i = .ok (m', j)) :
    x.doc.F.encOfInternal C m' ≠ none := by
  cases x with
  | yaml => exact nofun
  | toml => exact nofun
  | json =>
    intro hn
    obtain ⟨⟨p, l⟩, h1, h2⟩ := (mapM_none (JsonScalar.encOfInternal C)).2.2 m' [] hn
    obtain ⟨n, hl⟩ := List.getElem?_of_mem h1
    obtain ⟨_, he⟩ := RMap.encrypt_ok_iff.1 he
    obtain ⟨v, s1, s2, hv, ha⟩ := travList_getElem' he hl
    rcases EncEnv.leafAt_ok.1 ha with ⟨_, rfl, _⟩ | ⟨_, e, rfl, _⟩
    · have hr := h rfl (p, v) (List.mem_of_getElem? hv)
      obtain ⟨s, hs, _⟩ := JsonScalar.toInternal_ofInternal hr
      simp only [JsonScalar.encOfInternal] at h2
      rw [hs] at h2
      cases h2
    · simp [JsonScalar.encOfInternal] at h2

/-! ## Files -/

theorem encryptWith_calm {x : Fmt} {env : Env} {key : Bytes} {sm : Option SavedNonces} {sc : Option SavedMacNonce}
    {g : DecFile x.doc.F} {i : Nat} {e : FileEncryptError} (hg : FiniteDoc x g.map)
    (h : g.encryptWith x.doc.F env key sm sc i = .error e) : ¬ EncryptPanics e := by
  unfold DecFile.encryptWith at h
  split at h
  · rename_i e' he
    cases h
    intro hp
    simp only [EncryptPanics] at hp
    subst hp
    exact toInternal_ne_enc x _ _ he
  · rename_i m hm
    split at h
    · cases h; simp [EncryptPanics]
    · rename_i m' j hm'
      split at h
      · cases h; simp [EncryptPanics]
      · split at h
        · rename_i hn
          exact absurd hn (encOfInternal_some (hg m hm) hm')
        · cases h

theorem encrypt_calm {x : Fmt} {env : Env} (hA : Calm env.toKeyEnv) {g : DecFile x.doc.F} {i : Nat} {e : FileEncryptError}
    (hg : FiniteDoc x g.map) (h : g.encrypt x.doc.F env i = .error e) : ¬ EncryptPanics e := by
  unfold DecFile.encrypt at h
  split at h
  · rename_i e' he
    cases h
    intro hp
    simp only [EncryptPanics] at hp
    subst hp
    exact retrieveDataKey_calm hA _ he
  · exact encryptWith_calm hg h

theorem builder_calm {x : Fmt} {env : Env} (hA : Calm env.toKeyEnv) {b : Builder x.doc.F} {i : Nat} {e : BuilderError}
    (hb : FiniteDoc x b.map) (h : b.encrypt env i = .error e) : ¬ Crash (.builder e) := by
  unfold Builder.encrypt at h
  simp only at h
  split at h
  · rename_i e' he
    cases h
    intro hp
    simp only [Crash, EncryptPanics] at hp
    subst hp
    exact toInternal_ne_enc x _ _ he
  · rename_i m hm
    split at h
    · rename_i e' he
      cases h
      unfold KeyEnv.intoMetadata at he
      split at he
      · cases he; simp [Crash]
      · split at he
        · rename_i e1 im1 j1 h1
          cases he
          intro hp
          simp only [Crash] at hp
          subst hp
          exact addKeys_calm hA _ _ _ _ _ (congrArg Prod.fst h1)
        · split at he
          · rename_i e2 im2 j2 h2
            cases he
            intro hp
            simp only [Crash] at hp
            subst hp
            exact addKeys_calm hA _ _ _ _ _ (congrArg Prod.fst h2)
          · cases he
    · split at h
      · rename_i hm' _
        split at h
        · rename_i hn
          exact absurd hn (encOfInternal_some (hb m hm) hm')
        · cases h
      · cases h; simp [Crash, EncryptPanics]

theorem setMap_calm {x : Fmt} {env : Env} {g : DecFile x.doc.F} {d : x.doc.F.Map} {i : Nat} {e : SetMapError}
    (hd : FiniteDoc x d) (h : g.setMap env d i = .error e) : ¬ Crash (.setMap e) := by
  unfold DecFile.setMap at h
  simp only at h
  split at h
  · rename_i e' he
    cases h
    intro hp
    simp only [Crash] at hp
    subst hp
    exact toInternal_ne_enc x _ _ he
  · rename_i m hm
    split at h
    · rename_i hn
      exact absurd hn (ofInternal_some (hd m hm))
    · cases h

theorem setMap_finite {x : Fmt} {env : Env} {g g' : DecFile x.doc.F} {d : x.doc.F.Map} {i : Nat}
    (h : g.setMap env d i = .ok g') : FiniteDoc x g'.map := by
  unfold DecFile.setMap at h
  simp only at h
  split at h
  · cases h
  · split at h
    · cases h
    · rename_i hm
      cases h
      exact ofInternal_finite hm

theorem decrypt_finite {x : Fmt} {F : Format} {env : Env} {f : EncFile F} {g : DecFile x.doc.F}
    (h : f.decrypt x.doc.F env = .ok g) : FiniteDoc x g.map := by
  obtain ⟨_, _, _, _, _, _, _, h, _⟩ := decrypt_ok_iff.1 h
  exact ofInternal_finite h

theorem decryptAndSave_panics {F Fo : Format} {env : Env} {f : EncFile F} {e : FileDecryptError}
    (h : f.decryptAndSave Fo env = .error e) (hp : Panics e) : f.decrypt Fo env = .error e := by
  unfold EncFile.decryptAndSave at h
  unfold EncFile.decrypt
  cases h1 : env.decryptMetadata f.metadata with
  | error e' => rw [h1] at h; cases h; rfl
  | ok r =>
    obtain ⟨md, key, n⟩ := r
    rw [h1] at h
    simp only at h ⊢
    cases h2 : F.encToInternal env.C env.rx (Resolved.ofConfig md.partialEncryption) f.map with
    | error e' => rw [h2] at h; cases h; rfl
    | ok m' =>
      rw [h2] at h
      simp only at h ⊢
      cases h3 : RMap.decryptAndSave (env.decEnv key) m' with
      | error e' =>
        rw [h3] at h
        cases h
        rcases hp with hp | hp | hp <;> cases hp
      | ok r =>
        obtain ⟨m, ns⟩ := r
        rw [h3] at h
        rw [RMap.decrypt_of_decryptAndSave h3]
        simp only at h ⊢
        cases h4 : env.validateMac m md with
        | error e' => rw [h4] at h; cases h; rfl
        | ok _ =>
          rw [h4] at h
          simp only at h ⊢
          cases h5 : Fo.ofInternal m with
          | none => rw [h5] at h; cases h; rfl
          | some d => rw [h5] at h; cases h

theorem removeKeys_map {F : Format} {env : Env} {k : Kind} {ids : List k.Id} {g g' : DecFile F} {i j : Nat}
    (h : g.removeKeys env k ids i = .ok (g', j)) : g'.map = g.map := by
  induction ids generalizing g i with
  | nil => simp only [DecFile.removeKeys] at h; cases h; rfl
  | cons id r ih =>
    simp only [DecFile.removeKeys] at h
    split at h
    · cases h
    · rename_i g1 j1 h1
      rw [ih h]
      unfold DecFile.removeKey at h1
      simp only [Prod.mk.injEq] at h1
      rw [← h1.2.1]

theorem removeKeys_calm {F : Format} {env : Env} (hA : Calm env.toKeyEnv) {k : Kind} {ids : List k.Id} {g : DecFile F} {i : Nat} :
    g.removeKeys env k ids i ≠ .error .panic := by
  induction ids generalizing g i with
  | nil => simp [DecFile.removeKeys]
  | cons id r ih =>
    simp only [DecFile.removeKeys]
    split
    · rename_i e g1 j1 h1
      intro h
      cases h
      unfold DecFile.removeKey at h1
      exact removeKey_calm (env := env.toKeyEnv) hA _ _ _ _ (congrArg Prod.fst h1)
    · exact ih

theorem fileAddKeys_calm {F : Format} {M : Type} {env : Env} (hA : Calm env.toKeyEnv) {k : Kind} {ids : List k.Id} {f f' : File F M}
    {i j : Nat} {e : AddKeyError} (h : f.addKeys env k ids i = (.error e, f', j)) : ¬ Crash (.addKeys e) := by
  unfold File.addKeys at h
  split at h
  · rename_i e' he
    cases h
    intro hp
    simp only [Crash] at hp
    subst hp
    exact retrieveDataKey_calm hA _ he
  · split at h
    · rename_i e' im j' he
      cases h
      intro hp
      simp only [Crash] at hp
      subst hp
      exact addKeys_calm (env := env.toKeyEnv) hA _ _ _ _ _ (congrArg Prod.fst he)
    · cases h

end Rops
