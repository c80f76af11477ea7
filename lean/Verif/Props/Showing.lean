import Verif.Lemmas.CliHistory
import Verif.Lemmas.ToyHistory
import Verif.Props.Leakage
import Verif.Spec.Showing
/-!
# What the commands show of secrets

C79: with a cipher that shows only lengths, what `encrypt`, `refresh`, `keys remove` and `edit`
leave behind is the same for all secrets of the same types and lengths.
-/

namespace Rops.Props
open Rops Spec

/-- The text of `rops encrypt`, by the builder that the arguments make. -/
theorem encryptText_eq {P : Proc} {x : Fmt} {s : Str} {a : EncryptArgs} {p : Option PartialEncryption} {i : Nat}
    (hs : a.setting = p.map SettingArgs.ofSetting) {map : x.doc.F.Map} (hm : (P.T x).parse s = some map) :
    P.encryptText x s a i =
      match Builder.encrypt P.env { map, partialEncryption := p
                                    macOnlyEncrypted := if a.macOnlyEncrypted.getD false then some true else none
                                    ageKeyIds := a.keys.age, kmsKeyIds := a.keys.kms } i with
      | .error e => .error (.builder e)
      | .ok (f, _) => .ok (EncFile.toText (P.T x) P.env.C f) := by
  unfold Proc.encryptText
  simp only [hm, hs, addToBuilder_fromMap]
  cases p <;> simp only [Option.map_none, Option.map_some, toSetting_ofSetting] <;>
    cases a.macOnlyEncrypted.getD false <;> rfl

/-- **C79.** `rops encrypt` prints and writes the same, and ends with the same result, for two
texts that stand for documents that differ only in secrets of the same types and lengths. -/
theorem C79_encrypt {P Q : Proc} (hQ : OtherContents P Q) {l : EncryptLine} {config : Config}
    (hc : P.retrieveConfig l.input.config = .ok config) (hc' : Q.retrieveConfig l.input.config = .ok config)
    {x : Fmt} (hx : getFormat l.input.file l.input.format = .ok x)
    {s t : Str} (hs : InputText P l.input.file s) (ht : InputText Q l.input.file t)
    {d e : x.doc.F.Map} (hd : (P.T x).parse s = some d) (he : (P.T x).parse t = some e)
    {m n : RMap Value} (hm : x.doc.F.toInternal d = .ok m) (hn : x.doc.F.toInternal e = .ok n)
    {i : Nat} (hC : Opaque P.env.C (P.env.newKey i)) (hH : FixedSize P.env.H)
    (hk : settingFor P.env.rx config l ≠ none → KeysAgree (settingFor P.env.rx config l) m)
    (h : Spec.Alike P.env.rx (settingFor P.env.rx config l) m n) :
    P.run (.encrypt l) i = Q.run (.encrypt l) i := by
  rw [run_encrypt, run_encrypt]
  cases hl : l.args with
  | none => rfl
  | some a =>
    obtain ⟨_, h2, rfl⟩ := encryptArgs_ok.1 hl
    simp only [hc, hc']
    have hrx : Q.env = P.env := by rw [hQ]
    have hT : Q.T = P.T := by rw [hQ]
    rw [hrx]
    simp only [merge_eq]
    unfold Proc.encrypt
    have hi : P.getInput l.input.file (some l.inPlace) = .ok s := getInput_ok.2 ⟨hs, h2⟩
    have hi' : Q.getInput l.input.file (some l.inPlace) = .ok t := getInput_ok.2 ⟨ht, h2⟩
    simp only [hx, hi, hi']
    have hset : (l.setting.map SettingArgs.ofSetting).or
        (((ruleFor P.env.rx config l.input.file).bind CreationRule.partialEncryption).map SettingArgs.ofSetting) =
        (settingFor P.env.rx config l).map SettingArgs.ofSetting := by
      unfold settingFor
      cases l.setting <;> rfl
    rw [encryptText_eq hset hd, encryptText_eq (P := Q) hset (by rw [hT]; exact he), hrx, hT]
    rw [C47_created P.env _
      { map := e, partialEncryption := settingFor P.env.rx config l
        macOnlyEncrypted := _, ageKeyIds := _, kmsKeyIds := _ } i m n hm hn rfl hC hH hk h]
    have hw : ∀ out, Q.writeOrPrint (some l.inPlace) l.input.file out = P.writeOrPrint (some l.inPlace) l.input.file out := by
      intro out; rw [hQ]; rfl
    simp only [hw]

/-- **C79.** `rops refresh` on two files for which the rule is new leaves the same file if their
documents differ only in secrets of the same types and lengths: nothing else of the old files is
in it, neither their recipients and settings nor their data keys. -/
theorem C79_refresh {P Q : Proc} (hQ : OtherContents P Q) {l : PlaceLine} {config : Config}
    (hc : P.retrieveConfig l.input.config = .ok config) (hc' : Q.retrieveConfig l.input.config = .ok config)
    {x : Fmt} (hx : getFormat l.input.file l.input.format = .ok x)
    {s t : Str} (hs : InputText P l.input.file s) (ht : InputText Q l.input.file t)
    {f g : EncFile x.doc.F} (hf : EncFile.ofText (P.T x) P.O P.env.C s = some f)
    (hg : EncFile.ofText (P.T x) P.O P.env.C t = some g)
    {r : CreationRule} (hr : ruleFor P.env.rx config l.input.file = some r)
    (hnf : ¬ Describes r f.metadata) (hng : ¬ Describes r g.metadata)
    {f' g' : DecFile x.doc.F} (hf' : f.decrypt x.doc.F P.env = .ok f') (hg' : g.decrypt x.doc.F P.env = .ok g')
    {m n : RMap Value} (hm : x.doc.F.toInternal f'.map = .ok m) (hn : x.doc.F.toInternal g'.map = .ok n)
    {i : Nat} (hC : Opaque P.env.C (P.env.newKey i)) (hH : FixedSize P.env.H)
    (hk : r.partialEncryption ≠ none → KeysAgree r.partialEncryption m)
    (h : Spec.Alike P.env.rx r.partialEncryption m n) :
    P.run (.refresh l) i = Q.run (.refresh l) i := by
  rw [run_refresh, run_refresh]
  cases hl : l.args with
  | none => rfl
  | some a =>
    obtain ⟨h2, rfl⟩ := placeArgs_ok.1 hl
    have hrx : Q.env = P.env := by rw [hQ]
    have hT : Q.T = P.T := by rw [hQ]
    have hO : Q.O = P.O := by rw [hQ]
    have hi : P.getInput l.input.file (some l.inPlace) = .ok s := getInput_ok.2 ⟨hs, h2⟩
    have hi' : Q.getInput l.input.file (some l.inPlace) = .ok t := getInput_ok.2 ⟨ht, h2⟩
    have hp : P.parseFile x s = .ok f := parseFile_ok.2 hf
    have hp' : Q.parseFile x t = .ok g := parseFile_ok.2 (by rw [hrx, hT, hO]; exact hg)
    have hw : ∀ out, Q.writeOrPrint (some l.inPlace) l.input.file out = P.writeOrPrint (some l.inPlace) l.input.file out := by
      intro out; rw [hQ]; rfl
    unfold Proc.refresh Proc.refreshText
    simp only [hc, hc', hx, hi, hi', hp, hp', hw]
    have hwith : ∀ (R : Proc) (s : Str) (f : EncFile x.doc.F) (f' : DecFile x.doc.F), R.env = P.env → ¬ Describes r f.metadata →
        f.decrypt x.doc.F P.env = .ok f' → ∀ config, ruleFor P.env.rx config l.input.file = some r →
        R.refreshWith x (l.input.file.getD []) s f i config = match (r.builder f'.map).encrypt P.env i with
          | .error e => .error (.builder e)
          | .ok (f, _) => .ok (EncFile.toText (R.T x) P.env.C f) := by
      intro R s f f' hR hnf hf' config
      induction config with
      | nil => intro h; cases h
      | cons q c ih =>
        intro hr
        rw [ruleFor_cons] at hr
        rw [Proc.refreshWith, hR]
        split at hr
        · rename_i hq
          cases hr
          rw [if_pos hq, if_neg (by rw [implies_iff]; exact hnf), hf']
          rfl
        · rename_i hq
          rw [if_neg hq]
          exact ih hr
    rw [hwith P s f f' rfl hnf hf' config hr, hwith Q t g g' hrx hng hg' config hr, rule_builder, rule_builder, hT,
      C47_created P.env _ { map := g'.map, partialEncryption := r.partialEncryption
                            macOnlyEncrypted := _, ageKeyIds := _, kmsKeyIds := _ } i m n hm hn rfl hC hH hk h]

theorem removeKeys_alike {F : Format} (env : Env) (k : Kind) (ids : List k.Id) (f g : DecFile F)
    (h : g.metadata = { f.metadata with mac := g.metadata.mac }) (i : Nat) :
    match f.removeKeys env k ids i, g.removeKeys env k ids i with
    | .ok (f', j), .ok (g', j') => j = j' ∧ f'.map = f.map ∧ g'.map = g.map ∧
        f'.metadata = { f.metadata with integration := f'.metadata.integration } ∧
        g'.metadata = { f'.metadata with mac := g.metadata.mac }
    | .error e, .error e' => e = e'
    | _, _ => False := by
  induction ids generalizing f g i with
  | nil => exact ⟨rfl, rfl, rfl, rfl, h⟩
  | cons id r ih =>
    have hi : g.metadata.integration = f.metadata.integration := by rw [h]
    simp only [DecFile.removeKeys, DecFile.removeKey, hi]
    rcases hr : env.removeKey k id f.metadata.integration i with ⟨res, im, j⟩
    cases res with
    | error e => simp
    | ok o =>
      simp only
      exact ih { f with metadata := { f.metadata with integration := im } }
        { g with metadata := { g.metadata with integration := im } } (by simp only; rw [h]) j

/-- **C79.** `rops keys remove` on two files with the same metadata but for the MAC leaves the same
file if their documents differ only in secrets of the same types and lengths. -/
theorem C79_remove {P Q : Proc} (hQ : OtherContents P Q) {a : KeyArgs} {config config' : Config}
    (hc : P.retrieveConfig none = .ok config) (hc' : Q.retrieveConfig none = .ok config')
    {x : Fmt} (hx : getFormat (some a.file) a.format = .ok x)
    {s t : Str} (hs : InputText P (some a.file) s) (ht : InputText Q (some a.file) t)
    {f g : EncFile x.doc.F} (hf : EncFile.ofText (P.T x) P.O P.env.C s = some f)
    (hg : EncFile.ofText (P.T x) P.O P.env.C t = some g)
    (hset : g.metadata = { f.metadata with mac := g.metadata.mac })
    {f' g' : DecFile x.doc.F} (hf' : f.decrypt x.doc.F P.env = .ok f') (hg' : g.decrypt x.doc.F P.env = .ok g')
    {m n : RMap Value} (hm : x.doc.F.toInternal f'.map = .ok m) (hn : x.doc.F.toInternal g'.map = .ok n)
    (hC : ∀ key, Opaque P.env.C key) (hH : FixedSize P.env.H)
    (hk : f.metadata.partialEncryption ≠ none → KeysAgree f.metadata.partialEncryption m)
    (h : Spec.Alike P.env.rx f.metadata.partialEncryption m n) (i : Nat) :
    P.run (.removeKeys a) i = Q.run (.removeKeys a) i := by
  unfold Proc.run
  simp only [Command.accepted, if_true, Command.configPath, hc, hc', Proc.dispatch]
  have hrx : Q.env = P.env := by rw [hQ]
  have hT : Q.T = P.T := by rw [hQ]
  have hO : Q.O = P.O := by rw [hQ]
  have hi : P.getInput (some a.file) none = .ok s := getInput_ok.2 ⟨hs, by simp⟩
  have hi' : Q.getInput (some a.file) none = .ok t := getInput_ok.2 ⟨ht, by simp⟩
  have hp : P.parseFile x s = .ok f := parseFile_ok.2 hf
  have hp' : Q.parseFile x t = .ok g := parseFile_ok.2 (by rw [hrx, hT, hO]; exact hg)
  have hw : ∀ out, Q.write a.file out = P.write a.file out := by intro out; rw [hQ]; rfl
  unfold Proc.keys Proc.removeKeysText
  simp only [hx, hi, hi', if_true, hp, hp', hw, hrx, hT, hf', hg']
  obtain ⟨_, _, m1, _, _, _, _, _, e1⟩ := decrypt_ok_iff.1 hf'
  obtain ⟨_, _, m2, _, _, _, _, _, e2⟩ := decrypt_ok_iff.1 hg'
  have hmeta : g'.metadata = { f'.metadata with mac := g'.metadata.mac } := by
    rw [e1, e2, hset]; rfl
  have hlen : f'.metadata.mac.length = g'.metadata.mac.length := by
    rw [e1, e2]; exact Mac.compute_length hH ..
  have hpe : f'.metadata.partialEncryption = f.metadata.partialEncryption := by rw [e1]; rfl
  have h1 := removeKeys_alike P.env .age a.keys.age f' g' hmeta i
  cases hr1 : f'.removeKeys P.env .age a.keys.age i with
  | error e =>
    rw [hr1] at h1
    cases hr1' : g'.removeKeys P.env .age a.keys.age i with
    | error e' => rw [hr1'] at h1; simp only at h1 ⊢; rw [h1]
    | ok r => rw [hr1'] at h1; exact h1.elim
  | ok r =>
    obtain ⟨f1, j⟩ := r
    rw [hr1] at h1
    cases hr1' : g'.removeKeys P.env .age a.keys.age i with
    | error e' => rw [hr1'] at h1; exact h1.elim
    | ok r =>
      obtain ⟨g1, j1⟩ := r
      rw [hr1'] at h1
      obtain ⟨rfl, a1, a2, a3, a4⟩ := h1
      have hmac1 : g1.metadata.mac = g'.metadata.mac := by rw [a4]
      have h2 := removeKeys_alike P.env .kms a.keys.kms f1 g1 (by rw [hmac1]; exact a4) j
      simp only
      cases hr2 : f1.removeKeys P.env .kms a.keys.kms j with
      | error e =>
        rw [hr2] at h2
        cases hr2' : g1.removeKeys P.env .kms a.keys.kms j with
        | error e' => rw [hr2'] at h2; simp only at h2 ⊢; rw [h2]
        | ok r => rw [hr2'] at h2; exact h2.elim
      | ok r =>
        obtain ⟨f2, j2⟩ := r
        rw [hr2] at h2
        cases hr2' : g1.removeKeys P.env .kms a.keys.kms j with
        | error e' => rw [hr2'] at h2; exact h2.elim
        | ok r =>
          obtain ⟨g2, j3⟩ := r
          rw [hr2'] at h2
          obtain ⟨rfl, b1, b2, b3, b4⟩ := h2
          have hmac2 : g2.metadata.mac = g1.metadata.mac := by rw [b4]
          have hmacf : f2.metadata.mac = f'.metadata.mac := by rw [b3, a3]
          have hpe2 : f2.metadata.partialEncryption = f.metadata.partialEncryption := by rw [b3, a3]; exact hpe
          simp only
          rw [C47_encrypted_again P.env x.doc.F f2 g2 j2 m n (by rw [b1, a1]; exact hm) (by rw [b2, a2]; exact hn)
            (by rw [hmac2]; exact b4) (by rw [hmacf, hmac2, hmac1]; exact hlen) (fun key _ => hC key)
            (by rw [hpe2]; exact hk) (by rw [hpe2]; exact h)]

theorem lasting_loop {P : Proc} {x : Fmt} {t : Str} (l : List Attempt) : lasting P (P.editLoop x t l).1 = [] := by
  induction l with
  | nil => rfl
  | cons a r ih =>
    cases a with
    | notStarted => rfl
    | failed => rfl
    | left e k =>
      unfold Proc.editLoop
      repeat' split
      all_goals first
        | rfl
        | (rename_i es res hr; rw [hr] at ih; exact ih)

theorem lasting_append (P : Proc) (a b : List Event) : lasting P (a ++ b) = lasting P a ++ lasting P b :=
  List.filter_append ..

/-- Nothing of an editing session is left. -/
theorem lasting_session {P : Proc} {x : Fmt} (map : x.doc.F.Map) : lasting P (P.editSession x map).1 = [] := by
  unfold Proc.editSession
  cases ht : P.temp with
  | none => rfl
  | some t =>
    have hw : ∀ s, lasting P (P.write t s).1 = [] := by
      intro s
      simp [Proc.write, lasting, Lasting, ht]
    have he : lasting P (P.editTemp x t).1 = [] := by
      unfold Proc.editTemp
      split
      · rfl
      · split
        · exact lasting_loop _
        · rfl
    have ht' : ∀ {r : List Event × Except CliError (Option x.doc.F.Map)}, lasting P r.1 = [] → lasting P (withTemp t r).1 = [] := by
      intro r hr
      unfold withTemp
      split
      · exact hr
      · simp only at hr
        show lasting P (_ ++ _) = []
        rw [lasting_append, hr]
        rfl
    simp only
    apply ht'
    cases hr : P.write t ((P.T x).render map) with
    | mk es res =>
      have h1 := hw ((P.T x).render map)
      rw [hr] at h1
      cases res with
      | error e => exact h1
      | ok u =>
        simp only
        show lasting P (es ++ _) = []
        rw [lasting_append, he, h1]
        rfl

theorem editSession_some {P : Proc} {x : Fmt} {map d : x.doc.F.Map} {es : List Event} (hd : Edited (P.T x).parse d P.editor)
    {o : Option x.doc.F.Map} (h : P.editSession x map = (es, .ok o)) : o = some d := by
  have h2 : (P.editSession x map).2 = .ok o := by rw [h]
  rcases editSession_snd (P := P) (map := map) (fun t => editLoop_edited hd) with h1 | ⟨e, h1, _⟩
  · rw [h2] at h1; cases h1; rfl
  · rw [h2] at h1; cases h1

/-- **C79.** `rops edit`: two edits of a file to documents that differ only in secrets of the same
types and lengths leave the same file and print the same, if both or none change the document,
and the same values, and the MAC, are as before. -/
theorem C79_edit {P Q : Proc} (hQ : OtherEdits P Q) {a : InputArgs} {i : Nat} {es es' : List Event}
    (h1 : P.run (.edit a) i = (es, .ok ())) (h2 : Q.run (.edit a) i = (es', .ok ()))
    {x : Fmt} (hx : getFormat a.file a.format = .ok x) {s : Str} (hs : InputText P a.file s)
    {f : EncFile x.doc.F} (hf : EncFile.ofText (P.T x) P.O P.env.C s = some f)
    {g : DecFile x.doc.F} {p : SavedParameters} (hg : f.decryptAndSave x.doc.F P.env = .ok (g, p))
    {d e : x.doc.F.Map} (hd : Edited (P.T x).parse d P.editor) (he : Edited (P.T x).parse e Q.editor)
    {m n : RMap Value} (hm : x.doc.F.toInternal d = .ok m) (hn : x.doc.F.toInternal e = .ok n)
    (hmr : Holds (docRep x) m) (hnr : Holds (docRep x) n)
    (hC : Opaque P.env.C p.dataKey) (hH : FixedSize P.env.H)
    (hk : f.metadata.partialEncryption ≠ none → KeysAgree f.metadata.partialEncryption m)
    (h : Spec.Alike P.env.rx f.metadata.partialEncryption m n)
    (hsame : x.doc.F.eq g.map d = x.doc.F.eq g.map e)
    (hnonce : Zip (SameNonce p.mapNonces) (leaves m) (leaves n))
    (hmac : p.macNonce.mac = P.env.macOf f.metadata m ↔ p.macNonce.mac = P.env.macOf f.metadata n) :
    lasting P es = lasting P es' := by
  have hrx : Q.env = P.env := by rw [hQ]
  have hT : Q.T = P.T := by rw [hQ]
  have hO : Q.O = P.O := by rw [hQ]
  have htemp : lasting Q = lasting P := by rw [hQ]; rfl
  obtain ⟨_, x1, s1, f1, g1, p1, a1, a2, a3, a4, a5⟩ := run_edit_ok.1 h1
  obtain ⟨_, x2, s2, f2, g2, p2, b1, b2, b3, b4, b5⟩ := run_edit_ok.1 h2
  rw [hx] at a1 b1
  cases a1
  cases b1
  have hs' : InputText Q a.file s := by rw [hQ]; exact hs
  cases inputText_unique hs a2
  cases inputText_unique hs' b2
  rw [hf] at a3
  cases a3
  rw [hT, hO, hrx, hf] at b3
  cases b3
  rw [hg] at a4
  cases a4
  rw [hrx, hg] at b4
  cases b4
  rcases a5 with a5 | ⟨d', out, e1, e2, c1, c2, rfl, c3⟩
  · have := editSession_some hd a5; cases this
  rcases b5 with b5 | ⟨e', out', e1', e2', c1', c2', rfl, c3'⟩
  · have := editSession_some (P := Q) (by rw [hT]; exact he) b5; cases this
  have := editSession_some hd c1
  cases this
  have := editSession_some (P := Q) (by rw [hT]; exact he) c1'
  cases this
  have hl1 : lasting P e1 = [] := by have := lasting_session (P := P) (x := x) g.map; rw [c1] at this; exact this
  have hl2 : lasting P e1' = [] := by
    have := lasting_session (P := Q) (x := x) g.map
    rw [c1', htemp] at this
    exact this
  have hout : out = out' := by
    unfold Proc.editedText DecFile.setMap at c2 c2'
    rw [hrx, hT] at c2'
    obtain ⟨y, hy1, hy2⟩ := (docRep_lawful x).round_trip m hmr
    obtain ⟨z, hz1, hz2⟩ := (docRep_lawful x).round_trip n hnr
    simp only [hm, hn, hy1, hz1] at c2 c2'
    obtain ⟨_, _, _, _, _, _, _, _, hgm, _⟩ := decryptAndSave_ok_iff.1 hg
    have hmo : ∀ k, P.env.macOf g.metadata k = P.env.macOf f.metadata k := by intro k; rw [hgm]; rfl
    have hpe : g.metadata.partialEncryption = f.metadata.partialEncryption := by rw [hgm]; rfl
    rw [hsame] at c2
    have := C47_edited P.env x.doc.F p
      { map := y, metadata := { g.metadata with
          lastModified := if (!x.doc.F.eq g.map e) = true then (P.env.clock i).truncate else g.metadata.lastModified
          mac := P.env.macOf g.metadata m } }
      { map := z, metadata := { g.metadata with
          lastModified := if (!x.doc.F.eq g.map e) = true then (P.env.clock i).truncate else g.metadata.lastModified
          mac := P.env.macOf g.metadata n } }
      i m n hy2 hz2 rfl (Mac.compute_length hH ..) hC (by simp only [hpe]; exact hk) (by simp only [hpe]; exact h) hnonce
      (by simp only [hmo]; exact hmac)
    rw [this] at c2
    rw [c2] at c2'
    cases c2'
    rfl
  subst hout
  have hdel : e2 = e2' := by
    have hst : Q.stdin = P.stdin := by rw [hQ]
    rw [hst] at c3'
    rcases c3 with ⟨k1, q, k2, _, rfl⟩ | ⟨k1, _, rfl⟩
    · rcases c3' with ⟨_, q', k2', _, rfl⟩ | ⟨k1', _⟩
      · rw [k2] at k2'; cases k2'; rfl
      · rw [k1] at k1'; cases k1'
    · rcases c3' with ⟨k1', _⟩ | ⟨_, _, rfl⟩
      · rw [k1] at k1'; cases k1'
      · rfl
  rw [lasting_append, lasting_append, hl1, hl2, hdel]

/-! ### Examples -/

/-- Example: a cipher that encrypts to zeros, and decrypts what a cipher encrypted that shows its
plaintexts. -/
def veilCipher : Cipher := { zeroCipher with decrypt := fun _ _ c _ _ => some c }

/-- Example: the cipher that shows its plaintexts. -/
def bareCipher : Cipher := { zeroCipher with encrypt := fun _ _ p _ => some (p, [0, 0]) }

/-- Example: the environments with these. -/
def veilEnv : Env := { Toy.env with C := veilCipher, H := byteHasher }
def bareEnv : Env := { Toy.env with C := bareCipher, H := byteHasher }

theorem veilCipher_opaque (key : Bytes) : Opaque veilEnv.C key := zeroCipher_opaque key

/-- Example: documents with a secret. -/
def oneDoc (v : Str) : DocFormat.json.F.Map := [(c!"a", .leaf (.str v)), (c!"b_plain", .leaf (.bool true))]

/-- Their maps. -/
def oneMap (v : Str) : RMap Value := [(c!"a", .leaf (.string v)), (c!"b_plain", .leaf (.boolean true))]

/-- The process for which the file has this text. -/
def veilProc (content : Str) (editor : List Attempt) : Proc := { Toy.proc Toy.rule content editor with env := veilEnv }

theorem oneMap_alike {v w : Str} (h : (utf8 v).length = (utf8 w).length) (rx : RegexMatch)
    (hp : ¬ Plain rx (some (.unencryptedSuffix c!"_plain")) [c!"a"]) :
    Spec.Alike rx (some (.unencryptedSuffix c!"_plain")) (oneMap v) (oneMap w) :=
  ⟨rfl, .cons ⟨rfl, rfl, h, fun h => absurd h hp⟩ (.cons ⟨rfl, rfl, rfl, fun _ => rfl⟩ .nil)⟩

theorem oneMap_keys (v : Str) : KeysAgree (some (.unencryptedSuffix c!"_plain")) (oneMap v) := by
  exact .inr ⟨c!"_plain", by decide, .inr rfl⟩

theorem veil_config (content : Str) (editor : List Attempt) :
    (veilProc content editor).retrieveConfig none = .ok [Toy.creationRule] :=
  (retrieveConfig_files (P := Toy.proc Toy.rule content editor) rfl rfl rfl rfl (fun _ _ => rfl) (fun _ _ => rfl)
    (fun _ _ _ _ => rfl)).trans (Toy.proc_config content editor)

-- `rops encrypt -i a.json` with the secrets "x" and "y"
example : (veilProc (Toy.mapText (oneDoc c!"x")) []).run (.encrypt Toy.encryptLine) 0 =
      (veilProc (Toy.mapText (oneDoc c!"y")) []).run (.encrypt Toy.encryptLine) 0 ∧
    ((veilProc (Toy.mapText (oneDoc c!"x")) []).run (.encrypt Toy.encryptLine) 0).2 = .ok () := by
  refine ⟨?_, by decide +kernel⟩
  have hs : settingFor veilEnv.rx [Toy.creationRule] Toy.encryptLine = some (.unencryptedSuffix c!"_plain") := by decide +kernel
  refine C79_encrypt (P := veilProc _ []) (Q := veilProc _ []) (l := Toy.encryptLine) (x := .json) (config := [Toy.creationRule]) rfl
    (veil_config _ _) (veil_config _ _) (by decide +kernel)
    (.inl ⟨_, _, rfl, rfl, rfl, utf8?_utf8 _⟩) (.inl ⟨_, _, rfl, rfl, rfl, utf8?_utf8 _⟩)
    (Toy.jsonText_laws.parse_render (oneDoc c!"x") trivial) (Toy.jsonText_laws.parse_render (oneDoc c!"y") trivial)
    (m := oneMap c!"x") (n := oneMap c!"y") rfl rfl (veilCipher_opaque _) (fun _ _ => rfl) ?_ ?_
  · intro _
    show KeysAgree (settingFor veilEnv.rx [Toy.creationRule] Toy.encryptLine) _
    rw [hs]; exact oneMap_keys _
  · show Spec.Alike veilEnv.rx (settingFor veilEnv.rx [Toy.creationRule] Toy.encryptLine) _ _
    rw [hs]
    exact oneMap_alike (v := c!"x") (w := c!"y") rfl veilEnv.rx (by decide)

/-- Example: the text of a file with two recipients, made with the cipher that shows its
plaintexts. -/
def bareText (v : Str) : Str :=
  match Builder.encrypt bareEnv { Toy.smallBuilder with map := oneDoc v } 0 with
  | .ok (f, _) => EncFile.toText (Toy.texts Toy.rule .json) bareCipher f
  | .error _ => []

/-- The parts of the units of a file for age keys. -/
def ageParts (f : EncFile Format.json) : List (Str × Option Timestamp × Str) :=
  f.metadata.integration.age.map fun u => (u.keyId, u.createdAt, u.enc)

/-- What is checked of it. -/
def bareCheck (v : Str) : Bool :=
  match EncFile.ofText (Toy.texts Toy.rule .json) Toy.docOps veilCipher (bareText v) with
  | none => false
  | some f => !Toy.creationRule.implies f.metadata && decide (f.metadata.partialEncryption = some (.unencryptedSuffix c!"_plain")) &&
    decide (ageParts f = [(c!"pk2", none, c!"pk2,AAcHBwcHBwcHBwcHBwcHBwcHBwcHBwcHBwcHBwcHBwc="),
      (c!"pk1", none, c!"pk1,AAcHBwcHBwcHBwcHBwcHBwcHBwcHBwcHBwcHBwcHBwc=")]) &&
    decide (f.metadata.integration.kms.length = 0) && decide (f.metadata.lastModified = ⟨2024, 1, 2, 3, 4, 4, 0⟩) &&
    decide (f.metadata.macOnlyEncrypted = none) &&
    match f.decryptAndSave Format.json veilEnv with
    | .error _ => false
    | .ok (g, p) => decide (Toy.mapText g.map = Toy.mapText (oneDoc v)) &&
        decide (p.mapNonces.get (pathText [c!"a"]) (.string c!"y") = none) &&
        decide (p.mapNonces.get (pathText [c!"a"]) (.string c!"z") = none) &&
        decide (p.macNonce.mac ≠ veilEnv.macOf f.metadata (oneMap c!"y")) &&
        decide (p.macNonce.mac ≠ veilEnv.macOf f.metadata (oneMap c!"z"))

/-- What the metadata of these files are. -/
def bareMetadata {M : Type} (mac : M) : Metadata M where
  integration :=
    { kms := []
      age := [⟨c!"pk2", none, c!"pk2,AAcHBwcHBwcHBwcHBwcHBwcHBwcHBwcHBwcHBwcHBwc="⟩,
        ⟨c!"pk1", none, c!"pk1,AAcHBwcHBwcHBwcHBwcHBwcHBwcHBwcHBwcHBwcHBwc="⟩] }
  lastModified := ⟨2024, 1, 2, 3, 4, 4, 0⟩
  mac
  partialEncryption := some (.unencryptedSuffix c!"_plain")
  macOnlyEncrypted := none

theorem mapText_injective {a b : DocFormat.json.F.Map} (h : Toy.mapText a = Toy.mapText b) : a = b := by
  have h1 := Toy.jsonText_laws.parse_render a trivial
  have h2 := Toy.jsonText_laws.parse_render b trivial
  change Toy.jsonText.parse (Toy.mapText a) = some a at h1
  change Toy.jsonText.parse (Toy.mapText b) = some b at h2
  rw [h, h2] at h1
  cases h1
  rfl

theorem bareText_read {v : Str} (h : bareCheck v = true) :
    ∃ f g p, EncFile.ofText (Toy.texts Toy.rule .json) Toy.docOps veilCipher (bareText v) = some f ∧
      ¬ Describes Toy.creationRule f.metadata ∧ f.metadata = bareMetadata f.metadata.mac ∧
      f.decryptAndSave Format.json veilEnv = .ok (g, p) ∧ g.map = oneDoc v ∧
      p.mapNonces.get (pathText [c!"a"]) (.string c!"y") = none ∧ p.mapNonces.get (pathText [c!"a"]) (.string c!"z") = none ∧
      p.macNonce.mac ≠ veilEnv.macOf f.metadata (oneMap c!"y") ∧ p.macNonce.mac ≠ veilEnv.macOf f.metadata (oneMap c!"z") := by
  unfold bareCheck at h
  cases hf : EncFile.ofText (Toy.texts Toy.rule .json) Toy.docOps veilCipher (bareText v) with
  | none => rw [hf] at h; cases h
  | some f =>
    rw [hf] at h
    simp only at h
    cases hg : f.decryptAndSave Format.json veilEnv with
    | error e => rw [hg] at h; simp at h
    | ok r =>
      obtain ⟨g, p⟩ := r
      rw [hg] at h
      simp only [Bool.and_eq_true, Bool.not_eq_true', decide_eq_true_eq] at h
      obtain ⟨⟨⟨⟨⟨⟨h1, h2⟩, h3⟩, h4⟩, h5⟩, h6⟩, ⟨⟨⟨h7, h8⟩, h9⟩, h10⟩, h11⟩ := h
      refine ⟨f, g, p, rfl, by rw [← implies_iff, h1]; simp, ?_, hg, mapText_injective h7, h8, h9, h10, h11⟩
      obtain ⟨fm, ⟨⟨kms, age⟩, lm, mac, pe, mo⟩⟩ := f
      unfold ageParts at h3
      simp only at h2 h3 h4 h5 h6
      cases List.eq_nil_of_length_eq_zero h4
      subst h2 h5 h6
      match age, h3 with
      | [⟨a, b, c⟩, ⟨d, e, g⟩], h3 =>
        simp only [List.map_cons, List.map_nil, List.cons.injEq, Prod.mk.injEq, and_true] at h3
        obtain ⟨⟨rfl, rfl, rfl⟩, rfl, rfl, rfl⟩ := h3
        rfl

theorem bareText_x : bareCheck c!"x" = true := by decide +kernel
theorem bareText_w : bareCheck c!"w" = true := by decide +kernel

theorem decrypt_of_saved {F Fo : Format} {env : Env} {f : EncFile F} {g : DecFile Fo} {p : SavedParameters}
    (h : f.decryptAndSave Fo env = .ok (g, p)) : f.decrypt Fo env = .ok g := by
  obtain ⟨key, m', m, h1, h2, h3, h4, h5, h6, _⟩ := decryptAndSave_ok_iff.1 h
  exact decrypt_ok_iff.2 ⟨key, m', m, h1, h2, h3, h4, h5, h6⟩

-- `rops refresh -i a.json` by a rule without "pk2", with the secrets "x" and "w"
example : (veilProc (bareText c!"x") []).run (.refresh Toy.placeLine) 7 = (veilProc (bareText c!"w") []).run (.refresh Toy.placeLine) 7 ∧
    ((veilProc (bareText c!"x") []).run (.refresh Toy.placeLine) 7).2 = .ok () := by
  refine ⟨?_, by decide +kernel⟩
  obtain ⟨f, f', p, h1, h2, _, h4, h5, _⟩ := bareText_read bareText_x
  obtain ⟨g, g', q, k1, k2, _, k4, k5, _⟩ := bareText_read bareText_w
  exact C79_refresh (P := veilProc _ []) (Q := veilProc _ []) (l := Toy.placeLine) (x := .json) (config := [Toy.creationRule]) rfl
    (veil_config _ _) (veil_config _ _) (by decide +kernel)
    (.inl ⟨_, _, rfl, rfl, rfl, utf8?_utf8 _⟩) (.inl ⟨_, _, rfl, rfl, rfl, utf8?_utf8 _⟩) h1 k1
    (r := Toy.creationRule) (by decide +kernel) h2 k2 (decrypt_of_saved h4) (decrypt_of_saved k4)
    (m := oneMap c!"x") (n := oneMap c!"w") (by rw [h5]; rfl) (by rw [k5]; rfl) (veilCipher_opaque _) (fun _ _ => rfl)
    (fun _ => oneMap_keys _) (oneMap_alike (v := c!"x") (w := c!"w") rfl veilEnv.rx (by decide))

-- `rops keys remove --age pk2 a.json` with the secrets "x" and "w"
example : (veilProc (bareText c!"x") []).run (.removeKeys Toy.removeArgs) 7 =
    (veilProc (bareText c!"w") []).run (.removeKeys Toy.removeArgs) 7 := by
  obtain ⟨f, f', p, h1, _, h3, h4, h5, _⟩ := bareText_read bareText_x
  obtain ⟨g, g', q, k1, _, k3, k4, k5, _⟩ := bareText_read bareText_w
  have hpe : f.metadata.partialEncryption = some (.unencryptedSuffix c!"_plain") := by rw [h3]; rfl
  refine C79_remove (P := veilProc _ []) (Q := veilProc _ []) (a := Toy.removeArgs) (x := .json) rfl
    (veil_config _ _) (veil_config _ _) (by decide +kernel)
    (.inl ⟨_, _, rfl, rfl, rfl, utf8?_utf8 _⟩) (.inl ⟨_, _, rfl, rfl, rfl, utf8?_utf8 _⟩) h1 k1 (by rw [h3, k3]; rfl)
    (decrypt_of_saved h4) (decrypt_of_saved k4)
    (m := oneMap c!"x") (n := oneMap c!"w") (by rw [h5]; rfl) (by rw [k5]; rfl) veilCipher_opaque (fun _ _ => rfl)
    ?_ ?_ 7
  · rw [hpe]; exact fun _ => oneMap_keys _
  · rw [hpe]; exact oneMap_alike (v := c!"x") (w := c!"w") rfl veilEnv.rx (by decide)

theorem ran_ok {r : Run} (h : r.2 = .ok ()) : ∃ es, r = (es, .ok ()) := ⟨r.1, Prod.ext rfl h⟩

/-- Example: a session that leaves a document. -/
def leaves1 (v : Str) : List Attempt := [.left (.data (utf8 (Toy.mapText (oneDoc v)))) .key]

theorem leaves1_edited (v : Str) : Edited Toy.jsonText.parse (oneDoc v) (leaves1 v) :=
  .now (utf8?_utf8 _) (Toy.jsonText_laws.parse_render (oneDoc v) trivial)

-- `rops edit a.json` that changes the secret "x" to "y" and to "z"
example : ∃ es es', (veilProc (bareText c!"x") (leaves1 c!"y")).run (.edit Toy.input) 7 = (es, .ok ()) ∧
    (veilProc (bareText c!"x") (leaves1 c!"z")).run (.edit Toy.input) 7 = (es', .ok ()) ∧
    lasting (veilProc (bareText c!"x") []) es = lasting (veilProc (bareText c!"x") []) es' := by
  have hy : ((veilProc (bareText c!"x") (leaves1 c!"y")).run (.edit Toy.input) 7).2 = .ok () := by decide +kernel
  have hz : ((veilProc (bareText c!"x") (leaves1 c!"z")).run (.edit Toy.input) 7).2 = .ok () := by decide +kernel
  obtain ⟨f, g, p, h1, _, h3, h4, h5, h6, h7, h8, h9⟩ := bareText_read bareText_x
  have hpe : f.metadata.partialEncryption = some (.unencryptedSuffix c!"_plain") := by rw [h3]; rfl
  obtain ⟨es, hes⟩ := ran_ok hy
  obtain ⟨es', hes'⟩ := ran_ok hz
  refine ⟨es, es', hes, hes', ?_⟩
  show lasting (veilProc (bareText c!"x") (leaves1 c!"y")) es = lasting (veilProc (bareText c!"x") (leaves1 c!"y")) es'
  refine C79_edit (P := veilProc _ (leaves1 c!"y")) (Q := veilProc _ (leaves1 c!"z")) (a := Toy.input) (x := .json) rfl
    hes hes' (by decide +kernel) (.inl ⟨_, _, rfl, rfl, rfl, utf8?_utf8 _⟩) h1 h4
    (leaves1_edited _) (leaves1_edited _) (m := oneMap c!"y") (n := oneMap c!"z") rfl rfl ?_ ?_ (veilCipher_opaque _) (fun _ _ => rfl)
    ?_ ?_ ?_ ?_ ?_
  · intro pv hp
    rcases hp with _ | ⟨_, _ | ⟨_, hp⟩⟩
    · trivial
    · trivial
    · cases hp
  · intro pv hp
    rcases hp with _ | ⟨_, _ | ⟨_, hp⟩⟩
    · trivial
    · trivial
    · cases hp
  · rw [hpe]; exact fun _ => oneMap_keys _
  · rw [hpe]; exact oneMap_alike (v := c!"y") (w := c!"z") rfl veilEnv.rx (by decide)
  · rw [h5]; decide +kernel
  · exact .cons (h6.trans h7.symm) (.cons rfl .nil)
  · exact ⟨fun h => absurd h h8, fun h => absurd h h9⟩

end Rops.Props
