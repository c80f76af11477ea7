import Verif.Props.Outsiders
import Verif.Lemmas.CliHistory
import Verif.Props.Documents
/-!
# What people without the new data key learn

C62 what `rops refresh` and `rops keys remove` show of a file that they encrypt anew.
-/

namespace Rops.Props
open Spec

theorem delivered_same {P Q : Proc} (hS : Q.saves = P.saves) (hO : Q.stdout = P.stdout) {inPlace : Bool} {file : Option Str} {out : Str}
    {es : List Event} (h : Delivered P inPlace file out es) : Delivered Q inPlace file out es := by
  unfold Delivered at h ⊢
  rw [hS, hO]
  exact h

/-- **C62.** Two runs of `rops refresh` that find files which are to be encrypted anew and have
contents that differ only in values to be encrypted under the rule, with the same types and byte
counts, print and write exactly the same. The old files may be different altogether. -/
theorem C62_refresh {P Q : Proc} (hPQ : Q = { P with file := Q.file, stdin := Q.stdin }) {l : PlaceLine} {i : Nat}
    {es : List Event} (h : P.run (.refresh l) i = (es, .ok ())) {config : Config}
    (hc : P.retrieveConfig l.input.config = .ok config) (hc' : Q.retrieveConfig l.input.config = .ok config)
    {x : Fmt} (hx : getFormat l.input.file l.input.format = .ok x) {s s' : Str}
    (hs : InputText P l.input.file s) (hs' : InputText Q l.input.file s') {f f' : EncFile x.doc.F}
    (hf : EncFile.ofText (P.T x) P.O P.env.C s = some f) (hf' : EncFile.ofText (P.T x) P.O P.env.C s' = some f')
    {r : CreationRule} (hr : ruleFor P.env.rx config l.input.file = some r) (hd : ¬ Describes r f.metadata)
    (hd' : ¬ Describes r f'.metadata) {g g' : DecFile x.doc.F} (hg : f.decrypt x.doc.F P.env = .ok g)
    (hg' : f'.decrypt x.doc.F P.env = .ok g') {m n : RMap Value}
    (hm : x.doc.F.toInternal g.map = .ok m) (hn : x.doc.F.toInternal g'.map = .ok n)
    (hC : Opaque P.env.C (P.env.newKey i)) (hH : FixedSize P.env.H)
    (hk : r.partialEncryption ≠ none → KeysAgree r.partialEncryption m) (hmn : Spec.Alike P.env.rx r.partialEncryption m n) :
    Q.run (.refresh l) i = (es, .ok ()) := by
  obtain ⟨h1, config1, x1, s1, f1, out, h2, h3, h4, h5, h6, h7⟩ := run_refresh_ok.1 h
  rw [hc] at h2
  cases h2
  rw [hx] at h3
  cases h3
  cases inputText_unique hs h4
  rw [hf] at h5
  cases h5
  have hT : Q.T = P.T := by rw [hPQ]
  have hE : Q.env = P.env := by rw [hPQ]
  have hO : Q.O = P.O := by rw [hPQ]
  have hS : Q.saves = P.saves := by rw [hPQ]
  have hO' : Q.stdout = P.stdout := by rw [hPQ]
  refine run_refresh_ok.2 ⟨h1, config, x, s', f', out, hc', hx, hs', by rw [hT, hO, hE]; exact hf', ?_, delivered_same hS hO' h7⟩
  rcases refreshWith_ok.1 h6 with ⟨h8, _⟩ | ⟨r1, hr1, _, g1, f2, j, hg1, hb, rfl⟩
  · exact absurd (h8 r hr) hd
  · rw [hr] at hr1
    cases hr1
    rw [hg] at hg1
    cases hg1
    refine refreshWith_ok.2 (.inr ⟨r, by rw [hE]; exact hr, hd', g', f2, j, by rw [hE]; exact hg', ?_, by rw [hT, hE]⟩)
    rw [hE, ← hb]
    exact (C47_created P.env _ _ i m n hm hn rfl hC hH hk hmn).symm

/-! ## Removing keys -/

theorem removeKey_file {env : Env} {F : Format} {k : Kind} {id : k.Id} {g g1 : DecFile F} {i j : Nat}
    {o : Option (IUnit k)} (h : g.removeKey env k id i = (.ok o, g1, j)) :
    ∃ im, env.removeKey k id g.metadata.integration i = (.ok o, im, j) ∧
      g1 = { g with metadata := { g.metadata with integration := im } } := by
  unfold DecFile.removeKey at h
  rcases hx : env.removeKey k id g.metadata.integration i with ⟨res, im, i2⟩
  rw [hx] at h
  simp only [Prod.mk.injEq] at h
  obtain ⟨rfl, rfl, rfl⟩ := h
  exact ⟨im, rfl, rfl⟩

/-- The keys are removed, whatever the content and the MAC. -/
theorem removeKeys_other {env : Env} {F : Format} {k : Kind} {ids : List k.Id} {g g1 : DecFile F} {i j : Nat}
    (h : g.removeKeys env k ids i = .ok (g1, j)) :
    g1 = { g with metadata := { g.metadata with integration := g1.metadata.integration } } ∧
    ∀ g' : DecFile F, g'.metadata.integration = g.metadata.integration →
      g'.removeKeys env k ids i =
        .ok ({ g' with metadata := { g'.metadata with integration := g1.metadata.integration } }, j) := by
  induction ids generalizing g i with
  | nil =>
    unfold DecFile.removeKeys at h
    cases h
    refine ⟨rfl, fun g' hg' => ?_⟩
    unfold DecFile.removeKeys
    rw [← hg']
  | cons id r ih =>
    unfold DecFile.removeKeys at h
    split at h
    · cases h
    · rename_i o g2 i2 h1
      obtain ⟨im, h2, rfl⟩ := removeKey_file h1
      obtain ⟨h3, h4⟩ := ih h
      refine ⟨h3, fun g' hg' => ?_⟩
      unfold DecFile.removeKeys DecFile.removeKey
      rw [hg', h2]
      exact h4 { g' with metadata := { g'.metadata with integration := im } } rfl

/-- Once a key was removed, all units hold a data key made meanwhile. -/
theorem removeKeys_new {env : Env} {F : Format} {k : Kind} {ids : List k.Id} {g g1 : DecFile F} {i j : Nat}
    (h : g.removeKeys env k ids i = .ok (g1, j)) :
    i ≤ j ∧ ((g1 = g ∧ ∀ id ∈ ids, id ∉ keyIds g.metadata.integration k) ∨
      ∃ n, i ≤ n ∧ AllWrap env.A env.K g1.metadata.integration (env.newKey n)) := by
  induction ids generalizing g i with
  | nil =>
    unfold DecFile.removeKeys at h
    cases h
    exact ⟨Nat.le_refl _, .inl ⟨rfl, fun _ h => by cases h⟩⟩
  | cons id r ih =>
    unfold DecFile.removeKeys at h
    split at h
    · cases h
    · rename_i o g2 i2 h1
      obtain ⟨im, h2, rfl⟩ := removeKey_file h1
      obtain ⟨h3, h4⟩ := ih h
      cases o with
      | none =>
        obtain ⟨h5, rfl, rfl⟩ := removeKey_none h2
        refine ⟨h3, ?_⟩
        rcases h4 with ⟨rfl, h4⟩ | ⟨n, hn, h4⟩
        · exact .inl ⟨rfl, fun id' hid => by
            rcases List.mem_cons.1 hid with rfl | hid
            · exact h5
            · exact h4 _ hid⟩
        · exact .inr ⟨n, hn, h4⟩
      | some u =>
        obtain ⟨_, _, _, _, h6, h7⟩ := removeKey_some h2
        refine ⟨by omega, .inr ?_⟩
        rcases h4 with ⟨rfl, _⟩ | ⟨n, hn, h4⟩
        · exact ⟨i, Nat.le_refl _, h6⟩
        · exact ⟨n, by omega, h4⟩

/-- **C62.** Two runs of `rops keys remove` that remove some key and find files with the same
metadata, apart from the MAC, and contents that differ only in values to be encrypted, with the same
types and byte counts, write exactly the same. So whoever lost their key sees of what is written
nothing but types and lengths, although they have the old data key. -/
theorem C62_keys_remove {P Q : Proc} (hPQ : Q = { P with file := Q.file, stdin := Q.stdin }) {a : KeyArgs} {i : Nat}
    {es : List Event} (h : P.run (.removeKeys a) i = (es, .ok ())) {config : Config}
    (hc' : Q.retrieveConfig none = .ok config)
    {x : Fmt} (hx : getFormat (some a.file) a.format = .ok x) {s s' : Str}
    (hs : InputText P (some a.file) s) (hs' : InputText Q (some a.file) s') {f f' : EncFile x.doc.F}
    (hf : EncFile.ofText (P.T x) P.O P.env.C s = some f) (hf' : EncFile.ofText (P.T x) P.O P.env.C s' = some f')
    (hmeta : f'.metadata = { f.metadata with mac := f'.metadata.mac })
    {g g' : DecFile x.doc.F} (hg : f.decrypt x.doc.F P.env = .ok g) (hg' : f'.decrypt x.doc.F P.env = .ok g')
    (hrem : (∃ id ∈ a.keys.age, id ∈ keyIds f.metadata.integration .age) ∨
      ∃ id ∈ a.keys.kms, id ∈ keyIds f.metadata.integration .kms) {m n : RMap Value}
    (hm : x.doc.F.toInternal g.map = .ok m) (hn : x.doc.F.toInternal g'.map = .ok n)
    (hA : AgeLaws P.env.A) (hK : KmsLaws P.env.K) (hlen : ∀ j, (P.env.newKey j).length = 32)
    (hC : ∀ j, i ≤ j → Opaque P.env.C (P.env.newKey j)) (hH : FixedSize P.env.H)
    (hk : f.metadata.partialEncryption ≠ none → KeysAgree f.metadata.partialEncryption m)
    (hmn : Spec.Alike P.env.rx f.metadata.partialEncryption m n) :
    Q.run (.removeKeys a) i = (es, .ok ()) := by
  obtain ⟨_, x1, s1, f1, g0, g1, g2, j, j', j'', f2, h1, h2, h3, h4, h5, h6, h7, h8⟩ := run_removeKeys_ok.1 h
  rw [hx] at h1
  cases h1
  cases inputText_unique hs h2
  rw [hf] at h3
  cases h3
  rw [hg] at h4
  cases h4
  have hT : Q.T = P.T := by rw [hPQ]
  have hE : Q.env = P.env := by rw [hPQ]
  have hO : Q.O = P.O := by rw [hPQ]
  have hS : Q.saves = P.saves := by rw [hPQ]
  have hO' : Q.stdout = P.stdout := by rw [hPQ]
  obtain ⟨_, _, mm, _, _, _, _, _, hgm⟩ := decrypt_ok_iff.1 hg
  obtain ⟨_, _, mm', _, _, _, _, _, hgm'⟩ := decrypt_ok_iff.1 hg'
  have hmeta2 : g'.metadata = { g.metadata with mac := g'.metadata.mac } := by
    rw [hgm, hgm', hmeta]
    rfl
  have hmac : g.metadata.mac.length = g'.metadata.mac.length := by
    rw [hgm, hgm']
    exact Mac.compute_length hH _ _ _ _ _
  have hi : g'.metadata.integration = g.metadata.integration := by rw [hmeta2]
  obtain ⟨e1, r1⟩ := removeKeys_other h5
  obtain ⟨e2, r2⟩ := removeKeys_other h6
  have r1' := r1 g' hi
  have r2' := r2 { g' with metadata := { g'.metadata with integration := g1.metadata.integration } } rfl
  have hp : g2.metadata.partialEncryption = f.metadata.partialEncryption := by
    rw [e2]
    show g1.metadata.partialEncryption = _
    rw [e1]
    show g.metadata.partialEncryption = _
    rw [hgm]
    rfl
  have hmap : g2.map = g.map := by
    rw [e2]
    show g1.map = _
    rw [e1]
  have hnew : ∃ q, i ≤ q ∧ AllWrap P.env.A P.env.K g2.metadata.integration (P.env.newKey q) := by
    obtain ⟨l1, w1⟩ := removeKeys_new h5
    obtain ⟨l2, w2⟩ := removeKeys_new h6
    rcases w2 with ⟨rfl, w2⟩ | ⟨q, hq, w2⟩
    · rcases w1 with ⟨rfl, w1⟩ | ⟨q, hq, w1⟩
      · have hint : g2.metadata.integration = f.metadata.integration := by rw [hgm]; rfl
        rw [hint] at w1 w2
        rcases hrem with ⟨id, h1, h2⟩ | ⟨id, h1, h2⟩
        · exact absurd h2 (w1 _ h1)
        · exact absurd h2 (w2 _ h1)
      · exact ⟨q, hq, w1⟩
    · exact ⟨q, by omega, w2⟩
  obtain ⟨q, hq, hw⟩ := hnew
  refine run_removeKeys_ok.2 ⟨⟨config, hc'⟩, x, s', f', g', _, _, j, j', j'', f2, hx, hs', by rw [hT, hO, hE]; exact hf',
    by rw [hE]; exact hg', by rw [hE]; exact r1', by rw [hE]; exact r2', ?_, by rw [hT, hE]; exact delivered_same hS hO' h8⟩
  rw [hE, ← h7]
  symm
  refine C47_encrypted_again P.env _ g2 _ j' m n (by rw [hmap]; exact hm) hn ?_ ?_ ?_ (by rw [hp]; exact hk) (by rw [hp]; exact hmn)
  · show ({ g'.metadata with integration := g2.metadata.integration } : Metadata Mac) =
      { g2.metadata with mac := g'.metadata.mac }
    rw [hmeta2, e2]
    show _ = ({ g1.metadata with integration := g2.metadata.integration, mac := g'.metadata.mac } : Metadata Mac)
    rw [e1]
  · show g2.metadata.mac.length = g'.metadata.mac.length
    rw [e2]
    show g1.metadata.mac.length = _
    rw [e1]
    exact hmac
  · intro key hkey
    rw [decryptAny_of_allWrap hA hK (hlen q) hw (retrieveDataKey_ok.1 hkey)]
    exact hC q hq

/-! ## A concrete case -/

/-- Example: a cipher that is lawful under most keys and opaque under those that begin with 99. -/
def mixCipher : Cipher where
  name := c!"AES256_GCM"
  nonceSize := 2
  tagSize := 2
  encrypt n k p a := if k.head? = some 99 then zeroCipher.encrypt n k p a else Toy.cipher.encrypt n k p a
  decrypt n k c a t := if k.head? = some 99 then none else Toy.cipher.decrypt n k c a t

/-- Example: an environment where the keys made from position 100 on begin with 99. -/
def mixEnv : Env :=
  { Toy.env with
    C := mixCipher, H := byteHasher
    newKey := fun i => if i < 100 then Toy.env.newKey i else 99 :: List.replicate 31 7 }

theorem mixEnv_opaque (j : Nat) (h : 100 ≤ j) : Opaque mixEnv.C (mixEnv.newKey j) := by
  intro n p q a hpq
  have hk : mixEnv.newKey j = 99 :: List.replicate 31 7 := if_neg (by omega)
  rw [hk]
  exact zeroCipher_opaque [] n p q a hpq

deriving instance DecidableEq for IUnit
deriving instance DecidableEq for IntegrationMetadata

/-- Example: a process with a file with this content. -/
def mixProc (content : Str) : Proc := { Toy.proc Toy.rule content [] with env := mixEnv }

/-- Example: the two documents encrypted at position 0. -/
def mixFile (v : Char) : Except BuilderError (EncFile Format.json × Nat) :=
  Builder.encrypt mixEnv { Toy.smallBuilder with map := [(c!"a", .leaf (.str [v])), (c!"b_plain", .leaf (.bool true))] } 0

/-- What is needed of each. -/
def mixReads (v : Char) (f : EncFile Format.json) : Bool :=
  match EncFile.ofDoc DocFormat.json Toy.docOps mixEnv.C (f.toDoc DocFormat.json mixEnv.C) with
  | none => false
  | some f1 => match f1.decrypt Format.json mixEnv with
    | .error _ => false
    | .ok g => (match g.map with
      | [(a, .leaf (.str w)), (b, .leaf (.bool true))] => decide (a = c!"a" ∧ b = c!"b_plain" ∧ w = [v])
      | _ => false) && decide (f1.metadata.macOnlyEncrypted = none ∧ f1.metadata.partialEncryption = Toy.smallBuilder.partialEncryption
        ∧ c!"pk2" ∈ keyIds f1.metadata.integration .age)

theorem mixReads_ok {v : Char} {f : EncFile Format.json} (h : mixReads v f = true) :
    ∃ f1 g, EncFile.ofText Toy.jsonText Toy.docOps mixEnv.C (EncFile.toText Toy.jsonText mixEnv.C f) = some f1 ∧
      EncFile.ofDoc DocFormat.json Toy.docOps mixEnv.C (f.toDoc DocFormat.json mixEnv.C) = some f1 ∧
      f1.decrypt Format.json mixEnv = .ok g ∧ g.map = [(c!"a", .leaf (.str [v])), (c!"b_plain", .leaf (.bool true))] ∧
      f1.metadata.macOnlyEncrypted = none ∧ f1.metadata.partialEncryption = Toy.smallBuilder.partialEncryption ∧
      c!"pk2" ∈ keyIds f1.metadata.integration .age := by
  unfold mixReads at h
  split at h
  · cases h
  rename_i f1 h1
  split at h
  · cases h
  rename_i g h2
  rw [Bool.and_eq_true] at h
  obtain ⟨h3, h4⟩ := h
  split at h3
  · rename_i a w b h5
    obtain ⟨rfl, rfl, rfl⟩ := of_decide_eq_true h3
    exact ⟨f1, g, (ofText_toText Toy.jsonText_laws trivial).trans h1, h1, h2, h5, of_decide_eq_true h4⟩
  · cases h3

theorem mix_alike : Spec.Alike mixEnv.rx (some (.unencryptedSuffix c!"_plain"))
    [(c!"a", .leaf (.string ['x'])), (c!"b_plain", .leaf (.boolean true))]
    [(c!"a", .leaf (.string ['z'])), (c!"b_plain", .leaf (.boolean true))] :=
  ⟨rfl, .cons ⟨rfl, rfl, rfl, fun h => absurd h (by decide)⟩ (.cons ⟨rfl, rfl, rfl, fun _ => rfl⟩ .nil)⟩

theorem mix_config (s : Str) : (mixProc s).retrieveConfig none = .ok [Toy.creationRule] := by
  have h0 : (mixProc []).readConfig c!"/.rops.toml" = .ok [Toy.creationRule] := by decide +kernel
  exact h0

theorem mix_input (s : Str) : InputText (mixProc s) (some c!"a.json") s := .inl ⟨_, _, rfl, rfl, rfl, utf8?_utf8 s⟩

/-- Files with the secrets "x" and "z" are refreshed to the same file. -/
example : ∃ s s' es, s ≠ s' ∧ (mixProc s).run (.refresh Toy.placeLine) 100 = (es, .ok ()) ∧ es ≠ [] ∧
    (mixProc s').run (.refresh Toy.placeLine) 100 = (es, .ok ()) := by
  have hc : (match mixFile 'x', mixFile 'z' with
      | .ok (f, _), .ok (f', _) => mixReads 'x' f && mixReads 'z' f' &&
          decide (EncFile.toText Toy.jsonText mixEnv.C f ≠ EncFile.toText Toy.jsonText mixEnv.C f')
      | _, _ => false) = true := by decide +kernel
  have hb : (match Builder.encrypt mixEnv Toy.refreshBuilder 100 with | .ok _ => true | .error _ => false) = true := by
    decide +kernel
  split at hc
  · rename_i f _ f' _ _ _
    simp only [Bool.and_eq_true, decide_eq_true_eq] at hc
    obtain ⟨⟨h1, h2⟩, h3⟩ := hc
    obtain ⟨f1, g, a1, _, a2, a3, a4, a5, a6⟩ := mixReads_ok h1
    obtain ⟨f1', g', b1, _, b2, b3, b4, b5, b6⟩ := mixReads_ok h2
    split at hb
    · rename_i r hr
      have hx : getFormat Toy.placeLine.input.file Toy.placeLine.input.format = .ok .json := by decide +kernel
      have hrule : ruleFor mixEnv.rx [Toy.creationRule] Toy.placeLine.input.file = some Toy.creationRule := by decide +kernel
      have hd : ∀ {md : Metadata EncValue}, md.macOnlyEncrypted = none → ¬ Describes Toy.creationRule md := by
        intro md h hd
        have := hd.1
        rw [h] at this
        cases this
      have hrun : (mixProc (EncFile.toText Toy.jsonText mixEnv.C f)).run (.refresh Toy.placeLine) 100 =
          ([.write c!"a.json" (utf8 (EncFile.toText Toy.jsonText mixEnv.C r.1)) .done], .ok ()) := by
        refine run_refresh_ok.2 ⟨by decide, _, .json, _, f1, _, mix_config _, hx, mix_input _, a1, ?_,
          .inl ⟨rfl, _, rfl, rfl, rfl⟩⟩
        refine refreshWith_ok (file := Toy.placeLine.input.file).2 (.inr ⟨_, hrule, hd a4, g, r.1, r.2, a2, ?_, rfl⟩)
        rw [a3]
        exact hr
      refine ⟨_, _, _, h3, hrun, by simp, ?_⟩
      exact C62_refresh (Q := mixProc (EncFile.toText Toy.jsonText mixEnv.C f')) rfl hrun (mix_config _) (mix_config _) hx
        (mix_input _) (mix_input _) a1 b1 hrule (hd a4) (hd b4) a2 b2
        (m := [(c!"a", .leaf (.string ['x'])), (c!"b_plain", .leaf (.boolean true))])
        (n := [(c!"a", .leaf (.string ['z'])), (c!"b_plain", .leaf (.boolean true))])
        (by rw [a3]; rfl) (by rw [b3]; rfl) (mixEnv_opaque 100 (Nat.le_refl _)) (fun _ _ => rfl)
        (fun _ => .inl (by unfold NoColon; decide)) mix_alike
    · cases hb
  · cases hc

/-- Example: `rops keys remove --age pk2 a.json`. -/
def mixRemove : KeyArgs := { keys := { age := [c!"pk2"], kms := [] }, format := none, file := c!"a.json" }

/-- Removing a key from files with the secrets "x" and "z" gives the same file. -/
example : ∃ s s' es, s ≠ s' ∧ (mixProc s).run (.removeKeys mixRemove) 100 = (es, .ok ()) ∧ es ≠ [] ∧
    (mixProc s').run (.removeKeys mixRemove) 100 = (es, .ok ()) := by
  have hc : (match mixFile 'x', mixFile 'z' with
      | .ok (f, _), .ok (f', _) => mixReads 'x' f && mixReads 'z' f' &&
          decide (EncFile.toText Toy.jsonText mixEnv.C f ≠ EncFile.toText Toy.jsonText mixEnv.C f') &&
          (match EncFile.ofDoc DocFormat.json Toy.docOps mixEnv.C (f.toDoc DocFormat.json mixEnv.C),
            EncFile.ofDoc DocFormat.json Toy.docOps mixEnv.C (f'.toDoc DocFormat.json mixEnv.C) with
          | some f1, some f1' => decide (f1'.metadata.integration = f1.metadata.integration ∧
              f1'.metadata.lastModified = f1.metadata.lastModified) &&
            (match f1.decrypt Format.json mixEnv with
            | .error _ => false
            | .ok g => match g.removeKeys mixEnv .age [c!"pk2"] 100 with
              | .error _ => false
              | .ok (g1, j) => match g1.removeKeys mixEnv .kms [] j with
                | .error _ => false
                | .ok (g2, j) => match g2.encrypt Format.json mixEnv j with
                  | .error _ => false
                  | .ok _ => true)
          | _, _ => false)
      | _, _ => false) = true := by decide +kernel
  split at hc
  · rename_i f _ f' _ _ _
    simp only [Bool.and_eq_true] at hc
    obtain ⟨⟨⟨h1, h2⟩, h3⟩, h4⟩ := hc
    have h3 := of_decide_eq_true h3
    obtain ⟨f1, g, a1, a0, a2, a3, a4, a5, a6⟩ := mixReads_ok h1
    obtain ⟨f1', g', b1, b0, b2, b3, b4, b5, b6⟩ := mixReads_ok h2
    simp only [a0, b0, a2, Bool.and_eq_true] at h4
    obtain ⟨h4, h5⟩ := h4
    obtain ⟨h6, h7⟩ := of_decide_eq_true h4
    split at h5
    · cases h5
    rename_i g1 j hg1
    split at h5
    · cases h5
    rename_i g2 j' hg2
    split at h5
    · cases h5
    rename_i r hr
    have hx : getFormat (some mixRemove.file) mixRemove.format = .ok .json := by decide +kernel
    have hrun : (mixProc (EncFile.toText Toy.jsonText mixEnv.C f)).run (.removeKeys mixRemove) 100 =
        ([.write c!"a.json" (utf8 (EncFile.toText Toy.jsonText mixEnv.C r.1)) .done], .ok ()) :=
      run_removeKeys_ok.2 ⟨⟨_, mix_config _⟩, .json, _, f1, g, g1, g2, j, j', r.2, r.1, hx, mix_input _, a1, a2, hg1, hg2, hr,
        .inl ⟨rfl, _, rfl, rfl, rfl⟩⟩
    refine ⟨_, _, _, h3, hrun, by simp, ?_⟩
    refine C62_keys_remove (Q := mixProc (EncFile.toText Toy.jsonText mixEnv.C f')) rfl hrun (mix_config _) hx
      (mix_input _) (mix_input _) a1 b1 ?_ a2 b2 (.inl ⟨c!"pk2", .head _, a6⟩)
      (m := [(c!"a", .leaf (.string ['x'])), (c!"b_plain", .leaf (.boolean true))])
      (n := [(c!"a", .leaf (.string ['z'])), (c!"b_plain", .leaf (.boolean true))])
      (by rw [a3]; rfl) (by rw [b3]; rfl) Toy.env_laws.age Toy.env_laws.kms ?_ mixEnv_opaque (fun _ _ => rfl)
      (fun _ => .inl (by unfold NoColon; decide)) (by rw [a5]; exact mix_alike)
    · generalize f1'.metadata = md' at *
      generalize f1.metadata = md at *
      obtain ⟨_, _, _, _, _⟩ := md'
      obtain ⟨_, _, _, _, _⟩ := md
      simp only at h6 h7 a4 a5 b4 b5 ⊢
      rw [h6, h7, a4, a5, b4, b5]
    · intro j
      show (if j < 100 then Toy.env.newKey j else 99 :: List.replicate 31 7).length = 32
      split <;> rfl
  · cases hc

end Rops.Props
