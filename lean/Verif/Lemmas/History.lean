import Verif.Spec.History
import Verif.Lemmas.FileOps
/-! The invariant of histories. -/

namespace Rops
open Spec

/-- Where the nonces of an encrypted map come from: the saved table, or a position of the
tape that no later leaf uses. -/
theorem nonce_positions {env : EncEnv} {cfg : Option PartialEncryption}
    {vs : List (List Str × Value)} {ls : List (List Str × EncLeaf)} {i j : Nat}
    (h : travList (env.leafAt cfg) vs i = .ok (ls, j)) :
    i ≤ j ∧ ∃ pos : Nat → Nat, (∀ n, i ≤ pos n) ∧
      ∀ (n : Nat) (p : List Str) (e : EncValue) (v : Value), ls[n]? = some (p, .encrypted e) → vs[n]? = some (p, v) →
        (∃ s, env.saved = some s ∧ s.get (pathText p) v = some e.nonce) ∨
        (pos n < j ∧ e.nonce = env.tape (pos n) ∧ ∀ b, n < b → pos n < pos b) := by
  induction vs generalizing ls i with
  | nil => simp only [travList] at h; cases h; exact ⟨Nat.le_refl _, fun _ => j, by simp⟩
  | cons x r ih =>
    obtain ⟨p, v⟩ := x
    obtain ⟨l, i1, ls', h1, h2, rfl⟩ := travList_cons_ok.1 h
    obtain ⟨hij, pos, hpos, ih⟩ := ih h2
    have hi : i ≤ i1 := by
      rcases EncEnv.leafAt_ok.1 h1 with ⟨_, rfl, rfl⟩ | ⟨_, e, rfl, he, rfl⟩
      · omega
      · unfold EncEnv.nonceFor; split <;> simp
    refine ⟨by omega, fun n => match n with | 0 => i | n + 1 => pos n, fun n => ?_, ?_⟩
    · cases n with
      | zero => exact Nat.le_refl _
      | succ n => have := hpos n; simp only; omega
    · intro n q e w hl hv
      cases n with
      | succ n =>
        simp only [List.getElem?_cons_succ] at hl hv
        rcases ih n q e w hl hv with h | ⟨hk1, hk2, hk3⟩
        · exact .inl h
        · refine .inr ⟨hk1, hk2, fun b hb => ?_⟩
          cases b with
          | zero => omega
          | succ b => exact hk3 b (by omega)
      | zero =>
        simp only [List.getElem?_cons_zero, Option.some.injEq, Prod.mk.injEq] at hl hv
        obtain ⟨rfl, rfl⟩ := hl
        obtain ⟨_, rfl⟩ := hv
        rcases EncEnv.leafAt_ok.1 h1 with ⟨_, h3, _⟩ | ⟨_, e', h3, he, hi1⟩
        · cases h3
        · cases h3
          rw [(Value.nonce_of_encrypt he).1]
          unfold EncEnv.nonceFor at hi1 ⊢
          split at hi1
          · rename_i nn hnn
            left
            obtain ⟨s, hs1, hs2⟩ := Option.bind_eq_some_iff.1 hnn
            exact ⟨s, hs1, hs2⟩
          · rename_i hnn
            right
            simp only at hi1
            refine ⟨by simp only; omega, rfl, fun b hb => ?_⟩
            cases b with
            | zero => omega
            | succ b => have := hpos b; simp only; omega

/-- At most one content per position. -/
def OnePer (fresh : Nat → Content → Prop) : Prop := ∀ k c c', fresh k c → fresh k c' → c = c'

/-- What a newly encrypted version uses: nonces of the saved table, the saved MAC nonce, or
new draws. -/
theorem uses_of_encrypt {env : Env} {F : Format} {rep : Value → Prop} {w : Version F} {m' : RMap EncLeaf}
    (hh : Holding env rep w.file w.key w.map m') {sm : Option SavedNonces} {sc : Option SavedMacNonce} {i i1 i2 j : Nat}
    (hm : RMap.encrypt (env.encEnv w.key sm) w.file.metadata.partialEncryption w.map i = .ok (m', i1)) (h12 : i1 ≤ i2)
    (hc : (w.file.metadata.mac.nonce, j) = Mac.nonceFor env.nonce sc (macText env.H env.rx
      w.file.metadata.partialEncryption w.file.metadata.macOnlyEncrypted w.map) i2) :
    i ≤ j ∧ ∃ fresh, OnePer fresh ∧ ∀ nonce c, w.Uses env nonce c →
      (∃ s p v, sm = some s ∧ s.get p v = some nonce ∧ c = .value p v) ∨
      (∃ s, sc = some s ∧ s.nonce = nonce ∧ c = .mac s.mac) ∨
      (∃ k, i ≤ k ∧ k < j ∧ nonce = env.nonce k ∧ fresh k c) := by
  obtain ⟨hij, pos, hpos, hsrc⟩ := nonce_positions (RMap.encrypt_ok_iff.1 hm).2
  have hj : i2 ≤ j := by
    unfold Mac.nonceFor at hc
    split at hc
    · split at hc <;> simp only [Prod.mk.injEq] at hc <;> omega
    · simp only [Prod.mk.injEq] at hc; omega
  refine ⟨by omega, fun k c => (∃ (a : Nat) (p : List Str) (e : EncValue) (x : Value),
    (leaves m')[a]? = some (p, .encrypted e) ∧ (leaves w.map)[a]? = some (p, x) ∧ pos a = k ∧ k < i1 ∧
      (∀ b, a < b → pos a < pos b) ∧ c = .value (pathText p) x) ∨
    (i2 ≤ k ∧ c = .mac (macText env.H env.rx w.file.metadata.partialEncryption
      w.file.metadata.macOnlyEncrypted w.map)), ?_, ?_⟩
  · rintro k c c' (⟨a, p, e, x, h1, h2, h3, h4, h5, rfl⟩ | ⟨h1, rfl⟩) (⟨a', p', e', x', h1', h2', h3', h4', h5', rfl⟩ | ⟨h1', rfl⟩)
    · have : a = a' := by
        rcases Nat.lt_trichotomy a a' with h | h | h
        · have := h5 a' h; omega
        · exact h
        · have := h5' a h; omega
      subst this
      rw [h2] at h2'
      cases h2'
      rfl
    · omega
    · omega
    · rfl
  · rintro nonce c (⟨m1, a, p, e, x, h1, h2, h3, rfl, rfl⟩ | ⟨rfl, rfl⟩)
    · rw [hh.read] at h1
      cases h1
      rcases hsrc a p e x h2 h3 with ⟨s, hs1, hs2⟩ | ⟨h4, h5, h6⟩
      · exact .inl ⟨s, _, _, hs1, hs2, rfl⟩
      · exact .inr (.inr ⟨pos a, hpos a, by omega, h5, .inl ⟨a, p, e, x, h2, h3, rfl, h4, h6, rfl⟩⟩)
    · unfold Mac.nonceFor at hc
      split at hc
      · rename_i s
        split at hc
        · rename_i hs
          simp only [Prod.mk.injEq] at hc
          exact .inr (.inl ⟨s, rfl, hc.1.symm, by rw [hs]⟩)
        · simp only [Prod.mk.injEq] at hc
          exact .inr (.inr ⟨i2, by omega, by omega, hc.1, .inr ⟨Nat.le_refl _, rfl⟩⟩)
      · simp only [Prod.mk.injEq] at hc
        exact .inr (.inr ⟨i2, by omega, by omega, hc.1, .inr ⟨Nat.le_refl _, rfl⟩⟩)

/-- What is true of all histories. -/
structure HistoryInv (env : Env) {F : Format} (rep : Value → Prop) (vs : List (Version F)) (n : Nat) : Prop where
  holding : ∀ v ∈ vs, ∃ m', Holding env rep v.file v.key v.map m'
  drawn : ∀ v ∈ vs, ∀ nonce c, v.Uses env nonce c → ∃ k < n, nonce = env.nonce k
  once : NoRepeat env.nonce 0 n → ∀ v ∈ vs, ∀ v' ∈ vs, ∀ nonce c c', v.Uses env nonce c → v'.Uses env nonce c' →
    c = c' ∧ v.key = v'.key

/-- The next version, which reuses nonces of the one before for the same contents under the
same key, and else uses new ones. -/
theorem HistoryInv.step {env : Env} {F : Format} {rep : Value → Prop} {v w : Version F} {vs : List (Version F)} {n j : Nat}
    (h : HistoryInv env rep (v :: vs) n) {m' : RMap EncLeaf} (hw : Holding env rep w.file w.key w.map m') (hnj : n ≤ j)
    {fresh : Nat → Content → Prop} (hf : OnePer fresh)
    (hu : ∀ nonce c, w.Uses env nonce c → (v.Uses env nonce c ∧ w.key = v.key) ∨
      ∃ k, n ≤ k ∧ k < j ∧ nonce = env.nonce k ∧ fresh k c) : HistoryInv env rep (w :: v :: vs) j := by
  have hdrawn : ∀ x ∈ v :: vs, ∀ nonce c, x.Uses env nonce c → ∃ k < j, nonce = env.nonce k := by
    intro x hx nonce c hc
    obtain ⟨k, hk, he⟩ := h.drawn x hx nonce c hc
    exact ⟨k, by omega, he⟩
  have hnew : NoRepeat env.nonce 0 j → ∀ x ∈ v :: vs, ∀ nonce c c', w.Uses env nonce c → x.Uses env nonce c' →
      c = c' ∧ w.key = x.key := by
    intro hr x hx nonce c c' hc hc'
    have hr' : NoRepeat env.nonce 0 n := fun a b h1 h2 h3 h4 => hr a b h1 (by omega) h3 (by omega)
    rcases hu nonce c hc with ⟨h1, h2⟩ | ⟨k, h1, h2, h3, _⟩
    · obtain ⟨h3, h4⟩ := h.once hr' v (by simp) x hx nonce c c' h1 hc'
      exact ⟨h3, h2.trans h4⟩
    · obtain ⟨k', hk', he⟩ := h.drawn x hx nonce c' hc'
      have := hr k k' (by omega) h2 (by omega) (by omega) (by rw [← h3, ← he])
      omega
  refine ⟨?_, ?_, ?_⟩
  · intro x hx
    rcases List.mem_cons.1 hx with rfl | hx
    · exact ⟨m', hw⟩
    · exact h.holding x hx
  · intro x hx nonce c hc
    rcases List.mem_cons.1 hx with rfl | hx
    · rcases hu nonce c hc with ⟨h1, _⟩ | ⟨k, _, h2, h3, _⟩
      · exact hdrawn v (by simp) nonce c h1
      · exact ⟨k, h2, h3⟩
    · exact hdrawn x hx nonce c hc
  · intro hr x hx y hy nonce c c' hc hc'
    have hr' : NoRepeat env.nonce 0 n := fun a b h1 h2 h3 h4 => hr a b h1 (by omega) h3 (by omega)
    rcases List.mem_cons.1 hx with hxw | hx <;> rcases List.mem_cons.1 hy with hyw | hy
    · subst hxw hyw
      refine ⟨?_, rfl⟩
      rcases hu nonce c hc with ⟨h1, _⟩ | ⟨k, h1, h2, h3, h4⟩
      · rcases hu nonce c' hc' with ⟨h1', _⟩ | ⟨k', h1', h2', h3', h4'⟩
        · exact (h.once hr' v (by simp) v (by simp) nonce c c' h1 h1').1
        · obtain ⟨k, hk, he⟩ := h.drawn v (by simp) nonce c h1
          have := hr k k' (by omega) (by omega) (by omega) (by omega) (by rw [← h3', ← he])
          omega
      · rcases hu nonce c' hc' with ⟨h1', _⟩ | ⟨k', h1', h2', h3', h4'⟩
        · obtain ⟨k', hk, he⟩ := h.drawn v (by simp) nonce c' h1'
          have := hr k k' (by omega) (by omega) (by omega) (by omega) (by rw [← h3, ← he])
          omega
        · have := hr k k' (by omega) (by omega) (by omega) (by omega) (by rw [← h3, ← h3'])
          subst this
          exact hf k c c' h4 h4'
    · rw [hxw] at hc ⊢
      exact hnew hr y hy nonce c c' hc hc'
    · rw [hyw] at hc' ⊢
      obtain ⟨h1, h2⟩ := hnew hr x hx nonce c' c hc' hc
      exact ⟨h1.symm, h2.symm⟩
    · exact h.once hr' x hx y hy nonce c c' hc hc'

/-- The reuse of saved parameters is the reuse of nonces of the version they were saved from. -/
theorem uses_of_saved {env : Env} {F : Format} {rep : Value → Prop} {v : Version F} {m' : RMap EncLeaf}
    (hh : Holding env rep v.file v.key v.map m') {p : Str} {x : Value} {nonce : Bytes}
    (h : (savedAll (leaves m') (leaves v.map) []).get p x = some nonce) : v.Uses env nonce (.value p x) := by
  rcases savedAll_get h with h1 | ⟨a, q, e, q', h1, h2, h3, h4⟩
  · cases h1
  · obtain ⟨⟨q1, v1⟩, hq, hr⟩ := hh.sealed.2.getElem' h1
    rw [h2] at hq
    cases hq
    cases hr.1
    exact .inl ⟨m', a, q, e, x, hh.read, h1, h2, h4.symm, by rw [h3]⟩

theorem setMap_ok {env : Env} (he : EnvLaws env) {F : Format} {rep : Value → Prop} (hF : Format.Lawful F rep) {g g' : DecFile F}
    {other : F.Map} {m : RMap Value} (ho : F.toInternal other = .ok m) (hm : Holds rep m) {c : Nat}
    (h : g.setMap env other c = .ok g') : Plaintext env g' m ∧ g'.metadata.integration = g.metadata.integration ∧
      g'.metadata.partialEncryption = g.metadata.partialEncryption ∧
      g'.metadata.macOnlyEncrypted = g.metadata.macOnlyEncrypted := by
  obtain ⟨x, h1, h2⟩ := hF.round_trip m hm
  unfold DecFile.setMap at h
  simp only [ho, h1, Except.ok.injEq] at h
  subst h
  exact ⟨⟨h2, Env.macOf_eq he.hasher _ _⟩, rfl, rfl, rfl⟩

/-- A step that encrypts a decrypted file. -/
theorem HistoryInv.encryptWith {env : Env} (he : EnvLaws env) {F : Format} {rep : Value → Prop} (hF : Format.Lawful F rep)
    {v : Version F} {vs : List (Version F)} {n i j : Nat} (h : HistoryInv env rep (v :: vs) n) (hni : n ≤ i)
    {g : DecFile F} {m : RMap Value} (hg : Plaintext env g m) (hfits : Fits env.fl rep g.metadata.partialEncryption m)
    {key : Bytes} (hkey : key.length = dataKeySize) (hw : AllWrap env.A env.K g.metadata.integration key)
    (hids : ∀ k, (keyIds g.metadata.integration k).Nodup) {sm : Option SavedNonces} {sc : Option SavedMacNonce}
    (hsm : SavedSized env.C sm) (hsc : ∀ s, sc = some s → s.nonce.length = env.C.nonceSize)
    (hum : ∀ s p x nonce, sm = some s → s.get p x = some nonce → v.Uses env nonce (.value p x) ∧ key = v.key)
    (huc : ∀ s, sc = some s → v.Uses env s.nonce (.mac s.mac) ∧ key = v.key) {f : EncFile F}
    (hf : g.encryptWith F env key sm sc i = .ok (f, j)) : HistoryInv env rep (⟨f, m, key⟩ :: v :: vs) j := by
  obtain ⟨m', i1, hh, hmd, h1, h2⟩ := holding_of_encryptWith he hF hg hfits hkey hw hids hsm hsc hf
  have e1 : f.metadata.partialEncryption = g.metadata.partialEncryption := by rw [hmd]; rfl
  have e2 : f.metadata.macOnlyEncrypted = g.metadata.macOnlyEncrypted := by rw [hmd]; rfl
  rw [hg.mac, ← e1, ← e2] at h2
  rw [← e1] at h1
  obtain ⟨hij, fresh, hone, hu⟩ := uses_of_encrypt (w := ⟨f, m, key⟩) hh h1 (Nat.le_refl _) h2
  refine h.step (w := ⟨f, m, key⟩) hh (by omega) hone fun nonce c hc => ?_
  rcases hu nonce c hc with ⟨s, p, x, hs, hget, rfl⟩ | ⟨s, hs, rfl, rfl⟩ | ⟨k, hk1, hk2, hk3, hk4⟩
  · exact .inl (hum s p x nonce hs hget)
  · exact .inl (huc s hs)
  · exact .inr ⟨k, by omega, hk2, hk3, hk4⟩

theorem Spec.Plaintext.withHost {env : Env} {F : Format} {g : DecFile F} {m : RMap Value} (h : Plaintext env g m) (host : Host) :
    Plaintext (env.withHost host) g m := ⟨h.read, h.mac⟩

theorem Spec.Plaintext.ofHost {env : Env} {F : Format} {g : DecFile F} {m : RMap Value} {host : Host}
    (h : Plaintext (env.withHost host) g m) : Plaintext env g m := ⟨h.read, h.mac⟩

theorem HistoryInv.ofHost {env : Env} {F : Format} {rep : Value → Prop} {vs : List (Version F)} {n : Nat} {host : Host}
    (h : HistoryInv (env.withHost host) rep vs n) : HistoryInv env rep vs n :=
  ⟨fun v hv => (h.holding v hv).imp fun _ h => h.ofHost, h.drawn, h.once⟩

theorem HistoryInv.withHost {env : Env} {F : Format} {rep : Value → Prop} {vs : List (Version F)} {n : Nat} (host : Host)
    (h : HistoryInv env rep vs n) : HistoryInv (env.withHost host) rep vs n :=
  ⟨fun v hv => (h.holding v hv).imp fun _ h => h.withHost host, h.drawn, h.once⟩

/-- A step with `encrypt`. -/
theorem HistoryInv.encrypt {env : Env} (he : EnvLaws env) {F : Format} {rep : Value → Prop} (hF : Format.Lawful F rep)
    {v : Version F} {vs : List (Version F)} {n i j : Nat} (h : HistoryInv env rep (v :: vs) n) (hni : n ≤ i)
    {g : DecFile F} {m : RMap Value} (hg : Plaintext env g m) (hfits : Fits env.fl rep g.metadata.partialEncryption m)
    {key : Bytes} (hkey : key.length = dataKeySize) (hw : AllWrap env.A env.K g.metadata.integration key)
    (hids : ∀ k, (keyIds g.metadata.integration k).Nodup) {host : Host} {f : EncFile F}
    (hf : g.encrypt F (env.withHost host) i = .ok (f, j)) : HistoryInv env rep (⟨f, m, key⟩ :: v :: vs) j := by
  unfold DecFile.encrypt at hf
  cases hr : (env.withHost host).retrieveDataKey g.metadata with
  | error e => rw [hr] at hf; cases hf
  | ok d =>
    rw [hr] at hf
    have hd : d = key := retrieve_of_allWrap (he.withHost host) hkey hw hr
    subst hd
    refine HistoryInv.ofHost (host := host) ?_
    exact HistoryInv.encryptWith (he.withHost host) hF (h.withHost host) hni (hg.withHost host) hfits hkey hw hids
      (sm := none) (sc := none) (fun t ht => nomatch ht) (fun s hs => nomatch hs) (fun s p x nonce hs => nomatch hs)
      (fun s hs => nomatch hs) hf

theorem historyInv {env : Env} (he : EnvLaws env) {F : Format} {rep : Value → Prop} (hF : Format.Lawful F rep)
    {vs : List (Version F)} {n : Nat} (h : History env rep vs n) : HistoryInv env rep vs n := by
  induction h with
  | @create b m f i j host hb hfits hf =>
    obtain ⟨m', i1, i2, hh, h1, h2, h3, h4⟩ := holding_of_builder (he.withHost host) hF hb hfits hf
    obtain ⟨_, _, _, _, _, _, _, _, _, _, h6⟩ := Builder.encrypt_ok hf
    have e1 : f.metadata.partialEncryption = b.partialEncryption := by rw [h6]
    rw [← e1] at h1
    obtain ⟨hij, fresh, hone, hu⟩ := uses_of_encrypt (env := env) (w := ⟨f, m, env.newKey i⟩) (sm := none) (sc := none)
      (j := j) hh.ofHost h1 h2 (by rw [h3, h4]; rfl)
    have hu' : ∀ nonce c, Version.Uses env ⟨f, m, env.newKey i⟩ nonce c → ∃ k, k < j ∧ nonce = env.nonce k ∧ fresh k c := by
      intro nonce c hc
      rcases hu nonce c hc with ⟨_, _, _, h, _⟩ | ⟨_, h, _⟩ | ⟨k, _, h⟩
      · cases h
      · cases h
      · exact ⟨k, h⟩
    refine ⟨?_, ?_, ?_⟩
    · intro v hv
      rw [List.mem_singleton] at hv
      subst hv
      exact ⟨m', hh.ofHost⟩
    · intro v hv nonce c hc
      rw [List.mem_singleton] at hv
      subst hv
      obtain ⟨k, h1, h2, _⟩ := hu' nonce c hc
      exact ⟨k, h1, h2⟩
    · intro hr v hv v' hv' nonce c c' hc hc'
      rw [List.mem_singleton] at hv hv'
      subst hv hv'
      obtain ⟨k, h1, h2, h3⟩ := hu' nonce c hc
      obtain ⟨k', h1', h2', h3'⟩ := hu' nonce c' hc'
      have := hr k k' (by omega) h1 (by omega) h1' (by rw [← h2, ← h2'])
      subst this
      exact ⟨hone k c c' h3 h3', rfl⟩
  | @addKeys v vs n i j k ids f host _ hni ha ih =>
    obtain ⟨m', hh⟩ := ih.holding v (by simp)
    obtain ⟨hh', hij⟩ := holding_addKeys (he.withHost host) (hh.withHost host) ha
    obtain ⟨_, _, _, _, rfl⟩ := File.addKeys_ok ha
    exact ih.step (w := ⟨_, v.map, v.key⟩) hh'.ofHost (by omega) (fresh := fun _ _ => False) (fun _ _ _ h => h.elim)
      (fun nonce c hc => .inl ⟨hc, rfl⟩)
  | @edit v vs n c i j g g' p other m f host host' _ hni hd ho hfits hs hf ih =>
    obtain ⟨m', hh⟩ := ih.holding v (by simp)
    obtain ⟨_, hg, hmd, rfl⟩ := of_decryptAndSave_holding (he.withHost host) hF (hh.withHost host) hh.fits.holds hd
    obtain ⟨hg', e1, e2, e3⟩ := setMap_ok (he.withHost host') hF ho hfits.holds hs
    have e4 : g'.metadata.integration = v.file.metadata.integration := by rw [e1, hmd]; rfl
    have e5 : g'.metadata.partialEncryption = v.file.metadata.partialEncryption := by rw [e2, hmd]; rfl
    refine HistoryInv.ofHost (host := host') ?_
    refine HistoryInv.encryptWith (he.withHost host') hF (ih.withHost host') hni hg' (by rw [e5]; exact hfits) hh.key_length
      (by rw [e4]; exact hh.units) (by rw [e4]; exact hh.ids) (sealed_saved_sized hh.sealed)
      (fun s hs => by cases hs; exact hh.mac_sized.nonce_length) ?_ ?_ hf
    · intro s p x nonce hs hget
      cases hs
      exact ⟨uses_of_saved (env := env) hh hget, rfl⟩
    · intro s hs
      cases hs
      refine ⟨.inr ⟨rfl, ?_⟩, rfl⟩
      rw [hg.mac, hmd]
      rfl
  | @replace v vs n c i j g g' other m f host host' _ hni hd ho hfits hs hf ih =>
    obtain ⟨m', hh⟩ := ih.holding v (by simp)
    obtain ⟨_, hg, hmd⟩ := of_decrypt_holding (he.withHost host) hF (hh.withHost host) hh.fits.holds hd
    obtain ⟨hg', e1, e2, e3⟩ := setMap_ok (he.withHost host') hF ho hfits.holds hs
    have e4 : g'.metadata.integration = v.file.metadata.integration := by rw [e1, hmd]; rfl
    have e5 : g'.metadata.partialEncryption = v.file.metadata.partialEncryption := by rw [e2, hmd]; rfl
    exact HistoryInv.encrypt he hF ih hni hg'.ofHost (by rw [e5]; exact hfits) hh.key_length
      (by rw [e4]; exact hh.units) (by rw [e4]; exact hh.ids) hf
  | @removeKey v vs n i j i' j' g g' k id u f host host' _ hni hd hr hji hf ih =>
    obtain ⟨m', hh⟩ := ih.holding v (by simp)
    obtain ⟨_, hg, hmd⟩ := of_decrypt_holding (he.withHost host) hF (hh.withHost host) hh.fits.holds hd
    have e4 : g.metadata.integration = v.file.metadata.integration := by rw [hmd]; rfl
    have e5 : g.metadata.partialEncryption = v.file.metadata.partialEncryption := by rw [hmd]; rfl
    unfold DecFile.removeKey at hr
    cases hk : (env.withHost host').removeKey k id g.metadata.integration i with
    | mk res r =>
      obtain ⟨im, j1⟩ := r
      rw [hk] at hr
      simp only [Prod.mk.injEq] at hr
      obtain ⟨rfl, rfl, rfl⟩ := hr
      obtain ⟨_, _, h3, h4, h5, h6⟩ := removeKey_some hk
      refine HistoryInv.encrypt he hF ih (by omega) (g := ⟨g.map, { g.metadata with integration := im }⟩)
        ⟨hg.read, hg.mac⟩ (by simp only [e5]; exact hh.fits) (he.key_length i) h5 (fun k' => ?_) hf
      by_cases hkk : k' = k
      · subst hkk
        simp only [h3, e4]
        exact (hh.ids k').erase id
      · simp only [h4 k' hkk, e4]
        exact hh.ids k'
  | @removeAbsent v vs n i j i' j' g g' k id f host host' _ hni hd hr hji hf ih =>
    obtain ⟨m', hh⟩ := ih.holding v (by simp)
    obtain ⟨_, hg, hmd⟩ := of_decrypt_holding (he.withHost host) hF (hh.withHost host) hh.fits.holds hd
    have e4 : g.metadata.integration = v.file.metadata.integration := by rw [hmd]; rfl
    have e5 : g.metadata.partialEncryption = v.file.metadata.partialEncryption := by rw [hmd]; rfl
    unfold DecFile.removeKey at hr
    cases hk : (env.withHost host').removeKey k id g.metadata.integration i with
    | mk res r =>
      obtain ⟨im, j1⟩ := r
      rw [hk] at hr
      simp only [Prod.mk.injEq] at hr
      obtain ⟨rfl, rfl, rfl⟩ := hr
      obtain ⟨_, rfl, rfl⟩ := removeKey_none hk
      exact HistoryInv.encrypt he hF ih (by omega) (g := g) hg.ofHost (by rw [e5]; exact hh.fits) hh.key_length
        (by rw [e4]; exact hh.units) (by rw [e4]; exact hh.ids) hf

end Rops
