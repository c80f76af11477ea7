import Verif.Spec.Success
import Verif.Lemmas.CrashRuns
import Verif.Lemmas.CliHistory
import Verif.Props.Kms
import Verif.Props.Edits
/-!
# Lemmas about when commands succeed
-/

namespace Rops
open Spec

theorem Spec.CanWrap.encrypts {env : KeyEnv} {k : Kind} {id : k.Id} (h : CanWrap env k id) (d : Bytes) (i : Nat) :
    ∃ t, env.encryptDataKey k id d i = .ok t := by
  cases k with
  | age => exact h d i
  | kms =>
    obtain ⟨ps, p, h1, h2, h3⟩ := h
    obtain ⟨b, h3⟩ := h3 d i
    exact ⟨_, (Props.C53_encrypt_iff env.K env.host id d i _).2 ⟨ps, p, b, h1, h2, h3, rfl⟩⟩

theorem Spec.NeverWraps.fails {env : KeyEnv} {k : Kind} {id : k.Id} (h : NeverWraps env k id) (d : Bytes) (i : Nat) (t : Str) :
    env.encryptDataKey k id d i ≠ .ok t := by
  cases k with
  | age => exact h d i t
  | kms =>
    intro ht
    obtain ⟨ps, p, b, h1, h2, h3, _⟩ := (Props.C53_encrypt_iff env.K env.host id d i _).1 ht
    exact h ps p h1 h2 d i b h3

/-- A data key was encrypted for the key id. -/
def Wrapped (env : KeyEnv) (k : Kind) (id : k.Id) : Prop := ∃ d i t, env.encryptDataKey k id d i = .ok t

theorem Spec.Steady.canWrap {env : KeyEnv} {k : Kind} {id : k.Id} (h : Steady env k id) (hw : Wrapped env k id) :
    CanWrap env k id :=
  h.resolve_right fun hn => by obtain ⟨d, i, t, ht⟩ := hw; exact hn.fails d i t ht

theorem Spec.CanWrap.wrapped {env : KeyEnv} {k : Kind} {id : k.Id} (h : CanWrap env k id) : Wrapped env k id :=
  ⟨[], 0, h.encrypts [] 0⟩

/-! ## Adding keys -/

theorem addKeys_total {env : KeyEnv} {k : Kind} (d : Bytes) {ids : List k.Id} (h : ∀ id ∈ ids, CanWrap env k id)
    (m : IntegrationMetadata) (i : Nat) : ∃ m' j, env.addKeys k d ids m i = (.ok (), m', j) := by
  induction ids generalizing m i with
  | nil => exact ⟨_, _, rfl⟩
  | cons id r ih =>
    obtain ⟨t, ht⟩ := (h id List.mem_cons_self).encrypts d i
    simp only [KeyEnv.addKeys, KeyEnv.newUnit, ht]
    exact ih (fun x hx => h x (List.mem_cons_of_mem _ hx)) _ _

theorem addKeys_wrapped {env : KeyEnv} {k : Kind} {d : Bytes} {ids : List k.Id}
    {m m' : IntegrationMetadata} {i j : Nat} (h : env.addKeys k d ids m i = (.ok (), m', j)) : ∀ id ∈ ids, Wrapped env k id := by
  induction ids generalizing m i with
  | nil => exact fun _ h => nomatch h
  | cons id r ih =>
    simp only [KeyEnv.addKeys, KeyEnv.newUnit] at h
    cases ht : env.encryptDataKey k id d i with
    | error e => rw [ht] at h; cases h
    | ok t =>
      rw [ht] at h
      simp only at h
      intro x hx
      rcases List.mem_cons.1 hx with rfl | hx
      · exact ⟨_, _, _, ht⟩
      · exact ih h x hx

/-! ## Removing keys -/

theorem updateUnits_total {env : KeyEnv} {k : Kind} (d : Bytes) {us : Units k} (h : ∀ id ∈ us.map IUnit.keyId, CanWrap env k id)
    (i : Nat) : ∃ us' j, env.updateUnits k d us i = (.ok (), us', j) := by
  induction us generalizing i with
  | nil => exact ⟨_, _, rfl⟩
  | cons u r ih =>
    obtain ⟨t, ht⟩ := (h u.keyId (by simp)).encrypts d i
    obtain ⟨us', j, hr⟩ := ih (fun x hx => h x (by rw [List.map_cons]; exact List.mem_cons_of_mem _ hx)) (i + 1)
    simp only [KeyEnv.updateUnits, ht, hr]
    exact ⟨_, _, rfl⟩

theorem updateUnits_wrapped {env : KeyEnv} {k : Kind} {d : Bytes} {us us' : Units k}
    {i j : Nat} (h : env.updateUnits k d us i = (.ok (), us', j)) :
    ∀ id ∈ us.map IUnit.keyId, Wrapped env k id := by
  induction us generalizing i us' j with
  | nil => exact fun _ h => nomatch h
  | cons u r ih =>
    simp only [KeyEnv.updateUnits] at h
    cases ht : env.encryptDataKey k u.keyId d i with
    | error e => rw [ht] at h; cases h
    | ok t =>
      rw [ht] at h
      simp only at h
      cases hr : env.updateUnits k d r (i + 1) with
      | mk res q =>
        obtain ⟨r', j'⟩ := q
        rw [hr] at h
        cases h
        intro x hx
        rw [List.map_cons] at hx
        rcases List.mem_cons.1 hx with rfl | hx
        · exact ⟨_, _, _, ht⟩
        · exact ih hr x hx

/-- The key ids that are left when one is removed. -/
theorem keyIds_setUnits {m : IntegrationMetadata} {k : Kind} {id : k.Id} {u : IUnit k} {rest : Units k}
    (hr : (m.units k).remove id = some (u, rest)) :
    keyIds (m.setUnits k rest) k = (keyIds m k).erase id ∧ ∀ k', k' ≠ k → keyIds (m.setUnits k rest) k' = keyIds m k' := by
  obtain ⟨a, b, e1, e2, e3, e4⟩ := Units.remove_eq_some hr
  refine ⟨?_, fun k' hk' => ?_⟩
  · rw [keyIds, IntegrationMetadata.units_setUnits, keyIds, e1, e2, List.map_append, List.map_append,
      List.erase_append_right _ e4]
    simp [e3]
  · rw [keyIds, IntegrationMetadata.units_setUnits_ne _ hk']; rfl

/-- Something holds for all recipients but one. -/
def Others (Q : (k : Kind) → k.Id → Prop) (im : IntegrationMetadata) (k : Kind) (id : k.Id) : Prop :=
  (∀ id' ∈ keyIds im k, id' ≠ id → Q k id') ∧ ∀ k', k' ≠ k → ∀ id' ∈ keyIds im k', Q k' id'

theorem Others.imp {Q R : (k : Kind) → k.Id → Prop} {im : IntegrationMetadata} {k : Kind} {id : k.Id}
    (h : Others Q im k id) (hi : ∀ k', ∀ id' ∈ keyIds im k', Q k' id' → R k' id') : Others R im k id :=
  ⟨fun id' h1 h2 => hi k id' h1 (h.1 id' h1 h2), fun k' hk' id' h1 => hi k' id' h1 (h.2 k' hk' id' h1)⟩

theorem others_iff {Q : (k : Kind) → k.Id → Prop} {m : IntegrationMetadata} {k : Kind} {id : k.Id} {u : IUnit k} {rest : Units k}
    (hr : (m.units k).remove id = some (u, rest)) (hn : ∀ k', (keyIds m k').Nodup) :
    (∀ k', ∀ id' ∈ keyIds (m.setUnits k rest) k', Q k' id') ↔ Others Q m k id := by
  obtain ⟨h1, h2⟩ := keyIds_setUnits hr
  have hmem : ∀ id', id' ∈ keyIds (m.setUnits k rest) k ↔ id' ≠ id ∧ id' ∈ keyIds m k := by
    intro id'
    rw [h1, (hn k).mem_erase_iff]
  constructor
  · intro h
    exact ⟨fun id' hid' hne => h k id' ((hmem _).2 ⟨hne, hid'⟩), fun k' hk' id' hid' => h k' id' (by rw [h2 k' hk']; exact hid')⟩
  · rintro ⟨ha, hb⟩ k' id' hid'
    by_cases hk : k' = k
    · subst hk
      exact ha id' ((hmem _).1 hid').2 ((hmem _).1 hid').1
    · exact hb k' hk id' (by rw [← h2 k' hk]; exact hid')

theorem removeKey_others {env : KeyEnv} {k : Kind} {id : k.Id} {m m' : IntegrationMetadata} {u : IUnit k} {i j : Nat}
    (hn : ∀ k', (keyIds m k').Nodup) (h : env.removeKey k id m i = (.ok (some u), m', j)) : Others (Wrapped env) m k id := by
  unfold KeyEnv.removeKey at h
  cases hr : (m.units k).remove id with
  | none => rw [hr] at h; simp at h
  | some p =>
    obtain ⟨u', rest⟩ := p
    rw [hr] at h
    simp only at h
    rw [← others_iff hr hn]
    intro k'
    cases ha : env.updateUnits .age (env.newKey i) (m.setUnits k rest).age (i + 1) with
    | mk ra q =>
      obtain ⟨age, ia⟩ := q
      rw [ha] at h
      cases ra with
      | error e => simp at h
      | ok _ =>
        simp only at h
        cases hk : env.updateUnits .kms (env.newKey i) (m.setUnits k rest).kms ia with
        | mk rk q =>
          obtain ⟨kms, ik⟩ := q
          rw [hk] at h
          cases rk with
          | error e => simp at h
          | ok _ =>
            cases k' with
            | age => exact updateUnits_wrapped ha
            | kms => exact updateUnits_wrapped hk

theorem removeKey_total {env : KeyEnv} {k : Kind} {id : k.Id} {m : IntegrationMetadata}
    (hn : ∀ k', (keyIds m k').Nodup) (hid : id ∈ keyIds m k) (ho : Others (CanWrap env) m k id) (i : Nat) :
    ∃ u m' j, env.removeKey k id m i = (.ok (some u), m', j) := by
  unfold KeyEnv.removeKey
  cases hr : (m.units k).remove id with
  | none => exact absurd hid (Units.remove_eq_none.1 hr)
  | some p =>
    obtain ⟨u, rest⟩ := p
    have h := (others_iff hr hn).2 ho
    simp only
    obtain ⟨age, ia, ha⟩ := updateUnits_total (env.newKey i) (h .age) (i + 1)
    obtain ⟨kms, ik, hk⟩ := updateUnits_total (env.newKey i) (h .kms) ia
    rw [show (m.setUnits k rest).age = (m.setUnits k rest).units .age from rfl, ha]
    simp only
    rw [show (m.setUnits k rest).kms = (m.setUnits k rest).units .kms from rfl, hk]
    exact ⟨_, _, _, rfl⟩

/-- The file after some removals: the map is the same, the units are for the keys that are left
and wrap one data key. -/
structure Left (env : Env) {F : Format} (g g' : DecFile F) : Prop where
  map : g'.map = g.map
  metadata : g'.metadata = { g.metadata with integration := g'.metadata.integration }
  ids : ∀ k, (keyIds g'.metadata.integration k).Nodup
  wrap : ∃ key, key.length = dataKeySize ∧ AllWrap env.A env.K g'.metadata.integration key

theorem removeKey_left {env : Env} (he : EnvLaws env) {F : Format} {k : Kind} {id : k.Id} {g0 g g' : DecFile F} {i j : Nat}
    {o : Option (IUnit k)} (hl : Left env g0 g) (h : g.removeKey env k id i = (.ok o, g', j)) :
    Left env g0 g' ∧ (∀ k', k' ≠ k → keyIds g'.metadata.integration k' = keyIds g.metadata.integration k') ∧
    keyIds g'.metadata.integration k = (keyIds g.metadata.integration k).filter (fun y => decide (y ≠ id)) ∧
    (id ∉ keyIds g.metadata.integration k → g' = g) := by
  unfold DecFile.removeKey at h
  cases hx : env.removeKey k id g.metadata.integration i with
  | mk res q =>
    obtain ⟨im, i2⟩ := q
    rw [hx] at h
    simp only [Prod.mk.injEq] at h
    obtain ⟨rfl, rfl, rfl⟩ := h
    cases o with
    | none =>
      obtain ⟨hid, rfl, rfl⟩ := removeKey_none hx
      exact ⟨hl, fun _ _ => rfl, (List.filter_eq_self.2 fun y hy => by
        simp only [decide_eq_true_eq]; exact fun e => hid (e ▸ hy)).symm, fun _ => rfl⟩
    | some u =>
      obtain ⟨h1, h2, h3, h4, h5, h6⟩ := removeKey_some hx
      refine ⟨⟨hl.map, ?_, ?_, ⟨_, he.key_length i, h5⟩⟩, h4, ?_, fun hn => ?_⟩
      · rw [hl.metadata]
      · intro k'
        by_cases hk : k' = k
        · subst hk; rw [show keyIds _ k' = _ from h3]; exact (hl.ids k').erase id
        · rw [show keyIds _ k' = _ from h4 k' hk]; exact hl.ids k'
      · rw [show keyIds _ k = _ from h3, (hl.ids k).erase_eq_filter]
        exact List.filter_congr fun y _ => by by_cases hy : y = id <;> simp [hy]
      · exact absurd (List.mem_map.2 ⟨u, h2, h1⟩) hn

theorem removeKeys_left {env : Env} (he : EnvLaws env) {F : Format} {k : Kind} {ids : List k.Id} {g0 g g' : DecFile F} {i j : Nat}
    (hl : Left env g0 g) (h : g.removeKeys env k ids i = .ok (g', j)) :
    Left env g0 g' ∧ (∀ k', k' ≠ k → keyIds g'.metadata.integration k' = keyIds g.metadata.integration k') ∧
    keyIds g'.metadata.integration k = (keyIds g.metadata.integration k).filter (fun y => decide (y ∉ ids)) ∧
    ((∀ id ∈ ids, id ∉ keyIds g.metadata.integration k) → g' = g) := by
  induction ids generalizing g i with
  | nil =>
    unfold DecFile.removeKeys at h
    cases h
    exact ⟨hl, fun _ _ => rfl, (List.filter_eq_self.2 fun _ _ => by simp).symm, fun _ => rfl⟩
  | cons id r ih =>
    unfold DecFile.removeKeys at h
    split at h
    · cases h
    · rename_i o g1 i1 h1
      obtain ⟨a1, a2, a3, a4⟩ := removeKey_left he hl h1
      obtain ⟨b1, b2, b3, b4⟩ := ih a1 h
      refine ⟨b1, fun k' hk' => (b2 k' hk').trans (a2 k' hk'), ?_, fun hn => ?_⟩
      · rw [b3, a3, List.filter_filter]
        exact List.filter_congr fun y _ => by by_cases hy : y = id <;> simp [hy]
      · have e := a4 (hn id List.mem_cons_self)
        subst e
        exact b4 fun x hx => hn x (List.mem_cons_of_mem _ hx)

theorem removeKeys_total {env : Env} (he : EnvLaws env) {F : Format} {k : Kind} {ids : List k.Id} {g0 g : DecFile F}
    (hl : Left env g0 g) (hw : ∀ k', ∀ id ∈ keyIds g.metadata.integration k', CanWrap env.toKeyEnv k' id) (i : Nat) :
    ∃ g' j, g.removeKeys env k ids i = .ok (g', j) := by
  induction ids generalizing g i with
  | nil => exact ⟨_, _, rfl⟩
  | cons id r ih =>
    have h1 : ∃ o g1 i1, g.removeKey env k id i = (.ok o, g1, i1) := by
      by_cases hid : id ∈ keyIds g.metadata.integration k
      · obtain ⟨u, m', j, h⟩ := removeKey_total (env := env.toKeyEnv) hl.ids hid
          ⟨fun id' h _ => hw k id' h, fun k' _ id' h => hw k' id' h⟩ i
        exact ⟨_, _, _, by unfold DecFile.removeKey; rw [h]⟩
      · exact ⟨_, _, _, by unfold DecFile.removeKey; rw [removeKey_absent i hid]⟩
    obtain ⟨o, g1, i1, h1⟩ := h1
    obtain ⟨a1, a2, a3, _⟩ := removeKey_left he hl h1
    unfold DecFile.removeKeys
    rw [h1]
    refine ih a1 (fun k' x hx => ?_) i1
    by_cases hk : k' = k
    · subst hk
      rw [a3] at hx
      exact hw k' x (List.mem_filter.1 hx).1
    · rw [a2 k' hk] at hx
      exact hw k' x hx

theorem firstIn_cons_absent {α : Type} {present r : List α} {y x : α} (hy : y ∉ present) :
    FirstIn present (y :: r) x ↔ FirstIn present r x := by
  constructor
  · rintro ⟨h1, before, after, h2, h3⟩
    cases before with
    | nil => cases h2; exact absurd h1 hy
    | cons b before =>
      cases h2
      exact ⟨h1, before, after, rfl, fun z hz => h3 z (List.mem_cons_of_mem _ hz)⟩
  · rintro ⟨h1, before, after, rfl, h3⟩
    exact ⟨h1, y :: before, after, rfl, fun z hz => by
      rcases List.mem_cons.1 hz with rfl | hz
      · exact hy
      · exact h3 z hz⟩

theorem firstIn_cons_present {α : Type} {present r : List α} {y x : α} (hy : y ∈ present) :
    FirstIn present (y :: r) x ↔ x = y := by
  constructor
  · rintro ⟨h1, before, after, h2, h3⟩
    cases before with
    | nil => cases h2; rfl
    | cons b before => cases h2; exact absurd hy (h3 _ List.mem_cons_self)
  · rintro rfl
    exact ⟨hy, [], r, rfl, fun _ h => nomatch h⟩

theorem exists_firstIn {α : Type} {present given : List α} : (∀ x ∈ given, x ∉ present) ∨ ∃ x, FirstIn present given x := by
  induction given with
  | nil => exact .inl fun _ h => nomatch h
  | cons y r ih =>
    by_cases hy : y ∈ present
    · exact .inr ⟨y, (firstIn_cons_present hy).2 rfl⟩
    · rcases ih with h | ⟨x, hx⟩
      · exact .inl fun x hx => by
          rcases List.mem_cons.1 hx with rfl | hx
          · exact hy
          · exact h x hx
      · exact .inr ⟨x, (firstIn_cons_absent hy).2 hx⟩

theorem removeKeys_others {env : Env} {F : Format} {k : Kind} {ids : List k.Id} {g g' : DecFile F} {i j : Nat}
    (hn : ∀ k', (keyIds g.metadata.integration k').Nodup) (h : g.removeKeys env k ids i = .ok (g', j)) {id : k.Id}
    (hf : FirstIn (keyIds g.metadata.integration k) ids id) : Others (Wrapped env.toKeyEnv) g.metadata.integration k id := by
  induction ids generalizing i with
  | nil =>
    obtain ⟨_, before, after, h, _⟩ := hf
    cases before <;> cases h
  | cons y r ih =>
    unfold DecFile.removeKeys at h
    by_cases hy : y ∈ keyIds g.metadata.integration k
    · rw [firstIn_cons_present hy] at hf
      subst hf
      unfold DecFile.removeKey at h
      cases hx : env.removeKey k id g.metadata.integration i with
      | mk res q =>
        obtain ⟨im, i2⟩ := q
        rw [hx] at h
        cases res with
        | error e => cases h
        | ok o =>
          cases o with
          | none => exact absurd hy (removeKey_none hx).1
          | some u => exact removeKey_others hn hx
    · rw [firstIn_cons_absent hy] at hf
      have h1 : g.removeKey env k y i = (.ok none, g, i) := by
        unfold DecFile.removeKey
        rw [removeKey_absent i hy]
      rw [h1] at h
      exact ih h hf

theorem removeKeys_of_others {env : Env} (he : EnvLaws env) {F : Format} {k : Kind} {ids : List k.Id} {g0 g : DecFile F}
    (hl : Left env g0 g)
    (hw : ∀ id, FirstIn (keyIds g.metadata.integration k) ids id → Others (CanWrap env.toKeyEnv) g.metadata.integration k id)
    (i : Nat) : ∃ g' j, g.removeKeys env k ids i = .ok (g', j) := by
  induction ids generalizing i with
  | nil => exact ⟨_, _, rfl⟩
  | cons id r ih =>
    by_cases hid : id ∈ keyIds g.metadata.integration k
    · have hoth := hw id ((firstIn_cons_present hid).2 rfl)
      obtain ⟨u, m', j, hr⟩ := removeKey_total (env := env.toKeyEnv) hl.ids hid hoth i
      have h1 : g.removeKey env k id i = (.ok (some u), { g with metadata := { g.metadata with integration := m' } }, j) := by
        unfold DecFile.removeKey; rw [hr]
      obtain ⟨a1, a2, a3, _⟩ := removeKey_left he hl h1
      unfold DecFile.removeKeys
      rw [h1]
      refine removeKeys_total he a1 (fun k' x hx => ?_) j
      by_cases hk : k' = k
      · subst hk
        rw [a3] at hx
        exact hoth.1 x (List.mem_filter.1 hx).1 (by simpa using (List.mem_filter.1 hx).2)
      · rw [a2 k' hk] at hx
        exact hoth.2 k' hk x hx
    · have h1 : g.removeKey env k id i = (.ok none, g, i) := by
        unfold DecFile.removeKey
        rw [removeKey_absent i hid]
      rw [show g.removeKeys env k (id :: r) i = g.removeKeys env k r i by rw [DecFile.removeKeys, h1]]
      exact ih (fun x hx => hw x ((firstIn_cons_absent hid).2 hx)) i

/-! ## Finding the data key -/

theorem findClient_ok {h : Host} {id : AwsKeyId} {ps : List AwsPrivateKey}
    (hps : retrievePrivateKeys AwsPrivateKey.parse h c!"aws_kms" = .ok ps) :
    Kms.findClient h id = .ok ((ps.find? fun p => p.profile == id.profile).map (clientFor id)) := by
  unfold Kms.findClient
  rw [hps]
  simp only
  split <;> rename_i h <;> rw [h] <;> rfl

/-- A unit that wraps a data key is opened by a process with its private key and skipped by
others. -/
theorem decryptDataKey_owns {env : KeyEnv} (hA : AgeLaws env.A) (hK : KmsLaws env.K) {key : Bytes}
    (hkey : key.length = dataKeySize) {k : Kind} {u : IUnit k} (hw : Wraps env.A env.K k u key)
    (hage : k = .age → ∃ ks, retrievePrivateKeys (Age.parsePrivateKey env.A) env.host c!"age" = .ok ks)
    (hkms : ∀ e : k = .kms, (∃ ps, retrievePrivateKeys AwsPrivateKey.parse env.host c!"aws_kms" = .ok ps) ∧
      KmsOpens env (e ▸ u).keyId) :
    (Owns env k u.keyId ∧ env.decryptDataKey k u.keyId u.enc = .ok (some key)) ∨
    (¬ Owns env k u.keyId ∧ env.decryptDataKey k u.keyId u.enc = .ok none) := by
  cases k with
  | age =>
    obtain ⟨ks, hks⟩ := hage rfl
    obtain ⟨i, hw⟩ := hw
    simp only [KeyEnv.decryptDataKey, Age.decryptDataKey, hks, Owns, Except.ok.injEq, exists_eq_left']
    cases hf : ks.find? (fun s => env.A.toPublic s == u.keyId) with
    | none =>
      rw [List.find?_eq_none] at hf
      exact .inr ⟨fun ⟨s, h1, h2⟩ => hf s h1 (by simpa using h2), rfl⟩
    | some s =>
      have h1 : env.A.toPublic s = u.keyId := by simpa using List.find?_some hf
      refine .inl ⟨⟨s, List.mem_of_find?_eq_some hf, h1⟩, ?_⟩
      simp only [hA.unwrap_wrap h1 hw, hkey, Nat.le_refl, if_true]
      rw [List.take_of_length_le (by omega)]
  | kms =>
    obtain ⟨⟨ps, hps⟩, ho⟩ := hkms rfl
    obtain ⟨c, i, b, hw, henc⟩ := hw
    simp only [KeyEnv.decryptDataKey, Kms.decryptDataKey, henc, Base64.decode_encode, findClient_ok hps, Owns, hps,
      Except.ok.injEq, exists_eq_left']
    cases hf : ps.find? (fun p => p.profile == u.keyId.profile) with
    | none =>
      rw [List.find?_eq_none] at hf
      exact .inr ⟨fun ⟨s, h1, h2⟩ => hf s h1 (by simpa using h2), rfl⟩
    | some p =>
      have h1 : p.profile = u.keyId.profile := by simpa using List.find?_some hf
      refine .inl ⟨⟨p, List.mem_of_find?_eq_some hf, h1⟩, ?_⟩
      obtain ⟨d', hd⟩ := ho ps p hps (Props.find_firstOf.1 hf) c key i b hw
      have e := hK.decrypt_encrypt hw hd
      subst e
      simp only [Option.map_some, hd, hkey, if_true]

theorem retrieve_iff_owns {env : Env} (he : EnvLaws env) {im : IntegrationMetadata} {key : Bytes}
    (hkey : key.length = dataKeySize) (hw : AllWrap env.A env.K im key)
    (hage : keyIds im .age ≠ [] → ∃ ks, retrievePrivateKeys (Age.parsePrivateKey env.A) env.host c!"age" = .ok ks)
    (hkms : ∀ id ∈ keyIds im .kms,
      (∃ ps, retrievePrivateKeys AwsPrivateKey.parse env.host c!"aws_kms" = .ok ps) ∧ KmsOpens env.toKeyEnv id) :
    (∃ d, env.decryptAny im = .ok (some d)) ↔ ∃ k id, id ∈ keyIds im k ∧ Owns env.toKeyEnv k id := by
  have hall : ∀ k, ∀ u ∈ im.units k,
      (Owns env.toKeyEnv k u.keyId ∧ env.decryptDataKey k u.keyId u.enc = .ok (some key)) ∨
      (¬ Owns env.toKeyEnv k u.keyId ∧ env.decryptDataKey k u.keyId u.enc = .ok none) := by
    intro k u hu
    refine decryptDataKey_owns he.age he.kms hkey (hw k u hu) ?_ ?_
    · rintro rfl
      exact hage (fun e => by rw [keyIds, List.map_eq_nil_iff] at e; rw [e] at hu; cases hu)
    · intro e
      cases k with
      | age => cases e
      | kms => exact hkms u.keyId (List.mem_map_of_mem hu)
  have htries : ∀ r, r ∈ tries env.toKeyEnv im ↔ ∃ k, ∃ u ∈ im.units k, env.decryptDataKey k u.keyId u.enc = r := by
    intro r
    unfold tries
    rw [List.mem_append, List.mem_map, List.mem_map]
    constructor
    · rintro (⟨u, h1, h2⟩ | ⟨u, h1, h2⟩)
      · exact ⟨.age, u, h1, h2⟩
      · exact ⟨.kms, u, h1, h2⟩
    · rintro ⟨k, u, h1, h2⟩
      cases k
      · exact .inl ⟨u, h1, h2⟩
      · exact .inr ⟨u, h1, h2⟩
  constructor
  · rintro ⟨d, h⟩
    obtain ⟨n, h1, _⟩ := (Props.C26_first_not_skipped env.toKeyEnv im d).1 h
    obtain ⟨k, u, hu, h2⟩ := (htries _).1 (List.mem_of_getElem? h1)
    rcases hall k u hu with ⟨h3, _⟩ | ⟨_, h3⟩
    · exact ⟨k, u.keyId, List.mem_map_of_mem hu, h3⟩
    · rw [h2] at h3; cases h3
  · rintro ⟨k, id, hid, ho⟩
    obtain ⟨u, hu, rfl⟩ := List.mem_map.1 hid
    cases hd : env.decryptAny im with
    | error e =>
      obtain ⟨n, h1, _⟩ := (Props.C26_error_hides_later env.toKeyEnv im e).1 hd
      obtain ⟨k', u', hu', h2⟩ := (htries _).1 (List.mem_of_getElem? h1)
      rcases hall k' u' hu' with ⟨_, h3⟩ | ⟨_, h3⟩ <;> rw [h2] at h3 <;> cases h3
    | ok o =>
      cases o with
      | some d => exact ⟨d, rfl⟩
      | none =>
        have := (Props.C26_none_usable env.toKeyEnv im).1 hd _ ((htries _).2 ⟨k, u, hu, rfl⟩)
        rcases hall k u hu with ⟨_, h3⟩ | ⟨h3, _⟩
        · rw [this] at h3; cases h3
        · exact absurd ho h3

end Rops
