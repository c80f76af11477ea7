import Verif.Lemmas.FileOps
import Verif.Lemmas.DocFiles
import Verif.Props.Kms
import Verif.Spec.ToyFile
import Verif.Props.Maps
/-!
# Properties of the creation dates of units
-/

namespace Rops.Props
open Spec

/-! ## C54: what creation dates say -/

theorem Dated.mono {env : KeyEnv} {lo hi lo' hi' : Nat} {k : Kind} {u : IUnit k} (h : Dated env lo hi k u)
    (h1 : lo' ≤ lo) (h2 : hi ≤ hi') : Dated env lo' hi' k u := by
  cases k with
  | age => exact h
  | kms =>
    obtain ⟨n, a, b, c⟩ := h
    exact ⟨n, by omega, by omega, c⟩

/-- Adding keys gives a unit of the file or a unit for an added key with the date of
addition; also when it fails half way. -/
theorem C54_added {env : KeyEnv} {k : Kind} {d : Bytes} {ids : List k.Id} {im im' : IntegrationMetadata} {i j : Nat}
    {res : Except IntegrationError Unit} (h : env.addKeys k d ids im i = (res, im', j)) :
    ∀ u ∈ im'.units k, u ∈ im.units k ∨ u.keyId ∈ ids ∧ Dated env i j k u := by
  suffices h : (∀ u ∈ im'.units k, u ∈ im.units k ∨ u.keyId ∈ ids ∧ Dated env i j k u) ∧ i ≤ j from h.1
  induction ids generalizing im i with
  | nil => simp only [KeyEnv.addKeys] at h; cases h; exact ⟨fun u hu => .inl hu, Nat.le_refl _⟩
  | cons id r ih =>
    simp only [KeyEnv.addKeys] at h
    cases hu : env.newUnit k id d i with
    | error e => rw [hu] at h; cases h; exact ⟨fun u hu => .inl hu, Nat.le_succ _⟩
    | ok u =>
      rw [hu] at h
      obtain ⟨h1, h2⟩ := ih h
      refine ⟨fun x hx => ?_, by omega⟩
      rcases h1 x hx with hx | ⟨hx, hd⟩
      · rw [IntegrationMetadata.units_setUnits] at hx
        rcases Units.of_mem_insert hx with rfl | hx
        · right
          unfold KeyEnv.newUnit at hu
          split at hu
          · cases hu
          · cases hu
            refine ⟨by simp, ?_⟩
            cases k with
            | age => rfl
            | kms => exact ⟨i, Nat.le_refl _, by omega, rfl⟩
        · exact .inl hx
      · exact .inr ⟨by simp [hx], Dated.mono hd (by omega) (Nat.le_refl _)⟩

theorem WrapsIn.mono {env : KeyEnv} {lo hi lo' hi' : Nat} {k : Kind} {u : IUnit k} {d : Bytes} (h : WrapsIn env lo hi k u d)
    (h1 : lo' ≤ lo) (h2 : hi ≤ hi') : WrapsIn env lo' hi' k u d := by
  cases k with
  | age =>
    obtain ⟨n, a, b, c⟩ := h
    exact ⟨n, by omega, by omega, c⟩
  | kms =>
    obtain ⟨n, c, b, h3, h4, h5⟩ := h
    exact ⟨n, c, b, by omega, by omega, h5⟩

theorem wrapsIn_of_encryptDataKey {env : KeyEnv} {k : Kind} {id : k.Id} {d : Bytes} {i : Nat} {enc : Str} {c : Option Timestamp}
    (h : env.encryptDataKey k id d i = .ok enc) : WrapsIn env i (i + 1) k ⟨id, c, enc⟩ d := by
  cases k with
  | age => exact ⟨i, Nat.le_refl _, by omega, h⟩
  | kms =>
    simp only [KeyEnv.encryptDataKey, Kms.encryptDataKey] at h
    split at h
    · cases h
    · cases h
    · rename_i c _
      split at h
      · cases h
      · cases h
      · rename_i b hb
        injection h with h
        exact ⟨i, c, b, Nat.le_refl _, by omega, hb, h.symm⟩

/-- Adding a key again wraps the data key again and replaces the unit and its date: after keys
are added the units for them are made from what the addition has drawn. -/
theorem C54_added_again {env : KeyEnv} {k : Kind} {d : Bytes} {ids : List k.Id} {im im' : IntegrationMetadata} {i j : Nat}
    (hn : (keyIds im k).Nodup) (h : env.addKeys k d ids im i = (.ok (), im', j)) :
    ∀ u ∈ im'.units k, u.keyId ∈ ids → Dated env i j k u ∧ WrapsIn env i j k u d := by
  induction ids generalizing im i with
  | nil => intro u _ hu; cases hu
  | cons id r ih =>
    simp only [KeyEnv.addKeys] at h
    cases hu : env.newUnit k id d i with
    | error e => rw [hu] at h; cases h
    | ok u =>
      rw [hu] at h
      simp only at h
      have hnew : u.keyId = id ∧ Dated env i (i + 1) k u ∧ WrapsIn env i (i + 1) k u d := by
        unfold KeyEnv.newUnit at hu
        split at hu
        · cases hu
        · rename_i enc he
          cases hu
          refine ⟨rfl, ?_, wrapsIn_of_encryptDataKey he⟩
          cases k with
          | age => rfl
          | kms => exact ⟨i, Nat.le_refl _, by omega, rfl⟩
      have hnd : (((im.units k).insert u).map IUnit.keyId).Nodup := by
        rw [Units.map_insert]
        exact addIds_nodup (new := [u.keyId]) hn
      have hn1 : (keyIds (im.setUnits k ((im.units k).insert u)) k).Nodup := by
        rw [keyIds, IntegrationMetadata.units_setUnits]
        exact hnd
      obtain ⟨done, _, h2, _, _, h5, _, h7⟩ := addKeys_spec env k d r _ (i + 1) hn1 h
      cases h2 rfl
      intro x hx hxid
      by_cases hr : x.keyId ∈ r
      · obtain ⟨a, b⟩ := ih hn1 h x hx hr
        exact ⟨Dated.mono a (by omega) (Nat.le_refl _), WrapsIn.mono b (by omega) (Nat.le_refl _)⟩
      · rcases h5 x hx with ⟨hx1, _⟩ | ⟨hx1, _⟩
        · rw [IntegrationMetadata.units_setUnits] at hx1
          have he : x.keyId = u.keyId := by
            rw [hnew.1]
            simpa [hr] using hxid
          cases eq_of_nodup_map hnd hx1 (Units.mem_insert_self _ u) he
          exact ⟨Dated.mono hnew.2.1 (Nat.le_refl _) h7, WrapsIn.mono hnew.2.2 (Nat.le_refl _) h7⟩
        · exact absurd hx1 hr

/-- The key of the second unit is added a second time. -/
example : ∃ im', Toy.env.toKeyEnv.addKeys .age [7] [c!"b"]
      { age := [⟨c!"a", none, c!"x"⟩, ⟨c!"b", none, c!"y"⟩], kms := [] } 3 = (.ok (), im', 4) ∧
    ∀ u ∈ im'.units .age, u.keyId = c!"b" → ∃ n, 3 ≤ n ∧ n < 4 ∧ Toy.env.A.wrap c!"b" [7] n = .ok u.enc := by
  refine ⟨_, rfl, fun u hu he => ?_⟩
  obtain ⟨_, n, h1, h2, h3⟩ := C54_added_again (env := Toy.env.toKeyEnv) (k := .age) (d := [7]) (ids := [c!"b"])
    (im := { age := [⟨c!"a", none, c!"x"⟩, ⟨c!"b", none, c!"y"⟩], kms := [] }) (i := 3) (j := 4) (by decide) rfl u hu
    (by simp [he])
  exact ⟨n, h1, h2, by rw [← he]; exact h3⟩

theorem dated_intoMetadata {env : KeyEnv} {age : List (Kind.Id .age)} {kms : List (Kind.Id .kms)} {d : Bytes} {i j : Nat}
    {im : IntegrationMetadata} (h : env.intoMetadata age kms d i = .ok (im, j)) :
    ∀ k, ∀ u ∈ im.units k, Dated env i j k u := by
  unfold KeyEnv.intoMetadata at h
  split at h
  · cases h
  rcases h1 : env.addKeys .age d age .empty i with ⟨r1, im1, i1⟩
  rw [h1] at h
  cases r1 with
  | error e => simp at h
  | ok u =>
    simp only at h
    rcases h2 : env.addKeys .kms d kms im1 i1 with ⟨r2, im2, i2⟩
    rw [h2] at h
    cases r2 with
    | error e => simp at h
    | ok u =>
      simp only [Except.ok.injEq, Prod.mk.injEq] at h
      obtain ⟨rfl, rfl⟩ := h
      have hn : ∀ k, (keyIds IntegrationMetadata.empty k).Nodup := fun k => by cases k <;> exact List.nodup_nil
      obtain ⟨_, _, _, a3, _, _, _, a7⟩ := addKeys_spec env .age d age .empty i (hn .age) h1
      have hkms : im1.units .kms = [] := a3 .kms (by decide)
      obtain ⟨_, _, _, b3, _, _, _, b7⟩ := addKeys_spec env .kms d kms im1 i1 (by rw [keyIds, hkms]; exact List.nodup_nil) h2
      intro k u hu
      cases k with
      | age =>
        rw [b3 .age (by decide)] at hu
        rcases C54_added h1 u hu with hx | ⟨_, hd⟩
        · cases hx
        · exact hd
      | kms =>
        rcases C54_added h2 u hu with hx | ⟨_, hd⟩
        · rw [hkms] at hx; cases hx
        · exact Dated.mono hd a7 (Nat.le_refl _)

theorem intoMetadata_le {env : KeyEnv} {age : List (Kind.Id .age)} {kms : List (Kind.Id .kms)} {d : Bytes} {i j : Nat}
    {im : IntegrationMetadata} (h : env.intoMetadata age kms d i = .ok (im, j)) : i ≤ j := by
  unfold KeyEnv.intoMetadata at h
  split at h
  · cases h
  rcases h1 : env.addKeys .age d age .empty i with ⟨r1, im1, i1⟩
  rw [h1] at h
  cases r1 with
  | error e => simp at h
  | ok u =>
    simp only at h
    rcases h2 : env.addKeys .kms d kms im1 i1 with ⟨r2, im2, i2⟩
    rw [h2] at h
    cases r2 with
    | error e => simp at h
    | ok u =>
      simp only [Except.ok.injEq, Prod.mk.injEq] at h
      obtain ⟨rfl, rfl⟩ := h
      have hn : ∀ k, (keyIds IntegrationMetadata.empty k).Nodup := fun k => by cases k <;> exact List.nodup_nil
      obtain ⟨_, _, _, a3, _, _, _, a7⟩ := addKeys_spec env .age d age .empty i (hn .age) h1
      have hkms : im1.units .kms = [] := a3 .kms (by decide)
      obtain ⟨_, _, _, b3, _, _, _, b7⟩ := addKeys_spec env .kms d kms im1 i1 (by rw [keyIds, hkms]; exact List.nodup_nil) h2
      exact Nat.le_trans a7 b7

/-- In a new file the units of KMS keys carry the date of their making in whole seconds
and those of age keys carry none. -/
theorem C54_new_file {F : Format} {env : Env} {b : Builder F} {i j : Nat} {f : EncFile F}
    (h : b.encrypt env i = .ok (f, j)) :
    ∀ k, ∀ u ∈ f.metadata.integration.units k, Dated env.toKeyEnv i j k u := by
  obtain ⟨m, m', i1, im, i2, _, hm, him, hmac, _, hmd⟩ := Builder.encrypt_ok h
  have h1 := (C10_map_nonces (env.encEnv (env.newKey i) none) rfl _ _ _ _ _ hm).1
  have h2 : i2 ≤ j := by
    simp only [Mac.encrypt, Mac.nonceFor] at hmac
    split at hmac
    · simp only [Except.ok.injEq, Prod.mk.injEq] at hmac; omega
    · cases hmac
  intro k u hu
  rw [hmd] at hu
  exact Dated.mono (dated_intoMetadata him k u hu) (by omega) h2

/-- The date of a new file is a reading of the clock in whole seconds, taken after all its
values were encrypted and all its units made: each unit is dated not later than the file, by
the same clock. -/
theorem C54_new_file_modified {F : Format} {env : Env} {b : Builder F} {i j : Nat} {f : EncFile F}
    (h : b.encrypt env i = .ok (f, j)) : ∃ t, i < t ∧ t ≤ j ∧ f.metadata.lastModified = { env.clock t with nano := 0 } ∧
      ∀ k, ∀ u ∈ f.metadata.integration.units k, Dated env.toKeyEnv i t k u := by
  obtain ⟨m, m', i1, im, i2, _, hm, him, hmac, _, hmd⟩ := Builder.encrypt_ok h
  have h1 := (C10_map_nonces (env.encEnv (env.newKey i) none) rfl _ _ _ _ _ hm).1
  have h0 := intoMetadata_le him
  have h2 : i2 ≤ j := by
    simp only [Mac.encrypt, Mac.nonceFor] at hmac
    split at hmac
    · simp only [Except.ok.injEq, Prod.mk.injEq] at hmac; omega
    · cases hmac
  refine ⟨i2, by omega, h2, by rw [hmd]; rfl, ?_⟩
  intro k u hu
  rw [hmd] at hu
  exact Dated.mono (dated_intoMetadata him k u hu) (by omega) (Nat.le_refl _)

/-- Removing a key, also when it fails half way, keeps the key ids and dates of the other
units in their order. -/
theorem C54_removal_keeps_dates {env : KeyEnv} {k : Kind} {id : k.Id} {im im' : IntegrationMetadata} {i j : Nat}
    {res : Except IntegrationError (Option (IUnit k))} (h : env.removeKey k id im i = (res, im', j)) (k' : Kind) :
    ((im'.units k').map fun u => (u.keyId, u.createdAt)).Sublist ((im.units k').map fun u => (u.keyId, u.createdAt)) := by
  unfold KeyEnv.removeKey at h
  cases hx : (im.units k).remove id with
  | none => rw [hx] at h; cases h; exact List.Sublist.refl _
  | some p =>
    obtain ⟨u, rest⟩ := p
    rw [hx] at h
    simp only at h
    obtain ⟨a, b, h1, h2, _⟩ := Units.remove_eq_some hx
    have h0 : (((im.setUnits k rest).units k').map fun u => (u.keyId, u.createdAt)).Sublist
        ((im.units k').map fun u => (u.keyId, u.createdAt)) := by
      apply List.Sublist.map
      by_cases hk : k' = k
      · subst hk
        rw [IntegrationMetadata.units_setUnits, h1, h2]
        exact List.Sublist.append (List.Sublist.refl _) (List.sublist_cons_self _ _)
      · rw [IntegrationMetadata.units_setUnits_ne _ hk]
        exact List.Sublist.refl _
    generalize im.setUnits k rest = im0 at h0 h
    suffices hs : ((im'.units k').map fun u => (u.keyId, u.createdAt)) =
        (im0.units k').map fun u => (u.keyId, u.createdAt) by rw [hs]; exact h0
    rcases ha : env.updateUnits .age (env.newKey i) im0.age (i + 1) with ⟨r1, age, i1⟩
    have hage := (updateUnits_spec _ _ _ _ _ ha).1
    rw [ha] at h
    cases r1 with
    | error e => cases h; cases k' <;> first | exact hage | rfl
    | ok _ =>
      simp only at h
      rcases hb : env.updateUnits .kms (env.newKey i) im0.kms i1 with ⟨r2, kms, i2⟩
      have hkms := (updateUnits_spec _ _ _ _ _ hb).1
      rw [hb] at h
      cases r2 <;> cases h <;> cases k' <;> first | exact hage | exact hkms

/-- So after a removal the dates are not those of the data key, which is new: every date
is from before the data key was made. -/
theorem C54_dates_older_than_key {env : KeyEnv} {k : Kind} {id : k.Id} {im im' : IntegrationMetadata} {lo i j : Nat}
    {removed : IUnit k} (hd : ∀ k, ∀ u ∈ im.units k, Dated env lo i k u)
    (h : env.removeKey k id im i = (.ok (some removed), im', j)) :
    AllWrap env.A env.K im' (env.newKey i) ∧ ∀ k, ∀ u ∈ im'.units k, Dated env lo i k u := by
  refine ⟨(removeKey_some h).2.2.2.2.1, fun k' u hu => ?_⟩
  have hm := (C54_removal_keeps_dates h k').subset (List.mem_map_of_mem hu)
  obtain ⟨v, hv, he⟩ := List.mem_map.1 hm
  simp only [Prod.mk.injEq] at he
  have := hd k' v hv
  cases k' with
  | age => exact he.2.symm.trans this
  | kms =>
    obtain ⟨n, a, b, c⟩ := this
    exact ⟨n, a, b, he.2.symm.trans c⟩

/-- A process whose clock shows the position of the tape as the minute. -/
def clockEnv : KeyEnv := { workEnv with clock := fun n => ⟨2024, 1, 2, 3, n, 5, 67⟩ }

/-- Units for an age key and a KMS key made at 03:07 and 03:08; after the removal of the
age key at 03:30 the KMS unit still says 03:08. -/
example :
    let r := clockEnv.intoMetadata [c!"pk1"] [workKey] sampleKey 7
    let dates (x : IntegrationMetadata) := (x.age.map IUnit.createdAt, x.kms.map IUnit.createdAt)
    r.toOption.map (fun x => dates x.1) = some ([none], [some ⟨2024, 1, 2, 3, 8, 5, 0⟩]) ∧
    r.toOption.map (fun x => dates (clockEnv.removeKey .age c!"pk1" x.1 30).2.1) =
      some ([], [some ⟨2024, 1, 2, 3, 8, 5, 0⟩]) ∧
    r.toOption.map (fun x => clockEnv.decryptAny (clockEnv.removeKey .age c!"pk1" x.1 30).2.1) =
      some (.ok (some (clockEnv.newKey 30))) := by
  decide +kernel

end Rops.Props
