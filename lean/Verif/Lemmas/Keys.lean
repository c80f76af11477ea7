import Verif.Spec.Keys
import Verif.Lemmas.Base64
import Verif.Lemmas.Text
/-! Units, key retrieval, key ids. -/

namespace Rops
open Spec

/-! ## Wrapped data keys -/

theorem decryptDataKey_of_wraps {env : KeyEnv} (hA : AgeLaws env.A) (hK : KmsLaws env.K) {k : Kind} {u : IUnit k}
    {d d' : Bytes} (hd : d.length = dataKeySize) (hw : Wraps env.A env.K k u d)
    (h : env.decryptDataKey k u.keyId u.enc = .ok (some d')) : d' = d := by
  cases k with
  | age =>
    obtain ⟨i, hi⟩ := hw
    simp only [KeyEnv.decryptDataKey, Age.decryptDataKey] at h
    split at h
    · cases h
    rename_i keys _
    split at h
    · cases h
    rename_i key hkey
    have hp := List.find?_some hkey
    simp only [beq_iff_eq] at hp
    rw [hA.unwrap_wrap hp hi] at h
    simp only at h
    rw [if_pos (by omega)] at h
    injection h with h
    injection h with h
    rw [← h, ← hd, List.take_length]
  | kms =>
    obtain ⟨c, i, b, hb, he⟩ := hw
    simp only [KeyEnv.decryptDataKey, Kms.decryptDataKey] at h
    rw [he, Base64.decode_encode] at h
    simp only at h
    split at h
    · cases h
    · cases h
    rename_i c' _
    split at h
    · cases h
    · cases h
    rename_i b' hb'
    split at h
    · cases h
      exact hK.decrypt_encrypt hb hb'
    · cases h

theorem findDataKey_iff (env : KeyEnv) (k : Kind) (us : Units k) (r : Except IntegrationError Bytes) :
    env.findDataKey k us = some r ↔ ∃ n : Nat,
      (us.map fun u => env.decryptDataKey k u.keyId u.enc)[n]? = some (r.map some) ∧
      ∀ j < n, (us.map fun u => env.decryptDataKey k u.keyId u.enc)[j]? = some (.ok none) := by
  induction us with
  | nil => simp [KeyEnv.findDataKey]
  | cons u us ih =>
    simp only [KeyEnv.findDataKey, List.map_cons]
    cases hu : env.decryptDataKey k u.keyId u.enc with
    | error e =>
      simp only [Option.some.injEq]
      constructor
      · rintro rfl; exact ⟨0, rfl, by simp⟩
      · rintro ⟨n, h1, h2⟩
        cases n with
        | zero =>
          simp only [List.getElem?_cons_zero, Option.some.injEq] at h1
          cases r with
          | error e' => simpa [Except.map] using h1
          | ok x => simp [Except.map] at h1
        | succ n => have := h2 0 (by omega); simp at this
    | ok o =>
      cases o with
      | some d =>
        simp only [Option.some.injEq]
        constructor
        · rintro rfl; exact ⟨0, rfl, by simp⟩
        · rintro ⟨n, h1, h2⟩
          cases n with
          | zero =>
            simp only [List.getElem?_cons_zero, Option.some.injEq] at h1
            cases r with
            | error e' => simp [Except.map] at h1
            | ok x => simpa [Except.map] using h1
          | succ n => have := h2 0 (by omega); simp at this
      | none =>
        rw [ih]
        constructor
        · rintro ⟨n, h1, h2⟩
          refine ⟨n + 1, by simpa using h1, fun j hj => ?_⟩
          cases j with
          | zero => rfl
          | succ j => simpa using h2 j (by omega)
        · rintro ⟨n, h1, h2⟩
          cases n with
          | zero =>
            simp only [List.getElem?_cons_zero, Option.some.injEq] at h1
            cases r <;> simp [Except.map] at h1
          | succ n => exact ⟨n, by simpa using h1, fun j hj => by simpa using h2 (j + 1) (by omega)⟩

theorem findDataKey_eq_none (env : KeyEnv) (k : Kind) (us : Units k) :
    env.findDataKey k us = none ↔ ∀ u ∈ us, env.decryptDataKey k u.keyId u.enc = .ok none := by
  induction us with
  | nil => simp [KeyEnv.findDataKey]
  | cons u us ih =>
    simp only [KeyEnv.findDataKey, List.mem_cons, forall_eq_or_imp]
    cases env.decryptDataKey k u.keyId u.enc with
    | error e => simp
    | ok o =>
      cases o with
      | some d => simp
      | none => simp [ih]

theorem findDataKey_mem {env : KeyEnv} {k : Kind} {us : Units k} {r : Except IntegrationError Bytes}
    (h : env.findDataKey k us = some r) : ∃ u ∈ us, env.decryptDataKey k u.keyId u.enc = r.map some := by
  obtain ⟨n, h1, _⟩ := (findDataKey_iff env k us r).1 h
  have := List.mem_of_getElem? h1
  obtain ⟨u, hu, he⟩ := List.mem_map.1 this
  exact ⟨u, hu, he⟩

theorem decryptAny_of_allWrap {env : KeyEnv} (hA : AgeLaws env.A) (hK : KmsLaws env.K) {im : IntegrationMetadata}
    {d d' : Bytes} (hd : d.length = dataKeySize) (hw : AllWrap env.A env.K im d)
    (h : env.decryptAny im = .ok (some d')) : d' = d := by
  unfold KeyEnv.decryptAny at h
  split at h
  · rename_i x hx
    cases h
    obtain ⟨u, hu, he⟩ := findDataKey_mem hx
    exact decryptDataKey_of_wraps hA hK hd (hw .age u hu) he
  · cases h
  · split at h
    · rename_i x hx
      cases h
      obtain ⟨u, hu, he⟩ := findDataKey_mem hx
      exact decryptDataKey_of_wraps hA hK hd (hw .kms u hu) he
    · cases h
    · cases h

theorem encryptDataKey_wraps {env : KeyEnv} {k : Kind} {u : IUnit k} {d : Bytes} {i : Nat}
    (h : env.encryptDataKey k u.keyId d i = .ok u.enc) : Wraps env.A env.K k u d := by
  cases k with
  | age => exact ⟨i, h⟩
  | kms =>
    simp only [KeyEnv.encryptDataKey, Kms.encryptDataKey] at h
    split at h
    · cases h
    · cases h
    · rename_i c _
      split at h
      · cases h
      · cases h
      · rename_i b hb
        injection h with h
        exact ⟨c, i, b, hb, h.symm⟩

/-! ## Units -/

theorem IntegrationMetadata.units_setUnits (m : IntegrationMetadata) (k : Kind) (us : Units k) :
    (m.setUnits k us).units k = us := by cases k <;> rfl

theorem IntegrationMetadata.units_setUnits_ne (m : IntegrationMetadata) {k k' : Kind} (h : k' ≠ k) (us : Units k) :
    (m.setUnits k us).units k' = m.units k' := by cases k <;> cases k' <;> first | rfl | exact (h rfl).elim

theorem Units.map_insert {k : Kind} (us : Units k) (u : IUnit k) :
    (us.insert u).map IUnit.keyId =
      if u.keyId ∈ us.map IUnit.keyId then us.map IUnit.keyId else us.map IUnit.keyId ++ [u.keyId] := by
  induction us with
  | nil => simp [Units.insert]
  | cons x r ih =>
    simp only [Units.insert]
    by_cases h : x.keyId = u.keyId
    · simp [h]
    · have h' : u.keyId ≠ x.keyId := fun e => h e.symm
      simp only [if_neg h, List.map_cons, ih, List.mem_cons, h', false_or]
      by_cases h2 : u.keyId ∈ List.map IUnit.keyId r <;> simp [h2]

theorem Units.mem_insert_self {k : Kind} (us : Units k) (u : IUnit k) : u ∈ us.insert u := by
  induction us with
  | nil => simp [Units.insert]
  | cons x r ih =>
    simp only [Units.insert]
    by_cases h : x.keyId = u.keyId
    · simp [h]
    · simp [h, ih]

theorem Units.mem_insert_of_ne {k : Kind} {us : Units k} {u x : IUnit k} (h : x.keyId ≠ u.keyId) (hx : x ∈ us) :
    x ∈ us.insert u := by
  induction us with
  | nil => cases hx
  | cons y r ih =>
    simp only [Units.insert]
    by_cases hy : y.keyId = u.keyId
    · rw [if_pos hy]
      rcases List.mem_cons.1 hx with rfl | hx
      · exact absurd hy h
      · exact List.mem_cons_of_mem _ hx
    · rw [if_neg hy]
      rcases List.mem_cons.1 hx with rfl | hx
      · exact List.mem_cons_self
      · exact List.mem_cons_of_mem _ (ih hx)

theorem Units.of_mem_insert {k : Kind} {us : Units k} {u x : IUnit k} (hx : x ∈ us.insert u) : x = u ∨ x ∈ us := by
  induction us with
  | nil => simpa [Units.insert] using hx
  | cons y r ih =>
    simp only [Units.insert] at hx
    by_cases hy : y.keyId = u.keyId
    · rw [if_pos hy] at hx
      rcases List.mem_cons.1 hx with rfl | hx
      · exact .inl rfl
      · exact .inr (List.mem_cons_of_mem _ hx)
    · rw [if_neg hy] at hx
      rcases List.mem_cons.1 hx with rfl | hx
      · exact .inr List.mem_cons_self
      · rcases ih hx with h | h
        · exact .inl h
        · exact .inr (List.mem_cons_of_mem _ h)

theorem Units.insert_ne_nil {k : Kind} (us : Units k) (u : IUnit k) : us.insert u ≠ [] :=
  List.ne_nil_of_mem (us.mem_insert_self u)

theorem eq_of_nodup_map {α β : Type} {f : α → β} {l : List α} (h : (l.map f).Nodup) {x y : α}
    (hx : x ∈ l) (hy : y ∈ l) (he : f x = f y) : x = y := by
  induction l with
  | nil => cases hx
  | cons a r ih =>
    simp only [List.map_cons, List.nodup_cons, List.mem_map, not_exists, not_and] at h
    rcases List.mem_cons.1 hx with hx' | hx' <;> rcases List.mem_cons.1 hy with hy' | hy'
    · rw [hx', hy']
    · exact absurd (hx' ▸ he).symm (h.1 _ hy')
    · exact absurd (hy' ▸ he) (h.1 _ hx')
    · exact ih h.2 hx' hy'

theorem addIds_nodup {α : Type} [DecidableEq α] {old new : List α} (h : old.Nodup) : (addIds old new).Nodup := by
  induction new generalizing old with
  | nil => exact h
  | cons x r ih =>
    simp only [addIds, List.foldl_cons] at ih ⊢
    apply ih
    by_cases hx : x ∈ old
    · simpa [hx] using h
    · rw [if_neg hx]
      rw [List.nodup_append]
      refine ⟨h, by simp, ?_⟩
      intro a ha b hb
      simp only [List.mem_singleton] at hb
      subst hb
      exact fun e => hx (e ▸ ha)

theorem mem_addIds {α : Type} [DecidableEq α] {old new : List α} {x : α} :
    x ∈ addIds old new ↔ x ∈ old ∨ x ∈ new := by
  induction new generalizing old with
  | nil => simp [addIds]
  | cons y r ih =>
    simp only [addIds, List.foldl_cons] at ih ⊢
    rw [ih]
    by_cases hy : y ∈ old
    · simp only [hy, if_true, List.mem_cons]
      constructor
      · rintro (h | h)
        · exact .inl h
        · exact .inr (.inr h)
      · rintro (h | rfl | h)
        · exact .inl h
        · exact .inl hy
        · exact .inr h
    · simp only [hy, if_false, List.mem_append, List.mem_cons, List.not_mem_nil, or_false]
      rw [or_assoc]

/-! ## Adding and removing keys -/

/-- What adding keys does, also when it fails half way (`done` ids were added). -/
theorem addKeys_spec (env : KeyEnv) (k : Kind) (d : Bytes) (ids : List k.Id) (m : IntegrationMetadata) (i : Nat)
    (hn : (keyIds m k).Nodup) {res : Except IntegrationError Unit} {m' : IntegrationMetadata} {j : Nat}
    (h : env.addKeys k d ids m i = (res, m', j)) :
    ∃ done, done <+: ids ∧ (res = .ok () → done = ids) ∧
      (∀ k', k' ≠ k → m'.units k' = m.units k') ∧
      keyIds m' k = addIds (keyIds m k) done ∧
      (∀ u ∈ m'.units k, u ∈ m.units k ∧ u.keyId ∉ done ∨ u.keyId ∈ done ∧ Wraps env.A env.K k u d) ∧
      (∀ u ∈ m.units k, u.keyId ∉ done → u ∈ m'.units k) ∧ i ≤ j := by
  induction ids generalizing m i with
  | nil =>
    simp only [KeyEnv.addKeys] at h
    cases h
    exact ⟨[], List.prefix_refl _, fun _ => rfl, fun _ _ => rfl, rfl, fun u hu => .inl ⟨hu, by simp⟩,
      fun u hu _ => hu, Nat.le_refl _⟩
  | cons id ids ih =>
    simp only [KeyEnv.addKeys] at h
    cases hu : env.newUnit k id d i with
    | error e =>
      rw [hu] at h
      cases h
      exact ⟨[], List.nil_prefix, fun h => (nomatch h), fun _ _ => rfl, rfl, fun u hu => .inl ⟨hu, by simp⟩,
        fun u hu _ => hu, by omega⟩
    | ok u =>
      rw [hu] at h
      simp only at h
      have hid : u.keyId = id ∧ Wraps env.A env.K k u d := by
        unfold KeyEnv.newUnit at hu
        split at hu
        · cases hu
        · rename_i enc he
          cases hu
          exact ⟨rfl, encryptDataKey_wraps he⟩
      have hnd : (((m.units k).insert u).map IUnit.keyId).Nodup := by
        have := addIds_nodup (new := [u.keyId]) hn
        rw [Units.map_insert]
        exact this
      obtain ⟨done, h1, h2, h3, h4, h5, h6, h7⟩ := ih _ _ (by
        rw [keyIds, IntegrationMetadata.units_setUnits]; exact hnd) h
      refine ⟨id :: done, ?_, ?_, ?_, ?_, ?_, ?_, by omega⟩
      · exact List.cons_prefix_cons.2 ⟨rfl, h1⟩
      · intro hr; rw [h2 hr]
      · intro k' hk'
        rw [h3 k' hk', IntegrationMetadata.units_setUnits_ne _ hk']
      · rw [h4, keyIds, IntegrationMetadata.units_setUnits, Units.map_insert, hid.1]
        simp only [addIds, List.foldl_cons]
        rfl
      · intro x hx
        rcases h5 x hx with ⟨hx1, hx2⟩ | ⟨hx1, hx2⟩
        · rw [IntegrationMetadata.units_setUnits] at hx1
          rcases Units.of_mem_insert hx1 with rfl | hx3
          · exact .inr ⟨by simp [hid.1], hid.2⟩
          · by_cases hxid : x.keyId = id
            · have := eq_of_nodup_map hnd hx1 (Units.mem_insert_self _ u) (hxid.trans hid.1.symm)
              subst this
              exact .inr ⟨by simp [hid.1], hid.2⟩
            · exact .inl ⟨hx3, by simp [hxid, hx2]⟩
        · exact .inr ⟨List.mem_cons_of_mem _ hx1, hx2⟩
      · intro x hx hxd
        simp only [List.mem_cons, not_or] at hxd
        apply h6 x _ hxd.2
        rw [IntegrationMetadata.units_setUnits]
        exact Units.mem_insert_of_ne (by rw [hid.1]; exact hxd.1) hx

/-- What wrapping a new data key for all units does, also when it fails half way. -/
theorem updateUnits_spec (env : KeyEnv) (k : Kind) (d : Bytes) (us : Units k) (i : Nat)
    {res : Except IntegrationError Unit} {us' : Units k} {j : Nat} (h : env.updateUnits k d us i = (res, us', j)) :
    us'.map (fun u => (u.keyId, u.createdAt)) = us.map (fun u => (u.keyId, u.createdAt)) ∧
    (res = .ok () → ∀ u ∈ us', Wraps env.A env.K k u d) ∧ i ≤ j := by
  induction us generalizing i us' j with
  | nil =>
    simp only [KeyEnv.updateUnits] at h
    cases h
    exact ⟨rfl, fun _ _ hu => (by cases hu), Nat.le_refl _⟩
  | cons u r ih =>
    simp only [KeyEnv.updateUnits] at h
    cases hu : env.encryptDataKey k u.keyId d i with
    | error e =>
      rw [hu] at h
      cases h
      exact ⟨rfl, fun h => (nomatch h), by omega⟩
    | ok enc =>
      rw [hu] at h
      simp only at h
      rcases h' : env.updateUnits k d r (i + 1) with ⟨res', r', j'⟩
      rw [h'] at h
      cases h
      obtain ⟨h1, h2, h3⟩ := ih _ h'
      refine ⟨by simp [h1], ?_, Nat.le_trans (Nat.le_succ _) h3⟩
      intro hr x hx
      rcases List.mem_cons.1 hx with rfl | hx
      · exact encryptDataKey_wraps (u := { u with enc }) hu
      · exact h2 hr x hx

theorem map_keyId_of_pairs {k : Kind} {us us' : Units k}
    (h : us'.map (fun u => (u.keyId, u.createdAt)) = us.map (fun u => (u.keyId, u.createdAt))) :
    us'.map IUnit.keyId = us.map IUnit.keyId := by
  have := congrArg (List.map Prod.fst) h
  rwa [List.map_map, List.map_map] at this

theorem Units.remove_eq_none {k : Kind} {us : Units k} {id : k.Id} :
    us.remove id = none ↔ id ∉ us.map IUnit.keyId := by
  induction us with
  | nil => simp [Units.remove]
  | cons x r ih =>
    simp only [Units.remove, List.map_cons, List.mem_cons, not_or]
    by_cases h : x.keyId = id
    · simp [h]
    · rw [if_neg h]
      have h' : ¬ id = x.keyId := fun e => h e.symm
      rcases hr : Units.remove r id with _ | ⟨u, r'⟩
      · simp [h', ih.1 hr]
      · have : ¬ (id ∉ r.map IUnit.keyId) := fun hn => by rw [ih.2 hn] at hr; cases hr
        simp only [h', not_false_eq_true, true_and]
        exact ⟨fun h => (nomatch h), fun hn => absurd hn this⟩

theorem Units.remove_eq_some {k : Kind} {us : Units k} {id : k.Id} {u : IUnit k} {r : Units k}
    (h : us.remove id = some (u, r)) : ∃ a b, us = a ++ u :: b ∧ r = a ++ b ∧ u.keyId = id ∧
      id ∉ a.map IUnit.keyId := by
  induction us generalizing r with
  | nil => cases h
  | cons x us ih =>
    simp only [Units.remove] at h
    by_cases hx : x.keyId = id
    · rw [if_pos hx] at h
      cases h
      exact ⟨[], _, rfl, rfl, hx, by simp⟩
    · rw [if_neg hx] at h
      rcases hr : Units.remove us id with _ | ⟨u', r'⟩
      · rw [hr] at h; cases h
      · rw [hr] at h
        cases h
        obtain ⟨a, b, h1, h2, h3, h4⟩ := ih hr
        refine ⟨x :: a, b, by simp [h1], by simp [h2], h3, ?_⟩
        simp only [List.map_cons, List.mem_cons, not_or]
        exact ⟨fun e => hx e.symm, h4⟩

theorem IntegrationMetadata.ext {m m' : IntegrationMetadata} (h : ∀ k, m.units k = m'.units k) : m = m' := by
  have h1 := h .age
  have h2 := h .kms
  cases m; cases m'
  simp only [IntegrationMetadata.units] at h1 h2
  simp [h1, h2]

/-- A successful removal of a present key id. -/
theorem removeKey_some {env : KeyEnv} {k : Kind} {id : k.Id} {m m' : IntegrationMetadata} {i j : Nat}
    {removed : IUnit k} (h : env.removeKey k id m i = (.ok (some removed), m', j)) :
    removed.keyId = id ∧ removed ∈ m.units k ∧
    keyIds m' k = (keyIds m k).erase id ∧ (∀ k', k' ≠ k → keyIds m' k' = keyIds m k') ∧
    AllWrap env.A env.K m' (env.newKey i) ∧ i < j := by
  unfold KeyEnv.removeKey at h
  cases hr : (m.units k).remove id with
  | none => rw [hr] at h; simp at h
  | some p =>
    obtain ⟨u, rest⟩ := p
    rw [hr] at h
    simp only at h
    rcases ha : env.updateUnits .age (env.newKey i) (m.setUnits k rest).age (i + 1) with ⟨ra, age, ia⟩
    rw [ha] at h
    cases ra with
    | error e => simp at h
    | ok _ =>
      simp only at h
      rcases hk : env.updateUnits .kms (env.newKey i) (m.setUnits k rest).kms ia with ⟨rk, kms, ik⟩
      rw [hk] at h
      cases rk with
      | error e => simp at h
      | ok _ =>
        simp only [Prod.mk.injEq, Except.ok.injEq, Option.some.injEq] at h
        obtain ⟨rfl, hm', rfl⟩ := h
        obtain ⟨a1, a2, a3⟩ := updateUnits_spec _ _ _ _ _ ha
        obtain ⟨k1, k2, k3⟩ := updateUnits_spec _ _ _ _ _ hk
        have hids : ∀ k', keyIds m' k' = keyIds (m.setUnits k rest) k' := by
          intro k'
          rw [← hm']
          cases k'
          · exact map_keyId_of_pairs a1
          · exact map_keyId_of_pairs k1
        obtain ⟨a, b, e1, e2, e3, e4⟩ := Units.remove_eq_some hr
        refine ⟨e3, ?_, ?_, ?_, ?_, by omega⟩
        · rw [e1]; simp
        · rw [hids, keyIds, IntegrationMetadata.units_setUnits, keyIds, e1, e2]
          rw [List.map_append, List.map_append, List.erase_append_right _ e4]
          simp [e3]
        · intro k' hk'
          rw [hids, keyIds, IntegrationMetadata.units_setUnits_ne _ hk']; rfl
        · intro k' u hu
          rw [← hm'] at hu
          cases k'
          · exact a2 rfl u hu
          · exact k2 rfl u hu

theorem removeKey_absent {env : KeyEnv} {k : Kind} {id : k.Id} {m : IntegrationMetadata} (i : Nat)
    (h : id ∉ keyIds m k) : env.removeKey k id m i = (.ok none, m, i) := by
  unfold KeyEnv.removeKey
  rw [Units.remove_eq_none.2 h]

theorem removeKey_none {env : KeyEnv} {k : Kind} {id : k.Id} {m m' : IntegrationMetadata} {i j : Nat}
    (h : env.removeKey k id m i = (.ok none, m', j)) : id ∉ keyIds m k ∧ m' = m ∧ j = i := by
  by_cases hid : id ∈ keyIds m k
  · exfalso
    unfold KeyEnv.removeKey at h
    cases hr : (m.units k).remove id with
    | none => exact (Units.remove_eq_none.1 hr) hid
    | some p =>
      rw [hr] at h
      simp only at h
      split at h
      · simp at h
      · split at h <;> simp at h
  · rw [removeKey_absent i hid] at h
    simp only [Prod.mk.injEq, true_and] at h
    exact ⟨hid, h.1.symm, h.2.symm⟩

/-! ## Retrieval -/

theorem mapResult_ok_iff {α β ε : Type} {f : α → Except ε β} {l : List α} {bs : List β} :
    mapResult f l = .ok bs ↔ l.map f = bs.map .ok := by
  induction l generalizing bs with
  | nil => simp [mapResult, eq_comm]
  | cons a r ih =>
    simp only [mapResult, List.map_cons]
    cases hf : f a with
    | error e => cases bs <;> simp
    | ok b =>
      cases hr : mapResult f r with
      | error e =>
        cases bs with
        | nil => simp
        | cons b' bs' =>
          simp only [reduceCtorEq, List.map_cons, List.cons.injEq, Except.ok.injEq, false_iff, not_and]
          intro _ h
          rw [ih.2 h] at hr
          cases hr
      | ok bs'' =>
        have := ih.1 hr
        cases bs with
        | nil => simp
        | cons b' bs' =>
          simp only [Except.ok.injEq, List.cons.injEq, List.map_cons]
          constructor
          · rintro ⟨rfl, rfl⟩; exact ⟨rfl, this⟩
          · rintro ⟨rfl, h⟩
            have := ih.2 h
            rw [hr] at this
            cases this
            exact ⟨rfl, rfl⟩

theorem mapResult_error {α β ε : Type} {f : α → Except ε β} {l : List α} {e : ε}
    (h : mapResult f l = .error e) : ∃ x ∈ l, f x = .error e := by
  induction l with
  | nil => cases h
  | cons a r ih =>
    simp only [mapResult] at h
    cases hf : f a with
    | error e' => rw [hf] at h; cases h; exact ⟨a, by simp, hf⟩
    | ok b =>
      rw [hf] at h
      cases hr : mapResult f r with
      | error e' =>
        rw [hr] at h; cases h
        obtain ⟨x, hx, he⟩ := ih hr
        exact ⟨x, by simp [hx], he⟩
      | ok bs => rw [hr] at h; cases h

theorem dropWhile_append_of_all {p : Char → Bool} {a b : Str} (h : ∀ c ∈ a, p c = true) :
    (a ++ b).dropWhile p = b.dropWhile p := by
  induction a with
  | nil => rfl
  | cons x r ih =>
    have hx := h x (by simp)
    simp only [List.cons_append, List.dropWhile_cons, hx, if_true]
    exact ih fun c hc => h c (by simp [hc])

theorem trim_append_white {s w : Str} (h : ∀ c ∈ w, isWhitespace c = true) : trim (s ++ w) = trim s := by
  unfold trim
  rw [List.dropWhile_append]
  by_cases hs : (s.dropWhile isWhitespace).isEmpty = true
  · rw [if_pos hs]
    have : s.dropWhile isWhitespace = [] := List.isEmpty_iff.1 hs
    rw [this]
    have := dropWhile_append_of_all (b := []) h
    simp only [List.append_nil] at this
    rw [this]
    rfl
  · rw [if_neg hs, List.reverse_append,
      dropWhile_append_of_all (by intro c hc; exact h c (List.mem_reverse.1 hc))]

theorem trim_stripCr (s : Str) : trim (stripCr s) = trim s := by
  unfold stripCr
  cases h : stripSuffixChar '\r' s with
  | none => rfl
  | some t =>
    rw [stripSuffixChar_eq_some.1 h, trim_append_white]
    intro c hc
    simp only [List.mem_singleton] at hc
    subst hc
    decide

theorem trim_nil : trim [] = [] := rfl

theorem lines_trim (s : Str) :
    ((lines s).map trim).filter (· ≠ []) = ((splitOn '\n' s).map trim).filter (· ≠ []) := by
  unfold lines
  generalize splitOn '\n' s = ws
  induction ws with
  | nil => rfl
  | cons x r ih =>
    cases r with
    | nil =>
      simp only [linesOf]
      by_cases hx : x = []
      · subst hx; rfl
      · rw [if_neg hx]
    | cons y r =>
      simp only [linesOf, List.map_cons, trim_stripCr, List.filter_cons] at ih ⊢
      rw [ih]

/-! ## ARNs -/

/-- The resource part of an ARN. -/
def KeyArn.resourceText (a : KeyArn) : Str :=
  (match a.parentPath with | some p => p ++ ['/'] | none => []) ++ a.keyId

theorem KeyArn.toText_eq (a : KeyArn) : a.toText = c!"arn:" ++ pushOptional a.partition ++ pushIdent a.service ++
    pushIdent a.region ++ pushOptional a.account ++ a.resourceText := by
  unfold KeyArn.toText KeyArn.resourceText
  cases a.parentPath <;> simp

theorem joinColon_eq (l : List Str) : joinColon l = joinWith ':' l := by
  induction l with
  | nil => rfl
  | cons x r ih => cases r with
    | nil => rfl
    | cons y r => simp only [joinColon, joinWith, ih]

theorem KeyArn.parse_ok {A : ArnChecks} {s : Str} {a : KeyArn} (h : KeyArn.parse A s = .ok a) :
    ∃ p ac r0 rest, splitOn ':' s = c!"arn" :: p :: a.service :: a.region :: ac :: r0 :: rest ∧
      ArnChecks.optional A.ident p = .ok a.partition ∧ A.ident a.service = true ∧
      A.ident a.region = true ∧ ArnChecks.optional A.account ac = .ok a.account ∧
      joinColon (r0 :: rest) = a.resourceText := by
  unfold KeyArn.parse at h
  split at h
  · rename_i arn p sv rg ac r0 rest hs
    by_cases harn : arn ≠ c!"arn"
    · rw [if_pos harn] at h; cases h
    rw [if_neg harn] at h
    simp only [ne_eq, Decidable.not_not] at harn
    subst harn
    cases hp : ArnChecks.optional A.ident p with
    | error e => rw [hp] at h; cases h
    | ok pp =>
    rw [hp] at h
    cases hsv : A.ident sv with
    | false => rw [hsv] at h; cases h
    | true =>
    rw [hsv] at h
    cases hrg : ArnChecks.optional A.ident rg with
    | error e => rw [hrg] at h; cases h
    | ok rr =>
    rw [hrg] at h
    cases hac : ArnChecks.optional A.account ac with
    | error e => rw [hac] at h; cases h
    | ok aa =>
    rw [hac] at h
    cases hres : A.resource (joinColon (r0 :: rest)) with
    | false => simp only [hres] at h; cases h
    | true =>
    simp only [hres] at h
    have hreg : ∀ r, rr = some r → r = rg ∧ A.ident rg = true := by
      intro r hr
      subst hr
      unfold ArnChecks.optional at hrg
      split at hrg
      · cases hrg
      · split at hrg
        · rename_i hi; cases hrg; exact ⟨rfl, hi⟩
        · cases hrg
    cases hl : rsplitOnce '/' (joinColon (r0 :: rest)) with
    | none =>
      simp only [hl] at h
      cases hi : A.ident (joinColon (r0 :: rest)) with
      | false => simp only [hi] at h; cases h
      | true =>
        simp only [hi] at h
        cases rr with
        | none =>
          have h : (Except.error .keyIdParsing : Except IntegrationError KeyArn) = .ok a := h
          cases h
        | some r =>
        obtain ⟨rfl, hident⟩ := hreg r rfl
        have h : Except.ok (KeyArn.mk pp sv r aa (none) (joinColon (r0 :: rest))) = (.ok a : Except IntegrationError KeyArn) := h
        injection h with ha
        subst ha
        exact ⟨p, ac, r0, rest, hs, hp, hsv, hident, hac, rfl⟩
    | some pr =>
      obtain ⟨parent, id⟩ := pr
      simp only [hl] at h
      cases hi : (A.resource parent && A.ident id) with
      | false => simp only [hi] at h; cases h
      | true =>
        simp only [hi] at h
        cases rr with
        | none =>
          have h : (Except.error .keyIdParsing : Except IntegrationError KeyArn) = .ok a := h
          cases h
        | some r =>
        obtain ⟨rfl, hident⟩ := hreg r rfl
        have h : Except.ok (KeyArn.mk pp sv r aa (some parent) (id)) = (.ok a : Except IntegrationError KeyArn) := h
        injection h with ha
        subst ha
        refine ⟨p, ac, r0, rest, hs, hp, hsv, hident, hac, ?_⟩
        rw [(rsplitOnce_eq_some.1 hl).1]
        simp [KeyArn.resourceText]
  · cases h

theorem ArnChecks.optional_some {check : Str → Bool} {s t : Str} (h : ArnChecks.optional check s = .ok (some t)) :
    s = t ∧ t ≠ [] ∧ check t = true := by
  unfold ArnChecks.optional at h
  split at h
  · cases h
  · rename_i hne
    split at h
    · rename_i hc; cases h; exact ⟨rfl, hne, hc⟩
    · cases h

theorem ArnChecks.optional_none {check : Str → Bool} {s : Str} (h : ArnChecks.optional check s = .ok none) :
    s = [] := by
  unfold ArnChecks.optional at h
  split at h
  · assumption
  · split at h <;> cases h

theorem ArnChecks.optional_eq (check : Str → Bool) (s : Str) :
    ArnChecks.optional check s = if s = [] ∨ check s = true then .ok (nonEmpty s) else .error .keyIdParsing := by
  unfold ArnChecks.optional nonEmpty
  by_cases h : s = []
  · simp [h]
  · by_cases hc : check s <;> simp [h, hc]

/-- The result for the last part. -/
def KeyArn.finish (A : ArnChecks) (p sv rg ac res : Str) : Except IntegrationError KeyArn :=
  match rsplitOnce '/' res with
  | some (parent, id) => if A.resource parent = true ∧ A.ident id = true then
      match nonEmpty rg with
      | some rg => .ok ⟨nonEmpty p, sv, rg, nonEmpty ac, some parent, id⟩
      | none => .error .keyIdParsing
    else .error .panic
  | none => if A.ident res = true then
      match nonEmpty rg with
      | some rg => .ok ⟨nonEmpty p, sv, rg, nonEmpty ac, none, res⟩
      | none => .error .keyIdParsing
    else .error .panic

theorem KeyArn.parse_parts {A : ArnChecks} {s p sv rg ac r0 : Str} {rest : List Str}
    (hs : splitOn ':' s = c!"arn" :: p :: sv :: rg :: ac :: r0 :: rest) :
    KeyArn.parse A s = if (p = [] ∨ A.ident p = true) ∧ A.ident sv = true ∧ (rg = [] ∨ A.ident rg = true) ∧
        (ac = [] ∨ A.account ac = true) ∧ A.resource (joinColon (r0 :: rest)) = true then
      KeyArn.finish A p sv rg ac (joinColon (r0 :: rest)) else .error .keyIdParsing := by
  unfold KeyArn.parse
  rw [hs]
  simp only [ne_eq, not_true_eq_false, if_false, ArnChecks.optional_eq]
  by_cases h1 : p = [] ∨ A.ident p = true
  · rw [if_pos h1]
    cases h2 : A.ident sv
    · simp [bind, Except.bind]
    · by_cases h3 : rg = [] ∨ A.ident rg = true
      · rw [if_pos h3]
        by_cases h4 : ac = [] ∨ A.account ac = true
        · rw [if_pos h4]
          cases A.resource (joinColon (r0 :: rest))
          · simp [bind, Except.bind]
          · simp only [h1, h3, h4, and_self, if_true, bind, Except.bind, KeyArn.finish]
            cases rsplitOnce '/' (joinColon (r0 :: rest)) with
            | none => cases A.ident (joinColon (r0 :: rest)) <;> simp <;> cases nonEmpty rg <;> rfl
            | some pr =>
              cases h6 : A.resource pr.1 <;> cases h7 : A.ident pr.2 <;> simp [h6, h7] <;> cases nonEmpty rg <;> rfl
        · simp [bind, Except.bind, h4]
      · simp [bind, Except.bind, h3]
  · simp [bind, Except.bind, h1]

theorem KeyArn.parse_other {A : ArnChecks} {s : Str} (h : KeyArn.parse A s ≠ .error .keyIdParsing) :
    ∃ p sv rg ac r0 rest, splitOn ':' s = c!"arn" :: p :: sv :: rg :: ac :: r0 :: rest := by
  unfold KeyArn.parse at h
  split at h
  · rename_i arn p sv rg ac r0 rest hs
    by_cases harn : arn ≠ c!"arn"
    · rw [if_pos harn] at h; exact absurd rfl h
    · simp only [ne_eq, Decidable.not_not] at harn
      exact ⟨p, sv, rg, ac, r0, rest, harn ▸ hs⟩
  · exact absurd rfl h

theorem splitOn_arn {A : ArnChecks} (hA : A.Lawful) {s p sv rg ac res : Str} (h : ArnParts A s p sv rg ac res) :
    splitOn ':' s = c!"arn" :: p :: sv :: rg :: ac :: splitOn ':' res := by
  have hi : ∀ x, x = [] ∨ A.ident x = true → ':' ∉ x := by
    rintro x (rfl | hx)
    · simp
    · exact (hA.ident_chars hx).1
  have ha : ':' ∉ ac := by
    rcases h.account with rfl | hx
    · simp
    · exact hA.account_chars hx
  rw [h.text]
  have : c!"arn:" ++ p ++ c!":" ++ sv ++ c!":" ++ rg ++ c!":" ++ ac ++ c!":" ++ res =
    c!"arn" ++ ':' :: (p ++ ':' :: (sv ++ ':' :: (rg ++ ':' :: (ac ++ ':' :: res)))) := by simp
  rw [this, splitOn_append _ (by decide), splitOn_append _ (hi p h.partition), splitOn_append _ (hi sv (.inr h.service)),
    splitOn_append _ (hi rg h.region), splitOn_append _ ha]

/-- The result of reading a resource name of AWS. -/
theorem KeyArn.parse_arnParts {A : ArnChecks} (hA : A.Lawful) {s p sv rg ac res : Str} (h : ArnParts A s p sv rg ac res) :
    KeyArn.parse A s = KeyArn.finish A p sv rg ac res := by
  have hs := splitOn_arn hA h
  have hj := joinWith_splitOn ':' res
  cases hr : splitOn ':' res with
  | nil => exact absurd hr (splitOn_ne_nil _ _)
  | cons r0 rest =>
    rw [hr] at hs hj
    rw [KeyArn.parse_parts hs, joinColon_eq, hj, if_pos ⟨h.partition, h.service, h.region, h.account, h.resource⟩]

/-- Everything else is an ordinary error. -/
theorem KeyArn.arnParts_of_parse {A : ArnChecks} {s : Str} (h : KeyArn.parse A s ≠ .error .keyIdParsing) :
    ∃ p sv rg ac res, ArnParts A s p sv rg ac res := by
  obtain ⟨p, sv, rg, ac, r0, rest, hs⟩ := KeyArn.parse_other h
  rw [KeyArn.parse_parts hs] at h
  split at h
  · rename_i hc
    obtain ⟨h1, h2, h3, h4, h5⟩ := hc
    refine ⟨p, sv, rg, ac, joinColon (r0 :: rest), ?_, h1, h2, h3, h4, h5⟩
    have := joinWith_splitOn ':' s
    rw [hs] at this
    rw [← this, joinColon_eq]
    simp [joinWith]
  · exact absurd rfl h

end Rops
