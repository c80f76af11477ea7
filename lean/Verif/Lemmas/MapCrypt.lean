import Verif.Model.MapCrypt
import Verif.Lemmas.Tree
import Verif.Lemmas.Partial
import Verif.Lemmas.Value
/-! Encryption and decryption of maps as traversals of the list of leaves. -/

namespace Rops
open Spec

/-- What happens to the leaf at a list of keys. -/
def EncEnv.leafAt (env : EncEnv) (cfg : Option PartialEncryption) (p : List Str) (v : Value) (i : Nat) :
    Except Unit (EncLeaf × Nat) :=
  env.encLeaf ((Resolved.ofConfig cfg).steps env.rx (p.map lastPart)) (pathText p) v i

theorem enc_eq_trav (env : EncEnv) (cfg : Option PartialEncryption) :
    (∀ t p i, encTree env ((Resolved.ofConfig cfg).steps env.rx (p.map lastPart)) (pathText p) t i
      = travTree (env.leafAt cfg) p t i) ∧
    (∀ l p i, encSeq env ((Resolved.ofConfig cfg).steps env.rx (p.map lastPart)) (pathText p) l i
      = travSeq (env.leafAt cfg) p l i) ∧
    (∀ m p i, encMap env ((Resolved.ofConfig cfg).steps env.rx (p.map lastPart)) (pathText p) m i
      = travMap (env.leafAt cfg) p m i) := by
  apply Tree.induct
  · intro l ih p i
    simp only [encTree, travTree, ih]
    rcases travSeq (env.leafAt cfg) p l i with e | ⟨l', i'⟩ <;> rfl
  · intro m ih p i
    simp only [encTree, travTree, ih]
    rcases travMap (env.leafAt cfg) p m i with e | ⟨l', i'⟩ <;> rfl
  · intro p i; rfl
  · intro a p i
    simp only [encTree, travTree, EncEnv.leafAt]
    rcases env.encLeaf ((Resolved.ofConfig cfg).steps env.rx (p.map lastPart)) (pathText p) a i
      with e | ⟨l', i'⟩ <;> rfl
  · intro p i; rfl
  · intro t r iht ihr p i
    simp only [encSeq, travSeq, iht]
    rcases travTree (env.leafAt cfg) p t i with e | ⟨t', i'⟩
    · rfl
    · simp only [ihr]
      rcases travSeq (env.leafAt cfg) p r i' with e | ⟨l', i''⟩ <;> rfl
  · intro p i; rfl
  · intro k t r iht ihr p i
    have h := iht (p ++ [k])
    rw [pathText_concat, List.map_append, List.map_singleton, Resolved.steps_concat] at h
    simp only [encMap, travMap, KeyPath.last_join, h]
    rcases travTree (env.leafAt cfg) (p ++ [k]) t i with e | ⟨t', i'⟩
    · rfl
    · simp only [ihr]
      rcases travMap (env.leafAt cfg) p r i' with e | ⟨l', i''⟩ <;> rfl

theorem RMap.encrypt_eq_trav (env : EncEnv) (cfg : Option PartialEncryption) (m : RMap Value) (i : Nat) :
    RMap.encrypt env cfg m i = travMap (env.leafAt cfg) [] m i :=
  (enc_eq_trav env cfg).2.2 m [] i

theorem RMap.encrypt_ok_iff {env : EncEnv} {cfg : Option PartialEncryption} {m : RMap Value} {i j : Nat}
    {m' : RMap EncLeaf} :
    RMap.encrypt env cfg m i = .ok (m', j) ↔
      shapeMap m' = shapeMap m ∧ travList (env.leafAt cfg) (leaves m) i = .ok (leaves m', j) := by
  rw [RMap.encrypt_eq_trav, travMap_ok_iff]; rfl

/-- Decryption of the leaf at a list of keys. -/
def DecEnv.leafAt (env : DecEnv) (p : List Str) (l : EncLeaf) (s : Option SavedNonces) :
    Except DecryptValueError (Value × Option SavedNonces) :=
  env.decLeaf (pathText p) l s

theorem dec_eq_trav (env : DecEnv) :
    (∀ t p s, decTree env (pathText p) t s = travTree env.leafAt p t s) ∧
    (∀ l p s, decSeq env (pathText p) l s = travSeq env.leafAt p l s) ∧
    (∀ m p s, decMap env (pathText p) m s = travMap env.leafAt p m s) := by
  apply Tree.induct
  · intro l ih p i
    simp only [decTree, travTree, ih]
    rcases travSeq env.leafAt p l i with e | ⟨l', i'⟩ <;> rfl
  · intro m ih p i
    simp only [decTree, travTree, ih]
    rcases travMap env.leafAt p m i with e | ⟨l', i'⟩ <;> rfl
  · intro p i; rfl
  · intro a p i
    simp only [decTree, travTree, DecEnv.leafAt]
    rcases env.decLeaf (pathText p) a i with e | ⟨l', i'⟩ <;> rfl
  · intro p i; rfl
  · intro t r iht ihr p i
    simp only [decSeq, travSeq, iht]
    rcases travTree env.leafAt p t i with e | ⟨t', i'⟩
    · rfl
    · simp only [ihr]
      rcases travSeq env.leafAt p r i' with e | ⟨l', i''⟩ <;> rfl
  · intro p i; rfl
  · intro k t r iht ihr p i
    have h := iht (p ++ [k])
    rw [pathText_concat] at h
    simp only [decMap, travMap, h]
    rcases travTree env.leafAt (p ++ [k]) t i with e | ⟨t', i'⟩
    · rfl
    · simp only [ihr]
      rcases travMap env.leafAt p r i' with e | ⟨l', i''⟩ <;> rfl

theorem decMap_ok_iff {env : DecEnv} {m' : RMap EncLeaf} {s s' : Option SavedNonces} {m : RMap Value} :
    decMap env [] m' s = .ok (m, s') ↔
      shapeMap m = shapeMap m' ∧ travList env.leafAt (leaves m') s = .ok (leaves m, s') := by
  have := (dec_eq_trav env).2.2 m' [] s
  rw [show (pathText [] : Str) = [] from rfl] at this
  rw [this, travMap_ok_iff]; rfl

/-- The value a leaf decrypts to. -/
def DecEnv.value (env : DecEnv) (p : List Str) : EncLeaf → Except DecryptValueError Value
  | .encrypted e => e.decrypt env.C env.fl env.key (pathText p)
  | .escaped v => .ok v

theorem DecEnv.leafAt_none {env : DecEnv} {p : List Str} {l : EncLeaf} {v : Value} {s : Option SavedNonces} :
    env.leafAt p l none = .ok (v, s) ↔ s = none ∧ env.value p l = .ok v := by
  cases l with
  | escaped w => simp only [DecEnv.leafAt, DecEnv.decLeaf, DecEnv.value, Except.ok.injEq, Prod.mk.injEq]; constructor <;> (rintro ⟨rfl, rfl⟩; exact ⟨rfl, rfl⟩)
  | encrypted e =>
    simp only [DecEnv.leafAt, DecEnv.decLeaf, DecEnv.value]
    cases e.decrypt env.C env.fl env.key (pathText p) with
    | error err => simp
    | ok w => simp only [Except.ok.injEq, Prod.mk.injEq]; constructor <;> (rintro ⟨rfl, rfl⟩; exact ⟨rfl, rfl⟩)

/-- Table entries saved for a leaf. -/
def savedOf (p : List Str) (l : EncLeaf) (v : Value) : SavedNonces :=
  match l with
  | .encrypted e => [((pathText p, v), e.nonce)]
  | .escaped _ => []

theorem DecEnv.leafAt_some {env : DecEnv} {p : List Str} {l : EncLeaf} {v : Value} {s : SavedNonces}
    {s' : Option SavedNonces} :
    env.leafAt p l (some s) = .ok (v, s') ↔ s' = some (savedOf p l v ++ s) ∧ env.value p l = .ok v := by
  cases l with
  | escaped w =>
    simp only [DecEnv.leafAt, DecEnv.decLeaf, DecEnv.value, Except.ok.injEq, Prod.mk.injEq, savedOf, List.nil_append]
    constructor <;> (rintro ⟨rfl, rfl⟩; exact ⟨rfl, rfl⟩)
  | encrypted e =>
    simp only [DecEnv.leafAt, DecEnv.decLeaf, DecEnv.value]
    cases e.decrypt env.C env.fl env.key (pathText p) with
    | error err => simp
    | ok w =>
      simp only [Except.ok.injEq, Prod.mk.injEq, savedOf, SavedNonces.insert]
      constructor
      · rintro ⟨rfl, rfl⟩; exact ⟨rfl, rfl⟩
      · rintro ⟨rfl, rfl⟩; exact ⟨rfl, rfl⟩

/-- Each leaf of the first list decrypts to the leaf at the same place of the second. -/
def DecryptsTo (env : DecEnv) : List (List Str × EncLeaf) → List (List Str × Value) → Prop
  | [], [] => True
  | (p, l) :: r, (q, v) :: r' => p = q ∧ env.value p l = .ok v ∧ DecryptsTo env r r'
  | _, _ => False

/-- The table after saving the nonces of all leaves. -/
def savedAll : List (List Str × EncLeaf) → List (List Str × Value) → SavedNonces → SavedNonces
  | (p, l) :: r, (_, v) :: r', s => savedAll r r' (savedOf p l v ++ s)
  | _, _, s => s

theorem trav_dec_none {env : DecEnv} {ls : List (List Str × EncLeaf)} {vs : List (List Str × Value)}
    {s' : Option SavedNonces} :
    travList env.leafAt ls none = .ok (vs, s') ↔ s' = none ∧ DecryptsTo env ls vs := by
  induction ls generalizing vs s' with
  | nil =>
    simp only [travList, Except.ok.injEq, Prod.mk.injEq]
    cases vs with
    | nil => simp [DecryptsTo, eq_comm]
    | cons v vs => simp [DecryptsTo]
  | cons x r ih =>
    obtain ⟨p, l⟩ := x
    rw [travList_cons_ok]
    simp only [DecEnv.leafAt_none]
    constructor
    · rintro ⟨v, s1, r', ⟨rfl, h1⟩, h2, rfl⟩
      obtain ⟨rfl, h3⟩ := ih.1 h2
      exact ⟨rfl, rfl, h1, h3⟩
    · rintro ⟨rfl, h⟩
      rcases vs with _ | ⟨⟨q, v⟩, r'⟩
      · exact h.elim
      · obtain ⟨rfl, h1, h2⟩ := h
        exact ⟨v, none, r', ⟨rfl, h1⟩, ih.2 ⟨rfl, h2⟩, rfl⟩

theorem trav_dec_some {env : DecEnv} {ls : List (List Str × EncLeaf)} {vs : List (List Str × Value)}
    {s : SavedNonces} {s' : Option SavedNonces} :
    travList env.leafAt ls (some s) = .ok (vs, s') ↔
      s' = some (savedAll ls vs s) ∧ DecryptsTo env ls vs := by
  induction ls generalizing vs s s' with
  | nil =>
    simp only [travList, Except.ok.injEq, Prod.mk.injEq]
    cases vs with
    | nil => simp [DecryptsTo, savedAll, eq_comm]
    | cons v vs => simp [DecryptsTo]
  | cons x r ih =>
    obtain ⟨p, l⟩ := x
    rw [travList_cons_ok]
    simp only [DecEnv.leafAt_some]
    constructor
    · rintro ⟨v, s1, r', ⟨rfl, h1⟩, h2, rfl⟩
      obtain ⟨rfl, h3⟩ := ih.1 h2
      exact ⟨rfl, rfl, h1, h3⟩
    · rintro ⟨rfl, h⟩
      rcases vs with _ | ⟨⟨q, v⟩, r'⟩
      · exact h.elim
      · obtain ⟨rfl, h1, h2⟩ := h
        exact ⟨v, _, r', ⟨rfl, h1⟩, ih.2 ⟨rfl, h2⟩, rfl⟩

theorem DecryptsTo.getElem {env : DecEnv} {ls : List (List Str × EncLeaf)} {vs : List (List Str × Value)}
    (h : DecryptsTo env ls vs) {n : Nat} {p : List Str} {l : EncLeaf} (hl : ls[n]? = some (p, l)) :
    ∃ v, vs[n]? = some (p, v) ∧ env.value p l = .ok v := by
  induction ls generalizing vs n with
  | nil => simp at hl
  | cons x r ih =>
    obtain ⟨q, k⟩ := x
    rcases vs with _ | ⟨⟨q', v⟩, r'⟩
    · exact h.elim
    · obtain ⟨rfl, h1, h2⟩ := h
      cases n with
      | zero =>
        simp only [List.getElem?_cons_zero, Option.some.injEq, Prod.mk.injEq] at hl
        obtain ⟨rfl, rfl⟩ := hl
        exact ⟨v, rfl, h1⟩
      | succ n =>
        simp only [List.getElem?_cons_succ] at hl ⊢
        exact ih h2 hl

theorem DecryptsTo.mem {env : DecEnv} {ls : List (List Str × EncLeaf)} {vs : List (List Str × Value)}
    (h : DecryptsTo env ls vs) {p : List Str} {l : EncLeaf} (hl : (p, l) ∈ ls) :
    ∃ v, env.value p l = .ok v := by
  obtain ⟨n, hn⟩ := List.mem_iff_getElem?.1 hl
  obtain ⟨v, _, hv⟩ := h.getElem hn
  exact ⟨v, hv⟩

theorem RMap.decrypt_ok_iff {env : DecEnv} {m' : RMap EncLeaf} {m : RMap Value} :
    RMap.decrypt env m' = .ok m ↔ shapeMap m = shapeMap m' ∧ DecryptsTo env (leaves m') (leaves m) := by
  unfold RMap.decrypt
  cases h : decMap env [] m' none with
  | error e =>
    simp only [reduceCtorEq, false_iff]
    rintro ⟨h1, h2⟩
    have := decMap_ok_iff.2 ⟨h1, trav_dec_none.2 ⟨rfl, h2⟩⟩
    rw [h] at this
    cases this
  | ok x =>
    obtain ⟨m1, s⟩ := x
    simp only [Except.ok.injEq]
    constructor
    · rintro rfl
      obtain ⟨h1, h2⟩ := decMap_ok_iff.1 h
      exact ⟨h1, (trav_dec_none.1 h2).2⟩
    · rintro ⟨h1, h2⟩
      have := decMap_ok_iff.2 ⟨h1, trav_dec_none.2 ⟨rfl, h2⟩⟩
      rw [h] at this
      cases this
      rfl

theorem RMap.decryptAndSave_ok_iff {env : DecEnv} {m' : RMap EncLeaf} {m : RMap Value} {s : SavedNonces} :
    RMap.decryptAndSave env m' = .ok (m, s) ↔
      shapeMap m = shapeMap m' ∧ DecryptsTo env (leaves m') (leaves m) ∧
        s = savedAll (leaves m') (leaves m) [] := by
  unfold RMap.decryptAndSave
  cases h : decMap env [] m' (some []) with
  | error e =>
    simp only [reduceCtorEq, false_iff]
    rintro ⟨h1, h2, h3⟩
    have := decMap_ok_iff.2 ⟨h1, (trav_dec_some (s := [])).2 ⟨rfl, h2⟩⟩
    rw [h] at this
    cases this
  | ok x =>
    obtain ⟨m1, s1⟩ := x
    obtain ⟨h1, h2⟩ := decMap_ok_iff.1 h
    obtain ⟨rfl, h3⟩ := trav_dec_some.1 h2
    simp only [Except.ok.injEq, Prod.mk.injEq]
    constructor
    · rintro ⟨rfl, rfl⟩
      exact ⟨h1, h3, rfl⟩
    · rintro ⟨h4, h5, rfl⟩
      have := decMap_ok_iff.2 ⟨h4, (trav_dec_some (s := [])).2 ⟨rfl, h5⟩⟩
      rw [h] at this
      cases this
      exact ⟨rfl, rfl⟩

/-- Both decryptions give the same map. -/
theorem RMap.decrypt_of_decryptAndSave {env : DecEnv} {m' : RMap EncLeaf} {m : RMap Value} {s : SavedNonces}
    (h : RMap.decryptAndSave env m' = .ok (m, s)) : RMap.decrypt env m' = .ok m := by
  obtain ⟨h1, h2, _⟩ := RMap.decryptAndSave_ok_iff.1 h
  exact RMap.decrypt_ok_iff.2 ⟨h1, h2⟩

theorem RMap.decryptAndSave_of_decrypt {env : DecEnv} {m' : RMap EncLeaf} {m : RMap Value}
    (h : RMap.decrypt env m' = .ok m) :
    RMap.decryptAndSave env m' = .ok (m, savedAll (leaves m') (leaves m) []) := by
  obtain ⟨h1, h2⟩ := RMap.decrypt_ok_iff.1 h
  exact RMap.decryptAndSave_ok_iff.2 ⟨h1, h2, rfl⟩

/-! ## Encryption leaf by leaf -/

theorem EncEnv.leafAt_ok {env : EncEnv} {cfg : Option PartialEncryption} {p : List Str} {v : Value}
    {i j : Nat} {l : EncLeaf} :
    env.leafAt cfg p v i = .ok (l, j) ↔
      (Plain env.rx cfg (p.map lastPart) ∧ l = .escaped v ∧ j = i) ∨
      (¬ Plain env.rx cfg (p.map lastPart) ∧ ∃ e, l = .encrypted e ∧
        v.encrypt env.C (env.nonceFor (pathText p) v i).1 env.key (pathText p) = some e ∧
        j = (env.nonceFor (pathText p) v i).2) := by
  unfold EncEnv.leafAt EncEnv.encLeaf
  rw [← Resolved.escape_steps_iff]
  by_cases h : ((Resolved.ofConfig cfg).steps env.rx (p.map lastPart)).escape = true
  · simp only [h, if_true, Except.ok.injEq, Prod.mk.injEq, true_and, not_true_eq_false, false_and, or_false]
    constructor <;> (rintro ⟨rfl, rfl⟩; exact ⟨rfl, rfl⟩)
  · simp only [h, Bool.false_eq_true, if_false, false_and, not_false_eq_true, true_and, false_or]
    cases he : v.encrypt env.C (env.nonceFor (pathText p) v i).1 env.key (pathText p) with
    | none => simp
    | some e =>
      simp only [Except.ok.injEq, Prod.mk.injEq, Option.some.injEq]
      constructor
      · rintro ⟨rfl, rfl⟩; exact ⟨e, rfl, rfl, rfl⟩
      · rintro ⟨e', rfl, rfl, rfl⟩; exact ⟨rfl, rfl⟩

/-- An encryption environment and a decryption environment with the same cipher and key. -/
structure SameKey (e : EncEnv) (d : DecEnv) : Prop where
  C : e.C = d.C
  key : e.key = d.key

theorem decryptsTo_of_trav {env : EncEnv} {denv : DecEnv} (hC : env.C.Lawful) (hk : SameKey env denv)
    {cfg : Option PartialEncryption} {vs : List (List Str × Value)} {ls : List (List Str × EncLeaf)} {i j : Nat}
    (hv : ∀ pv ∈ vs, pv.2.Canonical denv.fl)
    (h : travList (env.leafAt cfg) vs i = .ok (ls, j)) : DecryptsTo denv ls vs := by
  induction vs generalizing ls i with
  | nil => simp only [travList] at h; cases h; trivial
  | cons x r ih =>
    obtain ⟨p, v⟩ := x
    rw [travList_cons_ok] at h
    obtain ⟨l, i1, ls', h1, h2, rfl⟩ := h
    refine ⟨rfl, ?_, ih (fun pv hpv => hv pv (by simp [hpv])) h2⟩
    have hcan := hv (p, v) (by simp)
    rcases EncEnv.leafAt_ok.1 h1 with ⟨_, rfl, _⟩ | ⟨_, e, rfl, he, _⟩
    · rfl
    · simp only [DecEnv.value]
      rw [← hk.C, ← hk.key]
      exact Value.decrypt_encrypt hC hcan he

/-- Round trip of map encryption. -/
theorem RMap.decrypt_encrypt {env : EncEnv} {denv : DecEnv} (hC : env.C.Lawful) (hk : SameKey env denv)
    {cfg : Option PartialEncryption} {m : RMap Value} {m' : RMap EncLeaf} {i j : Nat}
    (hv : Canonical denv.fl m) (h : RMap.encrypt env cfg m i = .ok (m', j)) :
    RMap.decrypt denv m' = .ok m := by
  obtain ⟨h1, h2⟩ := RMap.encrypt_ok_iff.1 h
  exact RMap.decrypt_ok_iff.2 ⟨h1.symm, decryptsTo_of_trav hC hk hv h2⟩

end Rops
