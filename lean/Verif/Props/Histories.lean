import Verif.Lemmas.History
import Verif.Spec.ToyFile
/-!
# Properties of whole histories of a file

C12, C22 and C45. A history is any sequence of successful operations (creation, edits with
saved parameters, replacements of the map, added and removed keys), each in a process of its
own, see `Spec.History`.
-/

namespace Rops.Props
open Rops Spec

/-! ## C12 -/

/-- C12. If the random generator does not repeat itself then, over all versions the file has
had, whatever is encrypted with the same nonce is encrypted under the same data key and is the
same: the same value at the same key path, or the same MAC. -/
theorem C12_nonce_content {env : Env} (he : EnvLaws env) {F : Format} {rep : Value → Prop} (hF : Format.Lawful F rep)
    {vs : List (Version F)} {n : Nat} (h : History env rep vs n) (hr : NoRepeat env.nonce 0 n) (v w : Version F)
    (hv : v ∈ vs) (hw : w ∈ vs) (nonce : Bytes) (c d : Content) (hc : v.Uses env nonce c) (hd : w.Uses env nonce d) :
    c = d ∧ v.key = w.key :=
  (historyInv he hF h).once hr v hv w hw nonce c d hc hd

/-- C12. In particular two encrypted values of any versions that have the same nonce have the
same key path text and the same plaintext, and are the same ciphertext. -/
theorem C12_same_ciphertext {env : Env} (he : EnvLaws env) {F : Format} {rep : Value → Prop} (hF : Format.Lawful F rep)
    {vs : List (Version F)} {n : Nat} (h : History env rep vs n) (hr : NoRepeat env.nonce 0 n) (v w : Version F)
    (hv : v ∈ vs) (hw : w ∈ vs) (m1 m2 : RMap EncLeaf)
    (h1 : F.encToInternal env.C env.rx (Resolved.ofConfig v.file.metadata.partialEncryption) v.file.map = .ok m1)
    (h2 : F.encToInternal env.C env.rx (Resolved.ofConfig w.file.metadata.partialEncryption) w.file.map = .ok m2)
    (a b : Nat) (p q : List Str) (e1 e2 : EncValue) (ha : (leaves m1)[a]? = some (p, .encrypted e1))
    (hb : (leaves m2)[b]? = some (q, .encrypted e2)) (hn : e1.nonce = e2.nonce) :
    pathText p = pathText q ∧ (∃ x, (leaves v.map)[a]? = some (p, x) ∧ (leaves w.map)[b]? = some (q, x)) ∧ e1 = e2 := by
  have inv := historyInv he hF h
  have key : ∀ (u : Version F), u ∈ vs → ∀ (m' : RMap EncLeaf),
      F.encToInternal env.C env.rx (Resolved.ofConfig u.file.metadata.partialEncryption) u.file.map = .ok m' →
      ∀ (a : Nat) (p : List Str) (e : EncValue), (leaves m')[a]? = some (p, .encrypted e) →
      ∃ x, (leaves u.map)[a]? = some (p, x) ∧ u.Uses env e.nonce (.value (pathText p) x) ∧
        Seals env.C u.key p x e := by
    intro u hu m' hm a p e ha
    obtain ⟨m'', hh⟩ := inv.holding u hu
    have := hh.read
    rw [hm] at this
    cases this
    obtain ⟨⟨q, x⟩, hx, hr⟩ := hh.sealed.2.getElem' ha
    obtain ⟨hp, hr⟩ := hr
    simp only at hp
    subst hp
    rcases hr with ⟨_, h⟩ | ⟨_, e', h, hs⟩
    · cases h
    · cases h
      exact ⟨x, hx, .inl ⟨m', a, p, e, x, hm, ha, hx, rfl, rfl⟩, hs⟩
  obtain ⟨x, hx, hux, hsx⟩ := key v hv m1 h1 a p e1 ha
  obtain ⟨y, hy, huy, hsy⟩ := key w hw m2 h2 b q e2 hb
  rw [← hn] at huy
  obtain ⟨hc, hk⟩ := inv.once hr v hv w hw _ _ _ hux huy
  injection hc with hpq hxy
  subst hxy
  refine ⟨hpq, ⟨x, hx, hy⟩, ?_⟩
  obtain ⟨s1, s2, _⟩ := hsx
  obtain ⟨t1, t2, _⟩ := hsy
  rw [hn, hk, hpq, t1] at s1
  simp only [Option.some.injEq, Prod.mk.injEq] at s1
  obtain ⟨d1, d2⟩ := s1
  cases e1
  cases e2
  simp_all

/-! ## C22 -/

/-- C22. In every version of a file all integration units wrap one data key, each key id has
at most one unit, and the map and the MAC are encrypted under that same key. -/
theorem C22_one_data_key {env : Env} (he : EnvLaws env) {F : Format} {rep : Value → Prop} (hF : Format.Lawful F rep)
    {vs : List (Version F)} {n : Nat} (h : History env rep vs n) (v : Version F) (hv : v ∈ vs) :
    AllWrap env.A env.K v.file.metadata.integration v.key ∧
    (∀ k, (keyIds v.file.metadata.integration k).Nodup) ∧
    (∃ m', F.encToInternal env.C env.rx (Resolved.ofConfig v.file.metadata.partialEncryption) v.file.map = .ok m' ∧
      Sealed env.C env.rx v.key v.file.metadata.partialEncryption v.map m') ∧
    env.C.encrypt v.file.metadata.mac.nonce v.key
      (macText env.H env.rx v.file.metadata.partialEncryption v.file.metadata.macOnlyEncrypted v.map)
      v.file.metadata.lastModified.toBytes = some (v.file.metadata.mac.data, v.file.metadata.mac.tag) := by
  obtain ⟨m', hh⟩ := (historyInv he hF h).holding v hv
  exact ⟨hh.units, hh.ids, ⟨m', hh.read, hh.sealed⟩, hh.mac⟩

/-! ## C45 -/

/-- C45. Whoever finds a data key in a version of the file decrypts it, in any format that can
hold its values, to exactly the map that was set last before that version. -/
theorem C45_decrypts_to_last_map {env : Env} (he : EnvLaws env) {F Fo : Format} {rep rep' : Value → Prop}
    (hF : Format.Lawful F rep) (hFo : Format.Lawful Fo rep') {vs : List (Version F)} {n : Nat} (h : History env rep vs n)
    (v : Version F) (hv : v ∈ vs) (hm : Holds rep' v.map) (host : Host) (d : Bytes)
    (hr : (env.withHost host).retrieveDataKey v.file.metadata = .ok d) :
    d = v.key ∧ ∃ g, v.file.decrypt Fo (env.withHost host) = .ok g ∧ Fo.toInternal g.map = .ok v.map := by
  obtain ⟨m', hh⟩ := (historyInv he hF h).holding v hv
  refine ⟨retrieve_of_allWrap (he.withHost host) hh.key_length hh.units hr, ?_⟩
  obtain ⟨g, h1, h2, _⟩ := decrypt_of_holding (he.withHost host) hFo (hh.withHost host) hm hr
  exact ⟨g, h1, h2.read⟩

/-- C45. The owner of the identity of any age recipient of a version decrypts it to the map
set last. -/
theorem C45_recipients_read {env : Env} (he : EnvLaws env) {F Fo : Format} {rep rep' : Value → Prop}
    (hF : Format.Lawful F rep) (hFo : Format.Lawful Fo rep') {vs : List (Version F)} {n : Nat} (h : History env rep vs n)
    (v : Version F) (hv : v ∈ vs) (hm : Holds rep' v.map) (host : Host) (ks : List env.A.Identity)
    (hk : retrievePrivateKeys (Age.parsePrivateKey env.A) host c!"age" = .ok ks) (k : env.A.Identity) (hmem : k ∈ ks)
    (hid : env.A.toPublic k ∈ keyIds v.file.metadata.integration .age) :
    ∃ g, v.file.decrypt Fo (env.withHost host) = .ok g ∧ Fo.toInternal g.map = .ok v.map := by
  obtain ⟨m', hh⟩ := (historyInv he hF h).holding v hv
  have hr := retrieve_of_identity (env := env.withHost host) (k := k) (ks := ks) (he.withHost host) hh.key_length hh.units
    hk hmem hid
  exact (C45_decrypts_to_last_map he hF hFo h v hv hm host _ hr).2

/-! ## An example -/

/-- Another document for the same settings. -/
def shortDoc : Format.json.Map :=
  [(c!"user", .leaf (.str c!"root")), (c!"n_plain", .leaf (.num (.posInt 7))), (c!"pw", .leaf (.str c!"y"))]

def shortMap : RMap Value :=
  [(c!"user", .leaf (.string c!"root")), (c!"n_plain", .leaf (.integer 7)), (c!"pw", .leaf (.string c!"y"))]

theorem shortMap_fits : Fits Toy.env.fl jsonRep (some (.unencryptedSuffix c!"_plain")) shortMap := by
  have hl : leaves shortMap = [([c!"user"], Value.string c!"root"), ([c!"n_plain"], .integer 7),
      ([c!"pw"], .string c!"y")] := rfl
  refine ⟨?_, ?_, fun _ => ?_⟩
  · unfold Canonical
    rw [hl]
    intro pv h
    simp only [List.mem_cons, List.not_mem_nil, or_false] at h
    rcases h with rfl | rfl | rfl <;> trivial
  · unfold Holds
    rw [hl]
    intro pv h
    simp only [List.mem_cons, List.not_mem_nil, or_false] at h
    rcases h with rfl | rfl | rfl <;> trivial
  · exact .inl (by unfold NoColon; decide)

/-- A history with every kind of operation: the value of "user" keeps its ciphertext in the
edit, and the file ends up with another data key than it had. -/
theorem history_example : ∃ (v0 v1 v2 v3 v4 v5 : Version Format.json) (n : Nat),
    History Toy.env jsonRep [v5, v4, v3, v2, v1, v0] n ∧ NoRepeat Toy.env.nonce 0 n ∧
    v5.map = Toy.docMap ∧ v2.map = shortMap ∧ v5.key ≠ v0.key ∧ v2.key = v0.key ∧
    keyIds v0.file.metadata.integration .age = [c!"pk1", c!"pk2"] ∧
    keyIds v5.file.metadata.integration .age = [c!"pk1", c!"pk3"] ∧
    ∃ e, List.lookup c!"user" (show RMap JsonScalar from v0.file.map) = some (.leaf (.str e)) ∧
      List.lookup c!"user" (show RMap JsonScalar from v2.file.map) = some (.leaf (.str e)) := by
  have hc : (match Toy.builder.encrypt Toy.env 0 with
    | .error _ => false
    | .ok (f0, i0) => match f0.addKeys Toy.env .age [c!"pk3"] i0 with
      | (.error _, _, _) => false
      | (.ok (), f1, i1) => match EncFile.decryptAndSave Format.json Toy.env f1 with
        | .error _ => false
        | .ok (g1, p1) => match g1.setMap Toy.env shortDoc i1 with
          | .error _ => false
          | .ok g2 => match g2.encryptSaved Format.json Toy.env p1 i1 with
            | .error _ => false
            | .ok (f2, i2) => match f2.decrypt Format.json Toy.env with
              | .error _ => false
              | .ok g3 => match g3.removeKey Toy.env .age c!"pk2" i2 with
                | (.ok (some _), g4, i3) => (match g4.encrypt Format.json Toy.env i3 with
                  | .error _ => false
                  | .ok (f3, i4) => match f3.decrypt Format.json Toy.env with
                    | .error _ => false
                    | .ok g5 => match g5.removeKey Toy.env .age c!"pk2" i4 with
                      | (.ok none, g6, i5) => (match g6.encrypt Format.json Toy.env i5 with
                        | .error _ => false
                        | .ok (f4, i6) => match f4.decrypt Format.json Toy.env with
                          | .error _ => false
                          | .ok g7 => match g7.setMap Toy.env Toy.doc i6 with
                            | .error _ => false
                            | .ok g8 => match g8.encrypt Format.json Toy.env i6 with
                              | .error _ => false
                              | .ok (f5, n) => decide (n < 65536) && Toy.env.newKey i2 != Toy.env.newKey 0 &&
                                keyIds f0.metadata.integration .age == [c!"pk1", c!"pk2"] &&
                                keyIds f5.metadata.integration .age == [c!"pk1", c!"pk3"] &&
                                decide (f1.metadata.partialEncryption = some (.unencryptedSuffix c!"_plain")) &&
                                decide (f4.metadata.partialEncryption = some (.unencryptedSuffix c!"_plain")) &&
                                (match List.lookup c!"user" (show RMap JsonScalar from f0.map),
                                  List.lookup c!"user" (show RMap JsonScalar from f2.map) with
                                | some (.leaf (.str e)), some (.leaf (.str e')) => e == e'
                                | _, _ => false))
                      | _ => false)
                | _ => false) = true := by decide +kernel
  split at hc
  · cases hc
  rename_i f0 i0 h0
  split at hc
  · cases hc
  rename_i f1 i1 h1
  split at hc
  · cases hc
  rename_i g1 p1 hg1
  split at hc
  · cases hc
  rename_i g2 hg2
  split at hc
  · cases hc
  rename_i f2 i2 h2
  split at hc
  · cases hc
  rename_i g3 hg3
  split at hc
  case h_2 => cases hc
  rename_i u g4 i3 hg4
  split at hc
  · cases hc
  rename_i f3 i4 h3
  split at hc
  · cases hc
  rename_i g5 hg5
  split at hc
  case h_2 => cases hc
  rename_i g6 i5 hg6
  split at hc
  · cases hc
  rename_i f4 i6 h4
  split at hc
  · cases hc
  rename_i g7 hg7
  split at hc
  · cases hc
  rename_i g8 hg8
  split at hc
  · cases hc
  rename_i f5 n h5
  simp only [Bool.and_eq_true, beq_iff_eq, bne_iff_ne, decide_eq_true_eq] at hc
  obtain ⟨⟨⟨⟨⟨⟨hn, hkey⟩, hk0⟩, hk5⟩, hp1⟩, hp4⟩, huser⟩ := hc
  have H0 : History Toy.env jsonRep [⟨f0, Toy.docMap, Toy.env.newKey 0⟩] i0 :=
    .create Toy.env.host Toy.doc_read Toy.docMap_fits h0
  have H1 := History.addKeys Toy.env.host H0 (Nat.le_refl _) h1
  have H2 := History.edit Toy.env.host Toy.env.host H1 (Nat.le_refl _) hg1 (m := shortMap) rfl
    (by simp only [hp1]; exact shortMap_fits) hg2 h2
  have H3 := History.removeKey Toy.env.host Toy.env.host H2 (Nat.le_refl _) hg3 hg4 (Nat.le_refl _) h3
  have H4 := History.removeAbsent Toy.env.host Toy.env.host H3 (Nat.le_refl _) hg5 hg6 (Nat.le_refl _) h4
  have H5 := History.replace Toy.env.host Toy.env.host H4 (Nat.le_refl _) hg7 Toy.doc_read
    (by simp only [hp4]; exact Toy.docMap_fits) hg8 h5
  refine ⟨_, _, _, _, _, _, n, H5, fun a b h1 h2 h3 h4 => Toy.env_noRepeat a b h1 (by omega) h3 (by omega), rfl, rfl,
    hkey, rfl, hk0, hk5, ?_⟩
  split at huser
  · rename_i e e' he he'
    have : e = e' := by simpa using huser
    subst this
    exact ⟨e, he, he'⟩
  · cases huser

/-- The theorems apply to it: the last version is read with the identity of the added
recipient. -/
example : ∃ (v0 v1 v2 v3 v4 v5 : Version Format.json) (n : Nat),
    History Toy.env jsonRep [v5, v4, v3, v2, v1, v0] n ∧
    (∃ g, v5.file.decrypt Format.yaml (Toy.env.withHost (Toy.host (.value c!"k3") .notPresent)) = .ok g ∧
      Format.yaml.toInternal g.map = .ok Toy.docMap) := by
  obtain ⟨v0, v1, v2, v3, v4, v5, n, h, _, hm, _, _, _, _, hk, _⟩ := history_example
  refine ⟨v0, v1, v2, v3, v4, v5, n, h, ?_⟩
  rw [← hm]
  exact C45_recipients_read Toy.env_laws Format.json_lawful Format.yaml_lawful h v5 (by simp) (fun _ _ => trivial) _
    [c!"k3"] rfl c!"k3" (.head _) (by rw [hk]; decide)

end Rops.Props
