import Verif.Lemmas.Tamper
import Verif.Lemmas.Decimals
import Verif.Spec.ToyFile
import Verif.Props.Files
/-!
# Modified files

C16, C17, C18 and C20: what the MAC and the associated data of a file detect, and what not.
-/

namespace Rops.Props
open Rops Spec

/-! ## C16 -/

/-- C16. A file that decrypts under the key of a produced file, with the ciphertext of the MAC
of that file, has the same hashed bytes (each under its own settings, which are not
authenticated), or it has a collision of the hash, or its date is not the one the MAC was
encrypted for and the cipher accepted it nevertheless. The modified file may be of any format,
have any map and any other metadata. -/
theorem C16_original_mac {env : Env} (he : EnvLaws env) {F F2 Fo : Format} {rep : Value → Prop}
    {f : EncFile F} {key : Bytes} {m : RMap Value} {m' : RMap EncLeaf} (h : Holding env rep f key m m')
    (f2 : EncFile F2) (hn : f2.metadata.mac.nonce = f.metadata.mac.nonce) (hc : f2.metadata.mac.data = f.metadata.mac.data)
    (ht : f2.metadata.mac.tag = f.metadata.mac.tag) (hr : env.retrieveDataKey f2.metadata = .ok key)
    (g : DecFile Fo) (hd : f2.decrypt Fo env = .ok g) :
    ∃ m2' m2, F2.encToInternal env.C env.rx (Resolved.ofConfig f2.metadata.partialEncryption) f2.map = .ok m2' ∧
      RMap.decrypt { C := env.C, fl := env.fl, key } m2' = .ok m2 ∧ Fo.ofInternal m2 = some g.map ∧
      ((f2.metadata.lastModified.toBytes ≠ f.metadata.lastModified.toBytes ∧
        env.C.decrypt f.metadata.mac.nonce key f.metadata.mac.data f2.metadata.lastModified.toBytes f.metadata.mac.tag
          ≠ none) ∨
       macInput env.rx f2.metadata.partialEncryption (f2.metadata.macOnlyEncrypted.getD false) m2 =
         macInput env.rx f.metadata.partialEncryption (f.metadata.macOnlyEncrypted.getD false) m ∨
       Collide env.H (macInput env.rx f2.metadata.partialEncryption (f2.metadata.macOnlyEncrypted.getD false) m2)
         (macInput env.rx f.metadata.partialEncryption (f.metadata.macOnlyEncrypted.getD false) m)) := by
  obtain ⟨key2, m2', m2, h1, h2, h3, h4, h5, _⟩ := decrypt_ok_iff.1 hd
  rw [hr] at h1
  cases h1
  refine ⟨m2', m2, h2, h3, h5, ?_⟩
  rw [hn, hc, ht] at h4
  by_cases hdate : f2.metadata.lastModified.toBytes = f.metadata.lastModified.toBytes
  · right
    rw [hdate, he.cipher.decrypt_encrypt h.mac, Env.macOf_eq he.hasher] at h4
    injection h4 with h4
    have h6 := hex_injective (utf8_injective h4)
    by_cases hm : macInput env.rx f2.metadata.partialEncryption (f2.metadata.macOnlyEncrypted.getD false) m2 =
         macInput env.rx f.metadata.partialEncryption (f.metadata.macOnlyEncrypted.getD false) m
    · exact .inl hm
    · exact .inr ⟨hm, h6.symm⟩
  · left
    exact ⟨hdate, by rw [h4]; simp⟩

/-- The ciphertexts made for the versions of a file: those of the values, with the key paths as
associated data, and those of the MACs, with the dates. -/
def Made {ι : Type} {F : Format} (fs : ι → EncFile F) (ms' : ι → RMap EncLeaf) (nonce data aad tag : Bytes) : Prop :=
  (∃ i, SealedIn (ms' i) nonce data aad tag) ∨
  ∃ i, nonce = (fs i).metadata.mac.nonce ∧ data = (fs i).metadata.mac.data ∧
    aad = (fs i).metadata.lastModified.toBytes ∧ tag = (fs i).metadata.mac.tag

/-- C16. Against someone who has seen any number of versions of a file under one data key:
a file that decrypts under that key contains a forged ciphertext (one that the cipher accepts
though it was not made for the associated data), or else its date is that of one of the versions and
its hashed bytes are those of that version (up to a collision of the hash), and each of its
encrypted values stands in one of the versions at the same joined key path. -/
theorem C16_versions {env : Env} (he : EnvLaws env) {ι : Type} {F F2 Fo : Format} {rep : Value → Prop}
    (fs : ι → EncFile F) (key : Bytes) (ms : ι → RMap Value) (ms' : ι → RMap EncLeaf)
    (h : ∀ i, Holding env rep (fs i) key (ms i) (ms' i)) (f2 : EncFile F2)
    (hr : env.retrieveDataKey f2.metadata = .ok key) (g : DecFile Fo) (hd : f2.decrypt Fo env = .ok g) :
    ∃ m2' m2, F2.encToInternal env.C env.rx (Resolved.ofConfig f2.metadata.partialEncryption) f2.map = .ok m2' ∧
      RMap.decrypt { C := env.C, fl := env.fl, key } m2' = .ok m2 ∧ Fo.ofInternal m2 = some g.map ∧
      (Forged env.C key (Made fs ms') m2' ∨
       (env.C.decrypt f2.metadata.mac.nonce key f2.metadata.mac.data f2.metadata.lastModified.toBytes f2.metadata.mac.tag
          ≠ none ∧
        ¬ Made fs ms' f2.metadata.mac.nonce f2.metadata.mac.data f2.metadata.lastModified.toBytes f2.metadata.mac.tag) ∨
       ((∃ i, f2.metadata.lastModified.toBytes = (fs i).metadata.lastModified.toBytes ∧
          (macInput env.rx f2.metadata.partialEncryption (f2.metadata.macOnlyEncrypted.getD false) m2 =
             macInput env.rx (fs i).metadata.partialEncryption ((fs i).metadata.macOnlyEncrypted.getD false) (ms i) ∨
           Collide env.H
             (macInput env.rx f2.metadata.partialEncryption (f2.metadata.macOnlyEncrypted.getD false) m2)
             (macInput env.rx (fs i).metadata.partialEncryption ((fs i).metadata.macOnlyEncrypted.getD false) (ms i)))) ∧
        ∀ p e, (p, EncLeaf.encrypted e) ∈ leaves m2' → ∃ i q e0, (q, EncLeaf.encrypted e0) ∈ leaves (ms' i) ∧
          pathText q = pathText p ∧ e0 = { e with variant := e0.variant })) := by
  obtain ⟨key2, m2', m2, h1, h2, h3, h4, h5, _⟩ := decrypt_ok_iff.1 hd
  rw [hr] at h1
  cases h1
  refine ⟨m2', m2, h2, h3, h5, ?_⟩
  by_cases hfm : Made fs ms' f2.metadata.mac.nonce f2.metadata.mac.data f2.metadata.lastModified.toBytes f2.metadata.mac.tag
  rotate_left
  · exact .inr (.inl ⟨by rw [h4]; simp, hfm⟩)
  rcases C15_bound_to_path _ (Made fs ms') m2' m2 h3 with hf | hf
  · exact .inl hf
  refine .inr (.inr ⟨?_, ?_⟩)
  · rcases hfm with ⟨i, p, e, _, _, _, hp, _⟩ | ⟨i, e1, e2, e3, e4⟩
    · exact absurd hp (date_ne_path _ _)
    refine ⟨i, e3, ?_⟩
    rw [e1, e2, e3, e4, he.cipher.decrypt_encrypt (h i).mac, Env.macOf_eq he.hasher] at h4
    injection h4 with h4
    have h6 := hex_injective (utf8_injective h4)
    by_cases hm : macInput env.rx f2.metadata.partialEncryption (f2.metadata.macOnlyEncrypted.getD false) m2 =
         macInput env.rx (fs i).metadata.partialEncryption ((fs i).metadata.macOnlyEncrypted.getD false) (ms i)
    · exact .inl hm
    · exact .inr ⟨hm, h6.symm⟩
  · intro p e hpe
    rcases hf p e hpe with ⟨i, q, e0, hq, a1, a2, a3, a4⟩ | ⟨i, _, _, a3, _⟩
    · refine ⟨i, q, e0, hq, (utf8_injective a3).symm, ?_⟩
      cases e; cases e0
      simp only at a1 a2 a4
      simp [a1, a2, a4]
    · exact absurd a3.symm (date_ne_path _ _)

/-- The hypotheses of C16 are met by a file itself, which contains no forgery. -/
example {env : Env} {F : Format} {rep : Value → Prop} {f : EncFile F} {key : Bytes} {m : RMap Value} {m' : RMap EncLeaf}
    (_ : Holding env rep f key m m') : ¬ Forged env.C key (Made (fun _ : Unit => f) fun _ => m') m' := by
  rintro ⟨p, e, hm, _, hn⟩
  exact hn (.inl ⟨(), p, e, hm, rfl, rfl, rfl, rfl⟩)

/-! ## C17 -/

/-- C17. Keys of plaintext values, nulls, empty maps and sequences and nesting are not
authenticated: a map with the same encrypted leaves at the same key paths and the same
plaintext values, in the same order, at any key paths for which the setting asks for
plaintext, is accepted. -/
theorem C17_rename_plaintext {env : Env} (he : EnvLaws env) {F Fo : Format} {rep rep' : Value → Prop}
    (hF : Format.Lawful F rep) (hFo : Format.Lawful Fo rep') {f : EncFile F} {key : Bytes} {m : RMap Value}
    {m' : RMap EncLeaf} (h : Holding env rep f key m m') (hm : Holds rep' m) (d : Bytes)
    (hr : env.retrieveDataKey f.metadata = .ok d) (m2' : RMap EncLeaf)
    (hz : Zip (fun a b => b.2 = a.2 ∧ (b.1 = a.1 ∨
      (∃ v, a.2 = .escaped v) ∧ Plain env.rx f.metadata.partialEncryption b.1)) (leaves m') (leaves m2')) :
    ∃ x m2, ∃ g : DecFile Fo, F.encOfInternal env.C m2' = some x ∧
      EncFile.decrypt Fo env { f with map := x } = .ok g ∧ Fo.toInternal g.map = .ok m2 ∧
      shapeMap m2 = shapeMap m2' ∧ (leaves m2).map Prod.fst = (leaves m2').map Prod.fst ∧
      (leaves m2).map Prod.snd = (leaves m).map Prod.snd := by
  have key1 : ∀ {vs ls ls2}, Zip (StoredAs env.C env.rx key f.metadata.partialEncryption) vs ls →
      Zip (fun a b => b.2 = a.2 ∧ (b.1 = a.1 ∨
        (∃ v, a.2 = EncLeaf.escaped v) ∧ Plain env.rx f.metadata.partialEncryption b.1)) ls ls2 →
      (∀ pv ∈ vs, pv.2.Canonical env.fl) → ∃ ws, DecryptsTo { C := env.C, fl := env.fl, key } ls2 ws ∧
        ws.map Prod.fst = ls2.map Prod.fst ∧ ws.map Prod.snd = vs.map Prod.snd ∧
        ∀ only, coveredBytes env.rx f.metadata.partialEncryption only ws =
          coveredBytes env.rx f.metadata.partialEncryption only vs := by
    intro vs ls ls2 h1
    induction h1 generalizing ls2 with
    | nil => intro h2 _; cases h2; exact ⟨[], trivial, rfl, rfl, fun _ => rfl⟩
    | @cons a b r r' hst _ ih =>
      intro h2 hc
      cases h2 with
      | @cons _ b2 _ r2 hab h3 =>
        obtain ⟨ws, w1, w2, w3, w4⟩ := ih h3 fun pv hpv => hc pv (by simp [hpv])
        obtain ⟨p, v⟩ := a
        obtain ⟨q, l⟩ := b
        obtain ⟨q2, l2⟩ := b2
        obtain ⟨hl2, hq2⟩ := hab
        simp only at hl2 hq2
        subst hl2
        have hst' := hst
        obtain ⟨hq, hlv⟩ := value_of_storedAs he.cipher (hc _ List.mem_cons_self) hst
        refine ⟨(q2, v) :: ws, ⟨rfl, ?_, w1⟩, by simp [w2], by simp [w3], fun only => ?_⟩
        · rcases hq2 with rfl | ⟨⟨w, rfl⟩, _⟩
          · rw [hq]; exact hlv
          · exact hlv
        · rw [coveredBytes_cons, coveredBytes_cons, w4]
          have : Plain env.rx f.metadata.partialEncryption q2 ↔ Plain env.rx f.metadata.partialEncryption p := by
            rcases hq2 with rfl | ⟨⟨w, rfl⟩, hp⟩
            · rw [hq]
            · rcases hst'.2 with ⟨hp', _⟩ | ⟨_, e, he', _⟩
              · exact ⟨fun _ => hp', fun _ => hp⟩
              · cases he'
          simp only [this]
  obtain ⟨ws, w1, w2, w3, w4⟩ := key1 h.sealed.2 hz h.fits.canonical
  have henc := encHolds_of_sealed h.fits.holds h.sealed
  have henc2 : EncHolds env.C env.rx f.metadata.partialEncryption rep m2' := by
    constructor
    · intro p e hpe
      obtain ⟨⟨q, l⟩, hq, hl, hp⟩ := hz.mem' hpe
      simp only at hl hp
      subst hl
      rcases hp with rfl | ⟨⟨v, hv⟩, _⟩
      · exact henc.1 _ _ hq
      · cases hv
    · intro p v hpv
      obtain ⟨⟨q, l⟩, hq, hl, hp⟩ := hz.mem' hpv
      simp only at hl hp
      subst hl
      have := henc.2 _ _ hq
      rcases hp with rfl | ⟨_, hp⟩
      · exact this
      · exact ⟨hp, this.2⟩
  obtain ⟨x, m2, g, a1, a2, a3, a4, a5⟩ := accepted he hF hFo h hr w1 henc2 (fun pv hpv => by
    have : pv.2 ∈ (leaves m).map Prod.snd := by rw [← w3]; exact List.mem_map_of_mem hpv
    obtain ⟨pv', h1, h2⟩ := List.mem_map.1 this
    rw [← h2]
    exact hm _ h1) (w4 _)
  exact ⟨x, m2, g, a1, a2, a3, a4, by rw [a5, w2], by rw [a5, w3]⟩

/-- C17. Adding and removing nulls and empty maps and sequences, and splitting or merging nested sequences: any
map with the same leaves is accepted. -/
theorem C17_nulls {env : Env} (he : EnvLaws env) {F Fo : Format} {rep rep' : Value → Prop}
    (hF : Format.Lawful F rep) (hFo : Format.Lawful Fo rep') {f : EncFile F} {key : Bytes} {m : RMap Value}
    {m' : RMap EncLeaf} (h : Holding env rep f key m m') (hm : Holds rep' m) (d : Bytes)
    (hr : env.retrieveDataKey f.metadata = .ok d) (m2' : RMap EncLeaf) (hl : leaves m2' = leaves m') :
    ∃ x m2, ∃ g : DecFile Fo, F.encOfInternal env.C m2' = some x ∧
      EncFile.decrypt Fo env { f with map := x } = .ok g ∧ Fo.toInternal g.map = .ok m2 ∧
      shapeMap m2 = shapeMap m2' ∧ leaves m2 = leaves m := by
  obtain ⟨x, m2, g, a1, a2, a3, a4, a5⟩ := accepted he hF hFo h hr (m2' := m2') (vs := leaves m)
    (by rw [hl]; exact storedAs_decrypts he.cipher h.fits.canonical h.sealed.2)
    (by have := encHolds_of_sealed h.fits.holds h.sealed; unfold EncHolds at this ⊢; rw [hl]; exact this) hm rfl
  exact ⟨x, m2, g, a1, a2, a3, a4, a5⟩

/-- C17. The borders of adjacent plaintext strings are not authenticated: characters can be
moved from one to the next. -/
theorem C17_move_characters {env : Env} (he : EnvLaws env) {F Fo : Format} {rep rep' : Value → Prop}
    (hF : Format.Lawful F rep) (hFo : Format.Lawful Fo rep') {f : EncFile F} {key : Bytes} {m : RMap Value}
    {m' : RMap EncLeaf} (h : Holding env rep f key m m') (hm : Holds rep' m) (d : Bytes)
    (hr : env.retrieveDataKey f.metadata = .ok d) (A B : List (List Str × EncLeaf)) (p q : List Str) (s t s2 t2 : Str)
    (hl : leaves m' = A ++ [(p, .escaped (.string s)), (q, .escaped (.string t))] ++ B) (m2' : RMap EncLeaf)
    (hl2 : leaves m2' = A ++ [(p, .escaped (.string s2)), (q, .escaped (.string t2))] ++ B) (hst : s ++ t = s2 ++ t2)
    (hrep : rep (.string s2) ∧ rep (.string t2)) (hrep' : rep' (.string s2) ∧ rep' (.string t2)) :
    ∃ x m2 A' B', ∃ g : DecFile Fo, F.encOfInternal env.C m2' = some x ∧
      EncFile.decrypt Fo env { f with map := x } = .ok g ∧ Fo.toInternal g.map = .ok m2 ∧
      shapeMap m2 = shapeMap m2' ∧ leaves m = A' ++ [(p, .string s), (q, .string t)] ++ B' ∧
      leaves m2 = A' ++ [(p, .string s2), (q, .string t2)] ++ B' := by
  have hz := h.sealed.2
  rw [hl] at hz
  obtain ⟨l12, B', e1, z12, zB⟩ := hz.append_inv
  obtain ⟨A', l2, e2, zA, z2⟩ := z12.append_inv
  subst e2
  have hc : ∀ pv ∈ A' ++ l2 ++ B', pv.2.Canonical env.fl := by
    have := h.fits.canonical
    unfold Canonical at this
    rw [e1] at this
    exact this
  rcases z2 with _ | ⟨r1, r2⟩
  rename_i a l3
  rcases r2 with _ | ⟨r3, r4⟩
  rename_i b l4
  cases r4
  obtain ⟨p1, v1⟩ := a
  obtain ⟨q1, v2⟩ := b
  obtain ⟨hp1, hv1⟩ := r1
  obtain ⟨hq1, hv2⟩ := r3
  simp only at hp1 hv1 hq1 hv2
  subst hp1 hq1
  rcases hv1 with ⟨pl1, hv1⟩ | ⟨_, e, he', _⟩
  rotate_left
  · cases he'
  rcases hv2 with ⟨pl2, hv2⟩ | ⟨_, e, he', _⟩
  rotate_left
  · cases he'
  cases hv1
  cases hv2
  have hdec : DecryptsTo { C := env.C, fl := env.fl, key } (leaves m2')
      (A' ++ [(p, .string s2), (q, .string t2)] ++ B') := by
    rw [hl2]
    refine DecryptsTo.append (DecryptsTo.append ?_ ⟨rfl, rfl, rfl, rfl, trivial⟩) ?_
    · exact storedAs_decrypts he.cipher (fun pv hpv => hc pv (by simp [hpv])) zA
    · exact storedAs_decrypts he.cipher (fun pv hpv => hc pv (by simp [hpv])) zB
  have henc := encHolds_of_sealed h.fits.holds h.sealed
  have henc2 : EncHolds env.C env.rx f.metadata.partialEncryption rep m2' := by
    unfold EncHolds at henc ⊢
    rw [hl] at henc
    rw [hl2]
    constructor
    · intro p' e' hpe
      apply henc.1
      simp only [List.mem_append, List.mem_cons, Prod.mk.injEq, reduceCtorEq, and_false, List.not_mem_nil,
        or_false] at hpe ⊢
      exact hpe
    · intro p' v' hpe
      simp only [List.mem_append, List.mem_cons, Prod.mk.injEq, EncLeaf.escaped.injEq, List.not_mem_nil, or_false] at hpe
      rcases hpe with (hpe | ⟨rfl, rfl⟩ | ⟨rfl, rfl⟩) | hpe
      · exact henc.2 _ _ (by simp [hpe])
      · exact ⟨pl1, hrep.1⟩
      · exact ⟨pl2, hrep.2⟩
      · exact henc.2 _ _ (by simp [hpe])
  obtain ⟨x, m2, g, a1, a2, a3, a4, a5⟩ := accepted he hF hFo h hr hdec henc2 (fun pv hpv => by
      have hm' : ∀ pv ∈ leaves m, rep' pv.2 := hm
      rw [e1] at hm'
      simp only [List.mem_append, List.mem_cons, List.not_mem_nil, or_false] at hpv
      rcases hpv with (hpv | rfl | rfl) | hpv
      · exact hm' _ (by simp [hpv])
      · exact hrep'.1
      · exact hrep'.2
      · exact hm' _ (by simp [hpv])) (by
    rw [e1]
    simp only [coveredBytes_append, coveredBytes_cons, plainBytes]
    have hb : utf8 s ++ utf8 t = utf8 s2 ++ utf8 t2 := by rw [← utf8_append, ← utf8_append, hst]
    by_cases ho : f.metadata.macOnlyEncrypted.getD false = true
    · simp only [ho, pl1, pl2, and_self, if_true]
    · have ho : f.metadata.macOnlyEncrypted.getD false = false := by simpa using ho
      simp only [ho, Bool.false_eq_true, false_and, if_false]
      rw [← List.append_assoc (utf8 s2), ← List.append_assoc (utf8 s), hb])
  exact ⟨x, m2, A', B', g, a1, a2, a3, a4, e1, a5⟩

/-- C17. The type tag of an encrypted value is not authenticated: every value can be turned
into a string. -/
theorem C17_retag {env : Env} (he : EnvLaws env) {F Fo : Format} {rep rep' : Value → Prop}
    (hF : Format.Lawful F rep) (hFo : Format.Lawful Fo rep') {f : EncFile F} {key : Bytes} {m : RMap Value}
    {m' : RMap EncLeaf} (h : Holding env rep f key m m') (hm : Holds rep' m) (d : Bytes)
    (hr : env.retrieveDataKey f.metadata = .ok d) (A B : List (List Str × EncLeaf)) (p : List Str) (e : EncValue)
    (hl : leaves m' = A ++ [(p, .encrypted e)] ++ B) (m2' : RMap EncLeaf)
    (hl2 : leaves m2' = A ++ [(p, .encrypted { e with variant := .string })] ++ B) (hrep' : ∀ s, rep' (.string s)) :
    ∃ x m2 A' B' v s, ∃ g : DecFile Fo, F.encOfInternal env.C m2' = some x ∧
      EncFile.decrypt Fo env { f with map := x } = .ok g ∧ Fo.toInternal g.map = .ok m2 ∧
      shapeMap m2 = shapeMap m2' ∧ leaves m = A' ++ [(p, v)] ++ B' ∧ leaves m2 = A' ++ [(p, .string s)] ++ B' ∧
      v.variant = e.variant ∧ plainBytes v = utf8 s := by
  have hz := h.sealed.2
  rw [hl] at hz
  obtain ⟨l12, B', e1, z12, zB⟩ := hz.append_inv
  obtain ⟨A', l2, e2, zA, z2⟩ := z12.append_inv
  subst e2
  have hc : ∀ pv ∈ A' ++ l2 ++ B', pv.2.Canonical env.fl := by
    have := h.fits.canonical
    unfold Canonical at this
    rw [e1] at this
    exact this
  rcases z2 with _ | ⟨r1, r2⟩
  rename_i a l3
  cases r2
  obtain ⟨p1, v⟩ := a
  obtain ⟨hp1, hv1⟩ := r1
  simp only at hp1 hv1
  subst hp1
  rcases hv1 with ⟨_, hv1⟩ | ⟨pl, e0, he0, hs1, hs2, hs3⟩
  · cases hv1
  cases he0
  obtain ⟨s, hs⟩ := Value.asBytes_utf8 v
  have hdec : DecryptsTo { C := env.C, fl := env.fl, key } (leaves m2') (A' ++ [(p, .string s)] ++ B') := by
    rw [hl2]
    refine DecryptsTo.append (DecryptsTo.append ?_ ⟨rfl, ?_, trivial⟩) ?_
    · exact storedAs_decrypts he.cipher (fun pv hpv => hc pv (by simp [hpv])) zA
    · simp only [DecEnv.value, EncValue.decrypt, he.cipher.decrypt_encrypt hs1, hs]
      have hfb : Value.fromBytes env.fl (utf8 s) .string = .ok (.string s) :=
        Value.fromBytes_asBytes (v := .string s) trivial
      rw [hfb]
    · exact storedAs_decrypts he.cipher (fun pv hpv => hc pv (by simp [hpv])) zB
  have henc := encHolds_of_sealed h.fits.holds h.sealed
  have henc2 : EncHolds env.C env.rx f.metadata.partialEncryption rep m2' := by
    unfold EncHolds at henc ⊢
    rw [hl] at henc
    rw [hl2]
    constructor
    · intro p' e' hpe
      simp only [List.mem_append, List.mem_cons, Prod.mk.injEq, EncLeaf.encrypted.injEq, List.not_mem_nil, or_false] at hpe
      rcases hpe with (hpe | ⟨rfl, rfl⟩) | hpe
      · exact henc.1 _ _ (by simp [hpe])
      · exact ⟨pl, ⟨hs3.nonce_length, hs3.tag_length⟩⟩
      · exact henc.1 _ _ (by simp [hpe])
    · intro p' v' hpe
      apply henc.2
      simp only [List.mem_append, List.mem_cons, Prod.mk.injEq, reduceCtorEq, and_false, List.not_mem_nil,
        or_false] at hpe ⊢
      exact hpe
  obtain ⟨x, m2, g, a1, a2, a3, a4, a5⟩ := accepted he hF hFo h hr hdec henc2 (fun pv hpv => by
      have hm' : ∀ pv ∈ leaves m, rep' pv.2 := hm
      rw [e1] at hm'
      simp only [List.mem_append, List.mem_cons, List.not_mem_nil, or_false] at hpv
      rcases hpv with (hpv | rfl) | hpv
      · exact hm' _ (by simp [hpv])
      · exact hrep' _
      · exact hm' _ (by simp [hpv])) (by
    rw [e1]
    simp only [coveredBytes_append, coveredBytes_cons, plainBytes, ← hs])
  exact ⟨x, m2, A', B', v, s, g, a1, a2, a3, a4, e1, a5, hs2.symm, hs⟩

/-- A file with two plaintext values, an encrypted number and a null. -/
def plainBuilder (only : Option Bool) : Builder Format.json where
  map := [(c!"a_plain", .leaf (.str c!"ab")), (c!"b_plain", .leaf (.str c!"c")), (c!"n", .leaf (.num (.posInt 5))),
    (c!"z", .null)]
  partialEncryption := some (.unencryptedSuffix c!"_plain")
  macOnlyEncrypted := only
  ageKeyIds := [c!"pk1"]
  kmsKeyIds := []

/-- The type tag of a ciphertext text set to "str". -/
def retagText (s : Str) : Str := s.take (s.length - 4) ++ c!"str]"

/-- All four modifications at once. -/
def tamperedMap : Format.json.Map → Format.json.Map
  | [_, _, (n, .leaf (.str s)), _] =>
    [(c!"x_plain", .leaf (.str c!"a")), (c!"y_plain", .leaf (.str c!"bc")), (n, .leaf (.str (retagText s)))]
  | m => m

/-- C17, concretely: after renaming both plaintext keys, moving a character between their
values, retagging the number and dropping the null, the file still decrypts, to another map. -/
theorem C17_accepted_modifications : ∃ (f : EncFile Format.json) (g : DecFile Format.json) (j : Nat),
    (plainBuilder none).encrypt Toy.env 0 = .ok (f, j) ∧
    EncFile.decrypt Format.json Toy.env { f with map := tamperedMap f.map } = .ok g ∧
    Format.json.toInternal g.map = .ok [(c!"x_plain", .leaf (.string c!"a")), (c!"y_plain", .leaf (.string c!"bc")),
      (c!"n", .leaf (.string c!"5"))] := by
  have hc : (match (plainBuilder none).encrypt Toy.env 0 with
    | .error _ => false
    | .ok (f, _) => match EncFile.decrypt Format.json Toy.env { f with map := tamperedMap f.map } with
      | .error _ => false
      | .ok g => match Format.json.toInternal g.map with
        | .ok [(a, .leaf va), (b, .leaf vb), (c, .leaf vc)] =>
          a == c!"x_plain" && b == c!"y_plain" && c == c!"n" && va == .string c!"a" && vb == .string c!"bc" &&
            vc == .string c!"5"
        | _ => false) = true := by decide +kernel
  split at hc
  · cases hc
  rename_i f j h1
  split at hc
  · cases hc
  rename_i g h2
  split at hc
  · rename_i a va b vb c vc h3
    simp only [Bool.and_eq_true, beq_iff_eq] at hc
    obtain ⟨⟨⟨⟨⟨rfl, rfl⟩, rfl⟩, rfl⟩, rfl⟩, rfl⟩ := hc
    exact ⟨f, g, j, h1, h2, h3⟩
  · cases hc

/-! ## C18 -/

/-- An encrypted leaf. -/
def isEncrypted (pl : List Str × EncLeaf) : Bool := match pl.2 with
  | .encrypted _ => true
  | .escaped _ => false

/-- C18. With `mac_only_encrypted`, plaintext values of a file can be replaced, inserted and
removed at will: a map with the same encrypted leaves and any plaintext leaves, at paths for
which the setting asks for plaintext, is accepted and decrypts to those plaintext values. -/
theorem C18_file_plaintext_free {env : Env} (he : EnvLaws env) {F Fo : Format} {rep rep' : Value → Prop}
    (hF : Format.Lawful F rep) (hFo : Format.Lawful Fo rep') {f : EncFile F} {key : Bytes} {m : RMap Value}
    {m' : RMap EncLeaf} (h : Holding env rep f key m m') (hm : Holds rep' m) (d : Bytes)
    (hr : env.retrieveDataKey f.metadata = .ok d) (honly : f.metadata.macOnlyEncrypted = some true) (m2' : RMap EncLeaf)
    (hl : (leaves m2').filter isEncrypted = (leaves m').filter isEncrypted)
    (hp : ∀ p v, (p, EncLeaf.escaped v) ∈ leaves m2' → Plain env.rx f.metadata.partialEncryption p ∧ rep v ∧ rep' v) :
    ∃ x m2, ∃ g : DecFile Fo, F.encOfInternal env.C m2' = some x ∧
      EncFile.decrypt Fo env { f with map := x } = .ok g ∧ Fo.toInternal g.map = .ok m2 ∧
      shapeMap m2 = shapeMap m2' ∧
      (leaves m2).filter (fun pv => ¬ Plain env.rx f.metadata.partialEncryption pv.1) =
        (leaves m).filter (fun pv => ¬ Plain env.rx f.metadata.partialEncryption pv.1) ∧
      ∀ (n : Nat) (p : List Str) (v : Value), (leaves m2')[n]? = some (p, .escaped v) → (leaves m2)[n]? = some (p, v) := by
  have key1 : ∀ {vs ls}, Zip (StoredAs env.C env.rx key f.metadata.partialEncryption) vs ls →
      (∀ pv ∈ vs, pv.2.Canonical env.fl) →
      ∀ ls2, ls2.filter isEncrypted = ls.filter isEncrypted →
      (∀ p v, (p, EncLeaf.escaped v) ∈ ls2 → Plain env.rx f.metadata.partialEncryption p ∧ rep v ∧ rep' v) →
      ∃ ws, DecryptsTo { C := env.C, fl := env.fl, key } ls2 ws ∧
        ws.filter (fun pv => ¬ Plain env.rx f.metadata.partialEncryption pv.1) =
          vs.filter (fun pv => ¬ Plain env.rx f.metadata.partialEncryption pv.1) ∧
        ∀ pv ∈ ws, (¬ Plain env.rx f.metadata.partialEncryption pv.1 ∧ pv ∈ vs) ∨ rep' pv.2 := by
    intro vs ls h1
    induction h1 with
    | nil =>
      intro _ ls2
      induction ls2 with
      | nil => intro _ _; exact ⟨[], trivial, rfl, by simp⟩
      | cons y r2 ih2 =>
        intro hf hpl
        obtain ⟨q, l⟩ := y
        cases l with
        | encrypted e => simp [isEncrypted] at hf
        | escaped w =>
          obtain ⟨ws, w1, w2, w3⟩ := ih2 (by simpa [isEncrypted] using hf) fun p v hpv => hpl p v (by simp [hpv])
          have := hpl q w (by simp)
          refine ⟨(q, w) :: ws, ⟨rfl, rfl, w1⟩, ?_, ?_⟩
          · rw [List.filter_cons_of_neg (by simp [this.1])]; exact w2
          · intro pv hpv
            rcases List.mem_cons.1 hpv with rfl | hpv
            · exact .inr this.2.2
            · exact w3 pv hpv
    | @cons a b r r' hst hzr ih =>
      intro hc ls2 hf hpl
      obtain ⟨p, v⟩ := a
      obtain ⟨q, l⟩ := b
      obtain ⟨rfl, hval⟩ := value_of_storedAs he.cipher (hc _ List.mem_cons_self) hst
      have hcr : ∀ pv ∈ r, pv.2.Canonical env.fl := fun pv hpv => hc pv (by simp [hpv])
      rcases hst.2 with ⟨hpp, hle⟩ | ⟨hpp, e, hle, _⟩
      · -- the original leaf is in plaintext: it plays no role
        simp only at hle
        subst hle
        obtain ⟨ws, w1, w2, w3⟩ := ih hcr ls2 (by rw [hf]; simp [isEncrypted]) hpl
        refine ⟨ws, w1, ?_, fun pv hpv => (w3 pv hpv).imp (fun ⟨x, y⟩ => ⟨x, by simp [y]⟩) id⟩
        have hpp : Plain env.rx f.metadata.partialEncryption q := hpp
        rw [w2, List.filter_cons_of_neg (by simp [hpp])]
      · simp only at hle
        subst hle
        have hpp : ¬ Plain env.rx f.metadata.partialEncryption q := hpp
        rw [List.filter_cons_of_pos (by simp [isEncrypted])] at hf
        induction ls2 with
        | nil => simp at hf
        | cons y r2 ih2 =>
          obtain ⟨q2, l2⟩ := y
          cases l2 with
          | escaped w =>
            obtain ⟨ws, w1, w2, w3⟩ := ih2 (fun p v hpv => hpl p v (by simp [hpv])) (by simpa [isEncrypted] using hf)
            have := hpl q2 w (by simp)
            refine ⟨(q2, w) :: ws, ⟨rfl, rfl, w1⟩, ?_, ?_⟩
            · rw [List.filter_cons_of_neg (by simp [this.1])]; exact w2
            · intro pv hpv
              rcases List.mem_cons.1 hpv with rfl | hpv
              · exact .inr this.2.2
              · exact w3 pv hpv
          | encrypted e2 =>
            rw [List.filter_cons_of_pos (by simp [isEncrypted])] at hf
            injection hf with hf1 hf2
            cases hf1
            obtain ⟨ws, w1, w2, w3⟩ := ih hcr r2 hf2 fun p v hpv => hpl p v (by simp [hpv])
            refine ⟨(q, v) :: ws, ⟨rfl, hval, w1⟩, ?_, ?_⟩
            · rw [List.filter_cons_of_pos (by simp [hpp]), List.filter_cons_of_pos (by simp [hpp]), w2]
            · intro pv hpv
              rcases List.mem_cons.1 hpv with rfl | hpv
              · exact .inl ⟨hpp, by simp⟩
              · exact (w3 pv hpv).imp (fun ⟨x, y⟩ => ⟨x, by simp [y]⟩) id
  obtain ⟨ws, w1, w2, w3⟩ := key1 h.sealed.2 h.fits.canonical _ hl hp
  have henc := encHolds_of_sealed h.fits.holds h.sealed
  have henc2 : EncHolds env.C env.rx f.metadata.partialEncryption rep m2' := by
    constructor
    · intro p e hpe
      have : (p, EncLeaf.encrypted e) ∈ (leaves m2').filter isEncrypted := List.mem_filter.2 ⟨hpe, rfl⟩
      rw [hl] at this
      exact henc.1 _ _ (List.mem_filter.1 this).1
    · intro p v hpv
      exact ⟨(hp p v hpv).1, (hp p v hpv).2.1⟩
  obtain ⟨x, m2, g, a1, a2, a3, a4, a5⟩ := accepted he hF hFo h hr w1 henc2
    (fun pv hpv => by
      rcases w3 pv hpv with ⟨_, h1⟩ | h1
      · exact hm _ h1
      · exact h1)
    (by unfold coveredBytes; rw [honly]; simp only [Option.getD_some, true_and]; rw [w2])
  refine ⟨x, m2, g, a1, a2, a3, a4, by rw [a5]; exact w2, fun n p v hn => ?_⟩
  obtain ⟨v', hv', hval⟩ := w1.getElem hn
  simp only [DecEnv.value, Except.ok.injEq] at hval
  rw [a5, hv', hval]

/-- New plaintext values, one of them of another type, and a further one. -/
def replacedMap : Format.json.Map → Format.json.Map
  | [(a, _), (b, _), n, z] =>
    [(a, .leaf (.num (.posInt 1))), (b, .leaf (.str c!"other")), n, z, (c!"new_plain", .leaf (.bool true))]
  | m => m

/-- C18, concretely: with `mac_only_encrypted` a file with replaced plaintext decrypts, without
it the same modification is refused. -/
theorem C18_file_concrete : ∃ (f f0 : EncFile Format.json) (j j0 : Nat),
    (plainBuilder (some true)).encrypt Toy.env 0 = .ok (f, j) ∧ (plainBuilder none).encrypt Toy.env 0 = .ok (f0, j0) ∧
    (∃ g, EncFile.decrypt Format.json Toy.env { f with map := replacedMap f.map } = .ok g) ∧
    ∃ computed stored, EncFile.decrypt Format.json Toy.env { f0 with map := replacedMap f0.map } =
      .error (.macMismatch computed stored) := by
  have hc : (match (plainBuilder (some true)).encrypt Toy.env 0, (plainBuilder none).encrypt Toy.env 0 with
    | .ok (f, _), .ok (f0, _) => match EncFile.decrypt Format.json Toy.env { f with map := replacedMap f.map },
        EncFile.decrypt Format.json Toy.env { f0 with map := replacedMap f0.map } with
      | .ok _, .error (.macMismatch _ _) => true
      | _, _ => false
    | _, _ => false) = true := by decide +kernel
  split at hc
  · rename_i f j f0 j0 h1 h2
    split at hc
    · rename_i g _ _ h3 h4
      exact ⟨f, f0, j, j0, h1, h2, ⟨_, h3⟩, _, _, h4⟩
    · cases hc
  · cases hc

/-! ## C20 -/

/-- C20. If the date of a produced file is changed in its calendar fields down to the second
and the file still decrypts, the cipher has accepted the MAC ciphertext for a date it was not
made for. -/
theorem C20_date_authenticated {env : Env} {F Fo : Format} {rep : Value → Prop}
    {f : EncFile F} {key : Bytes} {m : RMap Value} {m' : RMap EncLeaf} (h : Holding env rep f key m m')
    (hv : f.metadata.lastModified.Valid) (t : Timestamp) (ht : t.Valid) (hne : t.truncate ≠ f.metadata.lastModified.truncate)
    (f2 : EncFile F) (hn : f2.metadata = { f.metadata with lastModified := t })
    (hr : env.retrieveDataKey f2.metadata = .ok key) (g : DecFile Fo) (hd : f2.decrypt Fo env = .ok g) :
    t.toBytes ≠ f.metadata.lastModified.toBytes ∧
    env.C.encrypt f.metadata.mac.nonce key
      (macText env.H env.rx f.metadata.partialEncryption f.metadata.macOnlyEncrypted m)
      f.metadata.lastModified.toBytes = some (f.metadata.mac.data, f.metadata.mac.tag) ∧
    env.C.decrypt f.metadata.mac.nonce key f.metadata.mac.data t.toBytes f.metadata.mac.tag ≠ none := by
  refine ⟨fun e => hne (Timestamp.toText_inj ht hv (utf8_injective e)), h.mac, ?_⟩
  obtain ⟨key2, m2', m2, h1, h2, h3, h4, h5, _⟩ := decrypt_ok_iff.1 hd
  rw [hr] at h1
  cases h1
  rw [hn] at h4
  simp only at h4
  rw [h4]
  simp

/-- C20. The part below the second is not authenticated. -/
theorem C20_subseconds_free {env : Env} {F Fo : Format} (f : EncFile F) (n : Nat) (g : DecFile Fo)
    (hd : f.decrypt Fo env = .ok g) :
    EncFile.decrypt Fo env { f with metadata := { f.metadata with lastModified := { f.metadata.lastModified with nano := n } } }
      = .ok { g with metadata := { g.metadata with lastModified := { f.metadata.lastModified with nano := n } } } := by
  obtain ⟨key, m', m, h1, h2, h3, h4, h5, h6⟩ := decrypt_ok_iff.1 hd
  refine decrypt_ok_iff.2 ⟨key, m', m, h1, h2, h3, h4, h5, ?_⟩
  rw [h6]
  rfl

/-- C20. The bytes the date is authenticated by are those of its RFC 3339 text. -/
theorem C20_date_text {t : Timestamp} (ht : t.Valid) (b : Bytes) :
    b = t.toBytes ↔ ∃ s, b = utf8 s ∧ DateText t s := by
  constructor
  · rintro rfl
    exact ⟨_, rfl, (dateText_iff ht).2 rfl⟩
  · rintro ⟨s, rfl, h⟩
    rw [(dateText_iff ht).1 h]
    rfl

example : (⟨2024, 2, 29, 23, 59, 59, 5⟩ : Timestamp).toText = c!"2024-02-29T23:59:59Z" := by decide

end Rops.Props
