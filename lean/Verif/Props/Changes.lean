import Verif.Lemmas.Changes
import Verif.Lemmas.FileOps
import Verif.Spec.ToyFile
/-!
# C65: which changes of the map are accepted
-/

namespace Rops.Props
open Rops Spec

theorem getD_true {o : Option Bool} : o.getD false = true ↔ o = some true := by
  rcases o with _ | _ | _ <;> simp

variable {env : Env} {F Fo : Format} {rep rep' : Value → Prop} {f : EncFile F} {key d : Bytes} {m : RMap Value}
  {m' : RMap EncLeaf}

/-- **C65.** A changed map made without the data key is accepted exactly when the hashed bytes are as before, or
they are a collision of the hash. -/
theorem C65_accepted_iff (he : EnvLaws env) (hF : Format.Lawful F rep) (hFo : Format.Lawful Fo rep')
    (h : Holding env rep f key m m') (hr : env.retrieveDataKey f.metadata = .ok d) (its : List FileItem)
    (hits : ∀ it ∈ its, Makeable env.fl env.rx f.metadata.partialEncryption rep (items m m') it ∧ rep' it.value)
    {m2' : RMap EncLeaf} (hl : leaves m2' = itemLeaves its) :
    Opens env Fo f m2' ↔ hashedBytes env.rx f.metadata its = hashedBytes env.rx f.metadata (items m m') ∨
      Collide env.H (hashedBytes env.rx f.metadata its) (hashedBytes env.rx f.metadata (items m m')) := by
  cases retrieve_of_allWrap he h.key_length h.units hr
  obtain ⟨x, hx1, hx2⟩ := hF.enc_round_trip env.C he.cipher.name_no_comma env.rx _ m2'
    (encHolds_makeable h hl fun it hit => (hits it hit).1)
  obtain ⟨m2, hm2, hs, hlv⟩ := decrypt_exists (m' := m2') (vs := itemValues its) (env := { C := env.C, fl := env.fl, key })
    (by rw [hl]; exact decryptsTo_items fun it hit => makeable_value he h (hits it hit).1)
  obtain ⟨y, hy1, hy2⟩ := hFo.round_trip m2 (by
    unfold Holds
    rw [hlv]
    intro pv hpv
    obtain ⟨it, hit, rfl⟩ := List.mem_map.1 hpv
    exact (hits it hit).2)
  have e1 := macInput_items env.rx f.metadata hlv
  have e2 := macInput_items env.rx f.metadata h.items.2.1.symm
  have hmac := he.cipher.decrypt_encrypt h.mac
  have key1 : env.macOf f.metadata m2 = macText env.H env.rx f.metadata.partialEncryption f.metadata.macOnlyEncrypted m ↔
      env.H.digest (hashedBytes env.rx f.metadata its) = env.H.digest (hashedBytes env.rx f.metadata (items m m')) := by
    rw [Env.macOf_eq he.hasher, macText, macText, e1, e2]
    exact ⟨fun e => hex_injective (utf8_injective e), fun e => by rw [e]⟩
  have key2 : (∃ g : DecFile Fo, EncFile.decrypt Fo env { f with map := x } = .ok g) ↔
      env.H.digest (hashedBytes env.rx f.metadata its) = env.H.digest (hashedBytes env.rx f.metadata (items m m')) := by
    rw [← key1]
    constructor
    · rintro ⟨g, hg⟩
      obtain ⟨k2, m2'', m3, a1, a2, a3, a4, _⟩ := decrypt_ok_iff.1 hg
      rw [show env.retrieveDataKey f.metadata = _ from a1] at hr
      cases hr
      rw [show F.encToInternal env.C env.rx _ x = _ from a2] at hx2
      cases hx2
      rw [show RMap.decrypt { C := env.C, fl := env.fl, key } m2' = _ from a3] at hm2
      cases hm2
      rw [hmac] at a4
      injection a4 with a4
      exact a4.symm
    · intro hmm
      refine ⟨{ map := y, metadata := decMetadata f.metadata (env.macOf f.metadata m2) }, ?_⟩
      exact decrypt_ok_iff.2 ⟨key, m2', m2, hr, hx2, hm2, by rw [← hmm] at hmac; exact hmac, hy1, rfl⟩
  constructor
  · rintro ⟨x', g, hx', hg⟩
    rw [hx1] at hx'
    cases hx'
    have := key2.1 ⟨g, hg⟩
    by_cases hq : hashedBytes env.rx f.metadata its = hashedBytes env.rx f.metadata (items m m')
    · exact .inl hq
    · exact .inr ⟨hq, this⟩
  · intro hq
    obtain ⟨g, hg⟩ := key2.2 (by rcases hq with hq | hq; rw [hq]; exact hq.2)
    exact ⟨x, g, hx1, hg⟩

/-- **C65.** Nothing else is accepted: if a changed map is accepted and contains no forged ciphertext, then it
consists of such items. -/
theorem C65_only_makeable (he : EnvLaws env) (h : Holding env rep f key m m') (hr : env.retrieveDataKey f.metadata = .ok d)
    (hF : Format.Lawful F rep)
    {m2' : RMap EncLeaf} (henc : EncHolds env.C env.rx f.metadata.partialEncryption rep m2')
    (hforged : ¬ Forged env.C key (SealedIn m') m2') (ho : Opens env Fo f m2') :
    ∃ its, leaves m2' = itemLeaves its ∧
      ∀ it ∈ its, Makeable env.fl env.rx f.metadata.partialEncryption rep (items m m') it := by
  obtain ⟨x, g, hx, hg⟩ := ho
  obtain ⟨x', hx1, hx2⟩ := hF.enc_round_trip env.C he.cipher.name_no_comma env.rx _ m2' henc
  rw [hx] at hx1
  cases hx1
  obtain ⟨k2, m2'', m3, a1, a2, a3, a4, _⟩ := decrypt_ok_iff.1 hg
  rw [show F.encToInternal env.C env.rx _ x = _ from a2] at hx2
  cases hx2
  cases retrieve_of_allWrap he h.key_length h.units hr
  rw [show env.retrieveDataKey f.metadata = _ from a1] at hr
  cases hr
  obtain ⟨_, hd⟩ := RMap.decrypt_ok_iff.1 a3
  obtain ⟨its, i1, i2, i3⟩ := items_of_decryptsTo hd
  refine ⟨its, i1.symm, fun it hit => ?_⟩
  have hin : (it.path, it.leaf) ∈ leaves m2' := by rw [← i1]; exact List.mem_map_of_mem hit
  have hv := i3 it hit
  cases hleaf : it.leaf with
  | escaped w =>
    rw [hleaf] at hin hv
    cases hv
    obtain ⟨b1, b2⟩ := henc.2 _ _ hin
    exact .inl ⟨hleaf, b1, b2⟩
  | encrypted e =>
    rw [hleaf] at hin hv
    right
    obtain ⟨b1, b2⟩ := henc.1 _ _ hin
    have hv : EncValue.decrypt env.C env.fl key (pathText it.path) e = .ok it.value := hv
    cases hdec : env.C.decrypt e.nonce key e.data (utf8 (pathText it.path)) e.tag with
    | none => unfold EncValue.decrypt at hv; rw [hdec] at hv; cases hv
    | some b =>
      have hs : SealedIn m' e.nonce e.data (utf8 (pathText it.path)) e.tag := by
        by_cases hs : SealedIn m' e.nonce e.data (utf8 (pathText it.path)) e.tag
        · exact hs
        · exact absurd ⟨it.path, e, hin, by rw [hdec]; simp, hs⟩ hforged
      obtain ⟨p0, e0, hm0, c1, c2, c3, c4⟩ := hs
      rw [← h.items.1] at hm0
      obtain ⟨o, ho, hoe⟩ := List.mem_map.1 hm0
      have ho1 : o.path = p0 := (Prod.mk.inj hoe).1
      have ho2 : o.leaf = .encrypted e0 := (Prod.mk.inj hoe).2
      have hpt : pathText it.path = pathText o.path := by rw [ho1]; exact utf8_injective c3
      obtain ⟨_, ⟨_, hs⟩ | ⟨_, e', he', hs⟩⟩ := h.items.2.2 o ho
      · simp only at hs; rw [ho2] at hs; cases hs
      simp only at he'
      rw [ho2] at he'
      cases he'
      have hb : b = plainBytes o.value := by
        have := he.cipher.decrypt_encrypt hs.1
        rw [← hpt, c1, c2, c4, hdec] at this
        injection this
      refine ⟨o, ho, e0, e.variant, ho2, ?_, hpt, b1, hb ▸ readsAs_of_decrypt hv hdec⟩
      rw [hleaf]
      cases e; cases e0
      simp only at c1 c2 c4
      simp [c1, c2, c4]

/-- **C65.** What is read from an accepted changed map: the values of its items, at its paths. -/
theorem C65_read (he : EnvLaws env) (hF : Format.Lawful F rep) (hFo : Format.Lawful Fo rep')
    (h : Holding env rep f key m m') (hr : env.retrieveDataKey f.metadata = .ok d) (its : List FileItem)
    (hits : ∀ it ∈ its, Makeable env.fl env.rx f.metadata.partialEncryption rep (items m m') it ∧ rep' it.value)
    {m2' : RMap EncLeaf} (hl : leaves m2' = itemLeaves its) {x : F.Map} (hx : F.encOfInternal env.C m2' = some x)
    {g : DecFile Fo} (hg : EncFile.decrypt Fo env { f with map := x } = .ok g) :
    ∃ m2, Fo.toInternal g.map = .ok m2 ∧ shapeMap m2 = shapeMap m2' ∧
      leaves m2 = its.map fun it => (it.path, it.value) := by
  cases retrieve_of_allWrap he h.key_length h.units hr
  obtain ⟨x', hx1, hx2⟩ := hF.enc_round_trip env.C he.cipher.name_no_comma env.rx _ m2'
    (encHolds_makeable h hl fun it hit => (hits it hit).1)
  rw [hx] at hx1
  cases hx1
  obtain ⟨m2, hm2, hs, hlv⟩ := decrypt_exists (m' := m2') (vs := itemValues its) (env := { C := env.C, fl := env.fl, key })
    (by rw [hl]; exact decryptsTo_items fun it hit => makeable_value he h (hits it hit).1)
  obtain ⟨y, hy1, hy2⟩ := hFo.round_trip m2 (by
    unfold Holds
    rw [hlv]
    intro pv hpv
    obtain ⟨it, hit, rfl⟩ := List.mem_map.1 hpv
    exact (hits it hit).2)
  obtain ⟨k2, m2'', m3, a1, a2, a3, _, a5, _⟩ := decrypt_ok_iff.1 hg
  rw [show env.retrieveDataKey f.metadata = _ from a1] at hr
  cases hr
  rw [show F.encToInternal env.C env.rx _ x = _ from a2] at hx2
  cases hx2
  rw [show RMap.decrypt { C := env.C, fl := env.fl, key } m2' = _ from a3] at hm2
  cases hm2
  rw [a5] at hy1
  cases hy1
  exact ⟨_, hy2, hs, hlv⟩

/-- The condition of `C65_accepted_iff` for the items of the file themselves. -/
theorem makeable_items (he : EnvLaws env) (h : Holding env rep f key m m') (hm : Holds rep' m) :
    ∀ it ∈ items m m', Makeable env.fl env.rx f.metadata.partialEncryption rep (items m m') it ∧ rep' it.value := by
  intro it hit
  refine ⟨makeable_of_mem he h hit rfl, hm (it.path, it.value) ?_⟩
  rw [← h.items.2.1]
  exact List.mem_map_of_mem hit

/-- **C65.** A value may be removed exactly when it adds no bytes to the hashed ones: an empty string, or with
`mac_only_encrypted` a value in plaintext (or by a collision). -/
theorem C65_removed (he : EnvLaws env) (hF : Format.Lawful F rep) (hFo : Format.Lawful Fo rep')
    (h : Holding env rep f key m m') (hm : Holds rep' m) (hr : env.retrieveDataKey f.metadata = .ok d)
    (hfl : env.fl.reprint [] = none) {A B : List FileItem} {x : FileItem} (hi : items m m' = A ++ [x] ++ B)
    {m2' : RMap EncLeaf} (hl : leaves m2' = itemLeaves (A ++ B)) :
    Opens env Fo f m2' ↔
      (x.value = .string [] ∨ f.metadata.macOnlyEncrypted = some true ∧ Plain env.rx f.metadata.partialEncryption x.path) ∨
      Collide env.H (hashedBytes env.rx f.metadata (A ++ B)) (hashedBytes env.rx f.metadata (items m m')) := by
  have hall := makeable_items he h hm
  have hx : x.value.Canonical env.fl := h.fits.canonical (x.path, x.value) (by
    rw [← h.items.2.1, hi]; simp [itemValues])
  rw [C65_accepted_iff he hF hFo h hr (A ++ B) (fun it hit => hall it (by
    rw [hi]
    rcases List.mem_append.1 hit with hit | hit <;> simp [hit])) hl]
  have : hashedBytes env.rx f.metadata (A ++ B) = hashedBytes env.rx f.metadata (items m m') ↔
      FileItem.bytes env.rx f.metadata.partialEncryption (f.metadata.macOnlyEncrypted.getD false) x = [] := by
    have := hashedBytes_append_cancel (rx := env.rx) (md := f.metadata) A [] [x] B
    rw [List.append_nil] at this
    rw [hi, this, List.flatMap_nil, List.flatMap_singleton]
    exact eq_comm
  rw [this, item_bytes_nil hfl hx]

/-- **C65.** A value may be inserted exactly when it adds no bytes to the hashed ones. -/
theorem C65_inserted (he : EnvLaws env) (hF : Format.Lawful F rep) (hFo : Format.Lawful Fo rep')
    (h : Holding env rep f key m m') (hm : Holds rep' m) (hr : env.retrieveDataKey f.metadata = .ok d)
    (hfl : env.fl.reprint [] = none) {A B : List FileItem} (hi : items m m' = A ++ B) {x : FileItem}
    (hx : Makeable env.fl env.rx f.metadata.partialEncryption rep (items m m') x ∧ rep' x.value)
    (hc : x.value.Canonical env.fl) {m2' : RMap EncLeaf} (hl : leaves m2' = itemLeaves (A ++ [x] ++ B)) :
    Opens env Fo f m2' ↔
      (x.value = .string [] ∨ f.metadata.macOnlyEncrypted = some true ∧ Plain env.rx f.metadata.partialEncryption x.path) ∨
      Collide env.H (hashedBytes env.rx f.metadata (A ++ [x] ++ B)) (hashedBytes env.rx f.metadata (items m m')) := by
  have hall := makeable_items he h hm
  rw [C65_accepted_iff he hF hFo h hr (A ++ [x] ++ B) (fun it hit => by
    simp only [List.mem_append, List.mem_singleton] at hit
    rcases hit with (hit | rfl) | hit
    · exact hall it (by simp [hi, hit])
    · exact hx
    · exact hall it (by simp [hi, hit])) hl]
  have : hashedBytes env.rx f.metadata (A ++ [x] ++ B) = hashedBytes env.rx f.metadata (items m m') ↔
      FileItem.bytes env.rx f.metadata.partialEncryption (f.metadata.macOnlyEncrypted.getD false) x = [] := by
    have := hashedBytes_append_cancel (rx := env.rx) (md := f.metadata) A [x] [] B
    rw [List.append_nil] at this
    rw [hi, this]
    simp
  rw [this, item_bytes_nil hfl hc]

/-- **C65.** A value may be replaced by another at the same path exactly when both have the same bytes (such as the
number 5 and the text "5"), or with `mac_only_encrypted` the path asks for plaintext. -/
theorem C65_replaced (he : EnvLaws env) (hF : Format.Lawful F rep) (hFo : Format.Lawful Fo rep')
    (h : Holding env rep f key m m') (hm : Holds rep' m) (hr : env.retrieveDataKey f.metadata = .ok d)
    {A B : List FileItem} {x y : FileItem} (hi : items m m' = A ++ [x] ++ B) (hp : y.path = x.path)
    (hy : Makeable env.fl env.rx f.metadata.partialEncryption rep (items m m') y ∧ rep' y.value)
    {m2' : RMap EncLeaf} (hl : leaves m2' = itemLeaves (A ++ [y] ++ B)) :
    Opens env Fo f m2' ↔
      (plainBytes y.value = plainBytes x.value ∨
        f.metadata.macOnlyEncrypted = some true ∧ Plain env.rx f.metadata.partialEncryption x.path) ∨
      Collide env.H (hashedBytes env.rx f.metadata (A ++ [y] ++ B)) (hashedBytes env.rx f.metadata (items m m')) := by
  have hall := makeable_items he h hm
  rw [C65_accepted_iff he hF hFo h hr (A ++ [y] ++ B) (fun it hit => by
    simp only [List.mem_append, List.mem_singleton] at hit
    rcases hit with (hit | rfl) | hit
    · exact hall it (by simp [hi, hit])
    · exact hy
    · exact hall it (by simp [hi, hit])) hl]
  have : hashedBytes env.rx f.metadata (A ++ [y] ++ B) = hashedBytes env.rx f.metadata (items m m') ↔
      (plainBytes y.value = plainBytes x.value ∨
        f.metadata.macOnlyEncrypted = some true ∧ Plain env.rx f.metadata.partialEncryption x.path) := by
    rw [hi, hashedBytes_append_cancel]
    simp only [List.flatMap_cons, List.flatMap_nil, List.append_nil, FileItem.bytes, hp, getD_true]
    split <;> simp_all
  rw [this]

/-- **C65.** Two neighbours at the same path (elements of one list) may be swapped exactly when both are
repetitions of one text, or with `mac_only_encrypted` the path asks for plaintext. -/
theorem C65_swapped (he : EnvLaws env) (hF : Format.Lawful F rep) (hFo : Format.Lawful Fo rep')
    (h : Holding env rep f key m m') (hm : Holds rep' m) (hr : env.retrieveDataKey f.metadata = .ok d)
    {A B : List FileItem} {x y : FileItem} (hi : items m m' = A ++ [x, y] ++ B) (hp : y.path = x.path)
    {m2' : RMap EncLeaf} (hl : leaves m2' = itemLeaves (A ++ [y, x] ++ B)) :
    Opens env Fo f m2' ↔
      ((∃ (w : Bytes) (i j : Nat), plainBytes x.value = (List.replicate i w).flatten ∧
          plainBytes y.value = (List.replicate j w).flatten) ∨
        f.metadata.macOnlyEncrypted = some true ∧ Plain env.rx f.metadata.partialEncryption x.path) ∨
      Collide env.H (hashedBytes env.rx f.metadata (A ++ [y, x] ++ B)) (hashedBytes env.rx f.metadata (items m m')) := by
  have hall := makeable_items he h hm
  rw [C65_accepted_iff he hF hFo h hr (A ++ [y, x] ++ B) (fun it hit => hall it (by
    simp only [hi, List.mem_append, List.mem_cons, List.not_mem_nil, or_false] at hit ⊢
    rcases hit with (hit | hit | hit) | hit <;> simp [hit])) hl]
  have : hashedBytes env.rx f.metadata (A ++ [y, x] ++ B) = hashedBytes env.rx f.metadata (items m m') ↔
      (plainBytes x.value ++ plainBytes y.value = plainBytes y.value ++ plainBytes x.value ∨
        f.metadata.macOnlyEncrypted = some true ∧ Plain env.rx f.metadata.partialEncryption x.path) := by
    rw [hi, hashedBytes_append_cancel]
    simp only [List.flatMap_cons, List.flatMap_nil, List.append_nil, FileItem.bytes, hp, getD_true]
    split
    · simp_all
    · simp_all [eq_comm]
  rw [this, commute_iff]

/-- **C65.** As long as all hashed values have one positive length, no other sequence of values is accepted:
nothing may be reordered, added or removed. -/
theorem C65_same_length (he : EnvLaws env) (hF : Format.Lawful F rep) (hFo : Format.Lawful Fo rep')
    (h : Holding env rep f key m m') (hr : env.retrieveDataKey f.metadata = .ok d) (its : List FileItem)
    (hits : ∀ it ∈ its, Makeable env.fl env.rx f.metadata.partialEncryption rep (items m m') it ∧ rep' it.value)
    {m2' : RMap EncLeaf} (hl : leaves m2' = itemLeaves its)
    (hall : f.metadata.macOnlyEncrypted ≠ some true) {n : Nat} (hn : 0 < n)
    (h1 : ∀ it ∈ items m m', (plainBytes it.value).length = n) (h2 : ∀ it ∈ its, (plainBytes it.value).length = n) :
    Opens env Fo f m2' ↔
      (its.map fun it => plainBytes it.value) = ((items m m').map fun it => plainBytes it.value) ∨
      Collide env.H (hashedBytes env.rx f.metadata its) (hashedBytes env.rx f.metadata (items m m')) := by
  rw [C65_accepted_iff he hF hFo h hr its hits hl]
  have hb : ∀ l : List FileItem, hashedBytes env.rx f.metadata l = (l.map fun it => plainBytes it.value).flatten := by
    intro l
    unfold hashedBytes
    rw [if_neg hall, List.nil_append, List.flatMap_def]
    congr 1
    apply List.map_congr_left
    intro it _
    simp [FileItem.bytes, getD_true, hall]
  rw [hb, hb, flatten_eq_of_length hn (by simpa using h2) (by simpa using h1)]

/-! ### A file -/

/-- A file with a list of three encrypted values and a number in plaintext. -/
def listBuilder : Builder Format.json where
  map := [(c!"l", .seq [.leaf (.str c!"a"), .leaf (.str c!"aa"), .leaf (.str [])]), (c!"n_plain", .leaf (.num (.posInt 5)))]
  partialEncryption := some (.unencryptedSuffix c!"_plain")
  macOnlyEncrypted := none
  ageKeyIds := [c!"pk1"]
  kmsKeyIds := []

/-- Its map. -/
def listMap : RMap Value :=
  [(c!"l", .seq [.leaf (.string c!"a"), .leaf (.string c!"aa"), .leaf (.string [])]), (c!"n_plain", .leaf (.integer 5))]

theorem listMap_fits : Fits Toy.env.fl jsonRep (some (.unencryptedSuffix c!"_plain")) listMap := by
  have hl : leaves listMap = [([c!"l"], Value.string c!"a"), ([c!"l"], .string c!"aa"), ([c!"l"], .string []),
      ([c!"n_plain"], .integer 5)] := rfl
  refine ⟨?_, ?_, fun _ => ?_⟩
  · unfold Canonical
    rw [hl]
    intro pv h
    simp only [List.mem_cons, List.not_mem_nil, or_false] at h
    rcases h with rfl | rfl | rfl | rfl <;> trivial
  · unfold Holds
    rw [hl]
    intro pv h
    simp only [List.mem_cons, List.not_mem_nil, or_false] at h
    rcases h with rfl | rfl | rfl | rfl <;> trivial
  · refine .inl ?_
    unfold NoColon
    decide

theorem listBuilder_ok : ∃ f j m', listBuilder.encrypt Toy.env 0 = .ok (f, j) ∧
    Holding Toy.env jsonRep f (Toy.env.newKey 0) listMap m' ∧
    Toy.env.retrieveDataKey f.metadata = .ok (Toy.env.newKey 0) ∧ f.metadata.macOnlyEncrypted = none ∧
    f.metadata.partialEncryption = some (.unencryptedSuffix c!"_plain") ∧
    ∃ l1 l2 l3 l4, items listMap m' =
      [⟨[c!"l"], l1, .string c!"a"⟩, ⟨[c!"l"], l2, .string c!"aa"⟩, ⟨[c!"l"], l3, .string []⟩,
        ⟨[c!"n_plain"], l4, .integer 5⟩] := by
  have hc : (match listBuilder.encrypt Toy.env 0 with
    | .error _ => false
    | .ok (f, _) => (match Toy.env.retrieveDataKey f.metadata with
      | .ok k => k == Toy.env.newKey 0
      | .error _ => false) && f.metadata.macOnlyEncrypted == none &&
        (match f.metadata.partialEncryption with
        | some (.unencryptedSuffix s) => s == c!"_plain"
        | _ => false)) = true := by decide +kernel
  split at hc
  · cases hc
  rename_i f j hb
  simp only [Bool.and_eq_true, beq_iff_eq] at hc
  obtain ⟨⟨h1, h2⟩, h3⟩ := hc
  split at h1
  rotate_left
  · cases h1
  rename_i k hk
  split at h3
  rotate_left
  · cases h3
  rename_i s hs
  obtain ⟨m', _, _, hh, _⟩ := holding_of_builder (b := listBuilder) Toy.env_laws Format.json_lawful
    (show Format.json.toInternal listBuilder.map = .ok listMap from rfl) listMap_fits hb
  refine ⟨f, j, m', hb, hh, by rw [hk]; simpa using h1, h2, by rw [hs]; simpa using h3, ?_⟩
  have hv := hh.items.2.1
  rw [show leaves listMap = [([c!"l"], Value.string c!"a"), ([c!"l"], .string c!"aa"), ([c!"l"], .string []),
      ([c!"n_plain"], .integer 5)] from rfl] at hv
  generalize items listMap m' = its at hv
  unfold itemValues at hv
  match its, hv with
  | [⟨p1, l1, v1⟩, ⟨p2, l2, v2⟩, ⟨p3, l3, v3⟩, ⟨p4, l4, v4⟩], hv =>
    simp only [List.map_cons, List.map_nil, List.cons.injEq, Prod.mk.injEq, and_true] at hv
    obtain ⟨⟨rfl, rfl⟩, ⟨rfl, rfl⟩, ⟨rfl, rfl⟩, rfl, rfl⟩ := hv
    exact ⟨l1, l2, l3, l4, rfl⟩

/-- The hypotheses of `C65_swapped` and `C65_removed` are met: the two first elements of the list may be swapped and the third
may be removed. -/
example : ∃ (f : EncFile Format.json) (j : Nat) (m' : RMap EncLeaf) (l1 l2 l3 l4 : EncLeaf),
    listBuilder.encrypt Toy.env 0 = .ok (f, j) ∧
    leaves m' = [([c!"l"], l1), ([c!"l"], l2), ([c!"l"], l3), ([c!"n_plain"], l4)] ∧
    Opens Toy.env Format.json f [(c!"l", .seq [.leaf l2, .leaf l1, .leaf l3]), (c!"n_plain", .leaf l4)] ∧
    Opens Toy.env Format.json f [(c!"l", .seq [.leaf l1, .leaf l2]), (c!"n_plain", .leaf l4)] := by
  obtain ⟨f, j, m', hb, hh, hk, ho, hp, l1, l2, l3, l4, hi⟩ := listBuilder_ok
  refine ⟨f, j, m', l1, l2, l3, l4, hb, by rw [← hh.items.1, hi]; rfl, ?_, ?_⟩
  · refine (C65_swapped (A := []) (B := [⟨[c!"l"], l3, .string []⟩, ⟨[c!"n_plain"], l4, .integer 5⟩])
      Toy.env_laws Format.json_lawful Format.json_lawful hh listMap_fits.holds hk hi rfl rfl).2 (.inl (.inl ?_))
    exact ⟨utf8 c!"a", 1, 2, by dsimp only; decide, by dsimp only; decide⟩
  · exact (C65_removed (A := [⟨[c!"l"], l1, .string c!"a"⟩, ⟨[c!"l"], l2, .string c!"aa"⟩])
      (B := [⟨[c!"n_plain"], l4, .integer 5⟩])
      Toy.env_laws Format.json_lawful Format.json_lawful hh listMap_fits.holds hk (by decide) hi rfl).2 (.inl (.inl rfl))

/-- The hypotheses of `C65_replaced` and `C65_inserted` are met: the number may be replaced by a text, and the
empty element may be inserted once more. -/
example : ∃ (f : EncFile Format.json) (j : Nat) (m' : RMap EncLeaf) (l1 l2 l3 l4 : EncLeaf),
    listBuilder.encrypt Toy.env 0 = .ok (f, j) ∧
    leaves m' = [([c!"l"], l1), ([c!"l"], l2), ([c!"l"], l3), ([c!"n_plain"], l4)] ∧
    Opens Toy.env Format.json f [(c!"l", .seq [.leaf l1, .leaf l2, .leaf l3]), (c!"n_plain", .leaf (.escaped (.string c!"5")))] ∧
    Opens Toy.env Format.json f [(c!"l", .seq [.leaf l3, .leaf l1, .leaf l2, .leaf l3]), (c!"n_plain", .leaf l4)] := by
  obtain ⟨f, j, m', hb, hh, hk, ho, hp, l1, l2, l3, l4, hi⟩ := listBuilder_ok
  refine ⟨f, j, m', l1, l2, l3, l4, hb, by rw [← hh.items.1, hi]; rfl, ?_, ?_⟩
  · refine (C65_replaced (A := [⟨[c!"l"], l1, .string c!"a"⟩, ⟨[c!"l"], l2, .string c!"aa"⟩, ⟨[c!"l"], l3, .string []⟩])
      (y := ⟨[c!"n_plain"], .escaped (.string c!"5"), .string c!"5"⟩) (B := [])
      Toy.env_laws Format.json_lawful Format.json_lawful hh listMap_fits.holds hk hi rfl ⟨.inl ⟨rfl, ?_, trivial⟩, trivial⟩
      rfl).2 (.inl (.inl (by dsimp only; decide)))
    rw [hp]
    exact ⟨_, List.mem_singleton_self _, by decide⟩
  · refine (C65_inserted (A := []) (B := items listMap m') (x := ⟨[c!"l"], l3, .string []⟩)
      Toy.env_laws Format.json_lawful Format.json_lawful hh listMap_fits.holds hk (by decide) rfl ⟨?_, trivial⟩ trivial
      (by rw [hi]; rfl)).2 (.inl (.inl rfl))
    exact makeable_of_mem (it := ⟨[c!"l"], l3, .string []⟩) Toy.env_laws hh (by rw [hi]; simp) rfl

/-- The list with its first elements swapped and the third removed. -/
def swappedMap : Format.json.Map → Format.json.Map
  | [(l, .seq [a, b, _]), n] => [(l, .seq [b, a]), n]
  | m => m

/-- **C65**, concretely. The book claims that the MAC denies "any unauthenticated addition, removal or reordering of
unique values". It does not: of a list of three different encrypted values two are swapped and one is removed, and the
file still decrypts, to another list. -/
theorem C65_book_claim_false : ∃ (f : EncFile Format.json) (g : DecFile Format.json) (j : Nat),
    listBuilder.encrypt Toy.env 0 = .ok (f, j) ∧
    EncFile.decrypt Format.json Toy.env { f with map := swappedMap f.map } = .ok g ∧
    Format.json.toInternal g.map =
      .ok [(c!"l", .seq [.leaf (.string c!"aa"), .leaf (.string c!"a")]), (c!"n_plain", .leaf (.integer 5))] := by
  have hc : (match listBuilder.encrypt Toy.env 0 with
    | .error _ => false
    | .ok (f, _) => match EncFile.decrypt Format.json Toy.env { f with map := swappedMap f.map } with
      | .error _ => false
      | .ok g => match Format.json.toInternal g.map with
        | .ok [(a, .seq [.leaf va, .leaf vb]), (c, .leaf vc)] =>
          a == c!"l" && c == c!"n_plain" && va == .string c!"aa" && vb == .string c!"a" && vc == .integer 5
        | _ => false) = true := by decide +kernel
  split at hc
  · cases hc
  rename_i f j h1
  split at hc
  · cases hc
  rename_i g h2
  split at hc
  · rename_i a va vb c vc h3
    simp only [Bool.and_eq_true, beq_iff_eq] at hc
    obtain ⟨⟨⟨⟨rfl, rfl⟩, rfl⟩, rfl⟩, rfl⟩ := hc
    exact ⟨f, g, j, h1, h2, h3⟩
  · cases hc

/-- The hypotheses of `C65_accepted_iff`, `C65_only_makeable` and `C65_read` are met: the number is replaced by a text and
moved before the list, whose elements are swapped. What is read are the new values at the new places. -/
example : ∃ (f : EncFile Format.json) (j : Nat) (l1 l2 l3 : EncLeaf) (x : Format.json.Map) (g : DecFile Format.json)
      (m2 : RMap Value),
    listBuilder.encrypt Toy.env 0 = .ok (f, j) ∧
    Format.json.encOfInternal Toy.env.C
      [(c!"x_plain", .leaf (.escaped (.string []))), (c!"l", .seq [.leaf l2, .leaf l1, .leaf l3]), (c!"m_plain", .leaf (.escaped (.string c!"5")))] = some x ∧
    EncFile.decrypt Format.json Toy.env { f with map := x } = .ok g ∧
    Format.json.toInternal g.map = .ok m2 ∧
    leaves m2 = [([c!"x_plain"], .string []), ([c!"l"], .string c!"aa"), ([c!"l"], .string c!"a"), ([c!"l"], .string []),
      ([c!"m_plain"], .string c!"5")] := by
  obtain ⟨f, j, m', hb, hh, hk, ho, hp, l1, l2, l3, l4, hi⟩ := listBuilder_ok
  have hits : ∀ it ∈ [(⟨[c!"x_plain"], .escaped (.string []), .string []⟩ : FileItem), ⟨[c!"l"], l2, .string c!"aa"⟩,
      ⟨[c!"l"], l1, .string c!"a"⟩, ⟨[c!"l"], l3, .string []⟩, ⟨[c!"m_plain"], .escaped (.string c!"5"), .string c!"5"⟩],
      Makeable Toy.env.fl Toy.env.rx f.metadata.partialEncryption jsonRep (items listMap m') it ∧ jsonRep it.value := by
    intro it hit
    simp only [List.mem_cons, List.not_mem_nil, or_false] at hit
    rcases hit with rfl | rfl | rfl | rfl | rfl
    · refine ⟨.inl ⟨rfl, ?_, trivial⟩, trivial⟩
      rw [hp]
      exact ⟨_, List.mem_singleton_self _, by decide⟩
    · exact ⟨makeable_of_mem (it := ⟨[c!"l"], l2, .string c!"aa"⟩) Toy.env_laws hh (by rw [hi]; simp) rfl, trivial⟩
    · exact ⟨makeable_of_mem (it := ⟨[c!"l"], l1, .string c!"a"⟩) Toy.env_laws hh (by rw [hi]; simp) rfl, trivial⟩
    · exact ⟨makeable_of_mem (it := ⟨[c!"l"], l3, .string []⟩) Toy.env_laws hh (by rw [hi]; simp) rfl, trivial⟩
    · refine ⟨.inl ⟨rfl, ?_, trivial⟩, trivial⟩
      rw [hp]
      exact ⟨_, List.mem_singleton_self _, by decide⟩
  have hop := (C65_accepted_iff (Fo := Format.json) Toy.env_laws Format.json_lawful Format.json_lawful hh hk _ hits
    (m2' := [(c!"x_plain", .leaf (.escaped (.string []))), (c!"l", .seq [.leaf l2, .leaf l1, .leaf l3]),
      (c!"m_plain", .leaf (.escaped (.string c!"5")))]) rfl).2 (.inl (by
      rw [hi]
      simp only [hashedBytes, FileItem.bytes, ho, List.flatMap_cons, List.flatMap_nil, Option.getD_none, Bool.false_eq_true, false_and, if_false]
      decide))
  obtain ⟨x, g, hx, hg⟩ := hop
  obtain ⟨m2, hm2, _, hl⟩ := C65_read Toy.env_laws Format.json_lawful Format.json_lawful hh hk _ hits rfl hx hg
  exact ⟨f, j, l1, l2, l3, x, g, m2, hb, hx, hg, hm2, hl⟩
/-- The hypotheses of `C65_only_makeable` are met: the list with its first elements swapped contains no forged
ciphertext. -/
example : ∃ (f : EncFile Format.json) (m' : RMap EncLeaf) (l1 l2 l3 l4 : EncLeaf),
    Holding Toy.env jsonRep f (Toy.env.newKey 0) listMap m' ∧
    leaves m' = [([c!"l"], l1), ([c!"l"], l2), ([c!"l"], l3), ([c!"n_plain"], l4)] ∧
    EncHolds Toy.env.C Toy.env.rx f.metadata.partialEncryption jsonRep
      [(c!"l", .seq [.leaf l2, .leaf l1, .leaf l3]), (c!"n_plain", .leaf l4)] ∧
    ¬ Forged Toy.env.C (Toy.env.newKey 0) (SealedIn m')
      [(c!"l", .seq [.leaf l2, .leaf l1, .leaf l3]), (c!"n_plain", .leaf l4)] ∧
    Opens Toy.env Format.json f [(c!"l", .seq [.leaf l2, .leaf l1, .leaf l3]), (c!"n_plain", .leaf l4)] := by
  obtain ⟨f, j, m', hb, hh, hk, ho, hp, l1, l2, l3, l4, hi⟩ := listBuilder_ok
  have hlv : leaves m' = [([c!"l"], l1), ([c!"l"], l2), ([c!"l"], l3), ([c!"n_plain"], l4)] := by
    rw [← hh.items.1, hi]; rfl
  have hmem : ∀ p l, (p, l) ∈ leaves ([(c!"l", .seq [.leaf l2, .leaf l1, .leaf l3]), (c!"n_plain", .leaf l4)] : RMap EncLeaf) →
      (p, l) ∈ leaves m' := by
    intro p l h
    rw [hlv]
    rw [show leaves ([(c!"l", .seq [.leaf l2, .leaf l1, .leaf l3]), (c!"n_plain", .leaf l4)] : RMap EncLeaf) =
      [([c!"l"], l2), ([c!"l"], l1), ([c!"l"], l3), ([c!"n_plain"], l4)] from rfl] at h
    simp only [List.mem_cons, List.not_mem_nil, or_false] at h ⊢
    rcases h with h | h | h | h
    · exact .inr (.inl h)
    · exact .inl h
    · exact .inr (.inr (.inl h))
    · exact .inr (.inr (.inr h))
  refine ⟨f, m', l1, l2, l3, l4, hh, hlv, ?_, ?_, ?_⟩
  · have := encHolds_of_sealed hh.fits.holds hh.sealed
    exact ⟨fun p e h => this.1 p e (hmem _ _ h), fun p v h => this.2 p v (hmem _ _ h)⟩
  · rintro ⟨p, e, h, _, hn⟩
    exact hn ⟨p, e, hmem _ _ h, rfl, rfl, rfl, rfl⟩
  · refine (C65_swapped (A := []) (B := [⟨[c!"l"], l3, .string []⟩, ⟨[c!"n_plain"], l4, .integer 5⟩])
      Toy.env_laws Format.json_lawful Format.json_lawful hh listMap_fits.holds hk hi rfl rfl).2 (.inl (.inl ?_))
    exact ⟨utf8 c!"a", 1, 2, by dsimp only; decide, by dsimp only; decide⟩

/-- A file with a list of two encrypted values of the same length. -/
def pairBuilder : Builder Format.json where
  map := [(c!"l", .seq [.leaf (.str c!"ab"), .leaf (.str c!"cd")])]
  partialEncryption := none
  macOnlyEncrypted := none
  ageKeyIds := [c!"pk1"]
  kmsKeyIds := []

/-- Its map. -/
def pairMap : RMap Value := [(c!"l", .seq [.leaf (.string c!"ab"), .leaf (.string c!"cd")])]

theorem pairMap_fits : Fits Toy.env.fl jsonRep none pairMap := by
  have hl : leaves pairMap = [([c!"l"], Value.string c!"ab"), ([c!"l"], .string c!"cd")] := rfl
  refine ⟨?_, ?_, fun h => absurd rfl h⟩
  · unfold Canonical
    rw [hl]
    intro pv h
    simp only [List.mem_cons, List.not_mem_nil, or_false] at h
    rcases h with rfl | rfl <;> trivial
  · unfold Holds
    rw [hl]
    intro pv h
    simp only [List.mem_cons, List.not_mem_nil, or_false] at h
    rcases h with rfl | rfl <;> trivial

/-- The hypotheses of `C65_same_length` are met: of two values of the same length neither may be removed without the
other, and they may not be swapped. -/
example : ∃ (f : EncFile Format.json) (j : Nat) (m' : RMap EncLeaf) (l1 l2 : EncLeaf),
    pairBuilder.encrypt Toy.env 0 = .ok (f, j) ∧ leaves m' = [([c!"l"], l1), ([c!"l"], l2)] ∧
    Opens Toy.env Format.json f [(c!"l", .seq [.leaf l1, .leaf l2])] ∧
    ¬ Opens Toy.env Format.json f [(c!"l", .seq [.leaf l2, .leaf l1])] := by
  have hc : (match pairBuilder.encrypt Toy.env 0 with
    | .error _ => false
    | .ok (f, _) => (match Toy.env.retrieveDataKey f.metadata with
      | .ok k => k == Toy.env.newKey 0
      | .error _ => false) && f.metadata.macOnlyEncrypted == none) = true := by decide +kernel
  split at hc
  · cases hc
  rename_i f j hb
  simp only [Bool.and_eq_true, beq_iff_eq] at hc
  obtain ⟨h1, h2⟩ := hc
  split at h1
  rotate_left
  · cases h1
  rename_i k hk
  obtain ⟨m', _, _, hh, _⟩ := holding_of_builder (b := pairBuilder) Toy.env_laws Format.json_lawful
    (show Format.json.toInternal pairBuilder.map = .ok pairMap from rfl) pairMap_fits hb
  have hv := hh.items.2.1
  have hl0 := hh.items.1
  have hmk : ∀ it ∈ items pairMap m', Makeable Toy.env.fl Toy.env.rx f.metadata.partialEncryption jsonRep (items pairMap m') it :=
    fun it hit => makeable_of_mem (it := it) Toy.env_laws hh hit rfl
  rw [show leaves pairMap = [([c!"l"], Value.string c!"ab"), ([c!"l"], .string c!"cd")] from rfl] at hv
  have hi : ∃ l1 l2, items pairMap m' = [⟨[c!"l"], l1, .string c!"ab"⟩, ⟨[c!"l"], l2, .string c!"cd"⟩] := by
    generalize items pairMap m' = its at hv
    unfold itemValues at hv
    match its, hv with
    | [⟨p1, l1, v1⟩, ⟨p2, l2, v2⟩], hv =>
      simp only [List.map_cons, List.map_nil, List.cons.injEq, Prod.mk.injEq, and_true] at hv
      obtain ⟨⟨rfl, rfl⟩, rfl, rfl⟩ := hv
      exact ⟨l1, l2, rfl⟩
  obtain ⟨l1, l2, hi⟩ := hi
  have hlen : ∀ its : List FileItem, (∀ it ∈ its, it ∈ items pairMap m') → ∀ it ∈ its, (plainBytes it.value).length = 2 := by
    intro its h it hit
    have := h it hit
    rw [hi] at this
    simp only [List.mem_cons, List.not_mem_nil, or_false] at this
    rcases this with rfl | rfl <;> rfl
  have hrep : ∀ it ∈ items pairMap m', jsonRep it.value := by
    intro it hit
    rw [hi] at hit
    simp only [List.mem_cons, List.not_mem_nil, or_false] at hit
    rcases hit with rfl | rfl <;> trivial
  have hsub : ∀ it ∈ [(⟨[c!"l"], l2, .string c!"cd"⟩ : FileItem), ⟨[c!"l"], l1, .string c!"ab"⟩], it ∈ items pairMap m' := by
    rw [hi]
    intro it hit
    simp only [List.mem_cons, List.not_mem_nil, or_false] at hit ⊢
    exact hit.symm
  have hn : f.metadata.macOnlyEncrypted ≠ some true := by rw [h2]; intro h; cases h
  refine ⟨f, j, m', l1, l2, hb, by rw [← hl0, hi]; rfl, ?_, ?_⟩
  · refine (C65_same_length (n := 2) Toy.env_laws Format.json_lawful Format.json_lawful hh hk (items pairMap m')
      (fun it hit => ⟨hmk it hit, hrep it hit⟩) (by rw [hi]; rfl) hn (by decide) (hlen _ fun _ h => h)
      (hlen _ fun _ h => h)).2 (.inl rfl)
  · intro ho
    rcases (C65_same_length (n := 2) Toy.env_laws Format.json_lawful Format.json_lawful hh hk
      [⟨[c!"l"], l2, .string c!"cd"⟩, ⟨[c!"l"], l1, .string c!"ab"⟩]
      (fun it hit => ⟨hmk it (hsub it hit), hrep it (hsub it hit)⟩) rfl hn (by decide) (hlen _ fun _ h => h)
      (hlen _ hsub)).1 ho with h | ⟨_, h⟩
    · rw [hi] at h
      simp only [List.map_cons, List.map_nil] at h
      revert h
      decide
    · rw [hi] at h
      simp only [hashedBytes, FileItem.bytes, h2, List.flatMap_cons, List.flatMap_nil, Option.getD_none,
        Bool.false_eq_true, false_and, if_false] at h
      revert h
      decide

end Rops.Props
