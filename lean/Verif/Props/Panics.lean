import Verif.Props.Tamper
import Verif.Props.Formats
import Verif.Props.Keys
/-!
# Which inputs end the program with a panic
-/

namespace Rops.Spec

/-- A text that starts like an encrypted value, but whose nonce is longer than nonces are,
or whose tag is longer than tags are. -/
def Overlong (C : Cipher) (s : Str) : Prop :=
  ∃ data iv rest d i, s = c!"ENC[" ++ C.name ++ c!",data:" ++ data ++ c!",iv:" ++ iv ++ rest ++ c!"]" ∧
    Denotes data d ∧ Denotes iv i ∧
    (C.nonceSize < i.length ∧ (rest = [] ∨ ∃ r, rest = ',' :: r) ∨
      i.length ≤ C.nonceSize ∧ ∃ tag t rest', rest = c!",tag:" ++ tag ++ rest' ∧ Denotes tag t ∧
        C.tagSize < t.length ∧ (rest' = [] ∨ ∃ r, rest' = ',' :: r))

/-- The errors that stand for a panic. -/
def Panics (e : FileDecryptError) : Prop :=
  e = .panic ∨ e = .format (.encryptedValue .panic) ∨ e = .metadata (.retrieval (.integration .panic))

end Rops.Spec

namespace Rops.Props
open Spec

/-! ## C55: panics -/

theorem parseSlice_panic {n : Nat} {s : Str} :
    parseSlice n s = .error .panic ↔ ∃ b, Denotes s b ∧ n < b.length := by
  unfold parseSlice Base64.decodeSlice
  cases h : Base64.decode s with
  | none =>
    simp only [reduceCtorEq, Except.error.injEq, false_iff]
    rintro ⟨b, hb, _⟩
    rw [denotes_iff_decode, h] at hb
    cases hb
  | some b =>
    by_cases hl : b.length ≤ n
    · simp only [hl, if_true, reduceCtorEq, false_iff]
      rintro ⟨b', hb, hlt⟩
      rw [denotes_iff_decode, h] at hb
      cases hb
      omega
    · simp only [hl, if_false, true_iff]
      exact ⟨b, denotes_iff_decode.2 h, by omega⟩

theorem Except.bind_eq_error {ε α β} {x : Except ε α} {f : α → Except ε β} {e : ε} :
    x.bind f = .error e ↔ x = .error e ∨ ∃ a, x = .ok a ∧ f a = .error e := by
  cases x <;> simp [Except.bind]

theorem component_ne_panic {p : EncPart} {pre : Str} {o : Option Str} : component p pre o ≠ .error .panic := by
  unfold component
  cases o with
  | none => simp
  | some s => simp only; split <;> simp

theorem parseData_ne_panic {s : Str} : parseData s ≠ .error .panic := by
  unfold parseData
  cases Base64.decode s <;> simp

theorem parseComponents_panic {C : Cipher} {parts : List Str} :
    EncValue.parseComponents C parts = .error .panic ↔
      ∃ data d iv more, parts = C.name :: (c!"data:" ++ data) :: (c!"iv:" ++ iv) :: more ∧ Denotes data d ∧
        ∃ i, Denotes iv i ∧ (C.nonceSize < i.length ∨ i.length ≤ C.nonceSize ∧
          ∃ tag t more', more = (c!"tag:" ++ tag) :: more' ∧ Denotes tag t ∧ C.tagSize < t.length) := by
  constructor
  · intro h
    cases parts with
    | nil => cases h
    | cons name parts =>
      simp only [EncValue.parseComponents] at h
      split at h
      · cases h
      · rename_i hname
        have hname : name = C.name := Decidable.of_not_not hname
        subst hname
        simp only [bind, Except.bind_eq_error, component_ne_panic, parseData_ne_panic, Except.bind_eq_ok, false_or] at h
        rcases h with ⟨_, _, h⟩ | ⟨d, ⟨data, hd1, hd2⟩, h⟩
        · exact absurd h False.elim
        rcases h with ⟨iv, hi1, hi2⟩ | ⟨nonce, ⟨iv, hi1, hi2⟩, h⟩
        · rw [component_iff] at hd1 hi1
          obtain ⟨i, hi, hlt⟩ := parseSlice_panic.1 hi2
          rcases parts with _ | ⟨p0, _ | ⟨p1, more⟩⟩
          · simp at hd1
          · simp at hi1
          · simp only [List.getElem?_cons_zero, List.getElem?_cons_succ, Option.some.injEq] at hd1 hi1
            exact ⟨data, d, iv, more, by rw [hd1, hi1], parseData_iff.1 hd2, i, hi, .inl hlt⟩
        rcases h with ⟨tag, ht1, ht2⟩ | ⟨tag, _, h⟩
        · rw [component_iff] at hd1 hi1 ht1
          obtain ⟨t, ht, hlt⟩ := parseSlice_panic.1 ht2
          obtain ⟨i, hi, hle, _⟩ := zeroFilled_iff.2 hi2
          rcases parts with _ | ⟨p0, _ | ⟨p1, _ | ⟨p2, more⟩⟩⟩
          · simp at hd1
          · simp at hi1
          · simp at ht1
          · simp only [List.getElem?_cons_zero, List.getElem?_cons_succ, Option.some.injEq] at hd1 hi1 ht1
            exact ⟨data, d, iv, p2 :: more, by rw [hd1, hi1], parseData_iff.1 hd2, i, hi,
              .inr ⟨hle, tag, t, more, by rw [ht1], ht, hlt⟩⟩
        · exfalso
          obtain ⟨ty, _, h⟩ := h
          split at h <;> cases h
  · rintro ⟨data, d, iv, more, rfl, hd, i, hi, h⟩
    simp only [EncValue.parseComponents]
    rw [if_neg (by simp)]
    have h1 : (component .data c!"data:" (((c!"data:" ++ data) :: (c!"iv:" ++ iv) :: more)[0]?)).bind parseData = .ok d :=
      Except.bind_eq_ok.2 ⟨data, component_iff.2 rfl, parseData_iff.2 hd⟩
    rw [h1]
    rcases h with h | ⟨hle, tag, t, more', rfl, ht, hlt⟩
    · have h2 : (component .iv c!"iv:" (((c!"data:" ++ data) :: (c!"iv:" ++ iv) :: more)[1]?)).bind
          (parseSlice C.nonceSize) = .error .panic :=
        Except.bind_eq_error.2 (.inr ⟨iv, component_iff.2 rfl, parseSlice_panic.2 ⟨i, hi, h⟩⟩)
      rw [h2]
      rfl
    · have h2 : (component .iv c!"iv:" (((c!"data:" ++ data) :: (c!"iv:" ++ iv) :: (c!"tag:" ++ tag) :: more')[1]?)).bind
          (parseSlice C.nonceSize) = .ok (i ++ List.replicate (C.nonceSize - i.length) 0) :=
        Except.bind_eq_ok.2 ⟨iv, component_iff.2 rfl, zeroFilled_iff.1 ⟨i, hi, hle, rfl⟩⟩
      have h3 : (component .tag c!"tag:" (((c!"data:" ++ data) :: (c!"iv:" ++ iv) :: (c!"tag:" ++ tag) :: more')[2]?)).bind
          (parseSlice C.tagSize) = .error .panic :=
        Except.bind_eq_error.2 (.inr ⟨tag, component_iff.2 rfl, parseSlice_panic.2 ⟨t, ht, hlt⟩⟩)
      rw [h2, h3]
      rfl

/-- The texts of encrypted values that panic when they are read, exactly. -/
theorem C55_enc_text_panics_iff (C : Cipher) (hC : C.Lawful) (s : Str) :
    EncValue.parse C s = .error .panic ↔ Overlong C s := by
  have hn := hC.name_no_comma
  unfold EncValue.parse Overlong
  rw [Except.bind_eq_error]
  have hb : encBody s ≠ .error .panic := by
    unfold encBody
    split
    · simp
    · split
      · simp
      · split <;> simp
  have hcd : ∀ {x : Str} {b : Bytes} (pre : Str), ',' ∉ pre → Denotes x b → ',' ∉ pre ++ x := by
    intro x b pre hp hx
    rw [List.mem_append, not_or]
    exact ⟨hp, comma_not_mem_of_denotes hx⟩
  simp only [hb, false_or, parseComponents_panic, encBody_iff]
  constructor
  · rintro ⟨body, rfl, data, d, iv, more, hsp, hd, i, hi, h⟩
    have hj := joinWith_splitOn ',' body
    rw [hsp] at hj
    have hsplit : ∀ (w : Str) (more : List Str), ∃ rest, joinWith ',' (w :: more) = w ++ rest ∧
        (rest = [] ∧ more = [] ∨ rest = ',' :: joinWith ',' more) := by
      intro w more
      cases more with
      | nil => exact ⟨[], by simp [joinWith], .inl ⟨rfl, rfl⟩⟩
      | cons m ms => exact ⟨',' :: joinWith ',' (m :: ms), rfl, .inr rfl⟩
    obtain ⟨rest, hr1, hr2⟩ := hsplit (c!"iv:" ++ iv) more
    refine ⟨data, iv, rest, d, i, ?_, hd, hi, ?_⟩
    · rw [← hj]
      simp only [joinWith, hr1]
      simp
    · rcases h with h | ⟨hle, tag, t, more', rfl, ht, hlt⟩
      · left
        refine ⟨h, ?_⟩
        rcases hr2 with ⟨h, _⟩ | h
        · exact .inl h
        · exact .inr ⟨_, h⟩
      · right
        rcases hr2 with ⟨_, h⟩ | h
        · cases h
        obtain ⟨rest', h1, h2⟩ := hsplit (c!"tag:" ++ tag) more'
        refine ⟨hle, tag, t, rest', ?_, ht, hlt, ?_⟩
        · rw [h, h1]; simp
        · rcases h2 with ⟨h, _⟩ | h
          · exact .inl h
          · exact .inr ⟨_, h⟩
  · rintro ⟨data, iv, rest, d, i, rfl, hd, hi, h⟩
    refine ⟨C.name ++ c!",data:" ++ data ++ c!",iv:" ++ iv ++ rest, by simp, ?_⟩
    have hbody : C.name ++ c!",data:" ++ data ++ c!",iv:" ++ iv ++ rest =
        C.name ++ ',' :: ((c!"data:" ++ data) ++ ',' :: ((c!"iv:" ++ iv) ++ rest)) := by simp
    have h1 := hcd c!"data:" (by decide) hd
    have h2 := hcd c!"iv:" (by decide) hi
    have hmore : ∀ (w rest : Str), ',' ∉ w → (rest = [] ∨ ∃ r, rest = ',' :: r) → ∃ more, splitOn ',' (w ++ rest) = w :: more := by
      rintro w rest hw (rfl | ⟨r, rfl⟩)
      · exact ⟨[], by rw [List.append_nil, splitOn_of_not_mem hw]⟩
      · exact ⟨_, splitOn_append _ hw⟩
    rw [hbody, splitOn_append _ hn, splitOn_append _ h1]
    rcases h with ⟨h, hr⟩ | ⟨hle, tag, t, rest', rfl, ht, hlt, hr⟩
    · obtain ⟨more, hm⟩ := hmore _ rest h2 hr
      exact ⟨data, d, iv, more, by rw [hm], hd, i, hi, .inl h⟩
    · have h3 := hcd c!"tag:" (by decide) ht
      obtain ⟨more, hm⟩ := hmore _ rest' h3 hr
      have hbody2 : c!"iv:" ++ iv ++ (c!",tag:" ++ tag ++ rest') = (c!"iv:" ++ iv) ++ ',' :: ((c!"tag:" ++ tag) ++ rest') := by
        simp
      rw [hbody2, splitOn_append _ h2, hm]
      exact ⟨data, d, iv, _, rfl, hd, i, hi, .inr ⟨hle, tag, t, more, rfl, ht, hlt⟩⟩

example : EncValue.parse Toy.cipher c!"ENC[AES256_GCM,data:3S1E,iv:AQIDBA==]" = .error .panic := by decide +kernel

/-- The ARNs that panic when they are read, exactly: those that are resource names of AWS
whose resource, split at its last '/', has an invalid part. -/
theorem C55_arn_panics_iff {A : ArnChecks} (hA : A.Lawful) (s : Str) :
    KeyArn.parse A s = .error .panic ↔ ∃ p sv rg ac res, ArnParts A s p sv rg ac res ∧
      ∀ parent id, ResourceParts res parent id → ¬ ((∀ q, parent = some q → A.resource q = true) ∧ A.ident id = true) := by
  have hf : ∀ p sv rg ac res, KeyArn.finish A p sv rg ac res = .error .panic ↔
      ∀ parent id, ResourceParts res parent id → ¬ ((∀ q, parent = some q → A.resource q = true) ∧ A.ident id = true) := by
    intro p sv rg ac res
    unfold KeyArn.finish
    cases hr : rsplitOnce '/' res with
    | none =>
      have hn := rsplitOnce_eq_none.1 hr
      simp only
      constructor
      · intro h parent id hres ⟨_, hid⟩
        cases parent with
        | some q => exact hn (by rw [hres.2]; simp)
        | none =>
          have : res = id := hres.2
          subst this
          rw [if_pos hid] at h
          split at h <;> cases h
      · intro h
        rw [if_neg]
        intro hid
        exact h none res ⟨hn, rfl⟩ ⟨fun q hq => (nomatch hq), hid⟩
    | some pr =>
      obtain ⟨parent, id⟩ := pr
      obtain ⟨e1, e2⟩ := rsplitOnce_eq_some.1 hr
      simp only
      constructor
      · intro h parent' id' hres ⟨hp, hid⟩
        cases parent' with
        | none =>
          have h2 : res = id' := hres.2
          exact hres.1 (by rw [← h2, e1]; simp)
        | some q =>
          have h2 : res = q ++ '/' :: id' := hres.2
          have := (rsplitOnce_append q hres.1).symm.trans (h2 ▸ hr)
          cases this
          rw [if_pos ⟨hp _ rfl, hid⟩] at h
          split at h <;> cases h
      · intro h
        rw [if_neg]
        intro hid
        exact h (some parent) id ⟨e2, e1⟩ ⟨fun q hq => by cases hq; exact hid.1, hid.2⟩
  constructor
  · intro h
    obtain ⟨p, sv, rg, ac, res, hp⟩ := KeyArn.arnParts_of_parse (by rw [h]; simp)
    rw [KeyArn.parse_arnParts hA hp, hf] at h
    exact ⟨p, sv, rg, ac, res, hp, h⟩
  · rintro ⟨p, sv, rg, ac, res, hp, h⟩
    rw [KeyArn.parse_arnParts hA hp, hf]
    exact h

/-- The usual form of other services, with ':' before the name, and a '/' at the end. -/
example : AwsKeyId.parse Toy.arns c!"work.arn:aws:kms:eu-1:123:key:ab-c" = .error .panic ∧
    AwsKeyId.parse Toy.arns c!"work.arn:aws:kms:eu-1:123:key/" = .error .panic := by decide +kernel

/-- The causes of a panic when a file is decrypted, exactly: reading the private keys or
using them panics, the map has an overlong text, the stored MAC differs and is not UTF-8,
or the output format cannot represent a value. -/
theorem C55_decrypt_panics_iff {env : Env} (he : EnvLaws env) {F Fo : Format} (f : EncFile F) :
    (∃ e, f.decrypt Fo env = .error e ∧ Panics e) ↔
      env.retrieveDataKey f.metadata = .error (.integration .panic) ∨
      ∃ key mac, env.retrieveDataKey f.metadata = .ok key ∧
        env.C.decrypt f.metadata.mac.nonce key f.metadata.mac.data f.metadata.lastModified.toBytes f.metadata.mac.tag =
          some mac ∧
        (F.encToInternal env.C env.rx (Resolved.ofConfig f.metadata.partialEncryption) f.map =
            .error (.encryptedValue .panic) ∨
          ∃ m' m, F.encToInternal env.C env.rx (Resolved.ofConfig f.metadata.partialEncryption) f.map = .ok m' ∧
            RMap.decrypt (env.decEnv key) m' = .ok m ∧
            (mac ≠ macText env.H env.rx f.metadata.partialEncryption f.metadata.macOnlyEncrypted m ∧ utf8? mac = none ∨
              mac = macText env.H env.rx f.metadata.partialEncryption f.metadata.macOnlyEncrypted m ∧
              Fo.ofInternal m = none)) := by
  unfold EncFile.decrypt
  cases h1 : env.retrieveDataKey f.metadata with
  | error e => simp [Env.decryptMetadata, h1, Panics]
  | ok key =>
    cases h2 : env.C.decrypt f.metadata.mac.nonce key f.metadata.mac.data f.metadata.lastModified.toBytes
        f.metadata.mac.tag with
    | none =>
      constructor
      · rintro ⟨e, h, hp⟩
        simp only [Env.decryptMetadata, EncMac.decrypt, h1, h2, Except.error.injEq] at h
        subst h
        rcases hp with hp | hp | hp <;> cases hp
      · rintro (h | ⟨key', mac, h, h', _⟩)
        · cases h
        · cases h
          rw [h2] at h'
          cases h'
    | some mac =>
      have hmd := decryptMetadata_ok.2 ⟨key, mac, h1, h2, rfl⟩
      have hcfg : (decMetadata f.metadata mac).partialEncryption = f.metadata.partialEncryption := rfl
      simp only [hmd, hcfg]
      constructor
      · rintro ⟨e, h, hp⟩
        refine .inr ⟨key, mac, rfl, h2, ?_⟩
        cases h3 : F.encToInternal env.C env.rx (Resolved.ofConfig f.metadata.partialEncryption) f.map with
        | error e' =>
          rw [h3] at h
          cases h
          left
          rcases hp with hp | hp | hp <;> cases hp
          rfl
        | ok m' =>
          rw [h3] at h
          simp only at h
          cases h4 : RMap.decrypt (env.decEnv key) m' with
          | error e' =>
            rw [h4] at h
            cases h
            rcases hp with hp | hp | hp <;> cases hp
          | ok m =>
            rw [h4] at h
            simp only at h
            refine .inr ⟨m', m, rfl, h4, ?_⟩
            rw [← Env.macOf_eq he.hasher f.metadata m]
            by_cases hm : mac = env.macOf f.metadata m
            · right
              have hv : env.validateMac m (decMetadata f.metadata mac) = .ok () := validateMac_ok.2 hm
              rw [hv] at h
              simp only at h
              refine ⟨hm, ?_⟩
              cases h5 : Fo.ofInternal m with
              | none => rfl
              | some y => rw [h5] at h; cases h
            · left
              refine ⟨hm, ?_⟩
              obtain ⟨t, ht⟩ := Env.macOf_text env (decMetadata f.metadata mac) m
              have hv : env.validateMac m (decMetadata f.metadata mac) = (match utf8? mac with
                | some s => .error (.macMismatch t s)
                | none => .error .panic) := validateMac_ne ht fun e => hm e.symm
              rw [hv] at h
              cases h5 : utf8? mac with
              | none => rfl
              | some y =>
                rw [h5] at h
                cases h
                rcases hp with hp | hp | hp <;> cases hp
      · rintro (h | ⟨key', mac', hk, hmac, h⟩)
        · cases h
        cases hk
        rw [h2] at hmac
        cases hmac
        rcases h with h3 | ⟨m', m, h3, h4, h⟩
        · rw [h3]
          exact ⟨_, rfl, .inr (.inl rfl)⟩
        · rw [h3]
          simp only
          rw [h4]
          simp only
          rw [← Env.macOf_eq he.hasher f.metadata m] at h
          rcases h with ⟨hm, h5⟩ | ⟨hm, h5⟩
          · obtain ⟨t, ht⟩ := Env.macOf_text env (decMetadata f.metadata mac) m
            have hv : env.validateMac m (decMetadata f.metadata mac) = (match utf8? mac with
              | some s => .error (.macMismatch t s)
              | none => .error .panic) := validateMac_ne ht fun e => hm e.symm
            rw [hv, h5]
            exact ⟨_, rfl, .inl rfl⟩
          · have hv : env.validateMac m (decMetadata f.metadata mac) = .ok () := validateMac_ok.2 hm
            rw [hv, h5]
            exact ⟨_, rfl, .inl rfl⟩

/-- Whoever can change a file without knowing any key can make its decryption to JSON panic
if one of its secrets is the text "inf", "-inf" or "NaN": it suffices to change the type
tag of that secret to that of floats. -/
theorem C55_retag_panics {env : Env} (he : EnvLaws env) {F : Format} {rep : Value → Prop}
    (hF : Format.Lawful F rep) {f : EncFile F} {key : Bytes} {m : RMap Value}
    {m' : RMap EncLeaf} (h : Holding env rep f key m m') (d : Bytes)
    (hr : env.retrieveDataKey f.metadata = .ok d) (A B : List (List Str × EncLeaf)) (p : List Str) (e : EncValue)
    (hl : leaves m' = A ++ [(p, .encrypted e)] ++ B) (A' B' : List (List Str × Value)) (s : Str)
    (hlm : leaves m = A' ++ [(p, .string s)] ++ B') (hlen : A'.length = A.length)
    (hs : s = c!"inf" ∨ s = c!"-inf" ∨ s = c!"NaN") (hfl : env.fl.reprint s = some s) (m2' : RMap EncLeaf)
    (hl2 : leaves m2' = A ++ [(p, .encrypted { e with variant := .float })] ++ B) :
    ∃ x, F.encOfInternal env.C m2' = some x ∧
      EncFile.decrypt Format.json env { f with map := x } = .error .panic := by
  have hz := h.sealed.2
  rw [hl] at hz
  obtain ⟨l12, B1, e1, z12, zB⟩ := hz.append_inv
  obtain ⟨A1, l2, e2, zA, z2⟩ := z12.append_inv
  subst e2
  have hc : ∀ pv ∈ A1 ++ l2 ++ B1, pv.2.Canonical env.fl := by
    have := h.fits.canonical
    unfold Canonical at this
    rw [e1] at this
    exact this
  rcases z2 with _ | ⟨r1, r2⟩
  rename_i a l3
  cases r2
  have hAl : A1.length = A.length := zA.length
  have hall : A1 ++ ([a] ++ B1) = A' ++ ([(p, .string s)] ++ B') := by
    rw [← List.append_assoc, ← List.append_assoc, ← e1, hlm]
  obtain ⟨hA1, hrest⟩ := List.append_inj hall (by omega)
  subst hA1
  simp only [List.cons_append, List.nil_append, List.cons.injEq] at hrest
  obtain ⟨ha, hB1⟩ := hrest
  subst ha hB1
  obtain ⟨_, hv1⟩ := r1
  simp only at hv1
  rcases hv1 with ⟨_, hv1⟩ | ⟨pl, e0, he0, hs1, hs2, hs3⟩
  · cases hv1
  cases he0
  have hdec : DecryptsTo { C := env.C, fl := env.fl, key } (leaves m2') (A1 ++ [(p, .float s)] ++ B1) := by
    rw [hl2]
    refine DecryptsTo.append (DecryptsTo.append ?_ ⟨rfl, ?_, trivial⟩) ?_
    · exact storedAs_decrypts he.cipher (fun pv hpv => hc pv (by simp [hpv])) zA
    · simp only [DecEnv.value, EncValue.decrypt, he.cipher.decrypt_encrypt hs1]
      have hfb : Value.fromBytes env.fl (utf8 s) .float = .ok (.float s) :=
        Value.fromBytes_asBytes (v := .float s) hfl
      have hpb : plainBytes (.string s) = utf8 s := rfl
      rw [hpb, hfb]
    · exact storedAs_decrypts he.cipher (fun pv hpv => hc pv (by simp [hpv])) zB
  have henc := encHolds_of_sealed h.fits.holds h.sealed
  have henc2 : EncHolds env.C env.rx f.metadata.partialEncryption rep m2' := by
    unfold EncHolds at henc ⊢
    rw [hl] at henc
    rw [hl2]
    constructor
    · intro p' e' hpe
      simp only [List.mem_append, List.mem_cons, Prod.mk.injEq, EncLeaf.encrypted.injEq, List.not_mem_nil, or_false] at hpe
      rcases hpe with (hpe | ⟨rfl, rfl⟩) | hpe
      · exact henc.1 _ _ (by simp [hpe])
      · exact ⟨pl, ⟨hs3.nonce_length, hs3.tag_length⟩⟩
      · exact henc.1 _ _ (by simp [hpe])
    · intro p' v' hpe
      apply henc.2
      simp only [List.mem_append, List.mem_cons, Prod.mk.injEq, reduceCtorEq, and_false, List.not_mem_nil,
        or_false] at hpe ⊢
      exact hpe
  cases retrieve_of_allWrap he h.key_length h.units hr
  obtain ⟨x, hx1, hx2⟩ := hF.enc_round_trip env.C he.cipher.name_no_comma env.rx _ m2' henc2
  obtain ⟨m2, hm2, _, hlv⟩ := decrypt_exists hdec
  have hmi : macText env.H env.rx f.metadata.partialEncryption f.metadata.macOnlyEncrypted m =
      macText env.H env.rx f.metadata.partialEncryption f.metadata.macOnlyEncrypted m2 := by
    unfold macText
    rw [macInput_eq_covered, macInput_eq_covered, hlv, hlm]
    simp only [coveredBytes_append, coveredBytes_cons, plainBytes]
  have hmac2 := he.cipher.decrypt_encrypt h.mac
  rw [hmi] at hmac2
  have hno : Format.json.ofInternal m2 = none := by
    rw [C28_json_panics]
    intro hh
    have := hh (p, .float s) (by rw [hlv]; simp)
    rcases hs with rfl | rfl | rfl
    · exact this.1 rfl
    · exact this.2.1 rfl
    · exact this.2.2 rfl
  refine ⟨x, hx1, ?_⟩
  rw [← Env.macOf_eq he.hasher f.metadata m2] at hmac2
  have hmd := decryptMetadata_ok.2 ⟨key, _, hr, hmac2, rfl⟩
  have hv : env.validateMac m2 (decMetadata f.metadata (env.macOf f.metadata m2)) = .ok () := validateMac_ok.2 rfl
  unfold EncFile.decrypt
  simp only [hmd]
  have hx2 : F.encToInternal env.C env.rx
    (Resolved.ofConfig (decMetadata f.metadata (env.macOf f.metadata m2)).partialEncryption) x = .ok m2' := hx2
  have hm2 : RMap.decrypt (env.decEnv key) m2' = .ok m2 := hm2
  simp only [hx2, hm2, hv, hno]

/-- A file with the secret "inf". -/
def infBuilder : Builder Format.json where
  map := [(c!"a", .leaf (.num (.posInt 5))), (c!"limit", .leaf (.str c!"inf"))]
  partialEncryption := none
  macOnlyEncrypted := none
  ageKeyIds := [c!"pk1"]
  kmsKeyIds := []

/-- The type tag of a ciphertext text changed from "str" to "float". -/
def floatText (s : Str) : Str := s.take (s.length - 4) ++ c!"float]"

/-- The file decrypts, and panics with the type tag of its second value changed. -/
example : (match infBuilder.encrypt Toy.env 0 with
    | .error _ => false
    | .ok (f, _) => match f.map with
      | [a, (n, .leaf (.str s))] =>
        (match EncFile.decrypt Format.json Toy.env f with | .ok _ => true | .error _ => false) &&
        (match EncFile.decrypt (F := Format.json) Format.json Toy.env
            { f with map := [a, (n, .leaf (.str (floatText s)))] } with
          | .error .panic => true
          | _ => false)
      | _ => false) = true := by decide +kernel

/-- Decryption to YAML or TOML does not panic for the values of a map. -/
theorem C55_other_formats (m : RMap Value) : Format.yaml.ofInternal m ≠ none ∧ Format.toml.ofInternal m ≠ none :=
  ⟨by obtain ⟨x, hx, _⟩ := C28_yaml m; rw [hx]; simp, nofun⟩

end Rops.Props
