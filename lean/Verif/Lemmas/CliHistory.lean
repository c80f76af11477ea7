import Verif.Spec.CliHistory
import Verif.Lemmas.Cli
import Verif.Lemmas.CliRuns
import Verif.Lemmas.History
import Verif.Props.CommandTexts
import Verif.Props.KeyOps
/-! Lemmas for histories of a file under the commands of the program. -/

namespace Rops
open Spec Props

/-! ## The runs of `rops keys` -/

theorem addKeysText_ok {P : Proc} {x : Fmt} {s out : Str} {k : IntegrationKeys} {i : Nat} :
    P.addKeysText x s k i = .ok out ↔ ∃ (f f1 f2 : EncFile x.doc.F) (j j' : Nat),
      EncFile.ofText (P.T x) P.O P.env.C s = some f ∧ f.addKeys P.env .age k.age i = (.ok (), f1, j) ∧
      f1.addKeys P.env .kms k.kms j = (.ok (), f2, j') ∧ out = EncFile.toText (P.T x) P.env.C f2 := by
  unfold Proc.addKeysText
  constructor
  · intro h
    split at h
    · cases h
    · rename_i f hf
      split at h
      · cases h
      · rename_i f1 j h1
        split at h
        · cases h
        · rename_i f2 j' h2
          cases h
          exact ⟨f, f1, f2, j, j', parseFile_ok.1 hf, h1, h2, rfl⟩
  · rintro ⟨f, f1, f2, j, j', hf, h1, h2, rfl⟩
    simp only [parseFile_ok.2 hf, h1, h2]

theorem removeKeysText_ok {P : Proc} {x : Fmt} {s out : Str} {k : IntegrationKeys} {i : Nat} :
    P.removeKeysText x s k i = .ok out ↔ ∃ (f : EncFile x.doc.F) (g g1 g2 : DecFile x.doc.F) (j j' j'' : Nat)
      (f' : EncFile x.doc.F), EncFile.ofText (P.T x) P.O P.env.C s = some f ∧ f.decrypt x.doc.F P.env = .ok g ∧
      g.removeKeys P.env .age k.age i = .ok (g1, j) ∧ g1.removeKeys P.env .kms k.kms j = .ok (g2, j') ∧
      g2.encrypt x.doc.F P.env j' = .ok (f', j'') ∧ out = EncFile.toText (P.T x) P.env.C f' := by
  unfold Proc.removeKeysText
  constructor
  · intro h
    split at h
    · cases h
    · rename_i f hf
      split at h
      · cases h
      · rename_i g hg
        split at h
        · cases h
        · rename_i g1 j h1
          split at h
          · cases h
          · rename_i g2 j' h2
            split at h
            · cases h
            · rename_i f' j'' h3
              cases h
              exact ⟨f, g, g1, g2, j, j', j'', f', parseFile_ok.1 hf, hg, h1, h2, h3, rfl⟩
  · rintro ⟨f, g, g1, g2, j, j', j'', f', hf, hg, h1, h2, h3, rfl⟩
    simp only [parseFile_ok.2 hf, hg, h1, h2, h3]

theorem keys_ok {P : Proc} {remove : Bool} {a : KeyArgs} {i : Nat} {es : List Event} :
    P.keys remove a i = (es, .ok ()) ↔ ∃ x s out, getFormat (some a.file) a.format = .ok x ∧ InputText P (some a.file) s ∧
      (if remove then P.removeKeysText x s a.keys i else P.addKeysText x s a.keys i) = .ok out ∧
      Delivered P true (some a.file) out es := by
  unfold Proc.keys
  constructor
  · intro h
    split at h
    · cases h
    · rename_i x hx
      split at h
      · cases h
      · rename_i s hs
        split at h
        · cases h
        · rename_i out ho
          exact ⟨x, s, out, hx, (getInput_ok.1 hs).1, ho, writeOrPrint_ok.1 h⟩
  · rintro ⟨x, s, out, hx, hs, ho, hd⟩
    simp only [hx, getInput_ok (inPlace := none).2 ⟨hs, by simp⟩, ho]
    exact writeOrPrint_ok.2 hd

/-- When `rops keys add` succeeds. -/
theorem run_addKeys_ok {P : Proc} {a : KeyArgs} {i : Nat} {es : List Event} :
    P.run (.addKeys a) i = (es, .ok ()) ↔ (∃ config, P.retrieveConfig none = .ok config) ∧
    ∃ (x : Fmt) (s : Str) (f f1 f2 : EncFile x.doc.F) (j j' : Nat), getFormat (some a.file) a.format = .ok x ∧
      InputText P (some a.file) s ∧ EncFile.ofText (P.T x) P.O P.env.C s = some f ∧
      f.addKeys P.env .age a.keys.age i = (.ok (), f1, j) ∧ f1.addKeys P.env .kms a.keys.kms j = (.ok (), f2, j') ∧
      Delivered P true (some a.file) (EncFile.toText (P.T x) P.env.C f2) es := by
  unfold Proc.run
  simp only [Command.accepted, if_true, Command.configPath]
  constructor
  · intro h
    split at h
    · cases h
    · rename_i config hc
      obtain ⟨x, s, out, hx, hs, ho, hd⟩ := keys_ok.1 h
      obtain ⟨f, f1, f2, j, j', h1, h2, h3, rfl⟩ := addKeysText_ok.1 (by simpa using ho)
      exact ⟨⟨config, hc⟩, x, s, f, f1, f2, j, j', hx, hs, h1, h2, h3, hd⟩
  · rintro ⟨⟨config, hc⟩, x, s, f, f1, f2, j, j', hx, hs, h1, h2, h3, hd⟩
    simp only [hc]
    exact keys_ok.2 ⟨x, s, _, hx, hs, by simpa using addKeysText_ok.2 ⟨f, f1, f2, j, j', h1, h2, h3, rfl⟩, hd⟩

/-- When `rops keys remove` succeeds. -/
theorem run_removeKeys_ok {P : Proc} {a : KeyArgs} {i : Nat} {es : List Event} :
    P.run (.removeKeys a) i = (es, .ok ()) ↔ (∃ config, P.retrieveConfig none = .ok config) ∧
    ∃ (x : Fmt) (s : Str) (f : EncFile x.doc.F) (g g1 g2 : DecFile x.doc.F) (j j' j'' : Nat) (f' : EncFile x.doc.F),
      getFormat (some a.file) a.format = .ok x ∧
      InputText P (some a.file) s ∧ EncFile.ofText (P.T x) P.O P.env.C s = some f ∧ f.decrypt x.doc.F P.env = .ok g ∧
      g.removeKeys P.env .age a.keys.age i = .ok (g1, j) ∧ g1.removeKeys P.env .kms a.keys.kms j = .ok (g2, j') ∧
      g2.encrypt x.doc.F P.env j' = .ok (f', j'') ∧
      Delivered P true (some a.file) (EncFile.toText (P.T x) P.env.C f') es := by
  unfold Proc.run
  simp only [Command.accepted, if_true, Command.configPath]
  constructor
  · intro h
    split at h
    · cases h
    · rename_i config hc
      obtain ⟨x, s, out, hx, hs, ho, hd⟩ := keys_ok.1 h
      obtain ⟨f, g, g1, g2, j, j', j'', f', h1, h2, h3, h4, h5, rfl⟩ := removeKeysText_ok.1 (by simpa using ho)
      exact ⟨⟨config, hc⟩, x, s, f, g, g1, g2, j, j', j'', f', hx, hs, h1, h2, h3, h4, h5, hd⟩
  · rintro ⟨⟨config, hc⟩, x, s, f, g, g1, g2, j, j', j'', f', hx, hs, h1, h2, h3, h4, h5, hd⟩
    simp only [hc]
    exact keys_ok.2 ⟨x, s, _, hx, hs, by
      simpa using removeKeysText_ok.2 ⟨f, g, g1, g2, j, j', j'', f', h1, h2, h3, h4, h5, rfl⟩, hd⟩

/-! ## Removing several keys -/

/-- What several removals do to the keys of a file. -/
theorem removeKeys_ok {env : Env} (he : EnvLaws env) {O : DocOps} {F : Format} {k : Kind} {ids : List k.Id} {g g' : DecFile F} {i j : Nat}
    (h : g.removeKeys env k ids i = .ok (g', j)) {key : Bytes} (hkey : key.length = dataKeySize)
    (hw : AllWrap env.A env.K g.metadata.integration key) (hn : ∀ k, (keyIds g.metadata.integration k).Nodup)
    (hu : UnitsOk O g.metadata.integration) :
    g'.map = g.map ∧ g'.metadata = { g.metadata with integration := g'.metadata.integration } ∧ i ≤ j ∧
    (∃ key', key'.length = dataKeySize ∧ AllWrap env.A env.K g'.metadata.integration key' ∧
      ((key' = key ∧ j = i ∧ g' = g) ∨ ∃ n, i ≤ n ∧ n < j ∧ key' = env.newKey n)) ∧
    (∀ k', (keyIds g'.metadata.integration k').Nodup) ∧
    keyIds g'.metadata.integration k = (keyIds g.metadata.integration k).filter (fun id => decide (id ∉ ids)) ∧
    (∀ k', k' ≠ k → keyIds g'.metadata.integration k' = keyIds g.metadata.integration k') ∧
    UnitsOk O g'.metadata.integration := by
  induction ids generalizing g i key with
  | nil =>
    unfold DecFile.removeKeys at h
    cases h
    exact ⟨rfl, rfl, Nat.le_refl _, ⟨key, hkey, hw, .inl ⟨rfl, rfl, rfl⟩⟩, hn,
      (List.filter_eq_self.2 fun _ _ => by simp).symm, fun _ _ => rfl, hu⟩
  | cons id r ih =>
    unfold DecFile.removeKeys at h
    split at h
    · cases h
    · rename_i o g1 i1 h1
      unfold DecFile.removeKey at h1
      cases hx : env.removeKey k id g.metadata.integration i with
      | mk res p =>
        obtain ⟨im, i2⟩ := p
        rw [hx] at h1
        simp only [Prod.mk.injEq] at h1
        obtain ⟨rfl, rfl, rfl⟩ := h1
        have hu1 := unitsOk_removeKey hu hx
        cases o with
        | none =>
          obtain ⟨hid, rfl, rfl⟩ := removeKey_none hx
          obtain ⟨a1, a2, a3, ⟨key', b1, b2, b3⟩, a4, a5, a6, a7⟩ := ih h hkey hw hn hu
          refine ⟨a1, a2, a3, ⟨key', b1, b2, b3⟩, a4, ?_, a6, a7⟩
          rw [a5]
          refine List.filter_congr fun y hy => ?_
          have : y ≠ id := fun e => hid (e ▸ hy)
          simp [this]
        | some u =>
          obtain ⟨_, _, h3, h4, h5, h6⟩ := removeKey_some hx
          have hn1 : ∀ k', (keyIds im k').Nodup := by
            intro k'
            by_cases hk : k' = k
            · subst hk; rw [h3]; exact (hn k').erase id
            · rw [h4 k' hk]; exact hn k'
          obtain ⟨a1, a2, a3, ⟨key', b1, b2, b3⟩, a4, a5, a6, a7⟩ := ih h (he.key_length i) h5 hn1 hu1
          refine ⟨a1, ?_, by omega, ⟨key', b1, b2, ?_⟩, a4, ?_, fun k' hk' => ?_, a7⟩
          · rw [a2]
          · rcases b3 with ⟨rfl, b3, rfl⟩ | ⟨n, hn1, hn2, rfl⟩
            · exact .inr ⟨i, Nat.le_refl _, by omega, rfl⟩
            · exact .inr ⟨n, by omega, hn2, rfl⟩
          · rw [a5]
            show List.filter _ (keyIds im k) = _
            rw [h3, (hn k).erase_eq_filter, List.filter_filter]
            refine List.filter_congr fun y _ => ?_
            by_cases hy : y = id <;> simp [hy]
          · rw [a6 k' hk']
            exact h4 k' hk'

/-! ## Files that are read as they were written -/

theorem valuesFirst_of_shape {α β : Type} :
    (∀ t : Tree α, ∀ t' : Tree β, shape t = shape t' → ValuesFirst t → ValuesFirst t') ∧
    (∀ l : List (Tree α), ∀ l' : List (Tree β), shapeSeq l = shapeSeq l' → ValuesFirstSeq l → ValuesFirstSeq l') ∧
    (∀ m : RMap α, ∀ m' : RMap β, shapeMap m = shapeMap m' → ValuesFirstMap m → ValuesFirstMap m') := by
  apply Tree.induct
  · intro l ih t' h hv
    cases t' <;> simp only [shape, reduceCtorEq, Tree.seq.injEq] at h
    unfold ValuesFirst at hv ⊢
    rw [← isSection_seq h]
    exact fun hs => ih _ h (hv hs)
  · intro m ih t' h hv
    cases t' <;> simp only [shape, reduceCtorEq, Tree.map.injEq] at h
    unfold ValuesFirst at hv ⊢
    exact ih _ h hv
  · intro t' h _
    cases t' <;> simp only [shape, reduceCtorEq] at h
    unfold ValuesFirst; trivial
  · intro a t' h _
    cases t' <;> simp only [shape, reduceCtorEq] at h
    unfold ValuesFirst; trivial
  · intro l' h _
    cases l' with
    | nil => unfold ValuesFirstSeq; trivial
    | cons y r => simp [shapeSeq] at h
  · intro t r h1 h2 l' h hv
    cases l' with
    | nil => simp [shapeSeq] at h
    | cons y r' =>
      simp only [shapeSeq, List.cons.injEq] at h
      unfold ValuesFirstSeq at hv ⊢
      exact ⟨h1 _ h.1 hv.1, h2 _ h.2 hv.2⟩
  · intro m' h _
    cases m' with
    | nil => unfold ValuesFirstMap; trivial
    | cons y r => simp [shapeMap] at h
  · intro k t r h1 h2 m' h hv
    cases m' with
    | nil => simp [shapeMap] at h
    | cons y r' =>
      obtain ⟨k', t'⟩ := y
      simp only [shapeMap, List.cons.injEq, Prod.mk.injEq] at h
      obtain ⟨⟨_, h3⟩, h4⟩ := h
      unfold ValuesFirstMap at hv ⊢
      refine ⟨fun hs => ?_, h1 _ h3 hv.2.1, h2 _ h4 hv.2.2⟩
      have hr := hv.1 (by rw [isSection_of_shape h3]; exact hs)
      clear h1 h2 hv hs h3
      induction r generalizing r' with
      | nil => cases r' with
        | nil => intro e he; cases he
        | cons y r => simp [shapeMap] at h4
      | cons z r ih => cases r' with
        | nil => simp [shapeMap] at h4
        | cons z' r' =>
          obtain ⟨kz, tz⟩ := z
          obtain ⟨kz', tz'⟩ := z'
          simp only [shapeMap, List.cons.injEq, Prod.mk.injEq] at h4
          intro e he
          rcases List.mem_cons.1 he with rfl | he
          · show isSection tz' = true
            rw [← isSection_of_shape h4.1.2]
            exact hr (kz, tz) (by simp)
          · exact ih _ h4.2 (fun e he => hr e (by simp [he])) e he

theorem Spec.Sealed.standsFor {C : Cipher} {rx : RegexMatch} {key : Bytes} {cfg : Option PartialEncryption}
    {m : RMap Value} {m' : RMap EncLeaf} (h : Sealed C rx key cfg m m') : StandsFor m m' :=
  by
  obtain ⟨h1, h2⟩ := h
  refine ⟨h1, ?_⟩
  clear h1
  revert h2
  generalize leaves m = vs
  generalize leaves m' = ls
  intro h2
  induction h2 with
  | nil => exact .nil
  | cons h _ ih => exact .cons ⟨h.1, h.2.imp (fun h => h.2) (fun ⟨_, e, h, _⟩ => ⟨e, h⟩)⟩ ih

theorem standsFor_of_encrypt {env : EncEnv} {cfg : Option PartialEncryption} {m : RMap Value} {i j : Nat}
    {m' : RMap EncLeaf} (h : RMap.encrypt env cfg m i = .ok (m', j)) : StandsFor m m' := by
  obtain ⟨h1, h2⟩ := RMap.encrypt_ok_iff.1 h
  refine ⟨h1, ?_⟩
  revert h2
  generalize leaves m = vs
  generalize leaves m' = ls
  intro h2
  clear h h1
  induction vs generalizing ls i with
  | nil => simp only [travList] at h2; cases h2; exact .nil
  | cons x r ih =>
    obtain ⟨p, v⟩ := x
    obtain ⟨l, i1, ls', h3, h4, rfl⟩ := travList_cons_ok.1 h2
    refine .cons ⟨rfl, ?_⟩ (ih _ h4)
    rcases EncEnv.leafAt_ok.1 h3 with ⟨_, rfl, _⟩ | ⟨_, e, rfl, _⟩
    · exact .inl rfl
    · exact .inr ⟨e, rfl⟩

/-- The file is read from the text that was written for it. -/
theorem reread_same {O : DocOps} (hO : DocLaws O) {env : Env} (x : Fmt) {T : TextOps x.doc}
    {f : EncFile x.doc.F} {key : Bytes} {m : RMap Value} {m' : RMap EncLeaf}
    (hh : Holding env (docRep x) f key m m') (hw : EncWritable O env.C f.metadata) (hk : Keepable env.fl x m)
    (hb : ReadBack env.C x T m (EncFile.toText T env.C f)) : EncFile.ofText T O env.C (EncFile.toText T env.C f) = some f := by
  have hT : TextLaws T (fun d => T.parse (T.render d) = some (x.doc.order d)) := ⟨fun _ h => h⟩
  have hok : T.parse (T.render (f.toDoc x.doc env.C)) = some (x.doc.order (f.toDoc x.doc env.C)) :=
    hb f m' hh.sealed.standsFor hh.written rfl
  by_cases hx : x = .toml
  · subst hx
    obtain ⟨hn, hv⟩ := hk.toml rfl
    have hv' : ValuesFirstMap m' := valuesFirst_of_shape.2.2 m m' hh.sealed.1.symm hv
    obtain ⟨f', h1, h2, h3⟩ := C44_toml hO (T := T) hT (f := f) hh.written (by rw [holding_topKeys hh]; exact hn) hw hok
    have hm : tomlReread m' = m' := by
      unfold tomlReread
      rw [filter_ne_self (by have := hk.sops; rw [← holding_topKeys hh] at this; exact this)]
      exact tomlMapOrder_eq hv'
    rw [hm] at h3
    have h4 : Format.toml.encOfInternal env.C m' = some f.map := hh.written
    rw [h4] at h3
    have hf : f' = f := by
      obtain ⟨a, b⟩ := f
      obtain ⟨a', b'⟩ := f'
      cases h2
      cases Option.some.inj h3
      rfl
    exact h1.trans (congrArg some hf)
  · obtain ⟨f', h1, _, h3⟩ := reread hO x hT hh hw hok hk.sops (fun h => absurd h hx)
    rw [h1, h3 hx]

/-! ## The text of a file after commands -/

theorem delivered_files {P : Proc} {path out : Str} {es : List Event} {s' : Str} {b : Bool}
    (hd : Delivered P b (some path) out es) (hb : b = true) (h : filesAfter P.file es path = .data (utf8 s')) : s' = out := by
  rcases hd with ⟨_, p, hp, _, rfl⟩ | ⟨hf, _⟩
  · cases hp
    simp only [filesAfter, List.foldl_cons, List.foldl_nil, effect, Files.put, if_true, Entry.data.injEq] at h
    exact (utf8_injective h).symm
  · rw [hb] at hf; cases hf

/-- What is known of a text all along. -/
structure Good (E : Env) (O : DocOps) (T : (x : Fmt) → TextOps x.doc) (x : Fmt) (s : Str) (f : EncFile x.doc.F) (key : Bytes)
    (m : RMap Value) (m' : RMap EncLeaf) : Prop where
  text : EncFile.ofText (T x) O E.C s = some f
  holds : Holding E (docRep x) f key m m'
  writable : EncWritable O E.C f.metadata
  keepable : Keepable E.fl x m

theorem Good.withHost {E : Env} {O : DocOps} {T : (x : Fmt) → TextOps x.doc} {x : Fmt} {s : Str} {f : EncFile x.doc.F}
    {key : Bytes} {m : RMap Value} {m' : RMap EncLeaf} (h : Good E O T x s f key m m') (host : Host) :
    Good (E.withHost host) O T x s f key m m' := ⟨h.text, h.holds.withHost host, h.writable, h.keepable⟩

theorem Good.ofHost {E : Env} {O : DocOps} {T : (x : Fmt) → TextOps x.doc} {x : Fmt} {s : Str} {f : EncFile x.doc.F}
    {key : Bytes} {m : RMap Value} {m' : RMap EncLeaf} {host : Host} (h : Good (E.withHost host) O T x s f key m m') :
    Good E O T x s f key m m' := ⟨h.text, h.holds.ofHost, h.writable, h.keepable⟩

theorem input_of_found {P : Proc} {path s s1 : Str} (hf : P.file path = .data (utf8 s)) (h : InputText P (some path) s1) : s1 = s := by
  rcases h with ⟨p, b, hp, _, hb, hu⟩ | ⟨_, h, _⟩
  · cases hp
    rw [hf] at hb
    cases hb
    rw [utf8?_utf8] at hu
    exact (Option.some.inj hu).symm
  · cases h

theorem Good.written {P : Proc} (hO : DocLaws P.O) {x : Fmt} {f : EncFile x.doc.F} {key : Bytes} {m : RMap Value}
    {m' : RMap EncLeaf} (hh : Holding P.env (docRep x) f key m m') (hw : EncWritable P.O P.env.C f.metadata)
    (hk : Keepable P.env.fl x m) (hb : ReadBack P.env.C x (P.T x) m (EncFile.toText (P.T x) P.env.C f)) :
    Good P.env P.O P.T x (EncFile.toText (P.T x) P.env.C f) f key m m' :=
  ⟨reread_same hO x hh hw hk hb, hh, hw, hk⟩

theorem ruleFor_mem {rx : RegexMatch} {config : Config} {file : Option Str} {r : CreationRule}
    (h : ruleFor rx config file = some r) : r ∈ config := by
  unfold ruleFor at h
  exact List.mem_of_find?_eq_some h

/-- `rops encrypt` in place. -/
theorem good_encrypted {P : Proc} (he : EnvLaws P.env) (hc : ∀ i, Calendar (P.env.clock i)) (hO : DocLaws P.O)
    {x : Fmt} {path : Str} {l : EncryptLine} {i : Nat} {s s' : Str}
    (hr : Ran P.env P.O P.T x path P (.encrypt l) i s s') {map : x.doc.F.Map} {m : RMap Value}
    (hp : (P.T x).parse s = some map) (hm : x.doc.F.toInternal map = .ok m) (hk : Keepable P.env.fl x m)
    (hb : ReadBack P.env.C x (P.T x) m s') : ∃ (config : Config) (f : EncFile x.doc.F) (m' : RMap EncLeaf),
      P.retrieveConfig l.input.config = .ok config ∧ Good P.env P.O P.T x s' f (P.env.newKey i) m m' ∧
      keyIds f.metadata.integration .age =
        addIds [] (l.keys.age ++ (ruleKeys (ruleFor P.env.rx config (some path))).age) ∧
      keyIds f.metadata.integration .kms =
        addIds [] (l.keys.kms ++ (ruleKeys (ruleFor P.env.rx config (some path))).kms) := by
  obtain ⟨es, h, ha⟩ := hr.run
  have ht := hr.target
  unfold target at ht
  simp only at ht
  split at ht
  · rename_i hin
    have hx := hr.format
    obtain ⟨_, _, config, x', s1, map', f, j, hcf, hx', hs, hp', hf, hd⟩ := run_encrypt_ok.1 h
    rw [ht] at hx' hs hf hd
    rw [show givenFormat (.encrypt l) = l.input.format from rfl, hx'] at hx
    cases hx
    cases input_of_found hr.found hs
    rw [hp] at hp'
    cases hp'
    cases delivered_files hd hin ha
    have hcw := hr.config config hcf
    have hkeys : KeysWritable P.O (ruleKeys (ruleFor P.env.rx config (some path))) := by
      cases hrule : ruleFor P.env.rx config (some path) with
      | none => exact ⟨fun _ h => (nomatch h), fun _ h => (nomatch h)⟩
      | some r => exact (hcw r (ruleFor_mem hrule)).1
    have hset : ∀ p, l.setting.or ((ruleFor P.env.rx config (some path)).bind CreationRule.partialEncryption) = some p →
        p.ok P.O = true := by
      intro p hp
      rcases Option.or_eq_some_iff.1 hp with h1 | ⟨_, h1⟩
      · exact hr.setting p h1
      · cases hrule : ruleFor P.env.rx config (some path) with
        | none => rw [hrule] at h1; cases h1
        | some r => rw [hrule] at h1; exact (hcw r (ruleFor_mem hrule)).2 p h1
    obtain ⟨m', _, _, hh, _⟩ := holding_of_builder he (docRep_lawful x) hm (hk.fits _) hf
    have hw := C43_created he hc (docRep_lawful x) hm (hk.fits _)
      (fun id hid => (List.mem_append.1 hid).elim (hr.keys.1 id) (hkeys.1 id))
      (fun id hid => (List.mem_append.1 hid).elim (hr.keys.2 id) (hkeys.2 id)) hset hf
    obtain ⟨_, _, _, im, _, _, _, h3, _, _, h6⟩ := Builder.encrypt_ok hf
    obtain ⟨_, _, k1, k2, _⟩ := intoMetadata_ok h3
    refine ⟨config, f, m', hcf, .written hO hh hw hk hb, ?_, ?_⟩
    · rw [h6]; exact k1
    · rw [h6]; exact k2
  · cases ht

/-- `rops keys add`. -/
theorem good_keysAdded {P : Proc} (he : EnvLaws P.env) (hc : ∀ i, Calendar (P.env.clock i)) (hO : DocLaws P.O)
    {x : Fmt} {path : Str} {a : KeyArgs} {i : Nat} {s s' : Str} (hr : Ran P.env P.O P.T x path P (.addKeys a) i s s')
    {f : EncFile x.doc.F} {key : Bytes} {m : RMap Value} {m' : RMap EncLeaf} (hg : Good P.env P.O P.T x s f key m m')
    (hb : ReadBack P.env.C x (P.T x) m s') : ∃ f' : EncFile x.doc.F, Good P.env P.O P.T x s' f' key m m' ∧
      keyIds f'.metadata.integration .age = addIds (keyIds f.metadata.integration .age) a.keys.age ∧
      keyIds f'.metadata.integration .kms = addIds (keyIds f.metadata.integration .kms) a.keys.kms := by
  obtain ⟨es, h, ha⟩ := hr.run
  have ht : a.file = path := Option.some.inj hr.target
  have hx := hr.format
  obtain ⟨_, x', s1, f0, f1, f2, j, j', hx', hs, hf, h1, h2, hd⟩ := run_addKeys_ok.1 h
  rw [ht] at hx' hs hd
  rw [show givenFormat (.addKeys a) = a.format from rfl, hx'] at hx
  cases hx
  cases input_of_found hr.found hs
  rw [hg.text] at hf
  cases hf
  cases delivered_files hd rfl ha
  obtain ⟨hh1, _⟩ := holding_addKeys he hg.holds h1
  have hw1 := C43_added_keys he hc hg.holds hg.writable hr.keys.1 h1
  obtain ⟨hh2, _⟩ := holding_addKeys he hh1 h2
  have hw2 := C43_added_keys he hc hh1 hw1 hr.keys.2 h2
  have e1 := C21_add_keys he f f1 hg.holds.key_length hg.holds.units hg.holds.ids .age _ _ _ h1
  have e2 := C21_add_keys he f1 f2 hh1.key_length hh1.units hh1.ids .kms _ _ _ h2
  refine ⟨f2, .written hO hh2 hw2 hg.keepable hb, ?_, ?_⟩
  · rw [← e1.2.2.1]
    unfold keyIds
    rw [e2.2.2.2.2.2.1 .age (by simp)]
  · rw [e2.2.2.1]
    unfold keyIds
    rw [e1.2.2.2.2.2.1 .kms (by simp)]

/-- `rops keys remove`. -/
theorem good_keysRemoved {P : Proc} (he : EnvLaws P.env) (hO : DocLaws P.O)
    {x : Fmt} {path : Str} {a : KeyArgs} {i : Nat} {s s' : Str} (hr : Ran P.env P.O P.T x path P (.removeKeys a) i s s')
    {f : EncFile x.doc.F} {key : Bytes} {m : RMap Value} {m' : RMap EncLeaf} (hg : Good P.env P.O P.T x s f key m m')
    (hb : ReadBack P.env.C x (P.T x) m s') : ∃ (f' : EncFile x.doc.F) (key' : Bytes) (m'' : RMap EncLeaf),
      Good P.env P.O P.T x s' f' key' m m'' ∧
      keyIds f'.metadata.integration .age = (keyIds f.metadata.integration .age).filter (fun id => decide (id ∉ a.keys.age)) ∧
      keyIds f'.metadata.integration .kms = (keyIds f.metadata.integration .kms).filter (fun id => decide (id ∉ a.keys.kms)) ∧
      (key' = key ∧ f'.metadata.integration = f.metadata.integration ∨ ∃ n, i ≤ n ∧ key' = P.env.newKey n) ∧
      f'.metadata.lastModified = f.metadata.lastModified := by
  obtain ⟨es, h, ha⟩ := hr.run
  have ht : a.file = path := Option.some.inj hr.target
  have hx := hr.format
  obtain ⟨_, x', s1, f0, g, g1, g2, j, j', j'', f', hx', hs, hf, h1, h2, h3, h4, hd⟩ := run_removeKeys_ok.1 h
  rw [ht] at hx' hs hd
  rw [show givenFormat (.removeKeys a) = a.format from rfl, hx'] at hx
  cases hx
  cases input_of_found hr.found hs
  rw [hg.text] at hf
  cases hf
  cases delivered_files hd rfl ha
  obtain ⟨_, hpl, hmd⟩ := of_decrypt_holding he (docRep_lawful x) hg.holds hg.holds.fits.holds h1
  have ei : g.metadata.integration = f.metadata.integration := by rw [hmd]; rfl
  obtain ⟨a1, a2, a3, ⟨k1, b1, b2, b3⟩, a4, a5, a6, a7⟩ := removeKeys_ok he (O := P.O) h2 hg.holds.key_length
    (by rw [ei]; exact hg.holds.units) (by rw [ei]; exact hg.holds.ids) (by rw [ei]; exact hg.writable.unitsOk)
  obtain ⟨c1, c2, c3, ⟨k2, d1, d2, d3⟩, c4, c5, c6, c7⟩ := removeKeys_ok he h3 b1 b2 a4 a7
  have emd : g2.metadata = { g.metadata with integration := g2.metadata.integration } := by rw [c2, a2]
  have emap : g2.map = g.map := c1.trans a1
  have ep : g2.metadata.partialEncryption = g.metadata.partialEncryption := by rw [emd]
  have hpl2 : Plaintext P.env g2 m := by
    refine ⟨by rw [emap]; exact hpl.read, ?_⟩
    rw [emd]
    exact hpl.mac
  unfold DecFile.encrypt at h4
  split at h4
  · cases h4
  · rename_i d hd'
    cases retrieve_of_allWrap he d1 d2 hd'
    obtain ⟨m'', _, hh, hmd', _⟩ := holding_of_encryptWith he (docRep_lawful x) hpl2 (hg.keepable.fits _) d1 d2 c4
      (sm := none) (sc := none) (fun t ht => nomatch ht) (fun s hs => nomatch hs) h4
    have hw : EncWritable P.O P.env.C f'.metadata := by
      refine encWritable_of he hh ?_ ?_ ?_
      · rw [hmd']; exact c7
      · rw [hmd']
        show Calendar g2.metadata.lastModified
        rw [emd, hmd]; exact hg.writable.modified
      · rw [hmd']
        show ∀ p, g2.metadata.partialEncryption = some p → _
        rw [emd, hmd]; exact hg.writable.setting
    have ei' : f'.metadata.integration = g2.metadata.integration := by rw [hmd']; rfl
    refine ⟨f', k2, m'', .written hO hh hw hg.keepable hb, ?_, ?_, ?_, ?_⟩
    · rw [ei', c6 .age (by simp), a5, ei]
      exact List.filter_congr fun y _ => decide_eq_decide.2 Iff.rfl
    · rw [ei', c5, a6 .kms (by simp), ei]
    · rcases d3 with ⟨rfl, _, rfl⟩ | ⟨n, hn, _, rfl⟩
      · rcases b3 with ⟨rfl, _, rfl⟩ | ⟨n, hn, _, rfl⟩
        · exact .inl ⟨rfl, ei'.trans ei⟩
        · exact .inr ⟨n, hn, rfl⟩
      · exact .inr ⟨n, by omega, rfl⟩
    · rw [hmd']
      show g2.metadata.lastModified = _
      rw [emd, hmd]; rfl

/-- `rops refresh` in place. -/
theorem good_refreshed {P : Proc} (he : EnvLaws P.env) (hc : ∀ i, Calendar (P.env.clock i)) (hO : DocLaws P.O)
    {x : Fmt} {path : Str} {l : PlaceLine} {i : Nat} {s s' : Str} (hr : Ran P.env P.O P.T x path P (.refresh l) i s s')
    {f : EncFile x.doc.F} {key : Bytes} {m : RMap Value} {m' : RMap EncLeaf} (hg : Good P.env P.O P.T x s f key m m')
    (hb : ReadBack P.env.C x (P.T x) m s') : ∃ (f' : EncFile x.doc.F) (key' : Bytes) (m'' : RMap EncLeaf),
      Good P.env P.O P.T x s' f' key' m m'' := by
  obtain ⟨es, h, ha⟩ := hr.run
  have ht := hr.target
  unfold target at ht
  simp only at ht
  split at ht
  · rename_i hin
    have hx := hr.format
    obtain ⟨_, config, x', s1, f0, out, hcf, hx', hs, hf, ho, hd⟩ := run_refresh_ok.1 h
    rw [ht] at hx' hs hd
    rw [show givenFormat (.refresh l) = l.input.format from rfl, hx'] at hx
    cases hx
    cases input_of_found hr.found hs
    rw [hg.text] at hf
    cases hf
    cases delivered_files hd hin ha
    rcases refreshWith_ok.1 ho with ⟨_, rfl⟩ | ⟨r, hrule, _, g, f1, j, h1, h2, rfl⟩
    · exact ⟨f, key, m', hg⟩
    · obtain ⟨_, hpl, _⟩ := of_decrypt_holding he (docRep_lawful x) hg.holds hg.holds.fits.holds h1
      obtain ⟨m'', _, _, hh, _⟩ := holding_of_builder he (docRep_lawful x) hpl.read (hg.keepable.fits _) h2
      have hcw := hr.config config hcf r (ruleFor_mem hrule)
      have hw := C43_created he hc (docRep_lawful x) hpl.read (hg.keepable.fits _) hcw.1.1 hcw.1.2 hcw.2 h2
      exact ⟨f1, _, m'', .written hO hh hw hg.keepable hb⟩
  · cases ht

/-- The effects of `rops edit` on the file. -/
theorem edit_files {P : Proc} {x : Fmt} {map : x.doc.F.Map} {es1 : List Event} {r : Option x.doc.F.Map}
    (h : P.editSession x map = (es1, .ok r)) (hf : FreshTemp P) : filesAfter P.file es1 = P.file := by
  rcases editSession_shape h with ⟨hb, _⟩ | ⟨_, he⟩
  · exact hb.files hf
  · cases he

theorem edit_target {P : Proc} {a : InputArgs} {path : Str} (h : target P (.edit a) = some path) :
    a.file = some path ∧ P.stdin = .terminal := by
  unfold target at h
  simp only at h
  split at h
  · rename_i hs; exact ⟨h, hs⟩
  · cases h

/-- A cancelled `rops edit`. -/
theorem same_cancelled {P : Proc} {x : Fmt} {path : Str} {a : InputArgs} {i : Nat} {s s' : Str}
    (hr : Ran P.env P.O P.T x path P (.edit a) i s s') (hcan : Cancelled (P.T x).parse P.editor) : s' = s := by
  obtain ⟨es, h, ha⟩ := hr.run
  obtain ⟨ht, _⟩ := edit_target hr.target
  have hx := hr.format
  obtain ⟨_, x', s1, f0, g, p, hx', hs, hf, hd, hses⟩ := run_edit_ok.1 h
  rw [ht] at hx' hs
  rw [show givenFormat (.edit a) = a.format from rfl, hx'] at hx
  cases hx
  rcases hses with hses | ⟨mm, out, es1, es2, hses, _⟩
  · rw [edit_files hses hr.temp, hr.found] at ha
    exact (utf8_injective (Entry.data.inj ha)).symm
  · exfalso
    rcases editSession_snd (map := g.map) (fun t => editLoop_cancelled (t := t) hcan) with he | ⟨e, he, _⟩
    · rw [hses] at he; simp at he
    · rw [hses] at he; simp at he

/-- `rops edit`. -/
theorem good_edited {P : Proc} (he : EnvLaws P.env) (hc : ∀ i, Calendar (P.env.clock i)) (hO : DocLaws P.O)
    {x : Fmt} {path : Str} {a : InputArgs} {i : Nat} {s s' : Str} (hr : Ran P.env P.O P.T x path P (.edit a) i s s')
    {f : EncFile x.doc.F} {key : Bytes} {m : RMap Value} {m' : RMap EncLeaf} (hg : Good P.env P.O P.T x s f key m m')
    {other : x.doc.F.Map} {m1 : RMap Value} (hed : Edited (P.T x).parse other P.editor)
    (ho : x.doc.F.toInternal other = .ok m1) (hk : Keepable P.env.fl x m1)
    (hb : ReadBack P.env.C x (P.T x) m1 s') : ∃ (f' : EncFile x.doc.F) (m'' : RMap EncLeaf),
      Good P.env P.O P.T x s' f' key m1 m'' ∧ f'.metadata.integration = f.metadata.integration := by
  obtain ⟨es, h, ha⟩ := hr.run
  obtain ⟨ht, hterm⟩ := edit_target hr.target
  have hx := hr.format
  obtain ⟨_, x', s1, f0, g, p, hx', hs, hf, h1, hses⟩ := run_edit_ok.1 h
  rw [ht] at hx' hs
  rw [show givenFormat (.edit a) = a.format from rfl, hx'] at hx
  cases hx
  cases input_of_found hr.found hs
  rw [hg.text] at hf
  cases hf
  have hsnd := editSession_snd (map := g.map) (fun t => editLoop_edited (t := t) hed)
  rcases hses with hses | ⟨mm, out, es1, es2, hses, hout, rfl, hd⟩
  · exfalso
    rcases hsnd with he | ⟨e, he, _⟩
    · rw [hses] at he; simp at he
    · rw [hses] at he; simp at he
  · have hmm : mm = other := by
      rcases hsnd with he | ⟨e, he, _⟩
      · rw [hses] at he; simpa using he
      · rw [hses] at he; simp at he
    subst hmm
    rw [ht, hterm] at hd
    rw [filesAfter_append, edit_files hses hr.temp] at ha
    cases delivered_files hd rfl ha
    obtain ⟨_, hpl, hmd, rfl⟩ := of_decryptAndSave_holding he (docRep_lawful x) hg.holds hg.holds.fits.holds h1
    unfold Proc.editedText at hout
    split at hout
    · cases hout
    · rename_i g' hset
      split at hout
      · cases hout
      · rename_i f' j hf'
        cases hout
        obtain ⟨hpl', e1, e2, _⟩ := setMap_ok he (docRep_lawful x) ho (hk.fits none).holds hset
        have ei : g'.metadata.integration = f.metadata.integration := by rw [e1, hmd]; rfl
        have ep : g'.metadata.partialEncryption = f.metadata.partialEncryption := by rw [e2, hmd]; rfl
        unfold DecFile.encryptSaved at hf'
        obtain ⟨m'', _, hh, hmd', _⟩ := holding_of_encryptWith he (docRep_lawful x) hpl' (hk.fits _) hg.holds.key_length
          (by rw [ei]; exact hg.holds.units) (by rw [ei]; exact hg.holds.ids) (sealed_saved_sized hg.holds.sealed)
          (fun s hs => by cases hs; exact hg.holds.mac_sized.nonce_length) hf'
        have hlm : Calendar g'.metadata.lastModified := by
          obtain ⟨y, h2, _⟩ := (docRep_lawful x).round_trip m1 (hk.fits none).holds
          unfold DecFile.setMap at hset
          simp only [ho, h2, Except.ok.injEq] at hset
          subst hset
          show Calendar (if _ then _ else _)
          split
          · exact (hc i).truncate
          · rw [hmd]; exact hg.writable.modified
        have hw : EncWritable P.O P.env.C f'.metadata := by
          refine encWritable_of he hh ?_ ?_ ?_
          · rw [hmd']
            show UnitsOk _ g'.metadata.integration
            rw [ei]; exact hg.writable.unitsOk
          · rw [hmd']; exact hlm
          · rw [hmd']
            show ∀ p, g'.metadata.partialEncryption = some p → _
            rw [ep]; exact hg.writable.setting
        refine ⟨f', m'', .written hO hh hw hk hb, ?_⟩
        rw [hmd']; exact ei

/-- A step of a process of the same program. -/
theorem Spec.Ran.own {E : Env} {O : DocOps} {T : (x : Fmt) → TextOps x.doc} {x : Fmt} {path : Str} {P : Proc} {c : Command}
    {i : Nat} {s s' : Str} (h : Ran E O T x path P c i s s') : Ran P.env P.O P.T x path P c i s s' := by
  obtain ⟨h1, h2, h3, h4, h5, h6, h7, h8, h9⟩ := h
  obtain ⟨⟨host, hE⟩, hO, hT⟩ := h1
  subst hO hT
  exact ⟨⟨⟨P.env.host, by rw [hE]; rfl⟩, rfl, rfl⟩, h2, h3, h4, h5, h6, h7, h8, h9⟩

/-- A text with a history is good. -/
theorem Spec.Kept.good {E : Env} (he : EnvLaws E) (hc : ∀ i, Calendar (E.clock i)) {O : DocOps} (hO : DocLaws O)
    {T : (x : Fmt) → TextOps x.doc} {x : Fmt} {path : Str} {s : Str} {m : RMap Value} (h : Kept E O T x path s m) :
    ∃ (f : EncFile x.doc.F) (key : Bytes) (m' : RMap EncLeaf), Good E O T x s f key m m' := by
  have hP : ∀ {P : Proc}, SameProgram E O T P → EnvLaws P.env ∧ (∀ i, Calendar (P.env.clock i)) ∧ DocLaws P.O ∧
      P.env.fl = E.fl ∧ (P.T = T ∧ ∀ {m s}, ReadBack E.C x (T x) m s → ReadBack P.env.C x (P.T x) m s) ∧
      ∀ {s f key m m'}, Good E O T x s f key m m' ↔ Good P.env P.O P.T x s f key m m' := by
    rintro P ⟨⟨host, hE⟩, rfl, rfl⟩
    rw [hE]
    exact ⟨he.withHost host, hc, hO, rfl, ⟨rfl, fun h => h⟩, fun h => h.withHost host, fun h => h.ofHost⟩
  induction h with
  | encrypted hr hp hm hk hb =>
    obtain ⟨h1, h2, h3, h4, ⟨h5, h7⟩, h6⟩ := hP hr.program
    rw [← h5] at hp
    rw [← h4] at hk
    obtain ⟨_, f, m', _, hg, _⟩ := good_encrypted h1 h2 h3 hr.own hp hm hk (h7 hb)
    exact ⟨f, _, m', h6.2 hg⟩
  | keysAdded _ hr hb ih =>
    obtain ⟨f, key, m', hg⟩ := ih
    obtain ⟨h1, h2, h3, _, ⟨h5, h7⟩, h6⟩ := hP hr.program
    obtain ⟨f', hg', _⟩ := good_keysAdded h1 h2 h3 hr.own (h6.1 hg) (h7 hb)
    exact ⟨f', key, m', h6.2 hg'⟩
  | keysRemoved _ hr hb ih =>
    obtain ⟨f, key, m', hg⟩ := ih
    obtain ⟨h1, _, h3, _, ⟨h5, h7⟩, h6⟩ := hP hr.program
    obtain ⟨f', key', m'', hg', _⟩ := good_keysRemoved h1 h3 hr.own (h6.1 hg) (h7 hb)
    exact ⟨f', key', m'', h6.2 hg'⟩
  | refreshed _ hr hb ih =>
    obtain ⟨f, key, m', hg⟩ := ih
    obtain ⟨h1, h2, h3, _, ⟨h5, h7⟩, h6⟩ := hP hr.program
    obtain ⟨f', key', m'', hg'⟩ := good_refreshed h1 h2 h3 hr.own (h6.1 hg) (h7 hb)
    exact ⟨f', key', m'', h6.2 hg'⟩
  | cancelled _ hr hcan ih =>
    obtain ⟨_, _, _, _, ⟨h5, _⟩, _⟩ := hP hr.program
    rw [← h5] at hcan
    rw [same_cancelled hr.own hcan]
    exact ih
  | edited _ hr hed ho hk hb ih =>
    obtain ⟨f, key, m', hg⟩ := ih
    obtain ⟨h1, h2, h3, h4, ⟨h5, h7⟩, h6⟩ := hP hr.program
    rw [← h5] at hed
    rw [← h4] at hk
    obtain ⟨f', m'', hg', _⟩ := good_edited h1 h2 h3 hr.own (h6.1 hg) hed ho hk (h7 hb)
    exact ⟨f', key, m'', h6.2 hg'⟩

end Rops
