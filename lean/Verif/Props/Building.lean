import Verif.Lemmas.CliRuns
import Verif.Lemmas.Records
import Verif.Lemmas.ToyCli
import Verif.Spec.Records
/-!
# C68: what a program that uses the library gets from a builder
-/

namespace Rops.Spec

/-- A call of a method of `RopsFileBuilder` (builder/core.rs:32-52). -/
inductive BuildStep where
  | partially (p : PartialEncryption)
  | macOnly
  | key (k : Kind) (id : k.Id)
  | keys (k : Kind) (ids : List k.Id)

/-- The calls, one on the result of the other. -/
def BuildStep.calls {F : Format} (steps : List BuildStep) (b : Builder F) : Builder F :=
  steps.foldl (fun b s => match s with
    | .partially p => b.withPartialEncryption p
    | .macOnly => b.setMacOnlyEncrypted
    | .key k id => b.addKey k id
    | .keys k ids => b.addKeys k ids) b

/-- The setting asked for last. -/
def LastSetting (steps : List BuildStep) : Option PartialEncryption → Prop
  | none => ∀ p, .partially p ∉ steps
  | some p => ∃ a b, steps = a ++ .partially p :: b ∧ ∀ q, .partially q ∉ b

/-- The keys of one kind that are asked for, in order. -/
def BuildStep.ids (k : Kind) : List BuildStep → List k.Id
  | [] => []
  | .key k' id :: r => (if h : k' = k then [h ▸ id] else []) ++ BuildStep.ids k r
  | .keys k' l :: r => (if h : k' = k then h ▸ l else []) ++ BuildStep.ids k r
  | .partially _ :: r => BuildStep.ids k r
  | .macOnly :: r => BuildStep.ids k r

end Rops.Spec

namespace Rops
open Spec

theorem ids_append {k : Kind} (a b : List BuildStep) : BuildStep.ids k (a ++ b) = BuildStep.ids k a ++ BuildStep.ids k b := by
  induction a with
  | nil => rfl
  | cons s r ih => cases s <;> simp [BuildStep.ids, ih]

theorem calls_concat {F : Format} (steps : List BuildStep) (s : BuildStep) (b : Builder F) :
    BuildStep.calls (steps ++ [s]) b = BuildStep.calls [s] (BuildStep.calls steps b) := by
  simp [BuildStep.calls]

theorem reverse_ind {α : Type} {P : List α → Prop} (h0 : P []) (h1 : ∀ l x, P l → P (l ++ [x])) (l : List α) : P l := by
  have : ∀ l : List α, P l.reverse := by
    intro l
    induction l with
    | nil => exact h0
    | cons x r ih => rw [List.reverse_cons]; exact h1 _ _ ih
  have h := this l.reverse
  rwa [List.reverse_reverse] at h

theorem calls_map {F : Format} (steps : List BuildStep) (m : F.Map) : (BuildStep.calls steps (Builder.fromMap m)).map = m := by
  refine reverse_ind (P := fun l => (BuildStep.calls l (Builder.fromMap m)).map = m) rfl (fun l s ih => ?_) steps
  rw [calls_concat]
  cases s with
  | partially p => exact ih
  | macOnly => exact ih
  | key k id => cases k <;> exact ih
  | keys k ids =>
    cases k
    · show (Builder.addKeys _ .age ids).map = m
      rw [addKeys_age]; exact ih
    · show (Builder.addKeys _ .kms ids).map = m
      rw [addKeys_kms]; exact ih

theorem lastSetting_other {steps : List BuildStep} {s : BuildStep} (hs : ∀ p, s ≠ .partially p) {o : Option PartialEncryption}
    (h : LastSetting steps o) : LastSetting (steps ++ [s]) o := by
  cases o with
  | none =>
    intro p hp
    rcases List.mem_append.1 hp with hp | hp
    · exact h p hp
    · exact hs p (List.mem_singleton.1 hp).symm
  | some p =>
    obtain ⟨a, b, rfl, hb⟩ := h
    refine ⟨a, b ++ [s], by simp, fun q hq => ?_⟩
    rcases List.mem_append.1 hq with hq | hq
    · exact hb q hq
    · exact hs q (List.mem_singleton.1 hq).symm

theorem lastSetting_unique {steps : List BuildStep} {o o' : Option PartialEncryption} (h : LastSetting steps o)
    (h' : LastSetting steps o') : o = o' := by
  have key : ∀ {a b a' b' : List BuildStep} {p p' : PartialEncryption}, a ++ .partially p :: b = a' ++ .partially p' :: b' →
      (∀ q, .partially q ∉ b) → (∀ q, .partially q ∉ b') → p = p' := by
    intro a
    induction a with
    | nil =>
      intro b a' b' p p' he hb hb'
      cases a' with
      | nil => cases he; rfl
      | cons x a' => cases he; exact absurd (by simp) (hb p')
    | cons x a ih =>
      intro b a' b' p p' he hb hb'
      cases a' with
      | nil => cases he; exact absurd (by simp) (hb' p)
      | cons y a' =>
        simp only [List.cons_append, List.cons.injEq] at he
        exact ih he.2 hb hb'
  cases o with
  | none => cases o' with
    | none => rfl
    | some p => obtain ⟨a, b, rfl, _⟩ := h'; exact absurd (by simp) (h p)
  | some p => cases o' with
    | none => obtain ⟨a, b, rfl, _⟩ := h; exact absurd (by simp) (h' p)
    | some p' =>
      obtain ⟨a, b, rfl, hb⟩ := h
      obtain ⟨a', b', he, hb'⟩ := h'
      rw [key he hb hb']

theorem calls_setting {F : Format} (steps : List BuildStep) (m : F.Map) :
    LastSetting steps (BuildStep.calls steps (Builder.fromMap m)).partialEncryption := by
  refine reverse_ind (P := fun l => LastSetting l (BuildStep.calls l (Builder.fromMap m)).partialEncryption)
    (fun p h => by cases h) (fun l s ih => ?_) steps
  rw [calls_concat]
  cases s with
  | partially p => exact ⟨l, [], rfl, fun _ h => by cases h⟩
  | macOnly => exact lastSetting_other (fun _ h => by cases h) ih
  | key k id => cases k <;> exact lastSetting_other (fun _ h => by cases h) ih
  | keys k ids =>
    refine lastSetting_other (fun _ h => by cases h) ?_
    cases k
    · show LastSetting l (Builder.addKeys _ .age ids).partialEncryption
      rw [addKeys_age]; exact ih
    · show LastSetting l (Builder.addKeys _ .kms ids).partialEncryption
      rw [addKeys_kms]; exact ih

theorem calls_macOnly {F : Format} (steps : List BuildStep) (m : F.Map) :
    let o := (BuildStep.calls steps (Builder.fromMap m)).macOnlyEncrypted
    (o = some true ∧ .macOnly ∈ steps) ∨ (o = none ∧ .macOnly ∉ steps) := by
  refine reverse_ind (P := fun l => ((BuildStep.calls l (Builder.fromMap m)).macOnlyEncrypted = some true ∧ .macOnly ∈ l) ∨
    ((BuildStep.calls l (Builder.fromMap m)).macOnlyEncrypted = none ∧ .macOnly ∉ l)) (.inr ⟨rfl, by simp⟩) (fun l s ih => ?_) steps
  rw [calls_concat]
  cases s with
  | partially p =>
    rcases ih with ⟨h1, h2⟩ | ⟨h1, h2⟩
    · exact .inl ⟨h1, List.mem_append_left _ h2⟩
    · exact .inr ⟨h1, by simp [h2]⟩
  | macOnly => exact .inl ⟨rfl, by simp⟩
  | key k id =>
    have h : (BuildStep.calls [.key k id] (BuildStep.calls l (Builder.fromMap m))).macOnlyEncrypted =
        (BuildStep.calls l (Builder.fromMap m)).macOnlyEncrypted := by cases k <;> rfl
    rw [h]
    rcases ih with ⟨h1, h2⟩ | ⟨h1, h2⟩
    · exact .inl ⟨h1, List.mem_append_left _ h2⟩
    · exact .inr ⟨h1, by simp [h2]⟩
  | keys k ids =>
    have h : (BuildStep.calls [.keys k ids] (BuildStep.calls l (Builder.fromMap m))).macOnlyEncrypted =
        (BuildStep.calls l (Builder.fromMap m)).macOnlyEncrypted := by
      cases k
      · show (Builder.addKeys _ .age ids).macOnlyEncrypted = _
        rw [addKeys_age]
      · show (Builder.addKeys _ .kms ids).macOnlyEncrypted = _
        rw [addKeys_kms]
    rw [h]
    rcases ih with ⟨h1, h2⟩ | ⟨h1, h2⟩
    · exact .inl ⟨h1, List.mem_append_left _ h2⟩
    · exact .inr ⟨h1, by simp [h2]⟩

theorem calls_ids {F : Format} (steps : List BuildStep) (m : F.Map) :
    (BuildStep.calls steps (Builder.fromMap m)).ageKeyIds = BuildStep.ids .age steps ∧
    (BuildStep.calls steps (Builder.fromMap m)).kmsKeyIds = BuildStep.ids .kms steps := by
  refine reverse_ind (P := fun l => (BuildStep.calls l (Builder.fromMap m)).ageKeyIds = BuildStep.ids .age l ∧
    (BuildStep.calls l (Builder.fromMap m)).kmsKeyIds = BuildStep.ids .kms l) ⟨rfl, rfl⟩ (fun l s ih => ?_) steps
  rw [calls_concat, ids_append, ids_append, ← ih.1, ← ih.2]
  cases s with
  | partially p => exact ⟨(List.append_nil _).symm, (List.append_nil _).symm⟩
  | macOnly => exact ⟨(List.append_nil _).symm, (List.append_nil _).symm⟩
  | key k id =>
    cases k
    · exact ⟨rfl, (List.append_nil _).symm⟩
    · exact ⟨(List.append_nil _).symm, rfl⟩
  | keys k ids =>
    cases k
    · show (Builder.addKeys _ .age ids).ageKeyIds = _ ∧ (Builder.addKeys _ .age ids).kmsKeyIds = _
      rw [addKeys_age]
      exact ⟨by simp [BuildStep.ids], by simp [BuildStep.ids]⟩
    · show (Builder.addKeys _ .kms ids).ageKeyIds = _ ∧ (Builder.addKeys _ .kms ids).kmsKeyIds = _
      rw [addKeys_kms]
      exact ⟨by simp [BuildStep.ids], by simp [BuildStep.ids]⟩

theorem addIds_firsts {α : Type} [DecidableEq α] (l : List α) : addIds [] l = firsts l := by
  refine reverse_ind (P := fun l => addIds [] l = firsts l) rfl (fun l x ih => ?_) l
  rw [firsts_append_single, ← ih]
  simp only [addIds, List.foldl_append, List.foldl_cons, List.foldl_nil]
  have hm : x ∈ List.foldl (fun acc id => if id ∈ acc then acc else acc ++ [id]) [] l ↔ x ∈ l := by
    have := mem_addIds (old := ([] : List α)) (new := l) (x := x)
    simpa [addIds] using this
  by_cases hx : x ∈ l
  · rw [if_pos (hm.2 hx), if_pos hx]
  · rw [if_neg (fun h => hx (hm.1 h)), if_neg hx]

end Rops

namespace Rops.Props
open Spec

/-! ## C68 -/

/-- **C68.** Whatever the calls of a builder and their order, the file it makes has the setting asked
for last, has `mac_only_encrypted` if this was asked for at all, and its recipients are the keys
asked for, each once, in the order of asking; there is one, and every one gets the data key. -/
theorem C68_file {env : Env} {F : Format} (map : F.Map) (steps : List BuildStep) (i j : Nat) (f : EncFile F)
    (h : (BuildStep.calls steps (Builder.fromMap map)).encrypt env i = .ok (f, j)) :
    LastSetting steps f.metadata.partialEncryption ∧
    (f.metadata.macOnlyEncrypted = some true ∧ .macOnly ∈ steps ∨ f.metadata.macOnlyEncrypted = none ∧ .macOnly ∉ steps) ∧
    (∀ k, keyIds f.metadata.integration k = firsts (BuildStep.ids k steps)) ∧
    (∃ k, BuildStep.ids k steps ≠ []) ∧ AllWrap env.A env.K f.metadata.integration (env.newKey i) := by
  obtain ⟨m, m', i1, im, i2, h1, h2, h3, h4, h5, h6⟩ := Builder.encrypt_ok h
  obtain ⟨hne, hw, ha, hk, _⟩ := intoMetadata_ok h3
  have e1 : f.metadata.integration = im := by rw [h6]
  have e2 : f.metadata.partialEncryption = _ := congrArg Metadata.partialEncryption h6
  have e3 : f.metadata.macOnlyEncrypted = _ := congrArg Metadata.macOnlyEncrypted h6
  rw [e1, e2, e3]
  rw [(calls_ids steps map).1] at ha
  rw [(calls_ids steps map).2] at hk
  rw [(calls_ids steps map).1, (calls_ids steps map).2] at hne
  refine ⟨calls_setting steps map, calls_macOnly steps map, ?_, ?_, hw⟩
  · intro k
    cases k
    · rw [ha, addIds_firsts]
    · rw [hk, addIds_firsts]
  · by_cases hn : BuildStep.ids .age steps = []
    · exact ⟨.kms, fun hb => hne ⟨hn, hb⟩⟩
    · exact ⟨.age, hn⟩

/-- **C68.** Nothing else about the calls matters. -/
theorem C68_order {F : Format} (map : F.Map) (steps steps' : List BuildStep)
    (hp : ∀ o, LastSetting steps o ↔ LastSetting steps' o) (hm : .macOnly ∈ steps ↔ .macOnly ∈ steps')
    (hk : ∀ k, BuildStep.ids k steps = BuildStep.ids k steps') :
    BuildStep.calls steps (Builder.fromMap map) = BuildStep.calls steps' (Builder.fromMap map) := by
  have h1 := calls_map steps map
  have h1' := calls_map steps' map
  have h2 := (hp _).1 (calls_setting steps map)
  have h2' := calls_setting steps' map
  have h3 := calls_macOnly steps map
  have h3' := calls_macOnly steps' map
  have h4 := calls_ids steps map
  have h4' := calls_ids steps' map
  have e2 := lastSetting_unique h2 h2'
  have e3 : (BuildStep.calls steps (Builder.fromMap map)).macOnlyEncrypted =
      (BuildStep.calls steps' (Builder.fromMap map)).macOnlyEncrypted := by
    rcases h3 with ⟨a, b⟩ | ⟨a, b⟩ <;> rcases h3' with ⟨a', b'⟩ | ⟨a', b'⟩
    · rw [a, a']
    · exact absurd (hm.1 b) b'
    · exact absurd (hm.2 b') b
    · rw [a, a']
  have e4 := (h4.1.trans (hk .age)).trans h4'.1.symm
  have e5 := (h4.2.trans (hk .kms)).trans h4'.2.symm
  have e1 := h1.trans h1'.symm
  revert e1 e2 e3 e4 e5
  generalize BuildStep.calls steps (Builder.fromMap map) = x
  generalize BuildStep.calls steps' (Builder.fromMap map) = y
  cases x; cases y
  simp only
  rintro rfl rfl rfl rfl rfl
  rfl

/-- **C68.** A document that cannot be represented is refused first, whatever the calls. -/
theorem C68_format_error_iff {env : Env} {F : Format} (map : F.Map) (steps : List BuildStep) (i : Nat) (e : FormatError) :
    (BuildStep.calls steps (Builder.fromMap map)).encrypt env i = .error (.encrypt (.format e)) ↔
      F.toInternal map = .error e := by
  unfold Builder.encrypt
  simp only
  rw [calls_map]
  cases F.toInternal map with
  | error e' => simp
  | ok m =>
    simp only [reduceCtorEq, iff_false]
    intro h
    split at h
    · rename_i e' he
      cases h
      unfold KeyEnv.intoMetadata at he
      split at he
      · cases he
      · split at he
        · cases he
        · split at he <;> cases he
    · split at h
      · split at h <;> cases h
      · cases h

/-- **C68.** If it can be represented, the error is that keys are missing exactly if none was asked
for; the empty list of keys counts as none. -/
theorem C68_missing_keys_iff {env : Env} {F : Format} (map : F.Map) (steps : List BuildStep) (i : Nat) :
    (BuildStep.calls steps (Builder.fromMap map)).encrypt env i = .error .missingKeys ↔
      (∃ m, F.toInternal map = .ok m) ∧ ∀ k, BuildStep.ids k steps = [] := by
  unfold Builder.encrypt
  simp only
  rw [calls_map, (calls_ids steps map).1, (calls_ids steps map).2]
  have hall : (∀ k, BuildStep.ids k steps = []) ↔ BuildStep.ids .age steps = [] ∧ BuildStep.ids .kms steps = [] :=
    ⟨fun h => ⟨h _, h _⟩, fun h k => match k with | .age => h.1 | .kms => h.2⟩
  rw [hall]
  cases F.toInternal map with
  | error e' => simp
  | ok m =>
    simp only [Except.ok.injEq, exists_eq', true_and]
    constructor
    · intro h
      split at h
      · rename_i e' he
        cases h
        unfold KeyEnv.intoMetadata at he
        split at he
        · rename_i hn
          simpa using hn
        · split at he
          · cases he
          · split at he <;> cases he
      · split at h
        · split at h <;> cases h
        · cases h
    · rintro ⟨h1, h2⟩
      rw [h1, h2]
      rfl

/-! ### Examples -/

/-- Calls with two settings and a key asked for three times. -/
def sampleCalls : List BuildStep :=
  [.key .age c!"pk2", .partially (.encryptedSuffix c!"_x"), .keys .age [c!"pk1", c!"pk2"], .macOnly,
   .partially (.unencryptedSuffix c!"_plain"), .keys .kms [], .key .age c!"pk1"]

example : ∃ (f : EncFile Format.json) (j : Nat),
    (BuildStep.calls sampleCalls (Builder.fromMap Toy.small)).encrypt Toy.env 0 = .ok (f, j) ∧
    LastSetting sampleCalls f.metadata.partialEncryption ∧
    f.metadata.partialEncryption = some (.unencryptedSuffix c!"_plain") ∧ f.metadata.macOnlyEncrypted = some true ∧
    keyIds f.metadata.integration .age = [c!"pk2", c!"pk1"] := by
  have hc : (match (BuildStep.calls sampleCalls (Builder.fromMap (F := Format.json) Toy.small)).encrypt Toy.env 0 with
    | .ok _ => true
    | .error _ => false) = true := by decide +kernel
  cases h : (BuildStep.calls sampleCalls (Builder.fromMap (F := Format.json) Toy.small)).encrypt Toy.env 0 with
  | error e => rw [h] at hc; cases hc
  | ok r =>
    obtain ⟨f, j⟩ := r
    obtain ⟨h1, h2, h3, _⟩ := C68_file _ _ _ _ _ h
    refine ⟨f, j, h, h1, ?_, ?_, (h3 .age).trans (by decide)⟩
    · refine lastSetting_unique h1 ⟨sampleCalls.take 4, _, rfl, fun q hq => ?_⟩
      simp at hq
    · rcases h2 with ⟨h2, _⟩ | ⟨_, h2⟩
      · exact h2
      · exact absurd (.tail _ (.tail _ (.tail _ (.head _)))) h2

example : (BuildStep.calls [.macOnly, .keys .age []] (Builder.fromMap (F := Format.json) Toy.small)).encrypt Toy.env 0 =
    .error .missingKeys :=
  (C68_missing_keys_iff _ _ _).2 ⟨⟨_, rfl⟩, fun k => by cases k <;> rfl⟩

/-- The hypotheses of `C68_order` are met: the same calls in another order, and without those that change nothing. -/
example : BuildStep.calls sampleCalls (Builder.fromMap (F := Format.json) Toy.small) =
    BuildStep.calls [.macOnly, .key .age c!"pk2", .key .age c!"pk1", .key .age c!"pk2", .key .age c!"pk1",
      .partially (.unencryptedSuffix c!"_plain")] (Builder.fromMap Toy.small) := by
  refine C68_order _ _ _ (fun o => ?_) (by simp [sampleCalls]) (fun k => by cases k <;> rfl)
  have h1 : LastSetting sampleCalls (some (.unencryptedSuffix c!"_plain")) :=
    ⟨sampleCalls.take 4, _, rfl, fun q hq => by simp at hq⟩
  have h2 : LastSetting [.macOnly, .key .age c!"pk2", .key .age c!"pk1", .key .age c!"pk2", .key .age c!"pk1",
      .partially (.unencryptedSuffix c!"_plain")] (some (.unencryptedSuffix c!"_plain")) :=
    ⟨[.macOnly, .key .age c!"pk2", .key .age c!"pk1", .key .age c!"pk2", .key .age c!"pk1"], [], rfl,
      fun q hq => by simp at hq⟩
  exact ⟨fun h => lastSetting_unique h h1 ▸ h2, fun h => lastSetting_unique h h2 ▸ h1⟩

/-- A number that does not fit is reported even if there are no keys. -/
example : (BuildStep.calls [] (Builder.fromMap (F := Format.json)
      [(c!"a", .leaf (.num (.posInt 18446744073709551615)))])).encrypt Toy.env 0 =
    .error (.encrypt (.format (.integerOutOfRange 18446744073709551615))) :=
  (C68_format_error_iff _ _ _ _).2 (by rfl)

end Rops.Props
