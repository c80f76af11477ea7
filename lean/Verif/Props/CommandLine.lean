import Verif.Lemmas.Args
import Verif.Spec.ToyDoc
/-!
# C58: command lines
-/

namespace Rops.Props

open Spec (Item Written Takes IsFlag Flags PlainWord)

/-! ## Single options -/

theorem pathGiven_iff {given : List Str} {p : Option Str} : onceOf pathValue none given = some p ↔ Spec.PathGiven given p := by
  match given with
  | [] => cases p <;> simp [onceOf, Spec.PathGiven]
  | [v] =>
    by_cases hv : v = []
    · cases p <;> simp [onceOf, Spec.PathGiven, pathValue, hv]
    · cases p <;> simp [onceOf, Spec.PathGiven, pathValue, hv]
      rintro rfl; exact hv
  | _ :: _ :: _ => cases p <;> simp [onceOf, Spec.PathGiven]

theorem formatName_iff {s : Str} {f : Fmt} : Fmt.ofName s = some f ↔ Spec.FormatName s f := by
  constructor
  · unfold Fmt.ofName
    intro h
    split at h
    · rename_i hs; cases h; rcases hs with rfl | rfl <;> constructor
    · split at h
      · rename_i hs; cases h; subst hs; constructor
      · split at h
        · rename_i hs; cases h; subst hs; constructor
        · cases h
  · rintro ⟨⟩ <;> decide

theorem formatGiven_iff {given : List Str} {f : Option Fmt} :
    onceOf Fmt.ofName none given = some f ↔ Spec.FormatGiven given f := by
  match given with
  | [] => cases f <;> simp [onceOf, Spec.FormatGiven]
  | [v] => cases f <;> simp [onceOf, Spec.FormatGiven, formatName_iff]
  | _ :: _ :: _ => cases f <;> simp [onceOf, Spec.FormatGiven]

theorem onceFlag_iff {a : Arg} {is : List Item} {b : Bool} : onceFlag false (Spec.times a is) b ↔ Spec.FlagGiven a is b := by
  simp [onceFlag, Spec.FlagGiven]

/-- The text of a setting of one kind. -/
def settingText : Arg → PartialEncryption → Option Str
  | .encryptedSuffix, .encryptedSuffix s => some s
  | .encryptedRegex, .encryptedRegex s => some s
  | .unencryptedSuffix, .unencryptedSuffix s => some s
  | .unencryptedRegex, .unencryptedRegex s => some s
  | _, _ => none

theorem values_settings {a : Arg} (is : List Item)
    (h : a = .encryptedSuffix ∨ a = .encryptedRegex ∨ a = .unencryptedSuffix ∨ a = .unencryptedRegex) :
    Spec.values a is = (Spec.settings is).filterMap (settingText a) := by
  induction is with
  | nil => rfl
  | cons i is ih =>
    have hs : Spec.settings (i :: is) = Spec.settings [i] ++ Spec.settings is := by
      simp only [Spec.settings]; rw [← List.filterMap_append]; rfl
    have hv : Spec.values a (i :: is) = Spec.values a [i] ++ Spec.values a is := by
      simp only [Spec.values]; rw [← List.filterMap_append]; rfl
    rw [hs, hv, List.filterMap_append, ih]
    congr 1
    cases i with
    | flag b => rfl
    | file p => rfl
    | option b v => rcases h with rfl | rfl | rfl | rfl <;> cases b <;> rfl

theorem settings_length (is : List Item) : (Spec.settings is).length =
    (Spec.values .encryptedSuffix is).length + (Spec.values .encryptedRegex is).length +
      (Spec.values .unencryptedSuffix is).length + (Spec.values .unencryptedRegex is).length := by
  induction is with
  | nil => rfl
  | cons i is ih =>
    have hs : Spec.settings (i :: is) = Spec.settings [i] ++ Spec.settings is := by
      simp only [Spec.settings]; rw [← List.filterMap_append]; rfl
    have hv : ∀ a, Spec.values a (i :: is) = Spec.values a [i] ++ Spec.values a is := by
      intro a; simp only [Spec.values]; rw [← List.filterMap_append]; rfl
    rw [hs, hv, hv, hv, hv]
    simp only [List.length_append, ih]
    have : (Spec.settings [i]).length = (Spec.values .encryptedSuffix [i]).length + (Spec.values .encryptedRegex [i]).length +
      (Spec.values .unencryptedSuffix [i]).length + (Spec.values .unencryptedRegex [i]).length := by
      cases i with
      | flag b => rfl
      | file p => rfl
      | option b v => cases b <;> rfl
    omega

theorem regexValue_some {O : DocOps} {v r : Str} : regexValue O v = some r ↔ v = r ∧ O.regexOk r = true := by
  unfold regexValue
  split
  · rename_i h
    simp only [Option.some.injEq]
    exact ⟨fun e => ⟨e, e ▸ h⟩, fun e => e.1⟩
  · rename_i h
    simp only [reduceCtorEq, false_iff]
    rintro ⟨rfl, h'⟩
    exact h h'

theorem onceOf_none {α : Type} {parse : Str → Option α} {vs : List Str} : onceOf parse none vs = some none ↔ vs = [] := by
  match vs with
  | [] => simp [onceOf]
  | [v] => simp [onceOf]
  | _ :: _ :: _ => simp [onceOf]

theorem onceOf_some {α : Type} {parse : Str → Option α} {vs : List Str} {a : α} :
    onceOf parse none vs = some (some a) ↔ ∃ v, vs = [v] ∧ parse v = some a := by
  match vs with
  | [] => simp [onceOf]
  | [v] => simp [onceOf]
  | _ :: _ :: _ => simp [onceOf]

/-- The four options of partial encryption together. -/
def FourGiven (O : DocOps) (is : List Item) (s : SettingArgs) : Prop :=
  onceOf some none (Spec.values .encryptedSuffix is) = some s.encryptedSuffix ∧
    onceOf (regexValue O) none (Spec.values .encryptedRegex is) = some s.encryptedRegex ∧
    onceOf some none (Spec.values .unencryptedSuffix is) = some s.unencryptedSuffix ∧
    onceOf (regexValue O) none (Spec.values .unencryptedRegex is) = some s.unencryptedRegex

theorem settingGiven_iff {O : DocOps} {is : List Item} {p : Option PartialEncryption} :
    (∃ s, FourGiven O is s ∧ s.single = .ok p) ↔ Spec.SettingGiven O is p := by
  have hl := settings_length is
  have v1 := values_settings (a := .encryptedSuffix) is (by decide)
  have v2 := values_settings (a := .encryptedRegex) is (by decide)
  have v3 := values_settings (a := .unencryptedSuffix) is (by decide)
  have v4 := values_settings (a := .unencryptedRegex) is (by decide)
  constructor
  · rintro ⟨s, ⟨h1, h2, h3, h4⟩, hs⟩
    unfold SettingArgs.single at hs
    have one : ∀ q : PartialEncryption, (Spec.settings is).length = 1 →
        (Spec.values .encryptedSuffix is = (settingText .encryptedSuffix q).toList) →
        (Spec.values .encryptedRegex is = (settingText .encryptedRegex q).toList) →
        (Spec.values .unencryptedSuffix is = (settingText .unencryptedSuffix q).toList) →
        (Spec.values .unencryptedRegex is = (settingText .unencryptedRegex q).toList) → Spec.settings is = [q] := by
      intro q h e1 e2 e3 e4
      match hx : Spec.settings is, h with
      | [x], _ =>
        rw [hx] at v1 v2 v3 v4
        rw [v1] at e1
        rw [v2] at e2
        rw [v3] at e3
        rw [v4] at e4
        cases q <;> cases x <;> simp_all [settingText]
    split at hs <;> cases hs <;>
      simp only [onceOf_none, onceOf_some, regexValue_some, Option.some.injEq, exists_eq_right] at h1 h2 h3 h4
    · refine ⟨?_, by simp⟩
      rw [h1, h2, h3, h4] at hl
      exact List.length_eq_zero_iff.1 hl
    · refine ⟨one _ (by rw [hl, h1, h2, h3, h4]; rfl) h1 h2 h3 h4, by simp⟩
    · obtain ⟨v, h2, rfl, hr⟩ := h2
      exact ⟨one _ (by rw [hl, h1, h2, h3, h4]; rfl) h1 h2 h3 h4, by rintro r (h | h) <;> cases h; exact hr⟩
    · refine ⟨one _ (by rw [hl, h1, h2, h3, h4]; rfl) h1 h2 h3 h4, by simp⟩
    · obtain ⟨v, h4, rfl, hr⟩ := h4
      exact ⟨one _ (by rw [hl, h1, h2, h3, h4]; rfl) h1 h2 h3 h4, by rintro r (h | h) <;> cases h; exact hr⟩
  · rintro ⟨h, hr⟩
    rw [h] at v1 v2 v3 v4
    cases p with
    | none => exact ⟨⟨none, none, none, none⟩, ⟨by rw [v1]; rfl, by rw [v2]; rfl, by rw [v3]; rfl, by rw [v4]; rfl⟩, rfl⟩
    | some q =>
      refine ⟨SettingArgs.ofSetting q, ?_, ?_⟩
      · unfold FourGiven
        rw [v1, v2, v3, v4]
        cases q with
        | encryptedSuffix s => exact ⟨rfl, rfl, rfl, rfl⟩
        | unencryptedSuffix s => exact ⟨rfl, rfl, rfl, rfl⟩
        | encryptedRegex r =>
          exact ⟨rfl, onceOf_some.2 ⟨r, rfl, regexValue_some.2 ⟨rfl, hr r (Or.inl rfl)⟩⟩, rfl, rfl⟩
        | unencryptedRegex r =>
          exact ⟨rfl, rfl, rfl, onceOf_some.2 ⟨r, rfl, regexValue_some.2 ⟨rfl, hr r (Or.inr rfl)⟩⟩⟩
      · cases q <;> rfl

/-! ## What is written -/

theorem flags_known {allowed : Arg → Prop} {fs : List Item} {s : Str} (h : Flags allowed fs s) :
    ∀ i ∈ fs, knownItem i = true ∧ ∃ a, i = .flag a ∧ allowed a := by
  induction h with
  | nil => simp
  | cons hal hf _ ih =>
    intro i hi
    rcases List.mem_cons.1 hi with rfl | hi
    · exact ⟨by cases hf <;> rfl, _, rfl, hal⟩
    · exact ih i hi

theorem written_known {allowed : Arg → Prop} {is : List Item} {ws : List Str} (h : Written allowed is ws) :
    ∀ i ∈ is, knownItem i = true ∧ (∀ a v, i = .option a v → allowed a) ∧ ∀ a, i = .flag a → allowed a := by
  have hopt : ∀ {a n c} {v : Str}, allowed a → Takes a n c → knownItem (.option a v) = true ∧
      (∀ b w, Item.option a v = .option b w → allowed b) ∧ ∀ b, Item.option a v = .flag b → allowed b := by
    intro a n c v hal ht
    exact ⟨(takes_iff.1 ht).1, by rintro b w ⟨⟩; exact hal, by rintro b ⟨⟩⟩
  have hflags : ∀ {fs s}, Flags allowed fs s → ∀ i ∈ fs, knownItem i = true ∧ (∀ a v, i = .option a v → allowed a) ∧
      ∀ a, i = .flag a → allowed a := by
    intro fs s hf i hi
    obtain ⟨h1, a, rfl, h2⟩ := flags_known hf i hi
    exact ⟨h1, by rintro b w ⟨⟩, by rintro b ⟨⟩; exact h2⟩
  induction h with
  | nil => simp
  | rest ps =>
    intro i hi
    obtain ⟨p, _, rfl⟩ := List.mem_map.1 hi
    exact ⟨rfl, by rintro b w ⟨⟩, by rintro b ⟨⟩⟩
  | file _ _ ih =>
    intro i hi
    rcases List.mem_cons.1 hi with rfl | hi
    · exact ⟨rfl, by rintro b w ⟨⟩, by rintro b ⟨⟩⟩
    · exact ih i hi
  | long hal ht _ _ ih | longEq hal ht _ ih =>
    intro i hi
    rcases List.mem_cons.1 hi with rfl | hi
    · exact hopt hal ht
    · exact ih i hi
  | longFlag hal hf _ ih =>
    intro i hi
    rcases List.mem_cons.1 hi with rfl | hi
    · exact ⟨by cases hf <;> rfl, by rintro b w ⟨⟩, by rintro b ⟨⟩; exact hal⟩
    · exact ih i hi
  | shorts hf _ _ ih =>
    intro i hi
    rcases List.mem_append.1 hi with hi | hi
    · exact hflags hf i hi
    · exact ih i hi
  | shortsValue hf hal ht _ _ _ ih | shortsEq hf hal ht _ ih | shortsNext hf hal ht _ _ ih =>
    intro i hi
    rcases List.mem_append.1 hi with hi | hi
    · exact hflags hf i hi
    · rcases List.mem_cons.1 hi with rfl | hi
      · exact hopt hal ht
      · exact ih i hi

theorem written_all {allowed : Arg → Prop} {is : List Item} {ws : List Str} (h : Written allowed is ws) :
    is.all knownItem = true := List.all_eq_true.2 fun i hi => (written_known h i hi).1

theorem values_not_allowed {allowed : Arg → Prop} {is : List Item} {ws : List Str} (h : Written allowed is ws) {a : Arg}
    (ha : ¬ allowed a) : Spec.values a is = [] := by
  rw [Spec.values, List.filterMap_eq_nil_iff]
  intro i hi
  cases i with
  | flag b => rfl
  | file p => rfl
  | option b v =>
    have : b ≠ a := fun e => ha (e ▸ (written_known h _ hi).2.1 b v rfl)
    simp [this]

theorem times_not_allowed {allowed : Arg → Prop} {is : List Item} {ws : List Str} (h : Written allowed is ws) {a : Arg}
    (ha : ¬ allowed a) : Spec.times a is = 0 := by
  rw [Spec.times, List.count_eq_zero]
  intro hi
  exact ha ((written_known h _ hi).2.2 a rfl)

/-! ## The subcommands -/

theorem encryptCommand_iff {O : DocOps} {is : List Item} {ws : List Str} (h : Written (fun _ => True) is ws) {c : Command} :
    encryptCommand O ws = .ok c ↔ ∃ l, c = .encrypt l ∧ Spec.KeysGiven O is l.keys ∧ Spec.SettingGiven O is l.setting ∧
      Spec.FlagGiven .macOnlyEncrypted is l.macOnlyEncrypted ∧ Spec.InputGiven is l.input ∧
      Spec.FlagGiven .inPlace is l.inPlace := by
  have hopt : ∀ a, a ∈ encryptOptions ↔ True ∨ a = .help := by intro a; cases a <;> simp [encryptOptions]
  unfold encryptCommand
  rw [words_of_written hopt h]
  constructor
  · intro hc
    split at hc
    · cases hc
    · rename_i m hm
      have ha := items_iff.1 hm
      split at hc
      · cases hc
      · rename_i p hp
        cases hc
        refine ⟨_, rfl, ⟨ha.age, ha.kms⟩, ?_, onceFlag_iff.1 ha.macOnlyEncrypted, ?_, onceFlag_iff.1 ha.inPlace⟩
        · exact settingGiven_iff.1
            ⟨m.settings, ⟨ha.encryptedSuffix, ha.encryptedRegex, ha.unencryptedSuffix, ha.unencryptedRegex⟩, hp⟩
        · exact ⟨pathGiven_iff.1 ha.config, formatGiven_iff.1 ha.format, pathGiven_iff.1 ha.file⟩
  · rintro ⟨l, rfl, ⟨h1, h2⟩, h3, h4, ⟨h5, h6, h7⟩, h8⟩
    obtain ⟨s, ⟨g1, g2, g3, g4⟩, hs⟩ := settingGiven_iff.2 h3
    have : Matches.empty.items O is = .ok
        { age := l.keys.age, kms := l.keys.kms, settings := s, macOnlyEncrypted := l.macOnlyEncrypted
          config := l.input.config, format := l.input.format, inPlace := l.inPlace, file := l.input.file } :=
      items_iff.2 ⟨h1, h2, g1, g2, g3, g4, pathGiven_iff.2 h5, formatGiven_iff.2 h6, pathGiven_iff.2 h7, onceFlag_iff.2 h4,
        onceFlag_iff.2 h8, written_all h⟩
    simp only [this, hs]
    rfl

theorem four_empty {allowed : Arg → Prop} {O : DocOps} {is : List Item} {ws : List Str} (h : Written allowed is ws)
    (h1 : ¬ allowed .encryptedSuffix) (h2 : ¬ allowed .encryptedRegex) (h3 : ¬ allowed .unencryptedSuffix)
    (h4 : ¬ allowed .unencryptedRegex) : FourGiven O is ⟨none, none, none, none⟩ := by
  unfold FourGiven
  rw [values_not_allowed h h1, values_not_allowed h h2, values_not_allowed h h3, values_not_allowed h h4]
  exact ⟨rfl, rfl, rfl, rfl⟩

theorem placeCommand_iff {O : DocOps} {is : List Item} {ws : List Str} (h : Written Spec.ForPlace is ws) {l : PlaceLine} :
    placeCommand O ws = .ok l ↔ Spec.InputGiven is l.input ∧ Spec.FlagGiven .inPlace is l.inPlace := by
  have hopt : ∀ a, a ∈ placeOptions ↔ Spec.ForPlace a ∨ a = .help := by intro a; cases a <;> simp [placeOptions, Spec.ForPlace]
  unfold placeCommand
  rw [words_of_written hopt h]
  constructor
  · intro hc
    split at hc
    · cases hc
    · rename_i m hm
      have ha := items_iff.1 hm
      cases hc
      exact ⟨⟨pathGiven_iff.1 ha.config, formatGiven_iff.1 ha.format, pathGiven_iff.1 ha.file⟩, onceFlag_iff.1 ha.inPlace⟩
  · rintro ⟨⟨h5, h6, h7⟩, h8⟩
    have no : ∀ a, Spec.ForPlace a → a = .config ∨ a = .format ∨ a = .inPlace := fun _ h => h
    obtain ⟨g1, g2, g3, g4⟩ := four_empty (O := O) h (by simp [Spec.ForPlace]) (by simp [Spec.ForPlace])
      (by simp [Spec.ForPlace]) (by simp [Spec.ForPlace])
    have : Matches.empty.items O is = .ok
        { Matches.empty with config := l.input.config, format := l.input.format, inPlace := l.inPlace, file := l.input.file } :=
      items_iff.2 ⟨by rw [values_not_allowed h (by simp [Spec.ForPlace])]; rfl,
        by rw [values_not_allowed h (by simp [Spec.ForPlace])]; rfl, g1, g2, g3, g4, pathGiven_iff.2 h5, formatGiven_iff.2 h6,
        pathGiven_iff.2 h7, by rw [times_not_allowed h (by simp [Spec.ForPlace])]; exact onceFlag_zero.2 rfl, onceFlag_iff.2 h8,
        written_all h⟩
    simp only [this]
    rfl

theorem editCommand_iff {O : DocOps} {is : List Item} {ws : List Str} (h : Written Spec.ForEdit is ws) {a : InputArgs} :
    editCommand O ws = .ok a ↔ Spec.InputGiven is a := by
  have hopt : ∀ a, a ∈ editOptions ↔ Spec.ForEdit a ∨ a = .help := by intro a; cases a <;> simp [editOptions, Spec.ForEdit]
  unfold editCommand
  rw [words_of_written hopt h]
  constructor
  · intro hc
    split at hc
    · cases hc
    · rename_i m hm
      have ha := items_iff.1 hm
      cases hc
      exact ⟨pathGiven_iff.1 ha.config, formatGiven_iff.1 ha.format, pathGiven_iff.1 ha.file⟩
  · rintro ⟨h5, h6, h7⟩
    obtain ⟨g1, g2, g3, g4⟩ := four_empty (O := O) h (by simp [Spec.ForEdit]) (by simp [Spec.ForEdit])
      (by simp [Spec.ForEdit]) (by simp [Spec.ForEdit])
    have : Matches.empty.items O is = .ok { Matches.empty with config := a.config, format := a.format, file := a.file } :=
      items_iff.2 ⟨by rw [values_not_allowed h (by simp [Spec.ForEdit])]; rfl,
        by rw [values_not_allowed h (by simp [Spec.ForEdit])]; rfl, g1, g2, g3, g4, pathGiven_iff.2 h5, formatGiven_iff.2 h6,
        pathGiven_iff.2 h7, by rw [times_not_allowed h (by simp [Spec.ForEdit])]; exact onceFlag_zero.2 rfl,
        by rw [times_not_allowed h (by simp [Spec.ForEdit])]; exact onceFlag_zero.2 rfl, written_all h⟩
    simp only [this]
    rfl

theorem keysCommand_iff {O : DocOps} {is : List Item} {ws : List Str} (h : Written Spec.ForKeys is ws) {a : KeyArgs} :
    keysCommand O ws = .ok a ↔ Spec.KeysGiven O is a.keys ∧ Spec.FormatGiven (Spec.values .format is) a.format ∧
      Spec.PathGiven (Spec.files is) (some a.file) := by
  have hopt : ∀ a, a ∈ keyOptions ↔ Spec.ForKeys a ∨ a = .help := by intro a; cases a <;> simp [keyOptions, Spec.ForKeys]
  unfold keysCommand
  rw [words_of_written hopt h]
  constructor
  · intro hc
    split at hc
    · cases hc
    · rename_i m hm
      have ha := items_iff.1 hm
      split at hc
      · cases hc
      · rename_i p hp
        cases hc
        refine ⟨⟨ha.age, ha.kms⟩, formatGiven_iff.1 ha.format, ?_⟩
        have := pathGiven_iff.1 ha.file
        rwa [hp] at this
  · rintro ⟨⟨h1, h2⟩, h6, h7⟩
    obtain ⟨g1, g2, g3, g4⟩ := four_empty (O := O) h (by simp [Spec.ForKeys]) (by simp [Spec.ForKeys])
      (by simp [Spec.ForKeys]) (by simp [Spec.ForKeys])
    have : Matches.empty.items O is = .ok
        { Matches.empty with age := a.keys.age, kms := a.keys.kms, format := a.format, file := some a.file } :=
      items_iff.2 ⟨h1, h2, g1, g2, g3, g4, by rw [values_not_allowed h (by simp [Spec.ForKeys])]; rfl, formatGiven_iff.2 h6,
        pathGiven_iff.2 h7, by rw [times_not_allowed h (by simp [Spec.ForKeys])]; exact onceFlag_zero.2 rfl,
        by rw [times_not_allowed h (by simp [Spec.ForKeys])]; exact onceFlag_zero.2 rfl, written_all h⟩
    simp only [this]

/-! ## C58 -/

/-- Words accepted after `encrypt` are written items. -/
theorem encrypt_written {O : DocOps} {ws : List Str} {c : Command} (h : encryptCommand O ws = .ok c) :
    ∃ is, Written (fun _ => True) is ws := by
  have hopt : ∀ a, a ∈ encryptOptions ↔ True ∨ a = .help := by intro a; cases a <;> simp [encryptOptions]
  unfold encryptCommand at h
  split at h
  · cases h
  · rename_i m hm
    obtain ⟨is, hi, _⟩ := (words_iff hopt).1 hm
    exact ⟨is, hi⟩

theorem place_written {O : DocOps} {ws : List Str} {l : PlaceLine} (h : placeCommand O ws = .ok l) :
    ∃ is, Written Spec.ForPlace is ws := by
  have hopt : ∀ a, a ∈ placeOptions ↔ Spec.ForPlace a ∨ a = .help := by intro a; cases a <;> simp [placeOptions, Spec.ForPlace]
  unfold placeCommand at h
  split at h
  · cases h
  · rename_i m hm
    obtain ⟨is, hi, _⟩ := (words_iff hopt).1 hm
    exact ⟨is, hi⟩

theorem edit_written {O : DocOps} {ws : List Str} {a : InputArgs} (h : editCommand O ws = .ok a) :
    ∃ is, Written Spec.ForEdit is ws := by
  have hopt : ∀ a, a ∈ editOptions ↔ Spec.ForEdit a ∨ a = .help := by intro a; cases a <;> simp [editOptions, Spec.ForEdit]
  unfold editCommand at h
  split at h
  · cases h
  · rename_i m hm
    obtain ⟨is, hi, _⟩ := (words_iff hopt).1 hm
    exact ⟨is, hi⟩

theorem keys_written {O : DocOps} {ws : List Str} {a : KeyArgs} (h : keysCommand O ws = .ok a) :
    ∃ is, Written Spec.ForKeys is ws := by
  have hopt : ∀ a, a ∈ keyOptions ↔ Spec.ForKeys a ∨ a = .help := by intro a; cases a <;> simp [keyOptions, Spec.ForKeys]
  unfold keysCommand at h
  split at h
  · cases h
  · rename_i m hm
    obtain ⟨is, hi, _⟩ := (words_iff hopt).1 hm
    exact ⟨is, hi⟩

theorem saysEncrypt_iff {O : DocOps} {ws : List Str} {c : Command} :
    encryptCommand O ws = .ok c ↔ ∃ l, c = .encrypt l ∧ Spec.SaysEncrypt O ws l := by
  constructor
  · intro h
    obtain ⟨is, hi⟩ := encrypt_written h
    obtain ⟨l, rfl, hl⟩ := (encryptCommand_iff hi).1 h
    exact ⟨l, rfl, is, hi, hl⟩
  · rintro ⟨l, rfl, is, hi, hl⟩
    exact (encryptCommand_iff hi).2 ⟨l, rfl, hl⟩

theorem saysPlace_iff {O : DocOps} {ws : List Str} {l : PlaceLine} : placeCommand O ws = .ok l ↔ Spec.SaysPlace ws l := by
  constructor
  · intro h
    obtain ⟨is, hi⟩ := place_written h
    exact ⟨is, hi, (placeCommand_iff hi).1 h⟩
  · rintro ⟨is, hi, hl⟩
    exact (placeCommand_iff hi).2 hl

theorem saysEdit_iff {O : DocOps} {ws : List Str} {a : InputArgs} : editCommand O ws = .ok a ↔ Spec.SaysEdit ws a := by
  constructor
  · intro h
    obtain ⟨is, hi⟩ := edit_written h
    exact ⟨is, hi, (editCommand_iff hi).1 h⟩
  · rintro ⟨is, hi, hl⟩
    exact (editCommand_iff hi).2 hl

theorem saysKeys_iff {O : DocOps} {ws : List Str} {a : KeyArgs} : keysCommand O ws = .ok a ↔ Spec.SaysKeys O ws a := by
  constructor
  · intro h
    obtain ⟨is, hi⟩ := keys_written h
    exact ⟨is, hi, (keysCommand_iff hi).1 h⟩
  · rintro ⟨is, hi, hl⟩
    exact (keysCommand_iff hi).2 hl

theorem map_ok_iff {ε α β : Type} {x : Except ε α} {f : α → β} {b : β} : x.map f = .ok b ↔ ∃ a, x = .ok a ∧ f a = b := by
  cases x <;> simp [Except.map]

/-- C58: a command line is accepted as a command exactly if its words say that command. -/
theorem C58_accepted_iff {O : DocOps} {argv : List Str} {c : Command} : parseArgs O argv = .ok c ↔ Spec.Says O argv c := by
  constructor
  · intro h
    cases argv with
    | nil => cases h
    | cons w ws =>
      rw [parseArgs] at h
      split at h
      · rename_i hw
        obtain ⟨l, rfl, hl⟩ := saysEncrypt_iff.1 h
        exact .encrypt hw hl
      split at h
      · rename_i hw
        obtain ⟨l, hl, rfl⟩ := map_ok_iff.1 h
        exact .decrypt hw (saysPlace_iff.1 hl)
      split at h
      · rename_i hw
        obtain ⟨l, hl, rfl⟩ := map_ok_iff.1 h
        exact hw ▸ .edit (saysEdit_iff.1 hl)
      split at h
      · rename_i hw
        cases ws with
        | nil => cases h
        | cons w' ws =>
          rw [parseKeys] at h
          split at h
          · rename_i hw'
            obtain ⟨l, hl, rfl⟩ := map_ok_iff.1 h
            exact hw' ▸ .addKeys hw (saysKeys_iff.1 hl)
          split at h
          · rename_i hw'
            obtain ⟨l, hl, rfl⟩ := map_ok_iff.1 h
            exact hw' ▸ .removeKeys hw (saysKeys_iff.1 hl)
          cases h
      split at h
      · rename_i hw
        obtain ⟨l, hl, rfl⟩ := map_ok_iff.1 h
        exact hw ▸ .refresh (saysPlace_iff.1 hl)
      cases h
  · intro h
    cases h with
    | encrypt hw h =>
      rw [parseArgs, if_pos hw]
      exact saysEncrypt_iff.2 ⟨_, rfl, h⟩
    | decrypt hw h =>
      rcases hw with rfl | rfl
      all_goals
        show (placeCommand O _).map Command.decrypt = _
        rw [saysPlace_iff.2 h]; rfl
    | edit h =>
      show (editCommand O _).map Command.edit = _
      rw [saysEdit_iff.2 h]; rfl
    | addKeys hw h =>
      rcases hw with rfl | rfl
      all_goals
        show (keysCommand O _).map Command.addKeys = _
        rw [saysKeys_iff.2 h]; rfl
    | removeKeys hw h =>
      rcases hw with rfl | rfl
      all_goals
        show (keysCommand O _).map Command.removeKeys = _
        rw [saysKeys_iff.2 h]; rfl
    | refresh h =>
      show (placeCommand O _).map Command.refresh = _
      rw [saysPlace_iff.2 h]; rfl

/-- Keys given twice, short names in one word, and a file that begins with a dash. -/
example : parseArgs Toy.docOps [c!"e", c!"--age", c!"one", c!"-if=yml", c!"--age=-two", c!"--encrypted-suffix", c!"_x", c!"--", c!"-a"] =
    .ok (.encrypt { keys := { age := [c!"one", c!"-two"], kms := [] }, setting := some (.encryptedSuffix c!"_x")
                    macOnlyEncrypted := false, input := { config := none, format := some .yaml, file := some c!"-a" }
                    inPlace := true }) := by decide +kernel

/-- An option of another subcommand is refused. -/
example : parseArgs Toy.docOps [c!"edit", c!"-i", c!"a.yaml"] = .error .usage := by decide +kernel

/-- An ARN whose resource has no key panics. -/
example : parseArgs Toy.docOps [c!"keys", c!"add", c!"--aws-kms", c!"p.arn:aws:kms:eu:1:key:x", c!"a.yaml"] = .error .panic := by
  decide +kernel

/-- C58: a command line says at most one command. -/
theorem C58_unambiguous {O : DocOps} {argv : List Str} {c c' : Command} (h : Spec.Says O argv c) (h' : Spec.Says O argv c') :
    c = c' := by
  have := (C58_accepted_iff.2 h).symm.trans (C58_accepted_iff.2 h')
  cases this; rfl

/-- C58: for `rops encrypt` neither the order of different options nor the way they are written
matters: two lines that give the same values to every option, in the same order for every single
option, the same flags and the same files, are accepted as the same command or both refused. -/
theorem C58_order {O : DocOps} {is js : List Item} {ws ws' : List Str} (hi : Written (fun _ => True) is ws)
    (hj : Written (fun _ => True) js ws') (hv : ∀ a, Spec.values a is = Spec.values a js)
    (ht : ∀ a, Spec.times a is = Spec.times a js) (hf : Spec.files is = Spec.files js) (c : Command) :
    parseArgs O (c!"encrypt" :: ws) = .ok c ↔ parseArgs O (c!"encrypt" :: ws') = .ok c := by
  show encryptCommand O ws = .ok c ↔ encryptCommand O ws' = .ok c
  rw [encryptCommand_iff hi, encryptCommand_iff hj]
  unfold Spec.KeysGiven Spec.InputGiven Spec.FlagGiven
  simp only [← settingGiven_iff, FourGiven, hv, ht, hf]

/-- The same said in another order and another way. -/
example : ∀ c, parseArgs Toy.docOps [c!"encrypt", c!"--age", c!"one", c!"-i", c!"a.yaml", c!"--age", c!"two"] = .ok c ↔
    parseArgs Toy.docOps [c!"encrypt", c!"a.yaml", c!"--age=one", c!"--age=two", c!"--in-place"] = .ok c :=
  C58_order (is := [.option .age c!"one", .flag .inPlace, .file c!"a.yaml", .option .age c!"two"])
    (js := [.file c!"a.yaml", .option .age c!"one", .option .age c!"two", .flag .inPlace])
    (.long trivial .age (Or.inr (by simp)) (.shorts (.cons trivial .inPlace .nil) (by simp) (.file (Or.inr (by simp))
      (.long trivial .age (Or.inr (by simp)) .nil))))
    (.file (Or.inr (by simp)) (.longEq trivial .age (.longEq trivial .age (.longFlag trivial .inPlace .nil))))
    (by intro a; cases a <;> rfl) (by intro a; cases a <;> rfl) rfl

/-- C58: the same for `rops keys add` and `rops keys remove`. -/
theorem C58_order_keys {O : DocOps} {is js : List Item} {ws ws' : List Str} (hi : Written Spec.ForKeys is ws)
    (hj : Written Spec.ForKeys js ws') (hv : ∀ a, Spec.values a is = Spec.values a js) (hf : Spec.files is = Spec.files js)
    (w : Str) (c : Command) : parseArgs O (c!"keys" :: w :: ws) = .ok c ↔ parseArgs O (c!"keys" :: w :: ws') = .ok c := by
  have h : ∀ a, keysCommand O ws = .ok a ↔ keysCommand O ws' = .ok a := by
    intro a
    rw [keysCommand_iff hi, keysCommand_iff hj]
    unfold Spec.KeysGiven
    simp only [hv, hf]
  have h' : ∀ f : KeyArgs → Command, (keysCommand O ws).map f = .ok c ↔ (keysCommand O ws').map f = .ok c := by
    intro f
    simp only [map_ok_iff, h]
  show parseKeys O (w :: ws) = .ok c ↔ parseKeys O (w :: ws') = .ok c
  simp only [parseKeys]
  split
  · exact h' _
  · split
    · exact h' _
    · exact Iff.rfl

/-- The keys and the file in another order. -/
example : ∀ c, parseArgs Toy.docOps [c!"keys", c!"add", c!"--age", c!"one", c!"a.yaml", c!"--age", c!"two"] = .ok c ↔
    parseArgs Toy.docOps [c!"keys", c!"add", c!"a.yaml", c!"--age=one", c!"--age=two"] = .ok c :=
  C58_order_keys (is := [.option .age c!"one", .file c!"a.yaml", .option .age c!"two"])
    (js := [.file c!"a.yaml", .option .age c!"one", .option .age c!"two"])
    (.long (.inl rfl) .age (Or.inr (by simp)) (.file (Or.inr (by simp)) (.long (.inl rfl) .age (Or.inr (by simp)) .nil)))
    (.file (Or.inr (by simp)) (.longEq (.inl rfl) .age (.longEq (.inl rfl) .age .nil)))
    (by intro a; cases a <;> rfl) rfl c!"add"

/-- C58: two settings of partial encryption, or an option or flag given twice, or two files, are
refused, wherever they stand and however they are written. -/
theorem C58_refused {O : DocOps} {is : List Item} {ws : List Str} (hi : Written (fun _ => True) is ws)
    (h : 2 ≤ (Spec.settings is).length ∨ 2 ≤ (Spec.values .config is).length ∨ 2 ≤ (Spec.values .format is).length ∨
      2 ≤ Spec.times .inPlace is ∨ 2 ≤ Spec.times .macOnlyEncrypted is ∨ 2 ≤ (Spec.files is).length) (c : Command) :
    parseArgs O (c!"encrypt" :: ws) ≠ .ok c := by
  intro hc
  obtain ⟨l, -, -, ⟨h1, -⟩, h2, ⟨⟨h3, -⟩, h4, h5, -⟩, h6⟩ := (encryptCommand_iff hi).1 hc
  have small : ∀ {α : Type} (o : Option α), o.toList.length ≤ 1 := by intro α o; cases o <;> simp
  rcases h with h | h | h | h | h | h
  · rw [h1] at h; have := small l.setting; omega
  · rw [h3] at h; have := small l.input.config; omega
  · cases hf : l.input.format with
    | none => rw [hf] at h4; rw [show Spec.values .format is = [] from h4] at h; simp at h
    | some f => rw [hf] at h4; obtain ⟨n, h4, -⟩ := h4; rw [h4] at h; simp at h
  · unfold Spec.FlagGiven at h6; rw [h6] at h; split at h <;> omega
  · unfold Spec.FlagGiven at h2; rw [h2] at h; split at h <;> omega
  · rw [h5] at h; have := small l.input.file; omega

/-- Two settings. -/
example (c : Command) : parseArgs Toy.docOps [c!"encrypt", c!"--encrypted-suffix=a", c!"f", c!"--unencrypted-suffix=b"] ≠ .ok c :=
  C58_refused (is := [.option .encryptedSuffix c!"a", .file c!"f", .option .unencryptedSuffix c!"b"])
    (.longEq trivial .encryptedSuffix (.file (Or.inr (by simp)) (.longEq trivial .unencryptedSuffix .nil)))
    (Or.inl (by decide)) c

/-- One word for an item. -/
def itemWord : Item → Str
  | .option a v => c!"--" ++ a.long ++ '=' :: v
  | .flag a => c!"--" ++ a.long
  | .file p => p

theorem written_words {allowed : Arg → Prop} {is : List Item}
    (h : ∀ i ∈ is, (∃ a v, i = .option a v ∧ a.takesValue = true ∧ allowed a) ∨
      ∃ a, i = .flag a ∧ a.takesValue = false ∧ a ≠ .help ∧ allowed a) (ps : List Str) :
    Written allowed (is ++ ps.map .file) (is.map itemWord ++ c!"--" :: ps) := by
  induction is with
  | nil => exact .rest ps
  | cons i is ih =>
    have ih := ih fun j hj => h j (List.mem_cons_of_mem _ hj)
    rcases h i List.mem_cons_self with ⟨a, v, rfl, h1, h2⟩ | ⟨a, rfl, h1, h2, h3⟩
    · exact .longEq h2 (takes_iff.2 ⟨h1, rfl, rfl⟩) ih
    · exact .longFlag h3 (isFlag_iff.2 ⟨h1, h2, rfl, rfl⟩) ih

/-- The same option several times. -/
def block (a : Arg) (vs : List Str) : List Item := vs.map (.option a)

/-- A flag if it is given. -/
def flagBlock (a : Arg) (b : Bool) : List Item := if b then [.flag a] else []

theorem values_append (a : Arg) (is js : List Item) : Spec.values a (is ++ js) = Spec.values a is ++ Spec.values a js :=
  List.filterMap_append

theorem files_append (is js : List Item) : Spec.files (is ++ js) = Spec.files is ++ Spec.files js := List.filterMap_append

theorem settings_append (is js : List Item) : Spec.settings (is ++ js) = Spec.settings is ++ Spec.settings js :=
  List.filterMap_append

theorem times_append (a : Arg) (is js : List Item) : Spec.times a (is ++ js) = Spec.times a is + Spec.times a js :=
  List.count_append

theorem values_block (a b : Arg) (vs : List Str) : Spec.values b (block a vs) = if a = b then vs else [] := by
  induction vs with
  | nil => simp [block, Spec.values]
  | cons v vs ih =>
    have : block a (v :: vs) = .option a v :: block a vs := rfl
    rw [this, values_option, ih]
    by_cases h : a = b <;> simp [h]

theorem files_block (a : Arg) (vs : List Str) : Spec.files (block a vs) = [] := by
  induction vs with
  | nil => rfl
  | cons v vs ih => exact ih

theorem times_block (a b : Arg) (vs : List Str) : Spec.times b (block a vs) = 0 := by
  rw [Spec.times, List.count_eq_zero]
  simp [block]

theorem values_flagBlock (a b : Arg) (g : Bool) : Spec.values b (flagBlock a g) = [] := by cases g <;> rfl

theorem files_flagBlock (a : Arg) (g : Bool) : Spec.files (flagBlock a g) = [] := by cases g <;> rfl

theorem settings_flagBlock (a : Arg) (g : Bool) : Spec.settings (flagBlock a g) = [] := by cases g <;> rfl

theorem times_flagBlock (a b : Arg) (g : Bool) :
    Spec.times b (flagBlock a g) = if a = b then (if g then 1 else 0) else 0 := by
  cases g with
  | false => simp [flagBlock, Spec.times]
  | true => by_cases h : a = b <;> simp [flagBlock, Spec.times, h]

theorem values_files (a : Arg) (ps : List Str) : Spec.values a (ps.map .file) = [] := by
  induction ps with
  | nil => rfl
  | cons p ps ih => exact ih

theorem settings_files (ps : List Str) : Spec.settings (ps.map .file) = [] := by
  induction ps with
  | nil => rfl
  | cons p ps ih => exact ih

theorem times_files (a : Arg) (ps : List Str) : Spec.times a (ps.map .file) = 0 := by
  rw [Spec.times, List.count_eq_zero]
  simp

theorem files_files (ps : List Str) : Spec.files (ps.map .file) = ps := by
  induction ps with
  | nil => rfl
  | cons p ps ih => rw [List.map_cons, files_file, ih]

/-- The option for a setting. -/
def settingBlock : Option PartialEncryption → List Item
  | none => []
  | some (.encryptedSuffix s) => [.option .encryptedSuffix s]
  | some (.encryptedRegex s) => [.option .encryptedRegex s]
  | some (.unencryptedSuffix s) => [.option .unencryptedSuffix s]
  | some (.unencryptedRegex s) => [.option .unencryptedRegex s]

theorem settings_block {a : Arg} (vs : List Str) (h : a = .age ∨ a = .awsKms ∨ a = .config ∨ a = .format) :
    Spec.settings (block a vs) = [] := by
  induction vs with
  | nil => rfl
  | cons v vs ih => rcases h with rfl | rfl | rfl | rfl <;> exact ih

theorem named_texts {O : DocOps} {k : IntegrationKeys} (h : Spec.Named O k) :
    ∃ ts ts' : List Str, ts.map O.A.parseRecipient = k.age.map some ∧ ts'.map (AwsKeyId.parse O.arn) = k.kms.map .ok := by
  have key : ∀ {α β : Type} (f : Str → β) (g : α → β) (l : List α), (∀ x ∈ l, ∃ t, f t = g x) → ∃ ts : List Str, ts.map f = l.map g := by
    intro α β f g l h
    induction l with
    | nil => exact ⟨[], rfl⟩
    | cons x l ih =>
      obtain ⟨t, ht⟩ := h x List.mem_cons_self
      obtain ⟨ts, h1⟩ := ih fun y hy => h y (List.mem_cons_of_mem _ hy)
      exact ⟨t :: ts, by simp [ht, h1]⟩
  obtain ⟨ts, h1⟩ := key _ some _ h.1
  obtain ⟨ts', h2⟩ := key _ Except.ok _ h.2
  exact ⟨ts, ts', h1, h2⟩

/-- The name of a format. -/
def formatText : Fmt → Str
  | .yaml => c!"yaml"
  | .json => c!"json"
  | .toml => c!"toml"

theorem formatGiven_text (f : Option Fmt) : Spec.FormatGiven (f.map formatText).toList f := by
  cases f with
  | none => rfl
  | some f => exact ⟨formatText f, rfl, by cases f <;> constructor⟩

/-- C58: every command whose keys have texts, whose regular expressions are valid, and whose
paths are not empty is said by some command line. In particular values and files may begin with
a dash. -/
theorem C58_sayable {O : DocOps} {c : Command} (h : Spec.Sayable O c) : ∃ argv, parseArgs O argv = .ok c := by
  have place : ∀ l : PlaceLine, Spec.PathsNamed l.input → ∃ ws, Spec.SaysPlace ws l := by
    intro l h
    refine ⟨_, _, written_words (is := block .config l.input.config.toList ++
      (block .format (l.input.format.map formatText).toList ++ flagBlock .inPlace l.inPlace)) ?_ l.input.file.toList, ?_, ?_⟩
    · intro i hi
      simp only [block, flagBlock, List.mem_append, List.mem_map] at hi
      rcases hi with ⟨v, _, rfl⟩ | ⟨v, _, rfl⟩ | hi
      · exact Or.inl ⟨_, _, rfl, rfl, Or.inl rfl⟩
      · exact Or.inl ⟨_, _, rfl, rfl, Or.inr (Or.inl rfl)⟩
      · split at hi
        · rw [List.mem_singleton] at hi
          exact Or.inr ⟨_, hi, rfl, by decide, Or.inr (Or.inr rfl)⟩
        · cases hi
    · refine ⟨?_, ?_, ?_⟩
      · simpa [values_append, values_block, values_flagBlock, values_files] using ⟨rfl, h.1⟩
      · simpa [values_append, values_block, values_flagBlock, values_files] using formatGiven_text _
      · simpa [files_append, files_block, files_flagBlock, files_files] using ⟨rfl, h.2⟩
    · simp [Spec.FlagGiven, times_append, times_block, times_flagBlock, times_files]
  have keys : ∀ a : KeyArgs, Spec.Named O a.keys → a.file ≠ [] → ∃ ws, Spec.SaysKeys O ws a := by
    intro a h hf
    obtain ⟨ts, ts', h1, h2⟩ := named_texts h
    refine ⟨_, _, written_words (is := block .age ts ++ (block .awsKms ts' ++ block .format (a.format.map formatText).toList)) ?_
      [a.file], ⟨?_, ?_⟩, ?_, ?_⟩
    · intro i hi
      simp only [block, List.mem_append, List.mem_map] at hi
      rcases hi with ⟨v, _, rfl⟩ | ⟨v, _, rfl⟩ | ⟨v, _, rfl⟩
      · exact Or.inl ⟨_, _, rfl, rfl, Or.inl rfl⟩
      · exact Or.inl ⟨_, _, rfl, rfl, Or.inr (Or.inl rfl)⟩
      · exact Or.inl ⟨_, _, rfl, rfl, Or.inr (Or.inr rfl)⟩
    · simpa [values_append, values_block, values_file, values_nil] using h1
    · simpa [values_append, values_block, values_file, values_nil] using h2
    · simpa [values_append, values_block, values_file, values_nil] using formatGiven_text _
    · have : Spec.files [Item.file a.file] = [a.file] := rfl
      simpa [files_append, files_block, this, Spec.PathGiven] using hf
  cases c with
  | decrypt l =>
    obtain ⟨ws, hw⟩ := place l h
    exact ⟨_, C58_accepted_iff.2 (.decrypt (Or.inl rfl) hw)⟩
  | refresh l =>
    obtain ⟨ws, hw⟩ := place l h
    exact ⟨_, C58_accepted_iff.2 (.refresh hw)⟩
  | addKeys a =>
    obtain ⟨ws, hw⟩ := keys a h.1 h.2
    exact ⟨_, C58_accepted_iff.2 (.addKeys (Or.inl rfl) hw)⟩
  | removeKeys a =>
    obtain ⟨ws, hw⟩ := keys a h.1 h.2
    exact ⟨_, C58_accepted_iff.2 (.removeKeys (Or.inl rfl) hw)⟩
  | edit a =>
    refine ⟨_, C58_accepted_iff.2 (.edit ⟨_, written_words (is := block .config a.config.toList ++
      block .format (a.format.map formatText).toList) ?_ a.file.toList, ?_, ?_, ?_⟩)⟩
    · intro i hi
      simp only [block, List.mem_append, List.mem_map] at hi
      rcases hi with ⟨v, _, rfl⟩ | ⟨v, _, rfl⟩
      · exact Or.inl ⟨_, _, rfl, rfl, Or.inl rfl⟩
      · exact Or.inl ⟨_, _, rfl, rfl, Or.inr rfl⟩
    · simpa [values_append, values_block, values_files] using ⟨rfl, h.1⟩
    · simpa [values_append, values_block, values_files] using formatGiven_text _
    · simpa [files_append, files_block, files_files] using ⟨rfl, h.2⟩
  | encrypt l =>
    obtain ⟨h1, h2, h3⟩ := h
    obtain ⟨ts, ts', g1, g2⟩ := named_texts h1
    have hsv : ∀ a, a = .age ∨ a = .awsKms ∨ a = .config ∨ a = .format → Spec.values a (settingBlock l.setting) = [] := by
      rintro a (rfl | rfl | rfl | rfl) <;> (cases l.setting with | none => rfl | some q => cases q <;> rfl)
    have hst : ∀ a, Spec.times a (settingBlock l.setting) = 0 := by
      intro a
      cases l.setting with | none => rfl | some q => cases q <;> rfl
    have hsf : Spec.files (settingBlock l.setting) = [] := by
      cases l.setting with | none => rfl | some q => cases q <;> rfl
    have hss : Spec.settings (settingBlock l.setting) = l.setting.toList := by
      cases l.setting with | none => rfl | some q => cases q <;> rfl
    refine ⟨_, C58_accepted_iff.2 (.encrypt (Or.inl rfl) ⟨_, written_words (is := block .age ts ++ (block .awsKms ts' ++
      (settingBlock l.setting ++ (flagBlock .macOnlyEncrypted l.macOnlyEncrypted ++ (block .config l.input.config.toList ++
      (block .format (l.input.format.map formatText).toList ++ flagBlock .inPlace l.inPlace)))))) ?_ l.input.file.toList,
      ⟨?_, ?_⟩, ⟨?_, h3⟩, ?_, ⟨?_, ?_, ?_⟩, ?_⟩)⟩
    · intro i hi
      simp only [block, flagBlock, List.mem_append, List.mem_map] at hi
      rcases hi with ⟨v, _, rfl⟩ | ⟨v, _, rfl⟩ | hi | hi | ⟨v, _, rfl⟩ | ⟨v, _, rfl⟩ | hi
      · exact Or.inl ⟨_, _, rfl, rfl, trivial⟩
      · exact Or.inl ⟨_, _, rfl, rfl, trivial⟩
      · refine Or.inl ?_
        cases hs : l.setting with
        | none => rw [hs] at hi; cases hi
        | some q =>
          rw [hs] at hi
          cases q <;> exact ⟨_, _, List.mem_singleton.1 hi, rfl, trivial⟩
      · split at hi
        · exact Or.inr ⟨_, List.mem_singleton.1 hi, rfl, by decide, trivial⟩
        · cases hi
      · exact Or.inl ⟨_, _, rfl, rfl, trivial⟩
      · exact Or.inl ⟨_, _, rfl, rfl, trivial⟩
      · split at hi
        · exact Or.inr ⟨_, List.mem_singleton.1 hi, rfl, by decide, trivial⟩
        · cases hi
    · simpa [values_append, values_block, values_flagBlock, values_files, hsv] using g1
    · simpa [values_append, values_block, values_flagBlock, values_files, hsv] using g2
    · simp [settings_append, settings_block, settings_flagBlock, settings_files, hss]
    · simp [Spec.FlagGiven, times_append, times_block, times_flagBlock, times_files, hst]
    · simpa [values_append, values_block, values_flagBlock, values_files, hsv] using ⟨rfl, h2.1⟩
    · simpa [values_append, values_block, values_flagBlock, values_files, hsv] using formatGiven_text _
    · simpa [files_append, files_block, files_flagBlock, files_files, hsf] using ⟨rfl, h2.2⟩
    · simp [Spec.FlagGiven, times_append, times_block, times_flagBlock, times_files, hst]

/-- A suffix and a file that begin with dashes. -/
example : ∃ argv, parseArgs Toy.docOps argv = .ok (.encrypt
    { keys := { age := [c!"one"], kms := [] }, setting := some (.encryptedSuffix c!"--"), macOnlyEncrypted := true
      input := { config := none, format := some .json, file := some c!"--help" }, inPlace := true }) :=
  C58_sayable ⟨⟨fun x _ => ⟨x, rfl⟩, by simp⟩, ⟨by simp, by simp⟩, by simp⟩

/-- C58, what does not hold: the help calls the value of `--age` a space separated list, but of
the words after `--age` only the first is a key; a second is taken for the file. -/
theorem C58_not_a_list {O : DocOps} {k1 k2 : Str} {r1 : Str} (h1 : O.A.parseRecipient k1 = some r1) (p1 : PlainWord k1)
    (p2 : PlainWord k2) (h2 : k2 ≠ []) :
    parseArgs O [c!"encrypt", c!"--age", k1, k2] = .ok (.encrypt
      { keys := { age := [r1], kms := [] }, setting := none, macOnlyEncrypted := false
        input := { config := none, format := none, file := some k2 }, inPlace := false }) ∧
    ∀ file, PlainWord file → ∀ c, parseArgs O [c!"encrypt", c!"--age", k1, k2, file] ≠ .ok c := by
  constructor
  · rw [C58_accepted_iff]
    refine .encrypt (Or.inl rfl) ⟨_, .long trivial .age p1 (.file p2 .nil), ⟨?_, rfl⟩, ⟨rfl, by simp⟩, rfl,
      ⟨⟨rfl, by simp⟩, rfl, rfl, by simpa using h2⟩, rfl⟩
    simp [values_option, values_file, values_nil, h1]
  · intro file p3 c
    exact C58_refused (.long trivial .age p1 (.file p2 (.file p3 .nil))) (by simp [files_option, files_file]) c

example : parseArgs Toy.docOps [c!"encrypt", c!"--age", c!"one", c!"two"] = .ok (.encrypt
      { keys := { age := [c!"one"], kms := [] }, setting := none, macOnlyEncrypted := false
        input := { config := none, format := none, file := some c!"two" }, inPlace := false }) :=
  (C58_not_a_list (r1 := c!"one") rfl (Or.inr (by simp)) (Or.inr (by simp)) (by simp)).1

/-- C58: a command line that says no command has no effect but perhaps showing the help. -/
theorem C58_no_command (P : Proc) (helpText : Str) {argv : List Str} (h : ∀ c, ¬ Spec.Says P.O argv c) (i : Nat) :
    (P.main helpText argv i).1 = [] ∨ (P.main helpText argv i).1 = [.print helpText] := by
  unfold Proc.main
  split
  · rename_i c hc; exact absurd (C58_accepted_iff.1 hc) (h c)
  · exact Or.inr rfl
  · exact Or.inl rfl
  · exact Or.inl rfl

/-- C58: a command line that says a command runs that command. -/
theorem C58_runs (P : Proc) (helpText : Str) {argv : List Str} {c : Command} (h : Spec.Says P.O argv c) (i : Nat) :
    P.main helpText argv i = P.run c i := by
  unfold Proc.main
  rw [C58_accepted_iff.2 h]

end Rops.Props
