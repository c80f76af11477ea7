import Verif.Spec.Cli
/-! The shape of the effects of commands. -/

namespace Rops
open Spec

/-- The path an effect is about. -/
def Event.path : Event → Option Str
  | .print _ => none
  | .create p => some p
  | .write p _ _ => some p
  | .edited p _ => some p
  | .delete p => some p

/-- Effects on the temporary file that is there only in between. -/
def Between (P : Proc) (es : List Event) : Prop :=
  es = [] ∨ ∃ t mid, P.temp = some t ∧ es = .create t :: (mid ++ [.delete t]) ∧ ∀ e ∈ mid, e.path = some t

/-- Effects on the temporary file of a process that was killed. -/
def Killed (P : Proc) (es : List Event) : Prop :=
  ∃ t mid, P.temp = some t ∧ es = .create t :: mid ∧ ∀ e ∈ mid, e.path = some t

/-- The shape of a run. -/
inductive Shape (P : Proc) (tgt : Option Str) : Run → Prop where
  | quiet {es res} (h : Between P es) (hr : res ≠ .error .killed) : Shape P tgt (es, res)
  | killed {es} (h : Killed P es) : Shape P tgt (es, .error .killed)
  | print {es s} (h : Between P es) : Shape P tgt (es ++ [.print s], .ok ())
  | cut {es s n} (h : Between P es) (hn : P.stdout = some n) : Shape P tgt (es ++ [.print s], .error .panic)
  | write {es p s} (h : Between P es) (ht : tgt = some p) : Shape P tgt (es ++ (P.write p s).1, (P.write p s).2)

theorem Shape.failed {P : Proc} {tgt : Option Str} {e : CliError} (he : e ≠ .killed) : Shape P tgt ([], .error e) :=
  .quiet (.inl rfl) (by intro h; cases h; exact he rfl)

theorem Shape.writeOrPrint {P : Proc} {inPlace : Option Bool} {path : Option Str} {s : Str} {tgt : Option Str}
    (h : inPlace.getD false = true → tgt = path) : Shape P tgt (P.writeOrPrint inPlace path s) := by
  unfold Proc.writeOrPrint
  split
  · rename_i hp
    cases path with
    | none => exact .failed (by simp)
    | some p => exact .write (es := []) (.inl rfl) (h hp)
  · unfold Proc.printLine
    split
    · exact .print (es := []) (.inl rfl)
    · exact .cut (es := []) (.inl rfl) (by assumption)

theorem getFormat_ne_killed {p : Option Str} {x : Option Fmt} {e : CliError} (h : getFormat p x = .error e) : e ≠ .killed := by
  unfold getFormat at h
  repeat' split at h
  all_goals cases h
  all_goals simp

theorem readFile_ne_killed {P : Proc} {p : Str} {e : CliError} (h : P.readFile p = .error e) : e ≠ .killed := by
  unfold Proc.readFile at h
  repeat' split at h
  all_goals cases h
  all_goals simp

theorem getInput_ne_killed {P : Proc} {p : Option Str} {b : Option Bool} {e : CliError} (h : P.getInput p b = .error e) :
    e ≠ .killed := by
  unfold Proc.getInput Proc.readFromPath at h
  repeat' split at h
  all_goals first | exact readFile_ne_killed h | (cases h; done) | (cases h; simp)

theorem encryptText_ne_killed {P : Proc} {x : Fmt} {s : Str} {a : EncryptArgs} {i : Nat} {e : CliError}
    (h : P.encryptText x s a i = .error e) : e ≠ .killed := by
  unfold Proc.encryptText at h
  split at h
  · cases h; simp
  · simp only at h
    generalize a.keys.addToBuilder _ = b at h
    split at h
    · cases h; simp
    · split at h
      · cases h; simp
      · cases h

theorem parseFile_ne_killed {P : Proc} {x : Fmt} {s : Str} {e : CliError} (h : P.parseFile x s = .error e) :
    e ≠ .killed := by
  unfold Proc.parseFile at h
  split at h
  all_goals cases h
  split <;> simp

theorem decryptText_ne_killed {P : Proc} {x : Fmt} {s : Str} {e : CliError} (h : P.decryptText x s = .error e) :
    e ≠ .killed := by
  unfold Proc.decryptText at h
  split at h
  · rename_i h2; cases h; exact parseFile_ne_killed h2
  · split at h
    · cases h; simp
    · cases h

theorem readConfig_ne_killed {P : Proc} {p : Str} {e : CliError} (h : P.readConfig p = .error e) : e ≠ .killed := by
  unfold Proc.readConfig at h
  split at h
  · rename_i h2; cases h; exact readFile_ne_killed h2
  · split at h
    all_goals cases h
    split <;> simp

theorem traverse_ne_killed {P : Proc} {dir : List Str} {e : CliError} (h : P.traverse dir = .error e) : e ≠ .killed := by
  induction dir with
  | nil =>
    unfold Proc.traverse at h
    split at h
    · cases h
    · exact readConfig_ne_killed h
  | cons c r ih =>
    unfold Proc.traverse at h
    split at h
    · exact ih h
    · exact readConfig_ne_killed h

theorem retrieveConfig_ne_killed {P : Proc} {p : Option Str} {e : CliError} (h : P.retrieveConfig p = .error e) :
    e ≠ .killed := by
  unfold Proc.retrieveConfig at h
  repeat' split at h
  · exact readConfig_ne_killed h
  · exact readConfig_ne_killed h
  · cases h; simp
  · exact traverse_ne_killed h

theorem refreshWith_ne_killed {P : Proc} {x : Fmt} {path s : Str} {f : EncFile x.doc.F} {i : Nat} {c : Config} {e : CliError}
    (h : P.refreshWith x path s f i c = .error e) : e ≠ .killed := by
  induction c with
  | nil => cases h
  | cons r l ih =>
    unfold Proc.refreshWith at h
    split at h
    · split at h
      · cases h
      · split at h
        · cases h; simp
        · split at h
          · cases h; simp
          · cases h
    · exact ih h

theorem refreshText_ne_killed {P : Proc} {x : Fmt} {s : Str} {a : PlaceArgs} {i : Nat} {e : CliError}
    (h : P.refreshText x s a i = .error e) : e ≠ .killed := by
  unfold Proc.refreshText at h
  split at h
  · rename_i h2; cases h; exact retrieveConfig_ne_killed h2
  · split at h
    · rename_i h2; cases h; exact parseFile_ne_killed h2
    · exact refreshWith_ne_killed h

theorem addKeysText_ne_killed {P : Proc} {x : Fmt} {s : Str} {k : IntegrationKeys} {i : Nat} {e : CliError}
    (h : P.addKeysText x s k i = .error e) : e ≠ .killed := by
  unfold Proc.addKeysText at h
  split at h
  · rename_i h2; cases h; exact parseFile_ne_killed h2
  · repeat' split at h
    all_goals cases h
    all_goals simp

theorem removeKeysText_ne_killed {P : Proc} {x : Fmt} {s : Str} {k : IntegrationKeys} {i : Nat} {e : CliError}
    (h : P.removeKeysText x s k i = .error e) : e ≠ .killed := by
  unfold Proc.removeKeysText at h
  split at h
  · rename_i h2; cases h; exact parseFile_ne_killed h2
  · repeat' split at h
    all_goals cases h
    all_goals simp

theorem editedText_ne_killed {P : Proc} {x : Fmt} {g : DecFile x.doc.F} {p : SavedParameters} {m : x.doc.F.Map} {i : Nat}
    {e : CliError} (h : P.editedText x g p m i = .error e) : e ≠ .killed := by
  unfold Proc.editedText at h
  repeat' split at h
  all_goals cases h
  all_goals simp

theorem Shape.encrypt {P : Proc} {a : EncryptArgs} {i : Nat} {tgt : Option Str}
    (h : a.inPlace.getD false = true → tgt = a.input.file) : Shape P tgt (P.encrypt a i) := by
  unfold Proc.encrypt
  split
  · rename_i h1; exact .failed (getFormat_ne_killed h1)
  · split
    · rename_i h1; exact .failed (getInput_ne_killed h1)
    · split
      · rename_i h1; exact .failed (encryptText_ne_killed h1)
      · exact .writeOrPrint h

theorem Shape.decrypt {P : Proc} {a : PlaceArgs} {tgt : Option Str}
    (h : a.inPlace.getD false = true → tgt = a.input.file) : Shape P tgt (P.decrypt a) := by
  unfold Proc.decrypt
  split
  · rename_i h1; exact .failed (getFormat_ne_killed h1)
  · split
    · rename_i h1; exact .failed (getInput_ne_killed h1)
    · split
      · rename_i h1; exact .failed (decryptText_ne_killed h1)
      · exact .writeOrPrint h

theorem Shape.refresh {P : Proc} {a : PlaceArgs} {i : Nat} {tgt : Option Str}
    (h : a.inPlace.getD false = true → tgt = a.input.file) : Shape P tgt (P.refresh a i) := by
  unfold Proc.refresh
  split
  · rename_i h1; exact .failed (getFormat_ne_killed h1)
  · split
    · rename_i h1; exact .failed (getInput_ne_killed h1)
    · split
      · rename_i h1; exact .failed (refreshText_ne_killed h1)
      · exact .writeOrPrint h

theorem Shape.keys {P : Proc} {a : KeyArgs} {remove : Bool} {i : Nat} : Shape P (some a.file) (P.keys remove a i) := by
  unfold Proc.keys
  split
  · rename_i h1; exact .failed (getFormat_ne_killed h1)
  · split
    · rename_i h1; exact .failed (getInput_ne_killed h1)
    · split
      · rename_i h1
        refine .failed ?_
        split at h1
        · exact removeKeysText_ne_killed h1
        · exact addKeysText_ne_killed h1
      · exact .write (es := []) (.inl rfl) rfl

theorem editLoop_path {P : Proc} {x : Fmt} {temp : Str} (l : List Attempt) :
    ∀ e ∈ (P.editLoop x temp l).1, e.path = some temp := by
  induction l with
  | nil => intro e he; cases he
  | cons a r ih =>
    intro e he
    cases a with
    | notStarted => cases he
    | failed => cases he
    | left c pressed =>
      unfold Proc.editLoop at he
      repeat' split at he
      all_goals first
        | (rw [List.mem_singleton] at he; subst he; rfl)
        | skip
      rename_i h1
      rcases List.mem_cons.1 he with rfl | he
      · rfl
      · rw [h1] at ih; exact ih e he

theorem write_path {P : Proc} {p s : Str} : ∀ e ∈ (P.write p s).1, e.path = some p := by
  intro e he
  unfold Proc.write at he
  rw [List.mem_singleton] at he
  subst he
  rfl

/-- A session is either over, with the temporary file gone, or was killed. -/
theorem editSession_shape {P : Proc} {x : Fmt} {map : x.doc.F.Map} {es : List Event}
    {res : Except CliError (Option x.doc.F.Map)} (h : P.editSession x map = (es, res)) :
    (Between P es ∧ ∀ e, res = .error e → e ≠ .killed) ∨ (Killed P es ∧ res = .error .killed) := by
  unfold Proc.editSession at h
  cases ht : P.temp with
  | none =>
    rw [ht] at h
    simp only [Prod.mk.injEq] at h
    obtain ⟨rfl, rfl⟩ := h
    exact .inl ⟨.inl rfl, by rintro _ ⟨⟩; simp⟩
  | some t =>
    rw [ht] at h
    simp only at h
    have key : ∀ (r : List Event × Except CliError (Option x.doc.F.Map)), (∀ e ∈ r.1, e.path = some t) →
        withTemp t r = (es, res) →
        (Between P es ∧ ∀ e, res = .error e → e ≠ .killed) ∨ (Killed P es ∧ res = .error .killed) := by
      rintro ⟨mid, rr⟩ hm hw
      unfold withTemp at hw
      split at hw
      · rename_i heq
        simp only [Prod.mk.injEq] at heq hw
        obtain ⟨rfl, rfl⟩ := heq
        obtain ⟨rfl, rfl⟩ := hw
        exact .inr ⟨⟨t, _, ht, rfl, hm⟩, rfl⟩
      · rename_i hne heq
        simp only [Prod.mk.injEq] at heq hw
        obtain ⟨rfl, rfl⟩ := heq
        obtain ⟨rfl, rfl⟩ := hw
        refine .inl ⟨.inr ⟨t, _, ht, rfl, hm⟩, ?_⟩
        rintro e rfl rfl
        exact hne rfl
    refine key _ ?_ h
    split
    · rename_i es1 e1 hw
      intro e he
      exact write_path e (by rw [hw]; exact he)
    · rename_i es1 hw
      intro e he
      rcases List.mem_append.1 he with he | he
      · exact write_path e (by rw [hw]; exact he)
      · unfold Proc.editTemp at he
        split at he
        · cases he
        · split at he
          · exact editLoop_path (x := x) P.editor e he
          · cases he

theorem Shape.edit {P : Proc} {a : InputArgs} {i : Nat} : Shape P (target P (.edit a)) (P.edit a i) := by
  unfold Proc.edit
  split
  · rename_i h1; exact .failed (getFormat_ne_killed h1)
  · unfold Proc.editFile
    split
    · rename_i h1; exact .failed (getInput_ne_killed h1)
    · split
      · rename_i h1; exact .failed (parseFile_ne_killed h1)
      · split
        · exact .failed (by simp)
        · split
          · rename_i h1
            rcases editSession_shape h1 with ⟨hb, he⟩ | ⟨hk, he⟩
            · exact .quiet hb (by intro h; cases h; exact he _ rfl rfl)
            · cases he; exact .killed hk
          · rename_i h1
            rcases editSession_shape h1 with ⟨hb, _⟩ | ⟨_, he⟩
            · exact .quiet hb (by simp)
            · cases he
          · rename_i h1
            rcases editSession_shape h1 with ⟨hb, _⟩ | ⟨_, he⟩
            · split
              · rename_i h2
                exact .quiet hb (by intro h; cases h; exact editedText_ne_killed h2 rfl)
              · split
                · rename_i hs _
                  exact .write hb (by simp only [target, hs]; assumption)
                · exact .quiet hb (by simp)
                · unfold Proc.printLine
                  cases ho : P.stdout with
                  | none => exact .print hb
                  | some n => exact .cut hb ho
            · cases he

theorem Shape.run (P : Proc) (c : Command) (i : Nat) : Shape P (target P c) (P.run c i) := by
  have hplace : ∀ (l : PlaceLine) (a : PlaceArgs), l.args = some a →
      a.inPlace.getD false = true → (if l.inPlace then l.input.file else none) = a.input.file := by
    intro l a h
    unfold PlaceLine.args at h
    split at h
    · cases h
    · cases h
      intro h
      have h : l.inPlace = true := h
      rw [if_pos h]
  unfold Proc.run
  split
  · split
    · rename_i h1; exact .failed (retrieveConfig_ne_killed h1)
    · rename_i config _
      unfold Proc.dispatch
      cases c with
      | encrypt l =>
        simp only
        split
        · exact .failed (by simp)
        · rename_i a ha
          refine Shape.encrypt fun hp => ?_
          have hin : ∀ c : Config, (a.merge P.env.rx c).inPlace = a.inPlace ∧ (a.merge P.env.rx c).input = a.input := by
            intro c
            induction c with
            | nil => exact ⟨rfl, rfl⟩
            | cons r c ih =>
              unfold EncryptArgs.merge
              split
              · exact ⟨rfl, rfl⟩
              · exact ih
          rw [(hin config).1] at hp
          rw [(hin config).2]
          unfold EncryptLine.args at ha
          split at ha
          · cases ha
          · cases ha
            have hp : l.inPlace = true := hp
            simp only [target, hp, if_true]
      | decrypt l =>
        simp only
        split
        · exact .failed (by simp)
        · rename_i a ha
          exact Shape.decrypt (hplace l a ha)
      | edit a => exact Shape.edit
      | addKeys a => exact Shape.keys
      | removeKeys a => exact Shape.keys
      | refresh l =>
        simp only
        split
        · exact .failed (by simp)
        · rename_i a ha
          exact Shape.refresh (hplace l a ha)
  · exact .failed (by simp)

/-! ## Effects on files -/

theorem Spec.Files.put_other {fs : Files} {p q : Str} {e : Entry} (h : q ≠ p) : fs.put p e q = fs q := by
  simp [Files.put, h]

theorem Spec.Files.put_same {fs : Files} {p : Str} {e : Entry} : fs.put p e p = e := by simp [Files.put]

theorem effect_other {fs : Files} {e : Event} {q : Str} (h : e.path ≠ some q) : effect fs e q = fs q := by
  have hne : ∀ p, e.path = some p → q ≠ p := by
    rintro p hp rfl; exact h hp
  cases e with
  | print s => rfl
  | create p => exact Files.put_other (hne p rfl)
  | write p b r => cases r with
    | done => exact Files.put_other (hne p rfl)
    | notOpened => rfl
    | failed n => exact Files.put_other (hne p rfl)
  | edited p e => exact Files.put_other (hne p rfl)
  | delete p => exact Files.put_other (hne p rfl)

theorem filesAfter_other {fs : Files} {es : List Event} {q : Str} (h : ∀ e ∈ es, e.path ≠ some q) :
    filesAfter fs es q = fs q := by
  induction es generalizing fs with
  | nil => rfl
  | cons e r ih =>
    show filesAfter (effect fs e) r q = fs q
    rw [ih fun e he => h e (by simp [he]), effect_other (h e (by simp))]

theorem filesAfter_append (fs : Files) (a b : List Event) : filesAfter fs (a ++ b) = filesAfter (filesAfter fs a) b :=
  List.foldl_append ..

theorem crash_other {fs fs' : Files} {es : List Event} {q : Str} (hc : CrashState fs es fs')
    (h : ∀ e ∈ es, e.path ≠ some q) : fs' q = fs q := by
  induction hc with
  | now => rfl
  | writing n hn hr hf =>
    refine Files.put_other ?_
    rintro rfl
    exact h _ (.head _) rfl
  | later _ ih => rw [ih fun e he => h e (by simp [he]), effect_other (h _ (by simp))]

theorem crash_append {fs fs' : Files} {a b : List Event} (h : CrashState fs (a ++ b) fs') :
    CrashState fs a fs' ∨ CrashState (filesAfter fs a) b fs' := by
  induction a generalizing fs with
  | nil => exact .inr h
  | cons e r ih =>
    cases h with
    | now => exact .inl .now
    | writing n hn hr hf => exact .inl (.writing n hn hr hf)
    | later h => rcases ih h with h | h
                 · exact .inl (.later h)
                 · exact .inr h

theorem crash_of_append {fs fs' : Files} {a b : List Event} (h : CrashState (filesAfter fs a) b fs') :
    CrashState fs (a ++ b) fs' := by
  induction a generalizing fs with
  | nil => exact h
  | cons e r ih => exact .later (ih h)

theorem filesAfter_temp {fs : Files} {es : List Event} {t : Str} (h : ∀ e ∈ es, e.path = some t) (q : Str) (hq : q ≠ t) :
    filesAfter fs es q = fs q :=
  filesAfter_other fun e he hp => hq (Option.some.inj (hp.symm.trans (h e he)))

theorem Between.path {P : Proc} {es : List Event} (h : Between P es) : ∀ e ∈ es, e.path = P.temp := by
  rcases h with rfl | ⟨t, mid, ht, rfl, hm⟩
  · intro e he; cases he
  · intro e he
    rw [ht]
    simp only [List.mem_cons, List.mem_append, List.not_mem_nil, or_false] at he
    rcases he with rfl | he | rfl
    · rfl
    · exact hm e he
    · rfl

theorem Killed.path {P : Proc} {es : List Event} (h : Killed P es) : ∀ e ∈ es, e.path = P.temp := by
  obtain ⟨t, mid, ht, rfl, hm⟩ := h
  intro e he
  rw [ht]
  rcases List.mem_cons.1 he with rfl | he
  · rfl
  · exact hm e he

theorem Between.files {P : Proc} (hf : FreshTemp P) {es : List Event} (h : Between P es) : filesAfter P.file es = P.file := by
  rcases h with rfl | ⟨t, mid, ht, rfl, hm⟩
  · rfl
  · funext q
    by_cases hq : q = t
    · subst hq
      rw [show Event.create q :: (mid ++ [.delete q]) = (Event.create q :: mid) ++ [.delete q] from rfl, filesAfter_append]
      show Files.put _ q .missing q = _
      rw [Files.put_same, hf _ ht]
    · refine filesAfter_temp (t := t) ?_ q hq
      intro e he
      simp only [List.mem_cons, List.mem_append, List.not_mem_nil, or_false] at he
      rcases he with rfl | he | rfl
      · rfl
      · exact hm e he
      · rfl

end Rops
