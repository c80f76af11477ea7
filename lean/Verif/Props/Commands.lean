import Verif.Lemmas.Cli
import Verif.Lemmas.CliRuns
import Verif.Lemmas.Text
import Verif.Lemmas.ToyCli
/-!
# Commands and files

C36 format selection, C37 failing commands, C38 crashes, C42 the configuration.
-/

namespace Rops.Props
open Spec

/-! ## C37 -/

/-- **C37.** A command that fails (and was not killed) leaves all files as they were, unless
what failed is the final write itself, to the file of the command; and it prints nothing, unless
what failed is printing. -/
theorem C37_failure {P : Proc} (hf : FreshTemp P) {c : Command} {i : Nat} {es : List Event} {e : CliError}
    (h : P.run c i = (es, .error e)) (hk : e ≠ .killed) :
    ((∀ s, .print s ∉ es) ∨ ∃ n, P.stdout = some n ∧ e = .panic ∧ filesAfter P.file es = P.file) ∧
    (filesAfter P.file es = P.file ∨
      ∃ p b n, target P c = some p ∧ P.saves p b = .failed n ∧ e = .io ∧
        filesAfter P.file es = Files.put P.file p (.data (b.take n))) := by
  have hs := Shape.run P c i
  rw [h] at hs
  have hb : ∀ es', Between P es' → ∀ s, Event.print s ∉ es' := by
    intro es' hb s hm
    rcases hb with rfl | ⟨t, mid, _, rfl, hmid⟩
    · cases hm
    · simp only [List.mem_cons, List.mem_append, List.not_mem_nil, or_false, reduceCtorEq, false_or] at hm
      cases hmid _ hm
  generalize hr : (es, Except.error e) = r at hs
  cases hs with
  | quiet hq _ =>
    cases hr
    exact ⟨.inl (hb _ hq), .inl (hq.files hf)⟩
  | killed _ => cases hr; exact absurd rfl hk
  | print _ => cases hr
  | @cut es' s n hq hn =>
    cases hr
    have : filesAfter P.file (es' ++ [.print s]) = P.file := by rw [filesAfter_append, hq.files hf]; rfl
    exact ⟨.inr ⟨_, hn, rfl, this⟩, .inl this⟩
  | @write es' p s hq ht =>
    simp only [Prod.mk.injEq] at hr
    obtain ⟨rfl, hres⟩ := hr
    have hw : (P.write p s).1 = [.write p (utf8 s) (P.saves p (utf8 s))] := rfl
    constructor
    · refine .inl fun s' hm => ?_
      rw [hw] at hm
      rcases List.mem_append.1 hm with hm | hm
      · exact hb _ hq s' hm
      · rw [List.mem_singleton] at hm; cases hm
    · rw [hw, filesAfter_append, hq.files hf]
      have hres : Except.error e = if P.saves p (utf8 s) = .done then Except.ok () else .error .io := hres
      cases hsv : P.saves p (utf8 s) with
      | done => rw [hsv] at hres; cases hres
      | notOpened => exact .inl rfl
      | failed n =>
        rw [hsv] at hres
        cases hres
        exact .inr ⟨p, utf8 s, n, ht, hsv, rfl, rfl⟩

/-- **C37.** Whatever happens, at every point in time, even if the process is killed, all
files but the temporary one and the file of the command are as they were. In particular only
commands with `--in-place`, `edit` and `keys` change a file, and only the one given. -/
theorem C37_other_files {P : Proc} {c : Command} {i : Nat} {es : List Event} {res : Except CliError Unit}
    (h : P.run c i = (es, res)) {fs : Files} (hc : CrashState P.file es fs) (q : Str) (hq : target P c ≠ some q)
    (ht : P.temp ≠ some q) : fs q = P.file q := by
  have hs := Shape.run P c i
  rw [h] at hs
  refine crash_other hc fun ev hev hp => ?_
  have hb : ∀ es', Between P es' → ev ∉ es' := fun es' hb hm => ht ((hb.path ev hm).symm.trans hp)
  generalize hr : (es, res) = r at hs
  cases hs with
  | quiet hq _ => cases hr; exact hb _ hq hev
  | killed hq => cases hr; exact ht ((hq.path ev hev).symm.trans hp)
  | print hq' =>
    cases hr
    rcases List.mem_append.1 hev with hm | hm
    · exact hb _ hq' hm
    · rw [List.mem_singleton] at hm; subst hm; cases hp
  | cut hq' _ =>
    cases hr
    rcases List.mem_append.1 hev with hm | hm
    · exact hb _ hq' hm
    · rw [List.mem_singleton] at hm; subst hm; cases hp
  | @write es' p s hq' ht' =>
    simp only [Prod.mk.injEq] at hr
    obtain ⟨rfl, _⟩ := hr
    rcases List.mem_append.1 hev with hm | hm
    · exact hb _ hq' hm
    · have := write_path ev hm
      rw [hp] at this
      exact hq (ht'.trans this.symm)

/-- **C37.** A command that was not killed leaves no temporary file, whether it succeeds or
fails. -/
theorem C37_no_temporary_file {P : Proc} (hf : FreshTemp P) {c : Command} {i : Nat} {es : List Event}
    {res : Except CliError Unit} (h : P.run c i = (es, res)) (hk : res ≠ .error .killed) (t : Str)
    (ht : P.temp = some t) (htgt : target P c ≠ some t) : filesAfter P.file es t = .missing := by
  have hs := Shape.run P c i
  rw [h] at hs
  generalize hr : (es, res) = r at hs
  cases hs with
  | quiet hq _ => cases hr; rw [hq.files hf]; exact hf t ht
  | killed hq => cases hr; exact absurd rfl hk
  | print hq =>
    cases hr
    rw [filesAfter_append, hq.files hf]
    exact hf t ht
  | cut hq _ =>
    cases hr
    rw [filesAfter_append, hq.files hf]
    exact hf t ht
  | @write es' p s hq ht' =>
    simp only [Prod.mk.injEq] at hr
    obtain ⟨rfl, _⟩ := hr
    rw [filesAfter_append, hq.files hf, filesAfter_other, hf t ht]
    intro ev hev hp
    have := write_path ev hev
    rw [hp] at this
    exact htgt (ht'.trans this.symm)

/-- **C37.** If standard output fails after `n` characters (a closed pipe), a command does what it
does otherwise, except that a command which succeeds by printing a text panics after the first `n`
characters of it. -/
theorem C37_closed_pipe {P : Proc} {n : Nat} (h : P.stdout = some n) (c : Command) (i : Nat) :
    P.run c i = Proc.run { P with stdout := none } c i ∨
    ∃ es t, Proc.run { P with stdout := none } c i = (es ++ [.print t], .ok ()) ∧
      P.run c i = (es ++ [.print (t.take n)], .error .panic) := run_cut h c i

/-- Decrypting to a closed pipe prints the first two characters and panics. -/
example : ∃ s t, (Toy.proc Toy.rule s []).run (.decrypt { Toy.placeLine with inPlace := false }) 0 = ([.print t], .ok ()) ∧
    Proc.run { Toy.proc Toy.rule s [] with stdout := some 2 } (.decrypt { Toy.placeLine with inPlace := false }) 0 =
      ([.print (t.take 2)], .error .panic) := by
  obtain ⟨f, j, m', h, _, ht, hh, _, hr⟩ := Toy.encrypted []
  obtain ⟨g, hg, _⟩ := decrypt_of_holding Toy.env_laws Format.json_lawful hh hh.fits.holds hr
  have hrun := (run_decrypt_ok (P := Toy.proc Toy.rule (EncFile.toText Toy.jsonText Toy.env.C f) [])
    (l := { Toy.placeLine with inPlace := false }) (i := 0)).2
    ⟨by simp, ⟨_, Toy.proc_config _ _⟩, .json, _, f, g, by decide +kernel, Toy.proc_input _ _ _, ht, hg, .inr ⟨rfl, rfl, rfl⟩⟩
  rcases C37_closed_pipe (P := { Toy.proc Toy.rule (EncFile.toText Toy.jsonText Toy.env.C f) [] with stdout := some 2 }) rfl
    (.decrypt { Toy.placeLine with inPlace := false }) 0 with h | ⟨es, t, h, h'⟩
  · have h := h.trans hrun
    obtain ⟨_, _, _, _, _, _, _, _, _, _, hd⟩ := run_decrypt_ok.1 h
    rcases hd with ⟨h, _⟩ | ⟨_, h, _⟩ <;> cases h
  · have h := h.symm.trans hrun
    simp only [Prod.mk.injEq, and_true] at h
    obtain ⟨rfl, h⟩ := List.append_eq_singleton_iff.1 h |>.resolve_right (by rintro ⟨_, h⟩; cases h)
    cases h
    exact ⟨_, _, hrun, h'⟩

/-- Decrypting a file that is not encrypted fails and changes nothing. -/
example : ∃ e, (Toy.proc Toy.rule (Toy.mapText Toy.small) []).run (.decrypt Toy.placeLine) 0 = ([], .error e) ∧ e ≠ .killed :=
  ⟨.deserialize, by decide +kernel, by simp⟩

/-- Editing with an editor that fails: there are effects, and in the end no change. -/
example : ∃ s es, (Toy.proc Toy.rule s [.failed]).run (.edit Toy.input) 9 = (es, .error .editor) ∧
    es ≠ [] ∧ filesAfter (Toy.proc Toy.rule s [.failed]).file es = (Toy.proc Toy.rule s [.failed]).file := by
  obtain ⟨f, j, m', h, _, ht, hh, _, hr⟩ := Toy.encrypted []
  obtain ⟨g, _, _, _, hg⟩ := decrypt_of_holding Toy.env_laws Format.json_lawful hh hh.fits.holds hr
  have hrun : (Toy.proc Toy.rule (EncFile.toText Toy.jsonText Toy.env.C f) [.failed]).run (.edit Toy.input) 9 =
      ([.create c!"/tmp/t", .write c!"/tmp/t" (utf8 (Toy.jsonText.render g.map)) .done, .delete c!"/tmp/t"], .error .editor) := by
    exact run_edit_error (x := .json) (Toy.proc_config _ _) (by decide +kernel) (Toy.proc_input _ _ _) ht hg rfl
  refine ⟨_, _, hrun, by simp, ?_⟩
  rcases (C37_failure (Toy.fresh _ _ _) hrun (by simp)).2 with h | ⟨_, _, _, _, h, _⟩
  · exact h
  · cases h

/-! ## C38 -/

/-- **C38.** When a command succeeds, the file of the command has the old content, or a new
one; and at every point in time before it has the old content or a beginning of the new
one. -/
theorem C38_crash_states {P : Proc} (hf : FreshTemp P) {c : Command} {i : Nat} {es : List Event}
    (h : P.run c i = (es, .ok ())) {p : Str} (hp : target P c = some p) (hold : P.file p ≠ .missing) :
    (∀ fs, CrashState P.file es fs → fs p = P.file p) ∧ filesAfter P.file es p = P.file p ∨
    ∃ new, filesAfter P.file es p = .data new ∧
      (∀ fs, CrashState P.file es fs → fs p = P.file p ∨ ∃ n, n ≤ new.length ∧ fs p = .data (new.take n)) ∧
      (∀ n, n ≤ new.length → ∃ fs, CrashState P.file es fs ∧ fs p = .data (new.take n)) := by
  have hs := Shape.run P c i
  rw [h] at hs
  have htp : P.temp ≠ some p := fun ht => hold (hf p ht)
  have hb : ∀ es', Between P es' → ∀ e ∈ es', e.path ≠ some p :=
    fun es' hb e he hpath => htp ((hb.path e he).symm.trans hpath)
  generalize hr : (es, Except.ok ()) = r at hs
  cases hs with
  | quiet hq _ =>
    cases hr
    exact .inl ⟨fun fs hc => crash_other hc (hb _ hq), filesAfter_other (hb _ hq)⟩
  | killed hq => cases hr
  | @print es' s hq =>
    cases hr
    have hp' : ∀ e ∈ es' ++ [.print s], e.path ≠ some p := by
      intro e he
      rcases List.mem_append.1 he with he | he
      · exact hb _ hq e he
      · rw [List.mem_singleton] at he; subst he; simp [Event.path]
    exact .inl ⟨fun fs hc => crash_other hc hp', filesAfter_other hp'⟩
  | cut _ _ => cases hr
  | @write es' p' s hq ht =>
    simp only [Prod.mk.injEq] at hr
    obtain ⟨rfl, hres⟩ := hr
    rw [hp] at ht
    cases ht
    have hdone : P.saves p (utf8 s) = .done := by
      have hres : Except.ok () = if P.saves p (utf8 s) = .done then Except.ok () else .error CliError.io := hres
      by_cases hd : P.saves p (utf8 s) = .done
      · exact hd
      · rw [if_neg hd] at hres; cases hres
    have hw : (P.write p s).1 = [.write p (utf8 s) .done] := by
      unfold Proc.write
      simp only [hdone]
    rw [hw]
    refine .inr ⟨utf8 s, ?_, ?_, ?_⟩
    · rw [filesAfter_append]
      exact Files.put_same
    · intro fs hc
      rcases crash_append hc with hc | hc
      · exact .inl (crash_other hc (hb _ hq))
      · cases hc with
        | now => exact .inl (filesAfter_other (hb _ hq))
        | writing n hn _ _ => exact .inr ⟨n, hn, Files.put_same⟩
        | later hc =>
          cases hc
          exact .inr ⟨(utf8 s).length, Nat.le_refl _, by rw [List.take_length]; exact Files.put_same⟩
    · intro n hn
      exact ⟨_, crash_of_append (.writing n hn (by simp) (by rintro k ⟨⟩)), Files.put_same⟩

/-- **C38, negative.** So a crash can leave the file empty: neither what it was nor what it
should be. -/
theorem C38_crash_loses_file {P : Proc} (hf : FreshTemp P) {c : Command} {i : Nat} {es : List Event}
    (h : P.run c i = (es, .ok ())) {p : Str} (hp : target P c = some p) {old new : Bytes} (hold : P.file p = .data old)
    (hnew : filesAfter P.file es p = .data new) (hne : old ≠ new) (ho : old ≠ []) (hn : new ≠ []) :
    ∃ fs, CrashState P.file es fs ∧ fs p ≠ .data old ∧ fs p ≠ .data new := by
  rcases C38_crash_states hf h hp (by rw [hold]; simp) with ⟨_, h2⟩ | ⟨new', h1, _, h3⟩
  · rw [h2, hold] at hnew
    cases hnew
    exact absurd rfl hne
  · rw [hnew] at h1
    cases h1
    obtain ⟨fs, hc, hfs⟩ := h3 0 (Nat.zero_le _)
    refine ⟨fs, hc, ?_, ?_⟩
    · rw [hfs]; simp only [List.take_zero, ne_eq, Entry.data.injEq]; exact fun h => ho h.symm
    · rw [hfs]; simp only [List.take_zero, ne_eq, Entry.data.injEq]; exact fun h => hn h.symm

/-- A crash during `rops encrypt -i` may leave neither the plaintext nor the encrypted file. -/
example : ∃ f j, Toy.smallBuilder.encrypt Toy.env 0 = .ok (f, j) ∧
    ∃ fs, CrashState (Toy.proc Toy.rule (Toy.mapText Toy.small) []).file
      [.write c!"a.json" (utf8 (EncFile.toText Toy.jsonText Toy.env.C f)) .done] fs ∧
    fs c!"a.json" ≠ .data (utf8 (Toy.mapText Toy.small)) ∧
    fs c!"a.json" ≠ .data (utf8 (EncFile.toText Toy.jsonText Toy.env.C f)) := by
  obtain ⟨f, j, m', h, hr, ht, _⟩ := Toy.encrypted []
  have hp : EncFile.ofText Toy.jsonText Toy.docOps Toy.env.C (Toy.mapText Toy.small) = none := by
    have : (EncFile.ofText Toy.jsonText Toy.docOps Toy.env.C (Toy.mapText Toy.small)).isNone = true := by decide +kernel
    simpa using this
  have hne : EncFile.toText Toy.jsonText Toy.env.C f ≠ [] := by
    intro h0
    rw [h0] at ht
    cases ht
  refine ⟨f, j, h, C38_crash_loses_file (Toy.fresh _ _ _) hr rfl rfl rfl ?_ (by decide +kernel) ?_⟩
  · intro he
    have := utf8_injective he
    rw [← this, hp] at ht
    cases ht
  · intro he
    exact hne (utf8_injective (a := EncFile.toText Toy.jsonText Toy.env.C f) (b := []) he)

/-! ## C42 -/

/-- **C42.** Reading a configuration succeeds exactly if the file has a text that is a
configuration. -/
theorem C42_read (P : Proc) (p : Str) (config : Config) : P.readConfig p = .ok config ↔
    ∃ b s, P.file p = .data b ∧ utf8? b = some s ∧ Config.ofText (P.T .toml) P.O s = some config := by
  unfold Proc.readConfig Proc.readFile
  constructor
  · intro h
    split at h
    · cases h
    · rename_i s hs
      split at hs
      · rename_i b hb
        split at hs
        · rename_i s' hs'
          cases hs
          split at h
          · rename_i c hc; cases h; exact ⟨b, s, hb, hs', hc⟩
          · cases h
        · cases hs
      · cases hs
  · rintro ⟨b, s, h1, h2, h3⟩
    simp only [h1, h2, h3]

theorem configIn_eq (dir : List Str) : configIn dir = configPath dir := by
  cases dir with
  | nil => rfl
  | cons c r => simp [configIn, configPath, List.flatMap_append]

/-- **C42.** The configuration is the file given as argument, otherwise the one named by
ROPS_CONFIG, otherwise the file ".rops.toml" of the nearest directory, from the current one to
the root, that has one; whichever it is has to be readable, nothing else is tried. Without any
the configuration is empty. -/
theorem C42_lookup (P : Proc) (dir : List Str) (hd : P.cwd = some dir) (arg : Option Str) :
    P.retrieveConfig arg =
      match arg.or (P.configVar.or (((ancestors dir).map configPath).find? fun p => P.file p ≠ .missing)) with
      | some p => P.readConfig p
      | none => .ok [] := by
  have h : ∀ dir, P.traverse dir = match ((ancestors dir).map configPath).find? (fun p => P.file p ≠ .missing) with
      | some p => P.readConfig p
      | none => .ok [] := by
    intro dir
    induction dir with
    | nil =>
      unfold Proc.traverse ancestors
      by_cases hm : P.file (configIn []) = .missing
      · rw [if_pos hm]
        simp [← configIn_eq, hm]
      · rw [if_neg hm]
        simp [← configIn_eq, hm]
    | cons c r ih =>
      unfold Proc.traverse ancestors
      by_cases hm : P.file (configIn (c :: r)) = .missing
      · rw [if_pos hm, ih, List.map_cons, List.find?_cons]
        simp [← configIn_eq, hm]
      · rw [if_neg hm]
        simp [← configIn_eq, hm]
  unfold Proc.retrieveConfig
  cases arg with
  | some p => rfl
  | none =>
    cases hv : P.configVar with
    | some p => rfl
    | none =>
      simp only [hd, Option.none_or]
      rw [h dir]

/-- **C42.** Without a current directory (it may have been deleted) there has to be an argument
or a variable. -/
theorem C42_no_directory (P : Proc) (hd : P.cwd = none) (arg : Option Str) :
    P.retrieveConfig arg = match arg.or P.configVar with
      | some p => P.readConfig p
      | none => .error .io := by
  unfold Proc.retrieveConfig
  cases arg with
  | some p => rfl
  | none => cases hv : P.configVar <;> simp only [hd, Option.or_none, Option.none_or]

/-- **C42.** A configuration that cannot be read or parsed makes every command fail without any
effect, also those that do not use it. -/
theorem C42_malformed (P : Proc) (c : Command) (i : Nat) {e : CliError} (hc : P.retrieveConfig c.configPath = .error e) :
    ∃ e', P.run c i = ([], .error e') := by
  unfold Proc.run
  split
  · rw [hc]; exact ⟨_, rfl⟩
  · exact ⟨_, rfl⟩

/-- In the directory "/w" the configuration of the root directory is found. -/
example : ∃ r, (Toy.proc Toy.rule [] []).retrieveConfig none = .ok [r] := by
  rw [C42_lookup (Toy.proc Toy.rule [] []) [c!"w"] rfl none]
  have hc : (match (Toy.proc Toy.rule [] []).readConfig c!"/.rops.toml" with
    | .ok [_] => true
    | _ => false) = true := by decide +kernel
  split at hc
  · rename_i r h; exact ⟨r, h⟩
  · cases hc

/-- An argument that names no file is an error although there is a configuration. -/
example : (Toy.proc Toy.rule [] []).retrieveConfig (some c!"nope") = .error .io := by decide +kernel

/-- A rule without a pattern makes decryption fail. -/
example : (Toy.proc [] [] []).run (.decrypt Toy.placeLine) 0 = ([], .error .config) := by decide +kernel

/-! ## C36 -/

/-- **C36.** An explicit format decides; without format and file there is none. -/
theorem C36_explicit (p : Option Str) (x : Fmt) : getFormat p (some x) = .ok x ∧ getFormat none none = .error .foundNeither :=
  ⟨rfl, rfl⟩

theorem splitOn_ne_nil (c : Char) (s : Str) : splitOn c s ≠ [] := by
  cases s with
  | nil => simp [splitOn]
  | cons x r =>
    unfold splitOn
    split
    · simp
    · split <;> simp

theorem splitOn_append_sep (c : Char) (a b : Str) : splitOn c (a ++ c :: b) = splitOn c a ++ splitOn c b := by
  induction a with
  | nil => simp [splitOn]
  | cons x r ih =>
    rw [List.cons_append]
    by_cases hx : x = c
    · simp only [splitOn, hx, if_true, ih, List.cons_append]
    · simp only [splitOn, hx, if_false, ih]
      cases h : splitOn c r with
      | nil => exact absurd h (splitOn_ne_nil c r)
      | cons y l => simp

theorem splitOn_of_not_mem {c : Char} {s : Str} (h : c ∉ s) : splitOn c s = [s] := by
  induction s with
  | nil => rfl
  | cons x r ih =>
    have hx : x ≠ c := fun e => h (by simp [e])
    rw [splitOn, if_neg hx, ih fun hm => h (by simp [hm])]

theorem intercalate_eq_joinWith (c : Char) (ws : List Str) : List.intercalate [c] ws = joinWith c ws := by
  induction ws with
  | nil => rfl
  | cons w ws ih =>
    cases ws with
    | nil => simp [joinWith, List.intercalate]
    | cons w' ws' =>
      rw [joinWith, ← ih]
      simp [List.intercalate, List.intersperse]

theorem pathOf_iff {p : Str} {cs : List Str} : PathOf p cs ↔ splitOn '/' p = cs := by
  unfold PathOf
  rw [intercalate_eq_joinWith]
  constructor
  · rintro ⟨h1, h2, rfl⟩
    exact splitOn_joinWith h1 h2
  · rintro rfl
    exact ⟨splitOn_ne_nil _ _, fun c hc => not_mem_of_mem_splitOn hc, (joinWith_splitOn _ _).symm⟩

theorem idle_iff {c : Str} : (c != [] && c != c!".") = false ↔ Idle c := by
  unfold Idle
  rw [Bool.and_eq_false_iff, bne_eq_false_iff_eq, bne_eq_false_iff_eq]

theorem not_idle_iff {c : Str} : (c != [] && c != c!".") = true ↔ ¬ Idle c := by
  rw [← idle_iff, Bool.not_eq_false]

theorem fileName_of_last {p n : Str} (h : LastComponent p n) : fileName p = if n = c!".." then none else some n := by
  obtain ⟨cs, ts, h1, h2, h3⟩ := h
  rw [pathOf_iff] at h1
  have ht : ts.filter (fun c => c != [] && c != c!".") = [] := by
    rw [List.filter_eq_nil_iff]
    intro t ht hq
    exact not_idle_iff.1 hq (h3 t ht)
  unfold fileName
  rw [h1, List.filter_append, List.filter_cons, if_pos (not_idle_iff.2 h2), ht, List.reverse_append]
  rfl

/-- Every path has a last component or only idle ones. -/
theorem last_or_idle (p : Str) : (∃ n, LastComponent p n) ∨ ∀ c ∈ splitOn '/' p, Idle c := by
  have h : ∀ l : List Str, (∃ cs n ts, l = cs ++ n :: ts ∧ ¬ Idle n ∧ ∀ t ∈ ts, Idle t) ∨ ∀ c ∈ l, Idle c := by
    intro l
    induction l with
    | nil => exact .inr (by simp)
    | cons a r ih =>
      rcases ih with ⟨cs, n, ts, rfl, h1, h2⟩ | ih
      · exact .inl ⟨a :: cs, n, ts, rfl, h1, h2⟩
      · by_cases ha : Idle a
        · exact .inr (by simp only [List.mem_cons, forall_eq_or_imp]; exact ⟨ha, ih⟩)
        · exact .inl ⟨[], a, r, rfl, ha, ih⟩
  rcases h (splitOn '/' p) with ⟨cs, n, ts, h1, h2, h3⟩ | h
  · exact .inl ⟨n, cs, ts, pathOf_iff.2 h1, h2, h3⟩
  · exact .inr h

theorem lowerAscii_eq (c : Char) : lowerAscii c = c.toLower := by
  unfold lowerAscii Char.toLower
  by_cases hc : 'A' ≤ c ∧ c ≤ 'Z'
  · have hc' : c.val ≥ 'A'.val ∧ c.val ≤ 'Z'.val := hc
    rw [if_pos hc, dif_pos hc']
    have h2 : c.toNat ≤ 90 := hc.2
    apply Char.ext
    apply UInt32.toNat_inj.1
    have hv : (c.toNat + 32).isValidChar := .inl (by omega)
    rw [Char.ofNat, dif_pos hv]
    have h3 : c.val.toNat ≤ 90 := h2
    show (c.toNat + 32) = (c.val + ('a'.val - 'A'.val)).toNat
    rw [UInt32.toNat_add]
    show c.val.toNat + 32 = (c.val.toNat + 32) % 2 ^ 32
    omega
  · have hc' : ¬ (c.val ≥ 'A'.val ∧ c.val ≤ 'Z'.val) := hc
    rw [if_neg hc, dif_neg hc']

/-- **C36.** Without an explicit format the extension of the file decides, upper and lower case
being the same. -/
theorem C36_extension {p stem ext : Str} (h : LastComponent p (stem ++ '.' :: ext)) (hs : stem ≠ []) (he : '.' ∉ ext)
    (hp : stem ++ '.' :: ext ≠ c!"..") :
    getFormat (some p) none =
      if ext.map Char.toLower = c!"yaml" ∨ ext.map Char.toLower = c!"yml" then .ok .yaml
      else if ext.map Char.toLower = c!"json" then .ok .json
      else if ext.map Char.toLower = c!"toml" then .ok .toml
      else .error (.noFileExtension p) := by
  have hx : fileExtension p = some ext := by
    unfold fileExtension
    rw [fileName_of_last h, if_neg hp]
    have hr : (stem ++ '.' :: ext).reverse = ext.reverse ++ '.' :: stem.reverse := by simp
    simp only [hr]
    rw [splitOnce_append _ (by simpa using he)]
    simp [hs]
  have hl : ext.map lowerAscii = ext.map Char.toLower := by
    congr 1
    funext c
    exact lowerAscii_eq c
  unfold getFormat
  simp only [hx, Option.bind_some, Fmt.ofExtension, hl]
  split
  all_goals (repeat' split at *) 
  all_goals simp_all

/-- **C36.** A file name without extension (no point, or only one at the beginning, or "..")
gives an error. -/
theorem C36_no_extension {p n : Str} (h : LastComponent p n) (hn : '.' ∉ n ∨ (∃ r, n = '.' :: r ∧ '.' ∉ r) ∨ n = c!"..") :
    getFormat (some p) none = .error (.noFileExtension p) := by
  have hx : fileExtension p = none := by
    unfold fileExtension
    rw [fileName_of_last h]
    rcases hn with hn | ⟨r, rfl, hr⟩ | rfl
    · have : n ≠ c!".." := by rintro rfl; exact hn (by simp)
      rw [if_neg this]
      simp only [splitOnce_eq_none.2 (show '.' ∉ n.reverse by simpa using hn)]
    · have : '.' :: r ≠ c!".." := by rintro h; cases h; exact hr (by simp)
      rw [if_neg this]
      simp only [List.reverse_cons]
      rw [splitOnce_append _ (by simpa using hr)]
      simp
    · rfl
  unfold getFormat
  simp [hx]

/-- **C36.** Altogether: there is a format exactly if it is given, or else the file has a name (whatever
idle components follow) which has one of the extensions of the format, in upper or lower case. In all other
cases there is an error. -/
theorem C36_iff (path : Option Str) (format : Option Fmt) (x : Fmt) : getFormat path format = .ok x ↔
    format = some x ∨ format = none ∧ ∃ p stem ext, path = some p ∧ LastComponent p (stem ++ '.' :: ext) ∧ stem ≠ [] ∧
      '.' ∉ ext ∧ ext.map Char.toLower ∈ extensions x := by
  constructor
  · intro h
    cases format with
    | some y => cases h; exact .inl rfl
    | none =>
      cases path with
      | none => cases h
      | some p =>
        refine .inr ⟨rfl, p, ?_⟩
        rcases last_or_idle p with ⟨n, hn⟩ | hi
        · by_cases hne : ∃ stem ext, n = stem ++ '.' :: ext ∧ stem ≠ [] ∧ '.' ∉ ext ∧ n ≠ c!".."
          · obtain ⟨stem, ext, rfl, h1, h2, h3⟩ := hne
            rw [C36_extension hn h1 h2 h3] at h
            refine ⟨stem, ext, rfl, hn, h1, h2, ?_⟩
            split at h
            · rename_i hx; cases h; simpa [extensions] using hx
            · split at h
              · rename_i hx; cases h; simpa [extensions] using hx
              · split at h
                · rename_i hx; cases h; simpa [extensions] using hx
                · cases h
          · have : '.' ∉ n ∨ (∃ r, n = '.' :: r ∧ '.' ∉ r) ∨ n = c!".." := by
              by_cases hd : '.' ∈ n
              · by_cases h2 : n = c!".."
                · exact .inr (.inr h2)
                · refine .inr (.inl ?_)
                  obtain ⟨a, b, hab⟩ := List.append_of_mem (List.mem_reverse.2 hd)
                  cases hs : splitOnce '.' n.reverse with
                  | none => exact absurd (List.mem_reverse.2 hd) (splitOnce_eq_none.1 hs)
                  | some ab =>
                    obtain ⟨after, before⟩ := ab
                    obtain ⟨e1, e2⟩ := splitOnce_eq_some.1 hs
                    have hn' : n = before.reverse ++ '.' :: after.reverse := by
                      rw [← List.reverse_reverse n, e1]; simp
                    cases before with
                    | nil => exact ⟨after.reverse, by simpa using hn', by simpa using e2⟩
                    | cons c r =>
                      exact absurd ⟨(c :: r).reverse, after.reverse, hn', by simp, by simpa using e2, h2⟩ hne
              · exact .inl hd
            rw [C36_no_extension hn this] at h
            cases h
        · have hx : fileExtension p = none := by
            have hf : (splitOn '/' p).filter (fun c => c != [] && c != c!".") = [] := by
              rw [List.filter_eq_nil_iff]
              intro t ht hq
              exact not_idle_iff.1 hq (hi t ht)
            unfold fileExtension fileName
            rw [hf]
            rfl
          unfold getFormat at h
          simp [hx] at h
  · rintro (rfl | ⟨rfl, p, stem, ext, rfl, h1, h2, h3, h4⟩)
    · rfl
    · have hne : stem ++ '.' :: ext ≠ c!".." := by
        intro hq
        have he : ext = [] := by
          cases stem with
          | nil => exact absurd rfl h2
          | cons c r =>
            have hl := congrArg List.length hq
            simp at hl
            exact List.eq_nil_of_length_eq_zero (by omega)
        subst he
        cases x <;> simp [extensions] at h4
      rw [C36_extension h1 h2 h3 hne]
      cases x <;> simp only [extensions, List.mem_cons, List.not_mem_nil, or_false] at h4
      · rw [if_pos h4]
      · rw [if_neg (by rw [h4]; decide), if_pos h4]
      · rw [if_neg (by rw [h4]; decide), if_neg (by rw [h4]; decide), if_pos h4]

example : getFormat (some c!"/a.b/c.d.YmL") none = .ok .yaml := by
  refine (C36_extension (p := c!"/a.b/c.d.YmL") (stem := c!"c.d") (ext := c!"YmL") ⟨[[], c!"a.b"], [], ⟨by decide, by decide, by decide⟩, by unfold Idle; decide, by simp⟩ (by decide)
    (by decide) (by decide)).trans ?_
  decide

example : getFormat (some c!"a.json/.yaml") none = .error (.noFileExtension c!"a.json/.yaml") :=
  C36_no_extension (n := c!".yaml") ⟨[c!"a.json"], [], ⟨by decide, by decide, by decide⟩, by unfold Idle; decide, by simp⟩ (.inr (.inl ⟨_, rfl, by decide⟩))

example : getFormat (some c!"dir/s.Json/./") none = .ok .json :=
  (C36_iff _ _ _).2 (.inr ⟨rfl, _, c!"s", c!"Json", rfl,
    ⟨[c!"dir"], [c!".", []], ⟨by decide, by decide, by decide⟩, by unfold Idle; decide, by unfold Idle; decide⟩,
    by decide, by decide, by decide⟩)

end Rops.Props
