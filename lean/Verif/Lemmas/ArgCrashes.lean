import Verif.Lemmas.Args
/-! Lemmas about command lines that panic. -/

namespace Rops

theorem option_panic {O : DocOps} {m : Matches} {a : Arg} {v : Str} (h : m.option O a v = .error .panic) :
    a = .awsKms ∧ AwsKeyId.parse O.arn v = .error .panic := by
  have once : ∀ {α : Type} (o p : Option α), setOnce o p ≠ .error .panic := by
    intro α o p h
    unfold setOnce at h
    split at h <;> cases h
  unfold Matches.option at h
  split at h
  case h_2 =>
    split at h
    · cases h
    · rename_i he; exact ⟨rfl, he⟩
    · cases h
  case h_1 => split at h <;> cases h
  all_goals first | (cases h; done) | (split at h; cases h; rename_i he; cases h; exact absurd he (once _ _))

theorem flag_ne_panic {m : Matches} {a : Arg} : m.flag a ≠ .error .panic := by
  intro h
  unfold Matches.flag at h
  split at h <;> first | cases h | (split at h <;> cases h)

theorem positional_ne_panic {m : Matches} {v : Str} : m.positional v ≠ .error .panic := by
  intro h
  unfold Matches.positional at h
  split at h
  · cases h
  · rename_i he
    cases h
    unfold setOnce at he
    split at he <;> cases he

theorem positionals_ne_panic {m : Matches} {ws : List Str} : m.positionals ws ≠ .error .panic := by
  induction ws generalizing m with
  | nil => exact nofun
  | cons w r ih =>
    intro h
    unfold Matches.positionals at h
    split at h
    · exact ih h
    · rename_i he
      cases h
      exact positional_ne_panic he

theorem cluster_ne_panic {O : DocOps} {args : List Arg} {m : Matches} {s : Str} : m.cluster O args s ≠ .error .panic := by
  induction s generalizing m with
  | nil => exact nofun
  | cons c r ih =>
    intro h
    unfold Matches.cluster at h
    split at h
    · cases h
    rename_i a ha
    have hs := (find_short.1 ha).2
    have hk : ∀ v, m.option O a v ≠ .error .panic := fun v h => by
      obtain ⟨rfl, _⟩ := option_panic h
      cases hs
    split at h
    · split at h
      · cases h
      · split at h
        · cases h
        · rename_i he; cases h; exact hk _ he
      · split at h
        · cases h
        · rename_i he; cases h; exact hk _ he
    · split at h
      · exact ih h
      · rename_i he; cases h; exact flag_ne_panic he

theorem cluster_waits {O : DocOps} {args : List Arg} {m m' : Matches} {s : Str} {a : Arg}
    (h : m.cluster O args s = .ok (m', some a)) : a.short ≠ none := by
  induction s generalizing m with
  | nil => cases h
  | cons c r ih =>
    unfold Matches.cluster at h
    split at h
    · cases h
    rename_i b hb
    have hs := (find_short.1 hb).2
    split at h
    · split at h
      · cases h
        rw [hs]
        exact nofun
      · split at h <;> cases h
      · split at h <;> cases h
    · split at h
      · exact ih h
      · cases h

theorem longWord_panic {O : DocOps} {args : List Arg} {m : Matches} {w : Str} (h : m.longWord O args w = .error .panic) :
    Arg.awsKms ∈ args ∧ ∃ v, w = c!"aws-kms=" ++ v ∧ AwsKeyId.parse O.arn v = .error .panic := by
  unfold Matches.longWord at h
  cases hs : splitOnce '=' w with
  | none =>
    rw [hs] at h
    simp only at h
    split at h
    · cases h
    split at h
    · cases h
    · split at h
      · cases h
      · rename_i he; cases h; exact absurd he flag_ne_panic
  | some p =>
    obtain ⟨n, v⟩ := p
    obtain ⟨rfl, _⟩ := splitOnce_eq_some.1 hs
    rw [hs] at h
    simp only at h
    split at h
    · cases h
    rename_i a ha
    obtain ⟨hm, rfl⟩ := find_long.1 ha
    split at h
    · split at h
      · cases h
      · rename_i he
        cases h
        obtain ⟨rfl, hv⟩ := option_panic he
        exact ⟨hm, v, rfl, hv⟩
    · cases h

theorem longWord_waits {O : DocOps} {args : List Arg} {m m' : Matches} {w : Str} {a : Arg}
    (h : m.longWord O args w = .ok (m', some a)) : a ∈ args ∧ w = a.long := by
  unfold Matches.longWord at h
  cases hs : splitOnce '=' w with
  | none =>
    rw [hs] at h
    simp only at h
    split at h
    · cases h
    rename_i b hb
    obtain ⟨hm, rfl⟩ := find_long.1 hb
    split at h
    · cases h
      exact ⟨hm, rfl⟩
    · split at h <;> cases h
  | some p =>
    rw [hs] at h
    simp only at h
    split at h
    · cases h
    split at h
    · split at h <;> cases h
    · cases h

theorem word_panic {O : DocOps} {args : List Arg} {m : Matches} {w : Str} (h : m.word O args w = .error .panic) :
    Arg.awsKms ∈ args ∧ ∃ v, w = c!"--aws-kms=" ++ v ∧ AwsKeyId.parse O.arn v = .error .panic := by
  unfold Matches.word at h
  split at h
  · obtain ⟨hm, v, rfl, hv⟩ := longWord_panic h
    exact ⟨hm, v, rfl, hv⟩
  · exact absurd h cluster_ne_panic
  · split at h
    · cases h
    · rename_i he; cases h; exact absurd he positional_ne_panic

theorem word_waits {O : DocOps} {args : List Arg} {m m' : Matches} {w : Str}
    (h : m.word O args w = .ok (m', some .awsKms)) : Arg.awsKms ∈ args ∧ w = c!"--aws-kms" := by
  unfold Matches.word at h
  split at h
  · obtain ⟨hm, rfl⟩ := longWord_waits h
    exact ⟨hm, rfl⟩
  · exact absurd rfl (cluster_waits h)
  · split at h <;> cases h

theorem words_panic {O : DocOps} {args : List Arg} {m : Matches} {p : Option Arg} {ws : List Str}
    (h : m.words O args p ws = .error .panic) :
    (p = some .awsKms ∧ ∃ v r, ws = v :: r ∧ AwsKeyId.parse O.arn v = .error .panic) ∨
    Arg.awsKms ∈ args ∧ ∃ pre given rest v, ws = pre ++ given ++ rest ∧ Spec.KmsWords v given ∧
      AwsKeyId.parse O.arn v = .error .panic := by
  induction ws generalizing m p with
  | nil => cases p <;> cases h
  | cons w r ih =>
    cases p with
    | some a =>
      unfold Matches.words at h
      split at h
      · cases h
      split at h
      · rcases ih h with ⟨h0, _⟩ | ⟨hm, pre, given, rest, v, rfl, hg, hv⟩
        · cases h0
        · exact .inr ⟨hm, w :: pre, given, rest, v, by simp, hg, hv⟩
      · rename_i he
        cases h
        obtain ⟨rfl, hv⟩ := option_panic he
        exact .inl ⟨rfl, w, r, rfl, hv⟩
    | none =>
      unfold Matches.words at h
      split at h
      · exact absurd h positionals_ne_panic
      split at h
      · rename_i m' p' hw
        rcases ih h with ⟨rfl, v, r', rfl, hv⟩ | ⟨hm, pre, given, rest, v, rfl, hg, hv⟩
        · obtain ⟨hm, rfl⟩ := word_waits hw
          exact .inr ⟨hm, [], _, r', v, rfl, .inl rfl, hv⟩
        · exact .inr ⟨hm, w :: pre, given, rest, v, by simp, hg, hv⟩
      · rename_i he
        cases h
        obtain ⟨hm, v, rfl, hv⟩ := word_panic he
        exact .inr ⟨hm, [], _, r, v, rfl, .inr rfl, hv⟩

theorem words_panics {O : DocOps} {args : List Arg} (m : Matches) (hm : Arg.awsKms ∈ args) {v : Str} {given : List Str}
    (hg : Spec.KmsWords v given) (hp : given = [c!"--aws-kms", v] → Spec.PlainWord v)
    (hv : AwsKeyId.parse O.arn v = .error .panic) (rest : List Str) :
    m.words O args none (given ++ rest) = .error .panic := by
  have hf : args.find? (fun a => a.long == c!"aws-kms") = some .awsKms := find_long.2 ⟨hm, rfl⟩
  have ho : m.option O .awsKms v = .error .panic := by simp only [Matches.option, hv]
  rcases hg with rfl | rfl
  · have hw : m.word O args c!"--aws-kms" = .ok (m, some .awsKms) := by
      show m.longWord O args c!"aws-kms" = _
      unfold Matches.longWord
      rw [show splitOnce '=' c!"aws-kms" = none by decide]
      simp only [hf]
      rfl
    simp only [List.cons_append, List.nil_append]
    rw [words_none_cons (by decide), hw]
    simp only [Matches.words, isOptionWord_iff.2 (hp rfl), ho, Bool.false_eq_true, if_false]
  · have hw : m.word O args (c!"--aws-kms=" ++ v) = .error .panic := by
      show m.longWord O args (c!"aws-kms=" ++ v) = _
      unfold Matches.longWord
      rw [show c!"aws-kms=" ++ v = c!"aws-kms" ++ '=' :: v from rfl, splitOnce_append _ (by decide)]
      simp only [hf, ho]
      rfl
    rw [List.singleton_append, words_none_cons (by simp), hw]

end Rops
