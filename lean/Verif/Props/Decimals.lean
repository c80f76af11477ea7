import Verif.Lemmas.FloatLayout
import Verif.Lemmas.SerdeError
import Verif.Props.Floats
/-!
# C78: which text stands for which float
-/

namespace Rops.Props
open Spec

/-- **C78.** Rounding is determined: it gives the nearest float, and the even one of two. -/
theorem C78_rounded {p q v : Nat} (hq : 0 < q) : Nearest p q v ↔ v = f64Round p q := nearest_iff hq

-- half way between two floats, twice
example : Nearest (2 ^ 54 + 1) 2 (2 ^ 53) ∧ Nearest 3 2 2 ∧ ¬ Nearest 3 2 1 := by
  rw [C78_rounded (by decide), C78_rounded (by decide), C78_rounded (by decide)]
  decide +kernel

/-- **C78.** A text is read as a float exactly if it is in the grammar of floats, and then as the nearest
one, or as infinite if this is too large; the sign is kept. -/
theorem C78_read {s : Str} {f : F64} : F64.parse s = some f ↔ FloatText s f := floatText_iff

example : FloatText c!"-.5e1" (.finite true (5 * 2 ^ 1074)) ∧ FloatText c!"+Infinity" (.infinite false) ∧ FloatText c!"-1e999" (.infinite true) ∧
    ¬ ∃ f, FloatText c!"." f := by
  simp only [← C78_read]
  refine ⟨by decide +kernel, by decide +kernel, by decide +kernel, ?_⟩
  rintro ⟨f, h⟩
  rw [show F64.parse c!"." = none by decide +kernel] at h
  cases h

theorem plain_chars (d : Nat) (k : Int) : ∀ c ∈ plainDecimal d k, c.isDigit = true ∨ c = '.' := by
  have ha := allDigits_toDigits d
  unfold plainDecimal
  generalize Nat.toDigits 10 d = ds at *
  simp only
  split
  · intro c hc
    exact .inl (ha.append (allDigits_zeros _) c hc)
  · intro c hc
    have hz := (allDigits_zeros ((-k).toNat + 1 - ds.length)).append ha
    rcases List.mem_append.1 hc with h | h
    · exact .inl (hz.take _ c h)
    · rcases List.mem_cons.1 h with rfl | h
      · exact .inr rfl
      · exact .inl (hz.drop _ c h)

/-- **C78.** The text that rops keeps for a float: a sign if it is negative, and the digits of a shortest
decimal, without an exponent. -/
theorem C78_shown {neg : Bool} {v : Nat} (h : InRange (.finite neg v)) (h0 : v ≠ 0) :
    ∃ x n e, F64.show (.finite neg v) = (if neg = true then ['-'] else []) ++ x ∧ DecimalText x n e ∧ ShortestDecimal v n e ∧
      ∀ c ∈ x, c.isDigit = true ∨ c = '.' := by
  obtain ⟨n, e, h1, h2⟩ := shortest_decimal h h0 (stands_plain _ _)
  refine ⟨_, n, e, ?_, h1, h2, plain_chars _ _⟩
  show signText neg ++ (if v = 0 then c!"0" else plainDecimal (shortest v).1 (shortest v).2) = _
  rw [if_neg h0]
  rfl

/-- **C78.** The text in JSON files is a shortest decimal as well. -/
theorem C78_json_shown {neg : Bool} {v : Nat} (h : InRange (.finite neg v)) (h0 : v ≠ 0) :
    ∃ x n e, serdeFloats.write (F64.show (.finite neg v)) = (if neg = true then ['-'] else []) ++ x ∧ DecimalText x n e ∧ ShortestDecimal v n e := by
  obtain ⟨n, e, h1, h2⟩ := shortest_decimal h h0 (stands_ryu _ _)
  refine ⟨_, n, e, ?_, h1, h2⟩
  show (match F64.parse (F64.show (.finite neg v)) with | some (.finite n v) => F64.ryu n v | _ => c!"null") = _
  rw [parse_show h]
  show signText neg ++ (if v = 0 then c!"0.0" else ryuDecimal (shortest v).1 (shortest v).2) = _
  rw [if_neg h0]
  rfl

/-- **C78.** In JSON files it has an exponent exactly if it is less than 10 ^ -5 or not less than 10 ^ 16, and otherwise a point with digits on both
sides, also if it is a whole number: a float is never written as an integer is. -/
theorem C78_json_layout {neg : Bool} {v : Nat} (h : InRange (.finite neg v)) (h0 : v ≠ 0) :
    ∃ x n e, serdeFloats.write (F64.show (.finite neg v)) = (if neg = true then ['-'] else []) ++ x ∧ DecimalText x n e ∧ ShortestDecimal v n e ∧
      ('e' ∉ x ↔ 10 ^ (-e).toNat ≤ n * 10 ^ e.toNat * 10 ^ 5 ∧ n * 10 ^ e.toNat < 10 ^ 16 * 10 ^ (-e).toNat) ∧
      ('e' ∉ x → ∃ a b, x = a ++ '.' :: b ∧ Digits a ∧ Digits b) := by
  obtain ⟨n, e, h1, h2, h3⟩ := ryu_written h h0
  refine ⟨_, n, e, ?_, h1, h2, h3, (ryu_layout _ _).2⟩
  show (match F64.parse (F64.show (.finite neg v)) with | some (.finite n v) => F64.ryu n v | _ => c!"null") = _
  rw [parse_show h]
  show signText neg ++ (if v = 0 then c!"0.0" else ryuDecimal (shortest v).1 (shortest v).2) = _
  rw [if_neg h0]
  rfl

-- at the limits
example : F64.ryu false (f64Round (10 ^ 16 * f64One) 1) = c!"1e16" ∧ F64.ryu false (f64Round (10 ^ 15 * f64One) 1) = c!"1000000000000000.0" ∧
    F64.ryu true (f64Round f64One (10 ^ 5)) = c!"-0.00001" ∧ F64.ryu false (f64Round (12 * f64One) (10 ^ 7)) = c!"1.2e-6" := by decide +kernel

-- a third, the smallest positive float, the largest float, and two that are negative
example : F64.show (.finite false (f64Round f64One 3)) = c!"0.3333333333333333" ∧ F64.ryu false 1 = c!"5e-324" ∧
    F64.ryu false (2 ^ 2098 - 2 ^ 2045) = c!"1.7976931348623157e308" ∧ F64.show (.finite true (2 ^ 1075)) = c!"-2" ∧
    F64.show (.finite true 0) = c!"-0" := by decide +kernel

/-- **C78.** The float that is read from a number in a JSON file is as near to it as 50 binary digits
allow, or one unit of the smallest floats; its sign is the one of the number. -/
theorem C78_json_read {x : Str} {n : Nat} {e : Int} (h : DecimalText x n e) (neg : Bool) {f : F64}
    (hf : serdeRead ((if neg = true then ['-'] else []) ++ x) = some f) :
    ∃ g, f = .finite neg g ∧
      offBy (n * 10 ^ e.toNat * 2 ^ 1074) (10 ^ (-e).toNat) g * 2 ^ 50 ≤ n * 10 ^ e.toNat * 2 ^ 1074 + 10 ^ (-e).toNat * 2 ^ 50 := by
  have := (serdeRead_close h neg).1 f hf
  rwa [f64One_eq] at this

/-- **C78.** Only numbers above 2 ^ 1024, or below by less than 50 binary digits can tell, are out of range. -/
theorem C78_json_range {x : Str} {n : Nat} {e : Int} (h : DecimalText x n e) (neg : Bool)
    (hf : serdeRead ((if neg = true then ['-'] else []) ++ x) = none) :
    2 ^ 1024 * 2 ^ 1074 * 2 ^ 50 * 10 ^ (-e).toNat ≤ (2 ^ 50 + 1) * (n * 10 ^ e.toNat * 2 ^ 1074) := by
  have := (serdeRead_close h neg).2 hf
  rw [← f64Limit_eq, ← f64One_eq]
  exact this

-- more digits than fit into 64 bits, and more zeros than there are in the largest float
example : serdeRead c!"18446744073709551619.3e-700" = some (.finite false 0) ∧ serdeRead c!"1e309" = none ∧
    (serdeRead c!"-18446744073709551619.3").map F64.show = some c!"-18446744073709552000" := by decide +kernel

/-- **C78.** A float below 2 ^ 1023 that is written into a JSON file is read from it as a float that
differs from it by at most a part in 2 ^ 49, or two units of the smallest floats. (C73: it may differ.) -/
theorem C78_drift {neg : Bool} {v : Nat} (h : InRange (.finite neg v)) (hl : Moderate v) :
    ∃ g, serdeFloats.read (serdeFloats.write (F64.show (.finite neg v))) = some (F64.show (.finite neg g)) ∧ InRange (.finite neg g) ∧
      ((g - v) + (v - g)) * 2 ^ 49 ≤ v + 2 ^ 50 := by
  rw [moderate_iff] at hl
  have hw : serdeFloats.write (F64.show (.finite neg v)) = F64.ryu neg v := by
    show (match F64.parse (F64.show (.finite neg v)) with | some (.finite n v) => F64.ryu n v | _ => c!"null") = _
    rw [parse_show h]
  have hd : ∃ x n e, F64.ryu neg v = signText neg ++ x ∧ DecimalText x n e ∧ f64OfDecimal n e = v := by
    by_cases h0 : v = 0
    · subst h0
      exact ⟨c!"0.0", 0, -1, rfl, ⟨c!"0", c!"0", [], 0, ⟨0, .digit 0 (by decide)⟩, .more (s := c!"0") 0 (.digit 0 (by decide)) (by decide), rfl,
        .inl ⟨rfl, rfl⟩, rfl⟩, f64OfDecimal_zero _⟩
    · obtain ⟨n, e, h1, h2⟩ := shortest_decimal h h0 (stands_ryu _ _)
      refine ⟨_, n, e, ?_, h1, (nearestDecimal_iff.1 h2.1).symm⟩
      unfold F64.ryu
      rw [if_neg h0]
  obtain ⟨x, n, e, h1, h2, h3⟩ := hd
  obtain ⟨g, hg, hc⟩ := drift_close h2 h3 neg hl
  rw [← h1] at hg
  obtain ⟨b, w, hbw, hin⟩ := inRange_serdeRead hg
  refine ⟨g, ?_, ?_, hc⟩
  · rw [hw]
    show (serdeRead _).map F64.show = _
    rw [hg]
    rfl
  · cases hbw
    exact hin

example : ∃ g, serdeFloats.read (serdeFloats.write (F64.show (.finite true (3 * f64One)))) = some (F64.show (.finite true g)) :=
  (C78_drift three_moderate.1 three_moderate.2).imp fun _ h => h.1

example : serdeFloats.read (serdeFloats.write c!"9.074340925238959") = some c!"9.07434092523896" := by decide +kernel

end Rops.Props
