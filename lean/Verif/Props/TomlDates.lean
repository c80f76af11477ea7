import Verif.Lemmas.TomlDates
import Verif.Lemmas.TomlShown
import Verif.Props.TomlFiles
import Verif.Props.TomlSaid
/-!
# C86: the dates of TOML documents
-/

namespace Rops.Props

open Spec

/-- **C86.** Exactly the texts of dates and times, as RFC 3339 and TOML give them, are dates in a
document, and never numbers or truth values; the document holds the date in one way of writing. -/
theorem C86_texts {d x : Str} : TomlDateText rustToml d x ↔ ∃ t, TomlMomentText t x ∧ d = t.show := by
  refine ⟨fun h => rustToml_date.1 h.read, fun ⟨t, ht, e⟩ => ?_⟩
  have hb := moment_begins ht
  refine ⟨rustToml_date.2 ⟨t, ht, e⟩, moment_shape ht, fun i hi => ?_, fun f hf => ?_, (dateBegins_noBool hb).1, (dateBegins_noBool hb).2.1⟩
  · have := tomlInteger_iff.2 hi
    rw [dateBegins_noInt hb] at this
    cases this
  · have := tomlReadFloat_iff.2 hf
    rw [dateBegins_noFloat hb] at this
    cases this

/-- A moment for the examples: nanoseconds beyond the ninth digit are dropped. -/
def sampleMoment : TomlMoment := ⟨some ⟨1979, 5, 27⟩, some ⟨0, 32, 0, 999999⟩, some (.minutes (-420))⟩

example : TomlMomentText sampleMoment c!"1979-05-27 00:32:00.0009999997-07:00" ∧ sampleMoment.show = c!"1979-05-27T00:32:00.000999999-07:00" :=
  ⟨tomlMoment_iff.1 (by decide +kernel), by decide +kernel⟩

example : (∀ t, ¬ TomlMomentText t c!"1900-02-29") ∧ (∃ t, TomlMomentText t c!"2000-02-29") ∧ (∃ t, TomlMomentText t c!"23:59:60.5") ∧
    (∀ t, ¬ TomlMomentText t c!"07:32:00Z") ∧ (∀ t, ¬ TomlMomentText t c!"2000-01-01T24:00:00") := by
  refine ⟨fun t h => ?_, ⟨⟨some ⟨2000, 2, 29⟩, none, none⟩, tomlMoment_iff.1 (by decide +kernel)⟩,
    ⟨⟨none, some ⟨23, 59, 60, 500000000⟩, none⟩, tomlMoment_iff.1 (by decide +kernel)⟩, fun t h => ?_, fun t h => ?_⟩ <;>
  · have := tomlMoment_iff.2 h
    revert this
    rw [show tomlMoment _ = none by decide +kernel]
    exact fun h => nomatch h

/-- **C86.** No text stands for two dates. -/
theorem C86_unambiguous {t t' : TomlMoment} {x : Str} (h : TomlMomentText t x) (h' : TomlMomentText t' x) : t = t' :=
  Option.some.inj ((tomlMoment_iff.2 h).symm.trans (tomlMoment_iff.2 h'))

example {t : TomlMoment} (h : TomlMomentText t c!"1979-05-27t00:32:00.000999999-07:00") : t = sampleMoment :=
  C86_unambiguous h (tomlMoment_iff.1 (by decide +kernel))

/-- **C86.** The dates that can be read are those of the calendar, and each is read from the text that
is written for it: so dates that are not the same are written differently. -/
theorem C86_written {t : TomlMoment} : TomlPossible t ↔ TomlMomentText t t.show :=
  ⟨fun h => moment_shown (moment_possible.2 h).choose_spec, fun h => moment_possible.1 ⟨_, h⟩⟩

example : TomlPossible sampleMoment := C86_written.2 (tomlMoment_iff.1 (by decide +kernel))

/-- **C86.** The one way of writing: of all texts of a date it is the shortest that has "T" before the
time, "Z" for UTC and "+" before no distance to it. -/
theorem C86_shown {t : TomlMoment} {x : Str} (h : TomlMomentText t x) : x = t.show ↔
    (∀ y, TomlMomentText t y → x.length ≤ y.length) ∧ ('t' ∉ x ∧ 'z' ∉ x ∧ ' ' ∉ x) ∧
      (t.offset = some (.minutes 0) → ∃ a, x = a ++ c!"+00:00") := by
  constructor
  · rintro rfl
    exact ⟨fun y hy => show_least hy, ⟨fun h' => (show_marks h _ h').1 rfl, fun h' => (show_marks h _ h').2.1 rfl,
      fun h' => (show_marks h _ h').2.2 rfl⟩, show_zero⟩
  · exact fun ⟨hl, ⟨h1, h2, h3⟩, h0⟩ => show_only h (hl _ (moment_shown h)) h1 h2 h3 h0

example : (∀ y, TomlMomentText sampleMoment y → c!"1979-05-27T00:32:00.000999999-07:00".length ≤ y.length) ∧
    ∃ y, TomlMomentText sampleMoment y ∧ c!"1979-05-27T00:32:00.000999999-07:00".length < y.length :=
  ⟨((C86_shown (tomlMoment_iff.1 (by decide +kernel))).1 (by decide +kernel)).1,
    c!"1979-05-27 00:32:00.0009999990-07:00", tomlMoment_iff.1 (by decide +kernel), by decide +kernel⟩

/-- **C86.** What is in place of a date when its document was encrypted and decrypted, a text, is
still one of the same date. -/
theorem C86_still {t : TomlMoment} {d x : Str} (hx : TomlMomentText t x) (hd : TomlDateText rustToml d x) :
    TomlMomentText t d ∧ TomlDateText rustToml d d := by
  obtain ⟨t', ht', rfl⟩ := C86_texts.1 hd
  obtain rfl := C86_unambiguous hx ht'
  exact ⟨moment_shown hx, C86_texts.2 ⟨t, moment_shown hx, rfl⟩⟩

example : TomlMomentText sampleMoment sampleMoment.show :=
  (C86_still (x := c!"1979-05-27 00:32:00.0009999997-07:00") (tomlMoment_iff.1 (by decide +kernel))
    (C86_texts.2 ⟨sampleMoment, tomlMoment_iff.1 (by decide +kernel), rfl⟩)).1

/-- **C86.** A document that is read, if it has not too many levels, is read again from the text
written for it, in its order; from then on neither it nor its text changes. Nothing is assumed of
floats or dates. -/
theorem C86_stable {s : Str} {d : List (Str × Toml)} (h : rustToml.ops.parse s = some d) (hl : tomlLevels (.table d) < 80) :
    rustToml.ops.parse (rustToml.ops.render d) = some (DocFormat.toml.order d) ∧
    DocFormat.toml.order (DocFormat.toml.order d) = DocFormat.toml.order d ∧
    rustToml.ops.render (DocFormat.toml.order d) = rustToml.ops.render d :=
  C81_stable (fun _ _ h => rustToml_kept h) h hl

/-- A text for the examples, with dates in different places. -/
def datedToml : Str := c!"born = 1979-05-27 07:32:00z # UTC\nalarms = [ 07:30:00, 08:00:00.50 ]\n[a]\nb = { c = 2000-02-29 }\n"

theorem datedToml_parsed : rustToml.ops.parse datedToml =
    some [(c!"born", .datetime c!"1979-05-27T07:32:00Z"), (c!"alarms", .array [.datetime c!"07:30:00", .datetime c!"08:00:00.5"]),
      (c!"a", .table [(c!"b", .table [(c!"c", .datetime c!"2000-02-29")])])] := parsed_same (by decide +kernel)

example : rustToml.ops.parse (rustToml.ops.render
      [(c!"born", .datetime c!"1979-05-27T07:32:00Z"), (c!"alarms", .array [.datetime c!"07:30:00", .datetime c!"08:00:00.5"]),
        (c!"a", .table [(c!"b", .table [(c!"c", .datetime c!"2000-02-29")])])]) = some (DocFormat.toml.order
      [(c!"born", .datetime c!"1979-05-27T07:32:00Z"), (c!"alarms", .array [.datetime c!"07:30:00", .datetime c!"08:00:00.5"]),
        (c!"a", .table [(c!"b", .table [(c!"c", .datetime c!"2000-02-29")])])]) :=
  (C86_stable datedToml_parsed (by decide +kernel)).1

/-- **C86.** Nothing is assumed of the scalars in the theorems on TOML files (C82). -/
theorem C86_laws : TomlScalarLaws rustToml f64Floats :=
  C82_scalars fun _ _ h => by
    obtain ⟨t, ht, rfl⟩ := rustToml_date.1 h
    exact (dateBegins_noBool (moment_begins (moment_shown ht))).2.2

/-- **C86.** The documents that are read: exactly the texts by the grammar of TOML, with the dates
above and the floats of Rust, whose statements fit together. -/
theorem C86_read {s : Str} : (rustToml.ops.parse s).isSome ↔ ∃ l, TomlDocumentText rustToml l s ∧ TomlSketch.start.FitsAll l :=
  C85_read rfl

example : ∃ l, TomlDocumentText rustToml l datedToml ∧ TomlSketch.start.FitsAll l := C86_read.1 (by rw [datedToml_parsed]; rfl)

end Rops.Props
