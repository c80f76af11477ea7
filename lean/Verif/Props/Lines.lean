import Verif.Lemmas.LinesToml
import Verif.Props.Files
/-!
# C95: an edit changes few lines

Files are meant to be kept under version control. After an edit only the lines of changed values differ, and those
of the date and the MAC.
-/

namespace Rops.Props
open Spec

/-- **C95.** After an edit, a value that was in the file with the same keys is written as before: with the ciphertext
that it had, or in plaintext. Of the metadata only date and MAC are others. -/
theorem C95_kept {env : Env} (he : EnvLaws env) {F Fo : Format} {rep rep' : Value → Prop} (hFo : Format.Lawful Fo rep')
    {f f1 : EncFile F} {key : Bytes} {m m1 : RMap Value} {m' : RMap EncLeaf} (h : Holding env rep f key m m') (hm' : Holds rep' m)
    (hu : OneNonceEach m m') {g g1 : DecFile Fo} {p : SavedParameters} (hd : f.decryptAndSave Fo env = .ok (g, p)) {other : Fo.Map} {c : Nat}
    (hs : g.setMap env other c = .ok g1) (hr : Fo.toInternal g1.map = .ok m1) {i j : Nat} (h1 : g1.encryptSaved F env p i = .ok (f1, j)) :
    ∃ m1', F.encOfInternal env.C m1' = some f1.map ∧ shapeMap m1' = shapeMap m1 ∧
      (∀ (a b : Nat) (q : List Str) (v : Value) (l : EncLeaf), (leaves m)[a]? = some (q, v) → (leaves m')[a]? = some (q, l) →
        (leaves m1)[b]? = some (q, v) → (leaves m1')[b]? = some (q, l)) ∧
      f1.metadata = { f.metadata with lastModified := f1.metadata.lastModified, mac := f1.metadata.mac } := by
  obtain ⟨m1', a, b, c, _, d⟩ := edit_keeps he hFo h hm' hu hd hs hr h1
  exact ⟨m1', a, b, c, d⟩

/-- **C95.** An edit that changes only values, `k` of them, changes no more than `k + 2` lines of a JSON file. The file
keeps its number of lines. -/
theorem C95_json {env : Env} (he : EnvLaws env) {Fo : Format} {rep rep' : Value → Prop} (hFo : Format.Lawful Fo rep')
    {f f1 : EncFile DocFormat.json.F} {key : Bytes} {m m1 : RMap Value} {m' : RMap EncLeaf} (h : Holding env rep f key m m') (hm' : Holds rep' m)
    (hu : OneNonceEach m m') {g g1 : DecFile Fo} {p : SavedParameters} (hd : f.decryptAndSave Fo env = .ok (g, p)) {other : Fo.Map} {c : Nat}
    (hs : g.setMap env other c = .ok g1) (hr : Fo.toInternal g1.map = .ok m1) (hsh : shapeMap m = shapeMap m1) {i j : Nat}
    (h1 : g1.encryptSaved DocFormat.json.F env p i = .ok (f1, j)) :
    FewLines (changes (leaves m) (leaves m1) + 2) (EncFile.toText serdeFloats.ops env.C f) (EncFile.toText serdeFloats.ops env.C f1) := by
  obtain ⟨m1', a, b, c, _, d⟩ := edit_keeps he hFo h hm' hu hd hs hr h1
  have e : shapeMap m' = shapeMap m := h.sealed.1
  exact (json_file_lines no_break_serde h.written a (by rw [e, b, hsh]) d).mono (Nat.add_le_add_right (kept_changes e b hsh c) 2)

/-- **C95.** The same for YAML files, if no texts of several lines are among the changed values in plaintext. (Encrypted
values are on one line whatever they hold.) -/
theorem C95_yaml {env : Env} (he : EnvLaws env) (hC : NameOfWords env.C) {Fo : Format} {rep rep' : Value → Prop} (hFo : Format.Lawful Fo rep')
    {f f1 : EncFile DocFormat.yaml.F} {key : Bytes} {m m1 : RMap Value} {m' : RMap EncLeaf} (h : Holding env rep f key m m') (hm' : Holds rep' m)
    (hu : OneNonceEach m m') {g g1 : DecFile Fo} {p : SavedParameters} (hd : f.decryptAndSave Fo env = .ok (g, p)) {other : Fo.Map} {c : Nat}
    (hs : g.setMap env other c = .ok g1) (hr : Fo.toInternal g1.map = .ok m1) (hsh : shapeMap m = shapeMap m1)
    (hl : OneLineChanges env.rx f.metadata.partialEncryption m m1) {i j : Nat} (h1 : g1.encryptSaved DocFormat.yaml.F env p i = .ok (f1, j)) :
    FewLines (changes (leaves m) (leaves m1) + 2) (EncFile.toText blockLayout.ops env.C f) (EncFile.toText blockLayout.ops env.C f1) := by
  obtain ⟨m1', a, b, c, c2, d⟩ := edit_keeps he hFo h hm' hu hd hs hr h1
  have e : shapeMap m' = shapeMap m := h.sealed.1
  refine (yaml_file_lines hC h.written a (by rw [e, b, hsh]) ?_ d).mono (Nat.add_le_add_right (kept_changes e b hsh c) 2)
  intro x hx hne
  obtain ⟨n, hn⟩ := List.getElem?_of_mem hx
  obtain ⟨⟨q, l⟩, ⟨q1, l1⟩⟩ := x
  obtain ⟨g1, g2⟩ := List.getElem?_zip_eq_some.1 hn
  obtain ⟨⟨q0, v⟩, hv, e0, hz⟩ := h.sealed.2.getElem' g1
  simp only at e0 hz
  subst e0
  obtain ⟨w, hw, hz1⟩ := c2 n _ _ g2
  obtain ⟨w', hw'⟩ := path_at hsh hv
  rw [hw] at hw'
  obtain ⟨rfl, rfl⟩ := Prod.mk.inj (Option.some.inj hw')
  have hvw : v ≠ w := by
    rintro rfl
    have := c n n _ v l hv g1 hw
    rw [g2] at this
    exact hne (by rw [← Option.some.inj this])
  have hpl : Plain env.rx f.metadata.partialEncryption (q1.map lastPart) ↔ Plain env.rx f.metadata.partialEncryption q1 :=
    plain_lastPart h.fits.keys (List.mem_of_getElem? hv)
  constructor
  · rcases hz with ⟨hp, rfl⟩ | ⟨_, ev, rfl, _⟩
    · exact brief_value (hl n q1 v w hv hw hvw hp).1
    · exact brief_text (no_break_encText hC ev)
  · rcases hz1 with ⟨ev, rfl⟩ | ⟨rfl, hp⟩
    · exact brief_text (no_break_encText hC ev)
    · exact brief_value (hl n q1 v w hv hw hvw (hpl.1 hp)).2

/-- **C95.** The same for TOML files, with sections or without. -/
theorem C95_toml {S : TomlScalars} {env : Env} (he : EnvLaws env) (hC : NameOfWords env.C) {Fo : Format} {rep rep' : Value → Prop} (hFo : Format.Lawful Fo rep')
    {f f1 : EncFile DocFormat.toml.F} {key : Bytes} {m m1 : RMap Value} {m' : RMap EncLeaf} (h : Holding env rep f key m m') (hm' : Holds rep' m)
    (hu : OneNonceEach m m') {g g1 : DecFile Fo} {p : SavedParameters} (hd : f.decryptAndSave Fo env = .ok (g, p)) {other : Fo.Map} {c : Nat}
    (hs : g.setMap env other c = .ok g1) (hr : Fo.toInternal g1.map = .ok m1) (hsh : shapeMap m = shapeMap m1)
    (hl : OneLineChanges env.rx f.metadata.partialEncryption m m1) {i j : Nat} (h1 : g1.encryptSaved DocFormat.toml.F env p i = .ok (f1, j)) :
    FewLines (changes (leaves m) (leaves m1) + 2) (EncFile.toText S.ops env.C f) (EncFile.toText S.ops env.C f1) := by
  obtain ⟨m1', a, b, c, c2, d⟩ := edit_keeps he hFo h hm' hu hd hs hr h1
  have e : shapeMap m' = shapeMap m := h.sealed.1
  refine (toml_file_lines hC h.written a (by rw [e, b, hsh]) ?_ d).mono (Nat.add_le_add_right (kept_changes e b hsh c) 2)
  intro x hx hne
  obtain ⟨n, hn⟩ := List.getElem?_of_mem hx
  obtain ⟨⟨q, l⟩, ⟨q1, l1⟩⟩ := x
  obtain ⟨g1, g2⟩ := List.getElem?_zip_eq_some.1 hn
  obtain ⟨⟨q0, v⟩, hv, e0, hz⟩ := h.sealed.2.getElem' g1
  simp only at e0 hz
  subst e0
  obtain ⟨w, hw, hz1⟩ := c2 n _ _ g2
  obtain ⟨w', hw'⟩ := path_at hsh hv
  rw [hw] at hw'
  obtain ⟨rfl, rfl⟩ := Prod.mk.inj (Option.some.inj hw')
  have hvw : v ≠ w := by
    rintro rfl
    have := c n n _ v l hv g1 hw
    rw [g2] at this
    exact hne (by rw [← Option.some.inj this])
  have hpl : Plain env.rx f.metadata.partialEncryption (q1.map lastPart) ↔ Plain env.rx f.metadata.partialEncryption q1 :=
    plain_lastPart h.fits.keys (List.mem_of_getElem? hv)
  constructor
  · rcases hz with ⟨hp, rfl⟩ | ⟨_, ev, rfl, _⟩
    · exact flat_value (hl n q1 v w hv hw hvw hp).1
    · exact flat_str (no_break_encText hC ev)
  · rcases hz1 with ⟨ev, rfl⟩ | ⟨rfl, hp⟩
    · exact flat_str (no_break_encText hC ev)
    · exact flat_value (hl n q1 v w hv hw hvw (hpl.1 hp)).2

/-! ## An edit -/

theorem toy_oneNonce (m' : RMap EncLeaf) : OneNonceEach Toy.docMap m' := by
  intro a b p q v x y h1 h2 h3 h4 h5
  have hl : (leaves Toy.docMap).length = 6 := rfl
  have hab : a = b := by
    have key : ∀ a b : Fin 6, (leaves Toy.docMap)[a]?.map Prod.snd = (leaves Toy.docMap)[b]?.map Prod.snd → a = b := by
      decide
    have ha : a < 6 := hl ▸ (List.getElem?_eq_some_iff.1 h1).1
    have hb : b < 6 := hl ▸ (List.getElem?_eq_some_iff.1 h2).1
    have := key ⟨a, ha⟩ ⟨b, hb⟩ (by
      show (leaves Toy.docMap)[a]?.map Prod.snd = (leaves Toy.docMap)[b]?.map Prod.snd
      rw [h1, h2]; rfl)
    simpa using this
  subst hab
  rw [h3] at h4
  cases h4
  rfl

/-- The document with another password. -/
def repassed : RMap Value :=
  [(c!"user", .leaf (.string c!"root")),
   (c!"db", .map [(c!"port_plain", .leaf (.integer 5432)), (c!"pw", .leaf (.string c!"two\nlines")), (c!"none", .null)]),
   (c!"l", .seq [.leaf (.boolean true), .leaf (.float c!"1.5"), .map [(c!"a_plain", .leaf (.integer (-1)))]])]

/-- The same as JSON. -/
def repassedDoc : Format.json.Map :=
  [(c!"user", .leaf (.str c!"root")),
   (c!"db", .map [(c!"port_plain", .leaf (.num (.posInt 5432))), (c!"pw", .leaf (.str c!"two\nlines")), (c!"none", .null)]),
   (c!"l", .seq [.leaf (.bool true), .leaf (.num (.float c!"1.5")), .map [(c!"a_plain", .leaf (.num (.negInt (-1))))]])]

/-- One value is changed, so no more than three lines are. -/
example : changes (leaves Toy.docMap) (leaves repassed) = 1 ∧ shapeMap Toy.docMap = shapeMap repassed := ⟨by decide, rfl⟩

/-- The file of `Toy.builder`, as JSON, with the other password. -/
example : ∃ f f1 g g1 p j j1, Toy.builder.encrypt Toy.env 0 = .ok (f, j) ∧ f.decryptAndSave Format.json Toy.env = .ok (g, p) ∧
    g.setMap Toy.env repassedDoc 50 = .ok g1 ∧ g1.encryptSaved Format.json Toy.env p j = .ok (f1, j1) ∧
    FewLines 3 (EncFile.toText (D := .json) serdeFloats.ops Toy.env.C f) (EncFile.toText (D := .json) serdeFloats.ops Toy.env.C f1) ∧
    changes (splitOn '\n' (EncFile.toText (D := .json) serdeFloats.ops Toy.env.C f))
      (splitOn '\n' (EncFile.toText (D := .json) serdeFloats.ops Toy.env.C f1)) = 3 := by
  have hc : (match Toy.builder.encrypt Toy.env 0 with
    | .error _ => false
    | .ok (f, j) => match f.decryptAndSave Format.json Toy.env with
      | .error _ => false
      | .ok (g, p) => match g.setMap Toy.env repassedDoc 50 with
        | .error _ => false
        | .ok g1 => match g1.encryptSaved Format.json Toy.env p j with
          | .error _ => false
          | .ok (f1, _) => decide (changes (splitOn '\n' (EncFile.toText (D := .json) serdeFloats.ops Toy.env.C f))
            (splitOn '\n' (EncFile.toText (D := .json) serdeFloats.ops Toy.env.C f1)) = 3)) = true := by decide +kernel
  split at hc
  · cases hc
  rename_i f j h1
  split at hc
  · cases hc
  rename_i g p h2
  split at hc
  · cases hc
  rename_i g1 h3
  split at hc
  · cases hc
  rename_i f1 j1 h4
  obtain ⟨m', i1, i2, hh, _⟩ := holding_of_builder Toy.env_laws Format.json_lawful Toy.doc_read Toy.docMap_fits h1
  refine ⟨f, f1, g, g1, p, j, j1, h1, h2, h3, h4, ?_, of_decide_eq_true hc⟩
  have hg1 : Format.json.toInternal g1.map = .ok repassed := by
    have h3 : Except.ok _ = Except.ok g1 := h3
    cases h3
    rfl
  exact C95_json (m := Toy.docMap) (m1 := repassed) Toy.env_laws Format.json_lawful hh Toy.docMap_fits.2 (toy_oneNonce m') h2 h3 hg1 rfl h4

/-- The same document as a YAML file. -/
def yamlToy : Builder Format.yaml where
  map := Yaml.ofMap Yaml.ofValue Toy.docMap
  partialEncryption := some (.unencryptedSuffix c!"_plain")
  macOnlyEncrypted := none
  ageKeyIds := [c!"pk1", c!"pk2", c!"pk1"]
  kmsKeyIds := []

theorem yamlToy_fits : Fits Toy.env.fl yamlRep (some (.unencryptedSuffix c!"_plain")) Toy.docMap :=
  ⟨Toy.docMap_fits.1, fun _ _ => trivial, Toy.docMap_fits.3⟩

theorem yamlToy_oneLine {cfg : Option PartialEncryption} (hc : cfg = some (.unencryptedSuffix c!"_plain")) :
    OneLineChanges Toy.env.rx cfg Toy.docMap repassed := by
  subst hc
  intro i q v w h1 h2 hne hp
  have hl : (leaves Toy.docMap).length = 6 := rfl
  have hi : i < 6 := hl ▸ (List.getElem?_eq_some_iff.1 h1).1
  have key : ∀ a : Fin 6, (leaves Toy.docMap)[a]? = (leaves repassed)[a]? ∨ a = 2 := by decide
  rcases key ⟨i, hi⟩ with e | e
  · rw [show (leaves Toy.docMap)[i]? = (leaves repassed)[i]? from e, h2] at h1
    cases h1
    exact (hne rfl).elim
  · cases e
    cases h1
    exact absurd hp (by decide)

/-- The file as YAML, with the other password. -/
example : ∃ f f1 g g1 p j j1, yamlToy.encrypt Toy.env 0 = .ok (f, j) ∧ f.decryptAndSave Format.json Toy.env = .ok (g, p) ∧
    g.setMap Toy.env repassedDoc 50 = .ok g1 ∧ g1.encryptSaved Format.yaml Toy.env p j = .ok (f1, j1) ∧
    FewLines 3 (EncFile.toText (D := .yaml) blockLayout.ops Toy.env.C f) (EncFile.toText (D := .yaml) blockLayout.ops Toy.env.C f1) ∧
    changes (splitOn '\n' (EncFile.toText (D := .yaml) blockLayout.ops Toy.env.C f))
      (splitOn '\n' (EncFile.toText (D := .yaml) blockLayout.ops Toy.env.C f1)) = 3 := by
  have hc : (match yamlToy.encrypt Toy.env 0 with
    | .error _ => false
    | .ok (f, j) => match f.decryptAndSave Format.json Toy.env with
      | .error _ => false
      | .ok (g, p) => match g.setMap Toy.env repassedDoc 50 with
        | .error _ => false
        | .ok g1 => match g1.encryptSaved Format.yaml Toy.env p j with
          | .error _ => false
          | .ok (f1, _) => decide (changes (splitOn '\n' (EncFile.toText (D := .yaml) blockLayout.ops Toy.env.C f))
            (splitOn '\n' (EncFile.toText (D := .yaml) blockLayout.ops Toy.env.C f1)) = 3)) = true := by decide +kernel
  split at hc
  · cases hc
  rename_i f j h1
  split at hc
  · cases hc
  rename_i g p h2
  split at hc
  · cases hc
  rename_i g1 h3
  split at hc
  · cases hc
  rename_i f1 j1 h4
  obtain ⟨m', i1, i2, hh, _⟩ := holding_of_builder Toy.env_laws Format.yaml_lawful (m := Toy.docMap) rfl yamlToy_fits h1
  refine ⟨f, f1, g, g1, p, j, j1, h1, h2, h3, h4, ?_, of_decide_eq_true hc⟩
  have hcfg : f.metadata.partialEncryption = some (.unencryptedSuffix c!"_plain") := by
    obtain ⟨_, _, _, im, _, _, _, _, _, _, h6⟩ := Builder.encrypt_ok h1
    rw [h6]
    rfl
  have hg1 : Format.json.toInternal g1.map = .ok repassed := by
    have h3 : Except.ok _ = Except.ok g1 := h3
    cases h3
    rfl
  exact C95_yaml (m := Toy.docMap) (m1 := repassed) Toy.env_laws (by unfold NameOfWords; decide) Format.json_lawful hh Toy.docMap_fits.2 (toy_oneNonce m') h2 h3 hg1 rfl (yamlToy_oneLine hcfg) h4

/-- The same document as a TOML file. -/
def tomlToy : Builder Format.toml where
  map := Toml.ofMap Toml.ofValue Toy.docMap
  partialEncryption := some (.unencryptedSuffix c!"_plain")
  macOnlyEncrypted := none
  ageKeyIds := [c!"pk1", c!"pk2", c!"pk1"]
  kmsKeyIds := []

theorem tomlToy_fits : Fits Toy.env.fl tomlRep (some (.unencryptedSuffix c!"_plain")) Toy.docMap :=
  ⟨Toy.docMap_fits.1, by unfold Holds tomlRep; decide, Toy.docMap_fits.3⟩

/-- The file as TOML, with the other password. -/
example : ∃ f f1 g g1 p j j1, tomlToy.encrypt Toy.env 0 = .ok (f, j) ∧ f.decryptAndSave Format.json Toy.env = .ok (g, p) ∧
    g.setMap Toy.env repassedDoc 50 = .ok g1 ∧ g1.encryptSaved Format.toml Toy.env p j = .ok (f1, j1) ∧
    FewLines 3 (EncFile.toText (D := .toml) rustToml.ops Toy.env.C f) (EncFile.toText (D := .toml) rustToml.ops Toy.env.C f1) ∧
    changes (splitOn '\n' (EncFile.toText (D := .toml) rustToml.ops Toy.env.C f))
      (splitOn '\n' (EncFile.toText (D := .toml) rustToml.ops Toy.env.C f1)) = 3 := by
  have hc : (match tomlToy.encrypt Toy.env 0 with
    | .error _ => false
    | .ok (f, j) => match f.decryptAndSave Format.json Toy.env with
      | .error _ => false
      | .ok (g, p) => match g.setMap Toy.env repassedDoc 50 with
        | .error _ => false
        | .ok g1 => match g1.encryptSaved Format.toml Toy.env p j with
          | .error _ => false
          | .ok (f1, _) => decide (changes (splitOn '\n' (EncFile.toText (D := .toml) rustToml.ops Toy.env.C f))
            (splitOn '\n' (EncFile.toText (D := .toml) rustToml.ops Toy.env.C f1)) = 3)) = true := by decide +kernel
  split at hc
  · cases hc
  rename_i f j h1
  split at hc
  · cases hc
  rename_i g p h2
  split at hc
  · cases hc
  rename_i g1 h3
  split at hc
  · cases hc
  rename_i f1 j1 h4
  obtain ⟨m', i1, i2, hh, _⟩ := holding_of_builder Toy.env_laws Format.toml_lawful (m := Toy.docMap) rfl tomlToy_fits h1
  refine ⟨f, f1, g, g1, p, j, j1, h1, h2, h3, h4, ?_, of_decide_eq_true hc⟩
  have hcfg : f.metadata.partialEncryption = some (.unencryptedSuffix c!"_plain") := by
    obtain ⟨_, _, _, im, _, _, _, _, _, _, h6⟩ := Builder.encrypt_ok h1
    rw [h6]
    rfl
  have hg1 : Format.json.toInternal g1.map = .ok repassed := by
    have h3 : Except.ok _ = Except.ok g1 := h3
    cases h3
    rfl
  exact C95_toml (m := Toy.docMap) (m1 := repassed) Toy.env_laws (by unfold NameOfWords; decide) Format.json_lawful hh Toy.docMap_fits.2 (toy_oneNonce m') h2 h3 hg1 rfl (yamlToy_oneLine hcfg) h4

end Rops.Props
