import Verif.Lemmas.FileOps
import Verif.Lemmas.ContentFormats
import Verif.Props.Formats
import Verif.Spec.ToyFile
/-!
# C27: replacing the map of a decrypted file
-/

namespace Rops.Props
open Rops Spec

/-- C27. With a map that the format can hold, the file afterwards holds the new map and its
MAC. The date is the current time without the part below seconds if the maps differ,
otherwise the old date. Nothing else changes. -/
theorem C27_set_map {env : Env} (he : EnvLaws env) {F : Format} {rep : Value → Prop} (hF : Format.Lawful F rep)
    (g : DecFile F) (other : F.Map) (m : RMap Value) (ho : F.toInternal other = .ok m) (hm : Holds rep m) (i : Nat) :
    ∃ g', g.setMap env other i = .ok g' ∧ Plaintext env g' m ∧
      g'.metadata.integration = g.metadata.integration ∧
      g'.metadata.partialEncryption = g.metadata.partialEncryption ∧
      g'.metadata.macOnlyEncrypted = g.metadata.macOnlyEncrypted ∧
      (F.eq g.map other = true → g'.metadata.lastModified = g.metadata.lastModified) ∧
      (F.eq g.map other = false → g'.metadata.lastModified = (env.clock i).truncate) := by
  obtain ⟨x, h1, h2⟩ := hF.round_trip m hm
  unfold DecFile.setMap
  simp only [ho, h1, Except.ok.injEq, exists_eq_left']
  refine ⟨⟨h2, ?_⟩, ?_⟩
  · rw [Env.macOf_eq he.hasher]
  · refine ⟨by trivial, by trivial, by trivial, fun h => ?_, fun h => ?_⟩
    · rw [h]; rfl
    · rw [h]; rfl

/-- C27. A map that cannot be read is refused. -/
theorem C27_refused {env : Env} {F : Format} (g : DecFile F) (other : F.Map) (i : Nat) :
    (∃ e, g.setMap env other i = .error (.format e)) ↔ ∃ e, F.toInternal other = .error e := by
  unfold DecFile.setMap
  cases F.toInternal other with
  | error e => simp
  | ok m => cases h : F.ofInternal m <;> simp [h]

/-- C27. JSON maps are equal exactly when they have the same content: the same scalars at the
same places, whatever the order of keys. -/
theorem C27_json_equality (a b : Format.json.Map) (ha : DistinctKeys (.map a)) (hb : DistinctKeys (.map b)) :
    Format.json.eq a b = true ↔ SameContent SameScalar (.map a) (.map b) :=
  eqMap_iff JsonScalar.eq_iff ha hb

/-- C27. The same for YAML maps whose keys are texts (others are refused); a tag is part of the
content here. -/
theorem C27_yaml_equality (a b : Format.yaml.Map) (a' b' : RMap YamlScalar) (hia : YamlMapIs a a') (hib : YamlMapIs b b')
    (ha : DistinctKeys (.map a')) (hb : DistinctKeys (.map b')) :
    Format.yaml.eq a b = true ↔ SameContent SameYaml (.map a') (.map b') := by
  rw [← eqMap_iff yamlScalarEq_iff ha hb]
  show (a.length == b.length && Yaml.subMap a b) = true ↔ _
  rw [Yaml.eq_eqBy.2.2 a a' b b' hia hib hb, hia.length, hib.length]
  rfl

example : ¬ SameContent SameYaml (.map [(c!"a", .leaf (.scalar (.bool true)))])
    (.map [(c!"a", .seq [.leaf (.tag c!"!x"), .leaf (.scalar (.bool true))])]) := by
  rw [← C27_yaml_equality [(.str c!"a", .bool true)] [(.str c!"a", .tagged c!"!x" (.bool true))] _ _
    (.cons _ (.bool _) .nil) (.cons _ (.tagged _ (.bool _)) .nil)
    ⟨by decide, by simp [DistinctKeysMap, DistinctKeys]⟩ ⟨by decide, by simp [DistinctKeysMap, DistinctKeys, DistinctKeysSeq]⟩]
  show ¬ ([(Yaml.str c!"a", Yaml.bool true)].length == 1 && Yaml.subMap _ _) = true
  simp [Yaml.subMap, Yaml.has, Yaml.eq]

/-- C27. The same for TOML maps; a NaN differs from every NaN. -/
theorem C27_toml_equality (a b : Format.toml.Map) (ha : DistinctKeys (tomlContent (.table a)))
    (hb : DistinctKeys (tomlContent (.table b))) :
    Format.toml.eq a b = true ↔ SameContent SameToml (tomlContent (.table a)) (tomlContent (.table b)) := by
  simp only [tomlContent] at ha hb ⊢
  rw [← eqMap_iff tomlScalarEq_iff ha hb]
  show (a.length == b.length && Toml.subMap a b) = true ↔ _
  rw [Toml.eq_eqBy.2.2 a b, ← tomlContentMap_length a, ← tomlContentMap_length b]
  rfl

/-- Reordered keys are the same content. -/
example : Format.json.eq [(c!"a", .leaf (.bool true)), (c!"b", .map [(c!"x", .null), (c!"y", .seq [])])]
    [(c!"b", .map [(c!"y", .seq []), (c!"x", .null)]), (c!"a", .leaf (.bool true))] = true := by decide +kernel

example : Format.json.eq [(c!"l", .seq [.null, .seq []])] [(c!"l", .seq [.seq [], .null])] = false := by decide +kernel

example : Format.toml.eq [(c!"a", .float c!"NaN")] [(c!"a", .float c!"NaN")] = false ∧
    Format.toml.eq [(c!"a", .float c!"0")] [(c!"a", .float c!"-0")] = true := by decide +kernel

/-- The document of the examples with its first two keys swapped. -/
def swappedDoc : Format.json.Map :=
  [(c!"db", .map [(c!"port_plain", .leaf (.num (.posInt 5432))), (c!"pw", .leaf (.str c!"x")), (c!"none", .null)]),
   (c!"user", .leaf (.str c!"root")),
   (c!"l", .seq [.leaf (.bool true), .leaf (.num (.float c!"1.5")), .map [(c!"a_plain", .leaf (.num (.negInt (-1))))]])]

/-- C27. Tags count when YAML maps are compared but are not kept: setting a map with tags gives the
map and the MAC of the same map without tags. As no file written has tags, its date is new each time
such a map is set, even if nothing else differs. -/
theorem C27_tags_forgotten {env : Env} (g : DecFile Format.yaml) (x : Format.yaml.Map) (m : RMap Value)
    (hm : Format.yaml.toInternal x = .ok m) (i : Nat) :
    ∃ g' g'', g.setMap env x i = .ok g' ∧ g.setMap env (untagMap x) i = .ok g'' ∧
      g'.map = g''.map ∧ UntaggedMap g'.map ∧ g'.metadata.mac = g''.metadata.mac ∧
      ∀ old' x', UntaggedMap g.map → ¬ UntaggedMap x → YamlMapIs g.map old' → YamlMapIs x x' →
        DistinctKeys (.map old') → DistinctKeys (.map x') → g'.metadata.lastModified = (env.clock i).truncate := by
  have ht : Format.yaml.toInternal (untagMap x) = .ok m := (toTree_untag.2.2 x).trans hm
  obtain ⟨y, hy⟩ : ∃ y, Format.yaml.ofInternal m = some y := ⟨_, rfl⟩
  have h1 : ∃ d, g.setMap env x i = .ok ⟨y, { g.metadata with lastModified := d, mac := env.macOf g.metadata m }⟩ ∧
      d = if (!Format.yaml.eq g.map x) = true then (env.clock i).truncate else g.metadata.lastModified :=
    ⟨_, by unfold DecFile.setMap; simp only [hm, hy], rfl⟩
  have h2 : ∃ d, g.setMap env (untagMap x) i = .ok ⟨y, { g.metadata with lastModified := d, mac := env.macOf g.metadata m }⟩ :=
    ⟨_, by unfold DecFile.setMap; simp only [ht, hy]; rfl⟩
  obtain ⟨d1, h1, hd⟩ := h1
  obtain ⟨d2, h2⟩ := h2
  refine ⟨_, _, h1, h2, rfl, (C28_yaml_written hy).1, rfl, ?_⟩
  intro old' x' h1 h2 h3 h4 h5 h6
  have hne : Format.yaml.eq g.map x = false := by
    rw [Bool.eq_false_iff, Ne, C27_yaml_equality _ _ _ _ h3 h4 h5 h6]
    intro hs
    obtain ⟨k, p, s, hp⟩ := nodeAt_tagged.2.2 x x' h4 h6 h2
    have := hs (.key k :: p)
    rw [hp] at this
    revert this
    cases hq : nodeAt (.key k :: p) (.map old') with
    | none => exact False.elim
    | some n =>
      cases n with
      | leaf a =>
        cases a with
        | tag s' => exact fun _ => nodeAt_untagged.2.2 _ _ h3 h1 _ _ hq
        | scalar a => exact False.elim
      | _ => exact False.elim
  show d1 = _
  rw [hd, hne]
  rfl

/-- A tag is put on the only value of a file. -/
example {env : Env} (g : DecFile Format.yaml) (hg : g.map = [(.str c!"a", .bool true)]) (i : Nat) :
    ∃ g', g.setMap env [(.str c!"a", .tagged c!"!x" (.bool true))] i = .ok g' ∧ g'.map = g.map ∧
      g'.metadata.lastModified = (env.clock i).truncate := by
  obtain ⟨g', g'', h1, h2, h3, _, _, h4⟩ := C27_tags_forgotten (env := env) g [(.str c!"a", .tagged c!"!x" (.bool true))]
    [(c!"a", .leaf (.boolean true))] rfl i
  refine ⟨g', h1, ?_, h4 [(c!"a", .leaf (.scalar (.bool true)))] _ (by simp [hg, UntaggedMap, Untagged])
    (by simp [UntaggedMap, Untagged]) (by rw [hg]; exact .cons _ (.bool _) .nil) (.cons _ (.tagged _ (.bool _)) .nil)
    ⟨by decide, by simp [DistinctKeysMap, DistinctKeys]⟩ ⟨by decide, by simp [DistinctKeysMap, DistinctKeys, DistinctKeysSeq]⟩⟩
  rw [h3, hg]
  cases h2
  rfl

/-- C27. Reordering keys changes the MAC but not the date: the file is modified without its
last modified date showing it. -/
theorem C27_reordering_keeps_date : ∃ (f : EncFile Format.json) (g g' : DecFile Format.json) (j : Nat),
    Toy.builder.encrypt Toy.env 0 = .ok (f, j) ∧ f.decrypt Format.json Toy.env = .ok g ∧
    g.setMap Toy.env swappedDoc 50 = .ok g' ∧ g'.metadata.lastModified = g.metadata.lastModified ∧
    (Toy.env.clock 50).truncate ≠ g.metadata.lastModified ∧ g'.metadata.mac ≠ g.metadata.mac := by
  have hc : (match Toy.builder.encrypt Toy.env 0 with
    | .error _ => false
    | .ok (f, _) => match f.decrypt Format.json Toy.env with
      | .error _ => false
      | .ok g => match g.setMap Toy.env swappedDoc 50 with
        | .error _ => false
        | .ok g' => decide (g'.metadata.lastModified = g.metadata.lastModified) &&
          decide ((Toy.env.clock 50).truncate ≠ g.metadata.lastModified) &&
          decide (g'.metadata.mac ≠ g.metadata.mac)) = true := by decide +kernel
  split at hc
  · cases hc
  rename_i f j hf
  split at hc
  · cases hc
  rename_i g hg
  split at hc
  · cases hc
  rename_i g' hs
  simp only [Bool.and_eq_true, decide_eq_true_eq] at hc
  exact ⟨f, g, g', j, hf, hg, hs, hc.1.1, hc.1.2, hc.2⟩

end Rops.Props
