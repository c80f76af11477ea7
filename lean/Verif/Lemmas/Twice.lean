import Verif.Lemmas.CliHistory
/-!
# Lemmas on encrypted files that are encrypted again
-/

namespace Rops

open Spec

theorem docField_mem {β : Type} {d : List (Str × β)} {k : Str} {v : β} (h : docField d k = some (some v)) : (k, v) ∈ d := by
  unfold docField at h
  split at h
  · cases h
  · rename_i k' w hf
    simp only [Option.some.injEq] at h
    subst h
    have hm : (k', w) ∈ d.filter (fun e => e.1 == k) := by rw [hf]; exact List.mem_singleton.2 rfl
    obtain ⟨h1, h2⟩ := List.mem_filter.1 hm
    simp only [beq_iff_eq] at h2
    rw [← h2]; exact h1
  · cases h

theorem Json.topKeys_toMap {d : List (Str × Json)} {m : RMap Value} (h : Json.toMap d = .ok m) : topKeys m = d.map Prod.fst := by
  induction d generalizing m with
  | nil => simp only [Json.toMap, Except.ok.injEq] at h; subst h; rfl
  | cons x r ih =>
    obtain ⟨k, t⟩ := x
    simp only [Json.toMap] at h
    split at h
    · split at h
      · rename_i r' hr
        cases h
        simpa [topKeys] using ih hr
      · cases h
    · cases h

theorem Toml.topKeys_toMap {d : List (Str × Toml)} {m : RMap Value} (h : Toml.toMap d = .ok m) : topKeys m = d.map Prod.fst := by
  induction d generalizing m with
  | nil => simp only [Toml.toMap, Except.ok.injEq] at h; subst h; rfl
  | cons x r ih =>
    obtain ⟨k, t⟩ := x
    simp only [Toml.toMap] at h
    split at h
    · split at h
      · rename_i r' hr
        cases h
        simpa [topKeys] using ih hr
      · cases h
    · cases h

theorem Yaml.topKeys_toMap {d : List (Yaml × Yaml)} {m : RMap Value} (h : Yaml.toMap d = .ok m) :
    (topKeys m).map Yaml.str = d.map Prod.fst := by
  induction d generalizing m with
  | nil => simp only [Yaml.toMap, Except.ok.injEq] at h; subst h; rfl
  | cons x r ih =>
    obtain ⟨k, t⟩ := x
    simp only [Yaml.toMap] at h
    split at h
    · cases h
    · rename_i k' hk
      have : k = .str k' := by
        cases k <;> simp_all [Yaml.validateKey]
      subst this
      split at h
      · split at h
        · rename_i r' hr
          cases h
          simpa [topKeys] using ih hr
        · cases h
      · cases h

/-- A document that is read as an encrypted file has the top-level key "sops". -/
theorem sops_of_takeSops {x : Fmt} {d : x.doc.F.Map} {p} (h : x.doc.takeSops d = some p) {m : RMap Value}
    (hm : x.doc.F.toInternal d = .ok m) : c!"sops" ∈ topKeys m := by
  cases x with
  | json =>
    have h : Json.takeSops d = some p := h
    unfold Json.takeSops at h
    split at h
    · rename_i hd
      rw [Json.topKeys_toMap (d := d) hm]
      exact List.mem_map_of_mem (f := Prod.fst) (docField_mem hd)
    · cases h
  | toml =>
    have h : Toml.takeSops d = some p := h
    unfold Toml.takeSops at h
    split at h
    · rename_i hd
      rw [Toml.topKeys_toMap (d := d) hm]
      exact List.mem_map_of_mem (f := Prod.fst) (docField_mem hd)
    · cases h
  | yaml =>
    have h : Yaml.takeSops d = some p := h
    unfold Yaml.takeSops at h
    split at h
    · rename_i k dd hf
      have h0 : (k, Yaml.map dd) ∈ List.filter (fun e => e.1.isSops) (show List (Yaml × Yaml) from d) := by
        rw [show List.filter (fun e => e.1.isSops) (show List (Yaml × Yaml) from d) = [(k, Yaml.map dd)] from hf]
        exact List.mem_singleton.2 rfl
      have hk := List.mem_filter.1 h0
      have hk2 : k = .str c!"sops" := by
        have := hk.2
        cases k <;> simp_all [Yaml.isSops, sopsKey]
      have hmem := List.mem_map_of_mem (f := Prod.fst) hk.1
      rw [← Yaml.topKeys_toMap (d := d) hm, hk2] at hmem
      obtain ⟨a, ha, hs⟩ := List.mem_map.1 hmem
      cases hs
      exact ha
    · cases h

theorem takeSops_of_ofText {D : DocFormat} {T : TextOps D} {O : DocOps} {C : Cipher} {s : Str} {f : EncFile D.F}
    (h : EncFile.ofText T O C s = some f) {d : D.F.Map} (hp : T.parse s = some d) : ∃ p, D.takeSops d = some p := by
  unfold EncFile.ofText at h
  rw [hp] at h
  simp only [EncFile.ofDoc] at h
  split at h
  · cases h
  · rename_i hp; exact ⟨_, hp⟩

/-- The number of bytes of values. -/
def leafBytes (l : List (List Str × Value)) : Nat := (l.map fun pv => (plainBytes pv.2).length).sum

theorem leafBytes_append (a b : List (List Str × Value)) : leafBytes (a ++ b) = leafBytes a + leafBytes b := by
  simp [leafBytes]

theorem leavesMap_append {α : Type} (a b : RMap α) (p : List Str) : leavesMap p (a ++ b) = leavesMap p a ++ leavesMap p b := by
  induction a with
  | nil => rfl
  | cons x r ih => obtain ⟨k, t⟩ := x; simp only [List.cons_append, leavesMap, ih, List.append_assoc]

theorem leafBytes_order :
    (∀ t : Tree Value, ∀ p, leafBytes (leavesAt p (tomlOrder t)) = leafBytes (leavesAt p t)) ∧
    (∀ l : List (Tree Value), ∀ p, leafBytes (leavesSeq p (tomlOrderSeq l)) = leafBytes (leavesSeq p l)) ∧
    (∀ m : RMap Value, ∀ p, leafBytes (leavesMap p (tomlPlain m)) + leafBytes (leavesMap p (tomlSections m)) =
      leafBytes (leavesMap p m)) := by
  apply Tree.induct
  · intro l ih p
    simp only [tomlOrder]
    split
    · simp only [leavesAt]; exact ih p
    · rfl
  · intro m ih p
    simp only [tomlOrder, leavesAt, leavesMap_append, leafBytes_append]
    exact ih p
  · intro p; simp only [tomlOrder]
  · intro a p; simp only [tomlOrder]
  · intro p; simp only [tomlOrderSeq]
  · intro t r h1 h2 p
    simp only [tomlOrderSeq, leavesSeq, leafBytes_append, h1, h2]
  · intro p; simp only [tomlSections, tomlPlain, leavesMap]; rfl
  · intro k t r h1 h2 p
    have h2 := h2 p
    simp only [tomlSections, tomlPlain, leavesMap, leafBytes_append]
    split
    · simp only [leavesMap, leafBytes_append, h1]; omega
    · simp only [leavesMap, leafBytes_append]; omega

theorem leafBytes_filter (m : RMap Value) (k : Str) (p : List Str) :
    leafBytes (leavesMap p (m.filter fun e => e.1 != k)) ≤ leafBytes (leavesMap p m) ∧
    ∀ t, (k, t) ∈ m → leafBytes (leavesMap p (m.filter fun e => e.1 != k)) + leafBytes (leavesAt (p ++ [k]) t) ≤
      leafBytes (leavesMap p m) := by
  induction m with
  | nil => exact ⟨Nat.le_refl _, fun t h => nomatch h⟩
  | cons x r ih =>
    obtain ⟨a, u⟩ := x
    obtain ⟨h1, h2⟩ := ih
    rw [List.filter_cons]
    simp only [leavesMap, leafBytes_append]
    refine ⟨?_, fun t ht => ?_⟩
    · split
      · simp only [leavesMap, leafBytes_append]; omega
      · omega
    · rcases List.mem_cons.1 ht with h | h
      · cases h
        simp only [bne_self_eq_false, Bool.false_eq_true, if_false]
        omega
      · have := h2 t h
        split
        · simp only [leavesMap, leafBytes_append]; omega
        · omega

theorem mem_leafBytes {l : List (List Str × Value)} {pv : List Str × Value} (h : pv ∈ l) :
    (plainBytes pv.2).length ≤ leafBytes l := by
  induction l with
  | nil => cases h
  | cons x r ih =>
    simp only [leafBytes, List.map_cons, List.sum_cons]
    rcases List.mem_cons.1 h with rfl | h
    · omega
    · have := ih h
      unfold leafBytes at this
      omega

/-- Covered without `only`: everything. -/
theorem length_macInput (rx : RegexMatch) (cfg : Option PartialEncryption) (m : RMap Value) :
    (macInput rx cfg false m).length = leafBytes (leaves m) := by
  unfold macInput hashed leafBytes
  have hf : (leaves m).filter (fun pv => ¬ (false = true ∧ Plain rx cfg pv.1)) = leaves m := by
    rw [List.filter_eq_self]; intro a _; simp
  rw [hf]
  simp [List.length_flatMap, Function.comp_def]

theorem Toml.mem_toMap {d : List (Str × Toml)} {m : RMap Value} (h : Toml.toMap d = .ok m) {k : Str} {t : Toml}
    (ht : (k, t) ∈ d) : ∃ t', Toml.toTree t = .ok t' ∧ (k, t') ∈ m := by
  induction d generalizing m with
  | nil => cases ht
  | cons x r ih =>
    obtain ⟨k', u⟩ := x
    simp only [Toml.toMap] at h
    split at h
    · rename_i u' hu
      split at h
      · rename_i r' hr
        cases h
        rcases List.mem_cons.1 ht with h | h
        · cases h; exact ⟨u', hu, .head _⟩
        · obtain ⟨t', h1, h2⟩ := ih hr h
          exact ⟨t', h1, .tail _ h2⟩
      · cases h
    · cases h

theorem Toml.mem_mapToDoc {d : List (Str × Toml)} {k : Str} {j : Json} (h : (k, j) ∈ Toml.mapToDoc d) :
    ∃ t, (k, t) ∈ d ∧ Toml.toDoc t = j := by
  induction d with
  | nil => cases h
  | cons x r ih =>
    obtain ⟨k', u⟩ := x
    simp only [Toml.mapToDoc] at h
    rcases List.mem_cons.1 h with h | h
    · cases h; exact ⟨u, .head _, rfl⟩
    · obtain ⟨t, h1, h2⟩ := ih h
      exact ⟨t, .tail _ h1, h2⟩

theorem EncValue.parse_of_start {C : Cipher} {s : Str} {e : EncValue} (h : EncValue.parse C s = .ok e) :
    s ≠ [] ∧ s ≠ tomlNull := by
  constructor
  · rintro rfl
    have hb : encBody [] = .error (.missing .encPrefix) := rfl
    simp [EncValue.parse, hb, Except.bind] at h
  · rintro rfl
    have hb : encBody tomlNull = .error (.missing .encPrefix) := rfl
    simp [EncValue.parse, hb, Except.bind] at h

theorem mac_of_ofDoc {M : Type} {O : DocOps} {parse : Str → Option M} {d : RMap JsonScalar} {md : Metadata M}
    (h : Metadata.ofDoc O parse d = some md) : ∃ s, (c!"mac", Tree.leaf (JsonScalar.str s)) ∈ d ∧ parse s = some md.mac := by
  unfold Metadata.ofDoc at h
  split at h
  · rename_i hm _
    cases h
    unfold parsedOfDoc at hm
    split at hm
    · rename_i s hs
      refine ⟨s, ?_, hm⟩
      unfold docStr at hs
      split at hs
      · rename_i hf
        cases hs
        exact docField_mem hf
      · cases hs
    · cases hm
  · cases h

/-- In TOML the metadata of an encrypted file that is encrypted again is covered by the new MAC, and
lost. -/
theorem macInput_reread_ne {T : TextOps .toml} {O : DocOps} {C : Cipher} {s : Str} {f : EncFile DocFormat.toml.F}
    (hf : EncFile.ofText T O C s = some f) {d : DocFormat.toml.F.Map} (hp : T.parse s = some d) {m : RMap Value}
    (hm : DocFormat.toml.F.toInternal d = .ok m) (rx : RegexMatch) (cfg : Option PartialEncryption) :
    macInput rx cfg false (tomlReread m) ≠ macInput rx cfg false m := by
  intro heq
  have hlen := congrArg List.length heq
  rw [length_macInput, length_macInput] at hlen
  unfold EncFile.ofText at hf
  rw [hp] at hf
  simp only [EncFile.ofDoc] at hf
  split at hf
  · cases hf
  · rename_i md ht
    have ht : Toml.takeSops d = some (_, md) := ht
    unfold Toml.takeSops at ht
    split at ht
    · rename_i dt hdt
      cases ht
      split at hf
      · cases hf
      · rename_i metadata hmd
        obtain ⟨ms, h1, h2⟩ := mac_of_ofDoc hmd
        obtain ⟨t, h3, h4⟩ := Toml.mem_mapToDoc h1
        have hs : ∃ e, EncValue.parse C ms = .ok e := by
          cases hq : EncValue.parse C ms with
          | error e => rw [hq] at h2; cases h2
          | ok e => exact ⟨e, rfl⟩
        obtain ⟨e, he⟩ := hs
        obtain ⟨hne, hnn⟩ := EncValue.parse_of_start he
        have ht' : t = .str ms := by
          cases t <;> simp_all [Toml.toDoc]
        subst ht'
        obtain ⟨t', h5, h6⟩ := Toml.mem_toMap (d := d) hm (docField_mem hdt)
        simp only [Toml.toTree] at h5
        split at h5
        · rename_i mm hmm
          cases h5
          obtain ⟨u, h7, h8⟩ := Toml.mem_toMap hmm h3
          simp only [Toml.toTree, if_neg hnn, Except.ok.injEq] at h7
          subst h7
          have hb := (leafBytes_filter m sopsKey []).2 _ h6
          have hmem : ([sopsKey, c!"mac"], Value.string ms) ∈ leavesAt ([] ++ [sopsKey]) (Tree.map mm) := by
            simp only [leavesAt]
            clear hb h6 hmm
            induction mm with
            | nil => cases h8
            | cons y r ih =>
              obtain ⟨k, v⟩ := y
              simp only [leavesMap, List.mem_append]
              rcases List.mem_cons.1 h8 with h | h
              · cases h; left; exact .head _
              · exact .inr (ih h)
          have hpos := mem_leafBytes hmem
          have hl : 0 < (plainBytes (Value.string ms)).length := by
            cases ms with
            | nil => exact absurd rfl hne
            | cons c r =>
              simp only [plainBytes]
              exact List.length_pos_iff.2 fun h => by
                have := utf8_injective (a := c :: r) (b := []) (by rw [h]; rfl)
                cases this
          have ho := leafBytes_order.2.2 (m.filter fun e => e.1 != sopsKey) []
          unfold tomlReread tomlMapOrder leaves at hlen
          rw [leavesMap_append, leafBytes_append] at hlen
          have hsk : (m.filter fun e => e.1 != c!"sops") = m.filter fun e => e.1 != sopsKey := rfl
          rw [hsk, ho] at hlen
          simp only at hpos
          omega
        · cases h5
    · cases ht

end Rops
