import Verif.Spec.Format
import Verif.Lemmas.Partial
import Verif.Lemmas.EncValue
import Verif.Lemmas.Tree
/-! The adapters of the three formats. -/

namespace Rops
open Spec

theorem Number.toInternal_ofI64 (i : Int64) : (Number.ofI64 i).toInternal = .ok (.integer i) := by
  unfold Number.ofI64
  by_cases h : 0 ≤ i.toInt
  · rw [if_pos h]
    have h1 : i.toInt < 2 ^ 63 := i.toInt_lt
    have h2 : (UInt64.ofNat i.toInt.toNat).toNat = i.toInt.toNat := by
      apply UInt64.toNat_ofNat_of_lt'
      simp only [UInt64.size]; omega
    have h3 : (UInt64.ofNat i.toInt.toNat).toNat < 2 ^ 63 := by rw [h2]; omega
    simp only [Number.toInternal, Number.asI64, if_pos h3]
    congr 2
    rw [h2]
    apply Int64.toInt_inj.1
    rw [Int64.toInt_ofNat_of_lt (by omega)]
    omega
  · rw [if_neg h]; rfl

/-- Leaves as required by the adapters, at a fixed decision. -/
def LeafOk (C : Cipher) (rx : RegexMatch) (cfg : Option PartialEncryption) (rep : Value → Prop)
    (pl : List Str × EncLeaf) : Prop :=
  match pl.2 with
  | .encrypted e => ¬ Plain rx cfg pl.1 ∧ e.Sized C
  | .escaped v => Plain rx cfg pl.1 ∧ rep v

theorem leafOk_of_encHolds {C : Cipher} {rx : RegexMatch} {cfg : Option PartialEncryption} {rep : Value → Prop}
    {m : RMap EncLeaf} (h : EncHolds C rx cfg rep m) : ∀ pl ∈ leaves m, LeafOk C rx cfg rep pl := by
  rintro ⟨p, l⟩ hpl
  cases l with
  | encrypted e => exact h.1 p e hpl
  | escaped v => exact h.2 p v hpl

/-! ## JSON -/

theorem JsonScalar.toInternal_ofInternal {v : Value} (h : jsonRep v) :
    ∃ s, JsonScalar.ofInternal v = some s ∧ s.toInternal = .ok v := by
  cases v with
  | string s => exact ⟨_, rfl, rfl⟩
  | boolean b => exact ⟨_, rfl, rfl⟩
  | integer i => exact ⟨_, rfl, Number.toInternal_ofI64 i⟩
  | float s =>
    refine ⟨.num (.float s), ?_, rfl⟩
    have hf : floatFinite s = true := by
      simp only [floatFinite, Bool.and_eq_true, decide_eq_true_eq]
      exact ⟨⟨h.1, h.2.1⟩, h.2.2⟩
    simp only [JsonScalar.ofInternal, hf, if_true]

theorem Json.round_trip :
    (∀ t : Tree Value, ∀ p, (∀ pv ∈ leavesAt p t, jsonRep pv.2) →
      ∃ x, Tree.mapM JsonScalar.ofInternal t = some x ∧ Json.toTree x = .ok t) ∧
    (∀ l : List (Tree Value), ∀ p, (∀ pv ∈ leavesSeq p l, jsonRep pv.2) →
      ∃ x, Tree.mapSeqM JsonScalar.ofInternal l = some x ∧ Json.toSeq x = .ok l) ∧
    (∀ m : RMap Value, ∀ p, (∀ pv ∈ leavesMap p m, jsonRep pv.2) →
      ∃ x, Tree.mapMapM JsonScalar.ofInternal m = some x ∧ Json.toMap x = .ok m) := by
  apply Tree.induct
  · intro l ih p h
    obtain ⟨x, h1, h2⟩ := ih p h
    exact ⟨.seq x, by simp only [Tree.mapM, h1], by simp only [Json.toTree, h2]⟩
  · intro l ih p h
    obtain ⟨x, h1, h2⟩ := ih p h
    exact ⟨.map x, by simp only [Tree.mapM, h1], by simp only [Json.toTree, h2]⟩
  · intro p _; exact ⟨.null, rfl, rfl⟩
  · intro a p h
    obtain ⟨s, h1, h2⟩ := JsonScalar.toInternal_ofInternal (h (p, a) (by simp [leavesAt]))
    exact ⟨.leaf s, by simp only [Tree.mapM, h1], by simp only [Json.toTree, h2]⟩
  · intro p _; exact ⟨[], rfl, rfl⟩
  · intro t r iht ihr p h
    simp only [leavesSeq, List.mem_append] at h
    obtain ⟨x, h1, h2⟩ := iht p (fun pv hp => h pv (.inl hp))
    obtain ⟨y, h3, h4⟩ := ihr p (fun pv hp => h pv (.inr hp))
    exact ⟨x :: y, by simp only [Tree.mapSeqM, h1, h3], by simp only [Json.toSeq, h2, h4]⟩
  · intro p _; exact ⟨[], rfl, rfl⟩
  · intro k t r iht ihr p h
    simp only [leavesMap, List.mem_append] at h
    obtain ⟨x, h1, h2⟩ := iht _ (fun pv hp => h pv (.inl hp))
    obtain ⟨y, h3, h4⟩ := ihr p (fun pv hp => h pv (.inr hp))
    exact ⟨(k, x) :: y, by simp only [Tree.mapMapM, h1, h3], by simp only [Json.toMap, h2, h4]⟩

theorem escape_eq {rx : RegexMatch} {cfg : Option PartialEncryption} {p : List Str} :
    (Plain rx cfg p → ((Resolved.ofConfig cfg).steps rx p).escape = true) ∧
    (¬ Plain rx cfg p → ((Resolved.ofConfig cfg).steps rx p).escape = false) := by
  constructor
  · exact (Resolved.escape_steps_iff rx cfg p).2
  · intro h
    rw [← Resolved.escape_steps_iff] at h
    exact eq_false_of_ne_true h

theorem JsonScalar.enc_round_trip {C : Cipher} (hC : ',' ∉ C.name) {rx : RegexMatch}
    {cfg : Option PartialEncryption} {p : List Str} {l : EncLeaf} (h : LeafOk C rx cfg jsonRep (p, l)) :
    ∃ s, JsonScalar.encOfInternal C l = some s ∧
      s.encToInternal C ((Resolved.ofConfig cfg).steps rx p).escape = .ok l := by
  cases l with
  | encrypted e =>
    refine ⟨_, rfl, ?_⟩
    simp only [JsonScalar.encToInternal, escape_eq.2 h.1, EncValue.parse_toText hC h.2, Bool.false_eq_true, if_false]
  | escaped v =>
    obtain ⟨s, h1, h2⟩ := JsonScalar.toInternal_ofInternal h.2
    refine ⟨s, h1, ?_⟩
    rw [escape_eq.1 h.1]
    cases s with
    | str s => simp only [JsonScalar.toInternal, Except.ok.injEq] at h2; simp [JsonScalar.encToInternal, ← h2]
    | bool b => simp only [JsonScalar.toInternal, Except.ok.injEq] at h2; simp [JsonScalar.encToInternal, ← h2]
    | num n => simp only [JsonScalar.toInternal] at h2; simp [JsonScalar.encToInternal, h2]

theorem Json.enc_round_trip {C : Cipher} (hC : ',' ∉ C.name) (rx : RegexMatch) (cfg : Option PartialEncryption) :
    (∀ t : Tree EncLeaf, ∀ p, (∀ pl ∈ leavesAt p t, LeafOk C rx cfg jsonRep pl) →
      ∃ x, Tree.mapM (JsonScalar.encOfInternal C) t = some x ∧
        Json.encToTree C rx ((Resolved.ofConfig cfg).steps rx p) x = .ok t) ∧
    (∀ l : List (Tree EncLeaf), ∀ p, (∀ pl ∈ leavesSeq p l, LeafOk C rx cfg jsonRep pl) →
      ∃ x, Tree.mapSeqM (JsonScalar.encOfInternal C) l = some x ∧
        Json.encToSeq C rx ((Resolved.ofConfig cfg).steps rx p) x = .ok l) ∧
    (∀ m : RMap EncLeaf, ∀ p, (∀ pl ∈ leavesMap p m, LeafOk C rx cfg jsonRep pl) →
      ∃ x, Tree.mapMapM (JsonScalar.encOfInternal C) m = some x ∧
        Json.encToMap C rx ((Resolved.ofConfig cfg).steps rx p) x = .ok m) := by
  apply Tree.induct
  · intro l ih p h
    obtain ⟨x, h1, h2⟩ := ih p h
    exact ⟨.seq x, by simp only [Tree.mapM, h1], by simp only [Json.encToTree, h2]⟩
  · intro l ih p h
    obtain ⟨x, h1, h2⟩ := ih p h
    exact ⟨.map x, by simp only [Tree.mapM, h1], by simp only [Json.encToTree, h2]⟩
  · intro p _; exact ⟨.null, rfl, rfl⟩
  · intro a p h
    obtain ⟨s, h1, h2⟩ := JsonScalar.enc_round_trip hC (h (p, a) (by simp [leavesAt]))
    exact ⟨.leaf s, by simp only [Tree.mapM, h1], by simp only [Json.encToTree, h2]⟩
  · intro p _; exact ⟨[], rfl, rfl⟩
  · intro t r iht ihr p h
    simp only [leavesSeq, List.mem_append] at h
    obtain ⟨x, h1, h2⟩ := iht p (fun pv hp => h pv (.inl hp))
    obtain ⟨y, h3, h4⟩ := ihr p (fun pv hp => h pv (.inr hp))
    exact ⟨x :: y, by simp only [Tree.mapSeqM, h1, h3], by simp only [Json.encToSeq, h2, h4]⟩
  · intro p _; exact ⟨[], rfl, rfl⟩
  · intro k t r iht ihr p h
    simp only [leavesMap, List.mem_append] at h
    obtain ⟨x, h1, h2⟩ := iht _ (fun pv hp => h pv (.inl hp))
    obtain ⟨y, h3, h4⟩ := ihr p (fun pv hp => h pv (.inr hp))
    rw [Resolved.steps_concat] at h2
    exact ⟨(k, x) :: y, by simp only [Tree.mapMapM, h1, h3], by simp only [Json.encToMap, h2, h4]⟩

theorem Format.json_lawful : Format.Lawful Format.json jsonRep where
  round_trip m h := Json.round_trip.2.2 m [] h
  enc_round_trip _ hC rx cfg m h := (Json.enc_round_trip hC rx cfg).2.2 m [] (leafOk_of_encHolds h)

/-! ## YAML -/

theorem Yaml.toTree_ofValue (v : Value) : Yaml.toTree (Yaml.ofValue v) = .ok (.leaf v) := by
  cases v with
  | integer i => simp only [Yaml.ofValue, Yaml.toTree, Number.toInternal_ofI64]
  | string s => simp only [Yaml.ofValue, Yaml.toTree]
  | boolean s => simp only [Yaml.ofValue, Yaml.toTree]
  | float s => simp only [Yaml.ofValue, Yaml.toTree, Number.toInternal]

theorem Yaml.round_trip :
    (∀ t : Tree Value, Yaml.toTree (Yaml.ofTree Yaml.ofValue t) = .ok t) ∧
    (∀ l : List (Tree Value), Yaml.toSeq (Yaml.ofSeq Yaml.ofValue l) = .ok l) ∧
    (∀ m : RMap Value, Yaml.toMap (Yaml.ofMap Yaml.ofValue m) = .ok m) := by
  apply Tree.induct
  · intro l ih; simp only [Yaml.ofTree, Yaml.toTree, ih]
  · intro l ih; simp only [Yaml.ofTree, Yaml.toTree, ih]
  · simp only [Yaml.ofTree, Yaml.toTree]
  · intro a; simp only [Yaml.ofTree, Yaml.toTree_ofValue]
  · simp only [Yaml.ofSeq, Yaml.toSeq]
  · intro t r iht ihr; simp only [Yaml.ofSeq, Yaml.toSeq, iht, ihr]
  · simp only [Yaml.ofMap, Yaml.toMap]
  · intro k t r iht ihr; simp only [Yaml.ofMap, Yaml.toMap, Yaml.validateKey, iht, ihr]

theorem Yaml.encToTree_ofEncLeaf {C : Cipher} (hC : ',' ∉ C.name) {rx : RegexMatch}
    {cfg : Option PartialEncryption} {p : List Str} {l : EncLeaf} (h : LeafOk C rx cfg yamlRep (p, l)) :
    Yaml.encToTree C rx ((Resolved.ofConfig cfg).steps rx p) (Yaml.ofEncLeaf C l) = .ok (.leaf l) := by
  cases l with
  | encrypted e =>
    simp only [Yaml.ofEncLeaf, Yaml.encToTree, escape_eq.2 h.1, EncValue.parse_toText hC h.2,
      Bool.false_eq_true, if_false]
  | escaped v =>
    cases v with
    | integer i =>
      simp only [Yaml.ofEncLeaf, Yaml.ofValue, Yaml.encToTree, escape_eq.1 h.1, if_true, Number.toInternal_ofI64]
    | _ => simp only [Yaml.ofEncLeaf, Yaml.ofValue, Yaml.encToTree, escape_eq.1 h.1, if_true, Number.toInternal]

theorem Yaml.enc_round_trip {C : Cipher} (hC : ',' ∉ C.name) (rx : RegexMatch) (cfg : Option PartialEncryption) :
    (∀ t : Tree EncLeaf, ∀ p, (∀ pl ∈ leavesAt p t, LeafOk C rx cfg yamlRep pl) →
      Yaml.encToTree C rx ((Resolved.ofConfig cfg).steps rx p) (Yaml.ofTree (Yaml.ofEncLeaf C) t) = .ok t) ∧
    (∀ l : List (Tree EncLeaf), ∀ p, (∀ pl ∈ leavesSeq p l, LeafOk C rx cfg yamlRep pl) →
      Yaml.encToSeq C rx ((Resolved.ofConfig cfg).steps rx p) (Yaml.ofSeq (Yaml.ofEncLeaf C) l) = .ok l) ∧
    (∀ m : RMap EncLeaf, ∀ p, (∀ pl ∈ leavesMap p m, LeafOk C rx cfg yamlRep pl) →
      Yaml.encToMap C rx ((Resolved.ofConfig cfg).steps rx p) (Yaml.ofMap (Yaml.ofEncLeaf C) m) = .ok m) := by
  apply Tree.induct
  · intro l ih p h; simp only [Yaml.ofTree, Yaml.encToTree, ih p h]
  · intro l ih p h; simp only [Yaml.ofTree, Yaml.encToTree, ih p h]
  · intro p _; simp only [Yaml.ofTree, Yaml.encToTree]
  · intro a p h
    rw [Yaml.ofTree]
    exact Yaml.encToTree_ofEncLeaf hC (h (p, a) (by simp [leavesAt]))
  · intro p _; simp only [Yaml.ofSeq, Yaml.encToSeq]
  · intro t r iht ihr p h
    simp only [leavesSeq, List.mem_append] at h
    simp only [Yaml.ofSeq, Yaml.encToSeq, iht p (fun pv hp => h pv (.inl hp)), ihr p (fun pv hp => h pv (.inr hp))]
  · intro p _; simp only [Yaml.ofMap, Yaml.encToMap]
  · intro k t r iht ihr p h
    simp only [leavesMap, List.mem_append] at h
    have h2 := iht _ (fun pv hp => h pv (.inl hp))
    rw [Resolved.steps_concat] at h2
    simp only [Yaml.ofMap, Yaml.encToMap, Yaml.validateKey, h2, ihr p (fun pv hp => h pv (.inr hp))]

theorem Format.yaml_lawful : Format.Lawful Format.yaml yamlRep where
  round_trip m _ := ⟨_, rfl, Yaml.round_trip.2.2 m⟩
  enc_round_trip _ hC rx cfg m h := ⟨_, rfl, (Yaml.enc_round_trip hC rx cfg).2.2 m [] (leafOk_of_encHolds h)⟩

/-! ## TOML -/

theorem Toml.toTree_ofValue {v : Value} (h : tomlRep v) : Toml.toTree (Toml.ofValue v) = .ok (.leaf v) := by
  cases v with
  | integer i => simp only [Toml.ofValue, Toml.toTree]
  | string s =>
    have hs : s ≠ tomlNull := fun e => h (by rw [e]; rfl)
    simp only [Toml.ofValue, Toml.toTree, hs, if_false]
  | boolean s => simp only [Toml.ofValue, Toml.toTree]
  | float s => simp only [Toml.ofValue, Toml.toTree]

theorem Toml.round_trip :
    (∀ t : Tree Value, ∀ p, (∀ pv ∈ leavesAt p t, tomlRep pv.2) →
      Toml.toTree (Toml.ofTree Toml.ofValue t) = .ok t) ∧
    (∀ l : List (Tree Value), ∀ p, (∀ pv ∈ leavesSeq p l, tomlRep pv.2) →
      Toml.toSeq (Toml.ofSeq Toml.ofValue l) = .ok l) ∧
    (∀ m : RMap Value, ∀ p, (∀ pv ∈ leavesMap p m, tomlRep pv.2) →
      Toml.toMap (Toml.ofMap Toml.ofValue m) = .ok m) := by
  apply Tree.induct
  · intro l ih p h; simp only [Toml.ofTree, Toml.toTree, ih p h]
  · intro l ih p h; simp only [Toml.ofTree, Toml.toTree, ih p h]
  · intro p _; simp only [Toml.ofTree, Toml.toTree, if_true]
  · intro a p h
    rw [Toml.ofTree, Toml.toTree_ofValue (h (p, a) (by simp [leavesAt]))]
  · intro p _; simp only [Toml.ofSeq, Toml.toSeq]
  · intro t r iht ihr p h
    simp only [leavesSeq, List.mem_append] at h
    simp only [Toml.ofSeq, Toml.toSeq, iht p (fun pv hp => h pv (.inl hp)), ihr p (fun pv hp => h pv (.inr hp))]
  · intro p _; simp only [Toml.ofMap, Toml.toMap]
  · intro k t r iht ihr p h
    simp only [leavesMap, List.mem_append] at h
    simp only [Toml.ofMap, Toml.toMap, iht _ (fun pv hp => h pv (.inl hp)), ihr p (fun pv hp => h pv (.inr hp))]

theorem EncValue.toText_ne_null (C : Cipher) (e : EncValue) : e.toText C ≠ tomlNull := by
  intro h
  have h1 : (e.toText C).head? = some 'E' := by simp [EncValue.toText]
  rw [h] at h1
  revert h1
  decide

theorem Toml.encToTree_ofEncLeaf {C : Cipher} (hC : ',' ∉ C.name) {rx : RegexMatch}
    {cfg : Option PartialEncryption} {p : List Str} {l : EncLeaf} (h : LeafOk C rx cfg tomlRep (p, l)) :
    Toml.encToTree C rx ((Resolved.ofConfig cfg).steps rx p) (Toml.ofEncLeaf C l) = .ok (.leaf l) := by
  cases l with
  | encrypted e =>
    simp only [Toml.ofEncLeaf, Toml.encToTree, escape_eq.2 h.1, EncValue.parse_toText hC h.2,
      EncValue.toText_ne_null, Bool.false_eq_true, if_false]
  | escaped v =>
    cases v with
    | string s =>
      have hs : s ≠ tomlNull := fun e => h.2 (by rw [e]; rfl)
      simp only [Toml.ofEncLeaf, Toml.ofValue, Toml.encToTree, escape_eq.1 h.1, if_true, if_neg hs]
    | _ => simp only [Toml.ofEncLeaf, Toml.ofValue, Toml.encToTree, escape_eq.1 h.1, if_true]

theorem Toml.enc_round_trip {C : Cipher} (hC : ',' ∉ C.name) (rx : RegexMatch) (cfg : Option PartialEncryption) :
    (∀ t : Tree EncLeaf, ∀ p, (∀ pl ∈ leavesAt p t, LeafOk C rx cfg tomlRep pl) →
      Toml.encToTree C rx ((Resolved.ofConfig cfg).steps rx p) (Toml.ofTree (Toml.ofEncLeaf C) t) = .ok t) ∧
    (∀ l : List (Tree EncLeaf), ∀ p, (∀ pl ∈ leavesSeq p l, LeafOk C rx cfg tomlRep pl) →
      Toml.encToSeq C rx ((Resolved.ofConfig cfg).steps rx p) (Toml.ofSeq (Toml.ofEncLeaf C) l) = .ok l) ∧
    (∀ m : RMap EncLeaf, ∀ p, (∀ pl ∈ leavesMap p m, LeafOk C rx cfg tomlRep pl) →
      Toml.encToMap C rx ((Resolved.ofConfig cfg).steps rx p) (Toml.ofMap (Toml.ofEncLeaf C) m) = .ok m) := by
  apply Tree.induct
  · intro l ih p h; simp only [Toml.ofTree, Toml.encToTree, ih p h]
  · intro l ih p h; simp only [Toml.ofTree, Toml.encToTree, ih p h]
  · intro p _; simp only [Toml.ofTree, Toml.encToTree, if_true]
  · intro a p h
    rw [Toml.ofTree]
    exact Toml.encToTree_ofEncLeaf hC (h (p, a) (by simp [leavesAt]))
  · intro p _; simp only [Toml.ofSeq, Toml.encToSeq]
  · intro t r iht ihr p h
    simp only [leavesSeq, List.mem_append] at h
    simp only [Toml.ofSeq, Toml.encToSeq, iht p (fun pv hp => h pv (.inl hp)), ihr p (fun pv hp => h pv (.inr hp))]
  · intro p _; simp only [Toml.ofMap, Toml.encToMap]
  · intro k t r iht ihr p h
    simp only [leavesMap, List.mem_append] at h
    have h2 := iht _ (fun pv hp => h pv (.inl hp))
    rw [Resolved.steps_concat] at h2
    simp only [Toml.ofMap, Toml.encToMap, h2, ihr p (fun pv hp => h pv (.inr hp))]

theorem Format.toml_lawful : Format.Lawful Format.toml tomlRep where
  round_trip m h := ⟨_, rfl, Toml.round_trip.2.2 m [] h⟩
  enc_round_trip _ hC rx cfg m h := ⟨_, rfl, (Toml.enc_round_trip hC rx cfg).2.2 m [] (leafOk_of_encHolds h)⟩

/-! ## Reading as a traversal of the document -/

/-- Reading of a scalar. -/
def rd : Scalar → Except FormatError Value
  | .bool b => .ok (.boolean b)
  | .int i => if -2 ^ 63 ≤ i ∧ i < 2 ^ 63 then .ok (.integer (Int64.ofInt i)) else .error (.integerOutOfRange (UInt64.ofNat i.toNat))
  | .float s => .ok (.float s)
  | .str s => .ok (.string s)
  | .date s => .ok (.string s)

/-- Reading of a scalar of an encrypted document. -/
def rdEnc (C : Cipher) (escape : Bool) (s : Scalar) : Except FormatError EncLeaf :=
  if escape then
    match rd s with
    | .ok v => .ok (.escaped v)
    | .error e => .error e
  else match s with
    | .str t => match EncValue.parse C t with
      | .ok e => .ok (.encrypted e)
      | .error e => .error (.encryptedValue e)
    | _ => .error .plaintextWhenEncrypted

def rdAt (_ : List Str) (s : Scalar) (_ : Unit) : Except FormatError (Value × Unit) :=
  match rd s with
  | .ok v => .ok (v, ())
  | .error e => .error e

def rdEncAt (C : Cipher) (rx : RegexMatch) (cfg : Option PartialEncryption) (p : List Str) (s : Scalar) (_ : Unit) :
    Except FormatError (EncLeaf × Unit) :=
  match rdEnc C ((Resolved.ofConfig cfg).steps rx p).escape s with
  | .ok v => .ok (v, ())
  | .error e => .error e

/-- Forget the state of a traversal. -/
def dropUnit {β : Type} : Except FormatError (β × Unit) → Except FormatError β
  | .ok (b, _) => .ok b
  | .error e => .error e

theorem dropUnit_ok {β : Type} {x : Except FormatError (β × Unit)} {b : β} :
    dropUnit x = .ok b ↔ x = .ok (b, ()) := by
  rcases x with e | ⟨b', u⟩
  · simp [dropUnit]
  · simp [dropUnit]

theorem dropUnit_error {β : Type} {x : Except FormatError (β × Unit)} {e : FormatError} :
    dropUnit x = .error e ↔ x = .error e := by
  rcases x with e | ⟨b', u⟩
  · simp [dropUnit]
  · simp [dropUnit]

theorem rd_number (n : Number) : n.toInternal = rd (numberScalar n) := by
  cases n with
  | float s => rfl
  | posInt u =>
    simp only [Number.toInternal, Number.asI64, numberScalar, rd]
    by_cases h : u.toNat < 2 ^ 63
    · have h' : -2 ^ 63 ≤ (u.toNat : Int) ∧ (u.toNat : Int) < 2 ^ 63 := by omega
      simp only [if_pos h, if_pos h', Int64.ofInt_eq_ofNat]
    · have h' : ¬ (-2 ^ 63 ≤ (u.toNat : Int) ∧ (u.toNat : Int) < 2 ^ 63) := by omega
      simp only [if_neg h, if_neg h', Int.toNat_natCast, UInt64.ofNat_toNat]
  | negInt i =>
    have h' : -2 ^ 63 ≤ i.toInt ∧ i.toInt < 2 ^ 63 := ⟨i.le_toInt, i.toInt_lt⟩
    simp only [Number.toInternal, numberScalar, rd, if_pos h', Int64.ofInt_toInt]

theorem rd_jsonScalar (s : JsonScalar) : s.toInternal = rd (jsonScalar s) := by
  cases s with
  | num n => exact rd_number n
  | _ => rfl

theorem rdEnc_jsonScalar (C : Cipher) (b : Bool) (s : JsonScalar) :
    s.encToInternal C b = rdEnc C b (jsonScalar s) := by
  cases s with
  | num n =>
    simp only [JsonScalar.encToInternal, rdEnc, jsonScalar, rd_number]
    cases b
    · simp only [Bool.false_eq_true, if_false]
      cases n <;> rfl
    · rfl
  | bool x => cases b <;> rfl
  | str x => cases b <;> rfl

theorem Json.to_eq_trav :
    (∀ t p, Json.toTree t = dropUnit (travTree rdAt p (jsonDoc t) ())) ∧
    (∀ l p, Json.toSeq l = dropUnit (travSeq rdAt p (jsonSeq l) ())) ∧
    (∀ m p, Json.toMap m = dropUnit (travMap rdAt p (jsonMap m) ())) := by
  apply Tree.induct
  · intro l ih p
    rw [Json.toTree, jsonDoc, travTree, ih p]
    rcases travSeq rdAt p (jsonSeq l) () with e | ⟨x, u⟩ <;> rfl
  · intro l ih p
    rw [Json.toTree, jsonDoc, travTree, ih p]
    rcases travMap rdAt p (jsonMap l) () with e | ⟨x, u⟩ <;> rfl
  · intro p; rw [Json.toTree, jsonDoc, travTree]; rfl
  · intro a p
    rw [Json.toTree, jsonDoc, travTree, rd_jsonScalar, rdAt]
    rcases rd (jsonScalar a) with e | x <;> rfl
  · intro p; rw [Json.toSeq, jsonSeq, travSeq]; rfl
  · intro t r iht ihr p
    rw [Json.toSeq, jsonSeq, travSeq, iht p, ihr p]
    rcases travTree rdAt p (jsonDoc t) () with e | ⟨x, u⟩
    · rfl
    · simp only [dropUnit]
      rcases travSeq rdAt p (jsonSeq r) () with e | ⟨x, u⟩ <;> rfl
  · intro p; rw [Json.toMap, jsonMap, travMap]; rfl
  · intro k t r iht ihr p
    rw [Json.toMap, jsonMap, travMap, iht (p ++ [k]), ihr p]
    rcases travTree rdAt (p ++ [k]) (jsonDoc t) () with e | ⟨x, u⟩
    · rfl
    · simp only [dropUnit]
      rcases travMap rdAt p (jsonMap r) () with e | ⟨x, u⟩ <;> rfl

theorem Json.enc_eq_trav (C : Cipher) (rx : RegexMatch) (cfg : Option PartialEncryption) :
    (∀ t p, Json.encToTree C rx ((Resolved.ofConfig cfg).steps rx p) t =
      dropUnit (travTree (rdEncAt C rx cfg) p (jsonDoc t) ())) ∧
    (∀ l p, Json.encToSeq C rx ((Resolved.ofConfig cfg).steps rx p) l =
      dropUnit (travSeq (rdEncAt C rx cfg) p (jsonSeq l) ())) ∧
    (∀ m p, Json.encToMap C rx ((Resolved.ofConfig cfg).steps rx p) m =
      dropUnit (travMap (rdEncAt C rx cfg) p (jsonMap m) ())) := by
  apply Tree.induct
  · intro l ih p
    rw [Json.encToTree, jsonDoc, travTree, ih p]
    rcases travSeq (rdEncAt C rx cfg) p (jsonSeq l) () with e | ⟨x, u⟩ <;> rfl
  · intro l ih p
    rw [Json.encToTree, jsonDoc, travTree, ih p]
    rcases travMap (rdEncAt C rx cfg) p (jsonMap l) () with e | ⟨x, u⟩ <;> rfl
  · intro p; rw [Json.encToTree, jsonDoc, travTree]; rfl
  · intro a p
    rw [Json.encToTree, jsonDoc, travTree, rdEnc_jsonScalar, rdEncAt]
    rcases rdEnc C _ (jsonScalar a) with e | x <;> rfl
  · intro p; rw [Json.encToSeq, jsonSeq, travSeq]; rfl
  · intro t r iht ihr p
    rw [Json.encToSeq, jsonSeq, travSeq, iht p, ihr p]
    rcases travTree (rdEncAt C rx cfg) p (jsonDoc t) () with e | ⟨x, u⟩
    · rfl
    · simp only [dropUnit]
      rcases travSeq (rdEncAt C rx cfg) p (jsonSeq r) () with e | ⟨x, u⟩ <;> rfl
  · intro p; rw [Json.encToMap, jsonMap, travMap]; rfl
  · intro k t r iht ihr p
    rw [Json.encToMap, jsonMap, travMap, ← Resolved.steps_concat, iht (p ++ [k]), ihr p]
    rcases travTree (rdEncAt C rx cfg) (p ++ [k]) (jsonDoc t) () with e | ⟨x, u⟩
    · rfl
    · simp only [dropUnit]
      rcases travMap (rdEncAt C rx cfg) p (jsonMap r) () with e | ⟨x, u⟩ <;> rfl

theorem Yaml.induct {P : Yaml → Prop} {PL : List Yaml → Prop} {PM : List (Yaml × Yaml) → Prop}
    (null : P .null) (bool : ∀ b, P (.bool b)) (num : ∀ n, P (.num n)) (str : ∀ s, P (.str s))
    (seq : ∀ l, PL l → P (.seq l)) (map : ∀ m, PM m → P (.map m)) (tagged : ∀ s v, P v → P (.tagged s v))
    (nilL : PL []) (consL : ∀ t r, P t → PL r → PL (t :: r))
    (nilM : PM []) (consM : ∀ k t r, P k → P t → PM r → PM ((k, t) :: r)) :
    (∀ t, P t) ∧ (∀ l, PL l) ∧ (∀ m, PM m) := by
  refine ⟨fun t => ?_, fun l => ?_, fun m => ?_⟩
  · exact Yaml.rec (motive_1 := P) (motive_2 := PL) (motive_3 := PM) (motive_4 := fun p => P p.1 ∧ P p.2)
      null bool num str seq map tagged nilL consL nilM (fun p r h1 h2 => consM p.1 p.2 r h1.1 h1.2 h2)
      (fun _ _ h1 h2 => ⟨h1, h2⟩) t
  · exact Yaml.rec_1 (motive_1 := P) (motive_2 := PL) (motive_3 := PM) (motive_4 := fun p => P p.1 ∧ P p.2)
      null bool num str seq map tagged nilL consL nilM (fun p r h1 h2 => consM p.1 p.2 r h1.1 h1.2 h2)
      (fun _ _ h1 h2 => ⟨h1, h2⟩) l
  · exact Yaml.rec_2 (motive_1 := P) (motive_2 := PL) (motive_3 := PM) (motive_4 := fun p => P p.1 ∧ P p.2)
      null bool num str seq map tagged nilL consL nilM (fun p r h1 h2 => consM p.1 p.2 r h1.1 h1.2 h2)
      (fun _ _ h1 h2 => ⟨h1, h2⟩) m

/-- A result that is a given traversal of the document, or an error if there is none. -/
def IsRead {δ β : Type} (trav : δ → Except FormatError (β × Unit)) (doc : Option δ) (x : Except FormatError β) : Prop :=
  match doc with
  | some d => x = dropUnit (trav d)
  | none => ∃ e, x = .error e

theorem Yaml.to_eq_trav :
    (∀ t p, IsRead (fun d => travTree rdAt p d ()) (yamlDoc t) (Yaml.toTree t)) ∧
    (∀ l p, IsRead (fun d => travSeq rdAt p d ()) (yamlSeq l) (Yaml.toSeq l)) ∧
    (∀ m p, IsRead (fun d => travMap rdAt p d ()) (yamlMap m) (Yaml.toMap m)) := by
  apply Yaml.induct
  · intro p; simp only [yamlDoc, Yaml.toTree, IsRead, travTree, dropUnit]
  · intro b p; simp only [yamlDoc, Yaml.toTree, IsRead, travTree, dropUnit, rdAt, rd]
  · intro n p
    simp only [yamlDoc, Yaml.toTree, IsRead, travTree, rdAt, rd_number]
    rcases rd (numberScalar n) with e | x <;> rfl
  · intro s p; simp only [yamlDoc, Yaml.toTree, IsRead, travTree, dropUnit, rdAt, rd]
  · intro l ih p
    have ih := ih p
    rw [yamlDoc, Yaml.toTree]
    revert ih
    cases yamlSeq l with
    | none => rintro ⟨e, he⟩; exact ⟨e, by rw [he]⟩
    | some d =>
      intro h
      simp only [IsRead, Option.map_some, travTree] at h ⊢
      rw [h]
      rcases travSeq rdAt p d () with e | ⟨x, u⟩ <;> rfl
  · intro l ih p
    have ih := ih p
    rw [yamlDoc, Yaml.toTree]
    revert ih
    cases yamlMap l with
    | none => rintro ⟨e, he⟩; exact ⟨e, by rw [he]⟩
    | some d =>
      intro h
      simp only [IsRead, Option.map_some, travTree] at h ⊢
      rw [h]
      rcases travMap rdAt p d () with e | ⟨x, u⟩ <;> rfl
  · intro s v ih p; rw [yamlDoc, Yaml.toTree]; exact ih p
  · intro p; simp only [yamlSeq, Yaml.toSeq, IsRead, travSeq, dropUnit]
  · intro t r iht ihr p
    have iht := iht p
    have ihr := ihr p
    rw [yamlSeq, Yaml.toSeq]
    revert iht ihr
    cases yamlDoc t with
    | none => rintro ⟨e, he⟩ _; exact ⟨e, by rw [he]⟩
    | some d =>
      intro h1 h2
      simp only [IsRead] at h1
      rw [h1]
      cases hr : yamlSeq r with
      | none =>
        rw [hr] at h2
        obtain ⟨e, he⟩ := h2
        rw [he]
        rcases travTree rdAt p d () with e' | ⟨x, u⟩
        · exact ⟨e', rfl⟩
        · exact ⟨e, rfl⟩
      | some d' =>
        rw [hr] at h2
        simp only [IsRead, travSeq] at h2 ⊢
        rw [h2]
        rcases travTree rdAt p d () with e' | ⟨x, u⟩
        · rfl
        · simp only [dropUnit]
          rcases travSeq rdAt p d' () with e' | ⟨x, u⟩ <;> rfl
  · intro p; simp only [yamlMap, Yaml.toMap, IsRead, travMap, dropUnit]
  · intro k t r _ iht ihr p
    have ihr := ihr p
    by_cases hk : ∃ s, k = .str s
    · obtain ⟨s, rfl⟩ := hk
      have iht := iht (p ++ [s])
      simp only [yamlMap, Yaml.toMap, Yaml.validateKey]
      revert iht ihr
      cases yamlDoc t with
      | none => rintro _ ⟨e, he⟩; exact ⟨e, by rw [he]⟩
      | some d =>
        intro h2 h1
        simp only [IsRead] at h1
        rw [h1]
        cases hr : yamlMap r with
        | none =>
          rw [hr] at h2
          obtain ⟨e, he⟩ := h2
          rw [he]
          rcases travTree rdAt (p ++ [s]) d () with e' | ⟨x, u⟩
          · exact ⟨e', rfl⟩
          · exact ⟨e, rfl⟩
        | some d' =>
          rw [hr] at h2
          simp only [IsRead, travMap] at h2 ⊢
          rw [h2]
          rcases travTree rdAt (p ++ [s]) d () with e' | ⟨x, u⟩
          · rfl
          · simp only [dropUnit]
            rcases travMap rdAt p d' () with e' | ⟨x, u⟩ <;> rfl
    · cases k with
      | str s => exact (hk ⟨s, rfl⟩).elim
      | _ => simp only [yamlMap, Yaml.toMap, Yaml.validateKey]; exact ⟨_, rfl⟩

theorem Yaml.enc_eq_trav (C : Cipher) (rx : RegexMatch) (cfg : Option PartialEncryption) :
    (∀ t p, IsRead (fun d => travTree (rdEncAt C rx cfg) p d ()) (yamlDoc t)
      (Yaml.encToTree C rx ((Resolved.ofConfig cfg).steps rx p) t)) ∧
    (∀ l p, IsRead (fun d => travSeq (rdEncAt C rx cfg) p d ()) (yamlSeq l)
      (Yaml.encToSeq C rx ((Resolved.ofConfig cfg).steps rx p) l)) ∧
    (∀ m p, IsRead (fun d => travMap (rdEncAt C rx cfg) p d ()) (yamlMap m)
      (Yaml.encToMap C rx ((Resolved.ofConfig cfg).steps rx p) m)) := by
  apply Yaml.induct
  · intro p; simp only [yamlDoc, Yaml.encToTree, IsRead, travTree, dropUnit]
  · intro b p
    simp only [yamlDoc, Yaml.encToTree, IsRead, travTree, rdEncAt, rdEnc, rd]
    cases ((Resolved.ofConfig cfg).steps rx p).escape <;> rfl
  · intro n p
    simp only [yamlDoc, Yaml.encToTree, IsRead, travTree, rdEncAt, rdEnc, rd_number]
    cases ((Resolved.ofConfig cfg).steps rx p).escape
    · simp only [Bool.false_eq_true, if_false]
      cases n <;> rfl
    · simp only [if_true]
      rcases rd (numberScalar n) with e | x <;> rfl
  · intro s p
    simp only [yamlDoc, Yaml.encToTree, IsRead, travTree, rdEncAt, rdEnc, rd]
    cases ((Resolved.ofConfig cfg).steps rx p).escape
    · simp only [Bool.false_eq_true, if_false]
      rcases EncValue.parse C s with e | x <;> rfl
    · rfl
  · intro l ih p
    have ih := ih p
    rw [yamlDoc, Yaml.encToTree]
    revert ih
    cases yamlSeq l with
    | none => rintro ⟨e, he⟩; exact ⟨e, by rw [he]⟩
    | some d =>
      intro h
      simp only [IsRead, Option.map_some, travTree] at h ⊢
      rw [h]
      rcases travSeq (rdEncAt C rx cfg) p d () with e | ⟨x, u⟩ <;> rfl
  · intro l ih p
    have ih := ih p
    rw [yamlDoc, Yaml.encToTree]
    revert ih
    cases yamlMap l with
    | none => rintro ⟨e, he⟩; exact ⟨e, by rw [he]⟩
    | some d =>
      intro h
      simp only [IsRead, Option.map_some, travTree] at h ⊢
      rw [h]
      rcases travMap (rdEncAt C rx cfg) p d () with e | ⟨x, u⟩ <;> rfl
  · intro s v ih p; rw [yamlDoc, Yaml.encToTree]; exact ih p
  · intro p; simp only [yamlSeq, Yaml.encToSeq, IsRead, travSeq, dropUnit]
  · intro t r iht ihr p
    have iht := iht p
    have ihr := ihr p
    rw [yamlSeq, Yaml.encToSeq]
    revert iht ihr
    cases yamlDoc t with
    | none => rintro ⟨e, he⟩ _; exact ⟨e, by rw [he]⟩
    | some d =>
      intro h1 h2
      simp only [IsRead] at h1
      rw [h1]
      cases hr : yamlSeq r with
      | none =>
        rw [hr] at h2
        obtain ⟨e, he⟩ := h2
        rw [he]
        rcases travTree (rdEncAt C rx cfg) p d () with e' | ⟨x, u⟩
        · exact ⟨e', rfl⟩
        · exact ⟨e, rfl⟩
      | some d' =>
        rw [hr] at h2
        simp only [IsRead, travSeq] at h2 ⊢
        rw [h2]
        rcases travTree (rdEncAt C rx cfg) p d () with e' | ⟨x, u⟩
        · rfl
        · simp only [dropUnit]
          rcases travSeq (rdEncAt C rx cfg) p d' () with e' | ⟨x, u⟩ <;> rfl
  · intro p; simp only [yamlMap, Yaml.encToMap, IsRead, travMap, dropUnit]
  · intro k t r _ iht ihr p
    have ihr := ihr p
    by_cases hk : ∃ s, k = .str s
    · obtain ⟨s, rfl⟩ := hk
      have iht := iht (p ++ [s])
      rw [Resolved.steps_concat] at iht
      simp only [yamlMap, Yaml.encToMap, Yaml.validateKey]
      revert iht ihr
      cases yamlDoc t with
      | none => rintro _ ⟨e, he⟩; exact ⟨e, by rw [he]⟩
      | some d =>
        intro h2 h1
        simp only [IsRead] at h1
        rw [h1]
        cases hr : yamlMap r with
        | none =>
          rw [hr] at h2
          obtain ⟨e, he⟩ := h2
          rw [he]
          rcases travTree (rdEncAt C rx cfg) (p ++ [s]) d () with e' | ⟨x, u⟩
          · exact ⟨e', rfl⟩
          · exact ⟨e, rfl⟩
        | some d' =>
          rw [hr] at h2
          simp only [IsRead, travMap] at h2 ⊢
          rw [h2]
          rcases travTree (rdEncAt C rx cfg) (p ++ [s]) d () with e' | ⟨x, u⟩
          · rfl
          · simp only [dropUnit]
            rcases travMap (rdEncAt C rx cfg) p d' () with e' | ⟨x, u⟩ <;> rfl
    · cases k with
      | str s => exact (hk ⟨s, rfl⟩).elim
      | _ => simp only [yamlMap, Yaml.encToMap, Yaml.validateKey]; exact ⟨_, rfl⟩

theorem Toml.induct {P : Toml → Prop} {PL : List Toml → Prop} {PM : List (Str × Toml) → Prop}
    (str : ∀ s, P (.str s)) (int : ∀ n, P (.int n)) (float : ∀ n, P (.float n)) (bool : ∀ b, P (.bool b))
    (date : ∀ s, P (.datetime s)) (seq : ∀ l, PL l → P (.array l)) (map : ∀ m, PM m → P (.table m))
    (nilL : PL []) (consL : ∀ t r, P t → PL r → PL (t :: r))
    (nilM : PM []) (consM : ∀ k t r, P t → PM r → PM ((k, t) :: r)) :
    (∀ t, P t) ∧ (∀ l, PL l) ∧ (∀ m, PM m) := by
  refine ⟨fun t => ?_, fun l => ?_, fun m => ?_⟩
  · exact Toml.rec (motive_1 := P) (motive_2 := PL) (motive_3 := PM) (motive_4 := fun p => P p.2)
      str int float bool date seq map nilL consL nilM (fun p r h1 h2 => consM p.1 p.2 r h1 h2)
      (fun _ _ h => h) t
  · exact Toml.rec_1 (motive_1 := P) (motive_2 := PL) (motive_3 := PM) (motive_4 := fun p => P p.2)
      str int float bool date seq map nilL consL nilM (fun p r h1 h2 => consM p.1 p.2 r h1 h2)
      (fun _ _ h => h) l
  · exact Toml.rec_2 (motive_1 := P) (motive_2 := PL) (motive_3 := PM) (motive_4 := fun p => P p.2)
      str int float bool date seq map nilL consL nilM (fun p r h1 h2 => consM p.1 p.2 r h1 h2)
      (fun _ _ h => h) m

theorem rd_i64 (n : Int64) : rd (.int n.toInt) = .ok (.integer n) := by
  have h' : -2 ^ 63 ≤ n.toInt ∧ n.toInt < 2 ^ 63 := ⟨n.le_toInt, n.toInt_lt⟩
  simp only [rd, if_pos h', Int64.ofInt_toInt]

theorem Toml.to_eq_trav :
    (∀ t p, Toml.toTree t = dropUnit (travTree rdAt p (tomlDoc t) ())) ∧
    (∀ l p, Toml.toSeq l = dropUnit (travSeq rdAt p (tomlSeq l) ())) ∧
    (∀ m p, Toml.toMap m = dropUnit (travMap rdAt p (tomlMap m) ())) := by
  apply Toml.induct
  · intro s p
    by_cases h : s = c!"null"
    · have h' : s = tomlNull := h
      simp only [Toml.toTree, tomlDoc, if_pos h, if_pos h', travTree, dropUnit]
    · have h' : s ≠ tomlNull := h
      simp only [Toml.toTree, tomlDoc, if_neg h, if_neg h', travTree, dropUnit, rdAt, rd]
  · intro n p; simp only [Toml.toTree, tomlDoc, travTree, rdAt, rd_i64, dropUnit]
  · intro n p; simp only [Toml.toTree, tomlDoc, travTree, rdAt, rd, dropUnit]
  · intro n p; simp only [Toml.toTree, tomlDoc, travTree, rdAt, rd, dropUnit]
  · intro n p; simp only [Toml.toTree, tomlDoc, travTree, rdAt, rd, dropUnit]
  · intro l ih p
    rw [Toml.toTree, tomlDoc, travTree, ih p]
    rcases travSeq rdAt p (tomlSeq l) () with e | ⟨x, u⟩ <;> rfl
  · intro l ih p
    rw [Toml.toTree, tomlDoc, travTree, ih p]
    rcases travMap rdAt p (tomlMap l) () with e | ⟨x, u⟩ <;> rfl
  · intro p; rw [Toml.toSeq, tomlSeq, travSeq]; rfl
  · intro t r iht ihr p
    rw [Toml.toSeq, tomlSeq, travSeq, iht p, ihr p]
    rcases travTree rdAt p (tomlDoc t) () with e | ⟨x, u⟩
    · rfl
    · simp only [dropUnit]
      rcases travSeq rdAt p (tomlSeq r) () with e | ⟨x, u⟩ <;> rfl
  · intro p; rw [Toml.toMap, tomlMap, travMap]; rfl
  · intro k t r iht ihr p
    rw [Toml.toMap, tomlMap, travMap, iht (p ++ [k]), ihr p]
    rcases travTree rdAt (p ++ [k]) (tomlDoc t) () with e | ⟨x, u⟩
    · rfl
    · simp only [dropUnit]
      rcases travMap rdAt p (tomlMap r) () with e | ⟨x, u⟩ <;> rfl

theorem Toml.enc_eq_trav (C : Cipher) (rx : RegexMatch) (cfg : Option PartialEncryption) :
    (∀ t p, Toml.encToTree C rx ((Resolved.ofConfig cfg).steps rx p) t =
      dropUnit (travTree (rdEncAt C rx cfg) p (tomlDoc t) ())) ∧
    (∀ l p, Toml.encToSeq C rx ((Resolved.ofConfig cfg).steps rx p) l =
      dropUnit (travSeq (rdEncAt C rx cfg) p (tomlSeq l) ())) ∧
    (∀ m p, Toml.encToMap C rx ((Resolved.ofConfig cfg).steps rx p) m =
      dropUnit (travMap (rdEncAt C rx cfg) p (tomlMap m) ())) := by
  apply Toml.induct
  · intro s p
    by_cases h : s = c!"null"
    · have h' : s = tomlNull := h
      simp only [Toml.encToTree, tomlDoc, if_pos h, if_pos h', travTree, dropUnit]
    · have h' : s ≠ tomlNull := h
      simp only [Toml.encToTree, tomlDoc, if_neg h, if_neg h', travTree, rdEncAt, rdEnc, rd]
      cases ((Resolved.ofConfig cfg).steps rx p).escape
      · simp only [Bool.false_eq_true, if_false]
        rcases EncValue.parse C s with e | x <;> rfl
      · rfl
  · intro n p
    simp only [Toml.encToTree, tomlDoc, travTree, rdEncAt, rdEnc, rd_i64]
    cases ((Resolved.ofConfig cfg).steps rx p).escape <;> rfl
  · intro n p
    simp only [Toml.encToTree, tomlDoc, travTree, rdEncAt, rdEnc, rd]
    cases ((Resolved.ofConfig cfg).steps rx p).escape <;> rfl
  · intro n p
    simp only [Toml.encToTree, tomlDoc, travTree, rdEncAt, rdEnc, rd]
    cases ((Resolved.ofConfig cfg).steps rx p).escape <;> rfl
  · intro n p
    simp only [Toml.encToTree, tomlDoc, travTree, rdEncAt, rdEnc, rd]
    cases ((Resolved.ofConfig cfg).steps rx p).escape <;> rfl
  · intro l ih p
    rw [Toml.encToTree, tomlDoc, travTree, ih p]
    rcases travSeq (rdEncAt C rx cfg) p (tomlSeq l) () with e | ⟨x, u⟩ <;> rfl
  · intro l ih p
    rw [Toml.encToTree, tomlDoc, travTree, ih p]
    rcases travMap (rdEncAt C rx cfg) p (tomlMap l) () with e | ⟨x, u⟩ <;> rfl
  · intro p; rw [Toml.encToSeq, tomlSeq, travSeq]; rfl
  · intro t r iht ihr p
    rw [Toml.encToSeq, tomlSeq, travSeq, iht p, ihr p]
    rcases travTree (rdEncAt C rx cfg) p (tomlDoc t) () with e | ⟨x, u⟩
    · rfl
    · simp only [dropUnit]
      rcases travSeq (rdEncAt C rx cfg) p (tomlSeq r) () with e | ⟨x, u⟩ <;> rfl
  · intro p; rw [Toml.encToMap, tomlMap, travMap]; rfl
  · intro k t r iht ihr p
    rw [Toml.encToMap, tomlMap, travMap, ← Resolved.steps_concat, iht (p ++ [k]), ihr p]
    rcases travTree (rdEncAt C rx cfg) (p ++ [k]) (tomlDoc t) () with e | ⟨x, u⟩
    · rfl
    · simp only [dropUnit]
      rcases travMap (rdEncAt C rx cfg) p (tomlMap r) () with e | ⟨x, u⟩ <;> rfl

/-! ## What a successful reading means -/

theorem travList_unit_iff {α β ε : Type} {f : List Str → α → Unit → Except ε (β × Unit)}
    {l : List (List Str × α)} {l' : List (List Str × β)} :
    travList f l () = .ok (l', ()) ↔ l.length = l'.length ∧
      ∀ (n : Nat) (p : List Str) (a : α), l[n]? = some (p, a) → ∃ b, l'[n]? = some (p, b) ∧ f p a () = .ok (b, ()) := by
  induction l generalizing l' with
  | nil =>
    cases l' with
    | nil => simp [travList]
    | cons x r => simp [travList]
  | cons x r ih =>
    obtain ⟨p, a⟩ := x
    rw [travList_cons_ok]
    constructor
    · rintro ⟨b, s1, r', h1, h2, rfl⟩
      obtain ⟨h3, h4⟩ := ih.1 h2
      refine ⟨by simp [h3], fun n q c hn => ?_⟩
      cases n with
      | zero =>
        simp only [List.getElem?_cons_zero, Option.some.injEq, Prod.mk.injEq] at hn
        obtain ⟨rfl, rfl⟩ := hn
        exact ⟨b, rfl, h1⟩
      | succ n =>
        simp only [List.getElem?_cons_succ] at hn ⊢
        exact h4 n q c hn
    · rintro ⟨h1, h2⟩
      obtain ⟨b, hb, hf⟩ := h2 0 p a rfl
      cases l' with
      | nil => simp at hb
      | cons y r' =>
        simp only [List.getElem?_cons_zero, Option.some.injEq] at hb
        subst hb
        refine ⟨b, (), r', hf, ih.2 ⟨by simpa using h1, fun n q c hn => ?_⟩, rfl⟩
        have := h2 (n + 1) q c (by simpa using hn)
        simpa using this

theorem rd_iff {s : Scalar} {v : Value} : rd s = .ok v ↔ Reads s v := by
  cases s with
  | int i =>
    simp only [rd, Reads]
    by_cases h : -2 ^ 63 ≤ i ∧ i < 2 ^ 63
    · rw [if_pos h]
      constructor
      · intro h'
        cases h'
        exact ⟨_, rfl, Int64.toInt_ofInt_of_le h.1 h.2⟩
      · rintro ⟨n, rfl, rfl⟩
        rw [Int64.ofInt_toInt]
    · rw [if_neg h]
      constructor
      · intro h'; cases h'
      · rintro ⟨n, rfl, rfl⟩
        exact (h ⟨n.le_toInt, n.toInt_lt⟩).elim
  | _ => simp only [rd, Reads, Except.ok.injEq]; exact eq_comm

theorem rdAt_iff {p : List Str} {s : Scalar} {v : Value} : rdAt p s () = .ok (v, ()) ↔ Reads s v := by
  rw [← rd_iff, rdAt]
  rcases rd s with e | x <;> simp

theorem rdEncAt_iff {C : Cipher} {rx : RegexMatch} {cfg : Option PartialEncryption} {p : List Str} {s : Scalar}
    {l : EncLeaf} : rdEncAt C rx cfg p s () = .ok (l, ()) ↔
      (Plain rx cfg p → ∃ v, l = .escaped v ∧ Reads s v) ∧
      (¬ Plain rx cfg p → ∃ t e, s = .str t ∧ l = .encrypted e ∧ EncValue.parse C t = .ok e) := by
  by_cases hp : Plain rx cfg p
  · simp only [rdEncAt, escape_eq.1 hp, rdEnc, if_true, hp, not_true_eq_false, false_implies, and_true, true_implies]
    constructor
    · intro h
      cases hr : rd s with
      | error e => rw [hr] at h; cases h
      | ok v => rw [hr] at h; cases h; exact ⟨v, rfl, rd_iff.1 hr⟩
    · rintro ⟨v, rfl, hv⟩
      rw [rd_iff.2 hv]
  · simp only [rdEncAt, escape_eq.2 hp, rdEnc, Bool.false_eq_true, if_false, hp, not_false_eq_true, false_implies,
      true_and, true_implies]
    cases s with
    | str t =>
      simp only [Scalar.str.injEq]
      constructor
      · intro h
        cases hr : EncValue.parse C t with
        | error e => rw [hr] at h; cases h
        | ok e => rw [hr] at h; cases h; exact ⟨t, e, rfl, rfl, hr⟩
      · rintro ⟨t', e, rfl, rfl, he⟩
        rw [he]
    | _ =>
      constructor
      · intro h; cases h
      · rintro ⟨t', e, h, _⟩; cases h

theorem travMap_rdAt {d : RMap Scalar} {m : RMap Value} :
    dropUnit (travMap rdAt [] d ()) = .ok m ↔ ReadAs d m := by
  rw [dropUnit_ok, travMap_ok_iff, ReadAs]
  refine and_congr_right fun hs => ?_
  rw [travList_unit_iff]
  constructor
  · rintro ⟨_, h⟩ n p s hn
    obtain ⟨v, h1, h2⟩ := h n p s hn
    exact ⟨v, h1, rdAt_iff.1 h2⟩
  · intro h
    refine ⟨length_leaves_of_shape.2.2 _ _ _ _ hs.symm, fun n p s hn => ?_⟩
    obtain ⟨v, h1, h2⟩ := h n p s hn
    exact ⟨v, h1, rdAt_iff.2 h2⟩

theorem travMap_rdEncAt {C : Cipher} {rx : RegexMatch} {cfg : Option PartialEncryption} {d : RMap Scalar}
    {m : RMap EncLeaf} : dropUnit (travMap (rdEncAt C rx cfg) [] d ()) = .ok m ↔ EncReadAs C rx cfg d m := by
  rw [dropUnit_ok, travMap_ok_iff, EncReadAs]
  refine and_congr_right fun hs => ?_
  rw [travList_unit_iff]
  constructor
  · rintro ⟨_, h⟩ n p s hn
    obtain ⟨l, h1, h2⟩ := h n p s hn
    rw [rdEncAt_iff] at h2
    refine ⟨fun hp => ?_, fun hp => ?_⟩
    · obtain ⟨v, rfl, hv⟩ := h2.1 hp
      exact ⟨v, h1, hv⟩
    · obtain ⟨t, e, ht, rfl, he⟩ := h2.2 hp
      exact ⟨t, e, ht, h1, he⟩
  · intro h
    refine ⟨length_leaves_of_shape.2.2 _ _ _ _ hs.symm, fun n p s hn => ?_⟩
    obtain ⟨h1, h2⟩ := h n p s hn
    by_cases hp : Plain rx cfg p
    · obtain ⟨v, h3, h4⟩ := h1 hp
      exact ⟨_, h3, rdEncAt_iff.2 ⟨fun _ => ⟨v, rfl, h4⟩, fun hn => absurd hp hn⟩⟩
    · obtain ⟨t, e, ht, h3, h4⟩ := h2 hp
      exact ⟨_, h3, rdEncAt_iff.2 ⟨fun hn => absurd hn hp, fun _ => ⟨t, e, ht, rfl, h4⟩⟩⟩

/-- The first failing leaf gives the error. -/
theorem travList_error {α β ε : Type} {f : List Str → α → Unit → Except ε (β × Unit)}
    {l : List (List Str × α)} {e : ε} (h : travList f l () = .error e) :
    ∃ pa ∈ l, f pa.1 pa.2 () = .error e := by
  induction l with
  | nil => cases h
  | cons x r ih =>
    obtain ⟨p, a⟩ := x
    simp only [travList] at h
    cases hf : f p a () with
    | error e' => rw [hf] at h; cases h; exact ⟨(p, a), by simp, hf⟩
    | ok y =>
      obtain ⟨y, u⟩ := y
      rw [hf] at h
      simp only at h
      cases hr : travList f r u with
      | error e' =>
        rw [hr] at h
        cases h
        obtain ⟨pa, h1, h2⟩ := ih hr
        exact ⟨pa, by simp [h1], h2⟩
      | ok z => rw [hr] at h; cases h

end Rops
