import Verif.Lemmas.Tree
import Verif.Lemmas.Partial
import Verif.Lemmas.Encoding
/-! Lemmas on the MAC. -/

namespace Rops
open Spec

/-- Hashing of one leaf. -/
def macLeaf (H : Hasher) (rx : RegexMatch) (cfg : Option PartialEncryption) (only : Bool)
    (h : H.State) (pv : List Str × Value) : H.State :=
  if only = true ∧ Plain rx cfg pv.1 then h else H.update h (plainBytes pv.2)

theorem mac_eq_fold (H : Hasher) (rx : RegexMatch) (cfg : Option PartialEncryption) (only : Bool) :
    (∀ t p h, macTree H rx ⟨only, (Resolved.ofConfig cfg).steps rx p⟩ t h
      = (leavesAt p t).foldl (macLeaf H rx cfg only) h) ∧
    (∀ l p h, macSeq H rx ⟨only, (Resolved.ofConfig cfg).steps rx p⟩ l h
      = (leavesSeq p l).foldl (macLeaf H rx cfg only) h) ∧
    (∀ m p h, macMap H rx ⟨only, (Resolved.ofConfig cfg).steps rx p⟩ m h
      = (leavesMap p m).foldl (macLeaf H rx cfg only) h) := by
  apply Tree.induct
  · intro l ih p h; simp only [macTree, leavesAt, ih]
  · intro m ih p h; simp only [macTree, leavesAt, ih]
  · intro p h; rfl
  · intro a p h
    simp only [macTree, leavesAt, List.foldl_cons, List.foldl_nil, macLeaf, Value.asBytes_eq]
    have hp := Resolved.escape_steps_iff rx cfg p
    cases he : ((Resolved.ofConfig cfg).steps rx p).escape with
    | true =>
      have := hp.1 he
      cases only <;> simp [this]
    | false =>
      have : ¬ Plain rx cfg p := fun e => by rw [hp.2 e] at he; cases he
      simp [this]
  · intro p h; rfl
  · intro t r iht ihr p h; simp only [macSeq, leavesSeq, List.foldl_append, iht, ihr]
  · intro p h; rfl
  · intro k t r iht ihr p h
    simp only [macMap, leavesMap, List.foldl_append, ← iht, ← ihr, Resolved.steps_concat]

theorem fold_macLeaf {H : Hasher} (hH : H.Streaming) (rx : RegexMatch) (cfg : Option PartialEncryption)
    (only : Bool) (l : List (List Str × Value)) (h : H.State) :
    l.foldl (macLeaf H rx cfg only) h =
      H.update h (((l.filter fun pv => ¬ (only = true ∧ Plain rx cfg pv.1)).map Prod.snd).flatMap plainBytes) := by
  induction l generalizing h with
  | nil => simp [hH.update_nil]
  | cons x r ih =>
    rw [List.foldl_cons, ih, macLeaf]
    by_cases hp : only = true ∧ Plain rx cfg x.1
    · rw [if_pos hp, List.filter_cons_of_neg (by simpa using hp)]
    · have hd : (decide ¬ (only = true ∧ Plain rx cfg x.1)) = true := decide_eq_true hp
      simp only [List.filter_cons, hd, if_true, if_neg hp, hH.update_append, List.map_cons, List.flatMap_cons]

theorem macInitBytes_eq : macInitBytes = macPrefix := by decide

theorem Mac.compute_eq {H : Hasher} (hH : H.Streaming) (rx : RegexMatch) (cfg : Option PartialEncryption)
    (only : Option Bool) (m : RMap Value) :
    Mac.compute H rx (MacConfig.new only cfg) m
      = utf8 (hex (H.digest (macInput rx cfg (only.getD false) m))) := by
  unfold Mac.compute MacConfig.new
  have h := fun h => (mac_eq_fold H rx cfg (only.getD false)).2.2 m [] h
  simp only [Resolved.steps, List.foldl_nil] at h
  simp only [h, fold_macLeaf hH]
  rw [← hexUpper_eq_spec]
  unfold Hasher.digest macInput hashed leaves
  rw [← macInitBytes_eq]
  cases only.getD false <;> simp [hH.update_append]

theorem hexDigit_inj {a b : Nat} (ha : a < 16) (hb : b < 16) (h : hexDigit a = hexDigit b) : a = b := by
  have : ∀ x y : Fin 16, hexDigit x.val = hexDigit y.val → x = y := by decide
  have := this ⟨a, ha⟩ ⟨b, hb⟩ h
  exact congrArg Fin.val this

theorem hexUpper_injective {a b : Bytes} (h : hexUpper a = hexUpper b) : a = b := by
  induction a generalizing b with
  | nil => cases b with
    | nil => rfl
    | cons y ys => simp [hexUpper] at h
  | cons x xs ih =>
    cases b with
    | nil => simp [hexUpper] at h
    | cons y ys =>
      simp only [hexUpper, List.flatMap_cons, List.cons_append, List.nil_append, List.cons.injEq] at h
      obtain ⟨h1, h2, h3⟩ := h
      have hx := x.toNat_lt
      have hy := y.toNat_lt
      have e1 := hexDigit_inj (by omega) (by omega) h1
      have e2 := hexDigit_inj (by omega) (by omega) h2
      have : x = y := UInt8.toNat_inj.1 (by omega)
      rw [this, ih h3]

/-- Two MACs are equal only if the digests are. -/
theorem hex_injective {a b : Bytes} (h : hex a = hex b) : a = b := by
  rw [← hexUpper_eq_spec, ← hexUpper_eq_spec] at h
  exact hexUpper_injective h

theorem Mac.compute_inj {H : Hasher} (hH : H.Streaming) {rx : RegexMatch} {cfg cfg' : Option PartialEncryption}
    {only only' : Option Bool} {m m' : RMap Value}
    (h : Mac.compute H rx (MacConfig.new only cfg) m = Mac.compute H rx (MacConfig.new only' cfg') m') :
    H.digest (macInput rx cfg (only.getD false) m) = H.digest (macInput rx cfg' (only'.getD false) m') := by
  rw [Mac.compute_eq hH, Mac.compute_eq hH] at h
  exact hex_injective (utf8_injective h)

end Rops
