import Verif.Lemmas.Reread
import Verif.Props.Changes
import Verif.Props.Floats
/-!
# C74: what is found in the text of a JSON file with floats that drift
-/

namespace Rops.Props
open Spec

theorem floatFinite_of_laws {J : JsonFloats} {fl : FloatOps} (hJ : JsonFloatLaws J fl) {x f : Str} (h : JsonNumber J (.float f) x) :
    floatFinite f = true := by
  obtain ⟨_, h1, h2, h3⟩ := hJ x f h
  simp [floatFinite, h1, h2, h3]

section
variable {O : DocOps} {J : JsonFloats} {s : Str} {d : List (Str × Json)} {m : RMap Value} {m' : RMap EncLeaf} {env : Env}
  {f : EncFile Format.json} {key k : Bytes}

/-- The map that is found. -/
theorem reread_written (hJ : JsonFloatLaws J env.fl) (hh : Holding env jsonRep f key m m') (hr : FloatsRead J m') :
    Format.json.encOfInternal env.C (Tree.relabelMap (rereadLeaf J) m') =
      some (Tree.relabelMap (rereadScalar J) (show RMap JsonScalar from f.map)) :=
  mapM_relabel.2.2 m' [] _ (fun pv hpv _ hb => encLeaf_reread hb fun g hg =>
    floatFinite_of_laws hJ (hr pv.1 g (by rw [← hg]; exact hpv))) hh.written

/-- **C74.** In the text of an encrypted JSON file is found the same file, but each of its plaintext floats is
the one that is read for what was written for it; the encrypted ones are as they were, as is all else. -/
theorem C74_found (hO : DocLaws O) (hJ : JsonFloatLaws J env.fl) (hp : J.ops.parse s = some d) (hd : c!"sops" ∉ entryKeys d)
    (hm : Json.toMap d = .ok m) (hh : Holding env jsonRep f key m m') (hw : EncWritable O env.C f.metadata) (hr : FloatsRead J m') :
    ∃ m2' x, shapeMap m2' = shapeMap m' ∧ leaves m2' = (leaves m').map (fun pl => (pl.1, rereadLeaf J pl.2)) ∧
      Format.json.encOfInternal env.C m2' = some x ∧
      EncFile.ofText J.ops O env.C (EncFile.toText J.ops env.C f) = some { f with map := x } :=
  ⟨_, _, (relabel_shape _).2.2 m', (relabel_leaves _).2.2 m' [], reread_written hJ hh hr,
    found_of_standsFor hO hp hd hm hh.sealed.standsFor hh.written hw hr⟩

/-- The items that are found. -/
theorem reread_items (hh : Holding env jsonRep f key m m') :
    leaves (Tree.relabelMap (rereadLeaf J) m') = itemLeaves ((items m m').map (rereadItem J)) := by
  show leavesMap [] _ = _
  rw [(relabel_leaves _).2.2 m' []]
  show (leaves m').map _ = _
  rw [← hh.items.1]
  simp only [itemLeaves, List.map_map]
  refine List.map_congr_left fun it _ => ?_
  simp only [Function.comp, rereadLeaf, rereadItem]
  split <;> simp_all

theorem reread_makeable (he : EnvLaws env) (hJ : JsonFloatLaws J env.fl) (hh : Holding env jsonRep f key m m') (hr : FloatsRead J m') :
    ∀ it ∈ (items m m').map (rereadItem J),
      Makeable env.fl env.rx f.metadata.partialEncryption jsonRep (items m m') it ∧ jsonRep it.value := by
  intro it hit
  obtain ⟨o, ho, rfl⟩ := List.mem_map.1 hit
  have hall := makeable_items he hh hh.fits.holds o ho
  have hin : (o.path, o.leaf) ∈ leaves m' := by rw [← hh.items.1]; exact List.mem_map_of_mem ho
  unfold rereadItem
  split
  · rename_i g hg
    rw [hg] at hin
    have hpl : Plain env.rx f.metadata.partialEncryption o.path := by
      obtain ⟨_, ⟨h, _⟩ | ⟨_, e, he, _⟩⟩ := hh.items.2.2 o ho
      · exact h
      · simp only at he; rw [hg] at he; cases he
    have hrep : jsonRep (.float (readAnew J g)) := by
      obtain ⟨_, h⟩ := hJ _ _ (hr _ _ hin)
      exact h
    exact ⟨.inl ⟨rfl, hpl, hrep⟩, hrep⟩
  · exact hall

/-- **C74.** So a file is read from its text as it was exactly if its plaintext floats are read as they were.
Encrypted floats are not at risk. -/
theorem C74_same_iff (he : EnvLaws env) (hO : DocLaws O) (hJ : JsonFloatLaws J env.fl) (hp : J.ops.parse s = some d) (hd : c!"sops" ∉ entryKeys d)
    (hm : Json.toMap d = .ok m) (hh : Holding env jsonRep f key m m') (hw : EncWritable O env.C f.metadata) (hr : FloatsRead J m') :
    EncFile.ofText J.ops O env.C (EncFile.toText J.ops env.C f) = some f ↔
      ∀ p g, (p, .escaped (.float g)) ∈ leaves m' → readAnew J g = g := by
  have h1 := found_of_standsFor hO hp hd hm hh.sealed.standsFor hh.written hw hr
  have h2 := reread_written hJ hh hr
  constructor
  · intro h p g hg
    rw [show EncFile.ofText J.ops O env.C (EncFile.toText J.ops env.C f) = _ from h1] at h
    have h : Tree.relabelMap (rereadScalar J) (show RMap JsonScalar from f.map) = f.map := congrArg (·.map) (Option.some.inj h)
    obtain ⟨x, hx1, hx2⟩ := Format.json_lawful.enc_round_trip env.C he.cipher.name_no_comma env.rx _ _
      (encHolds_makeable hh (reread_items (J := J) hh) fun it hit => (reread_makeable he hJ hh hr it hit).1)
    rw [h2] at hx1
    rw [← Option.some.inj hx1, h, hh.read] at hx2
    have hl := congrArg leaves (Except.ok.inj hx2)
    rw [show leaves (Tree.relabelMap (rereadLeaf J) m') = _ from (relabel_leaves _).2.2 m' []] at hl
    have := List.map_inj_left.1 (hl.symm.trans (List.map_id _).symm) _ hg
    simpa [rereadLeaf] using this
  · intro h
    rw [show EncFile.ofText J.ops O env.C (EncFile.toText J.ops env.C f) = _ from h1]
    have e : Tree.relabelMap (rereadLeaf J) m' = m' := relabel_id fun pl hpl => by
      obtain ⟨p, l⟩ := pl
      match l with
      | .encrypted _ | .escaped (.string _) | .escaped (.boolean _) | .escaped (.integer _) => rfl
      | .escaped (.float g) => simp only [rereadLeaf, h p g hpl]
    rw [e, hh.written] at h2
    rw [← Option.some.inj h2]

/-- **C74.** An encrypted JSON file, read from its text, is decrypted exactly if its plaintext floats, as they are
read, add the same bytes to the hashed ones (or there is a collision of the hash). -/
theorem C74_opens_iff (he : EnvLaws env) (hO : DocLaws O) (hJ : JsonFloatLaws J env.fl) (hp : J.ops.parse s = some d)
    (hd : c!"sops" ∉ entryKeys d) (hm : Json.toMap d = .ok m) (hh : Holding env jsonRep f key m m')
    (hw : EncWritable O env.C f.metadata) (hr : FloatsRead J m') (hk : env.retrieveDataKey f.metadata = .ok k) :
    (∃ f', ∃ g : DecFile Format.json, EncFile.ofText J.ops O env.C (EncFile.toText J.ops env.C f) = some f' ∧
        EncFile.decrypt Format.json env f' = .ok g) ↔
      hashedBytes env.rx f.metadata ((items m m').map (rereadItem J)) = hashedBytes env.rx f.metadata (items m m') ∨
      Collide env.H (hashedBytes env.rx f.metadata ((items m m').map (rereadItem J))) (hashedBytes env.rx f.metadata (items m m')) := by
  rw [← C65_accepted_iff he Format.json_lawful Format.json_lawful hh hk _ (reread_makeable he hJ hh hr) (reread_items hh)]
  have h1 := found_of_standsFor hO hp hd hm hh.sealed.standsFor hh.written hw hr
  have h2 := reread_written hJ hh hr
  constructor
  · rintro ⟨f', g, hf', hg⟩
    rw [show EncFile.ofText J.ops O env.C (EncFile.toText J.ops env.C f) = _ from h1] at hf'
    cases hf'
    exact ⟨_, g, h2, hg⟩
  · rintro ⟨x, g, hx, hg⟩
    rw [h2] at hx
    cases hx
    exact ⟨_, g, h1, hg⟩

/-- **C74.** If exactly one of the plaintext floats is read as another one, then the file is lost, unless it has
`mac_only_encrypted` set (or there is a collision of the hash). -/
theorem C74_lost (he : EnvLaws env) (hO : DocLaws O) (hJ : JsonFloatLaws J env.fl) (hp : J.ops.parse s = some d)
    (hd : c!"sops" ∉ entryKeys d) (hm : Json.toMap d = .ok m) (hh : Holding env jsonRep f key m m')
    (hw : EncWritable O env.C f.metadata) (hr : FloatsRead J m') (hk : env.retrieveDataKey f.metadata = .ok k)
    {A B : List FileItem} {p : List Str} {g : Str} (hi : items m m' = A ++ [⟨p, .escaped (.float g), .float g⟩] ++ B)
    (hother : ∀ it ∈ A ++ B, rereadItem J it = it) (hg : readAnew J g ≠ g) (hall : f.metadata.macOnlyEncrypted ≠ some true)
    (hcol : ¬ Collide env.H (hashedBytes env.rx f.metadata ((items m m').map (rereadItem J))) (hashedBytes env.rx f.metadata (items m m'))) :
    ∃ f' e, EncFile.ofText J.ops O env.C (EncFile.toText J.ops env.C f) = some f' ∧ EncFile.decrypt Format.json env f' = .error e := by
  have h1 := found_of_standsFor hO hp hd hm hh.sealed.standsFor hh.written hw hr
  have hno : ¬ _ := fun h => ((C74_opens_iff he hO hJ hp hd hm hh hw hr hk).1 h).elim (fun hq => ?_) hcol
  · refine ⟨{ f with map := Tree.relabelMap (rereadScalar J) (show RMap JsonScalar from f.map) }, ?_⟩
    cases hdec : EncFile.decrypt Format.json env
        ({ f with map := Tree.relabelMap (rereadScalar J) (show RMap JsonScalar from f.map) } : EncFile Format.json) with
    | error e => exact ⟨e, h1, hdec⟩
    | ok y => exact absurd ⟨_, y, h1, hdec⟩ hno
  · have hA : A.map (rereadItem J) = A := by
      conv => rhs; rw [← List.map_id A]
      exact List.map_congr_left fun it hit => hother it (List.mem_append_left _ hit)
    have hB : B.map (rereadItem J) = B := by
      conv => rhs; rw [← List.map_id B]
      exact List.map_congr_left fun it hit => hother it (List.mem_append_right _ hit)
    rw [hi, List.map_append, List.map_append, hA, hB, List.map_singleton, hashedBytes_append_cancel] at hq
    simp only [List.flatMap_singleton, rereadItem, FileItem.bytes, getD_true, hall, false_and, if_false, plainBytes] at hq
    exact hg (utf8_injective hq)

/-- **C74.** With `mac_only_encrypted` set, nothing is noticed: the file is decrypted, and its plaintext floats are
those that were read. -/
theorem C74_silent (he : EnvLaws env) (hO : DocLaws O) (hJ : JsonFloatLaws J env.fl) (hp : J.ops.parse s = some d)
    (hd : c!"sops" ∉ entryKeys d) (hm : Json.toMap d = .ok m) (hh : Holding env jsonRep f key m m')
    (hw : EncWritable O env.C f.metadata) (hr : FloatsRead J m') (hk : env.retrieveDataKey f.metadata = .ok k)
    (honly : f.metadata.macOnlyEncrypted = some true) :
    ∃ f', ∃ g : DecFile Format.json, ∃ m2, EncFile.ofText J.ops O env.C (EncFile.toText J.ops env.C f) = some f' ∧
      EncFile.decrypt Format.json env f' = .ok g ∧ Json.toMap g.map = .ok m2 ∧ shapeMap m2 = shapeMap m ∧
      leaves m2 = (items m m').map fun it => (it.path, (rereadItem J it).value) := by
  have h1 := found_of_standsFor hO hp hd hm hh.sealed.standsFor hh.written hw hr
  have h2 := reread_written hJ hh hr
  have hmk := reread_makeable he hJ hh hr
  have hb : hashedBytes env.rx f.metadata ((items m m').map (rereadItem J)) = hashedBytes env.rx f.metadata (items m m') := by
    unfold hashedBytes
    congr 1
    rw [List.flatMap_map, List.flatMap_def, List.flatMap_def]
    congr 1
    refine List.map_congr_left fun it hit => ?_
    unfold rereadItem
    split
    · rename_i g hg
      have hpl : Plain env.rx f.metadata.partialEncryption it.path := by
        obtain ⟨_, ⟨h, _⟩ | ⟨_, e, he, _⟩⟩ := hh.items.2.2 it hit
        · exact h
        · simp only at he; rw [hg] at he; cases he
      simp only [FileItem.bytes, honly, Option.getD_some, hpl, and_self, if_true]
    · rfl
  obtain ⟨f', g, hf', hg⟩ := (C74_opens_iff he hO hJ hp hd hm hh hw hr hk).2 (.inl hb)
  rw [show EncFile.ofText J.ops O env.C (EncFile.toText J.ops env.C f) = _ from h1] at hf'
  cases hf'
  obtain ⟨m2, a1, a2, a3⟩ := C65_read he Format.json_lawful Format.json_lawful hh hk _ hmk (reread_items hh) h2 hg
  refine ⟨_, g, m2, h1, hg, a1, a2.trans (((relabel_shape _).2.2 m').trans hh.sealed.1), ?_⟩
  rw [a3, List.map_map]
  refine List.map_congr_left fun it _ => ?_
  simp only [Function.comp, rereadItem]
  split <;> rfl

/-- A value in plaintext is a value of the map. -/
theorem escaped_value (hh : Holding env jsonRep f key m m') {p : List Str} {v : Value} (hg : (p, .escaped v) ∈ leaves m') :
    (p, v) ∈ leaves m := by
  have hin := hg
  rw [← hh.items.1] at hin
  obtain ⟨it, hit, e⟩ := List.mem_map.1 hin
  have e1 : it.path = p := (Prod.mk.inj e).1
  have e2 : it.leaf = .escaped v := (Prod.mk.inj e).2
  rw [← hh.items.2.1]
  refine List.mem_map.2 ⟨it, hit, ?_⟩
  obtain ⟨_, ⟨_, h⟩ | ⟨_, e', h, _⟩⟩ := hh.items.2.2 it hit
  · simp only at h
    rw [e2] at h
    injection h with h
    rw [e1, ← h]
  · simp only at h
    rw [e2] at h
    cases h

/-- **C74.** For the floats of rops nothing is assumed: what is written for a finite float is a number, so it is
only left whether it is read at all. -/
theorem C74_serde_reads (hfl : env.fl = f64Floats) (hh : Holding env jsonRep f key m m')
    (hsome : ∀ p g, (p, .escaped (.float g)) ∈ leaves m' → serdeFloats.read (serdeFloats.write g) ≠ none) : FloatsRead serdeFloats m' := by
  intro p g hg
  have hgm := escaped_value hh hg
  have hcan : env.fl.Canonical g := hh.fits.canonical _ hgm
  rw [hfl] at hcan
  obtain ⟨y, hy, hyg⟩ := Option.map_eq_some_iff.1 (show (F64.parse g).map F64.show = some g from hcan)
  have hrange := inRange_parse hy
  have hrep : _ ∧ _ ∧ _ := hh.fits.holds _ hgm
  subst hyg
  cases hread : serdeFloats.read (serdeFloats.write y.show) with
  | none => exact absurd hread (hsome p _ hg)
  | some z =>
    cases y with
    | finite n v =>
      have := written_number hrange hread
      unfold readAnew
      rw [hread]
      exact this
    | infinite n => cases n <;> simp [F64.show, signText] at hrep
    | nan => simp [F64.show] at hrep

end

/-! ## Examples -/

/-- A document with one float twice: in plaintext and encrypted. -/
def doubledDoc : DocFormat.json.F.Map :=
  [(c!"a_plain", .leaf (.num (.float c!"9.074340925238959"))), (c!"b", .leaf (.num (.float c!"9.074340925238959")))]

/-- The values of it. -/
def doubledMap : RMap Value :=
  [(c!"a_plain", .leaf (.float c!"9.074340925238959")), (c!"b", .leaf (.float c!"9.074340925238959"))]

/-- The builder for it. -/
def doubledBuilder (only : Option Bool) : Builder Format.json := { Toy.smallBuilder with map := doubledDoc, macOnlyEncrypted := only }

/-- A text of it. -/
def doubledText : Str := c!"{\"a_plain\": 9.074340925238958, \"b\": 9.074340925238958}"

theorem doubled_parsed : serdeFloats.ops.parse doubledText = some doubledDoc := by
  have h : (match serdeFloats.ops.parse doubledText with
    | some [(k, .leaf (.num (.float f))), (k', .leaf (.num (.float f')))] =>
      decide (k = c!"a_plain" ∧ f = c!"9.074340925238959" ∧ k' = c!"b" ∧ f' = c!"9.074340925238959")
    | _ => false) = true := by decide +kernel
  split at h
  · rename_i he
    obtain ⟨rfl, rfl, rfl, rfl⟩ := of_decide_eq_true h
    exact he
  · cases h

theorem doubled_fits : Fits floatEnv.fl jsonRep (some (.unencryptedSuffix c!"_plain")) doubledMap := by
  have hl : leaves doubledMap = [([c!"a_plain"], Value.float c!"9.074340925238959"), ([c!"b"], .float c!"9.074340925238959")] := rfl
  refine ⟨?_, ?_, fun _ => .inl (by unfold NoColon; decide)⟩
  · unfold Canonical
    rw [hl]
    intro pv h
    simp only [List.mem_cons, List.not_mem_nil, or_false] at h
    have hc : f64Floats.Canonical c!"9.074340925238959" := by unfold FloatOps.Canonical; decide +kernel
    rcases h with rfl | rfl <;> exact hc
  · unfold Holds
    rw [hl]
    intro pv h
    simp only [List.mem_cons, List.not_mem_nil, or_false] at h
    rcases h with rfl | rfl <;> (show _ ∧ _ ∧ _; decide)

/-- The float drifts. -/
theorem doubled_drifts : readAnew serdeFloats c!"9.074340925238959" = c!"9.07434092523896" := by decide +kernel

/-- What the theorems ask for. -/
theorem doubled_encrypts (only : Option Bool) (ho : only = none ∨ only = some true) : ∃ (f : EncFile Format.json) (j : Nat) (m' : RMap EncLeaf),
    (doubledBuilder only).encrypt floatEnv 0 = .ok (f, j) ∧ Holding floatEnv jsonRep f (floatEnv.newKey 0) doubledMap m' ∧
    EncWritable Toy.docOps floatEnv.C f.metadata ∧ FloatsRead serdeFloats m' ∧
    floatEnv.retrieveDataKey f.metadata = .ok (floatEnv.newKey 0) ∧ f.metadata.macOnlyEncrypted = only ∧
    f.metadata.partialEncryption = some (.unencryptedSuffix c!"_plain") := by
  have hc : (match (doubledBuilder only).encrypt floatEnv 0 with
      | .error _ => false
      | .ok _ => true) = true := by rcases ho with rfl | rfl <;> decide +kernel
  split at hc
  · cases hc
  · rename_i r hr
    obtain ⟨f, j⟩ := r
    obtain ⟨m', _, _, hh, _⟩ := holding_of_builder (b := doubledBuilder only) floatEnv_laws Format.json_lawful (m := doubledMap) rfl doubled_fits hr
    have hw : EncWritable Toy.docOps floatEnv.C f.metadata :=
      C43_created (O := Toy.docOps) (b := doubledBuilder only) floatEnv_laws Toy.env_clock Format.json_lawful (m := doubledMap) rfl doubled_fits
        (fun _ _ => rfl) (fun _ h => nomatch h) (fun _ h => by cases h; rfl) hr
    obtain ⟨_, _, _, im, _, _, _, h3, _, _, h6⟩ := Builder.encrypt_ok hr
    refine ⟨f, j, m', hr, hh, hw, C74_serde_reads rfl hh ?_, ?_, by rw [h6]; rfl, by rw [h6]; rfl⟩
    · intro p g hg
      have hv := escaped_value hh hg
      rw [show leaves doubledMap = [([c!"a_plain"], Value.float c!"9.074340925238959"), ([c!"b"], .float c!"9.074340925238959")] from rfl] at hv
      simp only [List.mem_cons, List.not_mem_nil, or_false, Prod.mk.injEq, Value.float.injEq] at hv
      have hgv : g = c!"9.074340925238959" := by rcases hv with h | h <;> exact h.2
      rw [hgv]
      decide +kernel
    · exact retrieve_of_identity (k := c!"k1") (ks := [c!"k1"]) floatEnv_laws hh.key_length hh.units rfl (.head _) (by
        rw [h6, (intoMetadata_ok h3).2.2.1]; show c!"pk1" ∈ addIds [] [c!"pk2", c!"pk1"]; decide)

/-- Their items. -/
theorem doubled_items {f : EncFile Format.json} {m' : RMap EncLeaf} (hh : Holding floatEnv jsonRep f (floatEnv.newKey 0) doubledMap m')
    (hp : f.metadata.partialEncryption = some (.unencryptedSuffix c!"_plain")) : ∃ e,
    items doubledMap m' = [] ++ [⟨[c!"a_plain"], .escaped (.float c!"9.074340925238959"), .float c!"9.074340925238959"⟩] ++
      [⟨[c!"b"], .encrypted e, .float c!"9.074340925238959"⟩] := by
  obtain ⟨_, h2, h3⟩ := hh.items
  have hl : leaves doubledMap = [([c!"a_plain"], Value.float c!"9.074340925238959"), ([c!"b"], .float c!"9.074340925238959")] := rfl
  rw [hl] at h2
  match hi : items doubledMap m', h2 with
  | [⟨p1, l1, v1⟩, ⟨p2, l2, v2⟩], h2 =>
    simp only [itemValues, List.map_cons, List.map_nil, List.cons.injEq, Prod.mk.injEq, and_true] at h2
    obtain ⟨⟨rfl, rfl⟩, rfl, rfl⟩ := h2
    rw [hi, hp] at h3
    have a := h3 _ (.head _)
    have b := h3 _ (.tail _ (.head _))
    obtain ⟨_, ⟨_, a⟩ | ⟨a, _⟩⟩ := a
    · obtain ⟨_, ⟨b, _⟩ | ⟨_, e, b, _⟩⟩ := b
      · exact absurd (show Plain Toy.env.rx (some (.unencryptedSuffix c!"_plain")) [c!"b"] from b) (by unfold Plain; decide)
      · simp only at a b
        rw [a, b]
        exact ⟨e, rfl⟩
    · exact absurd (show Plain Toy.env.rx (some (.unencryptedSuffix c!"_plain")) [c!"a_plain"] by unfold Plain; decide) a

/-- Found in the text of the file: another float in plaintext, the same one encrypted. -/
example : ∃ (f f' : EncFile Format.json) (j : Nat), (doubledBuilder none).encrypt floatEnv 0 = .ok (f, j) ∧
    EncFile.ofText serdeFloats.ops Toy.docOps floatEnv.C (EncFile.toText serdeFloats.ops floatEnv.C f) = some f' ∧ f' ≠ f := by
  obtain ⟨f, j, m', h1, hh, hw, hr, _, _, hp⟩ := doubled_encrypts none (.inl rfl)
  obtain ⟨m2', x, _, _, _, hx⟩ := C74_found Toy.docOps_laws C73_json_laws doubled_parsed (by decide) (m := doubledMap) rfl hh hw hr
  refine ⟨f, _, j, h1, hx, fun e => ?_⟩
  rw [e] at hx
  have := (C74_same_iff floatEnv_laws Toy.docOps_laws C73_json_laws doubled_parsed (by decide) (m := doubledMap) rfl hh hw hr).1 hx
    [c!"a_plain"] c!"9.074340925238959" (by
      obtain ⟨e, he⟩ := doubled_items hh hp
      rw [← hh.items.1, he]
      exact .head _)
  rw [doubled_drifts] at this
  revert this
  decide

/-- It is lost. -/
example : ∃ (f f' : EncFile Format.json) (j : Nat) (e : FileDecryptError), (doubledBuilder none).encrypt floatEnv 0 = .ok (f, j) ∧
    EncFile.ofText serdeFloats.ops Toy.docOps floatEnv.C (EncFile.toText serdeFloats.ops floatEnv.C f) = some f' ∧
    EncFile.decrypt Format.json floatEnv f' = .error e := by
  obtain ⟨f, j, m', h1, hh, hw, hr, hk, ho, hp⟩ := doubled_encrypts none (.inl rfl)
  obtain ⟨e, he⟩ := doubled_items hh hp
  obtain ⟨f', e, a, b⟩ := C74_lost floatEnv_laws Toy.docOps_laws C73_json_laws doubled_parsed (by decide) (m := doubledMap) rfl hh hw hr hk he
    (fun it hit => by
      simp only [List.nil_append, List.mem_singleton] at hit
      subst hit
      rfl) (by rw [doubled_drifts]; decide) (by rw [ho]; decide) (fun hc => hc.1 hc.2)
  exact ⟨f, f', j, e, h1, a, b⟩

/-- Or it drifts. -/
example : ∃ (f f' : EncFile Format.json) (j : Nat) (g : DecFile Format.json) (m2 : RMap Value),
    (doubledBuilder (some true)).encrypt floatEnv 0 = .ok (f, j) ∧
    EncFile.ofText serdeFloats.ops Toy.docOps floatEnv.C (EncFile.toText serdeFloats.ops floatEnv.C f) = some f' ∧
    EncFile.decrypt Format.json floatEnv f' = .ok g ∧ Json.toMap g.map = .ok m2 ∧
    leaves m2 = [([c!"a_plain"], Value.float c!"9.07434092523896"), ([c!"b"], .float c!"9.074340925238959")] := by
  obtain ⟨f, j, m', h1, hh, hw, hr, hk, ho, hp⟩ := doubled_encrypts (some true) (.inr rfl)
  obtain ⟨e, he⟩ := doubled_items hh hp
  obtain ⟨f', g, m2, a, b, c, _, d⟩ := C74_silent floatEnv_laws Toy.docOps_laws C73_json_laws doubled_parsed (by decide) (m := doubledMap) rfl
    hh hw hr hk ho
  refine ⟨f, f', j, g, m2, h1, a, b, c, ?_⟩
  rw [d, he]
  simp only [List.nil_append, List.singleton_append, List.map_cons, List.map_nil, rereadItem, doubled_drifts]

end Rops.Props
