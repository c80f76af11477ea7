import Verif.Lemmas.JsonText
/-!
# Repeated keys in JSON
-/

namespace Rops
open Spec

theorem keysOf_insert {β : Type} (m : List (Str × β)) (k : Str) (v : β) :
    entryKeys (IndexMap.insert m k v) = if k ∈ entryKeys m then entryKeys m else entryKeys m ++ [k] := by
  induction m with
  | nil => simp [IndexMap.insert, entryKeys]
  | cons e r ih =>
    obtain ⟨k', v'⟩ := e
    simp only [IndexMap.insert]
    by_cases h : k' = k
    · subst h
      simp [entryKeys]
    · rw [if_neg h]
      simp only [entryKeys, List.map_cons, List.mem_cons] at ih ⊢
      rw [ih]
      have : (k = k' ∨ k ∈ List.map Prod.fst r) ↔ k ∈ List.map Prod.fst r := ⟨fun hh => hh.resolve_left (fun e => h e.symm), .inr⟩
      simp only [this]
      by_cases hk : k ∈ List.map Prod.fst r <;> simp [hk]

theorem insert_entries {β : Type} {m : List (Str × β)} {k : Str} (hm : m.Pairwise fun a b => a.1 = k → b.1 ≠ k) {v : β}
    {e : Str × β} (h : e ∈ IndexMap.insert m k v) : e = (k, v) ∨ (e ∈ m ∧ e.1 ≠ k) := by
  induction m with
  | nil => exact .inl (by simpa [IndexMap.insert] using h)
  | cons a r ih =>
    obtain ⟨k', v'⟩ := a
    rw [List.pairwise_cons] at hm
    simp only [IndexMap.insert] at h
    split at h
    · rename_i hk
      rcases List.mem_cons.1 h with h | h
      · exact .inl h
      · exact .inr ⟨.tail _ h, hm.1 e h hk⟩
    · rename_i hk
      rcases List.mem_cons.1 h with h | h
      · subst h; exact .inr ⟨.head _, hk⟩
      · rcases ih hm.2 h with h | ⟨h, hn⟩
        · exact .inl h
        · exact .inr ⟨.tail _ h, hn⟩

theorem pairwise_of_nodup {β : Type} {m : List (Str × β)} (h : (entryKeys m).Nodup) (k : Str) :
    m.Pairwise fun a b => a.1 = k → b.1 ≠ k := by
  have := List.pairwise_map.1 h
  exact this.imp fun hne ha hb => hne (ha.trans hb.symm)

theorem lastIs_mem {m : List (Str × Json)} {k : Str} {v : Json} (h : LastIs m k v) : k ∈ entryKeys m := by
  induction m with
  | nil => simp only [LastIs] at h
  | cons e r ih =>
    obtain ⟨k', t⟩ := e
    simp only [LastIs] at h
    rcases h with h | ⟨_, rfl, _⟩
    · exact .tail _ (ih h)
    · exact .head _

theorem mem_firstKeys {l : List Str} {k : Str} : k ∈ firstKeys l ↔ k ∈ l := by
  induction l with
  | nil => simp [firstKeys]
  | cons a r ih =>
    simp only [firstKeys, List.mem_cons, List.mem_filter, ih, decide_eq_true_eq]
    by_cases h : k = a <;> simp [h]

theorem firstKeys_nodup (l : List Str) : (firstKeys l).Nodup := by
  induction l with
  | nil => exact List.nodup_nil
  | cons a r ih =>
    simp only [firstKeys, List.nodup_cons, List.mem_filter, decide_eq_true_eq]
    exact ⟨fun h => h.2 rfl, ih.filter _⟩

theorem filter_ne_not_mem (l : List Str) (acc : List Str) (k : Str) :
    (l.filter (· ≠ k)).filter (· ∉ acc) = l.filter (· ∉ acc ++ [k]) := by
  rw [List.filter_filter]
  congr 1
  funext x
  simp only [List.mem_append, List.mem_cons, List.not_mem_nil, or_false, not_or, ne_eq, Bool.decide_and]

theorem settle_to :
    (∀ t : Json, SettledTo t (Json.settle t)) ∧
    (∀ l : List Json, SettledSeq l (Json.settleSeq l)) ∧
    (∀ m : List (Str × Json), ∀ acc : List (Str × Json), (entryKeys acc).Nodup →
      entryKeys (Json.settleMap acc m) = entryKeys acc ++ (firstKeys (entryKeys m)).filter (· ∉ entryKeys acc) ∧
      ∀ e ∈ Json.settleMap acc m, LastIs m e.1 e.2 ∨ (e.1 ∉ entryKeys m ∧ e ∈ acc)) := by
  apply Tree.induct
  · intro l ih
    simp only [SettledTo, Json.settle]
    exact ⟨_, rfl, ih⟩
  · intro m ih
    simp only [SettledTo, Json.settle]
    obtain ⟨h1, h2⟩ := ih [] (by simp [entryKeys])
    refine ⟨_, rfl, ?_, fun e he => (h2 e he).resolve_right fun h => nomatch h.2⟩
    rw [h1]
    simp [entryKeys]
  · simp only [SettledTo, Json.settle]
  · intro a; simp only [SettledTo, Json.settle]
  · simp only [SettledSeq, Json.settleSeq]
  · intro t r h1 h2
    simp only [SettledSeq, Json.settleSeq]
    exact ⟨_, _, rfl, h1, h2⟩
  · intro acc _
    simp only [Json.settleMap]
    exact ⟨by simp [entryKeys, firstKeys], fun e he => .inr ⟨by simp [entryKeys], he⟩⟩
  · intro k t r h1 h2 acc ha
    have hn : (entryKeys (IndexMap.insert acc k (Json.settle t))).Nodup := IndexMap.insert_nodup k _ ha
    obtain ⟨a, b⟩ := h2 _ hn
    simp only [Json.settleMap]
    refine ⟨?_, fun e he => ?_⟩
    · rw [a, keysOf_insert]
      show _ = entryKeys acc ++ (firstKeys (k :: entryKeys r)).filter _
      simp only [firstKeys, List.filter_cons]
      by_cases hk : k ∈ entryKeys acc
      · simp only [hk, if_true, not_true, decide_false, Bool.false_eq_true, if_false]
        congr 1
        rw [List.filter_filter]
        refine List.filter_congr fun x _ => ?_
        by_cases hx : x = k
        · subst hx; simp [hk]
        · simp [hx]
      · simp only [hk, if_false, not_false_eq_true, decide_true, if_true]
        rw [filter_ne_not_mem, List.append_assoc]
        rfl
    · rcases b e he with h | ⟨hr, he'⟩
      · exact .inl (by simp only [LastIs]; exact .inl h)
      · rcases insert_entries (pairwise_of_nodup ha k) he' with rfl | ⟨h', hne⟩
        · refine .inl ?_
          simp only [LastIs]
          exact .inr ⟨hr, trivial, h1⟩
        · refine .inr ⟨?_, h'⟩
          simp only [entryKeys, List.map_cons, List.mem_cons, not_or]
          exact ⟨hne, hr⟩

theorem entries_ext {β : Type} {a b : List (Str × β)} (hk : entryKeys a = entryKeys b) (ha : (entryKeys a).Nodup)
    (hv : ∀ k v v', (k, v) ∈ a → (k, v') ∈ b → v = v') : a = b := by
  induction a generalizing b with
  | nil =>
    cases b with
    | nil => rfl
    | cons e r => simp [entryKeys] at hk
  | cons e r ih =>
    cases b with
    | nil => simp [entryKeys] at hk
    | cons e' r' =>
      obtain ⟨k, v⟩ := e
      obtain ⟨k', v'⟩ := e'
      simp only [entryKeys, List.map_cons, List.cons.injEq] at hk
      obtain ⟨rfl, hk⟩ := hk
      simp only [entryKeys, List.map_cons, List.nodup_cons] at ha
      rw [hv k v v' (.head _) (.head _), ih hk ha.2 fun k v v' h h' => hv k v v' (.tail _ h) (.tail _ h')]

theorem settled_unique :
    (∀ t : Json, ∀ v v', SettledTo t v → SettledTo t v' → v = v') ∧
    (∀ l : List Json, ∀ v v', SettledSeq l v → SettledSeq l v' → v = v') ∧
    (∀ m : List (Str × Json), ∀ k v v', LastIs m k v → LastIs m k v' → v = v') := by
  apply Tree.induct
  · intro l ih v v' h h'
    simp only [SettledTo] at h h'
    obtain ⟨x, rfl, h⟩ := h
    obtain ⟨y, rfl, h'⟩ := h'
    rw [ih x y h h']
  · intro m ih v v' h h'
    simp only [SettledTo] at h h'
    obtain ⟨x, rfl, hk, h⟩ := h
    obtain ⟨y, rfl, hk', h'⟩ := h'
    rw [entries_ext (hk.trans hk'.symm) (by rw [hk]; exact firstKeys_nodup _)
      fun k v v' hv hv' => ih k v v' (h _ hv) (h' _ hv')]
  · intro v v' h h'
    simp only [SettledTo] at h h'
    rw [h, h']
  · intro a v v' h h'
    simp only [SettledTo] at h h'
    rw [h, h']
  · intro v v' h h'
    simp only [SettledSeq] at h h'
    rw [h, h']
  · intro t r h1 h2 v v' h h'
    simp only [SettledSeq] at h h'
    obtain ⟨a, b, rfl, h3, h4⟩ := h
    obtain ⟨c, d, rfl, h5, h6⟩ := h'
    rw [h1 _ _ h3 h5, h2 _ _ h4 h6]
  · intro k v v' h _
    simp only [LastIs] at h
  · intro k t r h1 h2 k' v v' h h'
    simp only [LastIs] at h h'
    rcases h with h | ⟨hn, _, h⟩
    · rcases h' with h' | ⟨hn', _, _⟩
      · exact h2 k' v v' h h'
      · exact absurd (lastIs_mem h) hn'
    · rcases h' with h' | ⟨_, _, h'⟩
      · exact absurd (lastIs_mem h') hn
      · exact h1 v v' h h'

theorem mem_topFirsts {l : List Str} {k : Str} : k ∈ topFirstKeys l ↔ k ∈ l := by
  induction l with
  | nil => simp [topFirstKeys]
  | cons a r ih =>
    simp only [topFirstKeys, List.mem_cons]
    split
    · rw [ih]
    · simp only [List.mem_filter, ih, decide_eq_true_eq]
      by_cases h : k = a <;> simp [h]

theorem topFirsts_nodup (l : List Str) : ((topFirstKeys l).filter (· ≠ c!"sops")).Nodup := by
  induction l with
  | nil => exact List.nodup_nil
  | cons a r ih =>
    simp only [topFirstKeys]
    split
    · rename_i h
      simp only [h, List.filter_cons, ne_eq, not_true, decide_false, Bool.false_eq_true, if_false]
      exact ih
    · rename_i h
      simp only [List.filter_cons, ne_eq, h, not_false_eq_true, decide_true, if_true, List.nodup_cons, List.mem_filter,
        decide_eq_true_eq]
      refine ⟨fun hh => hh.1.2 trivial, ?_⟩
      rw [List.filter_filter]
      have := ih.filter (fun x => decide (x ≠ a))
      rw [List.filter_filter] at this
      refine (List.filter_congr fun x _ => ?_) ▸ this
      simp [Bool.and_comm]

theorem pairwise_of_top {β : Type} {m : List (Str × β)} (h : ((entryKeys m).filter (· ≠ c!"sops")).Nodup) {k : Str}
    (hk : k ≠ c!"sops") : m.Pairwise fun a b => a.1 = k → b.1 ≠ k := by
  have := List.pairwise_map.1 (List.pairwise_filter.1 h)
  exact this.imp fun {a b} hne ha hb => hne (by simp [ha, hk]) (by simp [hb, hk]) (ha.trans hb.symm)

theorem settleTop_to : ∀ (m acc : List (Str × Json)), ((entryKeys acc).filter (· ≠ c!"sops")).Nodup →
    entryKeys (Json.settleTop acc m) =
      entryKeys acc ++ (topFirstKeys (entryKeys m)).filter (fun k => k = c!"sops" ∨ k ∉ entryKeys acc) ∧
    (∀ e ∈ Json.settleTop acc m, e.1 ≠ c!"sops" → LastIs m e.1 e.2 ∨ (e.1 ∉ entryKeys m ∧ e ∈ acc)) ∧
    (Json.settleTop acc m).filter (fun e => e.1 = c!"sops") =
      acc.filter (fun e => e.1 = c!"sops") ++ m.filter (fun e => e.1 = c!"sops") := by
  intro m
  induction m with
  | nil =>
    intro acc _
    simp only [Json.settleTop]
    exact ⟨by simp [entryKeys, topFirstKeys], fun e he _ => .inr ⟨by simp [entryKeys], he⟩, by simp⟩
  | cons e r ih =>
    obtain ⟨k, t⟩ := e
    intro acc ha
    simp only [Json.settleTop]
    split
    · rename_i hk
      have hk : k = c!"sops" := hk
      have ha' : ((entryKeys (acc ++ [(k, t)])).filter (· ≠ c!"sops")).Nodup := by
        simp only [entryKeys, List.map_append, List.map_cons, List.map_nil, List.filter_append, List.filter_cons, hk, ne_eq, not_true,
          decide_false, Bool.false_eq_true, if_false, List.filter_nil, List.append_nil]
        exact ha
      obtain ⟨a, b, c⟩ := ih _ ha'
      refine ⟨?_, fun e he hne => ?_, ?_⟩
      · rw [a]
        show _ = entryKeys acc ++ (topFirstKeys (k :: entryKeys r)).filter _
        simp only [topFirstKeys, hk, if_true, List.filter_cons, true_or, decide_true]
        simp only [entryKeys, List.map_append, List.map_cons, List.map_nil, List.append_assoc, List.cons_append, List.nil_append]
        congr 2
        refine List.filter_congr fun x _ => decide_eq_decide.2 ⟨?_, ?_⟩
        · rintro (h | h)
          · exact .inl h
          · exact .inr fun hm => h (List.mem_append_left _ hm)
        · rintro (h | h)
          · exact .inl h
          · by_cases hx : x = c!"sops"
            · exact .inl hx
            · exact .inr fun hm => (List.mem_append.1 hm).elim h fun h' => hx (List.mem_singleton.1 h')
      · rcases b e he hne with h | ⟨h1, h2⟩
        · exact .inl (by simp only [LastIs]; exact .inl h)
        · rcases List.mem_append.1 h2 with h2 | h2
          · refine .inr ⟨?_, h2⟩
            simp only [entryKeys, List.map_cons, List.mem_cons, not_or]
            exact ⟨fun e' => hne (e'.trans hk), h1⟩
          · rw [List.mem_singleton.1 h2] at hne
            exact absurd hk hne
      · rw [c]
        simp only [List.filter_append, List.filter_cons, hk, decide_true, if_true, List.filter_nil, List.append_assoc,
          List.cons_append, List.nil_append]
    · rename_i hk
      have hk : k ≠ c!"sops" := hk
      have ha' : ((entryKeys (IndexMap.insert acc k (Json.settle t))).filter (· ≠ c!"sops")).Nodup := by
        rw [keysOf_insert]
        split
        · exact ha
        · rename_i hm
          rw [List.filter_append, List.nodup_append]
          refine ⟨ha, by simp [hk], fun x hx y hy e' => ?_⟩
          subst e'
          have hy := (List.mem_filter.1 hy).1
          rw [List.mem_singleton] at hy
          subst hy
          exact hm (List.mem_filter.1 hx).1
      obtain ⟨a, b, c⟩ := ih _ ha'
      refine ⟨?_, fun e he hne => ?_, ?_⟩
      · rw [a, keysOf_insert]
        show _ = entryKeys acc ++ (topFirstKeys (k :: entryKeys r)).filter _
        simp only [topFirstKeys, if_neg hk, List.filter_cons, hk, false_or]
        by_cases hm : k ∈ entryKeys acc
        · simp only [hm, if_true, not_true, decide_false, Bool.false_eq_true, if_false]
          congr 1
          rw [List.filter_filter]
          refine List.filter_congr fun x _ => ?_
          by_cases hx : x = k
          · subst hx; simp [hm, hk]
          · simp [hx]
        · simp only [hm, if_false, not_false_eq_true, decide_true, if_true]
          rw [List.filter_filter, List.append_assoc]
          congr 1
          simp only [List.cons_append, List.nil_append]
          congr 1
          refine List.filter_congr fun x _ => ?_
          rw [← Bool.decide_and]
          refine decide_eq_decide.2 ⟨?_, ?_⟩
          · rintro (h | h)
            · exact ⟨.inl h, fun e => hk (e.symm.trans h)⟩
            · exact ⟨.inr fun hm => h (List.mem_append_left _ hm), fun e => h (List.mem_append_right _ (List.mem_singleton.2 e))⟩
          · rintro ⟨h | h, hx⟩
            · exact .inl h
            · exact .inr fun hm => (List.mem_append.1 hm).elim h fun h' => hx (List.mem_singleton.1 h')
      · rcases b e he hne with h | ⟨hr, he'⟩
        · exact .inl (by simp only [LastIs]; exact .inl h)
        · rcases insert_entries (pairwise_of_top ha hk) he' with rfl | ⟨h', hne'⟩
          · refine .inl ?_
            simp only [LastIs]
            exact .inr ⟨hr, trivial, settle_to.1 t⟩
          · refine .inr ⟨?_, h'⟩
            simp only [entryKeys, List.map_cons, List.mem_cons, not_or]
            exact ⟨hne', hr⟩
      · rw [c]
        simp only [List.filter_cons, hk, decide_false, Bool.false_eq_true, if_false]
        congr 1
        clear ih a b c ha ha'
        induction acc with
        | nil => simp [IndexMap.insert, hk]
        | cons e acc ih =>
          obtain ⟨k', v'⟩ := e
          simp only [IndexMap.insert]
          split
          · rename_i h
            subst h
            simp [hk]
          · simp only [List.filter_cons, ih]

theorem topSettled_of (m : List (Str × Json)) : TopSettled m (Json.settleTop [] m) := by
  obtain ⟨a, b, c⟩ := settleTop_to m [] (by simp [entryKeys])
  refine ⟨?_, (fun e he hne => (b e he hne).resolve_right fun h => nomatch h.2), c⟩
  rw [a]
  simp [entryKeys]

theorem topSettled_unique {m d d' : List (Str × Json)} (h : TopSettled m d) (h' : TopSettled m d') : d = d' := by
  have hk := h.keys.trans h'.keys.symm
  have hn : ((entryKeys d).filter (· ≠ c!"sops")).Nodup := by rw [h.keys]; exact topFirsts_nodup _
  have hs := h.sops.trans h'.sops.symm
  have hv : ∀ k v v', k ≠ c!"sops" → (k, v) ∈ d → (k, v') ∈ d' → v = v' := fun k v v' hne a b =>
    settled_unique.2.2 m k v v' (h.values _ a hne) (h'.values _ b hne)
  clear h h'
  induction d generalizing d' with
  | nil =>
    cases d' with
    | nil => rfl
    | cons e r => simp [entryKeys] at hk
  | cons e r ih =>
    cases d' with
    | nil => simp [entryKeys] at hk
    | cons e' r' =>
      obtain ⟨k, v⟩ := e
      obtain ⟨k', v'⟩ := e'
      simp only [entryKeys, List.map_cons, List.cons.injEq] at hk
      obtain ⟨rfl, hk⟩ := hk
      have hv' : ∀ k v v', k ≠ c!"sops" → (k, v) ∈ r → (k, v') ∈ r' → v = v' :=
        fun k v v' hne a b => hv k v v' hne (.tail _ a) (.tail _ b)
      by_cases hks : k = c!"sops"
      · subst hks
        simp only [List.filter_cons, decide_true, if_true, List.cons.injEq, Prod.mk.injEq, true_and] at hs
        simp only [entryKeys, List.map_cons, List.filter_cons, ne_eq, not_true, decide_false, Bool.false_eq_true, if_false] at hn
        rw [hs.1, ih hk hn hs.2 hv']
      · simp only [List.filter_cons, hks, decide_false, Bool.false_eq_true, if_false] at hs
        simp only [entryKeys, List.map_cons, List.filter_cons, ne_eq, hks, not_false_eq_true, decide_true, if_true, List.nodup_cons] at hn
        rw [hv k v v' hks (.head _) (.head _), ih hk hn.2 hs hv']

/-! ## Whole texts -/

theorem parse_iff {J : JsonFloats} {s : Str} {d : List (Str × Json)} :
    Json.parse J s = some d ↔ ∃ m, WholeText J m s ∧ nesting (.map m) ≤ 127 ∧ d = Json.settleTop [] m := by
  unfold Json.parse
  constructor
  · intro h
    split at h
    · rename_i m r hr
      split at h
      · rename_i he
        cases h
        obtain ⟨hn, w, x, hw, hx, rfl⟩ := (read_sound J _).1 _ _ _ _ hr
        obtain ⟨w', hw', e⟩ := skipSpace_spec r
        rw [he, List.append_nil] at e
        subst e
        exact ⟨m, ⟨w, x, r, hw, hx, hw', by simp⟩, hn, rfl⟩
      · cases h
    · cases h
  · rintro ⟨m, ⟨w, x, w', hw, hx, hw', rfl⟩, hn, rfl⟩
    have := (read_complete J).1 (.map m) x ((w ++ x ++ w').length + 1) 128 w w' hx
      (by simp only [List.length_append]; omega) (by omega) hw
      (by have := follows_ws hw' follows_nil; rwa [List.append_nil] at this)
    rw [← List.append_assoc] at this
    rw [this]
    dsimp only
    rw [if_pos (skipSpace_ws hw')]

theorem text_unique {J : JsonFloats} {m m' : List (Str × Json)} {s : Str} (h : WholeText J m s) (h' : WholeText J m' s) :
    m = m' := by
  obtain ⟨w, x, v, hw, hx, hv, rfl⟩ := h
  obtain ⟨w', x', v', hw', hx', hv', e⟩ := h'
  have go : ∀ {w x v : Str} {m : List (Str × Json)}, JsonWs w → JsonText J (.map m) x → JsonWs v → ∀ n d,
      x.length ≤ n → nesting (.map m) < d → ∃ r, readValue J n d (w ++ x ++ v) = some (.map m, r) := by
    intro w x v m hw hx hv n d hn hd
    refine ⟨v, ?_⟩
    rw [List.append_assoc]
    exact (read_complete J).1 (.map m) x n d w v hx hn hd hw
      (by have := follows_ws hv follows_nil; rwa [List.append_nil] at this)
  obtain ⟨r, h1⟩ := go hw hx hv (x.length + x'.length) (nesting (.map m) + nesting (.map m') + 1) (by omega) (by omega)
  obtain ⟨r', h2⟩ := go hw' hx' hv' (x.length + x'.length) (nesting (.map m) + nesting (.map m') + 1) (by omega) (by omega)
  rw [e, h2] at h1
  cases h1
  rfl

theorem text_scalars {J : JsonFloats} {P : JsonScalar → Prop} (hb : ∀ b, P (.bool b)) (hs : ∀ s, P (.str s))
    (hJ : ∀ x n, JsonNumber J n x → P (.num n)) :
    (∀ t : Json, ∀ x, JsonText J t x → AllScalars P t) ∧
    (∀ l : List Json, ∀ x, JsonElems J l x → ∀ p, ∀ pv ∈ leavesSeq p l, P pv.2) ∧
    (∀ m : List (Str × Json), ∀ x, JsonMembers J m x → ∀ e ∈ m, AllScalars P e.2) := by
  apply Tree.induct
  · intro l ih x h p pv hp
    simp only [JsonText] at h
    obtain ⟨y, hy, _⟩ := h
    simp only [leavesAt] at hp
    exact ih y hy p pv hp
  · intro m ih x h p pv hp
    simp only [JsonText] at h
    obtain ⟨y, hy, _⟩ := h
    simp only [leavesAt] at hp
    obtain ⟨e, he, hpe⟩ := mem_leavesMap.1 hp
    exact ih y hy e he _ pv hpe
  · intro x _ p pv hp
    simp only [leavesAt] at hp
    cases hp
  · intro a x h p pv hp
    simp only [leavesAt, List.mem_singleton] at hp
    subst hp
    match a, h with
    | .bool b, _ => exact hb b
    | .str s, _ => exact hs s
    | .num v, h =>
      simp only [JsonText] at h
      exact hJ _ _ h
  · intro x _ p pv hp
    simp only [leavesSeq] at hp
    cases hp
  · intro t r h1 h2 x h p pv hp
    simp only [JsonElems] at h
    obtain ⟨w, y, w', z, _, hy, _, hz, _⟩ := h
    simp only [leavesSeq, List.mem_append] at hp
    rcases hp with hp | hp
    · exact h1 y hy p pv hp
    · exact h2 z hz p pv hp
  · intro x _ e he
    cases he
  · intro k t r h1 h2 x h e he
    simp only [JsonMembers] at h
    obtain ⟨w, q, w1, w2, y, w', z, _, _, _, _, hy, _, hz, _⟩ := h
    rcases List.mem_cons.1 he with rfl | he
    · exact h1 y hy
    · exact h2 z hz e he

theorem lastIs_value {m : List (Str × Json)} {k : Str} {v : Json} (h : LastIs m k v) : ∃ t, (k, t) ∈ m ∧ v = Json.settle t := by
  induction m with
  | nil => simp only [LastIs] at h
  | cons e r ih =>
    obtain ⟨k', t⟩ := e
    simp only [LastIs] at h
    rcases h with h | ⟨_, rfl, h⟩
    · obtain ⟨t, ht, e⟩ := ih h
      exact ⟨t, .tail _ ht, e⟩
    · exact ⟨t, .head _, settled_unique.1 t v _ h (settle_to.1 t)⟩

theorem settled_from {m d : List (Str × Json)} (h : TopSettled m d) :
    ∀ e ∈ d, ∃ t, (e.1, t) ∈ m ∧ (e.2 = t ∧ e.1 = c!"sops" ∨ e.2 = Json.settle t ∧ e.1 ≠ c!"sops") := by
    intro e he
    by_cases hk : e.1 = c!"sops"
    · have : e ∈ m.filter (fun e => e.1 = c!"sops") := by
        rw [← h.sops]
        exact List.mem_filter.2 ⟨he, by simpa using hk⟩
      exact ⟨e.2, (List.mem_filter.1 this).1, .inl ⟨rfl, hk⟩⟩
    · obtain ⟨t, ht, e'⟩ := lastIs_value (h.values e he hk)
      exact ⟨t, ht, .inr ⟨e', hk⟩⟩

theorem settled_scalars {P : JsonScalar → Prop} {m d : List (Str × Json)} (h : TopSettled m d)
    (hs : ∀ e ∈ m, AllScalars P e.2) : ∀ pv ∈ leaves d, P pv.2 := by
  intro pv hp
  obtain ⟨e, he, hpe⟩ := mem_leavesMap.1 hp
  obtain ⟨t, ht, ⟨e', _⟩ | ⟨e', _⟩⟩ := settled_from h e he
  · rw [e'] at hpe; exact hs _ ht _ pv hpe
  · rw [e'] at hpe; exact ((settle_spec P).1 t).2.2 (hs _ ht) _ pv hpe

theorem kept_of_settled {J : JsonFloats} {m d : List (Str × Json)} (h : TopSettled m d)
    (hs : ∀ pv ∈ leaves d, ScalarKept J pv.2) (hn : nesting (.map m) ≤ 127) : JsonKept J d := by
  simp only [nesting] at hn
  have from' := settled_from h
  have hm := nestingMap_le.1 (show nestingMap m ≤ 126 by omega)
  refine ⟨?_, hs, ?_, fun e he hk => ?_⟩
  · refine Nat.lt_of_le_of_lt (nestingMap_le.2 fun e he => ?_) (by omega : 126 < 127)
    obtain ⟨t, ht, ⟨e', _⟩ | ⟨e', _⟩⟩ := from' e he
    · rw [e']; exact hm _ ht
    · rw [e']; exact Nat.le_trans ((settle_spec (fun _ => True)).1 t).1 (hm _ ht)
  · have := topFirsts_nodup (entryKeys m)
    rw [← h.keys] at this
    exact this
  · obtain ⟨t, ht, ⟨_, e'⟩ | ⟨e', _⟩⟩ := from' e he
    · exact absurd e' hk
    · rw [e']; exact ((settle_spec (fun _ => True)).1 t).2.1

/-- The scalars that are read have texts. -/
theorem parsed_scalars {J : JsonFloats} {P : JsonScalar → Prop} (hb : ∀ b, P (.bool b)) (hs : ∀ s, P (.str s))
    (hJ : ∀ x n, JsonNumber J n x → P (.num n)) {s : Str} {d : List (Str × Json)} (h : Json.parse J s = some d) :
    ∀ pv ∈ leaves d, P pv.2 := by
  obtain ⟨m, ⟨w, x, w', _, hx, _, _⟩, _, rfl⟩ := parse_iff.1 h
  refine settled_scalars (topSettled_of m) fun e he => ?_
  simp only [JsonText] at hx
  obtain ⟨y, hy, _⟩ := hx
  exact (text_scalars hb hs hJ).2.2 m y hy e he

/-- A document that is read survives if its floats do. -/
theorem kept_of_parse {J : JsonFloats} {s : Str} {d : List (Str × Json)} (h : Json.parse J s = some d)
    (hf : ∀ p f, (p, .num (.float f)) ∈ leaves d → JsonNumber J (.float f) (J.write f)) : JsonKept J d := by
  have hn : ∀ pv ∈ leaves d, ∀ i, pv.2 = .num (.negInt i) → i.toInt < 0 :=
    parsed_scalars (P := fun v => ∀ i, v = .num (.negInt i) → i.toInt < 0) (fun _ _ h => nomatch h) (fun _ _ h => nomatch h)
      (fun x n hx i hi => by
        cases hi
        cases hx with
        | negative _ h0 hi => omega) h
  obtain ⟨m, _, hd, rfl⟩ := parse_iff.1 h
  refine kept_of_settled (topSettled_of m) (fun pv hp => ?_) hd
  obtain ⟨p, v⟩ := pv
  match v, hp with
  | .bool _, _ => trivial
  | .str _, _ => trivial
  | .num (.posInt _), _ => trivial
  | .num (.negInt i), hp => exact hn _ hp i rfl
  | .num (.float f), hp => exact hf p f hp

theorem parse_render_kept {J : JsonFloats} {d : List (Str × Json)} (h : JsonKept J d) :
    Json.parse J (Json.render J d) = some d := by
  refine parse_iff.2 ⟨d, ⟨[], _, [], jsonWs_nil, (pretty_text J).1 (.map d) [] 0 ?_, jsonWs_nil, by simp [Json.render]⟩, ?_, ?_⟩
  · simp only [leavesAt]
    exact h.scalars
  · simp only [nesting]
    have := h.depth
    omega
  · exact (settleTop_kept [] h.keys h.inner).symm

end Rops
