import Verif.Model.EdgeList
import Verif.Proofs.Basic

/-!
# Sorted lists of edges
-/

namespace Candy.EdgeList

/-! ### Sorting -/

theorem mem_unique (x : Nat) : ∀ l : List Nat, x ∈ unique l ↔ x ∈ l
  | [] => by simp [unique]
  | [a] => by simp [unique]
  | a :: b :: l => by
    unfold unique
    have ih := mem_unique x (b :: l)
    split
    · next h => subst h; rw [ih]; simp
    · rw [List.mem_cons, ih, List.mem_cons (a := x) (b := a)]

theorem unique_sorted : ∀ l : List Nat, l.Pairwise (· ≤ ·) → (unique l).Pairwise (· < ·)
  | [], _ => by simp [unique]
  | [a], _ => by simp [unique]
  | a :: b :: l, h => by
    unfold unique
    obtain ⟨h1, h2⟩ := List.pairwise_cons.1 h
    have ih := unique_sorted (b :: l) h2
    split
    · exact ih
    · next hne =>
      refine List.pairwise_cons.2 ⟨fun x hx => ?_, ih⟩
      rw [mem_unique] at hx
      have hab := h1 b (by simp)
      rcases List.mem_cons.1 hx with rfl | hx
      · omega
      · have := (List.pairwise_cons.1 h2).1 x hx
        omega

theorem mem_sortUnique (x : Nat) (l : List Nat) : x ∈ sortUnique l ↔ x ∈ l := by
  rw [sortUnique, mem_unique, List.mem_insertionSort]

theorem sortUnique_sorted (l : List Nat) : (sortUnique l).Pairwise (· < ·) := unique_sorted _ (List.pairwise_insertionSort _ _)

theorem sorted_ext {l l' : List Nat} (h : l.Pairwise (· < ·)) (h' : l'.Pairwise (· < ·)) (hm : ∀ x, x ∈ l ↔ x ∈ l') : l = l' := by
  have hn : l.Nodup := h.imp fun hab => Nat.ne_of_lt hab
  have hn' : l'.Nodup := h'.imp fun hab => Nat.ne_of_lt hab
  have hp : l.Perm l' := (List.perm_ext_iff_of_nodup hn hn').2 hm
  exact hp.eq_of_pairwise (fun a b _ _ h1 h2 => absurd h1 (Nat.lt_asymm h2)) h h'

theorem sortUnique_eq {l : List Nat} (h : l.Pairwise (· < ·)) : sortUnique l = l :=
  sorted_ext (sortUnique_sorted l) h fun x => mem_sortUnique x l

theorem sortFold (g : VarGraph) : ∀ k,
    (List.range k).foldl (fun h i =>
      { h with out := upd h.out i (sortUnique (h.out i)), inn := upd h.inn i (sortUnique (h.inn i)), m := h.m + (sortUnique (h.out i)).length })
      { g with m := 0 } =
    { g with
      out := fun i => if i < k then sortUnique (g.out i) else g.out i
      inn := fun i => if i < k then sortUnique (g.inn i) else g.inn i
      m := ((List.range k).map fun i => (sortUnique (g.out i)).length).sum }
  | 0 => by simp
  | k + 1 => by
    rw [List.range_succ, List.foldl_append, sortFold g k]
    simp only [List.foldl_cons, List.foldl_nil, Nat.lt_irrefl, if_false, List.map_append, List.sum_append, List.map_cons, List.map_nil,
      List.sum_cons, List.sum_nil, Nat.add_zero, VarGraph.mk.injEq, true_and, and_true]
    constructor <;> funext i <;> rw [upd_apply]
    · by_cases h : i = k
      · subst h; simp
      · rw [if_neg h]
        by_cases h' : i < k
        · rw [if_pos h', if_pos (by omega)]
        · rw [if_neg h', if_neg (by omega)]
    · by_cases h : i = k
      · subst h; simp
      · rw [if_neg h]
        by_cases h' : i < k
        · rw [if_pos h', if_pos (by omega)]
        · rw [if_neg h', if_neg (by omega)]

theorem sortLoop_eq (g : VarGraph) : sortLoop g = { g with
      out := fun i => if i < g.n then sortUnique (g.out i) else g.out i
      inn := fun i => if i < g.n then sortUnique (g.inn i) else g.inn i
      m := ((List.range g.n).map fun i => (sortUnique (g.out i)).length).sum } := sortFold g g.n

/-! ### Edges in both directions -/

theorem push_spec {maxn i : Nat} : ∀ (B A : List Nat) (E : Nat → List Nat) (X : List Nat), E i = (A ++ B) ++ X → (∀ w ∈ B, w < maxn) →
    ∃ E', (List.range' A.length B.length).foldlM (pushRev maxn i) E = some E' ∧ (∀ v w, w ∈ E v → w ∈ E' v) ∧
      (∀ v w, w ∈ E' v → w ∈ E v ∨ (w = i ∧ v ∈ B)) ∧ ∀ w ∈ B, i ∈ E' w
  | [], A, E, X, _, _ => ⟨E, rfl, fun _ _ h => h, fun _ _ h => Or.inl h, by simp⟩
  | b :: B, A, E, X, hE, hB => by
    have hb : b < maxn := hB b (by simp)
    have hj : (E i)[A.length]? = some b := by rw [hE]; simp
    have hp : pushRev maxn i E A.length = some (upd E b (E b ++ [i])) := by
      unfold pushRev; rw [hj]; simp [hb]
    have hE' : ∃ X', upd E b (E b ++ [i]) i = ((A ++ [b]) ++ B) ++ X' := by
      rw [upd_apply]
      split
      · next h => subst h; exact ⟨X ++ [i], by rw [hE]; simp⟩
      · exact ⟨X, by rw [hE]; simp⟩
    obtain ⟨X', hX'⟩ := hE'
    obtain ⟨E', h1, h2, h3, h4⟩ := push_spec B (A ++ [b]) _ X' hX' fun w hw => hB w (by simp [hw])
    have hmono : ∀ v w, w ∈ E v → w ∈ upd E b (E b ++ [i]) v := by
      intro v w hw
      rw [upd_apply]; split
      · next h => subst h; simp [hw]
      · exact hw
    refine ⟨E', ?_, fun v w hw => h2 v w (hmono v w hw), fun v w hw => ?_, fun w hw => ?_⟩
    · rw [List.length_cons, List.range'_succ, List.foldlM_cons, hp]
      simpa using h1
    · rcases h3 v w hw with h5 | ⟨h5, h6⟩
      · rw [upd_apply] at h5
        split at h5
        · next h =>
          subst h
          simp only [List.mem_append, List.mem_singleton] at h5
          rcases h5 with h5 | h5
          · exact Or.inl h5
          · exact Or.inr ⟨h5, by simp⟩
        · exact Or.inl h5
      · exact Or.inr ⟨h5, by simp [h6]⟩
    · rcases List.mem_cons.1 hw with rfl | hw
      · exact h2 _ _ (by rw [upd_same]; simp)
      · exact h4 w hw

/-- Edges are between the nodes `0 .. n - 1`. -/
structure Dense (g : VarGraph) : Prop where
  cap : g.n ≤ g.maxn
  edges : ∀ a b, b ∈ g.out a → a < g.n ∧ b < g.n
  redges : ∀ a, g.n ≤ a → g.inn a = []

theorem undir_fold {g : VarGraph} (hg : Dense g) : ∀ k ≤ g.n, ∃ E, (List.range k).foldlM (undirStep g.maxn) (g.out, g.inn) =
      some (E, fun i => if i < k then [] else g.inn i) ∧
    (∀ v w, w ∈ g.out v → w ∈ E v) ∧ (∀ v w, w ∈ E v → w ∈ g.out v ∨ v ∈ g.out w) ∧ ∀ i < k, ∀ w ∈ g.out i, i ∈ E w
  | 0, _ => ⟨g.out, by simp, fun _ _ h => h, fun _ _ h => Or.inl h, by simp⟩
  | k + 1, hk => by
    obtain ⟨E, h1, h2, h3, h4⟩ := undir_fold hg k (by omega)
    have hlt : ∀ w ∈ E k, w < g.maxn := by
      intro w hw
      have hc := hg.cap
      rcases h3 k w hw with h | h
      · have := hg.edges k w h; omega
      · have := hg.edges w k h; omega
    obtain ⟨E', e1, e2, e3, e4⟩ := push_spec (maxn := g.maxn) (i := k) (E k) [] E [] (by simp) hlt
    refine ⟨E', ?_, fun v w hw => e2 v w (h2 v w hw), fun v w hw => ?_, fun i hi w hw => ?_⟩
    · rw [List.range_succ, List.foldlM_append, h1]
      have : undirStep g.maxn (E, fun i => if i < k then [] else g.inn i) k = some (E', fun i => if i < k + 1 then [] else g.inn i) := by
        unfold undirStep
        simp only [List.length_nil] at e1
        rw [List.range_eq_range', e1, Option.map_some]
        congr 2
        funext i
        rw [upd_apply]
        by_cases h : i = k
        · subst h; simp
        · rw [if_neg h]
          simp only
          by_cases h' : i < k
          · rw [if_pos h', if_pos (by omega)]
          · rw [if_neg h', if_neg (by omega)]
      simp [this]
    · rcases e3 v w hw with h | ⟨rfl, h⟩
      · exact h3 v w h
      · exact (h3 w v h).symm
    · by_cases hik : i = k
      · subst hik; exact e4 w (h2 i w hw)
      · exact e2 _ _ (h4 i (by omega) w hw)

theorem sortUnique_nil : sortUnique [] = [] := rfl

/-- The loop that appends to the lists it reads does what the model of the graph of variables says. -/
theorem makeUndirected_eq {g : VarGraph} (hg : Dense g) (s : Bool) : makeUndirected ⟨g, s, false⟩ = some ⟨g.makeUndirected, true, true⟩ := by
  obtain ⟨E, h1, h2, h3, h4⟩ := undir_fold hg g.n (Nat.le_refl _)
  have hE : ∀ v w, w ∈ E v ↔ w ∈ g.out v ∨ v ∈ g.out w := fun v w =>
    ⟨h3 v w, fun h => h.elim (h2 v w) fun h => h4 w (hg.edges w v h).1 v h⟩
  have hnb : ∀ v, sortUnique (E v) = g.neighbours v := by
    intro v
    refine sorted_ext (sortUnique_sorted _) ?_ fun w => ?_
    · exact (List.pairwise_lt_range).filter _
    · rw [mem_sortUnique, hE, VarGraph.neighbours, List.mem_filter]
      simp only [List.mem_range, Bool.or_eq_true, decide_eq_true_eq, Bool.and_eq_true]
      have hc := hg.cap
      constructor
      · rintro (h | h)
        · have := hg.edges v w h; exact ⟨by omega, Or.inl h⟩
        · have := hg.edges w v h; exact ⟨by omega, Or.inr ⟨this.1, h⟩⟩
      · rintro ⟨_, h | h⟩
        · exact Or.inl h
        · exact Or.inr h.2
  have hout : ∀ i, g.n ≤ i → E i = g.out i := by
    intro i hi
    have e1 : E i = [] := by
      rw [List.eq_nil_iff_forall_not_mem]
      intro w hw
      rcases (hE i w).1 hw with h | h
      · have := hg.edges i w h; omega
      · have := hg.edges w i h; omega
    have e2 : g.out i = [] := by
      rw [List.eq_nil_iff_forall_not_mem]
      intro w hw
      have := hg.edges i w hw; omega
    rw [e1, e2]
  unfold makeUndirected
  rw [if_neg (by simp), h1]
  simp only [Option.map_some, sortEdgeList, Bool.false_eq_true, if_false, sortLoop_eq, VarGraph.makeUndirected, hnb]
  congr 3
  · funext i
    by_cases h : i < g.n
    · rw [if_pos h, if_pos h]
    · rw [if_neg h, if_neg h]; exact hout i (by omega)
  · funext i
    by_cases h : i < g.n
    · rw [if_pos h, if_pos h]; rfl
    · rw [if_neg h, if_neg h]

theorem undirected_mem {g : VarGraph} (hg : Dense g) (v w : Nat) : w ∈ g.makeUndirected.out v ↔ w ∈ g.out v ∨ v ∈ g.out w := by
  have hc := hg.cap
  simp only [VarGraph.makeUndirected]
  split
  · rw [VarGraph.neighbours, List.mem_filter]
    simp only [List.mem_range, Bool.or_eq_true, decide_eq_true_eq, Bool.and_eq_true]
    constructor
    · rintro ⟨_, h | h⟩
      · exact Or.inl h
      · exact Or.inr h.2
    · rintro (h | h)
      · have := hg.edges v w h; exact ⟨by omega, Or.inl h⟩
      · have := hg.edges w v h; exact ⟨by omega, Or.inr ⟨this.1, h⟩⟩
  · refine ⟨Or.inl, fun h => ?_⟩
    rcases h with h | h
    · exact h
    · have := hg.edges w v h; omega

theorem undirected_dense {g : VarGraph} (hg : Dense g) : Dense g.makeUndirected := by
  refine ⟨hg.cap, fun a b hb => ?_, fun a ha => ?_⟩
  · rcases (undirected_mem hg a b).1 hb with h | h
    · exact hg.edges a b h
    · exact (hg.edges b a h).symm
  · have ha : g.n ≤ a := ha
    simp only [VarGraph.makeUndirected]
    rw [if_neg (by omega)]
    exact hg.redges a ha

theorem undirected_sorted {g : VarGraph} (hg : Dense g) (v : Nat) : (g.makeUndirected.out v).Pairwise (· < ·) := by
  simp only [VarGraph.makeUndirected]
  split
  · exact (List.pairwise_lt_range).filter _
  · have : g.out v = [] := by
      rw [List.eq_nil_iff_forall_not_mem]
      intro w hw
      have := hg.edges v w hw; omega
    rw [this]; simp

theorem sorted_mem (g : VarGraph) (v w : Nat) : w ∈ (sortLoop g).out v ↔ w ∈ g.out v := by
  rw [sortLoop_eq]
  simp only
  split
  · exact mem_sortUnique w _
  · rfl

theorem sorted_dense {g : VarGraph} (hg : Dense g) : Dense (sortLoop g) := by
  refine ⟨by rw [sortLoop_eq]; exact hg.cap, fun a b hb => ?_, fun a ha => ?_⟩
  · rw [sorted_mem] at hb
    rw [sortLoop_eq]; exact hg.edges a b hb
  · rw [sortLoop_eq] at ha ⊢
    have ha : g.n ≤ a := ha
    simp only
    rw [if_neg (by omega)]
    exact hg.redges a ha

theorem sorted_sorted {g : VarGraph} (hg : Dense g) (v : Nat) : ((sortLoop g).out v).Pairwise (· < ·) := by
  rw [sortLoop_eq]
  simp only
  split
  · exact sortUnique_sorted _
  · have : g.out v = [] := by
      rw [List.eq_nil_iff_forall_not_mem]
      intro w hw
      have := hg.edges v w hw; omega
    rw [this]; simp

/-! ### Binary search -/

theorem bsearch_spec {l : List Nat} (hl : l.Pairwise (· < ·)) (b : Nat) : ∀ (k : Nat) (first last : Int), 0 ≤ first → last < l.length →
    last - first + 1 ≤ k → (∀ i : Nat, l[i]? = some b → first ≤ i ∧ (i : Int) ≤ last) → bsearch l b k first last = some (decide (b ∈ l)) := by
  have hget : ∀ {i j x y : Nat}, l[i]? = some x → l[j]? = some y → i < j → x < y := by
    intro i j x y hx hy hij
    obtain ⟨h1, rfl⟩ := List.getElem?_eq_some_iff.1 hx
    obtain ⟨h2, rfl⟩ := List.getElem?_eq_some_iff.1 hy
    exact List.pairwise_iff_getElem.1 hl i j h1 h2 hij
  have hout : ∀ first last : Int, last < first → (∀ i : Nat, l[i]? = some b → first ≤ i ∧ (i : Int) ≤ last) → b ∉ l := by
    intro first last hlt h hm
    obtain ⟨i, hi⟩ := List.getElem?_of_mem hm
    have := h i hi; omega
  intro k
  induction k with
  | zero =>
    intro first last h0 h1 h2 h3
    unfold bsearch
    rw [if_neg (by omega)]
    simp [hout first last (by omega) h3]
  | succ k ih =>
    intro first last h0 h1 h2 h3
    unfold bsearch
    by_cases hfl : first ≤ last
    · rw [if_pos hfl]
      simp only
      have hm1 : first ≤ (first + last) / 2 := by omega
      have hm2 : (first + last) / 2 ≤ last := by omega
      rw [if_neg (by omega)]
      have hx : ∃ x, l[((first + last) / 2).toNat]? = some x := ⟨_, List.getElem?_eq_getElem (by omega)⟩
      obtain ⟨x, hx⟩ := hx
      rw [hx]
      simp only
      by_cases c1 : x < b
      · rw [if_pos c1]
        refine ih _ _ (by omega) h1 (by omega) fun i hi => ⟨?_, (h3 i hi).2⟩
        apply Decidable.byContradiction
        intro hlt
        rcases Nat.lt_or_ge i ((first + last) / 2).toNat with h | h
        · have := hget hi hx h; omega
        · have e : i = ((first + last) / 2).toNat := by omega
          rw [e, hx] at hi
          have := Option.some.inj hi; omega
      · rw [if_neg c1]
        by_cases c2 : b < x
        · rw [if_pos c2]
          refine ih _ _ h0 (by omega) (by omega) fun i hi => ⟨(h3 i hi).1, ?_⟩
          apply Decidable.byContradiction
          intro hlt
          rcases Nat.lt_or_ge ((first + last) / 2).toNat i with h | h
          · have := hget hx hi h; omega
          · have e : i = ((first + last) / 2).toNat := by omega
            rw [e, hx] at hi
            have := Option.some.inj hi; omega
        · rw [if_neg c2]
          have : x = b := by omega
          subst this
          have := List.mem_of_getElem? hx
          simp [this]
    · rw [if_neg hfl]
      simp [hout first last (by omega) h3]

theorem bsearch_list {l : List Nat} (hl : l.Pairwise (· < ·)) (b : Nat) : bsearch l b l.length 0 (l.length - 1 : Int) = some (decide (b ∈ l)) :=
  bsearch_spec hl b _ _ _ (by omega) (by omega) (by omega) fun i hi => by
    obtain ⟨h, _⟩ := List.getElem?_eq_some_iff.1 hi
    omega

/-- What holds of a graph at any time. -/
structure Inv (g : G) : Prop where
  dense : Dense g.base
  sorted : g.sorted = true → ∀ v, (g.base.out v).Pairwise (· < ·)
  count : g.sorted = true → g.base.m = ((List.range g.base.n).map fun i => (g.base.out i).length).sum
  undir : g.undir = true → g.sorted = true ∧ (∀ v w, w ∈ g.base.out v → v ∈ g.base.out w) ∧ ∀ v, g.base.inn v = []

theorem sort_spec {g : G} (h : Inv g) : Inv (sortEdgeList g) ∧ (sortEdgeList g).sorted = true ∧ (sortEdgeList g).undir = g.undir ∧
    (sortEdgeList g).base.n = g.base.n ∧ (sortEdgeList g).base.maxn = g.base.maxn ∧ ∀ v w, w ∈ (sortEdgeList g).base.out v ↔ w ∈ g.base.out v := by
  unfold sortEdgeList
  by_cases hs : g.sorted = true
  · rw [if_pos hs]
    exact ⟨h, hs, rfl, rfl, rfl, fun _ _ => Iff.rfl⟩
  · rw [if_neg hs]
    have hu : ¬ g.undir = true := fun hu => hs (h.undir hu).1
    refine ⟨⟨sorted_dense h.dense, fun _ v => sorted_sorted h.dense v, fun _ => ?_, fun hu' => absurd hu' hu⟩, rfl, rfl, ?_, ?_,
      fun v w => sorted_mem g.base v w⟩
    · simp only [sortLoop_eq]
      congr 1
      apply List.map_congr_left
      intro i hi
      rw [if_pos (by simpa using hi)]
    · simp only [sortLoop_eq]
    · simp only [sortLoop_eq]

theorem undirect_spec {g : G} (h : Inv g) : ∃ g', makeUndirected g = some g' ∧ Inv g' ∧ g'.undir = true ∧ g'.base.n = g.base.n ∧ g'.base.maxn = g.base.maxn ∧
    ∀ v w, w ∈ g'.base.out v ↔ w ∈ g.base.out v ∨ v ∈ g.base.out w := by
  by_cases hu : g.undir = true
  · refine ⟨g, by unfold makeUndirected; rw [if_pos hu], h, hu, rfl, rfl, fun v w => ⟨Or.inl, fun hw => ?_⟩⟩
    rcases hw with hw | hw
    · exact hw
    · exact (h.undir hu).2.1 w v hw
  · obtain ⟨b, s, u⟩ := g
    have hu : u = false := by simpa using hu
    subst hu
    refine ⟨_, makeUndirected_eq h.dense s, ⟨undirected_dense h.dense, fun _ v => undirected_sorted h.dense v, fun _ => ?_, fun _ => ⟨rfl, ?_, ?_⟩⟩, rfl, rfl, rfl,
      undirected_mem h.dense⟩
    · simp only [VarGraph.makeUndirected]
      congr 1
      apply List.map_congr_left
      intro i hi
      rw [if_pos (by simpa using hi)]
    · intro v w hw
      have hw := (undirected_mem h.dense v w).1 hw
      exact (undirected_mem h.dense w v).2 hw.symm
    · intro v
      simp only [VarGraph.makeUndirected]
      split
      · rfl
      · next hv => exact h.dense.redges v (Nat.le_of_not_lt hv)

theorem edge_spec {g : G} (h : Inv g) {a : Nat} (ha : a < g.base.maxn) (b : Nat) :
    edge g a b = some (sortEdgeList g, decide (b ∈ g.base.out a)) := by
  obtain ⟨h1, h2, _, _, _, h5⟩ := sort_spec h
  unfold edge
  rw [if_pos ha]
  simp only
  rw [bsearch_list (h1.sorted h2 a), Option.map_some]
  simp only [h5]

theorem inv_new {g : VarGraph} (h : Dense g) : Inv ⟨g, false, false⟩ := by
  refine ⟨h, ?_, ?_, ?_⟩ <;> intro h <;> cases h

end Candy.EdgeList
