import Verif.Proofs.Triangles
import Verif.Proofs.EdgeCount
import Verif.Model.Clustering

/-!
# The loops that count triangles
-/

namespace Candy.Triangles

open EdgeList

/-- The lists of both directions have the neighbours. -/
def Both (g : G) : Prop := ∀ i j, (j ∈ g.base.out i ∨ j ∈ g.base.inn i) ↔ (j ∈ g.base.out i ∨ i ∈ g.base.out j)

/-- The edges of a graph as a relation. -/
def Rel (g : G) (a b : Nat) : Prop := b ∈ g.base.out a

/-- The graph `s` is `g`, with edges that may have been sorted. -/
structure St (g s : G) : Prop where
  inv : Inv s
  both : Both s
  n : s.base.n = g.base.n
  maxn : s.base.maxn = g.base.maxn
  undir : s.undir = g.undir
  rel : ∀ v w, w ∈ s.base.out v ↔ w ∈ g.base.out v

theorem sort_both {g : G} (hb : Both g) : Both (sortEdgeList g) := by
  unfold sortEdgeList
  split
  · exact hb
  · intro i j
    have hin : ∀ i j, j ∈ (sortLoop g.base).inn i ↔ j ∈ g.base.inn i := by
      intro i j
      rw [sortLoop_eq]
      simp only
      split
      · exact mem_sortUnique _ _
      · rfl
    simp only [sorted_mem, hin]
    exact hb i j

theorem St.sort {g s : G} (h : St g s) : St g (sortEdgeList s) := by
  obtain ⟨h1, _, h3, h4, h5, h6⟩ := sort_spec h.inv
  exact ⟨h1, sort_both h.both, h4.trans h.n, h5.trans h.maxn, h3.trans h.undir, fun v w => (h6 v w).trans (h.rel v w)⟩

theorem adjacent_spec {g s : G} (h : St g s) {a b : Nat} (ha : a < g.base.maxn) (hb : b < g.base.maxn) :
    ∃ s', adjacent s a b = some (s', decide (b ∈ g.base.out a ∨ a ∈ g.base.out b)) ∧ St g s' := by
  unfold adjacent
  rw [edge_spec h.inv (by rw [h.maxn]; exact ha)]
  by_cases hab : b ∈ g.base.out a
  · refine ⟨sortEdgeList s, ?_, h.sort⟩
    simp [(h.rel a b).2 hab, hab]
  · have h' := h.sort
    refine ⟨sortEdgeList (sortEdgeList s), ?_, h'.sort⟩
    have e : decide (b ∈ s.base.out a) = false := by
      rw [decide_eq_false_iff_not, h.rel]; exact hab
    have e' : edge (sortEdgeList s) b a = some (sortEdgeList (sortEdgeList s), decide (a ∈ (sortEdgeList s).base.out b)) :=
      edge_spec h'.inv (by rw [h'.maxn]; exact hb) a
    simp only [Option.bind_some, e, Bool.false_eq_true, if_false, e', h'.rel, hab, false_or]

/-- The test for one pair. -/
def counts (g : G) (u a b : Nat) : Bool := decide (b ∈ g.base.out a ∨ a ∈ g.base.out b) && a != u && b != u && a != b

theorem pairFold {g : G} (u a : Nat) (ha : a < g.base.maxn) : ∀ (l : List Nat) (s : G) (k : Nat), (∀ b ∈ l, b < g.base.maxn) → St g s →
    ∃ s', l.foldlM (pairStep u a) (s, k) = some (s', k + (l.filter (counts g u a)).length) ∧ St g s'
  | [], s, k, _, h => ⟨s, by simp, h⟩
  | b :: l, s, k, hl, h => by
    obtain ⟨s1, e1, h1⟩ := adjacent_spec h ha (hl b (by simp))
    have e2 : pairStep u a (s, k) b = some (s1, if counts g u a b = true then k + 1 else k) := by
      unfold pairStep
      rw [e1, Option.map_some]
      rfl
    obtain ⟨s2, e3, h2⟩ := pairFold u a ha l s1 (if counts g u a b = true then k + 1 else k) (fun b hb => hl b (by simp [hb])) h1
    refine ⟨s2, ?_, h2⟩
    rw [List.foldlM_cons, e2]
    change l.foldlM (pairStep u a) _ = _
    rw [e3, List.filter_cons]
    split
    · rw [List.length_cons, Nat.add_assoc, Nat.add_comm 1]
    · rfl

theorem pairs_spec {g : G} (u : Nat) : ∀ (l : List Nat) (s : G) (k : Nat), (∀ b ∈ l, b < g.base.maxn) → St g s →
    ∃ s', pairs u l (s, k) = some (s', k + pairCount (counts g u) l) ∧ St g s'
  | [], s, k, _, h => ⟨s, rfl, h⟩
  | a :: l, s, k, hl, h => by
    obtain ⟨s1, e1, h1⟩ := pairFold u a (hl a (by simp)) l s k (fun b hb => hl b (by simp [hb])) h
    obtain ⟨s2, e2, h2⟩ := pairs_spec u l s1 (k + (l.filter (counts g u a)).length) (fun b hb => hl b (by simp [hb])) h1
    refine ⟨s2, ?_, h2⟩
    rw [pairs, e1, Option.bind_some, e2, pairCount, Nat.add_assoc]

theorem around_mem {g : G} (h : Inv g) (hb : Both g) (u x : Nat) : x ∈ around g u ↔ Near (Rel g) u x := by
  unfold around Near Rel
  split
  · rename_i hu
    exact ⟨Or.inl, fun hx => hx.elim id fun hx => (h.undir hu).2.1 _ _ hx⟩
  · rw [mem_sortUnique, List.mem_append]
    exact hb u x

theorem around_sorted {g : G} (h : Inv g) (u : Nat) : (around g u).Pairwise (· < ·) := by
  unfold around
  split
  · rename_i hu
    exact h.sorted (h.undir hu).1 u
  · exact sortUnique_sorted _

theorem near_lt {g : G} (h : Inv g) {a b : Nat} (hn : Near (Rel g) a b) : a < g.base.n ∧ b < g.base.n :=
  hn.elim (fun h' => h.dense.edges a b h') fun h' => (h.dense.edges b a h').symm

theorem wedges_eq (p : Nat) : ((p : Int) * ((p : Int) - 1)) / 2 = ((p.choose 2 : Nat) : Int) := by
  rw [Nat.choose_two_right]
  cases p with
  | zero => rfl
  | succ p =>
    rw [Nat.add_sub_cancel, Int.natCast_ediv, Int.natCast_mul]
    congr 2
    omega

theorem degree_eq {g : G} (h : Inv g) (hb : Both g) (u : Nat) :
    wedgesOf (around g u).length ((g.base.out u).contains u) = (((degree g.base.n (Rel g) u).choose 2 : Nat) : Int) := by
  classical
  have hnd : (around g u).Nodup := (around_sorted h u).imp fun h => Nat.ne_of_lt h
  have hd : degree g.base.n (Rel g) u = ((around g u).toFinset.erase u).card := by
    unfold degree
    congr 1
    ext x
    rw [Finset.mem_filter, Finset.mem_erase, List.mem_toFinset, around_mem h hb, Finset.mem_range]
    exact ⟨fun h => h.2, fun h' => ⟨(near_lt h h'.2).2, h'⟩⟩
  have hlen : (around g u).length = (around g u).toFinset.card := (List.toFinset_card_of_nodup hnd).symm
  by_cases hl : u ∈ g.base.out u
  · have hm : u ∈ (around g u).toFinset := List.mem_toFinset.2 ((around_mem h hb u u).2 (Or.inl hl))
    have hc := Finset.card_erase_add_one hm
    unfold wedgesOf
    simp only [List.contains_iff_mem.2 hl, if_true]
    rw [hlen, ← hc, hd, ← wedges_eq]
    congr 2 <;> omega
  · have hm : u ∉ (around g u).toFinset := by
      rw [List.mem_toFinset, around_mem h hb]
      exact fun h => hl (h.elim id id)
    have hf : (g.base.out u).contains u = false := by
      rw [Bool.eq_false_iff]; exact fun h => hl (List.contains_iff_mem.1 h)
    unfold wedgesOf
    simp only [hf, Bool.false_eq_true, if_false]
    rw [hlen, hd, Finset.erase_eq_of_notMem hm, ← wedges_eq]

theorem triangles_eq {g : G} (h : Inv g) (hb : Both g) (u : Nat) : pairCount (counts g u) (around g u) = trianglesAt g.base.n (Rel g) u := by
  classical
  rw [pairCount_eq _ _ (around_sorted h u), trianglesAt]
  congr 1
  ext p
  simp only [Finset.mem_filter, Finset.mem_product, List.mem_toFinset, around_mem h hb, Finset.mem_range, counts, Bool.and_eq_true, bne_iff_ne,
    decide_eq_true_eq]
  constructor
  · rintro ⟨⟨a1, a2⟩, a3, ⟨⟨a4, a5⟩, a6⟩, a7⟩
    exact ⟨⟨(near_lt h a1).2, (near_lt h a2).2⟩, a3, a5, a6, a1, a2, a4⟩
  · rintro ⟨_, a3, a5, a6, a1, a2, a4⟩
    exact ⟨⟨a1, a2⟩, a3, ⟨⟨a4, a5⟩, a6⟩, Nat.ne_of_lt a3⟩

theorem St.rfl {g : G} (h : Inv g) (hb : Both g) : St g g := ⟨h, hb, Eq.refl _, Eq.refl _, Eq.refl _, fun _ _ => Iff.rfl⟩

theorem St.trans {g s t : G} (h : St g s) (h' : St s t) : St g t :=
  ⟨h'.inv, h'.both, h'.n.trans h.n, h'.maxn.trans h.maxn, h'.undir.trans h.undir, fun v w => (h'.rel v w).trans (h.rel v w)⟩

theorem St.rel_eq {g s : G} (h : St g s) : Rel s = Rel g := by
  funext a b
  exact propext (h.rel a b)

theorem around_spec {g s : G} (h : St g s) {u : Nat} (hu : u < g.base.n) :
    ∃ s', trianglesWedges s u = some (s', trianglesAt g.base.n (Rel g) u, (((degree g.base.n (Rel g) u).choose 2 : Nat) : Int)) ∧ St g s' := by
  have hcap := h.inv.dense.cap
  have hu' : u < s.base.maxn := by rw [h.n] at hcap; omega
  obtain ⟨s', e, h'⟩ := pairs_spec (g := s) u (around s u) s 0 (fun b hb => by
    have := (near_lt h.inv ((around_mem h.inv h.both u b).1 hb)).2
    omega) (St.rfl h.inv h.both)
  refine ⟨s', ?_, h.trans h'⟩
  unfold trianglesWedges
  rw [if_pos hu', e, Option.map_some, Nat.zero_add, triangles_eq h.inv h.both, degree_eq h.inv h.both, h.rel_eq, h.n]

theorem totals_spec {g : G} (h : Inv g) (hb : Both g) (C : Nat → Bool) : ∀ k ≤ g.base.n, ∃ s,
    (List.range k).foldlM (fun (s : G × Nat × Int) i => if C i then (trianglesWedges s.1 i).map fun r => (r.1, s.2.1 + r.2.1, s.2.2 + r.2.2) else some s) (g, 0, 0) =
      some (s, ∑ u ∈ (Finset.range k).filter (fun u => C u = true), trianglesAt g.base.n (Rel g) u,
        (((((List.range k).filter fun u => C u).map fun u => (degree g.base.n (Rel g) u).choose 2).sum : Nat) : Int)) ∧ St g s
  | 0, _ => ⟨g, by simp, St.rfl h hb⟩
  | k + 1, hk => by
    obtain ⟨s, e, h1⟩ := totals_spec h hb C k (by omega)
    rw [List.range_succ, List.foldlM_append, e]
    by_cases hc : C k = true
    · obtain ⟨s', e', h2⟩ := around_spec h1 (u := k) (by omega)
      refine ⟨s', ?_, h2⟩
      simp only [Option.bind_eq_bind, Option.bind_some, List.foldlM_cons, List.foldlM_nil, if_pos hc, e', Option.map_some]
      rw [Finset.range_add_one, Finset.filter_insert, if_pos hc, Finset.sum_insert (by simp), List.filter_append, List.map_append, List.sum_append]
      simp [hc, add_comm]
    · refine ⟨s, ?_, h1⟩
      simp only [Option.bind_eq_bind, Option.bind_some, List.foldlM_cons, List.foldlM_nil, if_neg hc]
      rw [Finset.range_add_one, Finset.filter_insert, if_neg hc, List.filter_append, List.map_append, List.sum_append]
      simp [hc]

theorem Both.addEdge {g : G} (h : Both g) (u v : Nat) : Both (EdgeList.addEdge g u v) := by
  unfold EdgeList.addEdge
  split
  · exact h
  · rename_i hc
    intro i j
    simp only [VarGraph.addEdge, if_neg hc]
    have hi := h i j
    have hout : ∀ i j, j ∈ upd g.base.out u (g.base.out u ++ [v]) i ↔ j ∈ g.base.out i ∨ (i = u ∧ j = v) := by
      intro i j
      rw [upd_apply]
      split
      · rename_i e; subst e; simp
      · rename_i e; simp [e]
    have hinn : ∀ i j, j ∈ upd g.base.inn v (g.base.inn v ++ [u]) i ↔ j ∈ g.base.inn i ∨ (i = v ∧ j = u) := by
      intro i j
      rw [upd_apply]
      split
      · rename_i e; subst e; simp
      · rename_i e; simp [e]
    rw [hout, hinn, hout]
    tauto

theorem Both.apply {R : Nat → Nat → Prop} {g g' : G} (hi : HInv R g) (h : Both g) {o : Op} (e : EdgeList.apply g o = some g') : Both g' := by
  cases o with
  | add rtl a b =>
    obtain ⟨ns, i, j, e1, _⟩ := link_maps rtl g a b hi.nodup
    rw [EdgeList.apply, e1] at e
    rw [← Option.some.inj e]
    exact Both.addEdge (g := { g with base := { g.base with nodes := ns } }) h i j
  | undirect =>
    obtain ⟨g1, e1, h1, h2, _⟩ := undirect_spec hi.inv
    rw [EdgeList.apply, e1] at e
    rw [← Option.some.inj e]
    obtain ⟨_, h3, h4⟩ := h1.undir h2
    intro i j
    rw [h4 i]
    exact ⟨fun h => h.elim Or.inl (by simp), fun h => Or.inl (h.elim id (h3 j i))⟩
  | sort =>
    rw [EdgeList.apply] at e
    rw [← Option.some.inj e]
    exact sort_both h
  | query a b =>
    rw [EdgeList.apply] at e
    unfold edge at e
    split at e
    · obtain ⟨r, e2, e3⟩ := Option.map_eq_some_iff.1 e
      obtain ⟨x, _, e4⟩ := Option.map_eq_some_iff.1 e2
      rw [← e3, ← e4]
      exact sort_both h
    · cases e

theorem Both.run : ∀ (ops : List Op) {R : Nat → Nat → Prop} {g g' : G}, HInv R g → Both g → g.base.nodes.length + 2 * ops.length ≤ g.base.maxn →
    (∀ a b, Op.query a b ∈ ops → a < g.base.maxn) → ops.foldlM EdgeList.apply g = some g' → Both g'
  | [], R, g, g', _, hb, _, _, e => by
    rw [List.foldlM_nil] at e
    exact Option.some.inj e ▸ hb
  | op :: ops, R, g, g', h, hb, hr, ho, e => by
    simp only [List.length_cons] at hr
    obtain ⟨g1, h1, h2, h3, h4⟩ := h.apply op (by omega) fun a b e => ho a b (by simp [e])
    rw [List.foldlM_cons, h1] at e
    exact Both.run ops h2 (hb.apply h h1) (by omega) (fun a b hm => by rw [h3]; exact ho a b (by simp [hm])) e

theorem degree_le {g : G} (h : Inv g) (hb : Both g) (u : Nat) : degree g.base.n (Rel g) u ≤ (around g u).length := by
  classical
  have hsub : ((Finset.range g.base.n).filter fun a => a ≠ u ∧ Near (Rel g) u a) ⊆ (around g u).toFinset := by
    intro x hx
    rw [Finset.mem_filter] at hx
    exact List.mem_toFinset.2 ((around_mem h hb u x).2 hx.2.2)
  unfold degree
  exact (Finset.card_le_card hsub).trans (List.toFinset_card_le _)

theorem node_spec {g s : G} (h : St g s) (hu : g.undir = true) {u : Nat} (hn : u < g.base.n) :
    ∃ s', nodeClustering s u = some (s', localCoefficient g.base.n (Rel g) u) ∧ St g s' := by
  have hcap := h.inv.dense.cap
  have hu' : u < s.base.maxn := by rw [h.n] at hcap; omega
  unfold nodeClustering
  rw [if_pos hu']
  by_cases hl : 1 < (s.base.out u).length
  · obtain ⟨s', e, h'⟩ := around_spec h hn
    refine ⟨s', ?_, h'⟩
    rw [if_pos hl, e, Option.map_some]
    unfold localCoefficient
    by_cases hd : degree g.base.n (Rel g) u < 2
    · rw [if_pos hd, Nat.choose_eq_zero_of_lt hd]
      simp
    · have : 0 < (degree g.base.n (Rel g) u).choose 2 := Nat.choose_pos (by omega)
      rw [if_neg hd]
      simp [this]
  · refine ⟨s, ?_, h⟩
    rw [if_neg hl]
    have hd := degree_le h.inv h.both u
    rw [h.rel_eq, h.n, around, h.undir, if_pos hu] at hd
    rw [localCoefficient, if_pos (by omega)]

theorem average_spec {g : G} (h : Inv g) (hb : Both g) (hu : g.undir = true) : ∀ k ≤ g.base.n, ∃ s,
    (List.range k).foldlM (fun (s : G × Rat) i => (nodeClustering s.1 i).map fun r => (r.1, s.2 + r.2)) (g, 0) =
      some (s, ∑ u ∈ Finset.range k, localCoefficient g.base.n (Rel g) u) ∧ St g s
  | 0, _ => ⟨g, by simp, St.rfl h hb⟩
  | k + 1, hk => by
    obtain ⟨s, e, h1⟩ := average_spec h hb hu k (by omega)
    obtain ⟨s', e', h2⟩ := node_spec h1 hu (u := k) (by omega)
    refine ⟨s', ?_, h2⟩
    rw [List.range_succ, List.foldlM_append, e, Finset.sum_range_succ]
    simp only [Option.bind_eq_bind, Option.bind_some, List.foldlM_cons, List.foldlM_nil, e', Option.map_some]
    rfl

end Candy.Triangles
