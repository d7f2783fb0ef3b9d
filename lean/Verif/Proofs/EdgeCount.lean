import Verif.Proofs.EdgeList
import Verif.Proofs.SccGraph
import Verif.Proofs.Centrality
import Verif.SpecEdges
import Mathlib.Algebra.BigOperators.Ring.Finset
import Mathlib.Algebra.BigOperators.Group.Finset.Sigma

/-!
# Numbers of edges, and graphs with sorted lists of edges
-/

namespace Candy.EdgeList

theorem sort_same {g : G} (h : g.sorted = true) : sortEdgeList g = g := by unfold sortEdgeList; rw [if_pos h]

theorem reci_edges {g : G} (h : Inv g) (hs : g.sorted = true) {i : Nat} : ∀ (B A : List Nat) (r : Nat), g.base.out i = A ++ B →
    (List.range' A.length B.length).foldlM (reciEdge i) (g, r) = some (g, r + B.countP fun w => decide (i ∈ g.base.out w))
  | [], A, r, _ => rfl
  | b :: B, A, r, hE => by
    have hj : (g.base.out i)[A.length]? = some b := by rw [hE]; simp
    have hb : b < g.base.maxn := by
      have := h.dense.edges i b (by rw [hE]; simp)
      have := h.dense.cap
      omega
    have e : reciEdge i (g, r) A.length = some (g, if decide (i ∈ g.base.out b) = true then r + 1 else r) := by
      unfold reciEdge
      simp only [hj, edge_spec h hb, sort_same hs, Option.map_some]
    rw [List.length_cons, List.range'_succ, List.foldlM_cons, e]
    have := reci_edges h hs B (A ++ [b]) (if decide (i ∈ g.base.out b) = true then r + 1 else r) (by rw [hE]; simp)
    rw [List.length_append, List.length_singleton] at this
    simp only [Option.bind_eq_bind, Option.bind_some]
    rw [this, List.countP_cons]
    congr 2
    split <;> omega

theorem reci_nodes {g : G} (h : Inv g) (hs : g.sorted = true) (C : Nat → Bool) : ∀ k,
    (List.range k).foldlM (reciNode C) (g, 0, 0) = some (g, ∑ i ∈ Finset.range k, (if C i = true then (g.base.out i).length else 0),
      ∑ i ∈ Finset.range k, if C i = true then (g.base.out i).countP (fun w => decide (i ∈ g.base.out w)) else 0)
  | 0 => rfl
  | k + 1 => by
    rw [List.range_succ, List.foldlM_append, reci_nodes h hs C k, Finset.sum_range_succ, Finset.sum_range_succ]
    have := reci_edges h hs (i := k) (g.base.out k) [] (∑ i ∈ Finset.range k, if C i = true then (g.base.out i).countP (fun w => decide (i ∈ g.base.out w)) else 0) rfl
    rw [List.length_nil, ← List.range_eq_range'] at this
    by_cases hc : C k = true
    · simp [reciNode, hc, this]
    · simp [reciNode, hc]

theorem countP_card {l : List Nat} (hl : l.Nodup) {n : Nat} (hn : ∀ w ∈ l, w < n) (p : Nat → Bool) (P : Nat → Prop) [DecidablePred P]
    (hp : ∀ w, P w ↔ w ∈ l ∧ p w = true) : l.countP p = ((Finset.range n).filter P).card := by
  rw [List.countP_eq_length_filter, ← List.toFinset_card_of_nodup (hl.filter _)]
  congr 1
  ext w
  simp only [List.mem_toFinset, List.mem_filter, Finset.mem_filter, Finset.mem_range, hp]
  exact ⟨fun h => ⟨hn w h.1, h⟩, fun h => h.2⟩

theorem nodup_of_lt {l : List Nat} (h : l.Pairwise (· < ·)) : l.Nodup := h.imp fun hab => Nat.ne_of_lt hab

theorem edgesFrom_eq {g : G} (h : Inv g) (hs : g.sorted = true) (C : Nat → Bool) :
    edgesFrom g.base.n (fun a b => b ∈ g.base.out a) C = ∑ i ∈ Finset.range g.base.n, if C i = true then (g.base.out i).length else 0 := by
  classical
  unfold edgesFrom
  rw [Finset.card_filter, Finset.sum_product]
  refine Finset.sum_congr rfl fun i _ => ?_
  simp only
  by_cases hc : C i = true
  · simp only [hc, true_and, if_true]
    rw [← Finset.card_filter, ← countP_card (nodup_of_lt (h.sorted hs i)) (fun w hw => (h.dense.edges i w hw).2) (fun _ => true) _ (by simp)]
    simp
  · simp [hc]

theorem mutualFrom_eq {g : G} (h : Inv g) (hs : g.sorted = true) (C : Nat → Bool) :
    mutualFrom g.base.n (fun a b => b ∈ g.base.out a) C =
      ∑ i ∈ Finset.range g.base.n, if C i = true then (g.base.out i).countP (fun w => decide (i ∈ g.base.out w)) else 0 := by
  classical
  unfold mutualFrom
  rw [Finset.card_filter, Finset.sum_product]
  refine Finset.sum_congr rfl fun i _ => ?_
  simp only
  by_cases hc : C i = true
  · simp only [hc, true_and, if_true]
    rw [← Finset.card_filter, ← countP_card (nodup_of_lt (h.sorted hs i)) (fun w hw => (h.dense.edges i w hw).2)
      (fun w => decide (i ∈ g.base.out w)) _ (by simp)]
  · simp [hc]

theorem sum_list (F : Nat → Nat) : ∀ m, ((List.range m).map F).sum = ∑ i ∈ Finset.range m, F i
  | 0 => rfl
  | m + 1 => by rw [List.range_succ, List.map_append, List.sum_append, sum_list F m, Finset.sum_range_succ]; simp

theorem count_eq {g : G} (h : Inv g) (hs : g.sorted = true) : g.base.m = edgesFrom g.base.n (fun a b => b ∈ g.base.out a) fun _ => true := by
  rw [edgesFrom_eq h hs, h.count hs, sum_list]
  simp

/-- Graphs that are built from named edges. -/
theorem build_dense (rtl : Bool) {maxn : Nat} {es : List (Nat × Nat)} (hr : 2 * es.length ≤ maxn) : Dense (Scc.build rtl maxn es) := by
  have h := Scc.build_spec rtl hr
  refine ⟨?_, fun a b hb => h.some_lt hb, fun a ha => ?_⟩
  · rw [h.n, h.maxn]; have := h.len; omega
  · rw [List.eq_nil_iff_forall_not_mem]
    intro w hw
    have := h.some_lt ((h.inn w a).1 hw)
    omega

/-- The graph of variables before edges are made undirected. -/
theorem clauses_dense (rtl : Bool) {nv : Nat} {cs : List Clause} (hc : ∀ c ∈ cs, c ≠ [] ∧ (c.map Lit.var).Nodup ∧ ∀ l ∈ c, l.var < nv) :
    ∃ g, (VarGraph.empty (max 1 nv)).addClauses rtl cs = some g ∧ Dense g := by
  obtain ⟨g, h1, h2⟩ := VarGraph.GInv.addClauses rtl cs (VarGraph.GInv.empty nv) hc
  have hlt : ∀ a b, b ∈ g.out a → a < g.n ∧ b < g.n := by
    intro a b hb
    obtain ⟨x, y, hx, hy, _⟩ := (h2.out a b).1 hb
    obtain ⟨k1, _⟩ := List.getElem?_eq_some_iff.1 hx
    obtain ⟨k2, _⟩ := List.getElem?_eq_some_iff.1 hy
    rw [h2.n]; exact ⟨k1, k2⟩
  refine ⟨g, h1, ?_, hlt, fun a ha => ?_⟩
  · have := VarGraph.length_le_of_bound h2.nodup h2.bound
    rw [h2.n, h2.maxn]; omega
  · rw [List.eq_nil_iff_forall_not_mem]
    intro w hw
    have := hlt w a ((h2.inn a w).1 hw)
    omega

/-! ### Sequences of calls -/

/-- What holds between calls; `R` are the edges between names. -/
structure HInv (R : Nat → Nat → Prop) (g : G) : Prop where
  inv : Inv g
  n : g.base.n = g.base.nodes.length
  nodup : g.base.nodes.Nodup
  used : ∀ v < g.base.n, g.base.isolated v = false
  rel : ∀ i j, j ∈ g.base.out i ↔ ∃ x y, g.base.nodes[i]? = some x ∧ g.base.nodes[j]? = some y ∧ R x y
  mem : ∀ x y, R x y → x ∈ g.base.nodes ∧ y ∈ g.base.nodes
  inn : ∀ v w, w ∈ g.base.inn v → v ∈ g.base.out w

theorem link_maps (rtl : Bool) (g : G) (a b : Nat) (hn : g.base.nodes.Nodup) :
    ∃ ns i j, link rtl g a b = addEdge { g with base := { g.base with nodes := ns } } i j ∧ (∃ e, ns = g.base.nodes ++ e) ∧ ns.Nodup ∧
      ns[i]? = some a ∧ ns[j]? = some b ∧
      ns.length = g.base.nodes.length + (if g.base.nodes.length ≤ j then 1 else 0) + (if j ≠ i ∧ g.base.nodes.length ≤ i then 1 else 0) := by
  by_cases hab : a = b
  · subst hab
    obtain ⟨ns, e1, e2, e3⟩ := VarGraph.mapNode_spec g.base a
    have hm : a ∈ ns := List.mem_of_getElem? e2
    obtain ⟨ns', f1, f2, f3⟩ := VarGraph.mapNode_spec (g.base.mapNode a).1 a
    have hns : (g.base.mapNode a).1.nodes = ns := by rw [e1]
    have f3' : ns' = ns := by
      rcases f3 with f3 | f3
      · rw [f3.1, hns]
      · exact absurd (hns ▸ hm) f3.1
    subst f3'
    have hnd : ns'.Nodup := by
      rcases e3 with ⟨rfl, _⟩ | ⟨h1, rfl, _⟩
      · exact hn
      · rw [List.nodup_append]
        exact ⟨hn, by simp, by rintro x hx y hy rfl; simp only [List.mem_singleton] at hy; exact h1 (hy ▸ hx)⟩
    have hij : ((g.base.mapNode a).1.mapNode a).2 = (g.base.mapNode a).2 := by
      obtain ⟨l1, g1⟩ := List.getElem?_eq_some_iff.1 f2
      obtain ⟨l2, g2⟩ := List.getElem?_eq_some_iff.1 e2
      exact (List.Nodup.getElem_inj_iff hnd).1 (g1.trans g2.symm)
    refine ⟨ns', (g.base.mapNode a).2, (g.base.mapNode a).2, ?_, ?_, hnd, e2, e2, ?_⟩
    · have : ((g.base.mapNode a).1.mapNode a).1 = { g.base with nodes := ns' } := by rw [f1, e1]
      unfold link
      cases rtl <;> simp only [this, hij, if_true, Bool.false_eq_true, if_false]
    · rcases e3 with ⟨rfl, _⟩ | ⟨_, rfl, _⟩
      · exact ⟨[], by simp⟩
      · exact ⟨_, rfl⟩
    · rcases e3 with ⟨rfl, hm'⟩ | ⟨_, rfl, h⟩
      · have := (List.getElem?_eq_some_iff.1 e2).1
        have h' : ¬ g.base.nodes.length ≤ (g.base.mapNode a).2 := by omega
        simp [h']
      · simp [h]
  · cases rtl with
    | false =>
      obtain ⟨ns, e, hl⟩ := VarGraph.two_maps g.base hab hn
      have hji : ((g.base.mapNode a).1.mapNode b).2 ≠ (g.base.mapNode a).2 := by
        intro h
        have := hl.snd
        rw [h] at this
        exact hab (Option.some.inj (hl.fst.symm.trans this))
      refine ⟨ns, _, _, ?_, hl.ext, hl.nodup, hl.fst, hl.snd, ?_⟩
      · unfold link; simp only [Bool.false_eq_true, if_false, e]
      · rw [hl.len]; simp only [hji, ne_eq, not_false_eq_true, true_and]
    | true =>
      obtain ⟨ns, e, hl⟩ := VarGraph.two_maps g.base (Ne.symm hab) hn
      have hji : (g.base.mapNode b).2 ≠ ((g.base.mapNode b).1.mapNode a).2 := by
        intro h
        have := hl.fst
        rw [h] at this
        exact hab (Option.some.inj (hl.snd.symm.trans this))
      refine ⟨ns, _, _, ?_, hl.ext, hl.nodup, hl.snd, hl.fst, ?_⟩
      · unfold link; simp only [if_true, e]
      · rw [hl.len]; simp only [hji, ne_eq, not_false_eq_true, true_and]; omega

theorem HInv.isolated {R : Nat → Nat → Prop} {g : G} (h : HInv R g) (k : Nat) : g.base.isolated k = true ↔ g.base.nodes.length ≤ k := by
  rw [← h.n]
  constructor
  · intro hk
    apply Decidable.byContradiction
    intro hlt
    rw [h.used k (by omega)] at hk
    cases hk
  · intro hk
    unfold VarGraph.isolated
    rw [h.inv.dense.redges k hk]
    have : g.base.out k = [] := by
      rw [List.eq_nil_iff_forall_not_mem]
      intro w hw
      have := h.inv.dense.edges k w hw; omega
    rw [this]; rfl

theorem HInv.add {R : Nat → Nat → Prop} {g : G} (h : HInv R g) (rtl : Bool) (a b : Nat) (hroom : g.base.nodes.length + 2 ≤ g.base.maxn) :
    HInv (edgesAfter R (.add rtl a b)) (link rtl g a b) ∧ (link rtl g a b).base.maxn = g.base.maxn ∧
      (link rtl g a b).base.nodes.length ≤ g.base.nodes.length + 2 ∧ ∃ e, (link rtl g a b).base.nodes = g.base.nodes ++ e := by
  obtain ⟨ns, i, j, e, ⟨ex, hex⟩, hnd, hi, hj, hlen⟩ := link_maps rtl g a b h.nodup
  have hil := (List.getElem?_eq_some_iff.1 hi).1
  have hjl := (List.getElem?_eq_some_iff.1 hj).1
  have hl2 : ns.length ≤ g.base.nodes.length + 2 := by rw [hlen]; split <;> split <;> omega
  have hc : ¬ (g.base.maxn ≤ i ∨ g.base.maxn ≤ j) := by omega
  have hinj : ∀ {k l v : Nat}, ns[k]? = some v → ns[l]? = some v → k = l := by
    intro k l v hk hl
    obtain ⟨l1, g1⟩ := List.getElem?_eq_some_iff.1 hk
    obtain ⟨l2, g2⟩ := List.getElem?_eq_some_iff.1 hl
    exact (List.Nodup.getElem_inj_iff hnd).1 (g1.trans g2.symm)
  have hold : ∀ {k v : Nat}, g.base.nodes[k]? = some v → ns[k]? = some v := by
    intro k v hk
    rw [hex, List.getElem?_append_left (List.getElem?_eq_some_iff.1 hk).1]; exact hk
  have hold' : ∀ {k v : Nat}, ns[k]? = some v → v ∈ g.base.nodes → g.base.nodes[k]? = some v := by
    intro k v hk hv
    obtain ⟨l, hl⟩ := List.getElem?_of_mem hv
    rw [hinj hk (hold hl)]; exact hl
  have iso : ∀ n k, VarGraph.isolated ⟨g.base.maxn, ns, g.base.out, g.base.inn, n, g.base.m⟩ k = g.base.isolated k := fun _ _ => rfl
  have e' : link rtl g a b = ⟨{ g.base with
      nodes := ns
      n := ns.length
      m := g.base.m + 1
      out := upd g.base.out i (g.base.out i ++ [j])
      inn := upd g.base.inn j (g.base.inn j ++ [i]) }, false, false⟩ := by
    rw [e]
    unfold addEdge
    simp only
    rw [if_neg hc]
    unfold VarGraph.addEdge
    simp only
    rw [if_neg hc]
    simp only [iso, h.isolated, h.n, ← hlen]
  rw [e']
  have hrel : ∀ k l, l ∈ upd g.base.out i (g.base.out i ++ [j]) k ↔ ∃ x y, ns[k]? = some x ∧ ns[l]? = some y ∧ edgesAfter R (.add rtl a b) x y := by
    intro k l
    rw [upd_apply]
    constructor
    · intro hk
      by_cases h1 : k = i
      · subst h1
        simp only [if_true, List.mem_append, List.mem_singleton] at hk
        rcases hk with hk | rfl
        · obtain ⟨x, y, hx, hy, hxy⟩ := (h.rel k l).1 hk
          exact ⟨x, y, hold hx, hold hy, Or.inl hxy⟩
        · exact ⟨a, b, hi, hj, Or.inr ⟨rfl, rfl⟩⟩
      · rw [if_neg h1] at hk
        obtain ⟨x, y, hx, hy, hxy⟩ := (h.rel k l).1 hk
        exact ⟨x, y, hold hx, hold hy, Or.inl hxy⟩
    · rintro ⟨x, y, hx, hy, hxy | ⟨rfl, rfl⟩⟩
      · obtain ⟨m1, m2⟩ := h.mem x y hxy
        have : l ∈ g.base.out k := (h.rel k l).2 ⟨x, y, hold' hx m1, hold' hy m2, hxy⟩
        split
        · next h1 => subst h1; simp [this]
        · exact this
      · rw [if_pos (hinj hx hi), hinj hy hj]; simp
  have hlt : ∀ {k x : Nat}, ns[k]? = some x → k < ns.length := fun hk => (List.getElem?_eq_some_iff.1 hk).1
  refine ⟨⟨⟨⟨?_, ?_, ?_⟩, fun h => (by cases h), fun h => (by cases h), fun h => (by cases h)⟩, rfl, hnd, ?_, hrel, ?_, ?_⟩, rfl, hl2, ⟨ex, hex⟩⟩
  · simp only; omega
  · intro k l hl
    obtain ⟨x, y, hx, hy, _⟩ := (hrel k l).1 hl
    exact ⟨hlt hx, hlt hy⟩
  · intro k hk
    have hk : ns.length ≤ k := hk
    simp only
    rw [upd_ne _ _ (by omega)]
    refine h.inv.dense.redges k ?_
    rw [h.n]
    have : g.base.nodes.length ≤ ns.length := by rw [hex]; simp
    omega
  · intro v hv
    have hv : v < ns.length := hv
    unfold VarGraph.isolated
    simp only
    by_cases h1 : v = i
    · subst h1; rw [upd_same]; simp
    · by_cases h2 : v = j
      · subst h2; rw [upd_same]; simp
      · rw [upd_ne _ _ h1, upd_ne _ _ h2]
        refine h.used v ?_
        rw [h.n]
        apply Decidable.byContradiction
        intro hge
        by_cases c1 : g.base.nodes.length ≤ j <;> by_cases c2 : j ≠ i ∧ g.base.nodes.length ≤ i
        · rw [if_pos c1, if_pos c2] at hlen; omega
        · rw [if_pos c1, if_neg c2] at hlen; omega
        · rw [if_neg c1, if_pos c2] at hlen; omega
        · rw [if_neg c1, if_neg c2] at hlen; omega
  · rintro x y (hxy | ⟨rfl, rfl⟩)
    · obtain ⟨m1, m2⟩ := h.mem x y hxy
      rw [hex]; simp [m1, m2]
    · exact ⟨List.mem_of_getElem? hi, List.mem_of_getElem? hj⟩
  · intro v w hw
    simp only at hw ⊢
    have hup : ∀ {k l}, l ∈ g.base.out k → l ∈ upd g.base.out i (g.base.out i ++ [j]) k := by
      intro k l hl
      rw [upd_apply]; split
      · next h1 => subst h1; simp [hl]
      · exact hl
    rw [upd_apply] at hw
    split at hw
    · next h1 =>
      subst h1
      simp only [List.mem_append, List.mem_singleton] at hw
      rcases hw with hw | rfl
      · exact hup (h.inn v w hw)
      · rw [upd_same]; simp
    · exact hup (h.inn v w hw)

theorem HInv.new (maxn : Nat) : HInv (fun _ _ => False) ⟨VarGraph.empty maxn, false, false⟩ := by
  refine ⟨inv_new ⟨Nat.zero_le _, ?_, fun _ _ => rfl⟩, rfl, by simp [VarGraph.empty], ?_, ?_, ?_, ?_⟩ <;> simp [VarGraph.empty]

theorem HInv.sort {R : Nat → Nat → Prop} {g : G} (h : HInv R g) : HInv R (sortEdgeList g) ∧ (sortEdgeList g).base.nodes = g.base.nodes := by
  obtain ⟨h1, h2, _, h3, h4, h5⟩ := sort_spec h.inv
  have hnodes : (sortEdgeList g).base.nodes = g.base.nodes := by
    unfold sortEdgeList; split
    · rfl
    · simp only [sortLoop_eq]
  have hinn : ∀ v w, w ∈ (sortEdgeList g).base.inn v ↔ w ∈ g.base.inn v := by
    intro v w
    unfold sortEdgeList; split
    · rfl
    · simp only [sortLoop_eq]
      split
      · exact mem_sortUnique w _
      · rfl
  refine ⟨⟨h1, by rw [h3, hnodes, h.n], by rw [hnodes]; exact h.nodup, fun v hv => ?_, fun i j => by rw [h5, hnodes]; exact h.rel i j,
    fun x y hxy => by rw [hnodes]; exact h.mem x y hxy, fun v w hw => ?_⟩, hnodes⟩
  · have hu := h.used v (by omega)
    unfold VarGraph.isolated at hu ⊢
    have e : ∀ {l l' : List Nat}, (∀ x, x ∈ l ↔ x ∈ l') → l.isEmpty = l'.isEmpty := by
      intro l l' hl
      rw [Bool.eq_iff_iff, List.isEmpty_iff, List.isEmpty_iff, List.eq_nil_iff_forall_not_mem, List.eq_nil_iff_forall_not_mem]
      simp only [hl]
    rw [e (hinn v), e (h5 v)]; exact hu
  · rw [h5]; exact h.inn v w ((hinn v w).1 hw)

theorem HInv.undirect {R : Nat → Nat → Prop} {g : G} (h : HInv R g) : ∃ g', makeUndirected g = some g' ∧ HInv (edgesAfter R .undirect) g' ∧
    g'.base.nodes = g.base.nodes ∧ g'.base.maxn = g.base.maxn ∧ g'.undir = true := by
  obtain ⟨g', h1, h2, h3, h4, h5, h6⟩ := undirect_spec h.inv
  have hnodes : g'.base.nodes = g.base.nodes := by
    by_cases hu : g.undir = true
    · unfold makeUndirected at h1
      rw [if_pos hu] at h1
      cases h1; rfl
    · obtain ⟨b, s, u⟩ := g
      have hu : u = false := by simpa using hu
      subst hu
      have := makeUndirected_eq h.inv.dense s
      rw [h1] at this
      have := Option.some.inj this
      rw [this]; rfl
  refine ⟨g', h1, ⟨h2, by rw [h4, hnodes, h.n], by rw [hnodes]; exact h.nodup, fun v hv => ?_, fun i j => ?_, ?_, ?_⟩, hnodes, h5, h3⟩
  · have hu := h.used v (by omega)
    have hne : ∃ w, w ∈ g'.base.out v := by
      unfold VarGraph.isolated at hu
      rw [Bool.and_eq_false_iff] at hu
      rcases hu with hu | hu
      · obtain ⟨w, hw⟩ := List.exists_mem_of_ne_nil (g.base.inn v) (by intro e; rw [e] at hu; cases hu)
        exact ⟨w, (h6 v w).2 (Or.inr (h.inn v w hw))⟩
      · obtain ⟨w, hw⟩ := List.exists_mem_of_ne_nil (g.base.out v) (by intro e; rw [e] at hu; cases hu)
        exact ⟨w, (h6 v w).2 (Or.inl hw)⟩
    obtain ⟨w, hw⟩ := hne
    unfold VarGraph.isolated
    have : (g'.base.out v).isEmpty = false := by
      rw [Bool.eq_false_iff]
      intro he
      rw [List.isEmpty_iff] at he
      rw [he] at hw; cases hw
    rw [this, Bool.and_false]
  · rw [h6, hnodes, h.rel, h.rel]
    constructor
    · rintro (⟨x, y, hx, hy, hr⟩ | ⟨x, y, hx, hy, hr⟩)
      · exact ⟨x, y, hx, hy, Or.inl hr⟩
      · exact ⟨y, x, hy, hx, Or.inr hr⟩
    · rintro ⟨x, y, hx, hy, hr | hr⟩
      · exact Or.inl ⟨x, y, hx, hy, hr⟩
      · exact Or.inr ⟨y, x, hy, hx, hr⟩
  · rw [hnodes]
    rintro x y (hr | hr)
    · exact h.mem x y hr
    · exact (h.mem y x hr).symm
  · intro v w hw
    rw [(h2.undir h3).2.2 v] at hw
    cases hw

/-- All calls keep the invariant. -/
theorem HInv.apply {R : Nat → Nat → Prop} {g : G} (h : HInv R g) (op : Op) (hroom : g.base.nodes.length + 2 ≤ g.base.maxn)
    (ho : ∀ a b, op = .query a b → a < g.base.maxn) : ∃ g', apply g op = some g' ∧ HInv (edgesAfter R op) g' ∧
    g'.base.maxn = g.base.maxn ∧ g'.base.nodes.length ≤ g.base.nodes.length + 2 := by
  cases op with
  | add rtl a b =>
    obtain ⟨h1, h2, h3, _⟩ := h.add rtl a b hroom
    exact ⟨_, rfl, h1, h2, h3⟩
  | undirect =>
    obtain ⟨g', h1, h2, h3, h4, _⟩ := h.undirect
    exact ⟨g', h1, h2, h4, by rw [h3]; omega⟩
  | sort =>
    obtain ⟨h1, h2⟩ := h.sort
    exact ⟨_, rfl, h1, (sort_spec h.inv).2.2.2.2.1, by rw [h2]; omega⟩
  | query a b =>
    obtain ⟨h1, h2⟩ := h.sort
    exact ⟨_, by simp only [EdgeList.apply, edge_spec h.inv (ho a b rfl), Option.map_some], h1, (sort_spec h.inv).2.2.2.2.1, by rw [h2]; omega⟩

theorem HInv.run : ∀ (ops : List Op) {R : Nat → Nat → Prop} {g : G}, HInv R g → g.base.nodes.length + 2 * ops.length ≤ g.base.maxn →
    (∀ a b, Op.query a b ∈ ops → a < g.base.maxn) → ∃ g', ops.foldlM EdgeList.apply g = some g' ∧ HInv (ops.foldl edgesAfter R) g' ∧ g'.base.maxn = g.base.maxn
  | [], R, g, h, _, _ => ⟨g, rfl, h, rfl⟩
  | op :: ops, R, g, h, hr, ho => by
    simp only [List.length_cons] at hr
    obtain ⟨g1, h1, h2, h3, h4⟩ := h.apply op (by omega) fun a b e => ho a b (by simp [e])
    obtain ⟨g2, e1, e2, e3⟩ := HInv.run ops h2 (by omega) fun a b hm => by rw [h3]; exact ho a b (by simp [hm])
    exact ⟨g2, by rw [List.foldlM_cons, h1]; exact e1, e2, e3.trans h3⟩

end Candy.EdgeList
