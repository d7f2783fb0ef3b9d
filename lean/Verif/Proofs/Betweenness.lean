import Verif.Proofs.Brandes
import Verif.Props.Centrality

/-!
# Betweenness of nodes and of variables
-/

namespace Candy.Betweenness

open Finset Brandes

theorem chain_map {A B : Nat → Nat → Prop} {φ : Nat → Nat} {ok : Nat → Prop} (h : ∀ i j, ok i → ok j → (A i j ↔ B (φ i) (φ j))) :
    ∀ (p : List Nat), (∀ i ∈ p, ok i) → (Chain A p ↔ Chain B (p.map φ))
  | [], _ => by simp [Chain]
  | [a], _ => by simp [Chain]
  | a :: b :: p, hp => by
    have ih := chain_map h (b :: p) (fun i hi => hp i (List.mem_cons_of_mem _ hi))
    simp only [List.map_cons, Chain] at ih ⊢
    rw [ih, h a b (hp a (by simp)) (hp b (by simp))]

/-- Nodes of a path that begins at an admissible node are admissible. -/
theorem chain_ok {A : Nat → Nat → Prop} {ok : Nat → Prop} (h : ∀ i j, A i j → ok j) : ∀ (p : List Nat) (s : Nat), p.head? = some s → ok s →
    Chain A p → ∀ i ∈ p, ok i
  | [], _, e, _, _ => by simp at e
  | [a], s, e, hs, _ => by
    simp at e
    subst e
    simpa using hs
  | a :: b :: p, s, e, hs, hc => by
    simp at e
    subst e
    intro i hi
    rcases List.mem_cons.1 hi with rfl | hi
    · exact hs
    · exact chain_ok h (b :: p) b rfl (h _ _ hc.1) hc.2 i hi

/-- A numbering of the nodes. -/
structure Numbering (ns : List Nat) (A B : Nat → Nat → Prop) : Prop where
  nodup : ns.Nodup
  adj : ∀ i j, A i j ↔ ∃ a b, ns[i]? = some a ∧ ns[j]? = some b ∧ B a b
  mem : ∀ a b, B a b → a ∈ ns ∧ b ∈ ns

namespace Numbering

variable {ns : List Nat} {A B : Nat → Nat → Prop}

/-- The node with a number. -/
def node (ns : List Nat) (i : Nat) : Nat := ns.getD i 0

theorem node_some {i : Nat} (h : i < ns.length) : ns[i]? = some (node ns i) := by
  unfold node
  simp [List.getD_eq_getElem?_getD, h]

theorem node_inj (h : Numbering ns A B) {i j : Nat} (hi : i < ns.length) (hj : j < ns.length) (e : node ns i = node ns j) : i = j := by
  have h1 := node_some hi
  have h2 := node_some hj
  rw [e] at h1
  exact VarGraph.getElem?_inj h.nodup h1 h2

theorem node_mem {i : Nat} (h : i < ns.length) : node ns i ∈ ns := List.mem_of_getElem? (node_some h)

theorem exists_node {a : Nat} (h : a ∈ ns) : ∃ i, i < ns.length ∧ node ns i = a := by
  obtain ⟨i, hi, e⟩ := List.mem_iff_getElem.1 h
  refine ⟨i, hi, ?_⟩
  have := node_some hi
  rw [List.getElem?_eq_getElem hi, e] at this
  exact (Option.some.inj this).symm

theorem adj_iff (h : Numbering ns A B) (i j : Nat) (hi : i < ns.length) (hj : j < ns.length) : A i j ↔ B (node ns i) (node ns j) := by
  rw [h.adj, node_some hi, node_some hj]
  constructor
  · rintro ⟨a, b, e1, e2, hB⟩
    cases e1; cases e2
    exact hB
  · exact fun hB => ⟨_, _, rfl, rfl, hB⟩

theorem adj_lt (h : Numbering ns A B) (i j : Nat) (hA : A i j) : j < ns.length := by
  obtain ⟨a, b, _, e, _⟩ := (h.adj i j).1 hA
  exact (List.getElem?_eq_some_iff.1 e).1

/-- Paths of numbers are paths of nodes. -/
theorem path_iff (h : Numbering ns A B) {s t : Nat} (hs : s < ns.length) (ht : t < ns.length) (q : List Nat) :
    Path B (node ns s) (node ns t) q ↔ ∃ p, Path A s t p ∧ (∀ i ∈ p, i < ns.length) ∧ p.map (node ns) = q := by
  constructor
  · rintro ⟨h1, h2, h3⟩
    have hok := chain_ok (ok := fun a => a ∈ ns) (fun a b hB => (h.mem a b hB).2) q _ h2 (node_mem hs) h1
    obtain ⟨p, hp, hpl⟩ : ∃ p : List Nat, p.map (node ns) = q ∧ ∀ i ∈ p, i < ns.length := by
      clear h1 h2 h3
      induction q with
      | nil => exact ⟨[], rfl, by simp⟩
      | cons a q ih =>
        rw [List.forall_mem_cons] at hok
        obtain ⟨p, e, hp⟩ := ih hok.2
        obtain ⟨i, hi, ei⟩ := exists_node hok.1
        exact ⟨i :: p, by simp [ei, e], by simpa [hi] using hp⟩
    subst hp
    refine ⟨p, ⟨(chain_map (ok := fun i => i < ns.length) (h.adj_iff) p hpl).2 h1, ?_, ?_⟩, hpl, rfl⟩
    · rw [List.head?_map] at h2
      obtain ⟨x, hx, e⟩ := Option.map_eq_some_iff.1 h2
      rw [hx, h.node_inj (hpl x (List.mem_of_mem_head? hx)) hs e]
    · rw [List.getLast?_map] at h3
      obtain ⟨x, hx, e⟩ := Option.map_eq_some_iff.1 h3
      rw [hx, h.node_inj (hpl x (List.mem_of_getLast? hx)) ht e]
  · rintro ⟨p, ⟨h1, h2, h3⟩, hpl, rfl⟩
    exact ⟨(chain_map (ok := fun i => i < ns.length) (h.adj_iff) p hpl).1 h1, by rw [List.head?_map, h2]; rfl, by rw [List.getLast?_map, h3]; rfl⟩

theorem path_lt (h : Numbering ns A B) {s t : Nat} (hs : s < ns.length) {p : List Nat} (hp : Path A s t p) : ∀ i ∈ p, i < ns.length :=
  chain_ok (ok := fun i => i < ns.length) h.adj_lt p s hp.2.1 hs hp.1

theorem shortest_iff (h : Numbering ns A B) {s t : Nat} (hs : s < ns.length) (ht : t < ns.length) (q : List Nat) :
    Shortest B (node ns s) (node ns t) q ↔ ∃ p, Shortest A s t p ∧ p.map (node ns) = q := by
  constructor
  · rintro ⟨h1, h2⟩
    obtain ⟨p, hp, _, rfl⟩ := (h.path_iff hs ht q).1 h1
    refine ⟨p, ⟨hp, fun r hr => ?_⟩, rfl⟩
    have := h2 (r.map (node ns)) ((h.path_iff hs ht _).2 ⟨r, hr, h.path_lt hs hr, rfl⟩)
    simpa using this
  · rintro ⟨p, ⟨h1, h2⟩, rfl⟩
    refine ⟨(h.path_iff hs ht _).2 ⟨p, h1, h.path_lt hs h1, rfl⟩, fun r hr => ?_⟩
    obtain ⟨r', hr', _, rfl⟩ := (h.path_iff hs ht r).1 hr
    simpa using h2 r' hr'

theorem map_inj (h : Numbering ns A B) : ∀ {p q : List Nat}, (∀ i ∈ p, i < ns.length) → (∀ i ∈ q, i < ns.length) →
    p.map (node ns) = q.map (node ns) → p = q
  | [], [], _, _, _ => rfl
  | [], b :: q, _, _, e => by simp at e
  | a :: p, [], _, _, e => by simp at e
  | a :: p, b :: q, hp, hq, e => by
    rw [List.forall_mem_cons] at hp hq
    simp only [List.map_cons, List.cons.injEq] at e
    rw [h.node_inj hp.1 hq.1 e.1, map_inj h hp.2 hq.2 e.2]

theorem paths_eq (h : Numbering ns A B) {s t : Nat} (hs : s < ns.length) (ht : t < ns.length) :
    paths B (node ns s) (node ns t) = paths A s t := by
  unfold paths
  have : {q | Shortest B (node ns s) (node ns t) q} = (List.map (node ns)) '' {p | Shortest A s t p} := by
    ext q
    exact h.shortest_iff hs ht q
  rw [this, Set.InjOn.ncard_image]
  intro p hp q hq e
  exact h.map_inj (h.path_lt hs hp.1) (h.path_lt hs hq.1) e

theorem pathsThrough_eq (h : Numbering ns A B) {s t v : Nat} (hs : s < ns.length) (ht : t < ns.length) (hv : v < ns.length) :
    pathsThrough B (node ns s) (node ns t) (node ns v) = pathsThrough A s t v := by
  unfold pathsThrough
  have : {q | Shortest B (node ns s) (node ns t) q ∧ node ns v ∈ q} = (List.map (node ns)) '' {p | Shortest A s t p ∧ v ∈ p} := by
    ext q
    constructor
    · rintro ⟨hq, hm⟩
      obtain ⟨p, hp, rfl⟩ := (h.shortest_iff hs ht q).1 hq
      obtain ⟨i, hi, e⟩ := List.mem_map.1 hm
      exact ⟨p, ⟨hp, h.node_inj (h.path_lt hs hp.1 i hi) hv e ▸ hi⟩, rfl⟩
    · rintro ⟨p, ⟨hp, hm⟩, rfl⟩
      exact ⟨(h.shortest_iff hs ht _).2 ⟨p, hp, rfl⟩, List.mem_map.2 ⟨v, hm, rfl⟩⟩
  rw [this, Set.InjOn.ncard_image]
  intro p hp q hq e
  exact h.map_inj (h.path_lt hs hp.1.1) (h.path_lt hs hq.1.1) e

theorem sum_nodes (h : Numbering ns A B) (X : Finset Nat) (hX : ∀ i ∈ X, i < ns.length) (F : Nat → Rat) :
    ∑ x ∈ X.image (node ns), F x = ∑ i ∈ X, F (node ns i) :=
  sum_image fun i hi j hj e => h.node_inj (hX i hi) (hX j hj) e

theorem image_erase (h : Numbering ns A B) {X : Finset Nat} (hX : ∀ i ∈ X, i < ns.length) {v : Nat} (hv : v < ns.length) :
    (X.image (node ns)).erase (node ns v) = (X.erase v).image (node ns) := by
  ext x
  simp only [mem_erase, mem_image]
  constructor
  · rintro ⟨hne, i, hi, rfl⟩
    exact ⟨i, ⟨fun e => hne (by rw [e]), hi⟩, rfl⟩
  · rintro ⟨i, ⟨hne, hi⟩, rfl⟩
    exact ⟨fun e => hne (h.node_inj (hX i hi) hv e), i, hi, rfl⟩

/-- Numbering nodes does not change their centrality. -/
theorem centrality_eq (h : Numbering ns A B) {v : Nat} (hv : v < ns.length) :
    centrality B ns.toFinset (node ns v) = centrality A (range ns.length) v := by
  have hns : ns.toFinset = (range ns.length).image (node ns) := by
    ext x
    simp only [List.mem_toFinset, mem_image, mem_range]
    exact ⟨exists_node, fun ⟨i, hi, e⟩ => e ▸ node_mem hi⟩
  have hr : ∀ i ∈ range ns.length, i < ns.length := fun i hi => mem_range.1 hi
  have hr1 : ∀ i ∈ (range ns.length).erase v, i < ns.length := fun i hi => hr i (mem_of_mem_erase hi)
  unfold centrality
  rw [hns, h.image_erase hr hv, h.sum_nodes _ hr1]
  refine sum_congr rfl fun s hs => ?_
  rw [h.image_erase hr1 (hr1 s hs), h.sum_nodes _ (fun i hi => hr1 i (mem_of_mem_erase hi))]
  refine sum_congr rfl fun t ht => ?_
  have ht := hr1 t (mem_of_mem_erase ht)
  rw [h.paths_eq (hr1 s hs) ht, h.pathsThrough_eq (hr1 s hs) ht hv]

end Numbering

theorem foldl_max_rat (f : Nat → Rat) : ∀ (l : List Nat) (m : Rat), let M := l.foldl (fun m i => max m (f i)) m
    m ≤ M ∧ (∀ i ∈ l, f i ≤ M) ∧ (M = m ∨ ∃ i ∈ l, M = f i)
  | [], m => by simp
  | i :: l, m => by
    obtain ⟨h1, h2, h3⟩ := foldl_max_rat f l (max m (f i))
    dsimp only
    rw [List.foldl_cons]
    refine ⟨le_trans (le_max_left _ _) h1, ?_, ?_⟩
    · rw [List.forall_mem_cons]
      exact ⟨le_trans (le_max_right _ _) h1, h2⟩
    · rcases h3 with h3 | ⟨j, hj, h3⟩
      · rcases le_total m (f i) with h | h
        · right; exact ⟨i, by simp, by rw [h3, max_eq_right h]⟩
        · left; rw [h3, max_eq_left h]
      · right; exact ⟨j, by simp [hj], h3⟩

theorem centrality_nonneg (adj : Nat → Nat → Prop) (nodes : Finset Nat) (v : Nat) : 0 ≤ centrality adj nodes v := by
  unfold centrality paths pathsThrough
  exact sum_nonneg fun s _ => sum_nonneg fun t _ => div_nonneg (Nat.cast_nonneg _) (Nat.cast_nonneg _)

/-- The sums after the loop over any list of sources. -/
theorem drawn_spec {n : Nat} {nbr : Nat → List Nat} (hnd : ∀ v < n, (nbr v).Nodup ∧ ∀ w ∈ nbr v, w < n) :
    ∀ (ss : List Nat), (∀ s ∈ ss, s < n) → ∀ total, ∃ total', ss.foldlM (fromSource n nbr) total = some total' ∧
      ∀ v, total' v = total v + (ss.map fun s => if v ≠ s then depend nbr n s v else 0).sum
  | [], _, total => ⟨total, rfl, by simp⟩
  | s :: ss, hss, total => by
    rw [List.forall_mem_cons] at hss
    obtain ⟨t1, h1, h2⟩ := fromSource_spec hnd hss.1 total
    obtain ⟨t2, h3, h4⟩ := drawn_spec hnd ss hss.2 t1
    refine ⟨t2, by rw [List.foldlM_cons, h1]; exact h3, fun v => ?_⟩
    rw [h4, h2, List.map_cons, List.sum_cons, add_assoc]

theorem numbering {nv : Nat} {cs : List Clause} {g : VarGraph} (h : VarGraph.Finished nv cs g) :
    Numbering g.nodes (Adj g.out) (Together cs) where
  nodup := h.nodup
  adj := h.out
  mem a b hab := by
    refine ⟨(h.mem a).2 ⟨b, hab⟩, (h.mem b).2 ⟨a, fun e => hab.1 e.symm, ?_⟩⟩
    obtain ⟨c, hc, h1, h2⟩ := hab.2
    exact ⟨c, hc, h2, h1⟩

/-- Nodes without neighbours do not count. -/
theorem centrality_subset {adj : Nat → Nat → Prop} {X Y : Finset Nat} (hXY : X ⊆ Y) (hX : ∀ a b, adj a b → a ∈ X ∧ b ∈ X) (v : Nat) :
    centrality adj Y v = centrality adj X v := by
  have hzero : ∀ s t, s ≠ t → s ∉ X ∨ t ∉ X → pathsThrough adj s t v / paths adj s t = 0 := by
    intro s t hst hn
    have : {p | Shortest adj s t p ∧ v ∈ p} = ∅ := by
      ext p
      simp only [Set.mem_ofPred_eq, Set.mem_empty_iff_false, iff_false]
      rintro ⟨⟨⟨hc, hh, hl⟩, _⟩, _⟩
      match p with
      | [] => simp at hh
      | [a] =>
        simp at hh hl
        exact hst (hh.symm.trans hl)
      | a :: b :: p =>
        simp at hh
        subst hh
        rcases hn with hn | hn
        · exact hn (hX _ _ hc.1).1
        · refine hn (chain_ok (ok := fun a => a ∈ X) (fun i j h => (hX i j h).2) _ a rfl (hX _ _ hc.1).1 hc t (List.mem_of_getLast? hl))
    unfold pathsThrough
    rw [this]
    simp
  unfold centrality
  symm
  rw [← sum_subset (erase_subset_erase v hXY)]
  · refine sum_congr rfl fun s hs => ?_
    refine sum_subset (erase_subset_erase s (erase_subset_erase v hXY)) fun t ht hn => hzero s t (fun e => (mem_erase.1 ht).1 e.symm) ?_
    right
    intro hc
    exact hn (mem_erase.2 ⟨(mem_erase.1 ht).1, mem_erase.2 ⟨(mem_erase.1 (mem_of_mem_erase ht)).1, hc⟩⟩)
  · intro s hs hn
    refine sum_eq_zero fun t ht => hzero s t (fun e => (mem_erase.1 ht).1 e.symm) ?_
    left
    intro hc
    exact hn (mem_erase.2 ⟨(mem_erase.1 hs).1, hc⟩)

theorem chain_trans {adj : Nat → Nat → Prop} (ht : ∀ a b c, adj a b → adj b c → a ≠ c → adj a c) :
    ∀ (p : List Nat) (s t : Nat), Path adj s t p → s = t ∨ adj s t
  | [], _, _, h => by simp [Path] at h
  | [a], _, _, h => by
    obtain ⟨_, h1, h2⟩ := h
    simp at h1 h2
    left
    rw [← h1, h2]
  | a :: b :: p, s, t, h => by
    obtain ⟨h1, h2, h3⟩ := h
    simp only [List.head?_cons, Option.some.injEq] at h2
    subst h2
    by_cases e : a = t
    · left; exact e
    · right
      rcases chain_trans ht (b :: p) b t ⟨h1.2, rfl, by rw [List.getLast?_cons_cons] at h3; exact h3⟩ with rfl | h
      · exact h1.1
      · exact ht _ _ _ h1.1 h e

/-- If neighbours of neighbours are neighbours then no node lies between others. -/
theorem centrality_zero {adj : Nat → Nat → Prop} (ht : ∀ a b c, adj a b → adj b c → a ≠ c → adj a c) (X : Finset Nat) (v : Nat) :
    centrality adj X v = 0 := by
  unfold centrality
  refine sum_eq_zero fun s hs => sum_eq_zero fun t ht' => ?_
  have hst : s ≠ t := fun e => (mem_erase.1 ht').1 e.symm
  have hvs : s ≠ v := (mem_erase.1 hs).1
  have hvt : t ≠ v := (mem_erase.1 (mem_of_mem_erase ht')).1
  have : {p | Shortest adj s t p ∧ v ∈ p} = ∅ := by
    ext p
    simp only [Set.mem_ofPred_eq, Set.mem_empty_iff_false, iff_false]
    rintro ⟨⟨hp, hmin⟩, hv⟩
    have hadj := (chain_trans ht p s t hp).resolve_left hst
    have hle : p.length ≤ 2 := hmin [s, t] ⟨⟨hadj, trivial⟩, rfl, rfl⟩
    obtain ⟨_, h1, h2⟩ := hp
    match p, hle with
    | [], _ => simp at h1
    | [a], _ =>
      simp at h1 h2
      exact hst (h1.symm.trans h2)
    | [a, b], _ =>
      simp at h1 h2 hv
      subst h1 h2
      rcases hv with rfl | rfl
      · exact hvs rfl
      · exact hvt rfl
    | a :: b :: c :: p, hle => simp at hle
  unfold pathsThrough
  rw [this]
  simp

end Candy.Betweenness
