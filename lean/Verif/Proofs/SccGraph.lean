import Verif.Proofs.SccMark
import Verif.Proofs.Centrality

/-!
# Directed graphs that are built from edges between names
-/

namespace Candy.Scc

/-- The graph of a list of edges. -/
structure DInv (maxn : Nat) (es : List (Nat × Nat)) (g : VarGraph) : Prop where
  maxn : g.maxn = maxn
  nodup : g.nodes.Nodup
  n : g.n = g.nodes.length
  m : g.m = es.length
  len : g.nodes.length ≤ 2 * es.length
  cnt : ∀ i j, (g.out i).count j = (g.inn j).count i
  out : ∀ i j, j ∈ g.out i ↔ ∃ a b, g.nodes[i]? = some a ∧ g.nodes[j]? = some b ∧ (a, b) ∈ es
  mem : ∀ v, v ∈ g.nodes ↔ ∃ w, (v, w) ∈ es ∨ (w, v) ∈ es

theorem DInv.empty (maxn : Nat) : DInv maxn [] (VarGraph.empty maxn) := by
  constructor <;> simp [VarGraph.empty]

theorem DInv.inn {maxn : Nat} {es : List (Nat × Nat)} {g : VarGraph} (h : DInv maxn es g) (i j : Nat) : i ∈ g.inn j ↔ j ∈ g.out i := by
  rw [← List.count_pos_iff, ← h.cnt, List.count_pos_iff]

theorem DInv.some_lt {maxn : Nat} {es : List (Nat × Nat)} {g : VarGraph} (h : DInv maxn es g) {i j : Nat} (hj : j ∈ g.out i) :
    i < g.n ∧ j < g.n := by
  obtain ⟨a, b, h1, h2, _⟩ := (h.out i j).1 hj
  rw [h.n]
  exact ⟨(List.getElem?_eq_some_iff.1 h1).1, (List.getElem?_eq_some_iff.1 h2).1⟩

theorem DInv.used {maxn : Nat} {es : List (Nat × Nat)} {g : VarGraph} (h : DInv maxn es g) {k : Nat} (hk : k < g.n) :
    g.out k ≠ [] ∨ g.inn k ≠ [] := by
  rw [h.n] at hk
  have hv : g.nodes[k]? = some g.nodes[k] := List.getElem?_eq_getElem hk
  obtain ⟨w, hw⟩ := (h.mem g.nodes[k]).1 (List.getElem_mem hk)
  have hwm : w ∈ g.nodes := (h.mem w).2 ⟨g.nodes[k], hw.symm⟩
  obtain ⟨j, hj⟩ := List.getElem?_of_mem hwm
  rcases hw with hw | hw
  · exact Or.inl (List.ne_nil_of_mem ((h.out k j).2 ⟨_, _, hv, hj, hw⟩))
  · exact Or.inr (List.ne_nil_of_mem ((h.inn j k).2 ((h.out j k).2 ⟨_, _, hj, hv, hw⟩)))

theorem DInv.isolated {maxn : Nat} {es : List (Nat × Nat)} {g : VarGraph} (h : DInv maxn es g) (k : Nat) :
    g.isolated k = true ↔ g.nodes.length ≤ k := by
  rw [← h.n]
  unfold VarGraph.isolated
  simp only [Bool.and_eq_true, List.isEmpty_iff]
  constructor
  · rintro ⟨h1, h2⟩
    apply Decidable.byContradiction
    intro hk
    rcases h.used (k := k) (by omega) with h3 | h3
    · exact h3 h2
    · exact h3 h1
  · intro hk
    constructor
    · apply Decidable.byContradiction
      intro hne
      obtain ⟨i, hi⟩ := List.exists_mem_of_ne_nil _ hne
      have := (h.some_lt ((h.inn i k).1 hi)).2; omega
    · apply Decidable.byContradiction
      intro hne
      obtain ⟨j, hj⟩ := List.exists_mem_of_ne_nil _ hne
      have := (h.some_lt hj).1; omega

/-- What two look-ups of names do. -/
theorem link_maps (rtl : Bool) (g : VarGraph) (a b : Nat) (hn : g.nodes.Nodup) :
    ∃ ns i j, g.link rtl a b = VarGraph.addEdge { g with nodes := ns } i j ∧ (∃ e, ns = g.nodes ++ e) ∧ ns.Nodup ∧
      ns[i]? = some a ∧ ns[j]? = some b ∧ (∀ v, v ∈ ns ↔ v ∈ g.nodes ∨ v = a ∨ v = b) ∧
      ns.length = g.nodes.length + (if g.nodes.length ≤ j then 1 else 0) + (if j ≠ i ∧ g.nodes.length ≤ i then 1 else 0) := by
  by_cases hab : a = b
  · subst hab
    obtain ⟨ns, e1, e2, e3⟩ := VarGraph.mapNode_spec g a
    have hm : a ∈ ns := List.mem_of_getElem? e2
    obtain ⟨ns', f1, f2, f3⟩ := VarGraph.mapNode_spec (g.mapNode a).1 a
    have hns : (g.mapNode a).1.nodes = ns := by rw [e1]
    have f3' : ns' = ns := by
      rcases f3 with f3 | f3
      · rw [f3.1, hns]
      · exact absurd (hns ▸ hm) f3.1
    subst f3'
    have hnd : ns'.Nodup := by
      rcases e3 with ⟨rfl, _⟩ | ⟨h1, rfl, _⟩
      · exact hn
      · rw [List.nodup_append]
        exact ⟨hn, by simp, by rintro x hx y hy rfl; simp only [List.mem_singleton] at hy; exact h1 (hy ▸ hx)⟩
    have hij : ((g.mapNode a).1.mapNode a).2 = (g.mapNode a).2 := by
      obtain ⟨l1, g1⟩ := List.getElem?_eq_some_iff.1 f2
      obtain ⟨l2, g2⟩ := List.getElem?_eq_some_iff.1 e2
      exact (List.Nodup.getElem_inj_iff hnd).1 (g1.trans g2.symm)
    refine ⟨ns', (g.mapNode a).2, (g.mapNode a).2, ?_, ?_, hnd, e2, e2, ?_, ?_⟩
    · have : ((g.mapNode a).1.mapNode a).1 = { g with nodes := ns' } := by rw [f1, e1]
      unfold VarGraph.link
      cases rtl <;> simp only [this, hij, if_true, Bool.false_eq_true, if_false]
    · rcases e3 with ⟨rfl, _⟩ | ⟨_, rfl, _⟩
      · exact ⟨[], by simp⟩
      · exact ⟨_, rfl⟩
    · intro v
      rcases e3 with ⟨rfl, hm'⟩ | ⟨_, rfl, _⟩
      · constructor
        · exact Or.inl
        · rintro (h | h | h)
          · exact h
          · rw [h]; exact hm'
          · rw [h]; exact hm'
      · simp
    · rcases e3 with ⟨rfl, hm'⟩ | ⟨_, rfl, h⟩
      · have := (List.getElem?_eq_some_iff.1 e2).1
        have h' : ¬ g.nodes.length ≤ (g.mapNode a).2 := by omega
        simp [h']
      · simp [h]
  · obtain ⟨ns, i, j, e, hl⟩ := VarGraph.link_linked rtl g hab hn
    have hji : j ≠ i := by
      rintro rfl
      have := hl.fst.symm.trans hl.snd
      exact hab (Option.some.inj this)
    refine ⟨ns, i, j, e, hl.ext, hl.nodup, hl.fst, hl.snd, hl.mem, ?_⟩
    rw [hl.len]; simp [hji]

theorem DInv.link {maxn : Nat} {es : List (Nat × Nat)} {g : VarGraph} (h : DInv maxn es g) (rtl : Bool) (a b : Nat)
    (hroom : 2 * (es.length + 1) ≤ maxn) : DInv maxn (es ++ [(a, b)]) (g.link rtl a b) := by
  obtain ⟨ns, i, j, e, ⟨ex, hex⟩, hnd, hi, hj, hmem, hlen⟩ := link_maps rtl g a b h.nodup
  have hil := (List.getElem?_eq_some_iff.1 hi).1
  have hjl := (List.getElem?_eq_some_iff.1 hj).1
  have hl2 : ns.length ≤ g.nodes.length + 2 := by rw [hlen]; split <;> split <;> omega
  have hle := h.len
  have hc : ¬ (g.maxn ≤ i ∨ g.maxn ≤ j) := by rw [h.maxn]; omega
  have hinj : ∀ {k l v : Nat}, ns[k]? = some v → ns[l]? = some v → k = l := by
    intro k l v hk hl
    obtain ⟨l1, g1⟩ := List.getElem?_eq_some_iff.1 hk
    obtain ⟨l2, g2⟩ := List.getElem?_eq_some_iff.1 hl
    exact (List.Nodup.getElem_inj_iff hnd).1 (g1.trans g2.symm)
  have hold : ∀ {k v : Nat}, g.nodes[k]? = some v → ns[k]? = some v := by
    intro k v hk
    rw [hex, List.getElem?_append_left (List.getElem?_eq_some_iff.1 hk).1]; exact hk
  have hold' : ∀ {k v : Nat}, ns[k]? = some v → v ∈ g.nodes → g.nodes[k]? = some v := by
    intro k v hk hv
    obtain ⟨l, hl⟩ := List.getElem?_of_mem hv
    rw [hinj hk (hold hl)]; exact hl
  have iso : ∀ k, VarGraph.isolated { g with nodes := ns } k = g.isolated k := fun _ => rfl
  rw [e]
  unfold VarGraph.addEdge
  rw [if_neg hc]
  constructor
  · exact h.maxn
  · exact hnd
  · simp only [iso, h.isolated]
    rw [hlen, h.n]
  · simp [h.m]
  · simp only [List.length_append, List.length_singleton]; omega
  · intro k l
    simp only [upd_apply]
    have := h.cnt k l
    by_cases h1 : k = i <;> by_cases h2 : l = j
    · subst h1; subst h2; simp [this]
    · subst h1; simp [h2, this, Ne.symm h2]
    · subst h2; simp [h1, this, Ne.symm h1]
    · simp [h1, h2, this]
  · intro k l
    simp only [upd_apply]
    constructor
    · intro hk
      by_cases h1 : k = i
      · subst h1
        simp only [if_true, List.mem_append, List.mem_singleton] at hk
        rcases hk with hk | rfl
        · obtain ⟨x, y, hx, hy, hxy⟩ := (h.out k l).1 hk
          exact ⟨x, y, hold hx, hold hy, by simp [hxy]⟩
        · exact ⟨a, b, hi, hj, by simp⟩
      · rw [if_neg h1] at hk
        obtain ⟨x, y, hx, hy, hxy⟩ := (h.out k l).1 hk
        exact ⟨x, y, hold hx, hold hy, by simp [hxy]⟩
    · rintro ⟨x, y, hx, hy, hxy⟩
      simp only [List.mem_append, List.mem_singleton, Prod.mk.injEq] at hxy
      rcases hxy with hxy | ⟨rfl, rfl⟩
      · have : l ∈ g.out k := (h.out k l).2 ⟨x, y, hold' hx ((h.mem x).2 ⟨y, Or.inl hxy⟩), hold' hy ((h.mem y).2 ⟨x, Or.inr hxy⟩), hxy⟩
        split
        · next h1 => subst h1; simp [this]
        · exact this
      · rw [if_pos (hinj hx hi), hinj hy hj]; simp
  · intro v
    simp only [hmem v, h.mem v, List.mem_append, List.mem_singleton, Prod.mk.injEq]
    constructor
    · rintro (⟨w, hw⟩ | rfl | rfl)
      · exact ⟨w, by tauto⟩
      · exact ⟨b, by simp⟩
      · exact ⟨a, by simp⟩
    · rintro ⟨w, (hw | ⟨rfl, rfl⟩) | (hw | ⟨rfl, rfl⟩)⟩
      · exact Or.inl ⟨w, Or.inl hw⟩
      · simp
      · exact Or.inl ⟨w, Or.inr hw⟩
      · simp

theorem DInv.links {maxn : Nat} (rtl : Bool) : ∀ (l es : List (Nat × Nat)) (g : VarGraph), DInv maxn es g →
    2 * (es.length + l.length) ≤ maxn → DInv maxn (es ++ l) (l.foldl (fun g p => g.link rtl p.1 p.2) g)
  | [], es, g, h, _ => by simpa using h
  | p :: l, es, g, h, hr => by
    simp only [List.length_cons] at hr
    have h1 := h.link rtl p.1 p.2 (by omega)
    have := DInv.links rtl l _ _ h1 (by simp only [List.length_append, List.length_singleton]; omega)
    simpa using this

theorem build_spec (rtl : Bool) {maxn : Nat} {es : List (Nat × Nat)} (hr : 2 * es.length ≤ maxn) : DInv maxn es (build rtl maxn es) := by
  simpa [build] using DInv.links rtl es [] _ (DInv.empty maxn) (by simpa using hr)

theorem DInv.digraph {maxn : Nat} {es : List (Nat × Nat)} {g : VarGraph} (h : DInv maxn es g) (hne : es ≠ []) :
    Digraph g.n g.out g.inn := by
  refine ⟨h.cnt, fun a b hb => h.some_lt hb, fun v hv => h.used hv, ?_⟩
  obtain ⟨⟨a, b⟩, hp⟩ := List.exists_mem_of_ne_nil _ hne
  rw [h.n]
  exact List.length_pos_of_mem ((h.mem a).2 ⟨b, Or.inl hp⟩)

/-- Paths between numbers are paths between names. -/
theorem DInv.reach {maxn : Nat} {es : List (Nat × Nat)} {g : VarGraph} (h : DInv maxn es g) {i a : Nat} (hi : g.nodes[i]? = some a) {j b : Nat}
    (hj : g.nodes[j]? = some b) : Reach g.out i j ↔ Relation.ReflTransGen (fun x y => (x, y) ∈ es) a b := by
  have hinj : ∀ {k l v : Nat}, g.nodes[k]? = some v → g.nodes[l]? = some v → k = l := by
    intro k l v hk hl
    obtain ⟨l1, g1⟩ := List.getElem?_eq_some_iff.1 hk
    obtain ⟨l2, g2⟩ := List.getElem?_eq_some_iff.1 hl
    exact (List.Nodup.getElem_inj_iff h.nodup).1 (g1.trans g2.symm)
  constructor
  · intro hr
    induction hr generalizing b with
    | refl => rw [hi] at hj; cases hj; exact .refl
    | tail _ hk ih =>
      obtain ⟨x, y, hx, hy, hxy⟩ := (h.out _ _).1 hk
      rw [hj] at hy; cases hy
      exact (ih hx).tail hxy
  · intro hr
    induction hr generalizing j with
    | refl => rw [hinj hi hj]; exact .refl
    | tail _ hxy ih =>
      rename_i x y _
      obtain ⟨k, hk⟩ := List.getElem?_of_mem ((h.mem x).2 ⟨y, Or.inl hxy⟩)
      exact (ih hk).tail ((h.out k j).2 ⟨x, y, hk, hj, hxy⟩)

end Candy.Scc
