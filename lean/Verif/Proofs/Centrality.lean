import Verif.Proofs.BranchSearch
import Verif.Model.Centrality

/-! Lemmas about the graph of variables and the table of centralities. -/

namespace Candy

namespace VarGraph

theorem idxOf?_none {v : Nat} : ∀ {ns : List Nat}, ns.idxOf? v = none → v ∉ ns
  | [], _ => by simp
  | x :: xs, h => by
    rw [List.idxOf?_cons] at h
    split at h
    · cases h
    · next hx =>
      have := idxOf?_none (Option.map_eq_none_iff.1 h)
      simp only [List.mem_cons, not_or]
      exact ⟨fun e => hx (by simp [e]), this⟩

theorem idxOf?_some {v : Nat} : ∀ {ns : List Nat} {i : Nat}, ns.idxOf? v = some i → ns[i]? = some v
  | [], i, h => by simp at h
  | x :: xs, i, h => by
    rw [List.idxOf?_cons] at h
    split at h
    · next hx => cases h; simpa using hx
    · obtain ⟨j, hj, rfl⟩ := Option.map_eq_some_iff.1 h
      simpa using idxOf?_some hj

theorem mapNode_spec (g : VarGraph) (v : Nat) :
    ∃ ns, (g.mapNode v).1 = { g with nodes := ns } ∧ ns[(g.mapNode v).2]? = some v ∧
      (ns = g.nodes ∧ v ∈ g.nodes ∨ v ∉ g.nodes ∧ ns = g.nodes ++ [v] ∧ (g.mapNode v).2 = g.nodes.length) := by
  unfold mapNode
  split
  · next i h =>
    have := idxOf?_some h
    exact ⟨g.nodes, rfl, this, .inl ⟨rfl, List.mem_of_getElem? this⟩⟩
  · next h => exact ⟨_, rfl, by simp, .inr ⟨idxOf?_none h, rfl, rfl⟩⟩

theorem getElem?_inj {ns : List Nat} (h : ns.Nodup) {i j v : Nat} (hi : ns[i]? = some v) (hj : ns[j]? = some v) : i = j := by
  obtain ⟨h1, e1⟩ := List.getElem?_eq_some_iff.1 hi
  obtain ⟨h2, e2⟩ := List.getElem?_eq_some_iff.1 hj
  rw [List.nodup_iff_pairwise_ne] at h
  have hp := List.pairwise_iff_getElem.1 h
  rcases Nat.lt_trichotomy i j with hlt | hlt | hlt
  · exact absurd (e1.trans e2.symm) (hp i j h1 h2 hlt)
  · exact hlt
  · exact absurd (e2.trans e1.symm) (hp j i h2 h1 hlt)

/-- What a link does to the list of nodes. -/
structure Linked (g : VarGraph) (a b : Nat) (ns : List Nat) (i j : Nat) : Prop where
  ext : ∃ e, ns = g.nodes ++ e
  nodup : ns.Nodup
  fst : ns[i]? = some a
  snd : ns[j]? = some b
  mem : ∀ v, v ∈ ns ↔ v ∈ g.nodes ∨ v = a ∨ v = b
  len : ns.length = g.nodes.length + (if g.nodes.length ≤ j then 1 else 0) + (if g.nodes.length ≤ i then 1 else 0)

theorem two_maps (g : VarGraph) {a b : Nat} (hab : a ≠ b) (hn : g.nodes.Nodup) :
    ∃ ns, ((g.mapNode a).1.mapNode b).1 = { g with nodes := ns } ∧
      Linked g a b ns (g.mapNode a).2 ((g.mapNode a).1.mapNode b).2 := by
  obtain ⟨n1, e1, i1, c1⟩ := mapNode_spec g a
  obtain ⟨n2, e2, i2, c2⟩ := mapNode_spec (g.mapNode a).1 b
  refine ⟨n2, by rw [e2, e1], ?_⟩
  generalize ((g.mapNode a).1.mapNode b).2 = j at *
  generalize (g.mapNode a).2 = i at *
  rw [e1] at c2
  dsimp only at c2
  rcases c1 with ⟨rfl, ha⟩ | ⟨ha, rfl, rfl⟩ <;> rcases c2 with ⟨rfl, hb⟩ | ⟨hb, rfl, rfl⟩
  · have li := (List.getElem?_eq_some_iff.1 i1).1
    have lj := (List.getElem?_eq_some_iff.1 i2).1
    exact ⟨⟨[], by simp⟩, hn, i1, i2, fun v => ⟨.inl, fun h => by rcases h with h | rfl | rfl <;> assumption⟩, by
      rw [if_neg (by omega), if_neg (by omega)]; rfl⟩
  · have li := (List.getElem?_eq_some_iff.1 i1).1
    refine ⟨⟨_, rfl⟩, ?_, ?_, i2, fun v => ?_, ?_⟩
    · rw [List.nodup_append]; exact ⟨hn, by simp, fun x hx y hy => by simp at hy; subst hy; exact fun e => hb (e ▸ hx)⟩
    · rw [List.getElem?_append_left li]; exact i1
    · simp only [List.mem_append, List.mem_singleton]
      exact ⟨fun h => by rcases h with h | h <;> simp [h], fun h => by rcases h with h | rfl | h <;> simp [*]⟩
    · rw [if_pos (Nat.le_refl _), if_neg (by omega)]; simp
  · have hbg : b ∈ g.nodes := by simpa [Ne.symm hab] using hb
    have hnd : (g.nodes ++ [a]).Nodup := by
      rw [List.nodup_append]; exact ⟨hn, by simp, fun x hx y hy => by simp at hy; subst hy; exact fun e => ha (e ▸ hx)⟩
    obtain ⟨k, hk, ek⟩ := List.mem_iff_getElem.1 hbg
    have : j = k := getElem?_inj hnd i2 (by rw [List.getElem?_append_left hk, List.getElem?_eq_getElem hk, ek])
    refine ⟨⟨_, rfl⟩, hnd, i1, i2, fun v => ?_, ?_⟩
    · simp only [List.mem_append, List.mem_singleton]
      exact ⟨fun h => by rcases h with h | h <;> simp [h], fun h => by rcases h with h | h | rfl <;> simp [*]⟩
    · rw [if_pos (Nat.le_refl _), if_neg (by omega)]; simp
  · simp only [List.mem_append, List.mem_singleton, not_or] at hb
    refine ⟨⟨[a, b], by simp⟩, ?_, ?_, i2, fun v => ?_, ?_⟩
    · rw [List.nodup_append, List.nodup_append]
      refine ⟨⟨hn, by simp, fun x hx y hy => by simp at hy; subst hy; exact fun e => ha (e ▸ hx)⟩, by simp, fun x hx y hy => ?_⟩
      simp at hy hx; subst hy
      rintro rfl
      rcases hx with hx | hx
      · exact hb.1 hx
      · exact hb.2 hx
    · rw [List.getElem?_append_left (by simp)]; exact i1
    · simp only [List.mem_append, List.mem_singleton]
      exact ⟨fun h => by rcases h with (h | h) | h <;> simp [h], fun h => by rcases h with h | h | h <;> simp [*]⟩
    · rw [if_pos (Nat.le_refl _), if_pos (by simp)]; simp

theorem Linked.swap {g : VarGraph} {a b : Nat} {ns : List Nat} {i j : Nat} (h : Linked g a b ns i j) : Linked g b a ns j i :=
  ⟨h.ext, h.nodup, h.snd, h.fst, fun v => by rw [h.mem]; exact ⟨fun h => by rcases h with h | h | h <;> simp [h], fun h => by rcases h with h | h | h <;> simp [h]⟩,
    by rw [h.len]; omega⟩

theorem link_linked (rtl : Bool) (g : VarGraph) {a b : Nat} (hab : a ≠ b) (hn : g.nodes.Nodup) :
    ∃ ns i j, g.link rtl a b = addEdge { g with nodes := ns } i j ∧ Linked g a b ns i j := by
  cases rtl with
  | true =>
    obtain ⟨ns, e, h⟩ := two_maps g (Ne.symm hab) hn
    refine ⟨ns, _, _, ?_, h.swap⟩
    unfold link
    rw [if_pos rfl]
    dsimp only
    rw [e]
  | false =>
    obtain ⟨ns, e, h⟩ := two_maps g hab hn
    refine ⟨ns, _, _, ?_, h⟩
    unfold link
    rw [if_neg (by simp)]
    dsimp only
    rw [e]

/-- Invariant while edges are added; `E` are the linked pairs of variables. -/
structure GInv (nv : Nat) (E : Nat → Nat → Prop) (g : VarGraph) : Prop where
  maxn : g.maxn = max 1 nv
  nodup : g.nodes.Nodup
  bound : ∀ v ∈ g.nodes, v < nv
  n : g.n = g.nodes.length
  inn : ∀ i j, j ∈ g.inn i ↔ i ∈ g.out j
  out : ∀ i j, j ∈ g.out i ↔ ∃ a b, g.nodes[i]? = some a ∧ g.nodes[j]? = some b ∧ E a b
  mem : ∀ v, v ∈ g.nodes ↔ ∃ w, E v w ∨ E w v

theorem GInv.empty (nv : Nat) : GInv nv (fun _ _ => False) (VarGraph.empty (max 1 nv)) :=
  ⟨rfl, by simp [VarGraph.empty], by simp [VarGraph.empty], rfl, by simp [VarGraph.empty], by simp [VarGraph.empty], by simp [VarGraph.empty]⟩

theorem length_le_of_bound {nv : Nat} {ns : List Nat} (hn : ns.Nodup) (hb : ∀ v ∈ ns, v < nv) : ns.length ≤ nv := by
  have := hn.length_le_of_subset (l₂ := List.range nv) fun v hv => List.mem_range.2 (hb v hv)
  simpa using this

theorem GInv.isolated {nv : Nat} {E : Nat → Nat → Prop} {g : VarGraph} (h : GInv nv E g) (i : Nat) :
    g.isolated i = true ↔ g.nodes.length ≤ i := by
  unfold VarGraph.isolated
  simp only [Bool.and_eq_true, List.isEmpty_iff]
  constructor
  · rintro ⟨h1, h2⟩
    apply Nat.le_of_not_lt
    intro hlt
    obtain ⟨w, hw⟩ := (h.mem g.nodes[i]).1 (List.getElem_mem hlt)
    have hwm : w ∈ g.nodes := (h.mem w).2 (by rcases hw with hw | hw; exact ⟨_, .inr hw⟩; exact ⟨_, .inl hw⟩)
    obtain ⟨j, hj, rfl⟩ := List.mem_iff_getElem.1 hwm
    rcases hw with hw | hw
    · have := (h.out i j).2 ⟨_, _, by simp [hlt], by simp [hj], hw⟩
      rw [h2] at this; cases this
    · have := (h.inn i j).2 ((h.out j i).2 ⟨_, _, by simp [hj], by simp [hlt], hw⟩)
      rw [h1] at this; cases this
  · intro hle
    have hnone : g.nodes[i]? = none := by simpa using hle
    constructor
    · apply List.eq_nil_iff_forall_not_mem.2
      intro j hj
      obtain ⟨a, b, _, h2, _⟩ := (h.out j i).1 ((h.inn i j).1 hj)
      rw [hnone] at h2; cases h2
    · apply List.eq_nil_iff_forall_not_mem.2
      intro j hj
      obtain ⟨a, b, h2, _, _⟩ := (h.out i j).1 hj
      rw [hnone] at h2; cases h2

theorem ext_getElem? {ns e : List Nat} {i v : Nat} (h : ns[i]? = some v) : (ns ++ e)[i]? = some v := by
  obtain ⟨h1, h2⟩ := List.getElem?_eq_some_iff.1 h
  rw [List.getElem?_append_left h1]; exact h

theorem GInv.link {nv : Nat} {E : Nat → Nat → Prop} {g : VarGraph} (h : GInv nv E g) (rtl : Bool) {a b : Nat} (hab : a ≠ b)
    (ha : a < nv) (hb : b < nv) : GInv nv (fun x y => E x y ∨ x = a ∧ y = b) (g.link rtl a b) := by
  obtain ⟨ns, i, j, e, hl⟩ := link_linked rtl g hab h.nodup
  have hbd : ∀ v ∈ ns, v < nv := fun v hv => by
    rcases (hl.mem v).1 hv with hv | rfl | rfl
    · exact h.bound v hv
    · exact ha
    · exact hb
  have hlen := length_le_of_bound hl.nodup hbd
  have hi : i < ns.length := (List.getElem?_eq_some_iff.1 hl.fst).1
  have hj : j < ns.length := (List.getElem?_eq_some_iff.1 hl.snd).1
  have hij : i ≠ j := fun e => hab (Option.some.inj (hl.fst.symm.trans (e ▸ hl.snd)))
  have eold : ∀ {k v}, g.nodes[k]? = some v → ns[k]? = some v := fun hk => by
    obtain ⟨ext, rfl⟩ := hl.ext; exact ext_getElem? hk
  have E0 : ∀ {x y}, E x y → x ∈ g.nodes ∧ y ∈ g.nodes := fun hxy => ⟨(h.mem _).2 ⟨_, .inl hxy⟩, (h.mem _).2 ⟨_, .inr hxy⟩⟩
  have eback : ∀ {k v}, ns[k]? = some v → v ∈ g.nodes → g.nodes[k]? = some v := fun {k v} hk hv => by
    obtain ⟨k', h1, h2⟩ := List.mem_iff_getElem.1 hv
    have hk' : g.nodes[k']? = some v := by simp [h1, h2]
    rw [getElem?_inj hl.nodup hk (eold hk')]; exact hk'
  have houts : ∀ p q, q ∈ upd g.out i (g.out i ++ [j]) p ↔ q ∈ g.out p ∨ p = i ∧ q = j := by
    intro p q
    rw [upd_apply]
    split
    · next hp => subst hp; simp
    · next hp => exact ⟨.inl, fun h => h.resolve_right fun e => hp e.1⟩
  have hinns : ∀ p q, q ∈ upd g.inn j (g.inn j ++ [i]) p ↔ q ∈ g.inn p ∨ p = j ∧ q = i := by
    intro p q
    rw [upd_apply]
    split
    · next hp => subst hp; simp
    · next hp => exact ⟨.inl, fun h => h.resolve_right fun e => hp e.1⟩
  rw [e]
  unfold addEdge
  rw [if_neg (by dsimp only; rw [h.maxn]; omega)]
  refine ⟨h.maxn, hl.nodup, hbd, ?_, ?_, ?_, ?_⟩
  · dsimp only
    have hI : ∀ k, ({ g with nodes := ns } : VarGraph).isolated k = g.isolated k := fun _ => rfl
    rw [hI, hI, hl.len, h.n]
    have e1 : (g.isolated j = true) = (g.nodes.length ≤ j) := propext (h.isolated j)
    have e2 : (j ≠ i ∧ g.isolated i = true) = (g.nodes.length ≤ i) := propext ⟨fun x => (h.isolated i).1 x.2, fun x => ⟨hij.symm, (h.isolated i).2 x⟩⟩
    simp only [e1, e2]
  · intro p q
    dsimp only
    rw [houts, hinns, h.inn]
    constructor
    · rintro (x | ⟨rfl, rfl⟩)
      · exact .inl x
      · exact .inr ⟨rfl, rfl⟩
    · rintro (x | ⟨rfl, rfl⟩)
      · exact .inl x
      · exact .inr ⟨rfl, rfl⟩
  · intro p q
    dsimp only
    rw [houts, h.out]
    constructor
    · rintro (⟨x, y, h1, h2, h3⟩ | ⟨rfl, rfl⟩)
      · exact ⟨x, y, eold h1, eold h2, .inl h3⟩
      · exact ⟨a, b, hl.fst, hl.snd, .inr ⟨rfl, rfl⟩⟩
    · rintro ⟨x, y, h1, h2, h3 | ⟨rfl, rfl⟩⟩
      · exact .inl ⟨x, y, eback h1 (E0 h3).1, eback h2 (E0 h3).2, h3⟩
      · exact .inr ⟨getElem?_inj hl.nodup h1 hl.fst, getElem?_inj hl.nodup h2 hl.snd⟩
  · intro v
    dsimp only
    rw [hl.mem, h.mem]
    constructor
    · rintro (⟨w, hw | hw⟩ | rfl | rfl)
      · exact ⟨w, .inl (.inl hw)⟩
      · exact ⟨w, .inr (.inl hw)⟩
      · exact ⟨b, .inl (.inr ⟨rfl, rfl⟩)⟩
      · exact ⟨a, .inr (.inr ⟨rfl, rfl⟩)⟩
    · rintro ⟨w, (hw | ⟨rfl, rfl⟩) | (hw | ⟨rfl, rfl⟩)⟩
      · exact .inl ⟨w, .inl hw⟩
      · exact .inr (.inl rfl)
      · exact .inl ⟨w, .inr hw⟩
      · exact .inr (.inr rfl)

theorem GInv.congr {nv : Nat} {E E' : Nat → Nat → Prop} {g : VarGraph} (h : GInv nv E g) (he : ∀ x y, E x y ↔ E' x y) : GInv nv E' g := by
  have : E = E' := by funext x y; exact propext (he x y)
  exact this ▸ h

theorem GInv.links {nv : Nat} (rtl : Bool) {v : Nat} (hv : v < nv) : ∀ (vs : List Nat) {E : Nat → Nat → Prop} {g : VarGraph}, GInv nv E g →
    (∀ w ∈ vs, v ≠ w ∧ w < nv) →
    GInv nv (fun x y => E x y ∨ x = v ∧ y ∈ vs) (vs.foldl (fun g w => g.link rtl v w) g)
  | [], E, g, h, _ => h.congr (by simp)
  | w :: ws, E, g, h, hw => by
    have h1 := h.link rtl (hw w (by simp)).1 hv (hw w (by simp)).2
    have h2 := GInv.links rtl hv ws h1 fun x hx => hw x (by simp [hx])
    refine h2.congr fun x y => ?_
    simp only [List.mem_cons]
    constructor
    · rintro ((h | h) | h)
      · exact .inl h
      · exact .inr ⟨h.1, .inl h.2⟩
      · exact .inr ⟨h.1, .inr h.2⟩
    · rintro (h | ⟨h, h' | h'⟩)
      · exact .inl (.inl h)
      · exact .inl (.inr ⟨h, h'⟩)
      · exact .inr ⟨h, h'⟩

/-- `x` comes before `y`. -/
def Before : List Nat → Nat → Nat → Prop
  | [], _, _ => False
  | v :: vs, x, y => x = v ∧ y ∈ vs ∨ Before vs x y

theorem GInv.linkAll {nv : Nat} (rtl : Bool) : ∀ (vs : List Nat) {E : Nat → Nat → Prop} {g : VarGraph}, GInv nv E g → vs.Nodup →
    (∀ w ∈ vs, w < nv) → GInv nv (fun x y => E x y ∨ Before vs x y) (g.linkAll rtl vs)
  | [], E, g, h, _, _ => h.congr (by simp [Before])
  | v :: vs, E, g, h, hn, hb => by
    obtain ⟨n1, n2⟩ := List.nodup_cons.1 hn
    have h1 := h.links rtl (hb v (by simp)) vs fun w hw => ⟨fun e => n1 (e ▸ hw), hb w (by simp [hw])⟩
    refine (GInv.linkAll rtl vs h1 n2 fun w hw => hb w (by simp [hw])).congr fun x y => ?_
    simp only [Before, or_assoc]

theorem before_iff {x y : Nat} : ∀ {vs : List Nat}, vs.Nodup → (Before vs x y ∨ Before vs y x ↔ x ∈ vs ∧ y ∈ vs ∧ x ≠ y)
  | [], _ => by simp [Before]
  | v :: vs, hn => by
    obtain ⟨n1, n2⟩ := List.nodup_cons.1 hn
    have ih := before_iff (x := x) (y := y) n2
    simp only [Before, List.mem_cons]
    constructor
    · rintro ((⟨rfl, h⟩ | h) | (⟨rfl, h⟩ | h))
      · exact ⟨.inl rfl, .inr h, fun e => n1 (e ▸ h)⟩
      · obtain ⟨a, b, c⟩ := ih.1 (.inl h); exact ⟨.inr a, .inr b, c⟩
      · exact ⟨.inr h, .inl rfl, fun e => n1 (e ▸ h)⟩
      · obtain ⟨a, b, c⟩ := ih.1 (.inr h); exact ⟨.inr a, .inr b, c⟩
    · rintro ⟨rfl | h1, rfl | h2, h3⟩
      · exact absurd rfl h3
      · exact .inl (.inl ⟨rfl, h2⟩)
      · exact .inr (.inl ⟨rfl, h1⟩)
      · rcases ih.2 ⟨h1, h2, h3⟩ with h | h
        · exact .inl (.inr h)
        · exact .inr (.inr h)

theorem GInv.addClauses {nv : Nat} (rtl : Bool) : ∀ (cs : List Clause) {E : Nat → Nat → Prop} {g : VarGraph}, GInv nv E g →
    (∀ c ∈ cs, c ≠ [] ∧ (c.map Lit.var).Nodup ∧ ∀ l ∈ c, l.var < nv) →
    ∃ g', g.addClauses rtl cs = some g' ∧ GInv nv (fun x y => E x y ∨ ∃ c ∈ cs, Before (c.map Lit.var) x y) g'
  | [], E, g, h, _ => ⟨g, rfl, h.congr (by simp)⟩
  | c :: cs, E, g, h, hc => by
    obtain ⟨c1, c2, c3⟩ := hc c (by simp)
    have h1 := h.linkAll rtl (c.map Lit.var) c2 (by simpa using c3)
    obtain ⟨g', e, h2⟩ := GInv.addClauses rtl cs h1 fun d hd => hc d (by simp [hd])
    refine ⟨g', by rw [VarGraph.addClauses, if_neg c1]; exact e, h2.congr fun x y => ?_⟩
    simp only [List.mem_cons, or_assoc, exists_eq_or_imp]

theorem addClauses_empty (rtl : Bool) : ∀ (cs : List Clause) (g : VarGraph), [] ∈ cs → g.addClauses rtl cs = none
  | c :: cs, g, h => by
    rw [VarGraph.addClauses]
    by_cases hc : c = []
    · rw [if_pos hc]
    · rw [if_neg hc]
      exact addClauses_empty rtl cs _ ((List.mem_cons.1 h).resolve_left fun e => hc e.symm)

/-- Two different variables that occur in the same clause. -/
def Share (cs : List Clause) (x y : Nat) : Prop := x ≠ y ∧ ∃ c ∈ cs, (∃ l ∈ c, l.var = x) ∧ ∃ l ∈ c, l.var = y

/-- The finished graph. -/
structure Finished (nv : Nat) (cs : List Clause) (g : VarGraph) : Prop where
  maxn : g.maxn = max 1 nv
  nodup : g.nodes.Nodup
  bound : ∀ v ∈ g.nodes, v < nv
  n : g.n = g.nodes.length
  mem : ∀ v, v ∈ g.nodes ↔ ∃ w, Share cs v w
  out : ∀ i j, j ∈ g.out i ↔ ∃ a b, g.nodes[i]? = some a ∧ g.nodes[j]? = some b ∧ Share cs a b
  outNodup : ∀ i, (g.out i).Nodup
  m : g.m = ((List.range g.n).map fun i => (g.out i).length).sum

theorem ofClauses_spec (rtl : Bool) {nv : Nat} {cs : List Clause}
    (hc : ∀ c ∈ cs, c ≠ [] ∧ (c.map Lit.var).Nodup ∧ ∀ l ∈ c, l.var < nv) :
    ∃ g, ofClauses rtl nv cs = some g ∧ Finished nv cs g := by
  obtain ⟨g, e, h⟩ := (GInv.empty nv).addClauses rtl cs hc
  refine ⟨g.makeUndirected, by unfold ofClauses; rw [e]; rfl, ?_⟩
  generalize hE : (fun x y => False ∨ ∃ c ∈ cs, Before (c.map Lit.var) x y) = E at h
  have hS : ∀ x y, Share cs x y ↔ E x y ∨ E y x := by
    intro x y
    subst hE
    simp only [false_or]
    constructor
    · rintro ⟨h1, c, hm, ⟨l, hl, rfl⟩, ⟨k, hk, rfl⟩⟩
      rcases (before_iff (hc c hm).2.1).2 ⟨List.mem_map.2 ⟨l, hl, rfl⟩, List.mem_map.2 ⟨k, hk, rfl⟩, h1⟩ with h | h
      · exact .inl ⟨c, hm, h⟩
      · exact .inr ⟨c, hm, h⟩
    · rintro (⟨c, hm, h⟩ | ⟨c, hm, h⟩)
      · obtain ⟨h1, h2, h3⟩ := (before_iff (hc c hm).2.1).1 (.inl h)
        exact ⟨h3, c, hm, by simpa using h1, by simpa using h2⟩
      · obtain ⟨h1, h2, h3⟩ := (before_iff (hc c hm).2.1).1 (.inr h)
        exact ⟨h3, c, hm, by simpa using h1, by simpa using h2⟩
  have hle := length_le_of_bound h.nodup h.bound
  have hN : ∀ i j, j ∈ g.neighbours i ↔ ∃ a b, g.nodes[i]? = some a ∧ g.nodes[j]? = some b ∧ Share cs a b := by
    intro i j
    unfold neighbours
    simp only [List.mem_filter, List.mem_range, Bool.or_eq_true, Bool.and_eq_true, decide_eq_true_eq, h.maxn, h.n]
    constructor
    · rintro ⟨-, hj | ⟨-, hj⟩⟩
      · obtain ⟨a, b, h1, h2, h3⟩ := (h.out i j).1 hj
        exact ⟨a, b, h1, h2, (hS a b).2 (.inl h3)⟩
      · obtain ⟨a, b, h1, h2, h3⟩ := (h.out j i).1 hj
        exact ⟨b, a, h2, h1, (hS b a).2 (.inr h3)⟩
    · rintro ⟨a, b, h1, h2, h3⟩
      have hj := (List.getElem?_eq_some_iff.1 h2).1
      refine ⟨by omega, ?_⟩
      rcases (hS a b).1 h3 with h3 | h3
      · exact .inl ((h.out i j).2 ⟨a, b, h1, h2, h3⟩)
      · exact .inr ⟨hj, (h.out j i).2 ⟨b, a, h2, h1, h3⟩⟩
  refine ⟨h.maxn, h.nodup, h.bound, h.n, ?_, ?_, ?_, ?_⟩
  · intro v
    show v ∈ g.nodes ↔ _
    rw [h.mem]
    exact ⟨fun ⟨w, hw⟩ => ⟨w, (hS v w).2 hw⟩, fun ⟨w, hw⟩ => ⟨w, (hS v w).1 hw⟩⟩
  · intro i j
    show j ∈ (if i < g.n then g.neighbours i else g.out i) ↔ ∃ a b, g.nodes[i]? = some a ∧ g.nodes[j]? = some b ∧ Share cs a b
    split
    · exact hN i j
    · next hi =>
      rw [h.n] at hi
      have hnone : g.nodes[i]? = none := by simpa using Nat.le_of_not_lt hi
      rw [h.out]
      constructor
      · rintro ⟨a, b, h1, _⟩; rw [hnone] at h1; cases h1
      · rintro ⟨a, b, h1, _⟩; rw [hnone] at h1; cases h1
  · intro i
    show (if i < g.n then g.neighbours i else g.out i).Nodup
    split
    · exact (List.filter_sublist (p := _)).nodup List.nodup_range
    · next hi =>
      rw [h.n] at hi
      have hnone : g.nodes[i]? = none := by simpa using Nat.le_of_not_lt hi
      have hnil : g.out i = [] := List.eq_nil_iff_forall_not_mem.2 fun j hj => by
        obtain ⟨a, b, h1, _⟩ := (h.out i j).1 hj
        rw [hnone] at h1; cases h1
      rw [hnil]; simp
  · show ((List.range g.n).map fun i => (g.neighbours i).length).sum =
      ((List.range g.n).map fun i => (if i < g.n then g.neighbours i else g.out i).length).sum
    congr 1
    apply List.map_congr_left
    intro i hi
    rw [if_pos (by simpa using hi)]

theorem ofClauses_empty (rtl : Bool) {nv : Nat} {cs : List Clause} (h : [] ∈ cs) : ofClauses rtl nv cs = none := by
  unfold ofClauses
  rw [addClauses_empty rtl cs _ h]; rfl

theorem sum_pos_of_mem {xs : List Nat} {x : Nat} (h : x ∈ xs) (hx : 0 < x) : 0 < xs.sum := by
  induction xs with
  | nil => cases h
  | cons y ys ih =>
    rw [List.sum_cons]
    rcases List.mem_cons.1 h with rfl | h
    · omega
    · have := ih h; omega

theorem Finished.worth {nv : Nat} {cs : List Clause} {g : VarGraph} (h : Finished nv cs g) :
    Cent.worth g = true ↔ ∃ x y, Share cs x y := by
  unfold Cent.worth
  simp only [Bool.and_eq_true, decide_eq_true_eq]
  constructor
  · rintro ⟨h1, -⟩
    rw [h.n] at h1
    obtain ⟨w, hw⟩ := (h.mem (g.nodes[0]'h1)).1 (List.getElem_mem h1)
    exact ⟨_, w, hw⟩
  · rintro ⟨x, y, hxy⟩
    have hx := (h.mem x).2 ⟨y, hxy⟩
    have hy := (h.mem y).2 ⟨x, hxy.1.symm, by obtain ⟨-, c, h1, h2, h3⟩ := hxy; exact ⟨c, h1, h3, h2⟩⟩
    obtain ⟨i, hi, ei⟩ := List.mem_iff_getElem.1 hx
    obtain ⟨j, hj, ej⟩ := List.mem_iff_getElem.1 hy
    refine ⟨by rw [h.n]; omega, ?_⟩
    rw [h.m]
    refine sum_pos_of_mem (x := (g.out i).length) (List.mem_map.2 ⟨i, by rw [List.mem_range, h.n]; exact hi, rfl⟩) ?_
    exact List.length_pos_of_mem ((h.out i j).2 ⟨x, y, by simp [hi, ei], by simp [hj, ej], hxy⟩)

end VarGraph

namespace Cent

open VarGraph

theorem idxOf?_append {v : Nat} : ∀ {ns e : List Nat} {i : Nat}, ns.idxOf? v = some i → (ns ++ e).idxOf? v = some i
  | [], _, _, h => by simp at h
  | x :: xs, e, i, h => by
    rw [List.cons_append, List.idxOf?_cons]
    rw [List.idxOf?_cons] at h
    split
    · next hx => rw [if_pos hx] at h; exact h
    · next hx =>
      rw [if_neg hx] at h
      obtain ⟨j, hj, rfl⟩ := Option.map_eq_some_iff.1 h
      rw [idxOf?_append hj]; rfl

theorem idxOf?_append_none {v : Nat} : ∀ {ns e : List Nat} {i : Nat}, v ∉ ns → (ns ++ e).idxOf? v = some i → ns.length ≤ i
  | [], _, _, _, _ => Nat.zero_le _
  | x :: xs, e, i, hn, h => by
    simp only [List.mem_cons, not_or] at hn
    rw [List.cons_append, List.idxOf?_cons, if_neg (by simpa using fun e => hn.1 e.symm)] at h
    obtain ⟨j, hj, rfl⟩ := Option.map_eq_some_iff.1 h
    have := idxOf?_append_none hn.2 hj
    simp only [List.length_cons]; omega

theorem mapAll_nodes : ∀ (vs : List Nat) (g : VarGraph), ∃ e, vs.foldl (fun g v => (g.mapNode v).1) g = { g with nodes := g.nodes ++ e }
  | [], g => ⟨[], by simp⟩
  | v :: vs, g => by
    obtain ⟨ns, e1, -, c1⟩ := mapNode_spec g v
    obtain ⟨e, h⟩ := mapAll_nodes vs (g.mapNode v).1
    rw [List.foldl_cons, h, e1]
    rcases c1 with ⟨rfl, -⟩ | ⟨-, rfl, -⟩
    · exact ⟨e, rfl⟩
    · exact ⟨v :: e, by simp⟩

/-- The variables whose look-up is in range. -/
def InRange (c : Cent) (v : Nat) : Prop := ∃ i, c.graph.nodes.idxOf? v = some i ∧ i < c.size

theorem lookup_inRange {c : Cent} {v : Nat} (h : c.InRange v) : c.lookup v = some c := by
  obtain ⟨i, h1, h2⟩ := h
  unfold lookup mapNode
  rw [h1]
  dsimp only
  rw [if_pos h2]

theorem lookups_inRange : ∀ {vs : List Nat} {c : Cent}, (∀ v ∈ vs, c.InRange v) → c.lookups vs = some c
  | [], _, _ => rfl
  | v :: vs, c, h => by
    rw [lookups, lookup_inRange (h v (by simp))]
    exact lookups_inRange fun w hw => h w (by simp [hw])

/-- `lookups` of variables in order; defined as a function on states. -/
theorem update_spec {nv : Nat} {cs : List Clause} {g : VarGraph} (h : Finished nv cs g) (c : Cent) (hw : ∃ x y, Share cs x y) (v : Nat) :
    (v ∈ g.nodes → (c.update nv g).InRange v) ∧ (v ∉ g.nodes → (c.update nv g).lookup v = none) := by
  unfold update
  rw [if_pos (h.worth.2 hw)]
  obtain ⟨e, he⟩ := mapAll_nodes (List.range nv) g
  rw [he]
  constructor
  · intro hv
    obtain ⟨i, hi⟩ : ∃ i, g.nodes.idxOf? v = some i := by
      cases hx : g.nodes.idxOf? v with
      | none => exact absurd hv (idxOf?_none hx)
      | some i => exact ⟨i, rfl⟩
    refine ⟨i, idxOf?_append hi, ?_⟩
    have := (List.getElem?_eq_some_iff.1 (idxOf?_some hi)).1
    show i < g.n
    rw [h.n]; exact this
  · intro hv
    unfold lookup mapNode
    dsimp only
    cases hx : (g.nodes ++ e).idxOf? v with
    | none =>
      dsimp only
      rw [if_neg]
      rw [h.n]; simp
    | some i =>
      dsimp only
      rw [if_neg]
      have := idxOf?_append_none hv hx
      rw [h.n]; omega

end Cent

end Candy
