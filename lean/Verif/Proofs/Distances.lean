import Verif.SpecDistance
import Verif.Proofs.Bounding
import Verif.Proofs.Brandes

/-!
# Distances, and the breadth-first search of `eccentricity`
-/

namespace Candy

open Betweenness Distance Brandes

/-- There is a path of `k` edges. -/
def Walk (adj : Nat → Nat → Prop) : Nat → Nat → Nat → Prop
  | 0, s, t => s = t
  | k + 1, s, t => ∃ v, Walk adj k s v ∧ adj v t

variable {adj : Nat → Nat → Prop}

theorem walk_iff : ∀ (k s t : Nat), (∃ p, Path adj s t p ∧ p.length = k + 1) ↔ Walk adj k s t
  | 0, s, t => by
    constructor
    · rintro ⟨p, hp, hl⟩
      rcases path_snoc.1 hp with ⟨e, _⟩ | ⟨q, v, rfl, hq, _⟩
      · exact e
      · have : q = [] := by simpa using hl
        exact absurd this (Brandes.Path.ne_nil hq)
    · rintro rfl
      exact ⟨[s], path_snoc.2 (Or.inl ⟨rfl, rfl⟩), rfl⟩
  | k + 1, s, t => by
    constructor
    · rintro ⟨p, hp, hl⟩
      rcases path_snoc.1 hp with ⟨_, rfl⟩ | ⟨q, v, rfl, hq, ha⟩
      · simp at hl
      · exact ⟨v, (walk_iff k s v).1 ⟨q, hq, by simpa using hl⟩, ha⟩
    · rintro ⟨v, hw, ha⟩
      obtain ⟨q, hq, hl⟩ := (walk_iff k s v).2 hw
      exact ⟨q ++ [t], path_snoc.2 (Or.inr ⟨q, v, rfl, hq, ha⟩), by simp [hl]⟩

theorem path_len {s t : Nat} {p : List Nat} (h : Path adj s t p) : ∃ k, p.length = k + 1 := by
  cases p with
  | nil => exact absurd rfl (Brandes.Path.ne_nil h)
  | cons a p => exact ⟨p.length, rfl⟩

theorem isDist_iff {s t k : Nat} : IsDist adj s t k ↔ Walk adj k s t ∧ ∀ j, Walk adj j s t → k ≤ j := by
  constructor
  · rintro ⟨p, ⟨hp, hmin⟩, hl⟩
    refine ⟨(walk_iff k s t).1 ⟨p, hp, hl⟩, fun j hj => ?_⟩
    obtain ⟨q, hq, hql⟩ := (walk_iff j s t).2 hj
    have := hmin q hq
    omega
  · rintro ⟨hw, hmin⟩
    obtain ⟨p, hp, hl⟩ := (walk_iff k s t).2 hw
    refine ⟨p, ⟨hp, fun q hq => ?_⟩, hl⟩
    obtain ⟨j, hj⟩ := path_len hq
    have := hmin j ((walk_iff j s t).1 ⟨q, hq, hj⟩)
    omega

theorem exists_dist {s t k : Nat} (h : Walk adj k s t) : ∃ j ≤ k, IsDist adj s t j := by
  classical
  have hex : ∃ j, Walk adj j s t := ⟨k, h⟩
  exact ⟨Nat.find hex, Nat.find_le h, isDist_iff.2 ⟨Nat.find_spec hex, fun j hj => Nat.find_le hj⟩⟩

theorem IsDist.unique {s t j k : Nat} (h1 : IsDist adj s t j) (h2 : IsDist adj s t k) : j = k := by
  rw [isDist_iff] at h1 h2
  exact Nat.le_antisymm (h1.2 _ h2.1) (h2.2 _ h1.1)

theorem Walk.trans {s t : Nat} {j : Nat} (h1 : Walk adj j s t) : ∀ {k u : Nat}, Walk adj k t u → Walk adj (j + k) s u
  | 0, _, e => by cases e; exact h1
  | _ + 1, _, ⟨v, hv, ha⟩ => ⟨v, Walk.trans h1 hv, ha⟩

theorem Walk.symm (hs : ∀ a b, adj a b → adj b a) : ∀ {k s t : Nat}, Walk adj k s t → Walk adj k t s
  | 0, _, _, e => Eq.symm e
  | k + 1, s, t, ⟨v, hv, ha⟩ => by
    have h1 : Walk adj 1 t v := ⟨t, rfl, hs _ _ ha⟩
    have := Walk.trans h1 (Walk.symm hs hv)
    rwa [Nat.add_comm] at this

theorem Walk.map {f : Nat → Nat} {adj' : Nat → Nat → Prop} (hf : ∀ a b, adj a b → adj' (f a) (f b)) :
    ∀ {k s t : Nat}, Walk adj k s t → Walk adj' k (f s) (f t)
  | 0, _, _, e => by cases e; rfl
  | _ + 1, _, _, ⟨v, hv, ha⟩ => ⟨f v, Walk.map hf hv, hf _ _ ha⟩

theorem IsEcc.unique {s j k : Nat} (h1 : IsEcc adj s j) (h2 : IsEcc adj s k) : j = k := by
  obtain ⟨⟨t, ht⟩, h1⟩ := h1
  obtain ⟨⟨t', ht'⟩, h2⟩ := h2
  exact Nat.le_antisymm (h2 _ _ ht) (h1 _ _ ht')

/-! ### The search -/

/-- The neighbours that are not pruned. -/
def kept (nbr : Nat → List Nat) (pruned : Nat → Int) (v : Nat) : List Nat := (nbr v).filter fun w => decide (pruned w < 0)

/-- The states of the two searches agree. -/
structure EccBfs.Sim (n : Nat) (b : Bfs) (e : EccBfs) : Prop where
  d : ∀ w, e.d w = if b.d w = n + 1 then -1 else (b.d w : Int)
  q : e.q = b.Q
  le : ∀ w, b.d w ≠ n + 1 → (b.d w : Int) ≤ e.ecc
  att : ∃ w, b.d w ≠ n + 1 ∧ (b.d w : Int) = e.ecc

namespace EccBfs

variable {n : Nat} {nbr : Nat → List Nat} {pruned : Nat → Int}

theorem edge_d (v : Nat) (b : Bfs) (w : Nat) : (Bfs.edge n v b w).d = (Bfs.reach n v b w).d ∧ (Bfs.edge n v b w).Q = (Bfs.reach n v b w).Q := by
  unfold Bfs.edge Bfs.count
  split <;> exact ⟨rfl, rfl⟩

theorem Sim.edge {b : Bfs} {e : EccBfs} (h : Sim n b e) {v w : Nat} (hv : b.d v < n) (hp : pruned w < 0) :
    Sim n (Bfs.edge n v b w) (EccBfs.edge pruned v e w) ∧ (Bfs.edge n v b w).d v = b.d v := by
  obtain ⟨e1, e2⟩ := edge_d (n := n) v b w
  have hdv : e.d v = b.d v := by rw [h.d, if_neg (by omega)]
  by_cases hw : b.d w = n + 1
  · have hvw : v ≠ w := by rintro rfl; omega
    have r1 : (Bfs.reach n v b w).d = upd b.d w (b.d v + 1) := by unfold Bfs.reach; rw [if_pos hw]
    have r2 : (Bfs.reach n v b w).Q = b.Q ++ [w] := by unfold Bfs.reach; rw [if_pos hw]
    have he : EccBfs.edge pruned v e w = ⟨upd e.d w (e.d v + 1), e.q ++ [w], max e.ecc (e.d v + 1)⟩ := by
      unfold EccBfs.edge; rw [if_pos ⟨by rw [h.d, if_pos hw], hp⟩]
    rw [he]
    refine ⟨⟨?_, ?_, ?_, ?_⟩, by rw [e1, r1, upd_ne _ _ hvw]⟩
    · intro x
      rw [e1, r1]
      by_cases hx : x = w
      · subst hx
        simp only [upd_same]
        rw [if_neg (by omega), hdv]; push_cast; rfl
      · simp only [upd_ne _ _ hx]; exact h.d x
    · rw [e2, r2]; show e.q ++ [w] = _; rw [h.q]
    · intro x hx
      rw [e1, r1] at hx ⊢
      show _ ≤ max e.ecc (e.d v + 1)
      by_cases hxw : x = w
      · subst hxw; rw [upd_same, hdv]; push_cast; omega
      · rw [upd_ne _ _ hxw] at hx ⊢
        have := h.le x hx
        omega
    · show ∃ x, _ ∧ _ = max e.ecc (e.d v + 1)
      rw [e1, r1, hdv]
      obtain ⟨y, y1, y2⟩ := h.att
      rcases Int.le_total e.ecc ((b.d v : Int) + 1) with hc | hc
      · exact ⟨w, by rw [upd_same]; omega, by rw [upd_same, Int.max_eq_right hc]; push_cast; rfl⟩
      · have hyw : y ≠ w := by rintro rfl; exact y1 hw
        exact ⟨y, by rw [upd_ne _ _ hyw]; exact y1, by rw [upd_ne _ _ hyw, Int.max_eq_left hc]; exact y2⟩
  · have r : Bfs.reach n v b w = b := by unfold Bfs.reach; rw [if_neg hw]
    have he : EccBfs.edge pruned v e w = e := by
      unfold EccBfs.edge; rw [if_neg]; rintro ⟨h1, _⟩; rw [h.d, if_neg hw] at h1; omega
    rw [he]
    refine ⟨⟨?_, ?_, ?_, ?_⟩, by rw [e1, r]⟩
    · rw [e1, r]; exact h.d
    · rw [e2, r]; exact h.q
    · rw [e1, r]; exact h.le
    · rw [e1, r]; exact h.att

theorem Sim.edges {v : Nat} : ∀ (ws : List Nat) (b : Bfs) (e : EccBfs), Sim n b e → b.d v < n →
    Sim n ((ws.filter fun w => decide (pruned w < 0)).foldl (Bfs.edge n v) b) (ws.foldl (EccBfs.edge pruned v) e)
  | [], _, _, h, _ => h
  | w :: ws, b, e, h, hv => by
    by_cases hp : pruned w < 0
    · rw [List.filter_cons, if_pos (by simpa using hp), List.foldl_cons, List.foldl_cons]
      obtain ⟨h1, h2⟩ := h.edge hv hp
      exact Sim.edges ws _ _ h1 (by rw [h2]; exact hv)
    · rw [List.filter_cons, if_neg (by simpa using hp), List.foldl_cons]
      have he : EccBfs.edge pruned v e w = e := by unfold EccBfs.edge; rw [if_neg]; exact fun h => hp h.2
      rw [he]
      exact Sim.edges ws _ _ h hv

theorem Sim.loop {s : Nat} (hnd : ∀ v < n, (nbr v).Nodup ∧ ∀ w ∈ nbr v, w < n) : ∀ (k : Nat) (b : Bfs) (e : EccBfs), Sim n b e →
    Bfs.Inv n (kept nbr pruned) s b → n ≤ k + b.S.length →
    ∃ e' b', EccBfs.loop n nbr pruned k e = some e' ∧ Sim n b' e' ∧ Bfs.Inv n (kept nbr pruned) s b' ∧ b'.Q = []
  | k, b, e, h, hi, hk => by
    cases hq : b.Q with
    | nil => exact ⟨e, b, by unfold EccBfs.loop; rw [h.q, hq], h, hi, hq⟩
    | cons v q =>
      have hvf : v ∈ b.found := by unfold Bfs.found; rw [hq]; simp
      have hlen := hi.len
      have hfl : b.found.length = b.S.length + (q.length + 1) := by unfold Bfs.found; rw [hq]; simp
      cases k with
      | zero => omega
      | succ k =>
        have hvn := hi.lt v hvf
        have hkn : (kept nbr pruned v).Nodup ∧ ∀ w ∈ kept nbr pruned v, w < n :=
          ⟨(hnd v hvn).1.filter _, fun w hw => (hnd v hvn).2 w (List.mem_filter.1 hw).1⟩
        have hi' := hi.step hq hkn.1 hkn.2
        have hdv : b.d v < n := Nat.lt_of_lt_of_le (hi.small v hvf) hlen
        have h' : Sim n { b with Q := q, S := v :: b.S } { e with q := q } := ⟨h.d, rfl, h.le, h.att⟩
        have h'' := Sim.edges (pruned := pruned) (v := v) (nbr v) _ _ h' hdv
        obtain ⟨e', b', r1, r2⟩ := Sim.loop hnd k _ _ h'' hi' (by
          have hS : ((kept nbr pruned v).foldl (Bfs.edge n v) { b with Q := q, S := v :: b.S }).S = v :: b.S :=
            (Bfs.foldl_edge (n := n) (v := v) (kept nbr pruned v) { b with Q := q, S := v :: b.S } hkn.1 hdv).2.2.1
          unfold kept at hS
          rw [hS]
          simp only [List.length_cons]
          omega)
        refine ⟨e', b', ?_, r2⟩
        unfold EccBfs.loop
        rw [h.q, hq]
        simp only
        rw [if_pos ⟨hvn, (hnd v hvn).2⟩]
        exact r1

end EccBfs

/-- What `eccentricity` computes. -/
theorem eccentricity_spec {n : Nat} {nbr : Nat → List Nat} {pruned : Nat → Int} (hnd : ∀ v < n, (nbr v).Nodup ∧ ∀ w ∈ nbr v, w < n)
    {s : Nat} (hs : s < n) : ∃ (d : Nat → Int) (k : Nat), eccentricity n nbr pruned s = some (d, (k : Int)) ∧
      (∀ t j : Nat, d t = j ↔ IsDist (Adj (kept nbr pruned)) s t j) ∧ (∀ t, d t = -1 ↔ ∀ j, ¬ IsDist (Adj (kept nbr pruned)) s t j) ∧
      IsEcc (Adj (kept nbr pruned)) s k ∧
      ∃ L : List Nat, L.Nodup ∧ (∀ x ∈ L, ∃ j, IsDist (Adj (kept nbr pruned)) s x j) ∧ k < L.length := by
  have hsim : EccBfs.Sim n (Bfs.start n s) (EccBfs.start s) := by
    refine ⟨?_, rfl, ?_, ⟨s, ?_, ?_⟩⟩
    · intro w
      by_cases h : w = s
      · subst h; simp [EccBfs.start, Bfs.start, upd_same]
      · simp [EccBfs.start, Bfs.start, upd_ne _ _ h]
    · intro w
      by_cases h : w = s
      · subst h; simp [EccBfs.start, Bfs.start, upd_same]
      · simp [Bfs.start, upd_ne _ _ h]
    · simp [Bfs.start]
    · simp [EccBfs.start, Bfs.start]
  obtain ⟨e, b, e1, h, hi, hq⟩ := EccBfs.Sim.loop hnd n _ _ hsim (Bfs.Inv.start hs) (by omega)
  have hd : ∀ t, b.d t ≠ n + 1 → IsDist (Adj (kept nbr pruned)) s t (b.d t) := by
    intro t ht
    have htf := (hi.vis t).2 ht
    obtain ⟨p, hp⟩ := List.exists_mem_of_ne_nil _ (pathList_ne_nil hi hq _ t htf rfl)
    exact ⟨p, (shortest_iff hi hq htf p).2 hp, ((mem_pathList hi hq _ t htf rfl p).1 hp).2⟩
  have hf : ∀ t j, IsDist (Adj (kept nbr pruned)) s t j → b.d t ≠ n + 1 ∧ b.d t = j := by
    intro t j hj
    obtain ⟨p, ⟨hp, _⟩, _⟩ := id hj
    have hne := (hi.vis t).1 (path_found hi hq _ p t rfl hp).1
    exact ⟨hne, IsDist.unique (hd t hne) hj⟩
  obtain ⟨w, w1, w2⟩ := h.att
  refine ⟨e.d, b.d w, ?_, ?_, ?_, ⟨⟨w, hd w w1⟩, ?_⟩, ?_⟩
  · unfold eccentricity
    rw [if_pos ⟨by omega, by omega⟩, Int.toNat_natCast, e1, w2]
    rfl
  · intro t j
    rw [h.d]
    constructor
    · intro ht
      by_cases hn : b.d t = n + 1
      · rw [if_pos hn] at ht; omega
      · rw [if_neg hn] at ht
        have := hd t hn
        rwa [show b.d t = j by omega] at this
    · intro hj
      obtain ⟨h1, h2⟩ := hf t j hj
      rw [if_neg h1, h2]
  · intro t
    rw [h.d]
    constructor
    · intro ht j hj
      rw [if_neg (hf t j hj).1] at ht
      omega
    · intro hj
      by_cases hn : b.d t = n + 1
      · rw [if_pos hn]
      · exact absurd (hd t hn) (hj _)
  · intro t j hj
    obtain ⟨h1, h2⟩ := hf t j hj
    have := h.le t h1
    omega
  · exact ⟨b.found, hi.nodup, fun x hx => ⟨_, hd x ((hi.vis x).1 hx)⟩, hi.small w ((hi.vis w).2 w1)⟩

end Candy
