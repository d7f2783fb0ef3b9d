import Verif.Model.Distance
import Verif.Proofs.Distances
import Verif.SpecDistances

/-!
# The breadth-first search for distances in a directed graph
-/

namespace Candy.Dst

open Distance

variable {n : Nat} {out : Nat → List Nat} {α : Type}

/-- The last step of a walk. -/
theorem dist_pred {u w k : Nat} (h : IsDist (Edge out) u w (k + 1)) : ∃ p, IsDist (Edge out) u p k ∧ w ∈ out p := by
  rw [isDist_iff] at h
  obtain ⟨⟨p, hp, he⟩, hmin⟩ := h
  refine ⟨p, isDist_iff.2 ⟨hp, fun j hj => ?_⟩, he⟩
  have := hmin (j + 1) ⟨p, hj, he⟩
  omega

theorem dist_zero (u : Nat) : IsDist (Edge out) u u 0 := isDist_iff.2 ⟨(rfl : Walk _ 0 u u), fun _ _ => Nat.zero_le _⟩

theorem dist_zero_eq {u w : Nat} (h : IsDist (Edge out) u w 0) : w = u := by
  have h0 : u = w := (isDist_iff.1 h).1
  exact h0.symm

/-- The invariant while the edges of `v` are visited; `ws` are the edges that are left. -/
structure Inner (out : Nat → List Nat) (u v : Nat) (ws : List Nat) (d : Nat → Int) (q : List Nat) : Prop where
  start : d u = 0
  range : ∀ w, d w = -1 ∨ 0 ≤ d w
  exact' : ∀ w (k : Nat), d w = k → IsDist (Edge out) u w k
  cur : 0 ≤ d v ∧ v ∉ q
  queue : ∀ x ∈ q, d v ≤ d x ∧ d x ≤ d v + 1
  order : q.Pairwise fun a b => d a ≤ d b
  nodup : q.Nodup
  proc : ∀ x, 0 ≤ d x → x ∉ q → ∀ w ∈ out x, 0 ≤ d w ∨ (x = v ∧ w ∈ ws)

/-- Nodes that are not farther than the current one have been reached. -/
theorem Inner.found {u v : Nat} {ws : List Nat} {d : Nat → Int} {q : List Nat} (h : Inner out u v ws d q) : ∀ (k w : Nat),
    IsDist (Edge out) u w k → (k : Int) ≤ d v → d w = k
  | 0, w, hw, _ => by rw [dist_zero_eq hw, h.start]; rfl
  | k + 1, w, hw, hk => by
    obtain ⟨p, hp, he⟩ := dist_pred hw
    have hpd := h.found k p hp (by omega)
    have hpq : p ∉ q := fun hm => by have := h.queue p hm; omega
    have hpv : p ≠ v := by rintro rfl; omega
    rcases h.proc p (by omega) hpq w he with h1 | ⟨h1, _⟩
    · have := h.exact' w (d w).toNat (by omega)
      have := IsDist.unique hw this
      omega
    · exact absurd h1 hpv

/-- A node is reached. -/
theorem Inner.reach {u v w : Nat} {ws : List Nat} {d : Nat → Int} {q : List Nat} (h : Inner out u v (w :: ws) d q) (he : w ∈ out v)
    (hw : d w = -1) : Inner out u v ws (upd d w (d v + 1)) (q ++ [w]) ∧ IsDist (Edge out) u w (d v + 1).toNat := by
  have hwu : u ≠ w := by rintro rfl; rw [h.start] at hw; omega
  have hwv : v ≠ w := by rintro rfl; have := h.cur; omega
  have hwq : w ∉ q := fun hm => by have := h.queue w hm; have := h.cur.1; omega
  have hx : IsDist (Edge out) u w (d v + 1).toNat := by
    have hv := h.cur.1
    have hdv := h.exact' v (d v).toNat (by omega)
    have e : (d v + 1).toNat = (d v).toNat + 1 := by omega
    rw [e]
    refine isDist_iff.2 ⟨⟨v, (isDist_iff.1 hdv).1, he⟩, fun j hj => ?_⟩
    apply Decidable.byContradiction
    intro hlt
    obtain ⟨i, hi, hd⟩ := exists_dist hj
    have := h.found i w hd (by omega)
    omega
  have hq : ∀ x ∈ q, upd d w (d v + 1) x = d x := fun x hm => upd_ne _ _ (by rintro rfl; exact hwq hm)
  have hmono : ∀ x, 0 ≤ d x → 0 ≤ upd d w (d v + 1) x := by
    intro x hx; rw [upd_apply]; split
    · have := h.cur.1; omega
    · exact hx
  refine ⟨⟨?_, ?_, ?_, ?_, ?_, ?_, ?_, ?_⟩, hx⟩
  · rw [upd_ne _ _ hwu]; exact h.start
  · intro x; rw [upd_apply]; split
    · have := h.cur.1; omega
    · exact h.range x
  · intro x k hk
    rw [upd_apply] at hk
    split at hk
    · next e => rw [e, show k = (d v + 1).toNat by omega]; exact hx
    · exact h.exact' x k hk
  · rw [upd_ne _ _ hwv]
    refine ⟨h.cur.1, ?_⟩
    simp only [List.mem_append, List.mem_singleton, not_or]
    exact ⟨h.cur.2, hwv⟩
  · intro x hx
    rw [upd_ne d _ hwv]
    simp only [List.mem_append, List.mem_singleton] at hx
    rcases hx with hx | rfl
    · rw [hq x hx]; exact h.queue x hx
    · rw [upd_same]; omega
  · refine List.pairwise_append.2 ⟨h.order.imp_of_mem fun {a b} ha hb hab => by rw [hq a ha, hq b hb]; exact hab, by simp, ?_⟩
    intro a ha b hb
    rw [List.mem_singleton.1 hb, hq a ha, upd_same]
    exact (h.queue a ha).2
  · rw [List.nodup_append]
    refine ⟨h.nodup, by simp, ?_⟩
    rintro a ha b hb rfl
    exact hwq (by rwa [List.mem_singleton.1 hb] at ha)
  · intro x hx hxq y hy
    simp only [List.mem_append, List.mem_singleton, not_or] at hxq
    rw [upd_ne _ _ hxq.2] at hx
    rcases h.proc x hx hxq.1 y hy with h1 | ⟨h1, h2⟩
    · exact Or.inl (hmono y h1)
    · rcases List.mem_cons.1 h2 with rfl | h2
      · left; rw [upd_same]; have := h.cur.1; omega
      · exact Or.inr ⟨h1, h2⟩

theorem Inner.skip {u v w : Nat} {ws : List Nat} {d : Nat → Int} {q : List Nat} (h : Inner out u v (w :: ws) d q) (hw : d w ≠ -1) :
    Inner out u v ws d q := by
  refine ⟨h.start, h.range, h.exact', h.cur, h.queue, h.order, h.nodup, fun x hx hxq y hy => ?_⟩
  rcases h.proc x hx hxq y hy with h1 | ⟨h1, h2⟩
  · exact Or.inl h1
  · rcases List.mem_cons.1 h2 with rfl | h2
    · rcases h.range y with h3 | h3
      · exact absurd h3 hw
      · exact Or.inl h3
    · exact Or.inr ⟨h1, h2⟩

/-- The invariant of the loop over the queue. -/
structure Outer (n : Nat) (out : Nat → List Nat) (u : Nat) (d : Nat → Int) (q : List Nat) : Prop where
  start : d u = 0
  range : ∀ w, d w = -1 ∨ 0 ≤ d w
  exact' : ∀ w (k : Nat), d w = k → IsDist (Edge out) u w k
  pos : ∀ x ∈ q, 0 ≤ d x
  queue : ∀ x ∈ q, ∀ y ∈ q, d y ≤ d x + 1
  order : q.Pairwise fun a b => d a ≤ d b
  nodup : q.Nodup
  proc : ∀ x, 0 ≤ d x → x ∉ q → ∀ w ∈ out x, 0 ≤ d w

theorem Outer.inner {u v : Nat} {d : Nat → Int} {q : List Nat} (h : Outer n out u d (v :: q)) : Inner out u v (out v) d q := by
  obtain ⟨o1, o2⟩ := List.pairwise_cons.1 h.order
  obtain ⟨n1, n2⟩ := List.nodup_cons.1 h.nodup
  refine ⟨h.start, h.range, h.exact', ⟨h.pos v (by simp), n1⟩, fun x hx => ⟨o1 x hx, h.queue v (by simp) x (by simp [hx])⟩, o2, n2, ?_⟩
  intro x hx hxq w hw
  by_cases hxv : x = v
  · subst hxv; exact Or.inr ⟨rfl, hw⟩
  · exact Or.inl (h.proc x hx (by simp [hxv, hxq]) w hw)

theorem Inner.outer {u v : Nat} {d : Nat → Int} {q : List Nat} (h : Inner out u v [] d q) : Outer n out u d q := by
  refine ⟨h.start, h.range, h.exact', fun x hx => ?_, fun x hx y hy => ?_, h.order, h.nodup, fun x hx hxq w hw => ?_⟩
  · have := h.queue x hx; have := h.cur; omega
  · have := h.queue x hx; have := h.queue y hy; omega
  · rcases h.proc x hx hxq w hw with h | ⟨_, h⟩
    · exact h
    · cases h

theorem Outer.init (u : Nat) : Outer n out u (upd (fun _ => -1) u 0) [u] := by
  have h : ∀ x, x ≠ u → upd (fun _ => (-1 : Int)) u 0 x = -1 := fun x hx => upd_ne _ _ hx
  refine ⟨upd_same .., fun w => ?_, fun w k hk => ?_, ?_, ?_, by simp, by simp, ?_⟩
  · rw [upd_apply]; split <;> omega
  · by_cases hw : w = u
    · subst hw; rw [upd_same] at hk
      rw [show k = 0 by omega]; exact dist_zero _
    · rw [h w hw] at hk; omega
  · intro x hx; rw [List.mem_singleton.1 hx, upd_same]
  · intro x hx y hy; rw [List.mem_singleton.1 hx, List.mem_singleton.1 hy]; omega
  · intro x hx hxq
    rw [h x (by simpa using hxq)] at hx; omega

/-- When the queue is empty all nodes that can be reached have been reached. -/
theorem Outer.done {u : Nat} {d : Nat → Int} (h : Outer n out u d []) (w k : Nat) : d w = k ↔ IsDist (Edge out) u w k := by
  refine ⟨h.exact' w k, fun hw => ?_⟩
  have key : ∀ (k w : Nat), IsDist (Edge out) u w k → 0 ≤ d w := by
    intro k
    induction k with
    | zero => intro w hw; rw [dist_zero_eq hw, h.start]
    | succ k ih =>
      intro w hw
      obtain ⟨p, hp, he⟩ := dist_pred hw
      exact h.proc p (ih p hp) (by simp) w he
  have h1 := h.exact' w (d w).toNat (by have := key k w hw; omega)
  have := IsDist.unique hw h1
  have := key k w hw
  omega

theorem Outer.done_none {u : Nat} {d : Nat → Int} (h : Outer n out u d []) (w : Nat) : d w = -1 ↔ ∀ k, ¬ IsDist (Edge out) u w k := by
  constructor
  · intro hw k hk
    rw [← h.done] at hk; omega
  · intro hw
    rcases h.range w with h1 | h1
    · exact h1
    · exact absurd ((h.done w (d w).toNat).1 (by omega)) (hw _)

/-- Distances are less than the number of nodes. -/
theorem dist_lt (hn : ∀ v < n, ∀ w ∈ out v, w < n) {u : Nat} (hu : u < n) {w k : Nat} (h : IsDist (Edge out) u w k) : k < n := by
  have hlt : ∀ (k w : Nat), IsDist (Edge out) u w k → w < n := by
    intro k
    induction k with
    | zero => intro w hw; rw [dist_zero_eq hw]; exact hu
    | succ k ih =>
      intro w hw
      obtain ⟨p, hp, he⟩ := dist_pred hw
      exact hn p (ih p hp) w he
  have key : ∀ (k w : Nat), IsDist (Edge out) u w k → ∃ L : List Nat, L.length = k + 1 ∧ L.Nodup ∧ (∀ x ∈ L, ∃ j ≤ k, IsDist (Edge out) u x j) := by
    intro k
    induction k with
    | zero => intro w hw; exact ⟨[w], rfl, by simp, fun x hx => ⟨0, Nat.le_refl _, by rw [List.mem_singleton.1 hx]; exact hw⟩⟩
    | succ k ih =>
      intro w hw
      obtain ⟨p, hp, he⟩ := dist_pred hw
      obtain ⟨L, l1, l2, l3⟩ := ih p hp
      refine ⟨w :: L, by simp [l1], List.nodup_cons.2 ⟨fun hm => ?_, l2⟩, ?_⟩
      · obtain ⟨j, hj, hd⟩ := l3 w hm
        have := IsDist.unique hw hd; omega
      · intro x hx
        rcases List.mem_cons.1 hx with rfl | hx
        · exact ⟨k + 1, Nat.le_refl _, hw⟩
        · obtain ⟨j, hj, hd⟩ := l3 x hx
          exact ⟨j, by omega, hd⟩
  obtain ⟨L, l1, l2, l3⟩ := key k w h
  have hs : L ⊆ List.range n := fun x hx => by
    obtain ⟨j, _, hd⟩ := l3 x hx
    exact List.mem_range.2 (hlt j x hd)
  have := (List.subperm_of_subset l2 hs).length_le
  rw [List.length_range] at this
  omega

/-! ### The search with an additional statement -/

/-- Number of rounds that are left. -/
def unseen (n : Nat) (d : Nat → Int) : Nat := (List.range n).countP fun w => decide (d w = -1)

theorem unseen_reach {d : Nat → Int} {w : Nat} {x : Int} (hw : w < n) (h : d w = -1) (hx : x ≠ -1) :
    unseen n (upd d w x) + 1 = unseen n d := by
  have key : ∀ l : List Nat, l.Nodup → (l.countP fun v => decide (upd d w x v = -1)) + (if w ∈ l then 1 else 0) = l.countP fun v => decide (d v = -1) := by
    intro l
    induction l with
    | nil => intro _; rfl
    | cons a l ih =>
      intro hnd
      obtain ⟨n1, n2⟩ := List.nodup_cons.1 hnd
      have ih := ih n2
      rw [List.countP_cons, List.countP_cons]
      by_cases ha : a = w
      · subst ha
        simp only [upd_same, hx, h, n1, if_false, decide_false, Bool.false_eq_true, List.mem_cons, true_or, if_true, decide_true] at ih ⊢
        omega
      · simp only [upd_ne _ _ ha, List.mem_cons, Ne.symm ha, false_or]
        omega
  have := key (List.range n) List.nodup_range
  rw [if_pos (by simpa using hw)] at this
  exact this

/-- The nodes other than `u` that were reached, in this order. -/
structure Trace (f : α → Nat → Int → Option α) (u : Nat) (a0 : α) (L : List Nat) (d : Nat → Int) (a : α) : Prop where
  nodup : L.Nodup
  mem : ∀ w, w ∈ L ↔ 0 ≤ d w ∧ w ≠ u
  fold : L.foldlM (fun a w => f a w (d w)) a0 = some a

theorem foldlM_congr {β : Type} {f g : β → Nat → Option β} : ∀ (l : List Nat) (b : β), (∀ w ∈ l, ∀ b, f b w = g b w) → l.foldlM f b = l.foldlM g b
  | [], _, _ => rfl
  | w :: l, b, h => by
    rw [List.foldlM_cons, List.foldlM_cons, h w (by simp)]
    congr 1
    funext b'
    exact foldlM_congr l b' fun v hv => h v (by simp [hv])

theorem edges_spec {f : α → Nat → Int → Option α} (hn : ∀ v < n, ∀ w ∈ out v, w < n) {u : Nat} (hu : u < n) {a0 : α}
    (hf : ∀ a w (k : Int), w < n → 1 ≤ k → k < n → (f a w k).isSome = true) {v : Nat} :
    ∀ (ws : List Nat) (s : Search α) (L : List Nat), Inner out u v ws s.d s.q → Trace f u a0 L s.d s.acc → (∀ w ∈ ws, w ∈ out v ∧ w < n) →
      ∃ s' L', ws.foldlM (Search.edge f v) s = some s' ∧ Inner out u v [] s'.d s'.q ∧ Trace f u a0 L' s'.d s'.acc ∧
        s'.q.length + unseen n s'.d = s.q.length + unseen n s.d
  | [], s, L, h, ht, _ => ⟨s, L, rfl, h, ht, rfl⟩
  | w :: ws, s, L, h, ht, hw => by
    obtain ⟨hwv, hwn⟩ := hw w (by simp)
    have hws : ∀ x ∈ ws, x ∈ out v ∧ x < n := fun x hx => hw x (by simp [hx])
    rw [List.foldlM_cons]
    by_cases hd : s.d w = -1
    · obtain ⟨h1, h2⟩ := h.reach hwv hd
      have hk := dist_lt hn hu h2
      have hv := h.cur.1
      obtain ⟨a, ha⟩ := Option.isSome_iff_exists.1 (hf s.acc w (s.d v + 1) hwn (by omega) (by omega))
      have e : Search.edge f v s w = some ⟨upd s.d w (s.d v + 1), s.q ++ [w], a⟩ := by simp [Search.edge, hd, ha]
      have hwu : w ≠ u := by rintro rfl; rw [h.start] at hd; omega
      have hwL : w ∉ L := fun hm => by have := (ht.mem w).1 hm; omega
      have ht' : Trace f u a0 (L ++ [w]) (upd s.d w (s.d v + 1)) a := by
        refine ⟨?_, fun x => ?_, ?_⟩
        · rw [List.nodup_append]
          refine ⟨ht.nodup, by simp, ?_⟩
          rintro x hx y hy rfl
          exact hwL (by rwa [List.mem_singleton.1 hy] at hx)
        · simp only [List.mem_append, List.mem_singleton, ht.mem x]
          by_cases hxw : x = w
          · subst hxw; rw [upd_same]; exact ⟨fun _ => ⟨by omega, hwu⟩, fun _ => Or.inr rfl⟩
          · rw [upd_ne _ _ hxw]; simp [hxw]
        · rw [List.foldlM_append, foldlM_congr L a0 (g := fun a x => f a x (s.d x)), ht.fold]
          · simp [ha]
          · intro x hx b
            rw [upd_ne _ _ (by rintro rfl; exact hwL hx)]
      rw [e]
      obtain ⟨s', L', g1, g2, g3, g4⟩ := edges_spec hn hu hf ws ⟨upd s.d w (s.d v + 1), s.q ++ [w], a⟩ (L ++ [w]) h1 ht' hws
      refine ⟨s', L', g1, g2, g3, ?_⟩
      have := unseen_reach (x := s.d v + 1) hwn hd (by omega)
      simp only [List.length_append, List.length_singleton] at g4
      omega
    · have e : Search.edge f v s w = some s := by simp [Search.edge, hd]
      rw [e]
      exact edges_spec hn hu hf ws s L (h.skip hd) ht hws

theorem loop_spec {f : α → Nat → Int → Option α} (hn : ∀ v < n, ∀ w ∈ out v, w < n) {u : Nat} (hu : u < n) {a0 : α}
    (hf : ∀ a w (k : Int), w < n → 1 ≤ k → k < n → (f a w k).isSome = true) :
    ∀ (k : Nat) (s : Search α) (L : List Nat), Outer n out u s.d s.q → Trace f u a0 L s.d s.acc → (∀ x ∈ s.q, x < n) →
      s.q.length + unseen n s.d ≤ k →
      ∃ s' L', Search.loop n out f k s = some s' ∧ Outer n out u s'.d [] ∧ Trace f u a0 L' s'.d s'.acc := by
  intro k
  induction k with
  | zero =>
    intro s L h ht _ hk
    have hq : s.q = [] := List.length_eq_zero_iff.1 (by omega)
    refine ⟨s, L, ?_, hq ▸ h, ht⟩
    unfold Search.loop; rw [hq]
  | succ k ih =>
    intro s L h ht hl hk
    cases hq : s.q with
    | nil =>
      refine ⟨s, L, ?_, hq ▸ h, ht⟩
      unfold Search.loop; rw [hq]
    | cons v q =>
      rw [hq] at h hl hk
      have hv := hl v (by simp)
      obtain ⟨s', L', g1, g2, g3, g4⟩ := edges_spec hn hu hf (v := v) (out v) { s with q := q } L h.inner ht (fun w hw => ⟨hw, hn v hv w hw⟩)
      simp only [List.length_cons] at hk g4
      have hl' : ∀ x ∈ s'.q, x < n := by
        intro x hx
        have hp := (g2.outer (n := n)).pos x hx
        have hd := g2.exact' x (s'.d x).toNat (by omega)
        have : ∀ (k w : Nat), IsDist (Edge out) u w k → w < n := by
          intro k
          induction k with
          | zero => intro w hw; rw [dist_zero_eq hw]; exact hu
          | succ k ih =>
            intro w hw
            obtain ⟨p, hp, he⟩ := dist_pred hw
            exact hn p (ih p hp) w he
        exact this _ x hd
      obtain ⟨s'', L'', e1, e2, e3⟩ := ih s' L' g2.outer g3 hl' (by omega)
      refine ⟨s'', L'', ?_, e2, e3⟩
      unfold Search.loop
      rw [hq]
      simp only
      rw [if_pos ⟨hv, hn v hv⟩, g1]
      exact e1

/-- The results of a search. -/
theorem search_spec {f : α → Nat → Int → Option α} (hn : ∀ v < n, ∀ w ∈ out v, w < n) {u : Nat} (hu : u < n) (a0 : α)
    (hf : ∀ a w (k : Int), w < n → 1 ≤ k → k < n → (f a w k).isSome = true) :
    ∃ s L, search n out f u a0 = some s ∧ (∀ w (k : Nat), s.d w = k ↔ IsDist (Edge out) u w k) ∧
      (∀ w, s.d w = -1 ↔ ∀ k, ¬ IsDist (Edge out) u w k) ∧ Trace f u a0 L s.d s.acc := by
  have h0 : Trace f u a0 [] (upd (fun _ => -1) u 0) a0 := by
    refine ⟨by simp, fun w => ?_, rfl⟩
    by_cases hw : w = u
    · simp [hw]
    · rw [upd_ne _ _ hw]; simp
  have hk : unseen n (upd (fun _ => (-1 : Int)) u 0) + 1 = n := by
    rw [unseen_reach hu rfl (by omega)]
    simp [unseen]
  obtain ⟨s, L, h1, h2, h3⟩ := loop_spec hn hu hf n ⟨upd (fun _ => -1) u 0, [u], a0⟩ [] (Outer.init u) h0 (by simpa using hu)
    (by simp only [List.length_singleton]; omega)
  exact ⟨s, L, by rw [search, if_pos hu]; exact h1, h2.done, h2.done_none, h3⟩

end Candy.Dst
