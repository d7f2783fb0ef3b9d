import Verif.Model.Betweenness
import Verif.Proofs.Basic
import Mathlib.Algebra.Order.Field.Rat
import Mathlib.Data.List.Perm.Subperm

/-!
# Lemmas about the breadth-first search
-/

namespace Candy.Bfs

/-- What the loop over the neighbours does as a whole. -/
theorem foldl_edge {n v : Nat} : ∀ (ws : List Nat) (b : Bfs), ws.Nodup → b.d v < n →
    let b' := ws.foldl (edge n v) b
    (∀ w, b'.d w = if w ∈ ws ∧ b.d w = n + 1 then b.d v + 1 else b.d w) ∧
    b'.Q = b.Q ++ ws.filter (fun w => b.d w == n + 1) ∧ b'.S = b.S ∧
    (∀ w, b'.sp w = if w ∈ ws ∧ b'.d w = b.d v + 1 then b.sp w + b.sp v else b.sp w) ∧
    (∀ w, b'.P w = if w ∈ ws ∧ b'.d w = b.d v + 1 then b.P w ++ [v] else b.P w)
  | [], b, _, _ => by simp
  | x :: ws, b, hn, hv => by
    obtain ⟨hx, hn⟩ := List.nodup_cons.1 hn
    -- the first edge
    have e : (∀ w, (edge n v b x).d w = if w = x ∧ b.d w = n + 1 then b.d v + 1 else b.d w) ∧
        (edge n v b x).Q = b.Q ++ [x].filter (fun w => b.d w == n + 1) ∧ (edge n v b x).S = b.S ∧
        (∀ w, (edge n v b x).sp w = if w = x ∧ (edge n v b x).d w = b.d v + 1 then b.sp w + b.sp v else b.sp w) ∧
        (∀ w, (edge n v b x).P w = if w = x ∧ (edge n v b x).d w = b.d v + 1 then b.P w ++ [v] else b.P w) := by
      by_cases h1 : b.d x = n + 1
      · have hvx : v ≠ x := fun e => by subst e; omega
        have ev : upd b.d x (b.d v + 1) v = b.d v := upd_ne _ _ hvx
        have ex : upd b.d x (b.d v + 1) x = b.d v + 1 := upd_same _ _ _
        have : edge n v b x = { b with d := upd b.d x (b.d v + 1), Q := b.Q ++ [x], sp := upd b.sp x (b.sp x + b.sp v),
                                       P := upd b.P x (b.P x ++ [v]) } := by
          unfold edge reach
          rw [if_pos h1]
          unfold count
          exact if_pos (ex.trans (congrArg (· + 1) ev.symm))
        rw [this]
        refine ⟨fun w => ?_, by simp [h1], rfl, fun w => ?_, fun w => ?_⟩
        · by_cases hw : w = x
          · subst hw; simp [upd_same, h1]
          · simp [upd_ne _ _ hw, hw]
        · by_cases hw : w = x
          · subst hw; simp [upd_same]
          · simp [upd_ne _ _ hw, hw]
        · by_cases hw : w = x
          · subst hw; simp [upd_same]
          · simp [upd_ne _ _ hw, hw]
      · by_cases h2 : b.d x = b.d v + 1
        · have : edge n v b x = { b with sp := upd b.sp x (b.sp x + b.sp v), P := upd b.P x (b.P x ++ [v]) } := by
            unfold edge reach
            rw [if_neg h1]
            unfold count
            rw [if_pos h2]
          rw [this]
          refine ⟨fun w => ?_, by simp [h1], rfl, fun w => ?_, fun w => ?_⟩
          · by_cases hw : w = x
            · subst hw; simp [h1]
            · simp [hw]
          · by_cases hw : w = x
            · subst hw; simp [upd_same, h2]
            · simp [upd_ne _ _ hw, hw]
          · by_cases hw : w = x
            · subst hw; simp [upd_same, h2]
            · simp [upd_ne _ _ hw, hw]
        · have : edge n v b x = b := by
            unfold edge reach
            rw [if_neg h1]
            unfold count
            rw [if_neg h2]
          rw [this]
          refine ⟨fun w => ?_, by simp [h1], rfl, fun w => ?_, fun w => ?_⟩
          · by_cases hw : w = x
            · subst hw; simp [h1]
            · simp [hw]
          · by_cases hw : w = x
            · subst hw; simp [h2]
            · simp [hw]
          · by_cases hw : w = x
            · subst hw; simp [h2]
            · simp [hw]
    obtain ⟨e1, e2, e3, e4, e5⟩ := e
    have ev : (edge n v b x).d v = b.d v := by
      rw [e1, if_neg (by rintro ⟨_, h⟩; omega)]
    have esp : (edge n v b x).sp v = b.sp v := by
      rw [e4, if_neg]
      rintro ⟨rfl, h⟩
      rw [ev] at h
      omega
    obtain ⟨g1, g2, g3, g4, g5⟩ := foldl_edge ws (edge n v b x) hn (by rw [ev]; exact hv)
    dsimp only
    rw [List.foldl_cons]
    have hd : ∀ w, (ws.foldl (edge n v) (edge n v b x)).d w = if w ∈ x :: ws ∧ b.d w = n + 1 then b.d v + 1 else b.d w := by
      intro w
      rw [g1, ev, e1]
      by_cases hw : w = x
      · subst hw
        by_cases h : b.d w = n + 1
        · simp [h, hx]
        · simp [h, hx]
      · simp [hw]
    have hdx : (ws.foldl (edge n v) (edge n v b x)).d x = (edge n v b x).d x := by
      rw [hd, e1]; simp
    refine ⟨hd, ?_, by rw [g3, e3], fun w => ?_, fun w => ?_⟩
    · rw [g2, e2]
      have : ws.filter (fun w => (edge n v b x).d w == n + 1) = ws.filter (fun w => b.d w == n + 1) := by
        refine List.filter_congr fun w hw => ?_
        have hwx : w ≠ x := fun e => hx (e ▸ hw)
        rw [e1, if_neg (by simp [hwx])]
      rw [this, List.append_assoc, ← List.filter_append]
      rfl
    · rw [g4, ev, esp]
      by_cases hw : w = x
      · subst hw
        rw [if_neg (by simp [hx]), e4, hdx]
        simp
      · have e := e4 w
        rw [if_neg (by simp [hw])] at e
        rw [e]
        simp [hw]
    · rw [g5, ev]
      by_cases hw : w = x
      · subst hw
        rw [if_neg (by simp [hx]), e5, hdx]
        simp
      · have e := e5 w
        rw [if_neg (by simp [hw])] at e
        rw [e]
        simp [hw]

/-- The order in which nodes are found. -/
def found (b : Bfs) : List Nat := b.S.reverse ++ b.Q

/-- The edge from `v` to `w` is on a shortest path. -/
def Tight (nbr : Nat → List Nat) (d : Nat → Nat) (v w : Nat) : Prop := w ∈ nbr v ∧ d w = d v + 1

instance (nbr : Nat → List Nat) (d : Nat → Nat) (v w : Nat) : Decidable (Tight nbr d v w) := by unfold Tight; infer_instance

structure Inv (n : Nat) (nbr : Nat → List Nat) (s : Nat) (b : Bfs) : Prop where
  nodup : b.found.Nodup
  lt : ∀ v ∈ b.found, v < n
  vis : ∀ v, v ∈ b.found ↔ b.d v ≠ n + 1
  src : s ∈ b.found ∧ b.d s = 0
  small : ∀ v ∈ b.found, b.d v < b.found.length
  sorted : b.found.Pairwise fun u v => b.d u ≤ b.d v
  top : ∀ v, b.Q.head? = some v → ∀ w ∈ b.found, b.d w ≤ b.d v + 1
  edges : ∀ v ∈ b.S, ∀ w ∈ nbr v, w ∈ b.found ∧ b.d w ≤ b.d v + 1
  pred : ∀ w ∈ b.found, w ≠ s → ∃ v ∈ b.S, Tight nbr b.d v w
  P : ∀ w, b.P w = b.S.reverse.filter fun v => Tight nbr b.d v w
  sp : ∀ w, b.sp w = (if w = s then 1 else 0) + ((b.P w).map b.sp).sum

theorem nodup_length_le : ∀ {l : List Nat} {n : Nat}, l.Nodup → (∀ v ∈ l, v < n) → l.length ≤ n := by
  intro l n h1 h2
  have : l.length ≤ (List.range n).length := by
    refine (List.Nodup.subperm h1 fun v hv => List.mem_range.2 (h2 v hv)).length_le
  simpa using this

theorem Inv.len {n : Nat} {nbr : Nat → List Nat} {s : Nat} {b : Bfs} (h : Inv n nbr s b) : b.found.length ≤ n :=
  nodup_length_le h.nodup h.lt

theorem Inv.start {n : Nat} {nbr : Nat → List Nat} {s : Nat} (hs : s < n) : Inv n nbr s (start n s) where
  nodup := by simp [found, Bfs.start]
  lt := by simp [found, Bfs.start, hs]
  vis v := by
    simp only [found, Bfs.start, List.reverse_nil, List.nil_append, List.mem_singleton]
    by_cases h : v = s
    · subst h; simp [upd_same]
    · simp [upd_ne _ _ h, h]
  src := by simp [found, Bfs.start, upd_same]
  small := by simp [found, Bfs.start, upd_same]
  sorted := by simp [found, Bfs.start]
  top := by simp [found, Bfs.start]
  edges := by simp [Bfs.start]
  pred w hw hne := by simp [found, Bfs.start] at hw; exact absurd hw hne
  P := by simp [Bfs.start]
  sp w := by
    by_cases h : w = s
    · subst h; simp [Bfs.start, upd_same]
    · simp [Bfs.start, upd_ne _ _ h, h]

theorem Inv.step {n : Nat} {nbr : Nat → List Nat} {s : Nat} {b : Bfs} (h : Inv n nbr s b) {v : Nat} {q : List Nat} (hq : b.Q = v :: q)
    (hnd : (nbr v).Nodup) (hlt : ∀ w ∈ nbr v, w < n) :
    Inv n nbr s ((nbr v).foldl (edge n v) { b with Q := q, S := v :: b.S }) := by
  have hvf : v ∈ b.found := by unfold found; rw [hq]; simp
  have hdv : b.d v < n := Nat.lt_of_lt_of_le (h.small v hvf) h.len
  obtain ⟨g1, g2, g3, g4, g5⟩ := foldl_edge (n := n) (v := v) (nbr v) { b with Q := q, S := v :: b.S } hnd hdv
  revert g1 g2 g3 g4 g5
  generalize (nbr v).foldl (edge n v) { b with Q := q, S := v :: b.S } = b'
  intro g1 g2 g3 g4 g5
  dsimp only at g1 g2 g3 g4 g5
  -- the nodes found
  have hf : b'.found = b.found ++ (nbr v).filter (fun w => b.d w == n + 1) := by
    unfold found
    rw [g2, g3, hq]
    simp
  have hnew : ∀ w, w ∈ (nbr v).filter (fun w => b.d w == n + 1) ↔ w ∈ nbr v ∧ w ∉ b.found := by
    intro w
    rw [List.mem_filter, h.vis]
    simp
  have hold : ∀ w ∈ b.found, b'.d w = b.d w := fun w hw => by
    rw [g1, if_neg (fun hc => (h.vis w).1 hw hc.2)]
  have hnewd : ∀ w ∈ nbr v, w ∉ b.found → b'.d w = b.d v + 1 := fun w hw hn => by
    rw [g1, if_pos ⟨hw, Classical.byContradiction fun hc => hn ((h.vis w).2 hc)⟩]
  have hsub : ∀ u ∈ v :: b.S, u ∈ b.found := by
    intro u hu
    rcases List.mem_cons.1 hu with rfl | hu
    · exact hvf
    · unfold found; simp [hu]
  have htop := h.top v (by rw [hq]; rfl)
  -- nodes on the stack are not further away than the current one
  have hle : ∀ u ∈ v :: b.S, b.d u ≤ b.d v := by
    intro u hu
    rcases List.mem_cons.1 hu with rfl | hu
    · exact Nat.le_refl _
    · have := h.sorted
      unfold found at this
      exact (List.pairwise_append.1 this).2.2 u (by simpa using hu) v (by rw [hq]; simp)
  have hv' : b'.d v = b.d v := hold v hvf
  have htight : ∀ u ∈ b.S, ∀ w, Tight nbr b'.d u w ↔ Tight nbr b.d u w := by
    intro u hu w
    unfold Tight
    refine and_congr_right fun hw => ?_
    rw [hold w (h.edges u hu w hw).1, hold u (hsub u (List.mem_cons_of_mem _ hu))]
  have hP : ∀ w, b'.P w = b'.S.reverse.filter fun u => Tight nbr b'.d u w := by
    intro w
    rw [g5, g3, List.reverse_cons, List.filter_append, h.P]
    have e1 : b.S.reverse.filter (fun u => decide (Tight nbr b'.d u w)) = b.S.reverse.filter (fun u => decide (Tight nbr b.d u w)) := by
      refine List.filter_congr fun u hu => ?_
      rw [decide_eq_decide]
      exact htight u (by simpa using hu) w
    rw [e1]
    by_cases hc : w ∈ nbr v ∧ b'.d w = b.d v + 1
    · rw [if_pos hc, List.filter_cons_of_pos (by simp only [decide_eq_true_eq]; unfold Tight; rw [hv']; exact hc)]
      rfl
    · rw [if_neg hc, List.filter_cons_of_neg (by simp only [decide_eq_true_eq]; unfold Tight; rw [hv']; exact hc)]
      simp
  constructor
  · rw [hf]
    refine List.nodup_append.2 ⟨h.nodup, List.Pairwise.filter _ hnd, fun a ha c hc e => ?_⟩
    subst e
    exact ((hnew _).1 hc).2 ha
  · rw [hf]
    intro w hw
    rcases List.mem_append.1 hw with hw | hw
    · exact h.lt w hw
    · exact hlt w ((hnew w).1 hw).1
  · intro w
    rw [hf, List.mem_append, hnew, g1]
    by_cases hw : w ∈ b.found
    · simp [hw, (h.vis w).1 hw]
    · have e : b.d w = n + 1 := Classical.byContradiction fun hc => hw ((h.vis w).2 hc)
      by_cases hm : w ∈ nbr v
      · simp [hw, hm, e]; omega
      · simp [hw, hm, e]
  · rw [hf]
    exact ⟨List.mem_append_left _ h.src.1, by rw [hold s h.src.1]; exact h.src.2⟩
  · rw [hf]
    intro w hw
    rw [List.length_append]
    rcases List.mem_append.1 hw with hw | hw
    · rw [hold w hw]
      have := h.small w hw
      omega
    · have hm := (hnew w).1 hw
      rw [hnewd w hm.1 hm.2]
      have := h.small v hvf
      have := List.length_pos_of_mem hw
      omega
  · rw [hf]
    refine List.pairwise_append.2 ⟨?_, ?_, ?_⟩
    · refine List.Pairwise.imp_of_mem ?_ h.sorted
      intro a c ha hc hac
      rw [hold a ha, hold c hc]
      exact hac
    · refine List.pairwise_of_forall_mem_list ?_
      intro a ha c hc
      have h1 := (hnew a).1 ha
      have h2 := (hnew c).1 hc
      rw [hnewd a h1.1 h1.2, hnewd c h2.1 h2.2]
    · intro a ha c hc
      have h2 := (hnew c).1 hc
      rw [hold a ha, hnewd c h2.1 h2.2]
      exact htop a ha
  · intro x hx w hw
    have h1 : b'.d w ≤ b.d v + 1 := by
      rw [hf] at hw
      rcases List.mem_append.1 hw with hw | hw
      · rw [hold w hw]; exact htop w hw
      · have h2 := (hnew w).1 hw
        rw [hnewd w h2.1 h2.2]
    have h2 : b.d v ≤ b'.d x := by
      rw [g2] at hx
      cases q with
      | nil =>
        have hm : x ∈ (nbr v).filter (fun w => b.d w == n + 1) := List.mem_of_mem_head? (by simpa using hx)
        have h2 := (hnew x).1 hm
        rw [hnewd x h2.1 h2.2]
        omega
      | cons y q =>
        simp at hx
        subst hx
        have hyf : y ∈ b.found := by unfold found; rw [hq]; simp
        rw [hold y hyf]
        have := h.sorted
        unfold found at this
        rw [hq] at this
        have := (List.pairwise_append.1 this).2.1
        exact (List.pairwise_cons.1 this).1 y (by simp)
    omega
  · rw [g3]
    intro u hu w hw
    rcases List.mem_cons.1 hu with rfl | hu
    · rw [hv']
      by_cases hwf : w ∈ b.found
      · rw [hf, hold w hwf]
        exact ⟨List.mem_append_left _ hwf, htop w hwf⟩
      · rw [hf, hnewd w hw hwf]
        exact ⟨List.mem_append_right _ ((hnew w).2 ⟨hw, hwf⟩), Nat.le_refl _⟩
    · obtain ⟨h1, h2⟩ := h.edges u hu w hw
      rw [hf, hold w h1, hold u (hsub u (List.mem_cons_of_mem _ hu))]
      exact ⟨List.mem_append_left _ h1, h2⟩
  · rw [hf, g3]
    intro w hw hne
    by_cases hwf : w ∈ b.found
    · obtain ⟨u, hu, ht⟩ := h.pred w hwf hne
      exact ⟨u, List.mem_cons_of_mem _ hu, (htight u hu w).2 ht⟩
    · rcases List.mem_append.1 hw with hw | hw
      · exact absurd hw hwf
      · have h2 := (hnew w).1 hw
        exact ⟨v, List.mem_cons_self, h2.1, by rw [hnewd w h2.1 h2.2, hv']⟩
  · exact hP
  · intro w
    have hsp : ∀ u ∈ v :: b.S, b'.sp u = b.sp u := by
      intro u hu
      rw [g4, if_neg]
      rintro ⟨_, hc⟩
      rw [hold u (hsub u hu)] at hc
      have := hle u hu
      omega
    have e : (b'.P w).map b'.sp = (b'.P w).map b.sp := by
      refine List.map_congr_left fun u hu => hsp u ?_
      rw [hP, g3] at hu
      exact List.mem_reverse.1 (List.mem_filter.1 hu).1
    rw [e, g4, g5]
    by_cases hc : w ∈ nbr v ∧ b'.d w = b.d v + 1
    · rw [if_pos hc, if_pos hc, List.map_append, List.sum_append, h.sp]
      simp [add_assoc]
    · rw [if_neg hc, if_neg hc]
      exact h.sp w

/-- The search ends after at most `n` rounds. -/
theorem loop_spec {n : Nat} {nbr : Nat → List Nat} {s : Nat} (hnd : ∀ v < n, (nbr v).Nodup ∧ ∀ w ∈ nbr v, w < n) :
    ∀ (k : Nat) (b : Bfs), Inv n nbr s b → n ≤ k + b.S.length → ∃ b', loop n nbr k b = some b' ∧ Inv n nbr s b' ∧ b'.Q = []
  | k, b, h, hk => by
    cases hq : b.Q with
    | nil => exact ⟨b, by unfold loop; rw [hq], h, hq⟩
    | cons v q =>
      have hvf : v ∈ b.found := by unfold found; rw [hq]; simp
      have hlen := h.len
      have hv := h.lt v hvf
      cases k with
      | zero =>
        unfold found at hlen
        rw [hq] at hlen
        simp at hlen
        omega
      | succ k =>
        have h' := h.step hq (hnd v hv).1 (hnd v hv).2
        obtain ⟨b', h1, h2, h3⟩ := loop_spec hnd k _ h' (by
          rw [(foldl_edge (n := n) (v := v) (nbr v) { b with Q := q, S := v :: b.S } (hnd v hv).1
            (Nat.lt_of_lt_of_le (h.small v hvf) hlen)).2.2.1]
          simp only [List.length_cons]
          omega)
        refine ⟨b', ?_, h2, h3⟩
        unfold loop
        rw [hq]
        dsimp only
        rw [if_pos ⟨hv, (hnd v hv).2⟩]
        exact h1

end Candy.Bfs
