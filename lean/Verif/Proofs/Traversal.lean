import Verif.Model.Traversal

/-! Lemmas on the traversal of gates. -/

namespace Candy

/-- The gates reached from the roots without passing a pruned gate. -/
inductive Reached (G : GateProblem) (cls : Nat → Clause) (prune : Nat → Bool) : Nat → Prop
  | root {i : Nat} {l : Lit} (hi : i ∈ G.roots) (hl : l ∈ cls i) (hd : (G.gates l.var).out ≠ none)
      (hp : prune l.var = false) : Reached G cls prune l.var
  | input {v : Nat} {l : Lit} (hv : Reached G cls prune v) (hl : l ∈ (G.gates v).inp)
      (hd : (G.gates l.var).out ≠ none) (hp : prune l.var = false) : Reached G cls prune l.var

/-- `a` occurs before `b` in the list. -/
def Before {α : Type} (a b : α) (L : List α) : Prop := ∃ p q r, L = p ++ a :: q ++ b :: r

theorem Before.append {α : Type} {a b : α} {L : List α} (h : Before a b L) (K : List α) : Before a b (L ++ K) := by
  obtain ⟨p, q, r, rfl⟩ := h
  exact ⟨p, q, r ++ K, by simp⟩

theorem before_last {α : Type} {a : α} {L : List α} (h : a ∈ L) (b : α) : Before a b (L ++ [b]) := by
  obtain ⟨p, q, rfl⟩ := List.append_of_mem h
  exact ⟨p, q, [], by simp⟩

theorem isDefined_iff (g : Gate) : g.isDefined = true ↔ g.out ≠ none := by
  cases h : g.out <;> simp [Gate.isDefined, h]

namespace GateProblem

variable {G : GateProblem} {cls : Nat → Clause} {prune : Nat → Bool}

/-- A gate the traversal may visit. -/
def Open (G : GateProblem) (prune : Nat → Bool) (v : Nat) : Prop := (G.gates v).out ≠ none ∧ prune v = false

/-- What the loop over the inputs does. -/
theorem dfsInputs_spec (ls : List Lit) : ∀ s : DFS, ∃ (pre : List (Nat × Bool)) (new : List Nat),
    (G.dfsInputs prune ls s).work = pre ++ s.work ∧ (G.dfsInputs prune ls s).visited = s.visited ∧
    (G.dfsInputs prune ls s).seenInputs = new.reverse ++ s.seenInputs ∧
    (G.dfsInputs prune ls s).calls = s.calls ++ new.map .collectInput ∧
    pre.length ≤ ls.length ∧
    (∀ x ∈ pre, x.2 = false ∧ x.1 ∉ s.visited ∧ G.Open prune x.1 ∧ ∃ l ∈ ls, x.1 = l.var) ∧
    (∀ l ∈ ls, G.Open prune l.var → l.var ∈ s.visited ∨ (l.var, false) ∈ pre) ∧
    (∀ x ∈ new, (G.gates x).out = none ∧ x ∉ s.seenInputs ∧ ∃ l ∈ ls, x = l.var) ∧
    (∀ l ∈ ls, (G.gates l.var).out = none → l.var ∈ s.seenInputs ∨ l.var ∈ new) ∧ new.Nodup := by
  induction ls with
  | nil => intro s; exact ⟨[], [], by simp [dfsInputs]⟩
  | cons l ls ih =>
    intro s
    simp only [dfsInputs]
    by_cases h1 : ((G.gates l.var).isDefined && !s.visited.contains l.var && !prune l.var) = true
    · rw [if_pos h1]
      simp only [Bool.and_eq_true, isDefined_iff, Bool.not_eq_true', List.contains_eq_mem, decide_eq_false_iff_not] at h1
      obtain ⟨pre, new, e1, e2, e3, e4, e5, e6, e7, e8, e9, e10⟩ := ih { s with work := (l.var, false) :: s.work }
      refine ⟨pre ++ [(l.var, false)], new, by simp [e1], e2, e3, e4, by simp; omega, ?_, ?_, ?_, ?_, e10⟩
      · intro x hx
        rcases List.mem_append.1 hx with hx | hx
        · obtain ⟨a, b, c, d, hd, hd'⟩ := e6 x hx
          exact ⟨a, b, c, d, List.mem_cons_of_mem _ hd, hd'⟩
        · rw [List.mem_singleton] at hx
          subst hx
          exact ⟨rfl, h1.1.2, ⟨h1.1.1, h1.2⟩, l, by simp, rfl⟩
      · intro x hx ho
        rcases List.mem_cons.1 hx with rfl | hx
        · right; simp
        · rcases e7 x hx ho with h | h
          · exact .inl h
          · exact .inr (List.mem_append_left _ h)
      · intro x hx
        obtain ⟨a, b, d, hd, hd'⟩ := e8 x hx
        exact ⟨a, b, d, List.mem_cons_of_mem _ hd, hd'⟩
      · intro x hx ho
        rcases List.mem_cons.1 hx with rfl | hx
        · exact absurd ho h1.1.1
        · exact e9 x hx ho
    · rw [if_neg h1]
      by_cases h2 : (!(G.gates l.var).isDefined && !s.seenInputs.contains l.var) = true
      · rw [if_pos h2]
        simp only [Bool.and_eq_true, Bool.not_eq_true', List.contains_eq_mem, decide_eq_false_iff_not] at h2
        have h3 : (G.gates l.var).out = none := by
          cases ho : (G.gates l.var).out <;> simp_all [Gate.isDefined]
        obtain ⟨pre, new, e1, e2, e3, e4, e5, e6, e7, e8, e9, e10⟩ := ih
          { s with seenInputs := l.var :: s.seenInputs, calls := s.calls ++ [.collectInput l.var] }
        refine ⟨pre, l.var :: new, e1, e2, by simp [e3], by simp [e4], by simp; omega, ?_, ?_, ?_, ?_, ?_⟩
        · intro x hx
          obtain ⟨a, b, c, d, hd, hd'⟩ := e6 x hx
          exact ⟨a, b, c, d, List.mem_cons_of_mem _ hd, hd'⟩
        · intro x hx ho
          rcases List.mem_cons.1 hx with rfl | hx
          · exact absurd h3 ho.1
          · exact e7 x hx ho
        · intro x hx
          rcases List.mem_cons.1 hx with rfl | hx
          · exact ⟨h3, h2.2, l, by simp, rfl⟩
          · obtain ⟨a, b, d, hd, hd'⟩ := e8 x hx
            exact ⟨a, fun h => b (List.mem_cons_of_mem _ h), d, List.mem_cons_of_mem _ hd, hd'⟩
        · intro x hx ho
          rcases List.mem_cons.1 hx with rfl | hx
          · right; simp
          · rcases e9 x hx ho with h | h
            · rcases List.mem_cons.1 h with h | h
              · right; simp [h]
              · exact .inl h
            · exact .inr (List.mem_cons_of_mem _ h)
        · refine List.nodup_cons.2 ⟨fun h => (e8 _ h).2.1 (by simp), e10⟩
      · rw [if_neg h2]
        obtain ⟨pre, new, e1, e2, e3, e4, e5, e6, e7, e8, e9, e10⟩ := ih s
        refine ⟨pre, new, e1, e2, e3, e4, by simp; omega, ?_, ?_, ?_, ?_, e10⟩
        · intro x hx
          obtain ⟨a, b, c, d, hd, hd'⟩ := e6 x hx
          exact ⟨a, b, c, d, List.mem_cons_of_mem _ hd, hd'⟩
        · intro x hx ho
          rcases List.mem_cons.1 hx with rfl | hx
          · left
            obtain ⟨ho1, ho2⟩ := ho
            rw [← isDefined_iff] at ho1
            simp only [ho1, ho2, Bool.true_and, Bool.not_false, Bool.and_true, List.contains_eq_mem,
              Bool.not_eq_true', decide_eq_false_iff_not, Classical.not_not] at h1
            exact h1
          · exact e7 x hx ho
        · intro x hx
          obtain ⟨a, b, d, hd, hd'⟩ := e8 x hx
          exact ⟨a, b, d, List.mem_cons_of_mem _ hd, hd'⟩
        · intro x hx ho
          rcases List.mem_cons.1 hx with rfl | hx
          · left
            simp only [Gate.isDefined, ho, Option.isSome_none, Bool.not_false, Bool.true_and, List.contains_eq_mem,
              Bool.not_eq_true', decide_eq_false_iff_not, Classical.not_not] at h2
            exact h2
          · exact e9 x hx ho

/-- Invariant of the traversal. -/
structure DfsInv (G : GateProblem) (cls : Nat → Clause) (prune : Nat → Bool) (s : DFS) : Prop where
  reached : ∀ x ∈ s.work, Reached G cls prune x.1
  visitedReached : ∀ v ∈ s.visited, Reached G cls prune v
  marked : ∀ v, (v, true) ∈ s.work → v ∈ s.visited
  marksOnce : s.work.Pairwise fun x y => x.2 = true → y.2 = true → x.1 ≠ y.1
  roots : ∀ i ∈ G.roots, ∀ l ∈ cls i, G.Open prune l.var → l.var ∈ s.visited ∨ (l.var, false) ∈ s.work
  closed : ∀ v ∈ s.visited, ∀ l ∈ (G.gates v).inp, G.Open prune l.var → l.var ∈ s.visited ∨ (l.var, false) ∈ s.work
  nodup : s.calls.Nodup
  visited : s.visited.Nodup
  collect : ∀ v, .collect v ∈ s.calls ↔ v ∈ s.visited
  backtrack : ∀ v, .backtrack v ∈ s.calls ↔ v ∈ s.visited ∧ (v, true) ∉ s.work
  order : ∀ v, .backtrack v ∈ s.calls → Before (.collect v) (.backtrack v) s.calls
  input : ∀ v, .collectInput v ∈ s.calls ↔ v ∈ s.seenInputs
  seen : ∀ x, x ∈ s.seenInputs ↔ (G.gates x).out = none ∧ ∃ v ∈ s.visited, ∃ l ∈ (G.gates v).inp, l.var = x

theorem dfsInit_inv : DfsInv G cls prune (G.dfsInit cls prune) := by
  have hw : ∀ x, x ∈ (G.dfsInit cls prune).work ↔ ∃ i ∈ G.roots, ∃ l ∈ cls i, G.Open prune l.var ∧ (l.var, false) = x := by
    intro x
    simp only [dfsInit, List.mem_reverse, List.mem_map, List.mem_filter, List.mem_flatMap, Bool.and_eq_true,
      isDefined_iff, Bool.not_eq_true', Open]
    constructor
    · rintro ⟨l, ⟨⟨i, hi, hl⟩, ho⟩, rfl⟩; exact ⟨i, hi, l, hl, ho, rfl⟩
    · rintro ⟨i, hi, l, hl, ho, rfl⟩; exact ⟨l, ⟨⟨i, hi, hl⟩, ho⟩, rfl⟩
  have hm : ∀ x ∈ (G.dfsInit cls prune).work, x.2 = false := by
    intro x hx
    obtain ⟨i, hi, l, hl, ho, rfl⟩ := (hw x).1 hx
    rfl
  constructor
  · intro x hx
    obtain ⟨i, hi, l, hl, ho, rfl⟩ := (hw x).1 hx
    exact .root hi hl ho.1 ho.2
  · simp [dfsInit]
  · intro v hv
    have := hm _ hv
    simp at this
  · refine List.pairwise_iff_forall_sublist.2 ?_
    intro a b hab ha
    have := hm a (hab.subset (by simp))
    simp [this] at ha
  · intro i hi l hl ho
    exact .inr ((hw _).2 ⟨i, hi, l, hl, ho, rfl⟩)
  all_goals simp [dfsInit]

theorem dfsStep_inv {s : DFS} {item : Nat × Bool} {work : List (Nat × Bool)} (h : DfsInv G cls prune s)
    (hs : s.work = item :: work) : DfsInv G cls prune (G.dfsStep prune item { s with work := work }) := by
  obtain ⟨v, b⟩ := item
  have hsub : ∀ {x}, x ∈ work → x ∈ s.work := fun hx => by rw [hs]; exact List.mem_cons_of_mem _ hx
  have hcases : ∀ {x}, x ∈ s.work → x = (v, b) ∨ x ∈ work := fun hx => by rw [hs] at hx; exact List.mem_cons.1 hx
  have hpw := h.marksOnce
  rw [hs, List.pairwise_cons] at hpw
  have hr : Reached G cls prune v := h.reached (v, b) (by rw [hs]; simp)
  unfold dfsStep
  cases b with
  | true =>
    have hv : v ∈ s.visited := h.marked v (by rw [hs]; simp)
    have hnot : (v, true) ∉ work := fun hx => hpw.1 _ hx rfl rfl rfl
    have hnb : .backtrack v ∉ s.calls := fun hx => ((h.backtrack v).1 hx).2 (by rw [hs]; simp)
    simp only [if_true]
    refine ⟨fun x hx => h.reached x (hsub hx), h.visitedReached, fun u hu => h.marked u (hsub hu), hpw.2, ?_, ?_, ?_, h.visited, ?_, ?_, ?_, ?_, h.seen⟩
    · intro i hi l hl ho
      rcases h.roots i hi l hl ho with hx | hx
      · exact .inl hx
      · rcases hcases hx with hx | hx
        · simp at hx
        · exact .inr hx
    · intro u hu l hl ho
      rcases h.closed u hu l hl ho with hx | hx
      · exact .inl hx
      · rcases hcases hx with hx | hx
        · simp at hx
        · exact .inr hx
    · refine List.nodup_append.2 ⟨h.nodup, by simp, ?_⟩
      intro a ha b hb
      rw [List.mem_singleton] at hb
      subst hb
      exact fun e => hnb (e ▸ ha)
    · intro u
      simp only [List.mem_append, List.mem_singleton, reduceCtorEq, or_false]
      exact h.collect u
    · intro u
      simp only [List.mem_append, List.mem_singleton, GateCall.backtrack.injEq, h.backtrack u]
      constructor
      · rintro (⟨h1, h2⟩ | rfl)
        · exact ⟨h1, fun hx => h2 (hsub hx)⟩
        · exact ⟨hv, hnot⟩
      · rintro ⟨h1, h2⟩
        by_cases hu : u = v
        · exact .inr hu
        · refine .inl ⟨h1, fun hx => ?_⟩
          rcases hcases hx with hx | hx
          · exact hu (Prod.mk.inj hx).1
          · exact h2 hx
    · intro u hu
      simp only [List.mem_append, List.mem_singleton, GateCall.backtrack.injEq] at hu
      rcases hu with hu | rfl
      · exact (h.order u hu).append _
      · exact before_last ((h.collect u).2 hv) _
    · intro u
      simp only [List.mem_append, List.mem_singleton, reduceCtorEq, or_false]
      exact h.input u
  | false =>
    simp only [Bool.false_eq_true, if_false]
    by_cases hv : v ∈ s.visited
    · rw [if_pos (by simp [hv])]
      refine ⟨fun x hx => h.reached x (hsub hx), h.visitedReached, fun u hu => h.marked u (hsub hu), hpw.2, ?_, ?_, h.nodup, h.visited, h.collect, ?_, h.order, h.input, h.seen⟩
      · intro i hi l hl ho
        rcases h.roots i hi l hl ho with hx | hx
        · exact .inl hx
        · rcases hcases hx with hx | hx
          · left
            rw [(Prod.mk.inj hx).1]
            exact hv
          · exact .inr hx
      · intro u hu l hl ho
        rcases h.closed u hu l hl ho with hx | hx
        · exact .inl hx
        · rcases hcases hx with hx | hx
          · left
            rw [(Prod.mk.inj hx).1]
            exact hv
          · exact .inr hx
      · intro u
        rw [h.backtrack u, hs]
        simp
    · rw [if_neg (by simp [hv])]
      obtain ⟨pre, new, e1, e2, e3, e4, e5, e6, e7, e8, e9, e10⟩ := dfsInputs_spec (G := G) (prune := prune) (G.gates v).inp
        { s with calls := s.calls ++ [.collect v], visited := v :: s.visited, work := (v, true) :: work }
      generalize G.dfsInputs prune (G.gates v).inp
        { s with calls := s.calls ++ [.collect v], visited := v :: s.visited, work := (v, true) :: work } = s' at e1 e2 e3 e4
      replace e4 : s'.calls = s.calls ++ .collect v :: new.map .collectInput := by rw [e4]; simp
      dsimp only at e1 e2 e3 e6 e7 e8 e9
      have hpre : ∀ u, (u, true) ∉ pre := fun u hu => by simpa using (e6 _ hu).1
      have hwork : ∀ u, (u, true) ∈ s'.work ↔ u = v ∨ (u, true) ∈ s.work := by
        intro u
        rw [e1, hs]
        simp [hpre]
      have hkeep : ∀ u, (u, false) ∈ s.work → u ∈ s'.visited ∨ (u, false) ∈ s'.work := by
        intro u hu
        rcases hcases hu with hu | hu
        · left; rw [e2]; simp [(Prod.mk.inj hu).1]
        · right; rw [e1]; simp [hu]
      constructor
      · intro x hx
        rw [e1] at hx
        rcases List.mem_append.1 hx with hx | hx
        · obtain ⟨_, _, ho, l, hl, e⟩ := e6 x hx
          rw [e] at ho ⊢
          exact .input hr hl ho.1 ho.2
        · rcases List.mem_cons.1 hx with rfl | hx
          · exact hr
          · exact h.reached x (hsub hx)
      · intro u hu
        rw [e2] at hu
        rcases List.mem_cons.1 hu with rfl | hu
        · exact hr
        · exact h.visitedReached u hu
      · intro u hu
        rw [e2]
        rcases (hwork u).1 hu with rfl | hu
        · simp
        · exact List.mem_cons_of_mem _ (h.marked u hu)
      · rw [e1]
        refine List.pairwise_append.2 ⟨?_, List.pairwise_cons.2 ⟨?_, hpw.2⟩, ?_⟩
        · refine List.pairwise_iff_forall_sublist.2 ?_
          intro a b hab ha
          have := (e6 a (hab.subset (by simp))).1
          simp [this] at ha
        · intro y hy _ hy2 e
          apply hv
          dsimp only at e
          refine h.marked v (hsub ?_)
          rw [e, ← hy2]
          exact hy
        · intro a ha b _ ha2
          have := (e6 a ha).1
          simp [this] at ha2
      · intro i hi l hl ho
        rcases h.roots i hi l hl ho with hx | hx
        · left; rw [e2]; exact List.mem_cons_of_mem _ hx
        · exact hkeep _ hx
      · intro u hu l hl ho
        rw [e2] at hu
        rcases List.mem_cons.1 hu with rfl | hu
        · rcases e7 l hl ho with hx | hx
          · left; rw [e2]; exact hx
          · right; rw [e1]; exact List.mem_append_left _ hx
        · rcases h.closed u hu l hl ho with hx | hx
          · left; rw [e2]; exact List.mem_cons_of_mem _ hx
          · exact hkeep _ hx
      · rw [e4]
        refine List.nodup_append.2 ⟨h.nodup, List.nodup_cons.2 ⟨by simp, ?_⟩, ?_⟩
        · exact List.Pairwise.map _ (fun a b hab e => hab (GateCall.collectInput.inj e)) e10
        · intro a ha b hb e
          subst e
          rcases List.mem_cons.1 hb with rfl | hb
          · exact hv ((h.collect v).1 ha)
          · obtain ⟨x, hx, rfl⟩ := List.mem_map.1 hb
            exact (e8 x hx).2.1 ((h.input x).1 ha)
      · rw [e2]; exact List.nodup_cons.2 ⟨hv, h.visited⟩
      · intro u
        rw [e4, e2]
        simp [h.collect u, or_comm]
      · intro u
        rw [e4, e2, hwork]
        have : GateCall.backtrack u ∈ s.calls ++ .collect v :: new.map .collectInput ↔ .backtrack u ∈ s.calls := by simp
        rw [this, h.backtrack u]
        constructor
        · rintro ⟨h1, h2⟩
          refine ⟨List.mem_cons_of_mem _ h1, ?_⟩
          rintro (rfl | h3)
          · exact hv h1
          · exact h2 h3
        · rintro ⟨h1, h2⟩
          rcases List.mem_cons.1 h1 with rfl | h1
          · exact absurd (.inl rfl) h2
          · exact ⟨h1, fun h3 => h2 (.inr h3)⟩
      · intro u hu
        rw [e4] at hu ⊢
        have : GateCall.backtrack u ∈ s.calls := by simpa using hu
        exact (h.order u this).append _
      · intro u
        rw [e4, e3]
        simp [h.input u, or_comm]
      · intro x
        rw [e3, e2]
        simp only [List.mem_append, List.mem_reverse, h.seen x, List.mem_cons]
        constructor
        · rintro (hx | ⟨hx, u, hu, l, hl, e⟩)
          · obtain ⟨a, _, l, hl, e⟩ := e8 x hx
            exact ⟨a, v, .inl rfl, l, hl, e.symm⟩
          · exact ⟨hx, u, .inr hu, l, hl, e⟩
        · rintro ⟨hx, u, rfl | hu, l, hl, e⟩
          · rcases e9 l hl (by rw [e]; exact hx) with h1 | h1
            · right
              rw [e] at h1
              exact (h.seen x).1 h1
            · left
              rw [← e]
              exact h1
          · exact .inr ⟨hx, u, hu, l, hl, e⟩

theorem dfsLoop_inv : ∀ (n : Nat) {s s' : DFS}, DfsInv G cls prune s → G.dfsLoop prune n s = some s' →
    DfsInv G cls prune s' ∧ s'.work = [] := by
  intro n
  induction n with
  | zero =>
    intro s s' h e
    unfold dfsLoop at e
    split at e
    · cases e; exact ⟨h, by assumption⟩
    · cases e
  | succ n ih =>
    intro s s' h e
    unfold dfsLoop at e
    split at e
    · cases e; exact ⟨h, by assumption⟩
    · exact ih (dfsStep_inv h (by assumption)) e

/-! ## Order -/

/-- The order of the stack: below a gate marked for backtracking, ranks are larger; its inputs have been
backtracked or are above it. -/
structure OrdInv (G : GateProblem) (prune : Nat → Bool) (rank : Nat → Nat) (s : DFS) : Prop where
  above : s.work.Pairwise fun x y => y.2 = true → rank x.1 < rank y.1
  waiting : ∀ pre v post, s.work = pre ++ (v, true) :: post → ∀ l ∈ (G.gates v).inp, G.Open prune l.var →
    .backtrack l.var ∈ s.calls ∨ ∃ b, (l.var, b) ∈ pre
  done : ∀ v, .backtrack v ∈ s.calls → ∀ l ∈ (G.gates v).inp, G.Open prune l.var →
    Before (.backtrack l.var) (.backtrack v) s.calls

theorem dfsInit_ord (rank : Nat → Nat) : OrdInv G prune rank (G.dfsInit cls prune) := by
  have hm : ∀ x ∈ (G.dfsInit cls prune).work, x.2 = false := by
    intro x hx
    simp only [dfsInit, List.mem_reverse, List.mem_map] at hx
    obtain ⟨l, _, rfl⟩ := hx
    rfl
  refine ⟨?_, ?_, by simp [dfsInit]⟩
  · refine List.pairwise_iff_forall_sublist.2 ?_
    intro a b hab hb
    have := hm b (hab.subset (by simp))
    simp [this] at hb
  · intro pre v post e
    have := hm (v, true) (by rw [e]; simp)
    simp at this

theorem dfsStep_ord {rank : Nat → Nat} (hrank : ∀ v, Reached G cls prune v → ∀ l ∈ (G.gates v).inp,
      G.Open prune l.var → rank l.var < rank v) {s : DFS} {item : Nat × Bool} {work : List (Nat × Bool)}
    (h : DfsInv G cls prune s) (o : OrdInv G prune rank s) (hs : s.work = item :: work) :
    OrdInv G prune rank (G.dfsStep prune item { s with work := work }) := by
  obtain ⟨v, b⟩ := item
  have hab := o.above
  rw [hs, List.pairwise_cons] at hab
  have hr : Reached G cls prune v := h.reached (v, b) (by rw [hs]; simp)
  unfold dfsStep
  cases b with
  | true =>
    simp only [if_true]
    refine ⟨hab.2, ?_, ?_⟩
    · intro pre u post e l hl ho
      dsimp only at e
      rcases o.waiting ((v, true) :: pre) u post (by rw [hs, e]; rfl) l hl ho with hx | ⟨c, hc⟩
      · exact .inl (List.mem_append_left _ hx)
      · rcases List.mem_cons.1 hc with hc | hc
        · left
          rw [(Prod.mk.inj hc).1]
          simp
        · exact .inr ⟨c, hc⟩
    · intro u hu l hl ho
      simp only [List.mem_append, List.mem_singleton, GateCall.backtrack.injEq] at hu
      rcases hu with hu | rfl
      · exact (o.done u hu l hl ho).append _
      · rcases o.waiting [] u work (by rw [hs]; rfl) l hl ho with hx | ⟨c, hc⟩
        · exact before_last hx _
        · simp at hc
  | false =>
    simp only [Bool.false_eq_true, if_false]
    by_cases hv : v ∈ s.visited
    · rw [if_pos (by simp [hv])]
      refine ⟨hab.2, ?_, o.done⟩
      intro pre u post e l hl ho
      dsimp only at e
      rcases o.waiting ((v, false) :: pre) u post (by rw [hs, e]; rfl) l hl ho with hx | ⟨c, hc⟩
      · exact .inl hx
      · rcases List.mem_cons.1 hc with hc | hc
        · -- the gate has been visited: it is backtracked or marked above `u`
          by_cases hm : (v, true) ∈ s.work
          · have hm' : (v, true) ∈ work := by rw [hs] at hm; simpa using hm
            have hru : Reached G cls prune u := h.reached (u, true) (by rw [hs, e]; simp)
            have hlt := hrank u hru l hl ho
            rw [(Prod.mk.inj hc).1] at hlt ⊢
            rw [e] at hm'
            have hab2 := hab.2
            rw [e] at hab2
            rcases List.mem_append.1 hm' with hm' | hm'
            · exact .inr ⟨true, hm'⟩
            · rcases List.mem_cons.1 hm' with hm' | hm'
              · rw [(Prod.mk.inj hm').1] at hlt
                exact absurd hlt (Nat.lt_irrefl _)
              · have := (List.pairwise_cons.1 (List.pairwise_append.1 hab2).2.1).1 _ hm' rfl
                dsimp only at this
                omega
          · left
            rw [(Prod.mk.inj hc).1]
            exact (h.backtrack v).2 ⟨hv, hm⟩
        · exact .inr ⟨c, hc⟩
    · rw [if_neg (by simp [hv])]
      obtain ⟨pre, new, e1, e2, e3, e4, e5, e6, e7, e8, e9, e10⟩ := dfsInputs_spec (G := G) (prune := prune) (G.gates v).inp
        { s with calls := s.calls ++ [.collect v], visited := v :: s.visited, work := (v, true) :: work }
      generalize G.dfsInputs prune (G.gates v).inp
        { s with calls := s.calls ++ [.collect v], visited := v :: s.visited, work := (v, true) :: work } = s' at e1 e2 e3 e4
      replace e4 : s'.calls = s.calls ++ .collect v :: new.map .collectInput := by rw [e4]; simp
      dsimp only at e1 e2 e3 e6 e7 e8 e9
      have hpre : ∀ x ∈ pre, x.2 = false := fun x hx => (e6 x hx).1
      have hprerank : ∀ x ∈ pre, rank x.1 < rank v := by
        intro x hx
        obtain ⟨_, _, ho, l, hl, e⟩ := e6 x hx
        rw [e] at ho ⊢
        exact hrank v hr l hl ho
      have hvwork : (v, true) ∉ s.work := fun hx => hv (h.marked v hx)
      refine ⟨?_, ?_, ?_⟩
      · rw [e1]
        refine List.pairwise_append.2 ⟨?_, List.pairwise_cons.2 ⟨?_, hab.2⟩, ?_⟩
        · refine List.pairwise_iff_forall_sublist.2 ?_
          intro a b hab hb
          have := hpre b (hab.subset (by simp))
          simp [this] at hb
        · intro y hy hy2
          exact hab.1 y hy hy2
        · intro a ha b hb hb2
          rcases List.mem_cons.1 hb with rfl | hb
          · exact hprerank a ha
          · exact Nat.lt_trans (hprerank a ha) (hab.1 b hb hb2)
      · intro p u q e l hl ho
        rw [e1] at e
        -- position of the mark: not in `pre`
        rcases List.append_eq_append_iff.1 e with ⟨a, ha, hb⟩ | ⟨a, ha, hb⟩
        · -- p = pre ++ a, (v,true) :: work = a ++ (u,true) :: q
          cases a with
          | nil =>
            simp only [List.nil_append, List.cons.injEq, Prod.mk.injEq, and_true] at hb
            obtain ⟨hb1, rfl⟩ := hb
            subst hb1
            rcases e7 l hl ho with hx | hx
            · rcases List.mem_cons.1 hx with hx | hx
              · have := hrank v hr l hl ho
                rw [hx] at this
                exact absurd this (Nat.lt_irrefl _)
              · by_cases hm : (l.var, true) ∈ s.work
                · have hm' : (l.var, true) ∈ work := by rw [hs] at hm; simpa using hm
                  have h1 := hab.1 _ hm' rfl
                  have h2 := hrank v hr l hl ho
                  dsimp only at h1
                  omega
                · left
                  rw [e4]
                  exact List.mem_append_left _ ((h.backtrack _).2 ⟨hx, hm⟩)
            · right
              exact ⟨false, by rw [ha]; simp [hx]⟩
          | cons y a =>
            simp only [List.cons_append, List.cons.injEq] at hb
            obtain ⟨rfl, hb⟩ := hb
            rcases o.waiting ((v, false) :: a) u q (by rw [hs, hb]; rfl) l hl ho with hx | ⟨c, hc⟩
            · left; rw [e4]; exact List.mem_append_left _ hx
            · right
              rcases List.mem_cons.1 hc with hc | hc
              · exact ⟨true, by rw [ha, (Prod.mk.inj hc).1]; simp⟩
              · exact ⟨c, by rw [ha]; simp [hc]⟩
        · -- pre = p ++ a, (u,true) :: q = a ++ ...
          cases a with
          | nil =>
            simp only [List.nil_append, List.cons.injEq, Prod.mk.injEq, and_true] at hb
            obtain ⟨hb1, rfl⟩ := hb
            subst hb1
            rw [List.append_nil] at ha
            rcases e7 l hl ho with hx | hx
            · rcases List.mem_cons.1 hx with hx | hx
              · have := hrank u hr l hl ho
                rw [hx] at this
                exact absurd this (Nat.lt_irrefl _)
              · by_cases hm : (l.var, true) ∈ s.work
                · have hm' : (l.var, true) ∈ q := by rw [hs] at hm; simpa using hm
                  have h1 := hab.1 _ hm' rfl
                  have h2 := hrank u hr l hl ho
                  dsimp only at h1
                  omega
                · left
                  rw [e4]
                  exact List.mem_append_left _ ((h.backtrack _).2 ⟨hx, hm⟩)
            · right
              exact ⟨false, by rw [← ha]; exact hx⟩
          | cons y a =>
            simp only [List.cons_append, List.cons.injEq] at hb
            obtain ⟨rfl, hb⟩ := hb
            have := hpre (u, true) (by rw [ha]; simp)
            simp at this
      · intro u hu l hl ho
        rw [e4] at hu ⊢
        have : GateCall.backtrack u ∈ s.calls := by simpa using hu
        exact (o.done u this l hl ho).append _

theorem dfsLoop_ord {rank : Nat → Nat} (hrank : ∀ v, Reached G cls prune v → ∀ l ∈ (G.gates v).inp,
      G.Open prune l.var → rank l.var < rank v) : ∀ (n : Nat) {s s' : DFS}, DfsInv G cls prune s →
    OrdInv G prune rank s → G.dfsLoop prune n s = some s' → OrdInv G prune rank s' := by
  intro n
  induction n with
  | zero =>
    intro s s' h o e
    unfold dfsLoop at e
    split at e
    · cases e; exact o
    · cases e
  | succ n ih =>
    intro s s' h o e
    unfold dfsLoop at e
    split at e
    · cases e; exact o
    · exact ih (dfsStep_inv h (by assumption)) (dfsStep_ord hrank h o (by assumption)) e

/-! ## Termination -/

/-- Work still to be done: items on the stack, and for every gate not visited its inputs and itself. -/
def dfsWork (G : GateProblem) (n : Nat) (s : DFS) : Nat :=
  s.work.length + (((List.range n).filter fun v => !s.visited.contains v).map fun v => (G.gates v).inp.length + 1).sum

theorem sum_visit (f : Nat → Nat) (vis : List Nat) (v : Nat) (hv : v ∉ vis) : ∀ L : List Nat, v ∈ L →
    ((L.filter fun u => !(v :: vis).contains u).map f).sum + f v ≤ ((L.filter fun u => !vis.contains u).map f).sum := by
  have mono : ∀ L : List Nat, ((L.filter fun u => !(v :: vis).contains u).map f).sum ≤
      ((L.filter fun u => !vis.contains u).map f).sum := by
    intro L
    induction L with
    | nil => simp
    | cons x L ih =>
      simp only [List.filter_cons]
      by_cases h1 : x ∈ vis
      · simpa [h1] using ih
      · by_cases h2 : x = v
        · subst h2
          simp [h1] at ih ⊢
          omega
        · simp [h1, h2] at ih ⊢
          omega
  intro L
  induction L with
  | nil => simp
  | cons x L ih =>
    intro hm
    by_cases hx : x = v
    · subst hx
      have := mono L
      simp [hv] at this ⊢
      omega
    · have hm : v ∈ L := by simpa [Ne.symm hx] using hm
      have := ih hm
      simp only [List.filter_cons]
      by_cases h1 : x ∈ vis
      · simpa [h1] using this
      · simp [h1, hx] at this ⊢
        omega

theorem dfsStep_work {n : Nat} (hn : ∀ v, (G.gates v).out ≠ none → v < n) {s : DFS} {item : Nat × Bool}
    {work : List (Nat × Bool)} (hd : (G.gates item.1).out ≠ none) (hs : s.work = item :: work) :
    G.dfsWork n (G.dfsStep prune item { s with work := work }) < G.dfsWork n s := by
  obtain ⟨v, b⟩ := item
  unfold dfsStep dfsWork
  cases b with
  | true => simp only [if_true]; rw [hs]; simp
  | false =>
    simp only [Bool.false_eq_true, if_false]
    by_cases hv : v ∈ s.visited
    · rw [if_pos (by simp [hv]), hs]; simp
    · rw [if_neg (by simp [hv])]
      obtain ⟨pre, new, e1, e2, e3, e4, e5, _⟩ := dfsInputs_spec (G := G) (prune := prune) (G.gates v).inp
        { s with calls := s.calls ++ [.collect v], visited := v :: s.visited, work := (v, true) :: work }
      rw [e1, e2, hs]
      have := sum_visit (fun v => (G.gates v).inp.length + 1) s.visited v hv (List.range n) (List.mem_range.2 (hn v hd))
      simp only [List.length_append, List.length_cons] at this ⊢
      omega

theorem reached_defined {v : Nat} (h : Reached G cls prune v) : G.Open prune v := by
  cases h with
  | root _ _ hd hp => exact ⟨hd, hp⟩
  | input _ _ hd hp => exact ⟨hd, hp⟩

theorem dfsLoop_total {n : Nat} (hn : ∀ v, (G.gates v).out ≠ none → v < n) : ∀ (fuel : Nat) {s : DFS},
    DfsInv G cls prune s → G.dfsWork n s ≤ fuel → ∃ s', ∀ k, G.dfsLoop prune (fuel + k) s = some s' := by
  intro fuel
  induction fuel with
  | zero =>
    intro s h hw
    refine ⟨s, fun k => ?_⟩
    have : s.work = [] := List.length_eq_zero_iff.1 (by unfold dfsWork at hw; omega)
    unfold dfsLoop
    split
    · rfl
    · simp_all
  | succ fuel ih =>
    intro s h hw
    cases hs : s.work with
    | nil =>
      refine ⟨s, fun k => ?_⟩
      unfold dfsLoop
      split
      · rfl
      · simp_all
    | cons item work =>
      have hd := (reached_defined (h.reached item (by rw [hs]; simp))).1
      have := dfsStep_work (prune := prune) hn hd hs
      obtain ⟨s', hs'⟩ := ih (dfsStep_inv h hs) (by omega)
      refine ⟨s', fun k => ?_⟩
      rw [show fuel + 1 + k = (fuel + k) + 1 by omega]
      unfold dfsLoop
      split
      · simp_all
      · rename_i i w hw'
        rw [hs] at hw'
        cases hw'
        exact hs' k

end GateProblem

end Candy
