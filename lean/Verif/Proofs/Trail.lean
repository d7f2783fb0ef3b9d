import Verif.Proofs.Basic

/-! Invariant of the assignment stack. -/

namespace Candy
namespace Trail

theorem value_neg (T : Trail) (l : Lit) : T.value l.neg = (T.value l).map (! ·) := by
  unfold value
  simp only [Lit.var_neg, Lit.sign_neg]
  cases T.assigns l.var with
  | none => rfl
  | some b => cases b <;> cases l.sign <;> rfl

theorem value_false_iff (T : Trail) (l : Lit) : T.value l = some false ↔ T.value l.neg = some true := by
  rw [value_neg]; cases T.value l with
  | none => simp
  | some b => cases b <;> simp

/-- The representation invariant of the trail (see `Props/Trail.lean` for the user-level
statement). -/
structure Inv (T : Trail) : Prop where
  val : ∀ l, T.value l = some true ↔ l ∈ T.stack
  nodup : T.stack.Nodup
  bound : ∀ l ∈ T.stack, l.var < T.nVars
  limSorted : T.lim.Pairwise (· ≤ ·)
  limLe : ∀ k ∈ T.lim, k ≤ T.stack.length
  lev : ∀ pre p post, T.stack = pre ++ p :: post → T.level p.var = T.lim.countP (· ≤ pre.length)
  qle : T.qhead ≤ T.stack.length

variable {T : Trail}

theorem Inv.valFalse (h : T.Inv) (l : Lit) : T.value l = some false ↔ l.neg ∈ T.stack := by
  rw [value_false_iff, h.val]

theorem Inv.valNone (h : T.Inv) (l : Lit) : T.value l = none ↔ l ∉ T.stack ∧ l.neg ∉ T.stack := by
  rw [← h.val, ← h.valFalse]
  cases T.value l with
  | none => simp
  | some b => cases b <;> simp

theorem Inv.notBoth (h : T.Inv) {l : Lit} (h1 : l ∈ T.stack) (h2 : l.neg ∈ T.stack) : False := by
  rw [← h.val] at h1; rw [← h.valFalse, h1] at h2; simp at h2

theorem Inv.varInj (h : T.Inv) {l m : Lit} (h1 : l ∈ T.stack) (h2 : m ∈ T.stack)
    (hv : l.var = m.var) : l = m := by
  rcases Lit.eq_or_neg_of_var hv with rfl | rfl
  · rfl
  · exact (h.notBoth h2 h1).elim

theorem Inv.assigned_iff (h : T.Inv) (v : Nat) :
    T.assigns v ≠ none ↔ ∃ l ∈ T.stack, l.var = v := by
  constructor
  · intro hv
    cases hb : T.assigns v with
    | none => exact (hv hb).elim
    | some b =>
      refine ⟨⟨v, !b⟩, (h.val _).1 ?_, rfl⟩
      simp [value, hb]
  · rintro ⟨l, hl, rfl⟩ hn
    have := (h.val l).2 hl
    simp [value, hn] at this

theorem value_none_iff (T : Trail) (l : Lit) : T.value l = none ↔ T.assigns l.var = none := by
  unfold value; cases T.assigns l.var <;> simp

theorem empty_inv (n : Nat) : (empty n).Inv where
  val l := by simp [empty, value]
  nodup := by simp [empty]
  bound := by simp [empty]
  limSorted := by simp [empty]
  limLe := by simp [empty]
  lev := by simp [empty]
  qle := by simp [empty]

theorem reset_inv (T : Trail) : T.reset.Inv where
  val l := by simp [reset, value]
  nodup := by simp [reset]
  bound := by simp [reset]
  limSorted := by simp [reset]
  limLe := by simp [reset]
  lev := by simp [reset]
  qle := by simp [reset]

/-- Common form of `decide` and `propagate`: push a literal with a reason on the current level. -/
def push (T : Trail) (p : Lit) (r : Option Nat) : Trail :=
  { T.setValue p with reason := upd T.reason p.var r, level := upd T.level p.var T.decisionLevel }

theorem decide_eq_push (T : Trail) (p : Lit) : T.decide p = T.push p none := rfl
theorem propagate_eq_push (T : Trail) (p : Lit) (c : Nat) (h : T.value p = none) :
    T.propagate p c = T.push p (some c) := by
  simp [propagate, falsifies, h, push]

theorem countP_lim_all (h : T.Inv) {n : Nat} (hn : T.stack.length ≤ n) :
    T.lim.countP (· ≤ n) = T.lim.length := by
  rw [List.countP_eq_length]
  intro k hk
  have := h.limLe k hk
  simp; omega

theorem push_value_none {p : Lit} {r : Option Nat} {l : Lit} (hl : l.var ≠ p.var) :
    (T.push p r).value l = T.value l := by
  simp [push, value, setValue, upd_ne _ _ hl]

theorem push_inv (h : T.Inv) {p : Lit} {r : Option Nat} (hp : T.value p = none)
    (hb : p.var < T.nVars) : (T.push p r).Inv where
  val l := by
    by_cases hv : l.var = p.var
    · have hn := (h.valNone p).1 hp
      have : (T.push p r).value l = some (!p.sign ^^ l.sign) := by
        simp [push, value, setValue, hv]
      rw [this]
      simp only [push, setValue, List.mem_append, List.mem_singleton]
      rcases Lit.eq_or_neg_of_var hv with rfl | rfl
      · simp
      · simp only [Lit.sign_neg]
        constructor
        · intro h; cases hs : p.sign <;> simp [hs] at h
        · rintro (h | h)
          · exact (hn.2 h).elim
          · exact (p.neg_ne h).elim
    · rw [push_value_none hv, h.val]
      simp only [push, setValue, List.mem_append, List.mem_singleton]
      constructor
      · exact Or.inl
      · rintro (h | rfl)
        · exact h
        · exact (hv rfl).elim
  nodup := by
    simp only [push, setValue]
    rw [List.nodup_append]
    refine ⟨h.nodup, by simp, ?_⟩
    intro a ha b hb
    simp at hb; subst hb
    rintro rfl
    exact ((h.valNone a).1 hp).1 ha
  bound l hl := by
    simp only [push, setValue, List.mem_append, List.mem_singleton] at hl ⊢
    rcases hl with hl | rfl
    · exact h.bound l hl
    · exact hb
  limSorted := h.limSorted
  limLe k hk := by
    have := h.limLe k hk
    simp [push, setValue]; omega
  lev pre q post hs := by
    simp only [push, setValue] at hs ⊢
    rcases append_singleton_split hs with ⟨_, rfl, rfl⟩ | ⟨post', _, hs'⟩
    · rw [upd_same, countP_lim_all h (Nat.le_refl _)]; rfl
    · have hq : q ∈ T.stack := by rw [hs']; simp
      have : q.var ≠ p.var := by
        intro hv
        have h2 := (h.assigned_iff q.var).2 ⟨q, hq, rfl⟩
        rw [hv] at h2
        exact h2 ((value_none_iff T p).1 hp)
      rw [upd_ne _ _ this, h.lev pre q post' hs']
  qle := by
    have := h.qle
    simp [push, setValue]; omega

theorem newDecisionLevel_inv (h : T.Inv) : T.newDecisionLevel.Inv where
  val := h.val
  nodup := h.nodup
  bound := h.bound
  limSorted := by
    simp only [newDecisionLevel]
    rw [List.pairwise_append]
    refine ⟨h.limSorted, by simp, ?_⟩
    intro a ha b hb
    simp at hb; subst hb
    exact h.limLe a ha
  limLe k hk := by
    simp only [newDecisionLevel, List.mem_append, List.mem_singleton] at hk ⊢
    rcases hk with hk | rfl
    · exact h.limLe k hk
    · exact Nat.le_refl _
  lev pre p post hs := by
    have := h.lev pre p post hs
    simp only [newDecisionLevel] at hs ⊢
    rw [this, List.countP_append]
    have : T.stack.length > pre.length := by rw [hs]; simp
    simp; omega
  qle := h.qle

/-- Index form of the level invariant. -/
theorem Inv.lev_idx (h : T.Inv) {i : Nat} (hi : i < T.stack.length) :
    T.level (T.stack[i]).var = T.lim.countP (· ≤ i) := by
  have := h.lev (T.stack.take i) T.stack[i] (T.stack.drop (i+1)) (by simp)
  simpa [Nat.min_eq_left (Nat.le_of_lt hi)] using this

theorem Inv.level_le (h : T.Inv) {l : Lit} (hl : l ∈ T.stack) : T.level l.var ≤ T.decisionLevel := by
  obtain ⟨pre, post, hs⟩ := List.append_of_mem hl
  rw [h.lev pre l post hs]
  exact List.countP_le_length

/-- Levels are non-decreasing along the stack. -/
theorem Inv.level_mono (h : T.Inv) {pre post : List Lit} {p q : Lit}
    (hs : T.stack = pre ++ p :: post) (hq : q ∈ pre) : T.level q.var ≤ T.level p.var := by
  obtain ⟨a, b, rfl⟩ := List.append_of_mem hq
  rw [h.lev _ _ _ hs, h.lev a q (b ++ p :: post) (by rw [hs]; simp)]
  apply List.countP_mono_left
  intro x _ hx
  simp at hx ⊢; omega

/-- In a sorted list, the entries `≤ i` are a prefix. -/
theorem sorted_countP {l : List Nat} (hs : l.Pairwise (· ≤ ·)) (i j : Nat) (hj : j < l.length) :
    l[j] ≤ i ↔ j < l.countP (· ≤ i) := by
  induction l generalizing j with
  | nil => simp at hj
  | cons a l ih =>
    rw [List.pairwise_cons] at hs
    rw [List.countP_cons]
    by_cases ha : a ≤ i
    · simp only [ha, decide_true, if_true]
      cases j with
      | zero => simp [ha]
      | succ j =>
        simp only [List.getElem_cons_succ]
        rw [ih hs.2 j (by simpa using hj)]
        omega
    · have h0 : l.countP (· ≤ i) = 0 := by
        rw [List.countP_eq_zero]
        intro x hx
        have := hs.1 x hx
        simp; omega
      simp only [h0, ha, decide_false]
      cases j with
      | zero => simp; omega
      | succ j =>
        simp only [List.getElem_cons_succ]
        have hj' : j < l.length := by simpa using hj
        have := hs.1 l[j] (List.getElem_mem _)
        constructor
        · intro; omega
        · intro h; simp at h

/-- A literal at index `i` has level `> lvl` iff its index is at least `lim[lvl]`. -/
theorem Inv.level_gt_iff (h : T.Inv) {pre post : List Lit} {p : Lit} {lvl k : Nat}
    (hs : T.stack = pre ++ p :: post) (hk : T.lim[lvl]? = some k) :
    lvl < T.level p.var ↔ k ≤ pre.length := by
  obtain ⟨hlt, rfl⟩ := List.getElem?_eq_some_iff.1 hk
  rw [h.lev _ _ _ hs, sorted_countP h.limSorted _ _ hlt]

theorem backtrack_none {lvl : Nat} (h : T.lim[lvl]? = none) : T.backtrack lvl = T := by
  simp [backtrack, h]

section
variable {lvl k : Nat}

theorem backtrack_stack (hk : T.lim[lvl]? = some k) : (T.backtrack lvl).stack = T.stack.take k := by
  simp [backtrack, hk]
theorem backtrack_lim (hk : T.lim[lvl]? = some k) : (T.backtrack lvl).lim = T.lim.take lvl := by
  simp [backtrack, hk]
theorem backtrack_qhead (hk : T.lim[lvl]? = some k) :
    (T.backtrack lvl).qhead = if lvl = 0 then 0 else k := by
  simp [backtrack, hk]
@[simp] theorem backtrack_level : (T.backtrack lvl).level = T.level := by
  unfold backtrack; split <;> rfl
@[simp] theorem backtrack_reason : (T.backtrack lvl).reason = T.reason := by
  unfold backtrack; split <;> rfl
@[simp] theorem backtrack_nVars : (T.backtrack lvl).nVars = T.nVars := by
  unfold backtrack; split <;> rfl
@[simp] theorem backtrack_assumptions : (T.backtrack lvl).assumptions = T.assumptions := by
  unfold backtrack; split <;> rfl
@[simp] theorem backtrack_decision : (T.backtrack lvl).decision = T.decision := by
  unfold backtrack; split <;> rfl

theorem backtrack_value (h : T.Inv) (hk : T.lim[lvl]? = some k) (l : Lit) :
    (T.backtrack lvl).value l = some true ↔ l ∈ T.stack.take k := by
  have hsplit : T.stack = T.stack.take k ++ T.stack.drop k := by simp
  constructor
  · intro hv
    have hv' : ¬ (∃ m ∈ T.stack.drop k, m.var = l.var) ∧ T.value l = some true := by
      simp only [backtrack, hk, value] at hv ⊢
      by_cases hd : (T.stack.drop k).any (fun m => m.var == l.var)
      · simp [hd] at hv
      · simp only [hd] at hv
        refine ⟨?_, hv⟩
        simpa using hd
    have := (h.val l).1 hv'.2
    rw [hsplit, List.mem_append] at this
    rcases this with h1 | h1
    · exact h1
    · exact (hv'.1 ⟨l, h1, rfl⟩).elim
  · intro hl
    have hls : l ∈ T.stack := List.mem_of_mem_take hl
    have hv := (h.val l).2 hls
    have hd : ¬ (T.stack.drop k).any (fun m => m.var == l.var) := by
      simp only [List.any_eq_true, beq_iff_eq, not_exists, not_and]
      intro m hm hv
      have : m = l := h.varInj (List.mem_of_mem_drop hm) hls hv
      subst this
      have hn := h.nodup
      rw [hsplit, List.nodup_append] at hn
      exact hn.2.2 m hl m hm rfl
    simp only [backtrack, hk, value] at hv ⊢
    simpa [hd] using hv

theorem backtrack_inv (h : T.Inv) : (T.backtrack lvl).Inv := by
  cases hk : T.lim[lvl]? with
  | none => rw [backtrack_none hk]; exact h
  | some k =>
    obtain ⟨hlt, hkeq⟩ := List.getElem?_eq_some_iff.1 hk
    have hkl : k ≤ T.stack.length := h.limLe k (by rw [← hkeq]; exact List.getElem_mem _)
    have hlen : (T.stack.take k).length = k := by simp; omega
    exact {
      val := fun l => by rw [backtrack_value h hk, backtrack_stack hk]
      nodup := by rw [backtrack_stack hk]; exact h.nodup.sublist (List.take_sublist _ _)
      bound := fun l hl => by
        rw [backtrack_stack hk] at hl; rw [backtrack_nVars]
        exact h.bound l (List.mem_of_mem_take hl)
      limSorted := by
        rw [backtrack_lim hk]; exact h.limSorted.sublist (List.take_sublist _ _)
      limLe := fun x hx => by
        rw [backtrack_lim hk] at hx
        rw [backtrack_stack hk, hlen]
        obtain ⟨i, hi, rfl⟩ := List.getElem_of_mem hx
        simp at hi
        rw [List.getElem_take, ← hkeq]
        by_cases hieq : i = lvl
        · subst hieq; exact Nat.le_refl _
        · exact List.pairwise_iff_getElem.1 h.limSorted i lvl (by omega) hlt (by omega)
      lev := fun pre p post hs => by
        rw [backtrack_stack hk] at hs
        rw [backtrack_level, backtrack_lim hk]
        have hs' : T.stack = pre ++ p :: (post ++ T.stack.drop k) := by
          conv => lhs; rw [← List.take_append_drop k T.stack, hs]
          simp
        have hpre : pre.length < k := by
          have := congrArg List.length hs
          rw [hlen] at this; simp at this; omega
        rw [h.lev _ _ _ hs']
        conv => lhs; rw [← List.take_append_drop lvl T.lim]
        rw [List.countP_append]
        have : (T.lim.drop lvl).countP (· ≤ pre.length) = 0 := by
          rw [List.countP_eq_zero]
          intro x hx
          obtain ⟨i, hi, rfl⟩ := List.getElem_of_mem hx
          simp at hi
          rw [List.getElem_drop]
          have : k ≤ T.lim[lvl + i] := by
            rw [← hkeq]
            by_cases hi0 : i = 0
            · subst hi0; exact Nat.le_refl _
            · exact List.pairwise_iff_getElem.1 h.limSorted lvl (lvl+i) hlt (by omega) (by omega)
          simp; omega
        omega
      qle := by
        rw [backtrack_qhead hk, backtrack_stack hk, hlen]
        split <;> omega }

end

end Trail
end Candy
