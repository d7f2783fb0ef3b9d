import Verif.Proofs.Approximation

/-!
# Properties of the approximation state

An equivalence conjecture is a set of literals with different variables. It is represented by implications. Whatever
variables are removed, in whatever order and in however many commits, the implications form one cycle through the
literals that are left, in the order of the conjecture.
-/

namespace Candy

/-- The implications of the cycle through `T`: every literal implies its successor, the last one implies the
first one. -/
def cycleOf (T : List Lit) : List Implication := T.zip (T.drop 1 ++ T.take 1)

/-- The literals of the conjecture `c` whose variable is not in `R`. -/
def leftLits (c : List Lit) (R : List Nat) : List Lit := c.filter fun l => !R.contains l.var

namespace EquivImpls

/-- The states that an object for the conjecture `c` can have: `R` are the variables whose removal was requested. -/
inductive Reach (c : List Lit) : EquivImpls → List Nat → Prop
  | new : Reach c (ofConjecture c) []
  | request {s : EquivImpls} {R : List Nat} (v : Nat) : Reach c s R → Reach c (s.addRemoval v) (v :: R)
  | commit {s s' : EquivImpls} {R : List Nat} {fuel : Nat} {d : EqDelta} : Reach c s R → s.commit fuel = some (s', d) → Reach c s' R

theorem steps_zip : ∀ (M : List Lit) (y : Lit), steps (M ++ [y]) = M.zip (M.drop 1 ++ [y])
  | [], _ => rfl
  | [a], _ => rfl
  | a :: b :: M, y => by
    have := steps_zip (b :: M) y
    simp only [List.cons_append, List.drop_succ_cons, List.drop_zero] at this ⊢
    simp only [steps, this, List.zip_cons_cons]

theorem cyc_eq (T : List Lit) : cyc T = cycleOf T := by
  cases T with
  | nil => rfl
  | cons x M => simpa [cyc, cycleOf] using steps_zip (x :: M) x

theorem commitLoop_mono {fuel : Nat} : ∀ (n : Nat) (s : EquivImpls) (d : EqDelta) (r : EquivImpls × EqDelta) , s.commitLoop fuel n d = some r →
    ∀ fuel' n', fuel ≤ fuel' → n ≤ n' → s.commitLoop fuel' n' d = some r := by
  have hf : ∀ (s : EquivImpls) (first : Nat) (fuel : Nat) (cur : Nat) (q r : List Implication), s.forward first fuel cur q = some r →
      ∀ fuel', fuel ≤ fuel' → s.forward first fuel' cur q = some r := by
    intro s first fuel
    induction fuel with
    | zero => intro cur q r h; simp [forward] at h
    | succ fuel ih =>
      intro cur q r h fuel' hle
      obtain ⟨k, rfl⟩ : ∃ k, fuel' = k + 1 := ⟨fuel' - 1, by omega⟩
      unfold forward at h ⊢
      split at h
      · rename_i hc
        rw [if_pos hc]
        split at h
        · cases h
        · rename_i i hi
          exact ih _ _ _ h k (by omega)
      · rename_i hc
        rw [if_neg hc]; exact h
  have hb : ∀ (s : EquivImpls) (first : Nat) (fuel : Nat) (cur : Nat) (q r : List Implication), s.backward first fuel cur q = some r →
      ∀ fuel', fuel ≤ fuel' → s.backward first fuel' cur q = some r := by
    intro s first fuel
    induction fuel with
    | zero => intro cur q r h; simp [backward] at h
    | succ fuel ih =>
      intro cur q r h fuel' hle
      obtain ⟨k, rfl⟩ : ∃ k, fuel' = k + 1 := ⟨fuel' - 1, by omega⟩
      unfold backward at h ⊢
      split at h
      · rename_i hc
        rw [if_pos hc]
        split at h
        · cases h
        · rename_i i hi
          exact ih _ _ _ h k (by omega)
      · rename_i hc
        rw [if_neg hc]; exact h
  have hs : ∀ (s : EquivImpls) (first : Nat) (fuel : Nat) (r : EquivImpls × EqDelta), s.commitStep fuel first = some r →
      ∀ fuel', fuel ≤ fuel' → s.commitStep fuel' first = some r := by
    intro s first fuel r h fuel' hle
    unfold commitStep at h ⊢
    split at h
    · exact h
    · rename_i out ho
      split at h
      · cases h
      · rename_i inn hi
        cases hq : s.forward first fuel out.2.var [inn, out] with
        | none => rw [hq] at h; cases h
        | some q =>
          rw [hq] at h
          rw [hf _ _ _ _ _ _ hq _ hle]
          simp only [Option.bind_some] at h ⊢
          cases hq2 : s.backward first fuel inn.1.var q with
          | none => rw [hq2] at h; cases h
          | some q2 =>
            rw [hq2] at h
            rw [hb _ _ _ _ _ _ hq2 _ hle]
            exact h
  intro n
  induction n with
  | zero => intro s d r h; simp [commitLoop] at h
  | succ n ih =>
    intro s d r h fuel' n' h1 h2
    obtain ⟨k, rfl⟩ : ∃ k, n' = k + 1 := ⟨n' - 1, by omega⟩
    unfold commitLoop at h ⊢
    split at h
    · exact h
    · rename_i first tl hq
      split at h
      · cases h
      · rename_i s' e he
        rw [hs _ _ _ _ he _ h1]
        exact ih _ _ _ h fuel' k h1 (by omega)

theorem commit_ok {s s' : EquivImpls} {L : List Lit} {fuel : Nat} {d : EqDelta} (h : Inv s L) (hc : s.commit fuel = some (s', d)) :
    ∃ L', CommitOk s.queue L s' d L' := by
  obtain ⟨s2, d2, L', h2, ok⟩ := commit_spec (fuel := fuel + (L.length + 2) + (s.queue.length + 1)) h (by omega) (by omega)
  have := commitLoop_mono _ _ _ _ hc (fuel + (L.length + 2) + (s.queue.length + 1)) (fuel + (L.length + 2) + (s.queue.length + 1)) (by omega) (by omega)
  unfold commit at h2
  rw [this] at h2
  cases h2
  exact ⟨L', ok⟩

/-- The invariant of the reachable states. -/
theorem reach_inv {c : List Lit} (hn : (c.map Lit.var).Nodup) {s : EquivImpls} {R : List Nat} (h : Reach c s R) :
    ∃ L, Inv s L ∧ (∀ v ∈ s.queue, v ∈ R) ∧
      ((L = [] ∧ (leftLits c R).length < 2) ∨ Rot (leftLits c R) (leftLits L s.queue)) := by
  induction h with
  | new =>
    obtain ⟨h1, h2⟩ := ofConjecture_inv hn
    refine ⟨_, h1, by rw [h2]; simp, ?_⟩
    have e : leftLits c [] = c := List.filter_eq_self.2 (by simp)
    by_cases hl : 1 < c.length
    · rw [if_pos hl, h2, e]
      exact .inr (Rot.refl _)
    · rw [if_neg hl, e]
      exact .inl ⟨rfl, by omega⟩
  | @request s R v _ ih =>
    obtain ⟨L, h1, h2, h3⟩ := ih
    refine ⟨L, ⟨h1.ante, h1.succ, h1.nodup, h1.len⟩, ?_, ?_⟩
    · intro w hw
      simp only [addRemoval] at hw
      split at hw
      · exact List.mem_cons_of_mem _ (h2 w hw)
      · rcases List.mem_append.1 hw with hw | hw
        · exact List.mem_cons_of_mem _ (h2 w hw)
        · rw [List.mem_singleton.1 hw]; simp
    · have e1 : leftLits c (v :: R) = (leftLits c R).filter (fun l => l.var != v) := by
        unfold leftLits
        rw [List.filter_filter]
        refine List.filter_congr fun l _ => ?_
        simp only [List.contains_cons, Bool.not_or, bne]
      have e2 : leftLits L (s.addRemoval v).queue = (leftLits L s.queue).filter (fun l => l.var != v) := by
        unfold leftLits
        rw [List.filter_filter]
        refine List.filter_congr fun l _ => ?_
        rw [Bool.eq_iff_iff]
        simp only [addRemoval, Bool.not_eq_true', Bool.and_eq_true, bne_iff_ne, ne_eq, Bool.eq_false_iff, List.contains_iff_mem]
        split
        · rename_i hv
          constructor
          · exact fun h => ⟨fun e => h (e ▸ hv), h⟩
          · exact fun h => h.2
        · simp only [List.mem_append, List.mem_singleton, not_or]
          exact ⟨fun h => ⟨h.2, h.1⟩, fun h => ⟨h.2, h.1⟩⟩
      rcases h3 with ⟨h3, h4⟩ | h3
      · refine .inl ⟨h3, ?_⟩
        rw [e1]
        have := List.length_filter_le (fun l : Lit => l.var != v) (leftLits c R)
        omega
      · rw [e1, e2]
        exact .inr (h3.filter _)
  | @commit s s' R fuel d _ hc ih =>
    obtain ⟨L, h1, h2, h3⟩ := ih
    obtain ⟨L', ok⟩ := commit_ok h1 hc
    refine ⟨L', ok.inv, by rw [ok.queue]; simp, ?_⟩
    have e : leftLits L' s'.queue = L' := by rw [ok.queue]; exact List.filter_eq_self.2 (by simp)
    rw [e]
    rcases h3 with ⟨rfl, h4⟩ | h3
    · refine .inl ⟨?_, h4⟩
      rcases ok.stay with ⟨_, h5⟩ | ⟨h5, _⟩
      · exact h5
      · simp [stay] at h5
    · rcases ok.stay with ⟨h5, h6⟩ | ⟨h5, h6⟩
      · exact .inl ⟨h6, by rw [h3.perm.length_eq]; exact h5⟩
      · exact .inr (h3.trans h6)

/-- **C42.** After any requests and commits, once the pending requests are committed, the implications are the
cycle through the remaining literals; there are none if less than two literals remain. -/
theorem C42_cycle {c : List Lit} (hn : (c.map Lit.var).Nodup) {s : EquivImpls} {R : List Nat} (h : Reach c s R)
    (hq : s.queue = []) :
    s.implications.Perm (if 2 ≤ (leftLits c R).length then cycleOf (leftLits c R) else []) := by
  obtain ⟨L, h1, _, h3⟩ := reach_inv hn h
  have hi : s.implications.Perm (cyc L) := h1.ante.values
  have e : leftLits L s.queue = L := by rw [hq]; exact List.filter_eq_self.2 (by simp)
  rw [e] at h3
  rcases h3 with ⟨rfl, h4⟩ | h3
  · rw [if_neg (by omega)]; exact hi
  · split
    · rw [← cyc_eq]
      exact hi.trans (cyc_rot h3).symm
    · rename_i hl
      rw [h3.perm.length_eq] at hl
      rcases h1.len with rfl | h5
      · exact hi
      · omega

/-- **C42.** A commit terminates with a result: no implication is looked up that is not there. It empties the queue. -/
theorem C42_commit_defined {c : List Lit} (hn : (c.map Lit.var).Nodup) {s : EquivImpls} {R : List Nat} (h : Reach c s R) :
    ∃ n, ∀ fuel, n ≤ fuel → ∃ s' d, s.commit fuel = some (s', d) ∧ s'.queue = [] := by
  obtain ⟨L, h1, _, _⟩ := reach_inv hn h
  refine ⟨(L.length + 2) + (s.queue.length + 1), fun fuel hf => ?_⟩
  obtain ⟨s', d, L', h2, ok⟩ := commit_spec (fuel := fuel) h1 (by omega) (by omega)
  exact ⟨s', d, h2, ok.queue⟩

/-- **C42.** The reported difference is the difference: the old implications without the removed ones are the new
implications without the added ones. Every removed implication has a literal whose removal was pending, an
added implication has none and connects literals of the conjecture. At most as many implications are added as are
removed. -/
theorem C42_delta {c : List Lit} (hn : (c.map Lit.var).Nodup) {s s' : EquivImpls} {R : List Nat} {fuel : Nat} {d : EqDelta}
    (h : Reach c s R) (hc : s.commit fuel = some (s', d)) :
    (∃ kept, s.implications.Perm (d.removed ++ kept) ∧ s'.implications.Perm (d.added ++ kept)) ∧
    (∀ i ∈ d.removed, i.1.var ∈ s.queue ∨ i.2.var ∈ s.queue) ∧
    (∀ i ∈ d.added, i.1.var ∉ s.queue ∧ i.2.var ∉ s.queue) ∧
    d.added.length ≤ d.removed.length := by
  obtain ⟨L, h1, _, _⟩ := reach_inv hn h
  obtain ⟨L', ok⟩ := commit_ok h1 hc
  obtain ⟨rest, r1, r2⟩ := ok.rest
  exact ⟨⟨rest, h1.ante.values.trans r1, ok.inv.ante.values.trans r2⟩, ok.removed,
    fun i hi => ⟨(ok.added i hi).2.2.1, (ok.added i hi).2.2.2⟩, ok.addedLe⟩

theorem steps_imp (a : Assign) : ∀ (M : List Lit) (x : Lit), (∀ i ∈ steps (x :: M), i.1.holds a → i.2.holds a) →
    ∀ q ∈ M, x.holds a → q.holds a
  | [], _, _, q, hq, _ => by cases hq
  | y :: M, x, h, q, hq, hx => by
    have hy := h (x, y) (by simp [steps]) hx
    rcases List.mem_cons.1 hq with rfl | hq
    · exact hy
    · exact steps_imp a M y (fun i hi => h i (by simp [steps, hi])) q hq hy

theorem cycle_meaning (a : Assign) (T : List Lit) :
    (∀ i ∈ cycleOf T, i.1.holds a → i.2.holds a) ↔ ∀ p ∈ T, ∀ q ∈ T, p.holds a → q.holds a := by
  constructor
  · intro h p hp q hq
    rw [← cyc_eq] at h
    obtain ⟨A, B, rfl⟩ := List.append_of_mem hp
    have hr : Rot (A ++ p :: B) (p :: (B ++ A)) := ⟨A, p :: B, rfl, by simp⟩
    have h' : ∀ i ∈ cyc (p :: (B ++ A)), i.1.holds a → i.2.holds a := fun i hi => h i ((cyc_rot hr).mem_iff.2 hi)
    have hq' := hr.perm.mem_iff.1 hq
    refine steps_imp a _ _ h' q ?_
    simp only [List.mem_cons, List.mem_append] at hq' ⊢
    rcases hq' with hq' | hq' | hq'
    · simp [hq']
    · simp [hq']
    · simp [hq']
  · intro h i hi
    obtain ⟨p, q⟩ := i
    have h1 : p ∈ T := (List.of_mem_zip hi).1
    have h2 : q ∈ T := by
      have := (List.of_mem_zip hi).2
      rcases List.mem_append.1 this with hm | hm
      · exact List.mem_of_mem_drop hm
      · exact List.mem_of_mem_take hm
    exact h p h1 q h2

/-- **C42.** An assignment satisfies all implications iff it gives all remaining literals the same value. -/
theorem C42_meaning {c : List Lit} (hn : (c.map Lit.var).Nodup) {s : EquivImpls} {R : List Nat} (h : Reach c s R)
    (hq : s.queue = []) (a : Assign) :
    (∀ i ∈ s.implications, i.1.holds a → i.2.holds a) ↔
      ∀ p ∈ leftLits c R, ∀ q ∈ leftLits c R, (p.holds a ↔ q.holds a) := by
  have hp := C42_cycle hn h hq
  have h1 : (∀ i ∈ s.implications, i.1.holds a → i.2.holds a) ↔
      ∀ p ∈ leftLits c R, ∀ q ∈ leftLits c R, p.holds a → q.holds a := by
    by_cases hl : 2 ≤ (leftLits c R).length
    · rw [if_pos hl] at hp
      rw [← cycle_meaning]
      exact ⟨fun h i hi => h i (hp.mem_iff.2 hi), fun h i hi => h i (hp.mem_iff.1 hi)⟩
    · rw [if_neg hl] at hp
      have hnil := List.perm_nil.1 hp
      rw [hnil]
      constructor
      · intro _ p hp q hq
        match hT : leftLits c R with
        | [] => rw [hT] at hp; cases hp
        | [x] =>
          rw [hT] at hp hq
          rw [List.mem_singleton.1 hp, List.mem_singleton.1 hq]
          exact id
        | x :: y :: r => rw [hT] at hl; simp at hl
      · intro _ i hi; cases hi
  rw [h1]
  exact ⟨fun h p hp q hq => ⟨h p hp q hq, h q hq p hp⟩, fun h p hp q hq => (h p hp q hq).1⟩

/-- Four literals, two requests, a commit, a further request and a commit. -/
def exConj : List Lit := [pos 0, neg 1, pos 2, neg 3]

example : ((exConj.map Lit.var).Nodup) := by decide

example : ∃ s d s' d', (((ofConjecture exConj).addRemoval 1).addRemoval 2).commit 10 = some (s, d) ∧
    d.removed = [(pos 0, neg 1), (neg 1, pos 2), (pos 2, neg 3)] ∧ d.added = [(pos 0, neg 3)] ∧
    (s.addRemoval 0).commit 10 = some (s', d') ∧ d'.removed = [(neg 3, pos 0), (pos 0, neg 3)] ∧ d'.added = [] := by
  refine ⟨⟨[(0, pos 0, neg 3), (3, neg 3, pos 0)], [(3, pos 0, neg 3), (0, neg 3, pos 0)], []⟩,
    ⟨[(pos 0, neg 3)], [(pos 0, neg 1), (neg 1, pos 2), (pos 2, neg 3)]⟩, ⟨[], [], []⟩,
    ⟨[], [(neg 3, pos 0), (pos 0, neg 3)]⟩, by decide, rfl, rfl, by decide, rfl, rfl⟩

/-- If a conjecture contains a variable twice, the maps do not represent a cycle: the commit uses an implication that is
not there. -/
theorem C42_finding_variable_twice : ∃ c : List Lit, ∃ v : Nat, ¬(c.map Lit.var).Nodup ∧
    (((ofConjecture c).addRemoval v).commit 100).map (fun r => r.1.implications) ≠ some (cycleOf (leftLits c [v])) := by
  refine ⟨[pos 0, pos 1, neg 0], 1, by decide, by decide⟩

end EquivImpls

namespace Backbones

/-- **C42.** If no backbone is conjectured with both signs, a commit removes exactly the literals whose variables
were requested, and reports them. -/
theorem C42_backbones (s : Backbones) (hone : ∀ l ∈ s.lits, l.neg ∉ s.lits) :
    s.commit.1.lits = leftLits s.lits s.queue ∧ s.commit.1.queue = [] ∧
    ∀ l, l ∈ s.commit.2 ↔ l ∈ s.lits ∧ l.var ∈ s.queue := by
  obtain ⟨h1, h2⟩ := foldl_commit s.queue s.lits [] hone
  refine ⟨h1, rfl, fun l => ?_⟩
  rw [commit]
  rw [h2 l]
  simp

example : (((ofConjectures [pos 0, neg 1, pos 2]).addRemoval 1).addRemoval 7).commit = (⟨[pos 0, pos 2], []⟩, [neg 1]) := by decide

/-- If a backbone is conjectured with both signs, one of the two is kept. -/
theorem C42_finding_both_signs : ∃ s : Backbones, s.commit.1.lits ≠ leftLits s.lits s.queue :=
  ⟨⟨[pos 0, neg 0], [0]⟩, by decide⟩

end Backbones

end Candy
