import Verif.Props.GateAnalysis
import Verif.Proofs.Minimizer

/-!
# Pruning by gates: the clauses that `getPrunedProblem` keeps, and why they suffice
-/

namespace Candy

/-- The literal `l` makes the loop enter the gate over its variable. -/
def GateProblem.Enters (G : GateProblem) (m : SolverResult) (l : Lit) : Prop :=
  (G.gates l.var).out ≠ none ∧ ((G.gates l.var).notMono = true ∨ m.satisfies l = true)

/-- The positions of the clauses collected, given the gates visited. -/
def GateProblem.Kept (G : GateProblem) (vis : Nat → Bool) (i : Nat) : Prop :=
  i ∈ G.roots ∨ ∃ v, vis v = true ∧ (i ∈ (G.gates v).fwd ∨ (G.gates v).notMono = true ∧ i ∈ (G.gates v).bwd)

/-- A literal that the loop meets: of a root, or an input of a visited gate. -/
def GateProblem.Met (G : GateProblem) (cls : Nat → Clause) (vis : Nat → Bool) (l : Lit) : Prop :=
  (∃ i ∈ G.roots, l ∈ cls i) ∨ ∃ w, vis w = true ∧ l ∈ (G.gates w).inp

/-- What the loop has established when the stack is `ls`. -/
structure PruneInv (G : GateProblem) (cls : Nat → Clause) (m : SolverResult) (ls : List Lit) (vis : Nat → Bool) (acc : List Nat) : Prop where
  closed : ∀ l, G.Met cls vis l → G.Enters m l → vis l.var = true ∨ l ∈ ls
  stack : ∀ l ∈ ls, G.Met cls vis l
  entered : ∀ v, vis v = true → ∃ l, l.var = v ∧ G.Met cls vis l ∧ G.Enters m l
  kept : ∀ i, i ∈ acc ↔ G.Kept vis i

theorem PruneInv.pop {G : GateProblem} {cls : Nat → Clause} {m : SolverResult} {o : Lit} {ls : List Lit} {vis : Nat → Bool} {acc : List Nat}
    (h : PruneInv G cls m (o :: ls) vis acc) (ho : G.Enters m o → vis o.var = true) : PruneInv G cls m ls vis acc where
  closed l h1 h2 := by
    rcases h.closed l h1 h2 with h3 | h3
    · exact .inl h3
    · rcases List.mem_cons.1 h3 with rfl | h3
      · exact .inl (ho h2)
      · exact .inr h3
  stack l hl := h.stack l (List.mem_cons_of_mem _ hl)
  entered := h.entered
  kept := h.kept

theorem PruneInv.visit {G : GateProblem} {cls : Nat → Clause} {m : SolverResult} {o : Lit} {ls : List Lit} {vis : Nat → Bool} {acc : List Nat}
    (h : PruneInv G cls m (o :: ls) vis acc) (ho : G.Enters m o) :
    PruneInv G cls m ((G.gates o.var).inp.reverse ++ ls) (upd vis o.var true)
      (acc ++ (G.gates o.var).fwd ++ if (G.gates o.var).notMono then (G.gates o.var).bwd else []) := by
  have hup : ∀ v, upd vis o.var true v = true ↔ vis v = true ∨ v = o.var := by
    intro v; unfold upd; split <;> simp_all
  have hmet : ∀ l, G.Met cls vis l → G.Met cls (upd vis o.var true) l := by
    rintro l (h1 | ⟨w, h1, h2⟩)
    · exact .inl h1
    · exact .inr ⟨w, (hup w).2 (.inl h1), h2⟩
  refine ⟨?_, ?_, ?_, ?_⟩
  · rintro l (h1 | ⟨w, h1, h2⟩) he
    · rcases h.closed l (.inl h1) he with h3 | h3
      · exact .inl ((hup _).2 (.inl h3))
      · rcases List.mem_cons.1 h3 with rfl | h3
        · exact .inl ((hup _).2 (.inr rfl))
        · exact .inr (List.mem_append_right _ h3)
    · rcases (hup w).1 h1 with h1 | rfl
      · rcases h.closed l (.inr ⟨w, h1, h2⟩) he with h3 | h3
        · exact .inl ((hup _).2 (.inl h3))
        · rcases List.mem_cons.1 h3 with rfl | h3
          · exact .inl ((hup _).2 (.inr rfl))
          · exact .inr (List.mem_append_right _ h3)
      · exact .inr (List.mem_append_left _ (List.mem_reverse.2 h2))
  · intro l hl
    rcases List.mem_append.1 hl with hl | hl
    · exact .inr ⟨o.var, (hup _).2 (.inr rfl), List.mem_reverse.1 hl⟩
    · exact hmet l (h.stack l (List.mem_cons_of_mem _ hl))
  · intro v hv
    rcases (hup v).1 hv with hv | rfl
    · obtain ⟨l, h1, h2, h3⟩ := h.entered v hv
      exact ⟨l, h1, hmet l h2, h3⟩
    · exact ⟨o, rfl, hmet o (h.stack o (by simp)), ho⟩
  · intro i
    rw [List.mem_append, List.mem_append, h.kept]
    unfold GateProblem.Kept
    constructor
    · rintro (((h1 | ⟨v, h1, h2⟩) | h1) | h1)
      · exact .inl h1
      · exact .inr ⟨v, (hup v).2 (.inl h1), h2⟩
      · exact .inr ⟨o.var, (hup _).2 (.inr rfl), .inl h1⟩
      · cases hm : (G.gates o.var).notMono with
        | false => rw [hm] at h1; simp at h1
        | true =>
          rw [hm] at h1
          exact .inr ⟨o.var, (hup _).2 (.inr rfl), .inr ⟨hm, by simpa using h1⟩⟩
    · rintro (h1 | ⟨v, h1, h2⟩)
      · exact .inl (.inl (.inl h1))
      · rcases (hup v).1 h1 with h1 | rfl
        · exact .inl (.inl (.inr ⟨v, h1, h2⟩))
        · rcases h2 with h2 | ⟨h2, h3⟩
          · exact .inl (.inr h2)
          · exact .inr (by rw [h2]; exact h3)

theorem pruneLoop_inv {G : GateProblem} {cls : Nat → Clause} {m : SolverResult} : ∀ {fuel : Nat} {ls : List Lit} {vis : Nat → Bool}
    {acc r : List Nat}, PruneInv G cls m ls vis acc → G.pruneLoop m fuel ls vis acc = some r →
    ∃ vis', PruneInv G cls m [] vis' r := by
  intro fuel
  induction fuel with
  | zero =>
    intro ls vis acc r h he
    cases ls with
    | nil => simp only [GateProblem.pruneLoop, Option.some.injEq] at he; subst he; exact ⟨vis, h⟩
    | cons o ls => simp [GateProblem.pruneLoop] at he
  | succ n ih =>
    intro ls vis acc r h he
    cases ls with
    | nil => simp only [GateProblem.pruneLoop, Option.some.injEq] at he; subst he; exact ⟨vis, h⟩
    | cons o ls =>
      rw [GateProblem.pruneLoop] at he
      by_cases h1 : (G.gates o.var).out = none
      · rw [if_pos h1] at he
        exact ih (h.pop fun hx => (hx.1 h1).elim) he
      · rw [if_neg h1] at he
        by_cases h2 : (!vis o.var && ((G.gates o.var).notMono || m.satisfies o)) = true
        · rw [if_pos h2] at he
          simp only [Bool.and_eq_true, Bool.or_eq_true] at h2
          exact ih (h.visit ⟨h1, h2.2⟩) he
        · rw [if_neg h2] at he
          refine ih (h.pop fun hx => ?_) he
          simp only [Bool.and_eq_true, Bool.or_eq_true, not_and, Bool.not_eq_true'] at h2
          cases hv : vis o.var with
          | true => rfl
          | false => exact (h2 hv hx.2).elim

/-- The number of inputs of gates that have not been visited. -/
def pruneWork (G : GateProblem) (vis : Nat → Bool) (vs : List Nat) : Nat :=
  (vs.map fun v => if vis v then 0 else (G.gates v).inp.length).sum

theorem pruneWork_visit {G : GateProblem} {vis : Nat → Bool} {o : Nat} : ∀ {vs : List Nat}, vs.Nodup → o ∈ vs → vis o = false →
    pruneWork G (upd vis o true) vs + (G.gates o).inp.length = pruneWork G vis vs := by
  intro vs
  induction vs with
  | nil => intro _ h; simp at h
  | cons v vs ih =>
    intro hn ho hv
    rw [List.nodup_cons] at hn
    unfold pruneWork at *
    simp only [List.map_cons, List.sum_cons]
    rcases List.mem_cons.1 ho with rfl | ho
    · have : (vs.map fun v => if upd vis o true v then 0 else (G.gates v).inp.length) =
          vs.map fun v => if vis v then 0 else (G.gates v).inp.length := by
        refine List.map_congr_left fun w hw => ?_
        have : w ≠ o := fun e => hn.1 (e ▸ hw)
        simp [upd, this]
      rw [this]
      simp [upd, hv]
      omega
    · have hne : v ≠ o := fun e => hn.1 (e ▸ ho)
      have := ih hn.2 ho hv
      have e : upd vis o true v = vis v := by simp [upd, hne]
      rw [e]
      omega

theorem pruneLoop_total {G : GateProblem} {m : SolverResult} {n : Nat} (hG : ∀ v, (G.gates v).out ≠ none → v < n) : ∀ {fuel : Nat} {ls : List Lit}
    {vis : Nat → Bool} {acc : List Nat}, ls.length + pruneWork G vis (List.range n) ≤ fuel →
    ∃ r, G.pruneLoop m fuel ls vis acc = some r := by
  intro fuel
  induction fuel with
  | zero =>
    intro ls vis acc h
    cases ls with
    | nil => exact ⟨acc, rfl⟩
    | cons o ls => simp at h
  | succ k ih =>
    intro ls vis acc h
    cases ls with
    | nil => exact ⟨acc, rfl⟩
    | cons o ls =>
      rw [List.length_cons] at h
      rw [GateProblem.pruneLoop]
      by_cases h1 : (G.gates o.var).out = none
      · rw [if_pos h1]
        exact ih (by omega)
      · rw [if_neg h1]
        by_cases h2 : (!vis o.var && ((G.gates o.var).notMono || m.satisfies o)) = true
        · rw [if_pos h2]
          have hv : vis o.var = false := by
            simp only [Bool.and_eq_true, Bool.not_eq_true'] at h2; exact h2.1
          refine ih ?_
          have := pruneWork_visit (G := G) List.nodup_range (List.mem_range.2 (hG _ h1)) hv
          rw [List.length_append, List.length_reverse]
          omega
        · rw [if_neg h2]
          exact ih (by omega)

theorem holds_eq {a b : Assign} {l : Lit} (h : a l.var = b l.var) : l.holds a ↔ l.holds b := by
  unfold Lit.holds; rw [h]

/-- Completing a model of the kept clauses. `M` is the model that was pruned, `keep` the variables whose
literals cover the kept clauses, and `a` agrees with `M` on those of them that are not outputs. -/
theorem prune_complete {p : Problem} {gm : GateMethod} {A : Analyzer} {cur order : List Nat} (h : GInv p gm A cur order)
    (hol : gm.holistic = false) {m : SolverResult} {vis : Nat → Bool} {acc : List Nat}
    (hP : PruneInv A.gp (fun i => p.problem.getD i []) m [] vis acc) {M : Assign}
    (hM : ∀ l : Lit, l.var < p.nVars → (m.satisfies l = true ↔ l.holds M))
    {keep : Nat → Prop} (hcov : ∀ i, i ∈ acc ∨ i ∈ A.finish.gp.remainder → ∃ l ∈ p.problem.getD i [], keep l.var ∧ l.holds M)
    (hne : [] ∉ p.problem) {a : Assign} (ha : ∀ v, keep v → v ∉ order → a v = M v) :
    ∃ a' : Assign, (∀ v, v ∉ order → a' v = a v) ∧ Sat a' p.problem := by
  have hvis : ∀ v, vis v = true → v ∈ order := by
    intro v hv
    obtain ⟨l, rfl, _, h2⟩ := hP.entered v hv
    exact (h.defined_iff _).1 h2.1
  obtain ⟨a', h1, h2⟩ := extend_order (p := p) (g := A.gp.at) (order := order.filter fun v => !vis v)
    (h.orderNodup.sublist List.filter_sublist) (h.later.sublist List.filter_sublist) (fun v hv => by
      obtain ⟨o, rfl, _, hg, _⟩ := h.defd v (List.mem_filter.1 hv).1
      have := hg.leftTotal
      rw [← clausesAt_append] at this
      exact this) (fun v => if vis v then M v else a v)
  have hout : ∀ v, v ∉ order → a' v = a v := by
    intro v hv
    rw [h1 v fun hx => hv (List.mem_filter.1 hx).1]
    have : vis v = false := by
      cases hx : vis v with
      | false => rfl
      | true => exact (hv (hvis v hx)).elim
    simp [this]
  have hin : ∀ v, vis v = true → a' v = M v := by
    intro v hv
    rw [h1 v fun hx => by simpa [hv] using (List.mem_filter.1 hx).2]
    simp [hv]
  refine ⟨a', hout, ?_⟩
  -- a literal that covers is also true after the completion
  have key : ∀ l : Lit, keep l.var → l.holds M → (l.var ∈ order → vis l.var = true) → l.holds a' := by
    intro l hk hl hv
    by_cases ho : l.var ∈ order
    · exact (holds_eq (hin _ (hv ho))).2 hl
    · exact (holds_eq ((hout _ ho).trans (ha _ hk ho))).2 hl
  have hvar : ∀ v ∈ order, v < p.nVars := h.orderLt
  have hmet : ∀ l : Lit, A.gp.Met (fun i => p.problem.getD i []) vis l → l.var ∈ order →
      ((A.gp.gates l.var).notMono = true ∨ l.holds M) → vis l.var = true := by
    intro l hl ho hx
    have : A.gp.Enters m l := ⟨(h.defined_iff _).2 ho, hx.imp id (hM l (hvar _ ho)).2⟩
    rcases hP.closed l hl this with h3 | h3
    · exact h3
    · simp at h3
  -- gates that have been visited
  have hvisited : ∀ v, vis v = true → Sat a' (clausesAt p (A.gp.at v)) := by
    intro v hv
    have hvo := hvis v hv
    obtain ⟨o, hov, ho, hg, hinp, hu⟩ := h.defd v hvo
    have hcovF : ∀ i ∈ (A.gp.gates v).fwd, ∃ l ∈ p.problem.getD i [], keep l.var ∧ l.holds M := fun i hi =>
      hcov i (.inl ((hP.kept i).2 (.inr ⟨v, hv, .inl hi⟩)))
    have hinpMet : ∀ l ∈ (A.gp.gates v).inp, A.gp.Met (fun i => p.problem.getD i []) vis l := fun l hl => .inr ⟨v, hv, hl⟩
    intro c hc
    obtain ⟨i, hi, rfl⟩ := List.mem_map.1 hc
    have hoa : o.holds a' ↔ o.holds M := holds_eq (by rw [hov]; exact hin v hv)
    rcases List.mem_append.1 hi with hi | hi
    · -- forward
      have hmem : p.problem.getD i [] ∈ clausesAt p (A.gp.gates v).fwd := List.mem_map.2 ⟨i, hi, rfl⟩
      by_cases hoM : o.holds M
      · obtain ⟨l, hl, hk, hlM⟩ := hcovF i hi
        refine ⟨l, hl, key l hk hlM fun hlo => ?_⟩
        refine hmet l (hinpMet l ?_) hlo (.inr hlM)
        rw [hinp]
        exact mem_fwdInputs.2 ⟨_, hmem, hl, fun e => neg_holds_iff.1 (e ▸ hlM) hoM⟩
      · exact ⟨o.neg, hg.fwdOut _ hmem, neg_holds_iff.2 fun hx => hoM (hoa.1 hx)⟩
    · -- backward
      have hmem : p.problem.getD i [] ∈ clausesAt p (A.gp.gates v).bwd := List.mem_map.2 ⟨i, hi, rfl⟩
      by_cases hoM : o.holds M
      · exact ⟨o, hg.bwdOut _ hmem, hoa.2 hoM⟩
      · cases hnm : (A.gp.gates v).notMono with
        | false =>
          exfalso
          obtain ⟨l, hlv, hl1, hl2⟩ := hP.entered v hv
          have hsat : l.holds M := by
            rcases hl2.2 with hx | hx
            · rw [hlv, hnm] at hx; simp at hx
            · exact (hM l (by rw [hlv]; exact hvar v hvo)).1 hx
          have : (A.gp.gates v).out = some l := by
            rcases hl1 with ⟨j, hj, hlj⟩ | ⟨w, hw, hlw⟩
            · exact h.marks.rootMono v hvo hnm j hj l hlj hlv
            · exact h.marks.inpMono v hvo hnm w (hvis w hw) l hlw hlv
          rw [ho] at this
          cases this
          exact hoM hsat
        | true =>
          have hfull : ∀ l ∈ (A.gp.gates v).inp, l.var ∈ order → vis l.var = true := fun l hl hlo =>
            hmet l (hinpMet l hl) hlo (.inl (h.marks.full v hvo hnm l hl hlo))
          have hcovB : ∀ i ∈ (A.gp.gates v).bwd, ∃ l ∈ p.problem.getD i [], keep l.var ∧ l.holds M := fun i hi =>
            hcov i (.inl ((hP.kept i).2 (.inr ⟨v, hv, .inr ⟨hnm, hi⟩⟩)))
          rcases hu hnm with hu | ⟨_, _, _, hpat, _⟩
          · have hns := hu (fun w => if w ∈ order ∧ vis w = false then M w else a' w) (by rw [hol]; simp)
            have hb : ∀ c ∈ clausesAt p (A.gp.gates v).bwd,
                SatClause (fun w => if w ∈ order ∧ vis w = false then M w else a' w) (c.filter fun l => l.var != o.var) := by
              intro c hc
              obtain ⟨j, hj, rfl⟩ := List.mem_map.1 hc
              obtain ⟨l, hl, hk, hlM⟩ := hcovB j hj
              refine ⟨l, List.mem_filter.2 ⟨hl, ?_⟩, ?_⟩
              · rw [bne_iff_ne]
                intro e
                rcases var_eq_cases e with rfl | rfl
                · exact hoM hlM
                · exact BlockList.not_both (hg.bwdNodup _ hc) (hg.bwdOut _ hc) hl
              · by_cases hx : l.var ∈ order ∧ vis l.var = false
                · refine (holds_eq ?_).2 hlM
                  rw [if_pos hx]
                · refine (holds_eq ?_).2 (key l hk hlM fun hlo => ?_)
                  · rw [if_neg hx]
                  · simpa [hlo] using hx
            have : ∃ d ∈ clausesAt p (A.gp.gates v).fwd,
                ¬ SatClause (fun w => if w ∈ order ∧ vis w = false then M w else a' w) (d.filter fun l => l.var != o.var) := by
              refine Classical.not_not.1 fun hx => hns ?_
              intro c hc
              obtain ⟨d, hd, rfl⟩ := List.mem_map.1 hc
              rcases List.mem_append.1 hd with hd | hd
              · exact Classical.not_not.1 fun hy => hx ⟨d, hd, hy⟩
              · exact hb d hd
            obtain ⟨d, hd, hdn⟩ := this
            obtain ⟨l, hl, hlo, hln⟩ := hg.blocked _ hmem d hd
            have hlv : l.neg.var ≠ o.var := by
              intro e
              rcases var_eq_cases e with e | e
              · exact BlockList.not_both (hg.fwdNodup d hd) (e ▸ hln) (hg.fwdOut d hd)
              · exact hlo (by rw [← Lit.neg_neg l, e, Lit.neg_neg])
            refine ⟨l, hl, Classical.not_not.1 fun hnl => hdn ⟨l.neg, List.mem_filter.2 ⟨hln, by simpa using hlv⟩, ?_⟩⟩
            have hx : ¬ (l.neg.var ∈ order ∧ vis l.neg.var = false) := by
              rintro ⟨k1, k2⟩
              have := hfull l.neg (by rw [hinp]; exact mem_fwdInputs.2 ⟨d, hd, hln, fun e => hlv (by rw [e]; rfl)⟩) k1
              rw [this] at k2; simp at k2
            refine (holds_eq (b := a') ?_).2 (neg_holds_iff.2 hnl)
            rw [if_neg hx]
          · obtain ⟨l, hl, hk, hlM⟩ := hcovB i hi
            refine ⟨l, hl, key l hk hlM fun hlo => ?_⟩
            have hmemI : l.neg ∈ (A.gp.gates v).inp := by
              rw [hinp, hpat]
              refine mem_bwdInputs.2 ⟨_, hmem, by rw [Lit.neg_neg]; exact hl, ?_⟩
              rw [Lit.neg_neg]
              intro e
              exact hoM (e ▸ hlM)
            have e : l.neg.var = l.var := by simp
            have := hfull l.neg hmemI (by rw [e]; exact hlo)
            rwa [e] at this
  intro c hc
  obtain ⟨i, hi, rfl⟩ := List.getElem_of_mem hc
  have hget : p.problem[i] = p.problem.getD i [] := (BlockList.getD_lt hi).symm
  have hcne : p.problem.getD i [] ≠ [] := by rw [← hget]; exact fun e => hne (e ▸ hc)
  rw [hget]
  have := h.part.mem_iff.2 (List.mem_range.2 hi)
  rcases List.mem_append.1 this with this | hcur
  · rcases List.mem_append.1 this with hr | hgate
    · obtain ⟨l, hl, hk, hlM⟩ := hcov i (.inl ((hP.kept i).2 (.inl hr)))
      exact ⟨l, hl, key l hk hlM fun hlo => hmet l (.inl ⟨i, hr, hl⟩) hlo (.inr hlM)⟩
    · obtain ⟨v, hv, hiv⟩ := List.mem_flatMap.1 hgate
      have hm : p.problem.getD i [] ∈ clausesAt p (A.gp.at v) := List.mem_map.2 ⟨i, hiv, rfl⟩
      cases hx : vis v with
      | true => exact hvisited v hx _ hm
      | false => exact h2 v (List.mem_filter.2 ⟨hv, by simp [hx]⟩) _ hm
  · obtain ⟨l, hl, hk, hlM⟩ := hcov i (.inr ((h.mem_remainder i).2 ⟨hcur, hcne⟩))
    exact ⟨l, hl, key l hk hlM fun hlo => (h.gone _ hlo i hcur l hl rfl).elim⟩

end Candy
