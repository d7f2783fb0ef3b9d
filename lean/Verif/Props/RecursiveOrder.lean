import Verif.Proofs.RecursiveOrder
import Verif.Props.Simulation

/-!
# C40: bit-parallel simulation with the recursive clause order

`ClauseOrder.readGatesRec` computes the order of evaluation by recursion over the gates; its last argument bounds the
depth of the recursion. `filter` are the outputs the gate filter enables, if there is one.
-/

namespace Candy

namespace ClauseOrder

theorem foldlM_more {α β : Type} {f g : α → β → Option α} (h : ∀ s l s', f s l = some s' → g s l = some s') :
    ∀ (ls : List β) (s s' : α), ls.foldlM f s = some s' → ls.foldlM g s = some s'
  | [], _, _, e => e
  | l :: ls, s, s', e => by
    rw [List.foldlM_cons] at e ⊢
    obtain ⟨t, h1, h2⟩ := Option.bind_eq_some_iff.1 e
    rw [h s l t h1]
    exact foldlM_more h ls t s' h2

theorem recInput_more {G : GateProblem} {r r' : Nat → RecOrder → Option RecOrder} (h : ∀ v s s', r v s = some s' → r' v s = some s')
    (s : RecOrder) (l : Lit) (s' : RecOrder) (e : recInput G r s l = some s') : recInput G r' s l = some s' := by
  unfold recInput at e ⊢
  split at e
  · rename_i hc
    rw [if_pos hc]
    exact h _ _ _ e
  · rename_i hc
    rw [if_neg hc]
    exact e

theorem recGate_more {G : GateProblem} : ∀ (n v : Nat) (s s' : RecOrder), recGate G n v s = some s' → recGate G (n + 1) v s = some s'
  | 0, _, _, _, e => nomatch e
  | n + 1, v, s, s', e => by
    unfold recGate at e ⊢
    obtain ⟨t, h1, h2⟩ := Option.map_eq_some_iff.1 e
    rw [foldlM_more (recInput_more (recGate_more n)) _ _ _ h1]
    exact congrArg some h2

theorem recRoot_more {G : GateProblem} (n : Nat) (s : RecOrder) (l : Lit) (s' : RecOrder) (e : recRoot G n s l = some s') :
    recRoot G (n + 1) s l = some s' := by
  unfold recRoot at e ⊢
  split at e
  · rename_i hc
    rw [if_pos hc]
    exact recGate_more _ _ _ _ e
  · rename_i hc
    rw [if_neg hc]
    exact e

theorem readGatesRec_more {G : GateProblem} {cls : Nat → Clause} {filter : Option (List Nat)} {c n : Nat} {O : ClauseOrder}
    (h : readGatesRec G cls filter c n = some O) : ∀ k, readGatesRec G cls filter c (n + k) = some O
  | 0 => h
  | k + 1 => by
    have h := readGatesRec_more h k
    unfold readGatesRec at h ⊢
    split at h
    · rename_i hc
      rw [if_pos hc]
      exact h
    · rename_i hc
      rw [if_neg hc]
      obtain ⟨t, h1, h2⟩ := Option.map_eq_some_iff.1 h
      rw [← Nat.add_assoc, foldlM_more (recRoot_more (n + k)) _ _ _ h1]
      exact congrArg some h2

end ClauseOrder

/-- The filter lets a gate through: its output and all its inputs that are outputs of gates are enabled. -/
def LetThrough (G : GateProblem) (filter : Option (List Nat)) (v : Nat) : Prop :=
  ∀ enabled, filter = some enabled → v ∈ enabled ∧ ∀ l ∈ (G.gates v).inp, (G.gates l.var).out ≠ none → l.var ∈ enabled

theorem passing_iff {G : GateProblem} {filter : Option (List Nat)} {v : Nat} (h : ∃ o : Lit, o.var = v ∧ (G.gates v).out = some o) :
    ClauseOrder.passing G filter v = true ↔ LetThrough G filter v := by
  obtain ⟨o, ho, hout⟩ := h
  unfold ClauseOrder.passing LetThrough
  rw [hout]
  cases filter with
  | none => simp [ClauseOrder.passes]
  | some e =>
    simp only [ClauseOrder.passes, ho, Bool.and_eq_true, List.contains_iff_mem, List.all_eq_true, Bool.or_eq_true, Bool.not_eq_true',
      Option.some.injEq, forall_eq']
    refine and_congr Iff.rfl (forall_congr' fun l => forall_congr' fun _ => ?_)
    unfold Gate.isDefined
    cases (G.gates l.var).out <;> simp

/-- What the recursive order of evaluation looks like. -/
theorem readGatesRec_spec {f : CNF} {m : GateMethod} (hm : m.Sound) {fuel count : Nat} {R : Analyzer} {filter : Option (List Nat)}
    {gateCount : Nat} :
    let p := Problem.empty.readClauses f
    p.nVars < fuel → Analyzer.analyze m fuel count p = some R → (gateCount = 0 → ∀ v, (R.gp.gates v).out = none) →
    ∃ n O, ClauseOrder.readGatesRec R.gp p.clauseAt filter gateCount n = some O ∧
      ∃ L : List Nat, (∀ v, v ∈ L ↔ Reached R.gp p.clauseAt (fun _ => false) v) ∧ ClauseOrder.Ordered R.gp L ∧
      O.outputs.map Lit.var = L.filter (ClauseOrder.passing R.gp filter) ∧
      (∀ v ∈ L, v < O.numVars ∧ ∀ l ∈ (R.gp.gates v).inp, l.var < O.numVars) ∧
      (∀ v, v ∈ O.outputs.map Lit.var → O.clauses v = some (if usedFwd (R.gp.gates v) then (R.gp.gates v).fwd else (R.gp.gates v).bwd)) ∧
      (∀ v, v ∉ O.outputs.map Lit.var → O.clauses v = none) ∧
      (∀ u ∈ O.outputs, (R.gp.gates u.var).out = some (if usedFwd (R.gp.gates u.var) then u.neg else u)) ∧
      O.inputs.Nodup ∧ (∀ v, v ∈ O.inputs ↔ (R.gp.gates v).out = none ∧
        ∃ u, Reached R.gp p.clauseAt (fun _ => false) u ∧ ∃ l ∈ (R.gp.gates u).inp, l.var = v) := by
  dsimp only
  intro hf hR hgc
  by_cases hg0 : gateCount = 0
  · have hno : ∀ v, ¬ Reached R.gp (Problem.empty.readClauses f).clauseAt (fun _ => false) v := fun v hv =>
      (GateProblem.reached_defined hv).1 (hgc hg0 v)
    refine ⟨0, ClauseOrder.new, by unfold ClauseOrder.readGatesRec; rw [if_pos hg0], [], ?_, ?_, rfl, ?_⟩
    · simpa using hno
    · intro pre u post e
      exact absurd e (by simp)
    · simp only [ClauseOrder.new, List.map_nil, List.not_mem_nil, false_iff]
      refine ⟨fun _ h => h.elim, fun _ h => h.elim, fun _ _ => trivial, fun _ h => h.elim, List.nodup_nil, ?_⟩
      rintro v ⟨_, u, hu, _⟩
      exact hno u hu
  · obtain ⟨rank, hrank⟩ := C52_acyclic f m hm fuel count R hf hR
    have hrk : ∀ v, ∀ l ∈ (R.gp.gates v).inp, (R.gp.gates l.var).out ≠ none → rank l.var < rank v := fun v l hl hd => by
      obtain ⟨h1, h2, c, hc, hlc⟩ := recognised_inp hm hf hR hl
      exact hrank v h1 c hc l hlc h2 hd
    obtain ⟨N, hN⟩ : ∃ N, ∀ l ∈ R.gp.roots.flatMap (Problem.empty.readClauses f).clauseAt, rank l.var < N := by
      generalize R.gp.roots.flatMap (Problem.empty.readClauses f).clauseAt = ls
      induction ls with
      | nil => exact ⟨0, by simp⟩
      | cons l ls ih =>
        obtain ⟨N, hN⟩ := ih
        refine ⟨max N (rank l.var + 1), fun k hk => ?_⟩
        rcases List.mem_cons.1 hk with rfl | hk
        · omega
        · have := hN k hk; omega
    obtain ⟨s, h1, h2, h3, h4, h5⟩ := ClauseOrder.recRoots_spec (cls := (Problem.empty.readClauses f).clauseAt) hrk (n := N)
      (R.gp.roots.flatMap (Problem.empty.readClauses f).clauseAt) (fun l hl => List.mem_flatMap.1 hl) (fun l hl _ => hN l hl)
      ⟨[], [], [], [], 0⟩ ⟨by simp, by simp, fun pre u post e => absurd e (by simp), by simp, by simp, by simp, by simp, by simp⟩ (by simp)
    have hmem : ∀ v, v ∈ s.back ↔ Reached R.gp (Problem.empty.readClauses f).clauseAt (fun _ => false) v := by
      intro v
      refine ⟨h2.reach v, fun hr => ?_⟩
      induction hr with
      | root hi hl hd _ => exact h5 _ (List.mem_flatMap.2 ⟨_, hi, hl⟩) hd
      | input hv hl hd _ ih =>
        obtain ⟨pre, post, e⟩ := List.append_of_mem ih
        rw [e]
        exact List.mem_append_left _ (h2.ordered pre _ post e _ hl hd)
    have hdef : ∀ v ∈ s.back, ∃ o : Lit, o.var = v ∧ (R.gp.gates v).out = some o := by
      intro v hvT
      have hdv := (GateProblem.reached_defined (h2.reach v hvT)).1
      obtain ⟨A, cur, order, rfl, h⟩ := analyze_result hm hf hR
      obtain ⟨o, h1, h2, _⟩ := h.defd v ((h.defined_iff v).1 hdv)
      exact ⟨o, h1, h2⟩
    obtain ⟨e1, e2, e3, e4, os, e5, e6, e7⟩ := ClauseOrder.foldl_backtrackF R.gp filter s.back hdef ⟨s.inputs, [], fun _ => none, s.numVars⟩
    rw [List.nil_append] at e5
    refine ⟨N, _, by unfold ClauseOrder.readGatesRec; rw [if_neg hg0, h1, Option.map_some], s.back, hmem, h2.ordered, by rw [e5, e6], ?_, ?_, ?_, ?_, ?_, ?_⟩
    · rw [e2]
      exact h2.bound
    · intro v hv
      rw [e5, e6] at hv
      exact e3 v hv
    · intro v hv
      rw [e5, e6] at hv
      exact e4 v hv
    · rw [e5]
      exact e7
    · rw [e1]
      exact h2.inNodup
    · rw [e1]
      refine fun v => ⟨h2.inSpec v, ?_⟩
      rintro ⟨hd, u, hu, l, hl, rfl⟩
      exact h2.inAll u ((hmem u).2 hu) l hl hd

/-- Evaluating a gate makes its clauses true. -/
theorem eval_sat {f : CNF} {m : GateMethod} (hm : m.Sound) {fuel count : Nat} {R : Analyzer}
    (hf : (Problem.empty.readClauses f).nVars < fuel)
    (hR : Analyzer.analyze m fuel count (Problem.empty.readClauses f) = some R) {o : Lit} (hd : (R.gp.gates o.var).out ≠ none)
    (hout : (R.gp.gates o.var).out = some (if usedFwd (R.gp.gates o.var) then o.neg else o)) {a : Nat → Bool}
    (he : o.neg.holds a ↔ ∀ c ∈ (if usedFwd (R.gp.gates o.var) then (R.gp.gates o.var).fwd else (R.gp.gates o.var).bwd).map
      (Problem.empty.readClauses f).clauseAt, ∃ l ∈ c, l.var ≠ o.var ∧ l.holds a) :
    Sat a (gateClauses (Problem.empty.readClauses f) R o.var) := by
  obtain ⟨B, cur, order, rfl, h⟩ := analyze_result hm hf hR
  obtain ⟨o', ho', hout', hg, _⟩ := h.defd o.var ((h.defined_iff o.var).1 hd)
  have e : o' = if usedFwd (B.gp.gates o.var) then o.neg else o := by
    have := hout'.symm.trans hout
    exact Option.some.inj this
  unfold gateClauses GateProblem.at
  rw [clausesAt_append]
  refine hg.sat_of_eval (u := usedFwd (B.gp.gates o.var)) ?_
  have he : o.neg.holds a ↔ ∀ c ∈ (if usedFwd (B.gp.gates o.var) then (B.gp.gates o.var).fwd else (B.gp.gates o.var).bwd).map
    (Problem.empty.readClauses f).clauseAt, ∃ l ∈ c, l.var ≠ o.var ∧ l.holds a := he
  rw [ho']
  have hcl : ∀ is, is.map (Problem.empty.readClauses f).clauseAt = clausesAt (Problem.empty.readClauses f) is := fun _ => rfl
  rw [hcl] at he
  cases hu : usedFwd (B.gp.gates o.var) with
  | true =>
    simp only [hu, if_true] at he e
    rw [e]
    simpa [Lit.neg_neg] using he
  | false =>
    simp only [hu, Bool.false_eq_true, if_false] at he e
    rw [e]
    simpa using he

/-- **C40 (recursive order, gates covered).** The recursion ends, with the same result for all larger bounds of its
depth. The outputs evaluated are exactly the gates reached from the roots that the filter lets through, and every one
comes after those among its inputs. The inputs that are randomised are exactly the variables without gate among the
inputs of the gates reached, each once. -/
theorem C40_recursive_gates (f : CNF) (m : GateMethod) (hm : m.Sound) (fuel count : Nat) (R : Analyzer) (filter : Option (List Nat))
    (gateCount : Nat) :
    let p := Problem.empty.readClauses f
    p.nVars < fuel → Analyzer.analyze m fuel count p = some R → (gateCount = 0 → ∀ v, (R.gp.gates v).out = none) →
    ∃ n O, (∀ k, ClauseOrder.readGatesRec R.gp p.clauseAt filter gateCount (n + k) = some O) ∧
      (∀ v, v ∈ O.outputs.map Lit.var ↔ Reached R.gp p.clauseAt (fun _ => false) v ∧ LetThrough R.gp filter v) ∧
      (∀ pre v post, O.outputs.map Lit.var = pre ++ v :: post → ∀ l ∈ (R.gp.gates v).inp,
        l.var ∈ O.outputs.map Lit.var → l.var ∈ pre) ∧
      O.inputs.Nodup ∧ (∀ v, v ∈ O.inputs ↔ (R.gp.gates v).out = none ∧
        ∃ u, Reached R.gp p.clauseAt (fun _ => false) u ∧ ∃ l ∈ (R.gp.gates u).inp, l.var = v) := by
  dsimp only
  intro hf hR hgc
  obtain ⟨n, O, hO, L, h1, h2, h3, h4, h5, h5', h6, h7, h8⟩ := readGatesRec_spec hm (filter := filter) hf hR hgc
  refine ⟨n, O, ClauseOrder.readGatesRec_more hO, fun v => ?_, ?_, h7, h8⟩
  · rw [h3, List.mem_filter, h1]
    refine and_congr_right fun hr => passing_iff ?_
    have hdv := (GateProblem.reached_defined hr).1
    obtain ⟨A, cur, order, rfl, h⟩ := analyze_result hm hf hR
    obtain ⟨o, h1, h2, _⟩ := h.defd v ((h.defined_iff v).1 hdv)
    exact ⟨o, h1, h2⟩
  · rw [h3]
    intro pre v post e l hl hlo
    obtain ⟨hlL, hlp⟩ := List.mem_filter.1 hlo
    obtain ⟨pre', rest, e1, rfl, e2⟩ := List.filter_eq_append_iff.1 e
    obtain ⟨mid, post', e3, e4, e5, e6⟩ := List.filter_eq_cons_iff.1 e2
    rw [e3] at e1
    have := h2 (pre' ++ mid) v post' (by rw [e1]; simp) l hl (GateProblem.reached_defined ((h1 _).1 hlL)).1
    rcases List.mem_append.1 this with hm | hm
    · exact List.mem_filter.2 ⟨hm, hlp⟩
    · exact absurd hlp (e4 _ hm)

/-- **C40 (recursive order).** With the recursive order, any gate filter, any values of the vectors and every lane:
propagation does not access anything outside the array, leaves the variables alone that are not outputs of gates let
through, and the lane satisfies all clauses of all gates reached that are let through.

Missing: as in `C40_consistent_partial`, the hypothesis `hb` is not always met. -/
theorem C40_recursive_partial (f : CNF) (m : GateMethod) (hm : m.Sound) (fuel count : Nat) (R : Analyzer) (filter : Option (List Nat))
    (gateCount n : Nat) (O : ClauseOrder) :
    let p := Problem.empty.readClauses f
    p.nVars < fuel → Analyzer.analyze m fuel count p = some R → (gateCount = 0 → ∀ v, (R.gp.gates v).out = none) →
    ClauseOrder.readGatesRec R.gp p.clauseAt filter gateCount n = some O →
    (hb : ∀ v, (R.gp.gates v).notMono = false → (R.gp.gates v).bwd.length < (R.gp.gates v).fwd.length →
      ∀ i ∈ (R.gp.gates v).bwd, ∀ l ∈ p.clauseAt i, AmongInputs (R.gp.gates v) v l.var) →
    ∀ A : SimVectors, A.size = O.numVars → ∃ A', A.propagate p.clauseAt O = some A' ∧
      (∀ v, ¬ (Reached R.gp p.clauseAt (fun _ => false) v ∧ LetThrough R.gp filter v) → A'.vec v = A.vec v) ∧
      ∀ v, Reached R.gp p.clauseAt (fun _ => false) v → LetThrough R.gp filter v → ∀ (i : Fin 32) (j : Nat), j < 64 →
        Sat (A'.lane i j) (gateClauses p R v) := by
  dsimp only
  intro hf hR hgc hO hb A hA
  obtain ⟨n', O', hO', hgates, hordG, _, _⟩ := C40_recursive_gates f m hm fuel count R filter gateCount hf hR hgc
  obtain ⟨n2, O2, hO2, L, h1, h2, h3, h4, h5, h5', h6, h7, h8⟩ := readGatesRec_spec hm (filter := filter) hf hR hgc
  have e1 : O' = O := by
    have a := ClauseOrder.readGatesRec_more hO n'
    have b := hO' n
    rw [Nat.add_comm] at a
    exact Option.some.inj (b.symm.trans a)
  have e2 : O2 = O := by
    have a := ClauseOrder.readGatesRec_more hO n2
    have b := ClauseOrder.readGatesRec_more hO2 n
    rw [Nat.add_comm] at a
    exact Option.some.inj (b.symm.trans a)
  subst e1 e2
  have hreach : ∀ o ∈ O2.outputs, Reached R.gp (Problem.empty.readClauses f).clauseAt (fun _ => false) o.var := fun o ho =>
    ((hgates o.var).1 (List.mem_map.2 ⟨o, ho, rfl⟩)).1
  have hused : ∀ o ∈ O2.outputs, ∀ is, O2.clauses o.var = some is → ∀ c ∈ is.map (Problem.empty.readClauses f).clauseAt, ∀ l ∈ c,
      AmongInputs (R.gp.gates o.var) o.var l.var := by
    intro o ho is his c hc l hl
    rw [h5 o.var (List.mem_map.2 ⟨o, ho, rfl⟩)] at his
    cases his
    obtain ⟨i, hi, rfl⟩ := List.mem_map.1 hc
    by_cases hu : usedFwd (R.gp.gates o.var) = true
    · rw [if_pos hu] at hi
      exact fwd_among hm hf hR (GateProblem.reached_defined (hreach o ho)).1 hi hl
    · rw [if_neg hu] at hi
      unfold usedFwd at hu
      simp only [Bool.or_eq_true, decide_eq_true_eq, not_or, Bool.not_eq_true, Nat.not_le] at hu
      exact hb o.var hu.1 hu.2 i hi l hl
  obtain ⟨A', hA'⟩ := SimVectors.propagateGates_total (cls := (Problem.empty.readClauses f).clauseAt) (O := O2) O2.outputs hA (by
    intro o ho
    obtain ⟨a1, a2⟩ := h4 o.var ((h1 _).2 (hreach o ho))
    have a3 := h5 o.var (List.mem_map.2 ⟨o, ho, rfl⟩)
    refine ⟨a1, _, a3, fun c hc l hl hne => ?_⟩
    rcases hused o ho _ a3 c hc l hl with e | e
    · exact absurd e hne
    · obtain ⟨l', hl', e⟩ := List.mem_map.1 e
      rw [← e]
      exact a2 l' hl')
  refine ⟨A', hA', fun v hv => ?_, fun v hr hlt i j hj => ?_⟩
  · exact (SimVectors.propagateGates_frame _ hA').2 v fun hmem => hv ((hgates v).1 hmem)
  · obtain ⟨o, ho, rfl⟩ := List.mem_map.1 ((hgates v).2 ⟨hr, hlt⟩)
    obtain ⟨is, his, he⟩ := SimVectors.propagateGates_eqn_repeated O2.outputs [] hA' (by
      intro u hu w hw e
      rw [List.nil_append] at hu hw
      have a := h6 u hu
      have b := h6 w hw
      rw [e] at a
      have := Option.some.inj (a.symm.trans b)
      split at this
      · rw [← Lit.neg_neg u, this, Lit.neg_neg]
      · exact this) (by
      rw [List.nil_append]
      intro pre o post e is his c hc l hl hne hpost
      have hoO : o ∈ O2.outputs := by rw [e]; simp
      rcases hused o hoO is his c hc l hl with e' | e'
      · exact absurd e' hne
      · obtain ⟨l', hl', e'⟩ := List.mem_map.1 e'
        rw [← e'] at hpost ⊢
        exact hordG (pre.map Lit.var) o.var (post.map Lit.var) (by rw [e]; simp) l' hl' (by
          rw [e]
          simp only [List.map_append, List.map_cons, List.mem_append, List.mem_cons]
          exact .inr (.inr hpost))) (by simp) o (by rwa [List.nil_append])
    have he := he i j hj
    rw [h5 o.var (List.mem_map.2 ⟨o, ho, rfl⟩)] at his
    cases his
    exact eval_sat hm hf hR (GateProblem.reached_defined hr).1 (h6 o ho) he

/-! ### Examples -/

/-- The hypotheses are met: two gates, without filter and with a filter that lets only one of them through. -/
example : let p := Problem.empty.readClauses exSim
    (Analyzer.analyze exPatterns (p.nVars + 1) 1 p).bind (fun R => (ClauseOrder.readGatesRec R.gp p.clauseAt none 2 30).bind fun O =>
      (ClauseOrder.readGatesRec R.gp p.clauseAt (some [1]) 2 30).map fun O' =>
        (O.outputs, O.inputs, O.numVars, O'.outputs, O'.inputs)) =
      some ([neg 1, pos 0], [3, 4, 2], 5, [neg 1], [3, 4, 2]) := by decide +kernel

/-- A lane of a concrete evaluation, as in the example for the other order. -/
example : let p := Problem.empty.readClauses exSim
    ((Analyzer.analyze exPatterns (p.nVars + 1) 1 p).bind fun R => (ClauseOrder.readGatesRec R.gp p.clauseAt none 2 30).bind
      fun O => ((exVectors O.numVars fun v => if v = 2 then ~~~ 0xE else if v = 3 then ~~~ 0xC else ~~~ 0xA).propagate
        p.clauseAt O).map fun A => (~~~ (A.vec 1 7), ~~~ (A.vec 0 7))) = some (0x6#64, 0x6#64) := by
  decide +kernel

/-- As `exSim`, and gate 1 is a root as well. -/
def exTwoRoots : CNF := [pos 0] :: [pos 1] :: (andGate (pos 0) (pos 1) (pos 2) ++ xorGate (pos 1) (pos 3) (pos 4))

/-- **Finding.** A gate that is a root and was reached before is emitted a second time: the assertion of
`createClauseStorage`, ClauseOrder.cc:126, that an output has no clauses yet is violated. The non-recursive order emits
every gate once, `C40_gates`. -/
theorem C40_recursive_once_fails : ∃ (f : CNF) (R : Analyzer) (O : ClauseOrder), let p := Problem.empty.readClauses f
    Analyzer.analyze exPatterns (p.nVars + 1) 1 p = some R ∧ ClauseOrder.readGatesRec R.gp p.clauseAt none 2 30 = some O ∧
    ¬ (O.outputs.map Lit.var).Nodup := by
  obtain ⟨R, hR⟩ := C51_terminates exTwoRoots exPatterns exPatterns_sound 1
  have key : (Analyzer.analyze exPatterns ((Problem.empty.readClauses exTwoRoots).nVars + 1) 1
      (Problem.empty.readClauses exTwoRoots)).bind (fun R => (ClauseOrder.readGatesRec R.gp (Problem.empty.readClauses exTwoRoots).clauseAt
        none 2 30).map fun O => O.outputs) = some [neg 1, pos 0, neg 1] := by decide +kernel
  rw [hR, Option.bind_some] at key
  obtain ⟨O, hO, e⟩ := Option.map_eq_some_iff.1 key
  refine ⟨exTwoRoots, R, O, hR, hO, ?_⟩
  rw [e]
  decide

end Candy
