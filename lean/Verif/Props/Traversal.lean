import Verif.Proofs.Traversal
import Verif.Props.GateAnalysis

/-!
# C39: the traversal of gates

`Reached G cls prune v` says that the gate `v` is reached from the literals of the root clauses through inputs of
gates, without passing a gate at which the collector prunes. `traverseDFS G cls prune fuel = some T` says that
the traversal ends and makes the calls `T`, in this order.
-/

namespace Candy

variable {G : GateProblem} {cls : Nat → Clause} {prune : Nat → Bool}

/-- **C39 (once).** For every gate structure, cyclic or not: every gate that is reached is collected exactly once
and backtracked exactly once, later; no other gate is. Every variable without gate among the inputs of these
gates is collected exactly once as an input, and no other variable. -/
theorem C39_visits (fuel : Nat) (T : List GateCall) (h : G.traverseDFS cls prune fuel = some T) :
    T.Nodup ∧ ∀ v,
      (.collect v ∈ T ↔ Reached G cls prune v) ∧
      (.backtrack v ∈ T ↔ Reached G cls prune v) ∧
      (Reached G cls prune v → Before (.collect v) (.backtrack v) T) ∧
      (.collectInput v ∈ T ↔ (G.gates v).out = none ∧
        ∃ u, Reached G cls prune u ∧ ∃ l ∈ (G.gates u).inp, l.var = v) := by
  obtain ⟨s, hs, rfl⟩ := Option.map_eq_some_iff.1 h
  obtain ⟨i, hw⟩ := GateProblem.dfsLoop_inv fuel GateProblem.dfsInit_inv hs
  have hvis : ∀ v, v ∈ s.visited ↔ Reached G cls prune v := by
    intro v
    refine ⟨i.visitedReached v, fun hr => ?_⟩
    induction hr with
    | root hi hl hd hp =>
      rcases i.roots _ hi _ hl ⟨hd, hp⟩ with hx | hx
      · exact hx
      · rw [hw] at hx; simp at hx
    | input hv hl hd hp ih =>
      rcases i.closed _ ih _ hl ⟨hd, hp⟩ with hx | hx
      · exact hx
      · rw [hw] at hx; simp at hx
  have hback : ∀ v, .backtrack v ∈ s.calls ↔ Reached G cls prune v := by
    intro v
    rw [i.backtrack v, hw, hvis]
    simp
  refine ⟨i.nodup, fun v => ⟨(i.collect v).trans (hvis v), hback v, fun hr => i.order v ((hback v).2 hr), ?_⟩⟩
  rw [i.input v, i.seen v]
  simp only [hvis]

/-- **C39 (order).** If the gates are acyclic, every gate is backtracked after the gates of its inputs. -/
theorem C39_order (rank : Nat → Nat) (hrank : ∀ v, Reached G cls prune v → ∀ l ∈ (G.gates v).inp,
      (G.gates l.var).out ≠ none → prune l.var = false → rank l.var < rank v)
    (fuel : Nat) (T : List GateCall) (h : G.traverseDFS cls prune fuel = some T) :
    ∀ v, Reached G cls prune v → ∀ l ∈ (G.gates v).inp, (G.gates l.var).out ≠ none → prune l.var = false →
      Before (.backtrack l.var) (.backtrack v) T := by
  intro v hv l hl hd hp
  have hT := ((C39_visits fuel T h).2 v).2.1.2 hv
  obtain ⟨s, hs, rfl⟩ := Option.map_eq_some_iff.1 h
  have o := GateProblem.dfsLoop_ord (rank := rank) (fun v hv l hl ho => hrank v hv l hl ho.1 ho.2) fuel
    GateProblem.dfsInit_inv (GateProblem.dfsInit_ord rank) hs
  exact o.done v hT l hl ⟨hd, hp⟩

/-- **C39 (termination).** The traversal of every gate structure with finitely many gates ends. -/
theorem C39_terminates (n : Nat) (hn : ∀ v, (G.gates v).out ≠ none → v < n) :
    ∃ fuel T, ∀ k, G.traverseDFS cls prune (fuel + k) = some T := by
  obtain ⟨s, hs⟩ := GateProblem.dfsLoop_total (cls := cls) (prune := prune) hn _ GateProblem.dfsInit_inv (Nat.le_refl _)
  exact ⟨_, s.calls, fun k => by rw [GateProblem.traverseDFS, hs k]; rfl⟩

/-- The inputs of a recognised gate are literals of its clauses. -/
theorem recognised_inp {f : CNF} {m : GateMethod} (hm : m.Sound) {fuel count : Nat} {R : Analyzer}
    (hf : (Problem.empty.readClauses f).nVars < fuel)
    (hR : Analyzer.analyze m fuel count (Problem.empty.readClauses f) = some R) {v : Nat} {l : Lit}
    (hl : l ∈ (R.gp.gates v).inp) :
    (R.gp.gates v).out ≠ none ∧ l.var ≠ v ∧ ∃ c ∈ gateClauses (Problem.empty.readClauses f) R v, l ∈ c := by
  obtain ⟨A, cur, order, rfl, h⟩ := analyze_result hm hf hR
  change l ∈ (A.gp.gates v).inp at hl
  by_cases hv : v ∈ order
  · refine ⟨(h.defined_iff v).2 hv, ?_⟩
    obtain ⟨o, ho, _, hg, hi, _⟩ := h.defd v hv
    rw [hi] at hl
    simp only [fwdInputs, litSet, mem_uniqueEq, mem_sortLits, List.mem_flatMap, List.mem_filter, bne_iff_ne, ne_eq] at hl
    obtain ⟨c, hc, hlc, hne⟩ := hl
    constructor
    · intro e
      apply hne
      exact BlockList.eq_of_var_eq (hg.fwdNodup c hc) hlc (hg.fwdOut c hc) (by rw [e, ← ho]; rfl)
    · refine ⟨c, ?_, hlc⟩
      simp only [gateClauses, clausesAt, GateProblem.at, List.map_append, List.mem_append]
      exact .inl hc
  · rw [h.undef v hv] at hl
    simp at hl

/-- **C39 (recognised gates).** For the gates found by the analysis of any problem, the traversal ends and
backtracks every reached gate after the gates of its inputs. -/
theorem C39_recognised (f : CNF) (m : GateMethod) (hm : m.Sound) (fuel count : Nat) (R : Analyzer) :
    let p := Problem.empty.readClauses f
    p.nVars < fuel → Analyzer.analyze m fuel count p = some R → ∀ (cls : Nat → Clause) (prune : Nat → Bool),
    ∃ n T, (∀ k, R.gp.traverseDFS cls prune (n + k) = some T) ∧
      ∀ v, Reached R.gp cls prune v → ∀ l ∈ (R.gp.gates v).inp, (R.gp.gates l.var).out ≠ none →
        prune l.var = false → Before (.backtrack l.var) (.backtrack v) T := by
  dsimp only
  intro hf hR cls prune
  have hn : ∀ v, (R.gp.gates v).out ≠ none → v < (Problem.empty.readClauses f).nVars := by
    obtain ⟨A, cur, order, rfl, h⟩ := analyze_result hm hf hR
    exact fun v hv => h.orderLt v ((h.defined_iff v).1 hv)
  obtain ⟨n, T, hT⟩ := C39_terminates (G := R.gp) (cls := cls) (prune := prune) _ hn
  refine ⟨n, T, hT, ?_⟩
  obtain ⟨rank, hrank⟩ := C52_acyclic f m hm fuel count R hf hR
  refine C39_order rank (fun v _ l hl hd _ => ?_) n T (by simpa using hT 0)
  obtain ⟨h1, h2, c, hc, hlc⟩ := recognised_inp hm hf hR hl
  exact hrank v h1 c hc l hlc h2 hd

/-! ### Examples -/

/-- Variable 0 is an exclusive or of 1 and 2, both of which depend on 3; 3 has the inputs 4 and 5. -/
def exDag : GateProblem where
  roots := [0]
  inputs := fun _ => true
  gates := fun v => match v with
    | 0 => ⟨some (pos 0), [], [], true, [pos 1, pos 2]⟩
    | 1 => ⟨some (pos 1), [], [], true, [pos 3, pos 4]⟩
    | 2 => ⟨some (neg 2), [], [], true, [pos 3, pos 5]⟩
    | 3 => ⟨some (pos 3), [], [], true, [pos 4, neg 4, pos 5, neg 5]⟩
    | _ => ⟨none, [], [], false, []⟩
  remainder := []

example : exDag.traverseDFS (fun _ => [pos 0]) (fun _ => false) 20 =
    some [.collect 0, .collect 2, .collectInput 5, .collect 3, .collectInput 4, .backtrack 3, .backtrack 2,
      .collect 1, .backtrack 1, .backtrack 0] := by decide

/-- The gates of the example are finitely many and acyclic. -/
example : (∀ v, (exDag.gates v).out ≠ none → v < 4) ∧ ∀ v, Reached exDag (fun _ => [pos 0]) (fun _ => false) v →
    ∀ l ∈ (exDag.gates v).inp, (exDag.gates l.var).out ≠ none → 10 - l.var < 10 - v := by
  constructor
  · intro v hv
    match v with
    | 0 | 1 | 2 | 3 => omega
    | n + 4 => exact absurd rfl hv
  · intro v _ l hl hd
    match v with
    | 0 | 1 | 2 =>
      simp only [exDag, List.mem_cons, List.not_mem_nil, or_false] at hl
      rcases hl with rfl | rfl <;> simp_all [exDag, pos, neg]
    | 3 =>
      simp only [exDag, List.mem_cons, List.not_mem_nil, or_false] at hl
      rcases hl with rfl | rfl | rfl | rfl <;> simp_all [exDag, pos, neg]
    | n + 4 => simp [exDag] at hl

/-- A cyclic structure is traversed too, but no order exists: the gates 0 and 1 are inputs of each other. -/
example : GateProblem.traverseDFS ⟨[0], fun _ => true, fun v => if v < 2 then ⟨some (pos v), [], [], true, [pos (1 - v)]⟩
      else ⟨none, [], [], false, []⟩, []⟩ (fun _ => [pos 0]) (fun _ => false) 20 =
    some [.collect 0, .collect 1, .backtrack 1, .backtrack 0] := by decide

/-- The recognised gates of a circuit: `prune` stops the traversal at gate 1. -/
example : let p := Problem.empty.readClauses exCircuit
    (Analyzer.analyze exPatterns (p.nVars + 1) 1 p).map (fun R => (R.gp.traverseDFS R.index.cls (fun _ => false) 30,
      R.gp.traverseDFS R.index.cls (fun v => v == 1) 30)) =
    some (some [.collect 0, .collectInput 2, .collect 1, .collectInput 3, .collectInput 4, .backtrack 1, .backtrack 0],
      some [.collect 0, .collectInput 2, .backtrack 0]) := by decide +kernel

end Candy
