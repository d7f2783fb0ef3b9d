import Verif.Proofs.Aig

/-!
# The circuit and the formula
-/

namespace Candy

/-! ### Roots of the analysis -/

theorem tryGate_roots (m : GateMethod) (A : Analyzer) (o : Lit) : (A.tryGate m o).1.gp.roots = A.gp.roots := by
  have hc : ∀ A : Analyzer, (A.checkGate m o).1.gp = A.gp := by
    intro A
    unfold Analyzer.checkGate
    dsimp only
    repeat' split
    all_goals first | rfl | simp [Analyzer.semanticCheck]
  unfold Analyzer.tryGate
  dsimp only
  have h1 : (if A.gp.isNestedMonotonic o then (A, true) else A.checkGate m o).1.gp = A.gp := by
    split
    · rfl
    · exact hc A
  generalize (if A.gp.isNestedMonotonic o then (A, true) else A.checkGate m o) = r at h1 ⊢
  split
  · rw [h1]
  · show (r.1.gp.addGate _ _ _ _).roots = _
    rw [← h1]; rfl

theorem isGate_roots (m : GateMethod) (A : Analyzer) (o : Lit) : (A.isGate m o).1.gp.roots = A.gp.roots := by
  unfold Analyzer.isGate
  split
  · rfl
  · dsimp only
    split
    · rfl
    · exact tryGate_roots m { A with index := (A.index.isBlockedSet o).1 } o

theorem candidates_roots (m : GateMethod) : ∀ (os : List Lit) (A : Analyzer), (Analyzer.candidates m os A).1.gp.roots = A.gp.roots := by
  intro os
  induction os with
  | nil => intro A; rfl
  | cons o os ih =>
    intro A
    unfold Analyzer.candidates
    dsimp only
    rw [ih, isGate_roots]

theorem recognition_roots (m : GateMethod) : ∀ {n : Nat} {os : List Lit} {A R : Analyzer}, Analyzer.recognition m n os A = some R →
    R.gp.roots = A.gp.roots := by
  intro n
  induction n with
  | zero =>
    intro os A R h
    cases os with
    | nil => simp only [Analyzer.recognition, Option.some.injEq] at h; rw [h]
    | cons o os => simp [Analyzer.recognition] at h
  | succ n ih =>
    intro os A R h
    cases os with
    | nil => simp only [Analyzer.recognition, Option.some.injEq] at h; rw [h]
    | cons o os =>
      unfold Analyzer.recognition at h
      rw [ih h, candidates_roots]

theorem fromRoots_roots {m : GateMethod} {n : Nat} {roots : List Nat} {A R : Analyzer} (h : Analyzer.fromRoots m n roots A = some R) :
    (roots = [] ∧ R = A) ∨ (roots ≠ [] ∧ R.gp.roots = A.gp.roots ++ roots) := by
  unfold Analyzer.fromRoots at h
  by_cases hr : roots = []
  · rw [if_pos hr] at h
    exact .inl ⟨hr, (Option.some.inj h).symm⟩
  · rw [if_neg hr] at h
    exact .inr ⟨hr, recognition_roots m h⟩

/-- Every gate has a forward clause. -/
def FwdNe (G : GateProblem) : Prop := ∀ v, (G.gates v).out ≠ none → (G.gates v).fwd ≠ []

theorem tryGate_fwd {m : GateMethod} {A : Analyzer} {o : Lit} (h : FwdNe A.gp) (hi : A.index.index o.neg ≠ []) :
    FwdNe (A.tryGate m o).1.gp := by
  have hc : ∀ A : Analyzer, (A.checkGate m o).1.gp = A.gp ∧ (A.checkGate m o).1.index = A.index := by
    intro A
    unfold Analyzer.checkGate
    dsimp only
    repeat' split
    all_goals first | exact ⟨rfl, rfl⟩ | simp [Analyzer.semanticCheck]
  unfold Analyzer.tryGate
  dsimp only
  have h1 : (if A.gp.isNestedMonotonic o then (A, true) else A.checkGate m o).1.gp = A.gp ∧
      (if A.gp.isNestedMonotonic o then (A, true) else A.checkGate m o).1.index = A.index := by
    split
    · exact ⟨rfl, rfl⟩
    · exact hc A
  generalize (if A.gp.isNestedMonotonic o then (A, true) else A.checkGate m o) = r at h1 ⊢
  split
  · rw [h1.1]; exact h
  · show FwdNe (r.1.gp.addGate _ _ _ _)
    intro v hv
    unfold GateProblem.addGate at hv ⊢
    dsimp only at hv ⊢
    by_cases e : v = o.var
    · subst e
      simp only [upd_same]
      rw [h1.2]
      simp [hi]
    · rw [upd_ne _ _ e] at hv ⊢
      rw [h1.1] at hv ⊢
      exact h v hv

theorem isGate_fwd {m : GateMethod} {A : Analyzer} {o : Lit} (h : FwdNe A.gp) : FwdNe (A.isGate m o).1.gp := by
  unfold Analyzer.isGate
  split
  · exact h
  · rename_i hi
    dsimp only
    split
    · exact h
    · refine tryGate_fwd (A := { A with index := (A.index.isBlockedSet o).1 }) h ?_
      have : (A.index.isBlockedSet o).1.index = A.index.index := by
        unfold BlockList.isBlockedSet BlockList.getNumBlocked
        dsimp only
        split <;> rfl
      rw [this]; exact hi

theorem candidates_fwd {m : GateMethod} : ∀ {os : List Lit} {A : Analyzer}, FwdNe A.gp → FwdNe (Analyzer.candidates m os A).1.gp := by
  intro os
  induction os with
  | nil => intro A h; exact h
  | cons o os ih => intro A h; exact ih (isGate_fwd h)

theorem recognition_fwd {m : GateMethod} : ∀ {n : Nat} {os : List Lit} {A R : Analyzer}, FwdNe A.gp →
    Analyzer.recognition m n os A = some R → FwdNe R.gp := by
  intro n
  induction n with
  | zero =>
    intro os A R hA h
    cases os with
    | nil => simp only [Analyzer.recognition, Option.some.injEq] at h; rw [← h]; exact hA
    | cons o os => simp [Analyzer.recognition] at h
  | succ n ih =>
    intro os A R hA h
    cases os with
    | nil => simp only [Analyzer.recognition, Option.some.injEq] at h; rw [← h]; exact hA
    | cons o os =>
      unfold Analyzer.recognition at h
      exact ih (candidates_fwd hA) h

theorem fromRoots_fwd {m : GateMethod} {n : Nat} {roots : List Nat} {A R : Analyzer} (hA : FwdNe A.gp)
    (h : Analyzer.fromRoots m n roots A = some R) : FwdNe R.gp := by
  unfold Analyzer.fromRoots at h
  by_cases hr : roots = []
  · rw [if_pos hr] at h
    rw [← Option.some.inj h]; exact hA
  · rw [if_neg hr] at h
    exact recognition_fwd (by exact hA) h

/-- Gates come from roots, and unit clauses are roots. -/
structure RootsOk (p : Problem) (G : GateProblem) : Prop where
  any : G.roots ≠ [] ∨ ∀ v, (G.gates v).out = none
  units : (∀ i < p.problem.length, (p.problem.getD i []).length = 1 → i ∈ G.roots) ∨ ∀ v, (G.gates v).out = none
  fwd : FwdNe G

theorem RootsOk.more {p : Problem} {G : GateProblem} (h : RootsOk p G) {m : GateMethod} {n : Nat} {roots : List Nat} {A R : Analyzer}
    (hR : Analyzer.fromRoots m n roots A = some R) (hA : A.gp = G) (hu : (∀ i < p.problem.length, (p.problem.getD i []).length = 1 → i ∈ G.roots ++ roots)) :
    RootsOk p R.gp := by
  rcases fromRoots_roots hR with ⟨_, rfl⟩ | ⟨h1, h2⟩
  · rw [hA]; exact h
  · rw [hA] at h2
    exact ⟨.inl (by rw [h2]; simp [h1]), .inl (by rw [h2]; exact hu), fromRoots_fwd (by rw [hA]; exact h.fwd) hR⟩

theorem tries_roots {p : Problem} {m : GateMethod} {n : Nat} : ∀ {k : Nat} {A R : Analyzer}, RootsOk p A.gp →
    (∀ i < p.problem.length, (p.problem.getD i []).length = 1 → i ∈ A.gp.roots) → Analyzer.tries m n k A = some R → RootsOk p R.gp := by
  intro k
  induction k with
  | zero => intro A R h _ hR; simp only [Analyzer.tries, Option.some.injEq] at hR; rw [← hR]; exact h
  | succ k ih =>
    intro A R h hu hR
    unfold Analyzer.tries at hR
    cases hn : Analyzer.nextTry m n A with
    | none => rw [hn] at hR; simp at hR
    | some r =>
      obtain ⟨B, b⟩ := r
      rw [hn] at hR
      unfold Analyzer.nextTry at hn
      dsimp only at hn
      cases hl : A.index.getMinimallyUnblockedLiteral.2 with
      | none =>
        rw [hl] at hn
        cases hn
        simp only [Option.some.injEq] at hR
        rw [← hR]; exact h
      | some l =>
        rw [hl] at hn
        dsimp only at hn
        rw [Option.map_eq_some_iff] at hn
        obtain ⟨B', hB, e⟩ := hn
        cases e
        dsimp only at hR
        have hu' : ∀ i < p.problem.length, (p.problem.getD i []).length = 1 → i ∈ B.gp.roots := by
          intro i hi hx
          rcases fromRoots_roots hB with ⟨_, rfl⟩ | ⟨_, h2⟩
          · exact hu i hi hx
          · rw [h2]; exact List.mem_append_left _ (hu i hi hx)
        exact ih (h.more hB rfl fun i hi hx => List.mem_append_left _ (hu i hi hx)) hu' hR

theorem analyze_roots {p : Problem} {m : GateMethod} {n count : Nat} {R : Analyzer} (h : Analyzer.analyze m n count p = some R) :
    RootsOk p R.gp := by
  have hfin : ∀ A : Analyzer, RootsOk p A.gp → RootsOk p A.finish.gp := fun A hA => ⟨hA.any, hA.units, hA.fwd⟩
  have h0 : RootsOk p (Analyzer.new p).gp := ⟨.inr fun _ => rfl, .inr fun _ => rfl, fun v hv => (hv rfl).elim⟩
  unfold Analyzer.analyze at h
  cases count with
  | zero =>
    simp only [Option.some.injEq] at h
    rw [← h]
    exact hfin _ h0
  | succ k =>
    dsimp only at h
    cases hf : Analyzer.firstTry m n (Analyzer.new p) with
    | none => rw [hf] at h; simp at h
    | some A =>
      rw [hf] at h
      dsimp only at h
      rw [Option.map_eq_some_iff] at h
      obtain ⟨B, hB, rfl⟩ := h
      unfold Analyzer.firstTry at hf
      dsimp only at hf
      have hu : ∀ i < p.problem.length, (p.problem.getD i []).length = 1 →
          i ∈ (List.range (Analyzer.new p).index.problem.length).filter fun i => ((Analyzer.new p).index.cls i).length == 1 := by
        intro i hi hx
        refine List.mem_filter.2 ⟨List.mem_range.2 hi, ?_⟩
        show ((p.problem.getD i []).length == 1) = true
        rw [hx]; rfl
      have hA : ∀ i < p.problem.length, (p.problem.getD i []).length = 1 → i ∈ A.gp.roots := by
        intro i hi hx
        rcases fromRoots_roots hf with ⟨e, _⟩ | ⟨_, h2⟩
        · have := hu i hi hx
          rw [e] at this; simp at this
        · rw [h2]; exact List.mem_append_right _ (hu i hi hx)
      refine hfin _ (tries_roots (h0.more hf rfl ?_) hA hB)
      intro i hi hx
      exact List.mem_append_right _ (hu i hi hx)

/-! ### The gates with the root -/

theorem normalizeRoots_gate {p : Problem} {G : GateProblem} {v : Nat} {g : Lit × CNF} (h : (normalizeRoots p G).gates v = some g) :
    (v = p.nVars ∧ g = (⟨p.nVars, false⟩, (G.roots ++ G.remainder).map fun i => p.problem.getD i [] ++ [⟨p.nVars, true⟩])) ∨
    (v ≠ p.nVars ∧ ∃ o, (G.gates v).out = some o ∧ g = (o, clausesAt p (G.gates v).fwd)) := by
  unfold normalizeRoots at h
  dsimp only at h
  by_cases hv : v = p.nVars
  · rw [if_pos hv] at h
    exact .inl ⟨hv, (Option.some.inj h).symm⟩
  · rw [if_neg hv, Option.map_eq_some_iff] at h
    obtain ⟨o, h1, h2⟩ := h
    exact .inr ⟨hv, o, h1, h2.symm⟩

theorem GInv.clause {p : Problem} {m : GateMethod} {A : Analyzer} {cur order : List Nat} (h : GInv p m A cur order) (i : Nat) :
    ((p.problem.getD i []).map Lit.var).Nodup ∧ ∀ l ∈ p.problem.getD i [], l.var < p.nVars := by
  by_cases hi : i < p.problem.length
  · rw [BlockList.getD_lt hi]
    have hw := h.idx.wf _ (List.getElem_mem hi)
    exact ⟨hw.2, hw.1⟩
  · rw [BlockList.getD_ge (Nat.le_of_not_lt hi)]
    simp

theorem GInv.aigWf {p : Problem} {m : GateMethod} {A : Analyzer} {cur order : List Nat} (h : GInv p m A cur order)
    (hr : RootsOk p A.finish.gp) (hne : [] ∉ p.problem) (hp : p.problem ≠ []) :
    (normalizeRoots p A.finish.gp).Wf (order ++ [p.nVars]) := by
  have hdef : ∀ v, (A.gp.gates v).out ≠ none ↔ v ∈ order := h.defined_iff
  have hgates : ∀ v, A.finish.gp.gates v = A.gp.gates v := fun _ => rfl
  have hrne : ∀ i, i ∈ A.gp.roots ++ A.finish.gp.remainder → p.problem.getD i [] ≠ [] := by
    intro i hi
    rcases List.mem_append.1 hi with hi | hi
    · exact h.rootsNe i hi
    · exact ((h.mem_remainder i).1 hi).2
  constructor
  · rw [List.nodup_append]
    refine ⟨h.orderNodup, by simp, fun x hx y hy e => ?_⟩
    rw [List.mem_singleton] at hy
    have := h.orderLt x hx
    omega
  · intro v
    unfold normalizeRoots
    dsimp only
    by_cases hv : v = p.nVars
    · subst hv; simp
    · rw [if_neg hv, Option.isSome_map, List.mem_append, List.mem_singleton, hgates, ← hdef v]
      cases (A.gp.gates v).out <;> simp [hv]
  · intro v g hg
    rcases normalizeRoots_gate hg with ⟨rfl, rfl⟩ | ⟨_, o, ho, rfl⟩
    · rfl
    · obtain ⟨o', e, ho', _⟩ := h.defd v ((hdef v).1 (by rw [← hgates, ho]; simp))
      rw [hgates, ho'] at ho
      cases ho
      exact e
  · intro v hv
    rcases List.mem_append.1 hv with hv | hv
    · exact Nat.le_of_lt (h.orderLt v hv)
    · rw [List.mem_singleton] at hv; exact Nat.le_of_eq hv
  · intro v g hg c hc l hl
    show l.var ≤ p.nVars
    rcases normalizeRoots_gate hg with ⟨rfl, rfl⟩ | ⟨_, o, ho, rfl⟩
    · obtain ⟨i, hi, rfl⟩ := List.mem_map.1 hc
      rcases List.mem_append.1 hl with hl | hl
      · exact Nat.le_of_lt ((h.clause i).2 l hl)
      · rw [List.mem_singleton] at hl; subst hl; exact Nat.le_refl _
    · obtain ⟨i, hi, rfl⟩ := List.mem_map.1 hc
      exact Nat.le_of_lt ((h.clause i).2 l hl)
  · intro v g hg c hc
    rcases normalizeRoots_gate hg with ⟨rfl, rfl⟩ | ⟨_, o, ho, rfl⟩
    · obtain ⟨i, hi, rfl⟩ := List.mem_map.1 hc
      rw [List.map_append, List.nodup_append]
      refine ⟨(h.clause i).1, by simp, fun x hx y hy e => ?_⟩
      obtain ⟨l, hl, rfl⟩ := List.mem_map.1 hx
      simp only [List.map_cons, List.map_nil, List.mem_singleton] at hy
      have := (h.clause i).2 l hl
      omega
    · obtain ⟨i, hi, rfl⟩ := List.mem_map.1 hc
      exact (h.clause i).1
  · intro v g hg c hc
    rcases normalizeRoots_gate hg with ⟨rfl, rfl⟩ | ⟨_, o, ho, rfl⟩
    · obtain ⟨i, hi, rfl⟩ := List.mem_map.1 hc
      exact List.mem_append_right _ (by simp [Lit.neg])
    · obtain ⟨o', e, ho', hgc, _⟩ := h.defd v ((hdef v).1 (by rw [← hgates, ho]; simp))
      rw [hgates, ho'] at ho
      cases ho
      exact hgc.fwdOut c hc
  · intro v g hg
    rcases normalizeRoots_gate hg with ⟨rfl, rfl⟩ | ⟨_, o, ho, rfl⟩
    · intro e
      have e : (A.gp.roots ++ A.finish.gp.remainder) = [] := List.map_eq_nil_iff.1 e
      rw [List.append_eq_nil_iff] at e
      have hno : ∀ v, (A.gp.gates v).out = none := by
        rcases hr.any with h1 | h1
        · exact (h1 e.1).elim
        · exact h1
      have ho : order = [] := List.eq_nil_iff_forall_not_mem.2 fun v hv => (hdef v).2 hv (hno v)
      have hlen : 0 < p.problem.length := List.length_pos_iff.2 hp
      have h0 : 0 ∈ A.gp.roots ++ order.flatMap A.gp.at ++ cur := h.part.mem_iff.2 (List.mem_range.2 hlen)
      rw [ho, e.1] at h0
      simp only [List.flatMap_nil, List.append_nil, List.nil_append] at h0
      have : (0 : Nat) ∈ A.finish.gp.remainder := (h.mem_remainder 0).2 ⟨h0, fun e' => hne (by
        rw [BlockList.getD_lt hlen] at e'
        rw [← e']; exact List.getElem_mem hlen)⟩
      rw [e.2] at this; simp at this
    · obtain ⟨o', e, ho', hgc, hinp, hu⟩ := h.defd v ((hdef v).1 (by rw [← hgates, ho]; simp))
      rw [hgates, ho'] at ho
      cases ho
      intro e
      exact hr.fwd v (by rw [hgates, ho']; simp) (List.map_eq_nil_iff.1 e)
  · intro v g hg c hc
    rcases normalizeRoots_gate hg with ⟨rfl, rfl⟩ | ⟨_, o, ho, rfl⟩
    · obtain ⟨i, hi, rfl⟩ := List.mem_map.1 hc
      have := List.length_pos_iff.2 (hrne i hi)
      rw [List.length_append]
      simp only [List.length_singleton]
      omega
    · have hvo := (hdef v).1 (by rw [← hgates, ho]; simp)
      obtain ⟨o', e, ho', hgc, _⟩ := h.defd v hvo
      obtain ⟨i, hi, rfl⟩ := List.mem_map.1 hc
      have hi : i ∈ (A.gp.gates v).fwd := hi
      have hmem := hgc.fwdOut _ (List.mem_map.2 ⟨i, hi, rfl⟩)
      have hpos : 0 < (p.problem.getD i []).length := List.length_pos_of_mem hmem
      have h1 : (p.problem.getD i []).length ≠ 1 := by
        intro h1
        have hig : i ∈ order.flatMap A.gp.at := List.mem_flatMap.2 ⟨v, hvo, List.mem_append_left _ hi⟩
        have hil : i < p.problem.length := List.mem_range.1 (h.part.mem_iff.1 (List.mem_append_left _ (List.mem_append_right _ hig)))
        rcases hr.units with h2 | h2
        · have h3 : i ∈ A.gp.roots := h2 i hil h1
          have hnd : (A.gp.roots ++ order.flatMap A.gp.at ++ cur).Nodup := h.part.nodup_iff.2 List.nodup_range
          exact (List.nodup_append.1 (List.nodup_append.1 hnd).1).2.2 i h3 i hig rfl
        · have := h2 v
          rw [hgates, ho'] at this; simp at this
      omega
  · rw [List.pairwise_append]
    refine ⟨?_, by simp, ?_⟩
    · refine (List.Pairwise.and_mem.1 h.later).imp ?_
      rintro w v ⟨hw, _, hlt⟩ g hg c hc l hl
      rcases normalizeRoots_gate hg with ⟨rfl, rfl⟩ | ⟨_, o, ho, rfl⟩
      · have := h.orderLt _ hw; omega
      · obtain ⟨i, hi, rfl⟩ := List.mem_map.1 hc
        exact hlt i (List.mem_append_left _ hi) l hl
    · intro w hw v hv g hg c hc l hl
      rw [List.mem_singleton] at hv
      subst hv
      rcases normalizeRoots_gate hg with ⟨rfl, rfl⟩ | ⟨_, o, ho, rfl⟩
      · have := h.orderLt _ hw; omega
      · obtain ⟨i, hi, rfl⟩ := List.mem_map.1 hc
        exact Nat.ne_of_lt ((h.clause i).2 l hl)
  · exact ⟨_, if_pos rfl, rfl⟩


/-! ### Values of the gates -/

/-- Inputs that are gates come earlier in the order. -/
theorem AigInput.Wf.rank {I : AigInput} {order : List Nat} (W : I.Wf order) {w : Nat} {g : Lit × CNF} (hg : I.gates w = some g)
    {c : Clause} (hc : c ∈ g.2) {x : Lit} (hx : x ∈ c) (hne : x ≠ g.1.neg) (ho : x.var ∈ order) :
    order.idxOf x.var < order.idxOf w := by
  have hw : w ∈ order := (W.defd w).1 (by rw [hg]; rfl)
  have h1 : order.idxOf w < order.length := List.idxOf_lt_length_iff.2 hw
  have h2 : order.idxOf x.var < order.length := List.idxOf_lt_length_iff.2 ho
  refine Nat.lt_of_not_le fun hle => ?_
  rcases Nat.lt_or_eq_of_le hle with hlt | heq
  · have := List.pairwise_iff_getElem.1 W.later _ _ h1 h2 hlt
    rw [List.getElem_idxOf, List.getElem_idxOf] at this
    exact this g hg c hc x hx rfl
  · have e : w = x.var := by
      have h3 : order[order.idxOf w] = w := List.getElem_idxOf h1
      have h4 : order[order.idxOf x.var] = x.var := List.getElem_idxOf h2
      rw [← h3, ← h4]
      congr 1
    have hv : x.var = g.1.neg.var := by rw [← e, Lit.var_neg, W.out hg]
    exact hne (BlockList.eq_of_var_eq (W.distinct hg c hc) hx (W.fwd hg c hc) hv)

theorem mem_stripped {o : Lit} {cs : CNF} {c : Clause} : c ∈ stripped o cs ↔ ∃ d ∈ cs, (d.filter fun l => l != o.neg) = c := by
  unfold stripped; rw [List.mem_map]

/-- Values for the outputs that agree with the clauses, given the values of the other variables. -/
theorem AigInput.Wf.solve {I : AigInput} {order : List Nat} (W : I.Wf order) (a : Assign) :
    ∃ e : Assign, (∀ v, v ∉ order → e v = a v) ∧
      ∀ v g, I.gates v = some g → (g.1.holds e ↔ ∀ c ∈ stripped g.1 g.2, SatClause e c) := by
  classical
  have key : ∀ l : List Nat, l.Nodup → (∀ v ∈ l, v ∈ order) →
      (l.Pairwise fun w v => ∀ g, I.gates w = some g → ∀ c ∈ g.2, ∀ x ∈ c, x.var ≠ v) → ∀ a : Assign, ∃ e : Assign,
      (∀ v, v ∉ l → e v = a v) ∧ ∀ v ∈ l, ∀ g, I.gates v = some g → (g.1.holds e ↔ ∀ c ∈ stripped g.1 g.2, SatClause e c) := by
    intro l
    induction l with
    | nil => intro _ _ _ a; exact ⟨a, fun _ _ => rfl, by simp⟩
    | cons w rest ih =>
      intro hn hs hp a
      rw [List.nodup_cons] at hn
      rw [List.pairwise_cons] at hp
      obtain ⟨g, hg⟩ := Option.isSome_iff_exists.1 ((W.defd w).2 (hs w List.mem_cons_self))
      have hvar := W.out hg
      have hfree : ∀ c ∈ stripped g.1 g.2, ∀ x ∈ c, x.var ≠ w := by
        intro c hc x hx
        obtain ⟨d, hd, rfl⟩ := mem_stripped.1 hc
        have hx' := List.mem_filter.1 hx
        intro e
        have := BlockList.eq_of_var_eq (W.distinct hg d hd) hx'.1 (W.fwd hg d hd) (by rw [e, Lit.var_neg, hvar])
        rw [this] at hx'
        simp at hx'
      obtain ⟨e, h1, h2⟩ := ih hn.2 (fun v hv => hs v (List.mem_cons_of_mem _ hv)) hp.2
        (upd a w (decide (∀ c ∈ stripped g.1 g.2, SatClause a c) != g.1.sign))
      refine ⟨e, fun v hv => ?_, fun v hv => ?_⟩
      · rw [List.mem_cons, not_or] at hv
        rw [h1 v hv.2, upd_ne _ _ hv.1]
      · rcases List.mem_cons.1 hv with rfl | hv
        · intro g' hg'
          rw [hg] at hg'
          cases hg'
          have hx : ∀ c ∈ stripped g.1 g.2, SatClause e c ↔ SatClause a c := by
            intro c hc
            have hl : ∀ x ∈ c, (x.holds e ↔ x.holds a) := by
              intro x hx
              refine holds_eq ?_
              have : x.var ∉ rest := by
                intro hm
                obtain ⟨d, hd, rfl⟩ := mem_stripped.1 hc
                exact hp.1 _ hm g hg d hd x (List.mem_filter.1 hx).1 rfl
              rw [h1 _ this, upd_ne _ _ (hfree c hc x hx)]
            constructor
            · rintro ⟨x, a1, a2⟩; exact ⟨x, a1, (hl x a1).1 a2⟩
            · rintro ⟨x, a1, a2⟩; exact ⟨x, a1, (hl x a1).2 a2⟩
          have hr : (∀ c ∈ stripped g.1 g.2, SatClause e c) ↔ ∀ c ∈ stripped g.1 g.2, SatClause a c := by
            constructor
            · intro h c hc; exact (hx c hc).1 (h c hc)
            · intro h c hc; exact (hx c hc).2 (h c hc)
          rw [hr]
          unfold Lit.holds
          rw [hvar, h1 v hn.1, upd_same]
          cases g.1.sign <;> simp
        · exact h2 v hv
  obtain ⟨e, h1, h2⟩ := key order W.nodup (fun _ => id) W.later a
  exact ⟨e, h1, fun v g hg => h2 v ((W.defd v).1 (by rw [hg]; rfl)) g hg⟩

/-- Induction over the gates that have been entered. -/
theorem CircuitOf.induction {I : AigInput} {order : List Nat} (W : I.Wf order) {C : AigCircuit} {vis : Lit → Prop}
    (h : CircuitOf I C vis) {P : Lit → Prop}
    (step : ∀ l, vis l → ∀ g, I.gates l.var = some g → l = g.1 →
      (∀ c ∈ stripped g.1 g.2, ∀ x ∈ c, (vis x ∧ P x) ∨ ((I.gates x.var).isSome = false ∧ x.var ∈ C.inputs)) → P l) :
    ∀ l, vis l → P l := by
  have : ∀ n l, order.idxOf l.var < n → vis l → P l := by
    intro n
    induction n with
    | zero => intro l h; omega
    | succ n ih =>
      intro l hn hl
      obtain ⟨g, hg, he⟩ := h.gate l hl
      refine step l hl g hg he fun c hc x hx => ?_
      have hcl := h.closed l hl g hg c hc x hx
      cases hx2 : (I.gates x.var).isSome with
      | false => exact .inr ⟨rfl, hcl.2 hx2⟩
      | true =>
        refine .inl ⟨hcl.1 hx2, ih x ?_ (hcl.1 hx2)⟩
        obtain ⟨d, hd, rfl⟩ := mem_stripped.1 hc
        have hx' := List.mem_filter.1 hx
        have := W.rank hg hd hx'.1 (by simpa using hx'.2) ((W.defd _).1 hx2)
        omega
  exact fun l hl => this _ l (Nat.lt_succ_self _) hl

/-- The values of the inputs determine those of the gates that have been entered. -/
theorem CircuitOf.unique {I : AigInput} {order : List Nat} (W : I.Wf order) {C : AigCircuit} {vis : Lit → Prop}
    (h : CircuitOf I C vis) {v v' : Assign} (hv : ∀ a ∈ C.ands, a.gate.Ok v) (hv' : ∀ a ∈ C.ands, a.gate.Ok v')
    (hi : ∀ x ∈ C.inputs, v x = v' x) : ∀ l, vis l → (l.holds v ↔ l.holds v') := by
  refine h.induction W fun l hl g hg he hx => ?_
  rw [h.sound v hv l hl g hg, h.sound v' hv' l hl g hg]
  have hx : ∀ c ∈ stripped g.1 g.2, (SatClause v c ↔ SatClause v' c) := by
    intro c hc
    have hl : ∀ x ∈ c, (x.holds v ↔ x.holds v') := by
      intro x hxc
      rcases hx c hc x hxc with ⟨_, h1⟩ | ⟨_, h1⟩
      · exact h1
      · exact holds_eq (hi _ h1)
    constructor
    · rintro ⟨x, a1, a2⟩; exact ⟨x, a1, (hl x a1).1 a2⟩
    · rintro ⟨x, a1, a2⟩; exact ⟨x, a1, (hl x a1).2 a2⟩
  constructor
  · intro h c hc; exact (hx c hc).1 (h c hc)
  · intro h c hc; exact (hx c hc).2 (h c hc)

/-- All values of the inputs have values of the gates. -/
theorem CircuitOf.exists {I : AigInput} {order : List Nat} (W : I.Wf order) {C : AigCircuit} {vis : Lit → Prop}
    (h : CircuitOf I C vis) (w : Assign) : ∃ v, (∀ a ∈ C.ands, a.gate.Ok v) ∧ ∀ x ≤ I.nVars, x ∉ order → v x = w x := by
  obtain ⟨e, h1, h2⟩ := W.solve w
  obtain ⟨v, h3, h4⟩ := h.ext e fun l hl g hg => by
    obtain ⟨g', hg', he⟩ := h.gate l hl
    rw [hg] at hg'
    cases hg'
    rw [he]
    exact h2 _ g hg
  exact ⟨v, h4, fun x hx ho => (h3 x (Nat.le_succ_of_le hx)).trans (h1 x ho)⟩

/-- An assignment that satisfies the forward clauses and the root makes the root true in the circuit. -/
theorem CircuitOf.complete {I : AigInput} {order : List Nat} (W : I.Wf order) {C : AigCircuit} {vis : Lit → Prop}
    (h : CircuitOf I C vis) {a : Assign} (ha : ∀ v g, I.gates v = some g → Sat a g.2) (hr : I.root.holds a) :
    ∃ v, (∀ b ∈ C.ands, b.gate.Ok v) ∧ I.root.holds v := by
  obtain ⟨e, h1, h2⟩ := W.solve a
  have heq : ∀ l, vis l → ∀ g, I.gates l.var = some g → (l.holds e ↔ ∀ c ∈ stripped g.1 g.2, SatClause e c) := by
    intro l hl g hg
    obtain ⟨g', hg', he⟩ := h.gate l hl
    rw [hg] at hg'
    cases hg'
    rw [he]
    exact h2 _ g hg
  have hmono : ∀ l, vis l → (l.holds a → l.holds e) := by
    refine h.induction W fun l hl g hg he hx hla => (heq l hl g hg).2 fun c hc => ?_
    obtain ⟨d, hd, rfl⟩ := mem_stripped.1 hc
    obtain ⟨x, hxd, hxa⟩ := ha _ g hg d hd
    have hne : x ≠ g.1.neg := by
      intro e'
      rw [e'] at hxa
      exact neg_holds_iff.1 hxa (he ▸ hla)
    have hxm : x ∈ d.filter fun l => l != g.1.neg := List.mem_filter.2 ⟨hxd, by simpa using hne⟩
    refine ⟨x, hxm, ?_⟩
    rcases hx _ hc x hxm with ⟨_, h3⟩ | ⟨h3, _⟩
    · exact h3 hxa
    · refine (holds_eq (h1 _ fun ho => ?_)).2 hxa
      rw [(W.defd _).2 ho] at h3; simp at h3
  obtain ⟨v, h3, h4⟩ := h.ext e heq
  refine ⟨v, h4, (holds_eq (h3 _ ?_)).2 (hmono _ h.root hr)⟩
  obtain ⟨g, hg, _⟩ := W.root
  have := W.le _ ((W.defd I.root.var).1 (by rw [hg]; rfl))
  omega

/-- The formula is satisfiable if the root can be true in the circuit. -/
theorem GInv.circuit_sat {p : Problem} {m : GateMethod} {A : Analyzer} {cur order : List Nat} (h : GInv p m A cur order)
    (hne : [] ∉ p.problem) {C : AigCircuit} {vis : Lit → Prop}
    (hC : CircuitOf (normalizeRoots p A.finish.gp) C vis) {v : Assign} (hv : ∀ a ∈ C.ands, a.gate.Ok v)
    (hr : (normalizeRoots p A.finish.gp).root.holds v) : Satisfiable p.problem := by
  classical
  have hdef : ∀ v, (A.gp.gates v).out ≠ none ↔ v ∈ order := h.defined_iff
  have hgate : ∀ w ∈ order, ∀ o, (A.gp.gates w).out = some o → (normalizeRoots p A.finish.gp).gates w = some (o, clausesAt p (A.gp.gates w).fwd) := by
    intro w hw o ho
    unfold normalizeRoots
    dsimp only
    rw [if_neg (Nat.ne_of_lt (h.orderLt w hw))]
    show (A.gp.gates w).out.map _ = _
    rw [ho]; rfl
  have hrootGate : (normalizeRoots p A.finish.gp).gates p.nVars =
      some (⟨p.nVars, false⟩, (A.gp.roots ++ A.finish.gp.remainder).map fun i => p.problem.getD i [] ++ [⟨p.nVars, true⟩]) := if_pos rfl
  have hsome : ∀ w, w < p.nVars → (((normalizeRoots p A.finish.gp).gates w).isSome = true ↔ w ∈ order) := by
    intro w hw
    unfold normalizeRoots
    dsimp only
    rw [if_neg (Nat.ne_of_lt hw), Option.isSome_map, ← hdef w]
    show (A.gp.gates w).out.isSome = true ↔ _
    cases (A.gp.gates w).out <;> simp
  -- the variables of gates not entered are extended
  obtain ⟨a, h1, h2⟩ := extend_order (p := p) (g := A.gp.at) (order := order.filter fun w => decide (¬ ∃ l, vis l ∧ l.var = w))
    (h.orderNodup.sublist List.filter_sublist) (h.later.sublist List.filter_sublist) (fun w hw => by
      obtain ⟨o, rfl, _, hg, _⟩ := h.defd w (List.mem_filter.1 hw).1
      have := hg.leftTotal
      rw [← clausesAt_append] at this
      exact this) v
  have hkeep : ∀ w, (w ∉ order ∨ ∃ l, vis l ∧ l.var = w) → a w = v w := by
    intro w hw
    refine h1 w fun hm => ?_
    have hm := List.mem_filter.1 hm
    rcases hw with hw | hw
    · exact hw hm.1
    · exact (of_decide_eq_true hm.2) hw
  have hlit : ∀ x : Lit, x.var < p.nVars → (((normalizeRoots p A.finish.gp).gates x.var).isSome = true → vis x) → (x.holds a ↔ x.holds v) := by
    intro x hx hvx
    refine holds_eq (hkeep _ ?_)
    by_cases ho : x.var ∈ order
    · exact .inr ⟨x, hvx ((hsome _ hx).2 ho), rfl⟩
    · exact .inl ho
  have hroots : ∀ i, i ∈ A.gp.roots ++ A.finish.gp.remainder → SatClause a (p.problem.getD i []) := by
    intro i hi
    have hd : p.problem.getD i [] ∈ stripped (⟨p.nVars, false⟩ : Lit) ((A.gp.roots ++ A.finish.gp.remainder).map fun i => p.problem.getD i [] ++ [⟨p.nVars, true⟩]) := by
      refine mem_stripped.2 ⟨_, List.mem_map.2 ⟨i, hi, rfl⟩, ?_⟩
      rw [List.filter_append]
      have e1 : (p.problem.getD i []).filter (fun l => l != (⟨p.nVars, false⟩ : Lit).neg) = p.problem.getD i [] :=
        List.filter_eq_self.2 fun x hx => by
          rw [bne_iff_ne]
          intro e
          have := (h.clause i).2 x hx
          rw [e] at this
          exact Nat.lt_irrefl _ this
      rw [e1]
      simp [Lit.neg]
    obtain ⟨x, hx, hxv⟩ := (hC.sound v hv _ hC.root _ hrootGate).1 hr _ hd
    exact ⟨x, hx, (hlit x ((h.clause i).2 x hx) (hC.closed _ hC.root _ hrootGate _ hd x hx).1).2 hxv⟩
  have hgates : ∀ w ∈ order, Sat a (clausesAt p (A.gp.at w)) := by
    intro w hw
    by_cases hx : ∃ l, vis l ∧ l.var = w
    · obtain ⟨l, hl, rfl⟩ := hx
      obtain ⟨o, hov, ho, hg, _⟩ := h.defd l.var hw
      have hgl := hgate l.var hw o ho
      obtain ⟨g', hg', he⟩ := hC.gate l hl
      rw [hgl] at hg'
      cases hg'
      dsimp only at he
      subst he
      have hs := hC.sound v hv l hl _ hgl
      have hcl := hC.closed l hl _ hgl
      dsimp only at hs hcl
      have hla : l.holds a ↔ l.holds v := holds_eq (hkeep _ (.inr ⟨l, hl, rfl⟩))
      have hlitS : ∀ i ∈ (A.gp.gates l.var).fwd, ∀ x ∈ p.problem.getD i [], x ≠ l.neg → (x.holds a ↔ x.holds v) := by
        intro i hi x hx hne
        refine hlit x ((h.clause i).2 x hx) (hcl _ (mem_stripped.2 ⟨_, List.mem_map.2 ⟨i, hi, rfl⟩, rfl⟩) x ?_).1
        exact List.mem_filter.2 ⟨hx, by simpa using hne⟩
      intro c hc
      obtain ⟨i, hi, rfl⟩ := List.mem_map.1 hc
      by_cases hlv : l.holds v
      · rcases List.mem_append.1 hi with hi | hi
        · obtain ⟨x, hx, hxv⟩ := hs.1 hlv _ (mem_stripped.2 ⟨_, List.mem_map.2 ⟨i, hi, rfl⟩, rfl⟩)
          have hx' := List.mem_filter.1 hx
          exact ⟨x, hx'.1, (hlitS i hi x hx'.1 (by simpa using hx'.2)).2 hxv⟩
        · exact ⟨l, hg.bwdOut _ (List.mem_map.2 ⟨i, hi, rfl⟩), hla.2 hlv⟩
      · rcases List.mem_append.1 hi with hi | hi
        · exact ⟨l.neg, hg.fwdOut _ (List.mem_map.2 ⟨i, hi, rfl⟩), neg_holds_iff.2 fun hx => hlv (hla.1 hx)⟩
        · -- some forward clause is false without the output
          have : ∃ d ∈ stripped l (clausesAt p (A.gp.gates l.var).fwd), ¬ SatClause v d := by
            refine Classical.byContradiction fun hn => hlv (hs.2 fun d hd => Classical.byContradiction fun hd' => hn ⟨d, hd, hd'⟩)
          obtain ⟨d, hd, hdn⟩ := this
          obtain ⟨d', hd', rfl⟩ := mem_stripped.1 hd
          obtain ⟨x, hxc, hxo, hxd⟩ := hg.blocked _ (List.mem_map.2 ⟨i, hi, rfl⟩) d' hd'
          obtain ⟨j, hj, rfl⟩ := List.mem_map.1 hd'
          have hxn : x.neg ≠ l.neg := fun e => hxo (Lit.neg_inj.1 e)
          refine ⟨x, hxc, ?_⟩
          have h3 : ¬ x.neg.holds v := fun hx => hdn ⟨x.neg, List.mem_filter.2 ⟨hxd, by simpa using hxn⟩, hx⟩
          have h4 : ¬ x.neg.holds a := fun hx => h3 ((hlitS j hj x.neg hxd hxn).1 hx)
          rw [neg_holds_iff] at h4
          exact Classical.not_not.1 h4
    · exact h2 w (List.mem_filter.2 ⟨hw, decide_eq_true hx⟩)
  refine ⟨a, fun c hc => ?_⟩
  obtain ⟨i, hi, rfl⟩ := List.getElem_of_mem hc
  have hgd : p.problem.getD i [] = p.problem[i] := BlockList.getD_lt hi
  rw [← hgd]
  have := h.part.mem_iff.2 (List.mem_range.2 hi)
  rcases List.mem_append.1 this with hx | hx
  · rcases List.mem_append.1 hx with hx | hx
    · exact hroots i (List.mem_append_left _ hx)
    · obtain ⟨w, hw, hiw⟩ := List.mem_flatMap.1 hx
      exact hgates w hw _ (List.mem_map.2 ⟨i, hiw, rfl⟩)
  · refine hroots i (List.mem_append_right _ ((h.mem_remainder i).2 ⟨hx, fun e => hne ?_⟩))
    rw [← e, hgd]
    exact hc

/-- The root can be true in the circuit if the formula is satisfiable. -/
theorem GInv.sat_circuit {p : Problem} {m : GateMethod} {A : Analyzer} {cur order : List Nat} (h : GInv p m A cur order)
    (W : (normalizeRoots p A.finish.gp).Wf (order ++ [p.nVars])) {C : AigCircuit} {vis : Lit → Prop}
    (hC : CircuitOf (normalizeRoots p A.finish.gp) C vis) (hs : Satisfiable p.problem) :
    ∃ v, (∀ b ∈ C.ands, b.gate.Ok v) ∧ (normalizeRoots p A.finish.gp).root.holds v := by
  obtain ⟨a, ha⟩ := hs
  have hlit : ∀ i, ∀ x ∈ p.problem.getD i [], (x.holds (upd a p.nVars true) ↔ x.holds a) := fun i x hx =>
    holds_upd_other (Nat.ne_of_lt ((h.clause i).2 x hx))
  have hcl : ∀ i, p.problem.getD i [] ≠ [] → SatClause (upd a p.nVars true) (p.problem.getD i []) := by
    intro i hi
    have hlt : i < p.problem.length := Nat.lt_of_not_le fun hle => hi (BlockList.getD_ge hle)
    have hm : p.problem.getD i [] ∈ p.problem := by rw [BlockList.getD_lt hlt]; exact List.getElem_mem hlt
    obtain ⟨x, hx, hxa⟩ := ha _ hm
    exact ⟨x, hx, (hlit i x hx).2 hxa⟩
  refine hC.complete W (a := upd a p.nVars true) (fun v g hg c hc => ?_) ?_
  · have hne : c ≠ [] := fun e => by have := W.fwd hg c hc; rw [e] at this; simp at this
    rcases normalizeRoots_gate hg with ⟨rfl, rfl⟩ | ⟨_, o, ho, rfl⟩
    · obtain ⟨i, hi, rfl⟩ := List.mem_map.1 hc
      have : p.problem.getD i [] ≠ [] := by
        intro e
        have := W.two hg _ hc
        rw [e] at this
        simp at this
      obtain ⟨x, h1, h2⟩ := hcl i this
      exact ⟨x, List.mem_append_left _ h1, h2⟩
    · obtain ⟨i, hi, rfl⟩ := List.mem_map.1 hc
      exact hcl i hne
  · show upd a p.nVars true p.nVars = !false
    rw [upd_same]; rfl


/-! ### Printing -/

/-- The number printed for a literal. -/
def printed (negate : Nat → Bool) (l : Lit) : Nat := 2 * l.var + if l.sign != negate l.var then 1 else 0

/-- The number printed for the right input. -/
def printedRight (negate : Nat → Bool) : Option Lit → Nat
  | none => 1
  | some l => printed negate l

theorem printLit_eq {n : Nat} {negate : Nat → Bool} {l : Lit} {k : Nat} (h : printLit n negate (some l) = some k) :
    l.var < n ∧ k = printed negate l := by
  unfold printLit at h
  dsimp only at h
  by_cases hl : l.var < n
  · rw [if_pos hl] at h; exact ⟨hl, (Option.some.inj h).symm⟩
  · rw [if_neg hl] at h; simp at h

theorem printLits_eq {n : Nat} {negate : Nat → Bool} : ∀ {vs : List Nat} {ks : List Nat},
    printLits n negate (vs.map fun v => some ⟨v, false⟩) = some ks →
    (∀ v ∈ vs, v < n) ∧ ks = vs.map fun v => printed negate ⟨v, false⟩ := by
  intro vs
  induction vs with
  | nil => intro ks h; simp only [List.map_nil, printLits, Option.some.injEq] at h; subst h; simp
  | cons v vs ih =>
    intro ks h
    simp only [List.map_cons, printLits] at h
    cases h1 : printLit n negate (some ⟨v, false⟩) with
    | none => rw [h1] at h; simp at h
    | some k =>
      cases h2 : printLits n negate (vs.map fun v => some ⟨v, false⟩) with
      | none => rw [h1, h2] at h; simp at h
      | some ks' =>
        rw [h1, h2] at h
        simp only [Option.some.injEq] at h
        subst h
        obtain ⟨a1, a2⟩ := ih h2
        obtain ⟨b1, b2⟩ := printLit_eq h1
        refine ⟨fun w hw => ?_, by rw [a2, b2]; rfl⟩
        rcases List.mem_cons.1 hw with rfl | hw
        · exact b1
        · exact a1 w hw

theorem printAnds_eq {n : Nat} {negate : Nat → Bool} : ∀ {as : List BinaryAnd} {ks : List (Nat × Nat × Nat)},
    printAnds n negate as = some ks →
    (∀ a ∈ as, a.output.var < n) ∧ ks = as.map fun a => (printed negate a.output, printed negate a.left, printedRight negate a.right) := by
  intro as
  induction as with
  | nil => intro ks h; simp only [printAnds, Option.some.injEq] at h; subst h; simp
  | cons a as ih =>
    intro ks h
    unfold printAnds at h
    cases h1 : printLit n negate (some a.output) with
    | none => rw [h1] at h; simp at h
    | some k1 =>
      cases h2 : printLit n negate (some a.left) with
      | none => rw [h1, h2] at h; simp at h
      | some k2 =>
        cases h3 : printLit n negate a.right with
        | none => rw [h1, h2, h3] at h; simp at h
        | some k3 =>
          cases h4 : printAnds n negate as with
          | none => rw [h1, h2, h3, h4] at h; simp at h
          | some ks' =>
            rw [h1, h2, h3, h4] at h
            simp only [Option.some.injEq] at h
            subst h
            obtain ⟨a1, a2⟩ := ih h4
            obtain ⟨b1, b2⟩ := printLit_eq h1
            obtain ⟨c1, c2⟩ := printLit_eq h2
            have d2 : k3 = printedRight negate a.right := by
              cases hr : a.right with
              | none => rw [hr] at h3; exact (Option.some.inj h3).symm
              | some r => rw [hr] at h3; exact (printLit_eq h3).2
            refine ⟨fun w hw => ?_, by rw [a2, b2, c2, d2]; rfl⟩
            rcases List.mem_cons.1 hw with rfl | hw
            · exact b1
            · exact a1 w hw

theorem printAIG_eq {C : AigCircuit} {X : Aiger} (h : printAIG C = some X) :
    X = ⟨C.varCount, C.inputs.map fun v => printed (negateOf C.ands) ⟨v, false⟩, printed (negateOf C.ands) C.root,
      C.ands.map fun a => (printed (negateOf C.ands) a.output, printed (negateOf C.ands) a.left, printedRight (negateOf C.ands) a.right)⟩ ∧
    (∀ v ∈ C.inputs, v < C.varCount) ∧ ∀ a ∈ C.ands, a.output.var < C.varCount := by
  unfold printAIG at h
  dsimp only at h
  split at h
  · simp at h
  · cases h1 : printLits C.varCount (negateOf C.ands) (C.inputs.map fun v => some ⟨v, false⟩) with
    | none => rw [h1] at h; simp at h
    | some ins =>
      cases h2 : printLit C.varCount (negateOf C.ands) (some C.root) with
      | none => rw [h1, h2] at h; simp at h
      | some out =>
        cases h3 : printAnds C.varCount (negateOf C.ands) C.ands with
        | none => rw [h1, h2, h3] at h; simp at h
        | some as =>
          rw [h1, h2, h3] at h
          simp only [Option.some.injEq] at h
          subst h
          obtain ⟨a1, a2⟩ := printLits_eq h1
          obtain ⟨b1, b2⟩ := printAnds_eq h3
          exact ⟨by rw [a2, (printLit_eq h2).2, b2], a1, b1⟩

theorem printed_div (negate : Nat → Bool) (l : Lit) : printed negate l / 2 = l.var := by
  unfold printed; split <;> omega

theorem printed_mod (negate : Nat → Bool) (l : Lit) : (printed negate l % 2 == 1) = (l.sign != negate l.var) := by
  unfold printed
  cases h : (l.sign != negate l.var)
  · simp
  · simp [Nat.add_mod]

theorem value_printed {negate : Nat → Bool} {v v' : Assign} {l : Lit} (h : v' l.var = (v l.var != negate l.var)) :
    Aiger.value v' (printed negate l) = true ↔ l.holds v := by
  unfold Aiger.value Lit.holds
  rw [printed_div, printed_mod, h]
  cases v l.var <;> cases negate l.var <;> cases l.sign <;> simp

/-- A gate printed. -/
theorem value_and {negate : Nat → Bool} {v v' : Assign} (h0 : v' 0 = false) {a : BinaryAnd}
    (ho : v' a.output.var = (v a.output.var != negate a.output.var))
    (h : ∀ x ∈ a.gate.conj, v' x.var = (v x.var != negate x.var)) :
    Aiger.value v' (printed negate a.output) = (Aiger.value v' (printed negate a.left) && Aiger.value v' (printedRight negate a.right)) ↔
      a.gate.Ok v := by
  have h1 := value_printed (l := a.output) ho
  have h2 := value_printed (l := a.left) (h a.left (by simp [BinaryAnd.gate]))
  unfold AndGate.Ok
  show _ ↔ (a.output.holds v ↔ _)
  rw [← h1, Bool.eq_iff_iff, Bool.and_eq_true]
  cases hr : a.right with
  | none =>
    have h3 : Aiger.value v' (printedRight negate none) = true := by simp [Aiger.value, printedRight, h0]
    rw [h3, h2]
    simp [BinaryAnd.gate, hr]
  | some r =>
    have h3 := value_printed (l := r) (h r (by simp [BinaryAnd.gate, hr]))
    show (_ ↔ _ ∧ Aiger.value v' (printed negate r) = true) ↔ _
    rw [h2, h3]
    simp [BinaryAnd.gate, hr]

/-- No literal of the circuit has variable 0. -/
structure NoZero (C : AigCircuit) : Prop where
  inputs : 0 ∉ C.inputs
  root : C.root.var ≠ 0
  outs : ∀ a ∈ C.ands, a.output.var ≠ 0
  conj : ∀ a ∈ C.ands, ∀ x ∈ a.gate.conj, x.var ≠ 0

theorem printed_run {C : AigCircuit} {X : Aiger} (hX : printAIG C = some X) (hz : NoZero C) {v v' : Assign} (h0 : v' 0 = false)
    (h : ∀ x, x ≠ 0 → v' x = (v x != negateOf C.ands x)) : (X.Run v' ↔ ∀ a ∈ C.ands, a.gate.Ok v) ∧
      (Aiger.value v' X.output = true ↔ C.root.holds v) := by
  obtain ⟨rfl, _, _⟩ := printAIG_eq hX
  have key : ∀ a ∈ C.ands, _ := fun a ha => value_and h0 (h _ (hz.outs a ha)) fun x hx => h _ (hz.conj a ha x hx)
  refine ⟨⟨fun hr a ha => (key a ha).1 (hr.ands _ (List.mem_map.2 ⟨a, ha, rfl⟩)), fun hok => ⟨h0, fun g hg => ?_⟩⟩, value_printed (h _ hz.root)⟩
  obtain ⟨a, ha, rfl⟩ := List.mem_map.1 hg
  exact (key a ha).2 (hok a ha)

theorem printed_canBeTrue {C : AigCircuit} {X : Aiger} (hX : printAIG C = some X) (hz : NoZero C) :
    X.CanBeTrue ↔ ∃ v, (∀ a ∈ C.ands, a.gate.Ok v) ∧ C.root.holds v := by
  constructor
  · rintro ⟨v', h1, h2⟩
    obtain ⟨k1, k2⟩ := printed_run hX hz (v := fun x => v' x != negateOf C.ands x) h1.const fun x _ => by
      cases v' x <;> cases negateOf C.ands x <;> rfl
    exact ⟨_, k1.1 h1, k2.1 h2⟩
  · rintro ⟨v, h1, h2⟩
    obtain ⟨k1, k2⟩ := printed_run hX hz (v := v) (v' := fun x => if x = 0 then false else (v x != negateOf C.ands x)) rfl fun x hx => if_neg hx
    exact ⟨_, k1.2 h1, k2.2 h2⟩

/-- Facts about the gates with the root. -/
theorem CircuitOf.negate_out {I : AigInput} {C : AigCircuit} {vis : Lit → Prop} (h : CircuitOf I C vis) {a : BinaryAnd}
    (ha : a ∈ C.ands) : negateOf C.ands a.output.var = a.output.sign := by
  cases hs : a.output.sign with
  | true =>
    unfold negateOf
    rw [List.any_eq_true]
    exact ⟨a, ha, by simp [hs]⟩
  | false =>
    unfold negateOf
    rw [List.any_eq_false]
    intro b hb hx
    simp only [Bool.and_eq_true, beq_iff_eq] at hx
    have : a = b := by
      obtain ⟨i, hi, rfl⟩ := List.getElem_of_mem ha
      obtain ⟨j, hj, rfl⟩ := List.getElem_of_mem hb
      have : i = j := by
        have hn := List.pairwise_iff_getElem.1 h.outNodup
        rcases Nat.lt_trichotomy i j with hlt | heq | hlt
        · have := hn i j (by simpa using hi) (by simpa using hj) hlt
          simp only [List.getElem_map] at this
          exact (this hx.2.symm).elim
        · exact heq
        · have := hn j i (by simpa using hj) (by simpa using hi) hlt
          simp only [List.getElem_map] at this
          exact (this hx.2).elim
      subst this
      rfl
    rw [← this, hs] at hx
    simp at hx

theorem CircuitOf.negate_input {I : AigInput} {order : List Nat} (W : I.Wf order) {C : AigCircuit} {vis : Lit → Prop}
    (h : CircuitOf I C vis) {x : Nat} (hx : x ∈ C.inputs) : (∀ a ∈ C.ands, a.output.var ≠ x) ∧ negateOf C.ands x = false := by
  have hno : ∀ a ∈ C.ands, a.output.var ≠ x := by
    intro a ha e
    obtain ⟨h1, w, g, hg, c, hc, y, hy, hyx⟩ := h.inputs x hx
    rcases (h.outs a ha).1 with ⟨l, hl, e'⟩ | h2
    · obtain ⟨g', hg', _⟩ := h.gate l hl
      rw [e', e] at hg'
      rw [hg'] at h1; simp at h1
    · have := W.small hg c hc y hy
      omega
  refine ⟨hno, ?_⟩
  unfold negateOf
  rw [List.any_eq_false]
  intro b hb hx
  simp only [Bool.and_eq_true, beq_iff_eq] at hx
  exact hno b hb hx.2

theorem CircuitOf.format {I : AigInput} {order : List Nat} (W : I.Wf order) {C : AigCircuit} {vis : Lit → Prop}
    (h : CircuitOf I C vis) {X : Aiger} (hX : printAIG C = some X) (hz : NoZero C) : X.Format := by
  obtain ⟨rfl, hi, ho⟩ := printAIG_eq hX
  have hin : ∀ v ∈ C.inputs, printed (negateOf C.ands) ⟨v, false⟩ = 2 * v := by
    intro v hv
    simp [printed, (h.negate_input W hv).2]
  have hout : ∀ a ∈ C.ands, printed (negateOf C.ands) a.output = 2 * a.output.var := by
    intro a ha
    simp [printed, h.negate_out ha]
  have hsorted : C.inputs.Nodup := h.sorted.imp fun h => Nat.ne_of_lt h
  have e1 : (C.inputs.map fun v => printed (negateOf C.ands) ⟨v, false⟩) = C.inputs.map fun v => 2 * v :=
    List.map_congr_left hin
  have e2 : ((C.ands.map fun a => (printed (negateOf C.ands) a.output, printed (negateOf C.ands) a.left,
      printedRight (negateOf C.ands) a.right)).map (·.1)) = (C.ands.map fun a => a.output.var).map fun v => 2 * v := by
    rw [List.map_map, List.map_map]
    exact List.map_congr_left hout
  have hdef : ∀ x : Nat, (x ∈ C.inputs ∨ ∃ b ∈ C.ands, b.output.var = x) →
      2 * x ∈ (C.inputs.map fun v => 2 * v) ++ (C.ands.map fun a => a.output.var).map fun v => 2 * v := by
    rintro x (hx | ⟨b, hb, rfl⟩)
    · exact List.mem_append_left _ (List.mem_map.2 ⟨x, hx, rfl⟩)
    · exact List.mem_append_right _ (List.mem_map.2 ⟨_, List.mem_map.2 ⟨b, hb, rfl⟩, rfl⟩)
  have hinj : ∀ l : List Nat, l.Nodup → (l.map fun v => 2 * v).Nodup := by
    intro l hl
    refine List.Pairwise.map _ (fun a b hab e => hab ?_) hl
    omega
  constructor
  · intro n hn
    dsimp only at hn
    rw [e1] at hn
    obtain ⟨v, hv, rfl⟩ := List.mem_map.1 hn
    have := hi v hv
    have h0 : v ≠ 0 := fun e => hz.inputs (e ▸ hv)
    exact ⟨by omega, by omega, by show 2 * v / 2 ≤ C.varCount; omega⟩
  · dsimp only
    rw [e1]
    exact hinj _ hsorted
  · intro g hg
    obtain ⟨a, ha, rfl⟩ := List.mem_map.1 hg
    dsimp only
    rw [hout a ha]
    have := ho a ha
    have := hz.outs a ha
    omega
  · dsimp only
    rw [e1, e2, List.nodup_append]
    refine ⟨hinj _ hsorted, hinj _ h.outNodup, fun x hx y hy e => ?_⟩
    obtain ⟨v, hv, rfl⟩ := List.mem_map.1 hx
    obtain ⟨w, hw, rfl⟩ := List.mem_map.1 hy
    obtain ⟨a, ha, rfl⟩ := List.mem_map.1 hw
    exact (h.negate_input W hv).1 a ha (by omega)
  · intro n hn
    dsimp only at hn ⊢
    rw [e1, e2]
    have key : ∀ l : Lit, (l.var ∈ C.inputs ∨ ∃ b ∈ C.ands, b.output.var = l.var) →
        2 * (printed (negateOf C.ands) l / 2) ∈ (C.inputs.map fun v => 2 * v) ++ (C.ands.map fun a => a.output.var).map fun v => 2 * v := by
      intro l hl
      rw [printed_div]
      exact hdef _ hl
    rcases hn with rfl | ⟨g, hg, hn⟩
    · right
      refine key _ (.inr ?_)
      obtain ⟨a, ha, e⟩ := h.outOf _ h.root
      exact ⟨a, ha, by rw [e, h.rootEq]⟩
    · obtain ⟨a, ha, rfl⟩ := List.mem_map.1 hg
      rcases hn with rfl | rfl
      · exact .inr (key _ (h.used a ha _ (by simp [BinaryAnd.gate])))
      · dsimp only
        cases hr : a.right with
        | none => exact .inl (by simp [printedRight])
        | some r => exact .inr (key r (h.used a ha r (by simp [BinaryAnd.gate, hr])))

theorem CircuitOf.functional {I : AigInput} {order : List Nat} (W : I.Wf order) {C : AigCircuit} {vis : Lit → Prop}
    (h : CircuitOf I C vis) {X : Aiger} (hX : printAIG C = some X) (hz : NoZero C) : X.Functional := by
  have hins : X.inputs = C.inputs.map fun v => 2 * v := by
    obtain ⟨rfl, hi, ho⟩ := printAIG_eq hX
    exact List.map_congr_left fun v hv => by simp [printed, (h.negate_input W hv).2]
  have hn0 : ∀ v ∈ C.inputs, v ≠ 0 := fun v hv e => hz.inputs (e ▸ hv)
  constructor
  · intro w
    obtain ⟨v, h1, h2⟩ := h.exists W w
    obtain ⟨k1, _⟩ := printed_run hX hz (v := v) (v' := fun x => if x = 0 then false else (v x != negateOf C.ands x)) rfl fun x hx => if_neg hx
    refine ⟨_, k1.2 h1, fun n hn => ?_⟩
    rw [hins] at hn
    obtain ⟨x, hx, rfl⟩ := List.mem_map.1 hn
    have e : 2 * x / 2 = x := by omega
    rw [e]
    rw [if_neg (hn0 x hx), (h.negate_input W hx).2]
    obtain ⟨a1, _, g, hg, c, hc, y, hy, hyx⟩ := h.inputs x hx
    rw [h2 x (hyx ▸ W.small hg c hc y hy) fun ho => by rw [(W.defd x).2 ho] at a1; simp at a1]
    cases w x <;> rfl
  · intro v v' hv hv' hi
    have ex : ∀ u : Assign, X.Run u → (∀ a ∈ C.ands, a.gate.Ok fun x => u x != negateOf C.ands x) ∧
        (Aiger.value u X.output = true ↔ C.root.holds fun x => u x != negateOf C.ands x) := by
      intro u hu
      obtain ⟨k1, k2⟩ := printed_run hX hz (v := fun x => u x != negateOf C.ands x) hu.const fun x _ => by
        cases u x <;> cases negateOf C.ands x <;> rfl
      exact ⟨k1.1 hu, k2⟩
    obtain ⟨a1, a2⟩ := ex v hv
    obtain ⟨b1, b2⟩ := ex v' hv'
    have := h.unique W a1 b1 (fun x hx => by
      have := hi (2 * x) (by rw [hins]; exact List.mem_map.2 ⟨x, hx, rfl⟩)
      have e : 2 * x / 2 = x := by omega
      rw [e] at this
      rw [this]) _ h.root
    rw [Bool.eq_iff_iff, a2, b2, h.rootEq]
    exact this

/-! ### Termination -/

/-- Literals still to be registered by gates that have not been visited. -/
def aigWork (I : AigInput) (vis : Lit → Bool) (vs : List Nat) : Nat :=
  (vs.map fun v => match I.gates v with
    | none => 0
    | some g => if vis g.1 then 0 else (stripped g.1 g.2).flatten.length).sum

theorem aigWork_visit {I : AigInput} {vis : Lit → Bool} {v : Nat} {g : Lit × CNF} (hg : I.gates v = some g)
    (hout : ∀ {v g}, I.gates v = some g → g.1.var = v) (hv : vis g.1 = false) : ∀ {vs : List Nat}, vs.Nodup → v ∈ vs →
    aigWork I (upd vis g.1 true) vs + (stripped g.1 g.2).flatten.length = aigWork I vis vs := by
  have hother : ∀ w, w ≠ v → (match I.gates w with
      | none => 0
      | some g' => if upd vis g.1 true g'.1 then 0 else (stripped g'.1 g'.2).flatten.length) =
      match I.gates w with
      | none => 0
      | some g' => if vis g'.1 then 0 else (stripped g'.1 g'.2).flatten.length := by
    intro w hw
    cases hgw : I.gates w with
    | none => rfl
    | some g' =>
      dsimp only
      rw [upd_ne]
      intro e
      exact hw (by rw [← hout hgw, e, hout hg])
  intro vs
  induction vs with
  | nil => intro _ h; simp at h
  | cons w ws ih =>
    intro hn hm
    rw [List.nodup_cons] at hn
    unfold aigWork at *
    simp only [List.map_cons, List.sum_cons]
    by_cases e : w = v
    · subst e
      have : (ws.map fun v => match I.gates v with
          | none => 0
          | some g' => if upd vis g.1 true g'.1 then 0 else (stripped g'.1 g'.2).flatten.length) =
          ws.map fun v => match I.gates v with
          | none => 0
          | some g' => if vis g'.1 then 0 else (stripped g'.1 g'.2).flatten.length :=
        List.map_congr_left fun x hx => hother x fun e => hn.1 (e ▸ hx)
      rw [this, hg]
      dsimp only
      rw [upd_same, hv]
      simp only [if_true, Bool.false_eq_true, if_false]
      omega
    · rw [hother w e]
      have := ih hn.2 ((List.mem_cons.1 hm).resolve_left fun e' => e e'.symm)
      omega

theorem createAnds_total {I : AigInput} {order : List Nat} (W : I.Wf order) : ∀ {fuel : Nat} {s : Aig} {T hs : List AndGate},
    AigInv I s T hs → s.literals.length + aigWork I s.visited order ≤ fuel → Aig.createAnds I fuel s ≠ .more := by
  intro fuel
  induction fuel with
  | zero =>
    intro s T hs h hf he
    unfold Aig.createAnds at he
    cases hl : s.literals with
    | nil => rw [hl] at he; cases he
    | cons l ls => rw [hl] at hf; simp at hf
  | succ n ih =>
    intro s T hs h hf he
    unfold Aig.createAnds at he
    cases hl : s.literals with
    | nil => rw [hl] at he; cases he
    | cons l ls =>
      rw [hl] at he hf
      dsimp only at he
      rw [List.length_cons] at hf
      cases hv : s.visited l with
      | true =>
        rw [hv, if_pos rfl] at he
        exact ih (h.pop hl hv) (show ls.length + aigWork I s.visited order ≤ n by omega) he
      | false =>
        rw [hv, if_neg (by simp)] at he
        cases hg : I.gates l.var with
        | none =>
          have := h.stack l (by rw [hl]; exact List.mem_cons_self)
          rw [hg] at this; simp at this
        | some g =>
          rw [hg] at he
          dsimp only at he
          cases hst : Aig.stripOutputs l g.2 with
          | none => rw [hst] at he; cases he
          | some cs =>
            rw [hst] at he
            dsimp only at he
            obtain ⟨hlg, rfl⟩ := W.strip hg hst
            obtain ⟨T', hs', h', t, ht, e1, e2⟩ := h.visit W hl hv hg hlg
            refine ih h' ?_ he
            rw [e1, e2]
            have hlen : t.literals.length ≤ ls.length + (stripped l g.2).flatten.length := ht.length
            have hw := aigWork_visit hg (fun h => W.out h) (hlg ▸ hv) W.nodup ((W.defd l.var).1 (by rw [hg]; rfl))
            rw [← hlg] at hw
            omega

theorem createAIG_total {I : AigInput} {order : List Nat} (W : I.Wf order) :
    ∃ N, ∀ fuel, N ≤ fuel → createAIG I fuel ≠ .more := by
  refine ⟨1 + aigWork I (fun _ => false) order, fun fuel hf => ?_⟩
  have := createAnds_total W (AigInv.new W) (fuel := fuel) hf
  unfold createAIG
  cases h : Aig.createAnds I fuel (Aig.new I) with
  | more => exact (this h).elim
  | ub => simp
  | ok s =>
    dsimp only
    obtain ⟨r, hr⟩ := convertAnds_total s.pands (s.varCount, [])
    rw [hr]
    simp

end Candy
