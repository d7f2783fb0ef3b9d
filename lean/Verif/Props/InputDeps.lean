import Verif.Proofs.InputDepsMarks
import Verif.Props.Simulation
import Verif.Props.Refinement

/-!
# C65: the refinement heuristic that counts inputs

`Reached R.gp p.clauseAt (fun _ => false) v`: the variable is the output of a gate of the circuit below the roots.
`InputCount` and `Due` are defined in `SpecInputDeps.lean`. A round is an initialisation or a refinement step.
-/

namespace Candy.InputDeps
open Candy

/-- The traversal of the recognised gates yields a topological order. -/
theorem order_spec {f : CNF} {m : GateMethod} (hm : m.Sound) {fuel count : Nat} {R : Analyzer}
    (hf : (Problem.empty.readClauses f).nVars < fuel)
    (hR : Analyzer.analyze m fuel count (Problem.empty.readClauses f) = some R) (cls : Nat → Clause) :
    ∃ n T, (∀ k, R.gp.traverseDFS cls (fun _ => false) (n + k) = some T) ∧
      Ordered R.gp (Problem.empty.readClauses f).nVars (backtracked T) ∧
      ∀ v, v ∈ backtracked T ↔ Reached R.gp cls (fun _ => false) v := by
  obtain ⟨n, T, hT, hord⟩ := C39_recognised f m hm fuel count R hf hR cls (fun _ => false)
  obtain ⟨hnd, hv⟩ := C39_visits n T (by simpa using hT 0)
  have hmem : ∀ v, v ∈ backtracked T ↔ Reached R.gp cls (fun _ => false) v := fun v => mem_backtracked.trans (hv v).2.1
  refine ⟨n, T, hT, ⟨nodup_backtracked hnd, ?_, fun v _ l hl => (recognised_inp hm hf hR hl).2.1, fun v hvT =>
    (GateProblem.reached_defined ((hmem v).1 hvT)).1, fun v hvT l hl hd => (hmem _).2 (.input ((hmem v).1 hvT) hl hd rfl), ?_⟩, hmem⟩
  · refine (List.Pairwise.and_mem.1 (pairwise_backtracked hnd)).imp ?_
    rintro v w ⟨hvT, hwT, hb⟩ l hl e
    subst e
    exact hb (hord v ((hmem v).1 hvT) l hl (GateProblem.reached_defined ((hmem _).1 hwT)).1 rfl)
  · intro v _ l hl
    obtain ⟨_, _, c, hc, hlc⟩ := recognised_inp hm hf hR hl
    unfold gateClauses clausesAt at hc
    obtain ⟨i, _, rfl⟩ := List.mem_map.1 hc
    rw [List.getD_eq_getElem?_getD] at hlc
    cases he : (Problem.empty.readClauses f).problem[i]? with
    | none => rw [he] at hlc; simp at hlc
    | some c => rw [he] at hlc; exact (readClauses_wf f c (List.mem_of_getElem? he)).1 l hlc

/-- **C65 (counts).** For the gates that the analysis of any formula finds, the counting has no undefined behaviour, and
yields for every gate output of the circuit, and for nothing else, the number of inputs that it depends on; a number
above `max` may be replaced by the largest value of the type. -/
theorem C65_counts (f : CNF) (m : GateMethod) (hm : m.Sound) (fuel count : Nat) (R : Analyzer) :
    let p := Problem.empty.readClauses f
    p.nVars < fuel → Analyzer.analyze m fuel count p = some R → ∀ max, ∃ n order c,
      (∀ k, countInputDependencies R.gp p.clauseAt max (n + k) = some (order, c)) ∧
      order.Nodup ∧ (∀ v, v ∈ order ↔ Reached R.gp p.clauseAt (fun _ => false) v) ∧
      (∀ v, c v ≠ none ↔ Reached R.gp p.clauseAt (fun _ => false) v) ∧
      ∀ v, Reached R.gp p.clauseAt (fun _ => false) v → ∃ j, InputCount R.gp v j ∧ j ≤ p.nVars ∧
        (c v = some j ∨ c v = some exceedingMax ∧ max < j) := by
  dsimp only
  intro hf hR max
  obtain ⟨n, T, hT, O, hmem⟩ := order_spec hm hf hR (Problem.empty.readClauses f).clauseAt
  obtain ⟨c, hc, I⟩ := countLoop_inv (max := max) O (backtracked T) [] _ (start_inv (backtracked T))
  refine ⟨n, backtracked T, c.count, fun k => ?_, O.nd, hmem, fun v => ?_, fun v hv => ?_⟩
  · unfold countInputDependencies
    rw [hT k, Option.bind_some, hc, Option.map_some]
  · rw [← hmem]
    constructor
    · intro h
      refine Classical.not_not.1 fun hn => h (I.other v hn)
    · intro h
      rcases I.doneCount v h with e | ⟨e, _⟩ <;> rw [e] <;> simp
  · have hv' := (hmem v).2 hv
    refine ⟨(deps R.gp (Problem.empty.readClauses f).nVars v).length,
      ⟨_, deps_nodup .., fun x => O.mem_deps hv', rfl⟩, ?_, I.doneCount v hv'⟩
    have := List.length_filter_le (p := fun x => @decide (DependsOn R.gp v x) (Classical.propDecidable _))
      (l := List.range (Problem.empty.readClauses f).nVars)
    rw [List.length_range] at this
    exact this

theorem InputCount.unique {G : GateProblem} {v n n' : Nat} (h : InputCount G v n) (h' : InputCount G v n') : n = n' := by
  obtain ⟨xs, a1, a2, rfl⟩ := h
  obtain ⟨ys, b1, b2, rfl⟩ := h'
  exact Nat.le_antisymm (a1.length_le_of_subset fun x hx => (b2 x).2 ((a2 x).1 hx))
    (b1.length_le_of_subset fun x hx => (a2 x).2 ((b2 x).1 hx))

theorem stepOf_due (n : Nat) : ∀ config : List Nat, Due config n (stepOf n config)
  | [] => ⟨fun j hj => by simp [stepOf] at hj, .inl rfl⟩
  | b :: bs => by
    rw [stepOf]
    by_cases h : b < n
    · rw [if_pos h]
      exact ⟨fun j hj => by omega, .inr ⟨b, rfl, h⟩⟩
    · rw [if_neg h]
      obtain ⟨h1, h2⟩ := stepOf_due n bs
      refine ⟨fun j hj => ?_, ?_⟩
      · cases j with
        | zero => exact ⟨b, rfl, by omega⟩
        | succ j => exact h1 j (by omega)
      · rcases h2 with h2 | h2
        · left; rw [h2]; rfl
        · exact .inr h2

theorem Due.unique {config : List Nat} {n i j : Nat} (hi : Due config n i) (hj : Due config n j) : i = j := by
  have key : ∀ {i j : Nat}, Due config n i → Due config n j → ¬ i < j := by
    intro i j hi hj h
    obtain ⟨b, h1, h2⟩ := hj.1 i h
    rcases hi.2 with e | ⟨b', h3, h4⟩
    · have := (List.getElem?_eq_some_iff.1 h1).1
      omega
    · rw [h1] at h3
      cases h3
      omega
  have := key hi hj
  have := key hj hi
  omega

theorem stepOf_big {config : List Nat} {n n' : Nat} (h : config.headD 0 < n) (h' : config.headD 0 < n') :
    stepOf n config = stepOf n' config := by
  cases config with
  | nil => rfl
  | cons b bs =>
    simp only [List.headD_cons] at h h'
    rw [stepOf, stepOf, if_pos h, if_pos h']

theorem byStep_fold (c : Nat → Option Nat) (config : List Nat) (v i : Nat) : ∀ (vs : List Nat) (sets : List (List Nat)),
    (∀ w ∈ vs, c w ≠ none) →
    (vs.foldl (place c config) sets).length = sets.length ∧
    (v ∈ (vs.foldl (place c config) sets).getD i [] ↔
      v ∈ sets.getD i [] ∨ (i < sets.length ∧ v ∈ vs ∧ ∃ size, c v = some size ∧ stepOf size config = i))
  | [], sets, _ => by simp
  | w :: vs, sets, h => by
    cases hw : c w with
    | none => exact absurd hw (h w (List.mem_cons_self ..))
    | some size =>
      rw [List.foldl_cons, show place c config sets w = sets.modify (stepOf size config) fun s => setInsert s w by
        unfold place; rw [hw]]
      obtain ⟨h1, h2⟩ := byStep_fold c config v i vs (sets.modify (stepOf size config) fun s => setInsert s w)
        (fun u hu => h u (List.mem_cons_of_mem _ hu))
      rw [List.length_modify] at h1 h2
      refine ⟨h1, h2.trans ?_⟩
      have hm : v ∈ (sets.modify (stepOf size config) fun s => setInsert s w).getD i [] ↔
          v ∈ sets.getD i [] ∨ (i < sets.length ∧ v = w ∧ stepOf size config = i) := by
        rw [List.getD_eq_getElem?_getD, List.getD_eq_getElem?_getD, List.getElem?_modify]
        by_cases e : stepOf size config = i
        · cases hs : sets[i]? with
          | none =>
            have := List.getElem?_eq_none_iff.1 hs
            have h3 : ¬ i < sets.length := by omega
            simp [h3]
          | some s =>
            have := (List.getElem?_eq_some_iff.1 hs).1
            simp [e, mem_setInsert, this, or_comm]
        · simp [e]
      rw [hm, List.mem_cons]
      constructor
      · rintro ((h | ⟨a, rfl, b⟩) | ⟨a, b, c⟩)
        · exact .inl h
        · exact .inr ⟨a, .inl rfl, size, hw, b⟩
        · exact .inr ⟨a, .inr b, c⟩
      · rintro (h | ⟨a, rfl | b, c⟩)
        · exact .inl (.inl h)
        · obtain ⟨size', e1, e2⟩ := c
          rw [hw] at e1
          cases e1
          exact .inl (.inr ⟨a, rfl, e2⟩)
        · exact .inr ⟨a, b, c⟩

/-- **C65 (rounds).** The heuristic can be created, and keeps one set of variables for each limit and one more; a
variable is in the set of a round iff it is a gate output of the circuit that is due in that round. -/
theorem C65_rounds (f : CNF) (m : GateMethod) (hm : m.Sound) (fuel count : Nat) (R : Analyzer) :
    let p := Problem.empty.readClauses f
    p.nVars < fuel → p.nVars < 2 ^ 64 → Analyzer.analyze m fuel count p = some R → ∀ config : List Nat, ∃ n h,
      (∀ k, Heuristic.new R.gp p.clauseAt config (n + k) = some h) ∧ h.step = 0 ∧ h.byStep.length = config.length + 1 ∧
      ∀ i set, h.byStep[i]? = some set → ∀ v, v ∈ set ↔
        Reached R.gp p.clauseAt (fun _ => false) v ∧ ∃ j, InputCount R.gp v j ∧ Due config j i := by
  dsimp only
  intro hf h64 hR config
  obtain ⟨n, order, c, hc, hnd, hmem, hdom, hval⟩ := C65_counts f m hm fuel count R hf hR (config.headD 0)
  have hd : ∀ w ∈ order, c w ≠ none := fun w hw => (hdom w).2 ((hmem w).1 hw)
  refine ⟨n, _, fun k => by unfold Heuristic.new; rw [hc k]; rfl, rfl, ?_, ?_⟩
  · dsimp only
    rw [(byStep_fold c config 0 0 order _ hd).1, List.length_replicate]
  · intro i set hs v
    dsimp only at hs
    obtain ⟨h1, h2⟩ := byStep_fold c config v i order (List.replicate (config.length + 1) []) hd
    rw [List.getD_eq_getElem?_getD, hs] at h2
    have hi : i < config.length + 1 := by
      have := (List.getElem?_eq_some_iff.1 hs).1
      rw [h1, List.length_replicate] at this
      exact this
    refine h2.trans ?_
    have he : v ∉ (List.replicate (config.length + 1) ([] : List Nat)).getD i [] := by
      rw [List.getD_eq_getElem?_getD, List.getElem?_replicate, if_pos hi]
      simp
    rw [List.length_replicate, hmem]
    -- the count determines the round
    have key : ∀ j size, Reached R.gp (Problem.empty.readClauses f).clauseAt (fun _ => false) v → InputCount R.gp v j →
        c v = some size → stepOf size config = stepOf j config := by
      intro j size hr hj hcv
      obtain ⟨j', hj', hle, h⟩ := hval v hr
      cases hj.unique hj'
      rcases h with e | ⟨e, hlt⟩
      · rw [hcv] at e; cases e; rfl
      · rw [hcv] at e
        cases e
        exact stepOf_big (by unfold exceedingMax; omega) hlt
    constructor
    · rintro (h | ⟨_, hr, size, hcv, rfl⟩)
      · exact absurd h he
      · obtain ⟨j, hj, _⟩ := hval v hr
        exact ⟨hr, j, hj, by rw [key j size hr hj hcv]; exact stepOf_due j config⟩
    · rintro ⟨hr, j, hj, hdue⟩
      refine .inr ⟨hi, hr, ?_⟩
      cases hcv : c v with
      | none => exact absurd hcv ((hdom v).2 hr)
      | some size => exact ⟨size, rfl, by rw [key j size hr hj hcv]; exact (stepOf_due j config).unique hdue⟩

/-- A refinement strategy with the heuristic `h0` and any other ones: state of the strategy and of the heuristic after
`k` rounds. -/
inductive HeuristicRun (eqs : List (List Lit)) (bbs : List Lit) (base : Nat) (h0 : Heuristic) : Nat → Strategy → Heuristic → Prop
  | start : HeuristicRun eqs bbs base h0 0 (Strategy.new eqs bbs base) h0
  | init {fuel : Nat} {ms1 ms2 : List Marks} {st : Strategy} {cls : CNF} :
      (Strategy.new eqs bbs base).init fuel (ms1 ++ (h0.marks (Strategy.new eqs bbs base).approx).1 :: ms2) = some (st, cls) →
      HeuristicRun eqs bbs base h0 1 st (h0.marks (Strategy.new eqs bbs base).approx).2
  | refine {k fuel : Nat} {ms1 ms2 : List Marks} {st st' : Strategy} {h : Heuristic} {cls : CNF} :
      HeuristicRun eqs bbs base h0 (k + 1) st h →
      st.refine fuel (ms1 ++ (h.marks st.approx).1 :: ms2) = some (st', cls) →
      HeuristicRun eqs bbs base h0 (k + 2) st' (h.marks st.approx).2

/-- There is no conjecture about the variable. -/
def Dropped (v : Nat) (s : ApproxState) : Prop :=
  (∀ i ∈ s.implications, i.1.var ≠ v ∧ i.2.var ≠ v) ∧ ∀ l ∈ s.bbs.lits, l.var ≠ v

theorem dropped_of {v : Nat} {s : ApproxState} (hg : Good s) (h : ¬ Conjectured v s) : Dropped v s := by
  obtain ⟨Ls, h1, _⟩ := hg.inv
  refine ⟨fun i hi => ?_, fun l hl e => h (.inr ⟨l, hl, e⟩)⟩
  have hm := mem_flatMap_cyc ((implications_perm h1).mem_iff.1 hi)
  have hv : ∀ l ∈ Ls.flatten, l.var ≠ v := fun l hl e => h (.inl ((keys_all h1).mem_iff.2 (mem_varsOf.2 ⟨l, hl, e⟩)))
  exact ⟨hv _ hm.1, hv _ hm.2⟩

theorem start_runInv {eqs : List (List Lit)} {bbs : List Lit} {base : Nat} {h0 : Heuristic} (hg : GoodConjectures eqs bbs base)
    (ha : ∀ l ∈ bbs, ∀ e ∈ eqs.flatten, l.var ≠ e.var) (hs : h0.step = 0) :
    RunInv h0 0 (Strategy.new eqs bbs base).approx h0 := by
  obtain ⟨Ls, i1, i2, i3⟩ := ofConjectures_inv hg.classes
  refine ⟨⟨⟨Ls, i1, i2⟩, hg.oneSign, fun l hl hv => ?_⟩, hs, fun _ _ => rfl, fun j hj => by omega⟩
  obtain ⟨e, he, h⟩ := mem_varsOf.1 ((keys_all i1).mem_iff.1 hv)
  exact ha l hl e (i3 e he) h.symm

theorem dfsLoop_more (G : GateProblem) (prune : Nat → Bool) (k : Nat) : ∀ (n : Nat) (s s' : DFS),
    G.dfsLoop prune n s = some s' → G.dfsLoop prune (n + k) s = some s' := by
  intro n
  induction n with
  | zero =>
    intro s s' h
    unfold GateProblem.dfsLoop at h ⊢
    split at h
    · exact h
    · cases h
  | succ n ih =>
    intro s s' h
    rw [Nat.add_right_comm]
    unfold GateProblem.dfsLoop at h ⊢
    split at h
    · exact h
    · exact ih _ _ h

theorem new_more {G : GateProblem} {cls : Nat → Clause} {config : List Nat} {n : Nat} {h : Heuristic}
    (hn : Heuristic.new G cls config n = some h) (k : Nat) : Heuristic.new G cls config (n + k) = some h := by
  unfold Heuristic.new countInputDependencies GateProblem.traverseDFS at hn ⊢
  cases hT : G.dfsLoop (fun _ => false) n (G.dfsInit cls fun _ => false) with
  | none => rw [hT] at hn; cases hn
  | some s => rw [dfsLoop_more _ _ k n _ _ hT]; rw [hT] at hn; exact hn

theorem HeuristicRun.inv {eqs : List (List Lit)} {bbs : List Lit} {base : Nat} {h0 : Heuristic} (hg : GoodConjectures eqs bbs base)
    (ha : ∀ l ∈ bbs, ∀ e ∈ eqs.flatten, l.var ≠ e.var) (hs : h0.step = 0) {k : Nat} {st : Strategy} {h : Heuristic}
    (hr : HeuristicRun eqs bbs base h0 k st h) : RunInv h0 k st.approx h := by
  induction hr with
  | start => exact start_runInv hg ha hs
  | init hi => exact (start_runInv hg ha hs).round (init_round hi)
  | refine _ hi ih => exact ih.round (refine_round hi)

/-- **C65 (removal).** If no variable is in two conjectures, then whatever the other heuristics mark: after a round, no
conjecture about a gate output is left that is due in this round or was due before. After the last round, no conjecture
about a gate output is left at all. -/
theorem C65_removal_partial (f : CNF) (m : GateMethod) (hm : m.Sound) (fuel count : Nat) (R : Analyzer) :
    let p := Problem.empty.readClauses f
    p.nVars < fuel → p.nVars < 2 ^ 64 → Analyzer.analyze m fuel count p = some R →
    ∀ (config : List Nat) (n : Nat) (h0 : Heuristic), Heuristic.new R.gp p.clauseAt config n = some h0 →
    ∀ (eqs : List (List Lit)) (bbs : List Lit) (base : Nat), GoodConjectures eqs bbs base →
    (∀ l ∈ bbs, ∀ e ∈ eqs.flatten, l.var ≠ e.var) →
    ∀ (k : Nat) (st : Strategy) (h : Heuristic), HeuristicRun eqs bbs base h0 k st h →
    ∀ v, Reached R.gp p.clauseAt (fun _ => false) v →
      (∀ j i, InputCount R.gp v j → Due config j i → i < k → Dropped v st.approx) ∧
      (config.length < k → Dropped v st.approx) := by
  dsimp only
  intro hf h64 hR config n h0 hnew eqs bbs base hg ha k st h hrun v hv
  obtain ⟨n', h1, hn', hs, hlen, hset⟩ := C65_rounds f m hm fuel count R hf h64 hR config
  have e : h1 = h0 := by
    have hT := new_more hnew n'
    rw [Nat.add_comm, hn'] at hT
    exact Option.some.inj hT
  subst e
  have I := hrun.inv hg ha hs
  have key : ∀ j i, InputCount R.gp v j → Due config j i → i < k → Dropped v st.approx := by
    intro j i hj hd hi
    have hlt : i < h1.byStep.length := by
      rw [hlen]
      rcases hd.2 with e | ⟨b, e, _⟩
      · omega
      · have := (List.getElem?_eq_some_iff.1 e).1
        omega
    have hs' := List.getElem?_eq_getElem hlt
    exact dropped_of I.good (I.gone i hi _ hs' v ((hset i _ hs' v).2 ⟨hv, j, hj, hd⟩))
  refine ⟨key, fun hk => ?_⟩
  obtain ⟨_, _, c, _, _, _, _, hval⟩ := C65_counts f m hm fuel count R hf hR 0
  obtain ⟨j, hj, _⟩ := hval v hv
  have hd := stepOf_due j config
  refine key j _ hj hd ?_
  rcases hd.2 with e | ⟨b, e, _⟩
  · omega
  · have := (List.getElem?_eq_some_iff.1 e).1
    omega

/-- **C65 (as documented).** After the round of a limit, no conjecture is left about gate outputs that depend on more
inputs than the limit. -/
theorem C65_documented_partial (f : CNF) (m : GateMethod) (hm : m.Sound) (fuel count : Nat) (R : Analyzer) :
    let p := Problem.empty.readClauses f
    p.nVars < fuel → p.nVars < 2 ^ 64 → Analyzer.analyze m fuel count p = some R →
    ∀ (config : List Nat) (n : Nat) (h0 : Heuristic), Heuristic.new R.gp p.clauseAt config n = some h0 →
    ∀ (eqs : List (List Lit)) (bbs : List Lit) (base : Nat), GoodConjectures eqs bbs base →
    (∀ l ∈ bbs, ∀ e ∈ eqs.flatten, l.var ≠ e.var) →
    ∀ (k : Nat) (st : Strategy) (h : Heuristic), HeuristicRun eqs bbs base h0 k st h →
    ∀ v, Reached R.gp p.clauseAt (fun _ => false) v →
    ∀ j i b, InputCount R.gp v j → config[i]? = some b → b < j → i < k → Dropped v st.approx := by
  dsimp only
  intro hf h64 hR config n h0 hnew eqs bbs base hg ha k st h hrun v hv j i b hj hb hlt hik
  have hd := stepOf_due j config
  refine (C65_removal_partial f m hm fuel count R hf h64 hR config n h0 hnew eqs bbs base hg ha k st h hrun v hv).1 j _ hj hd ?_
  refine Nat.lt_of_le_of_lt (Nat.not_lt.1 fun hlt' => ?_) hik
  obtain ⟨b', h1, h2⟩ := hd.1 i hlt'
  rw [hb] at h1
  cases h1
  omega

/-- **C65 (only what is due).** In its round `k`, the heuristic marks only gate outputs of the circuit that are due in
this round. In particular, it never marks a variable that is not the output of a gate. -/
theorem C65_marked_partial (f : CNF) (m : GateMethod) (hm : m.Sound) (fuel count : Nat) (R : Analyzer) :
    let p := Problem.empty.readClauses f
    p.nVars < fuel → p.nVars < 2 ^ 64 → Analyzer.analyze m fuel count p = some R →
    ∀ (config : List Nat) (n : Nat) (h0 : Heuristic), Heuristic.new R.gp p.clauseAt config n = some h0 →
    ∀ (eqs : List (List Lit)) (bbs : List Lit) (base : Nat), GoodConjectures eqs bbs base →
    (∀ l ∈ bbs, ∀ e ∈ eqs.flatten, l.var ≠ e.var) →
    ∀ (k : Nat) (st : Strategy) (h : Heuristic), HeuristicRun eqs bbs base h0 k st h →
    ∀ v, (v ∈ (h.marks st.approx).1.bbs ∨ ∃ ms ∈ (h.marks st.approx).1.eqs, v ∈ ms) →
      Reached R.gp p.clauseAt (fun _ => false) v ∧ ∃ j, InputCount R.gp v j ∧ Due config j k := by
  dsimp only
  intro hf h64 hR config n h0 hnew eqs bbs base hg ha k st h hrun v hv
  obtain ⟨n', h1, hn', hs, hlen, hset⟩ := C65_rounds f m hm fuel count R hf h64 hR config
  have e : h1 = h0 := by
    have hT := new_more hnew n'
    rw [Nat.add_comm, hn'] at hT
    exact Option.some.inj hT
  subst e
  have I := hrun.inv hg ha hs
  obtain ⟨set, h2, h3⟩ := h.marks_only hv
  rw [I.step, I.later k (Nat.le_refl _)] at h2
  exact (hset k set h2 v).1 h3

/-! ### Findings -/

/-- The heuristic for the circuit of the examples: gate 0 depends on three inputs, gate 1 on two. -/
def exHeuristic (config : List Nat) : Option Heuristic :=
  let p := Problem.empty.readClauses exCircuit
  (Analyzer.analyze exPatterns (p.nVars + 1) 1 p).bind fun R => Heuristic.new R.gp p.clauseAt config 30

theorem exHeuristic_spec (config : List Nat) (sets : List (List Nat))
    (h : (exHeuristic config).map (fun h => (h.byStep, h.step)) = some (sets, 0)) : ∃ R,
    let p := Problem.empty.readClauses exCircuit
    Analyzer.analyze exPatterns (p.nVars + 1) 1 p = some R ∧ Heuristic.new R.gp p.clauseAt config 30 = some ⟨sets, 0⟩ ∧
      Reached R.gp p.clauseAt (fun _ => false) 0 ∧ Reached R.gp p.clauseAt (fun _ => false) 1 := by
  unfold exHeuristic at h
  obtain ⟨h0, h1, h2⟩ := Option.map_eq_some_iff.1 h
  obtain ⟨R, hR, hn⟩ := Option.bind_eq_some_iff.1 h1
  have key : (Analyzer.analyze exPatterns ((Problem.empty.readClauses exCircuit).nVars + 1) 1
      (Problem.empty.readClauses exCircuit)).map (fun R => (R.gp.roots, (R.gp.gates 0).out, (R.gp.gates 1).out,
        (R.gp.gates 0).inp.contains (pos 1))) = some ([0], some (pos 0), some (pos 1), true) := by decide +kernel
  rw [hR] at key
  simp only [Option.map_some, Option.some.injEq, Prod.mk.injEq, List.contains_iff_mem] at key
  obtain ⟨k1, k2, k3, k4⟩ := key
  have hc : (Problem.empty.readClauses exCircuit).clauseAt 0 = [pos 0] := by decide +kernel
  have r0 : Reached R.gp (Problem.empty.readClauses exCircuit).clauseAt (fun _ => false) 0 :=
    .root (l := pos 0) (i := 0) (by rw [k1]; simp) (by rw [hc]; simp) (by change (R.gp.gates 0).out ≠ none; rw [k2]; simp) rfl
  refine ⟨R, hR, ?_, r0, .input (l := pos 1) r0 k4 (by change (R.gp.gates 1).out ≠ none; rw [k3]; simp) rfl⟩
  rw [hn]
  simp only [Prod.mk.injEq] at h2
  obtain ⟨rfl, h2⟩ := h2
  obtain ⟨b, t⟩ := h0
  cases h2
  rfl

/-- **Finding.** A gate output that is both a backbone and in a class is marked only once: the set of the round forgets it
when the backbone is marked, and the equivalence is never removed, although the documentation says that after the last
limit all remaining variables are. -/
theorem C65_twice_fails : ∃ (R : Analyzer) (h0 h : Heuristic) (st : Strategy), let p := Problem.empty.readClauses exCircuit
    Analyzer.analyze exPatterns (p.nVars + 1) 1 p = some R ∧ Heuristic.new R.gp p.clauseAt [1] 30 = some h0 ∧
    GoodConjectures [[pos 0, pos 1]] [pos 0, pos 1] 5 ∧
    HeuristicRun [[pos 0, pos 1]] [pos 0, pos 1] 5 h0 2 st h ∧ Reached R.gp p.clauseAt (fun _ => false) 0 ∧
    st.approx.bbs.lits = [] ∧ st.approx.implications = [(pos 1, pos 0), (pos 0, pos 1)] := by
  obtain ⟨R, hR, hn, r0, _⟩ := exHeuristic_spec [1] [[0, 1], []] (by decide +kernel)
  let h0 : Heuristic := ⟨[[0, 1], []], 0⟩
  let m0 := h0.marks (Strategy.new [[pos 0, pos 1]] [pos 0, pos 1] 5).approx
  have key : ((Strategy.new [[pos 0, pos 1]] [pos 0, pos 1] 5).init 10 ([] ++ m0.1 :: [])).bind (fun x =>
      (x.1.refine 10 ([] ++ (m0.2.marks x.1.approx).1 :: [])).map fun y =>
        (y.1.approx.bbs.lits, y.1.approx.implications)) = some ([], [(pos 1, pos 0), (pos 0, pos 1)]) := by decide +kernel
  obtain ⟨⟨st1, c1⟩, h1, key⟩ := Option.bind_eq_some_iff.1 key
  obtain ⟨⟨st2, c2⟩, h2, e⟩ := Option.map_eq_some_iff.1 key
  simp only [Prod.mk.injEq] at e
  exact ⟨R, h0, _, st2, hR, hn, ⟨by decide, by decide, by decide, by decide, by decide⟩, .refine (.init h1) h2, r0, e.1, e.2⟩

/-- **Finding.** Conjectures about variables that are not outputs of gates are never removed by the heuristic, although
the documentation says that after the last limit all remaining variables are. -/
theorem C65_inputs_fail : ∃ (R : Analyzer) (h0 h : Heuristic) (st : Strategy), let p := Problem.empty.readClauses exCircuit
    Analyzer.analyze exPatterns (p.nVars + 1) 1 p = some R ∧ Heuristic.new R.gp p.clauseAt [1] 30 = some h0 ∧
    GoodConjectures [[pos 2, pos 3]] [] 5 ∧ HeuristicRun [[pos 2, pos 3]] [] 5 h0 2 st h ∧
    st.approx.implications = [(pos 3, pos 2), (pos 2, pos 3)] := by
  obtain ⟨R, hR, hn, _, _⟩ := exHeuristic_spec [1] [[0, 1], []] (by decide +kernel)
  let h0 : Heuristic := ⟨[[0, 1], []], 0⟩
  let m0 := h0.marks (Strategy.new [[pos 2, pos 3]] [] 5).approx
  have key : ((Strategy.new [[pos 2, pos 3]] [] 5).init 10 ([] ++ m0.1 :: [])).bind (fun x =>
      (x.1.refine 10 ([] ++ (m0.2.marks x.1.approx).1 :: [])).map fun y => y.1.approx.implications) =
      some [(pos 3, pos 2), (pos 2, pos 3)] := by decide +kernel
  obtain ⟨⟨st1, c1⟩, h1, key⟩ := Option.bind_eq_some_iff.1 key
  obtain ⟨⟨st2, c2⟩, h2, e⟩ := Option.map_eq_some_iff.1 key
  exact ⟨R, h0, _, st2, hR, hn, ⟨by decide, by decide, by decide, by decide, by decide⟩, .refine (.init h1) h2, e⟩

/-- **Finding.** `probe` of a heuristic that has not begun its first round reads outside of the vector. -/
theorem C65_probe_fails (G : GateProblem) (cls : Nat → Clause) (config : List Nat) (n : Nat) (h : Heuristic)
    (hn : Heuristic.new G cls config n = some h) (v : Nat) : h.probe v = none := by
  unfold Heuristic.new at hn
  obtain ⟨r, _, rfl⟩ := Option.map_eq_some_iff.1 hn
  unfold Heuristic.probe
  simp

/-! ### Examples -/

/-- The hypotheses of the theorems are met: with the limit 2, gate 0 is due in the first round and gate 1 in the second;
the backbone 0 is removed by `init`, the backbone 1 by the first refinement. -/
example : ∃ (R : Analyzer) (h0 h1 h2 : Heuristic) (st1 st2 : Strategy), let p := Problem.empty.readClauses exCircuit
    Analyzer.analyze exPatterns (p.nVars + 1) 1 p = some R ∧ Heuristic.new R.gp p.clauseAt [2] 30 = some h0 ∧
    h0.byStep = [[0], [1]] ∧ GoodConjectures [] [pos 0, pos 1] 5 ∧
    HeuristicRun [] [pos 0, pos 1] 5 h0 1 st1 h1 ∧ st1.approx.bbs.lits = [pos 1] ∧
    HeuristicRun [] [pos 0, pos 1] 5 h0 2 st2 h2 ∧ st2.approx.bbs.lits = [] := by
  obtain ⟨R, hR, hn, _, _⟩ := exHeuristic_spec [2] [[0], [1]] (by decide +kernel)
  let h0 : Heuristic := ⟨[[0], [1]], 0⟩
  let m0 := h0.marks (Strategy.new [] [pos 0, pos 1] 5).approx
  have key : ((Strategy.new [] [pos 0, pos 1] 5).init 10 ([] ++ m0.1 :: [])).bind (fun x =>
      (x.1.refine 10 ([] ++ (m0.2.marks x.1.approx).1 :: [])).map fun y => (x.1.approx.bbs.lits, y.1.approx.bbs.lits)) =
      some ([pos 1], []) := by decide +kernel
  obtain ⟨⟨st1, c1⟩, h1, key⟩ := Option.bind_eq_some_iff.1 key
  obtain ⟨⟨st2, c2⟩, h2, e⟩ := Option.map_eq_some_iff.1 key
  simp only [Prod.mk.injEq] at e
  exact ⟨R, h0, _, _, st1, st2, hR, hn, rfl, ⟨by decide, by decide, by decide, by decide, by decide⟩, .init h1, e.1,
    .refine (.init h1) h2, e.2⟩

/-- Counts in a graph with shared gates: gates 0 to 3 all depend on both inputs. With the maximum 1, all counts are
replaced. -/
example : (countInputDependencies exDag (fun _ => [pos 0]) 2 30).map (fun r => (r.1, r.1.map r.2)) =
      some ([3, 2, 1, 0], [some 2, some 2, some 2, some 2]) ∧
    (countInputDependencies exDag (fun _ => [pos 0]) 1 30).map (fun r => (r.1, r.1.map r.2)) =
      some ([3, 2, 1, 0], List.replicate 4 (some exceedingMax)) := by decide +kernel

end Candy.InputDeps
