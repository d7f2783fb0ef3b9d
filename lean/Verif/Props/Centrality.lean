import Verif.Proofs.CentralityRun
import Verif.Model.Clear
import Verif.Props.Branching

/-!
# Branching with centralities (C60)

The heuristic `VSIDSC` makes a graph of the variables and keeps a table of centralities, indexed by the numbers of the
nodes. When activities are increased it reads the table for every variable of the clauses involved in the conflict
(option `opt_vsidsc_bump`, on by default).
-/

namespace Candy

variable {F : CNF} {as : List Lit} {s : Solver} {u : Usage} {kind : Branch.Kind} {b : Branch}

/-- Specification: two different variables occur together in a clause. -/
def Together (cs : List Clause) (x y : Nat) : Prop := x ≠ y ∧ ∃ c ∈ cs, (∃ l ∈ c, l.var = x) ∧ ∃ l ∈ c, l.var = y

/-- C60. The graph made of a list of clauses, whatever the order in which arguments are evaluated: its nodes are, without
repetitions, the variables that occur together with another one. Two nodes are neighbours if and only if their variables
occur together; this is symmetric, and there are no multiple edges. Nodes and edges are counted correctly (edges in both
directions). The clauses must be nonempty and without repeated variables. -/
theorem C60_graph (rtl : Bool) {nv : Nat} {cs : List Clause}
    (h : ∀ c ∈ cs, c ≠ [] ∧ (c.map Lit.var).Nodup ∧ ∀ l ∈ c, l.var < nv) :
    ∃ g, VarGraph.ofClauses rtl nv cs = some g ∧ g.nodes.Nodup ∧ (∀ v, v ∈ g.nodes ↔ ∃ w, Together cs v w) ∧
      (∀ i j x y, g.nodes[i]? = some x → g.nodes[j]? = some y → (j ∈ g.out i ↔ Together cs x y)) ∧
      (∀ i j, j ∈ g.out i ↔ i ∈ g.out j) ∧ (∀ i, (g.out i).Nodup) ∧ g.n = g.nodes.length ∧
      g.m = ((List.range g.nodes.length).map fun i => (g.out i).length).sum := by
  obtain ⟨g, h1, h2⟩ := VarGraph.ofClauses_spec rtl h
  refine ⟨g, h1, h2.nodup, h2.mem, ?_, ?_, h2.outNodup, h2.n, by rw [h2.m, h2.n]⟩
  · intro i j x y hx hy
    rw [h2.out]
    constructor
    · rintro ⟨a, b, e1, e2, e3⟩
      rw [hx] at e1; rw [hy] at e2
      cases e1; cases e2
      exact e3
    · exact fun h => ⟨x, y, hx, hy, h⟩
  · have key : ∀ i j, j ∈ g.out i → i ∈ g.out j := by
      intro i j hij
      rw [h2.out] at hij ⊢
      obtain ⟨a, b, e1, e2, e3, c, e4, e5, e6⟩ := hij
      exact ⟨b, a, e2, e1, Ne.symm e3, c, e4, e6, e5⟩
    exact fun i j => ⟨key i j, key j i⟩

/-- C60. After the centralities were computed from a list of clauses in which some two variables occur together, reading
the table for a variable is in bounds if and only if the variable occurs together with another one. -/
theorem C60_lookup (rtl : Bool) {nv : Nat} {cs : List Clause} {g : VarGraph}
    (h : ∀ c ∈ cs, c ≠ [] ∧ (c.map Lit.var).Nodup ∧ ∀ l ∈ c, l.var < nv) (hg : VarGraph.ofClauses rtl nv cs = some g)
    (hw : ∃ x y, Together cs x y) (old : Cent) (v : Nat) :
    (∃ c, (old.update nv g).lookup v = some c) ↔ ∃ w, Together cs v w := by
  obtain ⟨g', h1, h2⟩ := VarGraph.ofClauses_spec rtl h
  rw [hg] at h1; cases h1
  obtain ⟨u1, u2⟩ := Cent.update_spec h2 old hw v
  constructor
  · rintro ⟨c, hc⟩
    refine (h2.mem v).1 (Decidable.byContradiction fun hn => ?_)
    rw [u2 hn] at hc; cases hc
  · exact fun h => ⟨_, Cent.lookup_inRange (u1 ((h2.mem v).2 h))⟩

/-- C60. `process_reduce` always ends and stays in bounds: at the head of the main loop of `solve`, which is entered and
repeated only while no empty clause was found, the database contains no empty clause, and neither does it after
simplification, reduction and reorganisation. (With an empty clause, `init_graph` does not end, `C60_empty_clause`.) -/
theorem C60_reduce_defined (hu : u.Valid) {sys : Sys} (h : InSolveB kind u F as sys b) (cfg : Config)
    {r : RoundB} (hr : u.roundB r) :
    (sys.sol.db.hasEmpty = false → ∀ sys' b', b.reset r.resetOrd sys.sol.trail.reset = some b' →
      reduceStep cfg (r.with fun _ => ⟨false, fun _ => none⟩)
        { sys with sol := { sys.sol with trail := sys.sol.trail.reset } } = some sys' →
      ∃ b'', reduceB r sys' b' = some b'') ∧
    (∀ sys' b', solveRoundB kind cfg r sys b = some (sys', none, b') → sys'.sol.db.hasEmpty = false) := by
  obtain ⟨i1, i2⟩ := h.ok hu
  have hs := (hu _ (hr anyChoice anyChoice_valid)).sort
  refine ⟨fun hne sys' b' h0 h1 => ?_, fun sys' b' he => solveRoundB_nonempty (i1.ok hu) i2 hs he⟩
  have hB : BInv sys'.sol.trail b' :=
    reset_start (T := sys.sol.trail.reset) i2.wf i2.room i2.rsil h0 (reduceStep_shrinks h1)
  exact reduceB_defined (sys := { sys with sol := { sys.sol with trail := sys.sol.trail.reset } })
    (i1.ok hu).inv.reset hs hne h1 hB.room

/-- C60. In a call of `solve` that has made the graph, in this round of its main loop or in an earlier one, no iteration
of the search loop accesses anything out of bounds, in particular not the table of centralities: learnt clauses,
resolvents and strengthened clauses contain no variables that were not in a clause of two or more literals before.
(The option for extra bumping must be off, `C35_extra_bump_fails`.) -/
theorem C60_iteration_defined_partial (hu : u.Valid) (h : CentSearching kind u F as s b) (hk : kind.extraBump = false)
    (c : BChoice) : ∃ out b', searchIterB kind s b c = some (out, b') := by
  obtain ⟨ct, hc, hv⟩ := h.ok hu
  obtain ⟨i1, i2⟩ := h.searching.ok hu
  exact searchIterB_defined (i1.ok hu).inv i2 hc hv hk c

/-- These states are states of search, so all other theorems apply. -/
theorem C60_searching (h : CentSearching kind u F as s b) : SearchingB kind u F as s b := h.searching

/-! ### Findings and concrete runs -/

def exCentKind : Branch.Kind := ⟨true, false, none, some true⟩

/-- A round that begins with a reduction of the database. -/
def exCentRound : RoundB :=
  ⟨true, none, id, 50, fun _ _ => false, fun _ => ⟨false, exOrd⟩, false, true, fun _ _ => false⟩

theorem exCentRound_ok : Usage.plain.roundB exCentRound := fun _ ho => ⟨⟨ho, fun _ _ h => h⟩, rfl⟩

def exCentBranch (nv : Nat) (f : CNF) : Branch :=
  ((Branch.new exCentKind).init (fun _ _ => false) (fun _ => true) none nv ((Sys.new true).init nv f true).sol.trail).getD
    (Branch.new exCentKind)

theorem exCent_hist : HistoryB exCentKind .plain exF [] ((Sys.new true).init 3 exF true) (exCentBranch 3 exF) := by
  have h := (HistoryB.new (kind := exCentKind) (u := .plain) true).add 3 exF true rfl
    (wfCNF_of (by decide)) (fun _ _ => false) (fun _ => true) none (b' := exCentBranch 3 exF) rfl
  simpa using h

/-- The graph of four clauses: the variable 4 is isolated. -/
example : ((VarGraph.ofClauses true 5 (cnf [[1, 2, 3], [-1, 2], [5], [3, 5]])).map fun g =>
    (g.nodes, (List.range 4).map g.out, g.n, g.m)) =
      some ([1, 0, 2, 4], [[1, 2], [0, 2], [0, 1, 3], [2]], 4, 8) := by decide +kernel

/-- Hypotheses of `C60_graph` and `C60_lookup`. -/
example : (∀ c ∈ cnf [[1, 2, 3], [-1, 2], [5], [3, 5]], c ≠ [] ∧ (c.map Lit.var).Nodup ∧ ∀ l ∈ c, l.var < 5) ∧
    ∃ x y, Together (cnf [[1, 2, 3], [-1, 2], [5], [3, 5]]) x y :=
  ⟨by decide, 0, 2, by decide, [lit 1, lit 2, lit 3], by decide, ⟨lit 1, by decide, by decide⟩, lit 3, by decide, by decide⟩

/-- Search states of a run that makes the graph first. -/
def exCentState : Nat → Option (Solver × Branch)
  | 0 =>
    (solveEntry plainCfg [] ((Sys.new true).init 3 exF true)).bind fun sys =>
      ((exCentBranch 3 exF).reset exCentRound.resetOrd sys.sol.trail.reset).bind fun b =>
        (reduceStep {} (exCentRound.with fun _ => ⟨false, fun _ => none⟩)
          { sys with sol := { sys.sol with trail := sys.sol.trail.reset } }).bind fun sys =>
        (reduceB exCentRound sys b).bind fun b =>
          (materialize sys.sol).bind fun s => if s.db.hasEmpty then none else some (s, b)
  | k + 1 => (exCentState k).bind fun x =>
      match searchIterB exCentKind x.1 x.2 ⟨false, exOrd⟩ with
      | some (.cont s', b') => some (s', b')
      | _ => none

theorem exCentState_searching : ∀ k s b, exCentState k = some (s, b) →
    CentSearching exCentKind .plain exF [] s b
  | 0, s, b, h => by
    unfold exCentState at h
    obtain ⟨s1, h1, h⟩ := Option.bind_eq_some_iff.1 h
    obtain ⟨b1, h2, h⟩ := Option.bind_eq_some_iff.1 h
    obtain ⟨s2, h3, h⟩ := Option.bind_eq_some_iff.1 h
    obtain ⟨b2, h5, h⟩ := Option.bind_eq_some_iff.1 h
    obtain ⟨s3, h4, h⟩ := Option.bind_eq_some_iff.1 h
    split at h
    · simp at h
    · rename_i hE
      simp only [Option.some.injEq, Prod.mk.injEq] at h
      obtain ⟨rfl, rfl⟩ := h
      exact .start (.enter exCent_hist plainCfg [] rfl h1) _ _ exCentRound_ok (.inl ⟨rfl, Cent.new, rfl, .inl rfl⟩) h2 h3 h5 h4
        (by simpa using hE)
  | k + 1, s, b, h => by
    unfold exCentState at h
    obtain ⟨s1, h1, h⟩ := Option.bind_eq_some_iff.1 h
    split at h
    · rename_i s' b' he
      simp only [Option.some.injEq, Prod.mk.injEq] at h
      obtain ⟨rfl, rfl⟩ := h
      exact .iter (exCentState_searching k s1.1 s1.2 h1) _ he
    · simp at h

/-- C60_iteration_defined_partial: the run above reaches a conflict above level 0, where the table is read. -/
example : ((exCentState 1).bind fun x => (runPropagate x.1).map fun y =>
    (y.2, decide (0 < y.1.T.decisionLevel), x.2.cent.map fun c => (c.started, c.size))) =
      some (some 3, true, some (true, 3)) := by decide +kernel

/-- The whole call finds a model. -/
example : ((solveB exCentKind plainCfg [] [exCentRound] ((Sys.new true).init 3 exF true) (exCentBranch 3 exF)).map
    fun x => x.2.1.status) = some (some true) := by decide +kernel

/-- With an empty clause among the clauses, the loop that makes the graph does not end. -/
theorem C60_empty_clause (rtl : Bool) {nv : Nat} {cs : List Clause} (h : [] ∈ cs) : VarGraph.ofClauses rtl nv cs = none :=
  VarGraph.ofClauses_empty rtl h

def exPair : CNF := cnf [[1, 2]]
def exCross : CNF := cnf [[3, 4], [3, -4], [-3, 4], [-3, -4]]

/-- The solver with `exPair` after a call of `solve`. -/
def exCentAfter : Sys × Branch :=
  ((solveB exCentKind plainCfg [] [exCentRound] ((Sys.new true).init 2 exPair true) (exCentBranch 2 exPair)).map
    fun x => (x.1, x.2.2)).getD (Sys.new true, Branch.new exCentKind)

theorem exCentAfter_hist : HistoryB exCentKind .plain exPair [] exCentAfter.1 exCentAfter.2 := by
  have h := (HistoryB.new (kind := exCentKind) (u := .plain) true).add 2 exPair true rfl
    (wfCNF_of (by decide)) (fun _ _ => false) (fun _ => true) none (b' := exCentBranch 2 exPair) rfl
  have hs : (solveB exCentKind plainCfg [] [exCentRound] ((Sys.new true).init 2 exPair true) (exCentBranch 2 exPair)).isSome
      = true := by decide +kernel
  obtain ⟨⟨sys', res, b'⟩, hx⟩ := Option.isSome_iff_exists.1 hs
  have := h.solve plainCfg [] [exCentRound] rfl (by simpa using exCentRound_ok) (sys' := sys') (res := res) (b' := b') (by simpa using hx)
  unfold exCentAfter
  rw [hx]
  simpa using this

/-- Finding: the table is not made anew when variables are added after the first call of `solve` (unless the database has
grown by the factor `opt_vsidsc_dbsize_recalc`, off by default). The next conflict above level 0 reads the table out of bounds. -/
theorem C60_new_variables_fail : ∃ (sys : Sys) (b b' : Branch), HistoryB exCentKind .plain exPair [] sys b ∧
    HistoryB exCentKind .plain (exPair ++ exCross) [] (sys.init 4 exCross true) b' ∧
    solveB exCentKind plainCfg [] [exCentRound] (sys.init 4 exCross true) b' = none := by
  have hs : (exCentAfter.2.init (fun _ _ => false) (fun _ => true) none 4 (exCentAfter.1.init 4 exCross true).sol.trail).isSome
      = true := by decide +kernel
  obtain ⟨b', hb⟩ := Option.isSome_iff_exists.1 hs
  refine ⟨_, _, b', exCentAfter_hist, exCentAfter_hist.add 4 exCross true rfl (wfCNF_of (by decide +kernel)) _ _ none hb, ?_⟩
  have : ((exCentAfter.2.init (fun _ _ => false) (fun _ => true) none 4 (exCentAfter.1.init 4 exCross true).sol.trail).bind
      fun b' => solveB exCentKind plainCfg [] [exCentRound] (exCentAfter.1.init 4 exCross true) b').isNone = true := by
    decide +kernel
  rw [hb] at this
  exact Option.isNone_iff_eq_none.1 this

/-- Finding: `clear` keeps graph and table. After `clear`, a formula with more variables makes the search read the table
out of bounds; a new solver finds the answer. -/
theorem C60_clear_fails : ∃ (sys : Sys) (b b' b'' : Branch), HistoryB exCentKind .plain exPair [] sys b ∧
    b.clear.init (fun _ _ => false) (fun _ => true) none 4 (sys.clear.init 4 exCross true).sol.trail = some b' ∧
    solveB exCentKind plainCfg [] [exCentRound] (sys.clear.init 4 exCross true) b' = none ∧
    (Branch.new exCentKind).init (fun _ _ => false) (fun _ => true) none 4
        ((Sys.new true).init 4 exCross true).sol.trail = some b'' ∧
      ((solveB exCentKind plainCfg [] [exCentRound] ((Sys.new true).init 4 exCross true) b'').map
        fun x => x.2.1.status) = some (some false) := by
  have hs : (exCentAfter.2.clear.init (fun _ _ => false) (fun _ => true) none 4
      (exCentAfter.1.clear.init 4 exCross true).sol.trail).isSome = true := by decide +kernel
  obtain ⟨b', hb⟩ := Option.isSome_iff_exists.1 hs
  have : ((exCentAfter.2.clear.init (fun _ _ => false) (fun _ => true) none 4
      (exCentAfter.1.clear.init 4 exCross true).sol.trail).bind
      fun b' => solveB exCentKind plainCfg [] [exCentRound] (exCentAfter.1.clear.init 4 exCross true) b').isNone = true := by
    decide +kernel
  rw [hb] at this
  exact ⟨_, _, b', exCentBranch 4 exCross, exCentAfter_hist, hb, Option.isNone_iff_eq_none.1 this, rfl, by decide +kernel⟩

end Candy
