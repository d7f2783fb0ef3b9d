import Verif.Proofs.Problem
import Verif.Props.Literals
import Verif.Proofs.Examples

/-!
# C03, C07, C08, C09: problems and results
-/

namespace Candy

/-! ## C03: adding clauses -/

/-- **C03 (meaning).** An assignment satisfies the stored clauses iff it satisfies all clauses read. -/
theorem C03_meaning (f : CNF) (a : Assign) :
    Sat a (Problem.empty.readClauses f).problem ↔ Sat a f := by
  rw [Problem.readClauses_eq]
  simp only [Problem.empty, List.nil_append]
  constructor
  · intro h c hc
    by_cases ht : Tautological c
    · exact ht.sat a
    · refine (satClause_congr (fun l => mem_normalClause) a).1 (h (normalClause c) ?_)
      exact List.mem_map.2 ⟨c, by simp [hc, ht], rfl⟩
  · intro h c hc
    obtain ⟨d, hd, rfl⟩ := List.mem_map.1 hc
    exact (satClause_congr (fun l => mem_normalClause) a).2 (h d (List.mem_filter.1 hd).1)

/-- **C03 (normal form).** Every stored clause is strictly sorted by the literal order and contains
neither a literal twice nor a literal and its complement. -/
theorem C03_normal (f : CNF) : ∀ c ∈ (Problem.empty.readClauses f).problem,
    (c.Pairwise fun a b => a.ltb b = true) ∧ c.Nodup ∧ ∀ l ∈ c, l.neg ∉ c := by
  rw [Problem.readClauses_eq]
  intro c hc
  simp only [Problem.empty, List.nil_append] at hc
  obtain ⟨d, hd, rfl⟩ := List.mem_map.1 hc
  have hs := sorted_normalClause d
  refine ⟨hs.imp fun h => (Lit.ltb_iff _ _).2 h, hs.imp fun h e => by subst e; omega, ?_⟩
  intro l hl hn
  have : Tautological d := ⟨l, mem_normalClause.1 hl, mem_normalClause.1 hn⟩
  simp [this] at hd

/-- **C03 (nothing but the clauses).** The stored clauses are, in order, the clauses read that are
not tautological, each with the same literals. -/
theorem C03_clauses (f : CNF) : ∃ g : Clause → Clause,
    (Problem.empty.readClauses f).problem = (f.filter fun c => !decide (∃ l ∈ c, l.neg ∈ c)).map g ∧
      ∀ c l, l ∈ g c ↔ l ∈ c := by
  refine ⟨normalClause, ?_, fun c l => mem_normalClause⟩
  rw [Problem.readClauses_eq]
  simp only [Problem.empty, List.nil_append]
  rfl

/-- **C03 (variables).** The number of variables is one more than the largest variable mentioned,
and 0 if none is. -/
theorem C03_nVars (f : CNF) :
    (∀ c ∈ f, ∀ l ∈ c, l.var < (Problem.empty.readClauses f).nVars) ∧
      ((Problem.empty.readClauses f).nVars = 0 ∨
        ∃ c ∈ f, ∃ l ∈ c, (Problem.empty.readClauses f).nVars = l.var + 1) := by
  rw [Problem.readClauses_eq]
  simp only [Problem.empty, Problem.nVars]
  generalize hn : List.foldl (fun n c => max n (clauseVars c)) 0 f = n
  have h := foldl_max_le f 0
  rw [hn] at h
  refine ⟨((h n).1 (Nat.le_refl _)).2, ?_⟩
  rcases Nat.eq_zero_or_pos n with h0 | h0
  · exact Or.inl h0
  · right
    have h1 : ¬ n ≤ n - 1 := by omega
    rw [h (n - 1)] at h1
    have : ∃ c ∈ f, ∃ l ∈ c, ¬ l.var < n - 1 := by
      refine Classical.byContradiction fun hh => h1 ⟨Nat.zero_le _, fun c hc l hl => ?_⟩
      exact Classical.byContradiction fun h2 => hh ⟨c, hc, l, hl, h2⟩
    obtain ⟨c, hc, l, hl, hlv⟩ := this
    have := ((h n).1 (Nat.le_refl _)).2 c hc l hl
    exact ⟨c, hc, l, hl, by omega⟩

/-- **C03 (empty clause).** An empty clause is kept, and none is invented. -/
theorem C03_empty (f : CNF) : [] ∈ (Problem.empty.readClauses f).problem ↔ [] ∈ f := by
  obtain ⟨g, hg, hm⟩ := C03_clauses f
  rw [hg]
  have h0 : ∀ c, g c = [] ↔ c = [] := by
    intro c
    rw [List.eq_nil_iff_forall_not_mem, List.eq_nil_iff_forall_not_mem]
    simp [hm]
  simp [h0]

/-- **C03 (increments).** The same for clauses added to a problem that already has clauses, which
are kept unchanged. -/
theorem C03_append (p : Problem) (f : CNF) :
    (p.readClauses f).problem = p.problem ++ (Problem.empty.readClauses f).problem ∧
      (p.readClauses f).nVars = max p.nVars (Problem.empty.readClauses f).nVars := by
  rw [Problem.readClauses_eq, Problem.readClauses_eq]
  refine ⟨by simp [Problem.empty], ?_⟩
  simp only [Problem.nVars, Problem.empty]
  apply Nat.le_antisymm
  · rw [foldl_max_le]
    exact ⟨Nat.le_max_left .., fun c hc l hl =>
      Nat.lt_of_lt_of_le (((foldl_max_le f 0 _).1 (Nat.le_refl _)).2 c hc l hl) (Nat.le_max_right ..)⟩
  · have h := (foldl_max_le f p.variables _).1 (Nat.le_refl _)
    exact Nat.max_le.2 ⟨h.1, (foldl_max_le f 0 _).2 ⟨Nat.zero_le _, h.2⟩⟩

/-- Repetitions, a tautology (which still counts for the variables), an empty clause. -/
example : Problem.empty.readClauses (cnf [[3, -1, 3], [2, 9, -2], [], [1, 2, -1], [-4]]) =
    ⟨cnf [[-1, 3], [], [-4]], 9⟩ := by decide

/-! ## C09: renaming variables -/

namespace Problem.Renaming

/-- The names given so far are distinct and fill `0 .. max-1`. -/
structure Ok (r : Renaming) (dom : List Nat) : Prop where
  lt : ∀ v w, r.name v = some w → w < r.max
  inj : ∀ v v' w, r.name v = some w → r.name v' = some w → v = v'
  onto : ∀ w, w < r.max → ∃ v, r.name v = some w
  dom : ∀ v, (r.name v).isSome ↔ v ∈ dom

def Ext (r r' : Renaming) : Prop := ∀ v w, r.name v = some w → r'.name v = some w

def app (r : Renaming) (l : Lit) : Lit := ⟨(r.name l.var).getD 0, l.sign⟩

theorem lit_ok {r : Renaming} {dom : List Nat} (h : r.Ok dom) (l : Lit) :
    (r.lit l).1.Ok (l.var :: dom) ∧ Ext r (r.lit l).1 ∧
      ∀ r', Ext (r.lit l).1 r' → (r.lit l).2 = r'.app l := by
  unfold Renaming.lit
  cases hn : r.name l.var with
  | some w =>
    refine ⟨⟨h.lt, h.inj, h.onto, fun v => ?_⟩, fun _ _ h => h, fun r' h' => ?_⟩
    · rw [h.dom, List.mem_cons]
      refine ⟨Or.inr, ?_⟩
      rintro (rfl | hv)
      · rw [← h.dom]; simp [hn]
      · exact hv
    · simp [app, h' _ _ hn]
  | none =>
    refine ⟨⟨fun v w hv => ?_, fun v v' w hv hv' => ?_, fun w hw => ?_, fun v => ?_⟩,
      fun v w hv => ?_, fun r' h' => ?_⟩
    · by_cases e : v = l.var
      · simp [e] at hv; simp only; omega
      · simp [e] at hv; have := h.lt _ _ hv; simp only; omega
    · by_cases e : v = l.var <;> by_cases e' : v' = l.var
      · rw [e, e']
      · simp [e] at hv; simp [e'] at hv'; have := h.lt _ _ hv'; omega
      · simp [e] at hv; simp [e'] at hv'; have := h.lt _ _ hv; omega
      · simp [e] at hv; simp [e'] at hv'; exact h.inj _ _ _ hv hv'
    · simp only at hw
      rcases Nat.lt_or_eq_of_le (Nat.le_of_lt_succ hw) with hw | rfl
      · obtain ⟨v, hv⟩ := h.onto w hw
        refine ⟨v, ?_⟩
        have : v ≠ l.var := fun e => by rw [e, hn] at hv; cases hv
        simp [this, hv]
      · exact ⟨l.var, by simp⟩
    · by_cases e : v = l.var
      · simp [e]
      · simp [e, h.dom]
    · have : v ≠ l.var := fun e => by rw [e, hn] at hv; cases hv
      simp [this, hv]
    · have := h' l.var r.max (by simp)
      simp [app, this]

theorem clause_ok {c : Clause} : ∀ {r : Renaming} {dom : List Nat}, r.Ok dom →
    (r.clause c).1.Ok ((c.map (·.var)).reverse ++ dom) ∧ Ext r (r.clause c).1 ∧
      ∀ r', Ext (r.clause c).1 r' → (r.clause c).2 = c.map r'.app := by
  induction c with
  | nil => intro r dom h; exact ⟨by simpa [Renaming.clause] using h, fun _ _ h => h, fun _ _ => rfl⟩
  | cons l ls ih =>
    intro r dom h
    obtain ⟨h1, h2, h3⟩ := lit_ok h l
    obtain ⟨h4, h5, h6⟩ := ih h1
    refine ⟨?_, fun v w hv => h5 _ _ (h2 _ _ hv), fun r' h' => ?_⟩
    · simpa [Renaming.clause] using h4
    · simp only [Renaming.clause, List.map_cons]
      rw [h6 r' h', h3 r' fun v w hv => h' _ _ (h5 _ _ hv)]

theorem cnf_ok {f : CNF} : ∀ {r : Renaming} {dom : List Nat}, r.Ok dom →
    (∃ d, (∀ v, v ∈ d ↔ ∃ c ∈ f, ∃ l ∈ c, l.var = v) ∧ (r.cnf f).1.Ok (d ++ dom)) ∧
      Ext r (r.cnf f).1 ∧ ∀ r', Ext (r.cnf f).1 r' → (r.cnf f).2 = f.map (·.map r'.app) := by
  induction f with
  | nil =>
    intro r dom h
    exact ⟨⟨[], by simp, by simpa [Renaming.cnf] using h⟩, fun _ _ h => h, fun _ _ => rfl⟩
  | cons c cs ih =>
    intro r dom h
    obtain ⟨h1, h2, h3⟩ := clause_ok (c := c) h
    obtain ⟨⟨d, hd, h4⟩, h5, h6⟩ := ih h1
    refine ⟨⟨d ++ (c.map (·.var)).reverse, fun v => ?_, ?_⟩, fun v w hv => h5 _ _ (h2 _ _ hv),
      fun r' h' => ?_⟩
    · simp only [List.mem_append, hd, List.mem_reverse, List.mem_map, List.mem_cons]
      constructor
      · rintro (⟨c', hc', hl⟩ | ⟨l, hl, hv⟩)
        · exact ⟨c', Or.inr hc', hl⟩
        · exact ⟨c, Or.inl rfl, l, hl, hv⟩
      · rintro ⟨c', rfl | hc', l, hl, hv⟩
        · exact Or.inr ⟨l, hl, hv⟩
        · exact Or.inl ⟨c', hc', l, hl, hv⟩
    · simpa [Renaming.cnf] using h4
    · simp only [Renaming.cnf, List.map_cons]
      rw [h6 r' h', h3 r' fun v w hv => h' _ _ (h5 _ _ hv)]

end Problem.Renaming

/-- A variable occurs in a formula. -/
def Occurs (v : Nat) (f : CNF) : Prop := ∃ c ∈ f, ∃ l ∈ c, l.var = v

/-- **C09 (renaming).** The result is the original with its variables renamed by a function that is
injective on the variables that occur and whose image is exactly `0 .. nVars-1`; signs, order of the
literals and order of the clauses are unchanged. -/
theorem C09_renaming (p : Problem) : ∃ ρ : Nat → Nat,
    (∀ v w, Occurs v p.problem → Occurs w p.problem → ρ v = ρ w → v = w) ∧
    (∀ n, n < p.normalizeVariableNames.nVars ↔ ∃ v, Occurs v p.problem ∧ ρ v = n) ∧
    p.normalizeVariableNames.problem = p.problem.map (·.map fun l => ⟨ρ l.var, l.sign⟩) := by
  have h0 : Problem.Renaming.Ok ⟨fun _ => none, 0⟩ [] :=
    ⟨by simp, by simp, by simp, by simp⟩
  obtain ⟨⟨d, hd, h1⟩, -, h3⟩ := Problem.Renaming.cnf_ok (f := p.problem) h0
  have h3 := h3 _ fun _ _ h => h
  simp only [List.append_nil] at h1
  have hocc : ∀ v, Occurs v p.problem →
      ∃ w, (Problem.Renaming.cnf ⟨fun _ => none, 0⟩ p.problem).1.name v = some w := fun v hv =>
    Option.isSome_iff_exists.1 ((h1.dom v).2 ((hd v).2 hv))
  refine ⟨fun v => ((Problem.Renaming.cnf ⟨fun _ => none, 0⟩ p.problem).1.name v).getD 0,
    fun v w hv hw he => ?_, fun n => ⟨fun hn => ?_, ?_⟩, ?_⟩
  · obtain ⟨x, hx⟩ := hocc v hv
    obtain ⟨y, hy⟩ := hocc w hw
    simp [hx, hy] at he
    subst he
    exact h1.inj _ _ _ hx hy
  · obtain ⟨v, hv⟩ := h1.onto n hn
    exact ⟨v, (hd v).1 ((h1.dom v).1 (by simp [hv])), by simp [hv]⟩
  · rintro ⟨v, hv, rfl⟩
    obtain ⟨x, hx⟩ := hocc v hv
    simp only [hx, Option.getD_some]
    exact h1.lt _ _ hx
  · exact h3

/-- **C09 (satisfiability).** -/
theorem C09_satisfiable (p : Problem) :
    Satisfiable p.normalizeVariableNames.problem ↔ Satisfiable p.problem := by
  obtain ⟨ρ, hinj, -, he⟩ := C09_renaming p
  rw [he]
  constructor
  · rintro ⟨a, ha⟩
    refine ⟨fun v => a (ρ v), fun c hc => ?_⟩
    obtain ⟨l, hl, hh⟩ := ha _ (List.mem_map.2 ⟨c, hc, rfl⟩)
    obtain ⟨l0, hl0, rfl⟩ := List.mem_map.1 hl
    exact ⟨l0, hl0, hh⟩
  · rintro ⟨a, ha⟩
    classical
    refine ⟨fun n => if h : ∃ v, Occurs v p.problem ∧ ρ v = n then a h.choose else false, ?_⟩
    intro c hc
    obtain ⟨c0, hc0, rfl⟩ := List.mem_map.1 hc
    obtain ⟨l, hl, hh⟩ := ha c0 hc0
    refine ⟨_, List.mem_map.2 ⟨l, hl, rfl⟩, ?_⟩
    have hex : ∃ v, Occurs v p.problem ∧ ρ v = ρ l.var := ⟨l.var, ⟨c0, hc0, l, hl, rfl⟩, rfl⟩
    have := hinj _ _ hex.choose_spec.1 ⟨c0, hc0, l, hl, rfl⟩ hex.choose_spec.2
    simp only [Lit.holds] at hh ⊢
    rw [dif_pos hex, this, hh]

/-- **C09 (shape).** Same number of clauses, same clause lengths. -/
theorem C09_shape (p : Problem) : p.normalizeVariableNames.nClauses = p.nClauses ∧
    p.normalizeVariableNames.problem.map List.length = p.problem.map List.length := by
  obtain ⟨ρ, -, -, he⟩ := C09_renaming p
  simp [Problem.nClauses, he]

/-- Variables 4, 2, 9 become 1, 2, 3; the clauses need not be sorted any more. -/
example : (Problem.mk (cnf [[2, -4], [-2, 9], [4, -9]]) 9).normalizeVariableNames =
    ⟨cnf [[1, -2], [-1, 3], [2, -3]], 3⟩ := by decide

/-! ## C08: results -/

/-- The calls that change a result. -/
inductive ResultOp where
  | setValue (l : Lit)
  | setModel (trail : List Lit)
  | setConflict (ls : List Lit)
  | setStatus (s : LBool)
  | setMinimized (l : Lit)
  | clear

/-- The calls as executed by the code. -/
def SolverResult.step (r : SolverResult) : ResultOp → SolverResult
  | .setValue l => r.setModelValue l
  | .setModel t => r.setModel t
  | .setConflict ls => r.setConflict ls
  | .setStatus s => r.setStatus s
  | .setMinimized l => r.setMinimizedModelValue l
  | .clear => r.clear

/-- A result after a history of calls. -/
def SolverResult.after (h : List ResultOp) : SolverResult := h.foldl SolverResult.step SolverResult.new

/-- The literals set since the last `clear`, in order. -/
def literalsSet (h : List ResultOp) : List Lit :=
  h.foldl (fun ls o => match o with
    | .setValue l => ls ++ [l]
    | .setModel t => ls ++ t
    | .clear => []
    | _ => ls) []

/-- The conflict literals set since the last `clear`. -/
def conflictSet (h : List ResultOp) : List Lit :=
  h.foldl (fun ls o => match o with
    | .setConflict t => ls ++ t
    | .clear => []
    | _ => ls) []

/-- The value of the last literal of variable `v` in a list. -/
def lastValue (ls : List Lit) (v : Nat) : Option Bool :=
  (ls.reverse.find? fun l => l.var == v).map fun l => !l.sign

theorem lastValue_append (ls : List Lit) (l : Lit) (v : Nat) :
    lastValue (ls ++ [l]) v = if l.var = v then some (!l.sign) else lastValue ls v := by
  unfold lastValue
  rw [List.reverse_append]
  simp only [List.reverse_cons, List.reverse_nil, List.nil_append, List.cons_append, List.find?_cons]
  by_cases h : l.var = v
  · simp [h]
  · have : (l.var == v) = false := by simpa using h
    simp [h, this]

/-- What a vector of lifted booleans represents. -/
structure Represents (m : List LBool) (ls : List Lit) : Prop where
  proper : ∀ x ∈ m, x = LBool.T ∨ x = LBool.F ∨ x = LBool.U
  val : ∀ v, (m[v]?).bind LBool.meaning = lastValue ls v
  len : m.length = clauseVars ls

theorem clauseVars_append (ls : List Lit) (l : Lit) :
    clauseVars (ls ++ [l]) = max (clauseVars ls) (l.var + 1) := by
  apply Nat.le_antisymm
  · rw [clauseVars_le]
    intro x hx
    rcases List.mem_append.1 hx with hx | hx
    · have := (clauseVars_le.1 (Nat.le_refl (clauseVars ls))) x hx
      exact Nat.lt_of_lt_of_le this (Nat.le_max_left ..)
    · simp at hx; subst hx; exact Nat.lt_of_lt_of_le (Nat.lt_succ_self _) (Nat.le_max_right ..)
  · have h := clauseVars_le.1 (Nat.le_refl (clauseVars (ls ++ [l])))
    exact Nat.max_le.2 ⟨clauseVars_le.2 fun x hx => h x (by simp [hx]), h l (by simp)⟩

theorem Represents.store {m : List LBool} {ls : List Lit} (h : Represents m ls) (l : Lit) :
    Represents (SolverResult.store m l) (ls ++ [l]) := by
  have key : ∀ (m' : List LBool), (∀ x ∈ m', x = LBool.T ∨ x = LBool.F ∨ x = LBool.U) →
      (∀ v, (m'[v]?).bind LBool.meaning = lastValue ls v) → l.var < m'.length →
      m'.length = max (clauseVars ls) (l.var + 1) →
      Represents (m'.set l.var (if l.sign then LBool.F else LBool.T)) (ls ++ [l]) := by
    intro m' h1 h2 h3 h4
    refine ⟨fun x hx => ?_, fun v => ?_, ?_⟩
    · rcases List.mem_or_eq_of_mem_set hx with hx | rfl
      · exact h1 x hx
      · cases l.sign <;> simp
    · rw [lastValue_append, List.getElem?_set]
      by_cases e : l.var = v
      · rw [if_pos e, if_pos e, if_pos h3]
        cases l.sign <;> decide
      · rw [if_neg e, if_neg e, h2]
    · rw [List.length_set, clauseVars_append, h4]
  unfold SolverResult.store
  split
  · next hle =>
    apply key
    · intro x hx
      rcases List.mem_append.1 hx with hx | hx
      · exact h.proper x hx
      · rw [List.eq_of_mem_replicate hx]; simp
    · intro v
      rw [← h.val, SolverResult.grow, List.getElem?_append]
      split
      · rfl
      · next hv =>
        have hm : m[v]? = none := List.getElem?_eq_none (by omega)
        rw [hm, List.getElem?_replicate]
        split <;> decide
    · simp [SolverResult.grow]; omega
    · have := h.len; simp [SolverResult.grow]; omega
  · next hle =>
    exact key m h.proper h.val (by omega) (by have := h.len; omega)

theorem Represents.fold (t : List Lit) : ∀ {r : SolverResult} {ls : List Lit}, Represents r.model ls →
    Represents (r.setModel t).model (ls ++ t) ∧ (r.setModel t).conflict = r.conflict := by
  induction t with
  | nil => intro r ls h; exact ⟨by simpa [SolverResult.setModel] using h, rfl⟩
  | cons l t ih =>
    intro r ls h
    have := ih (r := r.setModelValue l) (h.store l)
    simpa [SolverResult.setModel, SolverResult.setModelValue] using this

theorem SolverResult.after_snoc (h : List ResultOp) (o : ResultOp) :
    SolverResult.after (h ++ [o]) = (SolverResult.after h).step o := by simp [SolverResult.after]

theorem list_snoc_ind {α : Type} {P : List α → Prop} (h0 : P [])
    (h1 : ∀ l a, P l → P (l ++ [a])) : ∀ l, P l := by
  intro l
  rw [← List.reverse_reverse l]
  induction l.reverse with
  | nil => exact h0
  | cons a t ih => rw [List.reverse_cons]; exact h1 _ _ ih

theorem SolverResult.after_represents (h : List ResultOp) :
    Represents (SolverResult.after h).model (literalsSet h) ∧
      (SolverResult.after h).conflict = conflictSet h := by
  induction h using list_snoc_ind with
  | h0 => exact ⟨⟨by simp [SolverResult.after, SolverResult.new], by intro v; rfl, rfl⟩, rfl⟩
  | h1 h o ih =>
    rw [SolverResult.after_snoc]
    have e1 : ∀ f : List Lit → List Lit, ∀ o', literalsSet (h ++ [o']) = (match o' with
      | .setValue l => literalsSet h ++ [l]
      | .setModel t => literalsSet h ++ t
      | .clear => []
      | _ => literalsSet h) := by intro _ o'; simp [literalsSet]
    have e2 : ∀ o', conflictSet (h ++ [o']) = (match o' with
      | .setConflict t => conflictSet h ++ t
      | .clear => []
      | _ => conflictSet h) := by intro o'; simp [conflictSet]
    rw [e1 id, e2]
    cases o with
    | setValue l => exact ⟨ih.1.store l, ih.2⟩
    | setModel t => exact ⟨(ih.1.fold t).1, (ih.1.fold t).2.trans ih.2⟩
    | setConflict ls => exact ⟨ih.1, by simp [SolverResult.step, SolverResult.setConflict, ih.2]⟩
    | setStatus s => exact ih
    | setMinimized l => exact ih
    | clear => exact ⟨⟨by simp [SolverResult.step, SolverResult.clear], by intro v; rfl, rfl⟩, rfl⟩

theorem Represents.meaning_none {m : List LBool} {ls : List Lit} (h : Represents m ls) {v : Nat}
    {x : LBool} (hx : m[v]? = some x) : x.meaning = lastValue ls v ∧ x.Proper := by
  have := h.val v
  rw [hx] at this
  refine ⟨this, ?_⟩
  rcases h.proper x (List.mem_of_getElem? hx) with rfl | rfl | rfl <;> decide

/-- **C08 (satisfied literals).** After any history of calls, a literal is reported as satisfied iff
the last literal set for its variable since the last `clear` is that literal. In particular no
literal of an unset variable is. -/
theorem C08_satisfies (h : List ResultOp) (l : Lit) :
    (SolverResult.after h).satisfies l = true ↔ lastValue (literalsSet h) l.var = some (!l.sign) := by
  have hr := (SolverResult.after_represents h).1
  unfold SolverResult.satisfies
  cases hx : (SolverResult.after h).model[l.var]? with
  | none => have := hr.val l.var; rw [hx] at this; simp [← this]
  | some x =>
    obtain ⟨h1, h2⟩ := hr.meaning_none hx
    rw [← h1]
    rcases LBool.proper_cases h2 with rfl | rfl | rfl | rfl <;> cases l.sign <;> decide

/-- **C08 (value).** Asking for the value of a variable is defined exactly for variables up to the
largest one set since the last `clear`; the answer is then the last literal set for the variable, and
undefined if there is none. For larger variables the access is out of bounds: see
`C08_full_statement_fails`. -/
theorem C08_value_partial (h : List ResultOp) (v : Nat) :
    ((∃ l ∈ literalsSet h, v ≤ l.var) → (SolverResult.after h).value v =
      some ((lastValue (literalsSet h) v).map fun b => ⟨v, !b⟩)) ∧
    ((∀ l ∈ literalsSet h, l.var < v) → (SolverResult.after h).value v = none) := by
  have hr := (SolverResult.after_represents h).1
  constructor
  · rintro ⟨l, hl, hv⟩
    have hlt : v < (SolverResult.after h).model.length := by
      rw [hr.len]
      have := clauseVars_le.1 (Nat.le_refl (clauseVars (literalsSet h))) l hl
      omega
    unfold SolverResult.value
    have hx := List.getElem?_eq_getElem hlt
    obtain ⟨h1, h2⟩ := hr.meaning_none hx
    rw [hx, ← h1]
    generalize (SolverResult.after h).model[v] = x at h2
    rcases LBool.proper_cases h2 with rfl | rfl | rfl | rfl <;>
      simp [LBool.eq, LBool.F, LBool.T, LBool.meaning]
  · intro hall
    unfold SolverResult.value
    rw [List.getElem?_eq_none]
    rw [hr.len]
    exact clauseVars_le.2 hall

/-- The full claim "the value of a variable that was never set is undefined" fails: on a fresh
result any call of `value` reads outside the vector. -/
theorem C08_full_statement_fails :
    ¬ ∀ (h : List ResultOp) (v : Nat),
      (SolverResult.after h).value v = some ((lastValue (literalsSet h) v).map fun b => ⟨v, !b⟩) := by
  intro h
  exact absurd (h [] 0) (by decide)

theorem mem_literalsFrom {m : List LBool} : ∀ {n : Nat} {l : Lit},
    (∀ x ∈ m, x = LBool.T ∨ x = LBool.F ∨ x = LBool.U) →
    (l ∈ SolverResult.literalsFrom n m ↔
      n ≤ l.var ∧ (m[l.var - n]?).bind LBool.meaning = some (!l.sign)) := by
  induction m with
  | nil => intro n l _; simp [SolverResult.literalsFrom]
  | cons x xs ih =>
    intro n l hp
    have ih' := ih (n := n + 1) (l := l) fun y hy => hp y (List.mem_cons_of_mem _ hy)
    have hx := hp x (by simp)
    have hidx : n < l.var → (x :: xs)[l.var - n]? = xs[l.var - (n + 1)]? := by
      intro hlt
      rw [show l.var - n = (l.var - (n + 1)) + 1 by omega, List.getElem?_cons_succ]
    obtain ⟨v, s⟩ := l
    simp only at ih' hidx ⊢
    have hcase : v < n ∨ v = n ∨ n < v := by omega
    rcases hcase with hc | hc | hc
    · have h1 : ¬ n + 1 ≤ v := by omega
      have h2 : ¬ n ≤ v := by omega
      have h3 : v ≠ n := by omega
      rcases hx with rfl | rfl | rfl <;>
        simp [SolverResult.literalsFrom, LBool.eq, LBool.T, LBool.F, LBool.U, ih', h1, h2, h3]
    · subst hc
      have h1 : ¬ v + 1 ≤ v := by omega
      simp only [h1, false_and, iff_false] at ih'
      rcases hx with rfl | rfl | rfl <;> cases s <;>
        simp [SolverResult.literalsFrom, LBool.eq, LBool.T, LBool.F, LBool.U, ih', LBool.meaning]
    · have h1 : n + 1 ≤ v := by omega
      have h2 : n ≤ v := by omega
      have h3 : v ≠ n := by omega
      rw [hidx hc]
      rcases hx with rfl | rfl | rfl <;>
        simp [SolverResult.literalsFrom, LBool.eq, LBool.T, LBool.F, LBool.U, ih', h1, h2, h3]

theorem sorted_literalsFrom {m : List LBool} : ∀ {n : Nat},
    (∀ l ∈ SolverResult.literalsFrom n m, n ≤ l.var) ∧
      (SolverResult.literalsFrom n m).Pairwise fun a b => a.var < b.var := by
  induction m with
  | nil => intro n; simp [SolverResult.literalsFrom]
  | cons x xs ih =>
    intro n
    have ih' := ih (n := n + 1)
    simp only [SolverResult.literalsFrom]
    have hle : ∀ l ∈ SolverResult.literalsFrom (n + 1) xs, n ≤ l.var := fun l hl =>
      Nat.le_of_succ_le (ih'.1 l hl)
    split
    · exact ⟨by simpa using hle, List.pairwise_cons.2 ⟨ih'.1, ih'.2⟩⟩
    · split
      · exact ⟨by simpa using hle, List.pairwise_cons.2 ⟨ih'.1, ih'.2⟩⟩
      · exact ⟨hle, ih'.2⟩

/-- **C08 (literal list).** The literal list contains exactly the literals that are currently set,
in strictly increasing order of their variables. -/
theorem C08_literals (h : List ResultOp) :
    (∀ l, l ∈ (SolverResult.after h).getModelLiterals ↔
      lastValue (literalsSet h) l.var = some (!l.sign)) ∧
    (SolverResult.after h).getModelLiterals.Pairwise fun a b => a.var < b.var := by
  have hr := (SolverResult.after_represents h).1
  refine ⟨fun l => ?_, sorted_literalsFrom.2⟩
  rw [SolverResult.getModelLiterals, mem_literalsFrom hr.proper, Nat.sub_zero, hr.val]
  simp

/-- **C08 (conflict and clearing).** The conflict consists of the literals added since the last
`clear`; after `clear` there are no model literals and no conflict. -/
theorem C08_clear (h : List ResultOp) : (SolverResult.after h).conflict = conflictSet h ∧
    (SolverResult.after (h ++ [.clear])).getModelLiterals = [] ∧
    (SolverResult.after (h ++ [.clear])).conflict = [] ∧
    ∀ l, (SolverResult.after (h ++ [.clear])).satisfies l = false := by
  refine ⟨(SolverResult.after_represents h).2, ?_, ?_, fun l => ?_⟩ <;>
    simp [SolverResult.after_snoc, SolverResult.step, SolverResult.clear, SolverResult.getModelLiterals,
      SolverResult.literalsFrom, SolverResult.satisfies]

/-- The minimized model, in contrast, survives `clear`. -/
example : (SolverResult.after [.setMinimized (lit 2), .clear]).getMinimizedModelLiterals = [lit 2] := by
  decide

/-- A history with overwritten values, growth and a gap. -/
example : (SolverResult.after [.setValue (lit 5), .setModel [lit (-2), lit 7], .setValue (lit (-5))]).getModelLiterals
      = [lit (-2), lit (-5), lit 7] ∧
    (SolverResult.after [.setValue (lit 3)]).value 1 = some none := by decide

/-! ## C07: checking a result -/

/-- The partial assignment a result reports. -/
def SolverResult.assignment (r : SolverResult) : PAssign := fun v => (r.model[v]?).bind LBool.meaning

theorem SolverResult.satisfies_iff {r : SolverResult} (hp : ∀ x ∈ r.model, LBool.Proper x) (l : Lit) :
    r.satisfies l = true ↔ l.trueIn r.assignment := by
  unfold SolverResult.satisfies Lit.trueIn SolverResult.assignment
  cases hx : r.model[l.var]? with
  | none => simp
  | some x =>
    rcases LBool.proper_cases (hp x (List.mem_of_getElem? hx)) with rfl | rfl | rfl | rfl <;>
      cases l.sign <;> decide

theorem checkClauses_true (r : SolverResult) : ∀ f : CNF, Problem.checkClauses r f = some true ↔
    ∀ c ∈ f, ∃ l ∈ c, r.satisfies l = true := by
  intro f
  induction f with
  | nil => simp [Problem.checkClauses]
  | cons c cs ih =>
    simp only [Problem.checkClauses]
    by_cases hc : c.any r.satisfies = true
    · rw [if_pos hc, ih]
      simp only [List.mem_cons, forall_eq_or_imp]
      have := List.any_eq_true.1 hc
      exact ⟨fun h => ⟨this, h⟩, fun h => h.2⟩
    · rw [if_neg hc]
      have h2 : ¬ ∀ d ∈ c :: cs, ∃ l ∈ d, r.satisfies l = true := fun h =>
        hc (List.any_eq_true.2 (h c (by simp)))
      simp only [h2, iff_false]
      split <;> simp

/-- **C07 (acceptance).** For every problem and every partial model: the check accepts iff every
clause contains a literal the model makes true. A literal of a variable that the model does not
mention, or leaves undefined, is not counted. -/
theorem C07_accepts (p : Problem) (r : SolverResult) (hp : ∀ x ∈ r.model, LBool.Proper x) :
    p.checkResult r = some true ↔ PSat r.assignment p.problem := by
  rw [Problem.checkResult, checkClauses_true]
  simp only [SolverResult.satisfies_iff hp, PSat]

theorem checkClauses_defined (r : SolverResult) : ∀ f : CNF,
    (∀ c ∈ f, ∀ l ∈ c, l.var < r.model.length) → (Problem.checkClauses r f).isSome := by
  intro f
  induction f with
  | nil => simp [Problem.checkClauses]
  | cons c cs ih =>
    intro h
    simp only [Problem.checkClauses]
    split
    · exact ih fun d hd => h d (List.mem_cons_of_mem _ hd)
    · rw [if_pos]
      · rfl
      · rw [List.all_eq_true]
        intro l hl
        have := h c (by simp) l hl
        simp only [SolverResult.value, List.getElem?_eq_getElem this]
        split
        · rfl
        · split <;> rfl

/-- **C07 (rejection).** When the model vector covers all variables of the problem, the check is
defined and rejects exactly the results that do not satisfy the problem. Without that hypothesis it
may read outside the vector while printing the violated clause: see `C07_full_statement_fails`. -/
theorem C07_rejects_partial (p : Problem) (r : SolverResult) (hp : ∀ x ∈ r.model, LBool.Proper x)
    (hlen : ∀ c ∈ p.problem, ∀ l ∈ c, l.var < r.model.length) :
    p.checkResult r = some false ↔ ¬ PSat r.assignment p.problem := by
  rw [← C07_accepts p r hp]
  have := checkClauses_defined r p.problem hlen
  unfold Problem.checkResult
  cases h : Problem.checkClauses r p.problem with
  | none => simp [h] at this
  | some b => cases b <;> simp

/-- The full claim (rejection for every partial model) fails: a violated clause with a variable the
model does not mention makes the check read outside the model vector. -/
theorem C07_full_statement_fails :
    ¬ ∀ (p : Problem) (h : List ResultOp),
      (p.checkResult (SolverResult.after h) = some false ↔
        ¬ PSat (SolverResult.after h).assignment p.problem) := by
  intro h
  have h1 := (h (Problem.empty.readClauses (cnf [[1, 2]])) [.setValue (lit (-1))]).2
  have h2 : ¬ PSat (SolverResult.after [.setValue (lit (-1))]).assignment
      (Problem.empty.readClauses (cnf [[1, 2]])).problem := by
    rw [← C07_accepts _ _ (by decide)]
    decide
  exact absurd (h1 h2) (by decide)

/-- Every result reached through the API has proper values, so the hypothesis `hp` always holds. -/
theorem C07_proper (h : List ResultOp) : ∀ x ∈ (SolverResult.after h).model, LBool.Proper x := by
  intro x hx
  rcases (SolverResult.after_represents h).1.proper x hx with rfl | rfl | rfl <;> decide

/-- Accepting and rejecting on a concrete problem. -/
example :
    let p := Problem.empty.readClauses (cnf [[1, 2], [-1, 3]])
    p.checkResult (SolverResult.after [.setModel [lit 1, lit 3]]) = some true ∧
    p.checkResult (SolverResult.after [.setModel [lit 1, lit (-3)]]) = some false ∧
    (∀ c ∈ p.problem, ∀ l ∈ c, l.var < (SolverResult.after [.setModel [lit 1, lit (-3)]]).model.length) := by
  decide

end Candy
