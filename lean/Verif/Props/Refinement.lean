import Verif.Proofs.Refinement
import Verif.Props.Answers

/-!
# Properties of abstraction refinement

The refinement strategy encodes conjectures as clauses with assumption literals. Under the assumption literals of
any approximation, the clauses say exactly that the conjectures that are left hold; with all assumption literals
deactivated, they say nothing.

The abstraction refinement solver gives sound answers, but for a reason its authors did not intend: its own heuristic
removes all conjectures before the first call of the underlying solver, and the loop never runs twice.
-/

namespace Candy

/-- Conjectures as they come from the simulation: no variable is in two classes or twice in a class, no backbone is
conjectured twice or with both signs. Variables from `base` on are new. -/
structure GoodConjectures (eqs : List (List Lit)) (bbs : List Lit) (base : Nat) : Prop where
  classes : (eqs.flatten.map Lit.var).Nodup
  once : bbs.Nodup
  oneSign : ∀ l ∈ bbs, l.neg ∉ bbs
  below : ∀ l ∈ eqs.flatten, l.var < base
  belowBB : ∀ l ∈ bbs, l.var < base

/-- The states of a refinement strategy, after `init` and any number of refinements with any marks; the formula
consists of all clauses issued so far. -/
inductive Refined (eqs : List (List Lit)) (bbs : List Lit) (base : Nat) : Strategy → CNF → Prop
  | init {fuel : Nat} {ms : List Marks} {st : Strategy} {cls : CNF} :
      (Strategy.new eqs bbs base).init fuel ms = some (st, cls) → Refined eqs bbs base st cls
  | refine {fuel : Nat} {ms : List Marks} {st st' : Strategy} {cls new : CNF} : Refined eqs bbs base st cls →
      st.refine fuel ms = some (st', new) → Refined eqs bbs base st' (cls ++ new)

/-- The assignment satisfies the implications and backbones of the approximation (`C42_meaning`: the remaining
literals of every class have the same value). -/
def Approximated (a : Assign) (s : ApproxState) : Prop :=
  (∀ i ∈ s.implications, i.1.holds a → i.2.holds a) ∧ ∀ l ∈ s.bbs.lits, l.holds a

/-- All literals hold. -/
def AllHold (a : Assign) (ls : List Lit) : Prop := ∀ l ∈ ls, l.holds a

variable {eqs : List (List Lit)} {bbs : List Lit} {base : Nat} {st : Strategy} {cls : CNF}

theorem refined_ok (hg : GoodConjectures eqs bbs base) (h : Refined eqs bbs base st cls) : ∃ Ls es, StratOk base st cls Ls es := by
  induction h with
  | init h => exact stratOk_init hg.classes hg.once hg.oneSign hg.below hg.belowBB h
  | refine _ hr ih =>
    obtain ⟨Ls, es, ok⟩ := ih
    exact ok.refine hr

theorem holds_neg_iff (a : Assign) (l : Lit) : l.neg.holds a ↔ ¬l.holds a := by
  unfold Lit.holds Lit.neg
  cases l.sign <;> cases a l.var <;> simp

theorem clause_on {a : Assign} {it : Item} {v : Nat} (hv : a v = true) : SatClause a (it.clause v) ↔ it.holds a := by
  have hd : ¬ (deactivatedAssumptionLit v).holds a := by simp [deactivatedAssumptionLit, Lit.holds, hv]
  cases it with
  | impl i =>
    simp only [SatClause, Item.clause, encodeImplication, List.mem_cons, List.not_mem_nil, or_false, exists_eq_or_imp, exists_eq_left,
      Item.holds, hd, holds_neg_iff]
    exact ⟨fun h hp => h.elim (absurd hp) id, fun h => by by_cases hp : i.1.holds a; exact .inr (h hp); exact .inl hp⟩
  | bb l =>
    simp only [SatClause, Item.clause, encodeBackbone, List.mem_cons, List.not_mem_nil, or_false, exists_eq_or_imp, exists_eq_left,
      Item.holds, hd]

theorem clause_off {a : Assign} {it : Item} {v : Nat} (hv : a v = false) : SatClause a (it.clause v) := by
  have hd : (deactivatedAssumptionLit v).holds a := by simp [deactivatedAssumptionLit, Lit.holds, hv]
  cases it with
  | impl i => exact ⟨_, by simp [Item.clause, encodeImplication], hd⟩
  | bb l => exact ⟨_, by simp [Item.clause, encodeBackbone], hd⟩

theorem approximated_iff {Ls : List (List Lit)} {es : List Entry} (ok : StratOk base st cls Ls es) (a : Assign) :
    Approximated a st.approx ↔ ∀ e ∈ es, e.off = false → e.item.holds a := by
  constructor
  · rintro ⟨h1, h2⟩ e he hoff
    have := (ok.on e he).1 hoff
    cases hit : e.item with
    | impl i => rw [hit] at this; exact h1 i this
    | bb l => rw [hit] at this; exact h2 l this
  · intro h
    have key : ∀ it : Item, it.present st.approx → it.holds a := by
      intro it hp
      obtain ⟨e, he, rfl⟩ := ok.all it hp
      exact h e he ((ok.on e he).2 hp)
    exact ⟨fun i hi => key (.impl i) hi, fun l hl => key (.bb l) hl⟩

/-- **C43.** After any refinements, an assignment that satisfies the current assumption literals satisfies all clauses
issued so far iff it satisfies the current approximation: removed conjectures have no effect. -/
theorem C43_encoding (hg : GoodConjectures eqs bbs base) (h : Refined eqs bbs base st cls) (a : Assign)
    (ha : AllHold a st.assumptions) : Sat a cls ↔ Approximated a st.approx := by
  obtain ⟨Ls, es, ok⟩ := refined_ok hg h
  rw [approximated_iff ok, ok.book.clauses]
  have hl : ∀ e ∈ es, a e.var = !e.off := by
    intro e he
    have := ha e.lit (by rw [ok.book.lits]; exact List.mem_map.2 ⟨e, he, rfl⟩)
    exact this
  constructor
  · intro hs e he hoff
    exact (clause_on (by rw [hl e he, hoff]; rfl)).1 (hs _ (List.mem_map.2 ⟨e, he, rfl⟩))
  · intro hs c hc
    obtain ⟨e, he, rfl⟩ := List.mem_map.1 hc
    cases hoff : e.off with
    | false => exact (clause_on (by rw [hl e he, hoff]; rfl)).2 (hs e he hoff)
    | true => exact clause_off (by rw [hl e he, hoff]; rfl)

theorem find_entry {es : List Entry} (hn : (es.map Entry.var).Nodup) : ∀ e ∈ es, es.find? (fun e' => e'.var == e.var) = some e := by
  induction es with
  | nil => intro e he; cases he
  | cons x es ih =>
    simp only [List.map_cons, List.nodup_cons] at hn
    intro e he
    rcases List.mem_cons.1 he with rfl | he
    · simp
    · have : (x.var == e.var) = false := by
        rw [beq_eq_false_iff_ne]
        exact fun h => hn.1 (h ▸ List.mem_map.2 ⟨e, he, rfl⟩)
      rw [List.find?_cons, this]
      exact ih hn.2 e he

/-- Extension of an assignment to the assumption variables. -/
theorem extend_assign {Ls : List (List Lit)} {es : List Entry} (ok : StratOk base st cls Ls es) (a : Assign) (f : Entry → Bool) :
    ∃ b : Assign, (∀ v < base, b v = a v) ∧ ∀ e ∈ es, b e.var = f e := by
  refine ⟨fun v => match es.find? (fun e => e.var == v) with | some e => f e | none => a v, ?_, ?_⟩
  · intro v hv
    have : es.find? (fun e => e.var == v) = none := by
      rw [List.find?_eq_none]
      intro e he
      have := (ok.low e he).2
      simp only [beq_iff_eq]
      omega
    simp only [this]
  · intro e he
    simp only [find_entry ok.book.vars e he]

theorem holds_congr {a b : Assign} {l : Lit} (h : b l.var = a l.var) : l.holds b ↔ l.holds a := by
  unfold Lit.holds; rw [h]

theorem item_congr {a b : Assign} {it : Item} (h : ∀ v ∈ it.vars, b v = a v) : it.holds b ↔ it.holds a := by
  cases it with
  | impl i =>
    show (i.1.holds b → i.2.holds b) ↔ (i.1.holds a → i.2.holds a)
    rw [holds_congr (h i.1.var (by simp [Item.vars])), holds_congr (h i.2.var (by simp [Item.vars]))]
  | bb l => exact holds_congr (h l.var (by simp [Item.vars]))

theorem sat_congr {a b : Assign} {F : CNF} (hF : ∀ c ∈ F, ∀ l ∈ c, l.var < base) (h : ∀ v < base, b v = a v) : Sat b F ↔ Sat a F := by
  have : ∀ c ∈ F, (SatClause b c ↔ SatClause a c) := by
    intro c hc
    constructor
    · rintro ⟨l, hl, hh⟩; exact ⟨l, hl, (holds_congr (h _ (hF c hc l hl))).1 hh⟩
    · rintro ⟨l, hl, hh⟩; exact ⟨l, hl, (holds_congr (h _ (hF c hc l hl))).2 hh⟩
  exact ⟨fun hs c hc => (this c hc).1 (hs c hc), fun hs c hc => (this c hc).2 (hs c hc)⟩

/-- **C43.** A formula without the new variables, the clauses issued so far and the assumption literals are
satisfiable together iff the formula has a model that satisfies the current approximation. -/
theorem C43_approximation (hg : GoodConjectures eqs bbs base) (h : Refined eqs bbs base st cls) (F : CNF)
    (hF : ∀ c ∈ F, ∀ l ∈ c, l.var < base) :
    Satisfiable (F ++ cls ++ unitsOf st.assumptions) ↔ ∃ a, Sat a F ∧ Approximated a st.approx := by
  constructor
  · rintro ⟨a, ha⟩
    rw [sat_append, sat_append, sat_unitsOf] at ha
    exact ⟨a, ha.1.1, (C43_encoding hg h a ha.2).1 ha.1.2⟩
  · rintro ⟨a, h1, h2⟩
    obtain ⟨Ls, es, ok⟩ := refined_ok hg h
    obtain ⟨b, hb1, hb2⟩ := extend_assign ok a (fun e => !e.off)
    have hA : AllHold b st.assumptions := by
      rw [ok.book.lits]
      intro l hl
      obtain ⟨e, he, rfl⟩ := List.mem_map.1 hl
      exact hb2 e he
    refine ⟨b, ?_⟩
    rw [sat_append, sat_append, sat_unitsOf, C43_encoding hg h b hA, sat_congr hF hb1]
    refine ⟨⟨h1, ?_⟩, hA⟩
    rw [approximated_iff ok] at h2 ⊢
    intro e he hoff
    exact (item_congr (fun v hv => hb1 v ((ok.low e he).1 v hv))).2 (h2 e he hoff)

/-- **C43.** With all assumption literals deactivated, the clauses issued so far restrict nothing. -/
theorem C43_deactivated (hg : GoodConjectures eqs bbs base) (h : Refined eqs bbs base st cls) (F : CNF)
    (hF : ∀ c ∈ F, ∀ l ∈ c, l.var < base) :
    Satisfiable (F ++ cls ++ unitsOf st.deactivated) ↔ Satisfiable F := by
  constructor
  · rintro ⟨a, ha⟩
    rw [sat_append, sat_append] at ha
    exact ⟨a, ha.1.1⟩
  · rintro ⟨a, h1⟩
    obtain ⟨Ls, es, ok⟩ := refined_ok hg h
    obtain ⟨b, hb1, hb2⟩ := extend_assign ok a (fun _ => false)
    refine ⟨b, ?_⟩
    rw [sat_append, sat_append, sat_unitsOf, sat_congr hF hb1]
    refine ⟨⟨h1, ?_⟩, ?_⟩
    · rw [ok.book.clauses]
      intro c hc
      obtain ⟨e, he, rfl⟩ := List.mem_map.1 hc
      exact clause_off (hb2 e he)
    · intro l hl
      unfold Strategy.deactivated at hl
      rw [ok.book.lits] at hl
      obtain ⟨m, hm, rfl⟩ := List.mem_map.1 hl
      obtain ⟨e, he, rfl⟩ := List.mem_map.1 hm
      exact hb2 e he

/-- **C43.** If no clause is enabled (the condition that ends the refinement), no conjecture is left, so the
approximation is the formula itself. -/
theorem C43_none_enabled (hg : GoodConjectures eqs bbs base) (h : Refined eqs bbs base st cls) :
    st.countEnabled = 0 ↔ st.approx.implications = [] ∧ st.approx.bbs.lits = [] := by
  obtain ⟨Ls, es, ok⟩ := refined_ok hg h
  have h1 : st.countEnabled = 0 ↔ ∀ e ∈ es, e.off = true := by
    unfold Strategy.countEnabled
    rw [List.countP_eq_zero, ok.book.lits]
    constructor
    · intro hh e he
      have := hh e.lit (List.mem_map.2 ⟨e, he, rfl⟩)
      simpa [isActiveLit, Entry.lit] using this
    · intro hh l hl
      obtain ⟨e, he, rfl⟩ := List.mem_map.1 hl
      simp [isActiveLit, Entry.lit, hh e he]
  rw [h1]
  constructor
  · intro hh
    have key : ∀ it : Item, ¬it.present st.approx := by
      intro it hp
      obtain ⟨e, he, rfl⟩ := ok.all it hp
      have := (ok.on e he).2 hp
      rw [hh e he] at this; cases this
    exact ⟨List.eq_nil_iff_forall_not_mem.2 fun i hi => key (.impl i) hi, List.eq_nil_iff_forall_not_mem.2 fun l hl => key (.bb l) hl⟩
  · rintro ⟨h2, h3⟩ e he
    cases hoff : e.off with
    | true => rfl
    | false =>
      have := (ok.on e he).1 hoff
      cases hit : e.item with
      | impl i => rw [hit] at this; simp only [Item.present, h2] at this; cases this
      | bb l => rw [hit] at this; simp only [Item.present, h3] at this; cases this

/-- **C43.** A refinement always has a result: every assumption literal that is looked up exists. -/
theorem C43_refine_defined (hg : GoodConjectures eqs bbs base) (h : Refined eqs bbs base st cls) (ms : List Marks) :
    ∃ n, ∀ fuel, n ≤ fuel → ∃ r, st.refine fuel ms = some r := by
  obtain ⟨Ls, es, ok⟩ := refined_ok hg h
  exact ok.refine_defined ms

/-! ### The abstraction refinement solver -/

section
variable {fuel : Nat} {maxSteps : Int} {maxVars : Nat} {a : ArStep} {steps : List ArStep} {sys sys' : Sys} {res : Result}

/-- **C43, finding.** The loop never runs a second time: if the first approximation is unsatisfiable, its answer is the
final answer (the conditions in `abort |= (sat != l_True) || ...` and `while (!abort && (sat == l_False))`
exclude each other). -/
theorem C43_finding_loop_runs_once (hm : maxSteps ≠ 0) :
    arLoop fuel maxSteps (a :: steps) 0 sys st = solve a.cfg a.pre a.rounds (sys.assume st.assumptions) := by
  unfold arLoop
  rw [if_neg (by omega)]
  simp only [Option.bind_some]
  rw [if_pos (by omega)]
  cases solve a.cfg a.pre a.rounds (sys.assume st.assumptions) with
  | none => rfl
  | some y =>
    simp only [Option.bind_some]
    have : (!(y.2.status != some true || st.countEnabled == 0) && y.2.status == some false) = false := by
      cases y.2.status with
      | none => simp
      | some b => cases b <;> simp
    rw [this]
    simp

/-- **C43, finding.** Whatever the conjectures and the heuristics, solving by abstraction refinement is one call of the
underlying solver with the given clauses and without assumptions; assumptions that were set before are lost. -/
theorem C43_finding_is_plain_solve (hn : ∀ c ∈ eqs, (c.map Lit.var).Nodup) (hone : ∀ l ∈ bbs, l.neg ∉ bbs) (hm : maxSteps ≠ 0)
    (h : arSolve fuel maxSteps eqs bbs maxVars (a :: steps) sys = some (sys', res)) :
    solve a.cfg a.pre a.rounds ((sys.init 0 []).assume []) = some (sys', res) := by
  unfold arSolve at h
  dsimp only at h
  rw [if_neg hm] at h
  obtain ⟨x, hx, h⟩ := Option.bind_eq_some_iff.1 h
  obtain ⟨st, cls⟩ := x
  obtain ⟨rfl, h2⟩ := init_gc hn hone hx
  rw [C43_finding_loop_runs_once hm, h2] at h
  exact h

/-- **C43.** The converse: whatever the underlying solver returns is returned. -/
theorem C43_returns (hn : ∀ c ∈ eqs, (c.map Lit.var).Nodup) (hone : ∀ l ∈ bbs, l.neg ∉ bbs) (hm : maxSteps ≠ 0)
    (a : ArStep) (steps : List ArStep) (sys : Sys) :
    ∃ n, ∀ fuel, n ≤ fuel → arSolve fuel maxSteps eqs bbs maxVars (a :: steps) sys =
      solve a.cfg a.pre a.rounds ((sys.init 0 []).assume []) := by
  obtain ⟨n, h⟩ := init_defined (base := maxVars) (bbs := bbs) hn (a.marks 1 (Strategy.new eqs bbs maxVars).approx)
  refine ⟨n, fun fuel hf => ?_⟩
  obtain ⟨⟨st, cls⟩, hx⟩ := h fuel hf
  unfold arSolve
  dsimp only
  rw [if_neg hm, hx]
  obtain ⟨rfl, h2⟩ := init_gc hn hone hx
  simp only [Option.bind_some]
  rw [C43_finding_loop_runs_once hm, h2]
  rfl

theorem arSolve_history {u : Usage} {F : CNF} {as : List Lit} (hu : u.flag true) (h : History u F as sys) :
    History u F [] ((sys.init 0 []).assume []) := by
  have h1 := h.add 0 [] true hu (by intro c hc; cases hc)
  rw [List.append_nil] at h1
  exact h1.assume [] (by simp)

/-- **C43.** The answer UNSAT is right, for every (possibly wrong) set of conjectures and all heuristics. -/
theorem C43_unsat_sound {F : CNF} {as : List Lit} (hn : ∀ c ∈ eqs, (c.map Lit.var).Nodup) (hone : ∀ l ∈ bbs, l.neg ∉ bbs)
    (hm : maxSteps ≠ 0) (h : History .any F as sys) (hr : ∀ r ∈ a.rounds, r.Valid)
    (hs : arSolve fuel maxSteps eqs bbs maxVars (a :: steps) sys = some (sys', res)) (hf : res.status = some false) : ¬Satisfiable F :=
  C19_unsat_sound (arSolve_history trivial h) hr (C43_finding_is_plain_solve hn hone hm hs) hf

/-- **C43** (partial, with the restrictions of C20). The answer SAT comes with a model. -/
theorem C43_sat_model_partial {F : CNF} {as : List Lit} (hn : ∀ c ∈ eqs, (c.map Lit.var).Nodup) (hone : ∀ l ∈ bbs, l.neg ∉ bbs)
    (hm : maxSteps ≠ 0) (h : History .plain F as sys) (hc : a.cfg.preprocessing = false)
    (hr : ∀ r ∈ a.rounds, r.Valid ∧ r.inprocess = none)
    (hs : arSolve fuel maxSteps eqs bbs maxVars (a :: steps) sys = some (sys', res)) (hf : res.status = some true) : PSat res.model F :=
  (C20_sat_model_partial (arSolve_history rfl h) hc hr (C43_finding_is_plain_solve hn hone hm hs) hf).1

/-- Without refinement steps the solver is the underlying solver. -/
theorem C43_no_steps : arSolve fuel 0 eqs bbs maxVars (a :: steps) sys = solve a.cfg a.pre a.rounds sys := by
  unfold arSolve; simp

end

/-! ### Examples -/

/-- Conjectures about five variables. -/
theorem exGood : GoodConjectures [[pos 0, neg 1, pos 2]] [neg 3] 5 := ⟨by decide, by decide, by decide, by decide, by decide⟩

/-- An approximation, and the refinement that removes variable 1 and the backbone. -/
theorem exRefined : ∃ st cls, Refined [[pos 0, neg 1, pos 2]] [neg 3] 5 st cls ∧ cls.length = 5 ∧
    st.assumptions = [pos 5, neg 6, neg 7, neg 8, pos 9] := by
  refine ⟨_, _, .refine (fuel := 20) (ms := [⟨[3], [[1]]⟩]) (.init (fuel := 20) (ms := []) rfl) rfl, by decide, by decide⟩

/-- **C43, finding.** Were the conjectures used, the answer could be wrong: there are a satisfiable formula and an
approximation that is unsatisfiable, and the loop would return its answer. -/
theorem C43_finding_approximation_unsat : ∃ (F : CNF) (st : Strategy) (cls : CNF), Refined [] [pos 0] 1 st cls ∧
    Satisfiable F ∧ ¬Satisfiable (F ++ cls ++ unitsOf st.assumptions) ∧ st.countEnabled ≠ 0 := by
  refine ⟨[[neg 0]], _, _, .init (fuel := 9) (ms := []) rfl, ⟨fun _ => false, ?_⟩, ?_, by decide⟩
  · intro c hc
    rw [List.mem_singleton.1 hc]
    exact ⟨neg 0, by simp, rfl⟩
  · rintro ⟨a, ha⟩
    have hg : GoodConjectures [] [pos 0] 1 := ⟨by decide, by decide, by decide, by decide, by decide⟩
    have hR : Refined [] [pos 0] 1 _ _ := .init (fuel := 9) (ms := []) rfl
    rw [sat_append, sat_append, sat_unitsOf] at ha
    have h1 := ((C43_encoding hg hR a ha.2).1 ha.1.2).2 (pos 0) (by decide)
    obtain ⟨l, hl, h2⟩ := ha.1.1 [neg 0] (by simp)
    rw [List.mem_singleton.1 hl] at h2
    simp [Lit.holds] at h1 h2
    rw [h1] at h2; cases h2

end Candy
