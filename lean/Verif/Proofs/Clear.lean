import Verif.Model.Clear
import Verif.Proofs.FirstSolve

/-!
# What `clear` leaves behind
-/

namespace Candy

variable {sys sys' : Sys}

/-- No variable is eliminated. -/
structure NoVE (ve : VE) : Prop where
  vars : ve.vars = []
  cls : ∀ v, ve.cls v = []

/-- The parts of the state that `solve` overwrites first: the result and the frozen variables. -/
def Sys.dirty (sys : Sys) (c : List Lit) (f : Nat → Bool) : Sys :=
  { sol := { sys.sol with conflict := c }, ve := { sys.ve with frozen := f } }

theorem NoVE.isEliminated {ve : VE} (h : NoVE ve) (v : Nat) : ve.isEliminated v = false := by
  simp [VE.isEliminated, h.cls v]

theorem restoreAll_noVE (h : NoVE sys.ve) (G : CNF) : restoreAll G sys = sys := by
  cases G with
  | nil => rfl
  | cons c cs => simp [restoreAll, h.vars]

theorem Sys.init_ve (h : NoVE sys.ve) (nv : Nat) (G : CNF) (b : Bool) :
    (sys.init nv G b).ve = sys.ve := by
  unfold Sys.init
  dsimp only
  rw [restoreAll_noVE]
  exact h

theorem Sys.init_dirty (h : NoVE sys.ve) (c : List Lit) (f : Nat → Bool) (nv : Nat) (G : CNF)
    (b : Bool) : (sys.dirty c f).init nv G b = (sys.init nv G b).dirty c f := by
  unfold Sys.init
  dsimp only
  rw [restoreAll_noVE (by exact ⟨h.vars, h.cls⟩), restoreAll_noVE (by exact h)]
  rfl

theorem Sys.load_dirty (c : List Lit) (f : Nat → Bool) : ∀ (gs : List (Nat × CNF × Bool)) (sys : Sys),
    NoVE sys.ve → (sys.dirty c f).load gs = (sys.load gs).dirty c f
  | [], _, _ => rfl
  | g :: gs, sys, h => by
    show ((sys.dirty c f).init g.1 g.2.1 g.2.2).load gs = _
    rw [Sys.init_dirty h]
    exact Sys.load_dirty c f gs _ (by rw [Sys.init_ve h]; exact h)

theorem solveStart_dirty (c : List Lit) (f : Nat → Bool) :
    solveStart (sys.dirty c f) = solveStart sys := rfl

theorem solve_dirty (cfg : Config) (pre : List PreRound) (rounds : List Round) (c : List Lit)
    (f : Nat → Bool) : solve cfg pre rounds (sys.dirty c f) = solve cfg pre rounds sys := by
  unfold solve
  rw [solveStart_dirty]

theorem Sys.clear_eq (h : NoVE sys.ve) :
    sys.clear = (Sys.new sys.sol.recalc).dirty sys.sol.conflict sys.ve.frozen := by
  obtain ⟨sol, ⟨vars, cls, frozen⟩⟩ := sys
  obtain ⟨h1, h2⟩ := h
  simp only at h1 h2
  subst h1
  have : cls = fun _ => [] := funext h2
  subst this
  rfl

/-! ### Without elimination nothing is ever eliminated -/

theorem VE.resetLoop_noVE : ∀ (ls : List Lit) (ve : VE) (T : Trail) (acc : List Clause), NoVE ve →
    NoVE (VE.resetLoop ls ve T acc).2.1
  | [], _, _, _, h => h
  | l :: ls, ve, T, acc, h => by
    rw [VE.resetLoop]
    have h' : NoVE { ve with frozen := upd ve.frozen l.var true } := ⟨h.vars, h.cls⟩
    dsimp only
    rw [if_neg (by rw [h'.isEliminated]; simp)]
    exact VE.resetLoop_noVE ls _ T acc h'

theorem solveStart_noVE (h : NoVE sys.ve) : NoVE (solveStart sys).ve :=
  VE.resetLoop_noVE _ _ _ _ ⟨h.vars, h.cls⟩

theorem Proc.eliminate_noVE {p p' : Proc} {cfg : Config} {r : PreRound} (hu : cfg.useElim = false)
    (he : p.eliminate cfg r = some p') (h : NoVE p.sys.ve) : NoVE p'.sys.ve := by
  unfold Proc.eliminate eliminateAll at he
  rw [hu] at he
  simp only [Bool.false_eq_true, if_false, Option.map_some, Option.some.injEq] at he
  subst he
  rw [Proc.after_ve]
  exact ⟨h.vars, h.cls⟩

theorem Proc.rounds_noVE {cfg : Config} (hu : cfg.useElim = false) : ∀ (rs : List PreRound)
    (p p' : Proc), Proc.rounds cfg rs p = some p' → NoVE p.sys.ve → NoVE p'.sys.ve
  | [], p, p', he, h => by simp [Proc.rounds] at he; subst he; exact h
  | r :: rs, p, p', he, h => by
    have hround : ∀ q b, p.round cfg r = some (q, b) → NoVE q.sys.ve := by
      intro q b hq
      unfold Proc.round at hq
      split at hq
      · simp at hq
      · rename_i p1 hp1
        have e1 := Proc.materialize_ve hp1
        split at hq
        · simp at hq; obtain ⟨rfl, _⟩ := hq; rw [e1]; exact h
        · split at hq
          · simp at hq
          · rename_i p3 hp3
            obtain ⟨p2, hp2, hp3⟩ := Option.bind_eq_some_iff.1 hp3
            have e3 := (Proc.materialize_ve hp3).trans (Proc.subsume_ve hp2)
            split at hq
            · simp at hq; obtain ⟨rfl, _⟩ := hq; rw [e3, e1]; exact h
            · split at hq
              · simp at hq
              · rename_i p5 hp5
                obtain ⟨p4, hp4, hp5⟩ := Option.bind_eq_some_iff.1 hp5
                have e5 := (Proc.materialize_ve hp5).trans (Proc.reduce_ve hp4)
                split at hq
                · simp at hq; obtain ⟨rfl, _⟩ := hq; rw [e5, e3, e1]; exact h
                · obtain ⟨p6, hp6, hb⟩ := Option.map_eq_some_iff.1 hq
                  simp at hb; obtain ⟨rfl, _⟩ := hb
                  exact Proc.eliminate_noVE hu hp6 (by rw [e5, e3, e1]; exact h)
    rw [Proc.rounds] at he
    split at he
    · simp at he
    · rename_i q hq
      simp at he; subst he
      exact hround _ _ hq
    · rename_i q hq
      exact Proc.rounds_noVE hu rs q p' he (hround _ _ hq)

theorem process_noVE {cfg : Config} (hu : cfg.useElim = false) {rs : List PreRound}
    (he : process cfg rs sys = some sys') (h : NoVE sys.ve) : NoVE sys'.ve := by
  unfold process at he
  obtain ⟨p, hp, rfl⟩ := Option.map_eq_some_iff.1 he
  exact Proc.rounds_noVE hu rs _ p hp h

/-- Rounds of the main loop in which nothing can be eliminated. -/
def RoundsKeep (cfg : Config) (rounds : List Round) : Prop :=
  cfg.useElim = false ∨ (cfg.preprocessing = false ∧ ∀ r ∈ rounds, r.inprocess = none)

theorem reduceStep_noVE {cfg : Config} {r : Round}
    (hk : cfg.useElim = false ∨ r.inprocess = none) (he : reduceStep cfg r sys = some sys')
    (h : NoVE sys.ve) : NoVE sys'.ve := by
  unfold reduceStep at he
  split at he
  · dsimp only at he
    obtain ⟨s1, h1, rfl⟩ := Option.map_eq_some_iff.1 he
    split at h1
    · rename_i rs hrs
      rcases hk with hk | hk
      · have h3 : NoVE s1.ve := process_noVE hk h1 h
        exact h3
      · rw [hrs] at hk; cases hk
    · simp only [Option.some.injEq] at h1; subst h1; exact h
  · simp only [Option.some.injEq] at he; subst he; exact h

theorem solveRound_noVE {cfg : Config} {r : Round} {b : Option Bool}
    (hk : cfg.useElim = false ∨ r.inprocess = none) (he : solveRound cfg r sys = some (sys', b))
    (h : NoVE sys.ve) : NoVE sys'.ve := by
  unfold solveRound at he
  dsimp only at he
  split at he
  · cases he
  · rename_i s1 h1
    have h2 := reduceStep_noVE hk h1 h
    split at he
    · cases he
    · split at he
      · simp only [Option.some.injEq, Prod.mk.injEq] at he
        obtain ⟨rfl, _⟩ := he; exact h2
      · obtain ⟨x, _, hx⟩ := Option.map_eq_some_iff.1 he
        simp only [Prod.mk.injEq] at hx
        obtain ⟨rfl, _⟩ := hx; exact h2

theorem solveLoop_noVE {cfg : Config} : ∀ (rounds : List Round) (sys sys' : Sys) (b : Option Bool),
    (∀ r ∈ rounds, cfg.useElim = false ∨ r.inprocess = none) →
    solveLoop cfg rounds sys = some (sys', b) → NoVE sys.ve → NoVE sys'.ve
  | [], sys, sys', b, _, he, h => by simp [solveLoop] at he; obtain ⟨rfl, _⟩ := he; exact h
  | r :: rs, sys, sys', b, hk, he, h => by
    rw [solveLoop] at he
    split at he
    · cases he
    · rename_i s1 h1
      exact solveLoop_noVE rs _ _ _ (fun r hr => hk r (List.mem_cons_of_mem _ hr)) he
        (solveRound_noVE (hk r (by simp)) h1 h)
    · rename_i s1 b1 h1
      simp only [Option.some.injEq, Prod.mk.injEq] at he
      obtain ⟨rfl, _⟩ := he
      exact solveRound_noVE (hk r (by simp)) h1 h

theorem solve_noVE {cfg : Config} {pre : List PreRound} {rounds : List Round} {res : Result}
    (hk : RoundsKeep cfg rounds) (he : solve cfg pre rounds sys = some (sys', res))
    (h : NoVE sys.ve) : NoVE sys'.ve := by
  unfold solve at he
  dsimp only at he
  have h0 := solveStart_noVE h
  split at he
  · cases he
  · rename_i s1 h1
    have h2 : NoVE s1.ve := by
      split at h1
      · rename_i hp
        obtain ⟨s2, h2, rfl⟩ := Option.map_eq_some_iff.1 h1
        rcases hk with hk | hk
        · have h3 : NoVE s2.ve := process_noVE hk h2 h0
          exact h3
        · rw [hk.1] at hp; cases hp
      · simp only [Option.some.injEq] at h1; subst h1; exact h0
    split at he
    · cases he
    · rename_i s2 st h3
      have h4 : NoVE s2.ve := by
        split at h3
        · simp only [Option.some.injEq, Prod.mk.injEq] at h3
          obtain ⟨rfl, _⟩ := h3; exact h2
        · refine solveLoop_noVE rounds _ _ _ (fun r hr => ?_) h3 h2
          rcases hk with hk | hk
          · exact Or.inl hk
          · exact Or.inr (hk.2 r hr)
      unfold solveEnd at he
      split at he
      · simp only [Option.some.injEq, Prod.mk.injEq] at he
        obtain ⟨rfl, _⟩ := he; exact h4
      · simp only [Option.some.injEq, Prod.mk.injEq] at he
        obtain ⟨rfl, _⟩ := he; exact h4
      · split at he
        · cases he
        · simp only [Option.some.injEq, Prod.mk.injEq] at he
          obtain ⟨rfl, _⟩ := he; exact h4

/-- No call of the history eliminates variables. -/
def Usage.Keeps (u : Usage) : Prop :=
  ∀ cfg pre rounds, u.solve cfg pre → (∀ r ∈ rounds, u.round r) → RoundsKeep cfg rounds

theorem History.noVE {u : Usage} {F : CNF} {as : List Lit} (hu : u.Keeps) (h : History u F as sys) :
    NoVE sys.ve := by
  induction h with
  | new recalc => exact ⟨rfl, fun _ => rfl⟩
  | add _ nv G flag _ _ ih => rw [Sys.init_ve ih]; exact ih
  | assume _ _ _ ih => exact ih
  | solve _ cfg pre rounds hc hr he ih => exact solve_noVE (hu cfg pre rounds hc hr) he ih

end Candy
