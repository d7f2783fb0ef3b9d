import Verif.Proofs.ArrayProcess
import Verif.Proofs.ArrayRound

/-! One iteration of the loop of `solve` with inprocessing on arrays. -/

namespace Candy

variable {F : CNF} {u : Usage} {as : List Lit}

/-! Whether LBDs are recomputed is an option; simplification does not change it. -/

theorem Proc.after_recalc (p : Proc) (ok clean : Bool) : (p.after ok clean).sys.sol.recalc = p.sys.sol.recalc := by
  unfold Proc.after
  cases ok <;> cases clean <;> rfl

theorem materialize_recalc {s s' : Solver} (h : materialize s = some s') : s'.recalc = s.recalc := by
  unfold materialize at h
  dsimp only at h
  split at h
  · simp only [Option.some.injEq] at h; subst h; rfl
  · split at h
    · simp at h
    · simp only [Option.some.injEq] at h; subst h; rfl
    · simp only [Option.some.injEq] at h; subst h; rfl

theorem Proc.materialize_recalc {p p' : Proc} (h : p.materialize = some p') :
    p'.sys.sol.recalc = p.sys.sol.recalc := by
  obtain ⟨s, h1, rfl⟩ := Option.map_eq_some_iff.1 h
  exact Candy.materialize_recalc h1

theorem Proc.round_recalc {cfg : Config} {p p' : Proc} {r : PreRound} {b : Bool}
    (h : p.round cfg r = some (p', b)) : p'.sys.sol.recalc = p.sys.sol.recalc := by
  unfold Proc.round at h
  split at h
  · simp at h
  · next p1 h1 =>
    refine Eq.trans ?_ (Proc.materialize_recalc h1)
    split at h
    · simp only [Option.some.injEq, Prod.mk.injEq] at h; rw [← h.1]
    · split at h
      · simp at h
      · next p3 h3 =>
        obtain ⟨p2, h2, h3⟩ := Option.bind_eq_some_iff.1 h3
        obtain ⟨x2, -, rfl⟩ := Option.map_eq_some_iff.1 h2
        have e3 := Proc.materialize_recalc h3
        rw [Proc.after_recalc] at e3
        refine Eq.trans ?_ e3
        split at h
        · simp only [Option.some.injEq, Prod.mk.injEq] at h; rw [← h.1]
        · split at h
          · simp at h
          · next p5 h5 =>
            obtain ⟨p4, h4, h5⟩ := Option.bind_eq_some_iff.1 h5
            obtain ⟨x4, -, rfl⟩ := Option.map_eq_some_iff.1 h4
            have e5 := Proc.materialize_recalc h5
            rw [Proc.after_recalc] at e5
            refine Eq.trans ?_ e5
            split at h
            · simp only [Option.some.injEq, Prod.mk.injEq] at h; rw [← h.1]
            · obtain ⟨p6, h6, h7⟩ := Option.map_eq_some_iff.1 h
              obtain ⟨x6, -, rfl⟩ := Option.map_eq_some_iff.1 h6
              simp only [Prod.mk.injEq] at h7
              rw [← h7.1, Proc.after_recalc]

theorem Proc.rounds_recalc {cfg : Config} : ∀ (rs : List PreRound) {p p' : Proc},
    Proc.rounds cfg rs p = some p' → p'.sys.sol.recalc = p.sys.sol.recalc
  | [], p, p', h => by
    simp only [Proc.rounds, Option.some.injEq] at h; rw [h]
  | r :: rs, p, p', h => by
    rw [Proc.rounds] at h
    split at h
    · simp at h
    · next p1 h1 =>
      simp only [Option.some.injEq] at h
      rw [← h]; exact Proc.round_recalc h1
    · next p1 h1 => exact (Proc.rounds_recalc rs h).trans (Proc.round_recalc h1)

theorem reduceStep_recalc {cfg : Config} {r : Round} {sys sys' : Sys} (h : reduceStep cfg r sys = some sys') :
    sys'.sol.recalc = sys.sol.recalc := by
  unfold reduceStep at h
  split at h
  · obtain ⟨sys1, h1, rfl⟩ := Option.map_eq_some_iff.1 h
    cases hr : r.inprocess with
    | none =>
      rw [hr] at h1
      simp only [Option.some.injEq] at h1
      subst h1; rfl
    | some rs =>
      rw [hr] at h1
      obtain ⟨p, h2, rfl⟩ := Option.map_eq_some_iff.1 h1
      exact Proc.rounds_recalc rs h2
  · simp only [Option.some.injEq] at h
    subst h; rfl

theorem aInprocessRound_sim (hu : u.Valid) (ha : as = []) {sys sysr : Sys} (h : InSolve u F as sys) {x : ASys}
    (hx : RepX x sys) (cfg : Config) {r : Round} (hr : u.round r) {rs : List PreRound} (hri : r.inprocess = some rs)
    (htr : r.trigger = true) (hord : ∀ r ∈ rs, ∀ f xs, ∀ x ∈ r.order f xs, x ∈ xs)
    (h1 : reduceStep cfg r { sys with sol := { sys.sol with trail := sys.sol.trail.reset } } = some sysr)
    {o : Nat → AChoice} (ho : ∀ i, (o i).Valid) :
    RoundSim cfg r (fun i => (o i).restart) sys
      (aInprocessRound cfg rs r.steps o sys.sol.recalc sys.sol.db.nVars x) := by
  have hrc := reduceStep_recalc h1
  have hrc : sysr.sol.recalc = sys.sol.recalc := hrc
  rw [← hrc]
  have hok := h.ok hu
  have hb : ∀ l ∈ sys.sol.trail.assumptions, l.var < sys.sol.db.nVars := by rw [hok.assumptions]; exact hok.bound
  obtain ⟨x1, e1, r1, i1, i2⟩ := hx.inprocess hord hri htr hok.inv hb h1
  obtain ⟨a1, a2⟩ := hok.inv.reset.reduceStep (hu r hr).sort h1
  obtain ⟨s, b1, b2, b3, -, -⟩ := a1.materialize
  obtain ⟨m2, e2, r2⟩ := aMaterialize_sim' a1.db i1 i2 a1.nv a1.l0 r1.m b1
  have hfil := aFilter_sim r1.m.store (fun cl => !cl.isDeleted && cl.lits.length == 1) sysr.sol.db.clauses
    a1.db.mem
  unfold aInprocessRound
  rw [e1]
  dsimp only
  rw [r1.clauses, hfil, r1.e]
  change RoundSim cfg r _ sys (match aMaterialize sysr.sol.db.unitClauses sysr.sol.db.hasEmpty x1.m with
      | none => .ub
      | some (m, true) => .done m (some false) []
      | some (m, false) => aSearch sysr.sol.recalc r.steps o m)
  rw [e2]
  have hround : ∀ o' : Nat → Choice, solveRound cfg { r with choice := o' } sys =
      if s.db.hasEmpty then some ({ sysr with sol := s }, some false)
      else (search r.steps o' s).map fun x => ({ sysr with sol := x.1 }, x.2) := by
    intro o'
    have h1' : reduceStep cfg { r with choice := o' }
        { sys with sol := { sys.sol with trail := sys.sol.trail.reset } } = some sysr := h1
    unfold solveRound
    dsimp only
    rw [h1']
    dsimp only
    rw [b1]
  have hcf : s.conflict = [] := by
    have := b3.conflict.trans a2.conflict
    exact this.trans hok.conflict
  cases hE : s.db.hasEmpty with
  | true =>
    refine ⟨fun i => ⟨(o i).restart, firstFree⟩, { sysr with sol := s }, fun _ => firstFree_valid _,
      fun _ => rfl, ?_, r2, hcf⟩
    rw [hround, if_pos hE]
  | false =>
    have hE0 : sysr.sol.db.hasEmpty = false := by
      cases hh : sysr.sol.db.hasEmpty with
      | false => rfl
      | true => have := b3.hasEmpty hh; simp only at this; rw [hE] at this; simp at this
    have hrec2 : s.recalc = sysr.sol.recalc := by
      obtain ⟨s', g1, g2⟩ := materialize_spec a1.db (a1.l0 hE0)
      rw [b1] at g1
      simp only [Option.some.injEq] at g1
      subst g1
      exact g2.recalc
    have hsr : Searching u F as s := .start h cfg r hr h1 b1 hE
    have hsim := aSearch_sim hu (Or.inr ha) (by rw [ha]; simp) r.steps hsr r2 ho
    rw [hrec2] at hsim
    dsimp only
    generalize aSearch sysr.sol.recalc r.steps o m2 = x at hsim
    cases x with
    | ub => exact hsim
    | more =>
      obtain ⟨o', k1, k2, k3⟩ := hsim
      refine ⟨o', k1, k2, ?_⟩
      rw [hround, if_neg (by simp [hE]), k3]; rfl
    | done m3 res c =>
      obtain ⟨o', s', k1, k2, k3, k4, k5⟩ := hsim
      refine ⟨o', { sysr with sol := s' }, k1, k2, ?_, k4, ?_⟩
      · rw [hround, if_neg (by simp [hE]), k3]; rfl
      · rw [k5, hcf]; rfl

end Candy
