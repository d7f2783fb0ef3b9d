import Verif.Model.BranchHistory
import Verif.Proofs.Branching

/-! Search with the actual heuristics is search with some admissible branching literals. -/

namespace Candy

variable {F : CNF} {as : List Lit} {kind : Branch.Kind} {u : Usage}

/-- The state in the result of an iteration. -/
def IterOut.solver : IterOut → Solver
  | .cont s => s
  | .done s _ => s

open Classical in
/-- The choice the heuristic makes in state `b`, completed to trails on which it is not called. -/
noncomputable def Branch.choice (b : Branch) (c : BChoice) : Choice where
  restart := c.restart
  pick T := match b.pick c.ord T with
    | some (_, r) => if PickOk T r then r else firstFree T
    | none => firstFree T

theorem pickOk_firstFree (T : Trail) : PickOk T (firstFree T) := by
  have h := firstFree_valid false T
  simp only at h
  unfold PickOk
  split at h <;> rename_i he <;> rw [he] <;> exact h

theorem valid_iff {ch : Choice} : ch.Valid ↔ ∀ T, PickOk T (ch.pick T) := by
  constructor
  · intro h T
    have h := h T
    unfold PickOk
    split at h <;> rename_i he <;> rw [he] <;> exact h
  · intro h T
    have h := h T
    unfold PickOk at h
    split at h <;> rename_i he <;> rw [he] <;> exact h

theorem Branch.choice_valid (b : Branch) (c : BChoice) : (b.choice c).Valid := by
  rw [valid_iff]
  intro T
  simp only [Branch.choice]
  split
  · split
    · assumption
    · exact pickOk_firstFree T
  · exact pickOk_firstFree T

theorem assumeLoop_grows : ∀ (ps : List Lit) (T : Trail), Grows T (assumeLoop T ps).1 := by
  intro ps
  induction ps with
  | nil => intro T; exact .refl T
  | cons p ps ih =>
    intro T
    unfold assumeLoop
    split
    · exact (newLevel_grows T).trans (ih _)
    · exact .refl T
    · exact .refl T

theorem searchIterB_spec {A : Nat → Prop} {s : Solver} {b : Branch} (h : SInv F A s)
    (hb : BInv s.trail b) (c : BChoice) :
    (∀ out b', searchIterB kind s b c = some (out, b') →
      searchIter s (b.choice c) = some out ∧ BInv out.solver.trail b') ∧
    (kind.extraBump = false → (∀ ps confl r, propagateLoop s.db.bin (s.db.nVars + 1) ⟨s.db.store, s.watch, s.trail⟩ =
        some (ps, some confl) → ps.T.decisionLevel ≠ 0 → handleConflict ps.store s.db.bin ps.T confl = some r →
        ∃ b', b.lookups kind (if kind.vsids = true then Branch.bumpVars [] (involvedLits ps.store r.involved) else []) =
          some b') → ∃ out b', searchIterB kind s b c = some (out, b')) := by
  obtain ⟨out0, he0, -⟩ := searchIter_spec h (b.choice_valid c)
  obtain ⟨ps, r, e1, e2, -, -, -, -, e7, -, -⟩ := propagateLoop_spec (A := A)
    (s.db.nVars + 1) ⟨s.db.store, s.watch, s.trail⟩ h.core h.watch h.limq (by omega)
  have hg : BInv ps.T b := hb.grows (propagateLoop_grows _ _ _ _ _ e1)
  simp only [searchIterB, searchIter, e1] at he0 ⊢
  cases r with
  | some confl =>
    simp only at he0 ⊢
    by_cases h0 : ps.T.decisionLevel = 0
    · simp only [h0, if_true, Option.some.injEq, Prod.mk.injEq] at he0 ⊢
      exact ⟨by rintro out b' ⟨rfl, rfl⟩; exact ⟨rfl, hg⟩, fun _ _ => ⟨_, _, rfl, rfl⟩⟩
    · simp only [h0, if_false] at he0 ⊢
      obtain ⟨r, hr, hl⟩ := handleConflict_spec e2 (by omega) (e7 confl rfl)
      have hst := e2.tinv.bound
      have key : ∀ s', learnStep
          { s with db := { s.db with store := ps.store }, watch := ps.watch, trail := ps.T }
          confl = some s' → Grows (ps.T.backtrack r.btlevel) s'.trail := by
        intro s' hs'
        simp only [learnStep, hr] at hs'
        split at hs'
        · cases hs'
          exact propagate_grows _ _ _
        · cases hs'
      simp only [hr]
      constructor
      · intro out b' he
        split at he
        · cases he
        · next b1 hb1 =>
          obtain ⟨s', hs', he⟩ := Option.map_eq_some_iff.1 he
          cases he
          rw [hs']
          exact ⟨rfl, (processConflict_inv hg hst hb1).grows (key s' hs')⟩
      · intro hk hlk
        obtain ⟨b1, hb1⟩ := processConflict_defined (ord := c.ord)
          (inv := involvedLits ps.store r.involved) hk hg hst hl.bt (hlk ps confl r rfl h0 hr)
        rw [hb1]
        obtain ⟨s', hs', _⟩ := Option.map_eq_some_iff.1 he0
        rw [hs']
        exact ⟨_, _, rfl⟩
  | none =>
    simp only at he0 ⊢
    have hch : (b.choice c).restart = c.restart := rfl
    rw [hch] at he0 ⊢
    by_cases hr : c.restart = true
    · simp only [hr, if_true, Option.some.injEq, Prod.mk.injEq] at he0 ⊢
      exact ⟨by rintro out b' ⟨rfl, rfl⟩; exact ⟨rfl, hg⟩, fun _ _ => ⟨_, _, rfl, rfl⟩⟩
    · simp only [hr, if_false] at he0 ⊢
      have hag := hg.grows (assumeLoop_grows (ps.T.assumptions.drop ps.T.decisionLevel) ps.T)
      cases hal : assumeLoop ps.T (ps.T.assumptions.drop ps.T.decisionLevel) with
      | mk T o =>
        rw [hal] at hag
        cases o with
        | failed p =>
          simp only [Bool.false_eq_true, if_false]
          exact ⟨by rintro out b' he; cases he; exact ⟨rfl, hag⟩, fun _ _ => ⟨_, _, rfl⟩⟩
        | next p =>
          simp only [Bool.false_eq_true, if_false]
          exact ⟨by
            rintro out b' he; cases he
            exact ⟨rfl, (hag.grows (newLevel_grows T)).grows (decide_grows _ p)⟩,
            fun _ _ => ⟨_, _, rfl⟩⟩
        | allSet =>
          simp only [Bool.false_eq_true, if_false]
          obtain ⟨b1, r, hp, hok, hn, hs⟩ := pick_spec (ord := c.ord) hag
          have hpk : (b.choice c).pick T = r := by
            simp only [Branch.choice, hp, if_pos hok]
          simp only [hp, hpk]
          cases r with
          | none =>
            exact ⟨by rintro out b' he; cases he; exact ⟨rfl, hn rfl⟩, fun _ _ => ⟨_, _, rfl⟩⟩
          | some p =>
            exact ⟨by rintro out b' he; cases he; exact ⟨rfl, hs p rfl⟩, fun _ _ => ⟨_, _, rfl⟩⟩

theorem searchB_refines : ∀ (n : Nat) (o : Nat → BChoice) (A : Nat → Prop) (s : Solver) (b : Branch),
    SInv F A s → BInv s.trail b → ∀ s' r b', searchB kind n o s b = some (s', r, b') →
    ∃ o', (∀ i, (o' i).Valid) ∧ search n o' s = some (s', r) ∧ BInv s'.trail b' := by
  intro n
  induction n with
  | zero => intro o A s b _ _ s' r b' he; cases he
  | succ n ih =>
    intro o A s b hs hb s' r b' he
    simp only [searchB] at he
    have hI := (searchIterB_spec (kind := kind) hs hb (o 0)).1
    split at he
    · cases he
    · next s1 r1 b1 h1 =>
      cases he
      obtain ⟨e, hb1⟩ := hI _ _ h1
      exact ⟨fun _ => b.choice (o 0), fun _ => b.choice_valid _, by simp only [search, e], hb1⟩
    · next s1 b1 h1 =>
      obtain ⟨e, hb1⟩ := hI _ _ h1
      obtain ⟨out, e', hok⟩ := searchIter_spec hs (b.choice_valid (o 0))
      rw [e] at e'
      cases e'
      obtain ⟨_, _, _, A', _, hS, _⟩ := hok
      obtain ⟨o', ho', hs', hb'⟩ := ih (fun i => o (i + 1)) A' s1 b1 hS hb1 s' r b' he
      refine ⟨fun | 0 => b.choice (o 0) | i + 1 => o' i, ?_, ?_, hb'⟩
      · rintro (_ | i)
        · exact b.choice_valid _
        · exact ho' i
      · simp only [search, e]
        exact hs'

/-- What holds of the heuristic between searches. -/
structure BranchOk (T : Trail) (b : Branch) : Prop where
  wf : b.heap.WF
  room : T.nVars ≤ b.heap.isize
  rsil : ∀ r, b.rsil = some r → r.InSolver T.nVars

theorem BInv.ok {T : Trail} {b : Branch} (h : BInv T b) : BranchOk T b := ⟨h.wf, h.room, h.rsil⟩

theorem BranchOk.mono {T T' : Trail} {b : Branch} (h : BranchOk T b) (hn : T'.nVars = T.nVars) :
    BranchOk T' b := ⟨h.wf, by rw [hn]; exact h.room, by rw [hn]; exact h.rsil⟩

theorem sinv_start {cfg : Config} {r : Round} {sys sys' : Sys} {s : Solver} (ih : InSolveOk F as sys)
    (hr : ∀ xs, ∀ x ∈ r.sort xs, x ∈ xs)
    (h1 : reduceStep cfg r { sys with sol := { sys.sol with trail := sys.sol.trail.reset } }
      = some sys') (h2 : materialize sys'.sol = some s) (h3 : s.db.hasEmpty = false) :
    SInv F (fun _ => False) s := by
  obtain ⟨a1, a2⟩ := ih.inv.reset.reduceStep hr h1
  obtain ⟨s, m1, m2, m3, _, _⟩ := a1.materialize
  rw [h2] at m1
  simp at m1; subst m1
  have hf := a2.trans m3
  have has := hf.assumptions.trans ih.assumptions
  have hnv := hf.nVars
  refine (m2.sinv h3 ?_)
  intro l hl
  simp only at hl has hnv ⊢
  rw [has] at hl; rw [hnv]; exact ih.bound l hl

/-- A valid choice, whatever. -/
def anyChoice : Nat → Choice := fun _ => ⟨false, firstFree⟩
theorem anyChoice_valid (i : Nat) : (anyChoice i).Valid := firstFree_valid false

theorem reduceB_inv {r : RoundB} {sys : Sys} {b b' : Branch} (hi : BInv sys.sol.trail b) (h : reduceB r sys b = some b') :
    BInv sys.sol.trail b' := by
  unfold reduceB at h
  split at h
  · exact processReduce_inv hi h
  · cases h; exact hi

theorem start_inv {cfg : Config} {r : Round} {rb : RoundB} {sys sys' : Sys} {s : Solver} {b b' b'' : Branch} {lt}
    (hb : BranchOk sys.sol.trail b) (h0 : b.reset lt sys.sol.trail.reset = some b')
    (h1 : reduceStep cfg r { sys with sol := { sys.sol with trail := sys.sol.trail.reset } }
      = some sys') (h4 : reduceB rb sys' b' = some b'') (h2 : materialize sys'.sol = some s) : BInv s.trail b'' :=
  (reduceB_inv (reset_start (T := sys.sol.trail.reset) hb.wf hb.room hb.rsil h0 (reduceStep_shrinks h1)) h4).grows
    (materialize_grows h2)

theorem solveRoundB_refines {cfg : Config} {r : RoundB} {sys sys' : Sys} {b b' : Branch}
    {st : Option Bool} (ih : InSolveOk F as sys) (hb : BranchOk sys.sol.trail b)
    (hr : ∀ xs, ∀ x ∈ r.sort xs, x ∈ xs)
    (he : solveRoundB kind cfg r sys b = some (sys', st, b')) :
    ∃ o, (∀ i, (o i).Valid) ∧ solveRound cfg (r.with o) sys = some (sys', st) ∧
      BranchOk sys'.sol.trail b' := by
  simp only [solveRoundB] at he
  split at he
  · cases he
  next b0 h0 =>
  split at he
  · cases he
  next sys1 h1 =>
  split at he
  · cases he
  next bR h4 =>
  split at he
  · cases he
  next sol h2 =>
  have hB := start_inv hb h0 h1 h4 h2
  by_cases h3 : sol.db.hasEmpty = true
  · simp only [h3, if_true, Option.some.injEq, Prod.mk.injEq] at he
    obtain ⟨rfl, rfl, rfl⟩ := he
    refine ⟨anyChoice, anyChoice_valid, ?_, hB.ok⟩
    have h1' : reduceStep cfg (r.with anyChoice) { sys with sol := { sys.sol with trail := sys.sol.trail.reset } }
        = some sys1 := h1
    simp only [solveRound, h1', h2, h3, if_true]
  · simp only [h3, if_false] at he
    obtain ⟨x, hx, he⟩ := Option.map_eq_some_iff.1 he
    obtain ⟨s', r', b1⟩ := x
    cases he
    have hS := sinv_start ih (r := r.with fun _ => ⟨false, fun _ => none⟩) hr h1 h2 (by simpa using h3)
    obtain ⟨o, ho, hs, hB'⟩ := searchB_refines _ _ _ _ _ hS hB _ _ _ hx
    refine ⟨o, ho, ?_, hB'.ok⟩
    have h1' : reduceStep cfg (r.with o) { sys with sol := { sys.sol with trail := sys.sol.trail.reset } }
        = some sys1 := h1
    simp only [solveRound, h1', h2, h3, if_false]
    simp only [Bool.false_eq_true, if_false]
    show (search r.steps o sol).map _ = _
    rw [hs]
    rfl

theorem solveLoopB_refines {cfg : Config} (hu : u.Valid) : ∀ (rs : List RoundB) (sys sys' : Sys)
    (b b' : Branch) (st : Option Bool), (∀ r ∈ rs, u.roundB r) → InSolveOk F as sys →
    BranchOk sys.sol.trail b → solveLoopB kind cfg rs sys b = some (sys', st, b') →
    ∃ rs', (∀ r ∈ rs', u.round r) ∧ solveLoop cfg rs' sys = some (sys', st) ∧
      BranchOk sys'.sol.trail b' := by
  intro rs
  induction rs with
  | nil =>
    intro sys sys' b b' st _ _ hb he
    simp only [solveLoopB, Option.some.injEq, Prod.mk.injEq] at he
    obtain ⟨rfl, rfl, rfl⟩ := he
    exact ⟨[], by simp, rfl, hb⟩
  | cons r rs ih =>
    intro sys sys' b b' st hr hi hb he
    have hsort := (hu _ (hr r (by simp) anyChoice anyChoice_valid)).sort
    simp only [solveLoopB] at he
    split at he
    · cases he
    · next sys1 b1 h1 =>
      obtain ⟨o, ho, hs, hb1⟩ := solveRoundB_refines hi hb hsort h1
      have hv := hr r (by simp) o ho
      obtain ⟨a1, a2, a3, a4, a5, a6, _⟩ := solveRound_spec hi.inv (hu _ hv)
        (by rw [hi.assumptions]; exact hi.bound) hi.conflict hs
      obtain ⟨a6, a7⟩ := a6 (by simp)
      obtain ⟨rs', hr', hs', hb'⟩ := ih sys1 sys' b1 b' st (fun x hx => hr x (by simp [hx]))
        ⟨⟨a1, a2, a3, a7⟩, a5.trans hi.assumptions, by rw [a4]; exact hi.bound, a6⟩ hb1 he
      refine ⟨r.with o :: rs', ?_, by simp only [solveLoop, hs, hs'], hb'⟩
      intro x hx
      rcases List.mem_cons.1 hx with rfl | hx
      · exact hv
      · exact hr' x hx
    · next sys1 x b1 h1 =>
      cases he
      obtain ⟨o, ho, hs, hb1⟩ := solveRoundB_refines hi hb hsort h1
      refine ⟨[r.with o], ?_, by simp only [solveLoop, hs], hb1⟩
      intro x hx
      simp only [List.mem_singleton] at hx
      subst hx
      exact hr r (by simp) o ho

theorem solveEnd_nVars {sys sys' : Sys} {st : Option Bool} {res : Result}
    (h : solveEnd sys st = some (sys', res)) : sys'.sol.trail.nVars = sys.sol.trail.nVars := by
  unfold solveEnd at h
  split at h
  · cases h; exact Trail.backtrack_nVars
  · cases h; exact Trail.backtrack_nVars
  · split at h
    · cases h
    · next T hT => cases h; exact Trail.backtrack_nVars.trans (extendModel_nVars _ _ _ hT)

theorem solveB_eq (cfg : Config) (pre : List PreRound) (rounds : List RoundB) (sys : Sys) (b : Branch) :
    solveB kind cfg pre rounds sys b = (solveEntry cfg pre sys).bind fun sys =>
      (if sys.sol.db.hasEmpty then some (sys, some false, b) else solveLoopB kind cfg rounds sys b).bind
        fun x => (solveEnd x.1 x.2.1).map fun y => (y.1, y.2, x.2.2) := by
  unfold solveB solveEntry
  dsimp only
  split
  · rename_i h; rw [h]; rfl
  · rename_i h; rw [h]
    simp only [Option.bind_some]
    split
    · rename_i h; rw [h]; rfl
    · rename_i h; rw [h]; rfl

theorem enter_ok {cfg : Config} {pre : List PreRound} {sys sys' : Sys} (ih : HistOk F as sys)
    (he : solveEntry cfg pre sys = some sys') :
    InSolveOk F as sys' ∧ sys'.sol.trail.nVars = sys.sol.trail.nVars := by
  obtain ⟨a1, a2, a3, a4⟩ := solveEntry_spec ih.ok he
  exact ⟨⟨a1, a3.trans ih.assumptions, by rw [a2]; exact ih.bound, a4⟩,
    by rw [a1.nv, a2, ih.ok.nv]⟩

theorem solveB_refines {cfg : Config} {pre : List PreRound} {rounds : List RoundB} {sys sys' : Sys}
    {b b' : Branch} {res : Result} (hu : u.Valid) (hr : ∀ r ∈ rounds, u.roundB r)
    (ih : HistOk F as sys) (hb : BranchOk sys.sol.trail b)
    (he : solveB kind cfg pre rounds sys b = some (sys', res, b')) :
    ∃ rounds', (∀ r ∈ rounds', u.round r) ∧ solve cfg pre rounds' sys = some (sys', res) ∧
      BranchOk sys'.sol.trail b' := by
  rw [solveB_eq] at he
  obtain ⟨sys1, h1, he⟩ := Option.bind_eq_some_iff.1 he
  obtain ⟨⟨sys2, st, b2⟩, h2, he⟩ := Option.bind_eq_some_iff.1 he
  obtain ⟨⟨sys3, res3⟩, h3, he⟩ := Option.map_eq_some_iff.1 he
  cases he
  obtain ⟨hi, hn⟩ := enter_ok ih h1
  have hb1 : BranchOk sys1.sol.trail b := hb.mono hn
  simp only at h3
  split at h2
  · next hE =>
    cases h2
    refine ⟨[], by simp, ?_, hb1.mono (solveEnd_nVars h3)⟩
    rw [solve_eq, h1]
    simp only [Option.bind_some, hE, if_true]
    exact h3
  · next hE =>
    obtain ⟨rs', hr', hs', hb'⟩ := solveLoopB_refines hu rounds sys1 _ b _ _ hr hi hb1 h2
    refine ⟨rs', hr', ?_, hb'.mono (solveEnd_nVars h3)⟩
    rw [solve_eq, h1]
    simp only [Option.bind_some, hE, hs']
    exact h3

theorem grow_wf {h : VHeap} (hw : h.WF) (n : Nat) : (h.grow n).WF ∧ n ≤ (h.grow n).isize := by
  unfold VHeap.grow
  split
  · next hl =>
    exact ⟨⟨hw.idx_heap, fun v i hv => by
      obtain ⟨a, b, c⟩ := hw.heap_idx v i hv; exact ⟨a, b, Nat.lt_trans c hl⟩⟩, Nat.le_refl _⟩
  · exact ⟨hw, by omega⟩

theorem init_branchOk {lt pol conj nv} {T T' : Trail} {b b' : Branch} (hb : BranchOk T b) (hn : T.nVars ≤ T'.nVars)
    (hv : nv ≤ T'.nVars) (h : b.init lt pol conj nv T' = some b') : BranchOk T' b' := by
  obtain ⟨g1, g2⟩ := grow_wf hb.wf T'.nVars
  unfold Branch.init at h
  obtain ⟨b1, h1, h⟩ := Option.bind_eq_some_iff.1 h
  obtain ⟨r1, r2, -⟩ := reset_inv (b := ⟨b.heap.grow T'.nVars, pol, b.rsil, b.cent⟩) g1 g2 h1
  have hq : b1.rsil = b.rsil := reset_rsil (b := ⟨b.heap.grow T'.nVars, pol, b.rsil, b.cent⟩) h1
  split at h
  · next he =>
    cases h
    exact ⟨r1, r2, by rw [he]; simp⟩
  · next r he =>
    obtain ⟨r', hr', rfl⟩ := Option.map_eq_some_iff.1 h
    refine ⟨r1, r2, ?_⟩
    rintro _ ⟨⟩
    exact (hb.rsil r (by rw [← hq]; exact he)).init hn hv hr'

theorem HistoryB.ok (hu : u.Valid) {sys : Sys} {b : Branch} (h : HistoryB kind u F as sys b) :
    History u F as sys ∧ BranchOk sys.sol.trail b := by
  induction h with
  | new recalc =>
    refine ⟨.new recalc, VHeap.empty_wf, Nat.le_refl _, fun r hr => ?_⟩
    obtain ⟨opt, -, rfl⟩ := Option.map_eq_some_iff.1 hr
    exact .inl ⟨opt, rfl⟩
  | add h nv G flag hf hG lt pol conj hb ih =>
    have hn := (init_sound (ih.1.ok hu).ok (lem := flag) hG)
    have h0 := (ih.1.ok hu).ok.nv
    have h1 := hn.1.nv
    have h2 := hn.2.1
    refine ⟨ih.1.add nv G flag hf hG, init_branchOk ih.2 ?_ ?_ hb⟩
    · rw [h1, h2, h0]; exact Nat.le_max_left _ _
    · rw [h1, h2]; exact Nat.le_max_right _ _
  | assume h as' hb ih => exact ⟨ih.1.assume as' hb, ih.2.wf, ih.2.room, ih.2.rsil⟩
  | solve h cfg pre rounds hc hr he ih =>
    obtain ⟨rs', hr', hs', hb'⟩ := solveB_refines hu hr (ih.1.ok hu) ih.2 he
    exact ⟨ih.1.solve cfg pre rs' hc hr' hs', hb'⟩

theorem InSolveB.ok (hu : u.Valid) {sys : Sys} {b : Branch} (h : InSolveB kind u F as sys b) :
    InSolve u F as sys ∧ BranchOk sys.sol.trail b := by
  induction h with
  | enter h cfg pre hc he =>
    obtain ⟨h1, h2⟩ := h.ok hu
    exact ⟨.enter h1 cfg pre hc he, h2.mono (enter_ok (h1.ok hu) he).2⟩
  | round h cfg r hr he ih =>
    have hsort := (hu _ (hr anyChoice anyChoice_valid)).sort
    obtain ⟨o, ho, hs, hb⟩ := solveRoundB_refines (ih.1.ok hu) ih.2 hsort he
    exact ⟨.round ih.1 cfg (r.with o) (hr o ho) hs, hb⟩

theorem SearchingB.ok (hu : u.Valid) {s : Solver} {b : Branch} (h : SearchingB kind u F as s b) :
    Searching u F as s ∧ BInv s.trail b := by
  induction h with
  | start h cfg r hr h0 h1 h4 h2 h3 =>
    obtain ⟨i1, i2⟩ := h.ok hu
    exact ⟨.start i1 cfg (r.with anyChoice) (hr _ anyChoice_valid) h1 h2 h3, start_inv i2 h0 h1 h4 h2⟩
  | iter h c he ih =>
    obtain ⟨e1, e2⟩ := (searchIterB_spec (ih.1.ok hu).inv ih.2 c).1 _ _ he
    exact ⟨.iter ih.1 _ (Branch.choice_valid _ c) e1, e2⟩

end Candy
