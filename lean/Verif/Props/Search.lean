import Verif.Proofs.Complete
import Verif.Proofs.Examples

/-!
# Propagation and conflict analysis (C11 – C15) in every reachable search state

`Searching u F as s`: `s` is a solver state at the head of the search loop, in some call of `solve`
of some history of API calls in which the clauses `F` were added, after any number of conflicts,
backjumps, restarts and reductions of the clause database.
-/

namespace Candy

variable {F : CNF} {as : List Lit} {s : Solver} {u : Usage}

/-- The literals in a part of the trail that were chosen: decisions and assumptions have no reason
clause and are above level 0. -/
def decisionsIn (T : Trail) (ls : List Lit) : List Lit :=
  ls.filter fun q => (T.reason q.var).isNone && decide (0 < T.level q.var)

/-- Unit propagation as called by `search`. -/
def runPropagate (s : Solver) : Option (PS × Option Nat) :=
  propagateLoop s.db.bin (s.db.nVars + 1) ⟨s.db.store, s.watch, s.trail⟩

theorem core_implied {nV next : Nat} {bin : Lit → List Watcher} {store : Nat → Cls} {T : Trail}
    (h : Core F nV next bin store T) : ∀ (n : Nat) (pre : List Lit) (p : Lit) (post : List Lit),
    pre.length = n → T.stack = pre ++ p :: post → ∀ x, Sat x F →
    (∀ d ∈ decisionsIn T (pre ++ [p]), d.holds x) → p.holds x := by
  intro n
  induction n using Nat.strongRecOn with
  | ind n ih =>
    intro pre p post hn hs x hx hd
    cases hr : T.reason p.var with
    | none =>
      rcases h.rnone pre p post hs hr with ⟨_, he⟩ | ⟨h0, _⟩
      · obtain ⟨l, hl, hh⟩ := he x hx
        simp at hl; subst hl; exact hh
      · refine hd p ?_
        simp [decisionsIn, hr, h0]
    | some c =>
      obtain ⟨h1, h2, h3⟩ := h.rsome pre p post c hs hr
      obtain ⟨q, hq, hqh⟩ := h.ent c h1 x hx
      by_cases hqp : q = p
      · exact hqp ▸ hqh
      · have hm := h3 q hq hqp
        obtain ⟨a, b, hab⟩ := List.append_of_mem hm
        have := ih a.length (by rw [← hn, hab]; simp) a q.neg (b ++ p :: post) rfl
          (by rw [hs, hab]; simp) x hx (by
            intro d hd'
            refine hd d ?_
            unfold decisionsIn at hd' ⊢
            obtain ⟨k1, k2⟩ := List.mem_filter.1 hd'
            refine List.mem_filter.2 ⟨?_, k2⟩
            rw [hab]
            simp only [List.mem_append, List.mem_cons, List.mem_nil_iff, or_false] at k1 ⊢
            rcases k1 with k1 | k1
            · exact Or.inl (Or.inl k1)
            · exact Or.inl (Or.inr (Or.inl k1)))
        exact absurd hqh (Lit.holds_neg.1 this)

theorem runPropagate_spec (hu : u.Valid) (h : Searching u F as s) {ps : PS} {confl : Option Nat}
    (hp : runPropagate s = some (ps, confl)) :
    DBOk F { s.db with store := ps.store } ∧
    Core F s.db.nVars s.db.next s.db.bin ps.store ps.T ∧ TExt s.trail ps.T ∧
    ∀ c, confl = some c → Conflict s.db.next ps.store ps.T c := by
  have hi := (h.ok hu).inv
  obtain ⟨ps', r, e1, e2, e3, e4, e5, e6, e7, e8, e9⟩ :=
    propagateLoop_spec (A := fun _ => False) (s.db.nVars + 1) ⟨s.db.store, s.watch, s.trail⟩
      hi.core hi.watch hi.limq (by omega)
  unfold runPropagate at hp
  rw [e1] at hp
  simp only [Option.some.injEq, Prod.mk.injEq] at hp
  obtain ⟨rfl, rfl⟩ := hp
  exact ⟨hi.db.perm e5, e2, e4, e7⟩

/-- C11. Unit propagation always terminates normally. Every literal on the trail that was not
chosen, in particular every literal propagation adds, is implied by the clauses given together with
the chosen literals before it. A reported conflict clause is one of the clauses given or recorded in
the proof, up to the order of its literals, is implied, and all its literals are false. -/
theorem C11_propagation_sound (hu : u.Valid) (h : Searching u F as s) :
    ∃ ps confl, runPropagate s = some (ps, confl) ∧
      (∀ p ∈ s.trail.stack, p ∈ ps.T.stack) ∧
      (∀ p ∈ ps.T.stack, p ∉ s.trail.stack → p ∉ decisionsIn ps.T ps.T.stack) ∧
      (∀ pre p post, ps.T.stack = pre ++ p :: post → p ∉ decisionsIn ps.T ps.T.stack →
        ∀ a, Sat a F → (∀ d ∈ decisionsIn ps.T pre, d.holds a) → p.holds a) ∧
      (∀ c, confl = some c →
        (∃ d, (d ∈ F ∨ ProofLine.add d ∈ s.db.log) ∧ (ps.store c).lits.Perm d) ∧
        Entails F (ps.store c).lits ∧ ∀ l ∈ (ps.store c).lits, ps.T.value l = some false) := by
  have hi := (h.ok hu).inv
  obtain ⟨ps, r, e1, _⟩ :=
    propagateLoop_spec (A := fun _ => False) (s.db.nVars + 1) ⟨s.db.store, s.watch, s.trail⟩
      hi.core hi.watch hi.limq (by omega)
  obtain ⟨p1, p2, p3, p4⟩ := runPropagate_spec hu h e1
  refine ⟨ps, r, e1, fun p hp => p3.mem hp, ?_, ?_, ?_⟩
  · intro p hp hn hd
    unfold decisionsIn at hd
    have := (List.mem_filter.1 hd).2
    simp at this
    exact p3.new p hp hn this.1
  · intro pre p post hs hn a ha hd
    refine core_implied p2 pre.length pre p post rfl hs a ha ?_
    intro d hdm
    unfold decisionsIn at hdm
    obtain ⟨k1, k2⟩ := List.mem_filter.1 hdm
    rcases List.mem_append.1 k1 with k1 | k1
    · exact hd d (List.mem_filter.2 ⟨k1, k2⟩)
    · simp at k1; subst k1
      exact (hn (List.mem_filter.2 ⟨by rw [hs]; simp, k2⟩)).elim
  · intro c hc
    have hcf := p4 c hc
    exact ⟨p1.hist c hcf.lt, p1.ent c hcf.lt, fun l hl =>
      (p2.tinv.valFalse l).2 (hcf.allFalse l hl)⟩

/-- C12. Without inprocessing (the default), in every reachable search state: when propagation
ends without conflict, every clause in the database (all problem and learnt clauses; clauses with one
or two literals count as long as they are not removed, i.e. have weight 0) has a true literal or at
least two unassigned ones, so it is neither falsified nor unit. When propagation reports a
conflict, the clause it reports is falsified. -/
theorem C12_propagation_complete_partial (hu : u.Valid) (hn : u.NoInpr) (h : Searching u F as s) {ps : PS}
    {confl : Option Nat} (hp : runPropagate s = some (ps, confl)) :
    (confl = none → ∀ c ∈ s.db.clauses,
      (s.db.store c).weight = 0 ∨ 3 ≤ (s.db.store c).lits.length →
      (∃ l ∈ (ps.store c).lits, ps.T.value l = some true) ∨
      (∃ l ∈ (ps.store c).lits, ∃ m ∈ (ps.store c).lits, l ≠ m ∧ ps.T.value l = none ∧
        ps.T.value m = none)) ∧
    (∀ c, confl = some c → ∀ l ∈ (ps.store c).lits, ps.T.value l = some false) := by
  obtain ⟨hi, hE⟩ := h.good hu hn
  obtain ⟨ps', r, e1, e2, e3, e4, e5, e6, e7, e8, e9⟩ :=
    propagateLoop_spec (A := GoodC s) (s.db.nVars + 1) ⟨s.db.store, s.watch, s.trail⟩
      hi.core hi.watch hi.limq (by omega)
  unfold runPropagate at hp
  rw [e1] at hp
  simp only [Option.some.injEq, Prod.mk.injEq] at hp
  obtain ⟨rfl, rfl⟩ := hp
  refine ⟨?_, fun c hc l hl => (e2.tinv.valFalse l).2 ((e7 c hc).allFalse l hl)⟩
  rintro rfl c hc hw
  have hg : GoodC s c := ⟨hc, hw⟩
  have hci := e9 hi.cinv
  have hq := e6 rfl
  have hlt := hi.alt c hg
  have hperm := (e5 c).1
  simp only at hperm
  have hfalse : ∀ w ∈ (ps'.store c).lits, SatW ps'.T (ps'.store c).lits w →
      ps'.T.value w = some false → ∃ l ∈ (ps'.store c).lits, ps'.T.value l = some true := by
    intro w _ hw hv
    have := (e2.tinv.valFalse w).1 hv
    obtain ⟨l, h1, h2, _⟩ := hw (by rw [hq, List.take_length]; exact this)
    exact ⟨l, h1, (e2.tinv.val l).2 h2⟩
  match hl : (ps'.store c).lits with
  | [] =>
    rw [hl] at hperm
    exact absurd hperm.symm.eq_nil (hi.nonempty c hg)
  | [l] =>
    rw [hl] at hperm
    have := List.perm_singleton.1 hperm.symm
    obtain ⟨h1, _⟩ := hi.units c hg l this
    exact Or.inl ⟨l, by simp, (e2.tinv.val l).2 (e4.mem h1)⟩
  | x :: y :: r =>
    have hsw : ∀ w, (w = x ∨ w = y) → SatW ps'.T (ps'.store c).lits w := by
      intro w hw
      rcases hci.w4 c hg x y r hl w hw with h1 | h1
      · exact absurd rfl h1.1
      · exact h1
    rw [← hl]
    cases hx : ps'.T.value x with
    | some b =>
      cases b with
      | true => exact Or.inl ⟨x, by rw [hl]; simp, hx⟩
      | false => exact Or.inl (hfalse x (by rw [hl]; simp) (hsw x (Or.inl rfl)) hx)
    | none =>
      cases hy : ps'.T.value y with
      | some b =>
        cases b with
        | true => exact Or.inl ⟨y, by rw [hl]; simp, hy⟩
        | false => exact Or.inl (hfalse y (by rw [hl]; simp) (hsw y (Or.inr rfl)) hy)
      | none =>
        refine Or.inr ⟨x, by rw [hl]; simp, y, by rw [hl]; simp, ?_, hx, hy⟩
        have := e2.nd c hlt
        rw [hl] at this
        rintro rfl
        simp at this

theorem mem_take_iff_level {T : Trail} {lvl k : Nat} {l : Lit} (h : T.Inv)
    (hk : T.lim[lvl]? = some k) (hl : l ∈ T.stack) :
    l ∈ T.stack.take k ↔ T.level l.var ≤ lvl := by
  obtain ⟨pre, post, hs⟩ := List.append_of_mem hl
  have := h.level_gt_iff hs hk
  have hn := h.nodup
  rw [hs] at hn ⊢
  rw [List.take_append]
  constructor
  · intro hm
    by_cases hlt : pre.length < k
    · omega
    · exfalso
      rw [List.mem_append] at hm
      rw [List.nodup_append] at hn
      rcases hm with hm | hm
      · exact hn.2.2 l (List.mem_of_mem_take hm) l (by simp) rfl
      · rw [Nat.sub_eq_zero_of_le (by omega)] at hm; simp at hm
  · intro hle
    refine List.mem_append_right _ ?_
    have hlt : pre.length < k := by omega
    obtain ⟨j, hj⟩ := Nat.exists_eq_add_of_lt hlt
    rw [show k - pre.length = j + 1 by omega]
    simp

/-- A conflict at a positive level in a reachable search state. -/
structure AtConflict (u : Usage) (F : CNF) (as : List Lit) (s : Solver) (ps : PS) (c : Nat) : Prop where
  searching : Searching u F as s
  conflict : runPropagate s = some (ps, some c)
  level : 0 < ps.T.decisionLevel

/-- C13. Conflict analysis always succeeds; the learnt clause is implied by the clauses given. This holds
for the clause found by the first-UIP loop, after recursive minimisation, and for the final clause. -/
theorem C13_learnt_implied (hu : u.Valid) {ps : PS} {c : Nat} (h : AtConflict u F as s ps c) :
    ∃ p st out r,
      analyzeLoop ps.store ps.T (ps.T.stack.length + 1) c none ps.T.stack.reverse
        ⟨fun _ => false, 0, [], []⟩ = some (p, st) ∧
      minimization ps.store ps.T st.learnt st.stamp = some out ∧
      handleConflict ps.store s.db.bin ps.T c = some r ∧
      Entails F (p.neg :: st.learnt) ∧ Entails F (p.neg :: out) ∧ Entails F r.learnt := by
  obtain ⟨_, hcore, _, hcf⟩ := runPropagate_spec hu h.searching h.conflict
  have hc := hcf c rfl
  obtain ⟨p, st, e1, e2, e3, e4, e5, e6⟩ := analyzeLoop_spec hcore h.level (ps.T.stack.length + 1) c
    none ps.T.stack [] [] ⟨fun _ => false, 0, [], []⟩ (by simp) (by omega)
    ⟨by simp, by simp, by simp, by simp [curCount], by simp⟩ hc.lt
    (fun l hl _ => hc.allFalse l hl) (by simp) (by simp)
    (Or.inr (by
      obtain ⟨l, hl, h1⟩ := hc.top trivial
      exact ⟨l, hl, by simp, by omega⟩))
    (by
      intro x hx
      obtain ⟨l, hl, hh⟩ := hcore.ent c hc.lt x hx
      exact Or.inr (Or.inr ⟨l, hl, by simp, hh⟩))
  rw [List.append_nil] at e1
  obtain ⟨out, f1, f2, f3⟩ := minimization_spec hcore e4 e6 e5
  obtain ⟨r, g1, g2⟩ := handleConflict_spec hcore h.level hc
  exact ⟨p, st, out, r, e1, f1, g1, e5, f3, g2.ent⟩

/-- C14. The learnt clause and the backjump level. -/
theorem C14_asserting (hu : u.Valid) {ps : PS} {c : Nat} (h : AtConflict u F as s ps c)
    {r : AnalysisResult} (hr : handleConflict ps.store s.db.bin ps.T c = some r) :
    (∀ l ∈ r.learnt, ps.T.value l = some false) ∧
    ∃ first rest, r.learnt = first :: rest ∧
      ps.T.level first.var = ps.T.decisionLevel ∧
      (∀ l ∈ rest, ps.T.level l.var < ps.T.decisionLevel) ∧
      r.btlevel < ps.T.decisionLevel ∧
      (rest = [] → r.btlevel = 0) ∧
      (∀ l ∈ rest, ps.T.level l.var ≤ r.btlevel) ∧
      (∀ second rest', rest = second :: rest' → ps.T.level second.var = r.btlevel) ∧
      (ps.T.backtrack r.btlevel).value first = none ∧
      (∀ l ∈ rest, (ps.T.backtrack r.btlevel).value l = some false) := by
  obtain ⟨_, hcore, _, hcf⟩ := runPropagate_spec hu h.searching h.conflict
  obtain ⟨r', g1, g2⟩ := handleConflict_spec hcore h.level (hcf c rfl)
  rw [hr] at g1
  simp only [Option.some.injEq] at g1
  subst g1
  obtain ⟨first, rest, h1, h2, h3, h4, h5, h6⟩ := g2.shape
  have hti := hcore.tinv
  have hfirst : ps.T.value first = some false := (hti.valFalse first).2 h2
  have hrest : ∀ l ∈ rest, ps.T.value l = some false := fun l hl => (hti.valFalse l).2 (h4 l hl).1
  have hk : ∃ k, ps.T.lim[r.btlevel]? = some k := by
    have := g2.bt
    exact ⟨_, List.getElem?_eq_getElem this⟩
  obtain ⟨k, hk⟩ := hk
  refine ⟨?_, first, rest, h1, h3, ?_, g2.bt, h5, fun l hl => (h4 l hl).2.2,
    fun a b hab => (h6 a b hab).1, ?_, ?_⟩
  · intro l hl
    rw [h1] at hl
    rcases List.mem_cons.1 hl with rfl | hl
    · exact hfirst
    · exact hrest l hl
  · intro l hl
    have := (h4 l hl).2.2
    have := g2.bt
    omega
  · have hbt := g2.bt
    rw [(Trail.backtrack_inv hti).valNone]
    refine ⟨fun hm => ?_, fun hm => ?_⟩
    · exact hti.notBoth (Trail.backtrack_subset _ hm) h2
    · rw [Trail.backtrack_stack hk] at hm
      have hv := (mem_take_iff_level hti hk h2).1 hm
      rw [Lit.var_neg] at hv
      omega
  · intro l hl
    rw [Trail.value_false_iff]
    refine (Trail.backtrack_value hti hk l.neg).2 ((mem_take_iff_level hti hk (h4 l hl).1).2 ?_)
    rw [Lit.var_neg]; exact (h4 l hl).2.2

/-- C15. Recursive minimisation removes literals only, keeps the asserting literal in front, and its
result is still implied; likewise minimisation with binary clauses; and the learnt clause delivered is
the result, up to the order of the literals after the first. -/
theorem C15_minimisation (hu : u.Valid) {ps : PS} {c : Nat} (h : AtConflict u F as s ps c)
    {p : Lit} {st : AS} {out : List Lit}
    (h1 : analyzeLoop ps.store ps.T (ps.T.stack.length + 1) c none ps.T.stack.reverse
        ⟨fun _ => false, 0, [], []⟩ = some (p, st))
    (h2 : minimization ps.store ps.T st.learnt st.stamp = some out)
    {r : AnalysisResult} (hr : handleConflict ps.store s.db.bin ps.T c = some r) :
    List.Sublist out st.learnt ∧ Entails F (p.neg :: out) ∧
    List.Sublist (minimizeBinary s.db.bin ps.T p.neg out) out ∧
    Entails F (p.neg :: minimizeBinary s.db.bin ps.T p.neg out) ∧
    ∃ rest, r.learnt = p.neg :: rest ∧ rest.Perm (minimizeBinary s.db.bin ps.T p.neg out) := by
  obtain ⟨_, hcore, _, hcf⟩ := runPropagate_spec hu h.searching h.conflict
  have hc := hcf c rfl
  obtain ⟨p', st', e1, e2, e3, e4, e5, e6⟩ := analyzeLoop_spec hcore h.level (ps.T.stack.length + 1) c
    none ps.T.stack [] [] ⟨fun _ => false, 0, [], []⟩ (by simp) (by omega)
    ⟨by simp, by simp, by simp, by simp [curCount], by simp⟩ hc.lt
    (fun l hl _ => hc.allFalse l hl) (by simp) (by simp)
    (Or.inr (by
      obtain ⟨l, hl, h1⟩ := hc.top trivial
      exact ⟨l, hl, by simp, by omega⟩))
    (by
      intro x hx
      obtain ⟨l, hl, hh⟩ := hcore.ent c hc.lt x hx
      exact Or.inr (Or.inr ⟨l, hl, by simp, hh⟩))
  rw [List.append_nil, h1] at e1
  simp only [Option.some.injEq, Prod.mk.injEq] at e1
  obtain ⟨rfl, rfl⟩ := e1
  obtain ⟨out', f1, f2, f3⟩ := minimization_spec hcore e4 e6 e5
  rw [h2] at f1
  simp only [Option.some.injEq] at f1
  subst f1
  obtain ⟨g1, g2⟩ := minimizeBinary_spec hcore (fun l hl => (e4.learnt l (f2.subset hl)).1) f3
  refine ⟨f2, f3, g1, g2, ?_⟩
  unfold handleConflict analyze at hr
  simp only [h1, h2] at hr
  revert hr
  cases minimizeBinary s.db.bin ps.T p.neg out with
  | nil =>
    intro hr
    simp only [Option.some.injEq] at hr
    subst hr
    exact ⟨[], rfl, List.Perm.refl _⟩
  | cons a b =>
    intro hr
    simp only [Option.some.injEq] at hr
    subst hr
    exact ⟨_, rfl, (pickSecond_spec ps.T b a).1⟩

/-- C16, local part: when search stops because of an assumption, the reported conflict contains the
negation of an assumption that is false. (The conflict consists of negated assumptions and is implied:
`C16_core_correct` in `Props/Answers.lean`.) -/
theorem C16_failing_assumption (hu : u.Valid) (h : Searching u F as s) {ch : Choice} {s' : Solver}
    (he : searchIter s ch = some (.done s' (some false))) (hc : s'.conflict ≠ []) :
    ∃ p ∈ as, s'.trail.value p = some false ∧ p.neg ∈ s'.conflict := by
  have hok := h.ok hu
  have hi := hok.inv
  obtain ⟨ps, r, e1, e2, e3, e4, e5, e6, e7, e8, e9⟩ :=
    propagateLoop_spec (A := fun _ => False) (s.db.nVars + 1) ⟨s.db.store, s.watch, s.trail⟩
      hi.core hi.watch hi.limq (by omega)
  unfold searchIter at he
  rw [e1] at he
  dsimp only at he
  cases r with
  | some c =>
    dsimp only at he
    split at he
    · simp only [Option.some.injEq, IterOut.done.injEq, and_true] at he
      subst he
      exact absurd hok.conflict hc
    · simp at he
  | none =>
    dsimp only at he
    split at he
    · simp at he
    · have hS : SInv F (fun _ => False) { s with
          db := { s.db with store := ps.store }, watch := ps.watch, trail := ps.T } := by
        obtain ⟨out, o1, o2⟩ := searchIter_spec hi
          (ch := ⟨true, fun T => (firstFree T)⟩) (firstFree_valid true)
        unfold searchIter at o1
        rw [e1] at o1
        simp only [if_true, Option.some.injEq] at o1
        subst o1
        exact (o2.2.2.2.2.1 (by simp)).1
      generalize hL : assumeLoop ps.T (ps.T.assumptions.drop ps.T.decisionLevel) = x at he
      obtain ⟨T', o⟩ := x
      obtain ⟨q1, q2, q3, q4, q5, q6, q7⟩ := assumeLoop_spec _ _ hS (e6 rfl) rfl T' o hL
      cases o with
      | failed p =>
        simp only [Option.some.injEq, IterOut.done.injEq, and_true] at he
        subst he
        dsimp only at q7
        refine ⟨p, ?_, q7.1, ?_⟩
        · have := List.mem_of_getElem? q7.2
          rw [q3] at this
          simp only at this
          rw [e4.assumptions] at this
          rw [← hok.assumptions]; exact this
        · refine List.mem_append_right _ ?_
          exact (analyzeFinal_spec q1.core ((q1.core.tinv.valFalse p).1 q7.1)).2.1
      | next p => simp at he
      | allSet =>
        dsimp only at he
        split at he <;> simp at he

/-! ### Non-vacuity -/

/-- Four clauses over three variables; with the example heuristics the first decision `¬1` leads to
a conflict after two propagations. -/
def exG : CNF := cnf [[1, 2, 3], [1, -2, 3], [1, 2, -3], [1, -2, -3]]

example : ((exState 3 exG [] 2).bind runPropagate).map (fun x => (x.2.isSome, x.1.T.stack,
    x.1.T.decisionLevel)) = some (true, [neg 0, neg 1, pos 2], 2) := by decide

example (s : Solver) (h : exState 3 exG [] 2 = some s) : Searching .noInprocessing exG [] s :=
  exState_searching (u := .noInprocessing) ⟨exRound_valid, rfl⟩ trivial trivial (by decide) (by decide) 2 s h

/-- The learnt clause of that conflict and the backjump level. -/
example : ((exState 3 exG [] 2).bind fun s => (runPropagate s).bind fun x => x.2.bind fun c =>
    (handleConflict x.1.store s.db.bin x.1.T c).map fun r => (r.learnt, r.btlevel)) =
    some ([pos 1, pos 0], 1) := by decide

/-- A failing assumption: both assumptions are named. -/
example : ((exState 3 (cnf [[1, 2, 3], [1, 2, -3]]) [neg 0, neg 1] 3).bind fun s =>
    (searchIter s exChoice).bind fun o =>
    match o with
    | .done s' b => some (b, s'.conflict)
    | _ => none) = some (some false, [pos 1, pos 0]) := by decide

end Candy
