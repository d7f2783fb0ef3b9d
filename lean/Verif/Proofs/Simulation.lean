import Verif.Model.Simulation
import Verif.Props.Traversal

/-! Lemmas on bit-parallel simulation. -/

namespace Candy

/-- Lane `(i, j)`: bit `j` of field `i` of every vector. A set bit stands for the value false. -/
def SimVectors.lane (A : SimVectors) (i : Fin 32) (j : Nat) : Assign := fun v => !(A.vec v i).getLsbD j

namespace SimVectors

variable {A A' : SimVectors}

theorem lit_bit (A : SimVectors) (i : Fin 32) {j : Nat} (hj : j < 64) (l : Lit) :
    ((if l.sign then A.vec l.var else (A.vec l.var).compl : SimVec) i).getLsbD j = true ↔ l.holds (A.lane i j) := by
  unfold Lit.holds lane
  cases l.sign <;> simp [SimVec.compl, hj]

theorem clauseVec_bit {out : Nat} {i : Fin 32} {j : Nat} (hj : j < 64) : ∀ (c : Clause) {x y : SimVec},
    A.clauseVec out c x = some y →
    ((y i).getLsbD j = true ↔ (x i).getLsbD j = true ∨ ∃ l ∈ c, l.var ≠ out ∧ l.holds (A.lane i j)) := by
  intro c
  induction c with
  | nil => intro x y h; cases h; simp
  | cons l c ih =>
    intro x y h
    simp only [clauseVec] at h
    split at h
    · rw [ih h]
      simp_all
    · rename_i hne
      cases hg : A.get l.var with
      | none => rw [hg] at h; cases h
      | some z =>
        rw [hg] at h
        dsimp only at h
        have hz : z = A.vec l.var := by
          unfold get at hg
          split at hg
          · exact (Option.some.inj hg).symm
          · cases hg
        subst hz
        rw [ih h]
        have : ((x.or (if l.sign then A.vec l.var else (A.vec l.var).compl)) i).getLsbD j = true ↔
            (x i).getLsbD j = true ∨ l.holds (A.lane i j) := by
          rw [← lit_bit A i hj l]
          simp only [SimVec.or, BitVec.getLsbD_or, Bool.or_eq_true]
        rw [this]
        simp [hne, or_assoc]

theorem gateVec_bit {out : Nat} {i : Fin 32} {j : Nat} (hj : j < 64) : ∀ (f : CNF) {x y : SimVec},
    A.gateVec out f x = some y →
    ((y i).getLsbD j = true ↔ (x i).getLsbD j = true ∧ ∀ c ∈ f, ∃ l ∈ c, l.var ≠ out ∧ l.holds (A.lane i j)) := by
  intro f
  induction f with
  | nil => intro x y h; cases h; simp
  | cons c f ih =>
    intro x y h
    simp only [gateVec] at h
    split at h
    · cases h
    · rename_i z hz
      rw [ih h]
      have := clauseVec_bit (i := i) hj c hz
      simp only [SimVec.and, BitVec.getLsbD_and, Bool.and_eq_true, this, List.forall_mem_cons, SimVec.fill]
      simp [and_assoc]

theorem set_some {v : Nat} {x : SimVec} (h : A.set v x = some A') : v < A.size ∧ A' = { A with vec := upd A.vec v x } := by
  unfold set at h
  split at h
  · exact ⟨by assumption, (Option.some.inj h).symm⟩
  · cases h

/-- The evaluation of one gate. -/
theorem propagateGate_spec {cls : Nat → Clause} {O : ClauseOrder} {o : Lit} (h : propagateGate cls O A o = some A') :
    A'.size = A.size ∧ (∀ v, v ≠ o.var → A'.vec v = A.vec v) ∧ ∃ is, O.clauses o.var = some is ∧
      ∀ (i : Fin 32) (j : Nat), j < 64 → (o.neg.holds (A'.lane i j) ↔
        ∀ c ∈ is.map cls, ∃ l ∈ c, l.var ≠ o.var ∧ l.holds (A.lane i j)) := by
  unfold propagateGate at h
  split at h
  · cases h
  · rename_i is his
    split at h
    · cases h
    · rename_i x hx
      obtain ⟨_, rfl⟩ := set_some h
      refine ⟨rfl, fun v hv => by simp [upd, hv], is, his, fun i j hj => ?_⟩
      have := gateVec_bit (i := i) hj _ hx
      simp only [SimVec.fill, if_true, BitVec.getLsbD_allOnes, hj, decide_true, true_and] at this
      rw [← this]
      unfold Lit.holds lane Lit.neg
      cases ho : o.sign <;> simp [upd, SimVec.compl, hj]

theorem propagateGates_frame {cls : Nat → Clause} {O : ClauseOrder} : ∀ (os : List Lit) {A A' : SimVectors},
    propagateGates cls O os A = some A' → A'.size = A.size ∧ ∀ v, v ∉ os.map Lit.var → A'.vec v = A.vec v := by
  intro os
  induction os with
  | nil => intro A A' h; cases h; simp
  | cons o os ih =>
    intro A A' h
    simp only [propagateGates] at h
    split at h
    · cases h
    · rename_i B hB
      obtain ⟨h1, h2⟩ := ih h
      obtain ⟨h3, h4, _⟩ := propagateGate_spec hB
      refine ⟨h1.trans h3, fun v hv => ?_⟩
      simp only [List.map_cons, List.mem_cons, not_or] at hv
      rw [h2 v hv.2, h4 v hv.1]

/-- The values of all gates fit the final values of the variables of their clauses, if no clause of a gate
mentions the output of a later gate. -/
theorem propagateGates_eqn {cls : Nat → Clause} {O : ClauseOrder} : ∀ (os : List Lit) {A A' : SimVectors},
    propagateGates cls O os A = some A' → (os.map Lit.var).Nodup →
    (os.Pairwise fun o o' => ∀ is, O.clauses o.var = some is → ∀ c ∈ is.map cls, ∀ l ∈ c, l.var ≠ o'.var) →
    ∀ o ∈ os, ∃ is, O.clauses o.var = some is ∧ ∀ (i : Fin 32) (j : Nat), j < 64 → (o.neg.holds (A'.lane i j) ↔
        ∀ c ∈ is.map cls, ∃ l ∈ c, l.var ≠ o.var ∧ l.holds (A'.lane i j)) := by
  intro os
  induction os with
  | nil => simp
  | cons o os ih =>
    intro A A' h hn hp u hu
    simp only [propagateGates] at h
    split at h
    · cases h
    · rename_i B hB
      rw [List.map_cons, List.nodup_cons] at hn
      rw [List.pairwise_cons] at hp
      rcases List.mem_cons.1 hu with rfl | hu
      · obtain ⟨_, h2⟩ := propagateGates_frame os h
        obtain ⟨_, h4, is, his, h5⟩ := propagateGate_spec hB
        refine ⟨is, his, fun i j hj => ?_⟩
        have e1 : u.neg.holds (A'.lane i j) ↔ u.neg.holds (B.lane i j) := by
          unfold Lit.holds lane Lit.neg
          rw [h2 u.var hn.1]
        rw [e1, h5 i j hj]
        have e2 : ∀ c ∈ is.map cls, ∀ l ∈ c, l.var ≠ u.var → (l.holds (A'.lane i j) ↔ l.holds (A.lane i j)) := by
          intro c hc l hl hne
          have : A'.vec l.var = A.vec l.var := by
            rw [h2 l.var, h4 l.var hne]
            intro hm
            obtain ⟨w, hw, e⟩ := List.mem_map.1 hm
            exact hp.1 w hw is his c hc l hl e.symm
          unfold Lit.holds lane
          rw [this]
        constructor
        · intro hs c hc
          obtain ⟨l, hl, hne, hh⟩ := hs c hc
          exact ⟨l, hl, hne, (e2 c hc l hl hne).2 hh⟩
        · intro hs c hc
          obtain ⟨l, hl, hne, hh⟩ := hs c hc
          exact ⟨l, hl, hne, (e2 c hc l hl hne).1 hh⟩
      · exact ih h hn.2 hp.2 u hu

/-! ## No undefined behaviour -/

theorem clauseVec_total {out : Nat} : ∀ (c : Clause) (x : SimVec), (∀ l ∈ c, l.var ≠ out → l.var < A.size) →
    ∃ y, A.clauseVec out c x = some y := by
  intro c
  induction c with
  | nil => intro x _; exact ⟨x, rfl⟩
  | cons l c ih =>
    intro x h
    simp only [List.forall_mem_cons] at h
    simp only [clauseVec]
    split
    · exact ih x h.2
    · rename_i hne
      have : A.get l.var = some (A.vec l.var) := by unfold get; rw [if_pos (h.1 hne)]
      rw [this]
      exact ih _ h.2

theorem gateVec_total {out : Nat} : ∀ (f : CNF) (x : SimVec), (∀ c ∈ f, ∀ l ∈ c, l.var ≠ out → l.var < A.size) →
    ∃ y, A.gateVec out f x = some y := by
  intro f
  induction f with
  | nil => intro x _; exact ⟨x, rfl⟩
  | cons c f ih =>
    intro x h
    simp only [List.forall_mem_cons] at h
    simp only [gateVec]
    obtain ⟨y, hy⟩ := clauseVec_total c (.fill false) h.1
    rw [hy]
    exact ih _ h.2

theorem propagateGates_total {cls : Nat → Clause} {O : ClauseOrder} {n : Nat} : ∀ (os : List Lit) {A : SimVectors},
    A.size = n → (∀ o ∈ os, o.var < n ∧ ∃ is, O.clauses o.var = some is ∧ ∀ c ∈ is.map cls, ∀ l ∈ c,
      l.var ≠ o.var → l.var < n) → ∃ A', propagateGates cls O os A = some A' := by
  intro os
  induction os with
  | nil => intro A _ _; exact ⟨A, rfl⟩
  | cons o os ih =>
    intro A hA h
    rw [List.forall_mem_cons] at h
    obtain ⟨⟨h1, is, h2, h3⟩, h4⟩ := h
    obtain ⟨x, hx⟩ := gateVec_total (A := A) (out := o.var) (is.map cls) (.fill true) (fun c hc l hl hne => hA ▸ h3 c hc l hl hne)
    have hset : ∃ B, propagateGate cls O A o = some B := by
      unfold propagateGate
      rw [h2]
      dsimp only
      rw [hx]
      dsimp only
      unfold set
      rw [if_pos (by omega)]
      exact ⟨_, rfl⟩
    obtain ⟨B, hB⟩ := hset
    simp only [propagateGates, hB]
    exact ih ((propagateGate_spec hB).1.trans hA) h4

/-! ## Lanes -/

theorem propagateGates_lane {cls : Nat → Clause} {O : ClauseOrder} {i i' : Fin 32} {j j' : Nat} (hj : j < 64) (hj' : j' < 64) :
    ∀ (os : List Lit) {A A' B B' : SimVectors}, propagateGates cls O os A = some A' → propagateGates cls O os B = some B' →
    A.lane i j = B.lane i' j' → A'.lane i j = B'.lane i' j' := by
  intro os
  induction os with
  | nil => intro A A' B B' h1 h2 h; cases h1; cases h2; exact h
  | cons o os ih =>
    intro A A' B B' h1 h2 h
    simp only [propagateGates] at h1 h2
    split at h1
    · cases h1
    split at h2
    · cases h2
    rename_i A1 hA _ B1 hB
    refine ih h1 h2 ?_
    obtain ⟨_, a1, is, a2, a3⟩ := propagateGate_spec hA
    obtain ⟨_, b1, is', b2, b3⟩ := propagateGate_spec hB
    rw [a2] at b2
    cases b2
    funext v
    by_cases hv : v = o.var
    · have h3 := (a3 i j hj).trans ((b3 i' j' hj').trans (by rw [h])).symm
      unfold Lit.holds Lit.neg at h3
      dsimp only at h3
      rw [hv]
      revert h3
      cases A1.lane i j o.var <;> cases B1.lane i' j' o.var <;> cases o.sign <;> simp
    · have e1 : A1.lane i j v = A.lane i j v := by unfold lane; rw [a1 v hv]
      have e2 : B1.lane i' j' v = B.lane i' j' v := by unfold lane; rw [b1 v hv]
      rw [e1, e2, h]

end SimVectors

/-! ## Clause order -/

/-- The literal and the clauses by which a gate is evaluated. -/
def usedFwd (g : Gate) : Bool := g.notMono || decide (g.fwd.length ≤ g.bwd.length)

theorem foldl_backtrack (G : GateProblem) (L : List Nat) (hd : ∀ v ∈ L, ∃ o : Lit, o.var = v ∧ (G.gates v).out = some o) :
    ∀ s : ClauseOrder, let O := L.foldl (fun s v => ClauseOrder.backtrack G none v s) s
    O.inputs = s.inputs ∧ O.numVars = s.numVars ∧
    (∀ v, O.clauses v = if v ∈ L then some (if usedFwd (G.gates v) then (G.gates v).fwd else (G.gates v).bwd) else s.clauses v) ∧
    ∃ os, O.outputs = s.outputs ++ os ∧ os.map Lit.var = L ∧
      ∀ u ∈ os, (G.gates u.var).out = some (if usedFwd (G.gates u.var) then u.neg else u) := by
  induction L with
  | nil => intro s; exact ⟨rfl, rfl, by simp, [], by simp⟩
  | cons v L ih =>
    intro s
    dsimp only
    rw [List.forall_mem_cons] at hd
    obtain ⟨⟨o, ho, hout⟩, hd⟩ := hd
    rw [List.foldl_cons]
    obtain ⟨h1, h2, h3, os, h4, h5, h6⟩ := ih hd (ClauseOrder.backtrack G none v s)
    by_cases hu : usedFwd (G.gates v) = true
    · have e : ClauseOrder.backtrack G none v s = { s with outputs := s.outputs ++ [o.neg], clauses := upd s.clauses o.var (some (G.gates v).fwd) } := by
        unfold ClauseOrder.backtrack
        rw [hout]
        unfold usedFwd at hu
        simp only [ClauseOrder.passes, Bool.not_true, Bool.false_eq_true, if_false, hu, if_true]
      rw [e] at h1 h2 h3 h4 ⊢
      refine ⟨h1, h2, fun w => ?_, o.neg :: os, by rw [h4]; simp, by simp [h5, Lit.neg, ho], ?_⟩
      · rw [h3]
        by_cases hw : w = v
        · subst hw; simp [hu, upd, ho]
        · simp [hw, upd, ho]
      · intro u hu'
        rcases List.mem_cons.1 hu' with rfl | hu'
        · have : o.neg.var = v := ho
          rw [this, hout, hu]
          simp
        · exact h6 u hu'
    · have e : ClauseOrder.backtrack G none v s = { s with outputs := s.outputs ++ [o], clauses := upd s.clauses o.var (some (G.gates v).bwd) } := by
        unfold ClauseOrder.backtrack
        rw [hout]
        unfold usedFwd at hu
        simp only [ClauseOrder.passes, Bool.not_true, Bool.false_eq_true, if_false, hu]
      rw [e] at h1 h2 h3 h4 ⊢
      refine ⟨h1, h2, fun w => ?_, o :: os, by rw [h4]; simp, by simp [h5, ho], ?_⟩
      · rw [h3]
        by_cases hw : w = v
        · subst hw; simp [hu, upd, ho]
        · simp [hw, upd, ho]
      · intro u hu'
        rcases List.mem_cons.1 hu' with rfl | hu'
        · rw [ho, hout]
          simp [hu]
        · exact h6 u hu'

theorem foldl_max (calls : List GateCall) : ∀ n : Nat, n ≤ calls.foldl (fun n c => max n (ClauseOrder.callVar c + 1)) n ∧
    ∀ c ∈ calls, ClauseOrder.callVar c < calls.foldl (fun n c => max n (ClauseOrder.callVar c + 1)) n := by
  induction calls with
  | nil => simp
  | cons c cs ih =>
    intro n
    rw [List.foldl_cons]
    obtain ⟨h1, h2⟩ := ih (max n (ClauseOrder.callVar c + 1))
    refine ⟨by omega, fun d hd => ?_⟩
    rcases List.mem_cons.1 hd with rfl | hd
    · omega
    · exact h2 d hd

theorem mem_backtracked {T : List GateCall} {v : Nat} : v ∈ backtracked T ↔ .backtrack v ∈ T := by
  unfold backtracked
  rw [List.mem_filterMap]
  constructor
  · rintro ⟨c, hc, e⟩
    cases c with
    | backtrack w => simp only [Option.some.injEq] at e; subst e; exact hc
    | collect w => simp at e
    | collectInput w => simp at e
  · intro h
    exact ⟨_, h, rfl⟩

theorem mem_collectedInputs {T : List GateCall} {v : Nat} : v ∈ collectedInputs T ↔ .collectInput v ∈ T := by
  unfold collectedInputs
  rw [List.mem_filterMap]
  constructor
  · rintro ⟨c, hc, e⟩
    cases c with
    | collectInput w => simp only [Option.some.injEq] at e; subst e; exact hc
    | collect w => simp at e
    | backtrack w => simp at e
  · intro h
    exact ⟨_, h, rfl⟩

theorem nodup_backtracked {T : List GateCall} (h : T.Nodup) : (backtracked T).Nodup := by
  induction T with
  | nil => exact List.nodup_nil
  | cons c T ih =>
    rw [List.nodup_cons] at h
    cases c with
    | backtrack v =>
      change (v :: backtracked T).Nodup
      exact List.nodup_cons.2 ⟨fun hv => h.1 (mem_backtracked.1 hv), ih h.2⟩
    | collect v => exact ih h.2
    | collectInput v => exact ih h.2

theorem Before.tail {α : Type} {a b c : α} {L : List α} (h : Before a b (c :: L)) (hne : c ≠ a) : Before a b L := by
  obtain ⟨p, q, r, e⟩ := h
  cases p with
  | nil => simp at e; exact absurd e.1 hne
  | cons x p =>
    simp only [List.cons_append, List.cons.injEq] at e
    exact ⟨p, q, r, e.2⟩

theorem Before.mem {α : Type} {a b : α} {L : List α} (h : Before a b L) : a ∈ L ∧ b ∈ L := by
  obtain ⟨p, q, r, rfl⟩ := h
  simp

/-- In a list without repetitions, nothing that must come before another element comes after it. -/
theorem pairwise_backtracked {T : List GateCall} (h : T.Nodup) :
    (backtracked T).Pairwise fun v w => ¬ Before (GateCall.backtrack w) (.backtrack v) T := by
  induction T with
  | nil => exact List.Pairwise.nil
  | cons c T ih =>
    rw [List.nodup_cons] at h
    have step : (backtracked T).Pairwise fun v w => ¬ Before (GateCall.backtrack w) (.backtrack v) (c :: T) := by
      refine (List.Pairwise.and_mem.1 (ih h.2)).imp ?_
      rintro v w ⟨hv, hw, hn⟩ hb
      refine hn (hb.tail ?_)
      intro e
      exact h.1 (e ▸ mem_backtracked.1 hw)
    cases c with
    | collect v => exact step
    | collectInput v => exact step
    | backtrack v =>
      change (v :: backtracked T).Pairwise _
      refine List.pairwise_cons.2 ⟨fun w hw hb => ?_, step⟩
      have hne : GateCall.backtrack v ≠ .backtrack w := fun e => h.1 (e ▸ mem_backtracked.1 hw)
      exact h.1 (hb.tail hne).mem.2

/-! ## Gates -/

/-- The clauses of a gate are satisfied if the output is evaluated by the forward or by the backward clauses. -/
theorem GateClauses.sat_of_eval {o : Lit} {fwd bwd : CNF} (h : GateClauses o fwd bwd) {a : Assign} {u : Bool}
    (he : ((if u then o.neg else o).neg.holds a ↔ ∀ c ∈ (if u then fwd else bwd), ∃ l ∈ c, l.var ≠ o.var ∧ l.holds a)) :
    Sat a (fwd ++ bwd) := by
  cases u with
  | true =>
    simp only [if_true, Lit.neg_neg] at he
    intro c hc
    by_cases ho : o.holds a
    · rcases List.mem_append.1 hc with hc | hc
      · obtain ⟨l, hl, _, hh⟩ := he.1 ho c hc
        exact ⟨l, hl, hh⟩
      · exact ⟨o, h.bwdOut c hc, ho⟩
    · rcases List.mem_append.1 hc with hc | hc
      · exact ⟨o.neg, h.fwdOut c hc, neg_holds_iff.2 ho⟩
      · have : ¬ ∀ c ∈ fwd, ∃ l ∈ c, l.var ≠ o.var ∧ l.holds a := fun hh => ho (he.2 hh)
        simp only [Classical.not_forall] at this
        obtain ⟨d, hd, hnd⟩ := this
        obtain ⟨l, hl, hlo, hln⟩ := h.blocked c hc d hd
        refine ⟨l, hl, ?_⟩
        refine Classical.not_not.1 fun hnh => hnd ⟨l.neg, hln, ?_, neg_holds_iff.2 hnh⟩
        intro e
        exact hlo (BlockList.eq_of_var_eq (h.bwdNodup c hc) hl (h.bwdOut c hc) e)
  | false =>
    simp only [Bool.false_eq_true, if_false] at he
    intro c hc
    by_cases ho : o.holds a
    · rcases List.mem_append.1 hc with hc | hc
      · have : ¬ ∀ c ∈ bwd, ∃ l ∈ c, l.var ≠ o.var ∧ l.holds a := fun hh => (neg_holds_iff.1 (he.2 hh)) ho
        simp only [Classical.not_forall] at this
        obtain ⟨d, hd, hnd⟩ := this
        obtain ⟨l, hl, hlo, hln⟩ := h.blocked d hd c hc
        refine ⟨l.neg, hln, ?_⟩
        refine neg_holds_iff.2 fun hh => hnd ⟨l, hl, ?_, hh⟩
        intro e
        exact hlo (BlockList.eq_of_var_eq (h.bwdNodup d hd) hl (h.bwdOut d hd) e)
      · exact ⟨o, h.bwdOut c hc, ho⟩
    · rcases List.mem_append.1 hc with hc | hc
      · exact ⟨o.neg, h.fwdOut c hc, neg_holds_iff.2 ho⟩
      · obtain ⟨l, hl, _, hh⟩ := he.1 (neg_holds_iff.2 ho) c hc
        exact ⟨l, hl, hh⟩

end Candy
