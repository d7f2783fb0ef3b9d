import Verif.Proofs.Termination
import Verif.Proofs.StaticSimplify

/-!
# Search with the static propagator terminates

The measure of `Proofs/Termination.lean` only looks at the trail, so the branch without conflict is taken over from
there, and the branch with a conflict from the step of the other propagator.
-/

namespace Candy

variable {F : CNF} {A : Nat → Prop}

/-- Every completed iteration of the search loop makes the trail heavier. -/
theorem sSearchIter_weight {L : Prop} {s : St} (h : StInv L F A s) {ch : Choice} (hch : ch.Valid) {out : StOut} :
    sSearchIter s ch = some out →
    match out with
    | .cont s' => s.sol.trail.weight s.sol.db.nVars < s'.sol.trail.weight s.sol.db.nVars
    | .done _ r => ch.restart = false → r ≠ none := by
  intro he
  obtain ⟨W, T, r, e1, e2, e3, e4, e6, e7, e8, e9, e10, e11, e12⟩ := sPropagateLoop_spec
    (s.sol.db.nVars + 1) s.W s.sol.trail h.sol.core h.w h.sol.limq (by omega)
  unfold sSearchIter at he
  rw [e1] at he
  simp only at he
  have hc0 : CInv (fun c => A c ∧ (s.sol.db.store c).lits.length ≤ 2) s.sol.db.store noWatch
      s.sol.db.bin s.sol.trail (fun _ _ => False) := by
    rw [← h.nw]; exact h.sol.cinv
  have e10 := e10 _ hc0
  have hunits : ∀ c, (A c ∧ (s.sol.db.store c).lits.length ≤ 2) → ∀ l,
      (s.sol.db.store c).lits = [l] → l ∈ T.stack ∧ T.level l.var = 0 := by
    intro c hA l hl
    obtain ⟨a, b⟩ := h.sol.units c hA l hl
    exact ⟨e4.mem a, (e4.level l a).trans b⟩
  have hab : ∀ l ∈ T.assumptions, l.var < s.sol.db.nVars := by
    rw [e4.assumptions]; exact h.sol.asmBound
  have hasm : ∀ p ∈ T.stack, T.reason p.var = none → 0 < T.level p.var →
      T.level p.var ≤ T.assumptions.length → T.assumptions[T.level p.var - 1]? = some p := by
    intro p hp hr h0 hle
    by_cases hm : p ∈ s.sol.trail.stack
    · rw [e4.level p hm] at h0 hle ⊢
      rw [e4.reason p hm] at hr
      rw [e4.assumptions] at hle ⊢
      exact h.sol.asm p hm hr h0 hle
    · exact (e4.new p hp hm hr).elim
  have hasmT : ∀ i p, T.assumptions[i]? = some p → i < T.decisionLevel →
      p ∈ T.stack ∧ T.level p.var ≤ i + 1 := by
    intro i p hip hi
    rw [e4.assumptions] at hip
    rw [e4.decisionLevel] at hi
    obtain ⟨a, b⟩ := h.sol.asmTrue i p hip hi
    exact ⟨e4.mem a, by rw [e4.level p a]; exact b⟩
  have hwi : WatchInv s.sol.db.next s.sol.db.store s.sol.watch := h.sol.watch
  have hprop : s.sol.trail.weight s.sol.db.nVars ≤ T.weight s.sol.db.nVars := by
    obtain ⟨suf, hsuf⟩ := e4.stack
    rw [weight_ext h.sol.core.tinv hsuf (ks := []) (by simpa using e4.lim) e4.level]
    exact Nat.le_add_right _ _
  have hlen : T.stack.length ≤ s.sol.db.nVars := by
    have := e2.tinv.length_le
    rw [e2.nv] at this; exact this
  cases r with
  | some confl =>
    simp only at he
    have hconf := e7 confl rfl
    by_cases hdl : T.decisionLevel = 0
    · rw [if_pos hdl] at he
      simp only [Option.some.injEq] at he
      subst he
      simp
    · rw [if_neg hdl] at he
      obtain ⟨s', rr, l1, l2, l3, l4, l5, l6, l7, lw, lwr, l8, l9, l10, l11, l12, l13, l14, first,
          l15, l16, l17⟩ :=
        learnStep_spec (F := F) (A := fun c => A c ∧ (s.sol.db.store c).lits.length ≤ 2)
        (confl := confl) (s := { s.sol with trail := T })
        h.sol.db e2 hwi e8 (by
          simp only
          rw [h.nw]
          exact e10.weaken (by
            intro c _ x y rr _ w _ hw
            exact Or.inl hw.2)) h.sol.alt hunits h.sol.nonempty hab hasm hasmT (by simp only; omega)
          hconf
      simp only at l1 l2 l3 l7 l15 l16 l17
      obtain ⟨W', m1, m2⟩ := sLearnStep_eq (W := W) l1 l3 l7 h.nw
      rw [m1] at he
      simp only [Option.map_some, Option.some.injEq] at he
      subst he
      simp only
      rw [l16]
      exact Nat.lt_of_le_of_lt hprop (weight_learn e2.tinv hlen l2 l15 _ l17)
  | none =>
    simp only [Option.some.injEq] at he
    have hq : T.qhead = T.stack.length := e6 rfl
    have hS : SInv F (fun c => A c ∧ (s.sol.db.store c).lits.length ≤ 2)
        { s.sol with trail := T } :=
      ⟨h.sol.db, e2, hwi, e8, by
        simp only
        rw [h.nw]
        exact e10.weaken (by intro c _ x y rr _ w _ hw; exact (hw.1 rfl).elim), h.sol.alt,
        hunits, h.sol.nonempty, hab, hasm, hasmT⟩
    have hd := searchIter_decide (s := { s.sol with trail := T }) hq ch
    subst he
    generalize decideStep { s.sol with trail := T } ch = o at hd
    cases o with
    | done s' r => exact searchIter_weight hS hch hd
    | cont s' => exact Nat.lt_of_le_of_lt hprop (searchIter_weight hS hch hd)

theorem sSearch_terminates {L : Prop} : ∀ (fuel : Nat) (o : Nat → Choice) (s : St) (A : Nat → Prop),
    StInv L F A s → (∀ i, (o i).Valid) →
    s.sol.db.nVars * (s.sol.db.nVars + 1) ^ (s.sol.db.nVars + 1) < fuel + s.sol.trail.weight s.sol.db.nVars →
    ∃ s' r, sSearch fuel o s = some (s', r) ∧ ((∀ i, (o i).restart = false) → r ≠ none)
  | 0, o, s, A, h, hv, hf => by
    have hl := h.sol.core.tinv.length_le
    have hn := h.sol.core.nv
    have := weight_le (T := s.sol.trail) (n := s.sol.db.nVars) (by omega)
    omega
  | fuel + 1, o, s, A, h, hv, hf => by
    obtain ⟨out, e1, e2⟩ := sSearchIter_spec h (hv 0)
    have hw := sSearchIter_weight h (hv 0) e1
    rw [sSearch, e1]
    cases out with
    | done s' r => exact ⟨s', r, rfl, fun hr => hw (hr 0)⟩
    | cont s' =>
      obtain ⟨f, _, _, _, _, A', _, hS, _⟩ := e2
      simp only at hw ⊢
      have hnv := f.nVars
      obtain ⟨s'', r, g1, g2⟩ := sSearch_terminates fuel (fun i => o (i + 1)) s' A' hS
        (fun i => hv (i + 1)) (by rw [hnv]; omega)
      exact ⟨s'', r, g1, fun hr => g2 (fun i => hr (i + 1))⟩

end Candy
