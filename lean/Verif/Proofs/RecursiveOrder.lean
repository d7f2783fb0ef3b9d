import Verif.Model.RecursiveOrder
import Verif.Proofs.Simulation

/-!
# Lemmas about the recursive clause order
-/

namespace Candy

namespace ClauseOrder

/-- Every gate comes after the gates of its inputs, at its first occurrence and at all others. -/
def Ordered (G : GateProblem) (L : List Nat) : Prop :=
  ∀ pre u post, L = pre ++ u :: post → ∀ l ∈ (G.gates u).inp, (G.gates l.var).out ≠ none → l.var ∈ pre

theorem Ordered.snoc {G : GateProblem} {L : List Nat} (h : Ordered G L) {v : Nat}
    (hv : ∀ l ∈ (G.gates v).inp, (G.gates l.var).out ≠ none → l.var ∈ L) : Ordered G (L ++ [v]) := by
  intro pre u post e l hl hd
  rcases List.eq_nil_or_concat post with rfl | ⟨post', x, rfl⟩
  · have h1 : pre ++ [u] = L ++ [v] := by simpa using e.symm
    obtain ⟨rfl, h2⟩ := List.append_inj' h1 rfl
    cases h2
    exact hv l hl hd
  · have h1 : L ++ [v] = (pre ++ u :: post') ++ [x] := by rw [e]; simp
    obtain ⟨rfl, _⟩ := List.append_inj' h1 rfl
    exact h pre u post' rfl l hl hd

structure RecInv (G : GateProblem) (cls : Nat → Clause) (s : RecOrder) : Prop where
  reach : ∀ u ∈ s.back, Reached G cls (fun _ => false) u
  defd : ∀ u ∈ s.seenOut, (G.gates u).out ≠ none
  ordered : Ordered G s.back
  inEq : ∀ w, w ∈ s.seenIn ↔ w ∈ s.inputs
  inNodup : s.inputs.Nodup
  inSpec : ∀ w ∈ s.inputs, (G.gates w).out = none ∧ ∃ u, Reached G cls (fun _ => false) u ∧ ∃ l ∈ (G.gates u).inp, l.var = w
  inAll : ∀ u ∈ s.back, ∀ l ∈ (G.gates u).inp, (G.gates l.var).out = none → l.var ∈ s.inputs
  bound : ∀ u ∈ s.back, u < s.numVars ∧ ∀ l ∈ (G.gates u).inp, l.var < s.numVars

/-- How a call changes the state. -/
structure RecStep (s s' : RecOrder) : Prop where
  back : ∀ u ∈ s.back, u ∈ s'.back
  closed : ∀ u ∈ s'.seenOut, u ∈ s'.back ∨ u ∈ s.seenOut
  inputs : ∀ u ∈ s.inputs, u ∈ s'.inputs
  seen : ∀ u ∈ s.seenOut, u ∈ s'.seenOut
  numVars : s.numVars ≤ s'.numVars

theorem RecStep.refl (s : RecOrder) : RecStep s s := ⟨fun _ h => h, fun _ h => .inr h, fun _ h => h, fun _ h => h, Nat.le_refl _⟩

theorem RecStep.trans {s t u : RecOrder} (h : RecStep s t) (h' : RecStep t u) : RecStep s u where
  back x hx := h'.back x (h.back x hx)
  closed x hx := (h'.closed x hx).elim .inl fun hx => (h.closed x hx).imp (h'.back x) id
  inputs x hx := h'.inputs x (h.inputs x hx)
  seen x hx := h'.seen x (h.seen x hx)
  numVars := Nat.le_trans h.numVars h'.numVars

variable {G : GateProblem} {cls : Nat → Clause}

theorem RecInv.sawVar {s : RecOrder} (h : RecInv G cls s) (v : Nat) : RecInv G cls (sawVar v s) :=
  { h with bound := fun u hu => ⟨Nat.lt_of_lt_of_le (h.bound u hu).1 (Nat.le_max_left _ _),
      fun l hl => Nat.lt_of_lt_of_le ((h.bound u hu).2 l hl) (Nat.le_max_left _ _)⟩ }

theorem sawVar_step (v : Nat) (s : RecOrder) : RecStep s (sawVar v s) :=
  { RecStep.refl s with numVars := Nat.le_max_left _ _ }

theorem sawVar_lt (v : Nat) (s : RecOrder) : v < (sawVar v s).numVars := Nat.lt_of_lt_of_le (Nat.lt_succ_self v) (Nat.le_max_right _ _)

/-- What is to be shown for a call of the recursive function. -/
def RecOk (G : GateProblem) (cls : Nat → Clause) (rank : Nat → Nat) (n : Nat) : Prop :=
  ∀ v s, rank v < n → RecInv G cls s → Reached G cls (fun _ => false) v → v < s.numVars →
    (∀ u ∈ s.seenOut, u ∈ s.back ∨ rank v < rank u) →
    ∃ s', recGate G n v s = some s' ∧ RecInv G cls s' ∧ RecStep s s' ∧ v ∈ s'.back

theorem recInputs_spec {rank : Nat → Nat} {n v : Nat} (hrank : ∀ l ∈ (G.gates v).inp, (G.gates l.var).out ≠ none → rank l.var < rank v)
    (hr : Reached G cls (fun _ => false) v) (hn : rank v ≤ n) (ih : RecOk G cls rank n) :
    ∀ (ls : List Lit), (∀ l ∈ ls, l ∈ (G.gates v).inp) → ∀ s, RecInv G cls s →
      (∀ u ∈ s.seenOut, u ∈ s.back ∨ rank v ≤ rank u) →
      ∃ s', ls.foldlM (recInput G (recGate G n)) s = some s' ∧ RecInv G cls s' ∧ RecStep s s' ∧
        ∀ l ∈ ls, ((G.gates l.var).out ≠ none → l.var ∈ s'.back) ∧ ((G.gates l.var).out = none → l.var ∈ s'.inputs) ∧ l.var < s'.numVars
  | [], _, s, h, _ => ⟨s, rfl, h, RecStep.refl s, by simp⟩
  | l :: ls, hsub, s, h, ho => by
    rw [List.forall_mem_cons] at hsub
    have key : ∃ s1, recInput G (recGate G n) s l = some s1 ∧ RecInv G cls s1 ∧ RecStep s s1 ∧
        ((G.gates l.var).out ≠ none → l.var ∈ s1.back) ∧ ((G.gates l.var).out = none → l.var ∈ s1.inputs) ∧ l.var < s1.numVars := by
      unfold recInput
      by_cases hd : (G.gates l.var).out = none
      · have hd' : (G.gates l.var).isDefined = false := by unfold Gate.isDefined; rw [hd]; rfl
        have hns : s.seenOut.contains l.var = false := by
          refine Bool.eq_false_iff.2 fun hc => ?_
          exact h.defd _ (List.contains_iff_mem.1 hc) hd
        rw [hd', hns]
        simp only [Bool.false_and, Bool.false_eq_true, if_false, Bool.not_false, Bool.true_and]
        by_cases hi : l.var ∈ s.inputs
        · rw [if_neg (by rw [List.contains_iff_mem.2 ((h.inEq _).2 hi)]; simp)]
          exact ⟨_, rfl, h.sawVar _, sawVar_step _ _, fun hx => (hx hd).elim, fun _ => hi, sawVar_lt _ _⟩
        · have hi' : s.seenIn.contains l.var = false := by
            refine Bool.eq_false_iff.2 fun hc => hi ((h.inEq _).1 (List.contains_iff_mem.1 hc))
          rw [if_pos (by rw [hi']; rfl)]
          have hb := (h.sawVar l.var).bound
          refine ⟨_, rfl, ⟨h.reach, h.defd, h.ordered, fun w => ?_, ?_, ?_, ?_, hb⟩, ⟨fun _ h => h, fun _ h => .inr h, fun _ h => ?_, fun _ h => h, ?_⟩,
            fun hx => (hx hd).elim, fun _ => ?_, sawVar_lt _ _⟩
          · simp only [List.mem_cons, List.mem_append, List.not_mem_nil, or_false, h.inEq]
            exact Or.comm
          · refine List.nodup_append.2 ⟨h.inNodup, by simp, fun a ha b hb => ?_⟩
            rw [List.mem_singleton] at hb
            subst hb
            exact fun e => hi (e ▸ ha)
          · intro w hw
            rcases List.mem_append.1 hw with hw | hw
            · exact h.inSpec w hw
            · rw [List.mem_singleton] at hw
              subst hw
              exact ⟨hd, v, hr, l, hsub.1, rfl⟩
          · exact fun u hu k hk hkd => List.mem_append_left _ (h.inAll u hu k hk hkd)
          · exact List.mem_append_left _ h
          · exact Nat.le_max_left _ _
          · exact List.mem_append_right _ (List.mem_singleton.2 rfl)
      · have hd' : (G.gates l.var).isDefined = true := by
          unfold Gate.isDefined; exact Option.isSome_iff_ne_none.2 hd
        have hlt := hrank l hsub.1 hd
        by_cases hs : l.var ∈ s.seenOut
        · rw [if_neg (by rw [List.contains_iff_mem.2 hs]; simp), if_neg (by rw [List.contains_iff_mem.2 hs]; simp)]
          have hb : l.var ∈ s.back := (ho _ hs).resolve_right (by omega)
          exact ⟨_, rfl, h.sawVar _, sawVar_step _ _, fun _ => hb, fun hx => (hd hx).elim, sawVar_lt _ _⟩
        · have hs' : s.seenOut.contains l.var = false := Bool.eq_false_iff.2 fun hc => hs (List.contains_iff_mem.1 hc)
          rw [if_pos (by rw [hd', hs']; rfl)]
          obtain ⟨s', g1, g2, g3, g4⟩ := ih l.var (ClauseOrder.sawVar l.var s) (by omega) (h.sawVar _) (.input hr hsub.1 hd rfl) (sawVar_lt _ _)
            (fun u hu => (ho u hu).imp id fun h => Nat.lt_of_lt_of_le hlt h)
          exact ⟨s', g1, g2, (sawVar_step _ _).trans g3, fun _ => g4, fun hx => (hd hx).elim, Nat.lt_of_lt_of_le (sawVar_lt _ _) g3.numVars⟩
    obtain ⟨s1, k1, k2, k3, k4, k5, k6⟩ := key
    obtain ⟨s', g1, g2, g3, g4⟩ := recInputs_spec hrank hr hn ih ls hsub.2 s1 k2 (fun u hu =>
      (k3.closed u hu).elim .inl fun hu => (ho u hu).imp (k3.back u) id)
    refine ⟨s', ?_, g2, k3.trans g3, ?_⟩
    · rw [List.foldlM_cons, k1]
      exact g1
    · rw [List.forall_mem_cons]
      exact ⟨⟨fun hx => g3.back _ (k4 hx), fun hx => g3.inputs _ (k5 hx), Nat.lt_of_lt_of_le k6 g3.numVars⟩, g4⟩

theorem recGate_spec {rank : Nat → Nat} (hrank : ∀ v, ∀ l ∈ (G.gates v).inp, (G.gates l.var).out ≠ none → rank l.var < rank v) :
    ∀ n, RecOk G cls rank n
  | 0 => fun _ _ h => absurd h (Nat.not_lt_zero _)
  | n + 1 => by
    intro v s hn h hr hv ho
    have h0 : RecInv G cls { s with seenOut := v :: s.seenOut } :=
      { h with defd := fun u hu => (List.mem_cons.1 hu).elim (fun e => e ▸ (GateProblem.reached_defined hr).1) (h.defd u) }
    obtain ⟨s', g1, g2, g3, g4⟩ := recInputs_spec (hrank v) hr (by omega) (recGate_spec hrank n) (G.gates v).inp (fun _ h => h)
      { s with seenOut := v :: s.seenOut } h0 (fun u hu => by
        rcases List.mem_cons.1 hu with rfl | hu
        · exact .inr (Nat.le_refl _)
        · exact (ho u hu).imp id Nat.le_of_lt)
    unfold recGate
    rw [g1, Option.map_some]
    refine ⟨_, rfl, ⟨?_, g2.defd, ?_, g2.inEq, g2.inNodup, g2.inSpec, ?_, ?_⟩, ⟨?_, ?_, g3.inputs, ?_, g3.numVars⟩, ?_⟩
    · intro u hu
      rcases List.mem_append.1 hu with hu | hu
      · exact g2.reach u hu
      · rw [List.mem_singleton.1 hu]; exact hr
    · exact g2.ordered.snoc fun l hl hd => (g4 l hl).1 hd
    · intro u hu
      rcases List.mem_append.1 hu with hu | hu
      · exact g2.inAll u hu
      · rw [List.mem_singleton.1 hu]
        exact fun l hl hd => (g4 l hl).2.1 hd
    · intro u hu
      rcases List.mem_append.1 hu with hu | hu
      · exact g2.bound u hu
      · rw [List.mem_singleton.1 hu]
        exact ⟨Nat.lt_of_lt_of_le hv g3.numVars, fun l hl => (g4 l hl).2.2⟩
    · exact fun u hu => List.mem_append_left _ (g3.back u hu)
    · intro u hu
      rcases g3.closed u hu with hu | hu
      · exact .inl (List.mem_append_left _ hu)
      · rcases List.mem_cons.1 hu with rfl | hu
        · exact .inl (List.mem_append_right _ (List.mem_singleton.2 rfl))
        · exact .inr hu
    · exact fun u hu => g3.seen u (List.mem_cons_of_mem _ hu)
    · exact List.mem_append_right _ (List.mem_singleton.2 rfl)

theorem recRoots_spec {rank : Nat → Nat} (hrank : ∀ v, ∀ l ∈ (G.gates v).inp, (G.gates l.var).out ≠ none → rank l.var < rank v)
    {n : Nat} : ∀ (ls : List Lit), (∀ l ∈ ls, ∃ i ∈ G.roots, l ∈ cls i) → (∀ l ∈ ls, (G.gates l.var).out ≠ none → rank l.var < n) →
      ∀ s, RecInv G cls s → (∀ u ∈ s.seenOut, u ∈ s.back) →
      ∃ s', ls.foldlM (recRoot G n) s = some s' ∧ RecInv G cls s' ∧ RecStep s s' ∧ (∀ u ∈ s'.seenOut, u ∈ s'.back) ∧
        ∀ l ∈ ls, (G.gates l.var).out ≠ none → l.var ∈ s'.back
  | [], _, _, s, h, ho => ⟨s, rfl, h, RecStep.refl s, ho, by simp⟩
  | l :: ls, hsub, hn, s, h, ho => by
    rw [List.forall_mem_cons] at hsub hn
    have key : ∃ s1, recRoot G n s l = some s1 ∧ RecInv G cls s1 ∧ RecStep s s1 ∧
        ((G.gates l.var).out ≠ none → l.var ∈ s1.back) := by
      unfold recRoot
      by_cases hd : (G.gates l.var).out = none
      · have hd' : (G.gates l.var).isDefined = false := by unfold Gate.isDefined; rw [hd]; rfl
        rw [hd']
        exact ⟨_, rfl, h.sawVar _, sawVar_step _ _, fun hx => (hx hd).elim⟩
      · have hd' : (G.gates l.var).isDefined = true := by
          unfold Gate.isDefined; exact Option.isSome_iff_ne_none.2 hd
        rw [if_pos hd']
        obtain ⟨i, hi, hl⟩ := hsub.1
        obtain ⟨s', g1, g2, g3, g4⟩ := recGate_spec hrank n l.var (ClauseOrder.sawVar l.var s) (hn.1 hd) (h.sawVar _) (.root hi hl hd rfl)
          (sawVar_lt _ _) (fun u hu => .inl (ho u hu))
        exact ⟨s', g1, g2, (sawVar_step _ _).trans g3, fun _ => g4⟩
    obtain ⟨s1, k1, k2, k3, k4⟩ := key
    obtain ⟨s', g1, g2, g3, g4, g5⟩ := recRoots_spec hrank ls hsub.2 hn.2 s1 k2 (fun u hu =>
      (k3.closed u hu).elim id fun hu => k3.back u (ho u hu))
    refine ⟨s', ?_, g2, k3.trans g3, g4, ?_⟩
    · rw [List.foldlM_cons, k1]
      exact g1
    · rw [List.forall_mem_cons]
      exact ⟨fun hx => g3.back _ (k4 hx), g5⟩

/-- The gates a filter lets through. -/
def passing (G : GateProblem) (filter : Option (List Nat)) (v : Nat) : Bool :=
  match (G.gates v).out with
  | none => false
  | some o => passes G filter (G.gates v) o

theorem foldl_backtrackF (G : GateProblem) (filter : Option (List Nat)) : ∀ (L : List Nat), (∀ v ∈ L, ∃ o : Lit, o.var = v ∧ (G.gates v).out = some o) →
    ∀ s : ClauseOrder, let O := L.foldl (fun s v => ClauseOrder.backtrack G filter v s) s
    O.inputs = s.inputs ∧ O.numVars = s.numVars ∧
    (∀ v, v ∈ L.filter (passing G filter) → O.clauses v = some (if usedFwd (G.gates v) then (G.gates v).fwd else (G.gates v).bwd)) ∧
    (∀ v, v ∉ L.filter (passing G filter) → O.clauses v = s.clauses v) ∧
    ∃ os, O.outputs = s.outputs ++ os ∧ os.map Lit.var = L.filter (passing G filter) ∧
      ∀ u ∈ os, (G.gates u.var).out = some (if usedFwd (G.gates u.var) then u.neg else u)
  | [], _, s => ⟨rfl, rfl, by simp, by simp, [], by simp⟩
  | v :: L, hd, s => by
    dsimp only
    rw [List.forall_mem_cons] at hd
    obtain ⟨⟨o, ho, hout⟩, hd⟩ := hd
    rw [List.foldl_cons]
    obtain ⟨h1, h2, h3, h4, os, h5, h6, h7⟩ := foldl_backtrackF G filter L hd (ClauseOrder.backtrack G filter v s)
    have hpv : passing G filter v = passes G filter (G.gates v) o := by unfold passing; rw [hout]
    by_cases hp : passes G filter (G.gates v) o = true
    · have hf : (v :: L).filter (passing G filter) = v :: L.filter (passing G filter) := List.filter_cons_of_pos (by rw [hpv]; exact hp)
      rw [hf]
      have e : ∃ u, u.var = v ∧ (G.gates v).out = some (if usedFwd (G.gates v) then u.neg else u) ∧ ClauseOrder.backtrack G filter v s =
          { s with outputs := s.outputs ++ [u]
                   clauses := upd s.clauses v (some (if usedFwd (G.gates v) then (G.gates v).fwd else (G.gates v).bwd)) } := by
        unfold ClauseOrder.backtrack
        rw [hout]
        dsimp only
        rw [hp]
        simp only [Bool.not_true, Bool.false_eq_true, if_false]
        by_cases hu : usedFwd (G.gates v) = true
        · refine ⟨o.neg, ho, by simp [hu], ?_⟩
          simp only [hu, if_true]
          unfold usedFwd at hu
          rw [if_pos hu, ho]
        · refine ⟨o, ho, by simp [hu], ?_⟩
          simp only [hu]
          unfold usedFwd at hu
          rw [if_neg hu, ho]
          simp
      obtain ⟨u, hu1, hu2, e⟩ := e
      rw [e] at h1 h2 h3 h4 h5 ⊢
      refine ⟨h1, h2, fun w hw => ?_, fun w hw => ?_, u :: os, by rw [h5]; simp, by rw [List.map_cons, hu1, h6], ?_⟩
      · by_cases hwL : w ∈ L.filter (passing G filter)
        · exact h3 w hwL
        · rw [h4 w hwL]
          rcases List.mem_cons.1 hw with rfl | hw
          · exact upd_same _ _ _
          · exact (hwL hw).elim
      · rw [List.mem_cons, not_or] at hw
        rw [h4 w hw.2]
        exact upd_ne _ _ hw.1
      · intro x hx
        rcases List.mem_cons.1 hx with rfl | hx
        · rw [hu1]; exact hu2
        · exact h7 x hx
    · have hf : (v :: L).filter (passing G filter) = L.filter (passing G filter) := List.filter_cons_of_neg (by rw [hpv]; exact hp)
      rw [hf]
      have e : ClauseOrder.backtrack G filter v s = s := by
        unfold ClauseOrder.backtrack
        rw [hout]
        dsimp only
        rw [if_pos (by simpa using hp)]
      rw [e] at h1 h2 h3 h4 h5 ⊢
      exact ⟨h1, h2, h3, h4, os, h5, h6, h7⟩

end ClauseOrder

namespace SimVectors

/-- Evaluation in an order with repetitions: the values of all gates fit the final values of the variables of their
clauses, if every variable of a clause of a gate that is evaluated later has been evaluated before. `done` are the
gates evaluated already. -/
theorem propagateGates_eqn_repeated {cls : Nat → Clause} {O : ClauseOrder} : ∀ (os done : List Lit) {A A' : SimVectors},
    propagateGates cls O os A = some A' →
    (∀ u ∈ done ++ os, ∀ w ∈ done ++ os, u.var = w.var → u = w) →
    (∀ pre o post, done ++ os = pre ++ o :: post → ∀ is, O.clauses o.var = some is → ∀ c ∈ is.map cls, ∀ l ∈ c, l.var ≠ o.var →
      l.var ∈ post.map Lit.var → l.var ∈ pre.map Lit.var) →
    (∀ o ∈ done, ∃ is, O.clauses o.var = some is ∧ ∀ (i : Fin 32) (j : Nat), j < 64 → (o.neg.holds (A.lane i j) ↔
        ∀ c ∈ is.map cls, ∃ l ∈ c, l.var ≠ o.var ∧ l.holds (A.lane i j))) →
    ∀ o ∈ done ++ os, ∃ is, O.clauses o.var = some is ∧ ∀ (i : Fin 32) (j : Nat), j < 64 → (o.neg.holds (A'.lane i j) ↔
        ∀ c ∈ is.map cls, ∃ l ∈ c, l.var ≠ o.var ∧ l.holds (A'.lane i j))
  | [], done, A, A', h, _, _, hd => by
    cases h
    simpa using hd
  | x :: os, done, A, A', h, hinj, hord, hd => by
    simp only [propagateGates] at h
    split at h
    · cases h
    · rename_i B hB
      obtain ⟨_, hfr, is, his, heq⟩ := propagateGate_spec hB
      have e : done ++ x :: os = (done ++ [x]) ++ os := by simp
      -- the equation of the gate just evaluated
      have hx : ∀ (i : Fin 32) (j : Nat), j < 64 → (x.neg.holds (B.lane i j) ↔
          ∀ c ∈ is.map cls, ∃ l ∈ c, l.var ≠ x.var ∧ l.holds (B.lane i j)) := by
        intro i j hj
        rw [heq i j hj]
        have : ∀ l : Lit, l.var ≠ x.var → (l.holds (B.lane i j) ↔ l.holds (A.lane i j)) := fun l hl => by
          unfold Lit.holds lane
          rw [hfr _ hl]
        constructor
        · intro hs c hc
          obtain ⟨l, hl, hne, hh⟩ := hs c hc
          exact ⟨l, hl, hne, (this l hne).2 hh⟩
        · intro hs c hc
          obtain ⟨l, hl, hne, hh⟩ := hs c hc
          exact ⟨l, hl, hne, (this l hne).1 hh⟩
      have hlane : x.var ∈ done.map Lit.var → ∀ (i : Fin 32) (j : Nat), j < 64 → B.lane i j = A.lane i j := by
        intro hm i j hj
        obtain ⟨u, hu, eu⟩ := List.mem_map.1 hm
        have eu : u = x := hinj u (List.mem_append_left _ hu) x (List.mem_append_right _ List.mem_cons_self) eu
        subst eu
        obtain ⟨is', his', h2⟩ := hd u hu
        rw [his] at his'
        cases his'
        have h1 : u.neg.holds (B.lane i j) ↔ u.neg.holds (A.lane i j) := (heq i j hj).trans (h2 i j hj).symm
        funext w
        by_cases hw : w = u.var
        · subst hw
          simp only [Lit.holds, Lit.neg] at h1
          revert h1
          cases B.lane i j u.var <;> cases A.lane i j u.var <;> cases u.sign <;> simp
        · unfold lane
          rw [hfr w hw]
      rw [e]
      refine propagateGates_eqn_repeated os (done ++ [x]) h (by rw [← e]; exact hinj) (by rw [← e]; exact hord) ?_
      intro o ho
      by_cases hox : o.var = x.var
      · have : o = x := hinj o (by rw [e]; exact List.mem_append_left _ ho) x (List.mem_append_right _ List.mem_cons_self) hox
        subst this
        exact ⟨is, his, hx⟩
      · have ho' : o ∈ done := by
          rcases List.mem_append.1 ho with ho | ho
          · exact ho
          · exact (hox (by rw [List.mem_singleton.1 ho])).elim
        obtain ⟨is', his', h2⟩ := hd o ho'
        refine ⟨is', his', fun i j hj => ?_⟩
        by_cases hm : x.var ∈ done.map Lit.var
        · rw [hlane hm i j hj]
          exact h2 i j hj
        · have h1 : o.neg.holds (B.lane i j) ↔ o.neg.holds (A.lane i j) := by
            unfold Lit.holds lane Lit.neg
            rw [hfr _ hox]
          rw [h1, h2 i j hj]
          obtain ⟨pre, post, e'⟩ := List.append_of_mem ho'
          have hnot : ∀ c ∈ is'.map cls, ∀ l ∈ c, l.var ≠ o.var → l.var ≠ x.var := by
            intro c hc l hl hne hlx
            have := hord pre o (post ++ x :: os) (by rw [e']; simp) is' his' c hc l hl hne (by rw [hlx]; simp)
            rw [hlx] at this
            exact hm (by rw [e', List.map_append]; exact List.mem_append_left _ this)
          have : ∀ c ∈ is'.map cls, ∀ l ∈ c, l.var ≠ o.var → (l.holds (B.lane i j) ↔ l.holds (A.lane i j)) := fun c hc l hl hne => by
            unfold Lit.holds lane
            rw [hfr _ (hnot c hc l hl hne)]
          constructor
          · intro hs c hc
            obtain ⟨l, hl, hne, hh⟩ := hs c hc
            exact ⟨l, hl, hne, (this c hc l hl hne).2 hh⟩
          · intro hs c hc
            obtain ⟨l, hl, hne, hh⟩ := hs c hc
            exact ⟨l, hl, hne, (this c hc l hl hne).1 hh⟩

end SimVectors

end Candy
