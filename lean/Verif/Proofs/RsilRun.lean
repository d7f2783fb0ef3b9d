import Verif.Proofs.Rsil

/-! Lemmas about implicit learning over time: budgets, random numbers, half-life. -/

namespace Candy

/-! ### The random numbers -/

theorem xorShiftRight_eq_zero {s : BitVec 64} {k m : Nat} (hm : 64 ≤ k * m) (h : s ^^^ (s >>> k) = 0) : s = 0 := by
  have h1 : s = s >>> k := by
    have := congrArg (fun x => x ^^^ (s >>> k)) h
    simpa [BitVec.xor_assoc] using this
  have h2 : ∀ n, s = s >>> (k * n) := by
    intro n
    induction n with
    | zero => simp
    | succ n ih =>
      rw [Nat.mul_succ, BitVec.shiftRight_add, ← ih]
      exact h1
  rw [h2 m]
  exact BitVec.ushiftRight_eq_zero hm

theorem xorShiftLeft_eq_zero {s : BitVec 64} {k m : Nat} (hm : 64 ≤ k * m) (h : s ^^^ (s <<< k) = 0) : s = 0 := by
  have h1 : s = s <<< k := by
    have := congrArg (fun x => x ^^^ (s <<< k)) h
    simpa [BitVec.xor_assoc] using this
  have h2 : ∀ n, s = s <<< (k * n) := by
    intro n
    induction n with
    | zero => simp
    | succ n ih =>
      rw [Nat.mul_succ, BitVec.shiftLeft_add, ← ih]
      exact h1
  rw [h2 m]
  exact BitVec.shiftLeft_eq_zero hm

/-- The generator has no way into the state 0, from which it could not get out. -/
theorem fastNextRand_eq_zero {s : BitVec 64} (h : fastNextRand s = 0) : s = 0 := by
  unfold fastNextRand at h
  dsimp only at h
  have hmul : ∀ x : BitVec 64, x * 2685821657736338717#64 = 0 → x = 0 := by
    intro x hx
    have h1 := congrArg (fun y => y * 6415128727920758069#64) hx
    simp only [BitVec.mul_assoc] at h1
    rw [show 2685821657736338717#64 * 6415128727920758069#64 = 1#64 from by decide] at h1
    simpa using h1
  exact xorShiftRight_eq_zero (m := 6) (by omega) (xorShiftLeft_eq_zero (m := 3) (by omega)
    (xorShiftRight_eq_zero (m := 3) (by omega) (hmul _ h)))

namespace Rsil

/-! ### Calls -/

/-- The advice of variable `v` at position `i` was used. -/
def use (r : Rsil) (v i : Nat) : Rsil := { r with entry := upd r.entry v (used r.opt (r.entry v) i) }

/-- A call of the heuristic, and the position of the advice it used, if any. -/
inductive Call (r : Rsil) : Option (Nat × Nat) → Rsil → Prop
  /-- no advice for the literals of the last decision level -/
  | noAdvice (T : Trail) (h : r.pickFirst T = some (r.draw.1, none)) : Call r none r.draw.1
  /-- the literal `p` is advised because of the literal `q` of the last decision level -/
  | advice (T : Trail) (p q : Lit) (i : Nat) (hq : q ∈ lastLevel T)
      (h : r.pickFirst T = some (r.draw.1.use q.var i, some p)) (hc : canUse r.opt (r.draw.1.entry q.var) i = true) :
      Call r (some (q.var, i)) (r.draw.1.use q.var i)
  /-- the literal is kept -/
  | noSign (p : Lit) (h : r.pickSign p = (r.draw.1, p)) : Call r none r.draw.1
  /-- the sign is advised -/
  | sign (p p' : Lit) (h : r.pickSign p = (r.draw.1.use p.var 0, p'))
      (hc : canUse r.opt (r.draw.1.entry p.var) 0 = true) : Call r (some (p.var, 0)) (r.draw.1.use p.var 0)

theorem pickFirst_call {r r' : Rsil} {T : Trail} {o : Option Lit} (hb : ∀ v, ∀ l ∈ (r.entry v).lits, l.var < T.nVars)
    (h : r.pickFirst T = some (r', o)) : ∃ u, Call r u r' ∧ u.isSome = o.isSome := by
  obtain ⟨r1, o1, e1, _, e3, e4⟩ := pickFirst_spec hb
  rw [h] at e1
  cases e1
  cases o with
  | none => have := e3 rfl; subst this; exact ⟨none, .noAdvice T h, rfl⟩
  | some p =>
    obtain ⟨_, g⟩ := e4 p rfl
    obtain ⟨c, hc, _, _, l, i, _, hu, _, rfl⟩ := g.src
    rw [(same_draw r).opt] at hu
    exact ⟨some (c.var, i), .advice T p c i hc h hu, rfl⟩

theorem pickSign_call (r : Rsil) (p : Lit) : ∃ u, Call r u (r.pickSign p).1 ∧ ((r.pickSign p).2 ≠ p → u.isSome = true) := by
  have hcase : (r.pickSign p = (r.draw.1, p)) ∨ ∃ p', r.pickSign p = (r.draw.1.use p.var 0, p') ∧
      canUse r.opt (r.draw.1.entry p.var) 0 = true := by
    unfold pickSign
    split
    · rcases signAdvice_spec r.draw.1 p with h | ⟨l, _, _, _, _, hu, h⟩
      · exact .inl h
      · rw [(same_draw r).opt] at hu
        exact .inr ⟨l.neg, h, hu⟩
    · exact .inl rfl
  rcases hcase with h | ⟨p', h, hu⟩
  · refine ⟨none, ?_, ?_⟩
    · have := Call.noSign p h; rwa [h]
    · rw [h]; exact fun h => absurd rfl h
  · refine ⟨some (p.var, 0), ?_, fun _ => rfl⟩
    have := Call.sign p p' h hu; rwa [h]

/-- Calls in a row: their number, and the positions of the advice used. -/
inductive Calls (r : Rsil) : Nat → List (Nat × Nat) → Rsil → Prop
  | nil : Calls r 0 [] r
  | snoc {n : Nat} {us : List (Nat × Nat)} {r' r'' : Rsil} {u : Option (Nat × Nat)} (h : Calls r n us r')
      (hc : Call r' u r'') : Calls r (n + 1) (us ++ u.toList) r''

theorem Call.cases {r r' : Rsil} {u : Option (Nat × Nat)} (h : Call r u r') :
    (u = none ∧ r' = r.draw.1) ∨ ∃ v i, u = some (v, i) ∧ r' = r.draw.1.use v i ∧
      canUse r.opt (r.draw.1.entry v) i = true := by
  cases h with
  | noAdvice T h => exact .inl ⟨rfl, rfl⟩
  | advice T p q i hq h hc => exact .inr ⟨_, _, rfl, rfl, hc⟩
  | noSign p h => exact .inl ⟨rfl, rfl⟩
  | sign p p' h hc => exact .inr ⟨_, _, rfl, rfl, hc⟩

theorem draw_entry (r : Rsil) : r.draw.1.entry = r.entry := by unfold draw; split <;> rfl

theorem Call.opt {r r' : Rsil} {u : Option (Nat × Nat)} (h : Call r u r') : r'.opt = r.opt := by
  rcases h.cases with ⟨_, rfl⟩ | ⟨v, i, _, rfl, _⟩
  · exact (same_draw r).opt
  · exact (same_draw r).opt

theorem Calls.opt {r r' : Rsil} {n : Nat} {us : List (Nat × Nat)} (h : Calls r n us r') : r'.opt = r.opt := by
  induction h with
  | nil => rfl
  | snoc h hc ih => rw [hc.opt, ih]

/-- Budgets are an account of the uses. -/
theorem Calls.budget {r r' : Rsil} {n : Nat} {us : List (Nat × Nat)} (hm : r.opt.mode = .budgeted)
    (h : Calls r n us r') (v i : Nat) :
    (r'.entry v).budgets i = (r.entry v).budgets i - us.count (v, i) ∧
      (us.count (v, i) ≠ 0 → 0 ≤ (r'.entry v).budgets i) := by
  induction h with
  | nil => simp
  | @snoc n us r1 r2 u h hc ih =>
    have hm' : r1.opt.mode = .budgeted := by rw [h.opt]; exact hm
    rcases hc.cases with ⟨rfl, rfl⟩ | ⟨w, j, rfl, rfl, hu⟩
    · rw [draw_entry]; simpa using ih
    · rw [draw_entry] at hu
      simp only [canUse, hm', bne_self_eq_false, Bool.false_or, decide_eq_true_eq] at hu
      have hopt : r1.draw.1.opt.mode = .budgeted := by rw [(same_draw r1).opt]; exact hm'
      simp only [use, draw_entry, upd, used, hopt, if_true, Option.toList_some, List.count_append]
      by_cases hv : v = w
      · subst hv
        rw [if_pos rfl]
        dsimp only [upd]
        by_cases hi : i = j
        · subst hi
          rw [if_pos rfl]
          have : List.count (v, i) [(v, i)] = 1 := by simp
          rw [this, Int.natCast_add]
          refine ⟨by have := ih.1; omega, fun _ => by omega⟩
        · rw [if_neg hi]
          have : List.count (v, i) [(v, j)] = 0 := by
            rw [List.count_eq_zero]; simp [hi]
          rw [this]
          exact ih
      · rw [if_neg hv]
        have : List.count (v, i) [(w, j)] = 0 := by
          rw [List.count_eq_zero]; simp [hv]
        rw [this]
        exact ih

/-- The mask and the counter after `n` calls. -/
theorem Calls.mask {r r' : Rsil} {n : Nat} {us : List (Nat × Nat)} (hm : r.opt.mode = .vanishing)
    (hH : 0 < r.opt.halfLife.toNat) (h0 : r.mask = 0) (h1 : r.counter = r.opt.halfLife) (h : Calls r n us r') :
    r'.mask = BitVec.ofNat 64 (2 ^ (n / r.opt.halfLife.toNat) - 1) ∧
      r'.counter.toNat = r.opt.halfLife.toNat - n % r.opt.halfLife.toNat := by
  induction h with
  | nil => simp [h0, h1]
  | @snoc n us r1 r2 u h hc ih =>
    have hopt := h.opt
    have hm' : r1.opt.mode = .vanishing := by rw [hopt]; exact hm
    have hd : r2.mask = r1.draw.1.mask ∧ r2.counter = r1.draw.1.counter := by
      rcases hc.cases with ⟨_, rfl⟩ | ⟨v, i, _, rfl, _⟩ <;> exact ⟨rfl, rfl⟩
    rw [hd.1, hd.2]
    simp only [draw, hm', if_true]
    obtain ⟨ih1, ih2⟩ := ih
    rw [hopt]
    generalize r.opt.halfLife = H at *
    have hlt : n % H.toNat < H.toNat := Nat.mod_lt _ hH
    have hHb : H.toNat < 2 ^ 64 := H.isLt
    have hc1 : (r1.counter - 1).toNat = H.toNat - n % H.toNat - 1 := by
      rw [BitVec.toNat_sub, ih2]
      simp only [BitVec.ofNat_eq_ofNat, BitVec.toNat_ofNat]
      omega
    have hdm := Nat.div_add_mod n H.toNat
    by_cases hz : r1.counter - 1 = 0
    · rw [if_pos hz, if_pos hz]
      rw [hz] at hc1
      have hc1 : 0 = H.toNat - n % H.toNat - 1 := by simpa using hc1
      have he : n + 1 = H.toNat * (n / H.toNat + 1) := by
        rw [Nat.mul_add]; omega
      have hdiv : (n + 1) / H.toNat = n / H.toNat + 1 := by
        rw [he, Nat.mul_div_cancel_left _ hH]
      have hmod : (n + 1) % H.toNat = 0 := by rw [he]; exact Nat.mul_mod_right _ _
      rw [hdiv, hmod]
      refine ⟨?_, rfl⟩
      rw [ih1]
      apply BitVec.eq_of_getLsbD_eq
      intro i hi
      simp only [BitVec.getLsbD_or, BitVec.getLsbD_shiftLeft, BitVec.getLsbD_ofNat, Nat.testBit_two_pow_sub_one]
      have h1b : (1 : BitVec 64).getLsbD i = decide (i = 0) := by
        simp
      rw [h1b]
      cases i with
      | zero => simp
      | succ i =>
        have : i < 64 := by omega
        simp [hi, this]
    · rw [if_neg hz, if_neg hz]
      have hne : H.toNat - n % H.toNat - 1 ≠ 0 := by
        intro h; apply hz; apply BitVec.eq_of_toNat_eq; rw [hc1, h]; rfl
      have he : n + 1 = (n % H.toNat + 1) + H.toNat * (n / H.toNat) := by omega
      have hdiv : (n + 1) / H.toNat = n / H.toNat := by
        rw [he, Nat.add_mul_div_left _ _ hH, Nat.div_eq_of_lt (by omega)]; omega
      have hmod : (n + 1) % H.toNat = n % H.toNat + 1 := by
        rw [he, Nat.add_mul_mod_self_left, Nat.mod_eq_of_lt (by omega)]
      rw [hdiv, hmod, hc1]
      exact ⟨ih1, by omega⟩

theorem Calls.rng {r r' : Rsil} {n : Nat} {us : List (Nat × Nat)} (h0 : r.rng ≠ 0) (h : Calls r n us r') : r'.rng ≠ 0 := by
  induction h with
  | nil => exact h0
  | @snoc n us r1 r2 u h hc ih =>
    have hd : r2.rng = r1.draw.1.rng := by
      rcases hc.cases with ⟨_, rfl⟩ | ⟨v, i, _, rfl, _⟩ <;> rfl
    rw [hd]
    unfold draw
    split
    · exact fun h => ih (fastNextRand_eq_zero h)
    · exact ih

theorem fill_frame (r : Rsil) : Frame r r.fillBudgets := by
  unfold fillBudgets
  split
  · exact ⟨rfl, rfl, rfl, rfl, rfl, rfl, rfl, rfl⟩
  · exact .refl r

/-- Random numbers and half-life are not touched by initialisation. -/
theorem init_random {r r' : Rsil} {c : Option Conj} {nv : Nat} (h : r.init c nv = some r') :
    r'.opt = r.opt ∧ r'.counter = r.counter ∧ r'.mask = r.mask ∧ r'.rng = r.rng := by
  unfold init at h
  obtain ⟨r1, h1, rfl⟩ := Option.map_eq_some_iff.1 h
  have hf := fill_frame r1
  rw [hf.opt, hf.counter, hf.mask, hf.rng]
  split at h1
  · cases h1; exact ⟨rfl, rfl, rfl, rfl⟩
  · split at h1
    · cases h1; exact ⟨rfl, rfl, rfl, rfl⟩
    · obtain ⟨r2, h2, h1⟩ := Option.bind_eq_some_iff.1 h1
      have g1 : ∀ (cs : List (List Lit)) (r r' : Rsil), addEquivalences cs r = some r' → Frame r r' := by
        intro cs
        induction cs with
        | nil => intro r r' h; cases h; exact .refl r
        | cons c cs ih =>
          intro r r' h
          unfold addEquivalences at h
          split at h
          · obtain ⟨r1, h1, h⟩ := Option.bind_eq_some_iff.1 h
            exact (addEquivalence_frame _ _ _ h1).1.trans (ih _ _ h)
          · exact ih _ _ h
      have g2 : ∀ (ls : List Lit) (r r' : Rsil), addBackbones ls r = some r' → Frame r r' := by
        intro ls
        induction ls with
        | nil => intro r r' h; cases h; exact .refl r
        | cons l ls ih =>
          intro r r' h
          unfold addBackbones at h
          obtain ⟨r1, h1, h⟩ := Option.bind_eq_some_iff.1 h
          refine Frame.trans ?_ (ih _ _ h)
          unfold addBackbone at h1
          split at h1
          · obtain ⟨e, _, rfl⟩ := Option.map_eq_some_iff.1 h1
            exact ⟨rfl, rfl, rfl, rfl, rfl, rfl, rfl, rfl⟩
          · cases h1
      have := (g1 _ _ _ h2).trans (g2 _ _ _ h1)
      exact ⟨this.opt, this.counter, this.mask, this.rng⟩

/-- After initialisation every stored literal has the full budget. -/
theorem init_budget {r r' : Rsil} {c : Option Conj} {nv : Nat} (hm : r.opt.mode = .budgeted) (h : r.init c nv = some r')
    {v i : Nat} (hv : v < r'.size) (hi : i < (r'.entry v).lits.length) : (r'.entry v).budgets i = r.opt.budget.toInt := by
  have ho := (init_random h).1
  unfold init at h
  obtain ⟨r1, h1, rfl⟩ := Option.map_eq_some_iff.1 h
  have hs := same_fill r1
  rw [hs.size] at hv
  rw [hs.lits] at hi
  rw [hs.opt] at ho
  unfold fillBudgets
  rw [if_pos (by rw [ho]; exact hm)]
  dsimp only
  rw [if_pos ⟨hv, hi⟩, ho]

end Rsil

end Candy
