import Verif.Model.Stamp

/-!
# C31: stamps behave like a set with constant-time clear
-/

namespace Candy

/-- Calls on a stamp. -/
inductive StampOp where
  | set (i : Nat)
  | unset (i : Nat)
  | clear
  | grow1
  | grow (n : Nat)
deriving DecidableEq, Repr

/-- One call. -/
def StampOp.apply (max : Nat) (s : Stamp) : StampOp → Option Stamp
  | .set i => s.set i
  | .unset i => s.unset i
  | .clear => some (s.clear max)
  | .grow1 => some s.grow1
  | .grow n => some (s.grow n)

/-- A history of calls; `none` if one of them leaves the bounds of the array. -/
def Stamp.run (max : Nat) (s : Stamp) : List StampOp → Option Stamp
  | [] => some s
  | op :: ops => (op.apply max s).bind fun s' => Stamp.run max s' ops

/-- Specification: `i` was set, and since then neither unset nor was everything cleared. -/
def StampOp.Marked (ops : List StampOp) (i : Nat) : Prop :=
  ∃ pre post, ops = pre ++ .set i :: post ∧ .clear ∉ post ∧ .unset i ∉ post

/-- Specification: number of indices available after a history. -/
def StampOp.size (n : Nat) : List StampOp → Nat
  | [] => n
  | .grow1 :: ops => StampOp.size (n + 1) ops
  | .grow m :: ops => StampOp.size (Nat.max n m) ops
  | _ :: ops => StampOp.size n ops

theorem Stamp.run_snoc (max : Nat) (ops : List StampOp) (op : StampOp) : ∀ s : Stamp,
    Stamp.run max s (ops ++ [op]) = (Stamp.run max s ops).bind fun s' => op.apply max s' := by
  induction ops with
  | nil => intro s; simp [Stamp.run]
  | cons o os ih =>
    intro s
    simp only [List.cons_append, Stamp.run, Option.bind_assoc]
    exact congrArg _ (funext fun s' => ih s')

theorem StampOp.marked_snoc (ops : List StampOp) (op : StampOp) (i : Nat) :
    StampOp.Marked (ops ++ [op]) i ↔
      op = .set i ∨ (op ≠ .clear ∧ op ≠ .unset i ∧ StampOp.Marked ops i) := by
  constructor
  · rintro ⟨pre, post, he, hc, hu⟩
    rcases List.eq_nil_or_concat post with rfl | ⟨post', o, rfl⟩
    · left
      have := congrArg List.getLast? he
      simpa using this
    · right
      simp only [List.concat_eq_append] at he hc hu
      have h1 : ops = pre ++ .set i :: post' ∧ [op] = [o] := by
        have : ops ++ [op] = (pre ++ .set i :: post') ++ [o] := by simpa using he
        exact List.append_inj' this rfl
      simp only [List.mem_append, List.mem_singleton, not_or] at hc hu
      obtain ⟨h1, h2⟩ := h1
      have h2 : op = o := by simpa using h2
      subst h2
      exact ⟨fun h => hc.2 h.symm, fun h => hu.2 h.symm, pre, post', h1, hc.1, hu.1⟩
  · rintro (rfl | ⟨hc, hu, pre, post, rfl, h1, h2⟩)
    · exact ⟨ops, [], rfl, by simp, by simp⟩
    · refine ⟨pre, post ++ [op], by simp, ?_, ?_⟩
      · simp only [List.mem_append, List.mem_singleton, not_or]; exact ⟨h1, fun h => hc h.symm⟩
      · simp only [List.mem_append, List.mem_singleton, not_or]; exact ⟨h2, fun h => hu h.symm⟩

/-- Invariant of the representation relative to a set of marked indices. -/
structure Stamp.Inv (max : Nat) (s : Stamp) (M : Nat → Prop) : Prop where
  pos : 1 ≤ s.stamp
  le : s.stamp ≤ max
  bound : ∀ (i x : Nat), s.stamped[i]? = some x → x ≤ s.stamp
  iff : ∀ (i x : Nat), s.stamped[i]? = some x → (x = s.stamp ↔ M i)
  out : ∀ i, s.stamped.length ≤ i → ¬ M i

theorem Stamp.Inv.clear {max : Nat} (h1 : 1 ≤ max) {s : Stamp} {M : Nat → Prop}
    (h : s.Inv max M) : (s.clear max).Inv max (fun _ => False) := by
  unfold Stamp.clear
  split
  · next hlt =>
    refine ⟨by simp, hlt, fun i x hx => ?_, fun i x hx => ?_, fun _ _ => id⟩
    · have := h.bound i x hx; simp; omega
    · have := h.bound i x hx; simp; omega
  · refine ⟨by simp, by simpa using h1, fun i x hx => ?_, fun i x hx => ?_, fun _ _ => id⟩
    · simp at hx; omega
    · simp at hx; simp; omega

theorem Stamp.Inv.pad {max : Nat} {s : Stamp} {M : Nat → Prop} (h : s.Inv max M) (k : Nat) :
    Stamp.Inv max { s with stamped := s.stamped ++ List.replicate k 0 } M := by
  have key : ∀ i x, (s.stamped ++ List.replicate k 0)[i]? = some x →
      s.stamped[i]? = some x ∨ (s.stamped.length ≤ i ∧ x = 0) := by
    intro i x hx
    by_cases hi : i < s.stamped.length
    · rw [List.getElem?_append_left hi] at hx; exact .inl hx
    · rw [List.getElem?_append_right (by omega)] at hx
      have := List.mem_of_getElem? hx
      simp at this
      exact .inr ⟨by omega, this.2⟩
  have := h.pos
  refine ⟨h.pos, h.le, fun i x hx => ?_, fun i x hx => ?_, fun i hi => h.out i ?_⟩
  · rcases key i x hx with h' | ⟨_, rfl⟩
    · exact h.bound i x h'
    · exact Nat.zero_le _
  · rcases key i x hx with h' | ⟨hi, rfl⟩
    · exact h.iff i x h'
    · have := h.out i hi
      simp only [this, iff_false]
      show (0 : Nat) ≠ s.stamp
      omega
  · simp at hi; omega

theorem Stamp.Inv.write {max : Nat} {s : Stamp} {M : Nat → Prop} (h : s.Inv max M) {k v : Nat}
    (hk : k < s.stamped.length) (hv : v ≤ s.stamp) :
    Stamp.Inv max { s with stamped := s.stamped.set k v }
      (fun i => (i = k ∧ v = s.stamp) ∨ (i ≠ k ∧ M i)) := by
  have key : ∀ i x, (s.stamped.set k v)[i]? = some x →
      (i = k ∧ x = v) ∨ (i ≠ k ∧ s.stamped[i]? = some x) := by
    intro i x hx
    by_cases hik : i = k
    · subst hik; simp [hk] at hx; exact .inl ⟨rfl, hx.symm⟩
    · rw [List.getElem?_set_ne (fun e => hik e.symm)] at hx; exact .inr ⟨hik, hx⟩
  refine ⟨h.pos, h.le, fun i x hx => ?_, fun i x hx => ?_, fun i hi => ?_⟩
  · rcases key i x hx with ⟨_, rfl⟩ | ⟨_, h'⟩
    · exact hv
    · exact h.bound i x h'
  · rcases key i x hx with ⟨rfl, rfl⟩ | ⟨hik, h'⟩
    · simp
    · simpa [hik] using h.iff i x h'
  · simp at hi
    rintro (⟨rfl, -⟩ | ⟨_, hm⟩)
    · omega
    · exact h.out i hi hm

theorem Stamp.Inv.congr {max : Nat} {s : Stamp} {M N : Nat → Prop} (h : s.Inv max M)
    (e : ∀ i, M i ↔ N i) : s.Inv max N :=
  ⟨h.pos, h.le, h.bound, fun i x hx => (h.iff i x hx).trans (e i), fun i hi hn => h.out i hi ((e i).2 hn)⟩

theorem Stamp.inv_run {max : Nat} (h1 : 1 ≤ max) (s0 : Stamp) (h0 : s0.Inv max fun _ => False) :
    ∀ (n : Nat) (ops : List StampOp), ops.length = n → ∀ s, Stamp.run max s0 ops = some s →
      s.Inv max (StampOp.Marked ops) := by
  intro n
  induction n with
  | zero =>
    intro ops hl s hs
    have := List.length_eq_zero_iff.1 hl
    subst this
    obtain rfl : s0 = s := by simpa [Stamp.run] using hs
    exact h0.congr fun i => by
      constructor
      · exact False.elim
      · rintro ⟨pre, post, he, -⟩; simp at he
  | succ n ih =>
    intro ops hl s hs
    rcases List.eq_nil_or_concat ops with rfl | ⟨ops', op, rfl⟩
    · simp at hl
    simp only [List.concat_eq_append] at hl hs ⊢
    rw [Stamp.run_snoc, Option.bind_eq_some_iff] at hs
    obtain ⟨s', hs', hop⟩ := hs
    have hi := ih ops' (by simpa using hl) s' hs'
    refine Stamp.Inv.congr ?_ (fun i => (StampOp.marked_snoc ops' op i).symm)
    cases op with
    | set k =>
      simp only [StampOp.apply, Stamp.set] at hop
      split at hop
      · next hk =>
        cases hop
        refine (hi.write hk (Nat.le_refl _)).congr fun i => ?_
        by_cases hik : i = k
        · simp [hik]
        · simp [hik, Ne.symm hik]
      · cases hop
    | unset k =>
      simp only [StampOp.apply, Stamp.unset] at hop
      split at hop
      · next hk =>
        cases hop
        have := hi.pos
        refine (hi.write hk (Nat.zero_le _)).congr fun i => ?_
        have hne : ¬ 0 = s'.stamp := by omega
        by_cases hik : i = k
        · simp [hik, hne]
        · simp [hik, Ne.symm hik]
      · cases hop
    | clear =>
      simp only [StampOp.apply, Option.some.injEq] at hop
      subst hop
      exact (hi.clear h1).congr fun i => by simp
    | grow1 =>
      simp only [StampOp.apply, Option.some.injEq] at hop
      subst hop
      exact (hi.pad 1).congr fun i => by simp
    | grow m =>
      simp only [StampOp.apply, Option.some.injEq] at hop
      subst hop
      unfold Stamp.grow
      split
      · exact (hi.pad _).congr fun i => by simp
      · exact hi.congr fun i => by simp

theorem Stamp.inv_new {max : Nat} (h1 : 1 ≤ max) : (Stamp.new max).Inv max fun _ => False := by
  have : (0 : Nat) < max := h1
  refine ⟨by simp [Stamp.new, Stamp.clear, this], by simp [Stamp.new, Stamp.clear, this]; omega,
    by simp [Stamp.new, Stamp.clear, this], by simp [Stamp.new, Stamp.clear, this], by simp⟩

/-- **C31.** For every counter type with at least two values and every history of calls on a fresh
stamp that stays within bounds, an index reads as stamped iff it was set and since then neither
unset nor cleared. Overflow of the counter is covered: the number of `clear` calls is arbitrary. -/
theorem C31_set_semantics {max : Nat} (h1 : 1 ≤ max) (ops : List StampOp) (s : Stamp)
    (h : Stamp.run max (Stamp.new max) ops = some s) (i : Nat) (hi : i < s.stamped.length) :
    ∃ b, s.isStamped i = some b ∧ (b = true ↔ StampOp.Marked ops i) := by
  have hinv := Stamp.inv_run h1 _ (Stamp.inv_new h1) _ ops rfl s h
  refine ⟨s.stamped[i] == s.stamp, by simp [Stamp.isStamped, hi], ?_⟩
  simpa using hinv.iff i _ (List.getElem?_eq_getElem hi)

/-- **C31, sized constructor.** The same for `Stamp(size)`. -/
theorem C31_set_semantics_sized {max : Nat} (h1 : 1 ≤ max) (n : Nat) (ops : List StampOp) (s : Stamp)
    (h : Stamp.run max (Stamp.newSize max n) ops = some s) (i : Nat) (hi : i < s.stamped.length) :
    ∃ b, s.isStamped i = some b ∧ (b = true ↔ StampOp.Marked ops i) := by
  have h0 : (Stamp.newSize max n).Inv max fun _ => False := by
    have hlt : (0 : Nat) < max := h1
    have e : Stamp.newSize max n = ⟨List.replicate n 0, 1⟩ := by
      simp [Stamp.newSize, Stamp.new, Stamp.clear, hlt]
    rw [e]
    refine ⟨Nat.le_refl _, h1, fun i x hx => ?_, fun i x hx => ?_, fun _ _ => id⟩
    · have := List.mem_of_getElem? hx; simp at this; omega
    · have := List.mem_of_getElem? hx; simp at this; simp; omega
  have hinv := Stamp.inv_run h1 _ h0 _ ops rfl s h
  refine ⟨s.stamped[i] == s.stamp, by simp [Stamp.isStamped, hi], ?_⟩
  simpa using hinv.iff i _ (List.getElem?_eq_getElem hi)

theorem StampOp.apply_length {max : Nat} {s s' : Stamp} {op : StampOp}
    (h : op.apply max s = some s') : s'.stamped.length = StampOp.size s.stamped.length [op] := by
  cases op with
  | set k => simp only [StampOp.apply, Stamp.set] at h; split at h <;> cases h; simp [StampOp.size]
  | unset k =>
    simp only [StampOp.apply, Stamp.unset] at h; split at h <;> cases h; simp [StampOp.size]
  | clear =>
    simp only [StampOp.apply, Option.some.injEq] at h
    subst h
    unfold Stamp.clear
    split <;> simp [StampOp.size]
  | grow1 => simp only [StampOp.apply, Option.some.injEq] at h; subst h; simp [Stamp.grow1, StampOp.size]
  | grow m =>
    simp only [StampOp.apply, Option.some.injEq] at h
    subst h
    unfold Stamp.grow
    split
    · simp [StampOp.size, Nat.max_def]; split <;> omega
    · simp [StampOp.size, Nat.max_def]; omega

/-- Specification: all indices used are below the size at the time of use. -/
def StampOp.Bounded (n : Nat) : List StampOp → Prop
  | [] => True
  | op :: ops =>
    (match op with
      | .set i => i < n
      | .unset i => i < n
      | _ => True) ∧ StampOp.Bounded (StampOp.size n [op]) ops

/-- **C31 (definedness).** A history is free of out-of-bounds accesses exactly if every index is
below the size established by the `grow` calls before it. -/
theorem C31_defined (max : Nat) (ops : List StampOp) : ∀ s : Stamp,
    (Stamp.run max s ops).isSome = true ↔ StampOp.Bounded s.stamped.length ops := by
  induction ops with
  | nil => intro s; simp [Stamp.run, StampOp.Bounded]
  | cons op ops ih =>
    intro s
    simp only [Stamp.run, StampOp.Bounded]
    cases ho : op.apply max s with
    | none =>
      cases op <;> simp [StampOp.apply, Stamp.set, Stamp.unset] at ho <;> simp <;> omega
    | some s' =>
      have := StampOp.apply_length ho
      simp only [Option.bind_some, ih s', this]
      cases op <;> simp [StampOp.apply, Stamp.set, Stamp.unset] at ho ⊢ <;> omega

/-- One call on a `Stamp<bool>`. -/
def StampOp.applyBool (s : Stamp) : StampOp → Option Stamp
  | .clear => some s.clearBool
  | op => op.apply 1 s

/-- A history of calls on a `Stamp<bool>`. -/
def Stamp.runBool (s : Stamp) : List StampOp → Option Stamp
  | [] => some s
  | op :: ops => (op.applyBool s).bind fun s' => Stamp.runBool s' ops

theorem Stamp.runBool_eq (ops : List StampOp) : ∀ s : Stamp, s.stamp = 1 →
    Stamp.runBool s ops = Stamp.run 1 s ops := by
  induction ops with
  | nil => intro s _; rfl
  | cons op ops ih =>
    intro s h
    have e : op.applyBool s = op.apply 1 s := by
      cases op <;> simp [StampOp.applyBool, StampOp.apply, Stamp.clearBool, Stamp.clear, h]
    simp only [Stamp.runBool, Stamp.run, e]
    cases ho : op.apply 1 s with
    | none => rfl
    | some s' =>
      refine ih s' ?_
      cases op with
      | set k => simp only [StampOp.apply, Stamp.set] at ho; split at ho <;> cases ho; exact h
      | unset k => simp only [StampOp.apply, Stamp.unset] at ho; split at ho <;> cases ho; exact h
      | clear => simp [StampOp.apply, Stamp.clear, h] at ho; subst ho; rfl
      | grow1 => simp [StampOp.apply, Stamp.grow1] at ho; subst ho; exact h
      | grow m =>
        simp only [StampOp.apply, Option.some.injEq] at ho
        subst ho
        unfold Stamp.grow
        split <;> exact h

/-- **C31, `Stamp<bool>`.** The specialisation with its own `clear` has the same meaning. -/
theorem C31_bool (ops : List StampOp) (s : Stamp)
    (h : Stamp.runBool Stamp.newBool ops = some s) (i : Nat) (hi : i < s.stamped.length) :
    ∃ b, s.isStamped i = some b ∧ (b = true ↔ StampOp.Marked ops i) := by
  rw [Stamp.runBool_eq ops _ rfl] at h
  exact C31_set_semantics (Nat.le_refl 1) ops s h i hi

example : ∃ s, Stamp.runBool Stamp.newBool [.grow 2, .set 0, .set 1, .clear, .set 1] = some s ∧
    s.isStamped 0 = some false ∧ s.isStamped 1 = some true := ⟨_, rfl, by decide, by decide⟩

/-- Non-vacuity, with a counter of two bits and enough clears to make it overflow twice. -/
example : ∃ s, Stamp.run 3 (Stamp.new 3)
      [.grow 3, .set 0, .clear, .set 1, .clear, .clear, .set 2, .clear, .set 0, .unset 0, .set 1]
      = some s ∧ s.isStamped 0 = some false ∧ s.isStamped 1 = some true ∧
      s.isStamped 2 = some false :=
  ⟨_, rfl, by decide, by decide, by decide⟩

end Candy
