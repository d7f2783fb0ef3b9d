import Verif.Model.BoundedQueue

/-!
# C32, C46: the sliding window and the restart policy
-/

namespace Candy

/-- Calls on a bounded queue (as made by the restart policy). -/
inductive QOp where
  | push (x : BitVec 32)
  | clear
deriving DecidableEq, Repr

/-- One call. -/
def QOp.apply (q : BQueue) : QOp → Option BQueue
  | .push x => q.push x
  | .clear => some q.fastclear

/-- A history of calls; `none` is undefined behaviour. -/
def BQueue.run (q : BQueue) : List QOp → Option BQueue
  | [] => some q
  | op :: ops => (op.apply q).bind fun q' => BQueue.run q' ops

/-- Specification: the values pushed since the last clear, oldest first. -/
def QOp.pushed (xs : List (BitVec 32)) : List QOp → List (BitVec 32)
  | [] => xs
  | .push x :: ops => QOp.pushed (xs ++ [x]) ops
  | .clear :: ops => QOp.pushed [] ops

/-- Specification: the last `min(n, capacity)` elements of a list of length `n`. -/
def lastOf (cap : Nat) (xs : List (BitVec 32)) : List (BitVec 32) := xs.drop (xs.length - cap)

/-- The values held by a queue, oldest first: `queuesize` values starting at `last`, cyclically. -/
def BQueue.contents (q : BQueue) : List (BitVec 32) :=
  (List.range q.queuesize).map fun i => q.elems.getD ((q.last + i) % q.elems.length) 0

/-- Representation invariant relative to the values pushed since the last clear. -/
structure BQueue.Inv (cap : Nat) (q : BQueue) (xs : List (BitVec 32)) : Prop where
  len : q.elems.length = cap
  filling : xs.length < cap →
    q.first = xs.length ∧ q.last = 0 ∧ q.queuesize = xs.length ∧ q.elems.take xs.length = xs ∧
      q.sum = xs.sum
  full : cap ≤ xs.length →
    q.first = q.last ∧ q.queuesize = cap ∧ q.last < cap ∧
      q.elems.drop q.last ++ q.elems.take q.last = lastOf cap xs ∧ q.sum = (lastOf cap xs).sum

theorem bvsum_append (xs ys : List (BitVec 32)) : (xs ++ ys).sum = xs.sum + ys.sum := by
  induction xs with
  | nil => simp
  | cons x xs ih => simp [ih, BitVec.add_assoc]

theorem lastOf_snoc {cap : Nat} (h : 0 < cap) {xs : List (BitVec 32)} (hx : cap ≤ xs.length)
    (x : BitVec 32) : lastOf cap (xs ++ [x]) = (lastOf cap xs).tail ++ [x] := by
  unfold lastOf
  rw [List.tail_drop, List.drop_append_of_le_length (by simp; omega)]
  simp
  rw [Nat.sub_add_comm hx]

theorem BQueue.Inv.push {cap : Nat} (h : 0 < cap) {q : BQueue} {xs : List (BitVec 32)}
    (hi : q.Inv cap xs) (x : BitVec 32) : ∃ q', q.push x = some q' ∧ q'.Inv cap (xs ++ [x]) := by
  obtain ⟨fi, la, qs, sm, el⟩ := q
  obtain ⟨hlen, hfil, hful⟩ := hi
  simp only at hlen hfil hful
  unfold BQueue.push
  by_cases hx : xs.length < cap
  · obtain ⟨rfl, rfl, rfl, h4, rfl⟩ := hfil hx
    have hne : ¬ xs.length = el.length := by omega
    have hlt : xs.length < el.length := by omega
    have htake : (el.set xs.length x).take (xs.length + 1) = xs ++ [x] := by
      rw [List.take_add_one, List.take_set_of_le (Nat.le_refl _), h4]
      simp [hlt]
    simp only [hne, if_false, BQueue.store, hlt, if_true]
    refine ⟨_, rfl, ?_⟩
    by_cases hw : xs.length + 1 = el.length
    · simp only [hw, if_true]
      refine ⟨by simpa using hlen, fun h' => by simp at h'; omega, fun _ => ?_⟩
      have he : el.set xs.length x = xs ++ [x] := by
        rw [← htake, List.take_of_length_le (by simp; omega)]
      have hl : lastOf cap (xs ++ [x]) = xs ++ [x] := by
        have : (xs ++ [x]).length - cap = 0 := by simp; omega
        simp only [lastOf, this, List.drop_zero]
      refine ⟨rfl, by omega, h, ?_, ?_⟩
      · simp [he, hl]
      · rw [hl, bvsum_append]; simp
    · simp only [hw, if_false]
      refine ⟨by simpa using hlen, fun _ => ?_, fun h' => by simp at h'; omega⟩
      exact ⟨by simp, rfl, by simp, by simpa using htake, by rw [bvsum_append]; simp⟩
  · have hx : cap ≤ xs.length := by omega
    obtain ⟨rfl, rfl, hl, h4, rfl⟩ := hful hx
    subst hlen
    have hy : el[fi]? = some el[fi] := List.getElem?_eq_getElem hl
    have hdrop : el.drop fi = el[fi] :: el.drop (fi + 1) := List.drop_eq_getElem_cons hl
    have htail : (lastOf el.length xs).tail = el.drop (fi + 1) ++ el.take fi := by
      rw [← h4, hdrop]; rfl
    have hsum : (lastOf el.length xs).sum = el[fi] + (el.drop (fi + 1) ++ el.take fi).sum := by
      rw [← h4, hdrop, List.cons_append, List.sum_cons]
    have hstep : (el.drop (fi + 1) ++ el.take fi).sum + x = ((lastOf el.length xs) ).sum - el[fi] + x := by
      rw [hsum, BitVec.add_comm (el[fi]), BitVec.add_sub_cancel]
    simp only [if_true, hy, BQueue.store, BQueue.next, hl]
    refine ⟨_, rfl, ?_⟩
    by_cases hw : fi + 1 = el.length
    · simp only [hw, if_true]
      refine ⟨by simp, fun h' => by simp at h'; omega, fun _ => ?_⟩
      refine ⟨rfl, rfl, h, ?_, ?_⟩
      · rw [lastOf_snoc h hx, htail]
        simp only [List.drop_zero, List.take_zero, List.append_nil]
        rw [hw, List.drop_length, List.nil_append]
        have : el.set fi x = (el.set fi x).take (fi + 1) := by
          rw [List.take_of_length_le (by simp; omega)]
        rw [this, List.take_add_one, List.take_set_of_le (Nat.le_refl _)]
        simp [hl]
      · rw [lastOf_snoc h hx, htail, bvsum_append, ← hstep]; simp
    · simp only [hw, if_false]
      refine ⟨by simp, fun h' => by simp at h'; omega, fun _ => ?_⟩
      refine ⟨rfl, rfl, (by show fi + 1 < el.length; omega), ?_, ?_⟩
      · rw [lastOf_snoc h hx, htail]
        simp only
        rw [List.drop_set_of_lt (by omega), List.take_add_one, List.take_set_of_le (Nat.le_refl _)]
        simp [hl]
      · rw [lastOf_snoc h hx, htail, bvsum_append, ← hstep]; simp

theorem BQueue.Inv.fastclear {cap : Nat} (h : 0 < cap) {q : BQueue} {xs : List (BitVec 32)}
    (hi : q.Inv cap xs) : q.fastclear.Inv cap [] :=
  ⟨hi.len, fun _ => by simp [BQueue.fastclear], fun h' => by simp at h'; omega⟩

theorem BQueue.inv_new {cap : Nat} (h : 0 < cap) : (BQueue.new cap).Inv cap [] :=
  ⟨by simp [BQueue.new], fun _ => by simp [BQueue.new], fun h' => by simp at h'; omega⟩

theorem BQueue.inv_run {cap : Nat} (h : 0 < cap) (ops : List QOp) : ∀ (q : BQueue) xs,
    q.Inv cap xs → ∃ q', q.run ops = some q' ∧ q'.Inv cap (QOp.pushed xs ops) := by
  induction ops with
  | nil => intro q xs hi; exact ⟨q, rfl, hi⟩
  | cons op ops ih =>
    intro q xs hi
    cases op with
    | push x =>
      obtain ⟨q', hq, hi'⟩ := hi.push h x
      simpa [BQueue.run, QOp.apply, hq, QOp.pushed] using ih q' _ hi'
    | clear => simpa [BQueue.run, QOp.apply, QOp.pushed] using ih _ _ (hi.fastclear h)

theorem rotate_eq (el : List (BitVec 32)) (j : Nat) (hj : j < el.length) :
    (List.range el.length).map (fun i => el.getD ((j + i) % el.length) 0)
      = el.drop j ++ el.take j := by
  apply List.ext_getElem?
  intro i
  by_cases hi : i < el.length
  · rw [List.getElem?_map, List.getElem?_range hi]
    have hmod : (j + i) % el.length < el.length := Nat.mod_lt _ (by omega)
    simp only [Option.map_some, List.getD_eq_getElem?_getD, List.getElem?_eq_getElem hmod,
      Option.getD_some]
    by_cases hw : i < el.length - j
    · rw [List.getElem?_append_left (by simpa using hw), List.getElem?_drop,
        List.getElem?_eq_getElem (by omega)]
      simp only [Nat.mod_eq_of_lt (show j + i < el.length by omega)]
    · rw [List.getElem?_append_right (by simp; omega), List.length_drop, List.getElem?_take,
        if_pos (by omega)]
      have e : (j + i) % el.length = i - (el.length - j) := by
        rw [Nat.mod_eq_sub_mod (by omega), Nat.mod_eq_of_lt (by omega)]; omega
      rw [List.getElem?_eq_getElem (by omega)]
      simp only [e]
  · rw [List.getElem?_eq_none (by simp; omega), List.getElem?_eq_none (by simp; omega)]

theorem BQueue.Inv.contents {cap : Nat} {q : BQueue} {xs : List (BitVec 32)}
    (hi : q.Inv cap xs) : q.contents = lastOf cap xs ∧ q.queuesize = min xs.length cap ∧
      q.sum = (lastOf cap xs).sum := by
  by_cases hx : xs.length < cap
  · obtain ⟨h1, h2, h3, h4, h5⟩ := hi.filling hx
    have hl : lastOf cap xs = xs := by
      have : xs.length - cap = 0 := by omega
      simp [lastOf, this]
    refine ⟨?_, by rw [h3, Nat.min_eq_left (by omega)], by rw [hl, h5]⟩
    rw [hl, BQueue.contents, h2, h3]
    conv => rhs; rw [← h4]
    apply List.ext_getElem?
    intro i
    by_cases hl : i < xs.length
    · have : i < q.elems.length := by have := hi.len; omega
      simp [hl, Nat.mod_eq_of_lt this, this]
    · rw [List.getElem?_eq_none (by simp; omega), List.getElem?_eq_none (by simp; omega)]
  · obtain ⟨h1, h2, h3, h4, h5⟩ := hi.full (by omega)
    refine ⟨?_, by rw [h2, Nat.min_eq_right (by omega)], h5⟩
    rw [← h4, BQueue.contents, h2, ← hi.len]
    exact rotate_eq _ _ (by have := hi.len; omega)

/-- **C32.** After any history of pushes and clears on a queue of positive capacity, no access was
out of bounds, the queue holds the last `min(n, capacity)` of the `n` values pushed since the last
clear (oldest first), its size is `min(n, capacity)`, its sum is theirs in 32-bit arithmetic, and it
reports itself full exactly if at least capacity many values were pushed since the last clear. -/
theorem C32_window_partial {cap : Nat} (h : 0 < cap) (ops : List QOp) :
    ∃ q, (BQueue.new cap).run ops = some q ∧
      q.contents = lastOf cap (QOp.pushed [] ops) ∧
      q.queuesize = min (QOp.pushed [] ops).length cap ∧
      q.sum = (lastOf cap (QOp.pushed [] ops)).sum ∧
      (q.isvalid = true ↔ cap ≤ (QOp.pushed [] ops).length) := by
  obtain ⟨q, hq, hi⟩ := BQueue.inv_run h ops _ _ (BQueue.inv_new h)
  obtain ⟨h1, h2, h3⟩ := hi.contents
  refine ⟨q, hq, h1, h2, h3, ?_⟩
  simp only [BQueue.isvalid, hi.len, h2, beq_iff_eq]
  omega

theorem bvsum_toNat (xs : List (BitVec 32)) :
    xs.sum.toNat = (xs.map BitVec.toNat).sum % 2 ^ 32 := by
  induction xs with
  | nil => rfl
  | cons x xs ih => simp [ih]

/-- **C32 (average).** If the sum of the values in the window is below `2^32`, the average read off a
non-empty window is the rounded-down mean of those values. -/
theorem C32_average_partial {cap : Nat} (h : 0 < cap) (ops : List QOp) (hne : QOp.pushed [] ops ≠ [])
    (hsum : ((lastOf cap (QOp.pushed [] ops)).map BitVec.toNat).sum < 2 ^ 32) :
    ∃ q, (BQueue.new cap).run ops = some q ∧
      q.getavg = some (((lastOf cap (QOp.pushed [] ops)).map BitVec.toNat).sum /
        (lastOf cap (QOp.pushed [] ops)).length) := by
  obtain ⟨q, hq, hi⟩ := BQueue.inv_run h ops _ _ (BQueue.inv_new h)
  obtain ⟨h1, h2, h3⟩ := hi.contents
  refine ⟨q, hq, ?_⟩
  have hl : (lastOf cap (QOp.pushed [] ops)).length = q.queuesize := by
    rw [← h1]; simp [BQueue.contents]
  have hpos : 0 < (QOp.pushed [] ops).length := List.length_pos_iff.2 hne
  have hnz : ¬ q.queuesize = 0 := by
    rw [h2]
    omega
  simp only [BQueue.getavg, hnz, if_false, hl, h3, bvsum_toNat, Nat.mod_eq_of_lt hsum]

example : (BQueue.new 3).run [.push 1, .push 2, .clear, .push 3, .push 4, .push 5, .push 6]
    = some ⟨1, 1, 3, 15, [6, 4, 5]⟩ := by decide

example : (BQueue.new 3).run [.push 1, .push 2, .push 3, .push 4] =
      some ⟨1, 1, 3, 9, [4, 2, 3]⟩ ∧
    (BQueue.mk 1 1 3 9 [4, 2, 3]).contents = [2, 3, 4] ∧
    (BQueue.mk 1 1 3 9 [4, 2, 3]).getavg = some 3 := by decide

/-- The bound of `C32_average_partial` is needed: two values whose sum is `2^32` average to `0`. -/
theorem C32_average_overflow :
    ((BQueue.new 2).run [.push 0x80000000#32, .push 0x80000000#32]).map BQueue.getavg
      = some (some 0) := by decide

/-- A queue of capacity zero is out of bounds on the first push. -/
theorem C32_capacity_zero (x : BitVec 32) : (BQueue.new 0).push x = none := rfl

/-- Finding: with `pop`, the queue is not a window. After `push 1, push 2, pop, push 3` on a queue of
capacity 3 the oldest value should be `2`; the wrap of the write position resets the read position,
and the queue returns the removed value `1`. (`pop` is not called anywhere in the project.) -/
theorem C32_pop_fails :
    ((BQueue.new 3).push 1).bind (fun q => (q.push 2).bind fun q => q.pop.bind fun q =>
      (q.push 3).map fun q => (q.queuesize, q.peek)) = some (2, some 1) := by decide

/-! ## C46 -/

/-- What happens to the restart policy during search: a conflict with the number of conflicts so
far, the number of assigned variables and the LBD of the learnt clause, or a test for a restart
with the number of conflicts so far. -/
inductive ROp where
  | conflict (nConflicts trailSize : Nat) (lbd : BitVec 32)
  | test (nConflicts : Nat)

variable {P : RestartParams}

/-- One event; the flag says whether a restart was triggered. -/
def ROp.apply (s : RestartState P) : ROp → Option (RestartState P × Bool)
  | .conflict n t l => (s.processConflict n t l).map fun s => (s, false)
  | .test n => s.triggerRestart n

/-- A history of events. -/
def RestartState.run (s : RestartState P) : List ROp → Option (RestartState P)
  | [] => some s
  | op :: ops => (op.apply s).bind fun r => RestartState.run r.1 ops

/-- The LBD window is a window over some list of values, and the trail window too, and only the LBD
values of conflicts were pushed. -/
structure RestartState.Inv (n m : Nat) (s : RestartState P) : Prop where
  lbd : ∃ xs, s.lbdQueue.Inv n xs
  trail : ∃ ys, s.trailQueue.Inv m ys

theorem getavg_isSome {cap : Nat} (h : 0 < cap) {q : BQueue} {xs : List (BitVec 32)}
    (hi : q.Inv cap xs) (hne : xs ≠ []) : ∃ a, q.getavg = some a := by
  have h2 := hi.contents.2.1
  have hpos : 0 < xs.length := List.length_pos_iff.2 hne
  have hnz : ¬ q.queuesize = 0 := by
    rw [h2]
    omega
  exact ⟨_, by rw [BQueue.getavg, if_neg hnz]⟩

theorem RestartState.Inv.step {n m : Nat} (hn : 0 < n) (hm : 0 < m) {s : RestartState P}
    (hi : s.Inv n m) (op : ROp) : ∃ r, op.apply s = some r ∧ r.1.Inv n m := by
  obtain ⟨⟨xs, hx⟩, ys, hy⟩ := hi
  cases op with
  | conflict c t l =>
    obtain ⟨tq, ht, hty⟩ := hy.push hm (BitVec.ofNat 32 t)
    obtain ⟨b, hb⟩ : ∃ b, s.blocks tq c t = some b := by
      unfold RestartState.blocks
      split
      · obtain ⟨a, ha⟩ := getavg_isSome hm hty (by simp)
        exact ⟨_, by rw [ha]; rfl⟩
      · exact ⟨_, rfl⟩
    obtain ⟨zs, hz⟩ : ∃ zs, (if b then s.lbdQueue.fastclear else s.lbdQueue).Inv n zs := by
      cases b
      · exact ⟨xs, hx⟩
      · exact ⟨[], hx.fastclear hn⟩
    obtain ⟨lq, hl, hlz⟩ := hz.push hn l
    exact ⟨_, by simp [ROp.apply, RestartState.processConflict, ht, hb, hl]; rfl, ⟨⟨_, hlz⟩, _, hty⟩⟩
  | test c =>
    simp only [ROp.apply, RestartState.triggerRestart]
    split
    · next hc =>
      have hv : s.lbdQueue.queuesize = s.lbdQueue.elems.length := by
        simpa [BQueue.isvalid] using hc.2
      have hnz : ¬ s.lbdQueue.queuesize = 0 := by rw [hv, hx.len]; omega
      simp only [BQueue.getavg, hnz, if_false]
      split
      · exact ⟨_, rfl, ⟨_, hx.fastclear hn⟩, _, hy⟩
      · exact ⟨_, rfl, ⟨xs, hx⟩, _, hy⟩
    · exact ⟨_, rfl, ⟨xs, hx⟩, _, hy⟩

/-- **C46 (definedness).** With windows of positive size no history of conflicts and restart tests
divides by zero or accesses a queue out of bounds, whatever the floating point comparisons say. -/
theorem C46_defined (P : RestartParams) {n m : Nat} (hn : 0 < n) (hm : 0 < m) (ops : List ROp) :
    ∃ s, (RestartState.new P n m).run ops = some s := by
  have key : ∀ (ops : List ROp) (s : RestartState P), s.Inv n m → ∃ s', s.run ops = some s' := by
    intro ops
    induction ops with
    | nil => intro s _; exact ⟨s, rfl⟩
    | cons op ops ih =>
      intro s hi
      obtain ⟨r, hr, hi'⟩ := hi.step hn hm op
      simpa [RestartState.run, hr] using ih r.1 hi'
  exact key ops _ ⟨⟨[], BQueue.inv_new hn⟩, [], BQueue.inv_new hm⟩

/-- A history of events together with the answers of the restart tests. -/
def RestartState.trace (s : RestartState P) : List ROp → Option (RestartState P × List Bool)
  | [] => some (s, [])
  | op :: ops => (op.apply s).bind fun r =>
      (RestartState.trace r.1 ops).map fun t => (t.1, r.2 :: t.2)

/-- Specification: the LBD values of the conflicts in a history, oldest first. -/
def ROp.lbds : List ROp → List (BitVec 32)
  | [] => []
  | .conflict _ _ l :: ops => l :: ROp.lbds ops
  | .test _ :: ops => ROp.lbds ops

/-- Specification: the events after the last event with answer `true`. -/
def ROp.sinceRestart (acc : List ROp) : List ROp → List Bool → List ROp
  | op :: ops, b :: bs => ROp.sinceRestart (if b then [] else acc ++ [op]) ops bs
  | _, _ => acc

theorem ROp.lbds_append (a b : List ROp) : ROp.lbds (a ++ b) = ROp.lbds a ++ ROp.lbds b := by
  induction a with
  | nil => rfl
  | cons op a ih => cases op <;> simp [ROp.lbds, ih]

theorem lastOf_suffix {cap : Nat} {xs ys : List (BitVec 32)} (h : xs <:+ ys)
    (hl : cap ≤ xs.length) : lastOf cap xs = lastOf cap ys := by
  obtain ⟨zs, rfl⟩ := h
  unfold lastOf
  rw [List.length_append, List.drop_append,
    List.drop_eq_nil_of_le (as := zs) (by omega), List.nil_append]
  congr 1
  omega

theorem RestartState.trace_window {n m : Nat} (hn : 0 < n) (hm : 0 < m) (ops : List ROp) :
    ∀ (s : RestartState P) (acc : List ROp), s.Inv n m →
      (∃ xs, s.lbdQueue.Inv n xs ∧ xs <:+ ROp.lbds acc) →
      ∀ s' flags, s.trace ops = some (s', flags) → s'.Inv n m ∧
        ∃ xs, s'.lbdQueue.Inv n xs ∧ xs <:+ ROp.lbds (ROp.sinceRestart acc ops flags) := by
  induction ops with
  | nil =>
    intro s acc hi hx s' flags h
    simp only [RestartState.trace, Option.some.injEq, Prod.mk.injEq] at h
    obtain ⟨rfl, rfl⟩ := h
    exact ⟨hi, hx⟩
  | cons op ops ih =>
    intro s acc hi hx s' flags h
    obtain ⟨r, hr, hri⟩ := hi.step hn hm op
    simp only [RestartState.trace, hr, Option.bind_some, Option.map_eq_some_iff] at h
    obtain ⟨⟨t, fl⟩, ht, he⟩ := h
    simp only [Prod.mk.injEq] at he
    obtain ⟨rfl, rfl⟩ := he
    simp only [ROp.sinceRestart]
    refine ih r.1 _ hri ?_ _ _ ht
    obtain ⟨xs, hx, hsuf⟩ := hx
    cases op with
    | conflict c t l =>
      simp only [ROp.apply, Option.map_eq_some_iff] at hr
      obtain ⟨s1, h1, rfl⟩ := hr
      simp only [RestartState.processConflict] at h1
      split at h1
      · cases h1
      split at h1
      · cases h1
      next tq _ b hb =>
      obtain ⟨zs, hz, hzs⟩ : ∃ zs, (if b then s.lbdQueue.fastclear else s.lbdQueue).Inv n zs ∧
          zs <:+ ROp.lbds acc := by
        cases b
        · exact ⟨xs, hx, hsuf⟩
        · exact ⟨[], hx.fastclear hn, List.nil_suffix⟩
      obtain ⟨lq, hl, hlz⟩ := hz.push hn l
      rw [hl] at h1
      cases h1
      refine ⟨_, hlz, ?_⟩
      obtain ⟨ws, hws⟩ := hzs
      exact ⟨ws, by simp [ROp.lbds_append, ROp.lbds, ← hws]⟩
    | test c =>
      have hkeep : xs <:+ ROp.lbds (acc ++ [.test c]) := by
        simpa [ROp.lbds_append, ROp.lbds] using hsuf
      simp only [ROp.apply, RestartState.triggerRestart] at hr
      split at hr
      · split at hr
        · cases hr
        · split at hr
          · cases hr
            exact ⟨[], hx.fastclear hn, List.nil_suffix⟩
          · cases hr
            exact ⟨xs, hx, hkeep⟩
      · cases hr
        exact ⟨xs, hx, hkeep⟩

/-- **C46.** In every history of conflicts and restart tests: if a test triggers a restart, then
there was a conflict at all, at least a full window of conflicts happened since the previous restart,
what was compared with the long-term average is the average of the LBD values of the last `n`
conflicts only, and afterwards the window is empty. -/
theorem C46_fires_on_full_window (P : RestartParams) {n m : Nat} (hn : 0 < n) (hm : 0 < m)
    (ops : List ROp) (s s' : RestartState P) (flags : List Bool) (c : Nat)
    (hrun : (RestartState.new P n m).trace ops = some (s, flags))
    (hfire : s.triggerRestart c = some (s', true)) :
    0 < c ∧ n ≤ (ROp.lbds (ROp.sinceRestart [] ops flags)).length ∧
    P.high ((lastOf n (ROp.lbds (ROp.sinceRestart [] ops flags))).sum.toNat / n) s.sumLBD c = true ∧
    s'.lbdQueue.contents = [] ∧ s'.restarts = s.restarts + 1 := by
  obtain ⟨-, xs, hx, hsuf⟩ := RestartState.trace_window hn hm ops _ []
    ⟨⟨[], BQueue.inv_new hn⟩, [], BQueue.inv_new hm⟩ ⟨[], BQueue.inv_new hn, List.nil_suffix⟩ s flags hrun
  simp only [RestartState.triggerRestart] at hfire
  by_cases hc : c > 0 ∧ s.lbdQueue.isvalid = true
  case neg => rw [if_neg hc] at hfire; simp at hfire
  rw [if_pos hc] at hfire
  cases havg : s.lbdQueue.getavg with
  | none => rw [havg] at hfire; cases hfire
  | some avg =>
  simp only [havg] at hfire
  by_cases hhigh : P.high avg s.sumLBD c = true
  case neg => rw [if_neg hhigh] at hfire; simp at hfire
  rw [if_pos hhigh] at hfire
  simp only [Option.some.injEq, Prod.mk.injEq, and_true] at hfire
  subst hfire
  obtain ⟨h1, h2, h3⟩ := hx.contents
  have hv : s.lbdQueue.queuesize = n := by
    have := hx.len
    have h' : s.lbdQueue.queuesize = s.lbdQueue.elems.length := by simpa [BQueue.isvalid] using hc.2
    omega
  have hle : n ≤ xs.length := by omega
  refine ⟨hc.1, Nat.le_trans hle hsuf.length_le, ?_, rfl, rfl⟩
  rw [← lastOf_suffix hsuf hle, ← h3]
  have hnz : ¬ n = 0 := by omega
  simp only [BQueue.getavg, hv, hnz, if_false, Option.some.injEq] at havg
  rw [havg]
  exact hhigh

/-- **C46 (quiet tests).** A test that does not trigger a restart changes nothing. -/
theorem C46_quiet (s s' : RestartState P) (c : Nat) (h : s.triggerRestart c = some (s', false)) :
    s' = s := by
  simp only [RestartState.triggerRestart] at h
  split at h
  · split at h
    · cases h
    · split at h
      · simp at h
      · simpa using h.symm
  · simpa using h.symm

/-- A concrete policy: restart if the window average exceeds the long-term average. -/
def exParams : RestartParams where
  Sum := Nat
  zero := 0
  add s l := s + l.toNat
  block t a := decide (t > 2 * a)
  high a s c := decide (a * c > s)

/-- Non-vacuity: a history with a window of two in which the second test triggers. -/
example : ∃ s flags s', (RestartState.new exParams 2 2).trace
      [.test 0, .conflict 1 5 2, .test 1, .conflict 2 6 2, .conflict 3 6 9] = some (s, flags) ∧
    s.triggerRestart 3 = some (s', true) := by
  refine ⟨_, _, _, rfl, rfl⟩

/-- With an empty window size the policy is undefined on the first conflict. -/
theorem C46_needs_positive_window (P : RestartParams) (m c t : Nat) (l : BitVec 32) :
    (RestartState.new P 0 m).processConflict c t l = none := by
  simp only [RestartState.processConflict, RestartState.new]
  split
  · rfl
  · split
    · rfl
    next b _ => cases b <;> rfl

end Candy
