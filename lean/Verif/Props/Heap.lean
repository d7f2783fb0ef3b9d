import Verif.Proofs.Heap

/-!
# C33: the priority heap returns a best element and loses none
-/

namespace Candy

/-- All histories of calls on a heap: `HeapHist lt h S` says that `h` is the heap after some history
of calls, `lt` the order given by the current priorities, and `S` the elements inserted and not yet
removed. Between calls priorities may change, as long as the change is announced as the interface
demands: `decrease`/`increase`/`update` for an element of the heap whose priority changed
(`decrease`: only forward in the order, `increase`: only backward), nothing for elements outside of
the heap (`other`), and nothing for a change that only makes elements equivalent (`coarsen`, the
rescaling of all activities). -/
inductive HeapHist : (Nat → Nat → Bool) → VHeap → (Nat → Prop) → Prop
  | new {lt} : StrictWeak lt → HeapHist lt VHeap.empty (fun _ => False)
  | grow {lt h S} (n : Nat) : HeapHist lt h S → HeapHist lt (h.grow n) S
  | clear {lt h S} : HeapHist lt h S → HeapHist lt h.clear (fun _ => False)
  | insert {lt h S h'} (n : Nat) : HeapHist lt h S → ¬ S n → h.insert lt n = some h' →
      HeapHist lt h' (fun x => x = n ∨ S x)
  | removeMin {lt h S h' x} : HeapHist lt h S → h.removeMin lt = some (h', x) →
      HeapHist lt h' (fun y => y ≠ x ∧ S y)
  | decrease {lt h S lt' h'} (n : Nat) : HeapHist lt h S → StrictWeak lt' → S n →
      (∀ x y, x ≠ n → y ≠ n → S x → S y → lt' x y = lt x y) →
      (∀ x, S x → lt' x n = true → lt x n = true) →
      h.decrease lt' n = some h' → HeapHist lt' h' S
  | increase {lt h S lt' h'} (n : Nat) : HeapHist lt h S → StrictWeak lt' → S n →
      (∀ x y, x ≠ n → y ≠ n → S x → S y → lt' x y = lt x y) →
      (∀ x, S x → lt' n x = true → lt n x = true) →
      h.increase lt' n = some h' → HeapHist lt' h' S
  | update {lt h S lt' h'} (n : Nat) : HeapHist lt h S → StrictWeak lt' →
      (∀ x y, x ≠ n → y ≠ n → S x → S y → lt' x y = lt x y) →
      h.update lt' n = some h' → HeapHist lt' h' (fun x => x = n ∨ S x)
  | other {lt h S lt'} : HeapHist lt h S → StrictWeak lt' →
      (∀ x y, S x → S y → lt' x y = lt x y) → HeapHist lt' h S
  | coarsen {lt h S lt'} : HeapHist lt h S → StrictWeak lt' →
      (∀ x y, lt' x y = true → lt x y = true) → HeapHist lt' h S
  | build {lt h S lt' h'} (ns : List Nat) : HeapHist lt h S → StrictWeak lt' → ns.Nodup →
      h.build lt' ns = some h' → HeapHist lt' h' (fun x => x ∈ ns)

open VHeap in
theorem HeapHist.inv {lt h S} (hh : HeapHist lt h S) :
    h.WF ∧ StrictWeak lt ∧ Ord lt h ∧ ∀ x, (h.idx x).isSome = true ↔ S x := by
  induction hh with
  | new hlt => exact ⟨empty_wf, hlt, fun j a b => by simp [empty] at b, by simp [empty]⟩
  | @grow lt h S n hh ih =>
    obtain ⟨hw, hlt, ho, hm⟩ := ih
    unfold VHeap.grow
    split
    · next hl =>
      exact ⟨⟨hw.idx_heap, fun v i hv => by
        obtain ⟨a, b, c⟩ := hw.heap_idx v i hv; exact ⟨a, b, Nat.lt_trans c hl⟩⟩, hlt, ho, hm⟩
    · exact ⟨hw, hlt, ho, hm⟩
  | clear hh ih =>
    obtain ⟨hw, hlt, ho, hm⟩ := ih
    obtain ⟨h1, h2⟩ := clear_wf hw
    exact ⟨h1, hlt, fun j a b => by simp [VHeap.clear] at b, fun x => by simp [h2]⟩
  | @insert lt h S h' n hh hn hs ih =>
    obtain ⟨hw, hlt, ho, hm⟩ := ih
    have hnone : h.idx n = none := by
      cases e : h.idx n with
      | none => rfl
      | some i => exact absurd ((hm n).1 (by rw [e]; rfl)) hn
    obtain ⟨-, -, -, hsame⟩ := insert_spec hw hnone hs
    refine ⟨hsame.wf, hlt, ho.insert hlt hw hnone hs, fun x => ?_⟩
    rw [hsame.mem, push_mem, Bool.or_eq_true, decide_eq_true_iff, hm x]
  | @removeMin lt h S h' x hh hs ih =>
    obtain ⟨hw, hlt, ho, hm⟩ := ih
    obtain ⟨h0, hx, -, hsame, -⟩ := removeMin_spec hw hs
    refine ⟨hsame.wf, hlt, ho.cut hlt hw hs, fun y => ?_⟩
    rw [hsame.mem, cut_mem hw h0, Bool.and_eq_true, decide_eq_true_iff, hm y, hx]
  | @decrease lt h S lt' h' n hh hlt' hn ha hb hs ih =>
    obtain ⟨hw, hlt, ho, hm⟩ := ih
    obtain ⟨i, hi⟩ := Option.isSome_iff_exists.1 ((hm n).2 hn)
    obtain ⟨his, hin, hnb⟩ := hw.heap_idx n i hi
    have hmid : Mid lt' h i := ho.mid hlt hw hi
      (fun x y h1 h2 h3 h4 => ha x y h1 h2 ((hm x).1 h3) ((hm y).1 h4))
    simp only [VHeap.decrease, if_pos hnb, hi, Option.map_some, Option.some.injEq] at hs
    subst hs
    have hsame := percolateUp_same lt' hw his
    refine ⟨hsame.wf, hlt', ?_, fun x => by rw [hsame.mem, hm x]⟩
    rw [percolateUp_eq lt' hw his]
    refine upS_ord hlt' _ _ _ his (Nat.le_refl _) ⟨fun j h1 h2 h3 => ?_, hmid.grand⟩
    by_cases hq : (j - 1) / 2 = i
    · have h4 := ho j h1 h2
      rw [hq, hin] at h4 ⊢
      cases e : lt' (h.heap j) n with
      | false => rfl
      | true =>
        have := hb (h.heap j) ((hm _).1 (by rw [hw.idx_heap j h2]; rfl)) e
        simp_all
    · exact hmid.ok j h1 h2 h3 hq
  | @increase lt h S lt' h' n hh hlt' hn ha hb hs ih =>
    obtain ⟨hw, hlt, ho, hm⟩ := ih
    obtain ⟨i, hi⟩ := Option.isSome_iff_exists.1 ((hm n).2 hn)
    obtain ⟨his, hin, hnb⟩ := hw.heap_idx n i hi
    have hmid : Mid lt' h i := ho.mid hlt hw hi
      (fun x y h1 h2 h3 h4 => ha x y h1 h2 ((hm x).1 h3) ((hm y).1 h4))
    simp only [VHeap.increase, if_pos hnb, hi, Option.map_some, Option.some.injEq] at hs
    subst hs
    have hsame := percolateDown_same lt' hw his
    refine ⟨hsame.wf, hlt', ?_, fun x => by rw [hsame.mem, hm x]⟩
    rw [percolateDown_eq lt' hw his]
    refine downS_ord0 hlt' hw his ⟨fun j h1 h2 _ h3 => ?_, fun a _ => hmid.grand a⟩
    by_cases hq : j = i
    · subst hq
      have h4 := ho j h1 h2
      rw [hin] at h4 ⊢
      have hpj : (j - 1) / 2 < h.size := by omega
      cases e : lt' n (h.heap ((j - 1) / 2)) with
      | false => rfl
      | true =>
        have := hb _ ((hm _).1 (by rw [hw.idx_heap _ hpj]; rfl)) e
        simp_all
    · exact hmid.ok j h1 h2 hq h3
  | @update lt h S lt' h' n hh hlt' ha hs ih =>
    obtain ⟨hw, hlt, ho, hm⟩ := ih
    have hao : h.AgreeOff n lt lt' :=
      fun x y h1 h2 h3 h4 => ha x y h1 h2 ((hm x).1 h3) ((hm y).1 h4)
    cases hi : h.idx n with
    | none =>
      have hin : h.inHeap n = false := by simp [inHeap, hi]
      simp only [VHeap.update, if_pos hin] at hs
      obtain ⟨-, -, -, hsame⟩ := insert_spec hw hi hs
      have ho' : Ord lt' h := by
        intro j h1 h2
        have hne : ∀ j < h.size, h.heap j ≠ n := fun j hj e => by
          have := hw.idx_heap j hj; rw [e, hi] at this; cases this
        rw [hao _ _ (hne j h2) (hne _ (by omega)) (by rw [hw.idx_heap j h2]; rfl)
          (by rw [hw.idx_heap _ (by omega)]; rfl)]
        exact ho j h1 h2
      refine ⟨hsame.wf, hlt', ho'.insert hlt' hw hi hs, fun x => ?_⟩
      rw [hsame.mem, push_mem, Bool.or_eq_true, decide_eq_true_iff, hm x]
    | some i =>
      obtain ⟨his, hin, hnb⟩ := hw.heap_idx n i hi
      have hinh : ¬ h.inHeap n = false := by simp [inHeap, hi, hnb]
      have hsame := percolateUp_same lt' hw his
      obtain ⟨i', hi', ho'⟩ := (ho.mid hlt hw hi hao).fix hlt' hw hi
      have hnb' : n < (h.percolateUp lt' i).isize := by rw [hsame.isize]; exact hnb
      have hd : h.decrease lt' n = some (h.percolateUp lt' i) := by
        simp [VHeap.decrease, hnb, hi]
      have hc : (h.percolateUp lt' i).increase lt' n
          = some ((h.percolateUp lt' i).percolateDown lt' i') := by
        simp [VHeap.increase, hnb', hi']
      simp only [VHeap.update, if_neg hinh, hd, Option.bind_some, hc, Option.some.injEq] at hs
      subst hs
      have hsame' := hsame.trans
        (percolateDown_same lt' hsame.wf (hsame.wf.heap_idx n i' hi').1)
      refine ⟨hsame'.wf, hlt', ho', fun x => ?_⟩
      rw [hsame'.mem, hm x]
      constructor
      · exact .inr
      · rintro (rfl | h)
        · exact (hm _).1 (by rw [hi]; rfl)
        · exact h
  | @other lt h S lt' hh hlt' ha ih =>
    obtain ⟨hw, hlt, ho, hm⟩ := ih
    refine ⟨hw, hlt', fun j h1 h2 => ?_, hm⟩
    rw [ha _ _ ((hm _).1 (by rw [hw.idx_heap j h2]; rfl))
      ((hm _).1 (by rw [hw.idx_heap _ (by omega)]; rfl))]
    exact ho j h1 h2
  | @coarsen lt h S lt' hh hlt' ha ih =>
    obtain ⟨hw, hlt, ho, hm⟩ := ih
    refine ⟨hw, hlt', fun j h1 h2 => ?_, hm⟩
    have := ho j h1 h2
    cases e : lt' (h.heap j) (h.heap ((j - 1) / 2)) with
    | false => rfl
    | true => have := ha _ _ e; simp_all
  | @build lt h S lt' h' ns hh hlt' hd hs ih =>
    obtain ⟨hw, hlt, ho, hm⟩ := ih
    obtain ⟨h1, -, -, h2, h3⟩ := build_spec hw hd hs
    exact ⟨h1, hlt', h3 hlt', fun x => by simp [h2]⟩

/-- **C33 (contents).** After every history the heap contains exactly the inserted and not yet
removed elements. -/
theorem C33_contents {lt h S} (hh : HeapHist lt h S) (x : Nat) : h.inHeap x = true ↔ S x := by
  obtain ⟨hw, -, -, hm⟩ := hh.inv
  rw [← hm x]
  simp only [VHeap.inHeap, Bool.and_eq_true, decide_eq_true_iff]
  constructor
  · exact And.right
  · intro hx
    obtain ⟨i, hi⟩ := Option.isSome_iff_exists.1 hx
    exact ⟨(hw.heap_idx x i hi).2.2, hx⟩

/-- **C33 (index table).** After every history the index table and the vector are inverse to each
other: each of the `size` positions holds an element whose table entry is that position, and each
element with a table entry is at that position. -/
theorem C33_index {lt h S} (hh : HeapHist lt h S) :
    (∀ i < h.size, S (h.heap i) ∧ h.idx (h.heap i) = some i) ∧
    (∀ x i, h.idx x = some i → i < h.size ∧ h.heap i = x) := by
  obtain ⟨hw, -, -, hm⟩ := hh.inv
  exact ⟨fun i hi => ⟨(hm _).1 (by rw [hw.idx_heap i hi]; rfl), hw.idx_heap i hi⟩,
    fun x i hi => ⟨(hw.heap_idx x i hi).1, (hw.heap_idx x i hi).2.1⟩⟩

/-- **C33 (minimum).** After every history, `removeMin` returns an element of the heap that no other
element of the heap precedes in the current order. -/
theorem C33_min {lt h S h' x} (hh : HeapHist lt h S) (hs : h.removeMin lt = some (h', x)) :
    S x ∧ ∀ y, S y → lt y x = false := by
  obtain ⟨hw, hlt, ho, hm⟩ := hh.inv
  obtain ⟨h0, rfl, hx, -⟩ := VHeap.removeMin_spec hw hs
  refine ⟨(hm _).1 (by rw [hx]; rfl), fun y hy => ?_⟩
  obtain ⟨i, hi⟩ := Option.isSome_iff_exists.1 ((hm y).2 hy)
  obtain ⟨h1, h2, -⟩ := hw.heap_idx y i hi
  rw [← h2]
  exact ho.root hlt i h1

/-- **C33 (definedness).** `removeMin` is defined exactly on a heap that has an element, `insert`
on every index the table has room for. -/
theorem C33_defined {lt h S} (hh : HeapHist lt h S) :
    ((h.removeMin lt).isSome = true ↔ ∃ x, S x) ∧
    (∀ n, (h.insert lt n).isSome = true ↔ n < h.isize) := by
  obtain ⟨hw, -, -, hm⟩ := hh.inv
  constructor
  · simp only [VHeap.removeMin]
    constructor
    · intro hs
      split at hs
      · cases hs
      · exact ⟨h.heap 0, (hm _).1 (by rw [hw.idx_heap 0 (by omega)]; rfl)⟩
    · rintro ⟨x, hx⟩
      obtain ⟨i, hi⟩ := Option.isSome_iff_exists.1 ((hm x).2 hx)
      have := (hw.heap_idx x i hi).1
      have : ¬ h.size = 0 := by omega
      simp [this]
  · intro n
    simp only [VHeap.insert]
    split <;> simp_all

/-- Take all elements out of a heap. -/
def VHeap.drain (lt : Nat → Nat → Bool) : Nat → VHeap → Option (List Nat)
  | 0, _ => some []
  | k + 1, s => (s.removeMin lt).bind fun r => (VHeap.drain lt k r.1).map (r.2 :: ·)

/-- **C33 (sorting).** Emptying the heap of any history returns its elements in an order in which no
element precedes an earlier one. -/
theorem C33_drain_sorted (k : Nat) : ∀ {lt h S} (_ : HeapHist lt h S) (xs : List Nat),
    h.drain lt k = some xs → xs.Pairwise (fun a b => lt b a = false) ∧ ∀ x ∈ xs, S x := by
  induction k with
  | zero => intro lt h S hh xs hx; cases hx; simp
  | succ k ih =>
    intro lt h S hh xs hx
    simp only [VHeap.drain, Option.bind_eq_some_iff, Option.map_eq_some_iff] at hx
    obtain ⟨⟨h', x⟩, hr, ys, hy, rfl⟩ := hx
    obtain ⟨h1, h2⟩ := C33_min hh hr
    obtain ⟨h3, h4⟩ := ih (hh.removeMin hr) ys hy
    refine ⟨List.pairwise_cons.2 ⟨fun y hy => h2 y (h4 y hy).2, h3⟩, ?_⟩
    intro y hy
    rcases List.mem_cons.1 hy with rfl | hy
    · exact h1
    · exact (h4 y hy).2

theorem strictWeak_prio (p : Nat → Nat) : StrictWeak fun x y => decide (p x > p y) := by
  constructor
  · intro a b; simp; omega
  · intro a b c; simp; omega

/-- Priorities of an example. -/
def exPrio (x : Nat) : Nat := (x * 37) % 10

/-- The order by priority, greatest first. -/
def exLt (x y : Nat) : Bool := decide (exPrio x > exPrio y)

/-- Non-vacuity: a history with growth, a build, a removal and an insertion. -/
example : ∃ h S, HeapHist exLt h S ∧ S 6 ∧ h.drain exLt 5 = some [4, 1, 5, 6, 0] := by
  have h0 := HeapHist.new (strictWeak_prio exPrio)
  have h1 := HeapHist.grow 10 h0
  have h2 := HeapHist.build (lt' := exLt) [0, 1, 4, 6, 7] h1 (strictWeak_prio exPrio) (by decide) rfl
  have h3 := HeapHist.removeMin h2 rfl
  have h4 := HeapHist.insert 5 h3 (by decide) rfl
  exact ⟨_, _, h4, by decide, by decide⟩

end Candy
