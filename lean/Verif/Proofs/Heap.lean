import Verif.Model.Heap

/-! Helper lemmas about the heap: the hole-moving loops are sequences of swaps. -/

namespace Candy

/-- A strict weak order, as required of a comparator. -/
structure StrictWeak (lt : Nat → Nat → Bool) : Prop where
  asymm : ∀ a b, lt a b = true → lt b a = false
  cotrans : ∀ a b c, lt a c = true → lt a b = true ∨ lt b c = true

theorem StrictWeak.irrefl {lt} (h : StrictWeak lt) (a : Nat) : lt a a = false := by
  cases e : lt a a with
  | false => rfl
  | true => exact e.symm.trans (h.asymm a a e)

theorem StrictWeak.ntrans {lt} (h : StrictWeak lt) {a b c : Nat} (h1 : lt a b = false)
    (h2 : lt b c = false) : lt a c = false := by
  cases e : lt a c with
  | false => rfl
  | true => rcases h.cotrans a b c e with h' | h' <;> simp_all

namespace VHeap

/-- The index table and the vector agree. -/
structure WF (s : VHeap) : Prop where
  idx_heap : ∀ i < s.size, s.idx (s.heap i) = some i
  heap_idx : ∀ v i, s.idx v = some i → i < s.size ∧ s.heap i = v ∧ v < s.isize

theorem WF.inj {s : VHeap} (h : s.WF) {i j : Nat} (hi : i < s.size) (hj : j < s.size)
    (e : s.heap i = s.heap j) : i = j := by
  have h1 := h.idx_heap i hi
  have h2 := h.idx_heap j hj
  rw [e, h2] at h1
  exact (Option.some.inj h1).symm

def swap (s : VHeap) (i j : Nat) : VHeap :=
  { s with heap := upd (upd s.heap i (s.heap j)) j (s.heap i)
           idx := upd (upd s.idx (s.heap j) (some i)) (s.heap i) (some j) }

theorem place_step (s : VHeap) (i p x : Nat) (h : p ≠ i) :
    place { s with heap := upd s.heap i (s.heap p), idx := upd s.idx (s.heap p) (some i) } p x
      = (s.place i x).swap i p := by
  simp only [place, swap, VHeap.mk.injEq, true_and]
  constructor
  · funext v
    simp only [upd]
    by_cases h1 : v = p <;> by_cases h2 : v = i <;> simp_all
  · funext v
    simp only [upd]
    by_cases h1 : v = x <;> by_cases h2 : v = s.heap p <;> simp_all

theorem swap_wf {s : VHeap} (h : s.WF) {i j : Nat} (hi : i < s.size) (hj : j < s.size) :
    (s.swap i j).WF := by
  constructor
  · intro k hk
    simp only [swap] at hk ⊢
    simp only [upd]
    by_cases hkj : k = j
    · simp [hkj]
    · by_cases hki : k = i
      · subst hki
        have : s.heap j ≠ s.heap k := fun e => hkj (h.inj hj hi e).symm
        simp [hkj, this]
      · have h1 : s.heap k ≠ s.heap i := fun e => hki (h.inj hk hi e)
        have h2 : s.heap k ≠ s.heap j := fun e => hkj (h.inj hk hj e)
        simp [hkj, hki, h1, h2, h.idx_heap k hk]
  · intro v k hv
    simp only [swap] at hv ⊢
    simp only [upd] at hv ⊢
    have hbi := (h.heap_idx _ _ (h.idx_heap i hi)).2.2
    have hbj := (h.heap_idx _ _ (h.idx_heap j hj)).2.2
    by_cases hvi : v = s.heap i
    · simp only [hvi, if_true, Option.some.injEq] at hv
      subst hv; subst hvi
      simp [hj, hbi]
    · by_cases hvj : v = s.heap j
      · have : s.heap j ≠ s.heap i := fun e => hvi (hvj.trans e)
        simp only [hvj, this, if_false, if_true, Option.some.injEq] at hv
        subst hv
        have hij : i ≠ j := fun e => this (by rw [e])
        simp [hij, hi, hvj, hbj]
      · simp only [hvi, if_false, hvj] at hv
        obtain ⟨h1, h2, h3⟩ := h.heap_idx v k hv
        have hki : k ≠ i := fun e => hvi (by rw [← h2, e])
        have hkj : k ≠ j := fun e => hvj (by rw [← h2, e])
        simp [hki, hkj, h1, h2, h3]

theorem swap_mem {s : VHeap} (h : s.WF) {i j : Nat} (hi : i < s.size) (hj : j < s.size) (v : Nat) :
    ((s.swap i j).idx v).isSome = (s.idx v).isSome := by
  simp only [swap, upd]
  by_cases hvi : v = s.heap i
  · simp [hvi, h.idx_heap i hi]
  · by_cases hvj : v = s.heap j
    · have : s.heap j ≠ s.heap i := fun e => hvi (hvj.trans e)
      simp [hvj, this, h.idx_heap j hj]
    · simp [hvi, hvj]

theorem swap_heap_other {s : VHeap} {i j k : Nat} (h1 : k ≠ i) (h2 : k ≠ j) :
    (s.swap i j).heap k = s.heap k := by simp [swap, upd, h1, h2]

theorem swap_heap_left {s : VHeap} {i j : Nat} (h : i ≠ j) : (s.swap i j).heap i = s.heap j := by
  simp [swap, upd, h]

theorem swap_heap_right {s : VHeap} {i j : Nat} : (s.swap i j).heap j = s.heap i := by
  simp [swap, upd]

/-! ### swap-based loops -/

def upS (lt : Nat → Nat → Bool) : Nat → Nat → VHeap → VHeap
  | 0, _, s => s
  | k + 1, i, s =>
    if i ≠ 0 ∧ lt (s.heap i) (s.heap ((i - 1) / 2)) = true then
      upS lt k ((i - 1) / 2) (s.swap i ((i - 1) / 2))
    else s

def downS (lt : Nat → Nat → Bool) : Nat → Nat → VHeap → VHeap
  | 0, _, s => s
  | k + 1, i, s =>
    if i * 2 + 1 < s.size ∧ lt (s.heap (s.child lt i)) (s.heap i) = true then
      downS lt k (s.child lt i) (s.swap i (s.child lt i))
    else s

theorem upLoop_eq (lt : Nat → Nat → Bool) (x : Nat) : ∀ k i s,
    upLoop lt x k i s = upS lt k i (s.place i x) := by
  intro k
  induction k with
  | zero => intro i s; rfl
  | succ k ih =>
    intro i s
    simp only [upLoop, upS]
    have e1 : (s.place i x).heap i = x := by simp [place, upd]
    by_cases hi : i = 0
    · simp [hi]
    · have hp : (i - 1) / 2 ≠ i := by omega
      have e2 : (s.place i x).heap ((i - 1) / 2) = s.heap ((i - 1) / 2) := by
        simp [place, upd, hp]
      rw [e1, e2]
      by_cases hc : lt x (s.heap ((i - 1) / 2)) = true
      · rw [if_pos ⟨hi, hc⟩, if_pos ⟨hi, hc⟩, ih, place_step _ _ _ _ hp]
      · simp [hc]

theorem child_place (lt : Nat → Nat → Bool) (s : VHeap) (i x : Nat) :
    (s.place i x).child lt i = s.child lt i := by
  have h1 : (s.place i x).heap ((i + 1) * 2) = s.heap ((i + 1) * 2) := by
    have : (i + 1) * 2 ≠ i := by omega
    simp [place, upd, this]
  have h2 : (s.place i x).heap (i * 2 + 1) = s.heap (i * 2 + 1) := by
    have : i * 2 + 1 ≠ i := by omega
    simp [place, upd, this]
  have h3 : (s.place i x).size = s.size := rfl
  simp only [child, h1, h2, h3]

theorem child_gt (lt : Nat → Nat → Bool) (s : VHeap) (i : Nat) : i < s.child lt i := by
  unfold child; split <;> omega

theorem child_par (lt : Nat → Nat → Bool) (s : VHeap) (i : Nat) : (s.child lt i - 1) / 2 = i := by
  unfold child; split <;> omega

theorem child_lt_size (lt : Nat → Nat → Bool) (s : VHeap) (i : Nat) (h : i * 2 + 1 < s.size) :
    s.child lt i < s.size := by
  unfold child; split <;> omega

theorem downLoop_eq (lt : Nat → Nat → Bool) (x : Nat) : ∀ k i s,
    downLoop lt x k i s = downS lt k i (s.place i x) := by
  intro k
  induction k with
  | zero => intro i s; rfl
  | succ k ih =>
    intro i s
    simp only [downLoop, downS, child_place]
    have hc : s.child lt i ≠ i := by have := child_gt lt s i; omega
    have e1 : (s.place i x).heap i = x := by simp [place, upd]
    have e2 : (s.place i x).heap (s.child lt i) = s.heap (s.child lt i) := by
      simp [place, upd, hc]
    have e3 : (s.place i x).size = s.size := rfl
    rw [e1, e2, e3]
    split
    · rw [ih, place_step _ _ _ _ hc]
    · rfl

theorem place_self {s : VHeap} (h : s.WF) {i : Nat} (hi : i < s.size) :
    s.place i (s.heap i) = s := by
  have := h.idx_heap i hi
  cases s with
  | mk sz hp is ix =>
  simp only [place, VHeap.mk.injEq, true_and]
  constructor
  · funext v; simp only [upd]; split <;> simp_all
  · funext v; simp only [upd]; split <;> simp_all

theorem percolateUp_eq (lt : Nat → Nat → Bool) {s : VHeap} (h : s.WF) {i : Nat} (hi : i < s.size) :
    s.percolateUp lt i = upS lt i i s := by
  rw [percolateUp, upLoop_eq, place_self h hi]

theorem percolateDown_eq (lt : Nat → Nat → Bool) {s : VHeap} (h : s.WF) {i : Nat}
    (hi : i < s.size) : s.percolateDown lt i = downS lt s.size i s := by
  rw [percolateDown, downLoop_eq, place_self h hi]

/-- Same elements. -/
structure Same (s t : VHeap) : Prop where
  wf : t.WF
  size : t.size = s.size
  isize : t.isize = s.isize
  mem : ∀ v, (t.idx v).isSome = (s.idx v).isSome

theorem Same.refl {s : VHeap} (h : s.WF) : Same s s := ⟨h, rfl, rfl, fun _ => rfl⟩

theorem Same.trans {s t u : VHeap} (h1 : Same s t) (h2 : Same t u) : Same s u :=
  ⟨h2.wf, h2.size.trans h1.size, h2.isize.trans h1.isize, fun v => (h2.mem v).trans (h1.mem v)⟩

theorem Same.swap {s : VHeap} (h : s.WF) {i j : Nat} (hi : i < s.size) (hj : j < s.size) :
    Same s (s.swap i j) := ⟨swap_wf h hi hj, rfl, rfl, swap_mem h hi hj⟩

theorem upS_same (lt : Nat → Nat → Bool) : ∀ k i (s : VHeap), s.WF → i < s.size →
    Same s (upS lt k i s) := by
  intro k
  induction k with
  | zero => intro i s h _; exact .refl h
  | succ k ih =>
    intro i s h hi
    simp only [upS]
    split
    · have hp : (i - 1) / 2 < s.size := by omega
      exact (Same.swap h hi hp).trans (ih _ _ (swap_wf h hi hp) hp)
    · exact .refl h

theorem downS_same (lt : Nat → Nat → Bool) : ∀ k i (s : VHeap), s.WF → i < s.size →
    Same s (downS lt k i s) := by
  intro k
  induction k with
  | zero => intro i s h _; exact .refl h
  | succ k ih =>
    intro i s h hi
    simp only [downS]
    split
    · next hc =>
      have hp := child_lt_size lt s i hc.1
      exact (Same.swap h hi hp).trans (ih _ _ (swap_wf h hi hp) hp)
    · exact .refl h

/-! ### order -/

/-- No element precedes its parent. -/
def Ord (lt : Nat → Nat → Bool) (s : VHeap) : Prop :=
  ∀ j, 0 < j → j < s.size → lt (s.heap j) (s.heap ((j - 1) / 2)) = false

/-- The order may be violated only between position `i` and its neighbours. -/
structure Mid (lt : Nat → Nat → Bool) (s : VHeap) (i : Nat) : Prop where
  ok : ∀ j, 0 < j → j < s.size → j ≠ i → (j - 1) / 2 ≠ i →
    lt (s.heap j) (s.heap ((j - 1) / 2)) = false
  grand : 0 < i → ∀ j, 0 < j → j < s.size → (j - 1) / 2 = i →
    lt (s.heap j) (s.heap ((i - 1) / 2)) = false

/-- Only the position `i` may precede its parent. -/
structure UpPre (lt : Nat → Nat → Bool) (s : VHeap) (i : Nat) : Prop where
  ok : ∀ j, 0 < j → j < s.size → j ≠ i → lt (s.heap j) (s.heap ((j - 1) / 2)) = false
  grand : 0 < i → ∀ j, 0 < j → j < s.size → (j - 1) / 2 = i →
    lt (s.heap j) (s.heap ((i - 1) / 2)) = false

theorem UpPre.mid {lt} {s : VHeap} {i : Nat} (h : UpPre lt s i) : Mid lt s i :=
  ⟨fun j h1 h2 h3 _ => h.ok j h1 h2 h3, h.grand⟩

theorem Mid.up {lt} (hlt : StrictWeak lt) {s : VHeap} {i : Nat} (h : Mid lt s i) (hi : i < s.size)
    (h0 : i ≠ 0) (hl : lt (s.heap i) (s.heap ((i - 1) / 2)) = true) :
    UpPre lt (s.swap i ((i - 1) / 2)) ((i - 1) / 2) := by
  have hpi : i ≠ (i - 1) / 2 := by omega
  generalize hp : (i - 1) / 2 = p at *
  have ei : (s.swap i p).heap i = s.heap p := swap_heap_left hpi
  have ep : (s.swap i p).heap p = s.heap i := swap_heap_right
  constructor
  · intro j h1 h2 h3
    have h2 : j < s.size := h2
    by_cases hji : j = i
    · subst hji
      rw [hp, ei, ep]
      exact hlt.asymm _ _ hl
    · rw [swap_heap_other hji h3]
      by_cases hq1 : (j - 1) / 2 = i
      · rw [hq1, ei]
        have := h.grand (by omega) j h1 h2 hq1
        rwa [hp] at this
      · by_cases hq2 : (j - 1) / 2 = p
        · rw [hq2, ep]
          have := h.ok j h1 h2 hji hq1
          rw [hq2] at this
          rcases hlt.cotrans _ (s.heap j) _ hl with h' | h'
          · exact hlt.asymm _ _ h'
          · simp_all
        · rw [swap_heap_other hq1 hq2]
          exact h.ok j h1 h2 hji hq1
  · intro hp0 j h1 h2 hq
    have h2 : j < s.size := h2
    have hpp : (p - 1) / 2 ≠ i ∧ (p - 1) / 2 ≠ p := by omega
    rw [swap_heap_other hpp.1 hpp.2]
    have hok : lt (s.heap p) (s.heap ((p - 1) / 2)) = false :=
      h.ok p hp0 (by omega) (by omega) hpp.1
    by_cases hji : j = i
    · subst hji; rw [ei]; exact hok
    · rw [swap_heap_other hji (by omega)]
      have := h.ok j h1 h2 hji (by omega)
      rw [hq] at this
      exact hlt.ntrans this hok

theorem upS_ord {lt} (hlt : StrictWeak lt) : ∀ k i (s : VHeap), i < s.size → i ≤ k →
    UpPre lt s i → Ord lt (upS lt k i s) := by
  intro k
  induction k with
  | zero =>
    intro i s hi hk h j h1 h2
    exact h.ok j h1 h2 (by omega)
  | succ k ih =>
    intro i s hi hk h
    simp only [upS]
    split
    · next hc =>
      exact ih _ _ (show (i - 1) / 2 < s.size by omega) (by omega) (h.mid.up hlt hi hc.1 hc.2)
    · next hc =>
      intro j h1 h2
      by_cases hji : j = i
      · subst hji
        have : j ≠ 0 := by omega
        simpa [this] using hc
      · exact h.ok j h1 h2 hji

/-- From `b` on, only the children of position `i` may precede their parent. -/
structure DownPre (lt : Nat → Nat → Bool) (b : Nat) (s : VHeap) (i : Nat) : Prop where
  ok : ∀ j, 0 < j → j < s.size → b ≤ (j - 1) / 2 → (j - 1) / 2 ≠ i →
    lt (s.heap j) (s.heap ((j - 1) / 2)) = false
  grand : 0 < i → b ≤ (i - 1) / 2 → ∀ j, 0 < j → j < s.size → (j - 1) / 2 = i →
    lt (s.heap j) (s.heap ((i - 1) / 2)) = false

theorem child_best {lt} (hlt : StrictWeak lt) {s : VHeap} {i j : Nat} (h0 : 0 < j)
    (hj : j < s.size) (hp : (j - 1) / 2 = i) : lt (s.heap j) (s.heap (s.child lt i)) = false := by
  have : j = i * 2 + 1 ∨ j = (i + 1) * 2 := by omega
  unfold child
  split
  · next hc =>
    rcases this with rfl | rfl
    · exact hlt.asymm _ _ hc.2
    · exact hlt.irrefl _
  · next hc =>
    rcases this with rfl | rfl
    · exact hlt.irrefl _
    · simpa [hj] using hc

theorem DownPre.down {lt} (hlt : StrictWeak lt) {b : Nat} {s : VHeap} {i : Nat}
    (h : DownPre lt b s i) (hb : b ≤ i) (hs : i * 2 + 1 < s.size)
    (hl : lt (s.heap (s.child lt i)) (s.heap i) = true) :
    DownPre lt b (s.swap i (s.child lt i)) (s.child lt i) := by
  have hcg := child_gt lt s i
  have hcp := child_par lt s i
  have hcs := child_lt_size lt s i hs
  have hbest : ∀ j, 0 < j → j < s.size → (j - 1) / 2 = i →
      lt (s.heap j) (s.heap (s.child lt i)) = false := fun j h0 h1 h2 => child_best hlt h0 h1 h2
  generalize s.child lt i = c at *
  have ei : (s.swap i c).heap i = s.heap c := swap_heap_left (by omega)
  have ec : (s.swap i c).heap c = s.heap i := swap_heap_right
  constructor
  · intro j h1 h2 h3 h4
    have h2 : j < s.size := h2
    by_cases hji : j = i
    · subst hji
      rw [ei, swap_heap_other (by omega) h4]
      exact h.grand h1 h3 c (by omega) hcs hcp
    · by_cases hq : (j - 1) / 2 = i
      · rw [hq, ei]
        by_cases hjc : j = c
        · subst hjc; rw [ec]; exact hlt.asymm _ _ hl
        · rw [swap_heap_other hji hjc]; exact hbest j h1 h2 hq
      · rw [swap_heap_other hji (by omega), swap_heap_other hq h4]
        exact h.ok j h1 h2 h3 hq
  · intro _ _ j h1 h2 hq
    have h2 : j < s.size := h2
    rw [hcp, ei, swap_heap_other (by omega) (by omega)]
    have := h.ok j h1 h2 (by omega) (by omega)
    rwa [hq] at this

theorem downS_ord {lt} (hlt : StrictWeak lt) (b : Nat) : ∀ k i (s : VHeap), i < s.size → b ≤ i →
    s.size ≤ k + i → DownPre lt b s i → ∀ j, 0 < j → j < s.size → b ≤ (j - 1) / 2 →
      lt ((downS lt k i s).heap j) ((downS lt k i s).heap ((j - 1) / 2)) = false := by
  intro k
  induction k with
  | zero => intro i s hi _ hk; omega
  | succ k ih =>
    intro i s hi hb hk h
    simp only [downS]
    split
    · next hc =>
      have hcg := child_gt lt s i
      have hcs := child_lt_size lt s i hc.1
      exact ih _ (s.swap i (s.child lt i)) hcs (by omega) (show s.size ≤ _ by omega)
        (h.down hlt hb hc.1 hc.2)
    · next hc =>
      intro j h1 h2 h3
      by_cases hq : (j - 1) / 2 = i
      · rw [hq]
        have hl : lt (s.heap (s.child lt i)) (s.heap i) = false := by
          simpa [show i * 2 + 1 < s.size by omega] using hc
        exact hlt.ntrans (child_best hlt h1 h2 hq) hl
      · exact h.ok j h1 h2 h3 hq

theorem Ord.root {lt} (hlt : StrictWeak lt) {s : VHeap} (h : Ord lt s) : ∀ j < s.size,
    lt (s.heap j) (s.heap 0) = false := by
  intro j
  induction j using Nat.strongRecOn with
  | _ j ih =>
    intro hj
    by_cases h0 : j = 0
    · subst h0; exact hlt.irrefl _
    · exact hlt.ntrans (h j (by omega) hj) (ih _ (by omega) (by omega))

/-! ### operations: contents -/

theorem percolateUp_same (lt : Nat → Nat → Bool) {s : VHeap} (h : s.WF) {i : Nat}
    (hi : i < s.size) : Same s (s.percolateUp lt i) := by
  rw [percolateUp_eq lt h hi]; exact upS_same lt _ _ _ h hi

theorem percolateDown_same (lt : Nat → Nat → Bool) {s : VHeap} (h : s.WF) {i : Nat}
    (hi : i < s.size) : Same s (s.percolateDown lt i) := by
  rw [percolateDown_eq lt h hi]; exact downS_same lt _ _ _ h hi

theorem empty_wf : empty.WF := ⟨fun i h => absurd h (Nat.not_lt_zero _), fun v i h => by simp [empty] at h⟩

/-- The heap with one more element at the end. -/
def push (s : VHeap) (n : Nat) : VHeap :=
  { s with idx := upd s.idx n (some s.size), heap := upd s.heap s.size n, size := s.size + 1 }

theorem push_wf {s : VHeap} (h : s.WF) {n : Nat} (hn : n < s.isize) (hm : s.idx n = none) :
    (s.push n).WF := by
  constructor
  · intro i hi
    simp only [push] at hi ⊢
    simp only [upd]
    by_cases he : i = s.size
    · simp [he]
    · have hlt : i < s.size := by omega
      have : s.heap i ≠ n := by
        intro e; have := h.idx_heap i hlt; rw [e, hm] at this; cases this
      simp [he, this, h.idx_heap i hlt]
  · intro v i hv
    simp only [push] at hv ⊢
    simp only [upd] at hv ⊢
    by_cases he : v = n
    · simp only [he, if_true, Option.some.injEq] at hv
      subst hv; subst he; simp [hn]
    · simp only [he, if_false] at hv
      obtain ⟨h1, h2, h3⟩ := h.heap_idx v i hv
      have : i ≠ s.size := by omega
      simp [this, h2, h3]; omega

theorem push_mem {s : VHeap} (n v : Nat) :
    ((s.push n).idx v).isSome = (decide (v = n) || (s.idx v).isSome) := by
  simp only [push, upd]
  by_cases h : v = n <;> simp [h]

theorem insert_spec {lt} {s s' : VHeap} (h : s.WF) {n : Nat} (hm : s.idx n = none)
    (hs : s.insert lt n = some s') : n < s.isize ∧ (s.push n).WF ∧
      s' = (s.push n).percolateUp lt s.size ∧ Same (s.push n) s' := by
  simp only [insert] at hs
  split at hs
  · next hn =>
    have hw := push_wf h hn hm
    have e : s' = (s.push n).percolateUp lt s.size := (Option.some.inj hs).symm
    refine ⟨hn, hw, e, ?_⟩
    rw [e]
    exact percolateUp_same lt hw (show s.size < s.size + 1 by omega)
  · cases hs

theorem clear_wf {s : VHeap} (h : s.WF) : s.clear.WF ∧ ∀ v, s.clear.idx v = none := by
  have key : ∀ v, s.clear.idx v = none := by
    intro v
    simp only [clear]
    split
    · rfl
    · next hc =>
      cases e : s.idx v with
      | none => rfl
      | some i =>
        obtain ⟨h1, h2, -⟩ := h.heap_idx v i e
        exact absurd (List.any_eq_true.2 ⟨i, by simpa using h1, by simp [h2]⟩) hc
  exact ⟨⟨fun i hi => absurd hi (Nat.not_lt_zero _), fun v i hv => by rw [key] at hv; cases hv⟩, key⟩

theorem pushAll_wf : ∀ (ns : List Nat) (s : VHeap), s.WF → (∀ n ∈ ns, n < s.isize) → ns.Nodup →
    (∀ n ∈ ns, s.idx n = none) → (s.pushAll ns).WF ∧ (s.pushAll ns).isize = s.isize ∧
      ∀ v, ((s.pushAll ns).idx v).isSome = (decide (v ∈ ns) || (s.idx v).isSome) := by
  intro ns
  induction ns with
  | nil => intro s h _ _ _; exact ⟨h, rfl, fun v => by simp [pushAll]⟩
  | cons n ns ih =>
    intro s h hb hd hm
    have hw := push_wf h (hb n (by simp)) (hm n (by simp))
    rw [List.nodup_cons] at hd
    obtain ⟨h1, h2, h3⟩ := ih (s.push n) hw (fun m hm' => hb m (by simp [hm'])) hd.2 (by
      intro m hm'
      have hne : m ≠ n := fun e => hd.1 (e ▸ hm')
      have := hm m (by simp [hm'])
      simpa [push, upd, hne] using this)
    refine ⟨h1, h2, fun v => ?_⟩
    have := h3 v
    rw [push_mem] at this
    show ((pushAll (s.push n) ns).idx v).isSome = _
    rw [this]
    by_cases hv : v = n <;> simp [hv]

theorem heapify_same (lt : Nat → Nat → Bool) : ∀ k (s : VHeap), s.WF → k ≤ s.size →
    Same s (heapify lt k s) := by
  intro k
  induction k with
  | zero => intro s h _; exact .refl h
  | succ k ih =>
    intro s h hk
    have h1 := percolateDown_same lt h (i := k) (by omega)
    exact h1.trans (ih _ h1.wf (by have := h1.size; omega))

theorem heapify_ord {lt} (hlt : StrictWeak lt) : ∀ k (s : VHeap), s.WF → k ≤ s.size →
    (∀ j, 0 < j → j < s.size → k ≤ (j - 1) / 2 → lt (s.heap j) (s.heap ((j - 1) / 2)) = false) →
    Ord lt (heapify lt k s) := by
  intro k
  induction k with
  | zero => intro s _ _ h j h1 h2; exact h j h1 h2 (Nat.zero_le _)
  | succ k ih =>
    intro s hw hk h
    have h1 := percolateDown_same lt hw (i := k) (by omega)
    have hsz := h1.size
    refine ih _ h1.wf (by omega) ?_
    intro j hj0 hjs hjk
    rw [hsz] at hjs
    rw [percolateDown_eq lt hw (by omega)]
    refine downS_ord hlt k s.size k s (by omega) (Nat.le_refl _) (by omega) ?_ j hj0 hjs hjk
    exact ⟨fun j a b c d => h j a b (by omega), fun a b => by omega⟩

theorem build_spec {lt} {s s' : VHeap} (h : s.WF) {ns : List Nat} (hd : ns.Nodup)
    (hs : s.build lt ns = some s') : s'.WF ∧ s'.isize = s.isize ∧ (∀ n ∈ ns, n < s.isize) ∧
      (∀ v, (s'.idx v).isSome = decide (v ∈ ns)) ∧ (StrictWeak lt → Ord lt s') := by
  simp only [build] at hs
  split at hs
  · next hb =>
    have hb : ∀ n ∈ ns, n < s.isize := by simpa using hb
    obtain ⟨hcw, hcm⟩ := clear_wf h
    obtain ⟨h1, h2, h3⟩ := pushAll_wf ns s.clear hcw hb hd (fun n _ => hcm n)
    have hsame := heapify_same lt ((s.clear.pushAll ns).size / 2) _ h1 (by omega)
    have e := (Option.some.inj hs).symm
    subst e
    refine ⟨hsame.wf, hsame.isize.trans h2, hb, fun v => ?_, fun hlt => ?_⟩
    · rw [hsame.mem, h3, hcm]; simp
    · exact heapify_ord hlt _ _ h1 (by omega) (fun j a b c => by omega)
  · cases hs

/-- The heap after taking the first element out and moving the last one to the front, before
percolation. -/
def cut (s : VHeap) : VHeap :=
  { s with heap := upd s.heap 0 (s.heap (s.size - 1))
           idx := upd (upd s.idx (s.heap (s.size - 1)) (some 0)) (s.heap 0) none
           size := s.size - 1 }

theorem cut_wf {s : VHeap} (h : s.WF) (h0 : 0 < s.size) : s.cut.WF := by
  constructor
  · intro i hi
    simp only [cut] at hi ⊢
    simp only [upd]
    by_cases hi0 : i = 0
    · subst hi0
      have : s.heap (s.size - 1) ≠ s.heap 0 := fun e => by
        have := h.inj (by omega) h0 e; omega
      simp [this]
    · have h1 : s.heap i ≠ s.heap 0 := fun e => hi0 (h.inj (by omega) h0 e)
      have h2 : s.heap i ≠ s.heap (s.size - 1) := fun e => by
        have := h.inj (i := i) (j := s.size - 1) (by omega) (by omega) e; omega
      simp [hi0, h1, h2, h.idx_heap i (by omega)]
  · intro v i hv
    simp only [cut] at hv ⊢
    simp only [upd] at hv ⊢
    by_cases h1 : v = s.heap 0
    · simp [h1] at hv
    · by_cases h2 : v = s.heap (s.size - 1)
      · have hne : s.heap (s.size - 1) ≠ s.heap 0 := fun e => h1 (h2.trans e)
        simp only [h2, hne, if_false, if_true, Option.some.injEq] at hv
        subst hv
        have h3 : s.size - 1 ≠ 0 := fun e => hne (by rw [e])
        exact ⟨by omega, by simp [h2],
          h2 ▸ (h.heap_idx _ _ (h.idx_heap (s.size - 1) (by omega))).2.2⟩
      · simp only [h1, h2, if_false] at hv
        obtain ⟨ha, hb, hc⟩ := h.heap_idx v i hv
        have hi0 : i ≠ 0 := fun e => h1 (by rw [← hb, e])
        have hil : i ≠ s.size - 1 := fun e => h2 (by rw [← hb, e])
        exact ⟨by omega, by simp [hi0, hb], hc⟩

theorem cut_mem {s : VHeap} (h : s.WF) (h0 : 0 < s.size) (v : Nat) :
    (s.cut.idx v).isSome = (decide (v ≠ s.heap 0) && (s.idx v).isSome) := by
  simp only [cut, upd]
  by_cases h1 : v = s.heap 0
  · simp [h1]
  · by_cases h2 : v = s.heap (s.size - 1)
    · have hne : s.heap (s.size - 1) ≠ s.heap 0 := fun e => h1 (h2.trans e)
      simp [h2, hne, h.idx_heap (s.size - 1) (by omega)]
    · simp [h1, h2]

theorem removeMin_spec {lt} {s s' : VHeap} {x : Nat} (h : s.WF)
    (hs : s.removeMin lt = some (s', x)) : 0 < s.size ∧ x = s.heap 0 ∧ s.idx x = some 0 ∧
      Same s.cut s' ∧
      s' = (if s.cut.size > 1 then s.cut.percolateDown lt 0 else s.cut) := by
  simp only [removeMin] at hs
  split at hs
  · cases hs
  · next h0 =>
    have h0 : 0 < s.size := by omega
    simp only [Option.some.injEq, Prod.mk.injEq] at hs
    obtain ⟨h1, rfl⟩ := hs
    have e : s' = (if s.cut.size > 1 then s.cut.percolateDown lt 0 else s.cut) := h1.symm
    refine ⟨h0, rfl, h.idx_heap 0 h0, ?_, e⟩
    rw [e]
    split
    · exact percolateDown_same lt (cut_wf h h0) (by omega)
    · exact .refl (cut_wf h h0)

theorem Ord.cut {lt} (hlt : StrictWeak lt) {s s' : VHeap} {x : Nat} (h : s.WF) (ho : Ord lt s)
    (hs : s.removeMin lt = some (s', x)) : Ord lt s' := by
  obtain ⟨h0, -, -, hsame, e⟩ := removeMin_spec h hs
  rw [e]
  split
  · next hgt =>
    rw [percolateDown_eq lt (cut_wf h h0) (by omega)]
    intro j h1 h2
    have h2 : j < s.cut.size := by rwa [(downS_same lt _ _ _ (cut_wf h h0) (by omega)).size] at h2
    refine downS_ord hlt 0 _ 0 s.cut (by omega) (Nat.le_refl _) (by omega) ?_ j h1 h2 (Nat.zero_le _)
    refine ⟨fun j a b _ d => ?_, fun a => by omega⟩
    have hj : s.cut.heap j = s.heap j := by
      have : j ≠ 0 := by omega
      simp [VHeap.cut, upd, this]
    have hp : s.cut.heap ((j - 1) / 2) = s.heap ((j - 1) / 2) := by simp [VHeap.cut, upd, d]
    rw [hj, hp]
    have : s.cut.size = s.size - 1 := rfl
    exact ho j a (by omega)
  · next hgt => intro j h1 h2; omega

theorem Ord.insert {lt} (hlt : StrictWeak lt) {s s' : VHeap} {n : Nat} (h : s.WF) (ho : Ord lt s)
    (hm : s.idx n = none) (hs : s.insert lt n = some s') : Ord lt s' := by
  obtain ⟨hn, hw, e, -⟩ := insert_spec h hm hs
  rw [e, percolateUp_eq lt hw (show s.size < s.size + 1 by omega)]
  refine upS_ord hlt _ _ _ (show s.size < s.size + 1 by omega) (Nat.le_refl _) ?_
  have hz : (s.push n).size = s.size + 1 := rfl
  refine ⟨fun j h1 h2 h3 => ?_, fun h0 j h1 h2 h3 => by omega⟩
  have e1 : (s.push n).heap j = s.heap j := by simp [push, upd, h3]
  have e2 : (s.push n).heap ((j - 1) / 2) = s.heap ((j - 1) / 2) := by
    have : (j - 1) / 2 ≠ s.size := by omega
    simp [push, upd, this]
  rw [e1, e2]
  exact ho j h1 (by omega)

/-- Two orders agree on the elements of the heap other than `n`. -/
def AgreeOff (s : VHeap) (n : Nat) (lt lt' : Nat → Nat → Bool) : Prop :=
  ∀ x y, x ≠ n → y ≠ n → (s.idx x).isSome = true → (s.idx y).isSome = true → lt' x y = lt x y

theorem Ord.mid {lt lt' : Nat → Nat → Bool} (hlt : StrictWeak lt) {s : VHeap} (h : s.WF)
    (ho : Ord lt s) {n i : Nat} (hi : s.idx n = some i) (ha : s.AgreeOff n lt lt') :
    Mid lt' s i := by
  obtain ⟨his, hin, -⟩ := h.heap_idx n i hi
  have hne : ∀ j < s.size, j ≠ i → s.heap j ≠ n := fun j hj hji e =>
    hji (h.inj hj his (e.trans hin.symm))
  have hmem : ∀ j < s.size, (s.idx (s.heap j)).isSome = true := fun j hj => by
    rw [h.idx_heap j hj]; rfl
  constructor
  · intro j h1 h2 h3 h4
    rw [ha _ _ (hne j h2 h3) (hne _ (by omega) h4) (hmem j h2) (hmem _ (by omega))]
    exact ho j h1 h2
  · intro h0 j h1 h2 h3
    rw [ha _ _ (hne j h2 (by omega)) (hne _ (by omega) (by omega)) (hmem j h2) (hmem _ (by omega))]
    have a := ho j h1 h2
    rw [h3] at a
    exact hlt.ntrans a (ho i h0 his)

theorem Ord.downPre {lt} (hlt : StrictWeak lt) {s : VHeap} (ho : Ord lt s) {i : Nat}
    (hi : i < s.size) : DownPre lt 0 s i := by
  refine ⟨fun j a b _ _ => ho j a b, fun a _ j b c d => ?_⟩
  have := ho j b c
  rw [d] at this
  exact hlt.ntrans this (ho i a hi)

theorem downS_ord0 {lt} (hlt : StrictWeak lt) {s : VHeap} (hw : s.WF) {i : Nat} (hi : i < s.size)
    (h : DownPre lt 0 s i) : Ord lt (downS lt s.size i s) := by
  intro j h1 h2
  rw [(downS_same lt s.size i s hw hi).size] at h2
  exact downS_ord hlt 0 s.size i s hi (Nat.zero_le _) (by omega) h j h1 h2 (Nat.zero_le _)

/-- `percolateUp` followed by `percolateDown` at the (new) position of the same element. -/
theorem Mid.fix {lt} (hlt : StrictWeak lt) {s : VHeap} (hw : s.WF) {n i : Nat}
    (hi : s.idx n = some i) (hm : Mid lt s i) :
    ∃ i', (s.percolateUp lt i).idx n = some i' ∧
      Ord lt ((s.percolateUp lt i).percolateDown lt i') := by
  obtain ⟨his, hin, -⟩ := hw.heap_idx n i hi
  have hsame := percolateUp_same lt hw his
  obtain ⟨i', hi'⟩ := Option.isSome_iff_exists.1 (by rw [hsame.mem n, hi]; rfl :
    ((s.percolateUp lt i).idx n).isSome = true)
  refine ⟨i', hi', ?_⟩
  have hi's := (hsame.wf.heap_idx n i' hi').1
  rw [percolateDown_eq lt hsame.wf hi's]
  refine downS_ord0 hlt hsame.wf hi's ?_
  rw [percolateUp_eq lt hw his] at hi' hi's ⊢
  by_cases hc : i ≠ 0 ∧ lt (s.heap i) (s.heap ((i - 1) / 2)) = true
  · cases i with
    | zero => exact absurd rfl hc.1
    | succ k =>
      refine Ord.downPre hlt ?_ hi's
      simp only [upS, hc, if_true]
      exact upS_ord hlt _ _ _ (show _ < s.size by omega) (by omega) (hm.up hlt his hc.1 hc.2)
  · have e : upS lt i i s = s := by
      cases i with
      | zero => rfl
      | succ k => simp only [upS, hc, if_false]
    rw [e] at hi' ⊢
    rw [hi] at hi'
    cases hi'
    refine ⟨fun j a b _ d => ?_, fun a _ => hm.grand a⟩
    by_cases hji : j = i
    · subst hji
      have : j ≠ 0 := by omega
      simpa [this] using hc
    · exact hm.ok j a b hji d

end VHeap

end Candy
