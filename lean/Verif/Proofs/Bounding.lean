import Verif.Model.Bounding
import Verif.Proofs.Basic
import Mathlib.Data.Finset.Card
import Mathlib.Data.Finset.Range

/-!
# The loop that bounds eccentricities
-/

namespace Candy
namespace Bounding

open Finset

variable {n : Nat} {nbr : Nat → List Nat} {scope : Nat → Bool} {nl : Nat} {pruned : Nat → Int} {type : Measure}

/-- The nodes that are taken into account. -/
def Used (n : Nat) (scope : Nat → Bool) (pruned : Nat → Int) (i : Nat) : Prop := i < n ∧ scope i = true ∧ pruned i < 0

instance (i : Nat) : Decidable (Used n scope pruned i) := by unfold Used; infer_instance

/-- The searches give distances `D` and eccentricities `E`. -/
structure Metric (n : Nat) (nbr : Nat → List Nat) (scope : Nat → Bool) (nl : Nat) (pruned : Nat → Int) (D : Nat → Nat → Int) (E : Nat → Int) :
    Prop where
  ecc : ∀ u, Used n scope pruned u → ∃ d, eccentricity n nbr pruned u = some (d, E u) ∧ ∀ v, Used n scope pruned v → d v = D u v
  nonneg : ∀ u v, Used n scope pruned u → Used n scope pruned v → 0 ≤ D u v
  self : ∀ u, Used n scope pruned u → D u u = 0
  le : ∀ u v, Used n scope pruned u → Used n scope pruned v → D u v ≤ E v
  tri : ∀ u v, Used n scope pruned u → Used n scope pruned v → E u - D u v ≤ E v ∧ E v ≤ E u + D u v
  lt : ∀ u, Used n scope pruned u → E u < nl

theorem eligible_iff {d : Nat → Int} (h : ∀ v, Used n scope pruned v → d v ≠ -1) {i : Nat} (hi : i < n) :
    eligible scope pruned d i = true ↔ Used n scope pruned i := by
  unfold eligible
  constructor
  · intro e
    simp only [Bool.not_eq_true', Bool.or_eq_false_iff, decide_eq_false_iff_not, Bool.not_eq_false'] at e
    exact ⟨hi, e.1.2, by omega⟩
  · intro e
    have := h i e
    simp [this, e.2.1, e.2.2]

/-! ### The loop that updates bounds -/

theorem foldl_improve {ecc : Int} : ∀ (l : List Nat) (b : Bounding), l.Nodup →
    let b' := l.foldl (improve scope pruned ecc) b
    (b'.d = b.d ∧ b'.candidate = b.candidate ∧ b'.candidates = b.candidates ∧ b'.current = b.current ∧
      b'.minlowernode = b.minlowernode ∧ b'.maxuppernode = b.maxuppernode) ∧
    (∀ i, b'.lower i = if i ∈ l ∧ eligible scope pruned b.d i = true then max (b.lower i) (max (b.d i) (ecc - b.d i)) else b.lower i) ∧
    (∀ i, b'.upper i = if i ∈ l ∧ eligible scope pruned b.d i = true then min (b.upper i) (ecc + b.d i) else b.upper i) ∧
    (b.maxlower ≤ b'.maxlower ∧ (∀ i ∈ l, eligible scope pruned b.d i = true → b'.lower i ≤ b'.maxlower) ∧
      (b'.maxlower = b.maxlower ∨ ∃ i ∈ l, eligible scope pruned b.d i = true ∧ b'.maxlower = b'.lower i)) ∧
    (b'.minupper ≤ b.minupper ∧ (∀ i ∈ l, eligible scope pruned b.d i = true → b'.minupper ≤ b'.upper i) ∧
      (b'.minupper = b.minupper ∨ ∃ i ∈ l, eligible scope pruned b.d i = true ∧ b'.minupper = b'.upper i))
  | [], b, _ => by simp
  | a :: l, b, hnd => by
    have ih := foldl_improve (ecc := ecc) l (improve scope pruned ecc b a) (List.nodup_cons.1 hnd).2
    have ha := (List.nodup_cons.1 hnd).1
    simp only [List.foldl_cons]
    revert ih
    generalize l.foldl (improve scope pruned ecc) (improve scope pruned ecc b a) = b'
    intro ⟨⟨i1, i2, i3, i4, i5, i6⟩, i7, i8, i9, i10⟩
    by_cases he : eligible scope pruned b.d a = true
    · simp only [improve, if_pos he] at i1 i2 i3 i4 i5 i6 i7 i8 i9 i10
      refine ⟨⟨i1, i2, i3, i4, i5, i6⟩, ?_, ?_, ?_, ?_⟩
      · intro i
        rw [i7]
        by_cases hia : i = a
        · subst hia; simp [ha, he, upd_same]
        · simp [hia, upd_ne]
      · intro i
        rw [i8]
        by_cases hia : i = a
        · subst hia; simp [ha, he, upd_same]
        · simp [hia, upd_ne]
      · obtain ⟨j1, j2, j3⟩ := i9
        have hla : b'.lower a = max (b.lower a) (max (b.d a) (ecc - b.d a)) := by
          rw [i7]; simp [ha, upd_same]
        have j1' : max (b'.lower a) b.maxlower ≤ b'.maxlower := by rw [hla]; exact j1
        refine ⟨Int.le_trans (Int.le_max_right _ _) j1', ?_, ?_⟩
        · intro i hi hel
          rcases List.mem_cons.1 hi with rfl | hi
          · exact Int.le_trans (Int.le_max_left _ _) j1'
          · exact j2 i hi hel
        · rcases j3 with j3 | ⟨i, hi, hel, e⟩
          · rw [← hla] at j3
            rcases Int.le_total (b'.lower a) b.maxlower with hc | hc
            · exact Or.inl (by rw [j3, Int.max_eq_right hc])
            · exact Or.inr ⟨a, List.mem_cons_self, he, by rw [j3, Int.max_eq_left hc]⟩
          · exact Or.inr ⟨i, List.mem_cons_of_mem _ hi, hel, e⟩
      · obtain ⟨j1, j2, j3⟩ := i10
        have hla : b'.upper a = min (b.upper a) (ecc + b.d a) := by
          rw [i8]; simp [ha, upd_same]
        have j1' : b'.minupper ≤ min (b'.upper a) b.minupper := by rw [hla]; exact j1
        refine ⟨Int.le_trans j1' (Int.min_le_right _ _), ?_, ?_⟩
        · intro i hi hel
          rcases List.mem_cons.1 hi with rfl | hi
          · exact Int.le_trans j1' (Int.min_le_left _ _)
          · exact j2 i hi hel
        · rcases j3 with j3 | ⟨i, hi, hel, e⟩
          · rw [← hla] at j3
            rcases Int.le_total b.minupper (b'.upper a) with hc | hc
            · exact Or.inl (by rw [j3, Int.min_eq_right hc])
            · exact Or.inr ⟨a, List.mem_cons_self, he, by rw [j3, Int.min_eq_left hc]⟩
          · exact Or.inr ⟨i, List.mem_cons_of_mem _ hi, hel, e⟩
    · simp only [improve, if_neg he] at i1 i2 i3 i4 i5 i6 i7 i8 i9 i10
      refine ⟨⟨i1, i2, i3, i4, i5, i6⟩, ?_, ?_, ⟨i9.1, ?_, ?_⟩, ⟨i10.1, ?_, ?_⟩⟩
      · intro i
        rw [i7]
        by_cases hia : i = a
        · subst hia; simp [ha, he]
        · simp [hia]
      · intro i
        rw [i8]
        by_cases hia : i = a
        · subst hia; simp [ha, he]
        · simp [hia]
      · intro i hi hel
        rcases List.mem_cons.1 hi with rfl | hi
        · exact absurd hel he
        · exact i9.2.1 i hi hel
      · rcases i9.2.2 with h | ⟨i, hi, h⟩
        · exact Or.inl h
        · exact Or.inr ⟨i, List.mem_cons_of_mem _ hi, h⟩
      · intro i hi hel
        rcases List.mem_cons.1 hi with rfl | hi
        · exact absurd hel he
        · exact i10.2.1 i hi hel
      · rcases i10.2.2 with h | ⟨i, hi, h⟩
        · exact Or.inl h
        · exact Or.inr ⟨i, List.mem_cons_of_mem _ hi, h⟩

/-! ### The loop that updates candidates -/

theorem nextLow_cases (b : Bounding) (i : Nat) : nextLow nbr b i = i ∨ (nextLow nbr b i = b.minlowernode ∧ b.minlowernode ≠ -1) := by
  unfold nextLow
  split
  · exact Or.inl rfl
  · split
    · exact Or.inl rfl
    · split
      · exact Or.inl rfl
      · exact Or.inr ⟨rfl, by assumption⟩

theorem nextHigh_cases (b : Bounding) (i : Nat) : nextHigh nbr b i = i ∨ (nextHigh nbr b i = b.maxuppernode ∧ b.maxuppernode ≠ -1) := by
  unfold nextHigh
  split
  · exact Or.inl rfl
  · split
    · exact Or.inl rfl
    · split
      · exact Or.inl rfl
      · exact Or.inr ⟨rfl, by assumption⟩

/-- The node is a candidate and remains one. -/
def Live (scope : Nat → Bool) (pruned : Nat → Int) (type : Measure) (b : Bounding) (i : Nat) : Prop :=
  b.candidate i = true ∧ eligible scope pruned b.d i = true ∧ settled type b i = false

/-- The node is a candidate and is removed. -/
def Dead (scope : Nat → Bool) (pruned : Nat → Int) (type : Measure) (b : Bounding) (i : Nat) : Bool :=
  b.candidate i && eligible scope pruned b.d i && settled type b i

theorem foldl_filter : ∀ (l : List Nat) (b : Bounding), l.Nodup →
    let b' := l.foldl (filter nbr scope pruned type) b
    (b'.lower = b.lower ∧ b'.upper = b.upper ∧ b'.d = b.d ∧ b'.current = b.current ∧ b'.maxlower = b.maxlower ∧ b'.minupper = b.minupper) ∧
    (∀ i, b'.candidate i = if i ∈ l ∧ Dead scope pruned type b i = true then false else b.candidate i) ∧
    b'.candidates + (l.countP (Dead scope pruned type b) : Nat) = b.candidates ∧
    ((b'.minlowernode = b.minlowernode ∧ (b.minlowernode ≠ -1 ∨ ∀ i ∈ l, ¬ Live scope pruned type b i)) ∨
      ∃ j ∈ l, Live scope pruned type b j ∧ b'.minlowernode = j) ∧
    ((b'.maxuppernode = b.maxuppernode ∧ (b.maxuppernode ≠ -1 ∨ ∀ i ∈ l, ¬ Live scope pruned type b i)) ∨
      ∃ j ∈ l, Live scope pruned type b j ∧ b'.maxuppernode = j)
  | [], b, _ => by simp
  | a :: l, b, hnd => by
    have ih := foldl_filter l (filter nbr scope pruned type b a) (List.nodup_cons.1 hnd).2
    have ha := (List.nodup_cons.1 hnd).1
    have hne : ∀ i ∈ l, i ≠ a := fun i hi e => ha (e ▸ hi)
    simp only [List.foldl_cons]
    by_cases hc : (b.candidate a && eligible scope pruned b.d a) = true
    · by_cases hs : settled type b a = true
      · have hb : filter nbr scope pruned type b a = { b with candidate := upd b.candidate a false, candidates := b.candidates - 1 } := by
          unfold filter; rw [if_pos hc, if_pos hs]
        have hdead : Dead scope pruned type b a = true := by unfold Dead; simp only [hc, hs, Bool.and_self]
        have hnl : ¬ Live scope pruned type b a := fun h => by rw [h.2.2] at hs; cases hs
        have hD : ∀ i ∈ l, Dead scope pruned type (filter nbr scope pruned type b a) i = Dead scope pruned type b i := by
          intro i hi
          rw [hb]
          unfold Dead
          simp only [upd_ne _ _ (hne i hi)]
          rfl
        have hL : ∀ i ∈ l, (Live scope pruned type (filter nbr scope pruned type b a) i ↔ Live scope pruned type b i) := by
          intro i hi
          rw [hb]
          unfold Live
          simp only [upd_ne _ _ (hne i hi)]
          rfl
        revert ih
        generalize l.foldl (filter nbr scope pruned type) (filter nbr scope pruned type b a) = b'
        intro ⟨⟨i1, i2, i3, i4, i5, i6⟩, i7, i8, i9, i10⟩
        rw [List.countP_congr (q := Dead scope pruned type b) (fun i hi => by rw [hD i hi])] at i8
        have i9' := i9
        rw [hb] at i1 i2 i3 i4 i5 i6
        refine ⟨⟨i1, i2, i3, i4, i5, i6⟩, ?_, ?_, ?_, ?_⟩
        · intro i
          rw [i7]
          by_cases hia : i = a
          · subst hia; rw [hb]; simp [ha, hdead, upd_same]
          · by_cases hil : i ∈ l
            · simp only [hD i hil, hil, List.mem_cons, or_true, true_and]
              rw [hb]; simp only [upd_ne _ _ hia]
            · simp only [hil, hia, List.mem_cons, or_false, false_and, if_false]
              rw [hb]; simp only [upd_ne _ _ hia]
        · rw [List.countP_cons, if_pos hdead]
          rw [hb] at i8
          have i8 : b'.candidates + (l.countP (Dead scope pruned type b) : Nat) = b.candidates - 1 := i8
          push_cast
          omega
        · rcases i9 with ⟨e, h⟩ | ⟨j, hj, h, e⟩
          · left
            rw [hb] at e
            refine ⟨e, ?_⟩
            rcases h with h | h
            · left; rw [hb] at h; exact h
            · right
              intro i hi
              rcases List.mem_cons.1 hi with rfl | hi
              · exact hnl
              · exact fun hl => h i hi ((hL i hi).2 hl)
          · exact Or.inr ⟨j, List.mem_cons_of_mem _ hj, (hL j hj).1 h, e⟩
        · rcases i10 with ⟨e, h⟩ | ⟨j, hj, h, e⟩
          · left
            rw [hb] at e
            refine ⟨e, ?_⟩
            rcases h with h | h
            · left; rw [hb] at h; exact h
            · right
              intro i hi
              rcases List.mem_cons.1 hi with rfl | hi
              · exact hnl
              · exact fun hl => h i hi ((hL i hi).2 hl)
          · exact Or.inr ⟨j, List.mem_cons_of_mem _ hj, (hL j hj).1 h, e⟩
      · have hb : filter nbr scope pruned type b a = { b with minlowernode := nextLow nbr b a, maxuppernode := nextHigh nbr b a } := by
          unfold filter; rw [if_pos hc, if_neg hs]
        have hdead : Dead scope pruned type b a = false := by unfold Dead; simp only [hc, hs, Bool.and_false]
        have hlive : Live scope pruned type b a := by
          simp only [Bool.and_eq_true] at hc
          exact ⟨hc.1, hc.2, by simpa using hs⟩
        have hD : ∀ i, Dead scope pruned type (filter nbr scope pruned type b a) i = Dead scope pruned type b i := by
          intro i; rw [hb]; rfl
        have hL : ∀ i, (Live scope pruned type (filter nbr scope pruned type b a) i ↔ Live scope pruned type b i) := by
          intro i; rw [hb]; rfl
        revert ih
        generalize l.foldl (filter nbr scope pruned type) (filter nbr scope pruned type b a) = b'
        intro ⟨⟨i1, i2, i3, i4, i5, i6⟩, i7, i8, i9, i10⟩
        rw [List.countP_congr (q := Dead scope pruned type b) (fun i hi => by rw [hD i])] at i8
        rw [hb] at i1 i2 i3 i4 i5 i6
        refine ⟨⟨i1, i2, i3, i4, i5, i6⟩, ?_, ?_, ?_, ?_⟩
        · intro i
          rw [i7]
          by_cases hia : i = a
          · subst hia; rw [hb]; simp [ha, hdead]
          · simp only [hD i, List.mem_cons, hia, false_or]
            rw [hb]
        · rw [List.countP_cons, if_neg (by rw [hdead]; simp)]
          rw [hb] at i8
          exact i8
        · rcases i9 with ⟨e, h⟩ | ⟨j, hj, h, e⟩
          · rw [hb] at e
            rcases nextLow_cases (nbr := nbr) b a with e1 | ⟨e1, e2⟩
            · exact Or.inr ⟨a, List.mem_cons_self, hlive, by rw [e]; exact e1⟩
            · exact Or.inl ⟨by rw [e]; exact e1, Or.inl e2⟩
          · exact Or.inr ⟨j, List.mem_cons_of_mem _ hj, (hL j).1 h, e⟩
        · rcases i10 with ⟨e, h⟩ | ⟨j, hj, h, e⟩
          · rw [hb] at e
            rcases nextHigh_cases (nbr := nbr) b a with e1 | ⟨e1, e2⟩
            · exact Or.inr ⟨a, List.mem_cons_self, hlive, by rw [e]; exact e1⟩
            · exact Or.inl ⟨by rw [e]; exact e1, Or.inl e2⟩
          · exact Or.inr ⟨j, List.mem_cons_of_mem _ hj, (hL j).1 h, e⟩
    · have hb : filter nbr scope pruned type b a = b := by unfold filter; rw [if_neg hc]
      have hdead : Dead scope pruned type b a = false := by
        unfold Dead; rw [Bool.eq_false_iff.2 hc]; rfl
      have hnl : ¬ Live scope pruned type b a := fun h => hc (by rw [h.1, h.2.1]; rfl)
      rw [hb] at ih ⊢
      revert ih
      generalize l.foldl (filter nbr scope pruned type) b = b'
      intro ⟨i0, i7, i8, i9, i10⟩
      refine ⟨i0, ?_, ?_, ?_, ?_⟩
      · intro i
        rw [i7]
        by_cases hia : i = a
        · subst hia; simp [hdead]
        · simp [hia]
      · rw [List.countP_cons, if_neg (by rw [hdead]; simp)]
        exact i8
      · rcases i9 with ⟨e, h⟩ | ⟨j, hj, h, e⟩
        · refine Or.inl ⟨e, h.imp_right fun h i hi => ?_⟩
          rcases List.mem_cons.1 hi with rfl | hi
          · exact hnl
          · exact h i hi
        · exact Or.inr ⟨j, List.mem_cons_of_mem _ hj, h, e⟩
      · rcases i10 with ⟨e, h⟩ | ⟨j, hj, h, e⟩
        · refine Or.inl ⟨e, h.imp_right fun h i hi => ?_⟩
          rcases List.mem_cons.1 hi with rfl | hi
          · exact hnl
          · exact h i hi
        · exact Or.inr ⟨j, List.mem_cons_of_mem _ hj, h, e⟩

/-! ### Rounds -/

/-- The node cannot contribute any more. -/
def Done (n : Nat) (scope : Nat → Bool) (pruned : Nat → Int) (type : Measure) (lower upper : Nat → Int) (i : Nat) : Prop :=
  lower i = upper i ∨
    match type with
    | .diameter => ∃ j, Used n scope pruned j ∧ upper i ≤ lower j
    | .radius => ∃ j, Used n scope pruned j ∧ upper j ≤ lower i
    | .periphery => ∃ j, Used n scope pruned j ∧ upper i < lower j
    | .center => ∃ j, Used n scope pruned j ∧ upper j < lower i
    | .eccentricities => False

/-- The numbers `maxlower` and `minupper` are the extremes of the bounds. -/
def Extremes (n : Nat) (scope : Nat → Bool) (pruned : Nat → Int) (b : Bounding) : Prop :=
  (∀ i, Used n scope pruned i → b.lower i ≤ b.maxlower ∧ b.minupper ≤ b.upper i) ∧
  (∃ i, Used n scope pruned i ∧ b.maxlower = b.lower i) ∧ ∃ i, Used n scope pruned i ∧ b.minupper = b.upper i

structure Inv (n : Nat) (nbr : Nat → List Nat) (scope : Nat → Bool) (nl : Nat) (pruned : Nat → Int) (type : Measure) (E : Nat → Int) (b : Bounding) : Prop where
  bounds : ∀ i, Used n scope pruned i → 0 ≤ b.lower i ∧ b.lower i ≤ E i ∧ E i ≤ b.upper i ∧ b.upper i ≤ nl
  done : ∀ i, Used n scope pruned i → b.candidate i = false → Done n scope pruned type b.lower b.upper i
  cnt : b.candidates = (((range n).filter fun i => Used n scope pruned i ∧ b.candidate i = true).card : Nat)
  rest : ∀ i, ¬ Used n scope pruned i → b.lower i = 0 ∧ b.upper i = nl
  sel : (b.current = -1 ∧ b.d = fun _ => 0) ∨
    (b.current ≠ -1 ∧ Extremes n scope pruned b ∧ (b.candidates > 0 →
      (∃ j : Nat, b.minlowernode = j ∧ Used n scope pruned j ∧ b.candidate j = true) ∧
      ∃ j : Nat, b.maxuppernode = j ∧ Used n scope pruned j ∧ b.candidate j = true))
  all : b.current = -1 → ∀ i, b.candidate i = true

theorem Done.mono {lo up lo' up' : Nat → Int} {i : Nat} (hE : ∀ j, Used n scope pruned j → lo j ≤ lo' j ∧ up' j ≤ up j ∧ lo' j ≤ up' j)
    (hi : Used n scope pruned i) (h : Done n scope pruned type lo up i) : Done n scope pruned type lo' up' i := by
  have h0 := hE i hi
  rcases h with h | h
  · left; omega
  · right
    cases type with
    | diameter => obtain ⟨j, hj, h⟩ := h; have := hE j hj; exact ⟨j, hj, by omega⟩
    | radius => obtain ⟨j, hj, h⟩ := h; have := hE j hj; exact ⟨j, hj, by omega⟩
    | periphery => obtain ⟨j, hj, h⟩ := h; have := hE j hj; exact ⟨j, hj, by omega⟩
    | center => obtain ⟨j, hj, h⟩ := h; have := hE j hj; exact ⟨j, hj, by omega⟩
    | eccentricities => exact h

theorem done_of_settled {b : Bounding} (he : Extremes n scope pruned b) {i : Nat} (h : settled type b i = true) :
    Done n scope pruned type b.lower b.upper i := by
  unfold settled at h
  rcases Bool.or_eq_true _ _ ▸ h with h | h
  · exact Or.inl (by simpa using h)
  · obtain ⟨_, ⟨j, hj, ej⟩, k, hk, ek⟩ := he
    cases type with
    | diameter => simp only [Bool.and_eq_true, decide_eq_true_eq] at h; exact Or.inr ⟨j, hj, by omega⟩
    | radius => simp only [Bool.and_eq_true, decide_eq_true_eq] at h; exact Or.inr ⟨k, hk, by omega⟩
    | periphery => simp only [Bool.and_eq_true, decide_eq_true_eq] at h; exact Or.inr ⟨j, hj, by omega⟩
    | center => simp only [Bool.and_eq_true, decide_eq_true_eq] at h; exact Or.inr ⟨k, hk, by omega⟩
    | eccentricities => exact Or.inl (by simpa using h)

theorem countP_range (p : Nat → Bool) : ∀ n, (List.range n).countP p = ((range n).filter fun i => p i = true).card
  | 0 => by simp
  | n + 1 => by
    rw [List.range_succ, List.countP_append, countP_range p n, Finset.range_add_one, Finset.filter_insert]
    by_cases h : p n = true
    · simp [h]
    · simp [h]

theorem Inv.round {D : Nat → Nat → Int} {E : Nat → Int} (hm : Metric n nbr scope nl pruned D E)
    (hfirst : Used n scope pruned (mostNeighbours n nbr scope pruned fun _ => 0)) {b : Bounding} (h : Inv n nbr scope nl pruned type E b)
    (hc : b.candidates > 0) :
    ∃ b', Bounding.round n nbr scope nl pruned type b = some b' ∧ Inv n nbr scope nl pruned type E b' ∧ b'.candidates < b.candidates ∧
      b'.current ≠ -1 := by
  have hsel : ∃ u : Nat, (select n nbr scope pruned b).current = u ∧ Used n scope pruned u ∧ b.candidate u = true := by
    unfold select
    rcases h.sel with ⟨s1, s2⟩ | ⟨s1, _, s3⟩
    · refine ⟨_, by rw [if_pos s1, s2], hfirst, h.all s1 _⟩
    · obtain ⟨⟨j, j1, j2, j3⟩, k, k1, k2, k3⟩ := s3 hc
      simp only [if_neg s1]
      by_cases hh : b.high = true
      · exact ⟨j, by simp [hh, j1], j2, j3⟩
      · exact ⟨k, by simp [hh, k1], k2, k3⟩
  obtain ⟨u, eu, hu, hcu⟩ := hsel
  obtain ⟨d, ed, hd⟩ := hm.ecc u hu
  have hd1 : ∀ v, Used n scope pruned v → d v ≠ -1 := fun v hv => by
    have := hm.nonneg u v hu hv; rw [hd v hv]; omega
  have hel : ∀ i, i < n → (eligible scope pruned d i = true ↔ Used n scope pruned i) := fun i hi => eligible_iff hd1 hi
  have hround : Bounding.round n nbr scope nl pruned type b = some ((List.range n).foldl (filter nbr scope pruned type)
      ((List.range n).foldl (improve scope pruned (E u)) (clear nl { select n nbr scope pruned b with d := d }))) := by
    unfold Bounding.round
    have : eccentricity n nbr pruned (select n nbr scope pruned b).current = some (d, E u) := by rw [eu]; exact ed
    simp only [this, Option.map_some]
  rw [hround]
  obtain ⟨⟨i1, i2, i3, i4, i5, i6⟩, i7, i8, i9, i10⟩ :=
    foldl_improve (scope := scope) (pruned := pruned) (ecc := E u) (List.range n) (clear nl { select n nbr scope pruned b with d := d }) List.nodup_range
  revert i1 i2 i3 i4 i5 i6 i7 i8 i9 i10
  generalize (List.range n).foldl (improve scope pruned (E u)) (clear nl { select n nbr scope pruned b with d := d }) = b1
  intro i1 i2 i3 i4 i5 i6 i7 i8 i9 i10
  have i1 : b1.d = d := i1
  have i2 : b1.candidate = b.candidate := i2
  have i3 : b1.candidates = b.candidates := i3
  have i4 : b1.current = u := i4.trans eu
  have i5 : b1.minlowernode = -1 := i5
  have i6 : b1.maxuppernode = -1 := i6
  have i7 : ∀ i, b1.lower i = if i ∈ List.range n ∧ eligible scope pruned d i = true then max (b.lower i) (max (d i) (E u - d i)) else b.lower i := i7
  have i8 : ∀ i, b1.upper i = if i ∈ List.range n ∧ eligible scope pruned d i = true then min (b.upper i) (E u + d i) else b.upper i := i8
  have i9 : 0 ≤ b1.maxlower ∧ (∀ i ∈ List.range n, eligible scope pruned d i = true → b1.lower i ≤ b1.maxlower) ∧
      (b1.maxlower = 0 ∨ ∃ i ∈ List.range n, eligible scope pruned d i = true ∧ b1.maxlower = b1.lower i) := i9
  have i10 : b1.minupper ≤ nl ∧ (∀ i ∈ List.range n, eligible scope pruned d i = true → b1.minupper ≤ b1.upper i) ∧
      (b1.minupper = nl ∨ ∃ i ∈ List.range n, eligible scope pruned d i = true ∧ b1.minupper = b1.upper i) := i10
  have hcond : ∀ i, (i ∈ List.range n ∧ eligible scope pruned d i = true) ↔ Used n scope pruned i := by
    intro i
    rw [List.mem_range]
    exact ⟨fun ⟨a, c⟩ => (hel i a).1 c, fun a => ⟨a.1, (hel i a.1).2 a⟩⟩
  have hlo : ∀ i, Used n scope pruned i → b1.lower i = max (b.lower i) (max (D u i) (E u - D u i)) := fun i hi => by
    rw [i7, if_pos ((hcond i).2 hi), hd i hi]
  have hup : ∀ i, Used n scope pruned i → b1.upper i = min (b.upper i) (E u + D u i) := fun i hi => by
    rw [i8, if_pos ((hcond i).2 hi), hd i hi]
  have hbnd : ∀ i, Used n scope pruned i → b.lower i ≤ b1.lower i ∧ b1.upper i ≤ b.upper i ∧ 0 ≤ b1.lower i ∧ b1.lower i ≤ E i ∧
      E i ≤ b1.upper i ∧ b1.upper i ≤ nl := by
    intro i hi
    rw [hlo i hi, hup i hi]
    have := h.bounds i hi
    have := hm.le u i hu hi
    have := hm.tri u i hu hi
    omega
  have hex : Extremes n scope pruned b1 := by
    refine ⟨fun i hi => ⟨i9.2.1 i (List.mem_range.2 hi.1) ((hel i hi.1).2 hi), i10.2.1 i (List.mem_range.2 hi.1) ((hel i hi.1).2 hi)⟩, ?_, ?_⟩
    · rcases i9.2.2 with e | ⟨i, h1, h2, e⟩
      · refine ⟨u, hu, ?_⟩
        have h1 := i9.2.1 u (List.mem_range.2 hu.1) ((hel u hu.1).2 hu)
        have h2 := (hbnd u hu).2.2.1
        omega
      · exact ⟨i, (hcond i).1 ⟨h1, h2⟩, e⟩
    · rcases i10.2.2 with e | ⟨i, h1, h2, e⟩
      · refine ⟨u, hu, ?_⟩
        have h1 := i10.2.1 u (List.mem_range.2 hu.1) ((hel u hu.1).2 hu)
        have h2 := (hbnd u hu).2.2.2.2.2
        omega
      · exact ⟨i, (hcond i).1 ⟨h1, h2⟩, e⟩
  have heq : b1.lower u = b1.upper u := by
    rw [hlo u hu, hup u hu, hm.self u hu]
    have := h.bounds u hu
    omega
  obtain ⟨⟨j1, j2, j3, j4, j5, j6⟩, j7, j8, j9, j10⟩ :=
    foldl_filter (nbr := nbr) (scope := scope) (pruned := pruned) (type := type) (List.range n) b1 List.nodup_range
  revert j1 j2 j3 j4 j5 j6 j7 j8 j9 j10
  generalize (List.range n).foldl (filter nbr scope pruned type) b1 = b2
  intro j1 j2 j3 j4 j5 j6 j7 j8 j9 j10
  have hdead : Dead scope pruned type b1 u = true := by
    unfold Dead settled
    simp [i2, hcu, i1, (hel u hu.1).2 hu, heq]
  have hcand : ∀ i, Used n scope pruned i → (b2.candidate i = true ↔ Live scope pruned type b1 i) := by
    intro i hi
    rw [j7]
    unfold Dead Live
    rw [i1, (hel i hi.1).2 hi]
    simp only [List.mem_range, hi.1, true_and, Bool.and_true]
    cases b1.candidate i <;> cases settled type b1 i <;> simp
  have hcnt : b2.candidates = (((range n).filter fun i => Used n scope pruned i ∧ b2.candidate i = true).card : Nat) := by
    have e1 : (range n).filter (fun i => Used n scope pruned i ∧ b.candidate i = true) =
        (range n).filter (fun i => Used n scope pruned i ∧ b2.candidate i = true) ∪ (range n).filter fun i => Dead scope pruned type b1 i = true := by
      ext i
      simp only [mem_filter, mem_union, mem_range]
      constructor
      · rintro ⟨a1, a2, a3⟩
        cases hs : settled type b1 i with
        | true => exact Or.inr ⟨a1, by unfold Dead; rw [i2, a3, i1, (hel i a1).2 a2, hs]; rfl⟩
        | false => exact Or.inl ⟨a1, a2, (hcand i a2).2 ⟨by rw [i2]; exact a3, by rw [i1]; exact (hel i a1).2 a2, hs⟩⟩
      · rintro (⟨a1, a2, a3⟩ | ⟨a1, a2⟩)
        · have := ((hcand i a2).1 a3).1
          rw [i2] at this
          exact ⟨a1, a2, this⟩
        · unfold Dead at a2
          rw [i2, i1] at a2
          simp only [Bool.and_eq_true] at a2
          exact ⟨a1, (hel i a1).1 a2.1.2, a2.1.1⟩
    have e2 : Disjoint ((range n).filter (fun i => Used n scope pruned i ∧ b2.candidate i = true))
        ((range n).filter fun i => Dead scope pruned type b1 i = true) := by
      rw [Finset.disjoint_left]
      intro i a1 a2
      simp only [mem_filter, mem_range] at a1 a2
      have := ((hcand i a1.2.1).1 a1.2.2).2.2
      have a2 := a2.2
      unfold Dead at a2
      rw [this] at a2
      simp at a2
    have e3 := h.cnt
    rw [e1, card_union_of_disjoint e2] at e3
    rw [countP_range] at j8
    push_cast at e3
    omega
  have hlt : b2.candidates < b.candidates := by
    have : 0 < (List.range n).countP (Dead scope pruned type b1) := List.countP_pos_iff.2 ⟨u, List.mem_range.2 hu.1, hdead⟩
    omega
  have hcur : b2.current ≠ -1 := by rw [j4, i4]; omega
  refine ⟨b2, rfl, ⟨?_, ?_, hcnt, ?_, Or.inr ⟨hcur, ?_, ?_⟩, fun e => absurd e hcur⟩, hlt, hcur⟩
  · intro i hi
    rw [j1, j2]
    exact (hbnd i hi).2.2
  · intro i hi hci
    rw [j1, j2]
    have hnl : ¬ Live scope pruned type b1 i := fun hl => by rw [(hcand i hi).2 hl] at hci; cases hci
    cases hbc : b.candidate i with
    | false =>
      exact (h.done i hi hbc).mono (fun j hj => by have := hbnd j hj; omega) hi
    | true =>
      refine done_of_settled hex ?_
      refine Classical.byContradiction fun hs => hnl ⟨by rw [i2]; exact hbc, by rw [i1]; exact (hel i hi.1).2 hi, by simpa using hs⟩
  · intro i hi
    rw [j1, j2, i7, i8, if_neg (fun a => hi ((hcond i).1 a)), if_neg (fun a => hi ((hcond i).1 a))]
    exact h.rest i hi
  · unfold Extremes
    rw [j1, j2, j5, j6]
    exact hex
  · intro hpos
    have : 0 < ((range n).filter fun i => Used n scope pruned i ∧ b2.candidate i = true).card := by omega
    obtain ⟨i, hi⟩ := card_pos.1 this
    simp only [mem_filter, mem_range] at hi
    have hl := (hcand i hi.2.1).1 hi.2.2
    have hliveUsed : ∀ j ∈ List.range n, Live scope pruned type b1 j → Used n scope pruned j ∧ b2.candidate j = true := by
      intro j hj hlj
      have hjl := hlj.2.1
      rw [i1] at hjl
      have hu := (hel j (List.mem_range.1 hj)).1 hjl
      exact ⟨hu, (hcand j hu).2 hlj⟩
    constructor
    · rcases j9 with ⟨_, a | a⟩ | ⟨j, hj, hlj, e⟩
      · exact absurd i5 a
      · exact absurd hl (a i (List.mem_range.2 hi.1))
      · exact ⟨j, e, hliveUsed j hj hlj⟩
    · rcases j10 with ⟨_, a | a⟩ | ⟨j, hj, hlj, e⟩
      · exact absurd i6 a
      · exact absurd hl (a i (List.mem_range.2 hi.1))
      · exact ⟨j, e, hliveUsed j hj hlj⟩

theorem loop_zero (b : Bounding) (h : ¬ b.candidates > 0) (k : Nat) : loop n nbr scope nl pruned type k b = some b := by
  unfold loop; rw [if_neg h]

theorem loop_succ (b : Bounding) (h : b.candidates > 0) (k : Nat) :
    loop n nbr scope nl pruned type (k + 1) b = (Bounding.round n nbr scope nl pruned type b).bind (loop n nbr scope nl pruned type k) := by
  rw [loop, if_pos h]

theorem Inv.loop {D : Nat → Nat → Int} {E : Nat → Int} (hm : Metric n nbr scope nl pruned D E)
    (hfirst : Used n scope pruned (mostNeighbours n nbr scope pruned fun _ => 0)) : ∀ (k : Nat) (b : Bounding), Inv n nbr scope nl pruned type E b →
    b.candidates ≤ k → (b.candidates > 0 ∨ b.current ≠ -1) →
    ∃ b', Bounding.loop n nbr scope nl pruned type k b = some b' ∧ Inv n nbr scope nl pruned type E b' ∧ b'.candidates ≤ 0 ∧ b'.current ≠ -1
  | k, b, h, hk, hc => by
    by_cases hp : b.candidates > 0
    · cases k with
      | zero => exact absurd hk (by omega)
      | succ k =>
        obtain ⟨b1, e1, h1, h2, h3⟩ := h.round hm hfirst hp
        obtain ⟨b2, e2, h4⟩ := Inv.loop hm hfirst k b1 h1 (by push_cast at hk; omega) (Or.inr h3)
        exact ⟨b2, by rw [loop_succ b hp, e1]; exact e2, h4⟩
    · exact ⟨b, loop_zero b hp k, h, by omega, hc.resolve_left hp⟩

/-- What the loop gives. -/
theorem loop_result {D : Nat → Nat → Int} {E : Nat → Int} (hm : Metric n nbr scope nl pruned D E)
    (hfirst : Used n scope pruned (mostNeighbours n nbr scope pruned fun _ => 0)) {count : Int}
    (hcount : (nl : Int) - count = (((range n).filter fun i => Used n scope pruned i).card : Nat)) :
    ∃ b, Bounding.loop n nbr scope nl pruned type n (start nl count) = some b ∧ Extremes n scope pruned b ∧
      (∀ i, Used n scope pruned i → b.lower i ≤ E i ∧ E i ≤ b.upper i ∧ Done n scope pruned type b.lower b.upper i) ∧
      ∀ i, ¬ Used n scope pruned i → b.lower i = 0 ∧ b.upper i = nl := by
  have h0 : Inv n nbr scope nl pruned type E (start nl count) := by
    refine ⟨?_, ?_, ?_, fun i _ => ⟨rfl, rfl⟩, Or.inl ⟨rfl, rfl⟩, fun _ _ => rfl⟩
    · intro i hi
      show (0 : Int) ≤ 0 ∧ (0 : Int) ≤ E i ∧ E i ≤ nl ∧ (nl : Int) ≤ nl
      have h1 := hm.lt i hi
      have h2 := hm.le i i hi hi
      rw [hm.self i hi] at h2
      omega
    · intro i _ hi
      exact absurd hi (by simp [start])
    · show (nl : Int) - count = _
      rw [hcount]
      congr 2
      ext i
      simp [start]
  have hpos : 0 < ((range n).filter fun i => Used n scope pruned i).card := card_pos.2 ⟨_, mem_filter.2 ⟨mem_range.2 hfirst.1, hfirst⟩⟩
  have hle : ((range n).filter fun i => Used n scope pruned i).card ≤ n := (card_filter_le _ _).trans (by simp)
  have e0 : (start nl count).candidates = (nl : Int) - count := rfl
  obtain ⟨b, e, h, h1, h2⟩ := h0.loop hm hfirst n _ (by omega) (Or.inl (by omega))
  have hnone : ∀ i, Used n scope pruned i → b.candidate i = false := by
    intro i hi
    have h3 := h.cnt
    have : ((range n).filter fun i => Used n scope pruned i ∧ b.candidate i = true).card = 0 := by omega
    rw [card_eq_zero] at this
    refine Classical.byContradiction fun hb => ?_
    have : i ∈ (range n).filter fun i => Used n scope pruned i ∧ b.candidate i = true := mem_filter.2 ⟨mem_range.2 hi.1, hi, by simpa using hb⟩
    simp_all
  refine ⟨b, e, ?_, fun i hi => ⟨(h.bounds i hi).2.1, (h.bounds i hi).2.2.1, h.done i hi (hnone i hi)⟩, h.rest⟩
  rcases h.sel with ⟨s, _⟩ | ⟨_, s, _⟩
  · exact absurd s h2
  · exact s

end Bounding
end Candy
