import Verif.Model.Propagate

/-! Basic lemmas about literals, entailment, array writes and swaps. -/

namespace Candy

@[simp] theorem Lit.neg_neg (l : Lit) : l.neg.neg = l := by
  cases l; simp [Lit.neg]
@[simp] theorem Lit.var_neg (l : Lit) : l.neg.var = l.var := rfl
@[simp] theorem Lit.sign_neg (l : Lit) : l.neg.sign = !l.sign := rfl
theorem Lit.neg_ne (l : Lit) : l.neg ≠ l := by
  cases l with | mk v s => cases s <;> simp [Lit.neg]
theorem Lit.ne_neg (l : Lit) : l ≠ l.neg := fun h => l.neg_ne h.symm
theorem Lit.neg_inj {a b : Lit} : a.neg = b.neg ↔ a = b :=
  ⟨fun h => by rw [← a.neg_neg, h, b.neg_neg], fun h => by rw [h]⟩
theorem Lit.neg_eq_iff {a b : Lit} : a.neg = b ↔ a = b.neg :=
  ⟨fun h => by rw [← h, Lit.neg_neg], fun h => by rw [h, Lit.neg_neg]⟩
theorem Lit.eq_or_neg_of_var {a b : Lit} (h : a.var = b.var) : a = b ∨ a = b.neg := by
  cases a with | mk v s => cases b with | mk v' s' =>
    simp only [Lit.neg] at *
    subst h
    cases s <;> cases s' <;> simp

theorem Lit.holds_neg {a : Assign} {l : Lit} : l.neg.holds a ↔ ¬ l.holds a := by
  simp only [Lit.holds, Lit.neg]
  cases a l.var <;> cases l.sign <;> simp
theorem Lit.not_holds {a : Assign} {l : Lit} : ¬ l.holds a ↔ l.neg.holds a := Lit.holds_neg.symm
theorem Lit.not_holds_neg {a : Assign} {l : Lit} : ¬ l.neg.holds a ↔ l.holds a := by
  rw [Lit.holds_neg]; exact Classical.not_not

@[simp] theorem upd_same {α β} [DecidableEq α] (f : α → β) (k : α) (v : β) : upd f k v k = v := by
  simp [upd]
theorem upd_ne {α β} [DecidableEq α] (f : α → β) {k x : α} (v : β) (h : x ≠ k) :
    upd f k v x = f x := by
  simp [upd, h]
theorem upd_apply {α β} [DecidableEq α] (f : α → β) (k x : α) (v : β) :
    upd f k v x = if x = k then v else f x := rfl
@[simp] theorem upd_upd {α β} [DecidableEq α] (f : α → β) (k : α) (v w : β) :
    upd (upd f k v) k w = upd f k w := by
  funext x; simp only [upd]; split <;> rfl

theorem satClause_perm {a : Assign} {c d : Clause} (h : ∀ l, l ∈ c ↔ l ∈ d) :
    SatClause a c ↔ SatClause a d := by
  simp only [SatClause, h]
theorem Entails.mono {F : CNF} {c d : Clause} (h : ∀ l ∈ c, l ∈ d) (e : Entails F c) :
    Entails F d := fun a ha => by
  obtain ⟨l, hl, hh⟩ := e a ha
  exact ⟨l, h l hl, hh⟩
theorem Entails.unit {F : CNF} {l : Lit} : Entails F [l] ↔ ∀ a, Sat a F → l.holds a := by
  simp [Entails, SatClause]

theorem swapAt_perm (ls : List Lit) (i j : Nat) : (swapAt ls i j).Perm ls := by
  unfold swapAt
  split
  · rename_i a b ha hb
    obtain ⟨hi, rfl⟩ := List.getElem?_eq_some_iff.1 ha
    obtain ⟨hj, rfl⟩ := List.getElem?_eq_some_iff.1 hb
    exact List.set_set_perm hi hj
  · exact List.Perm.refl _

theorem fixFirst_perm (p : Lit) (ls : List Lit) : (fixFirst p ls).Perm ls := by
  unfold fixFirst; split
  · exact swapAt_perm _ _ _
  · exact List.Perm.refl _

theorem swapAt_01 (a b : Lit) (r : List Lit) : swapAt (a :: b :: r) 0 1 = b :: a :: r := by
  simp [swapAt]

/-- Splitting a list that ends in a known element. -/
theorem append_singleton_split {α} {s pre post : List α} {p q : α}
    (h : s ++ [p] = pre ++ q :: post) :
    (post = [] ∧ q = p ∧ pre = s) ∨ ∃ post', post = post' ++ [p] ∧ s = pre ++ q :: post' := by
  rcases List.eq_nil_or_concat post with rfl | ⟨post', x, rfl⟩
  · left
    have := List.append_inj' h rfl
    simp_all
  · right
    rw [List.concat_eq_append] at *
    rw [show pre ++ q :: (post' ++ [x]) = (pre ++ q :: post') ++ [x] by simp] at h
    have := List.append_inj' h rfl
    refine ⟨post', ?_, this.1⟩
    simp_all

end Candy
