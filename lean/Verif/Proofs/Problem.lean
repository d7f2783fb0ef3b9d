import Verif.Model.Problem

/-! Helper lemmas about problems and results. -/

namespace Candy

/-- The number `x` of the 32-bit encoding, unbounded. -/
def Lit.code (l : Lit) : Nat := 2 * l.var + l.sign.toNat

theorem Lit.code_inj {a b : Lit} (h : a.code = b.code) : a = b := by
  obtain ⟨v, s⟩ := a
  obtain ⟨w, t⟩ := b
  unfold Lit.code at h
  cases s <;> cases t <;> simp at h ⊢ <;> omega

theorem Lit.ltb_iff (a b : Lit) : a.ltb b = true ↔ a.code < b.code := by
  obtain ⟨v, s⟩ := a
  obtain ⟨w, t⟩ := b
  unfold Lit.ltb Lit.code
  cases s <;> cases t <;> simp <;> omega

theorem mem_insertLit {l x : Lit} {xs : List Lit} : x ∈ insertLit l xs ↔ x = l ∨ x ∈ xs := by
  induction xs with
  | nil => simp [insertLit]
  | cons y ys ih =>
    simp only [insertLit]
    split
    · simp only [List.mem_cons, ih]
      constructor
      · rintro (h | h | h) <;> simp [h]
      · rintro (h | h | h) <;> simp [h]
    · simp

theorem mem_sortLits {x : Lit} {xs : List Lit} : x ∈ sortLits xs ↔ x ∈ xs := by
  induction xs with
  | nil => simp [sortLits]
  | cons y ys ih => simp [sortLits, mem_insertLit, ih]

/-- Sorted by code, with repetitions. -/
def SortedLe (xs : List Lit) : Prop := xs.Pairwise fun a b => a.code ≤ b.code

/-- Strictly sorted by code. -/
def SortedLt (xs : List Lit) : Prop := xs.Pairwise fun a b => a.code < b.code

theorem sorted_insertLit {l : Lit} {xs : List Lit} (h : SortedLe xs) : SortedLe (insertLit l xs) := by
  induction xs with
  | nil => simp [insertLit, SortedLe]
  | cons y ys ih =>
    have h' := List.pairwise_cons.1 h
    simp only [insertLit]
    split
    · next hlt =>
      rw [Lit.ltb_iff] at hlt
      refine List.pairwise_cons.2 ⟨fun z hz => ?_, ih h'.2⟩
      rcases mem_insertLit.1 hz with rfl | hz
      · omega
      · exact h'.1 z hz
    · next hlt =>
      rw [Lit.ltb_iff] at hlt
      refine List.pairwise_cons.2 ⟨fun z hz => ?_, h⟩
      rcases List.mem_cons.1 hz with rfl | hz
      · omega
      · have := h'.1 z hz; omega

theorem sorted_sortLits (xs : List Lit) : SortedLe (sortLits xs) := by
  induction xs with
  | nil => exact List.Pairwise.nil
  | cons y ys ih => exact sorted_insertLit ih

theorem SortedLe.le_last {xs : List Lit} (h : SortedLe xs) {b : Lit} (hb : xs.getLast? = some b) :
    ∀ x ∈ xs, x.code ≤ b.code := by
  induction xs with
  | nil => simp at hb
  | cons y ys ih =>
    have h' := List.pairwise_cons.1 h
    cases ys with
    | nil => simp at hb; subst hb; simp
    | cons z zs =>
      rw [List.getLast?_cons_cons] at hb
      intro x hx
      rcases List.mem_cons.1 hx with rfl | hx
      · exact h'.1 b (List.mem_of_getLast? hb)
      · exact ih h'.2 hb x hx

theorem mem_uniqueBy_go_sub {p : Lit → Lit → Bool} {x : Lit} {xs : List Lit} :
    ∀ {l : Lit}, x ∈ uniqueBy.go p l xs → x ∈ xs := by
  induction xs with
  | nil => simp [uniqueBy.go]
  | cons y ys ih =>
    intro l
    simp only [uniqueBy.go]
    split
    · intro h; exact List.mem_cons_of_mem _ (ih h)
    · intro h
      rcases List.mem_cons.1 h with rfl | h
      · simp
      · exact List.mem_cons_of_mem _ (ih h)

theorem mem_uniqueEq_go {x : Lit} {xs : List Lit} : ∀ {l : Lit},
    (x = l ∨ x ∈ uniqueBy.go (fun a b => decide (a = b)) l xs) ↔ x = l ∨ x ∈ xs := by
  induction xs with
  | nil => simp [uniqueBy.go]
  | cons y ys ih =>
    intro l
    simp only [uniqueBy.go]
    split
    · next h =>
      have h : l = y := by simpa using h
      subst h
      rw [ih]
      simp
    · rw [List.mem_cons, ih, List.mem_cons]

theorem mem_uniqueEq {x : Lit} {xs : List Lit} :
    x ∈ uniqueBy (fun a b => decide (a = b)) xs ↔ x ∈ xs := by
  cases xs with
  | nil => simp [uniqueBy]
  | cons y ys => simp only [uniqueBy, List.mem_cons]; exact mem_uniqueEq_go

theorem sorted_uniqueEq_go {xs : List Lit} : ∀ {l : Lit}, SortedLe (l :: xs) →
    SortedLt (l :: uniqueBy.go (fun a b => decide (a = b)) l xs) := by
  induction xs with
  | nil => intro l _; simp [uniqueBy.go, SortedLt]
  | cons y ys ih =>
    intro l h
    have h' := List.pairwise_cons.1 h
    have h'' := List.pairwise_cons.1 h'.2
    simp only [uniqueBy.go]
    split
    · exact ih (List.pairwise_cons.2 ⟨fun z hz => h'.1 z (List.mem_cons_of_mem _ hz), h''.2⟩)
    · next hne =>
      have hne : l ≠ y := by simpa using hne
      have hy := h'.1 y (by simp)
      have hlt : l.code < y.code :=
        Nat.lt_of_le_of_ne hy fun e => hne (Lit.code_inj e)
      refine List.pairwise_cons.2 ⟨fun z hz => ?_, ih h'.2⟩
      rcases List.mem_cons.1 hz with rfl | hz
      · exact hlt
      · have := h''.1 z (mem_uniqueBy_go_sub hz)
        omega

theorem sorted_uniqueEq {xs : List Lit} (h : SortedLe xs) :
    SortedLt (uniqueBy (fun a b => decide (a = b)) xs) := by
  cases xs with
  | nil => exact List.Pairwise.nil
  | cons y ys => exact sorted_uniqueEq_go h

/-- `std::unique` by variable keeps everything iff the variables of a sorted list are increasing. -/
theorem uniqueVar_go_length {xs : List Lit} : ∀ {l : Lit}, SortedLe (l :: xs) →
    (uniqueBy.go (fun a b => a.var == b.var) l xs).length ≤ xs.length ∧
    ((uniqueBy.go (fun a b => a.var == b.var) l xs).length = xs.length ↔
      (l :: xs).Pairwise fun a b => a.var < b.var) := by
  induction xs with
  | nil => intro l _; simp [uniqueBy.go]
  | cons y ys ih =>
    intro l h
    have h' := List.pairwise_cons.1 h
    have h'' := List.pairwise_cons.1 h'.2
    simp only [uniqueBy.go]
    split
    · next he =>
      have he : l.var = y.var := by simpa using he
      have hs : SortedLe (l :: ys) :=
        List.pairwise_cons.2 ⟨fun z hz => h'.1 z (List.mem_cons_of_mem _ hz), h''.2⟩
      have := ih hs
      refine ⟨by simp; omega, ⟨fun hh => by simp at hh; omega, fun hh => ?_⟩⟩
      have := (List.pairwise_cons.1 hh).1 y (by simp)
      omega
    · next hne =>
      have hne : l.var ≠ y.var := by simpa using hne
      have := ih h'.2
      refine ⟨by simp; omega, ?_⟩
      simp only [List.length_cons, Nat.add_right_cancel_iff]
      rw [this.2]
      constructor
      · intro hp
        refine List.pairwise_cons.2 ⟨fun z hz => ?_, hp⟩
        have hz' := h'.1 z hz
        unfold Lit.code at hz'
        rcases List.mem_cons.1 hz with rfl | hz2
        · have := Bool.toNat_le l.sign; have := Bool.toNat_le z.sign; omega
        · have h1 := (List.pairwise_cons.1 hp).1 z hz2
          have h2 := h'.1 y (by simp)
          unfold Lit.code at h2
          have := Bool.toNat_le l.sign; have := Bool.toNat_le y.sign; omega
      · intro hp; exact (List.pairwise_cons.1 hp).2

theorem SortedLt.le {xs : List Lit} (h : SortedLt xs) : SortedLe xs := h.imp Nat.le_of_lt

theorem uniqueVar_length {xs : List Lit} (h : SortedLt xs) :
    (uniqueBy (fun a b => a.var == b.var) xs).length = xs.length ↔
      xs.Pairwise fun a b => a.var < b.var := by
  cases xs with
  | nil => simp [uniqueBy]
  | cons y ys =>
    simp only [uniqueBy, List.length_cons, Nat.add_right_cancel_iff]
    exact (uniqueVar_go_length h.le).2

/-- A clause with a complementary pair. -/
def Tautological (c : Clause) : Prop := ∃ l ∈ c, l.neg ∈ c

instance (c : Clause) : Decidable (Tautological c) := by unfold Tautological; infer_instance

theorem tautological_iff {c : Clause} (h : SortedLt c) :
    Tautological c ↔ ¬ c.Pairwise fun a b => a.var < b.var := by
  induction c with
  | nil => simp [Tautological]
  | cons y ys ih =>
    have h' := List.pairwise_cons.1 h
    rw [List.pairwise_cons]
    constructor
    · rintro ⟨l, hl, hn⟩ ⟨hy, hp⟩
      rcases List.mem_cons.1 hl with rfl | hl <;> rcases List.mem_cons.1 hn with hn | hn
      · obtain ⟨v, s⟩ := l; simp [Lit.neg] at hn
      · have := hy _ hn; simp [Lit.neg] at this
      · have := hy _ hl; rw [← hn] at this; simp [Lit.neg] at this
      · exact (ih h'.2).1 ⟨l, hl, hn⟩ hp
    · intro hn
      by_cases hp : ys.Pairwise fun a b => a.var < b.var
      · have : ∃ z ∈ ys, ¬ y.var < z.var := by
          refine Classical.byContradiction fun hh => hn ⟨fun z hz => ?_, hp⟩
          exact Classical.byContradiction fun h2 => hh ⟨z, hz, h2⟩
        obtain ⟨z, hz, hzv⟩ := this
        have hc := h'.1 z hz
        obtain ⟨v, s⟩ := y
        obtain ⟨w, t⟩ := z
        unfold Lit.code at hc
        simp at hc hzv
        have : v = w ∧ s = false ∧ t = true := by
          cases s <;> cases t <;> simp at hc ⊢ <;> omega
        obtain ⟨rfl, rfl, rfl⟩ := this
        exact ⟨⟨v, false⟩, by simp, by simpa [Lit.neg] using hz⟩
      · obtain ⟨l, hl, hln⟩ := (ih h'.2).2 hp
        exact ⟨l, List.mem_cons_of_mem _ hl, List.mem_cons_of_mem _ hln⟩

theorem tautological_congr {c d : Clause} (h : ∀ l, l ∈ c ↔ l ∈ d) :
    Tautological c ↔ Tautological d := by
  simp [Tautological, h]

/-- The clause `readClause` stores. -/
def normalClause (c : Clause) : Clause := uniqueBy (fun a b => decide (a = b)) (sortLits c)

theorem mem_normalClause {c : Clause} {l : Lit} : l ∈ normalClause c ↔ l ∈ c := by
  rw [normalClause, mem_uniqueEq, mem_sortLits]

theorem sorted_normalClause (c : Clause) : SortedLt (normalClause c) :=
  sorted_uniqueEq (sorted_sortLits c)

/-- One more than the largest variable of a clause. -/
def clauseVars (c : Clause) : Nat := c.foldr (fun l n => max (l.var + 1) n) 0

theorem clauseVars_le {c : Clause} {n : Nat} : clauseVars c ≤ n ↔ ∀ l ∈ c, l.var < n := by
  induction c with
  | nil => simp [clauseVars]
  | cons l ls ih =>
    simp only [clauseVars, List.foldr_cons] at ih ⊢
    rw [Nat.max_le, ih]
    simp [Nat.succ_le_iff]

theorem Problem.readClause_eq (p : Problem) (c : Clause) :
    p.readClause c = ⟨p.problem ++ (if Tautological c then [] else [normalClause c]),
      max p.variables (clauseVars c)⟩ := by
  unfold Problem.readClause
  cases h : (sortLits c).getLast? with
  | none =>
    have h0 : sortLits c = [] := List.getLast?_eq_none_iff.1 h
    have : c = [] := by
      cases c with
      | nil => rfl
      | cons l ls => have := (mem_sortLits (xs := l :: ls)).2 (List.mem_cons_self ..); simp [h0] at this
    subst this
    simp [Tautological, normalClause, sortLits, uniqueBy, clauseVars]
  | some b =>
    have hv : clauseVars c = b.var + 1 := by
      apply Nat.le_antisymm
      · rw [clauseVars_le]
        intro l hl
        have := (sorted_sortLits c).le_last h l (mem_sortLits.2 hl)
        unfold Lit.code at this
        have := Bool.toNat_le l.sign; have := Bool.toNat_le b.sign; omega
      · have := (clauseVars_le (c := c)).1 (Nat.le_refl _) b
          (mem_sortLits.1 (List.mem_of_getLast? h))
        exact this
    have ht : (uniqueBy (fun a b => a.var == b.var) (normalClause c)).length ≠ (normalClause c).length
        ↔ Tautological c := by
      rw [tautological_congr (d := normalClause c) (fun l => mem_normalClause.symm),
        tautological_iff (sorted_normalClause c), Ne, uniqueVar_length (sorted_normalClause c)]
    simp only [hv]
    by_cases htc : Tautological c
    · have := ht.2 htc
      rw [if_pos htc]
      simp only [normalClause] at this
      rw [if_pos this]; simp
    · have := fun hh => htc (ht.1 hh)
      rw [if_neg htc]
      simp only [normalClause] at this
      rw [if_neg this]; rfl

theorem Problem.readClauses_eq (f : CNF) : ∀ p : Problem, p.readClauses f =
    ⟨p.problem ++ (f.filter fun c => !decide (Tautological c)).map normalClause,
      f.foldl (fun n c => max n (clauseVars c)) p.variables⟩ := by
  induction f with
  | nil => intro p; simp [Problem.readClauses]
  | cons c cs ih =>
    intro p
    have := ih (p.readClause c)
    simp only [Problem.readClauses, List.foldl_cons] at this ⊢
    rw [this, Problem.readClause_eq]
    by_cases h : Tautological c <;> simp [h]

theorem foldl_max_le (f : CNF) : ∀ (n m : Nat), f.foldl (fun n c => max n (clauseVars c)) n ≤ m ↔
    n ≤ m ∧ ∀ c ∈ f, ∀ l ∈ c, l.var < m := by
  induction f with
  | nil => simp
  | cons c cs ih =>
    intro n m
    rw [List.foldl_cons, ih, Nat.max_le, clauseVars_le]
    simp [and_assoc]

theorem Tautological.sat {c : Clause} (h : Tautological c) (a : Assign) : SatClause a c := by
  obtain ⟨l, hl, hn⟩ := h
  by_cases hh : l.holds a
  · exact ⟨l, hl, hh⟩
  · refine ⟨_, hn, ?_⟩
    simp only [Lit.holds, Lit.neg] at hh ⊢
    cases h1 : a l.var <;> cases h2 : l.sign <;> simp [h1, h2] at hh ⊢

theorem satClause_congr {c d : Clause} (h : ∀ l, l ∈ c ↔ l ∈ d) (a : Assign) :
    SatClause a c ↔ SatClause a d := by simp [SatClause, h]

end Candy
