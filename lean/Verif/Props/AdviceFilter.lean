import Verif.Model.AdviceFilter
import Verif.Proofs.Basic

/-!
# C69: removing advice with heuristics

`e.stored` are the literals of an entry with their budgets.
-/

namespace Candy

/-- The literals of an entry, each with its budget. -/
def Advice.stored (e : Advice) : List (Lit × Int) := e.lits.zipIdx.map fun p => (p.1, e.budgets p.2)

theorem Advice.stored_length (e : Advice) : e.stored.length = e.lits.length := by simp [stored]

theorem Advice.stored_getElem (e : Advice) (i : Nat) (h : i < e.stored.length) :
    e.stored[i] = (e.lits[i]'(by rw [← e.stored_length]; exact h), e.budgets i) := by simp [stored]

/-- Removal of the element at position `i`, to which the last one moves. -/
theorem set_last_perm {α : Type} : ∀ {A B : List α} {x : α} (L : List α), L = A ++ x :: B → (hb : B ≠ []) →
    ∃ B', (L.set A.length (B.getLast hb)).dropLast = A ++ B' ∧ B'.Perm B := by
  rintro A B x L rfl hb
  refine ⟨B.getLast hb :: B.dropLast, ?_, ?_⟩
  · rw [List.set_append_right _ _ (Nat.le_refl _), Nat.sub_self, List.set_cons_zero, List.dropLast_append_of_ne_nil (by simp)]
    congr 1
    cases B with
    | nil => exact (hb rfl).elim
    | cons y B => rfl
  · have : (B.dropLast ++ [B.getLast hb]).Perm (B.getLast hb :: B.dropLast) := List.perm_append_comm
    rw [List.dropLast_concat_getLast hb] at this
    exact this.symm

/-- What removing a literal does to the literals with budgets. -/
theorem Advice.removeLiteral_stored {e : Advice} {A B : List (Lit × Int)} {x : Lit × Int} (he : e.stored = A ++ x :: B) :
    ∃ e' B', e.removeLiteral A.length = some e' ∧ e'.stored = A ++ B' ∧ B'.Perm B ∧ e'.backbone = e.backbone := by
  have hlen : e.lits.length = A.length + B.length + 1 := by
    rw [← e.stored_length, he]; simp; omega
  unfold removeLiteral
  rw [if_pos (by omega)]
  by_cases hB : B = []
  · subst hB
    rw [if_neg (by simp at hlen; omega)]
    refine ⟨_, [], rfl, ?_, List.Perm.refl _, rfl⟩
    refine List.ext_getElem ?_ fun i h1 h2 => ?_
    · rw [stored_length]; simp [hlen]
    · rw [stored_getElem]
      have h3 : i < e.stored.length := by rw [he]; simp at h2 ⊢; omega
      have h4 := e.stored_getElem i h3
      have h5 : e.stored[i] = A[i]'(by simpa using h2) := by
        simp only [he]
        rw [List.getElem_append_left]
      rw [h5] at h4
      simp only [List.append_nil]
      rw [h4]
      simp
  · have hBl : 0 < B.length := List.length_pos_iff.2 hB
    rw [if_pos (by omega)]
    obtain ⟨B', hB1, hB2⟩ := set_last_perm e.stored he hB
    refine ⟨_, B', rfl, ?_, hB2, rfl⟩
    rw [← hB1]
    refine List.ext_getElem ?_ fun i h1 h2 => ?_
    · rw [stored_length]; simp [stored_length]
    · rw [stored_getElem]
      have hi : i < e.lits.length - 1 := by rw [List.length_dropLast, List.length_set, stored_length] at h2; exact h2
      have hlast : B.getLast hB = e.stored[e.lits.length - 1]'(by rw [stored_length]; omega) := by
        simp only [he, List.getLast_eq_getElem]
        rw [List.getElem_append_right (by omega)]
        have : e.lits.length - 1 - A.length = (B.length - 1) + 1 := by omega
        simp only [this, List.getElem_cons_succ]
      simp only [List.getElem_dropLast, List.getElem_set, upd_apply]
      by_cases hA : A.length = i
      · rw [if_pos hA, if_pos hA, if_pos hA.symm, hlast, stored_getElem]
        simp [List.getD, List.getElem?_eq_getElem (show e.lits.length - 1 < e.lits.length by omega)]
      · rw [if_neg hA, if_neg hA, if_neg (fun h => hA h.symm), stored_getElem]

/-- The loop keeps exactly the literals that are not marked, with their budgets. -/
theorem Advice.filterLits_spec (hs : List (Nat → Bool → Bool)) : ∀ (i : Nat) (e : Advice), i ≤ e.lits.length →
    (∀ x ∈ e.stored.drop i, probeAny hs x.1.var e.backbone = false) →
    ∃ e', e.filterLits hs i = some e' ∧ e'.backbone = e.backbone ∧
      e'.stored.Perm (e.stored.filter fun x => !probeAny hs x.1.var e.backbone)
  | 0, e, _, h => by
    refine ⟨e, rfl, rfl, ?_⟩
    rw [List.filter_eq_self.2 fun x hx => by rw [h x hx]; rfl]
  | i + 1, e, hi, h => by
    have hil : i < e.stored.length := by rw [stored_length]; omega
    have hsp : e.stored = e.stored.take i ++ e.stored[i] :: e.stored.drop (i + 1) := by
      rw [List.getElem_cons_drop, List.take_append_drop]
    have hx := e.stored_getElem i hil
    unfold filterLits
    rw [List.getElem?_eq_getElem (show i < e.lits.length by omega)]
    dsimp only
    by_cases hp : probeAny hs (e.lits[i]'(by omega)).var e.backbone = true
    · rw [if_pos hp]
      obtain ⟨e1, B', h1, h2, h3, h4⟩ := removeLiteral_stored hsp
      have hlen : (e.stored.take i).length = i := by rw [List.length_take]; omega
      rw [hlen] at h1
      rw [h1, Option.bind_some]
      obtain ⟨e2, g1, g2, g3⟩ := filterLits_spec hs i e1 (by
          rw [← stored_length, h2, List.length_append, hlen]; omega) (by
        intro x hx
        rw [h2, List.drop_append_of_le_length (by omega), List.drop_of_length_le (by omega), List.nil_append, h3.mem_iff] at hx
        rw [h4]
        exact h x hx)
      refine ⟨e2, g1, g2.trans h4, g3.trans ?_⟩
      rw [h2, h4]
      conv => rhs; rw [hsp]
      rw [List.filter_append, List.filter_append, List.filter_cons_of_neg (by rw [hx]; simp [hp])]
      exact (h3.filter _).append_left _
    · rw [if_neg hp]
      refine filterLits_spec hs i e (by omega) fun x hx' => ?_
      rw [List.drop_eq_getElem_cons hil, List.mem_cons] at hx'
      rcases hx' with rfl | hx'
      · rw [hx]; simpa using hp
      · exact h x hx'

/-- The entry the filter leaves for the variable `v`: nothing if a heuristic marks `v`, otherwise the literals
whose variables are not marked, with their budgets. -/
def Filtered (hs : List (Nat → Bool → Bool)) (v : Nat) (e e' : Advice) : Prop :=
  e'.backbone = e.backbone ∧
  ((∃ h ∈ hs, h v e.backbone = true) → e'.stored = []) ∧
  ((∀ h ∈ hs, h v e.backbone = false) →
    e'.stored.Perm (e.stored.filter fun x => hs.all fun h => !h x.1.var e.backbone))

theorem Advice.filter_spec (hs : List (Nat → Bool → Bool)) (v : Nat) (e : Advice) :
    ∃ e', e.filter hs v = some e' ∧ Filtered hs v e e' := by
  have hany : ∀ w b, (!probeAny hs w b) = hs.all fun h => !h w b := fun w b => by
    unfold probeAny
    rw [List.all_eq_not_any_not]
    simp
  unfold Advice.filter
  by_cases h0 : e.lits.length = 0
  · rw [if_pos h0]
    have : e.stored = [] := List.length_eq_zero_iff.1 (by rw [stored_length]; exact h0)
    exact ⟨e, rfl, rfl, fun _ => this, fun _ => by rw [this]; exact List.Perm.refl _⟩
  · rw [if_neg h0]
    by_cases hp : probeAny hs v e.backbone = true
    · rw [if_pos hp]
      refine ⟨_, rfl, rfl, fun _ => rfl, fun hn => ?_⟩
      unfold probeAny at hp
      rw [List.any_eq_true] at hp
      obtain ⟨h, hh, hv⟩ := hp
      rw [hn h hh] at hv
      cases hv
    · rw [if_neg hp]
      obtain ⟨e', h1, h2, h3⟩ := filterLits_spec hs e.lits.length e (Nat.le_refl _) (by
        rw [← stored_length, List.drop_length]; simp)
      refine ⟨e', h1, h2, fun ⟨h, hh, hv⟩ => (hp (List.any_eq_true.2 ⟨h, hh, hv⟩)).elim, fun _ => ?_⟩
      simpa only [hany] using h3

theorem Rsil.filterAdvice_spec (hs : List (Nat → Bool → Bool)) (only : Bool) : ∀ (vs : List Nat), vs.Nodup → ∀ r : Rsil,
    ∃ r', Rsil.filterAdvice hs only vs r = some r' ∧ r' = { r with entry := r'.entry } ∧ ∀ v,
      if v ∈ vs ∧ (only = false ∨ (r.entry v).backbone = true) then Filtered hs v (r.entry v) (r'.entry v)
      else r'.entry v = r.entry v
  | [], _, r => ⟨r, rfl, rfl, fun v => by simp⟩
  | w :: vs, hn, r => by
    rw [List.nodup_cons] at hn
    unfold Rsil.filterAdvice
    by_cases hc : (!only || (r.entry w).backbone) = true
    · rw [if_pos hc]
      obtain ⟨e, h1, h2⟩ := (r.entry w).filter_spec hs w
      rw [h1, Option.bind_some]
      obtain ⟨r', g1, g2, g3⟩ := filterAdvice_spec hs only vs hn.2 { r with entry := upd r.entry w e }
      refine ⟨r', g1, g2.trans rfl, fun v => ?_⟩
      have := g3 v
      by_cases hv : v = w
      · subst hv
        rw [if_neg (fun h => hn.1 h.1)] at this
        rw [if_pos ⟨List.mem_cons_self, by simpa using hc⟩, this]
        rw [show (Rsil.entry { r with entry := upd r.entry v e } v) = e from upd_same _ _ _]
        exact h2
      · rw [show (Rsil.entry { r with entry := upd r.entry w e } v) = r.entry v from upd_ne _ _ hv] at this
        simpa [hv] using this
    · rw [if_neg hc]
      obtain ⟨r', g1, g2, g3⟩ := filterAdvice_spec hs only vs hn.2 r
      refine ⟨r', g1, g2, fun v => ?_⟩
      have := g3 v
      by_cases hv : v = w
      · subst hv
        rw [if_neg (fun h => hn.1 h.1)] at this
        rw [if_neg (fun h => hc (by simpa using h.2))]
        exact this
      · simpa [hv] using this

/-- **C69.** For every advice and all heuristics, the filter ends without access out of bounds. It empties the
entries of the variables a heuristic marks, and removes from the other entries exactly the literals whose
variables are marked; the remaining literals keep their budgets. If only backbones are to be filtered, the other
entries stay as they are. -/
theorem C69_filter (hs : List (Nat → Bool → Bool)) (only : Bool) (r : Rsil) :
    ∃ r', r.filterAll hs only = some r' ∧ r'.size = r.size ∧ r'.opt = r.opt ∧ ∀ v,
      if v < r.size ∧ (only = false ∨ (r.entry v).backbone = true) then Filtered hs v (r.entry v) (r'.entry v)
      else r'.entry v = r.entry v := by
  obtain ⟨r', h1, h2, h3⟩ := Rsil.filterAdvice_spec hs only (List.range r.size) List.nodup_range r
  refine ⟨r', h1, by rw [h2], by rw [h2], fun v => ?_⟩
  simpa using h3 v

/-- **C69 (after the filter).** After the filter of all entries, no entry is about a marked variable. -/
theorem C69_unmarked (hs : List (Nat → Bool → Bool)) (r r' : Rsil) (h : r.filterAll hs false = some r') :
    ∀ v < r.size, ∀ l ∈ (r'.entry v).lits, ∀ p ∈ hs, p v (r'.entry v).backbone = false ∧ p l.var (r'.entry v).backbone = false := by
  obtain ⟨r1, h1, _, _, h2⟩ := C69_filter hs false r
  rw [h] at h1
  cases h1
  intro v hv l hl p hp
  have hf := h2 v
  rw [if_pos ⟨hv, .inl rfl⟩] at hf
  obtain ⟨f1, f2, f3⟩ := hf
  have hmem : ∃ b, (l, b) ∈ (r'.entry v).stored := by
    obtain ⟨i, hi, e⟩ := List.getElem_of_mem hl
    refine ⟨(r'.entry v).budgets i, ?_⟩
    have hi' : i < (r'.entry v).stored.length := by rw [Advice.stored_length]; exact hi
    have := (r'.entry v).stored_getElem i hi'
    rw [e] at this
    rw [← this]
    exact List.getElem_mem hi'
  obtain ⟨b, hb⟩ := hmem
  rw [f1]
  have hv' : ∀ q ∈ hs, q v (r.entry v).backbone = false := by
    intro q hq
    refine Bool.eq_false_iff.2 fun ht => ?_
    rw [f2 ⟨q, hq, ht⟩] at hb
    cases hb
  refine ⟨hv' p hp, ?_⟩
  have := (f3 hv').mem_iff.1 hb
  rw [List.mem_filter, List.all_eq_true] at this
  simpa using this.2 p hp

/-! ### Examples -/

/-- An entry with three literals: the one of the marked variable 2 is removed, and the last one takes its place. -/
example : (Advice.filter [fun v _ => v == 2, fun v _ => v == 7] 0
      ⟨[pos 1, neg 2, pos 3], false, fun i => 10 + i⟩).map (fun e => (e.lits, e.stored)) =
    some ([pos 1, pos 3], [(pos 1, 10), (pos 3, 12)]) := by decide

example : (Advice.filter [fun v _ => v == 2, fun v _ => v == 7] 7
      ⟨[pos 1, neg 2, pos 3], false, fun i => 10 + i⟩).map (·.lits) = some [] := by decide

end Candy
