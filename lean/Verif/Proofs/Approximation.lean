import Verif.Model.Approximation

/-! Lemmas on the approximation state. -/

namespace Candy

/-- The implications of a cycle through the literals of a list. -/
def cyc : List Lit → List Implication
  | [] => []
  | x :: M => steps (x :: M ++ [x])

/-- Cyclic shift. -/
def Rot (L M : List Lit) : Prop := ∃ A B, L = A ++ B ∧ M = B ++ A

theorem Rot.refl (L : List Lit) : Rot L L := ⟨L, [], by simp, by simp⟩

theorem Rot.symm {L M : List Lit} : Rot L M → Rot M L
  | ⟨A, B, h1, h2⟩ => ⟨B, A, h2, h1⟩

theorem Rot.perm {L M : List Lit} : Rot L M → L.Perm M
  | ⟨_, _, h1, h2⟩ => by rw [h1, h2]; exact List.perm_append_comm

theorem Rot.trans {L M N : List Lit} (h1 : Rot L M) (h2 : Rot M N) : Rot L N := by
  obtain ⟨A, B, rfl, rfl⟩ := h1
  obtain ⟨C, D, h, rfl⟩ := h2
  rcases List.append_eq_append_iff.1 h with ⟨E, rfl, rfl⟩ | ⟨E, rfl, rfl⟩
  · exact ⟨E, D ++ B, by simp, by simp⟩
  · exact ⟨A ++ C, E, by simp, by simp⟩

theorem Rot.filter {L M : List Lit} (p : Lit → Bool) : Rot L M → Rot (L.filter p) (M.filter p)
  | ⟨A, B, h1, h2⟩ => ⟨A.filter p, B.filter p, by simp [h1], by simp [h2]⟩

theorem steps_append : ∀ (A : List Lit) (x : Lit) (B : List Lit), steps (A ++ x :: B) = steps (A ++ [x]) ++ steps (x :: B)
  | [], x, B => by simp [steps]
  | [a], x, B => by simp [steps]
  | a :: b :: A, x, B => by
    have := steps_append (b :: A) x B
    simp only [List.cons_append] at this ⊢
    simp only [steps, this, List.cons_append]

theorem steps_snd : ∀ (x : Lit) (M : List Lit), (steps (x :: M)).map (·.2) = M
  | _, [] => rfl
  | x, y :: M => by simp only [steps, List.map_cons, steps_snd y M]

theorem steps_fst : ∀ (M : List Lit) (y : Lit), (steps (M ++ [y])).map (·.1) = M
  | [], _ => rfl
  | [a], _ => rfl
  | a :: b :: M, y => by
    have := steps_fst (b :: M) y
    simp only [List.cons_append] at this ⊢
    simp only [steps, List.map_cons, this]

theorem cyc_fst (L : List Lit) : (cyc L).map (·.1) = L := by
  cases L with
  | nil => rfl
  | cons x M => exact steps_fst (x :: M) x

theorem cyc_snd (L : List Lit) : ((cyc L).map (·.2)).Perm L := by
  cases L with
  | nil => exact .nil
  | cons x M =>
    show ((steps (x :: (M ++ [x]))).map (·.2)).Perm _
    rw [steps_snd]
    exact List.perm_append_comm

theorem cyc_rot {L M : List Lit} (h : Rot L M) : (cyc L).Perm (cyc M) := by
  obtain ⟨A, B, rfl, rfl⟩ := h
  cases A with
  | nil => simp
  | cons a A =>
    cases B with
    | nil => simp
    | cons b B =>
      have e1 : cyc (a :: A ++ b :: B) = steps (a :: A ++ [b]) ++ steps (b :: B ++ [a]) := by
        have := steps_append (a :: A) b (B ++ [a])
        simpa [cyc] using this
      have e2 : cyc (b :: B ++ a :: A) = steps (b :: B ++ [a]) ++ steps (a :: A ++ [b]) := by
        have := steps_append (b :: B) a (A ++ [b])
        simpa [cyc] using this
      rw [e1, e2]
      exact List.perm_append_comm

theorem inj_of_nodup_map {α β : Type} {f : α → β} : ∀ {l : List α}, (l.map f).Nodup → ∀ {a b}, a ∈ l → b ∈ l → f a = f b → a = b
  | [], _, _, _, h, _, _ => by simp at h
  | x :: l, hn, a, b, ha, hb, e => by
    rw [List.map_cons, List.nodup_cons] at hn
    rcases List.mem_cons.1 ha with h1 | h1
    · rcases List.mem_cons.1 hb with h2 | h2
      · rw [h1, h2]
      · exact absurd (List.mem_map.2 ⟨b, h2, by rw [← e, h1]⟩) hn.1
    · rcases List.mem_cons.1 hb with h2 | h2
      · exact absurd (List.mem_map.2 ⟨a, h1, by rw [e, h2]⟩) hn.1
      · exact inj_of_nodup_map hn.2 h1 h2 e

/-- The map has the implications `is`, each with the key `k`. -/
def MapRep (m : ImplMap) (k : Implication → Nat) (is : List Implication) : Prop :=
  m.Perm (is.map fun i => (k i, i))

namespace MapRep

variable {m : ImplMap} {k : Implication → Nat} {is : List Implication}

theorem find_some (h : MapRep m k is) (hn : (is.map k).Nodup) {i : Implication} (hi : i ∈ is) : m.find (k i) = some i := by
  have hm : (k i, i) ∈ m := h.mem_iff.2 (List.mem_map.2 ⟨i, hi, rfl⟩)
  unfold ImplMap.find
  cases hf : m.find? (fun e => e.1 == k i) with
  | none =>
    have := List.find?_eq_none.1 hf _ hm
    simp at this
  | some e =>
    have he := List.mem_of_find?_eq_some hf
    have hk := List.find?_some hf
    simp only [beq_iff_eq] at hk
    obtain ⟨j, hj, rfl⟩ := List.mem_map.1 (h.mem_iff.1 he)
    have : j = i := inj_of_nodup_map hn hj hi hk
    subst this
    rfl

theorem find_none (h : MapRep m k is) {v : Nat} (hv : v ∉ is.map k) : m.find v = none := by
  unfold ImplMap.find
  rw [Option.map_eq_none_iff, List.find?_eq_none]
  intro e he
  obtain ⟨j, hj, rfl⟩ := List.mem_map.1 (h.mem_iff.1 he)
  simp only [beq_iff_eq]
  exact fun hk => hv (List.mem_map.2 ⟨j, hj, hk⟩)

theorem mono (h : MapRep m k is) {is' : List Implication} (hp : is.Perm is') : MapRep m k is' :=
  List.Perm.trans h (hp.map _)

theorem values (h : MapRep m k is) : (m.map (·.2)).Perm is := by
  have := h.map (·.2)
  simpa [Function.comp_def] using this

theorem erase (h : MapRep m k is) (v : Nat) : MapRep (ImplMap.erase m v) k (is.filter fun i => k i != v) := by
  have := List.Perm.filter (fun e : Nat × Implication => e.1 != v) h
  unfold MapRep ImplMap.erase
  refine this.trans ?_
  rw [List.filter_map]
  exact List.Perm.refl _

theorem insert (h : MapRep m k is) (i : Implication) (hi : k i ∉ is.map k) : MapRep (ImplMap.insert m (k i) i) k (i :: is) := by
  unfold ImplMap.insert MapRep
  rw [List.map_cons]
  refine List.Perm.cons _ ?_
  have := h.erase (k i)
  refine List.Perm.trans this ?_
  rw [List.filter_eq_self.2]
  intro j hj
  simp only [bne_iff_ne, ne_eq]
  exact fun hk => hi (List.mem_map.2 ⟨j, hj, hk⟩)

end MapRep

namespace EquivImpls

/-- The state represents a cycle through `L`. -/
structure Inv (s : EquivImpls) (L : List Lit) : Prop where
  ante : MapRep s.byAnte (fun i => i.1.var) (cyc L)
  succ : MapRep s.bySucc (fun i => i.2.var) (cyc L)
  nodup : (L.map Lit.var).Nodup
  len : L = [] ∨ 2 ≤ L.length

variable {s : EquivImpls} {L : List Lit}

theorem Inv.rot (h : Inv s L) {M : List Lit} (hr : Rot L M) : Inv s M :=
  ⟨h.ante.mono (cyc_rot hr), h.succ.mono (cyc_rot hr), (hr.perm.map _).nodup h.nodup, by
    rcases h.len with rfl | h2
    · left; exact List.Perm.nil_eq hr.perm |>.symm
    · right; rw [← hr.perm.length_eq]; exact h2⟩

theorem keysA (L : List Lit) : (cyc L).map (fun i => i.1.var) = L.map Lit.var := by
  conv => rhs; rw [← cyc_fst L]
  rw [List.map_map]; rfl

theorem keysS (L : List Lit) : ((cyc L).map (fun i => i.2.var)).Perm (L.map Lit.var) := by
  have := (cyc_snd L).map Lit.var
  rw [List.map_map] at this
  exact this

theorem Inv.findA (h : Inv s L) {i : Implication} (hi : i ∈ cyc L) : s.byAnte.find i.1.var = some i :=
  h.ante.find_some (by rw [keysA]; exact h.nodup) hi

theorem Inv.findS (h : Inv s L) {i : Implication} (hi : i ∈ cyc L) : s.bySucc.find i.2.var = some i :=
  h.succ.find_some ((keysS L).nodup_iff.2 h.nodup) hi

theorem openEnds_steps (a b : Lit) (I : List Lit) (z : Lit) :
    openEnds (steps (a :: b :: I ++ [z])) = (a != z) := by
  unfold openEnds
  have h1 : (steps (a :: b :: I ++ [z])).head? = some (a, b) := by simp [steps]
  have h2 : (steps (a :: b :: I ++ [z])).getLast?.map (·.2) = some z := by
    rw [← List.getLast?_map]
    show ((steps (a :: (b :: I ++ [z]))).map (·.2)).getLast? = _
    rw [steps_snd, List.getLast?_concat]
  rw [h1, h2]
  simp only [Option.map_some]
  cases h : a != z <;> simp_all

theorem ends_steps (a b : Lit) (I : List Lit) (z : Lit) :
    ∃ x y, (steps (a :: b :: I ++ [z])).head? = some x ∧ (steps (a :: b :: I ++ [z])).getLast? = some y ∧ x.1 = a ∧ y.2 = z := by
  have h1 : (steps (a :: b :: I ++ [z])).head? = some (a, b) := by simp [steps]
  have h2 : (steps (a :: b :: I ++ [z])).getLast?.map (·.2) = some z := by
    rw [← List.getLast?_map]
    show ((steps (a :: (b :: I ++ [z]))).map (·.2)).getLast? = _
    rw [steps_snd, List.getLast?_concat]
  obtain ⟨y, hy, e⟩ := Option.map_eq_some_iff.1 h2
  exact ⟨(a, b), y, h1, hy, rfl, e⟩

/-- Appending a step. -/
theorem steps_snoc (M : List Lit) (y z : Lit) : steps (M ++ [y]) ++ [(y, z)] = steps (M ++ [y] ++ [z]) := by
  have := steps_append M y [z]
  simpa [steps] using this.symm

theorem mem_cyc_mid (A : List Lit) (x y : Lit) (B : List Lit) : (x, y) ∈ cyc (A ++ x :: y :: B) := by
  have : (cyc (A ++ x :: y :: B)).Perm (cyc (x :: y :: B ++ A)) := cyc_rot ⟨A, x :: y :: B, rfl, rfl⟩
  rw [this.mem_iff]
  simp [cyc, steps]

theorem mem_cyc_end (x : Lit) (A : List Lit) (y : Lit) : (y, x) ∈ cyc (x :: A ++ [y]) := by
  have : (cyc (x :: A ++ [y])).Perm (cyc ([y] ++ x :: A)) := cyc_rot ⟨x :: A, [y], rfl, rfl⟩
  rw [this.mem_iff]
  simp [cyc, steps]

theorem forward_spec {first : Nat} : ∀ (R I : List Lit) (a z : Lit) (fuel : Nat), Inv s (a :: I ++ z :: R) → R.length + 2 ≤ fuel →
    (∀ l ∈ I, l.var ∈ s.queue) → (∃ l ∈ I, l.var = first) →
    (∃ I', a :: I ++ z :: R = a :: I' ∧ (∀ l ∈ I', l.var ∈ s.queue) ∧ (∃ l ∈ I', l.var = first) ∧
      s.forward first fuel z.var (steps (a :: I ++ [z])) = some (steps (a :: I' ++ [a]))) ∨
    (∃ I' z' R', a :: I ++ z :: R = a :: I' ++ z' :: R' ∧ (∀ l ∈ I', l.var ∈ s.queue) ∧ (∃ l ∈ I', l.var = first) ∧
      z'.var ∉ s.queue ∧ s.forward first fuel z.var (steps (a :: I ++ [z])) = some (steps (a :: I' ++ [z']))) := by
  intro R
  induction R with
  | nil =>
    intro I a z fuel h hf hI hfirst
    obtain ⟨b, I, rfl⟩ : ∃ b I0, I = b :: I0 := by
      cases I with
      | nil => obtain ⟨l, hl, _⟩ := hfirst; simp at hl
      | cons b I0 => exact ⟨b, I0, rfl⟩
    obtain ⟨fuel, rfl⟩ : ∃ f, fuel = f + 2 := ⟨fuel - 2, by simp at hf; omega⟩
    have hn := h.nodup
    have hzf : z.var ≠ first := by
      obtain ⟨l, hl, rfl⟩ := hfirst
      intro e
      simp only [List.map_cons, List.map_append, List.cons_append] at hn
      have := (List.nodup_cons.1 hn).2
      rw [← List.cons_append, ← List.map_cons] at this
      exact (List.nodup_append.1 this).2.2 l.var (List.mem_map.2 ⟨l, hl, rfl⟩) z.var (by simp) e.symm
    have haz : a ≠ z := by
      intro e
      subst e
      simp at hn
    by_cases hz : z.var ∈ s.queue
    · left
      refine ⟨b :: I ++ [z], by simp, ?_, ?_, ?_⟩
      · intro l hl
        rcases List.mem_append.1 hl with hl | hl
        · exact hI l hl
        · rw [List.mem_singleton.1 hl]; exact hz
      · obtain ⟨l, hl, e⟩ := hfirst
        exact ⟨l, List.mem_append_left _ hl, e⟩
      · have hfd := h.findA (mem_cyc_end a (b :: I) z)
        dsimp only at hfd
        rw [forward, openEnds_steps, if_pos ⟨hzf, by simpa using hz, by simpa using haz⟩, hfd]
        have e : steps (a :: b :: I ++ [z]) ++ [(z, a)] = steps (a :: b :: (I ++ [z]) ++ [a]) := by
          rw [steps_snoc]; simp
        dsimp only
        rw [e]
        rw [forward, openEnds_steps, if_neg (by simp)]
        simp
    · right
      refine ⟨b :: I, z, [], rfl, hI, hfirst, hz, ?_⟩
      rw [forward, if_neg (by simp [hz])]
  | cons r R ih =>
    intro I a z fuel h hf hI hfirst
    obtain ⟨fuel, rfl⟩ : ∃ f, fuel = f + 1 := ⟨fuel - 1, by simp at hf; omega⟩
    by_cases hz : z.var ∈ s.queue
    · have hn := h.nodup
      have hI0 : I ≠ [] := by rintro rfl; obtain ⟨l, hl, _⟩ := hfirst; simp at hl
      have hzf : z.var ≠ first := by
        obtain ⟨l, hl, rfl⟩ := hfirst
        intro e
        simp only [List.map_cons, List.map_append, List.cons_append] at hn
        have := (List.nodup_cons.1 hn).2
        exact (List.nodup_append.1 this).2.2 l.var (List.mem_map.2 ⟨l, hl, rfl⟩) z.var (by simp) e.symm
      have haz : a ≠ z := by
        intro e
        subst e
        simp at hn
      have hfd := h.findA (mem_cyc_mid (a :: I) z r R)
      dsimp only at hfd
      have hop : openEnds (steps (a :: I ++ [z])) = true := by
        cases I with
        | nil => exact absurd rfl hI0
        | cons b I => rw [openEnds_steps]; simpa using haz
      rw [forward, if_pos ⟨hzf, by simpa using hz, hop⟩, hfd]
      have e : steps (a :: I ++ [z]) ++ [(z, r)] = steps (a :: (I ++ [z]) ++ [r]) := by
        rw [steps_snoc]; simp
      dsimp only
      rw [e]
      have el : a :: I ++ z :: r :: R = a :: (I ++ [z]) ++ r :: R := by simp
      rw [el] at h ⊢
      refine ih (I ++ [z]) a r fuel h (by simp at hf; omega) ?_ ?_
      · intro l hl
        rcases List.mem_append.1 hl with hl | hl
        · exact hI l hl
        · rw [List.mem_singleton.1 hl]; exact hz
      · obtain ⟨l, hl, e⟩ := hfirst
        exact ⟨l, List.mem_append_left _ hl, e⟩
    · right
      refine ⟨I, z, r :: R, rfl, hI, hfirst, hz, ?_⟩
      rw [forward, if_neg (by simp [hz])]

theorem backward_spec {first : Nat} {z : Lit} (hz : z.var ∉ s.queue) : ∀ (n : Nat) (R I : List Lit) (a : Lit) (fuel : Nat), R.length = n →
    Inv s (a :: I ++ z :: R) → n + 2 ≤ fuel → (∀ l ∈ I, l.var ∈ s.queue) → (∃ l ∈ I, l.var = first) →
    (∃ I', Rot (a :: I ++ z :: R) (z :: I') ∧ (∀ l ∈ I', l.var ∈ s.queue) ∧ (∃ l ∈ I', l.var = first) ∧
      s.backward first fuel a.var (steps (a :: I ++ [z])) = some (steps (z :: I' ++ [z]))) ∨
    (∃ a' I' R', Rot (a :: I ++ z :: R) (a' :: I' ++ z :: R') ∧ (∀ l ∈ I', l.var ∈ s.queue) ∧ (∃ l ∈ I', l.var = first) ∧
      a'.var ∉ s.queue ∧ s.backward first fuel a.var (steps (a :: I ++ [z])) = some (steps (a' :: I' ++ [z]))) := by
  intro n
  induction n with
  | zero =>
    intro R I a fuel hR h hf hI hfirst
    obtain rfl := List.eq_nil_of_length_eq_zero hR
    obtain ⟨fuel, rfl⟩ : ∃ f, fuel = f + 2 := ⟨fuel - 2, by omega⟩
    by_cases ha : a.var ∈ s.queue
    · left
      have hn := h.nodup
      have haf : a.var ≠ first := by
        obtain ⟨l, hl, rfl⟩ := hfirst
        intro e
        simp only [List.map_cons, List.map_append, List.cons_append] at hn
        exact (List.nodup_cons.1 hn).1 (List.mem_append_left _ (List.mem_map.2 ⟨l, hl, e.symm⟩))
      have haz : a ≠ z := by
        intro e
        subst e
        exact hz ha
      obtain ⟨b, I, rfl⟩ : ∃ b I0, I = b :: I0 := by
        cases I with
        | nil => obtain ⟨l, hl, _⟩ := hfirst; simp at hl
        | cons b I0 => exact ⟨b, I0, rfl⟩
      refine ⟨a :: b :: I, ⟨a :: b :: I, [z], by simp, by simp⟩, ?_, ?_, ?_⟩
      · intro l hl
        rcases List.mem_cons.1 hl with rfl | hl
        · exact ha
        · exact hI l hl
      · obtain ⟨l, hl, e⟩ := hfirst
        exact ⟨l, List.mem_cons_of_mem _ hl, e⟩
      · have hfd := h.findS (mem_cyc_end a (b :: I) z)
        dsimp only at hfd
        rw [backward, openEnds_steps, if_pos ⟨haf, by simpa using ha, by simpa using haz⟩, hfd]
        have e : (z, a) :: steps (a :: b :: I ++ [z]) = steps (z :: a :: (b :: I) ++ [z]) := by simp [steps]
        dsimp only
        rw [e, backward, openEnds_steps, if_neg (by simp)]
    · right
      refine ⟨a, I, [], Rot.refl _, hI, hfirst, ha, ?_⟩
      rw [backward, if_neg (by simp [ha])]
  | succ n ih =>
    intro R I a fuel hR h hf hI hfirst
    obtain ⟨fuel, rfl⟩ : ∃ f, fuel = f + 1 := ⟨fuel - 1, by omega⟩
    by_cases ha : a.var ∈ s.queue
    · have hn := h.nodup
      have haf : a.var ≠ first := by
        obtain ⟨l, hl, rfl⟩ := hfirst
        intro e
        simp only [List.map_cons, List.map_append, List.cons_append] at hn
        exact (List.nodup_cons.1 hn).1 (List.mem_append_left _ (List.mem_map.2 ⟨l, hl, e.symm⟩))
      have haz : a ≠ z := by
        intro e
        subst e
        exact hz ha
      have hI0 : I ≠ [] := by rintro rfl; obtain ⟨l, hl, _⟩ := hfirst; simp at hl
      have hop : openEnds (steps (a :: I ++ [z])) = true := by
        cases I with
        | nil => exact absurd rfl hI0
        | cons b I => rw [openEnds_steps]; simpa using haz
      have hRne : R ≠ [] := by rintro rfl; simp at hR
      obtain ⟨R', r, rfl⟩ : ∃ R' r, R = R' ++ [r] := ⟨R.dropLast, R.getLast hRne, (List.dropLast_concat_getLast hRne).symm⟩
      have hrot : Rot (a :: I ++ z :: (R' ++ [r])) (r :: (a :: I) ++ z :: R') :=
        ⟨a :: I ++ z :: R', [r], by simp, by simp⟩
      have hfd := h.findS (i := (r, a)) (by
        have := mem_cyc_end a (I ++ z :: R') r
        simpa using this)
      dsimp only at hfd
      rw [backward, if_pos ⟨haf, by simpa using ha, hop⟩, hfd]
      dsimp only
      have e : (r, a) :: steps (a :: I ++ [z]) = steps (r :: (a :: I) ++ [z]) := by simp [steps]
      rw [e]
      have hI' : ∀ l ∈ a :: I, l.var ∈ s.queue := by
        intro l hl
        rcases List.mem_cons.1 hl with rfl | hl
        · exact ha
        · exact hI l hl
      rcases ih R' (a :: I) r fuel (by simpa using hR) (h.rot hrot) (by omega) hI' (by
          obtain ⟨l, hl, e⟩ := hfirst
          exact ⟨l, List.mem_cons_of_mem _ hl, e⟩) with ⟨I', h1, h2, h3, h4⟩ | ⟨a', I', R'', h1, h2, h3, h4, h5⟩
      · exact .inl ⟨I', hrot.trans h1, h2, h3, h4⟩
      · exact .inr ⟨a', I', R'', hrot.trans h1, h2, h3, h4, h5⟩
    · right
      refine ⟨a, I, R, Rot.refl _, hI, hfirst, ha, ?_⟩
      rw [backward, if_neg (by simp [ha])]

/-- The step for a variable of the cycle: the implications between two literals that remain are replaced, or
all implications are removed. -/
theorem commitStep_spec {first : Nat} {fuel : Nat} (h : Inv s L) (hq : first ∈ s.queue) (hf : L.length + 2 ≤ fuel)
    (hl : ∃ l ∈ L, l.var = first) :
    (∃ a I, Rot L (a :: I) ∧ (∀ l ∈ I, l.var ∈ s.queue) ∧ (∃ l ∈ I, l.var = first) ∧
      s.commitStep fuel first = some (s.replace (steps (a :: I ++ [a])) a a)) ∨
    (∃ a I z R, Rot L (a :: I ++ z :: R) ∧ (∀ l ∈ I, l.var ∈ s.queue) ∧ (∃ l ∈ I, l.var = first) ∧
      a.var ∉ s.queue ∧ z.var ∉ s.queue ∧ s.commitStep fuel first = some (s.replace (steps (a :: I ++ [z])) a z)) := by
  obtain ⟨f, hfL, rfl⟩ := hl
  obtain ⟨A, B, rfl⟩ := List.append_of_mem hfL
  -- the predecessor of `f` first
  obtain ⟨p, M, hrot⟩ : ∃ p M, Rot (A ++ f :: B) (p :: f :: M) := by
    rcases h.len with h0 | h2
    · simp at h0
    · rcases List.eq_nil_or_concat A with rfl | ⟨A', p, rfl⟩
      · have hB : B ≠ [] := by rintro rfl; simp at h2
        refine ⟨B.getLast hB, B.dropLast, f :: B.dropLast, [B.getLast hB], ?_, by simp⟩
        simp [List.dropLast_concat_getLast hB]
      · exact ⟨p, B ++ A', A', p :: f :: B, by simp, by simp⟩
  have hi := h.rot hrot
  have hlen := hrot.perm.length_eq
  have hin := hi.findS (i := (p, f)) (by have := mem_cyc_mid [] p f M; simpa using this)
  dsimp only at hin
  -- the successor
  have key : ∃ z, s.byAnte.find f.var = some (f, z) ∧
      ((∃ I', p :: f :: M = p :: I' ∧ (∀ l ∈ I', l.var ∈ s.queue) ∧ (∃ l ∈ I', l.var = f.var) ∧
        s.forward f.var fuel z.var [(p, f), (f, z)] = some (steps (p :: I' ++ [p]))) ∨
      (∃ I' z' R', p :: f :: M = p :: I' ++ z' :: R' ∧ (∀ l ∈ I', l.var ∈ s.queue) ∧ (∃ l ∈ I', l.var = f.var) ∧
        z'.var ∉ s.queue ∧ s.forward f.var fuel z.var [(p, f), (f, z)] = some (steps (p :: I' ++ [z'])))) := by
    cases M with
    | nil =>
      refine ⟨p, ?_, .inl ⟨[f], rfl, by simpa using hq, ⟨f, by simp, rfl⟩, ?_⟩⟩
      · have := hi.findA (mem_cyc_end p [] f)
        exact this
      · obtain ⟨fuel, rfl⟩ : ∃ g, fuel = g + 1 := ⟨fuel - 1, by omega⟩
        rw [forward, if_neg (by simp [openEnds])]
        rfl
    | cons z M =>
      refine ⟨z, ?_, ?_⟩
      · exact hi.findA (i := (f, z)) (by have := mem_cyc_mid [p] f z M; simpa using this)
      · have := forward_spec (s := s) (first := f.var) M [f] p z fuel hi (by simp at hlen hf; omega)
          (by simpa using hq) ⟨f, by simp, rfl⟩
        exact this
  obtain ⟨z, hout, key⟩ := key
  have hstep : s.commitStep fuel f.var = (s.forward f.var fuel z.var [(p, f), (f, z)]).bind fun q =>
      (s.backward f.var fuel p.var q).bind fun q => match q.head?, q.getLast? with
        | some a, some b => some (s.replace q a.1 b.2)
        | _, _ => none := by
    unfold commitStep
    rw [hout, hin]
    rfl
  have hends : ∀ (a : Lit) (I : List Lit) (z : Lit), (∃ l ∈ I, l.var = f.var) →
      (match (steps (a :: I ++ [z])).head?, (steps (a :: I ++ [z])).getLast? with
        | some a', some b => some (s.replace (steps (a :: I ++ [z])) a'.1 b.2)
        | _, _ => none) = some (s.replace (steps (a :: I ++ [z])) a z) := by
    intro a I z hI
    cases I with
    | nil => obtain ⟨l, hl, _⟩ := hI; simp at hl
    | cons b I =>
      obtain ⟨x, y, h1, h2, rfl, rfl⟩ := ends_steps a b I z
      rw [h1, h2]
  rcases key with ⟨I', e, hI, hfst, hfw⟩ | ⟨I', z', R', e, hI, hfst, hz, hfw⟩
  · left
    refine ⟨p, I', by rw [← e]; exact hrot, hI, hfst, ?_⟩
    rw [hstep, hfw]
    obtain ⟨b, I, rfl⟩ : ∃ b I0, I' = b :: I0 := by
      cases I' with
      | nil => obtain ⟨l, hl, _⟩ := hfst; simp at hl
      | cons b I0 => exact ⟨b, I0, rfl⟩
    obtain ⟨fuel, rfl⟩ : ∃ g, fuel = g + 1 := ⟨fuel - 1, by omega⟩
    simp only [Option.bind_some]
    rw [backward, openEnds_steps, if_neg (by simp)]
    exact hends p (b :: I) p hfst
  · rw [e] at hrot hi
    have hlen := hrot.perm.length_eq
    rcases backward_spec hz _ R' I' p fuel rfl hi (by simp at hlen hf; omega) hI hfst with
      ⟨I2, r2, hI2, hf2, hb⟩ | ⟨a2, I2, R2, r2, hI2, hf2, ha2, hb⟩
    · left
      refine ⟨z', I2, hrot.trans r2, hI2, hf2, ?_⟩
      rw [hstep, hfw]
      simp only [Option.bind_some, hb]
      exact hends z' I2 z' hf2
    · right
      refine ⟨a2, I2, z', R2, hrot.trans r2, hI2, hf2, ha2, hz, ?_⟩
      rw [hstep, hfw]
      simp only [Option.bind_some, hb]
      exact hends a2 I2 z' hf2

theorem removeAll_rep (k : Implication → Nat) : ∀ (q : List Implication) {m : ImplMap} {rest : List Implication}, MapRep m k (q ++ rest) →
    ((q ++ rest).map k).Nodup → MapRep (q.foldl (fun m i => ImplMap.erase m (k i)) m) k rest
  | [], _, _, h, _ => h
  | i :: q, m, rest, h, hn => by
    rw [List.foldl_cons]
    simp only [List.cons_append, List.map_cons, List.nodup_cons] at hn
    refine removeAll_rep k q ?_ hn.2
    have := h.erase (k i)
    rw [List.cons_append, List.filter_cons, if_neg (by simp), List.filter_eq_self.2] at this
    · exact this
    · intro j hj
      simp only [bne_iff_ne, ne_eq]
      exact fun hk => hn.1 (List.mem_map.2 ⟨j, hj, hk⟩)

theorem foldl_remove (q : List Implication) : ∀ s : EquivImpls, q.foldl removeImplication s =
    ⟨q.foldl (fun m i => ImplMap.erase m i.1.var) s.byAnte, q.foldl (fun m i => ImplMap.erase m i.2.var) s.bySucc, s.queue⟩ := by
  induction q with
  | nil => intro s; rfl
  | cons i q ih => intro s; rw [List.foldl_cons, ih]; rfl

/-- The literals of a cycle that are to stay. -/
def stay (Q : List Nat) (L : List Lit) : List Lit := L.filter fun l => !Q.contains l.var

/-- Effect of a step. -/
structure StepOk (s : EquivImpls) (L : List Lit) (s' : EquivImpls) (e : EqDelta) (L' : List Lit) : Prop where
  inv : Inv s' L'
  len : L'.length ≤ L.length
  queueSub : ∀ v ∈ s'.queue, v ∈ s.queue
  queueLt : s'.queue.length < s.queue.length
  sub : ∀ l ∈ L', l ∈ L
  queue : ∀ l ∈ L', l.var ∈ s.queue → l.var ∈ s'.queue
  removed : ∀ i ∈ e.removed, i.1.var ∈ s.queue ∨ i.2.var ∈ s.queue
  added : ∀ i ∈ e.added, i.1 ∈ L ∧ i.2 ∈ L ∧ i.1.var ∉ s.queue ∧ i.2.var ∉ s.queue
  addedLe : e.added.length ≤ e.removed.length
  rest : ∃ rest, (cyc L).Perm (e.removed ++ rest) ∧ (cyc L').Perm (e.added ++ rest)
  stay : (L' = [] ∧ (stay s.queue L).length < 2) ∨ Rot (stay s.queue L) (stay s'.queue L')

theorem steps_touch {Q : List Nat} : ∀ (I : List Lit) (a z : Lit), I ≠ [] → (∀ l ∈ I, l.var ∈ Q) →
    ∀ i ∈ steps (a :: I ++ [z]), i.1.var ∈ Q ∨ i.2.var ∈ Q := by
  intro I
  induction I with
  | nil => intro a z h; exact absurd rfl h
  | cons b I ih =>
    intro a z _ hI i hi
    simp only [List.cons_append, steps, List.mem_cons] at hi
    rcases hi with rfl | hi
    · exact .inr (hI b (by simp))
    · cases I with
      | nil =>
        simp only [List.nil_append, steps, List.mem_singleton] at hi
        subst hi
        exact .inl (hI b (by simp))
      | cons c I => exact ih b z (by simp) (fun l hl => hI l (List.mem_cons_of_mem _ hl)) i hi

theorem filter_lt {Q : List Nat} {p : Nat → Bool} {v : Nat} (hv : v ∈ Q) (hp : p v = false) : (Q.filter p).length < Q.length := by
  obtain ⟨A, B, rfl⟩ := List.append_of_mem hv
  rw [List.filter_append, List.filter_cons, if_neg (by simp [hp])]
  simp only [List.length_append, List.length_cons]
  have := List.length_filter_le p A
  have := List.length_filter_le p B
  omega

theorem mem_steps_var (a : Lit) (I : List Lit) (z : Lit) (v : Nat) :
    ((steps (a :: I ++ [z])).any fun i => i.1.var == v || i.2.var == v) = true ↔ ∃ l ∈ a :: I ++ [z], l.var = v := by
  have h1 : (steps (a :: I ++ [z])).map (·.1) = a :: I := steps_fst (a :: I) z
  have h2 : (steps (a :: I ++ [z])).map (·.2) = I ++ [z] := steps_snd a (I ++ [z])
  have m1 : ∀ l, (∃ i ∈ steps (a :: I ++ [z]), i.1 = l) ↔ l ∈ a :: I := by
    intro l
    have := List.mem_map (f := fun i : Implication => i.1) (l := steps (a :: I ++ [z])) (b := l)
    rw [h1] at this
    exact this.symm
  have m2 : ∀ l, (∃ i ∈ steps (a :: I ++ [z]), i.2 = l) ↔ l ∈ I ++ [z] := by
    intro l
    have := List.mem_map (f := fun i : Implication => i.2) (l := steps (a :: I ++ [z])) (b := l)
    rw [h2] at this
    exact this.symm
  simp only [List.any_eq_true, Bool.or_eq_true, beq_iff_eq]
  constructor
  · rintro ⟨i, hi, e | e⟩
    · have := (m1 i.1).1 ⟨i, hi, rfl⟩
      exact ⟨i.1, List.mem_append_left _ this, e⟩
    · have := (m2 i.2).1 ⟨i, hi, rfl⟩
      exact ⟨i.2, by rw [List.cons_append]; exact List.mem_cons_of_mem _ this, e⟩
  · rintro ⟨l, hl, rfl⟩
    rw [List.cons_append] at hl
    rcases List.mem_cons.1 hl with rfl | hl
    · obtain ⟨i, hi, e⟩ := (m1 l).2 (by simp)
      exact ⟨i, hi, .inl (by rw [e])⟩
    · obtain ⟨i, hi, e⟩ := (m2 l).2 hl
      exact ⟨i, hi, .inr (by rw [e])⟩

theorem stay_perm_length {Q : List Nat} {L M : List Lit} (h : L.Perm M) : (stay Q L).length = (stay Q M).length :=
  (h.filter _).length_eq

theorem cyc_split (a : Lit) (I : List Lit) (z : Lit) (R : List Lit) :
    cyc (a :: I ++ z :: R) = steps (a :: I ++ [z]) ++ steps (z :: R ++ [a]) := by
  have := steps_append (a :: I) z (R ++ [a])
  simpa [cyc] using this

theorem commitStep_inv {first : Nat} {fuel : Nat} (h : Inv s L) (hq : first ∈ s.queue) (hf : L.length + 2 ≤ fuel) :
    ∃ s' e L', s.commitStep fuel first = some (s', e) ∧ StepOk s L s' e L' := by
  by_cases hl : ∃ l ∈ L, l.var = first
  · rcases commitStep_spec h hq hf hl with ⟨a, I, hr, hI, hfst, hc⟩ | ⟨a, I, z, R, hr, hI, hfst, ha, hz, hc⟩
    · -- everything is removed
      have hi := h.rot hr
      have hI0 : I ≠ [] := by rintro rfl; obtain ⟨l, hl, _⟩ := hfst; simp at hl
      have hrep : (s.replace (steps (a :: I ++ [a])) a a) =
          ({ (steps (a :: I ++ [a])).foldl removeImplication s with
              queue := s.queue.filter fun v => !(steps (a :: I ++ [a])).any fun i => i.1.var == v || i.2.var == v },
            ⟨[], steps (a :: I ++ [a])⟩) := by
        unfold replace
        simp only [ne_eq, not_true_eq_false, decide_false, Bool.false_and, Bool.false_eq_true, if_false]
        rw [foldl_remove]
      rw [foldl_remove] at hrep
      refine ⟨_, _, [], hc.trans (congrArg some hrep), ?_⟩
      have hcyc : cyc (a :: I) = steps (a :: I ++ [a]) ++ [] := by simp [cyc]
      refine ⟨⟨?_, ?_, by simp, .inl rfl⟩, by simp, ?_, ?_, by simp, by simp, ?_, by simp, by simp, ⟨[], ?_, ?_⟩, .inl ⟨rfl, ?_⟩⟩
      · refine removeAll_rep (fun i => i.1.var) _ (hcyc ▸ hi.ante) ?_
        rw [show cyc ([] : List Lit) = [] from rfl, ← hcyc, keysA]; exact hi.nodup
      · refine removeAll_rep (fun i => i.2.var) _ (hcyc ▸ hi.succ) ?_
        rw [show cyc ([] : List Lit) = [] from rfl, ← hcyc]; exact (keysS _).nodup_iff.2 hi.nodup
      · intro v hv; exact (List.mem_filter.1 hv).1
      · refine filter_lt hq ?_
        rw [Bool.not_eq_false', mem_steps_var a I a first]
        obtain ⟨l, hl, e⟩ := hfst
        exact ⟨l, by simp [hl], e⟩
      · exact steps_touch I a a hI0 hI
      · rw [← hcyc]; exact cyc_rot hr
      · exact List.Perm.refl _
      · rw [stay_perm_length hr.perm]
        unfold EquivImpls.stay
        rw [List.filter_cons, List.filter_eq_nil_iff.2 (fun l hl => by simp [hI l hl])]
        split <;> simp
    · have hi := h.rot hr
      have hI0 : I ≠ [] := by rintro rfl; obtain ⟨l, hl, _⟩ := hfst; simp at hl
      have hn := hi.nodup
      have haz : a ≠ z := by rintro rfl; simp at hn
      have hmem : ∀ l, l ∈ L ↔ l ∈ a :: I ++ z :: R := fun l => hr.perm.mem_iff
      have hrep : (s.replace (steps (a :: I ++ [z])) a z) =
          ({ ((steps (a :: I ++ [z])).foldl removeImplication s).addImplication (a, z) with
              queue := s.queue.filter fun v => !(steps (a :: I ++ [z])).any fun i => i.1.var == v || i.2.var == v },
            ⟨[(a, z)], steps (a :: I ++ [z])⟩) := by
        have hp : (decide (a ≠ z) && !s.queue.contains a.var && !s.queue.contains z.var) = true := by simp [haz, ha, hz]
        unfold replace
        dsimp only
        rw [hp, foldl_remove]
        simp [addImplication]
      rw [foldl_remove] at hrep
      refine ⟨_, _, a :: z :: R, hc.trans (congrArg some hrep), ?_⟩
      have hcyc := cyc_split a I z R
      have hnew : cyc (a :: z :: R) = (a, z) :: steps (z :: R ++ [a]) := by simp [cyc, steps]
      have hn1 : ((cyc (a :: I ++ z :: R)).map fun i => i.1.var).Nodup := by rw [keysA]; exact hn
      have hn2 : ((cyc (a :: I ++ z :: R)).map fun i => i.2.var).Nodup := (keysS _).nodup_iff.2 hn
      have hnd : ((a :: z :: R).map Lit.var).Nodup := by
        refine hn.sublist (List.Sublist.map _ ?_)
        rw [List.cons_append]
        exact List.Sublist.cons_cons _ (List.sublist_append_right _ _)
      have r1 : MapRep ((steps (a :: I ++ [z])).foldl (fun m i => ImplMap.erase m i.1.var) s.byAnte) (fun i => i.1.var)
          (steps (z :: R ++ [a])) :=
        removeAll_rep (fun i => i.1.var) _ (hcyc ▸ hi.ante) (hcyc ▸ hn1)
      have r2 : MapRep ((steps (a :: I ++ [z])).foldl (fun m i => ImplMap.erase m i.2.var) s.bySucc) (fun i => i.2.var)
          (steps (z :: R ++ [a])) :=
        removeAll_rep (fun i => i.2.var) _ (hcyc ▸ hi.succ) (hcyc ▸ hn2)
      refine ⟨⟨?_, ?_, hnd, .inr (by simp)⟩, ?_, ?_, ?_, ?_, ?_, ?_, ?_, ?_, ⟨steps (z :: R ++ [a]), ?_, ?_⟩, .inr ?_⟩
      · rw [hnew]
        refine r1.insert (a, z) ?_
        have e : (steps (z :: R ++ [a])).map (fun i => i.1.var) = (z :: R).map Lit.var := by
          have := congrArg (List.map Lit.var) (steps_fst (z :: R) a)
          rw [List.map_map] at this
          exact this
        rw [e]
        exact (List.nodup_cons.1 hnd).1
      · rw [hnew]
        refine r2.insert (a, z) ?_
        have e : (steps (z :: R ++ [a])).map (fun i => i.2.var) = (R ++ [a]).map Lit.var := by
          have := congrArg (List.map Lit.var) (steps_snd z (R ++ [a]))
          rw [List.map_map] at this
          exact this
        rw [e]
        intro hm
        simp only [List.map_cons, List.nodup_cons, List.mem_cons, not_or, List.map_append, List.mem_append, List.map_nil] at hm hnd
        rcases hm with hm | hm
        · exact hnd.2.1 hm
        · exact hnd.1.1 (by simpa using Eq.symm (by simpa using hm))
      · rw [hr.perm.length_eq]; simp
      · intro v hv; exact (List.mem_filter.1 hv).1
      · refine filter_lt hq ?_
        rw [Bool.not_eq_false', mem_steps_var a I z first]
        obtain ⟨l, hl, e⟩ := hfst
        exact ⟨l, by simp [hl], e⟩
      · intro l hl
        rw [hmem]
        simp only [List.mem_cons, List.cons_append, List.mem_append] at hl ⊢
        rcases hl with hl | hl | hl
        · exact .inl hl
        · exact .inr (.inr (.inl hl))
        · exact .inr (.inr (.inr hl))
      · intro l hl hlq
        refine List.mem_filter.2 ⟨hlq, ?_⟩
        rw [Bool.not_eq_true', Bool.eq_false_iff, ne_eq, mem_steps_var a I z _]
        rintro ⟨l', hl', e⟩
        rcases List.mem_cons.1 hl with rfl | hl
        · exact ha hlq
        · rcases List.mem_cons.1 hl with rfl | hl
          · exact hz hlq
          · have hnn := hn
            rw [show a :: I ++ z :: R = (a :: I ++ [z]) ++ R by simp, List.map_append] at hnn
            exact (List.nodup_append.1 hnn).2.2 l'.var (List.mem_map.2 ⟨l', hl', rfl⟩) l.var (List.mem_map.2 ⟨l, hl, rfl⟩) e
      · exact steps_touch I a z hI0 hI
      · intro i hi
        rw [List.mem_singleton.1 hi]
        exact ⟨(hmem _).2 (by simp), (hmem _).2 (by simp), ha, hz⟩
      · simp only [List.length_singleton]
        cases I with
        | nil => exact absurd rfl hI0
        | cons b I => simp [steps]
      · rw [← hcyc]; exact cyc_rot hr
      · rw [hnew]; exact List.Perm.refl _
      · have hst : stay s.queue (a :: I ++ z :: R) =
            stay (s.queue.filter fun v => !(steps (a :: I ++ [z])).any fun i => i.1.var == v || i.2.var == v) (a :: z :: R) := by
          unfold EquivImpls.stay
          rw [List.cons_append, List.filter_cons, List.filter_append,
            List.filter_eq_nil_iff.2 (fun l (hl : l ∈ I) => by simp [hI l hl]), List.nil_append,
            List.filter_cons, List.filter_cons, List.filter_cons]
          have e : ∀ l ∈ a :: z :: R, (s.queue.filter fun v => !(steps (a :: I ++ [z])).any fun i => i.1.var == v || i.2.var == v).contains l.var
              = s.queue.contains l.var := by
            intro l hl
            rw [Bool.eq_iff_iff]
            simp only [List.contains_iff_mem]
            constructor
            · intro hm; exact (List.mem_filter.1 hm).1
            · intro hlq
              refine List.mem_filter.2 ⟨hlq, ?_⟩
              rw [Bool.not_eq_true', Bool.eq_false_iff, ne_eq, mem_steps_var a I z _]
              rintro ⟨l', hl', e⟩
              rcases List.mem_cons.1 hl with rfl | hl
              · exact ha hlq
              · rcases List.mem_cons.1 hl with rfl | hl
                · exact hz hlq
                · have hnn := hn
                  rw [show a :: I ++ z :: R = (a :: I ++ [z]) ++ R by simp, List.map_append] at hnn
                  exact (List.nodup_append.1 hnn).2.2 l'.var (List.mem_map.2 ⟨l', hl', rfl⟩) l.var (List.mem_map.2 ⟨l, hl, rfl⟩) e
          rw [e a (by simp), e z (by simp)]
          have er : (R.filter fun l => !(s.queue.filter fun v => !(steps (a :: I ++ [z])).any fun i => i.1.var == v || i.2.var == v).contains l.var)
              = R.filter fun l => !s.queue.contains l.var :=
            List.filter_congr fun l hl => by rw [e l (by simp [hl])]
          rw [← er]
        rw [← hst]
        exact hr.filter _
  · -- the variable does not occur
    have hv : first ∉ L.map Lit.var := by
      intro hm
      obtain ⟨l, hlL, e⟩ := List.mem_map.1 hm
      exact hl ⟨l, hlL, e⟩
    have hnone : s.byAnte.find first = none := h.ante.find_none (by rw [keysA]; exact hv)
    refine ⟨_, _, L, by unfold commitStep; rw [hnone], ?_⟩
    refine ⟨⟨h.ante, h.succ, h.nodup, h.len⟩, Nat.le_refl _, fun v hv => (List.mem_filter.1 hv).1, filter_lt hq (by simp), fun l hl => hl, ?_,
      by simp, by simp, by simp, ⟨cyc L, List.Perm.refl _, List.Perm.refl _⟩, .inr ?_⟩
    · intro l hlL hq
      refine List.mem_filter.2 ⟨hq, ?_⟩
      simp only [bne_iff_ne, ne_eq]
      exact fun e => hl ⟨l, hlL, e⟩
    · have : stay s.queue L = stay (s.queue.filter (· != first)) L := by
        unfold EquivImpls.stay
        refine List.filter_congr fun l hlL => ?_
        congr 1
        rw [Bool.eq_iff_iff]
        simp only [List.contains_iff_mem]
        constructor
        · intro hq
          refine List.mem_filter.2 ⟨hq, ?_⟩
          simp only [bne_iff_ne, ne_eq]
          exact fun e => hl ⟨l, hlL, e⟩
        · intro hm; exact (List.mem_filter.1 hm).1
      rw [← this]
      exact Rot.refl _

/-- Effect of `commitWorkQueue` on a cycle through `L` with the queue `Q`. -/
structure CommitOk (Q : List Nat) (L : List Lit) (s' : EquivImpls) (d : EqDelta) (L' : List Lit) : Prop where
  inv : Inv s' L'
  queue : s'.queue = []
  removed : ∀ i ∈ d.removed, i.1.var ∈ Q ∨ i.2.var ∈ Q
  added : ∀ i ∈ d.added, i.1 ∈ L ∧ i.2 ∈ L ∧ i.1.var ∉ Q ∧ i.2.var ∉ Q
  addedLe : d.added.length ≤ d.removed.length
  rest : ∃ rest, (cyc L).Perm (d.removed ++ rest) ∧ (cyc L').Perm (d.added ++ rest)
  stay : ((stay Q L).length < 2 ∧ L' = []) ∨ (2 ≤ (EquivImpls.stay Q L).length ∧ Rot (EquivImpls.stay Q L) L')

theorem cyc_nodup {L : List Lit} (h : (L.map Lit.var).Nodup) : (cyc L).Nodup := by
  have : ((cyc L).map fun i => i.1.var).Nodup := by rw [keysA]; exact h
  exact List.Pairwise.imp (fun hab e => hab (by rw [e])) (List.pairwise_map.1 this)

theorem perm_split {c r rest add kept : List Implication} (h1 : c.Perm (r ++ rest)) (h2 : c.Perm (add ++ kept)) (hn : c.Nodup)
    (hd : ∀ i ∈ add, i ∉ r) : ∃ kept', kept.Perm (r ++ kept') ∧ rest.Perm (add ++ kept') := by
  refine ⟨kept.filter (fun i => !r.contains i), ?_, ?_⟩
  · have h3 : ((add ++ kept).filter fun i => r.contains i).Perm ((r ++ rest).filter fun i => r.contains i) :=
      (h2.symm.trans h1).filter _
    have hn1 : (r ++ rest).Nodup := h1.nodup_iff.1 hn
    rw [List.filter_append, List.filter_eq_nil_iff.2 (fun i (hi : i ∈ add) => by simpa using hd i hi), List.nil_append, List.filter_append,
      List.filter_eq_self.2 (fun i (hi : i ∈ r) => by simpa using hi),
      List.filter_eq_nil_iff.2 (fun i (hi : i ∈ rest) => by
        simp only [List.contains_iff_mem]
        exact fun hr => (List.nodup_append.1 hn1).2.2 i hr i hi rfl), List.append_nil] at h3
    exact ((List.filter_append_perm (fun i => r.contains i) kept).symm).trans (h3.append_right _)
  · have h3 : ((add ++ kept).filter fun i => !r.contains i).Perm ((r ++ rest).filter fun i => !r.contains i) :=
      (h2.symm.trans h1).filter _
    have hn1 : (r ++ rest).Nodup := h1.nodup_iff.1 hn
    rw [List.filter_append, List.filter_eq_self.2 (fun i (hi : i ∈ add) => by simpa using hd i hi), List.filter_append,
      List.filter_eq_nil_iff.2 (fun i (hi : i ∈ r) => by simpa using hi), List.nil_append,
      List.filter_eq_self.2 (fun i (hi : i ∈ rest) => by
        simp only [Bool.not_eq_true', Bool.eq_false_iff, ne_eq, List.contains_iff_mem]
        exact fun hr => (List.nodup_append.1 hn1).2.2 i hr i hi rfl)] at h3
    exact h3.symm

theorem commitLoop_inv {Q : List Nat} {L0 : List Lit} {fuel : Nat} : ∀ (n : Nat) (s : EquivImpls) (L : List Lit) (d : EqDelta), Inv s L →
    s.queue.length < n → L.length + 2 ≤ fuel → (∀ v ∈ s.queue, v ∈ Q) → (∀ l ∈ L, l.var ∈ Q → l.var ∈ s.queue) → (∀ l ∈ L, l ∈ L0) →
    (∀ i ∈ d.removed, i.1.var ∈ Q ∨ i.2.var ∈ Q) → (∀ i ∈ d.added, i.1 ∈ L0 ∧ i.2 ∈ L0 ∧ i.1.var ∉ Q ∧ i.2.var ∉ Q) →
    d.added.length ≤ d.removed.length →
    (∃ kept, (cyc L0).Perm (d.removed ++ kept) ∧ (cyc L).Perm (d.added ++ kept)) →
    ((L = [] ∧ (stay Q L0).length < 2) ∨ Rot (stay Q L0) (stay s.queue L)) →
    ∃ s' d' L', s.commitLoop fuel n d = some (s', d') ∧ CommitOk Q L0 s' d' L' := by
  intro n
  induction n with
  | zero => intro s L d _ h; omega
  | succ n ih =>
    intro s L d h hn hf hQ hQ' hL hrem hadd hle hk hst
    rw [commitLoop]
    cases hq : s.queue with
    | nil =>
      refine ⟨s, d, L, rfl, h, hq, hrem, hadd, hle, hk, ?_⟩
      rcases hst with ⟨h1, h2⟩ | h1
      · exact .inl ⟨h2, h1⟩
      · rw [hq] at h1
        have e : stay [] L = L := List.filter_eq_self.2 (fun _ _ => by simp)
        rw [e] at h1
        rcases h.len with rfl | h2
        · left
          have := h1.perm.length_eq
          exact ⟨by rw [this]; simp, rfl⟩
        · exact .inr ⟨by rw [h1.perm.length_eq]; exact h2, h1⟩
    | cons first tl =>
      obtain ⟨s', e, L', hc, ok⟩ := commitStep_inv h (first := first) (fuel := fuel) (by rw [hq]; simp) hf
      dsimp only
      rw [hc]
      dsimp only
      refine ih s' L' _ ok.inv (by have := ok.queueLt; omega) (by have := ok.len; omega) (fun v hv => hQ v (ok.queueSub v hv))
        (fun l hl hlQ => ok.queue l hl (hQ' l (ok.sub l hl) hlQ)) (fun l hl => hL l (ok.sub l hl)) ?_ ?_ ?_ ?_ ?_
      · intro i hi
        rcases List.mem_append.1 hi with hi | hi
        · exact hrem i hi
        · exact (ok.removed i hi).imp (hQ _) (hQ _)
      · intro i hi
        rcases List.mem_append.1 hi with hi | hi
        · exact hadd i hi
        · obtain ⟨a1, a2, a3, a4⟩ := ok.added i hi
          exact ⟨hL _ a1, hL _ a2, fun h => a3 (hQ' _ a1 h), fun h => a4 (hQ' _ a2 h)⟩
      · have := ok.addedLe
        simp only [List.length_append]
        omega
      · obtain ⟨kept, k1, k2⟩ := hk
        obtain ⟨rest, r1, r2⟩ := ok.rest
        obtain ⟨kept', p1, p2⟩ := perm_split r1 k2 (cyc_nodup h.nodup) (fun i hi hr => by
          obtain ⟨_, _, b1, b2⟩ := hadd i hi
          rcases ok.removed i hr with hh | hh
          · exact b1 (hQ _ hh)
          · exact b2 (hQ _ hh))
        refine ⟨kept', ?_, ?_⟩
        · refine k1.trans ?_
          rw [List.append_assoc]
          exact p1.append_left _
        · refine r2.trans ?_
          refine (p2.append_left _).trans ?_
          rw [← List.append_assoc]
          exact List.perm_append_comm.append_right _
      · rcases hst with ⟨rfl, h2⟩ | h1
        · left
          refine ⟨?_, h2⟩
          have := ok.len
          exact List.eq_nil_of_length_eq_zero (by simpa using this)
        · rcases ok.stay with ⟨h2, h3⟩ | h2
          · exact .inl ⟨h2, by rw [h1.perm.length_eq]; exact h3⟩
          · exact .inr (h1.trans h2)

theorem commit_spec {fuel : Nat} (h : Inv s L) (hf : L.length + 2 ≤ fuel) (hq : s.queue.length < fuel) :
    ∃ s' d L', s.commit fuel = some (s', d) ∧ CommitOk s.queue L s' d L' := by
  refine commitLoop_inv fuel s L ⟨[], []⟩ h hq hf (fun v hv => hv) (fun l _ hl => hl) (fun l hl => hl) (by simp) (by simp) (by simp)
    ⟨cyc L, List.Perm.refl _, List.Perm.refl _⟩ (.inr (Rot.refl _))

theorem foldl_add_rep : ∀ (q : List Implication) (s : EquivImpls) (is : List Implication),
    MapRep s.byAnte (fun i => i.1.var) is → MapRep s.bySucc (fun i => i.2.var) is →
    ((is ++ q).map fun i => i.1.var).Nodup → ((is ++ q).map fun i => i.2.var).Nodup →
    MapRep (q.foldl addImplication s).byAnte (fun i => i.1.var) (is ++ q) ∧
    MapRep (q.foldl addImplication s).bySucc (fun i => i.2.var) (is ++ q) ∧ (q.foldl addImplication s).queue = s.queue := by
  intro q
  induction q with
  | nil => intro s is h1 h2 _ _; simpa using ⟨h1, h2⟩
  | cons i q ih =>
    intro s is h1 h2 n1 n2
    rw [List.foldl_cons]
    have hp : (i :: is ++ q).Perm (is ++ i :: q) := (List.perm_middle).symm
    have m1 := (hp.map (fun i => i.1.var)).nodup_iff.2 n1
    have m2 := (hp.map (fun i => i.2.var)).nodup_iff.2 n2
    have a1 := h1.insert i (fun hm => by
      simp only [List.cons_append, List.map_cons, List.nodup_cons, List.map_append, List.mem_append, not_or] at m1
      exact m1.1.1 hm)
    have a2 := h2.insert i (fun hm => by
      simp only [List.cons_append, List.map_cons, List.nodup_cons, List.map_append, List.mem_append, not_or] at m2
      exact m2.1.1 hm)
    obtain ⟨b1, b2, b3⟩ := ih (s.addImplication i) (i :: is) a1 a2 m1 m2
    exact ⟨b1.mono hp, b2.mono hp, b3⟩

/-- A conjecture is represented by a cycle through its literals. -/
theorem ofConjecture_inv {c : List Lit} (hn : (c.map Lit.var).Nodup) :
    Inv (ofConjecture c) (if 1 < c.length then c else []) ∧ (ofConjecture c).queue = [] := by
  match c, hn with
  | [], _ => exact ⟨⟨.refl _, .refl _, by simp, .inl rfl⟩, rfl⟩
  | [x], _ => exact ⟨⟨.refl _, .refl _, by simp, .inl rfl⟩, rfl⟩
  | x :: y :: r, hn =>
    have e : steps (x :: y :: r) ++ [((y :: r).getLast (by simp), x)] = cyc (x :: y :: r) := by
      have h0 : y :: r = (y :: r).dropLast ++ [(y :: r).getLast (by simp)] := (List.dropLast_concat_getLast (by simp)).symm
      have := steps_snoc (x :: (y :: r).dropLast) ((y :: r).getLast (by simp)) x
      simp only [List.cons_append] at this
      rw [← h0] at this
      rw [this]
      simp [cyc]
    have hf := foldl_add_rep (cyc (x :: y :: r)) ⟨[], [], []⟩ [] (.refl _) (.refl _)
      (by rw [List.nil_append, keysA]; exact hn) (by rw [List.nil_append]; exact (keysS _).nodup_iff.2 hn)
    rw [List.nil_append] at hf
    unfold ofConjecture
    dsimp only
    rw [e, if_pos (by simp)]
    exact ⟨⟨hf.1, hf.2.1, hn, .inr (by simp)⟩, hf.2.2⟩

end EquivImpls

namespace Backbones

theorem commitVar_spec {ls removed : List Lit} (v : Nat) (hone : ∀ l ∈ ls, l.neg ∉ ls) :
    commitVar (ls, removed) v = (ls.filter (fun l => l.var != v), removed ++ ((if ls.contains (pos v) then [pos v] else if ls.contains (neg v) then [neg v] else []))) := by
  have hv : ∀ l : Lit, l.var = v → l = pos v ∨ l = neg v := by
    rintro ⟨w, s⟩ rfl
    cases s
    · exact .inl rfl
    · exact .inr rfl
  have hpn : (pos v).neg = neg v := rfl
  have hnp : (neg v).neg = pos v := rfl
  unfold commitVar
  dsimp only
  by_cases h1 : pos v ∈ ls
  · have h2 : neg v ∉ ls := by rw [← hpn]; exact hone _ h1
    simp only [List.contains_iff_mem, h1, if_true]
    congr 1
    refine List.filter_congr fun l hl => ?_
    rw [Bool.eq_iff_iff]
    simp only [bne_iff_ne, ne_eq]
    constructor
    · intro h e
      rcases hv l e with rfl | rfl
      · exact h rfl
      · exact h2 hl
    · rintro h rfl; exact h rfl
  · simp only [List.contains_iff_mem, h1, if_false]
    by_cases h2 : neg v ∈ ls
    · simp only [h2, if_true]
      congr 1
      refine List.filter_congr fun l hl => ?_
      rw [Bool.eq_iff_iff]
      simp only [bne_iff_ne, ne_eq]
      constructor
      · intro h e
        rcases hv l e with rfl | rfl
        · exact h1 hl
        · exact h rfl
      · rintro h rfl; exact h rfl
    · simp only [h2, if_false, List.append_nil]
      rw [List.filter_eq_self.2]
      intro l hl
      simp only [bne_iff_ne, ne_eq]
      intro e
      rcases hv l e with rfl | rfl
      · exact h1 hl
      · exact h2 hl

/-- The result of a commit, if no variable occurs with both signs. -/
theorem foldl_commit : ∀ (Q : List Nat) (ls removed : List Lit), (∀ l ∈ ls, l.neg ∉ ls) →
    (Q.foldl commitVar (ls, removed)).1 = ls.filter (fun l => !Q.contains l.var) ∧
    ∀ l, l ∈ (Q.foldl commitVar (ls, removed)).2 ↔ l ∈ removed ∨ (l ∈ ls ∧ l.var ∈ Q) := by
  intro Q
  induction Q with
  | nil =>
    intro ls removed _
    exact ⟨(List.filter_eq_self.2 (by simp)).symm, by simp⟩
  | cons v Q ih =>
    intro ls removed hone
    rw [List.foldl_cons, commitVar_spec v hone]
    have hone' : ∀ l ∈ ls.filter (fun l => l.var != v), l.neg ∉ ls.filter (fun l => l.var != v) :=
      fun l hl hn => hone l (List.mem_filter.1 hl).1 (List.mem_filter.1 hn).1
    obtain ⟨i1, i2⟩ := ih _ (removed ++ (if ls.contains (pos v) then [pos v] else if ls.contains (neg v) then [neg v] else [])) hone'
    refine ⟨?_, fun l => ?_⟩
    · rw [i1, List.filter_filter]
      refine List.filter_congr fun l _ => ?_
      rw [Bool.eq_iff_iff]
      simp only [List.contains_cons, Bool.and_eq_true, Bool.not_eq_true', bne_iff_ne, ne_eq, Bool.or_eq_false_iff, beq_eq_false_iff_ne]
      exact And.comm
    · rw [i2 l, List.mem_append]
      have key : l ∈ (if ls.contains (pos v) then [pos v] else if ls.contains (neg v) then [neg v] else []) ↔ l ∈ ls ∧ l.var = v := by
        by_cases h1 : pos v ∈ ls
        · have h2 : neg v ∉ ls := hone _ h1
          simp only [List.contains_iff_mem, h1, if_true, List.mem_singleton]
          constructor
          · rintro rfl; exact ⟨h1, rfl⟩
          · rintro ⟨hl, rfl⟩
            obtain ⟨w, s⟩ := l
            cases s
            · rfl
            · exact absurd hl h2
        · simp only [List.contains_iff_mem, h1, if_false]
          by_cases h2 : neg v ∈ ls
          · simp only [h2, if_true, List.mem_singleton]
            constructor
            · rintro rfl; exact ⟨h2, rfl⟩
            · rintro ⟨hl, rfl⟩
              obtain ⟨w, s⟩ := l
              cases s
              · exact absurd hl h1
              · rfl
          · simp only [h2, if_false, List.not_mem_nil, false_iff]
            rintro ⟨hl, rfl⟩
            obtain ⟨w, s⟩ := l
            cases s
            · exact h1 hl
            · exact h2 hl
      rw [key]
      simp only [List.mem_filter, bne_iff_ne, ne_eq, List.mem_cons]
      constructor
      · rintro ((h | ⟨h1, h2⟩) | ⟨⟨h1, _⟩, h2⟩)
        · exact .inl h
        · exact .inr ⟨h1, .inl h2⟩
        · exact .inr ⟨h1, .inr h2⟩
      · rintro (h | ⟨h1, h2 | h2⟩)
        · exact .inl (.inl h)
        · exact .inl (.inr ⟨h1, h2⟩)
        · by_cases hh : l.var = v
          · exact .inl (.inr ⟨h1, hh⟩)
          · exact .inr ⟨⟨h1, hh⟩, h2⟩

end Backbones

end Candy
