import Verif.Model.Miter
import Verif.Proofs.Traversal

/-!
# Lemmas about the detection of miters
-/

namespace Candy

theorem mem_hashInsert {α : Type} [BEq α] [LawfulBEq α] {x y : α} {s : List α} : y ∈ hashInsert x s ↔ y = x ∨ y ∈ s := by
  unfold hashInsert
  split
  · rename_i h
    have := List.contains_iff_mem.1 h
    exact ⟨.inr, fun h => h.elim (fun e => e ▸ this) id⟩
  · simp

theorem nodup_hashInsert {α : Type} [BEq α] [LawfulBEq α] {x : α} {s : List α} (h : s.Nodup) : (hashInsert x s).Nodup := by
  unfold hashInsert
  split
  · exact h
  · rename_i hc
    exact List.nodup_cons.2 ⟨fun hm => hc (List.contains_iff_mem.2 hm), h⟩

theorem mem_hashInserts {α : Type} [BEq α] [LawfulBEq α] {y : α} : ∀ {xs s : List α},
    y ∈ xs.foldl (fun s v => hashInsert v s) s ↔ y ∈ xs ∨ y ∈ s
  | [], s => by simp
  | x :: xs, s => by
    rw [List.foldl_cons, mem_hashInserts, mem_hashInsert, List.mem_cons]
    exact ⟨fun h => by rcases h with h | h | h <;> simp [h], fun h => by rcases h with (h | h) | h <;> simp [h]⟩

theorem nodup_hashInserts {α : Type} [BEq α] [LawfulBEq α] : ∀ {xs s : List α}, s.Nodup →
    (xs.foldl (fun s v => hashInsert v s) s).Nodup
  | [], _, h => h
  | x :: xs, s, h => by
    rw [List.foldl_cons]
    exact nodup_hashInserts (nodup_hashInsert h)

/-- Two duplicate-free lists with the same elements have the same length. -/
theorem length_eq_of_mem_iff {α : Type} {s t : List α} (hs : s.Nodup) (ht : t.Nodup) (h : ∀ x, x ∈ s ↔ x ∈ t) :
    s.length = t.length := ((List.perm_ext_iff_of_nodup hs ht).2 h).length_eq

/-- A symmetric relation between the elements of a list holds for any two distinct ones. -/
theorem pairwise_sym {α : Type} {R : α → α → Prop} (hs : ∀ a b, R a b → R b a) : ∀ {L : List α}, L.Pairwise R →
    ∀ {u v : α}, u ∈ L → v ∈ L → u ≠ v → R u v
  | x :: L, h, u, v, hu, hv, hne => by
    rw [List.pairwise_cons] at h
    rcases List.mem_cons.1 hu with hu' | hu'
    · rcases List.mem_cons.1 hv with hv' | hv'
      · exact (hne (hu'.trans hv'.symm)).elim
      · exact hu' ▸ h.1 v hv'
    · rcases List.mem_cons.1 hv with hv' | hv'
      · exact hv' ▸ hs _ _ (h.1 u hu')
      · exact pairwise_sym hs h.2 hu' hv' hne

/-- A split of a duplicate-free list is determined by its middle. -/
theorem split_unique {α : Type} {b : α} : ∀ {p q r s : List α}, (p ++ b :: q).Nodup → p ++ b :: q = r ++ b :: s → p = r
  | [], q, [], s, _, _ => rfl
  | [], q, y :: r, s, hn, h => by
    simp only [List.nil_append, List.cons_append, List.cons.injEq] at h
    obtain ⟨rfl, rfl⟩ := h
    simp at hn
  | x :: p, q, [], s, hn, h => by
    simp only [List.nil_append, List.cons_append, List.cons.injEq] at h
    obtain ⟨rfl, rfl⟩ := h
    simp at hn
  | x :: p, q, y :: r, s, hn, h => by
    simp only [List.cons_append, List.cons.injEq] at h
    rw [List.cons_append, List.nodup_cons] at hn
    rw [h.1, split_unique hn.2 h.2]

theorem Before.mem_of_split {α : Type} {a b : α} {L p q : List α} (h : Before a b L) (hn : L.Nodup) (e : L = p ++ b :: q) :
    a ∈ p := by
  obtain ⟨p', q', r', h⟩ := h
  subst e
  rw [split_unique hn h]
  simp

theorem Before.trans {α : Type} {a b c : α} {L : List α} (h : Before a b L) (h' : Before b c L) (hn : L.Nodup) : Before a c L := by
  obtain ⟨p, q, r, e⟩ := h'
  have e' : L = p ++ b :: (q ++ c :: r) := by rw [e]; simp
  obtain ⟨p1, p2, hp⟩ := List.append_of_mem (h.mem_of_split hn e')
  subst hp
  exact ⟨p1, p2 ++ b :: q, r, by rw [e]; simp⟩

namespace GateProblem

variable {G : GateProblem}

/-- More iterations do not change the result of a traversal that ends. -/
theorem dfsLoop_more {prune : Nat → Bool} (k : Nat) : ∀ {n : Nat} {s r : DFS}, G.dfsLoop prune n s = some r →
    G.dfsLoop prune (n + k) s = some r := by
  intro n
  induction n with
  | zero =>
    intro s r h
    unfold dfsLoop at h ⊢
    split
    · rename_i hw
      rw [hw] at h
      exact h
    · rename_i hw
      rw [hw] at h
      cases h
  | succ n ih =>
    intro s r h
    rw [Nat.succ_add]
    unfold dfsLoop at h ⊢
    split
    · rename_i hw
      rw [hw] at h
      exact h
    · rename_i hw
      rw [hw] at h
      exact ih h

theorem hasMiter_more {cls : Nat → Clause} {perm : List Nat → List Nat} {n : Nat} {b : Bool} (k : Nat)
    (h : G.hasMiter cls perm n = some b) : G.hasMiter cls perm (n + k) = some b := by
  unfold hasMiter traverseDFS at *
  obtain ⟨T, hT, e⟩ := Option.map_eq_some_iff.1 h
  obtain ⟨s, hs, e'⟩ := Option.map_eq_some_iff.1 hT
  rw [dfsLoop_more k hs, Option.map_some, e', Option.map_some, e]

theorem mem_border {v : Nat} : ∀ {T : List GateCall} {s : BorderGates}, v ∈ (T.foldl G.borderStep s).border ↔
    v ∈ s.border ∨ ∃ pre post, T = pre ++ .backtrack v :: post ∧
      ∃ l ∈ (G.gates v).inp, l.var ∉ s.seenOuts ∧ ∀ u, .collect u ∈ pre → (G.gates u).outVar ≠ l.var
  | [], s => by simp
  | c :: T, s => by
    rw [List.foldl_cons, mem_border]
    cases c with
    | collect w =>
      constructor
      · rintro (h | ⟨pre, post, e, l, hl, h1, h2⟩)
        · exact .inl h
        · simp only [borderStep, List.mem_cons, not_or] at h1
          refine .inr ⟨.collect w :: pre, post, by rw [e]; rfl, l, hl, h1.2, fun u hu => ?_⟩
          rcases List.mem_cons.1 hu with hu | hu
          · cases hu; exact fun e => h1.1 e.symm
          · exact h2 u hu
      · rintro (h | ⟨pre, post, e, l, hl, h1, h2⟩)
        · exact .inl h
        · cases pre with
          | nil => simp at e
          | cons x pre =>
            simp only [List.cons_append, List.cons.injEq] at e
            obtain ⟨rfl, e⟩ := e
            refine .inr ⟨pre, post, e, l, hl, ?_, fun u hu => h2 u (List.mem_cons_of_mem _ hu)⟩
            simp only [borderStep, List.mem_cons, not_or]
            exact ⟨fun e => h2 w List.mem_cons_self e.symm, h1⟩
    | backtrack w =>
      have hs : (G.borderStep s (.backtrack w)).seenOuts = s.seenOuts := by
        simp only [borderStep]; split <;> rfl
      have hb : v ∈ (G.borderStep s (.backtrack w)).border ↔
          v ∈ s.border ∨ v = w ∧ ∃ l ∈ (G.gates v).inp, l.var ∉ s.seenOuts := by
        simp only [borderStep]
        split
        · rename_i h
          simp only [Bool.and_eq_true, List.any_eq_true, Bool.not_eq_true', List.contains_eq_mem, decide_eq_false_iff_not] at h
          rw [List.mem_cons]
          constructor
          · rintro (rfl | h')
            · exact .inr ⟨rfl, h.1⟩
            · exact .inl h'
          · rintro (h' | ⟨h', _⟩)
            · exact .inr h'
            · exact .inl h'
        · rename_i h
          refine ⟨.inl, ?_⟩
          rintro (h' | ⟨rfl, h'⟩)
          · exact h'
          · refine Classical.not_not.1 fun hn => h ?_
            simp only [Bool.and_eq_true, List.any_eq_true, Bool.not_eq_true', List.contains_eq_mem, decide_eq_false_iff_not]
            exact ⟨h', hn⟩
      rw [hb, hs]
      constructor
      · rintro ((h | ⟨rfl, l, hl, h⟩) | ⟨pre, post, e, l, hl, h1, h2⟩)
        · exact .inl h
        · exact .inr ⟨[], T, rfl, l, hl, h, by simp⟩
        · refine .inr ⟨.backtrack w :: pre, post, by rw [e]; rfl, l, hl, h1, fun u hu => h2 u ?_⟩
          rcases List.mem_cons.1 hu with hu | hu
          · cases hu
          · exact hu
      · rintro (h | ⟨pre, post, e, l, hl, h1, h2⟩)
        · exact .inl (.inl h)
        · cases pre with
          | nil =>
            simp only [List.nil_append, List.cons.injEq, GateCall.backtrack.injEq] at e
            exact .inl (.inr ⟨e.1.symm, l, hl, h1⟩)
          | cons x pre =>
            simp only [List.cons_append, List.cons.injEq] at e
            exact .inr ⟨pre, post, e.2, l, hl, h1, fun u hu => h2 u (List.mem_cons_of_mem _ hu)⟩
    | collectInput w =>
      have hs : G.borderStep s (.collectInput w) = s := rfl
      rw [hs]
      constructor
      · rintro (h | ⟨pre, post, e, l, hl, h1, h2⟩)
        · exact .inl h
        · refine .inr ⟨.collectInput w :: pre, post, by rw [e]; rfl, l, hl, h1, fun u hu => h2 u ?_⟩
          rcases List.mem_cons.1 hu with hu | hu
          · cases hu
          · exact hu
      · rintro (h | ⟨pre, post, e, l, hl, h1, h2⟩)
        · exact .inl h
        · cases pre with
          | nil => simp at e
          | cons x pre =>
            simp only [List.cons_append, List.cons.injEq] at e
            exact .inr ⟨pre, post, e.2, l, hl, h1, fun u hu => h2 u (List.mem_cons_of_mem _ hu)⟩

theorem nodup_border : ∀ {T : List GateCall} {s : BorderGates}, s.border.Nodup → (T.foldl G.borderStep s).border.Nodup
  | [], _, h => h
  | c :: T, s, h => by
    refine nodup_border (T := T) ?_
    cases c with
    | collect w => exact h
    | collectInput w => exact h
    | backtrack w =>
      simp only [borderStep]
      split
      · rename_i hc
        simp only [Bool.and_eq_true, Bool.not_eq_true', List.contains_eq_mem, decide_eq_false_iff_not] at hc
        exact List.nodup_cons.2 ⟨hc.2, h⟩
      · exact h

end GateProblem

/-! ### The tests -/

theorem signOccurrences_spec : ∀ {ls occ : List Lit}, occ.Nodup →
    ((ls ++ occ).Nodup → ∃ r, signOccurrences ls occ = some r ∧ ∀ l, l ∈ r ↔ l ∈ ls ∨ l ∈ occ) ∧
    (¬ (ls ++ occ).Nodup → signOccurrences ls occ = none)
  | [], occ, h => ⟨fun _ => ⟨occ, rfl, by simp⟩, fun hn => (hn h).elim⟩
  | l :: ls, occ, h => by
    unfold signOccurrences
    by_cases hc : l ∈ occ
    · rw [if_pos (List.contains_iff_mem.2 hc)]
      refine ⟨fun hn => ?_, fun _ => rfl⟩
      rw [List.cons_append, List.nodup_cons] at hn
      exact (hn.1 (List.mem_append_right _ hc)).elim
    · rw [if_neg (fun hm => hc (List.contains_iff_mem.1 hm))]
      have hp : (l :: ls ++ occ).Perm (ls ++ l :: occ) := List.perm_middle.symm
      obtain ⟨h1, h2⟩ := signOccurrences_spec (ls := ls) (List.nodup_cons.2 ⟨hc, h⟩)
      rw [hp.nodup_iff]
      refine ⟨fun hn => ?_, h2⟩
      obtain ⟨r, e, hr⟩ := h1 hn
      refine ⟨r, e, fun x => ?_⟩
      rw [hr, List.mem_cons, List.mem_cons]
      constructor
      · rintro (h | h | h) <;> simp [h]
      · rintro ((h | h) | h) <;> simp [h]

theorem aigXors_iff {gs : List Gate} : aigXors gs = true ↔
    (gs.flatMap Gate.inp).Nodup ∧ ∀ l ∈ gs.flatMap Gate.inp, l.neg ∈ gs.flatMap Gate.inp := by
  obtain ⟨h1, h2⟩ := signOccurrences_spec (ls := gs.flatMap Gate.inp) (occ := []) List.nodup_nil
  rw [List.append_nil] at h1 h2
  unfold aigXors
  by_cases hn : (gs.flatMap Gate.inp).Nodup
  · obtain ⟨r, e, hr⟩ := h1 hn
    rw [e]
    simp only [List.all_eq_true, List.contains_eq_mem, decide_eq_true_eq, hr, List.not_mem_nil, or_false]
    exact ⟨fun h => ⟨hn, h⟩, fun h => h.2⟩
  · rw [h2 hn]
    simp [hn]

/-- The variables of the inputs. -/
def Gate.InVar (g : Gate) (z : Nat) : Prop := ∃ l ∈ g.inp, l.var = z

theorem length_two {α : Type} {s : List α} (hn : s.Nodup) (h : s.length = 2) : ∃ x y, x ≠ y ∧ ∀ z, z ∈ s ↔ z = x ∨ z = y := by
  match s, h with
  | [x, y], _ => exact ⟨x, y, by simpa using hn, by simp⟩

theorem twoInputs_iff {gs : List Gate} : twoInputs gs = true ↔
    ∀ g ∈ gs, ∃ x y, x ≠ y ∧ ∀ z, g.InVar z ↔ z = x ∨ z = y := by
  unfold twoInputs
  rw [List.all_eq_true]
  refine forall_congr' fun g => forall_congr' fun _ => ?_
  have hm : ∀ z, z ∈ (g.inp.map Lit.var).foldl (fun s v => hashInsert v s) [] ↔ g.InVar z := by
    intro z
    rw [mem_hashInserts]
    simp [Gate.InVar]
  have hn : ((g.inp.map Lit.var).foldl (fun s v => hashInsert v s) []).Nodup := nodup_hashInserts List.nodup_nil
  rw [beq_iff_eq]
  constructor
  · intro h
    obtain ⟨x, y, hne, he⟩ := length_two hn h
    exact ⟨x, y, hne, fun z => by rw [← hm, he]⟩
  · rintro ⟨x, y, hne, he⟩
    rw [length_eq_of_mem_iff hn (t := [x, y]) (by simpa using hne) (fun z => by rw [hm, he]; simp)]
    rfl

theorem binaryXors_spec {cls : Nat → Clause} : ∀ {gs : List Gate} {seen : List Nat}, binaryXors cls gs seen = true →
    (∀ g ∈ gs, isBinaryXor cls g = true ∧ ∀ z, g.InVar z → z ∉ seen) ∧
    gs.Pairwise fun g h => ∀ z, g.InVar z → ¬ h.InVar z
  | [], _, _ => by simp
  | g :: gs, seen, h => by
    simp only [binaryXors, Bool.and_eq_true, Bool.not_eq_true'] at h
    obtain ⟨⟨h1, h2⟩, h3⟩ := h
    obtain ⟨h4, h5⟩ := binaryXors_spec h3
    have h4' : ∀ k ∈ gs, ∀ z, k.InVar z → ¬ g.InVar z ∧ z ∉ seen := by
      intro k hk z hz
      have := (h4 k hk).2 z hz
      rw [mem_hashInserts] at this
      refine ⟨fun ⟨l, hl, e⟩ => this (.inl (List.mem_map.2 ⟨l, hl, e⟩)), fun hs => this (.inr hs)⟩
    refine ⟨fun k hk => ?_, List.pairwise_cons.2 ⟨fun k hk z hg hz => (h4' k hk z hz).1 hg, h5⟩⟩
    rcases List.mem_cons.1 hk with rfl | hk
    · refine ⟨h1, fun z ⟨l, hl, e⟩ hz => ?_⟩
      rw [List.any_eq_false] at h2
      exact h2 l hl (by rw [e]; exact List.contains_iff_mem.2 hz)
    · exact ⟨(h4 k hk).1, fun z hz => (h4' k hk z hz).2⟩

end Candy
