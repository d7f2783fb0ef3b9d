import Verif.Proofs.Gates
import Verif.Props.Main

/-!
# C36, C37: gate encodings and the block list
-/

namespace Candy

/-! ## C36 -/

theorem neg_holds_iff {a : Assign} {l : Lit} : l.neg.holds a ↔ ¬ l.holds a := by
  unfold Lit.holds Lit.neg
  cases a l.var <;> cases l.sign <;> simp

theorem satClause_cons {a : Assign} {l : Lit} {c : Clause} : SatClause a (l :: c) ↔ l.holds a ∨ SatClause a c := by
  simp [SatClause]

theorem not_satClause_nil {a : Assign} : ¬ SatClause a [] := by simp [SatClause]

theorem sat_cons {a : Assign} {c : Clause} {f : CNF} : Sat a (c :: f) ↔ SatClause a c ∧ Sat a f := by
  simp [Sat]

theorem sat_nil {a : Assign} : Sat a [] := by simp [Sat]

/-- **C36 (and).** The clauses of a full and-gate hold exactly under the assignments in which the output is
the conjunction of the inputs. -/
theorem C36_and (o l1 l2 : Lit) (a : Assign) :
    Sat a (andGate o l1 l2) ↔ (o.holds a ↔ l1.holds a ∧ l2.holds a) := by
  unfold andGate
  simp only [if_true, sat_cons, sat_nil, satClause_cons, not_satClause_nil, neg_holds_iff]
  by_cases h0 : o.holds a <;> by_cases h1 : l1.holds a <;> by_cases h2 : l2.holds a <;> simp [h0, h1, h2]

/-- **C36 (or).** Likewise for the disjunction. -/
theorem C36_or (o l1 l2 : Lit) (a : Assign) :
    Sat a (orGate o l1 l2) ↔ (o.holds a ↔ l1.holds a ∨ l2.holds a) := by
  unfold orGate
  simp only [if_true, sat_cons, sat_nil, satClause_cons, not_satClause_nil, neg_holds_iff]
  by_cases h0 : o.holds a <;> by_cases h1 : l1.holds a <;> by_cases h2 : l2.holds a <;> simp [h0, h1, h2]

/-- **C36 (xor).** Likewise for the exclusive disjunction. -/
theorem C36_xor (o l1 l2 : Lit) (a : Assign) :
    Sat a (xorGate o l1 l2) ↔ (o.holds a ↔ ¬ (l1.holds a ↔ l2.holds a)) := by
  unfold xorGate
  simp only [if_true, sat_cons, sat_nil, satClause_cons, not_satClause_nil, neg_holds_iff]
  by_cases h0 : o.holds a <;> by_cases h1 : l1.holds a <;> by_cases h2 : l2.holds a <;> simp [h0, h1, h2]

/-- **C36 (half encodings).** Without `full` the clauses say that the output implies the gate function. -/
theorem C36_half (o l1 l2 : Lit) (a : Assign) :
    (Sat a (andGate o l1 l2 false) ↔ (o.holds a → l1.holds a ∧ l2.holds a)) ∧
    (Sat a (orGate o l1 l2 false) ↔ (o.holds a → l1.holds a ∨ l2.holds a)) ∧
    (Sat a (xorGate o l1 l2 false) ↔ (o.holds a → ¬ (l1.holds a ↔ l2.holds a))) := by
  unfold andGate orGate xorGate
  simp only [Bool.false_eq_true, if_false, sat_cons, sat_nil, satClause_cons, not_satClause_nil, neg_holds_iff]
  by_cases h0 : o.holds a <;> by_cases h1 : l1.holds a <;> by_cases h2 : l2.holds a <;> simp [h0, h1, h2]

/-- The encodings distinguish the three functions: one assignment, three verdicts. -/
example : Sat (fun v => v == 0 || v == 1) (orGate (pos 0) (pos 1) (pos 2)) ∧
    ¬ Sat (fun v => v == 0 || v == 1) (andGate (pos 0) (pos 1) (pos 2)) ∧
    Sat (fun v => v == 0 || v == 1) (xorGate (pos 0) (pos 1) (pos 2)) := by
  rw [C36_or, C36_and, C36_xor]
  simp [Lit.holds]

/-! ## C37 -/

/-- The states of a block list for the problem `p`, with the positions of the clauses that have not been
taken out: it is built, queried, and clauses are removed or stripped, in any order. -/
inductive BlockListRun (p : Problem) : BlockList → List Nat → Prop
  | new : BlockListRun p (BlockList.new p) (List.range p.problem.length)
  | count (o : Lit) {B cur} : BlockListRun p B cur → BlockListRun p (B.getNumBlocked o).1 cur
  | isBlockedSet (o : Lit) {B cur} : BlockListRun p B cur → BlockListRun p (B.isBlockedSet o).1 cur
  | minimal {B cur} : BlockListRun p B cur → BlockListRun p B.getMinimallyUnblockedLiteral.1 cur
  | remove (cs : List Nat) {B cur} : BlockListRun p B cur →
      BlockListRun p (B.remove cs) (cur.filter (!cs.contains ·))
  | strip (o : Lit) {B cur} : BlockListRun p B cur →
      BlockListRun p (B.stripUnblockedClauses o).1 (cur.filter (!(B.stripUnblockedClauses o).2.contains ·))

/-- The clauses at the given positions. -/
def remaining (p : Problem) (cur : List Nat) : CNF := cur.map fun i => p.problem.getD i []

/-- Every resolvent of the clause `c` with a clause of `F` on the literal `o` of `c` is a tautology: besides
`o`, the clauses have another literal in opposite signs. -/
def BlockedBy (F : CNF) (o : Lit) (c : Clause) : Prop :=
  ∀ d ∈ F, o.neg ∈ d → ∃ l ∈ c, l ≠ o ∧ l.neg ∈ d

/-- The number of clauses in `F` with the literal `o`. -/
def occurrences (F : CNF) (o : Lit) : Nat := (F.filter fun c => c.contains o).length

theorem minStep_inv {p : Problem} {B : BlockList} {cur : Nat → Prop} (h : BlockList.Inv p B cur) (l : Lit)
    (best : Option Lit) (k : Nat) :
    BlockList.Inv p (BlockList.minStep l (B, best, k)).1 cur ∧
    (BlockList.minStep l (B, best, k)).1.index = B.index ∧
    (BlockList.minStep l (B, best, k)).2 =
      (let d := (B.index l).length - ((B.index l).filter (B.isBlocked l)).length % 65536
       if 0 < d ∧ d < k then (some l, d) else (best, k)) := by
  obtain ⟨h1, h2, h3⟩ := h.getNumBlocked l
  unfold BlockList.minStep
  simp only [h2, h3]
  split
  · exact ⟨h1, h2, rfl⟩
  · exact ⟨h1, h2, rfl⟩

theorem isBlocked_of_index {p : Problem} {B B' : BlockList} {cur : Nat → Prop} (h : BlockList.Inv p B cur)
    (h' : BlockList.Inv p B' cur) (he : B'.index = B.index) (o : Lit) : B'.isBlocked o = B.isBlocked o :=
  funext fun c => BlockList.isBlocked_congr (h'.problem.trans h.problem.symm) (by rw [he]) c

/-- The number of clauses with `l` that are not blocked, as the code computes it. -/
def BlockList.deficit (B : BlockList) (l : Lit) : Nat :=
  (B.index l).length - ((B.index l).filter (B.isBlocked l)).length % 65536

theorem minLoop_inv {p : Problem} {cur : Nat → Prop} (B0 : BlockList) (h0 : BlockList.Inv p B0 cur) :
    ∀ (n : Nat) (B : BlockList) (best : Option Lit) (k : Nat), BlockList.Inv p B cur → B.index = B0.index →
    (∀ l, best = some l → 0 < k ∧ B0.deficit l = k) → (best = none → k = 65535) → k ≤ 65535 →
    let r := BlockList.minLoop n (B, best, k)
    BlockList.Inv p r.1 cur ∧ r.1.index = B0.index ∧ (∀ l, r.2.1 = some l → 0 < r.2.2 ∧ B0.deficit l = r.2.2) ∧
      (r.2.1 = none → r.2.2 = 65535) ∧ r.2.2 ≤ k ∧
      (∀ l : Lit, l.var < n → 0 < B0.deficit l → r.2.2 ≤ B0.deficit l) := by
  intro n
  induction n with
  | zero =>
    intro B best k hB he h1 h2 h3
    exact ⟨hB, he, h1, h2, Nat.le_refl _, fun l hl => absurd hl (Nat.not_lt_zero _)⟩
  | succ v ih =>
    intro B best k hB he h1 h2 h3
    dsimp only
    rw [BlockList.minLoop]
    by_cases hk : k ≤ 1
    · rw [if_pos hk]
      exact ⟨hB, he, h1, h2, Nat.le_refl _, fun l _ hl => by show k ≤ _; omega⟩
    · rw [if_neg hk]
      -- one step
      have step : ∀ (l : Lit) (B : BlockList) (best : Option Lit) (k : Nat), BlockList.Inv p B cur →
          B.index = B0.index → (∀ l, best = some l → 0 < k ∧ B0.deficit l = k) → (best = none → k = 65535) →
          k ≤ 65535 → ∃ B' best' k', BlockList.minStep l (B, best, k) = (B', best', k') ∧
            BlockList.Inv p B' cur ∧ B'.index = B0.index ∧
            (∀ l, best' = some l → 0 < k' ∧ B0.deficit l = k') ∧ (best' = none → k' = 65535) ∧ k' ≤ k ∧
            (0 < B0.deficit l → k' ≤ B0.deficit l) := by
        intro l B best k hB he h1 h2 h3
        obtain ⟨g1, g2, g3⟩ := minStep_inv hB l best k
        have hd : (B.index l).length - ((B.index l).filter (B.isBlocked l)).length % 65536 = B0.deficit l := by
          unfold BlockList.deficit
          rw [he, isBlocked_of_index h0 hB he]
        dsimp only at g3
        rw [hd] at g3
        generalize BlockList.minStep l (B, best, k) = r at g1 g2 g3
        obtain ⟨B', b', k'⟩ := r
        refine ⟨B', b', k', rfl, g1, g2.trans he, ?_⟩
        by_cases hlt : 0 < B0.deficit l ∧ B0.deficit l < k
        · rw [if_pos hlt] at g3
          obtain ⟨rfl, rfl⟩ := Prod.mk.inj g3
          refine ⟨fun m hm => ?_, fun hm => ?_, by omega, fun _ => Nat.le_refl _⟩
          · cases hm; exact ⟨hlt.1, rfl⟩
          · simp at hm
        · rw [if_neg hlt] at g3
          obtain ⟨rfl, rfl⟩ := Prod.mk.inj g3
          exact ⟨h1, h2, Nat.le_refl _, fun hp => by omega⟩
      obtain ⟨B1, b1, k1, e1, i1, x1, f1, f2, f3, f4⟩ := step ⟨v, true⟩ B best k hB he h1 h2 h3
      obtain ⟨B2, b2, k2, e2, i2, x2, g1, g2, g3, g4⟩ := step ⟨v, false⟩ B1 b1 k1 i1 x1 f1 f2 (by omega)
      rw [e1, e2]
      obtain ⟨r1, r2, r3, r4, r5, r6⟩ := ih B2 b2 k2 i2 x2 g1 g2 (by omega)
      refine ⟨r1, r2, r3, r4, by omega, fun l hl hp => ?_⟩
      by_cases hv : l.var < v
      · exact r6 l hv hp
      · have : l.var = v := by omega
        have : l = ⟨v, true⟩ ∨ l = ⟨v, false⟩ := by
          cases l with | mk x s => cases s <;> simp_all
        rcases this with rfl | rfl
        · have := f4 hp; omega
        · have := g4 hp; omega

theorem minimal_inv {p : Problem} {B : BlockList} {cur : Nat → Prop} (h : BlockList.Inv p B cur) :
    BlockList.Inv p B.getMinimallyUnblockedLiteral.1 cur ∧ B.getMinimallyUnblockedLiteral.1.index = B.index ∧
    (∀ l, B.getMinimallyUnblockedLiteral.2 = some l → 0 < B.deficit l ∧
      ∀ l' : Lit, l'.var < p.nVars → 0 < B.deficit l' → B.deficit l ≤ B.deficit l') ∧
    (B.getMinimallyUnblockedLiteral.2 = none →
      ∀ l' : Lit, l'.var < p.nVars → 0 < B.deficit l' → 65535 ≤ B.deficit l') := by
  obtain ⟨r1, r2, r3, r4, r5, r6⟩ := minLoop_inv B h B.nVars B none 65535 h rfl (by simp) (by simp) (by simp)
  refine ⟨r1, r2, fun l hl => ?_, fun hn l hl hp => ?_⟩
  · obtain ⟨g1, g2⟩ := r3 l hl
    rw [g2]
    exact ⟨g1, fun l' hl' hp => r6 l' (by rw [h.nVars]; exact hl') hp⟩
  · have := r6 l (by rw [h.nVars]; exact hl) hp
    rw [r4 hn] at this
    exact this

theorem BlockListRun.inv {p : Problem} (hw : WfCNF p.nVars p.problem) {B : BlockList} {cur : List Nat}
    (h : BlockListRun p B cur) : BlockList.Inv p B (· ∈ cur) ∧ cur.Nodup := by
  induction h with
  | new => exact ⟨(BlockList.new_inv hw).congr (by simp), List.nodup_range⟩
  | count o _ ih => exact ⟨(ih.1.getNumBlocked o).1, ih.2⟩
  | isBlockedSet o _ ih => exact ⟨(ih.1.isBlockedSet o).1, ih.2⟩
  | minimal _ ih => exact ⟨(minimal_inv ih.1).1, ih.2⟩
  | remove cs _ ih =>
    exact ⟨(ih.1.remove cs).congr (by simp), ih.2.sublist List.filter_sublist⟩
  | strip o _ ih =>
    exact ⟨(ih.1.strip o).1.congr (by simp), ih.2.sublist List.filter_sublist⟩

theorem BlockList.Inv.blocked_iff {p : Problem} {B : BlockList} {cur : List Nat}
    (h : BlockList.Inv p B (· ∈ cur)) (o : Lit) :
    (∀ i ∈ B.index o, B.isBlocked o i = true) ↔ ∀ c ∈ remaining p cur, o ∈ c → BlockedBy (remaining p cur) o c := by
  have hc : ∀ i, B.cls i = p.problem.getD i [] := fun i => by unfold BlockList.cls; rw [h.problem]
  simp only [remaining, List.forall_mem_map, BlockedBy]
  constructor
  · intro hb i hi ho j hj hn
    have := List.all_eq_true.1 (hb i ((h.mem o i).2 ⟨hi, by rw [hc]; exact ho⟩)) j ((h.mem _ _).2 ⟨hj, by rw [hc]; exact hn⟩)
    rw [BlockList.isBlockedPair_iff, hc, hc] at this
    exact this
  · intro hb i hi
    rw [BlockList.isBlocked, List.all_eq_true]
    intro j hj
    obtain ⟨h1, h2⟩ := (h.mem _ _).1 hi
    obtain ⟨h3, h4⟩ := (h.mem _ _).1 hj
    rw [BlockList.isBlockedPair_iff, hc, hc]
    exact hb i h1 (by rw [← hc]; exact h2) j h3 (by rw [← hc]; exact h4)

theorem BlockList.Inv.occ {p : Problem} {B : BlockList} {cur : List Nat}
    (h : BlockList.Inv p B (· ∈ cur)) (hn : cur.Nodup) (o : Lit) :
    (B.index o).length = occurrences (remaining p cur) o := by
  have hc : ∀ i, B.cls i = p.problem.getD i [] := fun i => by unfold BlockList.cls; rw [h.problem]
  unfold occurrences remaining
  rw [List.filter_map, List.length_map]
  refine List.Perm.length_eq ((List.perm_ext_iff_of_nodup (h.nodup o) (hn.sublist List.filter_sublist)).2 fun i => ?_)
  rw [h.mem, List.mem_filter, hc]
  simp

/-- **C37.** After any sequence of operations, the test for `o` says yes exactly when every resolvent on `o` of
two clauses that are still in the index is a tautology and `o` occurs in fewer than 65536 of them. -/
theorem C37_isBlockedSet_partial (f : CNF) {B : BlockList} {cur : List Nat}
    (h : BlockListRun (Problem.empty.readClauses f) B cur) (o : Lit) :
    let F := remaining (Problem.empty.readClauses f) cur
    (B.isBlockedSet o).2 = true ↔ occurrences F o < 65536 ∧ ∀ c ∈ F, o ∈ c → BlockedBy F o c := by
  obtain ⟨hi, hn⟩ := h.inv (readClauses_wf f)
  dsimp only
  rw [(hi.isBlockedSet o).2.2, hi.blocked_iff, hi.occ hn]

/-- The clauses of a problem that was read have no complementary literals. -/
theorem remaining_wf (f : CNF) (cur : List Nat) :
    ∀ c ∈ remaining (Problem.empty.readClauses f) cur, (c.map Lit.var).Nodup := by
  intro c hc
  obtain ⟨i, _, rfl⟩ := List.mem_map.1 hc
  by_cases hi : i < (Problem.empty.readClauses f).problem.length
  · rw [BlockList.getD_lt hi]
    exact (readClauses_wf f _ (List.getElem_mem hi)).2
  · rw [BlockList.getD_ge (by omega)]
    simp

theorem holds_upd_ne {a : Assign} {v : Nat} {b : Bool} {l : Lit} (h : l.var ≠ v) (hl : l.holds a) :
    l.holds (upd a v b) := by
  unfold Lit.holds upd at *
  rw [if_neg h]
  exact hl

theorem holds_upd_self (a : Assign) (o : Lit) : o.holds (upd a o.var !o.sign) := by
  simp [Lit.holds, upd]

/-- Changing only the variable of `o`, any assignment can be made to satisfy all clauses with `o` or its
complement, if the clauses with `o` are blocked. -/
theorem blocked_leftTotal {F : CNF} (hF : ∀ c ∈ F, (c.map Lit.var).Nodup) {o : Lit}
    (hb : ∀ c ∈ F, o ∈ c → BlockedBy F o c) (a : Assign) :
    ∃ b, ∀ c ∈ F, o ∈ c ∨ o.neg ∈ c → SatClause (upd a o.var b) c := by
  by_cases h : ∃ c ∈ F, o ∈ c ∧ ¬ SatClause (upd a o.var o.sign) c
  · obtain ⟨c, hc, ho, hs⟩ := h
    refine ⟨!o.sign, fun d hd hor => ?_⟩
    by_cases hod : o ∈ d
    · exact ⟨o, hod, holds_upd_self a o⟩
    · obtain ⟨l, h1, h2, h3⟩ := hb c hc ho d hd (hor.resolve_left hod)
      have hv : l.var ≠ o.var := fun he => h2 (BlockList.eq_of_var_eq (hF c hc) h1 ho he)
      refine ⟨l.neg, h3, ?_⟩
      have : ¬ l.holds a := fun hl => hs ⟨l, h1, holds_upd_ne hv hl⟩
      exact holds_upd_ne (l := l.neg) hv (neg_holds_iff.2 this)
  · refine ⟨o.sign, fun d hd hor => ?_⟩
    by_cases hod : o ∈ d
    · exact Classical.not_not.1 fun hs => h ⟨d, hd, hod, hs⟩
    · refine ⟨o.neg, hor.resolve_left hod, ?_⟩
      have := holds_upd_self a o.neg
      simpa [Lit.neg] using this

/-- **C37 (what it is for).** If the test says yes, then removing the clauses with `o`, or all clauses with `o`
or its complement, preserves satisfiability: a model of the rest becomes a model of all clauses by changing
the value of the variable of `o` only. -/
theorem C37_removal (f : CNF) {B : BlockList} {cur : List Nat}
    (h : BlockListRun (Problem.empty.readClauses f) B cur) (o : Lit) (ht : (B.isBlockedSet o).2 = true) :
    let F := remaining (Problem.empty.readClauses f) cur
    (∀ a, Sat a (F.filter fun c => !c.contains o && !c.contains o.neg) → ∃ b, Sat (upd a o.var b) F) ∧
    (∀ a, Sat a (F.filter fun c => !c.contains o) → ∃ b, Sat (upd a o.var b) F) := by
  have hb := ((C37_isBlockedSet_partial f h o).1 ht).2
  have key : ∀ a, Sat a ((remaining (Problem.empty.readClauses f) cur).filter fun c => !c.contains o && !c.contains o.neg) →
      ∃ b, Sat (upd a o.var b) (remaining (Problem.empty.readClauses f) cur) := by
    intro a ha
    obtain ⟨b, hb⟩ := blocked_leftTotal (remaining_wf f cur) hb a
    refine ⟨b, fun c hc => ?_⟩
    by_cases h1 : o ∈ c ∨ o.neg ∈ c
    · exact hb c hc h1
    · have h2 : o ∉ c := fun h => h1 (.inl h)
      have h3 : o.neg ∉ c := fun h => h1 (.inr h)
      obtain ⟨l, hl, hh⟩ := ha c (List.mem_filter.2 ⟨hc, by simp [h2, h3]⟩)
      refine ⟨l, hl, holds_upd_ne (fun he => ?_) hh⟩
      have : l = o ∨ l = o.neg := by
        cases l with | mk x s => cases o with | mk y t => cases s <;> cases t <;> simp_all [Lit.neg]
      rcases this with rfl | rfl
      · exact h2 hl
      · exact h3 hl
  refine ⟨key, fun a ha => key a fun c hc => ha c ?_⟩
  rw [List.mem_filter] at hc ⊢
  refine ⟨hc.1, ?_⟩
  have := hc.2
  simp only [Bool.and_eq_true] at this
  exact this.1

theorem remaining_length (p : Problem) (cur : List Nat) : (remaining p cur).length = cur.length := by
  simp [remaining]

instance (F : CNF) (o : Lit) (c : Clause) : Decidable (BlockedBy F o c) := by unfold BlockedBy; infer_instance

/-- The number of clauses of `F` with the literal `l` that are not blocked on it. -/
def unblocked (F : CNF) (l : Lit) : Nat := (F.filter fun c => decide (l ∈ c ∧ ¬ BlockedBy F l c)).length

theorem BlockList.Inv.isBlocked_iff {p : Problem} {B : BlockList} {cur : List Nat}
    (h : BlockList.Inv p B (· ∈ cur)) (o : Lit) (i : Nat) :
    B.isBlocked o i = true ↔ BlockedBy (remaining p cur) o (p.problem.getD i []) := by
  have hc : ∀ i, B.cls i = p.problem.getD i [] := fun i => by unfold BlockList.cls; rw [h.problem]
  simp only [BlockList.isBlocked, List.all_eq_true, BlockedBy, remaining, List.forall_mem_map]
  constructor
  · intro hb j hj hn
    have := hb j ((h.mem _ _).2 ⟨hj, by rw [hc]; exact hn⟩)
    rw [BlockList.isBlockedPair_iff, hc, hc] at this
    exact this
  · intro hb j hj
    obtain ⟨h3, h4⟩ := (h.mem _ _).1 hj
    rw [BlockList.isBlockedPair_iff, hc, hc]
    exact hb j h3 (by rw [← hc]; exact h4)

theorem BlockList.Inv.deficit_eq {p : Problem} {B : BlockList} {cur : List Nat}
    (h : BlockList.Inv p B (· ∈ cur)) (hn : cur.Nodup) (o : Lit) (hl : (B.index o).length < 65536) :
    B.deficit o = unblocked (remaining p cur) o := by
  have hc : ∀ i, B.cls i = p.problem.getD i [] := fun i => by unfold BlockList.cls; rw [h.problem]
  have hle := List.length_filter_le (B.isBlocked o) (B.index o)
  have hsum : ∀ xs : List Nat, xs.length = (xs.filter (B.isBlocked o)).length +
      (xs.filter fun i => !B.isBlocked o i).length := by
    intro xs
    induction xs with
    | nil => rfl
    | cons x xs ih => cases hx : B.isBlocked o x <;> simp [hx] <;> omega
  have hsum := hsum (B.index o)
  unfold BlockList.deficit unblocked
  rw [Nat.mod_eq_of_lt (by omega)]
  have : ((B.index o).filter fun i => !B.isBlocked o i).length =
      ((remaining p cur).filter fun c => decide (o ∈ c ∧ ¬ BlockedBy (remaining p cur) o c)).length := by
    conv => rhs; arg 1; arg 2; rw [remaining]
    rw [List.filter_map, List.length_map]
    refine List.Perm.length_eq ((List.perm_ext_iff_of_nodup ((h.nodup o).sublist List.filter_sublist)
      (hn.sublist List.filter_sublist)).2 fun i => ?_)
    rw [List.mem_filter, h.mem, List.mem_filter, hc]
    simp only [Function.comp, decide_eq_true_eq, Bool.not_eq_true', and_assoc]
    refine and_congr_right fun _ => and_congr_right fun _ => ?_
    rw [← h.isBlocked_iff]
    simp
  omega

/-- **C37 (root selection).** With fewer than 65535 clauses, the literal that is picked has the least positive
number of clauses that are not blocked on it; if none is picked, all clauses are blocked on all their
literals. -/
theorem C37_minimal_partial (f : CNF) {B : BlockList} {cur : List Nat}
    (h : BlockListRun (Problem.empty.readClauses f) B cur) (hs : cur.length < 65535) :
    let F := remaining (Problem.empty.readClauses f) cur
    (∀ l, B.getMinimallyUnblockedLiteral.2 = some l →
      0 < unblocked F l ∧ ∀ l', 0 < unblocked F l' → unblocked F l ≤ unblocked F l') ∧
    (B.getMinimallyUnblockedLiteral.2 = none → ∀ l, ∀ c ∈ F, l ∈ c → BlockedBy F l c) := by
  obtain ⟨hi, hn⟩ := h.inv (readClauses_wf f)
  dsimp only
  have hlen : ∀ o, (B.index o).length < 65535 := by
    intro o
    rw [hi.occ hn o]
    have := List.length_filter_le (fun c => c.contains o) (remaining (Problem.empty.readClauses f) cur)
    rw [remaining_length] at this
    unfold occurrences
    omega
  have hd : ∀ l, B.deficit l = unblocked (remaining (Problem.empty.readClauses f) cur) l := fun l =>
    hi.deficit_eq hn l (by have := hlen l; omega)
  have hv : ∀ l, 0 < unblocked (remaining (Problem.empty.readClauses f) cur) l →
      l.var < (Problem.empty.readClauses f).nVars := by
    intro l hp
    obtain ⟨c, hc⟩ := List.exists_mem_of_length_pos hp
    rw [List.mem_filter, decide_eq_true_eq] at hc
    obtain ⟨i, _, rfl⟩ := List.mem_map.1 hc.1
    have ho := hc.2.1
    by_cases hi : i < (Problem.empty.readClauses f).problem.length
    · rw [BlockList.getD_lt hi] at ho
      exact (readClauses_wf f _ (List.getElem_mem hi)).1 l ho
    · rw [BlockList.getD_ge (by omega)] at ho
      simp at ho
  obtain ⟨_, _, h3, h4⟩ := minimal_inv hi
  simp only [hd] at h3 h4
  refine ⟨fun l hl => ⟨(h3 l hl).1, fun l' hp => (h3 l hl).2 l' (hv l' hp) hp⟩, fun hl l c hc hm => ?_⟩
  refine Classical.not_not.1 fun hb => ?_
  have hp : 0 < unblocked (remaining (Problem.empty.readClauses f) cur) l :=
    List.length_pos_of_mem (List.mem_filter.2 ⟨hc, by simp [hm, hb]⟩)
  have h5 := h4 hl l (hv l hp) hp
  rw [← hd] at h5
  have h6 : B.deficit l ≤ (B.index l).length := Nat.sub_le _ _
  have := hlen l
  omega

/-- **C37 (stripping).** The clauses handed out as roots are exactly the clauses in the index that contain the
literal and are not blocked on it, and they leave the index. -/
theorem C37_strip (f : CNF) {B : BlockList} {cur : List Nat}
    (h : BlockListRun (Problem.empty.readClauses f) B cur) (o : Lit) :
    let p := Problem.empty.readClauses f
    (∀ i, i ∈ (B.stripUnblockedClauses o).2 ↔
      i ∈ cur ∧ o ∈ p.problem.getD i [] ∧ ¬ BlockedBy (remaining p cur) o (p.problem.getD i [])) ∧
    (∀ l i, i ∈ (B.stripUnblockedClauses o).1.index l ↔
      i ∈ cur ∧ i ∉ (B.stripUnblockedClauses o).2 ∧ l ∈ p.problem.getD i []) := by
  obtain ⟨hi, hn⟩ := h.inv (readClauses_wf f)
  have hc : ∀ i, B.cls i = (Problem.empty.readClauses f).problem.getD i [] := fun i => by unfold BlockList.cls; rw [hi.problem]
  obtain ⟨h1, h2⟩ := hi.strip o
  refine ⟨fun i => ?_, fun l i => ?_⟩
  · rw [h2, hi.mem, hc, and_assoc, hi.isBlocked_iff]
  · rw [h1.mem]
    have : (B.stripUnblockedClauses o).1.cls i = (Problem.empty.readClauses f).problem.getD i [] := by
      unfold BlockList.cls; rw [h1.problem]
    rw [this, and_assoc]

/-- The 16-bit counter: 65536 clauses with a literal whose complement does not occur are all blocked, but the
test says no. -/
theorem C37_wraps : ∃ (f : CNF) (o : Lit),
    let p := Problem.empty.readClauses f
    let F := remaining p (List.range p.problem.length)
    (∀ c ∈ F, o ∈ c → BlockedBy F o c) ∧ ((BlockList.new p).isBlockedSet o).2 = false := by
  refine ⟨List.replicate 65536 [pos 0], pos 0, ?_⟩
  have hp : (Problem.empty.readClauses (List.replicate 65536 [pos 0])).problem = List.replicate 65536 [pos 0] := by
    rw [Problem.readClauses_eq]
    have h1 : (List.replicate 65536 [pos 0]).filter (fun c => !decide (Tautological c)) = List.replicate 65536 [pos 0] := by
      rw [List.filter_eq_self]
      intro c hc
      rw [(List.mem_replicate.1 hc).2]
      decide
    have h2 : normalClause [pos 0] = [pos 0] := by decide +kernel
    rw [h1, List.map_replicate, h2]
    rfl
  have hF : remaining (Problem.empty.readClauses (List.replicate 65536 [pos 0]))
      (List.range (Problem.empty.readClauses (List.replicate 65536 [pos 0])).problem.length) = List.replicate 65536 [pos 0] := by
    unfold remaining
    rw [hp, List.length_replicate, List.eq_replicate_iff]
    refine ⟨by rw [List.length_map, List.length_range], fun c hc => ?_⟩
    obtain ⟨i, hi, rfl⟩ := List.mem_map.1 hc
    rw [BlockList.getD_lt (by rw [List.length_replicate]; exact List.mem_range.1 hi), List.getElem_replicate]
  have key := C37_isBlockedSet_partial (List.replicate 65536 [pos 0]) .new (pos 0)
  dsimp only at key ⊢
  rw [hF] at key ⊢
  refine ⟨fun c _ _ d hd hn => ?_, ?_⟩
  · rw [(List.mem_replicate.1 hd).2] at hn
    simp [Lit.neg] at hn
  · cases hb : ((BlockList.new (Problem.empty.readClauses (List.replicate 65536 [pos 0]))).isBlockedSet (pos 0)).2 with
    | false => rfl
    | true =>
      have := (key.1 hb).1
      unfold occurrences at this
      rw [List.filter_replicate_of_pos (by decide), List.length_replicate] at this
      exact absurd this (by decide)

/-- The hypotheses are met: an xor gate with an additional clause. The output is not blocked; after the
additional clause is removed, it is. -/
example : let p := Problem.empty.readClauses ([pos 0, pos 1] :: xorGate (pos 0) (pos 1) (pos 2))
    BlockListRun p ((((BlockList.new p).isBlockedSet (pos 0)).1).remove [0]) [1, 2, 3, 4] ∧
    ((BlockList.new p).isBlockedSet (pos 0)).2 = false ∧
    (((((BlockList.new p).isBlockedSet (pos 0)).1).remove [0]).isBlockedSet (pos 0)).2 = true ∧
    (BlockList.new p).getMinimallyUnblockedLiteral.2 = some (neg 1) := by
  refine ⟨?_, by decide +kernel, by decide +kernel, by decide +kernel⟩
  exact (BlockListRun.remove [0] (.isBlockedSet (pos 0) .new) :)

end Candy
