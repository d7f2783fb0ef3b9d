import Verif.Model.Aig
import Verif.Props.GateAnalysis
import Verif.Proofs.Pruning

/-!
# Lemmas about the conversion to an and-inverter circuit
-/

namespace Candy

/-- The gate holds under an assignment. -/
def AndGate.Ok (v : Assign) (a : AndGate) : Prop := a.output.holds v ↔ ∀ l ∈ a.conj, l.holds v

theorem AndGate.Ok.congr {v v' : Assign} {a : AndGate} (ho : v' a.output.var = v a.output.var)
    (hc : ∀ l ∈ a.conj, v' l.var = v l.var) : a.Ok v' ↔ a.Ok v := by
  have h1 : a.output.holds v' ↔ a.output.holds v := by unfold Lit.holds; rw [ho]
  have h2 : (∀ l ∈ a.conj, l.holds v') ↔ ∀ l ∈ a.conj, l.holds v := by
    constructor
    · intro h l hl; have := h l hl; unfold Lit.holds at *; rwa [← hc l hl]
    · intro h l hl; have := h l hl; unfold Lit.holds at *; rwa [hc l hl]
  unfold AndGate.Ok
  rw [h1, h2]

/-- Gates that define the variables above `n` and up to `n'`, some of them. -/
structure AndsExt (n n' : Nat) (as : List AndGate) : Prop where
  le : n ≤ n'
  fresh : ∀ a ∈ as, n < a.output.var ∧ a.output.var ≤ n'
  nodup : (as.map fun a => a.output.var).Nodup
  used : ∀ a ∈ as, ∀ l ∈ a.conj, l.var ≤ n'
  ext : ∀ v : Assign, ∃ v' : Assign, (∀ x, x ≤ n → v' x = v x) ∧ ∀ a ∈ as, a.Ok v'

theorem AndsExt.nil (n : Nat) : AndsExt n n [] where
  le := Nat.le_refl _
  fresh := by simp
  nodup := by simp
  used := by simp
  ext v := ⟨v, fun _ _ => rfl, by simp⟩

theorem AndsExt.single {n : Nat} {b : Bool} {conj : List Lit} (h : ∀ l ∈ conj, l.var ≤ n) :
    AndsExt n (n + 1) [⟨⟨n + 1, b⟩, conj⟩] where
  le := Nat.le_succ _
  fresh := by simp
  nodup := by simp
  used := by simpa using fun l hl => Nat.le_succ_of_le (h l hl)
  ext v := by
    classical
    refine ⟨upd v (n + 1) (decide (∀ l ∈ conj, l.holds v) != b), fun x hx => upd_ne _ _ (by omega), ?_⟩
    intro a ha
    rw [List.mem_singleton] at ha
    subst ha
    have h2 : (∀ l ∈ conj, l.holds (upd v (n + 1) (decide (∀ l ∈ conj, l.holds v) != b))) ↔ ∀ l ∈ conj, l.holds v := by
      constructor
      · intro hh l hl; exact (holds_upd_other (by have := h l hl; omega)).1 (hh l hl)
      · intro hh l hl; exact (holds_upd_other (by have := h l hl; omega)).2 (hh l hl)
    unfold AndGate.Ok
    rw [h2]
    unfold Lit.holds
    simp only [upd_same]
    cases b <;> simp

theorem AndsExt.append {n n1 n2 : Nat} {as bs : List AndGate} (h1 : AndsExt n n1 as) (h2 : AndsExt n1 n2 bs) :
    AndsExt n n2 (as ++ bs) where
  le := Nat.le_trans h1.le h2.le
  fresh a ha := by
    have := h1.le; have := h2.le
    rcases List.mem_append.1 ha with ha | ha
    · have := h1.fresh a ha; omega
    · have := h2.fresh a ha; omega
  nodup := by
    rw [List.map_append, List.nodup_append]
    refine ⟨h1.nodup, h2.nodup, fun x hx y hy e => ?_⟩
    obtain ⟨a, ha, rfl⟩ := List.mem_map.1 hx
    obtain ⟨b, hb, rfl⟩ := List.mem_map.1 hy
    have := h1.fresh a ha
    have := h2.fresh b hb
    omega
  used a ha l hl := by
    rcases List.mem_append.1 ha with ha | ha
    · exact Nat.le_trans (h1.used a ha l hl) h2.le
    · exact h2.used a ha l hl
  ext v := by
    obtain ⟨v1, e1, o1⟩ := h1.ext v
    obtain ⟨v2, e2, o2⟩ := h2.ext v1
    refine ⟨v2, fun x hx => (e2 x (Nat.le_trans hx h1.le)).trans (e1 x hx), fun a ha => ?_⟩
    rcases List.mem_append.1 ha with ha | ha
    · exact (AndGate.Ok.congr (e2 _ (h1.fresh a ha).2) fun l hl => e2 _ (h1.used a ha l hl)).2 (o1 a ha)
    · exact o2 a ha

/-! ### The gates for the clauses of a gate -/

/-- The gates and the conjunction that `andsOfClauses` creates when the counter is `n`. -/
def newAnds : Nat → List Clause → List AndGate × List Lit × Nat
  | n, [] => ([], [], n)
  | n, c :: cs =>
    match c with
    | [l] => ((newAnds n cs).1, l :: (newAnds n cs).2.1, (newAnds n cs).2.2)
    | c => (⟨⟨n + 1, true⟩, c.map Lit.neg⟩ :: (newAnds (n + 1) cs).1, ⟨n + 1, false⟩ :: (newAnds (n + 1) cs).2.1,
        (newAnds (n + 1) cs).2.2)

theorem newAnds_single (n : Nat) (l : Lit) (cs : List Clause) :
    newAnds n ([l] :: cs) = ((newAnds n cs).1, l :: (newAnds n cs).2.1, (newAnds n cs).2.2) := rfl

theorem newAnds_other (n : Nat) {c : Clause} (h : ∀ l, c ≠ [l]) (cs : List Clause) :
    newAnds n (c :: cs) = (⟨⟨n + 1, true⟩, c.map Lit.neg⟩ :: (newAnds (n + 1) cs).1,
      ⟨n + 1, false⟩ :: (newAnds (n + 1) cs).2.1, (newAnds (n + 1) cs).2.2) := by
  match c with
  | [] => rfl
  | [l] => exact (h l rfl).elim
  | _ :: _ :: _ => rfl

theorem newAnds_ext : ∀ {cs : List Clause} {n : Nat}, (∀ c ∈ cs, ∀ l ∈ c, l.var ≤ n) →
    AndsExt n (newAnds n cs).2.2 (newAnds n cs).1 ∧ ∀ l ∈ (newAnds n cs).2.1, l.var ≤ (newAnds n cs).2.2 := by
  intro cs
  induction cs with
  | nil => intro n _; exact ⟨AndsExt.nil n, by simp [newAnds]⟩
  | cons c cs ih =>
    intro n h
    have hcs : ∀ c ∈ cs, ∀ l ∈ c, l.var ≤ n := fun c hc => h c (List.mem_cons_of_mem _ hc)
    by_cases hx : ∃ l, c = [l]
    · obtain ⟨l, rfl⟩ := hx
      rw [newAnds_single]
      obtain ⟨h1, h2⟩ := ih hcs
      refine ⟨h1, fun x hx => ?_⟩
      rcases List.mem_cons.1 hx with rfl | hx
      · exact Nat.le_trans (h [x] List.mem_cons_self x (by simp)) h1.le
      · exact h2 x hx
    · rw [newAnds_other n (fun l e => hx ⟨l, e⟩)]
      obtain ⟨h1, h2⟩ := ih (n := n + 1) fun c hc l hl => Nat.le_succ_of_le (hcs c hc l hl)
      refine ⟨(AndsExt.single fun l hl => ?_).append h1, fun x hx => ?_⟩
      · obtain ⟨m, hm, rfl⟩ := List.mem_map.1 hl
        exact h c (by simp) m hm
      · rcases List.mem_cons.1 hx with rfl | hx
        · exact h1.le
        · exact h2 x hx

theorem newAnds_sound {v : Assign} : ∀ {cs : List Clause} {n : Nat}, (∀ a ∈ (newAnds n cs).1, a.Ok v) →
    ((∀ l ∈ (newAnds n cs).2.1, l.holds v) ↔ ∀ c ∈ cs, SatClause v c) := by
  intro cs
  induction cs with
  | nil => intro n _; simp [newAnds]
  | cons c cs ih =>
    intro n h
    by_cases hx : ∃ l, c = [l]
    · obtain ⟨l, rfl⟩ := hx
      rw [newAnds_single] at h ⊢
      simp only [List.forall_mem_cons]
      rw [ih h]
      simp [SatClause]
    · rw [newAnds_other n (fun l e => hx ⟨l, e⟩)] at h ⊢
      simp only [List.forall_mem_cons] at h ⊢
      rw [ih h.2]
      have h1 := h.1
      unfold AndGate.Ok at h1
      simp only [List.mem_map, forall_exists_index, and_imp, forall_apply_eq_imp_iff₂] at h1
      have : (Lit.holds v ⟨n + 1, false⟩) ↔ SatClause v c := by
        have e : (⟨n + 1, true⟩ : Lit) = (⟨n + 1, false⟩ : Lit).neg := rfl
        rw [e, neg_holds_iff] at h1
        constructor
        · intro hh
          refine Classical.byContradiction fun hn => (h1.2 fun l hl => neg_holds_iff.2 fun hl' => hn ⟨l, hl, hl'⟩) hh
        · rintro ⟨l, hl, hl'⟩
          refine Classical.byContradiction fun hn => neg_holds_iff.1 (h1.1 hn l hl) hl'
      rw [this]

/-- Literals used: those of the clauses, perhaps negated, and the outputs. -/
theorem newAnds_used : ∀ {cs : List Clause} {n : Nat},
    (∀ a ∈ (newAnds n cs).1, ∀ l ∈ a.conj, ∃ c ∈ cs, l.neg ∈ c) ∧
    (∀ l ∈ (newAnds n cs).2.1, (∃ c ∈ cs, l ∈ c) ∨ ∃ a ∈ (newAnds n cs).1, a.output.var = l.var) ∧
    ((∀ c ∈ cs, c ≠ []) → ∀ a ∈ (newAnds n cs).1, a.conj ≠ []) ∧
    ((newAnds n cs).2.1.length = cs.length) := by
  intro cs
  induction cs with
  | nil => intro n; simp [newAnds]
  | cons c cs ih =>
    intro n
    by_cases hx : ∃ l, c = [l]
    · obtain ⟨l, rfl⟩ := hx
      rw [newAnds_single]
      obtain ⟨h1, h2, h3, h4⟩ := ih (n := n)
      refine ⟨fun a ha x hx => ?_, fun x hx => ?_, fun hne a ha => ?_, by simp [h4]⟩
      · obtain ⟨c, hc, hx⟩ := h1 a ha x hx; exact ⟨c, List.mem_cons_of_mem _ hc, hx⟩
      · rcases List.mem_cons.1 hx with rfl | hx
        · exact .inl ⟨_, List.mem_cons_self, by simp⟩
        · rcases h2 x hx with ⟨c, hc, hx⟩ | h
          · exact .inl ⟨c, List.mem_cons_of_mem _ hc, hx⟩
          · exact .inr h
      · exact h3 (fun c hc => hne c (List.mem_cons_of_mem _ hc)) a ha
    · rw [newAnds_other n (fun l e => hx ⟨l, e⟩)]
      obtain ⟨h1, h2, h3, h4⟩ := ih (n := n + 1)
      refine ⟨fun a ha x hx => ?_, fun x hx => ?_, fun hne a ha => ?_, by simp [h4]⟩
      · rcases List.mem_cons.1 ha with rfl | ha
        · obtain ⟨m, hm, rfl⟩ := List.mem_map.1 hx
          exact ⟨c, List.mem_cons_self, by rwa [Lit.neg_neg]⟩
        · obtain ⟨c, hc, hx⟩ := h1 a ha x hx; exact ⟨c, List.mem_cons_of_mem _ hc, hx⟩
      · rcases List.mem_cons.1 hx with rfl | hx
        · exact .inr ⟨_, List.mem_cons_self, rfl⟩
        · rcases h2 x hx with ⟨c, hc, hx⟩ | ⟨a, ha, hx⟩
          · exact .inl ⟨c, List.mem_cons_of_mem _ hc, hx⟩
          · exact .inr ⟨a, List.mem_cons_of_mem _ ha, hx⟩
      · rcases List.mem_cons.1 ha with rfl | ha
        · have := hne c (by simp)
          simpa using this
        · exact h3 (fun c hc => hne c (List.mem_cons_of_mem _ hc)) a ha

/-! ### Registering literals -/

/-- What registering literals changes. -/
structure Registered (I : AigInput) (s t : Aig) (ls : List Lit) : Prop where
  varCount : t.varCount = s.varCount
  visited : t.visited = s.visited
  pands : t.pands = s.pands
  literals : ∀ x, x ∈ t.literals ↔ x ∈ s.literals ∨ x ∈ ls ∧ (I.gates x.var).isSome = true
  inputs : ∀ v, v ∈ t.inputs ↔ v ∈ s.inputs ∨ ∃ x ∈ ls, x.var = v ∧ (I.gates v).isSome = false
  sorted : s.inputs.Pairwise (· < ·) → t.inputs.Pairwise (· < ·)
  length : t.literals.length ≤ s.literals.length + ls.length

theorem mem_insertVar {v w : Nat} : ∀ {ws : List Nat}, w ∈ insertVar v ws ↔ w = v ∨ w ∈ ws := by
  intro ws
  induction ws with
  | nil => simp [insertVar]
  | cons x xs ih =>
    unfold insertVar
    split
    · simp
    · split
      · rename_i h1 h2; subst h2; simp
      · simp only [List.mem_cons, ih]
        constructor
        · rintro (h | h | h) <;> simp [h]
        · rintro (h | h | h) <;> simp [h]

theorem insertVar_sorted {v : Nat} : ∀ {ws : List Nat}, ws.Pairwise (· < ·) → (insertVar v ws).Pairwise (· < ·) := by
  intro ws
  induction ws with
  | nil => intro _; simp [insertVar]
  | cons x xs ih =>
    intro h
    have h' := List.pairwise_cons.1 h
    unfold insertVar
    split
    · rename_i hlt
      refine List.pairwise_cons.2 ⟨fun y hy => ?_, h⟩
      rcases List.mem_cons.1 hy with rfl | hy
      · exact hlt
      · exact Nat.lt_trans hlt (h'.1 y hy)
    · split
      · exact h
      · refine List.pairwise_cons.2 ⟨fun y hy => ?_, ih h'.2⟩
        rcases mem_insertVar.1 hy with rfl | hy
        · omega
        · exact h'.1 y hy

theorem Registered.nil (I : AigInput) (s : Aig) : Registered I s s [] :=
  ⟨rfl, rfl, rfl, by simp, by simp, id, by simp⟩

theorem Registered.one (I : AigInput) (s : Aig) (l : Lit) : Registered I s (s.registerLiteral I l) [l] := by
  unfold Aig.registerLiteral
  by_cases h : (I.gates l.var).isSome = true
  · rw [if_pos h]
    refine ⟨rfl, rfl, rfl, fun x => ?_, fun v => ?_, id, by simp⟩
    · simp only [List.mem_cons]
      constructor
      · rintro (rfl | hx)
        · exact .inr ⟨.inl rfl, h⟩
        · exact .inl hx
      · rintro (hx | ⟨rfl | hx, _⟩)
        · exact .inr hx
        · exact .inl rfl
        · simp at hx
    · simp only [List.mem_singleton, exists_eq_left]
      constructor
      · exact .inl
      · rintro (hx | ⟨rfl, hx⟩)
        · exact hx
        · rw [h] at hx; simp at hx
  · rw [if_neg h]
    refine ⟨rfl, rfl, rfl, fun x => ?_, fun v => ?_, insertVar_sorted, by simp⟩
    · simp only [List.mem_singleton]
      constructor
      · exact .inl
      · rintro (hx | ⟨rfl, hx⟩)
        · exact hx
        · exact (h hx).elim
    · simp only [List.mem_singleton, exists_eq_left, mem_insertVar]
      constructor
      · rintro (rfl | hx)
        · exact .inr ⟨rfl, by simpa using h⟩
        · exact .inl hx
      · rintro (hx | ⟨rfl, _⟩)
        · exact .inr hx
        · exact .inl rfl

theorem Registered.trans {I : AigInput} {s t u : Aig} {ls ms : List Lit} (h1 : Registered I s t ls) (h2 : Registered I t u ms) :
    Registered I s u (ls ++ ms) where
  varCount := h2.varCount.trans h1.varCount
  visited := h2.visited.trans h1.visited
  pands := h2.pands.trans h1.pands
  literals x := by
    rw [h2.literals, h1.literals, List.mem_append]
    constructor
    · rintro ((h | ⟨h, h'⟩) | ⟨h, h'⟩)
      · exact .inl h
      · exact .inr ⟨.inl h, h'⟩
      · exact .inr ⟨.inr h, h'⟩
    · rintro (h | ⟨h | h, h'⟩)
      · exact .inl (.inl h)
      · exact .inl (.inr ⟨h, h'⟩)
      · exact .inr ⟨h, h'⟩
  inputs v := by
    rw [h2.inputs, h1.inputs]
    constructor
    · rintro ((h | ⟨x, h, h'⟩) | ⟨x, h, h'⟩)
      · exact .inl h
      · exact .inr ⟨x, List.mem_append_left _ h, h'⟩
      · exact .inr ⟨x, List.mem_append_right _ h, h'⟩
    · rintro (h | ⟨x, h, h'⟩)
      · exact .inl (.inl h)
      · rcases List.mem_append.1 h with h | h
        · exact .inl (.inr ⟨x, h, h'⟩)
        · exact .inr ⟨x, h, h'⟩
  sorted h := h2.sorted (h1.sorted h)
  length := by
    have := h1.length; have := h2.length
    rw [List.length_append]; omega

theorem Registered.fold (I : AigInput) : ∀ (ls : List Lit) (s : Aig), Registered I s (ls.foldl (Aig.registerLiteral I) s) ls := by
  intro ls
  induction ls with
  | nil => intro s; exact Registered.nil I s
  | cons l ls ih => intro s; exact (Registered.one I s l).trans (ih _)

/-- The state after `andsOfClauses` differs from one with the literals registered by the counter and the gates. -/
theorem andsOfClauses_spec (I : AigInput) : ∀ (cs : List Clause) (s : Aig),
    (Aig.andsOfClauses I cs s).2 = (newAnds s.varCount cs).2.1 ∧
    ∃ t, Registered I s t cs.flatten ∧ (Aig.andsOfClauses I cs s).1 =
      { t with varCount := (newAnds s.varCount cs).2.2, pands := s.pands ++ (newAnds s.varCount cs).1 } := by
  intro cs
  induction cs with
  | nil =>
    intro s
    refine ⟨rfl, s, Registered.nil I s, ?_⟩
    simp [newAnds, Aig.andsOfClauses]
  | cons c cs ih =>
    intro s
    by_cases hx : ∃ l, c = [l]
    · obtain ⟨l, rfl⟩ := hx
      have hr := Registered.one I s l
      obtain ⟨h1, t, h2, h3⟩ := ih (s.registerLiteral I l)
      rw [newAnds_single]
      unfold Aig.andsOfClauses
      simp only [Aig.andOfClause]
      rw [hr.varCount] at h1 h3
      rw [hr.pands] at h3
      exact ⟨by rw [h1], t, by simpa using hr.trans h2, h3⟩
    · have he : Aig.andOfClause I s c =
          ({ c.foldl (Aig.registerLiteral I) { s with varCount := s.varCount + 1 } with
              pands := (c.foldl (Aig.registerLiteral I) { s with varCount := s.varCount + 1 }).pands ++
                [⟨(⟨s.varCount + 1, false⟩ : Lit).neg, c.map Lit.neg⟩] }, ⟨s.varCount + 1, false⟩) := by
        match c, hx with
        | [], _ => rfl
        | [l], hx => exact (hx ⟨l, rfl⟩).elim
        | _ :: _ :: _, _ => rfl
      have hr := Registered.fold I c { s with varCount := s.varCount + 1 }
      generalize c.foldl (Aig.registerLiteral I) { s with varCount := s.varCount + 1 } = u at hr he
      rw [newAnds_other _ (fun l e => hx ⟨l, e⟩)]
      unfold Aig.andsOfClauses
      simp only [he]
      obtain ⟨h1, t, h2, h3⟩ := ih { u with pands := u.pands ++ [⟨(⟨s.varCount + 1, false⟩ : Lit).neg, c.map Lit.neg⟩] }
      dsimp only at h1 h3
      have ev : u.varCount = s.varCount + 1 := hr.varCount
      have ep : u.pands = s.pands := hr.pands
      refine ⟨by rw [h1, ev], { t with varCount := s.varCount, pands := s.pands }, ?_, ?_⟩
      · constructor
        · rfl
        · exact h2.visited.trans hr.visited
        · rfl
        · intro x
          rw [List.flatten_cons, List.mem_append]
          change x ∈ t.literals ↔ _
          rw [h2.literals]
          change x ∈ u.literals ∨ _ ↔ _
          rw [hr.literals]
          change (x ∈ s.literals ∨ _) ∨ _ ↔ _
          constructor
          · rintro ((h | ⟨h, h'⟩) | ⟨h, h'⟩)
            · exact .inl h
            · exact .inr ⟨.inl h, h'⟩
            · exact .inr ⟨.inr h, h'⟩
          · rintro (h | ⟨h | h, h'⟩)
            · exact .inl (.inl h)
            · exact .inl (.inr ⟨h, h'⟩)
            · exact .inr ⟨h, h'⟩
        · intro v
          rw [List.flatten_cons]
          change v ∈ t.inputs ↔ _
          rw [h2.inputs]
          change v ∈ u.inputs ∨ _ ↔ _
          rw [hr.inputs]
          change (v ∈ s.inputs ∨ _) ∨ _ ↔ _
          constructor
          · rintro ((h | ⟨x, h, h'⟩) | ⟨x, h, h'⟩)
            · exact .inl h
            · exact .inr ⟨x, List.mem_append_left _ h, h'⟩
            · exact .inr ⟨x, List.mem_append_right _ h, h'⟩
          · rintro (h | ⟨x, h, h'⟩)
            · exact .inl (.inl h)
            · rcases List.mem_append.1 h with h | h
              · exact .inl (.inr ⟨x, h, h'⟩)
              · exact .inr ⟨x, h, h'⟩
        · intro h; exact h2.sorted (hr.sorted h)
        · have e1 := hr.length
          have e2 := h2.length
          rw [List.flatten_cons, List.length_append]
          change t.literals.length ≤ _
          change t.literals.length ≤ u.literals.length + _ at e2
          change u.literals.length ≤ s.literals.length + _ at e1
          omega
      · rw [h3, ev, ep]
        simp [Lit.neg]


/-! ### Walking over the gates -/

/-- Clauses without the output. -/
def stripped (o : Lit) (cs : CNF) : CNF := cs.map fun c => c.filter fun l => l != o.neg

/-- Gates as the analysis leaves them, with a root; `order` lists the outputs, inputs first. -/
structure AigInput.Wf (I : AigInput) (order : List Nat) : Prop where
  nodup : order.Nodup
  defd : ∀ v, (I.gates v).isSome = true ↔ v ∈ order
  out : ∀ {v g}, I.gates v = some g → g.1.var = v
  le : ∀ v ∈ order, v ≤ I.nVars
  small : ∀ {v g}, I.gates v = some g → ∀ c ∈ g.2, ∀ l ∈ c, l.var ≤ I.nVars
  distinct : ∀ {v g}, I.gates v = some g → ∀ c ∈ g.2, (c.map Lit.var).Nodup
  fwd : ∀ {v g}, I.gates v = some g → ∀ c ∈ g.2, g.1.neg ∈ c
  nonempty : ∀ {v g}, I.gates v = some g → g.2 ≠ []
  two : ∀ {v g}, I.gates v = some g → ∀ c ∈ g.2, 2 ≤ c.length
  later : order.Pairwise fun w v => ∀ g, I.gates w = some g → ∀ c ∈ g.2, ∀ l ∈ c, l.var ≠ v
  root : ∃ g, I.gates I.root.var = some g ∧ g.1 = I.root

theorem stripOutputs_eq {l : Lit} : ∀ {cs rs : List Clause}, Aig.stripOutputs l cs = some rs →
    rs = stripped l cs ∧ ∀ c ∈ cs, (c.filter fun x => x != l.neg).length + 1 = c.length := by
  intro cs
  induction cs with
  | nil => intro rs h; simp only [Aig.stripOutputs, Option.some.injEq] at h; subst h; simp [stripped]
  | cons c cs ih =>
    intro rs h
    unfold Aig.stripOutputs at h
    cases h1 : Aig.stripOutput l c with
    | none => rw [h1] at h; simp at h
    | some r =>
      cases h2 : Aig.stripOutputs l cs with
      | none => rw [h1, h2] at h; simp at h
      | some rs' =>
        rw [h1, h2] at h
        simp only [Option.some.injEq] at h
        subst h
        obtain ⟨e, h3⟩ := ih h2
        unfold Aig.stripOutput at h1
        dsimp only at h1
        by_cases hl : (c.filter fun x => x != l.neg).length + 1 = c.length
        · rw [if_pos hl] at h1
          cases h1
          refine ⟨by rw [e]; rfl, fun d hd => ?_⟩
          rcases List.mem_cons.1 hd with rfl | hd
          · exact hl
          · exact h3 d hd
        · rw [if_neg hl] at h1; simp at h1

theorem filter_bne_length {c : Clause} (hn : (c.map Lit.var).Nodup) {o : Lit} (ho : o ∈ c) :
    (c.filter fun x => x != o).length + 1 = c.length := by
  induction c with
  | nil => simp at ho
  | cons x xs ih =>
    rw [List.map_cons, List.nodup_cons] at hn
    by_cases hx : x = o
    · subst hx
      rw [List.filter_cons_of_neg (by simp)]
      have : xs.filter (fun y => y != x) = xs := List.filter_eq_self.2 fun y hy => by
        rw [bne_iff_ne]
        intro e
        subst e
        exact hn.1 (List.mem_map.2 ⟨y, hy, rfl⟩)
      rw [this]; rfl
    · rw [List.filter_cons_of_pos (by simpa using hx)]
      rcases List.mem_cons.1 ho with e | ho
      · exact (hx e.symm).elim
      · simp only [List.length_cons]
        rw [ih hn.2 ho]

/-- The outputs can be removed without undefined behaviour only if the gate is entered through its output. -/
theorem AigInput.Wf.strip {I : AigInput} {order : List Nat} (W : I.Wf order) {l : Lit} {g : Lit × CNF}
    (hg : I.gates l.var = some g) {cs : List Clause} (h : Aig.stripOutputs l g.2 = some cs) : l = g.1 ∧ cs = stripped l g.2 := by
  obtain ⟨e, hlen⟩ := stripOutputs_eq h
  refine ⟨?_, e⟩
  have hv : l.var = g.1.var := (W.out hg).symm
  rcases var_eq_cases hv with h1 | h1
  · exact h1
  · exfalso
    obtain ⟨c, hc⟩ := List.exists_mem_of_ne_nil _ (W.nonempty hg)
    have h2 := hlen c hc
    have hno : l.neg ∉ c := by
      rw [h1, Lit.neg_neg]
      intro hx
      exact BlockList.not_both (W.distinct hg c hc) hx (W.fwd hg c hc)
    rw [List.filter_eq_self.2 fun y hy => by rw [bne_iff_ne]; intro e; exact hno (e ▸ hy)] at h2
    omega

theorem AigInput.Wf.strip_some {I : AigInput} {order : List Nat} (W : I.Wf order) {v : Nat} {g : Lit × CNF}
    (hg : I.gates v = some g) : Aig.stripOutputs g.1 g.2 = some (stripped g.1 g.2) := by
  have : ∀ cs : List Clause, (∀ c ∈ cs, (c.map Lit.var).Nodup ∧ g.1.neg ∈ c) → Aig.stripOutputs g.1 cs = some (stripped g.1 cs) := by
    intro cs
    induction cs with
    | nil => intro _; rfl
    | cons c cs ih =>
      intro h
      unfold Aig.stripOutputs
      rw [ih fun d hd => h d (List.mem_cons_of_mem _ hd)]
      have h1 := h c List.mem_cons_self
      unfold Aig.stripOutput
      dsimp only
      rw [if_pos (filter_bne_length h1.1 h1.2)]
      rfl
  exact this g.2 fun c hc => ⟨W.distinct hg c hc, W.fwd hg c hc⟩

/-- The literal has been taken notice of. -/
def Aig.Known (I : AigInput) (s : Aig) (x : Lit) : Prop :=
  ((I.gates x.var).isSome = true → s.visited x = true ∨ x ∈ s.literals) ∧
  ((I.gates x.var).isSome = false → x.var ∈ s.inputs)

theorem Aig.Known.mono {I : AigInput} {s t : Aig} {x : Lit} (h : s.Known I x) (hv : s.visited x = true → t.visited x = true)
    (hl : x ∈ s.literals → t.visited x = true ∨ x ∈ t.literals) (hi : ∀ v ∈ s.inputs, v ∈ t.inputs) : t.Known I x :=
  ⟨fun hx => (h.1 hx).elim (fun h => .inl (hv h)) hl, fun hx => hi _ (h.2 hx)⟩

/-- What `createAnds` keeps. -/
structure AigInv (I : AigInput) (s : Aig) (T hs : List AndGate) : Prop where
  perm : s.pands.Perm (T ++ hs)
  ext : AndsExt (I.nVars + 1) s.varCount T
  heads : ∀ h ∈ hs, ∃ g, I.gates h.output.var = some g ∧ g.1 = h.output ∧ s.visited h.output = true ∧
    (∀ l ∈ h.conj, l.var ≤ s.varCount) ∧
    ∀ v, (∀ a ∈ T, a.Ok v) → ((∀ l ∈ h.conj, l.holds v) ↔ ∀ c ∈ stripped g.1 g.2, SatClause v c)
  complete : ∀ l, s.visited l = true → ∀ g, I.gates l.var = some g → l = g.1 ∧ ∃ h ∈ hs, h.output = l
  headsNodup : (hs.map fun h => h.output.var).Nodup
  closed : ∀ l, s.visited l = true → ∀ g, I.gates l.var = some g → ∀ c ∈ stripped g.1 g.2, ∀ x ∈ c, s.Known I x
  stack : ∀ x ∈ s.literals, (I.gates x.var).isSome = true
  inputs : ∀ v ∈ s.inputs, (I.gates v).isSome = false ∧ ∃ w g, I.gates w = some g ∧ ∃ c ∈ g.2, ∃ x ∈ c, x.var = v
  sorted : s.inputs.Pairwise (· < ·)
  root : s.visited I.root = true ∨ I.root ∈ s.literals
  used : ∀ a ∈ T ++ hs, a.conj ≠ [] ∧ ∀ l ∈ a.conj, s.Known I l ∨ s.Known I l.neg ∨ ∃ b ∈ T, b.output.var = l.var

theorem AigInv.new {I : AigInput} {order : List Nat} (W : I.Wf order) : AigInv I (Aig.new I) [] [] where
  perm := List.Perm.nil
  ext := AndsExt.nil _
  heads := by simp
  complete := by simp [Aig.new]
  headsNodup := by simp
  closed := by simp [Aig.new]
  stack := by
    obtain ⟨g, hg, _⟩ := W.root
    simp [Aig.new, hg]
  inputs := by simp [Aig.new]
  sorted := by simp [Aig.new]
  root := .inr (by simp [Aig.new])
  used := by simp

theorem AigInv.pop {I : AigInput} {s : Aig} {T hs : List AndGate} (h : AigInv I s T hs) {l : Lit} {ls : List Lit}
    (hl : s.literals = l :: ls) (hv : s.visited l = true) : AigInv I { s with literals := ls } T hs where
  perm := h.perm
  ext := h.ext
  heads := h.heads
  complete := h.complete
  headsNodup := h.headsNodup
  closed m hm g hg c hc x hx := by
    refine (h.closed m hm g hg c hc x hx).mono id (fun hx => ?_) fun _ => id
    rw [hl] at hx
    rcases List.mem_cons.1 hx with rfl | hx
    · exact .inl hv
    · exact .inr hx
  stack x hx := h.stack x (by rw [hl]; exact List.mem_cons_of_mem _ hx)
  inputs := h.inputs
  sorted := h.sorted
  root := by
    rcases h.root with hx | hx
    · exact .inl hx
    · rw [hl] at hx
      rcases List.mem_cons.1 hx with e | hx
      · exact .inl (by rw [e]; exact hv)
      · exact .inr hx
  used a ha := by
    refine ⟨(h.used a ha).1, fun x hx => ?_⟩
    have hm : ∀ y, s.Known I y → Aig.Known I { s with literals := ls } y := fun y hy => by
      refine hy.mono id (fun hx => ?_) fun _ => id
      rw [hl] at hx
      rcases List.mem_cons.1 hx with rfl | hx
      · exact .inl hv
      · exact .inr hx
    rcases (h.used a ha).2 x hx with h1 | h1 | h1
    · exact .inl (hm _ h1)
    · exact .inr (.inl (hm _ h1))
    · exact .inr (.inr h1)

theorem AigInv.visit {I : AigInput} {order : List Nat} (W : I.Wf order) {s : Aig} {T hs : List AndGate} (h : AigInv I s T hs)
    {l : Lit} {ls : List Lit} (hl : s.literals = l :: ls) (hv : s.visited l = false) {g : Lit × CNF} (hg : I.gates l.var = some g)
    (hlg : l = g.1) :
    ∃ T' hs', AigInv I (Aig.createAndFromClauses I (stripped l g.2) l { s with literals := ls, visited := upd s.visited l true })
      T' hs' ∧ ∃ t, Registered I { s with literals := ls, visited := upd s.visited l true } t (stripped l g.2).flatten ∧
        (Aig.createAndFromClauses I (stripped l g.2) l { s with literals := ls, visited := upd s.visited l true }).literals = t.literals ∧
        (Aig.createAndFromClauses I (stripped l g.2) l { s with literals := ls, visited := upd s.visited l true }).visited = upd s.visited l true := by
  obtain ⟨e1, t, hr, e2⟩ := andsOfClauses_spec I (stripped l g.2) { s with literals := ls, visited := upd s.visited l true }
  have hle := h.ext.le
  have hsub : ∀ c ∈ stripped l g.2, ∃ d ∈ g.2, ∀ x ∈ c, x ∈ d ∧ x ≠ l.neg := by
    intro c hc
    obtain ⟨d, hd, rfl⟩ := List.mem_map.1 hc
    exact ⟨d, hd, fun x hx => ⟨(List.mem_filter.1 hx).1, by simpa using (List.mem_filter.1 hx).2⟩⟩
  have hsmall : ∀ c ∈ stripped l g.2, ∀ x ∈ c, x.var ≤ s.varCount := by
    intro c hc x hx
    obtain ⟨d, hd, h1⟩ := hsub c hc
    have := W.small hg d hd x (h1 x hx).1
    omega
  dsimp only at e1 e2
  obtain ⟨hext, hconj⟩ := newAnds_ext hsmall
  obtain ⟨hu1, hu2, hu3, hu4⟩ := newAnds_used (cs := stripped l g.2) (n := s.varCount)
  have hsd := fun v => newAnds_sound (v := v) (cs := stripped l g.2) (n := s.varCount)
  have hst : Aig.createAndFromClauses I (stripped l g.2) l { s with literals := ls, visited := upd s.visited l true } =
      { t with varCount := (newAnds s.varCount (stripped l g.2)).2.2,
               pands := s.pands ++ (newAnds s.varCount (stripped l g.2)).1 ++ [⟨l, (newAnds s.varCount (stripped l g.2)).2.1⟩] } := by
    unfold Aig.createAndFromClauses
    dsimp only
    rw [e1, e2]
  rw [hst]
  generalize hN : newAnds s.varCount (stripped l g.2) = N at *
  obtain ⟨as, conj, n'⟩ := N
  dsimp only at hext hconj hu1 hu2 hu3 hu4 hsd hst ⊢
  have htv : t.visited = upd s.visited l true := hr.visited
  have hkn : ∀ y, s.Known I y → Aig.Known I { t with varCount := n', pands := s.pands ++ as ++ [⟨l, conj⟩] } y := fun y hy => by
    refine hy.mono (fun hx => ?_) (fun hx => ?_) fun v hx => ?_
    · show t.visited y = true
      rw [htv]; unfold upd; split
      · rfl
      · exact hx
    · show t.visited y = true ∨ y ∈ t.literals
      rw [hl] at hx
      rcases List.mem_cons.1 hx with rfl | hx
      · left; rw [htv]; simp [upd]
      · right; exact (hr.literals y).2 (.inl hx)
    · exact (hr.inputs v).2 (.inl hx)
  have hnew : ∀ c ∈ stripped l g.2, ∀ x ∈ c, Aig.Known I { t with varCount := n', pands := s.pands ++ as ++ [⟨l, conj⟩] } x := by
    intro c hc x hx
    have hm : x ∈ (stripped l g.2).flatten := List.mem_flatten.2 ⟨c, hc, hx⟩
    exact ⟨fun hy => .inr ((hr.literals x).2 (.inr ⟨hm, hy⟩)), fun hy => (hr.inputs _).2 (.inr ⟨x, hm, rfl, hy⟩)⟩
  have hnotin : ∀ h' ∈ hs, h'.output.var ≠ l.var := by
    intro h' hh e
    obtain ⟨g', hg', e', hvis, _⟩ := h.heads h' hh
    rw [e, hg] at hg'
    cases hg'
    rw [← e', ← hlg, hv] at hvis
    simp at hvis
  refine ⟨T ++ as, hs ++ [⟨l, conj⟩], ?_, t, hr, rfl, htv⟩
  constructor
  · show (s.pands ++ as ++ [_]).Perm _
    have h1 : (s.pands ++ as).Perm (T ++ hs ++ as) := h.perm.append_right _
    have h2 : (T ++ hs ++ as).Perm (T ++ as ++ hs) := by
      rw [List.append_assoc, List.append_assoc]
      exact List.Perm.append_left _ List.perm_append_comm
    rw [← List.append_assoc (T ++ as)]
    exact (h1.trans h2).append_right _
  · exact h.ext.append hext
  · intro h' hh
    rcases List.mem_append.1 hh with hh | hh
    · obtain ⟨g', a1, a2, a3, a4, a5⟩ := h.heads h' hh
      refine ⟨g', a1, a2, ?_, fun x hx => Nat.le_trans (a4 x hx) hext.le, fun v hok => a5 v fun a ha => hok a (List.mem_append_left _ ha)⟩
      show t.visited _ = true
      rw [htv]; unfold upd; split
      · rfl
      · exact a3
    · rw [List.mem_singleton] at hh
      subst hh
      refine ⟨g, hg, hlg.symm, ?_, hconj, fun v hok => ?_⟩
      · show t.visited _ = true
        rw [htv]; simp [upd]
      · rw [← hlg]
        exact hsd v fun a ha => hok a (List.mem_append_right _ ha)
  · intro m hm g' hg'
    have hm : t.visited m = true := hm
    rw [htv] at hm
    by_cases e : m = l
    · subst e
      rw [hg] at hg'
      cases hg'
      exact ⟨hlg, ⟨m, conj⟩, List.mem_append_right _ (by simp), rfl⟩
    · rw [upd_ne _ _ e] at hm
      obtain ⟨a1, h', a2, a3⟩ := h.complete m hm g' hg'
      exact ⟨a1, h', List.mem_append_left _ a2, a3⟩
  · rw [List.map_append, List.nodup_append]
    refine ⟨h.headsNodup, by simp, fun x hx y hy e => ?_⟩
    obtain ⟨h', hh, rfl⟩ := List.mem_map.1 hx
    simp only [List.map_cons, List.map_nil, List.mem_singleton] at hy
    subst hy
    exact hnotin h' hh e
  · intro m hm g' hg' c hc x hx
    have hm : t.visited m = true := hm
    rw [htv] at hm
    by_cases e : m = l
    · subst e
      rw [hg] at hg'
      cases hg'
      rw [← hlg] at hc
      exact hnew c hc x hx
    · rw [upd_ne _ _ e] at hm
      exact hkn x (h.closed m hm g' hg' c hc x hx)
  · intro x hx
    rcases (hr.literals x).1 hx with h1 | ⟨_, h1⟩
    · exact h.stack x (by rw [hl]; exact List.mem_cons_of_mem _ h1)
    · exact h1
  · intro v hx
    rcases (hr.inputs v).1 hx with h1 | ⟨x, h1, h2, h3⟩
    · exact h.inputs v h1
    · obtain ⟨c, hc, hxc⟩ := List.mem_flatten.1 h1
      obtain ⟨d, hd, h4⟩ := hsub c hc
      exact ⟨h3, l.var, g, hg, d, hd, x, (h4 x hxc).1, h2⟩
  · exact hr.sorted h.sorted
  · rcases h.root with hx | hx
    · left
      show t.visited _ = true
      rw [htv]; unfold upd; split
      · rfl
      · exact hx
    · rw [hl] at hx
      rcases List.mem_cons.1 hx with e | hx
      · left
        show t.visited _ = true
        rw [htv, e]; simp [upd]
      · exact .inr ((hr.literals _).2 (.inl hx))
  · intro a ha
    have hold : a ∈ T ++ hs → a.conj ≠ [] ∧ ∀ x ∈ a.conj, Aig.Known I { t with varCount := n', pands := s.pands ++ as ++ [⟨l, conj⟩] } x ∨
        Aig.Known I { t with varCount := n', pands := s.pands ++ as ++ [⟨l, conj⟩] } x.neg ∨ ∃ b ∈ T ++ as, b.output.var = x.var := by
      intro ha
      refine ⟨(h.used a ha).1, fun x hx => ?_⟩
      rcases (h.used a ha).2 x hx with h1 | h1 | ⟨b, hb, h1⟩
      · exact .inl (hkn _ h1)
      · exact .inr (.inl (hkn _ h1))
      · exact .inr (.inr ⟨b, List.mem_append_left _ hb, h1⟩)
    rcases List.mem_append.1 ha with ha | ha
    · rcases List.mem_append.1 ha with ha | ha
      · exact hold (List.mem_append_left _ ha)
      · refine ⟨hu3 (fun c hc => ?_) a ha, fun x hx => ?_⟩
        · obtain ⟨d, hd, rfl⟩ := List.mem_map.1 hc
          intro e
          have h1 := filter_bne_length (W.distinct hg d hd) (W.fwd hg d hd)
          rw [← hlg, e] at h1
          have := W.two hg d hd
          simp at h1
          omega
        · obtain ⟨c, hc, hx⟩ := hu1 a ha x hx
          exact .inr (.inl (hnew c hc _ hx))
    · rcases List.mem_append.1 ha with ha | ha
      · exact hold (List.mem_append_right _ ha)
      · rw [List.mem_singleton] at ha
        subst ha
        refine ⟨fun e => ?_, fun x hx => ?_⟩
        · dsimp only at e
          rw [e] at hu4
          simp only [List.length_nil, stripped, List.length_map] at hu4
          exact W.nonempty hg (List.length_eq_zero_iff.1 hu4.symm)
        · rcases hu2 x hx with ⟨c, hc, hx⟩ | ⟨b, hb, hx⟩
          · exact .inl (hnew c hc x hx)
          · exact .inr (.inr ⟨b, List.mem_append_right _ hb, hx⟩)

theorem createAnds_inv {I : AigInput} {order : List Nat} (W : I.Wf order) : ∀ {fuel : Nat} {s r : Aig} {T hs : List AndGate},
    AigInv I s T hs → Aig.createAnds I fuel s = .ok r → ∃ T' hs', AigInv I r T' hs' ∧ r.literals = [] := by
  intro fuel
  induction fuel with
  | zero =>
    intro s r T hs h he
    unfold Aig.createAnds at he
    cases hl : s.literals with
    | nil => rw [hl] at he; cases he; exact ⟨T, hs, h, hl⟩
    | cons l ls => rw [hl] at he; cases he
  | succ n ih =>
    intro s r T hs h he
    unfold Aig.createAnds at he
    cases hl : s.literals with
    | nil => rw [hl] at he; cases he; exact ⟨T, hs, h, hl⟩
    | cons l ls =>
      rw [hl] at he
      dsimp only at he
      cases hv : s.visited l with
      | true =>
        rw [hv, if_pos rfl] at he
        exact ih (h.pop hl hv) he
      | false =>
        rw [hv, if_neg (by simp)] at he
        cases hg : I.gates l.var with
        | none =>
          have := h.stack l (by rw [hl]; exact List.mem_cons_self)
          rw [hg] at this; simp at this
        | some g =>
          rw [hg] at he
          dsimp only at he
          cases hst : Aig.stripOutputs l g.2 with
          | none => rw [hst] at he; cases he
          | some cs =>
            rw [hst] at he
            dsimp only at he
            obtain ⟨hlg, rfl⟩ := W.strip hg hst
            obtain ⟨T', hs', h', _⟩ := h.visit W hl hv hg hlg
            exact ih h' he


/-! ### Binary gates -/

/-- The gate without the restriction to two inputs. -/
def BinaryAnd.gate (a : BinaryAnd) : AndGate := ⟨a.output, a.left :: a.right.toList⟩

theorem convertNary_single (n : Nat) (l : Lit) (s : Nat × List BinaryAnd) : convertNary (n + 1) [l] s = some (s, l) := rfl

theorem convertNary_split (n : Nat) {conj : List Lit} (h : ∀ l, conj ≠ [l]) (s : Nat × List BinaryAnd) :
    convertNary (n + 1) conj s =
      match convertNary n (conj.take (conj.length / 2)) s with
      | none => none
      | some (s, left) =>
        match convertNary n (conj.drop (conj.length / 2)) s with
        | none => none
        | some (s, right) => some ((s.1 + 1, s.2 ++ [⟨⟨s.1 + 1, false⟩, left, some right⟩]), ⟨s.1 + 1, false⟩) := by
  match conj with
  | [] => rfl
  | [l] => exact (h l rfl).elim
  | _ :: _ :: _ => rfl

theorem convertNary_total : ∀ {n : Nat} {conj : List Lit} (s : Nat × List BinaryAnd), conj ≠ [] → conj.length ≤ n →
    ∃ r, convertNary n conj s = some r := by
  intro n
  induction n with
  | zero => intro conj s h1 h2; exact (h1 (List.length_eq_zero_iff.1 (by omega))).elim
  | succ n ih =>
    intro conj s h1 h2
    by_cases hx : ∃ l, conj = [l]
    · obtain ⟨l, rfl⟩ := hx
      exact ⟨_, rfl⟩
    · rw [convertNary_split n (fun l e => hx ⟨l, e⟩)]
      have hlen : 2 ≤ conj.length := by
        match conj, h1, hx with
        | [l], _, hx => exact (hx ⟨l, rfl⟩).elim
        | _ :: _ :: _, _, _ => simp
      obtain ⟨⟨s1, l1⟩, h3⟩ := ih (conj := conj.take (conj.length / 2)) s
        (fun e => by have := congrArg List.length e; rw [List.length_take, List.length_nil] at this; omega)
        (by rw [List.length_take]; omega)
      obtain ⟨⟨s2, l2⟩, h4⟩ := ih (conj := conj.drop (conj.length / 2)) s1
        (fun e => by have := congrArg List.length e; rw [List.length_drop, List.length_nil] at this; omega)
        (by rw [List.length_drop]; omega)
      rw [h3]
      dsimp only
      rw [h4]
      exact ⟨_, rfl⟩

/-- What the conversion of a conjunction to the literal `l` yields. -/
structure Converted (s r : Nat × List BinaryAnd) (conj : List Lit) (l : Lit) (new : List BinaryAnd) : Prop where
  eq : r.2 = s.2 ++ new
  ext : AndsExt s.1 r.1 (new.map BinaryAnd.gate)
  le : l.var ≤ r.1
  sound : ∀ v, (∀ a ∈ new, a.gate.Ok v) → (l.holds v ↔ ∀ x ∈ conj, x.holds v)
  used : ∀ a ∈ new, ∀ x ∈ a.gate.conj, x ∈ conj ∨ ∃ b ∈ new, b.output.var = x.var
  lit : l ∈ conj ∨ ∃ b ∈ new, b.output.var = l.var

theorem convertNary_spec : ∀ {n : Nat} {conj : List Lit} {s r : Nat × List BinaryAnd} {l : Lit},
    convertNary n conj s = some (r, l) → (∀ x ∈ conj, x.var ≤ s.1) → ∃ new, Converted s r conj l new := by
  intro n
  induction n with
  | zero => intro conj s r l h; simp [convertNary] at h
  | succ n ih =>
    intro conj s r l h hv
    by_cases hx : ∃ l, conj = [l]
    · obtain ⟨l', rfl⟩ := hx
      rw [convertNary_single] at h
      cases h
      exact ⟨[], by simp, AndsExt.nil _, hv l (by simp), by simp, by simp, by simp⟩
    · rw [convertNary_split n (fun l e => hx ⟨l, e⟩)] at h
      cases h1 : convertNary n (conj.take (conj.length / 2)) s with
      | none => rw [h1] at h; simp at h
      | some r1 =>
        obtain ⟨s1, l1⟩ := r1
        rw [h1] at h
        dsimp only at h
        cases h2 : convertNary n (conj.drop (conj.length / 2)) s1 with
        | none => rw [h2] at h; simp at h
        | some r2 =>
          obtain ⟨s2, l2⟩ := r2
          rw [h2] at h
          dsimp only at h
          cases h
          obtain ⟨n1, c1⟩ := ih h1 fun x hx => hv x (List.mem_of_mem_take hx)
          obtain ⟨n2, c2⟩ := ih h2 fun x hx => Nat.le_trans (hv x (List.mem_of_mem_drop hx)) c1.ext.le
          have hmem : ∀ x, x ∈ conj ↔ x ∈ conj.take (conj.length / 2) ∨ x ∈ conj.drop (conj.length / 2) := fun x => by
            rw [← List.mem_append, List.take_append_drop]
          refine ⟨n1 ++ n2 ++ [⟨⟨s2.1 + 1, false⟩, l1, some l2⟩], ?_, ?_, Nat.le_refl _, fun v hok => ?_, ?_, ?_⟩
          · simp only [c2.eq, c1.eq, List.append_assoc]
          · rw [List.map_append, List.map_append]
            refine (c1.ext.append c2.ext).append (AndsExt.single fun x hx => ?_)
            simp only [Option.toList_some, List.mem_cons, List.not_mem_nil, or_false] at hx
            rcases hx with rfl | rfl
            · exact Nat.le_trans c1.le c2.ext.le
            · exact c2.le
          · have e1 := c1.sound v fun a ha => hok a (by simp [ha])
            have e2 := c2.sound v fun a ha => hok a (by simp [ha])
            have e3 := hok ⟨⟨s2.1 + 1, false⟩, l1, some l2⟩ (by simp)
            unfold AndGate.Ok BinaryAnd.gate at e3
            simp only [Option.toList_some, List.mem_cons, List.not_mem_nil, or_false, forall_eq_or_imp, forall_eq] at e3
            rw [e3, e1, e2]
            constructor
            · rintro ⟨a1, a2⟩ x hx
              exact ((hmem x).1 hx).elim (a1 x) (a2 x)
            · intro a
              exact ⟨fun x hx => a x ((hmem x).2 (.inl hx)), fun x hx => a x ((hmem x).2 (.inr hx))⟩
          · have lift1 : ∀ x, (x ∈ conj.take (conj.length / 2) ∨ ∃ b ∈ n1, b.output.var = x.var) →
                x ∈ conj ∨ ∃ b ∈ n1 ++ n2 ++ [⟨⟨s2.1 + 1, false⟩, l1, some l2⟩], b.output.var = x.var := by
              rintro x (h | ⟨b, hb, h⟩)
              · exact .inl ((hmem x).2 (.inl h))
              · exact .inr ⟨b, by simp [hb], h⟩
            have lift2 : ∀ x, (x ∈ conj.drop (conj.length / 2) ∨ ∃ b ∈ n2, b.output.var = x.var) →
                x ∈ conj ∨ ∃ b ∈ n1 ++ n2 ++ [⟨⟨s2.1 + 1, false⟩, l1, some l2⟩], b.output.var = x.var := by
              rintro x (h | ⟨b, hb, h⟩)
              · exact .inl ((hmem x).2 (.inr h))
              · exact .inr ⟨b, by simp [hb], h⟩
            intro a ha x hx
            rcases List.mem_append.1 ha with ha | ha
            · rcases List.mem_append.1 ha with ha | ha
              · exact lift1 x (c1.used a ha x hx)
              · exact lift2 x (c2.used a ha x hx)
            · rw [List.mem_singleton] at ha
              subst ha
              simp only [BinaryAnd.gate, Option.toList_some, List.mem_cons, List.not_mem_nil, or_false] at hx
              rcases hx with rfl | rfl
              · exact lift1 _ c1.lit
              · exact lift2 _ c2.lit
          · exact .inr ⟨⟨⟨s2.1 + 1, false⟩, l1, some l2⟩, by simp, rfl⟩

/-- What the conversion of a gate yields: auxiliary gates and one with the output of the gate. -/
structure ConvertedAnd (s r : Nat × List BinaryAnd) (a : AndGate) (new : List BinaryAnd) (head : BinaryAnd) : Prop where
  eq : r.2 = s.2 ++ (new ++ [head])
  ext : AndsExt s.1 r.1 (new.map BinaryAnd.gate)
  out : head.output = a.output
  le : ∀ x ∈ head.gate.conj, x.var ≤ r.1
  sound : ∀ v, (∀ b ∈ new, b.gate.Ok v) → (head.gate.Ok v ↔ a.Ok v)
  used : ∀ b ∈ new ++ [head], ∀ x ∈ b.gate.conj, x ∈ a.conj ∨ ∃ b ∈ new, b.output.var = x.var

theorem convertAnd_split {a : AndGate} (h0 : a.conj ≠ []) (h : ∀ l, a.conj ≠ [l]) (s : Nat × List BinaryAnd) :
    convertAnd a s =
      match convertNary a.conj.length (a.conj.take (a.conj.length / 2)) s with
      | none => none
      | some (s, left) =>
        match convertNary a.conj.length (a.conj.drop (a.conj.length / 2)) s with
        | none => none
        | some (s, right) => some (s.1, s.2 ++ [⟨a.output, left, some right⟩]) := by
  obtain ⟨o, conj⟩ := a
  match conj with
  | [] => exact (h0 rfl).elim
  | [l] => exact (h l rfl).elim
  | _ :: _ :: _ => rfl

theorem convertAnd_total (a : AndGate) (s : Nat × List BinaryAnd) : ∃ r, convertAnd a s = some r := by
  by_cases h0 : a.conj = []
  · exact ⟨s, by unfold convertAnd; rw [h0]⟩
  · by_cases hx : ∃ l, a.conj = [l]
    · obtain ⟨l, hl⟩ := hx
      exact ⟨_, by unfold convertAnd; rw [hl]⟩
    · rw [convertAnd_split h0 fun l e => hx ⟨l, e⟩]
      have hlen : 2 ≤ a.conj.length := by
        obtain ⟨o, conj⟩ := a
        match conj, h0, hx with
        | [], h0, _ => exact (h0 rfl).elim
        | [l], _, hx => exact (hx ⟨l, rfl⟩).elim
        | _ :: _ :: _, _, _ => simp
      obtain ⟨⟨s1, l1⟩, h3⟩ := convertNary_total (n := a.conj.length) (conj := a.conj.take (a.conj.length / 2)) s
        (fun e => by have := congrArg List.length e; rw [List.length_take, List.length_nil] at this; omega)
        (by rw [List.length_take]; omega)
      obtain ⟨⟨s2, l2⟩, h4⟩ := convertNary_total (n := a.conj.length) (conj := a.conj.drop (a.conj.length / 2)) s1
        (fun e => by have := congrArg List.length e; rw [List.length_drop, List.length_nil] at this; omega)
        (by rw [List.length_drop]; omega)
      rw [h3]
      dsimp only
      rw [h4]
      exact ⟨_, rfl⟩

theorem convertAnds_total : ∀ (as : List AndGate) (s : Nat × List BinaryAnd), ∃ r, convertAnds as s = some r := by
  intro as
  induction as with
  | nil => intro s; exact ⟨s, rfl⟩
  | cons a as ih =>
    intro s
    obtain ⟨r, h⟩ := convertAnd_total a s
    obtain ⟨t, h'⟩ := ih r
    exact ⟨t, by unfold convertAnds; rw [h]; exact h'⟩

theorem convertAnd_spec {a : AndGate} {s r : Nat × List BinaryAnd} (h : convertAnd a s = some r) (h0 : a.conj ≠ [])
    (hv : ∀ x ∈ a.conj, x.var ≤ s.1) : ∃ new head, ConvertedAnd s r a new head := by
  by_cases hx : ∃ l, a.conj = [l]
  · obtain ⟨l, hl⟩ := hx
    have hr : r = (s.1, s.2 ++ [⟨a.output, l, none⟩]) := by
      unfold convertAnd at h
      rw [hl] at h
      dsimp only at h
      exact (Option.some.inj h).symm
    subst hr
    refine ⟨[], ⟨a.output, l, none⟩, rfl, AndsExt.nil _, rfl, ?_, fun v _ => ?_, ?_⟩
    · simpa [BinaryAnd.gate] using hv l (by simp [hl])
    · unfold AndGate.Ok BinaryAnd.gate
      rw [hl]; simp
    · simp [BinaryAnd.gate, hl]
  · rw [convertAnd_split h0 fun l e => hx ⟨l, e⟩] at h
    cases h1 : convertNary a.conj.length (a.conj.take (a.conj.length / 2)) s with
    | none => rw [h1] at h; simp at h
    | some r1 =>
      obtain ⟨s1, l1⟩ := r1
      rw [h1] at h
      dsimp only at h
      cases h2 : convertNary a.conj.length (a.conj.drop (a.conj.length / 2)) s1 with
      | none => rw [h2] at h; simp at h
      | some r2 =>
        obtain ⟨s2, l2⟩ := r2
        rw [h2] at h
        dsimp only at h
        cases h
        obtain ⟨n1, c1⟩ := convertNary_spec h1 fun x hx => hv x (List.mem_of_mem_take hx)
        obtain ⟨n2, c2⟩ := convertNary_spec h2 fun x hx => Nat.le_trans (hv x (List.mem_of_mem_drop hx)) c1.ext.le
        have hmem : ∀ x, x ∈ a.conj ↔ x ∈ a.conj.take (a.conj.length / 2) ∨ x ∈ a.conj.drop (a.conj.length / 2) := fun x => by
          rw [← List.mem_append, List.take_append_drop]
        have lift1 : ∀ x, (x ∈ a.conj.take (a.conj.length / 2) ∨ ∃ b ∈ n1, b.output.var = x.var) →
            x ∈ a.conj ∨ ∃ b ∈ n1 ++ n2, b.output.var = x.var := by
          rintro x (h | ⟨b, hb, h⟩)
          · exact .inl ((hmem x).2 (.inl h))
          · exact .inr ⟨b, by simp [hb], h⟩
        have lift2 : ∀ x, (x ∈ a.conj.drop (a.conj.length / 2) ∨ ∃ b ∈ n2, b.output.var = x.var) →
            x ∈ a.conj ∨ ∃ b ∈ n1 ++ n2, b.output.var = x.var := by
          rintro x (h | ⟨b, hb, h⟩)
          · exact .inl ((hmem x).2 (.inr h))
          · exact .inr ⟨b, by simp [hb], h⟩
        refine ⟨n1 ++ n2, ⟨a.output, l1, some l2⟩, ?_, ?_, rfl, ?_, fun v hok => ?_, ?_⟩
        · simp only [c2.eq, c1.eq, List.append_assoc]
        · rw [List.map_append]
          exact c1.ext.append c2.ext
        · intro x hx
          simp only [BinaryAnd.gate, Option.toList_some, List.mem_cons, List.not_mem_nil, or_false] at hx
          rcases hx with rfl | rfl
          · exact Nat.le_trans c1.le c2.ext.le
          · exact c2.le
        · have e1 := c1.sound v fun a ha => hok a (by simp [ha])
          have e2 := c2.sound v fun a ha => hok a (by simp [ha])
          unfold AndGate.Ok BinaryAnd.gate
          simp only [Option.toList_some, List.mem_cons, List.not_mem_nil, or_false, forall_eq_or_imp, forall_eq]
          rw [e1, e2]
          have : ((∀ x ∈ a.conj.take (a.conj.length / 2), x.holds v) ∧ ∀ x ∈ a.conj.drop (a.conj.length / 2), x.holds v) ↔
              ∀ x ∈ a.conj, x.holds v := by
            constructor
            · rintro ⟨a1, a2⟩ x hx
              exact ((hmem x).1 hx).elim (a1 x) (a2 x)
            · intro a
              exact ⟨fun x hx => a x ((hmem x).2 (.inl hx)), fun x hx => a x ((hmem x).2 (.inr hx))⟩
          rw [this]
        · intro b hb x hx
          rcases List.mem_append.1 hb with hb | hb
          · rcases List.mem_append.1 hb with hb | hb
            · exact lift1 x (c1.used b hb x hx)
            · exact lift2 x (c2.used b hb x hx)
          · rw [List.mem_singleton] at hb
            subst hb
            simp only [BinaryAnd.gate, Option.toList_some, List.mem_cons, List.not_mem_nil, or_false] at hx
            rcases hx with rfl | rfl
            · exact lift1 _ c1.lit
            · exact lift2 _ c2.lit

/-- What the conversion of all gates yields. -/
structure ConvertedAnds (s r : Nat × List BinaryAnd) (as : List AndGate) (new heads : List BinaryAnd) : Prop where
  perm : r.2.Perm (s.2 ++ (new ++ heads))
  ext : AndsExt s.1 r.1 (new.map BinaryAnd.gate)
  out : heads.map BinaryAnd.output = as.map AndGate.output
  sound : ∀ v, (∀ b ∈ new, b.gate.Ok v) → ((∀ b ∈ heads, b.gate.Ok v) ↔ ∀ a ∈ as, a.Ok v)
  used : ∀ b ∈ new ++ heads, ∀ x ∈ b.gate.conj, (∃ a ∈ as, x ∈ a.conj) ∨ ∃ b ∈ new, b.output.var = x.var

theorem convertAnds_spec : ∀ {as : List AndGate} {s r : Nat × List BinaryAnd}, convertAnds as s = some r →
    (∀ a ∈ as, a.conj ≠ [] ∧ ∀ x ∈ a.conj, x.var ≤ s.1) → ∃ new heads, ConvertedAnds s r as new heads := by
  intro as
  induction as with
  | nil =>
    intro s r h _
    simp only [convertAnds, Option.some.injEq] at h
    subst h
    exact ⟨[], [], by simp, AndsExt.nil _, rfl, by simp, by simp⟩
  | cons a as ih =>
    intro s r h hv
    unfold convertAnds at h
    cases h1 : convertAnd a s with
    | none => rw [h1] at h; simp at h
    | some s1 =>
      rw [h1] at h
      dsimp only at h
      obtain ⟨n1, hd, c1⟩ := convertAnd_spec h1 (hv a (by simp)).1 (hv a (by simp)).2
      obtain ⟨n2, hs, c2⟩ := ih h fun b hb => ⟨(hv b (List.mem_cons_of_mem _ hb)).1,
        fun x hx => Nat.le_trans ((hv b (List.mem_cons_of_mem _ hb)).2 x hx) c1.ext.le⟩
      refine ⟨n1 ++ n2, hd :: hs, ?_, ?_, ?_, fun v hok => ?_, ?_⟩
      · refine c2.perm.trans ?_
        rw [c1.eq]
        simp only [List.append_assoc]
        refine List.Perm.append_left _ (List.Perm.append_left _ ?_)
        exact (List.perm_append_comm (l₁ := [hd])).trans (by
          rw [List.append_assoc]
          exact List.Perm.append_left _ List.perm_append_comm)
      · rw [List.map_append]
        exact c1.ext.append c2.ext
      · simp [c1.out, c2.out]
      · simp only [List.forall_mem_cons]
        rw [c1.sound v fun b hb => hok b (by simp [hb]), c2.sound v fun b hb => hok b (by simp [hb])]
      · have l1 : ∀ x, (x ∈ a.conj ∨ ∃ b ∈ n1, b.output.var = x.var) →
            (∃ b ∈ a :: as, x ∈ b.conj) ∨ ∃ b ∈ n1 ++ n2, b.output.var = x.var := by
          rintro x (h | ⟨b, hb, h⟩)
          · exact .inl ⟨a, by simp, h⟩
          · exact .inr ⟨b, by simp [hb], h⟩
        have l2 : ∀ x, ((∃ b ∈ as, x ∈ b.conj) ∨ ∃ b ∈ n2, b.output.var = x.var) →
            (∃ b ∈ a :: as, x ∈ b.conj) ∨ ∃ b ∈ n1 ++ n2, b.output.var = x.var := by
          rintro x (⟨b, hb, h⟩ | ⟨b, hb, h⟩)
          · exact .inl ⟨b, List.mem_cons_of_mem _ hb, h⟩
          · exact .inr ⟨b, by simp [hb], h⟩
        intro b hb x hx
        rcases List.mem_append.1 hb with hb | hb
        · rcases List.mem_append.1 hb with hb | hb
          · exact l1 x (c1.used b (List.mem_append_left _ hb) x hx)
          · exact l2 x (c2.used b (List.mem_append_left _ hb) x hx)
        · rcases List.mem_cons.1 hb with rfl | hb
          · exact l1 x (c1.used b (List.mem_append_right _ (by simp)) x hx)
          · exact l2 x (c2.used b (List.mem_append_right _ hb) x hx)

/-! ### The circuit -/

/-- The circuit in memory. `vis` are the literals through which gates have been entered. -/
structure CircuitOf (I : AigInput) (C : AigCircuit) (vis : Lit → Prop) : Prop where
  rootEq : C.root = I.root
  root : vis I.root
  gate : ∀ l, vis l → ∃ g, I.gates l.var = some g ∧ l = g.1
  closed : ∀ l, vis l → ∀ g, I.gates l.var = some g → ∀ c ∈ stripped g.1 g.2, ∀ x ∈ c,
    ((I.gates x.var).isSome = true → vis x) ∧ ((I.gates x.var).isSome = false → x.var ∈ C.inputs)
  sound : ∀ v, (∀ a ∈ C.ands, a.gate.Ok v) → ∀ l, vis l → ∀ g, I.gates l.var = some g →
    (l.holds v ↔ ∀ c ∈ stripped g.1 g.2, SatClause v c)
  ext : ∀ v, (∀ l, vis l → ∀ g, I.gates l.var = some g → (l.holds v ↔ ∀ c ∈ stripped g.1 g.2, SatClause v c)) →
    ∃ v' : Assign, (∀ x, x ≤ I.nVars + 1 → v' x = v x) ∧ ∀ a ∈ C.ands, a.gate.Ok v'
  outNodup : (C.ands.map fun a => a.output.var).Nodup
  outs : ∀ a ∈ C.ands, ((∃ l, vis l ∧ l.var = a.output.var) ∨ I.nVars + 1 < a.output.var) ∧ a.output.var ≤ C.varCount
  inputs : ∀ v ∈ C.inputs, (I.gates v).isSome = false ∧ ∃ w g, I.gates w = some g ∧ ∃ c ∈ g.2, ∃ x ∈ c, x.var = v
  sorted : C.inputs.Pairwise (· < ·)
  outOf : ∀ l, vis l → ∃ a ∈ C.ands, a.output = l
  used : ∀ a ∈ C.ands, ∀ x ∈ a.gate.conj, x.var ∈ C.inputs ∨ ∃ b ∈ C.ands, b.output.var = x.var
  count : I.nVars + 1 ≤ C.varCount

theorem createAIG_spec {I : AigInput} {order : List Nat} (W : I.Wf order) {fuel : Nat} {C : AigCircuit}
    (h : createAIG I fuel = .ok C) : ∃ vis, CircuitOf I C vis := by
  unfold createAIG at h
  cases h1 : Aig.createAnds I fuel (Aig.new I) with
  | ub => rw [h1] at h; cases h
  | more => rw [h1] at h; cases h
  | ok s =>
    rw [h1] at h
    dsimp only at h
    cases h2 : convertAnds s.pands (s.varCount, []) with
    | none => rw [h2] at h; cases h
    | some r =>
      rw [h2] at h
      cases h
      obtain ⟨T, hs, hA, hnil⟩ := createAnds_inv W (AigInv.new W) h1
      have hmem : ∀ a, a ∈ s.pands ↔ a ∈ T ∨ a ∈ hs := fun a => by rw [hA.perm.mem_iff, List.mem_append]
      have hsmall : ∀ a ∈ s.pands, a.conj ≠ [] ∧ ∀ x ∈ a.conj, x.var ≤ s.varCount := by
        intro a ha
        refine ⟨(hA.used a (hA.perm.mem_iff.1 ha)).1, ?_⟩
        rcases (hmem a).1 ha with ha | ha
        · exact hA.ext.used a ha
        · obtain ⟨_, _, _, _, h4, _⟩ := hA.heads a ha; exact h4
      obtain ⟨new, heads, hC⟩ := convertAnds_spec h2 hsmall
      have hle := hA.ext.le
      have hle2 : s.varCount ≤ r.1 := hC.ext.le
      have hrm : ∀ a, a ∈ r.2 ↔ a ∈ new ∨ a ∈ heads := fun a => by
        rw [hC.perm.mem_iff]; simp
      have hok : ∀ v, (∀ a ∈ r.2, a.gate.Ok v) → ∀ a ∈ s.pands, a.Ok v := fun v hv =>
        (hC.sound v fun b hb => hv b ((hrm b).2 (.inl hb))).1 fun b hb => hv b ((hrm b).2 (.inr hb))
      have hpo : ∀ a ∈ s.pands, ((∃ l, s.visited l = true ∧ (∃ g, I.gates l.var = some g) ∧ l = a.output) ∨ I.nVars + 1 < a.output.var) ∧
          a.output.var ≤ s.varCount := by
        intro a ha
        rcases (hmem a).1 ha with ha | ha
        · exact ⟨.inr (hA.ext.fresh a ha).1, (hA.ext.fresh a ha).2⟩
        · obtain ⟨g, a1, a2, a3, _⟩ := hA.heads a ha
          refine ⟨.inl ⟨a.output, a3, ⟨g, a1⟩, rfl⟩, ?_⟩
          have := W.le a.output.var ((W.defd _).1 (by rw [a1]; rfl))
          omega
      have hheads : ∀ b ∈ heads, ∃ a ∈ s.pands, a.output = b.output := by
        intro b hb
        have : b.output ∈ s.pands.map AndGate.output := by rw [← hC.out]; exact List.mem_map.2 ⟨b, hb, rfl⟩
        obtain ⟨a, ha, e⟩ := List.mem_map.1 this
        exact ⟨a, ha, e⟩
      have hpands : ∀ a ∈ s.pands, ∃ b ∈ r.2, b.output = a.output := by
        intro a ha
        have : a.output ∈ heads.map BinaryAnd.output := by rw [hC.out]; exact List.mem_map.2 ⟨a, ha, rfl⟩
        obtain ⟨b, hb, e⟩ := List.mem_map.1 this
        exact ⟨b, (hrm b).2 (.inr hb), e⟩
      have houtOf : ∀ l, (s.visited l = true ∧ (I.gates l.var).isSome = true) → ∃ a ∈ r.2, a.output = l := by
        rintro l ⟨hl, hg⟩
        obtain ⟨g, hg⟩ := Option.isSome_iff_exists.1 hg
        obtain ⟨_, h', a2, a3⟩ := hA.complete l hl g hg
        obtain ⟨b, hb, e⟩ := hpands h' ((hmem _).2 (.inr a2))
        exact ⟨b, hb, e.trans a3⟩
      refine ⟨fun l => s.visited l = true ∧ (I.gates l.var).isSome = true, ?_⟩
      constructor
      · rfl
      · obtain ⟨g, hg, _⟩ := W.root
        refine ⟨?_, by rw [hg]; rfl⟩
        rcases hA.root with hx | hx
        · exact hx
        · rw [hnil] at hx; simp at hx
      · rintro l ⟨hl, hg⟩
        obtain ⟨g, hg⟩ := Option.isSome_iff_exists.1 hg
        exact ⟨g, hg, (hA.complete l hl g hg).1⟩
      · rintro l ⟨hl, _⟩ g hg c hc x hx
        have hk := hA.closed l hl g hg c hc x hx
        refine ⟨fun hy => ⟨?_, hy⟩, hk.2⟩
        rcases hk.1 hy with h | h
        · exact h
        · rw [hnil] at h; simp at h
      · rintro v hv l ⟨hl, _⟩ g hg
        have hp := hok v hv
        obtain ⟨_, h', a2, a3⟩ := hA.complete l hl g hg
        obtain ⟨g', b1, b2, _, _, b5⟩ := hA.heads h' a2
        rw [a3, hg] at b1
        cases b1
        rw [← b5 v fun a ha => hp a ((hmem a).2 (.inl ha)), ← a3]
        exact hp h' ((hmem _).2 (.inr a2))
      · intro v hv
        obtain ⟨v1, e1, o1⟩ := hA.ext.ext v
        obtain ⟨v2, e2, o2⟩ := hC.ext.ext v1
        have o1' : ∀ a ∈ T, a.Ok v2 := fun a ha =>
          (AndGate.Ok.congr (e2 _ (hA.ext.fresh a ha).2) fun l hl => e2 _ (hA.ext.used a ha l hl)).2 (o1 a ha)
        refine ⟨v2, fun x hx => (e2 x (Nat.le_trans hx hle)).trans (e1 x hx), fun a ha => ?_⟩
        have o2' : ∀ b ∈ new, b.gate.Ok v2 := fun b hb => o2 _ (List.mem_map.2 ⟨b, hb, rfl⟩)
        rcases (hrm a).1 ha with ha | ha
        · exact o2' a ha
        · refine (hC.sound v2 o2').2 (fun b hb => ?_) a ha
          rcases (hmem b).1 hb with hb | hb
          · exact o1' b hb
          · obtain ⟨g, a1, a2, a3, a4, a5⟩ := hA.heads b hb
            have hsame : ∀ x, x ≤ I.nVars + 1 → v2 x = v x := fun x hx => (e2 x (Nat.le_trans hx hle)).trans (e1 x hx)
            unfold AndGate.Ok
            rw [a5 v2 o1']
            have h3 := hv b.output ⟨a3, by rw [a1]; rfl⟩ g a1
            have h4 : b.output.holds v2 ↔ b.output.holds v := holds_eq (hsame _ (by
              have := W.le b.output.var ((W.defd _).1 (by rw [a1]; rfl)); omega))
            rw [h4, h3]
            have hcl : ∀ c ∈ stripped g.1 g.2, SatClause v2 c ↔ SatClause v c := by
              intro c hc
              obtain ⟨d, hd, rfl⟩ := List.mem_map.1 hc
              have hx : ∀ x ∈ d.filter (fun l => l != g.1.neg), (x.holds v2 ↔ x.holds v) := fun x hx =>
                holds_eq (hsame _ (Nat.le_succ_of_le (W.small a1 d hd x (List.mem_filter.1 hx).1)))
              constructor
              · rintro ⟨x, h1, h2⟩; exact ⟨x, h1, (hx x h1).1 h2⟩
              · rintro ⟨x, h1, h2⟩; exact ⟨x, h1, (hx x h1).2 h2⟩
            constructor
            · intro h c hc; exact (hcl c hc).2 (h c hc)
            · intro h c hc; exact (hcl c hc).1 (h c hc)
      · have hp1 : (r.2.map fun a => a.output.var).Perm (new.map (fun a => a.output.var) ++ (s.pands.map AndGate.output).map Lit.var) := by
          have := hC.perm.map fun a => a.output.var
          refine this.trans ?_
          rw [← hC.out]
          simp [Function.comp_def]
        refine hp1.nodup_iff.2 (List.nodup_append.2 ⟨?_, ?_, ?_⟩)
        · have := hC.ext.nodup
          rw [List.map_map] at this
          exact this
        · have hp2 := (hA.perm.map AndGate.output).map Lit.var
          refine hp2.nodup_iff.2 ?_
          rw [List.map_append, List.map_append, List.map_map, List.map_map]
          refine List.nodup_append.2 ⟨hA.ext.nodup, hA.headsNodup, fun x hx y hy e => ?_⟩
          obtain ⟨a, ha, rfl⟩ := List.mem_map.1 hx
          obtain ⟨b, hb, rfl⟩ := List.mem_map.1 hy
          have h1 := (hA.ext.fresh a ha).1
          obtain ⟨g, a1, _⟩ := hA.heads b hb
          have h2 := W.le b.output.var ((W.defd _).1 (by rw [a1]; rfl))
          simp only [Function.comp_apply] at e
          omega
        · intro x hx y hy e
          obtain ⟨a, ha, rfl⟩ := List.mem_map.1 hx
          rw [List.map_map] at hy
          obtain ⟨b, hb, rfl⟩ := List.mem_map.1 hy
          have h1 := (hC.ext.fresh a.gate (List.mem_map.2 ⟨a, ha, rfl⟩)).1
          have h2 := (hpo b hb).2
          simp only [Function.comp_apply] at e
          change s.varCount < a.output.var at h1
          omega
      · intro a ha
        rcases (hrm a).1 ha with ha | ha
        · have h1 := hC.ext.fresh a.gate (List.mem_map.2 ⟨a, ha, rfl⟩)
          change s.varCount < a.output.var ∧ a.output.var ≤ r.1 at h1
          exact ⟨.inr (by omega), h1.2⟩
        · obtain ⟨b, hb, e⟩ := hheads a ha
          obtain ⟨h1, h2⟩ := hpo b hb
          rw [← e]
          refine ⟨h1.imp ?_ id, Nat.le_trans h2 hle2⟩
          rintro ⟨l, x1, ⟨g, x2⟩, rfl⟩
          exact ⟨_, ⟨x1, by rw [x2]; rfl⟩, rfl⟩
      · exact hA.inputs
      · exact hA.sorted
      · exact houtOf
      · intro a ha x hx
        have hkn : ∀ y, s.Known I y → y.var ∈ s.inputs ∨ ∃ b ∈ r.2, b.output.var = y.var := by
          intro y hy
          cases hg : (I.gates y.var).isSome with
          | false => exact .inl (hy.2 hg)
          | true =>
            rcases hy.1 hg with h | h
            · obtain ⟨b, hb, e⟩ := houtOf y ⟨h, hg⟩
              exact .inr ⟨b, hb, by rw [e]⟩
            · rw [hnil] at h; simp at h
        rcases hC.used a (List.mem_append.2 ((hrm a).1 ha)) x hx with ⟨b, hb, hxb⟩ | ⟨b, hb, e⟩
        · rcases (hA.used b (hA.perm.mem_iff.1 hb)).2 x hxb with h | h | ⟨d, hd, h⟩
          · exact hkn x h
          · exact hkn x.neg h
          · obtain ⟨b', hb', e⟩ := hpands d ((hmem d).2 (.inl hd))
            exact .inr ⟨b', hb', by rw [e]; exact h⟩
        · exact .inr ⟨b, (hrm b).2 (.inl hb), e⟩
      · exact Nat.le_trans hle hle2

end Candy
