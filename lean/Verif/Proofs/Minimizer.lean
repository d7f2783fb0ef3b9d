import Verif.Model.Minimizer
import Verif.Props.Answers
import Verif.Props.Main

/-! Proofs about the minimisation of models. -/

namespace Candy

/-- A hitting set problem: non-empty clauses of positive literals. -/
def HittingProblem (n : Nat) (H : CNF) : Prop := ∀ c ∈ H, ∀ l ∈ c, ∃ v < n, l = pos v

/-- Invariant of the first loop; `S` is the current set of variables. -/
structure MinInv (n : Nat) (H F : CNF) (as : List Lit) (S : Nat → Bool) (st : MinState) : Prop where
  hist : History .plain F as st.sys
  base : ∀ c ∈ (Problem.empty.readClauses H).problem, c ∈ F
  old : ∀ a : Assign, (∀ v, a v = true → v < n ∧ S v = true) → Sat a H → Sat a F
  card : st.cardinality = ((List.range n).filter S).map neg
  compl : ∀ v < n, S v = false → neg v ∈ st.assumptions
  ass : ∀ l ∈ st.assumptions, ∃ v < n, S v = false ∧ l = neg v
  occ : ∀ l ∈ st.assumptions, ∃ c ∈ F, ∃ k ∈ c, k.var = l.var
  hits : ∀ c ∈ H, ∃ v < n, S v = true ∧ pos v ∈ c

theorem mem_card {n : Nat} {S : Nat → Bool} {l : Lit} :
    l ∈ ((List.range n).filter S).map neg ↔ ∃ v < n, S v = true ∧ l = neg v := by
  simp only [List.mem_map, List.mem_filter, List.mem_range]
  constructor
  · rintro ⟨v, ⟨h1, h2⟩, rfl⟩; exact ⟨v, h1, h2, rfl⟩
  · rintro ⟨v, h1, h2, rfl⟩; exact ⟨v, ⟨h1, h2⟩, rfl⟩

/-- A clause without complementary literals is stored with the same literals. -/
theorem read_one {c : Clause} (h : ∀ l ∈ c, l.neg ∉ c) :
    ∃ d, (Problem.empty.readClauses [c]).problem = [d] ∧ ∀ l, l ∈ d ↔ l ∈ c := by
  obtain ⟨g, hg, hm⟩ := C03_clauses [c]
  refine ⟨g c, ?_, hm c⟩
  rw [hg, List.filter_cons_of_pos]
  · rfl
  · simp only [Bool.not_eq_true', decide_eq_false_iff_not, not_exists, not_and]
    exact h

theorem card_taut {n : Nat} {S : Nat → Bool} : ∀ l ∈ ((List.range n).filter S).map neg, l.neg ∉ ((List.range n).filter S).map neg := by
  intro l hl hn
  obtain ⟨v, _, _, rfl⟩ := mem_card.1 hl
  obtain ⟨w, _, _, h⟩ := mem_card.1 hn
  simp [neg, Lit.neg] at h

theorem hist_read {u : Usage} {F : CNF} {as : List Lit} {sys : Sys} (hu : u.flag true) (h : History u F as sys) (f : CNF) :
    History u (F ++ (Problem.empty.readClauses f).problem) as
      (sys.init (Problem.empty.readClauses f).nVars (Problem.empty.readClauses f).problem) :=
  h.add _ _ true hu fun c hc =>
    ⟨fun l hl => Nat.lt_of_lt_of_le ((readClauses_wf f c hc).1 l hl) (Nat.le_max_right _ _), (readClauses_wf f c hc).2⟩

/-- The solver of an iteration of the first loop, ready to solve. -/
theorem MinInv.ready {n : Nat} {H F : CNF} {as : List Lit} {S : Nat → Bool} {st : MinState} (h : MinInv n H F as S st) :
    ∃ d, (Problem.empty.readClauses [st.cardinality]).problem = [d] ∧ (∀ l, l ∈ d ↔ ∃ v < n, S v = true ∧ l = neg v) ∧
    History .plain (F ++ [d]) st.assumptions
      ((st.sys.init (Problem.empty.readClauses [st.cardinality]).nVars (Problem.empty.readClauses [st.cardinality]).problem).assume
        st.assumptions) := by
  obtain ⟨d, hd, hm⟩ := read_one (c := st.cardinality) (by rw [h.card]; exact card_taut)
  have h1 := hist_read (u := .plain) rfl h.hist [st.cardinality]
  refine ⟨d, hd, fun l => by rw [hm, h.card, mem_card], ?_⟩
  rw [hd] at h1 ⊢
  refine h1.assume _ fun l hl => ?_
  obtain ⟨c, hc, k, hk, e⟩ := h.occ l hl
  rw [← e]
  exact (h1.ok Usage.plain_valid).inputWf c (List.mem_append_left _ hc) k hk

theorem minIter_cases {n : Nat} {i : SolveInput} {st st' : MinState} {b : Bool} (he : minIter n i st = some (st', b)) :
    ∃ sys' res, solve i.cfg i.pre i.rounds
      ((st.sys.init (Problem.empty.readClauses [st.cardinality]).nVars (Problem.empty.readClauses [st.cardinality]).problem).assume
        st.assumptions) = some (sys', res) ∧
      ((res.status = some true ∧ b = true ∧ st' = ⟨sys', negTrue n res true, negTrue n res false, res.status⟩) ∨
        (res.status ≠ some true ∧ b = false ∧ st' = { st with sys := sys', satisfiable := res.status })) := by
  unfold minIter at he
  obtain ⟨⟨sys', res⟩, h1, h2⟩ := Option.map_eq_some_iff.1 he
  refine ⟨sys', res, h1, ?_⟩
  dsimp only at h2
  split at h2
  · next hs => cases h2; exact .inl ⟨hs, rfl, rfl⟩
  · next hs => cases h2; exact .inr ⟨hs, rfl, rfl⟩

/-- What an iteration that finds a smaller set does. -/
theorem MinInv.sat {n : Nat} {H F : CNF} {as : List Lit} {S : Nat → Bool} {st st' : MinState} {i : SolveInput} (hH : HittingProblem n H)
    (h : MinInv n H F as S st) (hi : i.Plain) (he : minIter n i st = some (st', true)) :
    ∃ F' S', MinInv n H F' st.assumptions S' st' ∧ (∀ v < n, S' v = true → S v = true) ∧ ∃ v < n, S v = true ∧ S' v = false := by
  obtain ⟨d, hd, hm, hr⟩ := h.ready
  obtain ⟨sys', res, hs, ⟨h1, _, rfl⟩ | ⟨_, h2, _⟩⟩ := minIter_cases he
  · obtain ⟨m1, m2, _⟩ := C20_sat_model_partial hr hi.1 hi.2 hs h1
    have hsub : ∀ v < n, (res.model v == some true) = true → S v = true := by
      intro v hv ht
      cases hc : S v with
      | true => rfl
      | false =>
        have := m2 _ (h.compl v hv hc)
        simp [Lit.trueIn] at this ht
        rw [ht] at this; cases this
    have hne : ∃ v < n, S v = true ∧ (res.model v == some true) = false := by
      obtain ⟨l, hl, ht⟩ := m1 d (by simp)
      obtain ⟨v, hv, hS, rfl⟩ := (hm l).1 hl
      refine ⟨v, hv, hS, ?_⟩
      simp [Lit.trueIn] at ht
      simp [ht]
    refine ⟨F ++ [d], fun v => res.model v == some true, ⟨?_, ?_, ?_, ?_, ?_, ?_, ?_, ?_⟩, hsub, hne⟩
    · exact hr.solve _ _ _ hi.1 hi.2 hs
    · exact fun c hc => List.mem_append_left _ (h.base c hc)
    · intro a ha hH'
      refine sat_append.2 ⟨h.old a (fun v hv => ⟨(ha v hv).1, hsub v (ha v hv).1 (ha v hv).2⟩) hH', ?_⟩
      intro c hc
      rw [List.mem_singleton.1 hc]
      obtain ⟨v, hv, hS, hf⟩ := hne
      refine ⟨neg v, (hm _).2 ⟨v, hv, hS, rfl⟩, ?_⟩
      cases hav : a v with
      | false => simp [Lit.holds, hav]
      | true => have := (ha v hav).2; rw [hf] at this; cases this
    · simp only [negTrue]
      congr 1
      exact List.filter_congr fun v _ => by simp
    · intro v hv hf
      simp only [negTrue]
      exact List.mem_map.2 ⟨v, List.mem_filter.2 ⟨List.mem_range.2 hv, by simpa using hf⟩, rfl⟩
    · intro l hl
      simp only [negTrue] at hl
      obtain ⟨v, hv, rfl⟩ := List.mem_map.1 hl
      exact ⟨v, List.mem_range.1 (List.mem_filter.1 hv).1, by simpa using (List.mem_filter.1 hv).2, rfl⟩
    · intro l hl
      simp only [negTrue] at hl
      obtain ⟨v, hv, rfl⟩ := List.mem_map.1 hl
      have hv' := List.mem_range.1 (List.mem_filter.1 hv).1
      cases hS : S v with
      | true => exact ⟨d, by simp, neg v, (hm _).2 ⟨v, hv', hS, rfl⟩, rfl⟩
      | false =>
        obtain ⟨c, hc, k, hk, e⟩ := h.occ _ (h.compl v hv' hS)
        exact ⟨c, List.mem_append_left _ hc, k, hk, e⟩
    · intro c hc
      have ht : ¬ ∃ l ∈ c, l.neg ∈ c := by
        rintro ⟨l, hl, hn⟩
        obtain ⟨v, _, rfl⟩ := hH c hc l hl
        obtain ⟨w, _, e⟩ := hH c hc _ hn
        simp [pos, Lit.neg] at e
      obtain ⟨g, hg, hgm⟩ := C03_clauses H
      have hin : g c ∈ (Problem.empty.readClauses H).problem := by
        rw [hg]
        exact List.mem_map.2 ⟨c, List.mem_filter.2 ⟨hc, by simpa using ht⟩, rfl⟩
      obtain ⟨l, hl, htr⟩ := m1 _ (List.mem_append_left _ (h.base _ hin))
      have hl := (hgm c l).1 hl
      obtain ⟨v, hv, rfl⟩ := hH c hc l hl
      refine ⟨v, hv, ?_, hl⟩
      simp [Lit.trueIn] at htr
      simp [htr]
  · cases h2

/-- When an iteration ends the loop, the solver still has the clauses and the set is unchanged. -/
theorem MinInv.last {n : Nat} {H F : CNF} {as : List Lit} {S : Nat → Bool} {st st' : MinState} {i : SolveInput}
    (h : MinInv n H F as S st) (hi : i.Plain) (he : minIter n i st = some (st', false)) :
    st'.cardinality = st.cardinality ∧ st'.assumptions = st.assumptions ∧ st'.satisfiable ≠ some true ∧
    ∃ d, (∀ l, l ∈ d ↔ ∃ v < n, S v = true ∧ l = neg v) ∧ History .plain (F ++ [d]) st.assumptions st'.sys ∧
      (st'.satisfiable = some false → ¬Satisfiable (F ++ [d] ++ unitsOf st.assumptions)) := by
  obtain ⟨d, hd, hm, hr⟩ := h.ready
  obtain ⟨sys', res, hs, ⟨_, h2, _⟩ | ⟨h1, _, rfl⟩⟩ := minIter_cases he
  · cases h2
  · exact ⟨rfl, rfl, h1, d, hm, hr.solve _ _ _ hi.1 hi.2 hs,
      fun hf => C21_unsat_under_assumptions (hr.toAny Usage.plain_valid) (fun r h => (hi.2 r h).1) hs hf⟩

/-- State after the first loop. -/
structure MinDone (n : Nat) (H : CNF) (S : Nat → Bool) (st : MinState) : Prop where
  card : st.cardinality = ((List.range n).filter S).map neg
  hits : ∀ c ∈ H, ∃ v < n, S v = true ∧ pos v ∈ c
  notTrue : st.satisfiable ≠ some true
  hist : ∃ F, History .plain F st.assumptions st.sys ∧ (∀ c ∈ (Problem.empty.readClauses H).problem, c ∈ F) ∧
    (st.satisfiable = some false → ¬Satisfiable (F ++ unitsOf st.assumptions))
  minimal : st.satisfiable = some false → ∀ S' : Nat → Bool, (∀ v, S' v = true → v < n ∧ S v = true) →
    (∀ c ∈ H, ∃ v, S' v = true ∧ pos v ∈ c) → ∀ v < n, S v = true → S' v = true

theorem MinInv.done {n : Nat} {H F : CNF} {as : List Lit} {S : Nat → Bool} {st st' : MinState} {i : SolveInput}
    (h : MinInv n H F as S st) (hi : i.Plain) (he : minIter n i st = some (st', false)) : MinDone n H S st' := by
  obtain ⟨h1, h2, h3, d, hm, h4, h5⟩ := h.last hi he
  refine ⟨h1.trans h.card, h.hits, h3, ⟨F ++ [d], by rw [h2]; exact h4, fun c hc => List.mem_append_left _ (h.base c hc), by rw [h2]; exact h5⟩, ?_⟩
  intro hf S' hS' hh v hv hSv
  cases hc : S' v with
  | true => rfl
  | false =>
    refine (h5 hf ⟨S', ?_⟩).elim
    rw [sat_append, sat_append, sat_unitsOf]
    refine ⟨⟨h.old S' hS' ?_, ?_⟩, ?_⟩
    · intro c hc
      obtain ⟨w, hw, hwc⟩ := hh c hc
      exact ⟨pos w, hwc, by simp [Lit.holds, hw]⟩
    · intro c hcd
      rw [List.mem_singleton.1 hcd]
      exact ⟨neg v, (hm _).2 ⟨v, hv, hSv, rfl⟩, by simp [Lit.holds, hc]⟩
    · intro l hl
      obtain ⟨w, hw, hSw, rfl⟩ := h.ass l hl
      cases hc : S' w with
      | false => simp [Lit.holds, hc]
      | true => have := (hS' w hc).2; rw [hSw] at this; cases this

theorem minLoop_done {n : Nat} {H : CNF} (hH : HittingProblem n H) : ∀ {is : List SolveInput} {F : CNF} {as : List Lit} {S : Nat → Bool}
    {st st' : MinState}, MinInv n H F as S st → (∀ i ∈ is, i.Plain) → minLoop n is st = some st' → ∃ S', MinDone n H S' st'
  | [], _, _, _, _, _, _, _, he => by cases he
  | i :: is, F, as, S, st, st', h, hp, he => by
    unfold minLoop at he
    obtain ⟨⟨st1, b⟩, h1, h2⟩ := Option.bind_eq_some_iff.1 he
    dsimp only at h2
    cases b with
    | true =>
      obtain ⟨F', S', h', _, _⟩ := h.sat hH (hp i (by simp)) h1
      exact minLoop_done hH h' (fun j hj => hp j (List.mem_cons_of_mem _ hj)) h2
    | false => cases h2; exact ⟨S, h.done (hp i (by simp)) h1⟩

theorem minStart_inv {n : Nat} {H : CNF} (hH : HittingProblem n H) (hne : [] ∉ H) (b : Bool) :
    MinInv n H (Problem.empty.readClauses H).problem [] (fun _ => true) (minStart n H (Sys.new b)) := by
  refine ⟨?_, fun c hc => hc, ?_, ?_, by simp, by simp [minStart], by simp [minStart], ?_⟩
  · have := hist_read (u := .plain) rfl (History.new b) H
    rwa [List.nil_append] at this
  · intro a _ ha
    exact (C03_meaning H a).2 ha
  · simp only [minStart]
    rw [List.filter_eq_self.2 (fun _ _ => rfl)]
  · intro c hc
    cases c with
    | nil => exact (hne hc).elim
    | cons l c =>
      obtain ⟨v, hv, rfl⟩ := hH _ hc l (by simp)
      exact ⟨v, hv, rfl, by simp⟩

/-! ### The second loop -/

theorem read_wf {nv : Nat} {f : CNF} : WfCNF ((Problem.mk [] nv).readClauses f).nVars ((Problem.mk [] nv).readClauses f).problem := by
  obtain ⟨h1, h2⟩ := C03_append (Problem.mk [] nv) f
  rw [h1, h2]
  intro c hc
  have hc : c ∈ (Problem.empty.readClauses f).problem := by simpa using hc
  exact ⟨fun l hl => Nat.lt_of_lt_of_le ((readClauses_wf f c hc).1 l hl) (Nat.le_max_right _ _), (readClauses_wf f c hc).2⟩

/-- What the second loop keeps. -/
structure CntInv (n : Nat) (H F : CNF) (st : MinState) : Prop where
  hist : History .plain F st.assumptions st.sys
  base : ∀ c ∈ (Problem.empty.readClauses H).problem, c ∈ F
  card : ∃ S, st.cardinality = ((List.range n).filter S).map neg ∧ ∀ c ∈ H, ∃ v < n, S v = true ∧ pos v ∈ c

theorem psat_hits {n : Nat} {H F : CNF} (hH : HittingProblem n H) (hb : ∀ c ∈ (Problem.empty.readClauses H).problem, c ∈ F) {m : PAssign}
    (hm : PSat m F) : ∀ c ∈ H, ∃ v < n, (m v == some true) = true ∧ pos v ∈ c := by
  intro c hc
  have ht : ¬ ∃ l ∈ c, l.neg ∈ c := by
    rintro ⟨l, hl, hn⟩
    obtain ⟨v, _, rfl⟩ := hH c hc l hl
    obtain ⟨w, _, e⟩ := hH c hc _ hn
    simp [pos, Lit.neg] at e
  obtain ⟨g, hg, hgm⟩ := C03_clauses H
  have hin : g c ∈ (Problem.empty.readClauses H).problem := by
    rw [hg]
    exact List.mem_map.2 ⟨c, List.mem_filter.2 ⟨hc, by simpa using ht⟩, rfl⟩
  obtain ⟨l, hl, htr⟩ := hm _ (hb _ hin)
  have hl := (hgm c l).1 hl
  obtain ⟨v, hv, rfl⟩ := hH c hc l hl
  refine ⟨v, hv, ?_, hl⟩
  simp [Lit.trueIn] at htr
  simp [htr]

theorem cntIter_cases {n : Nat} {os : List Lit} {i : SolveInput} {nv nv' : Nat} {st st' : MinState} {b : Bool}
    (he : cntIter n os i nv st = some ((st', nv'), b)) :
    ∃ q sys' res, q = (Problem.mk [] nv).readClauses (lessThanClauses os st.cardinality.length []) ∧
      solve i.cfg i.pre i.rounds (st.sys.init q.nVars q.problem) = some (sys', res) ∧
      ((res.status = some true ∧ b = true ∧ st' = ⟨sys', negTrue n res true, st.assumptions, res.status⟩) ∨
        (res.status ≠ some true ∧ b = false ∧ st' = { st with sys := sys', satisfiable := res.status })) := by
  unfold cntIter at he
  obtain ⟨⟨sys', res⟩, h1, h2⟩ := Option.map_eq_some_iff.1 he
  refine ⟨_, sys', res, rfl, h1, ?_⟩
  dsimp only at h2
  split at h2
  · next hs => cases h2; exact .inl ⟨hs, rfl, rfl⟩
  · next hs => cases h2; exact .inr ⟨hs, rfl, rfl⟩

theorem CntInv.iter {n : Nat} {H F : CNF} {os : List Lit} {i : SolveInput} {nv nv' : Nat} {st st' : MinState} {b : Bool}
    (hH : HittingProblem n H) (h : CntInv n H F st) (hi : i.Plain) (he : cntIter n os i nv st = some ((st', nv'), b)) :
    (∃ G, CntInv n H (F ++ G) st') ∧ (b = false → st'.cardinality = st.cardinality) ∧
      (b = true → Satisfiable (F ++ unitsOf st.assumptions)) ∧ st'.assumptions = st.assumptions := by
  obtain ⟨q, sys', res, hq, hs, hc⟩ := cntIter_cases he
  have hw : WfCNF q.nVars q.problem := by rw [hq]; exact read_wf
  have h1 := h.hist.add q.nVars q.problem true rfl fun c hc =>
    ⟨fun l hl => Nat.lt_of_lt_of_le ((hw c hc).1 l hl) (Nat.le_max_right _ _), (hw c hc).2⟩
  have h2 := h1.solve _ _ _ hi.1 hi.2 hs
  have hb : ∀ c ∈ (Problem.empty.readClauses H).problem, c ∈ F ++ q.problem := fun c hc => List.mem_append_left _ (h.base c hc)
  rcases hc with ⟨e1, rfl, rfl⟩ | ⟨e1, rfl, rfl⟩
  · obtain ⟨m1, m2, _⟩ := C20_sat_model_partial h1 hi.1 hi.2 hs e1
    refine ⟨⟨q.problem, h2, hb, fun v => res.model v == some true, ?_, psat_hits hH hb m1⟩, (fun h => by cases h), fun _ => ?_, rfl⟩
    · simp only [negTrue]
      congr 1
      exact List.filter_congr fun v _ => by simp
    · refine PSat.satisfiable (m := res.model) fun c hc => ?_
      rcases List.mem_append.1 hc with hc | hc
      · exact m1 c (List.mem_append_left _ hc)
      · simp only [unitsOf, List.mem_map] at hc
        obtain ⟨l, hl, rfl⟩ := hc
        exact ⟨l, by simp, m2 l hl⟩
  · exact ⟨⟨q.problem, h2, hb, h.card⟩, fun _ => rfl, (fun h => by cases h), rfl⟩

theorem cntLoop_inv {n : Nat} {H : CNF} {os : List Lit} (hH : HittingProblem n H) : ∀ {is : List SolveInput} {F : CNF} {nv : Nat} {st st' : MinState},
    CntInv n H F st → (∀ i ∈ is, i.Plain) → cntLoop n os is nv st = some st' →
    (∃ F', CntInv n H F' st') ∧ (¬Satisfiable (F ++ unitsOf st.assumptions) → st'.cardinality = st.cardinality)
  | [], _, _, _, _, _, _, he => by cases he
  | i :: is, F, nv, st, st', h, hp, he => by
    unfold cntLoop at he
    obtain ⟨⟨⟨st1, nv1⟩, b⟩, h1, h2⟩ := Option.bind_eq_some_iff.1 he
    dsimp only at h2
    obtain ⟨⟨G, k1⟩, k2, k3, k4⟩ := h.iter hH (hp i (by simp)) h1
    cases b with
    | true =>
      have := cntLoop_inv hH k1 (fun j hj => hp j (List.mem_cons_of_mem _ hj)) h2
      exact ⟨this.1, fun hu => (hu (k3 rfl)).elim⟩
    | false => cases h2; exact ⟨⟨_, k1⟩, fun _ => k2 rfl⟩

/-! The counter is a well-formed problem. -/

theorem wf_read_of {p : Problem} (h : WfCNF p.nVars p.problem) (f : CNF) : WfCNF (p.readClauses f).nVars (p.readClauses f).problem := by
  obtain ⟨h1, h2⟩ := C03_append p f
  rw [h1, h2]
  intro c hc
  rcases List.mem_append.1 hc with hc | hc
  · exact ⟨fun l hl => Nat.lt_of_lt_of_le ((h c hc).1 l hl) (Nat.le_max_left _ _), (h c hc).2⟩
  · exact ⟨fun l hl => Nat.lt_of_lt_of_le ((readClauses_wf f c hc).1 l hl) (Nat.le_max_right _ _), (readClauses_wf f c hc).2⟩

theorem wf_newVar {p : Problem} (h : WfCNF p.nVars p.problem) : WfCNF p.newVar.1.nVars p.newVar.1.problem :=
  fun c hc => ⟨fun l hl => Nat.lt_succ_of_lt ((h c hc).1 l hl), (h c hc).2⟩

theorem wf_adders : ∀ (a b : List Lit) (c : Lit) {p : Problem}, WfCNF p.nVars p.problem → WfCNF (adders a b c p).1.nVars (adders a b c p).1.problem
  | [], _, _, _, h => h
  | _ :: as, [], _, _, h => by
    unfold adders
    exact wf_adders as [] _ (wf_read_of (wf_newVar (wf_newVar h)) _)
  | _ :: as, _ :: bs, _, _, h => by
    unfold adders
    exact wf_adders as bs _ (wf_read_of (wf_newVar (wf_newVar h)) _)

theorem wf_parCounter : ∀ (n : Nat) (ls : List Lit) {p : Problem}, WfCNF p.nVars p.problem → WfCNF (parCounter n p ls).1.nVars (parCounter n p ls).1.problem
  | 0, _, _, h => h
  | _ + 1, [], _, h => h
  | _ + 1, [_], _, h => h
  | n + 1, x :: y :: zs, p, h => by
    unfold parCounter
    exact wf_adders _ _ _ (wf_parCounter n _ (wf_parCounter n _ h))

theorem minCount_inv {n : Nat} {H : CNF} (hH : HittingProblem n H) {S : Nat → Bool} {is : List SolveInput} {st st' : MinState}
    (h : MinDone n H S st) (hp : ∀ i ∈ is, i.Plain) (he : minCount n is st = some st') :
    (∃ S', st'.cardinality = ((List.range n).filter S').map neg ∧ ∀ c ∈ H, ∃ v < n, S' v = true ∧ pos v ∈ c) ∧
      (st.satisfiable = some false → st'.cardinality = st.cardinality) := by
  obtain ⟨F, h1, h2, h3⟩ := h.hist
  unfold minCount at he
  have hw := wf_parCounter n ((List.range n).map pos) (p := Problem.empty) (by intro c hc; cases hc)
  dsimp only at he
  generalize hr : parCounter n Problem.empty ((List.range n).map pos) = r at he hw
  have h4 := h1.add r.1.nVars r.1.problem true rfl fun c hc =>
    ⟨fun l hl => Nat.lt_of_lt_of_le ((hw c hc).1 l hl) (Nat.le_max_right _ _), (hw c hc).2⟩
  obtain ⟨⟨F', k1⟩, k2⟩ := cntLoop_inv hH (F := F ++ r.1.problem)
    (st := { st with sys := st.sys.init r.1.nVars r.1.problem }) ⟨h4, fun c hc => List.mem_append_left _ (h2 c hc), S, h.card, h.hits⟩ hp he
  refine ⟨k1.card, fun hf => k2 ?_⟩
  rintro ⟨a, ha⟩
  rw [sat_append, sat_append] at ha
  exact h3 hf ⟨a, sat_append.2 ⟨ha.1.1, ha.2⟩⟩

/-! ### Purification and translation -/

theorem value_eq {m : SolverResult} (hp : ∀ x ∈ m.model, LBool.Proper x) {l : Lit} {x : Option Lit} (h : m.value l.var = some x) :
    x = some l ↔ l.trueIn m.assignment := by
  rw [← SolverResult.satisfies_iff hp]
  unfold SolverResult.value at h
  unfold SolverResult.satisfies
  obtain ⟨v, s⟩ := l
  cases hx : m.model[v]? with
  | none => simp only at h; rw [hx] at h; cases h
  | some y =>
    simp only at h ⊢
    rw [hx] at h
    dsimp only at h ⊢
    rcases LBool.proper_cases (hp y (List.mem_of_getElem? hx)) with rfl | rfl | rfl | rfl <;> cases s <;>
      simp [LBool.eq, LBool.T, LBool.F, LBool.U, LBool.xor] at h ⊢ <;> simp [← h]

theorem purifyClause_spec {m : SolverResult} (hp : ∀ x ∈ m.model, LBool.Proper x) : ∀ {c d : Clause}, purifyClause m c = some d →
    ∀ l, l ∈ d ↔ ∃ k ∈ c, k.trueIn m.assignment ∧ l = pos k.var
  | [], d, h, l => by simp only [purifyClause, Option.some.injEq] at h; simp [← h]
  | k :: c, d, h, l => by
    simp only [purifyClause] at h
    split at h
    · next x d' h1 h2 =>
      cases h
      have ih := purifyClause_spec hp h2 l
      have hv := value_eq hp h1
      by_cases hx : x = some k
      · rw [if_pos hx]
        simp only [List.mem_cons, ih, exists_eq_or_imp, hv.1 hx, true_and]
      · rw [if_neg hx]
        simp only [ih, List.mem_cons, exists_eq_or_imp, mt hv.2 hx, false_and, false_or]
    · cases h

theorem purify_spec {m : SolverResult} (hp : ∀ x ∈ m.model, LBool.Proper x) : ∀ {F H : CNF}, purify m F = some H →
    (∀ c ∈ F, ∃ d ∈ H, ∀ l, l ∈ d ↔ ∃ k ∈ c, k.trueIn m.assignment ∧ l = pos k.var) ∧
    (∀ d ∈ H, ∃ c ∈ F, ∀ l, l ∈ d ↔ ∃ k ∈ c, k.trueIn m.assignment ∧ l = pos k.var)
  | [], H, h => by simp only [purify, Option.some.injEq] at h; subst h; simp
  | c :: F, H, h => by
    simp only [purify] at h
    split at h
    · next d H' h1 h2 =>
      cases h
      have ih := purify_spec hp h2
      have hd := purifyClause_spec hp h1
      constructor
      · intro c' hc'
        rcases List.mem_cons.1 hc' with rfl | hc'
        · exact ⟨d, by simp, hd⟩
        · obtain ⟨d', h3, h4⟩ := ih.1 c' hc'
          exact ⟨d', List.mem_cons_of_mem _ h3, h4⟩
      · intro d' hd'
        rcases List.mem_cons.1 hd' with rfl | hd'
        · exact ⟨c, by simp, hd⟩
        · obtain ⟨c', h3, h4⟩ := ih.2 d' hd'
          exact ⟨c', List.mem_cons_of_mem _ h3, h4⟩
    · cases h

theorem purifyClause_defined {m : SolverResult} : ∀ {c : Clause}, (∀ l ∈ c, l.var < m.model.length) → ∃ d, purifyClause m c = some d
  | [], _ => ⟨[], rfl⟩
  | l :: c, h => by
    obtain ⟨d, hd⟩ := purifyClause_defined fun k hk => h k (List.mem_cons_of_mem _ hk)
    have hv : ∃ x, m.value l.var = some x := by
      unfold SolverResult.value
      rw [List.getElem?_eq_getElem (h l (by simp))]
      dsimp only
      split
      · exact ⟨_, rfl⟩
      · split <;> exact ⟨_, rfl⟩
    obtain ⟨x, hx⟩ := hv
    simp only [purifyClause, hd, hx]
    exact ⟨_, rfl⟩

theorem purify_defined {m : SolverResult} : ∀ {F : CNF}, (∀ c ∈ F, ∀ l ∈ c, l.var < m.model.length) → ∃ H, purify m F = some H
  | [], _ => ⟨[], rfl⟩
  | c :: F, h => by
    obtain ⟨d, hd⟩ := purifyClause_defined (h c (by simp))
    obtain ⟨H, hH⟩ := purify_defined fun c' hc' => h c' (List.mem_cons_of_mem _ hc')
    simp only [purify, hd, hH]
    exact ⟨_, rfl⟩

theorem translate_eq (m : SolverResult) : ∀ (ls : List Lit) (r : SolverResult) (ks : List Lit), Represents r.minimizedModel ks →
    Represents (ls.foldl (fun r l => r.setMinimizedModelValue (if m.satisfies l then l else l.neg)) r).minimizedModel
      (ks ++ ls.map fun l => if m.satisfies l then l else l.neg)
  | [], _, _, h => by simpa using h
  | l :: ls, r, ks, h => by
    rw [List.foldl_cons, List.map_cons]
    have := translate_eq m ls (r.setMinimizedModelValue (if m.satisfies l then l else l.neg)) (ks ++ [if m.satisfies l then l else l.neg])
      (h.store _)
    rwa [List.append_assoc] at this

/-- The minimised model after `translate`: the literals of the model over the given variables. -/
theorem mem_translate {m : SolverResult} (hp : ∀ x ∈ m.model, LBool.Proper x) (h0 : m.minimizedModel = []) {vs : List Nat}
    (htot : ∀ v ∈ vs, m.assignment v ≠ none) (l : Lit) :
    l ∈ (translate m (vs.map pos)).getMinimizedModelLiterals ↔ l.var ∈ vs ∧ l.trueIn m.assignment := by
  have hr := translate_eq m (vs.map pos) m [] (by rw [h0]; exact ⟨by simp, by intro v; rfl, rfl⟩)
  rw [List.nil_append] at hr
  unfold translate SolverResult.getMinimizedModelLiterals
  rw [mem_literalsFrom hr.proper, Nat.sub_zero, hr.val]
  simp only [Nat.zero_le, true_and]
  have key : ∀ v ∈ vs, ∃ b, m.assignment v = some b ∧ (if m.satisfies (pos v) then pos v else (pos v).neg) = ⟨v, !b⟩ := by
    intro v hv
    cases ha : m.assignment v with
    | none => exact (htot v hv ha).elim
    | some b =>
      refine ⟨b, rfl, ?_⟩
      have := SolverResult.satisfies_iff hp (pos v)
      cases b with
      | true => rw [if_pos (this.2 (by simp [Lit.trueIn, ha]))]; rfl
      | false => rw [if_neg (by rw [this]; simp [Lit.trueIn, ha])]; rfl
  unfold lastValue
  rw [← List.map_reverse, ← List.map_reverse, List.map_map]
  constructor
  · intro h
    obtain ⟨k, h1, h2⟩ := Option.map_eq_some_iff.1 h
    have h3 := List.mem_of_find?_eq_some h1
    have h4 := List.find?_some h1
    obtain ⟨v, hv, rfl⟩ := List.mem_map.1 h3
    obtain ⟨b, k1, k2⟩ := key v (by simpa using hv)
    simp only [Function.comp_apply, k2, beq_iff_eq] at h2 h4
    subst h4
    refine ⟨by simpa using hv, ?_⟩
    simp only [Lit.trueIn, k1]
    simpa using h2
  · rintro ⟨h1, h2⟩
    obtain ⟨b, k1, k2⟩ := key _ h1
    cases hf : (vs.reverse.map ((fun l => if m.satisfies l = true then l else l.neg) ∘ pos)).find? fun k => k.var == l.var with
    | none =>
      have := List.find?_eq_none.1 hf _ (List.mem_map.2 ⟨l.var, by simpa using h1, rfl⟩)
      simp only [Function.comp_apply, k2] at this
      simp at this
    | some k =>
      have h3 := List.mem_of_find?_eq_some hf
      have h4 := List.find?_some hf
      obtain ⟨v, hv, rfl⟩ := List.mem_map.1 h3
      obtain ⟨b', k1', k2'⟩ := key v (by simpa using hv)
      simp only [Function.comp_apply, k2', beq_iff_eq] at h4
      subst h4
      simp only [Option.map_some, Function.comp_apply, k2']
      simp only [Lit.trueIn, k1'] at h2
      simpa using h2

end Candy
