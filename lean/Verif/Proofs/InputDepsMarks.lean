import Verif.Proofs.InputDeps
import Verif.Proofs.Refinement

/-!
# Marks of the heuristic that counts inputs
-/

namespace Candy.InputDeps
open Candy.EquivImpls (Inv CommitOk commit_ok keysA)

/-- The variables of the implications of a class. -/
def keys (e : EquivImpls) : List Nat := e.implications.map fun i => i.1.var

theorem keys_perm {s : EquivImpls} {L : List Lit} (h : Inv s L) : (keys s).Perm (L.map Lit.var) := by
  rw [← keysA L]
  exact h.ante.values.map _

theorem keys_all : ∀ {ss : List EquivImpls} {Ls : List (List Lit)}, AllInv ss Ls → (ss.flatMap keys).Perm (varsOf Ls)
  | [], [], _ => by simp [varsOf]
  | s :: ss, L :: Ls, h => by
    rw [List.flatMap_cons, varsOf_cons]
    exact (keys_perm h.1).append (keys_all h.2)
  | [], _ :: _, h => h.elim
  | _ :: _, [], h => h.elim

theorem foldl_implications : ∀ (m : List Nat) (s : EquivImpls), (m.foldl EquivImpls.addRemoval s).implications = s.implications
  | [], _ => rfl
  | _ :: m, s => foldl_implications m (s.addRemoval _)

/-- In every class where the variable occurs, it is to be removed. -/
def Queued (v : Nat) (ss : List EquivImpls) : Prop := ∀ s ∈ ss, v ∈ keys s → v ∈ s.queue

theorem Queued.markEqs {v : Nat} : ∀ {ms : List (List Nat)} {ss : List EquivImpls}, Queued v ss → Queued v (markEqs ms ss)
  | [], _, h => by simpa [Candy.markEqs] using h
  | _ :: _, [], h => by simpa [Candy.markEqs] using h
  | m :: ms, s :: ss, h => by
    intro t ht hv
    rw [Candy.markEqs] at ht
    rcases List.mem_cons.1 ht with rfl | ht
    · unfold keys at hv
      rw [foldl_implications] at hv
      exact foldl_request_queue m s v (.inl (h s (List.mem_cons_self ..) hv))
    · exact (Queued.markEqs (ms := ms) (ss := ss) fun t ht => h t (List.mem_cons_of_mem _ ht)) t ht hv

theorem Queued.marks {v : Nat} : ∀ (ms : List Marks) {s : ApproxState}, Queued v s.eqs → Queued v (ms.foldl ApproxState.mark s).eqs
  | [], _, h => h
  | m :: ms, s, h => by
    rw [List.foldl_cons]
    exact Queued.marks ms (s := s.mark m) h.markEqs

/-- The backbone of the variable, if any, is to be removed. -/
def QueuedBB (v : Nat) (b : Backbones) : Prop := (∃ l ∈ b.lits, l.var = v) → v ∈ b.queue

theorem QueuedBB.mark {v : Nat} {s : ApproxState} (m : Marks) (h : QueuedBB v s.bbs) : QueuedBB v (s.mark m).bbs := by
  unfold QueuedBB
  rw [mark_lits]
  intro hl
  unfold ApproxState.mark
  dsimp only
  split
  · exact h hl
  · exact foldl_request_bb _ _ _ (.inl (h hl))

theorem QueuedBB.marks {v : Nat} : ∀ (ms : List Marks) {s : ApproxState}, QueuedBB v s.bbs → QueuedBB v (ms.foldl ApproxState.mark s).bbs
  | [], _, h => h
  | m :: ms, s, h => by
    rw [List.foldl_cons]
    exact QueuedBB.marks ms (h.mark m)

theorem genericMarkRemovals_spec : ∀ (vs set : List Nat) (v : Nat),
    (v ∈ (genericMarkRemovals vs set).1 ↔ v ∈ vs ∧ v ∈ set) ∧
    (v ∈ (genericMarkRemovals vs set).2 ↔ v ∉ vs ∧ v ∈ set)
  | [], set, v => by simp [genericMarkRemovals]
  | w :: vs, set, v => by
    rw [genericMarkRemovals]
    by_cases hc : w ∈ set
    · rw [if_pos (List.contains_iff_mem.2 hc)]
      obtain ⟨h1, h2⟩ := genericMarkRemovals_spec vs (set.filter (· != w)) v
      dsimp only
      rw [List.mem_cons, h1, h2, List.mem_filter, List.mem_cons]
      by_cases e : v = w
      · subst e; simp [hc]
      · simp [e]
    · rw [if_neg (fun h => hc (List.contains_iff_mem.1 h))]
      obtain ⟨h1, h2⟩ := genericMarkRemovals_spec vs set v
      rw [h1, h2, List.mem_cons]
      by_cases e : v = w
      · subst e; simp [hc]
      · simp [e]

theorem queued_absent {v : Nat} {ss : List EquivImpls} (h : v ∉ ss.flatMap keys) : Queued v ss := fun s hs hv =>
  absurd (List.mem_flatMap.2 ⟨s, hs, hv⟩) h

theorem markEquivs_queued {v : Nat} : ∀ (ss : List EquivImpls) (set : List Nat), (ss.flatMap keys).Nodup → v ∈ set →
    Queued v (markEqs (markEquivs ss set).1 ss)
  | [], set, _, _ => by intro s hs; simp [markEquivs, Candy.markEqs] at hs
  | s :: ss, set, hn, hv => by
    rw [List.flatMap_cons, List.nodup_append] at hn
    show Queued v (Candy.markEqs ((genericMarkRemovals (keys s) set).1 ::
      (markEquivs ss (genericMarkRemovals (keys s) set).2).1) (s :: ss))
    rw [Candy.markEqs]
    obtain ⟨g1, g2⟩ := genericMarkRemovals_spec (keys s) set v
    intro t ht hvt
    rcases List.mem_cons.1 ht with rfl | ht
    · unfold keys at hvt
      rw [foldl_implications] at hvt
      exact foldl_request_queue _ s v (.inr (g1.2 ⟨hvt, hv⟩))
    · by_cases hk : v ∈ keys s
      · have : v ∉ ss.flatMap keys := fun h => hn.2.2 v hk v h rfl
        exact (queued_absent this).markEqs t ht hvt
      · exact markEquivs_queued ss _ hn.2.1 (g2.2 ⟨hk, hv⟩) t ht hvt

theorem markEquivs_congr : ∀ {ss ss' : List EquivImpls} (set : List Nat), ss.map EquivImpls.implications = ss'.map EquivImpls.implications →
    markEquivs ss set = markEquivs ss' set
  | [], [], _, _ => rfl
  | s :: ss, s' :: ss', set, h => by
    simp only [List.map_cons, List.cons.injEq] at h
    simp only [markEquivs]
    rw [h.1, markEquivs_congr _ h.2]
  | [], _ :: _, _, h => by simp at h
  | _ :: _, [], _, h => by simp at h

/-- The marks depend only on the conjectures that are left. -/
theorem Heuristic.marks_congr (h : Heuristic) {s s' : ApproxState} (he : s.eqs.map EquivImpls.implications = s'.eqs.map EquivImpls.implications)
    (hb : s.bbs.lits = s'.bbs.lits) : h.marks s = h.marks s' := by
  have hl : s.eqs.map (fun _ => ([] : List Nat)) = s'.eqs.map fun _ => [] := by
    have := congrArg List.length he
    simp only [List.length_map] at this
    simp only [List.map_const', this]
  unfold Heuristic.marks
  dsimp only
  rw [hb, hl, markEquivs_congr _ he]

/-- The heuristic marks what is due, if no variable is both in a class and a backbone. -/
theorem Heuristic.marks_queued (h : Heuristic) {s : ApproxState} {v : Nat} {set : List Nat} (hs : h.byStep[h.step]? = some set) (hv : v ∈ set)
    (hn : (s.eqs.flatMap keys).Nodup) (hd : ∀ l ∈ s.bbs.lits, l.var ∉ s.eqs.flatMap keys) :
    Queued v (s.mark (h.marks s).1).eqs ∧ QueuedBB v (s.mark (h.marks s).1).bbs := by
  have hlt : h.step < h.byStep.length := (List.getElem?_eq_some_iff.1 hs).1
  have hg : h.byStep.getD h.step [] = set := by rw [List.getD_eq_getElem?_getD, hs]; rfl
  unfold Heuristic.marks
  dsimp only
  rw [if_neg (by omega), Nat.add_sub_cancel, hg]
  dsimp only
  unfold ApproxState.mark
  dsimp only
  by_cases hb : s.bbs.lits.isEmpty = true
  · rw [if_pos hb, if_pos hb]
    refine ⟨markEquivs_queued _ _ hn hv, ?_⟩
    rintro ⟨l, hl, _⟩
    rw [List.isEmpty_iff.1 hb] at hl
    cases hl
  · rw [if_neg hb, if_neg hb]
    obtain ⟨g1, g2⟩ := genericMarkRemovals_spec (s.bbs.lits.map Lit.var) set v
    by_cases hm : v ∈ s.bbs.lits.map Lit.var
    · constructor
      · refine (queued_absent ?_).markEqs
        obtain ⟨l, hl, rfl⟩ := List.mem_map.1 hm
        exact hd l hl
      · exact fun _ => foldl_request_bb _ _ _ (.inr (g1.2 ⟨hm, hv⟩))
    · constructor
      · exact markEquivs_queued _ _ hn (g2.2 ⟨hm, hv⟩)
      · rintro ⟨l, hl, rfl⟩
        rw [bb_marks_lits] at hl
        exact absurd (List.mem_map.2 ⟨l, hl, rfl⟩) hm

theorem markEquivs_only {v : Nat} : ∀ (ss : List EquivImpls) (set : List Nat), ∀ m ∈ (markEquivs ss set).1, v ∈ m → v ∈ set
  | [], _, m, hm, _ => by simp [markEquivs] at hm
  | s :: ss, set, m, hm, hv => by
    have hm' : m ∈ (genericMarkRemovals (keys s) set).1 :: (markEquivs ss (genericMarkRemovals (keys s) set).2).1 := hm
    obtain ⟨g1, g2⟩ := genericMarkRemovals_spec (keys s) set v
    rcases List.mem_cons.1 hm' with rfl | hm'
    · exact (g1.1 hv).2
    · exact (g2.1 (markEquivs_only ss _ m hm' hv)).2

/-- The heuristic marks only what is due. -/
theorem Heuristic.marks_only (h : Heuristic) {s : ApproxState} {v : Nat}
    (hv : v ∈ (h.marks s).1.bbs ∨ ∃ ms ∈ (h.marks s).1.eqs, v ∈ ms) : ∃ set, h.byStep[h.step]? = some set ∧ v ∈ set := by
  unfold Heuristic.marks at hv
  dsimp only at hv
  by_cases hl : h.byStep.length < h.step + 1
  · rw [if_pos hl] at hv
    rcases hv with hv | ⟨ms, h1, h2⟩
    · simp at hv
    · simp only [List.mem_map] at h1
      obtain ⟨_, _, rfl⟩ := h1
      cases h2
  · rw [if_neg hl, Nat.add_sub_cancel] at hv
    have hs := List.getElem?_eq_getElem (l := h.byStep) (i := h.step) (by omega)
    refine ⟨_, hs, ?_⟩
    have hg : h.byStep.getD h.step [] = h.byStep[h.step] := by rw [List.getD_eq_getElem?_getD, hs]; rfl
    rw [hg] at hv
    dsimp only at hv
    generalize h.byStep[h.step] = set at hv
    by_cases hb : s.bbs.lits.isEmpty = true
    · rw [if_pos hb] at hv
      rcases hv with hv | ⟨ms, h1, h2⟩
      · cases hv
      · exact markEquivs_only _ _ _ h1 h2
    · rw [if_neg hb] at hv
      obtain ⟨g1, g2⟩ := genericMarkRemovals_spec (s.bbs.lits.map Lit.var) set v
      rcases hv with hv | ⟨ms, h1, h2⟩
      · exact (g1.1 hv).2
      · exact (g2.1 (markEquivs_only _ _ _ h1 h2)).2

theorem Heuristic.marks_next (h : Heuristic) (s : ApproxState) :
    (h.marks s).2.step = h.step + 1 ∧ (h.marks s).2.byStep.length = h.byStep.length ∧
    ∀ j, h.step < j → (h.marks s).2.byStep[j]? = h.byStep[j]? := by
  unfold Heuristic.marks
  dsimp only
  split
  · exact ⟨rfl, rfl, fun _ _ => rfl⟩
  · refine ⟨rfl, by simp, fun j hj => ?_⟩
    dsimp only
    rw [Nat.add_sub_cancel, List.getElem?_set_ne (by omega)]

/-- One round of a refinement strategy: marks, and the removal of what is marked. -/
def Round (ms : List Marks) (s s' : ApproxState) : Prop :=
  ∃ fuel ss' d, ApproxState.commitAll fuel (ms.foldl ApproxState.mark s).eqs = some (ss', d) ∧
    s' = ⟨ss', (ms.foldl ApproxState.mark s).bbs.commit.1⟩

theorem addImpls_approx : ∀ (is : List Implication) (x : Strategy × CNF), (is.foldl Strategy.addImpl x).1.approx = x.1.approx
  | [], _ => rfl
  | _ :: is, x => by rw [List.foldl_cons, addImpls_approx is]; rfl

theorem addBackbones_approx : ∀ (ls : List Lit) (x : Strategy × CNF), (ls.foldl Strategy.addBackbone x).1.approx = x.1.approx
  | [], _ => rfl
  | _ :: ls, x => by rw [List.foldl_cons, addBackbones_approx ls]; rfl

theorem init_round {st st' : Strategy} {fuel : Nat} {ms : List Marks} {cls : CNF} (h : st.init fuel ms = some (st', cls)) :
    Round ms st.approx st'.approx := by
  unfold Strategy.init ApproxState.createInitializationDelta at h
  rw [Option.map_map] at h
  obtain ⟨⟨ss', d⟩, hc, h⟩ := Option.map_eq_some_iff.1 h
  dsimp only [Function.comp] at h
  refine ⟨fuel, ss', d, hc, ?_⟩
  have := congrArg (fun x : Strategy × CNF => x.1.approx) h
  dsimp only at this
  rw [← this]
  unfold Strategy.encodeInitial Strategy.encode
  dsimp only
  rw [addBackbones_approx, addImpls_approx]

theorem refine_round {st st' : Strategy} {fuel : Nat} {ms : List Marks} {cls : CNF} (h : st.refine fuel ms = some (st', cls)) :
    Round ms st.approx st'.approx := by
  unfold Strategy.refine at h
  obtain ⟨⟨ap, d⟩, hx, h⟩ := Option.bind_eq_some_iff.1 h
  obtain ⟨st1, hu, h⟩ := Option.map_eq_some_iff.1 h
  unfold ApproxState.createDelta at hx
  obtain ⟨⟨ss', ed⟩, hc, hx⟩ := Option.map_eq_some_iff.1 hx
  refine ⟨fuel, ss', ed, hc, ?_⟩
  have e2 := congrArg (fun x : Strategy × CNF => x.1.approx) h
  dsimp only at e2
  rw [← e2]
  unfold Strategy.encode
  rw [addImpls_approx]
  unfold Strategy.updateAssumptionLiterals at hu
  obtain ⟨as, _, hu⟩ := Option.map_eq_some_iff.1 hu
  rw [← hu]
  simp only [Prod.mk.injEq] at hx
  exact hx.1.symm

theorem commitAll_keys {fuel : Nat} : ∀ {ss : List EquivImpls} {Ls : List (List Lit)} {ss' : List EquivImpls} {d : EqDelta}, AllInv ss Ls →
    ApproxState.commitAll fuel ss = some (ss', d) →
    ∀ v ∈ ss'.flatMap keys, v ∈ ss.flatMap keys ∧ ¬ Queued v ss
  | [], [], ss', d, _, h => by
    simp only [ApproxState.commitAll, Option.some.injEq, Prod.mk.injEq] at h
    obtain ⟨rfl, rfl⟩ := h
    simp
  | s :: ss, L :: Ls, ss', d, hi, h => by
    simp only [ApproxState.commitAll] at h
    split at h
    · cases h
    · rename_i s1 d1 hc
      obtain ⟨r, hr, h⟩ := Option.map_eq_some_iff.1 h
      obtain ⟨ss1, d2⟩ := r
      simp only [Prod.mk.injEq] at h
      obtain ⟨rfl, rfl⟩ := h
      obtain ⟨L', ok⟩ := commit_ok hi.1 hc
      intro v hv
      rw [List.flatMap_cons, List.mem_append] at hv
      rcases hv with hv | hv
      · rw [(keys_perm ok.inv).mem_iff] at hv
        obtain ⟨l, hl, rfl⟩ := List.mem_map.1 hv
        obtain ⟨a, b⟩ := CommitOk.sub ok l hl
        have hk : l.var ∈ keys s := (keys_perm hi.1).mem_iff.2 (List.mem_map.2 ⟨l, a, rfl⟩)
        exact ⟨by rw [List.flatMap_cons]; exact List.mem_append_left _ hk, fun hq => b (hq s (List.mem_cons_self ..) hk)⟩
      · obtain ⟨a, b⟩ := commitAll_keys hi.2 hr v hv
        exact ⟨by rw [List.flatMap_cons]; exact List.mem_append_right _ a, fun hq => b fun t ht => hq t (List.mem_cons_of_mem _ ht)⟩
  | [], _ :: _, _, _, h, _ => h.elim
  | _ :: _, [], _, _, h, _ => h.elim

/-- No variable is in two conjectures. -/
structure Good (s : ApproxState) : Prop where
  inv : ∃ Ls, AllInv s.eqs Ls ∧ (varsOf Ls).Nodup
  one : ∀ l ∈ s.bbs.lits, l.neg ∉ s.bbs.lits
  apart : ∀ l ∈ s.bbs.lits, l.var ∉ s.eqs.flatMap keys

theorem Good.nodup {s : ApproxState} (h : Good s) : (s.eqs.flatMap keys).Nodup := by
  obtain ⟨Ls, h1, h2⟩ := h.inv
  exact (keys_all h1).nodup_iff.2 h2

/-- A variable about which there is a conjecture. -/
def Conjectured (v : Nat) (s : ApproxState) : Prop := v ∈ s.eqs.flatMap keys ∨ ∃ l ∈ s.bbs.lits, l.var = v

theorem flatMap_keys (ss : List EquivImpls) : ss.flatMap keys = ((ss.map EquivImpls.implications).flatMap fun is => is.map fun i => i.1.var) := by
  rw [List.flatMap_map]
  rfl

theorem marks_keys (ms : List Marks) (s : ApproxState) : (ms.foldl ApproxState.mark s).eqs.flatMap keys = s.eqs.flatMap keys := by
  rw [flatMap_keys, flatMap_keys, marks_impls]

theorem Good.round {ms : List Marks} {s s' : ApproxState} (h : Good s) (hr : Round ms s s') :
    Good s' ∧ ∀ v, Conjectured v s' → Conjectured v s ∧
      ¬ (Queued v (ms.foldl ApproxState.mark s).eqs ∧ QueuedBB v (ms.foldl ApproxState.mark s).bbs) := by
  obtain ⟨fuel, ss', d, hc, rfl⟩ := hr
  obtain ⟨Ls, h1, h2⟩ := h.inv
  have hm := marks_inv ms h1
  have hml := marks_lits ms s
  obtain ⟨Ls', ac⟩ := commitAll_ok hm h2 hc
  have hk := commitAll_keys hm hc
  rw [marks_keys] at hk
  obtain ⟨b1, _, _⟩ := Backbones.C42_backbones (ms.foldl ApproxState.mark s).bbs (by rw [hml]; exact h.one)
  have hb : ∀ l ∈ (ms.foldl ApproxState.mark s).bbs.commit.1.lits, l ∈ s.bbs.lits ∧ l.var ∉ (ms.foldl ApproxState.mark s).bbs.queue := by
    intro l hl
    unfold leftLits at b1
    rw [b1, List.mem_filter, hml] at hl
    exact ⟨hl.1, by simpa using hl.2⟩
  refine ⟨⟨⟨Ls', ac.inv, ac.nodup⟩, fun l hl hn => h.one l (hb l hl).1 (hb _ hn).1, fun l hl hv => h.apart l (hb l hl).1 (hk _ hv).1⟩, ?_⟩
  intro v hv
  rcases hv with hv | ⟨l, hl, rfl⟩
  · exact ⟨.inl (hk v hv).1, fun hq => (hk v hv).2 hq.1⟩
  · obtain ⟨a, b⟩ := hb l hl
    exact ⟨.inr ⟨l, a, rfl⟩, fun hq => b (hq.2 ⟨l, by rw [hml]; exact a, rfl⟩)⟩

/-- Invariant of refinement with the heuristic, after `k` rounds. -/
structure RunInv (h0 : Heuristic) (k : Nat) (s : ApproxState) (h : Heuristic) : Prop where
  good : Good s
  step : h.step = k
  later : ∀ j, k ≤ j → h.byStep[j]? = h0.byStep[j]?
  gone : ∀ j < k, ∀ set, h0.byStep[j]? = some set → ∀ v ∈ set, ¬ Conjectured v s

theorem RunInv.round {h0 h : Heuristic} {k : Nat} {s s' : ApproxState} {ms1 ms2 : List Marks} (I : RunInv h0 k s h)
    (hr : Round (ms1 ++ (h.marks s).1 :: ms2) s s') : RunInv h0 (k + 1) s' (h.marks s).2 := by
  obtain ⟨g, hc⟩ := I.good.round hr
  obtain ⟨n1, _, n3⟩ := h.marks_next s
  refine ⟨g, by rw [n1, I.step], fun j hj => ?_, fun j hj set hs v hv hcv => ?_⟩
  · rw [n3 j (by rw [I.step]; omega), I.later j (by omega)]
  · obtain ⟨c1, c2⟩ := hc v hcv
    by_cases e : j < k
    · exact I.gone j e set hs v hv c1
    · obtain rfl : j = k := by omega
      have hs' : h.byStep[h.step]? = some set := by rw [I.step, I.later j (Nat.le_refl _)]; exact hs
      refine c2 ?_
      rw [List.foldl_append, List.foldl_cons]
      have hcg : h.marks (ms1.foldl ApproxState.mark s) = h.marks s :=
        h.marks_congr (marks_impls ms1 s) (marks_lits ms1 s)
      have := h.marks_queued (s := ms1.foldl ApproxState.mark s) hs' hv (by rw [marks_keys]; exact I.good.nodup)
        (by rw [marks_keys, marks_lits]; exact I.good.apart)
      rw [hcg] at this
      exact ⟨Queued.marks ms2 this.1, QueuedBB.marks ms2 this.2⟩

end Candy.InputDeps
