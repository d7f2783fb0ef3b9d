import Verif.Proofs.ArrayAnalyze
import Verif.Proofs.Examples

/-! One iteration of search on arrays. -/

namespace Candy

/-- The arrays represent the state of the solver. -/
structure RepM (m : AMach) (s : Solver) : Prop where
  trail : RepT m.T s.trail
  store : RepS s.db.next m.store s.db.store
  bin : RepWt s.db.nVars m.bin s.db.bin
  watch : RepWt s.db.nVars m.watch s.watch
  stamp : ∃ f, RepSt s.db.nVars m.stamp f
  lbd : ∃ f, RepSt s.db.nVars m.lbd f

theorem RepM.exists_rep {s : Solver} (h : s.trail.stack.length ≤ s.trail.nVars) : ∃ m, RepM m s := by
  obtain ⟨A, hA⟩ := RepT.exists_rep h
  obtain ⟨st, hst⟩ := RepS.exists_rep s.db.next s.db.store
  obtain ⟨b, hb⟩ := RepWt.exists_rep s.db.nVars s.db.bin
  obtain ⟨w, hw⟩ := RepWt.exists_rep s.db.nVars s.watch
  obtain ⟨x, hx⟩ := RepSt.exists_rep s.db.nVars
  exact ⟨⟨A, st, b, w, x, x⟩, hA, hst, hb, hw, ⟨_, hx⟩, ⟨_, hx⟩⟩

variable {F : CNF}

theorem Core.anRange {nV next : Nat} {bin : Lit → List Watcher} {store : Nat → Cls} {T : Trail}
    (h : Core F nV next bin store T) : AnRange next store T where
  inv := h.tinv
  reason v c hv hr := by
    refine ⟨?_, h.reasonOnStack hv hr⟩
    obtain ⟨q, hq, rfl⟩ := hv
    obtain ⟨pre, post, hs⟩ := List.append_of_mem hq
    exact (h.rsome pre q post c hs hr).1

theorem Core.binRange {nV next : Nat} {bin : Lit → List Watcher} {store : Nat → Cls} {T : Trail}
    (h : Core F nV next bin store T) : ∀ p w, w ∈ bin p → w.cref < next ∧ w.blocker.var < nV := by
  intro p w hw
  obtain ⟨h1, h2⟩ := h.binInv p w hw
  refine ⟨h1, h.wf _ h1 _ ?_⟩
  rcases h2 with h2 | h2 <;> simp [h2]

/-! ### The conflict branch -/

theorem Trail.Inv.levelOn {T : Trail} (h : T.Inv) {v : Nat} (hv : OnStack T v) :
    T.level v ≤ T.decisionLevel := by
  obtain ⟨q, hq, rfl⟩ := hv
  exact h.level_le hq

theorem aHandleConflict_sim {m : AMach} {s : Solver} (hm : RepM m s)
    (hc : Core F s.db.nVars s.db.next s.db.bin s.db.store s.trail) {confl : Nat}
    (hconf : Conflict s.db.next s.db.store s.trail confl) (hlv : s.trail.decisionLevel < s.db.nVars)
    {r : AnalysisResult} (he : handleConflict s.db.store s.db.bin s.trail confl = some r) :
    ∃ m', aHandleConflict s.recalc m confl = some (m', r.learnt, r.lbd, r.btlevel) ∧
      RepM m' { s with db := s.db.reestimate s.recalc s.trail r.involved } ∧
      (∀ l ∈ r.learnt, l.var < s.db.nVars) := by
  have hnv : s.trail.nVars = s.db.nVars := hc.nv
  have har := hc.anRange
  unfold handleConflict at he
  unfold aHandleConflict
  cases h1 : analyze s.db.store s.db.bin s.trail confl with
  | none => rw [h1] at he; simp at he
  | some x =>
    obtain ⟨first, rest, inv⟩ := x
    rw [h1] at he
    obtain ⟨f, hst⟩ := hm.stamp
    obtain ⟨g, hlb⟩ := hm.lbd
    obtain ⟨st1, g1, e1, r1, q1, q2⟩ := aAnalyze_sim hm.trail hm.store har
      (by rw [hnv]; exact hm.bin) (fun p w hw => by rw [hnv]; exact (hc.binRange p w hw).2)
      hconf.lt (fun q hq => ⟨q.neg, hconf.allFalse q hq, by simp⟩) (by rw [hnv]; exact hst) h1
    rw [e1]
    dsimp only at he ⊢
    have hlev : ∀ v, OnStack s.trail v → v < s.trail.nVars ∧ s.trail.level v < s.db.nVars := fun v hv =>
      ⟨har.lt hv, by have := hc.tinv.levelOn hv; omega⟩
    obtain ⟨st2, g2, e2, r2⟩ := aLbd_sim hm.trail (first :: rest) hlb (fun l hl => hlev _ (q1 l hl))
    rw [e2]
    dsimp only
    -- the weights
    have hre : ∃ ast st3 g3, (if s.recalc = true then aReestimate m.T inv (m.store, st2) else
          some (m.store, st2)) = some (ast, st3) ∧
        RepS s.db.next ast (s.db.reestimate s.recalc s.trail inv).store ∧ RepSt s.db.nVars st3 g3 := by
      unfold DB.reestimate
      cases hrc : s.recalc with
      | false => exact ⟨_, _, _, rfl, hm.store, r2⟩
      | true =>
        obtain ⟨ast, st3, g3, k1, k2, k3⟩ := aReestimate_sim hm.trail inv hm.store r2
          (fun c hc => ⟨(q2 c hc).1, fun q hq => hlev _ ((q2 c hc).2 q hq)⟩)
        exact ⟨ast, st3, g3, by rw [if_pos rfl]; exact k1, by simpa using k2, k3⟩
    obtain ⟨ast, st3, g3, k1, k2, k3⟩ := hre
    have hrep : RepM { m with store := ast, stamp := st1, lbd := st3 }
        { s with db := s.db.reestimate s.recalc s.trail inv } := by
      have en : (s.db.reestimate s.recalc s.trail inv).nVars = s.db.nVars := by
        unfold DB.reestimate; split <;> rfl
      have ex : (s.db.reestimate s.recalc s.trail inv).next = s.db.next := by
        unfold DB.reestimate; split <;> rfl
      have eb : (s.db.reestimate s.recalc s.trail inv).bin = s.db.bin := by
        unfold DB.reestimate; split <;> rfl
      refine ⟨hm.trail, ?_, ?_, ?_, ⟨g1, ?_⟩, ⟨g3, ?_⟩⟩
      · show RepS (s.db.reestimate s.recalc s.trail inv).next _ _
        rw [ex]; exact k2
      · show RepWt (s.db.reestimate s.recalc s.trail inv).nVars _ (s.db.reestimate s.recalc s.trail inv).bin
        rw [en, eb]; exact hm.bin
      · show RepWt (s.db.reestimate s.recalc s.trail inv).nVars _ _
        rw [en]; exact hm.watch
      · show RepSt (s.db.reestimate s.recalc s.trail inv).nVars _ _
        rw [en, ← hnv]; exact r1
      · show RepSt (s.db.reestimate s.recalc s.trail inv).nVars _ _
        rw [en]; exact k3
    cases rest with
    | nil =>
      simp only [Option.some.injEq] at he
      subst he
      dsimp only
      rw [k1]
      exact ⟨_, rfl, hrep, fun l hl => by rw [← hnv]; exact har.lt (q1 l hl)⟩
    | cons x rs =>
      dsimp only at he ⊢
      have hx := har.lt (q1 x (by simp))
      rw [hm.trail.level hx]
      dsimp only
      rw [aPickSecond_sim hm.trail rs x _ (fun l hl => har.lt (q1 l (by simp [hl])))]
      obtain ⟨p1, _, _⟩ := pickSecond_spec s.trail rs x
      generalize pickSecond s.trail x (s.trail.level x.var) rs = y at *
      obtain ⟨s', b, rs'⟩ := y
      simp only [Option.some.injEq] at he
      subst he
      dsimp only [Option.map_some]
      rw [k1]
      refine ⟨_, rfl, hrep, fun l hl => ?_⟩
      rw [← hnv]
      exact har.lt (q1 l (((List.perm_cons first).2 p1).mem_iff.1 hl))

theorem aCreate_sim {m : AMach} {s : Solver} (hm : RepM m s) {ls : List Lit} {lbd : Nat}
    (hls : ∀ l ∈ ls, l.var < s.db.nVars) (hne : ls ≠ []) :
    ∃ m', aCreate m ls lbd = some m' ∧ RepM m' { s with db := (s.db.createClause ls lbd).1 } ∧
      m'.T = m.T ∧ m'.watch = m.watch := by
  have hlen : m.store.length = s.db.next := hm.store.size
  unfold aCreate DB.createClause
  match ls, hls, hne with
  | [], _, hne => exact absurd rfl hne
  | [x], _, _ => exact ⟨_, rfl, ⟨hm.trail, hm.store.push _, hm.bin, hm.watch, hm.stamp, hm.lbd⟩, rfl, rfl⟩
  | [x, y], hls, _ =>
    dsimp only
    rw [hlen]
    obtain ⟨b, e1, r1⟩ := hm.bin.attach (hls x (by simp)) (hls y (by simp)) s.db.next
    rw [e1]
    exact ⟨_, rfl, ⟨hm.trail, hm.store.push _, r1, hm.watch, hm.stamp, hm.lbd⟩, rfl, rfl⟩
  | x :: y :: z :: r, _, _ =>
    exact ⟨_, rfl, ⟨hm.trail, hm.store.push _, hm.bin, hm.watch, hm.stamp, hm.lbd⟩, rfl, rfl⟩

theorem aLearnStep_sim {m : AMach} {s : Solver} (hm : RepM m s)
    (hc : Core F s.db.nVars s.db.next s.db.bin s.db.store s.trail) (hdl : 0 < s.trail.decisionLevel)
    {confl : Nat} (hconf : Conflict s.db.next s.db.store s.trail confl)
    (hlv : s.trail.decisionLevel < s.db.nVars) {s' : Solver} (he : learnStep s confl = some s') :
    ∃ m', aLearnStep s.recalc m confl = some m' ∧ RepM m' s' := by
  obtain ⟨r, h1, hl⟩ := handleConflict_spec hc hdl hconf
  obtain ⟨m1, e1, r1, hb⟩ := aHandleConflict_sim hm hc hconf hlv h1
  unfold learnStep at he
  rw [h1] at he
  unfold aLearnStep
  rw [e1]
  dsimp only at he ⊢
  obtain ⟨first, rest, hsh, hf, hfl, hrest, _, _⟩ := hl.shape
  have hne : r.learnt ≠ [] := by rw [hsh]; simp
  have en : (s.db.reestimate s.recalc s.trail r.involved).nVars = s.db.nVars := by
    unfold DB.reestimate; split <;> rfl
  obtain ⟨m2, e2, r2, t2, w2⟩ := aCreate_sim (ls := r.learnt) (lbd := r.lbd) r1
    (fun l hl => by show l.var < (s.db.reestimate s.recalc s.trail r.involved).nVars
                    rw [en]; exact hb l hl) hne
  rw [e2]
  dsimp only at r2 ⊢
  have c1 : ((s.db.reestimate s.recalc s.trail r.involved).createClause r.learnt r.lbd).2 =
      (s.db.reestimate s.recalc s.trail r.involved).next := by simp
  have c2 : ((s.db.reestimate s.recalc s.trail r.involved).createClause r.learnt r.lbd).1.nVars =
      (s.db.reestimate s.recalc s.trail r.involved).nVars := by simp
  have c3 : (((s.db.reestimate s.recalc s.trail r.involved).createClause r.learnt r.lbd).1.store
      (s.db.reestimate s.recalc s.trail r.involved).next).lits = r.learnt := by simp
  have hid : m1.store.length = (s.db.reestimate s.recalc s.trail r.involved).next := r1.store.size
  generalize hX : (s.db.reestimate s.recalc s.trail r.involved).createClause r.learnt r.lbd = X at he r2 c1 c2 c3
  obtain ⟨db, id⟩ := X
  dsimp only at he r2 c1 c2 c3
  have hidn : m1.store.length = id := hid.trans c1.symm
  rw [hidn]
  rw [← c1] at c3
  have hdbn : db.nVars = s.db.nVars := c2.trans en
  -- attaching the clause
  have hW : ∀ W, (if r.learnt.length > 2 then attachClause db.store s.watch id else some s.watch) = some W →
      ∃ aW, aAttachLong m2.watch id r.learnt = some aW ∧ RepWt db.nVars aW W := by
    intro W hW
    match hls : r.learnt, hb, hne with
    | [x], _, _ =>
      rw [hls] at hW; simp at hW; subst hW
      exact ⟨m2.watch, rfl, r2.watch⟩
    | [x, y], _, _ =>
      rw [hls] at hW; simp at hW; subst hW
      exact ⟨m2.watch, rfl, r2.watch⟩
    | x :: y :: z :: rr, hb, _ =>
      rw [hls, if_pos (by simp)] at hW
      unfold attachClause at hW
      rw [c3, hls] at hW
      simp only [Option.some.injEq] at hW
      subst hW
      exact r2.watch.attach (by rw [hdbn]; exact hb x (by simp)) (by rw [hdbn]; exact hb y (by simp)) id
  cases hw : (if r.learnt.length > 2 then attachClause db.store s.watch id else some s.watch) with
  | none => rw [hw] at he; simp at he
  | some W =>
    obtain ⟨aW, k1, k2⟩ := hW W hw
    rw [hw] at he
    rw [k1]
    rw [hsh] at he ⊢
    simp only [Option.some.injEq] at he
    subst he
    dsimp only
    obtain ⟨A1, e3, r3⟩ := r2.trail.backtrack hc.tinv r.btlevel
    have hfv : first.var < s.trail.nVars := by
      have := hc.tinv.bound _ hf
      simpa using this
    obtain ⟨k, hk⟩ : ∃ k, s.trail.lim[r.btlevel]? = some k :=
      ⟨_, List.getElem?_eq_getElem hl.bt⟩
    have hinvb : (s.trail.backtrack r.btlevel).Inv := Trail.backtrack_inv hc.tinv
    have hnone : (s.trail.backtrack r.btlevel).value first = none := by
      rw [hinvb.valNone]
      constructor
      · intro h1
        exact hc.tinv.notBoth ((Trail.backtrack_mem hc.tinv hk).1 h1).1 hf
      · intro h1
        have := ((Trail.backtrack_mem hc.tinv hk).1 h1).2
        have := hl.bt
        simp only [Lit.var_neg] at *
        omega
    obtain ⟨A2, e4, r4⟩ := r3.propagate (p := first) (by simpa using hfv)
      (fun _ => hinvb.length_lt hnone (by simpa using hfv)) id
    rw [e3]
    dsimp only [Option.bind_some]
    rw [e4]
    exact ⟨_, rfl, r4, r2.store, r2.bin, k2, r2.stamp, r2.lbd⟩

/-! ### Assumptions -/

theorem aAssumeLoop_sim : ∀ (ps : List Lit) (fuel : Nat) {A : ATrail} {T : Trail}, RepT A T →
    (∀ l ∈ T.assumptions, l.var < T.nVars) → T.assumptions.drop T.decisionLevel = ps → ps.length < fuel →
    ∃ A', aAssumeLoop fuel A = some (A', (assumeLoop T ps).2) ∧ RepT A' (assumeLoop T ps).1
  | ps, 0, A, T, _, _, _, hf => by omega
  | [], fuel + 1, A, T, h, hb, hd, _ => by
    unfold aAssumeLoop
    have := List.drop_eq_nil_iff.1 hd
    have hl : A.lim.length = T.decisionLevel := by rw [h.lim]; rfl
    rw [h.asm, hl, if_neg (by omega)]
    exact ⟨A, rfl, h⟩
  | p :: ps, fuel + 1, A, T, h, hb, hd, hf => by
    have hp : T.assumptions[T.decisionLevel]? = some p := by
      rw [← List.head?_drop, hd]; rfl
    have hlt := (List.getElem?_eq_some_iff.1 hp).1
    have hl : A.lim.length = T.decisionLevel := by rw [h.lim]; rfl
    unfold aAssumeLoop assumeLoop
    rw [h.asm, hl, if_pos hlt, hp]
    dsimp only
    rw [h.value (hb p (List.mem_of_getElem? hp))]
    cases hv : T.value p with
    | none => exact ⟨A, rfl, h⟩
    | some b => cases b with
      | false => exact ⟨A, rfl, h⟩
      | true =>
        refine aAssumeLoop_sim ps fuel (T := T.newDecisionLevel) h.newDecisionLevel hb ?_ (by simp at hf; omega)
        have : T.newDecisionLevel.decisionLevel = T.decisionLevel + 1 := by
          simp [Trail.newDecisionLevel, Trail.decisionLevel]
        rw [this]
        show T.assumptions.drop (T.decisionLevel + 1) = ps
        rw [← List.drop_drop, hd]; rfl

theorem aFinalScan_sim {A : ATrail} {T : Trail} (hA : RepT A T) : ∀ (ls : List Lit) {st : Stamp}
    {f : Nat → Bool}, RepSt T.nVars st f → (∀ l ∈ ls, l.var < T.nVars) →
    ∃ st', aFinalScan A ls st = some st' ∧ RepSt T.nVars st'
      (ls.foldl (fun s l => if T.level l.var > 0 then upd s l.var true else s) f)
  | [], st, f, h, _ => ⟨st, rfl, h⟩
  | l :: ls, st, f, h, hb => by
    have hb' : ∀ x ∈ ls, x.var < T.nVars := fun x hx => hb x (by simp [hx])
    have hl := hb l (by simp)
    unfold aFinalScan
    rw [hA.level hl, List.foldl_cons]
    dsimp only
    by_cases h1 : T.level l.var > 0
    · rw [if_pos h1, if_pos h1]
      obtain ⟨s1, e1, r1⟩ := h.set hl
      rw [e1]
      exact aFinalScan_sim hA ls r1 hb'
    · rw [if_neg h1, if_neg h1]
      exact aFinalScan_sim hA ls h hb'

theorem aFinalLoop_sim {next : Nat} {ast : List Cls} {store : Nat → Cls} {A : ATrail} {T : Trail}
    (hA : RepT A T) (hS : RepS next ast store) (hr : AnRange next store T) (lo : Nat) :
    ∀ (n : Nat) (out : List Lit) {st : Stamp} {f : Nat → Bool}, lo + n ≤ T.stack.length →
    RepSt T.nVars st f →
    ∃ st', aFinalLoop ast A lo n (st, out) = some (st',
        (((T.stack.drop lo).take n).reverse.foldl (finalStep store T) (f, out)).2) ∧
      RepSt T.nVars st' (((T.stack.drop lo).take n).reverse.foldl (finalStep store T) (f, out)).1
  | 0, out, st, f, _, h => by
    simp only [List.take_zero, List.reverse_nil, List.foldl_nil]
    exact ⟨st, rfl, h⟩
  | n + 1, out, st, f, hl, h => by
    have hlt : lo + n < T.stack.length := by omega
    have hm : T.stack[lo + n] ∈ T.stack := List.getElem_mem hlt
    have hv := hr.inv.bound _ hm
    have e0 : ((T.stack.drop lo).take (n + 1)).reverse =
        T.stack[lo + n] :: ((T.stack.drop lo).take n).reverse := by
      rw [List.take_add_one, List.getElem?_drop, List.getElem?_eq_getElem hlt]
      simp
    rw [e0, List.foldl_cons]
    unfold aFinalLoop
    rw [hA.get hlt, List.getElem?_eq_getElem hlt]
    dsimp only
    generalize T.stack[lo + n] = q at hm hv
    rw [h.isStamped hv]
    cases hs : f q.var with
    | false =>
      have : finalStep store T (f, out) q = (f, out) := by simp [finalStep, hs]
      rw [this]
      exact aFinalLoop_sim hA hS hr lo n out (by omega) h
    | true =>
      dsimp only
      rw [hA.reason hv]
      cases hre : T.reason q.var with
      | none =>
        have : finalStep store T (f, out) q = (upd f q.var false, out ++ [q.neg]) := by
          simp [finalStep, hs, hre]
        rw [this]
        obtain ⟨s1, e1, r1⟩ := h.unset hv
        dsimp only
        rw [e1]
        exact aFinalLoop_sim hA hS hr lo n _ (by omega) r1
      | some c =>
        have : finalStep store T (f, out) q = (upd ((store c).lits.foldl (fun s l =>
            if T.level l.var > 0 then upd s l.var true else s) f) q.var false, out) := by
          simp [finalStep, hs, hre]
        rw [this]
        obtain ⟨k1, k2⟩ := hr.reason _ c ⟨q, hm, rfl⟩ hre
        dsimp only
        rw [hS.get c k1]
        dsimp only
        obtain ⟨s1, e1, r1⟩ := aFinalScan_sim hA (store c).lits h (fun l hl => hr.lt (k2 l hl))
        obtain ⟨s2, e2, r2⟩ := r1.unset hv
        rw [e1]
        dsimp only [Option.bind_some]
        rw [e2]
        exact aFinalLoop_sim hA hS hr lo n out (by omega) r2

theorem aAnalyzeFinal_sim {next : Nat} {ast : List Cls} {store : Nat → Cls} {A : ATrail} {T : Trail}
    (hA : RepT A T) (hS : RepS next ast store) (hr : AnRange next store T) {p : Lit}
    (hp : p.var < T.nVars) {st : Stamp} {f : Nat → Bool} (h : RepSt T.nVars st f) :
    ∃ st' g, aAnalyzeFinal ast A p st = some (analyzeFinal store T p, st') ∧ RepSt T.nVars st' g := by
  unfold aAnalyzeFinal analyzeFinal
  rw [hA.lim]
  cases hl : T.lim with
  | nil => exact ⟨st, f, rfl, h⟩
  | cons k ks =>
    obtain ⟨s1, e1, r1⟩ := h.clear.set hp
    dsimp only
    rw [e1, hA.size]
    dsimp only
    have hk : k ≤ T.stack.length := hr.inv.limLe k (by simp [hl])
    obtain ⟨s2, e2, r2⟩ := aFinalLoop_sim hA hS hr k (T.stack.length - k) [p] (by omega) r1
    rw [List.take_of_length_le (by simp)] at e2 r2
    rw [e2]
    dsimp only
    obtain ⟨s3, e3, r3⟩ := r2.unset hp
    rw [e3]
    exact ⟨s3, _, rfl, r3⟩

/-! ### One iteration -/

theorem assumeLoop_frame {next : Nat} {store : Nat → Cls} :
    ∀ (ps : List Lit) {T : Trail}, AnRange next store T →
    AnRange next store (assumeLoop T ps).1 ∧ (assumeLoop T ps).1.nVars = T.nVars ∧
      (assumeLoop T ps).1.assumptions = T.assumptions
  | [], T, h => ⟨h, rfl, rfl⟩
  | p :: ps, T, h => by
    unfold assumeLoop
    cases T.value p with
    | none => exact ⟨h, rfl, rfl⟩
    | some b => cases b with
      | false => exact ⟨h, rfl, rfl⟩
      | true => exact assumeLoop_frame ps (T := T.newDecisionLevel) ⟨Trail.newDecisionLevel_inv h.inv, h.reason⟩

theorem assumeLoop_out : ∀ (ps : List Lit) (T : Trail),
    (assumeLoop T ps).1.stack = T.stack ∧
    match (assumeLoop T ps).2 with
    | .allSet => True
    | .failed p => p ∈ ps
    | .next p => (assumeLoop T ps).1.value p = none ∧ p ∈ ps
  | [], T => ⟨rfl, trivial⟩
  | p :: ps, T => by
    unfold assumeLoop
    cases hv : T.value p with
    | none => exact ⟨rfl, hv, by simp⟩
    | some b => cases b with
      | false => exact ⟨rfl, by simp⟩
      | true =>
        obtain ⟨h1, h2⟩ := assumeLoop_out ps T.newDecisionLevel
        refine ⟨h1, ?_⟩
        dsimp only
        generalize assumeLoop T.newDecisionLevel ps = x at *
        obtain ⟨T1, o⟩ := x
        cases o with
        | allSet => trivial
        | failed q => exact List.mem_cons_of_mem _ h2
        | next q => exact ⟨h2.1, List.mem_cons_of_mem _ h2.2⟩

/-- Results that agree. -/
inductive RepOut (old : List Lit) : AIterOut → IterOut → Prop
  | cont {m s} : RepM m s → RepOut old (.cont m) (.cont s)
  | done {m s r c} : RepM m s → s.conflict = old ++ c → RepOut old (.done m r c) (.done s r)

theorem aSearchIter_sim {s : Solver} {A : Nat → Prop} (h : SInv F A s) {ach : AChoice} (hch : ach.Valid)
    {m : AMach} (hm : RepM m s)
    (hlv : ∀ ps c, propagateLoop s.db.bin (s.db.nVars + 1) ⟨s.db.store, s.watch, s.trail⟩ = some (ps, some c) →
      0 < ps.T.decisionLevel → ps.T.decisionLevel < s.db.nVars) :
    ∃ ch out aout, ch.Valid ∧ ch.restart = ach.restart ∧ searchIter s ch = some out ∧
      aSearchIter s.recalc m ach = some aout ∧ RepOut s.conflict aout out := by
  obtain ⟨ps, r, e1, e2, e3, e4, e5, e6, e7, e8, e9⟩ := propagateLoop_spec (A := A)
    (s.db.nVars + 1) ⟨s.db.store, s.watch, s.trail⟩ h.core h.watch h.limq (by omega)
  have hnv : s.trail.nVars = s.db.nVars := h.core.nv
  obtain ⟨a', k1, k2, k3, k4⟩ := aPropagateLoop_sim (next := s.db.next) (n := s.db.nVars) hm.bin
    (fun p w hw => (h.core.binRange p w hw).2)
    (s.db.nVars + 1) (a := ⟨m.T, m.store, m.watch⟩) (s := ⟨s.db.store, s.watch, s.trail⟩)
    ⟨hm.trail, hm.store, by show RepWt s.trail.nVars _ _; rw [hnv]; exact hm.watch⟩
    ⟨h.core.tinv, by show ∀ c < s.db.next, ∀ l ∈ (s.db.store c).lits, l.var < s.trail.nVars
                     rw [hnv]; exact h.core.wf,
      by show ∀ p w, w ∈ s.watch p → w.cref < s.db.next ∧ w.blocker.var < s.trail.nVars
         rw [hnv]
         intro p w hw
         obtain ⟨g1, g2, _⟩ := h.watch.wmem p w hw
         exact ⟨g1, h.core.wf _ g1 _ g2⟩⟩ hnv e1
  have hv : m.T.variables = s.db.nVars := hm.trail.vars.trans hnv
  have hpn : ps.T.nVars = s.db.nVars := k4
  have hrep : RepM { m with T := a'.T, store := a'.store, watch := a'.watch }
      { s with db := { s.db with store := ps.store }, watch := ps.watch, trail := ps.T } :=
    ⟨k2.T, k2.store, hm.bin, by show RepWt s.db.nVars _ _; rw [← hpn]; exact k2.watch, hm.stamp, hm.lbd⟩
  have hlim : a'.T.lim.length = ps.T.decisionLevel := by rw [k2.T.lim]; rfl
  have hab : ∀ l ∈ ps.T.assumptions, l.var < ps.T.nVars := by
    rw [e4.assumptions, hpn]; exact h.asmBound
  obtain ⟨A1, g1, g2⟩ := aAssumeLoop_sim (ps.T.assumptions.drop ps.T.decisionLevel)
    (ps.T.assumptions.length + 1) k2.T hab rfl (by simp; omega)
  have hasmeq : a'.T.assumptions.length = ps.T.assumptions.length := by rw [k2.T.asm]
  obtain ⟨t1, t2, t3⟩ := assumeLoop_frame (ps.T.assumptions.drop ps.T.decisionLevel) (Core.anRange e2)
  obtain ⟨t4, t5⟩ := assumeLoop_out (ps.T.assumptions.drop ps.T.decisionLevel) ps.T
  generalize hal : assumeLoop ps.T (ps.T.assumptions.drop ps.T.decisionLevel) = X at *
  obtain ⟨T1, o⟩ := X
  dsimp only at g1 g2 t1 t2 t3 t4 t5
  -- the choice on the abstract state
  let ch : Choice := ⟨ach.restart, fun T => open Classical in
    if T = T1 then ach.pick A1 else firstFree T⟩
  have hchT : ch.pick T1 = ach.pick A1 := by simp [ch]
  have hpv : match ach.pick A1 with
      | none => ∀ v < T1.nVars, T1.decision v = true → T1.assigns v ≠ none
      | some p => p.var < T1.nVars ∧ T1.assigns p.var = none ∧ T1.decision p.var = true := by
    have := hch A1
    cases hp : ach.pick A1 with
    | none =>
      rw [hp] at this
      intro v hvl hd ha
      refine this v ?_ ?_
      · rw [g2.decision v hvl, hd]
      · rw [g2.assigns v hvl, ha]
    | some p =>
      rw [hp] at this
      dsimp only at this ⊢
      have hpl : p.var < T1.nVars := by
        have := (List.getElem?_eq_some_iff.1 this.1).1
        rw [g2.la] at this; exact this
      rw [g2.assigns _ hpl, g2.decision _ hpl] at this
      exact ⟨hpl, by simpa using this.1, by simpa using this.2⟩
  have hchv : ch.Valid := by
    intro T
    by_cases hT : T = T1
    · subst hT; rw [hchT]; exact hpv
    · have : ch.pick T = firstFree T := by simp [ch, hT]
      rw [this]; exact firstFree_valid ach.restart T
  obtain ⟨out, ho, -⟩ := searchIter_spec h hchv
  refine ⟨ch, out, ?_⟩
  suffices ∃ aout, aSearchIter s.recalc m ach = some aout ∧ RepOut s.conflict aout out by
    obtain ⟨aout, q1, q2⟩ := this
    exact ⟨aout, hchv, rfl, ho, q1, q2⟩
  have he := ho
  have hlv := hlv ps
  have hcr : ch.restart = ach.restart := rfl
  clear_value ch
  unfold searchIter at he
  rw [e1] at he
  unfold aSearchIter
  rw [hv, k1]
  simp only at e2 e3 e4 e5 e6 e7 e8 e9 he ⊢
  cases r with
  | some confl =>
    simp only at he ⊢
    rw [hlim]
    by_cases hdl : ps.T.decisionLevel = 0
    · rw [if_pos hdl] at he ⊢
      simp only [Option.some.injEq] at he
      subst he
      exact ⟨_, rfl, .done hrep (by simp)⟩
    · rw [if_neg hdl] at he ⊢
      cases hls : learnStep { s with db := { s.db with store := ps.store }, watch := ps.watch, trail := ps.T }
          confl with
      | none => rw [hls] at he; simp at he
      | some s' =>
        rw [hls] at he
        simp only [Option.map_some, Option.some.injEq] at he
        subst he
        obtain ⟨m', g1, g2⟩ := aLearnStep_sim hrep e2 (by simp only; omega) (e7 confl rfl)
          (hlv confl e1 (by omega)) hls
        simp only at g1
        rw [g1]
        exact ⟨_, rfl, .cont g2⟩
  | none =>
    simp only at he ⊢
    rw [hcr] at he
    by_cases hrs : ach.restart = true
    · rw [if_pos hrs] at he ⊢
      simp only [Option.some.injEq] at he
      subst he
      exact ⟨_, rfl, .done hrep (by simp)⟩
    · rw [if_neg hrs] at he ⊢
      rw [hasmeq, g1]
      rw [hal] at he
      have hrep1 : RepM { m with T := A1, store := a'.store, watch := a'.watch }
          { s with db := { s.db with store := ps.store }, watch := ps.watch, trail := T1 } :=
        ⟨g2, hrep.store, hrep.bin, hrep.watch, hrep.stamp, hrep.lbd⟩
      have hdec : ∀ p : Lit, p.var < T1.nVars → T1.value p = none →
          ∃ A2, A1.newDecisionLevel.decide p = some A2 ∧ RepT A2 (T1.newDecisionLevel.decide p) := by
        intro p hp hvp
        exact g2.newDecisionLevel.decide hp (t1.inv.length_lt hvp hp)
      cases o with
      | failed p =>
        dsimp only at he t5 ⊢
        simp only [Option.some.injEq] at he
        subst he
        obtain ⟨f, hst⟩ := hm.stamp
        have hpb : p.var < T1.nVars := by
          have := hab p (List.mem_of_mem_drop t5)
          rw [t2]; exact this
        have hn1 : T1.nVars = s.db.nVars := t2.trans hpn
        obtain ⟨st', g, q1, q2⟩ := aAnalyzeFinal_sim (p := p.neg) g2 k2.store t1 (by simpa using hpb)
          (st := m.stamp) (by rw [hn1]; exact hst)
        rw [q1]
        refine ⟨_, rfl, .done ⟨g2, hrep.store, hrep.bin, hrep.watch, ⟨g, ?_⟩, hrep.lbd⟩ rfl⟩
        show RepSt s.db.nVars _ _
        rw [← hn1]; exact q2
      | next p =>
        dsimp only at he t5 ⊢
        simp only [Option.some.injEq] at he
        subst he
        have hpb : p.var < T1.nVars := by
          have := hab p (List.mem_of_mem_drop t5.2)
          rw [t2]; exact this
        obtain ⟨A2, q1, q2⟩ := hdec p hpb t5.1
        rw [q1]
        exact ⟨_, rfl, .cont ⟨q2, hrep.store, hrep.bin, hrep.watch, hrep.stamp, hrep.lbd⟩⟩
      | allSet =>
        dsimp only at he ⊢
        rw [hchT] at he
        cases hp : ach.pick A1 with
        | none =>
          rw [hp] at he
          simp only [Option.some.injEq] at he
          subst he
          exact ⟨_, rfl, .done hrep1 (by simp)⟩
        | some p =>
          rw [hp] at he hpv
          simp only [Option.some.injEq] at he
          subst he
          dsimp only at hpv ⊢
          have hvn : T1.value p = none := by simp [Trail.value, hpv.2.1]
          obtain ⟨A2, q1, q2⟩ := hdec p hpv.1 hvn
          rw [q1]
          exact ⟨_, rfl, .cont ⟨q2, hrep.store, hrep.bin, hrep.watch, hrep.stamp, hrep.lbd⟩⟩

end Candy
