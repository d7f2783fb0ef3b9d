import Verif.Proofs.ArrayPropagate

/-! Conflict analysis on arrays. -/

namespace Candy

/-- The variable is assigned. -/
def OnStack (T : Trail) (v : Nat) : Prop := ∃ q ∈ T.stack, q.var = v

/-- What conflict analysis needs: the arrays represent the state, and reasons lead to valid clauses with
assigned variables. -/
structure AnRange (next : Nat) (store : Nat → Cls) (T : Trail) : Prop where
  inv : T.Inv
  reason : ∀ v c, OnStack T v → T.reason v = some c → c < next ∧ ∀ q ∈ (store c).lits, OnStack T q.var

theorem AnRange.lt {next : Nat} {store : Nat → Cls} {T : Trail} (h : AnRange next store T) {v : Nat}
    (hv : OnStack T v) : v < T.nVars := by
  obtain ⟨q, hq, rfl⟩ := hv
  exact h.inv.bound q hq

/-- The local state of `analyze`. -/
structure RepA (n : Nat) (a : AAS) (st : AS) : Prop where
  stamp : RepSt n a.stamp st.stamp
  pathC : a.pathC = st.pathC
  learnt : a.learnt = st.learnt
  involved : a.involved = st.involved

section

variable {next : Nat} {store : Nat → Cls} {ast : List Cls} {A : ATrail} {T : Trail}

theorem aScanClause_sim (hA : RepT A T) (p : Option Lit) : ∀ (ls : List Lit) {a : AAS} {st : AS},
    RepA T.nVars a st → (∀ l ∈ ls, l.var < T.nVars) →
    ∃ a', aScanClause A p ls a = some a' ∧ RepA T.nVars a' (scanClause T p ls st)
  | [], a, st, h, _ => ⟨a, rfl, h⟩
  | l :: ls, a, st, h, hb => by
    have hl := hb l (by simp)
    have hb' : ∀ x ∈ ls, x.var < T.nVars := fun x hx => hb x (by simp [hx])
    unfold aScanClause
    unfold scanClause
    rw [List.foldl_cons]
    change ∃ a', _ ∧ RepA T.nVars a' (scanClause T p ls _)
    by_cases hp : p = some l
    · rw [if_pos hp, if_neg (by simp [hp])]
      exact aScanClause_sim hA p ls h hb'
    · rw [if_neg hp, h.stamp.isStamped hl]
      cases hs : st.stamp l.var with
      | true =>
        simp only [Bool.true_eq_false, and_false, if_false]
        exact aScanClause_sim hA p ls h hb'
      | false =>
        obtain ⟨s1, e1, r1⟩ := h.stamp.set hl
        simp only [hA.level hl, e1, ne_eq, hp, not_false_eq_true, and_self, if_true]
        have hd : A.lim.length = T.decisionLevel := by rw [hA.lim]; rfl
        rw [hd]
        by_cases h1 : T.level l.var ≥ T.decisionLevel
        · rw [if_pos h1, if_pos h1]
          exact aScanClause_sim hA p ls ⟨r1, by simp [h.pathC], h.learnt, h.involved⟩ hb'
        · rw [if_neg h1, if_neg h1]
          by_cases h2 : T.level l.var > 0
          · rw [if_pos h2, if_pos h2]
            exact aScanClause_sim hA p ls ⟨r1, h.pathC, by simp [h.learnt], h.involved⟩ hb'
          · rw [if_neg h2, if_neg h2]
            exact aScanClause_sim hA p ls ⟨r1, h.pathC, h.learnt, h.involved⟩ hb'

theorem scanClause_learnt (p : Option Lit) : ∀ (ls : List Lit) (st : AS),
    (∀ l ∈ (scanClause T p ls st).learnt, l ∈ st.learnt ∨ l ∈ ls) ∧
      (scanClause T p ls st).involved = st.involved
  | [], st => ⟨fun l hl => .inl hl, rfl⟩
  | l :: ls, st => by
    unfold scanClause
    rw [List.foldl_cons]
    have ih := fun st => scanClause_learnt p ls st
    unfold scanClause at ih
    refine ⟨fun x hx => ?_, ?_⟩
    · rcases (ih _).1 x hx with h | h
      · split at h
        · dsimp only at h
          split at h
          · exact .inl h
          · split at h
            · simp only [List.mem_append, List.mem_singleton] at h
              rcases h with h | rfl
              · exact .inl h
              · simp
            · exact .inl h
        · exact .inl h
      · simp [h]
    · rw [(ih _).2]
      split
      · dsimp only
        split
        · rfl
        · split <;> rfl
      · rfl

theorem aSeek_sim (hA : RepT A T) (hi : T.Inv) {st : Stamp} {f : Nat → Bool} (hs : RepSt T.nVars st f) :
    ∀ (i : Nat), i ≤ T.stack.length → ∀ {p : Lit} {R : List Lit},
    (T.stack.take i).reverse.dropWhile (fun l => !f l.var) = p :: R →
    ∃ j, aSeek A st i = some (j, p) ∧ j ≤ i ∧ p :: R = (T.stack.take j).reverse ∧ p ∈ T.stack
  | 0, _, p, R, h => by simp at h
  | i + 1, hi', p, R, h => by
    have hlt : i < T.stack.length := hi'
    have hm : T.stack[i] ∈ T.stack := List.getElem_mem hlt
    rw [List.take_add_one, List.getElem?_eq_getElem hlt] at h
    simp only [Option.toList_some, List.reverse_append, List.reverse_singleton, List.singleton_append,
      List.dropWhile_cons] at h
    unfold aSeek
    rw [hA.get hlt, List.getElem?_eq_getElem hlt]
    dsimp only
    rw [hs.isStamped (hi.bound _ hm)]
    cases hf : f (T.stack[i]).var with
    | true =>
      simp only [hf, Bool.not_true, Bool.false_eq_true, if_false] at h
      obtain ⟨rfl, rfl⟩ := List.cons.inj h
      refine ⟨i + 1, rfl, Nat.le_refl _, ?_, hm⟩
      rw [List.take_add_one (i := i), List.getElem?_eq_getElem hlt]
      simp only [Option.toList_some, List.reverse_append, List.reverse_singleton, List.singleton_append]
    | false =>
      simp only [hf, Bool.not_false, if_true] at h
      obtain ⟨j, e1, e2, e3, e4⟩ := aSeek_sim hA hi hs i (Nat.le_of_lt hlt) h
      exact ⟨j, e1, by omega, e3, e4⟩

theorem aAnalyzeLoop_sim (hA : RepT A T) (hS : RepS next ast store) (hr : AnRange next store T) :
    ∀ (fuel confl : Nat) (p : Option Lit) (i : Nat) {a : AAS} {st : AS}, RepA T.nVars a st →
    i ≤ T.stack.length → confl < next → (∀ q ∈ (store confl).lits, OnStack T q.var) →
    (∀ l ∈ st.learnt, OnStack T l.var) →
    (∀ c ∈ st.involved, c < next ∧ ∀ q ∈ (store c).lits, OnStack T q.var) →
    ∀ {q : Lit} {st' : AS}, analyzeLoop store T fuel confl p (T.stack.take i).reverse st = some (q, st') →
    ∃ a', aAnalyzeLoop ast A fuel confl p i a = some (q, a') ∧ RepA T.nVars a' st' ∧ q ∈ T.stack ∧
      (∀ l ∈ st'.learnt, OnStack T l.var) ∧
      (∀ c ∈ st'.involved, c < next ∧ ∀ q ∈ (store c).lits, OnStack T q.var)
  | 0, confl, p, i, a, st, _, _, _, _, _, _, q, st', he => by simp [analyzeLoop] at he
  | fuel + 1, confl, p, i, a, st, h, hil, hc, hcl, hle, hin, q, st', he => by
    rw [analyzeLoop] at he
    rw [aAnalyzeLoop, hS.get _ hc]
    dsimp only at he ⊢
    have h0 : RepA T.nVars { a with involved := a.involved ++ [confl] }
        { st with involved := st.involved ++ [confl] } :=
      ⟨h.stamp, h.pathC, h.learnt, by simp [h.involved]⟩
    obtain ⟨a1, e1, r1⟩ := aScanClause_sim hA p (store confl).lits h0 (fun l hl => hr.lt (hcl l hl))
    obtain ⟨l1, l2⟩ := scanClause_learnt (T := T) p (store confl).lits
      { st with involved := st.involved ++ [confl] }
    rw [e1]
    dsimp only
    generalize hsc : scanClause T p (store confl).lits { st with involved := st.involved ++ [confl] } = st1 at *
    have hle1 : ∀ l ∈ st1.learnt, OnStack T l.var := by
      intro l hl
      rcases l1 l hl with h | h
      · exact hle l h
      · exact hcl l h
    have hin1 : ∀ c ∈ st1.involved, c < next ∧ ∀ q ∈ (store c).lits, OnStack T q.var := by
      intro c hcm
      rw [l2] at hcm
      rcases List.mem_append.1 hcm with h | h
      · exact hin c h
      · simp at h; subst h; exact ⟨hc, hcl⟩
    split at he
    · simp at he
    · next p' R' hd =>
      obtain ⟨j, e2, e3, e4, e5⟩ := aSeek_sim hA hr.inv r1.stamp i hil hd
      have hpv : p'.var < T.nVars := hr.inv.bound p' e5
      obtain ⟨s2, e6, r6⟩ := r1.stamp.unset hpv
      rw [e2]
      dsimp only
      rw [e6, hA.reason hpv]
      dsimp only at he ⊢
      rw [r1.pathC]
      by_cases hpc : st1.pathC - 1 > 0
      · rw [if_pos hpc] at he ⊢
        cases hre : T.reason p'.var with
        | none => rw [hre] at he; simp at he
        | some c =>
          rw [hre] at he
          dsimp only at he ⊢
          rw [e4] at he
          have := hr.reason _ c ⟨p', e5, rfl⟩ hre
          exact aAnalyzeLoop_sim hA hS hr fuel c (some p') j
            (a := ⟨s2, st1.pathC - 1, a1.learnt, a1.involved⟩)
            (st := ⟨upd st1.stamp p'.var false, st1.pathC - 1, st1.learnt, st1.involved⟩)
            ⟨r6, by simp, r1.learnt, r1.involved⟩ (by omega) this.1 this.2 hle1 hin1 he
      · rw [if_neg hpc] at he ⊢
        simp only [Option.some.injEq, Prod.mk.injEq] at he
        obtain ⟨rfl, rfl⟩ := he
        exact ⟨_, rfl, ⟨r6, by simp, r1.learnt, r1.involved⟩, e5, hle1, hin1⟩

/-! ### Minimisation -/

theorem aAbstractLevel_sim (hA : RepT A T) {v : Nat} (hv : v < T.nVars) :
    aAbstractLevel A v = some (abstractLevel T v) := by
  unfold aAbstractLevel abstractLevel
  rw [hA.level hv]; rfl

theorem aUnstamp_sim {n : Nat} : ∀ (vs : List Nat) {st : Stamp} {f : Nat → Bool}, RepSt n st f →
    (∀ v ∈ vs, v < n) →
    ∃ st', aUnstamp vs st = some st' ∧ RepSt n st' (vs.foldl (fun s v => upd s v false) f)
  | [], st, f, h, _ => ⟨st, rfl, h⟩
  | v :: vs, st, f, h, hb => by
    obtain ⟨s1, e1, r1⟩ := h.unset (hb v (by simp))
    unfold aUnstamp
    rw [e1]
    exact aUnstamp_sim vs r1 (fun x hx => hb x (by simp [hx]))

/-- The local state of `litRedundant`. -/
structure RepR (T : Trail) (a : ARS) (r : RS) : Prop where
  stamp : RepSt T.nVars a.stamp r.stamp
  stack : a.stack = r.stack
  clear : a.clear = r.clear
  on : ∀ v ∈ r.stack, OnStack T v
  clearLt : ∀ v ∈ r.clear, v < T.nVars

theorem aRedScan_sim (hA : RepT A T) (hi : T.Inv) (absl : Nat) : ∀ (ls : List Lit) {a : ARS} {r : RS},
    RepR T a r → (∀ l ∈ ls, OnStack T l.var) →
    ∃ a', aRedScan A absl ls a = some (a', (redScan T absl ls r).2) ∧ RepR T a' (redScan T absl ls r).1
  | [], a, r, h, _ => ⟨a, rfl, h⟩
  | l :: ls, a, r, h, hb => by
    have hb' : ∀ x ∈ ls, OnStack T x.var := fun x hx => hb x (by simp [hx])
    have hon := hb l (by simp)
    have hl : l.var < T.nVars := by
      obtain ⟨q, hq, e⟩ := hon
      rw [← e]; exact hi.bound q hq
    unfold aRedScan redScan
    rw [h.stamp.isStamped hl, hA.level hl, hA.reason hl, aAbstractLevel_sim hA hl]
    dsimp only
    by_cases h1 : r.stamp l.var = false ∧ T.level l.var > 0
    · rw [if_pos h1, if_pos h1]
      by_cases h2 : (T.reason l.var).isSome ∧ (abstractLevel T l.var &&& absl) ≠ 0
      · rw [if_pos h2, if_pos h2]
        obtain ⟨s1, e1, r1⟩ := h.stamp.set hl
        rw [e1]
        dsimp only
        refine aRedScan_sim hA hi absl ls ⟨r1, by simp [h.stack], by simp [h.clear], ?_, ?_⟩ hb'
        · intro v hv
          rcases List.mem_cons.1 hv with rfl | hv
          · exact hon
          · exact h.on v hv
        · intro v hv
          rcases List.mem_cons.1 hv with rfl | hv
          · exact hl
          · exact h.clearLt v hv
      · rw [if_neg h2, if_neg h2]
        obtain ⟨s1, e1, r1⟩ := aUnstamp_sim r.clear h.stamp h.clearLt
        rw [h.clear, e1]
        exact ⟨_, rfl, r1, h.stack, rfl, h.on, by simp⟩
    · rw [if_neg h1, if_neg h1]
      exact aRedScan_sim hA hi absl ls h hb'

theorem aLitRedundant_sim (hA : RepT A T) (hS : RepS next ast store) (hr : AnRange next store T)
    (absl : Nat) : ∀ (fuel : Nat) {a : ARS} {r : RS}, RepR T a r →
    ∀ {f : Nat → Bool} {b : Bool}, litRedundantLoop store T absl fuel r = some (f, b) →
    ∃ st, aLitRedundant ast A absl fuel a = some (st, b) ∧ RepSt T.nVars st f
  | 0, a, r, _, f, b, he => by simp [litRedundantLoop] at he
  | fuel + 1, a, r, h, f, b, he => by
    rw [litRedundantLoop] at he
    rw [aLitRedundant, h.stack]
    cases hst : r.stack with
    | nil =>
      rw [hst] at he
      simp only [Option.some.injEq, Prod.mk.injEq] at he
      obtain ⟨rfl, rfl⟩ := he
      exact ⟨a.stamp, rfl, h.stamp⟩
    | cons v rest =>
      rw [hst] at he
      dsimp only at he ⊢
      have hv := h.on v (by simp [hst])
      rw [hA.reason (hr.lt hv)]
      cases hre : T.reason v with
      | none => rw [hre] at he; simp at he
      | some c =>
        rw [hre] at he
        dsimp only at he ⊢
        obtain ⟨k1, k2⟩ := hr.reason v c hv hre
        rw [hS.get _ k1]
        dsimp only
        obtain ⟨a1, e1, r1⟩ := aRedScan_sim hA hr.inv absl (store c).lits
          (a := { a with stack := rest }) (r := { r with stack := rest })
          ⟨h.stamp, rfl, h.clear, fun x hx => h.on x (by simp [hst, hx]), h.clearLt⟩ k2
        rw [e1]
        generalize redScan T absl (store c).lits { r with stack := rest } = x at *
        obtain ⟨r', b'⟩ := x
        cases b' with
        | false =>
          simp only [Option.some.injEq, Prod.mk.injEq] at he
          obtain ⟨rfl, rfl⟩ := he
          exact ⟨_, rfl, r1.stamp⟩
        | true => exact aLitRedundant_sim hA hS hr absl fuel r1 he

theorem aMinimizeLoop_sim (hA : RepT A T) (hS : RepS next ast store) (hr : AnRange next store T)
    (absl : Nat) : ∀ (ls out : List Lit) {st : Stamp} {f : Nat → Bool}, RepSt T.nVars st f →
    (∀ l ∈ ls, OnStack T l.var) →
    ∀ {res : List Lit}, minimizeLoop store T absl ls out f = some res →
    ∃ st' g, aMinimizeLoop ast A absl ls out st = some (res, st') ∧ RepSt T.nVars st' g
  | [], out, st, f, h, _, res, he => by
    simp only [minimizeLoop, Option.some.injEq] at he
    subst he
    exact ⟨st, f, rfl, h⟩
  | l :: ls, out, st, f, h, hb, res, he => by
    have hb' : ∀ x ∈ ls, OnStack T x.var := fun x hx => hb x (by simp [hx])
    have hon := hb l (by simp)
    rw [minimizeLoop] at he
    rw [aMinimizeLoop, hA.reason (hr.lt hon)]
    cases hre : T.reason l.var with
    | none =>
      rw [hre] at he
      exact aMinimizeLoop_sim hA hS hr absl ls _ h hb' he
    | some c =>
      rw [hre] at he
      dsimp only at he ⊢
      rw [hA.size]
      cases hlr : litRedundantLoop store T absl (T.stack.length + 2) ⟨f, [l.var], []⟩ with
      | none => rw [hlr] at he; simp at he
      | some x =>
        obtain ⟨f', b⟩ := x
        rw [hlr] at he
        obtain ⟨st', e1, r1⟩ := aLitRedundant_sim hA hS hr absl (T.stack.length + 2)
          (a := ⟨st, [l.var], []⟩) (r := ⟨f, [l.var], []⟩)
          ⟨h, rfl, rfl, fun v hv => by simp at hv; subst hv; exact hon, by simp⟩ hlr
        rw [e1]
        cases b with
        | true => exact aMinimizeLoop_sim hA hS hr absl ls _ r1 hb' he
        | false => exact aMinimizeLoop_sim hA hS hr absl ls _ r1 hb' he

theorem aAbstractLevels_sim (hA : RepT A T) : ∀ (ls : List Lit) (x : Nat), (∀ l ∈ ls, l.var < T.nVars) →
    aAbstractLevels A ls x = some (ls.foldl (fun a l => a ||| abstractLevel T l.var) x)
  | [], x, _ => rfl
  | l :: ls, x, hb => by
    unfold aAbstractLevels
    rw [aAbstractLevel_sim hA (hb l (by simp))]
    exact aAbstractLevels_sim hA ls _ (fun y hy => hb y (by simp [hy]))

theorem aMinimization_sim (hA : RepT A T) (hS : RepS next ast store) (hr : AnRange next store T)
    {ls : List Lit} {st : Stamp} {f : Nat → Bool} (h : RepSt T.nVars st f)
    (hb : ∀ l ∈ ls, OnStack T l.var) {res : List Lit} (he : minimization store T ls f = some res) :
    ∃ st' g, aMinimization ast A ls st = some (res, st') ∧ RepSt T.nVars st' g := by
  unfold aMinimization
  rw [aAbstractLevels_sim hA ls 0 (fun l hl => hr.lt (hb l hl))]
  exact aMinimizeLoop_sim hA hS hr _ ls [] h hb he

theorem aStampBinary_sim (hA : RepT A T) : ∀ (ws : List Watcher) {st : Stamp} {f : Nat → Bool},
    RepSt T.nVars st f → (∀ w ∈ ws, w.blocker.var < T.nVars) →
    ∃ st', aStampBinary A ws st = some st' ∧ RepSt T.nVars st'
      (ws.foldl (fun s w => if T.satisfies w.blocker then upd s w.blocker.var true else s) f)
  | [], st, f, h, _ => ⟨st, rfl, h⟩
  | w :: ws, st, f, h, hb => by
    have hb' : ∀ x ∈ ws, x.blocker.var < T.nVars := fun x hx => hb x (by simp [hx])
    have hw := hb w (by simp)
    unfold aStampBinary
    rw [hA.value hw, List.foldl_cons]
    cases hv : T.value w.blocker with
    | none =>
      simp only [Trail.satisfies, hv]
      exact aStampBinary_sim hA ws h hb'
    | some b => cases b with
      | false =>
        simp only [Trail.satisfies, hv]
        exact aStampBinary_sim hA ws h hb'
      | true =>
        obtain ⟨s1, e1, r1⟩ := h.set hw
        rw [e1]
        simp only [Trail.satisfies, hv]
        exact aStampBinary_sim hA ws r1 hb'

theorem aRemoveStamped_sim {n : Nat} {st : Stamp} {f : Nat → Bool} (h : RepSt n st f) :
    ∀ (ls : List Lit), (∀ l ∈ ls, l.var < n) →
    aRemoveStamped st ls = some (ls.filter fun l => !f l.var)
  | [], _ => rfl
  | l :: ls, hb => by
    unfold aRemoveStamped
    rw [h.isStamped (hb l (by simp)), aRemoveStamped_sim h ls (fun x hx => hb x (by simp [hx]))]
    cases hf : f l.var <;> simp [hf]

theorem aMinimizeBinary_sim {bin : Lit → List Watcher} {abin : List (List Watcher)} (hA : RepT A T)
    (hB : RepWt T.nVars abin bin) (hbr : ∀ p w, w ∈ bin p → w.blocker.var < T.nVars) {first : Lit}
    (hf : first.var < T.nVars) {ls : List Lit} (hb : ∀ l ∈ ls, l.var < T.nVars) {st : Stamp}
    {f : Nat → Bool} (h : RepSt T.nVars st f) :
    ∃ st' g, aMinimizeBinary abin A first ls st = some (minimizeBinary bin T first ls, st') ∧
      RepSt T.nVars st' g := by
  unfold aMinimizeBinary
  rw [hB.get _ (by simpa using hf)]
  dsimp only
  obtain ⟨s1, e1, r1⟩ := aStampBinary_sim hA (bin first.neg) h.clear (fun w hw => hbr _ w hw)
  rw [e1]
  dsimp only
  rw [aRemoveStamped_sim r1 ls hb]
  exact ⟨s1, _, rfl, r1⟩

theorem minimizeLoop_mem (absl : Nat) : ∀ (ls out : List Lit) (f : Nat → Bool) {res : List Lit},
    minimizeLoop store T absl ls out f = some res → ∀ l ∈ res, l ∈ out ∨ l ∈ ls
  | [], out, f, res, he => by
    simp only [minimizeLoop, Option.some.injEq] at he
    subst he; exact fun l hl => .inl hl
  | l :: ls, out, f, res, he => by
    rw [minimizeLoop] at he
    have key : ∀ {f'}, minimizeLoop store T absl ls (out ++ [l]) f' = some res →
        ∀ x ∈ res, x ∈ out ∨ x ∈ l :: ls := by
      intro f' h x hx
      rcases minimizeLoop_mem absl ls _ _ h x hx with h | h
      · rcases List.mem_append.1 h with h | h
        · exact .inl h
        · simp at h; simp [h]
      · simp [h]
    split at he
    · exact key he
    · split at he
      · simp at he
      · intro x hx
        rcases minimizeLoop_mem absl ls _ _ he x hx with h | h
        · exact .inl h
        · simp [h]
      · exact key he

theorem aAnalyze_sim {bin : Lit → List Watcher} {abin : List (List Watcher)} (hA : RepT A T)
    (hS : RepS next ast store) (hr : AnRange next store T) (hB : RepWt T.nVars abin bin)
    (hbr : ∀ p w, w ∈ bin p → w.blocker.var < T.nVars) {confl : Nat} (hc : confl < next)
    (hcl : ∀ q ∈ (store confl).lits, OnStack T q.var) {st : Stamp} {f : Nat → Bool}
    (hst : RepSt T.nVars st f) {first : Lit} {rest : List Lit} {inv : List Nat}
    (he : analyze store bin T confl = some (first, rest, inv)) :
    ∃ st' g, aAnalyze ast abin A confl st = some (first, rest, inv, st') ∧ RepSt T.nVars st' g ∧
      (∀ l ∈ first :: rest, OnStack T l.var) ∧
      (∀ c ∈ inv, c < next ∧ ∀ q ∈ (store c).lits, OnStack T q.var) := by
  unfold analyze at he
  unfold aAnalyze
  rw [hA.size]
  cases h1 : analyzeLoop store T (T.stack.length + 1) confl none T.stack.reverse
      ⟨fun _ => false, 0, [], []⟩ with
  | none => rw [h1] at he; simp at he
  | some x =>
    obtain ⟨p, s1⟩ := x
    rw [h1] at he
    dsimp only at he
    have h1' : analyzeLoop store T (T.stack.length + 1) confl none (T.stack.take T.stack.length).reverse
      ⟨fun _ => false, 0, [], []⟩ = some (p, s1) := by rw [List.take_length]; exact h1
    obtain ⟨a1, e1, r1, q1, q2, q3⟩ := aAnalyzeLoop_sim hA hS hr (T.stack.length + 1) confl none
      T.stack.length (a := ⟨st.clear stampMax, 0, [], []⟩) (st := ⟨fun _ => false, 0, [], []⟩)
      ⟨hst.clear, rfl, rfl, rfl⟩ (Nat.le_refl _) hc hcl (by simp) (by simp) h1'
    rw [e1]
    dsimp only
    cases h2 : minimization store T s1.learnt s1.stamp with
    | none => rw [h2] at he; simp at he
    | some ls =>
      rw [h2] at he
      simp only [Option.some.injEq, Prod.mk.injEq] at he
      obtain ⟨rfl, rfl, rfl⟩ := he
      obtain ⟨s2, g2, e2, r2⟩ := aMinimization_sim hA hS hr r1.stamp q2 h2
      rw [r1.learnt, e2]
      dsimp only
      have hls : ∀ l ∈ ls, OnStack T l.var := by
        intro l hl
        unfold minimization at h2
        rcases minimizeLoop_mem _ _ _ _ h2 l hl with h | h
        · simp at h
        · exact q2 l h
      obtain ⟨s3, g3, e3, r3⟩ := aMinimizeBinary_sim hA hB hbr (first := p.neg)
        (by simpa using hr.inv.bound p q1) (fun l hl => hr.lt (hls l hl)) r2
      rw [e3, r1.involved]
      refine ⟨s3, g3, rfl, r3, ?_, q3⟩
      intro l hl
      rcases List.mem_cons.1 hl with rfl | hl
      · exact ⟨p, q1, by simp⟩
      · unfold minimizeBinary at hl
        exact hls l (List.mem_filter.1 hl).1

/-! ### LBD, backjump level, weights -/

theorem aLbdLoop_sim {k : Nat} (hA : RepT A T) : ∀ (ls : List Lit) {st : Stamp} (acc : List Nat) (n : Nat),
    RepSt k st (fun v => acc.contains v) → (∀ l ∈ ls, l.var < T.nVars ∧ T.level l.var < k) →
    ∃ st' g, aLbdLoop A ls st n = some ((ls.foldl (fun (acc : List Nat × Nat) l =>
      let lv := T.level l.var
      if acc.1.contains lv then acc else (lv :: acc.1, acc.2 + 1)) (acc, n)).2, st') ∧ RepSt k st' g
  | [], st, acc, n, h, _ => ⟨st, _, rfl, h⟩
  | l :: ls, st, acc, n, h, hb => by
    obtain ⟨h1, h2⟩ := hb l (by simp)
    have hb' : ∀ l ∈ ls, l.var < T.nVars ∧ T.level l.var < k := fun x hx => hb x (by simp [hx])
    unfold aLbdLoop
    rw [hA.level h1]
    dsimp only
    rw [h.isStamped h2, List.foldl_cons]
    cases hc : acc.contains (T.level l.var) with
    | true =>
      simp only [if_true]
      exact aLbdLoop_sim hA ls acc n h hb'
    | false =>
      obtain ⟨s1, e1, r1⟩ := h.set h2
      rw [e1]
      simp only [Bool.false_eq_true, if_false]
      refine aLbdLoop_sim hA ls (T.level l.var :: acc) (n + 1) ?_ hb'
      have : upd (fun v => acc.contains v) (T.level l.var) true =
          fun v => (T.level l.var :: acc).contains v := by
        funext v
        simp only [upd, List.contains_cons]
        by_cases e : v = T.level l.var
        · simp [e]
        · simp [e]
      rw [← this]; exact r1

theorem aLbd_sim {k : Nat} (hA : RepT A T) (ls : List Lit) {st : Stamp} {f : Nat → Bool}
    (h : RepSt k st f) (hb : ∀ l ∈ ls, l.var < T.nVars ∧ T.level l.var < k) :
    ∃ st' g, aLbd A ls st = some (T.computeLBD ls, st') ∧ RepSt k st' g := by
  unfold aLbd Trail.computeLBD
  exact aLbdLoop_sim hA ls [] 0 (by simpa using h.clear) hb

theorem aPickSecond_sim (hA : RepT A T) : ∀ (rs : List Lit) (s : Lit) (b : Nat),
    (∀ l ∈ rs, l.var < T.nVars) → aPickSecond A s b rs = some (pickSecond T s b rs)
  | [], s, b, _ => rfl
  | r :: rs, s, b, hb => by
    unfold aPickSecond pickSecond
    rw [hA.level (hb r (by simp))]
    dsimp only
    have hb' : ∀ l ∈ rs, l.var < T.nVars := fun x hx => hb x (by simp [hx])
    by_cases h : T.level r.var > b
    · rw [if_pos h, if_pos h, aPickSecond_sim hA rs _ _ hb']; rfl
    · rw [if_neg h, if_neg h, aPickSecond_sim hA rs _ _ hb']; rfl

theorem aReestimate_sim {k : Nat} (hA : RepT A T) : ∀ (cs : List Nat) {ast : List Cls} {store : Nat → Cls}
    {st : Stamp} {f : Nat → Bool}, RepS next ast store → RepSt k st f →
    (∀ c ∈ cs, c < next ∧ ∀ q ∈ (store c).lits, q.var < T.nVars ∧ T.level q.var < k) →
    ∃ ast' st' g, aReestimate A cs (ast, st) = some (ast', st') ∧
      RepS next ast' (cs.foldl (fun s c =>
        if (s c).isLearnt then upd s c { s c with weight := T.computeLBD (s c).lits % 65536 } else s) store) ∧
      RepSt k st' g
  | [], ast, store, st, f, h, hs, _ => ⟨ast, st, f, rfl, h, hs⟩
  | c :: cs, ast, store, st, f, h, hs, hb => by
    obtain ⟨h1, h2⟩ := hb c (by simp)
    have hb' : ∀ c ∈ cs, c < next ∧ ∀ q ∈ (store c).lits, q.var < T.nVars ∧ T.level q.var < k :=
      fun x hx => hb x (by simp [hx])
    unfold aReestimate
    rw [h.get c h1, List.foldl_cons]
    dsimp only
    cases hl : (store c).isLearnt with
    | false =>
      rw [if_neg (by simp), if_neg (by simp)]
      exact aReestimate_sim hA cs h hs hb'
    | true =>
      rw [if_pos rfl, if_pos rfl]
      obtain ⟨s1, g1, e1, r1⟩ := aLbd_sim hA (store c).lits hs h2
      rw [e1]
      dsimp only
      refine aReestimate_sim hA cs (h.set c _) r1 ?_
      intro d hd
      refine ⟨(hb' d hd).1, fun q hq => ?_⟩
      simp only [upd] at hq
      by_cases e : d = c
      · subst e; simp only [if_true] at hq; exact h2 q hq
      · rw [if_neg e] at hq; exact (hb' d hd).2 q hq

end

end Candy
