import Verif.Model.Portfolio
import Verif.Props.Main

/-!
# Invariants of the portfolio
-/

namespace Candy

/-- Some thread got this status. -/
def PfState.Answered (runs : Nat → Result → Prop) (s : PfState) (b : Option Bool) : Prop :=
  ∃ i res, runs i res ∧ (s.threads i).res? = some res ∧ res.status = b

/-- The invariant of every schedule. -/
structure PfInv (n : Nat) (pm : Bool) (p : Problem) (runs : Nat → Result → Prop) (s : PfState) : Prop where
  spawn : ∀ c, s.main = .spawn c → ∀ i, c ≤ i → s.threads i = .none
  waitInit : ∀ c, s.main = .waitInit c → ∀ i, c < i → s.threads i = .none
  may : ∀ i res, (s.threads i).res? = some res → runs i res
  unknown : ∀ i res, (s.threads i).res? = some res → res.status = none → s.interrupted = true
  result : ∀ b, s.result = some b → s.Answered runs (some b)
  solver : ∀ k, s.solver = some k → (s.threads k).res? ≠ none
  testMod : ∀ k, (s.main = .testMod k ∨ s.main = .printModel k) → (s.threads k).res? ≠ none
  line : ∀ b, statusLine (some b) ∈ s.out → s.Answered runs (some b)
  code : ∀ b, s.main = .exited (exitCode (some b)) → s.Answered runs (some b)
  model : ∀ l ∈ s.out, l.head? = some 'v' → ∃ i res, runs i res ∧ modelLine p (res.vector p.nVars) = some l ∧
    (s.threads i).res? = some res
  getResult : s.main = .getResult → s.solver ≠ none
  /-- without interruption -/
  wrote : s.interrupted = false → ∀ i res, (s.threads i = .wrote res ∨ s.threads i = .ended res) → s.result ≠ none
  waited : s.interrupted = false → (∀ c, s.main ≠ .spawn c) → (∀ c, s.main ≠ .waitInit c) → s.main ≠ .wait → s.result ≠ none

theorem PfState.Answered.mono {runs : Nat → Result → Prop} {s t : PfState} {b : Option Bool} (h : s.Answered runs b)
    (ht : ∀ i res, (s.threads i).res? = some res → (t.threads i).res? = some res) : t.Answered runs b := by
  obtain ⟨i, res, h1, h2, h3⟩ := h
  exact ⟨i, res, h1, ht i res h2, h3⟩

theorem pfInv_start (n : Nat) (pm : Bool) (p : Problem) (runs : Nat → Result → Prop) : PfInv n pm p runs PfState.start := by
  constructor <;> simp [PfState.start, ThreadPc.res?]

/-- A step of thread `i`. -/
theorem PfInv.thread {n : Nat} {pm : Bool} {p : Problem} {runs : Nat → Result → Prop} {s : PfState} (h : PfInv n pm p runs s)
    {i : Nat} (hi : s.threads i ≠ .none) {pc : ThreadPc} {result : Option Bool} {solver : Option Nat} {ready : Nat}
    (hpc : ∀ res, (s.threads i).res? = some res → pc.res? = some res)
    (hruns : ∀ res, pc.res? = some res → runs i res ∧ (res.status = none → s.interrupted = true))
    (hres : ∀ b, result = some b → s.result = some b ∨ ∃ res, pc.res? = some res ∧ res.status = some b)
    (hsol : ∀ k, solver = some k → s.solver = some k ∨ (k = i ∧ pc.res? ≠ none))
    (hsol' : s.solver ≠ none → solver ≠ none)
    (hkeep : s.interrupted = false → s.result ≠ none → result ≠ none)
    (hw : s.interrupted = false → ∀ res, (pc = .wrote res ∨ pc = .ended res) → result ≠ none) :
    PfInv n pm p runs { s with threads := upd s.threads i pc, result := result, solver := solver, ready := ready } := by
  have hmono : ∀ j res, (s.threads j).res? = some res → (upd s.threads i pc j).res? = some res := by
    intro j res hj
    by_cases e : j = i
    · subst e; rw [upd_same]; exact hpc res hj
    · rw [upd_ne _ _ e]; exact hj
  have hans : ∀ b, s.Answered runs b →
      PfState.Answered runs { s with threads := upd s.threads i pc, result := result, solver := solver, ready := ready } b :=
    fun b hb => hb.mono hmono
  have hback : ∀ j res, (upd s.threads i pc j).res? = some res → runs j res ∧ (res.status = none → s.interrupted = true) := by
    intro j res hj
    by_cases e : j = i
    · subst e; rw [upd_same] at hj; exact hruns res hj
    · rw [upd_ne _ _ e] at hj; exact ⟨h.may j res hj, h.unknown j res hj⟩
  have hnn : ∀ k, (s.threads k).res? ≠ none → (upd s.threads i pc k).res? ≠ none := by
    intro k hk
    obtain ⟨res, hr⟩ := Option.ne_none_iff_exists'.1 hk
    rw [hmono k res hr]; simp
  constructor
  · intro c hc j hj
    have := h.spawn c hc j hj
    have e : j ≠ i := fun e => hi (e ▸ this)
    show upd s.threads i pc j = _
    rw [upd_ne _ _ e]; exact this
  · intro c hc j hj
    have := h.waitInit c hc j hj
    have e : j ≠ i := fun e => hi (e ▸ this)
    show upd s.threads i pc j = _
    rw [upd_ne _ _ e]; exact this
  · exact fun j res hj => (hback j res hj).1
  · exact fun j res hj => (hback j res hj).2
  · intro b hb
    rcases hres b hb with h1 | ⟨res, h1, h2⟩
    · exact hans _ (h.result b h1)
    · exact ⟨i, res, (hruns res h1).1, by show (upd s.threads i pc i).res? = _; rw [upd_same]; exact h1, h2⟩
  · intro k hk
    rcases hsol k hk with h1 | ⟨rfl, h1⟩
    · exact hnn k (h.solver k h1)
    · show (upd s.threads _ pc _).res? ≠ _
      rw [upd_same]; exact h1
  · exact fun k hk => hnn k (h.testMod k hk)
  · exact fun b hb => hans _ (h.line b hb)
  · exact fun b hb => hans _ (h.code b hb)
  · intro l hl hv
    obtain ⟨j, res, h1, h2, h3⟩ := h.model l hl hv
    exact ⟨j, res, h1, h2, hmono j res h3⟩
  · exact fun hg => hsol' (h.getResult hg)
  · intro hi' j res hj
    have hj' : upd s.threads i pc j = .wrote res ∨ upd s.threads i pc j = .ended res := hj
    by_cases e : j = i
    · subst e; rw [upd_same] at hj'; exact hw hi' res hj'
    · rw [upd_ne _ _ e] at hj'; exact hkeep hi' (h.wrote hi' j res hj')
  · exact fun h1 h2 h3 h4 => hkeep h1 (h.waited h1 h2 h3 h4)

/-- A step of `main` that prints nothing. -/
theorem PfInv.goto {n : Nat} {pm : Bool} {p : Problem} {runs : Nat → Result → Prop} {s : PfState} (h : PfInv n pm p runs s)
    {pc : MainPc} (h1 : ∀ c, pc = .spawn c → ∀ i, c ≤ i → s.threads i = .none) (h2 : ∀ c, pc ≠ .waitInit c)
    (h3 : ∀ k, (pc = .testMod k ∨ pc = .printModel k) → (s.threads k).res? ≠ none)
    (h4 : ∀ b, pc = .exited (exitCode (some b)) → s.result = some b)
    (h5 : pc = .getResult → s.solver ≠ none)
    (h6 : s.interrupted = false → (∀ c, pc ≠ .spawn c) → pc ≠ .wait → s.result ≠ none) :
    PfInv n pm p runs { s with main := pc } :=
  ⟨h1, fun c hc => (h2 c hc).elim, h.may, h.unknown, h.result, h.solver, h3, h.line, fun b hb => h.result b (h4 b hb), h.model,
    h5, h.wrote, fun a b _ d => h6 a b d⟩

/-- A step of `main` that prints a line. -/
theorem PfInv.print {n : Nat} {pm : Bool} {p : Problem} {runs : Nat → Result → Prop} {s : PfState} (h : PfInv n pm p runs s)
    {pc : MainPc} {l : List Char} (hpc : pc = .testSolver ∨ pc = .exit1)
    (hl : ∀ b, l = statusLine (some b) → s.result = some b)
    (hv : l.head? = some 'v' → ∃ i res, runs i res ∧ modelLine p (res.vector p.nVars) = some l ∧ (s.threads i).res? = some res)
    (h6 : s.interrupted = false → s.result ≠ none) :
    PfInv n pm p runs { s with out := s.out ++ [l], main := pc } := by
  have hm : ∀ c, pc ≠ .spawn c ∧ pc ≠ .waitInit c ∧ pc ≠ .testMod c ∧ pc ≠ .printModel c ∧ pc ≠ .exited c := by
    intro c; rcases hpc with rfl | rfl <;> simp
  refine ⟨fun c hc => ((hm c).1 hc).elim, fun c hc => ((hm c).2.1 hc).elim, h.may, h.unknown, h.result, h.solver,
    fun k hk => ?_, fun b hb => ?_, fun b hb => ((hm _).2.2.2.2 hb).elim, fun l' hl' hv' => ?_, fun hg => ?_, h.wrote, fun a _ _ _ => h6 a⟩
  · rcases hk with hk | hk
    · exact ((hm k).2.2.1 hk).elim
    · exact ((hm k).2.2.2.1 hk).elim
  · rcases List.mem_append.1 hb with hb | hb
    · exact h.line b hb
    · exact h.result b (hl b (List.mem_singleton.1 hb).symm)
  · rcases List.mem_append.1 hl' with hl' | hl'
    · exact h.model l' hl' hv'
    · rw [List.mem_singleton] at hl'
      subst hl'
      exact hv hv'
  · rcases hpc with rfl | rfl <;> cases hg

theorem PfInv.main {n : Nat} {pm : Bool} {p : Problem} {runs : Nat → Result → Prop} {s s' : PfState} (h : PfInv n pm p runs s)
    (hs : pfMain n pm p s = some s') : PfInv n pm p runs s' := by
  have hnot : ∀ (q : PfState), some q = some s' → q = s' := fun q e => Option.some.inj e
  unfold pfMain at hs
  have hw := h.waited
  cases hm : s.main with
  | spawn c =>
    simp only [hm] at hs
    have hsp := h.spawn c hm
    split at hs
    · cases hs
      have hc : s.threads c = .none := hsp c (Nat.le_refl c)
      have hmono : ∀ j res, (s.threads j).res? = some res → (upd s.threads c .starting j).res? = some res := by
        intro j res hj
        by_cases e : j = c
        · subst e; rw [hc] at hj; simp [ThreadPc.res?] at hj
        · rw [upd_ne _ _ e]; exact hj
      have hback : ∀ j res, (upd s.threads c .starting j).res? = some res → (s.threads j).res? = some res := by
        intro j res hj
        by_cases e : j = c
        · subst e; rw [upd_same] at hj; simp [ThreadPc.res?] at hj
        · rw [upd_ne _ _ e] at hj; exact hj
      have hnn : ∀ k, (s.threads k).res? ≠ none → (upd s.threads c .starting k).res? ≠ none := by
        intro k hk
        obtain ⟨res, hr⟩ := Option.ne_none_iff_exists'.1 hk
        rw [hmono k res hr]; simp
      refine ⟨fun _ hc' => by simp at hc', fun d hd i hi => ?_, fun j res hj => h.may j res (hback j res hj),
        fun j res hj => h.unknown j res (hback j res hj), fun b hb => (h.result b hb).mono hmono, fun k hk => hnn k (h.solver k hk),
        fun k hk => by simp at hk, fun b hb => (h.line b hb).mono hmono, fun b hb => by simp at hb, fun l hl hv => ?_, fun hg => by simp at hg,
        fun hi j res hj => ?_, fun _ _ h3 => (h3 c rfl).elim⟩
      · have e : c = d := by simpa using hd
        subst e
        show upd s.threads _ _ i = _
        rw [upd_ne _ _ (Nat.ne_of_gt hi)]
        exact hsp i (Nat.le_of_lt hi)
      · obtain ⟨j, res, h1, h2, h3⟩ := h.model l hl hv
        exact ⟨j, res, h1, h2, hmono j res h3⟩
      · have hj' : upd s.threads c .starting j = .wrote res ∨ upd s.threads c .starting j = .ended res := hj
        by_cases e : j = c
        · subst e; rw [upd_same] at hj'; rcases hj' with hj' | hj' <;> cases hj'
        · rw [upd_ne _ _ e] at hj'; exact h.wrote hi j res hj'
    · cases hs
      exact h.goto (by simp) (by simp) (by simp) (by simp) (by simp) (by simp)
  | waitInit c =>
    simp only [hm] at hs
    have hsp := h.waitInit c hm
    split at hs
    · cases hs; exact h
    · cases hs
      refine h.goto (fun d hd i hi => ?_) (by simp) (by simp) (by simp) (by simp) (fun _ h1 => (h1 _ rfl).elim)
      have e : c + 1 = d := by simpa using hd
      exact hsp i (by omega)
  | wait =>
    simp only [hm] at hs
    split at hs
    · cases hs; exact h
    · rename_i hc
      cases hs
      exact h.goto (by simp) (by simp) (by simp) (by simp) (by simp) (fun hi _ _ hr => hc ⟨hr, hi⟩)
  | status1 =>
    simp only [hm] at hs hw
    split at hs
    · rename_i hr
      cases hs
      refine h.print (.inl rfl) (fun b hb => ?_) (fun hv => ?_) (fun _ => by rw [hr]; simp)
      · rw [hr]; exact (statusLine_inj hb)
      · rw [statusLine_head] at hv; simp at hv
    · cases hs
      exact h.goto (by simp) (by simp) (by simp) (by simp) (by simp) (fun hi _ _ => hw hi (by simp) (by simp) (by simp))
  | status2 =>
    simp only [hm] at hs hw
    split at hs
    · rename_i hr
      cases hs
      refine h.print (.inl rfl) (fun b hb => ?_) (fun hv => ?_) (fun _ => by rw [hr]; simp)
      · rw [hr]; exact (statusLine_inj hb)
      · rw [statusLine_head] at hv; simp at hv
    · cases hs
      refine h.print (.inl rfl) (fun b hb => ?_) (fun hv => ?_) (fun hi => hw hi (by simp) (by simp) (by simp))
      · exact absurd (statusLine_inj hb) (by simp)
      · rw [statusLine_head] at hv; simp at hv
  | testSolver =>
    simp only [hm] at hs hw
    split at hs
    · cases hs
      exact h.goto (by simp) (by simp) (by simp) (by simp) (by simp) (fun hi _ _ => hw hi (by simp) (by simp) (by simp))
    · rename_i hr
      cases hs
      exact h.goto (by simp) (by simp) (by simp) (by simp) (fun _ => hr) (fun hi _ _ => hw hi (by simp) (by simp) (by simp))
  | getResult =>
    simp only [hm] at hs hw
    split at hs
    · cases hs
      exact h.goto (by simp) (by simp) (by simp) (by simp) (by simp) (fun hi _ _ => hw hi (by simp) (by simp) (by simp))
    · rename_i k hk
      cases hs
      refine h.goto (by simp) (by simp) (fun j hj => ?_) (by simp) (by simp) (fun hi _ _ => hw hi (by simp) (by simp) (by simp))
      have e : k = j := by simpa using hj
      subst e
      exact h.solver k hk
  | testMod k =>
    simp only [hm] at hs hw
    split at hs
    · cases hs
      refine h.goto (by simp) (by simp) (fun j hj => ?_) (by simp) (by simp) (fun hi _ _ => hw hi (by simp) (by simp) (by simp))
      have e : k = j := by simpa using hj
      subst e
      exact h.testMod k (.inl hm)
    · cases hs
      exact h.goto (by simp) (by simp) (by simp) (by simp) (by simp) (fun hi _ _ => hw hi (by simp) (by simp) (by simp))
  | printModel k =>
    simp only [hm] at hs hw
    split at hs
    · cases hs
      exact h.goto (by simp) (by simp) (by simp) (by simp) (by simp) (fun hi _ _ => hw hi (by simp) (by simp) (by simp))
    · rename_i res hres
      split at hs
      · cases hs
        exact h.goto (by simp) (by simp) (by simp) (by simp) (by simp) (fun hi _ _ => hw hi (by simp) (by simp) (by simp))
      · rename_i l hl
        cases hs
        refine h.print (.inr rfl) (fun b hb => ?_) (fun _ => ⟨k, res, h.may k res hres, hl, hres⟩)
          (fun hi => hw hi (by simp) (by simp) (by simp))
        have := modelLine_head hl
        rw [hb, statusLine_head] at this
        simp at this
  | exit1 =>
    simp only [hm] at hs hw
    split at hs
    · rename_i hr
      cases hs
      refine h.goto (by simp) (by simp) (by simp) (fun b hb => ?_) (by simp) (fun _ _ _ => by rw [hr]; simp)
      rw [hr]
      cases b <;> simp [exitCode] at hb ⊢
    · cases hs
      exact h.goto (by simp) (by simp) (by simp) (by simp) (by simp) (fun hi _ _ => hw hi (by simp) (by simp) (by simp))
  | exit2 =>
    simp only [hm] at hs hw
    split at hs
    · rename_i hr
      cases hs
      refine h.goto (by simp) (by simp) (by simp) (fun b hb => ?_) (by simp) (fun _ _ _ => by rw [hr]; simp)
      rw [hr]
      cases b <;> simp [exitCode] at hb ⊢
    · cases hs
      refine h.goto (by simp) (by simp) (by simp) (fun b hb => ?_) (by simp) (fun hi _ _ => hw hi (by simp) (by simp) (by simp))
      cases b <;> simp [exitCode] at hb
  | exited c => simp only [hm] at hs; cases hs
  | crashed => simp only [hm] at hs; cases hs

theorem PfInv.step {n : Nat} {pm : Bool} {p : Problem} {runs : Nat → Result → Prop} {s s' : PfState} (h : PfInv n pm p runs s)
    (hs : PfStep n pm p runs s s') : PfInv n pm p runs s' := by
  cases hs with
  | interrupt =>
    exact ⟨h.spawn, h.waitInit, h.may, fun _ _ _ _ => rfl, h.result, h.solver, h.testMod, h.line, h.code, h.model, h.getResult,
      fun hi => by simp at hi, fun hi => by simp at hi⟩
  | register i hi =>
    exact h.thread (i := i) (pc := .solving) (by rw [hi]; simp) (by rw [hi]; simp [ThreadPc.res?]) (by simp [ThreadPc.res?])
      (fun b hb => .inl hb) (fun k hk => .inl hk) id (fun _ => id) (by simp)
  | answer i res hi hr hint =>
    refine h.thread (i := i) (pc := .answered res) (by rw [hi]; simp) (by rw [hi]; simp [ThreadPc.res?]) (fun r hr' => ?_)
      (fun b hb => .inl hb) (fun k hk => .inl hk) id (fun _ => id) (by simp)
    cases hr'
    exact ⟨hr, hint⟩
  | check i res hi =>
    have h1 : (s.threads i).res? = some res := by rw [hi]; rfl
    by_cases hn : s.result = none
    · rw [if_pos hn]
      refine h.thread (i := i) (pc := .passed res) (by rw [hi]; simp) (fun r hr => by rw [h1] at hr; exact hr) (fun r hr' => ?_)
        (fun b hb => .inl hb) (fun k hk => .inl hk) id (fun _ => id) (by simp)
      cases hr'
      exact ⟨h.may i res h1, h.unknown i res h1⟩
    · rw [if_neg hn]
      refine h.thread (i := i) (pc := .ended res) (by rw [hi]; simp) (fun r hr => by rw [h1] at hr; exact hr) (fun r hr' => ?_)
        (fun b hb => .inl hb) (fun k hk => .inl hk) id (fun _ => id) (fun _ _ _ => hn)
      cases hr'
      exact ⟨h.may i res h1, h.unknown i res h1⟩
  | writeResult i res hi =>
    have h1 : (s.threads i).res? = some res := by rw [hi]; rfl
    have hdef : s.interrupted = false → res.status ≠ none := fun hf hn => by
      have := h.unknown i res h1 hn
      rw [hf] at this; cases this
    refine h.thread (i := i) (pc := .wrote res) (by rw [hi]; simp) (fun r hr => by rw [h1] at hr; exact hr) (fun r hr' => ?_)
      (fun b hb => .inr ⟨res, rfl, hb⟩) (fun k hk => .inl hk) id (fun hf _ => hdef hf) (fun hf _ _ => hdef hf)
    cases hr'
    exact ⟨h.may i res h1, h.unknown i res h1⟩
  | writeSolver i res hi =>
    have h1 : (s.threads i).res? = some res := by rw [hi]; rfl
    refine h.thread (i := i) (pc := .ended res) (by rw [hi]; simp) (fun r hr => by rw [h1] at hr; exact hr) (fun r hr' => ?_)
      (fun b hb => .inl hb) (fun k hk => .inr ⟨(Option.some.inj hk).symm, by simp [ThreadPc.res?]⟩) (fun _ => by simp) (fun _ => id)
      (fun hf _ _ => h.wrote hf i res (.inl hi))
    cases hr'
    exact ⟨h.may i res h1, h.unknown i res h1⟩
  | main _ hs => exact h.main hs

theorem PfReach.inv {n : Nat} {pm : Bool} {p : Problem} {runs : Nat → Result → Prop} {s : PfState} (h : PfReach n pm p runs s) :
    PfInv n pm p runs s := by
  induction h with
  | start => exact pfInv_start n pm p runs
  | step _ hs ih => exact ih.step hs


/-! ### Without interruption, if all answers agree -/

/-- `main` has not printed the status line. -/
def MainPc.early : MainPc → Bool
  | .spawn _ => true
  | .waitInit _ => true
  | .wait => true
  | .status1 => true
  | .status2 => true
  | _ => false

/-- The invariant while the program is not interrupted; `b` is the answer of all threads. -/
structure PfSure (b : Bool) (s : PfState) : Prop where
  result : s.result = none ∨ s.result = some b
  status2 : s.main = .status2 → b = false
  exit2 : s.main = .exit2 → b = false
  early : s.main.early = true → s.out = []
  late : s.main.early = false → s.out.filter (fun l => l.head? == some 's') = [statusLine (some b)]
  code : ∀ c, s.main = .exited c → c = exitCode (some b)
  sat : ∀ k, s.main = .printModel k → b = true
  ok : s.main ≠ .crashed

theorem PfSure.thread {b : Bool} {s : PfState} (h : PfSure b s) {threads : Nat → ThreadPc} {result : Option Bool} {solver : Option Nat}
    {ready : Nat} (hr : result = none ∨ result = some b) :
    PfSure b { s with threads := threads, result := result, solver := solver, ready := ready } :=
  ⟨hr, h.status2, h.exit2, h.early, h.late, h.code, h.sat, h.ok⟩

theorem PfSure.main {n : Nat} {pm : Bool} {p : Problem} {runs : Nat → Result → Prop} {b : Bool} {s s' : PfState}
    (hv : PfInv n pm p runs s) (hi : s.interrupted = false) (h : PfSure b s)
    (hm : b = true → ∀ i res, (s.threads i).res? = some res → ∃ l, modelLine p (res.vector p.nVars) = some l)
    (hs : pfMain n pm p s = some s') : PfSure b s' := by
  have hw := hv.waited hi
  have hr := h.result
  unfold pfMain at hs
  cases hp : s.main with
  | spawn c =>
    simp only [hp] at hs
    have he := h.early (by rw [hp]; rfl)
    split at hs <;> cases hs <;> exact ⟨hr, by simp, by simp, fun _ => he, by simp [MainPc.early], by simp, by simp, by simp⟩
  | waitInit c =>
    simp only [hp] at hs
    have he := h.early (by rw [hp]; rfl)
    split at hs
    · cases hs; exact h
    · cases hs; exact ⟨hr, by simp, by simp, fun _ => he, by simp [MainPc.early], by simp, by simp, by simp⟩
  | wait =>
    simp only [hp] at hs
    have he := h.early (by rw [hp]; rfl)
    split at hs
    · cases hs; exact h
    · cases hs; exact ⟨hr, by simp, by simp, fun _ => he, by simp [MainPc.early], by simp, by simp, by simp⟩
  | status1 =>
    simp only [hp] at hs hw
    have he := h.early (by rw [hp]; rfl)
    have hne := hw (by simp) (by simp) (by simp)
    have hb := hr.resolve_left hne
    split at hs
    · rename_i ht
      cases hs
      have : b = true := by rw [ht] at hb; simpa using hb.symm
      refine ⟨hr, by simp, by simp, by simp [MainPc.early], fun _ => ?_, by simp, by simp, by simp⟩
      show List.filter _ (s.out ++ _) = _
      rw [he, this]; rfl
    · rename_i ht
      cases hs
      refine ⟨hr, fun _ => ?_, by simp, fun _ => he, by simp [MainPc.early], by simp, by simp, by simp⟩
      cases b with
      | false => rfl
      | true => exact (ht hb).elim
  | status2 =>
    simp only [hp] at hs hw
    have he := h.early (by rw [hp]; rfl)
    have hne := hw (by simp) (by simp) (by simp)
    have hb := hr.resolve_left hne
    have hf := h.status2 hp
    rw [hf] at hb
    rw [if_pos hb] at hs
    cases hs
    refine ⟨hr, by simp, by simp, by simp [MainPc.early], fun _ => ?_, by simp, by simp, by simp⟩
    show List.filter _ (s.out ++ _) = _
    rw [he, hf]; rfl
  | testSolver =>
    simp only [hp] at hs
    have hl := h.late (by rw [hp]; rfl)
    split at hs <;> cases hs <;> exact ⟨hr, by simp, by simp, by simp [MainPc.early], fun _ => hl, by simp, by simp, by simp⟩
  | getResult =>
    simp only [hp] at hs
    have hl := h.late (by rw [hp]; rfl)
    split at hs
    · rename_i hn; exact (hv.getResult hp hn).elim
    · cases hs; exact ⟨hr, by simp, by simp, by simp [MainPc.early], fun _ => hl, by simp, by simp, by simp⟩
  | testMod k =>
    simp only [hp] at hs
    have hl := h.late (by rw [hp]; rfl)
    split at hs
    · rename_i ht
      cases hs
      refine ⟨hr, by simp, by simp, by simp [MainPc.early], fun _ => hl, by simp, fun _ _ => ?_, by simp⟩
      rcases hr with hr | hr
      · rw [hr] at ht; simp at ht
      · rw [hr] at ht; simpa using ht.1
    · cases hs; exact ⟨hr, by simp, by simp, by simp [MainPc.early], fun _ => hl, by simp, by simp, by simp⟩
  | printModel k =>
    simp only [hp] at hs
    have hl := h.late (by rw [hp]; rfl)
    obtain ⟨res, hres⟩ := Option.ne_none_iff_exists'.1 (hv.testMod k (.inr hp))
    obtain ⟨l, hlm⟩ := hm (h.sat k hp) k res hres
    rw [hres] at hs
    dsimp only at hs
    rw [hlm] at hs
    cases hs
    refine ⟨hr, by simp, by simp, by simp [MainPc.early], fun _ => ?_, by simp, by simp, by simp⟩
    show List.filter _ (s.out ++ _) = _
    rw [List.filter_append, hl]
    simp [modelLine_head hlm]
  | exit1 =>
    simp only [hp] at hs hw
    have hl := h.late (by rw [hp]; rfl)
    have hb := hr.resolve_left (hw (by simp) (by simp) (by simp))
    split at hs
    · rename_i ht
      cases hs
      refine ⟨hr, by simp, by simp, by simp [MainPc.early], fun _ => hl, fun c hc => ?_, by simp, by simp⟩
      have : b = true := by rw [ht] at hb; simpa using hb.symm
      rw [this]
      have e : 10 = c := by simpa using hc
      exact e.symm
    · rename_i ht
      cases hs
      refine ⟨hr, by simp, fun _ => ?_, by simp [MainPc.early], fun _ => hl, by simp, by simp, by simp⟩
      cases b with
      | false => rfl
      | true => exact (ht hb).elim
  | exit2 =>
    simp only [hp] at hs hw
    have hl := h.late (by rw [hp]; rfl)
    have hb := hr.resolve_left (hw (by simp) (by simp) (by simp))
    have hf := h.exit2 hp
    rw [hf] at hb
    rw [if_pos hb] at hs
    cases hs
    refine ⟨hr, by simp, by simp, by simp [MainPc.early], fun _ => hl, fun c hc => ?_, by simp, by simp⟩
    rw [hf]
    have e : 20 = c := by simpa using hc
    exact e.symm
  | exited c => simp only [hp] at hs; cases hs
  | crashed => simp only [hp] at hs; cases hs

theorem PfReach.sure {n : Nat} {pm : Bool} {p : Problem} {runs : Nat → Result → Prop} {b : Bool} {s : PfState}
    (hb : ∀ i res, runs i res → res.status = none ∨ res.status = some b)
    (hm : ∀ i res, runs i res → res.status = some true → ∃ l, modelLine p (res.vector p.nVars) = some l)
    (h : PfReach n pm p runs s) : s.interrupted = false → PfSure b s := by
  induction h with
  | start => intro _; constructor <;> simp [PfState.start, MainPc.early]
  | @step s s' h hs ih =>
    intro hi
    have hv := h.inv
    cases hs with
    | interrupt => simp at hi
    | register i _ => exact (ih hi).thread (ih hi).result
    | answer i _ _ _ _ => exact (ih hi).thread (ih hi).result
    | check i _ _ => exact (ih hi).thread (ih hi).result
    | writeResult i res h1 =>
      exact (ih hi).thread (hb i res (hv.may i res (by rw [h1]; rfl)))
    | writeSolver i _ _ => exact (ih hi).thread (ih hi).result
    | main _ hs =>
      have hi' : s.interrupted = false := by
        have : s'.interrupted = s.interrupted := by
          unfold pfMain at hs
          split at hs <;> (repeat' split at hs) <;> cases hs <;> rfl
        rw [← this]; exact hi
      refine (ih hi').main hv hi' (fun ht i res hr => ?_) hs
      have hd : res.status ≠ none := fun hn => by
        have := hv.unknown i res hr hn
        rw [hi'] at this; cases this
      have hru := hv.may i res hr
      exact hm i res hru (ht ▸ (hb i res hru).resolve_left hd)

/-! ### Schedules as lists -/

inductive PfAct where
  | interrupt
  | register (i : Nat)
  | answer (i : Nat) (res : Result)
  | check (i : Nat)
  | writeResult (i : Nat)
  | writeSolver (i : Nat)
  | main

/-- The effect of one step. -/
def pfAct (n : Nat) (pm : Bool) (p : Problem) (s : PfState) : PfAct → Option PfState
  | .interrupt => some { s with interrupted := true }
  | .register i =>
    match s.threads i with
    | .starting => some { s with threads := upd s.threads i .solving, ready := s.ready + 1 }
    | _ => none
  | .answer i res =>
    match s.threads i with
    | .solving =>
      if res.status = none ∧ s.interrupted = false then none
      else some { s with threads := upd s.threads i (.answered res) }
    | _ => none
  | .check i =>
    match s.threads i with
    | .answered res => some { s with threads := upd s.threads i (if s.result = none then .passed res else .ended res) }
    | _ => none
  | .writeResult i =>
    match s.threads i with
    | .passed res => some { s with threads := upd s.threads i (.wrote res), result := res.status }
    | _ => none
  | .writeSolver i =>
    match s.threads i with
    | .wrote res => some { s with threads := upd s.threads i (.ended res), solver := some i }
    | _ => none
  | .main => pfMain n pm p s

def pfExec (n : Nat) (pm : Bool) (p : Problem) : List PfAct → PfState → Option PfState
  | [], s => some s
  | a :: as, s => (pfAct n pm p s a).bind (pfExec n pm p as)

theorem pfAct_step {n : Nat} {pm : Bool} {p : Problem} {runs : Nat → Result → Prop} {s s' : PfState} {a : PfAct}
    (ha : ∀ i res, a = .answer i res → runs i res) (h : pfAct n pm p s a = some s') : PfStep n pm p runs s s' := by
  cases a with
  | interrupt => cases h; exact .interrupt s
  | register i =>
    unfold pfAct at h
    dsimp only at h
    split at h
    · rename_i h1; cases h; exact .register s i h1
    · cases h
  | answer i res =>
    unfold pfAct at h
    dsimp only at h
    split at h
    · rename_i h1
      split at h
      · cases h
      · rename_i h2
        cases h
        refine .answer s i res h1 (ha i res rfl) fun hn => ?_
        cases hi : s.interrupted with
        | true => rfl
        | false => exact (h2 ⟨hn, hi⟩).elim
    · cases h
  | check i =>
    unfold pfAct at h
    dsimp only at h
    split at h
    · rename_i h1; cases h; exact .check s i _ h1
    · cases h
  | writeResult i =>
    unfold pfAct at h
    dsimp only at h
    split at h
    · rename_i h1; cases h; exact .writeResult s i _ h1
    · cases h
  | writeSolver i =>
    unfold pfAct at h
    dsimp only at h
    split at h
    · rename_i h1; cases h; exact .writeSolver s i _ h1
    · cases h
  | main => exact .main s s' h

theorem pfExec_reach {n : Nat} {pm : Bool} {p : Problem} {runs : Nat → Result → Prop} : ∀ {as : List PfAct} {s s' : PfState},
    PfReach n pm p runs s → (∀ i res, .answer i res ∈ as → runs i res) → pfExec n pm p as s = some s' → PfReach n pm p runs s' := by
  intro as
  induction as with
  | nil => intro s s' h _ he; cases he; exact h
  | cons a as ih =>
    intro s s' h hr he
    unfold pfExec at he
    obtain ⟨t, h1, h2⟩ := Option.bind_eq_some_iff.1 he
    exact ih (.step h (pfAct_step (fun i res e => hr i res (e ▸ List.mem_cons_self)) h1))
      (fun i res hm => hr i res (List.mem_cons_of_mem _ hm)) h2

end Candy
