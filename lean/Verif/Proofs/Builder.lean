import Verif.SpecBuilder
import Verif.Props.Options
import Verif.Proofs.Basic

/-!
# Helper lemmas for the selection of the solver
-/

namespace Candy.Builder
open Candy Candy.Options

/-- The options after `main` has configured the first `c` threads. -/
def confs (o : Settings) : Nat → Settings
  | 0 => o
  | c + 1 => configure c (confs o c)

/-- Without the options that gate analysis changes. -/
def mask (o : Settings) : Settings := { o with sort := false, pre := false }

theorem configure_mask {a b : Settings} (h : mask a = mask b) (c : Nat) : configure c a = configure c b := by
  obtain ⟨a1, a2, a3, a4, a5, a6, a7, a8, a9, a10, a11, a12, a13, a14, a15, a16, a17⟩ := a
  obtain ⟨b1, b2, b3, b4, b5, b6, b7, b8, b9, b10, b11, b12, b13, b14, b15, b16, b17⟩ := b
  simp only [mask, Settings.mk.injEq] at h
  obtain ⟨rfl, rfl, rfl, rfl, rfl, rfl, -, -, rfl, rfl, rfl, rfl, rfl, rfl, rfl, rfl, rfl⟩ := h
  unfold configure
  rfl

/-- The fields of the options after configuration. -/
structure Conf (o : Settings) (c : Nat) (o' : Settings) : Prop where
  static : o'.static = o.static
  staticDb : o'.staticDb = o.staticDb
  vsidsc : o'.vsidsc = o.vsidsc
  mode : o'.mode = o.mode
  size : o'.size = o.size
  recalc : o'.recalc = false
  pre : o'.pre = decide (c = 0)
  inproc : 2 * o'.inproc = 2 * o.inproc + c * (c + 1)
  elim : o'.elim = !o.staticDb
  asymm : o'.asymm = decide (c = 6 ∨ c = 7 ∨ c = 14 ∨ c = 15)
  lrb : o'.lrb = decide (c = 2 ∨ c = 3 ∨ c = 10 ∨ c = 11)
  rsil : o'.rsil = decide (c = 4 ∨ c = 5 ∨ c = 12 ∨ c = 13)

theorem configure_big (o : Settings) {c : Nat} (h : 16 ≤ c) : configure c o = { o with
    recalc := false
    sort := decide (c % 2 = 0)
    pre := decide (c = 0)
    inproc := c + o.inproc
    elim := !o.staticDb
    asymm := decide (c = 6 ∨ c = 7 ∨ c = 14 ∨ c = 15) } := by
  unfold configure
  split <;> first | omega | rfl

/-- What one round of configuration does, for small numbers. -/
theorem configure_small (o : Settings) {c : Nat} (h : c < 16) : configure c o = { o with
    recalc := false
    sort := decide (c % 2 = 0)
    pre := decide (c = 0)
    inproc := c + o.inproc
    elim := !o.staticDb
    asymm := decide (c = 6 ∨ c = 7 ∨ c = 14 ∨ c = 15)
    lrb := decide (c = 2 ∨ c = 3 ∨ c = 10 ∨ c = 11)
    rsil := decide (c = 4 ∨ c = 5 ∨ c = 12 ∨ c = 13) } := by
  have : c = 0 ∨ c = 1 ∨ c = 2 ∨ c = 3 ∨ c = 4 ∨ c = 5 ∨ c = 6 ∨ c = 7 ∨ c = 8 ∨ c = 9 ∨ c = 10 ∨ c = 11 ∨ c = 12 ∨
      c = 13 ∨ c = 14 ∨ c = 15 := by omega
  rcases this with rfl | rfl | rfl | rfl | rfl | rfl | rfl | rfl | rfl | rfl | rfl | rfl | rfl | rfl | rfl | rfl <;> rfl

theorem confs_conf (o : Settings) : ∀ c, Conf o c (confs o (c + 1)) := by
  intro c
  induction c with
  | zero =>
    show Conf o 0 (configure 0 o)
    exact ⟨rfl, rfl, rfl, rfl, rfl, rfl, rfl, by show 2 * ((0 : Nat) + o.inproc) = _; omega, rfl, rfl, rfl, rfl⟩
  | succ c ih =>
    show Conf o (c + 1) (configure (c + 1) (confs o (c + 1)))
    have hsq : (2 : Int) * (((c + 1 : Nat) : Int) + (confs o (c + 1)).inproc) =
        2 * o.inproc + ((c + 1 : Nat) : Int) * (((c + 1 : Nat) : Int) + 1) := by
      have h := ih.inproc
      rw [Int.mul_add, h]
      push_cast
      simp only [Int.mul_add, Int.add_mul]
      omega
    by_cases hc : c + 1 < 16
    · rw [configure_small _ hc]
      exact ⟨ih.static, ih.staticDb, ih.vsidsc, ih.mode, ih.size, rfl, rfl, hsq, by
        show (!(confs o (c + 1)).staticDb) = _; rw [ih.staticDb], rfl, rfl, rfl⟩
    · rw [configure_big _ (by omega)]
      refine ⟨ih.static, ih.staticDb, ih.vsidsc, ih.mode, ih.size, rfl, rfl, hsq, by
        show (!(confs o (c + 1)).staticDb) = _; rw [ih.staticDb], rfl, ?_, ?_⟩
      · show (confs o (c + 1)).lrb = _
        rw [ih.lrb]; exact decide_eq_decide.2 (by omega)
      · show (confs o (c + 1)).rsil = _
        rw [ih.rsil]; exact decide_eq_decide.2 (by omega)

/-- How many threads `main` has configured. -/
def Counts (c : Nat) : MainPc → Prop
  | .spawn k => c = k
  | .waitInit k => c = k + 1
  | _ => True

/-- Invariant of the program with options. -/
structure OInv (o₀ : Settings) (s : PfState) (o : Settings) (made : Nat → Option Member) (c : Nat) : Prop where
  counts : Counts c s.main
  options : mask o = mask (confs o₀ c)
  starting : ∀ i, s.threads i = .starting → s.main = .waitInit i ∧ s.ready ≤ i
  ready : s.ready ≤ c
  exact : ∀ i, s.threads i = .starting → made i = none → o = confs o₀ c
  later : ∀ i, c ≤ i → made i = none ∧ s.threads i = .none
  solver : ∀ i m, made i = some m → threadSolver (confs o₀ (i + 1)) = some m

variable {n : Nat} {pm : Bool} {p : Problem} {runs : Nat → Candy.Result → Prop} {o₀ : Settings}

/-- Steps of threads. -/
theorem PfStep.thread_cases {s s' : PfState} (h : PfStep n pm p runs s s') (hm : s'.main = s.main) :
    (∀ j, s'.threads j = .starting → s.threads j = .starting) ∧ (∀ j, s.threads j = .none → s'.threads j = .none) ∧
    (s'.ready = s.ready ∨ ∃ i, s.threads i = .starting ∧ s'.threads i ≠ .starting ∧ s'.ready = s.ready + 1) := by
  have key : ∀ {i : Nat} {t : ThreadPc}, t ≠ .starting → s.threads i ≠ .none →
      (∀ j, upd s.threads i t j = .starting → s.threads j = .starting) ∧
      (∀ j, s.threads j = .none → upd s.threads i t j = .none) := by
    intro i t h1 h2
    refine ⟨fun j hj => ?_, fun j hj => ?_⟩
    · by_cases e : j = i
      · subst e; rw [upd_same] at hj; exact absurd hj h1
      · rwa [upd_ne _ _ e] at hj
    · by_cases e : j = i
      · subst e; exact absurd hj h2
      · rwa [upd_ne _ _ e]
  cases h with
  | interrupt => exact ⟨fun _ h => h, fun _ h => h, .inl rfl⟩
  | register i h =>
    obtain ⟨a, b⟩ := key (i := i) (t := .solving) (by simp) (by rw [h]; simp)
    exact ⟨a, b, .inr ⟨i, h, by simp, rfl⟩⟩
  | answer i res h hr hi =>
    obtain ⟨a, b⟩ := key (i := i) (t := .answered res) (by simp) (by rw [h]; simp)
    exact ⟨a, b, .inl rfl⟩
  | check i res h =>
    obtain ⟨a, b⟩ := key (i := i) (t := if s.result = none then .passed res else .ended res)
      (by split <;> simp) (by rw [h]; simp)
    exact ⟨a, b, .inl rfl⟩
  | writeResult i res h =>
    obtain ⟨a, b⟩ := key (i := i) (t := .wrote res) (by simp) (by rw [h]; simp)
    exact ⟨a, b, .inl rfl⟩
  | writeSolver i res h =>
    obtain ⟨a, b⟩ := key (i := i) (t := .ended res) (by simp) (by rw [h]; simp)
    exact ⟨a, b, .inl rfl⟩
  | main _ h =>
    have : s'.threads = s.threads ∧ s'.ready = s.ready := by
      unfold pfMain at h
      cases e : s.main with
      | spawn c =>
        rw [e] at h
        dsimp only at h
        split at h
        · cases h; rw [e] at hm; cases hm
        · cases h; exact ⟨rfl, rfl⟩
      | _ =>
        rw [e] at h
        dsimp only at h
        repeat' split at h
        all_goals first | (cases h; done) | (cases h; exact ⟨rfl, rfl⟩)
    rw [this.1]
    exact ⟨fun _ h => h, fun _ h => h, .inl this.2⟩

/-- Steps of `main` outside the loop over the threads. -/
theorem pfMain_other {s s' : PfState} (h : pfMain n pm p s = some s') (h1 : ∀ c, s.main ≠ .spawn c)
    (h2 : ∀ c, s.main ≠ .waitInit c) :
    s'.threads = s.threads ∧ s'.ready = s.ready ∧ (∀ c, s'.main ≠ .spawn c) ∧ ∀ c, s'.main ≠ .waitInit c := by
  unfold pfMain at h
  cases e : s.main with
  | spawn c => exact absurd e (h1 c)
  | waitInit c => exact absurd e (h2 c)
  | _ =>
    rw [e] at h
    dsimp only at h
    repeat' split at h
    all_goals first | (cases h; done) | (cases h; exact ⟨rfl, rfl, by simp [e], by simp [e]⟩)

theorem OReach.inv {s : PfState} {o : Settings} {made : Nat → Option Member} (h : OReach n pm p runs o₀ s o made) :
    ∃ c, OInv o₀ s o made c := by
  induction h with
  | start =>
    exact ⟨0, rfl, rfl, fun i h => by simp [PfState.start] at h, Nat.le_refl _, fun i h => by simp [PfState.start] at h,
      fun i _ => ⟨rfl, rfl⟩, fun i m h => by simp at h⟩
  | @main s s' o made h hs ih =>
    obtain ⟨c, I⟩ := ih
    cases e : s.main with
    | spawn k =>
      have hc : c = k := by have := I.counts; rw [e] at this; exact this
      subst hc
      have hno : ∀ i, s.threads i ≠ .starting := fun i hi => by
        have := (I.starting i hi).1; rw [e] at this; cases this
      unfold pfMain at hs
      rw [e] at hs
      dsimp only at hs ⊢
      by_cases hq : c < n ∧ s.result = none
      · rw [if_pos hq] at hs ⊢
        cases hs
        have hst : ∀ i, upd s.threads c .starting i = .starting → i = c := fun i hi => by
          by_cases e : i = c
          · exact e
          · rw [upd_ne _ _ e] at hi; exact absurd hi (hno i)
        refine ⟨c + 1, rfl, ?_, fun i hi => ?_, Nat.le_succ_of_le I.ready, fun i _ _ => ?_, fun i hi => ?_, I.solver⟩
        · show mask (configure c o) = mask (configure c (confs o₀ c))
          rw [configure_mask I.options]
        · cases hst i hi; exact ⟨rfl, I.ready⟩
        · exact configure_mask I.options c
        · refine ⟨(I.later i (by omega)).1, ?_⟩
          show upd s.threads c .starting i = .none
          rw [upd_ne _ _ (by omega)]; exact (I.later i (by omega)).2
      · rw [if_neg hq] at hs ⊢
        cases hs
        exact ⟨c, trivial, I.options, fun i hi => absurd hi (hno i), I.ready, fun i hi => absurd hi (hno i), I.later,
          I.solver⟩
    | waitInit k =>
      have hc : c = k + 1 := by have := I.counts; rw [e] at this; exact this
      subst hc
      unfold pfMain at hs
      rw [e] at hs
      dsimp only at hs ⊢
      by_cases hq : s.ready ≤ k
      · rw [if_pos hq] at hs
        cases hs
        exact ⟨k + 1, I⟩
      · rw [if_neg hq] at hs
        cases hs
        have hno : ∀ i, s.threads i ≠ .starting := fun i hi => by
          have h := I.starting i hi
          rw [e] at h
          have : k = i := by have := h.1; cases this; rfl
          omega
        exact ⟨k + 1, rfl, I.options, fun i hi => absurd hi (hno i), I.ready, fun i hi => absurd hi (hno i), I.later,
          I.solver⟩
    | _ =>
      have hk := pfMain_other hs (by simp [e]) (by simp [e])
      have hno : ∀ i, s.threads i ≠ .starting := fun i hi => by
        have := (I.starting i hi).1; rw [e] at this; cases this
      dsimp only
      refine ⟨c, ?_, I.options, fun i hi => ?_, by rw [hk.2.1]; exact I.ready, fun i hi => ?_, fun i hi => ?_, I.solver⟩
      · cases e' : s'.main with
        | spawn k => exact absurd e' (hk.2.2.1 k)
        | waitInit k => exact absurd e' (hk.2.2.2 k)
        | _ => trivial
      · rw [hk.1] at hi; exact absurd hi (hno i)
      · rw [hk.1] at hi; exact absurd hi (hno i)
      · rw [hk.1]; exact I.later i hi
  | @make s o made h i hi hm m ht ih =>
    obtain ⟨c, I⟩ := ih
    have hw := (I.starting i hi).1
    have hc : c = i + 1 := by have := I.counts; rw [hw] at this; exact this
    subst hc
    have ho : o = confs o₀ (i + 1) := I.exact i hi hm
    refine ⟨i + 1, I.counts, I.options, I.starting, I.ready, fun _ _ _ => ho, fun j hj => ?_, fun j m' hj => ?_⟩
    · rw [upd_ne _ _ (by omega)]; exact I.later j hj
    · by_cases e : j = i
      · subst e; rw [upd_same] at hj; cases hj; rw [← ho]; exact ht
      · rw [upd_ne _ _ e] at hj; exact I.solver j m' hj
  | @analyse s o made h i hi hm ih =>
    obtain ⟨c, I⟩ := ih
    refine ⟨c, I.counts, I.options, I.starting, I.ready, fun j hj hmj => ?_, I.later, I.solver⟩
    have h1 := (I.starting i hi).1
    rw [(I.starting j hj).1] at h1
    cases h1
    exact absurd hmj hm
  | @thread s s' o made h hs hmain hreg ih =>
    obtain ⟨c, I⟩ := ih
    obtain ⟨h1, h2, h3⟩ := PfStep.thread_cases hs hmain
    refine ⟨c, by rw [hmain]; exact I.counts, I.options, fun i hi => ?_, ?_, fun i hi => I.exact i (h1 i hi),
      fun i hi => ⟨(I.later i hi).1, h2 i (I.later i hi).2⟩, I.solver⟩
    · have hA := I.starting i (h1 i hi)
      rw [hmain]
      refine ⟨hA.1, ?_⟩
      rcases h3 with h3 | ⟨j, hj, hj', h3⟩
      · rw [h3]; exact hA.2
      · have hB := (I.starting j hj).1
        rw [hA.1] at hB
        cases hB
        exact absurd hi hj'
    · rcases h3 with h3 | ⟨j, hj, hj', h3⟩
      · rw [h3]; exact I.ready
      · have hB := I.starting j hj
        have hc : c = j + 1 := by have := I.counts; rw [hB.1] at this; exact this
        omega

/-! ## Values of options -/

variable {X : Doubles} {opts : List (Opt X.D)}

/-- Two options with the same name are equal. -/
theorem Names.unique (hN : Names opts) {a b : Opt X.D} (ha : a ∈ opts) (hb : b ∈ opts) (e : a.name = b.name) : a = b := by
  obtain ⟨pre, post, rfl⟩ := List.append_of_mem ha
  have hd := hN.nodup
  rw [List.map_append, List.nodup_append] at hd
  have h2 := hd.2.1
  rw [List.map_cons, List.nodup_cons] at h2
  rcases List.mem_append.1 hb with h | h
  · exact absurd e.symm (hd.2.2 _ (List.mem_map_of_mem h) _ (by simp))
  · rcases List.mem_cons.1 h with h | h
    · exact h.symm
    · exact absurd (e ▸ List.mem_map_of_mem h) h2.1

theorem valueOf_mem (hN : Names opts) {o : Opt X.D} (ho : o ∈ opts) : valueOf opts o.name = o.cell.value := by
  unfold valueOf
  cases e : opts.find? fun x => x.name == o.name with
  | none => exact absurd (List.find?_eq_none.1 e o ho) (by simp)
  | some x =>
    have h1 := List.mem_of_find?_eq_some e
    have h2 := List.find?_some e
    rw [Names.unique hN h1 ho (by simpa using h2)]
    rfl

/-- The value is that of the option, or that of an argument. -/
theorem finalValue_cases (hN : Names opts) {args : List Arg} {o : Opt X.D} (ho : o ∈ opts) :
    finalValue X opts args o.name = o.cell.value ∨
    ∃ a ∈ args, ∃ v, a.setting X = some (o.name, v) ∧ finalValue X opts args o.name = some v := by
  unfold finalValue
  cases e : (args.filterMap (Arg.setting X)).reverse.find? fun x => x.1 == o.name with
  | none => exact .inl (valueOf_mem hN ho)
  | some x =>
    right
    have h1 := List.mem_reverse.1 (List.mem_of_find?_eq_some e)
    have h2 := List.find?_some e
    obtain ⟨a, ha, hx⟩ := List.mem_filterMap.1 h1
    refine ⟨a, ha, x.2, ?_, rfl⟩
    rw [hx, ← (show x.1 = o.name by simpa using h2)]

theorem finalValue_bool (hN : Names opts) {args : List Arg} (hf : ∀ a ∈ args, a.Fits X opts) {o : Opt X.D} (ho : o ∈ opts)
    {b : Bool} (hc : o.cell = .bool b) : ∃ b', finalValue X opts args o.name = some (.bool b') := by
  rcases finalValue_cases hN (args := args) ho with h | ⟨a, ha, v, h1, h2⟩
  · rw [h, hc]; exact ⟨b, rfl⟩
  · have hk := (hf a ha).kind
    cases a <;> simp only [Arg.setting, Option.some.injEq, Prod.mk.injEq, reduceCtorEq] at h1 hk
    · obtain ⟨-, x, hx, e, h⟩ := hk
      have := Names.unique hN hx ho (e.trans h1.1)
      subst this
      rcases h with ⟨_, _, _, h, -⟩ | ⟨_, _, _, h, -⟩ <;> rw [hc] at h <;> cases h
    · obtain ⟨x, hx, e, _, _, _, h, -⟩ := hk
      have := Names.unique hN hx ho (e.trans h1.1)
      subst this
      rw [hc] at h; cases h
    · obtain ⟨-, -, x, hx, e, _, h⟩ := hk
      have := Names.unique hN hx ho (e.trans h1.1)
      subst this
      rw [hc] at h; cases h
    · exact ⟨_, h1.2 ▸ h2⟩

theorem finalValue_int (hN : Names opts) {args : List Arg} (hf : ∀ a ∈ args, a.Fits X opts) {o : Opt X.D} (ho : o ∈ opts)
    {lo hi v : Int} (hc : o.cell = .int lo hi v) (hr : lo ≤ v ∧ v ≤ hi) :
    ∃ v', finalValue X opts args o.name = some (.int v') ∧ lo ≤ v' ∧ v' ≤ hi := by
  rcases finalValue_cases hN (args := args) ho with h | ⟨a, ha, w, h1, h2⟩
  · rw [h, hc]; exact ⟨v, rfl, hr⟩
  · have hk := (hf a ha).kind
    cases a <;> simp only [Arg.setting, Option.some.injEq, Prod.mk.injEq, reduceCtorEq] at h1 hk
    · obtain ⟨-, x, hx, e, h⟩ := hk
      have := Names.unique hN hx ho (e.trans h1.1)
      subst this
      rcases h with ⟨_, _, _, h, h3, h4, -⟩ | ⟨_, _, _, h, -⟩ <;> rw [hc] at h <;> cases h
      exact ⟨_, h1.2 ▸ h2, h3, h4⟩
    · obtain ⟨x, hx, e, _, _, _, h, -⟩ := hk
      have := Names.unique hN hx ho (e.trans h1.1)
      subst this
      rw [hc] at h; cases h
    · obtain ⟨-, -, x, hx, e, _, h⟩ := hk
      have := Names.unique hN hx ho (e.trans h1.1)
      subst this
      rw [hc] at h; cases h
    · obtain ⟨x, hx, e, _, h⟩ := hk
      have := Names.unique hN hx ho (e.trans h1.1)
      subst this
      rw [hc] at h; cases h

theorem finalValue_text (hN : Names opts) {args : List Arg} (hf : ∀ a ∈ args, a.Fits X opts) {o : Opt X.D} (ho : o ∈ opts)
    {b : List Char} {t : Str} (hc : o.cell = .string b) (hr : readC b = some t) :
    ∃ t', finalValue X opts args o.name = some (.text t') := by
  rcases finalValue_cases hN (args := args) ho with h | ⟨a, ha, w, h1, h2⟩
  · rw [h, hc]; exact ⟨t, by simp only [Cell.value, hr, Option.map]⟩
  · have hk := (hf a ha).kind
    cases a <;> simp only [Arg.setting, Option.some.injEq, Prod.mk.injEq, reduceCtorEq] at h1 hk
    · obtain ⟨-, x, hx, e, h⟩ := hk
      have := Names.unique hN hx ho (e.trans h1.1)
      subst this
      rcases h with ⟨_, _, _, h, -⟩ | ⟨_, _, _, h, -⟩ <;> rw [hc] at h <;> cases h
    · obtain ⟨x, hx, e, _, _, _, h, -⟩ := hk
      have := Names.unique hN hx ho (e.trans h1.1)
      subst this
      rw [hc] at h; cases h
    · exact ⟨_, h1.2 ▸ h2⟩
    · obtain ⟨x, hx, e, _, h⟩ := hk
      have := Names.unique hN hx ho (e.trans h1.1)
      subst this
      rw [hc] at h; cases h

end Candy.Builder
