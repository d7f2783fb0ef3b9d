import Verif.Proofs.SharedRun
import Verif.Proofs.SharedOwn

/-!
# C64: solvers that share clause memory

Several solvers can keep their common clauses in one global allocator. Each thread holds pointers into its pages;
pages are replaced from time to time, and the old ones are freed once every thread has said that it uses the new
ones. The full claim: for every schedule of the threads, no thread reads a clause that was freed or is not yet
constructed; every clause that is not deleted is listed by every thread; and no thread lists a clause that no thread
put in.

The first two parts fail (`C64_replace_race`, `C64_flag_race`, `C64_torn_race`, `C64_join_drops_units`). They hold for
all schedules that respect the three rules of `Orderly`, which the locks do not enforce (suffix `_partial`). The last
part holds for all schedules.
-/

namespace Candy.Shared

/-- The states reached by orderly schedules. -/
def Reached (f : List (List Lit)) (bound : Nat) (s : Sys) : Prop :=
  ∃ es, OrderlyRun (start f bound) es ∧ run (start f bound) es = some s

theorem Reached.inv {f : List (List Lit)} {bound : Nat} {s : Sys} (h : Reached f bound s) : Inv s ∧ WrOk s := by
  obtain ⟨es, ho, he⟩ := h
  obtain ⟨s', h1, h2⟩ := run_inv (start_inv f bound) (start_wr f bound) ho
  rw [he] at h1
  cases h1
  exact h2

/-- C64 (memory safety, partial). In every orderly schedule, of any length and of any number of threads, no thread
ever reads memory that was freed or a clause that is not constructed. Missing: other schedules, where it is false. -/
theorem C64_safe_partial (f : List (List Lit)) (bound : Nat) (es : List (Nat × Request))
    (ho : OrderlyRun (start f bound) es) : ∃ s, run (start f bound) es = some s := by
  obtain ⟨s, h, _⟩ := run_inv (start_inv f bound) (start_wr f bound) ho
  exact ⟨s, h⟩

/-- C64 (nothing is lost, partial). In every orderly schedule that does not delete a clause of the problem, every
thread that works lists that clause: also a thread that joined later, and after any number of reorganisations. -/
theorem C64_complete_partial (f : List (List Lit)) (bound : Nat) (es : List (Nat × Request)) (s : Sys)
    (ho : OrderlyRun (start f bound) es) (he : run (start f bound) es = some s) (ls : List Lit) (hl : ls ∈ f)
    (hk : KeepsRun ls (start f bound) es) (t : Nat) (ht : (s.thr t).pc = .idle) : Lists s t ls := by
  have hc := run_content (T := fun _ => True) (start_inv f bound) (start_wr f bound) ho hk (start_content hl bound _) he
  obtain ⟨a, ha, w, hm⟩ := hc.v t trivial (by rw [ht]; exact fun e => by cases e) (by rw [ht]; exact fun e => by cases e)
    (by rw [ht]; exact fun fs e => by cases e)
  exact .inr ⟨a, ha, w, read_of_mem (Reached.inv ⟨es, ho, he⟩).1.1.nd hm⟩

theorem OrderlyRun.append {es1 : List (Nat × Request)} : ∀ {s s' : Sys} {es2 : List (Nat × Request)},
    OrderlyRun s es1 → run s es1 = some s' → OrderlyRun s' es2 → OrderlyRun s (es1 ++ es2) := by
  induction es1 with
  | nil => intro s s' es2 _ he h; cases he; exact h
  | cons e es1 ih =>
    intro s s' es2 h1 he h2
    refine ⟨h1.1, fun s1 hs => ?_⟩
    simp only [run, hs, Option.bind_some] at he
    exact ih (h1.2 s1 hs) he h2

theorem run_append {es1 : List (Nat × Request)} : ∀ {s s' : Sys} {es2 : List (Nat × Request)},
    run s es1 = some s' → run s (es1 ++ es2) = run s' es2 := by
  induction es1 with
  | nil => intro s s' es2 he; cases he; rfl
  | cons e es1 ih =>
    intro s s' es2 he
    simp only [run, List.cons_append] at he ⊢
    cases hs : step s e.1 e.2 with
    | none => rw [hs] at he; cases he
    | some s1 => rw [hs] at he; exact ih he

/-- A clause in shared memory is listed by every thread that starts to collect. -/
theorem collects {s1 s2 s3 : Sys} (i1 : Inv s1) (w1 : WrOk s1) {t : Nat} {ls : List Lit}
    (hg : Has s1.facts.pages ls ∨ Has s1.memory.pages ls) {es2 es3 : List (Nat × Request)}
    (o2 : OrderlyRun s1 es2) (h2 : run s1 es2 = some s2) (k2 : KeepsRun ls s1 es2)
    (ht : (s2.thr t).pc = .units) (o3 : OrderlyRun s2 es3) (h3 : run s2 es3 = some s3) (k3 : KeepsRun ls s2 es3)
    (hi : (s3.thr t).pc = .idle) : Lists s3 t ls := by
  have c1 : Content ls (fun _ => False) s1 := ⟨hg, fun _ h => h.elim, fun _ h => h.elim⟩
  have c2 := run_content i1 w1 o2 k2 c1 h2
  obtain ⟨s2', h2', i2, w2⟩ := run_inv i1 w1 o2
  rw [h2] at h2'
  cases h2'
  have c2' : Content ls (fun x => x = t) s2 :=
    ⟨c2.g, fun x hx fs h => (by rw [show x = t from hx, ht] at h; cases h),
      fun x hx _ h => absurd (show (s2.thr x).pc = .units by rw [show x = t from hx]; exact ht) h⟩
  have c3 := run_content i2 w2 o3 k3 c2' h3
  obtain ⟨s3', h3', i3, _⟩ := run_inv i2 w2 o3
  rw [h3] at h3'
  cases h3'
  obtain ⟨b, hb, w, hm⟩ := c3.v t rfl (by rw [hi]; exact fun e => by cases e) (by rw [hi]; exact fun e => by cases e)
    (by rw [hi]; exact fun fs e => by cases e)
  exact .inr ⟨b, hb, w, read_of_mem i3.1.nd hm⟩

/-- C64 (clauses are passed on, partial). A thread `u` constructs a clause in shared memory. In every orderly
continuation that does not delete it, every thread that afterwards starts to collect its clauses lists the new clause
when it works again. -/
theorem C64_share_partial {f : List (List Lit)} {bound : Nat} {s1 s2 s3 : Sys} (h1 : Reached f bound s1) {u t : Nat}
    {a : Ptr} {ls : List Lit} {r : Request} (hw : (s1.thr u).pc = .write a ⟨ls, 0⟩) {es2 es3 : List (Nat × Request)}
    (o2 : OrderlyRun s1 ((u, r) :: es2)) (h2 : run s1 ((u, r) :: es2) = some s2) (k2 : KeepsRun ls s1 ((u, r) :: es2))
    (ht : (s2.thr t).pc = .units) (o3 : OrderlyRun s2 es3) (h3 : run s2 es3 = some s3) (k3 : KeepsRun ls s2 es3)
    (hi : (s3.thr t).pc = .idle) : Lists s3 t ls := by
  obtain ⟨i1, w1⟩ := h1.inv
  obtain ⟨s1', e1, i1'⟩ := step_inv i1 o2.1 r
  have w1' := step_wr i1.1 i1'.1 w1 e1
  -- the clause is there
  have hg : Has s1'.facts.pages ls ∨ Has s1'.memory.pages ls := by
    have hc := i1.1.wr u a _ hw
    obtain ⟨d, hd⟩ := hc.all
    have e1' := e1
    unfold step at e1'
    simp only [hw, read_of_mem i1.1.nd hd] at e1'
    cases e1'
    rcases cur_iff.1 hc with ⟨d, hd⟩ | ⟨d, hd⟩
    · exact .inl ⟨(a, ⟨ls, 0⟩), mem_live.2 ⟨mem_setCell_same hd, rfl⟩, rfl⟩
    · exact .inr ⟨(a, ⟨ls, 0⟩), mem_live.2 ⟨mem_setCell_same hd, rfl⟩, rfl⟩
  exact collects i1' w1' hg (o2.2 s1' e1) (by simpa only [run, e1, Option.bind_some] using h2) (k2.2 s1' e1)
    ht o3 h3 k3 hi

/-- C64 (own clauses stay, partial). A thread has a clause, not deleted, in its own memory. In every orderly
continuation, with any number of reorganisations of any threads, in which nobody deletes the clause, the thread lists
it whenever it works: in its own memory, or in shared memory. -/
theorem C64_own_partial {f : List (List Lit)} {bound : Nat} {s1 s2 : Sys} (h1 : Reached f bound s1) {t : Nat}
    {ls : List Lit} (hin : (s1.thr t).pc ≠ .out) (hown : ∃ c ∈ (s1.thr t).own, c.isDeleted = false ∧ c.lits = ls)
    {es : List (Nat × Request)} (o : OrderlyRun s1 es) (he : run s1 es = some s2) (k : KeepsRun ls s1 es)
    (ko : KeepsOwnRun ls t s1 es) (hi : (s2.thr t).pc = .idle) : Lists s2 t ls := by
  obtain ⟨i1, w1⟩ := h1.inv
  obtain ⟨s2', e, i2, _⟩ := run_inv i1 w1 o
  rw [he] at e
  cases e
  rcases (run_own i1 w1 o k ko ⟨hin, .inl hown⟩ he).2 with ⟨c, hc, _, h⟩ | h
  · exact .inl ⟨c, hc, h⟩
  · obtain ⟨a, ha, w, hm⟩ := h.v (.inl hi)
    exact .inr ⟨a, ha, w, read_of_mem i2.1.nd hm⟩

/-- C64 (own clauses are exported, partial). A thread `u` has a clause in its own memory that is for all threads, and
starts to reorganise. In every orderly continuation that does not delete it, every thread that afterwards starts to
collect its clauses lists that clause when it works again. -/
theorem C64_export_partial {f : List (List Lit)} {bound : Nat} {s1 s2 s3 : Sys} (h1 : Reached f bound s1) {u t : Nat}
    (hu : (s1.thr u).pc = .idle) {c : Cls} (hc : c ∈ (s1.thr u).own) (ha : ForAll s1.bound c)
    {es2 es3 : List (Nat × Request)} (o2 : OrderlyRun s1 ((u, .reorganize) :: es2))
    (h2 : run s1 ((u, .reorganize) :: es2) = some s2) (k2 : KeepsRun c.lits s1 ((u, .reorganize) :: es2))
    (ht : (s2.thr t).pc = .units) (o3 : OrderlyRun s2 es3) (h3 : run s2 es3 = some s3) (k3 : KeepsRun c.lits s2 es3)
    (hi : (s3.thr t).pc = .idle) : Lists s3 t c.lits := by
  obtain ⟨i1, w1⟩ := h1.inv
  obtain ⟨s1', e1, i1'⟩ := step_inv i1 o2.1 .reorganize
  have w1' := step_wr i1.1 i1'.1 w1 e1
  have hg : Has s1'.memory.pages c.lits := by
    have e1' := e1
    unfold step at e1'
    simp only [hu, request] at e1'
    cases e1'
    refine sync_posted hc ha.1 ?_
    unfold exported
    rcases ha.2 with h | h | h <;> simp [h, ha.1]
  exact collects i1' w1' (.inr hg) (o2.2 s1' e1) (by simpa only [run, e1, Option.bind_some] using h2) (k2.2 s1' e1)
    ht o3 h3 k3 hi

/-- C64 (nothing is invented). In every schedule: if the problem, and every clause that any thread brings in, has some
property (such as being implied by the problem), then every clause that any thread lists has it. -/
theorem C64_sound (f : List (List Lit)) (bound : Nat) (es : List (Nat × Request)) (s : Sys) (P : List Lit → Prop)
    (hf : ∀ ls ∈ f, P ls) (hp : ∀ e ∈ es, ∀ ls ∈ e.2.clauses, P ls) (he : run (start f bound) es = some s) (t : Nat)
    (ls : List Lit) (hl : Lists s t ls) : P ls := by
  have h := run_allP (start_allP hf bound) hp he
  rcases hl with ⟨c, hc, rfl⟩ | ⟨a, _, w, hr⟩
  · exact h.own t c hc
  · exact h.cell a _ (mem_of_read hr)

/-! ### Schedules -/

/-- Some step of a thread that is not working; the request is ignored. -/
def go (t : Nat) : Nat × Request := (t, .use 0)

/-- `ClauseDatabase::reorganize` of one thread without interruption: 5 steps, or 7 if the pages are replaced. -/
def reorg (t n : Nat) : List (Nat × Request) := (t, .reorganize) :: List.replicate n (go t)

/-- Clauses of the examples. -/
def exTern : List Lit := [⟨0, false⟩, ⟨1, false⟩, ⟨2, false⟩]
def exUnit : List Lit := [⟨3, true⟩]
def exProblem : List (List Lit) := [exTern, exUnit]

/-- Two threads; thread 1 joins. -/
def exJoin : List (Nat × Request) := (1, .join exProblem) :: List.replicate 3 (go 1)

/-- Thread 0 finds everybody ready; before it replaces the pages, thread 1 collects the old ones, and says that it is
ready. Thread 0 replaces the pages, and in its next reorganisation finds everybody ready and frees the old ones. -/
def exReplace : List (Nat × Request) :=
  exJoin ++ reorg 0 1 ++ reorg 1 4 ++ List.replicate 5 (go 0) ++ reorg 0 2

/-- The schedule runs, afterwards thread `t` works, and reading its `k`-th clause reads freed memory. -/
def Dangling (es : List (Nat × Request)) (t k : Nat) : Prop :=
  (∃ s, run (start exProblem 6) es = some s ∧ (s.thr t).pc = .idle ∧ k < (s.thr t).held.length) ∧
    run (start exProblem 6) (es ++ [(t, .use k)]) = none

theorem dangling_of {es : List (Nat × Request)} {t k : Nat}
    (h1 : ((run (start exProblem 6) es).map fun s => ((s.thr t).pc, decide (k < (s.thr t).held.length))) = some (.idle, true))
    (h2 : (run (start exProblem 6) (es ++ [(t, .use k)])).isNone = true) : Dangling es t k := by
  refine ⟨?_, Option.isNone_iff_eq_none.1 h2⟩
  obtain ⟨s, hs, he⟩ := Option.map_eq_some_iff.1 h1
  simp only [Prod.mk.injEq, decide_eq_true_eq] at he
  exact ⟨s, hs, he⟩

/-- C64 fails (`everybody_ready` and `reallocate` are not one section): after this schedule, thread 1 works, and the
memory of one of its clauses is freed. -/
theorem C64_replace_race : Dangling exReplace 1 1 := dangling_of (by decide +kernel) (by decide +kernel)

/-- Thread 1 replaces the pages, and in its next reorganisation collects the shared clauses. Before it says that it is
ready (it still is, from the time before), thread 0 replaces the pages. Thread 1 then says that it is ready, and
thread 0 in its next reorganisation finds everybody ready and frees the pages that thread 1 uses. -/
def exFlag : List (Nat × Request) :=
  exJoin ++ reorg 1 6 ++ reorg 1 3 ++ reorg 0 4 ++ reorg 0 6 ++ [go 1] ++ reorg 0 2

/-- C64 fails (collecting clauses and `set_ready(true)` are not one section). -/
theorem C64_flag_race : Dangling exFlag 1 1 := dangling_of (by decide +kernel) (by decide +kernel)

/-- Thread 0 allocates a clause; before it constructs the clause, thread 1 collects the shared clauses. -/
def exTorn : List (Nat × Request) := exJoin ++ [(0, .create [⟨0, false⟩, ⟨1, true⟩] 2)] ++ reorg 1 3

/-- C64 fails (a shared clause is allocated in a section and constructed outside): this schedule reads a clause that
is not constructed; without the last step it does not. -/
theorem C64_torn_race : run (start exProblem 6) exTorn = none ∧
    ∃ s, run (start exProblem 6) exTorn.dropLast = some s := by
  have h1 : (run (start exProblem 6) exTorn).isNone = true := by decide +kernel
  have h2 : (run (start exProblem 6) exTorn.dropLast).isSome = true := by decide +kernel
  exact ⟨Option.isNone_iff_eq_none.1 h1, Option.isSome_iff_exists.1 h2⟩

/-- C64 fails for unit clauses of a thread that joins (`collect_unit_clauses` returns the shared ones only): thread 1
joins with a problem of one unit clause, and then does not list it. -/
theorem C64_join_drops_units : ∃ s, run (start [exTern] 6) ((1, .join [exUnit]) :: List.replicate 3 (go 1)) = some s ∧
    (s.thr 1).pc = .idle ∧ ¬ Lists s 1 exUnit := by
  have h : ((run (start [exTern] 6) ((1, .join [exUnit]) :: List.replicate 3 (go 1))).map fun s =>
      ((s.thr 1).pc, (s.thr 1).own, (s.thr 1).held.map s.read)) = some (.idle, [], [some (.full ⟨exTern, 0⟩)]) := by
    decide +kernel
  obtain ⟨s, hs, he⟩ := Option.map_eq_some_iff.1 h
  simp only [Prod.mk.injEq] at he
  obtain ⟨h1, h2, h3⟩ := he
  refine ⟨s, hs, h1, ?_⟩
  rintro (⟨c, hc, _⟩ | ⟨a, ha, w, hr⟩)
  · rw [h2] at hc; cases hc
  · have := List.mem_map_of_mem (f := s.read) ha
    rw [h3, List.mem_singleton, hr] at this
    simp [exUnit, exTern] at this

/-! ### Non-vacuity -/

/-- `Orderly` for two threads, as a test. -/
def orderlyB (s : Sys) (t : Nat) : Bool :=
  let pc := (s.thr t).pc
  let other := (s.thr (1 - t)).pc
  let walks := match pc with | .realloc => true | .units => true | .collect _ => true | _ => false
  let collects := match pc with | .collect _ => true | _ => false
  let writing := match other with | .write _ _ => true | _ => false
  !(walks && writing) && !(collects && (other == .free || other == .realloc)) && !(pc == .check && other == .ready)

def orderlyRunB (s : Sys) : List (Nat × Request) → Bool
  | [] => true
  | e :: es => decide (e.1 < 2) && orderlyB s e.1 && match step s e.1 e.2 with
    | none => true
    | some s' => orderlyRunB s' es

theorem orderlyB_sound {s : Sys} {t : Nat} (ht : t < 2) (hs : ∀ u, 2 ≤ u → (s.thr u).pc = .out)
    (h : orderlyB s t = true) : Orderly s t := by
  have key : ∀ u, u = t ∨ u = 1 - t ∨ (s.thr u).pc = .out := fun u => by
    by_cases hu : 2 ≤ u
    · exact .inr (.inr (hs u hu))
    · omega
  unfold orderlyB at h
  dsimp only at h
  simp only [Bool.and_eq_true, Bool.not_eq_true', Bool.and_eq_false_iff] at h
  obtain ⟨⟨h1, h2⟩, h3⟩ := h
  refine ⟨fun hw u hwr => ?_, fun fs hp u hm => ?_, fun hp u hr => ?_⟩
  · obtain ⟨a, c, hwr⟩ := hwr
    rcases key u with rfl | rfl | hu
    · rcases hw with hw | hw | ⟨fs, hw⟩ <;> rw [hw] at hwr <;> cases hwr
    · rw [hwr] at h1
      rcases hw with hw | hw | ⟨fs, hw⟩ <;> rw [hw] at h1 <;> simp at h1
    · rw [hu] at hwr; cases hwr
  · rcases key u with rfl | rfl | hu
    · rcases hm with hm | hm <;> rw [hp] at hm <;> cases hm
    · rcases hm with hm | hm <;> rw [hm, hp] at h2 <;> simp at h2
    · rcases hm with hm | hm <;> rw [hu] at hm <;> cases hm
  · rcases key u with rfl | rfl | hu
    · rw [hp] at hr; cases hr
    · rw [hp, hr] at h3; simp at h3
    · rw [hu] at hr; cases hr

theorem orderlyRunB_sound {es : List (Nat × Request)} : ∀ {s : Sys}, (∀ u, 2 ≤ u → (s.thr u).pc = .out) →
    orderlyRunB s es = true → OrderlyRun s es := by
  induction es with
  | nil => exact fun _ _ => trivial
  | cons e es ih =>
    intro s hs h
    simp only [orderlyRunB, Bool.and_eq_true, decide_eq_true_eq] at h
    refine ⟨orderlyB_sound h.1.1 hs h.1.2, fun s' he => ih ?_ ?_⟩
    · intro u hu
      rw [step_thr he (by omega)]; exact hs u hu
    · have := h.2
      rw [he] at this; exact this

theorem start_out (f : List (List Lit)) (bound : Nat) (u : Nat) (hu : 2 ≤ u) : ((start f bound).thr u).pc = .out := by
  rcases start_pc f bound u with ⟨h, _⟩ | ⟨_, h⟩
  · omega
  · rw [h]

/-- Two threads join, create shared clauses and others, delete a clause, reorganise (the pages are replaced three
times), and read clauses. -/
def exOrderly : List (Nat × Request) :=
  exJoin ++ [(0, .create [⟨0, false⟩, ⟨1, true⟩] 2), go 0, (1, .create exTern 3), (1, .use 0)] ++ reorg 1 6 ++ reorg 0 4 ++
    [(0, .remove 1), (1, .create [⟨2, true⟩] 1)] ++ [go 1] ++ reorg 0 6 ++ reorg 1 6 ++ reorg 0 4 ++ reorg 0 6 ++ [(1, .use 1), (0, .use 1)]

theorem exOrderly_ok : OrderlyRun (start exProblem 6) exOrderly :=
  orderlyRunB_sound (start_out _ _) (by decide +kernel)

example : ∃ s, run (start exProblem 6) exOrderly = some s := C64_safe_partial _ _ _ exOrderly_ok

theorem keepsRun_of {ls : List Lit} {es : List (Nat × Request)} : ∀ {s : Sys}, (∀ e ∈ es, ∀ k, e.2 ≠ .remove k) →
    KeepsRun ls s es := by
  induction es with
  | nil => exact fun _ => trivial
  | cons e es ih =>
    intro s h
    exact ⟨fun k hk => absurd hk (h e (List.mem_cons_self ..) k), fun s' _ =>
      ih fun e' he => h e' (List.mem_cons_of_mem _ he)⟩

/-- Two threads, two replacements of the pages, no deletion. -/
def exKeep : List (Nat × Request) := exJoin ++ reorg 1 6 ++ reorg 0 4 ++ reorg 0 6 ++ [(1, .use 1)]

example : ∃ s, run (start exProblem 6) exKeep = some s ∧ Lists s 1 exTern ∧ Lists s 0 exTern ∧ Lists s 1 exUnit := by
  have ho : OrderlyRun (start exProblem 6) exKeep :=
    orderlyRunB_sound (start_out _ _) (by decide +kernel)
  have h : ((run (start exProblem 6) exKeep).map fun s => ((s.thr 0).pc, (s.thr 1).pc)) = some (.idle, .idle) := by
    decide +kernel
  obtain ⟨s, hs, he⟩ := Option.map_eq_some_iff.1 h
  simp only [Prod.mk.injEq] at he
  have hk : ∀ e ∈ exKeep, ∀ k, e.2 ≠ .remove k := by
    have : ∀ e ∈ exKeep, (match e.2 with | .remove _ => true | _ => false) = false := by decide +kernel
    intro e he k hr
    have := this e he
    rw [hr] at this; cases this
  exact ⟨s, hs, C64_complete_partial _ _ _ s ho hs _ (by decide) (keepsRun_of hk) 1 he.2,
    C64_complete_partial _ _ _ s ho hs _ (by decide) (keepsRun_of hk) 0 he.1,
    C64_complete_partial _ _ _ s ho hs _ (by decide) (keepsRun_of hk) 1 he.2⟩

/-- Thread 0 creates a binary clause; thread 1 then reorganises, replacing the pages, and lists the new clause. -/
example : ∃ s, run (start exProblem 6) (exJoin ++ [(0, .create [⟨0, false⟩, ⟨1, true⟩] 2), go 0] ++ reorg 1 6) = some s ∧
    Lists s 1 [⟨0, false⟩, ⟨1, true⟩] := by
  let es1 := exJoin ++ [(0, .create [⟨0, false⟩, ⟨1, true⟩] 2)]
  have h1 : ((run (start exProblem 6) es1).map fun s => ((s.thr 0).pc, orderlyRunB s (go 0 :: reorg 1 3))) =
      some (.write ⟨0, 1⟩ ⟨[⟨0, false⟩, ⟨1, true⟩], 0⟩, true) := by decide +kernel
  obtain ⟨s1, hs1, he1⟩ := Option.map_eq_some_iff.1 h1
  simp only [Prod.mk.injEq] at he1
  have o1 : OrderlyRun (start exProblem 6) es1 := orderlyRunB_sound (start_out _ _) (by decide +kernel)
  have hout : ∀ {es : List (Nat × Request)} {s s' : Sys}, (∀ e ∈ es, e.1 < 2) → run s es = some s' →
      (∀ u, 2 ≤ u → (s.thr u).pc = .out) → ∀ u, 2 ≤ u → (s'.thr u).pc = .out := by
    intro es
    induction es with
    | nil => intro s s' _ he h; cases he; exact h
    | cons e es ih =>
      intro s s' hlt he h
      simp only [run] at he
      cases hst : step s e.1 e.2 with
      | none => rw [hst] at he; cases he
      | some s2 =>
        rw [hst] at he
        refine ih (fun e' h' => hlt e' (List.mem_cons_of_mem _ h')) he fun u hu => ?_
        rw [step_thr hst (by have := hlt e (List.mem_cons_self ..); omega)]; exact h u hu
  have ho1 := hout (by decide +kernel) hs1 (start_out _ _)
  have h2 : ((run (start exProblem 6) (es1 ++ go 0 :: reorg 1 3)).map fun s =>
      ((s.thr 1).pc, orderlyRunB s (List.replicate 3 (go 1)))) = some (.units, true) := by decide +kernel
  rw [run_append hs1] at h2
  obtain ⟨s2, hs2, he2⟩ := Option.map_eq_some_iff.1 h2
  simp only [Prod.mk.injEq] at he2
  have ho2 := hout (by decide +kernel) hs2 ho1
  have h3 : ((run (start exProblem 6) (es1 ++ ((go 0 :: reorg 1 3) ++ List.replicate 3 (go 1)))).map fun s =>
      (s.thr 1).pc) = some .idle := by decide +kernel
  rw [run_append hs1, run_append hs2] at h3
  obtain ⟨s3, hs3, he3⟩ := Option.map_eq_some_iff.1 h3
  have hnr : ∀ e ∈ (go 0 :: reorg 1 3) ++ List.replicate 3 (go 1), ∀ k, e.2 ≠ .remove k := by
    have : ∀ e ∈ (go 0 :: reorg 1 3) ++ List.replicate 3 (go 1),
      (match e.2 with | .remove _ => true | _ => false) = false := by decide +kernel
    intro e he k hr
    have := this e he
    rw [hr] at this; cases this
  refine ⟨s3, ?_, C64_share_partial (u := 0) (t := 1) ⟨es1, o1, hs1⟩ he1.1 (orderlyRunB_sound ho1 he1.2) hs2
    (keepsRun_of fun e he => hnr e (List.mem_append_left _ he)) he2.1 (orderlyRunB_sound ho2 he2.2) hs3
    (keepsRun_of fun e he => hnr e (List.mem_append_right _ he)) he3⟩
  show run (start exProblem 6) (es1 ++ ((go 0 :: reorg 1 3) ++ List.replicate 3 (go 1))) = some s3
  rw [run_append hs1, run_append hs2]; exact hs3

theorem keepsOwnRun_of {ls : List Lit} {t : Nat} {es : List (Nat × Request)} : ∀ {s : Sys},
    (∀ e ∈ es, ∀ k, e.2 ≠ .removeOwn k) → KeepsOwnRun ls t s es := by
  induction es with
  | nil => exact fun _ => trivial
  | cons e es ih =>
    intro s h
    exact ⟨fun _ k hk => absurd hk (h e (List.mem_cons_self ..) k), fun s' _ =>
      ih fun e' he => h e' (List.mem_cons_of_mem _ he)⟩

/-- The steps of a schedule delete nothing. -/
def noDelete (es : List (Nat × Request)) : Bool :=
  es.all fun e => match e.2 with | .remove _ => false | .removeOwn _ => false | _ => true

theorem noDelete_spec {es : List (Nat × Request)} (h : noDelete es = true) :
    (∀ e ∈ es, ∀ k, e.2 ≠ .remove k) ∧ ∀ e ∈ es, ∀ k, e.2 ≠ .removeOwn k := by
  have h := List.all_eq_true.1 h
  refine ⟨fun e he k hk => ?_, fun e he k hk => ?_⟩
  all_goals
    have := h e he
    rw [hk] at this
    cases this

theorem run_out {es : List (Nat × Request)} : ∀ {s s' : Sys}, (∀ e ∈ es, e.1 < 2) → run s es = some s' →
    (∀ u, 2 ≤ u → (s.thr u).pc = .out) → ∀ u, 2 ≤ u → (s'.thr u).pc = .out := by
  induction es with
  | nil => intro s s' _ he h; cases he; exact h
  | cons e es ih =>
    intro s s' hlt he h
    simp only [run] at he
    cases hst : step s e.1 e.2 with
    | none => rw [hst] at he; cases he
    | some s2 =>
      rw [hst] at he
      refine ih (fun e' h' => hlt e' (List.mem_cons_of_mem _ h')) he fun u hu => ?_
      rw [step_thr hst (by have := hlt e (List.mem_cons_self ..); omega)]; exact h u hu

/-- Thread 0 learns a clause of four literals, which is too long for the others (the bound is 4), and one of three
literals, which is not. -/
def exLong : List Lit := [⟨0, false⟩, ⟨1, false⟩, ⟨2, false⟩, ⟨3, false⟩]
def exShort : List Lit := [⟨0, true⟩, ⟨1, true⟩, ⟨2, true⟩]
def exLearn : List (Nat × Request) := exJoin ++ [(0, .create exLong 3), (0, .create exShort 3)]
def exAfter : List (Nat × Request) := reorg 0 6 ++ reorg 1 4 ++ reorg 0 6

/-- Thread 0 keeps both clauses through two reorganisations, in which the pages are replaced. -/
example : ∃ s, run (start exProblem 4) (exLearn ++ exAfter) = some s ∧ Lists s 0 exLong ∧ Lists s 0 exShort := by
  have h1 : ((run (start exProblem 4) exLearn).map fun s => ((s.thr 0).pc, (s.thr 0).own, orderlyRunB s exAfter)) =
      some (.idle, [⟨exLong, 3⟩, ⟨exShort, 3⟩], true) := by decide +kernel
  obtain ⟨s1, hs1, he1⟩ := Option.map_eq_some_iff.1 h1
  simp only [Prod.mk.injEq] at he1
  have o1 : OrderlyRun (start exProblem 4) exLearn := orderlyRunB_sound (start_out _ _) (by decide +kernel)
  have h2 : ((run (start exProblem 4) (exLearn ++ exAfter)).map fun s => (s.thr 0).pc) = some .idle := by decide +kernel
  obtain ⟨s2, hs2, he2⟩ := Option.map_eq_some_iff.1 h2
  have hs2' := hs2
  rw [run_append hs1] at hs2'
  have hn : noDelete exAfter = true := by decide +kernel
  have o2 := orderlyRunB_sound (run_out (by decide +kernel) hs1 (start_out _ _)) he1.2.2
  refine ⟨s2, hs2, C64_own_partial ⟨_, o1, hs1⟩ (by rw [he1.1]; simp) ⟨⟨exLong, 3⟩, ?_, by decide, rfl⟩ o2 hs2'
    (keepsRun_of (noDelete_spec hn).1) (keepsOwnRun_of (noDelete_spec hn).2) he2,
    C64_own_partial ⟨_, o1, hs1⟩ (by rw [he1.1]; simp) ⟨⟨exShort, 3⟩, ?_, by decide, rfl⟩ o2 hs2'
    (keepsRun_of (noDelete_spec hn).1) (keepsOwnRun_of (noDelete_spec hn).2) he2⟩
  · rw [he1.2.1]; simp
  · rw [he1.2.1]; simp

/-- Thread 1 lists the short clause after its next reorganisation. -/
example : ∃ s, run (start exProblem 4) (exLearn ++ ((reorg 0 6 ++ reorg 1 1) ++ List.replicate 3 (go 1))) = some s ∧
    Lists s 1 exShort := by
  have h1 : ((run (start exProblem 4) exLearn).map fun s =>
      ((s.thr 0).pc, (s.thr 0).own, s.bound, orderlyRunB s (reorg 0 6 ++ reorg 1 1))) =
      some (.idle, [⟨exLong, 3⟩, ⟨exShort, 3⟩], 4, true) := by decide +kernel
  obtain ⟨s1, hs1, he1⟩ := Option.map_eq_some_iff.1 h1
  simp only [Prod.mk.injEq] at he1
  have o1 : OrderlyRun (start exProblem 4) exLearn := orderlyRunB_sound (start_out _ _) (by decide +kernel)
  have ho1 := run_out (by decide +kernel) hs1 (start_out _ _)
  have h2 : ((run (start exProblem 4) (exLearn ++ (reorg 0 6 ++ reorg 1 1))).map fun s =>
      ((s.thr 1).pc, orderlyRunB s (List.replicate 3 (go 1)))) = some (.units, true) := by decide +kernel
  rw [run_append hs1] at h2
  obtain ⟨s2, hs2, he2⟩ := Option.map_eq_some_iff.1 h2
  simp only [Prod.mk.injEq] at he2
  have h3 : ((run (start exProblem 4) (exLearn ++ ((reorg 0 6 ++ reorg 1 1) ++ List.replicate 3 (go 1)))).map fun s =>
      (s.thr 1).pc) = some .idle := by decide +kernel
  rw [run_append hs1, run_append hs2] at h3
  obtain ⟨s3, hs3, he3⟩ := Option.map_eq_some_iff.1 h3
  have hn2 : noDelete (reorg 0 6 ++ reorg 1 1) = true := by decide +kernel
  have hn3 : noDelete (List.replicate 3 (go 1)) = true := by decide +kernel
  refine ⟨s3, by rw [run_append hs1, run_append hs2]; exact hs3, ?_⟩
  exact C64_export_partial (u := 0) (t := 1) (c := ⟨exShort, 3⟩) ⟨_, o1, hs1⟩ he1.1 (by rw [he1.2.1]; simp)
    ⟨by decide, by rw [he1.2.2.1]; decide⟩ (orderlyRunB_sound ho1 he1.2.2.2) hs2 (keepsRun_of (noDelete_spec hn2).1)
    he2.1 (orderlyRunB_sound (run_out (by decide +kernel) hs2 ho1) he2.2) hs3 (keepsRun_of (noDelete_spec hn3).1) he3

end Candy.Shared
