import Verif.Proofs.PagedMemory
import Verif.Props.Simplify

/-!
# C73: the paged memory of objects

Specification: `Verif/SpecPaged.lean`. `sz` is the size of an object, `size` the size of a new page, `grow` the growth of the
library's vector of pages.
-/

namespace Candy

open Paged

variable {α σ : Type}

/-- C73. A loop over a memory visits every object once, in the order of creation. -/
theorem C73_visits_all (m : Mem α) : ∃ N, ∀ f, N ≤ f →
    forEach (fun (seen : List α) m x => some (seen ++ [x], m, true)) f [] m = some (m.objects, m, true) := by
  obtain ⟨N, hN⟩ := forEach_objects (body := fun (seen : List α) m x => some (seen ++ [x], m, true))
    (fun _ _ _ _ _ _ h => by simp only [Option.some.injEq, Prod.mk.injEq] at h; exact h.2.1.symm) [] m
  refine ⟨N, fun f hf => ?_⟩
  rw [hN f hf]
  have : ∀ (xs seen : List α), forList (fun (seen : List α) m x => some (seen ++ [x], m, true)) xs seen m =
      some (seen ++ xs, m, true) := by
    intro xs
    induction xs with
    | nil => intro seen; simp [forList]
    | cons x xs ih => intro seen; simp [forList, ih]
  simpa using this m.objects []

/-- Three pages, the first two of which are empty or full. -/
def exMem : Mem Nat := ⟨[⟨8, []⟩, ⟨8, [1]⟩, ⟨8, []⟩, ⟨12, [2, 3]⟩], 0, 4⟩

example : forEach (fun (seen : List Nat) m x => some (seen ++ [x], m, true)) 4 [] exMem = some ([1, 2, 3], exMem, true) := rfl

/-- C73. A new object lies inside its page, behind every object there is; no other object moves or changes, and it comes last
in the order of creation. -/
theorem C73_allocate {sz size : Nat} {grow : Nat → Nat} (hsz : sz ≤ size) (x : α) (m : Mem α) (hf : m.Fits sz) :
    ∃ m', m.allocate sz size grow x = some m' ∧ m'.objects = m.objects ++ [x] ∧ m'.Fits sz ∧
      ∀ p i y, m.at p i = some y → m'.at p i = some y := by
  obtain ⟨m', h1, h2, h3, h4, _⟩ := allocate_spec (grow := grow) hsz x m
  refine ⟨m', h1, h2, h4 hf, ?_⟩
  intro p i y hy
  unfold Mem.at at hy ⊢
  cases hp : m.pages[p]? with
  | none => rw [hp] at hy; simp at hy
  | some pg =>
    rw [hp] at hy
    obtain ⟨p', e1, t, e2⟩ := h3 p pg hp
    rw [e1]
    simp only [Option.bind_some] at hy ⊢
    rw [← e2, List.getElem?_append_left (List.getElem?_eq_some_iff.1 hy).1]
    exact hy

example : (exMem.allocate 4 8 (2 * ·) 7).map Mem.objects = some [1, 2, 3, 7] ∧ exMem.Fits 4 := by
  refine ⟨rfl, ?_⟩
  intro p hp
  simp only [exMem, List.mem_cons, List.not_mem_nil, or_false] at hp
  rcases hp with rfl | rfl | rfl | rfl <;> decide

/-- C73. A memory filled from empty holds what was placed there, and a page is never overrun. -/
theorem C73_history {sz size : Nat} {grow : Nat → Nat} (hsz : sz ≤ size) (xs : List α) (m : Mem α) :
    ∃ m', m.freeAll.allocateAll sz size grow xs = some m' ∧ m'.objects = xs ∧ m'.Fits sz := by
  obtain ⟨m', h1, h2, _, h4, _⟩ := allocateAll_spec (grow := grow) hsz xs m.freeAll
  exact ⟨m', h1, by simpa [Mem.objects, Mem.freeAll] using h2, h4 (Fits.nil rfl)⟩

example : ((⟨[], 0, 0⟩ : Mem Nat).allocateAll 4 8 (2 * ·) [1, 2, 3]).map (·.pages.map Page.data) = some [[1], [2], [3]] := rfl

/-- C73. `sort` leaves the sorted sequence of all objects, on at most one page that has room for them. -/
theorem C73_sort {sz : Nat} (le : α → α → Bool) (m : Mem α) (hf : m.Fits sz) :
    ∃ N m', (∀ f, N ≤ f → m.sort sz f (fun l => l.mergeSort le) = some m') ∧ m'.objects = m.objects.mergeSort le ∧ m'.Fits sz ∧
      m'.pages.length ≤ 1 := by
  obtain ⟨N, m', h1, h2, h3, h4⟩ := sort_spec (sz := sz) (srt := fun l => l.mergeSort le) (fun l => List.length_mergeSort l)
    (by simp) m
  exact ⟨N, m', h1, h2, h3 hf, h4⟩

example : (exMem.sort 4 4 List.reverse).map (·.pages.map Page.data) = some [[3, 2, 1]] := rfl

/-- C73. Subsumption over a memory with any number of pages: if it is defined then the clauses stay equivalent, every clause
of the result is part of an original clause, and `false` is only returned if there is no model. -/
theorem C73_subsume_sound {G : CNF} {nv sz size : Nat} {grow : Nat → Nat} (hG : WfCNF nv G) (hsz : sz ≤ size) {m m0 m' : Mem Nat}
    {before : Nat → Nat → Bool} {depth fuel : Nat} {s' : SDB} {ok : Bool}
    (hm : m0.freeAll.allocateAll sz size grow (List.range (SDB.init (freshDB nv G)).obj.length) = some m)
    (he : subsumeMem sz size grow before depth fuel (SDB.init (freshDB nv G)) m = some (s', m', ok)) :
    Equivalent s'.db.cnf G ∧ (∀ c ∈ s'.db.cnf, ∃ g ∈ G, ∀ l ∈ c, l ∈ g) ∧ (ok = false → ¬ Satisfiable G) ∧
      m'.objects = List.range s'.obj.length ∧ m'.Fits sz := by
  obtain ⟨m1, k1, k2, k3⟩ := C73_history (grow := grow) hsz (List.range (SDB.init (freshDB nv G)).obj.length) m0
  rw [hm] at k1
  simp only [Option.some.injEq] at k1
  subst k1
  obtain ⟨d1, d2, d3, d4⟩ := freshDB_ok hG
  have hok : SOk G (SDB.init (freshDB nv G)) := SOk.init d1
  obtain ⟨l1, l2⟩ := LOk.init (V := fun _ => False) d1.nodup d3
  have r := subsumeMem_ok hsz hok k2 he
  obtain ⟨h3, h4⟩ := r.steps.sound hok
  obtain ⟨g1, g2, g3⟩ := (SSteps.toG (F := G) r.steps).live hok l1
  rw [l2] at g2 g3
  refine ⟨fun a => ⟨fun ha => fresh_cnf_sat hG (g2.sat ha), fun ha => sat_cnf_of_ok h3.db ha⟩, ?_,
    fun hf => not_sat_of_entails_nil ((r.clash hf).refutes h3), r.holds, r.fits k3⟩
  intro c hc
  obtain ⟨K, hK, hsub⟩ := g3 c hc
  obtain ⟨g, hg, hp⟩ := fresh_cnf_perm hG hK
  exact ⟨g, hg, fun l hl => hp.mem_iff.1 (hsub l hl)⟩

/-- A formula with four clauses on two pages; one clause is subsumed, one strengthened. -/
example : ((⟨[], 0, 0⟩ : Mem Nat).allocateAll 4 9 (fun n => max 1 (2 * n)) (List.range 4)).bind (fun m =>
      (subsumeMem 4 9 (fun n => max 1 (2 * n)) (fun x y => decide (x < y)) 20 5
        (SDB.init (freshDB 4 (cnf [[1, 2], [1, 2, 3], [-1, 2, 4], [3, 4]]))) m).map fun r => (r.1.db.cnf, r.2.1.pages.length, r.2.2)) =
      some (cnf [[1, 2], [3, 4], [2, 4]], 2, true) ∧ WfCNF 4 (cnf [[1, 2], [1, 2, 3], [-1, 2, 4], [3, 4]]) := by
  refine ⟨by decide +kernel, wfCNF_of (by decide)⟩

/-- C73. If all objects, including those that the loop creates, fit on the first page then the loop over the memory does what
`subsumeAll` does, which the other theorems are about. -/
theorem C73_one_page {F : CNF} {sz size : Nat} {grow : Nat → Nat} {before : Nat → Nat → Bool} {depth b r : Nat} {s s' : SDB}
    {ok : Bool} (hs : SOk F s) (h0 : 0 < s.obj.length) (he : subsumeAll before depth s = some (s', ok))
    (hfit : s'.obj.length * sz < size) :
    ∃ m m', (⟨[], b, r⟩ : Mem Nat).allocateAll sz size grow (List.range s.obj.length) = some m ∧
      m'.objects = List.range s'.obj.length ∧
      ∃ N, ∀ f, N ≤ f → subsumeMem sz size grow before depth f s m = some (s', m', ok) := by
  obtain ⟨k, hk⟩ : ∃ k, s.obj.length = k + 1 := ⟨s.obj.length - 1, by omega⟩
  have hlen := SSteps.objLen (subsumeAll_steps hs he).1
  have hsz : sz ≤ size := by
    have : 1 * sz ≤ s'.obj.length * sz := Nat.mul_le_mul_right _ (by omega)
    omega
  have hfill : (⟨[], b, r⟩ : Mem Nat).allocateAll sz size grow (List.range s.obj.length) =
      some ⟨[⟨size, List.range s.obj.length⟩], if 0 < r then b else b + 1, if 0 < r then r else grow r⟩ := by
    rw [hk, List.range_succ_eq_map]
    refine fill_one 0 _ b r (Nat.lt_of_le_of_lt (Nat.mul_le_mul_right _ ?_) hfit)
    simp only [List.length_map, List.length_range]
    omega
  obtain ⟨m', p', e1, e2, e3, e4, e5⟩ := forList_one (sz := sz) (size := size) (grow := grow) (List.range s.obj.length) s
    ⟨[⟨size, List.range s.obj.length⟩], if 0 < r then b else b + 1, if 0 < r then r else grow r⟩ ⟨size, List.range s.obj.length⟩
    hs rfl (by simp) s' ok he (fun _ => hfit)
  refine ⟨_, m', hfill, ?_, ?_⟩
  · simp only [Mem.objects, e2, List.map_cons, List.map_nil, List.flatten_cons, List.flatten_nil, List.append_nil, e5,
      List.range_eq_range']
    have := List.range'_append (s := 0) (m := s.obj.length) (n := s'.obj.length - s.obj.length) (step := 1)
    simp only [Nat.one_mul, Nat.zero_add] at this
    rw [this]
    congr 1
    omega
  · obtain ⟨N, hN⟩ := forEach_eq (subsumeBody_keeps (grow := grow) (before := before) (depth := depth) hsz) s
      ⟨[⟨size, List.range s.obj.length⟩], if 0 < r then b else b + 1, if 0 < r then r else grow r⟩
    refine ⟨N, fun f hf => ?_⟩
    unfold subsumeMem
    rw [hN f hf]
    simp only [List.length_singleton, forPages, List.getElem?_cons_zero, e1]
    cases ok with
    | false => rfl
    | true => simp only [e3, if_true]

example : subsumeAll (fun x y => decide (x < y)) 20 (SDB.init (freshDB 3 (cnf [[1, 2], [1, 2, 3]]))) ≠ none ∧
    0 < (SDB.init (freshDB 3 (cnf [[1, 2], [1, 2, 3]]))).obj.length := by
  refine ⟨by decide +kernel, by decide⟩

/-- C73 fails as soon as the loop needs a page and the vector of pages has to grow. Let two pages be full (4194302 objects of 16
bytes on pages of 32 MB), for every number `k ≥ 1` of objects on a page. There is a satisfiable formula with so many clauses whose
subsumption is undefined, for every order of addresses and every bound on the steps: a copy of the first clause is created on a
third page, the vector moves its pages, and then the iterator reads the second page from the old array, which was freed. -/
theorem C73_new_page_fails (k sz : Nat) (hk : 0 < k) (hpos : 0 < sz) (grow : Nat → Nat) (h0 : grow 0 = 1) (h1 : grow 1 = 2)
    (before : Nat → Nat → Bool) (depth fuel : Nat) :
    ∃ (F : CNF) (sys : Sys) (m : Mem Nat), History .any F [] sys ∧ Satisfiable F ∧ F.length = 2 * k ∧
      (SDB.init sys.sol.db).obj.length = 2 * k ∧
      (⟨[], 0, 0⟩ : Mem Nat).allocateAll sz ((k + 1) * sz) grow (List.range (2 * k)) = some m ∧ m.pages.length = 2 ∧
      (∃ s', subsumeStep before (depth + 1) (SDB.init sys.sol.db) 0 = some (s', true)) ∧
      subsumeMem sz ((k + 1) * sz) grow before (depth + 1) fuel (SDB.init sys.sol.db) m = none := by
  obtain ⟨k, rfl⟩ : ∃ j, k = j + 1 := ⟨k - 1, by omega⟩
  obtain ⟨n, hn⟩ : ∃ n, 2 * (k + 1) = n + 2 := ⟨2 * k, by omega⟩
  have hh := fill_history n
  have hok : SOk (fillG ++ fillF n) (SDB.init (fillSys n).sol.db) := SOk.init ((History.ok Usage.any_valid hh).ok.db)
  obtain ⟨f1, _⟩ := fill_facts n
  obtain ⟨s1, e1, e2⟩ := fill_step n before depth
  have hlt : (k + 1) * sz < (k + 1 + 1) * sz := Nat.mul_lt_mul_of_pos_right (by omega) hpos
  have hfill1 := fill_one (grow := grow) 0 (List.range' 1 k) 0 0 (sz := sz) (size := (k + 1 + 1) * sz) (by
    simpa using hlt)
  have hfull : ¬ (⟨(k + 1 + 1) * sz, 0 :: List.range' 1 k⟩ : Page Nat).used sz + sz < (k + 1 + 1) * sz := by
    simp only [Page.used, List.length_cons, List.length_range', Nat.add_mul]
    omega
  have hfill2 := fill_next (grow := grow) ⟨(k + 1 + 1) * sz, 0 :: List.range' 1 k⟩ (k + 1) (List.range' (k + 2) k) 1 1
    (sz := sz) (size := (k + 1 + 1) * sz) (by omega) hfull (by simpa using hlt)
  have hr : List.range (2 * (k + 1)) = (0 :: List.range' 1 k) ++ ((k + 1) :: List.range' (k + 2) k) := by
    rw [show (0 :: List.range' 1 k) = List.range' 0 (k + 1) from rfl,
      show ((k + 1) :: List.range' (k + 2) k) = List.range' (k + 1) (k + 1) from rfl,
      List.range_eq_range']
    have := List.range'_append (s := 0) (m := k + 1) (n := k + 1) (step := 1)
    simp only [Nat.one_mul, Nat.zero_add] at this
    rw [this]
    congr 1
    omega
  have hfill : (⟨[], 0, 0⟩ : Mem Nat).allocateAll sz ((k + 1 + 1) * sz) grow (List.range (2 * (k + 1))) =
      some ⟨[⟨(k + 1 + 1) * sz, 0 :: List.range' 1 k⟩, ⟨(k + 1 + 1) * sz, (k + 1) :: List.range' (k + 2) k⟩], 2, 2⟩ := by
    rw [hr, allocateAll_append, hfill1]
    simp only [Nat.lt_irrefl, if_false, h0, Option.bind_some, hfill2, h1]
  refine ⟨_, fillSys n, _, hh, fill_sat n, by simp [fillG, fillF]; omega, by omega, hfill, rfl, ⟨s1, e1⟩, ?_⟩
  refine subsumeMem_none (Nat.le_mul_of_pos_left _ (by omega)) (fill_sat n) hok ?_ ?_ rfl rfl e1 (by omega)
  · rw [Holds, f1, ← hn, hr]
    simp [Mem.objects]
  · refine ⟨?_, by simp⟩
    simp only [Mem.full, List.getLast?_cons_cons, List.getLast?_singleton, Page.hasMemory, Page.used, List.length_cons,
      List.length_range', Nat.add_mul, Bool.not_eq_true', decide_eq_false_iff_not]
    omega

/-- C73. The size of the page in use: 2097152 times 16 bytes are 32 MB. -/
example (before : Nat → Nat → Bool) (depth fuel : Nat) : ∃ (F : CNF) (sys : Sys) (m : Mem Nat), History .any F [] sys ∧
    (⟨[], 0, 0⟩ : Mem Nat).allocateAll 16 (32 * 1024 * 1024) (fun n => max 1 (2 * n)) (List.range (2 * 2097151)) = some m ∧
    subsumeMem 16 (32 * 1024 * 1024) (fun n => max 1 (2 * n)) before (depth + 1) fuel (SDB.init sys.sol.db) m = none := by
  obtain ⟨F, sys, m, h1, _, _, _, h2, _, _, h3⟩ := C73_new_page_fails 2097151 16 (by omega) (by omega) (fun n => max 1 (2 * n))
    rfl rfl before depth fuel
  exact ⟨F, sys, m, h1, h2, h3⟩

end Candy
