import Verif.SpecPaged
import Verif.Proofs.SimplifyTotal

/-! Loops over pages. -/

namespace Candy.Paged

variable {α σ : Type}

/-- Later states of a memory: objects stay where they are. -/
def Ext (m m' : Mem α) : Prop :=
  ∀ (j : Nat) (p : Page α), m.pages[j]? = some p → ∃ p' : Page α, m'.pages[j]? = some p' ∧ p.data <+: p'.data

theorem Ext.refl (m : Mem α) : Ext m m := fun _ p h => ⟨p, h, List.prefix_refl _⟩

theorem Ext.trans {a b c : Mem α} (h : Ext a b) (h' : Ext b c) : Ext a c := by
  intro j p hp
  obtain ⟨p', h1, h2⟩ := h j p hp
  obtain ⟨p'', h3, h4⟩ := h' j p' h1
  exact ⟨p'', h3, h2.trans h4⟩

/-- Visiting a fixed list of objects. -/
def forList (body : σ → Mem α → α → Option (σ × Mem α × Bool)) : List α → σ → Mem α → Option (σ × Mem α × Bool)
  | [], st, m => some (st, m, true)
  | x :: xs, st, m =>
    match body st m x with
    | none => none
    | some (st, m, false) => some (st, m, false)
    | some (st, m, true) => forList body xs st m

/-- Visiting `n` pages from page `j` on: the objects of a page are those it has when the page is reached; undefined if the array
of pages was replaced since the loop began. -/
def forPages (body : σ → Mem α → α → Option (σ × Mem α × Bool)) (buf : Nat) :
    Nat → Nat → σ → Mem α → Option (σ × Mem α × Bool)
  | 0, _, st, m => some (st, m, true)
  | n + 1, j, st, m =>
    match m.pages[j]? with
    | none => none
    | some p =>
      match forList body p.data st m with
      | none => none
      | some (st, m, false) => some (st, m, false)
      | some (st, m, true) => if m.buf = buf then forPages body buf n (j + 1) st m else none

/-- The rest of the loop after the objects of a page. -/
def afterPage (body : σ → Mem α → α → Option (σ × Mem α × Bool)) (buf n j : Nat) :
    Option (σ × Mem α × Bool) → Option (σ × Mem α × Bool)
  | none => none
  | some (st, m, false) => some (st, m, false)
  | some (st, m, true) => if m.buf = buf then forPages body buf n (j + 1) st m else none

def Keeps (body : σ → Mem α → α → Option (σ × Mem α × Bool)) : Prop :=
  ∀ st m x st' m' b, body st m x = some (st', m', b) → Ext m m'

/-- From index `i` of page `j` on. -/
theorem loop_page {body : σ → Mem α → α → Option (σ × Mem α × Bool)} (hk : Keeps body) (P : Nat) : ∀ (n : Nat) (L : Nat) (rest : List α)
    (j i buf : Nat) (st : σ) (m : Mem α) (data : List α), j + (n + 1) = P → data.length = L → data.drop i = rest → i ≤ L →
    (∃ p : Page α, m.pages[j]? = some p ∧ data <+: p.data) → (∀ k, k < P → ∃ p, m.pages[k]? = some p) →
    ∃ N, ∀ f, N ≤ f → ((Iter.skipF m (n + 1) ⟨buf, j, P, some (j, i), some (j, L)⟩).bind fun it => loop body P f it st m) =
      afterPage body buf n j (forList body rest st m) := by
  intro n
  induction n with
  | zero =>
    intro L rest
    induction rest with
    | nil =>
      intro j i buf st m data hj hL hd hi hp hP
      have hiL : i = L := by
        have := List.drop_eq_nil_iff.1 hd
        omega
      subst hiL
      refine ⟨1, fun f hf => ?_⟩
      obtain ⟨f, rfl⟩ : ∃ g, f = g + 1 := ⟨f - 1, by omega⟩
      rw [Iter.skipF, if_pos ⟨rfl, by simp only [ne_eq]; omega⟩]
      simp only [forList, afterPage]
      by_cases hb : buf = m.buf
      · rw [if_pos hb, if_neg (by omega), if_pos hb.symm]
        simp only [Iter.skipF, Option.bind_some, loop, Iter.atEnd, forPages]
        rw [if_pos (by simp; omega)]
      · rw [if_neg hb, if_neg (fun e => hb e.symm)]
        rfl
    | cons x rest ih =>
      intro j i buf st m data hj hL hd hi hp hP
      have hiL : i < L := by
        rcases Nat.lt_or_ge i L with h | h
        · exact h
        · rw [List.drop_eq_nil_iff.2 (by omega)] at hd; simp at hd
      have hx : data[i]? = some x := by
        rw [← List.head?_drop, hd]; rfl
      obtain ⟨p, hp1, hp2⟩ := hp
      have hpx : p.data[i]? = some x := by
        obtain ⟨t, ht⟩ := hp2
        rw [← ht, List.getElem?_append_left (by omega)]
        exact hx
      have hs : ∀ m' : Mem α, Iter.skipF m' (0 + 1) ⟨buf, j, P, some (j, i), some (j, L)⟩ =
          some ⟨buf, j, P, some (j, i), some (j, L)⟩ := by
        intro m'
        simp only [Iter.skipF]
        rw [if_neg]
        simp
        omega
      rw [hs]
      simp only [Option.bind_some, forList]
      cases hb : body st m x with
      | none =>
        refine ⟨1, fun f hf => ?_⟩
        obtain ⟨f, rfl⟩ : ∃ g, f = g + 1 := ⟨f - 1, by omega⟩
        simp [loop, Iter.atEnd, Iter.get, hp1, hpx, hb, afterPage]
      | some y =>
        obtain ⟨st', m', b⟩ := y
        cases b with
        | false =>
          refine ⟨1, fun f hf => ?_⟩
          obtain ⟨f, rfl⟩ : ∃ g, f = g + 1 := ⟨f - 1, by omega⟩
          simp [loop, Iter.atEnd, Iter.get, hp1, hpx, hb, afterPage]
        | true =>
          have he := hk _ _ _ _ _ _ hb
          obtain ⟨N, hN⟩ := ih j (i + 1) buf st' m' data hj hL (by rw [← List.drop_drop, hd]; rfl) (by omega)
            (by
              obtain ⟨p', h1, h2⟩ := he j p hp1
              exact ⟨p', h1, hp2.trans h2⟩)
            (fun k hk' => by
              obtain ⟨q, hq⟩ := hP k hk'
              obtain ⟨q', h1, -⟩ := he k q hq
              exact ⟨q', h1⟩)
          refine ⟨N + 1, fun f hf => ?_⟩
          obtain ⟨f, rfl⟩ : ∃ g, f = g + 1 := ⟨f - 1, by omega⟩
          rw [← hN f (by omega)]
          have hPj : P - j = 0 + 1 := by omega
          simp only [loop, Iter.atEnd, Iter.get, hp1, hpx, hb, Iter.next, Iter.skip, hPj, hs]
          simp only [reduceCtorEq, and_false, decide_false, Bool.false_eq_true, if_false]
          cases Iter.skipF m' (0 + 1) ⟨buf, j, P, some (j, i + 1), some (j, L)⟩ <;> rfl
  | succ n ihn =>
    intro L rest
    induction rest with
    | nil =>
      intro j i buf st m data hj hL hd hi hp hP
      have hiL : i = L := by
        have := List.drop_eq_nil_iff.1 hd
        omega
      subst hiL
      obtain ⟨q, hq⟩ := hP (j + 1) (by omega)
      obtain ⟨N, hN⟩ := ihn q.data.length q.data (j + 1) 0 buf st m q.data (by omega) rfl (by simp) (by omega)
        ⟨q, hq, List.prefix_refl _⟩ hP
      refine ⟨N, fun f hf => ?_⟩
      rw [Iter.skipF, if_pos ⟨rfl, by simp only [ne_eq]; omega⟩]
      simp only [forList, afterPage]
      by_cases hb : buf = m.buf
      · rw [if_pos hb, if_pos (by omega), if_pos hb.symm]
        simp only [hq]
        rw [hN f hf]
        simp only [forPages, hq]
        cases forList body q.data st m with
        | none => rfl
        | some y =>
          obtain ⟨a, b, c⟩ := y
          cases c <;> rfl
      · rw [if_neg hb, if_neg (fun e => hb e.symm)]
        rfl
    | cons x rest ih =>
      intro j i buf st m data hj hL hd hi hp hP
      have hiL : i < L := by
        rcases Nat.lt_or_ge i L with h | h
        · exact h
        · rw [List.drop_eq_nil_iff.2 (by omega)] at hd; simp at hd
      have hx : data[i]? = some x := by
        rw [← List.head?_drop, hd]; rfl
      obtain ⟨p, hp1, hp2⟩ := hp
      have hpx : p.data[i]? = some x := by
        obtain ⟨t, ht⟩ := hp2
        rw [← ht, List.getElem?_append_left (by omega)]
        exact hx
      have hs : ∀ m' : Mem α, Iter.skipF m' (n + 1 + 1) ⟨buf, j, P, some (j, i), some (j, L)⟩ =
          some ⟨buf, j, P, some (j, i), some (j, L)⟩ := by
        intro m'
        rw [Iter.skipF]
        rw [if_neg]
        simp
        omega
      rw [hs]
      simp only [Option.bind_some, forList]
      cases hb : body st m x with
      | none =>
        refine ⟨1, fun f hf => ?_⟩
        obtain ⟨f, rfl⟩ : ∃ g, f = g + 1 := ⟨f - 1, by omega⟩
        simp [loop, Iter.atEnd, Iter.get, hp1, hpx, hb, afterPage]
      | some y =>
        obtain ⟨st', m', b⟩ := y
        cases b with
        | false =>
          refine ⟨1, fun f hf => ?_⟩
          obtain ⟨f, rfl⟩ : ∃ g, f = g + 1 := ⟨f - 1, by omega⟩
          simp [loop, Iter.atEnd, Iter.get, hp1, hpx, hb, afterPage]
        | true =>
          have he := hk _ _ _ _ _ _ hb
          obtain ⟨N, hN⟩ := ih j (i + 1) buf st' m' data hj hL (by rw [← List.drop_drop, hd]; rfl) (by omega)
            (by
              obtain ⟨p', h1, h2⟩ := he j p hp1
              exact ⟨p', h1, hp2.trans h2⟩)
            (fun k hk' => by
              obtain ⟨q, hq⟩ := hP k hk'
              obtain ⟨q', h1, -⟩ := he k q hq
              exact ⟨q', h1⟩)
          refine ⟨N + 1, fun f hf => ?_⟩
          obtain ⟨f, rfl⟩ : ∃ g, f = g + 1 := ⟨f - 1, by omega⟩
          rw [← hN f (by omega)]
          have hPj : P - j = n + 1 + 1 := by omega
          simp only [loop, Iter.atEnd, Iter.get, hp1, hpx, hb, Iter.next, Iter.skip, hPj, hs]
          simp only [reduceCtorEq, and_false, decide_false, Bool.false_eq_true, if_false]
          cases Iter.skipF m' (n + 1 + 1) ⟨buf, j, P, some (j, i + 1), some (j, L)⟩ <;> rfl

/-- What a loop over a memory visits. -/
theorem forEach_eq {body : σ → Mem α → α → Option (σ × Mem α × Bool)} (hk : Keeps body) (st : σ) (m : Mem α) :
    ∃ N, ∀ f, N ≤ f → forEach body f st m = forPages body m.buf m.pages.length 0 st m := by
  unfold forEach Mem.begin
  cases hp : m.pages with
  | nil =>
    refine ⟨1, fun f hf => ?_⟩
    obtain ⟨f, rfl⟩ : ∃ g, f = g + 1 := ⟨f - 1, by omega⟩
    simp [loop, Iter.atEnd, forPages]
  | cons p ps =>
    obtain ⟨N, hN⟩ := loop_page hk (ps.length + 1) ps.length p.data.length p.data 0 0 m.buf st m p.data (by omega) rfl (by simp)
      (by omega) ⟨p, by rw [hp]; rfl, List.prefix_refl _⟩ (fun k hk' => by
        rw [hp]
        exact ⟨_, List.getElem?_eq_getElem (by simpa using hk')⟩)
    refine ⟨N, fun f hf => ?_⟩
    have := hN f hf
    simp only [List.length_cons, Iter.skip, Nat.sub_zero]
    have e : (match Iter.skipF m (ps.length + 1) ⟨m.buf, 0, ps.length + 1, some (0, 0), some (0, p.data.length)⟩ with
        | none => none
        | some it => loop body (ps.length + 1) f it st m) =
        ((Iter.skipF m (ps.length + 1) ⟨m.buf, 0, ps.length + 1, some (0, 0), some (0, p.data.length)⟩).bind
          fun it => loop body (ps.length + 1) f it st m) := by
      cases Iter.skipF m (ps.length + 1) ⟨m.buf, 0, ps.length + 1, some (0, 0), some (0, p.data.length)⟩ <;> rfl
    refine e.trans (this.trans ?_)
    simp only [forPages, hp, List.getElem?_cons_zero]
    cases forList body p.data st m with
    | none => rfl
    | some y =>
      obtain ⟨a, b, c⟩ := y
      cases c <;> rfl

/-! ### Loops that create no page -/

/-- The array of pages stays. -/
def KeepsBuf (body : σ → Mem α → α → Option (σ × Mem α × Bool)) : Prop :=
  ∀ st m x st' m' b, body st m x = some (st', m', b) → m'.buf = m.buf

/-- The memory stays. -/
def KeepsMem (body : σ → Mem α → α → Option (σ × Mem α × Bool)) : Prop :=
  ∀ st m x st' m' b, body st m x = some (st', m', b) → m' = m

theorem forList_mem {body : σ → Mem α → α → Option (σ × Mem α × Bool)} (hk : KeepsMem body) : ∀ (xs : List α) (st : σ)
    (m : Mem α) st' m' b, forList body xs st m = some (st', m', b) → m' = m
  | [], _, _, _, _, _, h => by
    simp only [forList, Option.some.injEq, Prod.mk.injEq] at h
    exact h.2.1.symm
  | x :: xs, st, m, st', m', b, h => by
    rw [forList] at h
    split at h
    · simp at h
    · rename_i st1 m1 hb
      simp only [Option.some.injEq, Prod.mk.injEq] at h
      obtain ⟨rfl, rfl, rfl⟩ := h
      exact hk _ _ _ _ _ _ hb
    · rename_i st1 m1 hb
      have := hk _ _ _ _ _ _ hb
      subst this
      exact forList_mem hk xs _ _ _ _ _ h

theorem forList_append {body : σ → Mem α → α → Option (σ × Mem α × Bool)} : ∀ (xs ys : List α) (st : σ) (m : Mem α),
    forList body (xs ++ ys) st m = match forList body xs st m with
      | none => none
      | some (st, m, false) => some (st, m, false)
      | some (st, m, true) => forList body ys st m
  | [], ys, st, m => rfl
  | x :: xs, ys, st, m => by
    rw [List.cons_append, forList, forList]
    cases body st m x with
    | none => rfl
    | some y =>
      obtain ⟨st1, m1, b⟩ := y
      cases b with
      | false => rfl
      | true => exact forList_append xs ys st1 m1

theorem forPages_mem {body : σ → Mem α → α → Option (σ × Mem α × Bool)} (hk : KeepsMem body) (m : Mem α) :
    ∀ (n j : Nat) (st : σ), j + n = m.pages.length →
    forPages body m.buf n j st m = forList body ((m.pages.drop j).map Page.data).flatten st m
  | 0, j, st, h => by
    rw [List.drop_eq_nil_iff.2 (by omega)]
    rfl
  | n + 1, j, st, h => by
    have hj : j < m.pages.length := by omega
    rw [forPages, List.drop_eq_getElem_cons hj, List.map_cons, List.flatten_cons, forList_append]
    simp only [List.getElem?_eq_getElem hj]
    cases hl : forList body m.pages[j].data st m with
    | none => rfl
    | some y =>
      obtain ⟨st1, m1, b⟩ := y
      have := forList_mem hk _ _ _ _ _ _ hl
      subst this
      cases b with
      | false => rfl
      | true =>
        simp only [if_true]
        exact forPages_mem hk m1 n (j + 1) st1 (by omega)

/-- A loop that allocates nothing visits all objects in order. -/
theorem forEach_objects {body : σ → Mem α → α → Option (σ × Mem α × Bool)} (hk : KeepsMem body) (st : σ) (m : Mem α) :
    ∃ N, ∀ f, N ≤ f → forEach body f st m = forList body m.objects st m := by
  have hk' : Keeps body := fun st m x st' m' b h => by rw [hk _ _ _ _ _ _ h]; exact Ext.refl m
  obtain ⟨N, hN⟩ := forEach_eq hk' st m
  refine ⟨N, fun f hf => ?_⟩
  rw [hN f hf, forPages_mem hk m _ 0 st (by omega)]
  rfl

/-! ### Allocation -/

theorem onLast_spec {sz : Nat} {x : α} {m : Mem α} {ys : List (Page α)} {p : Page α} (h : m.pages = ys ++ [p])
    (hf : p.used sz + sz ≤ p.size) : m.onLast sz x = some { m with pages := ys ++ [{ p with data := p.data ++ [x] }] } := by
  unfold Mem.onLast
  rw [h]
  simp [Page.allocate, hf]

theorem ext_last {m m' : Mem α} {ys : List (Page α)} {p p' : Page α} (h : m.pages = ys ++ [p]) (h' : m'.pages = ys ++ [p'])
    (hp : p.data <+: p'.data) : Ext m m' := by
  intro j q hq
  rw [h] at hq
  rw [h']
  rcases Nat.lt_or_ge j ys.length with hj | hj
  · rw [List.getElem?_append_left hj] at hq ⊢
    exact ⟨q, hq, List.prefix_refl _⟩
  · rw [List.getElem?_append_right hj] at hq ⊢
    cases hk : j - ys.length with
    | zero =>
      rw [hk] at hq
      simp only [List.getElem?_cons_zero, Option.some.injEq] at hq ⊢
      subst hq
      exact ⟨p', rfl, hp⟩
    | succ k => rw [hk] at hq; simp at hq

/-- Allocation, in a memory whose blocks are large enough for one object. -/
theorem allocate_spec {sz size : Nat} {grow : Nat → Nat} (hsz : sz ≤ size) (x : α) (m : Mem α) :
    ∃ m', m.allocate sz size grow x = some m' ∧ m'.objects = m.objects ++ [x] ∧ Ext m m' ∧
      (m.Fits sz → m'.Fits sz) ∧
      (m.full sz = false → m'.buf = m.buf ∧ m'.room = m.room ∧ m'.pages.length = m.pages.length) ∧
      (m.full sz = true → m'.pages.length = m.pages.length + 1 ∧
        (m.pages.length < m.room → m'.buf = m.buf ∧ m'.room = m.room) ∧
        (¬ m.pages.length < m.room → m'.buf = m.buf + 1)) := by
  unfold Mem.allocate
  cases hfull : m.full sz with
  | false =>
    unfold Mem.full at hfull
    split at hfull
    · simp at hfull
    · rename_i p hp
      obtain ⟨ys, hys⟩ := List.getLast?_eq_some_iff.1 hp
      have hle : p.used sz + sz ≤ p.size := by
        simp only [Page.hasMemory, Bool.not_eq_false', decide_eq_true_eq] at hfull
        omega
      refine ⟨_, by rw [if_neg (by simp), onLast_spec hys hle], ?_, ext_last hys rfl (List.prefix_append _ _), ?_, ?_, by simp⟩
      · simp [Mem.objects, hys]
      · intro hf q hq
        simp only [List.mem_append, List.mem_singleton] at hq
        rcases hq with hq | rfl
        · exact hf q (by rw [hys]; simp [hq])
        · simp only [Page.used, List.length_append, List.length_singleton, Nat.succ_mul] at hle ⊢
          omega
      · intro _
        exact ⟨rfl, rfl, by rw [hys]; simp⟩
  | true =>
    have hnp : (m.newPage grow size).pages = m.pages ++ [⟨size, []⟩] := by
      unfold Mem.newPage
      split <;> rfl
    have hle : (⟨size, []⟩ : Page α).used sz + sz ≤ (⟨size, []⟩ : Page α).size := by
      simp [Page.used, hsz]
    refine ⟨_, by rw [if_pos rfl, onLast_spec hnp hle], ?_, ?_, ?_, by simp, fun _ => ⟨by simp, ?_, ?_⟩⟩
    · simp [Mem.objects]
    · intro j q hq
      have hj : j < m.pages.length := (List.getElem?_eq_some_iff.1 hq).1
      refine ⟨q, ?_, List.prefix_refl _⟩
      show (m.pages ++ _)[j]? = _
      rw [List.getElem?_append_left hj]
      exact hq
    · intro hf q hq
      simp only [List.mem_append, List.mem_singleton] at hq
      rcases hq with hq | rfl
      · exact hf q hq
      · simp [Page.used, hsz]
    · intro hr
      unfold Mem.newPage
      rw [if_pos hr]
      exact ⟨rfl, rfl⟩
    · intro hr
      unfold Mem.newPage
      rw [if_neg hr]

theorem allocateAll_spec {sz size : Nat} {grow : Nat → Nat} (hsz : sz ≤ size) : ∀ (xs : List α) (m : Mem α),
    ∃ m', m.allocateAll sz size grow xs = some m' ∧ m'.objects = m.objects ++ xs ∧ Ext m m' ∧
      (m.Fits sz → m'.Fits sz) ∧ m.buf ≤ m'.buf
  | [], m => ⟨m, rfl, by simp, Ext.refl m, id, Nat.le_refl _⟩
  | x :: xs, m => by
    obtain ⟨m1, e1, o1, x1, f1, k1, k2⟩ := allocate_spec (grow := grow) hsz x m
    obtain ⟨m2, e2, o2, x2, f2, b2⟩ := allocateAll_spec (grow := grow) hsz xs m1
    refine ⟨m2, by rw [Mem.allocateAll, e1]; exact e2, by rw [o2, o1]; simp, x1.trans x2, fun h => f2 (f1 h), ?_⟩
    refine Nat.le_trans ?_ b2
    cases hf : m.full sz with
    | false => rw [(k1 hf).1]; exact Nat.le_refl _
    | true =>
      by_cases hr : m.pages.length < m.room
      · rw [((k2 hf).2.1 hr).1]; exact Nat.le_refl _
      · rw [(k2 hf).2.2 hr]; omega

/-! ### Sorting -/

theorem Fits.nil {m : Mem α} {sz : Nat} (h : m.pages = []) : m.Fits sz := by
  intro p hp
  rw [h] at hp
  simp at hp

theorem fill_list {sz : Nat} {m : Mem α} : ∀ (xs : List α) (q : Page α), q.used sz + xs.length * sz ≤ q.size →
    forList (fun (q : Page α) m x => (q.allocate sz x).map fun q => (q, m, true)) xs q m =
      some ({ q with data := q.data ++ xs }, m, true)
  | [], q, _ => by simp [forList]
  | x :: xs, q, h => by
    simp only [List.length_cons, Nat.succ_mul] at h
    rw [forList]
    have h1 : q.used sz + sz ≤ q.size := by omega
    have ha : q.allocate sz x = some { q with data := q.data ++ [x] } := if_pos h1
    simp only [ha, Option.map_some]
    rw [fill_list xs _ (by
      simp only [Page.used, List.length_append, List.length_singleton, Nat.succ_mul] at h ⊢
      omega)]
    simp

theorem used_sum {sz : Nat} : ∀ ps : List (Page α), (ps.map (Page.used sz)).sum = ((ps.map Page.data).flatten).length * sz
  | [] => by simp
  | p :: ps => by
    rw [List.map_cons, List.sum_cons, used_sum ps]
    simp [Page.used, Nat.add_mul]

theorem sort_spec {sz : Nat} {srt : List α → List α} (hlen : ∀ l, (srt l).length = l.length) (h0 : srt [] = []) (m : Mem α) :
    ∃ N m', (∀ f, N ≤ f → m.sort sz f srt = some m') ∧ m'.objects = srt m.objects ∧ (m.Fits sz → m'.Fits sz) ∧
      m'.pages.length ≤ 1 := by
  unfold Mem.sort
  split
  · rename_i h
    exact ⟨0, m, fun _ _ => rfl, by simp [Mem.objects, h, h0], id, by simp [h]⟩
  · rename_i p h
    refine ⟨0, _, fun _ _ => rfl, by simp [Mem.objects, h], fun hf q hq => ?_, by simp⟩
    simp only [List.mem_singleton] at hq
    subst hq
    have := hf p (by rw [h]; simp)
    simpa [Page.used, hlen] using this
  · obtain ⟨N, hN⟩ := forEach_objects
      (body := fun (q : Page α) m x => (q.allocate sz x).map fun q => (q, m, true))
      (by
        intro st m x st' m' b h
        obtain ⟨q, -, e⟩ := Option.map_eq_some_iff.1 h
        simp only [Prod.mk.injEq] at e
        exact e.2.1.symm)
      ⟨(m.pages.map (Page.used sz)).sum, []⟩ m
    have hfill := fill_list (sz := sz) (m := m) m.objects ⟨(m.pages.map (Page.used sz)).sum, []⟩ (by
      rw [used_sum]
      simp [Page.used, Mem.objects])
    refine ⟨N, ⟨[⟨(m.pages.map (Page.used sz)).sum, srt m.objects⟩], m.buf + 1, 1⟩, fun f hf => ?_, by simp [Mem.objects],
      fun _ q hq => ?_, by simp⟩
    · rw [hN f hf, hfill]
      simp
    · simp only [List.mem_singleton] at hq
      subst hq
      rw [used_sum]
      simp [Page.used, hlen, Mem.objects]

/-! ### Subsumption -/

variable {F : CNF}

theorem SStep.objLen {s s' : SDB} (h : SStep s s') : s.obj.length ≤ s'.obj.length := by
  cases h with
  | copy h => simp [SDB.create, SDB.addObj]
  | remove he hi =>
    simp only [SDB.remove, hi, Option.some.injEq] at he
    subst he
    simp
  | strengthen he hi =>
    simp only [SDB.strengthen, hi, Option.some.injEq] at he
    subst he
    simp

theorem SSteps.objLen {s s' : SDB} (h : SSteps s s') : s.obj.length ≤ s'.obj.length := by
  induction h with
  | refl => exact Nat.le_refl _
  | cons a _ ih => exact Nat.le_trans (SStep.objLen a) ih

theorem subsumeBody_keeps {sz size : Nat} {grow : Nat → Nat} {before : Nat → Nat → Bool} {depth : Nat} (hsz : sz ≤ size) :
    Keeps (subsumeBody sz size grow before depth) := by
  intro s m i s' m' b h
  unfold subsumeBody at h
  split at h
  · simp at h
  · rename_i s1 b1 hs
    split at h
    · simp at h
    · rename_i m1 hm
      simp only [Option.some.injEq, Prod.mk.injEq] at h
      obtain ⟨rfl, rfl, rfl⟩ := h
      obtain ⟨m2, e, -, hx, -⟩ := allocateAll_spec (grow := grow) hsz
        (List.range' s.obj.length (s1.obj.length - s.obj.length)) m
      rw [hm] at e
      simp only [Option.some.injEq] at e
      subst e
      exact hx

/-- The memory holds the objects of the database. -/
def Holds (s : SDB) (m : Mem Nat) : Prop := m.objects = List.range s.obj.length

theorem subsumeBody_spec {sz size : Nat} {grow : Nat → Nat} {before : Nat → Nat → Bool} {depth : Nat} (hsz : sz ≤ size)
    {s s' : SDB} {m m' : Mem Nat} {i : Nat} {b : Bool} (hs : SOk F s) (hm : Holds s m)
    (h : subsumeBody sz size grow before depth s m i = some (s', m', b)) :
    subsumeStep before depth s i = some (s', b) ∧ Holds s' m' ∧ SSteps s s' ∧ (b = false → Clash s') ∧ m.buf ≤ m'.buf ∧
      (m.Fits sz → m'.Fits sz) := by
  unfold subsumeBody at h
  split at h
  · simp at h
  · rename_i s1 b1 hst
    split at h
    · simp at h
    · rename_i m1 hm1
      simp only [Option.some.injEq, Prod.mk.injEq] at h
      obtain ⟨rfl, rfl, rfl⟩ := h
      obtain ⟨h1, h2⟩ := subsumeStep_steps hs hst
      obtain ⟨m2, e, ho, hx, hf, hb⟩ := allocateAll_spec (grow := grow) hsz
        (List.range' s.obj.length (s1.obj.length - s.obj.length)) m
      rw [hm1] at e
      simp only [Option.some.injEq] at e
      subst e
      refine ⟨hst, ?_, h1, h2, hb, hf⟩
      have hle := SSteps.objLen h1
      unfold Holds at hm ⊢
      rw [ho, hm, List.range_eq_range', List.range_eq_range']
      have := List.range'_append (s := 0) (m := s.obj.length) (n := s1.obj.length - s.obj.length) (step := 1)
      simp only [Nat.one_mul, Nat.zero_add] at this
      rw [this]
      congr 1
      omega

/-- The guarantees of the loop do not depend on the pages. -/
structure LoopOk (F : CNF) (sz : Nat) (s : SDB) (m : Mem Nat) (s' : SDB) (m' : Mem Nat) (b : Bool) : Prop where
  holds : Holds s' m'
  steps : SSteps s s'
  clash : b = false → Clash s'
  buf : m.buf ≤ m'.buf
  fits : m.Fits sz → m'.Fits sz

theorem forList_ok {sz size : Nat} {grow : Nat → Nat} {before : Nat → Nat → Bool} {depth : Nat} (hsz : sz ≤ size) :
    ∀ (xs : List Nat) (s : SDB) (m : Mem Nat), SOk F s → Holds s m → ∀ s' m' b,
    forList (subsumeBody sz size grow before depth) xs s m = some (s', m', b) → LoopOk F sz s m s' m' b
  | [], s, m, hs, hm, s', m', b, h => by
    simp only [forList, Option.some.injEq, Prod.mk.injEq] at h
    obtain ⟨rfl, rfl, rfl⟩ := h
    exact ⟨hm, .refl _, by simp, Nat.le_refl _, id⟩
  | x :: xs, s, m, hs, hm, s', m', b, h => by
    rw [forList] at h
    split at h
    · simp at h
    · rename_i s1 m1 hb
      simp only [Option.some.injEq, Prod.mk.injEq] at h
      obtain ⟨rfl, rfl, rfl⟩ := h
      obtain ⟨a1, a2, a3, a4, a5, a6⟩ := subsumeBody_spec hsz hs hm hb
      exact ⟨a2, a3, a4, a5, a6⟩
    · rename_i s1 m1 hb
      obtain ⟨a1, a2, a3, a4, a5, a6⟩ := subsumeBody_spec hsz hs hm hb
      have r := forList_ok hsz xs s1 m1 (a3.sound hs).1 a2 s' m' b h
      exact ⟨r.holds, a3.trans r.steps, r.clash, Nat.le_trans a5 r.buf, fun h => r.fits (a6 h)⟩

theorem forPages_ok {sz size : Nat} {grow : Nat → Nat} {before : Nat → Nat → Bool} {depth buf : Nat} (hsz : sz ≤ size) :
    ∀ (n j : Nat) (s : SDB) (m : Mem Nat), SOk F s → Holds s m → ∀ s' m' b,
    forPages (subsumeBody sz size grow before depth) buf n j s m = some (s', m', b) → LoopOk F sz s m s' m' b
  | 0, j, s, m, hs, hm, s', m', b, h => by
    simp only [forPages, Option.some.injEq, Prod.mk.injEq] at h
    obtain ⟨rfl, rfl, rfl⟩ := h
    exact ⟨hm, .refl _, by simp, Nat.le_refl _, id⟩
  | n + 1, j, s, m, hs, hm, s', m', b, h => by
    rw [forPages] at h
    split at h
    · simp at h
    · rename_i p hp
      split at h
      · simp at h
      · rename_i s1 m1 hl
        simp only [Option.some.injEq, Prod.mk.injEq] at h
        obtain ⟨rfl, rfl, rfl⟩ := h
        exact forList_ok hsz _ s m hs hm _ _ _ hl
      · rename_i s1 m1 hl
        have r := forList_ok hsz _ s m hs hm _ _ _ hl
        split at h
        · have r2 := forPages_ok hsz n (j + 1) s1 m1 (r.steps.sound hs).1 r.holds s' m' b h
          exact ⟨r2.holds, r.steps.trans r2.steps, r2.clash, Nat.le_trans r.buf r2.buf, fun h => r2.fits (r.fits h)⟩
        · simp at h

/-! ### More iterations -/

theorem loop_mono {body : σ → Mem α → α → Option (σ × Mem α × Bool)} {P : Nat} : ∀ (f f' : Nat) (it : Iter) (st : σ) (m : Mem α)
    (x : σ × Mem α × Bool), f ≤ f' → loop body P f it st m = some x → loop body P f' it st m = some x
  | 0, _, _, _, _, _, _, h => by simp [loop] at h
  | f + 1, 0, _, _, _, _, hf, _ => by omega
  | f + 1, f' + 1, it, st, m, x, hf, h => by
    rw [loop] at h ⊢
    split at h
    · rename_i he
      rw [if_pos he]
      exact h
    · rename_i he
      rw [if_neg he]
      split at h
      · simp at h
      · rename_i y hy
        split at h
        · simp at h
        · exact h
        · split at h
          · simp at h
          · rename_i it1 hi
            exact loop_mono f f' _ _ _ x (by omega) h

theorem forEach_mono {body : σ → Mem α → α → Option (σ × Mem α × Bool)} {f f' : Nat} {st : σ} {m : Mem α}
    {x : σ × Mem α × Bool} (hf : f ≤ f') (h : forEach body f st m = some x) : forEach body f' st m = some x := by
  unfold forEach at h ⊢
  split at h
  · simp at h
  · exact loop_mono f f' _ _ _ x hf h

theorem forEach_some {body : σ → Mem α → α → Option (σ × Mem α × Bool)} (hk : Keeps body) {f : Nat} {st : σ} {m : Mem α}
    {x : σ × Mem α × Bool} (h : forEach body f st m = some x) : forPages body m.buf m.pages.length 0 st m = some x := by
  obtain ⟨N, hN⟩ := forEach_eq hk st m
  rw [← hN (max f N) (Nat.le_max_right _ _)]
  exact forEach_mono (Nat.le_max_left _ _) h

/-! ### One page -/

theorem allocate_one {sz size : Nat} {grow : Nat → Nat} {x : α} {m : Mem α} {p : Page α} (h : m.pages = [p])
    (hf : (p.data.length + 1) * sz < p.size) :
    m.allocate sz size grow x = some { m with pages := [{ p with data := p.data ++ [x] }] } := by
  have hm : p.used sz + sz < p.size := by
    rw [Nat.add_mul] at hf
    simp only [Page.used]
    omega
  have : m.full sz = false := by simp [Mem.full, h, Page.hasMemory, hm]
  rw [Mem.allocate, this, if_neg (by simp)]
  exact onLast_spec (ys := []) h (by omega)

theorem allocateAll_one {sz size : Nat} {grow : Nat → Nat} : ∀ (xs : List α) (m : Mem α) (p : Page α), m.pages = [p] →
    (xs ≠ [] → (p.data.length + xs.length) * sz < p.size) →
    m.allocateAll sz size grow xs = some { m with pages := [{ p with data := p.data ++ xs }] }
  | [], m, p, h, _ => by
    obtain ⟨ps, b, r⟩ := m
    simp only at h
    subst h
    simp [Mem.allocateAll]
  | x :: xs, m, p, h, hf => by
    have hf := hf (by simp)
    have h1 : (p.data.length + 1) * sz < p.size := by
      refine Nat.lt_of_le_of_lt (Nat.mul_le_mul_right _ ?_) hf
      simp
    rw [Mem.allocateAll, allocate_one h h1]
    simp only
    rw [allocateAll_one xs _ { p with data := p.data ++ [x] } rfl (fun _ => by
      simpa [Nat.add_comm, Nat.add_left_comm, Nat.add_assoc] using hf)]
    simp

theorem forList_one {sz size : Nat} {grow : Nat → Nat} {before : Nat → Nat → Bool} {depth : Nat} :
    ∀ (xs : List Nat) (s : SDB) (m : Mem Nat) (p : Page Nat), SOk F s → m.pages = [p] → p.data.length = s.obj.length →
    ∀ s' b, subsumeList before depth xs s = some (s', b) → (s.obj.length < s'.obj.length → s'.obj.length * sz < p.size) →
    ∃ m' p', forList (subsumeBody sz size grow before depth) xs s m = some (s', m', b) ∧ m'.pages = [p'] ∧ m'.buf = m.buf ∧
      p'.size = p.size ∧ p'.data = p.data ++ List.range' s.obj.length (s'.obj.length - s.obj.length)
  | [], s, m, p, hs, hp, hl, s', b, h, hf => by
    simp only [subsumeList, Option.some.injEq, Prod.mk.injEq] at h
    obtain ⟨rfl, rfl⟩ := h
    exact ⟨m, p, rfl, hp, rfl, rfl, by simp⟩
  | x :: xs, s, m, p, hs, hp, hl, s', b, h, hf => by
    rw [subsumeList] at h
    cases hst : subsumeStep before depth s x with
    | none => rw [hst] at h; simp at h
    | some y =>
      obtain ⟨s1, b1⟩ := y
      rw [hst] at h
      have h1 := (subsumeStep_steps hs hst).1
      have hlen1 := SSteps.objLen h1
      have hend : s1.obj.length ≤ s'.obj.length := by
        cases b1 with
        | false =>
          simp only [Option.some.injEq, Prod.mk.injEq] at h
          obtain ⟨rfl, rfl⟩ := h
          exact Nat.le_refl _
        | true => exact SSteps.objLen (subsumeList_steps xs s1 (h1.sound hs).1 s' b h).1
      have ha := allocateAll_one (sz := sz) (size := size) (grow := grow)
        (List.range' s.obj.length (s1.obj.length - s.obj.length)) m p hp (by
          intro hne
          have : s.obj.length < s1.obj.length := by
            rcases Nat.lt_or_ge s.obj.length s1.obj.length with h | h
            · exact h
            · exact absurd (by rw [Nat.sub_eq_zero_of_le h]; rfl) hne
          have := hf (by omega)
          simp only [List.length_range', hl]
          refine Nat.lt_of_le_of_lt (Nat.mul_le_mul_right _ ?_) this
          omega)
      have hbody : subsumeBody sz size grow before depth s m x = some (s1, { m with pages := [{ p with
          data := p.data ++ List.range' s.obj.length (s1.obj.length - s.obj.length) }] }, b1) := by
        simp only [subsumeBody, hst, ha]
      rw [forList, hbody]
      cases b1 with
      | false =>
        simp only [Option.some.injEq, Prod.mk.injEq] at h
        obtain ⟨rfl, rfl⟩ := h
        exact ⟨_, _, rfl, rfl, rfl, rfl, rfl⟩
      | true =>
        obtain ⟨m', p', k1, k2, k3, k4, k5⟩ := forList_one (sz := sz) (size := size) (grow := grow) xs s1
          { m with pages := [{ p with data := p.data ++ List.range' s.obj.length (s1.obj.length - s.obj.length) }] } _
          (h1.sound hs).1 rfl (by
            simp only [List.length_append, List.length_range', hl]
            omega) s' b h (fun hlt => hf (by omega))
        refine ⟨m', p', k1, k2, k3, k4, ?_⟩
        rw [k5, List.append_assoc]
        congr 1
        have := List.range'_append (s := s.obj.length) (m := s1.obj.length - s.obj.length)
          (n := s'.obj.length - s1.obj.length) (step := 1)
        rw [Nat.one_mul, show s.obj.length + (s1.obj.length - s.obj.length) = s1.obj.length by omega] at this
        rw [this]
        congr 1
        omega

/-! ### A new page during the loop -/

theorem not_clash {s : SDB} (hs : SOk F s) (hF : Satisfiable F) : ¬ Clash s := by
  intro h
  obtain ⟨a, ha⟩ := hF
  exact (h.refutes hs a ha).elim (by simp)

/-- The last page is full, and so is the array of pages. -/
def AtCapacity (sz : Nat) (m : Mem α) : Prop := m.full sz = true ∧ ¬ m.pages.length < m.room

theorem allocateAll_capacity {sz size : Nat} {grow : Nat → Nat} (hsz : sz ≤ size) {xs : List α} {m m' : Mem α}
    (h : AtCapacity sz m) (he : m.allocateAll sz size grow xs = some m') (hb : m'.buf = m.buf) : xs = [] := by
  cases xs with
  | nil => rfl
  | cons x xs =>
    obtain ⟨m1, e1, _, _, _, _, hf⟩ := allocate_spec (grow := grow) hsz x m
    rw [Mem.allocateAll, e1] at he
    obtain ⟨m2, e2, _, _, _, hb2⟩ := allocateAll_spec (grow := grow) hsz xs m1
    simp only at he
    rw [e2] at he
    simp only [Option.some.injEq] at he
    subst he
    have := (hf h.1).2.2 h.2
    omega

theorem subsumeBody_capacity {sz size : Nat} {grow : Nat → Nat} {before : Nat → Nat → Bool} {depth : Nat} (hsz : sz ≤ size)
    {s s' : SDB} {m m' : Mem Nat} {i : Nat} {b : Bool} (hs : SOk F s) (hc : AtCapacity sz m)
    (h : subsumeBody sz size grow before depth s m i = some (s', m', b)) (hb : m'.buf = m.buf) :
    s'.obj.length = s.obj.length ∧ m' = m := by
  unfold subsumeBody at h
  split at h
  · simp at h
  · rename_i s1 b1 hst
    split at h
    · simp at h
    · rename_i m1 hm1
      simp only [Option.some.injEq, Prod.mk.injEq] at h
      obtain ⟨rfl, rfl, rfl⟩ := h
      have e := allocateAll_capacity hsz hc hm1 hb
      have hle := SSteps.objLen (subsumeStep_steps hs hst).1
      rw [e] at hm1
      simp only [Mem.allocateAll, Option.some.injEq] at hm1
      rw [List.range'_eq_nil_iff] at e
      exact ⟨by omega, hm1.symm⟩

theorem forList_capacity {sz size : Nat} {grow : Nat → Nat} {before : Nat → Nat → Bool} {depth : Nat} (hsz : sz ≤ size) :
    ∀ (xs : List Nat) (s : SDB) (m : Mem Nat), SOk F s → Holds s m → AtCapacity sz m → ∀ s' m' b,
    forList (subsumeBody sz size grow before depth) xs s m = some (s', m', b) → m'.buf = m.buf →
    s'.obj.length = s.obj.length ∧ m' = m
  | [], s, m, hs, hm, hc, s', m', b, h, hb => by
    simp only [forList, Option.some.injEq, Prod.mk.injEq] at h
    obtain ⟨rfl, rfl, rfl⟩ := h
    exact ⟨rfl, rfl⟩
  | x :: xs, s, m, hs, hm, hc, s', m', b, h, hb => by
    rw [forList] at h
    split at h
    · simp at h
    · rename_i s1 m1 hbd
      simp only [Option.some.injEq, Prod.mk.injEq] at h
      obtain ⟨rfl, rfl, rfl⟩ := h
      exact subsumeBody_capacity hsz hs hc hbd hb
    · rename_i s1 m1 hbd
      obtain ⟨a1, a2, a3, a4, a5, a6⟩ := subsumeBody_spec hsz hs hm hbd
      have r := forList_ok hsz xs s1 m1 (a3.sound hs).1 a2 s' m' b h
      have e1 : m1.buf = m.buf := by
        have := r.buf
        omega
      obtain ⟨k1, rfl⟩ := subsumeBody_capacity hsz hs hc hbd e1
      obtain ⟨k2, k3⟩ := forList_capacity hsz xs s1 m1 (a3.sound hs).1 a2 hc s' m' b h hb
      exact ⟨k2.trans k1, k3⟩

theorem forPages_capacity {sz size : Nat} {grow : Nat → Nat} {before : Nat → Nat → Bool} {depth : Nat} (hsz : sz ≤ size)
    (hF : Satisfiable F) {m : Mem Nat} (hc : AtCapacity sz m) :
    ∀ (n j : Nat) (s : SDB), SOk F s → Holds s m → ∀ s' m' b,
    forPages (subsumeBody sz size grow before depth) m.buf n j s m = some (s', m', b) →
    s'.obj.length = s.obj.length ∧ m' = m ∧ b = true
  | 0, j, s, hs, hm, s', m', b, h => by
    simp only [forPages, Option.some.injEq, Prod.mk.injEq] at h
    obtain ⟨rfl, rfl, rfl⟩ := h
    exact ⟨rfl, rfl, rfl⟩
  | n + 1, j, s, hs, hm, s', m', b, h => by
    rw [forPages] at h
    split at h
    · simp at h
    · rename_i p hp
      split at h
      · simp at h
      · rename_i s1 m1 hl
        have r := forList_ok hsz _ s m hs hm _ _ _ hl
        exact absurd (r.clash rfl) (not_clash (r.steps.sound hs).1 hF)
      · rename_i s1 m1 hl
        have r := forList_ok hsz _ s m hs hm _ _ _ hl
        split at h
        · rename_i e
          obtain ⟨k1, rfl⟩ := forList_capacity hsz _ s m hs hm hc _ _ _ hl e
          obtain ⟨k2, k3, k4⟩ := forPages_capacity hsz hF hc n (j + 1) s1 (r.steps.sound hs).1 r.holds s' m' b h
          exact ⟨k2.trans k1, k3, k4⟩
        · simp at h

/-- With no room left, a loop over the memory that is defined creates nothing. -/
theorem subsumeMem_capacity {sz size : Nat} {grow : Nat → Nat} {before : Nat → Nat → Bool} {depth fuel : Nat} (hsz : sz ≤ size)
    (hF : Satisfiable F) {s s' : SDB} {m m' : Mem Nat} {b : Bool} (hs : SOk F s) (hm : Holds s m) (hc : AtCapacity sz m)
    (h : subsumeMem sz size grow before depth fuel s m = some (s', m', b)) :
    s'.obj.length = s.obj.length ∧ m' = m ∧ b = true :=
  forPages_capacity hsz hF hc _ _ s hs hm s' m' b (forEach_some (subsumeBody_keeps hsz) h)

theorem subsumeMem_ok {sz size : Nat} {grow : Nat → Nat} {before : Nat → Nat → Bool} {depth fuel : Nat} (hsz : sz ≤ size)
    {s s' : SDB} {m m' : Mem Nat} {b : Bool} (hs : SOk F s) (hm : Holds s m)
    (h : subsumeMem sz size grow before depth fuel s m = some (s', m', b)) : LoopOk F sz s m s' m' b :=
  forPages_ok hsz _ _ s m hs hm s' m' b (forEach_some (subsumeBody_keeps hsz) h)

theorem forList_first {sz size : Nat} {grow : Nat → Nat} {before : Nat → Nat → Bool} {depth : Nat} (hsz : sz ≤ size)
    {x : Nat} {xs : List Nat} {s s1 s' : SDB} {m m' : Mem Nat} {b1 b : Bool} (hs : SOk F s) (hm : Holds s m)
    (hst : subsumeStep before depth s x = some (s1, b1))
    (h : forList (subsumeBody sz size grow before depth) (x :: xs) s m = some (s', m', b)) :
    s1.obj.length ≤ s'.obj.length := by
  rw [forList] at h
  split at h
  · simp at h
  · rename_i s2 m2 hbd
    simp only [Option.some.injEq, Prod.mk.injEq] at h
    obtain ⟨rfl, rfl, rfl⟩ := h
    obtain ⟨a1, _⟩ := subsumeBody_spec hsz hs hm hbd
    rw [hst] at a1
    simp only [Option.some.injEq, Prod.mk.injEq] at a1
    rw [a1.1]
    exact Nat.le_refl _
  · rename_i s2 m2 hbd
    obtain ⟨a1, a2, a3, _⟩ := subsumeBody_spec hsz hs hm hbd
    have r := forList_ok hsz xs s2 m2 (a3.sound hs).1 a2 s' m' b h
    rw [hst] at a1
    simp only [Option.some.injEq, Prod.mk.injEq] at a1
    rw [a1.1]
    exact SSteps.objLen r.steps

/-- No room for another object: creating an object at the first object is undefined. -/
theorem subsumeMem_none {sz size : Nat} {grow : Nat → Nat} {before : Nat → Nat → Bool} {depth fuel : Nat} (hsz : sz ≤ size)
    (hF : Satisfiable F) {s s1 : SDB} {b1 : Bool} {m : Mem Nat} {p : Page Nat} (hs : SOk F s) (hm : Holds s m)
    (hc : AtCapacity sz m) {ps : List (Page Nat)} {xs : List Nat} (hp : m.pages = p :: ps) (hd : p.data = 0 :: xs)
    (hst : subsumeStep before depth s 0 = some (s1, b1)) (hl : s.obj.length < s1.obj.length) :
    subsumeMem sz size grow before depth fuel s m = none := by
  rw [Option.eq_none_iff_forall_ne_some]
  rintro ⟨s', m', b⟩ h
  have e := subsumeMem_capacity hsz hF hs hm hc h
  have h := forEach_some (subsumeBody_keeps hsz) h
  rw [hp, List.length_cons, forPages, hp] at h
  simp only [List.getElem?_cons_zero, hd] at h
  split at h
  · simp at h
  · rename_i hfl
    simp only [Option.some.injEq, Prod.mk.injEq] at h
    obtain ⟨rfl, rfl, rfl⟩ := h
    have := forList_first hsz hs hm hst hfl
    omega
  · rename_i hfl
    have h3 := forList_first hsz hs hm hst hfl
    have r := forList_ok hsz _ s m hs hm _ _ _ hfl
    split at h
    · have := SSteps.objLen (forPages_ok hsz _ _ _ _ (r.steps.sound hs).1 r.holds _ _ _ h).steps
      omega
    · simp at h

/-! ### Filling a page -/

theorem fill_one {sz size : Nat} {grow : Nat → Nat} (x : α) (xs : List α) (b r : Nat) (hf : (xs.length + 1) * sz < size) :
    Mem.allocateAll sz size grow (x :: xs) ⟨[], b, r⟩ =
      some ⟨[⟨size, x :: xs⟩], if 0 < r then b else b + 1, if 0 < r then r else grow r⟩ := by
  have h1 : 0 * sz + sz ≤ size := by
    have : 1 * sz ≤ (xs.length + 1) * sz := Nat.mul_le_mul_right _ (by omega)
    omega
  have h2 : Mem.allocate sz size grow x ⟨[], b, r⟩ =
      some ⟨[⟨size, [x]⟩], if 0 < r then b else b + 1, if 0 < r then r else grow r⟩ := by
    by_cases hr : 0 < r
    · simp [Mem.allocate, Mem.full, Mem.newPage, Mem.onLast, Page.allocate, Page.used, hr]
      omega
    · simp [Mem.allocate, Mem.full, Mem.newPage, Mem.onLast, Page.allocate, Page.used, hr]
      omega
  rw [Mem.allocateAll, h2]
  simp only
  rw [allocateAll_one xs _ ⟨size, [x]⟩ rfl (fun _ => by
    simpa [Nat.add_comm] using hf)]
  simp

theorem allocate_last {sz size : Nat} {grow : Nat → Nat} {x : α} {m : Mem α} {ps : List (Page α)} {p : Page α}
    (h : m.pages = ps ++ [p]) (hf : (p.data.length + 1) * sz < p.size) :
    m.allocate sz size grow x = some { m with pages := ps ++ [{ p with data := p.data ++ [x] }] } := by
  have hm : p.used sz + sz < p.size := by
    rw [Nat.add_mul] at hf
    simp only [Page.used]
    omega
  have : m.full sz = false := by simp [Mem.full, h, Page.hasMemory, hm]
  rw [Mem.allocate, this, if_neg (by simp)]
  exact onLast_spec h (by omega)

theorem allocateAll_last {sz size : Nat} {grow : Nat → Nat} {ps : List (Page α)} : ∀ (xs : List α) (m : Mem α) (p : Page α),
    m.pages = ps ++ [p] → (p.data.length + xs.length) * sz < p.size →
    m.allocateAll sz size grow xs = some { m with pages := ps ++ [{ p with data := p.data ++ xs }] }
  | [], m, p, h, _ => by
    obtain ⟨qs, b, r⟩ := m
    simp only at h
    subst h
    simp [Mem.allocateAll]
  | x :: xs, m, p, h, hf => by
    have h1 : (p.data.length + 1) * sz < p.size := by
      refine Nat.lt_of_le_of_lt (Nat.mul_le_mul_right _ ?_) hf
      simp
    rw [Mem.allocateAll, allocate_last h h1]
    simp only
    rw [allocateAll_last xs _ { p with data := p.data ++ [x] } rfl (by
      simpa [Nat.add_comm, Nat.add_left_comm, Nat.add_assoc] using hf)]
    simp

theorem allocateAll_append {sz size : Nat} {grow : Nat → Nat} : ∀ (xs ys : List α) (m : Mem α),
    m.allocateAll sz size grow (xs ++ ys) = (m.allocateAll sz size grow xs).bind (Mem.allocateAll sz size grow ys)
  | [], ys, m => rfl
  | x :: xs, ys, m => by
    rw [List.cons_append, Mem.allocateAll, Mem.allocateAll]
    cases m.allocate sz size grow x with
    | none => rfl
    | some m1 => exact allocateAll_append xs ys m1

/-- A second page after a full one. -/
theorem fill_next {sz size : Nat} {grow : Nat → Nat} (p : Page α) (y : α) (ys : List α) (b r : Nat) (hr : ¬ 1 < r)
    (hp : ¬ p.used sz + sz < p.size) (hf : (ys.length + 1) * sz < size) :
    Mem.allocateAll sz size grow (y :: ys) ⟨[p], b, r⟩ = some ⟨[p, ⟨size, y :: ys⟩], b + 1, grow r⟩ := by
  have h1 : sz ≤ size := by
    have : 1 * sz ≤ (ys.length + 1) * sz := Nat.mul_le_mul_right _ (by omega)
    omega
  have h2 : Mem.allocate sz size grow y ⟨[p], b, r⟩ = some ⟨[p] ++ [⟨size, [y]⟩], b + 1, grow r⟩ := by
    have hfl : (⟨[p], b, r⟩ : Mem α).full sz = true := by simp [Mem.full, Page.hasMemory, hp]
    rw [Mem.allocate, hfl, if_pos rfl, Mem.newPage, if_neg (show ¬ [p].length < r from hr)]
    simp [Mem.onLast, Page.allocate, Page.used, h1]
  rw [Mem.allocateAll, h2]
  simp only
  rw [allocateAll_last (ps := [p]) ys _ ⟨size, [y]⟩ rfl (by simpa [Nat.add_comm] using hf)]
  simp

/-! ### A formula whose first subsumption creates an object -/

/-- The clauses of the second call: one that the first clause subsumes, and `n` others. -/
def fillF (n : Nat) : CNF := [⟨0, false⟩, ⟨1, false⟩, ⟨2, false⟩, ⟨3, false⟩] :: List.replicate n [⟨4, false⟩, ⟨5, false⟩]

/-- The clause of the first call. -/
def fillG : CNF := [[⟨0, false⟩, ⟨1, false⟩, ⟨2, false⟩]]

/-- The state after the two calls of `init`. -/
def fillSys (n : Nat) : Sys := ((Sys.new).init 6 fillG false).init 6 (fillF n) true

theorem fill_history (n : Nat) : History .any (fillG ++ fillF n) [] (fillSys n) := by
  have h1 := (History.new (u := .any) true).add 6 fillG false trivial (by
    intro c hc
    simp only [fillG, List.mem_singleton] at hc
    subst hc
    decide)
  have h2 := h1.add 6 (fillF n) true trivial (by
    intro c hc
    have : c = [⟨0, false⟩, ⟨1, false⟩, ⟨2, false⟩, ⟨3, false⟩] ∨ c = [⟨4, false⟩, ⟨5, false⟩] := by
      simp only [fillF, List.mem_cons, List.mem_replicate] at hc
      rcases hc with h | h
      · exact Or.inl h
      · exact Or.inr h.2
    rcases this with rfl | rfl <;> decide)
  simpa [fillSys] using h2

theorem fill_sat (n : Nat) : Satisfiable (fillG ++ fillF n) := by
  refine ⟨fun _ => true, ?_⟩
  intro c hc
  simp only [fillG, fillF, List.mem_append, List.mem_cons, List.mem_replicate, List.not_mem_nil, or_false] at hc
  rcases hc with rfl | rfl | ⟨_, rfl⟩ <;> simp [SatClause, Lit.holds]

theorem createPairs (ls : List Lit) : ∀ (n : Nat) (db : DB),
    let db' := (List.replicate n ls).foldl (fun d c => (d.createClause c 0 true).1) db
    db'.next = db.next + n ∧ db'.clauses = db.clauses ++ List.range' db.next n ∧
      (∀ c < db.next, db'.store c = db.store c) ∧ ∀ c, db.next ≤ c → c < db.next + n → (db'.store c).lits = ls
  | 0, db => by simp; intro c h1 h2; omega
  | n + 1, db => by
    obtain ⟨k1, k2, k3, k4⟩ := createPairs ls n (db.createClause ls 0 true).1
    have e1 : (db.createClause ls 0 true).1.next = db.next + 1 := by
      unfold DB.createClause; simp only; split <;> rfl
    have e2 : (db.createClause ls 0 true).1.clauses = db.clauses ++ [db.next] := by
      unfold DB.createClause; simp only; split <;> rfl
    have e3 : ∀ c, ((db.createClause ls 0 true).1.store c) = if c = db.next then ⟨ls, 0⟩ else db.store c := by
      intro c
      unfold DB.createClause; simp only; split <;> simp [upd_apply]
    simp only [List.replicate_succ, List.foldl_cons]
    rw [e1] at k1 k2 k3 k4
    refine ⟨by omega, ?_, ?_, ?_⟩
    · rw [k2, e2, List.range'_succ]
      simp
    · intro c hc
      rw [k3 c (by omega), e3, if_neg (by omega)]
    · intro c h1 h2
      by_cases hc : c = db.next
      · rw [k3 c (by omega), e3, if_pos hc]
      · exact k4 c (by omega) (by omega)

theorem restoreAll_none (G : CNF) (sys : Sys) (h : sys.ve.vars = []) : restoreAll G sys = sys := by
  cases G with
  | nil => rfl
  | cons c cs => simp [restoreAll, h]

theorem initFold_obj : ∀ (cs : List Nat) (s : SDB), (cs.foldl SDB.addObj s).obj = s.obj ++ cs.map some ∧
    (cs.foldl SDB.addObj s).db = s.db ∧
    ∀ v, (∀ c ∈ cs, ∀ l ∈ s.db.lits c, l.var ≠ v) → (cs.foldl SDB.addObj s).occ v = s.occ v
  | [], s => by simp
  | c :: cs, s => by
    obtain ⟨k1, k2, k3⟩ := initFold_obj cs (s.addObj c)
    rw [List.foldl_cons]
    refine ⟨by rw [k1]; simp [SDB.addObj], k2, ?_⟩
    intro v hv
    rw [k3 v (fun d hd l hl => hv d (by simp [hd]) l hl)]
    simp only [SDB.addObj]
    rw [List.filter_eq_nil_iff.2]
    · simp
    · intro l hl
      simpa using hv c (by simp) l hl

/-- What the objects of the formula are. -/
theorem fill_facts (n : Nat) :
    let s := SDB.init (fillSys n).sol.db
    s.obj.length = n + 2 ∧ s.obj[0]? = some (some 0) ∧ s.obj[1]? = some (some 1) ∧
      s.db.store 0 = ⟨[⟨0, false⟩, ⟨1, false⟩, ⟨2, false⟩], 3⟩ ∧
      s.db.store 1 = ⟨[⟨0, false⟩, ⟨1, false⟩, ⟨2, false⟩, ⟨3, false⟩], 0⟩ ∧
      s.occ 0 = [0, 1] ∧ s.occ 1 = [0, 1] ∧ s.occ 2 = [0, 1] := by
  let db1 : DB := ((Sys.new).init 6 fillG false).sol.db
  let db2 : DB := (db1.createClause [⟨0, false⟩, ⟨1, false⟩, ⟨2, false⟩, ⟨3, false⟩] 0 true).1
  have hdb : (fillSys n).sol.db = (List.replicate n [⟨4, false⟩, ⟨5, false⟩]).foldl
      (fun d c => (d.createClause c 0 true).1) db2 := by
    unfold fillSys
    generalize hs : (Sys.new).init 6 fillG false = s1
    have hv : s1.ve.vars = [] := by rw [← hs]; rfl
    have hn : s1.sol.db.nVars = 6 := by rw [← hs]; rfl
    have hd : db2 = (s1.sol.db.createClause [⟨0, false⟩, ⟨1, false⟩, ⟨2, false⟩, ⟨3, false⟩] 0 true).1 := by rw [← hs]
    rw [hd]
    unfold Sys.init
    simp only
    rw [restoreAll_none]
    rotate_left
    · exact hv
    simp [DB.init, fillF, hn]
  obtain ⟨k1, k2, k3, k4⟩ := createPairs [⟨4, false⟩, ⟨5, false⟩] n db2
  rw [← hdb] at k1 k2 k3 k4
  generalize (fillSys n).sol.db = db at *
  have n2 : db2.next = 2 := rfl
  have c2 : db2.clauses = [0, 1] := rfl
  have st0 : db.store 0 = ⟨[⟨0, false⟩, ⟨1, false⟩, ⟨2, false⟩], 3⟩ := (k3 0 (by rw [n2]; omega)).trans rfl
  have st1 : db.store 1 = ⟨[⟨0, false⟩, ⟨1, false⟩, ⟨2, false⟩, ⟨3, false⟩], 0⟩ := (k3 1 (by rw [n2]; omega)).trans rfl
  rw [n2] at k1 k2 k3 k4
  rw [c2] at k2
  intro s
  have hs : s = (List.range' 2 n).foldl SDB.addObj (((⟨db, [], fun _ => []⟩ : SDB).addObj 0).addObj 1) := by
    simp only [s, SDB.init, k2]
    rfl
  obtain ⟨h1, h2, h3⟩ := initFold_obj (List.range' 2 n) (((⟨db, [], fun _ => []⟩ : SDB).addObj 0).addObj 1)
  rw [← hs] at h1 h2 h3
  have h2 : s.db = db := h2
  have hfar : ∀ v < 3, ∀ c ∈ List.range' 2 n, ∀ l ∈ (((⟨db, [], fun _ => []⟩ : SDB).addObj 0).addObj 1).db.lits c, l.var ≠ v := by
    intro v hv c hc l hl
    rw [List.mem_range'_1] at hc
    have : l ∈ (db.store c).lits := hl
    rw [k4 c hc.1 (by omega)] at this
    simp only [List.mem_cons, List.not_mem_nil, or_false] at this
    rcases this with rfl | rfl <;> simp <;> omega
  refine ⟨?_, ?_, ?_, by rw [h2]; exact st0, by rw [h2]; exact st1, ?_, ?_, ?_⟩
  · rw [h1]; simp [SDB.addObj]
  · rw [h1]; simp [SDB.addObj]
  · rw [h1]; simp [SDB.addObj]
  · rw [h3 0 (hfar 0 (by omega))]; simp [SDB.addObj, DB.lits, st0, st1]
  · rw [h3 1 (hfar 1 (by omega))]; simp [SDB.addObj, DB.lits, st0, st1]
  · rw [h3 2 (hfar 2 (by omega))]; simp [SDB.addObj, DB.lits, st0, st1]

/-- The first object is replaced by a copy. -/
theorem fill_step (n : Nat) (before : Nat → Nat → Bool) (depth : Nat) :
    ∃ s1, subsumeStep before (depth + 1) (SDB.init (fillSys n).sol.db) 0 = some (s1, true) ∧ s1.obj.length = n + 3 := by
  obtain ⟨h1, h2, h3, h4, h5, h6, h7, h8⟩ := fill_facts n
  generalize SDB.init (fillSys n).sol.db = s at *
  have hm : minOcc s.occ [⟨0, false⟩, ⟨1, false⟩, ⟨2, false⟩] = some ⟨0, false⟩ := by
    simp [minOcc, h6, h7, h8]
  have hsub : subsumes [⟨0, false⟩, ⟨1, false⟩, ⟨2, false⟩] [⟨0, false⟩, ⟨1, false⟩, ⟨2, false⟩, ⟨3, false⟩] = some none := by
    decide
  have hc0 : (s.create [⟨0, false⟩, ⟨1, false⟩, ⟨2, false⟩]).obj[0]? = some (some 0) := by
    rw [create_obj, List.getElem?_append_left (by omega), h2]
  have hc1 : (s.create [⟨0, false⟩, ⟨1, false⟩, ⟨2, false⟩]).obj[1]? = some (some 1) := by
    rw [create_obj, List.getElem?_append_left (by omega), h3]
  obtain ⟨t1, e1, _, _, l1, o1, _⟩ := remove_total hc0
  obtain ⟨t2, e2, _, _, l2, _⟩ := remove_total ((o1 1 (by omega)).trans hc1)
  refine ⟨t2, ?_, ?_⟩
  · simp [subsumeStep, subsumeClause, subsumeScan, h2, h3, DB.lits, h4, h5, hm, h6, hsub, Cls.isLearnt, Cls.isPersistent, e1, e2]
  · rw [l2, l1, create_obj]
    simp [h1]

end Candy.Paged
