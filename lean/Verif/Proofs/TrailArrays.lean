import Verif.Model.ArraySearch
import Verif.Props.Stamp
import Verif.Proofs.Search

/-! The arrays of the trail, the watch lists, the clause store and the stamps represent the functions of
the model. -/

namespace Candy

/-- `A` represents `T`. -/
structure RepT (A : ATrail) (T : Trail) : Prop where
  vars : A.variables = T.nVars
  la : A.assigns.length = T.nVars
  lv : A.vardata.length = T.nVars
  lt : A.trail.length = T.nVars
  ld : A.decision.length = T.nVars
  assigns : ∀ v < T.nVars, A.assigns[v]? = some (T.assigns v)
  data : ∀ v < T.nVars, A.vardata[v]? = some (T.reason v, T.level v)
  decision : ∀ v < T.nVars, A.decision[v]? = some (T.decision v)
  size : A.trailSize = T.stack.length
  stack : A.trail.take A.trailSize = T.stack
  lim : A.lim = T.lim
  qhead : A.qhead = T.qhead
  asm : A.assumptions = T.assumptions

namespace RepT

variable {A : ATrail} {T : Trail}

theorem fits (h : RepT A T) : T.stack.length ≤ T.nVars := by
  have := congrArg List.length h.stack
  rw [List.length_take, h.lt, h.size] at this
  omega

theorem value (h : RepT A T) {l : Lit} (hl : l.var < T.nVars) : A.value l = some (T.value l) := by
  unfold ATrail.value Trail.value
  rw [h.assigns _ hl]
  cases T.assigns l.var <;> rfl

theorem value_out (h : RepT A T) {l : Lit} (hl : T.nVars ≤ l.var) : A.value l = none := by
  unfold ATrail.value
  rw [List.getElem?_eq_none (by rw [h.la]; exact hl)]; rfl

theorem level (h : RepT A T) {v : Nat} (hv : v < T.nVars) : A.level v = some (T.level v) := by
  unfold ATrail.level; rw [h.data _ hv]; rfl

theorem reason (h : RepT A T) {v : Nat} (hv : v < T.nVars) : A.reason v = some (T.reason v) := by
  unfold ATrail.reason; rw [h.data _ hv]; rfl

theorem get (h : RepT A T) {i : Nat} (hi : i < T.stack.length) : A.get i = T.stack[i]? := by
  unfold ATrail.get
  rw [← h.stack, List.getElem?_take_of_lt (by rw [h.size]; exact hi)]

theorem setValue (h : RepT A T) {p : Lit} (hp : p.var < T.nVars) (hs : T.stack.length < T.nVars) :
    ∃ A', A.setValue p = some A' ∧ RepT A' (T.setValue p) := by
  refine ⟨_, if_pos ⟨by rw [h.la]; exact hp, by rw [h.size, h.lt]; exact hs⟩, ?_⟩
  refine ⟨h.vars, by simp [h.la, Trail.setValue], h.lv, by simp [h.lt, Trail.setValue], h.ld, ?_, h.data,
    h.decision, by simp [h.size, Trail.setValue], ?_, h.lim, h.qhead, h.asm⟩
  · intro v hv
    simp only [Trail.setValue, upd]
    split
    · next e => subst e; simp [h.la, hp]
    · next e => rw [List.getElem?_set_ne (fun x => e x.symm)]; exact h.assigns v hv
  · simp only [Trail.setValue]
    rw [List.take_add_one, List.take_set_of_le (Nat.le_refl _), h.stack]
    simp [h.lt, h.size, hs]

theorem setValue_out (h : RepT A T) {p : Lit} (ho : T.nVars ≤ p.var ∨ T.nVars ≤ T.stack.length) :
    A.setValue p = none := by
  refine if_neg ?_
  rw [h.la, h.size, h.lt]; omega

theorem setData (h : RepT A T) {v : Nat} (hv : v < T.nVars) (r : Option Nat) (lv : Nat) :
    ∃ A', A.setData v (r, lv) = some A' ∧
      RepT A' { T with reason := upd T.reason v r, level := upd T.level v lv } := by
  refine ⟨_, if_pos (by rw [h.lv]; exact hv), ?_⟩
  refine ⟨h.vars, h.la, by simp [h.lv], h.lt, h.ld, h.assigns, ?_, h.decision, h.size, h.stack, h.lim,
    h.qhead, h.asm⟩
  intro w hw
  simp only [upd]
  by_cases e : w = v
  · subst e; simp [h.lv, hw]
  · rw [List.getElem?_set_ne (fun x => e x.symm)]; simp [e]; exact h.data w hw

theorem newDecisionLevel (h : RepT A T) : RepT A.newDecisionLevel T.newDecisionLevel :=
  ⟨h.vars, h.la, h.lv, h.lt, h.ld, h.assigns, h.data, h.decision, h.size, h.stack,
    by simp [ATrail.newDecisionLevel, Trail.newDecisionLevel, h.lim, h.size], h.qhead, h.asm⟩

theorem decide (h : RepT A T) {p : Lit} (hp : p.var < T.nVars) (hs : T.stack.length < T.nVars) :
    ∃ A', A.decide p = some A' ∧ RepT A' (T.decide p) := by
  obtain ⟨A1, e1, r1⟩ := h.setValue hp hs
  obtain ⟨A2, e2, r2⟩ := r1.setData (v := p.var) hp none A1.lim.length
  refine ⟨A2, by rw [ATrail.decide, e1]; exact e2, ?_⟩
  rw [r1.lim] at r2
  exact r2

theorem propagate (h : RepT A T) {p : Lit} (hp : p.var < T.nVars)
    (hs : T.value p ≠ some false → T.stack.length < T.nVars) (c : Nat) :
    ∃ A', A.propagate p c = some A' ∧ RepT A' (T.propagate p c) := by
  unfold ATrail.propagate Trail.propagate Trail.falsifies
  rw [h.value hp]
  by_cases hv : T.value p = some false
  · rw [hv]; exact ⟨A, rfl, by simpa using h⟩
  · obtain ⟨A1, e1, r1⟩ := h.setValue hp (hs hv)
    obtain ⟨A2, e2, r2⟩ := r1.setData (v := p.var) hp (some c) A1.lim.length
    rw [r1.lim] at r2
    refine ⟨A2, ?_, ?_⟩
    · cases e : T.value p with
      | none => dsimp only; rw [e1]; exact e2
      | some b => cases b with
        | false => exact absurd e hv
        | true => dsimp only; rw [e1]; exact e2
    · rw [if_neg (by simpa using hv)]; exact r2

theorem fact (h : RepT A T) {p : Lit} (hp : p.var < T.nVars)
    (hs : T.value p = none → T.stack.length < T.nVars) :
    ∃ A', A.fact p = some (A', (T.fact p).2) ∧ RepT A' (T.fact p).1 := by
  unfold ATrail.fact Trail.fact Trail.falsifies Trail.satisfies
  rw [h.value hp]
  obtain ⟨A1, e1, r1⟩ := h.setData hp none 0
  cases e : T.value p with
  | none =>
    obtain ⟨A2, e2, r2⟩ := r1.setValue (p := p) hp (hs e)
    refine ⟨A2, ?_, ?_⟩
    · dsimp only; rw [e1]; simp [e2]
    · simpa using r2
  | some b => cases b with
    | false => exact ⟨A, by simp, by simpa using h⟩
    | true => exact ⟨A1, by dsimp only; rw [e1]; simp, by simpa using r1⟩

theorem unassign (n : Nat) (trail : List Lit) : ∀ (m i : Nat) (as : List (Option Bool)) (f : Nat → Option Bool),
    i + m ≤ trail.length → as.length = n → (∀ v < n, as[v]? = some (f v)) →
    (∀ l ∈ (trail.drop i).take m, l.var < n) →
    ∃ as', ATrail.unassign trail i m as = some as' ∧ as'.length = n ∧
      ∀ v < n, as'[v]? = some (if ((trail.drop i).take m).any (fun l => l.var == v) then none else f v)
  | 0, i, as, f, _, hl, ha, _ => ⟨as, rfl, hl, by simpa using ha⟩
  | m + 1, i, as, f, hi, hl, ha, hb => by
    have hi' : i < trail.length := by omega
    rw [List.drop_eq_getElem_cons hi', List.take_succ_cons] at hb ⊢
    have h0 : (trail[i]).var < n := hb _ (by simp)
    unfold ATrail.unassign
    rw [List.getElem?_eq_getElem hi']
    dsimp only
    rw [if_pos (by omega)]
    obtain ⟨as', e1, e2, e3⟩ := unassign n trail m (i + 1) (as.set (trail[i]).var none)
      (fun v => if v = (trail[i]).var then none else f v) (by omega) (by simpa using hl)
      (fun v hv => by
        by_cases e : v = (trail[i]).var
        · subst e; simp [hl, hv]
        · rw [List.getElem?_set_ne (fun x => e x.symm), ha v hv]; simp [e])
      (fun l hl => hb l (by simp [hl]))
    refine ⟨as', e1, e2, fun v hv => ?_⟩
    rw [e3 v hv]
    simp only [List.any_cons]
    by_cases e : v = (trail[i]).var
    · subst e; simp
    · have : ((trail[i]).var == v) = false := by simpa using fun x => e x.symm
      simp [this, e]

theorem backtrack (h : RepT A T) (hi : T.Inv) (lvl : Nat) :
    ∃ A', A.backtrack lvl = some A' ∧ RepT A' (T.backtrack lvl) := by
  unfold ATrail.backtrack
  rw [h.lim]
  cases hk : T.lim[lvl]? with
  | none =>
    have := List.getElem?_eq_none_iff.1 hk
    rw [if_neg (by omega), Trail.backtrack_none hk]
    exact ⟨A, rfl, h⟩
  | some k =>
    have hlt : lvl < T.lim.length := (List.getElem?_eq_some_iff.1 hk).1
    have hkl : k ≤ T.stack.length := hi.limLe k (List.mem_of_getElem? hk)
    have hf := h.fits
    rw [if_pos hlt]
    dsimp only
    have hd : (A.trail.drop k).take (A.trailSize - k) = T.stack.drop k := by
      rw [← h.stack, List.drop_take]
    obtain ⟨as', e1, e2, e3⟩ := unassign T.nVars A.trail (A.trailSize - k) k A.assigns T.assigns
      (by rw [h.size, h.lt]; omega) h.la h.assigns
      (fun l hl => by rw [hd] at hl; exact hi.bound l (List.mem_of_mem_drop hl))
    rw [e1]
    refine ⟨_, rfl, ?_⟩
    unfold Trail.backtrack
    rw [hk]
    refine ⟨h.vars, e2, h.lv, h.lt, h.ld, ?_, h.data, h.decision, ?_, ?_, rfl, rfl, h.asm⟩
    · intro v hv
      rw [e3 v hv, hd]
    · simp; omega
    · dsimp only
      rw [← h.stack, List.take_take, Nat.min_eq_left (by rw [h.size]; exact hkl)]

/-- Every state of the model within its bounds is represented. -/
theorem exists_rep (hs : T.stack.length ≤ T.nVars) : ∃ A, RepT A T := by
  refine ⟨⟨T.nVars, (List.range T.nVars).map T.assigns,
    (List.range T.nVars).map fun v => (T.reason v, T.level v),
    T.stack ++ List.replicate (T.nVars - T.stack.length) ⟨0, false⟩, T.stack.length, T.lim, T.qhead,
    (List.range T.nVars).map T.decision, T.assumptions⟩, ?_⟩
  refine ⟨rfl, by simp, by simp, by simp; omega, by simp, ?_, ?_, ?_, rfl, by simp, rfl, rfl, rfl⟩
  all_goals intro v hv; simp [hv]

end RepT

theorem Trail.Inv.length_lt {T : Trail} (h : T.Inv) {p : Lit} (hp : T.value p = none)
    (hv : p.var < T.nVars) : T.stack.length < T.nVars := by
  have := (Trail.push_inv (r := none) h hp hv).length_le
  simp [Trail.push, Trail.setValue] at this
  omega

/-! ### Watch lists -/

/-- `ws` represents the watch lists `W` of the literals of `n` variables. -/
structure RepWt (n : Nat) (ws : List (List Watcher)) (W : Lit → List Watcher) : Prop where
  size : 2 * n ≤ ws.length
  get : ∀ p : Lit, p.var < n → ws[p.index]? = some (W p)

theorem Lit.index_lt {p : Lit} {n : Nat} (h : p.var < n) : p.index < 2 * n := by
  unfold Lit.index; split <;> omega

theorem Lit.index_inj {p q : Lit} (h : p.index = q.index) : p = q := by
  obtain ⟨v, s⟩ := p
  obtain ⟨w, t⟩ := q
  simp only [Lit.index] at h
  cases s <;> cases t <;> simp at h ⊢ <;> omega

theorem RepWt.upd {n : Nat} {ws : List (List Watcher)} {W : Lit → List Watcher} (h : RepWt n ws W)
    (p : Lit) (l : List Watcher) : RepWt n (ws.set p.index l) (upd W p l) where
  size := by simpa using h.size
  get q hq := by
    simp only [Candy.upd]
    by_cases e : q = p
    · subst e
      have := h.size
      have := Lit.index_lt hq
      rw [List.getElem?_set_self (by omega)]; simp
    · rw [List.getElem?_set_ne (fun x => e (Lit.index_inj x).symm), if_neg e, h.get q hq]

theorem RepWt.setList {n : Nat} {ws : List (List Watcher)} {W : Lit → List Watcher} (h : RepWt n ws W)
    {p : Lit} (hp : p.var < n) (l : List Watcher) :
    ∃ ws', aSetList ws p.index l = some ws' ∧ RepWt n ws' (Candy.upd W p l) := by
  have := h.size
  have := Lit.index_lt hp
  exact ⟨_, if_pos (by omega), h.upd p l⟩

theorem RepWt.push {n : Nat} {ws : List (List Watcher)} {W : Lit → List Watcher} (h : RepWt n ws W)
    {p : Lit} (hp : p.var < n) (w : Watcher) :
    ∃ ws', aPush ws p.index w = some ws' ∧ RepWt n ws' (Candy.upd W p (W p ++ [w])) := by
  unfold aPush
  rw [h.get p hp]
  exact ⟨_, rfl, h.upd p _⟩

theorem RepWt.attach {n : Nat} {ws : List (List Watcher)} {W : Lit → List Watcher} (h : RepWt n ws W)
    {x y : Lit} (hx : x.var < n) (hy : y.var < n) (c : Nat) :
    ∃ ws', aAttach ws c x y = some ws' ∧ RepWt n ws' (DB.addBin W c x y) := by
  obtain ⟨w1, e1, r1⟩ := h.push (p := x.neg) (by simpa using hx) ⟨c, y⟩
  obtain ⟨w2, e2, r2⟩ := r1.push (p := y.neg) (by simpa using hy) ⟨c, x⟩
  refine ⟨w2, by rw [aAttach, e1]; exact e2, ?_⟩
  have : DB.addBin W c x y = Candy.upd (Candy.upd W x.neg (W x.neg ++ [⟨c, y⟩])) y.neg
      (Candy.upd W x.neg (W x.neg ++ [⟨c, y⟩]) y.neg ++ [⟨c, x⟩]) := by
    funext p
    simp only [DB.addBin, Candy.upd]
    by_cases e1 : p = y.neg
    · subst e1
      by_cases e2 : y.neg = x.neg
      · simp [e2]
      · simp [e2]
    · by_cases e2 : p = x.neg
      · simp [e2, show ¬ x.neg = y.neg from fun e => e1 (e2.trans e)]
      · simp [e1, e2]
  rw [this]; exact r2

theorem RepWt.exists_rep (n : Nat) (W : Lit → List Watcher) : ∃ ws, RepWt n ws W := by
  refine ⟨(List.range (2 * n)).map fun i => W ⟨i / 2, i % 2 == 1⟩, by simp, fun p hp => ?_⟩
  have := Lit.index_lt hp
  rw [List.getElem?_map, List.getElem?_range this]
  simp only [Option.map_some, Option.some.injEq]
  obtain ⟨v, s⟩ := p
  cases s
  · have e1 : 2 * v / 2 = v := by omega
    simp [Lit.index, e1]
  · have e1 : (2 * v + 1) / 2 = v := by omega
    have e2 : (2 * v + 1) % 2 = 1 := by omega
    simp [Lit.index, e1, e2]

/-! ### Clause store -/

/-- `st` represents the clauses with identifiers below `next`. -/
structure RepS (next : Nat) (st : List Cls) (S : Nat → Cls) : Prop where
  size : st.length = next
  get : ∀ c < next, st[c]? = some (S c)

theorem RepS.set {next : Nat} {st : List Cls} {S : Nat → Cls} (h : RepS next st S) (c : Nat) (x : Cls) :
    RepS next (st.set c x) (upd S c x) where
  size := by simpa using h.size
  get d hd := by
    simp only [upd]
    by_cases e : d = c
    · subst e; simp [h.size, hd]
    · rw [List.getElem?_set_ne (fun x => e x.symm), if_neg e, h.get d hd]

theorem RepS.push {next : Nat} {st : List Cls} {S : Nat → Cls} (h : RepS next st S) (x : Cls) :
    RepS (next + 1) (st ++ [x]) (upd S next x) where
  size := by simp [h.size]
  get d hd := by
    simp only [upd]
    by_cases e : d = next
    · subst e; rw [if_pos rfl, ← h.size, List.getElem?_concat_length]
    · have : d < next := by omega
      rw [if_neg e, List.getElem?_append_left (by rw [h.size]; exact this), h.get d this]

theorem RepS.exists_rep (next : Nat) (S : Nat → Cls) : ∃ st, RepS next st S :=
  ⟨(List.range next).map S, by simp, fun c hc => by simp [hc]⟩

/-! ### Stamps -/

/-- `st` represents the set of stamped indices `f`, all below `n`. -/
structure RepSt (n : Nat) (st : Stamp) (f : Nat → Bool) : Prop where
  size : n ≤ st.stamped.length
  inv : st.Inv stampMax (fun v => f v = true)

namespace RepSt

variable {n : Nat} {st : Stamp} {f : Nat → Bool}

theorem isStamped (h : RepSt n st f) {v : Nat} (hv : v < n) : st.isStamped v = some (f v) := by
  have := h.size
  have hl : v < st.stamped.length := by omega
  simp only [Stamp.isStamped, List.getElem?_eq_getElem hl, Option.map_some, Option.some.injEq]
  have := h.inv.iff _ _ (List.getElem?_eq_getElem hl)
  rw [Bool.eq_iff_iff]
  simpa using this

theorem set (h : RepSt n st f) {v : Nat} (hv : v < n) :
    ∃ st', st.set v = some st' ∧ RepSt n st' (upd f v true) := by
  have := h.size
  have hl : v < st.stamped.length := by omega
  refine ⟨_, if_pos hl, by simpa using h.size, (h.inv.write hl (Nat.le_refl _)).congr fun i => ?_⟩
  simp only [upd]
  by_cases e : i = v
  · simp [e]
  · simp [e]

theorem unset (h : RepSt n st f) {v : Nat} (hv : v < n) :
    ∃ st', st.unset v = some st' ∧ RepSt n st' (upd f v false) := by
  have := h.size
  have hl : v < st.stamped.length := by omega
  refine ⟨_, if_pos hl, by simpa using h.size, (h.inv.write hl (Nat.zero_le _)).congr fun i => ?_⟩
  have := h.inv.pos
  simp only [upd]
  by_cases e : i = v
  · have : ¬ 0 = st.stamp := by omega
    simp [e, this]
  · simp [e]

theorem clear (h : RepSt n st f) : RepSt n (st.clear stampMax) (fun _ => false) where
  size := by
    have := h.size
    unfold Stamp.clear; split <;> simpa
  inv := (h.inv.clear (by decide)).congr (by simp)

theorem exists_rep (n : Nat) : ∃ st, RepSt n st (fun _ => false) := by
  refine ⟨⟨List.replicate n 0, 1⟩, by simp, by simp, by simp [stampMax], ?_, ?_, by simp⟩
  · intro i x hx
    have := List.mem_of_getElem? hx
    simp at this; simp; omega
  · intro i x hx
    have := List.mem_of_getElem? hx
    simp at this; simp; omega

end RepSt

end Candy
