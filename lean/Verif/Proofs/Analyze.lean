import Verif.Proofs.Propagate
import Verif.Model.Analyze

/-! Correctness of conflict analysis. -/

namespace Candy

variable {F : CNF} {nV next : Nat} {bin : Lit → List Watcher} {store : Nat → Cls} {T : Trail}

/-- Literals assigned on level 0 are consequences of the formula. -/
theorem Core.level0 (h : Core F nV next bin store T) :
    ∀ {l : Lit}, l ∈ T.stack → T.level l.var = 0 → Entails F [l] := by
  have key : ∀ n pre l post, pre.length = n → T.stack = pre ++ l :: post → T.level l.var = 0 →
      Entails F [l] := by
    intro n
    induction n using Nat.strongRecOn with
    | _ n ih =>
      intro pre l post hn hs hl
      cases hr : T.reason l.var with
      | none =>
        rcases h.rnone pre l post hs hr with h1 | h1
        · exact h1.2
        · omega
      | some c =>
        obtain ⟨h1, h2, h3⟩ := h.rsome pre l post c hs hr
        rw [Entails.unit]
        intro a ha
        obtain ⟨m, hm, hh⟩ := h.ent c h1 a ha
        by_cases hml : m = l
        · exact hml ▸ hh
        · have hpre := h3 m hm hml
          have hlev : T.level m.var = 0 := by
            have := h.tinv.level_mono hs hpre
            simp at this; omega
          obtain ⟨p1, p2, hp⟩ := List.append_of_mem hpre
          have := ih p1.length (by rw [← hn, hp]; simp) p1 m.neg (p2 ++ l :: post) rfl
            (by rw [hs, hp]; simp) (by simpa using hlev)
          rw [Entails.unit] at this
          exact (Lit.holds_neg.1 (this a ha) hh).elim
  intro l hl hlev
  obtain ⟨pre, post, hs⟩ := List.append_of_mem hl
  exact key _ pre l post rfl hs hlev

/-- Number of stamped literals of the current level on the stack. -/
def curCount (T : Trail) (stamp : Nat → Bool) : Nat :=
  T.stack.countP (fun q => stamp q.var && decide (T.level q.var ≥ T.decisionLevel))

theorem countP_upd_true {l : List Lit} {stamp : Nat → Bool} {q : Lit} {g : Lit → Bool}
    (hnd : (l.map Lit.var).Nodup) (hq : q ∈ l) (hs : stamp q.var = false) :
    l.countP (fun x => upd stamp q.var true x.var && g x) =
      l.countP (fun x => stamp x.var && g x) + (if g q then 1 else 0) := by
  induction l with
  | nil => simp at hq
  | cons a l ih =>
    simp only [List.map_cons, List.nodup_cons] at hnd
    rw [List.countP_cons, List.countP_cons]
    rcases List.mem_cons.1 hq with rfl | hq'
    · have : l.countP (fun x => upd stamp q.var true x.var && g x) =
          l.countP (fun x => stamp x.var && g x) := by
        apply List.countP_congr
        intro x hx
        have : x.var ≠ q.var := by
          intro h; exact hnd.1 (h ▸ List.mem_map_of_mem hx)
        rw [upd_ne _ _ this]
      rw [this]
      simp [hs]
    · have hne : a.var ≠ q.var := by
        intro h; exact hnd.1 (h ▸ List.mem_map_of_mem hq')
      rw [upd_ne _ _ hne, ih hnd.2 hq']
      omega

theorem countP_upd_false {l : List Lit} {stamp : Nat → Bool} {q : Lit} {g : Lit → Bool}
    (hnd : (l.map Lit.var).Nodup) (hq : q ∈ l) (hs : stamp q.var = true) :
    l.countP (fun x => upd stamp q.var false x.var && g x) + (if g q then 1 else 0) =
      l.countP (fun x => stamp x.var && g x) := by
  have := countP_upd_true (stamp := upd stamp q.var false) (g := g) hnd hq (by simp)
  rw [upd_upd] at this
  have h2 : upd stamp q.var true = stamp := by
    funext v; simp only [upd]; split
    · subst_vars; exact hs.symm
    · rfl
  rw [h2] at this
  exact this.symm

/-- Invariant of the local state of `analyze`. -/
structure AInv (T : Trail) (st : AS) : Prop where
  assigned : ∀ v, st.stamp v = true → ∃ q ∈ T.stack, q.var = v
  lower : ∀ v, st.stamp v = true → T.level v < T.decisionLevel → 0 < T.level v →
    ∃ l ∈ st.learnt, l.var = v
  learnt : ∀ l ∈ st.learnt, l.neg ∈ T.stack ∧ 0 < T.level l.var ∧
    T.level l.var < T.decisionLevel ∧ st.stamp l.var = true
  count : st.pathC = (curCount T st.stamp : Int)
  nodup : (st.learnt.map Lit.var).Nodup

theorem curCount_upd_true (ht : T.Inv) {stamp : Nat → Bool} {q : Lit} (hq : q ∈ T.stack)
    (hs : stamp q.var = false) :
    curCount T (upd stamp q.var true) =
      curCount T stamp + (if T.level q.var ≥ T.decisionLevel then 1 else 0) := by
  unfold curCount
  rw [countP_upd_true ht.varNodup hq hs]
  simp

theorem curCount_upd_false (ht : T.Inv) {stamp : Nat → Bool} {q : Lit} (hq : q ∈ T.stack)
    (hs : stamp q.var = true) :
    curCount T (upd stamp q.var false) + (if T.level q.var ≥ T.decisionLevel then 1 else 0) =
      curCount T stamp := by
  unfold curCount
  rw [← countP_upd_false ht.varNodup hq hs]
  simp

/-- Scanning a clause whose literals (except the asserted one) are false. -/
theorem scanClause_spec (ht : T.Inv) (a : Option Lit) :
    ∀ (ls : List Lit) (st : AS), (∀ l ∈ ls, a ≠ some l → l.neg ∈ T.stack) → AInv T st →
      AInv T (scanClause T a ls st) ∧
      (∀ v, (scanClause T a ls st).stamp v = true ↔
        st.stamp v = true ∨ ∃ l ∈ ls, a ≠ some l ∧ l.var = v) ∧
      (∀ l ∈ st.learnt, l ∈ (scanClause T a ls st).learnt) ∧
      (scanClause T a ls st).involved = st.involved
  | [], st, _, h => by simp [scanClause, h]
  | l :: ls, st, hl, h => by
    have hcons : scanClause T a (l :: ls) st = scanClause T a ls (scanClause T a [l] st) := by
      simp [scanClause]
    have hone : AInv T (scanClause T a [l] st) ∧
        (∀ v, (scanClause T a [l] st).stamp v = true ↔
          st.stamp v = true ∨ (a ≠ some l ∧ l.var = v)) ∧
        (∀ m ∈ st.learnt, m ∈ (scanClause T a [l] st).learnt) ∧
        (scanClause T a [l] st).involved = st.involved := by
      simp only [scanClause, List.foldl_cons, List.foldl_nil]
      by_cases hc : a ≠ some l ∧ st.stamp l.var = false
      · rw [if_pos hc]
        obtain ⟨hal, hns⟩ := hc
        have hneg := hl l (by simp) hal
        have hcount : curCount T (upd st.stamp l.var true) = curCount T st.stamp +
            (if T.level l.var ≥ T.decisionLevel then 1 else 0) :=
          curCount_upd_true ht (stamp := st.stamp) (q := l.neg) hneg hns
        by_cases h1 : T.level l.var ≥ T.decisionLevel
        · rw [if_pos h1]
          rw [if_pos h1] at hcount
          refine ⟨⟨?_, ?_, ?_, ?_, h.nodup⟩, ?_, fun m hm => hm, rfl⟩
          · intro v hv
            simp only [upd_apply] at hv
            by_cases hvl : v = l.var
            · exact ⟨l.neg, hneg, by simp [hvl]⟩
            · exact h.assigned v (by simpa [hvl] using hv)
          · intro v hv hlt hpos
            by_cases hvl : v = l.var
            · subst hvl; omega
            · exact h.lower v (by simpa [upd_apply, hvl] using hv) hlt hpos
          · intro m hm
            obtain ⟨a1, a2, a3, a4⟩ := h.learnt m hm
            refine ⟨a1, a2, a3, ?_⟩
            simp only [upd_apply]; split <;> simp [a4]
          · simp only [h.count, hcount]; push_cast; rfl
          · intro v
            simp only [upd_apply]
            by_cases hvl : v = l.var
            · simp [hvl, hal]
            · simp [hvl, Ne.symm hvl]
        · rw [if_neg h1]
          rw [if_neg h1] at hcount
          by_cases h2 : T.level l.var > 0
          · rw [if_pos h2]
            refine ⟨⟨?_, ?_, ?_, ?_, ?_⟩, ?_, fun m hm => by simp [hm], rfl⟩
            · intro v hv
              simp only [upd_apply] at hv
              by_cases hvl : v = l.var
              · exact ⟨l.neg, hneg, by simp [hvl]⟩
              · exact h.assigned v (by simpa [hvl] using hv)
            · intro v hv hlt hpos
              by_cases hvl : v = l.var
              · exact ⟨l, by simp, hvl.symm⟩
              · obtain ⟨m, hm, hmv⟩ := h.lower v (by simpa [upd_apply, hvl] using hv) hlt hpos
                exact ⟨m, by simp [hm], hmv⟩
            · intro m hm
              simp only [List.mem_append, List.mem_singleton] at hm
              rcases hm with hm | rfl
              · obtain ⟨a1, a2, a3, a4⟩ := h.learnt m hm
                refine ⟨a1, a2, a3, ?_⟩
                simp only [upd_apply]; split <;> simp [a4]
              · exact ⟨hneg, h2, by omega, by simp⟩
            · simp only [h.count, hcount]; push_cast; omega
            · simp only [List.map_append, List.map_cons, List.map_nil]
              rw [List.nodup_append]
              refine ⟨h.nodup, by simp, ?_⟩
              intro x hx y hy hxy
              simp at hy; subst hy; subst hxy
              obtain ⟨m, hm, hmv⟩ := List.mem_map.1 hx
              have := (h.learnt m hm).2.2.2
              rw [hmv, hns] at this; simp at this
            · intro v
              simp only [upd_apply]
              by_cases hvl : v = l.var
              · simp [hvl, hal]
              · simp [hvl, Ne.symm hvl]
          · rw [if_neg h2]
            refine ⟨⟨?_, ?_, ?_, ?_, h.nodup⟩, ?_, fun m hm => hm, rfl⟩
            · intro v hv
              simp only [upd_apply] at hv
              by_cases hvl : v = l.var
              · exact ⟨l.neg, hneg, by simp [hvl]⟩
              · exact h.assigned v (by simpa [hvl] using hv)
            · intro v hv hlt hpos
              by_cases hvl : v = l.var
              · subst hvl; omega
              · exact h.lower v (by simpa [upd_apply, hvl] using hv) hlt hpos
            · intro m hm
              obtain ⟨a1, a2, a3, a4⟩ := h.learnt m hm
              refine ⟨a1, a2, a3, ?_⟩
              simp only [upd_apply]; split <;> simp [a4]
            · simp only [h.count, hcount]; push_cast; omega
            · intro v
              simp only [upd_apply]
              by_cases hvl : v = l.var
              · simp [hvl, hal]
              · simp [hvl, Ne.symm hvl]
      · rw [if_neg hc]
        refine ⟨h, ?_, fun m hm => hm, rfl⟩
        intro v
        constructor
        · exact Or.inl
        · rintro (h1 | ⟨h1, rfl⟩)
          · exact h1
          · cases hst : st.stamp l.var with
            | true => rfl
            | false => exact (hc ⟨h1, hst⟩).elim
    obtain ⟨o1, o2, o3, o4⟩ := hone
    obtain ⟨r1, r2, r3, r4⟩ := scanClause_spec ht a ls _ (fun m hm => hl m (by simp [hm])) o1
    rw [hcons]
    refine ⟨r1, ?_, fun m hm => r3 m (o3 m hm), r4.trans o4⟩
    intro v
    rw [r2, o2]
    simp only [List.mem_cons, exists_eq_or_imp, or_assoc]

theorem dropWhile_split {α} (f : α → Bool) (l : List α) :
    ∃ pre, l = pre ++ l.dropWhile f ∧ ∀ x ∈ pre, f x = true := by
  refine ⟨l.takeWhile f, (List.takeWhile_append_dropWhile).symm, ?_⟩
  intro x hx
  exact List.all_eq_true.1 (List.all_takeWhile (p := f) (l := l)) x hx

/-- The first-UIP loop. -/
theorem analyzeLoop_spec (h : Core F nV next bin store T) (hdl : 0 < T.decisionLevel) :
    ∀ (fuel confl : Nat) (a : Option Lit) (pre mid rest : List Lit) (st : AS),
      T.stack = pre ++ mid ++ rest → pre.length < fuel →
      AInv T st → confl < next →
      (∀ l ∈ (store confl).lits, a ≠ some l → l.neg ∈ pre) →
      (∀ q ∈ T.stack, st.stamp q.var = true → T.level q.var ≥ T.decisionLevel → q ∈ pre) →
      (∀ q ∈ mid, T.level q.var ≥ T.decisionLevel) →
      (0 < st.pathC ∨ ∃ l ∈ (store confl).lits, a ≠ some l ∧ T.level l.var ≥ T.decisionLevel) →
      (∀ x, Sat x F → (∃ l ∈ st.learnt, l.holds x) ∨
        (∃ q ∈ T.stack, st.stamp q.var = true ∧ T.level q.var ≥ T.decisionLevel ∧ ¬ q.holds x) ∨
        (∃ l ∈ (store confl).lits, a ≠ some l ∧ l.holds x)) →
      ∃ p st', analyzeLoop store T fuel confl a (pre ++ mid).reverse st = some (p, st') ∧
        p ∈ T.stack ∧ T.level p.var = T.decisionLevel ∧ AInv T st' ∧
        Entails F (p.neg :: st'.learnt) ∧
        (∀ v, st'.stamp v = true → T.level v < T.decisionLevel)
  | 0, _, _, pre, _, _, _, _, hf, _, _, _, _, _, _, _ => by omega
  | fuel + 1, confl, a, pre, mid, rest, st, hstk, hf, hst, hcn, hcl, hpre, hmid, hcur, hent => by
    rw [analyzeLoop]
    simp only
    have hin : ∀ l ∈ pre, l ∈ T.stack := by intro l hl; rw [hstk]; simp [hl]
    have hst0 : AInv T { st with involved := st.involved ++ [confl] } :=
      ⟨hst.assigned, hst.lower, hst.learnt, hst.count, hst.nodup⟩
    obtain ⟨s1, s2, s3, _⟩ := scanClause_spec h.tinv a (store confl).lits
      { st with involved := st.involved ++ [confl] } (fun l hl ha => hin _ (hcl l hl ha)) hst0
    generalize scanClause T a (store confl).lits { st with involved := st.involved ++ [confl] } = st1
      at s1 s2 s3
    simp only at s2 s3
    -- all stamped literals of the current level are in `pre`
    have hpre1 : ∀ q ∈ T.stack, st1.stamp q.var = true → T.level q.var ≥ T.decisionLevel →
        q ∈ pre := by
      intro q hq hs hl
      rcases (s2 q.var).1 hs with h1 | ⟨l, hl1, hl2, hl3⟩
      · exact hpre q hq h1 hl
      · have h2 := hcl l hl1 hl2
        have : l.neg = q := h.tinv.varInj (hin _ h2) hq (by simpa using hl3)
        exact this ▸ h2
    -- entailment after the scan
    have hent1 : ∀ x, Sat x F → (∃ l ∈ st1.learnt, l.holds x) ∨
        (∃ q ∈ T.stack, st1.stamp q.var = true ∧ T.level q.var ≥ T.decisionLevel ∧
          ¬ q.holds x) := by
      intro x hx
      rcases hent x hx with ⟨l, hl, hh⟩ | ⟨q, hq, h1, h2, h3⟩ | ⟨l, hl, hal, hh⟩
      · exact Or.inl ⟨l, s3 l hl, hh⟩
      · exact Or.inr ⟨q, hq, (s2 _).2 (Or.inl h1), h2, h3⟩
      · have hstamp : st1.stamp l.var = true := (s2 _).2 (Or.inr ⟨l, hl, hal, rfl⟩)
        have hneg := hin _ (hcl l hl hal)
        by_cases h0 : T.level l.var = 0
        · have := h.level0 hneg (by simpa using h0)
          rw [Entails.unit] at this
          exact (Lit.holds_neg.1 (this x hx) hh).elim
        · by_cases h1 : T.level l.var < T.decisionLevel
          · obtain ⟨m, hm, hmv⟩ := s1.lower l.var hstamp h1 (by omega)
            have : m.neg = l.neg := h.tinv.varInj (s1.learnt m hm).1 hneg (by simpa using hmv)
            have := Lit.neg_inj.1 this
            subst this
            exact Or.inl ⟨m, hm, hh⟩
          · refine Or.inr ⟨l.neg, hneg, by simpa using hstamp, by simpa using h1, ?_⟩
            rw [Lit.holds_neg]; simpa using hh
    -- there is a stamped literal of the current level
    obtain ⟨q0, hq0, hq0s, hq0l⟩ : ∃ q ∈ T.stack, st1.stamp q.var = true ∧
        T.level q.var ≥ T.decisionLevel := by
      rcases hcur with h1 | ⟨l, hl, hal, hlev⟩
      · rw [hst.count] at h1
        have h1' : 0 < curCount T st.stamp := by omega
        unfold curCount at h1'
        rw [List.countP_pos_iff] at h1'
        obtain ⟨q, hq, hq2⟩ := h1'
        simp only [Bool.and_eq_true, decide_eq_true_eq] at hq2
        exact ⟨q, hq, (s2 _).2 (Or.inl hq2.1), hq2.2⟩
      · exact ⟨l.neg, hin _ (hcl l hl hal), (s2 _).2 (Or.inr ⟨l, hl, hal, by simp⟩), by simpa using hlev⟩
    have hq0pre := hpre1 q0 hq0 hq0s hq0l
    -- skip unstamped literals
    have hmidun : ∀ x ∈ mid, st1.stamp x.var = false := by
      intro x hx
      cases hsx : st1.stamp x.var with
      | false => rfl
      | true =>
        have hxs : x ∈ T.stack := by rw [hstk]; simp [hx]
        have := hpre1 x hxs hsx (hmid x hx)
        have hnd := h.tinv.nodup
        rw [hstk, List.append_assoc, List.nodup_append] at hnd
        exact (hnd.2.2 x this x (by simp [hx]) rfl).elim
    have hdw : (pre ++ mid).reverse.dropWhile (fun l => !st1.stamp l.var) =
        pre.reverse.dropWhile (fun l => !st1.stamp l.var) := by
      rw [List.reverse_append]
      exact List.dropWhile_append_of_pos (by
        intro x hx
        simp [hmidun x (List.mem_reverse.1 hx)])
    rw [hdw]
    obtain ⟨skip, hskip, hskipun⟩ := dropWhile_split (fun l => !st1.stamp l.var) pre.reverse
    cases hd : pre.reverse.dropWhile (fun l => !st1.stamp l.var) with
    | nil =>
      rw [hd, List.append_nil] at hskip
      have := hskipun q0 (by rw [← hskip]; simp [hq0pre])
      simp [hq0s] at this
    | cons p R' =>
      simp only
      rw [hd] at hskip
      have hps : st1.stamp p.var = true := by
        have := List.head_dropWhile_not (p := fun l : Lit => !st1.stamp l.var) (l := pre.reverse)
          (by rw [hd]; simp)
        simpa [hd] using this
      have hpreeq : pre = R'.reverse ++ p :: skip.reverse := by
        have := congrArg List.reverse hskip
        simpa using this
      have hstk2 : T.stack = R'.reverse ++ p :: (skip.reverse ++ mid ++ rest) := by
        rw [hstk, hpreeq]; simp
      have hpm : p ∈ T.stack := by rw [hstk2]; simp
      have hplev : T.level p.var = T.decisionLevel := by
        have h1 := h.tinv.level_le hpm
        have h2 : T.level q0.var ≤ T.level p.var := by
          rw [hpreeq, List.mem_append, List.mem_cons] at hq0pre
          rcases hq0pre with h3 | rfl | h3
          · exact h.tinv.level_mono hstk2 h3
          · exact Nat.le_refl _
          · have := hskipun q0 (List.mem_reverse.1 h3)
            simp [hq0s] at this
        omega
      have hcount := curCount_upd_false h.tinv hpm hps
      rw [if_pos (by omega)] at hcount
      -- state after removing the stamp of `p`
      have hst2 : AInv T { st1 with stamp := upd st1.stamp p.var false, pathC := st1.pathC - 1 } := by
        refine ⟨?_, ?_, ?_, ?_, s1.nodup⟩
        · intro v hv
          simp only [upd_apply] at hv
          by_cases hvp : v = p.var
          · simp [hvp] at hv
          · exact s1.assigned v (by simpa [hvp] using hv)
        · intro v hv hlt hpos
          by_cases hvp : v = p.var
          · simp [hvp] at hv
          · exact s1.lower v (by simpa [upd_apply, hvp] using hv) hlt hpos
        · intro m hm
          obtain ⟨a1, a2, a3, a4⟩ := s1.learnt m hm
          refine ⟨a1, a2, a3, ?_⟩
          have : m.var ≠ p.var := by intro he; rw [he] at a3; omega
          simp only [upd_ne _ _ this, a4]
        · simp only [s1.count]; omega
      have hent2 : ∀ x, Sat x F → (∃ l ∈ st1.learnt, l.holds x) ∨
          (∃ q ∈ T.stack, upd st1.stamp p.var false q.var = true ∧
            T.level q.var ≥ T.decisionLevel ∧ ¬ q.holds x) ∨ ¬ p.holds x := by
        intro x hx
        rcases hent1 x hx with h1 | ⟨q, hq, h1, h2, h3⟩
        · exact Or.inl h1
        · by_cases hqp : q.var = p.var
          · have := h.tinv.varInj hq hpm hqp
            subst this
            exact Or.inr (Or.inr h3)
          · exact Or.inr (Or.inl ⟨q, hq, by rw [upd_ne _ _ hqp]; exact h1, h2, h3⟩)
      by_cases hpc : st1.pathC - 1 > 0
      · rw [if_pos hpc]
        -- another stamped literal of the current level exists, so `p` has a reason
        obtain ⟨q1, hq1, hq1s, hq1l⟩ : ∃ q ∈ T.stack, upd st1.stamp p.var false q.var = true ∧
            T.level q.var ≥ T.decisionLevel := by
          have h1 := hst2.count
          simp only at h1
          have h1' : 0 < curCount T (upd st1.stamp p.var false) := by omega
          unfold curCount at h1'
          rw [List.countP_pos_iff] at h1'
          obtain ⟨q, hq, hq2⟩ := h1'
          simp only [Bool.and_eq_true, decide_eq_true_eq] at hq2
          exact ⟨q, hq, hq2.1, hq2.2⟩
        have hpreNew : ∀ q ∈ T.stack, upd st1.stamp p.var false q.var = true →
            T.level q.var ≥ T.decisionLevel → q ∈ R'.reverse := by
          intro q hq hs hl
          by_cases hqp : q.var = p.var
          · simp [hqp] at hs
          · rw [upd_ne _ _ hqp] at hs
            have := hpre1 q hq hs hl
            rw [hpreeq, List.mem_append, List.mem_cons] at this
            rcases this with h3 | rfl | h3
            · exact h3
            · exact (hqp rfl).elim
            · have := hskipun q (List.mem_reverse.1 h3)
              simp [hs] at this
        cases hr : T.reason p.var with
        | none =>
          exfalso
          rcases h.rnone _ p _ hstk2 hr with h1 | ⟨h1, h2⟩
          · omega
          · rw [hplev] at h2
            have hq1R := hpreNew q1 hq1 hq1s hq1l
            obtain ⟨a1, a2, ha⟩ := List.append_of_mem hq1R
            have hidx := (h.tinv.level_gt_iff (lvl := T.decisionLevel - 1) (pre := a1)
              (post := a2 ++ p :: (skip.reverse ++ mid ++ rest)) (p := q1)
              (by rw [hstk2, ha]; simp) h2).1 (by omega)
            rw [ha] at hidx
            simp at hidx
            omega
        | some c =>
          simp only
          obtain ⟨r1, r2, r3⟩ := h.rsome _ p _ c hstk2 hr
          have := analyzeLoop_spec h hdl fuel c (some p) R'.reverse [p] (skip.reverse ++ mid ++ rest)
            { st1 with stamp := upd st1.stamp p.var false, pathC := st1.pathC - 1 }
            (by rw [hstk2]; simp) (by rw [hpreeq] at hf; simp at hf ⊢; omega) hst2 r1
            (fun l hl hne => r3 l hl (fun he => hne (by rw [he])))
            hpreNew (by intro q hq; simp at hq; subst hq; omega) (Or.inl hpc) (by
              intro x hx
              rcases hent2 x hx with h1 | h1 | h1
              · exact Or.inl h1
              · exact Or.inr (Or.inl h1)
              · obtain ⟨l, hl, hh⟩ := h.ent c r1 x hx
                refine Or.inr (Or.inr ⟨l, hl, ?_, hh⟩)
                intro he
                simp at he; subst he
                exact h1 hh)
          simpa using this
      · rw [if_neg hpc]
        have hzero : curCount T (upd st1.stamp p.var false) = 0 := by
          have h1 := hst2.count
          simp only at h1
          omega
        have hnone : ∀ q ∈ T.stack, upd st1.stamp p.var false q.var = true →
            ¬ T.level q.var ≥ T.decisionLevel := by
          intro q hq hs hl
          unfold curCount at hzero
          rw [List.countP_eq_zero] at hzero
          have := hzero q hq
          simp [hs, hl] at this
        refine ⟨p, _, rfl, hpm, hplev, hst2, ?_, ?_⟩
        · intro x hx
          rcases hent2 x hx with ⟨l, hl, hh⟩ | ⟨q, hq, h1, h2, _⟩ | h1
          · exact ⟨l, by simp [hl], hh⟩
          · exact (hnone q hq h1 h2).elim
          · exact ⟨p.neg, by simp, Lit.holds_neg.2 h1⟩
        · intro v hv
          obtain ⟨q, hq, rfl⟩ := hst2.assigned v hv
          have := hnone q hq hv
          omega

/-! ### Recursive minimisation -/

/-- Every stamped variable above level 0 is kept, pending, or has a reason whose other variables
are stamped or on level 0. -/
def Good (store : Nat → Cls) (T : Trail) (stamp : Nat → Bool) (K : List Lit) (pend : List Nat) :
    Prop :=
  ∀ v, stamp v = true → 0 < T.level v → (∃ l ∈ K, l.var = v) ∨ v ∈ pend ∨
    ∃ c, T.reason v = some c ∧ ∀ q ∈ (store c).lits, T.level q.var = 0 ∨ stamp q.var = true

/-- Relation of the working stamps of `litRedundant` to the stamps at its start. -/
structure RInv (T : Trail) (orig : Nat → Bool) (r : RS) : Prop where
  stamp : ∀ v, r.stamp v = true ↔ orig v = true ∨ v ∈ r.clear
  fresh : ∀ v ∈ r.clear, orig v = false
  pend : ∀ v ∈ r.stack, r.stamp v = true ∧ T.reason v ≠ none
  onstack : ∀ v, r.stamp v = true → ∃ q ∈ T.stack, q.var = v

def unstamped (T : Trail) (stamp : Nat → Bool) : Nat :=
  T.stack.countP (fun q => !stamp q.var)

theorem unstamped_upd (ht : T.Inv) {stamp : Nat → Bool} {v : Nat} (hv : ∃ q ∈ T.stack, q.var = v)
    (hs : stamp v = false) : unstamped T (upd stamp v true) + 1 = unstamped T stamp := by
  obtain ⟨q, hq, rfl⟩ := hv
  have h1 := countP_upd_false (stamp := fun x => !stamp x) (g := fun _ => true) ht.varNodup hq
    (by simp [hs])
  simp only [Bool.and_true, if_true] at h1
  have : (fun x : Lit => upd (fun x => !stamp x) q.var false x.var) =
      (fun x => !upd stamp q.var true x.var) := by
    funext x; simp only [upd]; split <;> simp
  rw [this] at h1
  exact h1

theorem foldl_unstamp (cl : List Nat) (s : Nat → Bool) (v : Nat) :
    cl.foldl (fun s v => upd s v false) s v = (s v && !decide (v ∈ cl)) := by
  induction cl generalizing s with
  | nil => simp
  | cons c cl ih =>
    rw [List.foldl_cons, ih]
    by_cases h : v = c
    · subst h; simp
    · rw [upd_ne _ _ h]; simp [h]

theorem RInv.unstamp {orig : Nat → Bool} {r : RS} (h : RInv T orig r) :
    r.clear.foldl (fun s v => upd s v false) r.stamp = orig := by
  funext v
  rw [foldl_unstamp]
  by_cases hv : v ∈ r.clear
  · simp [hv, h.fresh v hv]
  · have := h.stamp v
    simp only [hv, or_false] at this
    cases h1 : r.stamp v <;> cases h2 : orig v <;> simp_all

theorem redScan_spec (ht : T.Inv) (absl : Nat) {orig : Nat → Bool} :
    ∀ (ls : List Lit) (r : RS), (∀ l ∈ ls, ∃ q ∈ T.stack, q.var = l.var) → RInv T orig r →
      ((redScan T absl ls r).2 = false → (redScan T absl ls r).1.stamp = orig) ∧
      ((redScan T absl ls r).2 = true →
        RInv T orig (redScan T absl ls r).1 ∧
        (∀ v, r.stamp v = true → (redScan T absl ls r).1.stamp v = true) ∧
        (∀ v ∈ r.stack, v ∈ (redScan T absl ls r).1.stack) ∧
        (∀ v, (redScan T absl ls r).1.stamp v = true → r.stamp v = true ∨
          v ∈ (redScan T absl ls r).1.stack) ∧
        (∀ l ∈ ls, T.level l.var = 0 ∨ (redScan T absl ls r).1.stamp l.var = true) ∧
        unstamped T (redScan T absl ls r).1.stamp + (redScan T absl ls r).1.stack.length =
          unstamped T r.stamp + r.stack.length)
  | [], r, _, h => by
    refine ⟨by simp [redScan], fun _ => ⟨h, fun v hv => hv, fun v hv => hv, fun v hv => Or.inl hv, by simp, rfl⟩⟩
  | l :: ls, r, hl, h => by
    rw [redScan]
    by_cases hc : r.stamp l.var = false ∧ T.level l.var > 0
    · rw [if_pos hc]
      by_cases hc2 : (T.reason l.var).isSome ∧ (abstractLevel T l.var &&& absl) ≠ 0
      · rw [if_pos hc2]
        have hr : RInv T orig ⟨upd r.stamp l.var true, l.var :: r.stack, l.var :: r.clear⟩ := by
          refine ⟨?_, ?_, ?_, ?_⟩
          · intro v
            by_cases hv : v = l.var
            · simp [hv]
            · simp only [upd_ne _ _ hv, h.stamp v, List.mem_cons, hv, false_or]
          · intro v hv
            simp only [List.mem_cons] at hv
            rcases hv with rfl | hv
            · cases ho : orig l.var with
              | false => rfl
              | true => have := (h.stamp l.var).2 (Or.inl ho); rw [hc.1] at this; simp at this
            · exact h.fresh v hv
          · intro v hv
            simp only [List.mem_cons] at hv
            rcases hv with rfl | hv
            · refine ⟨by simp, ?_⟩
              intro hn; rw [hn] at hc2; simp at hc2
            · obtain ⟨a, b⟩ := h.pend v hv
              refine ⟨?_, b⟩
              simp only [upd]; split <;> simp [a]
          · intro v hv
            by_cases hvl : v = l.var
            · subst hvl; exact hl l (by simp)
            · exact h.onstack v (by simpa [upd_ne _ _ hvl] using hv)
        obtain ⟨i1, i2⟩ := redScan_spec ht absl ls _ (fun m hm => hl m (by simp [hm])) hr
        refine ⟨i1, fun hok => ?_⟩
        obtain ⟨j1, j2, j3, j4, j5, j6⟩ := i2 hok
        refine ⟨j1, ?_, ?_, ?_, ?_, ?_⟩
        · intro v hv
          apply j2
          simp only [upd]; split <;> simp [hv]
        · intro v hv; exact j3 v (by simp [hv])
        · intro v hv
          rcases j4 v hv with h1 | h1
          · by_cases hvl : v = l.var
            · subst hvl; exact Or.inr (j3 _ (by simp))
            · exact Or.inl (by simpa [upd_ne _ _ hvl] using h1)
          · exact Or.inr h1
        · intro m hm
          rcases List.mem_cons.1 hm with rfl | hm
          · exact Or.inr (j2 _ (by simp))
          · exact j5 m hm
        · rw [j6]
          have := unstamped_upd ht (hl l (by simp)) hc.1
          simp only [List.length_cons]
          omega
      · rw [if_neg hc2]
        exact ⟨fun _ => h.unstamp, by simp⟩
    · rw [if_neg hc]
      obtain ⟨i1, i2⟩ := redScan_spec ht absl ls r (fun m hm => hl m (by simp [hm])) h
      refine ⟨i1, fun hok => ?_⟩
      obtain ⟨j1, j2, j3, j4, j5, j6⟩ := i2 hok
      refine ⟨j1, j2, j3, j4, ?_, j6⟩
      intro m hm
      rcases List.mem_cons.1 hm with rfl | hm
      · by_cases h0 : T.level m.var = 0
        · exact Or.inl h0
        · right
          apply j2
          cases hs : r.stamp m.var with
          | true => rfl
          | false => exact (hc ⟨hs, by omega⟩).elim
      · exact j5 m hm

theorem Core.reasonOnStack (h : Core F nV next bin store T) {v c : Nat}
    (hv : ∃ q ∈ T.stack, q.var = v) (hr : T.reason v = some c) :
    ∀ l ∈ (store c).lits, ∃ q ∈ T.stack, q.var = l.var := by
  obtain ⟨q, hq, rfl⟩ := hv
  obtain ⟨pre, post, hs⟩ := List.append_of_mem hq
  obtain ⟨_, h2, h3⟩ := h.rsome pre q post c hs hr
  intro l hl
  by_cases hlq : l = q
  · exact ⟨q, hq, by rw [hlq]⟩
  · exact ⟨l.neg, by rw [hs]; simp [h3 l hl hlq], by simp⟩

theorem litRedundantLoop_spec (h : Core F nV next bin store T) (absl : Nat) {orig : Nat → Bool}
    {K : List Lit} :
    ∀ (fuel : Nat) (r : RS), RInv T orig r → Good store T r.stamp K r.stack →
      unstamped T r.stamp + r.stack.length < fuel →
      ∃ stamp' b, litRedundantLoop store T absl fuel r = some (stamp', b) ∧
        (b = false → stamp' = orig) ∧
        (b = true → Good store T stamp' K [] ∧ (∀ v, r.stamp v = true → stamp' v = true) ∧
          ∀ v, stamp' v = true → ∃ q ∈ T.stack, q.var = v)
  | 0, r, _, _, hf => by omega
  | fuel + 1, r, hr, hg, hf => by
    rw [litRedundantLoop]
    cases hst : r.stack with
    | nil =>
      refine ⟨_, _, rfl, by simp, fun _ => ⟨?_, fun v hv => hv, hr.onstack⟩⟩
      rw [hst] at hg; exact hg
    | cons v rest =>
      simp only
      obtain ⟨hv1, hv2⟩ := hr.pend v (by rw [hst]; simp)
      cases hre : T.reason v with
      | none => exact (hv2 hre).elim
      | some c =>
        simp only
        have hr' : RInv T orig { r with stack := rest } :=
          ⟨hr.stamp, hr.fresh, fun u hu => hr.pend u (by rw [hst]; simp [hu]), hr.onstack⟩
        obtain ⟨i1, i2⟩ := redScan_spec h.tinv absl (store c).lits _
          (h.reasonOnStack (hr.onstack v hv1) hre) hr'
        generalize redScan T absl (store c).lits { r with stack := rest } = res at i1 i2
        obtain ⟨r2, b⟩ := res
        cases b with
        | false =>
          simp only
          exact ⟨_, _, rfl, fun _ => i1 rfl, by simp⟩
        | true =>
          simp only at i2 ⊢
          obtain ⟨j1, j2, j3, j4, j5, j6⟩ := i2 trivial
          have hg2 : Good store T r2.stamp K r2.stack := by
            intro u hu hul
            rcases j4 u hu with h1 | h1
            · rcases hg u h1 hul with h2 | h2 | ⟨d, h2, h3⟩
              · exact Or.inl h2
              · rw [hst, List.mem_cons] at h2
                rcases h2 with rfl | h2
                · exact Or.inr (Or.inr ⟨c, hre, j5⟩)
                · exact Or.inr (Or.inl (j3 u h2))
              · exact Or.inr (Or.inr ⟨d, h2, fun q hq => (h3 q hq).imp id (j2 _)⟩)
            · exact Or.inr (Or.inl h1)
          obtain ⟨s', b, e1, e2, e3⟩ := litRedundantLoop_spec h absl fuel r2 j1 hg2 (by
            rw [j6]; rw [hst] at hf; simp at hf; omega)
          refine ⟨s', b, e1, e2, fun hb => ?_⟩
          obtain ⟨k1, k2, k3⟩ := e3 hb
          exact ⟨k1, fun u hu => k2 u (j2 u hu), k3⟩

theorem unstamped_lt (stamp : Nat → Bool) : unstamped T stamp ≤ T.stack.length :=
  List.countP_le_length

/-- The main loop of minimisation: the result keeps a subset of the literals and every stamped
variable is explained by the kept ones. -/
theorem minimizeLoop_spec (h : Core F nV next bin store T) (absl : Nat) :
    ∀ (ls out : List Lit) (stamp : Nat → Bool),
      (∀ l ∈ ls, stamp l.var = true) → (∀ v, stamp v = true → ∃ q ∈ T.stack, q.var = v) →
      Good store T stamp (out ++ ls) [] →
      ∃ out' stamp', minimizeLoop store T absl ls out stamp = some out' ∧
        List.Sublist out' (out ++ ls) ∧ (∀ l ∈ out, l ∈ out') ∧
        Good store T stamp' out' [] ∧ (∀ v, stamp v = true → stamp' v = true)
  | [], out, stamp, _, _, hg => by
    refine ⟨out, stamp, rfl, by simp, fun l hl => hl, by simpa using hg, fun v hv => hv⟩
  | l :: ls, out, stamp, hl, hs, hg => by
    rw [minimizeLoop]
    have keep : ∀ (stamp0 : Nat → Bool), stamp0 = stamp →
        ∃ out' stamp', minimizeLoop store T absl ls (out ++ [l]) stamp0 = some out' ∧
        List.Sublist out' (out ++ l :: ls) ∧ (∀ l ∈ out, l ∈ out') ∧
        Good store T stamp' out' [] ∧ (∀ v, stamp v = true → stamp' v = true) := by
      intro stamp0 hs0
      rw [hs0]
      obtain ⟨o, s', e1, e2, e3, e4, e5⟩ := minimizeLoop_spec h absl ls (out ++ [l]) stamp
        (fun m hm => hl m (by simp [hm])) hs (by simpa using hg)
      exact ⟨o, s', e1, by simpa using e2, fun m hm => e3 m (by simp [hm]), e4, e5⟩
    cases hr : T.reason l.var with
    | none => exact keep stamp rfl
    | some c =>
      simp only
      have hlv := hl l (by simp)
      have hr0 : RInv T stamp ⟨stamp, [l.var], []⟩ :=
        ⟨by simp, by simp, by simp [hlv, hr], hs⟩
      have hg0 : Good store T stamp (out ++ ls) [l.var] := by
        intro v hv hp
        rcases hg v hv hp with ⟨m, hm, hmv⟩ | h1 | h1
        · simp only [List.mem_append, List.mem_cons] at hm
          rcases hm with hm | rfl | hm
          · exact Or.inl ⟨m, by simp [hm], hmv⟩
          · exact Or.inr (Or.inl (by simp [hmv]))
          · exact Or.inl ⟨m, by simp [hm], hmv⟩
        · simp at h1
        · exact Or.inr (Or.inr h1)
      obtain ⟨s', b, e1, e2, e3⟩ := litRedundantLoop_spec h absl (T.stack.length + 2) _ hr0 hg0 (by
        have := unstamped_lt (T := T) stamp
        simp; omega)
      rw [e1]
      cases b with
      | false => exact keep s' (e2 rfl)
      | true =>
        simp only
        obtain ⟨k1, k2, k3⟩ := e3 rfl
        obtain ⟨o, s2, f1, f2, f3, f4, f5⟩ := minimizeLoop_spec h absl ls out s'
          (fun m hm => k2 _ (hl m (by simp [hm]))) k3 k1
        exact ⟨o, s2, f1, f2.trans (by simp), f3, f4, fun v hv => f5 v (k2 v hv)⟩

/-- Falsifying the kept literals falsifies every stamped one. -/
theorem Good.explain (h : Core F nV next bin store T) {stamp : Nat → Bool} {K : List Lit}
    (hg : Good store T stamp K []) (hK : ∀ l ∈ K, l.neg ∈ T.stack) {x : Assign} (hx : Sat x F)
    (hKx : ∀ l ∈ K, ¬ l.holds x) :
    ∀ q ∈ T.stack, stamp q.var = true → q.holds x := by
  have key : ∀ n pre q post, pre.length = n → T.stack = pre ++ q :: post → stamp q.var = true →
      q.holds x := by
    intro n
    induction n using Nat.strongRecOn with
    | _ n ih =>
      intro pre q post hn hs hst
      have hqm : q ∈ T.stack := by rw [hs]; simp
      by_cases h0 : T.level q.var = 0
      · have := h.level0 hqm h0
        rw [Entails.unit] at this
        exact this x hx
      · rcases hg q.var hst (by omega) with ⟨l, hl, hlv⟩ | h1 | ⟨c, hc, hcl⟩
        · have : l.neg = q := h.tinv.varInj (hK l hl) hqm (by simpa using hlv)
          rw [← this]
          exact Lit.holds_neg.2 (hKx l hl)
        · simp at h1
        · obtain ⟨r1, r2, r3⟩ := h.rsome pre q post c hs hc
          obtain ⟨m, hm, hmh⟩ := h.ent c r1 x hx
          by_cases hmq : m = q
          · exact hmq ▸ hmh
          · exfalso
            have hpre := r3 m hm hmq
            have hmn : m.neg ∈ T.stack := by rw [hs]; simp [hpre]
            have : m.neg.holds x := by
              rcases hcl m hm with h2 | h2
              · have := h.level0 hmn (by simpa using h2)
                rw [Entails.unit] at this
                exact this x hx
              · obtain ⟨p1, p2, hp⟩ := List.append_of_mem hpre
                exact ih p1.length (by rw [← hn, hp]; simp) p1 m.neg (p2 ++ q :: post) rfl
                  (by rw [hs, hp]; simp) (by simpa using h2)
            exact Lit.holds_neg.1 this hmh
  intro q hq hst
  obtain ⟨pre, post, hs⟩ := List.append_of_mem hq
  exact key _ pre q post rfl hs hst

theorem minimization_spec (h : Core F nV next bin store T) {st : AS} (ha : AInv T st)
    (hlow : ∀ v, st.stamp v = true → T.level v < T.decisionLevel) {first : Lit}
    (he : Entails F (first :: st.learnt)) :
    ∃ out, minimization store T st.learnt st.stamp = some out ∧ List.Sublist out st.learnt ∧
      Entails F (first :: out) := by
  obtain ⟨out, s', e1, e2, _, e4, e5⟩ := minimizeLoop_spec h
    (st.learnt.foldl (fun a l => a ||| abstractLevel T l.var) 0) st.learnt [] st.stamp
    (fun l hl => (ha.learnt l hl).2.2.2) ha.assigned (by
      intro v hv hp
      obtain ⟨l, hl, hlv⟩ := ha.lower v hv (hlow v hv) hp
      exact Or.inl ⟨l, by simpa using hl, hlv⟩)
  have e2' : List.Sublist out st.learnt := by simpa using e2
  refine ⟨out, e1, e2', ?_⟩
  intro x hx
  obtain ⟨m, hm, hmh⟩ := he x hx
  rcases List.mem_cons.1 hm with rfl | hm
  · exact ⟨m, by simp, hmh⟩
  · by_cases hk : ∃ l ∈ out, l.holds x
    · obtain ⟨l, hl, hh⟩ := hk
      exact ⟨l, by simp [hl], hh⟩
    · exfalso
      have := e4.explain h (fun l hl => (ha.learnt l (e2'.subset hl)).1) hx
        (fun l hl hh => hk ⟨l, hl, hh⟩) m.neg (ha.learnt m hm).1
        (by simpa using e5 _ (ha.learnt m hm).2.2.2)
      exact Lit.holds_neg.1 this hmh

/-! ### Minimisation with binary clauses -/

theorem minBin_stamp (T : Trail) (ws : List Watcher) (s : Nat → Bool) (v : Nat) :
    (ws.foldl (fun s w => if T.satisfies w.blocker then upd s w.blocker.var true else s) s) v = true →
      s v = true ∨ ∃ w ∈ ws, T.satisfies w.blocker = true ∧ w.blocker.var = v := by
  induction ws generalizing s with
  | nil => simp
  | cons w ws ih =>
    rw [List.foldl_cons]
    intro hv
    rcases ih _ hv with h1 | ⟨w', hw', h2⟩
    · by_cases hs : T.satisfies w.blocker = true
      · rw [if_pos hs] at h1
        by_cases hvw : v = w.blocker.var
        · exact Or.inr ⟨w, by simp, hs, hvw.symm⟩
        · exact Or.inl (by simpa [upd_ne _ _ hvw] using h1)
      · rw [if_neg hs] at h1; exact Or.inl h1
    · exact Or.inr ⟨w', by simp [hw'], h2⟩

theorem Trail.Inv.satisfies_iff (ht : T.Inv) {l : Lit} : T.satisfies l = true ↔ l ∈ T.stack := by
  simp [Trail.satisfies, ht.val l]

theorem minimizeBinary_spec (h : Core F nV next bin store T) {first : Lit} {ls : List Lit}
    (hls : ∀ l ∈ ls, l.neg ∈ T.stack) (he : Entails F (first :: ls)) :
    List.Sublist (minimizeBinary bin T first ls) ls ∧
      Entails F (first :: minimizeBinary bin T first ls) := by
  refine ⟨by simp [minimizeBinary], ?_⟩
  intro x hx
  by_cases hf : first.holds x
  · exact ⟨first, by simp, hf⟩
  obtain ⟨m, hm, hmh⟩ := he x hx
  rcases List.mem_cons.1 hm with rfl | hm
  · exact (hf hmh).elim
  refine ⟨m, ?_, hmh⟩
  simp only [minimizeBinary, List.mem_cons, List.mem_filter]
  right
  refine ⟨hm, ?_⟩
  cases hs : ((bin first.neg).foldl (fun s w =>
    if T.satisfies w.blocker then upd s w.blocker.var true else s) (fun _ => false)) m.var with
  | false => rfl
  | true =>
    exfalso
    rcases minBin_stamp T _ _ _ hs with h1 | ⟨w, hw, h1, h2⟩
    · simp at h1
    · have hb : w.blocker = m.neg :=
        h.tinv.varInj (h.tinv.satisfies_iff.1 h1) (hls m hm) (by simpa using h2)
      obtain ⟨b1, b2⟩ := h.binInv _ _ hw
      obtain ⟨k, hk, hkh⟩ := h.ent _ b1 x hx
      have : k = first ∨ k = w.blocker := by
        rcases b2 with b2 | b2 <;> rw [b2] at hk <;> simp at hk
        · exact hk
        · exact hk.symm
      rcases this with rfl | rfl
      · exact hf hkh
      · rw [hb] at hkh; exact Lit.holds_neg.1 hkh hmh

/-! ### Backjump level -/

theorem pickSecond_spec (T : Trail) : ∀ (rs : List Lit) (s : Lit),
    ((pickSecond T s (T.level s.var) rs).1 :: (pickSecond T s (T.level s.var) rs).2.2).Perm (s :: rs) ∧
    (pickSecond T s (T.level s.var) rs).2.1 = T.level (pickSecond T s (T.level s.var) rs).1.var ∧
    ∀ l ∈ s :: rs, T.level l.var ≤ (pickSecond T s (T.level s.var) rs).2.1
  | [], s => by simp [pickSecond]
  | r :: rs, s => by
    rw [pickSecond]
    by_cases h : T.level r.var > T.level s.var
    · rw [if_pos h]
      obtain ⟨i1, i2, i3⟩ := pickSecond_spec T rs r
      refine ⟨?_, i2, ?_⟩
      · exact (List.Perm.swap _ _ _).trans ((List.perm_cons s).2 i1)
      · intro l hl
        rcases List.mem_cons.1 hl with rfl | hl
        · have := i3 r (by simp)
          exact Nat.le_trans (Nat.le_of_lt h) this
        · exact i3 l hl
    · rw [if_neg h]
      obtain ⟨i1, i2, i3⟩ := pickSecond_spec T rs s
      refine ⟨?_, i2, ?_⟩
      · exact (List.Perm.swap _ _ _).trans (((List.perm_cons r).2 i1).trans (List.Perm.swap _ _ _))
      · intro l hl
        simp only [List.mem_cons] at hl
        rcases hl with rfl | rfl | hl
        · exact i3 l (by simp)
        · have := i3 s (by simp)
          exact Nat.le_trans (Nat.le_of_not_lt h) this
        · exact i3 l (by simp [hl])

/-- What conflict analysis delivers. -/
structure LearntOK (F : CNF) (T : Trail) (ls : List Lit) (bt : Nat) : Prop where
  ent : Entails F ls
  nodup : (ls.map Lit.var).Nodup
  shape : ∃ first rest, ls = first :: rest ∧ first.neg ∈ T.stack ∧
    T.level first.var = T.decisionLevel ∧
    (∀ l ∈ rest, l.neg ∈ T.stack ∧ 0 < T.level l.var ∧ T.level l.var ≤ bt) ∧
    (rest = [] → bt = 0) ∧
    (∀ s r, rest = s :: r → T.level s.var = bt ∧ 0 < bt)
  bt : bt < T.decisionLevel

theorem analyze_spec (h : Core F nV next bin store T) (hdl : 0 < T.decisionLevel) {confl : Nat}
    (hc : Conflict next store T confl) :
    ∃ first rest inv, analyze store bin T confl = some (first, rest, inv) ∧
      Entails F (first :: rest) ∧ ((first :: rest).map Lit.var).Nodup ∧
      first.neg ∈ T.stack ∧ T.level first.var = T.decisionLevel ∧
      ∀ l ∈ rest, l.neg ∈ T.stack ∧ 0 < T.level l.var ∧ T.level l.var < T.decisionLevel := by
  obtain ⟨p, st, e1, e2, e3, e4, e5, e6⟩ := analyzeLoop_spec h hdl (T.stack.length + 1) confl none
    T.stack [] [] ⟨fun _ => false, 0, [], []⟩ (by simp) (by omega)
    ⟨by simp, by simp, by simp, by simp [curCount], by simp⟩ hc.lt
    (fun l hl _ => hc.allFalse l hl) (by simp) (by simp)
    (Or.inr (by
      obtain ⟨l, hl, h1⟩ := hc.top trivial
      exact ⟨l, hl, by simp, by omega⟩))
    (by
      intro x hx
      obtain ⟨l, hl, hh⟩ := h.ent confl hc.lt x hx
      exact Or.inr (Or.inr ⟨l, hl, by simp, hh⟩))
  rw [List.append_nil] at e1
  obtain ⟨out, f1, f2, f3⟩ := minimization_spec h e4 e6 e5
  obtain ⟨g1, g2⟩ := minimizeBinary_spec h (fun l hl => (e4.learnt l (f2.subset hl)).1) f3
  refine ⟨p.neg, minimizeBinary bin T p.neg out, st.involved, ?_, g2, ?_, by simpa using e2,
    by simpa using e3, ?_⟩
  · simp only [analyze, e1, f1]
  · simp only [List.map_cons, List.nodup_cons]
    refine ⟨?_, ((g1.trans f2).map _).nodup e4.nodup⟩
    intro hm
    obtain ⟨l, hl, hv⟩ := List.mem_map.1 hm
    have := (e4.learnt l ((g1.trans f2).subset hl)).2.2.1
    rw [hv] at this
    simp only [Lit.var_neg] at this
    omega
  · intro l hl
    obtain ⟨a, b, c, _⟩ := e4.learnt l ((g1.trans f2).subset hl)
    exact ⟨a, b, c⟩

/-- `handle_conflict` always delivers an entailed asserting clause and the backjump level. -/
theorem handleConflict_spec (h : Core F nV next bin store T) (hdl : 0 < T.decisionLevel)
    {confl : Nat} (hc : Conflict next store T confl) :
    ∃ r, handleConflict store bin T confl = some r ∧ LearntOK F T r.learnt r.btlevel := by
  obtain ⟨first, rest, inv, e1, e2, e3, e4, e5, e6⟩ := analyze_spec h hdl hc
  simp only [handleConflict, e1]
  cases rest with
  | nil =>
    exact ⟨_, rfl, e2, e3, ⟨first, [], rfl, e4, e5, by simp, by simp, by simp⟩, hdl⟩
  | cons s rs =>
    simp only
    obtain ⟨p1, p2, p3⟩ := pickSecond_spec T rs s
    generalize pickSecond T s (T.level s.var) rs = res at p1 p2 p3
    obtain ⟨s', b, rs'⟩ := res
    simp only at p1 p2 p3 ⊢
    have hs' := e6 s' (p1.mem_iff.1 (by simp))
    refine ⟨_, rfl, ?_, ?_, ⟨first, s' :: rs', rfl, e4, e5, ?_, by simp, ?_⟩, ?_⟩
    · refine e2.mono ?_
      intro l hl
      exact ((List.perm_cons first).2 p1).mem_iff.2 hl
    · exact ((((List.perm_cons first).2 p1).map _).nodup_iff).2 e3
    · intro l hl
      have hl' := p1.mem_iff.1 hl
      exact ⟨(e6 l hl').1, (e6 l hl').2.1, p3 l hl'⟩
    · intro a r har
      simp at har
      obtain ⟨rfl, _⟩ := har
      exact ⟨p2.symm, by rw [p2]; exact hs'.2.1⟩
    · simp only; rw [p2]; exact hs'.2.2

end Candy
