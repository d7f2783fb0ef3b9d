import Verif.Proofs.Propagate
import Verif.Model.Drat

/-! Soundness of propagation for arbitrary clauses (with repeated or complementary literals), as needed
by the proof checker. -/

namespace Candy

/-- Number of watched positions (of the first two) holding the complement of `p`. -/
def watchSlots (x y p : Lit) : Nat := (if x.neg = p then 1 else 0) + (if y.neg = p then 1 else 0)

/-- Watch lists refer to live long clauses, at most once per watched position. -/
structure WCount (live : Nat → Prop) (store : Nat → Cls) (watch : Lit → List Watcher) : Prop where
  mem : ∀ (p : Lit) (w : Watcher), w ∈ watch p → live w.cref ∧
    ∃ x y r, (store w.cref).lits = x :: y :: r ∧ r ≠ []
  cnt : ∀ (p : Lit) (c : Nat) (x y : Lit) (r : List Lit), (store c).lits = x :: y :: r →
    (watch p).countP (fun w => w.cref == c) ≤ watchSlots x y p

/-- Binary watch lists refer to live binary clauses. -/
def BinOk (live : Nat → Prop) (store : Nat → Cls) (bin : Lit → List Watcher) : Prop :=
  ∀ (p : Lit) (w : Watcher), w ∈ bin p → live w.cref ∧
    ((store w.cref).lits = [p.neg, w.blocker] ∨ (store w.cref).lits = [w.blocker, p.neg])

/-- The assignment satisfies the live clauses. -/
def SatLive (live : Nat → Prop) (store : Nat → Cls) (a : Assign) : Prop :=
  ∀ c, live c → SatClause a (store c).lits

/-- The assignment satisfies the literals on the trail. -/
def SatStack (T : Trail) (a : Assign) : Prop := ∀ l ∈ T.stack, l.holds a

/-- All live clauses are over the known variables. -/
def LiveWf (live : Nat → Prop) (store : Nat → Cls) (nV : Nat) : Prop :=
  ∀ c, live c → ∀ l ∈ (store c).lits, l.var < nV

variable {live : Nat → Prop} {store store' : Nat → Cls} {watch bin : Lit → List Watcher} {nV : Nat}

theorem SatLive.perm {a : Assign} (h : SatLive live store a) (hs : StoreExt store store') :
    SatLive live store' a := by
  intro c hc
  obtain ⟨l, hl, hh⟩ := h c hc
  exact ⟨l, (hs c).1.mem_iff.2 hl, hh⟩

theorem LiveWf.perm (h : LiveWf live store nV) (hs : StoreExt store store') :
    LiveWf live store' nV := fun c hc l hl => h c hc l ((hs c).1.mem_iff.1 hl)

theorem BinOk.perm (h : BinOk live store bin) (hs : StoreExt store store') : BinOk live store' bin := by
  intro p w hw
  obtain ⟨h1, h2⟩ := h p w hw
  refine ⟨h1, ?_⟩
  have hp := (hs w.cref).1
  rcases h2 with h2 | h2 <;> rw [h2] at hp <;> rcases perm_pair hp with h3 | h3 <;> simp [h3]

theorem push_stack (T : Trail) (p : Lit) (r : Option Nat) : (T.push p r).stack = T.stack ++ [p] := rfl

/-- Soundness of binary propagation. -/
theorem propBinary_sem {p : Lit} (hb : BinOk live store bin) (hwf : LiveWf live store nV) :
    ∀ (ws : List Watcher) (T : Trail), (∀ w ∈ ws, w ∈ bin p) → T.Inv → T.nVars = nV → p ∈ T.stack →
      ∀ T' r, propBinary T ws = (T', r) → T'.Inv ∧ TExt T T' ∧ T'.qhead = T.qhead ∧
        ∀ a, SatLive live store a → SatStack T a → r = none ∧ SatStack T' a
  | [], T, _, hT, _, _, T', r, h => by
    cases h
    exact ⟨hT, TExt.refl _, rfl, fun a _ h => ⟨rfl, h⟩⟩
  | w :: ws, T, hsub, hT, hn, hp, T', r, h => by
    obtain ⟨hlive, hl⟩ := hb p w (hsub w (by simp))
    have key : ∀ a, SatLive live store a → SatStack T a → w.blocker.holds a := by
      intro a ha hs
      obtain ⟨l, hl1, hl2⟩ := ha _ hlive
      have hpn : ¬ p.neg.holds a := by rw [Lit.not_holds_neg]; exact hs p hp
      rcases hl with hl | hl <;> rw [hl] at hl1 <;> simp only [List.mem_cons, List.not_mem_nil, or_false] at hl1 <;>
        rcases hl1 with rfl | rfl
      · exact (hpn hl2).elim
      · exact hl2
      · exact hl2
      · exact (hpn hl2).elim
    have hbv : w.blocker.var < nV := by
      apply hwf _ hlive
      rcases hl with hl | hl <;> rw [hl] <;> simp
    rw [propBinary] at h
    cases hv : T.value w.blocker with
    | none =>
      rw [hv] at h
      simp only at h
      rw [Trail.propagate_eq_push _ _ _ hv] at h
      have hext : TExt T (T.push w.blocker (some w.cref)) := TExt.push hT hv
      obtain ⟨h1, h2, h3, h4⟩ := propBinary_sem hb hwf ws _ (fun w' hw' => hsub w' (by simp [hw']))
        (Trail.push_inv hT hv (by rw [hn]; exact hbv)) hn (hext.mem hp) T' r h
      refine ⟨h1, hext.trans h2, h3, fun a ha hs => h4 a ha ?_⟩
      intro l hlm
      rw [push_stack, List.mem_append, List.mem_singleton] at hlm
      rcases hlm with hlm | rfl
      · exact hs l hlm
      · exact key a ha hs
    | some b =>
      cases b with
      | false =>
        rw [hv] at h
        cases h
        refine ⟨hT, TExt.refl _, rfl, fun a ha hs => ?_⟩
        have h1 := key a ha hs
        have h2 := hs _ ((hT.valFalse _).1 hv)
        rw [Lit.holds_neg] at h2
        exact (h2 h1).elim
      | true =>
        rw [hv] at h
        exact propBinary_sem hb hwf ws T (fun w' hw' => hsub w' (by simp [hw'])) hT hn hp T' r h

theorem watchSlots_swap (x y p : Lit) : watchSlots y x p = watchSlots x y p := by
  unfold watchSlots; omega

theorem WCount.setTwo (h : WCount live store watch) {c : Nat} {x y a b : Lit} {r : List Lit}
    (hl : (store c).lits = x :: y :: r) (hab : (a = x ∧ b = y) ∨ (a = y ∧ b = x)) :
    WCount live (setLits store c (a :: b :: r)) watch where
  mem q w hw := by
    obtain ⟨h1, x', y', r', h3, h4⟩ := h.mem q w hw
    refine ⟨h1, ?_⟩
    by_cases hc : w.cref = c
    · subst hc
      rw [hl] at h3
      simp only [List.cons.injEq] at h3
      obtain ⟨rfl, rfl, rfl⟩ := h3
      rw [setLits_same]
      exact ⟨a, b, r, rfl, h4⟩
    · rw [setLits_ne _ _ hc]; exact ⟨x', y', r', h3, h4⟩
  cnt q d x' y' r' h' := by
    by_cases hc : d = c
    · subst hc
      rw [setLits_same] at h'
      simp only [List.cons.injEq] at h'
      obtain ⟨rfl, rfl, rfl⟩ := h'
      have := h.cnt q d x y r hl
      rcases hab with ⟨rfl, rfl⟩ | ⟨rfl, rfl⟩
      · exact this
      · rw [watchSlots_swap]; exact this
    · rw [setLits_ne _ _ hc] at h'; exact h.cnt q d x' y' r' h'

/-- Replacing the blocker of a watcher. -/
theorem WCount.reblock {p : Lit} {kept ws : List Watcher} {w : Watcher} {b : Lit}
    (h : WCount live store (upd watch p (kept ++ w :: ws))) :
    WCount live store (upd watch p (kept ++ ⟨w.cref, b⟩ :: ws)) where
  mem q v hv := by
    by_cases hq : q = p
    · subst hq
      rw [upd_same] at hv
      simp only [List.mem_append, List.mem_cons] at hv
      rcases hv with hv | rfl | hv
      · exact h.mem q v (by rw [upd_same]; simp [hv])
      · exact h.mem q w (by rw [upd_same]; simp)
      · exact h.mem q v (by rw [upd_same]; simp [hv])
    · exact h.mem q v (by rw [upd_ne _ _ hq] at hv ⊢; exact hv)
  cnt q c x y r hl := by
    have := h.cnt q c x y r hl
    by_cases hq : q = p
    · subst hq
      rw [upd_same] at this ⊢
      simpa [List.countP_append, List.countP_cons] using this
    · rw [upd_ne _ _ hq] at this ⊢; exact this

theorem WCount.move {p : Lit} {kept ws : List Watcher} {w : Watcher} {first n : Lit} {r r' : List Lit}
    (h : WCount live store (upd watch p (kept ++ w :: ws)))
    (hl : (store w.cref).lits = first :: p.neg :: r) (hr' : r' ≠ []) (hnp : n.neg ≠ p) :
    WCount live (setLits store w.cref (first :: n :: r'))
      (upd (upd watch n.neg (watch n.neg ++ [⟨w.cref, first⟩])) p (kept ++ ws)) where
  mem q v hv := by
    have hold : live v.cref ∧ ∃ x y r, (store v.cref).lits = x :: y :: r ∧ r ≠ [] := by
      by_cases hq : q = p
      · subst hq
        rw [upd_same] at hv
        apply h.mem q v
        rw [upd_same]
        simp only [List.mem_append, List.mem_cons] at hv ⊢
        rcases hv with hv | hv <;> simp [hv]
      · rw [upd_ne _ _ hq] at hv
        by_cases hqn : q = n.neg
        · subst hqn
          rw [upd_same, List.mem_append, List.mem_singleton] at hv
          rcases hv with hv | rfl
          · exact h.mem _ v (by rw [upd_ne _ _ hq]; exact hv)
          · exact h.mem p w (by rw [upd_same]; simp)
        · rw [upd_ne _ _ hqn] at hv
          exact h.mem q v (by rw [upd_ne _ _ hq]; exact hv)
    refine ⟨hold.1, ?_⟩
    by_cases hc : v.cref = w.cref
    · rw [hc, setLits_same]; exact ⟨_, _, _, rfl, hr'⟩
    · rw [setLits_ne _ _ hc]; exact hold.2
  cnt q c x y r2 hl2 := by
    by_cases hc : c = w.cref
    · subst hc
      rw [setLits_same] at hl2
      simp only [List.cons.injEq] at hl2
      obtain ⟨rfl, rfl, rfl⟩ := hl2
      have hold := h.cnt q w.cref first p.neg r hl
      unfold watchSlots at hold ⊢
      rw [Lit.neg_neg] at hold
      by_cases hq : q = p
      · subst hq
        rw [upd_same] at hold ⊢
        simp only [List.countP_append, List.countP_cons, beq_self_eq_true, if_true] at hold ⊢
        omega
      · rw [upd_ne _ _ hq] at hold ⊢
        rw [if_neg (show ¬ p = q from fun h => hq h.symm)] at hold
        by_cases hqn : q = n.neg
        · subst hqn
          rw [upd_same]
          simp only [List.countP_append, List.countP_cons, List.countP_nil, beq_self_eq_true, if_true]
          omega
        · rw [upd_ne _ _ hqn]
          omega
    · rw [setLits_ne _ _ hc] at hl2
      have hold := h.cnt q c x y r2 hl2
      by_cases hq : q = p
      · subst hq
        rw [upd_same] at hold ⊢
        simp only [List.countP_append, List.countP_cons] at hold ⊢
        omega
      · rw [upd_ne _ _ hq] at hold ⊢
        by_cases hqn : q = n.neg
        · subst hqn
          rw [upd_same]
          have : (w.cref == c) = false := by simpa using fun h => hc h.symm
          simpa [List.countP_append, List.countP_cons, this] using hold
        · rw [upd_ne _ _ hqn]; exact hold

/-- A watched clause has the false literal among its first two. -/
theorem WCount.slot (h : WCount live store watch) {p : Lit} {w : Watcher} (hw : w ∈ watch p)
    {x y : Lit} {r : List Lit} (hl : (store w.cref).lits = x :: y :: r) : x = p.neg ∨ y = p.neg := by
  have h1 := h.cnt p w.cref x y r hl
  have h2 : 0 < (watch p).countP (fun v => v.cref == w.cref) :=
    List.countP_pos_iff.2 ⟨w, hw, by simp⟩
  unfold watchSlots at h1
  by_cases hx : x.neg = p
  · left; rw [← hx, Lit.neg_neg]
  · by_cases hy : y.neg = p
    · right; rw [← hy, Lit.neg_neg]
    · rw [if_neg hx, if_neg hy] at h1; omega

/-- Soundness of the propagation of long clauses. -/
theorem propWatched_sem {p : Lit} :
    ∀ (ws kept : List Watcher) (s : PS), s.T.Inv → s.T.nVars = nV → p ∈ s.T.stack →
      LiveWf live s.store nV → WCount live s.store (upd s.watch p (kept ++ ws)) →
      ∃ s' r, propWatched p ws kept s = some (s', r) ∧ s'.T.Inv ∧ TExt s.T s'.T ∧
        s'.T.qhead = s.T.qhead ∧ StoreExt s.store s'.store ∧ WCount live s'.store s'.watch ∧
        ∀ a, SatLive live s.store a → SatStack s.T a → r = none ∧ SatStack s'.T a
  | [], kept, s, hT, _, _, _, hw => by
    refine ⟨_, _, rfl, hT, TExt.refl _, rfl, StoreExt.refl _, by simpa using hw, fun a _ h => ⟨rfl, h⟩⟩
  | w :: ws, kept, s, hT, hn, hp, hwf, hw => by
    obtain ⟨hlive, x, y, r, hl, hr⟩ := hw.mem p w (by rw [upd_same]; simp)
    have hxy := hw.slot (p := p) (w := w) (by rw [upd_same]; simp) hl
    rw [propWatched]
    by_cases hblk : s.T.value w.blocker = some true
    · rw [if_pos hblk]
      exact propWatched_sem ws (kept ++ [w]) s hT hn hp hwf (by simpa using hw)
    · rw [if_neg hblk]
      obtain ⟨first, hfix, hfirst⟩ := fixFirst_eq hl hxy
      have hpermF : (first :: p.neg :: r).Perm (s.store w.cref).lits := by
        rw [← hfix]; exact fixFirst_perm _ _
      have hab : (first = x ∧ p.neg = y) ∨ (first = y ∧ p.neg = x) := by
        rcases hfirst with ⟨rfl, rfl⟩ | ⟨rfl, rfl⟩ <;> simp
      simp only [hfix]
      generalize hs1 : setLits s.store w.cref (first :: p.neg :: r) = store1
      have hstore1 : StoreExt s.store store1 := by
        rw [← hs1]; exact StoreExt.setLits _ _ _ hpermF
      have hw1 : WCount live store1 (upd s.watch p (kept ++ w :: ws)) := by
        rw [← hs1]; exact hw.setTwo hl hab
      have hl1 : (store1 w.cref).lits = first :: p.neg :: r := by rw [← hs1, setLits_same]
      have hpf : s.T.value p.neg = some false := (hT.valFalse _).2 (by simpa using hp)
      have hw1' := hw1.reblock (b := first)
      by_cases hft : s.T.value first = some true
      · rw [if_pos hft]
        obtain ⟨s', r', h1, h2, h3, h4, h5, h6, h7⟩ :=
          propWatched_sem ws (kept ++ [⟨w.cref, first⟩]) { s with store := store1 } hT hn hp
            (hwf.perm hstore1) (by simpa using hw1')
        exact ⟨s', r', h1, h2, h3, h4, hstore1.trans h5, h6, fun a ha hs => h7 a (ha.perm hstore1) hs⟩
      · rw [if_neg hft]
        cases hfw : findWatch s.T (first :: p.neg :: r) with
        | some k =>
          obtain ⟨n, j, rfl, hrj, hnv, hsw⟩ := findWatch_some rfl hfw
          simp only [hsw, List.getElem?_cons_succ, List.getElem?_cons_zero]
          have hr' : r.set j p.neg ≠ [] := by
            intro h; apply hr; have := congrArg List.length h; simpa using this
          have hpermM : (first :: n :: r.set j p.neg).Perm (first :: p.neg :: r) :=
            (perm_set_cons hrj).cons _
          have hnv' : n.neg ∉ s.T.stack := by rw [← hT.valFalse]; exact hnv
          have hnp : n.neg ≠ p := fun h => hnv' (h ▸ hp)
          have hstore2 : StoreExt store1 (setLits store1 w.cref (first :: n :: r.set j p.neg)) :=
            StoreExt.setLits _ _ _ (by rw [hl1]; exact hpermM)
          have hwm := hw1.move hl1 hr' hnp
          obtain ⟨s', r', h1, h2, h3, h4, h5, h6, h7⟩ :=
            propWatched_sem ws kept
              { s with
                store := setLits store1 w.cref (first :: n :: r.set j p.neg)
                watch := upd s.watch n.neg (s.watch n.neg ++ [⟨w.cref, first⟩]) }
              hT hn hp (hwf.perm (hstore1.trans hstore2)) hwm
          exact ⟨s', r', h1, h2, h3, h4, (hstore1.trans hstore2).trans h5, h6,
            fun a ha hs => h7 a (ha.perm (hstore1.trans hstore2)) hs⟩
        | none =>
          have hrest := findWatch_none rfl hfw
          have key : ∀ a, SatLive live s.store a → SatStack s.T a → first.holds a := by
            intro a ha hs
            have hfalse : ∀ l, s.T.value l = some false → ¬ l.holds a := by
              intro l hv
              rw [← Lit.holds_neg]
              exact hs _ ((hT.valFalse l).1 hv)
            obtain ⟨l, hlm, hlh⟩ := ha _ hlive
            rw [← hpermF.mem_iff] at hlm
            simp only [List.mem_cons] at hlm
            rcases hlm with rfl | rfl | hlm
            · exact hlh
            · exact (hfalse _ hpf hlh).elim
            · exact (hfalse _ (hrest l hlm) hlh).elim
          by_cases hff : s.T.value first = some false
          · simp only [hff, if_true]
            refine ⟨_, _, rfl, hT, TExt.refl _, rfl, hstore1, hw1', fun a ha hs => ?_⟩
            have h1 := key a ha hs
            have h2 := hs _ ((hT.valFalse _).1 hff)
            rw [Lit.holds_neg] at h2
            exact (h2 h1).elim
          · have hfn : s.T.value first = none := by
              cases hv : s.T.value first with
              | none => rfl
              | some b => cases b <;> simp_all
            simp only [hff, if_false]
            rw [Trail.propagate_eq_push _ _ _ hfn]
            have hext : TExt s.T (s.T.push first (some w.cref)) := TExt.push hT hfn
            have hfv : first.var < s.T.nVars := by
              rw [hn]; exact hwf _ hlive _ (hpermF.mem_iff.1 (by simp))
            obtain ⟨s', r', h1, h2, h3, h4, h5, h6, h7⟩ :=
              propWatched_sem ws (kept ++ [⟨w.cref, first⟩])
                { s with store := store1, T := s.T.push first (some w.cref) }
                (Trail.push_inv hT hfn hfv) hn (hext.mem hp) (hwf.perm hstore1) (by simpa using hw1')
            refine ⟨s', r', h1, h2, hext.trans h3, h4, hstore1.trans h5, h6, fun a ha hs => ?_⟩
            refine h7 a (ha.perm hstore1) ?_
            intro l hlm
            simp only [push_stack, List.mem_append, List.mem_singleton] at hlm
            rcases hlm with hlm | rfl
            · exact hs l hlm
            · exact key a ha hs

/-- Soundness and definedness of propagation. -/
theorem propagateLoop_sem :
    ∀ (fuel : Nat) (s : PS), s.T.Inv → s.T.nVars = nV → LiveWf live s.store nV →
      BinOk live s.store bin → WCount live s.store s.watch → nV < fuel + s.T.qhead →
      ∃ s' r, propagateLoop bin fuel s = some (s', r) ∧ s'.T.Inv ∧ TExt s.T s'.T ∧
        StoreExt s.store s'.store ∧ WCount live s'.store s'.watch ∧
        ∀ a, SatLive live s.store a → SatStack s.T a → r = none ∧ SatStack s'.T a
  | 0, s, hT, hn, _, _, _, hf => by
    have := hT.length_le
    have := hT.qle
    omega
  | fuel + 1, s, hT, hn, hwf, hb, hw, hf => by
    rw [propagateLoop]
    cases hp : s.T.stack[s.T.qhead]? with
    | none => exact ⟨s, none, rfl, hT, TExt.refl _, StoreExt.refl _, hw, fun a _ h => ⟨rfl, h⟩⟩
    | some p =>
      obtain ⟨hlt, hpe⟩ := List.getElem?_eq_some_iff.1 hp
      have hT1 : ({ s.T with qhead := s.T.qhead + 1 } : Trail).Inv :=
        ⟨hT.val, hT.nodup, hT.bound, hT.limSorted, hT.limLe, hT.lev, by simp; omega⟩
      have hext1 : TExt s.T { s.T with qhead := s.T.qhead + 1 } :=
        ⟨⟨[], by simp⟩, rfl, by simp, rfl, rfl, rfl, fun _ _ => rfl, fun _ _ => rfl,
          fun _ h h' => (h' h).elim⟩
      have hpm : p ∈ s.T.stack := by rw [← hpe]; exact List.getElem_mem _
      simp only
      generalize hpb : propBinary { s.T with qhead := s.T.qhead + 1 } (bin p) = pb
      obtain ⟨T2, r2⟩ := pb
      obtain ⟨b1, b2, b3, b4⟩ := propBinary_sem hb hwf (bin p) _ (fun _ h => h) hT1 hn hpm T2 r2 hpb
      cases r2 with
      | some c =>
        exact ⟨{ s with T := T2 }, some c, rfl, b1, hext1.trans b2, StoreExt.refl _, hw, fun a ha hs =>
          b4 a ha hs⟩
      | none =>
        have hn2 : T2.nVars = nV := by rw [b2.nVars]; exact hn
        obtain ⟨s3, r3, e3, w1, w2, w3, w4, w5, w6⟩ := propWatched_sem (p := p)
          (s.watch p) [] { s with T := T2 } b1 hn2 (b2.mem hpm) hwf (by
            have : upd s.watch p ([] ++ s.watch p) = s.watch := by
              funext q; simp only [upd]; split
              · subst_vars; simp
              · rfl
            rw [this]; exact hw)
        simp only [e3]
        have hext3 : TExt s.T s3.T := (hext1.trans b2).trans w2
        cases r3 with
        | some c =>
          exact ⟨s3, some c, rfl, w1, hext3, w4, w5, fun a ha hs => w6 a ha (b4 a ha hs).2⟩
        | none =>
          have hqh : s3.T.qhead = s.T.qhead + 1 := by rw [w3]; exact b3
          obtain ⟨s', r', e', c1, c2, c3, c4, c5⟩ := propagateLoop_sem fuel s3 w1
            (by rw [w2.nVars]; exact hn2) (hwf.perm w4) (hb.perm w4) w5 (by omega)
          exact ⟨s', r', e', c1, hext3.trans c2, w4.trans c3, c4, fun a ha hs =>
            c5 a (ha.perm w4) (w6 a ha (b4 a ha hs).2).2⟩

end Candy
