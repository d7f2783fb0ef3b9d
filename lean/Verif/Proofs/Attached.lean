import Verif.Proofs.LevelBound

/-! The clauses of the database stay in the watch lists of their first two literals, also after inprocessing. -/

namespace Candy

variable {F : CNF} {as : List Lit} {sys sys' : Sys} {u : Usage}

theorem fixFirst_cases (p : Lit) (ls : List Lit) :
    (fixFirst p ls = ls ∧ ls.head? ≠ some p.neg) ∨ (∃ x, fixFirst p ls = [x]) ∨
      ∃ x y r, ls = x :: y :: r ∧ x = p.neg ∧ fixFirst p ls = y :: x :: r := by
  unfold fixFirst
  split
  · rename_i h
    right
    match ls, h with
    | [x], _ => exact Or.inl ⟨x, by simp [swapAt]⟩
    | x :: y :: r, h =>
      simp only [List.head?_cons, Option.some.injEq] at h
      exact Or.inr ⟨x, y, r, rfl, h, by simp [swapAt]⟩
  · rename_i h
    exact Or.inl ⟨rfl, h⟩

theorem Attached.fix {store : Nat → Cls} {W : Lit → List Watcher} {c : Nat} (h : Attached store W c) (p : Lit) (d : Nat) :
    Attached (setLits store d (fixFirst p (store d).lits)) W c := by
  by_cases hc : c = d
  · subst hc
    intro x y r hl hr
    rw [setLits_same] at hl
    rcases fixFirst_cases p (store c).lits with ⟨e, -⟩ | ⟨z, e⟩ | ⟨x', y', r', e1, -, e⟩
    · rw [e] at hl; exact h x y r hl hr
    · rw [e] at hl; simp at hl
    · rw [e] at hl
      simp only [List.cons.injEq] at hl
      obtain ⟨rfl, rfl, rfl⟩ := hl
      exact (h _ _ _ e1 hr).symm
  · intro x y r hl hr
    rw [setLits_ne _ _ hc] at hl
    exact h x y r hl hr

theorem Attached.relist {store : Nat → Cls} {W : Lit → List Watcher} {c : Nat} {p : Lit} {l l' : List Watcher}
    (h : Attached store (upd W p l) c) (hl : ∀ c, c ∈ l.map Watcher.cref → c ∈ l'.map Watcher.cref) :
    Attached store (upd W p l') c :=
  fun x y r h1 h2 => (h x y r h1 h2).imp (mem_cref_upd hl) (mem_cref_upd hl)

theorem propagate_keeps_false {T : Trail} {p first : Lit} {c : Nat} (hp : T.value p.neg = some false)
    (hf : T.value first ≠ some true) (hf' : T.value first ≠ some false) :
    (T.propagate first c).value p.neg = some false := by
  have hv : T.value first = none := by
    cases h : T.value first with
    | none => rfl
    | some b => cases b <;> simp_all
  have hne : p.neg.var ≠ first.var := by
    intro e
    unfold Trail.value at hp hv
    rw [e] at hp
    cases h : T.assigns first.var with
    | none => rw [h] at hp; simp at hp
    | some b => rw [h] at hv; simp at hv
  rw [Trail.propagate_eq_push T first c hv]
  unfold Trail.value at hp ⊢
  simp only [Trail.push, Trail.setValue, upd_ne _ _ hne]
  exact hp

theorem propWatched_att {p : Lit} : ∀ (ws kept : List Watcher) (s s' : PS) (r : Option Nat),
    propWatched p ws kept s = some (s', r) → s.T.value p.neg = some false →
    (∀ w ∈ ws, (s.store w.cref).lits.Nodup) →
    ∀ c, Attached s.store (upd s.watch p (kept ++ ws)) c → Attached s'.store s'.watch c
  | [], kept, s, s', r, he, _, _, c, h => by
    simp only [propWatched, Option.some.injEq, Prod.mk.injEq] at he
    obtain ⟨rfl, rfl⟩ := he
    simpa using h
  | w :: ws, kept, s, s', r, he, hp, hn, c, h => by
    have hn0 := hn w (by simp)
    have hnw : ∀ ls : List Lit, ls.Nodup → ∀ v ∈ ws, (setLits s.store w.cref ls v.cref).lits.Nodup := by
      intro ls hls v hv
      by_cases hc : v.cref = w.cref
      · rw [hc, setLits_same]; exact hls
      · rw [setLits_ne _ _ hc]; exact hn v (by simp [hv])
    rw [propWatched] at he
    split at he
    · refine propWatched_att ws _ _ _ _ he hp (fun v hv => hn v (by simp [hv])) c ?_
      simpa using h
    · have hfn : (fixFirst p (s.store w.cref).lits).Nodup := by
        rcases fixFirst_cases p (s.store w.cref).lits with ⟨e, -⟩ | ⟨z, e⟩ | ⟨x', y', r', e1, -, e⟩
        · rw [e]; exact hn0
        · rw [e]; simp
        · rw [e]; rw [e1] at hn0; exact (List.Perm.swap _ _ _).nodup_iff.1 hn0
      have hfh : ∀ a b r, fixFirst p (s.store w.cref).lits = a :: b :: r → a ≠ p.neg := by
        intro a b r e
        rcases fixFirst_cases p (s.store w.cref).lits with ⟨e', h'⟩ | ⟨z, e'⟩ | ⟨x', y', r', e1, e2, e'⟩
        · rw [e'] at e; rw [e] at h'; simpa using h'
        · rw [e'] at e; simp at e
        · rw [e'] at e
          simp only [List.cons.injEq] at e
          rw [e1] at hn0
          simp only [List.nodup_cons, List.mem_cons, not_or] at hn0
          intro ha
          exact hn0.1.1 (by rw [e2, ← ha, e.1])
      have h1 := h.fix p w.cref
      dsimp only at he
      generalize hls : fixFirst p (s.store w.cref).lits = ls at he hfn hfh h1
      have hcr : ∀ (first : Lit) (c : Nat), c ∈ (kept ++ w :: ws).map Watcher.cref →
          c ∈ (kept ++ [(⟨w.cref, first⟩ : Watcher)] ++ ws).map Watcher.cref := by
        intro first c hc
        simpa using hc
      split at he
      · rename_i first sec rest
        split at he
        · refine propWatched_att ws _ _ _ _ he hp (hnw _ hfn) c ?_
          exact h1.relist (hcr first)
        · rename_i hval
          split at he
          · rename_i k hk
            obtain ⟨n, j, rfl, hj, hnv, hsw⟩ := findWatch_some rfl hk
            rw [hsw] at he
            simp only [List.getElem?_cons_succ, List.getElem?_cons_zero] at he
            have hnp : n.neg ≠ p := by
              intro e
              apply hnv
              rw [← e, Lit.neg_neg] at hp
              exact hp
            have hfp : first.neg ≠ p := by
              intro e; exact hfh _ _ _ rfl (by rw [← e, Lit.neg_neg])
            have hperm : (first :: n :: rest.set j sec).Perm (first :: sec :: rest) := by
              have hlt : j < rest.length := (List.getElem?_eq_some_iff.1 hj).1
              have := swapAt_perm (first :: sec :: rest) 1 (j + 2)
              rw [hsw] at this
              exact this
            have hss : ∀ l1 l2, setLits (setLits s.store w.cref l1) w.cref l2 = setLits s.store w.cref l2 := by
              intro l1 l2
              funext z
              unfold setLits
              by_cases hz : z = w.cref <;> simp [hz]
            refine propWatched_att ws _ _ _ _ he hp ?_ c ?_
            · simp only [hss]
              exact hnw _ (hperm.nodup_iff.2 hfn)
            · simp only
              intro x y r' hl hr
              by_cases hc : c = w.cref
              · subst hc
                rw [setLits_same] at hl
                simp only [List.cons.injEq] at hl
                obtain ⟨rfl, rfl, rfl⟩ := hl
                have hrest : rest ≠ [] := by
                  intro e; rw [e] at hr; simp at hr
                refine ⟨?_, ?_⟩
                · obtain ⟨v, hv, hve⟩ := (h1 _ _ _ (by rw [setLits_same]) hrest).1
                  rw [upd_ne _ _ hfp] at hv
                  refine ⟨v, ?_, hve⟩
                  rw [upd_ne _ _ hfp]
                  by_cases hq : first.neg = n.neg
                  · rw [hq] at hv ⊢; rw [upd_same]; simp [hv]
                  · rw [upd_ne _ _ hq]; exact hv
                · refine ⟨⟨w.cref, first⟩, ?_, rfl⟩
                  rw [upd_ne _ _ hnp, upd_same]; simp
              · rw [setLits_ne _ _ hc] at hl
                have key : ∀ q, (∃ v ∈ upd s.watch p (kept ++ w :: ws) q, v.cref = c) →
                    ∃ v ∈ upd (upd s.watch n.neg (s.watch n.neg ++ [⟨w.cref, first⟩])) p (kept ++ ws) q, v.cref = c := by
                  rintro q ⟨v, hv, hve⟩
                  by_cases hq : q = p
                  · subst hq
                    rw [upd_same] at hv ⊢
                    refine ⟨v, ?_, hve⟩
                    rw [List.mem_append, List.mem_cons] at hv
                    rcases hv with hv | rfl | hv
                    · simp [hv]
                    · exact (hc hve.symm).elim
                    · simp [hv]
                  · rw [upd_ne _ _ hq] at hv ⊢
                    refine ⟨v, ?_, hve⟩
                    by_cases hq2 : q = n.neg
                    · subst hq2; rw [upd_same]; simp [hv]
                    · rw [upd_ne _ _ hq2]; exact hv
                exact (h1 x y r' hl hr).imp (key _) (key _)
          · split at he
            · simp only [Option.some.injEq, Prod.mk.injEq] at he
              obtain ⟨rfl, rfl⟩ := he
              exact h1.relist (fun c hc => by simpa using hc)
            · rename_i hval'
              refine propWatched_att ws _ _ _ _ he (propagate_keeps_false hp hval hval') (hnw _ hfn) c ?_
              exact h1.relist (hcr first)
      · simp at he

theorem lits_nodup_of_map {ls : List Lit} (h : (ls.map Lit.var).Nodup) : ls.Nodup := by
  induction ls with
  | nil => simp
  | cons x ls ih =>
    simp only [List.map_cons, List.nodup_cons, List.mem_map, not_exists, not_and] at h ⊢
    exact ⟨fun hm => h.1 x hm rfl, ih h.2⟩

/-- Propagation keeps clauses in the watch lists of their first two literals. -/
theorem propagateLoop_att {base nV next : Nat} {bin : Lit → List Watcher} :
    ∀ (fuel : Nat) (s s' : PS) (r : Option Nat),
      CoreB base F nV next bin s.store s.T → WatchInv next s.store s.watch →
      propagateLoop bin fuel s = some (s', r) →
      ∀ c, Attached s.store s.watch c → Attached s'.store s'.watch c
  | 0, s, s', r, _, _, he => by simp [propagateLoop] at he
  | fuel + 1, s, s', r, hc, hw, he => by
    intro c h
    rw [propagateLoop] at he
    cases hp : s.T.stack[s.T.qhead]? with
    | none =>
      rw [hp] at he
      simp only [Option.some.injEq, Prod.mk.injEq] at he
      rw [← he.1]; exact h
    | some p =>
      rw [hp] at he
      obtain ⟨hlt, hpe⟩ := List.getElem?_eq_some_iff.1 hp
      have htinv : ({ s.T with qhead := s.T.qhead + 1 } : Trail).Inv :=
        ⟨hc.tinv.val, hc.tinv.nodup, hc.tinv.bound, hc.tinv.limSorted, hc.tinv.limLe, hc.tinv.lev,
          by simp; omega⟩
      have hc1 : CoreB base F nV next bin s.store { s.T with qhead := s.T.qhead + 1 } :=
        ⟨htinv, hc.nv, hc.wf, hc.nd, hc.ent, hc.rsome, hc.rnone, hc.binInv⟩
      have hpm : p ∈ s.T.stack := by rw [← hpe]; exact List.getElem_mem _
      simp only at he
      generalize hpb : propBinary { s.T with qhead := s.T.qhead + 1 } (bin p) = pb at he
      obtain ⟨T2, r2⟩ := pb
      obtain ⟨b1, b2, b3, b4, b5⟩ := propBinary_spec (A := fun _ => False) (L := False)
        (watch := s.watch) (bin p) _ (fun _ h => h) hc1 hpm (fun h => h.elim) T2 r2 hpb
      have hpm2 : p ∈ T2.stack := b2.mem hpm
      have hsame : upd s.watch p ([] ++ s.watch p) = s.watch := by
        funext q; simp only [upd]; split
        · subst_vars; simp
        · rfl
      cases r2 with
      | some d =>
        simp only [Option.some.injEq, Prod.mk.injEq] at he
        rw [← he.1]; exact h
      | none =>
        obtain ⟨s3, r3, e3, w1, w2, w3, w4, w5, w6, w7⟩ := propWatched_spec (A := fun _ => False)
          (L := False) (p := p) (s.watch p) [] { s with T := T2 } b1 (by
            simp only [hsame]; exact hw) hpm2 (fun h => h.elim)
        have h3 : Attached s3.store s3.watch c := by
          refine propWatched_att _ _ _ _ _ e3 ?_ ?_ c ?_
          · exact (b1.tinv.valFalse _).2 (by simpa using hpm2)
          · intro w hwm
            obtain ⟨h1, _⟩ := hw.wmem p w hwm
            exact lits_nodup_of_map (hc.nd _ h1)
          · simp only [hsame]; exact h
        simp only [e3] at he
        cases r3 with
        | some d =>
          simp only [Option.some.injEq, Prod.mk.injEq] at he
          rw [← he.1]; exact h3
        | none => exact propagateLoop_att fuel s3 s' r w1 w2 he c h3

theorem materialize_att {s s' : Solver} (hd : DBOk F s.db) (hl : L0 F s) (ha : AttAll s)
    (he : materialize s = some s') (hne : s'.db.hasEmpty = false) : AttAll s' := by
  unfold materialize at he
  dsimp only at he
  obtain ⟨f1, f2, f3, f4, f5, f6, f7⟩ := factFold_spec s.db.unitLits s.trail s.db hl.core hl.lim hd
    (unitLits_spec hd)
  generalize s.db.unitLits.foldl factStep (s.trail, s.db) = x at he f1 f2 f3 f4 f5 f6 f7
  split at he
  · rename_i hx
    simp only [Option.some.injEq] at he
    subst he
    simp only at hne
    rw [hx] at hne; simp at hne
  · have hcx : Core F x.2.nVars x.2.next x.2.bin x.2.store x.1 := by
      rw [f6.nVars, f6.next, f6.bin, f6.store]; exact f1
    have hwx : WatchInv x.2.next x.2.store s.watch := by
      rw [f6.next, f6.store]; exact hl.watch
    split at he
    · simp at he
    · simp only [Option.some.injEq] at he
      subst he
      simp [DB.emptyClause] at hne
    · rename_i ps hp
      have hatt := propagateLoop_att _ _ _ _ hcx hwx hp
      simp only [Option.some.injEq] at he
      subst he
      obtain ⟨ps', r, e1, e2, e3, e4, e5, e6, e7, e8, e9⟩ := propagateLoop_specL (L := False)
        (A := fun _ => False) (x.2.nVars + 1) ⟨x.2.store, s.watch, x.1⟩ hcx hwx (fun h => h.elim)
        (by omega)
      rw [hp] at e1
      simp only [Option.some.injEq, Prod.mk.injEq] at e1
      obtain ⟨rfl, rfl⟩ := e1
      obtain ⟨db', k1, k0, k2, k3, k4, k5, _, k7, k8, k9, k10, k11, k12⟩ := unitFold_spec
        (F := F) (ps.T.stack.drop x.1.stack.length) ps.T { x.2 with store := ps.store } e2
        (by rw [e4.lim]; exact f2.lim.trans hl.lim) (f5.perm e5) (fun l hl => List.mem_of_mem_drop hl)
      intro c hc
      simp only at hc ⊢
      rw [← k0] at hc ⊢
      obtain ⟨ext, x1, x2⟩ := k10.clauses
      rw [x1] at hc
      rcases List.mem_append.1 hc with hc | hc
      · simp only at hc
        have hlt := f5.mem c hc
        have := hatt c (by
          simp only [f6.store]
          refine ha c ?_
          rw [← f6.clauses]; exact hc)
        intro a b r hl' hr
        refine this a b r ?_ hr
        have := k9.lits c hlt
        unfold DB.lits at this
        rw [← this]; exact hl'
      · obtain ⟨_, _, _, l, _, hl'⟩ := x2 c hc
        intro a b r h1 _
        unfold DB.lits at hl'
        rw [hl'] at h1; simp at h1

theorem learnStep_att {s s' : Solver} {c : Nat} (hd : DBOk F s.db) (h : AttAll s)
    (he : learnStep s c = some s') : AttAll s' := by
  unfold learnStep at he
  split at he
  · simp at he
  · rename_i r hr
    dsimp only at he
    obtain ⟨f1, f2, f3⟩ := reestimate_frame s.db s.recalc s.trail r.involved
    have f4 := reestimate_lits s.db s.recalc s.trail r.involved
    generalize s.db.reestimate s.recalc s.trail r.involved = db at he f1 f2 f3 f4
    have hid : (db.createClause r.learnt r.lbd).2 = s.db.next := by rw [createClause_id, f3]
    have hcl : (db.createClause r.learnt r.lbd).1.clauses = s.db.clauses ++ [s.db.next] := by
      rw [createClause_clauses, f1, f3]
    have hst1 : ∀ d < s.db.next, ((db.createClause r.learnt r.lbd).1.store d).lits = (s.db.store d).lits := by
      intro d hdl
      rw [createClause_store, upd_ne _ _ (by omega), f4]
    have hst2 : ((db.createClause r.learnt r.lbd).1.store s.db.next).lits = r.learnt := by
      rw [createClause_store, ← f3, upd_same]
    generalize db.createClause r.learnt r.lbd = x at he hid hcl hst1 hst2
    split at he
    · rename_i watch first rest hw hl
      simp only [Option.some.injEq] at he
      subst he
      intro d hdm a b t hlt ht
      simp only at hdm hlt ⊢
      by_cases hlen : r.learnt.length > 2
      · rw [if_pos hlen] at hw
        unfold attachClause at hw
        rw [hid, hst2] at hw
        split at hw
        · rename_i x' y' r' hxy
          simp only [Option.some.injEq] at hw
          rw [← hw]
          rw [hcl] at hdm
          rcases List.mem_append.1 hdm with hdm | hdm
          · rw [hst1 d (hd.mem d hdm)] at hlt
            obtain ⟨⟨w, h1, h2⟩, ⟨w', h3, h4⟩⟩ := h d hdm a b t hlt ht
            exact ⟨⟨w, by simp [DB.addBin, h1], h2⟩, ⟨w', by simp [DB.addBin, h3], h4⟩⟩
          · simp only [List.mem_singleton] at hdm
            subst hdm
            rw [hst2, hxy] at hlt
            simp only [List.cons.injEq] at hlt
            obtain ⟨rfl, rfl, rfl⟩ := hlt
            exact ⟨⟨⟨s.db.next, y'⟩, by simp [DB.addBin], rfl⟩, ⟨⟨s.db.next, x'⟩, by simp [DB.addBin], rfl⟩⟩
        · simp at hw
      · rw [if_neg hlen] at hw
        simp only [Option.some.injEq] at hw
        rw [← hw]
        rw [hcl] at hdm
        rcases List.mem_append.1 hdm with hdm | hdm
        · rw [hst1 d (hd.mem d hdm)] at hlt
          exact h d hdm a b t hlt ht
        · simp only [List.mem_singleton] at hdm
          subst hdm
          rw [hst2] at hlt
          rw [hlt] at hlen
          have := List.length_pos_iff.2 ht
          simp only [List.length_cons] at hlen
          omega
    · simp at he

theorem search_att : ∀ (fuel : Nat) (o : Nat → Choice) (s s' : Solver) (r : Option Bool)
    {A : Nat → Prop}, SInv F A s → (∀ i, (o i).Valid) → AttAll s →
    search fuel o s = some (s', r) → AttAll s'
  | 0, _, _, _, _, _, _, _, _, he => by simp [search] at he
  | fuel + 1, o, s, s', r, A, hi, hch, h, he => by
    rw [search] at he
    obtain ⟨out, q1, q2⟩ := searchIter_spec hi (hch 0)
    rw [q1] at he
    obtain ⟨ps0, r0, e1, -, -, -, e5, -⟩ := propagateLoop_spec (A := A)
      (s.db.nVars + 1) ⟨s.db.store, s.watch, s.trail⟩ hi.core hi.watch hi.limq (by omega)
    have w1 := propagateLoop_att _ _ _ _ hi.core hi.watch e1
    have hdb : DBOk F { s.db with store := ps0.store } := hi.db.perm e5
    have w2 : ∀ T cf, AttAll
        { s with db := { s.db with store := ps0.store }, watch := ps0.watch, trail := T, conflict := cf } :=
      fun T cf c hc => w1 c (h c hc)
    cases out with
    | done s1 r1 =>
      simp only [Option.some.injEq, Prod.mk.injEq] at he
      obtain ⟨rfl, rfl⟩ := he
      unfold searchIter at q1
      rw [e1] at q1
      dsimp only at q1
      split at q1
      · split at q1
        · simp only [Option.some.injEq, IterOut.done.injEq] at q1
          rw [← q1.1]; exact w2 _ _
        · obtain ⟨_, _, k⟩ := Option.map_eq_some_iff.1 q1
          simp at k
      · split at q1
        · simp only [Option.some.injEq, IterOut.done.injEq] at q1
          rw [← q1.1]; exact w2 _ _
        · split at q1
          · simp only [Option.some.injEq, IterOut.done.injEq] at q1
            rw [← q1.1]; exact w2 _ _
          · simp at q1
          · split at q1
            · simp only [Option.some.injEq, IterOut.done.injEq] at q1
              rw [← q1.1]; exact w2 _ _
            · simp at q1
    | cont s1 =>
      obtain ⟨_, _, _, A', _, hS, _⟩ := q2
      have hw : AttAll s1 := by
        unfold searchIter at q1
        rw [e1] at q1
        dsimp only at q1
        split at q1
        · split at q1
          · simp at q1
          · obtain ⟨s2, k1, k2⟩ := Option.map_eq_some_iff.1 q1
            simp only [IterOut.cont.injEq] at k2
            subst k2
            exact learnStep_att (by exact hdb) (w2 _ _) k1
        · split at q1
          · simp at q1
          · split at q1
            · simp at q1
            · simp only [Option.some.injEq, IterOut.cont.injEq] at q1
              rw [← q1]; exact w2 _ _
            · split at q1
              · simp at q1
              · simp only [Option.some.injEq, IterOut.cont.injEq] at q1
                rw [← q1]; exact w2 _ _
      exact search_att fuel _ s1 s' r hS (fun i => hch _) hw he

theorem attAll_reduceStep {cfg : Config} {r : Round} (h : AttAll sys.sol)
    (he : reduceStep cfg r { sys with sol := { sys.sol with trail := sys.sol.trail.reset } }
      = some sys') : AttAll sys'.sol := by
  unfold reduceStep at he
  split at he
  · dsimp only at he
    obtain ⟨sys1, h1, rfl⟩ := Option.map_eq_some_iff.1 he
    exact fun _ hc => attached_resetWatch hc
  · simp only [Option.some.injEq] at he
    subst he
    exact h

/-- With or without inprocessing, all clauses of the database are in the watch lists at the head of the
loop of `solve`. -/
theorem InSolve.attAll' (hu : u.Valid) (h : InSolve u F as sys) : AttAll sys.sol := by
  induction h with
  | enter h cfg pre hc he => exact attAll_entry (h.ok hu).ok he
  | round h cfg r hr he ih =>
    rename_i sys1 sys2
    have hok := h.ok hu
    unfold solveRound at he
    dsimp only at he
    cases h1 : reduceStep cfg r
        { sys1 with sol := { sys1.sol with trail := sys1.sol.trail.reset } } with
    | none => rw [h1] at he; simp at he
    | some sysr =>
      rw [h1] at he
      dsimp only at he
      obtain ⟨a1, a2⟩ := hok.inv.reset.reduceStep (hu r hr).sort h1
      obtain ⟨s, m1, m2, m3, _, _⟩ := a1.materialize
      rw [m1] at he
      dsimp only at he
      split at he
      · simp at he
      · rename_i hE
        have hE : s.db.hasEmpty = false := by simpa using hE
        have hE0 : sysr.sol.db.hasEmpty = false := by
          cases hh : sysr.sol.db.hasEmpty with
          | false => rfl
          | true => have := m3.hasEmpty hh; simp only at this; rw [hE] at this; simp at this
        have hatt := materialize_att a1.db (a1.l0 hE0) (attAll_reduceStep ih h1) m1 hE
        have hf := a2.trans m3
        have has := hf.assumptions.trans hok.assumptions
        have hnv := hf.nVars
        have hS := m2.sinv hE (by
          intro l hl
          simp only at hl has hnv ⊢
          rw [has] at hl; rw [hnv]; exact hok.bound l hl)
        obtain ⟨x, hx, hxe⟩ := Option.map_eq_some_iff.1 he
        obtain ⟨s', b'⟩ := x
        simp only [Prod.mk.injEq] at hxe
        obtain ⟨rfl, rfl⟩ := hxe
        exact search_att _ _ _ _ _ hS (hu r hr).choice hatt hx

/-! ### A literal at level 0 -/

/-- Some literal of the trail is assigned at level 0. -/
def ZeroLit (T : Trail) : Prop := ∃ q ∈ T.stack, T.level q.var = 0

theorem ZeroLit.ext {T T' : Trail} (h : ZeroLit T) (he : TExt T T') : ZeroLit T' := by
  obtain ⟨q, hq, hl⟩ := h
  exact ⟨q, he.mem hq, by rw [he.level q hq, hl]⟩

theorem ZeroLit.decide {T : Trail} (h : ZeroLit T) (ht : T.Inv) {p : Lit} (hv : T.value p = none) :
    ZeroLit (T.newDecisionLevel.decide p) := by
  obtain ⟨q, hq, hl⟩ := h
  rw [Trail.decide_eq_push]
  refine ⟨q, by simp [Trail.push, Trail.setValue, Trail.newDecisionLevel, hq], ?_⟩
  simp only [Trail.push, upd_ne _ _ (ne_var_of_mem ht hv hq)]
  exact hl

theorem ZeroLit.assumeLoop : ∀ (ls : List Lit) (T : Trail), ZeroLit T →
    ZeroLit (Candy.assumeLoop T ls).1
  | [], T, h => h
  | p :: ls, T, h => by
    rw [Candy.assumeLoop]
    split
    · exact ZeroLit.assumeLoop ls _ h
    · exact h
    · exact h

theorem ZeroLit.learn {T : Trail} (h : ZeroLit T) (ht : T.Inv) {b : Nat} (hb : b < T.decisionLevel)
    {first : Lit} {r : Option Nat} (hv : (T.backtrack b).value first = none) :
    ZeroLit ((T.backtrack b).push first r) := by
  have hk : T.lim[b]? = some T.lim[b] := List.getElem?_eq_getElem hb
  have ht' : (T.backtrack b).Inv := Trail.backtrack_inv ht
  obtain ⟨q, hq, hl⟩ := h
  have hqb : q ∈ (T.backtrack b).stack := (Trail.backtrack_mem ht hk).2 ⟨hq, by omega⟩
  refine ⟨q, by simp [Trail.push, Trail.setValue, hqb], ?_⟩
  simp only [Trail.push, upd_ne _ _ (ne_var_of_mem ht' hv hqb), Trail.backtrack_level]
  exact hl

theorem searchIter_zero {s s' : Solver} {ch : Choice} {A : Nat → Prop} (hi : SInv F A s)
    (hch : ch.Valid) (hl : ZeroLit s.trail) (he : searchIter s ch = some (.cont s')) :
    ZeroLit s'.trail := by
  obtain ⟨ps, r, e1, e2, e3, e4, e5, e6, e7, e8, e9⟩ := propagateLoop_spec (A := A)
    (s.db.nVars + 1) ⟨s.db.store, s.watch, s.trail⟩ hi.core hi.watch hi.limq (by omega)
  unfold searchIter at he
  rw [e1] at he
  simp only at e2 e3 e4 e5 e6 e7 e8 e9 he
  have hl1 : ZeroLit ps.T := hl.ext e4
  have hdb : DBOk F { s.db with store := ps.store } := hi.db.perm e5
  have hasm : ∀ p ∈ ps.T.stack, ps.T.reason p.var = none → 0 < ps.T.level p.var →
      ps.T.level p.var ≤ ps.T.assumptions.length →
      ps.T.assumptions[ps.T.level p.var - 1]? = some p := by
    intro p hp hr h0 hle
    by_cases hm : p ∈ s.trail.stack
    · rw [e4.level p hm] at h0 hle ⊢
      rw [e4.reason p hm] at hr
      rw [e4.assumptions] at hle ⊢
      exact hi.asm p hm hr h0 hle
    · exact (e4.new p hp hm hr).elim
  have hasmT : ∀ i p, ps.T.assumptions[i]? = some p → i < ps.T.decisionLevel →
      p ∈ ps.T.stack ∧ ps.T.level p.var ≤ i + 1 := by
    intro i p hip hi'
    rw [e4.assumptions] at hip
    rw [e4.decisionLevel] at hi'
    obtain ⟨a, b⟩ := hi.asmTrue i p hip hi'
    exact ⟨e4.mem a, by rw [e4.level p a]; exact b⟩
  have hab : ∀ l ∈ ps.T.assumptions, l.var < s.db.nVars := by
    rw [e4.assumptions]; exact hi.asmBound
  cases r with
  | some confl =>
    simp only at he
    have hconf := e7 confl rfl
    by_cases hdl : ps.T.decisionLevel = 0
    · rw [if_pos hdl] at he; simp at he
    · rw [if_neg hdl] at he
      obtain ⟨s1, k1, k2⟩ := Option.map_eq_some_iff.1 he
      simp only [IterOut.cont.injEq] at k2
      subst k2
      obtain ⟨s', rr, l1, l2, l3, l4, l5, l6, l7, lw, lwr, l8, l9, l10, l11, l12, l13, l14, first, l15, l16, l17⟩ :=
        learnStep_spec (F := F) (A := fun _ => False) (confl := confl)
        (s := { s with db := { s.db with store := ps.store }, watch := ps.watch, trail := ps.T })
        hdb e2 e3 e8 ⟨by simp, by simp, by simp⟩ (by simp) (by simp) (by simp) hab hasm hasmT
          (by simp only; omega) hconf
      rw [k1] at l3
      simp only [Option.some.injEq] at l3
      subst l3
      rw [l16]
      exact hl1.learn e2.tinv l2.bt l17
  | none =>
    simp only at he
    split at he
    · simp at he
    · have hS : SInv F (fun _ => False)
          { s with db := { s.db with store := ps.store }, watch := ps.watch, trail := ps.T } :=
        ⟨hdb, e2, e3, e8, ⟨by simp, by simp, by simp⟩, by simp, by simp, by simp, hab, hasm, hasmT⟩
      have hL := ZeroLit.assumeLoop (ps.T.assumptions.drop ps.T.decisionLevel) ps.T hl1
      split at he
      · simp at he
      · rename_i T p hal
        simp only [Option.some.injEq, IterOut.cont.injEq] at he
        subst he
        obtain ⟨a1, a2, a3, a4, a5, a6, a7⟩ := assumeLoop_spec _ _ hS (e6 rfl) rfl T _ hal
        rw [hal] at hL
        exact hL.decide a1.core.tinv a7.1
      · rename_i T hal
        obtain ⟨a1, a2, a3, a4, a5, a6, a7⟩ := assumeLoop_spec _ _ hS (e6 rfl) rfl T _ hal
        rw [hal] at hL
        split at he
        · simp at he
        · rename_i p hpk
          simp only [Option.some.injEq, IterOut.cont.injEq] at he
          subst he
          have hv := hch T
          rw [hpk] at hv
          refine hL.decide a1.core.tinv ?_
          simp [Trail.value, hv.2.1]

/-! ### Levels with inprocessing -/

/-- The invariants used for the bound on levels when some literal is assigned at level 0. -/
structure ZOk (F : CNF) (s : Solver) : Prop where
  inv : SInv F (fun _ => False) s
  wsub : WSub s
  lvl : LvlNe s.trail
  zero : ZeroLit s.trail

/-- With inprocessing, a search starts with an empty trail or some literal of level 0. -/
theorem Searching.zOk {s : Solver} (hu : u.Valid) (h : Searching u F as s) : LvOk F s ∨ ZOk F s := by
  induction h with
  | start h cfg r hr h1 h2 h3 =>
    rename_i sys1 sysr s0
    have hok := h.ok hu
    obtain ⟨a1, a2⟩ := hok.inv.reset.reduceStep (hu r hr).sort h1
    have t1 := attAll_reduceStep (h.attAll' hu) h1
    obtain ⟨s, m1, m2, m3, _, _⟩ := a1.materialize
    rw [h2] at m1
    simp at m1; subst m1
    have hE0 : sysr.sol.db.hasEmpty = false := by
      cases hh : sysr.sol.db.hasEmpty with
      | false => rfl
      | true => have := m3.hasEmpty hh; simp only at this; rw [h3] at this; simp at this
    obtain ⟨s1, n1, hm⟩ := materialize_spec a1.db (a1.l0 hE0)
    rw [h2] at n1
    simp at n1; subst n1
    obtain ⟨w1, w2⟩ := materialize_src (wsub_reduceStep (h.wsub hu) h1) h2
    have hb : ∀ l ∈ s0.trail.assumptions, l.var < s0.db.nVars := by
      intro l hl
      have hf := a2.trans m3
      have has := hf.assumptions.trans hok.assumptions
      have hnv := hf.nVars
      simp only at has hnv hl ⊢
      rw [has] at hl; rw [hnv]; exact hok.bound l hl
    have hl0 := hm.l0 h3
    cases hst : sysr.sol.trail.stack with
    | nil =>
      left
      have hS0 := start_good a1.db hst t1 hm h3 hb
      exact ⟨hS0.union (start_bin a1.db hst hm w2 h3 (hS0.weaken (by simp))), w1,
        LvlNe.zero hl0.lim, h3⟩
    | cons q t =>
      right
      refine ⟨m2.sinv h3 hb, w1, LvlNe.zero hl0.lim, q, hm.grow.mem (by rw [hst]; simp), ?_⟩
      have := hl0.core.tinv.level_le (hm.grow.mem (l := q) (by rw [hst]; simp))
      simp only [Trail.decisionLevel, hl0.lim, List.length_nil] at this
      omega
  | iter h ch hch he ih =>
    rename_i s s'
    rcases ih with ih | ih
    · left
      obtain ⟨i1, i2, i3, i4⟩ := ih
      obtain ⟨out, e1, e2⟩ := searchIter_spec i1 hch
      rw [he] at e1
      simp at e1; subst e1
      obtain ⟨f, c, _, A', g1, hS, g3⟩ := e2
      obtain ⟨j1, j2, j3⟩ := searchIter_src i1 hch i2 i3 he
      refine ⟨hS.weaken ?_, j1, j2, f.hasEmpty.trans i4⟩
      intro c hc
      rcases hc with hc | hc
      · exact good_step i1.db (nonempty_of i1.db i4) f (fun c hc => g1 c (Or.inl hc)) g3 c hc
      · obtain ⟨p, w, hw, rfl⟩ := hc
        rcases j3 p w hw with hw | ⟨hw, hcl⟩
        · exact g1 _ (Or.inr ⟨p, w, hw, rfl⟩)
        · have hmem : w.cref ∈ s'.db.clauses := by rw [hcl, hw]; simp
          rcases g3 _ hmem with h5 | h5
          · have := i1.db.mem _ h5; omega
          · exact h5
    · right
      obtain ⟨i1, i2, i3, i4⟩ := ih
      obtain ⟨out, e1, e2⟩ := searchIter_spec i1 hch
      rw [he] at e1
      simp at e1; subst e1
      obtain ⟨f, c, _, A', g1, hS, g3⟩ := e2
      obtain ⟨j1, j2, j3⟩ := searchIter_src i1 hch i2 i3 he
      exact ⟨hS.weaken (by simp), j1, j2, searchIter_zero i1 hch i4 he⟩

theorem ZOk.level_lt {s : Solver} (h : ZOk F s) (ha : s.trail.assumptions = []) {ps : PS} {r : Option Nat}
    (hp : runPropagate s = some (ps, r)) : ps.T.decisionLevel < s.db.nVars := by
  obtain ⟨i1, i2, i3, i4⟩ := h
  unfold runPropagate at hp
  obtain ⟨ps', r', e1, e2, e3, e4, -⟩ := propagateLoop_spec (A := fun _ => False)
    (s.db.nVars + 1) ⟨s.db.store, s.watch, s.trail⟩ i1.core i1.watch i1.limq (by omega)
  rw [hp] at e1
  simp only [Option.some.injEq, Prod.mk.injEq] at e1
  obtain ⟨rfl, rfl⟩ := e1
  simp only at e2 e4
  have hti := e2.tinv
  have hl := i3.ext e4
  have hz := i4.ext e4
  have has : ps.T.assumptions = [] := e4.assumptions.trans ha
  have key : ∀ i, ∃ q : Lit, i ≤ ps.T.decisionLevel → q ∈ ps.T.stack ∧ ps.T.level q.var = i := by
    intro i
    by_cases hi : i ≤ ps.T.decisionLevel
    · cases i with
      | zero => obtain ⟨q, a, b⟩ := hz; exact ⟨q, fun _ => ⟨a, b⟩⟩
      | succ i =>
        obtain ⟨q, a, b⟩ := hl (i + 1) (by rw [has]; simp) hi
        exact ⟨q, fun _ => ⟨a, b⟩⟩
    · exact ⟨⟨0, false⟩, fun h => (hi h).elim⟩
  obtain ⟨f, hf⟩ := Classical.axiomOfChoice key
  have hnd : ((List.range (ps.T.decisionLevel + 1)).map fun i => (f i).var).Nodup := by
    rw [List.nodup_iff_pairwise_ne, List.pairwise_map]
    refine List.pairwise_lt_range.imp_of_mem ?_
    intro i j hi hj hij he
    have h1 := (hf i (by have := List.mem_range.1 hi; omega)).2
    have h2 := (hf j (by have := List.mem_range.1 hj; omega)).2
    rw [he, h2] at h1
    omega
  have hsub := hnd.length_le_of_subset (l₂ := List.range s.db.nVars) (by
    intro v hv
    rw [List.mem_range, ← e2.nv]
    obtain ⟨i, hi, rfl⟩ := List.mem_map.1 hv
    have := List.mem_range.1 hi
    exact hti.bound _ (hf i (by omega)).1)
  simp at hsub
  omega

/-- At a conflict above level 0 there are more variables than decision levels, if there is no inprocessing
or if there are no assumptions. -/
theorem AtConflict.level_lt' {s : Solver} (hu : u.Valid) (hn : u.NoInpr ∨ as = [])
    (hd : (as.map Lit.var).Nodup) {ps : PS} {c : Nat} (h : AtConflict u F as s ps c) :
    ps.T.decisionLevel < s.db.nVars := by
  rcases hn with hn | hn
  · exact h.level_lt hu hn hd
  · obtain ⟨hs, hp, h0⟩ := h
    have ha := (hs.ok hu).assumptions
    rcases hs.zOk hu with h1 | h1
    · exact h1.level_lt (by rw [ha]; exact hd) hp h0
    · exact h1.level_lt (ha.trans hn) hp

end Candy
