import Verif.Proofs.TrailArrays

/-! Propagation on arrays. -/

namespace Candy

theorem setLits_eq_upd (s : Nat → Cls) (c : Nat) (ls : List Lit) :
    setLits s c ls = upd s c { s c with lits := ls } := by
  funext x
  simp only [setLits, upd]
  split
  · next e => subst e; rfl
  · rfl

theorem swapAt_mem {ls : List Lit} {i j : Nat} {l : Lit} (h : l ∈ swapAt ls i j) : l ∈ ls := by
  unfold swapAt at h
  split at h
  · next a b ha hb =>
    rcases List.mem_or_eq_of_mem_set h with h | rfl
    · rcases List.mem_or_eq_of_mem_set h with h | rfl
      · exact h
      · exact List.mem_of_getElem? hb
    · exact List.mem_of_getElem? ha
  · exact h

theorem fixFirst_mem {p : Lit} {ls : List Lit} {l : Lit} (h : l ∈ fixFirst p ls) : l ∈ ls := by
  unfold fixFirst at h
  split at h
  · exact swapAt_mem h
  · exact h

theorem aPropBinary_sim : ∀ (ws : List Watcher) {A : ATrail} {T : Trail}, RepT A T → T.Inv →
    (∀ w ∈ ws, w.blocker.var < T.nVars) →
    ∃ A', aPropBinary ws A = some (A', (propBinary T ws).2) ∧ RepT A' (propBinary T ws).1 ∧
      (propBinary T ws).1.Inv ∧ (propBinary T ws).1.nVars = T.nVars
  | [], A, T, h, hi, _ => ⟨A, rfl, h, hi, rfl⟩
  | w :: ws, A, T, h, hi, hb => by
    have hw := hb w (by simp)
    unfold aPropBinary propBinary
    rw [h.value hw]
    cases e : T.value w.blocker with
    | none =>
      dsimp only
      obtain ⟨A1, e1, r1⟩ := h.propagate hw (fun _ => hi.length_lt e hw) w.cref
      rw [e1, Option.bind_some]
      have hi1 : (T.propagate w.blocker w.cref).Inv := by
        rw [Trail.propagate_eq_push _ _ _ e]; exact Trail.push_inv hi e hw
      have hn : (T.propagate w.blocker w.cref).nVars = T.nVars := by
        rw [Trail.propagate_eq_push _ _ _ e]; rfl
      obtain ⟨A2, a, b, c, d⟩ := aPropBinary_sim ws r1 hi1
        (fun x hx => by rw [hn]; exact hb x (by simp [hx]))
      exact ⟨A2, a, b, c, d.trans hn⟩
    | some b => cases b with
      | false => exact ⟨A, rfl, h, hi, rfl⟩
      | true => exact aPropBinary_sim ws h hi (fun x hx => hb x (by simp [hx]))

theorem aFindWatch_sim {A : ATrail} {T : Trail} (h : RepT A T) : ∀ (ls : List Lit) (k : Nat),
    (∀ l ∈ ls, l.var < T.nVars) →
    aFindWatch A ls k = some ((ls.findIdx? fun l => T.value l != some false).map (· + k))
  | [], k, _ => rfl
  | l :: ls, k, hb => by
    unfold aFindWatch
    rw [h.value (hb l (by simp)), List.findIdx?_cons]
    have ih := aFindWatch_sim h ls (k + 1) (fun x hx => hb x (by simp [hx]))
    cases e : T.value l with
    | none => simp
    | some b => cases b with
      | true => simp
      | false =>
        simp only [ih, bne_self_eq_false, Bool.false_eq_true, if_false, Option.map_map]
        congr 1
        congr 1
        funext i
        simp only [Function.comp]; omega

/-- The arrays represent the state of propagation. -/
structure RepP (next : Nat) (a : APS) (s : PS) : Prop where
  T : RepT a.T s.T
  store : RepS next a.store s.store
  watch : RepWt s.T.nVars a.watch s.watch

/-- All indices are in range. -/
structure PRange (next : Nat) (s : PS) : Prop where
  inv : s.T.Inv
  lits : ∀ c < next, ∀ l ∈ (s.store c).lits, l.var < s.T.nVars
  watch : ∀ p w, w ∈ s.watch p → w.cref < next ∧ w.blocker.var < s.T.nVars

theorem aPropWatched_sim {next : Nat} {p : Lit} : ∀ (ws kept : List Watcher) {a : APS} {s : PS},
    RepP next a s → PRange next s → p ∈ s.T.stack →
    (∀ w ∈ ws, w.cref < next ∧ w.blocker.var < s.T.nVars) →
    (∀ w ∈ kept, w.cref < next ∧ w.blocker.var < s.T.nVars) →
    ∀ {s' : PS} {r : Option Nat}, propWatched p ws kept s = some (s', r) →
    ∃ a', aPropWatched p ws kept a = some (a', r) ∧ RepP next a' s' ∧ PRange next s' ∧
      s'.T.nVars = s.T.nVars
  | [], kept, a, s, ha, hs, hp, hw, hk, s', r, he => by
    simp only [propWatched, Option.some.injEq, Prod.mk.injEq] at he
    obtain ⟨rfl, rfl⟩ := he
    obtain ⟨W, e1, e2⟩ := ha.watch.setList (hs.inv.bound p hp) kept
    refine ⟨{ a with watch := W }, by rw [aPropWatched, e1]; rfl, ⟨ha.T, ha.store, e2⟩,
      ⟨hs.inv, hs.lits, fun q w h => ?_⟩, rfl⟩
    simp only [upd] at h
    split at h
    · exact hk w h
    · exact hs.watch q w h
  | w :: ws, kept, a, s, ha, hs, hp, hw, hk, s', r, he => by
    obtain ⟨hwc, hwb⟩ := hw w (by simp)
    have hw' : ∀ x ∈ ws, x.cref < next ∧ x.blocker.var < s.T.nVars := fun x hx => hw x (by simp [hx])
    rw [propWatched] at he
    rw [aPropWatched, ha.T.value hwb]
    by_cases hblk : s.T.value w.blocker = some true
    · rw [if_pos hblk] at he
      rw [hblk]
      dsimp only
      exact aPropWatched_sim ws (kept ++ [w]) ha hs hp hw'
        (fun x hx => by
          rcases List.mem_append.1 hx with hx | hx
          · exact hk x hx
          · simp at hx; subst hx; exact ⟨hwc, hwb⟩) he
    · rw [if_neg hblk] at he
      dsimp only at he
      have hget := ha.store.get _ hwc
      generalize hls : fixFirst p (s.store w.cref).lits = ls at he
      have hlr : ∀ l ∈ ls, l.var < s.T.nVars := fun l hl =>
        hs.lits _ hwc l (fixFirst_mem (by rw [hls]; exact hl))
      have hset : ∀ xs : List Lit, (∀ l ∈ xs, l.var < s.T.nVars) →
          ∀ c < next, ∀ l ∈ (setLits s.store w.cref xs c).lits, l.var < s.T.nVars := by
        intro xs hx c hc l hl
        by_cases e : c = w.cref
        · subst e; rw [setLits_same] at hl; exact hx l hl
        · rw [setLits_ne _ _ e] at hl; exact hs.lits c hc l hl
      have hrep : ∀ xs : List Lit, RepS next
          (a.store.set w.cref { s.store w.cref with lits := xs }) (setLits s.store w.cref xs) := by
        intro xs; rw [setLits_eq_upd]; exact ha.store.set _ _
      have hmain : ∀ val, s.T.value w.blocker = val →
          ∃ a', (match ls with
            | first :: _ :: _ =>
              match (if w.blocker ≠ first then a.T.value first else some val) with
              | none => none
              | some (some true) => aPropWatched p ws (kept ++ [⟨w.cref, first⟩])
                { a with store := a.store.set w.cref { s.store w.cref with lits := ls } }
              | some val =>
                match aFindWatch a.T (ls.drop 2) 2 with
                | none => none
                | some (some k) =>
                  match (swapAt ls 1 k)[1]? with
                  | none => none
                  | some second =>
                    if second.neg = p then none
                    else
                      match aPush a.watch second.neg.index ⟨w.cref, first⟩ with
                      | none => none
                      | some W =>
                        aPropWatched p ws kept
                          { a with
                            store := (a.store.set w.cref { s.store w.cref with lits := ls }).set w.cref
                              { s.store w.cref with lits := swapAt ls 1 k }
                            watch := W }
                | some none =>
                  if val = some false then
                    (aSetList a.watch p.index (kept ++ ⟨w.cref, first⟩ :: ws)).map fun W =>
                      ({ a with
                          store := a.store.set w.cref { s.store w.cref with lits := ls }
                          watch := W }, some w.cref)
                  else
                    match a.T.propagate first w.cref with
                    | none => none
                    | some T => aPropWatched p ws (kept ++ [⟨w.cref, first⟩])
                      { a with
                        store := a.store.set w.cref { s.store w.cref with lits := ls }
                        T := T }
            | _ => none) = some (a', r) ∧ RepP next a' s' ∧ PRange next s' ∧ s'.T.nVars = s.T.nVars := by
        intro val hval
        split at he
        · next first y rest =>
          have hfr : first.var < s.T.nVars := hlr first (by simp)
          have e1 : (if w.blocker ≠ first then a.T.value first else some val) = some (s.T.value first) := by
            by_cases e : w.blocker = first
            · rw [if_neg (by simpa using e), ← e, hval]
            · rw [if_pos e, ha.T.value hfr]
          dsimp only
          rw [e1]
          have hkept : ∀ x ∈ kept ++ [(⟨w.cref, first⟩ : Watcher)], x.cref < next ∧ x.blocker.var < s.T.nVars := by
            intro x hx
            rcases List.mem_append.1 hx with hx | hx
            · exact hk x hx
            · simp at hx; subst hx; exact ⟨hwc, hfr⟩
          have hfind := aFindWatch_sim ha.T ((first :: y :: rest).drop 2) 2
            (fun l hl => hlr l (List.mem_of_mem_drop hl))
          by_cases hft : s.T.value first = some true
          · rw [if_pos hft] at he
            rw [hft]
            dsimp only
            exact aPropWatched_sim ws _
              (a := ⟨a.T, a.store.set w.cref { s.store w.cref with lits := first :: y :: rest }, a.watch⟩)
              (s := ⟨setLits s.store w.cref (first :: y :: rest), s.watch, s.T⟩)
              ⟨ha.T, hrep _, ha.watch⟩ ⟨hs.inv, hset _ hlr, hs.watch⟩ hp hw' hkept he
          · rw [if_neg hft] at he
            rw [hfind]
            have hfw : findWatch s.T (first :: y :: rest) =
              (((first :: y :: rest).drop 2).findIdx? fun l => s.T.value l != some false).map (· + 2) := rfl
            rw [← hfw]
            cases hf : findWatch s.T (first :: y :: rest) with
            | some k =>
              simp only [hf] at he
              cases h1 : (swapAt (first :: y :: rest) 1 k)[1]? with
              | none => simp [h1] at he
              | some second =>
                simp only [h1] at he
                obtain ⟨n, j, hj1, hj2, hj3, hj4⟩ := findWatch_some rfl hf
                have hsec : second = n := by
                  rw [hj4] at h1; simpa using h1.symm
                have hsr : second.var < s.T.nVars := hlr _ (swapAt_mem (List.mem_of_getElem? h1))
                have hne : second.neg ≠ p := by
                  rintro rfl
                  exact hj3 (by rw [← hsec]; exact (hs.inv.valFalse _).2 hp)
                obtain ⟨W, g1, g2⟩ := ha.watch.push (p := second.neg) (by simpa using hsr) ⟨w.cref, first⟩
                have hrec := aPropWatched_sim ws kept
                  (a := ⟨a.T, (a.store.set w.cref { s.store w.cref with lits := first :: y :: rest }).set w.cref
                    { s.store w.cref with lits := swapAt (first :: y :: rest) 1 k }, W⟩)
                  (s := ⟨setLits (setLits s.store w.cref (first :: y :: rest)) w.cref
                    (swapAt (first :: y :: rest) 1 k),
                    upd s.watch second.neg (s.watch second.neg ++ [⟨w.cref, first⟩]), s.T⟩)
                  ⟨ha.T, ?_, g2⟩ ⟨hs.inv, ?_, ?_⟩ hp hw' hk he
                · cases hx : s.T.value first with
                  | none =>
                    dsimp only
                    simp only [h1, if_neg hne, g1]
                    exact hrec
                  | some b => cases b with
                    | false =>
                      dsimp only
                      simp only [h1, if_neg hne, g1]
                      exact hrec
                    | true => exact absurd hx hft
                · have := hrep (swapAt (first :: y :: rest) 1 k)
                  rw [List.set_set]
                  have e3 : setLits (setLits s.store w.cref (first :: y :: rest)) w.cref
                      (swapAt (first :: y :: rest) 1 k) = setLits s.store w.cref (swapAt (first :: y :: rest) 1 k) := by
                    funext c
                    by_cases e : c = w.cref
                    · subst e; simp [setLits]
                    · simp [setLits, e]
                  rw [e3]; exact this
                · intro c hc l hl
                  by_cases e : c = w.cref
                  · subst e
                    rw [setLits_same] at hl
                    exact hlr l (swapAt_mem hl)
                  · dsimp only at hl
                    rw [setLits_ne _ _ e] at hl
                    exact hset _ hlr c hc l hl
                · intro q x hx
                  simp only [upd] at hx
                  split at hx
                  · rcases List.mem_append.1 hx with hx | hx
                    · exact hs.watch _ x hx
                    · simp at hx; subst hx; exact ⟨hwc, hfr⟩
                  · exact hs.watch q x hx
            | none =>
              simp only [hf] at he
              by_cases hff : s.T.value first = some false
              · rw [if_pos hff] at he
                simp only [Option.some.injEq, Prod.mk.injEq] at he
                obtain ⟨rfl, rfl⟩ := he
                obtain ⟨W, g1, g2⟩ := ha.watch.setList (hs.inv.bound p hp) (kept ++ ⟨w.cref, first⟩ :: ws)
                rw [hff]
                dsimp only
                rw [if_pos rfl, g1]
                refine ⟨_, rfl, ⟨ha.T, hrep _, g2⟩, ⟨hs.inv, hset _ hlr, ?_⟩, rfl⟩
                intro q x hx
                simp only [upd] at hx
                split at hx
                · rcases List.mem_append.1 hx with hx | hx
                  · exact hk x hx
                  · rcases List.mem_cons.1 hx with rfl | hx
                    · exact ⟨hwc, hfr⟩
                    · exact hw' x hx
                · exact hs.watch q x hx
              · rw [if_neg hff] at he
                have hfn : s.T.value first = none := by
                  cases hx : s.T.value first with
                  | none => rfl
                  | some b => cases b with
                    | false => exact absurd hx hff
                    | true => exact absurd hx hft
                rw [hfn]
                dsimp only
                rw [if_neg (by simp)]
                obtain ⟨A1, g1, g2⟩ := ha.T.propagate hfr (fun _ => hs.inv.length_lt hfn hfr) w.cref
                rw [g1]
                dsimp only
                have hpush := Trail.propagate_eq_push s.T first w.cref hfn
                have hn : (s.T.propagate first w.cref).nVars = s.T.nVars := by rw [hpush]; rfl
                have := aPropWatched_sim ws (kept ++ [⟨w.cref, first⟩])
                  (a := ⟨A1, a.store.set w.cref { s.store w.cref with lits := first :: y :: rest }, a.watch⟩)
                  (s := ⟨setLits s.store w.cref (first :: y :: rest), s.watch, s.T.propagate first w.cref⟩)
                  ⟨g2, hrep _, by rw [hn]; exact ha.watch⟩
                  ⟨by rw [hpush]; exact Trail.push_inv hs.inv hfn hfr, by rw [hn]; exact hset _ hlr,
                    by rw [hn]; exact hs.watch⟩
                  (by rw [hpush]; simp [Trail.push, Trail.setValue, hp])
                  (by rw [hn]; exact hw') (by rw [hn]; exact hkept) he
                rw [hn] at this
                exact this
        · simp at he
      cases hval : s.T.value w.blocker with
      | some b =>
        cases b with
        | true => exact absurd hval hblk
        | false =>
          dsimp only
          rw [hget]
          dsimp only
          rw [hls]
          exact hmain _ hval
      | none =>
        dsimp only
        rw [hget]
        dsimp only
        rw [hls]
        exact hmain _ hval
theorem aPropagateLoop_sim {next : Nat} {bin : Lit → List Watcher} {abin : List (List Watcher)} {n : Nat}
    (hbin : RepWt n abin bin) (hbr : ∀ p w, w ∈ bin p → w.blocker.var < n) : ∀ (fuel : Nat) {a : APS} {s : PS},
    RepP next a s → PRange next s → s.T.nVars = n →
    ∀ {s' : PS} {r : Option Nat}, propagateLoop bin fuel s = some (s', r) →
    ∃ a', aPropagateLoop abin fuel a = some (a', r) ∧ RepP next a' s' ∧ PRange next s' ∧ s'.T.nVars = n
  | 0, a, s, _, _, _, s', r, he => by simp [propagateLoop] at he
  | fuel + 1, a, s, ha, hs, hn, s', r, he => by
    rw [propagateLoop] at he
    rw [aPropagateLoop, ha.T.qhead, ha.T.size]
    cases hq : s.T.stack[s.T.qhead]? with
    | none =>
      rw [hq] at he
      simp only [Option.some.injEq, Prod.mk.injEq] at he
      obtain ⟨rfl, rfl⟩ := he
      have := List.getElem?_eq_none_iff.1 hq
      rw [if_neg (by omega)]
      exact ⟨a, rfl, ha, hs, hn⟩
    | some p =>
      rw [hq] at he
      dsimp only at he
      have hlt := (List.getElem?_eq_some_iff.1 hq).1
      have hpm := List.mem_of_getElem? hq
      have hpv := hs.inv.bound p hpm
      have hT : RepT { a.T with qhead := s.T.qhead + 1 } { s.T with qhead := s.T.qhead + 1 } :=
        ⟨ha.T.vars, ha.T.la, ha.T.lv, ha.T.lt, ha.T.ld, ha.T.assigns, ha.T.data, ha.T.decision, ha.T.size,
          ha.T.stack, ha.T.lim, rfl, ha.T.asm⟩
      have hi : Trail.Inv { s.T with qhead := s.T.qhead + 1 } :=
        ⟨hs.inv.val, hs.inv.nodup, hs.inv.bound, hs.inv.limSorted, hs.inv.limLe, hs.inv.lev, hlt⟩
      rw [if_pos hlt, ha.T.get hlt, hq]
      dsimp only
      rw [hbin.get p (by omega)]
      dsimp only
      obtain ⟨A1, e1, r1, i1, n1⟩ := aPropBinary_sim (bin p) hT hi
        (fun w hw => by show w.blocker.var < s.T.nVars; rw [hn]; exact hbr p w hw)
      rw [e1]
      have hmem : p ∈ (propBinary { s.T with qhead := s.T.qhead + 1 } (bin p)).1.stack := by
        have key : ∀ (ws : List Watcher) (T : Trail), p ∈ T.stack → p ∈ (propBinary T ws).1.stack := by
          intro ws
          induction ws with
          | nil => intro T h; exact h
          | cons w ws ih =>
            intro T h
            unfold propBinary
            split
            · exact h
            · refine ih _ ?_
              unfold Trail.propagate
              split
              · exact h
              · simp [Trail.setValue, h]
            · exact ih _ h
        exact key _ _ hpm
      generalize hpb : propBinary { s.T with qhead := s.T.qhead + 1 } (bin p) = pb at *
      obtain ⟨T1, c1⟩ := pb
      dsimp only at *
      have hn1 : T1.nVars = s.T.nVars := n1
      cases c1 with
      | some c =>
        simp only [Option.some.injEq, Prod.mk.injEq] at he
        obtain ⟨rfl, rfl⟩ := he
        refine ⟨_, rfl, ⟨r1, ha.store, ?_⟩, ⟨i1, ?_, ?_⟩, ?_⟩
        · show RepWt T1.nVars _ _; rw [hn1]; exact ha.watch
        · show ∀ c < next, ∀ l ∈ (s.store c).lits, l.var < T1.nVars
          rw [hn1]; exact hs.lits
        · show ∀ p w, w ∈ s.watch p → w.cref < next ∧ w.blocker.var < T1.nVars
          rw [hn1]; exact hs.watch
        · exact hn1.trans hn
      | none =>
        dsimp only at he ⊢
        rw [ha.watch.get p hpv]
        dsimp only
        cases hw : propWatched p (s.watch p) [] { s with T := T1 } with
        | none => rw [hw] at he; simp at he
        | some x =>
          obtain ⟨s1, c1⟩ := x
          rw [hw] at he
          obtain ⟨a1, g1, g2, g3, g4⟩ := aPropWatched_sim (next := next) (s.watch p) []
            (a := { a with T := A1 }) (s := { s with T := T1 })
            ⟨r1, ha.store, by show RepWt T1.nVars _ _; rw [hn1]; exact ha.watch⟩
            ⟨i1, by show ∀ c < next, ∀ l ∈ (s.store c).lits, l.var < T1.nVars
                    rw [hn1]; exact hs.lits,
              by show ∀ p w, w ∈ s.watch p → w.cref < next ∧ w.blocker.var < T1.nVars
                 rw [hn1]; exact hs.watch⟩
            hmem (fun w hw => by show w.cref < next ∧ w.blocker.var < T1.nVars
                                 rw [hn1]; exact hs.watch p w hw) (by simp) hw
          rw [g1]
          have hn2 : s1.T.nVars = n := (g4.trans hn1).trans hn
          cases c1 with
          | some c =>
            simp only [Option.some.injEq, Prod.mk.injEq] at he
            obtain ⟨rfl, rfl⟩ := he
            exact ⟨a1, rfl, g2, g3, hn2⟩
          | none => exact aPropagateLoop_sim hbin hbr fuel g2 g3 hn2 he

end Candy
