import Verif.Proofs.Centrality
import Verif.Proofs.LevelBound
import Verif.Proofs.ArrayAnalyze

/-! The variables of the clauses with two or more literals, through simplification and search; and that
simplification stores no empty clause. -/

namespace Candy

variable {F : CNF} {b : Bool} {K : List Lit → Prop}

/-! ### Properties of clauses that simplification preserves -/

/-- Properties of single clauses that hold for all clauses which simplification makes of clauses with this property. -/
structure Hered (K : List Lit → Prop) : Prop where
  perm : ∀ {c d : List Lit}, c.Perm d → K d → K c
  drop : ∀ {c : List Lit} {l : Lit}, (c.map Lit.var).Nodup → l ∈ c → 1 < c.length → K c → K (c.filter fun x => x != l)
  unit : ∀ l, K [l]
  resolve : ∀ {c d r : List Lit} {v : Nat}, pos v ∈ c → neg v ∈ d → K c → K d → r ≠ [] →
    (∀ l, l ∈ r ↔ (l ∈ c ∨ l ∈ d) ∧ l.var ≠ v) → K r

/-- The clauses considered: those in the list of clauses, or all ever stored. -/
def Idx (b : Bool) (db : DB) (c : Nat) : Prop := if b then c ∈ db.clauses else c < db.next

/-- All these clauses have property `K`. -/
def AllK (b : Bool) (K : List Lit → Prop) (db : DB) : Prop := ∀ c, Idx b db c → K (db.lits c)

theorem Idx.ofMem {db : DB} (hd : DBOk F db) {c : Nat} (h : c ∈ db.clauses) : Idx b db c := by
  unfold Idx; split
  · exact h
  · exact hd.mem c h

theorem Idx.lt {db : DB} (hd : DBOk F db) {c : Nat} (h : Idx b db c) : c < db.next := by
  unfold Idx at h; split at h
  · exact hd.mem c h
  · exact h

theorem AllK.ofPerm {db db' : DB} (hK : Hered K) (h : AllK b K db) (hn : db'.next = db.next)
    (hcl : db'.clauses = db.clauses) (hl : ∀ c, (db'.lits c).Perm (db.lits c)) : AllK b K db' := by
  intro c hc
  refine hK.perm (hl c) (h c ?_)
  unfold Idx at hc ⊢
  rwa [hn, hcl] at hc

theorem AllK.createClause {db : DB} (h : AllK b K db) {ls : List Lit} (hl : K ls)
    (lbd : Nat) (lem : Bool) : AllK b K (db.createClause ls lbd lem).1 := by
  intro c hc
  rw [createClause_lits]
  split
  · exact hl
  · next hn =>
    refine h c ?_
    unfold Idx at hc ⊢
    cases b with
    | true =>
      simp only [if_true, createClause_clauses, List.mem_append, List.mem_singleton] at hc ⊢
      exact hc.resolve_right hn
    | false =>
      simp only [Bool.false_eq_true, if_false, createClause_next] at hc ⊢
      omega

theorem AllK.removeClause {db : DB} (hK : Hered K) (h : AllK b K db) (c : Nat) : AllK b K (db.removeClause c) :=
  h.ofPerm hK (removeClause_next _ _) (removeClause_clauses _ _) fun d => by rw [removeClause_lits]

theorem AllK.strengthenClause {db : DB} (hK : Hered K) (hd : DBOk F db) (h : AllK b K db) {c : Nat} (hc : c ∈ db.clauses)
    {l : Lit} (hl : l ∈ db.lits c) (h1 : 1 < (db.lits c).length) :
    AllK b K (db.strengthenClause c l).1 :=
  AllK.removeClause hK (h.createClause (hK.drop (hd.nd c (hd.mem c hc)) hl h1 (h c (.ofMem hd hc))) _ _) c

theorem AllK.reorganize {db : DB} (hd : DBOk F db) (h : AllK b K db) : AllK b K db.reorganize := by
  intro i hi
  have hi : i < db.reorganize.next := by
    unfold Idx at hi
    split at hi
    · rw [reorganize_clauses, List.mem_range] at hi; exact hi
    · exact hi
  obtain ⟨c, -, hc, -, he⟩ := reorganize_get hi
  have : db.reorganize.lits i = db.lits c := by unfold DB.lits; rw [he]
  rw [this]
  exact h c (.ofMem hd hc)

theorem AllK.removeFold (hK : Hered K) : ∀ (cs : List Nat) {db : DB}, AllK b K db → AllK b K (cs.foldl DB.removeClause db)
  | [], _, h => h
  | c :: cs, _, h => AllK.removeFold hK cs (h.removeClause hK c)

theorem AllK.gstep {s t : SDB} (hK : Hered K) (hs : SOk F s) (h : AllK b K s.db) (he : GStep F s t) : AllK b K t.db := by
  cases he with
  | sub h' =>
    cases h' with
    | copy hj => exact h.createClause (h _ (.ofMem hs.db (hs.obj _ _ hj))) _ _
    | remove he hi hj hij hsub hw =>
      obtain ⟨c, -, rfl⟩ := remove_eq he
      exact h.removeClause hK c
    | strengthen he hi hj hij hl hmem hlen hsub =>
      obtain ⟨c, hc, rfl⟩ := strengthen_eq he
      rw [hi] at hc
      simp only [Option.some.injEq] at hc
      subst hc
      exact h.strengthenClause hK hs.db (hs.obj _ _ hi) hmem hlen
  | shrink he hent hlen =>
    obtain ⟨c, hc, rfl⟩ := strengthen_eq he
    exact h.strengthenClause hK hs.db (hs.obj _ _ hc) (hent c hc).1 (hlen c hc)
  | perm hp => exact h.ofPerm hK rfl rfl fun c => (hp c).1

theorem AllK.gsteps {s t : SDB} (hK : Hered K) (hs : SOk F s) (h : AllK b K s.db) (he : GSteps F s t) : AllK b K t.db := by
  induction he with
  | refl => exact h
  | cons a _ ih => exact ih (a.sound hs).1 (h.gstep hK hs a)

theorem AllK.adds {db db' : DB} {T : Trail} (hK : Hered K) (hd' : DBOk F db') (h : AllK b K db)
    (ha : AddsUnits db db' T) : AllK b K db' := by
  intro c hc
  by_cases hn : c < db.next
  · refine hK.perm (ha.lits c hn) (h c ?_)
    unfold Idx at hc ⊢
    cases b with
    | true =>
      simp only [if_true] at hc ⊢
      obtain ⟨e, h1, h2⟩ := ha.clauses
      rw [h1] at hc
      rcases List.mem_append.1 hc with hc | hc
      · exact hc
      · have := (h2 c hc).1; omega
    | false => simpa using hn
  · obtain ⟨l, -, hl⟩ := ha.news c (by omega) (hc.lt hd')
    rw [hl]; exact hK.unit l

theorem AllK.materialize {sys : Sys} {s : Solver} (hK : Hered K) (hp : PInv F sys) (h : AllK b K sys.sol.db)
    (he : Candy.materialize sys.sol = some s) : AllK b K s.db := by
  cases hh : sys.sol.db.hasEmpty with
  | true =>
    obtain ⟨s', h1, h2, h3, -⟩ := materialize_empty hp.db hh
    rw [h1] at he; cases he
    exact h.ofPerm hK h3.next h3.clauses fun c => by unfold DB.lits; rw [h3.store]
  | false =>
    obtain ⟨s', h1, h2⟩ := materialize_spec hp.db (hp.l0 hh)
    rw [h1] at he; cases he
    exact h.adds hK h2.db h2.add

theorem countResolvents_go {v bound lim : Nat} : ∀ (ps : List (List Lit × List Lit)) (n : Nat),
    countResolvents v bound lim ps n = .go → ∀ p ∈ ps, mergeSize p.1 p.2 v ≠ some 0
  | [], _, _, p, hp => by cases hp
  | (x, y) :: ps, n, h, p, hp => by
    rw [countResolvents] at h
    split at h
    · next hm =>
      rcases List.mem_cons.1 hp with rfl | hp
      · show mergeSize x y v ≠ _; rw [hm]; simp
      · exact countResolvents_go ps n h p hp
    · next size hm =>
      split at h
      · cases h
      · next h0 =>
        split at h
        · cases h
        · rcases List.mem_cons.1 hp with rfl | hp
          · show mergeSize x y v ≠ _; rw [hm]; simpa using h0
          · exact countResolvents_go ps _ h p hp

theorem AllK.createResolvents (hK : Hered K) {v : Nat} : ∀ (ps : List (Nat × Nat)) (s : SDB), SOk F s → ResPairs v s.db ps →
    (∀ p ∈ ps, p.1 ∈ s.db.clauses ∧ p.2 ∈ s.db.clauses ∧ mergeSize (s.db.lits p.1) (s.db.lits p.2) v ≠ some 0) →
    AllK b K s.db → AllK b K (createResolvents v ps s).db
  | [], _, _, _, _, h => h
  | (p, n) :: ps, s, hs, hp, hz, h => by
    have hp' : ResPairs v s.db ps := fun q hq => hp q (by simp [hq])
    obtain ⟨h1, h2, h3, h4⟩ := hp (p, n) (by simp)
    obtain ⟨z1, z2, z3⟩ := hz (p, n) (by simp)
    rw [Candy.createResolvents]
    split
    · exact AllK.createResolvents hK ps s hs hp' (fun q hq => hz q (by simp [hq])) h
    · rename_i r hr
      dsimp only at h1 h2 h3 h4 z1 z2 z3
      obtain ⟨m1, m2⟩ := merge_some (hs.db.nd p h1) (hs.db.nd n h2) hr
      generalize min (min (s.db.store p).weight (s.db.store n).weight) ((r.length - 1) % 65536) = lbd
      have hs' : SOk F (s.create r lbd) := by
        refine hs.create ?_ m2 (entails_resolvent (hs.db.nd p h1) (hs.db.nd n h2) hr h3 h4
          (hs.db.ent p h1) (hs.db.ent n h2))
        intro l hl
        rcases ((m1 l).1 hl).1 with h | h
        · exact hs.db.wf p h1 l h
        · exact hs.db.wf n h2 l h
      have hx := DBExt.create s r lbd
      have hr0 : r ≠ [] := by
        rintro rfl
        rw [mergeSize_eq (hs.db.nd p h1) (hs.db.nd n h2) ⟨_, h3, rfl⟩ ⟨_, h4, rfl⟩] at z3
        exact z3 (by change Option.map List.length (merge (s.db.lits p) (s.db.lits n) v) = _; rw [hr]; rfl)
      refine AllK.createResolvents hK ps _ hs' ?_ ?_ ?_
      · intro q hq
        obtain ⟨a1, a2, a3, a4⟩ := hp' q hq
        refine ⟨Nat.lt_of_lt_of_le a1 hx.next, Nat.lt_of_lt_of_le a2 hx.next, ?_, ?_⟩
        · rw [hx.lits _ a1]; exact a3
        · rw [hx.lits _ a2]; exact a4
      · intro q hq
        obtain ⟨a1, a2, -, -⟩ := hp' q hq
        obtain ⟨w1, w2, w3⟩ := hz q (by simp [hq])
        refine ⟨?_, ?_, ?_⟩
        · rw [create_db, createClause_clauses]; exact List.mem_append_left _ w1
        · rw [create_db, createClause_clauses]; exact List.mem_append_left _ w2
        · rw [hx.lits _ a1, hx.lits _ a2]; exact w3
      · exact h.createClause (hK.resolve h3 h4 (h p (.ofMem hs.db z1)) (h n (.ofMem hs.db z2)) hr0 m1) _ _

theorem AllK.removeAll (hK : Hered K) : ∀ (is : List Nat) (s s' : SDB), Candy.removeAll is s = some s' →
    AllK b K s.db → AllK b K s'.db
  | [], s, s', he, h => by simp only [Candy.removeAll, Option.some.injEq] at he; subst he; exact h
  | i :: is, s, s', he, h => by
    rw [Candy.removeAll] at he
    split at he
    · cases he
    · next s1 h1 =>
      obtain ⟨c, -, rfl⟩ := remove_eq h1
      exact AllK.removeAll hK is _ s' he (h.removeClause hK c)

theorem AllK.eliminateStep (hK : Hered K) {lim v : Nat} {st st' : VES} {x : Bool} (hs : SOk F st.s)
    (he : eliminateStep lim st v = some (st', x)) (h : AllK b K st.s.db) : AllK b K st'.s.db := by
  rw [Candy.eliminateStep] at he
  split at he
  · split at he
    · cases he
    · rename_i os hos
      have ho := occsOf_filter hs hos
      dsimp only at he
      revert he
      generalize (os.filter fun x => decide ((⟨v, false⟩ : Lit) ∈ st.s.db.lits x.2)) = ps at ho
      generalize (os.filter fun x => !decide ((⟨v, false⟩ : Lit) ∈ st.s.db.lits x.2)) = ns at ho
      intro he
      rw [eliminateVar] at he
      split at he
      · cases he; exact h
      · dsimp only at he
        split at he
        · cases he; exact h
        · cases he; exact h
        · next hcnt =>
          split at he
          · cases he
          · rename_i s' hs'
            cases he
            refine AllK.removeAll hK _ _ s' hs' (AllK.createResolvents hK _ _ hs ?_ ?_ h)
            · intro q hq
              rw [mem_pairs] at hq
              obtain ⟨x, hx, e1⟩ := List.mem_map.1 hq.1
              obtain ⟨y, hy, e2⟩ := List.mem_map.1 hq.2
              rw [← e1, ← e2]
              exact ⟨hs.lt (ho.objP x hx), hs.lt (ho.objN y hy), ho.memP x hx, ho.memN y hy⟩
            · intro q hq
              rw [mem_pairs] at hq
              obtain ⟨x, hx, e1⟩ := List.mem_map.1 hq.1
              obtain ⟨y, hy, e2⟩ := List.mem_map.1 hq.2
              rw [← e1, ← e2]
              refine ⟨hs.obj _ _ (ho.objP x hx), hs.obj _ _ (ho.objN y hy), ?_⟩
              refine countResolvents_go _ _ hcnt (st.s.db.lits x.2, st.s.db.lits y.2) ?_
              rw [mem_pairs]
              exact ⟨List.mem_map.2 ⟨x, hx, rfl⟩, List.mem_map.2 ⟨y, hy, rfl⟩⟩
  · cases he; exact h

theorem AllK.eliminateList (hK : Hered K) {lim : Nat} : ∀ (vs : List Nat) (st st' : VES) (x : Bool), SOk F st.s →
    VEOk F st.s.db.nVars st.ve → eliminateList lim vs st = some (st', x) → AllK b K st.s.db → AllK b K st'.s.db
  | [], st, st', x, _, _, he, h => by cases he; exact h
  | v :: vs, st, st', x, hs, hv, he, h => by
    rw [Candy.eliminateList] at he
    split at he
    · cases he
    · next st1 h1 => cases he; exact AllK.eliminateStep hK hs h1 h
    · next st1 h1 =>
      obtain ⟨a, -, c, -⟩ := eliminateStep_sound hs hv h1
      exact AllK.eliminateList hK vs st1 st' x a c he (AllK.eliminateStep hK hs h1 h)

theorem AllK.after {p : Proc} (hK : Hered K) (h : AllK b K p.sys.sol.db) (x y : Bool) :
    AllK b K (p.after x y).sys.sol.db := by
  cases x <;> cases y <;> exact h.ofPerm hK rfl rfl fun _ => .refl _

theorem AllK.procMaterialize {p p' : Proc} (hK : Hered K) (hq : QInv F p) (h : AllK b K p.sys.sol.db)
    (he : p.materialize = some p') : AllK b K p'.sys.sol.db := by
  obtain ⟨s, hs, rfl⟩ := Option.map_eq_some_iff.1 he
  exact h.materialize hK hq.inv hs

theorem AllK.subsume {p p' : Proc} {r : PreRound} (hK : Hered K) (hq : QInv F p) (h : AllK b K p.sys.sol.db)
    (he : p.subsume r = some p') : AllK b K p'.sys.sol.db := by
  obtain ⟨x, hx, rfl⟩ := Option.map_eq_some_iff.1 he
  obtain ⟨h1, -⟩ := subsumeAll_steps hq.ok hx
  exact AllK.after (p := p.setSdb x.1) hK (AllK.gsteps (s := p.sdb) hK hq.ok h h1.toG) _ _

theorem AllK.reduce {p p' : Proc} {cfg : Config} {r : PreRound} (hK : Hered K) (hq : QInv F p)
    (hne : p.sys.sol.db.hasEmpty = false) (h : AllK b K p.sys.sol.db) (he : p.reduce cfg r = some p') :
    AllK b K p'.sys.sol.db := by
  obtain ⟨x, hx, rfl⟩ := Option.map_eq_some_iff.1 he
  have hl := hq.inv.l0 hne
  have ha : AOk F ⟨p.sdb, p.sys.sol.watch, p.sys.sol.trail⟩ := ⟨hq.ok, hl.core, hl.watch, hl.lim⟩
  obtain ⟨-, h2, -⟩ := asymAll_spec ha hx
  exact AllK.after hK (AllK.gsteps (s := p.sdb) hK hq.ok h h2) _ _

theorem AllK.eliminate {p p' : Proc} {cfg : Config} {r : PreRound} (hK : Hered K) (hq : QInv F p)
    (h : AllK b K p.sys.sol.db) (he : p.eliminate cfg r = some p') : AllK b K p'.sys.sol.db := by
  obtain ⟨x, hx, rfl⟩ := Option.map_eq_some_iff.1 he
  refine AllK.after hK ?_ _ _
  have hve' : VEOk F p.sys.sol.db.nVars (p.sys.ve.freeze p.sys.sol.trail) := ⟨hq.inv.ve.ent, hq.inv.ve.wf, hq.inv.ve.nd⟩
  simp only [eliminateAll] at hx
  split at hx
  · exact AllK.eliminateList hK _ _ x.1 x.2 hq.ok hve' hx h
  · cases hx; exact h

theorem AllK.round {p p' : Proc} {cfg : Config} {r : PreRound} {x : Bool} (hK : Hered K) (hq : QInv F p)
    (h : AllK b K p.sys.sol.db) (he : p.round cfg r = some (p', x)) : AllK b K p'.sys.sol.db := by
  simp only [Proc.round] at he
  split at he
  · cases he
  next p1 h1 =>
  have k1 := h.procMaterialize hK hq h1
  have q1 := (hq.materialize h1).1
  split at he
  · cases he; exact k1
  split at he
  · cases he
  next p2 h2 =>
  obtain ⟨q, hq1, h2⟩ := Option.bind_eq_some_iff.1 h2
  have qs := (q1.subsume hq1).1
  have k2 := (k1.subsume hK q1 hq1).procMaterialize hK qs h2
  have q2 := (qs.materialize h2).1
  split at he
  · cases he; exact k2
  next hne2 =>
  split at he
  · cases he
  next p3 h3 =>
  obtain ⟨q, hq3, h3⟩ := Option.bind_eq_some_iff.1 h3
  have qr := (q2.reduce (by simpa using hne2) hq3).1
  have k3 := (k2.reduce hK q2 (by simpa using hne2) hq3).procMaterialize hK qr h3
  have q3 := (qr.materialize h3).1
  split at he
  · cases he; exact k3
  · obtain ⟨q, hq4, he⟩ := Option.map_eq_some_iff.1 he
    cases he
    exact k3.eliminate hK q3 hq4

theorem AllK.rounds {cfg : Config} (hK : Hered K) : ∀ (rs : List PreRound) (p p' : Proc), QInv F p →
    AllK b K p.sys.sol.db → Proc.rounds cfg rs p = some p' → AllK b K p'.sys.sol.db
  | [], p, p', _, h, he => by cases he; exact h
  | r :: rs, p, p', hq, h, he => by
    rw [Proc.rounds] at he
    split at he
    · cases he
    · next q h1 => cases he; exact h.round hK hq h1
    · next q h1 => exact AllK.rounds hK rs q p' (hq.round h1).1 (h.round hK hq h1) he

theorem AllK.process {cfg : Config} {rs : List PreRound} {sys sys' : Sys} (hK : Hered K) (hp : PInv F sys)
    (h : AllK b K sys.sol.db) (he : process cfg rs sys = some sys') : AllK b K sys'.sol.db := by
  unfold Candy.process at he
  obtain ⟨p, hp', rfl⟩ := Option.map_eq_some_iff.1 he
  have hok : SOk F (SDB.init sys.sol.db) := SOk.init hp.db
  have hq : QInv F ⟨sys, (SDB.init sys.sol.db).obj, (SDB.init sys.sol.db).occ⟩ := by
    refine ⟨hp, ?_⟩
    have e : (SDB.init sys.sol.db) = ⟨sys.sol.db, (SDB.init sys.sol.db).obj,
      (SDB.init sys.sol.db).occ⟩ := by
      conv => lhs; rw [show SDB.init sys.sol.db = ⟨(SDB.init sys.sol.db).db,
        (SDB.init sys.sol.db).obj, (SDB.init sys.sol.db).occ⟩ from rfl, init_db]
    rw [e] at hok; exact hok
  exact AllK.rounds hK rs _ p hq h hp'

theorem AllK.reduceStep {cfg : Config} {r : Round} {sys sys' : Sys} (hK : Hered K) (hp : PInv F sys)
    (hs : ∀ xs, ∀ x ∈ r.sort xs, x ∈ xs)
    (h : AllK b K sys.sol.db) (he : reduceStep cfg r sys = some sys') : AllK b K sys'.sol.db := by
  unfold Candy.reduceStep at he
  split at he
  · dsimp only at he
    obtain ⟨sys1, h1, rfl⟩ := Option.map_eq_some_iff.1 he
    split at h1
    · exact (h.process hK hp h1).reorganize (hp.process h1).1.db
    · cases h1
      refine AllK.reorganize (F := F) ?_ (AllK.removeFold hK _ h)
      exact (Candy.removeFold _ _ hp.db fun c hc =>
        hp.db.mem c (List.mem_filter.1 (hs _ _ (mem_reduceVictims hc))).1).1
  · cases he; exact h

/-! ### The two properties -/

theorem hered_nonempty : Hered fun c => c ≠ [] where
  perm h hd := by rintro rfl; exact hd h.symm.eq_nil
  drop := by
    intro c l hn hl h1 _ he
    rw [List.filter_eq_nil_iff] at he
    match c, h1 with
    | x :: y :: r, _ =>
      have hx := he x (by simp)
      have hy := he y (by simp)
      simp only [bne_iff_ne, ne_eq, Decidable.not_not] at hx hy
      subst hx; subst hy
      simp at hn
  unit l := by simp
  resolve _ _ _ _ h _ := h

theorem two_of_mem {c : List Lit} {x y : Lit} (hx : x ∈ c) (hy : y ∈ c) (h : x.var ≠ y.var) : 2 ≤ c.length := by
  match c with
  | [] => cases hx
  | [z] =>
    simp only [List.mem_singleton] at hx hy
    subst hx; subst hy; exact (h rfl).elim
  | _ :: _ :: _ => simp

/-- All variables in clauses with at least two literals satisfy `P`. -/
def LongIn (P : Nat → Prop) (c : List Lit) : Prop := 2 ≤ c.length → ∀ l ∈ c, P l.var

theorem hered_longIn (P : Nat → Prop) : Hered (LongIn P) where
  perm h hd h2 l hl := hd (by rw [← h.length_eq]; exact h2) l (h.mem_iff.1 hl)
  drop _ _ h1 hc _ l hl := hc h1 l (List.mem_filter.1 hl).1
  unit l h := by simp at h
  resolve := by
    intro c d r v hc hd kc kd _ hr _ l hl
    obtain ⟨h1, h2⟩ := (hr l).1 hl
    rcases h1 with h1 | h1
    · exact kc (two_of_mem h1 hc h2) l h1
    · exact kd (two_of_mem h1 hd h2) l h1

end Candy
