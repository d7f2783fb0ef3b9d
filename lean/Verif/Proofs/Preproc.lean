import Verif.Proofs.Recon

/-! The simplification loop for a database of permanent clauses. -/

namespace Candy

variable {F G : CNF}

/-- Variables assigned on the trail. -/
def Assigned (T : Trail) (v : Nat) : Prop := ∃ l ∈ T.stack, l.var = v

/-- What `std::sort` guarantees. -/
def PreRound.Valid (r : PreRound) : Prop := ∀ f xs, ∀ x ∈ r.order f xs, x ∈ xs

/-- Invariant of the simplification loop. -/
structure Body (G : CNF) (p : Proc) : Prop where
  live : LOk (Assigned p.sys.sol.trail) p.sdb
  clean : ∀ c, LiveId p.sys.sol.db c → ∀ l ∈ p.sys.sol.db.lits c, l.var ∉ p.sys.ve.vars
  cls : ∀ v, v ∉ p.sys.ve.vars → p.sys.ve.cls v = []
  dec : ∀ v, v < p.sys.sol.db.nVars → (p.sys.sol.trail.decision v = true ↔ v ∉ p.sys.ve.vars)
  recon : Recon G p.sys.sol.db.nVars p.sys.ve.vars p.sys.ve.cls p.sys.sol.db.cnf
  asm : ∀ l ∈ p.sys.sol.trail.assumptions, l.var ∉ p.sys.ve.vars

/-- No eliminated variable is assigned. -/
def NoElim (sys : Sys) : Prop := ∀ v ∈ sys.ve.vars, ¬ Assigned sys.sol.trail v

/-- Assignments and eliminations are kept. -/
structure Mono (p p' : Proc) : Prop where
  vars : ∀ v ∈ p.sys.ve.vars, v ∈ p'.sys.ve.vars
  stack : ∀ l ∈ p.sys.sol.trail.stack, l ∈ p'.sys.sol.trail.stack

theorem Mono.refl (p : Proc) : Mono p p := ⟨fun _ h => h, fun _ h => h⟩
theorem Mono.trans {a b c : Proc} (h : Mono a b) (h' : Mono b c) : Mono a c :=
  ⟨fun v hv => h'.vars v (h.vars v hv), fun l hl => h'.stack l (h.stack l hl)⟩

theorem Mono.noElim {p p' : Proc} (h : Mono p p') (hn : NoElim p'.sys) : NoElim p.sys := by
  rintro v hv ⟨l, hl, hlv⟩
  exact hn v (h.vars v hv) ⟨l, h.stack l hl, hlv⟩

/-- What every stage of the loop guarantees when no contradiction was found. -/
structure Stage (G : CNF) (p p' : Proc) : Prop where
  empty : p.sys.sol.db.hasEmpty = false
  mono : Mono p p'
  body : NoElim p'.sys → Body G p → Body G p'

theorem Stage.refl {p : Proc} (h : p.sys.sol.db.hasEmpty = false) : Stage G p p :=
  ⟨h, Mono.refl p, fun _ h => h⟩

theorem Stage.trans {a b c : Proc} (h : Stage G a b) (h' : Stage G b c) : Stage G a c :=
  ⟨h.empty, h.mono.trans h'.mono, fun hn hb => h'.body hn (h.body (h'.mono.noElim hn) hb)⟩

theorem mat_refines {s s' : Solver} (hd : DBOk F s.db) (hm : AddsUnits s.db s'.db s'.trail) :
    Refines s.db.cnf s'.db.cnf ∧
    (∀ d, LiveId s'.db d → (LiveId s.db d ∧ (s'.db.lits d).Perm (s.db.lits d)) ∨
      ∃ l ∈ s'.trail.stack, s'.db.lits d = [l]) ∧
    (∀ d, LiveId s.db d → LiveId s'.db d) := by
  have h3 : ∀ d, LiveId s.db d → LiveId s'.db d := by
    intro d hd'
    refine ⟨hm.mem hd'.1, ?_⟩
    rw [hm.weight d (hd.mem d hd'.1)]; exact hd'.2
  refine ⟨?_, ?_, h3⟩
  · intro K hK
    obtain ⟨c, hc, rfl⟩ := mem_cnf.1 hK
    refine ⟨_, mem_cnf.2 ⟨c, h3 c hc, rfl⟩, ?_⟩
    intro x hx
    exact (hm.lits c (hd.mem c hc.1)).mem_iff.1 hx
  · intro d hd'
    obtain ⟨ext, e1, e2⟩ := hm.clauses
    have := hd'.1
    rw [e1, List.mem_append] at this
    rcases this with h | h
    · left
      have hlt := hd.mem d h
      refine ⟨⟨h, ?_⟩, hm.lits d hlt⟩
      rw [← hm.weight d hlt]; exact hd'.2
    · right
      obtain ⟨_, _, _, l, hl, e⟩ := e2 d h
      exact ⟨l, hl, e⟩

/-- A step that only adds units and literals to the trail. -/
theorem Stage.ofMat {p : Proc} {s : Solver} (h : QInv F p) (hp : p.sys.sol.db.hasEmpty = false)
    (hm : Mat F p.sys.sol s) : Stage G p { p with sys := { p.sys with sol := s } } := by
  obtain ⟨r1, r2, r3⟩ := mat_refines h.inv.db hm.add
  refine ⟨hp, ⟨fun _ h => h, fun l hl => hm.grow.mem hl⟩, fun hn hb => ?_⟩
  have hlt : ∀ i c : Nat, p.obj[i]? = some (some c) → c < p.sys.sol.db.next := fun i c hi => h.ok.lt hi
  refine ⟨⟨?_, hb.live.inj, ?_, ?_, ?_⟩, ?_, hb.cls, ?_, ?_, ?_⟩
  · intro c hc
    obtain ⟨ext, e1, e2⟩ := hm.add.clauses
    have hc : c ∈ s.db.clauses := hc
    rw [e1, List.mem_append] at hc
    rcases hc with hc | hc
    · have := hb.live.zero c hc
      show (s.db.store c).weight = 0 ∨ (s.db.store c).weight = 65535
      rw [hm.add.weight c (h.inv.db.mem c hc)]; exact this
    · exact Or.inl (e2 c hc).2.2.1
  · intro i c hi
    show (s.db.store c).weight = 0
    rw [hm.add.weight c (hlt i c hi)]
    exact hb.live.alive i c hi
  · intro i c hi l hl
    exact hb.live.occAll i c hi l ((hm.add.lits c (hlt i c hi)).mem_iff.1 hl)
  · intro c hc
    rcases r2 c hc with ⟨k1, k2⟩ | ⟨l, k1, k2⟩
    · rcases hb.live.listed c k1 with h2 | ⟨l, h2, x, h3, h4⟩
      · exact Or.inl h2
      · right
        have h2 : p.sys.sol.db.lits c = [l] := h2
        rw [h2] at k2
        exact ⟨l, List.perm_singleton.1 k2, x, hm.grow.mem h3, h4⟩
    · exact Or.inr ⟨l, k2, l, k1, rfl⟩
  · intro c hc l hl
    rcases r2 c hc with ⟨k1, k2⟩ | ⟨x, k1, k2⟩
    · exact hb.clean c k1 l (k2.mem_iff.1 hl)
    · have hl : l ∈ s.db.lits c := hl
      rw [k2] at hl
      simp at hl; subst hl
      exact fun hv => hn l.var hv ⟨l, k1, rfl⟩
  · intro v hv
    have hv : v < s.db.nVars := hv
    rw [hm.add.nVars] at hv
    show s.trail.decision v = true ↔ _
    rw [hm.grow.decision]; exact hb.dec v hv
  · show Recon G s.db.nVars _ _ s.db.cnf
    rw [hm.add.nVars]; exact hb.recon.refine r1
  · show ∀ l ∈ s.trail.assumptions, _
    rw [hm.grow.assumptions]; exact hb.asm

theorem Stage.materialize {p p' : Proc} (h : QInv F p) (he : p.materialize = some p')
    (hne : p'.sys.sol.db.hasEmpty = false) : Stage G p p' := by
  have hp : p.sys.sol.db.hasEmpty = false := by
    cases hb : p.sys.sol.db.hasEmpty with
    | false => rfl
    | true =>
      have := (h.materialize he).2.hasEmpty hb
      rw [this] at hne; simp at hne
  obtain ⟨s, h1, hm⟩ := materialize_spec h.inv.db (h.inv.l0 hp)
  unfold Proc.materialize at he
  rw [h1] at he
  simp at he; subst he
  exact Stage.ofMat h hp hm

theorem after_hasEmpty {p : Proc} {ok clean : Bool}
    (hne : (p.after ok clean).sys.sol.db.hasEmpty = false) :
    p.sys.sol.db.hasEmpty = false ∧ ok = true := by
  unfold Proc.after at hne
  cases ok <;> cases clean <;>
    simp_all [Proc.setSdb, Proc.sdb, SDB.cleanup, DB.emptyClause]

theorem Stage.after {p : Proc} {ok clean : Bool}
    (hne : (p.after ok clean).sys.sol.db.hasEmpty = false) : Stage G p (p.after ok clean) := by
  obtain ⟨h1, rfl⟩ := after_hasEmpty hne
  cases clean with
  | false => exact Stage.refl h1
  | true =>
    refine ⟨h1, ⟨fun _ h => h, fun _ h => h⟩, fun _ hb => ?_⟩
    exact ⟨hb.live.cleanup, hb.clean, hb.cls, hb.dec, hb.recon, hb.asm⟩

theorem hasEmpty_mono {a b : Bool} (h : a = true → b = true) (hb : b = false) : a = false := by
  cases a with
  | false => rfl
  | true => rw [h rfl] at hb; simp at hb

theorem Stage.subsume {p p' : Proc} {r : PreRound} (h : QInv F p) (he : p.subsume r = some p')
    (hne : p'.sys.sol.db.hasEmpty = false) : Stage G p p' := by
  unfold Proc.subsume at he
  cases hs : subsumeAll r.before r.fuel p.sdb with
  | none => rw [hs] at he; simp at he
  | some x =>
    obtain ⟨s, b⟩ := x
    rw [hs] at he
    simp at he; subst he
    obtain ⟨h1, h2⟩ := subsumeAll_steps h.ok hs
    obtain ⟨h3, h4⟩ := h1.sound h.ok
    refine Stage.trans ?_ (Stage.after hne)
    have hne1 := (after_hasEmpty hne).1
    refine ⟨hasEmpty_mono h4.hasEmpty hne1, ⟨fun _ h => h, fun _ h => h⟩, fun hn hb => ?_⟩
    obtain ⟨g1, g2, g3⟩ := (SSteps.toG (F := F) h1).live h.ok hb.live
    refine ⟨g1, ?_, hb.cls, ?_, ?_, hb.asm⟩
    · intro c hc l hl
      obtain ⟨K, hK, hsub⟩ := g3 _ (mem_cnf.2 ⟨c, hc, rfl⟩)
      obtain ⟨c0, hc0, rfl⟩ := mem_cnf.1 hK
      exact hb.clean c0 hc0 l (hsub l hl)
    · intro v hv
      have hv : v < s.db.nVars := hv
      rw [h4.nVars] at hv
      exact hb.dec v hv
    · show Recon G s.db.nVars _ _ s.db.cnf
      rw [h4.nVars]
      exact hb.recon.refine g2

/-- A step that strengthens clauses and leaves the trail as it was. -/
theorem Stage.ofReduce {p : Proc} {s : SDB} {T : Trail} {w : Lit → List Watcher} (h : QInv F p)
    (hne0 : p.sys.sol.db.hasEmpty = false) (h2 : GSteps F p.sdb s) (h3 : TEq p.sys.sol.trail T) :
    Stage G p (Proc.mk { p.sys with sol := { p.sys.sol with db := s.db, watch := w, trail := T } }
      s.obj s.occ) := by
  obtain ⟨_, hx⟩ := h2.sound h.ok
  have hv : s.db.nVars = p.sys.sol.db.nVars := hx.nVars
  have hst : T.stack = p.sys.sol.trail.stack := h3.stack
  have hAs : Assigned T = Assigned p.sys.sol.trail := by
    funext v; unfold Assigned; rw [hst]
  refine ⟨hne0, ⟨fun _ h => h, fun l hl' => ?_⟩, fun hn hb => ?_⟩
  · show l ∈ T.stack
    rw [hst]; exact hl'
  obtain ⟨g1, g2, g3⟩ := h2.live h.ok hb.live
  refine ⟨?_, ?_, hb.cls, ?_, ?_, ?_⟩
  · show LOk (Assigned T) s
    rw [hAs]; exact g1
  · intro c hc l hl'
    obtain ⟨K, hK, hsub⟩ := g3 _ (mem_cnf.2 ⟨c, hc, rfl⟩)
    obtain ⟨c0, hc0, rfl⟩ := mem_cnf.1 hK
    exact hb.clean c0 hc0 l (hsub l hl')
  · intro v hv'
    have hv' : v < s.db.nVars := hv'
    rw [hv] at hv'
    show T.decision v = true ↔ _
    rw [h3.decision]
    exact hb.dec v hv'
  · show Recon G s.db.nVars _ _ s.db.cnf
    rw [hv]
    exact hb.recon.refine g2
  · show ∀ l ∈ T.assumptions, _
    rw [h3.assumptions]; exact hb.asm

theorem Stage.reduce {p p' : Proc} {cfg : Config} {r : PreRound} (h : QInv F p)
    (hne0 : p.sys.sol.db.hasEmpty = false) (he : p.reduce cfg r = some p')
    (hne : p'.sys.sol.db.hasEmpty = false) : Stage G p p' := by
  unfold Proc.reduce at he
  cases hs : asymAll cfg.useAsymm ⟨p.sdb, p.sys.sol.watch, p.sys.sol.trail⟩ with
  | none => rw [hs] at he; simp at he
  | some x =>
    obtain ⟨st, b⟩ := x
    rw [hs] at he
    simp at he; subst he
    have hl := h.inv.l0 hne0
    have ha : AOk F ⟨p.sdb, p.sys.sol.watch, p.sys.sol.trail⟩ := ⟨h.ok, hl.core, hl.watch, hl.lim⟩
    obtain ⟨h1, h2, h3, h4⟩ := asymAll_spec ha hs
    exact Stage.trans (Stage.ofReduce h hne0 h2 h3) (Stage.after hne)

theorem assigned_iff {T : Trail} (h : T.Inv) {v : Nat} : Assigned T v ↔ T.assigns v ≠ none := by
  constructor
  · rintro ⟨l, hl, rfl⟩ hn
    have := (h.val l).2 hl
    rw [(Trail.value_none_iff T l).2 hn] at this
    simp at this
  · intro hn
    cases hv : T.assigns v with
    | none => exact (hn hv).elim
    | some b =>
      refine ⟨⟨v, !b⟩, (h.val _).1 ?_, rfl⟩
      unfold Trail.value
      simp [hv]

theorem Stage.eliminate {p p' : Proc} {cfg : Config} {r : PreRound} (h : QInv F p) (hr : r.Valid)
    (he : p.eliminate cfg r = some p') (hne : p'.sys.sol.db.hasEmpty = false) :
    Stage G p p' ∧ (Body G p → p.sys.ve.vars = [] → NoElim p'.sys) := by
  unfold Proc.eliminate at he
  cases hs : eliminateAll cfg.useElim cfg.clauseLim r.order ⟨p.sdb, p.sys.ve, p.sys.sol.trail⟩ with
  | none => rw [hs] at he; simp at he
  | some x =>
    obtain ⟨st, b⟩ := x
    rw [hs] at he
    simp at he; subst he
    obtain ⟨h1, h2, h3, h4, h5⟩ := eliminateAll_sound (F := F)
      (st := ⟨p.sdb, p.sys.ve, p.sys.sol.trail⟩) h.ok h.inv.ve hs
    obtain ⟨hne1, hbt⟩ := after_hasEmpty hne
    subst hbt
    have hne0 : p.sys.sol.db.hasEmpty = false := hasEmpty_mono h2.hasEmpty hne1
    have hti := (h.inv.l0 hne0).core.tinv
    have hv : st.s.db.nVars = p.sys.sol.db.nVars := h2.nVars
    have hst : st.T.stack = p.sys.sol.trail.stack := h4.stack
    have hAs : Assigned st.T = Assigned p.sys.sol.trail := by
      funext v; unfold Assigned; rw [hst]
    have key : Body G p → _ := fun hb =>
      EOk.eliminateAll (G := G) (F := F) (V := Assigned p.sys.sol.trail)
        (st := ⟨p.sdb, p.sys.ve, p.sys.sol.trail⟩)
        ⟨h.ok, hb.live, hb.clean, hb.cls, hb.dec, hb.recon⟩ h.inv.ve
        (fun v hv => (assigned_iff hti).1 hv) h.inv.nv hr hs
    have hvars : ∀ v ∈ p.sys.ve.vars, v ∈ st.ve.vars := by
      -- elimination only appends
      have : ∀ (vs : List Nat) (a : VES) (a' : VES) (b : Bool),
          eliminateList cfg.clauseLim vs a = some (a', b) → ∀ v ∈ a.ve.vars, v ∈ a'.ve.vars := by
        intro vs
        induction vs with
        | nil =>
          intro a a' b he v hv
          simp only [eliminateList, Option.some.injEq, Prod.mk.injEq] at he
          obtain ⟨rfl, _⟩ := he; exact hv
        | cons w vs ih =>
          intro a a' b he v hv
          have hstep : ∀ (a1 : VES) (b1 : Bool), eliminateStep cfg.clauseLim a w = some (a1, b1) →
              v ∈ a1.ve.vars := by
            intro a1 b1 h1
            rw [eliminateStep] at h1
            split at h1
            · split at h1
              · simp at h1
              · dsimp only at h1
                rw [eliminateVar] at h1
                split at h1
                · simp only [Option.some.injEq, Prod.mk.injEq] at h1
                  obtain ⟨rfl, _⟩ := h1; exact hv
                · dsimp only at h1
                  split at h1
                  · simp only [Option.some.injEq, Prod.mk.injEq] at h1
                    obtain ⟨rfl, _⟩ := h1; exact hv
                  · simp only [Option.some.injEq, Prod.mk.injEq] at h1
                    obtain ⟨rfl, _⟩ := h1; exact hv
                  · split at h1
                    · simp at h1
                    · simp only [Option.some.injEq, Prod.mk.injEq] at h1
                      obtain ⟨rfl, _⟩ := h1
                      simp [hv]
            · simp only [Option.some.injEq, Prod.mk.injEq] at h1
              obtain ⟨rfl, _⟩ := h1; exact hv
          rw [eliminateList] at he
          split at he
          · simp at he
          · rename_i a1 h1
            simp only [Option.some.injEq, Prod.mk.injEq] at he
            obtain ⟨rfl, _⟩ := he
            exact hstep _ _ h1
          · rename_i a1 h1
            exact ih a1 a' b he v (hstep _ _ h1)
      intro v hvm
      unfold eliminateAll at hs
      dsimp only at hs
      split at hs
      · exact this _ _ _ _ hs v hvm
      · simp only [Option.some.injEq, Prod.mk.injEq] at hs
        obtain ⟨hs1, _⟩ := hs
        rw [← hs1]; exact hvm
    constructor
    · refine Stage.trans ?_ (Stage.after hne)
      refine ⟨hne0, ⟨hvars, fun l hl => ?_⟩, fun hn hb => ?_⟩
      · show l ∈ st.T.stack
        rw [hst]; exact hl
      obtain ⟨k1, k2, k3⟩ := key hb
      refine ⟨?_, k1.clean, k1.cls, k1.dec, k1.recon, ?_⟩
      · show LOk (Assigned st.T) st.s
        rw [hAs]; exact k1.live
      · show ∀ l ∈ st.T.assumptions, l.var ∉ st.ve.vars
        rw [h4.assumptions]
        intro l hl hv'
        rcases k3 l.var hv' with h6 | h6
        · exact hb.asm l hl h6
        · exact h6.2 l hl rfl
    · intro hb h0
      obtain ⟨k1, k2, k3⟩ := key hb
      have hno : ∀ v ∈ st.ve.vars, ¬ Assigned st.T v := by
        intro v hv'
        rw [hAs, assigned_iff hti]
        rcases k3 v hv' with h6 | h6
        · have h6 : v ∈ p.sys.ve.vars := h6
          rw [h0] at h6; simp at h6
        · exact fun hh => hh h6.1
      unfold Proc.after
      cases r.cleanup3 <;> exact hno

theorem Proc.materialize_ve {p p' : Proc} (h : p.materialize = some p') : p'.sys.ve = p.sys.ve := by
  unfold Proc.materialize at h
  obtain ⟨s, _, rfl⟩ := Option.map_eq_some_iff.1 h
  rfl

theorem Proc.after_ve (p : Proc) (ok clean : Bool) : (p.after ok clean).sys.ve = p.sys.ve := by
  unfold Proc.after
  cases ok <;> cases clean <;> rfl

theorem Proc.subsume_ve {p p' : Proc} {r : PreRound} (h : p.subsume r = some p') :
    p'.sys.ve = p.sys.ve := by
  unfold Proc.subsume at h
  obtain ⟨s, _, rfl⟩ := Option.map_eq_some_iff.1 h
  rw [Proc.after_ve]; rfl

theorem Proc.reduce_ve {p p' : Proc} {cfg : Config} {r : PreRound} (h : p.reduce cfg r = some p') :
    p'.sys.ve = p.sys.ve := by
  unfold Proc.reduce at h
  obtain ⟨s, _, rfl⟩ := Option.map_eq_some_iff.1 h
  rw [Proc.after_ve]

theorem Stage.round {p p' : Proc} {cfg : Config} {r : PreRound} {b : Bool} (h : QInv F p)
    (hr : r.Valid) (he : p.round cfg r = some (p', b)) (hne : p'.sys.sol.db.hasEmpty = false) :
    Stage G p p' ∧ (Body G p → p.sys.ve.vars = [] → NoElim p'.sys) := by
  unfold Proc.round at he
  split at he
  · simp at he
  · rename_i p1 hp1
    obtain ⟨a1, _⟩ := h.materialize hp1
    split at he
    · rename_i hE
      simp at he; obtain ⟨rfl, rfl⟩ := he
      rw [hE] at hne; simp at hne
    · split at he
      · simp at he
      · rename_i p3 hp3
        obtain ⟨p2, hp2, hp3⟩ := Option.bind_eq_some_iff.1 hp3
        obtain ⟨b1, _⟩ := a1.subsume hp2
        obtain ⟨c1, _⟩ := b1.materialize hp3
        split at he
        · rename_i hE
          simp at he; obtain ⟨rfl, rfl⟩ := he
          rw [hE] at hne; simp at hne
        · rename_i hne3
          have hne3 : p3.sys.sol.db.hasEmpty = false := by simpa using hne3
          split at he
          · simp at he
          · rename_i p5 hp5
            obtain ⟨p4, hp4, hp5⟩ := Option.bind_eq_some_iff.1 hp5
            obtain ⟨d1, _⟩ := c1.reduce hne3 hp4
            obtain ⟨e1, _⟩ := d1.materialize hp5
            split at he
            · rename_i hE
              simp at he; obtain ⟨rfl, rfl⟩ := he
              rw [hE] at hne; simp at hne
            · rename_i hne5
              have hne5 : p5.sys.sol.db.hasEmpty = false := by simpa using hne5
              obtain ⟨p6, hp6, hb⟩ := Option.map_eq_some_iff.1 he
              simp at hb; obtain ⟨rfl, rfl⟩ := hb
              obtain ⟨s6, t6⟩ := Stage.eliminate (G := G) e1 hr hp6 hne
              have s5 := Stage.materialize (G := G) d1 hp5 hne5
              have s4 := Stage.reduce (G := G) c1 hne3 hp4 s5.empty
              have s3 := Stage.materialize (G := G) b1 hp3 hne3
              have s2 := Stage.subsume (G := G) a1 hp2 s3.empty
              have s1 := Stage.materialize (G := G) h hp1 s2.empty
              have s15 := (((s1.trans s2).trans s3).trans s4).trans s5
              refine ⟨s15.trans s6, fun hB h0 => ?_⟩
              have hve : p5.sys.ve = p.sys.ve := by
                rw [Proc.materialize_ve hp5, Proc.reduce_ve hp4, Proc.materialize_ve hp3,
                  Proc.subsume_ve hp2, Proc.materialize_ve hp1]
              have h05 : p5.sys.ve.vars = [] := by rw [hve]; exact h0
              refine t6 (s15.body ?_ hB) h05
              intro v hv
              rw [h05] at hv; simp at hv

theorem Stage.rounds {F G : CNF} {cfg : Config} : ∀ (rs : List PreRound) (p : Proc), QInv F p →
    (∀ r ∈ rs, r.Valid) → ∀ p', Proc.rounds cfg rs p = some p' → p'.sys.sol.db.hasEmpty = false →
    Stage G p p'
  | [], p, h, _, p', he, hne => by
    simp [Proc.rounds] at he; subst he; exact Stage.refl hne
  | r :: rs, p, h, hr, p', he, hne => by
    rw [Proc.rounds] at he
    split at he
    · simp at he
    · rename_i p1 hp1
      simp at he; subst he
      exact (Stage.round h (hr r (by simp)) hp1 hne).1
    · rename_i p1 hp1
      have s2 := Stage.rounds (G := G) rs p1 (h.round hp1).1 (fun q hq => hr q (by simp [hq])) p' he hne
      exact (Stage.round h (hr r (by simp)) hp1 s2.empty).1.trans s2

/-- A database and elimination state without traces of earlier simplification. -/
structure Pristine (sys : Sys) : Prop where
  zero : ∀ c ∈ sys.sol.db.clauses, (sys.sol.db.store c).weight = 0
  vars : sys.ve.vars = []
  cls : ∀ v, sys.ve.cls v = []
  dec : ∀ v, sys.sol.trail.decision v = true

/-- What preprocessing of a pristine state guarantees. -/
structure Preprocessed (G : CNF) (sys : Sys) : Prop where
  zero : ∀ c ∈ sys.sol.db.clauses, (sys.sol.db.store c).weight = 0 ∨ (sys.sol.db.store c).weight = 65535
  clean : ∀ c, LiveId sys.sol.db c → ∀ l ∈ sys.sol.db.lits c, l.var ∉ sys.ve.vars
  cls : ∀ v, v ∉ sys.ve.vars → sys.ve.cls v = []
  dec : ∀ v, v < sys.sol.db.nVars → (sys.sol.trail.decision v = true ↔ v ∉ sys.ve.vars)
  recon : Recon G sys.sol.db.nVars sys.ve.vars sys.ve.cls sys.sol.db.cnf
  asm : ∀ l ∈ sys.sol.trail.assumptions, l.var ∉ sys.ve.vars

theorem process_recon {cfg : Config} {rs : List PreRound} {sys sys' : Sys} (h : PInv F sys)
    (hp : Pristine sys) (hr : ∀ r ∈ rs, r.Valid) (he : process cfg rs sys = some sys')
    (hne : sys'.sol.db.hasEmpty = false) :
    (NoElim sys' → Preprocessed sys.sol.db.cnf sys') ∧ (rs.length ≤ 1 → NoElim sys') := by
  unfold Candy.process at he
  obtain ⟨p, hpp, rfl⟩ := Option.map_eq_some_iff.1 he
  have hok : SOk F (SDB.init sys.sol.db) := SOk.init h.db
  obtain ⟨hlv, hdb⟩ := LOk.init (V := Assigned sys.sol.trail) h.db.nodup hp.zero
  have e : (SDB.init sys.sol.db) = ⟨sys.sol.db, (SDB.init sys.sol.db).obj,
      (SDB.init sys.sol.db).occ⟩ := by
    conv => lhs; rw [show SDB.init sys.sol.db = ⟨(SDB.init sys.sol.db).db,
      (SDB.init sys.sol.db).obj, (SDB.init sys.sol.db).occ⟩ from rfl, hdb]
  rw [e] at hok hlv
  have hq : QInv F ⟨sys, (SDB.init sys.sol.db).obj, (SDB.init sys.sol.db).occ⟩ := ⟨h, hok⟩
  have hb : Body sys.sol.db.cnf ⟨sys, (SDB.init sys.sol.db).obj, (SDB.init sys.sol.db).occ⟩ := by
    refine ⟨hlv, ?_, fun v _ => hp.cls v, ?_, ?_, ?_⟩
    · intro c _ l _; simp only; rw [hp.vars]; simp
    · intro v _; simp only; rw [hp.vars, hp.dec]; simp
    · simp only; rw [hp.vars]; exact Recon.refl _ _
    · intro l _; simp only; rw [hp.vars]; simp
  constructor
  · intro hn
    have k := (Stage.rounds (G := sys.sol.db.cnf) rs _ hq hr p hpp hne).body hn hb
    exact ⟨k.live.zero, k.clean, k.cls, k.dec, k.recon, k.asm⟩
  · intro hlen
    match rs, hlen with
    | [], _ =>
      simp [Proc.rounds] at hpp; subst hpp
      intro v hv
      simp only at hv
      rw [hp.vars] at hv; simp at hv
    | [r], _ =>
      rw [Proc.rounds] at hpp
      have hr' := hr r (by simp)
      split at hpp
      · simp at hpp
      · rename_i p1 hp1
        simp at hpp; subst hpp
        exact (Stage.round hq hr' hp1 hne).2 hb hp.vars
      · rename_i p1 hp1
        simp [Proc.rounds] at hpp; subst hpp
        exact (Stage.round hq hr' hp1 hne).2 hb hp.vars

end Candy
