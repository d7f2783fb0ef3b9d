import Verif.Model.Branching
import Verif.Proofs.Basic

/-! Lemmas about implicit learning. -/

namespace Candy

namespace Rsil

/-- Only budgets and the random numbers differ. -/
structure Same (r r' : Rsil) : Prop where
  opt : r'.opt = r.opt
  blocked : r'.blocked = r.blocked
  done : r'.done = r.done
  backbones : r'.backbones = r.backbones
  size : r'.size = r.size
  lits : ∀ v, (r'.entry v).lits = (r.entry v).lits
  backbone : ∀ v, (r'.entry v).backbone = (r.entry v).backbone

theorem Same.refl (r : Rsil) : Same r r := ⟨rfl, rfl, rfl, rfl, rfl, fun _ => rfl, fun _ => rfl⟩

theorem Same.trans {r r' r'' : Rsil} (h : Same r r') (h' : Same r' r'') : Same r r'' :=
  ⟨h'.opt.trans h.opt, h'.blocked.trans h.blocked, h'.done.trans h.done, h'.backbones.trans h.backbones,
    h'.size.trans h.size, fun v => (h'.lits v).trans (h.lits v), fun v => (h'.backbone v).trans (h.backbone v)⟩

theorem used_lits (opt : RsilOpt) (e : Advice) (i : Nat) : (used opt e i).lits = e.lits := by
  unfold used; split <;> rfl

theorem used_backbone (opt : RsilOpt) (e : Advice) (i : Nat) : (used opt e i).backbone = e.backbone := by
  unfold used; split <;> rfl

theorem same_used (r : Rsil) (v i : Nat) : Same r { r with entry := upd r.entry v (used r.opt (r.entry v) i) } := by
  refine ⟨rfl, rfl, rfl, rfl, rfl, fun w => ?_, fun w => ?_⟩
  · simp only [upd]; split
    · next h => rw [h, used_lits]
    · rfl
  · simp only [upd]; split
    · next h => rw [h, used_backbone]
    · rfl

theorem same_fill (r : Rsil) : Same r r.fillBudgets := by
  unfold fillBudgets
  split
  · exact ⟨rfl, rfl, rfl, rfl, rfl, fun _ => rfl, fun _ => rfl⟩
  · exact .refl r

theorem same_draw (r : Rsil) : Same r r.draw.1 := by
  unfold draw
  split
  · exact ⟨rfl, rfl, rfl, rfl, rfl, fun _ => rfl, fun _ => rfl⟩
  · exact .refl r

theorem tryAdvice_spec {opt : RsilOpt} {T : Trail} {k : Nat} {e : Advice} (hb : ∀ l ∈ e.lits, l.var < T.nVars) :
    ∀ as : List Nat, (0 < e.lits.length ∨ as = []) → ∃ o, tryAdvice opt T k e as = some o ∧
      ∀ l i, o = some (l, i) → e.lits[i]? = some l ∧ T.assigns l.var = none ∧ T.decision l.var = true ∧
        canUse opt e i = true := by
  intro as
  induction as with
  | nil => intro _; exact ⟨none, rfl, by simp⟩
  | cons a as ih =>
    intro h
    have hpos : 0 < e.lits.length := h.resolve_right (by simp)
    have hlt : (k + a) % e.lits.length < e.lits.length := Nat.mod_lt _ hpos
    unfold tryAdvice
    rw [List.getElem?_eq_getElem hlt]
    dsimp only
    have hl := hb _ (List.getElem_mem hlt)
    rw [if_neg (by omega)]
    split
    · next hc =>
      refine ⟨_, rfl, ?_⟩
      intro l i hli
      simp only [Option.some.injEq, Prod.mk.injEq] at hli
      obtain ⟨rfl, rfl⟩ := hli
      exact ⟨List.getElem?_eq_getElem hlt, hc⟩
    · exact ih (.inl hpos)

/-- Where an advised literal comes from. -/
structure AdvisedBy (T : Trail) (r r' : Rsil) (cs : List Lit) (p : Lit) : Prop where
  src : ∃ c ∈ cs, c.var < r.size ∧ (r.entry c.var).backbone = false ∧
    ∃ l i, (r.entry c.var).lits[i]? = some l ∧ canUse r.opt (r.entry c.var) i = true ∧
      p = (if c.sign then l.neg else l) ∧
      r' = { r with entry := upd r.entry c.var (used r.opt (r.entry c.var) i) }
  free : T.assigns p.var = none
  decision : T.decision p.var = true
  bound : p.var < T.nVars

theorem scan_spec {T : Trail} {k : Nat} {r : Rsil} (hb : ∀ v, ∀ l ∈ (r.entry v).lits, l.var < T.nVars) :
    ∀ cs : List Lit, ∃ r' o, scan T k cs r = some (r', o) ∧ (o = none → r' = r) ∧
      ∀ p, o = some p → AdvisedBy T r r' cs p := by
  intro cs
  induction cs with
  | nil => exact ⟨r, none, rfl, fun _ => rfl, by simp⟩
  | cons c cs ih =>
    obtain ⟨r', o, h1, h2, h3⟩ := ih
    have hskip : ∃ r' o, scan T k cs r = some (r', o) ∧ (o = none → r' = r) ∧ ∀ p, o = some p → AdvisedBy T r r' (c :: cs) p := by
      refine ⟨r', o, h1, h2, fun p hp => ?_⟩
      obtain ⟨⟨d, hd, hs⟩, h4, h5, h6⟩ := h3 p hp
      exact ⟨⟨d, List.mem_cons_of_mem _ hd, hs⟩, h4, h5, h6⟩
    unfold scan
    by_cases hsz : r.size ≤ c.var
    · rw [if_pos hsz]; exact hskip
    · rw [if_neg hsz]
      by_cases hbb : (r.entry c.var).backbone = true
      · rw [if_pos hbb]; exact hskip
      · rw [if_neg hbb]
        obtain ⟨o', e1, e2⟩ := tryAdvice_spec (opt := r.opt) (k := k) (hb c.var) (List.range (r.entry c.var).lits.length)
          (by cases h : (r.entry c.var).lits.length with
            | zero => right; rfl
            | succ n => left; omega)
        rw [e1]
        cases o' with
        | none => exact hskip
        | some x =>
          obtain ⟨l, i⟩ := x
          obtain ⟨g1, g2, g3, g4⟩ := e2 l i rfl
          refine ⟨_, _, rfl, by simp, ?_⟩
          intro p hp
          simp only [Option.some.injEq] at hp
          have hv : p.var = l.var := by rw [← hp]; split <;> rfl
          refine ⟨⟨c, List.mem_cons_self, by omega, by simpa using hbb, l, i, g1, g4, hp.symm, rfl⟩, ?_, ?_, ?_⟩
          · rw [hv]; exact g2
          · rw [hv]; exact g3
          · rw [hv]; exact hb c.var l (List.mem_of_getElem? g1)

/-- The literals of the last decision level. -/
def lastLevel (T : Trail) : List Lit :=
  match T.lim.getLast? with
  | none => []
  | some k => T.stack.drop k

theorem getAdvice_spec {T : Trail} {r : Rsil} (hb : ∀ v, ∀ l ∈ (r.entry v).lits, l.var < T.nVars) :
    ∃ r' o, r.getAdvice T = some (r', o) ∧ (o = none → r' = r) ∧ ∀ p, o = some p → AdvisedBy T r r' (lastLevel T) p := by
  unfold getAdvice lastLevel
  cases T.lim.getLast? with
  | none => exact ⟨r, none, rfl, fun _ => rfl, by simp⟩
  | some k => exact scan_spec hb _

theorem AdvisedBy.same {T : Trail} {r r' : Rsil} {cs : List Lit} {p : Lit} (h : AdvisedBy T r r' cs p) : Same r r' := by
  obtain ⟨c, _, _, _, l, i, _, _, _, rfl⟩ := h.src
  exact same_used r _ _

theorem signAdvice_spec (r : Rsil) (p : Lit) :
    ((r.signAdvice p) = (r, p)) ∨
    (∃ l, (r.entry p.var).lits = [l] ∧ (r.entry p.var).backbone = true ∧ p.var < r.size ∧ r.backbones = true ∧
      canUse r.opt (r.entry p.var) 0 = true ∧
      r.signAdvice p = ({ r with entry := upd r.entry p.var (used r.opt (r.entry p.var) 0) }, l.neg)) := by
  unfold signAdvice
  split
  · next h =>
    split
    · next l hl => exact .inr ⟨l, hl, h.2.2.1, h.2.1, h.1, h.2.2.2, rfl⟩
    · exact .inl rfl
  · exact .inl rfl

theorem signAdvice_same (r : Rsil) (p : Lit) : Same r (r.signAdvice p).1 := by
  rcases signAdvice_spec r p with h | ⟨l, _, _, _, _, _, h⟩ <;> rw [h]
  · exact .refl r
  · exact same_used r _ _

theorem pickSign_same (r : Rsil) (p : Lit) : Same r (r.pickSign p).1 := by
  unfold pickSign
  split
  · exact (same_draw r).trans (signAdvice_same _ p)
  · exact same_draw r

theorem pickFirst_spec {T : Trail} {r : Rsil} (hb : ∀ v, ∀ l ∈ (r.entry v).lits, l.var < T.nVars) :
    ∃ r' o, r.pickFirst T = some (r', o) ∧ Same r r' ∧ (o = none → r' = r.draw.1) ∧
      ∀ p, o = some p → r.draw.2 = true ∧ AdvisedBy T r.draw.1 r' (lastLevel T) p := by
  unfold pickFirst
  split
  · next hd =>
    obtain ⟨r', o, h1, h2, h3⟩ := getAdvice_spec (T := T) (r := r.draw.1)
      (fun v l hl => hb v l (by rwa [(same_draw r).lits] at hl))
    refine ⟨r', o, h1, ?_, h2, fun p hp => ⟨hd, h3 p hp⟩⟩
    cases o with
    | none => rw [h2 rfl]; exact same_draw r
    | some p => exact (same_draw r).trans (h3 p rfl).same
  · exact ⟨_, _, rfl, same_draw r, fun _ => rfl, by simp⟩

/-! ### The entries -/

/-- The literal `l` is stored for variable `v` because of an equivalence. -/
def FromEq (n : Nat) (eqs : List (List Lit)) (v : Nat) (l : Lit) : Prop :=
  ∃ c ∈ eqs, (∀ x ∈ c, x.var < n) ∧ ∃ key ∈ c, ∃ e ∈ c, key.var = v ∧ key ≠ e ∧ l = if key.sign then e else e.neg

/-- The entries represent the conjectures. -/
structure Of (conj : Conj) (r : Rsil) : Prop where
  eq : ∀ v, (r.entry v).backbone = false → ∀ l ∈ (r.entry v).lits, FromEq r.size conj.equivalences v l
  bb : ∀ v, (r.entry v).backbone = true → ∀ l, (r.entry v).lits = [l] → l.var = v ∧ l ∈ conj.backbones
  bound : ∀ v, ∀ l ∈ (r.entry v).lits, l.var < r.size

theorem Of.same {conj : Conj} {r r' : Rsil} (h : Of conj r) (hs : Same r r') : Of conj r' := by
  refine ⟨fun v hv l hl => ?_, fun v hv l hl => ?_, fun v l hl => ?_⟩
  · rw [hs.size]; exact h.eq v (by rwa [hs.backbone] at hv) l (by rwa [hs.lits] at hl)
  · exact h.bb v (by rwa [hs.backbone] at hv) l (by rwa [hs.lits] at hl)
  · rw [hs.size]; exact h.bound v l (by rwa [hs.lits] at hl)

theorem addLits_spec {max : Nat} {key : Lit} : ∀ (ls : List Lit) (e e' : Advice), addLits max key ls e = some e' →
    e'.backbone = e.backbone ∧ ∀ l ∈ e'.lits, l ∈ e.lits ∨ ∃ x ∈ ls, key ≠ x ∧ l = if key.sign then x else x.neg := by
  intro ls
  induction ls with
  | nil => intro e e' h; cases h; exact ⟨rfl, fun l hl => .inl hl⟩
  | cons x ls ih =>
    intro e e' h
    unfold addLits at h
    split at h
    · obtain ⟨h1, h2⟩ := ih e e' h
      refine ⟨h1, fun l hl => ?_⟩
      rcases h2 l hl with h3 | ⟨y, hy, h4⟩
      · exact .inl h3
      · exact .inr ⟨y, List.mem_cons_of_mem _ hy, h4⟩
    · next hne =>
      obtain ⟨e1, he1, h⟩ := Option.bind_eq_some_iff.1 h
      obtain ⟨h1, h2⟩ := ih e1 e' h
      unfold Advice.add at he1
      split at he1
      · cases he1
        refine ⟨h1, fun l hl => ?_⟩
        rcases h2 l hl with h3 | ⟨y, hy, h4⟩
        · simp only [List.mem_append, List.mem_singleton] at h3
          rcases h3 with h3 | h3
          · exact .inl h3
          · exact .inr ⟨x, List.mem_cons_self, hne, h3⟩
        · exact .inr ⟨y, List.mem_cons_of_mem _ hy, h4⟩
      · cases he1

/-- Fields that adding conjectures leaves alone. -/
structure Frame (r r' : Rsil) : Prop where
  opt : r'.opt = r.opt
  blocked : r'.blocked = r.blocked
  done : r'.done = r.done
  backbones : r'.backbones = r.backbones
  size : r'.size = r.size
  counter : r'.counter = r.counter
  mask : r'.mask = r.mask
  rng : r'.rng = r.rng

theorem Frame.refl (r : Rsil) : Frame r r := ⟨rfl, rfl, rfl, rfl, rfl, rfl, rfl, rfl⟩
theorem Frame.trans {r r' r'' : Rsil} (h : Frame r r') (h' : Frame r' r'') : Frame r r'' :=
  ⟨h'.1.trans h.1, h'.2.trans h.2, h'.3.trans h.3, h'.4.trans h.4, h'.5.trans h.5, h'.6.trans h.6, h'.7.trans h.7,
    h'.8.trans h.8⟩

theorem addEquivalence_frame {c : List Lit} : ∀ (keys : List Lit) (r r' : Rsil), addEquivalence c keys r = some r' →
    Frame r r' ∧ ∀ k ∈ keys, k.var < r.size := by
  intro keys
  induction keys with
  | nil => intro r r' h; cases h; exact ⟨.refl r, by simp⟩
  | cons key keys ih =>
    intro r r' h
    unfold addEquivalence at h
    split at h
    · next hk =>
      obtain ⟨e, _, h⟩ := Option.bind_eq_some_iff.1 h
      obtain ⟨h1, h2⟩ := ih _ _ h
      refine ⟨Frame.trans (r' := { r with entry := upd r.entry key.var e }) ⟨rfl, rfl, rfl, rfl, rfl, rfl, rfl, rfl⟩ h1, fun k hk' => ?_⟩
      rcases List.mem_cons.1 hk' with rfl | hk'
      · exact hk
      · exact h2 k hk'
    · cases h

/-- Before the backbones are added. -/
def EqOf (eqs : List (List Lit)) (r : Rsil) : Prop :=
  ∀ v, (r.entry v).backbone = false ∧ ∀ l ∈ (r.entry v).lits, FromEq r.size eqs v l

theorem addEquivalence_spec {eqs : List (List Lit)} {c : List Lit} (hc : c ∈ eqs) {n : Nat} (hn : ∀ x ∈ c, x.var < n) :
    ∀ (keys : List Lit) (r r' : Rsil), (∀ k ∈ keys, k ∈ c) → r.size = n → EqOf eqs r → addEquivalence c keys r = some r' →
      EqOf eqs r' := by
  intro keys
  induction keys with
  | nil => intro r r' _ _ hi h; cases h; exact hi
  | cons key keys ih =>
    intro r r' hk hs hi h
    unfold addEquivalence at h
    split at h
    · obtain ⟨e, he, h⟩ := Option.bind_eq_some_iff.1 h
      refine ih { r with entry := upd r.entry key.var e } r' (fun k hk' => hk k (List.mem_cons_of_mem _ hk')) hs (fun v => ?_) h
      obtain ⟨g1, g2⟩ := addLits_spec _ _ _ he
      simp only [upd]
      split
      · next hv =>
        subst hv
        refine ⟨g1, fun l hl => ?_⟩
        rcases g2 l hl with g | ⟨x, hx, hne, hl⟩
        · exact (hi key.var).2 l g
        · exact ⟨c, hc, by rw [hs]; exact hn, key, hk key List.mem_cons_self, x, hx, rfl, hne, hl⟩
      · exact hi v
    · cases h

theorem addEquivalences_spec {eqs : List (List Lit)} : ∀ (cs : List (List Lit)) (r r' : Rsil), (∀ c ∈ cs, c ∈ eqs) →
    EqOf eqs r → addEquivalences cs r = some r' → EqOf eqs r' ∧ Frame r r' := by
  intro cs
  induction cs with
  | nil => intro r r' _ hi h; cases h; exact ⟨hi, .refl r⟩
  | cons c cs ih =>
    intro r r' hc hi h
    unfold addEquivalences at h
    split at h
    · obtain ⟨r1, h1, h⟩ := Option.bind_eq_some_iff.1 h
      obtain ⟨f1, f2⟩ := addEquivalence_frame _ _ _ h1
      have g := addEquivalence_spec (hc c List.mem_cons_self) f2 c r r1 (fun _ h => h) rfl hi h1
      obtain ⟨g1, g2⟩ := ih r1 r' (fun d hd => hc d (List.mem_cons_of_mem _ hd)) g h
      exact ⟨g1, f1.trans g2⟩
    · exact ih r r' (fun d hd => hc d (List.mem_cons_of_mem _ hd)) hi h

theorem addBackbones_spec {conj : Conj} : ∀ (ls : List Lit) (r r' : Rsil), (∀ l ∈ ls, l ∈ conj.backbones) →
    Of conj r → addBackbones ls r = some r' → Of conj r' ∧ Frame r r' := by
  intro ls
  induction ls with
  | nil => intro r r' _ hi h; cases h; exact ⟨hi, .refl r⟩
  | cons x ls ih =>
    intro r r' hl hi h
    unfold addBackbones at h
    obtain ⟨r1, h1, h⟩ := Option.bind_eq_some_iff.1 h
    have hf : Frame r r1 ∧ Of conj r1 := by
      unfold addBackbone at h1
      split at h1
      · next hx =>
        obtain ⟨e, he, rfl⟩ := Option.map_eq_some_iff.1 h1
        unfold Advice.add at he
        split at he
        · cases he
          refine ⟨⟨rfl, rfl, rfl, rfl, rfl, rfl, rfl, rfl⟩, ?_, ?_, ?_⟩
          · intro v hv
            simp only [upd] at hv ⊢
            split at hv
            · cases hv
            · next hne => rw [if_neg hne]; exact hi.eq v hv
          · intro v hv l hll
            simp only [upd] at hv hll
            split at hll
            · next he =>
              subst he
              have : (r.entry x.var).lits = [] := by
                cases hls : (r.entry x.var).lits with
                | nil => rfl
                | cons a as => rw [hls] at hll; simp at hll
              rw [this] at hll
              simp only [List.nil_append, List.cons.injEq, and_true] at hll
              subst hll
              exact ⟨rfl, hl x List.mem_cons_self⟩
            · next hne => rw [if_neg hne] at hv; exact hi.bb v hv l hll
          · intro v l hll
            simp only [upd] at hll
            split at hll
            · simp only [List.mem_append, List.mem_singleton] at hll
              rcases hll with hll | rfl
              · exact hi.bound x.var l hll
              · exact hx
            · exact hi.bound v l hll
        · cases he
      · cases h1
    obtain ⟨g1, g2⟩ := ih r1 r' (fun l h => hl l (List.mem_cons_of_mem _ h)) hf.2 h
    exact ⟨g1, hf.1.trans g2⟩

theorem init_spec {opt : RsilOpt} {conj : Option Conj} {nv : Nat} {r : Rsil} (h : (new opt).init conj nv = some r) :
    r.blocked = true ∧ r.opt = opt ∧ r.done = conj.isSome ∧ r.size ≤ nv ∧ (conj = none → ∀ v, (r.entry v).lits = []) ∧
      (conj = none → ∀ v, (r.entry v).backbone = false) ∧ ∀ c, conj = some c → Of c r := by
  unfold init at h
  obtain ⟨r1, h1, rfl⟩ := Option.map_eq_some_iff.1 h
  have hs := same_fill r1
  rw [hs.blocked, hs.opt, hs.done, hs.size]
  have hb : (new opt).blocked = false := rfl
  rw [if_neg (by rw [hb]; simp)] at h1
  cases conj with
  | none =>
    cases h1
    exact ⟨rfl, rfl, rfl, Nat.zero_le _, fun _ v => hs.lits v, fun _ v => hs.backbone v, by simp⟩
  | some c =>
    dsimp only at h1
    obtain ⟨r2, h2, h1⟩ := Option.bind_eq_some_iff.1 h1
    obtain ⟨e1, e2⟩ := addEquivalences_spec (eqs := c.equivalences) _ _ _ (fun _ h => h)
      (fun v => ⟨rfl, fun l hl => by cases hl⟩) h2
    have ho : Of c r2 := by
      refine ⟨fun v _ => (e1 v).2, fun v hv => ?_, fun v l hl => ?_⟩
      · rw [(e1 v).1] at hv; cases hv
      · obtain ⟨d, hd, hb, key, hk, e, he, -, -, rfl⟩ := (e1 v).2 l hl
        split
        · exact hb e he
        · exact hb e he
    obtain ⟨g1, g2⟩ := addBackbones_spec _ _ _ (fun _ h => h) ho h1
    have g3 := e2.trans g2
    refine ⟨g3.blocked, g3.opt, g3.done, ?_, by simp, by simp, ?_⟩
    · rw [g3.size]; exact Nat.le_of_eq (Nat.zero_max nv)
    · rintro _ ⟨⟩; exact g1.same hs

theorem init_blocked {r r' : Rsil} {c : Option Conj} {nv : Nat} (hb : r.blocked = true) (h : r.init c nv = some r') :
    r' = r.fillBudgets := by
  unfold init at h
  rw [if_pos hb] at h
  cases h; rfl

/-! ### Initialisation is defined -/

theorem addLits_defined {max : Nat} {key : Lit} : ∀ (ls : List Lit) (e : Advice),
    e.lits.length + (ls.filter (· ≠ key)).length < max → ∃ e', addLits max key ls e = some e' := by
  intro ls
  induction ls with
  | nil => intro e _; exact ⟨e, rfl⟩
  | cons x ls ih =>
    intro e h
    unfold addLits
    by_cases hx : key = x
    · rw [if_pos hx]
      refine ih e (Nat.lt_of_le_of_lt ?_ h)
      rw [List.filter_cons_of_neg (by simp [hx])]
      exact Nat.le_refl _
    · rw [if_neg hx]
      rw [List.filter_cons_of_pos (by simpa using fun h => hx h.symm), List.length_cons] at h
      unfold Advice.add
      rw [if_pos (by omega)]
      refine ih _ ?_
      simp only [List.length_append, List.length_singleton]
      omega

theorem filter_ne_lt {key : Lit} : ∀ {c : List Lit}, key ∈ c → (c.filter (· ≠ key)).length < c.length := by
  intro c hk
  have h1 : (c.filter (· ≠ key)).length ≤ c.length := List.length_filter_le _ _
  rcases Nat.lt_or_ge (c.filter (· ≠ key)).length c.length with h | h
  · exact h
  · have := (List.length_filter_eq_length_iff (p := fun x => decide (x ≠ key))).1 (Nat.le_antisymm h1 h) key hk
    simp at this

theorem addEquivalence_defined {c : List Lit} : ∀ (keys : List Lit) (r : Rsil), (∀ k ∈ keys, k ∈ c) →
    c.length ≤ r.opt.maxSize → (∀ k ∈ keys, k.var < r.size) → (∀ k ∈ keys, (r.entry k.var).lits = []) →
    (keys.map Lit.var).Nodup →
    ∃ r', addEquivalence c keys r = some r' ∧ ∀ v, v ∉ keys.map Lit.var → r'.entry v = r.entry v := by
  intro keys
  induction keys with
  | nil => intro r _ _ _ _ _; exact ⟨r, rfl, fun _ _ => rfl⟩
  | cons key keys ih =>
    intro r hc hm hs he hd
    simp only [List.map_cons, List.nodup_cons] at hd
    unfold addEquivalence
    rw [if_pos (hs key List.mem_cons_self)]
    obtain ⟨e, h1⟩ := addLits_defined (max := r.opt.maxSize) (key := key) c { r.entry key.var with backbone := false } (by
      show (r.entry key.var).lits.length + _ < _
      rw [he key List.mem_cons_self]
      have := filter_ne_lt (hc key List.mem_cons_self)
      simp only [List.length_nil]
      omega)
    rw [h1]
    have hne : ∀ k ∈ keys, k.var ≠ key.var := fun k hk h => hd.1 (h ▸ List.mem_map_of_mem hk)
    obtain ⟨r', h2, h3⟩ := ih { r with entry := upd r.entry key.var e } (fun k hk => hc k (List.mem_cons_of_mem _ hk)) hm
      (fun k hk => hs k (List.mem_cons_of_mem _ hk)) (fun k hk => by
        simp only [upd, if_neg (hne k hk)]; exact he k (List.mem_cons_of_mem _ hk)) hd.2
    refine ⟨r', h2, fun v hv => ?_⟩
    simp only [List.map_cons, List.mem_cons, not_or] at hv
    rw [h3 v hv.2]
    simp only [upd, if_neg hv.1]

theorem addEquivalences_defined : ∀ (cs : List (List Lit)) (r : Rsil), (∀ l ∈ cs.flatten, l.var < r.size) →
    (∀ l ∈ cs.flatten, (r.entry l.var).lits = []) → (cs.flatten.map Lit.var).Nodup →
    ∃ r', addEquivalences cs r = some r' ∧ Frame r r' ∧ ∀ v, v ∉ cs.flatten.map Lit.var → r'.entry v = r.entry v := by
  intro cs
  induction cs with
  | nil => intro r _ _ _; exact ⟨r, rfl, .refl r, fun _ _ => rfl⟩
  | cons c cs ih =>
    intro r hs he hd
    simp only [List.flatten_cons, List.mem_append] at hs he
    simp only [List.flatten_cons, List.map_append, List.nodup_append] at hd
    obtain ⟨hd1, hd2, hd3⟩ := hd
    unfold addEquivalences
    by_cases hl : c.length ≤ r.opt.maxSize
    · rw [if_pos hl]
      obtain ⟨r1, h1, h2⟩ := addEquivalence_defined c r (fun _ h => h) hl (fun k hk => hs k (.inl hk))
        (fun k hk => he k (.inl hk)) hd1
      have hf := (addEquivalence_frame _ _ _ h1).1
      rw [h1]
      obtain ⟨r2, g1, g2, g3⟩ := ih r1 (fun l hl => by rw [hf.size]; exact hs l (.inr hl)) (fun l hl => by
        rw [h2 l.var (fun h => hd3 l.var h l.var (List.mem_map_of_mem hl) rfl)]
        exact he l (.inr hl)) hd2
      refine ⟨r2, g1, hf.trans g2, fun v hv => ?_⟩
      simp only [List.flatten_cons, List.map_append, List.mem_append, not_or] at hv
      rw [g3 v hv.2, h2 v hv.1]
    · rw [if_neg hl]
      obtain ⟨r2, g1, g2, g3⟩ := ih r (fun l hl => hs l (.inr hl)) (fun l hl => he l (.inr hl)) hd2
      refine ⟨r2, g1, g2, fun v hv => ?_⟩
      simp only [List.flatten_cons, List.map_append, List.mem_append, not_or] at hv
      exact g3 v hv.2

theorem addBackbones_defined : ∀ (ls : List Lit) (r : Rsil), 2 ≤ r.opt.maxSize → (∀ l ∈ ls, l.var < r.size) →
    (∀ l ∈ ls, (r.entry l.var).lits = []) → (ls.map Lit.var).Nodup → ∃ r', addBackbones ls r = some r' := by
  intro ls
  induction ls with
  | nil => intro r _ _ _ _; exact ⟨r, rfl⟩
  | cons x ls ih =>
    intro r hm hs he hd
    simp only [List.map_cons, List.nodup_cons] at hd
    unfold addBackbones addBackbone
    rw [if_pos (hs x List.mem_cons_self)]
    unfold Advice.add
    rw [if_pos (by
      show (r.entry x.var).lits.length + 1 < _
      rw [he x List.mem_cons_self]; exact hm)]
    refine ih _ hm (fun l hl => hs l (List.mem_cons_of_mem _ hl)) (fun l hl => ?_) hd.2
    have hne : l.var ≠ x.var := fun h => hd.1 (h ▸ List.mem_map_of_mem hl)
    simp only [upd, if_neg hne]
    exact he l (List.mem_cons_of_mem _ hl)

/-- The conjectures are disjoint, and about variables of the formula. -/
structure Disjoint (nv : Nat) (c : Conj) : Prop where
  nodup : ((c.equivalences.flatten ++ c.backbones).map Lit.var).Nodup
  bound : ∀ l ∈ c.equivalences.flatten ++ c.backbones, l.var < nv

theorem init_defined {opt : RsilOpt} {conj : Option Conj} {nv : Nat} (hm : 2 ≤ opt.maxSize)
    (hc : ∀ c, conj = some c → Disjoint nv c) : ∃ r, (new opt).init conj nv = some r := by
  unfold init
  have hb : (new opt).blocked = false := rfl
  rw [if_neg (by rw [hb]; simp)]
  cases conj with
  | none => exact ⟨_, rfl⟩
  | some c =>
    obtain ⟨hd, hv⟩ := hc c rfl
    rw [List.map_append, List.nodup_append] at hd
    obtain ⟨hd1, hd2, hd3⟩ := hd
    have hsz : ∀ l ∈ c.equivalences.flatten ++ c.backbones, l.var < max (new opt).size nv := fun l hl => by
      have := hv l hl; omega
    obtain ⟨r1, h1, h2, h3⟩ := addEquivalences_defined c.equivalences
      { new opt with blocked := true, done := true, backbones := !c.backbones.isEmpty, size := max (new opt).size nv }
      (fun l hl => hsz l (List.mem_append_left _ hl)) (fun _ _ => rfl) hd1
    obtain ⟨r2, g1⟩ := addBackbones_defined c.backbones r1 (by rw [h2.opt]; exact hm)
      (fun l hl => by rw [h2.size]; exact hsz l (List.mem_append_right _ hl))
      (fun l hl => by
        rw [h3 l.var (fun h => hd3 l.var h l.var (List.mem_map_of_mem hl) rfl)]; rfl) hd2
    dsimp only
    rw [h1, Option.bind_some, g1]
    exact ⟨_, rfl⟩

theorem draw_same (r : Rsil) : Same r r.draw.1 := same_draw r

/-- What is known in every reachable state. -/
structure Ok (conj : Option Conj) (r : Rsil) : Prop where
  blocked : r.blocked = true
  done : r.done = conj.isSome
  noLits : conj = none → ∀ v, (r.entry v).lits = []
  noBackbone : conj = none → ∀ v, (r.entry v).backbone = false
  of : ∀ c, conj = some c → Of c r

theorem Ok.same {conj : Option Conj} {r r' : Rsil} (h : Ok conj r) (hs : Same r r') : Ok conj r' :=
  ⟨by rw [hs.blocked]; exact h.blocked, by rw [hs.done]; exact h.done, fun hc v => by rw [hs.lits]; exact h.noLits hc v,
    fun hc v => by rw [hs.backbone]; exact h.noBackbone hc v, fun c hc => (h.of c hc).same hs⟩

theorem getAdvice_same {T : Trail} {r r' : Rsil} {o : Option Lit} (h : r.getAdvice T = some (r', o)) : Same r r' := by
  unfold getAdvice at h
  split at h
  · cases h; exact .refl r
  · next k _ =>
    generalize T.stack.drop k = cs at h
    induction cs with
    | nil => cases h; exact .refl r
    | cons c cs ih =>
      unfold scan at h
      split at h
      · exact ih h
      · split at h
        · exact ih h
        · split at h
          · cases h
          · exact ih h
          · cases h; exact same_used r _ _

theorem pickFirst_same {T : Trail} {r r' : Rsil} {o : Option Lit} (h : r.pickFirst T = some (r', o)) : Same r r' := by
  unfold pickFirst at h
  split at h
  · exact (same_draw r).trans (getAdvice_same h)
  · cases h; exact same_draw r

theorem Reach.ok {conj : Option Conj} {r : Rsil} (h : Reach conj r) : Ok conj r := by
  induction h with
  | init opt conj nv h => obtain ⟨h1, _, h2, _, h3, h4, h5⟩ := init_spec h; exact ⟨h1, h2, h3, h4, h5⟩
  | again h c nv he ih => rw [init_blocked ih.blocked he]; exact ih.same (same_fill _)
  | first h T he ih => exact ih.same (pickFirst_same he)
  | sign h p ih => exact ih.same (pickSign_same _ p)

theorem Ok.bound {conj : Option Conj} {r : Rsil} (h : Ok conj r) : ∀ v, ∀ l ∈ (r.entry v).lits, l.var < r.size := by
  intro v l hl
  cases conj with
  | none => rw [h.noLits rfl] at hl; cases hl
  | some c => exact (h.of c rfl).bound v l hl

theorem Ok.backbone {conj : Option Conj} {r : Rsil} (h : Ok conj r) {v : Nat} (hb : (r.entry v).backbone = true) {l : Lit}
    (hl : (r.entry v).lits = [l]) : l.var = v := by
  cases conj with
  | none => rw [h.noBackbone rfl] at hb; cases hb
  | some c => exact ((h.of c rfl).bb v hb l hl).1

/-- The heuristic embedded in a solver whose trail has `n` variables. -/
def InSolver (n : Nat) (r : Rsil) : Prop := (∃ opt, r = new opt) ∨ ∃ conj, Reach conj r ∧ r.size ≤ n

theorem InSolver.bound {n : Nat} {r : Rsil} (h : InSolver n r) : ∀ v, ∀ l ∈ (r.entry v).lits, l.var < n := by
  rcases h with ⟨opt, rfl⟩ | ⟨conj, h, hn⟩
  · intro v l hl; cases hl
  · intro v l hl; exact Nat.lt_of_lt_of_le (h.ok.bound v l hl) hn

theorem InSolver.init {n m nv : Nat} {r r' : Rsil} {c : Option Conj} (h : InSolver n r) (hm : n ≤ m) (hv : nv ≤ m)
    (he : r.init c nv = some r') : InSolver m r' := by
  rcases h with ⟨opt, rfl⟩ | ⟨conj, h, hn⟩
  · obtain ⟨_, _, _, h4, _⟩ := init_spec he
    exact .inr ⟨c, .init opt c nv he, Nat.le_trans h4 hv⟩
  · refine .inr ⟨conj, .again h c nv he, ?_⟩
    rw [init_blocked h.ok.blocked he, (same_fill r).size]
    omega

theorem InSolver.init_defined {n nv : Nat} {r : Rsil} {c : Option Conj} (h : InSolver n r) (hm : 2 ≤ r.opt.maxSize)
    (hc : ∀ d, c = some d → Disjoint nv d) : ∃ r', r.init c nv = some r' := by
  rcases h with ⟨opt, rfl⟩ | ⟨conj, h, hn⟩
  · exact Rsil.init_defined hm hc
  · unfold Rsil.init
    rw [if_pos h.ok.blocked]
    exact ⟨_, rfl⟩

theorem pickSign_var {conj : Option Conj} {r : Rsil} (h : Ok conj r) (p : Lit) : (r.pickSign p).2.var = p.var := by
  unfold pickSign
  split
  · rcases signAdvice_spec r.draw.1 p with e | ⟨l, h1, h2, _, _, _, e⟩ <;> rw [e]
    rw [Lit.var_neg]
    exact (h.same (same_draw r)).backbone h2 h1
  · rfl

end Rsil

end Candy
