import Verif.SpecInputDeps
import Verif.Model.InputDeps
import Verif.Proofs.Basic

/-!
# Counting the inputs of gates
-/

namespace Candy.InputDeps
open Candy

theorem isDefined_iff {g : Gate} : g.isDefined = true ↔ g.out ≠ none := by
  unfold Gate.isDefined
  cases g.out <;> simp

theorem isDefined_false {g : Gate} : g.isDefined = false ↔ g.out = none := by
  unfold Gate.isDefined
  cases g.out <;> simp

theorem mem_setInsert {s : List Nat} {x y : Nat} : y ∈ setInsert s x ↔ y = x ∨ y ∈ s := by
  unfold setInsert
  split
  · rename_i h
    rw [List.contains_iff_mem] at h
    exact ⟨.inr, fun e => e.elim (fun e => e ▸ h) id⟩
  · simp

theorem setInsert_nodup {s : List Nat} (h : s.Nodup) (x : Nat) : (setInsert s x).Nodup := by
  unfold setInsert
  split
  · exact h
  · rename_i hc
    exact List.nodup_cons.2 ⟨fun hx => hc (List.contains_iff_mem.2 hx), h⟩

theorem foldl_setInsert : ∀ (xs : List Nat) {s : List Nat}, s.Nodup →
    (xs.foldl setInsert s).Nodup ∧ ∀ y, y ∈ xs.foldl setInsert s ↔ y ∈ s ∨ y ∈ xs
  | [], s, h => ⟨h, by simp⟩
  | x :: xs, s, h => by
    obtain ⟨h1, h2⟩ := foldl_setInsert xs (setInsert_nodup h x)
    refine ⟨h1, fun y => ?_⟩
    rw [List.foldl_cons, h2, mem_setInsert, List.mem_cons]
    constructor
    · rintro ((h | h) | h)
      · exact .inr (.inl h)
      · exact .inl h
      · exact .inr (.inr h)
    · rintro (h | h | h)
      · exact .inl (.inr h)
      · exact .inl (.inl h)
      · exact .inr h

theorem addInputs_spec {G : GateProblem} {max : Nat} : ∀ (ls : List Lit) {s : List Nat}, s.Nodup →
    (addInputs G max ls s).1.Nodup ∧
    (∀ x ∈ (addInputs G max ls s).1, x ∈ s ∨ ∃ l ∈ ls, (G.gates l.var).out = none ∧ l.var = x) ∧
    ((addInputs G max ls s).2 = true → max < (addInputs G max ls s).1.length) ∧
    ((addInputs G max ls s).2 = false → ∀ x, (x ∈ s ∨ ∃ l ∈ ls, (G.gates l.var).out = none ∧ l.var = x) →
      x ∈ (addInputs G max ls s).1)
  | [], s, h => ⟨h, fun x hx => .inl hx, by simp [addInputs], fun _ x hx => by
      rcases hx with hx | ⟨l, hl, _⟩
      · exact hx
      · simp at hl⟩
  | l :: ls, s, h => by
    unfold addInputs
    by_cases hd : (G.gates l.var).isDefined = true
    · rw [if_pos hd]
      obtain ⟨h1, h2, h3, h4⟩ := addInputs_spec (G := G) (max := max) ls h
      refine ⟨h1, fun x hx => ?_, h3, fun hf x hx => h4 hf x ?_⟩
      · rcases h2 x hx with h | ⟨k, hk, h⟩
        · exact .inl h
        · exact .inr ⟨k, List.mem_cons_of_mem _ hk, h⟩
      · rcases hx with hx | ⟨k, hk, hn, e⟩
        · exact .inl hx
        · rcases List.mem_cons.1 hk with rfl | hk
          · exact absurd hn (isDefined_iff.1 hd)
          · exact .inr ⟨k, hk, hn, e⟩
    · rw [if_neg hd]
      have hn : (G.gates l.var).out = none := isDefined_false.1 (by simpa using hd)
      have hs := setInsert_nodup h l.var
      by_cases hm : max < (setInsert s l.var).length
      · rw [if_pos hm]
        refine ⟨hs, fun x hx => ?_, fun _ => hm, fun hf => by cases hf⟩
        rcases mem_setInsert.1 hx with rfl | hx
        · exact .inr ⟨l, List.mem_cons_self .., hn, rfl⟩
        · exact .inl hx
      · rw [if_neg hm]
        obtain ⟨h1, h2, h3, h4⟩ := addInputs_spec (G := G) (max := max) ls hs
        refine ⟨h1, fun x hx => ?_, h3, fun hf x hx => h4 hf x ?_⟩
        · rcases h2 x hx with h | ⟨k, hk, h⟩
          · rcases mem_setInsert.1 h with rfl | h
            · exact .inr ⟨l, List.mem_cons_self .., hn, rfl⟩
            · exact .inl h
          · exact .inr ⟨k, List.mem_cons_of_mem _ hk, h⟩
        · rcases hx with hx | ⟨k, hk, hn, e⟩
          · exact .inl (mem_setInsert.2 (.inr hx))
          · rcases List.mem_cons.1 hk with rfl | hk
            · exact .inl (mem_setInsert.2 (.inl e.symm))
            · exact .inr ⟨k, hk, hn, e⟩

theorem pushTo_spec {v : Nat} {xs : List Nat} : ∀ (ds : List Nat) (f : Nat → Option (List Nat)),
    (∀ d ∈ ds, d ≠ v ∧ ∃ s, f d = some s ∧ s.Nodup) → ∃ f', pushTo v xs ds f = some f' ∧
      (∀ u, u ∉ ds → f' u = f u) ∧
      ∀ u ∈ ds, ∀ s, f u = some s → ∃ s', f' u = some s' ∧ s'.Nodup ∧ ∀ x, x ∈ s' ↔ x ∈ s ∨ x ∈ xs
  | [], f, _ => ⟨f, rfl, fun _ _ => rfl, fun u hu => by simp at hu⟩
  | d :: ds, f, h => by
    obtain ⟨hd, s, hs, hn⟩ := h d (List.mem_cons_self ..)
    unfold pushTo
    rw [hs]
    dsimp only
    rw [if_neg hd]
    obtain ⟨hn1, hm1⟩ := foldl_setInsert xs hn
    obtain ⟨f', h1, h2, h3⟩ := pushTo_spec (v := v) (xs := xs) ds (upd f d (some (xs.foldl setInsert s))) (fun e he => by
      obtain ⟨h1, s1, h2, h3⟩ := h e (List.mem_cons_of_mem _ he)
      refine ⟨h1, ?_⟩
      by_cases e1 : e = d
      · subst e1
        exact ⟨_, upd_same .., hn1⟩
      · exact ⟨s1, by rw [upd_ne _ _ e1]; exact h2, h3⟩)
    refine ⟨f', h1, fun u hu => ?_, fun u hu s1 hs1 => ?_⟩
    · rw [h2 u (fun e => hu (List.mem_cons_of_mem _ e)), upd_ne _ _ (fun e : u = d => hu (e ▸ List.mem_cons_self ..))]
    · by_cases e1 : u = d
      · subst e1
        rw [hs] at hs1
        cases hs1
        by_cases hu2 : u ∈ ds
        · obtain ⟨s', a, b, c⟩ := h3 u hu2 _ (upd_same ..)
          refine ⟨s', a, b, fun x => ?_⟩
          rw [c, hm1, or_assoc, or_self]
        · exact ⟨_, by rw [h2 u hu2, upd_same], hn1, hm1⟩
      · have hu2 : u ∈ ds := (List.mem_cons.1 hu).resolve_left e1
        exact h3 u hu2 s1 (by rw [upd_ne _ _ e1]; exact hs1)

theorem mem_dependents {G : GateProblem} {order : List Nat} {v u : Nat} (hv : (G.gates v).out ≠ none) :
    u ∈ dependents G order v ↔ u ∈ order ∧ ∃ l ∈ (G.gates u).inp, l.var = v := by
  unfold dependents
  rw [List.mem_flatMap]
  constructor
  · rintro ⟨w, hw, h⟩
    rw [List.mem_map] at h
    obtain ⟨l, hl, rfl⟩ := h
    rw [List.mem_filter, Bool.and_eq_true, beq_iff_eq] at hl
    exact ⟨hw, l, hl.1, hl.2.2⟩
  · rintro ⟨hu, l, hl, rfl⟩
    refine ⟨u, hu, List.mem_map.2 ⟨l, List.mem_filter.2 ⟨hl, ?_⟩, rfl⟩⟩
    rw [isDefined_iff.2 hv]
    simp

theorem foldl_upd {y : Option Nat} : ∀ (ds : List Nat) (f : Nat → Option Nat) (u : Nat),
    ds.foldl (fun f d => upd f d y) f u = if u ∈ ds then y else f u
  | [], f, u => by simp
  | d :: ds, f, u => by
    rw [List.foldl_cons, foldl_upd ds]
    by_cases h1 : u ∈ ds
    · rw [if_pos h1, if_pos (List.mem_cons_of_mem _ h1)]
    · rw [if_neg h1]
      by_cases h2 : u = d
      · subst h2; rw [upd_same, if_pos (List.mem_cons_self ..)]
      · rw [upd_ne _ _ h2, if_neg (by simp [h1, h2])]

/-- What the order of the gates has to satisfy. -/
structure Ordered (G : GateProblem) (N : Nat) (order : List Nat) : Prop where
  nd : order.Nodup
  pw : order.Pairwise fun v w => ∀ l ∈ (G.gates v).inp, l.var ≠ w
  self : ∀ v ∈ order, ∀ l ∈ (G.gates v).inp, l.var ≠ v
  defd : ∀ v ∈ order, (G.gates v).out ≠ none
  closed : ∀ v ∈ order, ∀ l ∈ (G.gates v).inp, (G.gates l.var).out ≠ none → l.var ∈ order
  lt : ∀ v ∈ order, ∀ l ∈ (G.gates v).inp, l.var < N

open Classical in
/-- The inputs on which a gate depends. -/
noncomputable def deps (G : GateProblem) (N v : Nat) : List Nat := (List.range N).filter fun x => decide (DependsOn G v x)

theorem deps_nodup (G : GateProblem) (N v : Nat) : (deps G N v).Nodup := List.nodup_range.sublist List.filter_sublist

theorem Ordered.dep_lt {G : GateProblem} {N : Nat} {order : List Nat} (O : Ordered G N order) {v x : Nat}
    (h : DependsOn G v x) (hv : v ∈ order) : x < N := by
  induction h with
  | input hl hn => exact O.lt _ hv _ hl
  | gate hl hn _ ih => exact ih (O.closed _ hv _ hl hn)

theorem Ordered.mem_deps {G : GateProblem} {N : Nat} {order : List Nat} (O : Ordered G N order) {v x : Nat}
    (hv : v ∈ order) : x ∈ deps G N v ↔ DependsOn G v x := by
  unfold deps
  rw [List.mem_filter, List.mem_range]
  simp only [decide_eq_true_eq]
  exact ⟨fun h => h.2, fun h => ⟨O.dep_lt h hv, h⟩⟩

/-- Invariant of the loop: the gates of `done` are counted, those of `todo` are not. -/
structure LoopInv (G : GateProblem) (N max : Nat) (order done todo : List Nat) (c : Counting) : Prop where
  eq : order = done ++ todo
  sets : ∀ v ∈ todo, ∃ s, c.sets v = some s ∧ s.Nodup ∧ (c.count v = none → ∀ x, x ∈ s ↔
    ∃ l ∈ (G.gates v).inp, (G.gates l.var).out ≠ none ∧ l.var ∈ done ∧ DependsOn G l.var x)
  todoCount : ∀ v ∈ todo, c.count v = none ∨ (c.count v = some exceedingMax ∧ max < (deps G N v).length)
  doneCount : ∀ v ∈ done, c.count v = some (deps G N v).length ∨
    (c.count v = some exceedingMax ∧ max < (deps G N v).length)
  other : ∀ v, v ∉ order → c.count v = none

theorem countStep_inv {G : GateProblem} {N max : Nat} {order done vs : List Nat} {v : Nat} {c : Counting}
    (O : Ordered G N order) (I : LoopInv G N max order done (v :: vs) c) :
    ∃ c', countStep G order max c v = some c' ∧ LoopInv G N max order (done ++ [v]) vs c' := by
  have hvo : v ∈ order := by rw [I.eq]; simp
  have hdv := O.defd v hvo
  have hpw := O.pw
  rw [I.eq, List.pairwise_append] at hpw
  have hnd := O.nd
  rw [I.eq, List.nodup_append] at hnd
  have hvvs : v ∉ vs := (List.nodup_cons.1 hnd.2.1).1
  have hvd : v ∉ done := fun h => hnd.2.2 v h v (List.mem_cons_self ..) rfl
  have hdvs : ∀ u ∈ vs, u ∉ done := fun u hu h => hnd.2.2 u h u (List.mem_cons_of_mem _ hu) rfl
  -- the gates that have `v` as input come later
  have hdep : ∀ u ∈ dependents G order v, u ∈ vs := by
    intro u hu
    obtain ⟨huo, l, hl, e⟩ := (mem_dependents hdv).1 hu
    rw [I.eq, List.mem_append, List.mem_cons] at huo
    rcases huo with h | rfl | h
    · exact absurd e (hpw.2.2 u h v (List.mem_cons_self ..) l hl)
    · exact absurd e (O.self _ hvo l hl)
    · exact h
  have hsub : ∀ u ∈ dependents G order v, (deps G N v).length ≤ (deps G N u).length := by
    intro u hu
    obtain ⟨huo, l, hl, e⟩ := (mem_dependents hdv).1 hu
    refine (deps_nodup G N v).length_le_of_subset fun x hx => ?_
    rw [O.mem_deps hvo] at hx
    rw [O.mem_deps huo]
    subst e
    exact .gate hl hdv hx
  -- the gates among the inputs of `v` come before
  have hin : ∀ l ∈ (G.gates v).inp, (G.gates l.var).out ≠ none → l.var ∈ done := by
    intro l hl hn
    have := O.closed v hvo l hl hn
    rw [I.eq, List.mem_append, List.mem_cons] at this
    rcases this with h | h | h
    · exact h
    · exact absurd h (O.self v hvo l hl)
    · exact absurd rfl ((List.pairwise_cons.1 hpw.2.1).1 _ h l hl)
  obtain ⟨s, hs, hsn, hsx⟩ := I.sets v (List.mem_cons_self ..)
  have heq : order = (done ++ [v]) ++ vs := by rw [I.eq]; simp
  have hmem : ∀ {u : Nat}, u ∈ done ++ [v] ↔ u ∈ done ∨ u = v := by simp
  -- the gathered set
  have hg : (gather G max v s (c.count v)).2 = true → max < (deps G N v).length := by
    unfold gather
    split
    · rename_i h
      intro _
      rcases I.todoCount v (List.mem_cons_self ..) with h' | h'
      · rw [h] at h'; cases h'
      · exact h'.2
    · rename_i h
      intro he
      have hc : c.count v = none := by
        rcases I.todoCount v (List.mem_cons_self ..) with h' | h'
        · exact h'
        · exact absurd h'.1 h
      obtain ⟨h1, h2, h3, _⟩ := addInputs_spec (G := G) (max := max) (G.gates v).inp hsn
      refine Nat.lt_of_lt_of_le (h3 he) (h1.length_le_of_subset fun x hx => ?_)
      rw [O.mem_deps hvo]
      rcases h2 x hx with h | ⟨l, hl, hn, rfl⟩
      · obtain ⟨l, hl, hn, _, hd⟩ := (hsx hc x).1 h
        exact .gate hl hn hd
      · exact .input hl hn
  have hg2 : (gather G max v s (c.count v)).2 = false → (gather G max v s (c.count v)).1.Nodup ∧
      ∀ x, x ∈ (gather G max v s (c.count v)).1 ↔ DependsOn G v x := by
    unfold gather
    split
    · intro h; cases h
    · rename_i h
      intro he
      have hc : c.count v = none := by
        rcases I.todoCount v (List.mem_cons_self ..) with h' | h'
        · exact h'
        · exact absurd h'.1 h
      obtain ⟨h1, h2, _, h4⟩ := addInputs_spec (G := G) (max := max) (G.gates v).inp hsn
      refine ⟨h1, fun x => ⟨fun hx => ?_, fun hx => h4 he x ?_⟩⟩
      · rcases h2 x hx with h | ⟨l, hl, hn, rfl⟩
        · obtain ⟨l, hl, hn, _, hd⟩ := (hsx hc x).1 h
          exact .gate hl hn hd
        · exact .input hl hn
      · cases hx with
        | input hl hn => exact .inr ⟨_, hl, hn, rfl⟩
        | gate hl hn hd => exact .inl ((hsx hc x).2 ⟨_, hl, hn, hin _ hl hn, hd⟩)
  unfold countStep
  rw [hs]
  dsimp only
  cases hr : (gather G max v s (c.count v)).2 with
  | true =>
    rw [if_pos rfl]
    have hm := hg hr
    refine ⟨_, rfl, heq, fun u hu => ?_, fun u hu => ?_, fun u hu => ?_, fun u hu => ?_⟩
    · obtain ⟨s1, a1, a2, a3⟩ := I.sets u (List.mem_cons_of_mem _ hu)
      have hne : u ≠ v := fun e => hvvs (e ▸ hu)
      refine ⟨s1, by dsimp only; rw [upd_ne _ _ hne]; exact a1, a2, fun hc x => ?_⟩
      dsimp only at hc
      rw [foldl_upd] at hc
      by_cases hud : u ∈ dependents G order v
      · rw [if_pos hud] at hc; cases hc
      · rw [if_neg hud, upd_ne _ _ hne] at hc
        rw [a3 hc x]
        refine exists_congr fun l => and_congr_right fun hl => and_congr_right fun hn => ?_
        rw [hmem]
        have hlv : l.var ≠ v := fun e =>
          hud ((mem_dependents hdv).2 ⟨by rw [I.eq]; simp [hu], l, hl, e⟩)
        simp [hlv]
    · have hne : u ≠ v := fun e => hvvs (e ▸ hu)
      dsimp only
      rw [foldl_upd]
      by_cases hud : u ∈ dependents G order v
      · rw [if_pos hud]
        exact .inr ⟨rfl, Nat.lt_of_lt_of_le hm (hsub u hud)⟩
      · rw [if_neg hud, upd_ne _ _ hne]
        exact I.todoCount u (List.mem_cons_of_mem _ hu)
    · dsimp only
      rw [foldl_upd, if_neg (fun h => by
        have hu2 := hdep u h
        rcases hmem.1 hu with h | rfl
        · exact hdvs u hu2 h
        · exact hvvs hu2)]
      rcases hmem.1 hu with h | rfl
      · rw [upd_ne _ _ (fun e : u = v => hvd (e ▸ h))]
        exact I.doneCount u h
      · rw [upd_same]
        exact .inr ⟨rfl, hm⟩
    · dsimp only
      rw [foldl_upd, if_neg (fun h => hu ((mem_dependents hdv).1 h).1), upd_ne _ _ (fun e : u = v => hu (e ▸ hvo))]
      exact I.other u hu
  | false =>
    rw [if_neg (by simp)]
    obtain ⟨hn1, hx1⟩ := hg2 hr
    generalize (gather G max v s (c.count v)).1 = xs at hn1 hx1
    obtain ⟨f', h1, h2, h3⟩ := pushTo_spec (v := v) (xs := xs) (dependents G order v) c.sets (fun d hd => by
      have := hdep d hd
      obtain ⟨s1, a1, a2, _⟩ := I.sets d (List.mem_cons_of_mem _ this)
      exact ⟨fun e => hvvs (e ▸ this), s1, a1, a2⟩)
    have hlen : xs.length = (deps G N v).length := by
      refine Nat.le_antisymm (hn1.length_le_of_subset fun x hx => ?_)
        ((deps_nodup G N v).length_le_of_subset fun x hx => ?_)
      · rw [O.mem_deps hvo]; exact (hx1 x).1 hx
      · rw [O.mem_deps hvo] at hx; exact (hx1 x).2 hx
    rw [h1]
    refine ⟨_, rfl, heq, fun u hu => ?_, fun u hu => ?_, fun u hu => ?_, fun u hu => ?_⟩
    · obtain ⟨s1, a1, a2, a3⟩ := I.sets u (List.mem_cons_of_mem _ hu)
      have hne : u ≠ v := fun e => hvvs (e ▸ hu)
      dsimp only
      rw [upd_ne _ _ hne, upd_ne _ _ hne]
      by_cases hud : u ∈ dependents G order v
      · obtain ⟨s2, b1, b2, b3⟩ := h3 u hud s1 a1
        refine ⟨s2, b1, b2, fun hc x => ?_⟩
        rw [b3, a3 hc x, hx1]
        constructor
        · rintro (⟨l, hl, hn, hd, h⟩ | h)
          · exact ⟨l, hl, hn, hmem.2 (.inl hd), h⟩
          · obtain ⟨_, l, hl, e⟩ := (mem_dependents hdv).1 hud
            subst e
            exact ⟨l, hl, hdv, hmem.2 (.inr rfl), h⟩
        · rintro ⟨l, hl, hn, hd, h⟩
          rcases hmem.1 hd with hd | e
          · exact .inl ⟨l, hl, hn, hd, h⟩
          · exact .inr (e ▸ h)
      · rw [h2 u hud]
        refine ⟨s1, a1, a2, fun hc x => ?_⟩
        rw [a3 hc x]
        refine exists_congr fun l => and_congr_right fun hl => and_congr_right fun hn => ?_
        rw [hmem]
        have hlv : l.var ≠ v := fun e =>
          hud ((mem_dependents hdv).2 ⟨by rw [I.eq]; simp [hu], l, hl, e⟩)
        simp [hlv]
    · dsimp only
      rw [upd_ne _ _ (fun e : u = v => hvvs (e ▸ hu))]
      exact I.todoCount u (List.mem_cons_of_mem _ hu)
    · dsimp only
      rcases hmem.1 hu with h | rfl
      · rw [upd_ne _ _ (fun e : u = v => hvd (e ▸ h))]
        exact I.doneCount u h
      · rw [upd_same, hlen]
        exact .inl rfl
    · dsimp only
      rw [upd_ne _ _ (fun e : u = v => hu (e ▸ hvo))]
      exact I.other u hu

theorem countLoop_inv {G : GateProblem} {N max : Nat} {order : List Nat} (O : Ordered G N order) :
    ∀ (todo done : List Nat) (c : Counting), LoopInv G N max order done todo c →
      ∃ c', countLoop G order max todo c = some c' ∧ LoopInv G N max order order [] c'
  | [], done, c, I => ⟨c, rfl, by have := I.eq; rw [List.append_nil] at this; subst this; exact I⟩
  | v :: vs, done, c, I => by
    obtain ⟨c1, h1, I1⟩ := countStep_inv O I
    obtain ⟨c2, h2, I2⟩ := countLoop_inv O vs (done ++ [v]) c1 I1
    exact ⟨c2, by rw [countLoop, h1]; exact h2, I2⟩

theorem start_inv {G : GateProblem} {N max : Nat} (order : List Nat) :
    LoopInv G N max order [] order (Counting.start order) := by
  refine ⟨rfl, fun v hv => ⟨[], ?_, List.nodup_nil, fun _ x => by simp⟩, fun v _ => .inl rfl, by simp, fun _ _ => rfl⟩
  show (if order.contains v then some [] else none) = some []
  rw [if_pos (List.contains_iff_mem.2 hv)]

end Candy.InputDeps
