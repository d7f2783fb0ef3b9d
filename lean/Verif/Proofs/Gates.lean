import Verif.Model.Gates
import Verif.Model.History
import Verif.Proofs.Problem
import Verif.Proofs.Basic

/-! # Invariant of the block list -/

namespace Candy
namespace BlockList

theorem getD_lt {α : Type} {xs : List α} {i : Nat} {d : α} (h : i < xs.length) : xs.getD i d = xs[i] := by
  simp [List.getD, List.getElem?_eq_getElem h]

theorem getD_ge {α : Type} {xs : List α} {i : Nat} {d : α} (h : xs.length ≤ i) : xs.getD i d = d := by
  simp [List.getD, List.getElem?_eq_none h]

theorem eq_of_var_eq : ∀ {c : Clause}, (c.map Lit.var).Nodup → ∀ {l m : Lit}, l ∈ c → m ∈ c →
    l.var = m.var → l = m := by
  intro c
  induction c with
  | nil => intro _ l m hl; simp at hl
  | cons x xs ih =>
    intro h l m hl hm he
    rw [List.map_cons, List.nodup_cons] at h
    rcases List.mem_cons.1 hl with h1 | h1
    · rcases List.mem_cons.1 hm with h2 | h2
      · rw [h1, h2]
      · exact absurd (List.mem_map.2 ⟨m, h2, by rw [← he, h1]⟩) h.1
    · rcases List.mem_cons.1 hm with h2 | h2
      · exact absurd (List.mem_map.2 ⟨l, h1, by rw [he, h2]⟩) h.1
      · exact ih h.2 h1 h2 he

theorem mem_replicate_flatMap {n : Nat} {f : Nat → Nat} {i : Nat} :
    i ∈ (List.range n).flatMap (fun i => List.replicate (f i) i) ↔ i < n ∧ 0 < f i := by
  simp only [List.mem_flatMap, List.mem_range, List.mem_replicate]
  constructor
  · rintro ⟨j, h1, h2, rfl⟩; exact ⟨h1, by omega⟩
  · rintro ⟨h1, h2⟩; exact ⟨i, h1, by omega, rfl⟩

theorem removeLits_spec (c : Nat) : ∀ (ls : Clause) (B : BlockList),
    (removeLits c ls B).problem = B.problem ∧ (removeLits c ls B).nVars = B.nVars ∧
    (∀ l, (removeLits c ls B).index l = if l ∈ ls then (B.index l).filter (· != c) else B.index l) ∧
    (∀ l, (removeLits c ls B).numBlocked l = if l ∈ ls ∨ l.neg ∈ ls then blockedInvalid else B.numBlocked l) := by
  intro ls
  induction ls with
  | nil => intro B; simp [removeLits]
  | cons x xs ih =>
    intro B
    obtain ⟨h1, h2, h3, h4⟩ := ih
      { B with index := upd B.index x ((B.index x).filter (· != c))
               numBlocked := upd (upd B.numBlocked x blockedInvalid) x.neg blockedInvalid }
    rw [removeLits]
    refine ⟨h1, h2, fun l => ?_, fun l => ?_⟩
    · rw [h3]
      simp only [upd, List.mem_cons]
      by_cases hx : l = x
      · subst hx
        simp only [if_true, true_or, List.filter_filter, Bool.and_self, ite_self]
      · simp [hx]
    · rw [h4]
      simp only [upd, List.mem_cons]
      by_cases hx : l = x
      · subst hx; simp
      · by_cases hy : l = x.neg
        · subst hy; simp [Lit.neg_neg]
        · have : l.neg ≠ x := fun h => hy (by rw [← h, Lit.neg_neg])
          simp [hx, hy, this]

/-- `cur` are the positions of the clauses that are still in the index. -/
structure Inv (p : Problem) (B : BlockList) (cur : Nat → Prop) : Prop where
  problem : B.problem = p.problem
  nVars : B.nVars = p.nVars
  wf : WfCNF p.nVars p.problem
  mem : ∀ l i, i ∈ B.index l ↔ cur i ∧ l ∈ B.cls i
  nodup : ∀ l, (B.index l).Nodup
  cache : ∀ o, B.numBlocked o = blockedInvalid ∨
    B.numBlocked o = ((B.index o).filter (B.isBlocked o)).length % 65536

theorem Inv.vars {p : Problem} {B : BlockList} {cur : Nat → Prop} (h : Inv p B cur) (i : Nat) :
    ((B.cls i).map Lit.var).Nodup := by
  rw [cls, h.problem]
  by_cases hi : i < p.problem.length
  · rw [getD_lt hi]
    exact (h.wf _ (List.getElem_mem hi)).2
  · rw [getD_ge (by omega)]
    simp

theorem not_both {c : Clause} (h : (c.map Lit.var).Nodup) {l : Lit} (h1 : l ∈ c) : l.neg ∉ c := by
  intro h2
  have := eq_of_var_eq h h1 h2 rfl
  exact absurd this (by cases l; simp [Lit.neg])

theorem new_inv {p : Problem} (hw : WfCNF p.nVars p.problem) :
    Inv p (BlockList.new p) (fun i => i < p.problem.length) where
  problem := rfl
  nVars := rfl
  wf := hw
  mem l i := by
    simp only [BlockList.new, cls]
    rw [mem_replicate_flatMap (f := fun i => (p.problem.getD i []).count l), List.count_pos_iff]
  nodup l := by
    simp only [BlockList.new]
    have hc : ∀ i, (p.problem.getD i []).count l ≤ 1 := by
      intro i
      have : (p.problem.getD i []).Nodup := by
        by_cases hi : i < p.problem.length
        · rw [getD_lt hi]
          exact List.Pairwise.of_map (S := fun a b => a ≠ b) Lit.var (fun a b h h' => h (by rw [h']))
            (hw _ (List.getElem_mem hi)).2
        · rw [getD_ge (by omega)]
          exact List.nodup_nil
      exact List.nodup_iff_count.1 this l
    generalize p.problem.length = n
    induction n with
    | zero => simp
    | succ n ih =>
      rw [List.range_succ, List.flatMap_append, List.nodup_append]
      refine ⟨ih, ?_, ?_⟩
      · have := hc n
        simp only [List.flatMap_cons, List.flatMap_nil, List.append_nil]
        generalize (p.problem.getD n []).count l = k at this
        match k, this with
        | 0, _ => simp
        | 1, _ => simp
      · intro a ha b hb
        rw [mem_replicate_flatMap (f := fun i => (p.problem.getD i []).count l)] at ha
        simp only [List.flatMap_cons, List.flatMap_nil, List.append_nil, List.mem_replicate] at hb
        omega
  cache o := .inl rfl

theorem isBlocked_congr {B B' : BlockList} (hp : B'.problem = B.problem) {o : Lit}
    (hi : B'.index o.neg = B.index o.neg) (c : Nat) : B'.isBlocked o c = B.isBlocked o c := by
  unfold isBlocked cls
  rw [hp, hi]

theorem Inv.removeOne {p : Problem} {B : BlockList} {cur : Nat → Prop} (h : Inv p B cur) (c : Nat) :
    Inv p (removeLits c (B.cls c) B) (fun i => cur i ∧ i ≠ c) := by
  obtain ⟨h1, h2, h3, h4⟩ := removeLits_spec c (B.cls c) B
  have hcls : ∀ i, (removeLits c (B.cls c) B).cls i = B.cls i := fun i => congrArg (·.getD i []) h1
  refine ⟨h1.trans h.problem, h2.trans h.nVars, h.wf, fun l i => ?_, fun l => ?_, fun o => ?_⟩
  · rw [h3, hcls]
    by_cases hl : l ∈ B.cls c
    · rw [if_pos hl, List.mem_filter, h.mem]
      simp only [bne_iff_ne, ne_eq]
      exact ⟨fun ⟨⟨a, b⟩, c⟩ => ⟨⟨a, c⟩, b⟩, fun ⟨⟨a, c⟩, b⟩ => ⟨⟨a, b⟩, c⟩⟩
    · rw [if_neg hl, h.mem]
      refine ⟨fun ⟨a, b⟩ => ⟨⟨a, ?_⟩, b⟩, fun ⟨a, b⟩ => ⟨a.1, b⟩⟩
      rintro rfl; exact hl b
  · rw [h3]
    split
    · exact (h.nodup l).sublist List.filter_sublist
    · exact h.nodup l
  · rw [h4]
    split
    · exact .inl rfl
    · rename_i hn
      have hn1 : o ∉ B.cls c := fun h => hn (.inl h)
      have hn2 : o.neg ∉ B.cls c := fun h => hn (.inr h)
      rcases h.cache o with hc | hc
      · exact .inl hc
      · refine .inr ?_
        rw [hc, h3, if_neg hn1]
        congr 2
        exact List.filter_congr fun i _ => (isBlocked_congr h1 (by rw [h3, if_neg hn2]) i).symm

theorem Inv.congr {p : Problem} {B : BlockList} {cur cur' : Nat → Prop} (h : Inv p B cur)
    (he : ∀ i, cur i ↔ cur' i) : Inv p B cur' :=
  ⟨h.problem, h.nVars, h.wf, fun l i => by rw [h.mem, he], h.nodup, h.cache⟩

theorem Inv.remove {p : Problem} : ∀ (cs : List Nat) {B : BlockList} {cur : Nat → Prop}, Inv p B cur →
    Inv p (B.remove cs) (fun i => cur i ∧ i ∉ cs) := by
  intro cs
  induction cs with
  | nil => intro B cur h; exact h.congr (by simp)
  | cons c cs ih =>
    intro B cur h
    exact (ih (h.removeOne c)).congr fun i => by simp [and_assoc]

theorem Inv.getNumBlocked {p : Problem} {B : BlockList} {cur : Nat → Prop} (h : Inv p B cur) (o : Lit) :
    Inv p (B.getNumBlocked o).1 cur ∧ (B.getNumBlocked o).1.index = B.index ∧
      (B.getNumBlocked o).2 = ((B.index o).filter (B.isBlocked o)).length % 65536 := by
  unfold BlockList.getNumBlocked
  by_cases hi : B.numBlocked o = blockedInvalid
  · rw [if_pos hi]
    refine ⟨⟨h.problem, h.nVars, h.wf, h.mem, h.nodup, fun o' => ?_⟩, rfl, ?_⟩
    rotate_left
    · change upd B.numBlocked o _ o = _
      unfold upd
      rw [if_pos rfl]
    change upd B.numBlocked o _ o' = _ ∨ upd B.numBlocked o _ o' = _
    by_cases ho : o' = o
    · subst ho
      right
      unfold upd
      rw [if_pos rfl]
      rfl
    · unfold upd
      rw [if_neg ho]
      exact h.cache o'
  · simp only [hi, if_false, true_and]
    exact ⟨h, (h.cache o).resolve_left hi⟩

theorem isBlockedPair_iff {o : Lit} {c d : Clause} :
    isBlockedPair o c d = true ↔ ∃ l ∈ c, l ≠ o ∧ l.neg ∈ d := by
  simp only [isBlockedPair, List.any_eq_true, Bool.and_eq_true, bne_iff_ne, beq_iff_eq]
  constructor
  · rintro ⟨l, h1, h2, x, h3, rfl⟩
    exact ⟨_, h1, h2, by rwa [Lit.neg_neg]⟩
  · rintro ⟨l, h1, h2, h3⟩
    exact ⟨l, h1, h2, _, h3, by rw [Lit.neg_neg]⟩

theorem isBlockedPair_symm {o : Lit} {c d : Clause} (h : isBlockedPair o c d = true) :
    isBlockedPair o.neg d c = true := by
  rw [isBlockedPair_iff] at h ⊢
  obtain ⟨l, h1, h2, h3⟩ := h
  exact ⟨l.neg, h3, fun h => h2 (by rw [← Lit.neg_neg l, h, Lit.neg_neg]), by rwa [Lit.neg_neg]⟩

theorem filter_length_eq {α : Type} {p : α → Bool} {xs : List α} :
    (xs.filter p).length = xs.length ↔ ∀ x ∈ xs, p x = true := by
  rw [List.length_filter_eq_length_iff]

theorem Inv.isBlockedSet {p : Problem} {B : BlockList} {cur : Nat → Prop} (h : Inv p B cur) (o : Lit) :
    Inv p (B.isBlockedSet o).1 cur ∧ (B.isBlockedSet o).1.index = B.index ∧
      ((B.isBlockedSet o).2 = true ↔ (B.index o).length < 65536 ∧ ∀ i ∈ B.index o, B.isBlocked o i = true) := by
  obtain ⟨h1, h2, h3⟩ := h.getNumBlocked o
  refine ⟨h1, h2, ?_⟩
  unfold BlockList.isBlockedSet
  simp only [h2, h3, beq_iff_eq]
  have hle := List.length_filter_le (B.isBlocked o) (B.index o)
  rw [← filter_length_eq (p := B.isBlocked o)]
  constructor
  · intro he
    have : (B.index o).length < 65536 := by omega
    exact ⟨this, by omega⟩
  · rintro ⟨h4, h5⟩
    omega

theorem stripLits_spec (o : Lit) (c : Nat) : ∀ (ls : Clause) (B : BlockList), o.neg ∉ ls →
    (stripLits o c ls B).problem = B.problem ∧ (stripLits o c ls B).nVars = B.nVars ∧
    (∀ l, (stripLits o c ls B).index l = if l ∈ ls then (B.index l).filter (· != c) else B.index l) ∧
    (∀ l, (stripLits o c ls B).numBlocked l =
      if (l ∈ ls ∧ l ≠ o) ∨ (l.neg ∈ ls ∧ l.neg ≠ o) then blockedInvalid
      else if l = o.neg ∧ o ∈ ls then (B.index o.neg).length % 65536 else B.numBlocked l) := by
  intro ls
  induction ls with
  | nil => intro B _; simp [stripLits]
  | cons x xs ih =>
    intro B hn
    have hn1 : o.neg ≠ x := fun h => hn (by rw [h]; simp)
    have hn2 : o.neg ∉ xs := fun h => hn (List.mem_cons_of_mem _ h)
    rw [stripLits]
    dsimp only
    by_cases hxo : x = o
    · subst hxo
      rw [if_neg (by simp)]
      obtain ⟨h1, h2, h3, h4⟩ := ih
        { B with index := upd B.index x ((B.index x).filter (· != c))
                 numBlocked := upd B.numBlocked x.neg ((upd B.index x ((B.index x).filter (· != c)) x.neg).length % 65536) } hn2
      refine ⟨h1, h2, fun l => ?_, fun l => ?_⟩
      · rw [h3]
        simp only [upd, List.mem_cons]
        by_cases hx : l = x
        · subst hx
          simp only [if_true, true_or, List.filter_filter, Bool.and_self, ite_self]
        · simp [hx]
      · rw [h4]
        simp only [upd, List.mem_cons, if_neg hn1]
        by_cases hx : l = x
        · subst hx
          have : l ≠ l.neg := fun h => hn1 h.symm
          simp [this, hn1, hn2]
        · by_cases hy : l = x.neg
          · subst hy; simp [Lit.neg_neg, hn1, hn2]
          · have : l.neg ≠ x := fun h => hy (by rw [← h, Lit.neg_neg])
            simp [hx, hy, this]
    · rw [if_pos hxo]
      obtain ⟨h1, h2, h3, h4⟩ := ih
        { B with index := upd B.index x ((B.index x).filter (· != c))
                 numBlocked := upd (upd B.numBlocked x blockedInvalid) x.neg blockedInvalid } hn2
      refine ⟨h1, h2, fun l => ?_, fun l => ?_⟩
      · rw [h3]
        simp only [upd, List.mem_cons]
        by_cases hx : l = x
        · subst hx
          simp only [if_true, true_or, List.filter_filter, Bool.and_self, ite_self]
        · simp [hx]
      · rw [h4]
        have hox : ¬ o = x := fun h => hxo h.symm
        simp only [upd, List.mem_cons, if_neg hn1, hox, false_or]
        by_cases hx : l = x
        · subst hx
          have h5 : l ≠ o.neg := fun h => hn1 h.symm
          simp [hxo, h5]
        · by_cases hy : l = x.neg
          · subst hy
            have h5 : x.neg ≠ o.neg := fun h => hxo (by rw [← Lit.neg_neg x, h, Lit.neg_neg])
            simp [Lit.neg_neg, hxo, h5]
          · have : l.neg ≠ x := fun h => hy (by rw [← h, Lit.neg_neg])
            simp [hx, hy, this]

/-- The loop over the stripped clauses. -/
theorem strip_fold (o : Lit) : ∀ (cs : List Nat) (B : BlockList), (∀ c ∈ cs, o.neg ∉ B.cls c ∧ o ∈ B.cls c) →
    let B' := cs.foldl (fun B c => stripLits o c (B.cls c) B) B
    B'.problem = B.problem ∧ B'.nVars = B.nVars ∧
    (∀ l i, i ∈ B'.index l ↔ i ∈ B.index l ∧ ¬ (i ∈ cs ∧ l ∈ B.cls i)) ∧
    (∀ l, (B'.index l).Sublist (B.index l)) ∧
    (∀ l, (∀ c ∈ cs, l ∉ B.cls c) → B'.index l = B.index l) ∧
    (∀ l, B'.numBlocked l =
      if ∃ c ∈ cs, (l ∈ B.cls c ∧ l ≠ o) ∨ (l.neg ∈ B.cls c ∧ l.neg ≠ o) then blockedInvalid
      else if l = o.neg ∧ cs ≠ [] then (B.index o.neg).length % 65536 else B.numBlocked l) := by
  intro cs
  induction cs with
  | nil => intro B _; simp
  | cons c cs ih =>
    intro B hc
    dsimp only
    rw [List.foldl_cons]
    obtain ⟨h1, h2, h3, h4⟩ := stripLits_spec o c (B.cls c) B (hc c (by simp)).1
    have hcls : ∀ i, (stripLits o c (B.cls c) B).cls i = B.cls i := fun i => congrArg (·.getD i []) h1
    obtain ⟨g1, g2, g3, g4, g5, g6⟩ := ih (stripLits o c (B.cls c) B) (fun d hd => by
      rw [hcls]; exact hc d (List.mem_cons_of_mem _ hd))
    refine ⟨g1.trans h1, g2.trans h2, fun l i => ?_, fun l => (g4 l).trans ?_, fun l hl => ?_, fun l => ?_⟩
    · rw [g3, h3, hcls]
      by_cases hl : l ∈ B.cls c
      · rw [if_pos hl, List.mem_filter]
        simp only [bne_iff_ne, ne_eq, List.mem_cons]
        constructor
        · rintro ⟨⟨a, b⟩, d⟩
          refine ⟨a, ?_⟩
          rintro ⟨rfl | e, f⟩
          · exact b rfl
          · exact d ⟨e, f⟩
        · rintro ⟨a, b⟩
          exact ⟨⟨a, fun e => b ⟨.inl e, by rw [e]; exact hl⟩⟩, fun ⟨e, f⟩ => b ⟨.inr e, f⟩⟩
      · rw [if_neg hl]
        simp only [List.mem_cons]
        constructor
        · rintro ⟨a, b⟩
          refine ⟨a, ?_⟩
          rintro ⟨rfl | e, f⟩
          · exact hl f
          · exact b ⟨e, f⟩
        · rintro ⟨a, b⟩
          exact ⟨a, fun ⟨e, f⟩ => b ⟨.inr e, f⟩⟩
    · rw [h3]
      split
      · exact List.filter_sublist
      · exact List.Sublist.refl _
    · rw [g5 l (fun d hd => by rw [hcls]; exact hl d (List.mem_cons_of_mem _ hd)), h3,
        if_neg (hl c (by simp))]
    · rw [g6, h4]
      simp only [hcls, List.mem_cons, exists_eq_or_imp]
      have ho := hc c (by simp)
      rw [h3 o.neg, if_neg ho.1]
      by_cases ha : ∃ d ∈ cs, (l ∈ B.cls d ∧ l ≠ o) ∨ (l.neg ∈ B.cls d ∧ l.neg ≠ o)
      · rw [if_pos ha, if_pos (.inr ha)]
      · rw [if_neg ha]
        by_cases hb : (l ∈ B.cls c ∧ l ≠ o) ∨ (l.neg ∈ B.cls c ∧ l.neg ≠ o)
        · have hb' : (l ∈ B.cls c ∧ l ≠ o ∨ l.neg ∈ B.cls c ∧ l.neg ≠ o) ∨
            ∃ d, d ∈ cs ∧ (l ∈ B.cls d ∧ l ≠ o ∨ l.neg ∈ B.cls d ∧ l.neg ≠ o) := .inl hb
          rw [if_pos hb', if_pos hb]
          by_cases hd : l = o.neg ∧ cs ≠ []
          · obtain ⟨rfl, _⟩ := hd
            rcases hb with hb | hb
            · exact absurd hb.1 ho.1
            · exact absurd (Lit.neg_neg o) hb.2
          · rw [if_neg hd]
        · rw [if_neg hb]
          have : ¬ ((l ∈ B.cls c ∧ l ≠ o ∨ l.neg ∈ B.cls c ∧ l.neg ≠ o) ∨
            ∃ d, d ∈ cs ∧ (l ∈ B.cls d ∧ l ≠ o ∨ l.neg ∈ B.cls d ∧ l.neg ≠ o)) := by
            rintro (h | h)
            · exact hb h
            · exact ha h
          rw [if_neg this]
          simp only [ho.2, and_true, ne_eq, List.cons_ne_nil, not_false_eq_true]
          by_cases hl : l = o.neg
          · simp [hl]
          · simp [hl]

theorem Inv.strip {p : Problem} {B : BlockList} {cur : Nat → Prop} (h : Inv p B cur) (o : Lit) :
    Inv p (B.stripUnblockedClauses o).1 (fun i => cur i ∧ i ∉ (B.stripUnblockedClauses o).2) ∧
    (∀ i, i ∈ (B.stripUnblockedClauses o).2 ↔ i ∈ B.index o ∧ ¬ B.isBlocked o i = true) := by
  have hres : ∀ i, i ∈ (B.stripUnblockedClauses o).2 ↔ i ∈ B.index o ∧ ¬ B.isBlocked o i = true := by
    intro i
    simp only [stripUnblockedClauses, List.mem_filter, Bool.not_eq_true', Bool.not_eq_true]
  refine ⟨?_, hres⟩
  have hc : ∀ c ∈ (B.stripUnblockedClauses o).2, o.neg ∉ B.cls c ∧ o ∈ B.cls c := by
    intro c hm
    have := ((h.mem o c).1 ((hres c).1 hm).1).2
    exact ⟨not_both (h.vars c) this, this⟩
  obtain ⟨g1, g2, g3, g4, g5, g6⟩ := strip_fold o (B.stripUnblockedClauses o).2 B hc
  have hcls : ∀ i, (B.stripUnblockedClauses o).1.cls i = B.cls i := fun i => congrArg (·.getD i []) g1
  have hidx : ∀ l i, i ∈ (B.stripUnblockedClauses o).1.index l ↔
      i ∈ B.index l ∧ ¬ (i ∈ (B.stripUnblockedClauses o).2 ∧ l ∈ B.cls i) := g3
  have hkeep : (B.stripUnblockedClauses o).1.index o.neg = B.index o.neg := g5 o.neg fun c hm => (hc c hm).1
  refine ⟨g1.trans h.problem, g2.trans h.nVars, h.wf, fun l i => ?_, fun l => (h.nodup l).sublist (g4 l), fun l => ?_⟩
  · rw [hidx, h.mem, hcls]
    constructor
    · rintro ⟨⟨a, b⟩, c⟩; exact ⟨⟨a, fun e => c ⟨e, b⟩⟩, b⟩
    · rintro ⟨⟨a, c⟩, b⟩; exact ⟨⟨a, b⟩, fun ⟨e, _⟩ => c e⟩
  · have e := g6 l
    change (B.stripUnblockedClauses o).1.numBlocked l = _ at e
    rw [e]
    split
    · exact .inl rfl
    · rename_i ht
      -- every remaining clause with `o` is blocked
      have hblk : ∀ i ∈ (B.stripUnblockedClauses o).1.index o, B.isBlocked o i = true := by
        intro i hi
        have := (hidx o i).1 hi
        cases hb : B.isBlocked o i with
        | true => rfl
        | false =>
          exact absurd ⟨(hres i).2 ⟨this.1, by simp [hb]⟩, ((h.mem o i).1 this.1).2⟩ this.2
      split
      · rename_i hl
        obtain ⟨rfl, _⟩ := hl
        refine .inr ?_
        rw [hkeep]
        have : (B.index o.neg).filter ((B.stripUnblockedClauses o).1.isBlocked o.neg) = B.index o.neg := by
          rw [List.filter_eq_self]
          intro d hd
          rw [isBlocked, List.all_eq_true]
          intro i hi
          rw [Lit.neg_neg] at hi
          have := List.all_eq_true.1 (hblk i hi) d hd
          rw [hcls, hcls]
          exact isBlockedPair_symm this
        rw [this]
      · rename_i hl
        rcases h.cache l with hcl | hcl
        · exact .inl hcl
        · refine .inr ?_
          rw [hcl]
          by_cases hlo : l = o
          · subst hlo
            -- the blocked clauses stay
            have e1 : ∀ i, (B.stripUnblockedClauses l).1.isBlocked l i = B.isBlocked l i := fun i =>
              isBlocked_congr g1 hkeep i
            have e2 : ((B.stripUnblockedClauses l).1.index l).filter ((B.stripUnblockedClauses l).1.isBlocked l) =
                (B.stripUnblockedClauses l).1.index l := by
              rw [List.filter_eq_self]
              intro i hi
              rw [e1]; exact hblk i hi
            rw [e2]
            congr 1
            have n1 : ((B.index l).filter (B.isBlocked l)).Nodup := (h.nodup l).sublist List.filter_sublist
            have n2 : ((B.stripUnblockedClauses l).1.index l).Nodup := (h.nodup l).sublist (g4 l)
            refine List.Perm.length_eq ((List.perm_ext_iff_of_nodup n1 n2).2 fun i => ?_)
            rw [List.mem_filter, hidx]
            constructor
            · rintro ⟨a, b⟩
              exact ⟨a, fun ⟨c, _⟩ => ((hres i).1 c).2 b⟩
            · rintro ⟨a, b⟩
              exact ⟨a, hblk i ((hidx l i).2 ⟨a, b⟩)⟩
          · have hlo' : ∀ c ∈ (B.stripUnblockedClauses o).2, l ∉ B.cls c := fun c hm hm2 =>
              ht ⟨c, hm, .inl ⟨hm2, hlo⟩⟩
            have hlo'' : ∀ c ∈ (B.stripUnblockedClauses o).2, l.neg ∉ B.cls c := by
              intro c hm hm2
              by_cases hno : l.neg = o
              · refine hl ⟨by rw [← hno, Lit.neg_neg], fun he => by rw [he] at hm; simp at hm⟩
              · exact ht ⟨c, hm, .inr ⟨hm2, hno⟩⟩
            have k1 : (B.stripUnblockedClauses o).1.index l = B.index l := g5 l hlo'
            have k2 : (B.stripUnblockedClauses o).1.index l.neg = B.index l.neg := g5 l.neg hlo''
            rw [k1]
            congr 2
            exact List.filter_congr fun i _ => (isBlocked_congr g1 k2 i).symm

end BlockList
end Candy
