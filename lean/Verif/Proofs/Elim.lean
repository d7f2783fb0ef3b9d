import Verif.Proofs.Simplify

/-! Variable elimination: resolvents and soundness of the elimination step. -/

namespace Candy

variable {F : CNF}

/-! ### Resolution -/

theorem find_var {ps : List Lit} (hnd : (ps.map Lit.var).Nodup) {q : Lit} :
    (match ps.find? (fun p => p.var == q.var) with
      | none => q ∉ ps ∧ q.neg ∉ ps
      | some p => p ∈ ps ∧ (p = q ∨ p = q.neg) ∧ (q ∈ ps ↔ p = q) ∧ (q.neg ∈ ps ↔ p = q.neg)) := by
  have inj : ∀ a ∈ ps, ∀ b ∈ ps, a.var = b.var → a = b := by
    intro a ha b hb hab
    clear q
    induction ps with
    | nil => simp at ha
    | cons x xs ih =>
      simp only [List.map_cons, List.nodup_cons, List.mem_map, not_exists, not_and] at hnd
      simp only [List.mem_cons] at ha hb
      rcases ha with rfl | ha <;> rcases hb with rfl | hb
      · rfl
      · exact (hnd.1 b hb hab.symm).elim
      · exact (hnd.1 a ha hab).elim
      · exact ih hnd.2 ha hb
  split
  · rename_i h
    rw [List.find?_eq_none] at h
    exact ⟨fun hq => by have := h q hq; simp at this, fun hq => by have := h _ hq; simp at this⟩
  · rename_i p h
    have hp := List.mem_of_find?_eq_some h
    have hv : p.var = q.var := by simpa using List.find?_some h
    refine ⟨hp, Lit.eq_or_neg_of_var hv, ⟨fun hq => inj p hp q hq hv, fun e => e ▸ hp⟩,
      ⟨fun hq => inj p hp _ hq (by simpa using hv), fun e => e ▸ hp⟩⟩

theorem mergeQ_none {ps : List Lit} (hnd : (ps.map Lit.var).Nodup) {v : Nat} {qs : List Lit} :
    mergeQ ps v qs = none ↔ ∃ q ∈ qs, q.var ≠ v ∧ q.neg ∈ ps := by
  induction qs with
  | nil => simp [mergeQ]
  | cons q qs ih =>
    rw [mergeQ]
    by_cases hv : q.var = v
    · rw [if_pos hv, ih]; simp [hv]
    · rw [if_neg hv]
      have hf := find_var hnd (q := q)
      cases hfind : ps.find? (fun p => p.var == q.var) with
      | none =>
        rw [hfind] at hf
        simp only at hf ⊢
        rw [Option.map_eq_none_iff, ih]
        constructor
        · rintro ⟨x, h1, h2⟩; exact ⟨x, by simp [h1], h2⟩
        · rintro ⟨x, h1, h2, h3⟩
          rcases List.mem_cons.1 h1 with rfl | h1
          · exact (hf.2 h3).elim
          · exact ⟨x, h1, h2, h3⟩
      | some p =>
        rw [hfind] at hf
        simp only at hf ⊢
        obtain ⟨f1, f2, f3, f4⟩ := hf
        by_cases hp : p = q.neg
        · rw [if_pos hp]
          simp only [true_iff]
          exact ⟨q, by simp, hv, f4.2 hp⟩
        · rw [if_neg hp, ih]
          constructor
          · rintro ⟨x, h1, h2⟩; exact ⟨x, by simp [h1], h2⟩
          · rintro ⟨x, h1, h2, h3⟩
            rcases List.mem_cons.1 h1 with rfl | h1
            · exact (hp (f4.1 h3)).elim
            · exact ⟨x, h1, h2, h3⟩

theorem mergeQ_some {ps : List Lit} (hnd : (ps.map Lit.var).Nodup) {v : Nat} {qs r : List Lit}
    (h : mergeQ ps v qs = some r) :
    r.Sublist qs ∧ ∀ l, l ∈ r ↔ l ∈ qs ∧ l.var ≠ v ∧ l ∉ ps := by
  induction qs generalizing r with
  | nil => simp [mergeQ] at h; subst h; simp
  | cons q qs ih =>
    rw [mergeQ] at h
    by_cases hv : q.var = v
    · rw [if_pos hv] at h
      obtain ⟨h1, h2⟩ := ih h
      refine ⟨h1.trans (List.sublist_cons_self _ _), fun l => ?_⟩
      rw [h2, List.mem_cons]
      constructor
      · rintro ⟨a, b⟩; exact ⟨Or.inr a, b⟩
      · rintro ⟨rfl | a, b⟩
        · exact (b.1 hv).elim
        · exact ⟨a, b⟩
    · rw [if_neg hv] at h
      have hf := find_var hnd (q := q)
      cases hfind : ps.find? (fun p => p.var == q.var) with
      | none =>
        rw [hfind] at hf h
        simp only [Option.map_eq_some_iff] at hf h
        obtain ⟨r', h1, rfl⟩ := h
        obtain ⟨h2, h3⟩ := ih h1
        refine ⟨h2.cons_cons _, fun l => ?_⟩
        rw [List.mem_cons, h3, List.mem_cons]
        constructor
        · rintro (rfl | ⟨a, b⟩)
          · exact ⟨Or.inl rfl, hv, hf.1⟩
          · exact ⟨Or.inr a, b⟩
        · rintro ⟨rfl | a, b⟩
          · exact Or.inl rfl
          · exact Or.inr ⟨a, b⟩
      | some p =>
        rw [hfind] at hf h
        simp only at hf h
        obtain ⟨f1, f2, f3, f4⟩ := hf
        by_cases hp : p = q.neg
        · rw [if_pos hp] at h; simp at h
        · rw [if_neg hp] at h
          obtain ⟨h1, h2⟩ := ih h
          refine ⟨h1.trans (List.sublist_cons_self _ _), fun l => ?_⟩
          rw [h2, List.mem_cons]
          constructor
          · rintro ⟨a, b⟩; exact ⟨Or.inr a, b⟩
          · rintro ⟨rfl | a, b⟩
            · exact (b.2 (f3.2 (f2.resolve_right hp))).elim
            · exact ⟨a, b⟩

theorem mem_filter_ne {ps : List Lit} {v : Nat} {l : Lit} :
    l ∈ ps.filter (fun p => p.var != v) ↔ l ∈ ps ∧ l.var ≠ v := by
  simp [List.mem_filter]

/-- `merge` fails exactly on clauses that clash on another variable. -/
theorem merge_none {P Q : List Lit} {v : Nat} (hP : (P.map Lit.var).Nodup)
    (hQ : (Q.map Lit.var).Nodup) :
    merge P Q v = none ↔ ∃ l ∈ P, l.var ≠ v ∧ l.neg ∈ Q := by
  rw [merge]
  simp only [Option.map_eq_none_iff]
  by_cases h : P.length < Q.length
  · simp only [h, if_true]
    exact mergeQ_none hQ
  · simp only [h, if_false]
    rw [mergeQ_none hP]
    constructor
    · rintro ⟨q, h1, h2, h3⟩
      exact ⟨q.neg, h3, by simpa using h2, by simpa using h1⟩
    · rintro ⟨q, h1, h2, h3⟩
      exact ⟨q.neg, h3, by simpa using h2, by simpa using h1⟩

theorem nodup_append_var {r s : List Lit} (hr : (r.map Lit.var).Nodup) (hs : (s.map Lit.var).Nodup)
    (h : ∀ a ∈ r, ∀ b ∈ s, a.var ≠ b.var) : ((r ++ s).map Lit.var).Nodup := by
  rw [List.map_append, List.nodup_append]
  refine ⟨hr, hs, ?_⟩
  intro a ha b hb
  obtain ⟨x, hx, rfl⟩ := List.mem_map.1 ha
  obtain ⟨y, hy, rfl⟩ := List.mem_map.1 hb
  exact h x hx y hy

/-- The resolvent has exactly the literals of both clauses except the pivot, each variable once. -/
theorem merge_some {P Q r : List Lit} {v : Nat} (hP : (P.map Lit.var).Nodup)
    (hQ : (Q.map Lit.var).Nodup) (h : merge P Q v = some r) :
    (∀ l, l ∈ r ↔ (l ∈ P ∨ l ∈ Q) ∧ l.var ≠ v) ∧ (r.map Lit.var).Nodup := by
  have key : ∀ A B : List Lit, (A.map Lit.var).Nodup → (B.map Lit.var).Nodup → ∀ q,
      mergeQ A v B = some q → (∀ l, l ∈ q ++ A.filter (fun p => p.var != v) ↔
        (l ∈ A ∨ l ∈ B) ∧ l.var ≠ v) ∧
        ((q ++ A.filter (fun p => p.var != v)).map Lit.var).Nodup := by
    intro A B hA hB q hq
    obtain ⟨h1, h2⟩ := mergeQ_some hA hq
    have hcl : ¬ ∃ x ∈ B, x.var ≠ v ∧ x.neg ∈ A := by
      rw [← mergeQ_none hA, hq]; simp
    refine ⟨fun l => ?_, ?_⟩
    · rw [List.mem_append, h2, mem_filter_ne]
      constructor
      · rintro (⟨a, b, c⟩ | ⟨a, b⟩)
        · exact ⟨Or.inr a, b⟩
        · exact ⟨Or.inl a, b⟩
      · rintro ⟨a, b⟩
        by_cases hl : l ∈ A
        · exact Or.inr ⟨hl, b⟩
        · exact Or.inl ⟨a.resolve_left hl, b, hl⟩
    · refine nodup_append_var (hB.sublist (h1.map _)) (nodup_filter_var hA _) ?_
      intro a ha b hb hab
      obtain ⟨a1, a2, a3⟩ := (h2 a).1 ha
      obtain ⟨b1, b2⟩ := mem_filter_ne.1 hb
      rcases Lit.eq_or_neg_of_var hab with rfl | rfl
      · exact a3 b1
      · exact hcl ⟨_, a1, a2, by simpa using b1⟩
  rw [merge] at h
  simp only [Option.map_eq_some_iff] at h
  obtain ⟨q, h1, rfl⟩ := h
  by_cases hlt : P.length < Q.length
  · simp only [hlt, if_true] at h1 ⊢
    obtain ⟨k1, k2⟩ := key Q P hQ hP q h1
    refine ⟨fun l => ?_, k2⟩
    rw [k1, or_comm]
  · simp only [hlt, if_false] at h1 ⊢
    exact key P Q hP hQ q h1

theorem mergeSizeQ_eq (ps : List Lit) (v : Nat) : ∀ (qs : List Lit) (n : Nat),
    mergeSizeQ ps v qs n = (mergeQ ps v qs).map (fun r => n + r.length)
  | [], n => by simp [mergeSizeQ, mergeQ]
  | q :: qs, n => by
    rw [mergeSizeQ, mergeQ]
    by_cases hv : q.var = v
    · rw [if_pos hv, if_pos hv, mergeSizeQ_eq]
    · rw [if_neg hv, if_neg hv]
      cases ps.find? (fun p => p.var == q.var) with
      | none =>
        simp only
        rw [mergeSizeQ_eq ps v qs (n + 1), Option.map_map]
        congr 1
        funext r
        simp only [Function.comp, List.length_cons]; omega
      | some p =>
        simp only
        split
        · rfl
        · rw [mergeSizeQ_eq]

theorem filter_ne_length {ps : List Lit} {v : Nat} (hnd : (ps.map Lit.var).Nodup)
    (h : ∃ l ∈ ps, l.var = v) : (ps.filter (fun p => p.var != v)).length = ps.length - 1 := by
  induction ps with
  | nil => simp at h
  | cons x xs ih =>
    simp only [List.map_cons, List.nodup_cons, List.mem_map, not_exists, not_and] at hnd
    by_cases hx : x.var = v
    · rw [List.filter_cons_of_neg (by simpa using hx)]
      have : xs.filter (fun p => p.var != v) = xs := by
        rw [List.filter_eq_self]
        intro y hy
        simp only [bne_iff_ne, ne_eq]
        intro hyv
        exact hnd.1 y hy (hyv.trans hx.symm)
      rw [this]; simp
    · rw [List.filter_cons_of_pos (by simpa using hx)]
      obtain ⟨l, h1, h2⟩ := h
      rcases List.mem_cons.1 h1 with rfl | h1
      · exact (hx h2).elim
      · rw [List.length_cons, ih hnd.2 ⟨l, h1, h2⟩]
        have := List.length_pos_of_mem h1
        simp; omega

/-- The size-only variant of `merge` agrees with `merge`. -/
theorem mergeSize_eq {P Q : List Lit} {v : Nat} (hP : (P.map Lit.var).Nodup)
    (hQ : (Q.map Lit.var).Nodup) (hp : ∃ l ∈ P, l.var = v) (hq : ∃ l ∈ Q, l.var = v) :
    mergeSize P Q v = (merge P Q v).map List.length := by
  rw [mergeSize, merge]
  simp only [mergeSizeQ_eq, Option.map_map]
  congr 1
  funext r
  simp only [Function.comp, List.length_append]
  by_cases h : P.length < Q.length
  · simp only [h, if_true]; rw [filter_ne_length hQ hq]; omega
  · simp only [h, if_false]; rw [filter_ne_length hP hp]; omega

theorem entails_resolvent {P Q r : List Lit} {v : Nat} (hP : (P.map Lit.var).Nodup)
    (hQ : (Q.map Lit.var).Nodup) (h : merge P Q v = some r) (hp : pos v ∈ P) (hq : neg v ∈ Q)
    (eP : Entails F P) (eQ : Entails F Q) : Entails F r := by
  obtain ⟨h1, _⟩ := merge_some hP hQ h
  have uniq : ∀ (ls : List Lit) (x : Lit), (ls.map Lit.var).Nodup → x ∈ ls → x.var = v →
      ∀ y ∈ ls, y.var = v → y = x := by
    intro ls x hn hx hxv y hy hyv
    have := find_var hn (q := x)
    cases hf : ls.find? (fun p => p.var == x.var) with
    | none => rw [hf] at this; exact (this.1 hx).elim
    | some p =>
      rw [hf] at this
      rcases Lit.eq_or_neg_of_var (hyv.trans hxv.symm) with e | e
      · exact e
      · obtain ⟨_, _, t3, t4⟩ := this
        have a := t3.1 hx
        have b := t4.1 (e ▸ hy)
        rw [a] at b
        exact (Lit.ne_neg _ b).elim
  intro a ha
  obtain ⟨x, hx, hxa⟩ := eP a ha
  by_cases hxv : x.var = v
  · have hx' := uniq P (pos v) hP hp rfl x hx hxv
    subst hx'
    obtain ⟨y, hy, hya⟩ := eQ a ha
    refine ⟨y, (h1 y).2 ⟨Or.inr hy, ?_⟩, hya⟩
    intro hyv
    have hy' := uniq Q (neg v) hQ hq rfl y hy hyv
    subst hy'
    simp [Lit.holds] at hxa hya
    rw [hxa] at hya; simp at hya
  · exact ⟨x, (h1 x).2 ⟨Or.inl hx, hxv⟩, hxa⟩

/-! ### The loops of `eliminate` -/

theorem countResolvents_unsat {v bound lim : Nat} : ∀ (ps : List (List Lit × List Lit)) (n : Nat),
    countResolvents v bound lim ps n = .unsat → ∃ p ∈ ps, mergeSize p.1 p.2 v = some 0
  | [], n, h => by simp [countResolvents] at h
  | (p, q) :: ps, n, h => by
    rw [countResolvents] at h
    split at h
    · obtain ⟨x, h1, h2⟩ := countResolvents_unsat ps n h
      exact ⟨x, by simp [h1], h2⟩
    · rename_i size hs
      split at h
      · rename_i h0
        exact ⟨(p, q), by simp, by rw [hs, h0]⟩
      · split at h
        · simp at h
        · obtain ⟨x, h1, h2⟩ := countResolvents_unsat ps (n + 1) h
          exact ⟨x, by simp [h1], h2⟩

theorem mem_pairs {α : Type} {xs ys : List α} {p : α × α} :
    p ∈ pairs xs ys ↔ p.1 ∈ xs ∧ p.2 ∈ ys := by
  obtain ⟨x, y⟩ := p
  simp only [pairs, List.mem_flatMap, List.mem_map, Prod.mk.injEq]
  constructor
  · rintro ⟨a, h1, b, h2, rfl, rfl⟩; exact ⟨h1, h2⟩
  · rintro ⟨h1, h2⟩; exact ⟨x, h1, y, h2, rfl, rfl⟩

/-- The pairs handled by the resolvent loop. -/
def ResPairs (v : Nat) (db : DB) (ps : List (Nat × Nat)) : Prop :=
  ∀ p ∈ ps, p.1 < db.next ∧ p.2 < db.next ∧ pos v ∈ db.lits p.1 ∧ neg v ∈ db.lits p.2

theorem createResolvents_sound {v : Nat} : ∀ (ps : List (Nat × Nat)) (s : SDB), SOk F s →
    ResPairs v s.db ps →
    SOk F (createResolvents v ps s) ∧ DBExt s.db (createResolvents v ps s).db
  | [], s, hs, _ => ⟨hs, DBExt.refl _⟩
  | (p, n) :: ps, s, hs, hp => by
    have hp' : ResPairs v s.db ps := fun q hq => hp q (by simp [hq])
    obtain ⟨h1, h2, h3, h4⟩ := hp (p, n) (by simp)
    rw [createResolvents]
    split
    · exact createResolvents_sound ps s hs hp'
    · rename_i r hr
      obtain ⟨m1, m2⟩ := merge_some (hs.db.nd p h1) (hs.db.nd n h2) hr
      have hs' : SOk F (s.create r (min (min (s.db.store p).weight (s.db.store n).weight)
          ((r.length - 1) % 65536))) := by
        refine hs.create ?_ m2 (entails_resolvent (hs.db.nd p h1) (hs.db.nd n h2) hr h3 h4
          (hs.db.ent p h1) (hs.db.ent n h2))
        intro l hl
        rcases ((m1 l).1 hl).1 with h | h
        · exact hs.db.wf p h1 l h
        · exact hs.db.wf n h2 l h
      have hx := DBExt.create s r (min (min (s.db.store p).weight (s.db.store n).weight)
          ((r.length - 1) % 65536))
      obtain ⟨k1, k2⟩ := createResolvents_sound ps _ hs' (by
        intro q hq
        obtain ⟨a, b, c, d⟩ := hp' q hq
        have := hx.next
        refine ⟨by omega, by omega, ?_, ?_⟩
        · rw [hx.lits _ a]; exact c
        · rw [hx.lits _ b]; exact d)
      exact ⟨k1, hx.trans k2⟩

theorem removeAll_sound : ∀ (is : List Nat) (s : SDB), SOk F s → ∀ s', removeAll is s = some s' →
    SOk F s' ∧ DBExt s.db s'.db
  | [], s, hs, s', he => by
    simp [removeAll] at he; subst he; exact ⟨hs, DBExt.refl _⟩
  | i :: is, s, hs, s', he => by
    rw [removeAll] at he
    split at he
    · simp at he
    · rename_i s1 hs1
      obtain ⟨h1, h2⟩ := hs.remove hs1
      obtain ⟨h3, h4⟩ := removeAll_sound is s1 h1 s' he
      exact ⟨h3, h2.trans h4⟩

theorem liveOcc_spec {s : SDB} : ∀ (is : List Nat) (os : List (Nat × Nat)), liveOcc s is = some os →
    (os.map Prod.fst).Sublist is ∧ (∀ x ∈ os, s.obj[x.1]? = some (some x.2)) ∧
    (∀ i ∈ is, ∀ c, s.obj[i]? = some (some c) → (i, c) ∈ os)
  | [], os, h => by simp [liveOcc] at h; subst h; simp
  | i :: is, os, h => by
    rw [liveOcc] at h
    split at h
    · rename_i c r h1 h2
      simp at h; subst h
      obtain ⟨a, b, d⟩ := liveOcc_spec is r h2
      refine ⟨by simpa using a, ?_, ?_⟩
      · intro x hx
        rcases List.mem_cons.1 hx with rfl | hx
        · exact h1
        · exact b x hx
      · intro j hj e he
        rcases List.mem_cons.1 hj with rfl | hj
        · rw [h1] at he; simp at he; subst he; simp
        · exact List.mem_cons_of_mem _ (d j hj e he)
    · rename_i r h1 h2
      simp at h; subst h
      obtain ⟨a, b, d⟩ := liveOcc_spec is r h2
      refine ⟨a.trans (List.sublist_cons_self _ _), b, ?_⟩
      intro j hj e he
      rcases List.mem_cons.1 hj with rfl | hj
      · rw [h1] at he; simp at he
      · exact d j hj e he
    · simp at h

/-- Invariant of the elimination state that is needed to restore clauses. -/
structure VEOk (F : CNF) (nV : Nat) (ve : VE) : Prop where
  ent : ∀ v, ∀ c ∈ ve.cls v, Entails F c
  wf : ∀ v, ∀ c ∈ ve.cls v, ∀ l ∈ c, l.var < nV
  nd : ∀ v, ∀ c ∈ ve.cls v, (c.map Lit.var).Nodup

/-- What elimination leaves unchanged on the trail. -/
structure TSame (T T' : Trail) : Prop where
  nVars : T'.nVars = T.nVars
  stack : T'.stack = T.stack
  assigns : T'.assigns = T.assigns
  level : T'.level = T.level
  reason : T'.reason = T.reason
  lim : T'.lim = T.lim
  qhead : T'.qhead = T.qhead
  assumptions : T'.assumptions = T.assumptions

theorem TSame.refl (T : Trail) : TSame T T := ⟨rfl, rfl, rfl, rfl, rfl, rfl, rfl, rfl⟩
theorem TSame.trans {a b c : Trail} (h : TSame a b) (h' : TSame b c) : TSame a c :=
  ⟨h'.1.trans h.1, h'.2.trans h.2, h'.3.trans h.3, h'.4.trans h.4, h'.5.trans h.5, h'.6.trans h.6,
    h'.7.trans h.7, h'.8.trans h.8⟩
theorem TSame.setDecision (T : Trail) (v : Nat) (b : Bool) : TSame T (T.setDecisionVar v b) :=
  ⟨rfl, rfl, rfl, rfl, rfl, rfl, rfl, rfl⟩

theorem TSame.value {T T' : Trail} (h : TSame T T') (l : Lit) : T'.value l = T.value l := by
  unfold Trail.value; rw [h.assigns]

theorem TSame.inv {T T' : Trail} (h : TSame T T') (ht : T.Inv) : T'.Inv where
  val l := by rw [h.value, h.stack]; exact ht.val l
  nodup := by rw [h.stack]; exact ht.nodup
  bound := by rw [h.stack, h.nVars]; exact ht.bound
  limSorted := by rw [h.lim]; exact ht.limSorted
  limLe := by rw [h.lim, h.stack]; exact ht.limLe
  lev := by rw [h.stack, h.level, h.lim]; exact ht.lev
  qle := by rw [h.stack, h.qhead]; exact ht.qle

/-- Objects with their clauses, as collected for `eliminate(Var, pos, neg)`. -/
structure OccsOf (s : SDB) (v : Nat) (ps ns : List (Nat × Nat)) : Prop where
  objP : ∀ x ∈ ps, s.obj[x.1]? = some (some x.2)
  objN : ∀ x ∈ ns, s.obj[x.1]? = some (some x.2)
  memP : ∀ x ∈ ps, pos v ∈ s.db.lits x.2
  memN : ∀ x ∈ ns, neg v ∈ s.db.lits x.2

theorem eliminateVar_sound {lim : Nat} {st : VES} {v : Nat} {ps ns : List (Nat × Nat)}
    (hs : SOk F st.s) (hve : VEOk F st.s.db.nVars st.ve) (ho : OccsOf st.s v ps ns)
    {st' : VES} {b : Bool} (he : eliminateVar lim st v ps ns = some (st', b)) :
    SOk F st'.s ∧ DBExt st.s.db st'.s.db ∧ VEOk F st'.s.db.nVars st'.ve ∧ TSame st.T st'.T ∧
      (b = false → Entails F []) := by
  rw [eliminateVar] at he
  split at he
  · simp only [Option.some.injEq, Prod.mk.injEq] at he
    obtain ⟨rfl, rfl⟩ := he
    exact ⟨hs, DBExt.refl _, hve, TSame.refl _, by simp⟩
  · simp only at he
    have hP : ∀ c ∈ ps.map (fun x => st.s.db.lits x.2), ∃ d, d < st.s.db.next ∧
        c = st.s.db.lits d ∧ pos v ∈ c := by
      intro c hc
      obtain ⟨x, hx, rfl⟩ := List.mem_map.1 hc
      exact ⟨x.2, hs.lt (ho.objP x hx), rfl, ho.memP x hx⟩
    have hN : ∀ c ∈ ns.map (fun x => st.s.db.lits x.2), ∃ d, d < st.s.db.next ∧
        c = st.s.db.lits d ∧ neg v ∈ c := by
      intro c hc
      obtain ⟨x, hx, rfl⟩ := List.mem_map.1 hc
      exact ⟨x.2, hs.lt (ho.objN x hx), rfl, ho.memN x hx⟩
    split at he
    · rename_i hcnt
      simp only [Option.some.injEq, Prod.mk.injEq] at he
      obtain ⟨rfl, rfl⟩ := he
      refine ⟨hs, DBExt.refl _, hve, TSame.refl _, fun _ => ?_⟩
      obtain ⟨p, h1, h2⟩ := countResolvents_unsat _ _ hcnt
      rw [mem_pairs] at h1
      obtain ⟨d1, a1, a2, a3⟩ := hP _ h1.1
      obtain ⟨d2, b1, b2, b3⟩ := hN _ h1.2
      have n1 : (p.1.map Lit.var).Nodup := by rw [a2]; exact hs.db.nd d1 a1
      have n2 : (p.2.map Lit.var).Nodup := by rw [b2]; exact hs.db.nd d2 b1
      rw [mergeSize_eq n1 n2 ⟨_, a3, rfl⟩ ⟨_, b3, rfl⟩, Option.map_eq_some_iff] at h2
      obtain ⟨r, h3, h4⟩ := h2
      have := entails_resolvent (F := F) n1 n2 h3 a3 b3 (by rw [a2]; exact hs.db.ent d1 a1)
        (by rw [b2]; exact hs.db.ent d2 b1)
      rw [List.length_eq_zero_iff.1 h4] at this
      exact this
    · simp only [Option.some.injEq, Prod.mk.injEq] at he
      obtain ⟨rfl, rfl⟩ := he
      exact ⟨hs, DBExt.refl _, hve, TSame.refl _, by simp⟩
    · split at he
      · simp at he
      · rename_i s' hs'
        simp only [Option.some.injEq, Prod.mk.injEq] at he
        obtain ⟨rfl, rfl⟩ := he
        obtain ⟨k1, k2⟩ := createResolvents_sound (v := v)
          (pairs (ps.map Prod.snd) (ns.map Prod.snd)) st.s hs (by
            intro q hq
            rw [mem_pairs] at hq
            obtain ⟨x, hx, e1⟩ := List.mem_map.1 hq.1
            obtain ⟨y, hy, e2⟩ := List.mem_map.1 hq.2
            rw [← e1, ← e2]
            exact ⟨hs.lt (ho.objP x hx), hs.lt (ho.objN y hy), ho.memP x hx, ho.memN y hy⟩)
        obtain ⟨k3, k4⟩ := removeAll_sound _ _ k1 _ hs'
        have hext := k2.trans k4
        have hold : ∀ w, ∀ c ∈ upd st.ve.cls v (st.ve.cls v ++
            ns.map (fun x => st.s.db.lits x.2) ++ ps.map (fun x => st.s.db.lits x.2)) w,
            c ∈ st.ve.cls w ∨ ∃ d, d < st.s.db.next ∧ c = st.s.db.lits d := by
          intro w c hc
          rw [upd_apply] at hc
          split at hc
          · subst_vars
            rcases List.mem_append.1 hc with hc | hc
            · rcases List.mem_append.1 hc with hc | hc
              · exact Or.inl hc
              · obtain ⟨d, h1, h2, _⟩ := hN c hc
                exact Or.inr ⟨d, h1, h2⟩
            · obtain ⟨d, h1, h2, _⟩ := hP c hc
              exact Or.inr ⟨d, h1, h2⟩
          · exact Or.inl hc
        refine ⟨k3, hext, ⟨?_, ?_, ?_⟩, TSame.setDecision .., by simp⟩
        · intro w c hc
          rcases hold w c hc with h | ⟨d, h1, rfl⟩
          · exact hve.ent w c h
          · exact hs.db.ent d h1
        · intro w c hc
          rw [show s'.db.nVars = st.s.db.nVars from hext.nVars]
          rcases hold w c hc with h | ⟨d, h1, rfl⟩
          · exact hve.wf w c h
          · exact hs.db.wf d h1
        · intro w c hc
          rcases hold w c hc with h | ⟨d, h1, rfl⟩
          · exact hve.nd w c h
          · exact hs.db.nd d h1

theorem occsOf_filter {s : SDB} (hs : SOk F s) {v : Nat} {os : List (Nat × Nat)}
    (h : liveOcc s (s.occ v) = some os) :
    OccsOf s v (os.filter fun x => decide ((⟨v, false⟩ : Lit) ∈ s.db.lits x.2))
      (os.filter fun x => !decide ((⟨v, false⟩ : Lit) ∈ s.db.lits x.2)) := by
  obtain ⟨h1, h2, h3⟩ := liveOcc_spec _ _ h
  refine ⟨?_, ?_, ?_, ?_⟩
  · intro x hx; exact h2 x (List.mem_filter.1 hx).1
  · intro x hx; exact h2 x (List.mem_filter.1 hx).1
  · intro x hx; simpa using (List.mem_filter.1 hx).2
  · intro x hx
    obtain ⟨hx1, hx2⟩ := List.mem_filter.1 hx
    have hocc : x.1 ∈ s.occ v := h1.subset (List.mem_map_of_mem hx1)
    obtain ⟨l, hl, hlv⟩ := hs.occVar v x.1 hocc x.2 (h2 x hx1)
    have hx2 : (⟨v, false⟩ : Lit) ∉ s.db.lits x.2 := by simpa using hx2
    obtain ⟨lv, ls⟩ := l
    simp only at hlv; subst hlv
    cases ls with
    | false => exact (hx2 hl).elim
    | true => exact hl

theorem eliminateStep_sound {lim : Nat} {st : VES} {v : Nat}
    (hs : SOk F st.s) (hve : VEOk F st.s.db.nVars st.ve)
    {st' : VES} {b : Bool} (he : eliminateStep lim st v = some (st', b)) :
    SOk F st'.s ∧ DBExt st.s.db st'.s.db ∧ VEOk F st'.s.db.nVars st'.ve ∧ TSame st.T st'.T ∧
      (b = false → Entails F []) := by
  rw [eliminateStep] at he
  split at he
  · split at he
    · simp at he
    · rename_i os hos
      exact eliminateVar_sound hs hve (occsOf_filter hs hos) he
  · simp only [Option.some.injEq, Prod.mk.injEq] at he
    obtain ⟨rfl, rfl⟩ := he
    exact ⟨hs, DBExt.refl _, hve, TSame.refl _, by simp⟩

theorem eliminateList_sound {lim : Nat} : ∀ (vs : List Nat) (st : VES),
    SOk F st.s → VEOk F st.s.db.nVars st.ve →
    ∀ st' b, eliminateList lim vs st = some (st', b) →
    SOk F st'.s ∧ DBExt st.s.db st'.s.db ∧ VEOk F st'.s.db.nVars st'.ve ∧ TSame st.T st'.T ∧
      (b = false → Entails F [])
  | [], st, hs, hve, st', b, he => by
    simp only [eliminateList, Option.some.injEq, Prod.mk.injEq] at he
    obtain ⟨rfl, rfl⟩ := he
    exact ⟨hs, DBExt.refl _, hve, TSame.refl _, by simp⟩
  | v :: vs, st, hs, hve, st', b, he => by
    rw [eliminateList] at he
    split at he
    · simp at he
    · rename_i st1 hst1
      simp only [Option.some.injEq, Prod.mk.injEq] at he
      obtain ⟨rfl, rfl⟩ := he
      exact eliminateStep_sound hs hve hst1
    · rename_i st1 hst1
      obtain ⟨a, b', c, d, _⟩ := eliminateStep_sound hs hve hst1
      obtain ⟨a2, b2, c2, d2, e2⟩ := eliminateList_sound vs st1 a c st' b he
      exact ⟨a2, b'.trans b2, c2, d.trans d2, e2⟩

theorem eliminateAll_sound {active : Bool} {lim : Nat} {order : (Nat → Nat) → List Nat → List Nat}
    {st : VES} (hs : SOk F st.s) (hve : VEOk F st.s.db.nVars st.ve)
    {st' : VES} {b : Bool} (he : eliminateAll active lim order st = some (st', b)) :
    SOk F st'.s ∧ DBExt st.s.db st'.s.db ∧ VEOk F st'.s.db.nVars st'.ve ∧ TSame st.T st'.T ∧
      (b = false → Entails F []) := by
  have hve' : VEOk F st.s.db.nVars (st.ve.freeze st.T) := ⟨hve.ent, hve.wf, hve.nd⟩
  rw [eliminateAll] at he
  simp only at he
  split at he
  · exact eliminateList_sound _ { st with ve := st.ve.freeze st.T } hs hve' st' b he
  · simp only [Option.some.injEq, Prod.mk.injEq] at he
    obtain ⟨rfl, rfl⟩ := he
    exact ⟨hs, DBExt.refl _, hve', TSame.refl _, by simp⟩

end Candy
