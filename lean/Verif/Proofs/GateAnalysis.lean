import Verif.Props.Gates

/-! # Invariant of the gate analysis -/

namespace Candy

/-- Every assignment of the other variables extends to a value of the output that satisfies the clauses. -/
def LeftTotal (G : CNF) (v : Nat) : Prop := ∀ a : Assign, ∃ b, Sat (upd a v b) G

/-- Under the conditions `E` on the assignment, at most one value of the output satisfies the clauses. -/
def AtMostOne (E G : CNF) (v : Nat) : Prop :=
  ∀ a : Assign, Sat a E → ¬ (Sat (upd a v true) G ∧ Sat (upd a v false) G)

theorem length_le_of_subset' {α : Type} [DecidableEq α] : ∀ {A B : List α}, A.Nodup → (∀ x ∈ A, x ∈ B) → A.length ≤ B.length := by
  intro A
  induction A with
  | nil => intro B _ _; simp
  | cons x A ih =>
    intro B hn hs
    rw [List.nodup_cons] at hn
    have hx := hs x (by simp)
    have := ih hn.2 (B := B.erase x) fun y hy =>
      (List.mem_erase_of_ne (fun h => hn.1 (by rw [← h]; exact hy))).2 (hs y (List.mem_cons_of_mem _ hy))
    rw [List.length_erase_of_mem hx] at this
    have := List.length_pos_of_mem hx
    simp only [List.length_cons]
    omega

/-! ## Pattern and semantic checks -/

theorem mem_litSet {ls : List Lit} {l : Lit} : l ∈ litSet ls ↔ l ∈ ls := by
  rw [litSet, mem_uniqueEq, mem_sortLits]

theorem mem_fwdInputs {o l : Lit} {fwd : CNF} : l ∈ fwdInputs o fwd ↔ ∃ c ∈ fwd, l ∈ c ∧ l ≠ o.neg := by
  simp [fwdInputs, mem_litSet]

theorem mem_bwdInputs {o l : Lit} {bwd : CNF} : l ∈ bwdInputs o bwd ↔ ∃ c ∈ bwd, l.neg ∈ c ∧ l.neg ≠ o := by
  simp only [bwdInputs, mem_litSet, List.mem_flatMap, List.mem_map, List.mem_filter, bne_iff_ne, ne_eq]
  constructor
  · rintro ⟨c, hc, m, ⟨h1, h2⟩, rfl⟩
    exact ⟨c, hc, by rwa [Lit.neg_neg], by rwa [Lit.neg_neg]⟩
  · rintro ⟨c, hc, h1, h2⟩
    exact ⟨c, hc, l.neg, ⟨h1, h2⟩, Lit.neg_neg l⟩

/-- Clauses of a gate with output `o`. -/
structure GateClauses (o : Lit) (fwd bwd : CNF) : Prop where
  fwdNodup : ∀ c ∈ fwd, (c.map Lit.var).Nodup
  bwdNodup : ∀ c ∈ bwd, (c.map Lit.var).Nodup
  fwdOut : ∀ c ∈ fwd, o.neg ∈ c
  bwdOut : ∀ c ∈ bwd, o ∈ c
  blocked : ∀ c ∈ bwd, ∀ d ∈ fwd, ∃ l ∈ c, l ≠ o ∧ l.neg ∈ d

theorem GateClauses.leftTotal {o : Lit} {fwd bwd : CNF} (h : GateClauses o fwd bwd) :
    LeftTotal (fwd ++ bwd) o.var := by
  intro a
  have hn : ∀ c ∈ fwd ++ bwd, (c.map Lit.var).Nodup := fun c hc =>
    (List.mem_append.1 hc).elim (h.fwdNodup c) (h.bwdNodup c)
  obtain ⟨b, hb⟩ := blocked_leftTotal (F := fwd ++ bwd) hn (o := o) (fun c hc ho d hd hnd => by
    rcases List.mem_append.1 hc with hc | hc
    · exact absurd (h.fwdOut c hc) (BlockList.not_both (h.fwdNodup c hc) ho)
    · rcases List.mem_append.1 hd with hd | hd
      · exact h.blocked c hc d hd
      · exact absurd hnd (BlockList.not_both (h.bwdNodup d hd) (h.bwdOut d hd))) a
  exact ⟨b, fun c hc => hb c hc ((List.mem_append.1 hc).elim (fun hc => .inr (h.fwdOut c hc)) (fun hc => .inl (h.bwdOut c hc)))⟩

theorem holds_upd_other {a : Assign} {v : Nat} {b : Bool} {l : Lit} (h : l.var ≠ v) : l.holds (upd a v b) ↔ l.holds a := by
  unfold Lit.holds upd
  rw [if_neg h]

theorem var_eq_cases {l o : Lit} (h : l.var = o.var) : l = o ∨ l = o.neg := by
  cases l with | mk x s => cases o with | mk y t => cases s <;> cases t <;> simp_all [Lit.neg]

theorem GateClauses.outputFree_sat {o : Lit} {fwd bwd : CNF} (h : GateClauses o fwd bwd) {a : Assign}
    (ht : Sat (upd a o.var true) (fwd ++ bwd)) (hf : Sat (upd a o.var false) (fwd ++ bwd)) :
    Sat a (outputFree o fwd bwd) := by
  have key : ∀ b, Sat (upd a o.var b) (fwd ++ bwd) := by intro b; cases b <;> assumption
  intro c hc
  obtain ⟨d, hd, rfl⟩ := List.mem_map.1 hc
  have fin : ∀ l ∈ d, l.var ≠ o.var → ∀ b, l.holds (upd a o.var b) → SatClause a (d.filter fun l => l.var != o.var) := by
    intro l hl hv b hh
    exact ⟨l, List.mem_filter.2 ⟨hl, by simpa using hv⟩, (holds_upd_other hv).1 hh⟩
  rcases List.mem_append.1 hd with hd' | hd'
  · obtain ⟨l, hl, hh⟩ := key (!o.sign) d hd
    by_cases hv : l.var = o.var
    · exfalso
      rcases var_eq_cases hv with rfl | rfl
      · exact BlockList.not_both (h.fwdNodup d hd') hl (h.fwdOut d hd')
      · have := holds_upd_self a o
        exact (neg_holds_iff.1 hh) this
    · exact fin l hl hv _ hh
  · obtain ⟨l, hl, hh⟩ := key o.sign d hd
    by_cases hv : l.var = o.var
    · exfalso
      rcases var_eq_cases hv with rfl | rfl
      · simp [Lit.holds, upd] at hh
      · exact BlockList.not_both (h.bwdNodup d hd') (h.bwdOut d hd') hl
    · exact fin l hl hv _ hh

theorem two_lits {c : Clause} (hn : (c.map Lit.var).Nodup) (hl : c.length = 2) {x y l : Lit} (hx : x ∈ c) (hy : y ∈ c)
    (hxy : x ≠ y) (h : l ∈ c) : l = x ∨ l = y := by
  match c, hl with
  | [p, q], _ =>
    simp only [List.mem_cons, List.not_mem_nil, or_false] at hx hy h
    rcases hx with rfl | rfl <;> rcases hy with rfl | rfl <;> rcases h with rfl | rfl <;> simp_all

/-- The or pattern. -/
theorem GateClauses.or_pattern {o : Lit} {fwd bwd : CNF} (h : GateClauses o fwd bwd) (hi : fwdInputs o fwd = bwdInputs o bwd)
    (h1 : fwd.length = 1) (h2 : ∀ c ∈ bwd, c.length = 2) (a : Assign) : ¬ Sat a (outputFree o fwd bwd) := by
  intro hs
  match fwd, h1 with
  | [c], _ =>
    obtain ⟨l, hl, hh⟩ := hs (c.filter fun l => l.var != o.var) (by simp [outputFree])
    rw [List.mem_filter] at hl
    have hv : l.var ≠ o.var := by simpa using hl.2
    have : l ∈ fwdInputs o [c] := mem_fwdInputs.2 ⟨c, by simp, hl.1, fun e => hv (by rw [e]; rfl)⟩
    rw [hi] at this
    obtain ⟨d, hd, hm, hne⟩ := mem_bwdInputs.1 this
    obtain ⟨m, hm1, hm2⟩ := hs (d.filter fun l => l.var != o.var) (List.mem_map.2 ⟨d, by simp [hd], rfl⟩)
    rw [List.mem_filter] at hm1
    have hmv : m.var ≠ o.var := by simpa using hm1.2
    rcases two_lits (h.bwdNodup d hd) (h2 d hd) hm (h.bwdOut d hd) hne hm1.1 with rfl | rfl
    · exact neg_holds_iff.1 hm2 hh
    · exact hmv rfl

/-- The and pattern. -/
theorem GateClauses.and_pattern {o : Lit} {fwd bwd : CNF} (h : GateClauses o fwd bwd) (hi : fwdInputs o fwd = bwdInputs o bwd)
    (h1 : bwd.length = 1) (h2 : ∀ c ∈ fwd, c.length = 2) (a : Assign) : ¬ Sat a (outputFree o fwd bwd) := by
  intro hs
  match bwd, h1 with
  | [c], _ =>
    obtain ⟨l, hl, hh⟩ := hs (c.filter fun l => l.var != o.var) (by simp [outputFree])
    rw [List.mem_filter] at hl
    have hv : l.var ≠ o.var := by simpa using hl.2
    have : l.neg ∈ bwdInputs o [c] := mem_bwdInputs.2 ⟨c, by simp, by rw [Lit.neg_neg]; exact hl.1,
      fun e => hv (by rw [← e]; rfl)⟩
    rw [← hi] at this
    obtain ⟨d, hd, hm, hne⟩ := mem_fwdInputs.1 this
    obtain ⟨m, hm1, hm2⟩ := hs (d.filter fun l => l.var != o.var) (List.mem_map.2 ⟨d, by simp [hd], rfl⟩)
    rw [List.mem_filter] at hm1
    have hmv : m.var ≠ o.var := by simpa using hm1.2
    rcases two_lits (h.fwdNodup d hd) (h2 d hd) hm (h.fwdOut d hd) hne hm1.1 with rfl | rfl
    · exact neg_holds_iff.1 hm2 hh
    · exact hmv rfl

/-- What a positive pattern check means. -/
theorem patternCheck_cases {o : Lit} {fwd bwd : CNF} (h : GateClauses o fwd bwd) (hp : patternCheck o fwd bwd = true) :
    (∀ a, ¬ Sat a (outputFree o fwd bwd)) ∨
    (fwd.length = bwd.length ∧ fwd.length ≠ 1 ∧ fwdInputs o fwd = bwdInputs o bwd ∧
      2 * fwd.length = 2 ^ ((fwdInputs o fwd).length / 2) ∧
      2 * (uniqueBy (fun a b => a.var == b.var) (fwdInputs o fwd)).length = (fwdInputs o fwd).length) := by
  unfold patternCheck at hp
  dsimp only at hp
  by_cases hi : fwdInputs o fwd = bwdInputs o bwd
  · rw [if_neg (by simpa using hi)] at hp
    split at hp
    · rename_i hc
      simp only [Bool.and_eq_true, beq_iff_eq, List.all_eq_true] at hc
      exact .inl (h.or_pattern hi hc.1.1.1 hc.2)
    · split at hp
      · rename_i hc
        simp only [Bool.and_eq_true, beq_iff_eq, fixedClauseSize, List.all_eq_true] at hc
        exact .inl (h.or_pattern hi hc.1 hc.2)
      · split at hp
        · rename_i hc
          simp only [Bool.and_eq_true, beq_iff_eq, fixedClauseSize, List.all_eq_true] at hc
          exact .inl (h.and_pattern hi hc.1 hc.2)
        · split at hp
          · rename_i hc
            simp only [Bool.and_eq_true, beq_iff_eq] at hc hp
            by_cases h1 : fwd.length = 1
            · exfalso
              -- one variable in both signs in one clause
              match fwd, h1 with
              | [c], _ =>
                have h2 : (fwdInputs o [c]).length = 2 := by
                  have h3 := hc.2
                  simp only [List.length_cons, List.length_nil] at h3
                  have h4 : (fwdInputs o [c]).length / 2 = 1 := by
                    rcases Nat.lt_trichotomy ((fwdInputs o [c]).length / 2) 1 with hlt | he | hgt
                    · have : (fwdInputs o [c]).length / 2 = 0 := by omega
                      rw [this] at h3; simp at h3
                    · exact he
                    · have := Nat.pow_lt_pow_right (a := 2) (by decide) hgt
                      omega
                  omega
                have h5 : (uniqueBy (fun a b => a.var == b.var) (fwdInputs o [c])).length = 1 := by omega
                have hmem : ∀ l ∈ fwdInputs o [c], l ∈ c := by
                  intro l hl
                  obtain ⟨d, hd, h6, _⟩ := mem_fwdInputs.1 hl
                  rw [List.mem_singleton] at hd
                  rw [← hd]; exact h6
                have hs : SortedLt (fwdInputs o [c]) := sorted_uniqueEq (sorted_sortLits _)
                generalize fwdInputs o [c] = I at h2 h5 hmem hs
                match I, h2 with
                | [x, y], _ =>
                  have hne : x ≠ y := by
                    rintro rfl
                    exact absurd hs (by simp [SortedLt])
                  have hv : x.var = y.var := by
                    by_cases he : x.var = y.var
                    · exact he
                    · simp [uniqueBy, uniqueBy.go, he] at h5
                  exact hne (BlockList.eq_of_var_eq (h.fwdNodup c (by simp)) (hmem x (by simp)) (hmem y (by simp)) hv)
            · exact .inr ⟨hc.1, h1, hi, hc.2, hp⟩
          · simp at hp
  · rw [if_pos (by simpa using hi)] at hp
    simp at hp

/-! ### Counting clauses with all inputs -/

/-- All vectors of `n` truth values. -/
def allVecs : Nat → List (List Bool)
  | 0 => [[]]
  | n + 1 => (allVecs n).map (true :: ·) ++ (allVecs n).map (false :: ·)

theorem length_allVecs (n : Nat) : (allVecs n).length = 2 ^ n := by
  induction n with
  | zero => rfl
  | succ n ih => simp [allVecs, ih, Nat.pow_succ]; omega

theorem mem_allVecs : ∀ {n : Nat} {v : List Bool}, v.length = n → v ∈ allVecs n := by
  intro n
  induction n with
  | zero => intro v hv; simp [allVecs, List.length_eq_zero_iff.1 hv]
  | succ n ih =>
    intro v hv
    match v, hv with
    | b :: v, hv =>
      have := ih (v := v) (by simpa using hv)
      cases b <;> simp [allVecs, this]

theorem allVecs_length {n : Nat} : ∀ {v : List Bool}, v ∈ allVecs n → v.length = n := by
  induction n with
  | zero => intro v hv; simp [allVecs] at hv; simp [hv]
  | succ n ih =>
    intro v hv
    simp only [allVecs, List.mem_append, List.mem_map] at hv
    rcases hv with ⟨w, hw, rfl⟩ | ⟨w, hw, rfl⟩ <;> simp [ih hw]

/-- A list of `2 ^ n` different vectors contains all of them. -/
theorem vec_complete {n : Nat} {L : List (List Bool)} (hn : L.Nodup) (hl : L.length = 2 ^ n)
    (hv : ∀ v ∈ L, v.length = n) {v : List Bool} (h : v.length = n) : v ∈ L := by
  refine Classical.not_not.1 fun hm => ?_
  have h1 := length_le_of_subset' (A := v :: L) (B := allVecs n) (List.nodup_cons.2 ⟨hm, hn⟩) (by
    intro x hx
    rcases List.mem_cons.1 hx with rfl | hx
    · exact mem_allVecs h
    · exact mem_allVecs (hv x hx))
  rw [length_allVecs, List.length_cons] at h1
  omega

/-- No two of the clauses have the same literals. -/
def DistinctClauses (F : CNF) : Prop := F.Pairwise fun c d => ¬ ∀ l, l ∈ c ↔ l ∈ d

theorem mem_of_nodup_length {α : Type} [DecidableEq α] {A B : List α} (hA : A.Nodup) (hs : ∀ x ∈ A, x ∈ B)
    (hl : B.length ≤ A.length) {x : α} (hx : x ∈ B) : x ∈ A := by
  refine Classical.not_not.1 fun hm => ?_
  have := length_le_of_subset' hA (B := B.erase x) fun y hy =>
    (List.mem_erase_of_ne (fun h => hm (by rw [← h]; exact hy))).2 (hs y hy)
  rw [List.length_erase_of_mem hx] at this
  have := List.length_pos_of_mem hx
  omega

theorem filter_out_length {c : Clause} (hn : (c.map Lit.var).Nodup) {o : Lit} (ho : o ∈ c) :
    (c.filter fun l => l.var != o.var).length + 1 = c.length := by
  induction c with
  | nil => simp at ho
  | cons x xs ih =>
    rw [List.map_cons, List.nodup_cons] at hn
    rcases List.mem_cons.1 ho with rfl | ho
    · have : xs.filter (fun l => l.var != o.var) = xs := by
        rw [List.filter_eq_self]
        intro l hl
        have : l.var ≠ o.var := fun h => hn.1 (List.mem_map.2 ⟨l, hl, h⟩)
        simpa using this
      simp [this]
    · have hx : x.var ≠ o.var := fun h => hn.1 (List.mem_map.2 ⟨o, ho, h.symm⟩)
      have := ih hn.2 ho
      simp [hx]
      simpa using this

theorem GateClauses.power_pattern {o : Lit} {fwd bwd : CNF} (h : GateClauses o fwd bwd) (V : List Nat) 
    (hV1 : ∀ c ∈ fwd ++ bwd, ∀ l ∈ c, l.var ≠ o.var → l.var ∈ V)
    (hlen : (fwd ++ bwd).length = 2 ^ V.length) (hsize : ∀ c ∈ fwd ++ bwd, c.length = V.length + 1)
    (hd : DistinctClauses (fwd ++ bwd)) (a : Assign) : ¬ Sat a (outputFree o fwd bwd) := by
  intro hs
  have hnod : ∀ c ∈ fwd ++ bwd, (c.map Lit.var).Nodup := fun c hc =>
    (List.mem_append.1 hc).elim (h.fwdNodup c) (h.bwdNodup c)
  have hout : ∀ c ∈ fwd ++ bwd, ∃ x ∈ c, x.var = o.var := fun c hc =>
    (List.mem_append.1 hc).elim (fun hc => ⟨_, h.fwdOut c hc, rfl⟩) (fun hc => ⟨_, h.bwdOut c hc, rfl⟩)
  -- every clause mentions every input
  have hall : ∀ c ∈ fwd ++ bwd, ∀ v ∈ V, ∃ l ∈ c, l.var = v ∧ l.var ≠ o.var := by
    intro c hc v hv
    obtain ⟨x, hx, hxo⟩ := hout c hc
    have h1 := filter_out_length (hnod c hc) hx
    rw [hsize c hc, hxo] at h1
    have h2 : ((c.filter fun l => l.var != o.var).map Lit.var).Nodup :=
      (hnod c hc).sublist (List.filter_sublist.map _)
    have := mem_of_nodup_length h2 (B := V) (by
      intro w hw
      obtain ⟨l, hl, rfl⟩ := List.mem_map.1 hw
      rw [List.mem_filter] at hl
      exact hV1 c hc l hl.1 (by simpa using hl.2)) (by rw [List.length_map]; omega) hv
    obtain ⟨l, hl, rfl⟩ := List.mem_map.1 this
    rw [List.mem_filter] at hl
    exact ⟨l, hl.1, rfl, by simpa using hl.2⟩
  let sig : Clause → List Bool := fun c => V.map fun v => decide ((⟨v, true⟩ : Lit) ∈ c)
  have hsig : ∀ {c d : Clause}, c ∈ fwd ++ bwd → d ∈ fwd ++ bwd → sig c = sig d →
      ∀ l : Lit, l.var ≠ o.var → l ∈ c → l ∈ d := by
    intro c d hc hd he l hv hl
    have hV := hV1 c hc l hl hv
    have h1 : decide ((⟨l.var, true⟩ : Lit) ∈ c) = decide ((⟨l.var, true⟩ : Lit) ∈ d) := by
      have := List.map_inj_left.1 he l.var hV
      exact this
    obtain ⟨m, hm, hmv, _⟩ := hall d hd l.var hV
    rcases var_eq_cases hmv with rfl | rfl
    · exact hm
    · exfalso
      cases l with
      | mk v s =>
        cases s with
        | true =>
          simp only [hl, decide_true] at h1
          have := of_decide_eq_true h1.symm
          exact BlockList.not_both (hnod d hd) this hm
        | false =>
          have h2 : (⟨v, true⟩ : Lit) ∈ d := hm
          rw [decide_eq_true h2] at h1
          have := of_decide_eq_true h1
          exact BlockList.not_both (hnod c hc) hl this
  have hsigOut : ∀ {c d : Clause}, c ∈ fwd → d ∈ bwd → sig c ≠ sig d := by
    intro c d hc hd' he
    obtain ⟨l, h1, h2, h3⟩ := h.blocked d hd' c hc
    have hv : l.var ≠ o.var := fun e => h2 (BlockList.eq_of_var_eq (h.bwdNodup d hd') h1 (h.bwdOut d hd') e)
    have := hsig (List.mem_append_right _ hd') (List.mem_append_left _ hc) he.symm l hv h1
    exact BlockList.not_both (h.fwdNodup c hc) this h3
  have hnd : ((fwd ++ bwd).map sig).Nodup := by
    refine List.pairwise_map.2 (List.Pairwise.imp_of_mem (fun {c d} hc hd' hne he => hne fun l => ?_) hd)
    have key : ∀ {c d : Clause}, c ∈ fwd ++ bwd → d ∈ fwd ++ bwd → sig c = sig d → l ∈ c → l ∈ d := by
      intro c d hc hd he hl
      by_cases hv : l.var = o.var
      · rcases List.mem_append.1 hc with hc | hc
        · rcases List.mem_append.1 hd with hd | hd
          · have : l = o.neg := BlockList.eq_of_var_eq (h.fwdNodup c hc) hl (h.fwdOut c hc) hv
            rw [this]; exact h.fwdOut d hd
          · exact absurd he (hsigOut hc hd)
        · rcases List.mem_append.1 hd with hd | hd
          · exact absurd he.symm (hsigOut hd hc)
          · have : l = o := BlockList.eq_of_var_eq (h.bwdNodup c hc) hl (h.bwdOut c hc) hv
            rw [this]; exact h.bwdOut d hd
      · exact hsig hc hd he l hv hl
    exact ⟨key hc hd' he, key hd' hc he.symm⟩
  have := vec_complete hnd (n := V.length) (by rw [List.length_map]; exact hlen) (by
    intro v hv
    obtain ⟨c, _, rfl⟩ := List.mem_map.1 hv
    simp [sig]) (v := V.map a) (by simp)
  obtain ⟨c, hc, he⟩ := List.mem_map.1 this
  obtain ⟨l, hl, hh⟩ := hs (c.filter fun l => l.var != o.var) (List.mem_map.2 ⟨c, hc, rfl⟩)
  rw [List.mem_filter] at hl
  have hv : l.var ≠ o.var := by simpa using hl.2
  have h1 : decide ((⟨l.var, true⟩ : Lit) ∈ c) = a l.var := List.map_inj_left.1 he l.var (hV1 c hc l hl.1 hv)
  unfold Lit.holds at hh
  cases l with
  | mk v s =>
    cases s with
    | true =>
      rw [hh, decide_eq_true hl.1] at h1
      simp at h1
    | false =>
      rw [hh] at h1
      exact BlockList.not_both (hnod c hc) hl.1 (of_decide_eq_true h1)

theorem C03_sat_append (p : Problem) (f : CNF) (a : Assign) :
    Sat a (p.readClauses f).problem ↔ Sat a p.problem ∧ Sat a f := by
  rw [(C03_append p f).1, ← C03_meaning f a]
  simp only [Sat, List.mem_append]
  exact ⟨fun h => ⟨fun c hc => h c (.inl hc), fun c hc => h c (.inr hc)⟩, fun h c hc => hc.elim (h.1 c) (h.2 c)⟩

/-- An unsatisfiable semantic formula excludes two values of the output, relative to the indexed clauses in
the holistic case. -/
theorem semantic_sound {B : BlockList} {o : Lit} {fwd bwd : CNF} {hol : Bool}
    (hu : ¬ Satisfiable (semanticFormula B o fwd bwd hol).problem) {a : Assign}
    (hE : hol = true → Sat a B.problem) : ¬ Sat a (outputFree o fwd bwd) := by
  intro hs
  apply hu
  unfold semanticFormula
  rw [C09_satisfiable]
  refine ⟨a, ?_⟩
  cases hol with
  | false =>
    simp only [Bool.false_eq_true, if_false]
    exact (C03_meaning _ a).2 hs
  | true =>
    simp only [if_true]
    rw [C03_sat_append]
    refine ⟨(C03_meaning _ a).2 hs, fun c hc => ?_⟩
    obtain ⟨i, hi, rfl⟩ := List.mem_map.1 hc
    rw [List.mem_filter, List.mem_range] at hi
    unfold BlockList.cls
    rw [BlockList.getD_lt hi.1]
    exact hE rfl _ (List.getElem_mem hi.1)

theorem exists_uniqueVar_go {x : Lit} {xs : List Lit} : ∀ {l : Lit}, x ∈ xs → x.var = l.var ∨
    ∃ y ∈ uniqueBy.go (fun a b => a.var == b.var) l xs, y.var = x.var := by
  induction xs with
  | nil => simp
  | cons y ys ih =>
    intro l hx
    rw [uniqueBy.go]
    by_cases he : l.var = y.var
    · simp only [he, beq_self_eq_true, if_true]
      rcases List.mem_cons.1 hx with rfl | hx
      · exact .inl rfl
      · rcases ih (l := l) hx with h | h
        · exact .inl (h.trans he)
        · exact .inr h
    · rw [if_neg (by simpa using he)]
      rcases List.mem_cons.1 hx with rfl | hx
      · exact .inr ⟨x, by simp, rfl⟩
      · rcases ih (l := y) hx with h | ⟨z, hz, h⟩
        · exact .inr ⟨y, by simp, h.symm⟩
        · exact .inr ⟨z, List.mem_cons_of_mem _ hz, h⟩

theorem exists_uniqueVar {x : Lit} {xs : List Lit} (h : x ∈ xs) :
    ∃ y ∈ uniqueBy (fun a b => a.var == b.var) xs, y.var = x.var := by
  cases xs with
  | nil => simp at h
  | cons l xs =>
    simp only [uniqueBy]
    rcases List.mem_cons.1 h with rfl | h
    · exact ⟨x, by simp, rfl⟩
    · rcases exists_uniqueVar_go (l := l) h with h | ⟨z, hz, h⟩
      · exact ⟨l, by simp, h.symm⟩
      · exact ⟨z, List.mem_cons_of_mem _ hz, h⟩

/-! ## Invariant of the analysis -/

/-- The pattern of `2 ^ n` clauses that the code checks. -/
def PowerPattern (o : Lit) (fwd bwd : CNF) : Prop :=
  fwd.length = bwd.length ∧ fwd.length ≠ 1 ∧ fwdInputs o fwd = bwdInputs o bwd ∧
    2 * fwd.length = 2 ^ ((fwdInputs o fwd).length / 2) ∧
    2 * (uniqueBy (fun a b => a.var == b.var) (fwdInputs o fwd)).length = (fwdInputs o fwd).length

/-- What is known about the clauses of a gate that is not monotonic. -/
def GateUnique (p : Problem) (m : GateMethod) (o : Lit) (fwd bwd : CNF) : Prop :=
  (∀ a, (m.holistic = true → Sat a p.problem) → ¬ Sat a (outputFree o fwd bwd)) ∨
  (m.patterns = true ∧ PowerPattern o fwd bwd)

/-- The clauses at some positions. -/
def clausesAt (p : Problem) (is : List Nat) : CNF := is.map fun i => p.problem.getD i []

/-- `v` does not occur in the clause at position `i`. -/
def Absent (p : Problem) (v i : Nat) : Prop := ∀ l ∈ p.problem.getD i [], l.var ≠ v

/-- Clauses of the gate with output variable `v`. -/
def GateProblem.at (G : GateProblem) (v : Nat) : List Nat := (G.gates v).fwd ++ (G.gates v).bwd

/-- What the marks `inputs` say about the gates in `order`. -/
structure GateMarks (p : Problem) (gp : GateProblem) (order : List Nat) : Prop where
  roots : ∀ i ∈ gp.roots, ∀ l ∈ p.problem.getD i [], gp.inputs l = true
  inp : ∀ v ∈ order, ∀ l ∈ (gp.gates v).inp, gp.inputs l = true ∧ ((gp.gates v).notMono = true → gp.inputs l.neg = true)
  rootMono : ∀ v ∈ order, (gp.gates v).notMono = false → ∀ i ∈ gp.roots, ∀ l ∈ p.problem.getD i [], l.var = v →
    (gp.gates v).out = some l
  inpMono : ∀ v ∈ order, (gp.gates v).notMono = false → ∀ w ∈ order, ∀ l ∈ (gp.gates w).inp, l.var = v →
    (gp.gates v).out = some l
  full : ∀ w ∈ order, (gp.gates w).notMono = true → ∀ l ∈ (gp.gates w).inp, l.var ∈ order → (gp.gates l.var).notMono = true

/-- Marking literals. -/
theorem mark_mono {both : Bool} : ∀ {ls : List Lit} {f : Lit → Bool} {l : Lit}, f l = true →
    ls.foldl (fun f l => if both then upd (upd f l true) l.neg true else upd f l true) f l = true := by
  intro ls
  induction ls with
  | nil => intro f l h; exact h
  | cons x xs ih =>
    intro f l h
    rw [List.foldl_cons]
    refine ih ?_
    cases both <;> simp only [upd, Bool.false_eq_true, if_true, if_false] <;> repeat (split <;> try rfl)
    all_goals exact h

theorem mark_mem {both : Bool} : ∀ {ls : List Lit} {f : Lit → Bool} {l : Lit}, l ∈ ls →
    ls.foldl (fun f l => if both then upd (upd f l true) l.neg true else upd f l true) f l = true ∧
    (both = true → ls.foldl (fun f l => if both then upd (upd f l true) l.neg true else upd f l true) f l.neg = true) := by
  intro ls
  induction ls with
  | nil => intro f l h; simp at h
  | cons x xs ih =>
    intro f l h
    rw [List.foldl_cons]
    rcases List.mem_cons.1 h with rfl | h
    · refine ⟨mark_mono ?_, fun hb => mark_mono ?_⟩
      · cases both <;> simp [upd]
      · simp [upd, hb]
    · exact ih h

theorem mark_plain {ls : List Lit} {f : Lit → Bool} : ls.foldl (fun f l => upd f l true) f =
    ls.foldl (fun f l => if false then upd (upd f l true) l.neg true else upd f l true) f := by simp

structure GInv (p : Problem) (m : GateMethod) (A : Analyzer) (cur order : List Nat) : Prop where
  idx : BlockList.Inv p A.index (· ∈ cur)
  curNodup : cur.Nodup
  part : (A.gp.roots ++ order.flatMap A.gp.at ++ cur).Perm (List.range p.problem.length)
  orderNodup : order.Nodup
  orderLt : ∀ v ∈ order, v < p.nVars
  undef : ∀ v, v ∉ order → A.gp.gates v = ⟨none, [], [], false, []⟩
  defd : ∀ v ∈ order, ∃ o : Lit, o.var = v ∧ (A.gp.gates v).out = some o ∧
    GateClauses o (clausesAt p (A.gp.gates v).fwd) (clausesAt p (A.gp.gates v).bwd) ∧
    (A.gp.gates v).inp = fwdInputs o (clausesAt p (A.gp.gates v).fwd) ∧
    ((A.gp.gates v).notMono = true →
      GateUnique p m o (clausesAt p (A.gp.gates v).fwd) (clausesAt p (A.gp.gates v).bwd))
  gone : ∀ v ∈ order, ∀ i ∈ cur, Absent p v i
  later : order.Pairwise fun w v => ∀ i ∈ A.gp.at w, Absent p v i
  noRemainder : A.gp.remainder = []
  rootsNe : ∀ i ∈ A.gp.roots, p.problem.getD i [] ≠ []
  marks : GateMarks p A.gp order

theorem GInv.new {p : Problem} (hw : WfCNF p.nVars p.problem) (m : GateMethod) :
    GInv p m (Analyzer.new p) (List.range p.problem.length) [] where
  idx := (BlockList.new_inv hw).congr (by simp)
  curNodup := List.nodup_range
  part := by simp [Analyzer.new, GateProblem.new]
  orderNodup := List.nodup_nil
  orderLt := by simp
  undef := fun _ _ => rfl
  defd := by simp
  gone := by simp
  later := List.Pairwise.nil
  noRemainder := rfl
  rootsNe := by simp [Analyzer.new, GateProblem.new]
  marks := ⟨by simp [Analyzer.new, GateProblem.new], by simp, by simp, by simp, by simp⟩

/-- Only the cached counters and the call counter change. -/
theorem GInv.query {p : Problem} {m : GateMethod} {A : Analyzer} {cur order : List Nat} (h : GInv p m A cur order)
    {B : BlockList} (hB : BlockList.Inv p B (· ∈ cur)) (k : Nat) : GInv p m ⟨B, A.gp, k⟩ cur order :=
  ⟨hB, h.curNodup, h.part, h.orderNodup, h.orderLt, h.undef, h.defd, h.gone, h.later, h.noRemainder, h.rootsNe, h.marks⟩

theorem clausesAt_append (p : Problem) (is js : List Nat) : clausesAt p (is ++ js) = clausesAt p is ++ clausesAt p js := by
  simp [clausesAt]

theorem map_cls {p : Problem} {B : BlockList} {cur : Nat → Prop} (h : BlockList.Inv p B cur) (is : List Nat) :
    is.map B.cls = clausesAt p is := by
  unfold clausesAt
  refine List.map_congr_left fun i _ => ?_
  unfold BlockList.cls
  rw [h.problem]

theorem GInv.gateClauses {p : Problem} {m : GateMethod} {A : Analyzer} {cur order : List Nat} (h : GInv p m A cur order)
    {o : Lit} (hb : ∀ i ∈ A.index.index o, A.index.isBlocked o i = true) :
    GateClauses o (clausesAt p (A.index.index o.neg)) (clausesAt p (A.index.index o)) := by
  have hc : ∀ i, A.index.cls i = p.problem.getD i [] := fun i => by unfold BlockList.cls; rw [h.idx.problem]
  refine ⟨?_, ?_, ?_, ?_, ?_⟩
  all_goals simp only [clausesAt, List.forall_mem_map, ← hc]
  · exact fun i _ => h.idx.vars i
  · exact fun i _ => h.idx.vars i
  · exact fun i hi => ((h.idx.mem _ _).1 hi).2
  · exact fun i hi => ((h.idx.mem _ _).1 hi).2
  · intro i hi j hj
    exact BlockList.isBlockedPair_iff.1 (List.all_eq_true.1 (hb i hi) j hj)

theorem semanticCheck_sound {p : Problem} {m : GateMethod} {A : Analyzer} {cur order : List Nat}
    (h : GInv p m A cur order) (ho : ∀ k F, m.unsat k F = true → ¬ Satisfiable F) {o : Lit} {hol : Bool}
    (hs : (A.semanticCheck m o hol).2 = true) {a : Assign} (hE : hol = true → Sat a p.problem) :
    ¬ Sat a (outputFree o (clausesAt p (A.index.index o.neg)) (clausesAt p (A.index.index o))) := by
  unfold Analyzer.semanticCheck at hs
  dsimp only at hs
  have := ho _ _ hs
  rw [map_cls h.idx, map_cls h.idx] at this
  exact semantic_sound this (by rw [h.idx.problem]; exact hE)

theorem checkGate_sound {p : Problem} {m : GateMethod} {A : Analyzer} {cur order : List Nat}
    (h : GInv p m A cur order) (ho : ∀ k F, m.unsat k F = true → ¬ Satisfiable F) {o : Lit}
    (hb : ∀ i ∈ A.index.index o, A.index.isBlocked o i = true) :
    (∃ k, (A.checkGate m o).1 = ⟨A.index, A.gp, k⟩) ∧
    ((A.checkGate m o).2 = true →
      GateUnique p m o (clausesAt p (A.index.index o.neg)) (clausesAt p (A.index.index o))) := by
  unfold Analyzer.checkGate
  dsimp only
  by_cases hp : (m.patterns && patternCheck o ((A.index.index o.neg).map A.index.cls) ((A.index.index o).map A.index.cls)) = true
  · rw [if_pos hp]
    refine ⟨⟨_, rfl⟩, fun _ => ?_⟩
    rw [Bool.and_eq_true, map_cls h.idx, map_cls h.idx] at hp
    rcases patternCheck_cases (h.gateClauses hb) hp.2 with h1 | h1
    · exact .inl fun a _ => h1 a
    · exact .inr ⟨hp.1, h1⟩
  · rw [if_neg hp]
    have hsem : ∀ hol k, ((⟨A.index, A.gp, k⟩ : Analyzer).semanticCheck m o hol).1 = ⟨A.index, A.gp, k + 1⟩ := fun _ _ => rfl
    by_cases hs : m.semantic = true
    · simp only [hs, if_true]
      by_cases hr : (A.semanticCheck m o false).2 = true
      · rw [if_pos hr]
        exact ⟨⟨_, rfl⟩, fun _ => .inl fun a _ => semanticCheck_sound h ho hr (by simp)⟩
      · rw [if_neg hr]
        by_cases hh : m.holistic = true
        · rw [if_pos hh]
          exact ⟨⟨_, rfl⟩, fun hx => .inl fun a hE =>
            semanticCheck_sound (h.query h.idx (A.calls + 1)) ho hx (fun _ => hE hh)⟩
        · rw [if_neg hh]
          exact ⟨⟨_, rfl⟩, fun hx => by simp at hx⟩
    · simp only [hs, if_false, Bool.false_eq_true]
      by_cases hh : m.holistic = true
      · rw [if_pos hh]
        exact ⟨⟨_, rfl⟩, fun hx => .inl fun a hE => semanticCheck_sound h ho hx (fun _ => hE hh)⟩
      · rw [if_neg hh]
        exact ⟨⟨_, rfl⟩, fun hx => by simp at hx⟩

theorem perm_split {cur fwd bwd : List Nat} (hc : cur.Nodup) (hf : fwd.Nodup) (hb : bwd.Nodup)
    (hfc : ∀ i ∈ fwd, i ∈ cur) (hbc : ∀ i ∈ bwd, i ∈ cur) (hd : ∀ i ∈ fwd, i ∉ bwd) :
    ((fwd ++ bwd) ++ (cur.filter (!fwd.contains ·)).filter (!bwd.contains ·)).Perm cur := by
  refine (List.perm_ext_iff_of_nodup ?_ hc).2 fun i => ?_
  · rw [List.nodup_append, List.nodup_append]
    refine ⟨⟨hf, hb, fun a ha b hb e => hd a ha (e ▸ hb)⟩,
      (hc.sublist List.filter_sublist).sublist List.filter_sublist, fun a ha b hb e => ?_⟩
    subst e
    simp only [List.mem_filter, Bool.not_eq_true', List.contains_eq_mem, decide_eq_false_iff_not] at hb
    rcases List.mem_append.1 ha with ha | ha
    · exact hb.1.2 ha
    · exact hb.2 ha
  · simp only [List.mem_append, List.mem_filter, Bool.not_eq_true', List.contains_eq_mem, decide_eq_false_iff_not]
    constructor
    · rintro ((h | h) | h)
      · exact hfc i h
      · exact hbc i h
      · exact h.1.1
    · intro h
      by_cases h1 : i ∈ fwd
      · exact .inl (.inl h1)
      · by_cases h2 : i ∈ bwd
        · exact .inl (.inr h2)
        · exact .inr ⟨⟨h, h1⟩, h2⟩

theorem GInv.addGate {p : Problem} {m : GateMethod} {A : Analyzer} {cur order : List Nat}
    (h : GInv p m A cur order) {o : Lit} (hin : A.gp.inputs o = true) (hne : A.index.index o.neg ≠ [])
    (hb : ∀ i ∈ A.index.index o, A.index.isBlocked o i = true)
    (hu : (!A.gp.isNestedMonotonic o) = true →
      GateUnique p m o (clausesAt p (A.index.index o.neg)) (clausesAt p (A.index.index o))) :
    let gp := A.gp.addGate A.index.cls o (A.index.index o.neg) (A.index.index o)
    GInv p m { A with gp := gp, index := (A.index.remove (gp.gates o.var).fwd).remove (gp.gates o.var).bwd }
      ((cur.filter (!(A.index.index o.neg).contains ·)).filter (!(A.index.index o).contains ·)) (o.var :: order) := by
  have hc : ∀ i, A.index.cls i = p.problem.getD i [] := fun i => by unfold BlockList.cls; rw [h.idx.problem]
  obtain ⟨i0, hi0⟩ := List.exists_mem_of_ne_nil _ hne
  have hi0' := (h.idx.mem _ _).1 hi0
  rw [hc] at hi0'
  have hnew : o.var ∉ order := fun hm => h.gone _ hm i0 hi0'.1 _ hi0'.2 rfl
  have hg := h.undef _ hnew
  have hlt : o.var < p.nVars := by
    have h1 := hi0'.2
    by_cases hi : i0 < p.problem.length
    · rw [BlockList.getD_lt hi] at h1
      exact (h.idx.wf _ (List.getElem_mem hi)).1 o.neg h1
    · rw [BlockList.getD_ge (by omega)] at h1
      simp at h1
  have hgates : (A.gp.addGate A.index.cls o (A.index.index o.neg) (A.index.index o)).gates =
      upd A.gp.gates o.var ⟨some o, A.index.index o.neg, A.index.index o, !A.gp.isNestedMonotonic o,
        fwdInputs o (clausesAt p (A.index.index o.neg))⟩ := by
    unfold GateProblem.addGate
    simp only [hg, List.nil_append]
    congr 2
    unfold fwdInputs clausesAt
    rw [List.flatMap_map]
    simp only [hc]
  have hself : (A.gp.addGate A.index.cls o (A.index.index o.neg) (A.index.index o)).gates o.var =
      ⟨some o, A.index.index o.neg, A.index.index o, !A.gp.isNestedMonotonic o,
        fwdInputs o (clausesAt p (A.index.index o.neg))⟩ := by
    rw [hgates]; simp [upd]
  have hother : ∀ v, v ≠ o.var → (A.gp.addGate A.index.cls o (A.index.index o.neg) (A.index.index o)).gates v = A.gp.gates v := by
    intro v hv
    rw [hgates]; simp [upd, hv]
  have hroots : (A.gp.addGate A.index.cls o (A.index.index o.neg) (A.index.index o)).roots = A.gp.roots := rfl
  have hrem : (A.gp.addGate A.index.cls o (A.index.index o.neg) (A.index.index o)).remainder = A.gp.remainder := rfl
  have hmono : ∀ l, A.gp.inputs l = true →
      (A.gp.addGate A.index.cls o (A.index.index o.neg) (A.index.index o)).inputs l = true := fun l hl => mark_mono hl
  have hmark : ∀ l ∈ fwdInputs o (clausesAt p (A.index.index o.neg)),
      (A.gp.addGate A.index.cls o (A.index.index o.neg) (A.index.index o)).inputs l = true ∧
      ((!A.gp.isNestedMonotonic o) = true →
        (A.gp.addGate A.index.cls o (A.index.index o.neg) (A.index.index o)).inputs l.neg = true) := by
    intro l hl
    refine mark_mem ?_
    unfold fwdInputs clausesAt at hl
    rw [List.flatMap_map] at hl
    simp only [hg, List.nil_append, hc]
    exact hl
  generalize A.gp.addGate A.index.cls o (A.index.index o.neg) (A.index.index o) = gp at *
  dsimp only
  have hf : (gp.gates o.var).fwd = A.index.index o.neg := by rw [hself]
  have hbw : (gp.gates o.var).bwd = A.index.index o := by rw [hself]
  rw [hf, hbw]
  have hord : ∀ v ∈ order, v ≠ o.var := fun v hv e => hnew (e ▸ hv)
  have hat : ∀ v ∈ order, gp.at v = A.gp.at v := fun v hv => by
    unfold GateProblem.at; rw [hother v (hord v hv)]
  have hatself : gp.at o.var = A.index.index o.neg ++ A.index.index o := by
    unfold GateProblem.at; rw [hf, hbw]
  refine ⟨((h.idx.remove _).remove _).congr (fun i => by
      simp only [List.mem_filter, Bool.not_eq_true', List.contains_eq_mem, decide_eq_false_iff_not]), (h.curNodup.sublist List.filter_sublist).sublist List.filter_sublist,
    ?_, List.nodup_cons.2 ⟨hnew, h.orderNodup⟩, ?_, ?_, ?_, ?_, ?_, hrem.trans h.noRemainder,
    fun i hi => h.rootsNe i (by rw [← hroots]; exact hi), ?_⟩
  · refine List.Perm.trans ?_ h.part
    have hs := perm_split h.curNodup (h.idx.nodup o.neg) (h.idx.nodup o)
      (fun i hi => ((h.idx.mem _ _).1 hi).1) (fun i hi => ((h.idx.mem _ _).1 hi).1)
      (fun i hi hi' => BlockList.not_both (h.idx.vars i) ((h.idx.mem _ _).1 hi').2 ((h.idx.mem _ _).1 hi).2)
    have he : order.flatMap gp.at = order.flatMap A.gp.at := by
      unfold List.flatMap
      rw [List.map_congr_left hat]
    show (gp.roots ++ (o.var :: order).flatMap gp.at ++ _).Perm _
    rw [List.flatMap_cons, hatself, he, hroots]
    have := (List.perm_append_comm_assoc _ _ _).trans (List.Perm.append_left (order.flatMap A.gp.at) hs)
    simp only [List.append_assoc] at this ⊢
    exact List.Perm.append_left _ this
  · intro v hv
    rcases List.mem_cons.1 hv with rfl | hv
    · exact hlt
    · exact h.orderLt v hv
  · intro v hv
    rw [List.mem_cons, not_or] at hv
    show gp.gates v = _
    rw [hother v hv.1]
    exact h.undef v hv.2
  · intro v hv
    show ∃ o : Lit, o.var = v ∧ (gp.gates v).out = some o ∧ _
    rcases List.mem_cons.1 hv with rfl | hv
    · refine ⟨o, rfl, ?_⟩
      show (gp.gates o.var).out = some o ∧ GateClauses o (clausesAt p (gp.gates o.var).fwd) (clausesAt p (gp.gates o.var).bwd) ∧
        (gp.gates o.var).inp = _ ∧ ((gp.gates o.var).notMono = true → GateUnique p m o (clausesAt p (gp.gates o.var).fwd) (clausesAt p (gp.gates o.var).bwd))
      rw [hself]
      exact ⟨rfl, h.gateClauses hb, rfl, hu⟩
    · obtain ⟨o', h1, h2⟩ := h.defd v hv
      refine ⟨o', h1, ?_⟩
      show (gp.gates v).out = some o' ∧ GateClauses o' (clausesAt p (gp.gates v).fwd) (clausesAt p (gp.gates v).bwd) ∧
        (gp.gates v).inp = _ ∧ ((gp.gates v).notMono = true → GateUnique p m o' (clausesAt p (gp.gates v).fwd) (clausesAt p (gp.gates v).bwd))
      rw [hother v (hord v hv)]
      exact h2
  · intro v hv i hi
    rw [List.mem_filter, List.mem_filter] at hi
    rcases List.mem_cons.1 hv with rfl | hv
    · intro l hl he
      have h1 : i ∉ A.index.index o.neg := by simpa using hi.1.2
      have h2 : i ∉ A.index.index o := by simpa using hi.2
      rcases var_eq_cases he with rfl | rfl
      · exact h2 ((h.idx.mem _ _).2 ⟨hi.1.1, by rw [hc]; exact hl⟩)
      · exact h1 ((h.idx.mem _ _).2 ⟨hi.1.1, by rw [hc]; exact hl⟩)
    · exact h.gone v hv i hi.1.1
  · refine List.pairwise_cons.2 ⟨fun v hv i hi => ?_, ?_⟩
    · change i ∈ gp.at o.var at hi
      rw [hatself, List.mem_append] at hi
      exact h.gone v hv i (hi.elim (fun hi => ((h.idx.mem _ _).1 hi).1) (fun hi => ((h.idx.mem _ _).1 hi).1))
    · refine List.Pairwise.imp_of_mem (fun {w v} hw _ hx => ?_) h.later
      show ∀ i ∈ gp.at w, Absent p v i
      rw [hat w hw]
      exact hx
  · have hfresh : ∀ l ∈ fwdInputs o (clausesAt p (A.index.index o.neg)), l.var ∉ order := by
      intro l hl hm
      obtain ⟨c, hcm, hlc, _⟩ := mem_fwdInputs.1 hl
      obtain ⟨i, hi, rfl⟩ := List.mem_map.1 hcm
      exact h.gone _ hm i ((h.idx.mem _ _).1 hi).1 l hlc rfl
    have hmonoNew : A.gp.isNestedMonotonic o = true → ∀ l, A.gp.inputs l = true → l.var = o.var → l = o := by
      intro hm l hl he
      rcases var_eq_cases he with rfl | rfl
      · rfl
      · unfold GateProblem.isNestedMonotonic at hm
        rw [hin, hl] at hm
        simp at hm
    show GateMarks p gp (o.var :: order)
    refine ⟨fun i hi l hl => hmono l (h.marks.roots i (by rw [← hroots]; exact hi) l hl), ?_, ?_, ?_, ?_⟩
    · intro v hv l hl
      rcases List.mem_cons.1 hv with rfl | hv
      · rw [hself] at hl ⊢
        exact hmark l hl
      · rw [hother v (hord v hv)] at hl ⊢
        exact ⟨hmono _ (h.marks.inp v hv l hl).1, fun hx => hmono _ ((h.marks.inp v hv l hl).2 hx)⟩
    · intro v hv hm i hi l hl he
      rw [hroots] at hi
      rcases List.mem_cons.1 hv with rfl | hv
      · rw [hself] at hm ⊢
        rw [hmonoNew (by simpa using hm) l (h.marks.roots i hi l hl) he]
      · rw [hother v (hord v hv)] at hm ⊢
        exact h.marks.rootMono v hv hm i hi l hl he
    · intro v hv hm w hw l hl he
      rcases List.mem_cons.1 hw with rfl | hw
      · rw [hself] at hl
        rcases List.mem_cons.1 hv with rfl | hv
        · rw [hself]
          obtain ⟨c, _, _, hne'⟩ := mem_fwdInputs.1 hl
          rcases var_eq_cases he with rfl | rfl
          · rfl
          · exact (hne' rfl).elim
        · exact (hfresh l hl (he ▸ hv)).elim
      · rw [hother w (hord w hw)] at hl
        rcases List.mem_cons.1 hv with rfl | hv
        · rw [hself] at hm ⊢
          rw [hmonoNew (by simpa using hm) l (h.marks.inp w hw l hl).1 he]
        · rw [hother v (hord v hv)] at hm ⊢
          exact h.marks.inpMono v hv hm w hw l hl he
    · intro w hw hm l hl hv
      rcases List.mem_cons.1 hw with rfl | hw
      · have hm' := hm
        rw [hself] at hl
        rcases List.mem_cons.1 hv with e | hv
        · rw [e]; exact hm'
        · exact (hfresh l hl hv).elim
      · rw [hother w (hord w hw)] at hl hm
        have hmk := h.marks.inp w hw l hl
        rcases List.mem_cons.1 hv with e | hv
        · rw [e, hself]
          show (!A.gp.isNestedMonotonic o) = true
          unfold GateProblem.isNestedMonotonic
          rcases var_eq_cases e with rfl | rfl
          · rw [hin, hmk.2 hm]; rfl
          · rw [hin, hmk.1]; rfl
        · rw [hother _ (hord _ hv)]
          exact h.marks.full w hw hm l hl hv

theorem GInv.tryGate {p : Problem} {m : GateMethod} {A : Analyzer} {cur order : List Nat}
    (h : GInv p m A cur order) (ho : ∀ k F, m.unsat k F = true → ¬ Satisfiable F) {o : Lit} (hin : A.gp.inputs o = true)
    (hne : A.index.index o.neg ≠ []) (hb : ∀ i ∈ A.index.index o, A.index.isBlocked o i = true) :
    ∃ cur' order', GInv p m (A.tryGate m o).1 cur' order' ∧
      ((A.tryGate m o).2 = false ∧ order' = order ∨ (A.tryGate m o).2 = true ∧ order' = o.var :: order) ∧
      ∀ l, A.gp.inputs l = true → (A.tryGate m o).1.gp.inputs l = true := by
  have hr : ∃ k r, (if A.gp.isNestedMonotonic o then (A, true) else A.checkGate m o) = (⟨A.index, A.gp, k⟩, r) ∧
      (r = true → (!A.gp.isNestedMonotonic o) = true →
        GateUnique p m o (clausesAt p (A.index.index o.neg)) (clausesAt p (A.index.index o))) := by
    by_cases hm : A.gp.isNestedMonotonic o = true
    · rw [if_pos hm]
      exact ⟨A.calls, true, rfl, fun _ hx => by simp [hm] at hx⟩
    · rw [if_neg hm]
      obtain ⟨⟨k, hk⟩, hu⟩ := checkGate_sound h ho hb
      exact ⟨k, (A.checkGate m o).2, by rw [← hk], fun hx _ => hu hx⟩
  obtain ⟨k, r, hre, hru⟩ := hr
  unfold Analyzer.tryGate
  rw [hre]
  dsimp only
  cases r with
  | false => exact ⟨cur, order, h.query h.idx k, .inl ⟨rfl, rfl⟩, fun _ hl => hl⟩
  | true => exact ⟨_, _, (h.query h.idx k).addGate hin hne hb (hru rfl), .inr ⟨rfl, rfl⟩, fun _ hl => mark_mono hl⟩

theorem GInv.isGate {p : Problem} {m : GateMethod} {A : Analyzer} {cur order : List Nat}
    (h : GInv p m A cur order) (ho : ∀ k F, m.unsat k F = true → ¬ Satisfiable F) {o : Lit} (hin : A.gp.inputs o = true) :
    ∃ cur' order', GInv p m (A.isGate m o).1 cur' order' ∧
      ((A.isGate m o).2 = false ∧ order' = order ∨ (A.isGate m o).2 = true ∧ order' = o.var :: order) ∧
      ∀ l, A.gp.inputs l = true → (A.isGate m o).1.gp.inputs l = true := by
  unfold Analyzer.isGate
  by_cases hne : A.index.index o.neg = []
  · rw [if_pos hne]
    exact ⟨cur, order, h, .inl ⟨rfl, rfl⟩, fun _ hl => hl⟩
  · rw [if_neg hne]
    dsimp only
    obtain ⟨b1, b2, b3⟩ := h.idx.isBlockedSet o
    have hA1 : GInv p m { A with index := (A.index.isBlockedSet o).1 } cur order := h.query b1 A.calls
    by_cases hbs : (A.index.isBlockedSet o).2 = true
    · rw [if_neg (by simp [hbs])]
      refine hA1.tryGate ho hin (by show (A.index.isBlockedSet o).1.index o.neg ≠ []; rw [b2]; exact hne) ?_
      have hx := isBlocked_of_index h.idx b1 b2 o
      show ∀ i ∈ (A.index.isBlockedSet o).1.index o, (A.index.isBlockedSet o).1.isBlocked o i = true
      rw [b2, hx]
      exact (b3.1 hbs).2
    · rw [if_pos (by simp [hbs])]
      exact ⟨cur, order, hA1, .inl ⟨rfl, rfl⟩, fun _ hl => hl⟩

theorem GInv.candidates {p : Problem} {m : GateMethod} (ho : ∀ k F, m.unsat k F = true → ¬ Satisfiable F) :
    ∀ (os : List Lit) {A : Analyzer} {cur order : List Nat}, GInv p m A cur order → (∀ o ∈ os, A.gp.inputs o = true) →
    ∃ cur' order', GInv p m (Analyzer.candidates m os A).1 cur' order' ∧ order.length ≤ order'.length ∧
      ((Analyzer.candidates m os A).2 ≠ [] → order.length < order'.length) ∧
      (∀ l, A.gp.inputs l = true → (Analyzer.candidates m os A).1.gp.inputs l = true) ∧
      ∀ l ∈ (Analyzer.candidates m os A).2, (Analyzer.candidates m os A).1.gp.inputs l = true := by
  intro os
  induction os with
  | nil =>
    intro A cur order h _
    exact ⟨cur, order, h, Nat.le_refl _, by simp [Analyzer.candidates], fun _ hl => hl, by simp [Analyzer.candidates]⟩
  | cons o os ih =>
    intro A cur order h hos
    obtain ⟨cur1, order1, h1, h2, hm1⟩ := h.isGate ho (hos o (by simp))
    obtain ⟨cur2, order2, h3, h4, h5, hm2, hm3⟩ := ih h1 fun x hx => hm1 x (hos x (List.mem_cons_of_mem _ hx))
    refine ⟨cur2, order2, h3, ?_, ?_, fun l hl => hm2 l (hm1 l hl), ?_⟩
    · rcases h2 with ⟨_, rfl⟩ | ⟨_, rfl⟩
      · exact h4
      · simp at h4; omega
    · intro hne
      rcases h2 with ⟨e, rfl⟩ | ⟨_, rfl⟩
      · refine h5 fun he => hne ?_
        simp only [Analyzer.candidates, e, he]
        rfl
      · simp at h4; omega
    · intro l hl
      simp only [Analyzer.candidates, List.mem_append] at hl ⊢
      rcases hl with hl | hl
      · rcases h2 with ⟨e, rfl⟩ | ⟨e, rfl⟩
        · rw [e] at hl; simp at hl
        · rw [e] at hl
          exact hm2 l (h1.marks.inp o.var (by simp) l hl).1
      · exact hm3 l hl

theorem GInv.order_le {p : Problem} {m : GateMethod} {A : Analyzer} {cur order : List Nat} (h : GInv p m A cur order) :
    order.length ≤ p.nVars := by
  have := length_le_of_subset' h.orderNodup (B := List.range p.nVars) fun v hv => List.mem_range.2 (h.orderLt v hv)
  rwa [List.length_range] at this

/-- The breadth-first search ends after at most one round per gate and one more. -/
theorem GInv.recognition {p : Problem} {m : GateMethod} (ho : ∀ k F, m.unsat k F = true → ¬ Satisfiable F) :
    ∀ (fuel : Nat) (os : List Lit) {A : Analyzer} {cur order : List Nat}, GInv p m A cur order →
    (∀ o ∈ os, A.gp.inputs o = true) → p.nVars + 1 ≤ fuel + order.length →
    ∃ A' cur' order', Analyzer.recognition m fuel os A = some A' ∧ GInv p m A' cur' order' := by
  intro fuel
  induction fuel with
  | zero =>
    intro os A cur order h _ hf
    have := h.order_le
    omega
  | succ n ih =>
    intro os A cur order h hos hf
    cases os with
    | nil => exact ⟨A, cur, order, rfl, h⟩
    | cons o os =>
      simp only [Analyzer.recognition]
      obtain ⟨cur1, order1, h1, h2, h3, _, h4⟩ := h.candidates ho (o :: os) hos
      by_cases he : (Analyzer.candidates m (o :: os) A).2 = []
      · rw [he]
        refine ⟨_, cur1, order1, ?_, h1⟩
        cases n <;> rfl
      · exact ih _ h1 h4 (by have := h3 he; omega)

theorem GInv.fromRoots {p : Problem} {m : GateMethod} (ho : ∀ k F, m.unsat k F = true → ¬ Satisfiable F)
    {fuel : Nat} (hf : p.nVars < fuel) {A : Analyzer} {cur order roots : List Nat}
    (h : GInv p m { A with gp := { A.gp with
      roots := A.gp.roots ++ roots
      inputs := (roots.flatMap A.index.cls).foldl (fun f l => upd f l true) A.gp.inputs } } cur order) :
    ∃ A' cur' order', Analyzer.fromRoots m fuel roots A = some A' ∧ GInv p m A' cur' order' := by
  unfold Analyzer.fromRoots
  split
  · rename_i hr
    subst hr
    refine ⟨A, cur, order, rfl, ?_⟩
    simpa using h
  · refine GInv.recognition (p := p) (cur := cur) (order := order) ho fuel _ h (fun o hm => ?_) (by omega)
    show (roots.flatMap A.index.cls).foldl (fun f l => upd f l true) A.gp.inputs o = true
    rw [mark_plain]
    exact (mark_mem hm).1

/-- Taking clauses out of the index and making them roots. -/
theorem GInv.toRoots {p : Problem} {m : GateMethod} {A : Analyzer} {cur order roots : List Nat} (h : GInv p m A cur order)
    (hn : roots.Nodup) (hs : ∀ i ∈ roots, i ∈ cur) (hne : ∀ i ∈ roots, p.problem.getD i [] ≠ []) {B : BlockList}
    (hB : BlockList.Inv p B (fun i => i ∈ cur ∧ i ∉ roots)) :
    GInv p m ⟨B, { A.gp with
      roots := A.gp.roots ++ roots
      inputs := (roots.flatMap B.cls).foldl (fun f l => upd f l true) A.gp.inputs }, A.calls⟩
      (cur.filter (!roots.contains ·)) order := by
  have hc : ∀ i, B.cls i = p.problem.getD i [] := fun i => by unfold BlockList.cls; rw [hB.problem]
  have hmono : ∀ l, A.gp.inputs l = true → (roots.flatMap B.cls).foldl (fun f l => upd f l true) A.gp.inputs l = true := by
    intro l hl; rw [mark_plain]; exact mark_mono hl
  refine ⟨hB.congr (by simp), h.curNodup.sublist List.filter_sublist, ?_, h.orderNodup, h.orderLt, h.undef, h.defd,
    fun v hv i hi => h.gone v hv i (List.mem_filter.1 hi).1, h.later, h.noRemainder,
    fun i hi => (List.mem_append.1 hi).elim (h.rootsNe i) (hne i), ?_, ?_, ?_, h.marks.inpMono, h.marks.full⟩
  · refine List.Perm.trans ?_ h.part
    have hs := perm_split (bwd := []) h.curNodup hn List.nodup_nil hs (by simp) (by simp)
    simp only [List.append_nil, List.contains_nil, Bool.not_false] at hs
    rw [List.filter_eq_self.2 (fun _ _ => rfl)] at hs
    show (A.gp.roots ++ roots ++ order.flatMap A.gp.at ++ _).Perm _
    have := (List.perm_append_comm_assoc _ _ _).trans (List.Perm.append_left (order.flatMap A.gp.at) hs)
    simp only [List.append_assoc] at this ⊢
    exact List.Perm.append_left _ this
  · intro i hi l hl
    rcases List.mem_append.1 hi with hi | hi
    · exact hmono l (h.marks.roots i hi l hl)
    · show (roots.flatMap B.cls).foldl (fun f l => upd f l true) A.gp.inputs l = true
      rw [mark_plain]
      exact (mark_mem (List.mem_flatMap.2 ⟨i, hi, by rw [hc]; exact hl⟩)).1
  · intro v hv l hl
    exact ⟨hmono _ (h.marks.inp v hv l hl).1, fun hx => hmono _ ((h.marks.inp v hv l hl).2 hx)⟩
  · intro v hv hm i hi l hl he
    rcases List.mem_append.1 hi with hi | hi
    · exact h.marks.rootMono v hv hm i hi l hl he
    · exact (h.gone v hv i (hs i hi) l hl he).elim

theorem GInv.firstTry {p : Problem} {m : GateMethod} (hw : WfCNF p.nVars p.problem)
    (ho : ∀ k F, m.unsat k F = true → ¬ Satisfiable F) {fuel : Nat} (hf : p.nVars < fuel) :
    ∃ A' cur' order', Analyzer.firstTry m fuel (Analyzer.new p) = some A' ∧ GInv p m A' cur' order' := by
  unfold Analyzer.firstTry
  have h := GInv.new hw m
  refine GInv.fromRoots ho hf (h.toRoots ?_ ?_ ?_ (h.idx.remove _))
  · exact List.nodup_range.sublist List.filter_sublist
  · intro i hi
    exact (List.mem_filter.1 hi).1
  · intro i hi he
    have := (List.mem_filter.1 hi).2
    have he : (Analyzer.new p).index.cls i = [] := he
    rw [he] at this
    simp at this

theorem GInv.nextTry {p : Problem} {m : GateMethod} (ho : ∀ k F, m.unsat k F = true → ¬ Satisfiable F)
    {fuel : Nat} (hf : p.nVars < fuel) {A : Analyzer} {cur order : List Nat} (h : GInv p m A cur order) :
    ∃ A' b cur' order', Analyzer.nextTry m fuel A = some (A', b) ∧ GInv p m A' cur' order' := by
  unfold Analyzer.nextTry
  dsimp only
  have hm := minimal_inv h.idx
  cases hl : A.index.getMinimallyUnblockedLiteral.2 with
  | none => exact ⟨_, false, cur, order, rfl, h.query hm.1 A.calls⟩
  | some l =>
    obtain ⟨h1, h2⟩ := hm.1.strip l
    obtain ⟨A', cur', order', h3, h4⟩ := GInv.fromRoots (m := m) (p := p) ho hf
      (A := { A with index := (A.index.getMinimallyUnblockedLiteral.1.stripUnblockedClauses l).1 })
      (h.toRoots (roots := (A.index.getMinimallyUnblockedLiteral.1.stripUnblockedClauses l).2)
        ((hm.1.nodup l).sublist List.filter_sublist) (fun i hi => ((hm.1.mem _ _).1 ((h2 i).1 hi).1).1)
        (fun i hi he => by
          have := ((hm.1.mem _ _).1 ((h2 i).1 hi).1).2
          unfold BlockList.cls at this
          rw [hm.1.problem, he] at this
          simp at this) h1)
    exact ⟨A', true, cur', order', by simp only [h3]; rfl, h4⟩

theorem GInv.tries {p : Problem} {m : GateMethod} (ho : ∀ k F, m.unsat k F = true → ¬ Satisfiable F)
    {fuel : Nat} (hf : p.nVars < fuel) : ∀ (k : Nat) {A : Analyzer} {cur order : List Nat}, GInv p m A cur order →
    ∃ A' cur' order', Analyzer.tries m fuel k A = some A' ∧ GInv p m A' cur' order' := by
  intro k
  induction k with
  | zero => intro A cur order h; exact ⟨A, cur, order, rfl, h⟩
  | succ k ih =>
    intro A cur order h
    obtain ⟨A', b, cur', order', h1, h2⟩ := h.nextTry ho hf
    rw [Analyzer.tries, h1]
    cases b with
    | false => exact ⟨A', cur', order', rfl, h2⟩
    | true => exact ih h2

/-- The state before the remainder is collected. -/
theorem analyze_inv {p : Problem} (hw : WfCNF p.nVars p.problem) {m : GateMethod}
    (ho : ∀ k F, m.unsat k F = true → ¬ Satisfiable F) {fuel : Nat} (hf : p.nVars < fuel) (count : Nat) :
    ∃ A cur order, Analyzer.analyze m fuel count p = some A.finish ∧ GInv p m A cur order := by
  unfold Analyzer.analyze
  cases count with
  | zero => exact ⟨_, _, _, rfl, GInv.new hw m⟩
  | succ k =>
    obtain ⟨A, cur, order, h1, h2⟩ := GInv.firstTry hw ho hf
    obtain ⟨A', cur', order', h3, h4⟩ := h2.tries ho hf k
    exact ⟨A', cur', order', by simp only [h1, h3]; rfl, h4⟩

/-- The collected remainder are the clauses in the index, except empty ones. -/
theorem GInv.mem_remainder {p : Problem} {m : GateMethod} {A : Analyzer} {cur order : List Nat}
    (h : GInv p m A cur order) (i : Nat) : i ∈ A.finish.gp.remainder ↔ i ∈ cur ∧ p.problem.getD i [] ≠ [] := by
  have hc : ∀ i, A.index.cls i = p.problem.getD i [] := fun i => by unfold BlockList.cls; rw [h.idx.problem]
  unfold Analyzer.finish
  simp only [h.noRemainder, List.nil_append, List.mem_filter, List.mem_range, List.any_eq_true, Bool.or_eq_true,
    List.contains_iff_mem, h.idx.mem, hc]
  constructor
  · rintro ⟨_, v, _, h1 | h1⟩
    · exact ⟨h1.1, fun e => by rw [e] at h1; simp at h1⟩
    · exact ⟨h1.1, fun e => by rw [e] at h1; simp at h1⟩
  · rintro ⟨h1, h2⟩
    obtain ⟨l, hl⟩ := List.exists_mem_of_ne_nil _ h2
    have hi : i < p.problem.length := by
      have := h.part.mem_iff.1 (List.mem_append_right _ h1)
      exact List.mem_range.1 this
    have hv : l.var < p.nVars := by
      have hl := hl
      rw [BlockList.getD_lt hi] at hl
      exact (h.idx.wf _ (List.getElem_mem hi)).1 l hl
    refine ⟨by rw [h.idx.problem]; exact hi, l.var, by rw [h.idx.nVars]; exact hv, ?_⟩
    cases l with
    | mk v s => cases s with
      | true => exact .inl ⟨h1, hl⟩
      | false => exact .inr ⟨h1, hl⟩

theorem GInv.nodup_remainder {p : Problem} {m : GateMethod} {A : Analyzer} {cur order : List Nat}
    (h : GInv p m A cur order) : A.finish.gp.remainder.Nodup := by
  unfold Analyzer.finish
  simp only [h.noRemainder, List.nil_append]
  exact List.nodup_range.sublist List.filter_sublist

end Candy
