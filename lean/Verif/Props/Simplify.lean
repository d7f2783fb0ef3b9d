import Verif.Proofs.FirstSolve
import Verif.Proofs.Examples

/-!
# Simplification of the clause set (C24-C27)

`freshDB nv G` is the clause database after `Solver::init` with the clauses `G` over `nv` variables.
`DB.cnf` lists the clauses of a database that are not marked as deleted.
-/

namespace Candy

variable {G : CNF} {nv : Nat}

/-- A new database with the clauses `G` (ClauseDatabase::init on an empty database). -/
def freshDB (nv : Nat) (G : CNF) : DB := DB.new.init nv G

theorem freshDB_ok (h : WfCNF nv G) :
    DBOk G (freshDB nv G) ∧ (freshDB nv G).nVars = nv ∧
    (∀ c ∈ (freshDB nv G).clauses, ((freshDB nv G).store c).weight = 0) ∧
    CarriesDB G (freshDB nv G) := by
  have h0 : DB.new.nVars = 0 := rfl
  obtain ⟨a, b⟩ := dbInit_spec (lem := true) (new_ok true).db (nv := nv) (G := G)
    (by show WfCNF (max DB.new.nVars nv) G; rw [h0]; simpa using h)
  refine ⟨by rw [List.nil_append] at a; exact a, ?_, ?_, ?_⟩
  · have : (freshDB nv G).nVars = max DB.new.nVars nv := b
    rw [this, h0]; omega
  · unfold freshDB
    simp only [DB.init]
    refine createFold_zero (f := fun c => if true = true then 0 else c.length) (by simp) G _ ?_ ?_
    · split <;> exact (new_ok true).db.mem
    · split <;> simp [DB.new]
  · unfold freshDB
    simp only [DB.init]
    have := createFold_carries (f := fun c => if true = true then 0 else c.length) (lem := true)
      (by simp) G [] (if DB.new.nVars < nv then { DB.new with nVars := nv } else DB.new)
      (by split <;> exact (new_ok true).db.mem) (by intro b hb; simp at hb)
    simpa using this

/-- The live clauses of the fresh database are the clauses given. -/
theorem fresh_cnf_psat (h : WfCNF nv G) {m : PAssign} (hm : PSat m (freshDB nv G).cnf) : PSat m G := by
  intro c hc
  obtain ⟨d, h1, h2, h3⟩ := (freshDB_ok h).2.2.2 c hc
  obtain ⟨l, l1, l2⟩ := hm _ (mem_cnf.2 ⟨d, ⟨h1, by omega⟩, rfl⟩)
  exact ⟨l, h3.mem_iff.1 l1, l2⟩

theorem fresh_cnf_sat (h : WfCNF nv G) {a : Assign} (hm : Sat a (freshDB nv G).cnf) : Sat a G := by
  intro c hc
  obtain ⟨d, h1, h2, h3⟩ := (freshDB_ok h).2.2.2 c hc
  obtain ⟨l, l1, l2⟩ := hm _ (mem_cnf.2 ⟨d, ⟨h1, by omega⟩, rfl⟩)
  exact ⟨l, h3.mem_iff.1 l1, l2⟩

/-- Each stored clause is one of the clauses given, up to the order of literals. -/
theorem fresh_cnf_perm (hG : WfCNF nv G) {K : Clause} (hK : K ∈ (freshDB nv G).cnf) :
    ∃ g ∈ G, K.Perm g := by
  obtain ⟨d, hd, rfl⟩ := mem_cnf.1 hK
  have d1 := (freshDB_ok hG).1
  have hk := d1.hist d (d1.mem d hd.1)
  -- the fresh database logs no additions, so every stored clause is one of the clauses given
  obtain ⟨g, hg, hp⟩ := hk
  rcases hg with hg | hg
  · exact ⟨g, hg, hp⟩
  · exfalso
    have hlog : ∀ (cs : List Clause) (db : DB), (∀ e, .add e ∉ db.log) →
        ∀ e, .add e ∉ (cs.foldl (fun d c => (d.createClause c 0 true).1) db).log := by
      intro cs
      induction cs with
      | nil => intro db h e; exact h e
      | cons c cs ih =>
        intro db h e
        rw [List.foldl_cons]
        refine ih _ ?_ e
        intro e he
        rw [createClause_log] at he
        simp at he
        exact h e he
    have hf : (freshDB nv G).log =
        (G.foldl (fun d c => (d.createClause c 0 true).1)
          (if DB.new.nVars < nv then { DB.new with nVars := nv } else DB.new)).log := by
      unfold freshDB; simp [DB.init]
    rw [hf] at hg
    exact hlog G _ (by intro e; split <;> simp [DB.new]) _ hg

theorem sat_cnf_of_ok {db : DB} (h : DBOk G db) {a : Assign} (ha : Sat a G) : Sat a db.cnf := by
  intro c hc
  obtain ⟨d, hd, rfl⟩ := mem_cnf.1 hc
  exact h.ent d (h.mem d hd.1) a ha

/-! ## C24: subsumption -/

theorem abstraction_bit : ∀ (ls : List Lit) (a : BitVec 64) (i : Nat), i < 64 →
    (ls.foldl (fun a l => a ||| (1#64 <<< (l.var % 64))) a).getLsbD i =
      (a.getLsbD i || ls.any fun l => l.var % 64 == i)
  | [], a, i, _ => by simp
  | l :: ls, a, i, hi => by
    rw [List.foldl_cons, abstraction_bit ls _ i hi]
    have hb : (1#64 <<< (l.var % 64)).getLsbD i = (l.var % 64 == i) := by
      have hlt : l.var % 64 < 64 := Nat.mod_lt _ (by omega)
      generalize l.var % 64 = k at hlt ⊢
      rw [BitVec.getLsbD_shiftLeft]
      by_cases h : k = i
      · subst h; simp [hi]
      · have h1 : (k == i) = false := by simpa using h
        rw [h1]
        by_cases h2 : i < k
        · simp [h2]
        · have : i - k ≠ 0 := by omega
          simp [hi, this]
    rw [BitVec.getLsbD_or, hb, List.any_cons, Bool.or_assoc]

/-- The signature filter never rejects a clause all of whose variables occur in the other. -/
theorem abstraction_passes {A B : List Lit} (h : ∀ l ∈ A, ∃ m ∈ B, m.var = l.var) :
    abstraction A &&& ~~~ abstraction B = 0#64 := by
  apply BitVec.eq_of_getLsbD_eq
  intro i hi
  have hA := abstraction_bit A 0#64 i hi
  have hB := abstraction_bit B 0#64 i hi
  rw [BitVec.getLsbD_and, BitVec.getLsbD_not]
  unfold abstraction
  rw [hA, hB]
  simp only [BitVec.getLsbD_zero, Bool.false_or]
  cases hc : A.any fun l => l.var % 64 == i with
  | false => simp
  | true =>
    obtain ⟨l, hl, he⟩ := List.any_eq_true.1 hc
    obtain ⟨m, hm, hv⟩ := h l hl
    have : (B.any fun l => l.var % 64 == i) = true :=
      List.any_eq_true.2 ⟨m, hm, by rw [hv]; exact he⟩
    rw [this]; simp [hi]

theorem length_le_of_subset {A B : List Nat} (hA : A.Nodup) (h : ∀ x ∈ A, x ∈ B) :
    A.length ≤ B.length := by
  induction A generalizing B with
  | nil => simp
  | cons a A ih =>
    have hn := List.nodup_cons.1 hA
    have ha : a ∈ B := h a (by simp)
    have := ih (B := B.erase a) hn.2 (by
      intro x hx
      have hne : x ≠ a := by intro e; subst e; exact hn.1 hx
      exact (List.mem_erase_of_ne hne).2 (h x (by simp [hx])))
    rw [List.length_erase_of_mem ha] at this
    have := List.length_pos_of_mem ha
    simp only [List.length_cons]; omega

theorem subLit_hit {c : Lit} {ret : Option Lit} : ∀ {ds : List Lit}, (ds.map Lit.var).Nodup →
    c ∈ ds → subLit c ret ds = some ret
  | d :: ds, hnd, h => by
    rw [subLit]
    split
    · rfl
    · rename_i hne
      rcases List.mem_cons.1 h with h | h
      · exact (hne h).elim
      · rw [List.map_cons, List.nodup_cons] at hnd
        rw [if_neg]
        · exact subLit_hit hnd.2 h
        · rintro ⟨_, e⟩
          exact hnd.1 (List.mem_map.2 ⟨c, h, by rw [e]; rfl⟩)

theorem subLit_neg {c : Lit} : ∀ {ds : List Lit}, (ds.map Lit.var).Nodup →
    c.neg ∈ ds → subLit c none ds = some (some c)
  | d :: ds, hnd, h => by
    rw [List.map_cons, List.nodup_cons] at hnd
    rw [subLit]
    rcases List.mem_cons.1 h with h | h
    · rw [if_neg (by rintro rfl; simp [Lit.neg] at h; have := congrArg Lit.sign h; simp at this),
        if_pos ⟨rfl, by rw [← h]; simp⟩]
    · have hv : d.var ≠ c.var := by
        intro e; exact hnd.1 (List.mem_map.2 ⟨c.neg, h, by rw [e]; rfl⟩)
      rw [if_neg (by rintro rfl; exact hv rfl),
        if_neg (by rintro ⟨_, e⟩; exact hv (by rw [e]; rfl))]
      exact subLit_neg hnd.2 h

theorem subLoop_all {other : List Lit} (hnd : (other.map Lit.var).Nodup) {ret : Option Lit} :
    ∀ {cs : List Lit}, (∀ c ∈ cs, c ∈ other) → subLoop other cs ret = some ret
  | [], _ => rfl
  | c :: cs, h => by
    rw [subLoop, subLit_hit hnd (h c (by simp))]
    exact subLoop_all hnd (fun d hd => h d (by simp [hd]))

theorem subLoop_one {other : List Lit} (hnd : (other.map Lit.var).Nodup) {l : Lit} :
    ∀ {cs : List Lit}, (cs.map Lit.var).Nodup → l ∈ cs → l.neg ∈ other →
      (∀ c ∈ cs, c ≠ l → c ∈ other) → subLoop other cs none = some (some l)
  | c :: cs, hc, hl, hn, h => by
    rw [List.map_cons, List.nodup_cons] at hc
    rw [subLoop]
    by_cases e : c = l
    · subst e
      rw [subLit_neg hnd hn]
      refine subLoop_all hnd (fun d hd => h d (by simp [hd]) ?_)
      rintro rfl
      exact hc.1 (List.mem_map.2 ⟨d, hd, rfl⟩)
    · rw [subLit_hit hnd (h c (by simp) e)]
      refine subLoop_one hnd hc.2 ?_ hn (fun d hd => h d (by simp [hd]))
      rcases List.mem_cons.1 hl with hl | hl
      · exact (e hl.symm).elim
      · exact hl

/-- C24. The subsumption test is exact, for clauses without repeated variables: it reports
subsumption exactly when the first clause is contained in the second, and strengthening by `l`
exactly when resolving the two clauses on `l` gives the second clause without `¬l`. In particular
the signature filter never changes the verdict. -/
theorem C24_test_exact (A B : Clause) (hA : (A.map Lit.var).Nodup) (hB : (B.map Lit.var).Nodup) :
    (subsumes A B = some none ↔ ∀ l ∈ A, l ∈ B) ∧
    (∀ l, subsumes A B = some (some l) ↔ l ∈ A ∧ l.neg ∈ B ∧ ∀ m ∈ A, m ≠ l → m ∈ B) ∧
    (subsumes A B = none ↔ ¬ (∀ l ∈ A, l ∈ B) ∧
      ¬ ∃ l, l ∈ A ∧ l.neg ∈ B ∧ ∀ m ∈ A, m ≠ l → m ∈ B) := by
  have filt : (∀ l ∈ A, ∃ m ∈ B, m.var = l.var) →
      abstraction A &&& ~~~ abstraction B = 0#64 ∧ A.length ≤ B.length := by
    intro h
    refine ⟨abstraction_passes h, ?_⟩
    have := length_le_of_subset (B := B.map Lit.var) hA (by
      intro x hx
      obtain ⟨l, hl, rfl⟩ := List.mem_map.1 hx
      obtain ⟨m, hm, hv⟩ := h l hl
      exact List.mem_map.2 ⟨m, hm, hv⟩)
    simpa using this
  have c1 : subsumes A B = some none ↔ ∀ l ∈ A, l ∈ B := by
    refine ⟨subsumes_none, fun h => ?_⟩
    rw [subsumes, if_pos (filt fun l hl => ⟨l, h l hl, rfl⟩)]
    exact subLoop_all hB h
  have c2 : ∀ l, subsumes A B = some (some l) ↔ l ∈ A ∧ l.neg ∈ B ∧ ∀ m ∈ A, m ≠ l → m ∈ B := by
    intro l
    refine ⟨fun h => ⟨(subsumes_some h).1, (subsumes_some h).2.1, (subsumes_some h).2.2.1⟩, ?_⟩
    rintro ⟨h1, h2, h3⟩
    rw [subsumes, if_pos (filt fun m hm => ?_)]
    · exact subLoop_one hB hA h1 h2 h3
    · by_cases e : m = l
      · subst e; exact ⟨m.neg, h2, rfl⟩
      · exact ⟨m, h3 m hm e, rfl⟩
  refine ⟨c1, c2, ?_⟩
  rw [← c1]
  constructor
  · intro h
    rw [h]
    refine ⟨by simp, ?_⟩
    rintro ⟨l, hl⟩
    have := (c2 l).2 hl
    rw [h] at this; simp at this
  · rintro ⟨h1, h2⟩
    cases hs : subsumes A B with
    | none => rfl
    | some r =>
      cases r with
      | none => exact (h1 hs).elim
      | some l => exact (h2 ⟨l, (c2 l).1 hs⟩).elim

/-- C24. Subsumption, self-subsuming resolution and unit resolution over a whole clause set, in
whatever order: the clauses that remain have exactly the models of the clauses given, and each
is contained in one of them; a reported contradiction is real. -/
theorem C24_subsumption_equivalent (hG : WfCNF nv G) {before : Nat → Nat → Bool} {fuel : Nat}
    {s' : SDB} {ok : Bool} (he : subsumeAll before fuel (SDB.init (freshDB nv G)) = some (s', ok)) :
    Equivalent s'.db.cnf G ∧ (∀ c ∈ s'.db.cnf, ∃ g ∈ G, ∀ l ∈ c, l ∈ g) ∧
    (ok = false → ¬ Satisfiable G) := by
  obtain ⟨d1, d2, d3, d4⟩ := freshDB_ok hG
  have hok : SOk G (SDB.init (freshDB nv G)) := SOk.init d1
  obtain ⟨l1, l2⟩ := LOk.init (V := fun _ => False) d1.nodup d3
  obtain ⟨h1, h2⟩ := subsumeAll_steps hok he
  obtain ⟨h3, h4⟩ := h1.sound hok
  obtain ⟨g1, g2, g3⟩ := (SSteps.toG (F := G) h1).live hok l1
  rw [l2] at g2 g3
  refine ⟨fun a => ⟨fun ha => fresh_cnf_sat hG (g2.sat ha), fun ha => sat_cnf_of_ok h3.db ha⟩, ?_,
    fun hf => not_sat_of_entails_nil ((h2 hf).refutes h3)⟩
  intro c hc
  obtain ⟨K, hK, hsub⟩ := g3 c hc
  obtain ⟨g, hg, hp⟩ := fresh_cnf_perm hG hK
  exact ⟨g, hg, fun l hl => hp.mem_iff.1 (hsub l hl)⟩

/-! ## C26: resolution -/

/-- C26. Merging two clauses on a variable reports a tautology exactly when they clash on another
variable, and otherwise yields exactly the union of their literals without those of the pivot; the
size-only variant agrees. -/
theorem C26_merge_exact (P Q : Clause) (v : Nat) (hP : (P.map Lit.var).Nodup)
    (hQ : (Q.map Lit.var).Nodup) :
    (merge P Q v = none ↔ ∃ l ∈ P, l.var ≠ v ∧ l.neg ∈ Q) ∧
    (∀ r, merge P Q v = some r →
      (∀ l, l ∈ r ↔ (l ∈ P ∨ l ∈ Q) ∧ l.var ≠ v) ∧ (r.map Lit.var).Nodup) ∧
    ((∃ l ∈ P, l.var = v) → (∃ l ∈ Q, l.var = v) →
      mergeSize P Q v = (merge P Q v).map List.length) :=
  ⟨merge_none hP hQ, fun _ => merge_some hP hQ, mergeSize_eq hP hQ⟩

/-! ## C25: variable elimination -/

/-- The state in which `VariableElimination::eliminate` is called for the first time, with nothing
assigned and the given assumptions. -/
def freshVES (nv : Nat) (G : CNF) (as : List Lit) : VES :=
  ⟨SDB.init (freshDB nv G), VE.empty, (Trail.empty nv).setAssumptions as⟩

theorem freshVES_ok (hG : WfCNF nv G) (as : List Lit) :
    EOk G G (fun _ => False) (freshVES nv G as) ∧
    VEOk G (freshVES nv G as).s.db.nVars (freshVES nv G as).ve ∧
    (freshVES nv G as).T.nVars = (freshVES nv G as).s.db.nVars := by
  obtain ⟨d1, d2, d3, d4⟩ := freshDB_ok hG
  obtain ⟨l1, l2⟩ := LOk.init (V := fun _ => False) d1.nodup d3
  refine ⟨⟨SOk.init d1, l1, ?_, ?_, ?_, ?_⟩, ⟨by simp [freshVES, VE.empty], by simp [freshVES, VE.empty],
    by simp [freshVES, VE.empty]⟩, ?_⟩
  · intro c _ l _; simp [freshVES, VE.empty]
  · intro v _; rfl
  · intro v _; simp [freshVES, VE.empty, Trail.empty, Trail.setAssumptions]
  · have : (freshVES nv G as).s.db.cnf = (freshDB nv G).cnf := by unfold freshVES; rw [l2]
    rw [this]
    refine ⟨by simp [freshVES, VE.empty], by simp [freshVES, VE.empty], ?_⟩
    intro T h1 h2 h3
    exact ⟨T, rfl, fresh_cnf_psat hG h3, id, fun _ _ => rfl, fun v hv => h2 v hv (by simp [freshVES, VE.empty])⟩
  · unfold freshVES
    rw [l2, d2]; rfl

/-- C25. A call of `eliminate`, with any limit on the size of resolvents and any order of the
variables. The remaining clauses do not mention an eliminated variable, they are satisfiable
exactly when the clauses given are, and every assignment of the other variables that satisfies them
is extended by the reconstruction (run over the eliminated variables in reverse order) to an
assignment of all variables that satisfies the clauses given; a reported contradiction is real.
Assumed variables are not eliminated. -/
theorem C25_elimination (hG : WfCNF nv G) {active : Bool} {lim : Nat}
    {order : (Nat → Nat) → List Nat → List Nat} {as : List Lit}
    (hord : ∀ f xs, ∀ x ∈ order f xs, x ∈ xs) {st : VES} {ok : Bool}
    (he : eliminateAll active lim order (freshVES nv G as) = some (st, ok)) :
    (∀ c ∈ st.s.db.cnf, ∀ l ∈ c, l.var ∉ st.ve.vars) ∧
    (Satisfiable st.s.db.cnf ↔ Satisfiable G) ∧
    (∀ T : Trail, (∀ v ∈ st.ve.vars, T.assigns v = none) →
      (∀ v < nv, v ∉ st.ve.vars → T.assigns v ≠ none) → PSat T.assigns st.s.db.cnf →
      ∃ T', extendModel st.ve.cls st.ve.vars.reverse T = some T' ∧ PSat T'.assigns G ∧
        (∀ v, v ∉ st.ve.vars → T'.assigns v = T.assigns v) ∧ (∀ v < nv, T'.assigns v ≠ none)) ∧
    (∀ l ∈ as, l.var ∉ st.ve.vars) ∧
    (ok = false → ¬ Satisfiable G) := by
  obtain ⟨e1, e2, e3⟩ := freshVES_ok hG as
  obtain ⟨l1, l2⟩ := LOk.init (V := fun _ => False) (freshDB_ok hG).1.nodup (freshDB_ok hG).2.2.1
  have hnv0 : (freshVES nv G as).s.db.nVars = nv := by
    unfold freshVES; rw [l2]; exact (freshDB_ok hG).2.1
  obtain ⟨k1, k2, k3⟩ := EOk.eliminateAll e1 e2 (by simp) e3 hord he
  obtain ⟨m1, m2, m3, m4, m5⟩ := eliminateAll_sound e1.ok e2 he
  have hnv : st.s.db.nVars = nv := m2.nVars.trans hnv0
  have hrec := k1.recon.ext
  rw [hnv] at hrec
  have hclean : ∀ c ∈ st.s.db.cnf, ∀ l ∈ c, l.var ∉ st.ve.vars := by
    intro c hc
    obtain ⟨d, hd, rfl⟩ := mem_cnf.1 hc
    exact k1.clean d hd
  refine ⟨hclean, ⟨?_, ?_⟩, ?_, ?_, fun hf => not_sat_of_entails_nil (m5 hf)⟩
  · rintro ⟨a, ha⟩
    obtain ⟨T', t1, t2, _⟩ := hrec
      { Trail.empty nv with assigns := fun v => if v ∈ st.ve.vars then none else some (a v) }
      (by intro v hv; simp [hv]) (by intro v _ hv; simp [hv])
      (by
        intro c hc
        obtain ⟨l, hl, hh⟩ := ha c hc
        refine ⟨l, hl, ?_⟩
        have hv := hclean c hc l hl
        unfold Lit.trueIn
        simp only [hv, if_false]
        unfold Lit.holds at hh
        revert hh
        cases a l.var <;> cases l.sign <;> simp)
    exact PSat.satisfiable t2
  · rintro ⟨a, ha⟩
    exact ⟨a, sat_cnf_of_ok m1.db ha⟩
  · intro T t1 t2 t3
    obtain ⟨T', a1, a2, _, a4, a5⟩ := hrec T t1 t2 t3
    exact ⟨T', a1, a2, a4, a5⟩
  · intro l hl hv
    rcases k3 l.var hv with h | h
    · simp [freshVES, VE.empty] at h
    · exact h.2 l hl rfl

/-! ## C27: asymmetric variable reduction -/

/-- The state in which `AsymmetricVariableReduction::reduce` runs on the clauses `G`. -/
def freshAVS (nv : Nat) (G : CNF) : AVS :=
  ⟨SDB.init (freshDB nv G), resetWatch (freshDB nv G), Trail.empty nv⟩

/-- C27. Asymmetric variable reduction keeps exactly the models of the clauses given; every clause
that remains is contained in one of them (literals are only removed), every clause given contains
one that remains, the trail is left as it was, and a reported contradiction is real. -/
theorem C27_reduction_equivalent (hG : WfCNF nv G) {st : AVS} {ok : Bool}
    (he : asymAll true (freshAVS nv G) = some (st, ok)) :
    Equivalent st.s.db.cnf G ∧
    (∀ c ∈ st.s.db.cnf, ∃ g ∈ G, ∀ l ∈ c, l ∈ g) ∧
    (∀ g ∈ G, ∃ c ∈ st.s.db.cnf, ∀ l ∈ c, l ∈ g) ∧
    (st.T.stack = [] ∧ st.T.lim = []) ∧
    (ok = false → ¬ Satisfiable G) := by
  obtain ⟨d1, d2, d3, d4⟩ := freshDB_ok hG
  obtain ⟨l1, l2⟩ := LOk.init (V := fun _ => False) d1.nodup d3
  have hok : SOk G (SDB.init (freshDB nv G)) := SOk.init d1
  have ha : AOk G (freshAVS nv G) := by
    have hc := core_reset (T := Trail.empty nv) d1 (by rw [d2]; rfl)
    unfold freshAVS
    refine ⟨hok, ?_, ?_, rfl⟩
    · simp only; rw [l2]; exact hc
    · simp only; rw [l2]; exact resetWatch_inv d1
  obtain ⟨h1, h2, h3, h4⟩ := asymAll_spec ha he
  obtain ⟨g1, g2, g3⟩ := h2.live hok l1
  have e : (freshAVS nv G).s.db.cnf = (freshDB nv G).cnf := by unfold freshAVS; rw [l2]
  rw [e] at g2 g3
  refine ⟨fun a => ⟨fun ha => fresh_cnf_sat hG (g2.sat ha), fun ha => sat_cnf_of_ok h1.ok.db ha⟩, ?_, ?_,
    ⟨h3.stack, h1.lim⟩, fun hf => not_sat_of_entails_nil (h4 hf)⟩
  · intro c hc
    obtain ⟨K, hK, hsub⟩ := g3 c hc
    obtain ⟨g, hg, hp⟩ := fresh_cnf_perm hG hK
    exact ⟨g, hg, fun l hl => hp.mem_iff.1 (hsub l hl)⟩
  · intro g hg
    obtain ⟨d, k1, k2, k3⟩ := d4 g hg
    obtain ⟨c, hc, hsub⟩ := g2 _ (mem_cnf.2 ⟨d, ⟨k1, by omega⟩, rfl⟩)
    exact ⟨c, hc, fun l hl => k3.mem_iff.1 (hsub l hl)⟩

/-! ## C24, C27: the whole simplification loop without elimination -/

/-- C24, C27. Preprocessing of the first call of `solve` with elimination switched off, any number
of rounds of unit propagation, subsumption and asymmetric reduction: the clauses that remain have
exactly the models of the clauses given. -/
theorem C24_preprocessing_equivalent (hG : WfCNF nv G) {cfg : Config} (hu : cfg.useElim = false)
    {rs : List PreRound} (hr : ∀ r ∈ rs, r.Valid) {sys' : Sys}
    (he : process cfg rs (solveStart ((Sys.new true).init nv G)) = some sys')
    (hne : sys'.sol.db.hasEmpty = false) : Equivalent sys'.sol.db.cnf G := by
  have hf : FreshOk G ((Sys.new true).init nv G) := by
    have := FreshOk.init (F := []) (sys := Sys.new true) ⟨plain_new true, by simp [Sys.new, DB.new]⟩
      (nv := nv) (G := G) (by
        show WfCNF (max DB.new.nVars nv) G
        have h0 : DB.new.nVars = 0 := rfl
        rw [h0]; simpa using hG)
    simpa using this
  have hS := (solveStart_spec hf.plain.ok).1
  have hP := pristine_start hf
  have hve : sys'.ve.vars = [] := by rw [process_off hu he]; exact hP.vars
  have hno : NoElim sys' := by intro v hv; rw [hve] at hv; simp at hv
  have hpp := (process_recon hS hP hr he hne).1 hno
  obtain ⟨q1, q2⟩ := hS.process he
  intro a
  constructor
  · intro ha
    have hrec := hpp.recon.ext
    rw [hve] at hrec
    obtain ⟨T', t1, t2, t3, t4, t5⟩ := hrec { Trail.empty nv with assigns := fun v => some (a v) }
      (by simp) (by simp) (by
        intro c hc
        obtain ⟨l, hl, hh⟩ := ha c hc
        refine ⟨l, hl, ?_⟩
        unfold Lit.trueIn
        unfold Lit.holds at hh
        revert hh
        simp only
        cases a l.var <;> cases l.sign <;> simp)
    simp only [List.reverse_nil, extendModel, Option.some.injEq] at t1
    subst t1
    have t2 := hf.psat (m := fun v => some (a v)) (by rw [(plain_start hf.plain).1] at t2; exact t2)
    intro c hc
    obtain ⟨l, hl, hh⟩ := t2 c hc
    refine ⟨l, hl, ?_⟩
    unfold Lit.trueIn at hh
    unfold Lit.holds
    simp only [Option.some.injEq] at hh
    exact hh
  · exact fun ha => sat_cnf_of_ok q1.db ha

/-! ## Non-vacuity -/

/-- Variables 0 and 64 have the same signature bit. -/
example : subsumes [⟨0, false⟩, ⟨1, false⟩] [⟨64, false⟩, ⟨1, false⟩, ⟨2, true⟩] = none ∧
    subsumes [⟨0, false⟩, ⟨1, false⟩] [⟨1, false⟩, ⟨2, true⟩, ⟨0, true⟩] = some (some ⟨0, false⟩) ∧
    subsumes [⟨0, false⟩, ⟨1, false⟩] [⟨1, false⟩, ⟨2, true⟩, ⟨0, false⟩] = some none := by decide

def exSubG : CNF := cnf [[1, 2], [1, 2, 3], [-1, 2, 4], [3, -2], [3, 4, -2]]

example : WfCNF 4 exSubG := wfCNF_of (by decide)

/-- Subsumption removes and strengthens clauses here. -/
example : ((subsumeAll (fun a b => decide (a < b)) 20 (SDB.init (freshDB 4 exSubG))).map
    fun x => (x.1.db.cnf, x.2)) =
    some (cnf [[1, 2], [3, -2], [2, 4], [3, 4]], true) := by decide

def exElimG : CNF := cnf [[1, 2], [-1, 3], [-2, 4], [-3, -4, 5]]

example : WfCNF 5 exElimG := wfCNF_of (by decide)

/-- Variables are eliminated, clauses remain. -/
example : ((eliminateAll true 20 (fun _ l => l.take 2) (freshVES 5 exElimG [lit 5])).map
    fun x => (x.1.ve.vars, x.1.s.db.cnf, x.2)) =
    some ([0, 1], cnf [[-3, -4, 5], [4, 3]], true) := by decide

def exAsymG : CNF := cnf [[1, 2, 3], [1, -2, 4], [1, -4, 5], [1, -5, -2]]

example : WfCNF 5 exAsymG := wfCNF_of (by decide)

/-- A literal is removed. -/
example : ((asymAll true (freshAVS 5 exAsymG)).map
    fun x => (decide (x.1.s.db.cnf.flatten.length < exAsymG.flatten.length), x.2)) =
    some (true, true) := by decide +kernel

/-! ## Restoring eliminated variables (C25) -/

theorem VE.resetLoop_spec : ∀ (ls : List Lit) (ve : VE) (T : Trail) (acc : List Clause),
    let r := VE.resetLoop ls ve T acc
    (∀ v, v ∈ r.2.1.vars ↔ v ∈ ve.vars ∧ ((∃ l ∈ ls, l.var = v) → ve.isEliminated v = false)) ∧
    (∀ v, r.2.1.cls v = if (∃ l ∈ ls, l.var = v) then [] else ve.cls v) ∧
    (∀ v, r.2.1.frozen v = true ↔ ve.frozen v = true ∨ ∃ l ∈ ls, l.var = v) ∧
    (∀ v, r.2.2.decision v = true ↔
      T.decision v = true ∨ ((∃ l ∈ ls, l.var = v) ∧ ve.isEliminated v = true)) ∧
    (r.2.2 = { T with decision := r.2.2.decision }) ∧
    (∀ c, c ∈ r.1 ↔ c ∈ acc ∨ ∃ l ∈ ls, c ∈ ve.cls l.var)
  | [], ve, T, acc => by simp [VE.resetLoop]
  | l :: ls, ve, T, acc => by
    unfold VE.resetLoop
    by_cases he : ve.isEliminated l.var = true
    · have e0 : VE.isEliminated { ve with frozen := upd ve.frozen l.var true } l.var = true := he
      simp only [e0, if_true]
      obtain ⟨k1, k2, k3, k4, k5, k6⟩ := VE.resetLoop_spec ls
        (VE.undo { ve with frozen := upd ve.frozen l.var true } T l.var).2.1
        (VE.undo { ve with frozen := upd ve.frozen l.var true } T l.var).2.2
        (acc ++ (VE.undo { ve with frozen := upd ve.frozen l.var true } T l.var).1)
      simp only [VE.undo, VE.isEliminated, upd, Trail.setDecisionVar, List.mem_filter, bne_iff_ne] at k1 k2 k3 k4 k5 k6 he ⊢
      refine ⟨fun v => ?_, fun v => ?_, fun v => ?_, fun v => ?_, ?_, fun c => ?_⟩
      · rw [k1]
        by_cases hv : v = l.var
        · subst hv; simp [he]
        · have : l.var ≠ v := fun h => hv h.symm
          simp [hv, this]
      · rw [k2]
        by_cases hv : v = l.var
        · subst hv; simp
        · have : l.var ≠ v := fun h => hv h.symm
          simp [hv, this]
      · rw [k3]
        by_cases hv : v = l.var
        · subst hv; simp
        · have : l.var ≠ v := fun h => hv h.symm
          simp [hv, this]
      · rw [k4]
        by_cases hv : v = l.var
        · subst hv; simp [he]
        · have : l.var ≠ v := fun h => hv h.symm
          simp [hv, this]
      · rw [k5]
      · rw [k6]
        simp only [List.mem_append, List.mem_cons, exists_eq_or_imp]
        constructor
        · rintro ((h | h) | ⟨m, h1, h2⟩)
          · exact .inl h
          · exact .inr (.inl h)
          · split at h2
            · simp at h2
            · exact .inr (.inr ⟨m, h1, h2⟩)
        · rintro (h | h | ⟨m, h1, h2⟩)
          · exact .inl (.inl h)
          · exact .inl (.inr h)
          · by_cases hm : m.var = l.var
            · rw [hm] at h2; exact .inl (.inr h2)
            · exact .inr ⟨m, h1, by rw [if_neg hm]; exact h2⟩
    · have e0 : ¬ VE.isEliminated { ve with frozen := upd ve.frozen l.var true } l.var = true := he
      dsimp only
      rw [if_neg e0]
      obtain ⟨k1, k2, k3, k4, k5, k6⟩ := VE.resetLoop_spec ls
        { ve with frozen := upd ve.frozen l.var true } T acc
      have hc : ve.cls l.var = [] := by
        simpa [VE.isEliminated] using he
      have he' : ve.isEliminated l.var = false := by simpa using he
      refine ⟨fun v => ?_, fun v => ?_, fun v => ?_, fun v => ?_, k5, fun c => ?_⟩
      · rw [k1]
        by_cases hv : l.var = v
        · subst hv; simp [VE.isEliminated, hc]
        · simp [hv, VE.isEliminated]
      · rw [k2]
        by_cases hv : l.var = v
        · subst hv; simp [hc]
        · simp [hv]
      · rw [k3]
        by_cases hv : v = l.var
        · subst hv; simp [upd]
        · have : l.var ≠ v := fun h => hv h.symm
          simp [hv, this, upd]
      · rw [k4]
        by_cases hv : l.var = v
        · subst hv; simp [VE.isEliminated, hc]
        · simp [hv, VE.isEliminated]
      · rw [k6]; simp [hc]

/-- C25 (restoring). For every elimination state in which the recorded variables are those with
stored clauses: `reset`, called with the assumptions of the next call, hands back exactly the clauses
stored for the assumed variables; afterwards no assumed variable is eliminated, each of them that was
eliminated can be decided on again, and exactly the assumed variables are excluded from elimination. Other
variables keep their state, and the assignment is unchanged. -/
theorem C25_restore (ve : VE) (T : Trail) (hve : ∀ v, v ∈ ve.vars ↔ ve.cls v ≠ []) :
    let r := ve.reset T
    (∀ c, c ∈ r.1 ↔ ∃ l ∈ T.assumptions, c ∈ ve.cls l.var) ∧
    (∀ l ∈ T.assumptions, r.2.1.isEliminated l.var = false ∧ l.var ∉ r.2.1.vars ∧
      (l.var ∈ ve.vars → r.2.2.decision l.var = true)) ∧
    (∀ v, (∀ l ∈ T.assumptions, l.var ≠ v) → (v ∈ r.2.1.vars ↔ v ∈ ve.vars) ∧
      r.2.1.cls v = ve.cls v ∧ r.2.2.decision v = T.decision v) ∧
    (∀ v, r.2.1.frozen v = true ↔ ∃ l ∈ T.assumptions, l.var = v) ∧
    r.2.2 = { T with decision := r.2.2.decision } ∧
    (∀ v, v ∈ r.2.1.vars ↔ r.2.1.cls v ≠ []) := by
  intro r
  obtain ⟨k1, k2, k3, k4, k5, k6⟩ :=
    VE.resetLoop_spec T.assumptions { ve with frozen := fun _ => false } T []
  have hel : ∀ v, ve.isEliminated v = true ↔ v ∈ ve.vars := by
    intro v; rw [hve]; simp [VE.isEliminated]
  have hel' : ∀ v, VE.isEliminated { ve with frozen := fun _ => false } v = ve.isEliminated v := fun _ => rfl
  simp only [hel'] at k1 k4
  have h1 : ∀ l ∈ T.assumptions, r.2.1.cls l.var = [] := by
    intro l hl
    exact (k2 l.var).trans (if_pos ⟨l, hl, rfl⟩)
  refine ⟨fun c => (k6 c).trans (by simp), fun l hl => ⟨?_, ?_, ?_⟩, fun v hv => ⟨?_, ?_, ?_⟩,
    fun v => (k3 v).trans (by simp), k5, ?_⟩
  · simp [VE.isEliminated, h1 l hl]
  · intro hm
    obtain ⟨a, b⟩ := (k1 l.var).1 hm
    have := b ⟨l, hl, rfl⟩
    rw [(hel l.var).2 a] at this
    simp at this
  · intro hm
    exact (k4 l.var).2 (.inr ⟨⟨l, hl, rfl⟩, (hel _).2 hm⟩)
  · exact (k1 v).trans ⟨fun h => h.1, fun h => ⟨h, fun ⟨l, a, b⟩ => absurd b (hv l a)⟩⟩
  · exact (k2 v).trans (if_neg fun ⟨l, a, b⟩ => hv l a b)
  · rw [Bool.eq_iff_iff]
    exact (k4 v).trans ⟨fun h => h.resolve_right fun ⟨⟨l, a, b⟩, _⟩ => hv l a b, .inl⟩
  · intro v
    by_cases hv : ∃ l ∈ T.assumptions, l.var = v
    · obtain ⟨l, hl, rfl⟩ := hv
      rw [h1 l hl]
      refine ⟨fun hm => ?_, by simp⟩
      obtain ⟨a, b⟩ := (k1 l.var).1 hm
      have := b ⟨l, hl, rfl⟩
      rw [(hel l.var).2 a] at this
      simp at this
    · rw [show r.2.1.cls v = ve.cls v from (k2 v).trans (if_neg hv), ← hve]
      exact (k1 v).trans ⟨fun h => h.1, fun h => ⟨h, fun h => absurd h hv⟩⟩

/-- Variables 1 and 2 are eliminated, variable 1 is assumed. -/
example : let ve : VE := ⟨[1, 2], fun v => if v = 1 then [[pos 1, pos 0]] else if v = 2 then [[neg 2, pos 0]] else [],
      fun _ => false⟩
    let T := ((Trail.empty 3).setDecisionVar 1 false).setAssumptions [neg 1, pos 0]
    let r := ve.reset T
    (r.1, r.2.1.vars, r.2.2.decision 1, r.2.1.frozen 0, r.2.1.frozen 2) =
      ([[pos 1, pos 0]], [2], true, true, false) := by decide

/-! ## Binary watchers of removed clauses -/

/-- C34 (removal). In the clause database of any reachable state, removing a clause leaves exactly the
binary watchers of the other clauses: none of the removed clause, all of the others. -/
theorem C34_remove_binary {F : CNF} {db : DB} (h : DBOk F db) (c : Nat) (p : Lit) (w : Watcher) :
    w ∈ (db.removeClause c).bin p ↔ w ∈ db.bin p ∧ w.cref ≠ c := by
  have key : ∀ w' ∈ db.bin p, w'.cref = c → (db.lits c = [p.neg, w'.blocker] ∨ db.lits c = [w'.blocker, p.neg]) := by
    rintro w' hw rfl; exact (h.binInv p w' hw).2
  unfold DB.removeClause
  dsimp only
  split
  · rename_i x y hl
    dsimp only
    split
    · simp
    · rename_i hne
      refine ⟨fun hw => ⟨hw, fun he => hne ?_⟩, fun hw => hw.1⟩
      rcases key w hw he with k | k
      · rw [hl] at k; injection k with k1 _; left; rw [k1, Lit.neg_neg]
      · rw [hl] at k; injection k with _ k1; injection k1 with k1 _; right; rw [k1, Lit.neg_neg]
  · rename_i hl
    refine ⟨fun hw => ⟨hw, fun he => ?_⟩, fun hw => hw.1⟩
    rcases key w hw he with k | k
    · exact hl _ _ k
    · exact hl _ _ k

example : let db := freshDB 3 (cnf [[1, 2], [1, 3], [-1, 2, 3]])
    (db.bin (neg 0)).map (·.cref) = [0, 1] ∧ ((db.removeClause 0).bin (neg 0)).map (·.cref) = [1] ∧
    (db.removeClause 0).bin (neg 1) = [] := by decide

end Candy
