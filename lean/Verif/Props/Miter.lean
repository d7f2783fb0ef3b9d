import Verif.Proofs.Miter
import Verif.Props.Traversal

/-!
# C68: the detection of miters

The monotone region are the gates reached from the roots through gates whose output is used in one sign only. Its
border are the gates of the region with an input outside. The detector answers `true` for a structure whose border
looks like a row of comparisons of two circuits.
-/

namespace Candy

/-- The gate `v` is in the monotone region. -/
def InRegion (G : GateProblem) (cls : Nat → Clause) (v : Nat) : Prop := Reached G cls (fun v => (G.gates v).notMono) v

/-- The gate `v` is at the border: an input has no gate, or a gate outside of the region. -/
def AtBorder (G : GateProblem) (cls : Nat → Clause) (v : Nat) : Prop :=
  InRegion G cls v ∧ ∃ l ∈ (G.gates v).inp, (G.gates l.var).out = none ∨ (G.gates l.var).notMono = true

/-- A gate used in both signs is next to the region. -/
def TouchesNonMono (G : GateProblem) (cls : Nat → Clause) : Prop :=
  ∃ l : Lit, (G.gates l.var).out ≠ none ∧ (G.gates l.var).notMono = true ∧
    ((∃ i ∈ G.roots, l ∈ cls i) ∨ ∃ u, InRegion G cls u ∧ l ∈ (G.gates u).inp)

/-- There is a border; a gate used in both signs is next to the region; every border gate has two input
variables; no literal is the input of two border gates; with every literal its negation is such an input. -/
structure MiterLike (G : GateProblem) (cls : Nat → Clause) : Prop where
  border : ∃ v, AtBorder G cls v
  nonMono : TouchesNonMono G cls
  two : ∀ v, AtBorder G cls v → ∃ x y, x ≠ y ∧ ∀ z, (∃ l ∈ (G.gates v).inp, l.var = z) ↔ z = x ∨ z = y
  once : ∀ u v, AtBorder G cls u → AtBorder G cls v → ∀ l ∈ (G.gates u).inp, l ∈ (G.gates v).inp → u = v
  both : ∀ v, AtBorder G cls v → ∀ l ∈ (G.gates v).inp, ∃ u, AtBorder G cls u ∧ l.neg ∈ (G.gates u).inp

theorem nodup_litSet (ls : List Lit) : (litSet ls).Nodup := by
  unfold litSet
  refine (sorted_uniqueEq (sorted_sortLits ls)).imp fun {a b} h e => ?_
  subst e
  exact Nat.lt_irrefl _ h

/-- What the analysis guarantees for its gates, as far as the detector needs it. -/
structure ForMiter (G : GateProblem) (cls : Nat → Clause) : Prop where
  out : ∀ v o, (G.gates v).out = some o → o.var = v
  nodup : ∀ v, (G.gates v).inp.Nodup
  clause : ∀ v o, (G.gates v).out = some o → ∀ i ∈ (G.gates v).fwd, o.neg ∈ cls i
  vars : ∀ v o, (G.gates v).out = some o → ∀ i ∈ (G.gates v).fwd, ((cls i).map Lit.var).Nodup
  inp : ∀ v o, (G.gates v).out = some o → ∀ l, l ∈ (G.gates v).inp ↔ (∃ i ∈ (G.gates v).fwd, l ∈ cls i) ∧ l ≠ o.neg

theorem forMiter {f : CNF} {m : GateMethod} (hm : m.Sound) {fuel count : Nat} {R : Analyzer}
    (hf : (Problem.empty.readClauses f).nVars < fuel)
    (hR : Analyzer.analyze m fuel count (Problem.empty.readClauses f) = some R) :
    ForMiter R.gp (fun i => (Problem.empty.readClauses f).problem.getD i []) := by
  obtain ⟨A, cur, order, rfl, h⟩ := analyze_result hm hf hR
  have hd : ∀ v o, (A.gp.gates v).out = some o → o.var = v ∧
      GateClauses o (clausesAt (Problem.empty.readClauses f) (A.gp.gates v).fwd) (clausesAt (Problem.empty.readClauses f) (A.gp.gates v).bwd) ∧
      (A.gp.gates v).inp = fwdInputs o (clausesAt (Problem.empty.readClauses f) (A.gp.gates v).fwd) := by
    intro v o ho
    obtain ⟨o', h1, h2, h3, h4, _⟩ := h.defd v ((h.defined_iff v).1 (by rw [ho]; simp))
    rw [ho] at h2
    cases h2
    exact ⟨h1, h3, h4⟩
  refine ⟨fun v o ho => (hd v o ho).1, fun v => ?_, fun v o ho i hi => ?_, fun v o ho i hi => ?_, fun v o ho l => ?_⟩
  · by_cases hv : (A.gp.gates v).out = none
    · have : v ∉ order := fun hm => (h.defined_iff v).2 hm hv
      show (A.gp.gates v).inp.Nodup
      rw [h.undef v this]
      exact List.nodup_nil
    · obtain ⟨o, ho⟩ := Option.ne_none_iff_exists'.1 hv
      show (A.gp.gates v).inp.Nodup
      rw [(hd v o ho).2.2]
      exact nodup_litSet _
  · exact (hd v o ho).2.1.fwdOut _ (List.mem_map.2 ⟨i, hi, rfl⟩)
  · exact (hd v o ho).2.1.fwdNodup _ (List.mem_map.2 ⟨i, hi, rfl⟩)
  · show l ∈ (A.gp.gates v).inp ↔ _
    rw [(hd v o ho).2.2]
    simp only [fwdInputs, mem_litSet, List.mem_flatMap, List.mem_filter, bne_iff_ne, ne_eq, clausesAt, List.mem_map]
    constructor
    · rintro ⟨_, ⟨i, hi, rfl⟩, hl, hne⟩
      exact ⟨⟨i, hi, hl⟩, hne⟩
    · rintro ⟨⟨i, hi, hl⟩, hne⟩
      exact ⟨_, ⟨i, hi, rfl⟩, hl, hne⟩

variable {G : GateProblem} {cls : Nat → Clause}

/-- A gate with two input variables that passes the test for exclusive ors has all four literals as inputs. -/
theorem xor_inputs (hG : ForMiter G cls) {v : Nat} {o : Lit} (ho : (G.gates v).out = some o) {x y : Nat}
    (hv : ∀ z, (G.gates v).InVar z ↔ z = x ∨ z = y) (hx : isBinaryXor cls (G.gates v) = true) :
    ∀ l : Lit, l.var = x ∨ l.var = y → l ∈ (G.gates v).inp := by
  unfold isBinaryXor at hx
  split at hx
  case h_2 => cases hx
  rename_i i j hfwd
  simp only [Bool.and_eq_true, beq_iff_eq] at hx
  obtain ⟨_, h5⟩ := hx
  have hmem : ∀ l, l ∈ (cls i ++ cls j).foldl (fun s l => hashInsert l s) [] ↔ l = o.neg ∨ l ∈ (G.gates v).inp := by
    intro l
    rw [mem_hashInserts, hG.inp v o ho, hfwd]
    have := hG.clause v o ho i (by rw [hfwd]; simp)
    constructor
    · rintro (h | h)
      · by_cases hl : l = o.neg
        · exact .inl hl
        · exact .inr ⟨(List.mem_append.1 h).elim (fun h => ⟨i, by simp, h⟩) (fun h => ⟨j, by simp, h⟩), hl⟩
      · cases h
    · rintro (rfl | ⟨⟨k, hk, hl⟩, _⟩)
      · exact .inl (List.mem_append_left _ this)
      · rcases List.mem_cons.1 hk with rfl | hk
        · exact .inl (List.mem_append_left _ hl)
        · rcases List.mem_cons.1 hk with rfl | hk
          · exact .inl (List.mem_append_right _ hl)
          · cases hk
  have hlen : (o.neg :: (G.gates v).inp).length = 5 := by
    rw [← h5]
    refine (length_eq_of_mem_iff (nodup_hashInserts List.nodup_nil) (List.nodup_cons.2 ⟨fun hm => ?_, hG.nodup v⟩) fun l => ?_).symm
    · exact ((hG.inp v o ho _).1 hm).2 rfl
    · rw [hmem, List.mem_cons]
  intro l hl
  refine mem_of_nodup_length (A := (G.gates v).inp) (B := [⟨x, false⟩, ⟨x, true⟩, ⟨y, false⟩, ⟨y, true⟩]) (hG.nodup v) ?_ ?_ (x := l) ?_
  · rintro ⟨z, s⟩ hz
    have := (hv z).1 ⟨_, hz, rfl⟩
    rcases this with rfl | rfl <;> cases s <;> simp
  · simp only [List.length_cons, List.length_nil] at hlen ⊢
    omega
  · obtain ⟨z, s⟩ := l
    rcases hl with rfl | rfl <;> cases s <;> simp

theorem miterTests_iff (hG : ForMiter G cls) {L : List Nat} (hn : L.Nodup) (hL : ∀ v, v ∈ L ↔ AtBorder G cls v)
    {b : Bool} (hb : b = true ↔ TouchesNonMono G cls) : G.miterTests cls b L = true ↔ MiterLike G cls := by
  have hdef : ∀ v, AtBorder G cls v → ∃ o, (G.gates v).out = some o := by
    intro v hv
    cases hv.1 with
    | root _ _ hd _ => exact Option.ne_none_iff_exists'.1 hd
    | input _ _ hd _ => exact Option.ne_none_iff_exists'.1 hd
  have hfm : (L.map G.gates).flatMap Gate.inp = L.flatMap fun v => (G.gates v).inp := by
    rw [List.flatMap_map]
  have hflat : ∀ l, l ∈ L.flatMap (fun v => (G.gates v).inp) ↔ ∃ v, AtBorder G cls v ∧ l ∈ (G.gates v).inp := by
    intro l
    simp only [List.mem_flatMap, hL]
  have honce : (L.flatMap fun v => (G.gates v).inp).Nodup ↔
      ∀ u v, AtBorder G cls u → AtBorder G cls v → ∀ l ∈ (G.gates u).inp, l ∈ (G.gates v).inp → u = v := by
    rw [List.Nodup, List.pairwise_flatMap]
    constructor
    · rintro ⟨_, hp⟩ u v hu hv l hl hl'
      refine Classical.not_not.1 fun hne => ?_
      exact pairwise_sym (fun a b h x hx y hy e => h y hy x hx e.symm) hp ((hL u).2 hu) ((hL v).2 hv) hne l hl l hl' rfl
    · intro h
      refine ⟨fun v _ => hG.nodup v, ?_⟩
      refine hn.imp_of_mem fun {a b} ha hb hne x hx y hy e => ?_
      subst e
      exact hne (h a b ((hL a).1 ha) ((hL b).1 hb) x hx hy)
  have haig : aigXors (L.map G.gates) = true ↔
      (∀ u v, AtBorder G cls u → AtBorder G cls v → ∀ l ∈ (G.gates u).inp, l ∈ (G.gates v).inp → u = v) ∧
      ∀ v, AtBorder G cls v → ∀ l ∈ (G.gates v).inp, ∃ u, AtBorder G cls u ∧ l.neg ∈ (G.gates u).inp := by
    rw [aigXors_iff, hfm, honce]
    simp only [hflat]
    exact ⟨fun h => ⟨h.1, fun v hv l hl => h.2 l ⟨v, hv, hl⟩⟩, fun h => ⟨h.1, fun l ⟨v, hv, hl⟩ => h.2 v hv l hl⟩⟩
  have htwo : twoInputs (L.map G.gates) = true ↔
      ∀ v, AtBorder G cls v → ∃ x y, x ≠ y ∧ ∀ z, (∃ l ∈ (G.gates v).inp, l.var = z) ↔ z = x ∨ z = y := by
    rw [twoInputs_iff]
    simp only [List.mem_map, forall_exists_index, and_imp, forall_apply_eq_imp_iff₂, hL]
    rfl
  have hxor : twoInputs (L.map G.gates) = true → binaryXors cls (L.map G.gates) [] = true → aigXors (L.map G.gates) = true := by
    intro h2 hx
    rw [haig]
    rw [htwo] at h2
    obtain ⟨h3, h4⟩ := binaryXors_spec hx
    rw [List.pairwise_map] at h4
    refine ⟨fun u v hu hv l hl hl' => ?_, fun v hv l hl => ?_⟩
    · refine Classical.not_not.1 fun hne => ?_
      exact pairwise_sym (fun a b h z hz hz' => h z hz' hz) h4 ((hL u).2 hu) ((hL v).2 hv) hne l.var ⟨l, hl, rfl⟩ ⟨l, hl', rfl⟩
    · obtain ⟨o, ho⟩ := hdef v hv
      obtain ⟨x, y, hne, hxy⟩ := h2 v hv
      refine ⟨v, hv, xor_inputs hG ho hxy (h3 _ (List.mem_map.2 ⟨v, (hL v).2 hv, rfl⟩)).1 _ ?_⟩
      exact (hxy _).1 ⟨l, hl, rfl⟩
  have hempty : L.isEmpty = false ↔ ∃ v, AtBorder G cls v := by
    cases L with
    | nil => simp only [List.isEmpty_nil]; simp only [← hL]; simp
    | cons v L => simp only [List.isEmpty_cons, true_iff]; exact ⟨v, (hL v).1 List.mem_cons_self⟩
  unfold GateProblem.miterTests
  constructor
  · intro h
    split at h
    · cases h
    · rename_i hc
      simp only [Bool.or_eq_true, Bool.not_eq_true', not_or, Bool.not_eq_true, Bool.not_eq_false] at hc h
      have ha := h.elim id (hxor hc.2)
      rw [haig] at ha
      exact ⟨hempty.1 hc.1.1, hb.1 hc.1.2, htwo.1 hc.2, ha.1, ha.2⟩
  · intro h
    rw [if_neg, haig.2 ⟨h.once, h.both⟩, Bool.true_or]
    simp only [Bool.or_eq_true, Bool.not_eq_true', not_or, Bool.not_eq_true, Bool.not_eq_false]
    exact ⟨⟨hempty.2 h.border, hb.2 h.nonMono⟩, htwo.2 h.two⟩

theorem mem_borderGates (hG : ForMiter G cls) {T : List GateCall} {fuel : Nat}
    (hT : G.traverseDFS cls (fun v => (G.gates v).notMono) fuel = some T)
    (ho : ∀ v, InRegion G cls v → ∀ l ∈ (G.gates v).inp, (G.gates l.var).out ≠ none →
        (G.gates l.var).notMono = false → Before (.backtrack l.var) (.backtrack v) T) (v : Nat) :
    v ∈ G.borderGates T ↔ AtBorder G cls v := by
  obtain ⟨hn, hv⟩ := C39_visits fuel T hT
  have hdef : ∀ u, InRegion G cls u → (G.gates u).outVar = u ∧ (G.gates u).out ≠ none ∧ (G.gates u).notMono = false := by
    intro u hu
    have key : (G.gates u).out ≠ none ∧ (G.gates u).notMono = false := by
      cases hu with
      | root _ _ hd hp => exact ⟨hd, hp⟩
      | input _ _ hd hp => exact ⟨hd, hp⟩
    obtain ⟨o, e⟩ := Option.ne_none_iff_exists'.1 key.1
    refine ⟨?_, key⟩
    unfold Gate.outVar
    rw [e]
    exact hG.out u o e
  unfold GateProblem.borderGates
  rw [GateProblem.mem_border]
  constructor
  · rintro (h | ⟨pre, post, e, l, hl, -, h2⟩)
    · cases h
    · have hr := ((hv v).2.1).1 (by rw [e]; simp)
      refine ⟨hr, l, hl, ?_⟩
      refine Classical.not_not.1 fun hc => ?_
      rw [not_or, Bool.not_eq_true] at hc
      have hb := ho v hr l hl hc.1 hc.2
      have hrl : InRegion G cls l.var := .input hr hl hc.1 hc.2
      have := (((hv l.var).2.2.1 hrl).trans hb hn).mem_of_split hn e
      exact h2 _ this (hdef _ hrl).1
  · rintro ⟨hr, l, hl, hc⟩
    obtain ⟨pre, post, e⟩ := List.append_of_mem (((hv v).2.1).2 hr)
    refine .inr ⟨pre, post, e, l, hl, by simp, fun u hu e' => ?_⟩
    have hu' : InRegion G cls u := ((hv u).1).1 (by rw [e]; exact List.mem_append_left _ hu)
    obtain ⟨h1, h2, h3⟩ := hdef u hu'
    rw [h1] at e'
    subst e'
    rcases hc with hc | hc
    · exact h2 hc
    · rw [h3] at hc; cases hc

theorem seenNonMono_iff {T : List GateCall} {fuel : Nat}
    (hT : G.traverseDFS cls (fun v => (G.gates v).notMono) fuel = some T) :
    G.seenNonMono cls T = true ↔ TouchesNonMono G cls := by
  obtain ⟨hn, hv⟩ := C39_visits fuel T hT
  unfold GateProblem.seenNonMono TouchesNonMono
  have hd : ∀ l : Lit, (G.gates l.var).isDefined = true ↔ (G.gates l.var).out ≠ none := fun l => by
    unfold Gate.isDefined
    rw [Option.isSome_iff_ne_none]
  simp only [Bool.or_eq_true, List.any_eq_true, List.mem_flatMap, Bool.and_eq_true, hd]
  constructor
  · rintro (⟨l, ⟨i, hi, hl⟩, h1, h2⟩ | ⟨c, hc, h⟩)
    · exact ⟨l, h1, h2, .inl ⟨i, hi, hl⟩⟩
    · cases c with
      | collect v =>
        simp only [List.any_eq_true, Bool.and_eq_true, hd] at h
        obtain ⟨l, hl, h1, h2⟩ := h
        exact ⟨l, h1, h2, .inr ⟨v, (hv v).1.1 hc, hl⟩⟩
      | backtrack v => cases h
      | collectInput v => cases h
  · rintro ⟨l, h1, h2, ⟨i, hi, hl⟩ | ⟨u, hu, hl⟩⟩
    · exact .inl ⟨l, ⟨i, hi, hl⟩, h1, h2⟩
    · refine .inr ⟨_, (hv u).1.2 hu, ?_⟩
      simp only [List.any_eq_true, Bool.and_eq_true, hd]
      exact ⟨l, hl, h1, h2⟩

/-- **C68 (exact).** For the gates found by the analysis of any problem and every iteration order of the set of
border gates, the detector ends, and answers `true` exactly if the structure is like a miter. In particular the
order has no influence, and the second of its two tests for exclusive ors never changes the answer: a border of
binary exclusive ors without common variables passes the first test. -/
theorem C68_exact (f : CNF) (m : GateMethod) (hm : m.Sound) (fuel count : Nat) (R : Analyzer) :
    let p := Problem.empty.readClauses f
    let cls := fun i => p.problem.getD i []
    p.nVars < fuel → Analyzer.analyze m fuel count p = some R →
    ∃ n b, (b = true ↔ MiterLike R.gp cls) ∧
      ∀ perm : List Nat → List Nat, (∀ L, (perm L).Perm L) → ∀ k, R.gp.hasMiter cls perm (n + k) = some b := by
  dsimp only
  intro hf hR
  have hG := forMiter hm hf hR
  obtain ⟨n, T, hT, hord⟩ := C39_recognised f m hm fuel count R hf hR
    (fun i => (Problem.empty.readClauses f).problem.getD i []) (fun v => (R.gp.gates v).notMono)
  have hT0 : R.gp.traverseDFS (fun i => (Problem.empty.readClauses f).problem.getD i [])
      (fun v => (R.gp.gates v).notMono) n = some T := hT 0
  have key : ∀ L : List Nat, L.Perm (R.gp.borderGates T) → (R.gp.miterTests (fun i => (Problem.empty.readClauses f).problem.getD i [])
      (R.gp.seenNonMono (fun i => (Problem.empty.readClauses f).problem.getD i []) T) L = true ↔
      MiterLike R.gp (fun i => (Problem.empty.readClauses f).problem.getD i [])) := by
    intro L hL
    refine miterTests_iff hG (hL.nodup_iff.2 (GateProblem.nodup_border List.nodup_nil)) (fun v => ?_) (seenNonMono_iff hT0)
    rw [hL.mem_iff]
    exact mem_borderGates hG hT0 hord v
  refine ⟨n, R.gp.miterTests (fun i => (Problem.empty.readClauses f).problem.getD i [])
    (R.gp.seenNonMono (fun i => (Problem.empty.readClauses f).problem.getD i []) T) (R.gp.borderGates T),
    key _ (List.Perm.refl _), fun perm hp k => ?_⟩
  unfold GateProblem.hasMiter
  rw [hT k, Option.map_some, Option.some.injEq, Bool.eq_iff_iff, key _ (hp _), key _ (List.Perm.refl _)]

/-- **C68 (exclusive or).** For a gate found by the analysis that has two input variables, the test for binary
exclusive ors is right: if it succeeds, the forward clauses of the gate say that the output implies that the
variables differ, or that it implies that they are equal. -/
theorem C68_xor (f : CNF) (m : GateMethod) (hm : m.Sound) (fuel count : Nat) (R : Analyzer) :
    let p := Problem.empty.readClauses f
    let cls := fun i => p.problem.getD i []
    p.nVars < fuel → Analyzer.analyze m fuel count p = some R →
    ∀ v o x y, (R.gp.gates v).out = some o → (∀ z, (∃ l ∈ (R.gp.gates v).inp, l.var = z) ↔ z = x ∨ z = y) →
      isBinaryXor cls (R.gp.gates v) = true →
      ∃ differ : Bool, ∀ a : Assign, Sat a (clausesAt p (R.gp.gates v).fwd) ↔ (o.holds a → (a x != a y) = differ) := by
  dsimp only
  intro hf hR v o x y ho hxy hx
  have hG := forMiter hm hf hR
  have hall := xor_inputs hG ho hxy hx
  unfold isBinaryXor at hx
  split at hx
  case h_2 => cases hx
  rename_i i j hfwd
  simp only [Bool.and_eq_true, beq_iff_eq] at hx
  obtain ⟨⟨hi3, hj3⟩, _⟩ := hx
  unfold clausesAt
  rw [hfwd]
  have hi : i ∈ (R.gp.gates v).fwd := by rw [hfwd]; simp
  have hj : j ∈ (R.gp.gates v).fwd := by rw [hfwd]; simp
  have hni := hG.vars v o ho i hi
  have hnj := hG.vars v o ho j hj
  have hoi := hG.clause v o ho i hi
  have hoj := hG.clause v o ho j hj
  have hin : ∀ l, l ∈ (R.gp.gates v).inp ↔ (l ∈ (Problem.empty.readClauses f).problem.getD i [] ∨
      l ∈ (Problem.empty.readClauses f).problem.getD j []) ∧ l ≠ o.neg := by
    intro l
    rw [hG.inp v o ho, hfwd]
    simp
  simp only [List.map_cons, List.map_nil, Sat, List.mem_cons, List.not_mem_nil, or_false, forall_eq_or_imp, forall_eq]
  generalize (Problem.empty.readClauses f).problem.getD i [] = c at *
  generalize (Problem.empty.readClauses f).problem.getD j [] = d at *
  have hc : ∀ l ∈ c, l = o.neg ∨ l.var = x ∨ l.var = y := fun l hl => by
    by_cases e : l = o.neg
    · exact .inl e
    · exact .inr ((hxy _).1 ⟨l, (hin l).2 ⟨.inl hl, e⟩, rfl⟩)
  have hd : ∀ l ∈ d, l = o.neg ∨ l.var = x ∨ l.var = y := fun l hl => by
    by_cases e : l = o.neg
    · exact .inl e
    · exact .inr ((hxy _).1 ⟨l, (hin l).2 ⟨.inr hl, e⟩, rfl⟩)
  have hex : ∀ z, z = x ∨ z = y → ∃ l ∈ c, l.var = z := by
    intro z hz
    refine List.mem_map.1 (mem_of_nodup_length (A := c.map Lit.var) (B := [o.var, x, y]) hni ?_ ?_ ?_)
    · intro w hw
      obtain ⟨l, hl, rfl⟩ := List.mem_map.1 hw
      rcases hc l hl with rfl | h | h
      · simp [Lit.neg]
      · simp [h]
      · simp [h]
    · rw [List.length_map, hi3]; exact Nat.le_refl _
    · rcases hz with rfl | rfl <;> simp
  obtain ⟨lx, hlx, ex⟩ := hex x (.inl rfl)
  obtain ⟨ly, hly, ey⟩ := hex y (.inr rfl)
  have hneg : ∀ l ∈ c, (l.var = x ∨ l.var = y) → l.neg ∈ d := by
    intro l hl hv
    have := ((hin l.neg).1 (hall l.neg hv)).1
    exact this.resolve_left fun h => BlockList.not_both hni hl h
  have hsc : ∀ a, SatClause a c ↔ o.neg.holds a ∨ lx.holds a ∨ ly.holds a := by
    intro a
    constructor
    · rintro ⟨l, hl, h⟩
      rcases hc l hl with rfl | hv | hv
      · exact .inl h
      · exact .inr (.inl (BlockList.eq_of_var_eq hni hl hlx (hv.trans ex.symm) ▸ h))
      · exact .inr (.inr (BlockList.eq_of_var_eq hni hl hly (hv.trans ey.symm) ▸ h))
    · rintro (h | h | h)
      · exact ⟨_, hoi, h⟩
      · exact ⟨_, hlx, h⟩
      · exact ⟨_, hly, h⟩
  have hsd : ∀ a, SatClause a d ↔ o.neg.holds a ∨ lx.neg.holds a ∨ ly.neg.holds a := by
    intro a
    constructor
    · rintro ⟨l, hl, h⟩
      rcases hd l hl with rfl | hv | hv
      · exact .inl h
      · exact .inr (.inl (BlockList.eq_of_var_eq hnj hl (hneg lx hlx (.inl ex)) (hv.trans ex.symm) ▸ h))
      · exact .inr (.inr (BlockList.eq_of_var_eq hnj hl (hneg ly hly (.inr ey)) (hv.trans ey.symm) ▸ h))
    · rintro (h | h | h)
      · exact ⟨_, hoj, h⟩
      · exact ⟨_, hneg lx hlx (.inl ex), h⟩
      · exact ⟨_, hneg ly hly (.inr ey), h⟩
  refine ⟨lx.sign == ly.sign, fun a => ?_⟩
  rw [hsc, hsd]
  obtain ⟨_, sx⟩ := lx
  obtain ⟨_, sy⟩ := ly
  subst ex ey
  simp only [Lit.holds, Lit.neg]
  cases a o.var <;> cases o.sign <;> cases a _ <;> cases a _ <;> cases sx <;> cases sy <;> simp_all

/-- **Finding.** By itself the test for binary exclusive ors accepts gates that are none: an analysed gate with
four input variables passes it, a conjunction of two disjunctions. The detector never calls it for such gates. -/
theorem C68_xor_fails : ∃ (f : CNF) (R : Analyzer),
    let p := Problem.empty.readClauses f
    Analyzer.analyze exPatterns (p.nVars + 1) 1 p = some R ∧
      isBinaryXor (fun i => p.problem.getD i []) (R.gp.gates 0) = true ∧
      (R.gp.gates 0).out = some (pos 0) ∧ (R.gp.gates 0).inp = [pos 1, pos 2, pos 3, pos 4] := by
  let f : CNF := [[pos 0], [neg 0, pos 1, pos 2], [neg 0, pos 3, pos 4]]
  obtain ⟨R, hR⟩ := C51_terminates f exPatterns exPatterns_sound 1
  have key : (Analyzer.analyze exPatterns ((Problem.empty.readClauses f).nVars + 1) 1
      (Problem.empty.readClauses f)).map (fun R => (isBinaryXor (fun i => (Problem.empty.readClauses f).problem.getD i []) (R.gp.gates 0),
        (R.gp.gates 0).out, (R.gp.gates 0).inp)) = some (true, some (pos 0), [pos 1, pos 2, pos 3, pos 4]) := by
    decide +kernel
  rw [hR] at key
  simp only [Option.map_some, Option.some.injEq, Prod.mk.injEq] at key
  exact ⟨f, R, hR, key⟩

/-! ### Examples -/

/-- The outputs 1 and 2 of two conjunctions of 3 and 4 are compared by an exclusive or 0, which is the root. -/
def exMiter : CNF :=
  [[pos 0], [neg 0, pos 1, pos 2], [neg 0, neg 1, neg 2], [pos 0, neg 1, pos 2], [pos 0, pos 1, neg 2],
   [neg 1, pos 3], [neg 1, pos 4], [pos 1, neg 3, neg 4], [neg 2, pos 3], [neg 2, pos 4], [pos 2, neg 3, neg 4]]

/-- The answer of the detector after an analysis with patterns. -/
def detect (f : CNF) (perm : List Nat → List Nat) (fuel : Nat) : Option Bool :=
  (Analyzer.analyze exPatterns ((Problem.empty.readClauses f).nVars + 1) 1 (Problem.empty.readClauses f)).bind fun R =>
    R.gp.hasMiter (fun i => (Problem.empty.readClauses f).problem.getD i []) perm fuel

/-- The miter is recognised. -/
example : detect exMiter id 20 = some true := by decide +kernel

/-- The hypotheses of `C68_exact` and `C68_xor` are met by the miter. -/
example : ∃ R, let p := Problem.empty.readClauses exMiter
    let cls := fun i => p.problem.getD i []
    Analyzer.analyze exPatterns (p.nVars + 1) 1 p = some R ∧ MiterLike R.gp cls ∧ (R.gp.gates 0).out = some (pos 0) ∧
      (∀ z, (∃ l ∈ (R.gp.gates 0).inp, l.var = z) ↔ z = 1 ∨ z = 2) ∧ isBinaryXor cls (R.gp.gates 0) = true := by
  obtain ⟨R, hR⟩ := C51_terminates exMiter exPatterns exPatterns_sound 1
  obtain ⟨n, b, hb, h⟩ := C68_exact exMiter exPatterns exPatterns_sound _ 1 R (Nat.lt_succ_self _) hR
  have hd : detect exMiter id 20 = some true := by decide +kernel
  have key : (Analyzer.analyze exPatterns ((Problem.empty.readClauses exMiter).nVars + 1) 1
      (Problem.empty.readClauses exMiter)).map (fun R => ((R.gp.gates 0).out, (R.gp.gates 0).inp,
        isBinaryXor (fun i => (Problem.empty.readClauses exMiter).problem.getD i []) (R.gp.gates 0))) =
      some (some (pos 0), [pos 1, neg 1, pos 2, neg 2], true) := by decide +kernel
  rw [hR] at key
  simp only [Option.map_some, Option.some.injEq, Prod.mk.injEq] at key
  obtain ⟨k1, k2, k3⟩ := key
  refine ⟨R, hR, hb.1 ?_, k1, fun z => ?_, k3⟩
  · unfold detect at hd
    rw [hR, Option.bind_some] at hd
    have h1 := GateProblem.hasMiter_more n hd
    rw [Nat.add_comm, h id (fun L => List.Perm.refl _) 20] at h1
    exact Option.some.inj h1
  · rw [k2]; simp [pos, neg]; omega

/-- Two comparisons with a common output, 1, are no miter for the detector. -/
def exShared : CNF :=
  [[pos 0], [pos 5], [neg 0, pos 1, pos 2], [neg 0, neg 1, neg 2], [pos 0, neg 1, pos 2], [pos 0, pos 1, neg 2],
   [neg 5, pos 1, pos 6], [neg 5, neg 1, neg 6], [pos 5, neg 1, pos 6], [pos 5, pos 1, neg 6],
   [neg 1, pos 3], [neg 1, pos 4], [pos 1, neg 3, neg 4], [neg 2, pos 3], [neg 2, pos 4], [pos 2, neg 3, neg 4],
   [neg 6, pos 3], [neg 6, pos 4], [pos 6, neg 3, neg 4]]

example : detect exShared id 40 = some false := by decide +kernel

/-- Two conjunctions of opposite literals are accepted, the other form of an exclusive or. -/
example : detect [[pos 0], [neg 0, pos 5, pos 6], [pos 0, neg 5], [pos 0, neg 6],
   [neg 5, pos 1], [neg 5, neg 2], [pos 5, neg 1, pos 2], [neg 6, neg 1], [neg 6, pos 2], [pos 6, pos 1, neg 2],
   [neg 1, pos 3], [neg 1, pos 4], [pos 1, neg 3, neg 4], [neg 2, pos 3], [neg 2, pos 4], [pos 2, neg 3, neg 4]]
   List.reverse 40 = some true := by decide +kernel

/-- A conjunction is no miter. -/
example : detect [[pos 0], [neg 0, pos 1], [neg 0, pos 2], [pos 0, neg 1, neg 2]] id 20 = some false := by decide +kernel

end Candy
