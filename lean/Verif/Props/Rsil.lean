import Verif.Model.Clear
import Verif.Proofs.RsilRun
import Verif.Props.Branching
import Verif.Props.Partition

/-!
# Implicit learning (C59)

The branching heuristics `RSIL` take conjectures about equivalent literals and about constant literals (backbones),
found by random simulation, and branch so that a conjecture is contradicted: if it is true, a conflict follows at once
and its proof is learnt. `Rsil.Reach conj r`: the heuristic is in state `r` after it was initialised with `conj`, and
then asked for branching literals and initialised again any number of times, in any order.

That the literals picked are unassigned decision variables, that nothing is accessed out of bounds during search, and
that answers do not depend on the conjectures is C35 (`C35_pick`, `C35_iteration_defined`, `C35_answers`).
-/

namespace Candy

open Rsil

/-- All literals of the class have the same value. -/
def AllEqual (a : Assign) (c : List Lit) : Prop := ∀ x ∈ c, ∀ y ∈ c, (x.holds a ↔ y.holds a)

/-- Together with `q`, the literal `p` contradicts a class: if all literals of the class are equal and `q` is true,
then `p` is false. -/
def ContradictsClass (classes : List (List Lit)) (q p : Lit) : Prop :=
  ∃ c ∈ classes, (∃ x ∈ c, x.var = q.var) ∧ (∃ y ∈ c, y.var = p.var) ∧ ∀ a, AllEqual a c → q.holds a → ¬ p.holds a

theorem eq_neg_of {k q : Lit} (h : k.var = q.var) (hs : ¬ k.sign = q.sign) : k = q.neg := by
  obtain ⟨v, s⟩ := k
  obtain ⟨w, t⟩ := q
  simp only [Lit.neg, Lit.mk.injEq] at *
  refine ⟨h, ?_⟩
  cases s <;> cases t <;> simp_all

theorem holds_neg {a : Assign} {l : Lit} : l.neg.holds a ↔ ¬ l.holds a := by
  simp only [Lit.holds, Lit.neg]
  cases a l.var <;> cases l.sign <;> simp

/-- C59. A picked literal contradicts a conjecture, or it is the literal of the embedded heuristic. Contradicting an
equivalence: together with a literal `q` of the last decision level (which begins at position `k`) it contradicts a
class. Contradicting a backbone: the negation of the picked literal is
conjectured to be always true. -/
theorem C59_advice {c : Conj} {r : Rsil} (h : Reach (some c) r) {b b' : Branch} (hr : b.rsil = some r) {T : Trail}
    {ord : Orders} {p : Lit} (he : b.pick ord T = some (b', some p)) :
    (∃ k, T.lim.getLast? = some k ∧ ∃ q ∈ T.stack.drop k, ContradictsClass c.equivalences q p) ∨
    (∃ b1 p', b.pickHeap ord T = some (b1, some p') ∧ (p = p' ∨ p.var = p'.var ∧ p.neg ∈ c.backbones)) := by
  have hok := h.ok
  unfold Branch.pick at he
  rw [hr] at he
  dsimp only at he
  rw [if_pos (by rw [hok.done]; rfl)] at he
  unfold Branch.pickRsil at he
  split at he
  · cases he
  · next r1 p1 hf =>
    cases he
    left
    unfold pickFirst at hf
    split at hf
    · unfold getAdvice at hf
      split at hf
      · cases hf
      · next k hk =>
        refine ⟨k, hk, ?_⟩
        have hd := hok.same (same_draw r)
        generalize r.draw.1 = r0 at hf hd
        generalize T.stack.drop k = cs at hf
        induction cs with
        | nil => cases hf
        | cons q cs ih =>
          have hrec : scan T T.lim.length cs r0 = some (r1, some p) →
              ∃ q' ∈ q :: cs, ContradictsClass c.equivalences q' p := fun h => by
            obtain ⟨q', hq', h'⟩ := ih h
            exact ⟨q', List.mem_cons_of_mem q hq', h'⟩
          unfold scan at hf
          split at hf
          · exact hrec hf
          · split at hf
            · exact hrec hf
            · next hbb =>
              split at hf
              · cases hf
              · exact hrec hf
              · next l i ht =>
                cases hf
                have hl : l ∈ (r0.entry q.var).lits := by
                  generalize List.range _ = as at ht
                  induction as with
                  | nil => cases ht
                  | cons a as iha =>
                    unfold tryAdvice at ht
                    split at ht
                    · cases ht
                    · next l' hl' =>
                      split at ht
                      · cases ht
                      · split at ht
                        · cases ht; exact List.mem_of_getElem? hl'
                        · exact iha ht
                obtain ⟨cls, hcls, _, key, hkey, e, he, hkv, hne, rfl⟩ :=
                  (hd.of c rfl).eq q.var (by simpa using hbb) l hl
                refine ⟨q, List.mem_cons_self, cls, hcls, ⟨key, hkey, hkv⟩, ⟨e, he, ?_⟩, ?_⟩
                · split <;> split <;> rfl
                · intro a ha hq
                  have heq := ha key hkey e he
                  by_cases hs : key.sign = q.sign
                  · have : key = q := by
                      cases key; cases q; simp_all
                    subst this
                    have he' := heq.1 hq
                    cases hks : key.sign
                    · simp only [Bool.false_eq_true, if_false]
                      rw [holds_neg]; exact fun h => h he'
                    · simp only [if_true]
                      rw [holds_neg]; exact fun h => h he'
                  · have hkq : key = q.neg := eq_neg_of hkv hs
                    have hk : ¬ key.holds a := by rw [hkq, holds_neg]; exact fun h => h hq
                    have he' : ¬ e.holds a := fun h => hk (heq.2 h)
                    cases hks : key.sign <;> cases hqs : q.sign <;>
                      simp only [hks, hqs, Bool.false_eq_true, not_true_eq_false, if_false, if_true, Lit.neg_neg] at hs ⊢ <;>
                      exact he'
    · cases hf
  · next r1 hf =>
    right
    split at he
    · cases he
    · cases he
    · next b1 p' hp =>
      cases he
      refine ⟨b1, p', hp, ?_⟩
      have hd := (hok.same (pickFirst_same hf)).same (same_draw r1)
      unfold pickSign
      split
      · rcases signAdvice_spec r1.draw.1 p' with e | ⟨l, h1, h2, _, _, _, e⟩ <;> rw [e]
        · exact .inl rfl
        · obtain ⟨g1, g2⟩ := (hd.of c rfl).bb p'.var h2 l h1
          right
          simp only [Lit.neg_neg, Lit.var_neg]
          exact ⟨g1, g2⟩
      · exact .inl rfl

/-- C59. If no conjectures were found, the heuristic is the embedded one. -/
theorem C59_no_conjectures {r : Rsil} (h : Reach none r) {b : Branch} (hr : b.rsil = some r) (ord : Orders) (T : Trail) :
    b.pick ord T = b.pickHeap ord T := by
  unfold Branch.pick
  rw [hr]
  dsimp only
  rw [if_neg (by rw [h.ok.done]; simp)]

/-- C59. During search, the states of the heuristic that gives advice are reachable in this sense. -/
theorem C59_reachable {F : CNF} {as : List Lit} {s : Solver} {u : Usage} {kind : Branch.Kind} {b : Branch} (hu : u.Valid)
    (h : SearchingB kind u F as s b) {r : Rsil} (hr : b.rsil = some r) (hd : r.done = true) : ∃ c, Reach (some c) r := by
  rcases (h.ok hu).2.rsil r hr with ⟨opt, rfl⟩ | ⟨conj, h, _⟩
  · cases hd
  · cases conj with
    | none => rw [h.ok.done] at hd; cases hd
    | some c => exact ⟨c, h⟩

/-! ### Initialisation -/

theorem group_nodup (id : BitVec 64) : ∀ (es : List (PartitionEntry × PartitionEntry)),
    (∀ e ∈ es, e.1.groupId ≠ e.2.groupId ∧ e.1.varId = e.2.varId) → (es.map (·.1.varId)).Nodup →
    ((Partition.group es id).map (·.varId)).Nodup := by
  intro es
  induction es with
  | nil => intro _ _; simp [Partition.group, Partition.entries]
  | cons e es ih =>
    intro h hd
    simp only [List.map_cons, List.nodup_cons] at hd
    have hi := ih (fun x hx => h x (List.mem_cons_of_mem _ hx)) hd.2
    obtain ⟨h1, h2⟩ := h e List.mem_cons_self
    have hsub : ∀ x ∈ Partition.group es id, x.varId ≠ e.1.varId := by
      intro x hx hv
      simp only [Partition.group, Partition.entries, List.mem_filter, List.mem_flatMap, List.mem_cons, List.not_mem_nil,
        or_false] at hx
      obtain ⟨⟨y, hy, hxy⟩, _⟩ := hx
      apply hd.1
      rw [← hv]
      rcases hxy with rfl | rfl
      · exact List.mem_map_of_mem (f := fun e : PartitionEntry × PartitionEntry => e.1.varId) hy
      · rw [← (h y (List.mem_cons_of_mem _ hy)).2]
        exact List.mem_map_of_mem (f := fun e : PartitionEntry × PartitionEntry => e.1.varId) hy
    have hg : Partition.group (e :: es) id = ([e.1, e.2].filter fun x => x.groupId == id) ++ Partition.group es id := by
      simp only [Partition.group, Partition.entries, List.flatMap_cons, List.filter_append]
    rw [hg, List.map_append, List.nodup_append]
    refine ⟨?_, hi, ?_⟩
    · by_cases c1 : e.1.groupId = id
      · have c2 : ¬ e.2.groupId = id := fun h => h1 (c1.trans h.symm)
        simp [c1, c2]
      · by_cases c2 : e.2.groupId = id <;> simp [c1, c2]
    · intro a ha b hb hab
      obtain ⟨x, hx, rfl⟩ := List.mem_map.1 ha
      obtain ⟨y, hy, rfl⟩ := List.mem_map.1 hb
      have hxv : x.varId = e.1.varId := by
        have := (List.mem_filter.1 hx).1
        simp only [List.mem_cons, List.not_mem_nil, or_false] at this
        rcases this with rfl | rfl
        · rfl
        · exact h2.symm
      exact hsub y hy (by rw [← hxv]; exact hab.symm)

open Partition in
/-- C59, C41. The conjectures found by random simulation are disjoint: no variable occurs in two classes, twice in a
class, twice as a backbone, or in a class and as a backbone. Hypotheses: no hash collisions. -/
theorem C59_conjectures_disjoint {variables : List Nat} (hlt : ∀ v ∈ variables, v < 2 ^ 28) (hnd : variables.Nodup)
    (sched : Nat → Bool) {As : List SimVectors} (hAs : As ≠ [])
    (ha : ∀ n, 0 < n → n ≤ As.length → ∀ v ∈ variables, hist (As.take n) v true ≠ hist (As.take n) v false)
    (hn : NoCollision variables As) {P : Partition} (hr : (new variables).run sched As = some P) {nv : Nat}
    (hv : ∀ v ∈ variables, v < nv) : Rsil.Disjoint nv ⟨P.equivalences, P.backbones⟩ := by
  obtain ⟨P', kept, h1, h2, h3⟩ := run_total hlt (sched := sched) As [] (kept := variables) (.inl ⟨rfl, rfl, rfl⟩) hnd
    (fun n h0 h1 => by rw [List.nil_append]; exact ha n h0 h1)
  rw [hr] at h1
  cases h1
  rw [List.nil_append] at h2
  have h : Partition.PInv variables As P kept := by
    rcases h2 with ⟨h, _⟩ | ⟨_, _, h⟩
    · exact absurd h hAs
    · exact h
  have hE := h.entries
  have hself : ∀ e ∈ P.pos.zip P.neg, e.1.groupId ≠ e.2.groupId ∧ e.1.varId = e.2.varId := by
    intro e he
    obtain ⟨v, hv, g1, g2⟩ := hE.mem e he
    have e1 : e.1.groupId = hist As v true := by rw [g1]; rfl
    have e2 : e.2.groupId = hist As v false := congrArg PartitionEntry.groupId g2
    refine ⟨fun heq => ?_, ?_⟩
    · exact not_same_neg hAs v (hn ⟨v, true⟩ ⟨v, false⟩ (h.sub v hv) (h.sub v hv) (by rw [← e1, ← e2, heq]))
    · rw [g1]; exact (congrArg PartitionEntry.varId g2 : e.2.varId = v).symm
  have hvars : ((P.pos.zip P.neg).map (·.1.varId)).Nodup := by
    have : (P.pos.zip P.neg).map (·.1.varId) = kept := by
      have := congrArg (List.map (·.varId)) hE.pos
      rw [List.map_map, List.map_map] at this
      rw [show ((fun x : PartitionEntry × PartitionEntry => x.1.varId)) = (fun x => x.varId) ∘ (fun x => x.1) from rfl, this]
      exact (List.map_congr_left (fun v _ => rfl)).trans (List.map_id kept)
    rw [this]; exact h3
  -- classes
  obtain ⟨hused, -, -⟩ := conjLoop_spec (noBoth hAs hn hE h.sub) (groupOrder (P.pos.zip P.neg) []) [] (fun _ => false)
    (fun v => by simp [SeenIn])
  have hclass : ∀ c ∈ P.equivalences, (c.map Lit.var).Nodup ∧ ∀ l ∈ c, l.var ∈ variables ∧ constant As l.var = false := by
    intro c hc
    obtain ⟨a, id, b, hord, hu, hcc⟩ := hused c hc
    refine ⟨?_, fun l hl => ?_⟩
    · have hg := group_nodup id _ hself hvars
      unfold toConjecture at hcc
      dsimp only at hcc
      split at hcc
      · rw [List.mem_singleton.1 hcc, List.map_map]
        exact ((List.filter_sublist (p := _)).map PartitionEntry.varId).nodup hg
      · cases hcc
    · obtain ⟨k1, k2, _, _⟩ := (mem_conj hE hcc).1 l hl
      refine ⟨h.sub _ k1, ?_⟩
      obtain ⟨e, he, hpol⟩ := hu.2.1
      obtain ⟨w, hw, s, hws, hid⟩ := mem_group hE he
      have e1 : s = true := hws.eqs.2.2.1.symm.trans hpol
      subst e1
      have hcw : constant As w = false := by
        have := hu.2.2 e he
        rw [hws.eqs.2.2.2, Bool.true_and] at this
        exact this
      have hsame : SameInAll As ⟨w, true⟩ l := hn ⟨w, true⟩ l (h.sub w hw) (h.sub _ k1) (hid.trans k2.symm)
      refine changing_same (p := ⟨w, true⟩) ⟨fun ht => ?_, fun ht => ?_⟩ hsame
      · have := firstVal_of_true hAs ht
        have h' := (constant_iff As w).2 (by rw [this]; exact ht)
        rw [hcw] at h'; cases h'
      · have := firstVal_of_true (v := w) (b := false) hAs ht
        have h' := (constant_iff As w).2 (by rw [this]; exact ht)
        rw [hcw] at h'; cases h'
  have hdis := C41_disjoint hlt sched hAs hr hn
  have hbb := C41_backbones hlt sched hAs hr
  refine ⟨?_, fun l hl => ?_⟩
  · show ((P.equivalences.flatten ++ P.backbones).map Lit.var).Nodup
    rw [List.map_append, List.nodup_append]
    refine ⟨?_, ?_, ?_⟩
    · rw [List.map_flatten]
      unfold List.Nodup
      rw [List.pairwise_flatten]
      refine ⟨fun l hl => ?_, ?_⟩
      · obtain ⟨c, hc, rfl⟩ := List.mem_map.1 hl
        exact (hclass c hc).1
      · rw [List.pairwise_map]
        refine hdis.imp fun {c d} hcd x hx y hy hxy => ?_
        obtain ⟨p, hp, rfl⟩ := List.mem_map.1 hx
        obtain ⟨q, hq, rfl⟩ := List.mem_map.1 hy
        exact hcd p hp q hq hxy
    · unfold Partition.backbones
      rw [List.map_map, h.pos]
      have : (kept.map (posEntry As)).map PartitionEntry.varId = kept := by
        rw [List.map_map]
        exact (List.map_congr_left (fun v _ => rfl)).trans (List.map_id kept)
      refine ((List.filter_sublist (p := _)).map PartitionEntry.varId).nodup ?_
      rw [this]; exact h3
    · intro x hx y hy hxy
      obtain ⟨p, hp, rfl⟩ := List.mem_map.1 hx
      obtain ⟨q, hq, rfl⟩ := List.mem_map.1 hy
      obtain ⟨c, hc, hpc⟩ := List.mem_flatten.1 hp
      have hcp := ((hclass c hc).2 p hpc).2
      have ht := ((hbb q).1 hq).2
      have := firstVal_of_true (v := q.var) (b := q.sign) hAs ht
      have h' := (constant_iff As q.var).2 (by rw [this]; exact ht)
      rw [← hxy, hcp] at h'; cases h'
  · rcases List.mem_append.1 hl with hl | hl
    · obtain ⟨c, hc, hpc⟩ := List.mem_flatten.1 hl
      exact hv _ ((hclass c hc).2 l hpc).1
    · exact hv _ ((hbb l).1 hl).1

/-- C59. With disjoint conjectures about variables of the formula, initialisation writes nothing out of bounds: the
entries have room for all literals stored in them. -/
theorem C59_init_defined {opt : RsilOpt} (hm : 2 ≤ opt.maxSize) {conj : Option Conj} {nv : Nat}
    (hc : ∀ c, conj = some c → Rsil.Disjoint nv c) : ∃ r, (Rsil.new opt).init conj nv = some r :=
  Rsil.init_defined hm hc

/-- The hypothesis is needed: if a variable is in a class of three literals and a backbone, the third literal is
written behind the end of an array for two. -/
theorem C59_overlap_overflows : (Rsil.new ⟨.unrestricted, 3, 1, 1⟩).init (some ⟨[[pos 0, pos 1, pos 2]], [pos 0]⟩) 3 = none :=
  rfl

/-! ### Budgets and half-life -/

/-- C59. A call that gives advice uses exactly one position; a call that gives none uses none. (A call is either for a
literal, or for the sign of a literal.) -/
theorem C59_calls {conj : Option Conj} {r r' : Rsil} (h : Reach conj r) {T : Trail} (hT : r.size ≤ T.nVars) {o : Option Lit}
    (he : r.pickFirst T = some (r', o)) : ∃ u, Call r u r' ∧ u.isSome = o.isSome :=
  pickFirst_call (fun v l hl => Nat.lt_of_lt_of_le (h.ok.bound v l hl) hT) he

/-- C59. In the variant with budgets, between two initialisations every implication, and every backbone, is used at
most as often as the budget allows. -/
theorem C59_budget {r r0 r' : Rsil} {c : Option Conj} {nv n : Nat} {us : List (Nat × Nat)}
    (hm : r.opt.mode = .budgeted) (hi : r.init c nv = some r0) (h : Calls r0 n us r') {v i : Nat} (hv : v < r0.size)
    (hl : i < (r0.entry v).lits.length) : (us.count (v, i) : Int) ≤ max 0 r.opt.budget.toInt := by
  obtain ⟨h1, h2⟩ := h.budget (by rw [(init_random hi).1]; exact hm) v i
  rw [init_budget hm hi hv hl] at h1
  by_cases hz : us.count (v, i) = 0
  · rw [hz]; omega
  · have := h2 hz; omega

/-- C59. In the vanishing variant with half-life `H`, after `n` calls advice is only given if the lowest `n / H` bits
of a random number are all zero. (The documentation counts decisions instead of calls, see `C59_half_life_fails`.) -/
theorem C59_half_life_partial {opt : RsilOpt} (hm : opt.mode = .vanishing) (hH : 0 < opt.halfLife.toNat) {c : Option Conj}
    {nv n : Nat} {us : List (Nat × Nat)} {r0 r : Rsil} (hi : (Rsil.new opt).init c nv = some r0) (h : Calls r0 n us r) :
    (r.draw.2 = true ↔ ∀ i < min 64 (n / opt.halfLife.toNat), (fastNextRand r.rng).getLsbD i = false) := by
  obtain ⟨i1, i2, i3, i4⟩ := init_random hi
  have i1 : r0.opt = opt := i1
  have hm' : r0.opt.mode = .vanishing := by rw [i1]; exact hm
  obtain ⟨h1, -⟩ := h.mask hm' (by rw [i1]; exact hH) i3 (by rw [i2, i1]; rfl)
  rw [i1] at h1
  have hmode : r.opt.mode = .vanishing := by rw [h.opt]; exact hm'
  simp only [draw, hmode, if_true, beq_iff_eq, h1]
  constructor
  · intro he i hi
    have := congrArg (fun x : BitVec 64 => x.getLsbD i) he
    simp only [BitVec.getLsbD_and, BitVec.getLsbD_ofNat, Nat.testBit_two_pow_sub_one] at this
    have g1 : i < 64 := by omega
    have g2 : i < n / opt.halfLife.toNat := by omega
    simpa [g1, g2] using this
  · intro hall
    apply BitVec.eq_of_getLsbD_eq
    intro i hi
    simp only [BitVec.getLsbD_and, BitVec.getLsbD_ofNat, Nat.testBit_two_pow_sub_one]
    by_cases g : i < n / opt.halfLife.toNat
    · rw [hall i (by omega)]; simp
    · simp [g]

/-- C59. The random numbers never get stuck at 0. -/
theorem C59_random {opt : RsilOpt} {c : Option Conj} {nv n : Nat} {us : List (Nat × Nat)} {r0 r : Rsil}
    (hi : (Rsil.new opt).init c nv = some r0) (h : Calls r0 n us r) : r.rng ≠ 0 :=
  h.rng (by rw [(init_random hi).2.2.2]; show (0xFFFF : BitVec 64) ≠ 0; decide)

/-! ### Examples -/

/-- Variables 0 and 2 are conjectured equivalent, 1 is conjectured true. -/
def exConj : Conj := ⟨[[pos 0, pos 2]], [pos 1]⟩

def exRsilKind (m : RsilMode) : Branch.Kind := ⟨true, false, some ⟨m, 3, 2, 1⟩, none⟩

/-- A formula in which 0 and 2 are equivalent and 1 is true. -/
def exEq : CNF := cnf [[-1, 3], [1, -3], [2, 1], [2, -1]]

def exRsilSys : Sys := (Sys.new true).init 3 exEq true

def exRsilBranch (m : RsilMode) : Branch :=
  ((Branch.new (exRsilKind m)).init (fun _ _ => false) (fun _ => true) (some exConj) 3 exRsilSys.sol.trail).getD
    (Branch.new (exRsilKind m))

theorem exRsil_hist (m : RsilMode) : HistoryB (exRsilKind m) .plain exEq [] exRsilSys (exRsilBranch m) := by
  have h := (HistoryB.new (kind := exRsilKind m) (u := .plain) true).add 3 exEq true rfl
    (wfCNF_of (by decide)) (fun _ _ => false) (fun _ => true) (some exConj) (b' := exRsilBranch m) (by cases m <;> rfl)
  simpa [exRsilSys] using h

/-- The state of implicit learning after initialisation. -/
def exRsil (m : RsilMode) : Rsil := ((Rsil.new ⟨m, 3, 2, 1⟩).init (some exConj) 3).getD (Rsil.new ⟨m, 3, 2, 1⟩)

theorem exRsil_eq (m : RsilMode) : (Rsil.new ⟨m, 3, 2, 1⟩).init (some exConj) 3 = some (exRsil m) := by cases m <;> rfl

/-- C59_init_defined, C59_conjectures_disjoint -/
example : Rsil.Disjoint 3 exConj := ⟨by decide, by decide⟩

example : Rsil.Disjoint 5 ⟨[[⟨0, true⟩, ⟨4, true⟩, ⟨1, false⟩]], [⟨2, false⟩]⟩ := ⟨by decide, by decide⟩

theorem exReach (m : RsilMode) : Reach (some exConj) (exRsil m) := .init _ _ _ (exRsil_eq m)

/-- Trail on which variable 0 was decided to be true. -/
def exDecided : Trail := ((Trail.empty 0).init 3).newDecisionLevel.decide (pos 0)

/-- C59_advice, C59_calls: after deciding variable 0 true, variable 2 is decided false. -/
theorem exAdvice : ((exRsil .unrestricted).pickFirst exDecided).map (·.2) = some (some (neg 2)) := by decide +kernel

/-- C59_budget: with budget 1 the second time no advice is given. -/
example : (((exRsil .budgeted).pickFirst exDecided).bind fun x => (x.1.pickFirst exDecided).map fun y => (x.2, y.2)) =
    some (some (neg 2), none) := by decide +kernel

/-- C59_advice: the sign of variable 1 is advised against the backbone. -/
example : ((exRsil .unrestricted).pickSign (pos 1)).2 = neg 1 := by decide +kernel

/-- C59_half_life_partial, C59_random -/
example : Calls (exRsil .vanishing) 1 [] (exRsil .vanishing).draw.1 :=
  .snoc (u := none) .nil (.noAdvice ((Trail.empty 0).init 3) rfl)

/-- C35_answers with implicit learning. -/
example : ((solveB (exRsilKind .unrestricted) plainCfg [] [exRoundB] exRsilSys (exRsilBranch .unrestricted)).map
    fun x => (x.2.1.status, (List.range 3).map x.2.1.model)) =
      some (some true, [some false, some true, some false]) := by decide +kernel

/-! ### Findings -/

/-- Finding: the half-life is documented to count decisions, but it counts calls, and a decision needs two calls if the
first gives no advice. Here the half-life is two decisions, and the probability is halved after one. -/
theorem C59_half_life_fails : ∃ b : Branch, HistoryB (exRsilKind .vanishing) .plain exEq [] exRsilSys b ∧
    ∃ b' p r, b.pick exOrd exRsilSys.sol.trail = some (b', some p) ∧ b'.rsil = some r ∧ r.opt.halfLife = 2 ∧ r.mask = 1 := by
  refine ⟨_, exRsil_hist .vanishing, ?_⟩
  have : ((exRsilBranch .vanishing).pick exOrd exRsilSys.sol.trail).map (fun x => (x.2.isSome, x.1.rsil.map fun r =>
      (r.opt.halfLife, r.mask))) = some (true, some (2, 1)) := by decide +kernel
  obtain ⟨⟨b', o⟩, h1, h2⟩ := Option.map_eq_some_iff.1 this
  simp only [Prod.mk.injEq] at h2
  obtain ⟨h2, h3⟩ := h2
  obtain ⟨p, rfl⟩ := Option.isSome_iff_exists.1 h2
  obtain ⟨r, h4, h5⟩ := Option.map_eq_some_iff.1 h3
  simp only [Prod.mk.injEq] at h5
  exact ⟨b', p, r, h1, h4, h5.1, h5.2⟩

/-- Finding: `clear` does not clear the advice. After `clear` and a smaller formula, the search reads the trail out of
bounds; a new solver finds a model. -/
theorem C59_clear_fails : ∃ (sys : Sys) (b b' : Branch), HistoryB (exRsilKind .unrestricted) .plain exEq [] sys b ∧
    b.clear.init (fun _ _ => false) (fun _ => true) none 1 (sys.clear.init 1 [] true).sol.trail = some b' ∧
    solveB (exRsilKind .unrestricted) plainCfg [] [exRoundB] (sys.clear.init 1 [] true) b' = none ∧
    ∃ b'', (Branch.new (exRsilKind .unrestricted)).init (fun _ _ => false) (fun _ => true) none 1
        ((Sys.new true).init 1 [] true).sol.trail = some b'' ∧
      ((solveB (exRsilKind .unrestricted) plainCfg [] [exRoundB] ((Sys.new true).init 1 [] true) b'').map
        fun x => x.2.1.status) = some (some true) := by
  refine ⟨_, _, _, exRsil_hist .unrestricted, rfl, ?_, _, rfl, ?_⟩
  · have : (solveB (exRsilKind .unrestricted) plainCfg [] [exRoundB] (exRsilSys.clear.init 1 [] true)
      (((exRsilBranch .unrestricted).clear.init (fun _ _ => false) (fun _ => true) none 1
        (exRsilSys.clear.init 1 [] true).sol.trail).getD (Branch.new (exRsilKind .unrestricted)))).isNone = true := by
      decide +kernel
    exact Option.isNone_iff_eq_none.1 this
  · decide +kernel

end Candy
