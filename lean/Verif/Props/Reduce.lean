import Verif.Proofs.History
import Verif.Proofs.SatSide
import Verif.Proofs.Examples

/-!
# Properties of clause database reduction (C18)

`InSolve u F as sys` ranges over the states in which `Solver::solve` may call `ReduceDB::reduce`:
after any history of calls and any number of rounds of search.
-/

namespace Candy

variable {u : Usage} {F : CNF} {as : List Lit} {sys : Sys}

theorem removeFold_store : ∀ (cs : List Nat) (db : DB) (c : Nat), c ∈ cs →
    (cs.foldl DB.removeClause db).store c = ⟨db.lits c, Cls.deletedWeight⟩
  | [], _, _, h => by simp at h
  | d :: cs, db, c, h => by
    rw [List.foldl_cons]
    by_cases hc : c ∈ cs
    · rw [removeFold_store cs _ c hc, removeClause_lits]
    · have : c = d := by simpa [hc] using h
      subst this
      rw [(removeFold_keep cs _ c hc).1, (removeClause_all db c).1, show upd _ c _ c = _ from if_pos rfl]

theorem removeFold_rest : ∀ (cs : List Nat) (db : DB),
    (cs.foldl DB.removeClause db).nVars = db.nVars ∧
    (cs.foldl DB.removeClause db).hasEmpty = db.hasEmpty ∧
    (cs.foldl DB.removeClause db).next = db.next
  | [], _ => ⟨rfl, rfl, rfl⟩
  | d :: cs, db => by
    rw [List.foldl_cons]
    obtain ⟨a, b, c⟩ := removeFold_rest cs (db.removeClause d)
    exact ⟨a.trans (removeClause_nVars ..), b.trans (removeClause_hasEmpty ..),
      c.trans (removeClause_next ..)⟩

theorem reduceVictims_sublist (km : Bool) (db : DB) (xs : List Nat) :
    (reduceVictims km db xs).Sublist (xs.drop (xs.length / 2)) := by
  unfold reduceVictims
  split
  · dsimp only
    split
    · split
      · simp
      · rename_i h; exact List.dropWhile_sublist _
    · exact List.Sublist.refl _
  · simp

/-- C18. Reducing the clause database in any reachable state of `solve`, with the persistence
bound at least 2 (the default is 3) and any result `sort` that is a permutation ordered by weight:

* the removed clauses are clauses of the database, longer than two literals, whose weight exceeds
  the persistence bound and that were not marked deleted before; they are marked deleted and keep
  their literals;
* they are at most half of the candidates (rounded up), and no kept candidate has a larger weight
  than a removed one; a single candidate is not removed;
* every other clause is unchanged, and so is the list of clauses; in particular every clause of
  weight 0 survives. -/
theorem C18_reduction (hu : u.Valid) (h : InSolve u F as sys) (cfg : Config)
    (hcfg : 2 ≤ cfg.persistentLBD) (sort : List Nat → List Nat) (hperm : ∀ xs, (sort xs).Perm xs)
    (hsort : ∀ xs, (sort xs).Pairwise fun c d =>
      (sys.sol.db.store c).weight ≤ (sys.sol.db.store d).weight) :
    let old := sys.sol.db
    let new := reduceDB cfg sort old
    let candidates := old.clauses.filter fun c =>
      decide (cfg.persistentLBD < (old.store c).weight ∧ (old.store c).weight ≠ 65535)
    ∃ removed : List Nat, removed.Nodup ∧ removed.length ≤ (candidates.length + 1) / 2 ∧
      (candidates.length ≤ 1 → removed = []) ∧
      (∀ c ∈ removed, c ∈ candidates ∧ 2 < (old.store c).lits.length ∧
        new.store c = ⟨(old.store c).lits, 65535⟩) ∧
      (∀ c ∈ candidates, c ∉ removed → ∀ d ∈ removed,
        (old.store c).weight ≤ (old.store d).weight) ∧
      (∀ c, c ∉ removed → new.store c = old.store c) ∧
      (∀ c, (old.store c).weight = 0 → new.store c = old.store c) ∧
      new.clauses = old.clauses ∧ new.nVars = old.nVars ∧ new.hasEmpty = old.hasEmpty := by
  have hok := (h.ok hu).inv.db
  intro old new candidates
  have hcand : reduceCandidates cfg.persistentLBD old = candidates := by
    simp only [candidates, reduceCandidates, Cls.isDeleted, Cls.deletedWeight]
    congr 1
    funext c
    rw [Bool.eq_iff_iff]
    simp
  have hS := hperm candidates
  generalize hs : sort candidates = S at hS
  have hSs := hsort candidates
  rw [hs] at hSs
  have hnd : S.Nodup := hS.nodup_iff.2 (hok.nodup.sublist List.filter_sublist)
  let R := reduceVictims cfg.keepMedian old S
  have hsub : R.Sublist (S.drop (S.length / 2)) := reduceVictims_sublist ..
  have hnew : new = R.foldl DB.removeClause old := by
    simp only [new, reduceDB, R]; rw [hcand, hs]
  have hRc : ∀ c ∈ R, c ∈ candidates := fun c hc => hS.mem_iff.1 (mem_reduceVictims hc)
  have hkeep : ∀ c, c ∉ R → new.store c = old.store c := fun c hc => by
    rw [hnew]; exact (removeFold_keep R old c hc).1
  refine ⟨R, (hnd.sublist (List.drop_sublist _ _)).sublist hsub, ?_, ?_, ?_, ?_, hkeep, ?_, ?_, ?_, ?_⟩
  · have := hsub.length_le
    rw [List.length_drop, hS.length_eq] at this
    omega
  · intro h1
    simp only [R, reduceVictims]
    rw [if_neg (show ¬ 1 < S.length by rw [hS.length_eq]; omega)]
  · intro c hc
    have hcc := hRc c hc
    refine ⟨hcc, ?_, by rw [hnew]; exact removeFold_store R old c hc⟩
    obtain ⟨h1, h2⟩ := List.mem_filter.1 hcc
    simp only [decide_eq_true_eq] at h2
    refine Nat.lt_of_not_le fun hl => ?_
    have := hok.short c (hok.mem c h1) (by simp only [old] at hl; omega)
    simp only [Cls.deletedWeight] at this
    simp only [old] at h2
    omega
  · intro c hc hcR d hd
    have hcS : c ∈ S := hS.mem_iff.2 hc
    -- `R` is a suffix of `S`
    have hsuf : ∃ pre, S = pre ++ R := by
      simp only [R, reduceVictims]
      split
      · split
        · split
          · rename_i he; exact ⟨S, by simp⟩
          · rename_i m t he
            refine ⟨S.take (S.length / 2) ++ (S.drop (S.length / 2)).takeWhile
              (fun c => (old.store c).weight == (old.store m).weight), ?_⟩
            rw [List.append_assoc, List.takeWhile_append_dropWhile, List.take_append_drop]
        · exact ⟨S.take (S.length / 2), by simp⟩
      · exact ⟨S, by simp⟩
    obtain ⟨pre, hpre⟩ := hsuf
    rw [hpre, List.pairwise_append] at hSs
    rw [hpre, List.mem_append] at hcS
    exact hSs.2.2 c (hcS.resolve_right hcR) d hd
  · intro c hc
    apply hkeep
    intro hm
    have := (List.mem_filter.1 (hRc c hm)).2
    simp [hc] at this
  · exact reduceDB_clauses cfg sort old
  · rw [hnew]; exact (removeFold_rest R old).1
  · rw [hnew]; exact (removeFold_rest R old).2.1

/-- Insertion sort by weight, one possible result of `std::sort`. -/
def exIns (w : Nat → Nat) (c : Nat) : List Nat → List Nat
  | [] => [c]
  | d :: ds => if w c ≤ w d then c :: d :: ds else d :: exIns w c ds

def exSort (w : Nat → Nat) : List Nat → List Nat
  | [] => []
  | c :: cs => exIns w c (exSort w cs)

theorem exIns_perm (w : Nat → Nat) (c : Nat) : ∀ ds, (exIns w c ds).Perm (c :: ds)
  | [] => .refl _
  | d :: ds => by
    rw [exIns]
    split
    · exact .refl _
    · exact ((exIns_perm w c ds).cons d).trans (.swap ..)

theorem exSort_perm (w : Nat → Nat) : ∀ xs, (exSort w xs).Perm xs
  | [] => .refl _
  | c :: cs => (exIns_perm w c _).trans ((exSort_perm w cs).cons c)

theorem exIns_sorted (w : Nat → Nat) (c : Nat) : ∀ ds, ds.Pairwise (fun a b => w a ≤ w b) →
    (exIns w c ds).Pairwise fun a b => w a ≤ w b
  | [], _ => by simp [exIns]
  | d :: ds, h => by
    rw [exIns]
    have h' := List.pairwise_cons.1 h
    split
    · rename_i hc
      refine List.pairwise_cons.2 ⟨fun x hx => ?_, h⟩
      rcases List.mem_cons.1 hx with rfl | hx
      · exact hc
      · exact Nat.le_trans hc (h'.1 x hx)
    · rename_i hc
      refine List.pairwise_cons.2 ⟨fun x hx => ?_, exIns_sorted w c ds h'.2⟩
      rcases List.mem_cons.1 ((exIns_perm w c ds).mem_iff.1 hx) with rfl | hx
      · omega
      · exact h'.1 x hx

theorem exSort_sorted (w : Nat → Nat) : ∀ xs, (exSort w xs).Pairwise fun a b => w a ≤ w b
  | [] => by simp [exSort]
  | c :: cs => exIns_sorted w c _ (exSort_sorted w cs)

/-- A history that adds learnt-like clauses (`init` with `lemma = false` stores the length as
weight): four clauses over five variables with weights 4, 5, 4, 4 and one of weight 2. -/
def exReduceG : CNF :=
  cnf [[1,2,3,4],[1,-2,3,-4,5],[-1,2,-3,5],[2,3,4,5],[1,-5]]
def exReduce : Sys := solveStart ((Sys.new true).init 5 exReduceG false)

theorem exReduce_in : InSolve .any exReduceG [] exReduce :=
  .enter (sys := (Sys.new true).init 5 exReduceG false)
    (History.add (History.new true) 5 exReduceG false trivial (wfCNF_of (by decide)))
    { preprocessing := false } [] trivial rfl

/-- The hypotheses of `C18_reduction` are met by this state with `exSort`. -/
example := C18_reduction Usage.any_valid exReduce_in {} (by decide)
  (exSort fun c => (exReduce.sol.db.store c).weight) (exSort_perm _) (exSort_sorted _)

/-- Two of the four candidates are removed, among them the clause of weight 5. -/
example : let db := exReduce.sol.db
    (reduceDB { keepMedian := false } (fun xs => exSort (fun c => (db.store c).weight) xs) db).clauses.map
      (fun c => ((reduceDB { keepMedian := false }
        (fun xs => exSort (fun c => (db.store c).weight) xs) db).store c).weight) =
    [4, 65535, 4, 65535, 0] := by decide

end Candy
