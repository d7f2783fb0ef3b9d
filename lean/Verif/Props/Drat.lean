import Verif.Proofs.DratText
import Verif.Proofs.Examples

/-!
# C28: the proof checker

`checkProof memory fuel nv F file` is the outcome of `DRATChecker(F).check_proof(file)` for a problem
with `nv` variables; `memory` and `fuel` are the initial content of the read buffer and a bound on the
iterations of the reading loops. `proofLines` are the lines that are read from the file.
-/

namespace Candy

/-- The 16-bit length field of clause objects can hold the number of literals. -/
def Short (c : Clause) : Prop := c.length < 65536

/-- **C28.** If the checker reports that a proof is verified then the problem is unsatisfiable, for
every proof file: additions with or without a resolution pivot, deletions, comments, repeated
literals, tautologies and lines that are not consequences. Proved for problems and proofs whose
clauses have fewer than 65536 literals; without this restriction the claim is false, see
`C28_full_statement_fails`. -/
theorem C28_sound_partial (memory : List Char) (fuel nv : Nat) (F : CNF) (file : List Char)
    (hvars : ∀ c ∈ F, ∀ l ∈ c, l.var < nv) (hF : ∀ c ∈ F, Short c)
    (hfile : ∀ ds, proofLines memory fuel file = .ok ds → ∀ d ∈ ds, Short d.lits)
    (hok : checkProof memory fuel nv F file = .ok true) : ¬ Satisfiable F := by
  unfold checkProof at hok
  dsimp only at hok
  have hinv : Checker.CkInv F (Checker.new nv F) := Checker.new_inv hF hvars
  split at hok
  · rename_i he
    intro hs
    rw [(hinv.sem hs).1] at he
    exact absurd he (by simp)
  · obtain ⟨b, h1, h2⟩ := Out.bind_ok hok
    obtain ⟨b', h3, h4⟩ := Out.bind_ok h2
    obtain ⟨ds, h5, h6⟩ := checkLoop_lines _ _ _ _ _ h4
    refine Checker.runLines_sound ds _ hinv (hfile ds ?_) h6
    unfold proofLines
    rw [h1]
    simp only [Out.bind, h3, h5]

/-- A proof with an addition that needs a pivot (line 1: `3` is a fresh definition), a deletion and
the empty clause is verified for an unsatisfiable problem. -/
example :
    let F := cnf [[1, 2], [1, -2], [-1, 2], [-1, -2]]
    let file := "c proof\n3 -1 0\n1 0\nd 1 2 0\n0\n".toList
    checkProof (List.replicate 64 '7') 100 3 F file = .ok true ∧
    proofLines (List.replicate 64 '7') 100 file =
      .ok [.add (cnf [[3, -1]]).head!, .add [lit 1], .del [lit 1, lit 2], .add []] := by
  decide +kernel

/-- The same proof is rejected for a satisfiable problem. -/
example :
    let F := cnf [[1, 2], [1, -2], [-1, 2]]
    let file := "c proof\n3 -1 0\n1 0\nd 1 2 0\n0\n".toList
    checkProof (List.replicate 64 '7') 100 3 F file = .ok false := by
  decide +kernel

/-- **C28 (definedness).** When the file can be read and mentions only variables of the problem, the
checker terminates with an answer and never accesses memory outside its arrays. -/
theorem C28_defined (memory : List Char) (fuel nv : Nat) (F : CNF) (file : List Char) (ds : List DLine)
    (hvars : ∀ c ∈ F, ∀ l ∈ c, l.var < nv) (hF : ∀ c ∈ F, Short c)
    (hfile : proofLines memory fuel file = .ok ds)
    (hds : ∀ d ∈ ds, Short d.lits ∧ ∀ l ∈ d.lits, l.var < nv) :
    ∃ answer, checkProof memory fuel nv F file = .ok answer := by
  unfold checkProof
  dsimp only
  split
  · exact ⟨true, rfl⟩
  · unfold proofLines at hfile
    obtain ⟨b, h1, h2⟩ := Out.bind_ok hfile
    obtain ⟨b', h3, h4⟩ := Out.bind_ok h2
    rw [h1]
    simp only [Out.bind, h3]
    rw [checkLoop_readLines _ _ _ _ _ _ h4]
    obtain ⟨v, hv⟩ := Checker.runLines_defined ds _ (Checker.new_inv hF hvars)
      (by rw [Checker.new_nVars]; exact hds)
    exact ⟨v, by rw [runOut, hv]⟩

/-- A literal of the proof that is not a variable of the problem is used as an index: undefined
behaviour, although such lines are allowed in proofs (definitions of new variables). -/
theorem C28_new_variable :
    checkProof (List.replicate 64 '7') 100 2 (cnf [[1, 2], [1, -2], [-1, 2], [-1, -2]])
      "3 -1 0\n1 0\n0\n".toList = .ub := by decide +kernel

/-- **C28 (certificates).** The lines written by the solver are the lines the checker reads, for every
buffer that can hold the lines and variables below `2^30`. -/
theorem C28_certificate_lines (N : Nat) (hN : 0 < N) (memory : List Char) (hm : memory.length = N)
    (log : List ProofLine) (hv : ∀ d ∈ log, ∀ l ∈ d.read.lits, l.var < 2 ^ 30)
    (hfit : LinesFit N (certificateText log)) (fuel : Nat) (hfuel : (certificateText log).length < fuel) :
    proofLines memory fuel (certificateText log) = .ok (log.map ProofLine.read) :=
  proofLines_text hN hm hv hfit hfuel

example : proofLines (List.replicate 16 '7') 100
    (certificateText [.add [lit 1, lit (-12)], .del [lit (-3), lit 4], .empty]) =
      .ok [.add [lit 1, lit (-12)], .del [lit (-3), lit 4], .add []] := by decide +kernel

/-! ## Where the full statement fails -/

/-- A tautological line of 65536 literals. -/
def longTautology : Clause := lit 1 :: lit (-1) :: List.replicate 65534 (lit 1)

theorem longTautology_line (r : Clause) (hr : r.length = 65534) :
    ∃ ck, (Checker.new 2 (cnf [[1, 2]])).line (.add (lit 1 :: lit (-1) :: r)) = some (ck, true) ∧
      ck.db.hasEmpty = true := by
  have h0 : (Checker.new 2 (cnf [[1, 2]])).db.hasEmpty = false := by decide +kernel
  have hn : (Checker.new 2 (cnf [[1, 2]])).db.nVars = 2 := by decide +kernel
  have hv : (Checker.new 2 (cnf [[1, 2]])).T.value (lit 1).neg = none := by decide +kernel
  generalize Checker.new 2 (cnf [[1, 2]]) = ck at h0 hn hv
  have ha : ∃ T, Checker.asymAssume ck.db.nVars none (lit 1 :: lit (-1) :: r) ck.T = some (T, true) := by
    rw [hn]
    unfold Checker.asymAssume
    rw [if_neg (by simp), if_neg (by decide), if_neg (by simp [Trail.falsifies, hv]),
      if_neg (by simp [Trail.satisfies, hv])]
    unfold Checker.asymAssume
    rw [if_neg (by simp), if_neg (by decide), if_pos]
    · exact ⟨_, rfl⟩
    · simp [Trail.falsifies, Trail.decide, Trail.value, Trail.setValue, lit, Lit.neg]
  obtain ⟨T, ha⟩ := ha
  have hc : ck.checkAsymm (lit 1 :: lit (-1) :: r) none = some ({ ck with T := T }, true) := by
    unfold Checker.checkAsymm
    rw [h0, if_neg (by simp), ha]
  have hs : seen16 (lit 1 :: lit (-1) :: r) = [] := by
    simp [seen16, hr]
  unfold Checker.line Checker.addClause
  simp only [hc, if_true]
  unfold Checker.storeClause
  simp only [hs, List.any_nil, Bool.false_eq_true, if_false]
  exact ⟨_, rfl, by simp [createClause_hasEmpty]⟩

/-- **C28 is violated.** Lines with 65536 literals get a stored length of 0: a tautology, which every
checker has to accept, becomes the empty clause. With the 1 MiB buffer of the code and any initial
content of the buffer, a file with this single line is reported as verified for a satisfiable
problem. -/
theorem C28_full_statement_fails :
    ∃ (F : CNF) (nv : Nat) (file : List Char), (∀ c ∈ F, ∀ l ∈ c, l.var < nv) ∧ Satisfiable F ∧
      ∀ (memory : List Char) (fuel : Nat), memory.length = 1048576 → file.length < fuel →
        checkProof memory fuel nv F file = .ok true := by
  have hlen : ∀ n, (List.flatMap (fun l => litText l ++ [' ']) (List.replicate n (lit 1))).length = 2 * n := by
    intro n
    induction n with
    | zero => rfl
    | succ n ih =>
      rw [List.replicate_succ, List.flatMap_cons, List.length_append, ih]
      have : (litText (lit 1) ++ [' ']).length = 2 := by decide
      omega
  have htl : (certificateText [.add longTautology]).length < 1048576 := by
    have e : certificateText [.add longTautology] = (litText (lit 1) ++ [' ']) ++ (litText (lit (-1)) ++ [' ']) ++
        (List.flatMap (fun l => litText l ++ [' ']) (List.replicate 65534 (lit 1)) ++ ['0', '\n']) := by
      unfold certificateText longTautology ProofLine.text clauseLine
      simp only [List.flatMap_cons, List.flatMap_nil, List.append_nil, List.append_assoc]
    have hl := hlen 65534
    rw [e]
    generalize List.flatMap (fun l => litText l ++ [' ']) (List.replicate 65534 (lit 1)) = z at hl
    generalize hx : litText (lit 1) ++ [' '] = x
    generalize hy : litText (lit (-1)) ++ [' '] = y
    rw [List.length_append, List.length_append, List.length_append, ← hx, ← hy]
    have h1 : (litText (lit 1) ++ [' ']).length = 2 := by decide
    have h2 : (litText (lit (-1)) ++ [' ']).length = 3 := by decide
    have h3 : (['0', '\n'] : List Char).length = 2 := rfl
    omega
  have hsmall : LogSmall [.add longTautology] := by
    intro d hd l hl
    rw [List.mem_singleton] at hd
    subst hd
    have : l = lit 1 ∨ l = lit (-1) := by
      simp only [ProofLine.read, DLine.lits, longTautology, List.mem_cons, List.mem_replicate] at hl
      rcases hl with h | h | ⟨_, h⟩
      · exact Or.inl h
      · exact Or.inr h
      · exact Or.inl h
    rcases this with rfl | rfl <;> decide
  refine ⟨cnf [[1, 2]], 2, certificateText [.add longTautology], by decide, ⟨fun _ => true, ?_⟩, ?_⟩
  · intro c hc
    exact ⟨lit 1, by revert c; decide, rfl⟩
  intro memory fuel hm hf
  have hfit : LinesFit 1048576 (certificateText [.add longTautology]) := fun i hi => by omega
  rw [checkProof_text (by decide) hm hsmall hfit hf]
  rw [if_neg (by decide +kernel)]
  obtain ⟨ck, h1, h2⟩ := longTautology_line (List.replicate 65534 (lit 1)) (by rw [List.length_replicate])
  have h1 : (Checker.new 2 (cnf [[1, 2]])).line (ProofLine.read (.add longTautology)) = some (ck, true) := h1
  simp only [List.map_cons, List.map_nil, runOut, Checker.runLines, h1, h2]

/-- The converse of C28 does not hold either: the empty clause follows from two contradictory unit
clauses by propagation alone, but the constructor ignores the contradiction and the proof is
rejected. -/
theorem C28_contradictory_units_rejected :
    checkProof (List.replicate 64 '7') 100 1 (cnf [[1], [-1]]) "0\n".toList = .ok false ∧
    ¬ Satisfiable (cnf [[1], [-1]]) := by
  refine ⟨by decide +kernel, ?_⟩
  rintro ⟨a, ha⟩
  obtain ⟨l, h1, h2⟩ := ha [lit 1] (by decide)
  obtain ⟨l', h3, h4⟩ := ha [lit (-1)] (by decide)
  simp at h1 h3; subst h1; subst h3
  rw [show lit (-1) = (lit 1).neg from rfl, Lit.holds_neg] at h4
  exact h4 h2

end Candy
