import Verif.Proofs.Hash
import Verif.Proofs.Examples

/-!
# C45: the benchmark hashes

`Rfc1321.md5` (SpecMd5) is the digest of RFC 1321 of a whole message. `numbersText` writes numbers in
decimal with single blanks between them, `clauseNumbers` lists the numbers of the literals of each
clause followed by zero (both in Proofs/Hash).
-/

namespace Candy

open Problem

/-- **C45 (streaming).** However a message is cut into non-empty pieces, processing the pieces one
after the other and finishing yields the MD5 digest of the message. -/
theorem C45_md5 (chunks : List (List Byte)) (h : ∀ c ∈ chunks, c ≠ []) :
    Md5.finish (chunks.foldl Md5.process Md5.State.init) = some (Rfc1321.md5 chunks.flatten) := by
  have : ∀ (cs : List (List Byte)) (m : List Byte) (st : Md5.State), (∀ c ∈ cs, c ≠ []) → Md5.Holds m st →
      Md5.Holds (m ++ cs.flatten) (cs.foldl Md5.process st) := by
    intro cs
    induction cs with
    | nil => intro m st _ h; simpa using h
    | cons c cs ih =>
      intro m st hc h
      rw [List.foldl_cons, List.flatten_cons, ← List.append_assoc]
      exact ih _ _ (fun d hd => hc d (by simp [hd])) (Md5.process_holds h (hc c (by simp)))
  exact Md5.finish_holds (this chunks [] _ h Md5.holds_init)

/-- The hypothesis is met by a message of several pieces that fill more than one block. -/
example : ∀ c ∈ [List.replicate 40 (7 : Byte), List.replicate 30 1, [3]], c ≠ [] := by decide

/-- **C45 (finding).** Processing an empty piece discards the bytes stored so far: the digest is not
that of the message. -/
theorem C45_finding_empty_piece :
    let a := Rfc1321.ascii "a".toList
    Md5.finish ([a, []].foldl Md5.process Md5.State.init) ≠ some (Rfc1321.md5 a) := by
  decide +kernel

/-- **C45 (gbd hash).** The hash is the MD5 digest, in hexadecimal, of the numbers of the literals of
each clause followed by zero, in the order of the problem. It depends on nothing else. -/
theorem C45_gbd (p : Problem) :
    p.gbdHash = some (Rfc1321.hex (Rfc1321.md5 (Rfc1321.ascii (numbersText (clauseNumbers p.problem))))) := by
  have h := gbdLoop_holds p.problem [] [] Md5.State.init Md5.holds_init
  have e : (if p.problem = [] then [] else [] ++ numbersText (clauseNumbers p.problem)) =
      numbersText (clauseNumbers p.problem) := by
    split
    · next h => rw [h]; rfl
    · rfl
  rw [e, List.nil_append] at h
  unfold gbdHash
  rw [Md5.finish_holds h]
  rfl

/-- The documented example of the format: two clauses, the text that is hashed. -/
example : numbersText (clauseNumbers (Problem.empty.readClauses [[lit 1, lit (-2)], [lit 2]]).problem) =
    "0 3 0 2 0".toList := by decide +kernel

/-- **C45 (gbd hash, nothing is lost).** For problems read clause by clause without empty clauses, the
hashed text determines the clauses: different problems have the same hash only if MD5 collides. -/
theorem C45_gbd_injective (f g : CNF) (hf : [] ∉ f) (hg : [] ∉ g)
    (h : (Problem.empty.readClauses f).problem ≠ (Problem.empty.readClauses g).problem) :
    ∃ s t : List Byte, s ≠ t ∧
      (Problem.empty.readClauses f).gbdHash = some (Rfc1321.hex (Rfc1321.md5 s)) ∧
      (Problem.empty.readClauses g).gbdHash = some (Rfc1321.hex (Rfc1321.md5 t)) := by
  have wf : ∀ f : CNF, [] ∉ f → ∀ c ∈ (Problem.empty.readClauses f).problem,
      c ≠ [] ∧ c.Pairwise fun a b => a.ltb b = true := by
    intro f hf c hc
    refine ⟨?_, (C03_normal f c hc).1⟩
    rintro rfl
    obtain ⟨k, hk, hm⟩ := C03_clauses f
    rw [hk] at hc
    obtain ⟨d, hd, e⟩ := List.mem_map.1 hc
    have hd' := (List.mem_filter.1 hd).1
    cases d with
    | nil => exact hf hd'
    | cons l d =>
      have := (hm (l :: d) l).2 (by simp)
      rw [e] at this
      exact absurd this (by simp)
  refine ⟨_, _, ?_, C45_gbd _, C45_gbd _⟩
  intro e
  apply h
  apply clauseNumbers_inj (wf f hf) (wf g hg)
  apply numbersText_inj
  have digits : ∀ ns : List Nat, ∀ x ∈ numbersText ns, x.toNat < 256 := by
    intro ns
    induction ns with
    | nil => intro x hx; simp [numbersText, List.intercalate] at hx
    | cons n ns ih =>
      have hd : ∀ x ∈ decimal n, x.toNat < 256 := by
        intro x hx
        have := decimal_digit hx
        simp only [isDigitC, Bool.and_eq_true, decide_eq_true_eq] at this
        have : x.val.toNat ≤ 57 := this.2
        show x.val.toNat < 256
        omega
      cases ns with
      | nil => rw [numbersText_single]; exact hd
      | cons m ns =>
        rw [numbersText_cons]
        intro x hx
        rcases List.mem_append.1 hx with hx | hx
        · exact hd x hx
        · rcases List.mem_cons.1 hx with rfl | hx
          · decide
          · exact ih x hx
  have : ∀ a b : List Char, (∀ x ∈ a, x.toNat < 256) → (∀ x ∈ b, x.toNat < 256) →
      Rfc1321.ascii a = Rfc1321.ascii b → a = b := by
    intro a
    induction a with
    | nil => intro b _ _ h; cases b with
      | nil => rfl
      | cons _ _ => simp [Rfc1321.ascii] at h
    | cons x a ih => intro b ha hb h; cases b with
      | nil => simp [Rfc1321.ascii] at h
      | cons y b =>
        simp only [Rfc1321.ascii, List.map_cons, List.cons.injEq] at h
        have h1 := congrArg BitVec.toNat h.1
        simp only [BitVec.toNat_ofNat] at h1
        rw [Nat.mod_eq_of_lt (ha x (by simp)), Nat.mod_eq_of_lt (hb y (by simp))] at h1
        have hxy : x = y := Char.ext (UInt32.toNat_inj.1 h1)
        rw [hxy, ih b (fun z hz => ha z (by simp [hz])) (fun z hz => hb z (by simp [hz])) h.2]
  exact this _ _ (digits _) (digits _) e

/-- The hypotheses are met by two problems with the same clauses in a different order. -/
example : [] ∉ [[lit 1, lit 2], [lit 3]] ∧ [] ∉ [[lit 3], [lit 1, lit 2]] ∧
    (Problem.empty.readClauses [[lit 1, lit 2], [lit 3]]).problem ≠
      (Problem.empty.readClauses [[lit 3], [lit 1, lit 2]]).problem := by decide

/-- **C45 (finding).** With an empty clause, two different problems, one of them contradictory and the
other satisfiable, have the same hash: the number of the first positive literal is zero. -/
theorem C45_finding_gbd_empty_clause :
    let p := Problem.empty.readClauses [[], [lit 2]]
    let q := Problem.empty.readClauses [[lit 1, lit 2]]
    p.gbdHash = q.gbdHash ∧ ¬ Satisfiable p.problem ∧ Satisfiable q.problem := by
  refine ⟨by rw [C45_gbd, C45_gbd]; rfl, ?_, ?_⟩
  · rintro ⟨a, ha⟩
    obtain ⟨l, hl, _⟩ := ha [] (by decide)
    simp at hl
  · refine ⟨fun _ => true, ?_⟩
    intro c hc
    have : c = [lit 1, lit 2] := by simpa using (show c ∈ [[lit 1, lit 2]] from hc)
    subst this
    exact ⟨lit 1, by simp, rfl⟩

/-- **C45 (finding).** The hash is not that of the clauses in DIMACS numbering: it uses the internal
numbers of the literals. -/
theorem C45_finding_gbd_not_dimacs :
    (Problem.empty.readClauses [[lit 1]]).gbdHash ≠
      some (Rfc1321.hex (Rfc1321.md5 (Rfc1321.ascii "1 0".toList))) := by
  rw [C45_gbd]
  decide +kernel

/-- **C45 (degree hash).** The hash is defined when all variables are below the number of variables,
and is the MD5 digest of the positive entries of the sorted degree vector. -/
theorem C45_degree (p : Problem) (hv : ∀ c ∈ p.problem, ∀ l ∈ c, l.var < p.variables) :
    ∃ ds : List (BitVec 32), p.degreeVector = some ds ∧ ds.Pairwise (· ≤ ·) ∧
      p.degreeHash = some (Rfc1321.hex (Rfc1321.md5 (Rfc1321.ascii
        (numbersText ((ds.filter (0 < ·)).map (·.toNat)))))) := by
  unfold degreeHash degreeVector
  rw [if_pos hv]
  simp only
  generalize hds : (allLits p.variables).map _ = ds
  refine ⟨sortDegrees ds, rfl, sortDegrees_sorted ds, ?_⟩
  have h := degreeLoop_holds (sortDegrees ds) [] [] Md5.State.init Md5.holds_init
  have e : (if (sortDegrees ds).filter (0 < ·) = [] then []
      else [] ++ numbersText (((sortDegrees ds).filter (0 < ·)).map (·.toNat))) =
      numbersText (((sortDegrees ds).filter (0 < ·)).map (·.toNat)) := by
    split
    · next h => rw [h]; rfl
    · rfl
  rw [e, List.nil_append] at h
  rw [Option.bind_some, Md5.finish_holds h]
  rfl

/-- **C45 (degree hash, meaning).** Without unit clauses the degree vector holds, in increasing order,
the number of occurrences (modulo 2^32) of each literal. -/
theorem C45_degree_occurrences (p : Problem) (hv : ∀ c ∈ p.problem, ∀ l ∈ c, l.var < p.variables)
    (hu : ∀ l, [l] ∉ p.problem) : ∃ ds : List (BitVec 32), p.degreeVector = some ds ∧
      ds.Pairwise (· ≤ ·) ∧
      ds.Perm ((List.range p.variables).flatMap fun v =>
        [BitVec.ofNat 32 (p.problem.flatten.count (pos v)), BitVec.ofNat 32 (p.problem.flatten.count (neg v))]) := by
  refine ⟨_, degreeVector_eq hv (fun c _ l _ _ _ h => absurd h (hu l)), sortDegrees_sorted _, ?_⟩
  refine (sortDegrees_perm _).trans ?_
  have hd : ∀ l, degree p.problem l = BitVec.ofNat 32 (p.problem.flatten.count l) := by
    intro l
    have hf : facts p.problem = [] := List.eq_nil_iff_forall_not_mem.2 fun l hl => hu l (mem_facts.1 hl)
    simp [degree, hu, hf]
  have : (allLits p.variables).map (degree p.problem) = (List.range p.variables).flatMap fun v =>
      [BitVec.ofNat 32 (p.problem.flatten.count (pos v)), BitVec.ofNat 32 (p.problem.flatten.count (neg v))] := by
    simp only [allLits, List.map_flatMap, List.map_cons, List.map_nil, hd]
  rw [this]

/-- The hypotheses are met by a problem with two clauses of two literals. -/
example : let p := Problem.empty.readClauses [[lit 1, lit 2], [lit (-1), lit 2]]
    (∀ c ∈ p.problem, ∀ l ∈ c, l.var < p.variables) ∧
    p.degreeVector = some [0, 1, 1, 2] := by decide +kernel

/-- **C45 (degree hash, invariance).** Renaming variables, flipping polarities, reordering clauses and
reordering literals within clauses do not change the degree hash, provided that no clause contains
both a literal given as a unit clause and the negation of one (in particular, without unit clauses).
Without the proviso the claim is false, see `C45_finding_degree_order`. -/
theorem C45_degree_invariant_partial (p q : Problem) (n : Nat) (hp : p.variables = n) (hq : q.variables = n)
    (hv : ∀ c ∈ p.problem, ∀ l ∈ c, l.var < n) (f g : Nat → Nat) (flip : Nat → Bool)
    (hf : ∀ v, v < n → f v < n ∧ g (f v) = v) (hg : ∀ v, v < n → g v < n ∧ f (g v) = v)
    (hs : SameUpToNames f flip p.problem q.problem)
    (hc : NoClash p.problem) : q.degreeHash = p.degreeHash := by
  subst hp
  have hqv : ∀ c ∈ q.problem, ∀ l ∈ c, l.var < q.variables := by
    obtain ⟨H, h1, h2, h3⟩ := hs
    rw [h2, hq]
    intro c hc l hl
    obtain ⟨e, he, rfl⟩ := List.mem_map.1 hc
    obtain ⟨k, hk, rfl⟩ := List.mem_map.1 ((h3 e he).mem_iff.2 hl)
    exact (hf _ (hv _ (h1.mem_iff.2 (List.mem_map_of_mem (f := (·.1)) he)) k hk)).1
  have hqc : NoClash q.problem := by
    obtain ⟨H, h1, h2, h3⟩ := hs
    have unit : ∀ l : Lit, [l] ∈ q.problem → ∃ k, k.var < p.variables ∧ l = rename f flip k ∧ [k] ∈ p.problem := by
      intro l hl
      rw [h2] at hl
      obtain ⟨e, he, e2⟩ := List.mem_map.1 hl
      have h4 := h3 e he
      rw [e2, List.perm_singleton] at h4
      have hm : e.1 ∈ p.problem := h1.mem_iff.2 (List.mem_map_of_mem (f := (·.1)) he)
      match hh : e.1, h4 with
      | [k], h4 =>
        rw [hh] at hm
        refine ⟨k, hv _ hm k (by simp), ?_, hm⟩
        simpa using h4.symm
    intro c hcq l hl k hk hul huk
    rw [h2] at hcq
    obtain ⟨e, he, rfl⟩ := List.mem_map.1 hcq
    have hm : e.1 ∈ p.problem := h1.mem_iff.2 (List.mem_map_of_mem (f := (·.1)) he)
    obtain ⟨l', hl', rfl⟩ := List.mem_map.1 ((h3 e he).mem_iff.2 hl)
    obtain ⟨k', hk', rfl⟩ := List.mem_map.1 ((h3 e he).mem_iff.2 hk)
    obtain ⟨x, hx, ex, hxm⟩ := unit _ hul
    obtain ⟨y, hy, ey, hym⟩ := unit _ huk
    rw [← rename_neg] at ey
    have e1 := rename_inj hf (hv _ hm l' hl') hx ex
    have e2 := rename_inj hf (a := k'.neg) (hv _ hm k' hk') hy ey
    subst e1
    subst e2
    exact hc _ hm l' hl' k' hk' hxm hym
  have e : q.degreeVector = p.degreeVector := by
    rw [degreeVector_eq hv hc, degreeVector_eq hqv hqc, hq]
    congr 1
    apply sortDegrees_eq
    refine ((allLits_rename (flip := flip) hf hg).symm.map _).trans ?_
    rw [List.map_map]
    have : (allLits p.variables).map (degree q.problem ∘ rename f flip) =
        (allLits p.variables).map (degree p.problem) :=
      List.map_congr_left fun k hk => degree_rename hf hv hs (mem_allLits.1 hk)
    rw [this]
  unfold degreeHash
  rw [e]

/-- The hypotheses are met: two variables swapped, the second flipped, a unit clause, clauses
reordered. -/
example : SameUpToNames (fun v => if v = 0 then 1 else if v = 1 then 0 else v) (fun v => v == 1)
    [[lit 1, lit 2], [lit 2], [lit (-1), lit 3]] [[lit (-1)], [lit (-1), lit 2], [lit (-2), lit 3]] := by
  refine ⟨[([lit 2], [lit (-1)]), ([lit 1, lit 2], [lit (-1), lit 2]), ([lit (-1), lit 3], [lit (-2), lit 3])], ?_, rfl, ?_⟩
  · exact List.Perm.swap _ _ _
  · intro e he
    simp only [List.mem_cons, List.not_mem_nil, or_false] at he
    rcases he with rfl | rfl | rfl
    · exact List.Perm.refl _
    · exact List.Perm.swap _ _ _
    · exact List.Perm.refl _

example : NoClash [[lit 1, lit 2], [lit 2], [lit (-1), lit 3]] := by unfold NoClash; decide

/-- **C45 (finding).** The degree hash depends on the order of the clauses: the same two unit clauses
and one binary clause, in a different order. A counter that was set to zero is decremented again. -/
theorem C45_finding_degree_order :
    let p := Problem.empty.readClauses [[lit 1], [lit 2], [lit (-1), lit 2]]
    let q := Problem.empty.readClauses [[lit 2], [lit 1], [lit (-1), lit 2]]
    p.degreeVector = some [0, 0, 0, 4294967295] ∧ q.degreeVector = some [0, 0, 0, 0] ∧
      p.degreeHash ≠ q.degreeHash := by
  decide +kernel

/-- **C45 (finding).** A clause satisfied by two unit clauses is subtracted twice: the entry hashed
for the literal is no number of occurrences. -/
theorem C45_finding_degree_underflow :
    (Problem.empty.readClauses [[lit 1], [lit 2], [lit 1, lit 2, lit 3]]).degreeVector =
      some [0, 0, 0, 4294967295, 4294967295, 4294967295] := by
  decide +kernel

end Candy
