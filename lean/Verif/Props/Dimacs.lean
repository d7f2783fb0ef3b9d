import Verif.Proofs.DimacsText
import Verif.Props.Problem

/-!
# C04, C05, C06: reading and writing DIMACS

`readDimacs memory fuel file` is the parser of the code reading `file` through a buffer of
`memory.length` characters whose initial content is `memory` (uninitialised in the code). `fuel` bounds
the iterations of each loop; all results hold for every large enough value.
-/

namespace Candy

/-! ## C06: independence of chunk boundaries -/

/-- **C06 (one line per clause).** Let every line be shorter than the buffer. Then, for every
alignment and every initial content of the buffer, reading through the buffer has exactly the outcome
(problem, exception or undefined behaviour) of reading the plain sequence of characters, unless an
integer is separated from the preceding token of its clause or header by a line break, or is not
followed by another character. Outside these conditions the claim is false: see
`C06_full_statement_fails`, `C06_long_line` and `C06_last_token`. -/
theorem C06_chunks_partial (N : Nat) (hN : 0 < N) (memory file : List Char) (hm : memory.length = N)
    (hfit : LinesFit N file) (fuel : Nat) (h : readPlain false fuel file ≠ .fragile) :
    readDimacs memory fuel file = readPlain false fuel file := by
  have := readDimacs_sim hN false hm hfit (by simp) fuel
  cases hp : readPlain false fuel file with
  | fragile => exact absurd hp h
  | ub => rw [hp] at this; exact this
  | throws => rw [hp] at this; exact this
  | loops => rw [hp] at this; exact this
  | ok p => rw [hp] at this; obtain ⟨q, h1, rfl⟩ := this; exact h1

/-- **C06 (small files).** A file that is smaller than the buffer is read like the plain sequence of
characters, however it is broken into lines, as long as the last integer is followed by another
character. -/
theorem C06_small_partial (N : Nat) (memory file : List Char) (hm : memory.length = N)
    (hfile : file.length < N) (fuel : Nat) (h : readPlain true fuel file ≠ .fragile) :
    readDimacs memory fuel file = readPlain true fuel file := by
  have hfit : LinesFit N file := fun i hi => by omega
  have := readDimacs_sim (by omega) true hm hfit (fun _ => hfile) fuel
  cases hp : readPlain true fuel file with
  | fragile => exact absurd hp h
  | ub => rw [hp] at this; exact this
  | throws => rw [hp] at this; exact this
  | loops => rw [hp] at this; exact this
  | ok p => rw [hp] at this; obtain ⟨q, h1, rfl⟩ := this; exact h1

/-- A file of several chunks for a buffer of 16 characters meets the hypotheses. -/
example :
    let file := "p cnf 3 2\nc comment\n1 -2 0\n 3 -1 0 2 0\n".toList
    readPlain false 60 file = .ok ⟨cnf [[1, -2], [-1, 3], [2]], 3⟩ ∧
    (∀ i < file.length, i + 16 ≤ file.length → '\n' ∈ (file.drop i).take 16) ∧
    readDimacs (List.replicate 16 '7') 60 file = .ok ⟨cnf [[1, -2], [-1, 3], [2]], 3⟩ := by decide +kernel

/-! ## C04: round trip -/

/-- **C04 (layouts).** For every text that represents the formula `f` — any comments, headers and
white space — with each clause and header on one line and all lines shorter than the buffer, parsing
gives the problem obtained by adding the clauses of `f` one by one. -/
theorem C04_layout_partial (N : Nat) (hN : 0 < N) (memory file : List Char) (f : CNF)
    (hm : memory.length = N) (hl : Layout false file f) (hfit : LinesFit N file) (fuel : Nat)
    (hfuel : file.length < fuel) :
    readDimacs memory fuel file = .ok (Problem.empty.readClauses f) := by
  have h := readPlain_layout hl (p := Problem.empty) hfuel hfuel
  have h' : readPlain false fuel file = .ok (Problem.empty.readClauses f) := h
  rw [C06_chunks_partial N hN memory file hm hfit fuel (by rw [h']; simp), h']

/-- **C04 (layouts of small files).** For files smaller than the buffer clauses may also be broken
into lines. -/
theorem C04_layout_small_partial (N : Nat) (memory file : List Char) (f : CNF)
    (hm : memory.length = N) (hl : Layout true file f) (hfile : file.length < N) (fuel : Nat)
    (hfuel : file.length < fuel) :
    readDimacs memory fuel file = .ok (Problem.empty.readClauses f) := by
  have h := readPlain_layout hl (p := Problem.empty) hfuel hfuel
  have h' : readPlain true fuel file = .ok (Problem.empty.readClauses f) := h
  rw [C06_small_partial N memory file hm hfile fuel (by rw [h']; simp), h']

/-- Every text of a layout is independent of the position of line breaks for the idealised stream. -/
theorem C04_layout_plain (file : List Char) (f : CNF) (hl : Layout true file f) (fuel : Nat)
    (hfuel : file.length < fuel) :
    readPlain true fuel file = .ok (Problem.empty.readClauses f) :=
  readPlain_layout hl hfuel hfuel

/-- A clause as `readClause` leaves it: strictly sorted, without complementary literals. -/
def NormalClause (c : Clause) : Prop :=
  (c.Pairwise fun a b => a.ltb b = true) ∧ ∀ l ∈ c, l.neg ∉ c

theorem normalClause_id {c : Clause} (h : c.Pairwise fun a b => a.ltb b = true) :
    normalClause c = c := by
  have hs : sortLits c = c := by
    induction c with
    | nil => rfl
    | cons x xs ih =>
      have h' := List.pairwise_cons.1 h
      rw [sortLits, ih h'.2]
      cases xs with
      | nil => rfl
      | cons y ys =>
        have := (Lit.ltb_iff _ _).1 (h'.1 y (by simp))
        rw [insertLit, if_neg]
        rw [Lit.ltb_iff]; omega
  rw [normalClause, hs]
  clear hs
  cases c with
  | nil => rfl
  | cons x xs =>
    rw [uniqueBy]
    congr 1
    induction xs generalizing x with
    | nil => rfl
    | cons y ys ih =>
      have h' := List.pairwise_cons.1 h
      have hxy := (Lit.ltb_iff _ _).1 (h'.1 y (by simp))
      rw [uniqueBy.go, if_neg (by simp; rintro rfl; omega), ih y h'.2]

/-- **C04 (round trip).** Printing a problem with normalised clauses and parsing the text yields the
same list of clauses, for every buffer that can hold the lines. Variables must be below `2^30` and
the counts in the header must fit an `int`. -/
theorem C04_roundtrip (N : Nat) (hN : 0 < N) (memory : List Char) (p : Problem)
    (hm : memory.length = N) (hfit : LinesFit N (printDIMACS p))
    (hnorm : ∀ c ∈ p.problem, NormalClause c) (hv : ∀ c ∈ p.problem, ∀ l ∈ c, l.var < 2 ^ 30)
    (h1 : p.nVars < 2 ^ 31) (h2 : p.nClauses < 2 ^ 31) (fuel : Nat)
    (hfuel : (printDIMACS p).length < fuel) :
    ∃ q, readDimacs memory fuel (printDIMACS p) = .ok q ∧ q.problem = p.problem := by
  refine ⟨_, C04_layout_partial N hN memory _ _ hm (printDIMACS_layout hv h1 h2) hfit fuel hfuel, ?_⟩
  rw [Problem.readClauses_eq]
  simp only [Problem.empty, List.nil_append]
  have hfil : (p.problem.filter fun c => !decide (Tautological c)) = p.problem := by
    rw [List.filter_eq_self]
    intro c hc
    have := (hnorm c hc).2
    simp only [Bool.not_eq_true', decide_eq_false_iff_not]
    rintro ⟨l, hl, hn⟩
    exact this l hl hn
  rw [hfil]
  conv => rhs; rw [← List.map_id p.problem]
  exact List.map_congr_left fun c hc => normalClause_id (hnorm c hc).1

/-- What `readClauses` stores is normalised, so the round trip applies to every problem that was read. -/
theorem C04_roundtrip_read (N : Nat) (hN : 0 < N) (memory : List Char) (f : CNF)
    (hm : memory.length = N)
    (hfit : LinesFit N (printDIMACS (Problem.empty.readClauses f)))
    (hv : ∀ c ∈ f, ∀ l ∈ c, l.var < 2 ^ 30) (h2 : f.length < 2 ^ 31) (fuel : Nat)
    (hfuel : (printDIMACS (Problem.empty.readClauses f)).length < fuel) :
    ∃ q, readDimacs memory fuel (printDIMACS (Problem.empty.readClauses f)) = .ok q ∧
      q.problem = (Problem.empty.readClauses f).problem := by
  obtain ⟨g, hg, hm'⟩ := C03_clauses f
  refine C04_roundtrip N hN memory _ hm hfit (fun c hc => ?_) ?_ ?_ ?_ fuel hfuel
  · exact ⟨(C03_normal f c hc).1, (C03_normal f c hc).2.2⟩
  · intro c hc l hl
    rw [hg] at hc
    obtain ⟨d, hd, rfl⟩ := List.mem_map.1 hc
    exact hv d (List.mem_filter.1 hd).1 l ((hm' d l).1 hl)
  · rcases (C03_nVars f).2 with h | ⟨c, hc, l, hl, h⟩
    · omega
    · have := hv c hc l hl; omega
  · rw [Problem.nClauses, hg, List.length_map]
    exact Nat.lt_of_le_of_lt (List.length_filter_le _ _) h2

/-- Printing and parsing a concrete problem. -/
example : printDIMACS (Problem.empty.readClauses (cnf [[1, -12], [], [3]])) =
      "p cnf 12 3\n1 -12 0\n0\n3 0\n".toList ∧
    readDimacs (List.replicate 20 '0') 40 "p cnf 12 3\n1 -12 0\n0\n3 0\n".toList =
      .ok ⟨cnf [[1, -12], [], [3]], 12⟩ := by decide +kernel

/-! ## C05: integer tokens -/

/-- **C05 (buffered reading).** Let the text ahead be white space on the same line, a token denoting
the integer `n`, and another character that is not a digit. If `n` fits a 32-bit `int`, reading returns
exactly `n` and consumes exactly the token; if it does not and `|n| < 2^62` or `n` does not fit a
64-bit `long`, a parse error is thrown. For the remaining numbers see `C05_full_statement_fails`. -/
theorem C05_integer_partial (N : Nat) (hN : 0 < N) (b : SBuf) (ws tok z : List Char) (e : Char) (n : Int)
    (hb : Rep N b (ws ++ tok ++ e :: z)) (hfit : LinesFit N (ws ++ tok ++ e :: z))
    (hws : ∀ x ∈ ws, isSpaceC x = true) (hnl : '\n' ∉ ws) (ht : IntText tok n)
    (he : isDigitC e = false) :
    (n.natAbs < 2 ^ 31 → ∃ b', readInteger SBuf.stream b = .ok (n, b') ∧ Rep N b' (e :: z)) ∧
    (2 ^ 31 ≤ n.natAbs → (n.natAbs < 2 ^ 62 ∨ n < - 2 ^ 63 ∨ 2 ^ 63 ≤ n) →
      readInteger SBuf.stream b = .throws) := by
  have hsim := (buffer_simulates hN false).readInteger (s := b) ⟨hb, hfit, by simp⟩
  rw [readInteger_plain ht hws (fun _ => hnl) he] at hsim
  constructor
  · intro h
    rw [intOutcome_small h] at hsim
    obtain ⟨⟨x, b'⟩, h1, h2, h3⟩ := hsim
    simp only at h2
    subst h2
    exact ⟨b', h1, h3.1⟩
  · intro h h'
    have : intOutcome n (Out.ok (e :: z)) = .throws := by
      unfold intOutcome
      by_cases h1 : n < - 2 ^ 63 ∨ 2 ^ 63 ≤ n
      · rw [if_pos h1]
      · rw [if_neg h1, if_neg (by omega), if_pos (by omega)]
    rw [this] at hsim
    exact hsim

/-- **C05 (literals).** A non-zero integer up to `2^30` in absolute value becomes the literal with
that variable (counted from 1) and sign; every larger `int` overflows in the literal constructor. -/
theorem C05_literal_partial (n : Int) (h0 : n ≠ 0) (h : n.natAbs < 2 ^ 31) :
    (n.natAbs ≤ 2 ^ 30 → litOfInt n = some ⟨n.natAbs - 1, decide (n < 0)⟩) ∧
    (2 ^ 30 < n.natAbs → litOfInt n = none) :=
  ⟨litOfInt_some h0, fun h' => litOfInt_none h' h⟩

/-- The full claim fails twice. Tokens between `2^62` and `2^63` overflow in the range check itself
(with wrap-around arithmetic 4611686018427387904 would be accepted and read as 0), and the token
1073741825 = 2^30 + 1 is accepted as an integer although no literal can represent it. -/
theorem C05_full_statement_fails :
    (∃ tok n, IntText tok n ∧ ¬ (-2 ^ 31 ≤ n ∧ n < 2 ^ 31) ∧
      readInteger (plain true) (tok ++ [' ']) = .ub) ∧
    (∃ tok n, IntText tok n ∧ readInteger (plain true) (tok ++ [' ']) = .ok (n, [' ']) ∧
      litOfInt n = none) := by
  refine ⟨⟨"4611686018427387904".toList, 4611686018427387904,
    IntText.digits (ds := "4611686018427387904".toList) (by decide) (by decide), by decide, by decide⟩,
    ⟨"1073741825".toList, 1073741825,
    IntText.digits (ds := "1073741825".toList) (by decide) (by decide), by decide, by decide⟩⟩

/-- Neither digits nor a sign: no parse error is thrown, control reaches the end of the function. -/
theorem C05_no_number : readInteger (plain true) "x 1 0".toList = .ub := by decide

example : IntText "-0042".toList (-42) := IntText.minus (ds := "0042".toList) (by decide) (by decide)

/-! ## C06: where it fails -/

/-- **C06 (long lines).** If the first `N` characters of the file contain no newline, the search for
the end of the last complete line runs below the start of the buffer. -/
theorem C06_long_line (N : Nat) (memory file : List Char) (hm : memory.length = N)
    (hlen : N ≤ file.length) (h : '\n' ∉ file.take N) (fuel : Nat) :
    readDimacs memory fuel file = .ub := by
  have hload : SBuf.load ⟨memory, 0, 0, 0, file⟩ = ⟨file.take N, 0, N, 0, file.drop N⟩ := by
    have : min N file.length = N := by omega
    simp [SBuf.load, hm, this, List.drop_eq_nil_of_le]
  have hl : (file.take N).length = N := by rw [List.length_take]; omega
  have htl : SBuf.tailLength ⟨file.take N, 0, N, 0, file.drop N⟩ = N := by
    simp only [SBuf.tailLength]
    have hall : ∀ l : List Char, (∀ x ∈ l, (x != '\n') = true) → l.takeWhile (· != '\n') = l := by
      intro l
      induction l with
      | nil => intro _; rfl
      | cons x xs ih =>
        intro hx
        rw [List.takeWhile_cons, if_pos (hx x (by simp)),
          ih fun y hy => hx y (List.mem_cons_of_mem _ hy)]
    have : ((file.take N).take N).reverse.takeWhile (· != '\n') = ((file.take N).take N).reverse := by
      apply hall
      intro x hx
      have hx' : x ∈ file.take N := (List.take_prefix N _).mem (List.mem_reverse.1 hx)
      simp only [bne_iff_ne, ne_eq]
      rintro rfl
      exact h hx'
    rw [this]
    simp; omega
  have : SBuf.init memory file = .ub := by
    simp only [SBuf.init, SBuf.refill]
    rw [if_pos (by simp)]
    simp only [hload, hl, htl]
    rw [if_neg (by omega), if_pos trivial]
  simp [readDimacs, this, Out.bind]

/-- **C06 (last token).** When the file does not end with a newline, the last integer is read together
with whatever the uninitialised memory holds behind it. -/
theorem C06_last_token :
    readDimacs (List.replicate 16 ' ') 40 "1 2 0".toList = .ok ⟨cnf [[1, 2]], 2⟩ ∧
    readDimacs ("        7       ".toList) 40 "1 2 0".toList = .ok ⟨cnf [[1, 2]], 2⟩ ∧
    readDimacs ("     7          ".toList) 40 "1 2 0".toList = .throws ∧
    readDimacs (List.replicate 16 '7') 40 "1 2 0".toList = .ub := by decide +kernel

/-- A text with one clause, `1`, whose closing zero is on the next line, arranged so that a buffer of
`N = k + 8` characters ends just behind that zero. -/
def brokenText (k : Nat) : List Char := '1' :: (List.replicate (k + 4) ' ' ++ ['\n', '0', ' ', '\n'])

theorem brokenText_layout (k : Nat) : Layout true (brokenText k) [[pos 0]] := by
  have h0 : IntText ['0'] 0 := IntText.digits (ds := ['0']) (by simp) (by decide)
  have h1 : IntText ['1'] 1 := IntText.digits (ds := ['1']) (by simp) (by decide)
  have hs : Sep true (List.replicate (k + 4) ' ' ++ ['\n']) := by
    refine ⟨by simp, ?_, by simp⟩
    intro x hx
    rcases List.mem_append.1 hx with hx | hx
    · rw [List.eq_of_mem_replicate hx]; decide
    · simp at hx; subst hx; decide
  have hc := ClauseText.lit (multi := true) h1 (by decide) (by decide) hs (ClauseText.zero h0)
  have := Layout.clause (multi := true) (e := ' ') hc (by decide)
    (Layout.space (c := '\n') (by decide) Layout.nil)
  have e : brokenText k =
      ['1'] ++ (List.replicate (k + 4) ' ' ++ ['\n']) ++ ['0'] ++ [' ', '\n'] := by
    simp [brokenText]
  rw [e]
  exact this

/-- The chunk in the buffer after the constructor. -/
def brokenChunk (k : Nat) : List Char := '1' :: (List.replicate (k + 4) ' ' ++ ['\n', '0', ' '])

theorem broken_length (k : Nat) : (brokenChunk k).length = k + 8 := by simp [brokenChunk]

/-- **C06 fails** for every buffer of at least 8 characters, in particular for the 1 MiB buffer of
the code: the text above has the single clause `1` and all its lines fit the buffer, but the closing
zero is read twice, so that an empty clause is added and the satisfiable formula becomes
unsatisfiable. -/
theorem C06_full_statement_fails (N : Nat) (hN : 8 ≤ N) :
    ∃ (file : List Char) (f : CNF), Layout true file f ∧ LinesFit N file ∧ Satisfiable f ∧
      ∀ memory fuel, memory.length = N → file.length < fuel →
        ∃ q, readDimacs memory fuel file = .ok q ∧ ¬ Satisfiable q.problem := by
  obtain ⟨k, rfl⟩ : ∃ k, N = k + 8 := ⟨N - 8, by omega⟩
  have hflen : (brokenText k).length = k + 9 := by simp [brokenText]
  have hfile : brokenText k = brokenChunk k ++ ['\n'] := by simp [brokenText, brokenChunk]
  refine ⟨brokenText k, [[pos 0]], brokenText_layout k, ?_, ⟨fun _ => true, ?_⟩, ?_⟩
  · intro i hi
    rw [hflen] at hi
    have : i = 0 ∨ i = 1 := by omega
    rcases this with rfl | rfl
    · rw [hfile, List.drop_zero, ← broken_length k, List.take_left' rfl]
      simp [brokenChunk]
    · have : (brokenText k).drop 1 = List.replicate (k + 4) ' ' ++ ['\n', '0', ' ', '\n'] := rfl
      rw [this, List.take_of_length_le (by simp)]
      simp
  · intro c hc
    simp at hc
    subst hc
    exact ⟨pos 0, by simp, rfl⟩
  · intro memory fuel hm hfuel
    have hbl := broken_length k
    -- the constructor loads the first chunk
    have hload : SBuf.load ⟨memory, 0, 0, 0, brokenText k⟩ =
        ⟨brokenChunk k, 0, k + 8, 0, ['\n']⟩ := by
      have : min (k + 8) (brokenText k).length = k + 8 := by rw [hflen]; omega
      simp only [SBuf.load, hm, this, Nat.sub_zero, Nat.zero_add]
      have hd : memory.drop (k + 8) = [] := List.drop_eq_nil_of_le (by omega)
      rw [hd, hfile, ← hbl, List.take_left' rfl, List.drop_left' rfl]
      simp
    have htl : SBuf.tailLength ⟨brokenChunk k, 0, k + 8, 0, ['\n']⟩ = 2 := by
      simp only [SBuf.tailLength]
      rw [List.take_of_length_le (by omega)]
      have : (brokenChunk k).reverse = ' ' :: '0' :: '\n' :: (List.replicate (k + 4) ' ').reverse ++ ['1'] := by
        simp [brokenChunk]
      rw [this]
      simp
    have hinit : SBuf.init memory (brokenText k) = .ok ⟨brokenChunk k, 0, k + 8, 2, ['\n']⟩ := by
      simp only [SBuf.init, SBuf.refill]
      rw [if_pos (by simp)]
      simp only [hload, hbl, htl]
      rw [if_neg (by omega), if_neg (by omega)]
    -- the two integers
    have tok1 : Token [] [] ['1'] ' ' := ⟨by simp, Or.inl rfl, by decide, by decide, by simp⟩
    have hst1 : strtol (brokenChunk k) = some (some (1, 1)) := by
      have := (tok1.strtol (List.replicate (k + 3) ' ' ++ ['\n', '0', ' '])).1
      have e : [] ++ [] ++ ['1'] ++ ' ' :: (List.replicate (k + 3) ' ' ++ ['\n', '0', ' ']) =
          brokenChunk k := by
        simp [brokenChunk, List.replicate_succ]
      rw [e] at this
      rw [this]; decide
    have hws : ∀ x ∈ List.replicate (k + 4) ' ' ++ ['\n'], isSpaceC x = true := by
      intro x hx
      rcases List.mem_append.1 hx with hx | hx
      · rw [List.eq_of_mem_replicate hx]; decide
      · simp at hx; subst hx; decide
    have tok2 : Token (List.replicate (k + 4) ' ' ++ ['\n']) [] ['0'] ' ' :=
      ⟨hws, Or.inl rfl, by decide, by decide, by simp⟩
    have hst2 : strtol ((brokenChunk k).drop 1) = some (some (0, k + 6)) := by
      have := (tok2.strtol []).1
      have e : List.replicate (k + 4) ' ' ++ ['\n'] ++ [] ++ ['0'] ++ [' '] = (brokenChunk k).drop 1 := by
        simp [brokenChunk]
      rw [e] at this
      rw [this, tokenVal, if_neg (by simp)]
      simp [digitsVal]
    have hr1 : readInteger SBuf.stream ⟨brokenChunk k, 0, k + 8, 2, ['\n']⟩ =
        .ok (1, ⟨brokenChunk k, 1, k + 8, 2, ['\n']⟩) := by
      simp only [readInteger, SBuf.stream, List.drop_zero, hst1, Out.bind, SBuf.refill]
      rw [if_neg (by simp), if_neg (by decide), if_neg (by decide), if_neg (by decide),
        if_neg (by omega)]
    obtain ⟨b2, hb2⟩ : ∃ b2 : SBuf, b2 = ⟨['0', ' ', '\n'] ++ (brokenChunk k).drop 3, 0, 3, 0, []⟩ :=
      ⟨_, rfl⟩
    have hr2 : readInteger SBuf.stream ⟨brokenChunk k, 1, k + 8, 2, ['\n']⟩ = .ok (0, b2) := by
      have hcar : ((brokenChunk k).take (k + 8)).drop (k + 8 - 2) = ['0', ' '] := by
        rw [List.take_of_length_le (by omega)]
        have e : brokenChunk k = ('1' :: (List.replicate (k + 4) ' ' ++ ['\n'])) ++ ['0', ' '] := by
          simp [brokenChunk]
        rw [e, List.drop_left' (by simp)]
      have hld : SBuf.load ⟨brokenChunk k, 1 + (k + 6), k + 8, 2, ['\n']⟩ = b2 := by
        have hmin : min (k + 8 - 2) 1 = 1 := by omega
        simp only [SBuf.load, hcar, hbl, List.length_singleton, hmin, hb2]
        rfl
      have hb2l : b2.buffer.length = k + 8 := by rw [hb2]; simp [hbl]
      simp only [readInteger, SBuf.stream, hst2, Out.bind, SBuf.refill]
      rw [if_neg (by simp), if_neg (by decide), if_neg (by decide), if_neg (by decide),
        if_pos (by omega), hld]
      rw [if_pos (by rw [hb2l]; rw [hb2]; simp)]
    -- the rest is the text "0 \n"
    have hrep : RepW (k + 8) false b2 ['0', ' ', '\n'] := by
      refine ⟨⟨?_, ?_, ?_, ?_, Or.inl ?_⟩, ?_, by simp⟩
      · rw [hb2]; simp [hbl]
      · rw [hb2]; simp only; omega
      · rw [hb2]; exact Nat.zero_le _
      · rw [hb2]; rfl
      · rw [hb2]; exact ⟨rfl, rfl, by simp only; omega, Or.inl (by simp)⟩
      · intro i hi; simp at hi; omega
    obtain ⟨m, rfl⟩ : ∃ m, fuel = m + 6 := ⟨fuel - 6, by omega⟩
    have hplain : readDimacsLoop (plain false) (m + 6) (m + 5) ['0', ' ', '\n']
        (Problem.empty.readClause [pos 0]) =
        .ok ((Problem.empty.readClause [pos 0]).readClauses [[]]) := by
      have h0 : IntText ['0'] 0 := IntText.digits (ds := ['0']) (by simp) (by decide)
      refine readPlain_layout (multi := false) (t := ['0', ' ', '\n']) ?_ (by simp) (by simp)
      exact Layout.clause (txt := ['0']) (e := ' ') (ClauseText.zero h0) (by decide)
        (Layout.space (c := '\n') (by decide) Layout.nil)
    have hrest := (buffer_simulates (N := k + 8) (by omega) false).readDimacs (m + 6) (m + 5)
      (Problem.empty.readClause [pos 0]) hrep
    rw [hplain] at hrest
    obtain ⟨q, hq, rfl⟩ := hrest
    refine ⟨(Problem.empty.readClause [pos 0]).readClauses [[]], ?_, ?_⟩
    rotate_left 1
    · rintro ⟨a, ha⟩
      have := ha [] (by decide)
      obtain ⟨l, hl, -⟩ := this
      simp at hl
    · rw [readDimacs, hinit]
      have hlit : litOfInt 1 = some (pos 0) := by decide
      have hcl : clauseLoop SBuf.stream (m + 6) ⟨brokenChunk k, 0, k + 8, 2, ['\n']⟩ [] =
          .ok ([pos 0], b2) := by
        simp [clauseLoop, hr1, hr2, Out.bind, hlit]
      have he : SBuf.stream.eof ⟨brokenChunk k, 0, k + 8, 2, ['\n']⟩ = false := by
        simp [SBuf.stream]
      have hp : SBuf.stream.peek ⟨brokenChunk k, 0, k + 8, 2, ['\n']⟩ = some '1' := rfl
      have hsp : isSpaceC '1' = false := by decide
      have hsk : skipWhitespace SBuf.stream (m + 6) ⟨brokenChunk k, 0, k + 8, 2, ['\n']⟩ =
          .ok ⟨brokenChunk k, 0, k + 8, 2, ['\n']⟩ := by
        simp [skipWhitespace, he, hp, hsp]
      simp only [Out.bind]
      rw [readDimacsLoop, he, hsk]
      simp only [Out.bind, he, hp, hcl, Bool.false_eq_true, if_false]
      rw [if_neg (by decide), if_neg (by decide)]
      exact hq

end Candy
