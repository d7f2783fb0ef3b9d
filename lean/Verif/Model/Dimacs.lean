import Verif.Model.Problem

/-!
# Model of DIMACS input and output
(src/candy/utils/StreamBuffer.{h,cc}, src/candy/core/CNFProblem.cc)

Files are lists of characters; decompression by zlib and read errors of `gzread` are not modelled.
The capacity `buffer_size` (1 MiB, StreamBuffer.h:32) is the length `N` of the buffer, a parameter. The
memory obtained from `new char[buffer_size]` is uninitialised: its initial content is a parameter.

The reader is written once, over an interface `Stream` of the operations it uses, and instantiated
twice: with the buffer of the code (`SBuf.stream`) and with the plain list of characters
(`plain`), the idealised stream the buffer is meant to provide.
-/

namespace Candy

/-- Outcomes of running a piece of code: undefined behaviour, a thrown `ParserException`, a loop that
has not finished within the given number of iterations, a result that depends on how the text falls
into the buffer (only produced by `plain`), or a value. -/
inductive Out (α : Type) where
  | ub
  | throws
  | loops
  | fragile
  | ok (a : α)
deriving DecidableEq, Repr

/-- Sequencing. -/
def Out.bind {α β : Type} (o : Out α) (f : α → Out β) : Out β :=
  match o with
  | .ub => .ub
  | .throws => .throws
  | .loops => .loops
  | .fragile => .fragile
  | .ok a => f a

/-- `isspace` and `isblank` in the "C" locale. -/
def isSpaceC (c : Char) : Bool :=
  c == ' ' || c == '\t' || c == '\n' || c == '\x0b' || c == '\x0c' || c == '\r'
def isBlankC (c : Char) : Bool := c == ' ' || c == '\t'
def isDigitC (c : Char) : Bool := 48 ≤ c.toNat && c.toNat ≤ 57

/-- Value of a string of digits. -/
def digitsVal (ds : List Char) : Nat := ds.foldl (fun n c => 10 * n + (c.toNat - 48)) 0

/-- `strtol(str, &end, 10)` (C standard): skips white space, reads an optional sign and digits.
`none`: the function would read past the end of the given memory. `some none`: no conversion
(`end == str`). `some (some (n, k))`: the number written and the number of characters consumed. The
range of `long` is treated in `readInteger`. -/
def strtol (s : List Char) : Option (Option (Int × Nat)) :=
  let ws := s.takeWhile isSpaceC
  match s.dropWhile isSpaceC with
  | [] => none
  | c :: r =>
    let sg : List Char := if c == '-' || c == '+' then [c] else []
    let body := if c == '-' || c == '+' then r else c :: r
    let ds := body.takeWhile isDigitC
    if (body.dropWhile isDigitC).isEmpty then none
    else if ds.isEmpty then some none
    else some (some (if c == '-' then - (digitsVal ds : Int) else digitsVal ds,
      ws.length + sg.length + ds.length))

/-- The operations of `StreamBuffer` that the parser uses. -/
structure Stream (σ : Type) where
  /-- `eof()`, StreamBuffer.h:66-68 -/
  eof : σ → Bool
  /-- `buffer[pos]`; `none`: outside the array -/
  peek : σ → Option Char
  /-- `incPos(k)`, StreamBuffer.h:61-64 -/
  inc : σ → Nat → Out σ
  /-- `strtol(buffer + pos, &end, 10)` -/
  num : σ → Out (Option (Int × Nat))

section Reader
variable {σ : Type} (S : Stream σ)

/-- `skipWhitespace`, StreamBuffer.cc:41-45. The first argument bounds the iterations. -/
def skipWhitespace : Nat → σ → Out σ
  | 0, _ => .loops
  | n + 1, s =>
    if S.eof s then .ok s
    else match S.peek s with
      | none => .ub
      | some c => if isSpaceC c then (S.inc s 1).bind (skipWhitespace n) else .ok s

/-- The loop of `skipLine`, StreamBuffer.cc:34-36. -/
def skipLineLoop : Nat → σ → Out σ
  | 0, _ => .loops
  | n + 1, s =>
    if S.eof s then .ok s
    else match S.peek s with
      | none => .ub
      | some c =>
        if !isSpaceC c || isBlankC c then (S.inc s 1).bind (skipLineLoop n) else .ok s

/-- `skipLine`, StreamBuffer.cc:33-38. -/
def skipLine (n : Nat) (s : σ) : Out σ := (skipLineLoop S n s).bind (skipWhitespace S n)

/-- `skipString`, StreamBuffer.cc:48-54. At the end of the file the code first reads `buffer[pos]`,
which is inside the array, and then throws. -/
def skipString : List Char → σ → Out σ
  | [], s => .ok s
  | c :: cs, s =>
    if S.eof s then .throws
    else if S.peek s = some c then (S.inc s 1).bind (skipString cs) else .throws

/-- `readInteger`, StreamBuffer.cc:56-77, for a 64-bit `long`. `2*abs(number)` overflows for
`abs(number) ≥ 2^62`. Without conversion control reaches the end of a non-void function. -/
def readInteger (s : σ) : Out (Int × σ) :=
  if S.eof s then .throws
  else (S.num s).bind fun r =>
    match r with
    | none => .ub
    | some (n, k) =>
      if n < - 2 ^ 63 ∨ 2 ^ 63 ≤ n then .throws
      else if 2 ^ 62 ≤ n.natAbs then .ub
      else if 4294967295 ≤ 2 * n.natAbs then .throws
      else (S.inc s k).bind fun s' => .ok (n, s')

/-- `Lit(abs(plit)-1, plit < 0)`, CNFProblem.cc:84: `none` is the overflow in the constructor. The
32-bit constructor is used to decide it. -/
def litOfInt (n : Int) : Option Lit :=
  (CLit.mk (BitVec.ofNat 32 (n.natAbs - 1)) (decide (n < 0))).map CLit.decode

/-- The loop reading a clause, CNFProblem.cc:82-85. -/
def clauseLoop : Nat → σ → List Lit → Out (List Lit × σ)
  | 0, _, _ => .loops
  | n + 1, s, acc => (readInteger S s).bind fun r =>
      if r.1 = 0 then .ok (acc, r.2)
      else match litOfInt r.1 with
        | none => .ub
        | some l => clauseLoop n r.2 (acc ++ [l])

/-- `readDimacs`, CNFProblem.cc:61-89. `problem.reserve` is not modelled. -/
def readDimacsLoop (m : Nat) : Nat → σ → Problem → Out Problem
  | 0, _, _ => .loops
  | n + 1, s, p =>
    if S.eof s then .ok p
    else (skipWhitespace S m s).bind fun s =>
      if S.eof s then .ok p
      else match S.peek s with
        | none => .ub
        | some c =>
          if c = 'p' then
            (skipString S ['p', ' ', 'c', 'n', 'f'] s).bind fun s =>
            (readInteger S s).bind fun v =>
            (readInteger S v.2).bind fun k =>
              if v.1 < 0 ∨ k.1 < 0 then .throws else readDimacsLoop m n k.2 p
          else if c = 'c' then (skipLine S m s).bind fun s => readDimacsLoop m n s p
          else (clauseLoop S m s []).bind fun r => readDimacsLoop m n r.2 (p.readClause r.1)

end Reader

/-- `StreamBuffer`, StreamBuffer.h:34-40, with the unread rest of the file. -/
structure SBuf where
  buffer : List Char
  pos : Nat
  size : Nat
  offset : Nat
  file : List Char
deriving DecidableEq, Repr

namespace SBuf

/-- The part of `check_refill_buffer` that reads, StreamBuffer.cc:81-87: the last `offset` characters
move to the front and `gzread` fills the rest as far as the file goes. -/
def load (b : SBuf) : SBuf :=
  let carried := (b.buffer.take b.size).drop (b.size - b.offset)
  let got := min (b.buffer.length - b.offset) b.file.length
  ⟨carried ++ b.file.take got ++ b.buffer.drop (b.offset + got), 0, b.offset + got, 0, b.file.drop got⟩

/-- The number of characters after the last newline: the loop StreamBuffer.cc:92-94. -/
def tailLength (b : SBuf) : Nat := ((b.buffer.take b.size).reverse.takeWhile (· != '\n')).length

/-- `check_refill_buffer`, StreamBuffer.cc:79-97. If there is no newline at all the loop reads
`buffer[-1]`: undefined behaviour. -/
def refill (b : SBuf) : Out SBuf :=
  if b.size - b.offset ≤ b.pos then
    let b' := b.load
    if b'.size < b'.buffer.length then .ok b'
    else if b'.tailLength = b'.size then .ub
    else .ok { b' with offset := b'.tailLength }
  else .ok b

/-- The constructor, StreamBuffer.h:45-48, on uninitialised memory. -/
def init (memory : List Char) (file : List Char) : Out SBuf := refill ⟨memory, 0, 0, 0, file⟩

/-- The operations of the buffer. `strtol` sees all memory from `pos` to the end of the array. -/
def stream : Stream SBuf where
  eof b := b.size - b.offset ≤ b.pos
  peek b := b.buffer[b.pos]?
  inc b k := refill { b with pos := b.pos + k }
  num b := match strtol (b.buffer.drop b.pos) with
    | none => .ub
    | some r => .ok r

end SBuf

/-- The idealised stream: the characters of the file that have not been read. A number is `fragile`
when it is not followed by another character of the file, or, unless `whole` is set, when a newline
has to be skipped to find it. -/
def plain (whole : Bool) : Stream (List Char) where
  eof s := s.isEmpty
  peek s := s.head?
  inc s k := .ok (s.drop k)
  num s := match strtol s with
    | none => .fragile
    | some r => if !whole && (s.takeWhile isSpaceC).contains '\n' then .fragile else .ok r

/-- `readDimacsFromFile`, CNFProblem.cc:52-59, on a file with the given content. `fuel` bounds the
iterations of each loop. -/
def readDimacs (memory : List Char) (fuel : Nat) (file : List Char) : Out Problem :=
  (SBuf.init memory file).bind fun b => readDimacsLoop SBuf.stream fuel fuel b Problem.empty

/-- Reading from the idealised stream. -/
def readPlain (whole : Bool) (fuel : Nat) (file : List Char) : Out Problem :=
  readDimacsLoop (plain whole) fuel fuel file Problem.empty

/-! ## Output -/

/-- Decimal digits of a number (`operator<<` for `int`, `printf("%zu")`). The first argument bounds
the recursion. -/
def decimalAux : Nat → Nat → List Char
  | 0, _ => []
  | k + 1, n => if n < 10 then [Char.ofNat (48 + n)]
      else decimalAux k (n / 10) ++ [Char.ofNat (48 + n % 10)]

def decimal (n : Nat) : List Char := decimalAux (n + 1) n

/-- `operator<<(Lit)`, SolverTypes.h:200-209: a minus sign for negated literals, variables from 1. -/
def litText (l : Lit) : List Char := (if l.sign then ['-'] else []) ++ decimal (l.var + 1)

/-- `operator<<(Cl)` followed by `"0" << std::endl`, SolverTypes.h:216-221, CNFProblem.cc:39. -/
def clauseLine (c : Clause) : List Char := c.flatMap (fun l => litText l ++ [' ']) ++ ['0', '\n']

/-- `printDIMACS`, CNFProblem.cc:36-41. -/
def printDIMACS (p : Problem) : List Char :=
  ['p', ' ', 'c', 'n', 'f', ' '] ++ decimal p.nVars ++ [' '] ++ decimal p.nClauses ++ ['\n'] ++
    p.problem.flatMap clauseLine

end Candy
