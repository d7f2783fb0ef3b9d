import Verif.SpecMd5
import Verif.Model.Dimacs

/-!
# Model of the benchmark hashes
(src/candy/gbd/hash.cpp, src/candy/gbd/md5/md5.{h,cpp}, src/candy/gbd/md5/md5_loc.h)

`unsigned int` is `BitVec 32` (arithmetic modulo 2^32), bytes are `BitVec 8`; the machine is little
endian, as md5_loc.h:18 assumes. The buffer `stored` with its `stored_size` is the list of its first
`stored_size` bytes. The lengths of single inputs of `process` are not reduced modulo 2^32.
-/

namespace Candy

namespace Md5

/-- `md5_t`, md5.h:146-160, without the signature and its text, which `finish` returns. -/
structure State where
  A : Word
  B : Word
  C : Word
  D : Word
  /-- `message_length[0]`, `message_length[1]` -/
  len0 : Word
  len1 : Word
  stored : List Byte
  finished : Bool
deriving DecidableEq

/-- `initialise`, md5.cpp:265-284. -/
def State.init : State :=
  ⟨0x67452301, 0xefcdab89, 0x98badcfe, 0x10325476, 0, 0, [], false⟩

/-- `T`, md5_loc.h:31-40. -/
def T : List Word := [
  0xd76aa478, 0xe8c7b756, 0x242070db, 0xc1bdceee, 0xf57c0faf, 0x4787c62a, 0xa8304613, 0xfd469501,
  0x698098d8, 0x8b44f7af, 0xffff5bb1, 0x895cd7be, 0x6b901122, 0xfd987193, 0xa679438e, 0x49b40821,
  0xf61e2562, 0xc040b340, 0x265e5a51, 0xe9b6c7aa, 0xd62f105d, 0x02441453, 0xd8a1e681, 0xe7d3fbc8,
  0x21e1cde6, 0xc33707d6, 0xf4d50d87, 0x455a14ed, 0xa9e3e905, 0xfcefa3f8, 0x676f02d9, 0x8d2a4c8a,
  0xfffa3942, 0x8771f681, 0x6d9d6122, 0xfde5380c, 0xa4beea44, 0x4bdecfa9, 0xf6bb4b60, 0xbebfbc70,
  0x289b7ec6, 0xeaa127fa, 0xd4ef3085, 0x04881d05, 0xd9d4d039, 0xe6db99e5, 0x1fa27cf8, 0xc4ac5665,
  0xf4292244, 0x432aff97, 0xab9423a7, 0xfc93a039, 0x655b59c3, 0x8f0ccc92, 0xffeff47d, 0x85845dd1,
  0x6fa87e4f, 0xfe2ce6e0, 0xa3014314, 0x4e0811a1, 0xf7537e82, 0xbd3af235, 0x2ad7d2bb, 0xeb86d391]

/-- `S1` to `S4`, md5_loc.h:45-48. -/
def S1 : List Nat := [7, 12, 17, 22]
def S2 : List Nat := [5, 9, 14, 20]
def S3 : List Nat := [4, 11, 16, 23]
def S4 : List Nat := [6, 10, 15, 21]

/-- `cyclic_left_rotate`, md5_loc.h:53-55. -/
def rotate (data : Word) (bits : Nat) : Word := (data <<< bits) ||| (data >>> (32 - bits))

/-- `F`, `G`, `H`, `I`, md5_loc.h:57-60. -/
def F (x y z : Word) : Word := (x &&& y) ||| (~~~x &&& z)
def G (x y z : Word) : Word := (x &&& z) ||| (y &&& ~~~z)
def H (x y z : Word) : Word := x ^^^ y ^^^ z
def I (x y z : Word) : Word := y ^^^ (x ||| ~~~z)

/-- `FF`, `GG`, `HH`, `II`, md5_loc.h:62-114: the new value of the first argument. -/
def FF (a b c d Xk : Word) (s i : Nat) : Word := rotate (a + (F b c d + Xk + T.getD i 0)) (S1.getD s 0) + b
def GG (a b c d Xk : Word) (s i : Nat) : Word := rotate (a + (G b c d + Xk + T.getD i 0)) (S2.getD s 0) + b
def HH (a b c d Xk : Word) (s i : Nat) : Word := rotate (a + (H b c d + Xk + T.getD i 0)) (S3.getD s 0) + b
def II (a b c d Xk : Word) (s i : Nat) : Word := rotate (a + (I b c d + Xk + T.getD i 0)) (S4.getD s 0) + b

/-- `memcpy(X + i, block + 4 * i, 4)` on a little endian machine, md5.cpp:317-320. -/
def wordAt (block : List Byte) (i : Nat) : Word :=
  (block.getD (4 * i) 0).setWidth 32 ||| (block.getD (4 * i + 1) 0).setWidth 32 <<< 8 |||
    (block.getD (4 * i + 2) 0).setWidth 32 <<< 16 ||| (block.getD (4 * i + 3) 0).setWidth 32 <<< 24

/-- `process_block`, md5.cpp:304-427: the length, then the 64 steps. -/
def processBlock (st : State) (block : List Byte) : State :=
  let len1 := if st.len0 + 64 < st.len0 then st.len1 + 1 else st.len1
  let len0 := st.len0 + 64
  let X := wordAt block
  let A := st.A; let B := st.B; let C := st.C; let D := st.D
  -- round 1
  let A := FF A B C D (X 0) 0 0
  let D := FF D A B C (X 1) 1 1
  let C := FF C D A B (X 2) 2 2
  let B := FF B C D A (X 3) 3 3
  let A := FF A B C D (X 4) 0 4
  let D := FF D A B C (X 5) 1 5
  let C := FF C D A B (X 6) 2 6
  let B := FF B C D A (X 7) 3 7
  let A := FF A B C D (X 8) 0 8
  let D := FF D A B C (X 9) 1 9
  let C := FF C D A B (X 10) 2 10
  let B := FF B C D A (X 11) 3 11
  let A := FF A B C D (X 12) 0 12
  let D := FF D A B C (X 13) 1 13
  let C := FF C D A B (X 14) 2 14
  let B := FF B C D A (X 15) 3 15
  -- round 2
  let A := GG A B C D (X 1) 0 16
  let D := GG D A B C (X 6) 1 17
  let C := GG C D A B (X 11) 2 18
  let B := GG B C D A (X 0) 3 19
  let A := GG A B C D (X 5) 0 20
  let D := GG D A B C (X 10) 1 21
  let C := GG C D A B (X 15) 2 22
  let B := GG B C D A (X 4) 3 23
  let A := GG A B C D (X 9) 0 24
  let D := GG D A B C (X 14) 1 25
  let C := GG C D A B (X 3) 2 26
  let B := GG B C D A (X 8) 3 27
  let A := GG A B C D (X 13) 0 28
  let D := GG D A B C (X 2) 1 29
  let C := GG C D A B (X 7) 2 30
  let B := GG B C D A (X 12) 3 31
  -- round 3
  let A := HH A B C D (X 5) 0 32
  let D := HH D A B C (X 8) 1 33
  let C := HH C D A B (X 11) 2 34
  let B := HH B C D A (X 14) 3 35
  let A := HH A B C D (X 1) 0 36
  let D := HH D A B C (X 4) 1 37
  let C := HH C D A B (X 7) 2 38
  let B := HH B C D A (X 10) 3 39
  let A := HH A B C D (X 13) 0 40
  let D := HH D A B C (X 0) 1 41
  let C := HH C D A B (X 3) 2 42
  let B := HH B C D A (X 6) 3 43
  let A := HH A B C D (X 9) 0 44
  let D := HH D A B C (X 12) 1 45
  let C := HH C D A B (X 15) 2 46
  let B := HH B C D A (X 2) 3 47
  -- round 4
  let A := II A B C D (X 0) 0 48
  let D := II D A B C (X 7) 1 49
  let C := II C D A B (X 14) 2 50
  let B := II B C D A (X 5) 3 51
  let A := II A B C D (X 12) 0 52
  let D := II D A B C (X 3) 1 53
  let C := II C D A B (X 10) 2 54
  let B := II B C D A (X 1) 3 55
  let A := II A B C D (X 8) 0 56
  let D := II D A B C (X 15) 1 57
  let C := II C D A B (X 6) 2 58
  let B := II B C D A (X 13) 3 59
  let A := II A B C D (X 4) 0 60
  let D := II D A B C (X 11) 1 61
  let C := II C D A B (X 2) 2 62
  let B := II B C D A (X 9) 3 63
  { st with A := A + st.A, B := B + st.B, C := C + st.C, D := D + st.D, len0 := len0, len1 := len1 }

/-- The loop over complete blocks and the storing of the rest, md5.cpp:104-119. The first argument
bounds the recursion. `stored_size = 0` when nothing is left over, also when bytes were stored. -/
def processBlocks : Nat → State → List Byte → State
  | 0, st, _ => st
  | k + 1, st, input =>
    if 64 ≤ input.length then processBlocks k (processBlock st (input.take 64)) (input.drop 64)
    else if input.length ≠ 0 then { st with stored := st.stored ++ input }
    else { st with stored := [] }

/-- `process`, md5.cpp:84-123. -/
def process (st : State) (input : List Byte) : State :=
  if st.finished then st
  else if st.stored.length ≠ 0 ∧ 64 ≤ input.length + st.stored.length then
    let k := 64 - st.stored.length
    let rest := input.drop k
    processBlocks (rest.length + 1)
      (processBlock { st with stored := [] } (st.stored ++ input.take k)) rest
  else processBlocks (input.length + 1) st input

/-- `memcpy` of an `unsigned int` on a little endian machine. -/
def bytesOf (w : Word) : List Byte :=
  [w.setWidth 8, (w >>> 8).setWidth 8, (w >>> 16).setWidth 8, (w >>> 24).setWidth 8]

/-- `finish`, md5.cpp:144-199: the signature, `none` when the object is finished already (nothing is
written then). -/
def finish (st : State) : Option (List Byte) :=
  if st.finished then none else
  let stored_size := st.stored.length
  let size : Word := BitVec.ofNat 32 stored_size
  let len1 := if st.len0 + size < st.len0 then st.len1 + 1 else st.len1
  let len0 := st.len0 + size
  let pad : Int := 64 - 8 - (stored_size : Int)
  let pad := if pad ≤ 0 then pad + 64 else pad
  let stored := st.stored ++ (if pad > 0 then 0x80 :: List.replicate (pad - 1).toNat 0 else [])
  let size_low : Word := (len0 &&& 0x1FFFFFFF) <<< 3
  let size_high : Word := (len1 <<< 3) ||| ((len0 &&& 0xE0000000) >>> 29)
  let stored := stored ++ bytesOf size_low ++ bytesOf size_high
  let st := processBlock { st with len0 := len0, len1 := len1, stored := stored } (stored.take 64)
  let st := if 64 < stored.length then processBlock st (stored.drop 64) else st
  some (bytesOf st.A ++ bytesOf st.B ++ bytesOf st.C ++ bytesOf st.D)

/-- `HEX_STRING`, md5_loc.h:135, and `sig_to_string`, md5.cpp:484-508, for a buffer of
`MD5_STRING_SIZE` characters, without the terminating zero. -/
def sigToString (sig : List Byte) : List Char :=
  sig.flatMap fun b =>
    ["0123456789abcdef".toList.getD (b.toNat / 16) '?', "0123456789abcdef".toList.getD (b.toNat % 16) '?']

end Md5

namespace Problem

/-- The bytes of a `std::string`. -/
def bytes (s : List Char) : List Byte := s.map fun c => BitVec.ofNat 8 c.toNat

/-- The number of a literal, `Lit::operator int`, SolverTypes.h:104-110: `x = 2 * var + sign`. -/
def litNumber (l : Lit) : Nat := 2 * l.var + (if l.sign then 1 else 0)

/-- The loop of `gbd_hash`, hash.cpp:16-24: `s` is empty for the first clause and a blank for the
others. -/
def gbdLoop : CNF → List Char → Md5.State → Md5.State
  | [], _, st => st
  | c :: cs, s, st =>
    let s := s ++ c.flatMap (fun l => decimal (litNumber l) ++ [' ']) ++ ['0']
    gbdLoop cs [' '] (Md5.process st (bytes s))

/-- `gbd_hash`, hash.cpp:9-29. -/
def gbdHash (p : Problem) : Option (List Char) :=
  (Md5.finish (gbdLoop p.problem [] Md5.State.init)).map Md5.sigToString

/-- `occurrences[lit]`, hash.cpp:36-43: a clause is listed once for each occurrence. -/
def occurrences (F : CNF) (l : Lit) : List Clause :=
  F.flatMap fun c => (c.filter (· = l)).map fun _ => c

/-- `facts`, hash.cpp:37-39. -/
def facts : CNF → List Lit
  | [] => []
  | [l] :: F => l :: facts F
  | _ :: F => facts F

/-- `degrees[lit]--` for all literals of a clause, hash.cpp:50-52. -/
def decrement (degrees : Lit → BitVec 32) (c : Clause) : Lit → BitVec 32 :=
  c.foldl (fun d l k => if k = l then d k - 1 else d k) degrees

/-- The body of the loop over the facts, hash.cpp:48-55. -/
def applyFact (F : CNF) (degrees : Lit → BitVec 32) (l : Lit) : Lit → BitVec 32 :=
  let d := (occurrences F l).foldl decrement degrees
  fun k => if k = l.neg then 0 else d k

/-- One insertion step of `std::sort` on `unsigned int`s. -/
def insertDegree (x : BitVec 32) : List (BitVec 32) → List (BitVec 32)
  | [] => [x]
  | y :: ys => if y < x then y :: insertDegree x ys else x :: y :: ys

/-- `std::sort(degrees.begin(), degrees.end())`, hash.cpp:63. -/
def sortDegrees : List (BitVec 32) → List (BitVec 32)
  | [] => []
  | x :: xs => insertDegree x (sortDegrees xs)

/-- The literals in the order of their numbers. -/
def allLits (n : Nat) : List Lit := (List.range n).flatMap fun v => [⟨v, false⟩, ⟨v, true⟩]

/-- The vector `degrees` after normalisation and sorting, hash.cpp:32-63. Modelled as a function of
the literal until it is sorted; an access outside of the vectors is undefined (`none`). -/
def degreeVector (p : Problem) : Option (List (BitVec 32)) :=
  if ∀ c ∈ p.problem, ∀ l ∈ c, l.var < p.variables then
    let start : Lit → BitVec 32 := fun l => BitVec.ofNat 32 (occurrences p.problem l).length
    let final := (facts p.problem).foldl (applyFact p.problem) start
    some (sortDegrees ((allLits p.variables).map final))
  else none

/-- The output loop of `degree_hash`, hash.cpp:65-71. -/
def degreeLoop : List (BitVec 32) → List Char → Md5.State → Md5.State
  | [], _, st => st
  | d :: ds, s, st =>
    if 0 < d then degreeLoop ds [' '] (Md5.process st (bytes (s ++ decimal d.toNat)))
    else degreeLoop ds s st

/-- `degree_hash`, hash.cpp:31-76. -/
def degreeHash (p : Problem) : Option (List Char) :=
  (degreeVector p).bind fun ds =>
    (Md5.finish (degreeLoop ds [] Md5.State.init)).map Md5.sigToString

end Problem

end Candy
