import Verif.Spec

/-!
# MD5 as RFC 1321 describes it

A specification independent of the code: the message is padded as a whole, cut into blocks of 64
bytes, and the 64 steps of each block are described by their step number. The table of constants
`T[i] = floor(2^32 * |sin (i + 1)|)` is written out, as in the RFC.
-/

namespace Candy

abbrev Byte := BitVec 8
abbrev Word := BitVec 32

namespace Rfc1321

/-- Step 3: the four words of the state. -/
structure Regs where
  a : Word
  b : Word
  c : Word
  d : Word
deriving DecidableEq

def start : Regs := ⟨0x67452301, 0xefcdab89, 0x98badcfe, 0x10325476⟩

/-- The table `T` of step 4. -/
def T : List Word := [
  0xd76aa478, 0xe8c7b756, 0x242070db, 0xc1bdceee, 0xf57c0faf, 0x4787c62a, 0xa8304613, 0xfd469501,
  0x698098d8, 0x8b44f7af, 0xffff5bb1, 0x895cd7be, 0x6b901122, 0xfd987193, 0xa679438e, 0x49b40821,
  0xf61e2562, 0xc040b340, 0x265e5a51, 0xe9b6c7aa, 0xd62f105d, 0x02441453, 0xd8a1e681, 0xe7d3fbc8,
  0x21e1cde6, 0xc33707d6, 0xf4d50d87, 0x455a14ed, 0xa9e3e905, 0xfcefa3f8, 0x676f02d9, 0x8d2a4c8a,
  0xfffa3942, 0x8771f681, 0x6d9d6122, 0xfde5380c, 0xa4beea44, 0x4bdecfa9, 0xf6bb4b60, 0xbebfbc70,
  0x289b7ec6, 0xeaa127fa, 0xd4ef3085, 0x04881d05, 0xd9d4d039, 0xe6db99e5, 0x1fa27cf8, 0xc4ac5665,
  0xf4292244, 0x432aff97, 0xab9423a7, 0xfc93a039, 0x655b59c3, 0x8f0ccc92, 0xffeff47d, 0x85845dd1,
  0x6fa87e4f, 0xfe2ce6e0, 0xa3014314, 0x4e0811a1, 0xf7537e82, 0xbd3af235, 0x2ad7d2bb, 0xeb86d391]

/-- The rotations of the four rounds. -/
def rot : List (List Nat) := [[7, 12, 17, 22], [5, 9, 14, 20], [4, 11, 16, 23], [6, 10, 15, 21]]

/-- The auxiliary function of round `r`. -/
def aux (r : Nat) (x y z : Word) : Word :=
  match r with
  | 0 => (x &&& y) ||| (~~~x &&& z)
  | 1 => (x &&& z) ||| (y &&& ~~~z)
  | 2 => x ^^^ y ^^^ z
  | _ => y ^^^ (x ||| ~~~z)

/-- The word of the block that step `i` uses. -/
def wordIndex (i : Nat) : Nat :=
  match i / 16 with
  | 0 => i
  | 1 => (5 * i + 1) % 16
  | 2 => (3 * i + 5) % 16
  | _ => (7 * i) % 16

/-- Step `i`: `a = b + ((a + aux(b,c,d) + X[k] + T[i]) <<< s)`, then the registers turn
(`ABCD`, `DABC`, `CDAB`, `BCDA`). -/
def step (X : List Word) (s : Regs) (i : Nat) : Regs :=
  let r := i / 16
  let t := s.a + (aux r s.b s.c s.d + X.getD (wordIndex i) 0 + T.getD i 0)
  ⟨s.d, s.b + t.rotateLeft ((rot.getD r []).getD (i % 4) 0), s.b, s.c⟩

/-- A word of the block, least significant byte first. -/
def word (block : List Byte) (i : Nat) : Word :=
  ((block.getD (4 * i + 3) 0 ++ block.getD (4 * i + 2) 0) ++
    (block.getD (4 * i + 1) 0 ++ block.getD (4 * i) 0) : BitVec 32)

/-- The effect of one block of 64 bytes. -/
def compress (s : Regs) (block : List Byte) : Regs :=
  let r := (List.range 64).foldl (step ((List.range 16).map (word block))) s
  ⟨s.a + r.a, s.b + r.b, s.c + r.c, s.d + r.d⟩

/-- The bytes of a number, least significant first. -/
def leBytes : Nat → Nat → List Byte
  | 0, _ => []
  | k + 1, n => BitVec.ofNat 8 n :: leBytes k (n / 256)

/-- Steps 1 and 2: a one bit, zeros up to 56 modulo 64, the length in bits (low 64 bits). -/
def padded (msg : List Byte) : List Byte :=
  msg ++ 0x80 :: List.replicate ((119 - msg.length % 64) % 64) 0 ++ leBytes 8 (8 * msg.length)

/-- The blocks of a padded message, in order. The first argument is the number of blocks. -/
def blocks : Nat → List Byte → List (List Byte)
  | 0, _ => []
  | k + 1, bs => bs.take 64 :: blocks k (bs.drop 64)

/-- The digest: 16 bytes. -/
def md5 (msg : List Byte) : List Byte :=
  let p := padded msg
  let r := (blocks (p.length / 64) p).foldl compress start
  leBytes 4 r.a.toNat ++ leBytes 4 r.b.toNat ++ leBytes 4 r.c.toNat ++ leBytes 4 r.d.toNat

def hexDigit (n : Nat) : Char := "0123456789abcdef".toList.getD n '?'

/-- The digest as 32 hexadecimal digits. -/
def hex (bs : List Byte) : List Char :=
  bs.flatMap fun b => [hexDigit (b.toNat / 16), hexDigit (b.toNat % 16)]

def ascii (s : List Char) : List Byte := s.map fun c => BitVec.ofNat 8 c.toNat

/-- The test vectors of the RFC, appendix A.5: the specification is MD5. -/
example : hex (md5 (ascii "".toList)) = "d41d8cd98f00b204e9800998ecf8427e".toList := by
  decide +kernel
example : hex (md5 (ascii "abc".toList)) = "900150983cd24fb0d6963f7d28e17f72".toList := by
  decide +kernel
example : hex (md5 (ascii
    "12345678901234567890123456789012345678901234567890123456789012345678901234567890".toList)) =
    "57edf4a22be3c955ac49da2e2107b67a".toList := by
  decide +kernel

end Rfc1321

end Candy
