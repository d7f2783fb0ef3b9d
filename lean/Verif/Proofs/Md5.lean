import Verif.Model.Hash
import Verif.Proofs.DimacsText

/-! # The model of MD5 computes the digest of RFC 1321 -/

namespace Candy
namespace Md5

open Rfc1321 (Regs)

theorem rotate_eq (d : Word) {n : Nat} (h : n < 32) : rotate d n = d.rotateLeft n := by
  simp only [BitVec.rotateLeft, BitVec.rotateLeftAux, rotate, Nat.mod_eq_of_lt h]

theorem wordAt_eq (block : List Byte) (i : Nat) : wordAt block i = Rfc1321.word block i := by
  unfold wordAt Rfc1321.word
  generalize block.getD (4 * i) 0 = x
  generalize block.getD (4 * i + 1) 0 = y
  generalize block.getD (4 * i + 2) 0 = z
  generalize block.getD (4 * i + 3) 0 = w
  apply BitVec.eq_of_getLsbD_eq
  intro j hj
  simp only [BitVec.getLsbD_or, BitVec.getLsbD_shiftLeft, BitVec.getLsbD_setWidth,
    BitVec.getLsbD_append]
  rcases Nat.lt_or_ge j 8 with h1 | h1
  · have h2 : j < 16 := by omega
    have h3 : j < 24 := by omega
    simp [h1, h2, h3, hj]
  · rcases Nat.lt_or_ge j 16 with h2 | h2
    · have h3 : j < 24 := by omega
      have : ¬ j < 8 := by omega
      simp [this, h2, h3, hj, show j - 8 < 8 by omega, BitVec.getLsbD_of_ge x j h1]
      omega
    · rcases Nat.lt_or_ge j 24 with h3 | h3
      · simp [h3, hj, show ¬ j < 8 by omega, show ¬ j < 16 by omega, show j - 16 < 8 by omega,
          BitVec.getLsbD_of_ge x j h1, BitVec.getLsbD_of_ge y (j - 8) (by omega)]
        omega
      · simp [hj, show ¬ j < 8 by omega, show ¬ j < 16 by omega, show ¬ j < 24 by omega,
          show ¬ j - 16 < 8 by omega, show j - 16 - 8 = j - 24 by omega,
          BitVec.getLsbD_of_ge x j h1, BitVec.getLsbD_of_ge y (j - 8) (by omega),
          BitVec.getLsbD_of_ge z (j - 16) (by omega)]
        omega

theorem word_getD (block : List Byte) {k : Nat} (h : k < 16) :
    ((List.range 16).map (Rfc1321.word block)).getD k 0 = wordAt block k := by
  rw [wordAt_eq]
  simp [List.getD_eq_getElem?_getD, h]

theorem step_F (block : List Byte) (a b c d : Word) {i : Nat} (h : i < 16) :
    Rfc1321.step ((List.range 16).map (Rfc1321.word block)) ⟨a, b, c, d⟩ i =
      ⟨d, FF a b c d (wordAt block i) (i % 4) i, b, c⟩ := by
  have h1 : i / 16 = 0 := by omega
  have h2 : Rfc1321.wordIndex i = i := by simp [Rfc1321.wordIndex, h1]
  simp only [Rfc1321.step, h1, h2, word_getD block h, FF]
  rw [rotate_eq, BitVec.add_comm]
  · rfl
  · have : i % 4 = 0 ∨ i % 4 = 1 ∨ i % 4 = 2 ∨ i % 4 = 3 := by omega
    rcases this with e | e | e | e <;> rw [e] <;> decide


theorem step_G (block : List Byte) (a b c d : Word) {i : Nat} (h0 : 16 ≤ i) (h : i < 32) :
    Rfc1321.step ((List.range 16).map (Rfc1321.word block)) ⟨a, b, c, d⟩ i =
      ⟨d, GG a b c d (wordAt block ((5 * i + 1) % 16)) (i % 4) i, b, c⟩ := by
  have h1 : i / 16 = 1 := by omega
  have h2 : Rfc1321.wordIndex i = (5 * i + 1) % 16 := by simp [Rfc1321.wordIndex, h1]
  simp only [Rfc1321.step, h1, h2, word_getD block (show (5 * i + 1) % 16 < 16 by omega), GG]
  rw [rotate_eq, BitVec.add_comm]
  · rfl
  · have : i % 4 = 0 ∨ i % 4 = 1 ∨ i % 4 = 2 ∨ i % 4 = 3 := by omega
    rcases this with e | e | e | e <;> rw [e] <;> decide


theorem step_H (block : List Byte) (a b c d : Word) {i : Nat} (h0 : 32 ≤ i) (h : i < 48) :
    Rfc1321.step ((List.range 16).map (Rfc1321.word block)) ⟨a, b, c, d⟩ i =
      ⟨d, HH a b c d (wordAt block ((3 * i + 5) % 16)) (i % 4) i, b, c⟩ := by
  have h1 : i / 16 = 2 := by omega
  have h2 : Rfc1321.wordIndex i = (3 * i + 5) % 16 := by simp [Rfc1321.wordIndex, h1]
  simp only [Rfc1321.step, h1, h2, word_getD block (show (3 * i + 5) % 16 < 16 by omega), HH]
  rw [rotate_eq, BitVec.add_comm]
  · rfl
  · have : i % 4 = 0 ∨ i % 4 = 1 ∨ i % 4 = 2 ∨ i % 4 = 3 := by omega
    rcases this with e | e | e | e <;> rw [e] <;> decide


theorem step_I (block : List Byte) (a b c d : Word) {i : Nat} (h0 : 48 ≤ i) (h : i < 64) :
    Rfc1321.step ((List.range 16).map (Rfc1321.word block)) ⟨a, b, c, d⟩ i =
      ⟨d, II a b c d (wordAt block ((7 * i) % 16)) (i % 4) i, b, c⟩ := by
  have h1 : i / 16 = 3 := by omega
  have h2 : Rfc1321.wordIndex i = (7 * i) % 16 := by simp [Rfc1321.wordIndex, h1]
  simp only [Rfc1321.step, h1, h2, word_getD block (show (7 * i) % 16 < 16 by omega), II]
  rw [rotate_eq, BitVec.add_comm]
  · rfl
  · have : i % 4 = 0 ∨ i % 4 = 1 ∨ i % 4 = 2 ∨ i % 4 = 3 := by omega
    rcases this with e | e | e | e <;> rw [e] <;> decide


/-- The registers of a state. -/
def State.regs (st : State) : Regs := ⟨st.A, st.B, st.C, st.D⟩

theorem processBlock_regs (st : State) (block : List Byte) :
    (processBlock st block).regs = Rfc1321.compress st.regs block := by
  unfold processBlock
  extract_lets len1 len0 X A B C D A0 D1 C2 B3 A4 D5 C6 B7 A8 D9 C10 B11 A12 D13 C14 B15 A16 D17 C18 B19 A20 D21 C22 B23 A24 D25 C26 B27 A28 D29 C30 B31 A32 D33 C34 B35 A36 D37 C38 B39 A40 D41 C42 B43 A44 D45 C46 B47 A48 D49 C50 B51 A52 D53 C54 B55 A56 D57 C58 B59 A60 D61 C62 B63
  have hX : X = wordAt block := rfl
  have h0 : Rfc1321.step ((List.range 16).map (Rfc1321.word block)) ⟨A, B, C, D⟩ 0 = ⟨D, A0, B, C⟩ :=
    step_F block A B C D (i := 0) (by omega)
  have h1 : Rfc1321.step ((List.range 16).map (Rfc1321.word block)) ⟨D, A0, B, C⟩ 1 = ⟨C, D1, A0, B⟩ :=
    step_F block D A0 B C (i := 1) (by omega)
  have h2 : Rfc1321.step ((List.range 16).map (Rfc1321.word block)) ⟨C, D1, A0, B⟩ 2 = ⟨B, C2, D1, A0⟩ :=
    step_F block C D1 A0 B (i := 2) (by omega)
  have h3 : Rfc1321.step ((List.range 16).map (Rfc1321.word block)) ⟨B, C2, D1, A0⟩ 3 = ⟨A0, B3, C2, D1⟩ :=
    step_F block B C2 D1 A0 (i := 3) (by omega)
  have h4 : Rfc1321.step ((List.range 16).map (Rfc1321.word block)) ⟨A0, B3, C2, D1⟩ 4 = ⟨D1, A4, B3, C2⟩ :=
    step_F block A0 B3 C2 D1 (i := 4) (by omega)
  have h5 : Rfc1321.step ((List.range 16).map (Rfc1321.word block)) ⟨D1, A4, B3, C2⟩ 5 = ⟨C2, D5, A4, B3⟩ :=
    step_F block D1 A4 B3 C2 (i := 5) (by omega)
  have h6 : Rfc1321.step ((List.range 16).map (Rfc1321.word block)) ⟨C2, D5, A4, B3⟩ 6 = ⟨B3, C6, D5, A4⟩ :=
    step_F block C2 D5 A4 B3 (i := 6) (by omega)
  have h7 : Rfc1321.step ((List.range 16).map (Rfc1321.word block)) ⟨B3, C6, D5, A4⟩ 7 = ⟨A4, B7, C6, D5⟩ :=
    step_F block B3 C6 D5 A4 (i := 7) (by omega)
  have h8 : Rfc1321.step ((List.range 16).map (Rfc1321.word block)) ⟨A4, B7, C6, D5⟩ 8 = ⟨D5, A8, B7, C6⟩ :=
    step_F block A4 B7 C6 D5 (i := 8) (by omega)
  have h9 : Rfc1321.step ((List.range 16).map (Rfc1321.word block)) ⟨D5, A8, B7, C6⟩ 9 = ⟨C6, D9, A8, B7⟩ :=
    step_F block D5 A8 B7 C6 (i := 9) (by omega)
  have h10 : Rfc1321.step ((List.range 16).map (Rfc1321.word block)) ⟨C6, D9, A8, B7⟩ 10 = ⟨B7, C10, D9, A8⟩ :=
    step_F block C6 D9 A8 B7 (i := 10) (by omega)
  have h11 : Rfc1321.step ((List.range 16).map (Rfc1321.word block)) ⟨B7, C10, D9, A8⟩ 11 = ⟨A8, B11, C10, D9⟩ :=
    step_F block B7 C10 D9 A8 (i := 11) (by omega)
  have h12 : Rfc1321.step ((List.range 16).map (Rfc1321.word block)) ⟨A8, B11, C10, D9⟩ 12 = ⟨D9, A12, B11, C10⟩ :=
    step_F block A8 B11 C10 D9 (i := 12) (by omega)
  have h13 : Rfc1321.step ((List.range 16).map (Rfc1321.word block)) ⟨D9, A12, B11, C10⟩ 13 = ⟨C10, D13, A12, B11⟩ :=
    step_F block D9 A12 B11 C10 (i := 13) (by omega)
  have h14 : Rfc1321.step ((List.range 16).map (Rfc1321.word block)) ⟨C10, D13, A12, B11⟩ 14 = ⟨B11, C14, D13, A12⟩ :=
    step_F block C10 D13 A12 B11 (i := 14) (by omega)
  have h15 : Rfc1321.step ((List.range 16).map (Rfc1321.word block)) ⟨B11, C14, D13, A12⟩ 15 = ⟨A12, B15, C14, D13⟩ :=
    step_F block B11 C14 D13 A12 (i := 15) (by omega)
  have h16 : Rfc1321.step ((List.range 16).map (Rfc1321.word block)) ⟨A12, B15, C14, D13⟩ 16 = ⟨D13, A16, B15, C14⟩ :=
    step_G block A12 B15 C14 D13 (i := 16) (by omega) (by omega)
  have h17 : Rfc1321.step ((List.range 16).map (Rfc1321.word block)) ⟨D13, A16, B15, C14⟩ 17 = ⟨C14, D17, A16, B15⟩ :=
    step_G block D13 A16 B15 C14 (i := 17) (by omega) (by omega)
  have h18 : Rfc1321.step ((List.range 16).map (Rfc1321.word block)) ⟨C14, D17, A16, B15⟩ 18 = ⟨B15, C18, D17, A16⟩ :=
    step_G block C14 D17 A16 B15 (i := 18) (by omega) (by omega)
  have h19 : Rfc1321.step ((List.range 16).map (Rfc1321.word block)) ⟨B15, C18, D17, A16⟩ 19 = ⟨A16, B19, C18, D17⟩ :=
    step_G block B15 C18 D17 A16 (i := 19) (by omega) (by omega)
  have h20 : Rfc1321.step ((List.range 16).map (Rfc1321.word block)) ⟨A16, B19, C18, D17⟩ 20 = ⟨D17, A20, B19, C18⟩ :=
    step_G block A16 B19 C18 D17 (i := 20) (by omega) (by omega)
  have h21 : Rfc1321.step ((List.range 16).map (Rfc1321.word block)) ⟨D17, A20, B19, C18⟩ 21 = ⟨C18, D21, A20, B19⟩ :=
    step_G block D17 A20 B19 C18 (i := 21) (by omega) (by omega)
  have h22 : Rfc1321.step ((List.range 16).map (Rfc1321.word block)) ⟨C18, D21, A20, B19⟩ 22 = ⟨B19, C22, D21, A20⟩ :=
    step_G block C18 D21 A20 B19 (i := 22) (by omega) (by omega)
  have h23 : Rfc1321.step ((List.range 16).map (Rfc1321.word block)) ⟨B19, C22, D21, A20⟩ 23 = ⟨A20, B23, C22, D21⟩ :=
    step_G block B19 C22 D21 A20 (i := 23) (by omega) (by omega)
  have h24 : Rfc1321.step ((List.range 16).map (Rfc1321.word block)) ⟨A20, B23, C22, D21⟩ 24 = ⟨D21, A24, B23, C22⟩ :=
    step_G block A20 B23 C22 D21 (i := 24) (by omega) (by omega)
  have h25 : Rfc1321.step ((List.range 16).map (Rfc1321.word block)) ⟨D21, A24, B23, C22⟩ 25 = ⟨C22, D25, A24, B23⟩ :=
    step_G block D21 A24 B23 C22 (i := 25) (by omega) (by omega)
  have h26 : Rfc1321.step ((List.range 16).map (Rfc1321.word block)) ⟨C22, D25, A24, B23⟩ 26 = ⟨B23, C26, D25, A24⟩ :=
    step_G block C22 D25 A24 B23 (i := 26) (by omega) (by omega)
  have h27 : Rfc1321.step ((List.range 16).map (Rfc1321.word block)) ⟨B23, C26, D25, A24⟩ 27 = ⟨A24, B27, C26, D25⟩ :=
    step_G block B23 C26 D25 A24 (i := 27) (by omega) (by omega)
  have h28 : Rfc1321.step ((List.range 16).map (Rfc1321.word block)) ⟨A24, B27, C26, D25⟩ 28 = ⟨D25, A28, B27, C26⟩ :=
    step_G block A24 B27 C26 D25 (i := 28) (by omega) (by omega)
  have h29 : Rfc1321.step ((List.range 16).map (Rfc1321.word block)) ⟨D25, A28, B27, C26⟩ 29 = ⟨C26, D29, A28, B27⟩ :=
    step_G block D25 A28 B27 C26 (i := 29) (by omega) (by omega)
  have h30 : Rfc1321.step ((List.range 16).map (Rfc1321.word block)) ⟨C26, D29, A28, B27⟩ 30 = ⟨B27, C30, D29, A28⟩ :=
    step_G block C26 D29 A28 B27 (i := 30) (by omega) (by omega)
  have h31 : Rfc1321.step ((List.range 16).map (Rfc1321.word block)) ⟨B27, C30, D29, A28⟩ 31 = ⟨A28, B31, C30, D29⟩ :=
    step_G block B27 C30 D29 A28 (i := 31) (by omega) (by omega)
  have h32 : Rfc1321.step ((List.range 16).map (Rfc1321.word block)) ⟨A28, B31, C30, D29⟩ 32 = ⟨D29, A32, B31, C30⟩ :=
    step_H block A28 B31 C30 D29 (i := 32) (by omega) (by omega)
  have h33 : Rfc1321.step ((List.range 16).map (Rfc1321.word block)) ⟨D29, A32, B31, C30⟩ 33 = ⟨C30, D33, A32, B31⟩ :=
    step_H block D29 A32 B31 C30 (i := 33) (by omega) (by omega)
  have h34 : Rfc1321.step ((List.range 16).map (Rfc1321.word block)) ⟨C30, D33, A32, B31⟩ 34 = ⟨B31, C34, D33, A32⟩ :=
    step_H block C30 D33 A32 B31 (i := 34) (by omega) (by omega)
  have h35 : Rfc1321.step ((List.range 16).map (Rfc1321.word block)) ⟨B31, C34, D33, A32⟩ 35 = ⟨A32, B35, C34, D33⟩ :=
    step_H block B31 C34 D33 A32 (i := 35) (by omega) (by omega)
  have h36 : Rfc1321.step ((List.range 16).map (Rfc1321.word block)) ⟨A32, B35, C34, D33⟩ 36 = ⟨D33, A36, B35, C34⟩ :=
    step_H block A32 B35 C34 D33 (i := 36) (by omega) (by omega)
  have h37 : Rfc1321.step ((List.range 16).map (Rfc1321.word block)) ⟨D33, A36, B35, C34⟩ 37 = ⟨C34, D37, A36, B35⟩ :=
    step_H block D33 A36 B35 C34 (i := 37) (by omega) (by omega)
  have h38 : Rfc1321.step ((List.range 16).map (Rfc1321.word block)) ⟨C34, D37, A36, B35⟩ 38 = ⟨B35, C38, D37, A36⟩ :=
    step_H block C34 D37 A36 B35 (i := 38) (by omega) (by omega)
  have h39 : Rfc1321.step ((List.range 16).map (Rfc1321.word block)) ⟨B35, C38, D37, A36⟩ 39 = ⟨A36, B39, C38, D37⟩ :=
    step_H block B35 C38 D37 A36 (i := 39) (by omega) (by omega)
  have h40 : Rfc1321.step ((List.range 16).map (Rfc1321.word block)) ⟨A36, B39, C38, D37⟩ 40 = ⟨D37, A40, B39, C38⟩ :=
    step_H block A36 B39 C38 D37 (i := 40) (by omega) (by omega)
  have h41 : Rfc1321.step ((List.range 16).map (Rfc1321.word block)) ⟨D37, A40, B39, C38⟩ 41 = ⟨C38, D41, A40, B39⟩ :=
    step_H block D37 A40 B39 C38 (i := 41) (by omega) (by omega)
  have h42 : Rfc1321.step ((List.range 16).map (Rfc1321.word block)) ⟨C38, D41, A40, B39⟩ 42 = ⟨B39, C42, D41, A40⟩ :=
    step_H block C38 D41 A40 B39 (i := 42) (by omega) (by omega)
  have h43 : Rfc1321.step ((List.range 16).map (Rfc1321.word block)) ⟨B39, C42, D41, A40⟩ 43 = ⟨A40, B43, C42, D41⟩ :=
    step_H block B39 C42 D41 A40 (i := 43) (by omega) (by omega)
  have h44 : Rfc1321.step ((List.range 16).map (Rfc1321.word block)) ⟨A40, B43, C42, D41⟩ 44 = ⟨D41, A44, B43, C42⟩ :=
    step_H block A40 B43 C42 D41 (i := 44) (by omega) (by omega)
  have h45 : Rfc1321.step ((List.range 16).map (Rfc1321.word block)) ⟨D41, A44, B43, C42⟩ 45 = ⟨C42, D45, A44, B43⟩ :=
    step_H block D41 A44 B43 C42 (i := 45) (by omega) (by omega)
  have h46 : Rfc1321.step ((List.range 16).map (Rfc1321.word block)) ⟨C42, D45, A44, B43⟩ 46 = ⟨B43, C46, D45, A44⟩ :=
    step_H block C42 D45 A44 B43 (i := 46) (by omega) (by omega)
  have h47 : Rfc1321.step ((List.range 16).map (Rfc1321.word block)) ⟨B43, C46, D45, A44⟩ 47 = ⟨A44, B47, C46, D45⟩ :=
    step_H block B43 C46 D45 A44 (i := 47) (by omega) (by omega)
  have h48 : Rfc1321.step ((List.range 16).map (Rfc1321.word block)) ⟨A44, B47, C46, D45⟩ 48 = ⟨D45, A48, B47, C46⟩ :=
    step_I block A44 B47 C46 D45 (i := 48) (by omega) (by omega)
  have h49 : Rfc1321.step ((List.range 16).map (Rfc1321.word block)) ⟨D45, A48, B47, C46⟩ 49 = ⟨C46, D49, A48, B47⟩ :=
    step_I block D45 A48 B47 C46 (i := 49) (by omega) (by omega)
  have h50 : Rfc1321.step ((List.range 16).map (Rfc1321.word block)) ⟨C46, D49, A48, B47⟩ 50 = ⟨B47, C50, D49, A48⟩ :=
    step_I block C46 D49 A48 B47 (i := 50) (by omega) (by omega)
  have h51 : Rfc1321.step ((List.range 16).map (Rfc1321.word block)) ⟨B47, C50, D49, A48⟩ 51 = ⟨A48, B51, C50, D49⟩ :=
    step_I block B47 C50 D49 A48 (i := 51) (by omega) (by omega)
  have h52 : Rfc1321.step ((List.range 16).map (Rfc1321.word block)) ⟨A48, B51, C50, D49⟩ 52 = ⟨D49, A52, B51, C50⟩ :=
    step_I block A48 B51 C50 D49 (i := 52) (by omega) (by omega)
  have h53 : Rfc1321.step ((List.range 16).map (Rfc1321.word block)) ⟨D49, A52, B51, C50⟩ 53 = ⟨C50, D53, A52, B51⟩ :=
    step_I block D49 A52 B51 C50 (i := 53) (by omega) (by omega)
  have h54 : Rfc1321.step ((List.range 16).map (Rfc1321.word block)) ⟨C50, D53, A52, B51⟩ 54 = ⟨B51, C54, D53, A52⟩ :=
    step_I block C50 D53 A52 B51 (i := 54) (by omega) (by omega)
  have h55 : Rfc1321.step ((List.range 16).map (Rfc1321.word block)) ⟨B51, C54, D53, A52⟩ 55 = ⟨A52, B55, C54, D53⟩ :=
    step_I block B51 C54 D53 A52 (i := 55) (by omega) (by omega)
  have h56 : Rfc1321.step ((List.range 16).map (Rfc1321.word block)) ⟨A52, B55, C54, D53⟩ 56 = ⟨D53, A56, B55, C54⟩ :=
    step_I block A52 B55 C54 D53 (i := 56) (by omega) (by omega)
  have h57 : Rfc1321.step ((List.range 16).map (Rfc1321.word block)) ⟨D53, A56, B55, C54⟩ 57 = ⟨C54, D57, A56, B55⟩ :=
    step_I block D53 A56 B55 C54 (i := 57) (by omega) (by omega)
  have h58 : Rfc1321.step ((List.range 16).map (Rfc1321.word block)) ⟨C54, D57, A56, B55⟩ 58 = ⟨B55, C58, D57, A56⟩ :=
    step_I block C54 D57 A56 B55 (i := 58) (by omega) (by omega)
  have h59 : Rfc1321.step ((List.range 16).map (Rfc1321.word block)) ⟨B55, C58, D57, A56⟩ 59 = ⟨A56, B59, C58, D57⟩ :=
    step_I block B55 C58 D57 A56 (i := 59) (by omega) (by omega)
  have h60 : Rfc1321.step ((List.range 16).map (Rfc1321.word block)) ⟨A56, B59, C58, D57⟩ 60 = ⟨D57, A60, B59, C58⟩ :=
    step_I block A56 B59 C58 D57 (i := 60) (by omega) (by omega)
  have h61 : Rfc1321.step ((List.range 16).map (Rfc1321.word block)) ⟨D57, A60, B59, C58⟩ 61 = ⟨C58, D61, A60, B59⟩ :=
    step_I block D57 A60 B59 C58 (i := 61) (by omega) (by omega)
  have h62 : Rfc1321.step ((List.range 16).map (Rfc1321.word block)) ⟨C58, D61, A60, B59⟩ 62 = ⟨B59, C62, D61, A60⟩ :=
    step_I block C58 D61 A60 B59 (i := 62) (by omega) (by omega)
  have h63 : Rfc1321.step ((List.range 16).map (Rfc1321.word block)) ⟨B59, C62, D61, A60⟩ 63 = ⟨A60, B63, C62, D61⟩ :=
    step_I block B59 C62 D61 A60 (i := 63) (by omega) (by omega)
  have hr : List.range 64 = [0, 1, 2, 3, 4, 5, 6, 7, 8, 9, 10, 11, 12, 13, 14, 15, 16, 17, 18, 19, 20, 21, 22, 23, 24, 25, 26, 27, 28, 29, 30, 31, 32, 33, 34, 35, 36, 37, 38, 39, 40, 41, 42, 43, 44, 45, 46, 47, 48, 49, 50, 51, 52, 53, 54, 55, 56, 57, 58, 59, 60, 61, 62, 63] := by decide +kernel
  have hs : st.regs = ⟨A, B, C, D⟩ := rfl
  have hf : (List.range 64).foldl (Rfc1321.step ((List.range 16).map (Rfc1321.word block))) ⟨A, B, C, D⟩ =
      ⟨A60, B63, C62, D61⟩ := by
    clear_value B63 C62 D61 A60 B59 C58 D57 A56 B55 C54 D53 A52 B51 C50 D49 A48 B47 C46 D45 A44 B43 C42 D41 A40 B39 C38 D37 A36 B35 C34 D33 A32 B31 C30 D29 A28 B27 C26 D25 A24 B23 C22 D21 A20 B19 C18 D17 A16 B15 C14 D13 A12 B11 C10 D9 A8 B7 C6 D5 A4 B3 C2 D1 A0
    rw [hr]
    simp only [List.foldl_cons, List.foldl_nil, h0, h1, h2, h3, h4, h5, h6, h7, h8, h9, h10, h11, h12, h13, h14, h15, h16, h17, h18, h19, h20, h21, h22, h23, h24, h25, h26, h27, h28, h29, h30, h31, h32, h33, h34, h35, h36, h37, h38, h39, h40, h41, h42, h43, h44, h45, h46, h47, h48, h49, h50, h51, h52, h53, h54, h55, h56, h57, h58, h59, h60, h61, h62, h63]
  rw [hs]
  simp only [Rfc1321.compress]
  rw [hf]
  simp only [State.regs]
  clear_value B63 C62 D61 A60 B59 C58 D57 A56 B55 C54 D53 A52 B51 C50 D49 A48 B47 C46 D45 A44 B43 C42 D41 A40 B39 C38 D37 A36 B35 C34 D33 A32 B31 C30 D29 A28 B27 C26 D25 A24 B23 C22 D21 A20 B19 C18 D17 A16 B15 C14 D13 A12 B11 C10 D9 A8 B7 C6 D5 A4 B3 C2 D1 A0
  congr 1 <;> exact BitVec.add_comm _ _


theorem processBlock_rest (st : State) (block : List Byte) :
    (processBlock st block).stored = st.stored ∧ (processBlock st block).finished = st.finished ∧
    (processBlock st block).len0 = st.len0 + 64 ∧
    (processBlock st block).len1 = if st.len0 + 64 < st.len0 then st.len1 + 1 else st.len1 := by
  unfold processBlock
  extract_lets
  exact ⟨rfl, rfl, rfl, rfl⟩

end Md5
end Candy
