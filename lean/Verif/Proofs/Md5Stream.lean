import Verif.Proofs.Md5

/-! # The buffering of MD5 does not change the digest -/

namespace Candy
namespace Md5

attribute [local irreducible] processBlock

/-! ## The length counter -/

theorem processBlock_stored (st : State) (block : List Byte) :
    (processBlock st block).stored = st.stored := (processBlock_rest st block).1

theorem processBlock_finished (st : State) (block : List Byte) :
    (processBlock st block).finished = st.finished := (processBlock_rest st block).2.1

theorem processBlock_len0 (st : State) (block : List Byte) :
    (processBlock st block).len0 = st.len0 + 64 := (processBlock_rest st block).2.2.1

theorem processBlock_len1 (st : State) (block : List Byte) :
    (processBlock st block).len1 = if st.len0 + 64 < st.len0 then st.len1 + 1 else st.len1 :=
  (processBlock_rest st block).2.2.2

theorem len_carry (n k : Nat) (hk : k < 2 ^ 32) :
    (if BitVec.ofNat 32 n + BitVec.ofNat 32 k < BitVec.ofNat 32 n
      then BitVec.ofNat 32 (n / 2 ^ 32) + 1 else BitVec.ofNat 32 (n / 2 ^ 32)) =
    BitVec.ofNat 32 ((n + k) / 2 ^ 32) := by
  by_cases h : BitVec.ofNat 32 n + BitVec.ofNat 32 k < BitVec.ofNat 32 n
  · rw [if_pos h]
    have h' : (n % 2 ^ 32 + k % 2 ^ 32) % 2 ^ 32 < n % 2 ^ 32 := by
      simpa [BitVec.lt_def, BitVec.toNat_add, BitVec.toNat_ofNat] using h
    apply BitVec.eq_of_toNat_eq
    simp only [BitVec.toNat_add, BitVec.toNat_ofNat, show (1 : BitVec 32).toNat = 1 from rfl]
    omega
  · rw [if_neg h]
    have h' : ¬ (n % 2 ^ 32 + k % 2 ^ 32) % 2 ^ 32 < n % 2 ^ 32 := by
      simpa [BitVec.lt_def, BitVec.toNat_add, BitVec.toNat_ofNat] using h
    apply BitVec.eq_of_toNat_eq
    simp only [BitVec.toNat_ofNat]
    omega

/-! ## The buffer -/

/-- The complete blocks `pre` have been processed. -/
structure Done (pre : List Byte) (st : State) : Prop where
  open_ : st.finished = false
  mult : pre.length = 64 * (pre.length / 64)
  regs : st.regs = (Rfc1321.blocks (pre.length / 64) pre).foldl Rfc1321.compress Rfc1321.start
  len0 : st.len0 = BitVec.ofNat 32 pre.length
  len1 : st.len1 = BitVec.ofNat 32 (pre.length / 2 ^ 32)

/-- The message `m` has been processed: complete blocks, and the rest is stored. -/
def Holds (m : List Byte) (st : State) : Prop :=
  ∃ pre, m = pre ++ st.stored ∧ st.stored.length < 64 ∧ Done pre st

theorem holds_init : Holds [] State.init :=
  ⟨[], rfl, by decide, ⟨rfl, rfl, rfl, rfl, rfl⟩⟩

theorem Done.congr {pre : List Byte} {st st' : State} (h : Done pre st)
    (e1 : st'.finished = st.finished) (e2 : st'.regs = st.regs) (e3 : st'.len0 = st.len0)
    (e4 : st'.len1 = st.len1) : Done pre st' :=
  ⟨e1.trans h.open_, h.mult, e2.trans h.regs, e3.trans h.len0, e4.trans h.len1⟩

theorem blocks_append : ∀ (k : Nat) (pre rest : List Byte), pre.length = 64 * k → ∀ j,
    Rfc1321.blocks (k + j) (pre ++ rest) = Rfc1321.blocks k pre ++ Rfc1321.blocks j rest := by
  intro k
  induction k with
  | zero => intro pre rest h j; cases pre with
    | nil => simp [Rfc1321.blocks]
    | cons _ _ => simp at h
  | succ k ih =>
    intro pre rest h j
    rw [show k + 1 + j = (k + j) + 1 by omega]
    simp only [Rfc1321.blocks, List.cons_append]
    have h64 : 64 ≤ pre.length := by omega
    rw [List.take_append_of_le_length h64, List.drop_append_of_le_length h64,
      ih _ _ (by simp; omega)]

theorem Done.step {pre : List Byte} {st : State} (h : Done pre st) {block : List Byte}
    (hb : block.length = 64) : Done (pre ++ block) (processBlock st block) := by
  have hm := h.mult
  have hl : (pre ++ block).length = 64 * (pre.length / 64 + 1) := by simp; omega
  have hk : (pre ++ block).length / 64 = pre.length / 64 + 1 := by omega
  refine ⟨(processBlock_finished _ _).trans h.open_, by omega, ?_, ?_, ?_⟩
  · rw [processBlock_regs, hk, blocks_append _ _ _ hm 1, List.foldl_append, ← h.regs]
    simp only [Rfc1321.blocks, List.foldl_cons, List.foldl_nil]
    rw [List.take_of_length_le (by omega)]
  · rw [processBlock_len0, h.len0]
    apply BitVec.eq_of_toNat_eq
    simp [hb]
  · rw [processBlock_len1, h.len0, h.len1]
    have := len_carry pre.length 64 (by decide)
    rw [List.length_append, hb]
    exact this

theorem processBlocks_holds : ∀ (k : Nat) (st : State) (pre input : List Byte), Done pre st →
    st.stored = [] → input.length < k → Holds (pre ++ input) (processBlocks k st input) := by
  intro k
  induction k with
  | zero => intro st pre input _ _ h; omega
  | succ k ih =>
    intro st pre input hd hs hk
    simp only [processBlocks]
    split
    · next h64 =>
      have := ih (processBlock st (input.take 64)) (pre ++ input.take 64) (input.drop 64)
        (hd.step (by simp; omega)) (by rw [processBlock_stored, hs]) (by simp; omega)
      rwa [List.append_assoc, List.take_append_drop] at this
    · next h64 =>
      split
      · next h0 =>
        refine ⟨pre, ?_, ?_, hd.congr rfl rfl rfl rfl⟩
        · simp [hs]
        · simp [hs]; omega
      · next h0 =>
        have : input = [] := by simpa using h0
        subst this
        exact ⟨pre, rfl, by simp, hd.congr rfl rfl rfl rfl⟩

theorem process_holds {m : List Byte} {st : State} (h : Holds m st) {input : List Byte}
    (hi : input ≠ []) : Holds (m ++ input) (process st input) := by
  obtain ⟨pre, hm, hl, hd⟩ := h
  have hpos : 0 < input.length := List.length_pos_iff.2 hi
  simp only [process]
  rw [if_neg (by simp [hd.open_])]
  split
  · next hc =>
    have hd' : Done pre { st with stored := [] } := hd.congr rfl rfl rfl rfl
    have := processBlocks_holds ((input.drop (64 - st.stored.length)).length + 1) _ _
      (input.drop (64 - st.stored.length))
      (hd'.step (block := st.stored ++ input.take (64 - st.stored.length))
        (by simp; omega)) (processBlock_stored _ _) (by omega)
    rw [hm]
    rwa [List.append_assoc, List.append_assoc, List.take_append_drop, ← List.append_assoc] at this
  · next hc =>
    by_cases hs : st.stored = []
    · have := processBlocks_holds (input.length + 1) st pre input hd hs (by omega)
      rw [hm, hs, List.append_nil]
      exact this
    · have hne : st.stored.length ≠ 0 := fun e => hs (List.length_eq_zero_iff.1 e)
      have hlt : input.length + st.stored.length < 64 := by
        rcases Nat.lt_or_ge (input.length + st.stored.length) 64 with h | h
        · exact h
        · exact absurd ⟨hne, h⟩ hc
      have e : processBlocks (input.length + 1) st input = { st with stored := st.stored ++ input } := by
        simp only [processBlocks]
        rw [if_neg (by omega), if_pos (by omega)]
      rw [e, hm]
      exact ⟨pre, by simp, by simp; omega, hd.congr rfl rfl rfl rfl⟩

/-! ## The digest -/

theorem bytesOf_eq (w : Word) : bytesOf w = Rfc1321.leBytes 4 w.toNat := by
  simp only [bytesOf, Rfc1321.leBytes]
  have hw := w.isLt
  refine List.cons_eq_cons.2 ⟨?_, List.cons_eq_cons.2 ⟨?_, List.cons_eq_cons.2 ⟨?_,
    List.cons_eq_cons.2 ⟨?_, rfl⟩⟩⟩⟩ <;> apply BitVec.eq_of_toNat_eq <;>
    simp [BitVec.toNat_setWidth, BitVec.toNat_ushiftRight, Nat.shiftRight_eq_div_pow,
      Nat.div_div_eq_div_mul]

theorem leBytes_congr : ∀ (k : Nat) {n n' : Nat}, n % 256 ^ k = n' % 256 ^ k →
    Rfc1321.leBytes k n = Rfc1321.leBytes k n' := by
  intro k
  induction k with
  | zero => intro _ _ _; rfl
  | succ k ih =>
    intro n n' h
    simp only [Rfc1321.leBytes]
    have h1 : n % 256 = n' % 256 := by
      have := congrArg (· % 256) h
      simpa [Nat.pow_succ, Nat.mod_mul_left_mod] using this
    have h2 : n / 256 % 256 ^ k = n' / 256 % 256 ^ k := by
      have := congrArg (· / 256) h
      simpa [Nat.pow_succ', Nat.mod_mul_right_div_self] using this
    rw [ih h2]
    congr 1
    apply BitVec.eq_of_toNat_eq
    simpa using h1

theorem leBytes_add (a b n : Nat) :
    Rfc1321.leBytes (a + b) n = Rfc1321.leBytes a n ++ Rfc1321.leBytes b (n / 256 ^ a) := by
  induction a generalizing n with
  | zero => simp [Rfc1321.leBytes]
  | succ a ih =>
    rw [show a + 1 + b = (a + b) + 1 by omega]
    simp only [Rfc1321.leBytes, List.cons_append, ih, Nat.div_div_eq_div_mul, Nat.pow_succ']

theorem leBytes_length : ∀ (k n : Nat), (Rfc1321.leBytes k n).length = k
  | 0, _ => rfl
  | k + 1, n => by simp [Rfc1321.leBytes, leBytes_length k]

theorem size_low_eq (n : Nat) :
    (((BitVec.ofNat 32 n &&& 0x1FFFFFFF) <<< 3 : Word)).toNat = (8 * n) % 2 ^ 32 := by
  have h : (BitVec.ofNat 32 n &&& 0x1FFFFFFF : Word).toNat = n % 2 ^ 29 := by
    rw [BitVec.toNat_and, BitVec.toNat_ofNat]
    have : (0x1FFFFFFF : Word).toNat = 2 ^ 29 - 1 := by decide
    rw [this, Nat.and_two_pow_sub_one_eq_mod]
    omega
  rw [BitVec.toNat_shiftLeft, h, Nat.shiftLeft_eq]
  omega

theorem size_high_eq (n : Nat) :
    ((BitVec.ofNat 32 (n / 2 ^ 32) <<< 3 : Word) |||
      ((BitVec.ofNat 32 n &&& 0xE0000000) >>> 29)).toNat = (8 * n / 2 ^ 32) % 2 ^ 32 := by
  have h : (BitVec.ofNat 32 n &&& 0xE0000000 : Word) >>> 29 = BitVec.ofNat 32 n >>> 29 := by
    apply BitVec.eq_of_getLsbD_eq
    intro j hj
    simp only [BitVec.getLsbD_ushiftRight, BitVec.getLsbD_and]
    rcases Nat.lt_or_ge j 3 with h3 | h3
    · have : (0xE0000000 : Word).getLsbD (29 + j) = true := by
        have : j = 0 ∨ j = 1 ∨ j = 2 := by omega
        rcases this with rfl | rfl | rfl <;> decide
      rw [this, Bool.and_true]
    · rw [BitVec.getLsbD_of_ge (BitVec.ofNat 32 n) _ (by omega : 32 ≤ 29 + j), Bool.false_and]
  rw [h, BitVec.toNat_or, BitVec.toNat_shiftLeft, BitVec.toNat_ushiftRight, BitVec.toNat_ofNat,
    BitVec.toNat_ofNat, Nat.shiftRight_eq_div_pow, Nat.shiftLeft_eq]
  have h2 : n / 2 ^ 32 % 2 ^ 32 * 2 ^ 3 % 2 ^ 32 = 2 ^ 3 * (n / 2 ^ 32 % 2 ^ 29) := by omega
  have h3 : n % 2 ^ 32 / 2 ^ 29 < 2 ^ 3 := by omega
  rw [h2, ← Nat.two_pow_add_eq_or_of_lt h3]
  omega

theorem finish_holds {m : List Byte} {st : State} (h : Holds m st) :
    finish st = some (Rfc1321.md5 m) := by
  obtain ⟨pre, hm, hl, hd⟩ := h
  have hmult := hd.mult
  have hlen : m.length = pre.length + st.stored.length := by rw [hm, List.length_append]
  have hmod : m.length % 64 = st.stored.length := by omega
  simp only [finish]
  rw [if_neg (by simp [hd.open_])]
  -- the length
  have h0 : st.len0 + BitVec.ofNat 32 st.stored.length = BitVec.ofNat 32 m.length := by
    rw [hd.len0, hlen]; apply BitVec.eq_of_toNat_eq; simp
  have h1 : (if st.len0 + BitVec.ofNat 32 st.stored.length < st.len0 then st.len1 + 1 else st.len1) =
      BitVec.ofNat 32 (m.length / 2 ^ 32) := by
    rw [hd.len0, hd.len1, hlen]
    exact len_carry _ _ (by omega)
  rw [h0] at h1
  rw [h0, h1]
  have hsz (x : List Byte) : x ++ bytesOf ((BitVec.ofNat 32 m.length &&& 0x1FFFFFFF) <<< 3) ++
      bytesOf ((BitVec.ofNat 32 (m.length / 2 ^ 32) <<< 3 : Word) |||
        ((BitVec.ofNat 32 m.length &&& 0xE0000000) >>> 29)) = x ++ Rfc1321.leBytes 8 (8 * m.length) := by
    rw [List.append_assoc, bytesOf_eq, bytesOf_eq, size_low_eq, size_high_eq, leBytes_add 4 4]
    congr 2
    · exact leBytes_congr 4 (by omega)
    · exact leBytes_congr 4 (by omega)
  rw [hsz]
  -- the padding
  have hpad : (if (if (64 - 8 - (st.stored.length : Int)) ≤ 0 then 64 - 8 - (st.stored.length : Int) + 64
        else 64 - 8 - (st.stored.length : Int)) > 0 then
      (0x80 : Byte) :: List.replicate ((if (64 - 8 - (st.stored.length : Int)) ≤ 0
        then 64 - 8 - (st.stored.length : Int) + 64
        else 64 - 8 - (st.stored.length : Int)) - 1).toNat 0 else []) =
      0x80 :: List.replicate ((119 - m.length % 64) % 64) 0 := by
    rw [hmod]
    by_cases hc : (64 - 8 - (st.stored.length : Int)) ≤ 0
    · rw [if_pos hc, if_pos (by omega)]
      congr 2
      omega
    · rw [if_neg hc, if_pos (by omega)]
      congr 2
      omega
  rw [hpad]
  generalize hz : (0x80 : Byte) :: List.replicate ((119 - m.length % 64) % 64) 0 = z
  have hzl : z.length = 1 + (119 - m.length % 64) % 64 := by rw [← hz]; simp; omega
  generalize htl : st.stored ++ z ++ Rfc1321.leBytes 8 (8 * m.length) = tl
  have htll : tl.length = st.stored.length + z.length + 8 := by
    rw [← htl]; simp only [List.length_append, leBytes_length]
  have hp : Rfc1321.padded m = pre ++ tl := by
    have : Rfc1321.padded m = m ++ z ++ Rfc1321.leBytes 8 (8 * m.length) := by rw [← hz]; rfl
    rw [this, ← htl]
    have e : m ++ z = pre ++ (st.stored ++ z) := by rw [← List.append_assoc, ← hm]
    rw [e, List.append_assoc]
  have hpl : (Rfc1321.padded m).length = pre.length + tl.length := by rw [hp]; simp
  simp only [Rfc1321.md5]
  have key : ∀ r : State, r.regs = (Rfc1321.blocks ((Rfc1321.padded m).length / 64) (Rfc1321.padded m)).foldl
      Rfc1321.compress Rfc1321.start → some (bytesOf r.A ++ bytesOf r.B ++ bytesOf r.C ++ bytesOf r.D) =
      some (Rfc1321.leBytes 4 r.regs.a.toNat ++ Rfc1321.leBytes 4 r.regs.b.toNat ++
        Rfc1321.leBytes 4 r.regs.c.toNat ++ Rfc1321.leBytes 4 r.regs.d.toNat) := by
    intro r _
    rw [bytesOf_eq, bytesOf_eq, bytesOf_eq, bytesOf_eq]
    rfl
  suffices hr : State.regs (if 64 < tl.length then processBlock (processBlock { st with
        len0 := BitVec.ofNat 32 m.length, len1 := BitVec.ofNat 32 (m.length / 2 ^ 32), stored := tl }
          (tl.take 64)) (tl.drop 64)
      else processBlock { st with
        len0 := BitVec.ofNat 32 m.length, len1 := BitVec.ofNat 32 (m.length / 2 ^ 32), stored := tl }
          (tl.take 64)) =
      (Rfc1321.blocks ((Rfc1321.padded m).length / 64) (Rfc1321.padded m)).foldl
        Rfc1321.compress Rfc1321.start by
    rw [← hr]
    exact key _ hr
  have hreg : State.regs { st with
      len0 := BitVec.ofNat 32 m.length, len1 := BitVec.ofNat 32 (m.length / 2 ^ 32), stored := tl } =
      (Rfc1321.blocks (pre.length / 64) pre).foldl Rfc1321.compress Rfc1321.start := hd.regs
  split
  · next h64 =>
    have h128 : tl.length = 128 := by omega
    rw [show (Rfc1321.padded m).length / 64 = pre.length / 64 + 2 by omega, hp,
      blocks_append _ _ _ hmult 2, List.foldl_append, ← hreg]
    simp only [Rfc1321.blocks, List.foldl_cons, List.foldl_nil]
    rw [processBlock_regs, processBlock_regs, List.take_of_length_le (l := tl.drop 64) (by simp; omega)]
  · next h64 =>
    have h128 : tl.length = 64 := by omega
    rw [show (Rfc1321.padded m).length / 64 = pre.length / 64 + 1 by omega, hp,
      blocks_append _ _ _ hmult 1, List.foldl_append, ← hreg]
    simp only [Rfc1321.blocks, List.foldl_cons, List.foldl_nil]
    rw [processBlock_regs]

end Md5
end Candy
