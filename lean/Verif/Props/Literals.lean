import Verif.Model.LitBits

/-!
# C01, C02: literals and lifted booleans

Specification: a literal is a pair of a variable and a sign, ordered lexicographically; lifted
booleans are Kleene's three-valued logic.
-/

namespace Candy

/-- Variables the encoding supports: `0 ≤ v < 2^30`. -/
def VarRange (v : BitVec 32) : Prop := 0 ≤ v.toInt ∧ v.toInt < 2 ^ 30

instance (v : BitVec 32) : Decidable (VarRange v) := by unfold VarRange; infer_instance

/-! ## Helper lemmas -/

theorem VarRange.toNat {v : BitVec 32} (h : VarRange v) :
    v.toNat < 2 ^ 30 ∧ v.toInt = v.toNat := by
  unfold VarRange at h
  rw [BitVec.toInt_eq_toNat_cond] at h ⊢
  have := v.isLt
  split <;> omega

theorem addInt32_some {a b : BitVec 32} (h0 : a.toNat + b.toNat < 2 ^ 31) :
    ∃ c, addInt32 a b = some c ∧ c.toNat = a.toNat + b.toNat := by
  refine ⟨a + b, ?_, ?_⟩
  · unfold addInt32
    rw [if_neg]
    have ha : a.toInt = a.toNat := by rw [BitVec.toInt_eq_toNat_cond]; split <;> omega
    have hb : b.toInt = b.toNat := by rw [BitVec.toInt_eq_toNat_cond]; split <;> omega
    simp [BitVec.saddOverflow, ha, hb]
    omega
  · rw [BitVec.toNat_add]; omega

/-- The constructor in terms of numbers. -/
theorem CLit.mk_some {v : BitVec 32} {s : Bool} (h : VarRange v) :
    ∃ x, CLit.mk v s = some x ∧ x.toNat = 2 * v.toNat + s.toNat := by
  have hv := h.toNat.1
  obtain ⟨d, hd, hdn⟩ := addInt32_some (a := v) (b := v) (by omega)
  have hs : (if s then (1 : BitVec 32) else 0).toNat = s.toNat := by cases s <;> rfl
  have hs1 : s.toNat ≤ 1 := by cases s <;> decide
  obtain ⟨x, hx, hxn⟩ := addInt32_some (a := d) (b := if s then (1 : BitVec 32) else 0)
    (by rw [hs]; omega)
  refine ⟨x, ?_, by rw [hxn, hs, hdn]; omega⟩
  rw [CLit.mk, hd]; exact hx

theorem CLit.toInt_small {x : BitVec 32} (h : x.toNat < 2 ^ 31) : x.toInt = x.toNat := by
  rw [BitVec.toInt_eq_toNat_cond]; split <;> omega

theorem CLit.var_toNat {x : BitVec 32} (h : x.toNat < 2 ^ 31) : (CLit.var x).toNat = x.toNat / 2 := by
  have hm : x.msb = false := by rw [BitVec.msb_eq_decide]; simp; omega
  rw [CLit.var, BitVec.sshiftRight_eq_of_msb_false hm, BitVec.toNat_ushiftRight,
    Nat.shiftRight_eq_div_pow]

theorem CLit.sign_eq (x : BitVec 32) : CLit.sign x = decide (x.toNat % 2 = 1) := by
  have : (x &&& 1).toNat = x.toNat % 2 := by
    rw [BitVec.toNat_and]; simp [Nat.and_one_is_mod]
  unfold CLit.sign
  rcases Nat.mod_two_eq_zero_or_one x.toNat with h | h
  · have : x &&& 1 = 0 := BitVec.eq_of_toNat_eq (by rw [this, h]; rfl)
    rw [this, h]; rfl
  · have h' : x &&& 1 ≠ 0 := fun e => by rw [e, h] at this; cases this
    rw [h]; simpa using h'

theorem CLit.sign_lsb (x : BitVec 32) : CLit.sign x = x.getLsbD 0 := by
  rw [CLit.sign_eq, ← BitVec.testBit_toNat, Nat.testBit_zero]

theorem one_getLsbD (i : Nat) : (1 : BitVec 32).getLsbD i = decide (i = 0) := by
  rw [← BitVec.testBit_toNat]
  show Nat.testBit 1 i = _
  cases i <;> simp [Nat.testBit_succ]

theorem CLit.var_compl (x : CLit) : CLit.var (CLit.compl x) = CLit.var x := by
  apply BitVec.eq_of_getLsbD_eq
  intro i hi
  have h31 : (1 : BitVec 32).msb = false := by decide
  simp only [CLit.var, CLit.compl, BitVec.getLsbD_sshiftRight, BitVec.getLsbD_xor, one_getLsbD,
    BitVec.msb_xor, h31]
  simp

theorem CLit.sign_compl (x : CLit) : CLit.sign (CLit.compl x) = !CLit.sign x := by
  simp [CLit.sign_lsb, CLit.compl]

theorem CLit.compl_compl (x : CLit) : CLit.compl (CLit.compl x) = x := by
  simp [CLit.compl, BitVec.xor_assoc]

theorem CLit.mk_var_sign {v : BitVec 32} {s : Bool} {x : CLit} (h : VarRange v)
    (hx : CLit.mk v s = some x) :
    CLit.var x = v ∧ CLit.sign x = s ∧ x.toInt = 2 * v.toInt + s.toNat ∧ x.toNat < 2 ^ 31 := by
  obtain ⟨y, hy, hyn⟩ := CLit.mk_some (s := s) h
  rw [hx] at hy
  obtain rfl := Option.some.inj hy
  have hv := h.toNat
  have hs1 : s.toNat ≤ 1 := by cases s <;> decide
  have hlt : x.toNat < 2 ^ 31 := by omega
  refine ⟨BitVec.eq_of_toNat_eq ?_, ?_, ?_, hlt⟩
  · rw [CLit.var_toNat hlt, hyn]; omega
  · rw [CLit.sign_eq, hyn]; cases s <;> simp <;> omega
  · rw [CLit.toInt_small hlt, hyn, hv.2]; omega

/-! ## C01 -/

/-- **C01 (construction).** For every supported variable and sign the literal can be built without
overflow and reports that variable and sign; its index `x`, used to address arrays, is
`2 * v + sign`. -/
theorem C01_construct (v : BitVec 32) (s : Bool) (h : VarRange v) :
    ∃ x, CLit.mk v s = some x ∧ CLit.var x = v ∧ CLit.sign x = s ∧
      x.toInt = 2 * v.toInt + s.toNat := by
  obtain ⟨x, hx, -⟩ := CLit.mk_some (s := s) h
  have := CLit.mk_var_sign h hx
  exact ⟨x, hx, this.1, this.2.1, this.2.2.1⟩

/-- **C01 (range).** The supported range is exact among the non-negative variables: from `2^30` on
the construction overflows a 32-bit `int`. -/
theorem C01_range (v : BitVec 32) (s : Bool) (h0 : 0 ≤ v.toInt) :
    (CLit.mk v s).isSome ↔ v.toInt < 2 ^ 30 := by
  constructor
  · intro h
    refine Int.not_le.1 fun hle => ?_
    have : addInt32 v v = none := by
      unfold addInt32
      rw [if_pos]
      simp only [BitVec.saddOverflow]
      have := @BitVec.toInt_lt 32 v
      simp
      omega
    simp [CLit.mk, this] at h
  · intro h
    obtain ⟨x, hx, -⟩ := CLit.mk_some (s := s) ⟨h0, h⟩
    simp [hx]

/-- **C01 (negation).** Negating any 32-bit literal keeps the variable and flips the sign, and
negating twice gives the literal back. -/
theorem C01_negation (x : CLit) :
    CLit.var (CLit.compl x) = CLit.var x ∧ CLit.sign (CLit.compl x) = !CLit.sign x ∧
      CLit.compl (CLit.compl x) = x :=
  ⟨CLit.var_compl x, CLit.sign_compl x, CLit.compl_compl x⟩

/-- **C01 (exclusive or).** `l ^ b` is `l` for `b = false` and `~l` for `b = true`. -/
theorem C01_xor (x : CLit) (b : Bool) : CLit.xor x b = if b then CLit.compl x else x := by
  cases b <;> simp [CLit.xor, CLit.compl]

/-- **C01 (negation of a constructed literal).** -/
theorem C01_negate_construct (v : BitVec 32) (s : Bool) (h : VarRange v) :
    (CLit.mk v s).map CLit.compl = CLit.mk v (!s) := by
  obtain ⟨x, hx, hxn⟩ := CLit.mk_some (s := s) h
  obtain ⟨y, hy, hyn⟩ := CLit.mk_some (s := !s) h
  rw [hx, hy]
  have h1 := CLit.mk_var_sign h hx
  have h2 := CLit.mk_var_sign h hy
  simp only [Option.map_some, Option.some.injEq]
  apply BitVec.eq_of_getLsbD_eq
  intro i _
  have hv : CLit.var (CLit.compl x) = CLit.var y := by rw [CLit.var_compl, h1.1, h2.1]
  have hs : CLit.sign (CLit.compl x) = CLit.sign y := by rw [CLit.sign_compl, h1.2.1, h2.2.1]
  cases i with
  | zero => rw [CLit.sign_lsb, CLit.sign_lsb] at hs; exact hs
  | succ i =>
    have hxm : (CLit.compl x).msb = false := by
      have : x.msb = false := by rw [BitVec.msb_eq_decide]; simp; omega
      simp [CLit.compl, this]
    have hym : y.msb = false := by rw [BitVec.msb_eq_decide]; simp; omega
    have := congrArg (fun z => BitVec.getLsbD z i) hv
    simpa [CLit.var, BitVec.sshiftRight_eq_of_msb_false, hxm, hym, Nat.add_comm 1] using this

/-- **C01 (equality and order).** Two constructed literals compare equal iff variable and sign
agree, and compare by the lexicographic order on (variable, sign). -/
theorem C01_order (v w : BitVec 32) (s t : Bool) (hv : VarRange v) (hw : VarRange w)
    (x y : CLit) (hx : CLit.mk v s = some x) (hy : CLit.mk w t = some y) :
    (CLit.eq x y = true ↔ v = w ∧ s = t) ∧ (CLit.ne x y = true ↔ ¬ (v = w ∧ s = t)) ∧
      (CLit.lt x y = true ↔ v.toInt < w.toInt ∨ (v = w ∧ s = false ∧ t = true)) := by
  have h1 := CLit.mk_var_sign hv hx
  have h2 := CLit.mk_var_sign hw hy
  have he : x = y ↔ v = w ∧ s = t := by
    constructor
    · rintro rfl
      exact ⟨h1.1.symm.trans h2.1, h1.2.1.symm.trans h2.2.1⟩
    · rintro ⟨rfl, rfl⟩
      rw [hx] at hy
      exact Option.some.inj hy
  refine ⟨?_, ?_, ?_⟩
  · simpa [CLit.eq] using he
  · simp only [CLit.ne, bne_iff_ne, ne_eq, he]
  · have hlt : CLit.lt x y = true ↔ x.toInt < y.toInt := by simp [CLit.lt, BitVec.slt]
    have hvw : v = w ↔ v.toInt = w.toInt := BitVec.toInt_inj.symm
    rw [hlt, h1.2.2.1, h2.2.2.1, hvw]
    cases s <;> cases t <;> simp <;> omega

/-- **C01 (adjacency).** No literal lies strictly between `v` and `not v`. -/
theorem C01_adjacent (v : BitVec 32) (h : VarRange v) (x z : CLit) (hx : CLit.mk v false = some x) :
    ¬ (CLit.lt x z = true ∧ CLit.lt z (CLit.compl x) = true) := by
  have h1 := CLit.mk_var_sign h hx
  have hc : CLit.mk v true = some (CLit.compl x) := by
    rw [← Bool.not_false, ← C01_negate_construct v false h, hx]; rfl
  have h2 := CLit.mk_var_sign h hc
  simp only [CLit.lt, BitVec.slt, decide_eq_true_eq]
  rw [h1.2.2.1, h2.2.2.1]
  simp
  omega

/-- **C01 (undefined literal).** The default-constructed literal is the undefined one, and it and the
error literal differ from every proper literal and from each other. -/
theorem C01_undef (v : BitVec 32) (s : Bool) (h : VarRange v) :
    ∃ u e x, CLit.undef = some u ∧ CLit.default = some u ∧ CLit.error = some e ∧
      CLit.mk v s = some x ∧ CLit.eq x u = false ∧ CLit.eq x e = false ∧ CLit.eq u e = false := by
  obtain ⟨x, hx, hxn⟩ := CLit.mk_some (s := s) h
  have := (CLit.mk_var_sign h hx).2.2.2
  refine ⟨0xFFFFFFFE, 0xFFFFFFFF, x, by decide, by decide, by decide, hx, ?_, ?_, by decide⟩
  · simp only [CLit.eq, beq_eq_false_iff_ne]
    rintro rfl
    simp at this
  · simp only [CLit.eq, beq_eq_false_iff_ne]
    rintro rfl
    simp at this

/-- **C01 (bijection with pairs).** Encoding a (variable, sign) pair and reading it back gives the
pair; this is what allows the rest of the model to use pairs. -/
theorem C01_roundtrip (l : Lit) (h : l.var < 2 ^ 30) :
    ∃ x, l.encode = some x ∧ x.decode = l ∧ x.compl.decode = l.neg := by
  have hr : VarRange (BitVec.ofNat 32 l.var) := by
    have : (BitVec.ofNat 32 l.var).toNat = l.var := by
      rw [BitVec.toNat_ofNat]; exact Nat.mod_eq_of_lt (by omega)
    rw [VarRange, BitVec.toInt_eq_toNat_cond, this]
    split <;> omega
  obtain ⟨x, hx, hv, hs, -⟩ := C01_construct _ l.sign hr
  have hn : (BitVec.ofNat 32 l.var).toNat = l.var := by
    rw [BitVec.toNat_ofNat]; exact Nat.mod_eq_of_lt (by omega)
  refine ⟨x, hx, ?_, ?_⟩
  · rw [CLit.decode, hv, hs, hn]
  · rw [CLit.decode, CLit.var_compl, CLit.sign_compl, hv, hs, hn]; rfl

/-- Variable 7, and the largest supported variable, are in range; the next one is not and fails. -/
example : VarRange 7 ∧ VarRange 0x3FFFFFFF ∧ ¬ VarRange 0x40000000 ∧
    CLit.mk 7 true = some 15 ∧ CLit.mk 0x40000000 false = none ∧
    CLit.lt 14 15 = true ∧ CLit.lt 15 16 = true := by decide

/-! ## C02 -/

/-- The logical value of a lifted boolean: 0 is true, 1 is false, both patterns with bit 1 set
are undefined. -/
def LBool.meaning (v : LBool) : Option Bool :=
  if v = 0 then some true else if v = 1 then some false else none

/-- Kleene's strong three-valued conjunction. -/
def kleeneAnd : Option Bool → Option Bool → Option Bool
  | some false, _ => some false
  | _, some false => some false
  | some true, some true => some true
  | _, _ => none

/-- Kleene's strong three-valued disjunction. -/
def kleeneOr : Option Bool → Option Bool → Option Bool
  | some true, _ => some true
  | _, some true => some true
  | some false, some false => some false
  | _, _ => none

/-- The bit patterns that the constants and operators produce. -/
def LBool.Proper (v : LBool) : Prop := v.toNat < 4

instance (v : LBool) : Decidable v.Proper := by unfold LBool.Proper; infer_instance

theorem LBool.proper_cases {v : LBool} (h : v.Proper) : v = 0 ∨ v = 1 ∨ v = 2 ∨ v = 3 := by
  unfold LBool.Proper at h
  have : v.toNat = 0 ∨ v.toNat = 1 ∨ v.toNat = 2 ∨ v.toNat = 3 := by omega
  rcases this with h | h | h | h
  · exact Or.inl (BitVec.eq_of_toNat_eq h)
  · exact Or.inr (Or.inl (BitVec.eq_of_toNat_eq h))
  · exact Or.inr (Or.inr (Or.inl (BitVec.eq_of_toNat_eq h)))
  · exact Or.inr (Or.inr (Or.inr (BitVec.eq_of_toNat_eq h)))

/-- **C02 (equality).** Two lifted booleans are equal for the class iff they have the same logical
value. -/
theorem C02_equality (v b : LBool) (hv : v.Proper) (hb : b.Proper) :
    (LBool.eq v b = true ↔ v.meaning = b.meaning) ∧ LBool.ne v b = !LBool.eq v b := by
  rcases LBool.proper_cases hv with rfl | rfl | rfl | rfl <;>
    rcases LBool.proper_cases hb with rfl | rfl | rfl | rfl <;> decide

/-- **C02 (conjunction and disjunction).** The table lookups implement Kleene's logic, return one
of the four proper patterns and never shift out of range. -/
theorem C02_tables (v b : LBool) (hv : v.Proper) (hb : b.Proper) :
    (∃ r, LBool.and v b = some r ∧ r.Proper ∧ r.meaning = kleeneAnd v.meaning b.meaning) ∧
    (∃ r, LBool.or v b = some r ∧ r.Proper ∧ r.meaning = kleeneOr v.meaning b.meaning) := by
  rcases LBool.proper_cases hv with rfl | rfl | rfl | rfl <;>
    rcases LBool.proper_cases hb with rfl | rfl | rfl | rfl <;>
      exact ⟨⟨_, rfl, by decide, by decide⟩, ⟨_, rfl, by decide, by decide⟩⟩

/-- **C02 (exclusive or with a sign).** `value ^ sign` is the value when the sign is clear, its
negation when the sign is set, and undefined when the value is. -/
theorem C02_xor (v : LBool) (s : Bool) (hv : v.Proper) :
    (LBool.xor v s).Proper ∧
      (LBool.xor v s).meaning = v.meaning.map (fun b => if s then !b else b) := by
  rcases LBool.proper_cases hv with rfl | rfl | rfl | rfl <;> cases s <;> decide

/-- **C02 (constants).** -/
theorem C02_constants :
    LBool.T.meaning = some true ∧ LBool.F.meaning = some false ∧ LBool.U.meaning = none ∧
      ∀ b, (LBool.ofBool b).meaning = some b ∧ (LBool.ofBool b).Proper := by
  refine ⟨by decide, by decide, by decide, fun b => by cases b <;> decide⟩

/-- **C02 (literal value).** Reading a literal as "variable value xor sign" is true exactly when the
variable has the value that makes the literal true. -/
theorem C02_literal_value (v : LBool) (l : Lit) (m : PAssign) (hv : v.Proper)
    (hm : v.meaning = m l.var) :
    (LBool.eq (LBool.xor v l.sign) LBool.T = true ↔ l.trueIn m) ∧
      (LBool.eq (LBool.xor v l.sign) LBool.F = true ↔ l.neg.trueIn m) := by
  unfold Lit.trueIn
  simp only [Lit.neg]
  rw [← hm]
  rcases LBool.proper_cases hv with rfl | rfl | rfl | rfl <;> cases l.sign <;> decide

/-- The extra pattern 3 does occur: it is what the tables return for two undefined operands. -/
example : LBool.and 2 2 = some 3 ∧ LBool.Proper 3 ∧ LBool.eq 3 2 = true ∧
    LBool.and 0 2 = some 3 ∧ LBool.or 0 2 = some 0 := by decide

end Candy
