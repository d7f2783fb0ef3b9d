import Verif.Proofs.Dimacs
import Verif.Props.Literals
import Verif.SpecDimacs

/-! Helper lemmas: the plain reader on well-formed texts, and printing. -/

namespace Candy

theorem isSpaceC_not_digit {e : Char} (h : isSpaceC e = true) : isDigitC e = false := by
  cases hd : isDigitC e with
  | false => rfl
  | true => rw [(isDigitC_not_space hd).1] at h; cases h

/-- What `readInteger` does with a number it has found. -/
def intOutcome {σ : Type} (n : Int) (s : Out σ) : Out (Int × σ) :=
  if n < - 2 ^ 63 ∨ 2 ^ 63 ≤ n then .throws
  else if 2 ^ 62 ≤ n.natAbs then .ub
  else if 4294967295 ≤ 2 * n.natAbs then .throws
  else s.bind fun s' => .ok (n, s')

theorem IntText.token {tok : List Char} {n : Int} (h : IntText tok n) {ws : List Char} {e : Char}
    (hws : ∀ x ∈ ws, isSpaceC x = true) (he : isDigitC e = false) :
    ∃ sg ds, tok = sg ++ ds ∧ Token ws sg ds e ∧
      tokenVal ws sg ds = some (n, ws.length + tok.length) := by
  cases h with
  | digits hne hd =>
    exact ⟨[], tok, rfl, ⟨hws, Or.inl rfl, hd, he, fun _ h => absurd h hne⟩, by simp [tokenVal, hne]⟩
  | @plus ds hne hd =>
    exact ⟨['+'], ds, rfl, ⟨hws, Or.inr (Or.inr rfl), hd, he, fun h => by simp at h⟩, by
      simp [tokenVal, hne]; omega⟩
  | @minus ds hne hd =>
    exact ⟨['-'], ds, rfl, ⟨hws, Or.inr (Or.inl rfl), hd, he, fun h => by simp at h⟩, by
      simp [tokenVal, hne]; omega⟩

/-- Reading an integer from the plain stream. -/
theorem readInteger_plain {whole : Bool} {ws tok z : List Char} {e : Char} {n : Int}
    (h : IntText tok n) (hws : ∀ x ∈ ws, isSpaceC x = true) (hnl : whole = false → '\n' ∉ ws)
    (he : isDigitC e = false) :
    readInteger (plain whole) (ws ++ tok ++ e :: z) = intOutcome n (.ok (e :: z)) := by
  obtain ⟨sg, ds, rfl, htok, hval⟩ := h.token hws he
  have hst := htok.strtol z
  have e1 : ws ++ (sg ++ ds) ++ e :: z = ws ++ sg ++ ds ++ e :: z := by simp
  have hne : ∀ l : List Char, (l ++ e :: z).isEmpty = false := by
    intro l; cases l <;> rfl
  have hfr : (!whole && ws.contains '\n') = false := by
    cases whole with
    | true => rfl
    | false => simpa using hnl rfl
  rw [e1]
  unfold readInteger
  simp only [plain, hne, Bool.false_eq_true, if_false, hst.1, hst.2, hval, hfr, Out.bind, intOutcome]
  have : List.drop (ws.length + (sg ++ ds).length) (ws ++ sg ++ ds ++ e :: z) = e :: z := by
    rw [List.drop_left']
    simp
  rw [this]

theorem intOutcome_small {σ : Type} {n : Int} (h : n.natAbs < 2 ^ 31) (s : σ) :
    intOutcome n (.ok s) = .ok (n, s) := by
  unfold intOutcome
  rw [if_neg (by omega), if_neg (by omega), if_neg (by omega)]
  rfl

theorem litOfInt_some {n : Int} (_h0 : n ≠ 0) (h : n.natAbs ≤ 2 ^ 30) :
    litOfInt n = some ⟨n.natAbs - 1, decide (n < 0)⟩ := by
  have hv : (BitVec.ofNat 32 (n.natAbs - 1)).toNat = n.natAbs - 1 := by
    rw [BitVec.toNat_ofNat]; exact Nat.mod_eq_of_lt (by omega)
  have hr : VarRange (BitVec.ofNat 32 (n.natAbs - 1)) := by
    rw [VarRange, BitVec.toInt_eq_toNat_cond, hv]
    split <;> omega
  obtain ⟨x, hx, h1, h2, -⟩ := C01_construct _ (decide (n < 0)) hr
  rw [litOfInt, hx]
  simp [CLit.decode, h1, h2]
  omega

theorem litOfInt_none {n : Int} (h1 : 2 ^ 30 < n.natAbs) (h2 : n.natAbs < 2 ^ 31) :
    litOfInt n = none := by
  have hv : (BitVec.ofNat 32 (n.natAbs - 1)).toNat = n.natAbs - 1 := by
    rw [BitVec.toNat_ofNat]; exact Nat.mod_eq_of_lt (by omega)
  have hi : (BitVec.ofNat 32 (n.natAbs - 1)).toInt = ((n.natAbs - 1 : Nat) : Int) := by
    rw [BitVec.toInt_eq_toNat_cond, hv, if_pos (by omega)]
  have := C01_range (BitVec.ofNat 32 (n.natAbs - 1)) (decide (n < 0)) (by rw [hi]; omega)
  have hnot : ¬ (BitVec.ofNat 32 (n.natAbs - 1)).toInt < 2 ^ 30 := by rw [hi]; omega
  rw [litOfInt]
  cases hm : CLit.mk (BitVec.ofNat 32 (n.natAbs - 1)) (decide (n < 0)) with
  | none => rfl
  | some x => rw [hm] at this; exact absurd (this.1 rfl) hnot

theorem IntText.length_pos {t : List Char} {n : Int} (h : IntText t n) : 0 < t.length := by
  cases h with
  | digits hne _ => exact List.length_pos_iff.2 hne
  | plus => simp
  | minus => simp

theorem ClauseText.length {multi : Bool} {t : List Char} {c : Clause} (h : ClauseText multi t c) :
    c.length < t.length := by
  induction h with
  | zero h => exact h.length_pos
  | lit h1 _ _ h2 _ ih =>
    have := h1.length_pos
    simp; omega

theorem clauseLoop_plain {multi : Bool} {txt : List Char} {c : Clause} (h : ClauseText multi txt c) :
    ∀ {ws z : List Char} {e : Char} {m : Nat} (acc : List Lit), (∀ x ∈ ws, isSpaceC x = true) →
      (multi = false → '\n' ∉ ws) → isDigitC e = false → c.length < m →
      clauseLoop (plain multi) m (ws ++ txt ++ e :: z) acc = .ok (acc ++ c, e :: z) := by
  induction h with
  | zero h =>
    intro ws z e m acc hws hnl he hm
    cases m with
    | zero => simp at hm
    | succ m =>
      simp only [clauseLoop, readInteger_plain h hws hnl he, intOutcome_small (n := 0) (by decide),
        Out.bind]
      simp
  | @lit t s r n c h1 h0 hn hs h2 ih =>
    intro ws z e m acc hws hnl he hm
    cases m with
    | zero => simp at hm
    | succ m =>
      obtain ⟨hs1, hs2, hs3⟩ := hs
      cases s with
      | nil => exact absurd rfl hs1
      | cons s0 s' =>
        have e1 : ws ++ (t ++ (s0 :: s') ++ r) ++ e :: z = ws ++ t ++ s0 :: (s' ++ r ++ e :: z) := by
          simp
        rw [e1]
        simp only [clauseLoop, readInteger_plain h1 hws hnl (isSpaceC_not_digit (hs2 s0 (by simp))),
          intOutcome_small (n := n) (by omega), Out.bind, h0, if_false, litOfInt_some h0 hn]
        have := ih (ws := s0 :: s') (z := z) (e := e) (m := m)
          (acc ++ [⟨n.natAbs - 1, decide (n < 0)⟩]) hs2 hs3 he (by simp at hm; omega)
        simpa using this

/-! ## Skipping -/

theorem skipWhitespace_plain {whole : Bool} : ∀ {m : Nat} {t : List Char}, t.length < m →
    skipWhitespace (plain whole) m t = .ok (t.dropWhile isSpaceC) := by
  intro m
  induction m with
  | zero => intro t h; simp at h
  | succ m ih =>
    intro t h
    cases t with
    | nil => rfl
    | cons c t =>
      simp only [skipWhitespace]
      simp only [plain, List.isEmpty_cons, Bool.false_eq_true, if_false, List.head?_cons]
      by_cases hc : isSpaceC c = true
      · simp only [hc, if_true, Out.bind, List.drop_succ_cons, List.drop_zero, List.dropWhile_cons]
        exact ih (by simpa using h)
      · simp [hc]

theorem skipLineLoop_plain {whole : Bool} {z : List Char}
    (hz : z = [] ∨ ∃ e r, z = e :: r ∧ isSpaceC e = true ∧ isBlankC e = false) :
    ∀ {m : Nat} {body : List Char}, (∀ x ∈ body, isSpaceC x = false ∨ isBlankC x = true) →
    (body ++ z).length < m → skipLineLoop (plain whole) m (body ++ z) = .ok z := by
  intro m
  induction m with
  | zero => intro t _ h; simp at h
  | succ m ih =>
    intro body hb h
    cases body with
    | nil =>
      rcases hz with rfl | ⟨e, r, rfl, h1, h2⟩
      · rfl
      · simp [skipLineLoop, plain, h1, h2]
    | cons c body =>
      have hc : (!isSpaceC c || isBlankC c) = true := by
        rcases hb c (by simp) with h | h <;> simp [h]
      simp only [skipLineLoop]
      simp only [plain, List.cons_append, List.isEmpty_cons, Bool.false_eq_true, if_false,
        List.head?_cons, hc, if_true, Out.bind, List.drop_succ_cons, List.drop_zero]
      exact ih (fun x hx => hb x (List.mem_cons_of_mem _ hx)) (by simp at h ⊢; omega)

theorem dropWhile_idem (p : Char → Bool) (t : List Char) :
    (t.dropWhile p).dropWhile p = t.dropWhile p := by
  induction t with
  | nil => rfl
  | cons x xs ih =>
    by_cases hx : p x = true
    · simpa [hx] using ih
    · simp [hx]

theorem length_dropWhile_le (p : Char → Bool) (t : List Char) :
    (t.dropWhile p).length ≤ t.length := by
  induction t with
  | nil => simp
  | cons x xs ih =>
    simp only [List.dropWhile_cons]
    split
    · simp; omega
    · simp

/-- The loop only depends on the text without leading white space. -/
theorem loop_dropWhile {whole : Bool} {m n : Nat} {t t' : List Char} {p : Problem}
    (h : t.dropWhile isSpaceC = t'.dropWhile isSpaceC) (hm : t.length < m) (hm' : t'.length < m) :
    readDimacsLoop (plain whole) m n t p = readDimacsLoop (plain whole) m n t' p := by
  cases n with
  | zero => rfl
  | succ n =>
    have key : ∀ s : List Char, s.length < m → readDimacsLoop (plain whole) m (n + 1) s p =
        (if (s.dropWhile isSpaceC).isEmpty then .ok p else
          readDimacsLoop (plain whole) m (n + 1) (s.dropWhile isSpaceC) p) := by
      intro s hs
      cases s with
      | nil => rfl
      | cons c s =>
        have h1 := skipWhitespace_plain (whole := whole) hs
        have h2 := skipWhitespace_plain (whole := whole) (m := m) (t := (c :: s).dropWhile isSpaceC)
          (Nat.lt_of_le_of_lt (length_dropWhile_le _ _) hs)
        rw [dropWhile_idem] at h2
        generalize (c :: s).dropWhile isSpaceC = u at h1 h2
        cases u with
        | nil =>
          simp only [readDimacsLoop, h1, Out.bind]
          simp [plain]
        | cons d u =>
          simp only [readDimacsLoop, h1, h2, Out.bind]
          simp [plain]
    rw [key t hm, key t' hm', h]

theorem IntText.head {t : List Char} {n : Int} (h : IntText t n) :
    ∃ c r, t = c :: r ∧ isSpaceC c = false ∧ c ≠ 'p' ∧ c ≠ 'c' := by
  have hdig : ∀ c, isDigitC c = true → c ≠ 'p' ∧ c ≠ 'c' := by
    intro c hc
    constructor <;> (rintro rfl; revert hc; decide)
  cases h with
  | digits hne hd =>
    cases t with
    | nil => exact absurd rfl hne
    | cons c r =>
      have := hd c (by simp)
      exact ⟨c, r, rfl, (isDigitC_not_space this).1, (hdig c this).1, (hdig c this).2⟩
  | plus => exact ⟨_, _, rfl, by decide, by decide, by decide⟩
  | minus => exact ⟨_, _, rfl, by decide, by decide, by decide⟩

theorem ClauseText.head {multi : Bool} {t : List Char} {c : Clause} (h : ClauseText multi t c) :
    ∃ x r, t = x :: r ∧ isSpaceC x = false ∧ x ≠ 'p' ∧ x ≠ 'c' := by
  cases h with
  | zero h => exact h.head
  | lit h =>
    obtain ⟨x, r, rfl, h'⟩ := h.head
    exact ⟨x, _, by simp only [List.cons_append]; rfl, h'⟩

theorem skipString_plain {whole : Bool} (cs : List Char) (z : List Char) :
    skipString (plain whole) cs (cs ++ z) = .ok z := by
  induction cs with
  | nil => rfl
  | cons c cs ih =>
    simp only [skipString]
    simp only [plain, List.cons_append, List.isEmpty_cons, Bool.false_eq_true, if_false,
      List.head?_cons, if_true, Out.bind, List.drop_succ_cons, List.drop_zero]
    exact ih

/-- One iteration of the loop on a text that does not start with white space. -/
theorem loop_step {whole : Bool} {m n : Nat} {c : Char} {t : List Char} {p : Problem}
    (hc : isSpaceC c = false) (hm : (c :: t).length < m) :
    readDimacsLoop (plain whole) m (n + 1) (c :: t) p =
      (if c = 'p' then
        (skipString (plain whole) ['p', ' ', 'c', 'n', 'f'] (c :: t)).bind fun s =>
        (readInteger (plain whole) s).bind fun v =>
        (readInteger (plain whole) v.2).bind fun k =>
          if v.1 < 0 ∨ k.1 < 0 then .throws else readDimacsLoop (plain whole) m n k.2 p
      else if c = 'c' then
        (skipLine (plain whole) m (c :: t)).bind fun s => readDimacsLoop (plain whole) m n s p
      else (clauseLoop (plain whole) m (c :: t) []).bind fun r =>
        readDimacsLoop (plain whole) m n r.2 (p.readClause r.1)) := by
  have h1 := skipWhitespace_plain (whole := whole) hm
  have h2 : (c :: t).dropWhile isSpaceC = c :: t := by simp [hc]
  rw [h2] at h1
  conv => lhs; unfold readDimacsLoop
  rw [h1]
  have he : (plain whole).eof (c :: t) = false := rfl
  have hp : (plain whole).peek (c :: t) = some c := rfl
  simp only [he, hp, Out.bind, Bool.false_eq_true, if_false]

/-- The plain reader on a well-formed text. -/
theorem readPlain_layout {multi : Bool} {t : List Char} {f : CNF} (h : Layout multi t f) :
    ∀ {m n : Nat} {p : Problem}, t.length < m → t.length < n →
      readDimacsLoop (plain multi) m n t p = .ok (p.readClauses f) := by
  induction h with
  | nil =>
    intro m n p _ hn
    cases n with
    | zero => simp at hn
    | succ n => rfl
  | @space c t f hc _ ih =>
    intro m n p hm hn
    rw [loop_dropWhile (t' := t) (by simp [hc]) hm (by simp at hm; omega)]
    exact ih (by simp at hm; omega) (by simp at hn; omega)
  | @comment body e t f hb he1 he2 _ ih =>
    intro m n p hm hn
    cases n with
    | zero => simp at hn
    | succ n =>
      rw [loop_step (by decide) hm]
      have hs : skipLineLoop (plain multi) m ('c' :: (body ++ e :: t)) = .ok (e :: t) := by
        have := skipLineLoop_plain (whole := multi) (z := e :: t) (Or.inr ⟨e, t, rfl, he1, he2⟩)
          (m := m) (body := 'c' :: body) (by
            intro x hx
            rcases List.mem_cons.1 hx with rfl | hx
            · exact Or.inl (by decide)
            · exact hb x hx) (by simpa using hm)
        simpa using this
      have hlen : (e :: t).length < m := by simp at hm ⊢; omega
      have hc : ('c' : Char) ≠ 'p' := by decide
      simp only [hc, if_false, skipLine, hs, Out.bind, if_true, skipWhitespace_plain hlen]
      rw [loop_dropWhile (t' := t) (by simp [dropWhile_idem, he1])
        (Nat.lt_of_le_of_lt (length_dropWhile_le _ _) hlen) (by simp at hlen; omega)]
      exact ih (by simp at hm; omega) (by simp at hn; omega)
  | @lastComment body hb =>
    intro m n p hm hn
    cases n with
    | zero => simp at hn
    | succ n =>
      rw [loop_step (by decide) hm]
      have hs : skipLineLoop (plain multi) m ('c' :: body) = .ok [] := by
        have := skipLineLoop_plain (whole := multi) (z := []) (Or.inl rfl)
          (m := m) (body := 'c' :: body) (by
            intro x hx
            rcases List.mem_cons.1 hx with rfl | hx
            · exact Or.inl (by decide)
            · exact hb x hx) (by simpa using hm)
        simpa using this
      have hc : ('c' : Char) ≠ 'p' := by decide
      have hm0 : ([] : List Char).length < m := by simp at hm ⊢; omega
      simp only [hc, if_false, skipLine, hs, Out.bind, if_true, skipWhitespace_plain hm0]
      cases n with
      | zero => simp at hn
      | succ n => rfl
  | @header s1 v s2 k e t f nv nk hs1 hv hnv hs2 hk hnk he _ ih =>
    intro m n p hm hn
    cases n with
    | zero => simp at hn
    | succ n =>
      have e1 : ['p', ' ', 'c', 'n', 'f'] ++ s1 ++ v ++ s2 ++ k ++ e :: t =
          'p' :: ([' ', 'c', 'n', 'f'] ++ (s1 ++ v ++ s2 ++ k ++ e :: t)) := by simp
      rw [e1] at hm ⊢
      rw [loop_step (by decide) hm, if_pos rfl]
      have hss : skipString (plain multi) ['p', ' ', 'c', 'n', 'f']
          ('p' :: ([' ', 'c', 'n', 'f'] ++ (s1 ++ v ++ s2 ++ k ++ e :: t))) =
          .ok (s1 ++ v ++ s2 ++ k ++ e :: t) := skipString_plain _ _
      obtain ⟨hs21, hs22, hs23⟩ := hs2
      cases s2 with
      | nil => exact absurd rfl hs21
      | cons s0 s' =>
        have e2 : s1 ++ v ++ (s0 :: s') ++ k ++ e :: t = s1 ++ v ++ s0 :: (s' ++ k ++ e :: t) := by simp
        have e3 : s0 :: (s' ++ k ++ e :: t) = (s0 :: s') ++ k ++ e :: t := by simp
        have r1 := readInteger_plain (whole := multi) (z := s' ++ k ++ e :: t) hv hs1.2.1 hs1.2.2
          (isSpaceC_not_digit (hs22 s0 (by simp)))
        have r2 := readInteger_plain (whole := multi) (z := t) hk hs22 hs23 (isSpaceC_not_digit he)
        rw [intOutcome_small (by omega)] at r1 r2
        rw [hss]
        simp only [Out.bind, e2, r1]
        simp only [e3, r2]
        have hneg : ¬ (((nv : Int) < 0) ∨ ((nk : Int) < 0)) := by omega
        rw [if_neg hneg]
        have hlen : (e :: t).length < m := by simp at hm ⊢; omega
        rw [loop_dropWhile (t' := t) (by simp [he]) hlen (by simp at hlen; omega)]
        exact ih (by simp at hm; omega) (by simp at hn; omega)
  | @clause txt c e t f hct he _ ih =>
    intro m n p hm hn
    cases n with
    | zero => simp at hn
    | succ n =>
      obtain ⟨x, r, rfl, hx1, hx2, hx3⟩ := hct.head
      have hcl := clauseLoop_plain hct (ws := []) (z := t) (e := e) (m := m) [] (by simp) (by simp)
        (isSpaceC_not_digit he) (by have := hct.length; simp at hm this; omega)
      simp only [List.nil_append, List.cons_append] at hcl hm ⊢
      rw [loop_step hx1 hm, if_neg hx2, if_neg hx3, hcl]
      simp only [Out.bind]
      have hlen : (e :: t).length < m := by simp at hm ⊢; omega
      rw [loop_dropWhile (t' := t) (by simp [he]) hlen (by simp at hlen; omega)]
      have := ih (m := m) (n := n) (p := p.readClause c) (by simp at hm; omega) (by simp at hn; omega)
      rw [this]
      rfl

/-! ## Printing -/

theorem digitsVal_append (ds : List Char) (c : Char) :
    digitsVal (ds ++ [c]) = 10 * digitsVal ds + (c.toNat - 48) := by
  simp [digitsVal, List.foldl_append]

theorem digit_char {n : Nat} (h : n < 10) :
    isDigitC (Char.ofNat (48 + n)) = true ∧ (Char.ofNat (48 + n)).toNat - 48 = n := by
  have : n = 0 ∨ n = 1 ∨ n = 2 ∨ n = 3 ∨ n = 4 ∨ n = 5 ∨ n = 6 ∨ n = 7 ∨ n = 8 ∨ n = 9 := by omega
  rcases this with rfl | rfl | rfl | rfl | rfl | rfl | rfl | rfl | rfl | rfl <;> decide

theorem decimalAux_spec : ∀ (k n : Nat), n < k → decimalAux k n ≠ [] ∧
    (∀ x ∈ decimalAux k n, isDigitC x = true) ∧ digitsVal (decimalAux k n) = n := by
  intro k
  induction k with
  | zero => intro n h; omega
  | succ k ih =>
    intro n h
    simp only [decimalAux]
    split
    · next hlt =>
      have := digit_char hlt
      exact ⟨by simp, by simpa using this.1, by simpa [digitsVal] using this.2⟩
    · next hge =>
      obtain ⟨h1, h2, h3⟩ := ih (n / 10) (by omega)
      have hd := digit_char (n := n % 10) (by omega)
      refine ⟨by simp, ?_, ?_⟩
      · intro x hx
        rcases List.mem_append.1 hx with hx | hx
        · exact h2 x hx
        · simp at hx; subst hx; exact hd.1
      · rw [digitsVal_append, h3, hd.2]; omega

theorem decimal_text (n : Nat) : IntText (decimal n) n := by
  obtain ⟨h1, h2, h3⟩ := decimalAux_spec (n + 1) n (by omega)
  have := IntText.digits h1 h2
  rw [h3] at this
  exact this

theorem litText_text (l : Lit) :
    ∃ n : Int, IntText (litText l) n ∧ n.natAbs = l.var + 1 ∧ decide (n < 0) = l.sign := by
  obtain ⟨h1, h2, h3⟩ := decimalAux_spec (l.var + 2) (l.var + 1) (by omega)
  cases hs : l.sign with
  | false =>
    refine ⟨(l.var + 1 : Nat), ?_, by omega, by simp; omega⟩
    simp only [litText, hs]
    exact decimal_text _
  | true =>
    refine ⟨-((l.var + 1 : Nat) : Int), ?_, by omega, by simp⟩
    simp only [litText, hs]
    have := IntText.minus h1 h2
    rw [h3] at this
    exact this

theorem clauseLine_text {c : Clause} (h : ∀ l ∈ c, l.var < 2 ^ 30) :
    ∃ txt, clauseLine c = txt ++ ['\n'] ∧ ClauseText false txt c := by
  induction c with
  | nil =>
    refine ⟨['0'], rfl, .zero ?_⟩
    exact decimal_text 0
  | cons l c ih =>
    obtain ⟨txt, h1, h2⟩ := ih fun x hx => h x (List.mem_cons_of_mem _ hx)
    obtain ⟨n, g1, g2, g3⟩ := litText_text l
    have hl := h l (by simp)
    refine ⟨litText l ++ [' '] ++ txt, ?_, ?_⟩
    · have : clauseLine (l :: c) = litText l ++ [' '] ++ clauseLine c := by simp [clauseLine]
      rw [this, h1]; simp
    · have := ClauseText.lit (multi := false) (s := [' ']) g1 (by omega) (by omega)
        ⟨by simp, by decide, by simp⟩ h2
      rw [g2, g3] at this
      exact this

theorem printDIMACS_layout {p : Problem} (hv : ∀ c ∈ p.problem, ∀ l ∈ c, l.var < 2 ^ 30)
    (h1 : p.nVars < 2 ^ 31) (h2 : p.nClauses < 2 ^ 31) : Layout false (printDIMACS p) p.problem := by
  have hcl : ∀ f : CNF, (∀ c ∈ f, ∀ l ∈ c, l.var < 2 ^ 30) → Layout false (f.flatMap clauseLine) f := by
    intro f
    induction f with
    | nil => intro _; exact .nil
    | cons c f ih =>
      intro hf
      obtain ⟨txt, g1, g2⟩ := clauseLine_text (hf c (by simp))
      rw [List.flatMap_cons, g1, List.append_assoc]
      exact .clause g2 (by decide) (ih fun d hd => hf d (List.mem_cons_of_mem _ hd))
  have := Layout.header (multi := false) (s1 := [' ']) (s2 := [' ']) (e := '\n')
    ⟨by simp, by decide, by simp⟩ (decimal_text p.nVars) h1 ⟨by simp, by decide, by simp⟩
    (decimal_text p.nClauses) h2 (by decide) (hcl p.problem hv)
  unfold printDIMACS
  simpa using this

end Candy
