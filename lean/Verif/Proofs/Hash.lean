import Verif.Proofs.Md5Stream
import Verif.Props.Problem

/-! # Lemmas about the benchmark hashes -/

namespace Candy
namespace Problem

/-! ## Text -/

theorem decimal_ne (n : Nat) : decimal n ≠ [] := (decimalAux_spec (n + 1) n (by omega)).1

theorem decimal_digit {n : Nat} {x : Char} (h : x ∈ decimal n) : isDigitC x = true :=
  (decimalAux_spec (n + 1) n (by omega)).2.1 x h

theorem decimal_blank (n : Nat) : ' ' ∉ decimal n := fun h => by
  have := decimal_digit h
  revert this; decide

theorem decimal_inj {m n : Nat} (h : decimal m = decimal n) : m = n := by
  have h1 := (decimalAux_spec (m + 1) m (by omega)).2.2
  have h2 := (decimalAux_spec (n + 1) n (by omega)).2.2
  unfold decimal at h
  rw [h] at h1
  omega

/-- A sequence of numbers in decimal, separated by single blanks. -/
def numbersText (ns : List Nat) : List Char := List.intercalate [' '] (ns.map decimal)

theorem intercalate_cons2 (s a b : List Char) (l : List (List Char)) :
    List.intercalate s (a :: b :: l) = a ++ s ++ List.intercalate s (b :: l) := by
  simp [List.intercalate]

theorem numbersText_cons (n m : Nat) (l : List Nat) :
    numbersText (n :: m :: l) = decimal n ++ ' ' :: numbersText (m :: l) := by
  simp [numbersText]

theorem numbersText_single (n : Nat) : numbersText [n] = decimal n := by
  simp [numbersText, List.intercalate]

theorem numbersText_append : ∀ (l : List Nat) (m : Nat) (r : List Nat), l ≠ [] →
    numbersText (l ++ m :: r) = numbersText l ++ ' ' :: numbersText (m :: r) := by
  intro l
  induction l with
  | nil => intro m r h; exact absurd rfl h
  | cons n l ih =>
    intro m r _
    cases l with
    | nil => rw [List.cons_append, List.nil_append, numbersText_cons, numbersText_single]
    | cons k l =>
      rw [List.cons_append, List.cons_append, numbersText_cons, numbersText_cons, ← List.cons_append,
        ih m r (by simp)]
      simp

/-- Splitting at the first blank. -/
theorem split_blank {a b : List Char} (ha : ' ' ∉ a) (hb : ' ' ∉ b) :
    ∀ {x y : List Char}, a ++ ' ' :: x = b ++ ' ' :: y → a = b ∧ x = y := by
  intro x y h
  induction a generalizing b with
  | nil =>
    cases b with
    | nil => simpa using h
    | cons c b => simp at h; exact absurd (by simp [← h.1]) hb
  | cons c a ih =>
    cases b with
    | nil => simp at h; exact absurd (by simp [h.1]) ha
    | cons d b =>
      simp only [List.cons_append, List.cons.injEq] at h
      have := ih (b := b) (fun hm => ha (List.mem_cons_of_mem _ hm)) (fun hm => hb (List.mem_cons_of_mem _ hm)) h.2
      exact ⟨by rw [h.1, this.1], this.2⟩

theorem numbersText_ne {n : Nat} {l : List Nat} : numbersText (n :: l) ≠ [] := by
  cases l with
  | nil => rw [numbersText_single]; exact decimal_ne n
  | cons m l => rw [numbersText_cons]; simp

theorem numbersText_inj : ∀ {l r : List Nat}, numbersText l = numbersText r → l = r := by
  intro l
  induction l with
  | nil =>
    intro r h
    cases r with
    | nil => rfl
    | cons n r => exact absurd h.symm (by simpa [numbersText] using numbersText_ne)
  | cons n l ih =>
    intro r h
    cases r with
    | nil => exact absurd h (by simpa [numbersText] using numbersText_ne)
    | cons m r =>
      cases l with
      | nil =>
        cases r with
        | nil => rw [numbersText_single, numbersText_single] at h; rw [decimal_inj h]
        | cons k r =>
          rw [numbersText_single, numbersText_cons] at h
          exact absurd (h ▸ (by simp : ' ' ∈ decimal m ++ ' ' :: numbersText (k :: r))) (decimal_blank n)
      | cons j l =>
        cases r with
        | nil =>
          rw [numbersText_single, numbersText_cons] at h
          exact absurd (h ▸ (by simp : ' ' ∈ decimal n ++ ' ' :: numbersText (j :: l))) (decimal_blank m)
        | cons k r =>
          rw [numbersText_cons, numbersText_cons] at h
          obtain ⟨h1, h2⟩ := split_blank (decimal_blank n) (decimal_blank m) h
          rw [decimal_inj h1, ih h2]

/-! ## `gbd_hash` -/

/-- The numbers of the literals of each clause, each clause closed by zero. -/
def clauseNumbers (F : CNF) : List Nat := F.flatMap fun c => c.map litNumber ++ [0]

theorem clauseNumbers_ne {c : Clause} {F : CNF} : clauseNumbers (c :: F) ≠ [] := by
  simp [clauseNumbers]

theorem clause_text (c : Clause) :
    c.flatMap (fun l => decimal (litNumber l) ++ [' ']) ++ ['0'] = numbersText (c.map litNumber ++ [0]) := by
  induction c with
  | nil => rw [List.map_nil, List.nil_append, numbersText_single]; rfl
  | cons l c ih =>
    rw [List.flatMap_cons, List.append_assoc, ih, List.map_cons, List.cons_append]
    cases h : c.map litNumber ++ [0] with
    | nil => simp at h
    | cons k r => rw [numbersText_cons]; simp

theorem bytes_append (a b : List Char) : bytes (a ++ b) = bytes a ++ bytes b := by simp [bytes]

theorem gbdLoop_holds : ∀ (F : CNF) (s : List Char) (m : List Byte) (st : Md5.State), Md5.Holds m st →
    Md5.Holds (m ++ bytes (if F = [] then [] else s ++ numbersText (clauseNumbers F))) (gbdLoop F s st) := by
  intro F
  induction F with
  | nil => intro s m st h; simpa [gbdLoop, bytes] using h
  | cons c F ih =>
    intro s m st h
    simp only [gbdLoop]
    rw [List.append_assoc s, clause_text]
    have h1 := Md5.process_holds h (input := bytes (s ++ numbersText (c.map litNumber ++ [0])))
      (by
        intro e
        have e' : s ++ numbersText (c.map litNumber ++ [0]) = [] := by simpa [bytes] using e
        have := (List.append_eq_nil_iff.1 e').2
        cases hc : c.map litNumber ++ [0] with
        | nil => simp at hc
        | cons k r => rw [hc] at this; exact numbersText_ne this)
    have h2 := ih [' '] _ _ h1
    rw [if_neg (by simp)]
    cases F with
    | nil => simpa [clauseNumbers, bytes] using h2
    | cons d F =>
      rw [if_neg (by simp), List.append_assoc, ← bytes_append] at h2
      have e : numbersText (clauseNumbers (c :: d :: F)) =
          numbersText (c.map litNumber ++ [0]) ++ ([' '] ++ numbersText (clauseNumbers (d :: F))) := by
        have : clauseNumbers (c :: d :: F) = (c.map litNumber ++ [0]) ++ clauseNumbers (d :: F) := rfl
        rw [this]
        cases h : clauseNumbers (d :: F) with
        | nil => exact absurd h clauseNumbers_ne
        | cons k r => rw [numbersText_append _ _ _ (by simp)]; rfl
      rw [e, ← List.append_assoc]
      exact h2

theorem litNumber_inj {a b : Lit} (h : litNumber a = litNumber b) : a = b := by
  obtain ⟨v, s⟩ := a
  obtain ⟨w, t⟩ := b
  simp only [litNumber] at h
  cases s <;> cases t <;> simp at h ⊢ <;> omega

theorem litNumber_lt {a b : Lit} (h : a.ltb b = true) : litNumber a < litNumber b := by
  obtain ⟨v, s⟩ := a
  obtain ⟨w, t⟩ := b
  simp only [Lit.ltb, litNumber] at h ⊢
  cases s <;> cases t <;> simp at h ⊢ <;> omega

/-- Numbers without zero, closed by zero: unique decoding. -/
theorem split_zero : ∀ {a b x y : List Nat}, 0 ∉ a → 0 ∉ b → a ++ 0 :: x = b ++ 0 :: y → a = b ∧ x = y := by
  intro a
  induction a with
  | nil =>
    intro b x y _ hb h
    cases b with
    | nil => simpa using h
    | cons c b => simp at h; exact absurd (by simp [← h.1]) hb
  | cons c a ih =>
    intro b x y ha hb h
    cases b with
    | nil => simp at h; exact absurd (by simp [h.1]) ha
    | cons d b =>
      simp only [List.cons_append, List.cons.injEq] at h
      have := ih (fun hm => ha (List.mem_cons_of_mem _ hm)) (fun hm => hb (List.mem_cons_of_mem _ hm)) h.2
      exact ⟨by rw [h.1, this.1], this.2⟩

theorem clauseNumbers_inj : ∀ {F G : CNF},
    (∀ c ∈ F, c ≠ [] ∧ c.Pairwise fun a b => a.ltb b = true) →
    (∀ c ∈ G, c ≠ [] ∧ c.Pairwise fun a b => a.ltb b = true) →
    clauseNumbers F = clauseNumbers G → F = G := by
  intro F
  induction F with
  | nil =>
    intro G _ _ h
    cases G with
    | nil => rfl
    | cons d G => exact absurd h.symm clauseNumbers_ne
  | cons c F ih =>
    intro G hF hG h
    cases G with
    | nil => exact absurd h clauseNumbers_ne
    | cons d G =>
      have tail : ∀ (l : Lit) (r : Clause), (l :: r).Pairwise (fun a b => a.ltb b = true) → 0 ∉ r.map litNumber := by
        intro l r hp h0
        obtain ⟨k, hk, e⟩ := List.mem_map.1 h0
        have := litNumber_lt ((List.pairwise_cons.1 hp).1 k hk)
        omega
      have hc := hF c (by simp)
      have hd := hG d (by simp)
      cases c with
      | nil => exact absurd rfl hc.1
      | cons l c =>
        cases d with
        | nil => exact absurd rfl hd.1
        | cons k d =>
          have e : clauseNumbers ((l :: c) :: F) = litNumber l :: (c.map litNumber ++ 0 :: clauseNumbers F) := by
            simp [clauseNumbers]
          have e' : clauseNumbers ((k :: d) :: G) = litNumber k :: (d.map litNumber ++ 0 :: clauseNumbers G) := by
            simp [clauseNumbers]
          rw [e, e'] at h
          simp only [List.cons.injEq] at h
          obtain ⟨h1, h2⟩ := split_zero (tail _ _ hc.2) (tail _ _ hd.2) h.2
          have hcd : c = d := by
            have : ∀ (a b : Clause), a.map litNumber = b.map litNumber → a = b := by
              intro a
              induction a with
              | nil => intro b hb; cases b with
                | nil => rfl
                | cons _ _ => simp at hb
              | cons x a iha => intro b hb; cases b with
                | nil => simp at hb
                | cons y b =>
                  simp only [List.map_cons, List.cons.injEq] at hb
                  rw [litNumber_inj hb.1, iha b hb.2]
            exact this c d h1
          rw [litNumber_inj h.1, hcd, ih (fun c hc => hF c (by simp [hc])) (fun c hc => hG c (by simp [hc])) h2]

/-! ## `degree_hash` -/

theorem degreeLoop_holds : ∀ (ds : List (BitVec 32)) (s : List Char) (m : List Byte) (st : Md5.State),
    Md5.Holds m st →
    Md5.Holds (m ++ bytes (if ds.filter (0 < ·) = [] then []
      else s ++ numbersText ((ds.filter (0 < ·)).map (·.toNat)))) (degreeLoop ds s st) := by
  intro ds
  induction ds with
  | nil => intro s m st h; simpa [degreeLoop, bytes] using h
  | cons d ds ih =>
    intro s m st h
    simp only [degreeLoop]
    by_cases hd : 0 < d
    · rw [if_pos hd]
      have h1 := Md5.process_holds h (input := bytes (s ++ decimal d.toNat))
        (by
          intro e
          have e' : s ++ decimal d.toNat = [] := by simpa [bytes] using e
          exact decimal_ne _ (List.append_eq_nil_iff.1 e').2)
      have h2 := ih [' '] _ _ h1
      rw [List.filter_cons_of_pos (by simpa using hd), if_neg (by simp)]
      cases hf : ds.filter (0 < ·) with
      | nil =>
        rw [hf] at h2
        simp only [if_true, bytes, List.map_nil, List.append_nil] at h2
        simpa [numbersText_single, bytes] using h2
      | cons k r =>
        rw [hf, if_neg (by simp), List.append_assoc, ← bytes_append] at h2
        rw [List.map_cons, List.map_cons, numbersText_cons]
        simpa using h2
    · rw [if_neg hd, List.filter_cons_of_neg (by simpa using hd)]
      exact ih s m st h

theorem decrement_eq (d : Lit → BitVec 32) (c : Clause) (k : Lit) :
    decrement d c k = d k - BitVec.ofNat 32 (c.count k) := by
  unfold decrement
  induction c generalizing d with
  | nil => simp
  | cons l c ih =>
    rw [List.foldl_cons, ih, List.count_cons]
    by_cases h : k = l
    · subst h
      simp only [if_true, beq_self_eq_true]
      rw [BitVec.sub_sub, ← BitVec.ofNat_add_ofNat, BitVec.add_comm]
      rfl
    · have : (l == k) = false := by simpa using fun e => h e.symm
      simp [h, this]

theorem decrements_eq (cs : List Clause) (d : Lit → BitVec 32) (k : Lit) :
    cs.foldl decrement d k = d k - BitVec.ofNat 32 (cs.flatten.count k) := by
  induction cs generalizing d with
  | nil => simp
  | cons c cs ih =>
    rw [List.foldl_cons, ih, decrement_eq, List.flatten_cons, List.count_append, BitVec.sub_sub,
      BitVec.ofNat_add_ofNat]

/-- The number of pairs of an occurrence of `l` and an occurrence of `k` in the same clause. -/
def pairs (F : CNF) (l k : Lit) : Nat := (F.map fun c => c.count l * c.count k).sum

theorem occurrences_length (F : CNF) (l : Lit) : (occurrences F l).length = F.flatten.count l := by
  induction F with
  | nil => rfl
  | cons c F ih =>
    simp only [occurrences, List.flatMap_cons, List.length_append, List.flatten_cons, List.count_append] at ih ⊢
    rw [ih]
    congr 1
    rw [List.length_map, List.count_eq_countP, List.countP_eq_length_filter]
    congr 1

theorem occurrences_count (F : CNF) (l k : Lit) : (occurrences F l).flatten.count k = pairs F l k := by
  induction F with
  | nil => rfl
  | cons c F ih =>
    simp only [occurrences, List.flatMap_cons, List.flatten_append, List.count_append, pairs, List.map_cons,
      List.sum_cons] at ih ⊢
    rw [ih]
    congr 1
    have : ∀ (xs : List Lit), ((xs.map fun _ => c).flatten).count k = xs.length * c.count k := by
      intro xs
      induction xs with
      | nil => simp
      | cons x xs ihx => rw [List.map_cons, List.flatten_cons, List.count_append, ihx]; simp [Nat.succ_mul, Nat.add_comm]
    rw [this]
    congr 1
    rw [List.count_eq_countP, List.countP_eq_length_filter]
    congr 1

theorem applyFact_eq (F : CNF) (d : Lit → BitVec 32) (l k : Lit) :
    applyFact F d l k = if k = l.neg then 0 else d k - BitVec.ofNat 32 (pairs F l k) := by
  simp only [applyFact]
  rw [decrements_eq, occurrences_count]

/-- No clause contains a literal that is a unit clause of the formula and a literal whose negation is
one. -/
def NoClash (F : CNF) : Prop := ∀ c ∈ F, ∀ l ∈ c, ∀ k ∈ c, [l] ∈ F → [k.neg] ∈ F → False

theorem mem_facts {F : CNF} {l : Lit} : l ∈ facts F ↔ [l] ∈ F := by
  induction F with
  | nil => simp [facts]
  | cons c F ih =>
    unfold facts
    split
    · next h => simp at h
    · next k G h =>
      simp only [List.cons.injEq] at h
      obtain ⟨rfl, rfl⟩ := h
      simp [ih]
    · next d G hne h =>
      simp only [List.cons.injEq] at h
      obtain ⟨rfl, rfl⟩ := h
      rw [ih, List.mem_cons]
      refine ⟨Or.inr, ?_⟩
      rintro (h | h)
      · exact absurd h.symm (hne l)
      · exact h

theorem pairs_zero {F : CNF} (h : NoClash F) {l k : Lit} (hl : [l] ∈ F) (hk : [k.neg] ∈ F) : pairs F l k = 0 := by
  have : ∀ G : CNF, (∀ c ∈ G, c ∈ F) → pairs G l k = 0 := by
    intro G
    induction G with
    | nil => intro _; rfl
    | cons c G ih =>
      intro hG
      have h0 : c.count l * c.count k = 0 := by
        rcases Nat.eq_zero_or_pos (c.count l) with e | e
        · rw [e, Nat.zero_mul]
        · rcases Nat.eq_zero_or_pos (c.count k) with e' | e'
          · rw [e', Nat.mul_zero]
          · exact (h c (hG c (by simp)) l (List.count_pos_iff.1 e) k (List.count_pos_iff.1 e') hl hk).elim
      simp only [pairs, List.map_cons, List.sum_cons, h0, Nat.zero_add]
      exact ih fun c hc => hG c (by simp [hc])
  exact this F fun _ h => h

/-- The degree of a literal after the normalisation. -/
def degree (F : CNF) (k : Lit) : BitVec 32 :=
  if [k.neg] ∈ F then 0
  else BitVec.ofNat 32 (F.flatten.count k) - BitVec.ofNat 32 (((facts F).map fun l => pairs F l k).sum)

theorem facts_fold {F : CNF} (h : NoClash F) (k : Lit) : ∀ (fs : List Lit) (d : Lit → BitVec 32), (∀ l ∈ fs, [l] ∈ F) →
    fs.foldl (applyFact F) d k = if k.neg ∈ fs then 0
      else d k - BitVec.ofNat 32 ((fs.map fun l => pairs F l k).sum) := by
  intro fs
  induction fs with
  | nil => intro d _; simp
  | cons l fs ih =>
    intro d hf
    rw [List.foldl_cons, ih _ fun l hl => hf l (by simp [hl]), applyFact_eq]
    by_cases hk : k.neg ∈ fs
    · simp [hk]
    · by_cases he : k = l.neg
      · subst he
        have hll : l.neg.neg = l := by cases l; simp [Lit.neg]
        have h0 : (fs.map fun l' => pairs F l' l.neg).sum = 0 := by
          have : ∀ xs : List Lit, (∀ x ∈ xs, [x] ∈ F) → (xs.map fun l' => pairs F l' l.neg).sum = 0 := by
            intro xs
            induction xs with
            | nil => intro _; rfl
            | cons x xs ihx =>
              intro hx
              rw [List.map_cons, List.sum_cons, ihx fun y hy => hx y (by simp [hy]),
                pairs_zero h (hx x (by simp)) (by rw [hll]; exact hf l (by simp))]
          exact this fs fun x hx => hf x (by simp [hx])
        rw [if_neg hk, if_pos rfl, h0, hll]
        simp
      · have hne : k.neg ≠ l := by
          intro e; apply he; rw [← e]; cases k; simp [Lit.neg]
        rw [if_neg hk, if_neg he, if_neg (by simp [hk, hne]), List.map_cons, List.sum_cons, BitVec.sub_sub,
          BitVec.ofNat_add_ofNat]

theorem insertDegree_perm (x : BitVec 32) (l : List (BitVec 32)) : (insertDegree x l).Perm (x :: l) := by
  induction l with
  | nil => exact List.Perm.refl _
  | cons y l ih =>
    simp only [insertDegree]
    split
    · exact (List.Perm.cons y ih).trans (List.Perm.swap x y l)
    · exact List.Perm.refl _

theorem sortDegrees_perm (l : List (BitVec 32)) : (sortDegrees l).Perm l := by
  induction l with
  | nil => exact List.Perm.refl _
  | cons x l ih => exact (insertDegree_perm x _).trans (List.Perm.cons x ih)

theorem insertDegree_sorted (x : BitVec 32) (l : List (BitVec 32)) (h : l.Pairwise (· ≤ ·)) :
    (insertDegree x l).Pairwise (· ≤ ·) := by
  induction l with
  | nil => simp [insertDegree]
  | cons y l ih =>
    simp only [insertDegree]
    have hp := List.pairwise_cons.1 h
    split
    · next hlt =>
      refine List.pairwise_cons.2 ⟨?_, ih hp.2⟩
      intro z hz
      rcases List.mem_cons.1 ((insertDegree_perm x l).mem_iff.1 hz) with rfl | hz
      · exact BitVec.le_of_lt hlt
      · exact hp.1 z hz
    · next hlt =>
      refine List.pairwise_cons.2 ⟨?_, h⟩
      have hxy : x ≤ y := BitVec.not_lt.1 hlt
      intro z hz
      rcases List.mem_cons.1 hz with rfl | hz
      · exact hxy
      · exact BitVec.le_trans hxy (hp.1 z hz)

theorem sortDegrees_sorted (l : List (BitVec 32)) : (sortDegrees l).Pairwise (· ≤ ·) := by
  induction l with
  | nil => exact List.Pairwise.nil
  | cons x l ih => exact insertDegree_sorted x _ ih

theorem sortDegrees_eq {l r : List (BitVec 32)} (h : l.Perm r) : sortDegrees l = sortDegrees r :=
  List.Perm.eq_of_pairwise (fun _ _ _ _ => BitVec.le_antisymm) (sortDegrees_sorted l) (sortDegrees_sorted r)
    ((sortDegrees_perm l).trans (h.trans (sortDegrees_perm r).symm))

theorem degreeVector_eq {p : Problem} (hv : ∀ c ∈ p.problem, ∀ l ∈ c, l.var < p.variables) (h : NoClash p.problem) :
    degreeVector p = some (sortDegrees ((allLits p.variables).map (degree p.problem))) := by
  unfold degreeVector
  rw [if_pos hv]
  simp only
  congr 2
  apply List.map_congr_left
  intro k _
  rw [facts_fold h k _ _ fun l hl => mem_facts.1 hl, degree, occurrences_length]
  simp only [mem_facts]

/-! ## Renaming -/

/-- The literal after renaming variables and flipping polarities. -/
def rename (f : Nat → Nat) (flip : Nat → Bool) (l : Lit) : Lit := ⟨f l.var, l.sign ^^ flip l.var⟩

/-- `G` is `F` with variables renamed, polarities flipped, clauses reordered and literals reordered
within clauses. -/
def SameUpToNames (f : Nat → Nat) (flip : Nat → Bool) (F G : CNF) : Prop :=
  ∃ H : List (Clause × Clause), F.Perm (H.map (·.1)) ∧ G = H.map (·.2) ∧
    ∀ e ∈ H, (e.1.map (rename f flip)).Perm e.2

theorem rename_neg (f : Nat → Nat) (flip : Nat → Bool) (l : Lit) :
    rename f flip l.neg = (rename f flip l).neg := by
  cases l with | mk v s => simp [rename, Lit.neg]

def unitLit : Clause → Option Lit
  | [l] => some l
  | _ => none

theorem facts_eq (F : CNF) : facts F = F.filterMap unitLit := by
  induction F with
  | nil => rfl
  | cons c F ih =>
    unfold facts
    split
    · next h => simp at h
    · next k G h =>
      simp only [List.cons.injEq] at h
      obtain ⟨rfl, rfl⟩ := h
      rw [List.filterMap_cons]; simp [unitLit, ih]
    · next d G hne h =>
      simp only [List.cons.injEq] at h
      obtain ⟨rfl, rfl⟩ := h
      have : unitLit c = none := by
        unfold unitLit; split
        · next l => exact absurd rfl (hne l)
        · rfl
      rw [List.filterMap_cons, this, ih]

theorem mem_allLits {n : Nat} {l : Lit} : l ∈ allLits n ↔ l.var < n := by
  obtain ⟨v, s⟩ := l
  simp only [allLits, List.mem_flatMap, List.mem_range, List.mem_cons, List.not_mem_nil, or_false,
    Lit.mk.injEq]
  constructor
  · rintro ⟨w, hw, (⟨rfl, _⟩ | ⟨rfl, _⟩)⟩ <;> exact hw
  · intro h
    exact ⟨v, h, by cases s <;> simp⟩

theorem nodup_allLits (n : Nat) : (allLits n).Nodup := by
  induction n with
  | zero => exact List.Pairwise.nil
  | succ n ih =>
    have : allLits (n + 1) = allLits n ++ [⟨n, false⟩, ⟨n, true⟩] := by
      simp [allLits, List.range_succ]
    rw [this, List.nodup_append]
    refine ⟨ih, by simp, ?_⟩
    intro a ha b hb e
    have := mem_allLits.1 ha
    subst e
    simp at hb
    rcases hb with rfl | rfl <;> simp at this

section
variable {f g : Nat → Nat} {flip : Nat → Bool} {n : Nat}

theorem rename_inj (hf : ∀ v, v < n → f v < n ∧ g (f v) = v) {a b : Lit} (ha : a.var < n) (hb : b.var < n)
    (h : rename f flip a = rename f flip b) : a = b := by
  obtain ⟨v, s⟩ := a
  obtain ⟨w, t⟩ := b
  simp only [rename, Lit.mk.injEq] at h
  have hv : v = w := by
    have := congrArg g h.1
    rwa [(hf v ha).2, (hf w hb).2] at this
  subst hv
  have := h.2
  cases s <;> cases t <;> simp_all

theorem allLits_rename (hf : ∀ v, v < n → f v < n ∧ g (f v) = v) (hg : ∀ v, v < n → g v < n ∧ f (g v) = v) :
    ((allLits n).map (rename f flip)).Perm (allLits n) := by
  refine (List.perm_ext_iff_of_nodup ?_ (nodup_allLits n)).2 ?_
  · refine List.Pairwise.map (rename f flip) (R := fun a b => a ≠ b ∧ a.var < n ∧ b.var < n) ?_ ?_
    · rintro a b ⟨hne, ha, hb⟩ e
      exact hne (rename_inj hf ha hb e)
    · exact (nodup_allLits n).imp_of_mem fun ha hb h => ⟨h, mem_allLits.1 ha, mem_allLits.1 hb⟩
  · intro l
    rw [mem_allLits, List.mem_map]
    constructor
    · rintro ⟨k, hk, rfl⟩
      exact (hf _ (mem_allLits.1 hk)).1
    · intro h
      refine ⟨⟨g l.var, l.sign ^^ flip (g l.var)⟩, mem_allLits.2 (hg _ h).1, ?_⟩
      simp [rename, (hg _ h).2]

theorem count_rename (hf : ∀ v, v < n → f v < n ∧ g (f v) = v) {c : Clause} (hc : ∀ l ∈ c, l.var < n) {k : Lit} (hk : k.var < n) :
    (c.map (rename f flip)).count (rename f flip k) = c.count k := by
  rw [List.count_eq_countP, List.countP_map, List.count_eq_countP]
  apply List.countP_congr
  intro x hx
  simp only [Function.comp, beq_iff_eq]
  exact ⟨fun h => rename_inj hf (hc x hx) hk h, fun h => by rw [h]⟩

theorem degree_rename (hf : ∀ v, v < n → f v < n ∧ g (f v) = v) {F G : CNF} (hF : ∀ c ∈ F, ∀ l ∈ c, l.var < n)
    (h : SameUpToNames f flip F G) {k : Lit} (hk : k.var < n) : degree G (rename f flip k) = degree F k := by
  obtain ⟨H, hp, rfl, hH⟩ := h
  have hHF : ∀ e ∈ H, ∀ l ∈ e.1, l.var < n := fun e he =>
    hF _ (hp.mem_iff.2 (List.mem_map_of_mem (f := (·.1)) he))
  have hcount : ∀ e ∈ H, ∀ k : Lit, k.var < n → e.2.count (rename f flip k) = e.1.count k := by
    intro e he k hk
    rw [← (hH e he).count_eq, count_rename hf (hHF e he) hk]
  have hunit : ∀ e ∈ H, unitLit e.2 = (unitLit e.1).map (rename f flip) := by
    intro e he
    have := hH e he
    rcases e with ⟨c, d⟩
    simp only at this ⊢
    match c, this with
    | [], this => rw [List.map_nil, List.nil_perm] at this; subst this; rfl
    | [l], this => rw [List.map_singleton, List.singleton_perm] at this; subst this; rfl
    | a :: b :: c, this =>
      have hl := this.length_eq
      match d, hl with
      | x :: y :: d, _ => rfl
      | [x], hl => simp at hl
      | [], hl => simp at hl
  have hfacts : facts (H.map (·.2)) = (facts (H.map (·.1))).map (rename f flip) := by
    rw [facts_eq, facts_eq, List.filterMap_map, List.filterMap_map, List.map_filterMap]
    have : ∀ L : List (Clause × Clause), (∀ e ∈ L, e ∈ H) → L.filterMap (unitLit ∘ (·.2)) =
        L.filterMap fun e => Option.map (rename f flip) ((unitLit ∘ (·.1)) e) := by
      intro L
      induction L with
      | nil => intro _; rfl
      | cons e L ih =>
        intro hL
        rw [List.filterMap_cons, List.filterMap_cons, ih fun e he => hL e (by simp [he])]
        simp only [Function.comp, hunit e (hL e (by simp))]
    exact this H fun _ h => h
  have hpf : (facts F).Perm (facts (H.map (·.1))) := by
    rw [facts_eq, facts_eq]; exact hp.filterMap _
  have hfv : ∀ l ∈ facts (H.map (·.1)), l.var < n := by
    intro l hl
    have := hF [l] (mem_facts.1 (hpf.mem_iff.2 hl)) l (by simp)
    exact this
  have hneg : [(rename f flip k).neg] ∈ H.map (·.2) ↔ [k.neg] ∈ F := by
    rw [← mem_facts, ← mem_facts, hfacts, hpf.mem_iff, ← rename_neg, List.mem_map]
    constructor
    · rintro ⟨l, hl, e⟩
      rwa [← rename_inj hf (hfv l hl) (by cases k; exact hk) e]
    · intro h; exact ⟨_, h, rfl⟩
  have hcnt : (H.map (·.2)).flatten.count (rename f flip k) = F.flatten.count k := by
    rw [hp.flatten.count_eq, List.count_flatten, List.count_flatten, List.map_map, List.map_map]
    congr 1
    exact List.map_congr_left fun e he => hcount e he k hk
  have hpairs : ∀ l : Lit, l.var < n → pairs (H.map (·.2)) (rename f flip l) (rename f flip k) = pairs F l k := by
    intro l hl
    unfold pairs
    rw [(hp.map _).sum_nat, List.map_map, List.map_map]
    congr 1
    apply List.map_congr_left
    intro e he
    simp only [Function.comp]
    rw [hcount e he l hl, hcount e he k hk]
  have hsum : ((facts (H.map (·.2))).map fun l => pairs (H.map (·.2)) l (rename f flip k)).sum =
      ((facts F).map fun l => pairs F l k).sum := by
    rw [hfacts, List.map_map, (hpf.map _).sum_nat]
    congr 1
    exact List.map_congr_left fun l hl => hpairs l (hfv l hl)
  unfold degree
  rw [hcnt, hsum]
  simp only [hneg]

end

end Problem
end Candy
