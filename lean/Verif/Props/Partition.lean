import Verif.Proofs.Partition

/-!
# Properties of the conjectures made from simulations

Every round of simulation computes 2048 assignments, the lanes of the vectors (`SimVectors.lane`). After any number
of rounds, with compression in any of them, the conjectured backbones are exactly the literals that were true in
every lane. Literals are conjectured equivalent if their 64-bit hashes agree; if different literals have
different hashes, the classes are exactly the sets of literals with the same value in every lane.
-/

namespace Candy

/-- The literal was true in all simulations. -/
def TrueInAll (As : List SimVectors) (l : Lit) : Prop :=
  ∀ A ∈ As, ∀ i : Fin 32, ∀ j < 64, l.holds (A.lane i j)

/-- The literals had the same value in all simulations. -/
def SameInAll (As : List SimVectors) (p q : Lit) : Prop :=
  ∀ A ∈ As, ∀ i : Fin 32, ∀ j < 64, (p.holds (A.lane i j) ↔ q.holds (A.lane i j))

namespace Partition

theorem litFields_eq (A : SimVectors) (v : Nat) (s : Bool) :
    litFields A v s = List.ofFn (fun i => if s then A.vec v i else ~~~ A.vec v i) := by
  cases s <;> simp [litFields, fields]

theorem litFields_bit (A : SimVectors) (l : Lit) (i : Fin 32) {j : Nat} (hj : j < 64) :
    ((if l.sign then A.vec l.var i else ~~~ A.vec l.var i) : BitVec 64).getLsbD j = true ↔ l.holds (A.lane i j) := by
  rw [← A.lit_bit i hj l]
  cases l.sign <;> rfl

theorem ofFn_inj {α : Type} {n : Nat} {f g : Fin n → α} : List.ofFn f = List.ofFn g ↔ f = g := by
  constructor
  · intro h
    funext i
    have := congrArg (fun l => l[i.1]?) h
    simpa [List.getElem?_ofFn] using this
  · rintro rfl; rfl

theorem litFields_eq_iff (A : SimVectors) (p q : Lit) :
    litFields A p.var p.sign = litFields A q.var q.sign ↔
      ∀ i : Fin 32, ∀ j < 64, (p.holds (A.lane i j) ↔ q.holds (A.lane i j)) := by
  rw [litFields_eq, litFields_eq, ofFn_inj]
  constructor
  · intro h i j hj
    rw [← litFields_bit A p i hj, ← litFields_bit A q i hj, congrFun h i]
  · intro h
    funext i
    refine BitVec.eq_of_getLsbD_eq fun j hj => ?_
    have := h i j hj
    rw [← litFields_bit A p i hj, ← litFields_bit A q i hj] at this
    exact Bool.eq_iff_iff.2 this

theorem flatMap_inj {α β : Type} (n : Nat) (f g : α → List β) (hf : ∀ a, (f a).length = n) (hg : ∀ a, (g a).length = n) :
    ∀ l : List α, l.flatMap f = l.flatMap g ↔ ∀ a ∈ l, f a = g a := by
  intro l
  induction l with
  | nil => simp
  | cons a l ih =>
    rw [List.flatMap_cons, List.flatMap_cons, List.forall_mem_cons, ← ih]
    constructor
    · intro h
      exact List.append_inj h (by rw [hf, hg])
    · rintro ⟨h1, h2⟩
      rw [h1, h2]

theorem history_eq_iff (As : List SimVectors) (p q : Lit) :
    history As p.var p.sign = history As q.var q.sign ↔ SameInAll As p q := by
  have hl : ∀ (l : Lit) A, (litFields A l.var l.sign).length = 32 := by intro l A; cases l.sign <;> simp [litFields, fields]
  have e : history As p.var p.sign = history As q.var q.sign ↔
      As.flatMap (litFields · p.var p.sign) = As.flatMap (litFields · q.var q.sign) := by
    unfold history
    cases As with
    | nil => simp
    | cons A As =>
      constructor
      · intro h
        exact (List.append_inj h (by simp [hl])).2
      · intro h
        have : litFields A p.var p.sign = litFields A q.var q.sign := by
          rw [List.flatMap_cons, List.flatMap_cons] at h
          exact (List.append_inj h (by rw [hl, hl])).1
        rw [h]
        simp [this]
  rw [e, flatMap_inj 32 _ _ (hl p) (hl q)]
  unfold SameInAll
  simp only [litFields_eq_iff]

theorem constant_iff (As : List SimVectors) (v : Nat) : constant As v = true ↔ TrueInAll As ⟨v, firstVal As v⟩ := by
  unfold constant TrueInAll
  simp only [List.all_eq_true]
  refine forall_congr' fun A => imp_congr_right fun _ => ?_
  unfold fields
  have : ∀ (p : BitVec 64 → Bool), (∀ x ∈ List.ofFn (A.vec v), p x = true) ↔ ∀ i, p (A.vec v i) = true := by
    intro p
    constructor
    · intro h i
      exact h _ (List.mem_ofFn.2 ⟨i, rfl⟩)
    · intro h x hx
      obtain ⟨i, rfl⟩ := List.mem_ofFn.1 hx
      exact h i
  rw [this]
  refine forall_congr' fun i => ?_
  have hb : ∀ j, j < 64 → ((⟨v, firstVal As v⟩ : Lit).holds (A.lane i j) ↔ (A.vec v i).getLsbD j = firstVal As v) := by
    intro j hj
    rw [← litFields_bit A _ i hj]
    cases firstVal As v <;> simp [hj]
  cases hf : firstVal As v with
  | true =>
    rw [hf] at hb
    simp only [if_true, beq_iff_eq]
    constructor
    · intro h j hj
      rw [hb j hj]
      have : (~~~ A.vec v i).getLsbD j = false := by rw [h]; simp
      simpa [hj] using this
    · intro h
      refine BitVec.eq_of_getLsbD_eq fun j hj => ?_
      have := (hb j hj).1 (h j hj)
      simp [hj, this]
  | false =>
    rw [hf] at hb
    simp only [Bool.false_eq_true, if_false, beq_iff_eq]
    constructor
    · intro h j hj
      rw [hb j hj, h]
      simp
    · intro h
      refine BitVec.eq_of_getLsbD_eq fun j hj => ?_
      have := (hb j hj).1 (h j hj)
      simp [this]

theorem firstVal_of_true {As : List SimVectors} (hAs : As ≠ []) {v : Nat} {b : Bool} (h : TrueInAll As ⟨v, b⟩) :
    firstVal As v = b := by
  cases As with
  | nil => exact absurd rfl hAs
  | cons A As =>
    have := h A (List.mem_cons_self ..) 0 0 (by omega)
    simp only [Lit.holds, SimVectors.lane] at this
    unfold firstVal
    simpa using this

/-- Different literals of the variables, i.e. literals with different values in some simulation, have different
hashes. -/
def NoCollision (variables : List Nat) (As : List SimVectors) : Prop :=
  ∀ p q : Lit, p.var ∈ variables → q.var ∈ variables →
    hist As p.var p.sign = hist As q.var q.sign → SameInAll As p q

theorem final {variables : List Nat} (hlt : ∀ v ∈ variables, v < 2 ^ 28) {sched : Nat → Bool} {As : List SimVectors}
    (hAs : As ≠ []) {P : Partition} (hr : (new variables).run sched As = some P) :
    ∃ kept, PInv variables As P kept := by
  obtain ⟨kept, h⟩ := run_inv hlt As [] (kept := variables) (.inl ⟨rfl, rfl, rfl⟩) hr
  rw [List.nil_append] at h
  rcases h with ⟨h, _⟩ | ⟨_, _, h⟩
  · exact absurd h hAs
  · exact ⟨kept, h⟩

/-- The conjectured backbones are exactly the literals true in all simulations. -/
theorem C41_backbones {variables : List Nat} (hlt : ∀ v ∈ variables, v < 2 ^ 28) (sched : Nat → Bool)
    {As : List SimVectors} (hAs : As ≠ []) {P : Partition} (hr : (new variables).run sched As = some P) (l : Lit) :
    l ∈ P.backbones ↔ l.var ∈ variables ∧ TrueInAll As l := by
  obtain ⟨kept, h⟩ := final hlt hAs hr
  unfold backbones
  rw [h.pos]
  simp only [List.mem_map, List.mem_filter]
  constructor
  · rintro ⟨e, ⟨⟨v, hv, rfl⟩, hb⟩, rfl⟩
    exact ⟨h.sub v hv, (constant_iff As v).1 hb⟩
  · rintro ⟨hv, ht⟩
    obtain ⟨v, b⟩ := l
    have hf := firstVal_of_true hAs ht
    have hc : constant As v = true := by rw [constant_iff, hf]; exact ht
    exact ⟨posEntry As v, ⟨⟨v, h.wanted v hv (.inl hc), rfl⟩, hc⟩, by simp [posEntry, hf]⟩

theorem mem_conj {As : List SimVectors} {es : List (PartitionEntry × PartitionEntry)} {kept : List Nat}
    (h : Entries As es kept) {id : BitVec 64} {c : List Lit} (hc : c ∈ toConjecture (group es id)) :
    (∀ l ∈ c, l.var ∈ kept ∧ hist As l.var l.sign = id ∧ (l.sign && constant As l.var) = false ∧
      ∃ e ∈ group es id, IsEntry As e l.var l.sign) ∧ 2 ≤ c.length := by
  unfold toConjecture at hc
  dsimp only at hc
  split at hc
  · rename_i hl
    rw [List.mem_singleton.1 hc]
    refine ⟨?_, hl.2⟩
    intro l hl
    obtain ⟨e, he, rfl⟩ := List.mem_map.1 hl
    rw [List.mem_filter] at he
    obtain ⟨v, hv, s, hs, hid⟩ := mem_group h he.1
    obtain ⟨_, e2, e3, e4⟩ := hs.eqs
    dsimp only
    rw [e2, e3]
    refine ⟨hv, hid, ?_, e, he.1, hs⟩
    have := he.2
    rw [e4, Bool.not_eq_true'] at this
    exact this
  · simp at hc

theorem conj_mem (es : List (PartitionEntry × PartitionEntry)) : ∀ (ids : List (BitVec 64)) (seen : Nat → Bool),
    ∀ c ∈ conjLoop es ids seen, ∃ id ∈ ids, c ∈ toConjecture (group es id) := by
  intro ids
  induction ids with
  | nil => intro seen c hc; simp [conjLoop] at hc
  | cons id ids ih =>
    intro seen c hc
    simp only [conjLoop, List.mem_append] at hc
    rcases hc with hc | hc
    · split at hc
      · simp at hc
      · exact ⟨id, List.mem_cons_self .., hc⟩
    · obtain ⟨i, hi, h⟩ := ih _ c hc
      exact ⟨i, List.mem_cons_of_mem _ hi, h⟩

/-- Literals conjectured to be equivalent have the same hash. Hence they had the same value in all simulations unless
there is a collision. -/
theorem C41_equivalences {variables : List Nat} (hlt : ∀ v ∈ variables, v < 2 ^ 28) (sched : Nat → Bool)
    {As : List SimVectors} (hAs : As ≠ []) {P : Partition} (hr : (new variables).run sched As = some P) :
    ∀ c ∈ P.equivalences, 2 ≤ c.length ∧ ∀ p ∈ c, p.var ∈ variables ∧ ∀ q ∈ c,
      hist As p.var p.sign = hist As q.var q.sign ∧ (NoCollision variables As → SameInAll As p q) := by
  obtain ⟨kept, h⟩ := final hlt hAs hr
  intro c hc
  obtain ⟨id, _, hc⟩ := conj_mem _ _ _ c hc
  obtain ⟨h1, h2⟩ := mem_conj h.entries hc
  refine ⟨h2, fun p hp => ⟨h.sub _ (h1 p hp).1, fun q hq => ?_⟩⟩
  have e : hist As p.var p.sign = hist As q.var q.sign := (h1 p hp).2.1.trans (h1 q hq).2.1.symm
  exact ⟨e, fun hn => hn p q (h.sub _ (h1 p hp).1) (h.sub _ (h1 q hq).1) e⟩

theorem not_same_neg {As : List SimVectors} (hAs : As ≠ []) (v : Nat) : ¬ SameInAll As ⟨v, true⟩ ⟨v, false⟩ := by
  intro h
  cases As with
  | nil => exact hAs rfl
  | cons A As =>
    have := h A (List.mem_cons_self ..) 0 0 (by omega)
    simp only [Lit.holds] at this
    cases hx : A.lane 0 0 v <;> simp [hx] at this

theorem noBoth {variables : List Nat} {As : List SimVectors} (hAs : As ≠ []) (hn : NoCollision variables As)
    {es : List (PartitionEntry × PartitionEntry)} {kept : List Nat} (h : Entries As es kept)
    (hk : ∀ v ∈ kept, v ∈ variables) : NoBoth es := by
  intro id e he e' he' hp hp' hv
  obtain ⟨v, hv1, s, hs, hid⟩ := mem_group h he
  obtain ⟨w, hw1, t, ht, hid'⟩ := mem_group h he'
  have e1 : s = true := hs.eqs.2.2.1.symm.trans hp
  have e2 : t = false := ht.eqs.2.2.1.symm.trans hp'
  have e3 : v = w := by rw [← hs.eqs.2.1, ← ht.eqs.2.1, hv]
  subst e1; subst e2; subst e3
  exact not_same_neg hAs v (hn ⟨v, true⟩ ⟨v, false⟩ (hk v hv1) (hk v hv1) (hid.trans hid'.symm))

theorem _root_.Candy.SameInAll.symm {As : List SimVectors} {p q : Lit} (h : SameInAll As p q) : SameInAll As q p :=
  fun A hA i j hj => (h A hA i j hj).symm

theorem _root_.Candy.SameInAll.trans {As : List SimVectors} {p q r : Lit} (h : SameInAll As p q) (h' : SameInAll As q r) : SameInAll As p r :=
  fun A hA i j hj => (h A hA i j hj).trans (h' A hA i j hj)

theorem _root_.Candy.SameInAll.neg {As : List SimVectors} {p q : Lit} (h : SameInAll As p q) : SameInAll As p.neg q.neg := by
  have := history_flip ((history_eq_iff As p q).2 h)
  exact (history_eq_iff As p.neg q.neg).1 this

theorem same_hist {As : List SimVectors} {p q : Lit} (h : SameInAll As p q) :
    hist As p.var p.sign = hist As q.var q.sign := congrArg (hash 0) ((history_eq_iff As p q).2 h)

theorem _root_.Candy.TrueInAll.same {As : List SimVectors} {p q : Lit} (hp : TrueInAll As p) (h : SameInAll As p q) : TrueInAll As q :=
  fun A hA i j hj => (h A hA i j hj).1 (hp A hA i j hj)

/-- A literal that was neither always true nor always false. -/
def Changing (As : List SimVectors) (l : Lit) : Prop := ¬ TrueInAll As l ∧ ¬ TrueInAll As l.neg

theorem changing_same {As : List SimVectors} {p q : Lit} (hp : Changing As p) (h : SameInAll As p q) : constant As q.var = false := by
  cases hc : constant As q.var with
  | false => rfl
  | true =>
    have ht := (constant_iff As q.var).1 hc
    obtain ⟨v, s⟩ := q
    dsimp only at ht
    by_cases hs : firstVal As v = s
    · rw [hs] at ht
      exact absurd (TrueInAll.same ht (SameInAll.symm h)) hp.1
    · have : (⟨v, firstVal As v⟩ : Lit) = (⟨v, s⟩ : Lit).neg := by
        simp only [Lit.neg, Lit.mk.injEq, true_and]
        cases hf : firstVal As v <;> cases s <;> simp_all
      rw [this] at ht
      exact absurd (TrueInAll.same ht (SameInAll.symm h.neg)) hp.2

/-- If there are no collisions, two literals of different variables that had the same, not constant, value in
all simulations are conjectured to be equivalent, or their negations are. -/
theorem C41_complete {variables : List Nat} (hlt : ∀ v ∈ variables, v < 2 ^ 28) (sched : Nat → Bool)
    {As : List SimVectors} (hAs : As ≠ []) {P : Partition} (hr : (new variables).run sched As = some P)
    (hn : NoCollision variables As) {p q : Lit} (hp : p.var ∈ variables) (hq : q.var ∈ variables) (hne : p.var ≠ q.var)
    (hc : Changing As p) (hs : SameInAll As p q) :
    ∃ c ∈ P.equivalences, (p ∈ c ∧ q ∈ c) ∨ (p.neg ∈ c ∧ q.neg ∈ c) := by
  obtain ⟨kept, h⟩ := final hlt hAs hr
  have hE := h.entries
  have hb := noBoth hAs hn hE h.sub
  obtain ⟨-, hconj, -⟩ := conjLoop_spec hb (groupOrder (P.pos.zip P.neg) []) [] (fun _ => false)
    (fun v => by simp [SeenIn])
  have hh := (history_eq_iff As p q).2 hs
  have kp : p.var ∈ kept := h.wanted _ hp (.inr ⟨q.var, hq, hne.symm, _, _, hh⟩)
  have kq : q.var ∈ kept := h.wanted _ hq (.inr ⟨p.var, hp, hne, _, _, hh.symm⟩)
  -- the conjecture of a group that is used
  have hclass : ∀ p q : Lit, p.var ∈ kept → q.var ∈ kept → p.var ≠ q.var → Changing As p → SameInAll As p q →
      ∃ c, c ∈ toConjecture (group (P.pos.zip P.neg) (hist As p.var p.sign)) ∧ p ∈ c ∧ q ∈ c := by
    intro p q kp kq hne hc hs
    obtain ⟨e, he, hep⟩ := group_mem hE kp p.sign
    obtain ⟨e', he', heq⟩ := group_mem hE kq q.sign
    rw [← same_hist hs] at he'
    have b1 : e.backbone = false := by
      rw [hep.eqs.2.2.2, changing_same hc (q := p) (fun _ _ _ _ _ => Iff.rfl), Bool.and_false]
    have b2 : e'.backbone = false := by rw [heq.eqs.2.2.2, changing_same hc hs, Bool.and_false]
    have m1 : p ∈ ((group (P.pos.zip P.neg) (hist As p.var p.sign)).filter fun e => !e.backbone).map
        fun e => (⟨e.varId, e.polarity⟩ : Lit) := by
      refine List.mem_map.2 ⟨e, List.mem_filter.2 ⟨he, by simp [b1]⟩, ?_⟩
      rw [hep.eqs.2.1, hep.eqs.2.2.1]
    have m2 : q ∈ ((group (P.pos.zip P.neg) (hist As p.var p.sign)).filter fun e => !e.backbone).map
        fun e => (⟨e.varId, e.polarity⟩ : Lit) := by
      refine List.mem_map.2 ⟨e', List.mem_filter.2 ⟨he', by simp [b2]⟩, ?_⟩
      rw [heq.eqs.2.1, heq.eqs.2.2.1]
    have two : ∀ {α : Type} {x y : α} {l : List α}, x ∈ l → y ∈ l → x ≠ y → 2 ≤ l.length := by
      intro α x y l hx hy hxy
      match l, hx, hy with
      | [a], hx, hy =>
        exact absurd ((List.mem_singleton.1 hx).trans (List.mem_singleton.1 hy).symm) hxy
      | _ :: _ :: _, _, _ => simp
    have l1 := two m1 m2 (fun h => hne (congrArg Lit.var h))
    have l2 : 1 < (group (P.pos.zip P.neg) (hist As p.var p.sign)).length := by
      rw [List.length_map] at l1
      have := List.length_filter_le (fun e : PartitionEntry => !e.backbone) (group (P.pos.zip P.neg) (hist As p.var p.sign))
      omega
    refine ⟨_, ?_, m1, m2⟩
    unfold toConjecture
    dsimp only
    rw [if_pos ⟨l2, l1⟩]
    exact List.mem_singleton.2 rfl
  have hcn : Changing As p.neg := ⟨hc.2, by rw [Lit.neg_neg]; exact hc.1⟩
  -- occurrences of the groups
  have hocc : ∀ l : Lit, l.var ∈ kept → hist As l.var l.sign ∈ groupOrder (P.pos.zip P.neg) [] := by
    intro l hl
    rw [mem_groupOrder]
    obtain ⟨e, he, h1, h2⟩ := hE.mem' hl
    refine ⟨by simp, e, he, ?_⟩
    cases hs : l.sign with
    | true => left; rw [h1]; rfl
    | false => right; exact congrArg PartitionEntry.groupId h2
  -- a group is used if it has a positive entry and the group of the negations is not before
  have hused : ∀ (l : Lit) (a : List (BitVec 64)), Changing As l → l.var ∈ kept →
      (∃ e ∈ group (P.pos.zip P.neg) (hist As l.var l.sign), e.polarity = true) →
      ((∀ e ∈ group (P.pos.zip P.neg) (hist As l.var l.sign), e.polarity = true) ∨ hist As l.neg.var l.neg.sign ∉ a) →
      Used (P.pos.zip P.neg) ([] ++ a) (hist As l.var l.sign) := by
    intro l a hcl hl hpos hor
    refine ⟨?_, hpos, ?_⟩
    · intro e he hpol hseen
      rcases hor with hor | hor
      · rw [hor e he] at hpol; cases hpol
      · obtain ⟨id, hid, d, hd, hdp, hdv⟩ := hseen
        obtain ⟨v, hv, s, hs1, hid1⟩ := mem_group hE he
        obtain ⟨w, hw, t, ht1, hid2⟩ := mem_group hE hd
        have e1 : s = false := hs1.eqs.2.2.1.symm.trans hpol
        have e2 : t = true := ht1.eqs.2.2.1.symm.trans hdp
        have e3 : w = v := by rw [← ht1.eqs.2.1, hdv, hs1.eqs.2.1]
        subst e1; subst e2; subst e3
        have hsame : SameInAll As ⟨w, false⟩ l := hn ⟨w, false⟩ l (h.sub w hv) (h.sub _ hl) hid1
        have h2 : SameInAll As ⟨w, true⟩ l.neg := hsame.neg
        rw [List.nil_append] at hid
        rw [← hid2, same_hist h2] at hid
        exact hor hid
    · intro e he
      obtain ⟨v, hv, s, hs1, hid1⟩ := mem_group hE he
      have hsame : SameInAll As ⟨v, s⟩ l := hn ⟨v, s⟩ l (h.sub v hv) (h.sub _ hl) hid1
      rw [hs1.eqs.2.2.2, changing_same hcl (SameInAll.symm hsame), Bool.and_false]
  have hfin : ∀ l m : Lit, l.var ∈ kept → m.var ∈ kept → l.var ≠ m.var → Changing As l → SameInAll As l m →
      (∃ e ∈ group (P.pos.zip P.neg) (hist As l.var l.sign), e.polarity = true) →
      ((∀ e ∈ group (P.pos.zip P.neg) (hist As l.var l.sign), e.polarity = true) ∨
        ∃ a b, groupOrder (P.pos.zip P.neg) [] = a ++ hist As l.var l.sign :: b ∧ hist As l.neg.var l.neg.sign ∉ a) →
      ∃ c ∈ P.equivalences, l ∈ c ∧ m ∈ c := by
    intro l m kl km hne hc hs hpos hor
    obtain ⟨c, hcc, hlc, hmc⟩ := hclass l m kl km hne hc hs
    rcases hor with hor | ⟨a, b, hab, ha⟩
    · obtain ⟨a, b, hab⟩ := List.append_of_mem (hocc l kl)
      exact ⟨c, hconj a _ b hab (hused l a hc kl hpos (.inl hor)) c hcc, hlc, hmc⟩
    · exact ⟨c, hconj a _ b hab (hused l a hc kl hpos (.inr ha)) c hcc, hlc, hmc⟩
  -- entries of the group of `l` and of its mirror
  have hmirror : ∀ l : Lit, l.var ∈ kept → (∀ e ∈ group (P.pos.zip P.neg) (hist As l.var l.sign), e.polarity = false) →
      ∀ e ∈ group (P.pos.zip P.neg) (hist As l.neg.var l.neg.sign), e.polarity = true := by
    intro l hl hall e he
    obtain ⟨v, hv, s, hs1, hid1⟩ := mem_group hE he
    cases s with
    | true => exact hs1.eqs.2.2.1
    | false =>
      have h2 : SameInAll As ⟨v, true⟩ l := by
        have := (hn ⟨v, false⟩ l.neg (h.sub v hv) (h.sub _ hl) hid1).neg
        rwa [Lit.neg_neg] at this
      obtain ⟨d, hd, hd2⟩ := group_mem hE hv true
      rw [same_hist h2] at hd
      have := hall d hd
      rw [hd2.eqs.2.2.1] at this
      cases this
  have hfirst : ∀ l : Lit, l.var ∈ kept →
      (∃ a b, groupOrder (P.pos.zip P.neg) [] = a ++ hist As l.var l.sign :: b ∧ hist As l.neg.var l.neg.sign ∉ a) ∨
      (∃ a b, groupOrder (P.pos.zip P.neg) [] = a ++ hist As l.neg.var l.neg.sign :: b ∧ hist As l.var l.sign ∉ a) := by
    intro l hl
    obtain ⟨a, b, hab, ha⟩ := List.append_of_mem (hocc l hl) |>.elim fun a ⟨b, hab⟩ =>
      (show ∃ a b, groupOrder (P.pos.zip P.neg) [] = a ++ hist As l.var l.sign :: b ∧ hist As l.var l.sign ∉ a from by
        have : ∀ (L : List (BitVec 64)) (x : BitVec 64), x ∈ L → ∃ a b, L = a ++ x :: b ∧ x ∉ a := by
          intro L x
          induction L with
          | nil => simp
          | cons y L ih =>
            intro hx
            by_cases hxy : x = y
            · exact ⟨[], L, by simp [hxy], by simp⟩
            · obtain ⟨a, b, h1, h2⟩ := ih ((List.mem_cons.1 hx).resolve_left hxy)
              exact ⟨y :: a, b, by rw [h1]; rfl, by simp [hxy, h2]⟩
        exact this _ _ (hocc l hl))
    by_cases hm : hist As l.neg.var l.neg.sign ∈ a
    · obtain ⟨a1, a2, rfl⟩ := List.append_of_mem hm
      right
      refine ⟨a1, a2 ++ hist As l.var l.sign :: b, by rw [hab]; simp, ?_⟩
      intro hx
      exact ha (by simp [hx])
    · exact .inl ⟨a, b, hab, hm⟩
  have key : ∀ l m : Lit, l.var ∈ kept → m.var ∈ kept → l.var ≠ m.var → Changing As l → SameInAll As l m →
      (∃ a b, groupOrder (P.pos.zip P.neg) [] = a ++ hist As l.var l.sign :: b ∧ hist As l.neg.var l.neg.sign ∉ a) →
      ∃ c ∈ P.equivalences, (l ∈ c ∧ m ∈ c) ∨ (l.neg ∈ c ∧ m.neg ∈ c) := by
    intro l m kl km hne hc hs hab
    have hcn : Changing As l.neg := ⟨hc.2, by rw [Lit.neg_neg]; exact hc.1⟩
    by_cases hpos : ∃ e ∈ group (P.pos.zip P.neg) (hist As l.var l.sign), e.polarity = true
    · obtain ⟨c, h1, h2⟩ := hfin l m kl km hne hc hs hpos (.inr hab)
      exact ⟨c, h1, .inl h2⟩
    · have hall := hmirror l kl (fun e he => by
        cases hp : e.polarity with
        | false => rfl
        | true => exact absurd ⟨e, he, hp⟩ hpos)
      obtain ⟨e, he, _⟩ := group_mem hE (v := l.neg.var) kl l.neg.sign
      obtain ⟨c, h1, h2⟩ := hfin l.neg m.neg kl km hne hcn hs.neg ⟨e, he, hall e he⟩ (.inl hall)
      exact ⟨c, h1, .inr h2⟩
  rcases hfirst p kp with hf | hf
  · exact key p q kp kq hne hc hs hf
  · obtain ⟨c, h1, h2⟩ := key p.neg q.neg kp kq hne hcn hs.neg (by rw [Lit.neg_neg]; exact hf)
    rw [Lit.neg_neg, Lit.neg_neg] at h2
    exact ⟨c, h1, h2.symm⟩

/-- If there are no collisions, no variable is in two conjectured equivalence classes. -/
theorem C41_disjoint {variables : List Nat} (hlt : ∀ v ∈ variables, v < 2 ^ 28) (sched : Nat → Bool)
    {As : List SimVectors} (hAs : As ≠ []) {P : Partition} (hr : (new variables).run sched As = some P)
    (hn : NoCollision variables As) :
    P.equivalences.Pairwise fun c d => ∀ p ∈ c, ∀ q ∈ d, p.var ≠ q.var := by
  obtain ⟨kept, h⟩ := final hlt hAs hr
  have hE := h.entries
  have hb := noBoth hAs hn hE h.sub
  obtain ⟨-, -, hconj⟩ := conjLoop_spec hb (groupOrder (P.pos.zip P.neg) []) [] (fun _ => false)
    (fun v => by simp [SeenIn])
  refine hconj ?_
  intro a id b id' b' hord hu hu' c hc d hd p hp q hq hv
  have hnd : (groupOrder (P.pos.zip P.neg) []).Nodup := by
    refine nodup_groupOrder _ _ fun e he heq => ?_
    obtain ⟨v, hv, h1, h2⟩ := hE.mem e he
    have e1 : e.1.groupId = hist As v true := by rw [h1]; rfl
    have e2 : e.2.groupId = hist As v false := congrArg PartitionEntry.groupId h2
    exact not_same_neg hAs v (hn ⟨v, true⟩ ⟨v, false⟩ (h.sub v hv) (h.sub v hv) (by rw [← e1, ← e2, heq]))
  have hii : id ≠ id' := by
    rw [hord] at hnd
    intro hii
    subst hii
    have := (List.nodup_append.1 hnd).2.1
    simp at this
  obtain ⟨kp, idp, _, ep, hep, hep'⟩ := (mem_conj hE hc).1 p hp
  obtain ⟨kq, idq, _, eq, heq, heq'⟩ := (mem_conj hE hd).1 q hq
  -- a positive entry in the first group
  obtain ⟨e, he, hpol⟩ := hu.2.1
  obtain ⟨w, hw, s, hws, hid⟩ := mem_group hE he
  have e1 : s = true := hws.eqs.2.2.1.symm.trans hpol
  subst e1
  have hpq : q = p.neg := by
    obtain ⟨v, s⟩ := p
    obtain ⟨v', t⟩ := q
    dsimp only at hv
    subst hv
    have : s ≠ t := by
      intro hst
      subst hst
      exact hii (idp.symm.trans idq)
    simp only [Lit.neg, Lit.mk.injEq, true_and]
    cases s <;> cases t <;> simp_all
  have h1 : SameInAll As ⟨w, true⟩ p := hn ⟨w, true⟩ p (h.sub w hw) (h.sub _ kp) (hid.trans idp.symm)
  have h2 : SameInAll As ⟨w, false⟩ q := by rw [hpq]; exact h1.neg
  obtain ⟨f, hf, hf'⟩ := group_mem hE hw false
  have : hist As w false = id' := (same_hist h2).trans idq
  rw [this] at hf
  refine hu'.1 f hf hf'.eqs.2.2.1 ⟨id, by simp, e, he, hpol, ?_⟩
  rw [hws.eqs.2.1, hf'.eqs.2.1]

/-- If in no round a variable and its negation have the same hash, no entry is written behind the end of the
vectors, for every choice of the rounds in which the partition is compressed. -/
theorem C41_defined {variables : List Nat} (hlt : ∀ v ∈ variables, v < 2 ^ 28) (hnd : variables.Nodup) (sched : Nat → Bool)
    {As : List SimVectors}
    (ha : ∀ n, 0 < n → n ≤ As.length → ∀ v ∈ variables, hist (As.take n) v true ≠ hist (As.take n) v false) :
    ∃ P, (new variables).run sched As = some P := by
  obtain ⟨P, _, h, _⟩ := run_total hlt (sched := sched) As [] (kept := variables) (.inl ⟨rfl, rfl, rfl⟩) hnd
    (fun n h0 h1 => by rw [List.nil_append]; exact ha n h0 h1)
  exact ⟨P, h⟩

/-! ## An example -/

/-- Two rounds: variable 1 is the negation of variable 0, variable 2 is constant, variable 3 differs from
variable 0 in the second round only, variable 4 equals variable 0. -/
def exRound (k : Nat) : SimVectors :=
  ⟨5, fun v i => match v with
    | 0 => BitVec.ofNat 64 (i.1 + 7)
    | 1 => ~~~ BitVec.ofNat 64 (i.1 + 7)
    | 2 => 0
    | 3 => BitVec.ofNat 64 (i.1 + 7 + k)
    | _ => BitVec.ofNat 64 (i.1 + 7)⟩

theorem exPartition : ((new [0, 1, 2, 3, 4]).run (fun _ => true) [exRound 0, exRound 1]).map
    (fun P => (P.backbones, P.equivalences)) =
    some ([⟨2, false⟩], [[⟨0, true⟩, ⟨4, true⟩, ⟨1, false⟩]]) := by decide +kernel

/-- No collisions in the example. -/
theorem exNoCollision : NoCollision [0, 1, 2, 3, 4] [exRound 0, exRound 1] := by
  have h : ∀ v ∈ [0, 1, 2, 3, 4], ∀ w ∈ [0, 1, 2, 3, 4], ∀ s t : Bool,
      hist [exRound 0, exRound 1] v s = hist [exRound 0, exRound 1] w t →
      history [exRound 0, exRound 1] v s = history [exRound 0, exRound 1] w t := by decide +kernel
  intro p q hp hq hh
  exact (history_eq_iff _ p q).1 (h p.var hp q.var hq p.sign q.sign hh)

/-- The negation of variable 0 and variable 1 had the same value, which was not constant: the hypotheses of the
theorems are met. -/
example : SameInAll [exRound 0, exRound 1] ⟨0, false⟩ ⟨1, true⟩ ∧ Changing [exRound 0, exRound 1] ⟨0, false⟩ ∧
    ¬ SameInAll [exRound 0, exRound 1] ⟨0, true⟩ ⟨3, true⟩ ∧ TrueInAll [exRound 0, exRound 1] ⟨2, false⟩ := by
  refine ⟨(history_eq_iff _ ⟨0, false⟩ ⟨1, true⟩).1 (by decide +kernel), ?_, ?_, ?_⟩
  · have : constant [exRound 0, exRound 1] 0 = false := by decide +kernel
    have hc : ∀ b, ¬ TrueInAll [exRound 0, exRound 1] ⟨0, b⟩ := by
      intro b hb
      have hf := firstVal_of_true (by simp) hb
      rw [← hf] at hb
      rw [(constant_iff _ 0).2 hb] at this
      cases this
    exact ⟨hc false, hc true⟩
  · intro h
    have := (history_eq_iff _ ⟨0, true⟩ ⟨3, true⟩).2 h
    revert this
    decide +kernel
  · have : constant [exRound 0, exRound 1] 2 = true := by decide +kernel
    exact (constant_iff _ 2).1 this

example : ∀ n, 0 < n → n ≤ [exRound 0, exRound 1].length → ∀ v ∈ [0, 1, 2, 3, 4],
    hist ([exRound 0, exRound 1].take n) v true ≠ hist ([exRound 0, exRound 1].take n) v false := by
  intro n h0 h1
  have : n = 1 ∨ n = 2 := by simp at h1; omega
  rcases this with rfl | rfl
  · decide +kernel
  · decide +kernel

end Partition

end Candy
