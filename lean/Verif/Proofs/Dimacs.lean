import Verif.Model.Dimacs

/-! Helper lemmas about reading and writing DIMACS. -/

namespace Candy

/-! ## Simulation between streams -/

/-- The first outcome agrees with the second unless the second is `fragile`. -/
def SimOut {α β : Type} (R : α → β → Prop) (o1 : Out α) (o2 : Out β) : Prop :=
  match o2 with
  | .fragile => True
  | .ok b => ∃ a, o1 = .ok a ∧ R a b
  | .ub => o1 = .ub
  | .throws => o1 = .throws
  | .loops => o1 = .loops

theorem SimOut.bind {α β γ δ : Type} {R : α → β → Prop} {Q : γ → δ → Prop} {o1 : Out α} {o2 : Out β}
    {f : α → Out γ} {g : β → Out δ} (h : SimOut R o1 o2) (hf : ∀ a b, R a b → SimOut Q (f a) (g b)) :
    SimOut Q (o1.bind f) (o2.bind g) := by
  cases o2 with
  | fragile => trivial
  | ok b => obtain ⟨a, rfl, hr⟩ := h; exact hf a b hr
  | ub => simp only [SimOut] at h; subst h; rfl
  | throws => simp only [SimOut] at h; subst h; rfl
  | loops => simp only [SimOut] at h; subst h; rfl

/-- `S` behaves like `T` on related states. -/
structure Simulates {σ τ : Type} (S : Stream σ) (T : Stream τ) (R : σ → τ → Prop) : Prop where
  eof : ∀ {s t}, R s t → S.eof s = T.eof t
  peek : ∀ {s t}, R s t → T.eof t = false → S.peek s = T.peek t
  inc : ∀ {s t}, R s t → T.eof t = false → SimOut R (S.inc s 1) (T.inc t 1)
  num : ∀ {s t}, R s t → T.eof t = false →
    SimOut (fun x y => x = y ∧ ∀ n k, y = some (n, k) → SimOut R (S.inc s k) (T.inc t k))
      (S.num s) (T.num t)

namespace Simulates
variable {σ τ : Type} {S : Stream σ} {T : Stream τ} {R : σ → τ → Prop} (H : Simulates S T R)
include H

theorem skipWhitespace (n : Nat) : ∀ {s t}, R s t →
    SimOut R (skipWhitespace S n s) (skipWhitespace T n t) := by
  induction n with
  | zero => intro s t _; rfl
  | succ n ih =>
    intro s t h
    simp only [Candy.skipWhitespace, H.eof h]
    cases he : T.eof t with
    | true => exact ⟨s, rfl, h⟩
    | false =>
      simp only [Bool.false_eq_true, if_false, H.peek h he]
      cases hp : T.peek t with
      | none => rfl
      | some c =>
        simp only
        split
        · exact (H.inc h he).bind fun a b hr => ih hr
        · exact ⟨s, rfl, h⟩

theorem skipLineLoop (n : Nat) : ∀ {s t}, R s t →
    SimOut R (skipLineLoop S n s) (skipLineLoop T n t) := by
  induction n with
  | zero => intro s t _; rfl
  | succ n ih =>
    intro s t h
    simp only [Candy.skipLineLoop, H.eof h]
    cases he : T.eof t with
    | true => exact ⟨s, rfl, h⟩
    | false =>
      simp only [Bool.false_eq_true, if_false, H.peek h he]
      cases hp : T.peek t with
      | none => rfl
      | some c =>
        simp only
        split
        · exact (H.inc h he).bind fun a b hr => ih hr
        · exact ⟨s, rfl, h⟩

theorem skipString (cs : List Char) : ∀ {s t}, R s t →
    SimOut R (skipString S cs s) (skipString T cs t) := by
  induction cs with
  | nil => intro s t h; exact ⟨s, rfl, h⟩
  | cons c cs ih =>
    intro s t h
    simp only [Candy.skipString, H.eof h]
    cases he : T.eof t with
    | true => rfl
    | false =>
      simp only [Bool.false_eq_true, if_false, H.peek h he]
      split
      · exact (H.inc h he).bind fun a b hr => ih hr
      · rfl

theorem readInteger {s : σ} {t : τ} (h : R s t) :
    SimOut (fun x y => x.1 = y.1 ∧ R x.2 y.2) (readInteger S s) (readInteger T t) := by
  simp only [Candy.readInteger, H.eof h]
  cases he : T.eof t with
  | true => rfl
  | false =>
    simp only [Bool.false_eq_true, if_false]
    refine (H.num h he).bind ?_
    rintro a b ⟨rfl, hk⟩
    cases a with
    | none => rfl
    | some nk =>
      obtain ⟨n, k⟩ := nk
      simp only
      split
      · rfl
      · split
        · rfl
        · split
          · rfl
          · exact (hk n k rfl).bind fun a b hr => ⟨(n, a), rfl, rfl, hr⟩

theorem clauseLoop (n : Nat) : ∀ {s t} (acc : List Lit), R s t →
    SimOut (fun x y => x.1 = y.1 ∧ R x.2 y.2) (clauseLoop S n s acc) (clauseLoop T n t acc) := by
  induction n with
  | zero => intro s t acc _; rfl
  | succ n ih =>
    intro s t acc h
    simp only [Candy.clauseLoop]
    refine (H.readInteger h).bind ?_
    rintro ⟨x, s'⟩ ⟨y, t'⟩ ⟨rfl, hr⟩
    simp only at hr ⊢
    split
    · exact ⟨_, rfl, rfl, hr⟩
    · cases litOfInt x with
      | none => rfl
      | some l => exact ih _ hr

theorem readDimacs (m n : Nat) : ∀ {s t} (p : Problem), R s t →
    SimOut Eq (readDimacsLoop S m n s p) (readDimacsLoop T m n t p) := by
  induction n with
  | zero => intro s t p _; rfl
  | succ n ih =>
    intro s t p h
    simp only [Candy.readDimacsLoop, H.eof h]
    cases he : T.eof t with
    | true => exact ⟨p, rfl, rfl⟩
    | false =>
      simp only [Bool.false_eq_true, if_false]
      refine (H.skipWhitespace m h).bind fun s t h => ?_
      simp only [H.eof h]
      cases he : T.eof t with
      | true => exact ⟨p, rfl, rfl⟩
      | false =>
        simp only [Bool.false_eq_true, if_false, H.peek h he]
        cases T.peek t with
        | none => rfl
        | some c =>
          simp only
          split
          · refine (H.skipString _ h).bind fun s t h => (H.readInteger h).bind ?_
            rintro ⟨x, s'⟩ ⟨y, t'⟩ ⟨rfl, hr⟩
            refine (H.readInteger hr).bind ?_
            rintro ⟨x', s'⟩ ⟨y', t'⟩ ⟨rfl, hr⟩
            simp only
            split
            · rfl
            · exact ih p hr
          · split
            · simp only [skipLine]
              refine ((H.skipLineLoop m h).bind fun s t h => H.skipWhitespace m h).bind
                fun s t h => ih p h
            · refine (H.clauseLoop m [] h).bind ?_
              rintro ⟨x, s'⟩ ⟨y, t'⟩ ⟨rfl, hr⟩
              exact ih _ hr

end Simulates

/-! ## Numbers -/

/-- The characters `strtol` looks at: white space, sign, digits and the character that ends them. -/
structure Token (ws sg ds : List Char) (c : Char) : Prop where
  hws : ∀ x ∈ ws, isSpaceC x = true
  hsg : sg = [] ∨ sg = ['-'] ∨ sg = ['+']
  hds : ∀ x ∈ ds, isDigitC x = true
  stop : isDigitC c = false
  /-- without sign and digits, `c` is neither white space nor a sign -/
  bare : sg = [] → ds = [] → isSpaceC c = false ∧ c ≠ '-' ∧ c ≠ '+'

/-- The value `strtol` computes. -/
def tokenVal (ws sg ds : List Char) : Option (Int × Nat) :=
  if ds = [] then none
  else some (if sg = ['-'] then - (digitsVal ds : Int) else digitsVal ds,
    ws.length + sg.length + ds.length)

theorem takeWhile_append_stop {p : Char → Bool} {a : List Char} {c : Char} {z : List Char}
    (ha : ∀ x ∈ a, p x = true) (hc : p c = false) :
    (a ++ c :: z).takeWhile p = a ∧ (a ++ c :: z).dropWhile p = c :: z := by
  induction a with
  | nil => simp [hc]
  | cons x xs ih =>
    have := ih fun y hy => ha y (List.mem_cons_of_mem _ hy)
    simp [ha x (by simp), this.1, this.2]

theorem isDigitC_not_space {c : Char} (h : isDigitC c = true) :
    isSpaceC c = false ∧ c ≠ '-' ∧ c ≠ '+' ∧ c ≠ '\n' := by
  have key : ∀ d : Char, (d.toNat < 48 ∨ 57 < d.toNat) → c ≠ d := by
    rintro d hd rfl
    simp [isDigitC] at h
    omega
  have h1 := key ' ' (by decide)
  have h2 := key '\t' (by decide)
  have h3 := key '\n' (by decide)
  have h4 := key '\x0b' (by decide)
  have h5 := key '\x0c' (by decide)
  have h6 := key '\r' (by decide)
  exact ⟨by simp [isSpaceC, h1, h2, h3, h4, h5, h6], key '-' (by decide), key '+' (by decide), h3⟩

theorem Token.strtol {ws sg ds : List Char} {c : Char} (h : Token ws sg ds c) (z : List Char) :
    strtol (ws ++ sg ++ ds ++ c :: z) = some (tokenVal ws sg ds) ∧
      (ws ++ sg ++ ds ++ c :: z).takeWhile isSpaceC = ws := by
  have key : ∀ (y : Char) (r : List Char), sg ++ ds ++ c :: z = y :: r → isSpaceC y = false := by
    intro y r hy
    rcases h.hsg with hs | hs | hs
    · subst hs
      cases hds : ds with
      | nil =>
        have := h.bare rfl hds
        simp [hds] at hy
        rw [← hy.1]; exact this.1
      | cons d ds' =>
        have := isDigitC_not_space (h.hds d (by simp [hds]))
        simp [hds] at hy
        rw [← hy.1]; exact this.1
    · subst hs; simp at hy; rw [← hy.1]; decide
    · subst hs; simp at hy; rw [← hy.1]; decide
  obtain ⟨y, r, hy⟩ : ∃ y r, sg ++ ds ++ c :: z = y :: r := by
    cases hh : sg ++ ds ++ c :: z with
    | nil => simp at hh
    | cons y r => exact ⟨y, r, rfl⟩
  have hw := takeWhile_append_stop (z := r) h.hws (key y r hy)
  have e : ws ++ sg ++ ds ++ c :: z = ws ++ y :: r := by rw [← hy]; simp
  refine ⟨?_, by rw [e]; exact hw.1⟩
  rw [e]
  unfold Candy.strtol
  simp only [hw.1, hw.2]
  have hd := takeWhile_append_stop (z := z) h.hds h.stop
  have hsig : (y == '-' || y == '+') = true ↔ sg ≠ [] := by
    rcases h.hsg with hs | hs | hs
    · subst hs
      simp only [ne_eq, not_true_eq_false, iff_false]
      cases hds : ds with
      | nil =>
        have := h.bare rfl hds
        simp [hds] at hy
        simp [← hy.1, this.2]
      | cons d ds' =>
        have := isDigitC_not_space (h.hds d (by simp [hds]))
        simp [hds] at hy
        simp [← hy.1, this.2.1, this.2.2.1]
    · subst hs; simp at hy; simp [← hy.1]
    · subst hs; simp at hy; simp [← hy.1]
  have hne : (c :: z).isEmpty = false := rfl
  rcases h.hsg with hs | hs | hs
  · subst hs
    have hb : (y == '-' || y == '+') = false := by
      cases hh : (y == '-' || y == '+') with
      | false => rfl
      | true => exact absurd rfl (hsig.1 hh)
    have hy' : y :: r = ds ++ c :: z := by simpa using hy.symm
    simp only [hb, Bool.false_eq_true, if_false, hy', hd.1, hd.2, hne]
    have hm : (y == '-') = false := by
      cases hh : (y == '-') with
      | false => rfl
      | true => simp [hh] at hb
    unfold tokenVal
    cases ds with
    | nil => simp
    | cons d ds' => simp [hm]
  · subst hs
    simp at hy
    obtain ⟨rfl, rfl⟩ := hy
    simp only [beq_self_eq_true, Bool.true_or, if_true, hd.1, hd.2, hne]
    unfold tokenVal
    cases ds <;> simp
  · subst hs
    simp at hy
    obtain ⟨rfl, rfl⟩ := hy
    have hm : ('+' == '-') = false := by decide
    simp only [hm, beq_self_eq_true, Bool.false_or, if_true, hd.1, hd.2, hne]
    unfold tokenVal
    cases ds <;> simp

theorem takeWhile_dropWhile_spec (p : Char → Bool) (s : List Char) :
    s = s.takeWhile p ++ s.dropWhile p ∧ (∀ x ∈ s.takeWhile p, p x = true) ∧
      ∀ c r, s.dropWhile p = c :: r → p c = false := by
  induction s with
  | nil => simp
  | cons x xs ih =>
    by_cases hx : p x = true
    · simp only [List.takeWhile_cons, List.dropWhile_cons, hx, if_true]
      refine ⟨by rw [List.cons_append, ← ih.1], ?_, ih.2.2⟩
      intro y hy
      rcases List.mem_cons.1 hy with rfl | hy
      · exact hx
      · exact ih.2.1 y hy
    · simp only [List.takeWhile_cons, List.dropWhile_cons, hx]
      refine ⟨rfl, by simp, ?_⟩
      intro c r hc
      simp at hc
      rw [← hc.1]; simpa using hx

/-- When `strtol` stays inside the memory it has seen a complete token. -/
theorem strtol_token {t : List Char} {x : Option (Int × Nat)} (h : strtol t = some x) :
    ∃ ws sg ds c z, t = ws ++ sg ++ ds ++ c :: z ∧ Token ws sg ds c := by
  obtain ⟨h1, h2, h3⟩ := takeWhile_dropWhile_spec isSpaceC t
  unfold strtol at h
  cases hd : t.dropWhile isSpaceC with
  | nil => simp [hd] at h
  | cons c r =>
    simp only [hd] at h
    have hc := h3 c r hd
    by_cases hs : (c == '-' || c == '+') = true
    · simp only [hs, if_true] at h
      obtain ⟨g1, g2, g3⟩ := takeWhile_dropWhile_spec isDigitC r
      cases he : r.dropWhile isDigitC with
      | nil => simp [he] at h
      | cons d z =>
        refine ⟨t.takeWhile isSpaceC, [c], r.takeWhile isDigitC, d, z, ?_, h2, ?_, g2, g3 d z he, ?_⟩
        · conv => lhs; rw [h1, hd, g1, he]
          simp
        · simp at hs; rcases hs with rfl | rfl <;> simp
        · simp
    · simp only [hs] at h
      obtain ⟨g1, g2, g3⟩ := takeWhile_dropWhile_spec isDigitC (c :: r)
      cases he : (c :: r).dropWhile isDigitC with
      | nil => simp [he] at h
      | cons d z =>
        refine ⟨t.takeWhile isSpaceC, [], (c :: r).takeWhile isDigitC, d, z, ?_, h2, Or.inl rfl, g2,
          g3 d z he, ?_⟩
        · conv => lhs; rw [h1, hd, g1, he]
          simp
        · intro _ hnil
          rw [hnil] at g1
          rw [he] at g1
          simp at g1
          rw [← g1.1]
          refine ⟨hc, ?_, ?_⟩
          · intro e; subst e; simp at hs
          · intro e; subst e; simp at hs

/-- `strtol` does not depend on what follows the token. -/
theorem strtol_local {t u z : List Char} {x : Option (Int × Nat)} (h : strtol t = some x)
    (hu : u <+: t) (hend : u = t ∨ ('\n' ∈ u ∧ '\n' ∉ t.takeWhile isSpaceC)) :
    strtol (u ++ z) = some x ∧ (∀ n k, x = some (n, k) → k < u.length ∧ 0 < k) := by
  obtain ⟨ws, sg, ds, c, w, rfl, tok⟩ := strtol_token h
  have h0 := tok.strtol w
  have hxv : x = tokenVal ws sg ds := by rw [h0.1] at h; exact (Option.some.inj h).symm
  have hlen : (ws ++ sg ++ ds).length < u.length := by
    rcases hend with rfl | ⟨hn, hw⟩
    · simp
    · refine Nat.lt_of_not_le fun hle => ?_
      rw [h0.2] at hw
      have hpre : u <+: ws ++ sg ++ ds := by
        obtain ⟨v, hv⟩ := hu
        have := congrArg (List.take u.length) hv
        rw [List.take_left', List.take_append_of_le_length hle] at this
        · rw [this]; exact List.take_prefix _ _
        · rfl
      have hmem : '\n' ∈ ws ++ sg ++ ds := hpre.mem hn
      rcases List.mem_append.1 hmem with hm | hm
      · rcases List.mem_append.1 hm with hm | hm
        · exact hw hm
        · rcases tok.hsg with hs | hs | hs <;> simp [hs] at hm
      · exact absurd rfl (isDigitC_not_space (tok.hds _ hm)).2.2.2
  obtain ⟨v, hv⟩ := hu
  obtain ⟨u', rfl⟩ : ∃ u', u = ws ++ sg ++ ds ++ c :: u' := by
    have h1 := congrArg (List.take (ws ++ sg ++ ds).length) hv
    have h2 := congrArg (List.drop (ws ++ sg ++ ds).length) hv
    rw [List.take_append_of_le_length (by omega), List.take_left'] at h1
    · rw [List.drop_append_of_le_length (by omega), List.drop_left'] at h2
      · cases hd : u.drop (ws ++ sg ++ ds).length with
        | nil => have := List.drop_eq_nil_iff.1 hd; omega
        | cons y ys =>
          rw [hd] at h2
          simp at h2
          refine ⟨ys, ?_⟩
          have h3 := List.take_append_drop (ws ++ sg ++ ds).length u
          rw [h1, hd, h2.1] at h3
          exact h3.symm
      · rfl
    · rfl
  constructor
  · have := (tok.strtol (u' ++ z)).1
    rw [hxv, ← this]; simp
  · intro n k hk
    rw [hxv] at hk
    unfold tokenVal at hk
    split at hk
    · cases hk
    · next hne =>
      simp at hk
      have : 0 < ds.length := List.length_pos_iff.2 hne
      rw [← hk.2]
      simp
      omega

/-! ## The buffer -/

/-- Every stretch of `N` characters contains a newline: all lines are shorter than the buffer. -/
def LinesFit (N : Nat) (t : List Char) : Prop :=
  ∀ i, i + N ≤ t.length → '\n' ∈ (t.drop i).take N

theorem LinesFit.drop {N : Nat} {t : List Char} (h : LinesFit N t) (k : Nat) :
    LinesFit N (t.drop k) := by
  intro i hi
  rw [List.drop_drop]
  rw [List.length_drop] at hi
  by_cases hk : k ≤ t.length
  · exact h (k + i) (by omega)
  · have : N = 0 := by omega
    exact absurd (h 0 (by omega)) (by simp [this])

/-- The state of the buffer represents the rest `t` of the text. -/
structure Rep (N : Nat) (b : SBuf) (t : List Char) : Prop where
  len : b.buffer.length = N
  size : b.size ≤ N
  offset : b.offset ≤ b.size
  text : t = (b.buffer.take b.size).drop b.pos ++ b.file
  kind : (b.offset = 0 ∧ b.file = [] ∧ b.size < N ∧ (b.pos < b.size ∨ (b.size = 0 ∧ b.pos = 0))) ∨
    (b.size = N ∧ b.pos < b.size - b.offset ∧ b.buffer[b.size - b.offset - 1]? = some '\n')

theorem takeWhile_length_lt {p : Char → Bool} {l : List Char}
    (h : (l.takeWhile p).length ≠ l.length) :
    (l.takeWhile p).length < l.length ∧ ∃ c, l[(l.takeWhile p).length]? = some c ∧ p c = false := by
  induction l with
  | nil => simp at h
  | cons x xs ih =>
    by_cases hx : p x = true
    · simp only [List.takeWhile_cons, hx, if_true, List.length_cons] at h ⊢
      obtain ⟨h1, c, h2, h3⟩ := ih (by omega)
      exact ⟨by omega, c, by simpa using h2, h3⟩
    · simp [hx]

theorem takeWhile_length_eq {p : Char → Bool} {l : List Char}
    (h : (l.takeWhile p).length = l.length) : ∀ x ∈ l, p x = true := by
  induction l with
  | nil => simp
  | cons x xs ih =>
    by_cases hx : p x = true
    · simp only [List.takeWhile_cons, hx, if_true, List.length_cons, Nat.add_right_cancel_iff] at h
      intro y hy
      rcases List.mem_cons.1 hy with rfl | hy
      · exact hx
      · exact ih h y hy
    · simp [hx] at h

/-- Refilling an exhausted buffer. -/
theorem refill_rep {N : Nat} {b : SBuf} {t : List Char} (_hN : 0 < N) (hlen : b.buffer.length = N)
    (hsize : b.size ≤ N) (hoff : b.offset ≤ b.size) (hpos : b.pos = b.size - b.offset)
    (ht : t = (b.buffer.take b.size).drop b.pos ++ b.file) (hfit : LinesFit N t) :
    ∃ b', b.refill = .ok b' ∧ Rep N b' t ∧ b'.size ≤ t.length := by
  have hcl : ((b.buffer.take b.size).drop b.pos).length = b.offset := by
    rw [List.length_drop, List.length_take]; omega
  have hoffN : b.offset ≤ N := by omega
  obtain ⟨got, hgot⟩ : ∃ g, g = min (b.buffer.length - b.offset) b.file.length := ⟨_, rfl⟩
  have hg1 : got ≤ b.file.length := by omega
  have hg2 : b.offset + got ≤ N := by omega
  have hload : b.load = ⟨(b.buffer.take b.size).drop b.pos ++ b.file.take got ++
      b.buffer.drop (b.offset + got), 0, b.offset + got, 0, b.file.drop got⟩ := by
    rw [SBuf.load, hpos, hgot]
  have hfront : ((b.buffer.take b.size).drop b.pos ++ b.file.take got).length = b.offset + got := by
    rw [List.length_append, hcl, List.length_take]; omega
  have hblen : b.load.buffer.length = N := by
    rw [hload]
    simp only
    rw [List.length_append, hfront, List.length_drop]; omega
  have hbtake : b.load.buffer.take (b.offset + got) =
      (b.buffer.take b.size).drop b.pos ++ b.file.take got := by
    rw [hload]
    simp only
    rw [← hfront, List.take_left' rfl]
  have htext : t = b.load.buffer.take (b.offset + got) ++ b.file.drop got := by
    rw [hbtake, List.append_assoc, List.take_append_drop, ht]
  have hszt : b.offset + got ≤ t.length := by
    rw [htext, List.length_append, List.length_take]; omega
  unfold SBuf.refill
  rw [if_pos (by omega)]
  have hsz : b.load.size = b.offset + got := by rw [hload]
  have hfile : b.load.file = b.file.drop got := by rw [hload]
  have hp0 : b.load.pos = 0 := by rw [hload]
  have ho0 : b.load.offset = 0 := by rw [hload]
  simp only [hblen, hsz]
  by_cases hlt : b.offset + got < N
  · rw [if_pos hlt]
    have hfe : b.file.drop got = [] := List.drop_eq_nil_of_le (by omega)
    refine ⟨b.load, rfl, ⟨hblen, by rw [hsz]; omega, by rw [ho0]; omega, ?_, Or.inl ?_⟩, by
      rw [hsz]; exact hszt⟩
    · rw [hsz, hp0, hfile, List.drop_zero]; exact htext
    · refine ⟨ho0, by rw [hfile, hfe], by omega, ?_⟩
      rw [hsz, hp0]; omega
  · rw [if_neg hlt]
    have hsN : b.offset + got = N := by omega
    have htl : b.load.tailLength =
        ((b.load.buffer.take N).reverse.takeWhile (· != '\n')).length := by
      rw [SBuf.tailLength, hsz, hsN]
    have hfull : b.load.buffer.take N = b.load.buffer := by
      rw [List.take_of_length_le]; omega
    have htake : t.take N = b.load.buffer := by
      rw [htext, hsN, hfull, List.take_left' hblen]
    have hnl : '\n' ∈ b.load.buffer := by
      have := hfit 0 (by rw [htext, hsN, hfull, List.length_append]; omega)
      rw [List.drop_zero, htake] at this
      exact this
    have hne : b.load.tailLength ≠ b.offset + got := by
      intro e
      rw [htl, hfull, hsN] at e
      have := takeWhile_length_eq (p := (· != '\n')) (l := b.load.buffer.reverse)
        (by rw [e, List.length_reverse, hblen])
      have := this '\n' (List.mem_reverse.2 hnl)
      simp at this
    rw [if_neg hne]
    have hne2 : (b.load.buffer.reverse.takeWhile (· != '\n')).length ≠ b.load.buffer.reverse.length := by
      rw [List.length_reverse, hblen, ← hsN]
      rw [htl, hfull] at hne
      exact hne
    obtain ⟨h1, c, h2, h3⟩ := takeWhile_length_lt hne2
    have htl' : b.load.tailLength = (b.load.buffer.reverse.takeWhile (· != '\n')).length := by
      rw [htl, hfull]
    rw [← htl'] at h1 h2
    rw [List.length_reverse, hblen] at h1
    rw [List.getElem?_reverse (by rw [hblen]; omega), hblen] at h2
    have hc : c = '\n' := by simpa using h3
    subst hc
    refine ⟨{ b.load with offset := b.load.tailLength }, by simp only [hsz],
      ⟨hblen, ?_, ?_, ?_, Or.inr ⟨?_, ?_, ?_⟩⟩, by simp only; rw [hsz]; exact hszt⟩
    · simp only; rw [hsz]; omega
    · simp only; rw [hsz]; omega
    · simp only; rw [hsz, hp0, hfile, List.drop_zero]; exact htext
    · simp only; rw [hsz]; omega
    · simp only; rw [hsz, hp0]; omega
    · simp only; rw [hsz]
      rw [show b.offset + got - b.load.tailLength - 1 = N - 1 - b.load.tailLength by omega]
      exact h2

theorem Rep.init {N : Nat} {memory file : List Char} (hN : 0 < N) (hm : memory.length = N)
    (hfit : LinesFit N file) : ∃ b, SBuf.init memory file = .ok b ∧ Rep N b file ∧ b.size ≤ file.length := by
  refine refill_rep hN hm (Nat.zero_le _) (Nat.le_refl _) rfl ?_ hfit
  simp

/-- The characters the buffer may hand out without reading on. -/
def SBuf.visible (b : SBuf) : List Char := (b.buffer.drop b.pos).take (b.size - b.offset - b.pos)

theorem Rep.eof {N : Nat} {b : SBuf} {t : List Char} (h : Rep N b t) :
    (b.size - b.offset ≤ b.pos) ↔ t = [] := by
  have hl := h.len
  have hs := h.size
  rcases h.kind with ⟨h1, h2, h3, h4⟩ | ⟨h1, h2, h3⟩
  · rw [h.text, h2, h1]
    rw [List.append_nil, List.drop_eq_nil_iff, List.length_take]
    omega
  · constructor
    · omega
    · intro e
      have := h.text
      rw [e] at this
      have := (List.append_eq_nil_iff.1 this.symm).1
      rw [List.drop_eq_nil_iff, List.length_take] at this
      omega

theorem Rep.visible_prefix {N : Nat} {b : SBuf} {t : List Char} (h : Rep N b t) :
    b.visible <+: t ∧ b.visible.length = b.size - b.offset - b.pos ∧
      (∃ z, b.buffer.drop b.pos = b.visible ++ z) := by
  have hl := h.len
  have hs := h.size
  have ho := h.offset
  refine ⟨?_, ?_, ?_⟩
  · rw [h.text, List.drop_take, SBuf.visible]
    have : (b.buffer.drop b.pos).take (b.size - b.offset - b.pos) =
        ((b.buffer.drop b.pos).take (b.size - b.pos)).take (b.size - b.offset - b.pos) := by
      rw [List.take_take]; congr 1; omega
    rw [this]
    exact (List.take_prefix _ _).trans (List.prefix_append _ _)
  · rw [SBuf.visible, List.length_take, List.length_drop]; omega
  · exact ⟨_, (List.take_append_drop _ _).symm⟩

theorem Rep.inc {N : Nat} {b : SBuf} {t : List Char} (hN : 0 < N) (h : Rep N b t)
    (hfit : LinesFit N t) {k : Nat} (hk : k ≤ b.size - b.offset - b.pos) :
    ∃ b', SBuf.stream.inc b k = .ok b' ∧ Rep N b' (t.drop k) ∧
      (b'.size ≤ b.size ∨ b'.size ≤ (t.drop k).length) := by
  have hl := h.len
  have hs := h.size
  have ho := h.offset
  have ht : t.drop k = (b.buffer.take b.size).drop (b.pos + k) ++ b.file := by
    rw [h.text, List.drop_append_of_le_length, List.drop_drop]
    rw [List.length_drop, List.length_take]; omega
  by_cases he : b.size - b.offset ≤ b.pos
  · have h0 : k = 0 := by omega
    have hpe : b.pos = b.size - b.offset := by
      rcases h.kind with ⟨h1, h2, h3, h4⟩ | ⟨h1, h2, h3⟩ <;> omega
    subst h0
    obtain ⟨b', h1, h2, h3⟩ := refill_rep (b := { b with pos := b.pos + 0 }) hN hl hs ho
      (by simpa using hpe) ht (hfit.drop 0)
    exact ⟨b', h1, h2, Or.inr h3⟩
  by_cases hlast : b.pos + k = b.size - b.offset
  · obtain ⟨b', h1, h2, h3⟩ :=
      refill_rep (b := { b with pos := b.pos + k }) hN hl hs ho hlast ht (hfit.drop k)
    exact ⟨b', h1, h2, Or.inr h3⟩
  · refine ⟨{ b with pos := b.pos + k }, ?_, ⟨hl, hs, ho, ht, ?_⟩, Or.inl (Nat.le_refl _)⟩
    · simp only [SBuf.stream, SBuf.refill]
      rw [if_neg (by omega)]
    · rcases h.kind with ⟨h1, h2, h3, h4⟩ | ⟨h1, h2, h3⟩
      · exact Or.inl ⟨h1, h2, h3, Or.inl (by simp only; omega)⟩
      · exact Or.inr ⟨h1, by simp only; omega, h3⟩

/-- The relation of the simulation; when `whole` is set the whole file is in the buffer. -/
def RepW (N : Nat) (whole : Bool) (b : SBuf) (t : List Char) : Prop :=
  Rep N b t ∧ LinesFit N t ∧ (whole = true → b.size < N ∧ t.length < N)

theorem RepW.end {N : Nat} {whole : Bool} {b : SBuf} {t : List Char} (h : RepW N whole b t) :
    b.visible = t ∨ '\n' ∈ b.visible := by
  obtain ⟨h, -, -⟩ := h
  rcases h.kind with ⟨h1, h2, h3, h4⟩ | ⟨h1, h2, h3⟩
  · left
    rw [SBuf.visible, h.text, h2, h1, List.append_nil, List.drop_take]; rfl
  · right
    have : b.visible[b.size - b.offset - 1 - b.pos]? = some '\n' := by
      rw [SBuf.visible, List.getElem?_take_of_lt (by omega), List.getElem?_drop]
      rw [show b.pos + (b.size - b.offset - 1 - b.pos) = b.size - b.offset - 1 by omega]
      exact h3
    exact List.mem_of_getElem? this

theorem RepW.whole {N : Nat} {b : SBuf} {t : List Char} (h : RepW N true b t) : b.visible = t := by
  obtain ⟨h, -, hw⟩ := h
  have := hw rfl
  rcases h.kind with ⟨h1, h2, h3, h4⟩ | ⟨h1, h2, h3⟩
  · rw [SBuf.visible, h.text, h2, h1, List.append_nil, List.drop_take]; rfl
  · omega

theorem RepW.inc {N : Nat} {whole : Bool} {b : SBuf} {t : List Char} (hN : 0 < N)
    (h : RepW N whole b t) {k : Nat} (hk : k ≤ b.size - b.offset - b.pos) :
    SimOut (RepW N whole) (SBuf.stream.inc b k) ((plain whole).inc t k) := by
  obtain ⟨b', h1, h2, h3⟩ := h.1.inc hN h.2.1 hk
  refine ⟨b', h1, h2, h.2.1.drop k, fun hw => ?_⟩
  have := h.2.2 hw
  rw [List.length_drop] at h3 ⊢
  omega

/-- The buffer simulates the plain stream. -/
theorem buffer_simulates {N : Nat} (hN : 0 < N) (whole : Bool) :
    Simulates SBuf.stream (plain whole) (RepW N whole) where
  eof {b t} h := by
    have := h.1.eof
    simp only [SBuf.stream, plain]
    rw [Bool.eq_iff_iff, decide_eq_true_iff, this, List.isEmpty_iff]
  peek {b t} h he := by
    have hv := h.1.visible_prefix
    have hne : ¬ b.size - b.offset ≤ b.pos := by
      rw [h.1.eof]
      intro e
      simp [plain, e] at he
    have hl := h.1.len
    have hs := h.1.size
    simp only [SBuf.stream, plain]
    rw [h.1.text]
    rw [List.head?_append, List.head?_drop, List.getElem?_take_of_lt (by omega)]
    have : b.pos < b.buffer.length := by omega
    rw [List.getElem?_eq_getElem this]; rfl
  inc {b t} h he := by
    have hne : ¬ b.size - b.offset ≤ b.pos := by
      rw [h.1.eof]
      intro e
      simp [plain, e] at he
    exact h.inc hN (by omega)
  num {b t} h he := by
    simp only [plain]
    cases hst : strtol t with
    | none => trivial
    | some x =>
      simp only
      split
      · trivial
      · next hc =>
        obtain ⟨hpre, hlen, z, hz⟩ := h.1.visible_prefix
        have hend : b.visible = t ∨ ('\n' ∈ b.visible ∧ '\n' ∉ t.takeWhile isSpaceC) := by
          cases whole with
          | true => exact Or.inl h.whole
          | false =>
            rcases h.end with h1 | h1
            · exact Or.inl h1
            · exact Or.inr ⟨h1, by simpa using hc⟩
        have hloc := strtol_local (z := z) hst hpre hend
        refine ⟨x, ?_, rfl, fun n k hk => ?_⟩
        · simp only [SBuf.stream, hz, hloc.1]
        · have := (hloc.2 n k hk).1
          exact h.inc hN (by omega)

/-- Reading through the buffer agrees with reading the plain text. -/
theorem readDimacs_sim {N : Nat} (hN : 0 < N) (whole : Bool) {memory file : List Char}
    (hm : memory.length = N) (hfit : LinesFit N file) (hw : whole = true → file.length < N)
    (fuel : Nat) : SimOut Eq (readDimacs memory fuel file) (readPlain whole fuel file) := by
  obtain ⟨b, h1, h2, h3⟩ := Rep.init hN hm hfit
  simp only [readDimacs, h1, readPlain, Out.bind]
  refine (buffer_simulates hN whole).readDimacs fuel fuel _ ⟨h2, hfit, fun h => ?_⟩
  have := hw h
  omega

end Candy
