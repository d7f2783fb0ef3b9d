import Verif.Proofs.DratRun
import Verif.Proofs.DimacsText

/-! Certificates written by the solver are read back by the checker. -/

namespace Candy

namespace Simulates
variable {σ τ : Type} {S : Stream σ} {T : Stream τ} {R : σ → τ → Prop} (H : Simulates S T R)
include H

theorem skipLine (m : Nat) {s : σ} {t : τ} (h : R s t) : SimOut R (skipLine S m s) (skipLine T m t) :=
  (H.skipLineLoop m h).bind fun _ _ h => H.skipWhitespace m h

theorem readLine (m : Nat) {s : σ} {t : τ} (h : R s t) (he : T.eof t = false) :
    SimOut (fun x y => x.1 = y.1 ∧ R x.2 y.2) (readLine S m s) (readLine T m t) := by
  simp only [Candy.readLine, H.peek h he]
  cases T.peek t with
  | none => rfl
  | some c =>
    simp only
    split
    · exact (H.skipLine m h).bind fun a b hr => ⟨_, rfl, rfl, hr⟩
    · split
      · refine (H.inc h he).bind fun a b hr => (H.clauseLoop m [] hr).bind ?_
        rintro ⟨x, s'⟩ ⟨y, t'⟩ ⟨rfl, hr⟩
        exact ⟨_, rfl, rfl, hr⟩
      · refine (H.clauseLoop m [] h).bind ?_
        rintro ⟨x, s'⟩ ⟨y, t'⟩ ⟨rfl, hr⟩
        exact ⟨_, rfl, rfl, hr⟩

theorem checkLoop (m n : Nat) : ∀ {s t} (ck : Checker), R s t →
    SimOut Eq (checkLoop S m n s ck) (checkLoop T m n t ck) := by
  induction n with
  | zero => intro s t p _; rfl
  | succ n ih =>
    intro s t ck h
    simp only [Candy.checkLoop, H.eof h]
    cases he : T.eof t with
    | true => exact ⟨_, rfl, rfl⟩
    | false =>
      simp only [Bool.false_eq_true, if_false]
      refine (H.readLine m h he).bind ?_
      rintro ⟨x, s'⟩ ⟨y, t'⟩ ⟨rfl, hr⟩
      cases x with
      | none => exact (H.skipWhitespace m hr).bind fun a b hr => ih ck hr
      | some d =>
        simp only
        cases ck.line d with
        | none => rfl
        | some z =>
          obtain ⟨ck', r⟩ := z
          cases r with
          | false => exact ⟨_, rfl, rfl⟩
          | true => exact (H.skipWhitespace m hr).bind fun a b hr => ih ck' hr

theorem readLines (m n : Nat) : ∀ {s t}, R s t →
    SimOut Eq (readLines S m n s) (readLines T m n t) := by
  induction n with
  | zero => intro s t _; rfl
  | succ n ih =>
    intro s t h
    simp only [Candy.readLines, H.eof h]
    cases he : T.eof t with
    | true => exact ⟨_, rfl, rfl⟩
    | false =>
      simp only [Bool.false_eq_true, if_false]
      refine (H.readLine m h he).bind ?_
      rintro ⟨x, s'⟩ ⟨y, t'⟩ ⟨rfl, hr⟩
      refine (H.skipWhitespace m hr).bind fun a b hr => (ih hr).bind ?_
      rintro ds _ rfl
      exact ⟨_, rfl, rfl⟩

end Simulates

/-- The outcome of checking lines. -/
def runOut (ds : List DLine) (ck : Checker) : Out Bool :=
  match Checker.runLines ds ck with
  | none => .ub
  | some b => .ok b

theorem checkLoop_readLines {σ : Type} (S : Stream σ) (m : Nat) : ∀ (n : Nat) (s : σ) (ck : Checker)
    (ds : List DLine), readLines S m n s = .ok ds → checkLoop S m n s ck = runOut ds ck
  | 0, _, _, _, h => by simp [readLines] at h
  | n + 1, s, ck, ds, h => by
    unfold readLines at h
    unfold checkLoop
    by_cases he : S.eof s = true
    · rw [if_pos he] at h ⊢
      simp only [Out.ok.injEq] at h
      subst h; rfl
    · rw [if_neg he] at h ⊢
      obtain ⟨⟨o, s1⟩, h1, h2⟩ := Out.bind_ok h
      obtain ⟨s2, h3, h4⟩ := Out.bind_ok h2
      obtain ⟨es, h5, h6⟩ := Out.bind_ok h4
      simp only [Out.ok.injEq] at h6
      rw [h1]
      cases o with
      | none =>
        simp only at h6; subst h6
        simp only [Out.bind, h3]
        exact checkLoop_readLines S m n s2 ck es h5
      | some d =>
        simp only at h6; subst h6
        simp only [Out.bind, runOut, Checker.runLines]
        cases hx : ck.line d with
        | none => rfl
        | some x =>
          obtain ⟨ck', r⟩ := x
          cases r with
          | false => rfl
          | true =>
            simp only [h3]
            exact checkLoop_readLines S m n s2 ck' es h5

/-- All variables of the log can be written and read. -/
def LogSmall (log : List ProofLine) : Prop := ∀ d ∈ log, ∀ l ∈ d.read.lits, l.var < 2 ^ 30

theorem IntText.head_not_d {t : List Char} {n : Int} (h : IntText t n) : t.head? ≠ some 'd' := by
  cases h with
  | digits hne hd =>
    cases t with
    | nil => simp
    | cons c r =>
      have := hd c (by simp)
      intro he
      simp at he; subst he; revert this; decide
  | plus => simp
  | minus => simp

theorem ClauseText.head_not_d {multi : Bool} {t : List Char} {c : Clause} (h : ClauseText multi t c) :
    t.head? ≠ some 'd' := by
  cases h with
  | zero h => exact h.head_not_d
  | lit h =>
    have h1 := h.head_not_d
    obtain ⟨x, r, rfl, _⟩ := h.head
    simpa using h1

theorem clauseLine_length (c : Clause) : c.length < (clauseLine c).length := by
  induction c with
  | nil => simp [clauseLine]
  | cons l c ih =>
    have : clauseLine (l :: c) = litText l ++ [' '] ++ clauseLine c := by simp [clauseLine]
    rw [this]; simp; omega

theorem readLine_clause {c : Clause} (hc : ∀ l ∈ c, l.var < 2 ^ 30) {m : Nat} (z : List Char)
    (hm : c.length < m) : readLine (plain false) m (clauseLine c ++ z) = .ok (some (.add c), '\n' :: z) := by
  obtain ⟨txt, h1, h2⟩ := clauseLine_text hc
  obtain ⟨x, r, hx, h3, h4, h5⟩ := h2.head
  have h6 := h2.head_not_d
  have hl := clauseLoop_plain h2 (ws := []) (z := z) (e := '\n') (m := m) [] (by simp) (by simp)
    (by decide) hm
  have e : clauseLine c ++ z = txt ++ '\n' :: z := by rw [h1]; simp
  rw [e]
  rw [List.nil_append, List.nil_append] at hl
  unfold readLine
  have hp : (plain false).peek (txt ++ '\n' :: z) = some x := by rw [hx]; rfl
  have hxd : x ≠ 'd' := by rw [hx] at h6; simpa using h6
  rw [hp]
  simp only [h5, hxd, if_false, hl, Out.bind]

theorem readLine_del {c : Clause} (hc : ∀ l ∈ c, l.var < 2 ^ 30) {m : Nat} (z : List Char)
    (hm : c.length < m) :
    readLine (plain false) m ('d' :: ' ' :: clauseLine c ++ z) = .ok (some (.del c), '\n' :: z) := by
  obtain ⟨txt, h1, h2⟩ := clauseLine_text hc
  have hl := clauseLoop_plain h2 (ws := [' ']) (z := z) (e := '\n') (m := m) [] (by decide) (by simp)
    (by decide) hm
  have e : 'd' :: ' ' :: clauseLine c ++ z = 'd' :: ([' '] ++ txt ++ '\n' :: z) := by rw [h1]; simp
  rw [e]
  rw [List.nil_append] at hl
  generalize [' '] ++ txt ++ '\n' :: z = w at hl
  unfold readLine
  simp [plain, Out.bind] at hl ⊢
  rw [hl]

theorem ProofLine.readLine_text {d : ProofLine} (hd : ∀ l ∈ d.read.lits, l.var < 2 ^ 30) {m : Nat}
    (z : List Char) (hm : d.text.length ≤ m) :
    readLine (plain false) m (d.text ++ z) = .ok (some d.read, '\n' :: z) := by
  cases d with
  | add c =>
    have := clauseLine_length c
    exact readLine_clause (c := c) hd z (by simp only [ProofLine.text] at hm; omega)
  | del c =>
    have := clauseLine_length c
    exact readLine_del (c := c) hd z (by simp only [ProofLine.text, List.length_cons] at hm; omega)
  | empty => exact readLine_clause (c := []) (by simp) z (by simp [ProofLine.text] at hm ⊢; omega)

theorem ProofLine.text_head {d : ProofLine} (hd : ∀ l ∈ d.read.lits, l.var < 2 ^ 30) :
    ∃ c t, d.text = c :: t ∧ isSpaceC c = false := by
  have hcl : ∀ c : Clause, (∀ l ∈ c, l.var < 2 ^ 30) → ∃ x t, clauseLine c = x :: t ∧ isSpaceC x = false := by
    intro c hc
    obtain ⟨txt, h1, h2⟩ := clauseLine_text hc
    obtain ⟨x, r, rfl, h, _⟩ := h2.head
    exact ⟨x, _, h1, h⟩
  cases d with
  | add c => exact hcl c hd
  | del c => exact ⟨'d', _, rfl, by decide⟩
  | empty => exact ⟨'0', ['\n'], rfl, by decide⟩

theorem certificateText_skip {log : List ProofLine} (h : LogSmall log) :
    (certificateText log).dropWhile isSpaceC = certificateText log := by
  cases log with
  | nil => rfl
  | cons d log =>
    obtain ⟨c, t, h1, h2⟩ := d.text_head (h d (by simp))
    simp [certificateText, h1, h2]

theorem text_length_pos (d : ProofLine) : 0 < d.text.length := by
  cases d with
  | add c => have := clauseLine_length c; simp only [ProofLine.text]; omega
  | del c => simp [ProofLine.text]
  | empty => simp [ProofLine.text]

theorem checkLoop_text {m : Nat} : ∀ {log : List ProofLine} {n : Nat} {ck : Checker}, LogSmall log →
    (certificateText log).length < m → log.length < n →
    checkLoop (plain false) m n (certificateText log) ck = runOut (log.map ProofLine.read) ck
  | [], n + 1, ck, _, _, _ => rfl
  | d :: log, n + 1, ck, h, hm, hn => by
    have e : certificateText (d :: log) = d.text ++ certificateText log := by simp [certificateText]
    have hsmall : LogSmall log := fun x hx => h x (by simp [hx])
    rw [e] at hm ⊢
    simp only [List.length_append] at hm
    have hr := ProofLine.readLine_text (d := d) (h d (by simp)) (m := m) (certificateText log) (by omega)
    have hne : (plain false).eof (d.text ++ certificateText log) = false := by
      have := text_length_pos d
      cases hd : d.text with
      | nil => rw [hd] at this; simp at this
      | cons _ _ => rfl
    have hsk : skipWhitespace (plain false) m ('\n' :: certificateText log) = .ok (certificateText log) := by
      have hd := text_length_pos d
      rw [skipWhitespace_plain (by simp; omega)]
      congr 1
      have := certificateText_skip hsmall
      simpa [List.dropWhile_cons, show isSpaceC '\n' = true by decide] using this
    rw [checkLoop, hne, if_neg (by simp), hr]
    simp only [Out.bind, runOut, List.map_cons, Checker.runLines]
    cases hl : ck.line d.read with
    | none => rfl
    | some x =>
      obtain ⟨ck', r⟩ := x
      cases r with
      | false => rfl
      | true =>
        simp only [hsk]
        exact checkLoop_text hsmall (by omega) (by simp at hn; omega)

theorem readLines_text {m : Nat} : ∀ {log : List ProofLine} {n : Nat}, LogSmall log →
    (certificateText log).length < m → log.length < n →
    readLines (plain false) m n (certificateText log) = .ok (log.map ProofLine.read)
  | [], n + 1, _, _, _ => rfl
  | d :: log, n + 1, h, hm, hn => by
    have e : certificateText (d :: log) = d.text ++ certificateText log := by simp [certificateText]
    have hsmall : LogSmall log := fun x hx => h x (by simp [hx])
    rw [e] at hm ⊢
    simp only [List.length_append] at hm
    have hr := ProofLine.readLine_text (d := d) (h d (by simp)) (m := m) (certificateText log) (by omega)
    have hne : (plain false).eof (d.text ++ certificateText log) = false := by
      have := text_length_pos d
      cases hd : d.text with
      | nil => rw [hd] at this; simp at this
      | cons _ _ => rfl
    have hsk : skipWhitespace (plain false) m ('\n' :: certificateText log) = .ok (certificateText log) := by
      have hd := text_length_pos d
      rw [skipWhitespace_plain (by simp; omega)]
      congr 1
      have := certificateText_skip hsmall
      simpa [List.dropWhile_cons, show isSpaceC '\n' = true by decide] using this
    rw [readLines, hne, if_neg (by simp), hr]
    simp only [Out.bind, hsk, List.map_cons]
    rw [readLines_text hsmall (by omega) (by simp at hn; omega)]

theorem log_length_le (log : List ProofLine) : log.length ≤ (certificateText log).length := by
  induction log with
  | nil => simp
  | cons d log ih =>
    have e : certificateText (d :: log) = d.text ++ certificateText log := by simp [certificateText]
    have := text_length_pos d
    rw [e]; simp; omega

/-- Checking a certificate file is checking its lines. -/
theorem checkProof_text {N : Nat} (hN : 0 < N) {memory : List Char} (hm : memory.length = N)
    {log : List ProofLine} (hs : LogSmall log) (hfit : LinesFit N (certificateText log)) {fuel : Nat}
    (hfuel : (certificateText log).length < fuel) (nv : Nat) (F : CNF) :
    checkProof memory fuel nv F (certificateText log) =
      if (Checker.new nv F).db.hasEmpty then .ok true
      else runOut (log.map ProofLine.read) (Checker.new nv F) := by
  unfold checkProof
  dsimp only
  split
  · rfl
  · obtain ⟨b, h1, h2, h3⟩ := Rep.init hN hm hfit
    rw [h1]
    simp only [Out.bind]
    have hrel : RepW N false b (certificateText log) := ⟨h2, hfit, by simp⟩
    have H := buffer_simulates hN false
    have hsim := (H.skipWhitespace fuel hrel).bind fun a b' hr => H.checkLoop fuel fuel (Checker.new nv F) hr
    rw [skipWhitespace_plain (by omega), certificateText_skip hs] at hsim
    simp only [Out.bind] at hsim
    rw [checkLoop_text hs hfuel (by have := log_length_le log; omega)] at hsim
    unfold runOut at hsim ⊢
    cases hr : Checker.runLines (log.map ProofLine.read) (Checker.new nv F) with
    | none => rw [hr] at hsim; exact hsim
    | some v => rw [hr] at hsim; obtain ⟨_, h, rfl⟩ := hsim; exact h

/-- Reading a certificate file. -/
theorem proofLines_text {N : Nat} (hN : 0 < N) {memory : List Char} (hm : memory.length = N)
    {log : List ProofLine} (hs : LogSmall log) (hfit : LinesFit N (certificateText log)) {fuel : Nat}
    (hfuel : (certificateText log).length < fuel) :
    proofLines memory fuel (certificateText log) = .ok (log.map ProofLine.read) := by
  unfold proofLines
  obtain ⟨b, h1, h2, h3⟩ := Rep.init hN hm hfit
  rw [h1]
  have hrel : RepW N false b (certificateText log) := ⟨h2, hfit, by simp⟩
  have H := buffer_simulates hN false
  have hsim := (H.skipWhitespace fuel hrel).bind fun a b' hr => H.readLines fuel fuel hr
  rw [skipWhitespace_plain (by omega), certificateText_skip hs] at hsim
  simp only [Out.bind] at hsim ⊢
  rw [readLines_text hs hfuel (by have := log_length_le log; omega)] at hsim
  obtain ⟨_, h, rfl⟩ := hsim
  exact h

end Candy
