import Verif.SpecOptions
import Verif.Proofs.DimacsText

/-! Helper lemmas for command line options (C62). -/

namespace Candy.Options
open Candy

theorem strstr_zero : ∀ {s p : Str}, strstr s p = some 0 ↔ p <+: s
  | [], p => by
    unfold strstr
    cases p <;> simp
  | c :: s, p => by
    unfold strstr
    by_cases h : p.isPrefixOf (c :: s) = true
    · rw [if_pos h]
      exact ⟨fun _ => List.isPrefixOf_iff_prefix.1 h, fun _ => rfl⟩
    · rw [if_neg h]
      constructor
      · intro he
        cases h' : strstr s p <;> simp [h'] at he
      · intro hp
        exact absurd (List.isPrefixOf_iff_prefix.2 hp) h

theorem strstr_some : ∀ {s p : Str}, (strstr s p).isSome = true ↔ p <:+: s
  | [], p => by
    unfold strstr
    cases p <;> simp
  | c :: s, p => by
    unfold strstr
    by_cases h : p.isPrefixOf (c :: s) = true
    · rw [if_pos h]
      exact ⟨fun _ => (List.isPrefixOf_iff_prefix.1 h).isInfix, fun _ => rfl⟩
    · rw [if_neg h, Option.isSome_map, strstr_some, List.infix_cons_iff]
      constructor
      · exact .inr
      · rintro (h' | h')
        · exact absurd (List.isPrefixOf_iff_prefix.2 h') h
        · exact h'

/-- `strstr` and the length together test for equality. -/
theorem strstr_eq {s p : Str} : (strstr s p = some 0 ∧ s.length = p.length) ↔ s = p := by
  rw [strstr_zero]
  constructor
  · rintro ⟨h, hl⟩
    exact (h.eq_of_length hl.symm).symm
  · rintro rfl
    exact ⟨List.prefix_refl _, rfl⟩

theorem parse_no {X : Doubles} {o : Opt X.D} {str : Str} (h : ¬ o.Accepts str) : parse X o str = .no := by
  unfold parse Opt.Accepts Opt.pattern at *
  split <;> rename_i e <;> rw [e] at h <;> dsimp only at h
  · rw [if_neg (by rw [strstr_zero]; exact h)]
  · rw [if_neg (by rw [strstr_zero]; exact h)]
  · rw [if_neg (by rw [strstr_zero]; exact h)]
  · rw [if_neg (by rw [strstr_zero]; exact h)]
  · rw [if_neg (by rw [strstr_eq]; exact fun he => h (.inl he)), if_neg (by rw [strstr_eq]; exact fun he => h (.inr he))]

theorem parse_accepts {X : Doubles} {o : Opt X.D} {str : Str} (h : parse X o str ≠ .no) : o.Accepts str :=
  Classical.byContradiction fun hn => h (parse_no hn)

/-- An option that accepts the argument does not leave it to the others. -/
theorem parse_ne_no {X : Doubles} {o : Opt X.D} {str : Str} (h : o.Accepts str) : parse X o str ≠ .no := by
  unfold parse Opt.Accepts Opt.pattern at *
  split <;> rename_i e <;> rw [e] at h <;> dsimp only at h
  · rw [if_pos (strstr_zero.2 h)]; dsimp only; split <;> simp
  · rw [if_pos (strstr_zero.2 h)]; dsimp only; split <;> simp
  · rw [if_pos (strstr_zero.2 h)]; dsimp only; split <;> simp
  · rw [if_pos (strstr_zero.2 h)]; simp
  · rcases h with h | h
    · rw [if_pos (strstr_eq.2 h)]; simp
    · by_cases h' : str = '-' :: o.name
      · rw [if_pos (strstr_eq.2 h')]; simp
      · rw [if_neg (by rw [strstr_eq]; exact h'), if_pos (strstr_eq.2 h)]; simp

/-- `-m=` is a prefix of `-n=t` only if the names are equal. -/
theorem prefix_name {m n t : Str} (hm : '=' ∉ m) (hn : '=' ∉ n) (h : ('-' :: (m ++ ['='])) <+: '-' :: (n ++ '=' :: t)) :
    m = n := by
  replace h := (List.cons_prefix_cons.1 h).2
  induction m generalizing n with
  | nil =>
    cases n with
    | nil => rfl
    | cons x xs =>
      simp only [List.nil_append, List.cons_append, List.cons_prefix_cons] at h
      exact absurd (by rw [← h.1]; simp) hn
  | cons y ys ih =>
    cases n with
    | nil =>
      simp only [List.nil_append, List.cons_append, List.cons_prefix_cons] at h
      exact absurd (by rw [h.1]; simp) hm
    | cons x xs =>
      simp only [List.cons_append, List.cons_prefix_cons] at h
      rw [h.1, ih (fun hh => hm (List.mem_cons_of_mem _ hh)) (fun hh => hn (List.mem_cons_of_mem _ hh)) h.2]

/-- The name an argument gives. -/
def Arg.name : Arg → Option Str
  | .int name _ _ => some name
  | .double name _ => some name
  | .string name _ => some name
  | .flag name _ => some name
  | .file _ => none

/-- Only the option with that name accepts `-name=text`. -/
theorem accepts_valued {D : Type} {opts : List (Opt D)} (hN : Names opts) {o : Opt D} (ho : o ∈ opts) (n t : Str)
    (hex : ∃ o' ∈ opts, o'.name = n) (h : o.Accepts ('-' :: (n ++ '=' :: t))) : n = o.name := by
  obtain ⟨o', ho', rfl⟩ := hex
  unfold Opt.Accepts at h
  split at h
  · rcases h with h | h
    · have : o'.name ++ '=' :: t = o.name := by simpa using h
      exact absurd (by rw [← this]; simp) (hN.noEq o ho)
    · have e : o'.name ++ '=' :: t = "no-".toList ++ o.name := by simpa using h
      have : '=' ∈ "no-".toList ++ o.name := by rw [← e]; simp
      rcases List.mem_append.1 this with h' | h'
      · exact absurd h' (by decide)
      · exact absurd h' (hN.noEq o ho)
  · exact (prefix_name (hN.noEq o ho) (hN.noEq o' ho') h).symm

/-- An option that accepts a fitting argument is the one it names. -/
theorem accepts_name {X : Doubles} {opts : List (Opt X.D)} (hN : Names opts) {o : Opt X.D} (ho : o ∈ opts) {a : Arg}
    (hf : a.Fits X opts) (h : o.Accepts a.text) : a.name = some o.name := by
  have valued := accepts_valued hN ho
  have hk := hf.kind
  cases a with
  | int n t k =>
    obtain ⟨-, o', ho', hn, -⟩ := hk
    exact congrArg _ (valued n t ⟨o', ho', hn⟩ h)
  | double n t =>
    obtain ⟨o', ho', hn, -⟩ := hk
    exact congrArg _ (valued n t ⟨o', ho', hn⟩ h)
  | string n t =>
    obtain ⟨-, -, o', ho', hn, -⟩ := hk
    exact congrArg _ (valued n t ⟨o', ho', hn⟩ h)
  | flag n b =>
    obtain ⟨o', ho', rfl, -⟩ := hk
    have h1 := hN.noEq o' ho'
    have h2 := hN.noNo o ho
    have h3 := hN.noNo o' ho'
    show some o'.name = some o.name
    unfold Opt.Accepts at h
    cases b with
    | true =>
      simp only [Arg.text] at h
      split at h
      · rcases h with h | h
        · simpa using h
        · have e : o'.name = "no-".toList ++ o.name := by simpa using h
          exact absurd ⟨o.name, e.symm⟩ h3
      · obtain ⟨t, ht⟩ := h
        have e : o.name ++ '=' :: t = o'.name := by simpa using ht
        exact absurd (by rw [← e]; simp) h1
    | false =>
      simp only [Arg.text] at h
      split at h
      · rcases h with h | h
        · have e : "no-".toList ++ o'.name = o.name := by simpa using h
          exact absurd ⟨o'.name, e⟩ h2
        · have e : o'.name = o.name := by simpa using h
          rw [e]
      · obtain ⟨t, ht⟩ := h
        have e : o.name ++ '=' :: t = "no-".toList ++ o'.name := by simpa using ht
        have : '=' ∈ "no-".toList ++ o'.name := by rw [← e]; simp
        rcases List.mem_append.1 this with h' | h'
        · exact absurd h' (by decide)
        · exact absurd h' h1
  | file s =>
    exfalso
    have hk : s.head? ≠ some '-' := hk
    unfold Opt.Accepts at h
    split at h
    · rcases h with h | h
      · exact hk (by rw [show s = _ from h]; rfl)
      · exact hk (by rw [show s = _ from h]; rfl)
    · obtain ⟨t, ht⟩ := h
      exact hk (by rw [show s = _ from ht.symm]; rfl)

theorem strtolVal_intText {t : Str} {n : Int} (h : IntText t n) :
    strtolVal t = max (-(2 ^ 63)) (min (2 ^ 63 - 1) n) := by
  obtain ⟨sg, ds, rfl, htok, hval⟩ := h.token (ws := []) (e := '\x00') (by simp) (by decide)
  have := (htok.strtol []).1
  rw [hval] at this
  unfold strtolVal
  simp only [List.nil_append] at this
  rw [this]

theorem toInt32_id {n : Int} (h1 : -(2 ^ 31) ≤ n) (h2 : n < 2 ^ 31) : toInt32 n = n := by
  unfold toInt32; omega

theorem readC_strncpy {t : Str} (hl : t.length < 256) (h0 : '\x00' ∉ t) : readC (strncpy256 t) = some t := by
  have e : strncpy256 t = t ++ '\x00' :: List.replicate (255 - t.length) '\x00' := by
    unfold strncpy256
    rw [List.take_of_length_le (by omega), show 256 - t.length = (255 - t.length) + 1 by omega, List.replicate_succ]
  unfold readC
  rw [e, if_pos (by simp)]
  have := takeWhile_append_stop (p := fun c => c != '\x00') (a := t) (c := '\x00')
    (z := List.replicate (255 - t.length) '\x00') (by
      intro x hx
      have : x ≠ '\x00' := fun h => h0 (h ▸ hx)
      simpa using this) (by decide)
  rw [this.1]

theorem drop_pattern {n t : Str} : ('-' :: (n ++ '=' :: t)).drop ('-' :: (n ++ ['='])).length = t := by
  have : '-' :: (n ++ '=' :: t) = ('-' :: (n ++ ['='])) ++ t := by simp
  rw [this, List.drop_left']
  rfl

theorem prefix_pattern {n t : Str} : ('-' :: (n ++ ['='])) <+: '-' :: (n ++ '=' :: t) :=
  ⟨t, by simp⟩

/-- Cells with the same kind and range. -/
def Cell.Like {D : Type} : Cell D → Cell D → Prop
  | .int lo hi _, .int lo' hi' _ => lo = lo' ∧ hi = hi'
  | .int64 lo hi _, .int64 lo' hi' _ => lo = lo' ∧ hi = hi'
  | .double lo hi _, .double lo' hi' _ => lo = lo' ∧ hi = hi'
  | .string _, .string _ => True
  | .bool _, .bool _ => True
  | _, _ => False

theorem Cell.Like.refl {D : Type} (c : Cell D) : c.Like c := by cases c <;> simp [Cell.Like]

/-- The option an argument names is set to the value the argument means. -/
theorem parse_fits {X : Doubles} {opts : List (Opt X.D)} {a : Arg} (hf : a.Fits X opts)
    {n : Str} {v : Value X.D} (hs : a.setting X = some (n, v)) :
    ∃ o ∈ opts, o.name = n ∧ ∃ o', parse X o a.text = .set o' ∧ o'.name = n ∧ o'.cell.value = some v ∧
      o.cell.Like o'.cell := by
  have hk := hf.kind
  cases a with
  | int m t k =>
    obtain ⟨ht, o, ho, rfl, hc⟩ := hk
    simp only [Arg.setting, Option.some.injEq, Prod.mk.injEq] at hs
    obtain ⟨rfl, rfl⟩ := hs
    refine ⟨o, ho, rfl, ?_⟩
    rcases hc with ⟨lo, hi, w, hc, h1, h2, h3, h4⟩ | ⟨lo, hi, w, hc, h1, h2, h3, h4⟩
    · have hv : toInt32 (strtolVal t) = k := by
        rw [strtolVal_intText ht, show max (-(2 ^ 63)) (min (2 ^ 63 - 1) k) = k by omega, toInt32_id h3 h4]
      refine ⟨{ o with cell := .int lo hi k }, ?_, rfl, rfl, by rw [hc]; exact ⟨rfl, rfl⟩⟩
      unfold parse
      simp only [hc]
      rw [if_pos (show strstr (Arg.int o.name t k).text o.pattern = some 0 from strstr_zero.2 prefix_pattern),
        show ((Arg.int o.name t k).text).drop o.pattern.length = t from drop_pattern, hv, if_neg (by omega)]
    · have hv : strtolVal t = k := by
        rw [strtolVal_intText ht]; omega
      refine ⟨{ o with cell := .int64 lo hi k }, ?_, rfl, rfl, by rw [hc]; exact ⟨rfl, rfl⟩⟩
      unfold parse
      simp only [hc]
      rw [if_pos (show strstr (Arg.int o.name t k).text o.pattern = some 0 from strstr_zero.2 prefix_pattern),
        show ((Arg.int o.name t k).text).drop o.pattern.length = t from drop_pattern, hv, if_neg (by omega)]
  | double m t =>
    obtain ⟨o, ho, rfl, lo, hi, w, hc, h1, h2⟩ := hk
    simp only [Arg.setting, Option.some.injEq, Prod.mk.injEq] at hs
    obtain ⟨rfl, rfl⟩ := hs
    refine ⟨o, ho, rfl, { o with cell := .double lo hi (X.strtod t) }, ?_, rfl, rfl, by rw [hc]; exact ⟨rfl, rfl⟩⟩
    unfold parse
    simp only [hc]
    rw [if_pos (show strstr (Arg.double o.name t).text o.pattern = some 0 from strstr_zero.2 prefix_pattern),
      show ((Arg.double o.name t).text).drop o.pattern.length = t from drop_pattern, h1, if_neg (by simp)]
  | string m t =>
    obtain ⟨hl, h0, o, ho, rfl, b, hc⟩ := hk
    simp only [Arg.setting, Option.some.injEq, Prod.mk.injEq] at hs
    obtain ⟨rfl, rfl⟩ := hs
    refine ⟨o, ho, rfl, { o with cell := .string (strncpy256 t) }, ?_, rfl, ?_, by rw [hc]; trivial⟩
    · unfold parse
      simp only [hc]
      rw [if_pos (show strstr (Arg.string o.name t).text o.pattern = some 0 from strstr_zero.2 prefix_pattern),
        show ((Arg.string o.name t).text).drop o.pattern.length = t from drop_pattern]
    · simp only [Cell.value, readC_strncpy hl h0, Option.map_some]
  | flag m b =>
    obtain ⟨o, ho, rfl, w, hc⟩ := hk
    simp only [Arg.setting, Option.some.injEq, Prod.mk.injEq] at hs
    obtain ⟨rfl, rfl⟩ := hs
    refine ⟨o, ho, rfl, { o with cell := .bool b }, ?_, rfl, rfl, by rw [hc]; trivial⟩
    unfold parse
    simp only [hc]
    cases b with
    | true =>
      rw [if_pos (strstr_eq.2 (show (Arg.flag o.name true).text = '-' :: o.name from rfl))]
    | false =>
      rw [if_neg (by
        rw [strstr_eq]
        intro e
        have : "-no-".toList ++ o.name = '-' :: o.name := e
        have := congrArg List.length this
        simp at this
        omega), if_pos (strstr_eq.2 (show (Arg.flag o.name false).text = "-no-".toList ++ o.name from rfl))]
  | file s => cases hs

/-! ## The loop over the options -/

theorem tryOptions_no {X : Doubles} {str : Str} : ∀ {opts : List (Opt X.D)}, (∀ o ∈ opts, ¬ o.Accepts str) →
    tryOptions X str opts = .no
  | [], _ => rfl
  | o :: os, h => by
    unfold tryOptions
    rw [parse_no (h o (by simp)), tryOptions_no fun o' ho' => h o' (List.mem_cons_of_mem _ ho')]

theorem tryOptions_ne_no {X : Doubles} {str : Str} : ∀ {opts : List (Opt X.D)} {o : Opt X.D}, o ∈ opts → o.Accepts str →
    tryOptions X str opts ≠ .no
  | o :: os, o', ho, ha => by
    unfold tryOptions
    cases e : parse X o str with
    | set _ => simp
    | exit1 => simp
    | no =>
      rcases List.mem_cons.1 ho with rfl | ho
      · exact absurd e (parse_ne_no ha)
      · have := tryOptions_ne_no ho ha
        dsimp only
        cases e' : tryOptions X str os <;> simp [e'] at this ⊢

theorem tryOptions_set {X : Doubles} {str : Str} {o o' : Opt X.D} {post : List (Opt X.D)} (hp : parse X o str = .set o') :
    ∀ {pre : List (Opt X.D)}, (∀ x ∈ pre, ¬ x.Accepts str) →
      tryOptions X str (pre ++ o :: post) = .set (pre ++ o' :: post)
  | [], _ => by
    show tryOptions X str (o :: post) = _
    unfold tryOptions
    rw [hp]; rfl
  | x :: pre, h => by
    show tryOptions X str (x :: (pre ++ o :: post)) = _
    unfold tryOptions
    rw [parse_no (h x (by simp)), tryOptions_set hp fun y hy => h y (List.mem_cons_of_mem _ hy)]
    rfl

/-- The same options, with other values. -/
def Alike {D : Type} (opts opts' : List (Opt D)) : Prop :=
  opts.map Opt.name = opts'.map Opt.name ∧ ∀ o ∈ opts, ∃ o' ∈ opts', o'.name = o.name ∧ o.cell.Like o'.cell

theorem Alike.refl {D : Type} (opts : List (Opt D)) : Alike opts opts :=
  ⟨rfl, fun o ho => ⟨o, ho, rfl, .refl _⟩⟩

theorem Alike.names {D : Type} {opts opts' : List (Opt D)} (h : Alike opts opts') (hN : Names opts) : Names opts' := by
  have key : ∀ o' ∈ opts', ∃ o ∈ opts, o.name = o'.name := by
    intro o' ho'
    have : o'.name ∈ opts'.map Opt.name := List.mem_map_of_mem ho'
    rw [← h.1] at this
    exact List.mem_map.1 this
  refine ⟨by rw [← h.1]; exact hN.nodup, fun o' ho' => ?_, fun o' ho' => ?_⟩
  · obtain ⟨o, ho, e⟩ := key o' ho'
    rw [← e]; exact hN.noEq o ho
  · obtain ⟨o, ho, e⟩ := key o' ho'
    rw [← e]; exact hN.noNo o ho

theorem Alike.fits {X : Doubles} {opts opts' : List (Opt X.D)} (h : Alike opts opts') {a : Arg} (hf : a.Fits X opts) :
    a.Fits X opts' := by
  refine ⟨hf.help, ?_⟩
  have hk := hf.kind
  cases a with
  | int n t k =>
    obtain ⟨ht, o, ho, e, hc⟩ := hk
    obtain ⟨o', ho', e', hl⟩ := h.2 o ho
    refine ⟨ht, o', ho', e'.trans e, ?_⟩
    rcases hc with ⟨lo, hi, v, hc, hr⟩ | ⟨lo, hi, v, hc, hr⟩
    · left
      rw [hc] at hl
      cases hc' : o'.cell <;> rw [hc'] at hl <;> simp only [Cell.Like] at hl
      obtain ⟨rfl, rfl⟩ := hl
      exact ⟨_, _, _, rfl, hr⟩
    · right
      rw [hc] at hl
      cases hc' : o'.cell <;> rw [hc'] at hl <;> simp only [Cell.Like] at hl
      obtain ⟨rfl, rfl⟩ := hl
      exact ⟨_, _, _, rfl, hr⟩
  | double n t =>
    obtain ⟨o, ho, e, lo, hi, v, hc, hr⟩ := hk
    obtain ⟨o', ho', e', hl⟩ := h.2 o ho
    rw [hc] at hl
    cases hc' : o'.cell <;> rw [hc'] at hl <;> simp only [Cell.Like] at hl
    obtain ⟨rfl, rfl⟩ := hl
    exact ⟨o', ho', e'.trans e, _, _, _, hc', hr⟩
  | string n t =>
    obtain ⟨h1, h2, o, ho, e, b, hc⟩ := hk
    obtain ⟨o', ho', e', hl⟩ := h.2 o ho
    rw [hc] at hl
    cases hc' : o'.cell <;> rw [hc'] at hl <;> simp only [Cell.Like] at hl
    exact ⟨h1, h2, o', ho', e'.trans e, _, hc'⟩
  | flag n b =>
    obtain ⟨o, ho, e, w, hc⟩ := hk
    obtain ⟨o', ho', e', hl⟩ := h.2 o ho
    rw [hc] at hl
    cases hc' : o'.cell <;> rw [hc'] at hl <;> simp only [Cell.Like] at hl
    exact ⟨o', ho', e'.trans e, _, hc'⟩
  | file s => exact hk

/-- Replacing one option by one with the same name. -/
theorem valueOf_replace {D : Type} {pre post : List (Opt D)} {o o' : Opt D} {n : Str}
    (hn : (List.map Opt.name (pre ++ o :: post)).Nodup) (h1 : o.name = n) (h2 : o'.name = n) (m : Str) :
    valueOf (pre ++ o' :: post) m = if m = n then o'.cell.value else valueOf (pre ++ o :: post) m := by
  unfold valueOf
  have hpre : ∀ x ∈ pre, x.name ≠ n := by
    intro x hx e
    rw [List.map_append, List.nodup_append] at hn
    exact hn.2.2 x.name (List.mem_map_of_mem hx) o.name (by simp) (by rw [e, h1])
  by_cases e : m = n
  · rw [if_pos e]
    subst e
    rw [List.find?_append, List.find?_eq_none.2 fun x hx => by simpa using hpre x hx]
    simp [h2]
  · rw [if_neg e, List.find?_append, List.find?_append, List.find?_cons_of_neg (by simp [h2]; exact fun h => e h.symm),
      List.find?_cons_of_neg (by simp [h1]; exact fun h => e h.symm)]

theorem tryOptions_fits {X : Doubles} {opts : List (Opt X.D)} (hN : Names opts) {a : Arg} (hf : a.Fits X opts)
    {n : Str} {v : Value X.D} (hs : a.setting X = some (n, v)) :
    ∃ opts', tryOptions X a.text opts = .set opts' ∧ Alike opts opts' ∧
      ∀ m, valueOf opts' m = if m = n then some v else valueOf opts m := by
  obtain ⟨o, ho, hn, o', hp, hn', hv, hl⟩ := parse_fits hf hs
  obtain ⟨pre, post, rfl⟩ := List.append_of_mem ho
  have hd : (List.map Opt.name (pre ++ o :: post)).Nodup := hN.nodup
  have hpre : ∀ x ∈ pre, ¬ x.Accepts a.text := by
    intro x hx hac
    have e1 := accepts_name hN (List.mem_append_left _ hx) hf hac
    have e2 : a.name = some n := by
      cases a <;> simp only [Arg.setting, Option.some.injEq, Prod.mk.injEq] at hs <;>
        first | (rw [← hs.1]; rfl) | cases hs
    rw [e1] at e2
    rw [List.map_append, List.nodup_append] at hd
    exact hd.2.2 x.name (List.mem_map_of_mem hx) o.name (by simp) (by rw [hn]; exact Option.some.inj e2)
  refine ⟨pre ++ o' :: post, tryOptions_set hp hpre, ⟨by simp [hn, hn'], ?_⟩, fun m => ?_⟩
  · intro x hx
    rcases List.mem_append.1 hx with h | h
    · exact ⟨x, List.mem_append_left _ h, rfl, .refl _⟩
    · rcases List.mem_cons.1 h with rfl | h
      · exact ⟨o', by simp, hn'.trans hn.symm, hl⟩
      · exact ⟨x, by simp [h], rfl, .refl _⟩
  · rw [valueOf_replace hd hn hn', hv]

/-! ## The loop over the arguments -/

theorem finalValue_set {X : Doubles} {opts opts' : List (Opt X.D)} {n : Str} {v : Value X.D} {a : Arg}
    (hs : a.setting X = some (n, v)) (hv : ∀ m, valueOf opts' m = if m = n then some v else valueOf opts m)
    (args : List Arg) (m : Str) : finalValue X opts' args m = finalValue X opts (a :: args) m := by
  unfold finalValue
  rw [List.filterMap_cons_some hs, List.reverse_cons, List.find?_append]
  cases (List.filterMap (Arg.setting X) args).reverse.find? fun x => x.1 == m with
  | some x => rfl
  | none =>
    by_cases e : m = n
    · simp [hv, e]
    · have : (n == m) = false := by simpa using fun h => e h.symm
      simp [hv, e, this]

theorem finalValue_file {X : Doubles} {opts : List (Opt X.D)} {s : Str} (args : List Arg) (m : Str) :
    finalValue X opts args m = finalValue X opts (.file s :: args) m := by
  unfold finalValue
  rw [List.filterMap_cons_none rfl]

theorem file_no {X : Doubles} {opts : List (Opt X.D)} (hN : Names opts) {s : Str} (hf : (Arg.file s).Fits X opts) :
    tryOptions X s opts = .no :=
  tryOptions_no fun o ho ha => by
    have := accepts_name hN ho hf ha
    cases this

theorem no_help {X : Doubles} {opts : List (Opt X.D)} {a : Arg} (hf : a.Fits X opts) :
    (strstr a.text "--help".toList).isSome = false := by
  cases h : (strstr a.text "--help".toList).isSome with
  | false => rfl
  | true => exact absurd (strstr_some.1 h) hf.help

theorem parseLoop_succ {X : Doubles} {strict : Bool} (n i j : Nat) (argv : List Str) (opts : List (Opt X.D)) :
    parseLoop X strict (n + 1) i j argv opts =
      match argv[i]? with
      | none => .ub
      | some str =>
        if (strstr str "--help".toList).isSome then .exit0
        else
          match tryOptions X str opts with
          | .exit1 => .exit1
          | .set opts => parseLoop X strict n (i + 1) j argv opts
          | .no =>
            if strict = true ∧ str.head? = some '-' then .exit1
            else parseLoop X strict n (i + 1) (j + 1) (argv.set j str) opts := rfl

/-- Arguments that fit are worked off one by one. -/
theorem parseLoop_fits {X : Doubles} {strict : Bool} : ∀ {args : List Arg} {opts : List (Opt X.D)} {i j k : Nat}
    {argv : List Str} {rest : List Str}, Names opts → (∀ a ∈ args, a.Fits X opts) → j ≤ i → j ≤ argv.length →
    argv.drop i = args.map Arg.text ++ rest →
    ∃ opts' argv', Alike opts opts' ∧ (∀ m, valueOf opts' m = finalValue X opts args m) ∧
      argv'.length = argv.length ∧ argv'.take (j + (args.filterMap Arg.fileName).length) =
        argv.take j ++ args.filterMap Arg.fileName ∧ argv'.drop (i + args.length) = rest ∧
      parseLoop X strict (args.length + k) i j argv opts =
        parseLoop X strict k (i + args.length) (j + (args.filterMap Arg.fileName).length) argv' opts'
  | [], opts, i, j, k, argv, rest, _, _, _, _, hd => by
    refine ⟨opts, argv, .refl _, fun m => rfl, rfl, by simp, by simpa using hd, ?_⟩
    rw [show ([] : List Arg).length + k = k by simp]
    simp
  | a :: args, opts, i, j, k, argv, rest, hN, hf, hij, hjl, hd => by
    have hfa := hf a (by simp)
    have hi : argv[i]? = some a.text := by
      have := congrArg (·[0]?) hd
      simpa [List.getElem?_drop] using this
    have hil : i < argv.length := by
      rcases Nat.lt_or_ge i argv.length with h | h
      · exact h
      · rw [List.getElem?_eq_none h] at hi; cases hi
    have hd' : argv.drop (i + 1) = args.map Arg.text ++ rest := by
      have := congrArg (List.drop 1) hd
      rw [List.drop_drop] at this
      simpa using this
    have eL : (a :: args).length + k = args.length + k + 1 := by simp; omega
    rw [eL]
    simp only [parseLoop_succ, hi, no_help hfa]
    cases hs : a.setting X with
    | some x =>
      obtain ⟨n, v⟩ := x
      obtain ⟨opts1, ht, hal, hv⟩ := tryOptions_fits hN hfa hs
      obtain ⟨opts', argv', h1, h2, h3, h4, h5, h6⟩ := parseLoop_fits (strict := strict) (args := args) (opts := opts1)
        (i := i + 1) (j := j) (k := k) (argv := argv) (rest := rest) (hal.names hN)
        (fun b hb => hal.fits (hf b (List.mem_cons_of_mem _ hb))) (by omega) hjl hd'
      have hfn : a.fileName = none := by cases a <;> first | rfl | cases hs
      refine ⟨opts', argv', ⟨hal.1.trans h1.1, fun o ho => ?_⟩, fun m => ?_, h3, ?_, ?_, ?_⟩
      · obtain ⟨o1, ho1, e1, l1⟩ := hal.2 o ho
        obtain ⟨o2, ho2, e2, l2⟩ := h1.2 o1 ho1
        refine ⟨o2, ho2, e2.trans e1, ?_⟩
        revert l1 l2
        cases o.cell <;> cases o1.cell <;> cases o2.cell <;> simp only [Cell.Like] <;> intro l1 l2 <;>
          first | trivial | exact ⟨l1.1.trans l2.1, l1.2.trans l2.2⟩ | exact l1.elim | exact l2.elim
      · rw [h2 m]; exact finalValue_set hs hv args m
      · rw [List.filterMap_cons_none hfn]; exact h4
      · rw [← h5]; congr 1; simp; omega
      · rw [List.filterMap_cons_none hfn]
        simp only [ht, Bool.false_eq_true, if_false]
        rw [h6, show i + (a :: args).length = i + 1 + args.length by simp; omega]
    | none =>
      have : ∃ s, a = .file s := by cases a <;> first | exact ⟨_, rfl⟩ | cases hs
      obtain ⟨s, rfl⟩ := this
      have hno : tryOptions X (Arg.file s).text opts = .no := file_no hN hfa
      have hset : (argv.set j s).drop (i + 1) = args.map Arg.text ++ rest := by
        rw [List.drop_set_of_lt (by omega)]; exact hd'
      obtain ⟨opts', argv', h1, h2, h3, h4, h5, h6⟩ := parseLoop_fits (strict := strict) (args := args) (opts := opts)
        (i := i + 1) (j := j + 1) (k := k) (argv := argv.set j s) (rest := rest) hN
        (fun b hb => hf b (List.mem_cons_of_mem _ hb)) (by omega) (by rw [List.length_set]; omega) hset
      have hfn : (Arg.file s).fileName = some s := rfl
      have hk : s.head? ≠ some '-' := hfa.kind
      refine ⟨opts', argv', h1, fun m => ?_, by rw [h3, List.length_set], ?_, ?_, ?_⟩
      · rw [h2 m]; exact finalValue_file args m
      · rw [List.filterMap_cons_some hfn]
        have : (argv.set j s).take (j + 1) = argv.take j ++ [s] := by
          rw [List.take_add_one, List.take_set_of_le (Nat.le_refl j), List.getElem?_set_self (by omega)]
          rfl
        rw [this] at h4
        simp only [List.length_cons]
        rw [show j + ((args.filterMap Arg.fileName).length + 1) = j + 1 + (args.filterMap Arg.fileName).length by omega, h4]
        simp
      · rw [← h5]; congr 1; simp; omega
      · rw [List.filterMap_cons_some hfn]
        simp only [hno, Bool.false_eq_true, if_false]
        rw [if_neg (by rintro ⟨-, h⟩; exact hk h), show (Arg.file s).text = s from rfl, h6,
          show i + (Arg.file s :: args).length = i + 1 + args.length by simp; omega,
          show j + (s :: args.filterMap Arg.fileName).length = j + 1 + (args.filterMap Arg.fileName).length by simp; omega]

end Candy.Options
