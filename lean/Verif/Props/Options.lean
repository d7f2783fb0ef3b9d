import Verif.Proofs.Options

/-!
# Command line options (property C62)

`Arg`, `Arg.Fits`, `Names`, `finalValue` and `Opt.Accepts` are defined in `SpecOptions.lean`.
-/

namespace Candy.Options
open Candy

variable {X : Doubles} {opts : List (Opt X.D)}

theorem parseLoop_done {strict : Bool} (n i j : Nat) (argv : List Str) (h : n = 0) :
    parseLoop X strict n i j argv opts = .done opts argv j := by subst h; rfl

/-- **C62** Every option has the value given by the last argument that names it, or else its old value; the
remaining arguments are passed on in their order and `argc` is their number. Missing: the variable `i` that
is used to compute `argc` has no value; it is assumed to be the number of arguments by accident
(`C62_argc_fails`). -/
theorem C62_parse_partial (hN : Names opts) {args : List Arg} (hf : ∀ a ∈ args, a.Fits X opts) (strict : Bool)
    (prog : Str) {junk : Int} (hj : junk = args.length + 1) :
    ∃ opts' argv', parseOptions X junk strict (prog :: args.map Arg.text) opts =
        .done opts' argv' (1 + (args.filterMap Arg.fileName).length) ∧
      (∀ name, valueOf opts' name = finalValue X opts args name) ∧
      argv'.take (1 + (args.filterMap Arg.fileName).length) = prog :: args.filterMap Arg.fileName := by
  obtain ⟨opts', argv', -, h2, h3, h4, -, h6⟩ := parseLoop_fits (strict := strict) (i := 1) (j := 1) (k := 0)
    (argv := prog :: args.map Arg.text) (rest := []) hN hf (Nat.le_refl _) (by simp) (by simp)
  refine ⟨opts', argv', ?_, h2, by simpa using h4⟩
  unfold parseOptions
  rw [show (prog :: args.map Arg.text).length - 1 = args.length + 0 by simp, h6, parseLoop_done _ _ _ _ rfl]
  simp only [List.length_cons, List.length_map]
  congr 1
  omega

/-- **C62** `main` then reads standard input if there is no file name, else the first file. -/
theorem C62_input_partial (hN : Names opts) {args : List Arg} (hf : ∀ a ∈ args, a.Fits X opts) (strict : Bool)
    (prog : Str) {junk : Int} (hj : junk = args.length + 1) :
    ∃ opts' argv' argc, parseOptions X junk strict (prog :: args.map Arg.text) opts = .done opts' argv' argc ∧
      mainInput argc argv' = match args.filterMap Arg.fileName with
        | [] => some .stdin
        | f :: _ => some (.file f) := by
  obtain ⟨opts', argv', h1, -, h3⟩ := C62_parse_partial hN hf strict prog hj
  refine ⟨opts', argv', _, h1, ?_⟩
  unfold mainInput
  cases e : args.filterMap Arg.fileName with
  | nil => simp
  | cons f fs =>
    rw [e] at h3
    rw [if_neg (by simp; omega)]
    have := congrArg (·[1]?) h3
    simp only [List.getElem?_take, List.length_cons] at this
    rw [if_pos (by omega)] at this
    rw [this]
    rfl

/-- **C62** An argument that begins with `-` and is not a setting of any option is an error, whatever came
before it and whatever follows. -/
theorem C62_unknown_rejected (hN : Names opts) {args : List Arg} (hf : ∀ a ∈ args, a.Fits X opts) (prog : Str)
    {bad : Str} (hd : bad.head? = some '-') (hh : ¬ "--help".toList <:+: bad) (ha : ∀ o ∈ opts, ¬ o.Accepts bad)
    (rest : List Str) (junk : Int) :
    parseOptions X junk true (prog :: (args.map Arg.text ++ bad :: rest)) opts = .exit1 := by
  obtain ⟨opts', argv', h1, -, h3, -, h5, h6⟩ := parseLoop_fits (strict := true) (i := 1) (j := 1) (k := rest.length + 1)
    (argv := prog :: (args.map Arg.text ++ bad :: rest)) (rest := bad :: rest) hN hf (Nat.le_refl _) (by simp) (by simp)
  unfold parseOptions
  rw [show (prog :: (args.map Arg.text ++ bad :: rest)).length - 1 = args.length + (rest.length + 1) by simp, h6,
    parseLoop_succ]
  have hi : argv'[1 + args.length]? = some bad := by
    have := congrArg (·[0]?) h5
    simpa [List.getElem?_drop] using this
  have hno : tryOptions X bad opts' = .no := by
    refine tryOptions_no fun o' ho' hac => ?_
    obtain ⟨o, ho, e, hl⟩ : ∃ o ∈ opts, o.name = o'.name ∧ o.cell.Like o'.cell := by
      have : o'.name ∈ opts'.map Opt.name := List.mem_map_of_mem ho'
      rw [← h1.1] at this
      obtain ⟨o, ho, e⟩ := List.mem_map.1 this
      obtain ⟨o2, ho2, e2, hl⟩ := h1.2 o ho
      have hnd := (h1.names hN).nodup
      have : o2 = o' := by
        obtain ⟨pre, post, he⟩ := List.append_of_mem ho'
        rw [he] at hnd ho2
        rw [List.map_append, List.nodup_append] at hnd
        have hnd2 := hnd.2.1
        rw [List.map_cons, List.nodup_cons] at hnd2
        rcases List.mem_append.1 ho2 with h | h
        · exact absurd (e2.trans e) (hnd.2.2 _ (List.mem_map_of_mem h) _ (by simp))
        · rcases List.mem_cons.1 h with h | h
          · exact h
          · refine absurd ?_ hnd2.1
            rw [← e, ← e2]; exact List.mem_map_of_mem h
      exact ⟨o, ho, e, this ▸ hl⟩
    apply ha o ho
    unfold Opt.Accepts at *
    rw [e]
    revert hl hac
    cases o.cell <;> cases o'.cell <;> simp only [Cell.Like] <;> intro hac hl <;> first | exact hl.elim | exact hac
  have hhelp : (strstr bad "--help".toList).isSome = false := by
    cases h : (strstr bad "--help".toList).isSome with
    | false => rfl
    | true => exact absurd (strstr_some.1 h) hh
  simp only [hi, hhelp, hno, Bool.false_eq_true, if_false]
  rw [if_pos ⟨trivial, hd⟩]

/-! ## Findings -/

/-- **C62** (finding) The range of an integer option is never enforced, and the text need not be a number:
whatever follows `-name=` is accepted. -/
theorem C62_range_ignored {o : Opt X.D} {lo hi v : Int} (hc : o.cell = .int lo hi v) (hr : lo ≤ hi) (t : Str) :
    parse X o ('-' :: (o.name ++ '=' :: t)) = .set { o with cell := .int lo hi (toInt32 (strtolVal t)) } := by
  unfold parse
  simp only [hc]
  rw [if_pos (show strstr _ o.pattern = some 0 from strstr_zero.2 prefix_pattern),
    show ('-' :: (o.name ++ '=' :: t)).drop o.pattern.length = t from drop_pattern, if_neg (by omega)]

/-- **C62** (finding) So the program runs with any 32-bit number that a text happens to give. -/
theorem C62_any_number (hN : Names opts) {o : Opt X.D} (ho : o ∈ opts) {lo hi v : Int} (hc : o.cell = .int lo hi v)
    (hr : lo ≤ hi) {t : Str} (hh : ¬ "--help".toList <:+: '-' :: (o.name ++ '=' :: t)) (prog : Str) (junk : Int) :
    ∃ opts' argv' argc, parseOptions X junk true [prog, '-' :: (o.name ++ '=' :: t)] opts = .done opts' argv' argc ∧
      valueOf opts' o.name = some (.int (toInt32 (strtolVal t))) := by
  obtain ⟨pre, post, rfl⟩ := List.append_of_mem ho
  have hd : (List.map Opt.name (pre ++ o :: post)).Nodup := hN.nodup
  have hpre : ∀ x ∈ pre, ¬ x.Accepts ('-' :: (o.name ++ '=' :: t)) := by
    intro x hx hac
    have e := accepts_valued hN (List.mem_append_left _ hx) o.name t ⟨o, ho, rfl⟩ hac
    rw [List.map_append, List.nodup_append] at hd
    exact hd.2.2 x.name (List.mem_map_of_mem hx) o.name (by simp) e.symm
  have hset := tryOptions_set (post := post) (C62_range_ignored hc hr t) hpre
  have hhelp : (strstr ('-' :: (o.name ++ '=' :: t)) "--help".toList).isSome = false := by
    cases h : (strstr ('-' :: (o.name ++ '=' :: t)) "--help".toList).isSome with
    | false => rfl
    | true => exact absurd (strstr_some.1 h) hh
  refine ⟨pre ++ { o with cell := .int lo hi (toInt32 (strtolVal t)) } :: post, [prog, '-' :: (o.name ++ '=' :: t)],
    2 - (junk - 1), ?_, ?_⟩
  · unfold parseOptions
    rw [show [prog, '-' :: (o.name ++ '=' :: t)].length - 1 = 0 + 1 from rfl, parseLoop_succ]
    simp only [List.getElem?_cons_succ, List.getElem?_cons_zero, hhelp, hset, Bool.false_eq_true, if_false]
    rw [parseLoop_done _ _ _ _ rfl]
    rfl
  · rw [valueOf_replace (n := o.name) (o := o) (o' := { o with cell := .int lo hi (toInt32 (strtolVal t)) }) hd rfl rfl,
      if_pos rfl]
    rfl

/-- **C62** (finding) After a text of 256 or more characters, reading the value of a string option is
undefined: the array has no terminating NUL. -/
theorem C62_string_fails {o : Opt X.D} {b : List Char} (hc : o.cell = .string b) {t : Str} (hl : 256 ≤ t.length)
    (h0 : '\x00' ∉ t) : ∃ o', parse X o ('-' :: (o.name ++ '=' :: t)) = .set o' ∧ o'.cell.value = none := by
  refine ⟨{ o with cell := .string (strncpy256 t) }, ?_, ?_⟩
  · unfold parse
    simp only [hc]
    rw [if_pos (show strstr _ o.pattern = some 0 from strstr_zero.2 prefix_pattern),
      show ('-' :: (o.name ++ '=' :: t)).drop o.pattern.length = t from drop_pattern]
  · have e : strncpy256 t = t.take 256 := by
      unfold strncpy256
      rw [show 256 - t.length = 0 by omega]
      simp
    simp only [Cell.value, readC, e]
    rw [if_neg]
    · rfl
    · intro h
      exact h0 (List.mem_of_mem_take (by simpa using h))

/-- **C62** (finding) `argc` is wrong for every other value of the variable that has no value; without any
argument, `main` can take a null pointer for a file name. -/
theorem C62_argc_fails (X : Doubles) :
    (∀ (opts : List (Opt X.D)) (args : List Arg), Names opts → (∀ a ∈ args, a.Fits X opts) →
      ∀ strict prog junk, junk ≠ (args.length + 1 : Int) →
        ∀ opts' argv' argc, parseOptions X junk strict (prog :: args.map Arg.text) opts = .done opts' argv' argc →
          argc ≠ 1 + (args.filterMap Arg.fileName).length) ∧
    (∃ opts' argv' argc, parseOptions X 0 true ["candy".toList] (candyOptions X) = .done opts' argv' argc ∧
      mainInput argc argv' = none) := by
  refine ⟨?_, ⟨_, _, _, rfl, rfl⟩⟩
  intro opts args hN hf strict prog junk hj opts' argv' argc he
  obtain ⟨opts1, argv1, -, h2, h3, h4, -, h6⟩ := parseLoop_fits (strict := strict) (i := 1) (j := 1) (k := 0)
    (argv := prog :: args.map Arg.text) (rest := []) hN hf (Nat.le_refl _) (by simp) (by simp)
  unfold parseOptions at he
  rw [show (prog :: args.map Arg.text).length - 1 = args.length + 0 by simp, h6, parseLoop_done _ _ _ _ rfl] at he
  simp only [List.length_cons, List.length_map, Result.done.injEq] at he
  omega

/-! ## Non-vacuity -/

def candyNames : List Str := ((candyOptions ⟨Unit, fun _ => (), fun _ _ => false⟩).map Opt.name)

theorem candy_names (X : Doubles) : (candyOptions X).map Opt.name = candyNames := rfl

/-- The options of `candy` meet the conditions on names. -/
theorem candy_Names (X : Doubles) : Names (candyOptions X) := by
  have key : candyNames.Nodup ∧ (∀ n ∈ candyNames, '=' ∉ n) ∧ ∀ n ∈ candyNames, ¬ "no-".toList <+: n := by decide +kernel
  refine ⟨by rw [candy_names]; exact key.1, fun o ho => key.2.1 _ ?_, fun o ho => key.2.2 _ ?_⟩
  · rw [← candy_names X]; exact List.mem_map_of_mem ho
  · rw [← candy_names X]; exact List.mem_map_of_mem ho

/-- `candy -no-pre a.cnf -time-limit=60 -certified-output=p -pre -time-limit=+7` -/
def exArgs : List Arg :=
  [.flag "pre".toList false, .file "a.cnf".toList, .int "time-limit".toList "60".toList 60,
    .string "certified-output".toList "p".toList, .flag "pre".toList true, .int "time-limit".toList "+7".toList 7]

theorem exArgs_fit (X : Doubles) : ∀ a ∈ exArgs, a.Fits X (candyOptions X) := by
  have h42 : (candyOptions X)[42]? = some ⟨"pre".toList, .bool true⟩ := rfl
  have h22 : (candyOptions X)[22]? = some ⟨"time-limit".toList, .int 0 2147483647 2147483647⟩ := rfl
  have h19 : (candyOptions X)[19]? = some ⟨"certified-output".toList, .string (strncpy256 "".toList)⟩ := rfl
  have m42 := List.mem_of_getElem? h42
  have m22 := List.mem_of_getElem? h22
  have m19 := List.mem_of_getElem? h19
  intro a ha
  simp only [exArgs, List.mem_cons, List.not_mem_nil, or_false] at ha
  rcases ha with rfl | rfl | rfl | rfl | rfl | rfl
  · exact ⟨by decide +kernel, _, m42, rfl, _, rfl⟩
  · exact ⟨by decide +kernel, show "a.cnf".toList.head? ≠ some '-' by decide⟩
  · exact ⟨by decide +kernel, .digits (ds := ['6', '0']) (by decide) (by decide), _, m22, rfl,
      .inl ⟨0, 2147483647, 2147483647, rfl, by omega, by omega, by omega, by omega⟩⟩
  · exact ⟨by decide +kernel, by decide, by decide, _, m19, rfl, _, rfl⟩
  · exact ⟨by decide +kernel, _, m42, rfl, _, rfl⟩
  · exact ⟨by decide +kernel, .plus (ds := ['7']) (by decide) (by decide), _, m22, rfl,
      .inl ⟨0, 2147483647, 2147483647, rfl, by omega, by omega, by omega, by omega⟩⟩

example (X : Doubles) : ∃ opts' argv', parseOptions X 7 true ("candy".toList :: exArgs.map Arg.text) (candyOptions X) =
      .done opts' argv' 2 ∧
    valueOf opts' "time-limit".toList = some (.int 7) ∧ valueOf opts' "pre".toList = some (.bool true) ∧
    valueOf opts' "certified-output".toList = some (.text "p".toList) ∧ valueOf opts' "verb".toList = some (.int 1) ∧
    argv'.take 2 = ["candy".toList, "a.cnf".toList] := by
  obtain ⟨o, v, h1, h2, h3⟩ := C62_parse_partial (candy_Names X) (exArgs_fit X) true "candy".toList (junk := 7) rfl
  exact ⟨o, v, h1, by rw [h2]; rfl, by rw [h2]; rfl, by rw [h2]; rfl, by rw [h2]; rfl, h3⟩

example (X : Doubles) (rest : List Str) (junk : Int) : parseOptions X junk true
    ("candy".toList :: (exArgs.map Arg.text ++ "-modell".toList :: rest)) (candyOptions X) = .exit1 :=
  C62_unknown_rejected (candy_Names X) (exArgs_fit X) _ (by decide) (by decide +kernel) (by
    intro o ho hac
    have hm : o.name ∈ candyNames := by rw [← candy_names X]; exact List.mem_map_of_mem ho
    have key : ∀ n ∈ candyNames, "-modell".toList ≠ '-' :: n ∧ "-modell".toList ≠ "-no-".toList ++ n := by decide +kernel
    unfold Opt.Accepts at hac
    split at hac
    · exact hac.elim (key _ hm).1 (key _ hm).2
    · obtain ⟨t, ht⟩ := hac
      have : '=' ∈ "-modell".toList := by rw [← ht]; simp
      exact absurd this (by decide)) _ _

/-- Witnesses for `C62_any_number`: `-szLBDQueue=0` (range from 10), `-time-limit=4294967297` and
`-threads=many` set the values 0, 1 and 0. -/
example (X : Doubles) (junk : Int) : ∃ opts' argv' argc, parseOptions X junk true
    ["candy".toList, "-szLBDQueue=0".toList] (candyOptions X) = .done opts' argv' argc ∧
      valueOf opts' "szLBDQueue".toList = some (.int 0) := by
  have e : toInt32 (strtolVal ['0']) = 0 := by
    rw [strtolVal_intText (.digits (ds := ['0']) (by decide) (by decide))]; decide +kernel
  have h : (candyOptions X)[25]? = some ⟨"szLBDQueue".toList, .int 10 32767 50⟩ := rfl
  have := C62_any_number (candy_Names X) (List.mem_of_getElem? h) rfl (by decide) (t := ['0'])
    (show ¬ "--help".toList <:+: "-szLBDQueue=0".toList by decide +kernel) "candy".toList junk
  rw [e] at this
  exact this

example (X : Doubles) (junk : Int) : ∃ opts' argv' argc, parseOptions X junk true
    ["candy".toList, "-time-limit=4294967297".toList] (candyOptions X) = .done opts' argv' argc ∧
      valueOf opts' "time-limit".toList = some (.int 1) := by
  have e : toInt32 (strtolVal "4294967297".toList) = 1 := by
    rw [strtolVal_intText (.digits (ds := "4294967297".toList) (by decide) (by decide))]; decide +kernel
  have h : (candyOptions X)[22]? = some ⟨"time-limit".toList, .int 0 2147483647 2147483647⟩ := rfl
  have := C62_any_number (candy_Names X) (List.mem_of_getElem? h) rfl (by decide) (t := "4294967297".toList)
    (show ¬ "--help".toList <:+: "-time-limit=4294967297".toList by decide +kernel)
    "candy".toList junk
  rw [e] at this
  exact this

example (X : Doubles) (junk : Int) : ∃ opts' argv' argc, parseOptions X junk true
    ["candy".toList, "-threads=many".toList] (candyOptions X) = .done opts' argv' argc ∧
      valueOf opts' "threads".toList = some (.int 0) := by
  have e : toInt32 (strtolVal "many".toList) = 0 := by decide +kernel
  have h : (candyOptions X)[0]? = some ⟨"threads".toList, .int 1 16 1⟩ := rfl
  have := C62_any_number (candy_Names X) (List.mem_of_getElem? h) rfl (by decide) (t := "many".toList)
    (show ¬ "--help".toList <:+: "-threads=many".toList by decide +kernel)
    "candy".toList junk
  rw [e] at this
  exact this

end Candy.Options
