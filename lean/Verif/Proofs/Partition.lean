import Verif.Model.Partition
import Verif.Proofs.Simulation

/-! Lemmas on the partition of variables. -/

namespace Candy

namespace Partition

/-- The fields of the literal with variable `v` and sign `s` in one round. -/
def litFields (A : SimVectors) (v : Nat) (s : Bool) : List (BitVec 64) :=
  if s then fields A v else (fields A v).map (~~~ ·)

/-- The fields hashed for a literal, over all rounds; those of the first round are hashed twice. -/
def history (As : List SimVectors) (v : Nat) (s : Bool) : List (BitVec 64) :=
  (As.take 1).flatMap (litFields · v s) ++ As.flatMap (litFields · v s)

/-- The hash of a literal. -/
def hist (As : List SimVectors) (v : Nat) (s : Bool) : BitVec 64 := hash 0 (history As v s)

/-- The value of a variable in the first lane. -/
def firstVal : List SimVectors → Nat → Bool
  | [], _ => false
  | A :: _, v => (A.vec v 0).getLsbD 0

/-- All fields are the same constant. -/
def constant (As : List SimVectors) (v : Nat) : Bool :=
  As.all fun A => (fields A v).all fun x => if firstVal As v then ~~~ x == 0 else x == 0

def posEntry (As : List SimVectors) (v : Nat) : PartitionEntry :=
  ⟨hist As v true, v, constant As v, firstVal As v, true⟩

def negEntry (As : List SimVectors) (v : Nat) : PartitionEntry := ⟨hist As v false, v, false, false, false⟩

/-- Entries up to the value of the backbone, which is not used for negative entries. -/
def strip (e : PartitionEntry) : PartitionEntry := { e with backboneVal := false }

theorem hash_append (g : BitVec 64) (xs ys : List (BitVec 64)) : hash g (xs ++ ys) = hash (hash g xs) ys :=
  List.foldl_append

theorem history_snoc {As : List SimVectors} (hAs : As ≠ []) (A : SimVectors) (v : Nat) (s : Bool) :
    history (As ++ [A]) v s = history As v s ++ litFields A v s := by
  cases As with
  | nil => exact absurd rfl hAs
  | cons B As => simp [history]

theorem hist_snoc {As : List SimVectors} (hAs : As ≠ []) (A : SimVectors) (v : Nat) (s : Bool) :
    hist (As ++ [A]) v s = hash (hist As v s) (litFields A v s) := by
  unfold hist
  rw [history_snoc hAs, hash_append]

theorem hash_initial (xs : List (BitVec 64)) (x : BitVec 64) : hash (fastNextRand x) xs = hash 0 (x :: xs) := by
  simp [hash]

theorem fields_cons (A : SimVectors) (v : Nat) : fields A v = A.vec v 0 :: (fields A v).drop 1 := by
  unfold fields
  rw [List.ofFn_succ]
  simp

theorem firstVal_snoc {As : List SimVectors} (hAs : As ≠ []) (A : SimVectors) (v : Nat) :
    firstVal (As ++ [A]) v = firstVal As v := by
  cases As with
  | nil => exact absurd rfl hAs
  | cons B As => rfl

theorem updatePos_entry {As : List SimVectors} (hAs : As ≠ []) (A : SimVectors) (v : Nat) :
    updatePos A false (posEntry As v) = posEntry (As ++ [A]) v := by
  unfold updatePos posEntry
  simp only [PartitionEntry.mk.injEq, true_and, and_true]
  refine ⟨?_, ?_, ?_⟩
  · rw [hist_snoc hAs]; rfl
  · unfold constant
    rw [firstVal_snoc hAs]
    simp
  · rw [firstVal_snoc hAs]

theorem updateNeg_entry {As : List SimVectors} (hAs : As ≠ []) (A : SimVectors) (v : Nat) {e : PartitionEntry}
    (he : strip e = negEntry As v) : strip (updateNeg A false e) = negEntry (As ++ [A]) v := by
  have e1 := congrArg PartitionEntry.groupId he
  have e2 := congrArg PartitionEntry.varId he
  have e3 := congrArg PartitionEntry.backbone he
  have e4 := congrArg PartitionEntry.polarity he
  simp only [strip, negEntry] at e1 e2 e3 e4
  unfold strip updateNeg negEntry
  simp only [PartitionEntry.mk.injEq]
  refine ⟨?_, e2, e3, trivial, e4⟩
  rw [hist_snoc hAs, e1, e2]
  rfl

theorem initPos_entry (A : SimVectors) {v : Nat} (hv : v < 2 ^ 28) :
    updatePos A false (updatePos A true (initPos A v)) = posEntry [A] v := by
  have hm : v % 2 ^ 28 = v := Nat.mod_eq_of_lt hv
  unfold updatePos initPos posEntry
  simp only [PartitionEntry.mk.injEq, true_and, and_true, hm]
  refine ⟨?_, ?_⟩
  · unfold hist history
    simp only [List.take_succ_cons, List.take_zero, List.flatMap_cons, List.flatMap_nil, List.append_nil, litFields,
      if_true, Bool.false_eq_true, if_false, List.drop_zero]
    rw [hash_initial, ← fields_cons, ← hash_append]
  · simp only [constant, firstVal, List.all_cons, List.all_nil, Bool.and_true, Bool.true_and, Bool.and_self]
    exact ⟨rfl, trivial⟩

theorem initNeg_entry (A : SimVectors) {v : Nat} (hv : v < 2 ^ 28) :
    strip (updateNeg A false (updateNeg A true (initNeg A v))) = negEntry [A] v := by
  have hm : v % 2 ^ 28 = v := Nat.mod_eq_of_lt hv
  unfold strip updateNeg initNeg negEntry
  simp only [PartitionEntry.mk.injEq, and_true, hm]
  unfold hist history
  simp only [List.take_succ_cons, List.take_zero, List.flatMap_cons, List.flatMap_nil, List.append_nil, litFields,
    if_true, Bool.false_eq_true, if_false, List.drop_zero]
  have : (fields A v).map (~~~ ·) = (~~~ A.vec v 0) :: ((fields A v).map (~~~ ·)).drop 1 := by
    rw [fields_cons]
    simp
  rw [hash_initial, ← this, ← hash_append]

/-! ## Groups -/

/-- The pairs of entries of the variables `kept`, after the rounds `As`. -/
structure Entries (As : List SimVectors) (es : List (PartitionEntry × PartitionEntry)) (kept : List Nat) : Prop where
  pos : es.map (·.1) = kept.map (posEntry As)
  neg : es.map (fun e => strip e.2) = kept.map (negEntry As)

theorem Entries.mem {As : List SimVectors} {es : List (PartitionEntry × PartitionEntry)} {kept : List Nat}
    (h : Entries As es kept) : ∀ e ∈ es, ∃ v ∈ kept, e.1 = posEntry As v ∧ strip e.2 = negEntry As v := by
  intro e he
  obtain ⟨i, hi, rfl⟩ := List.getElem_of_mem he
  have h1 : (es.map (·.1))[i]? = (kept.map (posEntry As))[i]? := by rw [h.pos]
  have h2 : (es.map (fun e => strip e.2))[i]? = (kept.map (negEntry As))[i]? := by rw [h.neg]
  simp only [List.getElem?_map, List.getElem?_eq_getElem hi, Option.map_some] at h1 h2
  cases hk : kept[i]? with
  | none => rw [hk] at h1; simp at h1
  | some v =>
    rw [hk] at h1 h2
    simp only [Option.map_some, Option.some.injEq] at h1 h2
    exact ⟨v, List.mem_of_getElem? hk, h1, h2⟩

theorem Entries.mem' {As : List SimVectors} {es : List (PartitionEntry × PartitionEntry)} {kept : List Nat}
    (h : Entries As es kept) {v : Nat} (hv : v ∈ kept) : ∃ e ∈ es, e.1 = posEntry As v ∧ strip e.2 = negEntry As v := by
  have : posEntry As v ∈ es.map (·.1) := by rw [h.pos]; exact List.mem_map.2 ⟨v, hv, rfl⟩
  obtain ⟨e, he, e1⟩ := List.mem_map.1 this
  obtain ⟨w, _, h1, h2⟩ := h.mem e he
  have : w = v := congrArg PartitionEntry.varId (h1.symm.trans e1)
  subst this
  exact ⟨e, he, h1, h2⟩

/-- An entry of the literal `(v, s)`. -/
def IsEntry (As : List SimVectors) (e : PartitionEntry) (v : Nat) (s : Bool) : Prop :=
  (s = true ∧ e = posEntry As v) ∨ (s = false ∧ strip e = negEntry As v)

theorem IsEntry.eqs {As : List SimVectors} {e : PartitionEntry} {v : Nat} {s : Bool} (h : IsEntry As e v s) :
    e.groupId = hist As v s ∧ e.varId = v ∧ e.polarity = s ∧ e.backbone = (s && constant As v) := by
  rcases h with ⟨rfl, rfl⟩ | ⟨rfl, h⟩
  · exact ⟨rfl, rfl, rfl, by simp [posEntry]⟩
  · exact ⟨congrArg PartitionEntry.groupId h, congrArg PartitionEntry.varId h, congrArg PartitionEntry.polarity h,
      (congrArg PartitionEntry.backbone h : e.backbone = false).trans (Bool.false_and _).symm⟩

theorem mem_group {As : List SimVectors} {es : List (PartitionEntry × PartitionEntry)} {kept : List Nat}
    (h : Entries As es kept) {id : BitVec 64} {e : PartitionEntry} (he : e ∈ group es id) :
    ∃ v ∈ kept, ∃ s, IsEntry As e v s ∧ hist As v s = id := by
  unfold group entries at he
  rw [List.mem_filter, List.mem_flatMap] at he
  obtain ⟨⟨pe, hpe, hm⟩, hid⟩ := he
  obtain ⟨v, hv, h1, h2⟩ := h.mem pe hpe
  simp only [List.mem_cons, List.not_mem_nil, or_false] at hm
  simp only [beq_iff_eq] at hid
  rcases hm with rfl | rfl
  · have : IsEntry As pe.1 v true := .inl ⟨rfl, h1⟩
    exact ⟨v, hv, true, this, this.eqs.1 ▸ hid⟩
  · have : IsEntry As pe.2 v false := .inr ⟨rfl, h2⟩
    exact ⟨v, hv, false, this, this.eqs.1 ▸ hid⟩

theorem group_mem {As : List SimVectors} {es : List (PartitionEntry × PartitionEntry)} {kept : List Nat}
    (h : Entries As es kept) {v : Nat} (hv : v ∈ kept) (s : Bool) : ∃ e ∈ group es (hist As v s), IsEntry As e v s := by
  obtain ⟨pe, hpe, h1, h2⟩ := h.mem' hv
  unfold group entries
  cases s with
  | true =>
    have : IsEntry As pe.1 v true := .inl ⟨rfl, h1⟩
    exact ⟨pe.1, by simp only [List.mem_filter, List.mem_flatMap, beq_iff_eq, this.eqs.1, and_true]; exact ⟨pe, hpe, by simp⟩, this⟩
  | false =>
    have : IsEntry As pe.2 v false := .inr ⟨rfl, h2⟩
    exact ⟨pe.2, by simp only [List.mem_filter, List.mem_flatMap, beq_iff_eq, this.eqs.1, and_true]; exact ⟨pe, hpe, by simp⟩, this⟩

theorem mem_groupOrder {id : BitVec 64} : ∀ (es : List (PartitionEntry × PartitionEntry)) (seen : List (BitVec 64)),
    id ∈ groupOrder es seen ↔ id ∉ seen ∧ ∃ e ∈ es, e.1.groupId = id ∨ e.2.groupId = id := by
  intro es
  induction es with
  | nil => simp [groupOrder]
  | cons e es ih =>
    intro seen
    obtain ⟨p, n⟩ := e
    simp only [groupOrder, List.mem_append, ih, List.mem_cons, not_or, List.contains_eq_mem]
    by_cases h1 : p.groupId ∈ seen <;> by_cases h2 : n.groupId ∈ seen <;> simp [h1, h2] <;> grind

theorem nodup_groupOrder : ∀ (es : List (PartitionEntry × PartitionEntry)) (seen : List (BitVec 64)),
    (∀ e ∈ es, e.1.groupId ≠ e.2.groupId) → (groupOrder es seen).Nodup := by
  intro es
  induction es with
  | nil => simp [groupOrder]
  | cons e es ih =>
    intro seen h
    obtain ⟨p, n⟩ := e
    rw [List.forall_mem_cons] at h
    have hi := ih (p.groupId :: n.groupId :: seen) h.2
    have hp : p.groupId ∉ groupOrder es (p.groupId :: n.groupId :: seen) := by rw [mem_groupOrder]; simp
    have hn : n.groupId ∉ groupOrder es (p.groupId :: n.groupId :: seen) := by rw [mem_groupOrder]; simp
    have hne := h.1
    simp only [groupOrder]
    by_cases h1 : p.groupId ∈ seen <;> by_cases h2 : n.groupId ∈ seen <;> simp_all

theorem negGroups_eq {As : List SimVectors} : ∀ (es : List (PartitionEntry × PartitionEntry)) (f : Nat → BitVec 64) (v : Nat),
    (∀ e ∈ es, ∃ v, e.1 = posEntry As v ∧ strip e.2 = negEntry As v) →
    (f v = hist As v false ∨ ∃ e ∈ es, e.1.varId = v) →
    es.foldl (fun f e => upd f e.1.varId e.2.groupId) f v = hist As v false := by
  intro es
  induction es with
  | nil => intro f v _ h; simpa using h
  | cons e es ih =>
    intro f v h hv
    rw [List.forall_mem_cons] at h
    obtain ⟨⟨w, h1, h2⟩, h3⟩ := h
    rw [List.foldl_cons]
    refine ih _ v h3 ?_
    have e1 : e.1.varId = w := by rw [h1]; rfl
    have e2 : e.2.groupId = hist As w false := congrArg PartitionEntry.groupId h2
    by_cases hw : v = w
    · left
      simp [upd, e1, e2, hw]
    · rcases hv with hv | ⟨d, hd, hv⟩
      · left; simp [upd, e1, hw, hv]
      · rcases List.mem_cons.1 hd with rfl | hd
        · exact absurd (hv.symm.trans e1) hw
        · exact .inr ⟨d, hd, hv⟩

/-! ## Rounds -/

/-- A variable that must be kept: it is constant, or has the history of another literal. -/
def Wanted (variables : List Nat) (As : List SimVectors) (v : Nat) : Prop :=
  constant As v = true ∨ ∃ w ∈ variables, w ≠ v ∧ ∃ s t, history As v s = history As w t

/-- State of the partition after the rounds `As`. -/
structure PInv (variables : List Nat) (As : List SimVectors) (P : Partition) (kept : List Nat) : Prop where
  vars : P.variables = variables
  sub : ∀ v ∈ kept, v ∈ variables
  pos : P.pos = kept.map (posEntry As)
  neg : P.neg.map strip = kept.map (negEntry As)
  wanted : ∀ v ∈ variables, Wanted variables As v → v ∈ kept

theorem map_fst_zip {α β : Type} : ∀ {xs : List α} {ys : List β}, xs.length = ys.length → (xs.zip ys).map (·.1) = xs
  | [], [], _ => rfl
  | x :: xs, y :: ys, h => by simp [map_fst_zip (xs := xs) (ys := ys) (by simpa using h)]
  | [], _ :: _, h => by simp at h
  | _ :: _, [], h => by simp at h

theorem map_snd_zip {α β γ : Type} (f : β → γ) : ∀ {xs : List α} {ys : List β}, xs.length = ys.length →
    (xs.zip ys).map (fun e => f e.2) = ys.map f
  | [], [], _ => rfl
  | x :: xs, y :: ys, h => by
    simp only [List.zip_cons_cons, List.map_cons]
    rw [map_snd_zip f (xs := xs) (ys := ys) (by simpa using h)]
  | [], _ :: _, h => by simp at h
  | _ :: _, [], h => by simp at h

theorem PInv.entries {variables : List Nat} {As : List SimVectors} {P : Partition} {kept : List Nat}
    (h : PInv variables As P kept) : Entries As (P.pos.zip P.neg) kept := by
  have hl : P.pos.length = P.neg.length := by
    have := congrArg List.length h.neg
    rw [h.pos]
    simpa using this.symm
  exact ⟨by rw [map_fst_zip hl, h.pos], by rw [map_snd_zip strip hl, h.neg]⟩

/-- The variables kept by compression. -/
def keptVars (es : List (PartitionEntry × PartitionEntry)) : List Nat :=
  ((groupOrder es []).flatMap fun id =>
    if keeps (group es id) then (group es id).filter (·.polarity) else []).map (·.varId)

theorem kept_entries {As : List SimVectors} {es : List (PartitionEntry × PartitionEntry)} {kept : List Nat}
    (h : Entries As es kept) : ∀ e ∈ (groupOrder es []).flatMap fun id =>
      if keeps (group es id) then (group es id).filter (·.polarity) else [],
      ∃ v ∈ kept, e = posEntry As v := by
  intro e he
  obtain ⟨id, _, he⟩ := List.mem_flatMap.1 he
  split at he
  · rw [List.mem_filter] at he
    obtain ⟨v, hv, s, hs, _⟩ := mem_group h he.1
    rcases hs with ⟨_, rfl⟩ | ⟨rfl, hs⟩
    · exact ⟨v, hv, rfl⟩
    · have := congrArg PartitionEntry.polarity hs
      simp only [strip, negEntry] at this
      rw [this] at he
      simp at he
  · simp at he

theorem map_posEntry {As : List SimVectors} : ∀ {es : List PartitionEntry}, (∀ e ∈ es, ∃ v, e = posEntry As v) →
    es = (es.map (·.varId)).map (posEntry As)
  | [], _ => rfl
  | e :: es, h => by
    rw [List.forall_mem_cons] at h
    obtain ⟨⟨v, rfl⟩, h2⟩ := h
    simp only [List.map_cons, List.cons.injEq]
    exact ⟨rfl, map_posEntry h2⟩

theorem mem_keptVars {As : List SimVectors} {es : List (PartitionEntry × PartitionEntry)} {kept : List Nat}
    (h : Entries As es kept) {v : Nat} (hv : v ∈ kept)
    (hw : constant As v = true ∨ ∃ w ∈ kept, w ≠ v ∧ ∃ s, hist As v true = hist As w s) : v ∈ keptVars es := by
  obtain ⟨e, he, hs⟩ := group_mem h hv true
  have he0 : e = posEntry As v := by
    rcases hs with ⟨_, h⟩ | ⟨h, _⟩
    · exact h
    · cases h
  refine List.mem_map.2 ⟨e, ?_, hs.eqs.2.1⟩
  refine List.mem_flatMap.2 ⟨hist As v true, ?_, ?_⟩
  · rw [mem_groupOrder]
    obtain ⟨pe, hpe, h1, _⟩ := h.mem' hv
    exact ⟨by simp, pe, hpe, .inl (by rw [h1]; rfl)⟩
  · rw [if_pos]
    · rw [List.mem_filter]
      exact ⟨he, hs.eqs.2.2.1⟩
    · unfold keeps
      simp only [Bool.or_eq_true, decide_eq_true_eq]
      rcases hw with hc | ⟨w, hw, hne, s, hh⟩
      · by_cases hl : 1 < (group es (hist As v true)).length
        · exact .inl hl
        · right
          -- the group has a single entry
          have : group es (hist As v true) = [e] := by
            cases hg : group es (hist As v true) with
            | nil => rw [hg] at he; simp at he
            | cons x xs =>
              rw [hg] at hl he
              cases xs with
              | nil => simp only [List.mem_singleton] at he; rw [he]
              | cons y ys => simp at hl
          rw [this, he0]
          simp [posEntry, hc]
      · left
        obtain ⟨e', he', hs'⟩ := group_mem h hw s
        rw [← hh] at he'
        have hdiff : e ≠ e' := fun he => hne (by rw [← hs'.eqs.2.1, ← he, hs.eqs.2.1])
        cases hg : group es (hist As v true) with
        | nil => rw [hg] at he; simp at he
        | cons x xs =>
          cases xs with
          | nil =>
            rw [hg] at he he'
            simp only [List.mem_singleton] at he he'
            exact absurd (he.trans he'.symm) hdiff
          | cons y ys => simp

theorem history_neg {As : List SimVectors} {v : Nat} {s : Bool} :
    history As v (!s) = (history As v s).map (~~~ ·) := by
  have h : ∀ A, litFields A v (!s) = (litFields A v s).map (~~~ ·) := by
    intro A
    cases s <;> simp [litFields, Function.comp_def]
  unfold history
  simp only [h, List.map_append, List.map_flatMap]

theorem history_flip {As : List SimVectors} {v w : Nat} {s t : Bool} (h : history As v s = history As w t) :
    history As v (!s) = history As w (!t) := by rw [history_neg, history_neg, h]

theorem PInv.compress {variables : List Nat} {As : List SimVectors} {P P' : Partition} {kept : List Nat}
    (h : PInv variables As P kept) (hc : P.compress = some P') : PInv variables As P' (keptVars (P.pos.zip P.neg)) := by
  have hE := h.entries
  have hk := kept_entries hE
  unfold Partition.compress at hc
  dsimp only at hc
  split at hc
  · cases hc
    refine ⟨h.vars, ?_, ?_, ?_, ?_⟩
    · intro v hv
      obtain ⟨e, he, rfl⟩ := List.mem_map.1 hv
      obtain ⟨w, hw, rfl⟩ := hk e he
      exact h.sub w hw
    · exact map_posEntry fun e he => (hk e he).imp fun v hv => hv.2
    · rw [List.map_map, keptVars, List.map_map]
      refine List.map_congr_left fun e he => ?_
      obtain ⟨v, hv, rfl⟩ := hk e he
      simp only [Function.comp_apply, strip, negEntry, PartitionEntry.mk.injEq, and_true]
      show negGroups _ v = _
      unfold negGroups
      refine negGroups_eq _ _ v (fun e he => (hE.mem e he).imp fun v hv => hv.2) ?_
      obtain ⟨pe, hpe, h1, _⟩ := hE.mem' hv
      exact .inr ⟨pe, hpe, by rw [h1]; rfl⟩
    · intro v hv hw
      refine mem_keptVars hE (h.wanted v hv hw) ?_
      rcases hw with hw | ⟨w, hw, hne, s, t, hh⟩
      · exact .inl hw
      · refine .inr ⟨w, h.wanted w hw (.inr ⟨v, hv, hne.symm, t, s, hh.symm⟩), hne, ?_⟩
        cases s with
        | true => exact ⟨t, congrArg (hash 0) hh⟩
        | false => exact ⟨!t, congrArg (hash 0) (history_flip hh)⟩
  · cases hc

theorem wanted_snoc {variables : List Nat} {As : List SimVectors} (hAs : As ≠ []) {A : SimVectors} {v : Nat}
    (h : Wanted variables (As ++ [A]) v) : Wanted variables As v := by
  rcases h with h | ⟨w, hw, hne, s, t, hh⟩
  · left
    unfold constant at h ⊢
    rw [firstVal_snoc hAs, List.all_append, Bool.and_eq_true] at h
    exact h.1
  · refine .inr ⟨w, hw, hne, s, t, ?_⟩
    rw [history_snoc hAs, history_snoc hAs] at hh
    have hl : ∀ v s, (litFields A v s).length = 32 := by intro v s; cases s <;> simp [litFields, fields]
    exact List.append_inj_left' hh (by rw [hl, hl])

/-! ## No undefined behaviour -/

theorem nodup_keptVars {As : List SimVectors} {es : List (PartitionEntry × PartitionEntry)} {kept : List Nat}
    (h : Entries As es kept) (hn : kept.Nodup) (hs : ∀ v ∈ kept, hist As v true ≠ hist As v false) :
    (keptVars es).Nodup := by
  have hself : ∀ e ∈ es, e.1.groupId ≠ e.2.groupId := by
    intro e he
    obtain ⟨v, hv, h1, h2⟩ := h.mem e he
    have e1 : e.1.groupId = hist As v true := by rw [h1]; rfl
    have e2 : e.2.groupId = hist As v false := congrArg PartitionEntry.groupId h2
    rw [e1, e2]
    exact hs v hv
  have ho := nodup_groupOrder es [] hself
  -- every entry of positive polarity occurs once
  have hent : ∀ id, (((group es id).filter (·.polarity)).map (·.varId)).Nodup := by
    intro id
    have hsub : ∀ es' : List (PartitionEntry × PartitionEntry), (∀ e ∈ es', e.1.polarity = true ∧ e.2.polarity = false) →
        (((entries es').filter fun e => e.groupId == id).filter (·.polarity)).map (·.varId) =
          (es'.filter fun e => e.1.groupId == id).map (·.1.varId) := by
      intro es'
      induction es' with
      | nil => intro _; rfl
      | cons e es' ih =>
        intro hp
        rw [List.forall_mem_cons] at hp
        have := ih hp.2
        simp only [entries, List.flatMap_cons, List.cons_append, List.nil_append] at this ⊢
        simp only [List.filter_cons]
        by_cases h1 : e.1.groupId == id <;> by_cases h2 : e.2.groupId == id <;>
          simp only [h1, h2, hp.1.1, hp.1.2, this, if_true, if_false, List.filter_cons, List.map_cons, Bool.false_eq_true]
    unfold group
    rw [hsub es (fun e he => by
      obtain ⟨v, hv, h1, h2⟩ := h.mem e he
      exact ⟨by rw [h1]; rfl, congrArg PartitionEntry.polarity h2⟩)]
    have : (es.map (·.1.varId)).Nodup := by
      have e : es.map (·.1.varId) = (es.map (·.1)).map (·.varId) := by rw [List.map_map]; rfl
      rw [e, h.pos, List.map_map]
      have : kept.map ((·.varId) ∘ posEntry As) = kept := by
        conv => rhs; rw [← List.map_id kept]
        exact List.map_congr_left fun v _ => rfl
      rw [this]
      exact hn
    exact this.sublist (List.filter_sublist.map _)
  unfold keptVars
  rw [List.map_flatMap]
  unfold List.Nodup
  rw [List.pairwise_flatMap]
  constructor
  · intro id _
    split
    · exact hent id
    · simp
  · refine ho.imp ?_
    intro a b hab x hx y hy exy
    subst exy
    apply hab
    split at hx
    · split at hy
      · obtain ⟨e, he, rfl⟩ := List.mem_map.1 hx
        obtain ⟨e', he', hv'⟩ := List.mem_map.1 hy
        rw [List.mem_filter] at he he'
        obtain ⟨v, _, s, hs, hid⟩ := mem_group h he.1
        obtain ⟨v', _, s', hs', hid'⟩ := mem_group h he'.1
        have : s = true := hs.eqs.2.2.1.symm.trans he.2
        have h2 : s' = true := hs'.eqs.2.2.1.symm.trans he'.2
        have h3 : v' = v := by rw [← hs.eqs.2.1, ← hs'.eqs.2.1, hv']
        rw [← hid, ← hid', h3, this, h2]
      · simp at hy
    · simp at hx

/-- The partition in `update` before it is compressed. -/
def hashed (P : Partition) (A : SimVectors) : Partition :=
  let P := P.ensureInitialized A
  { P with pos := P.pos.map (updatePos A false), neg := P.neg.map (updateNeg A false) }

theorem update_eq (sched : Nat → Bool) (P : Partition) (A : SimVectors) : P.update sched A =
    (if sched (P.hashed A).round then (P.hashed A).compress else some (P.hashed A)).map
      fun P => { P with round := P.round + 1 } := rfl

/-- State between two rounds. -/
def RInv (variables : List Nat) (As : List SimVectors) (P : Partition) (kept : List Nat) : Prop :=
  (As = [] ∧ P = new variables ∧ kept = variables) ∨ (As ≠ [] ∧ P.round ≠ 0 ∧ PInv variables As P kept)

theorem hashed_inv {variables : List Nat} (hlt : ∀ v ∈ variables, v < 2 ^ 28) {As : List SimVectors}
    {P : Partition} {kept : List Nat} (A : SimVectors) (h : RInv variables As P kept) :
    PInv variables (As ++ [A]) (P.hashed A) kept := by
  unfold hashed
  rcases h with ⟨rfl, rfl, rfl⟩ | ⟨hAs, hr, h⟩
  · have e1 : ((new kept).ensureInitialized A).pos = (kept.map (initPos A)).map (updatePos A true) := by
      simp [ensureInitialized, new]
    have e2 : ((new kept).ensureInitialized A).neg = (kept.map (initNeg A)).map (updateNeg A true) := by
      simp [ensureInitialized, new]
    refine ⟨rfl, fun v hv => hv, ?_, ?_, fun v hv _ => hv⟩
    · dsimp only
      rw [e1, List.map_map, List.map_map]
      exact List.map_congr_left fun v hv => initPos_entry A (hlt v hv)
    · dsimp only
      rw [e2, List.map_map, List.map_map, List.map_map]
      exact List.map_congr_left fun v hv => initNeg_entry A (hlt v hv)
  · have e : P.ensureInitialized A = P := by unfold ensureInitialized; rw [if_pos hr]
    rw [e]
    refine ⟨h.vars, h.sub, ?_, ?_, fun v hv hw => h.wanted v hv (wanted_snoc hAs hw)⟩
    · dsimp only
      rw [h.pos, List.map_map]
      exact List.map_congr_left fun v _ => updatePos_entry hAs A v
    · dsimp only
      have : ∀ (es : List PartitionEntry) (ks : List Nat), es.map strip = ks.map (negEntry As) →
          (es.map (updateNeg A false)).map strip = ks.map (negEntry (As ++ [A])) := by
        intro es
        induction es with
        | nil => intro ks hk; cases ks <;> simp_all
        | cons e es ih =>
          intro ks hk
          cases ks with
          | nil => simp at hk
          | cons k ks =>
            simp only [List.map_cons, List.cons.injEq] at hk ⊢
            exact ⟨updateNeg_entry hAs A k hk.1, ih ks hk.2⟩
      exact this _ _ h.neg

/-- Literals of a variable have different hashes. -/
def Apart (variables : List Nat) (As : List SimVectors) : Prop :=
  ∀ v ∈ variables, hist As v true ≠ hist As v false

theorem PInv.round {variables : List Nat} {As : List SimVectors} {P : Partition} {kept : List Nat}
    (h : PInv variables As P kept) : PInv variables As { P with round := P.round + 1 } kept :=
  ⟨h.vars, h.sub, h.pos, h.neg, h.wanted⟩

theorem compress_total {variables : List Nat} {As : List SimVectors} {P : Partition} {kept : List Nat}
    (h : PInv variables As P kept) (hn : kept.Nodup) (hs : Apart variables As) :
    (∃ P', P.compress = some P') ∧ (keptVars (P.pos.zip P.neg)).Nodup := by
  have hE := h.entries
  have h1 := nodup_keptVars hE hn fun v hv => hs v (h.sub v hv)
  refine ⟨?_, h1⟩
  have h2 : (keptVars (P.pos.zip P.neg)).length ≤ kept.length := by
    refine length_le_of_subset' h1 fun v hv => ?_
    obtain ⟨e, he, rfl⟩ := List.mem_map.1 hv
    obtain ⟨w, hw, rfl⟩ := kept_entries hE e he
    exact hw
  unfold Partition.compress
  dsimp only
  rw [if_pos]
  · exact ⟨_, rfl⟩
  · unfold keptVars at h2
    rw [List.length_map] at h2
    have : P.pos.length = kept.length := by rw [h.pos]; simp
    omega

theorem update_inv {variables : List Nat} (hlt : ∀ v ∈ variables, v < 2 ^ 28) {sched : Nat → Bool} {As : List SimVectors}
    {P P' : Partition} {kept : List Nat} {A : SimVectors} (h : RInv variables As P kept)
    (hu : P.update sched A = some P') :
    ∃ kept', RInv variables (As ++ [A]) P' kept' ∧ (kept.Nodup → Apart variables (As ++ [A]) → kept'.Nodup) := by
  have hh := hashed_inv hlt A h
  rw [update_eq] at hu
  split at hu
  · obtain ⟨P1, h1, rfl⟩ := Option.map_eq_some_iff.1 hu
    exact ⟨_, .inr ⟨by simp, Nat.succ_ne_zero _, (hh.compress h1).round⟩, fun hn ha => (compress_total hh hn ha).2⟩
  · cases hu
    exact ⟨kept, .inr ⟨by simp, Nat.succ_ne_zero _, hh.round⟩, fun hn _ => hn⟩

theorem run_inv {variables : List Nat} (hlt : ∀ v ∈ variables, v < 2 ^ 28) {sched : Nat → Bool} : ∀ (Bs As : List SimVectors)
    {P P' : Partition} {kept : List Nat}, RInv variables As P kept → P.run sched Bs = some P' →
    ∃ kept', RInv variables (As ++ Bs) P' kept' := by
  intro Bs
  induction Bs with
  | nil =>
    intro As P P' kept h hr
    cases hr
    exact ⟨kept, by simpa using h⟩
  | cons A Bs ih =>
    intro As P P' kept h hr
    simp only [run] at hr
    split at hr
    · cases hr
    · rename_i Q hQ
      obtain ⟨k, h1, _⟩ := update_inv hlt h hQ
      have := ih (As ++ [A]) h1 hr
      simpa using this

theorem run_total {variables : List Nat} (hlt : ∀ v ∈ variables, v < 2 ^ 28) {sched : Nat → Bool} : ∀ (Bs As : List SimVectors)
    {P : Partition} {kept : List Nat}, RInv variables As P kept → kept.Nodup →
    (∀ n, 0 < n → n ≤ Bs.length → Apart variables (As ++ Bs.take n)) →
    ∃ P' kept', P.run sched Bs = some P' ∧ RInv variables (As ++ Bs) P' kept' ∧ kept'.Nodup := by
  intro Bs
  induction Bs with
  | nil =>
    intro As P kept h hn _
    exact ⟨P, kept, rfl, by simpa using h, hn⟩
  | cons A Bs ih =>
    intro As P kept h hn ha
    have ha1 : Apart variables (As ++ [A]) := by
      have := ha 1 (by omega) (by simp)
      simpa using this
    have hu : ∃ Q, P.update sched A = some Q := by
      rw [update_eq]
      split
      · obtain ⟨Q, hQ⟩ := (compress_total (hashed_inv hlt A h) hn ha1).1
        rw [hQ]
        exact ⟨_, rfl⟩
      · exact ⟨_, rfl⟩
    obtain ⟨Q, hQ⟩ := hu
    obtain ⟨k, h1, h2⟩ := update_inv hlt h hQ
    obtain ⟨P', k', h3, h4, h5⟩ := ih (As ++ [A]) h1 (h2 hn ha1) (fun n h0 hl => by
      have := ha (n + 1) (by omega) (by simpa using hl)
      simpa using this)
    refine ⟨P', k', ?_, by simpa using h4, h5⟩
    simp only [run, hQ]
    exact h3

/-! ## Conjectures -/

/-- The variable was seen with a positive entry in one of the groups. -/
def SeenIn (es : List (PartitionEntry × PartitionEntry)) (ids : List (BitVec 64)) (v : Nat) : Prop :=
  ∃ id ∈ ids, ∃ e ∈ group es id, e.polarity = true ∧ e.varId = v

theorem ignoringLoop_seen : ∀ (part : List PartitionEntry) (s : Ignoring) (v : Nat),
    (ignoringLoop part s).seen v = true ↔ s.seen v = true ∨ ∃ e ∈ part, e.polarity = true ∧ e.varId = v := by
  intro part
  induction part with
  | nil => intro s v; simp [ignoringLoop]
  | cons e es ih =>
    intro s v
    simp only [ignoringLoop, ih, List.mem_cons, exists_eq_or_imp, upd]
    by_cases hv : v = e.varId
    · subst hv; simp; grind
    · have : ¬ e.varId = v := fun h => hv h.symm
      simp [hv, this]

theorem ignoringLoop_flags : ∀ (part : List PartitionEntry) (s : Ignoring),
    ((ignoringLoop part s).hasPos = true ↔ s.hasPos = true ∨ ∃ e ∈ part, e.polarity = true) ∧
    ((ignoringLoop part s).hasBackbone = true ↔ s.hasBackbone = true ∨ ∃ e ∈ part, e.backbone = true) := by
  intro part
  induction part with
  | nil => intro s; simp [ignoringLoop]
  | cons e es ih =>
    intro s
    simp only [ignoringLoop, ih, List.mem_cons, exists_eq_or_imp, Bool.or_eq_true, or_assoc]
    exact ⟨trivial, trivial⟩

theorem ignoringLoop_seenVar : ∀ (part : List PartitionEntry) (s : Ignoring),
    (∀ e ∈ part, ∀ e' ∈ part, e.polarity = true → e'.polarity = false → e.varId ≠ e'.varId) →
    ((ignoringLoop part s).seenVar = true ↔ s.seenVar = true ∨ ∃ e ∈ part, e.polarity = false ∧ s.seen e.varId = true) := by
  intro part
  induction part with
  | nil => intro s _; simp [ignoringLoop]
  | cons e es ih =>
    intro s h
    have h' : ∀ d ∈ es, ∀ d' ∈ es, d.polarity = true → d'.polarity = false → d.varId ≠ d'.varId :=
      fun d hd d' hd' => h d (List.mem_cons_of_mem _ hd) d' (List.mem_cons_of_mem _ hd')
    simp only [ignoringLoop, ih _ h', List.mem_cons, exists_eq_or_imp, Bool.or_eq_true, Bool.and_eq_true,
      Bool.not_eq_true', or_assoc]
    have : (∃ d ∈ es, d.polarity = false ∧ upd s.seen e.varId (s.seen e.varId || e.polarity) d.varId = true) ↔
        ∃ d ∈ es, d.polarity = false ∧ s.seen d.varId = true := by
      constructor
      · rintro ⟨d, hd, h1, h2⟩
        refine ⟨d, hd, h1, ?_⟩
        unfold upd at h2
        split at h2
        · rename_i hv
          have : e.polarity = false := by
            cases he : e.polarity with
            | false => rfl
            | true => exact absurd hv.symm (h e (List.mem_cons_self ..) d (List.mem_cons_of_mem _ hd) he h1)
          rw [hv]
          simpa [this] using h2
        · exact h2
      · rintro ⟨d, hd, h1, h2⟩
        refine ⟨d, hd, h1, ?_⟩
        unfold upd
        split
        · rename_i hv; rw [← hv, h2]; rfl
        · exact h2
    rw [this]

/-- No group has both literals of a variable. -/
def NoBoth (es : List (PartitionEntry × PartitionEntry)) : Prop :=
  ∀ id, ∀ e ∈ group es id, ∀ e' ∈ group es id, e.polarity = true → e'.polarity = false → e.varId ≠ e'.varId

/-- A group from which a conjecture is made, after the groups `pre`. -/
def Used (es : List (PartitionEntry × PartitionEntry)) (pre : List (BitVec 64)) (id : BitVec 64) : Prop :=
  (∀ e ∈ group es id, e.polarity = false → ¬ SeenIn es pre e.varId) ∧ (∃ e ∈ group es id, e.polarity = true) ∧
    (∀ e ∈ group es id, e.backbone = false)

/-- The conjectures, each with the groups before. -/
theorem conjLoop_spec {es : List (PartitionEntry × PartitionEntry)} (hb : NoBoth es) : ∀ (ids pre : List (BitVec 64)) (seen : Nat → Bool),
    (∀ v, seen v = true ↔ SeenIn es pre v) →
    (∀ c ∈ conjLoop es ids seen, ∃ a id b, ids = a ++ id :: b ∧ Used es (pre ++ a) id ∧ c ∈ toConjecture (group es id)) ∧
    (∀ a id b, ids = a ++ id :: b → Used es (pre ++ a) id → ∀ c ∈ toConjecture (group es id), c ∈ conjLoop es ids seen) ∧
    ((∀ a id b id' b', ids = a ++ id :: (b ++ id' :: b') → Used es (pre ++ a) id → Used es (pre ++ a ++ id :: b) id' →
      ∀ c ∈ toConjecture (group es id), ∀ d ∈ toConjecture (group es id'), ∀ p ∈ c, ∀ q ∈ d, p.var ≠ q.var) →
      (conjLoop es ids seen).Pairwise fun c d => ∀ p ∈ c, ∀ q ∈ d, p.var ≠ q.var) := by
  intro ids
  induction ids with
  | nil =>
    intro pre seen _
    refine ⟨by simp [conjLoop], ?_, by simp [conjLoop]⟩
    intro a id b h
    simp at h
  | cons id ids ih =>
    intro pre seen hs
    have hs' : ∀ v, (ignoringLoop (group es id) ⟨false, false, false, seen⟩).seen v = true ↔ SeenIn es (pre ++ [id]) v := by
      intro v
      rw [ignoringLoop_seen, hs]
      unfold SeenIn
      constructor
      · rintro (⟨i, hi, h⟩ | h)
        · exact ⟨i, by simp [hi], h⟩
        · exact ⟨id, by simp, h⟩
      · rintro ⟨i, hi, h⟩
        rcases List.mem_append.1 hi with hi | hi
        · exact .inl ⟨i, hi, h⟩
        · rw [List.mem_singleton.1 hi] at h
          exact .inr h
    have hused : ((ignoringLoop (group es id) ⟨false, false, false, seen⟩).seenVar ||
        !(ignoringLoop (group es id) ⟨false, false, false, seen⟩).hasPos ||
        (ignoringLoop (group es id) ⟨false, false, false, seen⟩).hasBackbone) = false ↔ Used es pre id := by
      obtain ⟨f1, f2⟩ := ignoringLoop_flags (group es id) ⟨false, false, false, seen⟩
      have f3 := ignoringLoop_seenVar (group es id) ⟨false, false, false, seen⟩ (hb id)
      simp only [Bool.false_eq_true, false_or] at f1 f2 f3
      simp only [Bool.or_eq_false_iff, Bool.not_eq_false', Bool.eq_false_iff (b := Ignoring.seenVar _),
        Bool.eq_false_iff (b := Ignoring.hasBackbone _), ne_eq, f1, f2, f3, and_assoc]
      unfold Used
      refine and_congr ?_ (and_congr Iff.rfl ?_)
      · constructor
        · intro h e he hp hse
          exact h ⟨e, he, hp, (hs _).2 hse⟩
        · rintro h ⟨e, he, hp, hse⟩
          exact h e he hp ((hs _).1 hse)
      · simp
    obtain ⟨i1, i2, i3⟩ := ih (pre ++ [id]) _ hs'
    have hcl : conjLoop es (id :: ids) seen =
        (if ((ignoringLoop (group es id) ⟨false, false, false, seen⟩).seenVar ||
          !(ignoringLoop (group es id) ⟨false, false, false, seen⟩).hasPos ||
          (ignoringLoop (group es id) ⟨false, false, false, seen⟩).hasBackbone) = true then [] else toConjecture (group es id)) ++
        conjLoop es ids (ignoringLoop (group es id) ⟨false, false, false, seen⟩).seen := rfl
    have hhead : ∀ c ∈ (if ((ignoringLoop (group es id) ⟨false, false, false, seen⟩).seenVar ||
          !(ignoringLoop (group es id) ⟨false, false, false, seen⟩).hasPos ||
          (ignoringLoop (group es id) ⟨false, false, false, seen⟩).hasBackbone) = true then [] else toConjecture (group es id)),
        Used es pre id ∧ c ∈ toConjecture (group es id) := by
      intro c hc
      split at hc
      · simp at hc
      · rename_i h
        exact ⟨hused.1 (by simpa using h), hc⟩
    refine ⟨?_, ?_, ?_⟩
    · intro c hc
      rw [hcl] at hc
      rcases List.mem_append.1 hc with hc | hc
      · obtain ⟨h1, h2⟩ := hhead c hc
        exact ⟨[], id, ids, rfl, by simpa using h1, h2⟩
      · obtain ⟨a, i, b, rfl, h2, h3⟩ := i1 c hc
        exact ⟨id :: a, i, b, rfl, by simpa using h2, h3⟩
    · intro a i b hab hu c hc
      rw [hcl]
      rw [List.mem_append]
      cases a with
      | nil =>
        simp only [List.nil_append, List.cons.injEq, List.append_nil] at hab hu
        obtain ⟨rfl, rfl⟩ := hab
        left
        rw [hused.2 hu]
        simpa using hc
      | cons x a =>
        simp only [List.cons_append, List.cons.injEq] at hab
        obtain ⟨rfl, rfl⟩ := hab
        exact .inr (i2 a i b rfl (by simpa using hu) c hc)
    · intro hp
      rw [hcl, List.pairwise_append]
      refine ⟨?_, ?_, ?_⟩
      · split
        · exact List.Pairwise.nil
        · unfold toConjecture
          dsimp only
          split <;> simp
      · refine i3 fun a i b i' b' h hu hu' => ?_
        refine hp (id :: a) i b i' b' (by rw [h]; rfl) (by simpa using hu) (by simpa using hu')
      · intro c hc d hd
        obtain ⟨h1, h2⟩ := hhead c hc
        obtain ⟨a, i, b, rfl, h3, h4⟩ := i1 d hd
        exact hp [] id a i b rfl (by simpa using h1) (by simpa using h3) c h2 d h4

end Partition

end Candy
