import Verif.Proofs.SccVisit
import Mathlib.Data.List.Nodup
import Mathlib.Data.Finset.Card
import Mathlib.Data.Finset.Range

/-!
# The second search of the computation of strongly connected components
-/

namespace Candy.Scc

variable {n : Nat} {out inn : Nat → List Nat} {o : Nat → Nat}

theorem Digraph.mem (hg : Digraph n out inn) {a b : Nat} : a ∈ inn b ↔ b ∈ out a := by
  rw [← List.count_pos_iff, ← hg.edges, List.count_pos_iff]

theorem Strong.refl (u : Nat) : Strong out u u := ⟨.refl, .refl⟩
theorem Strong.symm {u v : Nat} (h : Strong out u v) : Strong out v u := ⟨h.2, h.1⟩
theorem Strong.trans {u v w : Nat} (h : Strong out u v) (g : Strong out v w) : Strong out u w :=
  ⟨h.1.trans g.1, g.2.trans h.2⟩

theorem Strong.lt (hg : Digraph n out inn) {u v : Nat} (h : Strong out u v) (hu : u < n) : v < n := by
  rcases Relation.ReflTransGen.cases_tail h.1 with e | ⟨w, _, hw⟩
  · rwa [e]
  · exact (hg.nodes w v hw).2

/-- A path between nodes without component. -/
def ReachIn (out : Nat → List Nat) (o : Nat → Nat) (u v : Nat) : Prop :=
  Relation.ReflTransGen (fun a b => b ∈ out a ∧ o a = 0 ∧ o b = 0) u v

theorem ReachIn.reach {u v : Nat} (h : ReachIn out o u v) : Reach out u v := by
  induction h with
  | refl => exact .refl
  | tail _ h ih => exact ih.tail h.1

/-- A path from a node that is not after `w` to a node after `w` has an edge that leads over `w`. -/
theorem crossing {f : Nat → Nat} {w x a : Nat} (h : ReachIn out o a x) (ha : f a ≤ f w) (hx : f w < f x) :
    ∃ p q, q ∈ out p ∧ o q = 0 ∧ f p ≤ f w ∧ f w < f q ∧ ReachIn out o q x := by
  induction h using Relation.ReflTransGen.head_induction_on with
  | refl => omega
  | head hab hbx ih =>
    rename_i a b
    by_cases hb : f b ≤ f w
    · exact ih hb
    · exact ⟨a, b, hab.1, hab.2.2, ha, by omega, hbx⟩

/-- Nodes from which the last finished node can be reached can be reached from it. -/
theorem back {f : Nat → Nat} {x : Nat} (hx : x < n) (hn : ∀ a b, b ∈ out a → a < n ∧ b < n)
    (hinj : ∀ u v, u < n → v < n → f u = f v → u = v)
    (hK : ∀ u v, v ∈ out u → f v ≤ f u ∨ ∀ y < n, f u ≤ f y → f y ≤ f v → Reach out v y)
    (hmax : ∀ v < n, o v = 0 → f v ≤ f x) : ∀ (k w : Nat), w < n → o w = 0 → ReachIn out o w x → f x - f w ≤ k → Reach out x w
  | k, w, hw, ho, hr, hk => by
    by_cases he : f w = f x
    · rw [hinj w x hw hx he]; exact .refl
    · have hlt : f w < f x := by have := hmax w hw ho; omega
      obtain ⟨p, q, e1, e2, e3, e4, e5⟩ := crossing hr (Nat.le_refl _) hlt
      have hq := (hn p q e1).2
      have hqw : Reach out q w := by
        rcases hK p q e1 with h | h
        · omega
        · exact h w hw e3 (by omega)
      cases k with
      | zero => omega
      | succ k =>
        have := hmax q hq e2
        exact (back hx hn hinj hK hmax k q hq e2 e5 (by omega)).trans hqw

/-! ### The search from one node -/

theorem sum_point {F F' : Nat → Nat} {k c : Nat} : ∀ {l : List Nat}, l.Nodup → c ∈ l → (∀ v, v ≠ c → F' v = F v) → F c = 0 → F' c = k →
    (l.map F').sum = (l.map F).sum + k
  | [], _, h, _, _, _ => by cases h
  | a :: l, hnd, hc, hv, h0, hk => by
    obtain ⟨ha, hnd⟩ := List.nodup_cons.1 hnd
    simp only [List.map_cons, List.sum_cons]
    rcases List.mem_cons.1 hc with rfl | hc
    · have : l.map F' = l.map F := List.map_congr_left fun v hv' => hv v (by rintro rfl; exact ha hv')
      rw [this, h0, hk]; omega
    · rw [sum_point hnd hc hv h0 hk, hv a (by rintro rfl; exact ha hc)]; omega

theorem countP_sum (C : Nat → Bool) : ∀ l : List Nat, l.countP C = (l.map fun v => if C v = true then 1 else 0).sum
  | [] => rfl
  | a :: l => by
    rw [List.countP_cons, countP_sum C l]
    simp only [List.map_cons, List.sum_cons]; omega

theorem size_point {C C' : Nat → Bool} {c : Nat} (hc : c < n) (hv : ∀ v, v ≠ c → C' v = C v) (h0 : C c = false) (h1 : C' c = true) :
    size n C' = size n C + 1 := by
  unfold size
  rw [countP_sum, countP_sum]
  exact sum_point List.nodup_range (by simpa using hc) (fun v h => by rw [hv v h]) (by simp [h0]) (by simp [h1])

theorem markEdges {cap : Nat} {id : Nat → Nat} {c : Nat} {t : Nat → Nat} (hc : c < cap) (hc0 : c ≠ 0) : ∀ (l st : List Nat) (e : Nat),
    l.foldlM (markEdge cap id c) (st, upd t c e) =
      some ((l.filter fun a => id a == 0).reverse ++ st, upd t c (e + l.countP fun a => id a == c))
  | [], st, e => by simp
  | a :: l, st, e => by
    rw [List.foldlM_cons]
    by_cases h0 : id a = 0
    · have : markEdge cap id c (st, upd t c e) a = some (a :: st, upd t c e) := by simp [markEdge, h0]
      rw [this]
      show l.foldlM (markEdge cap id c) (a :: st, upd t c e) = _
      rw [markEdges hc hc0 l]
      simp [h0, Ne.symm hc0]
    · by_cases h1 : id a = c
      · have : markEdge cap id c (st, upd t c e) a = some (st, upd t c (e + 1)) := by
          simp [markEdge, h1, hc0, bump, hc]
        rw [this]
        show l.foldlM (markEdge cap id c) (st, upd t c (e + 1)) = _
        rw [markEdges hc hc0 l]
        simp [h1, hc0]
        congr 1; omega
      · have : markEdge cap id c (st, upd t c e) a = some (st, upd t c e) := by simp [markEdge, h0, h1]
        rw [this]
        show l.foldlM (markEdge cap id c) (st, upd t c e) = _
        rw [markEdges hc hc0 l]
        simp [h0, h1]

/-- The invariant of the search from `x`; `m0` is the state at the start. -/
structure MInv (n : Nat) (out inn : Nat → List Nat) (m0 : Comps) (x c : Nat) (st : List Nat) (m : Comps) : Prop where
  keep : ∀ v, m0.id v ≠ 0 → m.id v = m0.id v
  new : ∀ v, m0.id v = 0 → m.id v = 0 ∨ m.id v = c
  sub : ∀ v, (v ∈ st ∨ m.id v = c) → v < n ∧ m0.id v = 0 ∧ ReachIn out m0.id v x
  clos : ∀ b, m.id b = c → ∀ a ∈ inn b, m.id a ≠ 0 ∨ a ∈ st
  self : m.id x = c
  notx : x ∉ st
  nodes : m.nodes = upd m0.nodes c (size n fun v => m.id v == c)
  edges : ∃ e, m.edges = upd m0.edges c e ∧
    e + st.length = ((List.range n).map fun b => if m.id b == c then (inn b).countP (fun a => m0.id a == 0) else 0).sum
  largest : m.largest = m0.largest
  sccs : m.sccs = m0.sccs

/-- Number of rounds that are left. -/
def toMark (n : Nat) (inn : Nat → List Nat) (id : Nat → Nat) : Nat :=
  ((List.range n).map fun b => if id b = 0 then (inn b).length else 0).sum

theorem count_split {id : Nat → Nat} {c : Nat} (hc0 : c ≠ 0) (hlt : ∀ v, o v < c) (hk : ∀ v, o v ≠ 0 → id v = o v)
    (hn : ∀ v, o v = 0 → id v = 0 ∨ id v = c) : ∀ l : List Nat,
    (l.filter fun a => id a == 0).length + l.countP (fun a => id a == c) = l.countP fun a => o a == 0
  | [] => rfl
  | a :: l => by
    have ih := count_split hc0 hlt hk hn l
    have := hlt a
    simp only [List.filter_cons, List.countP_cons]
    by_cases h0 : o a = 0
    · rcases hn a h0 with h | h
      · have : (id a == c) = false := by simp [h, Ne.symm hc0]
        simp [h, h0, Ne.symm hc0]; omega
      · simp [h, h0, hc0]; omega
    · have e := hk a h0
      have h1 : ¬ o a = c := by omega
      simp [e, h0, h1]; omega

/-- A node gets its component. -/
theorem markNode_spec (hg : Digraph n out inn) {cap : Nat} {m0 m : Comps} {x c cur : Nat} {st : List Nat} (hc : c < cap) (hc0 : c ≠ 0)
    (hlt : ∀ v, m0.id v < c) {e : Nat}
    (keep : ∀ v, m0.id v ≠ 0 → m.id v = m0.id v) (new : ∀ v, m0.id v = 0 → m.id v = 0 ∨ m.id v = c)
    (sub : ∀ v, (v ∈ st ∨ m.id v = c ∨ v = cur) → v < n ∧ m0.id v = 0 ∧ ReachIn out m0.id v x)
    (clos : ∀ b, m.id b = c → ∀ a ∈ inn b, m.id a ≠ 0 ∨ a ∈ st ∨ a = cur) (self : m.id x = c ∨ cur = x) (notx : x ∉ st)
    (nodes : m.nodes = upd m0.nodes c (size n fun v => m.id v == c)) (edges : m.edges = upd m0.edges c e)
    (he : e + st.length = ((List.range n).map fun b => if m.id b == c then (inn b).countP (fun a => m0.id a == 0) else 0).sum)
    (largest : m.largest = m0.largest) (sccs : m.sccs = m0.sccs) (hcur : m.id cur = 0) :
    ∃ st' m', markNode cap inn c cur st m = some (st', m') ∧ MInv n out inn m0 x c st' m' ∧
      st'.length + toMark n inn m'.id ≤ st.length + toMark n inn m.id := by
  obtain ⟨hn, ho, hr⟩ := sub cur (by simp)
  have keep' : ∀ v, m0.id v ≠ 0 → upd m.id cur c v = m0.id v := by
    intro v hv; rw [upd_ne _ _ (by rintro rfl; exact hv ho)]; exact keep v hv
  have new' : ∀ v, m0.id v = 0 → upd m.id cur c v = 0 ∨ upd m.id cur c v = c := by
    intro v hv; rw [upd_apply]; split
    · right; rfl
    · exact new v hv
  unfold markNode
  rw [nodes, edges, markEdges hc hc0]
  simp only [bump, hc, if_true, upd_upd, upd_same]
  refine ⟨_, _, rfl, ?_, ?_⟩
  · constructor
    · exact keep'
    · exact new'
    · intro v hv
      by_cases hv1 : v ∈ st ∨ m.id v = c ∨ v = cur
      · exact sub v hv1
      · simp only [not_or] at hv1
        rcases hv with hv | hv
        · simp only [List.mem_append, List.mem_reverse, List.mem_filter, hv1.1, or_false, beq_iff_eq] at hv
          have hva : cur ∈ out v := hg.mem.1 hv.1
          have hov : m0.id v = 0 := by
            apply Decidable.byContradiction
            intro h
            rw [keep' v h] at hv
            exact h hv.2
          exact ⟨(hg.nodes v cur hva).1, hov, Relation.ReflTransGen.head ⟨hva, hov, ho⟩ hr⟩
        · simp only [upd_ne _ _ hv1.2.2] at hv
          exact absurd hv hv1.2.1
    · intro b hb a ha
      simp only [List.mem_append, List.mem_reverse, List.mem_filter, beq_iff_eq]
      by_cases hbc : b = cur
      · subst hbc
        by_cases h0 : upd m.id b c a = 0
        · exact Or.inr (Or.inl ⟨ha, h0⟩)
        · exact Or.inl h0
      · simp only [upd_ne _ _ hbc] at hb
        by_cases hac : a = cur
        · left; rw [hac, upd_same]; exact hc0
        · rw [upd_ne _ _ hac]
          rcases clos b hb a ha with h | h | h
          · exact Or.inl h
          · exact Or.inr (Or.inr h)
          · exact absurd h hac
    · simp only [upd_apply]
      split
      · rfl
      · next hx => exact self.resolve_right fun h => hx h.symm
    · simp only [List.mem_append, List.mem_reverse, List.mem_filter, not_or, beq_iff_eq, not_and]
      refine ⟨fun _ => ?_, notx⟩
      rw [upd_apply]
      split
      · exact hc0
      · next hx => rw [self.resolve_right fun h => hx h.symm]; exact hc0
    · simp only
      congr 1
      refine (size_point hn (fun v hv => ?_) ?_ ?_).symm
      · rw [upd_ne _ _ hv]
      · simp [hcur, Ne.symm hc0]
      · simp
    · refine ⟨_, rfl, ?_⟩
      rw [sum_point (F := fun b => if m.id b == c then (inn b).countP (fun a => m0.id a == 0) else 0) (c := cur)
        (k := (inn cur).countP fun a => m0.id a == 0) List.nodup_range (by simpa using hn) (fun v hv => by simp only [upd_ne _ _ hv])
        (by simp [hcur, Ne.symm hc0]) (by simp), ← he, ← count_split hc0 hlt keep' new' (inn cur)]
      simp only [List.length_append, List.length_reverse]; omega
    · exact largest
    · exact sccs
  · have h1 : toMark n inn m.id = toMark n inn (upd m.id cur c) + (inn cur).length := by
      unfold toMark
      refine sum_point List.nodup_range (by simpa using hn) (fun v hv => ?_) (by simp [hc0]) (by simp [hcur])
      rw [upd_ne _ _ hv]
    have h2 : ((inn cur).filter fun a => upd m.id cur c a == 0).length ≤ (inn cur).length := List.length_filter_le ..
    simp only [List.length_append, List.length_reverse]; omega

theorem MInv.loop (hg : Digraph n out inn) {cap : Nat} {m0 : Comps} {x c : Nat} (hc : c < cap) (hc0 : c ≠ 0) (hlt : ∀ v, m0.id v < c) :
    ∀ (k : Nat) (st : List Nat) (m : Comps), MInv n out inn m0 x c st m → st.length + toMark n inn m.id ≤ k →
    ∃ m', goMark cap inn x c k st m = some m' ∧ MInv n out inn m0 x c [] m'
  | k, [], m, h, _ => ⟨m, by cases k <;> rfl, h⟩
  | 0, _ :: _, _, _, hk => by simp at hk
  | k + 1, cur :: st, m, h, hk => by
    obtain ⟨e, he, hs⟩ := h.edges
    have hx : cur ≠ x := by rintro rfl; exact h.notx (by simp)
    have hp : countPop cap x c cur m = some { m with edges := upd m0.edges c (e + 1) } := by
      simp [countPop, hx, bump, hc, he]
    simp only [goMark, hp]
    simp only [List.length_cons] at hk hs
    by_cases h0 : m.id cur = 0
    · obtain ⟨st', m', g1, g2, g3⟩ := markNode_spec (m := { m with edges := upd m0.edges c (e + 1) }) (st := st) (cur := cur) (x := x) (e := e + 1)
        hg hc hc0 hlt h.keep h.new
        (fun v hv => h.sub v (by simp only [List.mem_cons]; simp only at hv; tauto))
        (fun b hb a ha => by
          rcases h.clos b hb a ha with h | h
          · exact Or.inl h
          · simp only [List.mem_cons] at h; tauto)
        (Or.inl h.self) (fun hm => h.notx (by simp [hm])) h.nodes rfl (by simp only; rw [← hs]; omega) h.largest h.sccs h0
      obtain ⟨m'', f1, f2⟩ := MInv.loop hg hc hc0 hlt k st' m' g2 (by simp only at g3; omega)
      exact ⟨m'', by simp only [h0, if_true, g1]; exact f1, f2⟩
    · rw [if_neg h0]
      refine MInv.loop hg hc hc0 hlt k st _ ?_ (by simp only; omega)
      refine ⟨h.keep, h.new, fun v hv => h.sub v ?_, fun b hb a ha => ?_, h.self, fun hm => h.notx (by simp [hm]), h.nodes,
        ⟨e + 1, rfl, by simp only; rw [← hs]; omega⟩, h.largest, h.sccs⟩
      · simp only at hv; simp only [List.mem_cons]; tauto
      · rcases h.clos b hb a ha with h1 | h1
        · exact Or.inl h1
        · rcases List.mem_cons.1 h1 with rfl | h1
          · exact Or.inl h0
          · exact Or.inr h1

theorem toMark_le (n : Nat) (inn : Nat → List Nat) (id : Nat → Nat) : toMark n inn id ≤ total n inn :=
  sum_mono fun v _ => by split <;> omega

theorem sum_zero : ∀ (l : List Nat) (F : Nat → Nat), (∀ v ∈ l, F v = 0) → (l.map F).sum = 0
  | [], _, _ => rfl
  | a :: l, F, h => by
    simp only [List.map_cons, List.sum_cons, h a (by simp), sum_zero l F fun v hv => h v (by simp [hv])]

/-- The nodes that get component `c` are those that are strongly connected with `x`. -/
theorem goMark_spec (hg : Digraph n out inn) {cap : Nat} {m0 : Comps} {x c : Nat} {f : Nat → Nat} (hc : c < cap) (hc0 : c ≠ 0)
    (hlt : ∀ v, m0.id v < c) (hx : x < n) (hx0 : m0.id x = 0) (hinj : ∀ u v, u < n → v < n → f u = f v → u = v)
    (hK : ∀ u v, v ∈ out u → f v ≤ f u ∨ ∀ y < n, f u ≤ f y → f y ≤ f v → Reach out v y)
    (hmax : ∀ v < n, m0.id v = 0 → f v ≤ f x) (hfull : ∀ u v, m0.id u ≠ 0 → Strong out u v → m0.id v ≠ 0)
    (hn0 : m0.nodes c = 0) (he0 : m0.edges c = 0) :
    ∃ m, goMark cap inn x c (total n inn + 1) [x] m0 = some m ∧ (∀ v, m.id v = c ↔ Strong out x v) ∧
      (∀ v, ¬ Strong out x v → m.id v = m0.id v) ∧ m.nodes = upd m0.nodes c (size n fun v => m.id v == c) ∧
      m.edges = upd m0.edges c (inner n inn fun v => m.id v == c) ∧ m.largest = m0.largest ∧ m.sccs = m0.sccs := by
  have hne : ∀ v, ¬ m0.id v = c := fun v h => by have := hlt v; omega
  obtain ⟨st', m', g1, g2, g3⟩ := markNode_spec (m := m0) (st := []) (cur := x) (x := x) (e := 0) hg hc hc0 hlt (fun _ _ => rfl)
    (fun _ h => Or.inl h)
    (fun v hv => by
      simp only [List.not_mem_nil, hne v, false_or] at hv
      rw [hv]; exact ⟨hx, hx0, .refl⟩)
    (fun b hb => absurd hb (hne b)) (Or.inr rfl) (by simp)
    (by
      have : size n (fun v => m0.id v == c) = 0 := by
        rw [size, List.countP_eq_zero]; intro v _; simpa using hne v
      rw [this]; funext v; rw [upd_apply]; split
      · next e => rw [e, hn0]
      · rfl)
    (by
      funext v; rw [upd_apply]; split
      · next e => rw [e, he0]
      · rfl)
    (by
      rw [sum_zero]
      · rfl
      · intro v _; simp [hne v])
    rfl rfl hx0
  obtain ⟨m, f1, f2⟩ := MInv.loop hg hc hc0 hlt (total n inn) st' m' g2
    (by have := toMark_le n inn m0.id; simp only [List.length_nil] at g3; omega)
  refine ⟨m, ?_, ?_, ?_, f2.nodes, ?_, f2.largest, f2.sccs⟩
  · have : countPop cap x c x m0 = some m0 := by simp [countPop]
    simp only [goMark, this, hx0, if_true, g1]
    exact f1
  · intro v
    constructor
    · intro hv
      obtain ⟨a1, a2, a3⟩ := f2.sub v (Or.inr hv)
      exact ⟨back hx hg.nodes hinj hK hmax _ v a1 a2 a3 (Nat.le_refl _), a3.reach⟩
    · intro hs
      have key : ∀ w, Reach out w x → Reach out x w → m.id w = c := by
        intro w h
        induction h using Relation.ReflTransGen.head_induction_on with
        | refl => intro _; exact f2.self
        | head hab hbx ih =>
          rename_i a b
          intro hxa
          have hb := ih (hxa.trans (Relation.ReflTransGen.single hab))
          have ha0 : m0.id a = 0 := by
            apply Decidable.byContradiction
            intro h
            exact hfull a x h ⟨Relation.ReflTransGen.head hab hbx, hxa⟩ hx0
          rcases f2.clos b hb a (hg.mem.2 hab) with h | h
          · exact (f2.new a ha0).resolve_left h
          · cases h
      exact key v hs.2 hs.1
  · intro v hv
    by_cases h0 : m0.id v = 0
    · rcases f2.new v h0 with h | h
      · rw [h, h0]
      · obtain ⟨a1, a2, a3⟩ := f2.sub v (Or.inr h)
        exact absurd ⟨back hx hg.nodes hinj hK hmax _ v a1 a2 a3 (Nat.le_refl _), a3.reach⟩ hv
    · exact f2.keep v h0
  · obtain ⟨e, e1, e2⟩ := f2.edges
    rw [e1]
    simp only [List.length_nil, Nat.add_zero] at e2
    rw [e2]
    congr 2
    refine List.map_congr_left fun b _ => ?_
    by_cases hb : m.id b = c
    · simp only [hb, beq_self_eq_true, if_true]
      refine List.countP_congr fun a ha => ?_
      simp only [beq_iff_eq]
      constructor
      · intro h0
        rcases f2.clos b hb a ha with h | h
        · exact (f2.new a h0).resolve_left h
        · cases h
      · intro h
        exact (f2.sub a (Or.inr h)).2.1
    · have : (m.id b == c) = false := by simpa using hb
      simp [this]

/-! ### All components -/

/-- The invariant of the loop over the finished nodes; `reps` are the nodes from which a search was started. -/
structure OInv (cap n : Nat) (out inn : Nat → List Nat) (reps : List Nat) (m : Comps) (c : Nat) : Prop where
  len : reps.length + 1 = c
  capLe : reps ≠ [] → c ≤ cap
  apart : reps.Pairwise fun u v => ¬ Strong out u v
  repsLt : ∀ r ∈ reps, r < n
  repsId : ∀ r ∈ reps, m.id r ≠ 0
  cover : ∀ u, m.id u ≠ 0 → ∃ r ∈ reps, Strong out r u
  lt : ∀ u, m.id u < c
  full : ∀ u, m.id u ≠ 0 → u < n ∧ ∀ v, m.id v = m.id u ↔ Strong out u v
  used : ∀ k, 1 ≤ k → k < c → (∃ u < n, m.id u = k) ∧ m.nodes k = size n (fun v => m.id v == k) ∧ m.edges k = inner n inn fun v => m.id v == k
  unused : ∀ k, k = 0 ∨ c ≤ k → m.nodes k = 0 ∧ m.edges k = 0
  largest : m.largest < c ∧ (1 < c → 1 ≤ m.largest) ∧ ∀ k, 1 ≤ k → k < c → m.nodes k ≤ m.nodes m.largest

theorem OInv.fresh {cap c x : Nat} {reps : List Nat} {m : Comps} (h : OInv cap n out inn reps m c) (hx : m.id x = 0) :
    ∀ r ∈ reps, ¬ Strong out x r := by
  intro r hr hs
  have := ((h.full r (h.repsId r hr)).2 x).2 hs.symm
  rw [hx] at this
  exact h.repsId r hr this.symm

theorem OInv.mark (hg : Digraph n out inn) {cap c x : Nat} {reps : List Nat} {m0 : Comps} {f : Nat → Nat} (h : OInv cap n out inn reps m0 c)
    (hc : c < cap) (hx : x < n) (hx0 : m0.id x = 0) (hinj : ∀ u v, u < n → v < n → f u = f v → u = v)
    (hK : ∀ u v, v ∈ out u → f v ≤ f u ∨ ∀ y < n, f u ≤ f y → f y ≤ f v → Reach out v y)
    (hmax : ∀ v < n, m0.id v = 0 → f v ≤ f x) :
    ∃ m, markFrom cap inn (total n inn + 1) (m0, c) x = some (m, c + 1) ∧ OInv cap n out inn (x :: reps) m (c + 1) ∧ m.id x ≠ 0 ∧
      ∀ v, m0.id v ≠ 0 → m.id v ≠ 0 := by
  have hc0 : c ≠ 0 := by have := h.len; omega
  have hfull : ∀ u v, m0.id u ≠ 0 → Strong out u v → m0.id v ≠ 0 := by
    intro u v hu hs
    rw [((h.full u hu).2 v).2 hs]; exact hu
  obtain ⟨m, g1, g2, g3, g4, g5, g6, g7⟩ := goMark_spec hg hc hc0 h.lt hx hx0 hinj hK hmax hfull
    (h.unused c (Or.inr (Nat.le_refl _))).1 (h.unused c (Or.inr (Nat.le_refl _))).2
  have hnot : ∀ v, m0.id v ≠ 0 → ¬ Strong out x v := fun v hv hs => hfull v x hv hs.symm hx0
  have hkeep : ∀ v, m0.id v ≠ 0 → m.id v = m0.id v := fun v hv => g3 v (hnot v hv)
  have hold : ∀ k, k ≠ 0 → k ≠ c → ∀ v, m.id v = k ↔ m0.id v = k := by
    intro k hk0 hkc v
    constructor
    · intro hv
      by_cases hs : Strong out x v
      · rw [(g2 v).2 hs] at hv; omega
      · rw [← g3 v hs]; exact hv
    · intro hv
      rw [hkeep v (by omega)]; exact hv
  have hlt : ∀ u, m.id u < c + 1 := by
    intro u
    by_cases hs : Strong out x u
    · rw [(g2 u).2 hs]; omega
    · rw [g3 u hs]; have := h.lt u; omega
  have hnodes : ∀ k, k ≠ c → m.nodes k = m0.nodes k := fun k hk => by rw [g4, upd_ne _ _ hk]
  have hedges : ∀ k, k ≠ c → m.edges k = m0.edges k := fun k hk => by rw [g5, upd_ne _ _ hk]
  have hxc : m.id x = c := (g2 x).2 (Strong.refl x)
  have hpos : 0 < m.nodes c := by
    rw [g4, upd_same, size, List.countP_pos_iff]
    exact ⟨x, by simpa using hx, by simpa using hxc⟩
  have hbase : ∀ l, (l < c + 1 ∧ (1 < c + 1 → 1 ≤ l) ∧ ∀ k, 1 ≤ k → k < c + 1 → m.nodes k ≤ m.nodes l) →
      OInv cap n out inn (x :: reps) { m with largest := l } (c + 1) := by
    intro l hl
    refine ⟨by simp [h.len], fun _ => hc, List.pairwise_cons.2 ⟨fun r hr hs => ?_, h.apart⟩, ?_, ?_, ?_, hlt, ?_, ?_, ?_, hl⟩
    · exact h.fresh hx0 r hr hs
    · intro r hr
      rcases List.mem_cons.1 hr with rfl | hr
      · exact hx
      · exact h.repsLt r hr
    · intro r hr
      rcases List.mem_cons.1 hr with rfl | hr
      · simp only; omega
      · simp only; rw [hkeep r (h.repsId r hr)]; exact h.repsId r hr
    · intro u hu
      by_cases hs : Strong out x u
      · exact ⟨x, by simp, hs⟩
      · simp only [g3 u hs] at hu
        obtain ⟨r, hr, hs⟩ := h.cover u hu
        exact ⟨r, by simp [hr], hs⟩
    · intro u hu
      simp only at hu ⊢
      by_cases hs : Strong out x u
      · refine ⟨hs.lt hg hx, fun v => ?_⟩
        rw [(g2 u).2 hs, g2 v]
        exact ⟨fun hv => hs.symm.trans hv, fun hv => hs.trans hv⟩
      · rw [g3 u hs] at hu ⊢
        obtain ⟨a1, a2⟩ := h.full u hu
        refine ⟨a1, fun v => ?_⟩
        rw [← a2 v]
        exact hold _ hu (by have := h.lt u; omega) v
    · intro k hk1 hk2
      by_cases hkc : k = c
      · subst hkc
        refine ⟨⟨x, hx, hxc⟩, ?_, ?_⟩
        · simp only; rw [g4, upd_same]
        · simp only; rw [g5, upd_same]
      · obtain ⟨⟨u, hu, hk⟩, a2, a3⟩ := h.used k hk1 (by omega)
        have hb : (fun v => m.id v == k) = fun v => m0.id v == k := by
          funext v
          rw [Bool.eq_iff_iff]
          simp only [beq_iff_eq]
          exact hold k (by omega) hkc v
        refine ⟨⟨u, hu, (hold k (by omega) hkc u).2 hk⟩, ?_, ?_⟩
        · simp only; rw [hb, hnodes k hkc, a2]
        · simp only; rw [hb, hedges k hkc, a3]
    · intro k hk
      simp only
      rw [hnodes k (by omega), hedges k (by omega)]
      exact h.unused k (by omega)
  have hid : ∀ v, m0.id v ≠ 0 → m.id v ≠ 0 := fun v hv => by rw [hkeep v hv]; exact hv
  obtain ⟨l1, l2, l3⟩ := h.largest
  simp only [markFrom, hx0, if_true, g1]
  by_cases hl : m.nodes m.largest < m.nodes c
  · refine ⟨_, by rw [if_pos hl], hbase c ⟨by omega, fun _ => by omega, fun k hk1 hk2 => ?_⟩, by simp only; omega, hid⟩
    by_cases hkc : k = c
    · rw [hkc]
    · have := l3 k hk1 (by omega)
      rw [g6, hnodes _ (by omega)] at hl
      rw [hnodes k hkc]; omega
  · have hgt : 1 < c := by
      apply Decidable.byContradiction
      intro hc1
      have : m0.largest = 0 := by omega
      rw [g6, this, hnodes 0 (by omega), (h.unused 0 (Or.inl rfl)).1] at hl
      omega
    refine ⟨m, by rw [if_neg hl], hbase m.largest ⟨by omega, fun _ => by have := l2 hgt; omega, fun k hk1 hk2 => ?_⟩, by omega, hid⟩
    by_cases hkc : k = c
    · rw [hkc]; omega
    · have := l3 k hk1 (by omega)
      rw [g6, hnodes k hkc, hnodes m0.largest (by omega)]; exact this

theorem goMark_out (cap : Nat) (inn : Nat → List Nat) (x c k : Nat) (m : Comps) (hc : cap ≤ c) (hx : m.id x = 0) :
    goMark cap inn x c (k + 1) [x] m = none := by
  have : countPop cap x c x m = some m := by simp [countPop]
  have hb : ¬ c < cap := by omega
  simp [goMark, this, hx, markNode, bump, hb]

theorem OInv.loop (hg : Digraph n out inn) {cap : Nat} {f : Nat → Nat} (hinj : ∀ u v, u < n → v < n → f u = f v → u = v)
    (hK : ∀ u v, v ∈ out u → f v ≤ f u ∨ ∀ y < n, f u ≤ f y → f y ≤ f v → Reach out v y) :
    ∀ (l : List Nat) (reps : List Nat) (m : Comps) (c : Nat), OInv cap n out inn reps m c → (l.Pairwise fun a b => f b < f a) →
      (∀ v ∈ l, v < n) → (∀ v < n, m.id v = 0 → v ∈ l) →
    (∃ m' c' reps', l.foldlM (markFrom cap inn (total n inn + 1)) (m, c) = some (m', c') ∧ OInv cap n out inn reps' m' c' ∧
      ∀ v < n, m'.id v ≠ 0) ∨
    (l.foldlM (markFrom cap inn (total n inn + 1)) (m, c) = none ∧ ∃ reps' : List Nat, (reps'.Pairwise fun u v => ¬ Strong out u v) ∧
      (∀ r ∈ reps', r < n) ∧ cap ≤ reps'.length)
  | [], reps, m, c, h, _, _, hall => Or.inl ⟨m, c, reps, rfl, h, fun v hv h0 => by cases hall v hv h0⟩
  | x :: l, reps, m, c, h, ho, hl, hall => by
    obtain ⟨ho1, ho2⟩ := List.pairwise_cons.1 ho
    have hx := hl x (by simp)
    by_cases hx0 : m.id x = 0
    · by_cases hc : c < cap
      · have hmax : ∀ v < n, m.id v = 0 → f v ≤ f x := by
          intro v hv h0
          rcases List.mem_cons.1 (hall v hv h0) with rfl | hm
          · exact Nat.le_refl _
          · exact Nat.le_of_lt (ho1 v hm)
        obtain ⟨m', g1, g2, g3, g4⟩ := h.mark hg hc hx hx0 hinj hK hmax
        rw [List.foldlM_cons, g1]
        refine OInv.loop hg hinj hK l _ m' _ g2 ho2 (fun v hv => hl v (by simp [hv])) fun v hv h0 => ?_
        have hv0 : m.id v = 0 := by
          apply Decidable.byContradiction
          intro h; exact g4 v h h0
        rcases List.mem_cons.1 (hall v hv hv0) with rfl | hm
        · exact absurd h0 g3
        · exact hm
      · right
        refine ⟨?_, x :: reps, List.pairwise_cons.2 ⟨fun r hr hs => ?_, h.apart⟩, ?_, ?_⟩
        · have : markFrom cap inn (total n inn + 1) (m, c) x = none := by
            simp [markFrom, hx0, goMark_out cap inn x c (total n inn) m (by omega) hx0]
          rw [List.foldlM_cons, this]; rfl
        · exact h.fresh hx0 r hr hs
        · intro r hr
          rcases List.mem_cons.1 hr with rfl | hr
          · exact hx
          · exact h.repsLt r hr
        · have := h.len
          simp only [List.length_cons]; omega
    · have : markFrom cap inn (total n inn + 1) (m, c) x = some (m, c) := by simp [markFrom, hx0]
      rw [List.foldlM_cons, this]
      refine OInv.loop hg hinj hK l reps m c h ho2 (fun v hv => hl v (by simp [hv])) fun v hv h0 => ?_
      rcases List.mem_cons.1 (hall v hv h0) with rfl | hm
      · exact absurd h0 hx0
      · exact hm

end Candy.Scc
