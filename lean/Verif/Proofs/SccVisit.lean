import Verif.SpecScc
import Verif.Model.Scc
import Verif.Proofs.Basic
import Mathlib.Tactic.Tauto

/-!
# The first search of the computation of strongly connected components
-/

namespace Candy.Scc

variable {n : Nat} {out : Nat → List Nat}

/-- Every node of the list has the next one as parent. -/
def Parents (par : Nat → Option Nat) : List Nat → Prop
  | [] => True
  | g :: t => par g = t.head? ∧ Parents par t

theorem Parents.congr {p q : Nat → Option Nat} : ∀ {G : List Nat}, Parents p G → (∀ g ∈ G, q g = p g) → Parents q G
  | [], _, _ => trivial
  | _ :: _, h, he => ⟨by rw [he _ (by simp)]; exact h.1, h.2.congr fun g hg => he g (by simp [hg])⟩

/-- Nodes of `L` in the order of the numbers `f`; an edge leads to a node with smaller number, or to a node from which all
nodes between can be reached. -/
def Fin (out : Nat → List Nat) (f : Nat → Nat) (L : List Nat) (u v : Nat) : Prop :=
  v ∈ L → f v ≤ f u ∨ ∀ y ∈ L, f u ≤ f y → f y ≤ f v → Reach out v y

/-- The invariant of the first search; `G` are the nodes from the current one to the root, `f` numbers the finished nodes. -/
structure VInv (n : Nat) (out : Nat → List Nat) (f : Nat → Nat) (G : List Nat) (s : Visit) : Prop where
  nodup : (G ++ s.stack).Nodup
  vis : ∀ v, s.visited v = true ↔ v ∈ G ∨ v ∈ s.stack
  lt : ∀ v, s.visited v = true → v < n
  par : Parents s.parentOf G
  root' : ∀ v, v ∉ G → s.parentOf v = none
  reach : G.Pairwise fun a b => Reach out b a
  pos : ∀ g ∈ G, s.atIt g ≤ (out g).length ∧ ∀ w ∈ (out g).take (s.atIt g), s.visited w = true
  zero : ∀ v, v ∉ G → s.atIt v = 0
  order : s.stack.Pairwise fun a b => f b < f a
  bound : ∀ y ∈ s.stack, f y < s.stack.length
  done : ∀ u ∈ s.stack, ∀ v ∈ out u, s.visited v = true ∧ Fin out f s.stack u v ∧
    (v ∈ G → ∀ y ∈ s.stack, f u ≤ f y → Reach out v y)

/-- Number of rounds that are left. -/
def left (n : Nat) (out : Nat → List Nat) (s : Visit) : Nat :=
  ((List.range n).map fun v => if v ∈ s.stack then 0 else (out v).length - s.atIt v + 1).sum

theorem sum_lt {α} {f g : α → Nat} : ∀ {l : List α}, (∀ v ∈ l, f v ≤ g v) → (∃ v ∈ l, f v < g v) →
    (l.map f).sum < (l.map g).sum
  | [], _, h => by obtain ⟨_, h, _⟩ := h; cases h
  | a :: l, hl, hx => by
    have hle : (l.map f).sum ≤ (l.map g).sum := by
      clear hx
      induction l with
      | nil => simp
      | cons b l ih =>
        have := ih fun v hv => hl v (by simp only [List.mem_cons] at hv ⊢; tauto)
        have := hl b (by simp)
        simp only [List.map_cons, List.sum_cons]; omega
    have ha := hl a (by simp)
    simp only [List.map_cons, List.sum_cons]
    obtain ⟨v, hv, hlt⟩ := hx
    rcases List.mem_cons.1 hv with rfl | hv
    · omega
    · have := sum_lt (l := l) (fun v hv => hl v (by simp [hv])) ⟨v, hv, hlt⟩
      omega

/-- A node is finished. -/
theorem VInv.finish {f : Nat → Nat} {c : Nat} {G : List Nat} {s : Visit} (h : VInv n out f (c :: G) s)
    (hc : s.atIt c = (out c).length) :
    VInv n out (upd f c s.stack.length) G
      { s with stack := c :: s.stack, atIt := upd s.atIt c 0, parentOf := upd s.parentOf c none } := by
  have hnd := h.nodup
  simp only [List.cons_append, List.nodup_cons, List.mem_append, not_or] at hnd
  obtain ⟨⟨hcG, hcL⟩, hnd⟩ := hnd
  have hf : ∀ y ∈ s.stack, upd f c s.stack.length y = f y := fun y hy => upd_ne _ _ (by rintro rfl; exact hcL hy)
  have hG : ∀ g ∈ G, g ≠ c := by rintro g hg rfl; exact hcG hg
  have hr := List.pairwise_cons.1 h.reach
  constructor
  · simp only
    rw [List.nodup_append] at hnd ⊢
    refine ⟨hnd.1, List.nodup_cons.2 ⟨hcL, hnd.2.1⟩, ?_⟩
    intro a ha b hb
    rcases List.mem_cons.1 hb with rfl | hb
    · exact hG a ha
    · exact hnd.2.2 a ha b hb
  · intro v
    simp only [h.vis v, List.mem_cons]; tauto
  · exact h.lt
  · exact h.par.2.congr fun g hg => upd_ne _ _ (hG g hg)
  · intro v hv
    simp only [upd_apply]
    split
    · rfl
    · next hvc => exact h.root' v (by simp [hv, hvc])
  · exact hr.2
  · intro g hg
    simp only [upd_ne _ _ (hG g hg)]
    exact h.pos g (by simp [hg])
  · intro v hv
    simp only [upd_apply]
    split
    · rfl
    · next hvc => exact h.zero v (by simp [hv, hvc])
  · simp only [List.pairwise_cons, upd_same]
    refine ⟨fun y hy => by rw [hf y hy]; exact h.bound y hy, ?_⟩
    refine h.order.imp_of_mem fun {a b} ha hb hab => by rw [hf a ha, hf b hb]; exact hab
  · intro y hy
    simp only [List.mem_cons, List.length_cons] at hy ⊢
    rcases hy with rfl | hy
    · simp
    · rw [hf y hy]; have := h.bound y hy; omega
  · intro u hu v hv
    simp only [List.mem_cons] at hu
    rcases hu with rfl | hu
    · have hvis := (h.pos u (by simp)).2 v (by rw [hc, List.take_length]; exact hv)
      refine ⟨hvis, ?_, ?_⟩
      · intro hvL
        simp only [List.mem_cons] at hvL
        left
        rw [upd_same]
        rcases hvL with rfl | hvL
        · simp
        · rw [hf v hvL]; have := h.bound v hvL; omega
      · intro hvG y hy hle
        simp only [List.mem_cons] at hy
        rw [upd_same] at hle
        rcases hy with rfl | hy
        · exact hr.1 v hvG
        · rw [hf y hy] at hle; have := h.bound y hy; omega
    · obtain ⟨h1, h2, h3⟩ := h.done u hu v hv
      refine ⟨h1, ?_, ?_⟩
      · intro hvL
        simp only [List.mem_cons] at hvL
        rcases hvL with rfl | hvL
        · right
          intro y hy hle _
          simp only [List.mem_cons] at hy
          rcases hy with rfl | hy
          · exact Relation.ReflTransGen.refl
          · rw [hf u hu, hf y hy] at hle
            exact h3 (by simp) y hy hle
        · rcases h2 hvL with h2 | h2
          · left; rw [hf u hu, hf v hvL]; exact h2
          · right
            intro y hy hle hle'
            simp only [List.mem_cons] at hy
            rcases hy with rfl | hy
            · rw [upd_same, hf v hvL] at hle'
              have := h.bound v hvL; omega
            · rw [hf u hu, hf y hy] at hle
              rw [hf v hvL, hf y hy] at hle'
              exact h2 y hy hle hle'
      · intro hvG y hy hle
        simp only [List.mem_cons] at hy
        rcases hy with rfl | hy
        · exact hr.1 v hvG
        · rw [hf u hu, hf y hy] at hle
          exact h3 (by simp [hvG]) y hy hle

theorem take_succ_mem {l : List Nat} {i w x : Nat} (hw : l[i]? = some w) (h : x ∈ l.take (i + 1)) : x ∈ l.take i ∨ x = w := by
  rw [List.take_add_one, hw] at h
  simpa using h

/-- An edge leads to a node that was visited before. -/
theorem VInv.skip {f : Nat → Nat} {c w : Nat} {G : List Nat} {s : Visit} (h : VInv n out f (c :: G) s)
    (hw : (out c)[s.atIt c]? = some w) (hv : s.visited w = true) :
    VInv n out f (c :: G) { s with atIt := upd s.atIt c (s.atIt c + 1) } := by
  refine ⟨h.nodup, h.vis, h.lt, h.par, h.root', h.reach, ?_, ?_, h.order, h.bound, h.done⟩
  · intro g hg
    simp only [upd_apply]
    split
    · next hgc =>
      subst hgc
      have := (List.getElem?_eq_some_iff.1 hw).1
      refine ⟨by omega, fun x hx => ?_⟩
      rcases take_succ_mem hw hx with hx | rfl
      · exact (h.pos g hg).2 x hx
      · exact hv
    · exact h.pos g hg
  · intro v hv
    simp only [upd_apply]
    split
    · next hvc => exact absurd (by simp [hvc]) hv
    · exact h.zero v hv

/-- An edge leads to a new node. -/
theorem VInv.discover {f : Nat → Nat} {c w : Nat} {G : List Nat} {s : Visit} (h : VInv n out f (c :: G) s)
    (hw : (out c)[s.atIt c]? = some w) (hv : s.visited w = false) (hn : w < n) :
    VInv n out f (w :: c :: G) { s with visited := upd s.visited w true, parentOf := upd s.parentOf w (some c), atIt := upd s.atIt c (s.atIt c + 1) } := by
  have hnot : w ∉ c :: G ∧ w ∉ s.stack := by
    constructor <;> intro hm
    · rw [(h.vis w).2 (Or.inl hm)] at hv; cases hv
    · rw [(h.vis w).2 (Or.inr hm)] at hv; cases hv
  have hmem : w ∈ out c := List.mem_of_getElem? hw
  have hwc : w ≠ c := by rintro rfl; exact hnot.1 (by simp)
  have hvis : ∀ x, s.visited x = true → upd s.visited w true x = true := by
    intro x hx; simp only [upd_apply]; split <;> simp_all
  constructor
  · rw [List.cons_append, List.nodup_cons]
    exact ⟨by simp only [List.mem_append, not_or]; exact hnot, h.nodup⟩
  · intro v
    simp only [upd_apply]
    split
    · next hvw => simp [hvw]
    · next hvw => rw [h.vis v]; simp [hvw]
  · intro v
    simp only [upd_apply]
    split
    · next hvw => intro _; rw [hvw]; exact hn
    · exact h.lt v
  · refine ⟨by simp, h.par.congr fun g hg => upd_ne _ _ ?_⟩
    rintro rfl; exact hnot.1 hg
  · intro v hv'
    simp only [List.mem_cons, not_or] at hv'
    simp only [upd_ne _ _ hv'.1]
    exact h.root' v (by simp [hv'.2])
  · refine List.pairwise_cons.2 ⟨fun b hb => ?_, h.reach⟩
    have hcw : Reach out c w := Relation.ReflTransGen.single hmem
    rcases List.mem_cons.1 hb with rfl | hb
    · exact hcw
    · exact Relation.ReflTransGen.trans ((List.pairwise_cons.1 h.reach).1 b hb) hcw
  · intro g hg
    simp only
    rcases List.mem_cons.1 hg with rfl | hg
    · rw [upd_ne _ _ hwc, h.zero g hnot.1]; simp
    · simp only [upd_apply s.atIt]
      split
      · next hgc =>
        subst hgc
        have := (List.getElem?_eq_some_iff.1 hw).1
        refine ⟨by omega, fun x hx => ?_⟩
        rcases take_succ_mem hw hx with hx | rfl
        · exact hvis x ((h.pos g hg).2 x hx)
        · exact upd_same ..
      · exact ⟨(h.pos g hg).1, fun x hx => hvis x ((h.pos g hg).2 x hx)⟩
  · intro v hv'
    simp only [List.mem_cons, not_or] at hv'
    simp only [upd_ne _ _ hv'.2.1]
    exact h.zero v (by simp [hv'.2])
  · exact h.order
  · exact h.bound
  · intro u hu v hv'
    obtain ⟨h1, h2, h3⟩ := h.done u hu v hv'
    refine ⟨hvis v h1, h2, ?_⟩
    intro hvG
    rcases List.mem_cons.1 hvG with rfl | hvG
    · rw [h1] at hv; cases hv
    · exact h3 hvG

/-- A round of the search. -/
theorem VInv.step {f : Nat → Nat} {c : Nat} {G : List Nat} {s : Visit} (hn : ∀ a b, b ∈ out a → a < n ∧ b < n)
    (h : VInv n out f (c :: G) s) :
    ∃ cur s' f' G', s.step out c = some (cur, s') ∧ VInv n out f' G' s' ∧ cur = G'.head? ∧ left n out s' < left n out s ∧
      (∀ v, s.visited v = true → s'.visited v = true) := by
  have hnd := h.nodup
  simp only [List.cons_append, List.nodup_cons, List.mem_append, not_or] at hnd
  have hcn : c < n := h.lt c ((h.vis c).2 (by simp))
  unfold Visit.step
  by_cases hc : s.atIt c = (out c).length
  · refine ⟨_, _, _, G, by rw [if_pos hc], h.finish hc, h.par.1, ?_, fun _ hv => hv⟩
    refine sum_lt (fun v _ => ?_) ⟨c, by simpa using hcn, ?_⟩
    · simp only [List.mem_cons, upd_apply]
      by_cases h1 : v = c
      · simp [h1]
      · by_cases h2 : v ∈ s.stack <;> simp [h1, h2]
    · simp [hnd.1.2]
  · have hp := (h.pos c (by simp)).1
    have hlt : s.atIt c < (out c).length := by omega
    obtain ⟨w, hw⟩ : ∃ w, (out c)[s.atIt c]? = some w := ⟨_, List.getElem?_eq_getElem hlt⟩
    have hleft : ∀ s' : Visit, s'.stack = s.stack → s'.atIt = upd s.atIt c (s.atIt c + 1) → left n out s' < left n out s := by
      intro s' e1 e2
      refine sum_lt (fun v _ => ?_) ⟨c, by simpa using hcn, ?_⟩
      · rw [e1, e2]
        by_cases h1 : v = c
        · subst h1; simp only [hnd.1.2, if_false, upd_same]; omega
        · rw [upd_ne _ _ h1]; exact Nat.le_refl _
      · rw [e1, e2]; simp only [hnd.1.2, if_false, upd_same]; omega
    simp only [if_neg hc, hw]
    by_cases hv : s.visited w = false
    · refine ⟨_, _, f, _, by rw [if_pos hv]; rfl, h.discover hw hv (hn c w (List.mem_of_getElem? hw)).2, rfl, hleft _ rfl rfl, ?_⟩
      intro v hv'
      simp only [upd_apply]; split <;> simp_all
    · refine ⟨_, _, f, _, by rw [if_neg hv]; rfl, h.skip hw (by simpa using hv), rfl, hleft _ rfl rfl, fun _ hv => hv⟩

/-- The search from one root. -/
theorem VInv.goVisit (hn : ∀ a b, b ∈ out a → a < n ∧ b < n) : ∀ (k : Nat) (f : Nat → Nat) (G : List Nat) (s : Visit),
    VInv n out f G s → left n out s ≤ k →
    ∃ s' f', goVisit out k G.head? s = some s' ∧ VInv n out f' [] s' ∧ (∀ v, s.visited v = true → s'.visited v = true)
  | k, f, [], s, h, _ => ⟨s, f, by cases k <;> rfl, h, fun _ hv => hv⟩
  | k, f, c :: G, s, h, hk => by
    obtain ⟨cur, s', f', G', h1, h2, h3, h4, h5⟩ := h.step hn
    cases k with
    | zero => omega
    | succ k =>
      obtain ⟨s'', f'', g1, g2, g3⟩ := VInv.goVisit hn k f' G' s' h2 (by omega)
      refine ⟨s'', f'', ?_, g2, fun v hv => g3 v (h5 v hv)⟩
      simp only [Scc.goVisit, List.head?_cons, h1]
      rw [h3]; exact g1

theorem sum_mono {α} {f g : α → Nat} : ∀ {l : List α}, (∀ v ∈ l, f v ≤ g v) → (l.map f).sum ≤ (l.map g).sum
  | [], _ => by simp
  | a :: l, h => by
    have := sum_mono (f := f) (g := g) (l := l) fun v hv => h v (by simp [hv])
    have := h a (by simp)
    simp only [List.map_cons, List.sum_cons]; omega

theorem left_le (n : Nat) (out : Nat → List Nat) (s : Visit) : left n out s ≤ total n out + n := by
  have h1 : left n out s ≤ ((List.range n).map fun v => (out v).length + 1).sum :=
    sum_mono fun v _ => by split <;> omega
  have h2 : ∀ l : List Nat, (l.map fun v => (out v).length + 1).sum = (l.map fun v => (out v).length).sum + l.length := by
    intro l
    induction l with
    | nil => rfl
    | cons a l ih => simp only [List.map_cons, List.sum_cons, List.length_cons, ih]; omega
  rw [h2] at h1
  simpa [total] using h1

theorem VInv.root {f : Nat → Nat} {s : Visit} (h : VInv n out f [] s) {i : Nat} (hi : i < n) (hv : s.visited i = false) :
    VInv n out f [i] { s with visited := upd s.visited i true } := by
  have hnot : i ∉ s.stack := by intro hm; rw [(h.vis i).2 (Or.inr hm)] at hv; cases hv
  have hvis : ∀ x, s.visited x = true → upd s.visited i true x = true := by
    intro x hx; simp only [upd_apply]; split <;> simp_all
  constructor
  · have := h.nodup
    simp only [List.nil_append] at this
    simp [hnot, this]
  · intro v
    simp only [upd_apply]
    split
    · next e => simp [e]
    · next e => rw [h.vis v]; simp [e]
  · intro v
    simp only [upd_apply]
    split
    · next e => intro _; rw [e]; exact hi
    · exact h.lt v
  · exact ⟨h.root' i (by simp), trivial⟩
  · exact fun v _ => h.root' v (by simp)
  · simp
  · intro g _
    simp [h.zero g (by simp)]
  · exact fun v _ => h.zero v (by simp)
  · exact h.order
  · exact h.bound
  · intro u hu v hv'
    obtain ⟨h1, h2, _⟩ := h.done u hu v hv'
    refine ⟨hvis v h1, h2, ?_⟩
    intro hvG
    rw [List.mem_singleton.1 hvG] at h1
    rw [h1] at hv; cases hv

theorem visitFrom_spec (hn : ∀ a b, b ∈ out a → a < n ∧ b < n) {f : Nat → Nat} {s : Visit} (h : VInv n out f [] s) {i : Nat} (hi : i < n) :
    ∃ s' f', visitFrom out (total n out + n) s i = some s' ∧ VInv n out f' [] s' ∧
      (∀ v, s.visited v = true → s'.visited v = true) ∧ (out i ≠ [] → s'.visited i = true) := by
  unfold visitFrom
  by_cases hc : s.visited i = false ∧ 0 < (out i).length
  · obtain ⟨s', f', h1, h2, h3⟩ := VInv.goVisit hn _ f [i] _ (h.root hi hc.1) (left_le ..)
    refine ⟨s', f', by rw [if_pos hc]; exact h1, h2, fun v hv => h3 v ?_, fun _ => h3 i (by simp)⟩
    simp only [upd_apply]; split <;> simp_all
  · refine ⟨s, f, by rw [if_neg hc], h, fun _ hv => hv, fun ho => ?_⟩
    cases hv : s.visited i with
    | true => rfl
    | false => exact absurd ⟨hv, List.length_pos_iff.2 ho⟩ hc

theorem visitList_spec (hn : ∀ a b, b ∈ out a → a < n ∧ b < n) : ∀ (l : List Nat) (f : Nat → Nat) (s : Visit), VInv n out f [] s →
    (∀ i ∈ l, i < n) → ∃ s' f', l.foldlM (visitFrom out (total n out + n)) s = some s' ∧ VInv n out f' [] s' ∧
      (∀ v, s.visited v = true → s'.visited v = true) ∧ (∀ i ∈ l, out i ≠ [] → s'.visited i = true)
  | [], f, s, h, _ => ⟨s, f, rfl, h, fun _ hv => hv, by simp⟩
  | i :: l, f, s, h, hl => by
    obtain ⟨s1, f1, a1, a2, a3, a4⟩ := visitFrom_spec hn h (hl i (by simp))
    obtain ⟨s2, f2, b1, b2, b3, b4⟩ := visitList_spec hn l f1 s1 a2 fun j hj => hl j (by simp [hj])
    refine ⟨s2, f2, ?_, b2, fun v hv => b3 v (a3 v hv), ?_⟩
    · rw [List.foldlM_cons, a1]; exact b1
    · intro j hj ho
      rcases List.mem_cons.1 hj with rfl | hj
      · exact b3 j (a4 ho)
      · exact b4 j hj ho

/-- The order in which nodes are finished: all nodes occur, and an edge leads to a node that was finished earlier or to a node
from which all nodes that were finished between can be reached. -/
theorem visitAll_spec {inn : Nat → List Nat} (hg : Digraph n out inn) : ∃ (s : Visit) (f : Nat → Nat), visitAll n out (total n out + n) = some s ∧
    s.stack.Nodup ∧ (∀ v, v ∈ s.stack ↔ v < n) ∧ (s.stack.Pairwise fun a b => f b < f a) ∧
    ∀ u v, v ∈ out u → f v ≤ f u ∨ ∀ y < n, f u ≤ f y → f y ≤ f v → Reach out v y := by
  have h0 : VInv n out (fun _ => 0) [] ⟨fun _ => false, [], fun _ => none, fun _ => 0⟩ := by
    constructor <;> simp [Parents]
  obtain ⟨s, f, h1, h2, _, h4⟩ := visitList_spec hg.nodes (List.range n) _ _ h0 (by simp)
  have hall : ∀ v, v ∈ s.stack ↔ v < n := by
    intro v
    have hv := h2.vis v
    simp only [List.not_mem_nil, false_or] at hv
    refine ⟨fun h => h2.lt v (hv.2 h), fun h => hv.1 ?_⟩
    by_cases ho : out v = []
    · rcases hg.used v h with hu | hu
      · exact absurd ho hu
      · obtain ⟨a, ha⟩ := List.exists_mem_of_ne_nil _ hu
        have hva : v ∈ out a := by
          rw [← List.count_pos_iff, hg.edges, List.count_pos_iff]; exact ha
        have hane : out a ≠ [] := List.ne_nil_of_mem hva
        have haS : a ∈ s.stack := by
          simpa using (h2.vis a).1 (h4 a (by simpa using (hg.nodes a v hva).1) hane)
        exact (h2.done a haS v hva).1
    · exact h4 v (by simpa using h) ho
  refine ⟨s, f, h1, by simpa using h2.nodup, hall, h2.order, ?_⟩
  intro u v hv
  obtain ⟨hu, hvn⟩ := hg.nodes u v hv
  rcases (h2.done u ((hall u).2 hu) v hv).2.1 ((hall v).2 hvn) with h | h
  · exact Or.inl h
  · exact Or.inr fun y hy => h y ((hall y).2 hy)

end Candy.Scc
