import Verif.Proofs.ArraySearch

/-! Concrete vectors holding a state of the model of the search, for examples and witnesses. -/

namespace Candy

/-- Vectors that hold the trail `T`. -/
def trailOf (T : Trail) : ATrail :=
  ⟨T.nVars, (List.range T.nVars).map T.assigns,
    (List.range T.nVars).map fun v => (T.reason v, T.level v),
    T.stack ++ List.replicate (T.nVars - T.stack.length) ⟨0, false⟩, T.stack.length, T.lim, T.qhead,
    (List.range T.nVars).map T.decision, T.assumptions⟩

theorem trailOf_rep {T : Trail} (hs : T.stack.length ≤ T.nVars) : RepT (trailOf T) T := by
  refine ⟨rfl, by simp [trailOf], by simp [trailOf], by simp [trailOf]; omega, by simp [trailOf], ?_, ?_, ?_,
    rfl, by simp [trailOf], rfl, rfl, rfl⟩
  all_goals intro v hv; simp [trailOf, hv]

/-- Lists that hold the watch lists `W`. -/
def watchOf (n : Nat) (W : Lit → List Watcher) : List (List Watcher) :=
  (List.range (2 * n)).map fun i => W ⟨i / 2, i % 2 == 1⟩

theorem watchOf_rep (n : Nat) (W : Lit → List Watcher) : RepWt n (watchOf n W) W := by
  refine ⟨by simp [watchOf], fun p hp => ?_⟩
  have := Lit.index_lt hp
  unfold watchOf
  rw [List.getElem?_map, List.getElem?_range this]
  simp only [Option.map_some, Option.some.injEq]
  obtain ⟨v, s⟩ := p
  cases s
  · have e1 : 2 * v / 2 = v := by omega
    simp [Lit.index, e1]
  · have e1 : (2 * v + 1) / 2 = v := by omega
    have e2 : (2 * v + 1) % 2 = 1 := by omega
    simp [Lit.index, e1, e2]

/-- Vectors that hold the state `s`, with stamp arrays of one entry per variable. -/
def machOf (s : Solver) : AMach :=
  ⟨trailOf s.trail, (List.range s.db.next).map s.db.store, watchOf s.db.nVars s.db.bin,
    watchOf s.db.nVars s.watch, ⟨List.replicate s.db.nVars 0, 1⟩, ⟨List.replicate s.db.nVars 0, 1⟩⟩

theorem freshStamp_rep (n : Nat) : RepSt n ⟨List.replicate n 0, 1⟩ (fun _ => false) := by
  refine ⟨by simp, by simp, by simp [stampMax], ?_, ?_, by simp⟩
  · intro i x hx
    have := List.mem_of_getElem? hx
    simp at this; simp; omega
  · intro i x hx
    have := List.mem_of_getElem? hx
    simp at this; simp; omega

theorem machOf_rep {s : Solver} (h : s.trail.stack.length ≤ s.trail.nVars) : RepM (machOf s) s :=
  ⟨trailOf_rep h, ⟨by simp [machOf], fun c hc => by simp [machOf, hc]⟩, watchOf_rep _ _, watchOf_rep _ _,
    ⟨_, freshStamp_rep _⟩, ⟨_, freshStamp_rep _⟩⟩

end Candy
