import Verif.GeometryLemmas
import Verif.PropsFiles
import Verif.PropsTsp
import Verif.PropsVehicle
import Mathlib.Tactic.NormNum

/-!
# C77: random instances; the graph of a TSPLIB file
-/

namespace Verif

/-- The nodes `0, …, n - 1` have the given positions, every two nodes are joined by exactly one edge, and its weight is a
non-negative integer that differs from the distance of the nodes by at most one half, and is even if it differs by one half. -/
def RoundedDistances (g : Graph) (n : Nat) (pos : Nat → ℚ × ℚ) : Prop :=
  g.n = n ∧ g.Simple ∧ ∀ i < n, ∀ j < n, i ≠ j → ∃ w : ℤ, g.Weighs i j w ∧ 0 ≤ w ∧
    |(w : ℝ) - Real.sqrt (((pos i).1 - (pos j).1 : ℚ) ^ 2 + ((pos i).2 - (pos j).2 : ℚ) ^ 2)| ≤ 1 / 2 ∧
    (|(w : ℝ) - Real.sqrt (((pos i).1 - (pos j).1 : ℚ) ^ 2 + ((pos i).2 - (pos j).2 : ℚ) ^ 2)| = 1 / 2 → 2 ∣ w)

theorem roundedDistances_geometric {n : Nat} {radius : ℝ} {pos : Nat → ℚ × ℚ}
    (h : ∀ i < n, ∀ j < n, hypot ((pos i).1 - (pos j).1) ((pos i).2 - (pos j).2) ≤ radius) :
    RoundedDistances (geometricGraph n radius pos) n pos := by
  rw [geometricGraph_eq h]
  refine ⟨rfl, completeEdges_simple _ _, fun i hi j hj hij => ?_⟩
  exact ⟨_, completeEdges_weighs (f := fun i j => (rint (hypot ((pos i).1 - (pos j).1) ((pos i).2 - (pos j).2)) : ℚ))
    (fun i j => by rw [dist_symm]) hi hj hij, rint_nonneg (hypot_nonneg _ _), rint_near _, rint_half _⟩

/-- The numbers drawn by `uniform` are between the two ends, in either order. -/
def UniformOK {σ : Type} (gen : Generator σ) : Prop := ∀ st low high i,
  (min low high ≤ (gen.uniform st low high i).1 ∧ (gen.uniform st low high i).1 ≤ max low high) ∧
  (min low high ≤ (gen.uniform st low high i).2 ∧ (gen.uniform st low high i).2 ≤ max low high)

/-- The numbers drawn by `randint` are between the two ends. -/
def RandintOK {σ : Type} (gen : Generator σ) : Prop := ∀ st low high k, low ≤ high →
  low ≤ gen.randint st low high k ∧ gen.randint st low high k ≤ high

/-- **C77.** Random instances of the traveling salesman problem: the nodes are in the square, every two nodes are joined,
and the weights are the rounded distances.  Hence the program exists, and its feasible points are the tours. -/
theorem C77_tsp {σ : Type} (gen : Generator σ) (hgen : UniformOK gen) (st : σ) (n : Nat) (low high : ℚ)
    (seed : Option ℤ) :
    (∃ pos : Nat → ℚ × ℚ, (∀ i, min low high ≤ (pos i).1 ∧ (pos i).1 ≤ max low high ∧ min low high ≤ (pos i).2 ∧
        (pos i).2 ≤ max low high) ∧ RoundedDistances (tspRandom gen st n low high seed) n pos) ∧
    ∃ p, tspProgram (tspRandom gen st n low high seed) = .ok p ∧ p.objective.sense = .minimize ∧
      ∀ x, p.Feas x ↔ ∃ z : List Nat, z.Perm (List.range n) ∧ TourPoint n z x := by
  have hr : ∃ pos : Nat → ℚ × ℚ, (∀ i, min low high ≤ (pos i).1 ∧ (pos i).1 ≤ max low high ∧ min low high ≤ (pos i).2 ∧
        (pos i).2 ≤ max low high) ∧ RoundedDistances (tspRandom gen st n low high seed) n pos := by
    unfold tspRandom
    generalize tspState gen st seed = st'
    have hb := hgen st' low high
    refine ⟨gen.uniform st' low high, fun i => ⟨(hb i).1.1, (hb i).1.2, (hb i).2.1, (hb i).2.2⟩,
      roundedDistances_geometric fun i _ j _ => ?_⟩
    have := hypot_mono (abs_sub_le_ends (hb i).1 (hb j).1) (abs_sub_le_ends (hb i).2 (hb j).2)
    linarith
  refine ⟨hr, ?_⟩
  obtain ⟨pos, _, hn, hs, hw⟩ := hr
  obtain ⟨p, h1, h2, _, h3⟩ := C49_feasible _ hs fun i hi j hj hij =>
    (hw i (hn ▸ hi) j (hn ▸ hj) hij).elim fun w hw => ⟨w, hw.1⟩
  rw [hn] at h3
  exact ⟨p, h1, h2, h3⟩

/-- **C77.** Random instances of the vehicle routing problem, likewise; the coordinates are integers. -/
theorem C77_vrp {σ : Type} (gen : Generator σ) (hgen : RandintOK gen) (fresh : σ) (n : Nat) {low high : ℤ}
    (hlh : low ≤ high) (seed : Option ℤ) (vehicles depot : Nat) (hd : depot < n) :
    ∃ g, vrpRandom gen fresh n low high seed = .ok g ∧
      (∃ pos : Nat → ℤ × ℤ, (∀ i, low ≤ (pos i).1 ∧ (pos i).1 ≤ high ∧ low ≤ (pos i).2 ∧ (pos i).2 ≤ high) ∧
        RoundedDistances g n fun i => ((pos i).1, (pos i).2)) ∧
      ∃ p, vrpProgram g vehicles depot = .ok p := by
  unfold vrpRandom
  generalize vrpState gen fresh seed = st
  have hb := fun k => hgen st low high k hlh
  rw [if_neg (by omega)]
  have hr : RoundedDistances (geometricGraph n (hypot (high - low) (high - low) + 1) fun i =>
      (gen.randint st low high (2 * i), gen.randint st low high (2 * i + 1))) n fun i =>
      (gen.randint st low high (2 * i), gen.randint st low high (2 * i + 1)) := by
    refine roundedDistances_geometric fun i _ j _ => ?_
    have hq : ∀ k, min (low : ℚ) high ≤ gen.randint st low high k ∧ (gen.randint st low high k : ℚ) ≤ max (low : ℚ) high := by
      intro k
      have h1 : (low : ℚ) ≤ gen.randint st low high k := by exact_mod_cast (hb k).1
      have h2 : (gen.randint st low high k : ℚ) ≤ high := by exact_mod_cast (hb k).2
      exact ⟨(min_le_left _ _).trans h1, h2.trans (le_max_right _ _)⟩
    have := hypot_mono (abs_sub_le_ends (hq (2 * i)) (hq (2 * j))) (abs_sub_le_ends (hq (2 * i + 1)) (hq (2 * j + 1)))
    simp only
    linarith
  refine ⟨_, rfl, ⟨fun i => (gen.randint st low high (2 * i), gen.randint st low high (2 * i + 1)), fun i =>
    ⟨(hb _).1, (hb _).2, (hb _).1, (hb _).2⟩, hr⟩, ?_⟩
  obtain ⟨hn, hs, hw⟩ := hr
  obtain ⟨p, hp, _⟩ := (C50_loads _ hs vehicles depot (by rw [hn]; omega)).1
    ⟨by rw [hn]; exact hd, fun i hi j hj hij => (hw i (hn ▸ hi) j (hn ▸ hj) hij).elim fun w hw => ⟨w, hw.1⟩⟩
  exact ⟨p, hp⟩

/-- **C77.** An empty range of coordinates is rejected. -/
theorem C77_vrp_rejects {σ : Type} (gen : Generator σ) (fresh : σ) {n : Nat} (hn : 0 < n) {low high : ℤ} (h : high < low)
    (seed : Option ℤ) : vrpRandom gen fresh n low high seed = .error .valueError := by
  unfold vrpRandom
  exact if_pos ⟨hn, h⟩

/-- **C77.** A random instance of the vehicle routing problem with a seed is determined by the arguments. -/
theorem C77_vrp_seed {σ : Type} (gen : Generator σ) (st st' : σ) (n : Nat) (low high : ℤ) (seed : ℤ) :
    vrpRandom gen st n low high (some seed) = vrpRandom gen st' n low high (some seed) := rfl

/-- **C77, partial.**  Full statement: a random instance of the traveling salesman problem with a seed is determined by the
arguments.  Proved: for all seeds but 0.  Missing: the seed 0 (false, see `C77_violated`). -/
theorem C77_tsp_seed_partial {σ : Type} (gen : Generator σ) (st st' : σ) (n : Nat) (low high : ℚ) {seed : ℤ}
    (hs : seed ≠ 0) : tspRandom gen st n low high (some seed) = tspRandom gen st' n low high (some seed) := by
  unfold tspRandom tspState
  simp only [if_pos hs]

/-- A generator the state of which is a number `s`; node 0 is at the lower end, node 1 is drawn from the state, at a distance
of at most `high - low`. -/
def sampleGenerator : Generator ℕ where
  seeded := fun s => s.natAbs
  uniform := fun s low high i => if i = 0 then (low, low) else if s = 0 then (low, low) else (high, low)
  randint := fun s low high k => if k = s then high else low

example : UniformOK sampleGenerator ∧ RandintOK sampleGenerator := by
  constructor
  · intro st low high i
    unfold sampleGenerator
    simp only
    split_ifs <;> simp
  · intro st low high k h
    unfold sampleGenerator
    simp only
    split_ifs
    · exact ⟨h, le_refl _⟩
    · exact ⟨le_refl _, h⟩

theorem rint_intCast (k : ℤ) : rint (k : ℝ) = k := by
  unfold rint
  simp

/-- **C77 is violated by the seed 0** of `Tsp.create_random_instance`: the seed is ignored and the instance depends on the
state that earlier calls have left. -/
theorem C77_violated : UniformOK sampleGenerator ∧
    tspRandom sampleGenerator 0 2 0 100 (some 0) ≠ tspRandom sampleGenerator 1 2 0 100 (some 0) := by
  refine ⟨?_, ?_⟩
  · intro st low high i
    unfold sampleGenerator
    simp only
    split_ifs <;> simp
  · have hu : UniformOK sampleGenerator := by
      intro st low high i
      unfold sampleGenerator
      simp only
      split_ifs <;> simp
    have key : ∀ st : ℕ, st = 0 ∨ st = 1 →
        tspRandom sampleGenerator st 2 0 100 (some 0) = ⟨2, [(0, 1, some (if st = 0 then 0 else 100))]⟩ := by
      intro st hst
      unfold tspRandom tspState
      simp only [ne_eq, not_true_eq_false, if_false]
      rw [geometricGraph_eq]
      · have h100 : rint 100 = 100 := rint_intCast 100
        have h0 : rint 0 = 0 := by simpa using rint_intCast 0
        rcases hst with rfl | rfl
        · simp [sampleGenerator, List.range_succ, hypot, h0]
        · simp [sampleGenerator, List.range_succ, hypot, Real.sqrt_sq_eq_abs, h100]
      · intro i _ j _
        have hb := hu st 0 100
        have := hypot_mono (abs_sub_le_ends (hb i).1 (hb j).1) (abs_sub_le_ends (hb i).2 (hb j).2)
        linarith
    rw [key 0 (Or.inl rfl), key 1 (Or.inr rfl)]
    simp

/-- **C51.** The radius that `parse_tsplib_format` passes to networkx exceeds all distances: the geometric graph is the
graph of `parseTsplib`. -/
theorem C51_radius (cv : Conversions) (lines : List (List Char)) :
    parseTsplib cv (fun d => (rint (hypot d.1 d.2) : ℚ)) lines =
      match tspLines cv lines ⟨[], false⟩ with
      | .error e => .error e
      | .ok st => if st.coord = [] then .error .valueError else .ok (tsplibGraph st.coord) := by
  unfold parseTsplib
  cases tspLines cv lines ⟨[], false⟩ with
  | error e => rfl
  | ok st =>
    simp only
    split_ifs with h
    · rfl
    · unfold tsplibGraph
      rw [geometricGraph_eq]
      intro i hi j hj
      have hm : ∀ k < st.coord.length, st.coord.getD k (0, 0) ∈ st.coord := fun k hk => by
        have : st.coord.getD k (0, 0) = st.coord[k] := by simp [hk]
        rw [this]
        exact List.getElem_mem _
      have hb : ∀ (l : List ℚ) (a b : ℚ), a ∈ l → b ∈ l → |a - b| ≤ |maxOf l - minOf l| := fun l a b ha hb => by
        have := (minOf_le ha).trans (le_maxOf ha)
        refine abs_sub_le_ends (low := minOf l) (high := maxOf l) ?_ ?_
        · rw [min_eq_left this, max_eq_right this]; exact ⟨minOf_le ha, le_maxOf ha⟩
        · rw [min_eq_left this, max_eq_right this]; exact ⟨minOf_le hb, le_maxOf hb⟩
      have := hypot_mono
        (hb _ _ _ (List.mem_map_of_mem (f := Prod.fst) (hm i hi)) (List.mem_map_of_mem (f := Prod.fst) (hm j hj)))
        (hb _ _ _ (List.mem_map_of_mem (f := Prod.snd) (hm i hi)) (List.mem_map_of_mem (f := Prod.snd) (hm j hj)))
      linarith

/-- **C51.** Every instance that is read from a file has a program, and its feasible points are the tours. -/
theorem C51_program {cv : Conversions} {dist : ℚ × ℚ → ℚ} (hdist : ∀ a b, dist (-a, -b) = dist (a, b))
    {lines : List (List Char)} {g : Graph} (h : parseTsplib cv dist lines = .ok g) :
    0 < g.n ∧ ∃ p, tspProgram g = .ok p ∧ p.objective.sense = .minimize ∧
      ∀ x, p.Feas x ↔ ∃ z : List Nat, z.Perm (List.range g.n) ∧ TourPoint g.n z x := by
  unfold parseTsplib at h
  cases hl : tspLines cv lines ⟨[], false⟩ with
  | error e => rw [hl] at h; simp at h
  | ok st =>
    rw [hl] at h
    simp only at h
    split_ifs at h with hc
    simp only [Except.ok.injEq] at h
    subst h
    refine ⟨List.length_pos_iff.mpr hc, ?_⟩
    obtain ⟨p, h1, h2, _, h3⟩ := C49_feasible _ (completeEdges_simple _ _) fun i hi j hj hij =>
      ⟨_, completeEdges_weighs (f := fun i j => dist ((st.coord.getD i (0, 0)).1 - (st.coord.getD j (0, 0)).1,
            (st.coord.getD i (0, 0)).2 - (st.coord.getD j (0, 0)).2))
        (fun i j => by rw [← hdist, neg_sub, neg_sub]) hi hj hij⟩
    exact ⟨p, h1, h2, h3⟩

end Verif
