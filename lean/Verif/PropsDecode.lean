import Verif.DecodeLemmas
import Verif.PropsProgram

/-!
# Decoding of eigenstates: C27
-/

namespace Verif

/-- **C27** (state vector): for a state of `n` qubits the samples are, without repetition, exactly the basis states
with probability at least the threshold; entry `j` of the point is bit `j` of the number of the basis state. -/
theorem C27_vector (qubo : QP) (n : Nat) (hn : 0 < n) (h1 : qubo.objective.linear.n = n)
    (h2 : qubo.objective.quadratic.n = n) (thr : ℚ) (v : List (ℚ × ℚ)) (hv : v.length = 2 ^ n) :
    ∃ samples, eigenToSolutions (.vector v) qubo thr = .ok samples ∧ (samples.map Sample.x).Nodup ∧
      ∀ s, s ∈ samples ↔ ∃ i a, v[i]? = some a ∧ thr ≤ a.1 ^ 2 + a.2 ^ 2 ∧ s.x.length = n ∧
        (∀ j < n, pt s.x j = ((i / 2 ^ j % 2 : Nat) : ℚ)) ∧ s.fval = qubo.objective.val (pt s.x) ∧
        s.probability = a.1 ^ 2 + a.2 ^ 2 ∧ s.status = .success := by
  have hne : v ≠ [] := by
    rintro rfl
    have := Nat.two_pow_pos n
    simp only [List.length_nil] at hv
    omega
  have hlog : Nat.log2 v.length = n := by rw [hv, Nat.log2_two_pow]
  refine ⟨(v.zipIdx.filter fun q => thr ≤ ampProb q.1).map fun q => basisSample qubo n q.2 (ampProb q.1), ?_, ?_, ?_⟩
  · simp only [eigenToSolutions, hne, if_false, hlog]
    exact decodeVector_ok hn h1 h2 v 0 (by omega)
  · rw [List.map_map]
    have hnd : ((v.zipIdx.filter fun q => thr ≤ ampProb q.1).map Prod.snd).Nodup := by
      refine List.Nodup.sublist (List.filter_sublist.map Prod.snd) ?_
      rw [List.zipIdx_map_snd]
      exact List.nodup_range'
    have : (v.zipIdx.filter fun q => thr ≤ ampProb q.1).map (Sample.x ∘ fun q => basisSample qubo n q.2 (ampProb q.1)) =
        ((v.zipIdx.filter fun q => thr ≤ ampProb q.1).map Prod.snd).map (bitsOf n) := by
      rw [List.map_map]; rfl
    rw [this]
    refine List.Nodup.map_on ?_ hnd
    intro i hi j hj hij
    have hb : ∀ i, i ∈ (v.zipIdx.filter fun q => thr ≤ ampProb q.1).map Prod.snd → i < 2 ^ n := by
      intro i hi
      obtain ⟨⟨a, i'⟩, hq, rfl⟩ := List.mem_map.mp hi
      have := List.mem_zipIdx (List.mem_filter.mp hq).1
      omega
    exact bitsOf_inj (hb i hi) (hb j hj) hij
  · intro s
    simp only [List.mem_map, List.mem_filter, decide_eq_true_eq]
    constructor
    · rintro ⟨⟨a, i⟩, ⟨hm, ht⟩, rfl⟩
      have := List.mem_zipIdx' hm
      refine ⟨i, a, by rw [List.getElem?_eq_getElem this.1]; simp [this.2], ht, bitsOf_length n i,
        fun j hj => pt_bitsOf hj, rfl, rfl, rfl⟩
    · rintro ⟨i, a, hi, ht, hl, hb, hf, hp, hs⟩
      refine ⟨(a, i), ⟨?_, ht⟩, ?_⟩
      · rw [List.mem_zipIdx_iff_getElem?]; exact hi
      · have hx : s.x = bitsOf n i := by
          apply List.ext_getElem (hl.trans (bitsOf_length n i).symm)
          intro j g1 g2
          have hj : j < n := by omega
          have e1 := hb j hj
          rw [← pt_bitsOf hj] at e1
          simpa [pt, List.getD_eq_getElem?_getD, g1, g2] using e1
        obtain ⟨x, f, pr, st⟩ := s
        simp only at hx hf hp hs
        subst hx hp hs hf
        rfl

/-- **C27** (counts): for a dictionary of bit strings the samples are exactly the strings with relative frequency at
least the threshold, each once; entry `j` of the point is the character at position `j`. -/
theorem C27_counts (qubo : QP) (n : Nat) (h1 : qubo.objective.linear.n = n)
    (h2 : qubo.objective.quadratic.n = n) (thr : ℚ) (d : List (String × ℚ)) (hk : (d.map Prod.fst).Nodup)
    (hd : ∀ q ∈ d, q.1.toList.length = n ∧ ∀ c ∈ q.1.toList, c = '0' ∨ c = '1')
    (ht : (d.map Prod.snd).sum ≠ 0) :
    ∃ samples, eigenToSolutions (.counts d) qubo thr = .ok samples ∧ (samples.map Sample.x).Nodup ∧
      ∀ s, s ∈ samples ↔ ∃ q ∈ d, thr ≤ q.2 / (d.map Prod.snd).sum ∧
        s.x = q.1.toList.map (fun c => if c = '1' then 1 else 0) ∧ s.fval = qubo.objective.val (pt s.x) ∧
        s.probability = q.2 / (d.map Prod.snd).sum ∧ s.status = .success := by
  refine ⟨_, by simp only [eigenToSolutions]; exact decodeCounts_ok h1 h2 ht d hd, ?_, ?_⟩
  · rw [List.map_map]
    have : ∀ (l : List (String × ℚ)) (f : String × ℚ → Bool),
        (l.filter f).map (Sample.x ∘ fun q => ⟨keyPoint q.1, qubo.objective.val (pt (keyPoint q.1)),
          q.2 / (d.map Prod.snd).sum, .success⟩) = ((l.filter f).map Prod.fst).map keyPoint := by
      intro l f; rw [List.map_map]; rfl
    rw [this]
    refine List.Nodup.map_on ?_ (hk.sublist (List.filter_sublist.map Prod.fst))
    intro s hs t ht' h
    obtain ⟨q, hq, rfl⟩ := List.mem_map.mp hs
    obtain ⟨r, hr, rfl⟩ := List.mem_map.mp ht'
    exact keyPoint_inj (hd q (List.mem_filter.mp hq).1) (hd r (List.mem_filter.mp hr).1) h
  · intro s
    simp only [List.mem_map, List.mem_filter, decide_eq_true_eq]
    constructor
    · rintro ⟨q, ⟨hm, hq⟩, rfl⟩
      exact ⟨q, hm, hq, rfl, rfl, rfl, rfl⟩
    · rintro ⟨q, hm, hq, hx, hf, hp, hs⟩
      refine ⟨q, ⟨hm, hq⟩, ?_⟩
      obtain ⟨x, f, pr, st⟩ := s
      simp only at hx hf hp hs
      subst hx hp hs hf
      rfl

/-- **C27** (agreement, keys in qubit order): a state vector and the dictionary with its probabilities, scaled by any
positive number of shots, where position `j` of a key is the bit of qubit `j`, are decoded to the same samples. -/
theorem C27_agree (qubo : QP) (n : Nat) (hn : 0 < n) (h1 : qubo.objective.linear.n = n)
    (h2 : qubo.objective.quadratic.n = n) (thr shots : ℚ) (hsh : 0 < shots) (v : List (ℚ × ℚ)) (hv : v.length = 2 ^ n)
    (hnorm : (v.map ampProb).sum = 1) (key : Nat → String)
    (hkey : ∀ i < 2 ^ n, (key i).toList = (List.range n).map fun j => if i / 2 ^ j % 2 = 1 then '1' else '0') :
    eigenToSolutions (.counts (v.zipIdx.map fun q => (key q.2, shots * ampProb q.1))) qubo thr =
      eigenToSolutions (.vector v) qubo thr := by
  have hne : v ≠ [] := by
    rintro rfl
    have := Nat.two_pow_pos n
    simp only [List.length_nil] at hv
    omega
  have hlog : Nat.log2 v.length = n := by rw [hv, Nat.log2_two_pow]
  have hsum : ((v.zipIdx.map fun q => (key q.2, shots * ampProb q.1)).map Prod.snd).sum = shots := by
    rw [List.map_map]
    have : (v.zipIdx.map (Prod.snd ∘ fun q => (key q.2, shots * ampProb q.1))) =
        (v.map ampProb).map (fun p => shots * p) := by
      have e : v.map ampProb = (v.zipIdx.map Prod.fst).map ampProb := by rw [List.zipIdx_map_fst]
      rw [e, List.map_map, List.map_map]
      rfl
    rw [this, List.sum_map_mul_left, List.map_id', hnorm, mul_one]
  have hb : ∀ i < 2 ^ n, keyPoint (key i) = bitsOf n i := by
    intro i hi
    rw [keyPoint, hkey i hi, bitsOf, List.map_map]
    apply List.map_congr_left
    intro j _
    have : i / 2 ^ j % 2 = 0 ∨ i / 2 ^ j % 2 = 1 := by omega
    rcases this with h | h <;> simp [h]
  have hd : ∀ q ∈ v.zipIdx.map (fun q => (key q.2, shots * ampProb q.1)), IsKey n q.1 := by
    intro q hq
    obtain ⟨⟨a, i⟩, hm, rfl⟩ := List.mem_map.mp hq
    have hi : i < 2 ^ n := by have := List.mem_zipIdx hm; omega
    refine ⟨by simp [hkey i hi], ?_⟩
    intro c hc
    rw [hkey i hi] at hc
    obtain ⟨j, _, rfl⟩ := List.mem_map.mp hc
    split <;> simp
  have hlt : ∀ q ∈ v.zipIdx, q.2 < 2 ^ n := by
    rintro ⟨a, i⟩ hm
    have := List.mem_zipIdx hm
    omega
  simp only [eigenToSolutions, hne, if_false, hlog, hsum]
  rw [decodeCounts_ok h1 h2 hsh.ne' _ hd, decodeVector_ok hn h1 h2 v 0 (by omega)]
  congr 1
  rw [List.filter_map, List.map_map]
  have hc : ∀ q : (ℚ × ℚ) × Nat, shots * ampProb q.1 / shots = ampProb q.1 := by
    intro q; exact mul_div_cancel_left₀ _ hsh.ne'
  have hf : ((fun q : String × ℚ => decide (thr ≤ q.2 / shots)) ∘ fun q : (ℚ × ℚ) × Nat => (key q.2, shots * ampProb q.1))
      = fun q => decide (thr ≤ ampProb q.1) := by
    funext q; simp only [Function.comp_apply, hc]
  rw [hf]
  apply List.map_congr_left
  intro q hq
  have := hb q.2 (hlt q (List.mem_filter.mp hq).1)
  simp only [Function.comp_apply, hc, this, basisSample]

/-- **C27** (dictionary state functions with real amplitudes): decoded like the dictionary of the squares. -/
theorem C27_dictFn (qubo : QP) (thr : ℚ) (d : List (String × ℚ)) :
    eigenToSolutions (.dictFn (d.map fun q => (q.1, .real q.2))) qubo thr =
      eigenToSolutions (.counts (d.map fun q => (q.1, q.2 ^ 2))) qubo thr := by
  have : squareAmps (d.map fun q => (q.1, .real q.2)) = .ok (d.map fun q => (q.1, q.2 ^ 2)) := by
    induction d with
    | nil => rfl
    | cons q d ih => simp only [List.map_cons, squareAmps, ih]
  simp only [eigenToSolutions, this]

/-- Two binary variables, `minimize b0`. -/
def twoBitQP : QP :=
  (runCalls (QP.empty "") [.addVar 0 1 .binary (some "b0"), .addVar 0 1 .binary (some "b1"),
    .objective .minimize 0 (.dict [(.name "b0", 1)]) (.dict [])]).2

/-- **C27 fails** for the keys that Qiskit uses (qubit 0 is the last character, as `sample_most_likely` assumes): the
basis state with qubit 0 equal to one is decoded from the state vector as `(1, 0)` with value 1, but from the counts
`{"01": 1}` as `(0, 1)` with value 0. -/
theorem C27_violated :
    eigenToSolutions (.vector [(0, 0), (1, 0), (0, 0), (0, 0)]) twoBitQP (1 / 10 ^ 6) =
      .ok [⟨[1, 0], 1, 1, .success⟩] ∧
    eigenToSolutions (.counts [("01", 1)]) twoBitQP (1 / 10 ^ 6) = .ok [⟨[0, 1], 0, 1, .success⟩] := by
  decide +kernel

/-- **C27 fails** for dictionary state functions with a complex amplitude: the square of the amplitude is taken instead
of its squared absolute value, and the comparison of a complex number raises an exception. -/
theorem C27_violated_complex :
    eigenToSolutions (.vector [(0, 0), (0, 1), (0, 0), (0, 0)]) twoBitQP (1 / 10 ^ 6) =
      .ok [⟨[1, 0], 1, 1, .success⟩] ∧
    eigenToSolutions (.dictFn [("10", .complex 0 1)]) twoBitQP (1 / 10 ^ 6) = .error .typeError := by
  decide +kernel

example : twoBitQP.objective.linear.n = 2 ∧ twoBitQP.objective.quadratic.n = 2 ∧
    eigenToSolutions (.vector [(3 / 5, 0), (0, 0), (0, 0), (0, 4 / 5)]) twoBitQP (1 / 2) =
      .ok [⟨[1, 1], 1, 16 / 25, .success⟩] ∧
    eigenToSolutions (.counts [("11", 640), ("00", 360)]) twoBitQP (1 / 10) =
      .ok [⟨[1, 1], 1, 16 / 25, .success⟩, ⟨[0, 0], 0, 9 / 25, .success⟩] ∧
    ([((3 / 5 : ℚ), (0 : ℚ)), (0, 0), (0, 0), (0, 4 / 5)].map ampProb).sum = 1 := by decide +kernel

end Verif
