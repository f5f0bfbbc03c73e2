import Verif.QuboSize
import Verif.PropsIsing
import Verif.PropsQubo
import Mathlib.Data.Fintype.Pi
import Mathlib.Data.Fintype.Card
import Mathlib.Data.Int.Interval
import Mathlib.Data.Fintype.BigOperators

/-!
# The number of qubits (C83)
-/

namespace Verif

/-- **C83** (size): the QUBO has one variable per binary variable, and for every integer variable and every inequality the
least number of bits for its range or its largest slack.  `R` gives the largest slacks; equations have none.  The operator
of `to_ising` has as many qubits. -/
theorem C83_size {p : QP} (hs : p.WF) (hv : ∀ v ∈ p.vars, (∃ z : Int, v.lb = z) ∧ ∃ z : Int, v.ub = z)
    {penalty : Option ℚ} {st : QuboState} (h : p.toQubo penalty = .ok st) (R : LinCst → ℚ)
    (hR : ∀ c ∈ p.lins, c.MaxSlack p (R c)) :
    st.dst.numVars = (p.vars.map Variable.bits).sum + (p.lins.map fun c => bitsFor (R c)).sum ∧
      ∀ op offset, st.dst.toIsing = .ok (op, offset) → op.numQubits = st.dst.numVars := by
  obtain ⟨⟨_, hq, _⟩, _, h1, h2, h3⟩ := toQubo_stages h
  have hf1 := ineqToEq_facts hs h1
  have hf2 := intToBin_facts hf1.starts.wf h2
  have hf3 := toPenalty_facts hf2.wf h3
  refine ⟨?_, fun op offset hop => ?_⟩
  · rw [← ineqToEq_bits hs hq h1 R hR, ← intToBin_bits hf1.starts.wf (hf1.ints rfl hq hv) h2, QP.numVars, hf3.vars,
      List.length_map]
    rfl
  · obtain ⟨_, _, _, st', terms, _, _, e3⟩ := toIsing_ok hop
    split at e3 <;> (rw [e3])

/-- **C83** (least number of bits): `bitsFor r` bits can be mapped onto the integers from 0 to `r`, and no smaller number of
bits can. -/
theorem C83_least (r : ℚ) (k : Nat) :
    bitsFor r ≤ k ↔ ∃ f : (Fin k → Bool) → Int, ∀ z : Int, 0 ≤ z → (z : ℚ) ≤ r → ∃ b, f b = z := by
  rw [bitsFor, Nat.clog_le_iff_le_pow (by norm_num)]
  have hfl : ∀ z : Int, (z : ℚ) ≤ r ↔ z ≤ r.floor := fun z => Rat.le_floor_iff.symm
  simp only [hfl]
  generalize r.floor = m
  have hcard : Fintype.card (Fin k → Bool) = 2 ^ k := by
    rw [Fintype.card_fun]
    simp
  constructor
  · intro hle
    obtain ⟨e⟩ : Nonempty ((Fin k → Bool) ≃ Fin (2 ^ k)) := ⟨Fintype.equivFinOfCardEq hcard⟩
    refine ⟨fun b => ((e b : Nat) : Int), fun z h0 hz => ⟨e.symm ⟨z.toNat, by omega⟩, ?_⟩⟩
    simp [h0]
  · rintro ⟨f, hf⟩
    by_contra hcon
    have hm : 0 ≤ m := by
      by_contra hneg
      have := Nat.one_le_two_pow (n := k)
      omega
    have hsub : Finset.Icc 0 m ⊆ Finset.univ.image f := by
      intro z hz
      rw [Finset.mem_Icc] at hz
      obtain ⟨b, hb⟩ := hf z hz.1 hz.2
      exact Finset.mem_image.mpr ⟨b, Finset.mem_univ _, hb⟩
    have := (Finset.card_le_card hsub).trans Finset.card_image_le
    rw [Finset.card_univ, hcard, Int.card_Icc] at this
    omega

/-- The conditions hold for `fullQP`: 1 + 2 + 2 bits for the variables, 2 bits for the slack of `2 b + x <= 3`. -/
example : (∀ v ∈ fullQP.vars, (∃ z : Int, v.lb = z) ∧ ∃ z : Int, v.ub = z) ∧
    (∀ c ∈ fullQP.lins, c.MaxSlack fullQP (if c.sense = .le then 3 else 0)) ∧
    fullQP.toQubo none = .ok (fullState none) ∧ (fullState none).dst.numVars = 7 ∧
    (fullQP.vars.map Variable.bits) = [1, 2, 2] := by
  have hvars : fullQP.vars = [⟨"b", 0, 1, .binary⟩, ⟨"x", 0, 3, .integer⟩, ⟨"y", -1, 1, .integer⟩] := by decide +kernel
  have hlins : fullQP.lins = [⟨"c", ⟨3, [(0, 2), (1, 1)]⟩, .le, 3⟩, ⟨"e", ⟨3, [(1, 1), (2, -1)]⟩, .eq, 1⟩] := by decide +kernel
  refine ⟨?_, ?_, by decide +kernel, by decide +kernel, by decide +kernel⟩
  · rw [hvars]
    simp only [List.mem_cons, List.not_mem_nil, or_false, forall_eq_or_imp, forall_eq]
    exact ⟨⟨⟨0, by norm_num⟩, ⟨1, by norm_num⟩⟩, ⟨⟨0, by norm_num⟩, ⟨3, by norm_num⟩⟩, ⟨⟨-1, by norm_num⟩, ⟨1, by norm_num⟩⟩⟩
  · rw [hlins]
    simp only [List.mem_cons, List.not_mem_nil, or_false, forall_eq_or_imp, forall_eq, LinCst.MaxSlack]
    refine ⟨⟨0, ⟨⟨fun _ => 0, ?_, ?_⟩, ?_⟩, ?_⟩, ?_⟩
    · intro i v hv
      rw [hvars] at hv
      match i, hv with
      | 0, hv => simp at hv; subst hv; norm_num
      | 1, hv => simp at hv; subst hv; norm_num
      | 2, hv => simp at hv; subst hv; norm_num
    · simp [LinExpr.val, Dict.sum]
    · rintro v ⟨x, hx, rfl⟩
      have h0 := hx 0 ⟨"b", 0, 1, .binary⟩ (by rw [hvars]; rfl)
      have h1 := hx 1 ⟨"x", 0, 3, .integer⟩ (by rw [hvars]; rfl)
      simp only at h0 h1
      simp only [LinExpr.val, Dict.sum, List.map_cons, List.map_nil, List.sum_cons, List.sum_nil]
      linarith
    · simp only [sub_zero]
      decide +kernel
    · simp

/-- A constraint that always holds, `a + b <= 10`, adds four variables. -/
example : ((runCalls (QP.empty "") [.addVar 0 1 .binary (some "a"), .addVar 0 1 .binary (some "b"),
    .linear (.dict [(.name "a", 1), (.name "b", 1)]) (.str "<=") 10 none]).2.toQubo none).toOption.map
      (fun st => st.dst.numVars) = some 6 := by decide +kernel

end Verif
