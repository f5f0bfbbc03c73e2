import Verif.ResultLemmas
import Mathlib.Data.Nat.Digits.Lemmas

/-!
# Lemmas about the decoding of eigenstates
-/

namespace Verif

/-- The bits of a number as a point: entry `j` is bit `j`. -/
def bitsOf (n i : Nat) : List ℚ := (List.range n).map fun j => ((i / 2 ^ j % 2 : Nat) : ℚ)

theorem bitsOf_length (n i : Nat) : (bitsOf n i).length = n := by simp [bitsOf]

theorem pt_bitsOf {n i j : Nat} (h : j < n) : pt (bitsOf n i) j = ((i / 2 ^ j % 2 : Nat) : ℚ) := by
  simp [pt, bitsOf, List.getD_eq_getElem?_getD, h]

theorem bitsOf_inj {n i j : Nat} (hi : i < 2 ^ n) (hj : j < 2 ^ n) (h : bitsOf n i = bitsOf n j) : i = j := by
  apply Nat.eq_of_testBit_eq
  intro k
  by_cases hk : k < n
  · have h1 := pt_bitsOf (i := i) hk
    rw [h, pt_bitsOf hk] at h1
    have h2 : j / 2 ^ k % 2 = i / 2 ^ k % 2 := by exact_mod_cast h1
    rw [Nat.testBit_eq_decide_div_mod_eq, Nat.testBit_eq_decide_div_mod_eq, h2]
  · have hle : 2 ^ n ≤ 2 ^ k := Nat.pow_le_pow_right (by norm_num) (by omega)
    rw [Nat.testBit_lt_two_pow (by omega), Nat.testBit_lt_two_pow (by omega)]

/-- The character of a bit. -/
def bitChar (d : Nat) : Char := if d = 1 then '1' else '0'

theorem vectorKey_eq {n i : Nat} (hn : 0 < n) (hi : i < 2 ^ n) :
    vectorKey n i = (List.range n).map fun j => bitChar (i / 2 ^ j % 2) := by
  have hrev : vectorKey n i = (formatB i).reverse ++ List.replicate (n - (formatB i).length) '0' := by
    simp [vectorKey]
  rw [hrev]
  by_cases h0 : i = 0
  · subst h0
    obtain ⟨m, rfl⟩ : ∃ m, n = m + 1 := ⟨n - 1, by omega⟩
    simp only [formatB, if_true, List.reverse_singleton, List.length_singleton]
    apply List.ext_getElem?
    intro k
    simp [bitChar, List.getElem?_cons, List.getElem?_replicate]
    by_cases hk : k < m + 1
    · by_cases hk0 : k = 0
      · simp [hk0]
      · simp [hk0, hk, List.getElem?_range, show k - 1 < m by omega]
        omega
    · have : k ≠ 0 := by omega
      simp [this, hk, show ¬ k - 1 < m by omega, List.getElem?_eq_none_iff]
      omega
  · have hlen : (Nat.digits 2 i).length ≤ n := (Nat.digits_length_le_iff (by norm_num) i).mpr hi
    simp only [formatB, h0, if_false, List.reverse_reverse, List.length_reverse, List.length_map]
    apply List.ext_getElem
    · simp; omega
    intro k h1 h2
    have hk : k < n := by simpa using h2
    have hd := Nat.getD_digits i k (b := 2) (by norm_num)
    simp only [List.getElem_map, List.getElem_range, bitChar]
    rw [← hd]
    by_cases hkl : k < (Nat.digits 2 i).length
    · rw [List.getElem_append_left (by simpa using hkl)]
      simp [List.getD_eq_getElem?_getD, hkl]
    · rw [List.getElem_append_right (by simpa using hkl)]
      simp [List.getD_eq_getElem?_getD, List.getElem?_eq_none (Nat.le_of_not_lt hkl)]

theorem digitsOf_bits (l : List Nat) (hl : ∀ d ∈ l, d < 2) :
    digitsOf (l.map bitChar) = .ok (l.map fun d : Nat => (d : ℚ)) := by
  induction l with
  | nil => rfl
  | cons d l ih =>
    have h := ih fun e he => hl e (by simp [he])
    have hd := hl d (by simp)
    have hd' : d = 0 ∨ d = 1 := by omega
    simp only [List.map_cons, digitsOf, h]
    rcases hd' with rfl | rfl
    · simp [bitChar, Char.isDigit]
    · simp [bitChar, Char.isDigit]

theorem digitsOf_vectorKey {n i : Nat} (hn : 0 < n) (hi : i < 2 ^ n) :
    digitsOf (vectorKey n i) = .ok (bitsOf n i) := by
  rw [vectorKey_eq hn hi]
  have : (List.range n).map (fun j => bitChar (i / 2 ^ j % 2)) =
      ((List.range n).map fun j => i / 2 ^ j % 2).map bitChar := by simp
  rw [this, digitsOf_bits]
  · rw [List.map_map]; rfl
  · intro d hd
    obtain ⟨j, _, rfl⟩ := List.mem_map.mp hd
    exact Nat.mod_lt _ (by norm_num)

theorem generateSolution_ok {chars : List Char} {qubo : QP} {x : List ℚ} {pr : ℚ} (hd : digitsOf chars = .ok x)
    (h1 : x.length = qubo.objective.linear.n) (h2 : x.length = qubo.objective.quadratic.n) :
    generateSolution chars qubo pr = .ok ⟨x, qubo.objective.val (pt x), pr, .success⟩ := by
  simp only [generateSolution, hd, Objective.evaluate_ok h1 h2]

/-- The sample of basis state `i`. -/
def basisSample (qubo : QP) (n i : Nat) (pr : ℚ) : Sample :=
  ⟨bitsOf n i, qubo.objective.val (pt (bitsOf n i)), pr, .success⟩

theorem decodeVector_ok {qubo : QP} {thr : ℚ} {n : Nat} (hn : 0 < n) (h1 : qubo.objective.linear.n = n)
    (h2 : qubo.objective.quadratic.n = n) (v : List (ℚ × ℚ)) (k : Nat) (hk : k + v.length ≤ 2 ^ n) :
    decodeVector qubo thr n v k = .ok (((v.zipIdx k).filter fun q => thr ≤ ampProb q.1).map fun q =>
      basisSample qubo n q.2 (ampProb q.1)) := by
  induction v generalizing k with
  | nil => rfl
  | cons a v ih =>
    simp only [List.length_cons] at hk
    have hg : generateSolution (vectorKey n k) qubo (ampProb a) = .ok (basisSample qubo n k (ampProb a)) :=
      generateSolution_ok (digitsOf_vectorKey hn (by omega)) (by rw [bitsOf_length, h1]) (by rw [bitsOf_length, h2])
    simp only [decodeVector, hg, ih (k + 1) (by omega), List.zipIdx_cons, List.filter_cons]
    by_cases h : thr ≤ ampProb a <;> simp [h]

/-- A decoded key. -/
def keyPoint (s : String) : List ℚ := s.toList.map fun c => if c = '1' then 1 else 0

/-- A key that is a string of `n` bits. -/
def IsKey (n : Nat) (s : String) : Prop := s.toList.length = n ∧ ∀ c ∈ s.toList, c = '0' ∨ c = '1'

theorem digitsOf_key (l : List Char) (h : ∀ c ∈ l, c = '0' ∨ c = '1') :
    digitsOf l = .ok (l.map fun c => if c = '1' then 1 else 0) := by
  induction l with
  | nil => rfl
  | cons c l ih =>
    simp only [digitsOf, ih fun d hd => h d (by simp [hd]), List.map_cons]
    rcases h c (by simp) with rfl | rfl <;> simp [Char.isDigit]

theorem decodeCounts_ok {qubo : QP} {thr total : ℚ} {n : Nat} (h1 : qubo.objective.linear.n = n)
    (h2 : qubo.objective.quadratic.n = n) (ht : total ≠ 0) (d : List (String × ℚ)) (hd : ∀ q ∈ d, IsKey n q.1) :
    decodeCounts qubo thr total d = .ok ((d.filter fun q => thr ≤ q.2 / total).map fun q =>
      ⟨keyPoint q.1, qubo.objective.val (pt (keyPoint q.1)), q.2 / total, .success⟩) := by
  induction d with
  | nil => rfl
  | cons q d ih =>
    obtain ⟨s, c⟩ := q
    have hk := hd (s, c) (by simp)
    have hlen : (keyPoint s).length = n := by rw [keyPoint, List.length_map]; exact hk.1
    have hg : generateSolution s.toList qubo (c / total) =
        .ok ⟨keyPoint s, qubo.objective.val (pt (keyPoint s)), c / total, .success⟩ :=
      generateSolution_ok (digitsOf_key _ hk.2) (hlen.trans h1.symm) (hlen.trans h2.symm)
    simp only [decodeCounts, if_neg ht, hg, ih fun r hr => hd r (by simp [hr]), List.filter_cons]
    by_cases h : thr ≤ c / total <;> simp [h]

/-- `keyPoint` is injective on keys. -/
theorem keyPoint_inj {n : Nat} {s t : String} (hs : IsKey n s) (ht : IsKey n t) (h : keyPoint s = keyPoint t) :
    s = t := by
  have aux : ∀ l l' : List Char, (∀ c ∈ l, c = '0' ∨ c = '1') → (∀ c ∈ l', c = '0' ∨ c = '1') →
      (l.map fun c => if c = '1' then (1 : ℚ) else 0) = l'.map (fun c => if c = '1' then 1 else 0) → l = l' := by
    intro l
    induction l with
    | nil => intro l' _ _ h; cases l' <;> simp_all
    | cons c l ih =>
      intro l' hc hc' h
      cases l' with
      | nil => simp at h
      | cons c' l' =>
        simp only [List.map_cons, List.cons.injEq] at h
        have e := ih l' (fun d hd => hc d (by simp [hd])) (fun d hd => hc' d (by simp [hd])) h.2
        have e1 := h.1
        rcases hc c (by simp) with rfl | rfl <;> rcases hc' c' (by simp) with rfl | rfl <;> simp_all
  exact String.toList_inj.mp (aux _ _ hs.2 ht.2 h)

end Verif
