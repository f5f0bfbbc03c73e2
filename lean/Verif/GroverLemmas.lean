import Verif.Grover
import Verif.DecodeLemmas
import Verif.BuildLemmas
import Mathlib.Tactic.Ring
import Mathlib.Tactic.Linarith

/-!
# Lemmas about the Grover optimizer
-/

namespace Verif

/-- The binary representation of `k` with `n` digits, most significant digit first. -/
def bitString : Nat → Nat → List Char
  | 0, _ => []
  | n + 1, k => bitString n (k / 2) ++ [if k % 2 = 1 then '1' else '0']

/-- The two's complement representation of an integer with `n` digits. -/
def twosComplement (n : Nat) (z : Int) : List Char := bitString n (z % 2 ^ n).toNat

/-- The point a key stands for: variable 0 is the most significant digit. -/
def keyPt (n k : Nat) : List ℚ := (bitString n k).map fun c => if c = '1' then 1 else 0

theorem bitString_length (n k : Nat) : (bitString n k).length = n := by
  induction n generalizing k with
  | zero => rfl
  | succ n ih => simp [bitString, ih]

theorem bitString_bits (n k : Nat) : ∀ c ∈ bitString n k, c = '0' ∨ c = '1' := by
  induction n generalizing k with
  | zero => simp [bitString]
  | succ n ih =>
    intro c hc
    simp only [bitString, List.mem_append, List.mem_singleton] at hc
    rcases hc with hc | rfl
    · exact ih _ c hc
    · by_cases h : k % 2 = 1 <;> simp [h]

theorem bitString_fold (n k : Nat) (hk : k < 2 ^ n) :
    (bitString n k).foldl (fun acc c => 2 * acc + if c = '1' then 1 else 0) 0 = k := by
  induction n generalizing k with
  | zero => simp at hk; simp [bitString, hk]
  | succ n ih =>
    rw [bitString, List.foldl_append, ih (k / 2) (by rw [pow_succ] at hk; omega)]
    simp only [List.foldl_cons, List.foldl_nil]
    by_cases h : k % 2 = 1
    · simp only [h, if_true]; omega
    · simp only [h, if_false]
      rw [if_neg (by decide)]; omega

theorem intBase2_bitString {n k : Nat} (hn : 0 < n) (hk : k < 2 ^ n) : intBase2 (bitString n k) = .ok k := by
  have hne : bitString n k ≠ [] := by
    intro h
    have := bitString_length n k
    rw [h] at this; simp at this; omega
  have hall : (bitString n k).all (fun c => c = '0' || c = '1') = true := by
    rw [List.all_eq_true]
    intro c hc
    rcases bitString_bits n k c hc with rfl | rfl <;> decide
  simp only [intBase2, if_neg hne, hall, if_true, bitString_fold n k hk]

theorem bitString_head (n k : Nat) (hk : k < 2 ^ (n + 1)) :
    (bitString (n + 1) k).head? = some '1' ↔ 2 ^ n ≤ k := by
  induction n generalizing k with
  | zero =>
    simp only [zero_add, pow_one] at hk
    have : k = 0 ∨ k = 1 := by omega
    rcases this with rfl | rfl <;> simp [bitString]
  | succ n ih =>
    rw [bitString]
    have hne : bitString (n + 1) (k / 2) ≠ [] := by
      intro h
      have := bitString_length (n + 1) (k / 2)
      rw [h] at this; simp at this
    rw [List.head?_append_of_ne_nil _ hne, ih (k / 2) (by rw [pow_succ] at hk; omega), pow_succ]
    omega

theorem binToInt_twos {n : Nat} {z : Int} (hn : 0 < n) (h1 : -2 ^ (n - 1) ≤ z) (h2 : z < 2 ^ (n - 1)) :
    binToInt (twosComplement n z) n = .ok z := by
  obtain ⟨m, rfl⟩ : ∃ m, n = m + 1 := ⟨n - 1, by omega⟩
  simp only [Nat.add_sub_cancel] at h1 h2
  have hp : (2 : Int) ^ (m + 1) = 2 * 2 ^ m := by ring
  have hpos : (0 : Int) < 2 ^ m := by positivity
  have hcast : ((2 ^ (m + 1) : Nat) : Int) = 2 * 2 ^ m := by push_cast; ring
  have hcast' : ((2 ^ m : Nat) : Int) = 2 ^ m := by push_cast; ring
  unfold twosComplement
  generalize hk : (z % 2 ^ (m + 1)).toNat = k
  have hkv : (k : Int) = if 0 ≤ z then z else z + 2 * 2 ^ m := by
    have hnn : 0 ≤ z % 2 ^ (m + 1) := Int.emod_nonneg _ (by positivity)
    rw [← hk, Int.toNat_of_nonneg hnn, hp]
    by_cases hz : 0 ≤ z
    · rw [if_pos hz]; exact Int.emod_eq_of_lt hz (by linarith)
    · rw [if_neg hz]
      rw [← Int.add_emod_right]
      exact Int.emod_eq_of_lt (by linarith) (by linarith)
  have hlt : k < 2 ^ (m + 1) := by
    have : (k : Int) < ((2 ^ (m + 1) : Nat) : Int) := by
      rw [hcast, hkv]; split <;> linarith
    exact_mod_cast this
  simp only [binToInt, intBase2_bitString (Nat.succ_pos m) hlt, bitString_head m k hlt]
  by_cases hz : 0 ≤ z
  · rw [if_pos hz] at hkv
    rw [if_neg, hkv]
    intro hc
    have : ((2 ^ m : Nat) : Int) ≤ k := by exact_mod_cast hc
    rw [hcast', hkv] at this; linarith
  · rw [if_neg hz] at hkv
    rw [if_pos, hkv]
    · congr 1; rw [hp]; ring
    · have : ((2 ^ m : Nat) : Int) ≤ k := by rw [hcast', hkv]; linarith
      exact_mod_cast this

theorem bitString_eq (n k : Nat) :
    bitString n k = ((List.range n).map fun j => bitChar (k / 2 ^ j % 2)).reverse := by
  induction n generalizing k with
  | zero => rfl
  | succ n ih =>
    rw [bitString, ih, List.range_succ_eq_map, List.map_cons, List.reverse_cons, List.map_map]
    congr 3
    · congr 1
      funext j
      simp only [Function.comp_apply, pow_succ, Nat.div_div_eq_div_mul, Nat.mul_comm 2]
    · simp [bitChar]

theorem keyToPoint_eq {n k : Nat} (hn : 0 < n) (hk : k < 2 ^ n) : keyToPoint n k = keyPt n k := by
  have h1 : bitString n k = (vectorKey n k).reverse := by rw [vectorKey_eq hn hk, bitString_eq]
  rw [keyPt, h1, keyToPoint, vectorKey, List.reverse_reverse]
  simp

theorem keyPt_length (n k : Nat) : (keyPt n k).length = n := by simp [keyPt, bitString_length]

theorem keyPt_zero (n : Nat) : keyPt n 0 = List.replicate n 0 := by
  induction n with
  | zero => rfl
  | succ n ih =>
    rw [keyPt, bitString, List.map_append, List.replicate_succ']
    have : 0 / 2 = 0 := rfl
    rw [this]
    unfold keyPt at ih
    rw [ih]
    simp

/-! ## Sign flip -/

theorem fold_neg {κ : Type} [DecidableEq κ] (l d : Dict κ) (hd : (Assoc.keys d).Nodup) (hl : (Assoc.keys l).Nodup)
    (hv : ∀ q ∈ l, Dict.get d q.1 = q.2) (f : κ → ℚ) :
    Dict.sum (l.foldl (fun d p => Dict.dokSet d p.1 (-p.2)) d) f = Dict.sum d f - 2 * Dict.sum l f := by
  induction l generalizing d with
  | nil => simp [Dict.sum]
  | cons q l ih =>
    have hl' : (Assoc.keys l).Nodup := (List.nodup_cons.mp hl).2
    have hq : q.1 ∉ Assoc.keys l := (List.nodup_cons.mp hl).1
    rw [List.foldl_cons, ih _ (Dict.nodup_dokSet hd _ _) hl']
    · rw [Dict.sum_dokSet, hv q (by simp)]
      simp only [Dict.sum, List.map_cons, List.sum_cons]; ring
    · intro r hr
      rw [Dict.get_dokSet hd, if_neg]
      · exact hv r (by simp [hr])
      · intro h
        exact hq (h ▸ List.mem_map.mpr ⟨r, hr, rfl⟩)

theorem get_self {κ : Type} [DecidableEq κ] {d : Dict κ} (hd : (Assoc.keys d).Nodup) :
    ∀ q ∈ d, Dict.get d q.1 = q.2 := by
  intro q hq
  simp [Dict.get, Assoc.get?_of_mem hd (show (q.1, q.2) ∈ d from hq)]

theorem negLinear_val {e : LinExpr} (he : e.WF) (x : Nat → ℚ) : (negLinear e).val x = -e.val x := by
  unfold LinExpr.val negLinear
  rw [fold_neg _ _ he.nodup he.nodup (get_self he.nodup)]
  ring

theorem negQuadratic_val {e : QuadExpr} (he : e.WF) (x : Nat → ℚ) : (negQuadratic e).val x = -e.val x := by
  unfold QuadExpr.val negQuadratic QuadExpr.toDict
  have hfold : ∀ (l d : Dict (Nat × Nat)), (∀ k ∈ Assoc.keys l, k.1 ≤ k.2) →
      l.foldl (fun d p => Dict.dokSet d (min p.1.1 p.1.2, max p.1.1 p.1.2) (-p.2)) d =
        l.foldl (fun d p => Dict.dokSet d p.1 (-p.2)) d := by
    intro l
    induction l with
    | nil => intro d _; rfl
    | cons q l ih =>
      intro d h
      have h1 : q.1.1 ≤ q.1.2 := h q.1 (by simp [Assoc.keys])
      rw [List.foldl_cons, List.foldl_cons, min_eq_left h1, max_eq_right h1]
      exact ih _ fun k hk => h k (by simp only [Assoc.keys, List.map_cons, List.mem_cons]; exact Or.inr hk)
  simp only [Bool.false_eq_true, if_false]
  rw [hfold _ _ he.upper, fold_neg _ _ he.nodup he.nodup (get_self he.nodup)]
  ring

theorem groverObjective_val {o : Objective} (h1 : o.linear.WF) (h2 : o.quadratic.WF) (x : Nat → ℚ) :
    (groverObjective o).val x = o.sense.value * o.val x := by
  unfold groverObjective
  cases hs : o.sense with
  | minimize => simp [ObjSense.value]
  | maximize =>
    simp only [Objective.val, negLinear_val h1, negQuadratic_val h2, ObjSense.value]; ring

theorem groverObjective_n (o : Objective) : (groverObjective o).linear.n = o.linear.n := by
  unfold groverObjective; cases o.sense <;> rfl

theorem groverObjective_sense (o : Objective) : (groverObjective o).sense = .minimize := by
  unfold groverObjective
  cases h : o.sense with
  | minimize => exact h
  | maximize => rfl

theorem groverObjective_constant (o : Objective) :
    (groverObjective o).constant = o.sense.value * o.constant := by
  unfold groverObjective; cases h : o.sense <;> simp [ObjSense.value]

end Verif
