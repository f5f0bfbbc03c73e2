import Verif.FloatEval
import Verif.DictLemmas

/-!
# Lemmas about rounding
-/

namespace Verif

/-- Numbers with `53` binary digits are not changed. -/
theorem fl_exact {fl : ℚ → ℚ} (h : IsRounding fl) (m : ℤ) (k : ℕ) (hm : |m| < 2 ^ 53) : fl (m / 2 ^ k) = m / 2 ^ k := by
  have hn := h (m / 2 ^ k)
  unfold NearestDouble at hn
  by_cases h0 : m = 0
  · subst h0
    simpa using hn
  · have h0' : (((m / 2 ^ k : ℚ)) : ℝ) ≠ 0 := by
      push_cast
      exact div_ne_zero (by exact_mod_cast h0) (by positivity)
    rw [if_neg h0'] at hn
    obtain ⟨m', hy, hd⟩ := hn
    set x : ℝ := ((m / 2 ^ k : ℚ) : ℝ) with hx
    set L := Int.log 2 |x| with hL
    have hxv : x = (m : ℝ) * (2 : ℝ) ^ (-(k : ℤ)) := by
      rw [hx]; push_cast; rw [zpow_neg, zpow_natCast]; rfl
    have hle : (2 : ℝ) ^ L ≤ |x| := by
      have := Int.zpow_log_le_self (b := 2) (r := |x|) (by norm_num) (abs_pos.mpr h0')
      exact_mod_cast this
    have hlt : |x| < (2 : ℝ) ^ (53 - (k : ℤ)) := by
      rw [hxv, abs_mul, abs_of_pos (show (0 : ℝ) < 2 ^ (-(k : ℤ)) by positivity), sub_eq_add_neg, zpow_add₀ (by norm_num)]
      refine mul_lt_mul_of_pos_right ?_ (by positivity)
      have : ((|m| : ℤ) : ℝ) < ((2 ^ 53 : ℤ) : ℝ) := by exact_mod_cast hm
      rw [Int.cast_abs] at this
      norm_num at this ⊢
      exact this
    have hLk : L < 53 - (k : ℤ) := (zpow_lt_zpow_iff_right₀ (by norm_num : (1 : ℝ) < 2)).mp (lt_of_le_of_lt hle hlt)
    obtain ⟨e, he⟩ : ∃ e : ℕ, -(k : ℤ) = (e : ℤ) + (L - 52) := ⟨(-(k : ℤ) - (L - 52)).toNat, by omega⟩
    have hxM : x = ((m * 2 ^ e : ℤ) : ℝ) * (2 : ℝ) ^ (L - 52) := by
      rw [hxv, he, zpow_add₀ (by norm_num), zpow_natCast]; push_cast; ring
    have hu : (0 : ℝ) < (2 : ℝ) ^ (L - 52) := by positivity
    have heq : m * 2 ^ e = m' := by
      rw [hy, hxM, ← sub_mul, abs_mul, abs_of_pos hu, show L - 53 = (L - 52) + (-1) by ring, zpow_add₀ (by norm_num),
        mul_comm ((2 : ℝ) ^ (L - 52)) _] at hd
      have hd' := le_of_mul_le_mul_right hd hu
      have : ((|m * 2 ^ e - m'| : ℤ) : ℝ) < 1 := by
        push_cast at hd' ⊢
        refine lt_of_le_of_lt hd' ?_
        norm_num
      have : |m * 2 ^ e - m'| < 1 := by exact_mod_cast this
      have := Int.abs_lt_one_iff.mp this
      omega
    have : (fl (m / 2 ^ k) : ℝ) = x := by rw [hy, hxM, heq]
    exact Rat.cast_injective (this.trans hx)

/-- Multiples of `1 / 2 ^ k`. -/
def OnGrid (k : ℕ) (q : ℚ) : Prop := ∃ m : ℤ, q = m / 2 ^ k

theorem OnGrid.add {k : ℕ} {a b : ℚ} (ha : OnGrid k a) (hb : OnGrid k b) : OnGrid k (a + b) := by
  obtain ⟨m, rfl⟩ := ha
  obtain ⟨n, rfl⟩ := hb
  exact ⟨m + n, by push_cast; ring⟩

theorem OnGrid.neg {k : ℕ} {a : ℚ} (ha : OnGrid k a) : OnGrid k (-a) := by
  obtain ⟨m, rfl⟩ := ha
  exact ⟨-m, by push_cast; ring⟩

theorem OnGrid.zero (k : ℕ) : OnGrid k 0 := ⟨0, by simp⟩

theorem fl_grid {fl : ℚ → ℚ} (h : IsRounding fl) {k : ℕ} {q : ℚ} (hq : OnGrid k q) (hb : |q| < 2 ^ 53 / 2 ^ k) : fl q = q := by
  obtain ⟨m, rfl⟩ := hq
  refine fl_exact h m k ?_
  rw [abs_div, abs_of_pos (show (0 : ℚ) < 2 ^ k by positivity), div_lt_div_iff_of_pos_right (by positivity)] at hb
  have : ((|m| : ℤ) : ℚ) < ((2 ^ 53 : ℤ) : ℚ) := by push_cast; exact hb
  exact_mod_cast this

theorem sum_abs_nonneg (l : List ℚ) : 0 ≤ (l.map abs).sum := List.sum_nonneg (by simp)

theorem abs_sum_le (l : List ℚ) : |l.sum| ≤ (l.map abs).sum := by
  induction l with
  | nil => simp
  | cons a l ih => simp only [List.sum_cons, List.map_cons]; exact (abs_add_le _ _).trans (by linarith)

theorem onGrid_sum {k : ℕ} (l : List ℚ) (h : ∀ v ∈ l, OnGrid k v) : OnGrid k l.sum := by
  induction l with
  | nil => exact OnGrid.zero k
  | cons a l ih =>
    rw [List.sum_cons]
    exact (h a (by simp)).add (ih fun v hv => h v (by simp [hv]))

/-- Sums on the grid below the largest number are exact in any order. -/
theorem flSum_exact {fl : ℚ → ℚ} (h : IsRounding fl) {k : ℕ} {l : List ℚ} {s : ℚ} (hs : FlSum fl l s)
    (hg : ∀ v ∈ l, OnGrid k v) (hb : (l.map abs).sum < 2 ^ 53 / 2 ^ k) : s = l.sum := by
  induction hs with
  | nil => simp
  | single a => simp
  | @add l m n a b h1 h2 _ _ hp ih1 ih2 =>
    have hsum : (n.map abs).sum = (l.map abs).sum + (m.map abs).sum := by
      rw [(hp.map abs).sum_eq, List.map_append, List.sum_append]
    have hn : n.sum = l.sum + m.sum := by rw [hp.sum_eq, List.sum_append]
    have e1 := ih1 (fun v hv => hg v (hp.mem_iff.mpr (by simp [hv]))) (by linarith [sum_abs_nonneg m])
    have e2 := ih2 (fun v hv => hg v (hp.mem_iff.mpr (by simp [hv]))) (by linarith [sum_abs_nonneg l])
    rw [e1, e2, ← hn]
    exact fl_grid h (onGrid_sum n hg) (lt_of_le_of_lt (abs_sum_le n) hb)

/-- Whole numbers. -/
def Whole (q : ℚ) : Prop := ∃ m : ℤ, q = m

theorem Whole.grid {q : ℚ} (h : Whole q) : OnGrid 0 q := by
  obtain ⟨m, rfl⟩ := h; exact ⟨m, by simp⟩

theorem Whole.mul {a b : ℚ} (ha : Whole a) (hb : Whole b) : Whole (a * b) := by
  obtain ⟨m, rfl⟩ := ha
  obtain ⟨n, rfl⟩ := hb
  exact ⟨m * n, by push_cast; rfl⟩

theorem Whole.add {a b : ℚ} (ha : Whole a) (hb : Whole b) : Whole (a + b) := by
  obtain ⟨m, rfl⟩ := ha
  obtain ⟨n, rfl⟩ := hb
  exact ⟨m + n, by push_cast; rfl⟩

theorem whole_sum (l : List ℚ) (h : ∀ v ∈ l, Whole v) : Whole l.sum := by
  induction l with
  | nil => exact ⟨0, by simp⟩
  | cons a l ih =>
    rw [List.sum_cons]
    exact (h a (by simp)).add (ih fun v hv => h v (by simp [hv]))

theorem fl_whole {fl : ℚ → ℚ} (h : IsRounding fl) {q : ℚ} (hq : Whole q) (hb : |q| < 2 ^ 53) : fl q = q :=
  fl_grid h hq.grid (by simpa using hb)

theorem flSum_whole {fl : ℚ → ℚ} (h : IsRounding fl) {l : List ℚ} {s : ℚ} (hs : FlSum fl l s)
    (hg : ∀ v ∈ l, Whole v) (hb : (l.map abs).sum < 2 ^ 53) : s = l.sum :=
  flSum_exact h (k := 0) hs (fun v hv => (hg v hv).grid) (by simpa using hb)

/-- A sum over a dictionary is at most the sum of the absolute values times a bound of the function. -/
theorem sum_bound {κ : Type} (d : Dict κ) (f : κ → ℚ) (B : ℚ) (hf : ∀ p ∈ d, |f p.1| ≤ B) :
    ((d.map fun p => p.2 * f p.1).map abs).sum ≤ (d.map fun p => |p.2|).sum * B := by
  induction d with
  | nil => simp
  | cons p d ih =>
    simp only [List.map_cons, List.sum_cons, abs_mul, add_mul] at ih ⊢
    refine add_le_add (mul_le_mul_of_nonneg_left (hf p (by simp)) (abs_nonneg _)) (ih fun q hq => hf q (by simp [hq]))

theorem abs_le_sum {κ : Type} (d : Dict κ) (p : κ × ℚ) (hp : p ∈ d) : |p.2| ≤ (d.map fun p => |p.2|).sum :=
  List.single_le_sum (fun _ h => by obtain ⟨_, _, rfl⟩ := List.mem_map.mp h; exact abs_nonneg _) _ (List.mem_map.mpr ⟨p, hp, rfl⟩)

/-- The relative error of a rounding. -/
theorem fl_err {fl : ℚ → ℚ} (h : IsRounding fl) (q : ℚ) : |fl q - q| ≤ |q| / 2 ^ 53 := by
  have hn := h q
  unfold NearestDouble at hn
  by_cases h0 : q = 0
  · subst h0
    have : fl 0 = 0 := by simpa using hn
    simp [this]
  · have h0' : (q : ℝ) ≠ 0 := by exact_mod_cast h0
    rw [if_neg h0'] at hn
    obtain ⟨m, -, hd⟩ := hn
    have hle : (2 : ℝ) ^ Int.log 2 |(q : ℝ)| ≤ |(q : ℝ)| := by
      have := Int.zpow_log_le_self (b := 2) (r := |(q : ℝ)|) (by norm_num) (abs_pos.mpr h0')
      exact_mod_cast this
    have h2 : |(fl q : ℝ) - q| ≤ |(q : ℝ)| / 2 ^ 53 := by
      rw [abs_sub_comm]
      refine hd.trans ?_
      rw [zpow_sub₀ (by norm_num)]
      have : (2 : ℝ) ^ (53 : ℤ) = 2 ^ 53 := by norm_cast
      rw [this]
      exact div_le_div_of_nonneg_right hle (by positivity)
    exact_mod_cast h2

theorem fl_abs_le {fl : ℚ → ℚ} (h : IsRounding fl) (q : ℚ) : |fl q| ≤ 2 * |q| := by
  have h1 := fl_err h q
  have h2 : |fl q| ≤ |fl q - q| + |q| := by
    have := abs_add_le (fl q - q) q
    simpa using this
  have h3 : |q| / 2 ^ 53 ≤ |q| := div_le_self (abs_nonneg _) (by norm_num)
  linarith

/-- Dictionaries of numbers on the grid. -/
def GridDict (k : ℕ) {κ : Type} (d : Dict κ) : Prop := ∀ p ∈ d, OnGrid k p.2

/-- Sum of the absolute values of the coefficients. -/
def absTotal {κ : Type} (d : Dict κ) : ℚ := (d.map fun p => |p.2|).sum

theorem absTotal_nonneg {κ : Type} (d : Dict κ) : 0 ≤ absTotal d :=
  List.sum_nonneg fun _ h => by obtain ⟨_, _, rfl⟩ := List.mem_map.mp h; exact abs_nonneg _

theorem absTotal_append {κ : Type} (d e : Dict κ) : absTotal (d ++ e : List (κ × ℚ)) = absTotal d + absTotal e := by
  simp [absTotal]

theorem absTotal_cons {κ : Type} (p : κ × ℚ) (d : Dict κ) : absTotal (p :: d) = |p.2| + absTotal d := by
  simp [absTotal]

section Add
variable {κ : Type} [DecidableEq κ]

theorem get_grid {k : ℕ} (d : Dict κ) (hd : GridDict k d) (a : κ) : OnGrid k (Dict.get d a) := by
  induction d with
  | nil => exact OnGrid.zero k
  | cons p d ih =>
    obtain ⟨c, v⟩ := p
    by_cases h : c = a
    · simpa [Dict.get, Assoc.get?, h] using hd (c, v) (by simp)
    · simpa [Dict.get, Assoc.get?, h] using ih fun q hq => hd q (by simp [hq])

theorem get_abs_le (d : Dict κ) (a : κ) : |Dict.get d a| ≤ absTotal d := by
  induction d with
  | nil => simp [Dict.get, Assoc.get?, absTotal]
  | cons p d ih =>
    obtain ⟨c, v⟩ := p
    rw [absTotal_cons]
    by_cases h : c = a
    · have := absTotal_nonneg d
      simpa [Dict.get, Assoc.get?, h] using this
    · have h2 : Dict.get ((c, v) :: d) a = Dict.get d a := by simp [Dict.get, Assoc.get?, h]
      rw [h2]
      linarith [abs_nonneg v]

theorem set_absTotal (d : Dict κ) (a : κ) (w : ℚ) : absTotal (Assoc.set d a w) + |Dict.get d a| = absTotal d + |w| := by
  induction d with
  | nil => simp [Dict.get, Assoc.get?, absTotal, Assoc.set]
  | cons p d ih =>
    obtain ⟨c, v⟩ := p
    by_cases h : c = a
    · subst h
      simp [Dict.get, Assoc.get?, Assoc.set, absTotal_cons]
      ring
    · have h2 : Dict.get ((c, v) :: d) a = Dict.get d a := by simp [Dict.get, Assoc.get?, h]
      have h3 : Assoc.set ((c, v) :: d) a w = (c, v) :: Assoc.set d a w := by simp [Assoc.set, h]
      rw [h2, h3, absTotal_cons, absTotal_cons]
      linarith

theorem add_absTotal (d : Dict κ) (a : κ) (v : ℚ) : absTotal (Dict.add d a v) ≤ absTotal d + |v| := by
  have h1 : |Dict.get d a + v| ≤ |Dict.get d a| + |v| := abs_add_le _ _
  have h2 := set_absTotal d a (Dict.get d a + v)
  unfold Dict.add
  linarith

theorem set_grid {k : ℕ} (d : Dict κ) (hd : GridDict k d) (a : κ) (w : ℚ) (hw : OnGrid k w) : GridDict k (Assoc.set d a w) := by
  induction d with
  | nil =>
    intro p hp
    simp only [Assoc.set, List.mem_singleton] at hp
    subst hp
    exact hw
  | cons q d ih =>
    obtain ⟨c, v⟩ := q
    intro p hp
    have hd' : GridDict k d := fun r hr => hd r (by simp [hr])
    by_cases h : c = a
    · simp only [Assoc.set, h, if_true, List.mem_cons] at hp
      rcases hp with rfl | hp
      · exact hw
      · exact hd' p hp
    · simp only [Assoc.set, h, if_false, List.mem_cons] at hp
      rcases hp with rfl | hp
      · exact hd _ (by simp)
      · exact ih hd' p hp

theorem add_grid {k : ℕ} (d : Dict κ) (hd : GridDict k d) (a : κ) (v : ℚ) (hv : OnGrid k v) : GridDict k (Dict.add d a v) :=
  set_grid d hd a _ ((get_grid d hd a).add hv)

theorem addFl_eq {fl : ℚ → ℚ} (h : IsRounding fl) {k : ℕ} (d : Dict κ) (hd : GridDict k d) (a : κ) (v : ℚ) (hv : OnGrid k v)
    (hb : absTotal d + |v| < 2 ^ 53 / 2 ^ k) : Dict.addFl fl d a v = Dict.add d a v := by
  unfold Dict.addFl Dict.add
  rw [fl_grid h ((get_grid d hd a).add hv) (lt_of_le_of_lt ((abs_add_le _ _).trans (by linarith [get_abs_le d a])) hb)]

/-- Adding the entries of a list to a dictionary one by one. -/
theorem foldl_addFl {fl : ℚ → ℚ} (h : IsRounding fl) {k : ℕ} {α : Type} (key : α → κ) (val : α → ℚ) (l : List α)
    (d : Dict κ) (hd : GridDict k d) (hl : ∀ a ∈ l, OnGrid k (val a))
    (hb : absTotal d + (l.map fun a => |val a|).sum < 2 ^ 53 / 2 ^ k) :
    l.foldl (fun acc a => Dict.addFl fl acc (key a) (val a)) d = l.foldl (fun acc a => Dict.add acc (key a) (val a)) d ∧
    GridDict k (l.foldl (fun acc a => Dict.add acc (key a) (val a)) d) ∧
    absTotal (l.foldl (fun acc a => Dict.add acc (key a) (val a)) d) ≤ absTotal d + (l.map fun a => |val a|).sum := by
  induction l generalizing d with
  | nil => exact ⟨rfl, hd, by simp⟩
  | cons a l ih =>
    simp only [List.foldl_cons, List.map_cons, List.sum_cons] at hb ⊢
    have h0 : 0 ≤ (l.map fun a => |val a|).sum := List.sum_nonneg fun _ h => by
      obtain ⟨_, _, rfl⟩ := List.mem_map.mp h; exact abs_nonneg _
    have ha := hl a (by simp)
    have h1 := add_absTotal d (key a) (val a)
    rw [addFl_eq h d hd (key a) (val a) ha (by linarith)]
    obtain ⟨i1, i2, i3⟩ := ih (Dict.add d (key a) (val a)) (add_grid d hd _ _ ha) (fun b hb => hl b (by simp [hb])) (by linarith)
    exact ⟨i1, i2, by linarith⟩

end Add

/-- A sum can always be computed. -/
theorem flSum_exists (fl : ℚ → ℚ) (l : List ℚ) : ∃ s, FlSum fl l s := by
  induction l with
  | nil => exact ⟨0, .nil⟩
  | cons a l ih =>
    obtain ⟨s, hs⟩ := ih
    by_cases hl : l = []
    · subst hl; exact ⟨a, .single a⟩
    · exact ⟨fl (a + s), .add (.single a) hs (by simp) hl (by simp)⟩

theorem LinExpr.flVal_exists (fl : ℚ → ℚ) (e : LinExpr) (x : Nat → ℚ) : ∃ r, e.FlVal fl x r := flSum_exists fl _

theorem QuadExpr.flVal_exists (fl : ℚ → ℚ) (e : QuadExpr) (x : Nat → ℚ) : ∃ r, e.FlVal fl x r := by
  obtain ⟨r, hr⟩ := flSum_exists fl ((List.range e.n).map fun j =>
    fl ((flSum_exists fl ((e.coeffs.filter fun p => p.1.2 = j).map fun p => fl (x p.1.1 * p.2))).choose * x j))
  exact ⟨r, _, fun j _ => (flSum_exists fl _).choose_spec, hr⟩

theorem Objective.flVal_exists (fl : ℚ → ℚ) (o : Objective) (x : Nat → ℚ) : ∃ r, o.FlVal fl x r := by
  obtain ⟨l, hl⟩ := o.linear.flVal_exists fl x
  obtain ⟨q, hq⟩ := o.quadratic.flVal_exists fl x
  exact ⟨_, l, q, hl, hq, rfl⟩

theorem Cst.flVal_exists (fl : ℚ → ℚ) (c : Cst) (x : Nat → ℚ) : ∃ r, c.FlVal fl x r := by
  cases c with
  | lin c => exact c.linear.flVal_exists fl x
  | quad c =>
    obtain ⟨l, hl⟩ := c.linear.flVal_exists fl x
    obtain ⟨q, hq⟩ := c.quadratic.flVal_exists fl x
    exact ⟨_, l, q, hl, hq, rfl⟩

theorem QP.flVerdict_exists (fl : ℚ → ℚ) (p : QP) (x : Nat → ℚ) : ∃ b, p.FlVerdict fl x b := by
  classical
  refine ⟨decide (p.InBounds x ∧ ∀ c ∈ p.allCsts, c.sense.flHolds fl (c.flVal_exists fl x).choose c.rhs),
    fun c => (c.flVal_exists fl x).choose, fun c _ => (c.flVal_exists fl x).choose_spec, by simp⟩

end Verif
