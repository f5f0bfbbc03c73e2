import Verif.FloatEvalLemmas
import Verif.BuildLemmas

/-!
# Programs with integer data are handled without rounding errors (C98)
-/

namespace Verif

/-- All coefficients are whole numbers. -/
def WholeDict {κ : Type} (d : Dict κ) : Prop := ∀ p ∈ d, Whole p.2

/-- The point has whole coordinates of absolute value at most `X`. -/
def WholePoint (x : Nat → ℚ) (X : ℚ) : Prop := ∀ i, Whole (x i) ∧ |x i| ≤ X

theorem lin_flVal {fl : ℚ → ℚ} (h : IsRounding fl) (e : LinExpr) (he : WholeDict e.coeffs) {x : Nat → ℚ} {X : ℚ}
    (hx : WholePoint x X) (hb : absTotal e.coeffs * X < 2 ^ 53) {r : ℚ} (hr : e.FlVal fl x r) : r = e.val x := by
  have h1 : (e.coeffs.map fun p => fl (p.2 * x p.1)) = e.coeffs.map fun p => p.2 * x p.1 := by
    refine List.map_congr_left fun p hp => fl_whole h ((he p hp).mul (hx p.1).1) ?_
    rw [abs_mul]
    exact lt_of_le_of_lt (mul_le_mul (abs_le_sum _ p hp) (hx p.1).2 (abs_nonneg _) (absTotal_nonneg e.coeffs)) hb
  unfold LinExpr.FlVal at hr
  rw [h1] at hr
  refine flSum_whole h hr ?_ (lt_of_le_of_lt (sum_bound e.coeffs x X fun p _ => (hx p.1).2) hb)
  intro v hv
  obtain ⟨p, hp, rfl⟩ := List.mem_map.mp hv
  exact (he p hp).mul (hx p.1).1

theorem sum_columns (d : Dict (Nat × Nat)) (n : Nat) (hd : ∀ p ∈ d, p.1.2 < n) (g : (Nat × Nat) × ℚ → ℚ) :
    ((List.range n).map fun j => ((d.filter fun p => p.1.2 = j).map g).sum).sum = (d.map g).sum := by
  induction d with
  | nil => simp
  | cons p d ih =>
    have h1 : ∀ j, (((p :: d).filter fun q => q.1.2 = j).map g).sum =
        (if j = p.1.2 then g p else 0) + ((d.filter fun q => q.1.2 = j).map g).sum := by
      intro j
      by_cases h : p.1.2 = j
      · simp [List.filter_cons, h]
      · simp [List.filter_cons, h, Ne.symm h]
    simp only [h1, List.map_cons, List.sum_cons]
    rw [List.sum_map_add, ih fun q hq => hd q (by simp [hq])]
    congr 1
    have := List.sum_map_ite_eq (List.range n) (fun _ => g p) (fun _ => 0) p.1.2
    rw [this]
    simp [List.count_eq_one_of_mem (List.nodup_range) (List.mem_range.mpr (hd p (by simp)))]


theorem quad_flVal_aux {fl : ℚ → ℚ} {N : ℚ} (flw : ∀ {q : ℚ}, Whole q → |q| < N → fl q = q)
    (flsw : ∀ {l : List ℚ} {s : ℚ}, FlSum fl l s → (∀ v ∈ l, Whole v) → (l.map abs).sum < N → s = l.sum)
    (e : QuadExpr) (he : WholeDict e.coeffs) (hc : ∀ p ∈ e.coeffs, p.1.2 < e.n) {x : Nat → ℚ} {X : ℚ}
    (hx : WholePoint x X) (h1 : 1 ≤ X) (hb : absTotal e.coeffs * X ^ 2 < N) {r : ℚ} (hr : e.FlVal fl x r) :
    r = e.val x := by
  obtain ⟨y, hy, hr⟩ := hr
  have hX : absTotal e.coeffs * X ≤ absTotal e.coeffs * X ^ 2 :=
    mul_le_mul_of_nonneg_left (le_self_pow₀ h1 (by norm_num)) (absTotal_nonneg _)
  have hfil : ∀ j, ((e.coeffs.filter fun p => p.1.2 = j).map fun p => fl (x p.1.1 * p.2)) =
      ((e.coeffs.filter fun p => p.1.2 = j).map fun p => p.2 * x p.1.1) := by
    intro j
    refine List.map_congr_left fun p hp => ?_
    have hp := (List.mem_filter.mp hp).1
    rw [mul_comm]
    refine flw ((he p hp).mul (hx _).1) ?_
    rw [abs_mul]
    exact lt_of_le_of_lt (mul_le_mul (abs_le_sum _ p hp) (hx _).2 (abs_nonneg _) (absTotal_nonneg e.coeffs)) (lt_of_le_of_lt hX hb)
  have hsub : ∀ j, absTotal (e.coeffs.filter fun p => p.1.2 = j) ≤ absTotal e.coeffs := by
    intro j
    exact List.Sublist.sum_le_sum (List.filter_sublist.map _) fun _ h => by
      obtain ⟨_, _, rfl⟩ := List.mem_map.mp h; exact abs_nonneg _
  have hcol : ∀ j, (((e.coeffs.filter fun p => p.1.2 = j).map fun p => p.2 * x p.1.1).map abs).sum ≤
      absTotal (e.coeffs.filter fun p => p.1.2 = j) * X := by
    intro j
    have := sum_bound (e.coeffs.filter fun p => p.1.2 = j) (fun k => x k.1) X fun p _ => (hx p.1.1).2
    exact this
  have hyv : ∀ j < e.n, y j = ((e.coeffs.filter fun p => p.1.2 = j).map fun p => p.2 * x p.1.1).sum := by
    intro j hj
    have := hy j hj
    rw [hfil] at this
    refine flsw this ?_ ?_
    · intro v hv
      obtain ⟨p, hp, rfl⟩ := List.mem_map.mp hv
      exact (he p (List.mem_filter.mp hp).1).mul (hx _).1
    · exact lt_of_le_of_lt (hcol j) (lt_of_le_of_lt (mul_le_mul_of_nonneg_right (hsub j) (by linarith)) (lt_of_le_of_lt hX hb))
  have hyw : ∀ j < e.n, Whole (y j) := by
    intro j hj
    rw [hyv j hj]
    refine whole_sum _ fun v hv => ?_
    obtain ⟨p, hp, rfl⟩ := List.mem_map.mp hv
    exact (he p (List.mem_filter.mp hp).1).mul (hx _).1
  have hyb : ∀ j < e.n, |y j * x j| ≤ ((e.coeffs.filter fun p => p.1.2 = j).map fun p => |p.2| * X ^ 2).sum := by
    intro j hj
    rw [abs_mul, List.sum_map_mul_right, pow_two, ← mul_assoc]
    refine mul_le_mul ?_ (hx j).2 (abs_nonneg _) (mul_nonneg (absTotal_nonneg _) (by linarith))
    rw [hyv j hj]
    exact (abs_sum_le _).trans (hcol j)
  have htot : ((List.range e.n).map fun j => ((e.coeffs.filter fun p => p.1.2 = j).map fun p => |p.2| * X ^ 2).sum).sum =
      absTotal e.coeffs * X ^ 2 := by
    rw [sum_columns _ _ hc, List.sum_map_mul_right]; rfl
  have hle : (((List.range e.n).map fun j => y j * x j).map abs).sum ≤ absTotal e.coeffs * X ^ 2 := by
    rw [← htot, List.map_map]
    exact List.sum_le_sum fun j hj => hyb j (List.mem_range.mp hj)
  have hout : ((List.range e.n).map fun j => fl (y j * x j)) = (List.range e.n).map fun j => y j * x j := by
    refine List.map_congr_left fun j hj => ?_
    have hj' := List.mem_range.mp hj
    refine flw ((hyw j hj').mul (hx j).1) (lt_of_le_of_lt ?_ (lt_of_le_of_lt hle hb))
    refine List.single_le_sum (fun _ h => ?_) _ (List.mem_map.mpr ⟨_, List.mem_map.mpr ⟨j, hj, rfl⟩, rfl⟩)
    obtain ⟨_, _, rfl⟩ := List.mem_map.mp h
    exact abs_nonneg _
  rw [hout] at hr
  rw [flsw hr ?_ (lt_of_le_of_lt hle hb)]
  · rw [QuadExpr.val, Dict.sum, ← sum_columns _ _ hc]
    congr 1
    refine List.map_congr_left fun j hj => ?_
    rw [hyv j (List.mem_range.mp hj), ← List.sum_map_mul_right]
    congr 1
    refine List.map_congr_left fun p hp => ?_
    have : p.1.2 = j := by simpa using (List.mem_filter.mp hp).2
    rw [this, mul_assoc]
  · intro v hv
    obtain ⟨j, hj, rfl⟩ := List.mem_map.mp hv
    exact (hyw j (List.mem_range.mp hj)).mul (hx j).1

theorem quad_flVal {fl : ℚ → ℚ} (h : IsRounding fl) (e : QuadExpr) (he : WholeDict e.coeffs)
    (hc : ∀ p ∈ e.coeffs, p.1.2 < e.n) {x : Nat → ℚ} {X : ℚ}
    (hx : WholePoint x X) (h1 : 1 ≤ X) (hb : absTotal e.coeffs * X ^ 2 < 2 ^ 53) {r : ℚ} (hr : e.FlVal fl x r) :
    r = e.val x :=
  quad_flVal_aux (fun hq hb => fl_whole h hq hb) (fun hs hg hb => flSum_whole h hs hg hb) e he hc hx h1 hb hr

theorem lin_abs (e : LinExpr) {x : Nat → ℚ} {X : ℚ} (hx : WholePoint x X) : |e.val x| ≤ absTotal e.coeffs * X :=
  (abs_sum_le _).trans (sum_bound e.coeffs x X fun p _ => (hx p.1).2)

theorem quad_abs (e : QuadExpr) {x : Nat → ℚ} {X : ℚ} (hx : WholePoint x X) : |e.val x| ≤ absTotal e.coeffs * X ^ 2 := by
  refine (abs_sum_le _).trans (sum_bound e.coeffs (fun k => x k.1 * x k.2) (X ^ 2) fun p _ => ?_)
  have := mul_le_mul (hx p.1.1).2 (hx p.1.2).2 (abs_nonneg _) ((abs_nonneg _).trans (hx p.1.1).2)
  rw [abs_mul, pow_two]
  exact this

theorem lin_whole (e : LinExpr) (he : WholeDict e.coeffs) {x : Nat → ℚ} {X : ℚ} (hx : WholePoint x X) : Whole (e.val x) :=
  whole_sum _ fun v hv => by
    obtain ⟨p, hp, rfl⟩ := List.mem_map.mp hv
    exact (he p hp).mul (hx _).1

theorem quad_whole (e : QuadExpr) (he : WholeDict e.coeffs) {x : Nat → ℚ} {X : ℚ} (hx : WholePoint x X) : Whole (e.val x) :=
  whole_sum _ fun v hv => by
    obtain ⟨p, hp, rfl⟩ := List.mem_map.mp hv
    exact (he p hp).mul ((hx _).1.mul (hx _).1)

theorem quad_cols {e : QuadExpr} (h : e.WF) : ∀ p ∈ e.coeffs, p.1.2 < e.n := fun p hp =>
  (h.bound p.1 (List.mem_map.mpr ⟨p, hp, rfl⟩)).2

/-- **C98** (objective): with whole coefficients and a point of whole coordinates up to `X`, in any order of the summation,
the value computed with rounding is the exact one, if the numbers stay below `2 ^ 53`. -/
theorem C98_objective {fl : ℚ → ℚ} (h : IsRounding fl) (o : Objective) (hw : o.quadratic.WF) (hc : Whole o.constant)
    (hl : WholeDict o.linear.coeffs) (hq : WholeDict o.quadratic.coeffs) (x : Nat → ℚ) (X : ℚ) (h1 : 1 ≤ X)
    (hx : WholePoint x X)
    (hb : |o.constant| + absTotal o.linear.coeffs * X + absTotal o.quadratic.coeffs * X ^ 2 < 2 ^ 53) (r : ℚ)
    (hr : o.FlVal fl x r) : r = o.val x := by
  obtain ⟨l, q, h2, h3, rfl⟩ := hr
  have p1 : 0 ≤ absTotal o.linear.coeffs * X := mul_nonneg (absTotal_nonneg _) (by linarith)
  have p2 : 0 ≤ absTotal o.quadratic.coeffs * X ^ 2 := mul_nonneg (absTotal_nonneg _) (by positivity)
  have p3 := abs_nonneg o.constant
  have e1 := lin_flVal h o.linear hl hx (by linarith) h2
  have e2 := quad_flVal h o.quadratic hq (quad_cols hw) hx h1 (by linarith) h3
  subst e1 e2
  have b1 := lin_abs o.linear hx
  have b2 := quad_abs o.quadratic hx
  have w1 := hc.add (lin_whole o.linear hl hx)
  have a1 : |o.constant + o.linear.val x| ≤ |o.constant| + |o.linear.val x| := abs_add_le _ _
  have a2 : |o.constant + o.linear.val x + o.quadratic.val x| ≤ |o.constant + o.linear.val x| + |o.quadratic.val x| :=
    abs_add_le _ _
  rw [fl_whole h w1 (by linarith), fl_whole h (w1.add (quad_whole o.quadratic hq hx)) (by linarith)]
  rfl

theorem whole_intCast (m : ℤ) : Whole (m : ℚ) := ⟨m, rfl⟩

theorem wholePoint_ofList (l : List ℤ) (X : ℚ) (h0 : 0 ≤ X) (h : ∀ m ∈ l, |(m : ℚ)| ≤ X) :
    WholePoint (pt (l.map fun m : ℤ => (m : ℚ))) X := by
  intro i
  by_cases hi : i < l.length
  · have : pt (l.map fun m : ℤ => (m : ℚ)) i = ((l[i] : ℤ) : ℚ) := by
      simp only [pt, List.getD_eq_getElem?_getD, List.getElem?_map, List.getElem?_eq_getElem hi]; rfl
    rw [this]
    exact ⟨whole_intCast _, h _ (List.getElem_mem hi)⟩
  · have : pt (l.map fun m : ℤ => (m : ℚ)) i = 0 := by
      simp only [pt, List.getD_eq_getElem?_getD, List.getElem?_map, List.getElem?_eq_none (not_lt.mp hi)]; rfl
    rw [this]
    exact ⟨⟨0, by simp⟩, by simpa using h0⟩

/-- `3 + 2 x - 5 x y` at `(4, -7)` meets the conditions, and can be evaluated. -/
example (fl : ℚ → ℚ) : ∃ (o : Objective) (x : Nat → ℚ) (r : ℚ), o.quadratic.WF ∧ Whole o.constant ∧ WholeDict o.linear.coeffs ∧
    WholeDict o.quadratic.coeffs ∧ WholePoint x 7 ∧
    |o.constant| + absTotal o.linear.coeffs * 7 + absTotal o.quadratic.coeffs * 7 ^ 2 < 2 ^ 53 ∧ o.FlVal fl x r ∧
    o.val x = 151 := by
  obtain ⟨r, hr⟩ := Objective.flVal_exists fl ⟨3, ⟨2, [(0, 2)]⟩, ⟨2, [((0, 1), -5)]⟩, .minimize⟩
    (pt (([4, -7] : List ℤ).map fun m : ℤ => (m : ℚ)))
  refine ⟨_, _, r, ⟨by decide, by decide, by decide⟩, whole_intCast 3, ?_, ?_, wholePoint_ofList _ 7 (by norm_num) (by decide +kernel),
    by norm_num [absTotal], hr, by decide +kernel⟩
  · intro p hp
    simp only [List.mem_singleton] at hp
    subst hp
    exact whole_intCast 2
  · intro p hp
    simp only [List.mem_singleton] at hp
    subst hp
    exact ⟨-5, by norm_num⟩

/-- The coefficients of a constraint are whole numbers, and at points with coordinates up to `X` all numbers are below `B`. -/
def Cst.WholeBelow (X B : ℚ) : Cst → Prop
  | .lin c => WholeDict c.linear.coeffs ∧ absTotal c.linear.coeffs * X < B
  | .quad c => WholeDict c.linear.coeffs ∧ WholeDict c.quadratic.coeffs ∧ c.quadratic.WF ∧
      absTotal c.linear.coeffs * X + absTotal c.quadratic.coeffs * X ^ 2 < B

/-- **C98** (constraints): likewise for the left-hand side of a constraint. -/
theorem C98_constraint {fl : ℚ → ℚ} (h : IsRounding fl) (c : Cst) (x : Nat → ℚ) (X : ℚ) (h1 : 1 ≤ X) (hx : WholePoint x X)
    (hb : c.WholeBelow X (2 ^ 53)) (r : ℚ) (hr : c.FlVal fl x r) : r = c.val x := by
  cases c with
  | lin c => exact lin_flVal h c.linear hb.1 hx hb.2 hr
  | quad c =>
    obtain ⟨hl, hq, hw, hb⟩ := hb
    obtain ⟨l, q, h2, h3, rfl⟩ := hr
    have p1 : 0 ≤ absTotal c.linear.coeffs * X := mul_nonneg (absTotal_nonneg _) (by linarith)
    have p2 : 0 ≤ absTotal c.quadratic.coeffs * X ^ 2 := mul_nonneg (absTotal_nonneg _) (by positivity)
    have e1 := lin_flVal h c.linear hl hx (by linarith) h2
    have e2 := quad_flVal h c.quadratic hq (quad_cols hw) hx h1 (by linarith) h3
    subst e1 e2
    have b1 := lin_abs c.linear hx
    have b2 := quad_abs c.quadratic hx
    have a1 : |c.linear.val x + c.quadratic.val x| ≤ |c.linear.val x| + |c.quadratic.val x| := abs_add_le _ _
    rw [fl_whole h ((lin_whole c.linear hl hx).add (quad_whole c.quadratic hq hx)) (by linarith)]
    rfl

theorem cst_abs {c : Cst} {x : Nat → ℚ} {X B : ℚ} (hx : WholePoint x X) (hb : c.WholeBelow X B) :
    Whole (c.val x) ∧ |c.val x| < B := by
  cases c with
  | lin c => exact ⟨lin_whole c.linear hb.1 hx, lt_of_le_of_lt (lin_abs c.linear hx) hb.2⟩
  | quad c =>
    obtain ⟨hl, hq, hw, hb⟩ := hb
    refine ⟨(lin_whole c.linear hl hx).add (quad_whole c.quadratic hq hx), ?_⟩
    have b1 := lin_abs c.linear hx
    have b2 := quad_abs c.quadratic hx
    have a1 : |c.linear.val x + c.quadratic.val x| ≤ |c.linear.val x| + |c.quadratic.val x| := abs_add_le _ _
    show |c.linear.val x + c.quadratic.val x| < B
    linarith

theorem wholeBelow_mono {c : Cst} {X B B' : ℚ} (hB : B ≤ B') (h : c.WholeBelow X B) : c.WholeBelow X B' := by
  cases c with
  | lin c => exact ⟨h.1, lt_of_lt_of_le h.2 hB⟩
  | quad c => exact ⟨h.1, h.2.1, h.2.2.1, lt_of_lt_of_le h.2.2.2 hB⟩

/-- The comparison of whole numbers below `10 ^ 8` is exact. -/
theorem flHolds_iff {fl : ℚ → ℚ} (h : IsRounding fl) (s : Sense) (a b : ℚ) (ha : s = .eq → Whole a ∧ |a| < 10 ^ 8)
    (hb : s = .eq → Whole b ∧ |b| < 10 ^ 8) : s.flHolds fl a b ↔ s.rel a b := by
  cases s with
  | le => exact Iff.rfl
  | ge => exact Iff.rfl
  | eq =>
    obtain ⟨wa, ba⟩ := ha rfl
    obtain ⟨wb, bb⟩ := hb rfl
    refine ⟨fun hf => ?_, fun he => Or.inl he⟩
    by_contra hne
    have hne : a ≠ b := hne
    have ht : |fl (1 / 10 ^ 9)| ≤ 2 / 10 ^ 9 := by
      have := fl_abs_le h (1 / 10 ^ 9)
      rw [abs_of_pos (show (0 : ℚ) < 1 / 10 ^ 9 by norm_num)] at this
      linarith
    have hsmall : ∀ q : ℚ, |q| < 10 ^ 8 → |fl (fl (1 / 10 ^ 9) * q)| < 1 := by
      intro q hq
      have h1 := fl_abs_le h (fl (1 / 10 ^ 9) * q)
      rw [abs_mul] at h1
      have h2 : |fl (1 / 10 ^ 9)| * |q| ≤ 2 / 10 ^ 9 * 10 ^ 8 := mul_le_mul ht hq.le (abs_nonneg _) (by norm_num)
      norm_num at h2
      linarith
    have hd : 1 ≤ |fl (b - a)| := by
      obtain ⟨m, rfl⟩ := wa
      obtain ⟨n, rfl⟩ := wb
      have hw : Whole ((n : ℚ) - m) := ⟨n - m, by push_cast; rfl⟩
      have hbd : |(n : ℚ) - m| < 2 ^ 53 := by
        have := abs_sub (n : ℚ) m
        norm_num at ba bb ⊢
        linarith
      rw [fl_whole h hw hbd]
      have hmn : m ≠ n := fun hh => hne (by rw [hh])
      have : 1 ≤ |n - m| := Int.one_le_abs (sub_ne_zero.mpr (Ne.symm hmn))
      exact_mod_cast this
    rcases hf with hf | hf | hf
    · exact hne hf
    · linarith [hsmall b bb]
    · linarith [hsmall a ba]

/-- **C98** (feasibility): with whole coefficients and a point of whole coordinates the check of feasibility computed with
rounding says "feasible" exactly for the points that satisfy the bounds and all constraints.  The numbers must be below
`2 ^ 53`, in equality constraints below `10 ^ 8`. -/
theorem C98_feasible {fl : ℚ → ℚ} (h : IsRounding fl) (p : QP) (x : Nat → ℚ) (X : ℚ) (h1 : 1 ≤ X) (hx : WholePoint x X)
    (hn : ∀ c ∈ p.allCsts, c.sense ≠ .eq → c.WholeBelow X (2 ^ 53))
    (he : ∀ c ∈ p.allCsts, c.sense = .eq → c.WholeBelow X (10 ^ 8) ∧ Whole c.rhs ∧ |c.rhs| < 10 ^ 8) (b : Bool)
    (hv : p.FlVerdict fl x b) : b = true ↔ p.InBounds x ∧ p.Sat x := by
  obtain ⟨r, hr, hv⟩ := hv
  have hb : ∀ c ∈ p.allCsts, c.WholeBelow X (2 ^ 53) := fun c hc => by
    by_cases hs : c.sense = .eq
    · exact wholeBelow_mono (by norm_num) (he c hc hs).1
    · exact hn c hc hs
  rw [hv]
  refine and_congr Iff.rfl ⟨fun hh c hc => ?_, fun hh c hc => ?_⟩
  · have := hh c hc
    rw [C98_constraint h c x X h1 hx (hb c hc) _ (hr c hc)] at this
    exact (flHolds_iff h _ _ _ (fun hs => cst_abs hx (he c hc hs).1) (fun hs => (he c hc hs).2)).mp this
  · rw [C98_constraint h c x X h1 hx (hb c hc) _ (hr c hc)]
    exact (flHolds_iff h _ _ _ (fun hs => cst_abs hx (he c hc hs).1) (fun hs => (he c hc hs).2)).mpr (hh c hc)

/-- `2 x + 3 y = 7`, for integer variables, and the point `(2, 1)`. -/
example (fl : ℚ → ℚ) : ∃ (p : QP) (x : Nat → ℚ) (b : Bool), WholePoint x 2 ∧
    (∀ c ∈ p.allCsts, c.sense = .eq → c.WholeBelow 2 (10 ^ 8) ∧ Whole c.rhs ∧ |c.rhs| < 10 ^ 8) ∧ p.allCsts.length = 1 ∧
    (∀ c ∈ p.allCsts, c.sense = .eq) ∧ p.FlVerdict fl x b := by
  obtain ⟨b, hb⟩ := QP.flVerdict_exists fl { QP.empty "e" with
      vars := [⟨"x", 0, 9, .integer⟩, ⟨"y", 0, 9, .integer⟩], lins := [⟨"c", ⟨2, [(0, 2), (1, 3)]⟩, .eq, 7⟩] }
    (pt (([2, 1] : List ℤ).map fun m : ℤ => (m : ℚ)))
  refine ⟨_, _, b, wholePoint_ofList _ 2 (by norm_num) (by decide +kernel), ?_, rfl, ?_, hb⟩
  · intro c hc _
    simp only [QP.allCsts, QP.empty, List.map_cons, List.map_nil, List.append_nil, List.mem_singleton] at hc
    subst hc
    refine ⟨⟨?_, by norm_num [absTotal]⟩, whole_intCast 7, by norm_num [Cst.rhs]⟩
    intro p hp
    simp only [List.mem_cons, List.not_mem_nil, or_false] at hp
    rcases hp with rfl | rfl
    · exact whole_intCast 2
    · exact whole_intCast 3
  · intro c hc
    simp only [QP.allCsts, QP.empty, List.map_cons, List.map_nil, List.append_nil, List.mem_singleton] at hc
    subst hc
    rfl

theorem half_grid {q : ℚ} (hq : Whole q) : OnGrid 2 (q / 2) := by
  obtain ⟨m, rfl⟩ := hq; exact ⟨2 * m, by push_cast; ring⟩

theorem quarter_grid {q : ℚ} (hq : Whole q) : OnGrid 2 (q / 4) := by
  obtain ⟨m, rfl⟩ := hq; exact ⟨m, by norm_num⟩

theorem whole_sense {q : ℚ} (hq : Whole q) (s : ObjSense) : Whole (q * s.value) :=
  hq.mul (by cases s; exacts [⟨1, by simp [ObjSense.value]⟩, ⟨-1, by simp [ObjSense.value]⟩])

theorem abs_sense (q : ℚ) (s : ObjSense) : |q * s.value| = |q| := by
  cases s <;> simp [ObjSense.value]

theorem fl_half {fl : ℚ → ℚ} (h : IsRounding fl) {q : ℚ} (hq : Whole q) (s : ObjSense) (hb : |q| < 2 ^ 51) :
    fl (fl (q * s.value) / 2) = q * s.value / 2 := by
  have hs := whole_sense hq s
  have ha := abs_sense q s
  rw [fl_whole h hs (by rw [ha]; norm_num at hb ⊢; linarith)]
  refine fl_grid h (half_grid hs) ?_
  rw [abs_div, ha, abs_of_pos (by norm_num : (0 : ℚ) < 2)]
  norm_num at hb ⊢
  linarith [abs_nonneg q]

theorem fl_quarter {fl : ℚ → ℚ} (h : IsRounding fl) {q : ℚ} (hq : Whole q) (s : ObjSense) (hb : |q| < 2 ^ 51) :
    fl (fl (q * s.value) / 4) = q * s.value / 4 := by
  have hs := whole_sense hq s
  have ha := abs_sense q s
  rw [fl_whole h hs (by rw [ha]; norm_num at hb ⊢; linarith)]
  refine fl_grid h (quarter_grid hs) ?_
  rw [abs_div, ha, abs_of_pos (by norm_num : (0 : ℚ) < 4)]
  norm_num at hb ⊢
  linarith [abs_nonneg q]

theorem fl_add51 {fl : ℚ → ℚ} (h : IsRounding fl) {a b : ℚ} (ha : OnGrid 2 a) (hb : OnGrid 2 b) (hab : |a| + |b| < 2 ^ 51) :
    fl (a + b) = a + b :=
  fl_grid h (ha.add hb) (lt_of_le_of_lt (abs_add_le _ _) (by norm_num at hab ⊢; linarith))

/-- The state of the loops of `to_ising`: numbers on the grid, and bounds. -/
structure IsingOK (T O : ℚ) (st : IsingState) : Prop where
  terms : GridDict 2 st.1
  offset : OnGrid 2 st.2
  termsLe : absTotal st.1 ≤ T
  offsetLe : |st.2| ≤ O

theorem grid_snoc {κ : Type} {d : Dict κ} (hd : GridDict 2 d) {k : κ} {v : ℚ} (hv : OnGrid 2 v) :
    GridDict 2 (d ++ [(k, v)] : List (κ × ℚ)) := by
  intro p hp
  rcases List.mem_append.mp hp with hp | hp
  · exact hd p hp
  · rw [List.mem_singleton] at hp; subst hp; exact hv

theorem absTotal_snoc {κ : Type} (d : Dict κ) (k : κ) (v : ℚ) : absTotal (d ++ [(k, v)] : List (κ × ℚ)) = absTotal d + |v| := by
  rw [absTotal_append]; simp [absTotal]

theorem isingLinearFl_eq {fl : ℚ → ℚ} (h : IsRounding fl) (n : Nat) (s : ObjSense) (l : Dict Nat) (hl : WholeDict l)
    (T O : ℚ) (st : IsingState) (hst : IsingOK T O st) (hO : O + absTotal l < 2 ^ 51) :
    isingLinearFl fl n s.value l st = isingLinear n s.value l st ∧
    ∀ st', isingLinear n s.value l st = .ok st' → IsingOK (T + absTotal l) (O + absTotal l) st' := by
  induction l generalizing st T O with
  | nil =>
    refine ⟨rfl, fun st' he => ?_⟩
    simp only [isingLinear, Except.ok.injEq] at he
    subst he
    simpa [absTotal] using hst
  | cons p l ih =>
    obtain ⟨i, c⟩ := p
    obtain ⟨terms, offset⟩ := st
    rw [absTotal_cons] at hO
    have hc : Whole c := hl (i, c) (by simp)
    have h0 := absTotal_nonneg l
    have hOn : 0 ≤ O := (abs_nonneg _).trans hst.offsetLe
    have hcb : |c| < 2 ^ 51 := by simp only at hO; linarith
    by_cases hi : i < n
    · simp only [isingLinearFl, isingLinear, hi, if_true]
      have hw : |c * s.value / 2| ≤ |c| := by
        rw [abs_div, abs_sense, abs_of_pos (by norm_num : (0 : ℚ) < 2)]; linarith [abs_nonneg c]
      have hg : OnGrid 2 (c * s.value / 2) := half_grid (whole_sense hc s)
      have ho : |offset| ≤ O := hst.offsetLe
      rw [fl_half h hc s hcb, fl_add51 h hst.offset hg (by simp only at hO; linarith)]
      have hadd : |offset + c * s.value / 2| ≤ |offset| + |c * s.value / 2| := abs_add_le _ _
      have ht : absTotal terms ≤ T := hst.termsLe
      obtain ⟨i1, i2⟩ := ih (fun q hq => hl q (by simp [hq])) (T + |c|) (O + |c|)
        (terms ++ [((zMask1 n i, noMask n), -(c * s.value / 2))], offset + c * s.value / 2)
        ⟨grid_snoc hst.terms hg.neg, hst.offset.add hg, by simp only [absTotal_snoc, abs_neg]; linarith, by simp only; linarith⟩
        (by simp only at hO; linarith)
      refine ⟨i1, fun st' he => ?_⟩
      have := i2 st' he
      rw [absTotal_cons, ← add_assoc, ← add_assoc]
      exact this
    · simp [isingLinearFl, isingLinear, hi]

theorem isingQuadraticFl_eq {fl : ℚ → ℚ} (h : IsRounding fl) (n : Nat) (s : ObjSense) (l : Dict (Nat × Nat)) (hl : WholeDict l)
    (T O : ℚ) (st : IsingState) (hst : IsingOK T O st) (hO : O + absTotal l < 2 ^ 51) :
    isingQuadraticFl fl n s.value l st = isingQuadratic n s.value l st ∧
    ∀ st', isingQuadratic n s.value l st = .ok st' → IsingOK (T + absTotal l) (O + absTotal l) st' := by
  induction l generalizing st T O with
  | nil =>
    refine ⟨rfl, fun st' he => ?_⟩
    simp only [isingQuadratic, Except.ok.injEq] at he
    subst he
    simpa [absTotal] using hst
  | cons p l ih =>
    obtain ⟨⟨i, j⟩, c⟩ := p
    obtain ⟨terms, offset⟩ := st
    rw [absTotal_cons] at hO
    have hc : Whole c := hl ((i, j), c) (by simp)
    have h0 := absTotal_nonneg l
    have hOn : 0 ≤ O := (abs_nonneg _).trans hst.offsetLe
    have hcb : |c| < 2 ^ 51 := by simp only at hO; linarith
    by_cases hi : i < n ∧ j < n
    · have hw : |c * s.value / 4| = |c| / 4 := by
        rw [abs_div, abs_sense, abs_of_pos (by norm_num : (0 : ℚ) < 4)]
      have hg : OnGrid 2 (c * s.value / 4) := quarter_grid (whole_sense hc s)
      have hcn := abs_nonneg c
      have ho : |offset| ≤ O := hst.offsetLe
      have ht : absTotal terms ≤ T := hst.termsLe
      have hadd : |offset + c * s.value / 4| ≤ |offset| + |c * s.value / 4| := abs_add_le _ _
      have hadd2 : |offset + c * s.value / 4 + c * s.value / 4| ≤ |offset + c * s.value / 4| + |c * s.value / 4| :=
        abs_add_le _ _
      simp only at hO
      by_cases hij : i = j
      · simp only [isingQuadraticFl, isingQuadratic, hi, and_self, if_true, hij]
        rw [fl_quarter h hc s hcb, fl_add51 h hst.offset hg (by linarith),
          fl_add51 h (hst.offset.add hg) hg (by linarith)]
        obtain ⟨i1, i2⟩ := ih (fun q hq => hl q (by simp [hq])) (T + |c|) (O + |c|)
          (terms ++ [((zMask1 n j, noMask n), -(c * s.value / 4))] ++ [((zMask1 n j, noMask n), -(c * s.value / 4))],
            offset + c * s.value / 4 + c * s.value / 4)
          ⟨grid_snoc (grid_snoc hst.terms hg.neg) hg.neg, (hst.offset.add hg).add hg,
            by simp only [absTotal_snoc, abs_neg]; linarith, by simp only; linarith⟩ (by linarith)
        refine ⟨i1, fun st' he => ?_⟩
        have := i2 st' he
        rw [absTotal_cons, ← add_assoc, ← add_assoc]
        exact this
      · simp only [isingQuadraticFl, isingQuadratic, hi, and_self, if_true, hij, if_false]
        rw [fl_quarter h hc s hcb, fl_add51 h hst.offset hg (by linarith)]
        obtain ⟨i1, i2⟩ := ih (fun q hq => hl q (by simp [hq])) (T + |c|) (O + |c|)
          (terms ++ [((zMask2 n i j, noMask n), c * s.value / 4)] ++ [((zMask1 n i, noMask n), -(c * s.value / 4))] ++
            [((zMask1 n j, noMask n), -(c * s.value / 4))], offset + c * s.value / 4)
          ⟨grid_snoc (grid_snoc (grid_snoc hst.terms hg) hg.neg) hg.neg, hst.offset.add hg,
            by simp only [absTotal_snoc, abs_neg]; linarith, by simp only; linarith⟩ (by linarith)
        refine ⟨i1, fun st' he => ?_⟩
        have := i2 st' he
        rw [absTotal_cons, ← add_assoc, ← add_assoc]
        exact this
    · simp [isingQuadraticFl, isingQuadratic, hi]

theorem WholeDict.grid {κ : Type} {d : Dict κ} (h : WholeDict d) : GridDict 0 d := fun p hp => (h p hp).grid

theorem mergeCoeffsFl_eq {fl : ℚ → ℚ} (h : IsRounding fl) (d : Dict (Nat × Nat)) (hd : WholeDict d) (hb : absTotal d < 2 ^ 51) :
    mergeCoeffsFl fl d = mergeCoeffs d ∧ WholeDict (mergeCoeffs d) ∧ absTotal (mergeCoeffs d) ≤ absTotal d := by
  obtain ⟨h1, h2, h3⟩ := foldl_addFl h (k := 0) (fun p : (Nat × Nat) × ℚ => if p.1.2 < p.1.1 then (p.1.2, p.1.1) else p.1)
    (fun p => p.2) d [] (by intro p hp; simp at hp) (fun p hp => (hd p hp).grid) (by
      have : (d.map fun a => |a.2|).sum = absTotal d := rfl
      rw [this]
      norm_num [absTotal] at hb ⊢
      linarith)
  have e1 : mergeCoeffsFl fl d = d.foldl (fun acc p => Dict.addFl fl acc (if p.1.2 < p.1.1 then (p.1.2, p.1.1) else p.1) p.2) [] := by
    unfold mergeCoeffsFl
    congr 1
    funext acc p
    split <;> rfl
  have e2 : mergeCoeffs d = d.foldl (fun acc p => Dict.add acc (if p.1.2 < p.1.1 then (p.1.2, p.1.1) else p.1) p.2) [] := by
    unfold mergeCoeffs
    congr 1
    funext acc p
    split <;> rfl
  rw [e1, e2]
  refine ⟨h1, fun p hp => ?_, by simpa [absTotal] using h3⟩
  obtain ⟨m, hm⟩ := h2 p hp
  exact ⟨m, by simpa using hm⟩

theorem reduceTermsFl_eq {fl : ℚ → ℚ} (h : IsRounding fl) (n : Nat) (t : Dict Pauli) (ht : GridDict 2 t)
    (hb : absTotal t < 2 ^ 51) : reduceTermsFl fl n t = reduceTerms n t := by
  obtain ⟨h1, -, -⟩ := foldl_addFl h (k := 2) (fun p : Pauli × ℚ => p.1) (fun p => p.2) t [] (by intro p hp; simp at hp) ht (by
      have : (t.map fun a => |a.2|).sum = absTotal t := rfl
      rw [this]
      norm_num [absTotal] at hb ⊢
      linarith)
  unfold reduceTermsFl reduceTerms
  rw [h1]

/-- **C98** (Ising Hamiltonian): with whole coefficients whose absolute values add to less than `2 ^ 51`, `to_ising` computed
with rounding gives exactly the operator and the offset of exact arithmetic. -/
theorem C98_ising {fl : ℚ → ℚ} (h : IsRounding fl) (p : QP) (hc : Whole p.objective.constant)
    (hl : WholeDict p.objective.linear.coeffs) (hq : WholeDict p.objective.quadratic.coeffs)
    (hb : |p.objective.constant| + absTotal p.objective.linear.coeffs + absTotal p.objective.quadratic.coeffs < 2 ^ 51) :
    p.toIsingFl fl = p.toIsing := by
  have p1 := absTotal_nonneg p.objective.linear.coeffs
  have p2 := absTotal_nonneg p.objective.quadratic.coeffs
  have p3 := abs_nonneg p.objective.constant
  have hs := whole_sense hc p.objective.sense
  have ha := abs_sense p.objective.constant p.objective.sense
  have hcs : fl (p.objective.constant * p.objective.sense.value) = p.objective.constant * p.objective.sense.value :=
    fl_whole h hs (by rw [ha]; norm_num at hb ⊢; linarith)
  have hg : OnGrid 2 (0 + p.objective.constant * p.objective.sense.value) := by
    obtain ⟨m, hm⟩ := hs
    exact ⟨4 * m, by rw [hm]; push_cast; ring⟩
  have hc0 : fl (0 + p.objective.constant * p.objective.sense.value) = 0 + p.objective.constant * p.objective.sense.value :=
    fl_grid h hg (by rw [zero_add, ha]; norm_num at hb ⊢; linarith)
  obtain ⟨m1, m2, m3⟩ := mergeCoeffsFl_eq h p.objective.quadratic.coeffs hq (by linarith)
  obtain ⟨l1, l2⟩ := isingLinearFl_eq h p.numVars p.objective.sense p.objective.linear.coeffs hl 0 |p.objective.constant|
    ([], 0 + p.objective.constant * p.objective.sense.value)
    ⟨by intro q hq; simp at hq, hg, by simp [absTotal], by simp only [zero_add, ha, le_refl]⟩ (by linarith)
  unfold QP.toIsingFl QP.toIsing
  simp only [hcs, hc0, l1, m1]
  split
  · rfl
  split
  · rfl
  cases hL : isingLinear p.numVars p.objective.sense.value p.objective.linear.coeffs
      ([], 0 + p.objective.constant * p.objective.sense.value) with
  | error e => rfl
  | ok st =>
    obtain ⟨q1, q2⟩ := isingQuadraticFl_eq h p.numVars p.objective.sense (mergeCoeffs p.objective.quadratic.coeffs) m2 _ _ st
      (l2 st hL) (by linarith)
    simp only [q1]
    cases hQ : isingQuadratic p.numVars p.objective.sense.value (mergeCoeffs p.objective.quadratic.coeffs) st with
    | error e => rfl
    | ok st' =>
      have hok := q2 st' hQ
      simp only
      rw [reduceTermsFl_eq h p.numVars st'.1 hok.terms (lt_of_le_of_lt hok.termsLe (by linarith))]

/-- The program `1 - 2 x + 4 x y` meets the conditions. -/
example : ∃ p : QP, Whole p.objective.constant ∧ WholeDict p.objective.linear.coeffs ∧ WholeDict p.objective.quadratic.coeffs ∧
    |p.objective.constant| + absTotal p.objective.linear.coeffs + absTotal p.objective.quadratic.coeffs < 2 ^ 51 ∧
    (p.toIsing.map Prod.snd).toOption = some 1 := by
  refine ⟨{ QP.empty "e" with
      vars := [⟨"x", 0, 1, .binary⟩, ⟨"y", 0, 1, .binary⟩],
      objective := ⟨1, ⟨2, [(0, -2)]⟩, ⟨2, [((0, 1), 4)]⟩, .minimize⟩ }, whole_intCast 1, ?_, ?_, by norm_num [absTotal], by decide +kernel⟩
  · intro p hp
    simp only [List.mem_singleton] at hp
    subst hp
    exact ⟨-2, by norm_num⟩
  · intro p hp
    simp only [List.mem_singleton] at hp
    subst hp
    exact whole_intCast 4

end Verif
