import Verif.FloatQubo
import Verif.PropsFloatPenalty
import Verif.PropsFloatLog
import Verif.QuboLemmas

/-!
# Lemmas on the conversion to a QUBO with floating point numbers
-/

namespace Verif

/-- `log2` gives the nearest double of the logarithm of every positive integer. -/
def IsLog2 (log2 : ℚ → ℚ) : Prop := ∀ n : ℕ, 1 ≤ n → NearestDouble (Real.logb 2 n) (log2 n : ℝ)

theorem Whole.sub {a b : ℚ} (ha : Whole a) (hb : Whole b) : Whole (a - b) := by
  rw [sub_eq_add_neg]; exact ha.add hb.neg

theorem whole_zero : Whole 0 := ⟨0, by simp⟩

theorem wholeDict_nil {κ : Type} : WholeDict ([] : Dict κ) := fun p hp => by simp at hp

theorem wholeDict_set {κ : Type} [DecidableEq κ] {d : Dict κ} (hd : WholeDict d) (k : κ) {v : ℚ} (hv : Whole v) :
    WholeDict (Assoc.set d k v) := (set_grid d hd.grid k v hv.grid).whole

theorem set_absTotal_le {κ : Type} [DecidableEq κ] (d : Dict κ) (k : κ) (v : ℚ) :
    absTotal (Assoc.set d k v) ≤ absTotal d + |v| := by
  linarith [set_absTotal d k v, abs_nonneg (Dict.get d k)]

theorem setObjectiveFl_eq {fl : ℚ → ℚ} (h : IsRounding fl) (p : QP) (sense : ObjSense) (c : ℚ) (lin : List (Key × ℚ))
    (quad : List ((Key × Key) × ℚ)) (hl : WholeDict (κ := Key) lin) (hq : WholeDict (κ := Key × Key) quad)
    (hb : absTotal (κ := Key × Key) quad < 2 ^ 51) :
    p.setObjectiveFl fl sense c lin quad = p.setObjective sense c (.dict lin) (.dict quad) ∧
      ∀ u p', p.setObjective sense c (.dict lin) (.dict quad) = (.ok u, p') → p'.objective.constant = c ∧
        WholeDict p'.objective.linear.coeffs ∧ WholeDict p'.objective.quadratic.coeffs ∧ p'.lins = p.lins ∧
        absTotal p'.objective.linear.coeffs ≤ absTotal (κ := Key) lin ∧
        absTotal p'.objective.quadratic.coeffs ≤ 3 * absTotal (κ := Key × Key) quad := by
  simp only [QP.setObjectiveFl, QP.setObjective, QuadExpr.ofInput]
  cases hlin : LinExpr.ofInput p.varsIndex p.numVars (.dict lin) with
  | error e => simp
  | ok l =>
    cases hquad : quadOfEntries p.varsIndex p.numVars quad [] with
    | error e => simp
    | ok d =>
      obtain ⟨d1, d2⟩ := quadOfEntries_whole quad [] d hq wholeDict_nil hquad
      have d2 : absTotal d ≤ absTotal (κ := Key × Key) quad := by simpa [absTotal] using d2
      obtain ⟨t1, t2, t3⟩ := triangleFl_eq h d d1 (by linarith)
      simp only [t1, true_and]
      intro u p' e
      simp only [Prod.mk.injEq, Except.ok.injEq] at e
      obtain ⟨-, rfl⟩ := e
      unfold LinExpr.ofInput at hlin
      simp only at hlin
      split at hlin
      · cases hlin
      · rename_i ld hld
        simp only [Except.ok.injEq] at hlin
        subst hlin
        obtain ⟨k1, k2⟩ := linOfEntries_whole lin [] ld hl wholeDict_nil hld
        exact ⟨rfl, k1, t2, rfl, by simpa [absTotal] using k2, by simp only; linarith⟩

/-! ## Slack variables -/

/-- The bounds of the variables are whole numbers of absolute value at most `W`. -/
def BoundsWithin (p : QP) (W : ℚ) : Prop := ∀ v ∈ p.vars, Whole v.lb ∧ Whole v.ub ∧ |v.lb| ≤ W ∧ |v.ub| ≤ W

theorem abs_min_le {a b c : ℚ} (ha : |a| ≤ c) (hb : |b| ≤ c) : |min a b| ≤ c := by
  rcases min_choice a b with e | e <;> rw [e] <;> assumption

theorem abs_max_le {a b c : ℚ} (ha : |a| ≤ c) (hb : |b| ≤ c) : |max a b| ≤ c := by
  rcases max_choice a b with e | e <;> rw [e] <;> assumption

theorem whole_min {a b : ℚ} (ha : Whole a) (hb : Whole b) : Whole (min a b) := by
  rcases min_choice a b with e | e <;> rw [e] <;> assumption

theorem whole_max {a b : ℚ} (ha : Whole a) (hb : Whole b) : Whole (max a b) := by
  rcases max_choice a b with e | e <;> rw [e] <;> assumption

theorem calcLinBoundsFl_eq {fl : ℚ → ℚ} (h : IsRounding fl) {src : QP} (hs : src.Consistent) {W : ℚ}
    (hv : BoundsWithin src W) (l : Dict String) (acc : ℚ × ℚ) (hl : WholeDict l) (h1 : Whole acc.1) (h2 : Whole acc.2)
    (b1 : |acc.1| + W * absTotal l < 2 ^ 53) (b2 : |acc.2| + W * absTotal l < 2 ^ 53) :
    calcLinBoundsFl fl src l acc = calcLinBounds src l acc ∧ ∀ r, calcLinBounds src l acc = .ok r →
      Whole r.1 ∧ Whole r.2 ∧ |r.1| ≤ |acc.1| + W * absTotal l ∧ |r.2| ≤ |acc.2| + W * absTotal l := by
  induction l generalizing acc with
  | nil =>
    refine ⟨rfl, fun r hr => ?_⟩
    simp only [calcLinBounds, Except.ok.injEq] at hr
    subst hr
    simp [absTotal, h1, h2]
  | cons p l ih =>
    obtain ⟨s, v⟩ := p
    obtain ⟨wv, hl⟩ := wholeDict_cons hl
    simp only at wv
    rw [absTotal_cons] at b1 b2 ⊢
    simp only at b1 b2 ⊢
    simp only [calcLinBoundsFl, calcLinBounds]
    cases hx : src.getVariable (.name s) with
    | error e => simp
    | ok x =>
      obtain ⟨wl, wu, bl, bu⟩ := hv x (getVariable_name_ok hs hx).1
      have nW : 0 ≤ W := le_trans (abs_nonneg _) bl
      have n1 := abs_nonneg acc.1
      have n2 := abs_nonneg acc.2
      have n3 : 0 ≤ W * absTotal l := mul_nonneg nW (absTotal_nonneg l)
      have al : |x.lb * v| ≤ W * |v| := by rw [abs_mul]; exact mul_le_mul_of_nonneg_right bl (abs_nonneg v)
      have au : |x.ub * v| ≤ W * |v| := by rw [abs_mul]; exact mul_le_mul_of_nonneg_right bu (abs_nonneg v)
      have w1 := whole_min (wl.mul wv) (wu.mul wv)
      have w2 := whole_max (wl.mul wv) (wu.mul wv)
      have a1 : |acc.1 + min (x.lb * v) (x.ub * v)| ≤ |acc.1| + W * |v| :=
        (abs_add_le _ _).trans (by linarith [abs_min_le al au])
      have a2 : |acc.2 + max (x.lb * v) (x.ub * v)| ≤ |acc.2| + W * |v| :=
        (abs_add_le _ _).trans (by linarith [abs_max_le al au])
      simp only [fl_whole h (wl.mul wv) (by linarith), fl_whole h (wu.mul wv) (by linarith),
        fl_whole h (h1.add w1) (by linarith), fl_whole h (h2.add w2) (by linarith)]
      obtain ⟨i1, i2⟩ := ih (acc.1 + min (x.lb * v) (x.ub * v), acc.2 + max (x.lb * v) (x.ub * v)) hl (h1.add w1)
        (h2.add w2) (by simp only; linarith) (by simp only; linarith)
      refine ⟨i1, fun r hr => ?_⟩
      obtain ⟨j1, j2, j3, j4⟩ := i2 r hr
      simp only at j3 j4
      exact ⟨j1, j2, by linarith, by linarith⟩

theorem roundRhs_whole {r : ℚ} (h : Whole r) (s : Sense) : roundRhs s r = r := by
  obtain ⟨m, rfl⟩ := h
  cases s with
  | le => simp only [roundRhs]; exact_mod_cast Rat.floor_intCast m
  | ge => simp only [roundRhs]; exact_mod_cast Rat.ceil_intCast m
  | eq => rfl

theorem toDictNames_whole {e : LinExpr} (h : WholeDict e.coeffs) (vars : List Variable) :
    WholeDict (e.toDictNames vars) := wholeDict_map h fun k => varName vars k

theorem toDictNames_total (e : LinExpr) (vars : List Variable) : absTotal (e.toDictNames vars) = absTotal e.coeffs :=
  absTotal_map e.coeffs fun k => varName vars k

theorem toDictNames_whole₂ {e : QuadExpr} (h : WholeDict e.coeffs) (vars : List Variable) :
    WholeDict (e.toDictNames vars) := wholeDict_map h fun k => (varName vars k.1, varName vars k.2)

theorem toDictNames_total₂ (e : QuadExpr) (vars : List Variable) : absTotal (e.toDictNames vars) = absTotal e.coeffs :=
  absTotal_map e.coeffs fun k => (varName vars k.1, varName vars k.2)

theorem i2eLinOneFl_eq {fl : ℚ → ℚ} (h : IsRounding fl) {src : QP} (hs : src.Consistent) {W : ℚ}
    (hv : BoundsWithin src W) (dst : QP) (k : LinCst) (hr : Whole k.rhs) (hk : WholeDict k.linear.coeffs)
    (hW : W * absTotal k.linear.coeffs < 2 ^ 53) (hb : |k.rhs| + W * absTotal k.linear.coeffs < 2 ^ 53) :
    i2eLinOneFl fl src dst k = i2eLinOne .integer src dst k := by
  have key : intSlackLinFl fl src dst (k.linear.toDictNames src.vars) k.sense k.rhs k.name =
      intSlackLin src dst (k.linear.toDictNames src.vars) k.sense k.rhs k.name := by
    unfold intSlackLinFl intSlackLin
    split
    · rfl
    · obtain ⟨e1, e2⟩ := calcLinBoundsFl_eq h hs hv (k.linear.toDictNames src.vars) (0, 0) (toDictNames_whole hk _)
        whole_zero whole_zero (by rw [toDictNames_total]; simpa using hW) (by rw [toDictNames_total]; simpa using hW)
      rw [e1]
      cases hc : calcLinBounds src (k.linear.toDictNames src.vars) (0, 0) with
      | error e => rfl
      | ok r =>
        obtain ⟨lb, ub⟩ := r
        obtain ⟨w1, w2, g1, g2⟩ := e2 _ hc
        rw [toDictNames_total] at g1 g2
        simp only [abs_zero, zero_add] at w1 w2 g1 g2
        have f1 : fl (k.rhs - lb) = k.rhs - lb := fl_whole h (hr.sub w1) (lt_of_le_of_lt ((abs_sub _ _).trans (by linarith)) hb)
        have f2 : fl (ub - k.rhs) = ub - k.rhs := fl_whole h (w2.sub hr) (lt_of_le_of_lt ((abs_sub _ _).trans (by linarith)) hb)
        simp only [roundRhs_whole hr, slackVarFl, slackVar, f1, f2]
        rfl
  unfold i2eLinOneFl i2eLinOne
  simp only [key]
  rfl

theorem i2eLinsFl_eq {fl : ℚ → ℚ} (h : IsRounding fl) {src : QP} (hs : src.Consistent) {W : ℚ}
    (hv : BoundsWithin src W) (l : List LinCst) (dst : QP) (hl : ∀ k ∈ l, Whole k.rhs ∧ WholeDict k.linear.coeffs ∧
      W * absTotal k.linear.coeffs < 2 ^ 53 ∧ |k.rhs| + W * absTotal k.linear.coeffs < 2 ^ 53) :
    i2eLinsFl fl src l dst = i2eLins .integer src l dst := by
  induction l generalizing dst with
  | nil => rfl
  | cons k l ih =>
    obtain ⟨h1, h2, h3, h4⟩ := hl k List.mem_cons_self
    simp only [i2eLinsFl, i2eLins, i2eLinOneFl_eq h hs hv dst k h1 h2 h3 h4]
    cases i2eLinOne .integer src dst k with
    | error e => rfl
    | ok d => exact ih d fun k hk => hl k (List.mem_cons_of_mem _ hk)

theorem ineqToEqFl_eq {fl : ℚ → ℚ} (h : IsRounding fl) {src : QP} (hs : src.Consistent) {W : ℚ}
    (hv : BoundsWithin src W) (hw : src.IsWhole) (hq : src.quads = []) (hb : absTotal src.objective.quadratic.coeffs < 2 ^ 51)
    (hl : ∀ k ∈ src.lins, |k.rhs| + W * absTotal k.linear.coeffs < 2 ^ 53) :
    src.ineqToEqFl fl = src.ineqToEq .integer := by
  unfold QP.ineqToEqFl QP.ineqToEq
  cases copyAllVars src.vars (QP.empty src.name) with
  | error e => rfl
  | ok dst =>
    obtain ⟨e1, -⟩ := setObjectiveFl_eq h dst src.objective.sense src.objective.constant
      ((src.objective.linear.toDictNames src.vars).map fun q => (.name q.1, q.2))
      ((src.objective.quadratic.toDictNames src.vars).map fun q => ((.name q.1.1, .name q.1.2), q.2))
      (wholeDict_map (toDictNames_whole hw.linear _) Key.name)
      (wholeDict_map (toDictNames_whole₂ hw.quadratic _) fun k => (Key.name k.1, Key.name k.2))
      (by rw [absTotal_map (src.objective.quadratic.toDictNames src.vars) fun k => (Key.name k.1, Key.name k.2),
        toDictNames_total₂]; exact hb)
    simp only [e1, linNames, quadNames, hq]
    have e2 : ∀ d, i2eLinsFl fl src src.lins d = i2eLins .integer src src.lins d := fun d =>
      i2eLinsFl_eq h hs hv _ d fun k hk => ⟨(hw.lins k hk).1, (hw.lins k hk).2,
        lt_of_le_of_lt (by linarith [abs_nonneg k.rhs]) (hl k hk), hl k hk⟩
    simp only [e2]
    cases dst.setObjective src.objective.sense src.objective.constant
      (.dict ((src.objective.linear.toDictNames src.vars).map fun q => (.name q.1, q.2)))
      (.dict ((src.objective.quadratic.toDictNames src.vars).map fun q => ((.name q.1.1, .name q.1.2), q.2))) with
    | mk r d =>
      cases r with
      | error e => rfl
      | ok u =>
        simp only
        cases i2eLins .integer src src.lins d <;> rfl

/-! ## Encoding of integer variables -/

theorem encodeCoeffsFl_eq {fl log2 : ℚ → ℚ} (h : IsRounding fl) (hg : IsLog2 log2) {r : ℚ} (hr : Whole r) (hb : r < 2 ^ 48) :
    encodeCoeffsFl fl log2 r = encodeCoeffs r := by
  by_cases h0 : r ≤ 0
  · simp [encodeCoeffsFl, encodeCoeffs, h0]
  · obtain ⟨n, rfl⟩ : ∃ n : ℕ, r = n := by
      obtain ⟨m, rfl⟩ := hr
      have : 0 ≤ m := by push Not at h0; exact_mod_cast h0.le
      exact ⟨m.toNat, by exact_mod_cast (Int.toNat_of_nonneg this).symm⟩
    have h1 : 1 ≤ n := by
      push Not at h0
      have : 0 < n := by exact_mod_cast h0
      omega
    have h2 : n < 2 ^ 48 := by exact_mod_cast hb
    have hC := C88_exact n h1 h2 _ (hg n h1)
    have hfloor : ⌊((log2 n : ℚ) : ℝ)⌋₊ = (log2 n).floor.toNat := by
      rw [← Int.floor_toNat, Rat.floor_cast]; rfl
    have hp : (log2 (n : ℚ)).floor.toNat = Nat.log2 n := by
      have := hC
      rw [encodeCoeffs_nat n h1, encodeCoeffsFloat, if_neg (by omega), hfloor] at this
      simp only [Except.ok.injEq] at this
      simpa using congrArg List.length this
    have hle : 2 ^ Nat.log2 n ≤ n := Nat.log2_self_le (by omega)
    have e1 : fl ((2 : ℚ) ^ Nat.log2 n - 1) = 2 ^ Nat.log2 n - 1 := by
      refine fl_whole h ⟨2 ^ Nat.log2 n - 1, by push_cast; rfl⟩ ?_
      have l1 : (1 : ℚ) ≤ 2 ^ Nat.log2 n := one_le_pow₀ (by norm_num)
      have l2 : (2 : ℚ) ^ Nat.log2 n ≤ n := by exact_mod_cast hle
      rw [abs_of_nonneg (by linarith)]
      linarith [show (2 : ℚ) ^ 48 < 2 ^ 53 by norm_num]
    have e2 : fl ((n : ℚ) - (2 ^ Nat.log2 n - 1)) = n - (2 ^ Nat.log2 n - 1) := by
      refine fl_whole h ⟨n - (2 ^ Nat.log2 n - 1), by push_cast; rfl⟩ ?_
      have l1 : (1 : ℚ) ≤ 2 ^ Nat.log2 n := one_le_pow₀ (by norm_num)
      have l2 : (2 : ℚ) ^ Nat.log2 n ≤ n := by exact_mod_cast hle
      rw [abs_of_nonneg (by linarith)]
      linarith [show (2 : ℚ) ^ 48 < 2 ^ 53 by norm_num]
    rw [← hC, encodeCoeffsFloat, if_neg (by omega), hfloor]
    simp only [encodeCoeffsFl, if_neg h0, hp, e1, e2]

theorem convertVarFl_eq {fl log2 : ℚ → ℚ} (h : IsRounding fl) (hg : IsLog2 log2) (name : String) {lb ub : ℚ} (hl : Whole lb)
    (hu : Whole ub) (hb : |ub - lb| < 2 ^ 48) : convertVarFl fl log2 name lb ub = convertVar name lb ub := by
  unfold convertVarFl convertVar
  rw [fl_whole h (hu.sub hl) (lt_trans hb (by norm_num)), encodeCoeffsFl_eq h hg (hu.sub hl) (lt_of_le_of_lt (le_abs_self _) hb)]
  rfl

theorem i2bVarsFl_eq {fl log2 : ℚ → ℚ} (h : IsRounding fl) (hg : IsLog2 log2) (l : List Variable)
    (hl : ∀ v ∈ l, Whole v.lb ∧ Whole v.ub ∧ |v.ub - v.lb| < 2 ^ 48) (conv : Conv) (dst : QP) :
    i2bVarsFl fl log2 l conv dst = i2bVars l conv dst := by
  induction l generalizing conv dst with
  | nil => rfl
  | cons x l ih =>
    obtain ⟨h1, h2, h3⟩ := hl x List.mem_cons_self
    have ih := ih fun v hv => hl v (List.mem_cons_of_mem _ hv)
    simp only [i2bVarsFl, i2bVars, convertVarFl_eq h hg x.name h1 h2 h3, ih]
    rfl

/-- An encoding of whole positive coefficients that add up to at most `W`. -/
def EncWithin (W : ℚ) (enc : List (String × ℚ)) : Prop := (∀ p ∈ enc, Whole p.2 ∧ 1 ≤ p.2) ∧ (enc.map Prod.snd).sum ≤ W

theorem convertVar_within {name : String} {lb ub W : ℚ} {enc : List (String × ℚ)} (hl : Whole lb) (hu : Whole ub)
    (hW : ub - lb ≤ W) (h : convertVar name lb ub = .ok enc) : EncWithin W enc := by
  obtain ⟨l, n, hn, e1, e2⟩ := int_range hl hu (convertVar_lt h)
  have hk := convertVar_encOK hl hu (convertVar_lt h) h
  have hsum := (hk.range (fun _ => 1) (fun _ _ => .inr rfl)).2.2
  refine ⟨fun p hp => ⟨hk.int p hp, ?_⟩, ?_⟩
  · rw [convertVar_nat name lb ub n hn (by rw [e2, e1]; ring)] at h
    simp only [Except.ok.injEq] at h
    subst h
    rcases List.mem_append.mp hp with hp | hp
    · obtain ⟨i, _, rfl⟩ := List.mem_map.mp hp
      exact one_le_pow₀ (by norm_num)
    · simp only [List.mem_singleton] at hp
      subst hp
      have : 2 ^ Nat.log2 n ≤ n := Nat.log2_self_le (by omega)
      have : 1 ≤ n - (2 ^ Nat.log2 n - 1) := by omega
      simp only
      exact_mod_cast this
  · have : (enc.map Prod.snd).sum = (enc.map fun p => 1 * p.2).sum := by simp
    rw [this]
    linarith

theorem EncWithin.total {W : ℚ} {enc : List (String × ℚ)} (h : EncWithin W enc) :
    (enc.map fun p => |p.2|).sum ≤ W ∧ (enc.length : ℚ) ≤ W := by
  obtain ⟨h1, h2⟩ := h
  have e1 : (enc.map fun p => |p.2|) = enc.map Prod.snd := List.map_congr_left fun p hp => abs_of_nonneg (by linarith [(h1 p hp).2])
  refine ⟨by rw [e1]; exact h2, le_trans ?_ h2⟩
  clear h2 e1
  induction enc with
  | nil => simp
  | cons p enc ih =>
    have := ih fun q hq => h1 q (List.mem_cons_of_mem _ hq)
    have := (h1 p List.mem_cons_self).2
    simp only [List.length_cons, List.map_cons, List.sum_cons]
    push_cast
    linarith

/-- A loop of assignments of rounded values. -/
theorem foldl_setFl {κ α : Type} [DecidableEq κ] (key : α → κ) (val val' : α → ℚ) (l : List α) (d : Dict κ)
    (hd : WholeDict d) (hl : ∀ a ∈ l, Whole (val a) ∧ val' a = val a) :
    l.foldl (fun d a => Assoc.set d (key a) (val' a)) d = l.foldl (fun d a => Assoc.set d (key a) (val a)) d ∧
      WholeDict (l.foldl (fun d a => Assoc.set d (key a) (val a)) d) ∧
      absTotal (l.foldl (fun d a => Assoc.set d (key a) (val a)) d) ≤ absTotal d + (l.map fun a => |val a|).sum := by
  induction l generalizing d with
  | nil => exact ⟨rfl, hd, by simp⟩
  | cons a l ih =>
    obtain ⟨w, e⟩ := hl a List.mem_cons_self
    obtain ⟨i1, i2, i3⟩ := ih (Assoc.set d (key a) (val a)) (wholeDict_set hd _ w) fun b hb => hl b (List.mem_cons_of_mem _ hb)
    simp only [List.foldl_cons, e, List.map_cons, List.sum_cons]
    exact ⟨i1, i2, by linarith [set_absTotal_le d (key a) (val a)]⟩

theorem sum_abs_mul {α : Type} (v : ℚ) (f : α → ℚ) (l : List α) : (l.map fun a => |v * f a|).sum = |v| * (l.map fun a => |f a|).sum := by
  induction l with
  | nil => simp
  | cons a l ih => rw [List.map_cons, List.sum_cons, ih, abs_mul, List.map_cons, List.sum_cons]; ring

/-- The encodings and the lower bounds of the variables of `src` are whole numbers within `W`. -/
def ConvWithin (src : QP) (conv : Conv) (W : ℚ) : Prop := 1 ≤ W ∧ ∀ x ∈ src.vars, Whole x.lb ∧ |x.lb| ≤ W ∧
  ∀ enc, Assoc.get? conv x.name = some enc → EncWithin W enc

theorem enc_abs_le {W : ℚ} {enc : List (String × ℚ)} (h : EncWithin W enc) {p : String × ℚ} (hp : p ∈ enc) : |p.2| ≤ W :=
  le_trans (abs_le_sum (κ := String) enc p hp) h.total.1

/-- The loop over the encoding of one variable in a linear expression. -/
theorem encLoop_eq {κ : Type} [DecidableEq κ] {fl : ℚ → ℚ} (h : IsRounding fl) {W : ℚ} {enc : List (String × ℚ)}
    (he : EncWithin W enc) (key : String → κ) {v : ℚ} (hv : Whole v) (d : Dict κ) (hd : WholeDict d) (hb : W * |v| < 2 ^ 53) :
    enc.foldl (fun d p => Assoc.set d (key p.1) (fl (v * p.2))) d = enc.foldl (fun d p => Assoc.set d (key p.1) (v * p.2)) d ∧
      WholeDict (enc.foldl (fun d p => Assoc.set d (key p.1) (v * p.2)) d) ∧
      absTotal (enc.foldl (fun d p => Assoc.set d (key p.1) (v * p.2)) d) ≤ absTotal d + W * |v| := by
  obtain ⟨e1, e2, e3⟩ := foldl_setFl (fun p : String × ℚ => key p.1) (fun p => v * p.2) (fun p => fl (v * p.2)) enc d hd
    fun p hp => by
      have w := hv.mul (he.1 p hp).1
      refine ⟨w, fl_whole h w (lt_of_le_of_lt ?_ hb)⟩
      rw [abs_mul, mul_comm]
      exact mul_le_mul_of_nonneg_right (enc_abs_le he hp) (abs_nonneg v)
  refine ⟨e1, e2, e3.trans ?_⟩
  rw [sum_abs_mul, mul_comm]
  have := mul_le_mul_of_nonneg_right he.total.1 (abs_nonneg v)
  linarith

theorem i2bLinFl_eq {fl : ℚ → ℚ} (h : IsRounding fl) {src : QP} (hs : src.Consistent) {conv : Conv} {W : ℚ}
    (hc : ConvWithin src conv W) (l lin : Dict String) (c : ℚ) (hl : WholeDict l) (hlin : WholeDict lin) (wc : Whole c)
    (hb : |c| + W * absTotal l < 2 ^ 53) :
    i2bLinFl fl src conv l lin c = i2bLin src conv l lin c ∧ ∀ r, i2bLin src conv l lin c = .ok r →
      WholeDict r.1 ∧ Whole r.2 ∧ absTotal r.1 ≤ absTotal lin + W * absTotal l ∧ |r.2| ≤ |c| + W * absTotal l := by
  obtain ⟨hW, hc⟩ := hc
  induction l generalizing lin c with
  | nil =>
    refine ⟨rfl, fun r hr => ?_⟩
    simp only [i2bLin, Except.ok.injEq] at hr
    subst hr
    exact ⟨hlin, wc, by simp [absTotal], by simp [absTotal]⟩
  | cons p l ih =>
    obtain ⟨s, v⟩ := p
    obtain ⟨wv, hl⟩ := wholeDict_cons hl
    simp only at wv
    rw [absTotal_cons] at hb ⊢
    simp only at hb ⊢
    simp only [i2bLinFl, i2bLin]
    cases hx : src.getVariable (.name s) with
    | error e => simp
    | ok x =>
      obtain ⟨wl, bl, hen⟩ := hc x (getVariable_name_ok hs hx).1
      have n1 := abs_nonneg c
      have n2 := abs_nonneg v
      have n3 : 0 ≤ W * absTotal l := mul_nonneg (by linarith) (absTotal_nonneg l)
      have n4 : |v| ≤ W * |v| := le_mul_of_one_le_left n2 hW
      simp only
      cases hg : Assoc.get? conv x.name with
      | none =>
        simp only
        obtain ⟨i1, i2⟩ := ih (Assoc.set lin x.name v) c hl (wholeDict_set hlin _ wv) wc (by linarith)
        refine ⟨i1, fun r hr => ?_⟩
        obtain ⟨j1, j2, j3, j4⟩ := i2 r hr
        exact ⟨j1, j2, by linarith [set_absTotal_le lin x.name v], by linarith⟩
      | some enc =>
        simp only
        obtain ⟨e1, e2, e3⟩ := encLoop_eq h (hen enc hg) id wv lin hlin (by linarith)
        simp only [id_eq] at e1 e2 e3
        have al : |v * x.lb| ≤ W * |v| := by
          rw [abs_mul, mul_comm]; exact mul_le_mul_of_nonneg_right bl n2
        have ac : |c + v * x.lb| ≤ |c| + W * |v| := (abs_add_le _ _).trans (by linarith)
        rw [e1, fl_whole h (wv.mul wl) (by linarith), fl_whole h (wc.add (wv.mul wl)) (by linarith)]
        obtain ⟨i1, i2⟩ := ih _ (c + v * x.lb) hl e2 (wc.add (wv.mul wl)) (by linarith)
        refine ⟨i1, fun r hr => ?_⟩
        obtain ⟨j1, j2, j3, j4⟩ := i2 r hr
        exact ⟨j1, j2, by linarith, by linarith⟩

/-- The loop over the encodings of two variables. -/
theorem encLoop₂_eq {fl : ℚ → ℚ} (h : IsRounding fl) {W : ℚ} (hW : 1 ≤ W) {ex ey : List (String × ℚ)} (hx : EncWithin W ex)
    (hy : EncWithin W ey) {v : ℚ} (hv : Whole v) (d : Dict (String × String)) (hd : WholeDict d) (hb : W ^ 2 * |v| < 2 ^ 53) :
    ex.foldl (fun d p => ey.foldl (fun d q => Assoc.set d (p.1, q.1) (fl (fl (v * p.2) * q.2))) d) d =
      ex.foldl (fun d p => ey.foldl (fun d q => Assoc.set d (p.1, q.1) (v * p.2 * q.2)) d) d ∧
      WholeDict (ex.foldl (fun d p => ey.foldl (fun d q => Assoc.set d (p.1, q.1) (v * p.2 * q.2)) d) d) ∧
      absTotal (ex.foldl (fun d p => ey.foldl (fun d q => Assoc.set d (p.1, q.1) (v * p.2 * q.2)) d) d) ≤
        absTotal d + W ^ 2 * |v| := by
  have key : ∀ l : List (String × ℚ), (∀ p ∈ l, p ∈ ex) → ∀ d : Dict (String × String), WholeDict d →
      l.foldl (fun d p => ey.foldl (fun d q => Assoc.set d (p.1, q.1) (fl (fl (v * p.2) * q.2))) d) d =
      l.foldl (fun d p => ey.foldl (fun d q => Assoc.set d (p.1, q.1) (v * p.2 * q.2)) d) d ∧
      WholeDict (l.foldl (fun d p => ey.foldl (fun d q => Assoc.set d (p.1, q.1) (v * p.2 * q.2)) d) d) ∧
      absTotal (l.foldl (fun d p => ey.foldl (fun d q => Assoc.set d (p.1, q.1) (v * p.2 * q.2)) d) d) ≤
        absTotal d + W * |v| * (l.map fun p => |p.2|).sum := by
    intro l
    induction l with
    | nil => intro _ d hd; exact ⟨rfl, hd, by simp⟩
    | cons p l ih =>
      intro hl d hd
      have hp := hl p List.mem_cons_self
      have wp := hv.mul (hx.1 p hp).1
      have ap : |v * p.2| ≤ W * |v| := by
        rw [abs_mul, mul_comm]; exact mul_le_mul_of_nonneg_right (enc_abs_le hx hp) (abs_nonneg v)
      have a2 : W * (W * |v|) = W ^ 2 * |v| := by ring
      have n1 : W * |v| ≤ W ^ 2 * |v| := by
        rw [← a2]; exact le_mul_of_one_le_left (mul_nonneg (by linarith) (abs_nonneg v)) hW
      obtain ⟨e1, e2, e3⟩ := encLoop_eq h hy (fun s => (p.1, s)) wp d hd
        (lt_of_le_of_lt (le_trans (mul_le_mul_of_nonneg_left ap (by linarith)) a2.le) hb)
      rw [abs_mul] at e3
      simp only [List.foldl_cons, fl_whole h wp (by linarith), e1, List.map_cons, List.sum_cons]
      obtain ⟨i1, i2, i3⟩ := ih (fun q hq => hl q (List.mem_cons_of_mem _ hq)) _ e2
      exact ⟨i1, i2, by linarith⟩
  obtain ⟨k1, k2, k3⟩ := key ex (fun _ hp => hp) d hd
  refine ⟨k1, k2, k3.trans ?_⟩
  have := mul_le_mul_of_nonneg_left hx.total.1 (mul_nonneg (by linarith : (0 : ℚ) ≤ W) (abs_nonneg v))
  rw [show W ^ 2 * |v| = W * |v| * W by ring]
  linarith

/-- The loop that adds the same number for all bits of a variable. -/
theorem bitLoop_eq {fl : ℚ → ℚ} (h : IsRounding fl) {W : ℚ} {enc : List (String × ℚ)} (he : EncWithin W enc) {a : ℚ}
    (ha : Whole a) (d : Dict String) (hd : WholeDict d) (hb : absTotal d + W * |a| < 2 ^ 53) :
    enc.foldl (fun d p => Dict.addFl fl d p.1 a) d = enc.foldl (fun d p => Dict.add d p.1 a) d ∧
      WholeDict (enc.foldl (fun d p => Dict.add d p.1 a) d) ∧
      absTotal (enc.foldl (fun d p => Dict.add d p.1 a) d) ≤ absTotal d + W * |a| := by
  have hsum : (enc.map fun _ => |a|).sum ≤ W * |a| := by
    rw [List.map_const', List.sum_replicate, nsmul_eq_mul]
    exact mul_le_mul_of_nonneg_right he.total.2 (abs_nonneg a)
  obtain ⟨e1, e2, e3⟩ := foldl_addFl h (k := 0) (fun p : String × ℚ => p.1) (fun _ => a) enc d hd.grid (fun _ _ => ha.grid)
    (by rw [pow_zero, div_one]; linarith)
  exact ⟨e1, e2.whole, by linarith⟩

theorem i2bQuadFl_eq {fl : ℚ → ℚ} (h : IsRounding fl) {src : QP} (hs : src.Consistent) {conv : Conv} {W : ℚ}
    (hc : ConvWithin src conv W) (l quad : Dict (String × String)) (lin : Dict String) (c : ℚ) (hl : WholeDict l)
    (hquad : WholeDict quad) (hlin : WholeDict lin) (wc : Whole c) (hb : |c| + absTotal lin + 3 * (W ^ 2 * absTotal l) < 2 ^ 53) :
    i2bQuadFl fl src conv l quad lin c = i2bQuad src conv l quad lin c ∧ ∀ r, i2bQuad src conv l quad lin c = .ok r →
      WholeDict r.1 ∧ WholeDict r.2.1 ∧ Whole r.2.2 ∧ absTotal r.1 ≤ absTotal quad + W ^ 2 * absTotal l ∧
      absTotal r.2.1 ≤ absTotal lin + 2 * (W ^ 2 * absTotal l) ∧ |r.2.2| ≤ |c| + W ^ 2 * absTotal l := by
  obtain ⟨hW, hc⟩ := hc
  induction l generalizing quad lin c with
  | nil =>
    refine ⟨rfl, fun r hr => ?_⟩
    simp only [i2bQuad, Except.ok.injEq] at hr
    subst hr
    exact ⟨hquad, hlin, wc, by simp [absTotal], by simp [absTotal], by simp [absTotal]⟩
  | cons p l ih =>
    obtain ⟨⟨si, sj⟩, v⟩ := p
    obtain ⟨wv, hl⟩ := wholeDict_cons hl
    simp only at wv
    rw [absTotal_cons] at hb ⊢
    simp only at hb ⊢
    simp only [i2bQuadFl, i2bQuad]
    cases hx : src.getVariable (.name si) with
    | error e => simp
    | ok x =>
      cases hy : src.getVariable (.name sj) with
      | error e => simp
      | ok y =>
        obtain ⟨wx, bx, hex⟩ := hc x (getVariable_name_ok hs hx).1
        obtain ⟨wy, bY, hey⟩ := hc y (getVariable_name_ok hs hy).1
        have n1 := abs_nonneg c
        have n2 := abs_nonneg v
        have n3 : 0 ≤ W ^ 2 * absTotal l := mul_nonneg (by positivity) (absTotal_nonneg l)
        have n4 : |v| ≤ W * |v| := le_mul_of_one_le_left n2 hW
        have a2 : W * (W * |v|) = W ^ 2 * |v| := by ring
        have n5 : W * |v| ≤ W ^ 2 * |v| := by
          rw [← a2]; exact le_mul_of_one_le_left (mul_nonneg (by linarith) n2) hW
        have n6 := absTotal_nonneg lin
        have ax : |v * x.lb| ≤ W * |v| := by
          rw [abs_mul, mul_comm]; exact mul_le_mul_of_nonneg_right bx n2
        have ay : |v * y.lb| ≤ W * |v| := by
          rw [abs_mul, mul_comm]; exact mul_le_mul_of_nonneg_right bY n2
        have fx : fl (v * x.lb) = v * x.lb := fl_whole h (wv.mul wx) (by linarith)
        have fy : fl (v * y.lb) = v * y.lb := fl_whole h (wv.mul wy) (by linarith)
        simp only [fx, fy]
        cases hgx : Assoc.get? conv x.name with
        | none =>
          cases hgy : Assoc.get? conv y.name with
          | none =>
            simp only
            obtain ⟨i1, i2⟩ := ih (Assoc.set quad (x.name, y.name) v) lin c hl (wholeDict_set hquad _ wv) hlin wc (by linarith)
            refine ⟨i1, fun r hr => ?_⟩
            obtain ⟨j1, j2, j3, j4, j5, j6⟩ := i2 r hr
            exact ⟨j1, j2, j3, by linarith [set_absTotal_le quad (x.name, y.name) v], by linarith, by linarith⟩
          | some ey =>
            simp only
            obtain ⟨e1, e2, e3⟩ := encLoop_eq h (hey ey hgy) (fun s => (x.name, s)) wv quad hquad (by linarith)
            have hadd := add_absTotal lin x.name (v * y.lb)
            rw [e1, addFl_eq h (k := 0) lin hlin.grid x.name _ (wv.mul wy).grid (by rw [pow_zero, div_one]; linarith)]
            obtain ⟨i1, i2⟩ := ih _ (Dict.add lin x.name (v * y.lb)) c hl e2 (add_grid lin hlin.grid _ _ (wv.mul wy).grid).whole wc
              (by linarith)
            refine ⟨i1, fun r hr => ?_⟩
            obtain ⟨j1, j2, j3, j4, j5, j6⟩ := i2 r hr
            exact ⟨j1, j2, j3, by linarith, by linarith, by linarith⟩
        | some ex =>
          cases hgy : Assoc.get? conv y.name with
          | none =>
            simp only
            obtain ⟨e1, e2, e3⟩ := encLoop_eq h (hex ex hgx) (fun s => (s, y.name)) wv quad hquad (by linarith)
            have hadd := add_absTotal lin y.name (v * x.lb)
            rw [e1, addFl_eq h (k := 0) lin hlin.grid y.name _ (wv.mul wx).grid (by rw [pow_zero, div_one]; linarith)]
            obtain ⟨i1, i2⟩ := ih _ (Dict.add lin y.name (v * x.lb)) c hl e2 (add_grid lin hlin.grid _ _ (wv.mul wx).grid).whole wc
              (by linarith)
            refine ⟨i1, fun r hr => ?_⟩
            obtain ⟨j1, j2, j3, j4, j5, j6⟩ := i2 r hr
            exact ⟨j1, j2, j3, by linarith, by linarith, by linarith⟩
          | some ey =>
            simp only
            obtain ⟨e1, e2, e3⟩ := encLoop₂_eq h hW (hex ex hgx) (hey ey hgy) wv quad hquad (by linarith)
            have mx : W * |v * x.lb| ≤ W ^ 2 * |v| := by
              rw [← a2]; exact mul_le_mul_of_nonneg_left ax (by linarith)
            have my : W * |v * y.lb| ≤ W ^ 2 * |v| := by
              rw [← a2]; exact mul_le_mul_of_nonneg_left ay (by linarith)
            obtain ⟨f1, f2, f3⟩ := bitLoop_eq h (hex ex hgx) (wv.mul wy) lin hlin (by linarith)
            obtain ⟨g1, g2, g3⟩ := bitLoop_eq h (hey ey hgy) (wv.mul wx) _ f2 (by linarith)
            have wc' := (wv.mul wx).mul wy
            have ac : |v * x.lb * y.lb| ≤ W ^ 2 * |v| := by
              rw [abs_mul, ← a2, mul_comm]
              exact mul_le_mul bY ax (abs_nonneg _) (by linarith)
            have ac' : |c + v * x.lb * y.lb| ≤ |c| + W ^ 2 * |v| := (abs_add_le _ _).trans (by linarith)
            rw [e1, f1, g1, fl_whole h wc' (by linarith), fl_whole h (wc.add wc') (by linarith)]
            obtain ⟨i1, i2⟩ := ih _ _ (c + v * x.lb * y.lb) hl e2 g2 (wc.add wc') (by linarith)
            refine ⟨i1, fun r hr => ?_⟩
            obtain ⟨j1, j2, j3, j4, j5, j6⟩ := i2 r hr
            exact ⟨j1, j2, j3, by linarith, by linarith, by linarith⟩

theorem dokPlusFl_eq {fl : ℚ → ℚ} (h : IsRounding fl) (lin ql : Dict String) (h1 : WholeDict lin) (h2 : WholeDict ql)
    (hb : absTotal lin + absTotal ql < 2 ^ 53) :
    ql.foldl (fun acc p => Dict.addFl fl acc p.1 p.2) lin = dokPlus lin ql ∧ WholeDict (dokPlus lin ql) := by
  obtain ⟨e1, e2, -⟩ := foldl_addFl h (k := 0) (fun p : String × ℚ => p.1) (fun p => p.2) ql lin h1.grid
    (fun p hp => (h2 p hp).grid) (by rw [pow_zero, div_one]; exact hb)
  exact ⟨e1, e2.whole⟩

/-- The numbers of the objective after the encoding stay below this. -/
def Objective.encSize (o : Objective) (W : ℚ) : ℚ :=
  |o.constant| + 2 * (W * absTotal o.linear.coeffs) + 4 * (W ^ 2 * absTotal o.quadratic.coeffs)

theorem i2bObjectiveFl_eq {fl : ℚ → ℚ} (h : IsRounding fl) {src : QP} (hs : src.Consistent) {conv : Conv} {W : ℚ}
    (hc : ConvWithin src conv W) (dst : QP) (hw : src.IsWhole) (hb : src.objective.encSize W < 2 ^ 51) :
    i2bObjectiveFl fl src conv dst = i2bObjective src conv dst ∧ ∀ d, i2bObjective src conv dst = .ok d →
      Whole d.objective.constant ∧ WholeDict d.objective.linear.coeffs ∧ WholeDict d.objective.quadratic.coeffs := by
  have b51 : (2 : ℚ) ^ 53 = 4 * 2 ^ 51 := two_fifty
  have p51 : (0 : ℚ) < 2 ^ 51 := by positivity
  have n0 := abs_nonneg src.objective.constant
  have n1 : 0 ≤ W * absTotal src.objective.linear.coeffs := mul_nonneg (by linarith [hc.1]) (absTotal_nonneg _)
  have n2 : 0 ≤ W ^ 2 * absTotal src.objective.quadratic.coeffs := mul_nonneg (by positivity) (absTotal_nonneg _)
  unfold Objective.encSize at hb
  obtain ⟨l1, l2⟩ := i2bLinFl_eq h hs hc (src.objective.linear.toDictNames src.vars) [] 0 (toDictNames_whole hw.linear _)
    wholeDict_nil whole_zero (by rw [toDictNames_total, abs_zero]; linarith)
  obtain ⟨q1, q2⟩ := i2bQuadFl_eq h hs hc (src.objective.quadratic.toDictNames src.vars) [] [] 0
    (toDictNames_whole₂ hw.quadratic _) wholeDict_nil wholeDict_nil whole_zero
    (by rw [toDictNames_total₂, abs_zero, show absTotal ([] : Dict String) = 0 from rfl]; linarith)
  unfold i2bObjectiveFl i2bObjective
  rw [l1, q1]
  cases hl : i2bLin src conv (src.objective.linear.toDictNames src.vars) [] 0 with
  | error e => simp
  | ok r =>
    obtain ⟨lin, lc⟩ := r
    cases hq : i2bQuad src conv (src.objective.quadratic.toDictNames src.vars) [] [] 0 with
    | error e => simp
    | ok r =>
      obtain ⟨quad, ql, qc⟩ := r
      obtain ⟨w1, w2, g1, g2⟩ := l2 _ hl
      obtain ⟨v1, v2, v3, k1, k2, k3⟩ := q2 _ hq
      rw [toDictNames_total] at g1 g2
      rw [toDictNames_total₂] at k1 k2 k3
      rw [show absTotal ([] : Dict String) = 0 from rfl] at g1 k2
      rw [show absTotal ([] : Dict (String × String)) = 0 from rfl] at k1
      simp only [abs_zero, zero_add] at w1 w2 g1 g2 v1 v2 v3 k1 k2 k3
      have wc := hw.constant.add w2
      have ac : |src.objective.constant + lc| ≤ |src.objective.constant| + |lc| := abs_add_le _ _
      have ac' : |src.objective.constant + lc + qc| ≤ |src.objective.constant + lc| + |qc| := abs_add_le _ _
      obtain ⟨d1, d2⟩ := dokPlusFl_eq h lin ql w1 v2 (by linarith)
      simp only [d1, fl_whole h wc (by linarith), fl_whole h (wc.add v3) (by linarith)]
      obtain ⟨s1, s2⟩ := setObjectiveFl_eq h dst src.objective.sense (src.objective.constant + lc + qc)
        ((dokPlus lin ql).map fun q => (.name q.1, q.2)) (quad.map fun q => ((.name q.1.1, .name q.1.2), q.2))
        (wholeDict_map d2 Key.name) (wholeDict_map v1 fun k => (Key.name k.1, Key.name k.2))
        (by rw [absTotal_map quad fun k => (Key.name k.1, Key.name k.2)]; linarith)
      simp only [s1, linNames, quadNames]
      cases hset : dst.setObjective src.objective.sense (src.objective.constant + lc + qc)
        (.dict ((dokPlus lin ql).map fun q => (.name q.1, q.2)))
        (.dict (quad.map fun q => ((.name q.1.1, .name q.1.2), q.2))) with
      | mk r d =>
        cases r with
        | error e => simp
        | ok u =>
          obtain ⟨t1, t2, t3, -⟩ := s2 u d hset
          refine ⟨rfl, fun d' e => ?_⟩
          simp only [Except.ok.injEq] at e
          subst e
          exact ⟨by rw [t1]; exact wc.add v3, t2, t3⟩

theorem i2bLinsFl_eq {fl : ℚ → ℚ} (h : IsRounding fl) {src : QP} (hs : src.Consistent) {conv : Conv} {W : ℚ}
    (hc : ConvWithin src conv W) (l : List LinCst) (dst : QP) (hl : ∀ k ∈ l, Whole k.rhs ∧ WholeDict k.linear.coeffs ∧
      |k.rhs| + W * absTotal k.linear.coeffs < 2 ^ 53) :
    i2bLinsFl fl src conv l dst = i2bLins src conv l dst ∧ ∀ d, i2bLins src conv l dst = .ok d → d.objective = dst.objective := by
  induction l generalizing dst with
  | nil => exact ⟨rfl, fun d e => by simp only [i2bLins, Except.ok.injEq] at e; rw [e]⟩
  | cons k l ih =>
    obtain ⟨wr, wk, hb⟩ := hl k List.mem_cons_self
    have n0 := abs_nonneg k.rhs
    obtain ⟨l1, l2⟩ := i2bLinFl_eq h hs hc (k.linear.toDictNames src.vars) [] 0 (toDictNames_whole wk _) wholeDict_nil
      whole_zero (by rw [toDictNames_total, abs_zero]; linarith)
    simp only [i2bLinsFl, i2bLins, l1]
    cases hk : i2bLin src conv (k.linear.toDictNames src.vars) [] 0 with
    | error e => simp
    | ok r =>
      obtain ⟨lin, c⟩ := r
      obtain ⟨w1, w2, g1, g2⟩ := l2 _ hk
      rw [toDictNames_total] at g2
      simp only [abs_zero, zero_add] at w2 g2
      simp only [fl_whole h (wr.sub w2) (lt_of_le_of_lt ((abs_sub _ _).trans (by linarith)) hb)]
      cases hd : dst.linearConstraint (linNames lin) (.sense k.sense) (k.rhs - c) (some k.name) with
      | mk r d =>
        cases r with
        | error e => simp
        | ok u =>
          obtain ⟨i1, i2⟩ := ih d fun k hk => hl k (List.mem_cons_of_mem _ hk)
          obtain ⟨_, _, _, _, _, _, _, hp⟩ := linearConstraint_ok hd
          refine ⟨i1, fun d' e => ?_⟩
          rw [i2 d' e, hp]

theorem intToBinFl_eq {fl log2 : ℚ → ℚ} (h : IsRounding fl) (hg : IsLog2 log2) {src : QP} (hs : src.WF) {W : ℚ} (hW : 1 ≤ W)
    (hW2 : W < 2 ^ 46) (hv : BoundsWithin src W) (hw : src.IsWhole) (hq : src.quads = [])
    (hb : src.objective.encSize (2 * W) < 2 ^ 51)
    (hl : ∀ k ∈ src.lins, |k.rhs| + 2 * W * absTotal k.linear.coeffs < 2 ^ 53) :
    src.intToBinFl fl log2 = src.intToBin ∧ ∀ st, src.intToBin = .ok st → Whole st.dst.objective.constant ∧
      WholeDict st.dst.objective.linear.coeffs ∧ WholeDict st.dst.objective.quadratic.coeffs := by
  unfold QP.intToBinFl QP.intToBin
  split
  · have hr : ∀ v ∈ src.vars, |v.ub - v.lb| ≤ 2 * W := fun v hm => by
      obtain ⟨-, -, a, b⟩ := hv v hm
      exact (abs_sub _ _).trans (by linarith)
    rw [i2bVarsFl_eq h hg src.vars fun v hm => ⟨(hv v hm).1, (hv v hm).2.1,
      lt_of_le_of_lt (hr v hm) (by linarith [show (2 : ℚ) ^ 48 = 4 * 2 ^ 46 by norm_num, show (0 : ℚ) < 2 ^ 46 by positivity])⟩]
    cases hV : i2bVars src.vars [] (QP.empty src.name) with
    | error e => simp
    | ok r =>
      obtain ⟨conv, dst⟩ := r
      obtain ⟨-, -, c1, c2⟩ := i2bVars_ok hV hs.cons.vars.2 (fun _ _ => rfl)
      have hc : ConvWithin src conv (2 * W) := by
        refine ⟨by linarith, fun x hx => ⟨(hv x hx).1, by linarith [(hv x hx).2.2.1], fun enc he => ?_⟩⟩
        by_cases ht : x.vartype = .integer
        · obtain ⟨e, e1, e2⟩ := c1 x hx ht
          rw [e1] at he
          cases he
          exact convertVar_within (hv x hx).1 (hv x hx).2.1 (le_trans (le_abs_self _) (hr x hx)) e2
        · rw [c2 x hx ht] at he
          cases he
      obtain ⟨o1, o2⟩ := i2bObjectiveFl_eq h hs.cons hc dst hw hb
      simp only [o1]
      cases hO : i2bObjective src conv dst with
      | error e => simp
      | ok d =>
        obtain ⟨m1, m2⟩ := i2bLinsFl_eq h hs.cons hc src.lins d fun k hk =>
          ⟨(hw.lins k hk).1, (hw.lins k hk).2, hl k hk⟩
        simp only [m1]
        cases hM : i2bLins src conv src.lins d with
        | error e => simp
        | ok d' =>
          simp only [hq, i2bQuads, Except.ok.injEq, true_and]
          rintro st rfl
          rw [m2 d' hM]
          exact o2 d hO
  · refine ⟨rfl, fun st e => ?_⟩
    simp only [Except.ok.injEq] at e
    subst e
    exact ⟨hw.constant, hw.linear, hw.quadratic⟩

end Verif
