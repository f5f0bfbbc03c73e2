import Verif.Spec
import Verif.PropsProgram

/-!
# C06 (feasible points), C07, C08: feasibility
-/

namespace Verif

/-! ## C07 -/

theorem violates_iff (s : Sense) (a b : ℚ) : violates s a b = true ↔ ¬ s.relTol a b := by
  cases s with
  | le => simp [violates, Sense.relTol]
  | ge => simp [violates, Sense.relTol]
  | eq =>
    have : max (1 / 10 ^ 9 * max |a| |b|) 0 = 1 / 10 ^ 9 * max |a| |b| := by
      apply max_eq_left
      have : 0 ≤ max |a| |b| := le_max_of_le_left (abs_nonneg a)
      positivity
    simp only [violates, Sense.relTol, isclose, this]
    simp

theorem Cst.evaluate_ok {c : Cst} {n : Nat} (hs : c.HasShape n) {x : List ℚ} (hx : x.length = n) :
    c.evaluate x = .ok (c.val (pt x)) := by
  cases c with
  | lin c =>
    simp only [Cst.HasShape] at hs
    exact LinExpr.evaluate_ok (hx.trans hs.symm)
  | quad c =>
    simp only [Cst.HasShape] at hs
    simp only [Cst.evaluate, LinExpr.evaluate_ok (hx.trans hs.1.symm),
      QuadExpr.evaluate_ok (hx.trans hs.2.symm), Cst.val]

open Classical in
theorem violatedCsts_ok (cs : List Cst) (n : Nat) (hs : ∀ c ∈ cs, c.HasShape n) (x : List ℚ)
    (hx : x.length = n) :
    violatedCsts x cs = .ok (cs.filter fun c => decide (¬ c.sense.relTol (c.val (pt x)) c.rhs)) := by
  induction cs with
  | nil => rfl
  | cons c cs ih =>
    simp only [violatedCsts, Cst.evaluate_ok (hs c (by simp)) hx,
      ih (fun c hc => hs c (by simp [hc]))]
    congr 1
    rw [List.filter_cons]
    by_cases h : c.sense.relTol (c.val (pt x)) c.rhs
    · have : violates c.sense (c.val (pt x)) c.rhs ≠ true := fun hc => (violates_iff _ _ _).mp hc h
      simp [this, h]
    · have : violates c.sense (c.val (pt x)) c.rhs = true := (violates_iff _ _ _).mpr h
      simp [this, h]

theorem violatedVars_eq (x : List ℚ) (vs : List Variable) :
    violatedVars x vs = ((x.zip vs).filter fun p => decide (¬ (p.2.lb ≤ p.1 ∧ p.1 ≤ p.2.ub))).map Prod.snd := by
  induction x generalizing vs with
  | nil => simp [violatedVars]
  | cons a x ih =>
    cases vs with
    | nil => simp [violatedVars]
    | cons v vs =>
      simp only [violatedVars, List.zip_cons_cons, List.filter_cons]
      by_cases h : v.lb ≤ a ∧ a ≤ v.ub
      · have : ¬ (a < v.lb ∨ v.ub < a) := by push Not; exact h
        simp only [this, if_false, h, not_true, decide_false]
        simpa using ih vs
      · have : a < v.lb ∨ v.ub < a := by
          by_contra hc; push Not at hc; exact h hc
        simp only [this, if_true, h, not_false_iff, decide_true, List.map_cons]
        rw [ih vs]

theorem violatedVars_nil_iff {x : List ℚ} {vs : List Variable} (h : x.length = vs.length) :
    violatedVars x vs = [] ↔ ∀ i v, vs[i]? = some v → v.lb ≤ pt x i ∧ pt x i ≤ v.ub := by
  rw [violatedVars_eq]
  simp only [List.map_eq_nil_iff, List.filter_eq_nil_iff, decide_eq_true_eq, not_not]
  constructor
  · intro hall i v hv
    have hi : i < vs.length := (List.getElem?_eq_some_iff.mp hv).1
    have hi' : i < x.length := h ▸ hi
    have hm : (x[i], v) ∈ x.zip vs := by
      rw [List.mem_iff_getElem?]
      exact ⟨i, by rw [List.getElem?_zip_eq_some]; simp [hi', hv]⟩
    have := hall _ hm
    simpa [pt, List.getD_eq_getElem?_getD, hi'] using this
  · rintro hall ⟨a, v⟩ hm
    obtain ⟨i, hi⟩ := List.mem_iff_getElem?.mp hm
    rw [List.getElem?_zip_eq_some] at hi
    have := hall i v hi.2
    simpa [pt, List.getD_eq_getElem?_getD, hi.1] using this

open Classical in
/-- **C07** (violations): for a point of the right length the result lists exactly the variables whose
bounds are violated and exactly the constraints that are violated, each in order, and says feasible iff
there are none. -/
theorem C07_info (p : QP) (hs : ∀ c ∈ p.allCsts, c.HasShape p.numVars) (x : List ℚ)
    (hx : x.length = p.numVars) :
    ∃ b vv vc, p.getFeasibilityInfo x = .ok (b, vv, vc) ∧
      vv = ((x.zip p.vars).filter fun q => decide (¬ (q.2.lb ≤ q.1 ∧ q.1 ≤ q.2.ub))).map Prod.snd ∧
      vc = p.allCsts.filter (fun c => decide (¬ c.sense.relTol (c.val (pt x)) c.rhs)) ∧
      (b = true ↔ vv = [] ∧ vc = []) := by
  refine ⟨(violatedVars x p.vars).isEmpty &&
      (p.allCsts.filter fun c => decide (¬ c.sense.relTol (c.val (pt x)) c.rhs)).isEmpty,
    _, _, ?_, (violatedVars_eq x p.vars), rfl, ?_⟩
  · have he : p.csts = p.allCsts := rfl
    simp [QP.getFeasibilityInfo, hx, he, violatedCsts_ok p.allCsts _ hs x hx]
  · simp only [Bool.and_eq_true, List.isEmpty_iff]

/-- **C07** (verdict): `is_feasible` says `True` iff all bounds hold, all inequalities hold exactly and all
equalities hold up to the relative tolerance. -/
theorem C07_isFeasible (p : QP) (hs : ∀ c ∈ p.allCsts, c.HasShape p.numVars) (x : List ℚ)
    (hx : x.length = p.numVars) :
    ∃ b, p.isFeasible x = .ok b ∧
      (b = true ↔ p.InBounds (pt x) ∧ ∀ c ∈ p.allCsts, c.sense.relTol (c.val (pt x)) c.rhs) := by
  classical
  obtain ⟨b, vv, vc, h, h1, h2, h3⟩ := C07_info p hs x hx
  refine ⟨b, by simp [QP.isFeasible, h], ?_⟩
  rw [h3, h1, ← violatedVars_eq, violatedVars_nil_iff hx, h2]
  simp only [List.filter_eq_nil_iff, decide_eq_true_eq, not_not, QP.InBounds]

/-- **C07** (wrong length): rejected. -/
theorem C07_length (p : QP) (x : List ℚ) (hx : x.length ≠ p.numVars) :
    p.getFeasibilityInfo x = .error .optimization ∧ p.isFeasible x = .error .optimization := by
  simp [QP.getFeasibilityInfo, QP.isFeasible, hx]

theorem rel_imp_relTol {s : Sense} {a b : ℚ} (h : s.rel a b) : s.relTol a b := by
  cases s with
  | le => exact h
  | ge => exact h
  | eq =>
    simp only [Sense.rel] at h; subst h
    simp only [Sense.relTol, sub_self, abs_zero]
    have : 0 ≤ max |a| |a| := le_max_of_le_left (abs_nonneg a)
    positivity

/-- **C07** (no false alarm): a point that satisfies everything exactly is reported feasible. -/
theorem C07_complete (p : QP) (hs : ∀ c ∈ p.allCsts, c.HasShape p.numVars) (x : List ℚ)
    (hx : x.length = p.numVars) (hb : p.InBounds (pt x)) (hsat : p.Sat (pt x)) :
    p.isFeasible x = .ok true := by
  obtain ⟨b, h, h'⟩ := C07_isFeasible p hs x hx
  rw [h]
  congr 1
  exact h'.mpr ⟨hb, fun c hc => rel_imp_relTol (hsat c hc)⟩

theorem relTol_eq_of_int {m k : Int} (hm : |m| < 10 ^ 9) (hk : |k| < 10 ^ 9)
    (h : Sense.eq.relTol (m : ℚ) (k : ℚ)) : m = k := by
  simp only [Sense.relTol] at h
  by_contra hne
  have h1 : (1 : ℚ) ≤ |(m : ℚ) - k| := by
    have : (1 : Int) ≤ |m - k| := Int.one_le_abs (sub_ne_zero.mpr hne)
    exact_mod_cast this
  have h2 : max |(m : ℚ)| |(k : ℚ)| < 10 ^ 9 := by
    apply max_lt
    · exact_mod_cast hm
    · exact_mod_cast hk
  have : 1 / 10 ^ 9 * max |(m : ℚ)| |(k : ℚ)| < 1 := by
    rw [one_div, inv_mul_lt_iff₀ (by positivity)]; simpa using h2
  linarith

/-- **C07** (exactness on integral data): if the sides of the equality constraints are integers below 10^9
in absolute value, the verdict is exact. -/
theorem C07_exact (p : QP) (hs : ∀ c ∈ p.allCsts, c.HasShape p.numVars) (x : List ℚ)
    (hx : x.length = p.numVars)
    (hint : ∀ c ∈ p.allCsts, c.sense = .eq → ∃ m k : Int, c.val (pt x) = m ∧ c.rhs = k ∧
      |m| < 10 ^ 9 ∧ |k| < 10 ^ 9) :
    p.isFeasible x = .ok true ↔ p.InBounds (pt x) ∧ p.Sat (pt x) := by
  obtain ⟨b, h, h'⟩ := C07_isFeasible p hs x hx
  rw [h]
  constructor
  · intro hb
    simp at hb
    obtain ⟨h1, h2⟩ := h'.mp hb
    refine ⟨h1, fun c hc => ?_⟩
    have := h2 c hc
    cases hsn : c.sense with
    | le => rw [hsn] at this; exact this
    | ge => rw [hsn] at this; exact this
    | eq =>
      rw [hsn] at this
      obtain ⟨m, k, e1, e2, e3, e4⟩ := hint c hc hsn
      rw [e1, e2] at this ⊢
      exact congrArg _ (relTol_eq_of_int e3 e4 this)
  · rintro ⟨h1, h2⟩
    congr 1
    exact h'.mpr ⟨h1, fun c hc => rel_imp_relTol (h2 c hc)⟩

/-- A program with two variables, an equality and a quadratic inequality. -/
def exampleCalls : List Call := [.addVars (.count 2) 0 3 .integer none (.hole "" ""),
  .linear (.dict [(.name "x0", 1), (.name "x1", 2)]) (.str "==") 4 none,
  .quadratic (.dict [(.idx 0, 1)]) (.dict [((.idx 1, .idx 0), 1)]) (.str "<=") 5 none]

def exampleQP : QP := (runCalls (QP.empty "e") exampleCalls).2

example : (∀ c ∈ exampleQP.allCsts, c.HasShape exampleQP.numVars) ∧ exampleQP.isFeasible [2, 1] = .ok true ∧
    exampleQP.isFeasible [0, 1] = .ok false := by decide +kernel

/-! ## C06: removal and feasible points -/

theorem isFeasible_remove_aux (p p' : QP) (hv : p'.vars = p.vars) (c : Cst) (cs ds : List Cst)
    (hp : p.allCsts = cs ++ c :: ds) (hp' : p'.allCsts = cs ++ ds)
    (hs : ∀ c ∈ p.allCsts, c.HasShape p.numVars) (x : List ℚ) :
    p.isFeasible x = .ok true ↔
      p'.isFeasible x = .ok true ∧ c.sense.relTol (c.val (pt x)) c.rhs := by
  have hn : p'.numVars = p.numVars := by simp [QP.numVars, hv]
  by_cases hx : x.length = p.numVars
  · have hs' : ∀ c ∈ p'.allCsts, c.HasShape p'.numVars := by
      intro d hd
      rw [hn]
      apply hs
      rw [hp]; rw [hp'] at hd
      simp only [List.mem_append, List.mem_cons] at hd ⊢
      tauto
    obtain ⟨b, h, hb⟩ := C07_isFeasible p hs x hx
    obtain ⟨b', h', hb'⟩ := C07_isFeasible p' hs' x (hx.trans hn.symm)
    rw [h, h']
    simp only [Except.ok.injEq]
    rw [hb, hb', hp, hp']
    simp only [QP.InBounds, hv, List.mem_append, List.mem_cons]
    constructor
    · rintro ⟨h1, h2⟩
      exact ⟨⟨h1, fun d hd => h2 d (by tauto)⟩, h2 c (by simp)⟩
    · rintro ⟨⟨h1, h2⟩, h3⟩
      refine ⟨h1, fun d hd => ?_⟩
      rcases hd with hd | rfl | hd
      · exact h2 d (Or.inl hd)
      · exact h3
      · exact h2 d (Or.inr hd)
  · rw [(C07_length p x hx).2, (C07_length p' x (by rw [hn]; exact hx)).2]
    simp

/-- **C06** (feasibility, linear): a point is feasible for the old program iff it is feasible for the new
one and satisfies the removed constraint. -/
theorem C06_feasible_linear (p : QP) (hc : p.Consistent) (hs : ∀ c ∈ p.allCsts, c.HasShape p.numVars)
    (k : Key) (c : LinCst) (h : p.getLinearConstraint k = .ok c) (x : List ℚ) :
    ∃ p', p.removeLinear k = (.ok (), p') ∧
      (p.isFeasible x = .ok true ↔
        p'.isFeasible x = .ok true ∧ c.sense.relTol (c.linear.val (pt x)) c.rhs) := by
  obtain ⟨p', l₁, l₂, hr, h1, h2, h3, _⟩ := C06_removeLinear p hc k c h
  refine ⟨p', hr, ?_⟩
  apply isFeasible_remove_aux p p' (by rw [h3]) (.lin c) (l₁.map .lin) (l₂.map .lin ++ p.quads.map .quad)
    (by simp [QP.allCsts, h1]) (by rw [QP.allCsts, h2, h3]; simp) hs x

/-- **C06** (feasibility, quadratic). -/
theorem C06_feasible_quadratic (p : QP) (hc : p.Consistent) (hs : ∀ c ∈ p.allCsts, c.HasShape p.numVars)
    (k : Key) (c : QuadCst) (h : p.getQuadraticConstraint k = .ok c) (x : List ℚ) :
    ∃ p', p.removeQuadratic k = (.ok (), p') ∧
      (p.isFeasible x = .ok true ↔
        p'.isFeasible x = .ok true ∧
          c.sense.relTol (c.linear.val (pt x) + c.quadratic.val (pt x)) c.rhs) := by
  obtain ⟨p', l₁, l₂, hr, h1, h2, h3, _⟩ := C06_removeQuadratic p hc k c h
  refine ⟨p', hr, ?_⟩
  apply isFeasible_remove_aux p p' (by rw [h3]) (.quad c) (p.lins.map .lin ++ l₁.map .quad) (l₂.map .quad)
    (by simp [QP.allCsts, h1]) (by rw [QP.allCsts, h2, h3]; simp) hs x

example : exampleQP.Consistent ∧ ∃ c, exampleQP.getQuadraticConstraint (.name "q0") = .ok c :=
  ⟨runCalls_consistent (p := QP.empty "e") (p' := exampleQP) (cs := exampleCalls) (by decide +kernel) (QP.empty_consistent _),
   ⟨"q0", ⟨2, [(0, 1)]⟩, ⟨2, [((0, 1), 1)]⟩, .le, 5⟩, by decide +kernel⟩

/-! ## C08 -/

/-- **C08 fails**: a fractional value of an integer variable is reported feasible. -/
theorem C08_violated : ∃ (p : QP) (x : List ℚ), p.ShapeOK ∧ p.isFeasible x = .ok true ∧
    ¬ p.Integral (pt x) := by
  refine ⟨(runCalls (QP.empty "") [.addVar 0 3 .integer (some "n"),
    .objective .minimize 0 (.dict []) (.dict [])]).2, [1/2], by decide +kernel, by decide +kernel, ?_⟩
  · intro h
    obtain ⟨z, hz⟩ := h 0 ⟨"n", 0, 3, .integer⟩ (by decide +kernel) (by simp)
    simp [pt] at hz
    have : ((1 : Int) : ℚ) = ((2 * z : Int) : ℚ) := by push_cast; linarith
    have := Int.cast_injective this
    omega

/-- **C08, the part that holds**.  Full statement: `is_feasible(x)` implies `p.Integral (pt x)`.  Missing
(and false, `C08_violated`): integrality; the code only checks bounds and constraints.  What is proved: a
feasible point respects all bounds, so a binary variable (bounds inside `[0, 1]`) has a value in `[0, 1]`. -/
theorem C08_types_partial (p : QP) (hs : ∀ c ∈ p.allCsts, c.HasShape p.numVars) (x : List ℚ)
    (h : p.isFeasible x = .ok true) :
    p.InBounds (pt x) ∧ ∀ i v, p.vars[i]? = some v → 0 ≤ v.lb → v.ub ≤ 1 → 0 ≤ pt x i ∧ pt x i ≤ 1 := by
  by_cases hx : x.length = p.numVars
  · obtain ⟨b, hb, hiff⟩ := C07_isFeasible p hs x hx
    rw [hb] at h
    simp at h
    have := (hiff.mp h).1
    refine ⟨this, fun i v hv h0 h1 => ?_⟩
    have := this i v hv
    exact ⟨h0.trans this.1, this.2.trans h1⟩
  · rw [(C07_length p x hx).2] at h; simp at h

example : exampleQP.isFeasible [2, 1] = .ok true := by decide +kernel

/-! ## C54: programs can be evaluated at points of their own dimension -/

/-- **C54 fails**: the number of columns of an expression is fixed when it is created, so a constraint or
objective created before a variable cannot be evaluated at any point of the final dimension: `is_feasible`
and `objective.evaluate` raise for every point of the right length. -/
theorem C54_violated : ∃ (cs : List Call) (p : QP), runCalls (QP.empty "") cs = (.ok (), p) ∧
    p.numVars = 2 ∧ ∀ x : List ℚ, x.length = p.numVars →
      p.isFeasible x = .error .valueError ∧ p.objective.evaluate x = .error .valueError := by
  refine ⟨[.addVar 0 1 .binary (some "x"), .objective .minimize 0 (.dict [(.name "x", 1)]) (.dict []),
    .linear (.dict [(.name "x", 1)]) (.str "<=") 1 none, .addVar 0 1 .binary (some "y")],
    ⟨"", .valid, [⟨"x", 0, 1, .binary⟩, ⟨"y", 0, 1, .binary⟩], [("x", 0), ("y", 1)],
      [⟨"c0", ⟨1, [(0, 1)]⟩, .le, 1⟩], [("c0", 0)], [], [],
      ⟨0, ⟨1, [(0, 1)]⟩, ⟨1, []⟩, .minimize⟩⟩, by decide +kernel, rfl, ?_⟩
  intro x hx
  have hx2 : x.length = 2 := hx
  constructor
  · simp [QP.isFeasible, QP.getFeasibilityInfo, QP.numVars, hx2, QP.csts, violatedCsts, Cst.evaluate,
      LinExpr.evaluate]
  · simp [Objective.evaluate, LinExpr.evaluate, hx2]

/-- The call creates no variable. -/
def Call.noVars : Call → Bool
  | .addVars .. => false
  | .addVar .. => false
  | .clear => false
  | _ => true

/-- The call gives its coefficients by dictionaries. -/
def Call.dictInput : Call → Bool
  | .linear (.dict _) _ _ _ => true
  | .quadratic (.dict _) (.dict _) _ _ _ => true
  | .objective _ _ (.dict _) (.dict _) => true
  | .linear .. => false
  | .quadratic .. => false
  | .objective .. => false
  | .edit (.lin _ (.linear (.dict _))) => true
  | .edit (.quad _ (.linear (.dict _))) => true
  | .edit (.quad _ (.quadratic (.dict _))) => true
  | .edit (.obj (.linear (.dict _))) => true
  | .edit (.obj (.quadratic (.dict _))) => true
  | .edit (.lin _ (.linear _)) => false
  | .edit (.quad _ (.linear _)) => false
  | .edit (.quad _ (.quadratic _)) => false
  | .edit (.obj (.linear _)) => false
  | .edit (.obj (.quadratic _)) => false
  | _ => true

theorem LinExpr.ofInput_dict_n {vi : Assoc String Nat} {n : Nat} {l : List (Key × ℚ)} {e : LinExpr}
    (h : LinExpr.ofInput vi n (.dict l) = .ok e) : e.n = n := by
  simp only [LinExpr.ofInput] at h
  split at h <;> simp at h; rw [← h]

theorem QuadExpr.ofInput_dict_n {vi : Assoc String Nat} {n : Nat} {l : List ((Key × Key) × ℚ)} {e : QuadExpr}
    (h : QuadExpr.ofInput vi n (.dict l) = .ok e) : e.n = n := by
  simp only [QuadExpr.ofInput] at h
  split at h <;> simp at h; rw [← h]

/-- All constraints have the shape of the program. -/
def QP.CstShape (p : QP) : Prop :=
  (∀ c ∈ p.lins, c.linear.n = p.numVars) ∧
  ∀ c ∈ p.quads, c.linear.n = p.numVars ∧ c.quadratic.n = p.numVars

theorem QP.csts_hasShape_iff (p : QP) :
    (∀ c ∈ p.allCsts, c.HasShape p.numVars) ↔ p.CstShape := by
  simp only [QP.allCsts, List.mem_append, List.mem_map, QP.CstShape]
  constructor
  · intro h
    exact ⟨fun c hc => h (.lin c) (Or.inl ⟨c, hc, rfl⟩), fun c hc => h (.quad c) (Or.inr ⟨c, hc, rfl⟩)⟩
  · rintro ⟨h1, h2⟩ c (⟨d, hd, rfl⟩ | ⟨d, hd, rfl⟩)
    · exact h1 d hd
    · exact h2 d hd

theorem edit_shape {p p' : QP} {e : Edit} (h : p.edit e = .ok p') (hd : (Call.edit e).dictInput = true)
    (hs : p.CstShape) :
    p'.CstShape ∧ p'.numVars = p.numVars ∧
      ((p.objective.linear.n = p.numVars ∧ p.objective.quadratic.n = p.numVars) →
        p'.objective.linear.n = p.numVars ∧ p'.objective.quadratic.n = p.numVars) := by
  rcases QP.edit_cases h with ⟨s, _, rfl⟩ | ⟨i, t, x, _, hx, rfl⟩ | ⟨i, d, c, c', rfl, hx, hc, rfl⟩ |
    ⟨i, d, c, c', rfl, hx, hc, rfl⟩ | ⟨d, o, rfl, hc, rfl⟩
  · exact ⟨hs, rfl, id⟩
  · exact ⟨by simpa [QP.CstShape, QP.numVars] using hs, by simp [QP.numVars], id⟩
  · refine ⟨⟨?_, hs.2⟩, rfl, id⟩
    intro b hb
    rcases List.mem_or_eq_of_mem_set hb with hb | rfl
    · exact hs.1 b hb
    · have h0 := hs.1 c (List.mem_of_getElem? hx)
      rcases LinCst.edit_cases hc with ⟨_, _, rfl⟩ | ⟨_, _, rfl⟩ | ⟨l, f, rfl, hf, rfl⟩ | ⟨k, v, f, rfl, hf, rfl⟩
      · exact h0
      · exact h0
      · cases l with
        | dict l => exact LinExpr.ofInput_dict_n hf
        | list l => simp [Call.dictInput] at hd
        | sparse l => simp [Call.dictInput] at hd
      · exact (LinExpr.setItem_n hf).trans h0
  · refine ⟨⟨hs.1, ?_⟩, rfl, id⟩
    intro b hb
    rcases List.mem_or_eq_of_mem_set hb with hb | rfl
    · exact hs.2 b hb
    · have h0 := hs.2 c (List.mem_of_getElem? hx)
      rcases QuadCst.edit_cases hc with ⟨_, _, rfl⟩ | ⟨_, _, rfl⟩ | ⟨l, f, rfl, hf, rfl⟩ | ⟨l, f, rfl, hf, rfl⟩ |
        ⟨k, v, f, rfl, hf, rfl⟩ | ⟨k, k', v, f, rfl, hf, rfl⟩
      · exact h0
      · exact h0
      · cases l with
        | dict l => exact ⟨LinExpr.ofInput_dict_n hf, h0.2⟩
        | list l => simp [Call.dictInput] at hd
        | sparse l => simp [Call.dictInput] at hd
      · cases l with
        | dict l => exact ⟨h0.1, QuadExpr.ofInput_dict_n hf⟩
        | matrix l => simp [Call.dictInput] at hd
        | sparse l => simp [Call.dictInput] at hd
      · exact ⟨(LinExpr.setItem_n hf).trans h0.1, h0.2⟩
      · exact ⟨h0.1, (QuadExpr.setItem_n hf).trans h0.2⟩
  · refine ⟨hs, rfl, fun h0 => ?_⟩
    rcases Objective.edit_cases hc with ⟨_, _, rfl⟩ | ⟨_, _, rfl⟩ | ⟨l, f, rfl, hf, rfl⟩ | ⟨l, f, rfl, hf, rfl⟩ |
      ⟨k, v, f, rfl, hf, rfl⟩ | ⟨k, k', v, f, rfl, hf, rfl⟩
    · exact h0
    · exact h0
    · cases l with
      | dict l => exact ⟨LinExpr.ofInput_dict_n hf, h0.2⟩
      | list l => simp [Call.dictInput] at hd
      | sparse l => simp [Call.dictInput] at hd
    · cases l with
      | dict l => exact ⟨h0.1, QuadExpr.ofInput_dict_n hf⟩
      | matrix l => simp [Call.dictInput] at hd
      | sparse l => simp [Call.dictInput] at hd
    · exact ⟨(LinExpr.setItem_n hf).trans h0.1, h0.2⟩
    · exact ⟨h0.1, (QuadExpr.setItem_n hf).trans h0.2⟩

theorem apply_shape {p p' : QP} {c : Call} (h : c.apply p = (.ok (), p')) (hv : c.noVars = true)
    (hd : c.dictInput = true) (hs : p.CstShape) :
    p'.CstShape ∧ p'.numVars = p.numVars ∧
      ((p.objective.linear.n = p.numVars ∧ p.objective.quadratic.n = p.numVars) →
        p'.objective.linear.n = p.numVars ∧ p'.objective.quadratic.n = p.numVars) ∧
      (∀ s k l q, c = .objective s k l q →
        p'.objective.linear.n = p.numVars ∧ p'.objective.quadratic.n = p.numVars) := by
  cases c with
  | addVars => simp [Call.noVars] at hv
  | addVar => simp [Call.noVars] at hv
  | clear => simp [Call.noVars] at hv
  | linear l s r nm =>
    cases l with
    | list => simp [Call.dictInput] at hd
    | sparse => simp [Call.dictInput] at hd
    | dict l =>
      simp only [Call.apply, QP.linearConstraint] at h
      split at h
      · simp [Res.drop] at h
      · split at h
        · simp [Res.drop] at h
        · split at h
          · simp [Res.drop] at h
          · rename_i e he
            simp [Res.drop] at h; subst h
            have hn := LinExpr.ofInput_dict_n he
            refine ⟨⟨?_, hs.2⟩, rfl, id, by simp⟩
            intro c hc
            rcases List.mem_append.mp hc with hc | hc
            · exact hs.1 c hc
            · simp at hc; subst hc; exact hn
  | quadratic l q s r nm =>
    cases l with
    | list => simp [Call.dictInput] at hd
    | sparse => simp [Call.dictInput] at hd
    | dict l =>
      cases q with
      | matrix => simp [Call.dictInput] at hd
      | sparse => simp [Call.dictInput] at hd
      | dict q =>
        simp only [Call.apply, QP.quadraticConstraint] at h
        split at h
        · simp [Res.drop] at h
        · split at h
          · simp [Res.drop] at h
          · split at h
            · simp [Res.drop] at h
            · rename_i e he
              split at h
              · simp [Res.drop] at h
              · rename_i f hf
                simp [Res.drop] at h; subst h
                have hn := LinExpr.ofInput_dict_n he
                have hn' := QuadExpr.ofInput_dict_n hf
                refine ⟨⟨hs.1, ?_⟩, rfl, id, by simp⟩
                intro c hc
                rcases List.mem_append.mp hc with hc | hc
                · exact hs.2 c hc
                · simp at hc; subst hc; exact ⟨hn, hn'⟩
  | removeLin k =>
    simp only [Call.apply, QP.removeLinear] at h
    split at h
    · simp at h
    · split at h
      · simp at h; subst h
        exact ⟨⟨fun c hc => hs.1 c (List.mem_of_mem_eraseIdx hc), hs.2⟩, rfl, id, by simp⟩
      · simp at h
  | removeQuad k =>
    simp only [Call.apply, QP.removeQuadratic] at h
    split at h
    · simp at h
    · split at h
      · simp at h; subst h
        exact ⟨⟨hs.1, fun c hc => hs.2 c (List.mem_of_mem_eraseIdx hc)⟩, rfl, id, by simp⟩
      · simp at h
  | objective s c l q =>
    cases l with
    | list => simp [Call.dictInput] at hd
    | sparse => simp [Call.dictInput] at hd
    | dict l =>
      cases q with
      | matrix => simp [Call.dictInput] at hd
      | sparse => simp [Call.dictInput] at hd
      | dict q =>
        simp only [Call.apply, QP.setObjective] at h
        split at h
        · simp at h
        · rename_i e he
          split at h
          · simp at h
          · rename_i f hf
            simp at h; subst h
            exact ⟨hs, rfl, fun _ => ⟨LinExpr.ofInput_dict_n he, QuadExpr.ofInput_dict_n hf⟩,
              fun _ _ _ _ _ => ⟨LinExpr.ofInput_dict_n he, QuadExpr.ofInput_dict_n hf⟩⟩
  | setLb i v =>
    simp only [Call.apply, QP.setLowerbound] at h
    split at h
    · simp at h
    · split at h
      · simp at h
      · simp at h; subst h
        have hn : (p.vars.set i ‹_›).length = p.vars.length := List.length_set
        exact ⟨by simpa [QP.CstShape, QP.numVars] using hs, by simp [QP.numVars], id, by simp⟩
  | setUb i v =>
    simp only [Call.apply, QP.setUpperbound] at h
    split at h
    · simp at h
    · split at h
      · simp at h
      · simp at h; subst h
        exact ⟨by simpa [QP.CstShape, QP.numVars] using hs, by simp [QP.numVars], id, by simp⟩
  | edit e =>
    obtain ⟨h1, h2, h3⟩ := edit_shape (apply_edit_ok h) hd hs
    exact ⟨h1, h2, h3, by simp⟩

theorem runCalls_shape {p p' : QP} {cs : List Call} (h : runCalls p cs = (.ok (), p'))
    (hv : ∀ c ∈ cs, c.noVars = true) (hd : ∀ c ∈ cs, c.dictInput = true) (hs : p.CstShape) :
    p'.CstShape ∧ p'.numVars = p.numVars ∧
      (((p.objective.linear.n = p.numVars ∧ p.objective.quadratic.n = p.numVars) ∨
        ∃ s k l q, Call.objective s k l q ∈ cs) →
        p'.objective.linear.n = p.numVars ∧ p'.objective.quadratic.n = p.numVars) := by
  induction cs generalizing p with
  | nil => simp [runCalls] at h; subst h; exact ⟨hs, rfl, by simp⟩
  | cons c cs ih =>
    simp only [runCalls] at h
    split at h
    · simp at h
    · rename_i u q hq
      obtain ⟨h1, h2, h3, h4⟩ := apply_shape hq (hv c (by simp)) (hd c (by simp)) hs
      obtain ⟨k1, k2, k3⟩ := ih h (fun c hc => hv c (by simp [hc])) (fun c hc => hd c (by simp [hc])) h1
      rw [h2] at k3 k2
      refine ⟨k1, k2, fun ho => k3 ?_⟩
      rcases ho with ho | ⟨s, k, l, r, ho⟩
      · exact Or.inl (h3 ho)
      · rcases List.mem_cons.mp ho with ho | ho
        · exact Or.inl (h4 s k l r ho.symm)
        · exact Or.inr ⟨s, k, l, r, ho⟩

/-- **C54, the part that holds**.  Full statement: any program built by successful calls can be evaluated at
points of its own dimension.  Missing (false by `C54_violated`): programs in which an expression is created
before a later variable.  Proved: if all variables are created first, then constraints, and the objective is
set, all from coefficient dictionaries, then `is_feasible` and `objective.evaluate` return a value at every
point of the right length. -/
theorem C54_evaluable_partial (p p' : QP) (cs : List Call) (hlin : p.lins = []) (hquad : p.quads = [])
    (h : runCalls p cs = (.ok (), p')) (hv : ∀ c ∈ cs, c.noVars = true)
    (hd : ∀ c ∈ cs, c.dictInput = true) (ho : ∃ s k l q, Call.objective s k l q ∈ cs) (x : List ℚ)
    (hx : x.length = p'.numVars) :
    (∃ b, p'.isFeasible x = .ok b) ∧ ∃ v, p'.objective.evaluate x = .ok v := by
  obtain ⟨h1, h2, h3⟩ := runCalls_shape h hv hd ⟨by simp [hlin], by simp [hquad]⟩
  obtain ⟨b, hb, _⟩ := C07_isFeasible p' (p'.csts_hasShape_iff.mpr h1) x hx
  have h4 := h3 (Or.inr ho)
  exact ⟨⟨b, hb⟩, _, Objective.evaluate_ok (hx.trans (h2.trans h4.1.symm)) (hx.trans (h2.trans h4.2.symm))⟩

example : (runCalls ((QP.empty "").binaryVar none).2
    [.linear (.dict [(.idx 0, 1)]) (.str "<=") 1 none, .objective .maximize 0 (.dict [(.idx 0, 3)])
      (.dict [])]).1 = .ok () := by decide +kernel

end Verif
