import Verif.Recursive
import Verif.SubstSuccess
import Verif.PropsSubstitute
import Verif.ListSum
import Verif.GrowLemmas
import Mathlib.Algebra.Order.BigOperators.Group.List

/-! # Lemmas about the recursive optimizer -/

namespace Verif

/-! ## The strongest correlation -/

theorem argmaxFrom_spec (f : Nat → ℚ) (m : Nat) : ∀ (k best : Nat), k ≤ m → best < m →
    (∀ q < m - k, f q ≤ f best) →
    argmaxFrom f m k best < m ∧ ∀ q < m, f q ≤ f (argmaxFrom f m k best) := by
  intro k
  induction k with
  | zero => intro best _ hb h; exact ⟨hb, fun q hq => h q (by omega)⟩
  | succ k ih =>
    intro best hk hb h
    rw [argmaxFrom]
    apply ih _ (by omega)
    · split <;> omega
    · intro q hq
      by_cases hq' : q < m - (k + 1)
      · refine le_trans (h q hq') ?_
        split
        · next hh => exact le_of_lt hh
        · exact le_refl _
      · have : q = m - (k + 1) := by omega
        subst this
        split
        · exact le_refl _
        · next hh => exact not_lt.mp hh

theorem strongest_spec {samples : List Sample} {n i j : Nat} (hn : 2 ≤ n) (h : strongest samples n = .ok (i, j)) :
    i < n ∧ j < n ∧ i ≠ j ∧
      ∀ a < n, ∀ b < n, a ≠ b → |correlation samples a b| ≤ |correlation samples i j| := by
  unfold strongest at h
  rw [if_neg (by omega)] at h
  simp only [Except.ok.injEq, Prod.mk.injEq] at h
  obtain ⟨h1, h2⟩ := argmaxFrom_spec (fun q => absCorrelation samples (q / n) (q % n)) (n * n) (n * n) 0
    (le_refl _) (Nat.mul_pos (by omega) (by omega)) (by simp)
  generalize argmaxFrom (fun q => absCorrelation samples (q / n) (q % n)) (n * n) (n * n) 0 = m at h h1 h2
  obtain ⟨rfl, hj⟩ := h
  have hmod : m % n = j := by
    have := Nat.div_add_mod' m n
    omega
  have hi : m / n < n := Nat.div_lt_of_lt_mul h1
  have hjn : j < n := hmod ▸ Nat.mod_lt _ (by omega)
  have hval : ∀ a < n, ∀ b < n, absCorrelation samples a b ≤ absCorrelation samples (m / n) j := by
    intro a ha b hb
    have hq : a * n + b < n * n := by nlinarith
    have := h2 _ hq
    rw [hmod] at this
    rwa [show (a * n + b) / n = a by
      rw [Nat.mul_comm, Nat.mul_add_div (by omega), Nat.div_eq_of_lt hb, Nat.add_zero],
      show (a * n + b) % n = b by rw [Nat.mul_comm, Nat.mul_add_mod, Nat.mod_eq_of_lt hb]] at this
  have hne : m / n ≠ j := by
    intro he
    have := hval 0 (by omega) 1 (by omega)
    rw [he] at this
    simp only [absCorrelation, if_true, if_neg (show ¬ (0 = 1) by omega)] at this
    have h0 := abs_nonneg (correlation samples 0 1)
    linarith
  refine ⟨hi, hjn, hne, ?_⟩
  intro a ha b hb hab
  have := hval a ha b hb
  simpa only [absCorrelation, if_neg hab, if_neg hne] using this

/-! ## Coefficients as values -/

/-- Unit vector. -/
def unit (i : Nat) : Nat → ℚ := fun k => if k = i then 1 else 0

theorem LinExpr.val_unit {l : LinExpr} (hl : l.WF) (i : Nat) : l.val (unit i) = Dict.get l.coeffs i := by
  rw [Dict.get_eq_sum hl.nodup]; rfl

theorem LinExpr.val_add (l : LinExpr) (x y : Nat → ℚ) : l.val (fun k => x k + y k) = l.val x + l.val y :=
  Dict.sum_add_fun _ _ _

theorem LinExpr.val_smul (l : LinExpr) (c : ℚ) (x : Nat → ℚ) : l.val (fun k => c * x k) = c * l.val x :=
  Dict.sum_mul_fun _ _ _

/-- The coefficient of `x_i x_k` in the program's view (`quadratic[i, k]`). -/
def qget (q : QuadExpr) (i k : Nat) : ℚ := Dict.get q.coeffs (min i k, max i k)

/-- The mixed terms: `Q(x + e_i) - Q(x) - Q(e_i)`. -/
theorem QuadExpr.val_shift {q : QuadExpr} (hq : q.WF) {n i : Nat} (hn : q.n ≤ n) (hi : i < n) (x : Nat → ℚ) :
    q.val (fun k => x k + unit i k) = q.val x + qget q i i +
      ((List.range n).map fun k => (if k = i then 2 * qget q i k else qget q i k) * x k).sum := by
  have hsum : ((List.range n).map fun k => (if k = i then 2 * qget q i k else qget q i k) * x k).sum =
      Dict.sum q.coeffs fun t => (if t.1 = i then x t.2 else 0) + (if t.2 = i then x t.1 else 0) := by
    have h1 : ∀ k, (if k = i then 2 * qget q i k else qget q i k) * x k =
        Dict.sum q.coeffs fun t => (if t = (min i k, max i k) then (if k = i then 2 else 1) * x k else 0) := by
      intro k
      unfold qget
      rw [Dict.get_eq_sum hq.nodup]
      have : ∀ c : ℚ, c * (Dict.sum q.coeffs fun k' => if k' = (min i k, max i k) then (1 : ℚ) else 0) =
          Dict.sum q.coeffs fun t => (if t = (min i k, max i k) then c else 0) := by
        intro c
        rw [← Dict.sum_mul_fun]
        congr 1; funext t; split <;> simp
      by_cases hk : k = i
      · rw [← this ((if k = i then 2 else 1) * x k), if_pos hk, if_pos hk]; ring
      · rw [← this ((if k = i then 2 else 1) * x k), if_neg hk, if_neg hk]; ring
    rw [List.map_congr_left fun k _ => h1 k]
    have h2 : ∀ (d : Dict (Nat × Nat)) (l : List Nat) (F : Nat → Nat × Nat → ℚ),
        (l.map fun k => Dict.sum d (F k)).sum = Dict.sum d fun t => (l.map fun k => F k t).sum := by
      intro d l F
      induction l with
      | nil => simp [Dict.sum]
      | cons a l ih =>
        simp only [List.map_cons, List.sum_cons, ih]
        rw [← Dict.sum_add_fun]
    rw [h2]
    apply Dict.sum_congr
    intro t ht
    obtain ⟨hb1, hb2⟩ := hq.bound t ht
    have hu := hq.upper t ht
    obtain ⟨a, b⟩ := t
    simp only at hb1 hb2 hu ⊢
    by_cases ha : a = i
    · subst ha
      by_cases hb : b = a
      · subst hb
        have : ∀ k ∈ List.range n, (if (b, b) = (min b k, max b k) then (if k = b then (2 : ℚ) else 1) * x k else 0) =
            if b = k then 2 * x k else 0 := by
          intro k _
          by_cases hk : b = k
          · subst hk; simp
          · rw [if_neg hk, if_neg]
            intro he
            simp only [Prod.mk.injEq] at he
            omega
        rw [List.map_congr_left this, sum_range_ite n b (by omega)]
        simp; ring
      · have : ∀ k ∈ List.range n, (if (a, b) = (min a k, max a k) then (if k = a then (2 : ℚ) else 1) * x k else 0) =
            if b = k then x k else 0 := by
          intro k _
          by_cases hk : b = k
          · subst hk
            rw [if_pos (by simp only [Prod.mk.injEq]; omega), if_pos rfl, if_neg hb]; ring
          · rw [if_neg hk, if_neg]
            intro he
            simp only [Prod.mk.injEq] at he
            omega
        rw [List.map_congr_left this, sum_range_ite n b (by omega)]
        simp [hb]
    · by_cases hb : b = i
      · subst hb
        have : ∀ k ∈ List.range n, (if (a, b) = (min b k, max b k) then (if k = b then (2 : ℚ) else 1) * x k else 0) =
            if a = k then x k else 0 := by
          intro k _
          by_cases hk : a = k
          · subst hk
            rw [if_pos (by simp only [Prod.mk.injEq]; omega), if_pos rfl, if_neg ha]; ring
          · rw [if_neg hk, if_neg]
            intro he
            simp only [Prod.mk.injEq] at he
            omega
        rw [List.map_congr_left this, sum_range_ite n a (by omega)]
        simp [ha]
      · have : ∀ k ∈ List.range n, (if (a, b) = (min i k, max i k) then (if k = i then (2 : ℚ) else 1) * x k else 0) =
            0 := by
          intro k _
          rw [if_neg]
          intro he
          simp only [Prod.mk.injEq] at he
          omega
        rw [List.map_congr_left this, sum_map_zero]
        simp [ha, hb]
  rw [hsum]
  unfold qget QuadExpr.val
  rw [Dict.get_eq_sum hq.nodup, ← Dict.sum_add_fun, ← Dict.sum_add_fun]
  apply Dict.sum_congr
  intro t _
  obtain ⟨a, b⟩ := t
  simp only [unit, min_self, max_self, Prod.mk.injEq]
  by_cases ha : a = i <;> by_cases hb : b = i <;> simp [ha, hb] <;> ring

/-! ## The shift `x_i = 1 + x_i` -/

/-- Dropping of small coefficients. -/
def cut (c : ℚ) : ℚ := if |c| > 1 / 10 ^ 10 then c else 0

theorem cut_error (c : ℚ) : |cut c - c| ≤ 1 / 10 ^ 10 := by
  unfold cut
  split
  · simp
  · next h => rw [zero_sub, abs_neg]; exact not_lt.mp h

/-- The coefficient of `x_k` after the shift, before dropping small ones. -/
def shiftCoeff (l : LinExpr) (q : QuadExpr) (i k : Nat) : ℚ :=
  Dict.get l.coeffs k + if k = i then 2 * qget q i k else qget q i k

theorem LinExpr.getItem_idx {l : LinExpr} {vi : Assoc String Nat} {k : Nat} {c : ℚ}
    (h : l.getItem vi (.idx k) = .ok c) : k < l.n ∧ c = Dict.get l.coeffs k := by
  unfold LinExpr.getItem resolve at h
  by_cases hk : k < l.n
  · simp [hk] at h; exact ⟨hk, h.symm⟩
  · simp [hk] at h

theorem QuadExpr.getItem_idx {q : QuadExpr} {vi : Assoc String Nat} {i k : Nat} {c : ℚ}
    (h : q.getItem vi (.idx i) (.idx k) = .ok c) : c = qget q i k := by
  unfold QuadExpr.getItem resolve at h
  by_cases hi : i < q.n <;> by_cases hk : k < q.n <;> simp [hi, hk] at h
  exact h.symm

theorem LinExpr.setItem_idx {l l' : LinExpr} {vi : Assoc String Nat} {k : Nat} {c : ℚ}
    (h : l.setItem vi (.idx k) c = .ok l') : k < l.n ∧ l' = ⟨l.n, Dict.dokSet l.coeffs k c⟩ := by
  unfold LinExpr.setItem resolve at h
  by_cases hk : k < l.n
  · simp [hk] at h; exact ⟨hk, h.symm⟩
  · simp [hk] at h

theorem shiftLinear_spec {q : QuadExpr} {vi : Assoc String Nat} {i : Nat} : ∀ (m k : Nat) (l l' : LinExpr),
    l.WF → shiftLinear q vi i m k l = .ok l' → l'.n = l.n ∧ l'.WF ∧
      ∀ x, l'.val x = l.val x +
        ((List.range' k m).map fun t => (cut (shiftCoeff l q i t) - Dict.get l.coeffs t) * x t).sum := by
  intro m
  induction m with
  | zero => intro k l l' hl h; simp [shiftLinear] at h; subst h; exact ⟨rfl, hl, by simp⟩
  | succ m ih =>
    intro k l l' hl h
    rw [shiftLinear] at h
    cases h1 : l.getItem vi (.idx k) with
    | error e => simp [h1] at h
    | ok c =>
      cases h2 : q.getItem vi (.idx i) (.idx k) with
      | error e => simp [h1, h2] at h
      | ok d =>
        simp only [h1, h2] at h
        obtain ⟨hk, rfl⟩ := LinExpr.getItem_idx h1
        have hd := QuadExpr.getItem_idx h2
        subst hd
        have hc : (if |if k = i then Dict.get l.coeffs k + 2 * qget q i k else Dict.get l.coeffs k + qget q i k| >
            1 / 10 ^ 10 then (if k = i then Dict.get l.coeffs k + 2 * qget q i k
              else Dict.get l.coeffs k + qget q i k) else 0) = cut (shiftCoeff l q i k) := by
          unfold cut shiftCoeff
          by_cases hki : k = i <;> simp [hki]
        simp only [hc] at h
        cases h3 : l.setItem vi (.idx k) (cut (shiftCoeff l q i k)) with
        | error e => simp [h3] at h
        | ok l1 =>
          simp only [h3] at h
          obtain ⟨_, rfl⟩ := LinExpr.setItem_idx h3
          have hw : (⟨l.n, Dict.dokSet l.coeffs k (cut (shiftCoeff l q i k))⟩ : LinExpr).WF := by
            refine ⟨Dict.nodup_dokSet hl.nodup _ _, ?_⟩
            intro t ht
            rcases Dict.mem_keys_dokSet ht with h' | h'
            · exact hl.bound t h'
            · subst h'; exact hk
          obtain ⟨a, b, c⟩ := ih _ _ _ hw h
          refine ⟨a, b, ?_⟩
          intro x
          rw [c x, List.range'_succ, List.map_cons, List.sum_cons]
          have hv : (⟨l.n, Dict.dokSet l.coeffs k (cut (shiftCoeff l q i k))⟩ : LinExpr).val x =
              l.val x + (cut (shiftCoeff l q i k) - Dict.get l.coeffs k) * x k := Dict.sum_dokSet _ _ _ _
          rw [hv]
          have hm : ∀ t ∈ List.range' (k + 1) m,
              (cut (shiftCoeff ⟨l.n, Dict.dokSet l.coeffs k (cut (shiftCoeff l q i k))⟩ q i t) -
                Dict.get (Dict.dokSet l.coeffs k (cut (shiftCoeff l q i k))) t) * x t =
              (cut (shiftCoeff l q i t) - Dict.get l.coeffs t) * x t := by
            intro t ht
            have : k ≠ t := by
              have := (List.mem_range'_1.mp ht).1; omega
            simp only [shiftCoeff]
            rw [Dict.get_dokSet hl.nodup, if_neg this]
          rw [List.map_congr_left hm]
          ring

theorem sum_abs_le {α : Type} (l : List α) (f : α → ℚ) (b : ℚ) (h : ∀ a ∈ l, |f a| ≤ b) :
    |(l.map f).sum| ≤ l.length * b := by
  induction l with
  | nil => simp
  | cons a l ih =>
    simp only [List.map_cons, List.sum_cons, List.length_cons]
    have h1 := h a (by simp)
    have h2 := ih fun c hc => h c (by simp [hc])
    have h3 := abs_add_le (f a) (l.map f).sum
    push_cast
    nlinarith

structure ShiftFacts (p p' : QP) (i : Nat) : Prop where
  wf : p'.WF
  vars : p'.vars = p.vars
  sense : p'.objective.sense = p.objective.sense
  val : ∀ x : Nat → ℚ, p'.objective.val x = p.objective.val (fun k => x k + unit i k) +
    ((List.range p.numVars).map fun k => (cut (shiftCoeff p.objective.linear p.objective.quadratic i k) -
      shiftCoeff p.objective.linear p.objective.quadratic i k) * x k).sum

theorem shiftProgram_facts {p p' : QP} {i : Nat} (hp : p.WF) (hi : i < p.numVars)
    (h : shiftProgram p i = .ok p') : ShiftFacts p p' i := by
  unfold shiftProgram at h
  cases h1 : p.objective.linear.getItem p.varsIndex (.idx i) with
  | error e => simp [h1] at h
  | ok c =>
    cases h2 : p.objective.quadratic.getItem p.varsIndex (.idx i) (.idx i) with
    | error e => simp [h1, h2] at h
    | ok d =>
      cases h3 : shiftLinear p.objective.quadratic p.varsIndex i p.numVars 0 p.objective.linear with
      | error e => simp [h1, h2, h3] at h
      | ok l =>
        simp only [h1, h2, h3, Except.ok.injEq] at h
        obtain ⟨a, b, v⟩ := shiftLinear_spec _ _ _ _ hp.objLin.1 h3
        have hc := (LinExpr.getItem_idx h1).2
        have hd := QuadExpr.getItem_idx h2
        subst h
        refine ⟨⟨⟨hp.cons.vars, hp.cons.lins, hp.cons.quads⟩, ⟨b, by rw [a]; exact hp.objLin.2⟩, hp.objQuad, hp.lins, hp.quads⟩, rfl, rfl, ?_⟩
        intro x
        simp only [Objective.val]
        rw [v x, QuadExpr.val_shift hp.objQuad.1 hp.objQuad.2 hi, LinExpr.val_add,
          LinExpr.val_unit hp.objLin.1, hc, hd, ← List.range_eq_range']
        have : ∀ k, (cut (shiftCoeff p.objective.linear p.objective.quadratic i k) -
            Dict.get p.objective.linear.coeffs k) * x k =
            (if k = i then 2 * qget p.objective.quadratic i k else qget p.objective.quadratic i k) * x k +
            (cut (shiftCoeff p.objective.linear p.objective.quadratic i k) -
              shiftCoeff p.objective.linear p.objective.quadratic i k) * x k := by
          intro k
          simp only [shiftCoeff]; ring
        rw [List.map_congr_left fun k _ => this k, sum_map_add]
        ring

/-! ## Quantised objectives -/

/-- At integer points the objective is a multiple of `g`. -/
def Quant (g : ℚ) (o : Objective) : Prop :=
  ∀ x : Nat → ℚ, (∀ k, ∃ z : Int, x k = z) → ∃ z : Int, o.val x = g * z

theorem unit_int (i : Nat) : ∀ k, ∃ z : Int, unit i k = z := by
  intro k
  by_cases h : k = i
  · exact ⟨1, by simp [unit, h]⟩
  · exact ⟨0, by simp [unit, h]⟩

theorem QuadExpr.val_smul (q : QuadExpr) (c : ℚ) (x : Nat → ℚ) :
    q.val (fun k => c * x k) = c ^ 2 * q.val x := by
  unfold QuadExpr.val
  rw [← Dict.sum_mul_fun]
  congr 1; funext k; ring

theorem QuadExpr.val_unit {q : QuadExpr} (hq : q.WF) (i : Nat) : q.val (unit i) = qget q i i := by
  unfold QuadExpr.val qget
  rw [Dict.get_eq_sum hq.nodup]
  congr 1; funext t
  obtain ⟨a, b⟩ := t
  simp only [unit, min_self, max_self, Prod.mk.injEq]
  by_cases ha : a = i <;> by_cases hb : b = i <;> simp [ha, hb]

theorem LinExpr.val_zero (l : LinExpr) : l.val (fun _ => 0) = 0 := by
  have := l.val_smul 0 (fun _ => 0)
  simpa using this

theorem QuadExpr.val_zero (q : QuadExpr) : q.val (fun _ => 0) = 0 := by
  have := q.val_smul 0 (fun _ => 0)
  simpa using this

/-- The coefficients made by the shift are multiples of half the quantum. -/
theorem shiftCoeff_quant {g : ℚ} {o : Objective} (hl : o.linear.WF) (hq : o.quadratic.WF) (h : Quant g o)
    {i n : Nat} (hi : i < n) (hn : o.quadratic.n ≤ n) {k : Nat} (hk : k < n) :
    ∃ z : Int, shiftCoeff o.linear o.quadratic i k = g / 2 * z := by
  obtain ⟨z0, h0⟩ := h (fun _ => 0) (fun _ => ⟨0, by simp⟩)
  obtain ⟨z1, h1⟩ := h (unit k) (unit_int k)
  obtain ⟨z2, h2⟩ := h (fun t => (-1) * unit k t) (fun t => by
    obtain ⟨z, hz⟩ := unit_int k t; exact ⟨-z, by rw [hz]; push_cast; ring⟩)
  simp only [Objective.val, LinExpr.val_zero, QuadExpr.val_zero, LinExpr.val_unit hl, QuadExpr.val_unit hq,
    LinExpr.val_smul, QuadExpr.val_smul] at h0 h1 h2
  by_cases hki : k = i
  · subst hki
    refine ⟨3 * z1 + z2 - 4 * z0, ?_⟩
    simp only [shiftCoeff, if_true]
    push_cast
    linarith
  · obtain ⟨z3, h3⟩ := h (unit i) (unit_int i)
    obtain ⟨z4, h4⟩ := h (fun t => unit k t + unit i t) (fun t => by
      obtain ⟨a, ha⟩ := unit_int k t
      obtain ⟨b, hb⟩ := unit_int i t
      exact ⟨a + b, by rw [ha, hb]; push_cast; ring⟩)
    have hsum : ((List.range n).map fun t => (if t = i then 2 * qget o.quadratic i t else qget o.quadratic i t) *
        unit k t).sum = qget o.quadratic i k := by
      have : ∀ t ∈ List.range n, (if t = i then 2 * qget o.quadratic i t else qget o.quadratic i t) * unit k t =
          if k = t then qget o.quadratic i t else 0 := by
        intro t _
        by_cases ht : k = t
        · subst ht; simp [unit, hki]
        · have : ¬ t = k := fun hh => ht hh.symm
          simp [unit, ht, this]
      rw [List.map_congr_left this, sum_range_ite n k hk]
    simp only [Objective.val, LinExpr.val_add, LinExpr.val_unit hl, QuadExpr.val_unit hq,
      QuadExpr.val_shift hq hn hi, hsum] at h3 h4
    refine ⟨2 * z4 - z1 - 2 * z3 - z2 + 2 * z0, ?_⟩
    simp only [shiftCoeff, if_neg hki]
    push_cast
    linarith

theorem cut_quant {g c : ℚ} (hg : 2 / 10 ^ 10 < g) (h : ∃ z : Int, c = g / 2 * z) : cut c = c := by
  obtain ⟨z, rfl⟩ := h
  unfold cut
  by_cases hz : z = 0
  · subst hz; simp
  · rw [if_pos]
    have h1 : (1 : ℚ) ≤ |(z : ℚ)| := by
      have : 1 ≤ |z| := Int.one_le_abs hz
      exact_mod_cast this
    have h0 : (0 : ℚ) < 2 / 10 ^ 10 := by norm_num
    have hg0 : 0 < g / 2 := by linarith
    rw [abs_mul, abs_of_pos hg0]
    have h2 : (1 : ℚ) / 10 ^ 10 < g / 2 := by
      have : (1 : ℚ) / 10 ^ 10 = (2 / 10 ^ 10) / 2 := by norm_num
      rw [this]; linarith
    nlinarith

/-! ## One iteration -/

/-- The point of a program that gives every variable the value of its name. -/
def ptOf (p : QP) (V : String → ℚ) : Nat → ℚ := fun k => V (varName p.vars k)

/-- The value a replacement gives to the replaced variable. -/
def replaced (s : Int) (v : ℚ) : ℚ := if s = 1 then v else 1 - v

/-- What one iteration does. -/
structure StepFacts (p q : QP) (xi xj : String) (s : Int) : Prop where
  wf : q.WF
  here : xi ∈ p.vars.map Variable.name
  mem : ∀ n, n ∈ q.vars.map Variable.name ↔ n ∈ p.vars.map Variable.name ∧ n ≠ xi
  target : xj ∈ q.vars.map Variable.name
  sgn : s = 1 ∨ s = -1
  sense : q.objective.sense = p.objective.sense
  close : ∀ V : String → ℚ, V xi = replaced s (V xj) → (∀ n ∈ q.vars.map Variable.name, |V n| ≤ 1) →
    |p.objective.val (ptOf p V) - q.objective.val (ptOf q V)| ≤ p.numVars / 10 ^ 10
  exact : ∀ g, 2 / 10 ^ 10 < g → Quant g p.objective → Quant g q.objective ∧
    ∀ V : String → ℚ, V xi = replaced s (V xj) → p.objective.val (ptOf p V) = q.objective.val (ptOf q V)
  domPos : s = 1 → (∀ v ∈ p.vars, v.lb < INFINITY ∧ -INFINITY < v.ub) → ∀ V : String → ℚ, V xi = V xj →
    (∀ n ∈ p.vars.map Variable.name, |V n| ≤ INFINITY) →
    ((q.InBounds (ptOf q V) ∧ q.Sat (ptOf q V)) ↔ (p.InBounds (ptOf p V) ∧ p.Sat (ptOf p V)))
  domNeg : s = -1 → (∀ v ∈ p.vars, 0 ≤ v.lb ∧ v.lb < INFINITY ∧ -INFINITY < v.ub) → ∀ V : String → ℚ,
    (∀ n ∈ q.vars.map Variable.name, |V n| ≤ INFINITY) → q.InBounds (ptOf q V) → q.Sat (ptOf q V) → V xj ≤ 0

theorem varName_some {vars : List Variable} {k : Nat} {v : Variable} (h : vars[k]? = some v) :
    varName vars k = v.name := by
  simp [varName, h]

theorem Objective.val_agree {o : Objective} {n : Nat} (hl : o.linear.Fits n) (hq : o.quadratic.Fits n)
    {x y : Nat → ℚ} (h : ∀ k < n, x k = y k) : o.val x = o.val y := by
  unfold Objective.val LinExpr.val QuadExpr.val
  congr 1
  · congr 1
    exact Dict.sum_congr fun k hk => h k (lt_of_lt_of_le (hl.1.bound k hk) hl.2)
  · exact Dict.sum_congr fun k hk => by
      rw [h _ (lt_of_lt_of_le (hq.1.bound k hk).1 hq.2), h _ (lt_of_lt_of_le (hq.1.bound k hk).2 hq.2)]

/-- Facts about the substitution of one variable by a multiple of another. -/
theorem substOne {p q : QP} {i j : Nat} {c : ℚ} {vi vj : Variable} (hp : p.WF)
    (hc : CONST ∉ p.vars.map Variable.name) (hi : p.vars[i]? = some vi) (hj : p.vars[j]? = some vj)
    (h : p.substitute [] [(.idx i, .idx j, c)] = .ok q) :
    q.WF ∧ i ≠ j ∧ (∀ n, n ∈ q.vars.map Variable.name ↔ n ∈ p.vars.map Variable.name ∧ n ≠ vi.name) ∧
      vj.name ∈ q.vars.map Variable.name ∧ q.objective.sense = p.objective.sense ∧
      ∀ (x : Nat → ℚ) (V : String → ℚ), (∀ k < p.numVars, k ≠ i → x k = V (varName p.vars k)) → x i = c * V vj.name →
        q.objective.val (ptOf q V) = p.objective.val x ∧
        (q.status ≠ .infeasible → (∀ v ∈ p.vars, v.lb < INFINITY ∧ -INFINITY < v.ub) →
          (∀ k < p.numVars, |x k| ≤ INFINITY) →
          ((q.InBounds (ptOf q V) ∧ q.Sat (ptOf q V)) ↔ (p.InBounds x ∧ p.Sat x))) := by
  have hil := (List.getElem?_eq_some_iff.mp hi).1
  have hjl := (List.getElem?_eq_some_iff.mp hj).1
  have hk : KnownKeys p [] [(.idx i, .idx j, c)] :=
    ⟨by simp, by intro e he; simp at he; subst he; exact ⟨⟨i, rfl, hil⟩, ⟨j, rfl, hjl⟩⟩⟩
  have hv := substitute_valid h hp hc hk
  have hij : i ≠ j := by
    intro he
    subst he
    exact hv.target (.idx i) (by simp [replacedKeys]) (.idx i, .idx i, c) (by simp) ⟨i, ⟨rfl, hil⟩, ⟨rfl, hil⟩⟩
  obtain ⟨hm, hext⟩ := C12_extension_exists p q _ _ h hp hc hk
  have hm' : ∀ n, n ∈ q.vars.map Variable.name ↔ n ∈ p.vars.map Variable.name ∧ n ≠ vi.name := by
    intro n
    rw [hm]
    constructor
    · rintro ⟨a, b⟩
      exact ⟨a, fun he => b (.idx i) (by simp [replacedKeys]) i vi ⟨rfl, hil⟩ hi he.symm⟩
    · rintro ⟨a, b⟩
      refine ⟨a, ?_⟩
      intro k hk' i' v hd hv' hn
      simp only [replacedKeys, List.map_nil, List.map_cons, List.nil_append, List.mem_singleton] at hk'
      subst hk'
      obtain ⟨rfl, _⟩ := hd
      rw [hi] at hv'; cases hv'
      exact b hn.symm
  have hnij : vj.name ≠ vi.name := by
    intro he
    have := varName_inj hp.cons hil hjl (by rw [varName_some hi, varName_some hj, he])
    exact hij this
  have hjq : vj.name ∈ q.vars.map Variable.name :=
    (hm' _).mpr ⟨List.mem_map_of_mem (List.mem_of_getElem? hj), hnij⟩
  obtain ⟨x0, hx0⟩ := hext fun _ => 0
  refine ⟨substitute_wf h hp, hij, hm', hjq, (C12_objective_partial p q _ _ h hp hc x0 _ hx0).1, ?_⟩
  intro x V hx hxi
  have hE : IsExtension p q [] [(.idx i, .idx j, c)] x (ptOf q V) := by
   refine ⟨by simp, ?_, ?_⟩
   · intro e he a b ha hb
     simp at he
     subst he
     obtain ⟨rfl, _⟩ := ha
     obtain ⟨rfl, _⟩ := hb
     simp only
     rw [hxi, hx _ hjl (Ne.symm hij), varName_some hj]
   · intro k a v w hk' ha hn
     have hkl := (List.getElem?_eq_some_iff.mp hk').1
     have hwm : w.name ∈ q.vars.map Variable.name := List.mem_map_of_mem (List.mem_of_getElem? ha)
     have hki : k ≠ i := by
       intro he
       subst he
       rw [hi] at hk'; cases hk'
       exact ((hm' _).mp hwm).2 hn.symm
     rw [hx k hkl hki, varName_some hk', hn, ptOf, varName_some ha]
  refine ⟨(C12_objective_partial p q _ _ h hp hc x (ptOf q V) hE).2, ?_⟩
  intro hst hb hxb
  obtain ⟨c1, c2⟩ := C13_feasibility_partial p q _ _ h hp hc hb x (ptOf q V) hE hxb
  refine c1 ?_
  by_contra hne
  exact hst (c2 hne).1

theorem quantStep {p q : QP} {xi xj : String} {s : Int} {g : ℚ} (hq : q.WF) (hxi : xi ∉ q.vars.map Variable.name)
    (hval : ∀ V : String → ℚ, V xi = replaced s (V xj) → p.objective.val (ptOf p V) = q.objective.val (ptOf q V))
    (hne : xj ≠ xi) (h : Quant g p.objective) : Quant g q.objective := by
  intro y hy
  have hnv : ∀ n, ∃ z : Int, nameVal q.varsIndex y n = z := by
    intro n
    unfold nameVal
    cases Assoc.get? q.varsIndex n with
    | none => exact hy 0
    | some a => exact hy a
  let V : String → ℚ := fun n =>
    if n = xi then replaced s (nameVal q.varsIndex y xj) else nameVal q.varsIndex y n
  have hVint : ∀ n, ∃ z : Int, V n = z := by
    intro n
    by_cases hn : n = xi
    · obtain ⟨z, hz⟩ := hnv xj
      simp only [V, hn, if_true, replaced]
      split
      · exact ⟨z, hz⟩
      · exact ⟨1 - z, by rw [hz]; push_cast; ring⟩
    · simp only [V, hn, if_false]; exact hnv n
  have hV : V xi = replaced s (V xj) := by
    simp only [V, if_true, hne, if_false]
  obtain ⟨z, hz⟩ := h (ptOf p V) (fun k => hVint _)
  refine ⟨z, ?_⟩
  rw [← hz, hval V hV]
  refine Objective.val_agree hq.objLin hq.objQuad ?_
  intro k hk
  obtain ⟨v, hv, hn⟩ := varName_mem hk
  rw [ptOf, hn]
  have : v.name ≠ xi := by
    intro he
    exact hxi (he ▸ List.mem_map_of_mem (List.mem_of_getElem? hv))
  simp only [V, this, if_false]
  rw [nameVal_at hq.cons hv]

theorem reduceStep_facts {samples : List Sample} {p p' q : QP} {xi xj : String} {s : Int} (hp : p.WF)
    (hc : CONST ∉ p.vars.map Variable.name) (h : reduceStep samples p = .ok (p', q, xi, xj, s)) :
    StepFacts p q xi xj s := by
  unfold reduceStep at h
  cases h1 : correlationSize samples with
  | error e => simp [h1] at h
  | ok n =>
    cases h2 : strongest samples n with
    | error e => simp [h1, h2] at h
    | ok ij =>
      obtain ⟨i, j⟩ := ij
      cases hi : p.vars[i]? with
      | none => simp [h1, h2, hi] at h
      | some vi =>
        cases hj : p.vars[j]? with
        | none => simp [h1, h2, hi, hj] at h
        | some vj =>
          have hil := (List.getElem?_eq_some_iff.mp hi).1
          have hjl := (List.getElem?_eq_some_iff.mp hj).1
          simp only [h1, h2, hi, hj] at h
          split at h
          · cases h3 : p.substitute [] [(.idx i, .idx j, 1)] with
            | error e => simp [h3] at h
            | ok q' =>
              simp only [h3] at h
              split at h
              · simp at h
              · next hst =>
                simp only [Except.ok.injEq, Prod.mk.injEq] at h
                obtain ⟨rfl, rfl, rfl, rfl, rfl⟩ := h
                obtain ⟨a, hij, b, c, d, e⟩ := substOne hp hc hi hj h3
                have hval : ∀ V : String → ℚ, V vi.name = replaced 1 (V vj.name) →
                    p.objective.val (ptOf p V) = q'.objective.val (ptOf q' V) := by
                  intro V hV
                  refine (e (ptOf p V) V (fun _ _ _ => rfl) ?_).1.symm
                  rw [ptOf, varName_some hi, hV]; simp [replaced]
                refine ⟨a, List.mem_map_of_mem (List.mem_of_getElem? hi), b, c, Or.inl rfl, d, ?_, ?_, ?_, by simp⟩
                · intro V hV _
                  rw [hval V hV, sub_self, abs_zero]; positivity
                · intro g _ hQ
                  exact ⟨quantStep a (fun hh => ((b _).mp hh).2 rfl) hval ((b _).mp c).2 hQ, hval⟩
                · intro _ hb V hV hVb
                  refine (e (ptOf p V) V (fun _ _ _ => rfl) (by rw [ptOf, varName_some hi, hV]; ring)).2 hst hb ?_
                  intro k hk
                  obtain ⟨v, hv, hn⟩ := varName_mem hk
                  rw [ptOf, hn]
                  exact hVb _ (List.mem_map_of_mem (List.mem_of_getElem? hv))
          · cases h3 : shiftProgram p i with
            | error e => simp [h3] at h
            | ok p1 =>
              cases h4 : p1.substitute [] [(.idx i, .idx j, -1)] with
              | error e => simp [h3, h4] at h
              | ok q' =>
                simp only [h3, h4] at h
                split at h
                · simp at h
                · next hst =>
                  simp only [Except.ok.injEq, Prod.mk.injEq] at h
                  obtain ⟨rfl, rfl, rfl, rfl, rfl⟩ := h
                  have sf := shiftProgram_facts hp hil h3
                  obtain ⟨a, hij, b, c, d, e⟩ := substOne sf.wf (by rw [sf.vars]; exact hc)
                    (by rw [sf.vars]; exact hi) (by rw [sf.vars]; exact hj) h4
                  rw [sf.vars] at b
                  let x : (String → ℚ) → Nat → ℚ := fun V k => if k = i then -V vj.name else V (varName p.vars k)
                  have hx : ∀ V : String → ℚ, V vi.name = replaced (-1) (V vj.name) →
                      (fun k => x V k + unit i k) = ptOf p V := by
                    intro V hV
                    funext k
                    by_cases hk : k = i
                    · subst hk
                      simp only [x, if_true, unit, ptOf, varName_some hi, hV, replaced]
                      norm_num
                      ring
                    · simp [x, hk, unit, ptOf]
                  have hq : ∀ V : String → ℚ, q'.objective.val (ptOf q' V) = p1.objective.val (x V) := by
                    intro V
                    refine (e (x V) V ?_ (by simp [x])).1
                    intro k _ hk
                    simp only [x, hk, if_false, sf.vars]
                  have hpq : ∀ V : String → ℚ, V vi.name = replaced (-1) (V vj.name) →
                      q'.objective.val (ptOf q' V) = p.objective.val (ptOf p V) +
                        ((List.range p.numVars).map fun k =>
                          (cut (shiftCoeff p.objective.linear p.objective.quadratic i k) -
                            shiftCoeff p.objective.linear p.objective.quadratic i k) * x V k).sum := by
                    intro V hV
                    rw [hq, sf.val, hx V hV]
                  refine ⟨a, List.mem_map_of_mem (List.mem_of_getElem? hi), b, c, Or.inr rfl, by rw [d, sf.sense], ?_, ?_,
                    by simp, ?_⟩
                  · intro V hV hb
                    rw [hpq V hV, sub_add_cancel_left, abs_neg]
                    have := sum_abs_le (List.range p.numVars) (fun k =>
                      (cut (shiftCoeff p.objective.linear p.objective.quadratic i k) -
                            shiftCoeff p.objective.linear p.objective.quadratic i k) * x V k) (1 / 10 ^ 10) (by
                      intro k hk
                      have hxk : |x V k| ≤ 1 := by
                        by_cases hki : k = i
                        · simp only [x, hki, if_true, abs_neg]; exact hb _ c
                        · simp only [x, hki, if_false]
                          obtain ⟨v, hv, hn⟩ := varName_mem (List.mem_range.mp hk)
                          rw [hn]
                          refine hb _ ((b _).mpr ⟨List.mem_map_of_mem (List.mem_of_getElem? hv), ?_⟩)
                          intro he
                          exact hki (varName_inj hp.cons (List.mem_range.mp hk) hil (by rw [hn, varName_some hi, he]))
                      rw [abs_mul]
                      have h5 := cut_error (shiftCoeff p.objective.linear p.objective.quadratic i k)
                      have h6 := abs_nonneg (cut (shiftCoeff p.objective.linear p.objective.quadratic i k) -
                            shiftCoeff p.objective.linear p.objective.quadratic i k)
                      calc _ ≤ |cut (shiftCoeff p.objective.linear p.objective.quadratic i k) -
                            shiftCoeff p.objective.linear p.objective.quadratic i k| * 1 :=
                            mul_le_mul_of_nonneg_left hxk h6
                        _ ≤ _ := by rw [mul_one]; exact h5)
                    rw [List.length_range] at this
                    calc _ ≤ _ := this
                      _ = _ := by ring
                  · intro g hg hQ
                    have hval : ∀ V : String → ℚ, V vi.name = replaced (-1) (V vj.name) →
                        p.objective.val (ptOf p V) = q'.objective.val (ptOf q' V) := by
                      intro V hV
                      rw [hpq V hV]
                      have : ∀ k ∈ List.range p.numVars,
                          (cut (shiftCoeff p.objective.linear p.objective.quadratic i k) -
                            shiftCoeff p.objective.linear p.objective.quadratic i k) * x V k = 0 := by
                        intro k hk
                        rw [cut_quant hg (shiftCoeff_quant hp.objLin.1 hp.objQuad.1 hQ hil hp.objQuad.2
                          (List.mem_range.mp hk))]
                        ring
                      rw [List.map_congr_left this, sum_map_zero, add_zero]
                    exact ⟨quantStep a (fun hh => ((b _).mp hh).2 rfl) hval ((b _).mp c).2 hQ, hval⟩
                  · intro _ hb V hVb hib hsat
                    have he := (e (x V) V (by intro k _ hk; simp only [x, hk, if_false, sf.vars]) (by simp [x])).2 hst
                      (by rw [sf.vars]; exact fun v hv => (hb v hv).2) (by
                        intro k hk
                        have hk' : k < p.vars.length := by rw [← sf.vars]; exact hk
                        by_cases hki : k = i
                        · simp only [x, hki, if_true, abs_neg]; exact hVb _ c
                        · simp only [x, hki, if_false]
                          obtain ⟨v, hv, hn⟩ := varName_mem hk'
                          rw [hn]
                          refine hVb _ ((b _).mpr ⟨List.mem_map_of_mem (List.mem_of_getElem? hv), ?_⟩)
                          intro he
                          exact hki (varName_inj hp.cons hk' hil (by rw [hn, varName_some hi, he])))
                    obtain ⟨h5, _⟩ := he.mp ⟨hib, hsat⟩
                    obtain ⟨h6, _⟩ := h5 i vi (by rw [sf.vars]; exact hi)
                    have h7 := (hb vi (List.mem_of_getElem? hi)).1
                    simp only [x, if_true] at h6
                    linarith

theorem StepFacts.numVars {p q : QP} {xi xj : String} {s : Int} (hp : p.WF) (h : StepFacts p q xi xj s) :
    q.numVars + 1 = p.numVars := by
  have h1 : (p.vars.map Variable.name).Nodup := hp.cons.vars.2
  have h2 : (q.vars.map Variable.name).Nodup := h.wf.cons.vars.2
  have hperm : (q.vars.map Variable.name).Perm ((p.vars.map Variable.name).erase xi) := by
    rw [List.perm_ext_iff_of_nodup h2 (h1.erase _)]
    intro n
    rw [h.mem, h1.mem_erase_iff]
    tauto
  have := hperm.length_eq
  rw [List.length_erase_of_mem h.here] at this
  simp only [List.length_map] at this
  have hpos : 0 < p.vars.length := by
    have := List.length_pos_of_mem h.here
    simpa using this
  unfold QP.numVars
  omega

/-! ## The loop -/

/-- A sequence of iterations from `p` to `r` with the recorded replacements. -/
inductive Chain : QP → Replacements → QP → Prop
  | nil (p : QP) : Chain p [] p
  | cons (p q r : QP) (xi xj : String) (s : Int) (l : Replacements) :
      StepFacts p q xi xj s → Chain q l r → Chain p ((xi, xj, s) :: l) r

theorem reduceLoop_chain {solver : Nat → QP → Except Err Result} {m : Nat} : ∀ (fuel t : Nat) (p : QP)
    (reps : Replacements) (r : QP) (reps' : Replacements), p.WF → CONST ∉ p.vars.map Variable.name →
    (∀ n ∈ p.vars.map Variable.name, n ∉ Assoc.keys reps) →
    reduceLoop solver m fuel t p reps = some (.ok (r, reps')) →
    (r.numVars ≤ m) ∧ ∃ l, reps' = reps ++ l ∧ Chain p l r := by
  intro fuel
  induction fuel with
  | zero => intro t p reps r reps' _ _ _ h; simp [reduceLoop] at h
  | succ fuel ih =>
    intro t p reps r reps' hp hc hk h
    rw [reduceLoop] at h
    split at h
    · cases h1 : solver t p with
      | error e => simp [h1] at h
      | ok res =>
        cases h2 : reduceStep res.samples p with
        | error e => simp [h1, h2] at h
        | ok st =>
          obtain ⟨p', q, xi, xj, s⟩ := st
          simp only [h1, h2] at h
          have sf := reduceStep_facts hp hc h2
          have hset : Assoc.set reps xi (xj, s) = reps ++ [(xi, xj, s)] :=
            Assoc.set_of_not_mem (hk xi sf.here) _
          rw [hset] at h
          obtain ⟨a, l, b, c⟩ := ih _ _ _ _ _ sf.wf (fun hh => hc ((sf.mem _).mp hh).1) (by
            intro n hn hh
            simp only [Assoc.keys, List.map_append, List.map_cons, List.map_nil, List.mem_append,
              List.mem_singleton] at hh
            rcases hh with hh | hh
            · exact hk n ((sf.mem _).mp hn).1 hh
            · exact ((sf.mem _).mp hn).2 hh) h
          exact ⟨a, (xi, xj, s) :: l, by rw [b]; simp, .cons _ _ _ _ _ _ _ sf c⟩
    · simp only [Option.some.injEq, Except.ok.injEq, Prod.mk.injEq] at h
      obtain ⟨rfl, rfl⟩ := h
      exact ⟨by omega, [], by simp, .nil _⟩

theorem reduceLoop_total {solver : Nat → QP → Except Err Result} {m : Nat} : ∀ (fuel t : Nat) (p : QP)
    (reps : Replacements), p.WF → CONST ∉ p.vars.map Variable.name → p.numVars < fuel →
    (reduceLoop solver m fuel t p reps).isSome := by
  intro fuel
  induction fuel with
  | zero => intro t p reps _ _ h; omega
  | succ fuel ih =>
    intro t p reps hp hc hf
    rw [reduceLoop]
    split
    · cases h1 : solver t p with
      | error e => simp
      | ok res =>
        cases h2 : reduceStep res.samples p with
        | error e => simp [h2]
        | ok st =>
          obtain ⟨p', q, xi, xj, s⟩ := st
          simp only [h2]
          have sf := reduceStep_facts hp hc h2
          refine ih _ _ _ sf.wf (fun hh => hc ((sf.mem _).mp hh).1) ?_
          have := sf.numVars hp
          omega
    · simp

namespace Chain

theorem names {p r : QP} {l : Replacements} (h : Chain p l r) :
    (∀ n, n ∈ p.vars.map Variable.name ↔ n ∈ r.vars.map Variable.name ∨ n ∈ Assoc.keys l) ∧
      (∀ n ∈ Assoc.keys l, n ∉ r.vars.map Variable.name) ∧ (Assoc.keys l).Nodup ∧
      ∀ e ∈ l, e.2.1 ∈ p.vars.map Variable.name := by
  induction h with
  | nil p => simp [Assoc.keys]
  | cons p q r xi xj s l sf _ ih =>
    obtain ⟨a, b, c, d⟩ := ih
    refine ⟨?_, ?_, ?_, ?_⟩
    · intro n
      simp only [Assoc.keys, List.map_cons, List.mem_cons]
      constructor
      · intro hn
        by_cases he : n = xi
        · exact Or.inr (Or.inl he)
        · rcases (a n).mp ((sf.mem n).mpr ⟨hn, he⟩) with h' | h'
          · exact Or.inl h'
          · exact Or.inr (Or.inr h')
      · rintro (h' | h' | h')
        · exact ((sf.mem n).mp ((a n).mpr (Or.inl h'))).1
        · exact h' ▸ sf.here
        · exact ((sf.mem n).mp ((a n).mpr (Or.inr h'))).1
    · intro n hn hr
      simp only [Assoc.keys, List.map_cons, List.mem_cons] at hn
      rcases hn with hn | hn
      · exact ((sf.mem n).mp ((a n).mpr (Or.inl hr))).2 hn
      · exact b n hn hr
    · simp only [Assoc.keys, List.map_cons, List.nodup_cons]
      refine ⟨?_, c⟩
      intro hh
      exact ((sf.mem xi).mp ((a xi).mpr (Or.inr hh))).2 rfl
    · intro e he
      rcases List.mem_cons.mp he with rfl | he
      · exact ((sf.mem _).mp sf.target).1
      · exact ((sf.mem _).mp (d e he)).1

theorem signs {p r : QP} {l : Replacements} (h : Chain p l r) : ∀ e ∈ l, e.2.2 = 1 ∨ e.2.2 = -1 := by
  induction h with
  | nil p => simp
  | cons p q r xi xj s l sf _ ih =>
    intro e he
    rcases List.mem_cons.mp he with rfl | he
    · exact sf.sgn
    · exact ih e he

/-- Every assignment of the remaining variables extends along the replacements. -/
theorem extend {p r : QP} {l : Replacements} (h : Chain p l r) (F : String → ℚ) :
    ∃ V : String → ℚ, (∀ n ∈ r.vars.map Variable.name, V n = F n) ∧
      ∀ e ∈ l, V e.1 = replaced e.2.2 (V e.2.1) := by
  induction h with
  | nil p => exact ⟨F, fun _ _ => rfl, by simp⟩
  | cons p q r xi xj s l sf ch ih =>
    obtain ⟨V, h1, h2⟩ := ih
    obtain ⟨a, b, c, d⟩ := ch.names
    have hxi : xi ∉ q.vars.map Variable.name := fun hh => ((sf.mem xi).mp hh).2 rfl
    have hne : ∀ n ∈ q.vars.map Variable.name, n ≠ xi := fun n hn he => hxi (he ▸ hn)
    refine ⟨fun n => if n = xi then replaced s (V xj) else V n, ?_, ?_⟩
    · intro n hn
      have : n ≠ xi := hne n ((a n).mpr (Or.inl hn))
      simp only [this, if_false]
      exact h1 n hn
    · intro e he
      rcases List.mem_cons.mp he with rfl | he
      · simp only [if_true, hne xj sf.target, if_false]
      · have h3 : e.1 ≠ xi := hne _ ((a _).mpr (Or.inr (List.mem_map_of_mem he)))
        have h4 : e.2.1 ≠ xi := hne _ (d e he)
        simp only [h3, h4, if_false]
        exact h2 e he

theorem wf {p r : QP} {l : Replacements} (h : Chain p l r) (hp : p.WF) :
    r.WF ∧ r.numVars + l.length = p.numVars ∧ r.objective.sense = p.objective.sense := by
  induction h with
  | nil p => exact ⟨hp, by simp, rfl⟩
  | cons p q r xi xj s l sf ch ih =>
    obtain ⟨a, b, c⟩ := ih sf.wf
    have := sf.numVars hp
    refine ⟨a, by simp only [List.length_cons]; omega, by rw [c, sf.sense]⟩

theorem unitRange {p r : QP} {l : Replacements} (h : Chain p l r) (V : String → ℚ)
    (h1 : ∀ e ∈ l, V e.1 = replaced e.2.2 (V e.2.1))
    (h2 : ∀ n ∈ r.vars.map Variable.name, 0 ≤ V n ∧ V n ≤ 1) :
    ∀ n ∈ p.vars.map Variable.name, 0 ≤ V n ∧ V n ≤ 1 := by
  induction h with
  | nil p => exact h2
  | cons p q r xi xj s l sf ch ih =>
    have hq := ih (fun e he => h1 e (by simp [he])) h2
    intro n hn
    by_cases he : n = xi
    · subst he
      rw [h1 (n, xj, s) (by simp)]
      obtain ⟨a, b⟩ := hq xj sf.target
      simp only [replaced]
      split
      · exact ⟨a, b⟩
      · constructor <;> linarith
    · exact hq n ((sf.mem n).mpr ⟨hn, he⟩)

theorem close {p r : QP} {l : Replacements} (h : Chain p l r) (hp : p.WF) (V : String → ℚ)
    (h1 : ∀ e ∈ l, V e.1 = replaced e.2.2 (V e.2.1))
    (h2 : ∀ n ∈ r.vars.map Variable.name, 0 ≤ V n ∧ V n ≤ 1) :
    |p.objective.val (ptOf p V) - r.objective.val (ptOf r V)| ≤ l.length * (p.numVars / 10 ^ 10) := by
  induction h with
  | nil p => simp
  | cons p q r xi xj s l sf ch ih =>
    have hl : ∀ e ∈ l, V e.1 = replaced e.2.2 (V e.2.1) := fun e he => h1 e (by simp [he])
    have h3 := ih sf.wf hl h2
    have h4 := sf.close V (h1 (xi, xj, s) (by simp)) (by
      intro n hn
      obtain ⟨a, b⟩ := ch.unitRange V hl h2 n hn
      rw [abs_of_nonneg a]; exact b)
    have hn := sf.numVars hp
    have hq : (q.numVars : ℚ) / 10 ^ 10 ≤ p.numVars / 10 ^ 10 := by
      have : (q.numVars : ℚ) ≤ p.numVars := by exact_mod_cast (by omega : q.numVars ≤ p.numVars)
      gcongr
    have h5 := abs_sub_le (p.objective.val (ptOf p V)) (q.objective.val (ptOf q V)) (r.objective.val (ptOf r V))
    have h6 : (l.length : ℚ) * (q.numVars / 10 ^ 10) ≤ l.length * (p.numVars / 10 ^ 10) := by gcongr
    simp only [List.length_cons]
    push_cast
    linarith

theorem exact {p r : QP} {l : Replacements} (h : Chain p l r) {g : ℚ} (hg : 2 / 10 ^ 10 < g)
    (hQ : Quant g p.objective) (V : String → ℚ) (h1 : ∀ e ∈ l, V e.1 = replaced e.2.2 (V e.2.1)) :
    p.objective.val (ptOf p V) = r.objective.val (ptOf r V) := by
  induction h with
  | nil p => rfl
  | cons p q r xi xj s l sf ch ih =>
    obtain ⟨a, b⟩ := sf.exact g hg hQ
    rw [b V (h1 (xi, xj, s) (by simp))]
    exact ih a fun e he => h1 e (by simp [he])

/-- The recorded values are those of `V`, and the remaining variables have one. -/
def Good (r : QP) (V : String → ℚ) (vals : Assoc String ℚ) : Prop :=
  (∀ n v, Assoc.get? vals n = some v → v = V n) ∧ ∀ n ∈ r.vars.map Variable.name, (Assoc.get? vals n).isSome

theorem findValue_ok {p r : QP} {l : Replacements} (h : Chain p l r) (R : Replacements) (hR : (Assoc.keys R).Nodup)
    (hl : ∀ e ∈ l, e ∈ R) (V : String → ℚ) (h1 : ∀ e ∈ l, V e.1 = replaced e.2.2 (V e.2.1)) :
    ∀ (fuel : Nat) (x : String) (vals : Assoc String ℚ), l.length < fuel → x ∈ p.vars.map Variable.name →
      Good r V vals → ∃ vals', findValue R fuel x vals = .ok (V x, vals') ∧ Good r V vals' ∧
        (Assoc.get? vals' x).isSome ∧ ∀ n, (Assoc.get? vals n).isSome → (Assoc.get? vals' n).isSome := by
  have hknown : ∀ (fuel : Nat) (x : String) (vals : Assoc String ℚ), 0 < fuel → (Assoc.get? vals x).isSome →
      Good r V vals → ∃ vals', findValue R fuel x vals = .ok (V x, vals') ∧ Good r V vals' ∧
        (Assoc.get? vals' x).isSome ∧ ∀ n, (Assoc.get? vals n).isSome → (Assoc.get? vals' n).isSome := by
    intro fuel x vals hf hx hg
    obtain ⟨f, rfl⟩ := Nat.exists_eq_succ_of_ne_zero hf.ne'
    obtain ⟨v, hv⟩ := Option.isSome_iff_exists.mp hx
    have := hg.1 x v hv
    subst this
    exact ⟨vals, by simp only [findValue, hv], hg, hx, fun _ h => h⟩
  induction h with
  | nil p =>
    intro fuel x vals hf hx hg
    exact hknown fuel x vals (by omega) (hg.2 x hx) hg
  | cons p q r xi xj s l sf ch ih =>
    intro fuel x vals hf hx hg
    simp only [List.length_cons] at hf
    cases hv : Assoc.get? vals x with
    | some v => exact hknown fuel x vals (by omega) (by simp [hv]) hg
    | none =>
      by_cases he : x = xi
      · subst he
        obtain ⟨f, rfl⟩ := Nat.exists_eq_succ_of_ne_zero (show fuel ≠ 0 by omega)
        obtain ⟨vals', a, b, c, d⟩ := ih (fun e he => hl e (by simp [he])) (fun e he => h1 e (by simp [he])) hknown
          f xj vals (by omega) sf.target hg
        have hget : Assoc.get? R x = some (xj, s) := Assoc.get?_of_mem hR (hl (x, xj, s) (by simp))
        have hVx : V x = replaced s (V xj) := h1 (x, xj, s) (by simp)
        refine ⟨Assoc.set vals' x (V x), ?_, ?_, ?_, ?_⟩
        · simp only [findValue, hv, hget, a]
          rw [hVx]; rfl
        · constructor
          · intro n v hn
            rw [Assoc.get?_set] at hn
            split at hn
            · next h' => subst h'; simpa using hn.symm
            · exact b.1 n v hn
          · intro n hn
            rw [Assoc.get?_set]
            split
            · rfl
            · exact b.2 n hn
        · simp [Assoc.get?_set]
        · intro n hn
          rw [Assoc.get?_set]
          split
          · rfl
          · exact d n hn
      · exact ih (fun e he => hl e (by simp [he])) (fun e he => h1 e (by simp [he])) hknown fuel x vals (by omega)
          ((sf.mem x).mpr ⟨hx, he⟩) hg

theorem unrollLoop_ok {p r : QP} {l : Replacements} (h : Chain p l r) (V : String → ℚ)
    (h1 : ∀ e ∈ l, V e.1 = replaced e.2.2 (V e.2.1)) : ∀ (vs : List Variable) (vals : Assoc String ℚ),
    (∀ v ∈ vs, v.name ∈ p.vars.map Variable.name) → Good r V vals →
    ∃ vals', unrollLoop l vs vals = .ok vals' ∧ Good r V vals' ∧
      (∀ n, (Assoc.get? vals n).isSome → (Assoc.get? vals' n).isSome) ∧
      ∀ v ∈ vs, (Assoc.get? vals' v.name).isSome := by
  intro vs
  induction vs with
  | nil => intro vals _ hg; exact ⟨vals, rfl, hg, fun _ h => h, by simp⟩
  | cons v vs ih =>
    intro vals hv hg
    rw [unrollLoop]
    by_cases hh : Assoc.has vals v.name
    · simp only [hh, if_true]
      obtain ⟨vals', a, b, c, d⟩ := ih vals (fun w hw => hv w (by simp [hw])) hg
      refine ⟨vals', a, b, c, ?_⟩
      intro w hw
      rcases List.mem_cons.mp hw with rfl | hw
      · exact c _ hh
      · exact d w hw
    · simp only [hh]
      obtain ⟨vals1, a1, b1, c1, d1⟩ := h.findValue_ok l h.names.2.2.1 (fun _ h => h) V h1 (l.length + 1) v.name vals
        (by omega) (hv v (by simp)) hg
      obtain ⟨vals', a, b, c, d⟩ := ih vals1 (fun w hw => hv w (by simp [hw])) b1
      refine ⟨vals', by simp [a1, a], b, fun n hn => c n (d1 n hn), ?_⟩
      intro w hw
      rcases List.mem_cons.mp hw with rfl | hw
      · exact c _ c1
      · exact d w hw

end Chain

theorem collectValues_ok {V : String → ℚ} {vals : Assoc String ℚ} (hg : ∀ n v, Assoc.get? vals n = some v → v = V n) :
    ∀ (vs : List Variable), (∀ v ∈ vs, (Assoc.get? vals v.name).isSome) →
    collectValues vals vs = .ok (vs.map fun v => V v.name) := by
  intro vs
  induction vs with
  | nil => intro _; rfl
  | cons v vs ih =>
    intro h
    obtain ⟨a, ha⟩ := Option.isSome_iff_exists.mp (h v (by simp))
    rw [collectValues, ha, ih fun w hw => h w (by simp [hw])]
    simp [hg _ _ ha]

end Verif
