import Verif.ListSum
import Verif.Program
import Mathlib.Tactic.IntervalCases
import Mathlib.Tactic.FinCases

/-!
# C01, C02, C53: expressions, gradients, senses
-/

namespace Verif

/-! ## C01: quadratic expressions keep the polynomial they were given -/

/-- **C01** (dictionary input): the expression evaluates to the sum of `v * x_i * x_j` over the entries
given, in whatever triangle they are.  Hypothesis `hd`: the entries address distinct positions (one
position under a name and an index would be overwritten, as in any dictionary). -/
theorem C01_dict_value (vi : Assoc String Nat) (n : Nat) (l : List ((Key × Key) × ℚ)) (e : QuadExpr)
    (he : QuadExpr.ofInput vi n (.dict l) = .ok e)
    (hd : (l.map fun p => (p.1.1.pos vi, p.1.2.pos vi)).Nodup) (x : List ℚ) (hx : x.length = n) :
    e.evaluate x = .ok (l.map fun p => p.2 * (pt x (p.1.1.pos vi) * pt x (p.1.2.pos vi))).sum := by
  simp only [QuadExpr.ofInput] at he
  split at he
  · simp at he
  · rename_i d hd'
    simp at he; subst he
    rw [QuadExpr.evaluate_ok hx]
    simp only [QuadExpr.val]
    rw [sum_triangle d (fun k => pt x k.1 * pt x k.2) (fun i j => mul_comm _ _)]
    have := quadOfEntries_sum hd' (by simp [Assoc.keys]) hd (by simp [Assoc.keys])
      (fun k => pt x k.1 * pt x k.2)
    rw [this]; simp

example : (QuadExpr.ofInput [("x", 0), ("y", 1)] 2
    (.dict [((.name "y", .idx 0), 3), ((.idx 0, .idx 1), 4)])).map (fun e => e.evaluate [2, 5])
    = .ok (.ok 70) := by decide +kernel

/-- **C01** (matrix input): a square matrix `Q` gives `x^T Q x`. -/
theorem C01_matrix_value (vi : Assoc String Nat) (n : Nat) (rows : List (List ℚ))
    (hsq : ∀ r ∈ rows, r.length = rows.length) :
    ∃ e, QuadExpr.ofInput vi n (.matrix rows) = .ok e ∧ ∀ x : List ℚ, x.length = rows.length →
      e.evaluate x = .ok ((List.range rows.length).map fun i => ((List.range rows.length).map fun j =>
        (rows.getD i []).getD j 0 * (pt x i * pt x j)).sum).sum := by
  have hall : (rows.all fun r => r.length == rows.length) = true := by simpa using hsq
  refine ⟨⟨rows.length, triangle (quadOfMatrix rows)⟩, by simp [QuadExpr.ofInput, hall], ?_⟩
  intro x hx
  rw [QuadExpr.evaluate_ok hx]
  simp only [QuadExpr.val]
  rw [sum_triangle _ (fun k => pt x k.1 * pt x k.2) (fun i j => mul_comm _ _),
    sum_quadOfMatrix]
  congr 2
  apply List.map_congr_left
  intro i hi
  simp at hi
  have : (rows.getD i []).length = rows.length := by
    apply hsq
    rw [List.getD_eq_getElem?_getD, List.getElem?_eq_getElem hi]; simp
  rw [this]

example : ∀ r ∈ ([[1, 2], [3, 4]] : List (List ℚ)), r.length = ([[1, 2], [3, 4]] : List (List ℚ)).length := by
  simp

/-- **C01** (success): dictionary input is accepted exactly when every key is a known name or an index in
range. -/
theorem C01_dict_accepts (vi : Assoc String Nat) (n : Nat) (l : List ((Key × Key) × ℚ)) :
    (∃ e, QuadExpr.ofInput vi n (.dict l) = .ok e) ↔
      ∀ p ∈ l, (∃ i, resolve vi n p.1.1 = .ok i) ∧ ∃ j, resolve vi n p.1.2 = .ok j := by
  have key : ∀ acc, (∃ d, quadOfEntries vi n l acc = .ok d) ↔
      ∀ p ∈ l, (∃ i, resolve vi n p.1.1 = .ok i) ∧ ∃ j, resolve vi n p.1.2 = .ok j := by
    induction l with
    | nil => simp [quadOfEntries]
    | cons p l ih =>
      intro acc
      obtain ⟨⟨k, k'⟩, v⟩ := p
      simp only [quadOfEntries, List.forall_mem_cons]
      split
      · rename_i e he; simp [he]
      · rename_i i hi
        split
        · rename_i e he; simp [he]
        · rename_i j hj; simp only [ih, hi, hj]; simp
  simp only [QuadExpr.ofInput]
  rw [← key []]
  constructor
  · rintro ⟨e, he⟩
    split at he
    · simp at he
    · rename_i d hd; exact ⟨d, hd⟩
  · rintro ⟨d, hd⟩; rw [hd]; exact ⟨_, rfl⟩

example : ¬ ∃ e, QuadExpr.ofInput [("x", 0)] 1 (.dict [((.name "x", .name "z"), 3)]) = .ok e := by
  rw [C01_dict_accepts]; simp [resolve, Assoc.get?]

/-- **C01** (shape): whatever the input form, the stored coefficients only occupy `i ≤ j`, each position
once.  For sparse-matrix input the given matrix must itself be a matrix (one value per position, in range). -/
theorem C01_upper (vi : Assoc String Nat) (n : Nat) (inp : QuadInput) (e : QuadExpr)
    (he : QuadExpr.ofInput vi n inp = .ok e)
    (hs : ∀ s, inp = .sparse s → (Assoc.keys s.coeffs).Nodup ∧
      ∀ k ∈ Assoc.keys s.coeffs, k.1 < s.n ∧ k.2 < s.n) :
    (∀ k ∈ Assoc.keys e.coeffs, k.1 ≤ k.2 ∧ k.2 < e.n) ∧ (Assoc.keys e.coeffs).Nodup := by
  have := QuadExpr.ofInput_wf he hs
  exact ⟨fun k hk => ⟨this.upper k hk, (this.bound k hk).2⟩, this.nodup⟩

example : (QuadExpr.ofInput [] 2 (.matrix [[1, 2], [3, 4]])) = .ok ⟨2, [((0,0),1), ((0,1),5), ((1,1),4)]⟩ := by
  decide +kernel

/-- **C01** (reading): coefficients `(i, j)` and `(j, i)` read the same. -/
theorem C01_get_symm (e : QuadExpr) (vi : Assoc String Nat) (i j : Nat) (hi : i < e.n) (hj : j < e.n) :
    e.getItem vi (.idx i) (.idx j) = e.getItem vi (.idx j) (.idx i) := by
  simp [QuadExpr.getItem, resolve, hi, hj, min_comm, max_comm]

example : (⟨2, [((0,1),5)]⟩ : QuadExpr).getItem [] (.idx 1) (.idx 0) = .ok 5 := by decide +kernel

/-- **C01** (reading, value): for matrix input, the coefficient read
at `(i, j)`, `i ≠ j`, is the total of the values given at `(i, j)` and at `(j, i)`. -/
theorem C01_get_value (rows : List (List ℚ)) (hsq : ∀ r ∈ rows, r.length = rows.length) (e : QuadExpr)
    (vi : Assoc String Nat) (n : Nat) (he : QuadExpr.ofInput vi n (.matrix rows) = .ok e)
    (i j : Nat) (hi : i < rows.length) (hj : j < rows.length) (hij : i ≠ j) :
    e.getItem vi (.idx i) (.idx j)
      = .ok ((rows.getD i []).getD j 0 + (rows.getD j []).getD i 0) := by
  have hall : (rows.all fun r => r.length == rows.length) = true := by simpa using hsq
  simp [QuadExpr.ofInput, hall] at he
  subst he
  have hw := (quadOfMatrix_wf rows hsq).1
  simp only [QuadExpr.getItem, resolve, hi, hj, if_true]
  have hget : ∀ a b, a < rows.length → b < rows.length →
      Dict.get (quadOfMatrix rows) (a, b) = (rows.getD a []).getD b 0 := by
    intro a b ha hb
    rw [Dict.get_eq_sum hw, sum_quadOfMatrix]
    have h1 : ((List.range rows.length).map fun i =>
        ((List.range (rows.getD i []).length).map fun j => (rows.getD i []).getD j 0 *
          (if (i, j) = (a, b) then 1 else 0)).sum)
        = (List.range rows.length).map fun i => if a = i then (rows.getD i []).getD b 0 else 0 := by
      apply List.map_congr_left
      intro r hr
      simp at hr
      have hl : (rows.getD r []).length = rows.length := by
        apply hsq
        rw [List.getD_eq_getElem?_getD, List.getElem?_eq_getElem hr]; simp
      rw [hl]
      by_cases har : a = r
      · subst har
        simp only [if_true]
        rw [← sum_range_ite rows.length b hb (fun c => (rows.getD a []).getD c 0)]
        congr 1
        apply List.map_congr_left
        intro c _
        by_cases hc : b = c
        · subst hc; simp
        · have hc' : ¬ c = b := fun h => hc h.symm
          simp [hc, hc']
      · have har' : ¬ r = a := fun h => har h.symm
        simp [har, har']
    rw [h1, sum_range_ite _ _ ha]
  rw [get_triangle hw]
  rcases Nat.lt_or_gt_of_ne hij with h | h
  · simp only [min_eq_left h.le, max_eq_right h.le, h, if_true]
    rw [hget _ _ hi hj, hget _ _ hj hi]
  · simp only [min_eq_right h.le, max_eq_left h.le, h, if_true]
    rw [hget _ _ hi hj, hget _ _ hj hi, add_comm]

example : (QuadExpr.ofInput [] 2 (.matrix [[1, 2], [3, 4]])).bind (fun e => e.getItem [] (.idx 1) (.idx 0))
    = .ok 5 := by decide +kernel

/-- **C01** (symmetric form): `to_dict(symmetric=True)` denotes the same polynomial and is symmetric. -/
theorem C01_symmetric (e : QuadExpr) (he : e.WF) :
    (∀ x : Nat → ℚ, Dict.sum (e.toDict true) (fun k => x k.1 * x k.2) = e.val x) ∧
    ∀ i j, Dict.get (e.toDict true) (i, j) = Dict.get (e.toDict true) (j, i) := by
  constructor
  · intro x
    simp only [QuadExpr.toDict, QuadExpr.val, if_true]
    exact sum_symmetric e.coeffs (fun k => x k.1 * x k.2) (fun i j => mul_comm _ _)
  · intro i j
    simp only [QuadExpr.toDict, if_true]
    rw [get_symmetric he.nodup he.upper, get_symmetric he.nodup he.upper, min_comm, max_comm]
    by_cases h : i = j
    · subst h; rfl
    · have h' : ¬ j = i := fun h' => h h'.symm
      simp [h, h']

/-- **C01** (array form): with and without `symmetric`, `x^T A x` for the array of `to_array` is the value of the
expression. -/
theorem C01_toArray (e : QuadExpr) (he : e.WF) (sym : Bool) (x : List ℚ) :
    ((List.range e.n).map fun i => ((List.range e.n).map fun j =>
      ((e.toArray sym).getD i []).getD j 0 * (pt x i * pt x j)).sum).sum = e.val (pt x) := by
  have hwf : (Assoc.keys (e.toDict sym)).Nodup ∧ ∀ k ∈ Assoc.keys (e.toDict sym), k.1 < e.n ∧ k.2 < e.n := by
    cases sym
    · exact ⟨he.nodup, he.bound⟩
    · refine ⟨nodup_symmetric he.nodup, ?_⟩
      intro k hk
      simp only [QuadExpr.toDict, if_true, symmetric] at hk
      have hmap : ∀ (d : Dict (Nat × Nat)), Assoc.keys (d.map fun p => (p.1, p.2 / 2)) = Assoc.keys d := by
        intro d; simp [Assoc.keys]
      rcases Dict.mem_keys_csrMinus hk with h | h
      · rcases Dict.mem_keys_dokPlus h with h | h
        · exact he.bound _ h
        · have h := mem_keys_transpose.mp h
          rw [hmap] at h
          have := he.bound _ (Dict.mem_keys_filter h)
          exact ⟨this.2, this.1⟩
      · rw [hmap] at h
        exact he.bound _ (Dict.mem_keys_filter h)
  have hval : e.val (pt x) = Dict.sum (e.toDict sym) (fun k => pt x k.1 * pt x k.2) := by
    cases sym
    · rfl
    · exact ((C01_symmetric e he).1 _).symm
  rw [hval, ← sum_range2_get _ hwf.1 e.n hwf.2 (fun i j => pt x i * pt x j)]
  congr 1
  apply List.map_congr_left
  intro i hi
  congr 1
  apply List.map_congr_left
  intro j hj
  simp only [List.mem_range] at hi hj
  congr 1
  simp [QuadExpr.toArray, List.getD_eq_getElem?_getD, List.getElem?_range hi, List.getElem?_range hj]

/-- **C01** (array form, entries): `to_array` is a square array with a row for each variable.  With `symmetric` it is
symmetric, has the coefficients of squares on the diagonal and half of the coefficient of a product at both of its places;
without, the whole coefficient is above the diagonal and zeros are below. -/
theorem C01_array_entries (e : QuadExpr) (he : e.WF) (vi : Assoc String Nat) :
    (∀ sym, (e.toArray sym).length = e.n ∧ ∀ row ∈ e.toArray sym, row.length = e.n) ∧
    (∀ i j, ((e.toArray true).getD i []).getD j 0 = ((e.toArray true).getD j []).getD i 0) ∧
    ∀ i < e.n, ∀ j < e.n, ∃ v, e.getItem vi (.idx i) (.idx j) = .ok v ∧
      ((e.toArray true).getD i []).getD j 0 = (if i = j then v else v / 2) ∧
      ((e.toArray false).getD i []).getD j 0 = if i ≤ j then v else 0 := by
  have hent : ∀ sym i j, i < e.n → j < e.n →
      ((e.toArray sym).getD i []).getD j 0 = Dict.get (e.toDict sym) (i, j) := by
    intro sym i j hi hj
    simp [QuadExpr.toArray, List.getD_eq_getElem?_getD, List.getElem?_range hi, List.getElem?_range hj]
  have hout : ∀ i j, ¬ (i < e.n ∧ j < e.n) → ((e.toArray true).getD i []).getD j 0 = 0 := by
    intro i j hij
    by_cases hi : i < e.n
    · have hj : ¬ j < e.n := fun hj => hij ⟨hi, hj⟩
      simp [QuadExpr.toArray, List.getD_eq_getElem?_getD, List.getElem?_range hi, hj]
    · simp [QuadExpr.toArray, List.getD_eq_getElem?_getD, hi]
  refine ⟨?_, ?_, ?_⟩
  · intro sym
    refine ⟨by simp [QuadExpr.toArray], ?_⟩
    intro row hrow
    simp only [QuadExpr.toArray, List.mem_map] at hrow
    obtain ⟨_, _, rfl⟩ := hrow
    simp
  · intro i j
    by_cases h : i < e.n ∧ j < e.n
    · rw [hent _ _ _ h.1 h.2, hent _ _ _ h.2 h.1]
      exact (C01_symmetric e he).2 i j
    · rw [hout i j h, hout j i fun h' => h h'.symm]
  · intro i hi j hj
    refine ⟨Dict.get e.coeffs (min i j, max i j), by simp [QuadExpr.getItem, resolve, hi, hj], ?_, ?_⟩
    · rw [hent _ _ _ hi hj]
      simp only [QuadExpr.toDict, if_true]
      rw [get_symmetric he.nodup he.upper]
      by_cases h : i = j
      · subst h; simp
      · simp [h]
    · rw [hent _ _ _ hi hj]
      simp only [QuadExpr.toDict, Bool.false_eq_true, if_false]
      by_cases h : i ≤ j
      · simp [h]
      · rw [if_neg h]
        exact Dict.get_eq_zero_of_not_mem fun hk => h (he.upper _ hk)

example : (⟨2, [((0,0),1), ((0,1),5), ((1,1),4)]⟩ : QuadExpr).WF :=
  ⟨by decide, by decide, by decide⟩

example : (⟨2, [((0,0),1), ((0,1),5), ((1,1),4)]⟩ : QuadExpr).toArray true = [[1, 5/2], [5/2, 4]] := by
  decide +kernel

/-- **C01** (assignment): after `expr[i, j] = v`, reading `(j, i)` gives `v`, and no other coefficient
changes. -/
theorem C01_set_get (e : QuadExpr) (he : e.WF) (vi : Assoc String Nat) (i j : Nat) (hi : i < e.n)
    (hj : j < e.n) (v : ℚ) :
    ∃ e', e.setItem vi (.idx i) (.idx j) v = .ok e' ∧ e'.WF ∧ e'.n = e.n ∧
      e'.getItem vi (.idx j) (.idx i) = .ok v ∧
      ∀ a b, a < e.n → b < e.n → ¬ (a = i ∧ b = j) → ¬ (a = j ∧ b = i) →
        e'.getItem vi (.idx a) (.idx b) = e.getItem vi (.idx a) (.idx b) := by
  refine ⟨{ e with coeffs := Dict.dokSet e.coeffs (min i j, max i j) v }, ?_, ?_, rfl, ?_, ?_⟩
  · simp [QuadExpr.setItem, resolve, hi, hj]
  · refine ⟨Dict.nodup_dokSet he.nodup _ _, ?_, ?_⟩
    · intro k hk
      rcases Dict.mem_keys_dokSet hk with h | h
      · exact he.bound k h
      · subst h; simp; omega
    · intro k hk
      rcases Dict.mem_keys_dokSet hk with h | h
      · exact he.upper k h
      · subst h; simp
  · simp [QuadExpr.getItem, resolve, hi, hj, Dict.get_dokSet he.nodup, min_comm, max_comm]
  · intro a b ha hb h1 h2
    have : ¬ ((min i j, max i j) = (min a b, max a b)) := by
      simp only [Prod.mk.injEq]; omega
    simp [QuadExpr.getItem, resolve, ha, hb, Dict.get_dokSet he.nodup] at this ⊢
    intro h3 h4
    exact absurd h4 (this h3)

/-! ## C02: gradients -/

/-- Linear expressions: `f(x+h) - f(x) = gradient . h`. -/
theorem C02_linear (e : LinExpr) (he : e.WF) (x h : List ℚ) (hx : x.length = e.n) (hh : h.length = e.n) :
    ∃ fx fxh g, e.evaluate x = .ok fx ∧ e.evaluate (vadd x h) = .ok fxh ∧ e.gradient x = .ok g ∧
      fxh - fx = dot g h := by
  have hl : (vadd x h).length = e.n := by simp [vadd, hx, hh]
  refine ⟨_, _, _, LinExpr.evaluate_ok hx, LinExpr.evaluate_ok hl, rfl, ?_⟩
  have hxh : x.length = h.length := hx.trans hh.symm
  simp only [LinExpr.val, LinExpr.toArray]
  rw [← hh, dot_eq_range, sum_range_get e.coeffs he.nodup h.length (by rw [hh]; exact he.bound)]
  have : pt (vadd x h) = fun i => pt x i + pt h i := by funext i; exact pt_vadd hxh i
  rw [this, Dict.sum_add_fun]; ring

example : (⟨3, [(0, 2), (2, -1)]⟩ : LinExpr).WF := ⟨by decide, by decide⟩

/-- Quadratic expressions: `f(x+h) - f(x) - gradient . h = f(h)`: an exact second order expansion. -/
theorem C02_quadratic (e : QuadExpr) (he : e.WF) (x h : List ℚ) (hx : x.length = e.n)
    (hh : h.length = e.n) :
    ∃ fx fxh fh g, e.evaluate x = .ok fx ∧ e.evaluate (vadd x h) = .ok fxh ∧ e.evaluate h = .ok fh ∧
      e.gradient x = .ok g ∧ fxh - fx - dot g h = fh := by
  have hl : (vadd x h).length = e.n := by simp [vadd, hx, hh]
  refine ⟨_, _, _, _, QuadExpr.evaluate_ok hx, QuadExpr.evaluate_ok hl, QuadExpr.evaluate_ok hh,
    by simp [QuadExpr.gradient, hx]; rfl, ?_⟩
  have hxh : x.length = h.length := hx.trans hh.symm
  simp only [QuadExpr.val]
  have hs : ∀ k ∈ Assoc.keys (dokPlus (transpose e.coeffs) e.coeffs), k.1 < h.length := by
    intro k hk
    rw [hh]
    rcases Dict.mem_keys_dokPlus hk with h' | h'
    · exact (he.bound _ (mem_keys_transpose.mp h')).2
    · exact (he.bound _ h').1
  rw [← hh, dot_eq_range, sum_by_rows _ _ hs (fun k => pt x k.2) (pt h), Dict.sum_dokPlus,
    Dict.sum_transpose]
  have : pt (vadd x h) = fun i => pt x i + pt h i := by funext i; exact pt_vadd hxh i
  rw [this]
  have e1 : (fun k : Nat × Nat => (pt x k.1 + pt h k.1) * (pt x k.2 + pt h k.2))
      = fun k => ((pt x k.1 * pt x k.2 + pt h k.2 * pt x k.1) + (pt h k.1 * pt x k.2)) +
        pt h k.1 * pt h k.2 := by
    funext k; ring
  simp only [e1]
  rw [Dict.sum_add_fun, Dict.sum_add_fun, Dict.sum_add_fun]
  ring

/-- **C02**: the gradient of the objective is its derivative: for all points `x` and directions `h`,
`f(x+h) - f(x) - gradient(x) . h` is the quadratic part at `h`. -/
theorem C02_objective (o : Objective) (hlw : o.linear.WF) (hqw : o.quadratic.WF)
    (hn : o.linear.n = o.quadratic.n) (x h : List ℚ) (hx : x.length = o.linear.n)
    (hh : h.length = o.linear.n) :
    ∃ fx fxh qh g, o.evaluate x = .ok fx ∧ o.evaluate (vadd x h) = .ok fxh ∧
      o.quadratic.evaluate h = .ok qh ∧ o.gradient x = .ok g ∧ g.length = x.length ∧
      fxh - fx - dot g h = qh := by
  obtain ⟨lx, lxh, lg, h1, h2, h3, h4⟩ := C02_linear o.linear hlw x h hx hh
  obtain ⟨qx, qxh, qh, qg, k1, k2, k3, k4, k5⟩ :=
    C02_quadratic o.quadratic hqw x h (hx.trans hn) (hh.trans hn)
  have hlg : lg.length = x.length := by
    simp [LinExpr.gradient] at h3; subst h3; simp [LinExpr.toArray, hx]
  have hqg : qg.length = x.length := by
    simp [QuadExpr.gradient, hx.trans hn] at k4; subst k4; simp [hx.trans hn]
  have hxh : h.length = x.length := hh.trans hx.symm
  refine ⟨o.constant + lx + qx, o.constant + lxh + qxh, qh, List.zipWith (· + ·) lg qg, ?_, ?_, k3, ?_, ?_, ?_⟩
  · simp [Objective.evaluate, h1, k1]
  · simp [Objective.evaluate, h2, k2]
  · simp [Objective.gradient, h3, k4, hlg, hqg]
  · simp [hlg, hqg]
  · have hdot : dot (List.zipWith (· + ·) lg qg) h = dot lg h + dot qg h := by
      have gen : ∀ (a b c : List ℚ), a.length = b.length → b.length = c.length →
          dot (List.zipWith (· + ·) a b) c = dot a c + dot b c := by
        intro a
        induction a with
        | nil =>
          intro b c hab hbc
          have hb : b = [] := List.length_eq_zero_iff.mp (by simpa using hab.symm)
          subst hb; simp [dot]
        | cons a0 a ih =>
          intro b c hab hbc
          cases b with
          | nil => simp at hab
          | cons b0 b =>
            cases c with
            | nil => simp at hbc
            | cons c0 c =>
              have := ih b c (by simpa using hab) (by simpa using hbc)
              simp only [dot] at this ⊢
              simp [this]; ring
      exact gen _ _ _ (hlg.trans hqg.symm) (hqg.trans hxh.symm)
    rw [hdot]; linarith

example : ∃ o : Objective, o.linear.WF ∧ o.quadratic.WF ∧ o.linear.n = o.quadratic.n ∧
    o.gradient [1, 2] = .ok [9, 13] :=
  ⟨⟨7, ⟨2, [(0, 3)]⟩, ⟨2, [((0,0),-1), ((0,1),4), ((1,1),9/4)]⟩, .maximize⟩, ⟨by decide, by decide⟩,
    ⟨by decide, by decide, by decide⟩, rfl, by decide +kernel⟩

/-! ## C53: `ConstraintSense.convert` -/

/-- The spellings that mean `==`. -/
def eqSpellings : List String := ["E", "e", "EQ", "Eq", "eQ", "eq", "=", "=="]
/-- The spellings that mean `<=`. -/
def leSpellings : List String := ["L", "l", "LE", "Le", "lE", "le", "<=", "<"]
/-- The spellings that mean `>=`. -/
def geSpellings : List String := ["G", "g", "GE", "Ge", "gE", "ge", ">=", ">"]

theorem toUpper_eq_iff (c : Char) (u l : Char) (h : (u, l) ∈ [('E', 'e'), ('Q', 'q'), ('L', 'l'), ('G', 'g')]) :
    c.toUpper = u ↔ c = u ∨ c = l := by
  by_cases hc : 'a'.val ≤ c.val ∧ c.val ≤ 'z'.val
  · have h1 : 97 ≤ c.toNat := by simpa using UInt32.le_iff_toNat_le.mp hc.1
    have h2 : c.toNat ≤ 122 := by simpa using UInt32.le_iff_toNat_le.mp hc.2
    have h3 : c = Char.ofNat c.toNat := (Char.ofNat_toNat c).symm
    generalize c.toNat = k at h1 h2 h3
    subst h3
    fin_cases h <;> (interval_cases k <;> decide)
  · have : c.toUpper = c := by unfold Char.toUpper; rw [dif_neg hc]
    rw [this]
    constructor
    · exact Or.inl
    · rintro (h' | h')
      · exact h'
      · exfalso; subst h'; revert hc; fin_cases h <;> decide

theorem toUpper_eq_sym (c u : Char) (h : u ∈ ['=', '<', '>']) : c.toUpper = u ↔ c = u := by
  by_cases hc : 'a'.val ≤ c.val ∧ c.val ≤ 'z'.val
  · have h1 : 97 ≤ c.toNat := by simpa using UInt32.le_iff_toNat_le.mp hc.1
    have h2 : c.toNat ≤ 122 := by simpa using UInt32.le_iff_toNat_le.mp hc.2
    have h3 : c = Char.ofNat c.toNat := (Char.ofNat_toNat c).symm
    generalize c.toNat = k at h1 h2 h3
    subst h3
    fin_cases h <;> (interval_cases k <;> decide)
  · have : c.toUpper = c := by unfold Char.toUpper; rw [dif_neg hc]
    rw [this]

theorem map_toUpper_eq_iff (s t : String) :
    s.map Char.toUpper = t ↔ s.toList.map Char.toUpper = t.toList := by
  rw [← String.toList_map, String.toList_inj]

theorem upper_one (s : String) (u : Char) (t : String) (ht : t.toList = [u]) :
    s.map Char.toUpper = t ↔ ∃ c, s.toList = [c] ∧ c.toUpper = u := by
  rw [map_toUpper_eq_iff, ht, List.map_eq_singleton_iff]

theorem upper_two (s : String) (u v : Char) (t : String) (ht : t.toList = [u, v]) :
    s.map Char.toUpper = t ↔ ∃ c d, s.toList = [c, d] ∧ c.toUpper = u ∧ d.toUpper = v := by
  rw [map_toUpper_eq_iff, ht]
  constructor
  · intro h
    match hs : s.toList, h with
    | [c, d], h => simp at h; exact ⟨c, d, rfl, h.1, h.2⟩
  · rintro ⟨c, d, h, h1, h2⟩; simp [h, h1, h2]

theorem str_one (s t : String) (c : Char) (ht : t.toList = [c]) : s = t ↔ s.toList = [c] := by
  rw [← String.toList_inj, ht]

theorem str_two (s t : String) (c d : Char) (ht : t.toList = [c, d]) : s = t ↔ s.toList = [c, d] := by
  rw [← String.toList_inj, ht]

theorem upper_mem_eq (s : String) : s.map Char.toUpper ∈ ["E", "EQ", "=", "=="] ↔ s ∈ eqSpellings := by
  simp only [eqSpellings, List.mem_cons, List.not_mem_nil, or_false]
  rw [upper_one s 'E' "E" rfl, upper_two s 'E' 'Q' "EQ" rfl, upper_one s '=' "=" rfl,
    upper_two s '=' '=' "==" rfl, str_one s "E" 'E' rfl, str_one s "e" 'e' rfl,
    str_two s "EQ" 'E' 'Q' rfl, str_two s "Eq" 'E' 'q' rfl, str_two s "eQ" 'e' 'Q' rfl,
    str_two s "eq" 'e' 'q' rfl, str_one s "=" '=' rfl, str_two s "==" '=' '=' rfl]
  simp only [toUpper_eq_iff _ 'E' 'e' (by decide), toUpper_eq_iff _ 'Q' 'q' (by decide),
    toUpper_eq_sym _ '=' (by decide)]
  constructor
  · rintro (⟨c, h, rfl | rfl⟩ | ⟨c, d, h, rfl | rfl, rfl | rfl⟩ | ⟨c, h, rfl⟩ | ⟨c, d, h, rfl, rfl⟩) <;> simp [h]
  · rintro (h | h | h | h | h | h | h | h) <;> simp [h]

theorem upper_mem_le (s : String) : s.map Char.toUpper ∈ ["L", "LE", "<=", "<"] ↔ s ∈ leSpellings := by
  simp only [leSpellings, List.mem_cons, List.not_mem_nil, or_false]
  rw [upper_one s 'L' "L" rfl, upper_two s 'L' 'E' "LE" rfl, upper_one s '<' "<" rfl,
    upper_two s '<' '=' "<=" rfl, str_one s "L" 'L' rfl, str_one s "l" 'l' rfl,
    str_two s "LE" 'L' 'E' rfl, str_two s "Le" 'L' 'e' rfl, str_two s "lE" 'l' 'E' rfl,
    str_two s "le" 'l' 'e' rfl, str_one s "<" '<' rfl, str_two s "<=" '<' '=' rfl]
  simp only [toUpper_eq_iff _ 'E' 'e' (by decide), toUpper_eq_iff _ 'L' 'l' (by decide),
    toUpper_eq_sym _ '=' (by decide), toUpper_eq_sym _ '<' (by decide)]
  constructor
  · rintro (⟨c, h, rfl | rfl⟩ | ⟨c, d, h, rfl | rfl, rfl | rfl⟩ | ⟨c, d, h, rfl, rfl⟩ | ⟨c, h, rfl⟩) <;> simp [h]
  · rintro (h | h | h | h | h | h | h | h) <;> simp [h]

theorem upper_mem_ge (s : String) : s.map Char.toUpper ∈ ["G", "GE", ">=", ">"] ↔ s ∈ geSpellings := by
  simp only [geSpellings, List.mem_cons, List.not_mem_nil, or_false]
  rw [upper_one s 'G' "G" rfl, upper_two s 'G' 'E' "GE" rfl, upper_one s '>' ">" rfl,
    upper_two s '>' '=' ">=" rfl, str_one s "G" 'G' rfl, str_one s "g" 'g' rfl,
    str_two s "GE" 'G' 'E' rfl, str_two s "Ge" 'G' 'e' rfl, str_two s "gE" 'g' 'E' rfl,
    str_two s "ge" 'g' 'e' rfl, str_one s ">" '>' rfl, str_two s ">=" '>' '=' rfl]
  simp only [toUpper_eq_iff _ 'E' 'e' (by decide), toUpper_eq_iff _ 'G' 'g' (by decide),
    toUpper_eq_sym _ '=' (by decide), toUpper_eq_sym _ '>' (by decide)]
  constructor
  · rintro (⟨c, h, rfl | rfl⟩ | ⟨c, d, h, rfl | rfl, rfl | rfl⟩ | ⟨c, d, h, rfl, rfl⟩ | ⟨c, h, rfl⟩) <;> simp [h]
  · rintro (h | h | h | h | h | h | h | h) <;> simp [h]

/-- **C53**: exactly the listed spellings are accepted, each with the intended meaning, every other string
is rejected with `QiskitOptimizationError`; a `ConstraintSense` is passed through. -/
theorem C53_convert (s : String) (t : Sense) :
    (Sense.convert (.str s) = .ok .eq ↔ s ∈ eqSpellings) ∧
    (Sense.convert (.str s) = .ok .le ↔ s ∈ leSpellings) ∧
    (Sense.convert (.str s) = .ok .ge ↔ s ∈ geSpellings) ∧
    (Sense.convert (.str s) = .error .optimization ↔
      s ∉ eqSpellings ∧ s ∉ leSpellings ∧ s ∉ geSpellings) ∧
    Sense.convert (.sense t) = .ok t := by
  rw [← upper_mem_eq, ← upper_mem_le, ← upper_mem_ge]
  simp only [Sense.convert]
  generalize s.map Char.toUpper = u
  have hall : u ∈ ["E", "L", "G", "EQ", "LE", "GE", "=", "==", "<=", "<", ">=", ">"] ↔
      u ∈ ["E", "EQ", "=", "=="] ∨ u ∈ ["L", "LE", "<=", "<"] ∨ u ∈ ["G", "GE", ">=", ">"] := by
    simp only [List.mem_cons, List.not_mem_nil, or_false]; tauto
  have d1 : u ∈ ["E", "EQ", "=", "=="] → u ∉ ["L", "LE", "<=", "<"] ∧ u ∉ ["G", "GE", ">=", ">"] := by
    intro h; fin_cases h <;> decide
  have d2 : u ∈ ["L", "LE", "<=", "<"] → u ∉ ["G", "GE", ">=", ">"] := by
    intro h; fin_cases h <;> decide
  simp only [hall]
  by_cases h1 : u ∈ ["E", "EQ", "=", "=="]
  · have := d1 h1
    simp only [h1, this.1, this.2]; simp
  · by_cases h2 : u ∈ ["L", "LE", "<=", "<"]
    · have := d2 h2
      simp only [h1, h2, this]; simp
    · by_cases h3 : u ∈ ["G", "GE", ">=", ">"] <;> simp only [h1, h2, h3] <;> simp

example : Sense.convert (.str "eQ") = .ok .eq := (C53_convert "eQ" .le).1.mpr (by decide)

/-! ## Repeated positions, linear expressions (C01, C61) -/

/-- The value of the last entry with key `k`, zero if there is none. -/
def lastValue {κ : Type} [DecidableEq κ] (l : List (κ × ℚ)) (k : κ) : ℚ :=
  (((l.filter fun p => p.1 = k).getLast?).map Prod.snd).getD 0

theorem lastValue_cons {κ : Type} [DecidableEq κ] (p : κ × ℚ) (l : List (κ × ℚ)) (k : κ) :
    lastValue (p :: l) k = if k ∈ l.map Prod.fst then lastValue l k else if p.1 = k then p.2 else 0 := by
  unfold lastValue
  by_cases hm : k ∈ l.map Prod.fst
  · rw [if_pos hm]
    have hne : (l.filter fun p => p.1 = k) ≠ [] := by
      obtain ⟨q, hq, rfl⟩ := List.mem_map.mp hm
      exact List.ne_nil_of_mem (List.mem_filter.mpr ⟨hq, by simp⟩)
    by_cases hp : p.1 = k
    · rw [List.filter_cons_of_pos (by simpa using hp)]
      cases hl : l.filter fun p => p.1 = k with
      | nil => exact absurd hl hne
      | cons a t => rw [List.getLast?_cons_cons]
    · rw [List.filter_cons_of_neg (by simpa using hp)]
  · rw [if_neg hm]
    have he : (l.filter fun p => p.1 = k) = [] := by
      rw [List.filter_eq_nil_iff]
      intro q hq hk
      exact hm (List.mem_map.mpr ⟨q, hq, by simpa using hk⟩)
    by_cases hp : p.1 = k
    · rw [List.filter_cons_of_pos (by simpa using hp), he]; simp [hp]
    · rw [List.filter_cons_of_neg (by simpa using hp), he]; simp [hp]

theorem linOfEntries_get {vi : Assoc String Nat} {n : Nat} {l : List (Key × ℚ)} {acc d : Dict Nat}
    (h : linOfEntries vi n l acc = .ok d) (hn : (Assoc.keys acc).Nodup) (i : Nat) :
    Dict.get d i = if i ∈ l.map (fun p => p.1.pos vi) then lastValue (l.map fun p => (p.1.pos vi, p.2)) i
      else Dict.get acc i := by
  induction l generalizing acc with
  | nil => simp [linOfEntries] at h; subst h; simp
  | cons p l ih =>
    obtain ⟨k, v⟩ := p
    simp only [linOfEntries] at h
    cases hk : resolve vi n k with
    | error e => simp [hk] at h
    | ok j =>
      simp only [hk] at h
      rw [ih h (Dict.nodup_dokSet hn _ _), Dict.get_dokSet hn]
      have hj := resolve_eq hk
      subst hj
      have hm : (l.map fun p => (p.1.pos vi, p.2)).map Prod.fst = l.map fun p => p.1.pos vi := by simp
      rw [List.map_cons, List.map_cons, lastValue_cons, hm]
      by_cases h1 : i ∈ l.map fun p => p.1.pos vi
      · simp [h1]
      · by_cases h2 : i = k.pos vi
        · simp [h2]
        · simp [h1, h2, Ne.symm h2]

theorem quadOfEntries_get {vi : Assoc String Nat} {n : Nat} {l : List ((Key × Key) × ℚ)} {acc d : Dict (Nat × Nat)}
    (h : quadOfEntries vi n l acc = .ok d) (hn : (Assoc.keys acc).Nodup) (i : Nat × Nat) :
    Dict.get d i = if i ∈ l.map (fun p => (p.1.1.pos vi, p.1.2.pos vi)) then
        lastValue (l.map fun p => ((p.1.1.pos vi, p.1.2.pos vi), p.2)) i
      else Dict.get acc i := by
  induction l generalizing acc with
  | nil => simp [quadOfEntries] at h; subst h; simp
  | cons p l ih =>
    obtain ⟨⟨k, k'⟩, v⟩ := p
    simp only [quadOfEntries] at h
    cases hk : resolve vi n k with
    | error e => simp [hk] at h
    | ok j =>
      cases hk' : resolve vi n k' with
      | error e => simp [hk, hk'] at h
      | ok j' =>
        simp only [hk, hk'] at h
        rw [ih h (Dict.nodup_dokSet hn _ _), Dict.get_dokSet hn]
        have hj := resolve_eq hk
        have hj' := resolve_eq hk'
        subst hj
        subst hj'
        have hm : (l.map fun p => ((p.1.1.pos vi, p.1.2.pos vi), p.2)).map Prod.fst =
            l.map fun p => (p.1.1.pos vi, p.1.2.pos vi) := by simp
        rw [List.map_cons, List.map_cons, lastValue_cons, hm]
        by_cases h1 : i ∈ l.map fun p => (p.1.1.pos vi, p.1.2.pos vi)
        · simp only [h1, if_true, List.mem_cons, or_true]
        · by_cases h2 : i = (k.pos vi, k'.pos vi)
          · subst h2; simp [h1]
          · simp only [h1, if_false, List.mem_cons, h2, or_self, Ne.symm h2]

theorem lastValue_not_mem {κ : Type} [DecidableEq κ] {l : List (κ × ℚ)} {k : κ} (h : k ∉ l.map Prod.fst) :
    lastValue l k = 0 := by
  unfold lastValue
  have he : (l.filter fun p => p.1 = k) = [] := by
    rw [List.filter_eq_nil_iff]
    intro q hq hk
    exact h (List.mem_map.mpr ⟨q, hq, by simpa using hk⟩)
  rw [he]; rfl

/-- **C01** (repeated positions): whatever entries a dictionary has, also if a name and an index address the same
position, the coefficient at `(i, j)` is the last value given for `(i, j)` plus, off the diagonal, the last one given
for `(j, i)`. -/
theorem C01_dict_last (vi : Assoc String Nat) (n : Nat) (l : List ((Key × Key) × ℚ)) (e : QuadExpr)
    (he : QuadExpr.ofInput vi n (.dict l) = .ok e) (i j : Nat) (hi : i < n) (hj : j < n) :
    e.getItem vi (.idx i) (.idx j) =
      .ok (lastValue (l.map fun p => ((p.1.1.pos vi, p.1.2.pos vi), p.2)) (i, j) +
        if i = j then 0 else lastValue (l.map fun p => ((p.1.1.pos vi, p.1.2.pos vi), p.2)) (j, i)) := by
  simp only [QuadExpr.ofInput] at he
  cases hd : quadOfEntries vi n l [] with
  | error er => simp [hd] at he
  | ok d =>
    simp only [hd, Except.ok.injEq] at he
    subst he
    have hg : ∀ k, Dict.get d k = lastValue (l.map fun p => ((p.1.1.pos vi, p.1.2.pos vi), p.2)) k := by
      intro k
      rw [quadOfEntries_get hd (by simp [Assoc.keys])]
      split
      · rfl
      · rename_i hm
        rw [lastValue_not_mem (by simpa using hm)]
        simp
    have hw := (quadOfEntries_wf hd (by simp [Assoc.keys]) (by simp [Assoc.keys])).1
    simp only [QuadExpr.getItem, resolve, hi, hj, if_true, get_triangle hw, hg]
    rcases lt_trichotomy i j with h | h | h
    · simp [min_eq_left h.le, max_eq_right h.le, h, h.ne]
    · subst h; simp
    · simp [min_eq_right h.le, max_eq_left h.le, h, h.ne', add_comm]

example : (QuadExpr.ofInput [("x", 0)] 2 (.dict [((.idx 0, .idx 1), 2), ((.name "x", .idx 1), 3),
    ((.idx 1, .idx 0), 4)])).toOption.map (fun e => e.getItem [] (.idx 1) (.idx 0)) = some (.ok 7) := by
  decide +kernel

/-- **C61** (dictionary): a linear expression built from a dictionary has one column per variable and the coefficient
at `i` is the last value given for position `i`, zero if there is none. -/
theorem C61_dict (vi : Assoc String Nat) (n : Nat) (l : List (Key × ℚ)) (e : LinExpr)
    (he : LinExpr.ofInput vi n (.dict l) = .ok e) :
    e.n = n ∧ ∀ i < n, e.getItem vi (.idx i) = .ok (lastValue (l.map fun p => (p.1.pos vi, p.2)) i) := by
  simp only [LinExpr.ofInput] at he
  cases hd : linOfEntries vi n l [] with
  | error er => simp [hd] at he
  | ok d =>
    simp only [hd, Except.ok.injEq] at he
    subst he
    refine ⟨rfl, fun i hi => ?_⟩
    simp only [LinExpr.getItem, resolve, hi, if_true]
    rw [linOfEntries_get hd (by simp [Assoc.keys])]
    split
    · rfl
    · rename_i hm
      rw [lastValue_not_mem (by simpa using hm)]
      simp

/-- **C61** (dictionary, value): if the entries address distinct positions the value at a point is the sum of
`v * x_i` over the entries. -/
theorem C61_dict_value (vi : Assoc String Nat) (n : Nat) (l : List (Key × ℚ)) (e : LinExpr)
    (he : LinExpr.ofInput vi n (.dict l) = .ok e) (hnd : (l.map fun p => p.1.pos vi).Nodup) (x : List ℚ)
    (hx : x.length = n) : e.evaluate x = .ok (l.map fun p => p.2 * pt x (p.1.pos vi)).sum := by
  simp only [LinExpr.ofInput] at he
  cases hd : linOfEntries vi n l [] with
  | error er => simp [hd] at he
  | ok d =>
    simp only [hd, Except.ok.injEq] at he
    subst he
    rw [LinExpr.evaluate_ok (by exact hx), LinExpr.val]
    have := linOfEntries_sum (f := pt x) hd (by simp [Assoc.keys]) hnd (by simp [Assoc.keys])
    rw [this]; simp

/-- **C61** (dictionary, acceptance): a dictionary is accepted iff all its keys are names or indices of variables. -/
theorem C61_dict_accepts (vi : Assoc String Nat) (n : Nat) (l : List (Key × ℚ)) :
    (∃ e, LinExpr.ofInput vi n (.dict l) = .ok e) ↔ ∀ p ∈ l, ∃ i, resolve vi n p.1 = .ok i := by
  have key : ∀ acc, (∃ d, linOfEntries vi n l acc = .ok d) ↔ ∀ p ∈ l, ∃ i, resolve vi n p.1 = .ok i := by
    induction l with
    | nil => simp [linOfEntries]
    | cons p l ih =>
      intro acc
      obtain ⟨k, v⟩ := p
      cases hk : resolve vi n k with
      | error e => simp [linOfEntries, hk]
      | ok j => simp only [linOfEntries, hk, ih, List.forall_mem_cons]; simp [hk]
  rw [← key []]
  simp only [LinExpr.ofInput]
  cases linOfEntries vi n l [] <;> simp

/-- **C61** (list): a linear expression built from a list has as many columns as the list has entries, its
coefficients are the entries, and its value at a point of that length is the scalar product. -/
theorem C61_list (vi : Assoc String Nat) (n : Nat) (l : List ℚ) :
    ∃ e, LinExpr.ofInput vi n (.list l) = .ok e ∧ e.n = l.length ∧
      (∀ i v, l[i]? = some v → e.getItem vi (.idx i) = .ok v) ∧
      ∀ x : List ℚ, x.length = l.length →
        e.evaluate x = .ok ((List.range l.length).map fun i => l.getD i 0 * pt x i).sum := by
  refine ⟨_, rfl, rfl, ?_, ?_⟩
  · intro i v hv
    have hi := (List.getElem?_eq_some_iff.mp hv).1
    simp only [LinExpr.getItem, resolve, hi, if_true]
    have hm : ∀ w, (i, w) ∈ linOfList l ↔ w = v ∧ w ≠ 0 := by
      intro w
      simp only [linOfList, List.mem_filter, List.mem_map, Prod.mk.injEq, decide_eq_true_eq, Prod.exists,
        List.mem_zipIdx_iff_getElem?]
      constructor
      · rintro ⟨⟨a, b, h1, rfl, rfl⟩, h2⟩
        rw [hv] at h1
        exact ⟨(Option.some.inj h1).symm, h2⟩
      · rintro ⟨rfl, h2⟩
        exact ⟨⟨w, i, hv, rfl, rfl⟩, h2⟩
    by_cases h0 : v = 0
    · subst h0
      cases hg : Assoc.get? (linOfList l) i with
      | none => simp [Dict.get, hg]
      | some w => exact absurd ((hm w).mp (Assoc.get?_mem hg)) (by simp)
    · simp [Dict.get, Assoc.get?_of_mem (linOfList_wf l).1 ((hm v).mpr ⟨rfl, h0⟩)]
  · intro x hx
    rw [LinExpr.evaluate_ok (by exact hx), LinExpr.val, sum_linOfList]

example : (LinExpr.ofInput [("x", 0)] 2 (.dict [(.idx 0, 2), (.name "x", 3)])).toOption.map
    (fun e => (e.n, e.coeffs)) = some (2, [(0, 3)]) := by decide +kernel

end Verif
