import Verif.NegIndex
import Verif.ExprLemmas

/-!
# Negative indices: C93
-/

namespace Verif

/-- The key means variable number `i` among `n`: its name, its number, or its number counted from the end. -/
def PyKey.Means (vi : Assoc String Nat) (n : Nat) (k : PyKey) (i : Nat) : Prop :=
  i < n ∧ match k with
    | .idx a => a = i ∨ a = (i : Int) - n
    | .name s => Assoc.get? vi s = some i

/-- The key counts from the end. -/
def PyKey.FromEnd : PyKey → Prop
  | .idx a => a < 0
  | .name _ => False

instance : DecidablePred PyKey.FromEnd
  | .idx a => inferInstanceAs (Decidable (a < 0))
  | .name _ => inferInstanceAs (Decidable False)

theorem PyKey.Means.raw {vi : Assoc String Nat} {n : Nat} {k : PyKey} {i : Nat} (h : k.Means vi n i) :
    ∃ a, k.raw vi = .ok a ∧ scipyIndex n a = .ok i ∧ (k.FromEnd → a = (i : Int) - n) ∧ (¬ k.FromEnd → a = i) := by
  cases k with
  | idx a =>
    obtain ⟨h1, h2⟩ := h
    refine ⟨a, rfl, ?_, fun hf => ?_, fun hf => ?_⟩
    · unfold scipyIndex
      rw [if_neg (by omega)]
      congr 1
      split_ifs <;> omega
    · simp only [PyKey.FromEnd] at hf; omega
    · simp only [PyKey.FromEnd] at hf; omega
  | name s =>
    obtain ⟨h1, h2⟩ := h
    refine ⟨(i : Int), by simp only [PyKey.raw, h2], ?_, fun hf => hf.elim, fun _ => rfl⟩
    unfold scipyIndex
    rw [if_neg (by omega), if_neg (by omega)]
    simp

theorem PyKey.means_of_ok {vi : Assoc String Nat} {n : Nat} {k : PyKey} {a : Int} {i : Nat} (h : k.raw vi = .ok a)
    (h' : scipyIndex n a = .ok i) : k.Means vi n i := by
  unfold scipyIndex at h'
  by_cases hc : a < -n ∨ (n : Int) ≤ a
  · rw [if_pos hc] at h'; cases h'
  · rw [if_neg hc] at h'
    have hi := Except.ok.inj h'
    cases k with
    | idx b =>
      cases h
      refine ⟨?_, ?_⟩
      · split_ifs at hi <;> omega
      · show a = i ∨ a = (i : Int) - n
        split_ifs at hi <;> omega
    | name s =>
      simp only [PyKey.raw] at h
      cases hs : Assoc.get? vi s with
      | none => rw [hs] at h; cases h
      | some j =>
        rw [hs] at h
        have := Except.ok.inj h
        refine ⟨?_, ?_⟩
        · split_ifs at hi <;> omega
        · show Assoc.get? vi s = some i
          rw [hs]
          congr 1
          split_ifs at hi <;> omega

/-- **C93** (linear expressions): reading and assigning under any key is reading and assigning the coefficient of the variable
that the key means; a key that means no variable is rejected. -/
theorem C93_linear (e : LinExpr) (vi : Assoc String Nat) (k : PyKey) :
    (∀ i, k.Means vi e.n i → e.getItemPy vi k = e.getItem vi (.idx i) ∧
      ∀ v, e.setItemPy vi k v = e.setItem vi (.idx i) v) ∧
    ((∀ i, ¬ k.Means vi e.n i) → (∃ er, e.getItemPy vi k = .error er) ∧ ∀ v, ∃ er, e.setItemPy vi k v = .error er) := by
  constructor
  · intro i h
    obtain ⟨a, h1, h2, _⟩ := h.raw
    have hr : resolve vi e.n (.idx i) = .ok i := by simp only [resolve, if_pos h.1]
    exact ⟨by simp only [LinExpr.getItemPy, LinExpr.getItem, h1, h2, hr],
      fun v => by simp only [LinExpr.setItemPy, LinExpr.setItem, h1, h2, hr]⟩
  · intro h
    unfold LinExpr.getItemPy LinExpr.setItemPy
    cases h1 : k.raw vi with
    | error er => exact ⟨⟨er, rfl⟩, fun v => ⟨er, rfl⟩⟩
    | ok a =>
      simp only
      cases h2 : scipyIndex e.n a with
      | error er => exact ⟨⟨er, rfl⟩, fun v => ⟨er, rfl⟩⟩
      | ok i => exact absurd (PyKey.means_of_ok h1 h2) (h i)

/-- **C93** (dictionaries of linear coefficients): replacing every key by the number of the variable it means makes no
difference. -/
theorem C93_linear_dict (vi : Assoc String Nat) (n : Nat) (l : List (PyKey × ℚ)) (l' : List (Nat × ℚ))
    (h : List.Forall₂ (fun p p' => p.1.Means vi n p'.1 ∧ p.2 = p'.2) l l') :
    LinExpr.ofPyDict vi n l = LinExpr.ofInput vi n (.dict (l'.map fun p => (.idx p.1, p.2))) := by
  have key : ∀ acc, linOfPyEntries vi n l acc = linOfEntries vi n (l'.map fun p => (.idx p.1, p.2)) acc := by
    induction h with
    | nil => intro acc; rfl
    | @cons p p' l l' hp _ ih =>
      obtain ⟨k, v⟩ := p
      obtain ⟨i, v'⟩ := p'
      obtain ⟨hm, rfl⟩ := hp
      obtain ⟨a, h1, h2, _⟩ := hm.raw
      intro acc
      have hr : resolve vi n (.idx i) = .ok i := by simp only [resolve, if_pos hm.1]
      simp only [linOfPyEntries, List.map_cons, linOfEntries, h1, h2, hr]
      exact ih _
  rw [LinExpr.ofPyDict, LinExpr.ofInput, key]
  cases linOfEntries vi n (l'.map fun p => (Key.idx p.1, p.2)) [] <;> rfl

/-- **C93** (dictionaries of quadratic coefficients). -/
theorem C93_quadratic_dict (vi : Assoc String Nat) (n : Nat) (l : List ((PyKey × PyKey) × ℚ)) (l' : List ((Nat × Nat) × ℚ))
    (h : List.Forall₂ (fun p p' => p.1.1.Means vi n p'.1.1 ∧ p.1.2.Means vi n p'.1.2 ∧ p.2 = p'.2) l l') :
    QuadExpr.ofPyDict vi n l = QuadExpr.ofInput vi n (.dict (l'.map fun p => ((.idx p.1.1, .idx p.1.2), p.2))) := by
  have key : ∀ acc, quadOfPyEntries vi n l acc =
      quadOfEntries vi n (l'.map fun p => ((.idx p.1.1, .idx p.1.2), p.2)) acc := by
    induction h with
    | nil => intro acc; rfl
    | @cons p p' l l' hp _ ih =>
      obtain ⟨⟨k, k'⟩, v⟩ := p
      obtain ⟨⟨i, j⟩, v'⟩ := p'
      obtain ⟨hm, hm', rfl⟩ := hp
      obtain ⟨a, h1, h2, _⟩ := hm.raw
      obtain ⟨b, h3, h4, _⟩ := hm'.raw
      intro acc
      have hr : resolve vi n (.idx i) = .ok i := by simp only [resolve, if_pos hm.1]
      have hr' : resolve vi n (.idx j) = .ok j := by simp only [resolve, if_pos hm'.1]
      simp only [quadOfPyEntries, List.map_cons, quadOfEntries, h1, h2, h3, h4, hr, hr']
      exact ih _
  rw [QuadExpr.ofPyDict, QuadExpr.ofInput, key]
  cases quadOfEntries vi n (l'.map fun p => ((Key.idx p.1.1, Key.idx p.1.2), p.2)) [] <;> rfl

theorem quadPlace_of_means {vi : Assoc String Nat} {n : Nat} {k k' : PyKey} {i j : Nat} (h : k.Means vi n i)
    (h' : k'.Means vi n j) : quadPlace vi n k k' =
      .ok (if k.FromEnd ∧ ¬ k'.FromEnd then (i, j) else if k'.FromEnd ∧ ¬ k.FromEnd then (j, i)
        else (min i j, max i j)) := by
  obtain ⟨a, h1, h2, h3, h4⟩ := h.raw
  obtain ⟨b, g1, g2, g3, g4⟩ := h'.raw
  have hi := h.1
  have hj := h'.1
  have hsel : ∀ {x y : Int} {p q : Nat}, scipyIndex n x = .ok p → scipyIndex n y = .ok q → x ≤ y →
      scipyIndex n (min x y) = .ok p ∧ scipyIndex n (max x y) = .ok q := by
    intro x y p q hx hy hxy
    rw [min_eq_left hxy, max_eq_right hxy]
    exact ⟨hx, hy⟩
  have hfin : ∀ {p q : Nat}, scipyIndex n (min a b) = .ok p → scipyIndex n (max a b) = .ok q →
      quadPlace vi n k k' = .ok (p, q) := by
    intro p q hp hq
    simp only [quadPlace, h1, g1, hp, hq]
  by_cases hk : k.FromEnd <;> by_cases hk' : k'.FromEnd
  · have ha := h3 hk
    have hb := g3 hk'
    rw [if_neg (by tauto), if_neg (by tauto)]
    rcases le_total i j with hij | hij
    · rw [min_eq_left hij, max_eq_right hij]
      obtain ⟨p, q⟩ := hsel h2 g2 (by omega)
      exact hfin p q
    · rw [min_eq_right hij, max_eq_left hij]
      obtain ⟨p, q⟩ := hsel g2 h2 (by omega)
      rw [min_comm] at p; rw [max_comm] at q
      exact hfin p q
  · have ha := h3 hk
    have hb := g4 hk'
    rw [if_pos ⟨hk, hk'⟩]
    obtain ⟨p, q⟩ := hsel h2 g2 (by omega)
    exact hfin p q
  · have ha := h4 hk
    have hb := g3 hk'
    rw [if_neg (by tauto), if_pos ⟨hk', hk⟩]
    obtain ⟨p, q⟩ := hsel g2 h2 (by omega)
    rw [min_comm] at p; rw [max_comm] at q
    exact hfin p q
  · have ha := h4 hk
    have hb := g4 hk'
    rw [if_neg (by tauto), if_neg (by tauto)]
    rcases le_total i j with hij | hij
    · rw [min_eq_left hij, max_eq_right hij]
      obtain ⟨p, q⟩ := hsel h2 g2 (by omega)
      exact hfin p q
    · rw [min_eq_right hij, max_eq_left hij]
      obtain ⟨p, q⟩ := hsel g2 h2 (by omega)
      rw [min_comm] at p; rw [max_comm] at q
      exact hfin p q

/-- **C93, the part that holds for quadratic expressions**.  Full statement: reading and assigning under any two keys is reading
and assigning the coefficient of the two variables they mean.  Proved if both keys or none count from the end, or if the
variable counted from the end is not behind the other one.  Missing (false by `C93_mixed` and `C93_violated`): the variable
counted from the end is behind the other one. -/
theorem C93_quadratic_partial (e : QuadExpr) (vi : Assoc String Nat) (k k' : PyKey) (i j : Nat) (h : k.Means vi e.n i)
    (h' : k'.Means vi e.n j) (hne : k.FromEnd → ¬ k'.FromEnd → i ≤ j) (hne' : k'.FromEnd → ¬ k.FromEnd → j ≤ i) :
    e.getItemPy vi k k' = e.getItem vi (.idx i) (.idx j) ∧
      ∀ v, e.setItemPy vi k k' v = e.setItem vi (.idx i) (.idx j) v := by
  have hr : resolve vi e.n (.idx i) = .ok i := by simp only [resolve, if_pos h.1]
  have hr' : resolve vi e.n (.idx j) = .ok j := by simp only [resolve, if_pos h'.1]
  have hp : quadPlace vi e.n k k' = .ok (min i j, max i j) := by
    rw [quadPlace_of_means h h']
    by_cases h1 : k.FromEnd ∧ ¬ k'.FromEnd
    · rw [if_pos h1, min_eq_left (hne h1.1 h1.2), max_eq_right (hne h1.1 h1.2)]
    · rw [if_neg h1]
      by_cases h2 : k'.FromEnd ∧ ¬ k.FromEnd
      · rw [if_pos h2, min_eq_right (hne' h2.1 h2.2), max_eq_left (hne' h2.1 h2.2)]
      · rw [if_neg h2]
  exact ⟨by simp only [QuadExpr.getItemPy, QuadExpr.getItem, hp, hr, hr'],
    fun v => by simp only [QuadExpr.setItemPy, QuadExpr.setItem, hp, hr, hr']⟩

/-- **C93** (mixed keys): if only the second key counts from the end and its variable is behind the one of the first key, the
coefficient read is zero whatever it is, and an assignment leaves the coefficient as it is and adds `v * x_i * x_j` to the value
of the expression (instead of replacing the old term): the new entry is below the diagonal. -/
theorem C93_mixed (e : QuadExpr) (he : e.WF) (vi : Assoc String Nat) (k k' : PyKey) (i j : Nat) (h : k.Means vi e.n i)
    (h' : k'.Means vi e.n j) (hk : ¬ k.FromEnd) (hk' : k'.FromEnd) (hij : i < j) :
    e.getItemPy vi k k' = .ok 0 ∧ ∀ v, ∃ e', e.setItemPy vi k k' v = .ok e' ∧
      e'.getItem vi (.idx i) (.idx j) = e.getItem vi (.idx i) (.idx j) ∧
      ∀ x, e'.val x = e.val x + v * (x i * x j) := by
  have hp : quadPlace vi e.n k k' = .ok (j, i) := by
    rw [quadPlace_of_means h h', if_neg (by tauto), if_pos ⟨hk', hk⟩]
  have h0 : Dict.get e.coeffs (j, i) = 0 := by
    by_contra hc
    have hm : (j, i) ∈ Assoc.keys e.coeffs := by
      by_contra hm
      exact hc (Dict.get_eq_zero_of_not_mem hm)
    have := he.upper _ hm
    simp only at this
    omega
  refine ⟨by simp only [QuadExpr.getItemPy, hp, h0], fun v =>
    ⟨{ e with coeffs := Dict.dokSet e.coeffs (j, i) v }, by simp only [QuadExpr.setItemPy, hp], ?_, fun x => ?_⟩⟩
  · have hr : resolve vi e.n (.idx i) = .ok i := by simp only [resolve, if_pos h.1]
    have hr' : resolve vi e.n (.idx j) = .ok j := by simp only [resolve, if_pos h'.1]
    simp only [QuadExpr.getItem, hr, hr', Dict.get_dokSet he.nodup]
    rw [if_neg]
    intro hc
    have := congrArg Prod.fst hc
    simp only at this
    omega
  · simp only [QuadExpr.val, Dict.sum_dokSet, h0]
    ring

/-- **C93 is violated**: in `x0*x1` over two variables `expr[0, -1]` is 0 although `expr[0, 1]` is 1, and after
`expr[0, -1] = 5` the coefficient `expr[0, 1]` is still 1 and the expression is worth 6 at (1, 1). -/
theorem C93_violated : ∃ (e : QuadExpr) (vi : Assoc String Nat), e.WF ∧ (PyKey.idx (-1)).Means vi e.n 1 ∧
    e.getItemPy vi (.idx 0) (.idx 1) = .ok 1 ∧ e.getItemPy vi (.idx 0) (.idx (-1)) = .ok 0 ∧
    ∃ e', e.setItemPy vi (.idx 0) (.idx (-1)) 5 = .ok e' ∧ e'.getItemPy vi (.idx 0) (.idx 1) = .ok 1 ∧
      e'.evaluate [1, 1] = .ok 6 :=
  ⟨⟨2, [((0, 1), 1)]⟩, [("a", 0), ("b", 1)], ⟨by decide +kernel, by decide +kernel, by decide +kernel⟩, ⟨by decide, by right; decide⟩, by decide +kernel,
    by decide +kernel, ⟨2, [((0, 1), 1), ((1, 0), 5)]⟩, by decide +kernel, by decide +kernel, by decide +kernel⟩

example : (⟨3, [(2, 7)]⟩ : LinExpr).getItemPy [] (.idx (-1)) = .ok 7 ∧
    (⟨3, [(2, 7)]⟩ : LinExpr).getItemPy [] (.idx (-4)) = .error .indexError ∧
    (LinExpr.ofPyDict [("a", 0), ("b", 1)] 2 [(.idx (-1), 3), (.name "a", 2)]) = .ok ⟨2, [(1, 3), (0, 2)]⟩ := by
  decide +kernel

example : QuadExpr.ofPyDict [("a", 0), ("b", 1)] 2 [((.idx (-1), .idx 0), 3), ((.idx (-1), .name "b"), 2)] =
    .ok ⟨2, [((1, 1), 2), ((0, 1), 3)]⟩ ∧
    (⟨2, [((0, 1), 3)]⟩ : QuadExpr).getItemPy [] (.idx (-2)) (.idx (-1)) = .ok 3 ∧
    (⟨2, [((0, 1), 3)]⟩ : QuadExpr).getItemPy [] (.idx (-2)) (.idx 1) = .ok 3 := by
  decide +kernel

end Verif
