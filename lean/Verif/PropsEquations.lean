import Verif.PropsSubstChain
import Verif.PropsEdit

/-!
# C111: substituting variables and adding the equations as constraints
-/

namespace Verif

/-- `linear_constraint(linear, "==", rhs)` for each of the equations (`quadratic_program.py:613-654`). -/
def QP.addEquations (p : QP) : List (List (Key × ℚ) × ℚ) → Except Err QP
  | [] => .ok p
  | e :: l =>
    match p.linearConstraint (.dict e.1) (.sense .eq) e.2 none with
    | (.error er, _) => .error er
    | (.ok _, p') => p'.addEquations l

/-- The equations of a substitution: `x_i = v` for constants, `x_i - v x_j = 0` for multiples of variables. -/
def equationsOf (consts : List (Key × ℚ)) (varSubs : List (Key × Key × ℚ)) : List (List (Key × ℚ) × ℚ) :=
  consts.map (fun e => ([(e.1, 1)], e.2)) ++ varSubs.map fun e => ([(e.1, 1), (e.2.1, -e.2.2)], 0)

/-- The point satisfies the equations of the substitution. -/
def Equations (src : QP) (consts : List (Key × ℚ)) (varSubs : List (Key × Key × ℚ)) (x : Nat → ℚ) : Prop :=
  (∀ e ∈ consts, ∀ i, src.Denotes e.1 i → x i = e.2) ∧
    ∀ e ∈ varSubs, ∀ i j, src.Denotes e.1 i → src.Denotes e.2.1 j → x i = e.2.2 * x j

theorem resolve_denotes {p : QP} (hp : p.Consistent) {k : Key} {i : Nat} (h : p.Denotes k i) :
    resolve p.varsIndex p.numVars k = .ok i := by
  cases k with
  | idx m => obtain ⟨rfl, h⟩ := h; exact resolve_idx h
  | name s =>
    obtain ⟨v, hv, rfl⟩ := denotes_name.mp h
    exact resolve_of_keyOf hp (k := .name v.name) ⟨v, hv, rfl⟩ (List.getElem?_eq_some_iff.mp hv).1

theorem denotes_unique {p : QP} (hp : p.Consistent) {k : Key} {i j : Nat} (hi : p.Denotes k i) (hj : p.Denotes k j) :
    i = j := by
  have h1 := resolve_denotes hp hi
  rw [resolve_denotes hp hj] at h1
  simpa using h1.symm

theorem addEquations_spec : ∀ (l : List (List (Key × ℚ) × ℚ)) (p : QP), p.WF →
    (∀ e ∈ l, (∀ q ∈ e.1, ∃ i, resolve p.varsIndex p.numVars q.1 = .ok i) ∧
      (e.1.map fun q => q.1.pos p.varsIndex).Nodup) →
    ∃ r, p.addEquations l = .ok r ∧ r.WF ∧ r.vars = p.vars ∧ r.objective = p.objective ∧ r.status = p.status ∧
      ∀ x, r.Sat x ↔ p.Sat x ∧ ∀ e ∈ l, (e.1.map fun q => q.2 * x (q.1.pos p.varsIndex)).sum = e.2
  | [], p, hp, _ => ⟨p, rfl, hp, rfl, rfl, rfl, fun x => by simp⟩
  | e :: l, p, hp, h => by
    obtain ⟨h1, h2⟩ := h e (by simp)
    obtain ⟨d, hd⟩ := linOfEntries_ok (acc := []) h1
    obtain ⟨c, p', hc, hfresh, _, hl, hs, hr, _⟩ := C05_linear p (.dict e.1) .eq e.2 ⟨p.numVars, d⟩ (by
      simp only [LinExpr.ofInput, hd])
    have hp' := (linearConstraint_ok hc)
    obtain ⟨nm, le, s', h3, h4, h5, h6, h7⟩ := hp'
    have hv : p'.vars = p.vars := by rw [h7]
    have hvi : p'.varsIndex = p.varsIndex := by rw [h7]
    have hwf : p'.WF := linearConstraint_wf hc hp (by simp [LinInput.Fits])
    obtain ⟨r, hr1, hr2, hr3, hr4, hr5, hr6⟩ := addEquations_spec l p' hwf (by
      intro e' he'
      have := h e' (by simp [he'])
      rw [hvi, QP.numVars, hv]
      exact this)
    refine ⟨r, by simp only [QP.addEquations, hc, hr1], hr2, hr3.trans hv, by rw [hr4, h7], by rw [hr5, h7], fun x => ?_⟩
    rw [hr6, hvi]
    have hsat : p'.Sat x ↔ p.Sat x ∧ (e.1.map fun q => q.2 * x (q.1.pos p.varsIndex)).sum = e.2 := by
      have hval : c.linear.val x = (e.1.map fun q => q.2 * x (q.1.pos p.varsIndex)).sum := by
        rw [hl]
        simp only [LinExpr.val]
        rw [linOfEntries_sum hd (by simp [Assoc.keys]) h2 (by simp [Assoc.keys])]
        simp [Dict.sum]
      unfold QP.Sat QP.allCsts
      rw [h7]
      simp only [List.map_append, List.map_cons, List.map_nil, List.mem_append, List.mem_cons, List.not_mem_nil, or_false]
      constructor
      · intro H
        refine ⟨fun c' hc' => H c' (by tauto), ?_⟩
        have := H (.lin c) (by tauto)
        simpa [Cst.sense, Cst.val, Cst.rhs, hs, hr, Sense.rel, hval] using this
      · rintro ⟨H1, H2⟩ c' (((hc' | rfl) | hc'))
        · exact H1 c' (Or.inl hc')
        · simpa [Cst.sense, Cst.val, Cst.rhs, hs, hr, Sense.rel, hval] using H2
        · exact H1 c' (Or.inr hc')
    rw [hsat, List.forall_mem_cons, and_assoc]

theorem validSubst_of_ok {src dst : QP} {consts : List (Key × ℚ)} {varSubs : List (Key × Key × ℚ)}
    (h : src.substitute consts varSubs = .ok dst) (hs : src.WF) (hc : "__CONSTANT__" ∉ src.vars.map Variable.name)
    (hk : KnownKeys src consts varSubs) : ValidSubst src consts varSubs := by
  by_contra hv
  obtain ⟨e, he⟩ := (C14_rejects_partial src consts varSubs hs hc hk).1 hv
  rw [he] at h
  simp at h

/-- **C111** (the equations as constraints): for a valid substitution the constraints are accepted, the variables and the
objective stay, and the feasible points are those of the program that satisfy the equations. -/
theorem C111_equations (src : QP) (consts : List (Key × ℚ)) (varSubs : List (Key × Key × ℚ)) (hs : src.WF)
    (hv : ValidSubst src consts varSubs) :
    ∃ r, src.addEquations (equationsOf consts varSubs) = .ok r ∧ r.vars = src.vars ∧ r.objective = src.objective ∧
      ∀ x, r.Feas x ↔ src.Feas x ∧ Equations src consts varSubs x := by
  have hpos : ∀ {k : Key} {i : Nat}, src.Denotes k i → k.pos src.varsIndex = i := fun h =>
    (resolve_eq (resolve_denotes hs.cons h)).symm
  obtain ⟨r, h1, _, h2, h3, _, h4⟩ := addEquations_spec (equationsOf consts varSubs) src hs (by
    intro e he
    simp only [equationsOf, List.mem_append, List.mem_map] at he
    rcases he with ⟨c, hc, rfl⟩ | ⟨c, hc, rfl⟩
    · obtain ⟨i, hi⟩ := hv.known.1 c hc
      refine ⟨fun q hq => ?_, by simp⟩
      rw [List.mem_singleton.mp hq]
      exact ⟨i, resolve_denotes hs.cons hi⟩
    · obtain ⟨⟨i, hi⟩, j, hj⟩ := hv.known.2 c hc
      have hne : i ≠ j := by
        rintro rfl
        refine hv.target c.1 ?_ c hc ⟨i, hi, hj⟩
        simp only [replacedKeys, List.mem_append, List.mem_map]
        exact Or.inr ⟨c, hc, rfl⟩
      refine ⟨fun q hq => ?_, ?_⟩
      · simp only [List.mem_cons, List.not_mem_nil, or_false] at hq
        rcases hq with rfl | rfl
        · exact ⟨i, resolve_denotes hs.cons hi⟩
        · exact ⟨j, resolve_denotes hs.cons hj⟩
      · simpa [hpos hi, hpos hj] using hne)
  refine ⟨r, h1, h2, h3, fun x => ?_⟩
  have heq : (∀ e ∈ equationsOf consts varSubs, (e.1.map fun q => q.2 * x (q.1.pos src.varsIndex)).sum = e.2) ↔
      Equations src consts varSubs x := by
    unfold Equations equationsOf
    simp only [List.mem_append, List.mem_map, or_imp, forall_and, forall_exists_index, and_imp,
      forall_apply_eq_imp_iff₂, List.map_cons, List.map_nil, List.sum_cons, List.sum_nil, one_mul, add_zero]
    refine and_congr (forall₂_congr fun e he => ?_) (forall₂_congr fun e he => ?_)
    · obtain ⟨i, hi⟩ := hv.known.1 e he
      rw [hpos hi]
      exact ⟨fun H j hj => by rw [denotes_unique hs.cons hj hi]; exact H, fun H => H i hi⟩
    · obtain ⟨⟨i, hi⟩, j, hj⟩ := hv.known.2 e he
      rw [hpos hi, hpos hj]
      refine ⟨fun H i' j' hi' hj' => ?_, fun H => ?_⟩
      · rw [denotes_unique hs.cons hi' hi, denotes_unique hs.cons hj' hj]
        linarith
      · rw [H i j hi hj]; ring
  unfold QP.Feas
  rw [h4, heq]
  unfold QP.InBounds QP.Integral
  rw [h2]
  tauto

/-- The replaced binary and integer variables get integral values: integral constants, or integral multiples of binary and
integer variables. -/
def IntegralSubst (src : QP) (consts : List (Key × ℚ)) (varSubs : List (Key × Key × ℚ)) : Prop :=
  (∀ e ∈ consts, ∀ i v, src.Denotes e.1 i → src.vars[i]? = some v → v.vartype ≠ .continuous → ∃ z : ℤ, e.2 = z) ∧
    ∀ e ∈ varSubs, ∀ i v j w, src.Denotes e.1 i → src.vars[i]? = some v → src.Denotes e.2.1 j → src.vars[j]? = some w →
      v.vartype ≠ .continuous → w.vartype ≠ .continuous ∧ ∃ z : ℤ, e.2.2 = z

/-- All bounds are between `-INFINITY` and `INFINITY`. -/
def QP.BoundsWithin (p : QP) : Prop := ∀ v ∈ p.vars, -INFINITY ≤ v.lb ∧ v.lb < INFINITY ∧ -INFINITY < v.ub ∧ v.ub ≤ INFINITY

theorem abs_le_of_inBounds {p : QP} (hb : p.BoundsWithin) {x : Nat → ℚ} (h : p.InBounds x) :
    ∀ i < p.numVars, |x i| ≤ INFINITY := by
  intro i hi
  have hv : p.vars[i]? = some p.vars[i] := List.getElem?_eq_getElem hi
  obtain ⟨h1, h2⟩ := h i _ hv
  obtain ⟨b1, _, _, b2⟩ := hb _ (List.getElem_mem hi)
  exact abs_le.mpr ⟨by linarith, by linarith⟩

/-- Every point that satisfies the equations extends a point of the result. -/
theorem restriction_exists {src dst : QP} {consts : List (Key × ℚ)} {varSubs : List (Key × Key × ℚ)} (hs : src.WF)
    {x : Nat → ℚ} (hx : Equations src consts varSubs x) : ∃ y, IsExtension src dst consts varSubs x y := by
  refine ⟨fun a => x ((src.vars.map Variable.name).idxOf ((dst.vars.map Variable.name).getD a "")), hx.1, hx.2, ?_⟩
  intro i a v w h1 h2 hn
  have e1 : (dst.vars.map Variable.name).getD a "" = v.name := by simp [h2, hn]
  have hi := (List.getElem?_eq_some_iff.mp h1).1
  have e2 : (src.vars.map Variable.name).idxOf v.name = i := by
    have h3 : v.name = (src.vars.map Variable.name)[i]'(by simpa using hi) := by
      simp [(List.getElem?_eq_some_iff.mp h1).2]
    rw [h3]
    exact hs.cons.vars.2.idxOf_getElem _ _
  simp only [e1, e2]

/-- **C111, the part that holds** (feasible points).  Full statement: replacing variables with `substitute_variables` and
adding the same equations as linear constraints give programs with the same feasible points, so that both have the same
optimal value.  Proved: if the status is VALID, a point is feasible for the result iff its extension is feasible with the
constraints, and every point that is feasible with the constraints is such an extension; otherwise no point is feasible with
the constraints.  Missing (false, `C111_violated`): integer variables replaced by fractions.  Restrictions: no variable named
`__CONSTANT__`, bounds and coordinates up to `INFINITY = 1e20`. -/
theorem C111_feasible_partial (src dst r : QP) (consts : List (Key × ℚ)) (varSubs : List (Key × Key × ℚ))
    (h : src.substitute consts varSubs = .ok dst) (hr : src.addEquations (equationsOf consts varSubs) = .ok r)
    (hs : src.WF) (hc : "__CONSTANT__" ∉ src.vars.map Variable.name) (hk : KnownKeys src consts varSubs)
    (hb : src.BoundsWithin) (hint : IntegralSubst src consts varSubs) :
    (dst.status = .valid →
      (∀ x y, IsExtension src dst consts varSubs x y → (∀ i < src.numVars, |x i| ≤ INFINITY) → (dst.Feas y ↔ r.Feas x)) ∧
      ∀ x, r.Feas x → (∀ i < src.numVars, |x i| ≤ INFINITY) ∧ ∃ y, IsExtension src dst consts varSubs x y) ∧
    (dst.status ≠ .valid → ∀ x, ¬ r.Feas x) := by
  have hv := validSubst_of_ok h hs hc hk
  obtain ⟨r', e1, _, _, hf⟩ := C111_equations src consts varSubs hs hv
  rw [hr] at e1
  simp only [Except.ok.injEq] at e1
  subst e1
  have hb' : ∀ v ∈ src.vars, v.lb < INFINITY ∧ -INFINITY < v.ub := fun v hv => ⟨(hb v hv).2.1, (hb v hv).2.2.1⟩
  have hsrc : ∀ {x : Nat → ℚ}, src.Feas x → ∀ k ∈ replacedKeys consts varSubs, ∀ i v, src.Denotes k i →
      src.vars[i]? = some v → v.vartype ≠ .continuous → ∃ z : ℤ, x i = z := fun hx _ _ i v _ h1 h2 => hx.2.1 i v h1 h2
  have hmem := (C12_extension_exists src dst consts varSubs h hs hc hk).1
  have hsub := C13_variables src dst consts varSubs h hs
  have hnd : (src.vars.map Variable.name).Nodup := hs.cons.vars.2
  -- the extensions of feasible points of the result have integral values at the replaced variables
  have hdst : ∀ {x y : Nat → ℚ}, IsExtension src dst consts varSubs x y → dst.Feas y →
      ∀ k ∈ replacedKeys consts varSubs, ∀ i v, src.Denotes k i → src.vars[i]? = some v → v.vartype ≠ .continuous →
        ∃ z : ℤ, x i = z := by
    intro x y hx hy k hkm i v hd h1 ht
    simp only [replacedKeys, List.mem_append, List.mem_map] at hkm
    rcases hkm with ⟨e, he, rfl⟩ | ⟨e, he, rfl⟩
    · rw [hx.const e he i hd]
      exact hint.1 e he i v hd h1 ht
    · obtain ⟨_, j, hj⟩ := hk.2 e he
      have hjl : j < src.vars.length := Denotes.lt hj
      obtain ⟨h2, z, hz⟩ := hint.2 e he i v j src.vars[j] hd h1 hj (by simp [hjl]) ht
      rw [hx.var e he i j hd hj, hz]
      have hkept : src.vars[j].name ∈ dst.vars.map Variable.name := by
        refine (hmem _).mpr ⟨List.mem_map_of_mem (List.getElem_mem _), fun k' hk' i' u hd' hu hn => ?_⟩
        have hij : i' = j := by
          have e1 : (src.vars.map Variable.name)[i']? = some u.name := by simp [hu]
          have e2 : (src.vars.map Variable.name)[j]? = some u.name := by simp [hjl, hn]
          have l1 : i' < (src.vars.map Variable.name).length := by simpa using (List.getElem?_eq_some_iff.mp hu).1
          exact (List.getElem?_inj l1 hnd).mp (e1.trans e2.symm)
        subst hij
        exact hv.target k' hk' e he ⟨i', hd', hj⟩
      obtain ⟨w, hw, hwn⟩ := List.mem_map.mp hkept
      obtain ⟨a, ha⟩ := List.mem_iff_getElem?.mp hw
      rw [hx.kept j a src.vars[j] w (by simp [hjl]) ha hwn.symm]
      have hty : w.vartype = src.vars[j].vartype := by
        have hw' := hsub.subset (List.mem_map_of_mem (f := fun v : Variable => (v.name, v.vartype)) hw)
        obtain ⟨u, hu, he'⟩ := List.mem_map.mp hw'
        simp only [Prod.mk.injEq] at he'
        have : u = src.vars[j] := List.inj_on_of_nodup_map hnd hu (List.getElem_mem _) (he'.1.trans hwn)
        rw [← this, he'.2]
      obtain ⟨z', hz'⟩ := hy.2.1 a w ha (by rw [hty]; exact h2)
      exact ⟨z * z', by rw [hz']; push_cast; ring⟩
  refine ⟨fun hst => ⟨fun x y hx hxb => ?_, fun x hx => ?_⟩, fun hst x hx => ?_⟩
  · rw [hf]
    constructor
    · intro hy
      exact ⟨((C13_feasible_partial src dst consts varSubs h hs hc hk hb' x y hx hxb (hdst hx hy)).1 hst).mp hy,
        hx.const, hx.var⟩
    · rintro ⟨hx', _⟩
      exact ((C13_feasible_partial src dst consts varSubs h hs hc hk hb' x y hx hxb (hsrc hx')).1 hst).mpr hx'
  · obtain ⟨hx1, hx2⟩ := (hf x).mp hx
    exact ⟨abs_le_of_inBounds hb hx1.1, restriction_exists hs hx2⟩
  · obtain ⟨hx1, hx2⟩ := (hf x).mp hx
    obtain ⟨y, hy⟩ := restriction_exists (dst := dst) hs hx2
    exact (C13_feasible_partial src dst consts varSubs h hs hc hk hb' x y hy (abs_le_of_inBounds hb hx1.1)
      (hsrc hx1)).2 hst hx1

/-- A program in which constants are substituted keeps the bounds of the other variables. -/
theorem extension_within {src dst : QP} {consts : List (Key × ℚ)} (h : src.substitute consts [] = .ok dst)
    (hs : src.WF) (hc : "__CONSTANT__" ∉ src.vars.map Variable.name) (hk : KnownKeys src consts [])
    (hst : dst.status = .valid) {x y : Nat → ℚ} (hx : IsExtension src dst consts [] x y) (hy : dst.InBounds y) :
    src.InBounds x := by
  have hmem := (C12_extension_exists src dst consts [] h hs hc hk).1
  have hin : ∀ e ∈ consts, ∀ i v, src.Denotes e.1 i → src.vars[i]? = some v → v.lb ≤ e.2 ∧ e.2 ≤ v.ub := by
    intro e he i v hd hv
    by_contra hout
    have := C14_status_outside src dst consts [] hs h e he i v hd hv (by
      rw [not_and_or, not_le, not_le] at hout; exact hout)
    rw [hst] at this
    simp at this
  have hkeep : ∀ w ∈ dst.vars, w ∈ src.vars := by
    obtain ⟨subs, d0, d1, d2, d3, d4, fa, f3, f4, st⟩ := substitute_stages h
    have hg := subsDict_get st.table
    have ht : ∀ t ∈ subs, ∃ e ∈ consts, NameOf src e.1 t.1 ∧ t.2 = (CONST, e.2) := by
      intro t ht
      have := (hg.2 t.1 t.2).mp (Assoc.get?_of_mem hg.1 ht)
      simpa using this
    obtain ⟨hd, _⟩ := adjustBounds_constants st.adjust
      (fun t hm => by obtain ⟨e, _, _, he⟩ := ht t hm; rw [he])
      (fun t hm v hv => by
        obtain ⟨e, he, hn, ht2⟩ := ht t hm
        obtain ⟨i, w, hi, hw, hwn⟩ := (NameOf_iff hs.cons _ _).mp hn
        have hvw : v = w := getVariable_name hs.cons hw (by rw [hwn]; exact hv)
        subst hvw
        rw [ht2]
        exact hin e he i v hi hw)
    have hf := st.facts hs
    intro w hw
    rw [hf.dvars, hd, hf.vars0] at hw
    exact (List.mem_filter.mp hw).1
  intro i v hv
  have hnd : (src.vars.map Variable.name).Nodup := hs.cons.vars.2
  by_cases hrep : ∀ k ∈ replacedKeys consts [], ∀ j u, src.Denotes k j → src.vars[j]? = some u → u.name ≠ v.name
  · obtain ⟨w, hw, hn⟩ := List.mem_map.mp ((hmem v.name).mpr ⟨List.mem_map_of_mem (List.mem_of_getElem? hv), hrep⟩)
    obtain ⟨a, ha⟩ := List.mem_iff_getElem?.mp hw
    have : w = v := List.inj_on_of_nodup_map hnd (hkeep w hw) (List.mem_of_getElem? hv) hn
    subst this
    rw [hx.kept i a w w hv ha rfl]
    exact hy a w ha
  · push Not at hrep
    obtain ⟨k, hkm, j, u, hd, hu, hn⟩ := hrep
    have : u = v := List.inj_on_of_nodup_map hnd (List.mem_of_getElem? hu) (List.mem_of_getElem? hv) hn
    subst this
    have hij : i = j := position_unique hs hv hu rfl
    subst hij
    simp only [replacedKeys, List.map_nil, List.append_nil, List.mem_map] at hkm
    obtain ⟨e, he, rfl⟩ := hkm
    rw [hx.const e he i hd]
    exact hin e he i u hd hu

/-- **C111** (optimal points, partial): fixing variables at constants with `substitute_variables` and with constraints has
the same optimal points and the same optimal value.  Restrictions as in `C111_feasible_partial`. -/
theorem C111_fixing_partial (src dst r : QP) (consts : List (Key × ℚ)) (h : src.substitute consts [] = .ok dst)
    (hr : src.addEquations (equationsOf consts []) = .ok r) (hs : src.WF)
    (hc : "__CONSTANT__" ∉ src.vars.map Variable.name) (hk : KnownKeys src consts []) (hb : src.BoundsWithin)
    (hint : IntegralSubst src consts []) (hst : dst.status = .valid) :
    (∀ x y, IsExtension src dst consts [] x y →
      (OptimalIn dst.Feas dst.objective y ↔ OptimalIn r.Feas r.objective x)) ∧
    ∀ x y, OptimalIn r.Feas r.objective x → OptimalIn dst.Feas dst.objective y →
      r.objective.val x = dst.objective.val y := by
  obtain ⟨hf, hex⟩ := (C111_feasible_partial src dst r consts [] h hr hs hc hk hb hint).1 hst
  obtain ⟨r', e1, _, ho, hfe⟩ := C111_equations src consts [] hs (validSubst_of_ok h hs hc hk)
  rw [hr] at e1
  simp only [Except.ok.injEq] at e1
  subst e1
  have hobj := fun x y hx => C12_objective_partial src dst consts [] h hs hc x y hx
  have hfeas : ∀ x y, IsExtension src dst consts [] x y → (dst.Feas y ↔ r.Feas x) := by
    intro x y hx
    constructor
    · intro hy
      exact (hf x y hx (abs_le_of_inBounds hb (extension_within h hs hc hk hst hx hy.1))).mp hy
    · intro hx'
      exact (hf x y hx (hex x hx').1).mpr hx'
  have hopt : ∀ x y, IsExtension src dst consts [] x y →
      (OptimalIn dst.Feas dst.objective y ↔ OptimalIn r.Feas r.objective x) := by
    intro x y hx
    unfold OptimalIn
    rw [hfeas x y hx, ho]
    refine and_congr_right fun _ => ?_
    rw [(hobj x y hx).1, (hobj x y hx).2]
    constructor
    · intro H x' hx'
      obtain ⟨y', hy'⟩ := (hex x' hx').2
      have := H y' ((hfeas x' y' hy').mpr hx')
      rwa [(hobj x' y' hy').2] at this
    · intro H y' hy'
      obtain ⟨x', hx'⟩ := (C12_extension_exists src dst consts [] h hs hc hk).2 y'
      have := H x' ((hfeas x' y' hx').mp hy')
      rwa [(hobj x' y' hx').2]
  refine ⟨hopt, fun x y hx hy => ?_⟩
  obtain ⟨y', hy'⟩ := (hex x hx.1).2
  have h1 := (hopt x y' hy').mpr hx
  have h2 := h1.2 y hy.1
  have h3 := hy.2 y' h1.1
  rw [ho, ← (hobj x y' hy').2]
  have hse : dst.objective.sense.value = 1 ∨ dst.objective.sense.value = -1 := by
    cases dst.objective.sense <;> simp [ObjSense.value]
  rcases hse with e | e <;> rw [e] at h2 h3 <;> linarith

/-- **C111 is violated**: with the integer variable `x` fixed at `1/2` by substitution the program is VALID and its optimal
value is `1/2`; with the constraint `x = 1/2` nothing is feasible. -/
theorem C111_violated : ∃ (src dst r : QP), src.WF ∧ src.substitute [(.name "x", 1 / 2)] [] = .ok dst ∧
    src.addEquations (equationsOf [(.name "x", 1 / 2)] []) = .ok r ∧ dst.status = .valid ∧
    (∃ y, OptimalIn dst.Feas dst.objective y ∧ dst.objective.val y = 1 / 2) ∧ ∀ x, ¬ r.Feas x := by
  let src := (runCalls (QP.empty "") [.addVar 0 10 .integer (some "x"),
    .objective .minimize 0 (.dict [(.name "x", 1)]) (.dict [])]).2
  have hs : src.WF := by decide +kernel
  let dst := match src.substitute [(.name "x", 1 / 2)] [] with | .ok d => d | .error _ => QP.empty ""
  have hd : src.substitute [(.name "x", 1 / 2)] [] = .ok dst := by decide +kernel
  have hv : ValidSubst src [(.name "x", 1 / 2)] [] := by
    refine ⟨⟨fun e he => ?_, by simp⟩, by simp [replacedKeys], by simp, by simp⟩
    rw [List.mem_singleton.mp he]
    exact ⟨0, by show src.vars[0]?.map Variable.name = some "x"; decide +kernel⟩
  obtain ⟨r, h1, h2, _, h3⟩ := C111_equations src [(.name "x", 1 / 2)] [] hs hv
  refine ⟨src, dst, r, hs, hd, h1, by decide +kernel, ⟨fun _ => 0, ⟨?_, fun y _ => ?_⟩, by decide +kernel⟩, fun x hx => ?_⟩
  · have e1 : dst.vars = [] := by decide +kernel
    have e2 : dst.lins = [] := by decide +kernel
    have e3 : dst.quads = [] := by decide +kernel
    unfold QP.Feas QP.InBounds QP.Integral QP.Sat QP.allCsts
    rw [e1, e2, e3]
    simp
  · have e1 : dst.objective.linear.coeffs = [] := by decide +kernel
    have e2 : dst.objective.quadratic.coeffs = [] := by decide +kernel
    have : ∀ y, dst.objective.val y = dst.objective.constant := by
      intro y
      simp [Objective.val, LinExpr.val, QuadExpr.val, e1, e2, Dict.sum]
    rw [this, this]
  · obtain ⟨hx1, hx2⟩ := (h3 x).mp hx
    have e0 : src.vars[0]? = some ⟨"x", 0, 10, .integer⟩ := by decide +kernel
    have h4 := hx2.1 _ (List.mem_singleton.mpr rfl) 0 (by
      show src.vars[0]?.map Variable.name = some "x"; rw [e0]; rfl)
    obtain ⟨z, hz⟩ := hx1.2.1 0 _ e0 (by simp)
    rw [hz] at h4
    have : (2 * z : ℚ) = 1 := by simp only at h4; linarith
    have : 2 * z = 1 := by exact_mod_cast this
    omega

/-- The hypotheses are met by the program of C12 and C13 with `x = 2` and `z = 1`. -/
example : substQP.BoundsWithin ∧ IntegralSubst substQP [(.name "x", 2), (.idx 2, 1)] [] := by
  refine ⟨by unfold QP.BoundsWithin; decide +kernel, ?_, by simp⟩
  intro e he i v _ _ _
  simp only [List.mem_cons, List.not_mem_nil, or_false] at he
  rcases he with rfl | rfl
  · exact ⟨2, by norm_num⟩
  · exact ⟨1, by norm_num⟩

example : (match substQP.substitute [(.name "x", 2), (.idx 2, 1)] [], substQP.addEquations (equationsOf [(.name "x", 2), (.idx 2, 1)] []) with
    | .ok d, .ok r => decide (d.status = .valid) && r.lins.length == 3 && d.objective.val (pt [2]) == r.objective.val (pt [2, 2, 1])
    | _, _ => false) = true := by decide +kernel

end Verif
