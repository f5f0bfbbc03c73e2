import Verif.PropsOrder
import Verif.PropsIntToBin
import Verif.QuboLemmas
import Verif.RecursiveLemmas
import Verif.SubstChainLemmas
import Mathlib.Data.List.GetD

/-!
# The stages of the conversion to a QUBO for reordered constraints

Helper lemmas for `Verif/PropsOrderQubo.lean`.
-/

namespace Verif

/-! ## Expressions are determined by their values -/

theorem sum_abs_values {κ : Type} [DecidableEq κ] (d : Dict κ) (hn : (Assoc.keys d).Nodup) (L : List κ) (hL : L.Nodup)
    (hk : ∀ k ∈ Assoc.keys d, k ∈ L) : ((Dict.values d).map abs).sum = (L.map fun k => |Dict.get d k|).sum := by
  induction d generalizing L with
  | nil =>
    have : L.map (fun k => |Dict.get ([] : Dict κ) k|) = L.map fun _ => 0 :=
      List.map_congr_left fun k _ => by simp [Dict.get, Assoc.get?]
    rw [this]
    simp [Dict.values]
  | cons q d ih =>
    obtain ⟨k, v⟩ := q
    simp only [Assoc.keys, List.map_cons, List.nodup_cons] at hn
    simp only [Assoc.keys, List.map_cons, List.forall_mem_cons] at hk
    have hp := List.perm_cons_erase hk.1
    rw [(hp.map _).sum_eq]
    simp only [Dict.values, List.map_cons, List.sum_cons]
    have hh := ih hn.2 (L.erase k) (hL.erase k) (fun a ha => by
      refine (List.mem_erase_of_ne ?_).mpr (hk.2 a ha)
      rintro rfl
      exact hn.1 ha)
    simp only [Dict.values] at hh
    rw [hh]
    congr 1
    · simp [Dict.get, Assoc.get?]
    · congr 1
      refine List.map_congr_left fun a ha => ?_
      have : a ≠ k := fun h => by
        rw [h] at ha
        exact absurd ha (hL.not_mem_erase)
      simp [Dict.get, Assoc.get?, Ne.symm this]

theorem linear_determined {o o' : Objective} (hl : o.linear.WF) (hl' : o'.linear.WF) (hq : o.quadratic.WF)
    (hq' : o'.quadratic.WF) (h : ∀ y, o'.val y = o.val y) (i : Nat) :
    Dict.get o'.linear.coeffs i = Dict.get o.linear.coeffs i ∧ qget o'.quadratic i i = qget o.quadratic i i := by
  have h0 := h fun _ => 0
  have h1 := h (unit i)
  have h2 := h fun t => (-1) * unit i t
  simp only [Objective.val, LinExpr.val_zero, QuadExpr.val_zero, LinExpr.val_unit hl, LinExpr.val_unit hl',
    QuadExpr.val_unit hq, QuadExpr.val_unit hq', LinExpr.val_smul, QuadExpr.val_smul] at h0 h1 h2
  constructor <;> linarith

theorem quadratic_determined {o o' : Objective} (hl : o.linear.WF) (hl' : o'.linear.WF) (hq : o.quadratic.WF)
    (hq' : o'.quadratic.WF) (h : ∀ y, o'.val y = o.val y) {n i k : Nat} (hn : o.quadratic.n ≤ n) (hn' : o'.quadratic.n ≤ n)
    (hi : i < n) (hk : k < n) : qget o'.quadratic i k = qget o.quadratic i k := by
  by_cases hki : k = i
  · subst hki; exact (linear_determined hl hl' hq hq' h k).2
  · have hsum : ∀ q : QuadExpr, ((List.range n).map fun t => (if t = i then 2 * qget q i t else qget q i t) *
        unit k t).sum = qget q i k := by
      intro q
      have : ∀ t ∈ List.range n, (if t = i then 2 * qget q i t else qget q i t) * unit k t =
          if k = t then qget q i t else 0 := by
        intro t _
        by_cases ht : k = t
        · subst ht; simp [unit, hki]
        · have : ¬ t = k := fun hh => ht hh.symm
          simp [unit, ht, this]
      rw [List.map_congr_left this, sum_range_ite n k hk]
    have h0 := h fun _ => 0
    have h4 := h fun t => unit k t + unit i t
    have h5 := linear_determined hl hl' hq hq' h i
    have h6 := linear_determined hl hl' hq hq' h k
    simp only [Objective.val, LinExpr.val_zero, QuadExpr.val_zero, LinExpr.val_add, LinExpr.val_unit hl, LinExpr.val_unit hl',
      QuadExpr.val_unit hq, QuadExpr.val_unit hq', QuadExpr.val_shift hq hn hi, QuadExpr.val_shift hq' hn' hi, hsum,
      h5, h6] at h0 h4
    linarith

theorem sum_abs_determined {o o' : Objective} {n : Nat} (hl : o.linear.Fits n) (hl' : o'.linear.Fits n)
    (hq : o.quadratic.Fits n) (hq' : o'.quadratic.Fits n) (h : ∀ y, o'.val y = o.val y) :
    (o'.linear.coeffs.values.map abs).sum = (o.linear.coeffs.values.map abs).sum ∧
    ((o'.quadratic.toDict false).values.map abs).sum = ((o.quadratic.toDict false).values.map abs).sum := by
  constructor
  · have lin : ∀ e : LinExpr, e.Fits n → ∀ k ∈ Assoc.keys e.coeffs, k ∈ List.range n := fun e he k hk =>
      List.mem_range.mpr (lt_of_lt_of_le (he.1.bound k hk) he.2)
    rw [sum_abs_values _ hl.1.nodup (List.range n) List.nodup_range (lin _ hl),
      sum_abs_values _ hl'.1.nodup (List.range n) List.nodup_range (lin _ hl')]
    congr 1
    exact List.map_congr_left fun i _ => by rw [(linear_determined hl.1 hl'.1 hq.1 hq'.1 h i).1]
  · let L : List (Nat × Nat) := ((List.range n).product (List.range n)).filter fun k => k.1 ≤ k.2
    have hL : L.Nodup := (List.Nodup.product List.nodup_range List.nodup_range).filter _
    have quad : ∀ e : QuadExpr, e.Fits n → ∀ k ∈ Assoc.keys e.coeffs, k ∈ L := by
      intro e he k hk
      have hb := he.1.bound k hk
      refine List.mem_filter.mpr ⟨?_, by simpa using he.1.upper k hk⟩
      obtain ⟨a, b⟩ := k
      exact List.pair_mem_product.mpr ⟨List.mem_range.mpr (lt_of_lt_of_le hb.1 he.2), List.mem_range.mpr (lt_of_lt_of_le hb.2 he.2)⟩
    show ((Dict.values o'.quadratic.coeffs).map abs).sum = ((Dict.values o.quadratic.coeffs).map abs).sum
    rw [sum_abs_values _ hq.1.nodup L hL (quad _ hq), sum_abs_values _ hq'.1.nodup L hL (quad _ hq')]
    congr 1
    refine List.map_congr_left fun k hk => ?_
    obtain ⟨a, b⟩ := k
    obtain ⟨h1, h2⟩ := List.mem_filter.mp hk
    obtain ⟨ha, hb⟩ := List.pair_mem_product.mp h1
    have hab : a ≤ b := by simpa using h2
    have := quadratic_determined hl.1 hl'.1 hq.1 hq'.1 h hq.2 hq'.2 (List.mem_range.mp ha) (List.mem_range.mp hb)
    simp only [qget, min_eq_left hab, max_eq_right hab] at this
    rw [this]

/-! ## The slack stage -/

/-- The objective does not depend on the constraints. -/
theorem ineqToEq_objective {mode : SlackMode} {p p' d d' : QP} (hp : p.WF) (hp' : p'.WF) (h : Reordered p p')
    (hd : p.ineqToEq mode = .ok d) (hd' : p'.ineqToEq mode = .ok d') :
    d'.objective = d.objective ∧ d.objective.linear.Fits p.numVars ∧ d.objective.quadratic.Fits p.numVars := by
  have key : ∀ {q e : QP}, q.WF → q.ineqToEq mode = .ok e → ∃ d0 u d1, copyAllVars q.vars (QP.empty q.name) = .ok d0 ∧
      d0.setObjective q.objective.sense q.objective.constant (linNames (q.objective.linear.toDictNames q.vars))
        (quadNames (q.objective.quadratic.toDictNames q.vars)) = (.ok u, d1) ∧ e.objective = d1.objective ∧
      d1.objective.linear.Fits q.numVars ∧ d1.objective.quadratic.Fits q.numVars := by
    intro q e hq he
    unfold QP.ineqToEq at he
    split at he
    · simp at he
    · rename_i d0 h0
      have hg := copyAllVars_grows h0
      have hv0 : d0.vars = q.vars.map plainVar := by simpa [QP.empty] using hg.vars
      have hst0 : Starts q d0 := ⟨hg.wf (QP.empty_wf q.name), [], by simpa using hv0⟩
      split at he
      · simp at he
      · rename_i u d1 h1
        have hwf1 := setObjective_wf h1 hst0.wf trivial trivial
        have hst1 : Starts q d1 := by
          obtain ⟨le, qe, -, -, rfl⟩ := setObjective_ok h1
          exact ⟨hwf1, [], by simpa using hv0⟩
        have hn : d1.numVars = q.numVars := by
          obtain ⟨le, qe, -, -, rfl⟩ := setObjective_ok h1
          simp [QP.numVars, hv0]
        split at he
        · simp at he
        · rename_i d2 h2
          obtain ⟨a1, -, -, -⟩ := i2eLins_ok hq hst1 q.lins hq.lins h2
          obtain ⟨b1, -, -⟩ := i2eQuads_ok hq a1.starts q.quads hq.quads he
          refine ⟨d0, u, d1, h0, h1, b1.objective.trans a1.objective, ?_, ?_⟩
          · rw [← hn]; exact hwf1.objLin
          · rw [← hn]; exact hwf1.objQuad
  obtain ⟨d0, u, d1, c1, c2, c3, c4, c5⟩ := key hp hd
  obtain ⟨e0, u', e1, g1, g2, g3, -, -⟩ := key hp' hd'
  rw [h.vars, h.name, c1, Except.ok.injEq] at g1
  subst g1
  rw [h.vars, h.objective, c2] at g2
  have : d1 = e1 := congrArg Prod.snd g2
  subst this
  rw [g3, c3]
  exact ⟨rfl, c4, c5⟩

/-! ## The bits -/

/-- Name and violation of a linear constraint. -/
def gap (y : Nat → ℚ) (k : LinCst) : String × ℚ := (k.name, k.linear.val y - k.rhs)

/-- Two programs with a common beginning `A` of their variables, the other variables in another order. -/
structure SwapTail (A : List Variable) (d d' : QP) : Prop where
  tails : ∃ S S', d.vars = A ++ S ∧ d'.vars = A ++ S' ∧ S'.Perm S
  wf : d.WF
  wf' : d'.WF
  plain : ∀ v ∈ d.vars, plainVar v = v
  objective : d'.objective = d.objective
  objLin : d.objective.linear.Fits A.length
  objQuad : d.objective.quadratic.Fits A.length
  names : ∀ k ∈ d.lins, k.name ≠ ""
  names' : ∀ k ∈ d'.lins, k.name ≠ ""
  lins : ∀ x x', SamePoint d d' x x' → (d'.lins.map (gap x')).Perm (d.lins.map (gap x))

theorem SwapTail.perm {A : List Variable} {d d' : QP} (h : SwapTail A d d') : d'.vars.Perm d.vars := by
  obtain ⟨S, S', h1, h2, h3⟩ := h.tails
  rw [h1, h2]; exact h3.append_left _

theorem SwapTail.memA {A : List Variable} {d d' : QP} (h : SwapTail A d d') {v : Variable} (hv : v ∈ A) : v ∈ d.vars := by
  obtain ⟨S, S', h1, h2, h3⟩ := h.tails
  rw [h1]; exact List.mem_append_left _ hv

theorem I2BFacts.allVars {d : QP} {b : I2B} (hf : I2BFacts d b) (hp : ∀ v ∈ d.vars, plainVar v = v) :
    b.dst.vars = d.vars.flatMap (newVars b.conv) := by
  rcases hf.vars with h | ⟨h1, h2, -⟩
  · exact h
  · rw [h1, h2]
    have : d.vars.flatMap (newVars []) = d.vars.flatMap fun v => [v] :=
      List.flatMap_congr fun v hv => by simp [newVars, Assoc.get?, hp v hv]
    rw [this]; simp

theorem I2BFacts.same_conv {d d' : QP} {b b' : I2B} (hf : I2BFacts d b) (hf' : I2BFacts d' b') {v : Variable}
    (hv : v ∈ d.vars) (hv' : v ∈ d'.vars) : Assoc.get? b'.conv v.name = Assoc.get? b.conv v.name := by
  by_cases ht : v.vartype = .integer
  · obtain ⟨e, h1, h2⟩ := hf.enc v hv ht
    obtain ⟨e', h1', h2'⟩ := hf'.enc v hv' ht
    rw [h2, Except.ok.injEq] at h2'
    rw [h1, h1', h2']
  · rw [hf.plain v hv ht, hf'.plain v hv' ht]

variable {A : List Variable} {d d' : QP} {b b' : I2B}

theorem SwapTail.bits (h : SwapTail A d d') (hf : I2BFacts d b) (hf' : I2BFacts d' b') :
    ∃ B T T', b.dst.vars = B ++ T ∧ b'.dst.vars = B ++ T' ∧ T'.Perm T ∧ B = A.flatMap (newVars b.conv) := by
  have hp' : ∀ v ∈ d'.vars, plainVar v = v := fun v hv => h.plain v (h.perm.mem_iff.mp hv)
  obtain ⟨S, S', h1, h2, h3⟩ := h.tails
  have hc : ∀ v ∈ d'.vars, newVars b'.conv v = newVars b.conv v := by
    intro v hv
    unfold newVars
    rw [hf.same_conv hf' (h.perm.mem_iff.mp hv) hv]
  refine ⟨A.flatMap (newVars b.conv), S.flatMap (newVars b.conv), S'.flatMap (newVars b.conv), ?_, ?_, h3.flatMap_right _, rfl⟩
  · rw [hf.allVars h.plain, h1, List.flatMap_append]
  · rw [hf'.allVars hp', List.flatMap_congr hc, h2, List.flatMap_append]

theorem SwapTail.bits_perm (h : SwapTail A d d') (hf : I2BFacts d b) (hf' : I2BFacts d' b') :
    b'.dst.vars.Perm b.dst.vars := by
  obtain ⟨B, T, T', h1, h2, h3, -⟩ := h.bits hf hf'
  rw [h1, h2]; exact h3.append_left _

/-- Points with the same values of the bits give the same value to every name. -/
theorem SamePoint.nameVal {e e' : QP} (he : e.Consistent) (he' : e'.Consistent) (hp : e'.vars.Perm e.vars) {y y' : Nat → ℚ}
    (hy : SamePoint e e' y y') {a : String} (ha : a ∈ e.vars.map Variable.name) :
    Verif.nameVal e'.varsIndex y' a = Verif.nameVal e.varsIndex y a := by
  obtain ⟨v, hv, rfl⟩ := List.mem_map.mp ha
  obtain ⟨i, hi⟩ := List.mem_iff_getElem?.mp hv
  obtain ⟨j, hj⟩ := List.mem_iff_getElem?.mp (hp.mem_iff.mpr hv)
  rw [nameVal_at he hi, nameVal_at he' hj]
  exact hy i j v hi hj

theorem SwapTail.encVal (h : SwapTail A d d') (hf : I2BFacts d b) (hf' : I2BFacts d' b') {Y Y' : String → ℚ} {v : Variable}
    (hv : v ∈ d.vars) (hY : ∀ a ∈ outs b.conv v.name, Y' a = Y a) :
    Verif.encVal d' b'.conv Y' v.name = Verif.encVal d b.conv Y v.name := by
  have hv' := h.perm.mem_iff.mpr hv
  have hc := hf.same_conv hf' hv hv'
  unfold Verif.encVal
  rw [hc, lbAt_var h.wf.cons hv, lbAt_var h.wf'.cons hv']
  unfold outs at hY
  cases hg : Assoc.get? b.conv v.name with
  | none => rw [hg] at hY; exact hY _ (by simp)
  | some enc =>
    rw [hg] at hY
    simp only
    congr 2
    exact List.map_congr_left fun q hq => by rw [hY q.1 (List.mem_map_of_mem hq)]

/-- The point of the first program decoded from bits. -/
def decoded (d : QP) (b : I2B) (y : Nat → ℚ) : Nat → ℚ := fun i =>
  match d.vars[i]? with
  | some v => encVal d b.conv (nameVal b.dst.varsIndex y) v.name
  | none => 0

theorem decoded_spec (d : QP) (b : I2B) (y : Nat → ℚ) : Decodes d b.dst.varsIndex b.conv (decoded d b y) y := by
  intro i v hv
  simp only [decoded, hv]

theorem I2BFacts.outs_mem {d : QP} {b : I2B} (hf : I2BFacts d b) {v : Variable} (hv : v ∈ d.vars) {a : String}
    (ha : a ∈ outs b.conv v.name) : a ∈ b.dst.vars.map Variable.name := by
  rw [hf.names]
  exact List.mem_flatMap.mpr ⟨v.name, List.mem_map_of_mem hv, ha⟩

theorem SwapTail.decoded (h : SwapTail A d d') (hf : I2BFacts d b) (hf' : I2BFacts d' b') {y y' : Nat → ℚ}
    (hy : SamePoint b.dst b'.dst y y') : SamePoint d d' (Verif.decoded d b y) (Verif.decoded d' b' y') := by
  intro i j v hi hj
  simp only [Verif.decoded, hi, hj]
  have hv := List.mem_of_getElem? hi
  exact h.encVal hf hf' hv fun a ha => hy.nameVal hf.wf.cons hf'.wf.cons (h.bits_perm hf hf') (hf.outs_mem hv ha)

theorem varName_append {A S S' : List Variable} {k : Nat} (hk : k < A.length) : varName (A ++ S') k = varName (A ++ S) k := by
  unfold varName
  rw [List.getElem?_append_left hk, List.getElem?_append_left hk]

/-- The objective: only the bits of the common variables count. -/
theorem SwapTail.objVal (h : SwapTail A d d') (hf : I2BFacts d b) (hf' : I2BFacts d' b') {y y' : Nat → ℚ}
    (hy : ∀ v ∈ A, ∀ a ∈ outs b.conv v.name, Verif.nameVal b'.dst.varsIndex y' a = Verif.nameVal b.dst.varsIndex y a) :
    b'.dst.objective.val y' = b.dst.objective.val y := by
  rw [hf'.objErr _ _ (decoded_spec d' b' y'), hf.objErr _ _ (decoded_spec d b y), h.objective]
  obtain ⟨S, S', h1, h2, h3⟩ := h.tails
  have hx : ∀ i < A.length, Verif.decoded d' b' y' i = Verif.decoded d b y i := by
    intro i hi
    have e1 : d.vars[i]? = some A[i] := by rw [h1, List.getElem?_append_left hi, List.getElem?_eq_getElem hi]
    have e2 : d'.vars[i]? = some A[i] := by rw [h2, List.getElem?_append_left hi, List.getElem?_eq_getElem hi]
    simp only [Verif.decoded, e1, e2]
    exact h.encVal hf hf' (h.memA (List.getElem_mem hi)) fun a ha => hy _ (List.getElem_mem hi) a ha
  congr 1
  · unfold Objective.val
    rw [LinExpr.val_congr h.objLin hx, QuadExpr.val_congr h.objQuad hx]
  · unfold quadErr QuadExpr.toDictNames
    have hk : ∀ q ∈ d.objective.quadratic.coeffs, q.1.1 < A.length ∧ q.1.2 < A.length := by
      intro q hq
      have := h.objQuad.1.bound q.1 (List.mem_map_of_mem hq)
      exact ⟨lt_of_lt_of_le this.1 h.objQuad.2, lt_of_lt_of_le this.2 h.objQuad.2⟩
    rw [h1, h2]
    have e : (d.objective.quadratic.coeffs.map fun q => ((varName (A ++ S') q.1.1, varName (A ++ S') q.1.2), q.2)) =
        d.objective.quadratic.coeffs.map fun q => ((varName (A ++ S) q.1.1, varName (A ++ S) q.1.2), q.2) :=
      List.map_congr_left fun q hq => by rw [varName_append (hk q hq).1, varName_append (hk q hq).2]
    rw [e]
    apply Dict.sum_congr
    intro k hk'
    simp only [Assoc.keys, List.map_map, List.mem_map, Function.comp_def] at hk'
    obtain ⟨q, hq, rfl⟩ := hk'
    have hn : ∀ i < A.length, varName (A ++ S) i = (A.getD i ⟨"", 0, 0, .binary⟩).name ∧ A.getD i ⟨"", 0, 0, .binary⟩ ∈ A := by
      intro i hi
      rw [List.getD_eq_getElem _ _ hi]
      refine ⟨?_, List.getElem_mem hi⟩
      unfold varName
      rw [List.getElem?_append_left hi, List.getElem?_eq_getElem hi]; rfl
    obtain ⟨n1, m1⟩ := hn _ (hk q hq).1
    obtain ⟨n2, m2⟩ := hn _ (hk q hq).2
    simp only
    rw [n1, n2]
    generalize A.getD q.1.1 ⟨"", 0, 0, .binary⟩ = u at m1
    generalize A.getD q.1.2 ⟨"", 0, 0, .binary⟩ = w at m2
    have hu := h.memA m1
    have hw := h.memA m2
    have hu' := h.perm.mem_iff.mpr hu
    have hw' := h.perm.mem_iff.mpr hw
    have yu := hy u m1
    have yw := hy w m2
    unfold outs at yu yw
    unfold pairErr
    rw [hf.same_conv hf' hu hu', hf.same_conv hf' hw hw', lbAt_var h.wf.cons hu, lbAt_var h.wf.cons hw,
      lbAt_var h.wf'.cons hu', lbAt_var h.wf'.cons hw']
    cases g1 : Assoc.get? b.conv u.name with
    | none => rfl
    | some ex =>
      cases g2 : Assoc.get? b.conv w.name with
      | none => rfl
      | some ey =>
        rw [g1] at yu
        rw [g2] at yw
        simp only
        have s1 : (ex.map fun p => Verif.nameVal b'.dst.varsIndex y' p.1 * p.2 - Verif.nameVal b'.dst.varsIndex y' p.1) =
            ex.map fun p => Verif.nameVal b.dst.varsIndex y p.1 * p.2 - Verif.nameVal b.dst.varsIndex y p.1 :=
          List.map_congr_left fun p hp => by rw [yu p.1 (List.mem_map_of_mem hp)]
        have s2 : (ey.map fun p => Verif.nameVal b'.dst.varsIndex y' p.1 * p.2 - Verif.nameVal b'.dst.varsIndex y' p.1) =
            ey.map fun p => Verif.nameVal b.dst.varsIndex y p.1 * p.2 - Verif.nameVal b.dst.varsIndex y p.1 :=
          List.map_congr_left fun p hp => by rw [yw p.1 (List.mem_map_of_mem hp)]
        rw [s1, s2]

theorem SwapTail.obj_same (h : SwapTail A d d') (hf : I2BFacts d b) (hf' : I2BFacts d' b') (y : Nat → ℚ) :
    b'.dst.objective.val y = b.dst.objective.val y := by
  apply h.objVal hf hf'
  intro v hv a ha
  obtain ⟨B, T, T', h1, h2, h3, hB⟩ := h.bits hf hf'
  have haB : a ∈ B.map Variable.name := by
    rw [hB, List.map_flatMap]
    refine List.mem_flatMap.mpr ⟨v, hv, ?_⟩
    rw [newVars_names]; exact ha
  obtain ⟨w, hw, rfl⟩ := List.mem_map.mp haB
  obtain ⟨i, hi⟩ := List.mem_iff_getElem?.mp hw
  have hlt := (List.getElem?_eq_some_iff.mp hi).1
  rw [nameVal_at hf.wf.cons (i := i) (by rw [h1, List.getElem?_append_left hlt]; exact hi),
    nameVal_at hf'.wf.cons (i := i) (by rw [h2, List.getElem?_append_left hlt]; exact hi)]

/-! ## The constraints -/

theorem I2BFacts.gaps {d : QP} {b : I2B} (hf : I2BFacts d b) (hn : ∀ k ∈ d.lins, k.name ≠ "") (y : Nat → ℚ) :
    b.dst.lins.map (gap y) = d.lins.map (gap (Verif.decoded d b y)) := by
  have := hf.lins
  generalize b.dst.lins = l' at this
  generalize d.lins = l at this hn
  induction this with
  | nil => rfl
  | cons h _ ih =>
    rw [List.forall_mem_cons] at hn
    rw [List.map_cons, List.map_cons, ih hn.2, gap, gap, h.name hn.1, h.val _ _ (decoded_spec d b y)]

theorem SwapTail.gaps (h : SwapTail A d d') (hf : I2BFacts d b) (hf' : I2BFacts d' b') {y y' : Nat → ℚ}
    (hy : SamePoint b.dst b'.dst y y') : (b'.dst.lins.map (gap y')).Perm (b.dst.lins.map (gap y)) := by
  rw [hf.gaps h.names, hf'.gaps h.names']
  exact h.lins _ _ (h.decoded hf hf' hy)

theorem sumSquares_gaps {e e' : QP} {y y' : Nat → ℚ} (h : (e'.lins.map (gap y')).Perm (e.lins.map (gap y))) :
    sumSquares e' y' = sumSquares e y := by
  have := ((h.map fun g => g.2 ^ 2)).sum_eq
  simpa only [List.map_map, Function.comp_def, gap, sumSquares] using this

theorem SamePoint.symm {e e' : QP} {y y' : Nat → ℚ} (h : SamePoint e e' y y') : SamePoint e' e y' y :=
  fun i j v hi hj => (h j i v hj hi).symm

theorem samePoint_zero (e e' : QP) : SamePoint e e' (fun _ => 0) fun _ => 0 := fun _ _ _ _ _ => rfl

theorem samePoint_unit {e e' : QP} (he : e.WF) (he' : e'.WF) {i j : Nat} {v : Variable} (hi : e.vars[i]? = some v)
    (hj : e'.vars[j]? = some v) : SamePoint e e' (unit i) (unit j) := by
  intro k l w hk hl
  unfold unit
  have : k = i ↔ l = j := by
    constructor
    · rintro rfl
      rw [hi, Option.some.injEq] at hk
      subst hk
      exact position_unique he' hl hj rfl
    · rintro rfl
      rw [hj, Option.some.injEq] at hl
      subst hl
      exact position_unique he hk hi rfl
  simp only [this]

/-- Non-integral numbers in the constraints. -/
theorem anyFloat_gaps {e e' : QP} (he : e.WF) (he' : e'.WF) (hv : e'.vars.Perm e.vars)
    (h : ∀ y y', SamePoint e e' y y' → (e'.lins.map (gap y')).Perm (e.lins.map (gap y)))
    (ha : anyFloat (e'.lins.flatMap fun c => c.rhs :: c.linear.coeffs.values) = true) :
    anyFloat (e.lins.flatMap fun c => c.rhs :: c.linear.coeffs.values) = true := by
  simp only [anyFloat, List.any_eq_true, List.mem_flatMap, List.mem_cons, decide_eq_true_eq] at ha ⊢
  obtain ⟨r, ⟨k', hk', hr⟩, hden⟩ := ha
  have find : ∀ y y', SamePoint e e' y y' → ∃ k ∈ e.lins, k.name = k'.name ∧ k.linear.val y - k.rhs = k'.linear.val y' - k'.rhs := by
    intro y y' hy
    have : gap y' k' ∈ e.lins.map (gap y) := (h y y' hy).mem_iff.mp (List.mem_map_of_mem hk')
    obtain ⟨k, hk, hg⟩ := List.mem_map.mp this
    exact ⟨k, hk, congrArg Prod.fst hg, congrArg Prod.snd hg⟩
  obtain ⟨k, hk, hkn, h0⟩ := find _ _ (samePoint_zero e e')
  rw [LinExpr.val_zero, LinExpr.val_zero] at h0
  have hrhs : k.rhs = k'.rhs := by linarith
  refine ⟨r, ⟨k, hk, ?_⟩, hden⟩
  rcases hr with rfl | hr
  · exact Or.inl hrhs.symm
  · right
    obtain ⟨⟨j, w⟩, hjw, rfl⟩ := List.mem_map.mp hr
    have hfit' := he'.lins k' hk'
    have hj : j < e'.vars.length := lt_of_lt_of_le (hfit'.1.bound j (List.mem_map_of_mem hjw)) hfit'.2
    have hv' : e'.vars[j] ∈ e.vars := hv.mem_iff.mp (List.getElem_mem hj)
    obtain ⟨i, hi⟩ := List.mem_iff_getElem?.mp hv'
    obtain ⟨k2, hk2, hkn2, h2⟩ := find _ _ (samePoint_unit he he' hi (List.getElem?_eq_getElem hj))
    have hkk : k2 = k := by
      have := he.cons.lins.2
      exact List.inj_on_of_nodup_map this hk2 hk (hkn2.trans hkn.symm)
    subst hkk
    rw [LinExpr.val_unit (he.lins k2 hk2).1, LinExpr.val_unit hfit'.1, hrhs] at h2
    have hget : Dict.get k2.linear.coeffs i = w := by
      have : Dict.get k'.linear.coeffs j = w := by
        rw [Dict.get, Assoc.get?_of_mem hfit'.1.nodup hjw]; rfl
      linarith
    unfold Dict.get at hget
    cases hg : Assoc.get? k2.linear.coeffs i with
    | none =>
      rw [hg] at hget
      simp only [Option.getD_none] at hget
      subst hget
      exact absurd rfl hden
    | some u =>
      rw [hg] at hget
      simp only [Option.getD_some] at hget
      subst hget
      exact List.mem_map.mpr ⟨(i, u), Assoc.get?_mem hg, rfl⟩

theorem SwapTail.autoPenalty (h : SwapTail A d d') (hf : I2BFacts d b) (hf' : I2BFacts d' b') :
    Verif.autoPenalty b'.dst = Verif.autoPenalty b.dst := by
  have hv := h.bits_perm hf hf'
  have hgap : ∀ y y', SamePoint b.dst b'.dst y y' → (b'.dst.lins.map (gap y')).Perm (b.dst.lins.map (gap y)) :=
    fun y y' hy => h.gaps hf hf' hy
  have hany : anyFloat (b'.dst.lins.flatMap fun c => c.rhs :: c.linear.coeffs.values) =
      anyFloat (b.dst.lins.flatMap fun c => c.rhs :: c.linear.coeffs.values) := by
    rw [Bool.eq_iff_iff]
    exact ⟨anyFloat_gaps hf.wf hf'.wf hv hgap, anyFloat_gaps hf'.wf hf.wf hv.symm fun y y' hy => (hgap y' y hy.symm).symm⟩
  have hn : b'.dst.numVars = b.dst.numVars := hv.length_eq
  obtain ⟨s1, s2⟩ := sum_abs_determined hf.wf.objLin (hn ▸ hf'.wf.objLin) hf.wf.objQuad (hn ▸ hf'.wf.objQuad) (h.obj_same hf hf')
  unfold Verif.autoPenalty
  rw [hany]
  simp only [List.sum_cons, List.sum_append, s1, s2]

/-! ## From the slack stage to the bits -/

theorem plainVar_plainVar (v : Variable) : plainVar (plainVar v) = plainVar v := by
  unfold plainVar
  by_cases h : v.vartype = .binary
  · simp [h, binVar]
  · simp [h]

theorem Cst.slack_plain {mode : SlackMode} {p : QP} {c : Cst} {v : Variable} (hv : v ∈ c.slack mode p) : plainVar v = v := by
  unfold Cst.slack at hv
  split at hv
  · rw [List.mem_singleton] at hv
    subst hv
    split <;> rfl
  · simp at hv

theorem swapTail_of {mode : SlackMode} {p p' d d' : QP} (hp : p.WF) (hp' : p'.WF) (hne : ∀ c ∈ p.allCsts, c.name ≠ "")
    (h : Reordered p p') (hd : p.ineqToEq mode = .ok d) (hd' : p'.ineqToEq mode = .ok d') :
    SwapTail (p.vars.map plainVar) d d' := by
  obtain ⟨w1, v1, l1, q1⟩ := ineqToEq_form hp hd
  obtain ⟨w2, v2, l2, q2⟩ := ineqToEq_form hp' hd'
  obtain ⟨-, -, -, hsh⟩ := C115_slack mode p p' d d' hp hp' hne h hd hd'
  obtain ⟨o1, o2, o3⟩ := ineqToEq_objective hp hp' h hd hd'
  have hsl : Cst.slack mode p' = Cst.slack mode p := funext (Cst.slack_vars h.vars mode)
  have names : ∀ {q e : QP}, (∀ c ∈ q.allCsts, c.name ≠ "") →
      List.Forall₂ (ExactForm mode q e) (q.lins.map .lin) (e.lins.map .lin) → ∀ k ∈ e.lins, k.name ≠ "" := by
    intro q e hq hf k hk
    obtain ⟨c, hc, hform⟩ := forall₂_right hf (List.mem_map_of_mem (f := Cst.lin) hk)
    have hcn := hq c (List.mem_append_left _ hc)
    have : (Cst.lin k).name = c.name := hform.name hcn
    intro h0
    exact hcn (this.symm.trans h0)
  refine ⟨⟨_, p'.allCsts.flatMap (Cst.slack mode p'), v1, ?_, ?_⟩, w1, w2, ?_, o1, by simpa [QP.numVars] using o2, by simpa [QP.numVars] using o3, names hne l1,
    names (fun c hc => hne c (h.allCsts.mem_iff.mp hc)) l2, ?_⟩
  · rw [v2, h.vars]
  · rw [hsl]; exact h.allCsts.flatMap_right _
  · intro v hv
    rw [v1] at hv
    rcases List.mem_append.mp hv with hv | hv
    · obtain ⟨u, -, rfl⟩ := List.mem_map.mp hv
      exact plainVar_plainVar u
    · obtain ⟨c, -, hv⟩ := List.mem_flatMap.mp hv
      exact Cst.slack_plain hv
  · intro x x' hx
    have := ((hsh x x' hx).2.1).map fun t : String × Sense × ℚ × ℚ => (t.1, t.2.2.2 - t.2.2.1)
    rw [List.map_map, List.map_map, List.map_map, List.map_map] at this
    exact this

theorem I2BFacts.plainDst {d : QP} {b : I2B} (hf : I2BFacts d b) (hp : ∀ v ∈ d.vars, plainVar v = v) :
    b.dst.vars.map plainVar = b.dst.vars := by
  have : ∀ v ∈ b.dst.vars, plainVar v = v := by
    intro v hv
    rw [hf.allVars hp] at hv
    obtain ⟨u, hu, hv⟩ := List.mem_flatMap.mp hv
    unfold newVars at hv
    split at hv
    · obtain ⟨q, -, rfl⟩ := List.mem_map.mp hv
      rfl
    · rw [List.mem_singleton] at hv
      rw [hv]; exact plainVar_plainVar u
  rw [List.map_congr_left this]; simp

end Verif
