import Verif.IntToBinSuccess
import Verif.PropsProgram

/-!
# C15, C16: encoding integer variables with binary variables
-/

namespace Verif

/-! ## C15 -/

theorem decodeSum_eq (sol : Assoc String ℚ) (enc : List (String × ℚ))
    (h : ∀ p ∈ enc, lookupSol sol p.1 = .ok 0 ∨ lookupSol sol p.1 = .ok 1) :
    decodeSum sol enc = .ok (enc.map fun p => (Assoc.get? sol p.1).getD 0 * p.2).sum ∧
      ∀ p ∈ enc, (Assoc.get? sol p.1).getD 0 = 0 ∨ (Assoc.get? sol p.1).getD 0 = 1 := by
  induction enc with
  | nil => simp [decodeSum]
  | cons p enc ih =>
    rw [List.forall_mem_cons] at h
    obtain ⟨i1, i2⟩ := ih h.2
    have hp : lookupSol sol p.1 = .ok ((Assoc.get? sol p.1).getD 0) := by
      unfold lookupSol at h ⊢
      cases hg : Assoc.get? sol p.1 with
      | some v => simp
      | none => rw [hg] at h; simp at h
    refine ⟨by simp only [decodeSum, hp, i1, List.map_cons, List.sum_cons], ?_⟩
    rw [List.forall_mem_cons]
    refine ⟨?_, i2⟩
    have := h.1
    rw [hp] at this
    simpa using this

/-- **C15**.  For integral bounds `lb < ub` the encoding exists, has `⌊log₂(ub - lb)⌋ + 1` bits with distinct
names, every bit pattern decodes to an integer in `[lb, ub]`, and every such integer is decoded from some bit
pattern (`interpret` returns the decoded sum plus `lb`). -/
theorem C15_encoding (name : String) (lb ub : Int) (h : lb < ub) :
    ∃ enc, convertVar name lb ub = .ok enc ∧ enc.length = Nat.log2 (ub - lb).toNat + 1 ∧
      (enc.map Prod.fst).Nodup ∧
      (∀ sol, (∀ p ∈ enc, lookupSol sol p.1 = .ok 0 ∨ lookupSol sol p.1 = .ok 1) →
        ∃ z : Int, lb ≤ z ∧ z ≤ ub ∧ decodeSum sol enc = .ok ((z : ℚ) - lb)) ∧
      ∀ z : Int, lb ≤ z → z ≤ ub → ∃ sol,
        (∀ p ∈ enc, lookupSol sol p.1 = .ok 0 ∨ lookupSol sol p.1 = .ok 1) ∧
          decodeSum sol enc = .ok ((z : ℚ) - lb) := by
  have hlt : (lb : ℚ) < ub := by exact_mod_cast h
  obtain ⟨enc, henc⟩ := convertVar_success (name := name) ⟨lb, rfl⟩ ⟨ub, rfl⟩ hlt
  have hok := convertVar_encOK ⟨lb, rfl⟩ ⟨ub, rfl⟩ hlt henc
  refine ⟨enc, henc, ?_, hok.nodup, ?_, ?_⟩
  · have hr : (ub : ℚ) - lb = ((ub - lb).toNat : ℚ) := by
      have h2 : ((ub - lb).toNat : Int) = ub - lb := by omega
      have h3 : (((ub - lb).toNat : Int) : ℚ) = ((ub - lb : Int) : ℚ) := by rw [h2]
      push_cast at h3
      exact h3.symm
    rw [convertVar_nat name _ _ _ (by omega) hr] at henc
    simp only [Except.ok.injEq] at henc
    subst henc
    simp
  · intro sol hsol
    obtain ⟨h1, h2⟩ := decodeSum_eq sol enc hsol
    obtain ⟨⟨z, hz⟩, r2, r3⟩ := hok.range (fun s => (Assoc.get? sol s).getD 0) h2
    rw [hz] at r2 r3
    refine ⟨z, by exact_mod_cast r2, by exact_mod_cast r3, ?_⟩
    rw [h1]
    congr 1
    linarith
  · intro z hz1 hz2
    obtain ⟨Y, hY, hs⟩ := hok.surj z (by exact_mod_cast hz1) (by exact_mod_cast hz2)
    have hg : ∀ p ∈ enc, Assoc.get? (enc.map fun p => (p.1, Y p.1) : Assoc String ℚ) p.1 = some (Y p.1) := by
      intro p hp
      refine Assoc.get?_of_mem ?_ (List.mem_map.mpr ⟨p, hp, rfl⟩)
      simpa [Assoc.keys, Function.comp_def] using hok.nodup
    have hbits : ∀ p ∈ enc, lookupSol (enc.map fun p => (p.1, Y p.1)) p.1 = .ok 0 ∨
        lookupSol (enc.map fun p => (p.1, Y p.1)) p.1 = .ok 1 := by
      intro p hp
      simp only [lookupSol, hg p hp, Except.ok.injEq]
      exact hY p.1
    refine ⟨enc.map fun p => (p.1, Y p.1), hbits, ?_⟩
    rw [(decodeSum_eq _ enc hbits).1]
    congr 1
    have : (enc.map fun p => (Assoc.get? (enc.map fun p => (p.1, Y p.1) : Assoc String ℚ) p.1).getD 0 * p.2)
        = enc.map fun p => Y p.1 * p.2 := by
      apply List.map_congr_left
      intro p hp
      rw [hg p hp]; rfl
    rw [this]
    linarith

example : convertVar "x" (-3) 7 = .ok [("x@0", 1), ("x@1", 2), ("x@2", 4), ("x@3", 3)] ∧
    decodeSum [("x@0", 1), ("x@1", 0), ("x@2", 1), ("x@3", 1)] [("x@0", 1), ("x@1", 2), ("x@2", 4), ("x@3", 3)]
      = .ok ((5 : ℚ) - -3) := by decide +kernel

/-! ## C16 -/

/-- A product of two integer variables with non-zero lower bounds. -/
def productQP : QP :=
  (runCalls (QP.empty "") [.addVar 1 4 .integer (some "x"), .addVar 1 4 .integer (some "y"),
    .objective .minimize 0 (.dict []) (.dict [((.name "x", .name "y"), 1)])]).2

/-- Its conversion. -/
def productI2B : I2B :=
  match productQP.intToBin with | .ok st => st | .error _ => ⟨QP.empty "", QP.empty "", []⟩

/-- **C16 fails** for a product of integer variables with non-zero lower bounds: for `x * y` with both in
`[1, 4]`, the result has value 14 at the encoding of `(4, 4)`, where the source has 16.  (The linear terms
`lb_y * x` and `lb_x * y` of the expanded product lack the coefficients of the bits.) -/
theorem C16_violated : ∃ (src : QP) (st : I2B) (y x : List ℚ), src.WF ∧ src.IntBoundsOK ∧
    src.intToBin = .ok st ∧ st.dst.InBounds (pt y) ∧ st.interpret y = .ok x ∧
    st.dst.objective.val (pt y) = 14 ∧ src.objective.val (pt x) = 16 := by
  have hv : productQP.vars = [⟨"x", 1, 4, .integer⟩, ⟨"y", 1, 4, .integer⟩] := by decide +kernel
  have hd : productI2B.dst.vars = [binVar "x@0", binVar "x@1", binVar "y@0", binVar "y@1"] := by decide +kernel
  refine ⟨productQP, productI2B, [1, 1, 1, 1], [4, 4], by decide +kernel, ?_, by decide +kernel, ?_,
    by decide +kernel, by decide +kernel, by decide +kernel⟩
  · intro v hm _
    rw [hv] at hm
    simp only [List.mem_cons, List.not_mem_nil, or_false] at hm
    rcases hm with rfl | rfl <;> exact ⟨⟨1, by norm_num⟩, ⟨4, by norm_num⟩, by norm_num⟩
  · intro i v hi
    rw [hd] at hi
    have hlt := (List.getElem?_eq_some_iff.mp hi).1
    simp only [List.length_cons, List.length_nil] at hlt
    have : i = 0 ∨ i = 1 ∨ i = 2 ∨ i = 3 := by omega
    rcases this with rfl | rfl | rfl | rfl <;> (simp only [List.getElem?_cons_zero, List.getElem?_cons_succ, Option.some.injEq] at hi; subst hi; simp [binVar, pt])

/-- **C16, objective and constraints** (the part that holds).  Full statement: the objective, its sense and the
truth of the constraints at `y` are those of the source at `interpret y`, for all programs with integral bounds
of the integer variables.  Missing (false by `C16_violated`): products of two integer variables where one has a
non-zero lower bound and the other takes more than three values. -/
theorem C16_preserved_partial (src : QP) (hs : src.WF) (hi : src.IntBoundsOK) (st : I2B)
    (h : src.intToBin = .ok st) (y x : List ℚ) (hx : st.interpret y = .ok x) :
    x.length = src.numVars ∧ st.dst.objective.sense = src.objective.sense ∧
    (ProductsOK src src.objective.quadratic → st.dst.objective.val (pt y) = src.objective.val (pt x)) ∧
    ((∀ c ∈ src.quads, ProductsOK src c.quadratic) → (st.dst.Sat (pt y) ↔ src.Sat (pt x))) := by
  have hf := intToBin_facts hs h
  obtain ⟨h1, h2⟩ := interpret_decodes hs hf hx
  refine ⟨h1, hf.sense, fun hp => hf.obj (pairsOK_of_products hs hi hf hs.objQuad hp) _ _ h2, fun hp => ?_⟩
  exact hf.sat (fun c hc => pairsOK_of_products hs hi hf (hs.quads c hc).2 (hp c hc)) _ _ h2

/-- **C16, form of the result**: the program keeps its name; its linear and quadratic constraints remain, in order and with
their names and senses; and each has the same difference of left-hand side and right-hand side at a point as the constraint
of the source at the interpretation of the point (quadratic constraints: as in `C16_preserved_partial`). -/
theorem C16_form (src : QP) (hs : src.WF) (hi : src.IntBoundsOK) (st : I2B) (h : src.intToBin = .ok st) :
    st.dst.name = src.name ∧
    List.Forall₂ (fun c c' : LinCst => (c.name ≠ "" → c'.name = c.name) ∧ c'.sense = c.sense ∧
      ∀ y x, st.interpret y = .ok x → c'.linear.val (pt y) - c'.rhs = c.linear.val (pt x) - c.rhs) src.lins st.dst.lins ∧
    List.Forall₂ (fun c c' : QuadCst => (c.name ≠ "" → c'.name = c.name) ∧ c'.sense = c.sense ∧
      (ProductsOK src c.quadratic → ∀ y x, st.interpret y = .ok x →
        c'.linear.val (pt y) + c'.quadratic.val (pt y) - c'.rhs = c.linear.val (pt x) + c.quadratic.val (pt x) - c.rhs))
      src.quads st.dst.quads := by
  have hf := intToBin_facts hs h
  refine ⟨hf.name, hf.lins.imp fun c c' hm => ⟨hm.name, hm.sense, fun y x hx => hm.val _ _ (interpret_decodes hs hf hx).2⟩, ?_⟩
  rw [List.forall₂_iff_get]
  obtain ⟨hlen, hget⟩ := List.forall₂_iff_get.mp hf.quads
  refine ⟨hlen, fun i h1 h2 => ?_⟩
  have hm := hget i h1 h2
  refine ⟨hm.name, hm.sense, fun hp y x hx => ?_⟩
  exact hm.val (pairsOK_of_products hs hi hf (hs.quads _ (List.get_mem _ _)).2 hp) _ _ (interpret_decodes hs hf hx).2

/-- Value at the point `y` of the variable of the program called `s`. -/
def QP.valueOf (p : QP) (y : List ℚ) (s : String) : ℚ := pt y (p.vars.findIdx fun v => v.name = s)

/-- Number of set bits of an integer variable with integral bounds: its bits are the variables `name@0`, …, `name@k` with
`k = ⌊log₂(ub - lb)⌋` (see `C15_encoding`). -/
def Variable.setBits (v : Variable) (dst : QP) (y : List ℚ) : ℚ :=
  ((List.range (Nat.log2 (v.ub - v.lb).floor.toNat + 1)).map fun k => dst.valueOf y (v.name ++ "@" ++ toString k)).sum

/-- What the conversion misses in a quadratic expression: for every product of two integer variables, each lower bound
times the difference between the encoded number of the other factor and the number of its set bits. -/
def QuadExpr.missed (e : QuadExpr) (src dst : QP) (x y : List ℚ) : ℚ :=
  (e.coeffs.map fun q =>
    match src.vars[q.1.1]?, src.vars[q.1.2]? with
    | some v, some w =>
      if v.vartype = .integer ∧ w.vartype = .integer then
        q.2 * (w.lb * (pt x q.1.1 - v.lb - v.setBits dst y) + v.lb * (pt x q.1.2 - w.lb - w.setBits dst y))
      else 0
    | _, _ => 0).sum

theorem QP.valueOf_eq {p : QP} (hp : p.Consistent) (y : List ℚ) {s : String} (h : s ∈ p.vars.map Variable.name) :
    p.valueOf y s = nameVal p.varsIndex (pt y) s := by
  obtain ⟨v, hv, rfl⟩ := List.mem_map.mp h
  have hlt : (p.vars.findIdx fun w => w.name = v.name) < p.vars.length :=
    List.findIdx_lt_length_of_exists ⟨v, hv, by simp⟩
  have hn : (p.vars[p.vars.findIdx fun w => w.name = v.name]).name = v.name := by
    have := List.findIdx_getElem (w := hlt)
    simpa using this
  rw [QP.valueOf, ← hn, nameVal_at hp (List.getElem?_eq_getElem hlt), hn]

theorem setBits_eq {src : QP} (hi : src.IntBoundsOK) {st : I2B} (hf : I2BFacts src st) {v : Variable} (hv : v ∈ src.vars)
    (ht : v.vartype = .integer) {e : List (String × ℚ)} (he : convertVar v.name v.lb v.ub = .ok e)
    (hg : Assoc.get? st.conv v.name = some e) (y : List ℚ) :
    (e.map fun p => nameVal st.dst.varsIndex (pt y) p.1).sum = v.setBits st.dst y := by
  obtain ⟨⟨a, ha⟩, ⟨b, hb⟩, hlt⟩ := hi v hv ht
  have hab : a < b := by rw [ha, hb] at hlt; exact_mod_cast hlt
  have hfl : (v.ub - v.lb).floor = b - a := by
    rw [ha, hb, ← Int.cast_sub, Rat.floor_intCast]
  have hr : v.ub - v.lb = ((b - a).toNat : ℚ) := by
    have h2 : ((b - a).toNat : Int) = b - a := by omega
    have h3 : (((b - a).toNat : Int) : ℚ) = ((b - a : Int) : ℚ) := by rw [h2]
    push_cast at h3
    rw [ha, hb]; exact h3.symm
  have hmem : ∀ p ∈ e, p.1 ∈ st.dst.vars.map Variable.name := by
    intro p hp
    rw [hf.names, List.mem_flatMap]
    refine ⟨v.name, List.mem_map_of_mem hv, ?_⟩
    unfold outs
    rw [hg]
    exact List.mem_map_of_mem hp
  have h1 : (e.map fun p => nameVal st.dst.varsIndex (pt y) p.1) = e.map fun p => st.dst.valueOf y p.1 :=
    List.map_congr_left fun p hp => (QP.valueOf_eq hf.wf.cons y (hmem p hp)).symm
  rw [h1]
  have he' := convertVar_nat v.name v.lb v.ub _ (by omega) hr
  rw [he] at he'
  simp only [Except.ok.injEq] at he'
  rw [he', Variable.setBits, hfl, List.range_succ]
  simp [Function.comp_def, delim]

theorem quadErr_eq {src : QP} (hs : src.WF) (hi : src.IntBoundsOK) {st : I2B} (hf : I2BFacts src st) {e : QuadExpr}
    (he : e.Fits src.numVars) {x y : List ℚ} (hd : Decodes src st.dst.varsIndex st.conv (pt x) (pt y)) :
    quadErr src st.conv e (nameVal st.dst.varsIndex (pt y)) = e.missed src st.dst x y := by
  have hsum : quadErr src st.conv e (nameVal st.dst.varsIndex (pt y)) =
      (e.coeffs.map fun q => q.2 * pairErr src st.conv (nameVal st.dst.varsIndex (pt y)) (varName src.vars q.1.1)
        (varName src.vars q.1.2)).sum := by
    unfold quadErr QuadExpr.toDictNames Dict.sum
    rw [List.map_map]; rfl
  rw [hsum, QuadExpr.missed]
  congr 1
  apply List.map_congr_left
  intro q hq
  have hb := he.1.bound q.1 (List.mem_map_of_mem hq)
  obtain ⟨v, hv, hvn⟩ := varName_mem (vars := src.vars) (lt_of_lt_of_le hb.1 he.2)
  obtain ⟨w, hw, hwn⟩ := varName_mem (vars := src.vars) (lt_of_lt_of_le hb.2 he.2)
  have hvm := List.mem_of_getElem? hv
  have hwm := List.mem_of_getElem? hw
  have dv := hd _ _ hv
  have dw := hd _ _ hw
  rw [hv, hw, hvn, hwn]
  simp only [pairErr]
  by_cases ht : v.vartype = .integer ∧ w.vartype = .integer
  · rw [if_pos ht]
    obtain ⟨ex, hx1, hx2⟩ := hf.enc v hvm ht.1
    obtain ⟨ey, hy1, hy2⟩ := hf.enc w hwm ht.2
    simp only [encVal, hx1, hy1] at dv dw ⊢
    rw [lbAt_var hs.cons hvm] at dv ⊢
    rw [lbAt_var hs.cons hwm] at dw ⊢
    rw [sum_sub', sum_sub', setBits_eq hi hf hvm ht.1 hx2 hx1, setBits_eq hi hf hwm ht.2 hy2 hy1, dv, dw]
    ring
  · rw [if_neg ht]
    have : Assoc.get? st.conv v.name = none ∨ Assoc.get? st.conv w.name = none := by
      by_cases h1 : v.vartype = .integer
      · exact .inr (hf.plain w hwm fun h2 => ht ⟨h1, h2⟩)
      · exact .inl (hf.plain v hvm h1)
    rcases this with h | h <;> rw [h] <;> (cases Assoc.get? st.conv v.name <;> simp)

/-- **C16, the error**: at every point, the objective of the result is that of the source at the interpretation of the
point less `QuadExpr.missed`, and likewise for every quadratic constraint.  So the conversion is exact precisely where these
sums vanish. -/
theorem C16_error (src : QP) (hs : src.WF) (hi : src.IntBoundsOK) (st : I2B) (h : src.intToBin = .ok st) (y x : List ℚ)
    (hx : st.interpret y = .ok x) :
    st.dst.objective.val (pt y) = src.objective.val (pt x) - src.objective.quadratic.missed src st.dst x y ∧
    List.Forall₂ (fun c c' : QuadCst =>
      c'.linear.val (pt y) + c'.quadratic.val (pt y) - c'.rhs =
        c.linear.val (pt x) + c.quadratic.val (pt x) - c.rhs - c.quadratic.missed src st.dst x y) src.quads st.dst.quads := by
  have hf := intToBin_facts hs h
  obtain ⟨-, h2⟩ := interpret_decodes hs hf hx
  refine ⟨by rw [hf.objErr _ _ h2, quadErr_eq hs hi hf hs.objQuad h2], ?_⟩
  rw [List.forall₂_iff_get]
  obtain ⟨hlen, hget⟩ := List.forall₂_iff_get.mp hf.quads
  refine ⟨hlen, fun i h1 h3 => ?_⟩
  rw [(hget i h1 h3).err _ _ h2, quadErr_eq hs hi hf (hs.quads _ (List.get_mem _ _)).2 h2]

/-- `16 - 14` at the point of `C16_violated`. -/
example : productQP.objective.quadratic.missed productQP productI2B.dst [4, 4] [1, 1, 1, 1] = 2 := by decide +kernel

/-- **C16, no products of integer variables**: no side condition is needed when no product of two integer
variables occurs. -/
theorem C16_preserved_linear (src : QP) (hs : src.WF) (st : I2B) (h : src.intToBin = .ok st) (y x : List ℚ)
    (hx : st.interpret y = .ok x)
    (hq : ∀ e : QuadExpr, (e = src.objective.quadratic ∨ ∃ c ∈ src.quads, e = c.quadratic) →
      ∀ k ∈ Assoc.keys e.coeffs, ∀ v w, src.vars[k.1]? = some v → src.vars[k.2]? = some w →
        ¬ (v.vartype = .integer ∧ w.vartype = .integer)) :
    st.dst.objective.val (pt y) = src.objective.val (pt x) ∧ (st.dst.Sat (pt y) ↔ src.Sat (pt x)) := by
  have hf := intToBin_facts hs h
  obtain ⟨h1, h2⟩ := interpret_decodes hs hf hx
  have key : ∀ e : QuadExpr, e.Fits src.numVars → (e = src.objective.quadratic ∨ ∃ c ∈ src.quads, e = c.quadratic) →
      PairsOK src st.conv e := by
    intro e he hmem k hk ex ey hx hy
    exfalso
    simp only [QuadExpr.toDictNames, Assoc.keys, List.map_map, List.mem_map] at hk
    obtain ⟨q, hq', rfl⟩ := hk
    have hb := he.1.bound q.1 (List.mem_map_of_mem hq')
    obtain ⟨v, hv, hvn⟩ := varName_mem (vars := src.vars) (lt_of_lt_of_le hb.1 he.2)
    obtain ⟨w, hw, hwn⟩ := varName_mem (vars := src.vars) (lt_of_lt_of_le hb.2 he.2)
    simp only [Function.comp] at hx hy
    rw [hvn] at hx
    rw [hwn] at hy
    refine hq e hmem q.1 (List.mem_map_of_mem hq') v w hv hw ⟨?_, ?_⟩
    · by_contra ht; rw [hf.plain v (List.mem_of_getElem? hv) ht] at hx; simp at hx
    · by_contra ht; rw [hf.plain w (List.mem_of_getElem? hw) ht] at hy; simp at hy
  exact ⟨hf.obj (key _ hs.objQuad (Or.inl rfl)) _ _ h2,
    hf.sat (fun c hc => key _ (hs.quads c hc).2 (Or.inr ⟨c, hc, rfl⟩)) _ _ h2⟩

/-- **C16, bounds and integrality**.  Full statement: an integral point is within bounds iff its interpretation
is.  Shown: for points with bits zero or one, under the condition that binary variables of the source have
bounds zero and one.  Missing: binary variables with tightened bounds (false, see C25). -/
theorem C16_bounds_partial (src : QP) (hs : src.WF) (hi : src.IntBoundsOK) (hb : src.BinBoundsOK) (st : I2B)
    (h : src.intToBin = .ok st) (y x : List ℚ) (hx : st.interpret y = .ok x)
    (hbits : ∀ i v, st.dst.vars[i]? = some v → v.vartype = .binary → pt y i = 0 ∨ pt y i = 1) :
    (st.dst.InBounds (pt y) ∧ st.dst.Integral (pt y)) ↔ (src.InBounds (pt x) ∧ src.Integral (pt x)) := by
  have hf := intToBin_facts hs h
  obtain ⟨h1, h2⟩ := interpret_decodes hs hf hx
  refine ⟨decode_admits hs hf hi hb h2, ?_⟩
  intro hadm
  rw [admits_names hs.cons] at hadm
  rw [admits_names hf.wf.cons]
  have hbits' : ∀ w ∈ st.dst.vars, w.vartype = .binary →
      nameVal st.dst.varsIndex (pt y) w.name = 0 ∨ nameVal st.dst.varsIndex (pt y) w.name = 1 := by
    intro w hw ht
    obtain ⟨i, hi'⟩ := List.mem_iff_getElem?.mp hw
    rw [nameVal_at hf.wf.cons hi']
    exact hbits i w hi' ht
  have hbits2 : ∀ v ∈ src.vars, ∀ w ∈ newVars st.conv v, w.vartype = .binary →
      nameVal st.dst.varsIndex (pt y) w.name = 0 ∨ nameVal st.dst.varsIndex (pt y) w.name = 1 :=
    (hf.mem_vars (fun w => w.vartype = .binary →
      nameVal st.dst.varsIndex (pt y) w.name = 0 ∨ nameVal st.dst.varsIndex (pt y) w.name = 1) (by
        intro v _ _
        unfold plainVar
        split
        · rename_i ht; simp [binVar, ht]
        · exact Iff.rfl)).mp hbits'
  rw [hf.mem_vars (fun w => w.Admits (nameVal st.dst.varsIndex (pt y) w.name)) (by
    intro v hv ht
    have : (plainVar v).name = v.name := by unfold plainVar; split <;> rfl
    rw [this]
    exact admits_plain (hb v hv) _)]
  intro v hv w hw
  have hbw := hbits2 v hv w hw
  by_cases ht : v.vartype = .integer
  · obtain ⟨e, he, _⟩ := hf.enc v hv ht
    simp only [newVars, he] at hw
    obtain ⟨p, _, rfl⟩ := List.mem_map.mp hw
    exact (admits_bin p.1 _).mpr (hbw rfl)
  · have hp := hf.plain v hv ht
    simp only [newVars, hp, List.mem_singleton] at hw
    subst hw
    have hn : (plainVar v).name = v.name := by unfold plainVar; split <;> rfl
    rw [hn, admits_plain (hb v hv)]
    have := hadm v hv
    rw [h2.nameVal hs.cons (List.mem_map_of_mem hv)] at this
    simpa only [encVal, hp] using this

/-- **C16, feasible points correspond** (the part that holds): every feasible point of the source is the
interpretation of a feasible point of the result with the same objective value, and interpretations of feasible
points are feasible.  Missing as in `C16_preserved_partial` and `C16_bounds_partial`. -/
theorem C16_feasible_partial (src : QP) (hs : src.WF) (hi : src.IntBoundsOK) (hb : src.BinBoundsOK)
    (ho : ProductsOK src src.objective.quadratic) (hq : ∀ c ∈ src.quads, ProductsOK src c.quadratic) (st : I2B)
    (h : src.intToBin = .ok st) :
    (∀ y x, st.interpret y = .ok x → st.dst.Feas (pt y) → src.Feas (pt x)) ∧
    ∀ x : List ℚ, x.length = src.numVars → src.Feas (pt x) →
      ∃ y, y.length = st.dst.numVars ∧ st.interpret y = .ok x ∧ st.dst.Feas (pt y) ∧
        st.dst.objective.val (pt y) = src.objective.val (pt x) := by
  have hf := intToBin_facts hs h
  have hpo := pairsOK_of_products hs hi hf hs.objQuad ho
  have hpq : ∀ c ∈ src.quads, PairsOK src st.conv c.quadratic :=
    fun c hc => pairsOK_of_products hs hi hf (hs.quads c hc).2 (hq c hc)
  constructor
  · intro y x hx hy
    obtain ⟨_, h2⟩ := interpret_decodes hs hf hx
    obtain ⟨a, b⟩ := decode_admits hs hf hi hb h2 ⟨hy.1, hy.2.1⟩
    exact ⟨a, b, (hf.sat hpq _ _ h2).mp hy.2.2⟩
  · intro x hlen hx
    obtain ⟨y, d1, d2, d3⟩ := encode_exists hs hf hi hb ⟨hx.1, hx.2.1⟩
    have hpt : ∀ i < st.dst.numVars, pt ((List.range st.dst.numVars).map y) i = y i := by
      intro i hi'
      simp [pt, hi']
    have hdec : Decodes src st.dst.varsIndex st.conv (pt x) (pt ((List.range st.dst.numVars).map y)) := by
      intro i v hv
      rw [d1 i v hv]
      have hm := List.mem_of_getElem? hv
      have hnv : ∀ a ∈ outs st.conv v.name, nameVal st.dst.varsIndex y a =
          nameVal st.dst.varsIndex (pt ((List.range st.dst.numVars).map y)) a := by
        intro a ha
        have hma : a ∈ st.dst.vars.map Variable.name := by
          rw [hf.names]; exact List.mem_flatMap.mpr ⟨v.name, List.mem_map_of_mem hm, ha⟩
        obtain ⟨j, hj, hlt⟩ := mem_names_index hf.wf.cons hma
        simp only [nameVal, hj, Option.getD_some]
        rw [hpt j hlt]
      unfold encVal
      unfold outs at hnv
      cases hg : Assoc.get? st.conv v.name with
      | some enc =>
        rw [hg] at hnv
        simp only
        congr 2
        apply List.map_congr_left
        intro p hp
        rw [hnv p.1 (List.mem_map_of_mem hp)]
      | none =>
        rw [hg] at hnv
        simp only
        exact hnv v.name (by simp)
    refine ⟨(List.range st.dst.numVars).map y, by simp, ?_, ⟨?_, ?_, ?_⟩, ?_⟩
    · rw [interpret_iff hs hf]
      refine ⟨by simp, ?_⟩
      apply List.ext_getElem?
      intro i
      by_cases hi' : i < src.numVars
      · obtain ⟨v, hv⟩ := lt_numVars hi'
        rw [List.getElem?_map, hv, Option.map_some, ← hdec i v hv]
        simp only [pt]
        have hl : i < x.length := by omega
        rw [List.getElem?_eq_getElem hl]
        simp [List.getD_eq_getElem?_getD, hl]
      · rw [List.getElem?_eq_none (by omega), List.getElem?_eq_none (by simp only [List.length_map]; unfold QP.numVars at hi'; omega)]
    · intro i v hv
      rw [hpt i (List.getElem?_eq_some_iff.mp hv).1]; exact d2 i v hv
    · intro i v hv
      rw [hpt i (List.getElem?_eq_some_iff.mp hv).1]; exact d3 i v hv
    · exact (hf.sat hpq _ _ hdec).mpr hx.2.2
    · exact hf.obj hpo _ _ hdec

/-- **C16, the conversion succeeds**: for a well-formed program whose integer variables have integral bounds
with at least two values, whose variable names do not contain the delimiter `@` and whose constraint names are
not empty; the result is well formed, has no integer variables, and every point of the right length can be
interpreted. -/
theorem C16_succeeds (src : QP) (hs : src.WF) (hi : src.IntBoundsOK) (hb : ∀ v ∈ src.vars, v.lb ≤ v.ub)
    (hat : ∀ v ∈ src.vars, '@' ∉ v.name.toList) (hl : ∀ c ∈ src.lins, c.name ≠ "")
    (hq : ∀ c ∈ src.quads, c.name ≠ "") :
    ∃ st, src.intToBin = .ok st ∧ st.dst.WF ∧ (∀ v ∈ st.dst.vars, v.vartype ≠ .integer) ∧
      ∀ y : List ℚ, st.dst.numVars ≤ y.length → ∃ x, st.interpret y = .ok x := by
  obtain ⟨st, h⟩ := intToBin_success hs hi hb
    (fun v hv w hw a => belongs_unique (hat v hv) (hat w hw)) hl hq
  have hf := intToBin_facts hs h
  refine ⟨st, h, hf.wf, ?_, fun y hy => ⟨_, (interpret_iff hs hf y _).mpr ⟨hy, rfl⟩⟩⟩
  rw [hf.mem_vars (fun v => v.vartype ≠ .integer) (by
    intro v _ _
    unfold plainVar
    split
    · rename_i ht; simp [binVar, ht]
    · exact Iff.rfl)]
  intro v hv w hw
  by_cases ht : v.vartype = .integer
  · obtain ⟨e, he, _⟩ := hf.enc v hv ht
    simp only [newVars, he] at hw
    obtain ⟨p, _, rfl⟩ := List.mem_map.mp hw
    simp [binVar]
  · have hp := hf.plain v hv ht
    simp only [newVars, hp, List.mem_singleton] at hw
    subst hw
    unfold plainVar
    split
    · simp [binVar]
    · exact ht

/-- A program for the examples: integer variables with and without lower bound, products, constraints. -/
def i2bQP : QP :=
  (runCalls (QP.empty "") [.addVar 0 6 .integer (some "x"), .addVar (-2) 0 .integer (some "y"),
    .addVar 0 1 .binary (some "b"),
    .linear (.dict [(.name "x", 1), (.name "y", 3)]) (.str "<=") 8 none,
    .quadratic (.dict [(.name "b", 1)]) (.dict [((.name "y", .name "b"), 3), ((.name "y", .name "y"), 1)]) (.str "<=") 9 none,
    .objective .maximize 1 (.dict [(.name "x", 2)]) (.dict [((.name "x", .name "x"), 1), ((.name "b", .name "y"), 5)])]).2

/-- Its conversion. -/
def i2bSt : I2B := match i2bQP.intToBin with | .ok st => st | .error _ => ⟨QP.empty "", QP.empty "", []⟩

example : i2bQP.WF ∧ i2bQP.intToBin = .ok i2bSt ∧
    i2bSt.dst.vars.map Variable.name = ["x@0", "x@1", "x@2", "y@0", "y@1", "b"] ∧
    i2bSt.interpret [1, 1, 0, 0, 1, 1] = .ok [3, -1, 1] ∧
    i2bSt.dst.objective.val (pt [1, 1, 0, 0, 1, 1]) = i2bQP.objective.val (pt [3, -1, 1]) ∧
    (∀ v ∈ i2bQP.vars, '@' ∉ v.name.toList) := by decide +kernel

example : ProductsOK i2bQP i2bQP.objective.quadratic ∧ ∀ c ∈ i2bQP.quads, ProductsOK i2bQP c.quadratic := by
  have hv : i2bQP.vars = [⟨"x", 0, 6, .integer⟩, ⟨"y", -2, 0, .integer⟩, ⟨"b", 0, 1, .binary⟩] := by decide +kernel
  have ho : Assoc.keys i2bQP.objective.quadratic.coeffs = [(0, 0), (1, 2)] := by decide +kernel
  have hq : i2bQP.quads.map (fun c => Assoc.keys c.quadratic.coeffs) = [[(1, 2), (1, 1)]] := by decide +kernel
  constructor
  · intro k hk v w h1 h2 t1 t2
    rw [ho] at hk
    rw [hv] at h1 h2
    simp only [List.mem_cons, List.not_mem_nil, or_false] at hk
    rcases hk with rfl | rfl
    · simp at h1 h2; subst h1 h2; simp
    · simp at h1 h2; subst h1 h2; simp at t2
  · intro c hc k hk v w h1 h2 t1 t2
    have hm : Assoc.keys c.quadratic.coeffs ∈ i2bQP.quads.map (fun c => Assoc.keys c.quadratic.coeffs) :=
      List.mem_map_of_mem hc
    rw [hq] at hm
    simp only [List.mem_singleton] at hm
    rw [hm] at hk
    rw [hv] at h1 h2
    simp only [List.mem_cons, List.not_mem_nil, or_false] at hk
    rcases hk with rfl | rfl
    · simp at h1 h2; subst h1 h2; simp at t2
    · simp at h1 h2; subst h1 h2; norm_num

end Verif
