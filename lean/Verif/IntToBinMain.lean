import Verif.IntToBinStages
import Verif.EncodeLemmas

/-!
# Helper lemmas: the integer-to-binary conversion as a whole
-/

namespace Verif

theorem rel_of_sub_eq {s : Sense} {a b c d : ℚ} (h : a - b = c - d) : s.rel a b ↔ s.rel c d := by
  cases s <;> simp only [Sense.rel] <;> constructor <;> intro hh <;> linarith

theorem forall₂_iff {α β : Type} {R : α → β → Prop} {P : α → Prop} {Q : β → Prop} {l : List α} {m : List β}
    (h : List.Forall₂ R l m) (hpq : ∀ a ∈ l, ∀ b, R a b → (P a ↔ Q b)) : (∀ a ∈ l, P a) ↔ ∀ b ∈ m, Q b := by
  induction h with
  | nil => simp
  | cons hab _ ih =>
    simp only [List.forall_mem_cons]
    rw [hpq _ List.mem_cons_self _ hab, ih (fun a ha => hpq a (List.mem_cons_of_mem _ ha))]

theorem forall₂_right {α β : Type} {R : α → β → Prop} {l : List α} {m : List β} (h : List.Forall₂ R l m) {b : β}
    (hb : b ∈ m) : ∃ a, a ∈ l ∧ R a b := by
  induction h with
  | nil => simp at hb
  | cons hab _ ih =>
    rcases List.mem_cons.mp hb with rfl | hb
    · exact ⟨_, List.mem_cons_self, hab⟩
    · obtain ⟨a, ha, hr⟩ := ih hb
      exact ⟨a, List.mem_cons_of_mem _ ha, hr⟩

theorem LinExpr.val_congr {n : Nat} {e : LinExpr} (h : e.Fits n) {x y : Nat → ℚ} (hxy : ∀ i < n, x i = y i) :
    e.val x = e.val y := by
  apply Dict.sum_congr
  intro k hk
  exact hxy k (lt_of_lt_of_le (h.1.bound k hk) h.2)

theorem QuadExpr.val_congr {n : Nat} {e : QuadExpr} (h : e.Fits n) {x y : Nat → ℚ}
    (hxy : ∀ i < n, x i = y i) : e.val x = e.val y := by
  apply Dict.sum_congr
  intro k hk
  have := h.1.bound k hk
  rw [hxy k.1 (lt_of_lt_of_le this.1 h.2), hxy k.2 (lt_of_lt_of_le this.2 h.2)]

theorem Objective.val_congr {p : QP} (h : p.WF) {x y : Nat → ℚ} (hxy : ∀ i < p.numVars, x i = y i) :
    p.objective.val x = p.objective.val y := by
  simp only [Objective.val, LinExpr.val_congr h.objLin hxy, QuadExpr.val_congr h.objQuad hxy]

theorem QP.sat_congr {p : QP} (h : p.WF) {x y : Nat → ℚ} (hxy : ∀ i < p.numVars, x i = y i) :
    p.Sat x ↔ p.Sat y := by
  simp only [sat_iff]
  have h1 : ∀ c ∈ p.lins, (c.Holds x ↔ c.Holds y) := fun c hc => by
    rw [LinCst.Holds, LinCst.Holds, LinExpr.val_congr (h.lins c hc) hxy]
  have h2 : ∀ c ∈ p.quads, (c.Holds x ↔ c.Holds y) := fun c hc => by
    rw [QuadCst.Holds, QuadCst.Holds, LinExpr.val_congr (h.quads c hc).1 hxy,
      QuadExpr.val_congr (h.quads c hc).2 hxy]
  constructor
  · rintro ⟨a, b⟩; exact ⟨fun c hc => (h1 c hc).mp (a c hc), fun c hc => (h2 c hc).mp (b c hc)⟩
  · rintro ⟨a, b⟩; exact ⟨fun c hc => (h1 c hc).mpr (a c hc), fun c hc => (h2 c hc).mpr (b c hc)⟩

theorem lt_numVars {p : QP} {i : Nat} (h : i < p.numVars) : ∃ v, p.vars[i]? = some v :=
  ⟨_, List.getElem?_eq_getElem h⟩

/-- A converted linear constraint has the same sense, fits the result and has the same slack at decoded points. -/
structure LinMatch' (src : QP) (st : I2B) (k k' : LinCst) : Prop where
  name : k.name ≠ "" → k'.name = k.name
  sense : k'.sense = k.sense
  fits : k'.linear.Fits st.dst.numVars
  val : ∀ x y, Decodes src st.dst.varsIndex st.conv x y → k'.linear.val y - k'.rhs = k.linear.val x - k.rhs

/-- As `LinMatch'`, for quadratic constraints. -/
structure QuadMatch' (src : QP) (st : I2B) (k k' : QuadCst) : Prop where
  name : k.name ≠ "" → k'.name = k.name
  sense : k'.sense = k.sense
  err : ∀ x y, Decodes src st.dst.varsIndex st.conv x y →
    k'.linear.val y + k'.quadratic.val y - k'.rhs =
      k.linear.val x + k.quadratic.val x - k.rhs - quadErr src st.conv k.quadratic (nameVal st.dst.varsIndex y)

theorem QuadMatch'.val {src : QP} {st : I2B} {k k' : QuadCst} (h : QuadMatch' src st k k') (hp : PairsOK src st.conv k.quadratic)
    (x y : Nat → ℚ) (hxy : Decodes src st.dst.varsIndex st.conv x y) :
    k'.linear.val y + k'.quadratic.val y - k'.rhs = k.linear.val x + k.quadratic.val x - k.rhs := by
  rw [h.err x y hxy, hp.err, sub_zero]

/-- All facts about a successful conversion. -/
structure I2BFacts (src : QP) (st : I2B) : Prop where
  src_eq : st.src = src
  wf : st.dst.WF
  enc : ∀ v ∈ src.vars, v.vartype = .integer →
    ∃ e, Assoc.get? st.conv v.name = some e ∧ convertVar v.name v.lb v.ub = .ok e
  plain : ∀ v ∈ src.vars, v.vartype ≠ .integer → Assoc.get? st.conv v.name = none
  names : st.dst.vars.map Variable.name = (src.vars.map Variable.name).flatMap (outs st.conv)
  vars : st.dst.vars = src.vars.flatMap (newVars st.conv) ∨
    (st.dst = src ∧ st.conv = [] ∧ ∀ v ∈ src.vars, v.vartype ≠ .integer)
  sense : st.dst.objective.sense = src.objective.sense
  shape : src.ShapeOK → st.dst.ShapeOK
  objErr : ∀ x y, Decodes src st.dst.varsIndex st.conv x y →
    st.dst.objective.val y = src.objective.val x - quadErr src st.conv src.objective.quadratic (nameVal st.dst.varsIndex y)
  sat : (∀ c ∈ src.quads, PairsOK src st.conv c.quadratic) → ∀ x y, Decodes src st.dst.varsIndex st.conv x y →
    (st.dst.Sat y ↔ src.Sat x)
  lins : List.Forall₂ (LinMatch' src st) src.lins st.dst.lins
  noQuads : src.quads = [] → st.dst.quads = []
  name : st.dst.name = src.name
  quads : List.Forall₂ (QuadMatch' src st) src.quads st.dst.quads

theorem I2BFacts.obj {src : QP} {st : I2B} (h : I2BFacts src st) (hp : PairsOK src st.conv src.objective.quadratic)
    (x y : Nat → ℚ) (hxy : Decodes src st.dst.varsIndex st.conv x y) :
    st.dst.objective.val y = src.objective.val x := by
  rw [h.objErr x y hxy, hp.err, sub_zero]

/-- Without encoded variables nothing is missed. -/
theorem quadErr_nil (src : QP) (q : QuadExpr) (Y : String → ℚ) : quadErr src [] q Y = 0 :=
  PairsOK.err (fun _ _ ex ey hx _ => by simp [Assoc.get?] at hx) Y

theorem intToBin_facts {src : QP} (hs : src.WF) {st : I2B} (h : src.intToBin = .ok st) : I2BFacts src st := by
  unfold QP.intToBin at h
  split at h
  · split at h
    · simp at h
    · rename_i conv d0 h0
      obtain ⟨g1, g2, g3, g4⟩ := i2bVars_ok h0 hs.cons.vars.2 (fun v _ => rfl)
      have hwf0 := g1.wf (QP.empty_wf src.name)
      have he0 : Encodes src d0 conv := ⟨hwf0.cons, by simpa [QP.empty] using g1.vars, g3, g4⟩
      obtain ⟨o, o1, o2, o3, o4, o5, o6, o7⟩ := i2bObjective_ok hs he0
      rw [o1] at h
      simp only at h
      have hwf1 : ({ d0 with objective := o } : QP).WF :=
        ⟨⟨hwf0.cons.vars, hwf0.cons.lins, hwf0.cons.quads⟩, o5, o6, hwf0.lins, hwf0.quads⟩
      have he1 : Encodes src { d0 with objective := o } conv := he0.congr hwf1.cons rfl
      split at h
      · simp at h
      · rename_i d2 h2
        obtain ⟨l1, l2, l3, l4, l5, l6, l7, l8, newl, l9, l10⟩ := i2bLins_ok hs src.lins hs.lins hwf1 he1 h2
        have he2 : Encodes src d2 conv := he1.congr l8.cons l1
        split at h
        · simp at h
        · rename_i d3 h3
          obtain ⟨q1, q2, q3, q4, q5, q6, q7, q8, newq, q9, q10⟩ :=
            i2bQuads_ok hs src.quads hs.quads l8 he2 h3
          simp only [Except.ok.injEq] at h
          subst h
          have he3 : Encodes src d3 conv := he2.congr q8.cons q1
          have hl0 : d0.lins = [] := by rw [g1.lins]; rfl
          have hq0 : d0.quads = [] := by rw [g1.quads]; rfl
          have hvi : d3.varsIndex = d0.varsIndex := by rw [q2, l2]
          have hob : d3.objective = o := by rw [q3, l3]
          have hnv : d3.numVars = d0.numVars := by simp only [QP.numVars, q1, l1]
          have hnv2 : d2.numVars = d0.numVars := by simp only [QP.numVars, l1]
          have hlins : d3.lins = newl := by rw [q4, l9]; show d0.lins ++ newl = newl; rw [hl0]; rfl
          have hquads : d3.quads = newq := by
            rw [q9, l4]; show d0.quads ++ newq = newq; rw [hq0]; rfl
          refine ⟨rfl, q8, g3, g4, he3.names, Or.inl he3.vars, by rw [hob, o2], ?_, ?_, ?_, ?_, ?_, ?_, ?_⟩
          · intro _
            refine ⟨?_, ?_, ?_⟩
            · intro c hc
              simp only [QP.allCsts, List.mem_append, List.mem_map] at hc
              rw [hlins, hquads] at hc
              rcases hc with ⟨c, hc, rfl⟩ | ⟨c, hc, rfl⟩
              · obtain ⟨k, _, hk⟩ := forall₂_right l10 hc
                show c.linear.n = _
                rw [hk.shape, hnv]; rfl
              · obtain ⟨k, _, hk⟩ := forall₂_right q10 hc
                show c.linear.n = _ ∧ c.quadratic.n = _
                rw [hk.shape.1, hk.shape.2, hnv, hnv2]; exact ⟨rfl, rfl⟩
            · show d3.objective.linear.n = d3.numVars
              rw [hob, o3, hnv]
            · show d3.objective.quadratic.n = d3.numVars
              rw [hob, o4, hnv]
          · intro x y hxy
            show d3.objective.val y = _ - quadErr src conv _ (nameVal d3.varsIndex y)
            rw [hob, hvi]
            apply o7
            rw [← hvi]; exact hxy
          · intro hp x y hxy
            simp only at hxy
            rw [sat_iff, sat_iff]
            show ((∀ c ∈ d3.lins, c.Holds y) ∧ ∀ c ∈ d3.quads, c.Holds y) ↔ _
            rw [hlins, hquads]
            have hxy0 : Decodes src d0.varsIndex conv x y := by rw [← hvi]; exact hxy
            have hxy2 : Decodes src d2.varsIndex conv x y := by rw [← q2]; exact hxy
            rw [← forall₂_iff (P := fun c : LinCst => c.Holds x) (Q := fun c : LinCst => c.Holds y) l10,
              ← forall₂_iff (P := fun c : QuadCst => c.Holds x) (Q := fun c : QuadCst => c.Holds y) q10]
            · intro k hk k' hm
              rw [QuadCst.Holds, QuadCst.Holds, hm.sense]
              have := hm.val x y hxy2
              rw [(hp k hk).err, sub_zero] at this
              exact rel_of_sub_eq this.symm
            · intro k _ k' hm
              rw [LinCst.Holds, LinCst.Holds, hm.sense]
              exact rel_of_sub_eq (hm.val x y hxy0).symm
          · show List.Forall₂ _ src.lins d3.lins
            rw [hlins]
            refine l10.imp ?_
            intro k k' hm
            refine ⟨hm.name, hm.sense, ?_, ?_⟩
            · show k'.linear.Fits d3.numVars
              rw [hnv]; exact hm.fits
            · intro x y hxy
              exact hm.val x y (by show Decodes src d0.varsIndex conv x y; rw [← hvi]; exact hxy)
          · intro hq
            show d3.quads = []
            rw [hq] at q10
            rw [hquads]
            cases q10; rfl
          · show d3.name = _
            rw [q6, l6]; exact g1.name
          · show List.Forall₂ _ src.quads d3.quads
            rw [hquads]
            refine q10.imp ?_
            intro k k' hm
            refine ⟨hm.name, hm.sense, ?_⟩
            intro x y hxy
            show _ = _ - quadErr src conv _ (nameVal d3.varsIndex y)
            rw [q2]
            exact hm.val x y (by show Decodes src d2.varsIndex conv x y; rw [← q2]; exact hxy)
  · rename_i hno
    simp only [Except.ok.injEq] at h
    subst h
    have hni : ∀ v ∈ src.vars, v.vartype ≠ .integer := by
      intro v hv ht
      apply hno
      unfold QP.numIntegerVars
      exact List.length_pos_of_mem (List.mem_filter.mpr ⟨hv, by simp [ht]⟩)
    have hdec : ∀ x y : Nat → ℚ, Decodes src src.varsIndex [] x y → ∀ i < src.numVars, x i = y i := by
      intro x y hxy i hi
      obtain ⟨v, hv⟩ := lt_numVars hi
      rw [hxy i v hv]
      show nameVal src.varsIndex y v.name = _
      exact nameVal_at hs.cons hv y
    refine ⟨rfl, hs, fun v hv ht => absurd ht (hni v hv), fun v _ _ => rfl, ?_, Or.inr ⟨rfl, rfl, hni⟩, rfl, id, ?_, ?_, ?_, fun hq => hq, rfl, ?_⟩
    · have : outs ([] : Conv) = fun s => [s] := rfl
      simp only [this]
      induction src.vars.map Variable.name with
      | nil => rfl
      | cons a l ih => rw [List.flatMap_cons, ← ih]; rfl
    · intro x y hxy
      show _ = _ - quadErr src [] _ _
      rw [quadErr_nil, sub_zero]
      exact (Objective.val_congr hs (hdec x y hxy)).symm
    · intro _ x y hxy
      exact (QP.sat_congr hs (hdec x y hxy)).symm
    · rw [List.forall₂_same]
      intro k hk
      refine ⟨fun _ => rfl, rfl, hs.lins k hk, fun x y hxy => ?_⟩
      rw [LinExpr.val_congr (hs.lins k hk) (hdec x y hxy)]
    · rw [List.forall₂_same]
      intro k hk
      refine ⟨fun _ => rfl, rfl, fun x y hxy => ?_⟩
      show _ = _ - quadErr src [] _ _
      rw [quadErr_nil, sub_zero, LinExpr.val_congr (hs.quads k hk).1 (hdec x y hxy), QuadExpr.val_congr (hs.quads k hk).2 (hdec x y hxy)]

theorem I2BFacts.outsOK {src : QP} {st : I2B} (h : I2BFacts src st) (hs : src.Consistent) :
    OutsOK src st.conv := by
  apply outsOK_of_nodup hs
  rw [← h.names]
  exact h.wf.cons.vars.2

/-! ## Interpretation -/

theorem solDict_lookup {d : QP} (hd : d.Consistent) {y : List ℚ} {sol : Assoc String ℚ}
    (h : solDict d.vars y = .ok sol) {s : String} (hs : s ∈ d.vars.map Variable.name) :
    lookupSol sol s = .ok (nameVal d.varsIndex (pt y) s) := by
  unfold solDict at h
  split at h
  · simp at h
  · simp only [Except.ok.injEq] at h
    obtain ⟨v, hv, rfl⟩ := List.mem_map.mp hs
    obtain ⟨i, hi⟩ := List.mem_iff_getElem?.mp hv
    have hkeys : Assoc.keys (d.vars.zipIdx.map fun p => (p.1.name, pt y p.2)) = d.vars.map Variable.name := by
      simp only [Assoc.keys, List.map_map]
      have : d.vars.map Variable.name = (d.vars.zipIdx.map Prod.fst).map Variable.name := by
        rw [List.zipIdx_map_fst]
      rw [this, List.map_map]; rfl
    have hsol : sol = d.vars.zipIdx.map fun p => (p.1.name, pt y p.2) := by
      have hf := setAll_fresh (κ := String) [] (d.vars.zipIdx.map fun p => (p.1.name, pt y p.2)) (by
        rw [hkeys]; simpa [Assoc.keys] using hd.vars.2)
      rw [← h]
      simpa [setAll, List.foldl_map] using hf
    have hmem : (v.name, pt y i) ∈ sol := by
      rw [hsol]
      exact List.mem_map.mpr ⟨(v, i), by simpa [List.mem_zipIdx_iff_getElem?] using hi, rfl⟩
    have hg : Assoc.get? sol v.name = some (pt y i) :=
      Assoc.get?_of_mem (by rw [hsol, hkeys]; exact hd.vars.2) hmem
    rw [lookupSol, hg, nameVal_at hd hi]

theorem decodeSum_ok {d : QP} (hd : d.Consistent) {y : List ℚ} {sol : Assoc String ℚ}
    (h : solDict d.vars y = .ok sol) (enc : List (String × ℚ))
    (hs : ∀ p ∈ enc, p.1 ∈ d.vars.map Variable.name) :
    decodeSum sol enc = .ok (enc.map fun p => nameVal d.varsIndex (pt y) p.1 * p.2).sum := by
  induction enc with
  | nil => rfl
  | cons p enc ih =>
    rw [List.forall_mem_cons] at hs
    simp only [decodeSum, solDict_lookup hd h hs.1, ih hs.2, List.map_cons, List.sum_cons]

theorem interpretVars_ok {src d : QP} {conv : Conv} (hsrc : src.Consistent) (hd : d.Consistent) {y : List ℚ}
    {sol : Assoc String ℚ} (h : solDict d.vars y = .ok sol) (l : List Variable) (hl : ∀ v ∈ l, v ∈ src.vars)
    (hm : ∀ v ∈ l, ∀ a ∈ outs conv v.name, a ∈ d.vars.map Variable.name) :
    i2bInterpretVars conv sol l = .ok (l.map fun v => encVal src conv (nameVal d.varsIndex (pt y)) v.name) := by
  induction l with
  | nil => rfl
  | cons v l ih =>
    rw [List.forall_mem_cons] at hm hl
    unfold i2bInterpretVars
    rw [ih hl.2 hm.2]
    have hv := hm.1
    unfold outs at hv
    rw [List.map_cons]
    cases hg : Assoc.get? conv v.name with
    | some enc =>
      rw [hg] at hv
      simp only
      rw [decodeSum_ok hd h enc (fun p hp => hv p.1 (List.mem_map_of_mem hp))]
      simp only [encVal, hg, lbAt_var hsrc hl.1]
    | none =>
      rw [hg] at hv
      simp only
      rw [solDict_lookup hd h (hv v.name (by simp))]
      simp only [encVal, hg]

theorem interpret_iff {src : QP} (hs : src.WF) {st : I2B} (h : I2BFacts src st) (y x : List ℚ) :
    st.interpret y = .ok x ↔ st.dst.numVars ≤ y.length ∧
      x = src.vars.map fun v => encVal src st.conv (nameVal st.dst.varsIndex (pt y)) v.name := by
  unfold I2B.interpret
  by_cases hlen : y.length < st.dst.vars.length
  · have : ¬ st.dst.numVars ≤ y.length := by simp only [QP.numVars]; omega
    simp [solDict, hlen, this]
  · have hle : st.dst.numVars ≤ y.length := by simp only [QP.numVars]; omega
    have hok : ∃ sol, solDict st.dst.vars y = .ok sol := by simp [solDict, hlen]
    obtain ⟨sol, hsol⟩ := hok
    simp only [hsol]
    rw [h.src_eq, interpretVars_ok hs.cons h.wf.cons hsol src.vars (fun _ hv => hv)]
    · simp only [Except.ok.injEq, hle, true_and]
      exact eq_comm
    · intro v hv a ha
      rw [h.names]
      exact List.mem_flatMap.mpr ⟨v.name, List.mem_map_of_mem hv, ha⟩

theorem interpret_decodes {src : QP} (hs : src.WF) {st : I2B} (h : I2BFacts src st) {y x : List ℚ}
    (hi : st.interpret y = .ok x) :
    x.length = src.numVars ∧ Decodes src st.dst.varsIndex st.conv (pt x) (pt y) := by
  obtain ⟨_, rfl⟩ := (interpret_iff hs h y x).mp hi
  refine ⟨by simp [QP.numVars], ?_⟩
  intro i v hv
  simp [pt, hv]

/-! ## Bounds and integrality -/

theorem binary_val {z : ℚ} (h0 : 0 ≤ z) (h1 : z ≤ 1) (hz : ∃ k : Int, z = k) : z = 0 ∨ z = 1 := by
  obtain ⟨k, rfl⟩ := hz
  have a : (0 : Int) ≤ k := by exact_mod_cast h0
  have b : k ≤ 1 := by exact_mod_cast h1
  have : k = 0 ∨ k = 1 := by omega
  rcases this with rfl | rfl <;> simp

/-- Admissible values of a variable: within bounds, and integral unless continuous. -/
def Variable.Admits (v : Variable) (z : ℚ) : Prop :=
  (v.lb ≤ z ∧ z ≤ v.ub) ∧ (v.vartype ≠ .continuous → ∃ k : Int, z = k)

theorem admits_iff (p : QP) (x : Nat → ℚ) :
    (p.InBounds x ∧ p.Integral x) ↔ ∀ (i : Nat) (v : Variable), p.vars[i]? = some v → v.Admits (x i) := by
  constructor
  · rintro ⟨h1, h2⟩ i v hv; exact ⟨h1 i v hv, h2 i v hv⟩
  · intro h; exact ⟨fun i v hv => (h i v hv).1, fun i v hv => (h i v hv).2⟩

theorem admits_names {p : QP} (hp : p.Consistent) (x : Nat → ℚ) :
    (p.InBounds x ∧ p.Integral x) ↔ ∀ v ∈ p.vars, v.Admits (nameVal p.varsIndex x v.name) := by
  rw [admits_iff]
  constructor
  · intro h v hv
    obtain ⟨i, hi⟩ := List.mem_iff_getElem?.mp hv
    rw [nameVal_at hp hi]; exact h i v hi
  · intro h i v hv
    rw [← nameVal_at hp hv x]; exact h v (List.mem_of_getElem? hv)

theorem admits_bin (s : String) (z : ℚ) : (binVar s).Admits z ↔ z = 0 ∨ z = 1 := by
  simp only [Variable.Admits, binVar]
  constructor
  · rintro ⟨⟨h0, h1⟩, h2⟩; exact binary_val h0 h1 (h2 (by simp))
  · rintro (rfl | rfl)
    · exact ⟨⟨by norm_num, by norm_num⟩, fun _ => ⟨0, by simp⟩⟩
    · exact ⟨⟨by norm_num, by norm_num⟩, fun _ => ⟨1, by simp⟩⟩

theorem admits_plain {v : Variable} (h : v.vartype = .binary → v.lb = 0 ∧ v.ub = 1) (z : ℚ) :
    (plainVar v).Admits z ↔ v.Admits z := by
  unfold plainVar
  split
  · rename_i ht
    obtain ⟨h0, h1⟩ := h ht
    simp only [Variable.Admits, binVar, h0, h1, ht]
  · exact Iff.rfl

/-- The variables of the result, in either case of the conversion, when binary bounds are `0` and `1`. -/
theorem I2BFacts.mem_vars {src : QP} {st : I2B} (h : I2BFacts src st) (P : Variable → Prop)
    (hP : ∀ v ∈ src.vars, v.vartype ≠ .integer → (P (plainVar v) ↔ P v)) :
    (∀ w ∈ st.dst.vars, P w) ↔ ∀ v ∈ src.vars, ∀ w ∈ newVars st.conv v, P w := by
  rcases h.vars with hv | ⟨hd, hc, hn⟩
  · rw [hv]
    constructor
    · intro hh v hv' w hw; exact hh w (List.mem_flatMap.mpr ⟨v, hv', hw⟩)
    · intro hh w hw
      obtain ⟨v, hv', hw⟩ := List.mem_flatMap.mp hw
      exact hh v hv' w hw
  · rw [hd, hc]
    have : ∀ v, newVars [] v = [plainVar v] := fun v => rfl
    simp only [this, List.mem_singleton, forall_eq]
    constructor
    · intro hh v hv; exact (hP v hv (hn v hv)).mpr (hh v hv)
    · intro hh v hv; exact (hP v hv (hn v hv)).mp (hh v hv)

/-- A point within bounds decodes to a point within bounds. -/
theorem decode_admits {src : QP} (hs : src.WF) {st : I2B} (h : I2BFacts src st) (hi : src.IntBoundsOK)
    (hb : src.BinBoundsOK) {x y : Nat → ℚ} (hxy : Decodes src st.dst.varsIndex st.conv x y)
    (hy : st.dst.InBounds y ∧ st.dst.Integral y) : src.InBounds x ∧ src.Integral x := by
  rw [admits_names h.wf.cons] at hy
  rw [h.mem_vars (fun w => w.Admits (nameVal st.dst.varsIndex y w.name)) (by
    intro v hv ht
    have : (plainVar v).name = v.name := by unfold plainVar; split <;> rfl
    rw [this]
    exact admits_plain (hb v hv) _)] at hy
  rw [admits_iff]
  intro i v hv
  have hm := List.mem_of_getElem? hv
  rw [hxy i v hv]
  have hyv := hy v hm
  by_cases ht : v.vartype = .integer
  · obtain ⟨e, he, hce⟩ := h.enc v hm ht
    obtain ⟨b1, b2, b3⟩ := hi v hm ht
    have hok := convertVar_encOK b1 b2 b3 hce
    have hbits : ∀ p ∈ e, nameVal st.dst.varsIndex y p.1 = 0 ∨ nameVal st.dst.varsIndex y p.1 = 1 := by
      intro p hp
      have := hyv (binVar p.1) (by simp only [newVars, he]; exact List.mem_map_of_mem hp)
      exact (admits_bin p.1 _).mp this
    obtain ⟨r1, r2, r3⟩ := hok.range _ hbits
    have : encVal src st.conv (nameVal st.dst.varsIndex y) v.name =
        (e.map fun p => nameVal st.dst.varsIndex y p.1 * p.2).sum + v.lb := by
      simp only [encVal, he, lbAt_var hs.cons hm]
    rw [this]
    exact ⟨⟨r2, r3⟩, fun _ => r1⟩
  · have hp := h.plain v hm ht
    have : encVal src st.conv (nameVal st.dst.varsIndex y) v.name = nameVal st.dst.varsIndex y v.name := by
      simp only [encVal, hp]
    rw [this]
    have h2 := hyv (plainVar v) (by simp [newVars, hp])
    have hn : (plainVar v).name = v.name := by unfold plainVar; split <;> rfl
    rw [hn] at h2
    exact (admits_plain (hb v hm) _).mp h2

/-- Every point within bounds is decoded from one within bounds. -/
theorem encode_exists {src : QP} (hs : src.WF) {st : I2B} (h : I2BFacts src st) (hi : src.IntBoundsOK)
    (hb : src.BinBoundsOK) {x : Nat → ℚ} (hx : src.InBounds x ∧ src.Integral x) :
    ∃ y, Decodes src st.dst.varsIndex st.conv x y ∧ st.dst.InBounds y ∧ st.dst.Integral y := by
  classical
  have ho := h.outsOK hs.cons
  rw [admits_names hs.cons] at hx
  -- values for each variable separately
  have each : ∀ v ∈ src.vars, ∃ Y : String → ℚ,
      encVal src st.conv Y v.name = nameVal src.varsIndex x v.name ∧
        ∀ w ∈ newVars st.conv v, w.Admits (Y w.name) := by
    intro v hv
    by_cases ht : v.vartype = .integer
    · obtain ⟨e, he, hce⟩ := h.enc v hv ht
      obtain ⟨b1, b2, b3⟩ := hi v hv ht
      have hok := convertVar_encOK b1 b2 b3 hce
      obtain ⟨⟨a1, a2⟩, a3⟩ := hx v hv
      obtain ⟨z, hz⟩ := a3 (by simp [ht])
      rw [hz] at a1 a2
      obtain ⟨Y, hY, hsum⟩ := hok.surj z a1 a2
      refine ⟨Y, ?_, ?_⟩
      · simp only [encVal, he, lbAt_var hs.cons hv, hsum, hz]
      · intro w hw
        simp only [newVars, he] at hw
        obtain ⟨p, _, rfl⟩ := List.mem_map.mp hw
        exact (admits_bin p.1 _).mpr (hY _)
    · have hp := h.plain v hv ht
      refine ⟨fun _ => nameVal src.varsIndex x v.name, by simp only [encVal, hp], ?_⟩
      intro w hw
      simp only [newVars, hp, List.mem_singleton] at hw
      subst hw
      exact (admits_plain (hb v hv) _).mpr (hx v hv)
  choose Yv hYv1 hYv2 using each
  -- one assignment for all names
  let Y : String → ℚ := fun a =>
    if ha : ∃ v, ∃ hv : v ∈ src.vars, a ∈ outs st.conv v.name then Yv ha.choose ha.choose_spec.choose a else 0
  have hY : ∀ v (hv : v ∈ src.vars), ∀ a ∈ outs st.conv v.name, Y a = Yv v hv a := by
    intro v hv a ha
    have hex : ∃ v, ∃ hv : v ∈ src.vars, a ∈ outs st.conv v.name := ⟨v, hv, ha⟩
    have hvv : hex.choose = v := by
      have hm := hex.choose_spec.choose
      have hn := ho.inj _ (List.mem_map_of_mem hm) _ (List.mem_map_of_mem hv) a hex.choose_spec.choose_spec ha
      exact unique_name hs.cons hm hv hn
    show (if ha : _ then _ else _) = _
    rw [dif_pos hex]
    have gen : ∀ w (hw : w ∈ src.vars), w = v → Yv w hw a = Yv v hv a := by
      rintro w hw rfl; rfl
    exact gen _ _ hvv
  let y : Nat → ℚ := fun i => Y (varName st.dst.vars i)
  have hy : ∀ a ∈ st.dst.vars.map Variable.name, nameVal st.dst.varsIndex y a = Y a := by
    intro a ha
    obtain ⟨w, hw, rfl⟩ := List.mem_map.mp ha
    obtain ⟨i, hi⟩ := List.mem_iff_getElem?.mp hw
    rw [nameVal_at h.wf.cons hi]
    show Y (varName st.dst.vars i) = _
    simp [varName, hi]
  have hmem : ∀ v ∈ src.vars, ∀ a ∈ outs st.conv v.name, a ∈ st.dst.vars.map Variable.name := by
    intro v hv a ha
    rw [h.names]
    exact List.mem_flatMap.mpr ⟨v.name, List.mem_map_of_mem hv, ha⟩
  refine ⟨y, ?_, ?_⟩
  · intro i v hv
    have hm := List.mem_of_getElem? hv
    rw [← nameVal_at hs.cons hv x, ← hYv1 v hm]
    have hcongr : ∀ a ∈ outs st.conv v.name, nameVal st.dst.varsIndex y a = Yv v hm a := by
      intro a ha
      rw [hy a (hmem v hm a ha), hY v hm a ha]
    unfold encVal
    unfold outs at hcongr
    cases hg : Assoc.get? st.conv v.name with
    | some enc =>
      rw [hg] at hcongr
      simp only
      congr 2
      apply List.map_congr_left
      intro p hp
      rw [hcongr p.1 (List.mem_map_of_mem hp)]
    | none =>
      rw [hg] at hcongr
      simp only
      exact (hcongr v.name (by simp)).symm
  · rw [admits_names h.wf.cons]
    rw [h.mem_vars (fun w => w.Admits (nameVal st.dst.varsIndex y w.name)) (by
      intro v hv ht
      have : (plainVar v).name = v.name := by unfold plainVar; split <;> rfl
      rw [this]
      exact admits_plain (hb v hv) _)]
    intro v hv w hw
    have ha : w.name ∈ outs st.conv v.name := by
      rw [← newVars_names]; exact List.mem_map_of_mem hw
    rw [hy _ (hmem v hv _ ha), hY v hv _ ha]
    exact hYv2 v hv w hw

end Verif
