import Verif.Qubo
import Verif.PropsPenalty
import Verif.IntToBinSuccess

/-!
# Helper lemmas: the QUBO conversion as a composition of three stages
-/

namespace Verif

theorem string_length_pos {s : String} : s.length > 0 ↔ s ≠ "" := by
  constructor
  · rintro h rfl; simp at h
  · intro h
    rcases Nat.eq_zero_or_pos s.length with h0 | h0
    · exact absurd (by simpa using h0) h
    · exact h0

/-- The message is empty exactly for programs without continuous variables and quadratic constraints, with integer
coefficients of the linear constraints. -/
theorem quboMsg_empty (p : QP) : ¬ (quboMsg p).length > 0 ↔
    (∀ v ∈ p.vars, v.vartype ≠ .continuous) ∧ p.quads = [] ∧
      ∀ c ∈ p.lins, ∀ q ∈ c.linear.coeffs, ∃ z : Int, q.2 = z := by
  have hl : (p.lins.all fun c => !anyFloat c.linear.coeffs.values) = true ↔
      ∀ c ∈ p.lins, ∀ q ∈ c.linear.coeffs, ∃ z : Int, q.2 = z := by
    rw [List.all_eq_true]
    refine forall₂_congr fun c _ => ?_
    rw [Bool.not_eq_true', anyFloat_false]
    simp only [Dict.values, List.mem_map, forall_exists_index, and_imp, forall_apply_eq_imp_iff₂]
  have hv : ¬ (p.vars.filter fun v => v.vartype == .continuous).length > 0 ↔ ∀ v ∈ p.vars, v.vartype ≠ .continuous := by
    simp [List.filter_eq_nil_iff]
  have hq : ¬ p.quads.length > 0 ↔ p.quads = [] := by simp
  rw [← hv, ← hq, ← hl]
  unfold quboMsg
  by_cases h1 : (p.vars.filter fun v => v.vartype == .continuous).length > 0
  · simp only [h1, if_true, not_true_eq_false, false_and, iff_false, not_not]
    rw [string_length_pos]
    split <;> split <;> (intro h; have := congrArg String.length h; simp [String.length_append] at this)
  · simp only [h1, if_false, not_false_eq_true, true_and]
    by_cases h2 : p.quads.length > 0
    · simp only [h2, if_true, not_true_eq_false, false_and, iff_false, not_not]
      rw [string_length_pos]
      split <;> (intro h; have := congrArg String.length h; simp [String.length_append] at this)
    · have h3 : p.quads = [] := hq.mp h2
      simp only [h3, List.length_nil, gt_iff_lt, lt_irrefl, if_false, List.all_nil, Bool.and_true, not_false_eq_true,
        true_and]
      cases hb : p.lins.all fun c => !anyFloat c.linear.coeffs.values with
      | true => simp
      | false =>
        simp only [Bool.not_false, if_true, Bool.false_eq_true, iff_false, not_not]
        decide +kernel

theorem toQubo_stages {penalty : Option ℚ} {src : QP} {st : QuboState} (h : src.toQubo penalty = .ok st) :
    ((∀ v ∈ src.vars, v.vartype ≠ .continuous) ∧ src.quads = [] ∧
      ∀ c ∈ src.lins, ∀ q ∈ c.linear.coeffs, ∃ z : Int, q.2 = z) ∧ st.src = src ∧
    src.ineqToEq .integer = .ok st.eqs ∧ st.eqs.intToBin = .ok st.i2b ∧
    st.i2b.dst.toPenalty penalty = .ok (st.dst, st.pen) := by
  unfold QP.toQubo at h
  split at h
  · simp at h
  · rename_i hm
    split at h
    · simp at h
    · rename_i eqs h1
      split at h
      · simp at h
      · rename_i i2b h2
        split at h
        · simp at h
        · rename_i dst pen h3
          simp only [Except.ok.injEq] at h
          subst h
          exact ⟨(quboMsg_empty src).mp hm, rfl, h1, h2, h3⟩

theorem convertVar_lt {name : String} {lb ub : ℚ} {e : List (String × ℚ)} (h : convertVar name lb ub = .ok e) :
    lb < ub := by
  unfold convertVar encodeCoeffs at h
  by_contra hn
  have : ub - lb ≤ 0 := by linarith
  simp [this] at h

theorem forall2_mem_right {α β : Type} {R : α → β → Prop} {l : List α} {m : List β} (h : List.Forall₂ R l m) :
    ∀ b ∈ m, ∃ a ∈ l, R a b := by
  induction h with
  | nil => simp
  | cons hr _ ih =>
    intro b hb
    rcases List.mem_cons.mp hb with rfl | hb
    · exact ⟨_, List.mem_cons_self, hr⟩
    · obtain ⟨a, ha, hr'⟩ := ih b hb
      exact ⟨a, List.mem_cons_of_mem _ ha, hr'⟩

theorem forall2_mem_left {α β : Type} {R : α → β → Prop} {l : List α} {m : List β} (h : List.Forall₂ R l m) :
    ∀ a ∈ l, ∃ b ∈ m, R a b := by
  induction h with
  | nil => simp
  | cons hr _ ih =>
    intro b hb
    rcases List.mem_cons.mp hb with rfl | hb
    · exact ⟨_, List.mem_cons_self, hr⟩
    · obtain ⟨a, ha, hr'⟩ := ih b hb
      exact ⟨a, List.mem_cons_of_mem _ ha, hr'⟩

/-- A coefficient as the value at a unit vector. -/
theorem dict_unit {d : Dict Nat} (hn : (Assoc.keys d).Nodup) {q : Nat × ℚ} (hq : q ∈ d) :
    Dict.sum d (fun k => if k = q.1 then 1 else 0) = q.2 := by
  induction d with
  | nil => simp at hq
  | cons p d ih =>
    simp only [Assoc.keys, List.map_cons, List.nodup_cons] at hn
    rw [Dict.sum_cons]
    rcases List.mem_cons.mp hq with rfl | hq
    · have : Dict.sum d (fun k => if k = q.1 then 1 else 0) = Dict.sum d (fun _ => 0) := by
        unfold Dict.sum
        congr 1
        apply List.map_congr_left
        intro r hr
        have : r.1 ≠ q.1 := fun he => hn.1 (he ▸ List.mem_map_of_mem hr)
        simp [this]
      rw [this]
      simp [Dict.sum]
    · have : p.1 ≠ q.1 := fun he => hn.1 (he ▸ List.mem_map_of_mem hq)
      rw [ih hn.2 hq]
      simp [this]

theorem sum_map_int {α : Type} (l : List α) (f : α → ℚ) (h : ∀ a ∈ l, ∃ z : Int, f a = z) : ∃ z : Int, (l.map f).sum = z := by
  induction l with
  | nil => exact ⟨0, by simp⟩
  | cons a l ih =>
    rw [List.forall_mem_cons] at h
    obtain ⟨z, hz⟩ := h.1
    obtain ⟨w, hw⟩ := ih h.2
    exact ⟨z + w, by simp [hz, hw]⟩

/-- Integer data of the linear constraints survives the encoding of integer variables. -/
theorem i2b_ints {src : QP} (hs : src.WF) {st : I2B} (hf : I2BFacts src st) (hi : src.IntBoundsOK)
    (hl : ∀ c ∈ src.lins, (∃ z : Int, c.rhs = z) ∧ ∀ q ∈ c.linear.coeffs, ∃ z : Int, q.2 = z) :
    ∀ c ∈ st.dst.lins, (∃ z : Int, c.rhs = z) ∧ ∀ q ∈ c.linear.coeffs, ∃ z : Int, q.2 = z := by
  intro c' hc'
  obtain ⟨c, hc, hm⟩ := forall2_mem_right hf.lins c' hc'
  obtain ⟨hr, hco⟩ := hl c hc
  -- the difference is integral at integral points
  have key : ∀ y : Nat → ℚ, (∀ i, ∃ z : Int, y i = z) → ∃ z : Int, c'.linear.val y - c'.rhs = z := by
    intro y hy
    let x : Nat → ℚ := fun i => match src.vars[i]? with
      | some v => encVal src st.conv (nameVal st.dst.varsIndex y) v.name
      | none => 0
    have hx : Decodes src st.dst.varsIndex st.conv x y := by
      intro i v hv
      simp only [x, hv]
    rw [hm.val x y hx]
    have hname : ∀ s, ∃ z : Int, nameVal st.dst.varsIndex y s = z := by
      intro s
      exact hy _
    have hxi : ∀ i, ∃ z : Int, x i = z := by
      intro i
      simp only [x]
      split
      · rename_i v hv
        have hmv := List.mem_of_getElem? hv
        by_cases ht : v.vartype = .integer
        · obtain ⟨e, he, hce⟩ := hf.enc v hmv ht
          obtain ⟨⟨lb, hlb⟩, b2, b3⟩ := hi v hmv ht
          have hok := convertVar_encOK ⟨lb, hlb⟩ b2 b3 hce
          simp only [encVal, he, lbAt_var hs.cons hmv]
          obtain ⟨z, hz⟩ := sum_map_int e (fun p => nameVal st.dst.varsIndex y p.1 * p.2) (by
            intro p hp
            obtain ⟨a, ha⟩ := hname p.1
            obtain ⟨b, hb⟩ := hok.int p hp
            exact ⟨a * b, by rw [ha, hb]; push_cast; rfl⟩)
          exact ⟨z + lb, by rw [hz, hlb]; push_cast; rfl⟩
        · simp only [encVal, hf.plain v hmv ht]
          exact hname _
      · exact ⟨0, by simp⟩
    obtain ⟨a, ha⟩ := Dict.sum_int c.linear.coeffs x (fun q hq => ⟨hco q hq, hxi q.1⟩)
    obtain ⟨b, hb⟩ := hr
    exact ⟨a - b, by simp only [LinExpr.val, ha, hb]; push_cast; rfl⟩
  have h0 : ∃ z : Int, c'.rhs = z := by
    obtain ⟨z, hz⟩ := key (fun _ => 0) (fun _ => ⟨0, by simp⟩)
    have : c'.linear.val (fun _ => 0) = 0 := by simp [LinExpr.val, Dict.sum]
    rw [this] at hz
    exact ⟨-z, by push_cast; linarith⟩
  refine ⟨h0, fun q hq => ?_⟩
  obtain ⟨z, hz⟩ := key (fun k => if k = q.1 then 1 else 0) (fun k => by
    by_cases h : k = q.1
    · exact ⟨1, by simp [h]⟩
    · exact ⟨0, by simp [h]⟩)
  obtain ⟨r, hr'⟩ := h0
  have := dict_unit hm.fits.1.nodup hq
  simp only [LinExpr.val] at hz
  rw [this, hr'] at hz
  exact ⟨z + r, by push_cast; linarith⟩

/-- All variables of the result are binary with bounds zero and one. -/
theorem i2b_binary {src : QP} {st : I2B} (hf : I2BFacts src st) (hb : src.BinBoundsOK)
    (hc : ∀ v ∈ src.vars, v.vartype ≠ .continuous) :
    ∀ w ∈ st.dst.vars, w.vartype = .binary ∧ w.lb = 0 ∧ w.ub = 1 := by
  rw [hf.mem_vars (fun w => w.vartype = .binary ∧ w.lb = 0 ∧ w.ub = 1)]
  · intro v hv w hw
    unfold newVars at hw
    split at hw
    · obtain ⟨p, _, rfl⟩ := List.mem_map.mp hw
      exact ⟨rfl, rfl, rfl⟩
    · rename_i hg
      rw [List.mem_singleton] at hw
      subst hw
      have ht : v.vartype = .binary := by
        cases ht : v.vartype with
        | binary => rfl
        | continuous => exact absurd ht (hc v hv)
        | integer =>
          obtain ⟨e, he, _⟩ := hf.enc v hv ht
          rw [hg] at he; simp at he
      simp [plainVar, ht, binVar]
  · intro v hv _
    unfold plainVar
    split
    · rename_i ht
      have := hb v hv ht
      simp [binVar, ht, this]
    · exact Iff.rfl

/-- The result of the first stage. -/
theorem eqs_vars {src eqs : QP} (hf : I2EFacts .integer src eqs) (hc : ∀ v ∈ src.vars, v.vartype ≠ .continuous) :
    eqs.BinBoundsOK ∧ ∀ v ∈ eqs.vars, v.vartype ≠ .continuous := by
  obtain ⟨more, m1, m2⟩ := hf.slacks
  constructor
  · intro v hv ht
    rw [m1, List.mem_append] at hv
    rcases hv with hv | hv
    · obtain ⟨w, hw, rfl⟩ := List.mem_map.mp hv
      unfold plainVar at ht ⊢
      split
      · exact ⟨rfl, rfl⟩
      · rename_i hn; rw [if_neg hn] at ht; exact absurd ht hn
    · rcases (m2 v hv).type with ⟨h, _⟩ | ⟨_, h⟩
      · rw [h] at ht; simp at ht
      · exact absurd rfl h
  · intro v hv
    rw [m1, List.mem_append] at hv
    rcases hv with hv | hv
    · obtain ⟨w, hw, rfl⟩ := List.mem_map.mp hv
      unfold plainVar
      split
      · simp [binVar]
      · exact hc w hw
    · rcases (m2 v hv).type with ⟨h, _⟩ | ⟨_, h⟩
      · rw [h]; simp
      · exact absurd rfl h

theorem productsOK_eqs {src eqs : QP} (hs : src.WF) (hf : I2EFacts .integer src eqs)
    (hp : ProductsOK src src.objective.quadratic) : ProductsOK eqs eqs.objective.quadratic := by
  have hvar : ∀ i < src.numVars, ∀ v, eqs.vars[i]? = some v → v.vartype = .integer → src.vars[i]? = some v := by
    intro i hi v hv ht
    obtain ⟨w, hw⟩ := lt_numVars hi
    rw [hf.starts.get hi, hw, Option.map_some, Option.some.injEq] at hv
    unfold plainVar at hv
    split at hv
    · subst hv; simp [binVar] at ht
    · rw [hw, hv]
  intro k hk v w hv hw htv htw
  have hb : ∀ k ∈ Assoc.keys src.objective.quadratic.coeffs, k.1 < src.numVars ∧ k.2 < src.numVars := by
    intro k hk
    have := hs.objQuad.1.bound k hk
    exact ⟨lt_of_lt_of_le this.1 hs.objQuad.2, lt_of_lt_of_le this.2 hs.objQuad.2⟩
  rcases hf.objKeys k hk with hk | hk
  · have := hb k hk
    exact hp k hk v w (hvar _ this.1 v hv htv) (hvar _ this.2 w hw htw) htv htw
  · have := hb _ hk
    exact (hp _ hk w v (hvar _ this.1 w hw htw) (hvar _ this.2 v hv htv) htw htv).symm

/-- An equality with integer coefficients that holds at an integral point has an integral right-hand side. -/
theorem rhs_int {p : QP} (hs : p.WF) (hc : ∀ v ∈ p.vars, v.vartype ≠ .continuous) {x : Nat → ℚ} (hx : p.Feas x)
    {c : LinCst} (hm : c ∈ p.lins) (hi : ∀ q ∈ c.linear.coeffs, ∃ z : Int, q.2 = z) (he : c.sense = .eq) :
    ∃ z : Int, c.rhs = z := by
  obtain ⟨_, h2, h3⟩ := hx
  rw [sat_iff] at h3
  have h := h3.1 c hm
  rw [LinCst.Holds, he] at h
  simp only [Sense.rel] at h
  rw [← h]
  refine Dict.sum_int _ _ (fun q hq => ⟨hi q hq, ?_⟩)
  have hb := lt_of_lt_of_le ((hs.lins c hm).1.bound q.1 (List.mem_map_of_mem hq)) (hs.lins c hm).2
  obtain ⟨v, hv⟩ := lt_numVars hb
  exact h2 _ v hv (hc v (List.mem_of_getElem? hv))

/-- The whole conversion: optimal points of the QUBO are interpreted as optimal points of the source. -/
theorem qubo_exact {penalty : Option ℚ} {src : QP} {st : QuboState} (hs : src.WF) (hb : src.BinBoundsOK)
    (hi : ∀ v ∈ src.vars, v.vartype = .integer → (∃ z : Int, v.lb = z) ∧ ∃ z : Int, v.ub = z)
    (hp : ProductsOK src src.objective.quadratic) (h : src.toQubo penalty = .ok st)
    (hpen : ∀ p, penalty = some p → absSum st.i2b.dst.objective < p)
    (hfeas : ∃ x, src.Feas x) {z : List ℚ} (hlen : z.length = st.dst.numVars)
    (hz : OptimalIn st.dst.Feas st.dst.objective (pt z)) :
    ∃ x, st.interpret z = .ok x ∧ x.length = src.numVars ∧ OptimalIn src.Feas src.objective (pt x) ∧
      st.dst.objective.val (pt z) = src.objective.val (pt x) := by
  obtain ⟨⟨hc, hq, hco⟩, hsrc, h1, h2, h3⟩ := toQubo_stages h
  have hf1 := ineqToEq_facts hs h1
  have hwe := hf1.starts.wf
  have hf2 := intToBin_facts hwe h2
  have hf3 := toPenalty_facts hf2.wf h3
  obtain ⟨hbe, hce⟩ := eqs_vars hf1 hc
  obtain ⟨x0, hx0⟩ := hfeas
  have hbounds : ∀ v ∈ src.vars, (∃ z : Int, v.lb = z) ∧ ∃ z : Int, v.ub = z := by
    intro v hv
    cases ht : v.vartype with
    | binary =>
      rw [(hb v hv ht).1, (hb v hv ht).2]
      exact ⟨⟨0, by simp⟩, ⟨1, by simp⟩⟩
    | integer => exact hi v hv ht
    | continuous => exact absurd ht (hc v hv)
  have hints := hf1.ints rfl hq hbounds
  have hie : st.eqs.IntBoundsOK := by
    intro v hv ht
    obtain ⟨e, _, he⟩ := hf2.enc v hv ht
    exact ⟨(hints v hv).1, (hints v hv).2, convertVar_lt he⟩
  have hle : ∀ c ∈ st.eqs.lins, (∃ z : Int, c.rhs = z) ∧ ∀ q ∈ c.linear.coeffs, ∃ z : Int, q.2 = z := by
    intro c hc'
    obtain ⟨k, hk, hx⟩ := forall2_mem_right hf1.lins c hc'
    exact (hx.ints rfl (hco k hk) (rhs_int hs hc hx0 hk (hco k hk))).symm
  have hld := i2b_ints hwe hf2 hie hle
  have hbin := i2b_binary hf2 hbe hce
  have hqe := hf1.noQuads hq
  have hqd := hf2.noQuads hqe
  have hpo := pairsOK_of_products hwe hie hf2 hwe.objQuad (productsOK_eqs hs hf1 hp)
  have hsat := hf2.sat (by rw [hqe]; simp)
  have hfits : ∀ c ∈ src.allCsts, SlackFits .integer src c := by
    intro c hm _ _ _
    unfold Cst.NoContinuous
    cases c with
    | lin c => exact fun _ _ v hv => hc v (List.mem_of_getElem? hv)
    | quad c => exact ⟨fun _ _ v hv => hc v (List.mem_of_getElem? hv),
        fun _ _ v hv => hv.elim (fun hv => hc v (List.mem_of_getElem? hv)) (fun hv => hc v (List.mem_of_getElem? hv))⟩
  have hslack := slack_core hs hb hfits h1
  -- lifting feasible points
  have lift1 : ∀ u, st.eqs.Feas u → ∃ y, Decodes st.eqs st.i2b.dst.varsIndex st.i2b.conv u y ∧ st.i2b.dst.Feas y := by
    rintro u ⟨u1, u2, u3⟩
    obtain ⟨y, y1, y2, y3⟩ := encode_exists hwe hf2 hie hbe ⟨u1, u2⟩
    exact ⟨y, y1, y2, y3, (hsat u y y1).mpr u3⟩
  have hfd : ∃ y, st.i2b.dst.Feas y := by
    obtain ⟨u, _, hu⟩ := (hslack x0).mp hx0
    obtain ⟨y, _, hy⟩ := lift1 u hu
    exact ⟨y, hy⟩
  have hpen' : absSum st.i2b.dst.objective < st.pen := by
    rw [hf3.penEq]
    cases penalty with
    | some p => exact hpen p rfl
    | none =>
      simp only [Option.getD_none]
      rw [autoPenalty_eq hld]; linarith
  obtain ⟨hopt, hval⟩ := exact_core hf2.wf (fun w hw => by
      obtain ⟨a, b, c⟩ := hbin w hw
      rw [a, b, c]; exact ⟨by simp, le_refl _, le_refl _⟩) (fun w hw _ => (hbin w hw).2) hqd hld h3 hpen' hfd hz
  -- interpretation
  have hn3 : st.dst.numVars = st.i2b.dst.numVars := by simp [QP.numVars, hf3.vars]
  obtain ⟨y, hy⟩ : ∃ y, st.i2b.interpret z = .ok y :=
    ⟨_, (interpret_iff hwe hf2 z _).mpr ⟨by rw [hlen, hn3], rfl⟩⟩
  obtain ⟨hyl, hdec⟩ := interpret_decodes hwe hf2 hy
  have hi3 : ineqInterpret src st.eqs y = .ok (y.take src.numVars) :=
    (ineqInterpret_iff hs.cons hf1.starts y _).mpr ⟨by rw [hyl], rfl⟩
  have hle' := hf1.starts.le
  have hagree : ∀ i < src.numVars, pt y i = pt (y.take src.numVars) i := by
    intro i hi'
    simp [pt, List.getD_eq_getElem?_getD, List.getElem?_take_of_lt hi']
  have hye : st.eqs.Feas (pt y) := by
    obtain ⟨⟨a, b, c⟩, _⟩ := hopt
    obtain ⟨d, e⟩ := decode_admits hwe hf2 hie hbe hdec ⟨a, b⟩
    exact ⟨d, e, (hsat _ _ hdec).mp c⟩
  have hov : st.i2b.dst.objective.val (pt z) = src.objective.val (pt (y.take src.numVars)) := by
    rw [hf2.obj hpo _ _ hdec, hf1.objective.2, Objective.val_congr hs hagree]
  refine ⟨y.take src.numVars, ?_, by simp; omega, ⟨?_, ?_⟩, by rw [hval, hov]⟩
  · unfold QuboState.interpret penInterpret
    rw [if_neg (by rw [hlen, hn3]; simp)]
    simp only [hy, hsrc, hi3]
  · exact (hslack _).mpr ⟨pt y, hagree, hye⟩
  · intro u hu
    obtain ⟨u', a1, a2⟩ := (hslack u).mp hu
    obtain ⟨w, b1, b2⟩ := lift1 u' a2
    have := hopt.2 w b2
    rw [hf2.obj hpo _ _ b1, hf1.objective.2, hov, hf2.sense, hf1.objective.1, Objective.val_congr hs a1] at this
    exact this

end Verif
