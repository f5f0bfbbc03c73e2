import Verif.IneqToEqMain

/-!
# Helper lemmas: the loops over the constraints and the whole conversion of inequalities to equalities
-/

namespace Verif

/-- A variable added as a slack variable. -/
structure SlackOK (mode : SlackMode) (v : Variable) : Prop where
  lb : v.lb = 0
  ub : 0 < v.ub
  type : v.vartype = .integer ∧ mode ≠ .continuous ∨ v.vartype = .continuous ∧ mode ≠ .integer

/-- Integer slack variables are only added to constraints without continuous variables. -/
def SlackFits (mode : SlackMode) (src : QP) (c : Cst) : Prop :=
  mode ≠ .continuous → c.sense ≠ .eq → c.IntCoeffs → c.NoContinuous src

theorem slackVars_ok {mode : SlackMode} {t : VarType}
    (ht : t = .integer ∧ mode ≠ .continuous ∨ t = .continuous ∧ mode ≠ .integer) {nm : String} {s : Sense}
    {r lb ub : ℚ} : ∀ v ∈ slackVars t nm s r lb ub, SlackOK mode v := by
  intro v hv
  unfold slackVars at hv
  cases s with
  | le =>
    simp only at hv
    split at hv
    · simp at hv
    · simp only [List.mem_singleton] at hv; subst hv; exact ⟨rfl, by simp only; linarith, ht⟩
  | ge =>
    simp only at hv
    split at hv
    · simp at hv
    · simp only [List.mem_singleton] at hv; subst hv; exact ⟨rfl, by simp only; linarith, ht⟩
  | eq => simp at hv

theorem slackVars_int {t : VarType} {nm : String} {s : Sense} {r lb ub : ℚ} (hr : ∃ z : Int, r = z)
    (hl : ∃ z : Int, lb = z) (hu : ∃ z : Int, ub = z) : ∀ v ∈ slackVars t nm s r lb ub, ∃ z : Int, v.ub = z := by
  intro v hv
  unfold slackVars at hv
  cases s with
  | le =>
    simp only at hv
    split at hv
    · simp at hv
    · simp only [List.mem_singleton] at hv; subst hv; exact isInt_sub hr hl
  | ge =>
    simp only at hv
    split at hv
    · simp at hv
    · simp only [List.mem_singleton] at hv; subst hv; exact isInt_sub hu hr
  | eq => simp at hv

theorem linVal_int {src : QP} {e : LinExpr} (hi : ∀ q ∈ e.coeffs, ∃ z : Int, q.2 = z) (he : e.Fits src.numVars)
    (hn : ∀ k ∈ Assoc.keys e.coeffs, ∀ v, src.vars[k]? = some v → v.vartype ≠ .continuous) {x : Nat → ℚ}
    (hx : src.Integral x) : ∃ z : Int, e.val x = z := by
  apply Dict.sum_int
  intro p hp
  have hk : p.1 ∈ Assoc.keys e.coeffs := List.mem_map_of_mem hp
  obtain ⟨v, hv⟩ := lt_numVars (lt_of_lt_of_le (he.1.bound _ hk) he.2)
  exact ⟨hi p hp, hx _ v hv (hn _ hk v hv)⟩

theorem quadVal_int {src : QP} {e : QuadExpr} (hi : ∀ q ∈ e.coeffs, ∃ z : Int, q.2 = z) (he : e.Fits src.numVars)
    (hn : ∀ k ∈ Assoc.keys e.coeffs, ∀ v, (src.vars[k.1]? = some v ∨ src.vars[k.2]? = some v) →
      v.vartype ≠ .continuous) {x : Nat → ℚ}
    (hx : src.Integral x) : ∃ z : Int, e.val x = z := by
  apply Dict.sum_int
  intro p hp
  have hk : p.1 ∈ Assoc.keys e.coeffs := List.mem_map_of_mem hp
  have hb := he.1.bound _ hk
  obtain ⟨v, hv⟩ := lt_numVars (lt_of_lt_of_le hb.1 he.2)
  obtain ⟨w, hw⟩ := lt_numVars (lt_of_lt_of_le hb.2 he.2)
  exact ⟨hi p hp, isInt_mul (hx _ v hv (hn _ hk v (Or.inl hv))) (hx _ w hw (hn _ hk w (Or.inr hw)))⟩

/-- What one constraint, or several, did. -/
structure Handled (mode : SlackMode) (src d d' : QP) (ok holds : (Nat → ℚ) → Prop) : Prop where
  starts : Starts src d'
  objective : d'.objective = d.objective
  name : d'.name = d.name
  vars : ∃ more, d'.vars = d.vars ++ more ∧ ∀ v ∈ more, SlackOK mode v
  ext : ∀ x, src.InBounds x → src.Integral x → ok x →
    (Extensible src.numVars d' x ↔ Extensible src.numVars d x ∧ holds x)

theorem Handled.trans {mode : SlackMode} {src d d' d'' : QP} {ok ok' holds holds' : (Nat → ℚ) → Prop}
    (h : Handled mode src d d' ok holds) (h' : Handled mode src d' d'' ok' holds') :
    Handled mode src d d'' (fun x => ok x ∧ ok' x) (fun x => holds x ∧ holds' x) := by
  obtain ⟨m, m1, m2⟩ := h.vars
  obtain ⟨m', m1', m2'⟩ := h'.vars
  refine ⟨h'.starts, h'.objective.trans h.objective, h'.name.trans h.name, ⟨m ++ m', ?_, ?_⟩, ?_⟩
  · rw [m1', m1, List.append_assoc]
  · intro v hv
    rcases List.mem_append.mp hv with hv | hv
    · exact m2 v hv
    · exact m2' v hv
  · intro x h1 h2 h3
    rw [h'.ext x h1 h2 h3.2, h.ext x h1 h2 h3.1, and_assoc]

theorem Handled.congr {mode : SlackMode} {src d d' : QP} {ok ok' holds holds' : (Nat → ℚ) → Prop}
    (h : Handled mode src d d' ok holds) (ho : ∀ x, ok' x → ok x) (hh : ∀ x, holds x ↔ holds' x) :
    Handled mode src d d' ok' holds' :=
  ⟨h.starts, h.objective, h.name, h.vars, fun x h1 h2 h3 => by rw [← hh]; exact h.ext x h1 h2 (ho x h3)⟩

theorem Slacked.handled {mode : SlackMode} {src d d' : QP} (hst : Starts src d) {t : VarType} {nm : String}
    {f : (Nat → ℚ) → ℚ} {s : Sense} {r lb ub : ℚ} {newl : List LinCst} {newq : List QuadCst}
    (h : Slacked src d d' t nm f s r lb ub newl newq)
    (hf : ∀ x y, (∀ i < src.numVars, x i = y i) → f x = f y)
    (ht : t = .integer ∧ mode ≠ .continuous ∨ t = .continuous ∧ mode ≠ .integer) :
    Handled mode src d d' (fun x => t ≠ .continuous → (∃ z : Int, f x = z) ∧ ∃ z : Int, r = z)
      (fun x => s.rel (f x) r) :=
  ⟨h.step.starts hst, h.step.objective, h.step.name, ⟨_, h.step.vars, slackVars_ok ht⟩,
    fun _ h1 _ h3 => h.extensible hst hf h1 h3⟩

/-- Extra facts for linear constraints in mode `integer`. -/
structure LinExtra (mode : SlackMode) (src : QP) (k c : LinCst) : Prop where
  sense : c.sense = .eq
  ints : mode = .integer → (∀ q ∈ k.linear.coeffs, ∃ z : Int, q.2 = z) → (k.sense = .eq → ∃ z : Int, k.rhs = z) →
    (∀ q ∈ c.linear.coeffs, ∃ z : Int, q.2 = z) ∧ ∃ z : Int, c.rhs = z

theorem i2eLinOne_ok {mode : SlackMode} {src d d' : QP} (hs : src.WF) (hst : Starts src d) {k : LinCst}
    (hk : k.linear.Fits src.numVars) (h : i2eLinOne mode src d k = .ok d') :
    Handled mode src d d' (fun _ => SlackFits mode src (.lin k)) k.Holds ∧ d'.quads = d.quads ∧
      (∃ c, d'.lins = d.lins ++ [c] ∧ LinExtra mode src k c) ∧
      (mode = .integer → (∀ v ∈ src.vars, (∃ z : Int, v.lb = z) ∧ ∃ z : Int, v.ub = z) →
        (∀ v ∈ d.vars, (∃ z : Int, v.lb = z) ∧ ∃ z : Int, v.ub = z) →
        ∀ v ∈ d'.vars, (∃ z : Int, v.lb = z) ∧ ∃ z : Int, v.ub = z) := by
  have hcongr : ∀ x y : Nat → ℚ, (∀ i < src.numVars, x i = y i) → k.linear.val x = k.linear.val y :=
    fun x y => LinExpr.val_congr hk
  have hint : mode ≠ .continuous → intSlackLin src d (k.linear.toDictNames src.vars) k.sense k.rhs k.name = .ok d' →
      Handled mode src d d' (fun _ => SlackFits mode src (.lin k)) k.Holds ∧ d'.quads = d.quads ∧
      (∃ c, d'.lins = d.lins ++ [c] ∧ LinExtra mode src k c) ∧
      (mode = .integer → (∀ v ∈ src.vars, (∃ z : Int, v.lb = z) ∧ ∃ z : Int, v.ub = z) →
        (∀ v ∈ d.vars, (∃ z : Int, v.lb = z) ∧ ∃ z : Int, v.ub = z) →
        ∀ v ∈ d'.vars, (∃ z : Int, v.lb = z) ∧ ∃ z : Int, v.ub = z) := by
    intro hm h
    obtain ⟨hi, lb, ub, c, hsl, hci, hbi⟩ := intSlackLin_ok hs hst hk h
    have hfx : ∀ x, src.Integral x → SlackFits mode src (.lin k) → ∃ z : Int, k.linear.val x = z :=
      fun x hx hfit => linVal_int hi hk (hfit hm hsl.sense hi) hx
    have hr := roundRhs_int hsl.sense k.rhs
    have hh := hsl.handled (mode := mode) hst hcongr (Or.inl ⟨rfl, hm⟩)
    refine ⟨⟨hh.starts, hh.objective, hh.name, hh.vars, ?_⟩, by simpa using hsl.step.quads, ⟨c, hsl.step.lins, ?_⟩, ?_⟩
    · intro x h1 h2 h3
      have hz := hfx x h2 h3
      rw [hh.ext x h1 h2 (fun _ => ⟨hz, hr⟩)]
      simp only [LinCst.Holds]
      rw [roundRhs_rel hz]
    · have := hsl.eqs.1 c (by simp)
      exact ⟨this.1, fun _ _ _ => ⟨hci, by rw [this.2]; exact hr⟩⟩
    · intro _ hv hd v hvd
      rw [hsl.step.vars] at hvd
      rcases List.mem_append.mp hvd with hvd | hvd
      · exact hd v hvd
      · have := slackVars_ok (mode := mode) (Or.inl ⟨rfl, hm⟩) v hvd
        exact ⟨⟨0, by simp [this.lb]⟩, slackVars_int hr (hbi hv).1 (hbi hv).2 v hvd⟩
  have hcont : mode ≠ .integer → contSlackLin src d (k.linear.toDictNames src.vars) k.sense k.rhs k.name = .ok d' →
      Handled mode src d d' (fun _ => SlackFits mode src (.lin k)) k.Holds ∧ d'.quads = d.quads ∧
      (∃ c, d'.lins = d.lins ++ [c] ∧ LinExtra mode src k c) ∧
      (mode = .integer → (∀ v ∈ src.vars, (∃ z : Int, v.lb = z) ∧ ∃ z : Int, v.ub = z) →
        (∀ v ∈ d.vars, (∃ z : Int, v.lb = z) ∧ ∃ z : Int, v.ub = z) →
        ∀ v ∈ d'.vars, (∃ z : Int, v.lb = z) ∧ ∃ z : Int, v.ub = z) := by
    intro hm h
    obtain ⟨lb, ub, c, hsl⟩ := contSlackLin_ok hs hst hk h
    have hh := hsl.handled (mode := mode) hst hcongr (Or.inr ⟨rfl, hm⟩)
    have := hsl.eqs.1 c (by simp)
    exact ⟨hh.congr (fun x _ hc => absurd rfl hc) (fun x => Iff.rfl), by simpa using hsl.step.quads,
      ⟨c, hsl.step.lins, this.1, fun hmi => absurd hmi hm⟩, fun hmi => absurd hmi hm⟩
  unfold i2eLinOne at h
  simp only at h
  cases hse : k.sense with
  | eq =>
    simp only [hse] at h
    split at h
    · simp at h
    · rename_i c d1 hadd
      simp only [Except.ok.injEq] at h
      subst h
      obtain ⟨b1, b2, b3, b4⟩ := linStep (Grows.refl d) hst.wf (toDictNames_nodup hs.cons hk)
        (fun a ha => hst.names (toDictNames_keys hk ha)) (by rfl) hadd
      have : (fun y => Dict.sum (k.linear.toDictNames src.vars) (nameVal d.varsIndex y) = k.rhs) =
          fun y => k.linear.val y = k.rhs := by
        funext y; rw [linSum_starts hs hst hk]
      rw [this] at b1
      refine ⟨⟨b1.starts hst, b1.objective, b1.name, ⟨[], b1.vars, by simp⟩, ?_⟩, by simpa using b1.quads,
        ⟨c, b1.lins, b2, ?_⟩, ?_⟩
      · intro x _ _ _
        rw [extensible_eq hcongr b1]
        simp only [LinCst.Holds, hse, Sense.rel]
      · intro _ hi hr
        refine ⟨?_, by rw [b3]; exact hr hse⟩
        intro q hq
        obtain ⟨q', hq', he⟩ := b4 q hq
        have : q'.2 ∈ (k.linear.toDictNames src.vars).values := List.mem_map_of_mem hq'
        rw [toDictNames_values] at this
        obtain ⟨q'', hq'', he'⟩ := List.mem_map.mp this
        rw [he, ← he']
        exact hi q'' hq''
      · intro _ _ hd v hv
        rw [b1.vars, List.append_nil] at hv
        exact hd v hv
  | le =>
    simp only [hse] at h hint hcont
    cases mode with
    | integer => exact hint (by simp) h
    | continuous => exact hcont (by simp) h
    | auto =>
      simp only [autoSlackLin] at h
      split at h
      · exact hcont (by simp) h
      · exact hint (by simp) h
    | other => simp at h
  | ge =>
    simp only [hse] at h hint hcont
    cases mode with
    | integer => exact hint (by simp) h
    | continuous => exact hcont (by simp) h
    | auto =>
      simp only [autoSlackLin] at h
      split at h
      · exact hcont (by simp) h
      · exact hint (by simp) h
    | other => simp at h

theorem i2eQuadOne_ok {mode : SlackMode} {src d d' : QP} (hs : src.WF) (hst : Starts src d) {k : QuadCst}
    (hk : k.linear.Fits src.numVars) (hq : k.quadratic.Fits src.numVars) (h : i2eQuadOne mode src d k = .ok d') :
    Handled mode src d d' (fun _ => SlackFits mode src (.quad k)) k.Holds ∧ d'.lins = d.lins ∧
      ∃ c, d'.quads = d.quads ++ [c] ∧ c.sense = .eq := by
  have hcongr : ∀ x y : Nat → ℚ, (∀ i < src.numVars, x i = y i) →
      k.linear.val x + k.quadratic.val x = k.linear.val y + k.quadratic.val y :=
    fun x y h => by rw [LinExpr.val_congr hk h, QuadExpr.val_congr hq h]
  have hint : mode ≠ .continuous → intSlackQuad src d (k.linear.toDictNames src.vars)
      (k.quadratic.toDictNames src.vars) k.sense k.rhs k.name = .ok d' →
      Handled mode src d d' (fun _ => SlackFits mode src (.quad k)) k.Holds ∧ d'.lins = d.lins ∧
      ∃ c, d'.quads = d.quads ++ [c] ∧ c.sense = .eq := by
    intro hm h
    obtain ⟨hi, lb, ub, c, hsl⟩ := intSlackQuad_ok hs hst hk hq h
    have hfx : ∀ x, src.Integral x → SlackFits mode src (.quad k) →
        ∃ z : Int, k.linear.val x + k.quadratic.val x = z :=
      fun x hx hfit => isInt_add (linVal_int hi.1 hk (hfit hm hsl.sense hi).1 hx)
        (quadVal_int hi.2 hq (hfit hm hsl.sense hi).2 hx)
    have hr := roundRhs_int hsl.sense k.rhs
    have hh := hsl.handled (mode := mode) hst hcongr (Or.inl ⟨rfl, hm⟩)
    refine ⟨⟨hh.starts, hh.objective, hh.name, hh.vars, ?_⟩, by simpa using hsl.step.lins, ⟨c, hsl.step.quads, ?_⟩⟩
    · intro x h1 h2 h3
      have hz := hfx x h2 h3
      rw [hh.ext x h1 h2 (fun _ => ⟨hz, hr⟩)]
      simp only [QuadCst.Holds]
      rw [roundRhs_rel hz]
    · exact (hsl.eqs.2 c (by simp)).1
  have hcont : mode ≠ .integer → contSlackQuad src d (k.linear.toDictNames src.vars)
      (k.quadratic.toDictNames src.vars) k.sense k.rhs k.name = .ok d' →
      Handled mode src d d' (fun _ => SlackFits mode src (.quad k)) k.Holds ∧ d'.lins = d.lins ∧
      ∃ c, d'.quads = d.quads ++ [c] ∧ c.sense = .eq := by
    intro hm h
    obtain ⟨lb, ub, c, hsl⟩ := contSlackQuad_ok hs hst hk hq h
    have hh := hsl.handled (mode := mode) hst hcongr (Or.inr ⟨rfl, hm⟩)
    exact ⟨hh.congr (fun x _ hc => absurd rfl hc) (fun x => Iff.rfl), by simpa using hsl.step.lins,
      ⟨c, hsl.step.quads, (hsl.eqs.2 c (by simp)).1⟩⟩
  unfold i2eQuadOne at h
  simp only at h
  cases hse : k.sense with
  | eq =>
    simp only [hse] at h
    split at h
    · simp at h
    · rename_i c d1 hadd
      simp only [Except.ok.injEq] at h
      subst h
      obtain ⟨b1, b2, b3⟩ := quadStep (Grows.refl d) hst.wf (toDictNames_nodup hs.cons hk)
        (fun a ha => hst.names (toDictNames_keys hk ha)) (toDictNames_nodup2 hs.cons hq)
        (fun a ha => ⟨hst.names (toDictNames_keys2 hq ha).1, hst.names (toDictNames_keys2 hq ha).2⟩) (by rfl) hadd
      have : (fun y => Dict.sum (k.linear.toDictNames src.vars) (nameVal d.varsIndex y) +
          Dict.sum (k.quadratic.toDictNames src.vars)
            (fun k => nameVal d.varsIndex y k.1 * nameVal d.varsIndex y k.2) = k.rhs) =
          fun y => k.linear.val y + k.quadratic.val y = k.rhs := by
        funext y; rw [linSum_starts hs hst hk, quadSum_starts hs hst hq]
      rw [this] at b1
      refine ⟨⟨b1.starts hst, b1.objective, b1.name, ⟨[], b1.vars, by simp⟩, ?_⟩, by simpa using b1.lins,
        ⟨c, b1.quads, b2⟩⟩
      intro x _ _ _
      rw [extensible_eq hcongr b1]
      simp only [QuadCst.Holds, hse, Sense.rel]
  | le =>
    simp only [hse] at h hint hcont
    cases mode with
    | integer => exact hint (by simp) h
    | continuous => exact hcont (by simp) h
    | auto =>
      simp only [autoSlackQuad] at h
      split at h
      · exact hcont (by simp) h
      · exact hint (by simp) h
    | other => simp at h
  | ge =>
    simp only [hse] at h hint hcont
    cases mode with
    | integer => exact hint (by simp) h
    | continuous => exact hcont (by simp) h
    | auto =>
      simp only [autoSlackQuad] at h
      split at h
      · exact hcont (by simp) h
      · exact hint (by simp) h
    | other => simp at h

theorem Handled.refl {mode : SlackMode} {src d : QP} (h : Starts src d) :
    Handled mode src d d (fun _ => True) (fun _ => True) :=
  ⟨h, rfl, rfl, ⟨[], by simp, by simp⟩, fun x _ _ _ => by simp⟩

theorem i2eLins_ok {mode : SlackMode} {src d d' : QP} (hs : src.WF) (hst : Starts src d) (ks : List LinCst)
    (hk : ∀ k ∈ ks, k.linear.Fits src.numVars) (h : i2eLins mode src ks d = .ok d') :
    Handled mode src d d' (fun _ => ∀ k ∈ ks, SlackFits mode src (.lin k)) (fun x => ∀ k ∈ ks, k.Holds x) ∧
      d'.quads = d.quads ∧ (∃ new, d'.lins = d.lins ++ new ∧ List.Forall₂ (LinExtra mode src) ks new) ∧
      (mode = .integer → (∀ v ∈ src.vars, (∃ z : Int, v.lb = z) ∧ ∃ z : Int, v.ub = z) →
        (∀ v ∈ d.vars, (∃ z : Int, v.lb = z) ∧ ∃ z : Int, v.ub = z) →
        ∀ v ∈ d'.vars, (∃ z : Int, v.lb = z) ∧ ∃ z : Int, v.ub = z) := by
  induction ks generalizing d with
  | nil =>
    simp only [i2eLins, Except.ok.injEq] at h
    subst h
    exact ⟨(Handled.refl hst).congr (by simp) (by simp), rfl, ⟨[], by simp, .nil⟩, fun _ _ hd => hd⟩
  | cons k ks ih =>
    rw [List.forall_mem_cons] at hk
    simp only [i2eLins] at h
    split at h
    · simp at h
    · rename_i d1 h1
      obtain ⟨a1, a2, ⟨c, a3, a4⟩, a5⟩ := i2eLinOne_ok hs hst hk.1 h1
      obtain ⟨b1, b2, ⟨new, b3, b4⟩, b5⟩ := ih a1.starts hk.2 h
      refine ⟨(a1.trans b1).congr (by simp) (by simp), b2.trans a2, ⟨c :: new, by rw [b3, a3]; simp, .cons a4 b4⟩, ?_⟩
      intro hm hv hd
      exact b5 hm hv (a5 hm hv hd)

theorem i2eQuads_ok {mode : SlackMode} {src d d' : QP} (hs : src.WF) (hst : Starts src d) (ks : List QuadCst)
    (hk : ∀ k ∈ ks, k.linear.Fits src.numVars ∧ k.quadratic.Fits src.numVars) (h : i2eQuads mode src ks d = .ok d') :
    Handled mode src d d' (fun _ => ∀ k ∈ ks, SlackFits mode src (.quad k)) (fun x => ∀ k ∈ ks, k.Holds x) ∧
      d'.lins = d.lins ∧ ∃ new, d'.quads = d.quads ++ new ∧ ∀ c ∈ new, c.sense = .eq := by
  induction ks generalizing d with
  | nil =>
    simp only [i2eQuads, Except.ok.injEq] at h
    subst h
    exact ⟨(Handled.refl hst).congr (by simp) (by simp), rfl, ⟨[], by simp, by simp⟩⟩
  | cons k ks ih =>
    rw [List.forall_mem_cons] at hk
    simp only [i2eQuads] at h
    split at h
    · simp at h
    · rename_i d1 h1
      obtain ⟨a1, a2, ⟨c, a3, a4⟩⟩ := i2eQuadOne_ok hs hst hk.1.1 hk.1.2 h1
      obtain ⟨b1, b2, ⟨new, b3, b4⟩⟩ := ih a1.starts hk.2 h
      refine ⟨(a1.trans b1).congr (by simp) (by simp), b2.trans a2, ⟨c :: new, by rw [b3, a3]; simp, ?_⟩⟩
      intro c' hc'
      rcases List.mem_cons.mp hc' with rfl | hc'
      · exact a4
      · exact b4 c' hc'

/-! ## The whole conversion -/

/-- All facts about a successful conversion. -/
structure I2EFacts (mode : SlackMode) (src dst : QP) : Prop where
  starts : Starts src dst
  slacks : ∃ more, dst.vars = src.vars.map plainVar ++ more ∧ ∀ v ∈ more, SlackOK mode v
  name : dst.name = src.name
  objective : dst.objective.sense = src.objective.sense ∧ ∀ y, dst.objective.val y = src.objective.val y
  eqs : ∀ c ∈ dst.allCsts, c.sense = .eq
  lins : List.Forall₂ (LinExtra mode src) src.lins dst.lins
  noQuads : src.quads = [] → dst.quads = []
  ints : mode = .integer → src.quads = [] → (∀ v ∈ src.vars, (∃ z : Int, v.lb = z) ∧ ∃ z : Int, v.ub = z) →
    ∀ v ∈ dst.vars, (∃ z : Int, v.lb = z) ∧ ∃ z : Int, v.ub = z
  ext : src.BinBoundsIn → (∀ c ∈ src.allCsts, SlackFits mode src c) → ∀ x, src.InBounds x → src.Integral x →
    (Extensible src.numVars dst x ↔ src.Sat x)
  objKeys : ∀ k ∈ Assoc.keys dst.objective.quadratic.coeffs,
    k ∈ Assoc.keys src.objective.quadratic.coeffs ∨ (k.2, k.1) ∈ Assoc.keys src.objective.quadratic.coeffs

theorem quadOfEntries_keys {vi : Assoc String Nat} {n : Nat} {l : List ((Key × Key) × ℚ)} {acc d : Dict (Nat × Nat)}
    (h : quadOfEntries vi n l acc = .ok d) : ∀ k ∈ Assoc.keys d, k ∈ Assoc.keys acc ∨
      ∃ q ∈ l, resolve vi n q.1.1 = .ok k.1 ∧ resolve vi n q.1.2 = .ok k.2 := by
  induction l generalizing acc with
  | nil =>
    simp only [quadOfEntries, Except.ok.injEq] at h
    subst h; exact fun k hk => Or.inl hk
  | cons q l ih =>
    obtain ⟨⟨a, b⟩, v⟩ := q
    simp only [quadOfEntries] at h
    split at h
    · simp at h
    · rename_i i hi
      split at h
      · simp at h
      · rename_i j hj
        intro k hk
        rcases ih h k hk with hh | ⟨q, hq, hr⟩
        · unfold Dict.dokSet at hh
          split at hh
          · exact Or.inl ((Assoc.erase_sublist acc (i, j)).map Prod.fst |>.subset hh)
          · rcases Assoc.mem_keys_set.mp hh with hh | hh
            · exact Or.inl hh
            · subst hh; exact Or.inr ⟨_, List.mem_cons_self, hi, hj⟩
        · exact Or.inr ⟨q, List.mem_cons_of_mem _ hq, hr⟩

theorem triangle_keys {d : Dict (Nat × Nat)} {k : Nat × Nat} (h : k ∈ Assoc.keys (triangle d)) :
    k ∈ Assoc.keys d ∨ (k.2, k.1) ∈ Assoc.keys d := by
  unfold triangle at h
  have hf : ∀ k, k ∈ Assoc.keys (d.filter fun p => p.1.2 < p.1.1) → k ∈ Assoc.keys d := fun k hk => Dict.mem_keys_filter hk
  rcases Dict.mem_keys_csrMinus h with h | h
  · rcases Dict.mem_keys_dokPlus h with h | h
    · exact Or.inl h
    · exact Or.inr (hf _ (mem_keys_transpose.mp h))
  · exact Or.inl (hf _ h)

/-- The products of an expression that was copied by names. -/
theorem quadNames_keys {src d : QP} (hs : src.WF) (hst : Starts src d) {e e' : QuadExpr} (he : e.Fits src.numVars)
    (h : QuadExpr.ofInput d.varsIndex d.numVars (quadNames (e.toDictNames src.vars)) = .ok e') :
    ∀ k ∈ Assoc.keys e'.coeffs, k ∈ Assoc.keys e.coeffs ∨ (k.2, k.1) ∈ Assoc.keys e.coeffs := by
  simp only [quadNames, QuadExpr.ofInput] at h
  split at h
  · simp at h
  · rename_i t ht
    simp only [Except.ok.injEq] at h
    subst h
    have key : ∀ k ∈ Assoc.keys t, k ∈ Assoc.keys e.coeffs := by
      intro k hk
      rcases quadOfEntries_keys ht k hk with hh | ⟨q, hq, h1, h2⟩
      · simp [Assoc.keys] at hh
      · simp only [QuadExpr.toDictNames, List.map_map, List.mem_map, Function.comp] at hq
        obtain ⟨p, hp, rfl⟩ := hq
        have hb := he.1.bound p.1 (List.mem_map_of_mem hp)
        have pos : ∀ (i j : Nat), i < src.numVars → resolve d.varsIndex d.numVars (.name (varName src.vars i)) = .ok j → j = i := by
          intro i j hi hr
          obtain ⟨v, hv, hn⟩ := varName_mem (vars := src.vars) hi
          have hd : d.vars[i]? = some (plainVar v) := by rw [hst.get hi, hv]; rfl
          have := (hst.wf.cons.vars.get? (plainVar v).name i).mpr (by simp [hd])
          have hr' := (resolve_name hr).1
          rw [plainVar_name] at this
          rw [hn, this] at hr'
          simpa using hr'.symm
        have e1 := pos _ _ (lt_of_lt_of_le hb.1 he.2) h1
        have e2 := pos _ _ (lt_of_lt_of_le hb.2 he.2) h2
        have : k = p.1 := Prod.ext e1 e2
        rw [this]; exact List.mem_map_of_mem hp
    intro k hk
    exact (triangle_keys hk).imp (key _) (key _)

theorem admits_plain_of {v : Variable} (h : v.vartype = .binary → 0 ≤ v.lb ∧ v.ub ≤ 1) {z : ℚ} (hz : v.Admits z) :
    (plainVar v).Admits z := by
  unfold plainVar
  split
  · rename_i ht
    obtain ⟨⟨h1, h2⟩, h3⟩ := hz
    obtain ⟨h4, h5⟩ := h ht
    exact ⟨⟨by simp only [binVar]; linarith, by simp only [binVar]; linarith⟩, fun _ => h3 (by simp [ht])⟩
  · exact hz

theorem plainVar_int {v : Variable} (h : (∃ z : Int, v.lb = z) ∧ ∃ z : Int, v.ub = z) :
    (∃ z : Int, (plainVar v).lb = z) ∧ ∃ z : Int, (plainVar v).ub = z := by
  unfold plainVar
  split
  · exact ⟨⟨0, by simp [binVar]⟩, ⟨1, by simp [binVar]⟩⟩
  · exact h

theorem ineqToEq_facts {mode : SlackMode} {src dst : QP} (hs : src.WF) (h : src.ineqToEq mode = .ok dst) :
    I2EFacts mode src dst := by
  unfold QP.ineqToEq at h
  split at h
  · simp at h
  · rename_i d0 h0
    have hg := copyAllVars_grows h0
    have hst0 : Starts src d0 := ⟨hg.wf (QP.empty_wf src.name), [], by simpa [QP.empty] using hg.vars⟩
    have hv0 : d0.vars = src.vars.map plainVar := by simpa [QP.empty] using hg.vars
    split at h
    · simp at h
    · rename_i u d1 h1
      have hwf1 := setObjective_wf h1 hst0.wf trivial trivial
      obtain ⟨le, qe, e1, e2, rfl⟩ := setObjective_ok h1
      obtain ⟨le', f1, f2, f3, f4⟩ := linNames_spec hst0.wf.cons (toDictNames_nodup hs.cons hs.objLin)
        (fun a ha => hst0.names (toDictNames_keys hs.objLin ha))
      obtain ⟨qe', g1, g2, g3, g4⟩ := quadNames_spec hst0.wf.cons (toDictNames_nodup2 hs.cons hs.objQuad)
        (fun a ha => ⟨hst0.names (toDictNames_keys2 hs.objQuad ha).1, hst0.names (toDictNames_keys2 hs.objQuad ha).2⟩)
      rw [f1, Except.ok.injEq] at e1
      subst e1
      rw [g1, Except.ok.injEq] at e2
      subst e2
      have hst1 : Starts src { d0 with objective := ⟨src.objective.constant, le', qe', src.objective.sense⟩ } :=
        ⟨hwf1, [], by simpa using hv0⟩
      split at h
      · simp at h
      · rename_i d2 h2
        obtain ⟨a1, a2, ⟨newl, a3, a4⟩, a5⟩ := i2eLins_ok hs hst1 src.lins hs.lins h2
        obtain ⟨b1, b2, newq, b3, b4⟩ := i2eQuads_ok hs a1.starts src.quads hs.quads h
        have hl0 : d0.lins = [] := by rw [hg.lins]; rfl
        have hq0 : d0.quads = [] := by rw [hg.quads]; rfl
        have hh := a1.trans b1
        have hlins : dst.lins = newl := by rw [b2, a3]; show d0.lins ++ newl = newl; rw [hl0]; rfl
        have hquads : dst.quads = newq := by rw [b3, a2]; show d0.quads ++ newq = newq; rw [hq0]; rfl
        obtain ⟨more, m1, m2⟩ := hh.vars
        refine ⟨hh.starts, ⟨more, by rw [m1]; show d0.vars ++ more = _; rw [hv0], m2⟩, ?_, ?_, ?_, ?_, ?_, ?_, ?_, ?_⟩
        · rw [hh.name]; exact hg.name
        · rw [hh.objective]
          refine ⟨rfl, fun y => ?_⟩
          simp only [Objective.val, f4, g4]
          rw [linSum_starts hs hst0 hs.objLin, quadSum_starts hs hst0 hs.objQuad]
        · intro c hc
          simp only [QP.allCsts, List.mem_append, List.mem_map, hlins, hquads] at hc
          rcases hc with ⟨c, hc, rfl⟩ | ⟨c, hc, rfl⟩
          · obtain ⟨k, _, hk⟩ := forall₂_right a4 hc
            exact hk.sense
          · exact b4 c hc
        · rw [hlins]; exact a4
        · intro hq
          rw [hq] at h
          simp only [i2eQuads, Except.ok.injEq] at h
          rw [← h, a2]; exact hq0
        · intro hm hq hv
          rw [hq] at h
          simp only [i2eQuads, Except.ok.injEq] at h
          rw [← h]
          apply a5 hm hv
          intro v hv'
          have hv' : v ∈ d0.vars := hv'
          rw [hv0] at hv'
          obtain ⟨w, hw, rfl⟩ := List.mem_map.mp hv'
          exact plainVar_int (hv w hw)
        · intro hbin hfits x hx hxi
          rw [hh.ext x hx hxi ⟨fun k hk => hfits (.lin k) (by simp [QP.allCsts, hk]),
            fun k hk => hfits (.quad k) (by simp [QP.allCsts, hk])⟩, sat_iff]
          refine and_iff_right ?_
          refine ⟨x, fun _ _ => rfl, ?_⟩
          rw [feas_iff_admits]
          constructor
          · intro i v hv
            have hv : d0.vars[i]? = some v := hv
            rw [hv0, List.getElem?_map, Option.map_eq_some_iff] at hv
            obtain ⟨w, hw, rfl⟩ := hv
            exact admits_plain_of (hbin w (List.mem_of_getElem? hw)) ⟨hx i w hw, hxi i w hw⟩
          · rw [sat_iff]
            show (∀ c ∈ d0.lins, _) ∧ ∀ c ∈ d0.quads, _
            rw [hl0, hq0]; simp
        · rw [hh.objective]
          exact quadNames_keys hs hst0 hs.objQuad g1

/-! ## Interpretation -/

theorem lookupVars_ok {d : QP} (hd : d.Consistent) {y : List ℚ} {sol : Assoc String ℚ}
    (h : solDict d.vars y = .ok sol) (l : List Variable) (hl : ∀ v ∈ l, v.name ∈ d.vars.map Variable.name) :
    lookupVars sol l = .ok (l.map fun v => nameVal d.varsIndex (pt y) v.name) := by
  induction l with
  | nil => rfl
  | cons v l ih =>
    rw [List.forall_mem_cons] at hl
    simp only [lookupVars, solDict_lookup hd h hl.1, ih hl.2, List.map_cons]

theorem ineqInterpret_iff {src dst : QP} (hs : src.Consistent) (h : Starts src dst) (y x : List ℚ) :
    ineqInterpret src dst y = .ok x ↔ dst.numVars ≤ y.length ∧ x = y.take src.numVars := by
  unfold ineqInterpret
  by_cases hlen : y.length < dst.vars.length
  · have : ¬ dst.numVars ≤ y.length := by simp only [QP.numVars]; omega
    simp [solDict, hlen, this]
  · have hle : dst.numVars ≤ y.length := by simp only [QP.numVars]; omega
    obtain ⟨sol, hsol⟩ : ∃ sol, solDict dst.vars y = .ok sol := by simp [solDict, hlen]
    simp only [hsol]
    rw [lookupVars_ok h.wf.cons hsol src.vars (fun v hv => h.names (List.mem_map_of_mem hv))]
    have hx : (src.vars.map fun v => nameVal dst.varsIndex (pt y) v.name) = y.take src.numVars := by
      apply List.ext_getElem?
      intro i
      by_cases hi : i < src.numVars
      · obtain ⟨v, hv⟩ := lt_numVars hi
        have hl : i < y.length := by have := h.le; omega
        rw [List.getElem?_map, hv, Option.map_some, h.nameVal hs _ (List.mem_map_of_mem (List.mem_of_getElem? hv)),
          nameVal_at hs hv, List.getElem?_take_of_lt hi]
        simp [pt, List.getD_eq_getElem?_getD, hl]
      · rw [List.getElem?_eq_none (by simpa [QP.numVars] using hi), List.getElem?_eq_none]
        simp only [List.length_take]; omega
    rw [hx]
    simp only [Except.ok.injEq, hle, true_and]
    exact eq_comm

end Verif
