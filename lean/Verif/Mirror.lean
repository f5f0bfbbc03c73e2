import Verif.Opposite
import Verif.GrowLemmas
import Verif.IneqToEqMain

/-!
# Constraints written the other way round

`f(x) <= b` and `-f(x) >= -b` are the same constraint.  Specification of programs that differ in this way only, and lemmas:
every step of the conversions takes such programs to such programs.
-/

namespace Verif

/-- The sense of the negated constraint. -/
def Sense.mirror : Sense → Sense
  | .le => .ge
  | .ge => .le
  | .eq => .eq

/-- The linear constraint multiplied by -1. -/
def LinCst.mirror (c : LinCst) : LinCst := ⟨c.name, ⟨c.linear.n, negD c.linear.coeffs⟩, c.sense.mirror, -c.rhs⟩

/-- The quadratic constraint multiplied by -1. -/
def QuadCst.mirror (c : QuadCst) : QuadCst :=
  ⟨c.name, ⟨c.linear.n, negD c.linear.coeffs⟩, ⟨c.quadratic.n, negD c.quadratic.coeffs⟩, c.sense.mirror, -c.rhs⟩

/-- `p'` is `p` with some of its constraints multiplied by -1. -/
def Mirrored (p p' : QP) : Prop := ∃ L Q, p' = { p with lins := L, quads := Q } ∧
  List.Forall₂ (fun c c' => c' = c ∨ c' = LinCst.mirror c) p.lins L ∧
  List.Forall₂ (fun c c' => c' = c ∨ c' = QuadCst.mirror c) p.quads Q

/-- The same error, or programs that are mirrored. -/
def RelRes : Except Err QP → Except Err QP → Prop
  | .ok d, .ok d' => Mirrored d d'
  | .error e, .error e' => e' = e
  | _, _ => False

/-- Outcome of a builder call whose exception ends the conversion. -/
def Res.toE {α : Type} : Res α → Except Err QP
  | (.error e, _) => .error e
  | (.ok _, d) => .ok d

/-! Turned (`true`) or not (`false`). -/

/-- Value. -/
def tv (b : Bool) (v : ℚ) : ℚ := if b then -v else v
/-- Sense. -/
def ts (b : Bool) (s : Sense) : Sense := if b then s.mirror else s
/-- Coefficients. -/
def td (b : Bool) {κ : Type} (d : Dict κ) : Dict κ := if b then negD d else d
/-- Lower and upper bound. -/
def tb (b : Bool) (x : ℚ × ℚ) : ℚ × ℚ := if b then (-x.2, -x.1) else x
/-- Linear input. -/
def tl (b : Bool) (l : LinInput) : LinInput := if b then l.neg else l
/-- Quadratic input. -/
def tq (b : Bool) (l : QuadInput) : QuadInput := if b then l.neg else l
/-- Slack variable with its sign. -/
def tsl (b : Bool) (o : Option (String × ℚ)) : Option (String × ℚ) := o.map fun a => (a.1, tv b a.2)

theorem LinCst.turned {c c' : LinCst} (h : c' = c ∨ c' = LinCst.mirror c) :
    ∃ b, c' = ⟨c.name, ⟨c.linear.n, td b c.linear.coeffs⟩, ts b c.sense, tv b c.rhs⟩ := by
  rcases h with rfl | rfl
  · exact ⟨false, rfl⟩
  · exact ⟨true, rfl⟩

theorem QuadCst.turned {c c' : QuadCst} (h : c' = c ∨ c' = QuadCst.mirror c) :
    ∃ b, c' = ⟨c.name, ⟨c.linear.n, td b c.linear.coeffs⟩, ⟨c.quadratic.n, td b c.quadratic.coeffs⟩,
      ts b c.sense, tv b c.rhs⟩ := by
  rcases h with rfl | rfl
  · exact ⟨false, rfl⟩
  · exact ⟨true, rfl⟩

theorem Mirrored.refl (p : QP) : Mirrored p p :=
  ⟨p.lins, p.quads, rfl, List.forall₂_same.mpr fun _ _ => .inl rfl, List.forall₂_same.mpr fun _ _ => .inl rfl⟩

theorem Mirrored.getVariable {p p' : QP} (h : Mirrored p p') (k : Key) : p'.getVariable k = p.getVariable k := by
  obtain ⟨L, Q, rfl, -, -⟩ := h; rfl

theorem Mirrored.vars {p p' : QP} (h : Mirrored p p') : p'.vars = p.vars := by obtain ⟨L, Q, rfl, -, -⟩ := h; rfl
theorem Mirrored.name {p p' : QP} (h : Mirrored p p') : p'.name = p.name := by obtain ⟨L, Q, rfl, -, -⟩ := h; rfl
theorem Mirrored.objective {p p' : QP} (h : Mirrored p p') : p'.objective = p.objective := by
  obtain ⟨L, Q, rfl, -, -⟩ := h; rfl

/-! ## Builder calls -/

section builder
variable (L : List LinCst) (Q : List QuadCst)

theorem addOneVar_put (p : QP) (s : String) (lb ub : ℚ) (t : VarType) :
    ({ p with lins := L, quads := Q } : QP).addOneVar s lb ub t =
      ((p.addOneVar s lb ub t).1, { (p.addOneVar s lb ub t).2 with lins := L, quads := Q }) := by
  unfold QP.addOneVar
  simp only [show ({ p with lins := L, quads := Q } : QP).numVars = p.numVars from rfl]
  split
  · rfl
  · cases Variable.mk? s lb ub t <;> rfl

theorem addVarsCount_put (s : String) (fmt : KeyFormat) (lb ub : ℚ) (t : VarType) (m k : Nat) (p : QP) :
    QP.addVarsCount s fmt lb ub t m k { p with lins := L, quads := Q } =
      ((QP.addVarsCount s fmt lb ub t m k p).1, { (QP.addVarsCount s fmt lb ub t m k p).2 with lins := L, quads := Q }) := by
  induction m generalizing k p with
  | zero => rfl
  | succ m ih =>
    simp only [QP.addVarsCount]
    cases findName p.varsIndex s fmt (p.varsIndex.length + 2) none k with
    | error e => rfl
    | ok r =>
      simp only
      rw [addOneVar_put]
      generalize p.addOneVar r.1 lb ub t = a
      obtain ⟨a, p'⟩ := a
      cases a with
      | error e => rfl
      | ok v =>
        simp only
        rw [ih]
        generalize QP.addVarsCount s fmt lb ub t m r.2 p' = b
        obtain ⟨b, p''⟩ := b
        cases b <;> rfl

theorem addVariable_put (p : QP) (lb ub : ℚ) (t : VarType) (s : String) :
    ({ p with lins := L, quads := Q } : QP).addVariable lb ub t (some s) =
      ((p.addVariable lb ub t (some s)).1, { (p.addVariable lb ub t (some s)).2 with lins := L, quads := Q }) := by
  simp only [QP.addVariable, QP.addVariables, show ({ p with lins := L, quads := Q } : QP).numVars = p.numVars from rfl,
    Option.getD_some]
  rw [if_neg (by decide), if_neg (by decide), if_neg (by decide), if_neg (by decide), addVarsCount_put]
  generalize QP.addVarsCount s (.lit "") lb ub t _ p.numVars p = a
  obtain ⟨a, p'⟩ := a
  cases a with
  | error e => rfl
  | ok l => cases l <;> rfl

end builder

theorem Mirrored.addVariable {p p' d : QP} (h : Mirrored p p') {lb ub : ℚ} {t : VarType} {s : String} {v : Variable}
    (h1 : p.addVariable lb ub t (some s) = (.ok v, d)) :
    ∃ d', p'.addVariable lb ub t (some s) = (.ok v, d') ∧ Mirrored d d' := by
  obtain ⟨L, Q, rfl, hL, hQ⟩ := h
  have hx := addVariable_extends h1
  rw [addVariable_put, h1]
  exact ⟨_, rfl, L, Q, rfl, hx.lins ▸ hL, hx.quads ▸ hQ⟩

theorem Mirrored.addVariable_error {p p' d : QP} (h : Mirrored p p') {lb ub : ℚ} {t : VarType} {s : String} {e : Err}
    (h1 : p.addVariable lb ub t (some s) = (.error e, d)) : ∃ d', p'.addVariable lb ub t (some s) = (.error e, d') := by
  obtain ⟨L, Q, rfl, -, -⟩ := h
  rw [addVariable_put, h1]
  exact ⟨_, rfl⟩

theorem Mirrored.linearConstraint {p p' : QP} (h : Mirrored p p') (b : Bool) (l : LinInput) {si si' : SenseInput} {s : Sense}
    (e1 : Sense.convert si = .ok s) (e2 : Sense.convert si' = .ok (ts b s)) (r : ℚ) (n : Option String) :
    RelRes (Res.toE (p.linearConstraint l si r n)) (Res.toE (p'.linearConstraint (tl b l) si' (tv b r) n)) := by
  obtain ⟨L, Q, rfl, hL, hQ⟩ := h
  unfold QP.linearConstraint
  simp only [e1, e2]
  rw [← hL.length_eq]
  cases chooseName p.linsIndex p.lins.length "c" n with
  | error e => rfl
  | ok nm =>
    simp only [QP.numVars]
    cases b with
    | false =>
      cases hl : LinExpr.ofInput p.varsIndex p.vars.length l with
      | error e => simp only [tl, Bool.false_eq_true, if_false, hl]; rfl
      | ok m =>
        simp only [tl, Bool.false_eq_true, if_false, hl]
        exact ⟨_, Q, rfl, List.rel_append hL (.cons (.inl rfl) .nil), hQ⟩
    | true =>
      simp only [tl, if_true]
      rw [linExpr_neg]
      cases hl : LinExpr.ofInput p.varsIndex p.vars.length l with
      | error e => rfl
      | ok m =>
        exact ⟨_, Q, rfl, List.rel_append hL (.cons (.inr rfl) .nil), hQ⟩

theorem Mirrored.quadraticConstraint {p p' : QP} (h : Mirrored p p') (b : Bool) (l : LinInput) (q : QuadInput)
    {si si' : SenseInput} {s : Sense} (e1 : Sense.convert si = .ok s) (e2 : Sense.convert si' = .ok (ts b s)) (r : ℚ)
    (n : Option String) :
    RelRes (Res.toE (p.quadraticConstraint l q si r n))
      (Res.toE (p'.quadraticConstraint (tl b l) (tq b q) si' (tv b r) n)) := by
  obtain ⟨L, Q, rfl, hL, hQ⟩ := h
  unfold QP.quadraticConstraint
  simp only [e1, e2]
  rw [← hQ.length_eq]
  cases chooseName p.quadsIndex p.quads.length "q" n with
  | error e => rfl
  | ok nm =>
    simp only [QP.numVars]
    cases b with
    | false =>
      simp only [tl, tq, Bool.false_eq_true, if_false]
      cases hl : LinExpr.ofInput p.varsIndex p.vars.length l with
      | error e => rfl
      | ok m =>
        simp only
        cases hq : QuadExpr.ofInput p.varsIndex p.vars.length q with
        | error e => rfl
        | ok k => exact ⟨L, _, rfl, hL, List.rel_append hQ (.cons (.inl rfl) .nil)⟩
    | true =>
      simp only [tl, tq, if_true]
      rw [linExpr_neg, quadExpr_neg]
      cases hl : LinExpr.ofInput p.varsIndex p.vars.length l with
      | error e => rfl
      | ok m =>
        simp only [Except.map]
        cases hq : QuadExpr.ofInput p.varsIndex p.vars.length q with
        | error e => rfl
        | ok k => exact ⟨L, _, rfl, hL, List.rel_append hQ (.cons (.inr rfl) .nil)⟩

/-! ## Slack variables -/

theorem min_negs (a b : ℚ) : min (-a) (-b) = -max a b := by
  rcases le_total a b with h | h
  · rw [max_eq_right h, min_eq_right (neg_le_neg h)]
  · rw [max_eq_left h, min_eq_left (neg_le_neg h)]

theorem max_negs (a b : ℚ) : max (-a) (-b) = -min a b := by
  rcases le_total a b with h | h
  · rw [min_eq_left h, max_eq_left (neg_le_neg h)]
  · rw [min_eq_right h, max_eq_right (neg_le_neg h)]

theorem rat_ceil_neg (r : ℚ) : (-r).ceil = -r.floor := by
  rw [Rat.ceil_eq_neg_floor_neg, neg_neg]

theorem rat_floor_neg (r : ℚ) : (-r).floor = -r.ceil := by
  rw [Rat.ceil_eq_neg_floor_neg, neg_neg]

theorem calcLinBounds_td {src src' : QP} (h : Mirrored src src') (b : Bool) (d : Dict String) (acc : ℚ × ℚ) :
    calcLinBounds src' (td b d) (tb b acc) = (calcLinBounds src d acc).map (tb b) := by
  cases b with
  | false =>
    show calcLinBounds src' d acc = (calcLinBounds src d acc).map id
    rw [show (calcLinBounds src d acc).map id = calcLinBounds src d acc by cases calcLinBounds src d acc <;> rfl]
    induction d generalizing acc with
    | nil => rfl
    | cons p d ih =>
      obtain ⟨s, v⟩ := p
      simp only [calcLinBounds, h.getVariable]
      cases src.getVariable (.name s) with
      | error e => rfl
      | ok x => exact ih _
  | true =>
    simp only [td, tb, if_true]
    induction d generalizing acc with
    | nil => rfl
    | cons p d ih =>
      obtain ⟨s, v⟩ := p
      rw [show negD ((s, v) :: d) = (s, -v) :: negD d from rfl]
      simp only [calcLinBounds, h.getVariable]
      cases src.getVariable (.name s) with
      | error e => rfl
      | ok x =>
        simp only
        rw [← ih]
        congr 2
        · simp only [mul_neg, min_negs, neg_add]
        · simp only [mul_neg, max_negs, neg_add]

theorem calcQuadBoundsLoop_td {src src' : QP} (h : Mirrored src src') (b : Bool) (d : Dict (String × String)) (acc : ℚ × ℚ) :
    calcQuadBoundsLoop src' (td b d) (tb b acc) = (calcQuadBoundsLoop src d acc).map (tb b) := by
  cases b with
  | false =>
    show calcQuadBoundsLoop src' d acc = (calcQuadBoundsLoop src d acc).map id
    rw [show (calcQuadBoundsLoop src d acc).map id = calcQuadBoundsLoop src d acc by
      cases calcQuadBoundsLoop src d acc <;> rfl]
    induction d generalizing acc with
    | nil => rfl
    | cons p d ih =>
      obtain ⟨⟨s, t⟩, v⟩ := p
      simp only [calcQuadBoundsLoop, h.getVariable]
      cases src.getVariable (.name s) with
      | error e => rfl
      | ok x =>
        simp only
        cases src.getVariable (.name t) with
        | error e => rfl
        | ok y => exact ih _
  | true =>
    simp only [td, tb, if_true]
    induction d generalizing acc with
    | nil => rfl
    | cons p d ih =>
      obtain ⟨⟨s, t⟩, v⟩ := p
      rw [show negD (((s, t), v) :: d) = ((s, t), -v) :: negD d from rfl]
      simp only [calcQuadBoundsLoop, h.getVariable]
      cases src.getVariable (.name s) with
      | error e => rfl
      | ok x =>
        simp only
        cases src.getVariable (.name t) with
        | error e => rfl
        | ok y =>
          simp only
          rw [← ih]
          congr 2
          · simp only [mul_neg, min_negs, neg_add]
          · simp only [mul_neg, max_negs, neg_add]

theorem calcQuadBounds_td {src src' : QP} (h : Mirrored src src') (b : Bool) (l : Dict String) (q : Dict (String × String)) :
    calcQuadBounds src' (td b l) (td b q) = (calcQuadBounds src l q).map (tb b) := by
  unfold calcQuadBounds
  have h1 := calcLinBounds_td h b l (0, 0)
  rw [show tb b (0, 0) = (0, 0) by cases b <;> simp [tb]] at h1
  rw [h1]
  cases calcLinBounds src l (0, 0) with
  | error e => rfl
  | ok acc => exact calcQuadBoundsLoop_td h b q acc

theorem slackVar_td {dst dst' : QP} (h : Mirrored dst dst') (b : Bool) (t : VarType) (n : String) (s : Sense) (r : ℚ)
    (x : ℚ × ℚ) :
    (∀ e, slackVar dst t n s r x.1 x.2 = .error e → slackVar dst' t n (ts b s) (tv b r) (tb b x).1 (tb b x).2 = .error e) ∧
    ∀ o d, slackVar dst t n s r x.1 x.2 = .ok (o, d) → ∃ d',
      slackVar dst' t n (ts b s) (tv b r) (tb b x).1 (tb b x).2 = .ok (tsl b o, d') ∧ Mirrored d d' := by
  have key : ∀ w : ℚ, ∀ sg : ℚ,
      (∀ e, (if w > 0 then
          match dst.addVariable 0 w t (some n) with
          | (.error e, _) => .error e
          | (.ok _, dst) => .ok (some (n, sg), dst)
        else .ok (none, dst) : Except Err (Option (String × ℚ) × QP)) = .error e →
        (if w > 0 then
          match dst'.addVariable 0 w t (some n) with
          | (.error e, _) => .error e
          | (.ok _, dst) => .ok (some (n, tv b sg), dst)
        else .ok (none, dst') : Except Err (Option (String × ℚ) × QP)) = .error e) ∧
      ∀ o d, (if w > 0 then
          match dst.addVariable 0 w t (some n) with
          | (.error e, _) => .error e
          | (.ok _, dst) => .ok (some (n, sg), dst)
        else .ok (none, dst) : Except Err (Option (String × ℚ) × QP)) = .ok (o, d) →
        ∃ d', (if w > 0 then
          match dst'.addVariable 0 w t (some n) with
          | (.error e, _) => .error e
          | (.ok _, dst) => .ok (some (n, tv b sg), dst)
        else .ok (none, dst') : Except Err (Option (String × ℚ) × QP)) = .ok (tsl b o, d') ∧ Mirrored d d' := by
    intro w sg
    by_cases hw : w > 0
    · simp only [if_pos hw]
      generalize ha : dst.addVariable 0 w t (some n) = a
      obtain ⟨a, d0⟩ := a
      cases a with
      | error e =>
        obtain ⟨d', h'⟩ := h.addVariable_error ha
        rw [h']
        exact ⟨fun e' he => he, fun o d he => by cases he⟩
      | ok v =>
        obtain ⟨d', h', hm⟩ := h.addVariable ha
        rw [h']
        refine ⟨fun e' he => (by cases he), fun o d he => ?_⟩
        cases he
        exact ⟨d', rfl, hm⟩
    · simp only [if_neg hw]
      refine ⟨fun e' he => (by cases he), fun o d he => ?_⟩
      cases he
      exact ⟨dst', rfl, h⟩
  cases b with
  | false =>
    cases s with
    | le => exact key (r - x.1) 1
    | ge => exact key (x.2 - r) (-1)
    | eq => exact ⟨fun e he => he, fun o d he => by cases he⟩
  | true =>
    cases s with
    | le =>
      have := key (r - x.1) 1
      simp only [ts, tv, tb, if_true, Sense.mirror, slackVar] at this ⊢
      rw [show -x.1 - -r = r - x.1 by ring]
      exact this
    | ge =>
      have := key (x.2 - r) (-1)
      simp only [ts, tv, tb, if_true, Sense.mirror, slackVar, neg_neg] at this ⊢
      rw [show -r - -x.2 = x.2 - r by ring]
      exact this
    | eq => exact ⟨fun e he => he, fun o d he => by cases he⟩

theorem withSlack_td (b : Bool) (lin : Dict String) (o : Option (String × ℚ)) :
    withSlack (td b lin) (tsl b o) = td b (withSlack lin o) := by
  cases b with
  | false => cases o <;> rfl
  | true =>
    cases o with
    | none => rfl
    | some a => exact set_negD lin a.1 a.2

theorem linNames_td (b : Bool) (d : Dict String) : linNames (td b d) = tl b (linNames d) := by
  cases b with
  | false => rfl
  | true => exact linNames_negD d

theorem quadNames_td (b : Bool) (d : Dict (String × String)) : quadNames (td b d) = tq b (quadNames d) := by
  cases b with
  | false => rfl
  | true => exact quadNames_negD d

theorem anyFloat_td {κ : Type} (b : Bool) (d : Dict κ) : anyFloat (td b d).values = anyFloat d.values := by
  cases b with
  | false => rfl
  | true =>
    unfold anyFloat Dict.values td negD
    simp [Function.comp_def]

theorem roundRhs_td (b : Bool) (s : Sense) (r : ℚ) : roundRhs (ts b s) (tv b r) = tv b (roundRhs s r) := by
  cases b with
  | false => rfl
  | true =>
    cases s with
    | le => simp [ts, tv, roundRhs, Sense.mirror, rat_ceil_neg]
    | ge => simp [ts, tv, roundRhs, Sense.mirror, rat_floor_neg]
    | eq => rfl

theorem toDictNames_td (b : Bool) (n : Nat) (d : Dict Nat) (vars : List Variable) :
    LinExpr.toDictNames ⟨n, td b d⟩ vars = td b (LinExpr.toDictNames ⟨n, d⟩ vars) := by
  cases b with
  | false => rfl
  | true => exact linToDictNames_negD n d vars

theorem quadToDictNames_td (b : Bool) (n : Nat) (d : Dict (Nat × Nat)) (vars : List Variable) :
    QuadExpr.toDictNames ⟨n, td b d⟩ vars = td b (QuadExpr.toDictNames ⟨n, d⟩ vars) := by
  cases b with
  | false => rfl
  | true => exact quadToDictNames_negD n d vars

theorem ts_eq (b : Bool) : ts b .eq = .eq := by cases b <;> rfl

variable {src src' dst dst' : QP}

theorem intSlackLin_td (hs : Mirrored src src') (h : Mirrored dst dst') (b : Bool) (lin : Dict String) (s : Sense) (r : ℚ)
    (n : String) :
    RelRes (intSlackLin src dst lin s r n) (intSlackLin src' dst' (td b lin) (ts b s) (tv b r) n) := by
  unfold intSlackLin
  rw [anyFloat_td, roundRhs_td]
  split
  · rfl
  · have h1 := calcLinBounds_td hs b lin (0, 0)
    rw [show tb b (0, 0) = (0, 0) by cases b <;> simp [tb]] at h1
    rw [h1]
    cases calcLinBounds src lin (0, 0) with
    | error e => rfl
    | ok x =>
      obtain ⟨k1, k2⟩ := slackVar_td h b .integer (n ++ delim ++ "int_slack") s (roundRhs s r) x
      simp only [Except.map]
      cases hv : slackVar dst .integer (n ++ delim ++ "int_slack") s (roundRhs s r) x.1 x.2 with
      | error e => rw [k1 e hv]; rfl
      | ok a =>
        obtain ⟨d', hd, hm⟩ := k2 a.1 a.2 hv
        rw [hd]
        simp only
        rw [withSlack_td, linNames_td]
        have hr := hm.linearConstraint b (linNames (withSlack lin a.1)) (si := .str "==") (si' := .str "==")
          (s := .eq) eqeq_convert (by rw [ts_eq]; exact eqeq_convert) (roundRhs s r) (some n)
        revert hr
        generalize a.2.linearConstraint _ _ _ _ = u
        generalize d'.linearConstraint _ _ _ _ = u'
        obtain ⟨u | u, x⟩ := u <;> obtain ⟨u' | u', x'⟩ := u' <;> exact id

theorem contSlackLin_td (hs : Mirrored src src') (h : Mirrored dst dst') (b : Bool) (lin : Dict String) (s : Sense) (r : ℚ)
    (n : String) :
    RelRes (contSlackLin src dst lin s r n) (contSlackLin src' dst' (td b lin) (ts b s) (tv b r) n) := by
  unfold contSlackLin
  have h1 := calcLinBounds_td hs b lin (0, 0)
  rw [show tb b (0, 0) = (0, 0) by cases b <;> simp [tb]] at h1
  rw [h1]
  cases calcLinBounds src lin (0, 0) with
  | error e => rfl
  | ok x =>
    obtain ⟨k1, k2⟩ := slackVar_td h b .continuous (n ++ delim ++ "continuous_slack") s r x
    simp only [Except.map]
    cases hv : slackVar dst .continuous (n ++ delim ++ "continuous_slack") s r x.1 x.2 with
    | error e => rw [k1 e hv]; rfl
    | ok a =>
      obtain ⟨d', hd, hm⟩ := k2 a.1 a.2 hv
      rw [hd]
      simp only
      rw [withSlack_td, linNames_td]
      have hr := hm.linearConstraint b (linNames (withSlack lin a.1)) (si := .str "==") (si' := .str "==")
        (s := .eq) eqeq_convert (by rw [ts_eq]; exact eqeq_convert) (r) (some n)
      revert hr
      generalize a.2.linearConstraint _ _ _ _ = u
      generalize d'.linearConstraint _ _ _ _ = u'
      obtain ⟨u | u, x⟩ := u <;> obtain ⟨u' | u', x'⟩ := u' <;> exact id

theorem intSlackQuad_td (hs : Mirrored src src') (h : Mirrored dst dst') (b : Bool) (lin : Dict String)
    (quad : Dict (String × String)) (s : Sense) (r : ℚ) (n : String) :
    RelRes (intSlackQuad src dst lin quad s r n)
      (intSlackQuad src' dst' (td b lin) (td b quad) (ts b s) (tv b r) n) := by
  unfold intSlackQuad
  rw [anyFloat_td, anyFloat_td, roundRhs_td]
  split
  · rfl
  · rw [calcQuadBounds_td hs]
    cases calcQuadBounds src lin quad with
    | error e => rfl
    | ok x =>
      obtain ⟨k1, k2⟩ := slackVar_td h b .integer (n ++ delim ++ "int_slack") s (roundRhs s r) x
      simp only [Except.map]
      cases hv : slackVar dst .integer (n ++ delim ++ "int_slack") s (roundRhs s r) x.1 x.2 with
      | error e => rw [k1 e hv]; rfl
      | ok a =>
        obtain ⟨d', hd, hm⟩ := k2 a.1 a.2 hv
        rw [hd]
        simp only
        rw [withSlack_td, linNames_td, quadNames_td]
        have hr := hm.quadraticConstraint b (linNames (withSlack lin a.1)) (quadNames quad) (si := .str "==") (si' := .str "==")
          (s := .eq) eqeq_convert (by rw [ts_eq]; exact eqeq_convert) (roundRhs s r) (some n)
        revert hr
        generalize a.2.quadraticConstraint _ _ _ _ _ = u
        generalize d'.quadraticConstraint _ _ _ _ _ = u'
        obtain ⟨u | u, x⟩ := u <;> obtain ⟨u' | u', x'⟩ := u' <;> exact id

theorem contSlackQuad_td (hs : Mirrored src src') (h : Mirrored dst dst') (b : Bool) (lin : Dict String)
    (quad : Dict (String × String)) (s : Sense) (r : ℚ) (n : String) :
    RelRes (contSlackQuad src dst lin quad s r n)
      (contSlackQuad src' dst' (td b lin) (td b quad) (ts b s) (tv b r) n) := by
  unfold contSlackQuad
  rw [calcQuadBounds_td hs]
  cases calcQuadBounds src lin quad with
  | error e => rfl
  | ok x =>
    obtain ⟨k1, k2⟩ := slackVar_td h b .continuous (n ++ delim ++ "continuous_slack") s r x
    simp only [Except.map]
    cases hv : slackVar dst .continuous (n ++ delim ++ "continuous_slack") s r x.1 x.2 with
    | error e => rw [k1 e hv]; rfl
    | ok a =>
      obtain ⟨d', hd, hm⟩ := k2 a.1 a.2 hv
      rw [hd]
      simp only
      rw [withSlack_td, linNames_td, quadNames_td]
      have hr := hm.quadraticConstraint b (linNames (withSlack lin a.1)) (quadNames quad) (si := .str "==") (si' := .str "==")
        (s := .eq) eqeq_convert (by rw [ts_eq]; exact eqeq_convert) (r) (some n)
      revert hr
      generalize a.2.quadraticConstraint _ _ _ _ _ = u
      generalize d'.quadraticConstraint _ _ _ _ _ = u'
      obtain ⟨u | u, x⟩ := u <;> obtain ⟨u' | u', x'⟩ := u' <;> exact id

theorem i2eLinOne_td (mode : SlackMode) (hs : Mirrored src src') (h : Mirrored dst dst') {k k' : LinCst}
    (hk : k' = k ∨ k' = LinCst.mirror k) : RelRes (i2eLinOne mode src dst k) (i2eLinOne mode src' dst' k') := by
  obtain ⟨b, rfl⟩ := LinCst.turned hk
  unfold i2eLinOne
  simp only [hs.vars]
  rw [toDictNames_td]
  have ineq : ∀ lin : Dict String, RelRes
      (match mode with
        | .integer => intSlackLin src dst lin k.sense k.rhs k.name
        | .continuous => contSlackLin src dst lin k.sense k.rhs k.name
        | .auto => autoSlackLin src dst lin k.sense k.rhs k.name
        | .other => .error .optimization)
      (match mode with
        | .integer => intSlackLin src' dst' (td b lin) (ts b k.sense) (tv b k.rhs) k.name
        | .continuous => contSlackLin src' dst' (td b lin) (ts b k.sense) (tv b k.rhs) k.name
        | .auto => autoSlackLin src' dst' (td b lin) (ts b k.sense) (tv b k.rhs) k.name
        | .other => .error .optimization) := by
    intro lin
    cases mode with
    | integer => exact intSlackLin_td hs h b _ _ _ _
    | continuous => exact contSlackLin_td hs h b _ _ _ _
    | auto =>
      simp only [autoSlackLin, anyFloat_td]
      split
      · exact contSlackLin_td hs h b _ _ _ _
      · exact intSlackLin_td hs h b _ _ _ _
    | other => rfl
  cases hsn : k.sense with
  | eq =>
    rw [ts_eq]
    simp only
    rw [linNames_td]
    have hr := h.linearConstraint b (linNames (k.linear.toDictNames src.vars)) (si := .sense .eq) (si' := .sense .eq)
      (s := .eq) rfl (by rw [ts_eq]; rfl) k.rhs (some k.name)
    revert hr
    generalize dst.linearConstraint _ _ _ _ = u
    generalize dst'.linearConstraint _ _ _ _ = u'
    obtain ⟨u | u, x⟩ := u <;> obtain ⟨u' | u', x'⟩ := u' <;> exact id
  | le =>
    have := ineq (k.linear.toDictNames src.vars)
    rw [hsn] at this
    cases b <;> exact this
  | ge =>
    have := ineq (k.linear.toDictNames src.vars)
    rw [hsn] at this
    cases b <;> exact this

theorem i2eQuadOne_td (mode : SlackMode) (hs : Mirrored src src') (h : Mirrored dst dst') {k k' : QuadCst}
    (hk : k' = k ∨ k' = QuadCst.mirror k) : RelRes (i2eQuadOne mode src dst k) (i2eQuadOne mode src' dst' k') := by
  obtain ⟨b, rfl⟩ := QuadCst.turned hk
  unfold i2eQuadOne
  simp only [hs.vars]
  rw [toDictNames_td, quadToDictNames_td]
  have ineq : ∀ (lin : Dict String) (quad : Dict (String × String)), RelRes
      (match mode with
        | .integer => intSlackQuad src dst lin quad k.sense k.rhs k.name
        | .continuous => contSlackQuad src dst lin quad k.sense k.rhs k.name
        | .auto => autoSlackQuad src dst lin quad k.sense k.rhs k.name
        | .other => .error .optimization)
      (match mode with
        | .integer => intSlackQuad src' dst' (td b lin) (td b quad) (ts b k.sense) (tv b k.rhs) k.name
        | .continuous => contSlackQuad src' dst' (td b lin) (td b quad) (ts b k.sense) (tv b k.rhs) k.name
        | .auto => autoSlackQuad src' dst' (td b lin) (td b quad) (ts b k.sense) (tv b k.rhs) k.name
        | .other => .error .optimization) := by
    intro lin quad
    cases mode with
    | integer => exact intSlackQuad_td hs h b _ _ _ _ _
    | continuous => exact contSlackQuad_td hs h b _ _ _ _ _
    | auto =>
      simp only [autoSlackQuad, anyFloat_td]
      split
      · exact contSlackQuad_td hs h b _ _ _ _ _
      · exact intSlackQuad_td hs h b _ _ _ _ _
    | other => rfl
  cases hsn : k.sense with
  | eq =>
    rw [ts_eq]
    simp only
    rw [linNames_td, quadNames_td]
    have hr := h.quadraticConstraint b (linNames (k.linear.toDictNames src.vars)) (quadNames (k.quadratic.toDictNames src.vars)) (si := .sense .eq) (si' := .sense .eq)
      (s := .eq) rfl (by rw [ts_eq]; rfl) k.rhs (some k.name)
    revert hr
    generalize dst.quadraticConstraint _ _ _ _ _ = u
    generalize dst'.quadraticConstraint _ _ _ _ _ = u'
    obtain ⟨u | u, x⟩ := u <;> obtain ⟨u' | u', x'⟩ := u' <;> exact id
  | le =>
    have := ineq (k.linear.toDictNames src.vars) (k.quadratic.toDictNames src.vars)
    rw [hsn] at this
    cases b <;> exact this
  | ge =>
    have := ineq (k.linear.toDictNames src.vars) (k.quadratic.toDictNames src.vars)
    rw [hsn] at this
    cases b <;> exact this

theorem i2eLins_td (mode : SlackMode) (hs : Mirrored src src') {ks ks' : List LinCst}
    (hk : List.Forall₂ (fun c c' => c' = c ∨ c' = LinCst.mirror c) ks ks') {dst dst' : QP} (h : Mirrored dst dst') :
    RelRes (i2eLins mode src ks dst) (i2eLins mode src' ks' dst') := by
  induction hk generalizing dst dst' with
  | nil => exact h
  | cons h1 _ ih =>
    rename_i k k' ks ks' _
    have hr := i2eLinOne_td mode hs h h1
    simp only [i2eLins]
    revert hr
    cases i2eLinOne mode src dst k <;> cases i2eLinOne mode src' dst' k' <;> intro hr
    · exact hr
    · exact hr.elim
    · exact hr.elim
    · exact ih hr

theorem i2eQuads_td (mode : SlackMode) (hs : Mirrored src src') {ks ks' : List QuadCst}
    (hk : List.Forall₂ (fun c c' => c' = c ∨ c' = QuadCst.mirror c) ks ks') {dst dst' : QP} (h : Mirrored dst dst') :
    RelRes (i2eQuads mode src ks dst) (i2eQuads mode src' ks' dst') := by
  induction hk generalizing dst dst' with
  | nil => exact h
  | cons h1 _ ih =>
    rename_i k k' ks ks' _
    have hr := i2eQuadOne_td mode hs h h1
    simp only [i2eQuads]
    revert hr
    cases i2eQuadOne mode src dst k <;> cases i2eQuadOne mode src' dst' k' <;> intro hr
    · exact hr
    · exact hr.elim
    · exact hr.elim
    · exact ih hr

theorem ineqToEq_td (mode : SlackMode) (hs : Mirrored src src') : RelRes (src.ineqToEq mode) (src'.ineqToEq mode) := by
  unfold QP.ineqToEq
  rw [hs.vars, hs.name, hs.objective]
  cases copyAllVars src.vars (QP.empty src.name) with
  | error e => rfl
  | ok d =>
    simp only
    generalize d.setObjective _ _ _ _ = a
    obtain ⟨a, d0⟩ := a
    cases a with
    | error e => rfl
    | ok _ =>
      have hs0 := hs
      obtain ⟨L, Q, he, hL, hQ⟩ := hs0
      have hl : src'.lins = L := by rw [he]
      have hq : src'.quads = Q := by rw [he]
      have hr := i2eLins_td mode hs hL (Mirrored.refl d0)
      simp only [hl, hq]
      revert hr
      cases i2eLins mode src src.lins d0 <;> cases i2eLins mode src' L d0 <;> intro hr
      · exact hr
      · exact hr.elim
      · exact hr.elim
      · exact i2eQuads_td mode hs hQ hr

/-! ## Integer variables -/

theorem i2bLin_td (hs : Mirrored src src') (conv : Conv) (b : Bool) (d : Dict String) :
    i2bLin src' conv (td b d) [] 0 = (i2bLin src conv d [] 0).map fun r => (td b r.1, tv b r.2) := by
  have h0 : ∀ (d lin : Dict String) (c : ℚ), i2bLin src' conv d lin c = i2bLin src conv d lin c := by
    intro d
    induction d with
    | nil => intro lin c; rfl
    | cons p d ih =>
      intro lin c
      obtain ⟨s, v⟩ := p
      simp only [i2bLin, hs.getVariable, ih]
  rw [h0]
  cases b with
  | false =>
    rw [show td false d = d from rfl]
    cases i2bLin src conv d [] 0 <;> rfl
  | true =>
    have h := i2bLin_opposite src conv d [] 0
    rw [i2bLin_src, neg_zero] at h
    exact h

theorem i2bQuad_td (hs : Mirrored src src') (conv : Conv) (b : Bool) (d : Dict (String × String)) :
    i2bQuad src' conv (td b d) [] [] 0 =
      (i2bQuad src conv d [] [] 0).map fun r => (td b r.1, td b r.2.1, tv b r.2.2) := by
  have h0 : ∀ (d quad : Dict (String × String)) (lin : Dict String) (c : ℚ),
      i2bQuad src' conv d quad lin c = i2bQuad src conv d quad lin c := by
    intro d
    induction d with
    | nil => intro quad lin c; rfl
    | cons p d ih =>
      intro quad lin c
      obtain ⟨⟨s, t⟩, v⟩ := p
      simp only [i2bQuad, hs.getVariable, ih]
  rw [h0]
  cases b with
  | false =>
    rw [show td false d = d from rfl]
    cases i2bQuad src conv d [] [] 0 <;> rfl
  | true =>
    have h := i2bQuad_opposite src conv d [] [] 0
    rw [i2bQuad_src, neg_zero] at h
    exact h

theorem tv_sub (b : Bool) (x y : ℚ) : tv b x - tv b y = tv b (x - y) := by
  cases b with
  | false => rfl
  | true => simp only [tv, if_true]; ring

theorem tv_add (b : Bool) (x y : ℚ) : tv b x + tv b y = tv b (x + y) := by
  cases b with
  | false => rfl
  | true => simp only [tv, if_true]; ring

theorem dokPlus_td (b : Bool) (x y : Dict String) : dokPlus (td b x) (td b y) = td b (dokPlus x y) := by
  cases b with
  | false => rfl
  | true => exact dokPlus_negD x y

theorem i2bLins_td (hs : Mirrored src src') (conv : Conv) {ks ks' : List LinCst}
    (hk : List.Forall₂ (fun c c' => c' = c ∨ c' = LinCst.mirror c) ks ks') {dst dst' : QP} (h : Mirrored dst dst') :
    RelRes (i2bLins src conv ks dst) (i2bLins src' conv ks' dst') := by
  induction hk generalizing dst dst' with
  | nil => exact h
  | cons h1 _ ih =>
    rename_i k k' ks ks' _
    obtain ⟨b, rfl⟩ := LinCst.turned h1
    simp only [i2bLins, hs.vars]
    rw [toDictNames_td, i2bLin_td hs]
    cases i2bLin src conv (k.linear.toDictNames src.vars) [] 0 with
    | error e => rfl
    | ok r =>
      simp only [Except.map]
      rw [linNames_td, tv_sub]
      have hr := h.linearConstraint b (linNames r.1) (si := .sense k.sense) (si' := .sense (ts b k.sense)) rfl rfl
        (k.rhs - r.2) (some k.name)
      revert hr
      generalize dst.linearConstraint _ _ _ _ = u
      generalize dst'.linearConstraint _ _ _ _ = u'
      obtain ⟨u | u, x⟩ := u <;> obtain ⟨u' | u', x'⟩ := u' <;> intro hr
      · exact hr
      · exact hr.elim
      · exact hr.elim
      · exact ih hr

theorem i2bQuads_td (hs : Mirrored src src') (conv : Conv) {ks ks' : List QuadCst}
    (hk : List.Forall₂ (fun c c' => c' = c ∨ c' = QuadCst.mirror c) ks ks') {dst dst' : QP} (h : Mirrored dst dst') :
    RelRes (i2bQuads src conv ks dst) (i2bQuads src' conv ks' dst') := by
  induction hk generalizing dst dst' with
  | nil => exact h
  | cons h1 _ ih =>
    rename_i k k' ks ks' _
    obtain ⟨b, rfl⟩ := QuadCst.turned h1
    simp only [i2bQuads, hs.vars]
    rw [toDictNames_td, quadToDictNames_td, i2bLin_td hs, i2bQuad_td hs]
    cases i2bLin src conv (k.linear.toDictNames src.vars) [] 0 with
    | error e => rfl
    | ok r =>
      simp only [Except.map]
      cases i2bQuad src conv (k.quadratic.toDictNames src.vars) [] [] 0 with
      | error e => rfl
      | ok q =>
        simp only
        rw [dokPlus_td, linNames_td, quadNames_td, tv_add, tv_sub]
        have hr := h.quadraticConstraint b (linNames (dokPlus r.1 q.2.1)) (quadNames q.1) (si := .sense k.sense)
          (si' := .sense (ts b k.sense)) rfl rfl (k.rhs - (r.2 + q.2.2)) (some k.name)
        revert hr
        generalize dst.quadraticConstraint _ _ _ _ _ = u
        generalize dst'.quadraticConstraint _ _ _ _ _ = u'
        obtain ⟨u | u, x⟩ := u <;> obtain ⟨u' | u', x'⟩ := u' <;> intro hr
        · exact hr
        · exact hr.elim
        · exact hr.elim
        · exact ih hr

theorem i2bObjective_td (hs : Mirrored src src') (conv : Conv) (dst : QP) :
    i2bObjective src' conv dst = i2bObjective src conv dst := by
  obtain ⟨L, Q, rfl, hL, hQ⟩ := hs
  have hs : Mirrored src { src with lins := L, quads := Q } := ⟨L, Q, rfl, hL, hQ⟩
  have h1 := i2bLin_td hs conv false (src.objective.linear.toDictNames src.vars)
  have h2 := i2bQuad_td hs conv false (src.objective.quadratic.toDictNames src.vars)
  rw [show (td false (src.objective.linear.toDictNames src.vars)) = src.objective.linear.toDictNames src.vars from rfl] at h1
  rw [show (td false (src.objective.quadratic.toDictNames src.vars)) = src.objective.quadratic.toDictNames src.vars from rfl]
    at h2
  unfold i2bObjective
  simp only [h1, h2]
  cases i2bLin src conv (src.objective.linear.toDictNames src.vars) [] 0 with
  | error e => rfl
  | ok r => cases i2bQuad src conv (src.objective.quadratic.toDictNames src.vars) [] [] 0 <;> rfl

/-- The same error, or converters in mirrored states. -/
def RelI2B : Except Err I2B → Except Err I2B → Prop
  | .ok c, .ok c' => Mirrored c.src c'.src ∧ Mirrored c.dst c'.dst ∧ c'.conv = c.conv
  | .error e, .error e' => e' = e
  | _, _ => False

theorem intToBin_td (hs : Mirrored src src') : RelI2B src.intToBin src'.intToBin := by
  unfold QP.intToBin QP.numIntegerVars
  rw [hs.vars, hs.name]
  split
  · cases i2bVars src.vars [] (QP.empty src.name) with
    | error e => rfl
    | ok r =>
      simp only
      rw [i2bObjective_td hs]
      cases i2bObjective src r.1 r.2 with
      | error e => rfl
      | ok d =>
        have hs0 := hs
        obtain ⟨L, Q, he, hL, hQ⟩ := hs0
        have hl : src'.lins = L := by rw [he]
        have hq : src'.quads = Q := by rw [he]
        have hr := i2bLins_td hs r.1 hL (Mirrored.refl d)
        simp only [hl, hq]
        revert hr
        cases i2bLins src r.1 src.lins d <;> cases i2bLins src' r.1 L d <;> intro hr
        · exact hr
        · exact hr.elim
        · exact hr.elim
        · rename_i d1 d1'
          have hr2 := i2bQuads_td hs r.1 hQ (show Mirrored d1 d1' from hr)
          simp only
          revert hr2
          cases i2bQuads src r.1 src.quads d1 <;> cases i2bQuads src' r.1 Q d1' <;> intro hr2
          · exact hr2
          · exact hr2.elim
          · exact hr2.elim
          · exact ⟨hs, hr2, rfl⟩
  · exact ⟨hs, hs, rfl⟩

/-! ## Penalties -/

theorem penLinear_td (f r : ℚ) (b : Bool) (row lin : Dict Nat) :
    penLinear f (tv b r) (td b row) lin = penLinear f r row lin := by
  cases b with
  | false => rfl
  | true =>
    simp only [tv, td, if_true]
    induction row generalizing lin with
    | nil => rfl
    | cons p row ih =>
      show penLinear f (-r) (negD row) (Dict.add lin p.1 (f * -2 * -p.2 * -r)) = _
      rw [ih]
      simp only [penLinear]
      congr 2
      ring

theorem penQuadRow_neg (f : ℚ) (j : Nat) (c : ℚ) (row : Dict Nat) (quad : Dict (Nat × Nat)) :
    penQuadRow f j (-c) (negD row) quad = penQuadRow f j c row quad := by
  induction row generalizing quad with
  | nil => rfl
  | cons p row ih =>
    show penQuadRow f j (-c) (negD row) (Dict.add quad (j, p.1) (f * -c * -p.2)) = _
    rw [ih]
    simp only [penQuadRow]
    congr 2
    ring

theorem penQuad_td (f : ℚ) (b : Bool) (all row : Dict Nat) (quad : Dict (Nat × Nat)) :
    penQuad f (td b all) (td b row) quad = penQuad f all row quad := by
  cases b with
  | false => rfl
  | true =>
    simp only [td, if_true]
    induction row generalizing quad with
    | nil => rfl
    | cons p row ih =>
      show penQuad f (negD all) (negD row) (penQuadRow f p.1 (-p.2) (negD all) quad) = _
      rw [ih, penQuadRow_neg]
      rfl

theorem penLoop_td (f : ℚ) {ks ks' : List LinCst}
    (hk : List.Forall₂ (fun c c' => c' = c ∨ c' = LinCst.mirror c) ks ks') (t : PenTerms) :
    penLoop f ks' t = penLoop f ks t := by
  induction hk generalizing t with
  | nil => rfl
  | cons h1 _ ih =>
    rename_i k k' ks ks' _
    obtain ⟨b, rfl⟩ := LinCst.turned h1
    simp only [penLoop]
    have hse : (ts b k.sense ≠ .eq) ↔ k.sense ≠ .eq := by cases b <;> cases k.sense <;> decide
    by_cases hq : k.sense ≠ .eq
    · rw [if_pos (hse.mpr hq), if_pos hq]
    · rw [if_neg (fun h => hq (hse.mp h)), if_neg hq, penLinear_td, penQuad_td, ih,
        show tv b k.rhs ^ 2 = k.rhs ^ 2 by cases b <;> simp [tv]]

theorem autoPenalty_td (hs : Mirrored src src') : autoPenalty src' = autoPenalty src := by
  obtain ⟨L, Q, rfl, hL, -⟩ := hs
  unfold autoPenalty
  have h : anyFloat (L.flatMap fun c => c.rhs :: c.linear.coeffs.values) =
      anyFloat (src.lins.flatMap fun c => c.rhs :: c.linear.coeffs.values) := by
    generalize src.lins = K at hL
    induction hL with
    | nil => rfl
    | cons h1 _ ih =>
      rename_i k k' ks ks' _
      obtain ⟨b, rfl⟩ := LinCst.turned h1
      have ha := anyFloat_td b k.linear.coeffs
      have hr : anyFloat [tv b k.rhs] = anyFloat [k.rhs] := by cases b <;> simp [tv, anyFloat]
      simp only [anyFloat, List.flatMap_cons, List.any_append, List.any_cons, List.any_nil, Bool.or_false] at ih ha hr ⊢
      rw [ih, ha, hr]
  simp only [h]

theorem toPenalty_td (hs : Mirrored src src') (penalty : Option ℚ) : src'.toPenalty penalty = src.toPenalty penalty := by
  unfold QP.toPenalty
  have hs0 := hs
  obtain ⟨L, Q, he, hL, hQ⟩ := hs0
  have hl : src'.lins = L := by rw [he]
  simp only [autoPenalty_td hs, hs.vars, hs.name, hs.objective, hl, penLoop_td _ hL]

theorem quboMsg_td (hs : Mirrored src src') : quboMsg src' = quboMsg src := by
  obtain ⟨L, Q, rfl, hL, hQ⟩ := hs
  unfold quboMsg
  have h1 : (L.all fun c => !anyFloat c.linear.coeffs.values) = src.lins.all fun c => !anyFloat c.linear.coeffs.values := by
    generalize src.lins = K at hL
    induction hL with
    | nil => rfl
    | cons h1 _ ih =>
      rename_i k k' ks ks' _
      obtain ⟨b, rfl⟩ := LinCst.turned h1
      simp only [List.all_cons, ih, anyFloat_td]
  have h2 : (Q.all fun c => !(anyFloat (c.quadratic.toDict false).values || anyFloat c.linear.coeffs.values)) =
      src.quads.all fun c => !(anyFloat (c.quadratic.toDict false).values || anyFloat c.linear.coeffs.values) := by
    clear h1
    generalize src.quads = K at hQ
    induction hQ with
    | nil => rfl
    | cons h1 _ ih =>
      rename_i k k' ks ks' _
      obtain ⟨b, rfl⟩ := QuadCst.turned h1
      simp only [List.all_cons, ih, anyFloat_td]
      rw [show QuadExpr.toDict ⟨k.quadratic.n, td b k.quadratic.coeffs⟩ false = td b (k.quadratic.toDict false) from rfl,
        anyFloat_td]
  simp only [h1, h2, ← hQ.length_eq]

/-- The same error, or the same QUBO, penalty and interpretation, from mirrored intermediate programs. -/
def RelQubo : Except Err QuboState → Except Err QuboState → Prop
  | .ok c, .ok c' => c'.dst = c.dst ∧ c'.pen = c.pen ∧ c'.interpret = c.interpret
  | .error e, .error e' => e' = e
  | _, _ => False

theorem toQubo_td (hs : Mirrored src src') (penalty : Option ℚ) : RelQubo (src.toQubo penalty) (src'.toQubo penalty) := by
  unfold QP.toQubo
  rw [quboMsg_td hs]
  split
  · rfl
  · have hr := ineqToEq_td .integer hs
    revert hr
    cases src.ineqToEq .integer <;> cases src'.ineqToEq .integer <;> intro hr
    · exact hr
    · exact hr.elim
    · exact hr.elim
    · rename_i d d'
      have hm : Mirrored d d' := hr
      have hi := intToBin_td hm
      simp only
      revert hi
      cases d.intToBin <;> cases d'.intToBin <;> intro hi
      · exact hi
      · exact hi.elim
      · exact hi.elim
      · rename_i c c'
        obtain ⟨i1, i2, i3⟩ := (hi : Mirrored c.src c'.src ∧ Mirrored c.dst c'.dst ∧ c'.conv = c.conv)
        simp only
        rw [toPenalty_td i2]
        cases c.dst.toPenalty penalty with
        | error e => rfl
        | ok r =>
          refine ⟨rfl, rfl, ?_⟩
          funext x
          simp only [QuboState.interpret, penInterpret, QP.numVars, I2B.interpret, ineqInterpret, i1.vars, i2.vars, i3,
            hm.vars, hs.vars]
          rfl

/-! ## Feasibility -/

/-- A constraint of either kind multiplied by -1. -/
def Cst.mirror : Cst → Cst
  | .lin c => .lin c.mirror
  | .quad c => .quad c.mirror

theorem isclose_neg (x y : ℚ) : isclose (-x) (-y) = isclose x y := by
  unfold isclose
  rw [show -x - -y = -(x - y) by ring, abs_neg, abs_neg, abs_neg]

theorem violates_mirror (s : Sense) (l r : ℚ) : violates s.mirror (-l) (-r) = violates s l r := by
  cases s <;> simp [violates, Sense.mirror, isclose_neg]

theorem evaluate_mirror (c : Cst) (x : List ℚ) : c.mirror.evaluate x = (c.evaluate x).map (-·) := by
  have hl : ∀ (n : Nat) (d : Dict Nat), LinExpr.evaluate ⟨n, negD d⟩ x = (LinExpr.evaluate ⟨n, d⟩ x).map (-·) := by
    intro n d
    unfold LinExpr.evaluate LinExpr.val
    simp only [sum_negD]
    split <;> rfl
  have hq : ∀ (n : Nat) (d : Dict (Nat × Nat)),
      QuadExpr.evaluate ⟨n, negD d⟩ x = (QuadExpr.evaluate ⟨n, d⟩ x).map (-·) := by
    intro n d
    unfold QuadExpr.evaluate QuadExpr.val
    simp only [sum_negD]
    split <;> rfl
  cases c with
  | lin c => exact hl _ _
  | quad c =>
    show (match LinExpr.evaluate ⟨c.linear.n, negD c.linear.coeffs⟩ x with
      | .error e => .error e
      | .ok l =>
        match QuadExpr.evaluate ⟨c.quadratic.n, negD c.quadratic.coeffs⟩ x with
        | .error e => .error e
        | .ok q => .ok (l + q)) = (Cst.evaluate (.quad c) x).map (-·)
    rw [hl, hq]
    simp only [Cst.evaluate]
    cases c.linear.evaluate x with
    | error e => rfl
    | ok l =>
      cases c.quadratic.evaluate x with
      | error e => rfl
      | ok q =>
        show Except.ok (-l + -q) = Except.ok (-(l + q))
        congr 1
        ring

theorem violatedCsts_mirror (x : List ℚ) {ks ks' : List Cst} (hk : List.Forall₂ (fun c c' => c' = c ∨ c' = Cst.mirror c) ks ks') :
    (∀ e, violatedCsts x ks = .error e → violatedCsts x ks' = .error e) ∧
    ∀ vc, violatedCsts x ks = .ok vc → ∃ vc', violatedCsts x ks' = .ok vc' ∧
      List.Forall₂ (fun c c' => c' = c ∨ c' = Cst.mirror c) vc vc' := by
  induction hk with
  | nil => exact ⟨fun e h => h, fun vc h => ⟨_, rfl, by cases h; exact .nil⟩⟩
  | cons h1 _ ih =>
    rename_i k k' ks ks' _
    have ht : ∃ f : ℚ → ℚ, k'.evaluate x = (k.evaluate x).map f ∧
        ∀ l, violates k'.sense (f l) k'.rhs = violates k.sense l k.rhs := by
      rcases h1 with rfl | rfl
      · exact ⟨id, by cases k'.evaluate x <;> rfl, fun _ => rfl⟩
      · exact ⟨(-·), evaluate_mirror k x, fun l => by cases k <;> exact violates_mirror _ _ _⟩
    obtain ⟨f, hf, hv⟩ := ht
    simp only [violatedCsts, hf]
    cases k.evaluate x with
    | error e => exact ⟨fun e' h => h, fun vc h => by cases h⟩
    | ok l =>
      simp only [Except.map, hv]
      cases hr : violatedCsts x ks with
      | error e =>
        rw [ih.1 e hr]
        exact ⟨fun e' h => h, fun vc h => by cases h⟩
      | ok vc =>
        obtain ⟨vc', h', hm⟩ := ih.2 vc hr
        rw [h']
        refine ⟨fun e' h => (by cases h), fun w h => ?_⟩
        cases h
        refine ⟨_, rfl, ?_⟩
        split
        · exact .cons h1 hm
        · exact hm

theorem Mirrored.csts {p p' : QP} (h : Mirrored p p') :
    List.Forall₂ (fun c c' => c' = c ∨ c' = Cst.mirror c) p.csts p'.csts := by
  obtain ⟨L, Q, rfl, hL, hQ⟩ := h
  refine List.rel_append ?_ ?_
  · rw [List.forall₂_map_left_iff, List.forall₂_map_right_iff]
    exact hL.imp fun c c' h => h.imp (congrArg _) (congrArg Cst.lin)
  · rw [List.forall₂_map_left_iff, List.forall₂_map_right_iff]
    exact hQ.imp fun c c' h => h.imp (congrArg _) (congrArg Cst.quad)

theorem Mirrored.feasibilityInfo {p p' : QP} (h : Mirrored p p') (x : List ℚ) :
    (∀ e, p.getFeasibilityInfo x = .error e → p'.getFeasibilityInfo x = .error e) ∧
    ∀ b vv vc, p.getFeasibilityInfo x = .ok (b, vv, vc) → ∃ vc', p'.getFeasibilityInfo x = .ok (b, vv, vc') ∧
      List.Forall₂ (fun c c' => c' = c ∨ c' = Cst.mirror c) vc vc' := by
  unfold QP.getFeasibilityInfo QP.numVars
  rw [h.vars]
  split
  · exact ⟨fun e h => h, fun b vv vc h => by cases h⟩
  · obtain ⟨h1, h2⟩ := violatedCsts_mirror x h.csts
    cases hr : violatedCsts x p.csts with
    | error e =>
      simp only [h1 e hr]
      exact ⟨fun e h => h, fun b vv vc h => by cases h⟩
    | ok vc =>
      obtain ⟨vc', h', hm⟩ := h2 vc hr
      simp only [h']
      refine ⟨fun e h => (by cases h), fun b vv w h => ?_⟩
      cases h
      refine ⟨vc', ?_, hm⟩
      congr 3
      cases hm <;> rfl

end Verif
