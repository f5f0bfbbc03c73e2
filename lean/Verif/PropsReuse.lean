import Verif.PropsPipeline
import Verif.ReuseLemmas

/-!
# C72: converter objects can be used again and again
-/

namespace Verif

/-! ## Specification: the states that objects reach

The index of the predicates is the penalty given last, by the constructor or by the setter. -/

/-- The states of an `IntegerToBinary` object after any calls of `convert`, successful or not. -/
inductive I2BUsed : I2BObj → Prop
  | new : I2BUsed I2BObj.new
  | convert {o} (left : Option QP) (p : QP) : I2BUsed o → I2BUsed (o.convert left p).2

/-- The states of a `LinearEqualityToPenalty` object. -/
inductive PenUsed : Option ℚ → PenObj → Prop
  | new (v : Option ℚ) : PenUsed v (PenObj.new v)
  | set {v o} (w : Option ℚ) : PenUsed v o → PenUsed w (o.setPenalty w)
  | convert {v o} (p : QP) : PenUsed v o → PenUsed v (o.convert p).2

/-- The states of a `QuadraticProgramToQubo` object. -/
inductive QuboUsed : Option ℚ → QuboObj → Prop
  | new (v : Option ℚ) : QuboUsed v (QuboObj.new v)
  | set {v o} (w : Option ℚ) : QuboUsed v o → QuboUsed w (o.setPenalty w)
  | convert {v o} (left : Option QP) (p : QP) : QuboUsed v o → QuboUsed v (o.convert left p).2

/-! ## Helper lemmas -/

theorem I2BUsed.keys {o : I2BObj} (h : I2BUsed o) : KeysLe o.copies o.conv := by
  induction h with
  | new => exact fun k _ => rfl
  | convert left p _ ih => exact I2BObj.convert_keys ih left p

/-- The flag tells whether the penalty was given; a given penalty is kept. -/
def PenObj.Holds (v : Option ℚ) (o : PenObj) : Prop := o.auto = v.isNone ∧ ∀ w, v = some w → o.penalty = some w

theorem PenObj.setPenalty_holds (o : PenObj) (v : Option ℚ) : (o.setPenalty v).Holds v :=
  ⟨rfl, fun _ h => h⟩

theorem PenObj.Holds.choice {v : Option ℚ} {o : PenObj} (h : o.Holds v) (p : QP) :
    (if o.auto then some (autoPenalty p) else o.penalty) = some (v.getD (autoPenalty p)) := by
  cases v with
  | none => rw [h.1]; rfl
  | some w => rw [h.1, h.2 w rfl]; rfl

theorem toPenalty_getD (v : Option ℚ) (p : QP) : p.toPenalty (some (v.getD (autoPenalty p))) = p.toPenalty v := rfl

theorem PenObj.convert_holds {v : Option ℚ} {o : PenObj} (h : o.Holds v) (p : QP) : (o.convert p).2.Holds v := by
  unfold PenObj.convert
  simp only
  rw [h.choice p]
  simp only
  cases p.toPenalty (some (v.getD (autoPenalty p))) with
  | error e => exact h
  | ok q =>
    refine ⟨h.1, fun w hw => ?_⟩
    simp only [hw, Option.getD_some]

theorem PenUsed.holds {v : Option ℚ} {o : PenObj} (h : PenUsed v o) : o.Holds v := by
  induction h with
  | new v => exact PenObj.setPenalty_holds _ v
  | set w _ _ => exact PenObj.setPenalty_holds _ w
  | convert p _ ih => exact PenObj.convert_holds ih p

theorem toPenalty_pen {v : Option ℚ} {p dst : QP} {pen : ℚ} (h : p.toPenalty v = .ok (dst, pen)) :
    pen = v.getD (autoPenalty p) := by
  unfold QP.toPenalty at h
  simp only at h
  split at h
  · simp at h
  · split at h
    · simp at h
    · split at h
      · simp at h
      · simp only [Except.ok.injEq, Prod.mk.injEq] at h
        exact h.2.symm

theorem PenObj.convert_eq {v : Option ℚ} {o : PenObj} (h : o.Holds v) (p : QP) :
    (o.convert p).1 = (p.toPenalty v).map Prod.fst ∧
      ∀ dst pen, p.toPenalty v = .ok (dst, pen) →
        (o.convert p).2.interpret = penInterpret p ∧ (o.convert p).2.penalty = some pen := by
  unfold PenObj.convert
  simp only
  rw [h.choice p]
  simp only
  rw [toPenalty_getD]
  cases hq : p.toPenalty v with
  | error e => exact ⟨rfl, by simp⟩
  | ok q =>
    refine ⟨rfl, fun dst pen hd => ⟨rfl, ?_⟩⟩
    simp only [Except.ok.injEq] at hd
    subst hd
    exact congrArg some (toPenalty_pen hq).symm

/-- What the states of a `QuadraticProgramToQubo` object have in common. -/
structure QuboObj.Inv (v : Option ℚ) (o : QuboObj) : Prop where
  mode : o.ineq.mode = .integer
  keys : KeysLe o.i2b.copies o.i2b.conv
  pen : o.pen.Holds v

theorem QuboObj.convert_inv {v : Option ℚ} {o : QuboObj} (h : o.Inv v) (left : Option QP) (p : QP) :
    (o.convert left p).2.Inv v := by
  unfold QuboObj.convert
  split
  · exact h
  · simp only
    cases (o.ineq.convert left p).1 with
    | error e => exact ⟨h.mode, h.keys, h.pen⟩
    | ok eqs =>
      simp only
      have hk := I2BObj.convert_keys h.keys left eqs
      cases (o.i2b.convert left eqs).1 with
      | error e => exact ⟨h.mode, hk, h.pen⟩
      | ok bins => exact ⟨h.mode, hk, PenObj.convert_holds h.pen bins⟩

theorem QuboUsed.inv {v : Option ℚ} {o : QuboObj} (h : QuboUsed v o) : o.Inv v := by
  induction h with
  | new v => exact ⟨rfl, fun k _ => rfl, PenObj.setPenalty_holds _ v⟩
  | set w _ ih => exact ⟨ih.mode, ih.keys, PenObj.setPenalty_holds _ w⟩
  | convert left p _ ih => exact QuboObj.convert_inv ih left p

/-! ## Examples -/

namespace ReuseExample

/-- `max 5 a + b` with `a + b = 1`: the computed penalty is `7`. -/
def first : QP := (runCalls (QP.empty "first")
  [.addVar 0 1 .binary (some "a"), .addVar 0 1 .binary (some "b"),
   .objective .maximize 0 (.dict [(.name "a", 5), (.name "b", 1)]) (.dict []),
   .linear (.dict [(.name "a", 1), (.name "b", 1)]) (.str "==") 1 (some "c")]).2

/-- `min 2 a` with an integer variable of the same name and `a <= 2`: the computed penalty is `5`. -/
def second : QP := (runCalls (QP.empty "second")
  [.addVar 1 3 .integer (some "a"),
   .objective .minimize 0 (.dict [(.name "a", 2)]) (.dict []),
   .linear (.dict [(.name "a", 1)]) (.str "<=") 2 (some "c")]).2

/-- `min a` with `a = 1`: the computed penalty is `2`. -/
def third : QP := (runCalls (QP.empty "third")
  [.addVar 0 1 .binary (some "a"), .objective .minimize 0 (.dict [(.name "a", 1)]) (.dict []),
   .linear (.dict [(.name "a", 1)]) (.str "==") 1 (some "c")]).2

/-- A problem that cannot be converted: it has a continuous variable. -/
def bad : QP := (runCalls (QP.empty "bad")
  [.addVar 0 1 .continuous (some "a"), .objective .minimize 0 (.dict [(.name "a", 2)]) (.dict [])]).2

/-- A penalty of 30, a conversion, the penalty set to `None`, two conversions, the last of which fails. -/
def used : QuboObj :=
  ((((QuboObj.new (some 30)).convert none first).2.setPenalty none).convert none first).2.convert none bad |>.2

theorem used_used : QuboUsed none used :=
  .convert none bad (.convert none first (.set none (.convert none first (.new (some 30)))))

/-- The object that interprets after having converted `second`. -/
def again : QuboObj := (used.convert none second).2

end ReuseExample

/-! ## The property -/

/-- **C72.** A used `IntegerToBinary` object converts like a new one, and afterwards interprets like a new one. -/
theorem C72_integer_to_binary {o : I2BObj} (ho : I2BUsed o) (left : Option QP) {p : QP} (hp : p.Consistent) :
    (o.convert left p).1 = p.intToBin.map I2B.dst ∧
      ∀ st, p.intToBin = .ok st → (o.convert left p).2.interpret = st.interpret :=
  I2BObj.convert_eq ho.keys left hp

/-- An object that has converted a program with an integer variable `a` does not take the binary variable `a` of the
next program for it. -/
example : I2BUsed (I2BObj.new.convert none ReuseExample.second).2 ∧
    (I2BObj.new.convert none ReuseExample.second).2.conv ≠ [] ∧
    ((I2BObj.new.convert none ReuseExample.second).2.convert none ReuseExample.first).2.interpret [1, 0] =
      .ok [1, 0] ∧
    ((I2BObj.new.convert none ReuseExample.second).2.convert none ReuseExample.second).2.interpret [1, 0] = .ok [2] :=
  ⟨.convert _ _ .new, by decide +kernel, by decide +kernel, by decide +kernel⟩

/-- **C72** As long as an object has converted nothing there is no last problem, and `interpret` raises. -/
theorem C72_new (mode : SlackMode) (v : Option ℚ) (x : List ℚ) :
    (IneqObj.new mode).interpret x = .error .attributeError ∧ I2BObj.new.interpret x = .error .attributeError ∧
    (PenObj.new v).interpret x = .error .attributeError ∧ (QuboObj.new v).interpret x = .error .attributeError :=
  ⟨rfl, rfl, rfl, rfl⟩

/-- **C72.** A used `LinearEqualityToPenalty` object converts with the penalty given last or, if that is `None`, with a
penalty computed from the problem at hand, never one left from an earlier conversion.  After a conversion `penalty` is
the penalty used. -/
theorem C72_penalty {v : Option ℚ} {o : PenObj} (ho : PenUsed v o) (p : QP) :
    (o.convert p).1 = (p.toPenalty (some (v.getD (autoPenalty p)))).map Prod.fst ∧
      ∀ dst, (o.convert p).1 = .ok dst → (o.convert p).2.interpret = penInterpret p ∧
        (o.convert p).2.penalty = some (v.getD (autoPenalty p)) := by
  obtain ⟨h1, h2⟩ := PenObj.convert_eq ho.holds p
  refine ⟨by rw [h1, toPenalty_getD], fun dst hd => ?_⟩
  rw [h1] at hd
  cases hq : p.toPenalty v with
  | error e => rw [hq] at hd; simp [Except.map] at hd
  | ok q =>
    obtain ⟨d, pen⟩ := q
    obtain ⟨a, b⟩ := h2 d pen hq
    exact ⟨a, by rw [b, toPenalty_pen hq]⟩

/-- The penalty computed for one program is not used for the next one, a penalty that was set is. -/
example : PenUsed none ((PenObj.new none).convert ReuseExample.first).2 ∧
    ((PenObj.new none).convert ReuseExample.first).2.penalty = some 7 ∧
    (((PenObj.new none).convert ReuseExample.first).2.convert ReuseExample.third).2.penalty = some 2 ∧
    ((((PenObj.new none).convert ReuseExample.first).2.setPenalty (some 9)).convert ReuseExample.third).2.penalty =
      some 9 :=
  ⟨.convert _ (.new none), by decide +kernel, by decide +kernel, by decide +kernel⟩

/-- **C72.** A `QuadraticProgramToQubo` object that has been used before, for any problems, successfully or not, and
whose penalty has been set any number of times, converts like a new object with the penalty given last; afterwards it
interprets like that one, and `penalty` is the penalty used. -/
theorem C72_qubo {v : Option ℚ} {o : QuboObj} (ho : QuboUsed v o) (left : Option QP) {p : QP} (hp : p.WF) :
    (o.convert left p).1 = (p.toQubo v).map QuboState.dst ∧
      ∀ st, p.toQubo v = .ok st →
        (o.convert left p).2.interpret = st.interpret ∧ (o.convert left p).2.penalty = some st.pen := by
  have hi := ho.inv
  unfold QuboObj.convert QP.toQubo
  by_cases hm : (quboMsg p).length > 0
  · simp only [if_pos hm]
    exact ⟨rfl, by simp⟩
  · simp only [if_neg hm]
    have hineq : (o.ineq.convert left p).1 = p.ineqToEq .integer := by
      unfold IneqObj.convert; simp only; rw [hi.mode]
    have hsrc : (o.ineq.convert left p).2.src = some p := rfl
    have hdst : (o.ineq.convert left p).2.dst = leaves left (p.ineqToEq .integer) := by
      unfold IneqObj.convert; simp only; rw [hi.mode]
    rw [hineq]
    cases he : p.ineqToEq .integer with
    | error e => exact ⟨rfl, by simp⟩
    | ok eqs =>
      rw [he] at hdst
      simp only
      have hf1 := ineqToEq_facts hp he
      obtain ⟨b1, b2⟩ := I2BObj.convert_eq hi.keys left hf1.starts.wf.cons
      rw [b1]
      cases hb : eqs.intToBin with
      | error e => exact ⟨rfl, by simp⟩
      | ok bins =>
        simp only [Except.map]
        obtain ⟨c1, c2⟩ := PenObj.convert_eq hi.pen bins.dst
        rw [c1]
        cases hc : bins.dst.toPenalty v with
        | error e => exact ⟨rfl, by simp⟩
        | ok q =>
          obtain ⟨dst, pen⟩ := q
          obtain ⟨d1, d2⟩ := c2 dst pen hc
          refine ⟨rfl, fun st hst => ?_⟩
          simp only [Except.ok.injEq] at hst
          subst hst
          refine ⟨?_, d2⟩
          funext x
          unfold QuboObj.interpret QuboState.interpret
          simp only
          rw [d1, b2 bins hb]
          cases penInterpret bins.dst x with
          | error e => rfl
          | ok y =>
            simp only
            cases bins.interpret y with
            | error e => rfl
            | ok z =>
              simp only
              unfold IneqObj.interpret
              rw [hdst, hsrc]
              rfl

/-- After conversions with the penalties `30` and `7` and a failed one, the next conversion computes its own penalty. -/
example : QuboUsed none ReuseExample.used ∧ ReuseExample.second.WF ∧
    ((QuboObj.new (some 30)).convert none ReuseExample.first).2.penalty = some 30 ∧
    ReuseExample.used.penalty = some 7 ∧ ReuseExample.again.penalty = some 5 ∧
    ReuseExample.again.interpret [1, 0, 1] = .ok [2] ∧
    ((ReuseExample.again.setPenalty (some 4)).convert none ReuseExample.first).2.penalty = some 4 :=
  ⟨ReuseExample.used_used, by decide +kernel, by decide +kernel, by decide +kernel, by decide +kernel, by decide +kernel,
    by decide +kernel⟩

theorem toQubo_wf {v : Option ℚ} {p : QP} (hp : p.WF) {st : QuboState} (h : p.toQubo v = .ok st) : st.dst.WF := by
  obtain ⟨_, _, h1, h2, h3⟩ := toQubo_stages h
  exact (toPenalty_facts (intToBin_facts (ineqToEq_facts hp h1).starts.wf h2).wf h3).wf

theorem convertObjs_eq (left : Option QP) : ∀ (vs : List (Option ℚ)) (os : List QuboObj), List.Forall₂ QuboUsed vs os →
    ∀ p : QP, p.WF → List.Forall₂ QuboUsed vs (convertObjs os left p).2 ∧
      match convertAll (vs.map quboConverter) p with
      | .error e => (convertObjs os left p).1 = .error e
      | .ok (q, fs) => (convertObjs os left p).1 = .ok q ∧ (convertObjs os left p).2.map QuboObj.interpret = fs
  | [], _, .nil, _, _ => ⟨.nil, rfl, rfl⟩
  | v :: vs, _, .cons (l₂ := os) (b := o) ho hos, p, hp => by
    obtain ⟨h1, h2⟩ := C72_qubo ho left hp
    simp only [convertObjs, List.map_cons, convertAll, quboConverter]
    rw [h1]
    cases hq : p.toQubo v with
    | error e => exact ⟨.cons (.convert left p ho) hos, rfl⟩
    | ok st =>
      obtain ⟨i1, i2⟩ := convertObjs_eq left vs os hos st.dst (toQubo_wf hp hq)
      simp only [Except.map]
      refine ⟨.cons (.convert left p ho) i1, ?_⟩
      cases hc : convertAll (vs.map quboConverter) st.dst with
      | error e =>
        rw [hc] at i2
        exact i2
      | ok r =>
        obtain ⟨q, fs⟩ := r
        rw [hc] at i2
        obtain ⟨j1, j2⟩ := i2
        refine ⟨j1, ?_⟩
        rw [List.map_cons, j2, (h2 st hq).1]

/-- **C72.** An optimizer with converter objects gives, for every problem, what an optimizer with new objects gives,
whatever it has solved before (also if that failed); the objects stay in such a state. -/
theorem C72_solve (solver : QubitOp → Option Eigenstate) {vs : List (Option ℚ)} {os : List QuboObj}
    (h : List.Forall₂ QuboUsed vs os) (left : Option QP) {p : QP} (hp : p.WF) :
    (minEigenSolveObjs solver os left p).1 = minEigenSolve solver (vs.map quboConverter) p ∧
      List.Forall₂ QuboUsed vs (minEigenSolveObjs solver os left p).2 := by
  obtain ⟨h1, h2⟩ := convertObjs_eq left vs os h p hp
  unfold minEigenSolveObjs minEigenSolve
  by_cases hm : (quboMsg p).length > 0
  · simp only [if_pos hm]
    exact ⟨trivial, h⟩
  · simp only [if_neg hm]
    cases hc : convertAll (vs.map quboConverter) p with
    | error e =>
      rw [hc] at h2
      simp only at h2
      rw [h2]
      exact ⟨rfl, h1⟩
    | ok r =>
      obtain ⟨q, fs⟩ := r
      rw [hc] at h2
      obtain ⟨j1, j2⟩ := h2
      rw [j1]
      simp only
      cases q.toIsing with
      | error e => exact ⟨rfl, h1⟩
      | ok t => exact ⟨by rw [← j2], h1⟩

/-- Two optimizers with one converter each, the second used before: the same result. -/
example : List.Forall₂ QuboUsed [none] [ReuseExample.used] ∧ ReuseExample.second.WF ∧
    ((minEigenSolveObjs exhaustive [ReuseExample.used] none ReuseExample.second).1.map fun r => r.x) = .ok (some [1]) ∧
    ((minEigenSolveObjs exhaustive [QuboObj.new none] none ReuseExample.second).1.map fun r => r.x) = .ok (some [1]) :=
  ⟨.cons ReuseExample.used_used .nil, by decide +kernel, by decide +kernel, by decide +kernel⟩

end Verif
