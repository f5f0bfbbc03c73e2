import Verif.SubstChainLemmas
import Verif.PropsMinEigen

/-!
# C104: substitution in steps
-/

namespace Verif

/-- **C104** (substitution in steps), partial.  Full statement: replacing variables in two calls gives the same variables with
the same types, the same objective, the same feasible points and the same status as replacing them in one call.  Proved: the
same variables and objective; the same points with status VALID that respect bounds, types and constraints, unless the first
call has reported INFEASIBLE, and then the single call has no feasible points or says so.  Missing (false, `C104_violated`): the
report of the first call is forgotten by the second.  Restrictions as in C12 and C13. -/
theorem C104_steps_partial (src mid dst2 dst : QP) (c1 c2 c : List (String × ℚ)) (v1 v2 v : List (String × String × ℚ))
    (hcomb : Combined c1 c2 c v1 v2 v) (hs : src.WF) (hc : "__CONSTANT__" ∉ src.vars.map Variable.name)
    (h1 : src.substitute (constKeys c1) (varKeys v1) = .ok mid)
    (h2 : mid.substitute (constKeys c2) (varKeys v2) = .ok dst2)
    (h : src.substitute (constKeys c) (varKeys v) = .ok dst)
    (hk1 : KnownKeys src (constKeys c1) (varKeys v1)) (hk2 : KnownKeys mid (constKeys c2) (varKeys v2)) :
    (dst2.vars.map fun w => (w.name, w.vartype)) = (dst.vars.map fun w => (w.name, w.vartype)) ∧
    (∀ y, dst2.objective.sense = dst.objective.sense ∧ dst2.objective.val y = dst.objective.val y) ∧
    ((∀ w ∈ src.vars, w.lb < INFINITY ∧ -INFINITY < w.ub) → (∀ w ∈ mid.vars, w.lb < INFINITY ∧ -INFINITY < w.ub) →
      ∀ x y, IsExtension src dst (constKeys c) (varKeys v) x y → (∀ i < src.numVars, |x i| ≤ INFINITY) →
        (mid.status = .valid → ((dst2.status = .valid ∧ dst2.Feas y) ↔ (dst.status = .valid ∧ dst.Feas y))) ∧
        (mid.status ≠ .valid → ¬ (dst.status = .valid ∧ dst.Feas y))) := by
  have hf := chainFacts hcomb hs hc h1 h2 h hk1 hk2
  refine ⟨hf.vars, fun y => ?_, fun hb hbm x y hx hxb => ?_⟩
  · obtain ⟨x, hx⟩ := (C12_extension_exists _ _ _ _ h hs hc hf.known).2 y
    obtain ⟨m, hm1, hm2, _⟩ := hf.ext x y hx
    have e := C12_objective_partial _ _ _ _ h hs hc x y hx
    have e1 := C12_objective_partial _ _ _ _ h1 hs hc x m hm1
    have e2 := C12_objective_partial _ _ _ _ h2 hf.midWF hf.midConst m y hm2
    exact ⟨e2.1.trans (e1.1.trans e.1.symm), e2.2.trans (e1.2.trans e.2.symm)⟩
  · obtain ⟨m, hm1, hm2, hmb⟩ := hf.ext x y hx
    have e := C13_feasibility_partial _ _ _ _ h hs hc hb x y hx hxb
    have e1 := C13_feasibility_partial _ _ _ _ h1 hs hc hb x m hm1 hxb
    have e2 := C13_feasibility_partial _ _ _ _ h2 hf.midWF hf.midConst hbm m y hm2 (hmb hxb)
    have hint : dst2.Integral y ↔ dst.Integral y := by
      have key : ∀ d d' : QP, (d.vars.map fun w => (w.name, w.vartype)) = (d'.vars.map fun w => (w.name, w.vartype)) →
          d.Integral y → d'.Integral y := by
        intro d d' he hd i w hw ht
        have e := congrArg (fun L : List (String × VarType) => L[i]?) he
        simp only [List.getElem?_map, hw, Option.map_some] at e
        cases hw' : d.vars[i]? with
        | none => rw [hw'] at e; cases e
        | some w' =>
          rw [hw'] at e
          simp only [Option.map_some, Option.some.injEq, Prod.mk.injEq] at e
          exact hd i w' hw' (by rw [e.2]; exact ht)
      exact ⟨key _ _ hf.vars, key _ _ hf.vars.symm⟩
    refine ⟨fun hv => ?_, fun hv => ?_⟩
    · constructor
      · rintro ⟨hst, g1, g2, g3⟩
        have gx := (e1.1 hv).mp ((e2.1 hst).mp ⟨g1, g3⟩)
        have hst' : dst.status = .valid := by
          by_contra hne
          exact (e.2 hne).2 gx
        have := (e.1 hst').mpr gx
        exact ⟨hst', this.1, hint.mp g2, this.2⟩
      · rintro ⟨hst, g1, g2, g3⟩
        have gm := (e1.1 hv).mpr ((e.1 hst).mp ⟨g1, g3⟩)
        have hst' : dst2.status = .valid := by
          by_contra hne
          exact (e2.2 hne).2 gm
        have := (e2.1 hst').mpr gm
        exact ⟨hst', this.1, hint.mpr g2, this.2⟩
    · rintro ⟨hst, g1, g2, g3⟩
      exact (e1.2 hv).2 ((e.1 hst).mp ⟨g1, g3⟩)

/-- A program for the examples: `x >= 2` for an integer variable, and `w = 2 z`. -/
def chainQP : QP :=
  (runCalls (QP.empty "") [.addVar 0 3 .integer (some "x"), .addVar 0 1 .binary (some "b"), .addVar (-4) 4 .continuous (some "z"),
    .addVar 0 5 .continuous (some "w"), .objective .minimize 1 (.dict [(.idx 1, 1), (.idx 2, 3)]) (.dict [((.idx 2, .idx 3), 1)]),
    .linear (.dict [(.idx 0, 1)]) (.sense .ge) 2 (some "c"), .linear (.dict [(.idx 2, 1), (.idx 1, 1)]) (.sense .le) 2 (some "d")]).2

/-- The result of a call, for the examples. -/
def afterSubst (p : QP) (c : List (String × ℚ)) (v : List (String × String × ℚ)) : QP :=
  match p.substitute (constKeys c) (varKeys v) with
  | .ok d => d
  | .error _ => QP.empty ""

/-- `z = 2 w`, then `w = 1` and `x = 3`, is `z = 2`, `w = 1` and `x = 3`; all calls succeed and the conditions of the theorem
hold. -/
example : Combined [] [("w", 1), ("x", 3)] [("w", 1), ("x", 3), ("z", 2)] [("z", "w", 2)] [] [] ∧ chainQP.WF ∧
    (let mid := afterSubst chainQP [] [("z", "w", 2)]
     chainQP.substitute (constKeys []) (varKeys [("z", "w", 2)]) = .ok mid ∧ mid.status = .valid ∧
      (mid.vars.map fun v => (v.name, v.lb, v.ub)) = [("x", 0, 3), ("b", 0, 1), ("w", 0, 2)] ∧
      KnownKeys chainQP (constKeys []) (varKeys [("z", "w", 2)]) ∧ KnownKeys mid (constKeys [("w", 1), ("x", 3)]) (varKeys []) ∧
      (∀ v ∈ mid.vars, v.lb < INFINITY ∧ -INFINITY < v.ub) ∧
      ∃ d2, mid.substitute (constKeys [("w", 1), ("x", 3)]) (varKeys []) = .ok d2 ∧ d2.status = .valid ∧ d2.objective.constant = 9) ∧
    ∃ d, chainQP.substitute (constKeys [("w", 1), ("x", 3), ("z", 2)]) (varKeys []) = .ok d ∧ d.status = .valid ∧
      d.objective.constant = 9 := by
  refine ⟨⟨?_, ?_⟩, by decide +kernel, ⟨by decide +kernel, by decide +kernel, by decide +kernel, ?_, ?_, by decide +kernel,
    afterSubst (afterSubst chainQP [] [("z", "w", 2)]) [("w", 1), ("x", 3)] [], by decide +kernel, by decide +kernel,
    by decide +kernel⟩, afterSubst chainQP [("w", 1), ("x", 3), ("z", 2)] [], by decide +kernel, by decide +kernel, by decide +kernel⟩
  · intro s a
    constructor
    · intro h
      simp only [List.mem_cons, List.not_mem_nil, or_false, Prod.mk.injEq] at h
      rcases h with ⟨rfl, rfl⟩ | ⟨rfl, rfl⟩ | ⟨rfl, rfl⟩
      · simp
      · simp
      · exact Or.inr (Or.inr ⟨"w", 2, 1, by simp, by simp, by norm_num⟩)
    · rintro (h | h | ⟨t, b, d, h, h', rfl⟩)
      · simp at h
      · simp only [List.mem_cons, List.not_mem_nil, or_false] at h ⊢
        tauto
      · simp only [List.mem_cons, List.not_mem_nil, or_false, Prod.mk.injEq] at h h'
        obtain ⟨rfl, rfl, rfl⟩ := h
        rcases h' with ⟨_, rfl⟩ | ⟨h', _⟩
        · norm_num
        · exact absurd h' (by decide)
  · intro s t a
    constructor
    · intro h; simp at h
    · rintro (h | ⟨h, h', _⟩ | ⟨u, b, d, _, h, _⟩)
      · simp at h
      · simp only [List.mem_cons, List.not_mem_nil, or_false, Prod.mk.injEq] at h
        obtain ⟨rfl, rfl, rfl⟩ := h
        exact absurd (List.mem_cons_self) (h' 1)
      · simp at h
  · refine knownKeys_names.mpr ⟨by simp, fun s t a h => ?_⟩
    simp only [List.mem_cons, List.not_mem_nil, or_false, Prod.mk.injEq] at h
    obtain ⟨rfl, rfl, rfl⟩ := h
    decide +kernel
  · refine knownKeys_names.mpr ⟨fun s a h => ?_, by simp⟩
    simp only [List.mem_cons, List.not_mem_nil, or_false, Prod.mk.injEq] at h
    rcases h with ⟨rfl, rfl⟩ | ⟨rfl, rfl⟩ <;> decide +kernel

/-- **C104 is violated**: `x = 1` contradicts `x >= 2`, and the call says so; after a second call, which replaces `w`, the
program is VALID again and has feasible points.  The single call that replaces both says INFEASIBLE. -/
theorem C104_violated : ∃ src mid dst2 dst : QP, src.WF ∧
    src.substitute (constKeys [("x", 1)]) [] = .ok mid ∧ mid.status = .infeasible ∧
    mid.substitute (constKeys [("w", 1)]) [] = .ok dst2 ∧ dst2.status = .valid ∧ dst2.isFeasible [0, 0] = .ok true ∧
    src.substitute (constKeys [("x", 1), ("w", 1)]) [] = .ok dst ∧ dst.status = .infeasible :=
  ⟨chainQP, afterSubst chainQP [("x", 1)] [], afterSubst (afterSubst chainQP [("x", 1)] []) [("w", 1)] [],
    afterSubst chainQP [("x", 1), ("w", 1)] [], by decide +kernel, by decide +kernel, by decide +kernel, by decide +kernel,
    by decide +kernel, by decide +kernel, by decide +kernel, by decide +kernel⟩

/-- **C104** (editing keeps the report): no builder call or assignment other than `clear` changes the status, whether the calls
are accepted or not. -/
theorem C104_kept (p : QP) (calls : List Call) (h : Call.clear ∉ calls) : (runCalls p calls).2.status = p.status :=
  runCalls_status calls p h

/-- A constraint is added to a program without feasible points. -/
example : (runCalls (afterSubst chainQP [("x", 1)] [])
    [.linear (.dict [(.idx 0, 1)]) (.sense .le) 1 (some "e"), .addVar 0 1 .binary (some "x")]).2.status = .infeasible ∧
    (runCalls (afterSubst chainQP [("x", 1)] [])
    [.linear (.dict [(.idx 0, 1)]) (.sense .le) 1 (some "e"), .addVar 0 1 .binary (some "x")]).1 = .ok () := by decide +kernel

/-- The binary part of the example. -/
def chainBinQP : QP :=
  (runCalls (QP.empty "") [.addVar 0 3 .integer (some "x"), .addVar 0 1 .binary (some "b"),
    .objective .minimize 1 (.dict [(.idx 1, 1)]) (.dict []), .linear (.dict [(.idx 0, 1)]) (.sense .ge) 2 (some "c")]).2

/-- What is left of it after `x = 1`. -/
def chainBinMid : QP :=
  ⟨"", .infeasible, [⟨"b", 0, 1, .binary⟩], [("b", 0)], [], [], [], [], ⟨1, ⟨1, [(0, 1)]⟩, ⟨1, []⟩, .minimize⟩⟩

/-- Its conversion. -/
def chainBinState : QuboState :=
  match chainBinMid.toQubo none with
  | .ok st => st
  | .error _ => (fullState none)

/-- **C104 is violated** (optimizers ignore the report): a substitution has reported INFEASIBLE; the program passes the
feasibility check and is converted to a valid QUBO, and the minimum eigen optimizer with an exact eigensolver answers with
status SUCCESS. -/
theorem C104_solved_violated : ∃ (src mid : QP) (st : QuboState), src.WF ∧ src.substitute (constKeys [("x", 1)]) [] = .ok mid ∧
    mid.status = .infeasible ∧ mid.isFeasible [0] = .ok true ∧ mid.toQubo none = .ok st ∧ st.dst.status = .valid ∧
    ∀ solver : QubitOp → Option Eigenstate,
      (∀ op offset, st.dst.toIsing = .ok (op, offset) → ∃ e, solver op = some e ∧ e.Ground st.dst.numVars op ∧
        ∃ x pr, e.HasProb st.dst.numVars x pr ∧ 1 / 10 ^ 6 ≤ pr) →
      ∃ r, minEigenSolve solver [quboConverter none] mid = .ok r ∧ r.status = .success := by
  have hq : chainBinMid.toQubo none = .ok chainBinState := by decide +kernel
  refine ⟨chainBinQP, chainBinMid, chainBinState, by decide +kernel, by decide +kernel, rfl, by decide +kernel, hq,
    by decide +kernel, fun solver hsol => ?_⟩
  have hf : chainBinMid.Feas (pt [0]) := by
    refine ⟨?_, ?_, ?_⟩
    · rintro (_ | i) v hv
      · simp only [chainBinMid, List.getElem?_cons_zero, Option.some.injEq] at hv
        subst hv
        simp [pt]
      · simp [chainBinMid] at hv
    · rintro (_ | i) v hv _
      · exact ⟨0, by simp [pt]⟩
      · simp [chainBinMid] at hv
    · intro c hc
      simp [QP.allCsts, chainBinMid] at hc
  obtain ⟨r, y, h1, _, _, _, _, h2⟩ := C28_optimum_partial chainBinMid (by decide +kernel) (by decide +kernel)
    (by simp [QP.BinBoundsOK, chainBinMid]) (by simp [chainBinMid]) (by intro k hk; simp [chainBinMid, Assoc.keys] at hk) chainBinState hq
    (by decide +kernel) ⟨_, hf⟩ solver hsol
  exact ⟨r, h1, h2⟩

end Verif
