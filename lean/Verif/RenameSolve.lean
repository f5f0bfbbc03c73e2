import Verif.Rename
import Verif.BuildLemmas
import Verif.IneqToEqLemmas
import Verif.QuboLemmas
import Verif.Grover
import Verif.Multistart

/-!
# Solving programs with other names

The conversion to a QUBO, the operator, the interpretation of points and the optimizers that sample under a renaming.
-/

namespace Verif

variable {ρ σ : String → String}

/-! ## Names of the constraints of the converted program -/

theorem named_lin {p p' : QP} (hp : p.Named) {l : LinInput} {s : SenseInput} {r : ℚ} {n : String} (hn : n ≠ "")
    {c : LinCst} (h : p.linearConstraint l s r (some n) = (.ok c, p')) : p'.Named := by
  obtain ⟨nm, le, s', hc, -, -, rfl, rfl⟩ := linearConstraint_ok h
  simp only [chooseName, if_neg hn] at hc
  split at hc
  · cases hc
  · simp only [Except.ok.injEq] at hc
    subst hc
    refine ⟨fun k hk => ?_, hp.quads⟩
    rcases List.mem_append.mp hk with h1 | h1
    · exact hp.lins k h1
    · rw [List.mem_singleton.mp h1]; exact hn

theorem named_quad {p p' : QP} (hp : p.Named) {l : LinInput} {q : QuadInput} {s : SenseInput} {r : ℚ} {n : String} (hn : n ≠ "")
    {c : QuadCst} (h : p.quadraticConstraint l q s r (some n) = (.ok c, p')) : p'.Named := by
  obtain ⟨nm, le, qe, s', hc, -, -, -, rfl, rfl⟩ := quadraticConstraint_ok h
  simp only [chooseName, if_neg hn] at hc
  split at hc
  · cases hc
  · simp only [Except.ok.injEq] at hc
    subst hc
    refine ⟨hp.lins, fun k hk => ?_⟩
    rcases List.mem_append.mp hk with h1 | h1
    · exact hp.quads k h1
    · rw [List.mem_singleton.mp h1]; exact hn

theorem named_addVariable {p p' : QP} (hp : p.Named) {lb ub : ℚ} {t : VarType} {n : String} {v : Variable}
    (h : p.addVariable lb ub t (some n) = (.ok v, p')) : p'.Named := by
  rw [addVariable_some] at h
  split at h
  · simp at h
  · split at h
    · simp at h
    · simp only [Prod.mk.injEq, Except.ok.injEq] at h
      obtain ⟨-, rfl⟩ := h
      exact ⟨hp.lins, hp.quads⟩

theorem named_slackVar {d d' : QP} (hp : d.Named) {t : VarType} {nm : String} {s : Sense} {r lb ub : ℚ} {o : Option (String × ℚ)}
    (h : slackVar d t nm s r lb ub = .ok (o, d')) : d'.Named := by
  cases s with
  | eq => simp [slackVar] at h
  | le =>
    simp only [slackVar] at h
    split at h
    · split at h
      · simp at h
      · rename_i he
        simp only [Except.ok.injEq, Prod.mk.injEq] at h
        obtain ⟨-, rfl⟩ := h
        exact named_addVariable hp he
    · simp only [Except.ok.injEq, Prod.mk.injEq] at h
      obtain ⟨-, rfl⟩ := h
      exact hp
  | ge =>
    simp only [slackVar] at h
    split at h
    · split at h
      · simp at h
      · rename_i he
        simp only [Except.ok.injEq, Prod.mk.injEq] at h
        obtain ⟨-, rfl⟩ := h
        exact named_addVariable hp he
    · simp only [Except.ok.injEq, Prod.mk.injEq] at h
      obtain ⟨-, rfl⟩ := h
      exact hp

theorem named_i2eLinOne {src d d' : QP} (hp : d.Named) {k : LinCst} (hk : k.name ≠ "")
    (h : i2eLinOne .integer src d k = .ok d') : d'.Named := by
  unfold i2eLinOne at h
  cases hs : k.sense with
  | eq =>
    rw [hs] at h
    simp only at h
    split at h
    · cases h
    · rename_i he
      simp only [Except.ok.injEq] at h
      subst h
      exact named_lin hp hk he
  | le =>
    rw [hs] at h
    simp only [intSlackLin] at h
    split at h
    · cases h
    · split at h
      · cases h
      · split at h
        · cases h
        · rename_i hsl
          split at h
          · cases h
          · rename_i he
            simp only [Except.ok.injEq] at h
            subst h
            exact named_lin (named_slackVar hp hsl) hk he
  | ge =>
    rw [hs] at h
    simp only [intSlackLin] at h
    split at h
    · cases h
    · split at h
      · cases h
      · split at h
        · cases h
        · rename_i hsl
          split at h
          · cases h
          · rename_i he
            simp only [Except.ok.injEq] at h
            subst h
            exact named_lin (named_slackVar hp hsl) hk he

theorem named_i2eLins {src d d' : QP} (hp : d.Named) {ks : List LinCst} (hk : ∀ k ∈ ks, k.name ≠ "")
    (h : i2eLins .integer src ks d = .ok d') : d'.Named := by
  induction ks generalizing d with
  | nil => simp only [i2eLins, Except.ok.injEq] at h; subst h; exact hp
  | cons k ks ih =>
    simp only [i2eLins] at h
    split at h
    · cases h
    · rename_i he
      exact ih (named_i2eLinOne hp (hk k List.mem_cons_self) he) (fun k h => hk k (List.mem_cons_of_mem _ h)) h

theorem named_ineqToEq {src d' : QP} (hp : src.Named) (hq : src.quads = []) (h : src.ineqToEq .integer = .ok d') : d'.Named := by
  unfold QP.ineqToEq at h
  split at h
  · cases h
  · rename_i d hd
    split at h
    · cases h
    · rename_i d1 ho
      split at h
      · cases h
      · rename_i d2 hl
        rw [hq] at h
        simp only [i2eQuads, Except.ok.injEq] at h
        subst h
        refine named_i2eLins ?_ hp.lins hl
        obtain ⟨le, qe, -, -, rfl⟩ := setObjective_ok ho
        have hg := copyAllVars_grows hd
        refine ⟨?_, ?_⟩
        · show ∀ c ∈ d.lins, _
          rw [hg.lins]; simp [QP.empty]
        · show ∀ c ∈ d.quads, _
          rw [hg.quads]; simp [QP.empty]

/-! ## The conversion to a QUBO -/

/-- The state of the converter with other names. -/
def QuboState.rename (ρ σ : String → String) (st : QuboState) : QuboState :=
  ⟨st.src.rename ρ σ, st.eqs.rename ρ σ, st.i2b.rename ρ σ, st.dst.rename ρ σ, st.pen⟩

theorem quboMsg_rename (p : QP) : quboMsg (p.rename ρ σ) = quboMsg p := by
  simp [quboMsg, QP.rename, List.filter_map, Function.comp_def, Variable.rename, LinCst.rename, QuadCst.rename, List.all_map]

theorem quads_nil_of_quboMsg {p : QP} (h : ¬ (quboMsg p).length > 0) : p.quads = [] := ((quboMsg_empty p).mp h).2.1

theorem toQubo_rename (hρ : Renaming ρ σ) (v : Option ℚ) (src : QP) (hs : src.Named) :
    (src.rename ρ σ).toQubo v = (src.toQubo v).map (QuboState.rename ρ σ) := by
  unfold QP.toQubo
  rw [quboMsg_rename]
  by_cases hm : (quboMsg src).length > 0
  · rw [if_pos hm, if_pos hm]; rfl
  · rw [if_neg hm, if_neg hm, ineqToEq_rename hρ _ _ hs]
    cases he : src.ineqToEq .integer with
    | error e => rfl
    | ok eqs =>
      simp only [Except.map]
      rw [intToBin_rename hρ _ (named_ineqToEq hs (quads_nil_of_quboMsg hm) he)]
      cases eqs.intToBin with
      | error e => rfl
      | ok i2b =>
        simp only [Except.map, show (i2b.rename ρ σ).dst = i2b.dst.rename ρ σ from rfl]
        rw [toPenalty_rename hρ]
        cases i2b.dst.toPenalty v <;> rfl

/-! ## The interpretation of points -/

theorem solDict_rename (hρ : Renaming ρ σ) (vars : List Variable) (x : List ℚ) :
    solDict (vars.map (Variable.rename ρ)) x = (solDict vars x).map (mapKeys ρ) := by
  unfold solDict
  rw [List.length_map]
  split
  · rfl
  · simp only [Except.map]
    congr 1
    rw [List.zipIdx_map]
    exact foldl_set_mapKeys hρ.inj vars.zipIdx (Prod.map (Variable.rename ρ) id) (fun p => p.1.name) (fun p => p.1.name)
      (fun p => pt x p.2) (fun p => pt x p.2) (fun _ => rfl) (fun _ => rfl) []

theorem lookupSol_rename (hρ : Renaming ρ σ) (sol : Assoc String ℚ) (s : String) :
    lookupSol (mapKeys ρ sol) (ρ s) = lookupSol sol s := by
  unfold lookupSol
  rw [get?_mapKeys hρ.inj]

theorem decodeSum_rename (hρ : Renaming ρ σ) (sol : Assoc String ℚ) (l : List (String × ℚ)) :
    decodeSum (mapKeys ρ sol) (renameEnc ρ l) = decodeSum sol l := by
  induction l with
  | nil => rfl
  | cons p l ih =>
    rw [show renameEnc ρ (p :: l) = (ρ p.1, p.2) :: renameEnc ρ l from rfl]
    simp only [decodeSum, lookupSol_rename hρ, ih]

theorem i2bInterpretVars_rename (hρ : Renaming ρ σ) (conv : Conv) (sol : Assoc String ℚ) (l : List Variable) :
    i2bInterpretVars (renameConv ρ conv) (mapKeys ρ sol) (l.map (Variable.rename ρ)) = i2bInterpretVars conv sol l := by
  induction l with
  | nil => rfl
  | cons v l ih =>
    simp only [List.map_cons, i2bInterpretVars, show (v.rename ρ).name = ρ v.name from rfl,
      show (v.rename ρ).lb = v.lb from rfl, get?_renameConv hρ, ih]
    cases Assoc.get? conv v.name with
    | none => simp only [Option.map_none, lookupSol_rename hρ]
    | some enc => simp only [Option.map_some, decodeSum_rename hρ]

theorem lookupVars_rename (hρ : Renaming ρ σ) (sol : Assoc String ℚ) (l : List Variable) :
    lookupVars (mapKeys ρ sol) (l.map (Variable.rename ρ)) = lookupVars sol l := by
  induction l with
  | nil => rfl
  | cons v l ih =>
    simp only [List.map_cons, lookupVars, show (v.rename ρ).name = ρ v.name from rfl, ih, lookupSol_rename hρ]

theorem i2bInterpret_rename (hρ : Renaming ρ σ) (c : I2B) (x : List ℚ) : (c.rename ρ σ).interpret x = c.interpret x := by
  unfold I2B.interpret
  rw [show (c.rename ρ σ).dst.vars = c.dst.vars.map (Variable.rename ρ) from rfl, solDict_rename hρ]
  cases solDict c.dst.vars x with
  | error e => rfl
  | ok sol => exact i2bInterpretVars_rename hρ c.conv sol c.src.vars

theorem ineqInterpret_rename (hρ : Renaming ρ σ) (src dst : QP) (x : List ℚ) :
    ineqInterpret (src.rename ρ σ) (dst.rename ρ σ) x = ineqInterpret src dst x := by
  unfold ineqInterpret
  rw [show (dst.rename ρ σ).vars = dst.vars.map (Variable.rename ρ) from rfl, solDict_rename hρ]
  cases solDict dst.vars x with
  | error e => rfl
  | ok sol => exact lookupVars_rename hρ sol src.vars

theorem interpret_rename (hρ : Renaming ρ σ) (st : QuboState) : (st.rename ρ σ).interpret = st.interpret := by
  funext x
  unfold QuboState.interpret penInterpret
  rw [show (st.rename ρ σ).i2b = st.i2b.rename ρ σ from rfl, show (st.i2b.rename ρ σ).dst = st.i2b.dst.rename ρ σ from rfl, numVars_rename]
  split
  · rfl
  · rename_i h
    split at h
    · cases h
    · simp only [Except.ok.injEq] at h
      subst h
      rw [i2bInterpret_rename hρ]
      cases st.i2b.interpret x with
      | error e => rfl
      | ok y => exact ineqInterpret_rename hρ _ _ _

/-! ## The operator and the values -/

theorem toIsing_rename (p : QP) : (p.rename ρ σ).toIsing = p.toIsing := by
  unfold QP.toIsing
  simp only [numVars_rename, show (p.rename ρ σ).objective = p.objective from rfl,
    show (p.rename ρ σ).lins = p.lins.map (LinCst.rename σ) from rfl,
    show (p.rename ρ σ).quads = p.quads.map (QuadCst.rename σ) from rfl, ne_eq, List.map_eq_nil_iff,
    show (p.rename ρ σ).vars = p.vars.map (Variable.rename ρ) from rfl, List.filter_map, Function.comp_def, List.length_map,
    show ∀ v : Variable, (v.rename ρ).vartype = v.vartype from fun _ => rfl]

/-- The constraint with another name. -/
def Cst.rename (σ : String → String) : Cst → Cst
  | .lin c => .lin (c.rename σ)
  | .quad c => .quad (c.rename σ)

theorem violatedVars_rename (x : List ℚ) (l : List Variable) :
    violatedVars x (l.map (Variable.rename ρ)) = (violatedVars x l).map (Variable.rename ρ) := by
  induction l generalizing x with
  | nil => cases x <;> rfl
  | cons v l ih =>
    cases x with
    | nil => rfl
    | cons a x =>
      simp only [List.map_cons, violatedVars, show (v.rename ρ).lb = v.lb from rfl, show (v.rename ρ).ub = v.ub from rfl, ih]
      split <;> rfl

theorem violatedCsts_rename (x : List ℚ) (l : List Cst) :
    violatedCsts x (l.map (Cst.rename σ)) = (violatedCsts x l).map (List.map (Cst.rename σ)) := by
  induction l with
  | nil => rfl
  | cons c l ih =>
    have h1 : (c.rename σ).evaluate x = c.evaluate x := by cases c <;> rfl
    have h2 : (c.rename σ).sense = c.sense := by cases c <;> rfl
    have h3 : (c.rename σ).rhs = c.rhs := by cases c <;> rfl
    simp only [List.map_cons, violatedCsts, h1, h2, h3, ih]
    cases c.evaluate x with
    | error e => rfl
    | ok v =>
      simp only
      cases violatedCsts x l with
      | error e => rfl
      | ok r =>
        simp only [Except.map]
        split <;> rfl

theorem getFeasibilityInfo_rename (p : QP) (x : List ℚ) : (p.rename ρ σ).getFeasibilityInfo x =
    (p.getFeasibilityInfo x).map fun r => (r.1, r.2.1.map (Variable.rename ρ), r.2.2.map (Cst.rename σ)) := by
  unfold QP.getFeasibilityInfo
  have hc : (p.rename ρ σ).csts = p.csts.map (Cst.rename σ) := by
    simp [QP.csts, QP.rename, Cst.rename, Function.comp_def]
  rw [numVars_rename, hc, violatedCsts_rename, show (p.rename ρ σ).vars = p.vars.map (Variable.rename ρ) from rfl,
    violatedVars_rename]
  split
  · rfl
  · cases violatedCsts x p.csts with
    | error e => rfl
    | ok r => simp [Except.map, List.isEmpty_map]

theorem isFeasible_rename (p : QP) (x : List ℚ) : (p.rename ρ σ).isFeasible x = p.isFeasible x := by
  unfold QP.isFeasible
  rw [getFeasibilityInfo_rename]
  cases p.getFeasibilityInfo x <;> rfl

/-- The result with other names. -/
def Result.rename (ρ : String → String) (r : Result) : Result :=
  { r with vars := r.vars.map (Variable.rename ρ), varsDict := r.varsDict.map (mapKeys ρ) }

theorem resultMk_rename (hi : ∀ s t, ρ s = ρ t → s = t) (x : Option (List ℚ)) (f : Option ℚ) (vars : List Variable) (st : ResStatus)
    (s r : List Sample) : Result.mk? x f (vars.map (Variable.rename ρ)) st s r = (Result.mk? x f vars st s r).map (Result.rename ρ) := by
  unfold Result.mk?
  cases x with
  | none => rfl
  | some x =>
    simp only [List.length_map]
    split
    · rfl
    · simp only [Except.map, Result.rename, Option.map_some]
      congr 3
      have h : ((vars.map (Variable.rename ρ)).map Variable.name).zip x =
          ((vars.map Variable.name).zip x).map fun p => (ρ p.1, p.2) := by
        rw [List.map_map, show Variable.name ∘ Variable.rename ρ = ρ ∘ Variable.name from rfl, ← List.map_map, List.zip_map_left]
        rfl
      rw [h]
      exact foldl_set_mapKeys hi ((vars.map Variable.name).zip x) (fun p => (ρ p.1, p.2)) Prod.fst Prod.fst Prod.snd Prod.snd
        (fun _ => rfl) (fun _ => rfl) []

theorem feasibilityStatus_rename (p : QP) (x : List ℚ) : feasibilityStatus (p.rename ρ σ) x = feasibilityStatus p x := by
  unfold feasibilityStatus
  rw [isFeasible_rename]

theorem evalSamples_rename (p : QP) (l : Assoc (List ℚ) ℚ) : evalSamples (p.rename ρ σ) l = evalSamples p l := by
  induction l with
  | nil => rfl
  | cons q l ih =>
    obtain ⟨x, pr⟩ := q
    simp only [evalSamples, feasibilityStatus_rename, ih, show (p.rename ρ σ).objective = p.objective from rfl]

theorem interpretSamples_rename (p : QP) (raw : List Sample) (fs : List Interp) :
    interpretSamples (p.rename ρ σ) raw fs = interpretSamples p raw fs := by
  unfold interpretSamples
  simp only [evalSamples_rename, show (p.rename ρ σ).objective = p.objective from rfl]

theorem interpretResult_rename (hρ : Renaming ρ σ) (p : QP) (fs : List Interp) (samples raw : List Sample) (x : List ℚ) :
    interpretResult (p.rename ρ σ) fs samples raw x = (interpretResult p fs samples raw x).map (Result.rename ρ) := by
  unfold interpretResult
  cases interpretAll fs x with
  | error e => rfl
  | ok x =>
    simp only [feasibilityStatus_rename, show (p.rename ρ σ).objective = p.objective from rfl]
    cases p.objective.evaluate x with
    | error e => rfl
    | ok v =>
      simp only
      cases feasibilityStatus p x with
      | error e => rfl
      | ok st => exact resultMk_rename hρ.inj _ _ _ _ _ _

theorem generateSolution_rename (b : List Char) (p : QP) (pr : ℚ) : generateSolution b (p.rename ρ σ) pr = generateSolution b p pr := rfl

theorem decodeCounts_rename (p : QP) (m a : ℚ) (l : List (String × ℚ)) : decodeCounts (p.rename ρ σ) m a l = decodeCounts p m a l := by
  induction l with
  | nil => rfl
  | cons q l ih => obtain ⟨b, c⟩ := q; simp only [decodeCounts, generateSolution_rename, ih]

theorem decodeVector_rename (p : QP) (m : ℚ) (n : Nat) (l : List (ℚ × ℚ)) (i : Nat) :
    decodeVector (p.rename ρ σ) m n l i = decodeVector p m n l i := by
  induction l generalizing i with
  | nil => rfl
  | cons q l ih => simp only [decodeVector, generateSolution_rename, ih]

theorem eigenToSolutions_rename (e : Eigenstate) (p : QP) (m : ℚ) : eigenToSolutions e (p.rename ρ σ) m = eigenToSolutions e p m := by
  cases e <;> simp only [eigenToSolutions, decodeCounts_rename, decodeVector_rename]

theorem solveInternal_rename (hρ : Renaming ρ σ) (solver : QubitOp → Option Eigenstate) (op : QubitOp) (q p : QP) (fs : List Interp) :
    solveInternal solver op (q.rename ρ σ) (p.rename ρ σ) fs = (solveInternal solver op q p fs).map (Result.rename ρ) := by
  unfold solveInternal
  split
  · rfl
  · cases solver op with
    | none => exact resultMk_rename hρ.inj _ _ _ _ _ _
    | some e =>
      simp only [eigenToSolutions_rename, show (q.rename ρ σ).objective = q.objective from rfl, interpretSamples_rename]
      cases eigenToSolutions e q (1 / 10 ^ 6) with
      | error e => rfl
      | ok raw =>
        simp only
        generalize sortedBy _ raw = raw'
        cases raw' with
        | nil => rfl
        | cons s l =>
          simp only
          cases interpretSamples p (s :: l) fs with
          | error e => rfl
          | ok samples => exact interpretResult_rename hρ _ _ _ _ _

theorem minEigenSolve_rename (hρ : Renaming ρ σ) (solver : QubitOp → Option Eigenstate) (v : Option ℚ) (p : QP) (hp : p.Named) :
    minEigenSolve solver [quboConverter v] (p.rename ρ σ) = (minEigenSolve solver [quboConverter v] p).map (Result.rename ρ) := by
  unfold minEigenSolve
  rw [quboMsg_rename]
  by_cases hm : (quboMsg p).length > 0
  · rw [if_pos hm, if_pos hm]; rfl
  · rw [if_neg hm, if_neg hm]
    simp only [convertAll, quboConverter]
    rw [toQubo_rename hρ _ _ hp]
    cases p.toQubo v with
    | error e => rfl
    | ok st =>
      simp only [Except.map]
      rw [interpret_rename hρ, show (st.rename ρ σ).dst = st.dst.rename ρ σ from rfl, toIsing_rename]
      cases st.dst.toIsing with
      | error e => rfl
      | ok r => exact solveInternal_rename hρ solver r.1 st.dst p [st.interpret]

/-! ## The Grover optimizer -/

/-- What the Grover optimizer returns, with other names. -/
def GroverResult.rename (ρ σ : String → String) (r : GroverResult) : GroverResult :=
  { r with result := r.result.rename ρ, callers := r.callers.rename ρ σ }

theorem decodeProbs_rename (p : QP) (m : ℚ) (n : Nat) (l : List ℚ) (i : Nat) :
    decodeProbs (p.rename ρ σ) m n l i = decodeProbs p m n l i := by
  induction l generalizing i with
  | nil => rfl
  | cons q l ih => simp only [decodeProbs, generateSolution_rename, ih]

theorem groverRaw_rename (sqrt : ℚ → ℚ) (p : QP) (n : Nat) (c : Circuit) : groverRaw sqrt (p.rename ρ σ) n c = groverRaw sqrt p n c := by
  cases c <;> simp only [groverRaw, decodeProbs_rename, eigenToSolutions_rename]

theorem groverLoop_rename (measure : Nat → Objective → Outcome) (rot : Nat → Nat) (sqrt : ℚ → ℚ) (obj : Objective)
    (problem : ℚ → QP) (qubo : QP) (fs : List Interp) (a b c d fuel : Nat) (s : GroverState) :
    groverLoop measure rot sqrt obj (fun t => (problem t).rename ρ σ) (qubo.rename ρ σ) fs a b c d fuel s =
      groverLoop measure rot sqrt obj problem qubo fs a b c d fuel s := by
  induction fuel generalizing s with
  | zero => rfl
  | succ fuel ih => simp only [groverLoop, groverRaw_rename, interpretSamples_rename, ih]

theorem groverFinish_rename (hρ : Renaming ρ σ) (obj : Objective) (problem : ℚ → QP) (qubo : QP) (fs : List Interp) (n : Nat)
    (s : GroverState) : groverFinish obj (fun t => (problem t).rename ρ σ) (qubo.rename ρ σ) fs n s =
      (groverFinish obj problem qubo fs n s).map (GroverResult.rename ρ σ) := by
  unfold groverFinish
  simp only [show (qubo.rename ρ σ).objective = qubo.objective from rfl, interpretResult_rename hρ]
  cases qubo.objective.evaluate _ with
  | error e => rfl
  | ok v =>
    simp only
    cases interpretResult (problem s.threshold) fs s.samples s.raw _ <;> rfl

theorem groverSolve_rename (hρ : Renaming ρ σ) (measure : Nat → Objective → Outcome) (rot : Nat → Nat) (sqrt : ℚ → ℚ)
    (v : Option ℚ) (n k : Nat) (p : QP) (hp : p.Named) (fuel : Nat) :
    groverSolve measure rot sqrt [quboConverter v] n k (p.rename ρ σ) fuel =
      (groverSolve measure rot sqrt [quboConverter v] n k p fuel).map (Except.map (GroverResult.rename ρ σ)) := by
  unfold groverSolve
  rw [quboMsg_rename]
  by_cases hm : (quboMsg p).length > 0
  · rw [if_pos hm, if_pos hm]; rfl
  · rw [if_neg hm, if_neg hm]
    simp only [convertAll, quboConverter]
    rw [toQubo_rename hρ _ _ hp]
    cases p.toQubo v with
    | error e => rfl
    | ok st =>
      simp only [Except.map]
      rw [interpret_rename hρ, show (st.rename ρ σ).dst = st.dst.rename ρ σ from rfl,
        show (st.dst.rename ρ σ).objective = st.dst.objective from rfl,
        show callersGrover [quboConverter v]
          (groverObjective st.dst.objective) (p.rename ρ σ) = fun t =>
          (callersGrover [quboConverter v]
          (groverObjective st.dst.objective) p t).rename ρ σ from rfl, groverLoop_rename]
      split
      · rfl
      · rfl
      · simp only [Option.map_some]
        rw [groverFinish_rename hρ]

/-! ## The optimizers with a numerical solver -/

theorem guessLoop_rename (clip : ℚ) (u : Nat → ℚ) (i : Nat) (l : List Variable) :
    guessLoop clip u i (l.map (Variable.rename ρ)) = guessLoop clip u i l := by
  induction l generalizing i with
  | nil => rfl
  | cons v l ih =>
    simp only [List.map_cons, guessLoop, show (v.rename ρ).lb = v.lb from rfl, show (v.rename ρ).ub = v.ub from rfl, ih]

theorem trialLoop_rename (clip : ℚ) (u : Nat → Nat → ℚ) (minimize : Nat → List ℚ → Except Err (List ℚ)) (p : QP) (k t : Nat)
    (f : ℚ) (x : Option (List ℚ)) : trialLoop clip u minimize (p.rename ρ σ) k t f x = trialLoop clip u minimize p k t f x := by
  induction k generalizing t f x with
  | zero => rfl
  | succ k ih =>
    have h : initialGuess clip u (p.rename ρ σ) t = initialGuess clip u p t := by
      unfold initialGuess
      rw [show (p.rename ρ σ).vars = p.vars.map (Variable.rename ρ) from rfl, guessLoop_rename, numVars_rename]
    simp only [trialLoop, h, ih, show (p.rename ρ σ).objective = p.objective from rfl]

theorem multiStartSolve_rename (hi : ∀ s t, ρ s = ρ t → s = t) (trials : Nat) (clip : ℚ) (u : Nat → Nat → ℚ)
    (minimize : Nat → List ℚ → Except Err (List ℚ)) (p : QP) :
    multiStartSolve trials clip u minimize (p.rename ρ σ) = (multiStartSolve trials clip u minimize p).map (Result.rename ρ) := by
  unfold multiStartSolve
  rw [trialLoop_rename]
  cases trialLoop clip u minimize p trials 0 INFINITY none with
  | error e => rfl
  | ok r =>
    obtain ⟨f, y⟩ := r
    cases y with
    | none => rfl
    | some x =>
      simp only [feasibilityStatus_rename]
      cases feasibilityStatus p x with
      | error e => rfl
      | ok st => exact resultMk_rename hi _ _ _ _ _ _

theorem csts_rename (p : QP) : (p.rename ρ σ).csts = p.csts.map (Cst.rename σ) := by
  simp [QP.csts, QP.rename, Cst.rename, Function.comp_def]

theorem cst_rename (c : Cst) : (∀ x, (c.rename σ).evaluate x = c.evaluate x) ∧ (c.rename σ).sense = c.sense ∧
    (c.rename σ).rhs = c.rhs := by
  cases c <;> exact ⟨fun _ => rfl, rfl, rfl⟩

theorem rhsMinus_rename (c : Cst) : rhsMinus (c.rename σ) = rhsMinus c := by
  funext x
  simp only [rhsMinus, (cst_rename c).1, (cst_rename c).2.2]

theorem minusRhs_rename (c : Cst) : minusRhs (c.rename σ) = minusRhs c := by
  funext x
  simp only [minusRhs, (cst_rename c).1, (cst_rename c).2.2]

theorem boundFns_rename (i : Nat) (l : List Variable) : boundFns i (l.map (Variable.rename ρ)) = boundFns i l := by
  induction l generalizing i with
  | nil => rfl
  | cons v l ih =>
    simp only [List.map_cons, boundFns, show (v.rename ρ).lb = v.lb from rfl, show (v.rename ρ).ub = v.ub from rfl, ih]

theorem cstFns_rename (l : List Cst) : cstFns (l.map (Cst.rename σ)) = cstFns l := by
  induction l with
  | nil => rfl
  | cons c l ih => simp only [List.map_cons, cstFns, ih, rhsMinus_rename, minusRhs_rename, (cst_rename c).2.1]

theorem slsqpEq_rename (l : List Cst) : slsqpEq (l.map (Cst.rename σ)) = slsqpEq l := by
  induction l with
  | nil => rfl
  | cons c l ih => simp only [List.map_cons, slsqpEq, ih, rhsMinus_rename, (cst_rename c).2.1]

theorem slsqpIneq_rename (l : List Cst) : slsqpIneq (l.map (Cst.rename σ)) = slsqpIneq l := by
  induction l with
  | nil => rfl
  | cons c l ih => simp only [List.map_cons, slsqpIneq, ih, rhsMinus_rename, minusRhs_rename, (cst_rename c).2.1]

theorem onlyContinuous_rename (p : QP) : onlyContinuous (p.rename ρ σ) = onlyContinuous p := by
  unfold onlyContinuous QP.numContinuous
  rw [show (p.rename ρ σ).vars = p.vars.map (Variable.rename ρ) from rfl, List.length_map, List.filter_map, List.length_map]
  rfl

theorem cobylaSolve_rename (hi : ∀ s t, ρ s = ρ t → s = t) (cobyla : Nat → Fn → List ℚ → List Fn → Except Err (List ℚ))
    (trials : Nat) (clip : ℚ) (u : Nat → Nat → ℚ) (p : QP) :
    cobylaSolve cobyla trials clip u (p.rename ρ σ) = (cobylaSolve cobyla trials clip u p).map (Result.rename ρ) := by
  unfold cobylaSolve
  rw [onlyContinuous_rename]
  split
  · rw [multiStartSolve_rename hi]
    have h : cobylaConstraints (p.rename ρ σ) = cobylaConstraints p := by
      unfold cobylaConstraints
      rw [csts_rename, cstFns_rename, show (p.rename ρ σ).vars = p.vars.map (Variable.rename ρ) from rfl, boundFns_rename]
    rw [h, show solverObjective (p.rename ρ σ) = solverObjective p from rfl]
  · rfl

theorem slsqpSolve_rename (hi : ∀ s t, ρ s = ρ t → s = t)
    (slsqp : Nat → Fn → (List ℚ → Except Err (List ℚ)) → List ℚ → List Fn → List Fn → List (ℚ × ℚ) → Except Err (List ℚ))
    (trials : Nat) (clip : ℚ) (u : Nat → Nat → ℚ) (p : QP) :
    slsqpSolve slsqp trials clip u (p.rename ρ σ) = (slsqpSolve slsqp trials clip u p).map (Result.rename ρ) := by
  unfold slsqpSolve
  rw [onlyContinuous_rename]
  split
  · rw [multiStartSolve_rename hi]
    have h : slsqpBounds (p.rename ρ σ) = slsqpBounds p := by
      simp [slsqpBounds, QP.rename, Variable.rename, Function.comp_def]
    rw [csts_rename, slsqpEq_rename, slsqpIneq_rename, h, show solverObjective (p.rename ρ σ) = solverObjective p from rfl,
      show solverGradient (p.rename ρ σ) = solverGradient p from rfl]
    cases multiStartSolve trials clip u (fun t x0 => slsqp t (solverObjective p) (solverGradient p) x0
        (slsqpEq p.csts) (slsqpIneq p.csts) (slsqpBounds p)) p with
    | error e => rfl
    | ok r =>
      simp only [Except.map, show (r.rename ρ).x = r.x from rfl, show (r.rename ρ).fval = r.fval from rfl,
        show (r.rename ρ).vars = r.vars.map (Variable.rename ρ) from rfl, feasibilityStatus_rename]
      cases r.x with
      | none => rfl
      | some x =>
        simp only
        cases feasibilityStatus p x with
        | error e => rfl
        | ok st => exact resultMk_rename hi _ _ _ _ _ _
  · rfl

end Verif
