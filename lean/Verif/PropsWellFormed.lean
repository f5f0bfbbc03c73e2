import Verif.PropsProgram
import Verif.WFLemmas

/-!
# Programs built through the public interface are well formed: C87

The other properties assume `QP.WF`; here it is proved for every program that a sequence of builder calls makes.
-/

namespace Verif

/-- The coefficients given in the call have no more columns than the program has variables (lists, matrices), or no
repeated and outside entries (sparse matrices).  Dictionaries are always fine. -/
def Call.FitsIn (p : QP) : Call → Prop
  | .linear l _ _ _ => l.Fits p.numVars
  | .quadratic l q _ _ _ => l.Fits p.numVars ∧ q.Fits p.numVars
  | .objective _ _ l q => l.Fits p.numVars ∧ q.Fits p.numVars
  | .edit (.lin _ (.linear l)) => l.Fits p.numVars
  | .edit (.quad _ (.linear l)) => l.Fits p.numVars
  | .edit (.quad _ (.quadratic q)) => q.Fits p.numVars
  | .edit (.obj (.linear l)) => l.Fits p.numVars
  | .edit (.obj (.quadratic q)) => q.Fits p.numVars
  | _ => True

/-- Binary variables are made with bounds zero and one, as `binary_var` does, later bounds given to them stay within, and
only variables with bounds within zero and one are declared binary. -/
def Call.BinaryIn (p : QP) : Call → Prop
  | .addVars _ lb ub t _ _ => t = .binary → lb = 0 ∧ ub = 1
  | .addVar lb ub t _ => t = .binary → lb = 0 ∧ ub = 1
  | .setLb i v => ∀ x, p.vars[i]? = some x → x.vartype = .binary → 0 ≤ v
  | .setUb i v => ∀ x, p.vars[i]? = some x → x.vartype = .binary → v ≤ 1
  | .edit (.vartype i t) => ∀ x, p.vars[i]? = some x → t = .binary → 0 ≤ x.lb ∧ x.ub ≤ 1
  | _ => True

/-- Programs made by builder calls of the given kind, of which some may have raised an exception that the user caught. -/
inductive Built (kind : QP → Call → Prop) : QP → Prop
  | new (name : String) : Built kind (QP.empty name)
  | call {p : QP} (h : Built kind p) (c : Call) (hf : kind p c) : Built kind (c.apply p).2

/-- Programs made by builder calls of the given kind without exceptions. -/
inductive BuiltOK (kind : QP → Call → Prop) : QP → Prop
  | new (name : String) : BuiltOK kind (QP.empty name)
  | call {p p' : QP} (h : BuiltOK kind p) (c : Call) (hf : kind p c) (hok : c.apply p = (.ok (), p')) : BuiltOK kind p'

/-- What the program stores is meaningful: the bounds are ordered, coefficients belong to variables of the program, each
variable or pair of variables has one coefficient, pairs are in ascending order, constraints have names. -/
structure QP.Meaningful (p : QP) : Prop where
  bounds : ∀ v ∈ p.vars, v.lb ≤ v.ub
  linear : ∀ e : LinExpr, (e = p.objective.linear ∨ (∃ c ∈ p.lins, e = c.linear) ∨ ∃ c ∈ p.quads, e = c.linear) →
    (e.coeffs.map Prod.fst).Nodup ∧ ∀ q ∈ e.coeffs, q.1 < p.vars.length
  quadratic : ∀ e : QuadExpr, (e = p.objective.quadratic ∨ ∃ c ∈ p.quads, e = c.quadratic) →
    (e.coeffs.map Prod.fst).Nodup ∧ ∀ q ∈ e.coeffs, q.1.1 ≤ q.1.2 ∧ q.1.2 < p.vars.length
  names : (∀ c ∈ p.lins, c.name ≠ "") ∧ ∀ c ∈ p.quads, c.name ≠ ""

/-- `QP.WF` without the name tables. -/
structure Stored (p : QP) : Prop where
  bounds : ∀ v ∈ p.vars, v.lb ≤ v.ub
  objLin : p.objective.linear.Fits p.numVars
  objQuad : p.objective.quadratic.Fits p.numVars
  lins : ∀ c ∈ p.lins, c.linear.Fits p.numVars ∧ c.name ≠ ""
  quads : ∀ c ∈ p.quads, c.linear.Fits p.numVars ∧ c.quadratic.Fits p.numVars ∧ c.name ≠ ""

theorem Stored.meaningful {p : QP} (h : Stored p) : p.Meaningful := by
  have hl : ∀ e : LinExpr, e.Fits p.numVars → (e.coeffs.map Prod.fst).Nodup ∧ ∀ q ∈ e.coeffs, q.1 < p.vars.length :=
    fun e he => ⟨he.1.nodup, fun q hq => lt_of_lt_of_le (he.1.bound _ (List.mem_map_of_mem hq)) he.2⟩
  have hq : ∀ e : QuadExpr, e.Fits p.numVars →
      (e.coeffs.map Prod.fst).Nodup ∧ ∀ q ∈ e.coeffs, q.1.1 ≤ q.1.2 ∧ q.1.2 < p.vars.length :=
    fun e he => ⟨he.1.nodup, fun q hq => ⟨he.1.upper _ (List.mem_map_of_mem hq),
      lt_of_lt_of_le (he.1.bound _ (List.mem_map_of_mem hq)).2 he.2⟩⟩
  refine ⟨h.bounds, ?_, ?_, fun c hc => (h.lins c hc).2, fun c hc => (h.quads c hc).2.2⟩
  · rintro e (rfl | ⟨c, hc, rfl⟩ | ⟨c, hc, rfl⟩)
    · exact hl _ h.objLin
    · exact hl _ (h.lins c hc).1
    · exact hl _ (h.quads c hc).1
  · rintro e (rfl | ⟨c, hc, rfl⟩)
    · exact hq _ h.objQuad
    · exact hq _ (h.quads c hc).2.1

/-- The program has more variables, with the given bounds and type; nothing else that is stored has changed. -/
structure More (lb ub : ℚ) (t : VarType) (p p' : QP) : Prop where
  vars : ∃ more : List Variable, p'.vars = p.vars ++ more ∧ ∀ v ∈ more, lb ≤ ub ∧ v.lb = lb ∧ v.ub = ub ∧ v.vartype = t
  lins : p'.lins = p.lins
  quads : p'.quads = p.quads
  objective : p'.objective = p.objective

theorem More.refl {lb ub : ℚ} {t : VarType} (p : QP) : More lb ub t p p := ⟨⟨[], by simp, by simp⟩, rfl, rfl, rfl⟩

theorem More.trans {lb ub : ℚ} {t : VarType} {p p' p'' : QP} (h : More lb ub t p p') (h' : More lb ub t p' p'') :
    More lb ub t p p'' := by
  obtain ⟨m, hm, hb⟩ := h.vars
  obtain ⟨m', hm', hb'⟩ := h'.vars
  refine ⟨⟨m ++ m', by rw [hm', hm, List.append_assoc], ?_⟩, h'.lins.trans h.lins, h'.quads.trans h.quads,
    h'.objective.trans h.objective⟩
  intro v hv
  rcases List.mem_append.mp hv with hv | hv
  · exact hb v hv
  · exact hb' v hv

theorem More.stored {lb ub : ℚ} {t : VarType} {p p' : QP} (h : More lb ub t p p') (hp : Stored p) : Stored p' := by
  obtain ⟨m, hm, hb⟩ := h.vars
  have hn : p.numVars ≤ p'.numVars := by simp [QP.numVars, hm]
  refine ⟨?_, ?_, ?_, ?_, ?_⟩
  · intro v hv
    rw [hm] at hv
    rcases List.mem_append.mp hv with hv | hv
    · exact hp.bounds v hv
    · obtain ⟨h1, h2, h3, _⟩ := hb v hv; rw [h2, h3]; exact h1
  · rw [h.objective]; exact hp.objLin.mono hn
  · rw [h.objective]; exact hp.objQuad.mono hn
  · rw [h.lins]; exact fun c hc => ⟨(hp.lins c hc).1.mono hn, (hp.lins c hc).2⟩
  · rw [h.quads]; exact fun c hc => ⟨(hp.quads c hc).1.mono hn, (hp.quads c hc).2.1.mono hn, (hp.quads c hc).2.2⟩

theorem addOneVar_more (p : QP) (nm : String) (lb ub : ℚ) (t : VarType) : More lb ub t p (p.addOneVar nm lb ub t).2 := by
  unfold QP.addOneVar Variable.mk?
  split_ifs with h1 h2
  · exact More.refl p
  · exact ⟨⟨[], by simp, by simp⟩, rfl, rfl, rfl⟩
  · exact ⟨⟨[⟨nm, lb, ub, t⟩], by simp, by simpa using not_lt.mp h2⟩, rfl, rfl, rfl⟩

theorem addVarsCount_more (nm : String) (fmt : KeyFormat) (lb ub : ℚ) (t : VarType) (m k : Nat) (p : QP) :
    More lb ub t p (QP.addVarsCount nm fmt lb ub t m k p).2 := by
  induction m generalizing k p with
  | zero => exact More.refl p
  | succ m ih =>
    unfold QP.addVarsCount
    split
    · exact More.refl p
    · rename_i s k' _
      have h1 := addOneVar_more p s lb ub t
      split
      · rename_i e p' he
        rw [he] at h1; exact h1
      · rename_i v p' he
        rw [he] at h1
        have h2 := ih k' p'
        split
        · rename_i e p'' he'
          rw [he'] at h2; exact h1.trans h2
        · rename_i vs p'' he'
          rw [he'] at h2; exact h1.trans h2

theorem addVarsSeq_more (nm : String) (fmt : KeyFormat) (lb ub : ℚ) (t : VarType) (l : List String) (p : QP) :
    More lb ub t p (QP.addVarsSeq nm fmt lb ub t l p).2 := by
  induction l generalizing p with
  | nil => exact More.refl p
  | cons s l ih =>
    unfold QP.addVarsSeq
    have h1 := addOneVar_more p (nm ++ fmt.format s) lb ub t
    split
    · rename_i e p' he
      rw [he] at h1; exact h1
    · rename_i v p' he
      rw [he] at h1
      have h2 := ih p'
      split
      · rename_i e p'' he'
        rw [he'] at h2; exact h1.trans h2
      · rename_i vs p'' he'
        rw [he'] at h2; exact h1.trans h2

theorem addVariables_more (p : QP) (keys : Keys) (lb ub : ℚ) (t : VarType) (nm : Option String) (fmt : KeyFormat) :
    More lb ub t p (p.addVariables keys lb ub t nm fmt).2 := by
  unfold QP.addVariables
  cases keys with
  | count k =>
    simp only
    split_ifs
    · exact More.refl p
    · exact More.refl p
    · exact addVarsCount_more ..
  | seq l =>
    simp only
    split_ifs
    · exact More.refl p
    · exact addVarsSeq_more ..

theorem addVariable_more (p : QP) (lb ub : ℚ) (t : VarType) (nm : Option String) :
    More lb ub t p (p.addVariable lb ub t nm).2 := by
  have key : ∀ r : Res (List Variable), More lb ub t p r.2 → More lb ub t p (match r with
      | (.ok (v :: _), p') => ((.ok v, p') : Res Variable)
      | (.ok [], p') => (.error .indexError, p')
      | (.error e, p') => (.error e, p')).2 := by
    rintro ⟨r, p'⟩ h
    rcases r with e | l
    · exact h
    · cases l <;> exact h
  unfold QP.addVariable
  cases nm with
  | none => exact key _ (addVariables_more ..)
  | some s => exact key _ (addVariables_more ..)

theorem drop_snd {α : Type} (r : Res α) : r.drop.2 = r.2 := by
  obtain ⟨r, p⟩ := r
  cases r <;> rfl

theorem chooseName_ne {ix : Assoc String Nat} {count : Nat} {pre : String} {nm : Option String} {s : String}
    (hpre : pre ≠ "") (h : chooseName ix count pre nm = .ok s) : s ≠ "" := by
  have hfree : ∀ fuel k t, freeName ix pre fuel k = some t → t ≠ "" := by
    intro fuel
    induction fuel with
    | zero => intro k t h; simp [freeName] at h
    | succ n ih =>
      intro k t h
      unfold freeName at h
      split at h
      · exact ih _ _ h
      · simp only [Option.some.injEq] at h
        subst h
        intro hc
        apply hpre
        have := congrArg String.toList hc
        rw [String.toList_append] at this
        have := (List.append_eq_nil_iff.mp (this.trans (by rfl))).1
        exact String.toList_inj.mp (this.trans (by rfl))
  unfold chooseName at h
  split at h
  · rename_i t
    split_ifs at h with h1 h2
    · split at h
      · rename_i n hn
        simp only [Except.ok.injEq] at h; subst h
        exact hfree _ _ _ hn
      · simp at h
    · simp only [Except.ok.injEq] at h; subst h; exact h1
  · split at h
    · rename_i n hn
      simp only [Except.ok.injEq] at h; subst h
      exact hfree _ _ _ hn
    · simp at h

theorem linearConstraint_stored {p : QP} {l : LinInput} (hl : l.Fits p.numVars) (s : SenseInput) (r : ℚ)
    (nm : Option String) (hp : Stored p) : Stored (p.linearConstraint l s r nm).2 := by
  unfold QP.linearConstraint
  split
  · exact hp
  · rename_i nm' hnm
    simp only
    split
    · exact ⟨hp.bounds, hp.objLin, hp.objQuad, hp.lins, hp.quads⟩
    · split
      · exact ⟨hp.bounds, hp.objLin, hp.objQuad, hp.lins, hp.quads⟩
      · rename_i le hle
        refine ⟨hp.bounds, hp.objLin, hp.objQuad, ?_, hp.quads⟩
        intro c hc
        rcases List.mem_append.mp hc with hc | hc
        · exact hp.lins c hc
        · rw [List.mem_singleton] at hc
          subst hc
          exact ⟨LinExpr.ofInput_fits hle hl, chooseName_ne (by decide) hnm⟩

theorem quadraticConstraint_stored {p : QP} {l : LinInput} {q : QuadInput} (hl : l.Fits p.numVars)
    (hq : q.Fits p.numVars) (s : SenseInput) (r : ℚ) (nm : Option String) (hp : Stored p) :
    Stored (p.quadraticConstraint l q s r nm).2 := by
  unfold QP.quadraticConstraint
  split
  · exact hp
  · rename_i nm' hnm
    simp only
    split
    · exact ⟨hp.bounds, hp.objLin, hp.objQuad, hp.lins, hp.quads⟩
    · split
      · exact ⟨hp.bounds, hp.objLin, hp.objQuad, hp.lins, hp.quads⟩
      · rename_i le hle
        split
        · exact ⟨hp.bounds, hp.objLin, hp.objQuad, hp.lins, hp.quads⟩
        · rename_i qe hqe
          refine ⟨hp.bounds, hp.objLin, hp.objQuad, hp.lins, ?_⟩
          intro c hc
          rcases List.mem_append.mp hc with hc | hc
          · exact hp.quads c hc
          · rw [List.mem_singleton] at hc
            subst hc
            exact ⟨LinExpr.ofInput_fits hle hl, QuadExpr.ofInput_fits hqe hq, chooseName_ne (by decide) hnm⟩

theorem edit_stored {p p' : QP} (hp : Stored p) {e : Edit} (hf : (Call.edit e).FitsIn p) (h : p.edit e = .ok p') :
    Stored p' := by
  rcases QP.edit_cases h with ⟨s, _, rfl⟩ | ⟨i, t, x, _, hx, rfl⟩ | ⟨i, d, c, c', rfl, hx, hc, rfl⟩ |
    ⟨i, d, c, c', rfl, hx, hc, rfl⟩ | ⟨d, o, rfl, hc, rfl⟩
  · exact ⟨hp.bounds, hp.objLin, hp.objQuad, hp.lins, hp.quads⟩
  · have hn : ({ p with vars := p.vars.set i { x with vartype := t } } : QP).numVars = p.numVars := by simp [QP.numVars]
    refine ⟨?_, ?_, ?_, ?_, ?_⟩
    · intro v hv
      rcases List.mem_or_eq_of_mem_set hv with hv | rfl
      · exact hp.bounds v hv
      · exact hp.bounds x (List.mem_of_getElem? hx)
    all_goals rw [hn]
    · exact hp.objLin
    · exact hp.objQuad
    · exact hp.lins
    · exact hp.quads
  · refine ⟨hp.bounds, hp.objLin, hp.objQuad, ?_, hp.quads⟩
    intro b hb
    rcases List.mem_or_eq_of_mem_set hb with hb | rfl
    · exact hp.lins b hb
    · have h0 := hp.lins c (List.mem_of_getElem? hx)
      rcases LinCst.edit_cases hc with ⟨_, _, rfl⟩ | ⟨_, _, rfl⟩ | ⟨l, f, rfl, hf', rfl⟩ | ⟨k, v, f, rfl, hf', rfl⟩
      · exact h0
      · exact h0
      · exact ⟨LinExpr.ofInput_fits hf' hf, h0.2⟩
      · exact ⟨LinExpr.setItem_fits hf' h0.1, h0.2⟩
  · refine ⟨hp.bounds, hp.objLin, hp.objQuad, hp.lins, ?_⟩
    intro b hb
    rcases List.mem_or_eq_of_mem_set hb with hb | rfl
    · exact hp.quads b hb
    · have h0 := hp.quads c (List.mem_of_getElem? hx)
      rcases QuadCst.edit_cases hc with ⟨_, _, rfl⟩ | ⟨_, _, rfl⟩ | ⟨l, f, rfl, hf', rfl⟩ | ⟨l, f, rfl, hf', rfl⟩ |
        ⟨k, v, f, rfl, hf', rfl⟩ | ⟨k, k', v, f, rfl, hf', rfl⟩
      · exact h0
      · exact h0
      · exact ⟨LinExpr.ofInput_fits hf' hf, h0.2⟩
      · exact ⟨h0.1, QuadExpr.ofInput_fits hf' hf, h0.2.2⟩
      · exact ⟨LinExpr.setItem_fits hf' h0.1, h0.2⟩
      · exact ⟨h0.1, QuadExpr.setItem_fits hf' h0.2.1, h0.2.2⟩
  · rcases Objective.edit_cases hc with ⟨_, _, rfl⟩ | ⟨_, _, rfl⟩ | ⟨l, f, rfl, hf', rfl⟩ | ⟨l, f, rfl, hf', rfl⟩ |
      ⟨k, v, f, rfl, hf', rfl⟩ | ⟨k, k', v, f, rfl, hf', rfl⟩
    · exact ⟨hp.bounds, hp.objLin, hp.objQuad, hp.lins, hp.quads⟩
    · exact ⟨hp.bounds, hp.objLin, hp.objQuad, hp.lins, hp.quads⟩
    · exact ⟨hp.bounds, LinExpr.ofInput_fits hf' hf, hp.objQuad, hp.lins, hp.quads⟩
    · exact ⟨hp.bounds, hp.objLin, QuadExpr.ofInput_fits hf' hf, hp.lins, hp.quads⟩
    · exact ⟨hp.bounds, LinExpr.setItem_fits hf' hp.objLin, hp.objQuad, hp.lins, hp.quads⟩
    · exact ⟨hp.bounds, hp.objLin, QuadExpr.setItem_fits hf' hp.objQuad, hp.lins, hp.quads⟩

theorem apply_stored {p : QP} (hp : Stored p) {c : Call} (hf : c.FitsIn p) : Stored (c.apply p).2 := by
  have hset : ∀ (i : Nat) (x y : Variable), p.vars[i]? = some x → y.lb ≤ y.ub → Stored { p with vars := p.vars.set i y } := by
    intro i x y _ hy
    have hn : ({ p with vars := p.vars.set i y } : QP).numVars = p.numVars := by simp [QP.numVars]
    refine ⟨?_, ?_, ?_, ?_, ?_⟩
    · intro v hv
      rcases List.mem_or_eq_of_mem_set hv with hv | rfl
      · exact hp.bounds v hv
      · exact hy
    all_goals rw [hn]
    · exact hp.objLin
    · exact hp.objQuad
    · exact hp.lins
    · exact hp.quads
  cases c with
  | addVars keys lb ub t nm fmt =>
    simp only [Call.apply, drop_snd]
    exact (addVariables_more ..).stored hp
  | addVar lb ub t nm =>
    simp only [Call.apply, drop_snd]
    exact (addVariable_more ..).stored hp
  | linear l s r nm =>
    simp only [Call.apply, drop_snd]
    exact linearConstraint_stored hf s r nm hp
  | quadratic l q s r nm =>
    simp only [Call.apply, drop_snd]
    exact quadraticConstraint_stored hf.1 hf.2 s r nm hp
  | removeLin k =>
    simp only [Call.apply, QP.removeLinear]
    split
    · exact hp
    · split_ifs
      · exact ⟨hp.bounds, hp.objLin, hp.objQuad, fun c hc => hp.lins c (List.mem_of_mem_eraseIdx hc), hp.quads⟩
      · exact hp
  | removeQuad k =>
    simp only [Call.apply, QP.removeQuadratic]
    split
    · exact hp
    · split_ifs
      · exact ⟨hp.bounds, hp.objLin, hp.objQuad, hp.lins, fun c hc => hp.quads c (List.mem_of_mem_eraseIdx hc)⟩
      · exact hp
  | objective s c l q =>
    simp only [Call.apply, QP.setObjective]
    split
    · exact hp
    · rename_i le hle
      split
      · exact hp
      · rename_i qe hqe
        exact ⟨hp.bounds, LinExpr.ofInput_fits hle hf.1, QuadExpr.ofInput_fits hqe hf.2, hp.lins, hp.quads⟩
  | clear =>
    have h := QP.empty_wf ""
    exact ⟨by simp [Call.apply, QP.empty], h.objLin, h.objQuad, by simp [Call.apply, QP.empty], by simp [Call.apply, QP.empty]⟩
  | setLb i v =>
    simp only [Call.apply, QP.setLowerbound, Variable.setLb]
    split
    · exact hp
    · rename_i x hx
      by_cases h : v > x.ub
      · simp only [if_pos h]; exact hp
      · simp only [if_neg h]
        exact hset i x _ hx (not_lt.mp h)
  | setUb i v =>
    simp only [Call.apply, QP.setUpperbound, Variable.setUb]
    split
    · exact hp
    · rename_i x hx
      by_cases h : x.lb > v
      · simp only [if_pos h]; exact hp
      · simp only [if_neg h]
        exact hset i x _ hx (not_lt.mp h)
  | edit e =>
    simp only [Call.apply]
    split
    · exact hp
    · rename_i q hq
      exact edit_stored hp hf hq

theorem built_stored {p : QP} (h : Built Call.FitsIn p) : Stored p := by
  induction h with
  | new name =>
    have h := QP.empty_wf name
    exact ⟨by simp [QP.empty], h.objLin, h.objQuad, by simp [QP.empty], by simp [QP.empty]⟩
  | call _ c hf ih => exact apply_stored ih hf

/-- **C87, the part that holds** (also after exceptions).  Full statement: every program made by builder calls is meaningful:
bounds are ordered, coefficients belong to variables of the program, and each variable or pair of variables has one
coefficient.  Proved: for all sequences of calls the lists, matrices and sparse matrices of which are not wider than the
program (dictionaries always), even if some of the calls raise exceptions that are caught.  Missing (false): coefficients
that are too wide, which are accepted (`C87_width_violated`). -/
theorem C87_meaningful_partial {p : QP} (h : Built Call.FitsIn p) : p.Meaningful :=
  (built_stored h).meaningful

/-- **C87, the part that holds** (without exceptions): the program also has tables of names that agree with its lists, that
is, it meets the assumption `QP.WF` of the other properties.  Missing (false): after an exception the tables can be wrong
(`C04_variable_violated`), and coefficients that are too wide (`C87_width_violated`). -/
theorem C87_wellformed_partial {p : QP} (h : BuiltOK Call.FitsIn p) : p.WF := by
  have hb : Built Call.FitsIn p ∧ p.Consistent := by
    induction h with
    | new name => exact ⟨.new name, QP.empty_consistent name⟩
    | call h c hf hok ih =>
      have := Built.call ih.1 c hf
      rw [hok] at this
      exact ⟨this, apply_consistent hok ih.2⟩
  have hs := built_stored hb.1
  exact ⟨hb.2, hs.objLin, hs.objQuad, fun c hc => (hs.lins c hc).1, fun c hc => ⟨(hs.quads c hc).1, (hs.quads c hc).2.1⟩⟩

/-- **C87, the part that holds** (binary variables).  Full statement: the bounds of binary variables are within zero and one.
Proved: if no setter is called with a bound outside, and only variables within these bounds are declared binary later.
Missing (false): the setters of the bounds do not look at the type, and the setter of the type does not look at the bounds
(`C87_binary_violated`). -/
theorem C87_binary_partial {p : QP} (h : Built Call.BinaryIn p) :
    ∀ v ∈ p.vars, v.vartype = .binary → 0 ≤ v.lb ∧ v.ub ≤ 1 := by
  induction h with
  | new name => simp [QP.empty]
  | @call p _ c hf ih =>
    have hmore : ∀ {lb ub : ℚ} {t : VarType} {p' : QP}, More lb ub t p p' → (t = .binary → lb = 0 ∧ ub = 1) →
        ∀ v ∈ p'.vars, v.vartype = .binary → 0 ≤ v.lb ∧ v.ub ≤ 1 := by
      intro lb ub t p' hm ht v hv hb
      obtain ⟨m, hv', hm'⟩ := hm.vars
      rw [hv'] at hv
      rcases List.mem_append.mp hv with hv | hv
      · exact ih v hv hb
      · obtain ⟨_, h1, h2, h3⟩ := hm' v hv
        obtain ⟨h4, h5⟩ := ht (h3 ▸ hb)
        rw [h1, h2, h4, h5]; exact ⟨le_refl _, le_refl _⟩
    cases c with
    | addVars keys lb ub t nm fmt =>
      simp only [Call.apply, drop_snd]
      exact hmore (addVariables_more ..) hf
    | addVar lb ub t nm =>
      simp only [Call.apply, drop_snd]
      exact hmore (addVariable_more ..) hf
    | linear l s r nm =>
      have : (p.linearConstraint l s r nm).2.vars = p.vars := by
        unfold QP.linearConstraint
        split
        · rfl
        · simp only
          split
          · rfl
          · split <;> rfl
      simp only [Call.apply, drop_snd, this]
      exact ih
    | quadratic l q s r nm =>
      have : (p.quadraticConstraint l q s r nm).2.vars = p.vars := by
        unfold QP.quadraticConstraint
        split
        · rfl
        · simp only
          split
          · rfl
          · split
            · rfl
            · split <;> rfl
      simp only [Call.apply, drop_snd, this]
      exact ih
    | removeLin k =>
      simp only [Call.apply, QP.removeLinear]
      split
      · exact ih
      · split_ifs <;> exact ih
    | removeQuad k =>
      simp only [Call.apply, QP.removeQuadratic]
      split
      · exact ih
      · split_ifs <;> exact ih
    | objective s c l q =>
      simp only [Call.apply, QP.setObjective]
      split
      · exact ih
      · split <;> exact ih
    | clear => simp [Call.apply, QP.empty]
    | setLb i v =>
      simp only [Call.apply, QP.setLowerbound, Variable.setLb]
      split
      · exact ih
      · rename_i x hx
        by_cases h : v > x.ub
        · simp only [if_pos h]; exact ih
        · simp only [if_neg h]
          intro w hw hb
          rcases List.mem_or_eq_of_mem_set hw with hw | rfl
          · exact ih w hw hb
          · exact ⟨hf x hx hb, (ih x (List.mem_of_getElem? hx) hb).2⟩
    | setUb i v =>
      simp only [Call.apply, QP.setUpperbound, Variable.setUb]
      split
      · exact ih
      · rename_i x hx
        by_cases h : x.lb > v
        · simp only [if_pos h]; exact ih
        · simp only [if_neg h]
          intro w hw hb
          rcases List.mem_or_eq_of_mem_set hw with hw | rfl
          · exact ih w hw hb
          · exact ⟨(ih x (List.mem_of_getElem? hx) hb).1, hf x hx hb⟩
    | edit e =>
      simp only [Call.apply]
      split
      · exact ih
      · rename_i q hq
        rcases QP.edit_cases hq with ⟨s, _, rfl⟩ | ⟨i, t, x, rfl, hx, rfl⟩ | ⟨i, d, c, c', rfl, _, _, rfl⟩ |
          ⟨i, d, c, c', rfl, _, _, rfl⟩ | ⟨d, o, rfl, _, rfl⟩
        · exact ih
        · intro w hw hb
          rcases List.mem_or_eq_of_mem_set hw with hw | rfl
          · exact ih w hw hb
          · exact hf x hx hb
        · exact ih
        · exact ih
        · exact ih

/-- **C87 is violated** (width): `linear_constraint([1, 2, 3], "<=", 4)` is accepted by a program with two variables; the
third coefficient belongs to no variable. -/
theorem C87_width_violated : ∃ p : QP,
    runCalls (QP.empty "") [.addVars (.count 2) 0 1 .binary none (.hole "" ""), .linear (.list [1, 2, 3]) (.str "<=") 4 none] =
      (.ok (), p) ∧ ¬ p.Meaningful := by
  refine ⟨_, Prod.ext_iff.mpr ⟨by decide +kernel, rfl⟩, fun h => ?_⟩
  have h2 := h.linear ⟨3, [(0, 1), (1, 2), (2, 3)]⟩ (Or.inr (Or.inl (by decide +kernel)))
  exact absurd (h2.2 (2, 3) (by decide +kernel)) (by decide +kernel)

/-- **C87 is violated** (bounds of binary variables): `x.upperbound = 2` is accepted for a binary variable, and
`x.vartype = VarType.BINARY` is accepted for an integer variable with the bounds -3 and 5. -/
theorem C87_binary_violated :
    (∃ p : QP, runCalls (QP.empty "") [.addVar 0 1 .binary (some "x"), .setUb 0 2] = (.ok (), p) ∧
      p.vars = [⟨"x", 0, 2, .binary⟩]) ∧
    ∃ p : QP, runCalls (QP.empty "") [.addVar (-3) 5 .integer (some "x"), .edit (.vartype 0 .binary)] = (.ok (), p) ∧
      p.vars = [⟨"x", -3, 5, .binary⟩] :=
  ⟨⟨_, Prod.ext_iff.mpr ⟨by decide +kernel, rfl⟩, by decide +kernel⟩,
    ⟨_, Prod.ext_iff.mpr ⟨by decide +kernel, rfl⟩, by decide +kernel⟩⟩

/-- A program with a linear and a quadratic constraint and an objective is built by calls without exceptions. -/
example : ∃ p, BuiltOK Call.FitsIn p ∧ p.vars.length = 2 ∧ p.lins.length = 1 ∧ p.quads.length = 1 := by
  refine ⟨_, .call (.call (.call (.call (.new "") (.addVars (.count 2) 0 1 .binary none (.hole "" "")) trivial
    (Prod.ext_iff.mpr ⟨by decide +kernel, rfl⟩)) (.linear (.list [1, 2]) (.str "<=") 2 none)
    (show ([1, 2] : List ℚ).length ≤ QP.numVars _ by decide +kernel)
    (Prod.ext_iff.mpr ⟨by decide +kernel, rfl⟩)) (.quadratic (.dict []) (.matrix [[1, 2], [3, 4]]) (.str ">=") 1 none)
    ⟨trivial, show ([[1, 2], [3, 4]] : List (List ℚ)).length ≤ QP.numVars _ by decide +kernel⟩ (Prod.ext_iff.mpr ⟨by decide +kernel, rfl⟩))
    (.objective .maximize 0 (.dict [(.name "x1", 3)]) (.dict [])) ⟨trivial, trivial⟩
    (Prod.ext_iff.mpr ⟨by decide +kernel, rfl⟩), by decide +kernel, by decide +kernel, by decide +kernel⟩

/-- A rejected call (the bounds are in the wrong order) in between, and a bound that fixes a binary variable. -/
example : ∃ p, Built Call.FitsIn p ∧ Built Call.BinaryIn p ∧ p.vars.map Variable.lb = [1] ∧ ¬ p.Consistent := by
  let c1 : Call := .addVar 0 1 .binary (some "x")
  let c2 : Call := .addVar 2 1 .integer (some "y")
  let c3 : Call := .setLb 0 1
  refine ⟨(c3.apply (c2.apply (c1.apply (QP.empty "")).2).2).2, .call (.call (.call (.new "") c1 trivial) c2 trivial) c3 trivial,
    .call (.call (.call (.new "") c1 (fun _ => ⟨rfl, rfl⟩)) c2 (fun h => by cases h)) c3 ?_, by decide +kernel, ?_⟩
  · intro x _ _; norm_num
  · intro h; exact absurd h.vars.keys (by decide +kernel)

/-- Assignments after the program is built. -/
example : ∃ p, BuiltOK Call.FitsIn p ∧ p.objective.linear.coeffs = [(0, 5)] ∧ p.vars.map Variable.vartype = [.integer] := by
  refine ⟨_, .call (.call (.call (.new "") (.addVar 0 1 .binary (some "x")) trivial
    (Prod.ext_iff.mpr ⟨by decide +kernel, rfl⟩)) (.edit (.obj (.linear (.dict [(.name "x", 5)])))) trivial
    (Prod.ext_iff.mpr ⟨by decide +kernel, rfl⟩)) (.edit (.vartype 0 .integer)) trivial
    (Prod.ext_iff.mpr ⟨by decide +kernel, rfl⟩), by decide +kernel, by decide +kernel⟩

end Verif
