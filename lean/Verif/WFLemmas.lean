import Verif.BuildLemmas

/-!
# Helper lemmas: builder calls keep programs well formed, and when they succeed
-/

namespace Verif

/-- Coefficients given for a program with `n` variables: matrices are not wider than `n`. -/
def LinInput.Fits (n : Nat) : LinInput → Prop
  | .dict _ => True
  | .list l => l.length ≤ n
  | .sparse e => e.Fits n

/-- Coefficients given for a program with `n` variables: matrices are not wider than `n`. -/
def QuadInput.Fits (n : Nat) : QuadInput → Prop
  | .dict _ => True
  | .matrix rows => rows.length ≤ n
  | .sparse e => (Assoc.keys e.coeffs).Nodup ∧ (∀ k ∈ Assoc.keys e.coeffs, k.1 < e.n ∧ k.2 < e.n) ∧ e.n ≤ n

theorem LinExpr.Fits.mono {n m : Nat} {e : LinExpr} (h : e.Fits n) (hm : n ≤ m) : e.Fits m :=
  ⟨h.1, h.2.trans hm⟩

theorem QuadExpr.Fits.mono {n m : Nat} {e : QuadExpr} (h : e.Fits n) (hm : n ≤ m) : e.Fits m :=
  ⟨h.1, h.2.trans hm⟩

theorem QuadExpr.Fits.input {n : Nat} {e : QuadExpr} (h : e.Fits n) : (QuadInput.sparse e).Fits n :=
  ⟨h.1.nodup, h.1.bound, h.2⟩

theorem LinExpr.setItem_fits {vi : Assoc String Nat} {n : Nat} {l l' : LinExpr} {k : Key} {v : ℚ}
    (h : l.setItem vi k v = .ok l') (hl : l.Fits n) : l'.Fits n := by
  unfold LinExpr.setItem at h
  split at h
  · simp at h
  · rename_i i hi
    simp only [Except.ok.injEq] at h
    subst h
    refine ⟨⟨Dict.nodup_dokSet hl.1.nodup i v, fun j hj => ?_⟩, hl.2⟩
    rcases Dict.mem_keys_dokSet hj with hj | rfl
    · exact hl.1.bound j hj
    · exact resolve_lt hi

theorem QuadExpr.setItem_fits {vi : Assoc String Nat} {n : Nat} {q q' : QuadExpr} {k k' : Key} {v : ℚ}
    (h : q.setItem vi k k' v = .ok q') (hq : q.Fits n) : q'.Fits n := by
  unfold QuadExpr.setItem at h
  split at h
  · simp at h
  · rename_i i hi
    split at h
    · simp at h
    · rename_i j hj
      simp only [Except.ok.injEq] at h
      subst h
      have h1 := resolve_lt hi
      have h2 := resolve_lt hj
      refine ⟨⟨Dict.nodup_dokSet hq.1.nodup _ v, fun a ha => ?_, fun a ha => ?_⟩, hq.2⟩
      · rcases Dict.mem_keys_dokSet ha with ha | rfl
        · exact hq.1.bound a ha
        · simp only; omega
      · rcases Dict.mem_keys_dokSet ha with ha | rfl
        · exact hq.1.upper a ha
        · simp only; omega

theorem LinExpr.ofInput_fits {vi : Assoc String Nat} {n : Nat} {inp : LinInput} {e : LinExpr}
    (h : LinExpr.ofInput vi n inp = .ok e) (hi : inp.Fits n) : e.Fits n := by
  refine ⟨LinExpr.ofInput_wf h ?_, ?_⟩
  · rintro s rfl; exact hi.1
  · cases inp with
    | dict l => rw [LinExpr.ofDict_n h]
    | list l => simp only [LinExpr.ofInput, Except.ok.injEq] at h; subst h; exact hi
    | sparse s => simp only [LinExpr.ofInput, Except.ok.injEq] at h; subst h; exact hi.2

theorem QuadExpr.ofInput_fits {vi : Assoc String Nat} {n : Nat} {inp : QuadInput} {e : QuadExpr}
    (h : QuadExpr.ofInput vi n inp = .ok e) (hi : inp.Fits n) : e.Fits n := by
  refine ⟨QuadExpr.ofInput_wf h ?_, ?_⟩
  · rintro s rfl; exact ⟨hi.1, hi.2.1⟩
  · cases inp with
    | dict l => rw [QuadExpr.ofDict_n h]
    | matrix l =>
      simp only [QuadExpr.ofInput] at h
      split at h
      · simp at h; subst h; exact hi
      · simp at h
    | sparse s => simp only [QuadExpr.ofInput, Except.ok.injEq] at h; subst h; exact hi.2.2

theorem linearConstraint_wf {p p' : QP} {l : LinInput} {s : SenseInput} {r : ℚ} {nm : Option String}
    {c : LinCst} (h : p.linearConstraint l s r nm = (.ok c, p')) (hp : p.WF) (hl : l.Fits p.numVars) :
    p'.WF := by
  obtain ⟨nm', le, s', h1, h2, h3, rfl, rfl⟩ := linearConstraint_ok h
  have hf := chooseName_fresh h1
  rw [hp.cons.lins.keys] at hf
  refine ⟨⟨hp.cons.vars, ?_, hp.cons.quads⟩, hp.objLin, hp.objQuad, ?_, hp.quads⟩
  · simpa using hp.cons.lins.set hf
  · intro c hc
    rcases List.mem_append.mp hc with hc | hc
    · exact hp.lins c hc
    · simp at hc; subst hc; exact LinExpr.ofInput_fits h3 hl

theorem quadraticConstraint_wf {p p' : QP} {l : LinInput} {q : QuadInput} {s : SenseInput} {r : ℚ}
    {nm : Option String} {c : QuadCst} (h : p.quadraticConstraint l q s r nm = (.ok c, p')) (hp : p.WF)
    (hl : l.Fits p.numVars) (hq : q.Fits p.numVars) : p'.WF := by
  obtain ⟨nm', le, qe, s', h1, h2, h3, h4, rfl, rfl⟩ := quadraticConstraint_ok h
  have hf := chooseName_fresh h1
  rw [hp.cons.quads.keys] at hf
  refine ⟨⟨hp.cons.vars, hp.cons.lins, ?_⟩, hp.objLin, hp.objQuad, hp.lins, ?_⟩
  · simpa using hp.cons.quads.set hf
  · intro c hc
    rcases List.mem_append.mp hc with hc | hc
    · exact hp.quads c hc
    · simp at hc; subst hc; exact ⟨LinExpr.ofInput_fits h3 hl, QuadExpr.ofInput_fits h4 hq⟩

theorem setObjective_wf {p p' : QP} {s : ObjSense} {c : ℚ} {l : LinInput} {q : QuadInput}
    (h : p.setObjective s c l q = (.ok (), p')) (hp : p.WF) (hl : l.Fits p.numVars)
    (hq : q.Fits p.numVars) : p'.WF := by
  obtain ⟨le, qe, h1, h2, rfl⟩ := setObjective_ok h
  exact ⟨⟨hp.cons.vars, hp.cons.lins, hp.cons.quads⟩, LinExpr.ofInput_fits h1 hl,
    QuadExpr.ofInput_fits h2 hq, hp.lins, hp.quads⟩

theorem Extends.wf {p p' : QP} {vs : List Variable} {lb ub : ℚ} {t : VarType}
    (h : Extends p p' vs lb ub t) (hp : p.WF) : p'.WF := by
  have hn : p.numVars ≤ p'.numVars := by simp [QP.numVars, h.vars]
  refine ⟨h.cons hp.cons, ?_, ?_, ?_, ?_⟩
  · rw [h.objective]; exact hp.objLin.mono hn
  · rw [h.objective]; exact hp.objQuad.mono hn
  · rw [h.lins]; exact fun c hc => (hp.lins c hc).mono hn
  · rw [h.quads]; exact fun c hc => ⟨(hp.quads c hc).1.mono hn, (hp.quads c hc).2.mono hn⟩

theorem QP.empty_wf (name : String) : (QP.empty name).WF := by
  refine ⟨QP.empty_consistent name, ?_, ?_, ?_, ?_⟩
  · exact ⟨⟨by simp [QP.empty, Assoc.keys], by simp [QP.empty, Assoc.keys]⟩, le_refl _⟩
  · exact ⟨⟨by simp [QP.empty, Assoc.keys], by simp [QP.empty, Assoc.keys], by simp [QP.empty, Assoc.keys]⟩,
      le_refl _⟩
  · simp [QP.empty]
  · simp [QP.empty]

/-! ## Success -/

theorem chooseName_some {ix : Assoc String Nat} {count : Nat} {pre s : String} (hne : s ≠ "")
    (h : s ∉ Assoc.keys ix) : chooseName ix count pre (some s) = .ok s := by
  have : ¬ Assoc.has ix s = true := fun hh => h (Assoc.has_iff.mp hh)
  simp [chooseName, hne, this]

theorem linearConstraint_success {p : QP} {l : LinInput} {s : Sense} {r : ℚ} {nm : String}
    {le : LinExpr} (hne : nm ≠ "") (hf : nm ∉ Assoc.keys p.linsIndex)
    (h : LinExpr.ofInput p.varsIndex p.numVars l = .ok le) :
    p.linearConstraint l (.sense s) r (some nm) = (.ok ⟨nm, le, s, r⟩,
      { p with linsIndex := Assoc.set p.linsIndex nm p.lins.length, lins := p.lins ++ [⟨nm, le, s, r⟩] }) := by
  simp only [QP.linearConstraint, chooseName_some hne hf, Sense.convert, QP.numVars]
  simp only [QP.numVars] at h
  simp [h]

theorem quadraticConstraint_success {p : QP} {l : LinInput} {q : QuadInput} {s : Sense} {r : ℚ} {nm : String}
    {le : LinExpr} {qe : QuadExpr} (hne : nm ≠ "") (hf : nm ∉ Assoc.keys p.quadsIndex)
    (h : LinExpr.ofInput p.varsIndex p.numVars l = .ok le)
    (h' : QuadExpr.ofInput p.varsIndex p.numVars q = .ok qe) :
    p.quadraticConstraint l q (.sense s) r (some nm) = (.ok ⟨nm, le, qe, s, r⟩,
      { p with quadsIndex := Assoc.set p.quadsIndex nm p.quads.length, quads := p.quads ++ [⟨nm, le, qe, s, r⟩] }) := by
  simp only [QP.quadraticConstraint, chooseName_some hne hf, Sense.convert, QP.numVars]
  simp only [QP.numVars] at h h'
  simp [h, h']

theorem setObjective_success {p : QP} {s : ObjSense} {c : ℚ} {l : LinInput} {q : QuadInput}
    {le : LinExpr} {qe : QuadExpr} (h : LinExpr.ofInput p.varsIndex p.numVars l = .ok le)
    (h' : QuadExpr.ofInput p.varsIndex p.numVars q = .ok qe) :
    p.setObjective s c l q = (.ok (), { p with objective := ⟨c, le, qe, s⟩ }) := by
  simp [QP.setObjective, h, h']

theorem sparse_ok (vi : Assoc String Nat) (n : Nat) (q : QuadExpr) :
    QuadExpr.ofInput vi n (.sparse q) = .ok ⟨q.n, triangle q.coeffs⟩ := rfl

theorem addVariable_success {p : QP} {lb ub : ℚ} {t : VarType} {s : String}
    (hf : s ∉ Assoc.keys p.varsIndex) (hb : lb ≤ ub) :
    ∃ p', p.addVariable lb ub t (some s) = (.ok ⟨s, lb, ub, t⟩, p') := by
  rw [addVariable_some]
  have : ¬ Assoc.has p.varsIndex s = true := fun hh => hf (Assoc.has_iff.mp hh)
  rw [if_neg this, if_neg (not_lt.mpr hb)]
  exact ⟨_, rfl⟩

end Verif
