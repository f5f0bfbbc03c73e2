import Verif.Scale

/-!
# Programs with other names

Renaming the variables and constraints of a program, and what the converters make of it.
-/

namespace Verif

/-- A renaming, `ρ` of the variables and `σ` of the constraints: different names stay different, and the names that the converters
make from the name of a variable or a constraint are made in the same way from the new name. -/
structure Renaming (ρ σ : String → String) : Prop where
  inj : ∀ s t, ρ s = ρ t → s = t
  injCst : ∀ s t, σ s = σ t → s = t
  bit : ∀ (s : String) (k : Nat), ρ (s ++ delim ++ toString k) = ρ s ++ delim ++ toString k
  intSlack : ∀ s, ρ (s ++ delim ++ "int_slack") = σ s ++ delim ++ "int_slack"
  contSlack : ∀ s, ρ (s ++ delim ++ "continuous_slack") = σ s ++ delim ++ "continuous_slack"
  empty : σ "" = ""
  emptyVar : ρ "" = ""

/-- The dictionary with other keys. -/
def mapKeys {κ β : Type} (f : κ → κ) (d : Assoc κ β) : Assoc κ β := d.map fun p => (f p.1, p.2)

/-- The variable with another name. -/
def Variable.rename (ρ : String → String) (v : Variable) : Variable := { v with name := ρ v.name }

/-- The constraint with another name. -/
def LinCst.rename (σ : String → String) (c : LinCst) : LinCst := { c with name := σ c.name }

/-- The constraint with another name. -/
def QuadCst.rename (σ : String → String) (c : QuadCst) : QuadCst := { c with name := σ c.name }

/-- The program with other names of the variables and constraints. -/
def QP.rename (ρ σ : String → String) (p : QP) : QP :=
  { p with
    vars := p.vars.map (Variable.rename ρ), varsIndex := mapKeys ρ p.varsIndex
    lins := p.lins.map (LinCst.rename σ), linsIndex := mapKeys σ p.linsIndex
    quads := p.quads.map (QuadCst.rename σ), quadsIndex := mapKeys σ p.quadsIndex }

/-- An operation does the same to the renamed program. -/
def Res.rename {α : Type} (ρ σ : String → String) (f : α → α) (r : Res α) : Res α := (r.1.map f, r.2.rename ρ σ)

/-- Both names of a pair. -/
def namePair (ρ : String → String) (k : String × String) : String × String := (ρ k.1, ρ k.2)

section
variable {κ β : Type} [DecidableEq κ] {f : κ → κ}

theorem get?_mapKeys (hf : ∀ a b, f a = f b → a = b) (d : Assoc κ β) (k : κ) :
    Assoc.get? (mapKeys f d) (f k) = Assoc.get? d k := by
  induction d with
  | nil => rfl
  | cons p d ih =>
    obtain ⟨k', v⟩ := p
    simp only [mapKeys, List.map_cons, Assoc.get?] at ih ⊢
    by_cases h : k' = k
    · rw [if_pos h, if_pos (by rw [h])]
    · rw [if_neg h, if_neg fun e => h (hf _ _ e)]
      exact ih

theorem has_mapKeys (hf : ∀ a b, f a = f b → a = b) (d : Assoc κ β) (k : κ) :
    Assoc.has (mapKeys f d) (f k) = Assoc.has d k := by
  unfold Assoc.has
  rw [get?_mapKeys hf]

theorem set_mapKeys (hf : ∀ a b, f a = f b → a = b) (d : Assoc κ β) (k : κ) (v : β) :
    Assoc.set (mapKeys f d) (f k) v = mapKeys f (Assoc.set d k v) := by
  induction d with
  | nil => rfl
  | cons p d ih =>
    obtain ⟨k', v'⟩ := p
    simp only [mapKeys, List.map_cons, Assoc.set] at ih ⊢
    by_cases h : k' = k
    · rw [if_pos h, if_pos (by rw [h])]
      rfl
    · rw [if_neg h, if_neg fun e => h (hf _ _ e), ih]
      rfl

theorem length_mapKeys (d : Assoc κ β) : (mapKeys f d).length = d.length := List.length_map _

theorem get_mapKeys (hf : ∀ a b, f a = f b → a = b) (d : Dict κ) (k : κ) : Dict.get (mapKeys f d) (f k) = Dict.get d k := by
  unfold Dict.get
  rw [get?_mapKeys hf]

theorem add_mapKeys (hf : ∀ a b, f a = f b → a = b) (d : Dict κ) (k : κ) (v : ℚ) :
    Dict.add (mapKeys f d) (f k) v = mapKeys f (Dict.add d k v) := by
  unfold Dict.add
  rw [get_mapKeys hf, set_mapKeys hf]

theorem dokPlus_mapKeys (hf : ∀ a b, f a = f b → a = b) (a b : Dict κ) :
    dokPlus (mapKeys f a) (mapKeys f b) = mapKeys f (dokPlus a b) := by
  unfold dokPlus
  induction b generalizing a with
  | nil => rfl
  | cons p b ih =>
    simp only [mapKeys, List.map_cons, List.foldl_cons]
    have := add_mapKeys hf a p.1 p.2
    simp only [mapKeys] at this ih
    rw [this, ih]

theorem foldl_set_mapKeys {α γ : Type} (hf : ∀ a b, f a = f b → a = b) (l : List α) (g : α → γ) (k : α → κ) (k' : γ → κ)
    (w : α → β) (w' : γ → β) (h : ∀ a, k' (g a) = f (k a)) (h' : ∀ a, w' (g a) = w a) (d : Assoc κ β) :
    (l.map g).foldl (fun d a => Assoc.set d (k' a) (w' a)) (mapKeys f d) =
      mapKeys f (l.foldl (fun d a => Assoc.set d (k a) (w a)) d) := by
  induction l generalizing d with
  | nil => rfl
  | cons a l ih =>
    simp only [List.map_cons, List.foldl_cons]
    rw [h, h', set_mapKeys hf]
    exact ih _

theorem foldl_add_mapKeys {α γ : Type} (hf : ∀ a b, f a = f b → a = b) (l : List α) (g : α → γ) (k : α → κ) (k' : γ → κ)
    (w : α → ℚ) (w' : γ → ℚ) (h : ∀ a, k' (g a) = f (k a)) (h' : ∀ a, w' (g a) = w a) (d : Dict κ) :
    (l.map g).foldl (fun d a => Dict.add d (k' a) (w' a)) (mapKeys f d) =
      mapKeys f (l.foldl (fun d a => Dict.add d (k a) (w a)) d) := by
  induction l generalizing d with
  | nil => rfl
  | cons a l ih =>
    simp only [List.map_cons, List.foldl_cons]
    rw [h, h', add_mapKeys hf]
    exact ih _

end

variable {ρ σ : String → String}

theorem namePair_inj (hρ : Renaming ρ σ) (a b : String × String) (h : namePair ρ a = namePair ρ b) : a = b := by
  simp only [namePair, Prod.mk.injEq] at h
  exact Prod.ext (hρ.inj _ _ h.1) (hρ.inj _ _ h.2)

theorem numVars_rename (p : QP) : (p.rename ρ σ).numVars = p.numVars := by simp [QP.numVars, QP.rename]

theorem empty_rename (s : String) : (QP.empty s).rename ρ σ = QP.empty s := rfl

/-! ## Inputs -/

theorem resolve_rename (hρ : Renaming ρ σ) (vi : Assoc String Nat) (n : Nat) (s : String) :
    resolve (mapKeys ρ vi) n (.name (ρ s)) = resolve vi n (.name s) := by
  simp only [resolve]
  rw [get?_mapKeys hρ.inj]

theorem linOfEntries_rename (hρ : Renaming ρ σ) (vi : Assoc String Nat) (n : Nat) (d : Dict String) (acc : Dict Nat) :
    linOfEntries (mapKeys ρ vi) n ((mapKeys ρ d).map fun q => (.name q.1, q.2)) acc =
      linOfEntries vi n (d.map fun q => (.name q.1, q.2)) acc := by
  induction d generalizing acc with
  | nil => rfl
  | cons p d ih =>
    simp only [mapKeys, List.map_cons, linOfEntries] at ih ⊢
    have := resolve_rename hρ vi n p.1
    simp only [mapKeys] at this
    rw [this]
    cases resolve vi n (.name p.1) with
    | error e => rfl
    | ok i => exact ih _

theorem linNames_rename (hρ : Renaming ρ σ) (vi : Assoc String Nat) (n : Nat) (d : Dict String) :
    LinExpr.ofInput (mapKeys ρ vi) n (linNames (mapKeys ρ d)) = LinExpr.ofInput vi n (linNames d) := by
  simp only [linNames, LinExpr.ofInput]
  rw [linOfEntries_rename hρ]

theorem quadNames_rename (hρ : Renaming ρ σ) (vi : Assoc String Nat) (n : Nat) (d : Dict (String × String)) :
    QuadExpr.ofInput (mapKeys ρ vi) n (quadNames (mapKeys (namePair ρ) d)) = QuadExpr.ofInput vi n (quadNames d) := by
  simp only [quadNames, QuadExpr.ofInput]
  have : ∀ acc, quadOfEntries (mapKeys ρ vi) n ((mapKeys (namePair ρ) d).map fun q => ((.name q.1.1, .name q.1.2), q.2)) acc =
      quadOfEntries vi n (d.map fun q => ((.name q.1.1, .name q.1.2), q.2)) acc := by
    intro acc
    induction d generalizing acc with
    | nil => rfl
    | cons p d ih =>
      obtain ⟨⟨a, b⟩, v⟩ := p
      have h1 := resolve_rename hρ vi n a
      have h2 := resolve_rename hρ vi n b
      rw [show mapKeys (namePair ρ) (((a, b), v) :: d) = ((ρ a, ρ b), v) :: mapKeys (namePair ρ) d from rfl]
      simp only [List.map_cons, quadOfEntries]
      rw [h1, h2]
      cases resolve vi n (.name a) with
      | error e => rfl
      | ok i =>
        cases resolve vi n (.name b) with
        | error e => rfl
        | ok j => exact ih _
  rw [this]

theorem linIdx_rename (vi vi' : Assoc String Nat) (n : Nat) (d : Dict Nat) :
    LinExpr.ofInput vi' n (linIdx d) = LinExpr.ofInput vi n (linIdx d) := by
  simp only [linIdx, LinExpr.ofInput]
  have : ∀ acc, linOfEntries vi' n (d.map fun q => (.idx q.1, q.2)) acc = linOfEntries vi n (d.map fun q => (.idx q.1, q.2)) acc := by
    intro acc
    induction d generalizing acc with
    | nil => rfl
    | cons p d ih =>
      simp only [List.map_cons, linOfEntries, resolve]
      split
      · rfl
      · exact ih _
  rw [this]

theorem quadIdx_rename (vi vi' : Assoc String Nat) (n : Nat) (d : Dict (Nat × Nat)) :
    QuadExpr.ofInput vi' n (quadIdx d) = QuadExpr.ofInput vi n (quadIdx d) := by
  simp only [quadIdx, QuadExpr.ofInput]
  have : ∀ acc, quadOfEntries vi' n (d.map fun q => ((.idx q.1.1, .idx q.1.2), q.2)) acc =
      quadOfEntries vi n (d.map fun q => ((.idx q.1.1, .idx q.1.2), q.2)) acc := by
    intro acc
    induction d generalizing acc with
    | nil => rfl
    | cons p d ih =>
      simp only [List.map_cons, quadOfEntries, resolve]
      split
      · rfl
      · split
        · rfl
        · exact ih _
  rw [this]

theorem varName_rename (hρ : Renaming ρ σ) (vars : List Variable) (k : Nat) :
    varName (vars.map (Variable.rename ρ)) k = ρ (varName vars k) := by
  unfold varName
  rw [List.getElem?_map]
  cases vars[k]? with
  | none => exact hρ.emptyVar.symm
  | some v => rfl

theorem linToDict_rename (hρ : Renaming ρ σ) (e : LinExpr) (vars : List Variable) :
    e.toDictNames (vars.map (Variable.rename ρ)) = mapKeys ρ (e.toDictNames vars) := by
  simp [LinExpr.toDictNames, mapKeys, varName_rename hρ]

theorem quadToDict_rename (hρ : Renaming ρ σ) (e : QuadExpr) (vars : List Variable) :
    e.toDictNames (vars.map (Variable.rename ρ)) = mapKeys (namePair ρ) (e.toDictNames vars) := by
  simp [QuadExpr.toDictNames, mapKeys, namePair, varName_rename hρ]

/-! ## Builder operations -/

theorem getVariable_rename (hρ : Renaming ρ σ) (p : QP) (s : String) :
    (p.rename ρ σ).getVariable (.name (ρ s)) = (p.getVariable (.name s)).map (Variable.rename ρ) := by
  simp only [QP.getVariable, QP.rename]
  rw [get?_mapKeys hρ.inj]
  cases Assoc.get? p.varsIndex s with
  | none => rfl
  | some i =>
    simp only [List.getElem?_map]
    cases p.vars[i]? <;> rfl

theorem addVariable_rename (hρ : Renaming ρ σ) (p : QP) (lb ub : ℚ) (t : VarType) (s : String) :
    (p.rename ρ σ).addVariable lb ub t (some (ρ s)) = Res.rename ρ σ (Variable.rename ρ) (p.addVariable lb ub t (some s)) := by
  have hfind : ∀ (vi : Assoc String Nat) (n : String) (k : Nat), findName vi n (.lit "") (vi.length + 2) none k =
      if Assoc.has vi n then .error .optimization else .ok (n, k + 1) := by
    intro vi n k
    simp only [findName, KeyFormat.format, String.append_empty]
    by_cases h : Assoc.has vi n = true
    · simp [h, findName, KeyFormat.format]
    · simp [h]
  simp only [QP.addVariable, QP.addVariables, Option.getD_some]
  rw [if_neg (by decide), if_neg (by decide), if_neg (by decide), if_neg (by decide)]
  simp only [show (1 : Int).toNat = 1 from rfl, QP.addVarsCount]
  rw [hfind, hfind, show (p.rename ρ σ).varsIndex = mapKeys ρ p.varsIndex from rfl, has_mapKeys hρ.inj, numVars_rename]
  by_cases h : Assoc.has p.varsIndex s = true
  · rw [if_pos h, if_pos h]; rfl
  · rw [if_neg h, if_neg h]
    simp only [QP.addOneVar]
    rw [show (p.rename ρ σ).varsIndex = mapKeys ρ p.varsIndex from rfl, has_mapKeys hρ.inj, if_neg h, if_neg h, numVars_rename,
      set_mapKeys hρ.inj]
    simp only [Variable.mk?]
    by_cases hb : lb > ub
    · rw [if_pos hb, if_pos hb]; rfl
    · rw [if_neg hb, if_neg hb]
      simp [Res.rename, QP.rename, Except.map, Variable.rename]

theorem chooseName_rename (hρ : Renaming ρ σ) (ix : Assoc String Nat) (k : Nat) (pre s : String) (hs : s ≠ "") :
    chooseName (mapKeys σ ix) k pre (some (σ s)) = (chooseName ix k pre (some s)).map σ := by
  have hs' : σ s ≠ "" := fun h => hs (hρ.injCst _ _ (h.trans hρ.empty.symm))
  simp only [chooseName]
  rw [if_neg hs, if_neg hs', has_mapKeys hρ.injCst]
  split <;> rfl

theorem linearConstraint_rename (hρ : Renaming ρ σ) (p : QP) (d : Dict String) (s : SenseInput) (r : ℚ) (n : String)
    (hn : n ≠ "") : (p.rename ρ σ).linearConstraint (linNames (mapKeys ρ d)) s r (some (σ n)) =
      Res.rename ρ σ (LinCst.rename σ) (p.linearConstraint (linNames d) s r (some n)) := by
  unfold QP.linearConstraint
  rw [show (p.rename ρ σ).linsIndex = mapKeys σ p.linsIndex from rfl,
    show (p.rename ρ σ).lins.length = p.lins.length by simp [QP.rename], chooseName_rename hρ _ _ _ _ hn]
  cases chooseName p.linsIndex p.lins.length "c" (some n) with
  | error e => rfl
  | ok nm =>
    simp only [Except.map]
    rw [set_mapKeys hρ.injCst]
    cases Sense.convert s with
    | error e => rfl
    | ok s =>
      simp only [QP.numVars, QP.rename, List.length_map]
      rw [linNames_rename hρ]
      cases LinExpr.ofInput p.varsIndex p.vars.length (linNames d) with
      | error e => rfl
      | ok l => simp [Res.rename, Except.map, QP.rename, LinCst.rename]

theorem quadraticConstraint_rename (hρ : Renaming ρ σ) (p : QP) (d : Dict String) (q : Dict (String × String))
    (s : SenseInput) (r : ℚ) (n : String) (hn : n ≠ "") :
    (p.rename ρ σ).quadraticConstraint (linNames (mapKeys ρ d)) (quadNames (mapKeys (namePair ρ) q)) s r (some (σ n)) =
      Res.rename ρ σ (QuadCst.rename σ) (p.quadraticConstraint (linNames d) (quadNames q) s r (some n)) := by
  unfold QP.quadraticConstraint
  rw [show (p.rename ρ σ).quadsIndex = mapKeys σ p.quadsIndex from rfl,
    show (p.rename ρ σ).quads.length = p.quads.length by simp [QP.rename], chooseName_rename hρ _ _ _ _ hn]
  cases chooseName p.quadsIndex p.quads.length "q" (some n) with
  | error e => rfl
  | ok nm =>
    simp only [Except.map]
    rw [set_mapKeys hρ.injCst]
    cases Sense.convert s with
    | error e => rfl
    | ok s =>
      simp only [QP.numVars, QP.rename, List.length_map]
      rw [linNames_rename hρ, quadNames_rename hρ]
      cases LinExpr.ofInput p.varsIndex p.vars.length (linNames d) with
      | error e => rfl
      | ok l =>
        cases QuadExpr.ofInput p.varsIndex p.vars.length (quadNames q) with
        | error e => rfl
        | ok q => simp [Res.rename, Except.map, QP.rename, QuadCst.rename]

theorem setObjective_rename (hρ : Renaming ρ σ) (p : QP) (s : ObjSense) (c : ℚ) (d : Dict String) (q : Dict (String × String)) :
    (p.rename ρ σ).setObjective s c (linNames (mapKeys ρ d)) (quadNames (mapKeys (namePair ρ) q)) =
      Res.rename ρ σ id (p.setObjective s c (linNames d) (quadNames q)) := by
  unfold QP.setObjective
  simp only [QP.numVars, QP.rename, List.length_map]
  rw [linNames_rename hρ, quadNames_rename hρ]
  cases LinExpr.ofInput p.varsIndex p.vars.length (linNames d) with
  | error e => rfl
  | ok l => cases QuadExpr.ofInput p.varsIndex p.vars.length (quadNames q) <;> rfl

theorem setObjective_renameIdx (p : QP) (s : ObjSense) (c : ℚ) (d : Dict Nat) (q : Dict (Nat × Nat)) :
    (p.rename ρ σ).setObjective s c (linIdx d) (quadIdx q) = Res.rename ρ σ id (p.setObjective s c (linIdx d) (quadIdx q)) := by
  unfold QP.setObjective
  simp only [QP.numVars, QP.rename, List.length_map]
  rw [linIdx_rename p.varsIndex, quadIdx_rename p.varsIndex]
  cases LinExpr.ofInput p.varsIndex p.vars.length (linIdx d) with
  | error e => rfl
  | ok l => cases QuadExpr.ofInput p.varsIndex p.vars.length (quadIdx q) <;> rfl

/-! ## The converters -/

/-- A slack variable with another name. -/
def renameSlack (ρ : String → String) (o : Option (String × ℚ)) : Option (String × ℚ) := o.map fun p => (ρ p.1, p.2)

theorem calcLinBounds_rename (hρ : Renaming ρ σ) (src : QP) (d : Dict String) (acc : ℚ × ℚ) :
    calcLinBounds (src.rename ρ σ) (mapKeys ρ d) acc = calcLinBounds src d acc := by
  induction d generalizing acc with
  | nil => rfl
  | cons p d ih =>
    obtain ⟨s, v⟩ := p
    rw [show mapKeys ρ ((s, v) :: d) = (ρ s, v) :: mapKeys ρ d from rfl]
    simp only [calcLinBounds]
    rw [getVariable_rename hρ]
    cases src.getVariable (.name s) with
    | error e => rfl
    | ok x => exact ih _

theorem calcQuadBounds_rename (hρ : Renaming ρ σ) (src : QP) (lin : Dict String) (quad : Dict (String × String)) :
    calcQuadBounds (src.rename ρ σ) (mapKeys ρ lin) (mapKeys (namePair ρ) quad) = calcQuadBounds src lin quad := by
  unfold calcQuadBounds
  rw [calcLinBounds_rename hρ]
  cases calcLinBounds src lin (0, 0) with
  | error e => rfl
  | ok acc =>
    simp only
    induction quad generalizing acc with
    | nil => rfl
    | cons p d ih =>
      obtain ⟨⟨si, sj⟩, v⟩ := p
      rw [show mapKeys (namePair ρ) (((si, sj), v) :: d) = ((ρ si, ρ sj), v) :: mapKeys (namePair ρ) d from rfl]
      simp only [calcQuadBoundsLoop]
      rw [getVariable_rename hρ, getVariable_rename hρ]
      cases src.getVariable (.name si) with
      | error e => rfl
      | ok x =>
        cases src.getVariable (.name sj) with
        | error e => rfl
        | ok y => exact ih _

theorem slackVar_rename (hρ : Renaming ρ σ) (dst : QP) (t : VarType) (n : String) (s : Sense) (r lb ub : ℚ) :
    slackVar (dst.rename ρ σ) t (ρ n) s r lb ub = (slackVar dst t n s r lb ub).map fun a => (renameSlack ρ a.1, a.2.rename ρ σ) := by
  unfold slackVar
  cases s with
  | eq => rfl
  | le =>
    simp only
    split
    · rw [addVariable_rename hρ]
      generalize dst.addVariable 0 (r - lb) t (some n) = a
      obtain ⟨a, p'⟩ := a
      cases a <;> rfl
    · rfl
  | ge =>
    simp only
    split
    · rw [addVariable_rename hρ]
      generalize dst.addVariable 0 (ub - r) t (some n) = a
      obtain ⟨a, p'⟩ := a
      cases a <;> rfl
    · rfl

theorem withSlack_rename (hρ : Renaming ρ σ) (lin : Dict String) (o : Option (String × ℚ)) :
    withSlack (mapKeys ρ lin) (renameSlack ρ o) = mapKeys ρ (withSlack lin o) := by
  cases o with
  | none => rfl
  | some p => exact set_mapKeys hρ.inj lin p.1 p.2

theorem values_mapKeys {κ : Type} (f : κ → κ) (d : Dict κ) : Dict.values (mapKeys f d) = Dict.values d := by
  simp [Dict.values, mapKeys]

theorem intSlackLin_rename (hρ : Renaming ρ σ) (src dst : QP) (lin : Dict String) (s : Sense) (r : ℚ) (n : String) (hn : n ≠ "") :
    intSlackLin (src.rename ρ σ) (dst.rename ρ σ) (mapKeys ρ lin) s r (σ n) = (intSlackLin src dst lin s r n).map (QP.rename ρ σ) := by
  unfold intSlackLin
  rw [values_mapKeys, calcLinBounds_rename hρ]
  split
  · rfl
  · cases calcLinBounds src lin (0, 0) with
    | error e => rfl
    | ok b =>
      simp only
      rw [← hρ.intSlack, slackVar_rename hρ]
      cases slackVar dst .integer (n ++ delim ++ "int_slack") s (roundRhs s r) b.1 b.2 with
      | error e => rfl
      | ok a =>
        simp only [Except.map]
        rw [withSlack_rename hρ, linearConstraint_rename hρ _ _ _ _ _ hn]
        generalize a.2.linearConstraint (linNames (withSlack lin a.1)) (.str "==") (roundRhs s r) (some n) = c
        obtain ⟨c, p'⟩ := c
        cases c <;> rfl

theorem contSlackLin_rename (hρ : Renaming ρ σ) (src dst : QP) (lin : Dict String) (s : Sense) (r : ℚ) (n : String) (hn : n ≠ "") :
    contSlackLin (src.rename ρ σ) (dst.rename ρ σ) (mapKeys ρ lin) s r (σ n) = (contSlackLin src dst lin s r n).map (QP.rename ρ σ) := by
  unfold contSlackLin
  rw [calcLinBounds_rename hρ]
  cases calcLinBounds src lin (0, 0) with
  | error e => rfl
  | ok b =>
    simp only
    rw [← hρ.contSlack, slackVar_rename hρ]
    cases slackVar dst .continuous (n ++ delim ++ "continuous_slack") s r b.1 b.2 with
    | error e => rfl
    | ok a =>
      simp only [Except.map]
      rw [withSlack_rename hρ, linearConstraint_rename hρ _ _ _ _ _ hn]
      generalize a.2.linearConstraint (linNames (withSlack lin a.1)) (.str "==") r (some n) = c
      obtain ⟨c, p'⟩ := c
      cases c <;> rfl

theorem intSlackQuad_rename (hρ : Renaming ρ σ) (src dst : QP) (lin : Dict String) (quad : Dict (String × String)) (s : Sense)
    (r : ℚ) (n : String) (hn : n ≠ "") :
    intSlackQuad (src.rename ρ σ) (dst.rename ρ σ) (mapKeys ρ lin) (mapKeys (namePair ρ) quad) s r (σ n) =
      (intSlackQuad src dst lin quad s r n).map (QP.rename ρ σ) := by
  unfold intSlackQuad
  rw [values_mapKeys, values_mapKeys, calcQuadBounds_rename hρ]
  split
  · rfl
  · cases calcQuadBounds src lin quad with
    | error e => rfl
    | ok b =>
      simp only
      rw [← hρ.intSlack, slackVar_rename hρ]
      cases slackVar dst .integer (n ++ delim ++ "int_slack") s (roundRhs s r) b.1 b.2 with
      | error e => rfl
      | ok a =>
        simp only [Except.map]
        rw [withSlack_rename hρ, quadraticConstraint_rename hρ _ _ _ _ _ _ hn]
        generalize a.2.quadraticConstraint _ _ _ _ _ = c
        obtain ⟨c, p'⟩ := c
        cases c <;> rfl

theorem contSlackQuad_rename (hρ : Renaming ρ σ) (src dst : QP) (lin : Dict String) (quad : Dict (String × String)) (s : Sense)
    (r : ℚ) (n : String) (hn : n ≠ "") :
    contSlackQuad (src.rename ρ σ) (dst.rename ρ σ) (mapKeys ρ lin) (mapKeys (namePair ρ) quad) s r (σ n) =
      (contSlackQuad src dst lin quad s r n).map (QP.rename ρ σ) := by
  unfold contSlackQuad
  rw [calcQuadBounds_rename hρ]
  cases calcQuadBounds src lin quad with
  | error e => rfl
  | ok b =>
    simp only
    rw [← hρ.contSlack, slackVar_rename hρ]
    cases slackVar dst .continuous (n ++ delim ++ "continuous_slack") s r b.1 b.2 with
    | error e => rfl
    | ok a =>
      simp only [Except.map]
      rw [withSlack_rename hρ, quadraticConstraint_rename hρ _ _ _ _ _ _ hn]
      generalize a.2.quadraticConstraint _ _ _ _ _ = c
      obtain ⟨c, p'⟩ := c
      cases c <;> rfl

theorem i2eLinOne_rename (hρ : Renaming ρ σ) (m : SlackMode) (src dst : QP) (k : LinCst) (hk : k.name ≠ "") :
    i2eLinOne m (src.rename ρ σ) (dst.rename ρ σ) (k.rename σ) = (i2eLinOne m src dst k).map (QP.rename ρ σ) := by
  unfold i2eLinOne
  simp only [show (src.rename ρ σ).vars = src.vars.map (Variable.rename ρ) from rfl, show (k.rename σ).linear = k.linear from rfl,
    show (k.rename σ).sense = k.sense from rfl, show (k.rename σ).rhs = k.rhs from rfl,
    show (k.rename σ).name = σ k.name from rfl, linToDict_rename hρ, autoSlackLin, values_mapKeys]
  cases k.sense with
  | eq =>
    simp only
    rw [linearConstraint_rename hρ _ _ _ _ _ hk]
    generalize dst.linearConstraint _ _ _ _ = c
    obtain ⟨c, p'⟩ := c
    cases c <;> rfl
  | le =>
    cases m with
    | integer => exact intSlackLin_rename hρ _ _ _ _ _ _ hk
    | continuous => exact contSlackLin_rename hρ _ _ _ _ _ _ hk
    | auto =>
      simp only
      split
      · exact contSlackLin_rename hρ _ _ _ _ _ _ hk
      · exact intSlackLin_rename hρ _ _ _ _ _ _ hk
    | other => rfl
  | ge =>
    cases m with
    | integer => exact intSlackLin_rename hρ _ _ _ _ _ _ hk
    | continuous => exact contSlackLin_rename hρ _ _ _ _ _ _ hk
    | auto =>
      simp only
      split
      · exact contSlackLin_rename hρ _ _ _ _ _ _ hk
      · exact intSlackLin_rename hρ _ _ _ _ _ _ hk
    | other => rfl

theorem i2eQuadOne_rename (hρ : Renaming ρ σ) (m : SlackMode) (src dst : QP) (k : QuadCst) (hk : k.name ≠ "") :
    i2eQuadOne m (src.rename ρ σ) (dst.rename ρ σ) (k.rename σ) = (i2eQuadOne m src dst k).map (QP.rename ρ σ) := by
  unfold i2eQuadOne
  simp only [show (src.rename ρ σ).vars = src.vars.map (Variable.rename ρ) from rfl, show (k.rename σ).linear = k.linear from rfl,
    show (k.rename σ).quadratic = k.quadratic from rfl,
    show (k.rename σ).sense = k.sense from rfl, show (k.rename σ).rhs = k.rhs from rfl,
    show (k.rename σ).name = σ k.name from rfl, linToDict_rename hρ, quadToDict_rename hρ, autoSlackQuad, values_mapKeys]
  cases k.sense with
  | eq =>
    simp only
    rw [quadraticConstraint_rename hρ _ _ _ _ _ _ hk]
    generalize dst.quadraticConstraint _ _ _ _ _ = c
    obtain ⟨c, p'⟩ := c
    cases c <;> rfl
  | le =>
    cases m with
    | integer => exact intSlackQuad_rename hρ _ _ _ _ _ _ _ hk
    | continuous => exact contSlackQuad_rename hρ _ _ _ _ _ _ _ hk
    | auto =>
      simp only
      split
      · exact contSlackQuad_rename hρ _ _ _ _ _ _ _ hk
      · exact intSlackQuad_rename hρ _ _ _ _ _ _ _ hk
    | other => rfl
  | ge =>
    cases m with
    | integer => exact intSlackQuad_rename hρ _ _ _ _ _ _ _ hk
    | continuous => exact contSlackQuad_rename hρ _ _ _ _ _ _ _ hk
    | auto =>
      simp only
      split
      · exact contSlackQuad_rename hρ _ _ _ _ _ _ _ hk
      · exact intSlackQuad_rename hρ _ _ _ _ _ _ _ hk
    | other => rfl

theorem i2eLins_rename (hρ : Renaming ρ σ) (m : SlackMode) (src : QP) (ks : List LinCst) (hk : ∀ k ∈ ks, k.name ≠ "") (dst : QP) :
    i2eLins m (src.rename ρ σ) (ks.map (LinCst.rename σ)) (dst.rename ρ σ) = (i2eLins m src ks dst).map (QP.rename ρ σ) := by
  induction ks generalizing dst with
  | nil => rfl
  | cons k ks ih =>
    simp only [List.map_cons, i2eLins]
    rw [i2eLinOne_rename hρ _ _ _ _ (hk k List.mem_cons_self)]
    cases i2eLinOne m src dst k with
    | error e => rfl
    | ok d => exact ih (fun k h => hk k (List.mem_cons_of_mem _ h)) d

theorem i2eQuads_rename (hρ : Renaming ρ σ) (m : SlackMode) (src : QP) (ks : List QuadCst) (hk : ∀ k ∈ ks, k.name ≠ "") (dst : QP) :
    i2eQuads m (src.rename ρ σ) (ks.map (QuadCst.rename σ)) (dst.rename ρ σ) = (i2eQuads m src ks dst).map (QP.rename ρ σ) := by
  induction ks generalizing dst with
  | nil => rfl
  | cons k ks ih =>
    simp only [List.map_cons, i2eQuads]
    rw [i2eQuadOne_rename hρ _ _ _ _ (hk k List.mem_cons_self)]
    cases i2eQuadOne m src dst k with
    | error e => rfl
    | ok d => exact ih (fun k h => hk k (List.mem_cons_of_mem _ h)) d

theorem copyAllVars_rename (hρ : Renaming ρ σ) (l : List Variable) (dst : QP) :
    copyAllVars (l.map (Variable.rename ρ)) (dst.rename ρ σ) = (copyAllVars l dst).map (QP.rename ρ σ) := by
  induction l generalizing dst with
  | nil => rfl
  | cons x l ih =>
    simp only [List.map_cons, copyAllVars, show (x.rename ρ).vartype = x.vartype from rfl,
      show (x.rename ρ).lb = x.lb from rfl, show (x.rename ρ).ub = x.ub from rfl, show (x.rename ρ).name = ρ x.name from rfl,
      QP.binaryVar, QP.integerVar, QP.continuousVar, addVariable_rename hρ]
    cases x.vartype with
    | binary =>
      simp only
      generalize dst.addVariable 0 1 .binary (some x.name) = a
      obtain ⟨a, p'⟩ := a
      cases a with
      | error e => rfl
      | ok v => exact ih p'
    | integer =>
      simp only
      generalize dst.addVariable x.lb x.ub .integer (some x.name) = a
      obtain ⟨a, p'⟩ := a
      cases a with
      | error e => rfl
      | ok v => exact ih p'
    | continuous =>
      simp only
      generalize dst.addVariable x.lb x.ub .continuous (some x.name) = a
      obtain ⟨a, p'⟩ := a
      cases a with
      | error e => rfl
      | ok v => exact ih p'

/-- The constraints have names. -/
structure QP.Named (p : QP) : Prop where
  lins : ∀ c ∈ p.lins, c.name ≠ ""
  quads : ∀ c ∈ p.quads, c.name ≠ ""

theorem ineqToEq_rename (hρ : Renaming ρ σ) (m : SlackMode) (src : QP) (hs : src.Named) :
    (src.rename ρ σ).ineqToEq m = (src.ineqToEq m).map (QP.rename ρ σ) := by
  unfold QP.ineqToEq
  simp only [show (src.rename ρ σ).vars = src.vars.map (Variable.rename ρ) from rfl,
    show (src.rename ρ σ).objective = src.objective from rfl, show (src.rename ρ σ).name = src.name from rfl,
    show (src.rename ρ σ).lins = src.lins.map (LinCst.rename σ) from rfl,
    show (src.rename ρ σ).quads = src.quads.map (QuadCst.rename σ) from rfl]
  have h := copyAllVars_rename hρ src.vars (QP.empty src.name)
  rw [empty_rename] at h
  rw [h]
  cases copyAllVars src.vars (QP.empty src.name) with
  | error e => rfl
  | ok dst =>
    simp only [Except.map]
    rw [linToDict_rename hρ, quadToDict_rename hρ, setObjective_rename hρ]
    generalize dst.setObjective _ _ _ _ = a
    obtain ⟨a, p'⟩ := a
    cases a with
    | error e => rfl
    | ok u =>
      simp only [Res.rename, Except.map]
      rw [i2eLins_rename hρ _ _ _ hs.lins]
      cases i2eLins m src src.lins p' with
      | error e => rfl
      | ok d => exact i2eQuads_rename hρ m src src.quads hs.quads d

/-- The encodings with other names. -/
def renameEnc (ρ : String → String) (l : List (String × ℚ)) : List (String × ℚ) := l.map fun p => (ρ p.1, p.2)

/-- The encodings of the integer variables with other names. -/
def renameConv (ρ : String → String) (c : Conv) : Conv := c.map fun p => (ρ p.1, renameEnc ρ p.2)

theorem get?_renameConv (hρ : Renaming ρ σ) (c : Conv) (s : String) :
    Assoc.get? (renameConv ρ c) (ρ s) = (Assoc.get? c s).map (renameEnc ρ) := by
  induction c with
  | nil => rfl
  | cons p c ih =>
    obtain ⟨k, v⟩ := p
    simp only [renameConv, List.map_cons, Assoc.get?] at ih ⊢
    by_cases h : k = s
    · rw [if_pos h, if_pos (by rw [h])]; rfl
    · rw [if_neg h, if_neg fun e => h (hρ.inj _ _ e)]
      exact ih

theorem set_renameConv (hρ : Renaming ρ σ) (c : Conv) (s : String) (e : List (String × ℚ)) :
    Assoc.set (renameConv ρ c) (ρ s) (renameEnc ρ e) = renameConv ρ (Assoc.set c s e) := by
  induction c with
  | nil => rfl
  | cons p c ih =>
    obtain ⟨k, v⟩ := p
    simp only [renameConv, List.map_cons, Assoc.set] at ih ⊢
    by_cases h : k = s
    · rw [if_pos h, if_pos (by rw [h])]; rfl
    · rw [if_neg h, if_neg fun e => h (hρ.inj _ _ e), ih]; rfl

theorem convertVar_rename (hρ : Renaming ρ σ) (s : String) (lb ub : ℚ) :
    convertVar (ρ s) lb ub = (convertVar s lb ub).map (renameEnc ρ) := by
  unfold convertVar
  cases encodeCoeffs (ub - lb) with
  | error e => rfl
  | ok cs =>
    simp only [Except.map, renameEnc, List.map_map, Function.comp_def]
    congr 1
    exact List.map_congr_left fun a _ => by rw [hρ.bit]

theorem addBins_rename (hρ : Renaming ρ σ) (l : List (String × ℚ)) (dst : QP) :
    addBins (renameEnc ρ l) (dst.rename ρ σ) = (addBins l dst).map (QP.rename ρ σ) := by
  induction l generalizing dst with
  | nil => rfl
  | cons p l ih =>
    simp only [renameEnc, List.map_cons, addBins, QP.binaryVar] at ih ⊢
    rw [addVariable_rename hρ]
    generalize dst.addVariable 0 1 .binary (some p.1) = a
    obtain ⟨a, p'⟩ := a
    cases a with
    | error e => rfl
    | ok v => exact ih p'

theorem i2bVars_rename (hρ : Renaming ρ σ) (l : List Variable) (conv : Conv) (dst : QP) :
    i2bVars (l.map (Variable.rename ρ)) (renameConv ρ conv) (dst.rename ρ σ) =
      (i2bVars l conv dst).map fun r => (renameConv ρ r.1, r.2.rename ρ σ) := by
  induction l generalizing conv dst with
  | nil => rfl
  | cons x l ih =>
    simp only [List.map_cons, i2bVars, show (x.rename ρ).vartype = x.vartype from rfl,
      show (x.rename ρ).lb = x.lb from rfl, show (x.rename ρ).ub = x.ub from rfl, show (x.rename ρ).name = ρ x.name from rfl,
      QP.binaryVar, QP.continuousVar, addVariable_rename hρ, convertVar_rename hρ]
    cases x.vartype with
    | integer =>
      simp only
      cases convertVar x.name x.lb x.ub with
      | error e => rfl
      | ok enc =>
        simp only [Except.map]
        rw [addBins_rename hρ]
        cases addBins enc dst with
        | error e => rfl
        | ok d =>
          simp only [Except.map]
          rw [set_renameConv hρ]
          exact ih _ d
    | continuous =>
      simp only
      generalize dst.addVariable x.lb x.ub .continuous (some x.name) = a
      obtain ⟨a, p'⟩ := a
      cases a with
      | error e => rfl
      | ok v => exact ih conv p'
    | binary =>
      simp only
      generalize dst.addVariable 0 1 .binary (some x.name) = a
      obtain ⟨a, p'⟩ := a
      cases a with
      | error e => rfl
      | ok v => exact ih conv p'

theorem i2bLin_rename (hρ : Renaming ρ σ) (src : QP) (conv : Conv) (d lin : Dict String) (c : ℚ) :
    i2bLin (src.rename ρ σ) (renameConv ρ conv) (mapKeys ρ d) (mapKeys ρ lin) c =
      (i2bLin src conv d lin c).map fun r => (mapKeys ρ r.1, r.2) := by
  induction d generalizing lin c with
  | nil => rfl
  | cons p d ih =>
    obtain ⟨s, v⟩ := p
    rw [show mapKeys ρ ((s, v) :: d) = (ρ s, v) :: mapKeys ρ d from rfl]
    simp only [i2bLin]
    rw [getVariable_rename hρ]
    cases src.getVariable (.name s) with
    | error e => rfl
    | ok x =>
      simp only [Except.map, show (x.rename ρ).name = ρ x.name from rfl, show (x.rename ρ).lb = x.lb from rfl]
      rw [get?_renameConv hρ]
      cases Assoc.get? conv x.name with
      | none =>
        simp only [Option.map_none]
        rw [set_mapKeys hρ.inj]
        exact ih _ _
      | some enc =>
        simp only [Option.map_some]
        rw [renameEnc, foldl_set_mapKeys hρ.inj enc (fun p => (ρ p.1, p.2)) Prod.fst Prod.fst (fun p => v * p.2)
          (fun p => v * p.2) (fun _ => rfl) (fun _ => rfl)]
        exact ih _ _

theorem foldl_foldl_mapKeys (hρ : Renaming ρ σ) (ex ey : List (String × ℚ)) (v : ℚ) (d : Dict (String × String)) :
    (renameEnc ρ ex).foldl (fun d p => (renameEnc ρ ey).foldl (fun d q => Assoc.set d (p.1, q.1) (v * p.2 * q.2)) d)
        (mapKeys (namePair ρ) d) =
      mapKeys (namePair ρ) (ex.foldl (fun d p => ey.foldl (fun d q => Assoc.set d (p.1, q.1) (v * p.2 * q.2)) d) d) := by
  induction ex generalizing d with
  | nil => rfl
  | cons p ex ih =>
    rw [show renameEnc ρ (p :: ex) = (ρ p.1, p.2) :: renameEnc ρ ex from rfl]
    simp only [List.foldl_cons]
    have : (renameEnc ρ ey).foldl (fun d q => Assoc.set d (ρ p.1, q.1) (v * p.2 * q.2)) (mapKeys (namePair ρ) d) =
        mapKeys (namePair ρ) (ey.foldl (fun d q => Assoc.set d (p.1, q.1) (v * p.2 * q.2)) d) :=
      foldl_set_mapKeys (namePair_inj hρ) ey (fun p => (ρ p.1, p.2)) (fun q => (p.1, q.1)) (fun q => (ρ p.1, q.1))
        (fun q => v * p.2 * q.2) (fun q => v * p.2 * q.2) (fun _ => rfl) (fun _ => rfl) d
    rw [this]
    exact ih _

theorem i2bQuad_rename (hρ : Renaming ρ σ) (src : QP) (conv : Conv) (d quad : Dict (String × String)) (lin : Dict String) (c : ℚ) :
    i2bQuad (src.rename ρ σ) (renameConv ρ conv) (mapKeys (namePair ρ) d) (mapKeys (namePair ρ) quad) (mapKeys ρ lin) c =
      (i2bQuad src conv d quad lin c).map fun r => (mapKeys (namePair ρ) r.1, mapKeys ρ r.2.1, r.2.2) := by
  induction d generalizing quad lin c with
  | nil => rfl
  | cons p d ih =>
    obtain ⟨⟨si, sj⟩, v⟩ := p
    rw [show mapKeys (namePair ρ) (((si, sj), v) :: d) = ((ρ si, ρ sj), v) :: mapKeys (namePair ρ) d from rfl]
    simp only [i2bQuad]
    rw [getVariable_rename hρ, getVariable_rename hρ]
    cases src.getVariable (.name si) with
    | error e => rfl
    | ok x =>
      cases src.getVariable (.name sj) with
      | error e => rfl
      | ok y =>
        simp only [Except.map, show ∀ x : Variable, (x.rename ρ).name = ρ x.name from fun _ => rfl,
          show ∀ x : Variable, (x.rename ρ).lb = x.lb from fun _ => rfl]
        rw [get?_renameConv hρ, get?_renameConv hρ]
        cases Assoc.get? conv x.name with
        | none =>
          cases Assoc.get? conv y.name with
          | none =>
            simp only [Option.map_none]
            rw [show (ρ x.name, ρ y.name) = namePair ρ (x.name, y.name) from rfl, set_mapKeys (namePair_inj hρ)]
            exact ih _ _ _
          | some ey =>
            simp only [Option.map_none, Option.map_some]
            rw [renameEnc, foldl_set_mapKeys (namePair_inj hρ) ey (fun p => (ρ p.1, p.2)) (fun p => (x.name, p.1))
              (fun p => (ρ x.name, p.1)) (fun p => v * p.2) (fun p => v * p.2) (fun _ => rfl) (fun _ => rfl),
              add_mapKeys hρ.inj]
            exact ih _ _ _
        | some ex =>
          cases Assoc.get? conv y.name with
          | none =>
            simp only [Option.map_none, Option.map_some]
            rw [renameEnc, foldl_set_mapKeys (namePair_inj hρ) ex (fun p => (ρ p.1, p.2)) (fun p => (p.1, y.name))
              (fun p => (p.1, ρ y.name)) (fun p => v * p.2) (fun p => v * p.2) (fun _ => rfl) (fun _ => rfl),
              add_mapKeys hρ.inj]
            exact ih _ _ _
          | some ey =>
            simp only [Option.map_some]
            rw [foldl_foldl_mapKeys hρ, renameEnc, renameEnc,
              foldl_add_mapKeys hρ.inj ex (fun p => (ρ p.1, p.2)) Prod.fst Prod.fst (fun _ => v * y.lb) (fun _ => v * y.lb)
                (fun _ => rfl) (fun _ => rfl),
              foldl_add_mapKeys hρ.inj ey (fun p => (ρ p.1, p.2)) Prod.fst Prod.fst (fun _ => v * x.lb) (fun _ => v * x.lb)
                (fun _ => rfl) (fun _ => rfl)]
            exact ih _ _ _

theorem i2bObjective_rename (hρ : Renaming ρ σ) (src : QP) (conv : Conv) (dst : QP) :
    i2bObjective (src.rename ρ σ) (renameConv ρ conv) (dst.rename ρ σ) = (i2bObjective src conv dst).map (QP.rename ρ σ) := by
  unfold i2bObjective
  simp only [show (src.rename ρ σ).vars = src.vars.map (Variable.rename ρ) from rfl,
    show (src.rename ρ σ).objective = src.objective from rfl, linToDict_rename hρ, quadToDict_rename hρ]
  rw [show i2bLin (src.rename ρ σ) _ _ [] 0 = _ from i2bLin_rename hρ src conv (src.objective.linear.toDictNames src.vars) [] 0]
  cases i2bLin src conv (src.objective.linear.toDictNames src.vars) [] 0 with
  | error e => rfl
  | ok r =>
    simp only [Except.map]
    rw [show i2bQuad (src.rename ρ σ) _ _ [] [] 0 = _ from
      i2bQuad_rename hρ src conv (src.objective.quadratic.toDictNames src.vars) [] [] 0]
    cases i2bQuad src conv (src.objective.quadratic.toDictNames src.vars) [] [] 0 with
    | error e => rfl
    | ok t =>
      simp only [Except.map]
      rw [dokPlus_mapKeys hρ.inj, setObjective_rename hρ]
      generalize dst.setObjective _ _ _ _ = a
      obtain ⟨a, p'⟩ := a
      cases a <;> rfl

theorem i2bLins_rename (hρ : Renaming ρ σ) (src : QP) (conv : Conv) (ks : List LinCst) (hk : ∀ k ∈ ks, k.name ≠ "") (dst : QP) :
    i2bLins (src.rename ρ σ) (renameConv ρ conv) (ks.map (LinCst.rename σ)) (dst.rename ρ σ) =
      (i2bLins src conv ks dst).map (QP.rename ρ σ) := by
  induction ks generalizing dst with
  | nil => rfl
  | cons k ks ih =>
    simp only [List.map_cons, i2bLins, show (src.rename ρ σ).vars = src.vars.map (Variable.rename ρ) from rfl,
      show (k.rename σ).linear = k.linear from rfl, show (k.rename σ).sense = k.sense from rfl,
      show (k.rename σ).rhs = k.rhs from rfl, show (k.rename σ).name = σ k.name from rfl, linToDict_rename hρ]
    rw [show i2bLin (src.rename ρ σ) _ _ [] 0 = _ from i2bLin_rename hρ src conv (k.linear.toDictNames src.vars) [] 0]
    cases i2bLin src conv (k.linear.toDictNames src.vars) [] 0 with
    | error e => rfl
    | ok r =>
      simp only [Except.map]
      rw [linearConstraint_rename hρ _ _ _ _ _ (hk k List.mem_cons_self)]
      generalize dst.linearConstraint _ _ _ _ = a
      obtain ⟨a, p'⟩ := a
      cases a with
      | error e => rfl
      | ok _ => exact ih (fun k h => hk k (List.mem_cons_of_mem _ h)) p'

theorem i2bQuads_rename (hρ : Renaming ρ σ) (src : QP) (conv : Conv) (ks : List QuadCst) (hk : ∀ k ∈ ks, k.name ≠ "") (dst : QP) :
    i2bQuads (src.rename ρ σ) (renameConv ρ conv) (ks.map (QuadCst.rename σ)) (dst.rename ρ σ) =
      (i2bQuads src conv ks dst).map (QP.rename ρ σ) := by
  induction ks generalizing dst with
  | nil => rfl
  | cons k ks ih =>
    simp only [List.map_cons, i2bQuads, show (src.rename ρ σ).vars = src.vars.map (Variable.rename ρ) from rfl,
      show (k.rename σ).linear = k.linear from rfl, show (k.rename σ).quadratic = k.quadratic from rfl,
      show (k.rename σ).sense = k.sense from rfl, show (k.rename σ).rhs = k.rhs from rfl,
      show (k.rename σ).name = σ k.name from rfl, linToDict_rename hρ, quadToDict_rename hρ]
    rw [show i2bLin (src.rename ρ σ) _ _ [] 0 = _ from i2bLin_rename hρ src conv (k.linear.toDictNames src.vars) [] 0]
    cases i2bLin src conv (k.linear.toDictNames src.vars) [] 0 with
    | error e => rfl
    | ok r =>
      simp only [Except.map]
      rw [show i2bQuad (src.rename ρ σ) _ _ [] [] 0 = _ from
        i2bQuad_rename hρ src conv (k.quadratic.toDictNames src.vars) [] [] 0]
      cases i2bQuad src conv (k.quadratic.toDictNames src.vars) [] [] 0 with
      | error e => rfl
      | ok t =>
        simp only [Except.map]
        rw [dokPlus_mapKeys hρ.inj, quadraticConstraint_rename hρ _ _ _ _ _ _ (hk k List.mem_cons_self)]
        generalize dst.quadraticConstraint _ _ _ _ _ = a
        obtain ⟨a, p'⟩ := a
        cases a with
        | error e => rfl
        | ok _ => exact ih (fun k h => hk k (List.mem_cons_of_mem _ h)) p'

/-- The converter with other names. -/
def I2B.rename (ρ σ : String → String) (c : I2B) : I2B := ⟨c.src.rename ρ σ, c.dst.rename ρ σ, renameConv ρ c.conv⟩

theorem intToBin_rename (hρ : Renaming ρ σ) (src : QP) (hs : src.Named) :
    (src.rename ρ σ).intToBin = src.intToBin.map (I2B.rename ρ σ) := by
  unfold QP.intToBin
  simp only [show (src.rename ρ σ).numIntegerVars = src.numIntegerVars from by
      simp [QP.numIntegerVars, QP.rename, List.filter_map, Function.comp_def, Variable.rename]; rfl,
    show (src.rename ρ σ).vars = src.vars.map (Variable.rename ρ) from rfl, show (src.rename ρ σ).name = src.name from rfl,
    show (src.rename ρ σ).lins = src.lins.map (LinCst.rename σ) from rfl,
    show (src.rename ρ σ).quads = src.quads.map (QuadCst.rename σ) from rfl]
  split
  · rw [show i2bVars (src.vars.map (Variable.rename ρ)) [] (QP.empty src.name) = _ from
      i2bVars_rename hρ src.vars [] (QP.empty src.name)]
    cases i2bVars src.vars [] (QP.empty src.name) with
    | error e => rfl
    | ok r =>
      simp only [Except.map]
      rw [i2bObjective_rename hρ]
      cases i2bObjective src r.1 r.2 with
      | error e => rfl
      | ok d =>
        simp only [Except.map]
        rw [i2bLins_rename hρ _ _ _ hs.lins]
        cases i2bLins src r.1 src.lins d with
        | error e => rfl
        | ok d =>
          simp only [Except.map]
          rw [i2bQuads_rename hρ _ _ _ hs.quads]
          cases i2bQuads src r.1 src.quads d <;> rfl
  · rfl

theorem penLoop_rename (f : ℚ) (cs : List LinCst) (t : PenTerms) :
    penLoop f (cs.map (LinCst.rename σ)) t = penLoop f cs t := by
  induction cs generalizing t with
  | nil => rfl
  | cons c cs ih =>
    simp only [List.map_cons, penLoop, show (c.rename σ).linear = c.linear from rfl,
      show (c.rename σ).sense = c.sense from rfl, show (c.rename σ).rhs = c.rhs from rfl]
    split
    · rfl
    · exact ih _

theorem toPenalty_rename (hρ : Renaming ρ σ) (v : Option ℚ) (src : QP) :
    (src.rename ρ σ).toPenalty v = (src.toPenalty v).map fun r => (r.1.rename ρ σ, r.2) := by
  unfold QP.toPenalty
  have hauto : autoPenalty (src.rename ρ σ) = autoPenalty src := by
    simp [autoPenalty, QP.rename, List.flatMap_map, LinCst.rename]
  simp only [hauto, show (src.rename ρ σ).vars = src.vars.map (Variable.rename ρ) from rfl,
    show (src.rename ρ σ).name = src.name from rfl, show (src.rename ρ σ).objective = src.objective from rfl,
    show (src.rename ρ σ).lins = src.lins.map (LinCst.rename σ) from rfl, penLoop_rename]
  rw [show copyAllVars (src.vars.map (Variable.rename ρ)) (QP.empty src.name) = _ from
    copyAllVars_rename hρ src.vars (QP.empty src.name)]
  cases copyAllVars src.vars (QP.empty src.name) with
  | error e => rfl
  | ok dst =>
    simp only [Except.map]
    cases penLoop (src.objective.sense.value * v.getD (autoPenalty src)) src.lins
      ⟨src.objective.constant, src.objective.linear.coeffs, src.objective.quadratic.toDict false⟩ with
    | error e => rfl
    | ok t =>
      simp only
      rw [setObjective_renameIdx]
      generalize dst.setObjective _ _ _ _ = a
      obtain ⟨a, p'⟩ := a
      cases a <;> rfl

end Verif
