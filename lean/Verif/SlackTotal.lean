import Verif.PropsSlackShape

/-!
# Helper lemmas: exactly when the conversion of inequalities to equalities succeeds
-/

namespace Verif

/-- The names of the variables are new. -/
def Fresh (d : QP) (vs : List Variable) : Prop := ∀ v ∈ vs, v.name ∉ d.vars.map Variable.name

/-- Success under a condition, otherwise the error of the library. -/
def OkIff {α : Type} (cond : Prop) (r : Except Err α) : Prop :=
  (cond → ∃ a, r = .ok a) ∧ (¬ cond → r = .error .optimization)

theorem addVariable_dup {p : QP} {lb ub : ℚ} {t : VarType} {s : String} (h : s ∈ Assoc.keys p.varsIndex) :
    ∃ p', p.addVariable lb ub t (some s) = (.error .optimization, p') := by
  rw [addVariable_some, if_pos (Assoc.has_iff.mpr h)]
  exact ⟨_, rfl⟩

theorem slackVar_total {d : QP} (hd : d.Consistent) {t : VarType} {nm : String} {s : Sense} (hs : s ≠ .eq) (r lb ub : ℚ) :
    OkIff (Fresh d (slackVars t nm s r lb ub)) (slackVar d t nm s r lb ub) := by
  have key : ∀ u : ℚ, 0 < u → OkIff (nm ∉ d.vars.map Variable.name)
      (match d.addVariable 0 u t (some nm) with
      | (.error e, _) => .error e
      | (.ok _, dst) => .ok (some (nm, (1 : ℚ)), dst) : Except Err (Option (String × ℚ) × QP)) ∧
      OkIff (nm ∉ d.vars.map Variable.name)
      (match d.addVariable 0 u t (some nm) with
      | (.error e, _) => .error e
      | (.ok _, dst) => .ok (some (nm, (-1 : ℚ)), dst) : Except Err (Option (String × ℚ) × QP)) := by
    intro u hu
    rw [← hd.vars.keys]
    refine ⟨⟨fun hf => ?_, fun hf => ?_⟩, ⟨fun hf => ?_, fun hf => ?_⟩⟩
    · obtain ⟨p', hp'⟩ := addVariable_success (p := d) (lb := 0) (ub := u) (t := t) hf hu.le
      exact ⟨_, by rw [hp']⟩
    · obtain ⟨p', hp'⟩ := addVariable_dup (lb := 0) (ub := u) (t := t) (not_not.mp hf)
      rw [hp']
    · obtain ⟨p', hp'⟩ := addVariable_success (p := d) (lb := 0) (ub := u) (t := t) hf hu.le
      exact ⟨_, by rw [hp']⟩
    · obtain ⟨p', hp'⟩ := addVariable_dup (lb := 0) (ub := u) (t := t) (not_not.mp hf)
      rw [hp']
  cases s with
  | le =>
    simp only [slackVar, slackVars]
    by_cases h : r ≤ lb
    · rw [if_pos h, if_neg (by linarith)]
      exact ⟨fun _ => ⟨_, rfl⟩, fun hn => absurd (by simp [Fresh]) hn⟩
    · rw [if_neg h, if_pos (by linarith)]
      rw [show Fresh d [⟨nm, 0, r - lb, t⟩] ↔ nm ∉ d.vars.map Variable.name by simp [Fresh]]
      exact (key (r - lb) (by linarith)).1
  | ge =>
    simp only [slackVar, slackVars]
    by_cases h : ub ≤ r
    · rw [if_pos h, if_neg (by linarith)]
      exact ⟨fun _ => ⟨_, rfl⟩, fun hn => absurd (by simp [Fresh]) hn⟩
    · rw [if_neg h, if_pos (by linarith)]
      rw [show Fresh d [⟨nm, 0, ub - r, t⟩] ↔ nm ∉ d.vars.map Variable.name by simp [Fresh]]
      exact (key (ub - r) (by linarith)).2
  | eq => exact absurd rfl hs

theorem linPart_total {src d : QP} (hs : src.WF) (hst : Starts src d) {e : LinExpr} (he : e.Fits src.numVars)
    {t : VarType} {sn nm : String} (hne : nm ≠ "") (hf : nm ∉ d.lins.map LinCst.name)
    {s : Sense} (hse : s ≠ .eq) (r lb ub : ℚ) :
    OkIff (Fresh d (slackVars t sn s r lb ub))
      (match slackVar d t sn s r lb ub with
      | .error e => .error e
      | .ok (o, dst) =>
        match dst.linearConstraint (linNames (withSlack (e.toDictNames src.vars) o)) (.str "==") r (some nm) with
        | (.error e, _) => .error e
        | (.ok _, dst) => .ok dst) := by
  obtain ⟨t1, t2⟩ := slackVar_total (t := t) (nm := sn) hst.wf.cons hse r lb ub
  refine ⟨fun h => ?_, fun h => by rw [t2 h]⟩
  obtain ⟨⟨o, d1⟩, h1⟩ := t1 h
  obtain ⟨a1, a2, a3, a4, a5, a6⟩ := (slackVar_ok hst.wf.cons h1).spec hst hs.cons
    (fun a ha => toDictNames_keys he ha) (toDictNames_nodup hs.cons he)
  have hwf1 := a2.wf hst.wf
  obtain ⟨le, e1, e2, e3, e4⟩ := linNames_spec hwf1.cons a3 a4
  have hf' : nm ∉ Assoc.keys d1.linsIndex := by rw [a2.linsIndex, hst.wf.cons.lins.keys]; exact hf
  have h2 := linearConstraint_success' (r := r) hne hf' eqeq_convert e1
  simp only [h1, h2]
  exact ⟨_, rfl⟩

theorem quadPart_total {src d : QP} (hs : src.WF) (hst : Starts src d) {e : LinExpr} (he : e.Fits src.numVars)
    {q : QuadExpr} (hq : q.Fits src.numVars)
    {t : VarType} {sn nm : String} (hne : nm ≠ "") (hf : nm ∉ d.quads.map QuadCst.name)
    {s : Sense} (hse : s ≠ .eq) (r lb ub : ℚ) :
    OkIff (Fresh d (slackVars t sn s r lb ub))
      (match slackVar d t sn s r lb ub with
      | .error e => .error e
      | .ok (o, dst) =>
        match dst.quadraticConstraint (linNames (withSlack (e.toDictNames src.vars) o))
          (quadNames (q.toDictNames src.vars)) (.str "==") r (some nm) with
        | (.error e, _) => .error e
        | (.ok _, dst) => .ok dst) := by
  obtain ⟨t1, t2⟩ := slackVar_total (t := t) (nm := sn) hst.wf.cons hse r lb ub
  refine ⟨fun h => ?_, fun h => by rw [t2 h]⟩
  obtain ⟨⟨o, d1⟩, h1⟩ := t1 h
  obtain ⟨a1, a2, a3, a4, a5, a6⟩ := (slackVar_ok hst.wf.cons h1).spec hst hs.cons
    (fun a ha => toDictNames_keys he ha) (toDictNames_nodup hs.cons he)
  have hst1 := hst.grows a2
  obtain ⟨le, e1, e2, e3, e4⟩ := linNames_spec hst1.wf.cons a3 a4
  obtain ⟨qe, f1, f2, f3, f4⟩ := quadNames_spec hst1.wf.cons (toDictNames_nodup2 hs.cons hq)
    (fun a ha => ⟨hst1.names (toDictNames_keys2 hq ha).1, hst1.names (toDictNames_keys2 hq ha).2⟩)
  have hf' : nm ∉ Assoc.keys d1.quadsIndex := by rw [a2.quadsIndex, hst.wf.cons.quads.keys]; exact hf
  have h2 := quadraticConstraint_success' (r := r) hne hf' eqeq_convert e1 f1
  simp only [h1, h2]
  exact ⟨_, rfl⟩

theorem i2eLinOne_total {mode : SlackMode} {src d : QP} (hs : src.WF) (hst : Starts src d) {k : LinCst}
    (hk : k.linear.Fits src.numVars) (hne : k.name ≠ "") (hf : k.name ∉ d.lins.map LinCst.name) :
    OkIff (ModeFits mode (.lin k) ∧ Fresh d (Cst.slack mode src (.lin k))) (i2eLinOne mode src d k) := by
  have hint : k.sense ≠ .eq → mode ≠ .continuous → anyFloat (k.linear.toDictNames src.vars).values = false →
      OkIff (Fresh d (Cst.slack mode src (.lin k)))
        (intSlackLin src d (k.linear.toDictNames src.vars) k.sense k.rhs k.name) := by
    intro hse hm hfl
    have h := linPart_total (t := .integer) (sn := k.name ++ delim ++ "int_slack") hs hst hk hne hf hse
      (roundRhs k.sense k.rhs) ((Cst.lin k).low src) ((Cst.lin k).high src)
    have := (slackVars_exact (src := src) (c := .lin k) hse (Or.inl ⟨usesInteger_lin hfl hm, rfl, rfl, rfl⟩)).2.1
    change slackVars _ _ k.sense (roundRhs k.sense k.rhs) _ _ = _ at this
    simp only [Cst.name] at this
    rw [this] at h
    simp only [intSlackLin, hfl, linBounds_exact hs.cons hk, Bool.false_eq_true, if_false]
    exact h
  have hcont : k.sense ≠ .eq → (mode = .continuous ∨ anyFloat (k.linear.toDictNames src.vars).values = true) →
      OkIff (Fresh d (Cst.slack mode src (.lin k)))
        (contSlackLin src d (k.linear.toDictNames src.vars) k.sense k.rhs k.name) := by
    intro hse hm
    have h := linPart_total (t := .continuous) (sn := k.name ++ delim ++ "continuous_slack") hs hst hk hne hf hse
      k.rhs ((Cst.lin k).low src) ((Cst.lin k).high src)
    have := (slackVars_exact (src := src) (c := .lin k) hse (Or.inr ⟨not_usesInteger_lin hm, rfl, rfl, rfl⟩)).2.1
    change slackVars _ _ k.sense k.rhs _ _ = _ at this
    simp only [Cst.name] at this
    rw [this] at h
    simp only [contSlackLin, linBounds_exact hs.cons hk]
    exact h
  have hno : k.sense ≠ .eq → OkIff (ModeFits mode (.lin k) ∧ Fresh d (Cst.slack mode src (.lin k))) (match mode with
      | .integer => intSlackLin src d (k.linear.toDictNames src.vars) k.sense k.rhs k.name
      | .continuous => contSlackLin src d (k.linear.toDictNames src.vars) k.sense k.rhs k.name
      | .auto => autoSlackLin src d (k.linear.toDictNames src.vars) k.sense k.rhs k.name
      | .other => .error .optimization) := by
    intro hse
    cases mode with
    | integer =>
      by_cases hfl : anyFloat (k.linear.toDictNames src.vars).values = false
      · have hm : ModeFits .integer (.lin k) := fun _ => ⟨by simp, fun _ => (usesInteger_lin (mode := .integer) hfl (by simp)).2⟩
        have := hint hse (by simp) hfl
        exact ⟨fun h => this.1 h.2, fun h => this.2 fun h' => h ⟨hm, h'⟩⟩
      · rw [Bool.not_eq_false] at hfl
        refine ⟨fun h => ?_, fun _ => by simp only [intSlackLin, hfl, if_true]⟩
        exact absurd ⟨by simp, (h.1 hse).2 rfl⟩ (not_usesInteger_lin (mode := .integer) (Or.inr hfl))
    | continuous =>
      have hm : ModeFits .continuous (.lin k) := fun _ => ⟨by simp, by simp⟩
      have := hcont hse (Or.inl rfl)
      exact ⟨fun h => this.1 h.2, fun h => this.2 fun h' => h ⟨hm, h'⟩⟩
    | auto =>
      have hm : ModeFits .auto (.lin k) := fun _ => ⟨by simp, by simp⟩
      simp only [autoSlackLin]
      split
      · rename_i hfl
        have := hcont hse (Or.inr hfl)
        exact ⟨fun h => this.1 h.2, fun h => this.2 fun h' => h ⟨hm, h'⟩⟩
      · rename_i hfl
        have := hint hse (by simp) (by simpa using hfl)
        exact ⟨fun h => this.1 h.2, fun h => this.2 fun h' => h ⟨hm, h'⟩⟩
    | other => exact ⟨fun h => absurd rfl (h.1 hse).1, fun _ => rfl⟩
  unfold i2eLinOne
  simp only
  cases hse : k.sense with
  | eq =>
    simp only
    obtain ⟨le, e1, e2, e3, e4⟩ := linNames_spec hst.wf.cons (toDictNames_nodup hs.cons hk)
      (fun a ha => hst.names (toDictNames_keys hk ha))
    rw [linearConstraint_success hne (by rw [hst.wf.cons.lins.keys]; exact hf) e1]
    refine ⟨fun _ => ⟨_, rfl⟩, fun h => absurd ⟨fun h' => absurd hse h', ?_⟩ h⟩
    have : Cst.slack mode src (.lin k) = [] := by simp [Cst.slack, Cst.room, Cst.sense, hse]
    simp [this, Fresh]
  | le => rw [hse] at hno; exact hno (by simp)
  | ge => rw [hse] at hno; exact hno (by simp)

theorem i2eQuadOne_total {mode : SlackMode} {src d : QP} (hs : src.WF) (hst : Starts src d) {k : QuadCst}
    (hk : k.linear.Fits src.numVars) (hq : k.quadratic.Fits src.numVars) (hne : k.name ≠ "")
    (hf : k.name ∉ d.quads.map QuadCst.name) :
    OkIff (ModeFits mode (.quad k) ∧ Fresh d (Cst.slack mode src (.quad k))) (i2eQuadOne mode src d k) := by
  have hint : k.sense ≠ .eq → mode ≠ .continuous → (anyFloat (k.linear.toDictNames src.vars).values ||
        anyFloat (k.quadratic.toDictNames src.vars).values) = false →
      OkIff (Fresh d (Cst.slack mode src (.quad k)))
        (intSlackQuad src d (k.linear.toDictNames src.vars) (k.quadratic.toDictNames src.vars) k.sense k.rhs k.name) := by
    intro hse hm hfl
    have h := quadPart_total (t := .integer) (sn := k.name ++ delim ++ "int_slack") hs hst hk hq hne hf hse
      (roundRhs k.sense k.rhs) ((Cst.quad k).low src) ((Cst.quad k).high src)
    have := (slackVars_exact (src := src) (c := .quad k) hse (Or.inl ⟨usesInteger_quad hfl hm, rfl, rfl, rfl⟩)).2.1
    change slackVars _ _ k.sense (roundRhs k.sense k.rhs) _ _ = _ at this
    simp only [Cst.name] at this
    rw [this] at h
    simp only [intSlackQuad, hfl, quadBounds_exact hs.cons hk hq, Bool.false_eq_true, if_false]
    exact h
  have hcont : k.sense ≠ .eq → (mode = .continuous ∨ (anyFloat (k.linear.toDictNames src.vars).values ||
        anyFloat (k.quadratic.toDictNames src.vars).values) = true) →
      OkIff (Fresh d (Cst.slack mode src (.quad k)))
        (contSlackQuad src d (k.linear.toDictNames src.vars) (k.quadratic.toDictNames src.vars) k.sense k.rhs k.name) := by
    intro hse hm
    have h := quadPart_total (t := .continuous) (sn := k.name ++ delim ++ "continuous_slack") hs hst hk hq hne hf hse
      k.rhs ((Cst.quad k).low src) ((Cst.quad k).high src)
    have := (slackVars_exact (src := src) (c := .quad k) hse (Or.inr ⟨not_usesInteger_quad hm, rfl, rfl, rfl⟩)).2.1
    change slackVars _ _ k.sense k.rhs _ _ = _ at this
    simp only [Cst.name] at this
    rw [this] at h
    simp only [contSlackQuad, quadBounds_exact hs.cons hk hq]
    exact h
  have hno : k.sense ≠ .eq → OkIff (ModeFits mode (.quad k) ∧ Fresh d (Cst.slack mode src (.quad k))) (match mode with
      | .integer => intSlackQuad src d (k.linear.toDictNames src.vars) (k.quadratic.toDictNames src.vars) k.sense k.rhs
          k.name
      | .continuous => contSlackQuad src d (k.linear.toDictNames src.vars) (k.quadratic.toDictNames src.vars) k.sense
          k.rhs k.name
      | .auto => autoSlackQuad src d (k.linear.toDictNames src.vars) (k.quadratic.toDictNames src.vars) k.sense k.rhs
          k.name
      | .other => .error .optimization) := by
    intro hse
    cases mode with
    | integer =>
      by_cases hfl : (anyFloat (k.linear.toDictNames src.vars).values ||
        anyFloat (k.quadratic.toDictNames src.vars).values) = false
      · have hm : ModeFits .integer (.quad k) :=
          fun _ => ⟨by simp, fun _ => (usesInteger_quad (mode := .integer) hfl (by simp)).2⟩
        have := hint hse (by simp) hfl
        exact ⟨fun h => this.1 h.2, fun h => this.2 fun h' => h ⟨hm, h'⟩⟩
      · rw [Bool.not_eq_false] at hfl
        refine ⟨fun h => ?_, fun _ => by simp only [intSlackQuad, hfl, if_true]⟩
        exact absurd ⟨by simp, (h.1 hse).2 rfl⟩ (not_usesInteger_quad (mode := .integer) (Or.inr hfl))
    | continuous =>
      have hm : ModeFits .continuous (.quad k) := fun _ => ⟨by simp, by simp⟩
      have := hcont hse (Or.inl rfl)
      exact ⟨fun h => this.1 h.2, fun h => this.2 fun h' => h ⟨hm, h'⟩⟩
    | auto =>
      have hm : ModeFits .auto (.quad k) := fun _ => ⟨by simp, by simp⟩
      simp only [autoSlackQuad]
      split
      · rename_i hfl
        have := hcont hse (Or.inr hfl)
        exact ⟨fun h => this.1 h.2, fun h => this.2 fun h' => h ⟨hm, h'⟩⟩
      · rename_i hfl
        have := hint hse (by simp) (by rw [Bool.not_eq_true] at hfl; exact hfl)
        exact ⟨fun h => this.1 h.2, fun h => this.2 fun h' => h ⟨hm, h'⟩⟩
    | other => exact ⟨fun h => absurd rfl (h.1 hse).1, fun _ => rfl⟩
  unfold i2eQuadOne
  simp only
  cases hse : k.sense with
  | eq =>
    simp only
    obtain ⟨le, e1, e2, e3, e4⟩ := linNames_spec hst.wf.cons (toDictNames_nodup hs.cons hk)
      (fun a ha => hst.names (toDictNames_keys hk ha))
    obtain ⟨qe, f1, f2, f3, f4⟩ := quadNames_spec hst.wf.cons (toDictNames_nodup2 hs.cons hq)
      (fun a ha => ⟨hst.names (toDictNames_keys2 hq ha).1, hst.names (toDictNames_keys2 hq ha).2⟩)
    rw [quadraticConstraint_success hne (by rw [hst.wf.cons.quads.keys]; exact hf) e1 f1]
    refine ⟨fun _ => ⟨_, rfl⟩, fun h => absurd ⟨fun h' => absurd hse h', ?_⟩ h⟩
    have : Cst.slack mode src (.quad k) = [] := by simp [Cst.slack, Cst.room, Cst.sense, hse]
    simp [this, Fresh]
  | le => rw [hse] at hno; exact hno (by simp)
  | ge => rw [hse] at hno; exact hno (by simp)

/-- All constraints fit the mode, and the slack variables have names of their own. -/
def AllFit (mode : SlackMode) (src : QP) (vs : List Variable) (cs : List Cst) : Prop :=
  (∀ c ∈ cs, ModeFits mode c) ∧ ((vs ++ cs.flatMap (Cst.slack mode src)).map Variable.name).Nodup

theorem AllFit.cons_iff {mode : SlackMode} {src : QP} {d : QP} (hd : d.Consistent) {c : Cst} {cs : List Cst} :
    AllFit mode src d.vars (c :: cs) ↔ (ModeFits mode c ∧ Fresh d (c.slack mode src)) ∧
      AllFit mode src (d.vars ++ c.slack mode src) cs := by
  unfold AllFit
  rw [List.forall_mem_cons, List.flatMap_cons, ← List.append_assoc]
  constructor
  · rintro ⟨⟨h1, h2⟩, h3⟩
    refine ⟨⟨h1, ?_⟩, h2, h3⟩
    intro v hv hm
    have h4 : ((d.vars ++ c.slack mode src).map Variable.name).Nodup := by
      rw [List.map_append] at h3
      exact (List.nodup_append.mp h3).1
    rw [List.map_append] at h4
    exact (List.nodup_append.mp h4).2.2 _ hm _ (List.mem_map_of_mem hv) rfl
  · rintro ⟨⟨h1, h2⟩, h3, h4⟩
    exact ⟨⟨h1, h3⟩, h4⟩

theorem i2eLins_total {mode : SlackMode} {src : QP} (hs : src.WF) (ks : List LinCst)
    (hk : ∀ k ∈ ks, k.linear.Fits src.numVars ∧ k.name ≠ "") {d : QP} (hst : Starts src d)
    (hn : (d.lins.map LinCst.name ++ ks.map LinCst.name).Nodup) :
    OkIff (AllFit mode src d.vars (ks.map .lin)) (i2eLins mode src ks d) := by
  induction ks generalizing d with
  | nil => exact ⟨fun _ => ⟨d, rfl⟩, fun h => absurd ⟨by simp, by simpa using hst.wf.cons.vars.2⟩ h⟩
  | cons k ks ih =>
    rw [List.forall_mem_cons] at hk
    have hnk : k.name ∉ d.lins.map LinCst.name := by
      intro hh
      rw [List.nodup_append] at hn
      exact hn.2.2 _ hh _ (by simp) rfl
    have one := i2eLinOne_total (mode := mode) hs hst hk.1.1 hk.1.2 hnk
    rw [List.map_cons, AllFit.cons_iff hst.wf.cons]
    by_cases h1 : ModeFits mode (.lin k) ∧ Fresh d (Cst.slack mode src (.lin k))
    · obtain ⟨d1, hd1⟩ := one.1 h1
      obtain ⟨c, a1, a2, a3⟩ := i2eLinOne_form hs hst hk.1.1 hd1
      have hcn : c.name = k.name := (a1.form d1 (List.prefix_refl _)).name hk.1.2
      have := ih hk.2 a1.starts (by rw [a2, List.map_append, List.append_assoc]; simpa [hcn] using hn)
      rw [a1.added] at this
      simp only [i2eLins, hd1]
      exact ⟨fun h => this.1 h.2, fun h => this.2 fun h' => h ⟨h1, h'⟩⟩
    · refine ⟨fun h => absurd h.1 h1, fun _ => ?_⟩
      simp only [i2eLins, one.2 h1]

theorem i2eQuads_total {mode : SlackMode} {src : QP} (hs : src.WF) (ks : List QuadCst)
    (hk : ∀ k ∈ ks, (k.linear.Fits src.numVars ∧ k.quadratic.Fits src.numVars) ∧ k.name ≠ "") {d : QP} (hst : Starts src d)
    (hn : (d.quads.map QuadCst.name ++ ks.map QuadCst.name).Nodup) :
    OkIff (AllFit mode src d.vars (ks.map .quad)) (i2eQuads mode src ks d) := by
  induction ks generalizing d with
  | nil => exact ⟨fun _ => ⟨d, rfl⟩, fun h => absurd ⟨by simp, by simpa using hst.wf.cons.vars.2⟩ h⟩
  | cons k ks ih =>
    rw [List.forall_mem_cons] at hk
    have hnk : k.name ∉ d.quads.map QuadCst.name := by
      intro hh
      rw [List.nodup_append] at hn
      exact hn.2.2 _ hh _ (by simp) rfl
    have one := i2eQuadOne_total (mode := mode) hs hst hk.1.1.1 hk.1.1.2 hk.1.2 hnk
    rw [List.map_cons, AllFit.cons_iff hst.wf.cons]
    by_cases h1 : ModeFits mode (.quad k) ∧ Fresh d (Cst.slack mode src (.quad k))
    · obtain ⟨d1, hd1⟩ := one.1 h1
      obtain ⟨c, a1, a2, a3⟩ := i2eQuadOne_form hs hst hk.1.1.1 hk.1.1.2 hd1
      have hcn : c.name = k.name := (a1.form d1 (List.prefix_refl _)).name hk.1.2
      have := ih hk.2 a1.starts (by rw [a2, List.map_append, List.append_assoc]; simpa [hcn] using hn)
      rw [a1.added] at this
      simp only [i2eQuads, hd1]
      exact ⟨fun h => this.1 h.2, fun h => this.2 fun h' => h ⟨h1, h'⟩⟩
    · refine ⟨fun h => absurd h.1 h1, fun _ => ?_⟩
      simp only [i2eQuads, one.2 h1]

theorem ineqToEq_total {mode : SlackMode} {src : QP} (hs : src.WF) (hne : ∀ c ∈ src.allCsts, c.name ≠ "")
    {d0 : QP} (h0 : copyAllVars src.vars (QP.empty src.name) = .ok d0) :
    OkIff (AllFit mode src (src.vars.map plainVar) src.allCsts) (src.ineqToEq mode) := by
  have hg := copyAllVars_grows h0
  have hv0 : d0.vars = src.vars.map plainVar := by simpa [QP.empty] using hg.vars
  have hst0 : Starts src d0 := ⟨hg.wf (QP.empty_wf src.name), [], by simpa using hv0⟩
  obtain ⟨le', f1, f2, f3, f4⟩ := linNames_spec hst0.wf.cons (toDictNames_nodup hs.cons hs.objLin)
    (fun a ha => hst0.names (toDictNames_keys hs.objLin ha))
  obtain ⟨qe', g1, g2, g3, g4⟩ := quadNames_spec hst0.wf.cons (toDictNames_nodup2 hs.cons hs.objQuad)
    (fun a ha => ⟨hst0.names (toDictNames_keys2 hs.objQuad ha).1, hst0.names (toDictNames_keys2 hs.objQuad ha).2⟩)
  have h1 := setObjective_success (s := src.objective.sense) (c := src.objective.constant) f1 g1
  have hwf1 := setObjective_wf h1 hst0.wf trivial trivial
  have hst1 : Starts src { d0 with objective := ⟨src.objective.constant, le', qe', src.objective.sense⟩ } :=
    ⟨hwf1, [], by simpa using hv0⟩
  have hl0 : d0.lins = [] := by rw [hg.lins]; rfl
  have hq0 : d0.quads = [] := by rw [hg.quads]; rfl
  have tl := i2eLins_total (mode := mode) hs src.lins
    (fun k hk => ⟨hs.lins k hk, hne (.lin k) (by simp [QP.allCsts, hk])⟩) hst1
    (by show (d0.lins.map _ ++ _).Nodup; rw [hl0]; exact hs.cons.lins.2)
  change OkIff (AllFit mode src d0.vars _) _ at tl
  rw [← hv0]
  have split : AllFit mode src (d0.vars) src.allCsts ↔
      AllFit mode src (d0.vars) (src.lins.map .lin) ∧
      AllFit mode src (d0.vars ++ (src.lins.map Cst.lin).flatMap (Cst.slack mode src)) (src.quads.map .quad) := by
    unfold AllFit QP.allCsts
    rw [List.forall_mem_append, List.flatMap_append, ← List.append_assoc]
    constructor
    · rintro ⟨⟨a, b⟩, c⟩
      refine ⟨⟨a, ?_⟩, b, c⟩
      rw [List.map_append] at c
      exact (List.nodup_append.mp c).1
    · rintro ⟨⟨a, -⟩, b, c⟩
      exact ⟨⟨a, b⟩, c⟩
  rw [split]
  by_cases hfl : AllFit mode src (d0.vars) (src.lins.map .lin)
  · obtain ⟨d2, h2⟩ := tl.1 hfl
    obtain ⟨newl, a1, a2, a3⟩ := i2eLins_form hs hst1 src.lins hs.lins h2
    have tq := i2eQuads_total (mode := mode) hs src.quads
      (fun k hk => ⟨hs.quads k hk, hne (.quad k) (by simp [QP.allCsts, hk])⟩) a1.starts
      (by rw [a3]; show (d0.quads.map _ ++ _).Nodup; rw [hq0]; exact hs.cons.quads.2)
    have hav : d2.vars = d0.vars ++ (src.lins.map Cst.lin).flatMap (Cst.slack mode src) := a1.added
    rw [hav] at tq
    simp only [QP.ineqToEq, h0, h1, h2]
    exact ⟨fun h => tq.1 h.2, fun h => tq.2 fun h' => h ⟨hfl, h'⟩⟩
  · refine ⟨fun h => absurd h.1 hfl, fun _ => ?_⟩
    simp only [QP.ineqToEq, h0, h1, tl.2 hfl]

end Verif
