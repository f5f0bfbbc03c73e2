import Verif.IneqToEqLoops

/-!
# Helper lemmas: when the conversion of inequalities to equalities succeeds
-/

namespace Verif

/-- Names of the slack variables that may be added for a constraint. -/
def slackNames (nm : String) : List String := [nm ++ delim ++ "int_slack", nm ++ delim ++ "continuous_slack"]

theorem linearConstraint_success' {p : QP} {l : LinInput} {si : SenseInput} {s : Sense} {r : ℚ} {nm : String}
    {le : LinExpr} (hne : nm ≠ "") (hf : nm ∉ Assoc.keys p.linsIndex) (hsi : Sense.convert si = .ok s)
    (h : LinExpr.ofInput p.varsIndex p.numVars l = .ok le) :
    p.linearConstraint l si r (some nm) = (.ok ⟨nm, le, s, r⟩,
      { p with linsIndex := Assoc.set p.linsIndex nm p.lins.length, lins := p.lins ++ [⟨nm, le, s, r⟩] }) := by
  simp only [QP.linearConstraint, chooseName_some hne hf, hsi, QP.numVars]
  simp only [QP.numVars] at h
  simp [h]

theorem quadraticConstraint_success' {p : QP} {l : LinInput} {q : QuadInput} {si : SenseInput} {s : Sense} {r : ℚ}
    {nm : String} {le : LinExpr} {qe : QuadExpr} (hne : nm ≠ "") (hf : nm ∉ Assoc.keys p.quadsIndex)
    (hsi : Sense.convert si = .ok s) (h : LinExpr.ofInput p.varsIndex p.numVars l = .ok le)
    (h' : QuadExpr.ofInput p.varsIndex p.numVars q = .ok qe) :
    p.quadraticConstraint l q si r (some nm) = (.ok ⟨nm, le, qe, s, r⟩,
      { p with quadsIndex := Assoc.set p.quadsIndex nm p.quads.length, quads := p.quads ++ [⟨nm, le, qe, s, r⟩] }) := by
  simp only [QP.quadraticConstraint, chooseName_some hne hf, hsi, QP.numVars]
  simp only [QP.numVars] at h h'
  simp [h, h']

theorem slackVar_success {d : QP} (hd : d.Consistent) {t : VarType} {nm : String} {s : Sense} (hs : s ≠ .eq) {r lb ub : ℚ}
    (hnm : nm ∉ d.vars.map Variable.name) :
    ∃ o d', slackVar d t nm s r lb ub = .ok (o, d') := by
  rw [← hd.vars.keys] at hnm
  cases s with
  | le =>
    simp only [slackVar]
    split
    · rename_i hp
      obtain ⟨p', hp'⟩ := addVariable_success (p := d) (lb := 0) (ub := r - lb) (t := t) hnm (le_of_lt hp)
      exact ⟨_, _, by rw [hp']⟩
    · exact ⟨_, _, rfl⟩
  | ge =>
    simp only [slackVar]
    split
    · rename_i hp
      obtain ⟨p', hp'⟩ := addVariable_success (p := d) (lb := 0) (ub := ub - r) (t := t) hnm (le_of_lt hp)
      exact ⟨_, _, by rw [hp']⟩
    · exact ⟨_, _, rfl⟩
  | eq => exact absurd rfl hs

theorem slackVars_names {t : VarType} {nm : String} {s : Sense} {r lb ub : ℚ} :
    ∀ v ∈ slackVars t nm s r lb ub, v.name = nm := by
  intro v hv
  unfold slackVars at hv
  cases s with
  | le => simp only at hv; split at hv <;> simp at hv; subst hv; rfl
  | ge => simp only at hv; split at hv <;> simp at hv; subst hv; rfl
  | eq => simp at hv

/-- The result of one constraint as far as names are concerned. -/
structure NamesAfter (d d' : QP) (nm : String) (ln qn : List String) : Prop where
  lins : d'.lins.map LinCst.name = d.lins.map LinCst.name ++ ln
  quads : d'.quads.map QuadCst.name = d.quads.map QuadCst.name ++ qn
  vars : ∀ s ∈ d'.vars.map Variable.name, s ∈ d.vars.map Variable.name ∨ s ∈ slackNames nm

theorem linPart_success {src d : QP} (hs : src.WF) (hst : Starts src d) {e : LinExpr} (he : e.Fits src.numVars)
    {t : VarType} {sn nm : String} (hsn : sn ∈ slackNames nm) (hne : nm ≠ "") (hf : nm ∉ d.lins.map LinCst.name)
    (hv : sn ∉ d.vars.map Variable.name) {s : Sense} (hse : s ≠ .eq) (r lb ub : ℚ) :
    ∃ o d1 c d2, slackVar d t sn s r lb ub = .ok (o, d1) ∧
      d1.linearConstraint (linNames (withSlack (e.toDictNames src.vars) o)) (.str "==") r (some nm) = (.ok c, d2) ∧
      NamesAfter d d2 nm [nm] [] := by
  obtain ⟨o, d1, h1⟩ := slackVar_success (r := r) (lb := lb) (ub := ub) (t := t) hst.wf.cons hse hv
  obtain ⟨a1, a2, a3, a4, a5, a6⟩ := (slackVar_ok hst.wf.cons h1).spec hst hs.cons
    (fun a ha => toDictNames_keys he ha) (toDictNames_nodup hs.cons he)
  have hwf1 := a2.wf hst.wf
  obtain ⟨le, e1, e2, e3, e4⟩ := linNames_spec hwf1.cons a3 a4
  have hf' : nm ∉ Assoc.keys d1.linsIndex := by rw [a2.linsIndex, hst.wf.cons.lins.keys]; exact hf
  have h2 := linearConstraint_success' (r := r) hne hf' eqeq_convert e1
  refine ⟨o, d1, _, _, h1, h2, ⟨?_, ?_, ?_⟩⟩
  · simp [a2.lins]
  · simp [a2.quads]
  · intro w hw
    simp only [a2.vars, List.map_append, List.mem_append] at hw
    rcases hw with hw | hw
    · exact Or.inl hw
    · obtain ⟨v, hv', rfl⟩ := List.mem_map.mp hw
      rw [slackVars_names v hv']; exact Or.inr hsn

theorem quadPart_success {src d : QP} (hs : src.WF) (hst : Starts src d) {e : LinExpr} (he : e.Fits src.numVars)
    {q : QuadExpr} (hq : q.Fits src.numVars)
    {t : VarType} {sn nm : String} (hsn : sn ∈ slackNames nm) (hne : nm ≠ "") (hf : nm ∉ d.quads.map QuadCst.name)
    (hv : sn ∉ d.vars.map Variable.name) {s : Sense} (hse : s ≠ .eq) (r lb ub : ℚ) :
    ∃ o d1 c d2, slackVar d t sn s r lb ub = .ok (o, d1) ∧
      d1.quadraticConstraint (linNames (withSlack (e.toDictNames src.vars) o)) (quadNames (q.toDictNames src.vars))
        (.str "==") r (some nm) = (.ok c, d2) ∧
      NamesAfter d d2 nm [] [nm] := by
  obtain ⟨o, d1, h1⟩ := slackVar_success (r := r) (lb := lb) (ub := ub) (t := t) hst.wf.cons hse hv
  obtain ⟨a1, a2, a3, a4, a5, a6⟩ := (slackVar_ok hst.wf.cons h1).spec hst hs.cons
    (fun a ha => toDictNames_keys he ha) (toDictNames_nodup hs.cons he)
  have hst1 := hst.grows a2
  obtain ⟨le, e1, e2, e3, e4⟩ := linNames_spec hst1.wf.cons a3 a4
  obtain ⟨qe, f1, f2, f3, f4⟩ := quadNames_spec hst1.wf.cons (toDictNames_nodup2 hs.cons hq)
    (fun a ha => ⟨hst1.names (toDictNames_keys2 hq ha).1, hst1.names (toDictNames_keys2 hq ha).2⟩)
  have hf' : nm ∉ Assoc.keys d1.quadsIndex := by rw [a2.quadsIndex, hst.wf.cons.quads.keys]; exact hf
  have h2 := quadraticConstraint_success' (r := r) hne hf' eqeq_convert e1 f1
  refine ⟨o, d1, _, _, h1, h2, ⟨?_, ?_, ?_⟩⟩
  · simp [a2.lins]
  · simp [a2.quads]
  · intro w hw
    simp only [a2.vars, List.map_append, List.mem_append] at hw
    rcases hw with hw | hw
    · exact Or.inl hw
    · obtain ⟨v, hv', rfl⟩ := List.mem_map.mp hw
      rw [slackVars_names v hv']; exact Or.inr hsn

/-- The mode can handle the constraint: it is one of the three modes, and in mode `integer` inequalities have
integer coefficients. -/
def ModeFits (mode : SlackMode) (c : Cst) : Prop :=
  c.sense ≠ .eq → mode ≠ .other ∧ (mode = .integer → c.IntCoeffs)

theorem i2eLinOne_success {mode : SlackMode} {src d : QP} (hs : src.WF) (hst : Starts src d) {k : LinCst}
    (hk : k.linear.Fits src.numVars) (hne : k.name ≠ "") (hf : k.name ∉ d.lins.map LinCst.name)
    (hv : ∀ s ∈ slackNames k.name, s ∉ d.vars.map Variable.name) (hm : ModeFits mode (.lin k)) :
    ∃ d', i2eLinOne mode src d k = .ok d' ∧ NamesAfter d d' k.name [k.name] [] := by
  obtain ⟨⟨lb, ub⟩, hb⟩ := calcLinBounds_success hs.cons (fun a ha => toDictNames_keys hk ha) (0, 0)
  have hint : k.sense ≠ .eq → anyFloat (k.linear.toDictNames src.vars).values = false →
      ∃ d', intSlackLin src d (k.linear.toDictNames src.vars) k.sense k.rhs k.name = .ok d' ∧
        NamesAfter d d' k.name [k.name] [] := by
    intro hse hfl
    obtain ⟨o, d1, c, d2, h1, h2, h3⟩ := linPart_success (t := .integer) hs hst hk
      (sn := k.name ++ delim ++ "int_slack") (by simp [slackNames]) hne hf (hv _ (by simp [slackNames])) hse
      (roundRhs k.sense k.rhs) lb ub
    refine ⟨d2, ?_, h3⟩
    simp only [intSlackLin, hfl, hb, h1, h2, Bool.false_eq_true, if_false]
  have hcont : k.sense ≠ .eq → ∃ d', contSlackLin src d (k.linear.toDictNames src.vars) k.sense k.rhs k.name = .ok d' ∧
        NamesAfter d d' k.name [k.name] [] := by
    intro hse
    obtain ⟨o, d1, c, d2, h1, h2, h3⟩ := linPart_success (t := .continuous) hs hst hk
      (sn := k.name ++ delim ++ "continuous_slack") (by simp [slackNames]) hne hf (hv _ (by simp [slackNames])) hse
      k.rhs lb ub
    exact ⟨d2, by simp only [contSlackLin, hb, h1, h2], h3⟩
  have hno : k.sense ≠ .eq → ∃ d', (match mode with
      | .integer => intSlackLin src d (k.linear.toDictNames src.vars) k.sense k.rhs k.name
      | .continuous => contSlackLin src d (k.linear.toDictNames src.vars) k.sense k.rhs k.name
      | .auto => autoSlackLin src d (k.linear.toDictNames src.vars) k.sense k.rhs k.name
      | .other => .error .optimization) = .ok d' ∧ NamesAfter d d' k.name [k.name] [] := by
    intro hse
    obtain ⟨m1, m2⟩ := hm hse
    cases mode with
    | integer =>
      refine hint hse ?_
      rw [anyFloat_false, toDictNames_values]
      intro v hv
      obtain ⟨q, hq, rfl⟩ := List.mem_map.mp hv
      exact m2 rfl q hq
    | continuous => exact hcont hse
    | auto =>
      simp only [autoSlackLin]
      split
      · exact hcont hse
      · rename_i hfl; exact hint hse (by simpa using hfl)
    | other => exact absurd rfl m1
  unfold i2eLinOne
  simp only
  cases hse : k.sense with
  | eq =>
    simp only
    obtain ⟨le, e1, e2, e3, e4⟩ := linNames_spec hst.wf.cons (toDictNames_nodup hs.cons hk)
      (fun a ha => hst.names (toDictNames_keys hk ha))
    rw [linearConstraint_success hne (by rw [hst.wf.cons.lins.keys]; exact hf) e1]
    exact ⟨_, rfl, by simp, by simp, fun s hs => Or.inl hs⟩
  | le => rw [hse] at hno; exact hno (by simp)
  | ge => rw [hse] at hno; exact hno (by simp)

theorem i2eQuadOne_success {mode : SlackMode} {src d : QP} (hs : src.WF) (hst : Starts src d) {k : QuadCst}
    (hk : k.linear.Fits src.numVars) (hq : k.quadratic.Fits src.numVars) (hne : k.name ≠ "")
    (hf : k.name ∉ d.quads.map QuadCst.name)
    (hv : ∀ s ∈ slackNames k.name, s ∉ d.vars.map Variable.name) (hm : ModeFits mode (.quad k)) :
    ∃ d', i2eQuadOne mode src d k = .ok d' ∧ NamesAfter d d' k.name [] [k.name] := by
  obtain ⟨⟨lb, ub⟩, hb⟩ := calcQuadBounds_success hs.cons (fun a ha => toDictNames_keys hk ha)
    (fun a ha => toDictNames_keys2 hq ha)
  have hint : k.sense ≠ .eq → (anyFloat (k.linear.toDictNames src.vars).values ||
        anyFloat (k.quadratic.toDictNames src.vars).values) = false →
      ∃ d', intSlackQuad src d (k.linear.toDictNames src.vars) (k.quadratic.toDictNames src.vars) k.sense k.rhs k.name
        = .ok d' ∧ NamesAfter d d' k.name [] [k.name] := by
    intro hse hfl
    obtain ⟨o, d1, c, d2, h1, h2, h3⟩ := quadPart_success (t := .integer) hs hst hk hq
      (sn := k.name ++ delim ++ "int_slack") (by simp [slackNames]) hne hf (hv _ (by simp [slackNames])) hse
      (roundRhs k.sense k.rhs) lb ub
    refine ⟨d2, ?_, h3⟩
    simp only [intSlackQuad, hfl, hb, h1, h2, Bool.false_eq_true, if_false]
  have hcont : k.sense ≠ .eq → ∃ d', contSlackQuad src d (k.linear.toDictNames src.vars)
      (k.quadratic.toDictNames src.vars) k.sense k.rhs k.name = .ok d' ∧ NamesAfter d d' k.name [] [k.name] := by
    intro hse
    obtain ⟨o, d1, c, d2, h1, h2, h3⟩ := quadPart_success (t := .continuous) hs hst hk hq
      (sn := k.name ++ delim ++ "continuous_slack") (by simp [slackNames]) hne hf (hv _ (by simp [slackNames])) hse
      k.rhs lb ub
    exact ⟨d2, by simp only [contSlackQuad, hb, h1, h2], h3⟩
  have hno : k.sense ≠ .eq → ∃ d', (match mode with
      | .integer => intSlackQuad src d (k.linear.toDictNames src.vars) (k.quadratic.toDictNames src.vars) k.sense k.rhs
          k.name
      | .continuous => contSlackQuad src d (k.linear.toDictNames src.vars) (k.quadratic.toDictNames src.vars) k.sense
          k.rhs k.name
      | .auto => autoSlackQuad src d (k.linear.toDictNames src.vars) (k.quadratic.toDictNames src.vars) k.sense k.rhs
          k.name
      | .other => .error .optimization) = .ok d' ∧ NamesAfter d d' k.name [] [k.name] := by
    intro hse
    obtain ⟨m1, m2⟩ := hm hse
    cases mode with
    | integer =>
      refine hint hse ?_
      obtain ⟨i1, i2⟩ := m2 rfl
      rw [Bool.or_eq_false_iff, anyFloat_false, anyFloat_false, toDictNames_values, toDictNames_values2]
      constructor
      · intro v hv
        obtain ⟨q, hq, rfl⟩ := List.mem_map.mp hv
        exact i1 q hq
      · intro v hv
        obtain ⟨q, hq, rfl⟩ := List.mem_map.mp hv
        exact i2 q hq
    | continuous => exact hcont hse
    | auto =>
      simp only [autoSlackQuad]
      split
      · exact hcont hse
      · rename_i hfl; exact hint hse (by simpa using hfl)
    | other => exact absurd rfl m1
  unfold i2eQuadOne
  simp only
  cases hse : k.sense with
  | eq =>
    simp only
    obtain ⟨le, e1, e2, e3, e4⟩ := linNames_spec hst.wf.cons (toDictNames_nodup hs.cons hk)
      (fun a ha => hst.names (toDictNames_keys hk ha))
    obtain ⟨qe, f1, f2, f3, f4⟩ := quadNames_spec hst.wf.cons (toDictNames_nodup2 hs.cons hq)
      (fun a ha => ⟨hst.names (toDictNames_keys2 hq ha).1, hst.names (toDictNames_keys2 hq ha).2⟩)
    rw [quadraticConstraint_success hne (by rw [hst.wf.cons.quads.keys]; exact hf) e1 f1]
    exact ⟨_, rfl, by simp, by simp, fun s hs => Or.inl hs⟩
  | le => rw [hse] at hno; exact hno (by simp)
  | ge => rw [hse] at hno; exact hno (by simp)

theorem slackNames_inj {a b : String} {s : String} (ha : s ∈ slackNames a) (hb : s ∈ slackNames b) : a = b := by
  have hd : delim = "@" := rfl
  simp only [slackNames, List.mem_cons, List.not_mem_nil, or_false] at ha hb
  have key : ∀ (u v : String) (x y : String), a ++ u = b ++ v → u = v → a = b := by
    rintro u v _ _ h rfl
    exact append_right_cancel h
  rcases ha with ha | ha <;> rcases hb with hb | hb
  · rw [ha, String.append_assoc, String.append_assoc] at hb
    exact append_right_cancel hb
  · exfalso
    rw [ha] at hb
    have h1 := congrArg (fun t : String => t.toList.reverse.take 10) hb
    simp [String.toList_append] at h1
  · exfalso
    rw [ha] at hb
    have h1 := congrArg (fun t : String => t.toList.reverse.take 10) hb
    simp [String.toList_append] at h1
  · rw [ha, String.append_assoc, String.append_assoc] at hb
    exact append_right_cancel hb

theorem i2eLins_success {mode : SlackMode} {src : QP} (hs : src.WF) (ks : List LinCst)
    (hk : ∀ k ∈ ks, k.linear.Fits src.numVars ∧ k.name ≠ "" ∧ ModeFits mode (.lin k)) {d : QP} (hst : Starts src d)
    (hn : (d.lins.map LinCst.name ++ ks.map LinCst.name).Nodup)
    (hv : ∀ k ∈ ks, ∀ s ∈ slackNames k.name, s ∉ d.vars.map Variable.name) :
    ∃ d', i2eLins mode src ks d = .ok d' ∧ d'.quads.map QuadCst.name = d.quads.map QuadCst.name ∧
      d'.lins.map LinCst.name = d.lins.map LinCst.name ++ ks.map LinCst.name ∧
      ∀ s ∈ d'.vars.map Variable.name, s ∈ d.vars.map Variable.name ∨ ∃ k ∈ ks, s ∈ slackNames k.name := by
  induction ks generalizing d with
  | nil => exact ⟨d, rfl, rfl, by simp, fun s hs => Or.inl hs⟩
  | cons k ks ih =>
    rw [List.forall_mem_cons] at hk hv
    have hnk : k.name ∉ d.lins.map LinCst.name := by
      intro hh
      rw [List.nodup_append] at hn
      exact hn.2.2 _ hh _ (by simp) rfl
    obtain ⟨d1, h1, h2⟩ := i2eLinOne_success (mode := mode) hs hst hk.1.1 hk.1.2.1 hnk hv.1 hk.1.2.2
    have hst1 := (i2eLinOne_ok hs hst hk.1.1 h1).1.starts
    have hn1 : (d1.lins.map LinCst.name ++ ks.map LinCst.name).Nodup := by
      rw [h2.lins, List.append_assoc]; simpa using hn
    have hv1 : ∀ k ∈ ks, ∀ s ∈ slackNames k.name, s ∉ d1.vars.map Variable.name := by
      intro k' hk' s hs' hmem
      rcases h2.vars s hmem with hh | hh
      · exact hv.2 k' hk' s hs' hh
      · have := slackNames_inj hs' hh
        rw [List.nodup_append] at hn
        have hn2 := hn.2.1
        rw [List.map_cons, List.nodup_cons] at hn2
        exact hn2.1 (this ▸ List.mem_map_of_mem hk')
    obtain ⟨d', h3, h4, h6, h5⟩ := ih hk.2 hst1 hn1 hv1
    refine ⟨d', by simp only [i2eLins, h1, h3], by rw [h4, h2.quads, List.append_nil], by rw [h6, h2.lins]; simp, ?_⟩
    intro s hs'
    rcases h5 s hs' with hh | ⟨k', hk', hh⟩
    · rcases h2.vars s hh with hh | hh
      · exact Or.inl hh
      · exact Or.inr ⟨k, List.mem_cons_self, hh⟩
    · exact Or.inr ⟨k', List.mem_cons_of_mem _ hk', hh⟩

theorem i2eQuads_success {mode : SlackMode} {src : QP} (hs : src.WF) (ks : List QuadCst)
    (hk : ∀ k ∈ ks, (k.linear.Fits src.numVars ∧ k.quadratic.Fits src.numVars) ∧ k.name ≠ "" ∧ ModeFits mode (.quad k))
    {d : QP} (hst : Starts src d) (hn : (d.quads.map QuadCst.name ++ ks.map QuadCst.name).Nodup)
    (hv : ∀ k ∈ ks, ∀ s ∈ slackNames k.name, s ∉ d.vars.map Variable.name) :
    ∃ d', i2eQuads mode src ks d = .ok d' := by
  induction ks generalizing d with
  | nil => exact ⟨d, rfl⟩
  | cons k ks ih =>
    rw [List.forall_mem_cons] at hk hv
    have hnk : k.name ∉ d.quads.map QuadCst.name := by
      intro hh
      rw [List.nodup_append] at hn
      exact hn.2.2 _ hh _ (by simp) rfl
    obtain ⟨d1, h1, h2⟩ := i2eQuadOne_success (mode := mode) hs hst hk.1.1.1 hk.1.1.2 hk.1.2.1 hnk hv.1 hk.1.2.2
    have hst1 := (i2eQuadOne_ok hs hst hk.1.1.1 hk.1.1.2 h1).1.starts
    have hn1 : (d1.quads.map QuadCst.name ++ ks.map QuadCst.name).Nodup := by
      rw [h2.quads, List.append_assoc]; simpa using hn
    have hv1 : ∀ k ∈ ks, ∀ s ∈ slackNames k.name, s ∉ d1.vars.map Variable.name := by
      intro k' hk' s hs' hmem
      rcases h2.vars s hmem with hh | hh
      · exact hv.2 k' hk' s hs' hh
      · have := slackNames_inj hs' hh
        rw [List.nodup_append] at hn
        have hn2 := hn.2.1
        rw [List.map_cons, List.nodup_cons] at hn2
        exact hn2.1 (this ▸ List.mem_map_of_mem hk')
    obtain ⟨d', h3⟩ := ih hk.2 hst1 hn1 hv1
    exact ⟨d', by simp only [i2eQuads, h1, h3]⟩

theorem copyAllVars_success {vs : List Variable} {dst : QP} (hd : dst.Consistent)
    (hn : ((dst.vars ++ vs).map Variable.name).Nodup) (hb : ∀ v ∈ vs, v.lb ≤ v.ub) :
    ∃ dst', copyAllVars vs dst = .ok dst' := by
  induction vs generalizing dst with
  | nil => exact ⟨dst, rfl⟩
  | cons v vs ih =>
    rw [List.forall_mem_cons] at hb
    have hn' : (dst.vars.map Variable.name ++ v.name :: vs.map Variable.name).Nodup := by simpa using hn
    have hfresh : v.name ∉ Assoc.keys dst.varsIndex := by
      rw [hd.vars.keys]
      intro hmem
      rw [List.nodup_append] at hn'
      exact hn'.2.2 _ hmem _ List.mem_cons_self rfl
    have go : ∀ d' : QP, ∀ w : Variable, w.name = v.name → Grows dst d' [w] →
        ∃ dst', copyAllVars vs d' = .ok dst' := by
      intro d' w hw hg
      apply ih (hg.cons hd) _ hb.2
      rw [hg.vars]
      simpa [hw] using hn'
    unfold copyAllVars
    cases ht : v.vartype with
    | binary =>
      obtain ⟨p', hp'⟩ := addVariable_success (p := dst) (lb := 0) (ub := 1) (t := .binary) hfresh (by norm_num)
      simp only [QP.binaryVar, hp']
      exact go p' ⟨v.name, 0, 1, .binary⟩ rfl (addVariable_grows hp').1
    | integer =>
      obtain ⟨p', hp'⟩ := addVariable_success (p := dst) (t := .integer) hfresh hb.1
      simp only [QP.integerVar, hp']
      exact go p' ⟨v.name, v.lb, v.ub, .integer⟩ rfl (addVariable_grows hp').1
    | continuous =>
      obtain ⟨p', hp'⟩ := addVariable_success (p := dst) (t := .continuous) hfresh hb.1
      simp only [QP.continuousVar, hp']
      exact go p' ⟨v.name, v.lb, v.ub, .continuous⟩ rfl (addVariable_grows hp').1

theorem ineqToEq_success {mode : SlackMode} {src : QP} (hs : src.WF) (hb : ∀ v ∈ src.vars, v.lb ≤ v.ub)
    (hm : ∀ c ∈ src.allCsts, ModeFits mode c) (hne : ∀ c ∈ src.allCsts, c.name ≠ "")
    (hd : ∀ c ∈ src.lins, ∀ c' ∈ src.quads, c.name ≠ c'.name)
    (hv : ∀ c ∈ src.allCsts, ∀ s ∈ slackNames c.name, s ∉ src.vars.map Variable.name) :
    ∃ dst, src.ineqToEq mode = .ok dst ∧ (src.quads = [] → dst.lins.map LinCst.name = src.lins.map LinCst.name ∧
      ∀ s ∈ dst.vars.map Variable.name, s ∈ src.vars.map Variable.name ∨ ∃ k ∈ src.lins, s ∈ slackNames k.name) := by
  obtain ⟨d0, h0⟩ := copyAllVars_success (vs := src.vars) (QP.empty_wf src.name).cons
    (by simpa [QP.empty] using hs.cons.vars.2) hb
  have hg := copyAllVars_grows h0
  have hv0 : d0.vars = src.vars.map plainVar := by simpa [QP.empty] using hg.vars
  have hst0 : Starts src d0 := ⟨hg.wf (QP.empty_wf src.name), [], by simpa using hv0⟩
  obtain ⟨le', f1, f2, f3, f4⟩ := linNames_spec hst0.wf.cons (toDictNames_nodup hs.cons hs.objLin)
    (fun a ha => hst0.names (toDictNames_keys hs.objLin ha))
  obtain ⟨qe', g1, g2, g3, g4⟩ := quadNames_spec hst0.wf.cons (toDictNames_nodup2 hs.cons hs.objQuad)
    (fun a ha => ⟨hst0.names (toDictNames_keys2 hs.objQuad ha).1, hst0.names (toDictNames_keys2 hs.objQuad ha).2⟩)
  have h1 := setObjective_success (s := src.objective.sense) (c := src.objective.constant) f1 g1
  have hwf1 := setObjective_wf h1 hst0.wf trivial trivial
  have hst1 : Starts src { d0 with objective := ⟨src.objective.constant, le', qe', src.objective.sense⟩ } :=
    ⟨hwf1, [], by simpa using hv0⟩
  have hl0 : d0.lins = [] := by rw [hg.lins]; rfl
  have hq0 : d0.quads = [] := by rw [hg.quads]; rfl
  have hn0 : d0.vars.map Variable.name = src.vars.map Variable.name := by rw [hv0, plainVar_names]
  obtain ⟨d2, h2, h3, h6, h4⟩ := i2eLins_success (mode := mode) hs src.lins
    (fun k hk => ⟨hs.lins k hk, hne (.lin k) (by simp [QP.allCsts, hk]), hm (.lin k) (by simp [QP.allCsts, hk])⟩) hst1
    (by show (d0.lins.map _ ++ _).Nodup; rw [hl0]; exact hs.cons.lins.2)
    (by
      intro k hk s hs'
      show s ∉ d0.vars.map Variable.name
      rw [hn0]; exact hv (.lin k) (by simp [QP.allCsts, hk]) s hs')
  have hst2 := (i2eLins_ok hs hst1 src.lins hs.lins h2).1.starts
  obtain ⟨d3, h5⟩ := i2eQuads_success (mode := mode) hs src.quads
    (fun k hk => ⟨hs.quads k hk, hne (.quad k) (by simp [QP.allCsts, hk]), hm (.quad k) (by simp [QP.allCsts, hk])⟩) hst2
    (by rw [h3]; show (d0.quads.map _ ++ _).Nodup; rw [hq0]; exact hs.cons.quads.2)
    (by
      intro k hk s hs' hmem
      rcases h4 s hmem with hh | ⟨k', hk', hh⟩
      · have hh : s ∈ d0.vars.map Variable.name := hh
        rw [hn0] at hh
        exact hv (.quad k) (by simp [QP.allCsts, hk]) s hs' hh
      · exact hd k' hk' k hk (slackNames_inj hh hs'))
  refine ⟨d3, by simp only [QP.ineqToEq, h0, h1, h2, h5], fun hqs => ?_⟩
  rw [hqs] at h5
  simp only [i2eQuads, Except.ok.injEq] at h5
  subst h5
  refine ⟨?_, fun s hs' => ?_⟩
  · rw [h6]; show d0.lins.map _ ++ _ = _; rw [hl0]; rfl
  · rw [← hn0]; exact h4 s hs'

end Verif
