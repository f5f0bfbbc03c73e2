import Verif.Reuse
import Verif.QuboLemmas
import Verif.PropsProgram

/-!
# Lemmas about converter objects
-/

namespace Verif

/-- The two tables agree on the variables of a program. -/
def Agree (src : QP) (id : Nat) (oc : ObjConv) (conv : Conv) : Prop :=
  ∀ i v, src.vars[i]? = some v → Assoc.get? oc (id, i) = Assoc.get? conv v.name

theorem getVariable_at (p : QP) (s : String) :
    p.getVariable (.name s) = (p.variableAt s).map Prod.snd := by
  simp only [QP.getVariable, QP.variableAt]
  cases h : Assoc.get? p.varsIndex s with
  | none => rfl
  | some i => simp only; cases h : p.vars[i]? <;> rfl

theorem variableAt_ok {p : QP} {s : String} {i : Nat} {v : Variable} (h : p.variableAt s = .ok (i, v)) :
    p.vars[i]? = some v := by
  unfold QP.variableAt at h
  cases h1 : Assoc.get? p.varsIndex s with
  | none => simp [h1] at h
  | some j =>
    cases h2 : p.vars[j]? with
    | none => simp [h1, h2] at h
    | some w =>
      simp only [h1, h2, Except.ok.injEq, Prod.mk.injEq] at h
      rw [← h.1, ← h.2, h2]

theorem i2bLinO_eq {src : QP} {id : Nat} {oc : ObjConv} {conv : Conv} (ha : Agree src id oc conv) :
    ∀ (d lin : Dict String) (c : ℚ), i2bLinO src id oc d lin c = i2bLin src conv d lin c
  | [], _, _ => rfl
  | (s, v) :: d, lin, c => by
    unfold i2bLinO i2bLin
    rw [getVariable_at]
    cases h : src.variableAt s with
    | error e => rfl
    | ok q =>
      obtain ⟨i, x⟩ := q
      simp only [Except.map]
      rw [ha i x (variableAt_ok h)]
      cases Assoc.get? conv x.name with
      | none => exact i2bLinO_eq ha d _ _
      | some enc => exact i2bLinO_eq ha d _ _

theorem i2bQuadO_eq {src : QP} {id : Nat} {oc : ObjConv} {conv : Conv} (ha : Agree src id oc conv) :
    ∀ (d quad : Dict (String × String)) (lin : Dict String) (c : ℚ),
      i2bQuadO src id oc d quad lin c = i2bQuad src conv d quad lin c
  | [], _, _, _ => rfl
  | ((si, sj), v) :: d, quad, lin, c => by
    unfold i2bQuadO i2bQuad
    rw [getVariable_at, getVariable_at]
    cases h : src.variableAt si with
    | error e => rfl
    | ok q =>
      obtain ⟨i, x⟩ := q
      simp only [Except.map]
      cases h' : src.variableAt sj with
      | error e => rfl
      | ok q =>
        obtain ⟨j, y⟩ := q
        simp only
        rw [ha i x (variableAt_ok h), ha j y (variableAt_ok h')]
        cases Assoc.get? conv x.name <;> cases Assoc.get? conv y.name <;> exact i2bQuadO_eq ha d _ _ _

theorem i2bLinsO_eq {src : QP} {id : Nat} {oc : ObjConv} {conv : Conv} (ha : Agree src id oc conv) :
    ∀ (ks : List LinCst) (dst : QP), i2bLinsO src id oc ks dst = i2bLins src conv ks dst
  | [], _ => rfl
  | k :: ks, dst => by
    unfold i2bLinsO i2bLins
    rw [i2bLinO_eq ha]
    cases i2bLin src conv (k.linear.toDictNames src.vars) [] 0 with
    | error e => rfl
    | ok q =>
      obtain ⟨lin, c⟩ := q
      simp only
      generalize dst.linearConstraint _ _ _ _ = r
      obtain ⟨r, d⟩ := r
      cases r with
      | error e => rfl
      | ok _ => exact i2bLinsO_eq ha ks d

theorem i2bQuadsO_eq {src : QP} {id : Nat} {oc : ObjConv} {conv : Conv} (ha : Agree src id oc conv) :
    ∀ (ks : List QuadCst) (dst : QP), i2bQuadsO src id oc ks dst = i2bQuads src conv ks dst
  | [], _ => rfl
  | k :: ks, dst => by
    unfold i2bQuadsO i2bQuads
    rw [i2bLinO_eq ha, i2bQuadO_eq ha]
    cases i2bLin src conv (k.linear.toDictNames src.vars) [] 0 with
    | error e => rfl
    | ok q =>
      obtain ⟨lin, c⟩ := q
      simp only
      cases i2bQuad src conv (k.quadratic.toDictNames src.vars) [] [] 0 with
      | error e => rfl
      | ok q =>
        obtain ⟨quad, ql, qc⟩ := q
        simp only
        generalize dst.quadraticConstraint _ _ _ _ _ = r
        obtain ⟨r, d⟩ := r
        cases r with
        | error e => rfl
        | ok _ => exact i2bQuadsO_eq ha ks d

theorem i2bObjectiveO_eq {src : QP} {id : Nat} {oc : ObjConv} {conv : Conv} (ha : Agree src id oc conv) (dst : QP) :
    i2bObjectiveO src id oc dst = i2bObjective src conv dst := by
  unfold i2bObjectiveO i2bObjective
  rw [i2bLinO_eq ha, i2bQuadO_eq ha]
  cases i2bLin src conv (src.objective.linear.toDictNames src.vars) [] 0 with
  | error e => rfl
  | ok q =>
    obtain ⟨lin, c⟩ := q
    simp only
    cases i2bQuad src conv (src.objective.quadratic.toDictNames src.vars) [] [] 0 with
    | error e => rfl
    | ok q =>
      obtain ⟨quad, ql, qc⟩ := q
      simp only
      generalize dst.setObjective _ _ _ _ = r
      obtain ⟨r, d⟩ := r
      cases r <;> rfl

/-- The keys of the table belong to copies made so far. -/
def KeysLe (n : Nat) (oc : ObjConv) : Prop := ∀ k, n < k.1 → Assoc.get? oc k = none

theorem KeysLe.set {n : Nat} {oc : ObjConv} (h : KeysLe n oc) {k : Nat × Nat} (hk : k.1 ≤ n) (enc : Enc) :
    KeysLe n (Assoc.set oc k enc) := by
  intro q hq
  rw [Assoc.get?_set, if_neg]
  · exact h q hq
  · rintro rfl
    omega

theorem i2bVarsO_keys {n : Nat} : ∀ (l : List Variable) (i : Nat) (oc : ObjConv) (dst : QP), KeysLe n oc →
    KeysLe n (i2bVarsO n i l oc dst).2
  | [], _, _, _, h => h
  | x :: l, i, oc, dst, h => by
    unfold i2bVarsO
    cases x.vartype with
    | integer =>
      simp only
      cases convertVar x.name x.lb x.ub with
      | error e => exact h
      | ok enc =>
        simp only
        cases addBins enc dst with
        | error e => exact h.set (Nat.le_refl _) _
        | ok d => exact i2bVarsO_keys l (i + 1) _ d (h.set (Nat.le_refl _) _)
    | continuous =>
      simp only
      generalize dst.continuousVar _ _ _ = r
      obtain ⟨r, d⟩ := r
      cases r with
      | error e => exact h
      | ok _ => exact i2bVarsO_keys l (i + 1) _ d h
    | binary =>
      simp only
      generalize dst.binaryVar _ = r
      obtain ⟨r, d⟩ := r
      cases r with
      | error e => exact h
      | ok _ => exact i2bVarsO_keys l (i + 1) _ d h

theorem i2bVarsO_eq {src : QP} (hn : (src.vars.map Variable.name).Nodup) {id : Nat} :
    ∀ (l pre : List Variable) (oc : ObjConv) (conv : Conv) (dst : QP), src.vars = pre ++ l → Agree src id oc conv →
      match i2bVars l conv dst with
      | .error e => (i2bVarsO id pre.length l oc dst).1 = .error e
      | .ok (conv', dst') => (i2bVarsO id pre.length l oc dst).1 = .ok dst' ∧
          Agree src id (i2bVarsO id pre.length l oc dst).2 conv'
  | [], _, _, _, _, _, ha => ⟨rfl, ha⟩
  | x :: l, pre, oc, conv, dst, hsrc, ha => by
    have hnext : src.vars = (pre ++ [x]) ++ l := by rw [hsrc]; simp
    have hlen : pre.length + 1 = (pre ++ [x]).length := by simp
    unfold i2bVarsO i2bVars
    cases x.vartype with
    | integer =>
      simp only
      cases convertVar x.name x.lb x.ub with
      | error e => rfl
      | ok enc =>
        simp only
        cases addBins enc dst with
        | error e => rfl
        | ok d =>
          simp only
          rw [hlen]
          refine i2bVarsO_eq hn l (pre ++ [x]) _ _ d hnext ?_
          intro i v hv
          rw [Assoc.get?_set, Assoc.get?_set, ha i v hv]
          have hx : src.vars[pre.length]? = some x := by rw [hsrc]; simp
          by_cases hi : i = pre.length
          · subst hi
            rw [hx] at hv
            cases hv
            simp
          · have : v.name ≠ x.name := by
              intro he
              apply hi
              have h1 : (src.vars.map Variable.name)[i]? = some x.name := by rw [List.getElem?_map, hv, ← he]; rfl
              have h2 : (src.vars.map Variable.name)[pre.length]? = some x.name := by rw [List.getElem?_map, hx]; rfl
              have hl : i < (src.vars.map Variable.name).length := (List.getElem?_eq_some_iff.mp h1).1
              exact (List.getElem?_inj hl hn).mp (h1.trans h2.symm)
            rw [if_neg, if_neg (Ne.symm this)]
            intro he
            exact hi (Prod.mk.inj he).2.symm
    | continuous =>
      simp only
      generalize dst.continuousVar _ _ _ = r
      obtain ⟨r, d⟩ := r
      cases r with
      | error e => rfl
      | ok _ =>
        simp only
        rw [hlen]
        exact i2bVarsO_eq hn l (pre ++ [x]) _ _ d hnext ha
    | binary =>
      simp only
      generalize dst.binaryVar _ = r
      obtain ⟨r, d⟩ := r
      cases r with
      | error e => rfl
      | ok _ =>
        simp only
        rw [hlen]
        exact i2bVarsO_eq hn l (pre ++ [x]) _ _ d hnext ha

theorem i2bInterpretVarsO_eq {src : QP} {id : Nat} {oc : ObjConv} {conv : Conv} (ha : Agree src id oc conv)
    (sol : Assoc String ℚ) : ∀ (l pre : List Variable), src.vars = pre ++ l →
      i2bInterpretVarsO id oc sol pre.length l = i2bInterpretVars conv sol l
  | [], _, _ => rfl
  | v :: l, pre, hsrc => by
    have hx : src.vars[pre.length]? = some v := by rw [hsrc]; simp
    have hlen : pre.length + 1 = (pre ++ [v]).length := by simp
    unfold i2bInterpretVarsO i2bInterpretVars
    rw [ha _ v hx, hlen, i2bInterpretVarsO_eq ha sol l (pre ++ [v]) (by rw [hsrc]; simp)]
    cases Assoc.get? conv v.name with
    | none =>
      simp only
      cases lookupSol sol v.name with
      | error e => rfl
      | ok a => cases i2bInterpretVars conv sol l <;> rfl
    | some enc =>
      simp only
      cases decodeSum sol enc with
      | error e => rfl
      | ok a => cases i2bInterpretVars conv sol l <;> rfl

theorem I2BObj.convert_keys {o : I2BObj} (h : KeysLe o.copies o.conv) (left : Option QP) (p : QP) :
    KeysLe (o.convert left p).2.copies (o.convert left p).2.conv := by
  have h' : KeysLe (o.copies + 1) o.conv := fun k hk => h k (by omega)
  unfold I2BObj.convert
  simp only
  split
  · exact i2bVarsO_keys _ _ _ _ h'
  · exact h'

/-- A used `IntegerToBinary` object behaves like a new one. -/
theorem I2BObj.convert_eq {o : I2BObj} (h : KeysLe o.copies o.conv) (left : Option QP) {p : QP} (hp : p.Consistent) :
    (o.convert left p).1 = p.intToBin.map I2B.dst ∧
      ∀ st, p.intToBin = .ok st → (o.convert left p).2.interpret = st.interpret := by
  have hnone : ∀ i, Assoc.get? o.conv (o.copies + 1, i) = none := fun i => h _ (Nat.lt_succ_self _)
  have hinit : Agree p (o.copies + 1) o.conv [] := fun i v _ => hnone i
  unfold I2BObj.convert QP.intToBin
  by_cases hi : p.numIntegerVars > 0
  · simp only [if_pos hi]
    have hv := i2bVarsO_eq hp.vars.2 p.vars [] o.conv [] (QP.empty p.name) rfl hinit
    simp only [List.length_nil] at hv
    cases hc : i2bVars p.vars [] (QP.empty p.name) with
    | error e =>
      rw [hc] at hv
      simp only at hv
      rw [hv]
      exact ⟨rfl, by simp⟩
    | ok q =>
      obtain ⟨conv, dst⟩ := q
      rw [hc] at hv
      obtain ⟨h1, h2⟩ := hv
      simp only [h1]
      have hsub : i2bSubstituteO p (o.copies + 1) (i2bVarsO (o.copies + 1) 0 p.vars o.conv (QP.empty p.name)).2 dst =
          (match i2bObjective p conv dst with
          | .error e => .error e
          | .ok dst =>
            match i2bLins p conv p.lins dst with
            | .error e => .error e
            | .ok dst => i2bQuads p conv p.quads dst) := by
        unfold i2bSubstituteO
        rw [i2bObjectiveO_eq h2]
        cases i2bObjective p conv dst with
        | error e => rfl
        | ok d =>
          simp only
          rw [i2bLinsO_eq h2]
          cases i2bLins p conv p.lins d with
          | error e => rfl
          | ok d => simp only; rw [i2bQuadsO_eq h2]
      rw [hsub]
      cases i2bObjective p conv dst with
      | error e => exact ⟨rfl, by simp⟩
      | ok d =>
        simp only
        cases i2bLins p conv p.lins d with
        | error e => exact ⟨rfl, by simp⟩
        | ok d =>
          simp only
          cases i2bQuads p conv p.quads d with
          | error e => exact ⟨rfl, by simp⟩
          | ok d =>
            refine ⟨rfl, fun st hst => ?_⟩
            simp only [Except.ok.injEq] at hst
            subst hst
            funext x
            unfold I2BObj.interpret I2B.interpret leaves
            simp only
            cases solDict d.vars x with
            | error e => rfl
            | ok sol => exact i2bInterpretVarsO_eq h2 sol p.vars [] rfl
  · simp only [if_neg hi]
    refine ⟨rfl, fun st hst => ?_⟩
    simp only [Except.ok.injEq] at hst
    subst hst
    funext x
    unfold I2BObj.interpret I2B.interpret
    simp only
    cases solDict p.vars x with
    | error e => rfl
    | ok sol => exact i2bInterpretVarsO_eq hinit sol p.vars [] rfl

end Verif
