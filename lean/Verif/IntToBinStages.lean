import Verif.IntToBinLemmas
import Verif.GrowLemmas

/-!
# Helper lemmas: stages of the integer-to-binary conversion
-/

namespace Verif

/-! ## Variables -/

/-- The binary variable `s`. -/
def binVar (s : String) : Variable := ⟨s, 0, 1, .binary⟩

/-- What the conversion makes of a variable that is not encoded. -/
def plainVar (v : Variable) : Variable := if v.vartype = .binary then binVar v.name else v

/-- Variables of the result that stand for the source variable `v`. -/
def newVars (conv : Conv) (v : Variable) : List Variable :=
  match Assoc.get? conv v.name with
  | some enc => enc.map fun p => binVar p.1
  | none => [plainVar v]

theorem newVars_names (conv : Conv) (v : Variable) : (newVars conv v).map Variable.name = outs conv v.name := by
  unfold newVars outs plainVar
  cases Assoc.get? conv v.name with
  | some enc => simp [Function.comp_def, binVar]
  | none => simp only; split <;> simp [binVar]

theorem addBins_grows {enc : List (String × ℚ)} {dst dst' : QP} (h : addBins enc dst = .ok dst') :
    Grows dst dst' (enc.map fun p => binVar p.1) := by
  induction enc generalizing dst with
  | nil => simp [addBins] at h; subst h; exact Grows.refl _
  | cons p l ih =>
    simp only [addBins] at h
    split at h
    · simp at h
    · rename_i v d hadd
      exact (addVariable_grows hadd).1.trans (ih h)

theorem i2bVars_ok {l : List Variable} {conv conv' : Conv} {dst dst' : QP}
    (h : i2bVars l conv dst = .ok (conv', dst')) (hn : (l.map Variable.name).Nodup)
    (hc : ∀ v ∈ l, Assoc.get? conv v.name = none) :
    Grows dst dst' (l.flatMap (newVars conv')) ∧
      (∀ s, s ∉ l.map Variable.name → Assoc.get? conv' s = Assoc.get? conv s) ∧
      (∀ v ∈ l, v.vartype = .integer →
        ∃ e, Assoc.get? conv' v.name = some e ∧ convertVar v.name v.lb v.ub = .ok e) ∧
      ∀ v ∈ l, v.vartype ≠ .integer → Assoc.get? conv' v.name = none := by
  induction l generalizing conv dst with
  | nil => simp [i2bVars] at h; obtain ⟨rfl, rfl⟩ := h; simp [Grows.refl]
  | cons x l ih =>
    simp only [List.map_cons, List.nodup_cons] at hn
    have hxl : ∀ v ∈ l, v.name ≠ x.name := fun v hv hh => hn.1 (hh ▸ List.mem_map_of_mem hv)
    have plain : ∀ (d : QP), x.vartype ≠ .integer → i2bVars l conv d = .ok (conv', dst') →
        Grows dst d [plainVar x] →
        Grows dst dst' ((x :: l).flatMap (newVars conv')) ∧
        (∀ s, s ∉ (x :: l).map Variable.name → Assoc.get? conv' s = Assoc.get? conv s) ∧
        (∀ v ∈ x :: l, v.vartype = .integer →
          ∃ e, Assoc.get? conv' v.name = some e ∧ convertVar v.name v.lb v.ub = .ok e) ∧
        ∀ v ∈ x :: l, v.vartype ≠ .integer → Assoc.get? conv' v.name = none := by
      intro d hx h hg
      obtain ⟨h1, h2, h3, h4⟩ := ih h hn.2 (fun v hv => hc v (List.mem_cons_of_mem _ hv))
      have hcx : Assoc.get? conv' x.name = none := by rw [h2 _ hn.1]; exact hc x List.mem_cons_self
      refine ⟨?_, ?_, ?_, ?_⟩
      · have : newVars conv' x = [plainVar x] := by simp [newVars, hcx]
        rw [List.flatMap_cons, this]
        exact hg.trans h1
      · intro s hs
        exact h2 s (fun hm => hs (List.mem_cons_of_mem _ hm))
      · intro v hv ht
        rcases List.mem_cons.mp hv with rfl | hv
        · exact absurd ht hx
        · exact h3 v hv ht
      · intro v hv ht
        rcases List.mem_cons.mp hv with rfl | hv
        · exact hcx
        · exact h4 v hv ht
    simp only [i2bVars] at h
    split at h
    · rename_i ht
      split at h
      · simp at h
      · rename_i enc henc
        split at h
        · simp at h
        · rename_i d hadd
          obtain ⟨h1, h2, h3, h4⟩ := ih h hn.2 (fun v hv => by
            rw [Assoc.get?_set, if_neg (hxl v hv).symm]
            exact hc v (List.mem_cons_of_mem _ hv))
          have hcx : Assoc.get? conv' x.name = some enc := by
            rw [h2 _ hn.1, Assoc.get?_set, if_pos rfl]
          refine ⟨?_, ?_, ?_, ?_⟩
          · have : newVars conv' x = enc.map fun p => binVar p.1 := by simp [newVars, hcx]
            rw [List.flatMap_cons, this]
            exact (addBins_grows hadd).trans h1
          · intro s hs
            simp only [List.map_cons, List.mem_cons, not_or] at hs
            rw [h2 s hs.2, Assoc.get?_set, if_neg (Ne.symm hs.1)]
          · intro v hv ht
            rcases List.mem_cons.mp hv with rfl | hv
            · exact ⟨enc, hcx, henc⟩
            · exact h3 v hv ht
          · intro v hv hnt
            rcases List.mem_cons.mp hv with rfl | hv
            · exact absurd ht hnt
            · exact h4 v hv hnt
    · rename_i ht
      split at h
      · simp at h
      · rename_i w d hadd
        refine plain d (by simp [ht]) h ?_
        have := (addVariable_grows hadd).1
        rw [plainVar, if_neg (by simp [ht])]
        obtain ⟨n, lb, ub, t⟩ := x
        simp only at ht; subst ht
        exact this
    · rename_i ht
      split at h
      · simp at h
      · rename_i w d hadd
        refine plain d (by simp [ht]) h ?_
        rw [plainVar, if_pos ht]
        exact (addVariable_grows hadd).1

/-! ## Expressions -/

/-- The source point `x` is the one decoded from the point `y` of a program with name table `vi`. -/
def Decodes (src : QP) (vi : Assoc String Nat) (conv : Conv) (x y : Nat → ℚ) : Prop :=
  ∀ i v, src.vars[i]? = some v → x i = encVal src conv (nameVal vi y) v.name

/-- The variables of `d` are exactly those standing for the variables of `src`. -/
structure Encodes (src d : QP) (conv : Conv) : Prop where
  cons : d.Consistent
  vars : d.vars = src.vars.flatMap (newVars conv)
  enc : ∀ v ∈ src.vars, v.vartype = .integer →
    ∃ e, Assoc.get? conv v.name = some e ∧ convertVar v.name v.lb v.ub = .ok e
  plain : ∀ v ∈ src.vars, v.vartype ≠ .integer → Assoc.get? conv v.name = none

theorem Encodes.names {src d : QP} {conv : Conv} (h : Encodes src d conv) :
    d.vars.map Variable.name = (src.vars.map Variable.name).flatMap (outs conv) := by
  rw [h.vars, List.map_flatMap, List.flatMap_map]
  simp only [newVars_names]

theorem Encodes.outsOK {src d : QP} {conv : Conv} (h : Encodes src d conv) (hs : src.Consistent) :
    OutsOK src conv := by
  apply outsOK_of_nodup hs
  rw [← h.names]
  exact h.cons.vars.2

theorem Encodes.mem {src d : QP} {conv : Conv} (h : Encodes src d conv) {s a : String}
    (hs : s ∈ src.vars.map Variable.name) (ha : a ∈ outs conv s) : a ∈ d.vars.map Variable.name := by
  rw [h.names]
  exact List.mem_flatMap.mpr ⟨s, hs, ha⟩

theorem Decodes.nameVal {src : QP} (hs : src.Consistent) {vi : Assoc String Nat} {conv : Conv}
    {x y : Nat → ℚ} (h : Decodes src vi conv x y) {s : String} (hm : s ∈ src.vars.map Variable.name) :
    nameVal src.varsIndex x s = encVal src conv (Verif.nameVal vi y) s := by
  obtain ⟨v, hv, rfl⟩ := List.mem_map.mp hm
  obtain ⟨i, hi⟩ := List.mem_iff_getElem?.mp hv
  rw [nameVal_at hs hi, h i v hi]

/-- Linear expressions keep their value. -/
theorem i2bLin_full {src d : QP} {conv : Conv} (hs : src.Consistent) (he : Encodes src d conv) {e : LinExpr}
    (hf : e.Fits src.numVars) :
    ∃ l c, i2bLin src conv (e.toDictNames src.vars) [] 0 = .ok (l, c) ∧ (Assoc.keys l).Nodup ∧
      (∀ a ∈ Assoc.keys l, a ∈ d.vars.map Variable.name) ∧
      ∀ x y, Decodes src d.varsIndex conv x y → Dict.sum l (nameVal d.varsIndex y) + c = e.val x := by
  obtain ⟨l, c, h1, h2, h3, h4⟩ := i2bLin_spec hs (he.outsOK hs) (e.toDictNames src.vars)
    (fun s h => toDictNames_keys hf h) (toDictNames_nodup hs hf)
  refine ⟨l, c, h1, h2, ?_, ?_⟩
  · intro a ha
    obtain ⟨s, hs', ha⟩ := h3 a ha
    exact he.mem (toDictNames_keys hf hs') ha
  · intro x y hxy
    rw [h4, ← sum_toDictNames hs hf x]
    apply Dict.sum_congr
    intro k hk
    exact (hxy.nameVal hs (toDictNames_keys hf hk)).symm

/-- The code's treatment of the products in the expression is right. -/
def PairsOK (src : QP) (conv : Conv) (q : QuadExpr) : Prop :=
  ∀ k ∈ Assoc.keys (q.toDictNames src.vars), PairOK src conv k.1 k.2

/-- What the conversion of a quadratic expression misses. -/
def quadErr (src : QP) (conv : Conv) (q : QuadExpr) (Y : String → ℚ) : ℚ :=
  Dict.sum (q.toDictNames src.vars) fun k => pairErr src conv Y k.1 k.2

theorem PairsOK.err {src : QP} {conv : Conv} {q : QuadExpr} (h : PairsOK src conv q) (Y : String → ℚ) :
    quadErr src conv q Y = 0 := by
  unfold quadErr
  rw [Dict.sum_congr (g := fun _ => 0) (fun k hk => pairErr_ok (h k hk) Y)]
  exact Dict.sum_const_zero _

theorem sum_sub_fun {κ : Type} [DecidableEq κ] (d : Dict κ) (f g : κ → ℚ) : Dict.sum d (fun k => f k - g k) = Dict.sum d f - Dict.sum d g := by
  induction d with
  | nil => simp
  | cons a d ih => rw [Dict.sum_cons, Dict.sum_cons, Dict.sum_cons, ih]; ring

/-- Quadratic expressions keep their value up to the error. -/
theorem i2bQuad_full {src d : QP} {conv : Conv} (hs : src.Consistent) (he : Encodes src d conv)
    {e : QuadExpr} (hf : e.Fits src.numVars) :
    ∃ q l c, i2bQuad src conv (e.toDictNames src.vars) [] [] 0 = .ok (q, l, c) ∧ (Assoc.keys q).Nodup ∧
      (∀ a ∈ Assoc.keys q, a.1 ∈ d.vars.map Variable.name ∧ a.2 ∈ d.vars.map Variable.name) ∧
      (∀ a ∈ Assoc.keys l, a ∈ d.vars.map Variable.name) ∧
      (∀ x y, Decodes src d.varsIndex conv x y →
        Dict.sum q (fun k => nameVal d.varsIndex y k.1 * nameVal d.varsIndex y k.2)
          + Dict.sum l (nameVal d.varsIndex y) + c = e.val x - quadErr src conv e (nameVal d.varsIndex y)) := by
  obtain ⟨q, l, c, h1, h2, h3, h4, h5⟩ := i2bQuad_spec hs (he.outsOK hs) (e.toDictNames src.vars)
    (fun s h => toDictNames_keys2 hf h) (toDictNames_nodup2 hs hf)
  refine ⟨q, l, c, h1, h2, ?_, ?_, ?_⟩
  · intro a ha
    obtain ⟨s, hs', ha⟩ := h3 a ha
    exact ⟨he.mem (toDictNames_keys2 hf hs').1 ha.1, he.mem (toDictNames_keys2 hf hs').2 ha.2⟩
  · intro a ha
    obtain ⟨s, hs', ha⟩ := h4 a ha
    rcases ha with ha | ha
    · exact he.mem (toDictNames_keys2 hf hs').1 ha
    · exact he.mem (toDictNames_keys2 hf hs').2 ha
  · intro x y hxy
    rw [h5, sum_sub_fun, ← sum_toDictNames2 hs hf x]
    unfold quadErr
    congr 1
    apply Dict.sum_congr
    intro k hk
    have := toDictNames_keys2 hf hk
    rw [hxy.nameVal hs this.1, hxy.nameVal hs this.2]

theorem Encodes.congr {src d d' : QP} {conv : Conv} (h : Encodes src d conv) (hc : d'.Consistent)
    (hv : d'.vars = d.vars) : Encodes src d' conv := ⟨hc, by rw [hv, h.vars], h.enc, h.plain⟩

/-- Linear and quadratic part together, as used by the objective and the quadratic constraints. -/
theorem i2bBoth {src d : QP} {conv : Conv} (hs : src.Consistent) (he : Encodes src d conv)
    {e : LinExpr} {q : QuadExpr} (hf : e.Fits src.numVars) (hq : q.Fits src.numVars) :
    ∃ l c q' l' c' le qe, i2bLin src conv (e.toDictNames src.vars) [] 0 = .ok (l, c) ∧
      i2bQuad src conv (q.toDictNames src.vars) [] [] 0 = .ok (q', l', c') ∧
      LinExpr.ofInput d.varsIndex d.numVars (linNames (dokPlus l l')) = .ok le ∧
      QuadExpr.ofInput d.varsIndex d.numVars (quadNames q') = .ok qe ∧
      le.n = d.numVars ∧ qe.n = d.numVars ∧ le.Fits d.numVars ∧ qe.Fits d.numVars ∧
      (∀ x y, Decodes src d.varsIndex conv x y →
        le.val y + qe.val y + (c + c') = e.val x + q.val x - quadErr src conv q (nameVal d.varsIndex y)) := by
  obtain ⟨l, c, a1, a2, a3, a4⟩ := i2bLin_full hs he hf
  obtain ⟨q', l', c', b1, b2, b3, b4, b5⟩ := i2bQuad_full hs he hq
  obtain ⟨le, e1, e2, e3, e4⟩ := linNames_spec he.cons (d := dokPlus l l') (Dict.nodup_dokPlus a2 l') (by
    intro s hs'
    rcases Dict.mem_keys_dokPlus hs' with h | h
    · exact a3 s h
    · exact b4 s h)
  obtain ⟨qe, f1, f2, f3, f4⟩ := quadNames_spec he.cons b2 b3
  refine ⟨l, c, q', l', c', le, qe, a1, b1, e1, f1, e2, f2, e3, f3, ?_⟩
  intro x y hxy
  have := b5 x y hxy
  rw [e4, f4, Dict.sum_dokPlus, ← a4 x y hxy]
  linarith

theorem i2bObjective_ok {src d : QP} {conv : Conv} (hs : src.WF) (he : Encodes src d conv) :
    ∃ o, i2bObjective src conv d = .ok { d with objective := o } ∧ o.sense = src.objective.sense ∧
      o.linear.n = d.numVars ∧ o.quadratic.n = d.numVars ∧ o.linear.Fits d.numVars ∧
      o.quadratic.Fits d.numVars ∧
      (∀ x y, Decodes src d.varsIndex conv x y →
        o.val y = src.objective.val x - quadErr src conv src.objective.quadratic (nameVal d.varsIndex y)) := by
  obtain ⟨l, c, q', l', c', le, qe, h1, h2, h3, h4, h5, h6, h7, h8, h9⟩ :=
    i2bBoth hs.cons he hs.objLin hs.objQuad
  refine ⟨⟨src.objective.constant + c + c', le, qe, src.objective.sense⟩, ?_, rfl, h5, h6, h7, h8, ?_⟩
  · simp only [i2bObjective, h1, h2, setObjective_success h3 h4]
  · intro x y hxy
    have := h9 x y hxy
    simp only [Objective.val]
    linarith

/-- The converted constraint has the same sense, a fitting expression, and the same slack as the source. -/
structure LinMatch (src : QP) (vi : Assoc String Nat) (n : Nat) (conv : Conv) (k k' : LinCst) : Prop where
  name : k.name ≠ "" → k'.name = k.name
  sense : k'.sense = k.sense
  shape : k'.linear.n = n
  fits : k'.linear.Fits n
  val : ∀ x y, Decodes src vi conv x y → k'.linear.val y - k'.rhs = k.linear.val x - k.rhs

theorem i2bLins_ok {src : QP} {conv : Conv} (hs : src.WF) (ks : List LinCst)
    (hk : ∀ k ∈ ks, k.linear.Fits src.numVars) {d d' : QP} (hd : d.WF) (he : Encodes src d conv)
    (h : i2bLins src conv ks d = .ok d') :
    d'.vars = d.vars ∧ d'.varsIndex = d.varsIndex ∧ d'.objective = d.objective ∧ d'.quads = d.quads ∧
      d'.quadsIndex = d.quadsIndex ∧ d'.name = d.name ∧ d'.status = d.status ∧ d'.WF ∧
      ∃ new, d'.lins = d.lins ++ new ∧ List.Forall₂ (LinMatch src d.varsIndex d.numVars conv) ks new := by
  induction ks generalizing d with
  | nil => simp [i2bLins] at h; subst h; simp [hd]
  | cons k ks ih =>
    obtain ⟨l, c, a1, a2, a3, a4⟩ := i2bLin_full hs.cons he (hk k List.mem_cons_self)
    obtain ⟨le, e1, e2, e3, e4⟩ := linNames_spec he.cons a2 a3
    simp only [i2bLins, a1] at h
    split at h
    · simp at h
    · rename_i k' d1 hadd
      have hwf := linearConstraint_wf hadd hd trivial
      obtain ⟨nm', le', s', g1, g2, g3, rfl, rfl⟩ := linearConstraint_ok hadd
      rw [e1] at g3
      simp only [Except.ok.injEq] at g3
      subst g3
      simp only [Sense.convert, Except.ok.injEq] at g2
      subst g2
      obtain ⟨i1, i2, i3, i4, i5, i6, i7, i8, new, i9, i10⟩ :=
        ih (fun k hk' => hk k (List.mem_cons_of_mem _ hk')) hwf (he.congr hwf.cons rfl) h
      refine ⟨i1, i2, i3, i4, i5, i6, i7, i8, ⟨nm', le, k.sense, k.rhs - c⟩ :: new, by rw [i9]; simp, List.Forall₂.cons ?_ i10⟩
      refine ⟨?_, rfl, e2, e3, ?_⟩
      · intro hne
        by_cases hm : Assoc.has d.linsIndex k.name = true
        · simp [chooseName, hm, hne] at g1
        · simp [chooseName, hm, hne] at g1; exact g1.symm
      · intro x y hxy
        simp only
        rw [e4, ← a4 x y hxy]; ring

/-- As `LinMatch`, for quadratic constraints. -/
structure QuadMatch (src : QP) (vi : Assoc String Nat) (n : Nat) (conv : Conv) (k k' : QuadCst) : Prop where
  name : k.name ≠ "" → k'.name = k.name
  sense : k'.sense = k.sense
  shape : k'.linear.n = n ∧ k'.quadratic.n = n
  fits : k'.linear.Fits n ∧ k'.quadratic.Fits n
  val : ∀ x y, Decodes src vi conv x y →
    k'.linear.val y + k'.quadratic.val y - k'.rhs =
      k.linear.val x + k.quadratic.val x - k.rhs - quadErr src conv k.quadratic (nameVal vi y)

theorem i2bQuads_ok {src : QP} {conv : Conv} (hs : src.WF) (ks : List QuadCst)
    (hk : ∀ k ∈ ks, k.linear.Fits src.numVars ∧ k.quadratic.Fits src.numVars) {d d' : QP} (hd : d.WF)
    (he : Encodes src d conv) (h : i2bQuads src conv ks d = .ok d') :
    d'.vars = d.vars ∧ d'.varsIndex = d.varsIndex ∧ d'.objective = d.objective ∧ d'.lins = d.lins ∧
      d'.linsIndex = d.linsIndex ∧ d'.name = d.name ∧ d'.status = d.status ∧ d'.WF ∧
      ∃ new, d'.quads = d.quads ++ new ∧ List.Forall₂ (QuadMatch src d.varsIndex d.numVars conv) ks new := by
  induction ks generalizing d with
  | nil => simp [i2bQuads] at h; subst h; simp [hd]
  | cons k ks ih =>
    obtain ⟨l, c, q', l', c', le, qe, h1, h2, h3, h4, h5, h6, h7, h8, h9⟩ :=
      i2bBoth hs.cons he (hk k List.mem_cons_self).1 (hk k List.mem_cons_self).2
    simp only [i2bQuads, h1, h2] at h
    split at h
    · simp at h
    · rename_i k' d1 hadd
      have hwf := quadraticConstraint_wf hadd hd trivial trivial
      obtain ⟨nm', le', qe', s', g1, g2, g3, g4, rfl, rfl⟩ := quadraticConstraint_ok hadd
      rw [h3] at g3
      rw [h4] at g4
      simp only [Except.ok.injEq] at g3 g4
      subst g3 g4
      simp only [Sense.convert, Except.ok.injEq] at g2
      subst g2
      obtain ⟨i1, i2, i3, i4, i5, i6, i7, i8, new, i9, i10⟩ :=
        ih (fun k hk' => hk k (List.mem_cons_of_mem _ hk')) hwf (he.congr hwf.cons rfl) h
      refine ⟨i1, i2, i3, i4, i5, i6, i7, i8, ⟨nm', le, qe, k.sense, k.rhs - (c + c')⟩ :: new, by rw [i9]; simp, List.Forall₂.cons ?_ i10⟩
      refine ⟨?_, rfl, ⟨h5, h6⟩, ⟨h7, h8⟩, ?_⟩
      · intro hne
        by_cases hm : Assoc.has d.quadsIndex k.name = true
        · simp [chooseName, hm, hne] at g1
        · simp [chooseName, hm, hne] at g1; exact g1.symm
      · intro x y hxy
        have := h9 x y hxy
        simp only
        linarith

end Verif
