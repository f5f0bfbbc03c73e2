import Verif.Opposite
import Verif.Admm
import Verif.Grover
import Verif.Multistart
import Verif.ExprLemmas
import Verif.ResultLemmas

/-!
# Opposite programs: ADMM, Grover and local optimizers

Lemmas for C108.
-/

namespace Verif

/-- No zero is stored in the objective and its products are stored in the upper triangle under distinct keys, as is the
case for every objective given by dictionaries or lists. -/
structure Objective.Clean (o : Objective) : Prop where
  linNodup : (Assoc.keys o.linear.coeffs).Nodup
  linNe : ∀ q ∈ o.linear.coeffs, q.2 ≠ 0
  quadNodup : (Assoc.keys o.quadratic.coeffs).Nodup
  quadNe : ∀ q ∈ o.quadratic.coeffs, q.2 ≠ 0
  upper : ∀ q ∈ o.quadratic.coeffs, q.1.1 ≤ q.1.2

instance (o : Objective) : Decidable o.Clean :=
  decidable_of_iff ((Assoc.keys o.linear.coeffs).Nodup ∧ (∀ q ∈ o.linear.coeffs, q.2 ≠ 0) ∧
      (Assoc.keys o.quadratic.coeffs).Nodup ∧ (∀ q ∈ o.quadratic.coeffs, q.2 ≠ 0) ∧
      ∀ q ∈ o.quadratic.coeffs, q.1.1 ≤ q.1.2)
    ⟨fun h => ⟨h.1, h.2.1, h.2.2.1, h.2.2.2.1, h.2.2.2.2⟩, fun h => ⟨h.1, h.2, h.3, h.4, h.5⟩⟩

theorem negD_negD {κ : Type} (d : Dict κ) : negD (negD d) = d := by
  unfold negD
  simp [Function.comp_def]

theorem opposite_opposite (o : Objective) : o.opposite.opposite = o := by
  obtain ⟨c, ⟨n, l⟩, ⟨m, q⟩, s⟩ := o
  simp only [Objective.opposite, negD_negD, neg_neg]
  cases s <;> rfl

theorem qp_opposite_opposite (p : QP) : p.opposite.opposite = p := by
  unfold QP.opposite
  simp only [opposite_opposite]

theorem triangle_clean {d : Dict (Nat × Nat)} (h1 : ∀ q ∈ d, q.2 ≠ 0) (h2 : ∀ q ∈ d, q.1.1 ≤ q.1.2) : triangle d = d := by
  unfold triangle
  have : (d.filter fun p => decide (p.1.2 < p.1.1)) = [] := by
    rw [List.filter_eq_nil_iff]
    intro q hq
    have := h2 q hq
    simp; omega
  simp only [this]
  show List.filter _ d = d
  rw [List.filter_eq_self]
  intro q hq
  simpa using h1 q hq

/-- Overwriting every entry of a dictionary with its negative. -/
theorem foldl_dokSet_neg {κ : Type} [DecidableEq κ] (d : Dict κ) (hn : (Assoc.keys d).Nodup) (h : ∀ q ∈ d, q.2 ≠ 0) :
    d.foldl (fun e p => Dict.dokSet e p.1 (-p.2)) d = negD d := by
  suffices h' : ∀ (l pre : Dict κ), (Assoc.keys (pre ++ l)).Nodup → (∀ q ∈ l, q.2 ≠ 0) →
      l.foldl (fun e p => Dict.dokSet e p.1 (-p.2)) (pre ++ l) = pre ++ negD l from h' d [] hn h
  have hset : ∀ (pre l : Dict κ) (k : κ) (v w : ℚ), k ∉ Assoc.keys pre →
      Assoc.set (pre ++ (k, v) :: l) k w = pre ++ (k, w) :: l := by
    intro pre l k v w hk
    induction pre with
    | nil => simp [Assoc.set]
    | cons a pre ih =>
      simp only [Assoc.keys, List.map_cons, List.mem_cons, not_or] at hk
      simp only [List.cons_append, Assoc.set]
      rw [if_neg (fun h => hk.1 h.symm), ih hk.2]
  intro l
  induction l with
  | nil => intro pre _ _; rfl
  | cons q l ih =>
    intro pre hp hq
    have hk : q.1 ∉ Assoc.keys pre := by
      intro hm
      simp only [Assoc.keys, List.map_append, List.map_cons] at hp
      exact (List.nodup_append.mp hp).2.2 _ hm _ List.mem_cons_self rfl
    rw [List.foldl_cons]
    have h0 : Dict.dokSet (pre ++ q :: l) q.1 (-q.2) = pre ++ (q.1, -q.2) :: l := by
      unfold Dict.dokSet
      rw [if_neg (neg_ne_zero.mpr (hq q List.mem_cons_self))]
      exact hset _ _ _ _ _ hk
    rw [h0]
    have h1 := ih (pre ++ [(q.1, -q.2)]) (by
      simpa [Assoc.keys] using hp) (fun r hr => hq r (List.mem_cons_of_mem _ hr))
    rw [List.append_assoc, List.append_assoc] at h1
    exact h1

theorem groverObjective_max {o : Objective} (h : o.Clean) (hs : o.sense = .maximize) : groverObjective o = o.opposite := by
  unfold groverObjective
  rw [hs]
  simp only [negLinear, negQuadratic, QuadExpr.toDict, Bool.false_eq_true, if_false, Objective.opposite, hs,
    ObjSense.flip]
  rw [foldl_dokSet_neg _ h.linNodup h.linNe]
  have hfold : ∀ (l d : Dict (Nat × Nat)), (∀ q ∈ l, q.1.1 ≤ q.1.2) →
      l.foldl (fun d p => Dict.dokSet d (min p.1.1 p.1.2, max p.1.1 p.1.2) (-p.2)) d =
        l.foldl (fun d p => Dict.dokSet d p.1 (-p.2)) d := by
    intro l
    induction l with
    | nil => intro d _; rfl
    | cons q l ih =>
      intro d h
      have h1 : q.1.1 ≤ q.1.2 := h q List.mem_cons_self
      rw [List.foldl_cons, List.foldl_cons, min_eq_left h1, max_eq_right h1]
      exact ih _ fun k hk => h k (List.mem_cons_of_mem _ hk)
  rw [hfold _ _ h.upper, foldl_dokSet_neg _ h.quadNodup h.quadNe]

theorem clean_opposite {o : Objective} (h : o.Clean) : o.opposite.Clean := by
  have hk : ∀ {κ : Type} (d : Dict κ), Assoc.keys (negD d) = Assoc.keys d := by
    intro κ d
    simp [Assoc.keys, negD, Function.comp_def]
  have hm : ∀ {κ : Type} (d : Dict κ) (q : κ × ℚ), q ∈ negD d → ∃ r ∈ d, r.1 = q.1 ∧ q.2 = -r.2 := by
    intro κ d q hq
    simp only [negD, List.mem_map] at hq
    obtain ⟨r, hr, rfl⟩ := hq
    exact ⟨r, hr, rfl, rfl⟩
  refine ⟨?_, ?_, ?_, ?_, ?_⟩
  · simp only [Objective.opposite, hk]; exact h.1
  · intro q hq
    obtain ⟨r, hr, _, h2⟩ := hm _ _ hq
    rw [h2]; exact neg_ne_zero.mpr (h.2 r hr)
  · simp only [Objective.opposite, hk]; exact h.3
  · intro q hq
    obtain ⟨r, hr, _, h2⟩ := hm _ _ hq
    rw [h2]; exact neg_ne_zero.mpr (h.4 r hr)
  · intro q hq
    obtain ⟨r, hr, h1, _⟩ := hm _ _ hq
    rw [← h1]; exact h.5 r hr

theorem groverObjective_opposite {o : Objective} (h : o.Clean) : groverObjective o.opposite = groverObjective o := by
  cases hs : o.sense with
  | maximize =>
    rw [groverObjective_max h hs]
    unfold groverObjective
    rw [show o.opposite.sense = .minimize by simp [Objective.opposite, hs, ObjSense.flip]]
  | minimize =>
    rw [groverObjective_max (clean_opposite h) (by simp [Objective.opposite, hs, ObjSense.flip]), opposite_opposite]
    unfold groverObjective
    rw [hs]

theorem turnToMinimization_opposite {p : QP} (h : p.objective.Clean) :
    turnToMinimization p.opposite = turnToMinimization p := by
  have hneg : ∀ {κ : Type} (d : Dict κ), (d.map fun q => (q.1, (-1) * q.2)) = negD d := by
    intro κ d; simp [negD]
  have hmax : ∀ {p : QP}, p.objective.Clean → p.objective.sense = .maximize → turnToMinimization p = .ok p.opposite := by
    intro p h hs
    unfold turnToMinimization
    rw [hs]
    simp only [LinExpr.ofInput, QuadExpr.ofInput, LinExpr.negated, QuadExpr.negated, hneg]
    rw [triangle_negD, triangle_clean h.4 h.5]
    simp [QP.opposite, Objective.opposite, hs, ObjSense.flip]
  have hmin : ∀ {p : QP}, p.objective.sense = .minimize → turnToMinimization p = .ok p := by
    intro p hs
    unfold turnToMinimization
    rw [hs]
  cases hs : p.objective.sense with
  | maximize =>
    rw [hmax h hs, hmin (by simp [objective_opposite, hs, ObjSense.flip])]
  | minimize =>
    rw [hmin hs, hmax (clean_opposite h) (by simp [objective_opposite, hs, ObjSense.flip]), qp_opposite_opposite]

theorem mem_set_ne {κ : Type} [DecidableEq κ] {d : Dict κ} {k : κ} {v : ℚ} (hv : v ≠ 0) (hd : ∀ q ∈ d, q.2 ≠ 0) :
    ∀ q ∈ Assoc.set d k v, q.2 ≠ 0 := by
  induction d with
  | nil => simp [Assoc.set, hv]
  | cons a d ih =>
    simp only [Assoc.set]
    split
    · intro q hq
      rcases List.mem_cons.mp hq with rfl | hq
      · exact hv
      · exact hd q (List.mem_cons_of_mem _ hq)
    · intro q hq
      rcases List.mem_cons.mp hq with rfl | hq
      · exact hd _ List.mem_cons_self
      · exact ih (fun r hr => hd r (List.mem_cons_of_mem _ hr)) q hq

theorem mem_erase_ne {κ : Type} [DecidableEq κ] {d : Dict κ} {k : κ} (hd : ∀ q ∈ d, q.2 ≠ 0) :
    ∀ q ∈ Assoc.erase d k, q.2 ≠ 0 := by
  induction d with
  | nil => simp [Assoc.erase]
  | cons a d ih =>
    simp only [Assoc.erase]
    split
    · exact fun q hq => hd q (List.mem_cons_of_mem _ hq)
    · intro q hq
      rcases List.mem_cons.mp hq with rfl | hq
      · exact hd _ List.mem_cons_self
      · exact ih (fun r hr => hd r (List.mem_cons_of_mem _ hr)) q hq

theorem mem_dokSet_ne {κ : Type} [DecidableEq κ] {d : Dict κ} {k : κ} {v : ℚ} (hd : ∀ q ∈ d, q.2 ≠ 0) :
    ∀ q ∈ Dict.dokSet d k v, q.2 ≠ 0 := by
  unfold Dict.dokSet
  split
  · exact mem_erase_ne hd
  · rename_i h
    exact mem_set_ne h hd

theorem linOfEntries_ne {vi : Assoc String Nat} {n : Nat} {l : List (Key × ℚ)} {acc d : Dict Nat}
    (h : linOfEntries vi n l acc = .ok d) (ha : ∀ q ∈ acc, q.2 ≠ 0) : ∀ q ∈ d, q.2 ≠ 0 := by
  induction l generalizing acc with
  | nil => simp only [linOfEntries, Except.ok.injEq] at h; subst h; exact ha
  | cons p l ih =>
    obtain ⟨k, v⟩ := p
    simp only [linOfEntries] at h
    split at h
    · simp at h
    · exact ih h (mem_dokSet_ne ha)

theorem setObjective_clean {p q : QP} {s : ObjSense} {c : ℚ} {l : List (Key × ℚ)} {m : List ((Key × Key) × ℚ)}
    (h : p.setObjective s c (.dict l) (.dict m) = (.ok (), q)) : q.objective.Clean := by
  unfold QP.setObjective at h
  simp only [LinExpr.ofInput, QuadExpr.ofInput] at h
  cases hl : linOfEntries p.varsIndex p.numVars l [] with
  | error e => simp [hl] at h
  | ok dl =>
    cases hm : quadOfEntries p.varsIndex p.numVars m [] with
    | error e => simp [hl, hm] at h
    | ok dm =>
      simp only [hl, hm, Prod.mk.injEq, true_and] at h
      subst h
      have h1 := linOfEntries_wf hl (by simp [Assoc.keys]) (by simp [Assoc.keys])
      have h2 := quadOfEntries_wf hm (by simp [Assoc.keys]) (by simp [Assoc.keys])
      refine ⟨h1.1, linOfEntries_ne hl (by simp), nodup_triangle h2.1, ?_, ?_⟩
      · intro q hq
        have := (List.mem_filter.mp hq).2
        simpa using this
      · intro q hq
        exact triangle_upper h2.1 (List.mem_map_of_mem hq)

theorem linearConstraint_objective {p p' : QP} {l : LinInput} {s : SenseInput} {r : ℚ} {n : Option String}
    {c : Except Err LinCst} (h : p.linearConstraint l s r n = (c, p')) : p'.objective = p.objective := by
  have : (p.linearConstraint l s r n).2.objective = p.objective := by
    unfold QP.linearConstraint
    cases chooseName p.linsIndex p.lins.length "c" n with
    | error e => rfl
    | ok nm =>
      cases Sense.convert s with
      | error e => rfl
      | ok s =>
        simp only [QP.numVars]
        cases LinExpr.ofInput p.varsIndex p.vars.length l <;> rfl
  rw [h] at this
  exact this

theorem quadraticConstraint_objective {p p' : QP} {l : LinInput} {q : QuadInput} {s : SenseInput} {r : ℚ}
    {n : Option String} {c : Except Err QuadCst} (h : p.quadraticConstraint l q s r n = (c, p')) :
    p'.objective = p.objective := by
  have : (p.quadraticConstraint l q s r n).2.objective = p.objective := by
    unfold QP.quadraticConstraint
    cases chooseName p.quadsIndex p.quads.length "q" n with
    | error e => rfl
    | ok nm =>
      cases Sense.convert s with
      | error e => rfl
      | ok s =>
        simp only [QP.numVars]
        cases LinExpr.ofInput p.varsIndex p.vars.length l with
        | error e => rfl
        | ok l => cases QuadExpr.ofInput p.varsIndex p.vars.length q <;> rfl
  rw [h] at this
  exact this

theorem i2bLins_objective {src : QP} {conv : Conv} {ks : List LinCst} {d d' : QP} (h : i2bLins src conv ks d = .ok d') :
    d'.objective = d.objective := by
  induction ks generalizing d with
  | nil => simp only [i2bLins, Except.ok.injEq] at h; subst h; rfl
  | cons k ks ih =>
    simp only [i2bLins] at h
    cases h1 : i2bLin src conv (k.linear.toDictNames src.vars) [] 0 with
    | error e => simp [h1] at h
    | ok r =>
      simp only [h1] at h
      generalize h2 : d.linearConstraint (linNames r.1) (.sense k.sense) (k.rhs - r.2) (some k.name) = a at h
      obtain ⟨a, d2⟩ := a
      cases a with
      | error e => simp at h
      | ok c => exact (ih h).trans (linearConstraint_objective h2)

theorem i2bQuads_objective {src : QP} {conv : Conv} {ks : List QuadCst} {d d' : QP}
    (h : i2bQuads src conv ks d = .ok d') : d'.objective = d.objective := by
  induction ks generalizing d with
  | nil => simp only [i2bQuads, Except.ok.injEq] at h; subst h; rfl
  | cons k ks ih =>
    simp only [i2bQuads] at h
    cases h1 : i2bLin src conv (k.linear.toDictNames src.vars) [] 0 with
    | error e => simp [h1] at h
    | ok r =>
      cases h2 : i2bQuad src conv (k.quadratic.toDictNames src.vars) [] [] 0 with
      | error e => simp [h1, h2] at h
      | ok t =>
        simp only [h1, h2] at h
        generalize h3 : d.quadraticConstraint (linNames (dokPlus r.1 t.2.1)) (quadNames t.1) (.sense k.sense)
          (k.rhs - (r.2 + t.2.2)) (some k.name) = a at h
        obtain ⟨a, d2⟩ := a
        cases a with
        | error e => simp at h
        | ok c => exact (ih h).trans (quadraticConstraint_objective h3)

theorem intToBin_clean {src : QP} (hs : src.objective.Clean) {c : I2B} (h : src.intToBin = .ok c) :
    c.dst.objective.Clean := by
  unfold QP.intToBin at h
  split at h
  · cases h1 : i2bVars src.vars [] (QP.empty src.name) with
    | error e => simp [h1] at h
    | ok r =>
      simp only [h1] at h
      cases h2 : i2bObjective src r.1 r.2 with
      | error e => simp [h2] at h
      | ok d =>
        simp only [h2] at h
        cases h3 : i2bLins src r.1 src.lins d with
        | error e => simp [h3] at h
        | ok d2 =>
          simp only [h3] at h
          cases h4 : i2bQuads src r.1 src.quads d2 with
          | error e => simp [h4] at h
          | ok d3 =>
            simp only [h4, Except.ok.injEq] at h
            subst h
            show d3.objective.Clean
            rw [i2bQuads_objective h4, i2bLins_objective h3]
            unfold i2bObjective at h2
            cases h5 : i2bLin src r.1 (src.objective.linear.toDictNames src.vars) [] 0 with
            | error e => simp [h5] at h2
            | ok a =>
              cases h6 : i2bQuad src r.1 (src.objective.quadratic.toDictNames src.vars) [] [] 0 with
              | error e => simp [h5, h6] at h2
              | ok b =>
                simp only [h5, h6] at h2
                generalize h7 : r.2.setObjective src.objective.sense (src.objective.constant + a.2 + b.2.2)
                  (linNames (dokPlus a.1 b.2.1)) (quadNames b.1) = e at h2
                obtain ⟨e, d4⟩ := e
                cases e with
                | error e => simp at h2
                | ok u =>
                  simp only [Except.ok.injEq] at h2
                  subst h2
                  exact setObjective_clean h7
  · simp only [Except.ok.injEq] at h
    subst h
    exact hs

theorem toQubo_clean {penalty : Option ℚ} {src : QP} {st : QuboState} (h : src.toQubo penalty = .ok st) :
    st.dst.objective.Clean := by
  unfold QP.toQubo at h
  split at h
  · simp at h
  · cases h1 : src.ineqToEq .integer with
    | error e => simp [h1] at h
    | ok eqs =>
      simp only [h1] at h
      cases h2 : eqs.intToBin with
      | error e => simp [h2] at h
      | ok i2b =>
        simp only [h2] at h
        cases h3 : i2b.dst.toPenalty penalty with
        | error e => simp [h3] at h
        | ok r =>
          simp only [h3, Except.ok.injEq] at h
          subst h
          unfold QP.toPenalty at h3
          simp only at h3
          generalize penalty.getD (autoPenalty i2b.dst) = pen at h3
          cases h4 : copyAllVars i2b.dst.vars (QP.empty i2b.dst.name) with
          | error e => simp [h4] at h3
          | ok d =>
            simp only [h4] at h3
            split at h3
            · simp at h3
            · rename_i t ht
              generalize h5 : d.setObjective i2b.dst.objective.sense t.offset (linIdx t.linear) (quadIdx t.quadratic) = e
                at h3
              obtain ⟨e, d4⟩ := e
              cases e with
              | error e => simp at h3
              | ok u =>
                simp only [Except.ok.injEq] at h3
                subst h3
                exact setObjective_clean h5

/-! ## ADMM -/

theorem admmCompatible_opposite (p : QP) : admmCompatible p.opposite = admmCompatible p := by
  unfold admmCompatible
  simp only [objective_opposite, get_negD, neg_eq_zero]
  rfl

theorem admmSolve_opposite (qubo cont : Solver) (norm : List ℚ → ℚ) (clock : Nat → Bool) (prm : AdmmParams) {p : QP}
    (hp : p.objective.Clean) :
    admmSolve qubo cont norm clock prm p.opposite =
      (admmSolve qubo cont norm clock prm p).map fun r => { r with result := r.result.opposite } := by
  unfold admmSolve
  rw [admmCompatible_opposite, intToBin_opposite]
  cases admmCompatible p with
  | error e => rfl
  | ok b =>
    cases b with
    | false => rfl
    | true =>
      simp only
      cases hc : p.intToBin with
      | error e => rfl
      | ok conv =>
        simp only [Except.map]
        rw [turnToMinimization_opposite (intToBin_clean hp hc)]
        cases turnToMinimization conv.dst with
        | error e => rfl
        | ok q =>
          simp only
          generalize (if prm.warmStart = true then admmWarmStart cont q (admmInit prm q)
            else Except.ok (admmInit prm q)) = w
          cases w with
          | error e => rfl
          | ok s =>
            simp only
            cases admmRep q with
            | error e => rfl
            | ok r =>
              simp only
              cases admmLoop qubo cont norm clock prm r prm.maxiter 0 100 s with
              | error e => rfl
              | ok s =>
                simp only
                cases bestMerit s with
                | error e => rfl
                | ok b =>
                  simp only
                  cases revertIndexes r.binIdx r.contIdx b.1 b.2.1 with
                  | error e => rfl
                  | ok x =>
                    simp only
                    have h := interpretResult_opposite p [conv.interpret] [] [] x
                    simp only [List.map_nil] at h
                    rw [show (I2B.mk conv.src.opposite conv.dst.opposite conv.conv).interpret = conv.interpret from rfl, h]
                    cases interpretResult p [conv.interpret] [] [] x <;> rfl

/-! ## Local optimizers -/

theorem solverObjective_opposite (p : QP) : solverObjective p.opposite = solverObjective p := by
  funext x
  unfold solverObjective
  rw [show p.opposite.objective = p.objective.opposite from rfl, evaluate_opposite]
  cases p.objective.evaluate x with
  | error e => rfl
  | ok v => simp [Except.map, Objective.opposite, flip_value]

theorem linGradient_opposite (o : Objective) (x : List ℚ) :
    o.opposite.linear.gradient x = (o.linear.gradient x).map (List.map (-·)) := by
  simp [LinExpr.gradient, LinExpr.toArray, Objective.opposite, Except.map, get_negD, Function.comp_def]

theorem quadGradient_opposite (o : Objective) (x : List ℚ) :
    o.opposite.quadratic.gradient x = (o.quadratic.gradient x).map (List.map (-·)) := by
  unfold QuadExpr.gradient Objective.opposite
  simp only
  split
  · rfl
  · simp only [Except.map, List.map_map, Function.comp_def, transpose_negD, dokPlus_negD]
    congr 1
    apply List.map_congr_left
    intro r _
    rw [filter_negD _ fun k : Nat × Nat => decide (k.1 = r), sum_negD]

theorem solverGradient_opposite (p : QP) : solverGradient p.opposite = solverGradient p := by
  funext x
  unfold solverGradient Objective.gradient
  rw [show p.opposite.objective = p.objective.opposite from rfl, linGradient_opposite, quadGradient_opposite]
  cases p.objective.linear.gradient x with
  | error e => rfl
  | ok l =>
    cases p.objective.quadratic.gradient x with
    | error e => rfl
    | ok q =>
      simp only [Except.map, List.length_map]
      by_cases h : l.length ≠ q.length
      · rw [if_pos h, if_pos h]
      · rw [if_neg h, if_neg h]
        simp only [Objective.opposite, flip_value]
        rw [List.zipWith_map, List.map_zipWith, List.map_zipWith]
        congr 2
        funext a b
        ring

theorem multiStart_opposite (clip : ℚ) (u : Nat → Nat → ℚ) (minimize : Nat → List ℚ → Except Err (List ℚ)) (p : QP) :
    multiStartSolve 1 clip u minimize p.opposite = (multiStartSolve 1 clip u minimize p).map Result.opposite := by
  unfold multiStartSolve
  simp only [trialLoop, show initialGuess clip u p.opposite 0 = initialGuess clip u p 0 from rfl]
  cases initialGuess clip u p 0 with
  | error e => rfl
  | ok x0 =>
    simp only
    cases minimize 0 x0 with
    | error e => rfl
    | ok x =>
      simp only
      rw [show p.opposite.objective = p.objective.opposite from rfl, evaluate_opposite]
      cases p.objective.evaluate x with
      | error e => rfl
      | ok v =>
        simp only [Except.map, Objective.opposite, flip_value, neg_mul_neg]
        split
        · rename_i e h
          split at h
          · simp at h
          · simp at h
        · rename_i f h
          split at h
          · simp at h
          · rename_i hlt
            rw [if_neg hlt]
        · rename_i f y h
          split at h
          · rename_i hlt
            simp only [Except.ok.injEq, Prod.mk.injEq, Option.some.injEq] at h
            obtain ⟨rfl, rfl⟩ := h
            rw [if_pos hlt, feasibilityStatus_opposite]
            simp only
            cases feasibilityStatus p x with
            | error e => rfl
            | ok st =>
              simp only [Result.mk?, show p.opposite.vars = p.vars from rfl]
              split
              · rfl
              · simp [Result.opposite]
          · simp at h

/-! ## Grover -/

theorem decodeProbs_opposite (p : QP) (m : ℚ) (n : Nat) (l : List ℚ) (i : Nat) :
    decodeProbs p.opposite m n l i = (decodeProbs p m n l i).map (List.map Sample.opposite) := by
  induction l generalizing i with
  | nil => rfl
  | cons a l ih =>
    simp only [decodeProbs]
    split
    · rw [generateSolution_opposite, ih]
      cases generateSolution (vectorKey n i) p a with
      | error e => rfl
      | ok s => cases decodeProbs p m n l (i + 1) <;> rfl
    · exact ih _

theorem groverRaw_opposite (sqrt : ℚ → ℚ) (q : QP) (n : Nat) (c : Circuit) :
    groverRaw sqrt q.opposite n c = (groverRaw sqrt q n c).map (List.map Sample.opposite) := by
  cases c with
  | state v => exact decodeProbs_opposite _ _ _ _ _
  | counts shots d =>
    unfold groverRaw
    exact eigenToSolutions_opposite _ _ _

theorem mergeSamples_all {fs : List Interp} {raw : List Sample} {prob r : Assoc (List ℚ) ℚ}
    (h : mergeSamples fs raw prob = .ok r) : ∀ s ∈ raw, ∃ x, interpretAll fs s.x = .ok x := by
  induction raw generalizing prob with
  | nil => simp
  | cons s l ih =>
    simp only [mergeSamples] at h
    cases h1 : interpretAll fs s.x with
    | error e => simp [h1] at h
    | ok x =>
      simp only [h1] at h
      intro t ht
      rcases List.mem_cons.mp ht with rfl | ht
      · exact ⟨x, h1⟩
      · exact ih h t ht

/-- Whether samples can be interpreted does not depend on their order, their values or the sign of the objective. -/
theorem interpretSamples_any {p : QP} (hs : p.ShapeOK) {raw raw' l : List Sample} {fs : List Interp}
    (h : interpretSamples p raw fs = .ok l) (hx : ∀ s' ∈ raw', ∃ s ∈ raw, s.x = s'.x) :
    ∃ l', interpretSamples p raw' fs = .ok l' := by
  unfold interpretSamples at h ⊢
  cases h1 : mergeSamples fs raw [] with
  | error e => simp [h1] at h
  | ok prob =>
    simp only [h1] at h
    cases h2 : evalSamples p prob with
    | error e => simp [h2] at h
    | ok l0 =>
      obtain ⟨a1, a2⟩ := evalSamples_inv h2
      obtain ⟨pts, b1, b2, b3, b4⟩ := mergeSamples_inv h1 (by simp [Assoc.keys])
      have hlen : ∀ x ∈ Assoc.keys prob, x.length = p.numVars := by
        intro x hx
        rw [← a1] at hx
        simp only [Assoc.keys, List.map_map, List.mem_map, Function.comp] at hx
        obtain ⟨s, hs1, rfl⟩ := hx
        exact (a2 s hs1).1
      obtain ⟨prob', h3⟩ := mergeSamples_ok (convs := fs) (raw := raw') [] (by
        intro s' hs'
        obtain ⟨s, hs1, he⟩ := hx s' hs'
        rw [← he]
        exact mergeSamples_all h1 s hs1)
      obtain ⟨pts', c1, c2, c3, c4⟩ := mergeSamples_inv h3 (by simp [Assoc.keys])
      obtain ⟨l', h4⟩ := evalSamples_ok hs (prob := prob') (by
        intro x hx'
        rcases (c3 x).mp hx' with hx' | hx'
        · simp [Assoc.keys] at hx'
        · obtain ⟨s', hs', he⟩ := Forall₂.mem_right c1 hx'
          obtain ⟨s, hs1, hse⟩ := hx s' hs'
          obtain ⟨y, hy, hey⟩ := Forall₂.mem_left b1 hs1
          rw [hse, he] at hey
          cases hey
          exact hlen x ((b3 x).mpr (Or.inr hy)))
      simp only [h3, h4]
      exact ⟨_, rfl⟩

/-- The states agree in everything but the samples. -/
def GroverState.Same (s t : GroverState) : Prop :=
  t.optKey = s.optKey ∧ t.optValue = s.optValue ∧ t.threshold = s.threshold ∧ t.keysMeasured = s.keysMeasured ∧
    t.rotations = s.rotations ∧ t.iteration = s.iteration ∧ t.loops = s.loops

theorem groverLoop_opposite {measure : Nat → Objective → Outcome} {rot : Nat → Nat} {sqrt : ℚ → ℚ} {obj : Objective}
    {p q : QP} (hs : p.ShapeOK) {fs : List Interp} {nKey nValue nIt maxRot fuel : Nat} {s s' t : GroverState}
    (hst : s.Same s')
    (h : groverLoop measure rot sqrt obj (fun _ => p) q fs nKey nValue nIt maxRot fuel s = some (.ok t)) :
    ∃ t', groverLoop measure rot sqrt obj (fun _ => p.opposite) q.opposite fs nKey nValue nIt maxRot fuel s' =
      some (.ok t') ∧ t.Same t' := by
  induction fuel generalizing s s' with
  | zero => simp [groverLoop] at h
  | succ fuel ih =>
    obtain ⟨e1, e2, e3, e4, e5, e6, e7⟩ := hst
    simp only [groverLoop] at h ⊢
    rw [e2, e3, e4, e5, e6, e7]
    generalize measure s.iteration { obj with constant := obj.constant - s.threshold } = out at h ⊢
    cases h1 : intBase2 (out.bits.take nKey) with
    | error e => simp [h1] at h
    | ok k =>
      simp only [h1] at h ⊢
      cases h2 : binToInt ((out.bits.drop nKey).take nValue) nValue with
      | error e => simp [h2] at h
      | ok z =>
        simp only [h2] at h ⊢
        by_cases h3 : improves (z + s.threshold) s.optValue = true
        · rw [if_pos h3] at h ⊢
          rw [groverRaw_opposite]
          cases h4 : groverRaw sqrt q nKey out.circuit with
          | error e => simp [h4] at h
          | ok raw =>
            simp only [h4, Except.map] at h ⊢
            generalize hr : sortedBy (fun a b => decide (obj.sense.value * a.fval ≤ obj.sense.value * b.fval)) raw = raw1
              at h
            generalize hr' : sortedBy (fun a b => decide (obj.sense.value * a.fval ≤ obj.sense.value * b.fval))
              (raw.map Sample.opposite) = raw2
            cases h5 : interpretSamples p raw1 fs with
            | error e => simp [h5] at h
            | ok l =>
              simp only [h5] at h
              have h6 : ∃ l', interpretSamples p.opposite raw2 fs = .ok l' := by
                have hx : ∀ s' ∈ raw2.map Sample.opposite, ∃ s ∈ raw1, s.x = s'.x := by
                  intro s' hs'
                  obtain ⟨a, ha, rfl⟩ := List.mem_map.mp hs'
                  have ha' : a ∈ raw.map Sample.opposite := by
                    rw [← hr'] at ha
                    exact (List.perm_insertionSort _ _).mem_iff.mp ha
                  obtain ⟨b, hb, rfl⟩ := List.mem_map.mp ha'
                  refine ⟨b, ?_, rfl⟩
                  rw [← hr]
                  exact (List.perm_insertionSort _ _).mem_iff.mpr hb
                obtain ⟨l', hl'⟩ := interpretSamples_any hs h5 hx
                have := interpretSamples_opposite p (raw2.map Sample.opposite) fs
                rw [hl', List.map_map, show Sample.opposite ∘ Sample.opposite = id by
                  funext a; simp [Sample.opposite], List.map_id] at this
                exact ⟨_, this⟩
              obtain ⟨l', hl'⟩ := h6
              simp only [hl']
              refine ih ?_ h
              exact ⟨rfl, rfl, rfl, rfl, rfl, rfl, rfl⟩
        · rw [if_neg h3] at h ⊢
          by_cases h4 : s.loops + 1 ≥ nIt ∨ (if k ∈ s.keysMeasured then s.keysMeasured
              else s.keysMeasured ++ [k]).length = 2 ^ nKey ∨ s.rotations + rot s.iteration ≥ maxRot
          · rw [if_pos h4] at h ⊢
            simp only [Option.some.injEq, Except.ok.injEq] at h
            subst h
            exact ⟨_, rfl, e1, rfl, rfl, rfl, rfl, rfl, rfl⟩
          · rw [if_neg h4] at h ⊢
            refine ih ?_ h
            exact ⟨e1, rfl, rfl, rfl, rfl, rfl, rfl⟩

theorem interpretResult_any {p : QP} {fs : List Interp} {s r s' r' : List Sample} {x : List ℚ} {res : Result}
    (h : interpretResult p fs s r x = .ok res) : ∃ res', interpretResult p.opposite fs s' r' x = .ok res' ∧
      res'.x = res.x ∧ res'.fval = res.fval.map (-·) ∧ res'.status = res.status ∧ res'.varsDict = res.varsDict := by
  unfold interpretResult at h ⊢
  cases h1 : interpretAll fs x with
  | error e => simp [h1] at h
  | ok y =>
    simp only [h1] at h ⊢
    rw [show p.opposite.objective = p.objective.opposite from rfl, evaluate_opposite, feasibilityStatus_opposite]
    cases h2 : p.objective.evaluate y with
    | error e => simp [h2] at h
    | ok v =>
      simp only [h2, Except.map] at h ⊢
      cases h3 : feasibilityStatus p y with
      | error e => simp [h3] at h
      | ok st =>
        simp only [h3, Result.mk?] at h ⊢
        rw [show p.opposite.vars = p.vars from rfl]
        split at h
        · simp at h
        · rename_i hl
          rw [if_neg hl]
          simp only [Except.ok.injEq] at h
          subst h
          exact ⟨_, rfl, rfl, rfl, rfl, rfl⟩

end Verif
