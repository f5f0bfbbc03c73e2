import Verif.Apps
import Verif.DocplexExport
import Verif.ResultLemmas

/-!
# Lemmas for the applications
-/

namespace Verif

/-! ## Loading models of binary variables -/

/-- Binary variables with the given names. -/
def binVars (names : List String) : List DVar := names.map fun s => ⟨some s, 0, 1, .binary⟩

theorem appVars_eq (n : Nat) : appVars n = binVars ((List.range n).map fun i => "x_" ++ toString i) := by
  simp [appVars, binVars, List.map_map, Function.comp_def]

theorem appNames_nodup (n : Nat) : ((List.range n).map fun i => "x_" ++ toString i).Nodup := by
  refine (List.nodup_map_iff_inj_on List.nodup_range).mpr ?_
  intro i _ j _ h
  have h := congrArg String.toList h
  simp only [String.toList_append] at h
  exact repr_injective (String.ext (List.append_cancel_left h))

/-- Coordinates below `n` are zero or one. -/
def Binary (n : Nat) (x : Nat → ℚ) : Prop := ∀ i < n, x i = 0 ∨ x i = 1

/-- The variables are binary and have these names. -/
def binaries (names : List String) : List Variable := names.map fun s => ⟨s, 0, 1, .binary⟩

theorem binary_iff {p : QP} {names : List String} (h : p.vars = binaries names) (x : Nat → ℚ) :
    (p.InBounds x ∧ p.Integral x) ↔ Binary names.length x := by
  have hget : ∀ (i : Nat) v, p.vars[i]? = some v → i < names.length ∧ v.lb = 0 ∧ v.ub = 1 ∧ v.vartype = .binary := by
    intro i v hv
    rw [h] at hv
    simp only [binaries, List.getElem?_map, Option.map_eq_some_iff] at hv
    obtain ⟨s, hs, rfl⟩ := hv
    exact ⟨(List.getElem?_eq_some_iff.mp hs).1, rfl, rfl, rfl⟩
  constructor
  · rintro ⟨h1, h2⟩ i hi
    have hv : p.vars[i]? = some ⟨names[i], 0, 1, .binary⟩ := by
      rw [h]; simp only [binaries, List.getElem?_map, List.getElem?_eq_getElem hi, Option.map_some]
    obtain ⟨b1, b2⟩ := h1 i _ hv
    obtain ⟨z, hz⟩ := h2 i _ hv (by simp)
    simp only at b1 b2
    rw [hz] at b1 b2 ⊢
    have c1 : (0 : ℤ) ≤ z := by exact_mod_cast b1
    have c2 : z ≤ 1 := by exact_mod_cast b2
    have : z = 0 ∨ z = 1 := by omega
    rcases this with rfl | rfl
    · left; norm_num
    · right; norm_num
  · intro hb
    constructor
    · intro i v hv
      obtain ⟨hi, e1, e2, _⟩ := hget i v hv
      rw [e1, e2]
      rcases hb i hi with h | h <;> rw [h] <;> norm_num
    · intro i v hv _
      obtain ⟨hi, _⟩ := hget i v hv
      rcases hb i hi with h | h
      · exact ⟨0, by rw [h]; norm_num⟩
      · exact ⟨1, by rw [h]; norm_num⟩

/-- A program of binary variables made from a docplex model. -/
structure BinProgram (names : List String) (m : DModel) (p : QP) : Prop where
  wf : p.WF
  name : p.name = m.name
  vars : p.vars = binaries names
  sense : p.objective.sense = (if m.minimize then .minimize else .maximize)
  obj : ∀ x, p.objective.val x = m.objective.val x
  feas : ∀ x, p.Feas x ↔ Binary names.length x ∧ ∀ c ∈ m.csts, c.Holds x
  numLins : p.lins.length = (m.csts.filter DCst.isLin).length
  numQuads : p.quads.length = (m.csts.filter DCst.isQuad).length

theorem loadModel_bin {name : String} {names : List String} {min : Bool} {obj : DExpr} {csts : List DCst}
    (hn : names.Nodup) (ho : obj.WF names.length) (hc : ∀ c ∈ csts, c.WF names.length)
    (hs : ∀ c ∈ csts, (c.isLin = true ∨ c.isQuad = true) ∧ c.name = none) :
    ∃ p, loadModel ⟨name, binVars names, min, obj, csts⟩ = .ok p ∧
      BinProgram names ⟨name, binVars names, min, obj, csts⟩ p := by
  have hwf : (⟨name, binVars names, min, obj, csts⟩ : DModel).WF := by
    refine ⟨?_, ?_⟩ <;> simp only [binVars, List.length_map]
    · exact ho
    · exact hc
  have hnames : (binVars names).map DVar.name = names.map some := by simp [binVars, List.map_map, Function.comp_def]
  have nn : ∀ (pre : String) (f : DCst → Bool), CstNamesOK pre ((csts.filter f).map DCst.name) := by
    intro pre f
    have hnone : ∀ nm ∈ (csts.filter f).map DCst.name, nm = none := by
      intro nm h
      obtain ⟨c, hc, rfl⟩ := List.mem_map.mp h
      exact (hs c (List.mem_filter.mp hc).1).2
    refine ⟨⟨?_, Or.inr ?_⟩, ?_⟩
    · have : ((csts.filter f).map DCst.name).filterMap id = [] := by
        rw [List.filterMap_eq_nil_iff]
        intro a ha
        rw [hnone a ha]; rfl
      rw [this]; exact List.nodup_nil
    · intro s h; exact absurd (hnone _ h) (by simp)
    · intro s h; exact absurd (hnone _ h) (by simp)
  have hok : (⟨name, binVars names, min, obj, csts⟩ : DModel).OK := by
    refine ⟨?_, ⟨?_, ?_⟩, fun c hc => (hs c hc).1, nn _ _, nn _ _⟩
    · intro v hv
      obtain ⟨s, _, rfl⟩ := List.mem_map.mp hv
      exact ⟨by simp, Or.inl rfl⟩
    · simp only [hnames, List.filterMap_map]
      simpa using hn
    · refine Or.inl ?_
      simp only [hnames]
      intro s hs
      obtain ⟨s', _, rfl⟩ := List.mem_map.mp hs
      simp
  obtain ⟨p, hp⟩ := fromDocplex_success hwf hok
  have hL := fromDocplex_loaded hwf hp
  have hv : p.vars = binaries names := by
    have h := hL.vars
    simp only at h
    generalize p.vars = vs at h
    clear hL hp hok hwf hnames hn ho hc
    induction names generalizing vs with
    | nil => cases h; rfl
    | cons s l ih =>
      cases h with
      | cons h1 h2 =>
        rename_i w ws
        simp only [binaries, List.map_cons]
        rw [ih ws h2]
        congr 1
        have e1 := h1.type
        obtain ⟨e2, e3⟩ := h1.bin rfl
        have e4 := h1.name s rfl
        have e5 : w.vartype = .binary := by
          cases hw : w.vartype <;> simp [hw, VarType.toDocplex] at e1 ⊢
        cases w
        simp_all
  refine ⟨p, by simp only [loadModel, hp], hL.wf, hL.name, hv, hL.sense, hL.obj, ?_, ?_, ?_⟩
  · intro x
    unfold QP.Feas
    rw [← and_assoc, binary_iff hv, hL.sat]
  · exact hL.lins.length_eq.symm
  · exact hL.quads.length_eq.symm

theorem loadModel_app {name : String} {n : Nat} {min : Bool} {obj : DExpr} {csts : List DCst}
    (ho : obj.WF n) (hc : ∀ c ∈ csts, c.WF n)
    (hs : ∀ c ∈ csts, (c.isLin = true ∨ c.isQuad = true) ∧ c.name = none) :
    ∃ p, loadModel ⟨name, appVars n, min, obj, csts⟩ = .ok p ∧
      BinProgram ((List.range n).map fun i => "x_" ++ toString i) ⟨name, appVars n, min, obj, csts⟩ p := by
  rw [appVars_eq]
  exact loadModel_bin (appNames_nodup n) (by simpa using ho) (by simpa using hc) hs

/-! ## Values of expressions -/

theorem sumVars_wf (n : Nat) : (sumVars n).WF n := by
  refine sum_wf fun a ha => ?_
  obtain ⟨i, hi, rfl⟩ := List.mem_map.mp ha
  exact var_wf (List.mem_range.mp hi)

theorem sumVars_isQuad (n : Nat) : (sumVars n).isQuad = false := by
  refine sum_isQuad fun a ha => ?_
  obtain ⟨i, _, rfl⟩ := List.mem_map.mp ha
  rfl

theorem sumVars_val (n : Nat) (x : Nat → ℚ) : (sumVars n).val x = ((List.range n).map x).sum := by
  rw [sumVars, DExpr.val_sum, List.map_map]
  congr 1
  exact List.map_congr_left fun i _ => DExpr.val_var i x

/-- The number of coordinates equal to one. -/
def ones (n : Nat) (x : Nat → ℚ) : Nat := ((List.range n).filter fun i => decide (x i = 1)).length

theorem sum_ones {l : List Nat} {x : Nat → ℚ} (h : ∀ i ∈ l, x i = 0 ∨ x i = 1) :
    (l.map x).sum = ((l.filter fun i => decide (x i = 1)).length : ℚ) := by
  induction l with
  | nil => simp
  | cons i l ih =>
    rw [List.map_cons, List.sum_cons, ih fun j hj => h j (by simp [hj])]
    rcases h i (by simp) with e | e
    · rw [List.filter_cons_of_neg (by simp [e]), e, zero_add]
    · rw [List.filter_cons_of_pos (by simp [e]), e, List.length_cons]; push_cast; ring

theorem sumVars_ones {n : Nat} {x : Nat → ℚ} (h : Binary n x) : (sumVars n).val x = ones n x := by
  rw [sumVars_val, sum_ones fun i hi => h i (List.mem_range.mp hi)]
  rfl

theorem edgeCst_wf {n w v : Nat} (s : Sense) (hw : w < n) (hv : v < n) : (edgeCst s w v).WF n :=
  ⟨(var_wf hw).add (var_wf hv), const_wf n 1, rfl, rfl⟩

theorem keysOK_iff {g : Graph} : g.keysOK = true ↔ ∀ e ∈ g.edges, e.1 < g.n ∧ e.2.1 < g.n := by
  simp [Graph.keysOK]

/-! ## Interpretation -/

theorem interpretSides_eq (x : List ℚ) : interpretSides x =
    ((List.range x.length).filter fun i => decide (x.getD i 0 = 0),
      (List.range x.length).filter fun i => decide (x.getD i 0 ≠ 0)) := by
  unfold interpretSides
  have key : ∀ (l : List (ℚ × Nat)) (c : List Nat × List Nat),
      l.foldl (fun c q => if q.1 = 0 then (c.1 ++ [q.2], c.2) else (c.1, c.2 ++ [q.2])) c =
      (c.1 ++ (l.filter fun q => decide (q.1 = 0)).map Prod.snd, c.2 ++ (l.filter fun q => decide (q.1 ≠ 0)).map Prod.snd) := by
    intro l
    induction l with
    | nil => simp
    | cons q l ih =>
      intro c
      by_cases h : q.1 = 0 <;> simp [h, ih]
  have h2 : ∀ f : ℚ → Bool, (x.zipIdx.filter fun q => f q.1).map Prod.snd =
      (List.range x.length).filter fun i => f (x.getD i 0) := by
    intro f
    have : x.zipIdx = (List.range x.length).map fun i => (x.getD i 0, i) := by
      apply List.ext_getElem
      · simp
      · intro i h1 h2
        simp at h1
        simp [h1]
    rw [this, List.filter_map, List.map_map]
    simp [Function.comp_def]
  rw [key, h2 fun q => decide (q = 0), h2 fun q => decide (q ≠ 0)]
  simp

theorem interpretSet_eq (x : List ℚ) : interpretSet x = (interpretSides x).2 := by
  unfold interpretSet interpretSides
  have key : ∀ (l : List (ℚ × Nat)) (c : List Nat × List Nat),
      (l.foldl (fun c q => if q.1 = 0 then (c.1 ++ [q.2], c.2) else (c.1, c.2 ++ [q.2])) c).2 =
        l.foldl (fun l q => if q.1 ≠ 0 then l ++ [q.2] else l) c.2 := by
    intro l
    induction l with
    | nil => simp
    | cons q l ih =>
      intro c
      by_cases h : q.1 = 0 <;> simp [h, ih]
  exact (key _ ([], [])).symm

end Verif
