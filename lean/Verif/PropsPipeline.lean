import Verif.PipelineLemmas
import Verif.PropsApps
import Verif.PropsItems
import Verif.PropsTsp
import Verif.PropsVehicle
import Mathlib.Data.List.MinMax

/-!
# C71: applications solved through the QUBO and an exact eigensolver
-/

namespace Verif

/-- The masks of every term have one entry for each qubit. -/
def QubitOp.Shaped (op : QubitOp) : Prop :=
  ∀ t ∈ op.terms, t.1.1.length = op.numQubits ∧ t.1.2.length = op.numQubits

/-- The contract of an exact eigensolver: for a diagonal operator it returns a state supported on basis states of minimal
energy, one of which has at least the probability with which samples are kept. -/
def ExactSolver (solver : QubitOp → Option Eigenstate) : Prop :=
  ∀ op : QubitOp, 0 < op.numQubits → op.Shaped → op.Diagonal → ∃ e, solver op = some e ∧ e.Ground op.numQubits op ∧
    ∃ x pr, e.HasProb op.numQubits x pr ∧ 1 / 10 ^ 6 ≤ pr

/-- `MinimumEigenOptimizer(solver).solve(program)` with the default converter. -/
def Solves (solver : QubitOp → Option Eigenstate) (p : QP) (y : List ℚ) : Prop :=
  ∃ r, minEigenSolve solver [quboConverter none] p = .ok r ∧ r.x = some y ∧ r.status = .success ∧
    r.fval = some (p.objective.val (pt y))

theorem toIsing_diagonal {p : QP} {op : QubitOp} {offset : ℚ} (h : p.toIsing = .ok (op, offset)) :
    op.Shaped ∧ op.Diagonal := by
  obtain ⟨_, _, _, st, terms, h1, h2, h3⟩ := toIsing_ok h
  have hlen : ∀ n, (noMask n).length = n := fun n => by simp [noMask]
  split at h3
  · subst h3
    refine ⟨fun t ht => ?_, fun t ht i => ?_⟩ <;> rw [List.mem_singleton.mp ht]
    · exact ⟨hlen _, hlen _⟩
    · exact noMask_get _ _
  · subst h3
    have hgood := isingQuadratic_good h2 (isingLinear_good h1 (by simp))
    have hg : ∀ t ∈ reduceTerms p.numVars terms,
        (t.1.1.length = p.numVars ∧ t.1.2.length = p.numVars) ∧ t.1.2 = noMask p.numVars := by
      intro t ht
      rcases reduceTerms_keys ht with hk | ⟨hk, _⟩
      · obtain ⟨q, hq, hqt⟩ := List.mem_map.mp hk
        obtain ⟨g1, g2⟩ := hgood q hq
        rw [← hqt, g1]
        refine ⟨⟨?_, hlen _⟩, rfl⟩
        rcases g2 with ⟨i, _, e⟩ | ⟨i, _, j, _, _, e⟩ <;> rw [e] <;> simp [zMask1, zMask2]
      · rw [hk]
        exact ⟨⟨hlen _, hlen _⟩, rfl⟩
    exact ⟨fun t ht => (hg t ht).1, fun t ht i => by rw [(hg t ht).2]; exact noMask_get _ _⟩

/-! ## An exact solver

The contract can be met: try all bit strings. -/

def bitStrings : Nat → List (List Char)
  | 0 => [[]]
  | n + 1 => (bitStrings n).flatMap fun s => ['0' :: s, '1' :: s]

def charPoint (s : List Char) : List ℚ := s.map fun c => if c = '1' then 1 else 0

/-- A solver that tries all bit strings. -/
def exhaustive (op : QubitOp) : Option Eigenstate :=
  ((bitStrings op.numQubits).argmin fun s => op.energy (pt (charPoint s))).map fun s => .counts [(String.ofList s, 1)]

theorem zval_congr : ∀ (z : List Bool) (b b' : Nat → ℚ), (∀ j < z.length, b j = b' j) → zval z b = zval z b'
  | [], _, _, _ => rfl
  | t :: z, b, b', h => by
    unfold zval
    rw [h 0 (by simp), zval_congr z (fun i => b (i + 1)) (fun i => b' (i + 1)) fun j hj => h (j + 1) (by simpa using hj)]

theorem energy_congr {op : QubitOp} (hs : op.Shaped) {b b' : Nat → ℚ} (h : ∀ j < op.numQubits, b j = b' j) :
    op.energy b = op.energy b' :=
  Dict.sum_congr fun t ht => zval_congr _ _ _ fun j hj => h j (by
    obtain ⟨q, hq, rfl⟩ := List.mem_map.mp ht
    rw [(hs q hq).1] at hj
    exact hj)

theorem bitStrings_spec : ∀ {n : Nat} {s : List Char}, s ∈ bitStrings n → s.length = n ∧ ∀ c ∈ s, c = '0' ∨ c = '1'
  | 0, s, h => by
    rw [List.mem_singleton.mp h]
    simp
  | n + 1, s, h => by
    obtain ⟨t, ht, hs⟩ := List.mem_flatMap.mp h
    obtain ⟨h1, h2⟩ := bitStrings_spec ht
    simp only [List.mem_cons, List.not_mem_nil, or_false] at hs
    rcases hs with rfl | rfl
    · exact ⟨by simp [h1], by simpa using h2⟩
    · exact ⟨by simp [h1], by simpa using h2⟩

theorem bitStrings_all : ∀ {n : Nat} {b : Nat → ℚ}, IsBits n b → ∃ s ∈ bitStrings n, ∀ j < n, pt (charPoint s) j = b j
  | 0, b, _ => ⟨[], by simp [bitStrings], by simp⟩
  | n + 1, b, h => by
    obtain ⟨s, hs, he⟩ := bitStrings_all (n := n) (b := fun i => b (i + 1)) fun i hi => h (i + 1) (by omega)
    rcases h 0 (by omega) with e | e
    · refine ⟨'0' :: s, List.mem_flatMap.mpr ⟨s, hs, by simp⟩, fun j hj => ?_⟩
      cases j with
      | zero => rw [e]; rfl
      | succ j => exact he j (by omega)
    · refine ⟨'1' :: s, List.mem_flatMap.mpr ⟨s, hs, by simp⟩, fun j hj => ?_⟩
      cases j with
      | zero => rw [e]; rfl
      | succ j => exact he j (by omega)

theorem exhaustive_exact : ExactSolver exhaustive := by
  intro op h0 hs hd
  obtain ⟨s0, hs0, _⟩ := bitStrings_all (n := op.numQubits) (b := fun _ => 0) fun _ _ => Or.inl rfl
  cases ha : (bitStrings op.numQubits).argmin fun s => op.energy (pt (charPoint s)) with
  | none =>
    rw [List.argmin_eq_none] at ha
    rw [ha] at hs0
    simp at hs0
  | some s =>
    have hm := List.argmin_mem ha
    obtain ⟨hl, hc⟩ := bitStrings_spec hm
    refine ⟨.counts [(String.ofList s, 1)], by unfold exhaustive; rw [ha]; rfl, ⟨?_, ?_⟩, charPoint s, 1, ⟨?_, ?_⟩, ?_⟩
    · intro q hq
      rw [List.mem_singleton.mp hq, String.toList_ofList]
      exact ⟨hl, hc⟩
    · rintro x p ⟨_, q, hq, hx, _⟩ _ b hb
      rw [List.mem_singleton.mp hq, String.toList_ofList] at hx
      obtain ⟨s', hs', he⟩ := bitStrings_all hb
      have := List.le_of_mem_argmin hs' ha
      rw [energy_congr hs he] at this
      rw [hx]
      exact this
    · simp
    · exact ⟨_, List.mem_singleton.mpr rfl, by rw [String.toList_ofList]; rfl, by simp⟩
    · norm_num

theorem solves_model {solver : QubitOp → Option Eigenstate} (hsol : ExactSolver solver) {name : String}
    {names : List String} {min : Bool} {obj : DExpr} {csts : List DCst}
    (hn : names.Nodup) (hat : ∀ s ∈ names, '@' ∉ s.toList) (h0 : names ≠ []) (ho : obj.WF names.length)
    (hc : ∀ c ∈ csts, c.WF names.length) (hs : ∀ c ∈ csts, c.isLin = true ∧ c.name = none)
    (hz : ∀ c ∈ csts, c.IntStep) {p : QP} (hp : loadModel ⟨name, binVars names, min, obj, csts⟩ = .ok p)
    (hf : ∃ x, p.Feas x) :
    ∃ y, Solves solver p y ∧ y.length = names.length ∧ OptimalIn p.Feas p.objective (pt y) := by
  obtain ⟨p', hp', hb⟩ := loadModel_bin (name := name) (min := min) hn ho hc
    fun c hc => ⟨Or.inl (hs c hc).1, (hs c hc).2⟩
  rw [hp] at hp'
  simp only [Except.ok.injEq] at hp'
  subst hp'
  have hwf : (⟨name, binVars names, min, obj, csts⟩ : DModel).WF := by
    refine ⟨?_, ?_⟩ <;> simp only [binVars, List.length_map]
    · exact ho
    · exact hc
  obtain ⟨hsh, hbb, hni, st, hst, hpos⟩ := binary_pipeline hwf hs hz hat h0 hp hb
  obtain ⟨r, y, h1, h2, h3, h4, h5, h6⟩ := C28_optimum_partial p hb.wf hsh hbb
    (fun v hv ht => absurd ht (hni v hv))
    (fun k _ v w hv _ ht => absurd ht (hni v (List.mem_of_getElem? hv))) st hst hpos hf solver (by
      intro op offset hop
      obtain ⟨hq, _⟩ := toIsing_shift hop
      obtain ⟨e, g1, g2, g3⟩ := hsol op (by omega) (toIsing_diagonal hop).1 (toIsing_diagonal hop).2
      rw [hq] at g2 g3
      exact ⟨e, g1, g2, g3⟩)
  refine ⟨y, ⟨r, h1, h2, h6, h5⟩, ?_, h4⟩
  rw [h3, QP.numVars, hb.vars]
  simp [binaries]

/-! ## Helper lemmas -/

theorem appNames_noAt (n : Nat) : ∀ s ∈ (List.range n).map (fun i => "x_" ++ toString i), '@' ∉ s.toList := by
  intro s hs
  obtain ⟨i, _, rfl⟩ := List.mem_map.mp hs
  rw [String.toList_append, List.mem_append]
  rintro (h | h)
  · simp at h
  · exact toString_noAt i h

theorem int_sum {α : Type} {l : List α} {f : α → ℚ} (h : ∀ a ∈ l, ∃ z : ℤ, f a = z) : ∃ z : ℤ, (l.map f).sum = z := by
  induction l with
  | nil => exact ⟨0, by simp⟩
  | cons a l ih =>
    obtain ⟨z, hz⟩ := h a (by simp)
    obtain ⟨w, hw⟩ := ih fun b hb => h b (by simp [hb])
    exact ⟨z + w, by rw [List.map_cons, List.sum_cons, hz, hw]; push_cast; rfl⟩

/-- An expression with integral values at integral points gives an integral constraint. -/
theorem intStep_of_val {n : Nat} {a : DExpr} (ha : a.WF n) (hq : a.isQuad = false) (s : Sense) (c : ℚ)
    (h : ∀ x : Nat → ℚ, (∀ i, ∃ z : ℤ, x i = z) → ∃ z : ℤ, a.val x = z) :
    (DCst.linear a s (.const c) none).IntStep := by
  intro x hx
  obtain ⟨z, hz⟩ := h x hx
  obtain ⟨w, hw⟩ := h (fun _ => 0) fun _ => ⟨0, by simp⟩
  refine ⟨z - w, ?_⟩
  have hq := ha.lin hq
  simp only [DExpr.val, hq, Dict.sum_nil, add_zero, Dict.sum_const_zero] at hz hw
  push_cast
  rw [← hz, ← hw]
  simp [DExpr.const, Dict.sum]

theorem sumVars_int (n : Nat) (x : Nat → ℚ) (hx : ∀ i, ∃ z : ℤ, x i = z) : ∃ z : ℤ, (sumVars n).val x = z := by
  rw [sumVars_val]
  exact int_sum fun i _ => hx i

theorem edgeCst_int (n : Nat) {w v : Nat} (hw : w < n) (hv : v < n) (s : Sense) : (edgeCst s w v).IntStep := by
  refine intStep_of_val ((var_wf hw).add (var_wf hv)) rfl s 1 fun x hx => ?_
  obtain ⟨a, ha⟩ := hx w
  obtain ⟨b, hb⟩ := hx v
  exact ⟨a + b, by rw [DExpr.val_add, DExpr.val_var, DExpr.val_var, ha, hb]; push_cast; rfl⟩

theorem solves_app {solver : QubitOp → Option Eigenstate} (hsol : ExactSolver solver) {name : String} {n : Nat}
    {min : Bool} {obj : DExpr} {csts : List DCst} (h0 : 0 < n) (ho : obj.WF n) (hc : ∀ c ∈ csts, c.WF n)
    (hs : ∀ c ∈ csts, c.isLin = true ∧ c.name = none) (hz : ∀ c ∈ csts, c.IntStep) {p : QP}
    (hp : loadModel ⟨name, appVars n, min, obj, csts⟩ = .ok p) (hf : ∃ x, p.Feas x) :
    ∃ y, Solves solver p y ∧ y.length = n ∧ OptimalIn p.Feas p.objective (pt y) := by
  rw [appVars_eq] at hp
  obtain ⟨y, h1, h2, h3⟩ := solves_model hsol (appNames_nodup n) (appNames_noAt n) (by simp; omega) (by simpa using ho)
    (by simpa using hc) hs hz hp hf
  exact ⟨y, h1, by simpa using h2, h3⟩

/-- The 0/1 vector of a set of positions. -/
def indicator (S : List Nat) (i : Nat) : ℚ := if i ∈ S then 1 else 0

theorem indicator_one {S : List Nat} {i : Nat} : indicator S i = 1 ↔ i ∈ S := by
  unfold indicator; split <;> simp_all

theorem indicator_binary (S : List Nat) (i : Nat) : indicator S i = 0 ∨ indicator S i = 1 := by
  unfold indicator; split <;> simp

theorem indicator_perm {S : List Nat} {n : Nat} (hd : S.Nodup) (hl : ∀ i ∈ S, i < n) :
    ((List.range n).filter fun i => decide (indicator S i = 1)).Perm S := by
  rw [List.perm_ext_iff_of_nodup (List.nodup_range.filter _) hd]
  intro i
  simp only [List.mem_filter, List.mem_range, indicator_one, decide_eq_true_eq]
  exact ⟨fun h => h.2, fun h => ⟨hl i h, h⟩⟩

theorem interpretSet_ones {n : Nat} {y : List ℚ} (hl : y.length = n) (hb : ∀ i < n, pt y i = 0 ∨ pt y i = 1) :
    interpretSet y = (List.range n).filter fun i => decide (pt y i = 1) := by
  rw [interpretSet_eq, interpretSides_eq, hl]
  refine List.filter_congr fun i hi => ?_
  have := hb i (List.mem_range.mp hi)
  unfold pt at this ⊢
  rcases this with e | e <;> rw [e] <;> norm_num

theorem mem_interpretSet {n : Nat} {y : List ℚ} (hl : y.length = n) (hb : ∀ i < n, pt y i = 0 ∨ pt y i = 1) {i : Nat} :
    i ∈ interpretSet y ↔ i < n ∧ pt y i = 1 := by
  rw [interpretSet_ones hl hb]
  simp

/-! ## Graphs -/

/-- The weight of the edges between a set of nodes and the other nodes; edges without a weight have weight one. -/
def cutWeightOf (g : Graph) (S : List Nat) : ℚ :=
  ((g.edges.filter fun e => decide (¬ (e.1 ∈ S ↔ e.2.1 ∈ S))).map fun e => e.2.2.getD 1).sum

theorem cut_indicator (g : Graph) (S : List Nat) :
    ((g.edges.filter fun e => decide (indicator S e.1 ≠ indicator S e.2.1)).map fun e => e.2.2.getD 1).sum =
      cutWeightOf g S := by
  unfold cutWeightOf
  congr 2
  refine List.filter_congr fun e _ => ?_
  unfold indicator
  split <;> split <;> simp_all

theorem cut_interpret {g : Graph} (hk : ∀ e ∈ g.edges, e.1 < g.n ∧ e.2.1 < g.n) {y : List ℚ} (hl : y.length = g.n)
    (hb : ∀ i < g.n, pt y i = 0 ∨ pt y i = 1) :
    ((g.edges.filter fun e => decide (pt y e.1 ≠ pt y e.2.1)).map fun e => e.2.2.getD 1).sum =
      cutWeightOf g (interpretSet y) := by
  unfold cutWeightOf
  congr 2
  refine List.filter_congr fun e he => ?_
  obtain ⟨h1, h2⟩ := hk e he
  simp only [mem_interpretSet hl hb, h1, h2, true_and]
  rcases hb _ h1 with e1 | e1 <;> rcases hb _ h2 with e2 | e2 <;> rw [e1, e2] <;> norm_num

/-- **C71, max-cut.** The reported point splits the nodes into two sides (`interpret`) with a cut of maximal weight, and
the reported value is this weight. -/
theorem C71_maxcut (solver : QubitOp → Option Eigenstate) (hsol : ExactSolver solver) (g : Graph) (h0 : 0 < g.n)
    (hk : ∀ e ∈ g.edges, e.1 < g.n ∧ e.2.1 < g.n) :
    ∃ p y, maxcutProgram g = .ok p ∧ Solves solver p y ∧ p.objective.val (pt y) = cutWeightOf g (interpretSides y).2 ∧
      ((interpretSides y).1 ++ (interpretSides y).2).Perm (List.range g.n) ∧
      ∀ S : List Nat, cutWeightOf g S ≤ cutWeightOf g (interpretSides y).2 := by
  obtain ⟨p, hp, hv, hse, hfe, hob⟩ := C42_model g hk
  have hm := hp
  unfold maxcutProgram at hm
  rw [if_pos (keysOK_iff.mpr hk)] at hm
  obtain ⟨y, hy, hl, hopt⟩ := solves_app hsol h0 (sum_wf fun a ha => by
    obtain ⟨e, he, rfl⟩ := List.mem_map.mp ha
    exact maxcutTerm_wf (hk e he)) (by simp) (by simp) (by simp) hm
    ⟨fun _ => 0, (hfe _).mpr fun i _ => Or.inl rfl⟩
  have hb := (hfe _).mp hopt.1
  have hval : p.objective.val (pt y) = cutWeightOf g (interpretSides y).2 := by
    rw [hob _ hb, cut_interpret hk hl hb, interpretSet_eq]
  refine ⟨p, y, hp, hy, hval, ?_, ?_⟩
  · rw [interpretSides_eq, hl]
    simpa using List.filter_append_perm (fun i => decide (y.getD i 0 = 0)) (List.range g.n)
  · intro S
    have := hopt.2 (indicator S) ((hfe _).mpr fun i _ => indicator_binary S i)
    rw [hse, hob _ fun i _ => indicator_binary S i, cut_indicator, hval] at this
    simp only [ObjSense.value] at this
    linarith

theorem ones_indicator {S : List Nat} {n : Nat} (hd : S.Nodup) (hl : ∀ i ∈ S, i < n) :
    ((List.range n).filter fun i => decide (indicator S i = 1)).length = S.length := (indicator_perm hd hl).length_eq

theorem edge_solved {solver : QubitOp → Option Eigenstate} (hsol : ExactSolver solver) {g : Graph} (h0 : 0 < g.n)
    (hk : ∀ e ∈ g.edges, e.1 < g.n ∧ e.2.1 < g.n) {name : String} {s : Sense} {min : Bool} {p : QP}
    (hp : loadModel ⟨name, appVars g.n, min, sumVars g.n, g.edges.map fun e => edgeCst s e.1 e.2.1⟩ = .ok p)
    (hf : ∃ x, p.Feas x) :
    ∃ y, Solves solver p y ∧ y.length = g.n ∧ OptimalIn p.Feas p.objective (pt y) := by
  refine solves_app hsol h0 (sumVars_wf _) ?_ ?_ ?_ hp hf
  all_goals
    intro c hc
    obtain ⟨e, he, rfl⟩ := List.mem_map.mp hc
  · exact edgeCst_wf s (hk e he).1 (hk e he).2
  · exact ⟨rfl, rfl⟩
  · exact edgeCst_int g.n (hk e he).1 (hk e he).2 s

/-- **C71, stable set.** The reported nodes are pairwise not joined, and no set of nodes with this property has more. -/
theorem C71_stable_set (solver : QubitOp → Option Eigenstate) (hsol : ExactSolver solver) (g : Graph) (h0 : 0 < g.n)
    (hk : ∀ e ∈ g.edges, e.1 < g.n ∧ e.2.1 < g.n) :
    ∃ p y, stableSetProgram g = .ok p ∧ Solves solver p y ∧ p.objective.val (pt y) = (interpretSet y).length ∧
      (∀ i ∈ interpretSet y, i < g.n) ∧ (∀ e ∈ g.edges, ¬ (e.1 ∈ interpretSet y ∧ e.2.1 ∈ interpretSet y)) ∧
      ∀ S : List Nat, S.Nodup → (∀ i ∈ S, i < g.n) → (∀ e ∈ g.edges, ¬ (e.1 ∈ S ∧ e.2.1 ∈ S)) →
        S.length ≤ (interpretSet y).length := by
  obtain ⟨p, hp, hv, hse, hfe, hob⟩ := C43_stable_set g hk
  have hm := hp
  unfold stableSetProgram at hm
  rw [if_pos (keysOK_iff.mpr hk)] at hm
  obtain ⟨y, hy, hl, hopt⟩ := edge_solved hsol h0 hk hm
    ⟨fun _ => 0, (hfe _).mpr ⟨fun i _ => Or.inl rfl, fun e _ => by norm_num⟩⟩
  obtain ⟨hb, he⟩ := (hfe _).mp hopt.1
  have hval : p.objective.val (pt y) = (interpretSet y).length := by rw [hob _ hb, interpretSet_ones hl hb]
  refine ⟨p, y, hp, hy, hval, fun i hi => ((mem_interpretSet hl hb).mp hi).1, ?_, ?_⟩
  · rintro e hm ⟨e1, e2⟩
    exact he e hm ⟨((mem_interpretSet hl hb).mp e1).2, ((mem_interpretSet hl hb).mp e2).2⟩
  · intro S hd hS hi
    have := hopt.2 (indicator S) ((hfe _).mpr ⟨fun i _ => indicator_binary S i, fun e hm => by
      simpa only [indicator_one] using hi e hm⟩)
    rw [hse, hob _ fun i _ => indicator_binary S i, ones_indicator hd hS, hval] at this
    simp only [ObjSense.value] at this
    have : (S.length : ℚ) ≤ (interpretSet y).length := by linarith
    exact_mod_cast this

/-- **C71, vertex cover.** Every edge has an end among the reported nodes, and no set of nodes with this property has
fewer. -/
theorem C71_vertex_cover (solver : QubitOp → Option Eigenstate) (hsol : ExactSolver solver) (g : Graph) (h0 : 0 < g.n)
    (hk : ∀ e ∈ g.edges, e.1 < g.n ∧ e.2.1 < g.n) :
    ∃ p y, vertexCoverProgram g = .ok p ∧ Solves solver p y ∧ p.objective.val (pt y) = (interpretSet y).length ∧
      (∀ i ∈ interpretSet y, i < g.n) ∧ (∀ e ∈ g.edges, e.1 ∈ interpretSet y ∨ e.2.1 ∈ interpretSet y) ∧
      ∀ S : List Nat, S.Nodup → (∀ i ∈ S, i < g.n) → (∀ e ∈ g.edges, e.1 ∈ S ∨ e.2.1 ∈ S) →
        (interpretSet y).length ≤ S.length := by
  obtain ⟨p, hp, hv, hse, hfe, hob⟩ := C43_vertex_cover g hk
  have hm := hp
  unfold vertexCoverProgram at hm
  rw [if_pos (keysOK_iff.mpr hk)] at hm
  obtain ⟨y, hy, hl, hopt⟩ := edge_solved hsol h0 hk hm
    ⟨fun _ => 1, (hfe _).mpr ⟨fun i _ => Or.inr rfl, fun e _ => by norm_num⟩⟩
  obtain ⟨hb, he⟩ := (hfe _).mp hopt.1
  have hval : p.objective.val (pt y) = (interpretSet y).length := by rw [hob _ hb, interpretSet_ones hl hb]
  refine ⟨p, y, hp, hy, hval, fun i hi => ((mem_interpretSet hl hb).mp hi).1, ?_, ?_⟩
  · intro e hm
    simp only [mem_interpretSet hl hb, hk e hm, true_and]
    exact he e hm
  · intro S hd hS hi
    have := hopt.2 (indicator S) ((hfe _).mpr ⟨fun i _ => indicator_binary S i, fun e hm => by
      simpa only [indicator_one] using hi e hm⟩)
    rw [hse, hob _ fun i _ => indicator_binary S i, ones_indicator hd hS, hval] at this
    simp only [ObjSense.value] at this
    have : ((interpretSet y).length : ℚ) ≤ S.length := by linarith
    exact_mod_cast this

theorem clique_int (g : Graph) : ∀ c ∈ g.complementEdges.map (fun e => edgeCst .le e.1 e.2),
    c.IntStep ∧ c.isLin = true ∧ c.name = none := by
  intro c hc
  obtain ⟨⟨i, j⟩, he, rfl⟩ := List.mem_map.mp hc
  obtain ⟨h1, h2, _⟩ := mem_complementEdges.mp he
  exact ⟨edgeCst_int g.n (by simp only; omega) h2 _, rfl, rfl⟩

/-- **C71, clique.** Without a size, the reported nodes are pairwise joined, and no such set has more nodes. -/
theorem C71_clique (solver : QubitOp → Option Eigenstate) (hsol : ExactSolver solver) (g : Graph) (h0 : 0 < g.n) :
    ∃ p y, cliqueProgram g none = .ok p ∧ Solves solver p y ∧ p.objective.val (pt y) = (interpretSet y).length ∧
      (∀ i ∈ interpretSet y, i < g.n) ∧
      (∀ i ∈ interpretSet y, ∀ j ∈ interpretSet y, i ≠ j → g.Adj i j) ∧
      ∀ S : List Nat, S.Nodup → (∀ i ∈ S, i < g.n) → (∀ i ∈ S, ∀ j ∈ S, i ≠ j → g.Adj i j) →
        S.length ≤ (interpretSet y).length := by
  obtain ⟨p, hp, hv, hse, hfe, hob⟩ := C44_maximum g
  have hm := hp
  unfold cliqueProgram at hm
  obtain ⟨y, hy, hl, hopt⟩ := solves_app hsol h0 (sumVars_wf _) (clique_wf g) (fun c hc => (clique_int g c hc).2)
    (fun c hc => (clique_int g c hc).1) hm
    ⟨fun _ => 0, (hfe _).mpr ⟨fun i _ => Or.inl rfl, fun i _ j _ _ h => absurd h (by norm_num)⟩⟩
  obtain ⟨hb, he⟩ := (hfe _).mp hopt.1
  have hval : p.objective.val (pt y) = (interpretSet y).length := by rw [hob _ hb, interpretSet_ones hl hb]
  refine ⟨p, y, hp, hy, hval, fun i hi => ((mem_interpretSet hl hb).mp hi).1, ?_, ?_⟩
  · intro i hi j hj hij
    obtain ⟨i1, i2⟩ := (mem_interpretSet hl hb).mp hi
    obtain ⟨j1, j2⟩ := (mem_interpretSet hl hb).mp hj
    exact he i i1 j j1 hij i2 j2
  · intro S hd hS hi
    have := hopt.2 (indicator S) ((hfe _).mpr ⟨fun i _ => indicator_binary S i, fun i _ j _ hij e1 e2 =>
      hi i (indicator_one.mp e1) j (indicator_one.mp e2) hij⟩)
    rw [hse, hob _ fun i _ => indicator_binary S i, ones_indicator hd hS, hval] at this
    simp only [ObjSense.value] at this
    have : (S.length : ℚ) ≤ (interpretSet y).length := by linarith
    exact_mod_cast this

/-- **C71, clique of a given size.** If there is one, the reported nodes are one. -/
theorem C71_clique_size (solver : QubitOp → Option Eigenstate) (hsol : ExactSolver solver) (g : Graph) (h0 : 0 < g.n)
    (S : List Nat) (hd : S.Nodup) (hS : ∀ i ∈ S, i < g.n) (hi : ∀ i ∈ S, ∀ j ∈ S, i ≠ j → g.Adj i j) :
    ∃ p y, cliqueProgram g (some S.length) = .ok p ∧ Solves solver p y ∧ (interpretSet y).length = S.length ∧
      (∀ i ∈ interpretSet y, i < g.n) ∧ ∀ i ∈ interpretSet y, ∀ j ∈ interpretSet y, i ≠ j → g.Adj i j := by
  obtain ⟨p, hp, hv, hfe, _⟩ := C44_size g S.length
  have hm := hp
  unfold cliqueProgram at hm
  obtain ⟨y, hy, hl, hopt⟩ := solves_app hsol h0 (const_wf _ _) (by
      intro c hc
      rcases List.mem_append.mp hc with hc | hc
      · exact clique_wf g c hc
      · rw [List.mem_singleton.mp hc]
        exact ⟨sumVars_wf _, const_wf _ _, sumVars_isQuad _, rfl⟩) (by
      intro c hc
      rcases List.mem_append.mp hc with hc | hc
      · exact (clique_int g c hc).2
      · rw [List.mem_singleton.mp hc]
        exact ⟨rfl, rfl⟩) (by
      intro c hc
      rcases List.mem_append.mp hc with hc | hc
      · exact (clique_int g c hc).1
      · rw [List.mem_singleton.mp hc]
        exact intStep_of_val (sumVars_wf _) (sumVars_isQuad _) _ _ (sumVars_int _)) hm
    ⟨indicator S, (hfe _).mpr ⟨fun i _ => indicator_binary S i, fun i _ j _ hij e1 e2 =>
      hi i (indicator_one.mp e1) j (indicator_one.mp e2) hij, by rw [ones_indicator hd hS]⟩⟩
  obtain ⟨hb, he, hc⟩ := (hfe _).mp hopt.1
  refine ⟨p, y, hp, hy, ?_, fun i hi => ((mem_interpretSet hl hb).mp hi).1, ?_⟩
  · rw [interpretSet_ones hl hb]
    exact_mod_cast hc
  · intro i hi j hj hij
    obtain ⟨i1, i2⟩ := (mem_interpretSet hl hb).mp hi
    obtain ⟨j1, j2⟩ := (mem_interpretSet hl hb).mp hj
    exact he i i1 j j1 hij i2 j2

/-- **C71, graph partition.** The reported side has half of the nodes (rounded down), and no set of this size has a cut of
smaller weight. -/
theorem C71_partition (solver : QubitOp → Option Eigenstate) (hsol : ExactSolver solver) (g : Graph) (h0 : 0 < g.n)
    (hk : ∀ e ∈ g.edges, e.1 < g.n ∧ e.2.1 < g.n) :
    ∃ p y, graphPartitionProgram g = .ok p ∧ Solves solver p y ∧
      p.objective.val (pt y) = cutWeightOf g (interpretSides y).2 ∧
      ((interpretSides y).1 ++ (interpretSides y).2).Perm (List.range g.n) ∧ (interpretSides y).2.length = g.n / 2 ∧
      ∀ S : List Nat, S.Nodup → (∀ i ∈ S, i < g.n) → S.length = g.n / 2 →
        cutWeightOf g (interpretSides y).2 ≤ cutWeightOf g S := by
  obtain ⟨p, hp, hv, hse, hfe, hob⟩ := C45_model g hk
  have hm := hp
  unfold graphPartitionProgram at hm
  rw [if_pos (keysOK_iff.mpr hk)] at hm
  have hhalf : ((List.range g.n).filter fun i => decide (indicator (List.range (g.n / 2)) i = 1)).length = g.n / 2 := by
    rw [ones_indicator List.nodup_range fun i hi => by have := List.mem_range.mp hi; omega]
    simp
  obtain ⟨y, hy, hl, hopt⟩ := solves_app hsol h0 (sum_wf fun a ha => by
      obtain ⟨e, he, rfl⟩ := List.mem_map.mp ha
      exact partitionTerm_wf (hk e he)) (by
      intro c hc
      rw [List.mem_singleton.mp hc]
      exact ⟨sumVars_wf _, const_wf _ _, sumVars_isQuad _, rfl⟩) (by
      intro c hc
      rw [List.mem_singleton.mp hc]
      exact ⟨rfl, rfl⟩) (by
      intro c hc
      rw [List.mem_singleton.mp hc]
      exact intStep_of_val (sumVars_wf _) (sumVars_isQuad _) _ _ (sumVars_int _)) hm
    ⟨indicator (List.range (g.n / 2)), (hfe _).mpr ⟨fun i _ => indicator_binary _ i, hhalf⟩⟩
  obtain ⟨hb, hc⟩ := (hfe _).mp hopt.1
  have hval : p.objective.val (pt y) = cutWeightOf g (interpretSides y).2 := by
    rw [hob _ hb, cut_interpret hk hl hb, interpretSet_eq]
  refine ⟨p, y, hp, hy, hval, ?_, ?_, ?_⟩
  · rw [interpretSides_eq, hl]
    simpa using List.filter_append_perm (fun i => decide (y.getD i 0 = 0)) (List.range g.n)
  · rw [← interpretSet_eq, interpretSet_ones hl hb, hc]
  · intro S hd hS hlen
    have := hopt.2 (indicator S) ((hfe _).mpr ⟨fun i _ => indicator_binary S i, by rw [ones_indicator hd hS, hlen]⟩)
    rw [hse, hob _ fun i _ => indicator_binary S i, cut_indicator, hval] at this
    simp only [ObjSense.value] at this
    linarith

/-- What `MinimumEigenOptimizer(solver).solve(program)` reports. -/
def reported (solver : QubitOp → Option Eigenstate) (p : Except Err QP) : Option (Option (List ℚ) × Option ℚ) :=
  match p with
  | .ok p => (minEigenSolve solver [quboConverter none] p).toOption.map fun r => (r.x, r.fval)
  | .error _ => none

/-- A weighted triangle: the largest cut separates node 1 from the others. -/
example : ExactSolver exhaustive ∧
    reported exhaustive (maxcutProgram ⟨3, [(0, 1, some 4), (1, 2, some 3), (0, 2, none)]⟩) =
      some (some [0, 1, 0], some 7) ∧
    interpretSides [0, 1, 0] = ([0, 2], [1]) := ⟨exhaustive_exact, by decide +kernel, by decide +kernel⟩

/-- A path of three nodes: its two ends are a largest stable set, its middle is a smallest cover. -/
example : reported exhaustive (stableSetProgram ⟨3, [(0, 1, none), (1, 2, none)]⟩) = some (some [1, 0, 1], some 2) ∧
    reported exhaustive (vertexCoverProgram ⟨3, [(0, 1, none), (1, 2, none)]⟩) = some (some [0, 1, 0], some 1) := by
  decide +kernel

/-- The same path: a largest clique, a clique of two nodes; and a path of four nodes cut in the middle. -/
example : reported exhaustive (cliqueProgram ⟨3, [(0, 1, none), (1, 2, none)]⟩ none) = some (some [1, 1, 0], some 2) ∧
    reported exhaustive (cliqueProgram ⟨3, [(0, 1, none), (1, 2, none)]⟩ (some 2)) = some (some [1, 1, 0], some 0) ∧
    reported exhaustive (graphPartitionProgram ⟨4, [(0, 1, some 2), (1, 2, some 1), (2, 3, some 2)]⟩) =
      some (some [1, 1, 0, 0], some 1) := by decide +kernel

end Verif
