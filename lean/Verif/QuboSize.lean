import Verif.QuboLemmas
import Mathlib.Data.Nat.Log
import Mathlib.Order.Bounds.Basic

/-!
# The number of variables of a QUBO: specification and helper lemmas (C83)
-/

namespace Verif

/-- The least number of bits that tell apart the integers `0, ..., r` (none for `r < 1`). -/
def bitsFor (r : ℚ) : Nat := Nat.clog 2 (r.floor.toNat + 1)

/-- Bits for a variable: one for a binary variable, and as many as the range needs for an integer variable. -/
def Variable.bits (v : Variable) : Nat := if v.vartype = .integer then bitsFor (v.ub - v.lb) else 1

/-- The left-hand sides of a constraint within the bounds of the variables. -/
def LinCst.values (p : QP) (c : LinCst) : Set ℚ := {v | ∃ x, p.InBounds x ∧ c.linear.val x = v}

/-- `r` is the largest slack of the constraint within the bounds, after rounding the right-hand side to the integer that
allows the same integral left-hand sides (0 for equations). -/
def LinCst.MaxSlack (p : QP) (c : LinCst) (r : ℚ) : Prop :=
  match c.sense with
  | .le => ∃ m, IsLeast (c.values p) m ∧ r = c.rhs.floor - m
  | .ge => ∃ m, IsGreatest (c.values p) m ∧ r = m - c.rhs.ceil
  | .eq => r = 0

/-! ## Bounds of linear expressions are attained -/

theorem calcLinBounds_attained {src : QP} (hs : src.Consistent) {l : Dict String} {a b lb ub : ℚ}
    (h : calcLinBounds src l (a, b) = .ok (lb, ub)) {x y : Nat → ℚ}
    (hx : ∀ s c v, (s, c) ∈ l → src.getVariable (.name s) = .ok v →
      c * nameVal src.varsIndex x s = min (v.lb * c) (v.ub * c))
    (hy : ∀ s c v, (s, c) ∈ l → src.getVariable (.name s) = .ok v →
      c * nameVal src.varsIndex y s = max (v.lb * c) (v.ub * c)) :
    lb - a = Dict.sum l (nameVal src.varsIndex x) ∧ ub - b = Dict.sum l (nameVal src.varsIndex y) := by
  induction l generalizing a b with
  | nil => simp only [calcLinBounds, Except.ok.injEq, Prod.mk.injEq] at h; obtain ⟨rfl, rfl⟩ := h; simp
  | cons p l ih =>
    obtain ⟨s, v⟩ := p
    simp only [calcLinBounds] at h
    split at h
    · simp at h
    · rename_i w hw
      obtain ⟨h1, h2⟩ := ih h (fun s c v hm => hx s c v (List.mem_cons_of_mem _ hm))
        (fun s c v hm => hy s c v (List.mem_cons_of_mem _ hm))
      have h3 := hx s v w List.mem_cons_self hw
      have h4 := hy s v w List.mem_cons_self hw
      simp only [Dict.sum_cons]
      constructor <;> linarith

/-- The point where `l` is least (`low`) or greatest. -/
def corner (src : QP) (l : Dict String) (low : Bool) (i : Nat) : ℚ :=
  match src.vars[i]? with
  | some v => if (0 ≤ (Assoc.get? l v.name).getD 0) = (low = true) then v.lb else v.ub
  | none => 0

theorem corner_inBounds {src : QP} {l : Dict String} {low : Bool} {x : Nat → ℚ} (hx : src.InBounds x) :
    src.InBounds (corner src l low) := by
  intro i v hv
  have := hx i v hv
  simp only [corner, hv]
  split <;> constructor <;> linarith

theorem corner_value {src : QP} (hs : src.Consistent) {l : Dict String} (hl : (Assoc.keys l).Nodup) {low : Bool}
    {z : Nat → ℚ} (hz : src.InBounds z) {s : String} {c : ℚ} {v : Variable} (hm : (s, c) ∈ l)
    (hv : src.getVariable (.name s) = .ok v) :
    c * nameVal src.varsIndex (corner src l low) s = if low then min (v.lb * c) (v.ub * c) else max (v.lb * c) (v.ub * c) := by
  obtain ⟨i, hd, hi⟩ := (getVariable_iff hs _ _).mp hv
  have hn : s = v.name := by
    simp only [QP.Denotes, hi, Option.map_some, Option.some.injEq] at hd; exact hd.symm
  subst hn
  have hle : v.lb ≤ v.ub := (hz i v hi).1.trans (hz i v hi).2
  rw [nameVal_at hs hi]
  simp only [corner, hi, Assoc.get?_of_mem hl hm, Option.getD_some]
  rcases le_or_gt 0 c with hc | hc
  · have : v.lb * c ≤ v.ub * c := mul_le_mul_of_nonneg_right hle hc
    cases low <;> simp [hc, this, mul_comm c]
  · have : v.ub * c ≤ v.lb * c := mul_le_mul_of_nonpos_right hle hc.le
    have hc' : ¬ 0 ≤ c := not_le.mpr hc
    cases low <;> simp [hc', this, mul_comm c]

/-- The bounds of `_calc_linear_bounds` are the least and the greatest value within the bounds of the variables. -/
theorem calcLinBounds_sharp {src : QP} (hs : src.WF) {e : LinExpr} (he : e.Fits src.numVars) {lb ub : ℚ}
    (h : calcLinBounds src (e.toDictNames src.vars) (0, 0) = .ok (lb, ub)) {z : Nat → ℚ} (hz : src.InBounds z) :
    IsLeast {v | ∃ x, src.InBounds x ∧ e.val x = v} lb ∧ IsGreatest {v | ∃ x, src.InBounds x ∧ e.val x = v} ub := by
  have hn := toDictNames_nodup hs.cons he
  have hval : ∀ x, Dict.sum (e.toDictNames src.vars) (nameVal src.varsIndex x) = e.val x := sum_toDictNames hs.cons he
  have hb : ∀ x, src.InBounds x → lb ≤ e.val x ∧ e.val x ≤ ub := by
    intro x hx
    have := calcLinBounds_ok hs.cons h hx
    rw [hval, sub_zero, sub_zero] at this
    exact this
  obtain ⟨h1, h2⟩ := calcLinBounds_attained hs.cons h (x := corner src (e.toDictNames src.vars) true)
    (y := corner src (e.toDictNames src.vars) false)
    (fun s c v hm hv => by simpa using corner_value hs.cons hn (low := true) hz hm hv)
    (fun s c v hm hv => by simpa using corner_value hs.cons hn (low := false) hz hm hv)
  rw [hval, sub_zero] at h1 h2
  refine ⟨⟨⟨_, corner_inBounds hz, h1.symm⟩, ?_⟩, ⟨⟨_, corner_inBounds hz, h2.symm⟩, ?_⟩⟩
  · rintro v ⟨x, hx, rfl⟩
    exact (hb x hx).1
  · rintro v ⟨x, hx, rfl⟩
    exact (hb x hx).2

/-! ## Counting the variables -/

theorem intSlackLin_vars {src d d' : QP} (hs : src.WF) (hst : Starts src d) {e : LinExpr} (he : e.Fits src.numVars)
    {s : Sense} {r : ℚ} {nm : String} (h : intSlackLin src d (e.toDictNames src.vars) s r nm = .ok d') :
    ∃ lb ub, calcLinBounds src (e.toDictNames src.vars) (0, 0) = .ok (lb, ub) ∧
      d'.vars = d.vars ++ slackVars .integer (nm ++ delim ++ "int_slack") s (roundRhs s r) lb ub := by
  unfold intSlackLin at h
  split at h
  · simp at h
  · split at h
    · simp at h
    · rename_i lb ub hb
      split at h
      · simp at h
      · rename_i o d1 hsl
        split at h
        · simp at h
        · rename_i c d2 hc
          simp only [Except.ok.injEq] at h
          subst h
          obtain ⟨a1, a2, a3, a4, a5, a6⟩ := (slackVar_ok hst.wf.cons hsl).spec hst hs.cons
            (fun a ha => toDictNames_keys he ha) (toDictNames_nodup hs.cons he)
          obtain ⟨b1, _, _, _⟩ := linStep a2 (a2.wf hst.wf) a3 a4 eqeq_convert hc
          exact ⟨lb, ub, hb, b1.vars⟩

theorem bitsFor_nonpos {r : ℚ} (h : r ≤ 0) : bitsFor r = 0 := by
  have : r.floor.toNat = 0 := by
    rw [Int.toNat_eq_zero]
    have : ((r.floor : Int) : ℚ) ≤ 0 := (Int.floor_le r).trans h
    exact_mod_cast this
  simp [bitsFor, this]

/-- The bits of the slack variable of one constraint. -/
theorem slackVars_bits {t : String} {src : QP} (hs : src.WF) {k : LinCst} (he : k.linear.Fits src.numVars) {lb ub r : ℚ}
    (hb : calcLinBounds src (k.linear.toDictNames src.vars) (0, 0) = .ok (lb, ub)) (hr : k.MaxSlack src r) :
    ((slackVars .integer t k.sense (roundRhs k.sense k.rhs) lb ub).map Variable.bits).sum = bitsFor r := by
  unfold LinCst.MaxSlack at hr
  cases hse : k.sense with
  | eq =>
    rw [hse] at hr
    simp only at hr
    rw [bitsFor_nonpos hr.le]
    simp [slackVars]
  | le =>
    rw [hse] at hr
    obtain ⟨m, hm, rfl⟩ := hr
    obtain ⟨z, hz, _⟩ := hm.1
    have := (calcLinBounds_sharp hs he hb hz).1
    have hm' : m = lb := hm.unique this
    subst hm'
    rw [show (k.rhs.floor : ℚ) = roundRhs .le k.rhs from rfl]
    generalize roundRhs .le k.rhs = w
    simp only [slackVars]
    by_cases hc : w ≤ m
    · rw [bitsFor_nonpos (by linarith), if_pos hc]
      simp
    · rw [if_neg hc]
      simp [Variable.bits]
  | ge =>
    rw [hse] at hr
    obtain ⟨m, hm, rfl⟩ := hr
    obtain ⟨z, hz, _⟩ := hm.1
    have := (calcLinBounds_sharp hs he hb hz).2
    have hm' : m = ub := hm.unique this
    subst hm'
    rw [show (k.rhs.ceil : ℚ) = roundRhs .ge k.rhs from rfl]
    generalize roundRhs .ge k.rhs = w
    simp only [slackVars]
    by_cases hc : m ≤ w
    · rw [bitsFor_nonpos (by linarith), if_pos hc]
      simp
    · rw [if_neg hc]
      simp [Variable.bits]

theorem i2eLins_bits {src d d' : QP} (hs : src.WF) (hst : Starts src d) (ks : List LinCst)
    (hk : ∀ k ∈ ks, k.linear.Fits src.numVars) (R : LinCst → ℚ) (hR : ∀ k ∈ ks, k.MaxSlack src (R k))
    (h : i2eLins .integer src ks d = .ok d') :
    (d'.vars.map Variable.bits).sum = (d.vars.map Variable.bits).sum + (ks.map fun k => bitsFor (R k)).sum := by
  induction ks generalizing d with
  | nil =>
    simp only [i2eLins, Except.ok.injEq] at h
    subst h
    simp
  | cons k ks ih =>
    rw [List.forall_mem_cons] at hk hR
    simp only [i2eLins] at h
    split at h
    · simp at h
    · rename_i d1 h1
      obtain ⟨a1, _⟩ := i2eLinOne_ok hs hst hk.1 h1
      rw [ih a1.starts hk.2 hR.2 h, List.map_cons, List.sum_cons, ← add_assoc]
      congr 1
      unfold i2eLinOne at h1
      simp only at h1
      have hint : intSlackLin src d (k.linear.toDictNames src.vars) k.sense k.rhs k.name = .ok d1 →
          (d1.vars.map Variable.bits).sum = (d.vars.map Variable.bits).sum + bitsFor (R k) := by
        intro hi
        obtain ⟨lb, ub, hb, hv⟩ := intSlackLin_vars hs hst hk.1 hi
        rw [hv, List.map_append, List.sum_append, slackVars_bits hs hk.1 hb hR.1]
      cases hse : k.sense with
      | eq =>
        have hr := hR.1
        simp only [LinCst.MaxSlack, hse] at hr
        simp only [hse] at h1
        split at h1
        · simp at h1
        · rename_i c d2 hadd
          simp only [Except.ok.injEq] at h1
          subst h1
          obtain ⟨b1, _⟩ := linStep (Grows.refl d) hst.wf (toDictNames_nodup hs.cons hk.1)
            (fun a ha => hst.names (toDictNames_keys hk.1 ha)) (by rfl) hadd
          rw [b1.vars, bitsFor_nonpos hr.le]
          simp
      | le =>
        simp only [hse] at h1 hint
        exact hint h1
      | ge =>
        simp only [hse] at h1 hint
        exact hint h1

theorem plainVar_bits (v : Variable) : (plainVar v).bits = v.bits := by
  unfold plainVar Variable.bits
  split
  · rename_i h
    simp [binVar, h]
  · rfl

theorem ineqToEq_bits {src dst : QP} (hs : src.WF) (hq : src.quads = []) (h : src.ineqToEq .integer = .ok dst)
    (R : LinCst → ℚ) (hR : ∀ k ∈ src.lins, k.MaxSlack src (R k)) :
    (dst.vars.map Variable.bits).sum =
      (src.vars.map Variable.bits).sum + (src.lins.map fun k => bitsFor (R k)).sum := by
  unfold QP.ineqToEq at h
  split at h
  · simp at h
  · rename_i d0 h0
    have hg := copyAllVars_grows h0
    have hst0 : Starts src d0 := ⟨hg.wf (QP.empty_wf src.name), [], by simpa [QP.empty] using hg.vars⟩
    have hv0 : d0.vars = src.vars.map plainVar := by simpa [QP.empty] using hg.vars
    split at h
    · simp at h
    · rename_i u d1 h1
      have hwf1 := setObjective_wf h1 hst0.wf trivial trivial
      obtain ⟨le, qe, e1, e2, rfl⟩ := setObjective_ok h1
      have hst1 : Starts src { d0 with objective := ⟨src.objective.constant, le, qe, src.objective.sense⟩ } :=
        ⟨hwf1, [], by simpa using hv0⟩
      split at h
      · simp at h
      · rename_i d2 h2
        rw [hq] at h
        simp only [i2eQuads, Except.ok.injEq] at h
        rw [← h, i2eLins_bits hs hst1 src.lins hs.lins R hR h2]
        congr 1
        show (d0.vars.map Variable.bits).sum = _
        rw [hv0, List.map_map]
        congr 1
        exact List.map_congr_left fun v _ => plainVar_bits v

theorem clog_log2 {n : Nat} (h : 1 ≤ n) : Nat.clog 2 (n + 1) = Nat.log2 n + 1 := by
  rw [Nat.log2_eq_log_two]
  apply le_antisymm
  · rw [Nat.clog_le_iff_le_pow (by norm_num)]
    exact Nat.lt_pow_succ_log_self (by norm_num) n
  · by_contra hcon
    have h1 : Nat.clog 2 (n + 1) ≤ Nat.log 2 n := by omega
    rw [Nat.clog_le_iff_le_pow (by norm_num)] at h1
    have := Nat.pow_log_le_self 2 (x := n) (by omega)
    omega

theorem convertVar_bits {nm : String} {lb ub : ℚ} (hl : ∃ z : Int, lb = z) (hu : ∃ z : Int, ub = z)
    {e : List (String × ℚ)} (h : convertVar nm lb ub = .ok e) : e.length = bitsFor (ub - lb) := by
  obtain ⟨l, rfl⟩ := hl
  obtain ⟨u, rfl⟩ := hu
  have hpos : (0 : ℚ) < (u : ℚ) - l := by
    by_contra hcon
    have : ((u : ℚ) - l) ≤ 0 := not_lt.mp hcon
    simp [convertVar, encodeCoeffs, this] at h
  have hlt : l < u := by
    have : (l : ℚ) < u := by linarith
    exact_mod_cast this
  have hr : (u : ℚ) - l = ((u - l).toNat : ℚ) := by
    have h2 : ((u - l).toNat : Int) = u - l := by omega
    have h3 : (((u - l).toNat : Int) : ℚ) = ((u - l : Int) : ℚ) := by rw [h2]
    push_cast at h3
    exact h3.symm
  have hn : 1 ≤ (u - l).toNat := by omega
  rw [convertVar, hr, encodeCoeffs_nat _ hn] at h
  simp only [Except.ok.injEq] at h
  rw [← h, hr, bitsFor]
  have hf : ((((u - l).toNat : Nat) : ℚ).floor).toNat = (u - l).toNat := by
    rw [show (((u - l).toNat : Nat) : ℚ) = (((u - l).toNat : Int) : ℚ) by push_cast; rfl]
    rw [Rat.floor_intCast]
    rfl
  rw [hf, clog_log2 hn]
  simp

theorem intToBin_bits {src : QP} (hs : src.WF) (hv : ∀ v ∈ src.vars, (∃ z : Int, v.lb = z) ∧ ∃ z : Int, v.ub = z)
    {st : I2B} (h : src.intToBin = .ok st) : st.dst.numVars = (src.vars.map Variable.bits).sum := by
  have hf := intToBin_facts hs h
  rcases hf.vars with hvars | ⟨h1, _, h3⟩
  · rw [QP.numVars, hvars, List.length_flatMap]
    congr 1
    refine List.map_congr_left fun v hm => ?_
    unfold Variable.bits newVars
    by_cases ht : v.vartype = .integer
    · obtain ⟨e, he, hc⟩ := hf.enc v hm ht
      rw [he, if_pos ht]
      simp only [List.length_map]
      exact convertVar_bits (hv v hm).1 (hv v hm).2 hc
    · rw [hf.plain v hm ht, if_neg ht]
      rfl
  · rw [h1, QP.numVars]
    rw [List.map_congr_left (g := fun _ => 1) fun v hm => by simp [Variable.bits, h3 v hm]]
    simp

end Verif
