import Verif.FloatPenalty
import Verif.PropsFloat
import Verif.PropsPenalty
import Verif.PropsMinEigen

/-!
# The QUBO and the Ising Hamiltonian of programs with integer data have no rounding errors (C102)
-/

namespace Verif

theorem Whole.neg {a : ℚ} (ha : Whole a) : Whole (-a) := by
  obtain ⟨m, rfl⟩ := ha; exact ⟨-m, by push_cast; rfl⟩

theorem Whole.abs_le_sq {a : ℚ} (ha : Whole a) : |a| ≤ |a| * |a| := by
  obtain ⟨m, rfl⟩ := ha
  have : |m| ≤ |m| * |m| := by
    rcases eq_or_ne m 0 with e | e
    · simp [e]
    · have := Int.one_le_abs e
      nlinarith
  exact_mod_cast this

theorem GridDict.whole {κ : Type} {d : Dict κ} (h : GridDict 0 d) : WholeDict d := fun p hp => by
  obtain ⟨m, hm⟩ := h p hp
  exact ⟨m, by simpa using hm⟩

theorem absTotal_whole {κ : Type} {d : Dict κ} (h : WholeDict d) : Whole (absTotal d) :=
  whole_sum _ fun v hv => by
    obtain ⟨p, hp, rfl⟩ := List.mem_map.mp hv
    obtain ⟨m, hm⟩ := h p hp
    exact ⟨|m|, by rw [hm]; push_cast; rfl⟩

theorem wholeDict_cons {κ : Type} {p : κ × ℚ} {d : Dict κ} (h : WholeDict (p :: d : List (κ × ℚ))) : Whole p.2 ∧ WholeDict d :=
  ⟨h p List.mem_cons_self, fun q hq => h q (List.mem_cons_of_mem _ hq)⟩

theorem two_fifty : (2 : ℚ) ^ 53 = 4 * 2 ^ 51 := by norm_num

theorem penLinearFl_eq {fl : ℚ → ℚ} (h : IsRounding fl) {f rhs : ℚ} (hf : Whole f) (hr : Whole rhs) (row lin : Dict Nat)
    (hrow : WholeDict row) (hlin : WholeDict lin) (hb : absTotal lin + 2 * |f| * |rhs| * absTotal row < 2 ^ 53)
    (hb' : 2 * |f| < 2 ^ 53) (hb2 : 2 * |f| * absTotal row < 2 ^ 53) :
    penLinearFl fl f rhs row lin = penLinear f rhs row lin ∧ WholeDict (penLinear f rhs row lin) ∧
      absTotal (penLinear f rhs row lin) ≤ absTotal lin + 2 * |f| * |rhs| * absTotal row := by
  induction row generalizing lin with
  | nil => exact ⟨rfl, hlin, by simp [penLinear, absTotal]⟩
  | cons p row ih =>
    obtain ⟨j, c⟩ := p
    obtain ⟨hc, hrow⟩ := wholeDict_cons hrow
    rw [absTotal_cons] at hb hb2 ⊢
    simp only at hc hb hb2 ⊢
    have n1 := abs_nonneg f
    have n2 := abs_nonneg rhs
    have n3 := abs_nonneg c
    have n4 := absTotal_nonneg row
    have n5 := absTotal_nonneg lin
    have m1 : 0 ≤ 2 * |f| * |rhs| * absTotal row := by positivity
    have m2 : 0 ≤ 2 * |f| * |rhs| * |c| := by positivity
    have m3 : 0 ≤ 2 * |f| * absTotal row := by positivity
    have w1 : Whole (f * -2) := hf.mul ⟨-2, by norm_num⟩
    have w2 := w1.mul hc
    have w3 := w2.mul hr
    have a1 : |f * -2| = 2 * |f| := by rw [abs_mul]; norm_num; ring
    have a2 : |f * -2 * c| = 2 * |f| * |c| := by rw [abs_mul, a1]
    have a3 : |f * -2 * c * rhs| = 2 * |f| * |rhs| * |c| := by rw [abs_mul, a2]; ring
    have e3 : fl (fl (fl (f * -2) * c) * rhs) = f * -2 * c * rhs := by
      rw [fl_whole h w1 (by rw [a1]; exact hb'), fl_whole h w2 (by rw [a2]; linarith),
        fl_whole h w3 (by rw [a3]; linarith)]
    have hadd := add_absTotal lin j (f * -2 * c * rhs)
    rw [a3] at hadd
    have e4 : Dict.addFl fl lin j (f * -2 * c * rhs) = Dict.add lin j (f * -2 * c * rhs) :=
      addFl_eq h (k := 0) lin hlin.grid j _ w3.grid (by rw [a3, pow_zero, div_one]; linarith)
    obtain ⟨i1, i2, i3⟩ := ih (Dict.add lin j (f * -2 * c * rhs)) hrow (add_grid lin hlin.grid j _ w3.grid).whole
      (by linarith) (by linarith [mul_nonneg (mul_nonneg zero_le_two n1) n3])
    simp only [penLinearFl, penLinear, e3, e4]
    exact ⟨i1, i2, by linarith⟩

theorem penQuadRowFl_eq {fl : ℚ → ℚ} (h : IsRounding fl) {f : ℚ} (hf : Whole f) (j : Nat) {c1 : ℚ} (hc1 : Whole c1)
    (row : Dict Nat) (quad : Dict (Nat × Nat)) (hrow : WholeDict row) (hquad : WholeDict quad)
    (hb : absTotal quad + |f| * |c1| * absTotal row < 2 ^ 53) (hb' : |f| * |c1| < 2 ^ 53) :
    penQuadRowFl fl f j c1 row quad = penQuadRow f j c1 row quad ∧ WholeDict (penQuadRow f j c1 row quad) ∧
      absTotal (penQuadRow f j c1 row quad) ≤ absTotal quad + |f| * |c1| * absTotal row := by
  induction row generalizing quad with
  | nil => exact ⟨rfl, hquad, by simp [penQuadRow, absTotal]⟩
  | cons p row ih =>
    obtain ⟨k, c⟩ := p
    obtain ⟨hc, hrow⟩ := wholeDict_cons hrow
    rw [absTotal_cons] at hb ⊢
    simp only at hc hb ⊢
    have n1 := abs_nonneg f
    have n2 := abs_nonneg c1
    have n3 := abs_nonneg c
    have n4 := absTotal_nonneg row
    have n5 := absTotal_nonneg quad
    have m1 : 0 ≤ |f| * |c1| * absTotal row := by positivity
    have w1 := hf.mul hc1
    have w2 := w1.mul hc
    have a2 : |f * c1 * c| = |f| * |c1| * |c| := by rw [abs_mul, abs_mul]
    have e2 : fl (fl (f * c1) * c) = f * c1 * c := by
      rw [fl_whole h w1 (by rw [abs_mul]; exact hb'), fl_whole h w2 (by rw [a2]; linarith)]
    have hadd := add_absTotal quad (j, k) (f * c1 * c)
    rw [a2] at hadd
    have e3 : Dict.addFl fl quad (j, k) (f * c1 * c) = Dict.add quad (j, k) (f * c1 * c) :=
      addFl_eq h (k := 0) quad hquad.grid _ _ w2.grid (by rw [a2, pow_zero, div_one]; linarith)
    obtain ⟨i1, i2, i3⟩ := ih (Dict.add quad (j, k) (f * c1 * c)) hrow (add_grid quad hquad.grid _ _ w2.grid).whole (by linarith)
    simp only [penQuadRowFl, penQuadRow, e2, e3]
    exact ⟨i1, i2, by linarith⟩

theorem penQuadFl_eq {fl : ℚ → ℚ} (h : IsRounding fl) {f : ℚ} (hf : Whole f) (all : Dict Nat) (hall : WholeDict all)
    (row : Dict Nat) (quad : Dict (Nat × Nat)) (hrow : WholeDict row) (hquad : WholeDict quad)
    (hb : absTotal quad + |f| * absTotal all * absTotal row < 2 ^ 53) (hb' : |f| * absTotal row < 2 ^ 53) :
    penQuadFl fl f all row quad = penQuad f all row quad ∧ WholeDict (penQuad f all row quad) ∧
      absTotal (penQuad f all row quad) ≤ absTotal quad + |f| * absTotal all * absTotal row := by
  induction row generalizing quad with
  | nil => exact ⟨rfl, hquad, by simp [penQuad, absTotal]⟩
  | cons p row ih =>
    obtain ⟨j, c⟩ := p
    obtain ⟨hc, hrow⟩ := wholeDict_cons hrow
    rw [absTotal_cons] at hb hb' ⊢
    simp only at hc hb hb' ⊢
    have n1 := abs_nonneg f
    have n3 := abs_nonneg c
    have n4 := absTotal_nonneg row
    have n6 := absTotal_nonneg all
    have m1 : 0 ≤ |f| * absTotal all * absTotal row := by positivity
    have m2 : 0 ≤ |f| * absTotal row := by positivity
    have m3 : 0 ≤ |f| * |c| := by positivity
    obtain ⟨r1, r2, r3⟩ := penQuadRowFl_eq h hf j hc all quad hall hquad (by linarith) (by linarith)
    obtain ⟨i1, i2, i3⟩ := ih (penQuadRow f j c all quad) hrow r2 (by linarith) (by linarith)
    simp only [penQuadFl, penQuad, r1]
    exact ⟨i1, i2, by linarith⟩

/-- The size of the terms: sum of all absolute values. -/
def PenTerms.size (t : PenTerms) : ℚ := |t.offset| + absTotal t.linear + absTotal t.quadratic

/-- All numbers are whole. -/
structure PenTerms.IsWhole (t : PenTerms) : Prop where
  offset : Whole t.offset
  linear : WholeDict t.linear
  quadratic : WholeDict t.quadratic

/-- The squares of the sums of the absolute values of the numbers in each constraint. -/
def squareTotal (l : List LinCst) : ℚ := (l.map fun c => (|c.rhs| + absTotal c.linear.coeffs) ^ 2).sum

theorem squareTotal_nonneg (l : List LinCst) : 0 ≤ squareTotal l :=
  List.sum_nonneg fun v hv => by
    obtain ⟨c, _, rfl⟩ := List.mem_map.mp hv
    positivity

theorem penLoopFl_eq {fl : ℚ → ℚ} (h : IsRounding fl) {f : ℚ} (hf : Whole f) (l : List LinCst) (t : PenTerms)
    (hl : ∀ c ∈ l, Whole c.rhs ∧ WholeDict c.linear.coeffs) (ht : t.IsWhole) (hb' : 2 * |f| < 2 ^ 53)
    (hb : t.size + |f| * squareTotal l < 2 ^ 51) :
    penLoopFl fl f l t = penLoop f l t ∧
      ∀ t', penLoop f l t = .ok t' → t'.IsWhole ∧ t'.size ≤ t.size + |f| * squareTotal l := by
  induction l generalizing t with
  | nil =>
    refine ⟨rfl, fun t' ht' => ?_⟩
    simp only [penLoop, Except.ok.injEq] at ht'
    subst ht'
    exact ⟨ht, by simp [squareTotal]⟩
  | cons c l ih =>
    by_cases hs : c.sense ≠ .eq
    · simp [penLoopFl, penLoop, hs]
    · obtain ⟨hr, hc⟩ := hl c List.mem_cons_self
      have hsq : squareTotal (c :: l) = (|c.rhs| + absTotal c.linear.coeffs) ^ 2 + squareTotal l := by simp [squareTotal]
      rw [hsq] at hb ⊢
      have n0 := squareTotal_nonneg l
      have n1 := abs_nonneg f
      have n2 := abs_nonneg c.rhs
      have n3 := absTotal_nonneg c.linear.coeffs
      have n4 := abs_nonneg t.offset
      have n5 := absTotal_nonneg t.linear
      have n6 := absTotal_nonneg t.quadratic
      have m0 : 0 ≤ |f| * squareTotal l := by positivity
      have m1 : 0 ≤ |f| * |c.rhs| ^ 2 := by positivity
      have m2 : 0 ≤ 2 * |f| * |c.rhs| * absTotal c.linear.coeffs := by positivity
      have m3 : 0 ≤ |f| * absTotal c.linear.coeffs * absTotal c.linear.coeffs := by positivity
      have hsum : |f| * ((|c.rhs| + absTotal c.linear.coeffs) ^ 2 + squareTotal l) = |f| * |c.rhs| ^ 2 +
          2 * |f| * |c.rhs| * absTotal c.linear.coeffs + |f| * absTotal c.linear.coeffs * absTotal c.linear.coeffs +
          |f| * squareTotal l := by ring
      rw [hsum] at hb ⊢
      have hTT : |f| * absTotal c.linear.coeffs ≤ |f| * absTotal c.linear.coeffs * absTotal c.linear.coeffs := by
        have := (absTotal_whole hc).abs_le_sq
        rw [abs_of_nonneg n3] at this
        rw [mul_assoc]
        exact mul_le_mul_of_nonneg_left this n1
      have hrr : |c.rhs| ^ 2 < 2 ^ 53 ∨ f = 0 := by
        rcases eq_or_ne f 0 with e | e
        · exact .inr e
        · left
          have : 1 ≤ |f| := by
            obtain ⟨m, rfl⟩ := hf
            have : 1 ≤ |m| := Int.one_le_abs (by rintro rfl; simp at e)
            exact_mod_cast this
          have : 1 * |c.rhs| ^ 2 ≤ |f| * |c.rhs| ^ 2 := mul_le_mul_of_nonneg_right this (by positivity)
          unfold PenTerms.size at hb
          rw [two_fifty]
          linarith
      have b4 : t.size + |f| * |c.rhs| ^ 2 + 2 * |f| * |c.rhs| * absTotal c.linear.coeffs +
          |f| * absTotal c.linear.coeffs * absTotal c.linear.coeffs < 2 ^ 51 := by linarith
      have b53 : (0 : ℚ) < 2 ^ 51 := by positivity
      have w2 : Whole (c.rhs ^ 2) := by rw [pow_two]; exact hr.mul hr
      have w3 := hf.mul w2
      have a3 : |f * c.rhs ^ 2| = |f| * |c.rhs| ^ 2 := by rw [abs_mul, abs_pow]
      have e1 : fl (f * fl (c.rhs ^ 2)) = f * c.rhs ^ 2 := by
        rcases hrr with hrr | h0
        · rw [fl_whole h w2 (by rw [abs_pow]; exact hrr), fl_whole h w3 (by rw [a3, two_fifty]; unfold PenTerms.size at b4; linarith)]
        · rw [h0, zero_mul, zero_mul]
          exact fl_whole h ⟨0, by simp⟩ (by simp)
      have hadd : |t.offset + f * c.rhs ^ 2| ≤ |t.offset| + |f * c.rhs ^ 2| := abs_add_le _ _
      rw [a3] at hadd
      have e2 : fl (t.offset + f * c.rhs ^ 2) = t.offset + f * c.rhs ^ 2 :=
        fl_whole h (ht.offset.add w3) (by rw [two_fifty]; unfold PenTerms.size at b4; linarith)
      obtain ⟨l1, l2, l3⟩ := penLinearFl_eq h hf hr c.linear.coeffs t.linear hc ht.linear
        (by rw [two_fifty]; unfold PenTerms.size at b4; linarith) hb'
        (by rw [two_fifty]; unfold PenTerms.size at b4; linarith)
      obtain ⟨q1, q2, q3⟩ := penQuadFl_eq h hf c.linear.coeffs hc c.linear.coeffs t.quadratic hc ht.quadratic
        (by rw [two_fifty]; unfold PenTerms.size at b4; linarith) (by rw [two_fifty]; unfold PenTerms.size at b4; linarith)
      have hsize : (⟨t.offset + f * c.rhs ^ 2, penLinear f c.rhs c.linear.coeffs t.linear,
          penQuad f c.linear.coeffs c.linear.coeffs t.quadratic⟩ : PenTerms).size ≤ t.size + |f| * |c.rhs| ^ 2 +
          2 * |f| * |c.rhs| * absTotal c.linear.coeffs + |f| * absTotal c.linear.coeffs * absTotal c.linear.coeffs := by
        unfold PenTerms.size
        simp only
        linarith
      obtain ⟨i1, i2⟩ := ih _ (fun c hc => hl c (List.mem_cons_of_mem _ hc))
        (⟨ht.offset.add w3, l2, q2⟩ : PenTerms.IsWhole ⟨t.offset + f * c.rhs ^ 2, penLinear f c.rhs c.linear.coeffs t.linear,
          penQuad f c.linear.coeffs c.linear.coeffs t.quadratic⟩) (by linarith)
      simp only [penLoopFl, penLoop, hs, if_false, e1, e2, l1, q1]
      refine ⟨i1, fun t' ht' => ?_⟩
      obtain ⟨j1, j2⟩ := i2 t' ht'
      exact ⟨j1, by linarith⟩

theorem erase_sublist {κ : Type} [DecidableEq κ] (d : Dict κ) (k : κ) : (Assoc.erase d k).Sublist d := by
  induction d with
  | nil => exact List.Sublist.refl _
  | cons p d ih =>
    obtain ⟨k', v⟩ := p
    simp only [Assoc.erase]
    split
    · exact List.sublist_cons_self _ _
    · exact ih.cons₂ _

theorem erase_absTotal {κ : Type} [DecidableEq κ] (d : Dict κ) (k : κ) : absTotal (Assoc.erase d k) ≤ absTotal d :=
  List.Sublist.sum_le_sum ((erase_sublist d k).map _) fun _ h => by
    obtain ⟨_, _, rfl⟩ := List.mem_map.mp h; exact abs_nonneg _

theorem dokSet_total {κ : Type} [DecidableEq κ] (d : Dict κ) (k : κ) (v : ℚ) :
    absTotal (Dict.dokSet d k v) ≤ absTotal d + |v| := by
  unfold Dict.dokSet
  split
  · linarith [erase_absTotal d k, abs_nonneg v]
  · linarith [set_absTotal d k v, abs_nonneg (Dict.get d k)]

theorem dokSet_whole {κ : Type} [DecidableEq κ] {d : Dict κ} (hd : WholeDict d) (k : κ) {v : ℚ} (hv : Whole v) :
    WholeDict (Dict.dokSet d k v) := by
  unfold Dict.dokSet
  split
  · exact fun p hp => hd p ((erase_sublist d k).subset hp)
  · exact (set_grid d hd.grid k v hv.grid).whole

theorem wholeDict_map {κ κ' : Type} {d : Dict κ} (h : WholeDict d) (f : κ → κ') :
    WholeDict (d.map fun q => (f q.1, q.2) : List (κ' × ℚ)) := fun p hp => by
  obtain ⟨q, hq, rfl⟩ := List.mem_map.mp hp
  exact h q hq

theorem absTotal_map {κ κ' : Type} (d : Dict κ) (f : κ → κ') :
    absTotal (d.map fun q => (f q.1, q.2) : List (κ' × ℚ)) = absTotal d := by
  simp [absTotal, List.map_map, Function.comp_def]

theorem quadOfEntries_whole {vi : Assoc String Nat} {n : Nat} (l : Dict (Key × Key)) (acc d : Dict (Nat × Nat))
    (hl : WholeDict l) (ha : WholeDict acc) (h : quadOfEntries vi n l acc = .ok d) :
    WholeDict d ∧ absTotal d ≤ absTotal acc + absTotal l := by
  induction l generalizing acc with
  | nil =>
    simp only [quadOfEntries, Except.ok.injEq] at h
    subst h
    exact ⟨ha, by simp [absTotal]⟩
  | cons p l ih =>
    obtain ⟨hp, hl⟩ := wholeDict_cons hl
    simp only [quadOfEntries] at h
    split at h
    · cases h
    split at h
    · cases h
    rename_i i _ _ j _
    obtain ⟨i1, i2⟩ := ih _ hl (dokSet_whole ha _ hp) h
    have := dokSet_total acc (i, j) p.2
    rw [absTotal_cons]
    exact ⟨i1, i2.trans (by linarith)⟩

theorem linOfEntries_whole {vi : Assoc String Nat} {n : Nat} (l : Dict Key) (acc d : Dict Nat)
    (hl : WholeDict l) (ha : WholeDict acc) (h : linOfEntries vi n l acc = .ok d) :
    WholeDict d ∧ absTotal d ≤ absTotal acc + absTotal l := by
  induction l generalizing acc with
  | nil =>
    simp only [linOfEntries, Except.ok.injEq] at h
    subst h
    exact ⟨ha, by simp [absTotal]⟩
  | cons p l ih =>
    obtain ⟨hp, hl⟩ := wholeDict_cons hl
    simp only [linOfEntries] at h
    split at h
    · cases h
    rename_i i _
    obtain ⟨i1, i2⟩ := ih _ hl (dokSet_whole ha _ hp) h
    have := dokSet_total acc i p.2
    rw [absTotal_cons]
    exact ⟨i1, i2.trans (by linarith)⟩

theorem triangleFl_eq {fl : ℚ → ℚ} (h : IsRounding fl) (mat : Dict (Nat × Nat)) (hm : WholeDict mat)
    (hb : absTotal mat < 2 ^ 51) :
    triangleFl fl mat = triangle mat ∧ WholeDict (triangle mat) ∧ absTotal (triangle mat) ≤ 3 * absTotal mat := by
  have hlow : absTotal (mat.filter fun p => p.1.2 < p.1.1) ≤ absTotal mat :=
    List.Sublist.sum_le_sum (List.filter_sublist.map _) fun _ h => by
      obtain ⟨_, _, rfl⟩ := List.mem_map.mp h; exact abs_nonneg _
  have hlw : WholeDict (mat.filter fun p => p.1.2 < p.1.1) := fun p hp => hm p (List.mem_of_mem_filter hp)
  have htr : ((transpose (mat.filter fun p => p.1.2 < p.1.1)).map fun a => |a.2|).sum =
      absTotal (mat.filter fun p => p.1.2 < p.1.1) := by
    simp [transpose, absTotal, List.map_map, Function.comp_def]
  obtain ⟨h1, h2, h3⟩ := foldl_addFl h (k := 0) (fun p : (Nat × Nat) × ℚ => p.1) (fun p => p.2)
    (transpose (mat.filter fun p => p.1.2 < p.1.1)) mat hm.grid (fun p hp => by
      obtain ⟨q, hq, rfl⟩ := List.mem_map.mp hp
      exact (hlw q hq).grid) (by rw [htr, two_fifty, pow_zero, div_one]; linarith)
  rw [htr] at h3
  have hneg : ((mat.filter fun p => p.1.2 < p.1.1).map fun a => |-a.2|).sum =
      absTotal (mat.filter fun p => p.1.2 < p.1.1) := by simp [absTotal]
  obtain ⟨g1, g2, g3⟩ := foldl_addFl h (k := 0) (fun p : (Nat × Nat) × ℚ => p.1) (fun p => -p.2)
    (mat.filter fun p => p.1.2 < p.1.1) _ h2 (fun p hp => (hlw p hp).neg.grid)
    (by rw [hneg, two_fifty, pow_zero, div_one]; linarith)
  rw [hneg] at g3
  refine ⟨?_, fun p hp => ?_, ?_⟩
  · unfold triangleFl triangle csrMinus dokPlus
    simp only
    rw [h1, g1]
  · exact g2.whole p (List.mem_of_mem_filter hp)
  · have : absTotal (triangle mat) ≤ absTotal (List.foldl (fun acc (a : (Nat × Nat) × ℚ) => Dict.add acc a.1 (-a.2))
        (List.foldl (fun acc (a : (Nat × Nat) × ℚ) => Dict.add acc a.1 a.2) mat
          (transpose (mat.filter fun p => p.1.2 < p.1.1))) (mat.filter fun p => p.1.2 < p.1.1)) :=
      List.Sublist.sum_le_sum (List.filter_sublist.map _) fun _ h => by
        obtain ⟨_, _, rfl⟩ := List.mem_map.mp h; exact abs_nonneg _
    linarith

/-- The numbers of a program: objective, and for the constraints the squares times the penalty. -/
def QP.quboSize (p : QP) (pen : ℚ) : ℚ :=
  |p.objective.constant| + absTotal p.objective.linear.coeffs + absTotal p.objective.quadratic.coeffs +
    |pen| * squareTotal p.lins

/-- All coefficients, constants and right-hand sides of linear constraints are whole numbers. -/
structure QP.IsWhole (p : QP) : Prop where
  constant : Whole p.objective.constant
  linear : WholeDict p.objective.linear.coeffs
  quadratic : WholeDict p.objective.quadratic.coeffs
  lins : ∀ c ∈ p.lins, Whole c.rhs ∧ WholeDict c.linear.coeffs

theorem toPenaltyFl_core {fl : ℚ → ℚ} (h : IsRounding fl) (src : QP) (hw : src.IsWhole) (penalty : Option ℚ) (pen : ℚ)
    (hp1 : penalty.getD (autoPenaltyFl fl src) = pen) (hp2 : penalty.getD (autoPenalty src) = pen) (hp : Whole pen)
    (hpb : |pen| ≤ 2 ^ 51) (hb : src.quboSize pen < 2 ^ 51) :
    src.toPenaltyFl fl penalty = src.toPenalty penalty ∧ ∀ dst pen', src.toPenalty penalty = .ok (dst, pen') →
      Whole dst.objective.constant ∧ WholeDict dst.objective.linear.coeffs ∧ WholeDict dst.objective.quadratic.coeffs ∧
      |dst.objective.constant| + absTotal dst.objective.linear.coeffs + absTotal dst.objective.quadratic.coeffs ≤
        3 * src.quboSize pen := by
  have wf : Whole (src.objective.sense.value * pen) := by rw [mul_comm]; exact whole_sense hp _
  have af : |src.objective.sense.value * pen| = |pen| := by rw [mul_comm]; exact abs_sense _ _
  have b53 : (0 : ℚ) < 2 ^ 51 := by positivity
  have ef : fl (src.objective.sense.value * pen) = src.objective.sense.value * pen :=
    fl_whole h wf (by rw [af, two_fifty]; linarith)
  obtain ⟨l1, l2⟩ := penLoopFl_eq h wf src.lins
    ⟨src.objective.constant, src.objective.linear.coeffs, src.objective.quadratic.coeffs⟩ hw.lins
    ⟨hw.constant, hw.linear, hw.quadratic⟩ (by rw [af, two_fifty]; linarith) (by rw [af]; exact hb)
  rw [af] at l2
  unfold QP.toPenaltyFl QP.toPenalty
  simp only [hp1, hp2, ef, QuadExpr.toDict, Bool.false_eq_true, if_false, l1]
  cases copyAllVars src.vars (QP.empty src.name) with
  | error e => simp
  | ok dst =>
    cases hL : penLoop (src.objective.sense.value * pen) src.lins
      ⟨src.objective.constant, src.objective.linear.coeffs, src.objective.quadratic.coeffs⟩ with
    | error e => simp
    | ok t =>
      obtain ⟨tw, ts⟩ := l2 t hL
      have ts : t.size ≤ src.quboSize pen := ts
      have n1 := abs_nonneg t.offset
      have n2 := absTotal_nonneg t.linear
      have n3 := absTotal_nonneg t.quadratic
      simp only [QP.setObjectiveFl, QP.setObjective, QuadExpr.ofInput, quadIdx, linIdx]
      cases hl : LinExpr.ofInput dst.varsIndex dst.numVars (.dict (t.linear.map fun q => (.idx q.1, q.2))) with
      | error e => simp
      | ok l =>
        cases hq : quadOfEntries dst.varsIndex dst.numVars
            (t.quadratic.map fun q => ((Key.idx q.1.1, Key.idx q.1.2), q.2)) [] with
        | error e => simp
        | ok d =>
          obtain ⟨d1, d2⟩ := quadOfEntries_whole _ [] d (wholeDict_map tw.quadratic fun k => (Key.idx k.1, Key.idx k.2))
            (fun p hp => by simp at hp) hq
          rw [absTotal_map t.quadratic fun k => (Key.idx k.1, Key.idx k.2)] at d2
          have d2 : absTotal d ≤ absTotal t.quadratic := by simpa [absTotal] using d2
          obtain ⟨t1, t2, t3⟩ := triangleFl_eq h d d1 (by unfold PenTerms.size at ts; linarith)
          simp only [t1, Except.ok.injEq, Prod.mk.injEq, and_imp, true_and]
          rintro dst' pen' rfl -
          refine ⟨tw.offset, ?_⟩
          unfold LinExpr.ofInput at hl
          simp only at hl
          split at hl
          · cases hl
          · rename_i ld hld
            simp only [Except.ok.injEq] at hl
            subst hl
            obtain ⟨k1, k2⟩ := linOfEntries_whole _ [] ld (wholeDict_map tw.linear fun k => Key.idx k) (fun p hp => by simp at hp) hld
            rw [absTotal_map t.linear fun k => Key.idx k] at k2
            have k2 : absTotal ld ≤ absTotal t.linear := by simpa [absTotal] using k2
            refine ⟨k1, t2, ?_⟩
            unfold PenTerms.size at ts
            simp only
            linarith

theorem autoPenaltyFl_eq {fl : ℚ → ℚ} (h : IsRounding fl) (src : QP) (hw : src.IsWhole)
    (hb : absTotal src.objective.linear.coeffs + absTotal src.objective.quadratic.coeffs < 2 ^ 51) :
    autoPenaltyFl fl src = autoPenalty src ∧ Whole (autoPenalty src) ∧ |autoPenalty src| ≤ 2 ^ 51 := by
  have hsum : ((1 : ℚ) :: (src.objective.linear.coeffs.values.map abs ++
      (src.objective.quadratic.toDict false).values.map abs)).sum =
      1 + (absTotal src.objective.linear.coeffs + absTotal src.objective.quadratic.coeffs) := by
    simp [Dict.values, absTotal, QuadExpr.toDict, List.map_map, Function.comp_def]
  have n1 := absTotal_nonneg src.objective.linear.coeffs
  have n2 := absTotal_nonneg src.objective.quadratic.coeffs
  have hww := (absTotal_whole hw.linear).add (absTotal_whole hw.quadratic)
  have hw1 : Whole (1 + (absTotal src.objective.linear.coeffs + absTotal src.objective.quadratic.coeffs)) :=
    Whole.add ⟨1, by norm_num⟩ hww
  have hle : 1 + (absTotal src.objective.linear.coeffs + absTotal src.objective.quadratic.coeffs) ≤ 2 ^ 51 := by
    obtain ⟨m, hm⟩ := hww
    rw [hm] at hb ⊢
    have : m < 2 ^ 51 := by exact_mod_cast hb
    have : 1 + m ≤ 2 ^ 51 := by omega
    exact_mod_cast this
  unfold autoPenaltyFl autoPenalty
  rw [hsum]
  split
  · exact ⟨rfl, ⟨100000, by norm_num⟩, by norm_num⟩
  · have b0 : (0 : ℚ) ≤ 1 + (absTotal src.objective.linear.coeffs + absTotal src.objective.quadratic.coeffs) := by linarith
    refine ⟨fl_whole h hw1 ?_, hw1, ?_⟩
    · rw [abs_of_nonneg b0, two_fifty]; linarith
    · rw [abs_of_nonneg b0]; exact hle

theorem quboSize_ge (src : QP) (pen : ℚ) :
    absTotal src.objective.linear.coeffs + absTotal src.objective.quadratic.coeffs ≤ src.quboSize pen := by
  have := abs_nonneg src.objective.constant
  have := mul_nonneg (abs_nonneg pen) (squareTotal_nonneg src.lins)
  unfold QP.quboSize
  linarith

theorem toPenaltyFl_all {fl : ℚ → ℚ} (h : IsRounding fl) (src : QP) (hw : src.IsWhole) (penalty : Option ℚ)
    (hp : ∀ q, penalty = some q → Whole q ∧ |q| ≤ 2 ^ 51) (hb : src.quboSize (penalty.getD (autoPenalty src)) < 2 ^ 51) :
    src.toPenaltyFl fl penalty = src.toPenalty penalty ∧ ∀ dst pen', src.toPenalty penalty = .ok (dst, pen') →
      Whole dst.objective.constant ∧ WholeDict dst.objective.linear.coeffs ∧ WholeDict dst.objective.quadratic.coeffs ∧
      |dst.objective.constant| + absTotal dst.objective.linear.coeffs + absTotal dst.objective.quadratic.coeffs ≤
        3 * src.quboSize (penalty.getD (autoPenalty src)) := by
  obtain ⟨a1, a2, a3⟩ := autoPenaltyFl_eq h src hw (lt_of_le_of_lt (quboSize_ge src _) hb)
  cases penalty with
  | none => exact toPenaltyFl_core h src hw none _ a1 rfl a2 a3 hb
  | some q => exact toPenaltyFl_core h src hw (some q) q rfl rfl (hp q rfl).1 (hp q rfl).2 hb

/-- **C102** (penalty conversion): with whole coefficients, constants and right-hand sides, the conversion of linear equality
constraints to penalty terms computed with rounding after every operation gives the same program and the same penalty as exact
arithmetic, if the absolute values of the coefficients of the objective plus the penalty times the squared sums of the absolute
values in each constraint stay below `2 ^ 51`. -/
theorem C102_penalty {fl : ℚ → ℚ} (h : IsRounding fl) (src : QP) (hw : src.IsWhole) (penalty : Option ℚ)
    (hp : ∀ q, penalty = some q → Whole q ∧ |q| ≤ 2 ^ 51) (hb : src.quboSize (penalty.getD (autoPenalty src)) < 2 ^ 51) :
    src.toPenaltyFl fl penalty = src.toPenalty penalty :=
  (toPenaltyFl_all h src hw penalty hp hb).1

/-- **C102** (Ising Hamiltonian): then the Hamiltonian made of the converted program is exact as well. -/
theorem C102_ising {fl : ℚ → ℚ} (h : IsRounding fl) (src : QP) (hw : src.IsWhole) (penalty : Option ℚ)
    (hp : ∀ q, penalty = some q → Whole q ∧ |q| ≤ 2 ^ 51) (hb : src.quboSize (penalty.getD (autoPenalty src)) < 2 ^ 49)
    (dst : QP) (pen : ℚ) (hd : src.toPenaltyFl fl penalty = .ok (dst, pen)) : dst.toIsingFl fl = dst.toIsing := by
  obtain ⟨h1, h2⟩ := toPenaltyFl_all h src hw penalty hp (lt_trans hb (by norm_num))
  rw [h1] at hd
  obtain ⟨w1, w2, w3, w4⟩ := h2 dst pen hd
  exact C98_ising h dst w1 w2 w3 (by rw [show (2 : ℚ) ^ 51 = 4 * 2 ^ 49 by norm_num]; linarith [show (0 : ℚ) < 2 ^ 49 by positivity])

/-- **C102** (end to end): the automatic penalty, the QUBO and the Hamiltonian are all computed with rounding; a bit string of
least energy is an optimal point of the program it was made from. -/
theorem C102_optimum {fl : ℚ → ℚ} (h : IsRounding fl) (src : QP) (hs : src.WF) (hw : src.IsWhole)
    (hv : ∀ v ∈ src.vars, v.vartype = .binary ∧ v.lb = 0 ∧ v.ub = 1) (hq : src.quads = [])
    (hb : src.quboSize (autoPenalty src) < 2 ^ 49) (dst : QP) (pen : ℚ) (hd : src.toPenaltyFl fl none = .ok (dst, pen))
    (op : QubitOp) (offset : ℚ) (ho : dst.toIsingFl fl = .ok (op, offset)) (hfeas : ∃ x, src.Feas x) (b : Nat → ℚ)
    (hbits : IsBits src.numVars b) (hmin : ∀ b', IsBits src.numVars b' → op.energy b ≤ op.energy b') :
    OptimalIn src.Feas src.objective b := by
  have hd' := hd
  rw [C102_penalty h src hw none (by simp) (lt_trans hb (by norm_num))] at hd'
  rw [C102_ising h src hw none (by simp) hb dst pen hd] at ho
  have hf := toPenalty_facts hs hd'
  obtain ⟨_, c, hen⟩ := toIsing_shift ho
  have hbb : src.BinBoundsOK := fun v hm _ => (hv v hm).2
  have hvars : dst.vars = src.vars := by rw [hf.vars]; exact map_plainVar hbb
  have hnum : dst.numVars = src.numVars := by rw [QP.numVars, QP.numVars, hvars]
  have hfe : ∀ y, dst.Feas y ↔ IsBits src.numVars y := fun y => by
    rw [feas_iff_admits]
    constructor
    · rintro ⟨ha, _⟩ i hi
      have hx : dst.vars[i]? = some (src.vars[i]'hi) := by rw [hvars]; exact List.getElem?_eq_getElem hi
      obtain ⟨t, l, u⟩ := hv _ (List.getElem_mem hi)
      have hA := ha i _ hx
      exact binary_val (by rw [← l]; exact hA.1.1) (by rw [← u]; exact hA.1.2) (hA.2 (by rw [t]; simp))
    · intro hy
      refine ⟨fun i v hx => ?_, by unfold QP.Sat; rw [hf.csts]; simp⟩
      rw [hvars] at hx
      have hi := (List.getElem?_eq_some_iff.mp hx).1
      obtain ⟨t, l, u⟩ := hv v (List.mem_of_getElem? hx)
      refine ⟨?_, fun _ => ?_⟩
      · rw [l, u]; rcases hy i hi with g | g <;> rw [g] <;> norm_num
      · rcases hy i hi with g | g
        · exact ⟨0, by rw [g]; simp⟩
        · exact ⟨1, by rw [g]; simp⟩
  refine (C20_exact_partial src dst pen hs (fun v hm => ?_) hbb hq hw.lins hd' hfeas b ⟨(hfe b).mpr hbits, fun y hy => ?_⟩).1
  · obtain ⟨e1, e2, e3⟩ := hv v hm
    rw [e1, e2, e3]
    exact ⟨by simp, le_refl _, le_refl _⟩
  · have hy := (hfe y).mp hy
    have := hmin y hy
    rw [hen b (by rw [hnum]; exact hbits), hen y (by rw [hnum]; exact hy)] at this
    linarith

/-! ## A concrete program -/

/-- `minimize 2 x - 3 x y` with `x + 2 y = 2`, binary variables. -/
def wholeQP : QP :=
  (runCalls (QP.empty "w") [.addVar 0 1 .binary (some "x"), .addVar 0 1 .binary (some "y"),
    .objective .minimize 0 (.dict [(.name "x", 2)]) (.dict [((.name "x", .name "y"), -3)]),
    .linear (.dict [(.name "x", 1), (.name "y", 2)]) (.str "==") 2 (some "c")]).2

theorem whole_of_den {q : ℚ} (h : q.den = 1) : Whole q := ⟨q.num, (Rat.den_eq_one_iff q).mp h |>.symm⟩

theorem wholeQP_whole : wholeQP.IsWhole where
  constant := whole_of_den (by decide +kernel)
  linear p hp := whole_of_den ((by decide +kernel : ∀ p ∈ wholeQP.objective.linear.coeffs, p.2.den = 1) p hp)
  quadratic p hp := whole_of_den ((by decide +kernel : ∀ p ∈ wholeQP.objective.quadratic.coeffs, p.2.den = 1) p hp)
  lins c hc := ⟨whole_of_den ((by decide +kernel : ∀ c ∈ wholeQP.lins, c.rhs.den = 1) c hc), fun p hp =>
    whole_of_den ((by decide +kernel : ∀ c ∈ wholeQP.lins, ∀ p ∈ c.linear.coeffs, p.2.den = 1) c hc p hp)⟩

/-- The conditions of `C102_penalty`, `C102_ising` and `C102_optimum` are met, for every rounding. -/
example {fl : ℚ → ℚ} (h : IsRounding fl) : wholeQP.WF ∧ wholeQP.IsWhole ∧
    (∀ v ∈ wholeQP.vars, v.vartype = .binary ∧ v.lb = 0 ∧ v.ub = 1) ∧ wholeQP.quads = [] ∧
    wholeQP.quboSize (autoPenalty wholeQP) < 2 ^ 49 ∧ (∃ x, wholeQP.Feas x) ∧
    ∃ dst op offset, wholeQP.toPenaltyFl fl none = .ok (dst, 6) ∧ dst.toIsingFl fl = .ok (op, offset) ∧
      op.energy (pt [0, 1]) + offset = 0 := by
  have hsize : wholeQP.quboSize (autoPenalty wholeQP) < 2 ^ 49 := by decide +kernel
  have hrun : ∃ dst op offset, wholeQP.toPenalty none = .ok (dst, 6) ∧ dst.toIsing = .ok (op, offset) ∧
      op.energy (pt [0, 1]) + offset = 0 := by
    have h1 : (match wholeQP.toPenalty none with
      | .ok (dst, pen) => (match dst.toIsing with
        | .ok (op, offset) => decide (pen = 6 ∧ op.energy (pt [0, 1]) + offset = 0)
        | .error _ => false)
      | .error _ => false) = true := by decide +kernel
    cases hd : wholeQP.toPenalty none with
    | error e => rw [hd] at h1; cases h1
    | ok r =>
      obtain ⟨dst, pen⟩ := r
      rw [hd] at h1
      simp only at h1
      cases ho : dst.toIsing with
      | error e => rw [ho] at h1; cases h1
      | ok r =>
        obtain ⟨op, offset⟩ := r
        rw [ho] at h1
        simp only [decide_eq_true_eq] at h1
        obtain ⟨rfl, h1⟩ := h1
        exact ⟨dst, op, offset, rfl, ho, h1⟩
  obtain ⟨dst, op, offset, hd, ho, he⟩ := hrun
  have hd' := hd
  rw [← C102_penalty h wholeQP wholeQP_whole none (by simp) (lt_trans hsize (by norm_num))] at hd'
  refine ⟨by decide +kernel, wholeQP_whole, by decide +kernel, by decide +kernel, hsize, ?_, dst, op, offset, hd', ?_, he⟩
  · have hv : wholeQP.vars = [⟨"x", 0, 1, .binary⟩, ⟨"y", 0, 1, .binary⟩] := by decide +kernel
    refine ⟨pt [0, 1], fun i v hi => ?_, fun i v hi _ => ?_, ?_⟩
    · rw [hv] at hi
      match i, hi with
      | 0, hi => simp at hi; subst hi; simp [pt]
      | 1, hi => simp at hi; subst hi; simp [pt]
    · match i with
      | 0 => exact ⟨0, by simp [pt]⟩
      | 1 => exact ⟨1, by simp [pt]⟩
      | i + 2 => exact ⟨0, by simp [pt]⟩
    · show ∀ c ∈ wholeQP.allCsts, _
      have hc : wholeQP.allCsts = [.lin ⟨"c", ⟨2, [(0, 1), (1, 2)]⟩, .eq, 2⟩] := by decide +kernel
      rw [hc]
      simp [Cst.sense, Cst.val, Cst.rhs, Sense.rel, LinExpr.val, Dict.sum, pt]
  · rw [C102_ising h wholeQP wholeQP_whole none (by simp) hsize dst 6 hd', ho]

end Verif
