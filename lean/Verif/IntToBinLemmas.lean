import Verif.IntToBin
import Verif.WFLemmas
import Verif.SubstTableLemmas
import Mathlib.Data.List.Nodup
import Mathlib.Data.List.Pairwise

/-!
# Helper lemmas: integer-to-binary conversion
-/

namespace Verif

/-! ## Folding assignments -/

/-- Assigning the entries of a list one by one. -/
def setAll {κ : Type} [DecidableEq κ] (d l : Dict κ) : Dict κ := l.foldl (fun d q => Assoc.set d q.1 q.2) d

theorem setAll_append {κ : Type} [DecidableEq κ] (d l m : Dict κ) : setAll d (l ++ m) = setAll (setAll d l) m := by
  simp [setAll, List.foldl_append]

theorem setAll_fresh {κ : Type} [DecidableEq κ] (d l : Dict κ) (h : (Assoc.keys d ++ Assoc.keys l).Nodup) :
    setAll d l = d ++ l := by
  induction l generalizing d with
  | nil => simp [setAll]
  | cons q l ih =>
    have hq : q.1 ∉ Assoc.keys d := by
      intro hm
      rw [List.nodup_append] at h
      exact h.2.2 _ hm q.1 (by simp [Assoc.keys]) rfl
    show setAll (Assoc.set d q.1 q.2) l = _
    rw [Assoc.set_of_not_mem hq, ih]
    · simp
    · simpa [Assoc.keys] using h

/-! ## Encoded names -/

/-- Names of the variables of the result that stand for the source variable `s`. -/
def outs (conv : Conv) (s : String) : List String :=
  match Assoc.get? conv s with
  | some enc => enc.map Prod.fst
  | none => [s]

/-- Lower bound of the variable named `s`. -/
def lbAt (src : QP) (s : String) : ℚ :=
  match src.getVariable (.name s) with
  | .ok v => v.lb
  | .error _ => 0

/-- Value of the source variable `s` decoded from values `Y` of the result's variables. -/
def encVal (src : QP) (conv : Conv) (Y : String → ℚ) (s : String) : ℚ :=
  match Assoc.get? conv s with
  | some enc => (enc.map fun p => Y p.1 * p.2).sum + lbAt src s
  | none => Y s

/-- Block of linear coefficients. -/
def linBlock (conv : Conv) (q : String × ℚ) : Dict String :=
  match Assoc.get? conv q.1 with
  | some enc => enc.map fun p => (p.1, q.2 * p.2)
  | none => [(q.1, q.2)]

/-- Constant of a linear term. -/
def linConst (src : QP) (conv : Conv) (q : String × ℚ) : ℚ :=
  match Assoc.get? conv q.1 with
  | some _ => q.2 * lbAt src q.1
  | none => 0

theorem name_ok {p : QP} (hp : p.Consistent) {s : String} (h : s ∈ p.vars.map Variable.name) :
    ∃ v, p.getVariable (.name s) = .ok v ∧ v.name = s ∧ v ∈ p.vars := by
  obtain ⟨v, hv, rfl⟩ := List.mem_map.mp h
  obtain ⟨i, hi⟩ := List.mem_iff_getElem?.mp hv
  exact ⟨v, (getVariable_iff hp _ _).mpr ⟨i, by simp [QP.Denotes, hi], hi⟩, rfl, hv⟩

theorem lbAt_var {p : QP} (hp : p.Consistent) {v : Variable} (h : v ∈ p.vars) : lbAt p v.name = v.lb := by
  obtain ⟨w, hw, hn, hm⟩ := name_ok hp (List.mem_map_of_mem h)
  rw [lbAt, hw, unique_name hp hm h hn]

theorem i2bLin_eq {src : QP} (hs : src.Consistent) (conv : Conv) (l : Dict String) (lin : Dict String) (c : ℚ)
    (hl : ∀ s ∈ Assoc.keys l, s ∈ src.vars.map Variable.name) :
    i2bLin src conv l lin c =
      .ok (setAll lin (l.flatMap (linBlock conv)), c + (l.map (linConst src conv)).sum) := by
  induction l generalizing lin c with
  | nil => simp [i2bLin, setAll]
  | cons q l ih =>
    obtain ⟨s, v⟩ := q
    obtain ⟨x, hx, hn, _⟩ := name_ok hs (hl s (by simp [Assoc.keys]))
    have hl' := fun s hs => hl s (List.mem_cons_of_mem _ hs)
    simp only [i2bLin, hx, hn]
    have hlb : lbAt src s = x.lb := by simp [lbAt, hx]
    cases hg : Assoc.get? conv s with
    | some enc =>
      simp only
      rw [ih _ _ hl']
      simp only [List.flatMap_cons, setAll_append, List.map_cons, List.sum_cons, linBlock, linConst, hg]
      congr 2
      · simp [setAll, List.foldl_map]
      · rw [hlb]; ring
    | none =>
      simp only
      rw [ih _ _ hl']
      simp only [List.flatMap_cons, setAll_append, List.map_cons, List.sum_cons, linBlock, linConst, hg]
      congr 2
      ring

theorem linBlock_keys (conv : Conv) (q : String × ℚ) : Assoc.keys (linBlock conv q) = outs conv q.1 := by
  unfold linBlock outs Assoc.keys
  split <;> simp [*]

theorem keys_flatMap {α κ : Type} [DecidableEq κ] (l : List α) (f : α → Dict κ) :
    Assoc.keys (l.flatMap f) = l.flatMap fun a => Assoc.keys (f a) := by
  simp [Assoc.keys, List.map_flatMap]

theorem Dict.sum_flatMap {α κ : Type} [DecidableEq κ] (l : List α) (f : α → Dict κ) (g : κ → ℚ) :
    Dict.sum (l.flatMap f) g = (l.map fun a => Dict.sum (f a) g).sum := by
  induction l with
  | nil => simp
  | cons a l ih => simp [ih]

theorem sum_map_mul_left' {α : Type} (l : List α) (f : α → ℚ) (c : ℚ) :
    (l.map fun a => c * f a).sum = c * (l.map f).sum := by
  induction l with
  | nil => simp
  | cons a l ih => simp [ih]; ring

theorem Dict.sum_map_pair {α κ : Type} [DecidableEq κ] (l : List α) (k : α → κ) (v : α → ℚ) (g : κ → ℚ) :
    Dict.sum (l.map fun a => (k a, v a)) g = (l.map fun a => v a * g (k a)).sum := by
  induction l with
  | nil => simp
  | cons a l ih => simp [ih]

theorem linBlock_sum (src : QP) (conv : Conv) (q : String × ℚ) (Y : String → ℚ) :
    Dict.sum (linBlock conv q) Y + linConst src conv q = q.2 * encVal src conv Y q.1 := by
  unfold linBlock linConst encVal
  cases hg : Assoc.get? conv q.1 with
  | some enc =>
    simp only
    rw [Dict.sum_map_pair, mul_add, ← sum_map_mul_left']
    congr 3
    funext p; ring
  | none => simp

/-- The encoding is injective: no variable of the result stands for two source variables. -/
structure OutsOK (src : QP) (conv : Conv) : Prop where
  nodup : ∀ s ∈ src.vars.map Variable.name, (outs conv s).Nodup
  inj : ∀ s ∈ src.vars.map Variable.name, ∀ t ∈ src.vars.map Variable.name,
    ∀ a, a ∈ outs conv s → a ∈ outs conv t → s = t

theorem outsOK_of_nodup {src : QP} (hs : src.Consistent) {conv : Conv}
    (h : ((src.vars.map Variable.name).flatMap (outs conv)).Nodup) : OutsOK src conv := by
  rw [List.nodup_flatMap] at h
  refine ⟨h.1, ?_⟩
  intro s hs' t ht a ha hb
  by_contra hne
  have : Std.Symm (Function.onFun List.Disjoint (outs conv)) :=
    ⟨fun a b (hd : List.Disjoint _ _) => (fun x h1 h2 => hd h2 h1 : List.Disjoint _ _)⟩
  exact (h.2.forall hs' ht hne) ha hb

theorem flatMap_nodup {κ : Type} [DecidableEq κ] {α : Type} {l : List κ} (f : κ → List α) (hn : l.Nodup)
    (h1 : ∀ k ∈ l, (f k).Nodup) (h2 : ∀ k ∈ l, ∀ m ∈ l, ∀ a, a ∈ f k → a ∈ f m → k = m) :
    (l.flatMap f).Nodup := by
  rw [List.nodup_flatMap]
  refine ⟨h1, ?_⟩
  refine List.Pairwise.imp_of_mem ?_ hn
  intro a b ha hb hab
  intro x hx hy
  exact hab (h2 a ha b hb x hx hy)

/-- Linear part: stored dictionary and its value. -/
theorem i2bLin_spec {src : QP} (hs : src.Consistent) {conv : Conv} (ho : OutsOK src conv) (l : Dict String)
    (hl : ∀ s ∈ Assoc.keys l, s ∈ src.vars.map Variable.name) (hn : (Assoc.keys l).Nodup) :
    ∃ d c, i2bLin src conv l [] 0 = .ok (d, c) ∧ (Assoc.keys d).Nodup ∧
      (∀ a ∈ Assoc.keys d, ∃ s ∈ Assoc.keys l, a ∈ outs conv s) ∧
      ∀ Y, Dict.sum d Y + c = Dict.sum l (encVal src conv Y) := by
  have hk : Assoc.keys (l.flatMap (linBlock conv)) = (Assoc.keys l).flatMap (outs conv) := by
    rw [keys_flatMap]
    simp only [linBlock_keys]
    simp only [Assoc.keys, List.flatMap_map]
  have hnd : (Assoc.keys (l.flatMap (linBlock conv))).Nodup := by
    rw [hk]
    exact flatMap_nodup _ hn (fun k hk => ho.nodup k (hl k hk))
      (fun k hk m hm a => ho.inj k (hl k hk) m (hl m hm) a)
  refine ⟨l.flatMap (linBlock conv), (l.map (linConst src conv)).sum, ?_, hnd, ?_, ?_⟩
  · rw [i2bLin_eq hs conv l [] 0 hl, setAll_fresh _ _ (by simpa [Assoc.keys] using hnd)]
    simp
  · intro a ha
    rw [hk] at ha
    simpa using List.mem_flatMap.mp ha
  · intro Y
    rw [Dict.sum_flatMap]
    clear hk hnd hl hn
    induction l with
    | nil => simp
    | cons q l ih =>
      simp only [List.map_cons, List.sum_cons, Dict.sum_cons]
      rw [← ih, ← linBlock_sum]; ring

/-! ## Quadratic part -/

/-- Pairs of weighted outputs of a variable. -/
def wouts (conv : Conv) (s : String) : List (String × ℚ) :=
  match Assoc.get? conv s with
  | some enc => enc
  | none => [(s, 1)]

theorem wouts_fst (conv : Conv) (s : String) : (wouts conv s).map Prod.fst = outs conv s := by
  unfold wouts outs; split <;> simp [*]

/-- Block of quadratic coefficients. -/
def quadBlock (conv : Conv) (q : (String × String) × ℚ) : Dict (String × String) :=
  (wouts conv q.1.1).flatMap fun a => (wouts conv q.1.2).map fun b => ((a.1, b.1), q.2 * a.2 * b.2)

/-- Linear additions of a quadratic term, as the code makes them. -/
def quadLin (src : QP) (conv : Conv) (q : (String × String) × ℚ) : Dict String :=
  match Assoc.get? conv q.1.1, Assoc.get? conv q.1.2 with
  | some _, none => [(q.1.2, q.2 * lbAt src q.1.1)]
  | none, some _ => [(q.1.1, q.2 * lbAt src q.1.2)]
  | some ex, some ey => ex.map (fun p => (p.1, q.2 * lbAt src q.1.2)) ++ ey.map fun p => (p.1, q.2 * lbAt src q.1.1)
  | none, none => []

/-- Constant of a quadratic term. -/
def quadConst (src : QP) (conv : Conv) (q : (String × String) × ℚ) : ℚ :=
  match Assoc.get? conv q.1.1, Assoc.get? conv q.1.2 with
  | some _, some _ => q.2 * lbAt src q.1.1 * lbAt src q.1.2
  | _, _ => 0

theorem dokPlus_append {κ : Type} [DecidableEq κ] (d l m : Dict κ) :
    dokPlus d (l ++ m) = dokPlus (dokPlus d l) m := by simp [dokPlus, List.foldl_append]

theorem i2bQuad_eq {src : QP} (hs : src.Consistent) (conv : Conv) (l : Dict (String × String))
    (quad : Dict (String × String)) (lin : Dict String) (c : ℚ)
    (hl : ∀ s ∈ Assoc.keys l, s.1 ∈ src.vars.map Variable.name ∧ s.2 ∈ src.vars.map Variable.name) :
    i2bQuad src conv l quad lin c =
      .ok (setAll quad (l.flatMap (quadBlock conv)), dokPlus lin (l.flatMap (quadLin src conv)),
        c + (l.map (quadConst src conv)).sum) := by
  induction l generalizing quad lin c with
  | nil => simp [i2bQuad, setAll, dokPlus]
  | cons q l ih =>
    obtain ⟨⟨s, t⟩, v⟩ := q
    obtain ⟨h1, h2⟩ := hl (s, t) (by simp [Assoc.keys])
    obtain ⟨x, hx, hn, _⟩ := name_ok hs h1
    obtain ⟨y, hy, hm, _⟩ := name_ok hs h2
    have hl' := fun s hs => hl s (List.mem_cons_of_mem _ hs)
    simp only [i2bQuad, hx, hy, hn, hm]
    have hlx : lbAt src s = x.lb := by simp [lbAt, hx]
    have hly : lbAt src t = y.lb := by simp [lbAt, hy]
    cases hg : Assoc.get? conv s with
    | some ex =>
      cases hg' : Assoc.get? conv t with
      | some ey =>
        simp only
        rw [ih _ _ _ hl']
        simp only [List.flatMap_cons, setAll_append, dokPlus_append, List.map_cons, List.sum_cons, quadBlock,
          quadLin, quadConst, hg, hg', wouts, hlx, hly]
        congr 3
        · simp [setAll, List.foldl_flatMap, List.foldl_map]
        · simp [dokPlus, List.foldl_map]
        · ring
      | none =>
        simp only
        rw [ih _ _ _ hl']
        simp only [List.flatMap_cons, setAll_append, dokPlus_append, List.map_cons, List.sum_cons, quadBlock,
          quadLin, quadConst, hg, hg', wouts, hlx]
        congr 3
        · simp [setAll, List.foldl_flatMap]
        · ring
    | none =>
      cases hg' : Assoc.get? conv t with
      | some ey =>
        simp only
        rw [ih _ _ _ hl']
        simp only [List.flatMap_cons, setAll_append, dokPlus_append, List.map_cons, List.sum_cons, quadBlock,
          quadLin, quadConst, hg, hg', wouts, hly]
        congr 3
        · simp [setAll, List.foldl_map]
        · ring
      | none =>
        simp only
        rw [ih _ _ _ hl']
        simp only [List.flatMap_cons, setAll_append, dokPlus_append, List.map_cons, List.sum_cons, quadBlock,
          quadLin, quadConst, hg, hg', wouts]
        congr 3
        · simp [setAll]
        · ring

theorem quadBlock_keys (conv : Conv) (q : (String × String) × ℚ) :
    Assoc.keys (quadBlock conv q) = (outs conv q.1.1).flatMap fun a => (outs conv q.1.2).map fun b => (a, b) := by
  unfold quadBlock
  rw [keys_flatMap, ← wouts_fst, ← wouts_fst, List.flatMap_map]
  simp [Assoc.keys, Function.comp_def]

/-- The code's linear additions are right for this pair of variables: the other lower bound is zero or all
coefficients of the encoding are one. -/
def PairOK (src : QP) (conv : Conv) (s t : String) : Prop :=
  ∀ ex ey, Assoc.get? conv s = some ex → Assoc.get? conv t = some ey →
    (lbAt src t = 0 ∨ ∀ p ∈ ex, p.2 = 1) ∧ (lbAt src s = 0 ∨ ∀ p ∈ ey, p.2 = 1)

theorem quadBlock_sum (conv : Conv) (q : (String × String) × ℚ) (Y : String → ℚ) :
    Dict.sum (quadBlock conv q) (fun k => Y k.1 * Y k.2) =
      q.2 * ((wouts conv q.1.1).map fun p => Y p.1 * p.2).sum * ((wouts conv q.1.2).map fun p => Y p.1 * p.2).sum := by
  unfold quadBlock
  rw [Dict.sum_flatMap]
  have h1 : ∀ a : String × ℚ, Dict.sum ((wouts conv q.1.2).map fun b => ((a.1, b.1), q.2 * a.2 * b.2))
      (fun k => Y k.1 * Y k.2) = (q.2 * ((wouts conv q.1.2).map fun p => Y p.1 * p.2).sum) * (Y a.1 * a.2) := by
    intro a
    rw [Dict.sum_map_pair (k := fun b : String × ℚ => (a.1, b.1)) (v := fun b => q.2 * a.2 * b.2)]
    rw [show (fun b : String × ℚ => q.2 * a.2 * b.2 * (Y a.1 * Y b.1)) =
      fun b => (q.2 * (Y a.1 * a.2)) * (Y b.1 * b.2) by funext b; ring, sum_map_mul_left']
    ring
  simp only [h1]
  rw [sum_map_mul_left']
  ring

/-- What the linear additions of the code miss for a product of two encoded variables. -/
def pairErr (src : QP) (conv : Conv) (Y : String → ℚ) (s t : String) : ℚ :=
  match Assoc.get? conv s, Assoc.get? conv t with
  | some ex, some ey => lbAt src t * (ex.map fun p => Y p.1 * p.2 - Y p.1).sum + lbAt src s * (ey.map fun p => Y p.1 * p.2 - Y p.1).sum
  | _, _ => 0

theorem sum_sub' {α : Type} (l : List α) (f g : α → ℚ) : (l.map fun a => f a - g a).sum = (l.map f).sum - (l.map g).sum := by
  induction l with
  | nil => simp
  | cons a l ih => simp only [List.map_cons, List.sum_cons, ih]; ring

theorem quad_sum_err {src : QP} {conv : Conv} (q : (String × String) × ℚ) (Y : String → ℚ) :
    Dict.sum (quadBlock conv q) (fun k => Y k.1 * Y k.2) + Dict.sum (quadLin src conv q) Y
      + quadConst src conv q =
      q.2 * (encVal src conv Y q.1.1 * encVal src conv Y q.1.2 - pairErr src conv Y q.1.1 q.1.2) := by
  rw [quadBlock_sum]
  unfold quadLin quadConst encVal wouts pairErr
  cases hg : Assoc.get? conv q.1.1 with
  | some ex =>
    cases hg' : Assoc.get? conv q.1.2 with
    | some ey =>
      simp only [Dict.sum_append]
      rw [Dict.sum_map_pair (k := Prod.fst) (v := fun _ => q.2 * lbAt src q.1.2),
        Dict.sum_map_pair (k := Prod.fst) (v := fun _ => q.2 * lbAt src q.1.1), sum_map_mul_left', sum_map_mul_left',
        sum_sub', sum_sub']
      ring
    | none => simp; ring
  | none =>
    cases hg' : Assoc.get? conv q.1.2 with
    | some ey => simp; ring
    | none => simp; ring

theorem pairErr_ok {src : QP} {conv : Conv} {s t : String} (h : PairOK src conv s t) (Y : String → ℚ) :
    pairErr src conv Y s t = 0 := by
  unfold pairErr
  split
  · rename_i ex ey hx hy
    obtain ⟨h1, h2⟩ := h ex ey hx hy
    have key : ∀ (k : ℚ) (l : List (String × ℚ)), (k = 0 ∨ ∀ p ∈ l, p.2 = 1) →
        k * (l.map fun p => Y p.1 * p.2 - Y p.1).sum = 0 := by
      rintro k l (h | h)
      · rw [h, zero_mul]
      · have : (l.map fun p => Y p.1 * p.2 - Y p.1) = l.map fun _ => (0 : ℚ) := by
          apply List.map_congr_left
          intro p hp
          rw [h p hp]; ring
        rw [this]
        simp
    rw [key _ _ h1, key _ _ h2, add_zero]
  · rfl

/-- Quadratic part: stored dictionaries and their value. -/
theorem i2bQuad_spec {src : QP} (hs : src.Consistent) {conv : Conv} (ho : OutsOK src conv)
    (l : Dict (String × String))
    (hl : ∀ s ∈ Assoc.keys l, s.1 ∈ src.vars.map Variable.name ∧ s.2 ∈ src.vars.map Variable.name)
    (hn : (Assoc.keys l).Nodup) :
    ∃ d lin c, i2bQuad src conv l [] [] 0 = .ok (d, lin, c) ∧ (Assoc.keys d).Nodup ∧
      (∀ a ∈ Assoc.keys d, ∃ s ∈ Assoc.keys l, a.1 ∈ outs conv s.1 ∧ a.2 ∈ outs conv s.2) ∧
      (∀ a ∈ Assoc.keys lin, ∃ s ∈ Assoc.keys l, a ∈ outs conv s.1 ∨ a ∈ outs conv s.2) ∧
      (∀ Y, Dict.sum d (fun k => Y k.1 * Y k.2) + Dict.sum lin Y + c =
          Dict.sum l (fun k => encVal src conv Y k.1 * encVal src conv Y k.2 - pairErr src conv Y k.1 k.2)) := by
  have hk : Assoc.keys (l.flatMap (quadBlock conv)) = (Assoc.keys l).flatMap
      (fun k => (outs conv k.1).flatMap fun a => (outs conv k.2).map fun b => (a, b)) := by
    rw [keys_flatMap]
    simp only [quadBlock_keys]
    simp only [Assoc.keys, List.flatMap_map]
  have hmem : ∀ (k a : String × String),
      a ∈ ((outs conv k.1).flatMap fun a => (outs conv k.2).map fun b => (a, b)) ↔
        a.1 ∈ outs conv k.1 ∧ a.2 ∈ outs conv k.2 := by
    intro k a
    simp only [List.mem_flatMap, List.mem_map]
    constructor
    · rintro ⟨b, hb, c, hc, rfl⟩; exact ⟨hb, hc⟩
    · rintro ⟨h1, h2⟩; exact ⟨_, h1, _, h2, rfl⟩
  have hnd : (Assoc.keys (l.flatMap (quadBlock conv))).Nodup := by
    rw [hk]
    refine flatMap_nodup _ hn ?_ ?_
    · intro k hk
      obtain ⟨h1, h2⟩ := hl k hk
      refine flatMap_nodup _ (ho.nodup _ h1) ?_ ?_
      · intro a _
        exact (ho.nodup _ h2).map_on (fun b _ c _ h => by simpa using h)
      · intro a _ b _ c hc hc'
        obtain ⟨_, _, rfl⟩ := List.mem_map.mp hc
        obtain ⟨_, _, h⟩ := List.mem_map.mp hc'
        simp at h; exact h.1.symm
    · intro k hk m hm a ha hb
      rw [hmem] at ha hb
      obtain ⟨h1, h2⟩ := hl k hk
      obtain ⟨h3, h4⟩ := hl m hm
      exact Prod.ext (ho.inj _ h1 _ h3 _ ha.1 hb.1) (ho.inj _ h2 _ h4 _ ha.2 hb.2)
  refine ⟨l.flatMap (quadBlock conv), dokPlus [] (l.flatMap (quadLin src conv)),
    (l.map (quadConst src conv)).sum, ?_, hnd, ?_, ?_, ?_⟩
  · rw [i2bQuad_eq hs conv l [] [] 0 hl, setAll_fresh _ _ (by simpa [Assoc.keys] using hnd)]
    simp
  · intro a ha
    rw [hk] at ha
    obtain ⟨s, hs', ha⟩ := List.mem_flatMap.mp ha
    exact ⟨s, hs', (hmem s a).mp ha⟩
  · intro a ha
    rcases Dict.mem_keys_dokPlus ha with ha | ha
    · simp [Assoc.keys] at ha
    · rw [keys_flatMap] at ha
      obtain ⟨q, hq, ha⟩ := List.mem_flatMap.mp ha
      refine ⟨q.1, List.mem_map_of_mem hq, ?_⟩
      unfold quadLin at ha
      unfold outs
      split at ha <;> simp_all [Assoc.keys, Function.comp_def]
  · intro Y
    rw [Dict.sum_flatMap, Dict.sum_dokPlus, Dict.sum_flatMap, Dict.sum_nil, zero_add]
    have : ∀ q ∈ l, Dict.sum (quadBlock conv q) (fun k => Y k.1 * Y k.2) + Dict.sum (quadLin src conv q) Y
      + quadConst src conv q = q.2 * (encVal src conv Y q.1.1 * encVal src conv Y q.1.2 - pairErr src conv Y q.1.1 q.1.2) :=
      fun q _ => quad_sum_err q Y
    clear hk hnd hl hn
    induction l with
    | nil => simp
    | cons q l ih =>
      simp only [List.map_cons, List.sum_cons, Dict.sum_cons]
      rw [← ih (fun q hq => this q (List.mem_cons_of_mem _ hq)), ← this q List.mem_cons_self]
      ring

end Verif
