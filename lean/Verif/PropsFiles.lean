import Verif.Files
import Verif.RecursiveLemmas
import Verif.ResultLemmas
import Mathlib.Data.List.Pairwise
import Mathlib.Data.List.TakeWhile

/-!
# C51, C52: graph files and most likely samples
-/

namespace Verif

/-! ## C51: Gset files -/

/-- The lines of a Gset file: the numbers of nodes and edges, and the edges with their weights (nodes are counted from 1). -/
def gsetFile (n : Nat) (edges : List (Nat × Nat × ℤ)) : List (List ℤ) :=
  [(n : ℤ), (edges.length : ℤ)] :: edges.map fun e => [(e.1 : ℤ), (e.2.1 : ℤ), e.2.2]

/-- The edges are edges of a simple graph on the nodes `1, ..., n`, each listed once. -/
def GsetWF (n : Nat) (edges : List (Nat × Nat × ℤ)) : Prop :=
  (∀ e ∈ edges, 1 ≤ e.1 ∧ e.1 ≤ n ∧ 1 ≤ e.2.1 ∧ e.2.1 ≤ n ∧ e.1 ≠ e.2.1) ∧
  edges.Pairwise fun a b => ¬ (a.1 = b.1 ∧ a.2.1 = b.2.1) ∧ ¬ (a.1 = b.2.1 ∧ a.2.1 = b.1)

/-- The matrix is the symmetric adjacency matrix with the listed weights. -/
def GsetMatrix (edges : List (Nat × Nat × ℤ)) (M : Nat → Nat → ℚ) : Prop :=
  (∀ e ∈ edges, M (e.1 - 1) (e.2.1 - 1) = e.2.2 ∧ M (e.2.1 - 1) (e.1 - 1) = e.2.2) ∧
  ∀ i j, (∀ e ∈ edges, ¬ (e.1 = i + 1 ∧ e.2.1 = j + 1) ∧ ¬ (e.1 = j + 1 ∧ e.2.1 = i + 1)) → M i j = 0

theorem npIndex_pred {n s : Nat} (h1 : 1 ≤ s) (h2 : s ≤ n) : npIndex n ((s : ℤ) - 1) = some (s - 1) := by
  unfold npIndex
  rw [if_pos (by omega)]
  congr 1
  omega

open Classical in
theorem gsetLoop_eq (n : Nat) : ∀ (edges : List (Nat × Nat × ℤ)) (w : Nat → Nat → ℚ) (c : Nat),
    (∀ e ∈ edges, 1 ≤ e.1 ∧ e.1 ≤ n ∧ 1 ≤ e.2.1 ∧ e.2.1 ≤ n) →
    ∃ w', gsetLoop n (edges.map fun e => [(e.1 : ℤ), (e.2.1 : ℤ), e.2.2]) w c = .ok (w', c + edges.length) ∧
      ∀ i j, w' i j = if ∃ e ∈ edges, e.1 = i + 1 ∧ e.2.1 = j + 1 then (j : ℚ) else w i j
  | [], w, c, _ => ⟨w, rfl, by simp⟩
  | e :: edges, w, c, h => by
    have he := h e (by simp)
    obtain ⟨w', h1, h2⟩ := gsetLoop_eq n edges (setEntry w (e.1 - 1) (e.2.1 - 1) (((e.2.1 : ℤ) - 1 : ℤ) : ℚ)) (c + 1)
      fun a ha => h a (by simp [ha])
    refine ⟨w', ?_, ?_⟩
    · rw [List.map_cons, gsetLoop, npIndex_pred he.1 he.2.1, npIndex_pred he.2.2.1 he.2.2.2]
      simp only
      rw [h1, List.length_cons]
      congr 2
      omega
    · intro i j
      rw [h2]
      by_cases hex : ∃ a ∈ edges, a.1 = i + 1 ∧ a.2.1 = j + 1
      · rw [if_pos hex, if_pos]
        obtain ⟨a, ha, hb⟩ := hex
        exact ⟨a, by simp [ha], hb⟩
      · rw [if_neg hex]
        unfold setEntry
        by_cases hij : i = e.1 - 1 ∧ j = e.2.1 - 1
        · rw [if_pos hij, if_pos ⟨e, by simp, by omega, by omega⟩]
          have : (((e.2.1 : ℤ) - 1 : ℤ)) = (j : ℤ) := by omega
          rw [this]
          simp
        · rw [if_neg hij, if_neg]
          rintro ⟨a, ha, hb⟩
          rcases List.mem_cons.mp ha with rfl | ha
          · exact hij (by omega)
          · exact hex ⟨a, ha, hb⟩

/-- **C51, partial.**  Full statement: for every well-formed file the result is the adjacency matrix with the weights of
the file.  Proved: a well-formed file is parsed without error, and the result is that matrix if and only if the weight in
every line is one less than the second node of the line: the code stores `t__` instead of the weight (`max_cut.py:122`). -/
theorem C51_gset_partial {n : Nat} {edges : List (Nat × Nat × ℤ)} (h : GsetWF n edges) :
    ∃ M, parseGset (gsetFile n edges) = .ok (n, M) ∧
      (GsetMatrix edges M ↔ ∀ e ∈ edges, e.2.2 = (e.2.1 : ℤ) - 1) := by
  classical
  obtain ⟨w, h1, h2⟩ := gsetLoop_eq n edges (fun _ _ => 0) 0 fun e he =>
    ⟨(h.1 e he).1, (h.1 e he).2.1, (h.1 e he).2.2.1, (h.1 e he).2.2.2.1⟩
  refine ⟨fun i j => w i j + w j i, ?_, ?_⟩
  · unfold gsetFile parseGset
    simp only [Int.toNat_natCast, h1, Nat.zero_add, if_true]
    rw [if_neg (by omega)]
  · have hnodup : ∀ a ∈ edges, ∀ b ∈ edges, ¬ (a.1 = b.2.1 ∧ a.2.1 = b.1) := by
      intro a ha b hb hab
      by_cases heq : a = b
      · subst heq
        exact (h.1 a ha).2.2.2.2 hab.1
      · have hsym : ∀ a b : Nat × Nat × ℤ, (¬ (a.1 = b.1 ∧ a.2.1 = b.2.1) ∧ ¬ (a.1 = b.2.1 ∧ a.2.1 = b.1)) →
            (¬ (b.1 = a.1 ∧ b.2.1 = a.2.1) ∧ ¬ (b.1 = a.2.1 ∧ b.2.1 = a.1)) := by
          intro a b hab
          exact ⟨fun h => hab.1 ⟨h.1.symm, h.2.symm⟩, fun h => hab.2 ⟨h.2.symm, h.1.symm⟩⟩
        haveI : Std.Symm (fun a b : Nat × Nat × ℤ =>
            ¬ (a.1 = b.1 ∧ a.2.1 = b.2.1) ∧ ¬ (a.1 = b.2.1 ∧ a.2.1 = b.1)) := ⟨hsym⟩
        exact (h.2.forall ha hb heq).2 hab
    have hval : ∀ e ∈ edges, w (e.1 - 1) (e.2.1 - 1) + w (e.2.1 - 1) (e.1 - 1) = ((e.2.1 : ℤ) - 1 : ℤ) := by
      intro e he
      have hw := h.1 e he
      rw [h2, h2, if_pos ⟨e, he, by omega, by omega⟩, if_neg]
      · have : ((e.2.1 - 1 : Nat) : ℤ) = (e.2.1 : ℤ) - 1 := by omega
        rw [← this]
        simp
      · rintro ⟨a, ha, hb⟩
        exact hnodup e he a ha (by omega)
    constructor
    · intro hM e he
      have : w (e.1 - 1) (e.2.1 - 1) + w (e.2.1 - 1) (e.1 - 1) = e.2.2 := (hM.1 e he).1
      rw [hval e he] at this
      exact_mod_cast this.symm
    · intro hw
      refine ⟨fun e he => ?_, fun i j hno => ?_⟩
      · rw [hw e he]
        exact ⟨hval e he, (add_comm _ _).trans (hval e he)⟩
      · change w i j + w j i = 0
        rw [h2, h2, if_neg, if_neg]
        · norm_num
        · rintro ⟨a, ha, hb⟩
          exact (hno a ha).2 hb
        · rintro ⟨a, ha, hb⟩
          exact (hno a ha).1 hb

/-- The file of one edge between nodes 1 and 2 with weight 5. -/
def gsetSample : List (Nat × Nat × ℤ) := [(1, 2, 5)]

/-- **C51, violated.**  The weight of the only edge of a file is replaced by the index of its second node. -/
theorem C51_violated_gset : GsetWF 2 gsetSample ∧
    ∃ M, parseGset (gsetFile 2 gsetSample) = .ok (2, M) ∧ M 0 1 = 1 ∧ ¬ GsetMatrix gsetSample M := by
  have hwf : GsetWF 2 gsetSample := by
    refine ⟨?_, by simp [gsetSample]⟩
    intro e he
    simp only [gsetSample, List.mem_singleton] at he
    subst he
    decide
  refine ⟨hwf, ?_⟩
  obtain ⟨M, h1, h2⟩ := C51_gset_partial hwf
  refine ⟨M, h1, ?_, ?_⟩
  · have : (parseGset (gsetFile 2 gsetSample)).toOption.map (fun r => r.2 0 1) = some 1 := by decide +kernel
    rw [h1] at this
    exact Option.some.inj this
  · rw [h2]
    intro h
    have := h (1, 2, 5) (by simp [gsetSample])
    norm_num at this

/-- An edge that ends at node 1 disappears: its entry is 0. -/
example : (parseGset (gsetFile 3 [(3, 1, 4), (2, 3, 2)])).toOption.map (fun r =>
    (r.1, (List.range 3).map fun i => (List.range 3).map (r.2 i))) = some (3, [[0, 0, 0], [0, 0, 2], [0, 2, 0]]) := by
  decide +kernel

/-! ## C51: TSPLIB files -/

theorem startsWith_append (s : String) (l : List Char) : startsWith (s.toList ++ l) s = true := by
  unfold startsWith
  rw [List.isPrefixOf_iff_prefix]
  exact List.prefix_append _ _

theorem afterColon_eq {a b : List Char} (ha : ':' ∉ a) (hb : ':' ∉ b) : afterColon (a ++ ':' :: b) = some b := by
  have h1 : (a ++ ':' :: b).dropWhile (fun c => c != ':') = ':' :: b := by
    rw [List.dropWhile_append_of_pos]
    · simp
    · intro c hc
      simp only [bne_iff_ne]
      rintro rfl
      exact ha hc
  have h2 : b.takeWhile (fun c => c != ':') = b := by
    rw [List.takeWhile_eq_self_iff]
    intro c hc
    simp only [bne_iff_ne]
    rintro rfl
    exact hb hc
  unfold afterColon
  rw [h1]
  simp only [h2]

theorem tspLines_error (cv : Conversions) {line : List Char} (h : ∀ st st', tspLine cv line st ≠ .ok st') :
    ∀ (lines : List (List Char)) (st st' : TspState), line ∈ lines → tspLines cv lines st ≠ .ok st'
  | [], _, _, hm => by simp at hm
  | l :: lines, st, st', hm => by
    rw [tspLines]
    cases hl : tspLine cv l st with
    | error e => simp
    | ok st1 =>
      rcases List.mem_cons.mp hm with rfl | hm
      · exact absurd hl (h st st1)
      · exact tspLines_error cv h lines st1 st' hm

theorem parseTsplib_error (cv : Conversions) (dist : ℚ × ℚ → ℚ) {line : List Char}
    (h : ∀ st st', tspLine cv line st ≠ .ok st') {lines : List (List Char)} (hm : line ∈ lines) (g : Graph) :
    parseTsplib cv dist lines ≠ .ok g := by
  unfold parseTsplib
  cases hl : tspLines cv lines ⟨[], false⟩ with
  | error e => simp
  | ok st => exact absurd hl (tspLines_error cv h lines _ st hm)

/-- **C51, violated.**  No file with a line `TYPE...:...` or `EDGE_WEIGHT_TYPE...:...` that ends with a line end is
accepted, whatever it declares: the result of `strip` is discarded (`tsp.py:167`, `tsp.py:177`), so that the text compared
with `TSP` or `EUC_2D` contains the line end. -/
theorem C51_violated_type (cv : Conversions) (dist : ℚ × ℚ → ℚ) {keyword : String}
    (hk : keyword = "TYPE" ∨ keyword = "EDGE_WEIGHT_TYPE") {a b : List Char} (ha : ':' ∉ a) (hb : ':' ∉ b)
    {lines : List (List Char)} (hm : keyword.toList ++ a ++ ':' :: (b ++ ['\n']) ∈ lines) (g : Graph) :
    parseTsplib cv dist lines ≠ .ok g := by
  refine parseTsplib_error cv dist ?_ hm g
  have hb' : ':' ∉ b ++ ['\n'] := by
    rw [List.mem_append]
    rintro (h | h)
    · exact hb h
    · simp at h
  have hne : ∀ s : List Char, '\n' ∉ s → b ++ ['\n'] ≠ s := by
    rintro s hs rfl
    exact hs (by simp)
  intro st st'
  rcases hk with rfl | rfl
  · have hc : afterColon ("TYPE".toList ++ a ++ ':' :: (b ++ ['\n'])) = some (b ++ ['\n']) := by
      refine afterColon_eq ?_ hb'
      rw [List.mem_append]
      rintro (h | h)
      · revert h; decide
      · exact ha h
    have hs : startsWith ("TYPE".toList ++ a ++ ':' :: (b ++ ['\n'])) "TYPE" = true := by
      rw [List.append_assoc]; exact startsWith_append _ _
    have hn : startsWith ("TYPE".toList ++ a ++ ':' :: (b ++ ['\n'])) "NAME" = false := rfl
    unfold tspLine
    rw [hs, hn, hc]
    simp only [Bool.false_eq_true, if_false, if_true]
    rw [if_pos (hne _ (by decide))]
    simp
  · have hc : afterColon ("EDGE_WEIGHT_TYPE".toList ++ a ++ ':' :: (b ++ ['\n'])) = some (b ++ ['\n']) := by
      refine afterColon_eq ?_ hb'
      rw [List.mem_append]
      rintro (h | h)
      · revert h; decide
      · exact ha h
    have hs : startsWith ("EDGE_WEIGHT_TYPE".toList ++ a ++ ':' :: (b ++ ['\n'])) "EDGE_WEIGHT_TYPE" = true := by
      rw [List.append_assoc]; exact startsWith_append _ _
    have hn : startsWith ("EDGE_WEIGHT_TYPE".toList ++ a ++ ':' :: (b ++ ['\n'])) "NAME" = false := rfl
    have hn2 : startsWith ("EDGE_WEIGHT_TYPE".toList ++ a ++ ':' :: (b ++ ['\n'])) "TYPE" = false := rfl
    have hn3 : startsWith ("EDGE_WEIGHT_TYPE".toList ++ a ++ ':' :: (b ++ ['\n'])) "DIMENSION" = false := rfl
    unfold tspLine
    rw [hs, hn, hn2, hn3, hc]
    simp only [Bool.false_eq_true, if_false, if_true]
    rw [if_pos (hne _ (by decide))]
    simp

/-- The line of the standard files, `TYPE : TSP`, is covered. -/
example (cv : Conversions) (dist : ℚ × ℚ → ℚ) (g : Graph) :
    parseTsplib cv dist ["NAME : a\n".toList, "TYPE : TSP\n".toList, "DIMENSION : 1\n".toList] ≠ .ok g :=
  C51_violated_type cv dist (keyword := "TYPE") (Or.inl rfl) (a := [' ']) (b := " TSP".toList) (by decide) (by decide)
    (by simp) g

/-- **C51, violated.**  Nor is a file accepted that ends, as TSPLIB files do, with the line `EOF` after the coordinates:
that line is read as coordinates, and `int("EOF")` raises `ValueError`. -/
theorem C51_violated_eof (cv : Conversions) (dist : ℚ × ℚ → ℚ) (heof : cv.triple "EOF\n".toList = .error .valueError)
    {pre post : List (List Char)} (hsec : ∃ l ∈ pre, startsWith l "NODE_COORD_SECTION" = true) (g : Graph) :
    parseTsplib cv dist (pre ++ "EOF\n".toList :: post) ≠ .ok g := by
  have hsection : ∀ {l : List Char} {st st' : TspState}, tspLine cv l st = .ok st' → st.section_ = true →
      st'.section_ = true := by
    intro l st st' h hst
    unfold tspLine at h
    split at h
    · split at h
      · simp at h
      · simp only [Except.ok.injEq] at h; rw [← h]; exact hst
    split at h
    · split at h
      · simp at h
      · split at h
        · simp at h
        · simp only [Except.ok.injEq] at h; rw [← h]; exact hst
    split at h
    · split at h
      · simp at h
      · split at h
        · simp at h
        · split at h
          · simp at h
          · simp only [Except.ok.injEq] at h; rw [← h]; exact hst
    split at h
    · split at h
      · simp at h
      · split at h
        · simp at h
        · simp only [Except.ok.injEq] at h; rw [← h]; exact hst
    split at h
    · simp only [Except.ok.injEq] at h; rw [← h]
    · split at h
      · simp at h
      · split at h
        · simp at h
        · simp only [Except.ok.injEq] at h; rw [← h]; exact hst
  have hstart : ∀ {l : List Char} {st st' : TspState}, tspLine cv l st = .ok st' →
      startsWith l "NODE_COORD_SECTION" = true → st'.section_ = true := by
    intro l st st' h hl
    obtain ⟨r, rfl⟩ := List.isPrefixOf_iff_prefix.mp hl
    have e1 : startsWith ("NODE_COORD_SECTION".toList ++ r) "NAME" = false := rfl
    have e2 : startsWith ("NODE_COORD_SECTION".toList ++ r) "TYPE" = false := rfl
    have e3 : startsWith ("NODE_COORD_SECTION".toList ++ r) "DIMENSION" = false := rfl
    have e4 : startsWith ("NODE_COORD_SECTION".toList ++ r) "EDGE_WEIGHT_TYPE" = false := rfl
    unfold tspLine at h
    rw [e1, e2, e3, e4, hl] at h
    simp only [Bool.false_eq_true, if_false, if_true, Except.ok.injEq] at h
    rw [← h]
  have heofLine : ∀ st st' : TspState, st.section_ = true → tspLine cv "EOF\n".toList st ≠ .ok st' := by
    intro st st' hst
    have e1 : startsWith "EOF\n".toList "NAME" = false := rfl
    have e2 : startsWith "EOF\n".toList "TYPE" = false := rfl
    have e3 : startsWith "EOF\n".toList "DIMENSION" = false := rfl
    have e4 : startsWith "EOF\n".toList "EDGE_WEIGHT_TYPE" = false := rfl
    have e5 : startsWith "EOF\n".toList "NODE_COORD_SECTION" = false := rfl
    unfold tspLine
    rw [e1, e2, e3, e4, e5, hst, heof]
    simp
  have key : ∀ (pre : List (List Char)) (st st' : TspState),
      (st.section_ = true ∨ ∃ l ∈ pre, startsWith l "NODE_COORD_SECTION" = true) →
      tspLines cv (pre ++ "EOF\n".toList :: post) st ≠ .ok st' := by
    intro pre
    induction pre with
    | nil =>
      intro st st' h
      have h : st.section_ = true := by simpa using h
      rw [List.nil_append, tspLines]
      cases hl : tspLine cv "EOF\n".toList st with
      | error e => simp
      | ok s => exact absurd hl (heofLine st s h)
    | cons l pre ih =>
      intro st st' h
      rw [List.cons_append, tspLines]
      cases hl : tspLine cv l st with
      | error e => simp
      | ok s =>
        refine ih s st' ?_
        rcases h with h | ⟨l', hm, h⟩
        · exact Or.inl (hsection hl h)
        · rcases List.mem_cons.mp hm with rfl | hm
          · exact Or.inl (hstart hl h)
          · exact Or.inr ⟨l', hm, h⟩
  unfold parseTsplib
  cases hl : tspLines cv (pre ++ "EOF\n".toList :: post) ⟨[], false⟩ with
  | error e => simp
  | ok st => exact absurd hl (key pre _ st (Or.inr hsec))

/-- A line of coordinates is none of the lines with a keyword. -/
def Plain (line : List Char) : Prop :=
  ∀ s ∈ ["NAME", "TYPE", "DIMENSION", "EDGE_WEIGHT_TYPE", "NODE_COORD_SECTION"], startsWith line s = false

theorem coordLines_spec (cv : Conversions) {n : Nat} (c : Nat → ℚ × ℚ) : ∀ (lines : List (List Char)) (coord : List (ℚ × ℚ)),
    (∀ l ∈ lines, Plain l ∧ ∃ k < n, cv.triple l = .ok ((k : ℤ) + 1, c k)) → coord.length = n →
    ∃ coord', tspLines cv lines ⟨coord, true⟩ = .ok ⟨coord', true⟩ ∧ coord'.length = n ∧
      ∀ k < n, ((∃ l ∈ lines, cv.triple l = .ok ((k : ℤ) + 1, c k)) ∨ coord[k]? = some (c k)) → coord'[k]? = some (c k)
  | [], coord, _, hl => ⟨coord, rfl, hl, fun k _ h => by simpa using h⟩
  | l :: lines, coord, h, hl => by
    obtain ⟨hp, k0, hk0, ht⟩ := h l (by simp)
    obtain ⟨coord', h1, h2, h3⟩ := coordLines_spec cv c lines (coord.set k0 (c k0)) (fun a ha => h a (by simp [ha]))
      (by simpa using hl)
    have hline : tspLine cv l ⟨coord, true⟩ = .ok ⟨coord.set k0 (c k0), true⟩ := by
      unfold tspLine
      rw [hp "NAME" (by simp), hp "TYPE" (by simp), hp "DIMENSION" (by simp), hp "EDGE_WEIGHT_TYPE" (by simp),
        hp "NODE_COORD_SECTION" (by simp), ht]
      have hidx : npIndex coord.length ((k0 : ℤ) + 1 - 1) = some k0 := by
        have := npIndex_pred (n := coord.length) (s := k0 + 1) (by omega) (by omega)
        simpa using this
      simp only [Bool.false_eq_true, if_false, if_true, hidx]
    refine ⟨coord', by rw [tspLines, hline]; exact h1, h2, ?_⟩
    intro k hk hor
    refine h3 k hk ?_
    rcases hor with ⟨a, ha, hb⟩ | hget
    · rcases List.mem_cons.mp ha with rfl | ha
      · rw [ht] at hb
        simp only [Except.ok.injEq, Prod.mk.injEq] at hb
        have : k = k0 := by omega
        subst this
        right
        simp [hl, hk]
      · exact Or.inl ⟨a, ha, hb⟩
    · right
      by_cases e : k0 = k
      · subst e
        simp [hl, hk]
      · rw [List.getElem?_set_ne e]
        exact hget

theorem completeEdges_weight (n : Nat) (f : Nat → Nat → ℚ) {i j : Nat} (hij : i < j) (hj : j < n) :
    Graph.weight? ⟨n, (List.range n).flatMap fun i => ((List.range n).filter fun j => decide (i < j)).map fun j =>
      (i, j, some (f i j))⟩ i j = some (f i j) := by
  unfold Graph.weight?
  generalize hE : ((List.range n).flatMap fun i => ((List.range n).filter fun j => decide (i < j)).map fun j =>
      (i, j, some (f i j))) = E
  have hmem : ∀ e ∈ E, e.1 < e.2.1 ∧ e.2.2 = some (f e.1 e.2.1) := by
    intro e he
    rw [← hE] at he
    simp only [List.mem_flatMap, List.mem_map, List.mem_filter, decide_eq_true_eq] at he
    obtain ⟨a, _, b, ⟨_, hab⟩, rfl⟩ := he
    exact ⟨hab, rfl⟩
  have hin : (i, j, some (f i j)) ∈ E := by
    rw [← hE]
    simp only [List.mem_flatMap, List.mem_map, List.mem_filter, List.mem_range, decide_eq_true_eq]
    exact ⟨i, by omega, j, ⟨hj, hij⟩, rfl⟩
  simp only
  cases hf : E.find? fun e => (e.1 == i && e.2.1 == j) || (e.1 == j && e.2.1 == i) with
  | none =>
    have := List.find?_eq_none.mp hf _ hin
    simp at this
  | some e =>
    have h1 := List.find?_some hf
    have h2 := hmem e (List.mem_of_find?_eq_some hf)
    simp only [Bool.or_eq_true, Bool.and_eq_true, beq_iff_eq] at h1
    rcases h1 with h1 | h1
    · simp only [h2.2, h1.1, h1.2]
    · omega

/-- **C51, partial.**  Full statement: TSPLIB files with `TYPE : TSP` and `EDGE_WEIGHT_TYPE : EUC_2D` are accepted.  Proved:
a file that consists of the line with the dimension, the line `NODE_COORD_SECTION` and lines with the coordinates of all
nodes, in any order, is accepted, and the weight of the edge between two nodes is the rounded distance of their
coordinates.  Missing: files with the two declarations or a final `EOF` (rejected, see `C51_violated_type` and
`C51_violated_eof`). -/
theorem C51_tsplib_partial (cv : Conversions) (dist : ℚ × ℚ → ℚ) {n : Nat} (hn : 0 < n) {d : List Char} (hd : ':' ∉ d)
    (hdim : cv.int d = .ok n) (c : Nat → ℚ × ℚ) {lines : List (List Char)}
    (h1 : ∀ l ∈ lines, Plain l ∧ ∃ k < n, cv.triple l = .ok ((k : ℤ) + 1, c k))
    (h2 : ∀ k < n, ∃ l ∈ lines, cv.triple l = .ok ((k : ℤ) + 1, c k)) :
    ∃ g, parseTsplib cv dist (("DIMENSION :".toList ++ d) :: "NODE_COORD_SECTION\n".toList :: lines) = .ok g ∧ g.n = n ∧
      ∀ i j, i < j → j < n → g.weight? i j = some (dist ((c i).1 - (c j).1, (c i).2 - (c j).2)) := by
  obtain ⟨coord, h3, h4, h5⟩ := coordLines_spec cv c lines (List.replicate n (0, 0)) h1 (by simp)
  have hget : ∀ k < n, coord.getD k (0, 0) = c k := by
    intro k hk
    rw [List.getD_eq_getElem?_getD, h5 k hk (Or.inl (h2 k hk))]
    rfl
  have hl1 : tspLine cv ("DIMENSION :".toList ++ d) ⟨[], false⟩ = .ok ⟨List.replicate n (0, 0), false⟩ := by
    have e1 : startsWith ("DIMENSION :".toList ++ d) "NAME" = false := rfl
    have e2 : startsWith ("DIMENSION :".toList ++ d) "TYPE" = false := rfl
    have e3 : startsWith ("DIMENSION :".toList ++ d) "DIMENSION" = true := by
      have : "DIMENSION :".toList ++ d = "DIMENSION".toList ++ (" :".toList ++ d) := rfl
      rw [this]; exact startsWith_append _ _
    have e4 : afterColon ("DIMENSION :".toList ++ d) = some d := by
      have : "DIMENSION :".toList ++ d = "DIMENSION ".toList ++ ':' :: d := rfl
      rw [this]
      exact afterColon_eq (by decide) hd
    unfold tspLine
    rw [e1, e2, e3, e4]
    simp only [Bool.false_eq_true, if_false, if_true, hdim, Int.toNat_natCast]
    rw [if_neg (by omega)]
  have hl2 : ∀ co, tspLine cv "NODE_COORD_SECTION\n".toList ⟨co, false⟩ = .ok ⟨co, true⟩ := fun co => rfl
  have hne : coord ≠ [] := by
    rintro rfl
    simp at h4
    omega
  refine ⟨⟨n, (List.range n).flatMap fun i => ((List.range n).filter fun j => decide (i < j)).map fun j =>
      (i, j, some (dist ((c i).1 - (c j).1, (c i).2 - (c j).2)))⟩, ?_, ?_, ?_⟩
  · unfold parseTsplib
    rw [tspLines, hl1]
    simp only
    rw [tspLines, hl2]
    simp only [h3, hne, if_false, h4, Except.ok.injEq, Graph.mk.injEq, true_and]
    rw [List.flatMap_def, List.flatMap_def]
    congr 1
    refine List.map_congr_left fun i hi => List.map_congr_left fun j hj => ?_
    rw [hget i (List.mem_range.mp hi), hget j (List.mem_range.mp (List.mem_filter.mp hj).1)]
  · rfl
  · intro i j hij hj
    exact completeEdges_weight n (fun i j => dist ((c i).1 - (c j).1, (c i).2 - (c j).2)) hij hj

/-- Conversions of a few strings, and a file that meets the hypotheses. -/
def sampleConversions : Conversions where
  int := fun s => if s = " 2\n".toList then .ok 2 else .error .valueError
  triple := fun s =>
    if s = "1 0 0\n".toList then .ok (1, 0, 0) else if s = "2 3 4\n".toList then .ok (2, 3, 4) else .error .valueError

example : parseTsplib sampleConversions (fun q => |q.1| + |q.2|)
    ["DIMENSION : 2\n".toList, "NODE_COORD_SECTION\n".toList, "2 3 4\n".toList, "1 0 0\n".toList] =
    .ok ⟨2, [(0, 1, some 7)]⟩ := by decide +kernel

/-! ## C52 -/

/-- **C52.** For counts, the result read backwards is a key with a maximal count; entry 0 is the last character. -/
theorem C52_counts {d : List (List Nat × ℚ)} (hd : d ≠ []) :
    ∃ kv ∈ d, (∀ a ∈ d, a.2 ≤ kv.2) ∧ sampleMostLikely (.counts d) = .ok kv.1.reverse := by
  have hne : sortedBy (fun a b : List Nat × ℚ => decide (a.2 ≤ b.2)) d ≠ [] := by
    intro h
    have := (sortedBy_perm (fun a b : List Nat × ℚ => decide (a.2 ≤ b.2)) d).length_eq
    rw [h] at this
    exact hd (List.length_eq_zero_iff.mp this.symm)
  have hpw := sortedBy_pairwise (le := fun a b : List Nat × ℚ => decide (a.2 ≤ b.2))
    (by intro a b; simp only [decide_eq_true_eq]; exact le_total _ _)
    (by intro a b c; simp only [decide_eq_true_eq]; exact le_trans) d
  refine ⟨(sortedBy (fun a b : List Nat × ℚ => decide (a.2 ≤ b.2)) d).getLast hne, ?_, ?_, ?_⟩
  · exact mem_sortedBy.mp (List.getLast_mem hne)
  · intro a ha
    have ha' := (mem_sortedBy (le := fun a b : List Nat × ℚ => decide (a.2 ≤ b.2))).mpr ha
    have hsplit := List.dropLast_append_getLast hne
    rw [← hsplit] at hpw ha'
    rcases List.mem_append.mp ha' with h | h
    · have := (List.pairwise_append.mp hpw).2.2 a h _ (List.mem_singleton.mpr rfl)
      simpa using this
    · rw [List.mem_singleton.mp h]
  · simp only [sampleMostLikely, List.getLast?_eq_some_getLast hne]

theorem lowBits_length : ∀ n k, (lowBits n k).length = n
  | 0, _ => rfl
  | n + 1, k => by rw [lowBits, List.length_cons, lowBits_length]

theorem lowBits_getD : ∀ (n k i : Nat), i < n → (lowBits n k).getD i 0 = k / 2 ^ i % 2
  | 0, _, _, h => by omega
  | n + 1, k, 0, _ => by simp [lowBits]
  | n + 1, k, i + 1, h => by
    rw [lowBits, List.getD_cons_succ, lowBits_getD n _ i (by omega), Nat.div_div_eq_div_mul, pow_succ, mul_comm]

/-- **C52.** For a state vector on `n` qubits, entry `i` of the result is the digit of weight `2^i` of the index of a
basis state whose amplitude has maximal absolute value. -/
theorem C52_vector {n : Nat} {a : List (ℚ × ℚ)} (ha : a.length = 2 ^ n) :
    ∃ k < 2 ^ n, (∀ q < 2 ^ n, (a.getD q (0, 0)).1 ^ 2 + (a.getD q (0, 0)).2 ^ 2 ≤
        (a.getD k (0, 0)).1 ^ 2 + (a.getD k (0, 0)).2 ^ 2) ∧
      ∃ x, sampleMostLikely (.vector a) = .ok x ∧ x.length = n ∧ ∀ i < n, x.getD i 0 = k / 2 ^ i % 2 := by
  have hpos : 0 < a.length := by rw [ha]; positivity
  obtain ⟨h1, h2⟩ := argmaxFrom_spec (fun q => normSq (a.getD q (0, 0))) a.length a.length 0 le_rfl hpos
    (fun q hq => by omega)
  have hr : sampleMostLikely (.vector a) =
      .ok (lowBits n (argmaxFrom (fun q => normSq (a.getD q (0, 0))) a.length a.length 0)) := by
    have hne : a ≠ [] := by rintro rfl; simp at hpos
    simp only [sampleMostLikely, hne, if_false]
    rw [ha, Nat.log2_two_pow]
  rw [hr]
  generalize argmaxFrom (fun q => normSq (a.getD q (0, 0))) a.length a.length 0 = k at h1 h2
  refine ⟨k, ha ▸ h1, ?_, _, rfl, lowBits_length _ _, fun i hi => lowBits_getD _ _ _ hi⟩
  intro q hq
  have := h2 q (ha ▸ hq)
  simp only [normSq, ← sq] at this
  exact this

/-- The key of a basis state in a dictionary of counts: the digits of the index, the most significant one first. -/
def basisKey (n k : Nat) : List Nat := ((List.range n).map fun i => k / 2 ^ i % 2).reverse

/-- **C52.** Counts and state vector of the same state give the same result, if the largest amplitude is unique. -/
theorem C52_agree {n : Nat} {a : List (ℚ × ℚ)} (ha : a.length = 2 ^ n) {k : Nat} (hk : k < 2 ^ n)
    (hmax : ∀ q < 2 ^ n, q ≠ k → (a.getD q (0, 0)).1 ^ 2 + (a.getD q (0, 0)).2 ^ 2 <
      (a.getD k (0, 0)).1 ^ 2 + (a.getD k (0, 0)).2 ^ 2)
    {d : List (List Nat × ℚ)} (hd : ∀ kv ∈ d, ∃ q < 2 ^ n, kv = (basisKey n q,
      (a.getD q (0, 0)).1 ^ 2 + (a.getD q (0, 0)).2 ^ 2))
    (hkd : (basisKey n k, (a.getD k (0, 0)).1 ^ 2 + (a.getD k (0, 0)).2 ^ 2) ∈ d) :
    sampleMostLikely (.counts d) = sampleMostLikely (.vector a) := by
  obtain ⟨kv, hkv, hm, hr⟩ := C52_counts (List.ne_nil_of_mem hkd)
  obtain ⟨k', hk', hm', x, hx, hl, hb⟩ := C52_vector ha
  have e1 : k' = k := by
    by_contra hne
    exact absurd (hm' k hk) (not_le.mpr (hmax k' hk' hne))
  subst e1
  obtain ⟨q, hq, hqe⟩ := hd kv hkv
  have e2 : q = k' := by
    by_contra hne
    have := hm _ hkd
    rw [hqe] at this
    exact absurd this (not_le.mpr (hmax q hq hne))
  subst e2
  rw [hr, hx, hqe]
  congr 1
  unfold basisKey
  rw [List.reverse_reverse]
  apply List.ext_getElem
  · simp [hl]
  · intro i h1 h2
    have := hb i (by omega)
    rw [List.getD_eq_getElem?_getD, List.getElem?_eq_getElem h2] at this
    simp at this
    simp [this]

/-- **C52.** For a `StateFn` the first key of the samples is read backwards. -/
theorem C52_stateFn (k : List Nat) (keys : List (List Nat)) :
    ∃ x, sampleMostLikely (.stateFn (k :: keys)) = .ok x ∧ x.length = k.length ∧
      ∀ i < k.length, x.getD i 0 = k.getD (k.length - 1 - i) 0 := by
  refine ⟨k.reverse, rfl, by simp, fun i hi => ?_⟩
  rw [List.getD_eq_getElem?_getD, List.getElem?_reverse hi, List.getD_eq_getElem?_getD]

/-- The state |01> (qubit 0 is one) as counts and as a vector. -/
example : sampleMostLikely (.counts [([0, 1], 7), ([1, 0], 3)]) = .ok [1, 0] ∧
    sampleMostLikely (.vector [(0, 0), (0, -4/5), (3/5, 0), (0, 0)]) = .ok [1, 0] ∧
    sampleMostLikely (.stateFn [[0, 1]]) = .ok [1, 0] := by decide +kernel

end Verif
