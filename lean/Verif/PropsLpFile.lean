import Verif.LpFile
import Verif.PropsDocplex
import Mathlib.Data.List.TakeWhile

/-!
# C78: names of problems in LP files
-/

namespace Verif

theorem problemNameLoop_eq (ws : Char → Bool) (lines : List (List Char)) (name : List Char) :
    problemNameLoop ws lines name =
      (((lines.takeWhile fun l => startsWith l "\\").filter fun l => startsWith l "\\Problem name:").getLast?).elim name
        fun l => pyStrip ws (l.drop 14) := by
  induction lines generalizing name with
  | nil => rfl
  | cons l lines ih =>
    unfold problemNameLoop
    by_cases h1 : startsWith l "\\" = true
    · rw [List.takeWhile_cons, if_pos h1]
      simp only [h1, Bool.not_true, Bool.false_eq_true, if_false]
      rw [ih]
      by_cases h2 : startsWith l "\\Problem name:" = true
      · rw [if_pos h2, List.filter_cons, if_pos h2, List.getLast?_cons]
        cases ((lines.takeWhile fun l => startsWith l "\\").filter fun l => startsWith l "\\Problem name:").getLast? <;> rfl
      · rw [if_neg h2, List.filter_cons, if_neg h2]
    · have h2 : startsWith l "\\Problem name:" = false := by
        by_contra h
        apply h1
        simp only [Bool.not_eq_false] at h
        unfold startsWith at h ⊢
        rw [List.isPrefixOf_iff_prefix] at h ⊢
        exact List.IsPrefix.trans (by decide) h
      rw [List.takeWhile_cons, if_neg h1]
      simp [h1, h2]

theorem startsWith_backslash (l : List Char) : startsWith l "\\" = decide (l.head? = some '\\') := by
  unfold startsWith
  cases l with
  | nil => rfl
  | cons c l =>
    have : "\\".toList = ['\\'] := by decide
    rw [this]
    rw [Bool.eq_iff_iff]
    simp only [List.isPrefixOf, Bool.and_true, beq_iff_eq, decide_eq_true_iff, List.head?_cons, Option.some.injEq]
    exact eq_comm

theorem startsWith_prefix (l : List Char) (s : String) : startsWith l s = decide (s.toList <+: l) := by
  unfold startsWith
  rw [Bool.eq_iff_iff, List.isPrefixOf_iff_prefix, decide_eq_true_iff]

/-- **C78.** The name is what follows `\Problem name:` in the last such line of the comment lines at the beginning of the
file, without white space around it; it is empty if there is no such line. -/
theorem C78_name (ws : Char → Bool) (lines : List (List Char)) :
    problemName ws lines =
      match ((lines.takeWhile fun l => l.head? = some '\\').filter fun l => "\\Problem name:".toList <+: l).getLast? with
      | none => []
      | some l => pyStrip ws (l.drop "\\Problem name:".length) := by
  unfold problemName
  rw [problemNameLoop_eq]
  simp only [startsWith_backslash]
  simp only [startsWith_prefix]
  split <;> rename_i h <;> rw [h] <;> rfl

theorem pyStrip_cons {ws : Char → Bool} {a : Char} (h : ws a = true) (s : List Char) : pyStrip ws (a :: s) = pyStrip ws s := by
  unfold pyStrip
  rw [List.dropWhile_cons, if_pos h]

theorem pyStrip_concat {ws : Char → Bool} {a : Char} (h : ws a = true) (s : List Char) :
    pyStrip ws (s ++ [a]) = pyStrip ws s := by
  unfold pyStrip
  rw [List.dropWhile_append]
  split_ifs with he
  · simp only [List.isEmpty_iff] at he
    rw [he]
    simp [h]
  · rw [List.reverse_append, List.reverse_singleton, List.singleton_append, List.dropWhile_cons, if_pos h]

/-- What `strip` returns is a part of the string that does not begin or end with white space; only white space is removed. -/
theorem C78_strip (ws : Char → Bool) (s : List Char) : ∃ l r, s = l ++ pyStrip ws s ++ r ∧ (∀ c ∈ l, ws c = true) ∧
    (∀ c ∈ r, ws c = true) ∧ (∀ c, (pyStrip ws s).head? = some c → ws c = false) ∧
    ∀ c, (pyStrip ws s).getLast? = some c → ws c = false := by
  have hpos : ∀ (t : List Char), ∀ c ∈ t.takeWhile ws, ws c = true := fun t c hc => by
    have := List.all_takeWhile (p := ws) (l := t)
    exact List.all_eq_true.mp this c hc
  have hhead : ∀ (t : List Char) c, (t.dropWhile ws).head? = some c → ws c = false := fun t c hc => by
    have := List.head?_dropWhile_not ws t
    rw [hc] at this
    simpa using this
  have hrev : ((s.dropWhile ws).reverse.dropWhile ws).reverse ++ ((s.dropWhile ws).reverse.takeWhile ws).reverse =
      s.dropWhile ws := by
    rw [← List.reverse_append, List.takeWhile_append_dropWhile, List.reverse_reverse]
  refine ⟨s.takeWhile ws, ((s.dropWhile ws).reverse.takeWhile ws).reverse, ?_, hpos s, ?_, ?_, ?_⟩
  · unfold pyStrip
    rw [List.append_assoc, hrev, List.takeWhile_append_dropWhile]
  · intro c hc
    exact hpos _ c (List.mem_reverse.mp hc)
  · intro c hc
    refine hhead s c ?_
    rw [← hrev, List.head?_append]
    unfold pyStrip at hc
    rw [hc]
    rfl
  · intro c hc
    unfold pyStrip at hc
    rw [List.getLast?_reverse] at hc
    exact hhead _ c hc

/-- **C78.** If docplex cannot read the file (for example because it does not exist), the program is left as it was. -/
theorem C78_unreadable (ws : Char → Bool) (reader : List (List Char) → String → Except Err DModel) (self : QP)
    {lines : List (List Char)} {e : Err} (h : ∀ s, reader lines s = .error e) :
    readLp ws reader self lines = (.error e, self) := by
  simp only [readLp, h]

/-- A file that is not an LP file, read into a program that has a variable: the variable is still there. -/
example : (readLp (· = ' ') (fun _ _ => .error .valueError) ((QP.empty "p").addVariable 0 1 .binary none).2
    ["hello".toList]).2.vars.length = 1 := by
  rw [C78_unreadable _ _ _ (e := .valueError) (fun _ => rfl)]; decide +kernel

/-- **C78.** A model written to a file with comment lines, the line with the name and a line that is not a comment is read
back with the same name, up to white space around it. -/
theorem C78_read (ws : Char → Bool) (hs : ws ' ' = true) (hn : ws '\n' = true)
    (reader : List (List Char) → String → Except Err DModel) (self : QP) {m : DModel} {comments rest : List (List Char)}
    (hc : ∀ l ∈ comments, l.head? = some '\\' ∧ ¬ "\\Problem name:".toList <+: l)
    (hr : ∀ l, rest.head? = some l → l.head? ≠ some '\\')
    (hread : ∀ s, reader (comments ++ ("\\Problem name: ".toList ++ m.name.toList ++ ['\n']) :: rest) s =
      .ok { m with name := s }) :
    readLp ws reader self (comments ++ ("\\Problem name: ".toList ++ m.name.toList ++ ['\n']) :: rest) =
      fromDocplex { m with name := String.ofList (pyStrip ws m.name.toList) } := by
  have hp : "\\Problem name: ".toList = "\\Problem name:".toList ++ [' '] := by decide
  have hname : problemName ws (comments ++ ("\\Problem name: ".toList ++ m.name.toList ++ ['\n']) :: rest) =
      pyStrip ws m.name.toList := by
    rw [C78_name]
    have e1 : ((comments ++ ("\\Problem name: ".toList ++ m.name.toList ++ ['\n']) :: rest).takeWhile
        fun l => decide (l.head? = some '\\')) = comments ++ ["\\Problem name: ".toList ++ m.name.toList ++ ['\n']] := by
      rw [List.takeWhile_append_of_pos fun l hl => by simp [(hc l hl).1], List.takeWhile_cons, if_pos (by rfl)]
      congr 2
      cases rest with
      | nil => rfl
      | cons l rest => rw [List.takeWhile_cons, if_neg fun h => hr l rfl (of_decide_eq_true h)]
    have e2 : (comments.filter fun l => decide ("\\Problem name:".toList <+: l)) = [] := by
      rw [List.filter_eq_nil_iff]
      exact fun l hl h => (hc l hl).2 (of_decide_eq_true h)
    rw [e1, List.filter_append, e2, List.nil_append, List.filter_cons_of_pos (by
      rw [decide_eq_true_iff, hp, List.append_assoc, List.append_assoc]
      exact List.prefix_append _ _)]
    simp only [List.filter_nil, List.getLast?_singleton]
    have : ("\\Problem name: ".toList ++ m.name.toList ++ ['\n']).drop "\\Problem name:".length =
        ' ' :: (m.name.toList ++ ['\n']) := by
      rw [hp]; rfl
    rw [this, pyStrip_cons hs, pyStrip_concat hn]
  unfold readLp
  rw [hname, hread]

/-- **C78** with C41: a program (subject to the hypotheses of `C41_partial`) that is written to an LP file and read again
has the same variables, the same objective function and the same feasible points, and the name without white space around
it. -/
theorem C78_roundtrip {trivial : Bool → Option String → Except Err (List DCst)} (ht : ∀ nm, trivial true nm = .ok [])
    {p : QP} (hp : p.WF) (hb : p.BinBoundsOK) (hlu : ∀ v ∈ p.vars, v.lb ≤ v.ub)
    (hl : ∀ c ∈ p.lins, c.name ≠ "") (hq : ∀ c ∈ p.quads, c.name ≠ "")
    (htl : ∀ c ∈ p.lins, c.linear.coeffs = [] → c.sense.rel 0 c.rhs)
    (htq : ∀ c ∈ p.quads, c.linear.coeffs = [] → c.quadratic.coeffs = [] → c.sense.rel 0 c.rhs)
    (hd : ∀ c ∈ p.quads, c.quadratic.coeffs = [] → ∀ k ∈ p.lins, k.name ≠ c.name)
    (ws : Char → Bool) (hs : ws ' ' = true) (hn : ws '\n' = true) {comments rest : List (List Char)}
    (hc : ∀ l ∈ comments, l.head? = some '\\' ∧ ¬ "\\Problem name:".toList <+: l)
    (hr : ∀ l, rest.head? = some l → l.head? ≠ some '\\') (self : QP) :
    ∃ m p', toDocplex trivial p = .ok m ∧
      (∀ reader : List (List Char) → String → Except Err DModel,
        (∀ s, reader (comments ++ ("\\Problem name: ".toList ++ m.name.toList ++ ['\n']) :: rest) s =
          .ok { m with name := s }) →
        readLp ws reader self (comments ++ ("\\Problem name: ".toList ++ m.name.toList ++ ['\n']) :: rest) =
          (.ok (), p')) ∧
      p'.name = String.ofList (pyStrip ws p.name.toList) ∧ p'.vars = p.vars ∧
      p'.objective.sense = p.objective.sense ∧ (∀ x, p'.objective.val x = p.objective.val x) ∧
      ∀ x, p'.Feas x ↔ p.Feas x := by
  obtain ⟨m, p', h1, h2, h3, h4, h5, h6, _, h8⟩ := C41_partial ht
    (p := { p with name := String.ofList (pyStrip ws p.name.toList) })
    ⟨⟨hp.cons.vars, hp.cons.lins, hp.cons.quads⟩, hp.objLin, hp.objQuad, hp.lins, hp.quads⟩ hb hlu hl hq htl htq hd
  rw [toDocplex_eq ht (by exact htl) (by exact htq)] at h1
  simp only [Except.ok.injEq] at h1
  refine ⟨exported p, p', toDocplex_eq ht htl htq, fun reader hread => ?_, h3, h4, h5, h6, h8⟩
  rw [C78_read ws hs hn reader self hc hr hread, ← h2, ← h1]
  rfl

/-- A file written by docplex (`test/problems/resources/test_quadratic_program.lp`). -/
example : problemName (fun c => c = ' ' || c = '\n') ["\\ This file has been generated by DOcplex\n".toList,
    "\\ ENCODING=ISO-8859-1\n".toList, "\\Problem name: my problem\n".toList, "\n".toList, "Minimize\n".toList] =
    "my problem".toList := by decide +kernel

/-- The comment lines of this file meet the hypotheses of `C78_read`. -/
example : ∀ l ∈ ["\\ This file has been generated by DOcplex\n".toList, "\\ ENCODING=ISO-8859-1\n".toList],
    l.head? = some '\\' ∧ ¬ "\\Problem name:".toList <+: l := by decide +kernel

end Verif
