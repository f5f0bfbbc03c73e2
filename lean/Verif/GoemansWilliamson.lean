import Verif.Result

/-!
# The Goemans-Williamson optimizer

Models `algorithms/goemans_williamson_optimizer.py`.  The semidefinite program, its factorization and the random
hyperplanes are an argument.
-/

namespace Verif

/-- `_extract_adjacency_matrix` (`goemans_williamson_optimizer.py:228-242`): entry `i, j` of the symmetrized negative
quadratic coefficients. -/
def adjacency (p : QP) (i j : Nat) : ℚ :=
  (-Dict.get p.objective.quadratic.coeffs (i, j) + -Dict.get p.objective.quadratic.coeffs (j, i)) / 2

/-- `max_cut_value` (`goemans_williamson_optimizer.py:296-308`) for a matrix with `n` rows. -/
def maxCutValue (n : Nat) (adj : Nat → Nat → ℚ) (x : List Nat) : ℚ :=
  ((List.range n).map fun i => ((List.range n).map fun j =>
    adj i j * ((x.getD i 0 : ℚ) * (1 - (x.getD j 0 : ℚ)))).sum).sum

/-- `_generate_random_cuts` (`goemans_williamson_optimizer.py:273-294`): `(np.dot(r, x) > 0) + 0` with one row per cut
and one column per vertex. -/
def randomCuts (numCuts n : Nat) (side : Nat → Nat → Bool) : List (List Nat) :=
  (List.range numCuts).map fun r => (List.range n).map fun i => if side r i then 1 else 0

/-- The first loop of `_get_unique_cuts` (`goemans_williamson_optimizer.py:209-214`) on one cut: `cut[0][0]` of an empty
cut is an IndexError. -/
def normalizeCut (c : List Nat × ℚ) : Except Err (List Nat × ℚ) :=
  match c.1 with
  | [] => .error .indexError
  | a :: _ => .ok (if a = 1 then (c.1.map fun v => if v = 1 then 0 else 1, c.2) else c)

/-- The first loop over all cuts. -/
def normalizeCuts : List (List Nat × ℚ) → Except Err (List (List Nat × ℚ))
  | [] => .ok []
  | c :: l =>
    match normalizeCut c with
    | .error e => .error e
    | .ok d =>
      match normalizeCuts l with
      | .error e => .error e
      | .ok r => .ok (d :: r)

/-- `"".join([str(_) for _ in cut[0]])` (`goemans_williamson_optimizer.py:219`). -/
def cutStr (x : List Nat) : String := String.join (x.map toString)

/-- The second loop (`goemans_williamson_optimizer.py:216-224`): keep the first cut of each string; `seen` are the
strings seen before. -/
def dropSeen : List String → List (List Nat × ℚ) → List (List Nat × ℚ)
  | _, [] => []
  | seen, c :: l => if cutStr c.1 ∈ seen then dropSeen seen l else c :: dropSeen (cutStr c.1 :: seen) l

/-- `_get_unique_cuts` (`goemans_williamson_optimizer.py:198-226`). -/
def uniqueCuts (l : List (List Nat × ℚ)) : Except Err (List (List Nat × ℚ)) :=
  match normalizeCuts l with
  | .error e => .error e
  | .ok l => .ok (dropSeen [] l)

/-- The point of a cut. -/
def cutPoint (x : List Nat) : List ℚ := x.map fun v : Nat => (v : ℚ)

/-- `solve` (`goemans_williamson_optimizer.py:140-196`, with `get_compatibility_msg`, 122-138).  `side` gives the sides
of the vertices in the generated cuts; it is `none` if the solver of the semidefinite program raises one of the caught errors (154-164).
Programs without variables are rejected: `min([])` in 286 is a ValueError. -/
def goemansWilliamson (numCuts : Nat) (sortCuts unique : Bool) (side : Option (Nat → Nat → Bool)) (p : QP) :
    Except Err Result :=
  if (p.vars.filter fun v => v.vartype == .binary).length ≠ p.numVars then .error .optimization
  else match side with
    | none => Result.mk? (some []) (some 0) p.vars .failure [] []
    | some side =>
      let n := p.objective.quadratic.n
      if n = 0 then .error .valueError
      else
        let sols := (randomCuts numCuts n side).map fun c => (c, maxCutValue n (adjacency p) c)
        let sols := if sortCuts then sortedBy (fun a b => decide (-a.2 ≤ -b.2)) sols else sols
        match (if unique then uniqueCuts sols else .ok sols : Except Err (List (List Nat × ℚ))) with
        | .error e => .error e
        | .ok sols =>
          let sols := sols.take numCuts
          let samples := sols.map fun s => (⟨cutPoint s.1, s.2, 1 / (sols.length : ℚ), .success⟩ : Sample)
          match samples with
          | [] => .error .indexError
          | s :: _ => Result.mk? (some s.x) (some s.fval) p.vars .success samples []

end Verif
