import Verif.Tours
import Verif.Recursive

/-!
# Graph files and most likely samples

Models `Maxcut.parse_gset_format`, `Tsp.parse_tsplib_format` and `OptimizationApplication.sample_most_likely`.
-/

namespace Verif

/-- The exceptions of the parsers. -/
inductive FileErr
  | optimization | valueError | indexError | assertion | unbound
  deriving DecidableEq, Repr

/-! ## Gset files -/

/-- A numpy index of a dimension of length `n`: negative indices count from the end; `none` is `IndexError`. -/
def npIndex (n : Nat) (i : ℤ) : Option Nat :=
  if 0 ≤ i ∧ i < n then some i.toNat
  else if -n ≤ i ∧ i < 0 then some (i + n).toNat
  else none

/-- `w[s, t] = v`. -/
def setEntry (w : Nat → Nat → ℚ) (s t : Nat) (v : ℚ) : Nat → Nat → ℚ :=
  fun i j => if i = s ∧ j = t then v else w i j

/-- The lines after the first one (`max_cut.py:118-123`): the matrix and the number of lines. -/
def gsetLoop (n : Nat) : List (List ℤ) → (Nat → Nat → ℚ) → Nat → Except FileErr ((Nat → Nat → ℚ) × Nat)
  | [], w, count => .ok (w, count)
  | [s, t, _] :: lines, w, count =>
    match npIndex n (s - 1), npIndex n (t - 1) with
    | some a, some b => gsetLoop n lines (setEntry w a b ((t - 1 : ℤ) : ℚ)) (count + 1)
    | _, _ => .error .indexError
  | _ :: _, _, _ => .error .valueError

/-- `Maxcut.parse_gset_format` (`max_cut.py:97-126`): the number of nodes and the entries of the matrix.  A line is given by
the integers in it (text that is no integer makes `int` raise `ValueError`). -/
def parseGset : List (List ℤ) → Except FileErr (Nat × (Nat → Nat → ℚ))
  | [] => .error .assertion
  | [n, m] :: lines =>
    if n < 0 then .error .valueError
    else
      match gsetLoop n.toNat lines (fun _ _ => 0) 0 with
      | .error e => .error e
      | .ok (w, count) => if m = count then .ok (n.toNat, fun i j => w i j + w j i) else .error .assertion
  | _ :: _ => .error .valueError

/-! ## TSPLIB files -/

/-- `line.startswith(s)` for a line given by its characters. -/
def startsWith (line : List Char) (s : String) : Bool := s.toList.isPrefixOf line

/-- `line.split(":")[1]`; `none` is `IndexError`. -/
def afterColon (line : List Char) : Option (List Char) :=
  match line.dropWhile fun c => c != ':' with
  | [] => none
  | _ :: rest => some (rest.takeWhile fun c => c != ':')

/-- State of the loop over the lines: the coordinates (`none` for the empty list before `DIMENSION`) and the flag
`coord_section`. -/
structure TspState where
  coord : List (ℚ × ℚ)
  section_ : Bool
  deriving DecidableEq, Repr

/-- The built-in conversions used by the parser: `int(s)`, and the three numbers of a line of coordinates
(`int(v[0])`, `float(v[1])`, `float(v[2])` of `v = line.split()`); errors are those of Python. -/
structure Conversions where
  int : List Char → Except FileErr ℤ
  triple : List Char → Except FileErr (ℤ × ℚ × ℚ)

/-- One line (`tsp.py:161-189`).  `name` is not used afterwards.  `typ.strip()` returns a new string, which is discarded. -/
def tspLine (cv : Conversions) (line : List Char) (st : TspState) : Except FileErr TspState :=
  if startsWith line "NAME" then
    match afterColon line with
    | none => .error .indexError
    | some _ => .ok st
  else if startsWith line "TYPE" then
    match afterColon line with
    | none => .error .indexError
    | some typ => if typ ≠ "TSP".toList then .error .optimization else .ok st
  else if startsWith line "DIMENSION" then
    match afterColon line with
    | none => .error .indexError
    | some d =>
      match cv.int d with
      | .error e => .error e
      | .ok dim => if dim < 0 then .error .valueError else .ok { st with coord := List.replicate dim.toNat (0, 0) }
  else if startsWith line "EDGE_WEIGHT_TYPE" then
    match afterColon line with
    | none => .error .indexError
    | some typ => if typ ≠ "EUC_2D".toList then .error .optimization else .ok st
  else if startsWith line "NODE_COORD_SECTION" then .ok { st with section_ := true }
  else if st.section_ then
    match cv.triple line with
    | .error e => .error e
    | .ok (i, a, b) =>
      match npIndex st.coord.length (i - 1) with
      | none => .error .indexError
      | some k => .ok { st with coord := st.coord.set k (a, b) }
  else .ok st

/-- The loop over the lines of the file (with their line ends). -/
def tspLines (cv : Conversions) : List (List Char) → TspState → Except FileErr TspState
  | [], st => .ok st
  | line :: lines, st =>
    match tspLine cv line st with
    | .error e => .error e
    | .ok st => tspLines cv lines st

/-- `Tsp.parse_tsplib_format` (`tsp.py:144-201`): the graph of the instance.  The radius passed to
`nx.random_geometric_graph` exceeds all distances, so that the graph is complete (`C51_radius`); the weight of an edge is
`np.rint(np.hypot(...))` of the differences of the coordinates, an argument.  `max` of no coordinates raises `ValueError`.
Assumption: networkx takes row `i` of the array `pos=coord` as the position of node `i`, as it does for the dictionaries
passed elsewhere (`tsp.py:135`); versions that accept only dictionaries would reject every file at this point. -/
def parseTsplib (cv : Conversions) (dist : ℚ × ℚ → ℚ) (lines : List (List Char)) : Except FileErr Graph :=
  match tspLines cv lines ⟨[], false⟩ with
  | .error e => .error e
  | .ok st =>
    if st.coord = [] then .error .valueError
    else
      .ok ⟨st.coord.length, (List.range st.coord.length).flatMap fun i =>
        ((List.range st.coord.length).filter fun j => decide (i < j)).map fun j =>
          (i, j, some (dist ((st.coord.getD i (0, 0)).1 - (st.coord.getD j (0, 0)).1,
            (st.coord.getD i (0, 0)).2 - (st.coord.getD j (0, 0)).2)))⟩

/-! ## Most likely samples -/

/-- The kinds of arguments of `sample_most_likely`: counts with strings of digits as keys, a `StateFn` given by the keys of
the dictionary that `sample()` returns, and a state vector with the amplitudes as pairs of real and imaginary part. -/
inductive StateInput
  | counts (d : List (List Nat × ℚ))
  | stateFn (keys : List (List Nat))
  | vector (amplitudes : List (ℚ × ℚ))

/-- `for i in range(n): x[i] = k % 2; k >>= 1`. -/
def lowBits : Nat → Nat → List Nat
  | 0, _ => []
  | n + 1, k => k % 2 :: lowBits n (k / 2)

/-- Square of the absolute value; `np.argmax` of the absolute values is the position of the first largest square. -/
def normSq (a : ℚ × ℚ) : ℚ := a.1 * a.1 + a.2 * a.2

/-- `OptimizationApplication.sample_most_likely` (`optimization_application.py:62-87`).  An empty vector makes
`int(np.log2(0))` raise `OverflowError`. -/
def sampleMostLikely : StateInput → Except Err (List Nat)
  | .counts d =>
    match (sortedBy (fun a b => decide (a.2 ≤ b.2)) d).getLast? with
    | none => .error .indexError
    | some kv => .ok kv.1.reverse
  | .stateFn keys =>
    match keys with
    | [] => .error .indexError
    | k :: _ => .ok k.reverse
  | .vector a =>
    if a = [] then .error .overflowError
    else .ok (lowBits (Nat.log2 a.length) (argmaxFrom (fun q => normSq (a.getD q (0, 0))) a.length a.length 0))

end Verif
