import Verif.Docplex
import Verif.Files

/-!
# LP files

Models `read_from_lp_file` of `problems/quadratic_program.py`.  The reader of docplex is an argument.
-/

namespace Verif

/-- `s.strip()`; `ws` tells which characters are white space. -/
def pyStrip (ws : Char → Bool) (s : List Char) : List Char := ((s.dropWhile ws).reverse.dropWhile ws).reverse

/-- The loop of `_parse_problem_name` (`quadratic_program.py:1179-1184`) over the lines of the file (with their line ends). -/
def problemNameLoop (ws : Char → Bool) : List (List Char) → List Char → List Char
  | [], name => name
  | line :: lines, name =>
    let name := if startsWith line "\\Problem name:" then pyStrip ws (line.drop 14) else name
    if !startsWith line "\\" then name else problemNameLoop ws lines name

/-- `_parse_problem_name` (`quadratic_program.py:1173-1185`). -/
def problemName (ws : Char → Bool) (lines : List (List Char)) : List Char := problemNameLoop ws lines []

/-- `read_from_lp_file` (`quadratic_program.py:1152-1189`), for an object `self` and a file given by its lines.  `reader` is
`ModelReader().read`; it gets the file and the name of the model. -/
def readLp (ws : Char → Bool) (reader : List (List Char) → String → Except Err DModel) (self : QP)
    (lines : List (List Char)) : Res Unit :=
  match reader lines (String.ofList (problemName ws lines)) with
  | .error e => (.error e, self)
  | .ok m => fromDocplex m

end Verif
