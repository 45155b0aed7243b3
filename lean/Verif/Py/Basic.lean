import Mathlib.Data.List.Rotate
import Mathlib.Algebra.Field.Basic

/-!
Pieces of Python and of the libraries outside the repository that the modelled code leans on.
-/

namespace X7

/-- Exception classes that the modelled code can raise. -/
inductive PyErr
  | zeroDivision | value | type | attribute | index | key | notImplemented | assertion
  | parallelLine      -- x7/geom/geom.py:811 `ParallelLineError`
  | emptyStack        -- x7/geom/transform.py:18 `EmptyStackError`
  | linAlg            -- numpy.linalg.LinAlgError (singular matrix)
  | geomInternal      -- x7/geom/model.py:19 `GeomInternalError`
  | recursion         -- RecursionError (a cycle of relative points; shown unreachable)
  | morph             -- x7/geom/anim.py:288 `MorphError`
  deriving DecidableEq, Repr

/-- `x7.lib.iters.iter_rotate(xs)` with the default count 2: the pairs
`(xs[i], xs[(i+1) % n])` for `i` in `range(n)`. (Library assumption, see DESIGN.md section 3.) -/
def iterRotate2 {α : Type*} (xs : List α) : List (α × α) := xs.zip (xs.rotate 1)

/-- `x7.lib.iters.iter_rotate(xs, 3)`: `(xs[i], xs[(i+1) % n], xs[(i+2) % n])`. -/
def iterRotate3 {α : Type*} (xs : List α) : List (α × α × α) :=
  xs.zip ((xs.rotate 1).zip (xs.rotate 2))

/-- `x7.lib.iters.iter_rotate(xs, 3, -1)`: `(xs[(i-1) % n], xs[i], xs[(i+1) % n])`. -/
def iterRotate3m1 {α : Type*} (xs : List α) : List (α × α × α) :=
  (xs.rotate (xs.length - 1)).zip (xs.zip (xs.rotate 1))

/-- A Python `str`: the list of its characters. -/
abbrev Str := List Char

/-- `'.' in s`. -/
def hasDot (s : Str) : Bool := s.contains '.'

/-- `s.rpartition('.')[2]`: what follows the last dot, everything if there is none. -/
def afterLastDot (s : Str) : Str := (s.reverse.takeWhile (· != '.')).reverse

/-- `head, sep, tail = s.partition('.')`, without `sep`: what precedes and what follows the first dot. -/
def partitionDot (s : Str) : Str × Str := (s.takeWhile (· != '.'), (s.dropWhile (· != '.')).tail)

/-- `'%d' % n` for a non-negative integer. -/
def fmtNat (n : ℕ) : Str := Nat.toDigits 10 n

/-- `s.lower()` (library assumption: ASCII letters, as in the class names of this code). -/
def strLower (s : Str) : Str := s.map Char.toLower

/-- Python's `a / b` on numbers: raises `ZeroDivisionError` if `b == 0`. -/
def pyDiv {K : Type*} [Field K] [DecidableEq K] (a b : K) : Except PyErr K :=
  if b = 0 then .error .zeroDivision else .ok (a / b)

end X7
