import Verif.Model.Round
import Verif.Model.VecReal

/-!
Model of x7/geom/testing.py: `ExtendedMatcherControlPoint.explain_mismatch` (104-109), `ExtendedMatcherGeomXY` (112-131) and
`PlotMatchContextManager` (163-190). The comparison of floats, the grabbing of a figure and the comparison with the recorded image are those
of `x7.testing` and matplotlib: parameters.
-/

noncomputable section

namespace X7.TM

/-- What a matcher returns: `True`, or a text saying what differs. -/
inductive Verdict
  | equal
  | differs (msg : Str)
  deriving DecidableEq

/-- `', '.join(msg)`. -/
def joinComma : List Str → Str
  | [] => []
  | [m] => m
  | m :: rest => m ++ [',', ' '] ++ joinComma rest

/-- testing.py:119-127 `ExtendedMatcherGeomXY.almost_equal(first, second, places, delta)` on the coordinates of two points or vectors;
`almostFloat` is `test_case.almostEqualFloat(a, b)` with its default tolerance. -/
def almostXY (almostFloat : ℝ → ℝ → Verdict) (first second : ℝ × ℝ) (_places : Option ℕ) (_delta : Option ℝ) : Verdict :=
  let almost_x := almostFloat first.1 second.1
  let almost_y := almostFloat first.2 second.2
  let msg : List Str := []
  let msg := match almost_x with
    | .equal => msg
    | .differs m => msg ++ [['x', ':', ' '] ++ m]
  let msg := match almost_y with
    | .equal => msg
    | .differs m => msg ++ [['y', ':', ' '] ++ m]
  if msg = [] then .equal else .differs (joinComma msg)

open Classical in
/-- testing.py:129-131 `ExtendedMatcherPoint.explain_mismatch(new_data, old_data)`: whether the data are close. The other part of the
result is always None. -/
def explainPoint (new old : Pt ℝ) : Bool := decide (new.close old (1 / 10 ^ 11))

open Classical in
/-- testing.py:129-131 `ExtendedMatcherVector.explain_mismatch(new_data, old_data)`. -/
def explainVector (new old : Vec ℝ) : Bool := decide (new.close old (1 / 10 ^ 11))

/-- `n.close(o)` of a pair of attribute values. -/
inductive Attr
  | pt (p : Pt ℝ)
  | vec (v : Vec ℝ)
  | str (s : String)

/-- `n.close(o)`: a `str` has no such method. Simplification: `o` is of the type of `n`, as for the attributes of two control points. -/
def attrClose : Attr → Attr → Except PyErr Bool
  | .pt p, .pt q => .ok (explainPoint p q)
  | .vec p, .vec q => .ok (explainVector p q)
  | .str _, _ => .error .attribute
  | _, _ => .error .type

/-- `all(n.close(o) for n, o in zip(vals_n, vals_o))`: stops at the first that is false. -/
def allClose : List (Attr × Attr) → Except PyErr Bool
  | [] => .ok true
  | (n, o) :: rest =>
    match attrClose n o with
    | .error e => .error e
    | .ok false => .ok false
    | .ok true => allClose rest

/-- testing.py:93 `ATTRS = ('c', 'dl', 'dr', 'kind')` of a control point. -/
def attrs (cp : CP ℝ) : List Attr := [.pt cp.c, .vec cp.dl, .vec cp.dr, .str cp.kind]

/-- testing.py:104-109 `ExtendedMatcherControlPoint.explain_mismatch(new_data, old_data)`. -/
def explainCP (new old : CP ℝ) : Except PyErr Bool :=
  match allClose ((attrs new).zip (attrs old)) with
  | .error e => .error e
  | .ok true => .ok true
  | .ok false => .ok false

/-! ### Plots -/

/-- The two entries of `plt.rcParams` that are changed: `axes.titley` and `axes.titlepad`. -/
structure Rc where
  titley : ℝ
  titlepad : ℝ

/-- What `test_case.match` returns. -/
inductive MatchRes
  | ok
  | exc (e : PyErr)
  | msg

/-- Code using plots: setting the parameters, raising, and `with self.assertMatchPlot(): body`; `grab` is the exception of `fig_to_image`
if it fails. -/
inductive Prog
  | done
  | set (titley titlepad : ℝ) (rest : Prog)
  | raise (e : PyErr)
  | plot (grab : Option PyErr) (m : MatchRes) (body rest : Prog)

/-- testing.py:180-190 `__exit__`, `saved` being the attributes set by `__enter__`, `r` the outcome of the body: the parameters afterwards and
the exception that leaves the `with` statement. -/
def plotExit (grab : Option PyErr) (m : MatchRes) (saved : Rc) (r : Rc × Option PyErr) : Rc × Option PyErr :=
  match grab with
  | some e => (r.1, some e)
  | none =>
    match m with
    | .exc e => (saved, some e)
    | .msg => (saved, some .assertion)
    | .ok => (saved, r.2)

/-- testing.py:173-190: running such code. -/
def Prog.run : Prog → Rc → Rc × Option PyErr
  | .done, s => (s, none)
  | .set y p rest, _ => rest.run ⟨y, p⟩
  | .raise e, s => (s, some e)
  | .plot grab m body rest, s =>
    match plotExit grab m s (body.run ⟨1, -20⟩) with
    | (s', some e) => (s', some e)
    | (s', none) => rest.run s'

end X7.TM
