import Verif.Model.VecReal
import Verif.Model.Mat3

/-!
Model of `Transform` (x7/geom/transform.py 118-334) as a mutable object: current matrix, cached inverse, stack of saved
matrices. Over ℝ because of the rotations. `Matrix.copy` copies the array (transform.py:38-39) and every update rebinds
`ndmat` to a new array (42-48), so stack entries and copies never alias the current matrix: values suffice.
-/

noncomputable section

namespace X7

/-- transform.py:119-128 the attributes `_mat`, `_inverse`, `stack` (top of the stack first). -/
@[ext] structure TState where
  mat : Mat3 ℝ
  inv : Option (Mat3 ℝ)
  stack : List (Mat3 ℝ)

/-- Result of a method call: the object afterwards, and the exception raised if any. -/
structure Res where
  st : TState
  err : Option PyErr

namespace TState

/-- transform.py:119-128, 159-160 `Transform()` / `Transform.identity()`. -/
def new : TState := ⟨Mat3.one, none, []⟩

/-- transform.py:119-128 `Transform((a, b, c, d, e, f))`. -/
def new6 (a b c d e f : ℝ) : TState := ⟨Mat3.of6 a b c d e f, none, []⟩

/-- transform.py:147-150 `set_matrix`. -/
def setMatrix (s : TState) (m : Mat3 ℝ) : TState := { s with mat := m, inv := none }

/-- transform.py:142-145 `copy`: a new object with the same matrix, no cached inverse and an empty stack. The 6-tuple is
taken first, then the whole matrix is set. -/
def copy (s : TState) : TState :=
  (new6 s.mat.a s.mat.b s.mat.c s.mat.d s.mat.e s.mat.f).setMatrix s.mat

/-- transform.py:152-157 the property `inverse`: computes and caches. -/
def inverse (s : TState) : TState × Except PyErr (Mat3 ℝ) :=
  match s.inv with
  | some i => (s, .ok i)
  | none =>
    match s.mat.inv with
    | .ok i => ({ s with inv := some i }, .ok i)
    | .error e => (s, .error e)

/-- transform.py:162-165 `reset`. -/
def reset (s : TState) : TState := { s with mat := Mat3.one, inv := none }

/-- transform.py:190-193 `translate` (`pre_dot_eq`, 42-44). -/
def translate (s : TState) (dx dy : ℝ) : TState :=
  { s with mat := (Mat3.translateMat dx dy).mul s.mat, inv := none }

/-- transform.py:195-198 `scale`. -/
def scale (s : TState) (sx sy : ℝ) : TState :=
  { s with mat := (Mat3.scaleMat sx sy).mul s.mat, inv := none }

/-- transform.py:222-226 `rotate`. -/
def rotate (s : TState) (deg : ℝ) : TState :=
  { s with mat := (Mat3.rotateMat (Real.cos (radians deg)) (Real.sin (radians deg))).mul s.mat, inv := none }

/-- transform.py:228-232 `rotate_ccw`. -/
def rotateCcw (s : TState) (deg : ℝ) : TState :=
  { s with mat := (Mat3.rotateMatCcw (Real.cos (radians deg)) (Real.sin (radians deg))).mul s.mat, inv := none }

/-- transform.py:234-239 `rotate_about`: note that `_inverse` is not cleared. -/
def rotateAbout (s : TState) (angle : ℝ) (center : Pt ℝ) : TState :=
  let xform := ((new.translate (-center.x) (-center.y)).rotate angle).translate center.x center.y
  { s with mat := xform.mat.mul s.mat }

/-- transform.py:241-246 `compose` (`post_dot_eq`, 46-48). -/
def compose (s : TState) (m : Mat3 ℝ) : TState := { s with mat := s.mat.mul m, inv := none }

/-- transform.py:248-253 `compose_outer`. -/
def composeOuter (s : TState) (m : Mat3 ℝ) : TState := { s with mat := m.mul s.mat, inv := none }

/-- transform.py:206-220 `scale_bbox`. Divisions by a zero width or height raise `ZeroDivisionError` at the point where
they occur, `None` coordinates raise `TypeError` where they are used; updates already made stay. -/
def scaleBBox (s : TState) (start target : BBox ℝ) (keep_aspect : Bool) : Res :=
  if keep_aspect then
    if start.width = 0 ∨ start.height = 0 then ⟨s, some .zeroDivision⟩
    else
      let scale := min (target.width / start.width) (target.height / start.height)
      match start with
      | .none => ⟨s, some .type⟩
      | .box xl yl _ _ =>
        let s1 := s.translate (-xl) (-yl)
        let s2 := s1.scale scale scale
        let w_extra := target.width - start.width * scale
        let h_extra := target.height - start.height * scale
        match target with
        | .none => ⟨s2, some .type⟩
        | .box txl tyl _ _ => ⟨s2.translate (txl + w_extra / 2) (tyl + h_extra / 2), none⟩
  else
    match start with
    | .none => ⟨s, some .type⟩
    | .box xl yl _ _ =>
      let s1 := s.translate (-xl) (-yl)
      if start.width = 0 ∨ start.height = 0 then ⟨s1, some .zeroDivision⟩
      else
        let s2 := s1.scale (target.width / start.width) (target.height / start.height)
        match target with
        | .none => ⟨s2, some .type⟩
        | .box txl tyl _ _ => ⟨s2.translate txl tyl, none⟩

/-- transform.py:84-87 `transform(x, y)`. -/
def transform (s : TState) (p : Pt ℝ) : Pt ℝ := s.mat.apply p

/-- transform.py:287-291 `untransform(x, y)`: uses (and caches) the inverse. -/
def untransform (s : TState) (p : Pt ℝ) : TState × Except PyErr (Pt ℝ) :=
  match s.inverse with
  | (s', .ok i) => (s', .ok (i.apply p))
  | (s', .error e) => (s', .error e)

/-- transform.py:303-319 `push`. -/
def push (s : TState) : TState := { s with stack := s.mat :: s.stack }

/-- transform.py:321-325 `pop`. -/
def pop (s : TState) : Res :=
  match s.stack with
  | [] => ⟨s, some .emptyStack⟩
  | m :: rest => ⟨{ s with mat := m, inv := none, stack := rest }, none⟩

/-- transform.py:200-204 `scale_vals`: lengths of the columns of the two upper rows. -/
def scaleVals (s : TState) : ℝ × ℝ := (hypot s.mat.a s.mat.d, hypot s.mat.b s.mat.e)

/-- transform.py:282-285 `transform_width`. -/
def transformWidth (s : TState) (width : ℝ) : ℝ :=
  let (sx, sy) := s.scaleVals
  width * (|sx| + |sy|) / 2

/-- transform.py:273-276 `canvas_fit`. -/
def canvasFit (w h zoom zx zy : ℝ) : TState :=
  let _ := w
  (((new.scale zoom zoom).translate zx zy).scale 1 (-1)).translate 0 h

/-- transform.py:14-15 `near_zero`. -/
def nearZero (v : ℝ) : Prop := |v| < 1 / 10 ^ 16

/-- transform.py:255-259 `is_simple`. -/
def isSimple (s : TState) : Prop :=
  (nearZero s.mat.b ∧ nearZero s.mat.d) ∨ (nearZero s.mat.a ∧ nearZero s.mat.e)

open Classical in
/-- transform.py:261-271 `simplify`. -/
def simplify (s : TState) : TState × TState :=
  let snap (v : ℝ) : ℝ := if nearZero v then 0 else v
  let a := snap s.mat.a
  let b := snap s.mat.b
  let d := snap s.mat.d
  let e := snap s.mat.e
  let c := s.mat.c
  let f := s.mat.f
  if s.isSimple then (new6 a b c d e f, new)
  else (new6 1 0 c 0 1 f, new6 a b 0 d e 0)

/-- transform.py:101-115 `transform_pts` as tuples/Points: an empty list fails (`np.dot` of a 3x3 with a shape-(0,) array:
`ValueError`). -/
def transformPts (s : TState) (pts : List (Pt ℝ)) : Except PyErr (List (Pt ℝ)) :=
  match pts with
  | [] => .error .value
  | _ => .ok ((pts.map s.mat.apply3).map fun xyz => ⟨xyz.1, xyz.2.1⟩)

/-- transform.py:101-115 `transform_pts` with the kind of each element (`true`: a `BasePoint`, `false`: a tuple): the kind
of all outputs is that of the first input. -/
def transformPtsKind (s : TState) (pts : List (Bool × Pt ℝ)) : Except PyErr (List (Bool × Pt ℝ)) :=
  match pts with
  | [] => .error .value
  | (k, _) :: _ => .ok ((pts.map fun q => s.mat.apply3 q.2).map fun xyz => (k, ⟨xyz.1, xyz.2.1⟩))

/-- transform.py:101-115 `transform_pts(..., flatten=True)`. -/
def transformPtsFlat (s : TState) (pts : List (Pt ℝ)) : Except PyErr (List ℝ) :=
  match pts with
  | [] => .error .value
  | _ => .ok ((pts.map s.mat.apply3).flatMap fun xyz => [xyz.1, xyz.2.1])

/-- transform.py:296-301 `untransform_pts`: the list of points is converted first, then the inverse is taken
(a `LinAlgError` for a singular matrix comes before the shape error of an empty list). -/
def untransformPts (s : TState) (pts : List (Pt ℝ)) : TState × Except PyErr (List (Pt ℝ)) :=
  match s.inverse with
  | (s', .ok i) =>
    match pts with
    | [] => (s', .error .value)
    | _ => (s', .ok ((pts.map i.apply3).map fun xyz => ⟨xyz.1, xyz.2.1⟩))
  | (s', .error e) => (s', .error e)

end TState

/-- The calls a program can make on one `Transform` object. `Mat3` arguments are the matrices of other objects. -/
inductive TOp
  | translate (dx dy : ℝ)
  | scale (sx sy : ℝ)
  | rotate (deg : ℝ)
  | rotateCcw (deg : ℝ)
  | rotateAbout (deg : ℝ) (center : Pt ℝ)
  | scaleBBox (start target : BBox ℝ) (keep : Bool)
  | compose (m : Mat3 ℝ)
  | composeOuter (m : Mat3 ℝ)
  | reset
  | setMatrix (m : Mat3 ℝ)
  | push
  | pop
  | untransform (p : Pt ℝ)
  | untransformPts (ps : List (Pt ℝ))
  | transform (p : Pt ℝ)

/-- One call: the state afterwards and the exception raised if any (a result value is not needed here). -/
def TState.step (s : TState) : TOp → Res
  | .translate dx dy => ⟨s.translate dx dy, none⟩
  | .scale sx sy => ⟨s.scale sx sy, none⟩
  | .rotate d => ⟨s.rotate d, none⟩
  | .rotateCcw d => ⟨s.rotateCcw d, none⟩
  | .rotateAbout d c => ⟨s.rotateAbout d c, none⟩
  | .scaleBBox a b k => s.scaleBBox a b k
  | .compose m => ⟨s.compose m, none⟩
  | .composeOuter m => ⟨s.composeOuter m, none⟩
  | .reset => ⟨s.reset, none⟩
  | .setMatrix m => ⟨s.setMatrix m, none⟩
  | .push => ⟨s.push, none⟩
  | .pop => s.pop
  | .untransform p => ⟨(s.untransform p).1, match (s.untransform p).2 with | .ok _ => none | .error e => some e⟩
  | .untransformPts ps => ⟨(s.untransformPts ps).1, match (s.untransformPts ps).2 with | .ok _ => none | .error e => some e⟩
  | .transform _ => ⟨s, none⟩

/-- A history of calls; exceptions are caught by the caller, who goes on with the object. -/
def TState.run (s : TState) (ops : List TOp) : TState :=
  ops.foldl (fun s o => (s.step o).st) s

/-- Programs using one transform with balanced push/pop:
* `op`: a call other than push/pop (exceptions propagate),
* `withPush hdr body`: `with m.push().op1()...: body`. If a call of the header chain raises, the block is not entered and
  nothing pops; otherwise `__exit__` pops, also if the body raised (transform.py:327-334),
* `pushPop body`: `m.push(); body; m.pop()` (no cleanup if the body raises),
* `attempt p`: `try: p except: pass`. -/
inductive Prog
  | skip
  | raise (e : PyErr)
  | op (o : TOp)
  | seq (p q : Prog)
  | withPush (hdr : List TOp) (body : Prog)
  | pushPop (body : Prog)
  | attempt (p : Prog)

/-- Run a chain of calls, stopping at the first exception. -/
def TState.chain (s : TState) : List TOp → Res
  | [] => ⟨s, none⟩
  | o :: os =>
    match s.step o with
    | ⟨s', none⟩ => s'.chain os
    | r => r

/-- Semantics of programs. transform.py:303-334. -/
def Prog.exec : Prog → TState → Res
  | .skip, s => ⟨s, none⟩
  | .raise e, s => ⟨s, some e⟩
  | .op o, s => s.step o
  | .seq p q, s =>
    match p.exec s with
    | ⟨s', none⟩ => q.exec s'
    | r => r
  | .withPush hdr body, s =>
    match s.push.chain hdr with
    | ⟨s1, none⟩ =>
      -- `__enter__`: the stack must not be empty
      if s1.stack = [] then ⟨s1, some .emptyStack⟩
      else
        let r := body.exec s1
        match r.st.pop with
        | ⟨s2, none⟩ => ⟨s2, r.err⟩
        | ⟨s2, some e⟩ => ⟨s2, some e⟩
    | r => r
  | .pushPop body, s =>
    match body.exec s.push with
    | ⟨s', none⟩ => s'.pop
    | r => r
  | .attempt p, s => ⟨(p.exec s).st, none⟩

end X7
