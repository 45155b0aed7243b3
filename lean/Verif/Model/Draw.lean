import Mathlib.Algebra.Order.Round
import Verif.Model.Elem

/-!
Model of `Elem.draw` and its helpers (x7/geom/model.py 226-307): the operations issued on the canvas `draw.draw` (a PIL
`ImageDraw`), in order. What PIL paints for an operation is outside the model.
-/

noncomputable section

namespace X7

/-- Python `round(x)` of a float: the nearest integer, the even one of two equally near. -/
def pyRound (x : ℝ) : ℤ :=
  if x - ⌊x⌋ < 1 / 2 then ⌊x⌋
  else if 1 / 2 < x - ⌊x⌋ then ⌊x⌋ + 1
  else if ⌊x⌋ % 2 = 0 then ⌊x⌋
  else ⌊x⌋ + 1

/-- One call on the canvas. `line` keeps `width` and whether `joint='curve'` was given; `show` is `draw.show()`, which shows the
image made so far. -/
inductive DrawOp
  | polygon (pts : List (Pt ℝ)) (fill : Option Color)
  | line (pts : List (Pt ℝ)) (fill : Option Color) (width : ℤ) (joint : Bool)
  | ellipse (p q : Pt ℝ) (outline fill : Option Color)
  | rectangle (p q : Pt ℝ) (outline fill : Option Color)
  | show

/-- The attributes of the drawing context read by `draw` (drawing.py:58-66) besides the matrix. -/
structure DrawCfg extends DCfg where
  prod : Bool
  debug : Bool
  showall : Bool
  shadowColor : Option Color

/-- The run of a drawing method: the matrix of the context afterwards, the operations issued, the exception if any. -/
structure DrawRes where
  st : TState
  ops : List DrawOp
  err : Option PyErr

namespace Elem

/-- model.py:248-252 the width of the outline; `round(None)` is a `TypeError`. -/
def lineWidth (cfg : DrawCfg) (m : TState) (pb : PenBrush) : Except PyErr ℤ :=
  if cfg.prod && pb.stroked then
    match pb.strokeWidth m with
    | some w => .ok (max 1 (pyRound w))
    | none => .error .type
  else .ok 1

/-- model.py:255-258 `fill_color`. -/
def fillColorOf (cfg : DrawCfg) (pb : PenBrush) : Option Color :=
  match cfg.shadowColor with
  | some c => if c.truthy && decide (pb.fillColor ≠ some Color.transparent) then some c else pb.fillColor
  | none => pb.fillColor

/-- model.py:271-290 `draw_path_debug`. -/
def pathDebug (cfg : DrawCfg) (m : TState) (path : Path) : List DrawOp × Option PyErr :=
  if !path.pb.stroked then ([], none)
  else
    match path.pb.strokeWidth m with
    | none => ([], some .type)
    | some w =>
      let rad : ℝ := (max 1 (pyRound w) : ℤ) / 2
      if rad > 2 then
        (path.pts.map fun p =>
          if cfg.prod then .ellipse ⟨p.x - rad, p.y - rad⟩ ⟨p.x + rad, p.y + rad⟩ none path.pb.strokeColor
          else .ellipse ⟨p.x - rad, p.y - rad⟩ ⟨p.x + rad, p.y + rad⟩ (some (.name "red")) path.pb.strokeColor, none)
      else ([], none)

/-- model.py:268-269 the end of the loop body: after the operations `ops`. -/
def afterPath (cfg : DrawCfg) (m : TState) (path : Path) (ops : List DrawOp) : List DrawOp × Option PyErr :=
  if cfg.debug then
    let d := pathDebug cfg m path
    (ops ++ d.1, d.2)
  else (ops, none)

/-- model.py:244-269 the loop body for one path; `p[0]` of an empty path is an `IndexError`. -/
def drawPath (cfg : DrawCfg) (m : TState) (path : Path) : List DrawOp × Option PyErr :=
  let p := path.pts
  let do_fill := path.pb.filled
  let do_outline := path.pb.stroked
  match lineWidth cfg m path.pb with
  | .error e => ([], some e)
  | .ok width =>
    let fill_color := fillColorOf cfg path.pb
    if do_fill then
      let ops := DrawOp.polygon p fill_color :: (if cfg.showall then [.show] else [])
      if do_outline then
        match p.head? with
        | none => (ops, some .index)
        | some q => afterPath cfg m path (ops ++ [.line (p ++ [q]) path.pb.strokeColor width true])
      else afterPath cfg m path ops
    else afterPath cfg m path [.line p path.pb.strokeColor width true]

/-- model.py:244 the loop over the paths. -/
def drawPaths (cfg : DrawCfg) (m : TState) : List Path → List DrawOp × Option PyErr
  | [] => ([], none)
  | p :: rest =>
    match drawPath cfg m p with
    | (ops, some e) => (ops, some e)
    | (ops, none) =>
      let r := drawPaths cfg m rest
      (ops ++ r.1, r.2)

/-- model.py:297-305 the operations for one entry of a control path. Coordinates are joined to one tuple; pairs here. -/
def drawEntry : CEntry → List DrawOp
  | .cp cp =>
    let grey := some (Color.name "grey")
    let red := some (Color.name "red")
    let rad : Vec ℝ := ⟨5, 5⟩
    [.line [cp.c, cp.l] grey 0 false,
     .line [cp.c, cp.r] grey 0 false,
     .ellipse (cp.l.subVec rad) (cp.l.addVector rad) red grey,
     .ellipse (cp.r.subVec rad) (cp.r.addVector rad) red grey,
     .rectangle (cp.c.addVector rad) (cp.c.subVec rad) red grey]
  | .pt p =>
    let rad : Vec ℝ := ⟨5, 5⟩
    [.rectangle (p.addVector rad) (p.subVec rad) (some (.name "red")) (some (.name "grey"))]

/-- model.py:292-307 `draw_control_points`. -/
def drawControl (e : Elem) (s : TState) : DrawRes :=
  match controlPaths e s with
  | (s, .error er) => ⟨s, [], some er⟩
  | (s, .ok paths) => ⟨s, paths.flatten.flatMap drawEntry, none⟩

/-- model.py:244 `for path in self.paths(draw)` and the rest of `draw`. -/
def drawRest (cfg : DrawCfg) (e : Elem) (s : TState) : DrawRes :=
  match paths cfg.toDCfg e s with
  | (s, .error er) => ⟨s, [], some er⟩
  | (s, .ok ps) =>
    let r := drawPaths cfg s ps
    ⟨s, r.1, r.2⟩

/-- model.py:226-269 `draw(dc)`. -/
def draw (cfg : DrawCfg) (e : Elem) (s : TState) : DrawRes :=
  if cfg.showCps then
    let c := drawControl e s
    match c.err with
    | some _ => c
    | none =>
      let r := drawRest cfg e c.st
      ⟨r.st, c.ops ++ r.ops, r.err⟩
  else drawRest cfg e s

end Elem
end X7
