import Verif.Model.Transform

/-!
Model of x7/geom/colors.py: `Colors`, `Brush`, `Pen`, `PenBrush`, `ColorsByShape`, `PensByShape`.
-/

noncomputable section

namespace X7

/-- colors.py:6 `Color`: a string, a number, or a tuple of numbers. -/
inductive Color
  | name (s : String)
  | num (n : ℤ)
  | tup (l : List ℤ)
  deriving DecidableEq

namespace Color

/-- colors.py:4 `TRANSPARENT`. -/
def transparent : Color := .tup [0, 0, 0, 0]

/-- colors.py:5 `NOCOLOR`. -/
def nocolor : Color := .name "NoColor"

/-- Python truth value of a colour: the empty string, 0 and the empty tuple are false. -/
def truthy : Color → Bool
  | name s => s != ""
  | num n => n != 0
  | tup l => !l.isEmpty

/-- colors.py:16-17 `_nocolor`. -/
def noColor (c : Option Color) : Option Color := if c = some nocolor then none else c

end Color

/-- colors.py:20-30 `Colors`. -/
structure Colors where
  outline : Option Color
  fill : Option Color
  deriving DecidableEq

namespace Colors

/-- colors.py:21-23 `Colors.__init__`. -/
def init (outline : Option Color := some (.name "black")) (fill : Option Color := none) : Colors :=
  ⟨Color.noColor outline, Color.noColor fill⟩

/-- colors.py:25-27 `filled`: `bool(self.fill)`. -/
def filled (c : Colors) : Bool :=
  match c.fill with
  | none => false
  | some f => f.truthy

end Colors

/-- colors.py:33-45 `Brush`; `==` compares the colour. -/
structure Brush where
  color : Color
  deriving DecidableEq

/-- colors.py:48-69 `Pen`; `==` compares brush and width. -/
@[ext] structure Pen where
  brush : Brush
  width : ℝ

/-- colors.py:72-88 `PenBrush`; `==` compares both. -/
@[ext] structure PenBrush where
  pen : Option Pen
  brush : Option Brush

/-- A `Brush` or a colour as argument. -/
inductive BrushArg
  | brush (b : Brush)
  | color (c : Color)

/-- A `Pen`, a pair (colour or brush, width), or a colour, as argument. -/
inductive PenArg
  | pen (p : Pen)
  | pair (b : BrushArg) (w : ℝ)
  | color (c : Color)

/-- The brush meant by a brush argument (colors.py:56, 81-84). -/
def BrushArg.toBrush : BrushArg → Brush
  | .brush b => b
  | .color c => ⟨c⟩

/-- Python truth value: objects are true. -/
def BrushArg.truthy : BrushArg → Bool
  | .brush _ => true
  | .color c => c.truthy

/-- Python truth value: objects and pairs are true. -/
def PenArg.truthy : PenArg → Bool
  | .pen _ => true
  | .pair _ _ => true
  | .color c => c.truthy

namespace Pen

/-- colors.py:55-57 `Pen.__init__`. -/
def init (b : BrushArg) (width : ℝ := 0) : Pen := ⟨b.toBrush, width⟩

/-- colors.py:68-69 `Pen.replace`. -/
def replace (p : Pen) (brush : Option BrushArg) (width : Option ℝ) : Pen :=
  let b := match brush with
    | some b => if b.truthy then b else .brush p.brush
    | none => .brush p.brush
  init b (match width with | some w => w | none => p.width)

end Pen

namespace PenBrush

/-- colors.py:75-80 the pen meant by the pen argument. A colour that is a tuple of two numbers is taken for a pair. -/
def penOf : Option PenArg → Option Pen
  | none => none
  | some (.pen p) => some p
  | some (.pair b w) => some (Pen.init b w)
  | some (.color (.tup [a, b])) => some (Pen.init (.color (.num a)) b)
  | some (.color c) => some (Pen.init (.color c) 0)

/-- colors.py:74-84 `PenBrush.__init__`. -/
def init (pen : Option PenArg) (brush : Option BrushArg) : PenBrush :=
  ⟨penOf pen, brush.map BrushArg.toBrush⟩

/-- colors.py:89-91 `filled`: brush objects are true. -/
def filled (pb : PenBrush) : Bool := pb.brush.isSome

/-- colors.py:93-95 `stroked`. -/
def stroked (pb : PenBrush) : Bool := pb.pen.isSome

/-- colors.py:97-99 `fill_color`. -/
def fillColor (pb : PenBrush) : Option Color := pb.brush.map Brush.color

/-- colors.py:101-103 `stroke_color`. -/
def strokeColor (pb : PenBrush) : Option Color := pb.pen.map fun p => p.brush.color

/-- colors.py:105-110 `stroke_width(xform)`; `none` is Python's `None`. -/
def strokeWidth (pb : PenBrush) (xform : TState) : Option ℝ :=
  match pb.pen with
  | none => none
  | some p => if p.width > 0 then some p.width else some (xform.transformWidth (-p.width))

/-- colors.py:124-129 `replace(pen, width, brush)`. -/
def replace (pb : PenBrush) (pen : Option PenArg) (width : Option ℝ) (brush : Option BrushArg) : Except PyErr PenBrush :=
  let penTrue := match pen with | some p => p.truthy | none => false
  if penTrue && width.isSome then .error .value
  else
    let pen := match width, pb.pen with
      | some w, some p => some (PenArg.pen (Pen.init (.brush p.brush) w))
      | _, _ => pen
    let pen := match pen with
      | some p => if p.truthy then some p else pb.pen.map PenArg.pen
      | none => pb.pen.map PenArg.pen
    let brush := match brush with
      | some b => if b.truthy then some b else pb.brush.map BrushArg.brush
      | none => pb.brush.map BrushArg.brush
    .ok (init pen brush)

end PenBrush

/-- colors.py:132-163 `ColorsByShape` (one entry per shape kind). -/
structure ByShape (α : Type*) where
  edge : α
  filled : α
  clear : α
  edge_filled : α
  edge_clear : α

namespace ByShape

/-- colors.py:149-151, 218-220 `keys()`. -/
def keys : List String := ["edge", "filled", "clear", "edge_filled", "edge_clear"]

/-- colors.py:159-163, 228-232 `__getitem__`. -/
def get {α : Type*} (s : ByShape α) (kind : String) : Except PyErr α :=
  if kind = "edge" then .ok s.edge
  else if kind = "filled" then .ok s.filled
  else if kind = "clear" then .ok s.clear
  else if kind = "edge_filled" then .ok s.edge_filled
  else if kind = "edge_clear" then .ok s.edge_clear
  else .error .value

end ByShape

/-- colors.py:165-197 `ColorsByShape.make`. -/
def ColorsByShape.make (draft : Bool) (color fill transparent : Color) : ByShape Colors :=
  if draft then
    ⟨Colors.init (some color) none, Colors.init (some color) none, Colors.init (some color) none,
     Colors.init (some color) none, Colors.init (some color) none⟩
  else
    ⟨Colors.init (some color) none, Colors.init none (some color), Colors.init none (some transparent),
     Colors.init (some color) (some fill), Colors.init (some color) (some transparent)⟩

namespace PensByShape

/-- colors.py:210-216 `PensByShape.__init__`: missing entries get `PenBrush(Pen('black', 1), None)`. -/
def init (edge filled clear edge_filled edge_clear : Option PenBrush) : ByShape PenBrush :=
  let default : PenBrush := ⟨some ⟨⟨.name "black"⟩, 1⟩, none⟩
  ⟨edge.getD default, filled.getD default, clear.getD default, edge_filled.getD default, edge_clear.getD default⟩

/-- colors.py:234-235 `replace_width`. -/
def replaceWidth (s : ByShape PenBrush) (width : Option ℝ) : Except PyErr (ByShape PenBrush) := do
  let edge ← s.edge.replace none width none
  let filled ← s.filled.replace none width none
  let clear ← s.clear.replace none width none
  let edge_filled ← s.edge_filled.replace none width none
  let edge_clear ← s.edge_clear.replace none width none
  .ok (init (some edge) (some filled) (some clear) (some edge_filled) (some edge_clear))

/-- colors.py:237-275 `PensByShape.make`; `(color, 0.0)` in the draft case is a pair. -/
def make (draft : Bool) (color fill transparent : Color) (width : ℝ) : ByShape PenBrush :=
  if draft then
    let pen := PenBrush.init (some (.pair (.color color) 0)) none
    init (some pen) (some pen) (some pen) (some pen) (some pen)
  else
    let edge_pen := Pen.init (.color color) width
    init (some (PenBrush.init (some (.pen edge_pen)) none))
      (some (PenBrush.init none (some (.color color))))
      (some (PenBrush.init none (some (.color transparent))))
      (some (PenBrush.init (some (.pen edge_pen)) (some (.color fill))))
      (some (PenBrush.init (some (.pen edge_pen)) (some (.color transparent))))

end PensByShape

/-- The arguments written by colors.py:65-66, 121-122 `repr(penbrush)` = `PenBrush(Pen(color, width), Brush(color))`: what
Python evaluates them to. `Pen(color, width)` and `Brush(color)` are the constructor calls. -/
def PenBrush.reprArgs (pb : PenBrush) : Option PenArg × Option BrushArg :=
  (pb.pen.map fun p => .pen (Pen.init (.color p.brush.color) p.width), pb.brush.map fun b => .brush ⟨b.color⟩)

end X7
