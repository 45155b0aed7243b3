import Verif.Model.Elem
import Verif.Model.GroupNames

/-!
Model of groups which share elements (x7/geom/model.py `Group` 817-948): elements and groups are objects, a group refers to its
elements, an element may be in several groups or several times in one, a group may be in itself. Every call on a group and what drawing
(`paths` 856-866) does then.

A reference is the index of the object among the objects of its class; objects are only ever appended. Simplifications: what a curve or
shape is made of is a value (its points as objects are in Model/CurveHeap and Model/ShapeHeap); groups are not `closed` (their default) and
have no named points; shapes with holes are left out. Transform objects are represented by their matrices.
-/

noncomputable section

namespace X7.GH

/-- What a curve or shape is made of. -/
inductive Leaf
  | curve (closed : Bool) (cps : List (CP ℝ))
  | rect (p1 p2 : Pt ℝ)
  | rrect (p1 p2 : Pt ℝ) (radius : ℝ)
  | ellipse (p1 p2 : Pt ℝ)

/-- A curve or shape, or a group: the dict `elems` is the list of its items in insertion order. -/
inductive Body
  | leaf (l : Leaf)
  | group (hidden : Bool) (elems : List (Str × ℕ))

/-- model.py:138-144 an element; `xf` refers to its transform. -/
structure Item where
  name : Str
  pb : PenBrush
  xf : ℕ
  body : Body

/-- All objects. -/
structure World where
  items : List Item
  xfs : List (Mat3 ℝ)

/-- No objects. -/
def World.empty : World := ⟨[], []⟩

/-- A curve or shape as a value. -/
def leafElem (name : Str) (pb : PenBrush) (m : Mat3 ℝ) : Leaf → Elem
  | .curve closed cps => .curve ⟨name, pb, closed, m⟩ cps
  | .rect p1 p2 => .rect ⟨name, pb, true, m⟩ p1 p2
  | .rrect p1 p2 r => .rrect ⟨name, pb, true, m⟩ p1 p2 r
  | .ellipse p1 p2 => .ellipse ⟨name, pb, true, m⟩ p1 p2

/-- model.py:863-865 the loop of `Group.paths`; `f` draws an element. -/
def drawAll (f : ℕ → TState → TState × Except PyErr (List Path)) : List (Str × ℕ) → TState → TState × Except PyErr (List Path)
  | [], s => (s, .ok [])
  | (_, i) :: rest, s =>
    match f i s with
    | (s, .error er) => (s, .error er)
    | (s, .ok ps) =>
      match drawAll f rest s with
      | (s, .error er) => (s, .error er)
      | (s, .ok qs) => (s, .ok (ps ++ qs))

/-- model.py:506-524, 639-645, 767-775, 796-803, 856-866 `elem.paths(dc)`, when `depth` more calls may be nested before Python raises a
`RecursionError`. -/
def draw (cfg : DCfg) (w : World) : (depth : ℕ) → ℕ → TState → TState × Except PyErr (List Path)
  | 0, _, s => (s, .error .recursion)
  | n + 1, i, s =>
    match w.items[i]? with
    | none => (s, .error .attribute)
    | some it =>
      match w.xfs[it.xf]? with
      | none => (s, .error .attribute)
      | some m =>
        match it.body with
        | .leaf l => Elem.paths cfg (leafElem it.name it.pb m l) s
        | .group hidden es => if hidden then (s, .ok []) else Elem.drawSpace s m (drawAll (draw cfg w n) es)

/-- `type(elem).__name__`. -/
def clsName : Body → Str
  | .leaf (.curve ..) => "ElemCurve".toList
  | .leaf (.rect ..) => "ElemRectangle".toList
  | .leaf (.rrect ..) => "ElemRectangleRounded".toList
  | .leaf (.ellipse ..) => "ElemEllipse".toList
  | .group .. => "Group".toList

/-- model.py:911-928 `group.add(name, elem, fixname)`. The name is chosen as in Model/GroupNames. -/
def add (w : World) (g : ℕ) (name : Str) (e : ℕ) (fixname : Bool) : World × Option PyErr :=
  match w.items[g]?, w.items[e]? with
  | some gi, some ei =>
    match gi.body with
    | .group hidden es =>
      let keys := es.map Prod.fst
      match GroupNames.pickName keys (clsName ei.body) name fixname with
      | none => (w, some .recursion)
      | some key =>
        if hasDot key then (w, some .value)
        else if key ∈ keys then (w, some .value)
        else
          let items := w.items.set g { gi with body := .group hidden (es ++ [(key, e)]) }
          (⟨items.modify e fun it => { it with name := key }, w.xfs⟩, none)
    | .leaf _ => (w, some .attribute)
  | _, _ => (w, some .attribute)

/-- model.py:894-897 `group.copy()`: a new dict with the same elements, and a copy of the transform. -/
def copyGroup (w : World) (g : ℕ) : World × Option PyErr :=
  match w.items[g]? with
  | some gi =>
    match gi.body, w.xfs[gi.xf]? with
    | .group hidden es, some m => (⟨w.items ++ [⟨gi.name, gi.pb, w.xfs.length, .group hidden es⟩], w.xfs ++ [m]⟩, none)
    | _, _ => (w, some .attribute)
  | none => (w, some .attribute)

/-- model.py:899-905 `group.restore(other)`: the same elements and the same transform object. -/
def restoreGroup (w : World) (g h : ℕ) : World × Option PyErr :=
  match w.items[g]?, w.items[h]? with
  | some gi, some hi =>
    match gi.body, hi.body with
    | .group _ _, .group hidden es => (⟨w.items.set g ⟨hi.name, hi.pb, hi.xf, .group hidden es⟩, w.xfs⟩, none)
    | _, _ => (w, some .attribute)
  | _, _ => (w, some .attribute)

/-- model.py:907-909 `group.transform(matrix)`: a new group with the same elements. -/
def transformGroup (w : World) (g : ℕ) (m : TState) : World × Option PyErr :=
  match w.items[g]? with
  | some gi =>
    match gi.body, w.xfs[gi.xf]? with
    | .group hidden es, some x =>
      (⟨w.items ++ [⟨gi.name, gi.pb, w.xfs.length, .group hidden es⟩], w.xfs ++ [(m.copy.compose x).mat]⟩, none)
    | _, _ => (w, some .attribute)
  | none => (w, some .attribute)

/-- The calls of a program. -/
inductive Op
  | mkLeaf (name : Str) (pb : PenBrush) (l : Leaf)                                          -- the constructors of curves and shapes
  | mkGroup (name : Str) (pb : PenBrush) (hidden : Bool)                                    -- model.py:828-831 `Group(name, penbrush, hidden)`
  | add (g : ℕ) (name : Str) (e : ℕ) (fixname : Bool)
  | setXf (i : ℕ) (m : Mat3 ℝ)                                                              -- `elem.xform.translate(..)` and the like
  | setHidden (g : ℕ) (hidden : Bool)                                                       -- `group.hidden = ..`
  | edit (i : ℕ) (name : Str) (pb : PenBrush) (l : Leaf) (xf : Option (Mat3 ℝ))             -- any change of one curve or shape; `restore` also gives it a new transform
  | copyLeaf (i : ℕ)                                                                        -- model.py:377-385, 579-583: shares the transform object
  | copyGroup (g : ℕ)
  | restoreGroup (g h : ℕ)
  | transformGroup (g : ℕ) (m : TState)

/-- One call: the objects afterwards and the exception raised, if any. -/
def step (w : World) : Op → World × Option PyErr
  | .mkLeaf name pb l => (⟨w.items ++ [⟨name, pb, w.xfs.length, .leaf l⟩], w.xfs ++ [Mat3.one]⟩, none)
  | .mkGroup name pb hidden => (⟨w.items ++ [⟨name, pb, w.xfs.length, .group hidden []⟩], w.xfs ++ [Mat3.one]⟩, none)
  | .add g name e fixname => add w g name e fixname
  | .setXf i m =>
    match w.items[i]? with
    | some it => (⟨w.items, w.xfs.set it.xf m⟩, none)
    | none => (w, some .attribute)
  | .setHidden g hidden =>
    match w.items[g]? with
    | some gi =>
      match gi.body with
      | .group _ es => (⟨w.items.set g { gi with body := .group hidden es }, w.xfs⟩, none)
      | .leaf _ => (w, some .attribute)
    | none => (w, some .attribute)
  | .edit i name pb l xf =>
    match w.items[i]? with
    | some it =>
      match it.body with
      | .leaf _ =>
        match xf with
        | none => (⟨w.items.set i ⟨name, pb, it.xf, .leaf l⟩, w.xfs⟩, none)
        | some m => (⟨w.items.set i ⟨name, pb, w.xfs.length, .leaf l⟩, w.xfs ++ [m]⟩, none)
      | .group _ _ => (w, some .attribute)
    | none => (w, some .attribute)
  | .copyLeaf i =>
    match w.items[i]? with
    | some it =>
      match it.body with
      | .leaf l => (⟨w.items ++ [⟨it.name, it.pb, it.xf, .leaf l⟩], w.xfs⟩, none)
      | .group _ _ => (w, some .attribute)
    | none => (w, some .attribute)
  | .copyGroup g => copyGroup w g
  | .restoreGroup g h => restoreGroup w g h
  | .transformGroup g m => transformGroup w g m

/-- A history of calls; exceptions are caught by the caller. -/
def run (w : World) (ops : List Op) : World := ops.foldl (fun w o => (step w o).1) w

end X7.GH
