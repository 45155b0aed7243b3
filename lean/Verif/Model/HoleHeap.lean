import Verif.Model.GroupHeap

/-!
Model of shapes with holes which share their parts (x7/geom/model.py `ElemWithHoles` 1015-1124): elements, transforms and the lists of
holes are objects. A shape refers to its outside and to the list of holes it was given; the same element may be a part of several shapes,
and the program may go on to change the list.

A reference is the index of the object among the objects of its class; objects are only ever appended. Simplifications, as in
Model/GroupHeap: what a curve or simple shape is made of is a value, transforms are represented by their matrices. The parts of a shape
with holes are curves, rectangles, rounded rectangles and ellipses; a call which would make a shape with holes a part of another one is
answered by an `AttributeError` here.
-/

noncomputable section

namespace X7.HH

/-- A curve or simple shape, or a shape with holes: `inside` is the list object. -/
inductive Body
  | leaf (l : GH.Leaf)
  | holes (closed : Bool) (outside : ℕ) (inside : ℕ)

/-- model.py:138-144 an element; `xf` refers to its transform. -/
structure Item where
  name : Str
  pb : PenBrush
  xf : ℕ
  body : Body

/-- All objects: elements, lists of elements, transforms. -/
structure World where
  items : List Item
  lists : List (List ℕ)
  xfs : List (Mat3 ℝ)

/-- No objects. -/
def World.empty : World := ⟨[], [], []⟩

/-- A curve or simple shape, read from the objects. -/
def part (w : World) (i : ℕ) : Option Elem :=
  match w.items[i]? with
  | some ⟨name, pb, x, .leaf l⟩ => (w.xfs[x]?).map fun m => GH.leafElem name pb m l
  | _ => none

/-- The elements of a list. -/
def parts (w : World) : List ℕ → Option (List Elem)
  | [] => some []
  | i :: rest =>
    match part w i, parts w rest with
    | some e, some es => some (e :: es)
    | _, _ => none

/-- An element, read from the objects. -/
def elem (w : World) (i : ℕ) : Option Elem :=
  match w.items[i]? with
  | some ⟨name, pb, x, .holes closed o l⟩ =>
    match w.xfs[x]?, part w o, (w.lists[l]?).bind (parts w) with
    | some m, some oe, some ies => some (.holes ⟨name, pb, closed, m⟩ oe ies)
    | _, _, _ => none
  | _ => part w i

/-- model.py:506-524, 639-645, 767-775, 796-803, 1047-1077 `elem.paths(dc)`. Drawing writes no element, list or transform of an element:
`edges` and the paths in it are new objects. -/
def draw (cfg : DCfg) (w : World) (i : ℕ) (s : TState) : TState × Except PyErr (List Path) :=
  match elem w i with
  | some e => Elem.paths cfg e s
  | none => (s, .error .attribute)

/-- model.py:143-144 the check at the end of `Elem.__init__` fails: a filled pen and not closed. The simple shapes are always closed. -/
def unfit (pb : PenBrush) : GH.Leaf → Bool
  | .curve closed _ => pb.filled && !closed
  | _ => false

/-- Is it a curve or simple shape? -/
def isLeaf (w : World) (i : ℕ) : Bool :=
  match w.items[i]? with
  | some ⟨_, _, _, .leaf _⟩ => true
  | _ => false

/-- model.py:377-385, 579-583, 745-749 `copy()` of a curve or simple shape: a new object with the same transform object. -/
def copyPart (w : World) (i : ℕ) : Except PyErr (World × ℕ) :=
  match w.items[i]? with
  | some ⟨name, pb, x, .leaf l⟩ =>
    if unfit pb l then .error .assertion else .ok ({ w with items := w.items ++ [⟨name, pb, x, .leaf l⟩] }, w.items.length)
  | _ => .error .attribute

/-- model.py:1109, 1117, 1123 `[e.copy() for e in self.inside]`. -/
def copyParts (w : World) : List ℕ → Except PyErr (World × List ℕ)
  | [] => .ok (w, [])
  | i :: rest =>
    match copyPart w i with
    | .error er => .error er
    | .ok (w, j) =>
      match copyParts w rest with
      | .error er => .error er
      | .ok (w, js) => .ok (w, j :: js)

/-- `elem.penbrush = pb`. -/
def setPen (w : World) (pb : PenBrush) (i : ℕ) : World := { w with items := w.items.modify i fun it => { it with pb := pb } }

/-- model.py:1016-1024 `ElemWithHoles(name, pb, o, list, closed)` with a transform object `x` of its own: the parts get the pen. -/
def construct (w : World) (name : Str) (pb : PenBrush) (o l : ℕ) (closed : Bool) (x : ℕ) : World × Option PyErr :=
  if pb.filled && !closed then (w, some .assertion)
  else
    let w1 := { w with items := w.items ++ [⟨name, pb, x, .holes closed o l⟩] }
    let w2 := setPen w1 pb o
    (((w.lists[l]?).getD []).foldl (fun w i => setPen w pb i) w2, none)

/-- model.py:1106-1109, 1119-1124 `shape.copy()` and `shape.transform(matrix)`: new parts, a new list, a new transform. If a part cannot be
copied nothing that the program can reach has changed. -/
def copyWith (w : World) (i : ℕ) (f : Mat3 ℝ → Mat3 ℝ) : World × Option PyErr :=
  match w.items[i]? with
  | some ⟨name, pb, x, .holes closed o l⟩ =>
    match w.lists[l]?, w.xfs[x]? with
    | some is, some m =>
      match copyPart w o with
      | .error er => (w, some er)
      | .ok (w1, o') =>
        match copyParts w1 is with
        | .error er => (w, some er)
        | .ok (w2, is') =>
          match construct ⟨w2.items, w2.lists ++ [is'], w2.xfs ++ [f m]⟩ name pb o' w2.lists.length closed w2.xfs.length with
          | (_, some er) => (w, some er)
          | (w3, none) => (w3, none)
    | _, _ => (w, some .attribute)
  | _ => (w, some .attribute)

/-- model.py:1111-1117 `shape.restore(other)`, attribute by attribute: when a copy raises, the attributes assigned before stay assigned. The
transform object of `other` is taken over; the holes are copies of its own holes. -/
def restoreHoles (w : World) (i j : ℕ) : World × Option PyErr :=
  match w.items[i]?, w.items[j]? with
  | some ⟨_, _, _, .holes _ o l⟩, some ⟨name, pb, x, .holes closed o' _⟩ =>
    let w1 := { w with items := w.items.set i ⟨name, pb, x, .holes closed o l⟩ }
    match copyPart w1 o' with
    | .error er => (w1, some er)
    | .ok (w2, o2) =>
      let w3 := { w2 with items := w2.items.set i ⟨name, pb, x, .holes closed o2 l⟩ }
      match copyParts w3 ((w3.lists[l]?).getD []) with
      | .error er => (w3, some er)
      | .ok (w4, is) => (⟨w4.items.set i ⟨name, pb, x, .holes closed o2 w4.lists.length⟩, w4.lists ++ [is], w4.xfs⟩, none)
  | _, _ => (w, some .attribute)

/-- The calls of a program. -/
inductive Op
  | mkLeaf (name : Str) (pb : PenBrush) (l : GH.Leaf)                                       -- the constructors of curves and simple shapes
  | mkList (is : List ℕ)                                                                    -- a list of elements
  | mkHoles (name : Str) (pb : PenBrush) (o l : ℕ) (closed : Bool)                          -- model.py:1016-1024
  | setList (l : ℕ) (is : List ℕ)                                                           -- any change of a list: append, remove, ..
  | setPen (i : ℕ) (pb : PenBrush)                                                          -- `elem.penbrush = ..`
  | setXf (i : ℕ) (m : Mat3 ℝ)                                                              -- `elem.xform.translate(..)` and the like
  | edit (i : ℕ) (name : Str) (pb : PenBrush) (l : GH.Leaf) (xf : Option (Mat3 ℝ))          -- any change of one curve or simple shape; `restore` also gives it a new transform
  | setOutside (i o : ℕ)                                                                    -- `shape.outside = ..`
  | setInside (i l : ℕ)                                                                     -- `shape.inside = ..`
  | copyLeaf (i : ℕ)                                                                        -- model.py:377-385, 579-583, 745-749
  | copyHoles (i : ℕ)
  | transformHoles (i : ℕ) (t : TState)
  | restoreHoles (i j : ℕ)

/-- One call: the objects afterwards and the exception raised, if any. -/
def step (w : World) : Op → World × Option PyErr
  | .mkLeaf name pb l =>
    if unfit pb l then (w, some .assertion)
    else (⟨w.items ++ [⟨name, pb, w.xfs.length, .leaf l⟩], w.lists, w.xfs ++ [Mat3.one]⟩, none)
  | .mkList is => if is.all (isLeaf w) then ({ w with lists := w.lists ++ [is] }, none) else (w, some .attribute)
  | .mkHoles name pb o l closed =>
    if isLeaf w o && decide (l < w.lists.length) then
      match construct { w with xfs := w.xfs ++ [Mat3.one] } name pb o l closed w.xfs.length with
      | (_, some er) => (w, some er)
      | (w', none) => (w', none)
    else (w, some .attribute)
  | .setList l is =>
    if is.all (isLeaf w) && decide (l < w.lists.length) then ({ w with lists := w.lists.set l is }, none) else (w, some .attribute)
  | .setPen i pb => if i < w.items.length then (setPen w pb i, none) else (w, some .attribute)
  | .setXf i m =>
    match w.items[i]? with
    | some it => ({ w with xfs := w.xfs.set it.xf m }, none)
    | none => (w, some .attribute)
  | .edit i name pb l xf =>
    match w.items[i]? with
    | some ⟨_, _, x, .leaf _⟩ =>
      match xf with
      | none => ({ w with items := w.items.set i ⟨name, pb, x, .leaf l⟩ }, none)
      | some m => (⟨w.items.set i ⟨name, pb, w.xfs.length, .leaf l⟩, w.lists, w.xfs ++ [m]⟩, none)
    | _ => (w, some .attribute)
  | .setOutside i o =>
    match w.items[i]? with
    | some ⟨name, pb, x, .holes closed _ l⟩ =>
      if isLeaf w o then ({ w with items := w.items.set i ⟨name, pb, x, .holes closed o l⟩ }, none) else (w, some .attribute)
    | _ => (w, some .attribute)
  | .setInside i l =>
    match w.items[i]? with
    | some ⟨name, pb, x, .holes closed o _⟩ =>
      if l < w.lists.length then ({ w with items := w.items.set i ⟨name, pb, x, .holes closed o l⟩ }, none) else (w, some .attribute)
    | _ => (w, some .attribute)
  | .copyLeaf i =>
    match copyPart w i with
    | .error er => (w, some er)
    | .ok (w', _) => (w', none)
  | .copyHoles i => copyWith w i id
  | .transformHoles i t => copyWith w i fun x => (t.copy.compose x).mat
  | .restoreHoles i j => restoreHoles w i j

/-- A history of calls; exceptions are caught by the caller. -/
def run (w : World) (ops : List Op) : World := ops.foldl (fun w o => (step w o).1) w

end X7.HH
