import Verif.Model.BBox

/-!
Model of `BBox` (x7/geom/geom.py 537-808) as a mutable object: four slots, each a number or `None`, in a heap of boxes. Unlike
Model/BBox.lean it represents the boxes that item assignment leaves half filled, every comparison with `None` (`TypeError`), the
order of evaluation of `and` and `or`, and the slots already assigned when a call fails.
Simplification: `contains`, `overlaps` and the other queries are called with boxes and with points that have coordinates.
-/

namespace X7

/-- geom.py:563 the four slots. -/
structure BoxObj (K : Type*) where
  xl : Option K
  yl : Option K
  xh : Option K
  yh : Option K
  deriving DecidableEq

namespace BoxObj

section Order
variable {K : Type*} [LinearOrder K]

/-- `min(a, b)`: comparing with `None` is a `TypeError`. -/
def pmin : Option K → Option K → Except PyErr K
  | some a, some b => .ok (min a b)
  | _, _ => .error .type

/-- `max(a, b)`. -/
def pmax : Option K → Option K → Except PyErr K
  | some a, some b => .ok (max a b)
  | _, _ => .error .type

/-- `a < b`. -/
def plt : Option K → Option K → Except PyErr Bool
  | some a, some b => .ok (decide (a < b))
  | _, _ => .error .type

/-- `a <= b`. -/
def ple : Option K → Option K → Except PyErr Bool
  | some a, some b => .ok (decide (a ≤ b))
  | _, _ => .error .type

/-- `a == b` never raises. -/
def peq (a b : Option K) : Except PyErr Bool := .ok (decide (a = b))

/-- `a and b`. -/
def pand (a b : Except PyErr Bool) : Except PyErr Bool :=
  match a with
  | .error e => .error e
  | .ok false => .ok false
  | .ok true => b

/-- `a or b`. -/
def por (a b : Except PyErr Bool) : Except PyErr Bool :=
  match a with
  | .error e => .error e
  | .ok true => .ok true
  | .ok false => b

/-- geom.py:588 `BBox(None)`. -/
def empty : BoxObj K := ⟨none, none, none, none⟩

/-- geom.py:602-603 the last two lines of `__init__`. -/
def sorted (xl yl xh yh : Option K) : Except PyErr (BoxObj K) := do
  let xl' ← pmin xl xh
  let xh' ← pmax xl xh
  let yl' ← pmin yl yh
  let yh' ← pmax yl yh
  return ⟨xl', yl', xh', yh'⟩

/-- geom.py:581-603 `BBox(xl, yl, xh, yh)`, every argument a number or `None`: without `xl` the others are not looked at;
with `yl` or `xh` missing `xl` would have to be a tuple or a point. -/
def ofSlots (xl yl xh yh : Option K) : Except PyErr (BoxObj K) :=
  match xl with
  | none => .ok empty
  | some _ =>
    match yl with
    | none => .error .type
    | some _ =>
      match xh with
      | none => .error .type
      | some _ => sorted xl yl xh yh

/-- geom.py:581-603 `BBox((xl, yl, xh, yh))`: a tuple of other length does not unpack (`ValueError`). -/
def ofTuple (t : List (Option K)) : Except PyErr (BoxObj K) :=
  match t with
  | [a, b, c, d] => sorted a b c d
  | _ => .error .value

/-- geom.py:581-603 `BBox(p1, p2)`. -/
def ofPts (p q : Pt K) : BoxObj K := ⟨some (min p.x q.x), some (min p.y q.y), some (max p.x q.x), some (max p.y q.y)⟩

/-- geom.py:803-808 `as_tuple` and `__iter__`. -/
def asTuple (b : BoxObj K) : List (Option K) := [b.xl, b.yl, b.xh, b.yh]

/-- geom.py:608-609 `__repr__` writes a call of `BBox` with the four slots as arguments; this is what the call evaluates to. -/
def evalRepr (b : BoxObj K) : Except PyErr (BoxObj K) := ofSlots b.xl b.yl b.xh b.yh

/-- geom.py:611-614 `__eq__` with another box. -/
def eq (a b : BoxObj K) : Bool := decide (a.xl = b.xl) && (decide (a.yl = b.yl) && (decide (a.xh = b.xh) && decide (a.yh = b.yh)))

/-- Index of a four-tuple: -4..3. -/
def slotIx (i : ℤ) : Except PyErr (Fin 4) :=
  if i = 0 ∨ i = -4 then .ok 0
  else if i = 1 ∨ i = -3 then .ok 1
  else if i = 2 ∨ i = -2 then .ok 2
  else if i = 3 ∨ i = -1 then .ok 3
  else .error .index

/-- The slot of that index. -/
def slot (b : BoxObj K) : Fin 4 → Option K
  | 0 => b.xl
  | 1 => b.yl
  | 2 => b.xh
  | 3 => b.yh

/-- Assign the slot of that index. -/
def setSlot (b : BoxObj K) (v : Option K) : Fin 4 → BoxObj K
  | 0 => { b with xl := v }
  | 1 => { b with yl := v }
  | 2 => { b with xh := v }
  | 3 => { b with yh := v }

/-- geom.py:616-617 `__getitem__`. -/
def getitem (b : BoxObj K) (i : ℤ) : Except PyErr (Option K) := (slotIx i).map b.slot

/-- geom.py:619-620 `__setitem__`. -/
def setitem (b : BoxObj K) (i : ℤ) (v : Option K) : BoxObj K × Except PyErr Unit :=
  match slotIx i with
  | .ok j => (b.setSlot v j, .ok ())
  | .error e => (b, .error e)

/-- geom.py:622-623 `__round__`; `round(None)` is a `TypeError`. -/
def round (b : BoxObj K) (f : K → K) : Except PyErr (BoxObj K) :=
  match b with
  | ⟨some xl, some yl, some xh, some yh⟩ => ofSlots (f xl) (f yl) (f xh) (f yh)
  | _ => .error .type

/-- geom.py:625-627 `sort`: the first assignment stands when the second fails. -/
def sort (b : BoxObj K) : BoxObj K × Except PyErr Unit :=
  match pmin b.xl b.xh, pmax b.xl b.xh with
  | .ok l, .ok h =>
    match pmin b.yl b.yh, pmax b.yl b.yh with
    | .ok l', .ok h' => (⟨l, l', h, h'⟩, .ok ())
    | _, _ => ({ b with xl := l, xh := h }, .error .type)
  | _, _ => (b, .error .type)

/-- geom.py:629-630 `copy`. -/
def copy (b : BoxObj K) : Except PyErr (BoxObj K) := ofSlots b.xl b.yl b.xh b.yh

/-- geom.py:640-643 `is_none`. -/
def isNone (b : BoxObj K) : Bool := decide (b.xl = none)

/-- geom.py:645-648 `is_empty`. -/
def isEmpty (b : BoxObj K) : Bool := decide (b.xl = none) || (decide (b.xl = b.xh) || decide (b.yl = b.yh))

/-- geom.py:650-690 the corners `pll`/`p1`, `plh`, `phl`, `phh`/`p2`; a corner of a half filled box is a point of its slots, `None`
included, which is not represented: it counts as the `TypeError` of the first use. -/
def corner (b : BoxObj K) (x y : Option K) : Except PyErr (Pt K) :=
  match b.xl with
  | none => .error .value
  | some _ =>
    match x, y with
    | some x, some y => .ok ⟨x, y⟩
    | _, _ => .error .type

/-- geom.py:699-710 `__add__` with another box. -/
def add (a b : BoxObj K) : Except PyErr (BoxObj K) :=
  match b.xl with
  | none => a.copy
  | some _ =>
    match a.xl with
    | none => b.copy
    | some _ => do
      let xl ← pmin a.xl b.xl
      let yl ← pmin a.yl b.yl
      let xh ← pmax a.xh b.xh
      let yh ← pmax a.yh b.yh
      ofSlots xl yl xh yh

/-- geom.py:735-745 `grow`: slot by slot, so that those assigned stand when a later one fails. -/
def grow (b : BoxObj K) (p : Pt K) : BoxObj K × Except PyErr Unit :=
  match b.xl with
  | none => (⟨some p.x, some p.y, some p.x, some p.y⟩, .ok ())
  | some xl =>
    match b.xh with
    | none => ({ b with xl := some (min xl p.x) }, .error .type)
    | some xh =>
      match b.yl with
      | none => ({ b with xl := some (min xl p.x), xh := some (max xh p.x) }, .error .type)
      | some yl =>
        match b.yh with
        | none => ({ b with xl := some (min xl p.x), xh := some (max xh p.x), yl := some (min yl p.y) }, .error .type)
        | some yh => (⟨some (min xl p.x), some (min yl p.y), some (max xh p.x), some (max yh p.y)⟩, .ok ())

/-- geom.py:752-757 `contains_pt`. -/
def containsPt (b : BoxObj K) (p : Pt K) : Except PyErr Bool :=
  match b.xl with
  | none => .ok false
  | some _ => pand (pand (plt b.xl p.x) (plt p.x b.xh)) (pand (plt b.yl p.y) (plt p.y b.yh))

/-- geom.py:759-763 `contains`. -/
def contains (a b : BoxObj K) : Except PyErr Bool :=
  match a.xl, b.xl with
  | some _, some _ => pand (ple a.xl b.xl) (pand (ple b.xh a.xh) (pand (ple a.yl b.yl) (ple b.yh a.yh)))
  | _, _ => .error .value

/-- geom.py:765-771 `touches_pt`. -/
def touchesPt (b : BoxObj K) (p : Pt K) : Except PyErr Bool :=
  match b.xl with
  | none => .ok false
  | some _ =>
    por (pand (por (peq p.x b.xl) (peq p.x b.xh)) (pand (plt b.yl p.y) (plt p.y b.yh)))
      (pand (por (peq p.y b.yl) (peq p.y b.yh)) (pand (plt b.xl p.x) (plt p.x b.xh)))

/-- geom.py:773-778 `touches_side`. -/
def touchesSide (a b : BoxObj K) : Except PyErr Bool :=
  match a.xl, b.xl with
  | some _, some _ =>
    por (pand (por (peq b.xh a.xl) (peq b.xl a.xh)) (pand (plt a.yl b.yh) (plt b.yl a.yh)))
      (pand (por (peq b.yh a.yl) (peq b.yl a.yh)) (pand (plt a.xl b.xh) (plt b.xl a.xh)))
  | _, _ => .ok false

/-- geom.py:780-785 `touches`. -/
def touches (a b : BoxObj K) : Except PyErr Bool :=
  match a.xl, b.xl with
  | some _, some _ =>
    por (pand (por (peq b.xh a.xl) (peq b.xl a.xh)) (pand (ple a.yl b.yh) (ple b.yl a.yh)))
      (pand (por (peq b.yh a.yl) (peq b.yl a.yh)) (pand (ple a.xl b.xh) (ple b.xl a.xh)))
  | _, _ => .ok false

/-- geom.py:787-793 `overlaps`. -/
def overlaps (a b : BoxObj K) : Except PyErr Bool :=
  match a.xl, b.xl with
  | some _, some _ =>
    (por (ple b.xh a.xl) (por (ple a.xh b.xl) (por (ple b.yh a.yl) (ple a.yh b.yl)))).map not
  | _, _ => .error .value

/-- geom.py:795-801 `intersection`. -/
def inter (a b : BoxObj K) : Except PyErr (BoxObj K) :=
  match a.xl, b.xl with
  | some _, some _ =>
    match por (plt b.xh a.xl) (por (plt a.xh b.xl) (por (plt b.yh a.yl) (plt a.yh b.yl))) with
    | .error e => .error e
    | .ok true => .ok empty
    | .ok false => do
      let xl ← pmax a.xl b.xl
      let yl ← pmax a.yl b.yl
      let xh ← pmin a.xh b.xh
      let yh ← pmin a.yh b.yh
      ofSlots xl yl xh yh
  | _, _ => .ok empty

/-- geom.py:747-750 `transformed` (`f` is the action of the transform on points). -/
def transformed (b : BoxObj K) (f : Pt K → Pt K) : Except PyErr (BoxObj K) := do
  let ll ← b.corner b.xl b.yl
  let lh ← b.corner b.xl b.yh
  let hh ← b.corner b.xh b.yh
  let hl ← b.corner b.xh b.yl
  add (ofPts (f ll) (f lh)) (ofPts (f hh) (f hl))

end Order

section Arith
variable {K : Type*} [Field K] [LinearOrder K]

/-- `a - b`. -/
def psub : Option K → Option K → Except PyErr K
  | some a, some b => .ok (a - b)
  | _, _ => .error .type

/-- geom.py:712-716 `width`. -/
def width (b : BoxObj K) : Except PyErr K :=
  match b.xl with
  | none => .ok 0
  | some _ => psub b.xh b.xl

/-- geom.py:718-723 `height`. -/
def height (b : BoxObj K) : Except PyErr K :=
  match b.xl with
  | none => .ok 0
  | some _ => psub b.yh b.yl

/-- geom.py:725-729 `area`. -/
def area (b : BoxObj K) : Except PyErr K :=
  match b.xl with
  | none => .ok 0
  | some _ => do
    let w ← psub b.xh b.xl
    let h ← psub b.yh b.yl
    return w * h

/-- geom.py:731-733 `size`. -/
def size (b : BoxObj K) : Except PyErr (K × K) := do
  let w ← b.width
  let h ← b.height
  return (w, h)

/-- geom.py:692-697 `center`. -/
def center (b : BoxObj K) : Except PyErr (Pt K) :=
  match b with
  | ⟨none, _, _, _⟩ => .error .value
  | ⟨some xl, some yl, some xh, some yh⟩ => .ok ⟨(xl + xh) / 2, (yl + yh) / 2⟩
  | _ => .error .type

/-- geom.py:632-638 `expand`. -/
def expand (b : BoxObj K) (expand_x : K) (expand_y : Option K) : Except PyErr (BoxObj K) := do
  let ey := expand_y.getD expand_x
  let w ← b.width
  let h ← b.height
  let ex' := max expand_x (-w / 2)
  let ey' := max ey (-h / 2)
  match b with
  | ⟨some xl, some yl, some xh, some yh⟩ => ofSlots (some (xl - ex')) (some (yl - ey')) (some (xh + ex')) (some (yh + ey'))
  | _ => .error .type

/-- Calls that make or change boxes; boxes are named by their place in the heap. -/
inductive Call (K : Type*)
  | new (xl yl xh yh : Option K)
  | newTuple (t : List (Option K))
  | newPts (p q : Pt K)
  | setitem (a : ℕ) (i : ℤ) (v : Option K)
  | sort (a : ℕ)
  | grow (a : ℕ) (p : Pt K)
  | copy (a : ℕ)
  | round (a : ℕ) (f : K → K)
  | expand (a : ℕ) (x : K) (y : Option K)
  | transformed (a : ℕ) (f : Pt K → Pt K)
  | add (a b : ℕ)
  | inter (a b : ℕ)

/-- A call that returns a new box: it is appended; a failing call makes none. -/
def alloc (h : List (BoxObj K)) (r : Except PyErr (BoxObj K)) : List (BoxObj K) × Except PyErr Unit :=
  match r with
  | .ok b => (h ++ [b], .ok ())
  | .error e => (h, .error e)

/-- A method of the box `a` that returns a new box (a name that stands for no box is a failure of the caller). -/
def method (h : List (BoxObj K)) (a : ℕ) (f : BoxObj K → Except PyErr (BoxObj K)) : List (BoxObj K) × Except PyErr Unit :=
  match h[a]? with
  | some b => alloc h (f b)
  | none => (h, .error .attribute)

/-- A method of the box `a` that changes it. -/
def update (h : List (BoxObj K)) (a : ℕ) (f : BoxObj K → BoxObj K × Except PyErr Unit) : List (BoxObj K) × Except PyErr Unit :=
  match h[a]? with
  | some b => (h.set a (f b).1, (f b).2)
  | none => (h, .error .attribute)

/-- One call. -/
def step (h : List (BoxObj K)) : Call K → List (BoxObj K) × Except PyErr Unit
  | .new xl yl xh yh => alloc h (ofSlots xl yl xh yh)
  | .newTuple t => alloc h (ofTuple t)
  | .newPts p q => alloc h (.ok (ofPts p q))
  | .setitem a i v => update h a fun b => b.setitem i v
  | .sort a => update h a sort
  | .grow a p => update h a fun b => b.grow p
  | .copy a => method h a copy
  | .round a f => method h a fun b => b.round f
  | .expand a x y => method h a fun b => b.expand x y
  | .transformed a f => method h a fun b => b.transformed f
  | .add a b => method h a fun x => match h[b]? with
    | some y => x.add y
    | none => .error .attribute
  | .inter a b => method h a fun x => match h[b]? with
    | some y => x.inter y
    | none => .error .attribute

/-- A history of calls; the caller catches exceptions and goes on. -/
def run (h : List (BoxObj K)) : List (Call K) → List (BoxObj K)
  | [] => h
  | c :: cs => run (step h c).1 cs

end Arith

end BoxObj
end X7
