import Verif.Model.PointHeap
import Verif.Model.Line

/-!
Model of `Line` (x7/geom/geom.py 815-904) as an object that refers to its origin and its direction, both objects of the heap of points
and vectors (Model/PointHeap.lean), which may change afterwards. Simplification: assigning the attributes `origin` and `direction` of an
existing line is not represented (no method does it).
-/

namespace X7.LH
open PH
variable {K : Type*} [Field K]

/-- `isinstance(obj, Vector)`. -/
def isVector (h : Heap K) (i : ℕ) : Bool :=
  match h[i]? with
  | some (.vec ..) => true
  | some (.vecRel ..) => true
  | _ => false

/-- The points and vectors, and the lines: origin and direction. -/
structure St (K : Type*) where
  h : Heap K
  ls : List (ℕ × ℕ)

/-- Calls on points and lines. -/
inductive LOp (K : Type*)
  | pt (op : POp K)            -- any call of Model/PointHeap.lean
  | mk (o d : ℕ)               -- geom.py:817-822 `Line(o, d)`
  | fromPts (p q : ℕ)          -- geom.py:853-855 `Line.from_pts(p, q)`
  | add (l v : ℕ)              -- geom.py:847-848 `l + v`
  | sub (l v : ℕ)              -- geom.py:850-851 `l - v`

/-- `Line(o, q - p)` where the difference is a new vector (geom.py:404-408, 817-822). -/
def lineOfDiff (s : St K) (o p q : ℕ) : St K × Option PyErr :=
  match xy s.h q with
  | .error e => (s, some e)
  | .ok b =>
    match xy s.h p with
    | .error e => (s, some e)
    | .ok a => (⟨s.h ++ [.vec (b.x - a.x) (b.y - a.y)], s.ls ++ [(o, s.h.length)]⟩, none)

/-- `Line(o + v, d)` or `Line(o - v, d)` with a new origin and the same direction object (geom.py:847-851). -/
def shifted (s : St K) (f : Pt K → Pt K → Pt K) (l v : ℕ) : St K × Option PyErr :=
  match s.ls[l]? with
  | none => (s, some .attribute)
  | some (o, d) =>
    if isVector s.h v then
      match xy s.h o with
      | .error e => (s, some e)
      | .ok a =>
        match xy s.h v with
        | .error e => (s, some e)
        | .ok b => (⟨s.h ++ [.point (f a b).x (f a b).y none], s.ls ++ [(s.h.length, d)]⟩, none)
    else (s, some .type)

/-- One call: the state afterwards and the exception raised if any. -/
def step (s : St K) : LOp K → St K × Option PyErr
  | .pt op => (⟨(PH.step s.h op).1, s.ls⟩, (PH.step s.h op).2)
  | .mk o d =>
    if isBasePoint s.h o then
      if isVector s.h d then (⟨s.h, s.ls ++ [(o, d)]⟩, none)
      else if isBasePoint s.h d then lineOfDiff s o o d
      else (s, some .type)
    else (s, some .type)
  | .fromPts p q => if isBasePoint s.h p ∧ isBasePoint s.h q then lineOfDiff s p p q else (s, some .type)
  | .add l v => shifted s (fun a b => ⟨a.x + b.x, a.y + b.y⟩) l v
  | .sub l v => shifted s (fun a b => ⟨a.x - b.x, a.y - b.y⟩) l v

/-- A history of calls; exceptions are caught by the caller. -/
def run (s : St K) (ops : List (LOp K)) : St K := ops.foldl (fun s o => (step s o).1) s

/-- The line as it is read now: `origin.xy()` and `direction.xy()`. -/
def value (s : St K) (l : ℕ) : Except PyErr (Line K) :=
  match s.ls[l]? with
  | none => .error .attribute
  | some (o, d) =>
    match xy s.h o with
    | .error e => .error e
    | .ok a =>
      match xy s.h d with
      | .error e => .error e
      | .ok b => .ok ⟨a, ⟨b.x, b.y⟩⟩

/-- geom.py:835-837 `p1`: the origin itself. -/
def p1 (s : St K) (l : ℕ) : Option ℕ := (s.ls[l]?).map (·.1)

/-- geom.py:830-833 `__eq__` with another line. -/
def eqLine (s : St K) (l m : ℕ) : Prop :=
  match s.ls[l]?, s.ls[m]? with
  | some (o, d), some (o', d') => eqObj s.h o o' ∧ eqObj s.h d d'
  | _, _ => False

end X7.LH
