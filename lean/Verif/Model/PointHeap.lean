import Verif.Model.Vec

/-!
Model of the mutable point objects of x7/geom/geom.py: `Point` (420-476), `PointRelative` (479-506), `PointCalc`
(509-534), `VectorRelative` (214-271) and plain `Vector` (60-211) as objects in a heap, referring to each other.
A reference is the index of the object in the heap; objects are only ever appended (Python never reuses a live object).
Assigning the attributes `base`, `_p1`, `_p2` of an existing object is not represented (no method does it).
-/

namespace X7.PH
variable {K : Type*} [Field K]

/-- Objects and their attributes. -/
inductive PObj (K : Type*)
  | point (x y : K) (name : Option String)
  | rel (dx dy : K) (base : ℕ) (name : Option String)
  | pcalc (base : ℕ) (scale : K) (name : Option String)
  | vec (x y : K)
  | vecRel (p1 p2 : ℕ)
  deriving DecidableEq

abbrev Heap (K : Type*) := List (PObj K)

/-- `.xy()`: geom.py:458-460 (Point), 504-506 (PointRelative), 532-534 (PointCalc), 109-110 (Vector), 246-247
(VectorRelative, through `BasePoint.__sub__` 404-408). `PointCalc` reads `self.base.base.xy()` first and
`self.base.dx` afterwards, so a PointCalc over a PointCalc raises `AttributeError`. References not to an older object would
be a cycle (`RecursionError`); `run_wf` shows that no history makes one. -/
def xy (h : Heap K) (i : ℕ) : Except PyErr (Pt K) :=
  match h[i]? with
  | none => .error .attribute
  | some (.point x y _) => .ok ⟨x, y⟩
  | some (.vec x y) => .ok ⟨x, y⟩
  | some (.rel dx dy b _) =>
    if _hb : b < i then
      match xy h b with
      | .ok p => .ok ⟨dx + p.x, dy + p.y⟩
      | .error e => .error e
    else .error .recursion
  | some (.pcalc r s _) =>
    if r < i then
      match h[r]? with
      | some (.rel dx dy b _) =>
        if _hb : b < i then
          match xy h b with
          | .ok p => .ok ⟨s * dx + p.x, s * dy + p.y⟩
          | .error e => .error e
        else .error .recursion
      | some (.pcalc b _ _) =>
        if _hb : b < i then
          match xy h b with
          | .ok _ => .error .attribute
          | .error e => .error e
        else .error .recursion
      | _ => .error .attribute
    else .error .recursion
  | some (.vecRel p q) =>
    if _hb : p < i ∧ q < i then
      match xy h p with
      | .ok a =>
        match xy h q with
        | .ok b => .ok ⟨a.x - b.x, a.y - b.y⟩
        | .error e => .error e
      | .error e => .error e
    else .error .recursion
termination_by i
decreasing_by all_goals simp_all

/-- `isinstance(obj, BasePoint)`. -/
def isBasePoint (h : Heap K) (i : ℕ) : Bool :=
  match h[i]? with
  | some (.point ..) => true
  | some (.rel ..) => true
  | some (.pcalc ..) => true
  | _ => false

/-- `hasattr(obj, 'base')` (geom.py:512). -/
def hasBase (h : Heap K) (i : ℕ) : Bool :=
  match h[i]? with
  | some (.rel ..) => true
  | some (.pcalc ..) => true
  | _ => false

/-- The truth value of a name: `None` and `''` are false. -/
def nameTruthy : Option String → Bool
  | none => false
  | some s => s != ""

/-- geom.py:320-321 the name given by `fixed`. -/
def fixedName (n : Option String) : Option String :=
  match n with
  | some s => if s != "" then some ("fixed_" ++ s) else none
  | none => none

def nameOf : PObj K → Option String
  | .point _ _ n => n
  | .rel _ _ _ n => n
  | .pcalc _ _ n => n
  | _ => none

/-- The calls of a program on points. -/
inductive POp (K : Type*)
  | mkPoint (x y : K) (name : Option String)        -- geom.py:431-434
  | mkVec (x y : K)                                 -- geom.py:74-76
  | mkRel (dx dy : K) (base : ℕ) (name : Option String)   -- geom.py:480-484
  | fromXY (x y : K) (base : ℕ)                     -- geom.py:499-502
  | mkCalc (base : ℕ) (scale : K) (name : Option String)  -- geom.py:510-514
  | mkVecRel (p q : ℕ)                              -- geom.py:219-224
  | setXY (i : ℕ) (x y : K)                         -- geom.py:473-476 (Point), 127-129 (Vector), 257-258
  | setFrom (i j : ℕ)                               -- geom.py:466-471 `restore`, `set`; 124-125; 260-261
  | setDelta (i : ℕ) (dx dy : K)                    -- assigning the public attributes `dx`, `dy` of a PointRelative
  | setScale (i : ℕ) (s : K)                        -- assigning the public attribute `scale` of a PointCalc
  | fixed (i : ℕ)                                   -- geom.py:320-321, 99-100
  | copy (i : ℕ)                                    -- geom.py:462-464, 496-497, 529-530, 96-97, 237-238

/-- `copy()` of a point or plain vector (one new object). A `Point` copy drops the name. -/
def copyObj : PObj K → PObj K
  | .point x y _ => .point x y none
  | .rel dx dy b n => .rel dx dy b n
  | .pcalc b s n => .pcalc b s n
  | .vec x y => .vec x y
  | .vecRel p q => .vecRel p q

/-- One call: the heap afterwards and the exception raised if any. New objects are appended. Type errors that the checker
of a caller would prevent (a base that is not a point, a missing object) leave the heap unchanged. -/
def step (h : Heap K) : POp K → Heap K × Option PyErr
  | .mkPoint x y n => (h ++ [.point x y n], none)
  | .mkVec x y => (h ++ [.vec x y], none)
  | .mkRel dx dy b n => if isBasePoint h b then (h ++ [.rel dx dy b n], none) else (h, some .type)
  | .fromXY x y b =>
    if isBasePoint h b then
      match xy h b with
      | .ok p => (h ++ [.rel (x - p.x) (y - p.y) b none], none)
      | .error e => (h, some e)
    else (h, some .type)
  | .mkCalc b s n => if hasBase h b then (h ++ [.pcalc b s n], none) else (h, some .assertion)
  | .mkVecRel p q => if isBasePoint h p ∧ isBasePoint h q then (h ++ [.vecRel p q], none) else (h, some .type)
  | .setXY i x y =>
    match h[i]? with
    | some (.point _ _ n) => (h.set i (.point x y n), none)
    | some (.vec _ _) => (h.set i (.vec x y), none)
    | some (.vecRel _ _) => (h, some .notImplemented)
    | _ => (h, some .attribute)
  | .setFrom i j =>
    match h[i]? with
    | some (.point _ _ n) =>
      match xy h j with
      | .ok p => (h.set i (.point p.x p.y n), none)
      | .error e => (h, some e)
    | some (.vec _ _) =>
      match xy h j with
      | .ok p => (h.set i (.vec p.x p.y), none)
      | .error e => (h, some e)
    | some (.vecRel _ _) => (h, some .notImplemented)
    | _ => (h, some .attribute)
  | .setDelta i dx dy =>
    match h[i]? with
    | some (.rel _ _ b n) => (h.set i (.rel dx dy b n), none)
    | _ => (h, some .attribute)
  | .setScale i s =>
    match h[i]? with
    | some (.pcalc b _ n) => (h.set i (.pcalc b s n), none)
    | _ => (h, some .attribute)
  | .fixed i =>
    match h[i]? with
    | some o =>
      match xy h i with
      | .ok p => (h ++ [if isBasePoint h i then .point p.x p.y (fixedName (nameOf o)) else .vec p.x p.y], none)
      | .error e => (h, some e)
    | none => (h, some .attribute)
  | .copy i =>
    match h[i]? with
    | some (.vecRel p q) =>
      match h[p]?, h[q]? with
      | some a, some b => (h ++ [copyObj a, copyObj b, .vecRel h.length (h.length + 1)], none)
      | _, _ => (h, some .attribute)
    | some o => (h ++ [copyObj o], none)
    | none => (h, some .attribute)

/-- A history of calls; exceptions are caught by the caller. -/
def run (h : Heap K) (ops : List (POp K)) : Heap K := ops.foldl (fun h o => (step h o).1) h

/-- `a == b`: geom.py:293-295, 436-438, 489-494, 522-527, 89-91, 266-271. Recursive on the bases. -/
def eqObj (h : Heap K) (i j : ℕ) : Prop :=
  match h[i]?, h[j]? with
  | some (.point x y n), some (.point x' y' n') => n = n' ∧ x = x' ∧ y = y'
  | some (.rel dx dy b n), some (.rel dx' dy' b' n') =>
    n = n' ∧ dx = dx' ∧ dy = dy' ∧ (if _h : b < i then eqObj h b b' else False)
  | some (.pcalc b s n), some (.pcalc b' s' n') =>
    n = n' ∧ s = s' ∧ (if _h : b < i then eqObj h b b' else False)
  | some (.vec x y), some (.vec x' y') => x = x' ∧ y = y'
  | some (.vecRel p q), some (.vecRel p' q') =>
    (if _h : p < i then eqObj h p p' else False) ∧ (if _h : q < i then eqObj h q q' else False)
  | _, _ => False
termination_by i

end X7.PH
