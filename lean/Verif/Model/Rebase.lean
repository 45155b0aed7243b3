import Verif.Model.PointHeap

/-!
Points whose `base` is reassigned. `base` is a public attribute of `PointRelative` (x7/geom/geom.py:484) and `PointCalc` (513), so a program
can hang a point on another point than the one it was built on, and then nothing keeps a point from hanging on itself. The objects are those of
`Model/PointHeap.lean`; here reading a position and comparing are bounded by the depth of calls Python allows, as they may not end by themselves.
-/

namespace X7.RB
open X7.PH
variable {K : Type*} [Field K]

/-- `.xy()` with at most `n` nested calls of it allowed: geom.py:458-460 (Point), 504-506 (PointRelative), 532-534 (PointCalc: reads
`self.base.base.xy()` first, then `self.base.dx`), 109-110 (Vector), 246-247 with 404-408 (VectorRelative: the first point, then the second).
Simplified: Python counts all frames, the one of `__sub__` among them; only those of `xy` count here. -/
def xyN (h : Heap K) : ℕ → ℕ → Except PyErr (Pt K)
  | 0, _ => .error .recursion
  | n + 1, i =>
    match h[i]? with
    | none => .error .attribute
    | some (.point x y _) => .ok ⟨x, y⟩
    | some (.vec x y) => .ok ⟨x, y⟩
    | some (.rel dx dy b _) =>
      match xyN h n b with
      | .ok p => .ok ⟨dx + p.x, dy + p.y⟩
      | .error e => .error e
    | some (.pcalc r s _) =>
      match h[r]? with
      | some (.rel dx dy b _) =>
        match xyN h n b with
        | .ok p => .ok ⟨s * dx + p.x, s * dy + p.y⟩
        | .error e => .error e
      | some (.pcalc b _ _) =>
        match xyN h n b with
        | .ok _ => .error .attribute
        | .error e => .error e
      | _ => .error .attribute
    | some (.vecRel p q) =>
      match xyN h n p with
      | .ok a =>
        match xyN h n q with
        | .ok b => .ok ⟨a.x - b.x, a.y - b.y⟩
        | .error e => .error e
      | .error e => .error e

/-- `a == b` with at most `n` nested calls of it allowed: geom.py:295 with 436-438 (Point), 489-494 (PointRelative), 522-527 (PointCalc),
89-91 (Vector), 266-271 (VectorRelative). The class and the name are compared first, the bases last. -/
def eqN [DecidableEq K] (h : Heap K) : ℕ → ℕ → ℕ → Except PyErr Bool
  | 0, _, _ => .error .recursion
  | n + 1, i, j =>
    match h[i]?, h[j]? with
    | some (.point x y m), some (.point x' y' m') => .ok (decide (m = m' ∧ x = x' ∧ y = y'))
    | some (.rel dx dy b m), some (.rel dx' dy' b' m') =>
      if m = m' ∧ dx = dx' ∧ dy = dy' then eqN h n b b' else .ok false
    | some (.pcalc b s m), some (.pcalc b' s' m') =>
      if m = m' ∧ s = s' then eqN h n b b' else .ok false
    | some (.vec x y), some (.vec x' y') => .ok (decide (x = x' ∧ y = y'))
    | some (.vecRel p q), some (.vecRel p' q') =>
      match eqN h n p p' with
      | .ok true => eqN h n q q'
      | r => r
    | _, _ => .ok false

/-- A call or an assignment. -/
inductive Op (K : Type*)
  | call (o : POp K)
  /-- `i.base = c`; no check is made on assignment (geom.py:484, 513). -/
  | setBase (i c : ℕ)

/-- The object `copy` makes of a point, geom.py:462-464, 496-497, 529-530; the constructor of `PointCalc` asserts that its base has a base
(geom.py:512), which may no longer be so. -/
def copyPt (h : Heap K) (o : PObj K) : Except PyErr (PObj K) :=
  match o with
  | .pcalc b s n => if hasBase h b then .ok (.pcalc b s n) else .error .assertion
  | o => .ok (copyObj o)

/-- One call: the heap afterwards and the exception raised if any; `lim` is the depth Python allows. As `PH.step`, but positions are read by
`xyN`, and copying a PointCalc checks its base. Assigning `base` on an object that is no PointRelative or PointCalc, where Python would add an
attribute nobody reads, is refused here, and so is a base that is not a point. -/
def step (lim : ℕ) (h : Heap K) : Op K → Heap K × Option PyErr
  | .call (.fromXY x y b) =>
    if isBasePoint h b then
      match xyN h lim b with
      | .ok p => (h ++ [.rel (x - p.x) (y - p.y) b none], none)
      | .error e => (h, some e)
    else (h, some .type)
  | .call (.setFrom i j) =>
    match h[i]? with
    | some (.point _ _ n) =>
      match xyN h lim j with
      | .ok p => (h.set i (.point p.x p.y n), none)
      | .error e => (h, some e)
    | some (.vec _ _) =>
      match xyN h lim j with
      | .ok p => (h.set i (.vec p.x p.y), none)
      | .error e => (h, some e)
    | some (.vecRel _ _) => (h, some .notImplemented)
    | _ => (h, some .attribute)
  | .call (.fixed i) =>
    match h[i]? with
    | some o =>
      match xyN h lim i with
      | .ok p => (h ++ [if isBasePoint h i then .point p.x p.y (fixedName (nameOf o)) else .vec p.x p.y], none)
      | .error e => (h, some e)
    | none => (h, some .attribute)
  | .call (.copy i) =>
    match h[i]? with
    | some (.vecRel p q) =>
      match h[p]?, h[q]? with
      | some a, some b =>
        match copyPt h a with
        | .ok a' =>
          match copyPt h b with
          | .ok b' => (h ++ [a', b', .vecRel h.length (h.length + 1)], none)
          | .error e => (h, some e)
        | .error e => (h, some e)
      | _, _ => (h, some .attribute)
    | some o =>
      match copyPt h o with
      | .ok o' => (h ++ [o'], none)
      | .error e => (h, some e)
    | none => (h, some .attribute)
  | .call o => PH.step h o
  | .setBase i c =>
    if isBasePoint h c then
      match h[i]? with
      | some (.rel dx dy _ n) => (h.set i (.rel dx dy c n), none)
      | some (.pcalc _ s n) => (h.set i (.pcalc c s n), none)
      | _ => (h, some .attribute)
    else (h, some .type)

/-- A history of calls; exceptions are caught by the caller. -/
def run (lim : ℕ) (h : Heap K) (ops : List (Op K)) : Heap K := ops.foldl (fun h o => (step lim h o).1) h

end X7.RB
