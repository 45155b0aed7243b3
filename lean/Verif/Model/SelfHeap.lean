import Mathlib.Logic.Function.Basic
import Verif.Model.SelfCurve

/-!
Model of x7/geom/bezier.py `bez_self_intersect` (348-525) with control points as objects: the list it gets holds addresses of objects, and
it writes to some of them (403, 408). Points and vectors are never changed in place, so they stay values. After line 409 nothing is written
to an object that is not new (482, 493, 508 copy first), so from there on the control points are read as values.
-/

noncomputable section

open Classical

namespace X7.Bzi

/-- The control points: `next` is the first free address. -/
structure Heap where
  obj : ℕ → CP ℝ
  next : ℕ

/-- bezier.py:23-27 a new control point, at address `h.next`. -/
def Heap.new (h : Heap) (v : CP ℝ) : Heap := ⟨Function.update h.obj h.next v, h.next + 1⟩

/-- Assignment to attributes of the control point at `x`, which becomes `v`. -/
def Heap.set (h : Heap) (x : ℕ) (v : CP ℝ) : Heap := ⟨Function.update h.obj x v, h.next⟩

/-- bezier.py:633-651 `bez_split`: three new objects. -/
def splitObj (h : Heap) (a b : ℕ) (t : ℝ) : Heap :=
  let s := bezSplit (h.obj a) (h.obj b) t
  ((h.new s.1).new s.2.1).new s.2.2

/-- bezier.py:352-360 the loop making `all_curves`. -/
def allCurvesObj (hit : CP ℝ → CP ℝ → Bool) : List (ℕ × ℕ) → Heap → Heap × List (ℕ × ℕ)
  | [], h => (h, [])
  | (a, b) :: rest, h =>
    let tl := allCurvesObj hit rest (splitObj h a b (1 / 2))
    if hit (h.obj a) (h.obj b) then (tl.1, (h.next, h.next + 1) :: (h.next + 1, h.next + 2) :: tl.2)
    else (tl.1, (a, b) :: tl.2)

/-- bezier.py:384-398 the pieces of one segment: objects, each with its node. -/
def splitAtObj (a b : ℕ) (t : ℝ) (next_node : Option (Pt ℝ)) : List (ℝ × Pt ℝ) → Heap → Heap × Except PyErr (List (ℕ × Option (Pt ℝ)))
  | [], h => (h, .ok [(a, next_node), (b, none)])
  | (t_ix, xy_ix) :: rest, h =>
    match pyDiv (t_ix - t) (1 - t) with
    | .error e => (h, .error e)
    | .ok u =>
      let h1 := splitObj h a b u
      if ((h1.obj (h.next + 1)).c.sub xy_ix).length > 1 / 10 ^ 10 then (h1, .error .value)
      else
        let r := splitAtObj (h.next + 1) (h.next + 2) t_ix (some xy_ix) rest h1
        (r.1, match r.2 with
          | .error e => .error e
          | .ok tl => .ok ((h.next, next_node) :: tl))

/-- bezier.py:399-406 `cpbs` extended by the pieces of one more segment; `dr` of its last object is assigned. -/
def extendObj (cpbs loc : List (ℕ × Option (Pt ℝ))) (h : Heap) : Heap × Except PyErr (List (ℕ × Option (Pt ℝ))) :=
  match cpbs.getLast?, loc with
  | none, _ => (h, .ok loc)
  | some last, l0 :: rest =>
    if (h.obj last.1).c = (h.obj l0.1).c then
      (h.set last.1 { h.obj last.1 with dr := (h.obj l0.1).dr }, .ok (cpbs ++ rest))
    else (h, .error .assertion)
  | some _, [] => (h, .error .index)

/-- bezier.py:379-406 the loop over `all_curves`. -/
def expandObj (cpbs : List (ℕ × Option (Pt ℝ))) :
    List ((ℕ × ℕ) × List (ℝ × Pt ℝ)) → Heap → Heap × Except PyErr (List (ℕ × Option (Pt ℝ)))
  | [], h => (h, .ok cpbs)
  | (ab, ixs) :: rest, h =>
    let r := splitAtObj ab.1 ab.2 0 none (sortIxs ixs) h
    match r.2 with
    | .error e => (r.1, .error e)
    | .ok loc =>
      let r := extendObj cpbs loc r.1
      match r.2 with
      | .error e => (r.1, .error e)
      | .ok cpbs => expandObj cpbs rest r.1

/-- bezier.py:407-409 `dl` of the first object is assigned, the last one is dropped. -/
def closeUpObj (cpbs : List (ℕ × Option (Pt ℝ))) (h : Heap) : Heap × Except PyErr (List (ℕ × Option (Pt ℝ))) :=
  match cpbs.head?, cpbs.getLast? with
  | some x0, some x1 => (h.set x0.1 { h.obj x0.1 with dl := (h.obj x1.1).dl }, .ok cpbs.dropLast)
  | _, _ => (h, .error .index)

/-- The objects read as values. -/
def read (h : Heap) (cpbs : List (ℕ × Option (Pt ℝ))) : List CpBool := cpbs.map fun x => ⟨h.obj x.1, x.2⟩

/-- bezier.py:414-525 the rest, which writes to new objects only. -/
def loopsOf (nodes : List (Pt ℝ)) (cpbs : List CpBool) : Except PyErr (List (List (CP ℝ))) :=
  match rotateFirst cpbs with
  | .error e => .error e
  | .ok cpbs =>
    match makeEdges [] none [] (cpbs ++ cpbs.take 1) with
    | .error e => .error e
    | .ok edges =>
      match stitch edges with
      | .error e => .error e
      | .ok edges => Graph.walk ⟨nodes, edges⟩ joinLoop ∅ []

/-- bezier.py:348-525 `bez_self_intersect(orig_cps)`, `orig_cps` being objects; the heap after the call and the result. -/
def selfIntersectObj (lib : Lib) (cps : List ℕ) (h : Heap) : Heap × Except PyErr (List (List (CP ℝ))) :=
  let all := allCurvesObj (hitLib lib) (iterRotate2 cps) h
  let vals := all.2.map fun ab => (all.1.obj ab.1, all.1.obj ab.2)
  let curves := all.2.zip (findIxs lib vals)
  if ∀ c ∈ curves, c.2 = [] then (all.1, .ok [])
  else
    let r := expandObj [] curves all.1
    match r.2 with
    | .error e => (r.1, .error e)
    | .ok cpbs =>
      let r := closeUpObj cpbs r.1
      match r.2 with
      | .error e => (r.1, .error e)
      | .ok cpbs => (r.1, loopsOf (nodesOf (vals.zip (findIxs lib vals))) (read r.1 cpbs))

/-- model.py:387-391 `control_points_transformed`: new objects, at addresses `h.next`, `h.next + 1`, … -/
def transformObj (apply : Pt ℝ → Pt ℝ) : List ℕ → Heap → Heap
  | [], h => h
  | x :: rest, h => transformObj apply rest (h.new ((h.obj x).transformLin apply))

/-- model.py:408-411 the call made by `ElemCurve.self_intersect` for a curve with the control points `cps`. -/
def elemSelfIntersectObj (lib : Lib) (apply : Pt ℝ → Pt ℝ) (cps : List ℕ) (h : Heap) : Heap × Except PyErr (List (List (CP ℝ))) :=
  selfIntersectObj lib (List.range' h.next cps.length) (transformObj apply cps h)

end X7.Bzi
