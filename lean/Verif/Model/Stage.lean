import Verif.Model.MultiHeap
import Verif.Model.ElemNames

/-!
Model of a group with morphs in it (x7/geom/model.py 986-1001, anim.py 292-411): the tree holds references to the curve objects of
Model/CurveHeap; making a `Morph` or `MorphMultiStep` replaces curves in the tree that are equal to the source, and `restore` replaces
curves equal to the one shown.

Simplifications: every group object is in the tree once; all morphs are made with the same group as `model`; the lines printed by
`replace` are left out.
-/

noncomputable section

namespace X7.Stage

open CH Anim

/-- A tree of groups (model.py:848-1001): curve objects, other elements, groups with their dicts. -/
inductive Node
  | curve (k : ℕ)
  | shape (e : Elem)
  | group (h : Hdr) (hidden : Bool) (items : List (Str × Node))

/-- model.py:155-158, 374-375 what `==` of curves compares. -/
structure Looks where
  name : Str
  pb : PenBrush
  closed : Bool
  xf : Option (Mat3 ℝ)
  cps : Option (List (CP ℝ))

/-- What a curve object looks like now. -/
def look (h : Heap) (k : ℕ) : Option Looks :=
  match h.curves[k]? with
  | some c => some ⟨c.name, c.pb, c.closed, h.xfs[c.xf]?, readCps h c.cps⟩
  | none => none

/-- model.py:991 `e == elem`; only curves are equal to a curve (156). -/
def isSame (same : ℕ → Bool) : Node → Bool
  | .curve k => same k
  | .shape _ => false
  | .group _ _ _ => false

mutual
/-- model.py:986-1001 `replace(elem, replacement)` as in `Elem.replace` (Model/ElemNames), on a tree with curve objects: `same k` is
`k == elem`, `r` the replacement, `name` its name. -/
def replace (same : ℕ → Bool) (r : ℕ) (name : Str) : Node → Node × Except PyErr ℕ
  | .group h hidden es =>
    let res := replaceAll same r name es es
    (.group h hidden res.1, res.2)
  | .curve k => (.curve k, .ok 0)
  | .shape e => (.shape e, Elem.replaceOther e)
/-- model.py:990-1000 the loop over `list(self.elems.items())`; `cur` is the dict as it is now. -/
def replaceAll (same : ℕ → Bool) (r : ℕ) (name : Str) : (todo cur : List (Str × Node)) → List (Str × Node) × Except PyErr ℕ
  | [], cur => (cur, .ok 0)
  | (k, e) :: rest, cur =>
    if isSame same e then
      let cur1 := cur.filter fun x => x.1 ≠ k
      if name ∈ cur1.map Prod.fst then (cur1, .error .value)
      else if hasDot name then (cur1, .error .value)
      else
        match replaceAll same r name rest (cur1 ++ [(name, .curve r)]) with
        | (c, .ok n) => (c, .ok (n + 1))
        | (c, .error er) => (c, .error er)
    else
      match replace same r name e with
      | (e', .error er) => (cur.map fun x => if x.1 = k then (k, e') else x, .error er)
      | (e', .ok n) =>
        match replaceAll same r name rest (cur.map fun x => if x.1 = k then (k, e') else x) with
        | (c, .ok n') => (c, .ok (n + n'))
        | (c, .error er) => (c, .error er)
end

/-- All objects: curves, morphs, multi-step morphs, and the tree of the group. -/
structure World where
  objs : Multi.World
  root : Node

/-- `a == b` for curve objects. -/
def equal (h : Heap) (a b : ℕ) : Bool := by
  classical exact decide (look h b = look h a)

/-- The name of a curve object. -/
def nameIn (h : Heap) (k : ℕ) : Str :=
  match h.curves[k]? with
  | some c => c.name
  | none => []

/-- The calls of a program. -/
inductive Call
  | curve (op : Op)
  | morph (source target : ℕ) (force : Bool)
  | multi (source : ℕ) (targets : List (ℝ × ℕ)) (force : Bool)
  | update (k : ℕ) (t : TVal)
  | updateMulti (k : ℕ) (t : TVal)
  | restore (k : ℕ)
  | restoreMulti (k : ℕ)

/-- The exception, if any. -/
def errIn : Except PyErr ℕ → Option PyErr
  | .ok _ => none
  | .error e => some e

/-- One call. `morph`, `multi`: the constructors (anim.py:293-311, 346-373) up to `model.replace`, the replacement of the source by
the new curve, and the rest. `restore`, `restoreMulti` (anim.py:341-342, 410-411): the replacement of the curve shown by the source. -/
def step (w : World) : Call → World × Option PyErr
  | .curve op => (⟨(Multi.step w.objs (.base (.curve op))).1, w.root⟩, (Multi.step w.objs (.base (.curve op))).2)
  | .morph i j force =>
    match Multi.step w.objs (.base (.morph i j force (.ok 1))) with
    | (w1, some e) => (⟨w1, w.root⟩, some e)
    | (w1, none) =>
      match replace (equal w1.heap i) w.objs.heap.curves.length (nameIn w1.heap w.objs.heap.curves.length) w.root with
      | (root, found) => (⟨(Multi.step w.objs (.base (.morph i j force found))).1, root⟩,
          (Multi.step w.objs (.base (.morph i j force found))).2)
  | .multi i ts force =>
    match Multi.step w.objs (.multi i ts force (.ok 1)) with
    | (w1, some e) => (⟨w1, w.root⟩, some e)
    | (w1, none) =>
      match replace (equal w1.heap i) (w.objs.heap.curves.length + 1) (nameIn w1.heap (w.objs.heap.curves.length + 1)) w.root with
      | (root, found) => (⟨(Multi.step w.objs (.multi i ts force found)).1, root⟩, (Multi.step w.objs (.multi i ts force found)).2)
  | .update k t => (⟨(Multi.step w.objs (.base (.update k t))).1, w.root⟩, (Multi.step w.objs (.base (.update k t))).2)
  | .updateMulti k t => (⟨(Multi.step w.objs (.update k t)).1, w.root⟩, (Multi.step w.objs (.update k t)).2)
  | .restore k =>
    match w.objs.morphs[k]? with
    | some m =>
      match replace (equal w.objs.heap m.morph) m.orig (nameIn w.objs.heap m.orig) w.root with
      | (root, found) => (⟨w.objs, root⟩, errIn found)
    | none => (w, some .attribute)
  | .restoreMulti k =>
    match w.objs.multis[k]? with
    | some m =>
      match replace (equal w.objs.heap m.morph) m.orig (nameIn w.objs.heap m.orig) w.root with
      | (root, found) => (⟨w.objs, root⟩, errIn found)
    | none => (w, some .attribute)

/-- A history of calls, exceptions being caught: the objects at the end and the exceptions in order. -/
def run (w : World) : List Call → World × List (Option PyErr)
  | [] => (w, [])
  | a :: as => ((run (step w a).1 as).1, (step w a).2 :: (run (step w a).1 as).2)

end X7.Stage
