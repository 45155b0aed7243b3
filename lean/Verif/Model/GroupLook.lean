import Verif.Model.GroupHeap
import Verif.Model.ElemNames
import Verif.Model.Equal

/-!
Looking through groups which share elements: `bbox`, `as_curves`, `iter_elems`, `lookup` and `replace` of x7/geom/model.py on the objects of
Model/GroupHeap. Each stops with a `RecursionError` when more than `depth` calls are nested.
-/

noncomputable section

namespace X7.GL
open X7.GH

/-- model.py:887-888 the loop of `Group.bbox_int`; `f` is `elem.bbox()`. -/
def boxAll (f : ℕ → Except PyErr (BBox ℝ)) : List (Str × ℕ) → BBox ℝ → Except PyErr (BBox ℝ)
  | [], acc => .ok acc
  | (_, i) :: rest, acc =>
    match f i with
    | .error er => .error er
    | .ok bb => boxAll f rest (acc.add bb)

/-- model.py:193-198 `elem.bbox()`, with `bbox_int` of 472-477, 570-572, 883-889. -/
def box (w : World) : (depth : ℕ) → ℕ → Except PyErr (BBox ℝ)
  | 0, _ => .error .recursion
  | n + 1, i =>
    match w.items[i]? with
    | none => .error .attribute
    | some it =>
      match w.xfs[it.xf]? with
      | none => .error .attribute
      | some m =>
        match it.body with
        | .leaf l => (leafElem it.name it.pb m l).bbox
        | .group _ es => Elem.bboxFrom m (if es.isEmpty then .error .geomInternal else boxAll (box w n) es .none)

/-- model.py:881 the inner loop of `Group.as_curves`. -/
def curvesAll (f : ℕ → Except PyErr (List (Hdr × List (CP ℝ)))) : List (Str × ℕ) → Except PyErr (List (Hdr × List (CP ℝ)))
  | [] => .ok []
  | (_, i) :: rest =>
    match f i with
    | .error er => .error er
    | .ok cs =>
      match curvesAll f rest with
      | .error er => .error er
      | .ok ds => .ok (cs ++ ds)

/-- model.py:354-356, 880-881 `elem.as_curves()`. -/
def curves (w : World) : (depth : ℕ) → ℕ → Except PyErr (List (Hdr × List (CP ℝ)))
  | 0, _ => .error .recursion
  | n + 1, i =>
    match w.items[i]? with
    | none => .error .attribute
    | some it =>
      match w.xfs[it.xf]? with
      | none => .error .attribute
      | some m =>
        match it.body with
        | .leaf l => (leafElem it.name it.pb m l).asCurves
        | .group _ es =>
          match curvesAll (curves w n) es with
          | .error er => .error er
          | .ok cs => .ok (cs.map (Elem.curveMoved m))

/-- One item produced by `iter_elems`: the name, the element as an object, the state of the matrix object at that moment. -/
structure Item' where
  name : Str
  obj : ℕ
  mat : TState

/-- The run of a generator: the items, the matrix object afterwards, the exception if any. -/
structure Gen where
  items : List Item'
  mat : TState
  err : Option PyErr

/-- model.py:956-957 the loop of `Group.iter_elems`. -/
def iterAll (f : ℕ → Option Str → TState → Gen) : List (Str × ℕ) → Str → TState → Gen
  | [], _, m => ⟨[], m, none⟩
  | (_, i) :: rest, root, m =>
    let g1 := f i (some root) m
    match g1.err with
    | some er => ⟨g1.items, g1.mat, some er⟩
    | none =>
      let g2 := iterAll f rest root g1.mat
      ⟨g1.items ++ g2.items, g2.mat, g2.err⟩

/-- model.py:345-347, 950-959 `elem.iter_elems(root, matrix)` with `matrix` given, consumed to the end. -/
def iter (w : World) : (depth : ℕ) → ℕ → Option Str → TState → Gen
  | 0, _, _, m => ⟨[], m, some .recursion⟩
  | n + 1, i, root, m =>
    match w.items[i]? with
    | none => ⟨[], m, some .attribute⟩
    | some it =>
      match w.xfs[it.xf]? with
      | none => ⟨[], m, some .attribute⟩
      | some x =>
        match it.body with
        | .leaf _ =>
          match root with
          | some r => ⟨[⟨r ++ '.' :: it.name, i, m⟩], m, none⟩
          | none => ⟨[], m, some .type⟩
        | .group _ es =>
          let g := iterAll (iter w n) es (Elem.rootName root it.name) (m.push.compose x)
          match g.err with
          | some e => ⟨g.items, g.mat, some e⟩
          | none => ⟨g.items, g.mat.pop.st, g.mat.pop.err⟩

/-- model.py:973-984 `group.lookup(tag)`: the object found. -/
def lookup (w : World) : (depth : ℕ) → ℕ → Str → Except PyErr ℕ
  | 0, _, _ => .error .recursion
  | n + 1, g, tag =>
    match w.items[g]? with
    | none => .error .attribute
    | some it =>
      match it.body with
      | .leaf _ => .error .attribute
      | .group _ es =>
        match es.find? fun x => x.1 = (partitionDot tag).1 with
        | none => .error .key
        | some (_, j) =>
          if (partitionDot tag).2 ≠ [] then
            match (w.items[j]?).map Item.body with
            | some (.group _ _) => lookup w n j (partitionDot tag).2
            | _ => .error .value
          else .ok j

open Classical in
/-- model.py:155-158, 374-375, 567-568, 742-743 `a == b` for curves and shapes; a curve or shape is never equal to a group. -/
def same (w : World) (i e : ℕ) : Bool :=
  decide (∃ a b la lb, w.items[i]? = some a ∧ w.items[e]? = some b ∧ a.body = .leaf la ∧ b.body = .leaf lb ∧ a.name = b.name ∧
    Dump.pbEqv a.pb b.pb = true ∧ w.xfs[a.xf]? = w.xfs[b.xf]? ∧ la = lb)

/-- The elements of a group are now `es`. -/
def setElems (w : World) (g : ℕ) (es : List (Str × ℕ)) : World :=
  ⟨w.items.modify g fun it => match it.body with
    | .group hd _ => { it with body := .group hd es }
    | .leaf _ => it, w.xfs⟩

/-- The elements of a group. -/
def elems (w : World) (g : ℕ) : Option (List (Str × ℕ)) :=
  match w.items[g]? with
  | some it => match it.body with
    | .group _ es => some es
    | .leaf _ => none
  | none => none

/-- model.py:991-998 one element `(k, j)` of group `g` which is to be replaced by object `r`: it is deleted first (`KeyError` if it is
no longer there), then the name is looked at, then `r` is added (911-928). -/
def swap (w : World) (g : ℕ) (k : Str) (r : ℕ) : World × Option PyErr :=
  match elems w g, w.items[r]? with
  | some es, some ri =>
    if k ∈ es.map Prod.fst then
      let es1 := es.filter fun x => x.1 ≠ k
      let w1 := setElems w g es1
      if ri.name ∈ es1.map Prod.fst then (w1, some .value) else GH.add w1 g ri.name r false
    else (w, some .key)
  | _, _ => (w, some .attribute)

/-- model.py:990-1000 the loop of `replace` over `list(self.elems.items())`; `f` is `e.replace(elem, replacement)` for a group `e`. Curves
answer 0 (483-485), the other shapes have no such method. -/
def replaceAll (f : World → ℕ → World × Except PyErr ℕ) (g e r : ℕ) : List (Str × ℕ) → World → World × Except PyErr ℕ
  | [], w => (w, .ok 0)
  | (k, j) :: rest, w =>
    if same w j e then
      match swap w g k r with
      | (w1, some er) => (w1, .error er)
      | (w1, none) =>
        match replaceAll f g e r rest w1 with
        | (w2, .ok c) => (w2, .ok (c + 1))
        | (w2, .error er) => (w2, .error er)
    else
      match elems w j with
      | none => replaceAll f g e r rest w
      | some _ =>
        match f w j with
        | (w1, .error er) => (w1, .error er)
        | (w1, .ok c) =>
          match replaceAll f g e r rest w1 with
          | (w2, .ok c') => (w2, .ok (c + c'))
          | (w2, .error er) => (w2, .error er)

/-- model.py:986-1001 `group.replace(elem, replacement)` where `elem` is a curve or shape: all objects afterwards (also when an exception
leaves them half done) and the count. -/
def replace (e r : ℕ) : (depth : ℕ) → World → ℕ → World × Except PyErr ℕ
  | 0, w, _ => (w, .error .recursion)
  | n + 1, w, g =>
    match elems w g with
    | none => (w, .error .attribute)
    | some es => replaceAll (replace e r n) g e r es w

end X7.GL
