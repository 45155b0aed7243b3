import Verif.Model.ElemNames

/-!
Model of `iter_elems_transformed` (x7/geom/model.py:961-971, 1155-1166), run to its end.

It is a generator; the model collects what it yields, the matrix object afterwards, and the exception that ended it, if any. `rootName` is `root + '.' + self.name if root else self.name`.
Simplification: the consumer does not touch the matrix between two items and takes all of them (a generator that is dropped early
restores the matrix when it is closed).
-/

noncomputable section

namespace X7.Elem

/-- Assignment to the attribute `name`. -/
def setName (e : Elem) (n : Str) : Elem :=
  match e with
  | .curve h x => .curve { h with name := n } x
  | .rect h x y => .rect { h with name := n } x y
  | .rrect h x y z => .rrect { h with name := n } x y z
  | .ellipse h x y => .ellipse { h with name := n } x y
  | .group h x y => .group { h with name := n } x y
  | .holes h x y => .holes { h with name := n } x y

/-- What a run of a generator gives: the items yielded before it ended or raised. -/
structure Yields where
  items : List Elem
  err : Option PyErr

/-- model.py:968-971, 1162-1166 the loops: `xf = elem.transform(matrix); xf.name = base + xf.name; yield xf`. -/
def yieldAll (base : Str) : List Elem → TState → TState × Yields
  | [], s => (s, ⟨[], none⟩)
  | e :: rest, s =>
    match transform e s with
    | (s, .error er) => (s, ⟨[], some er⟩)
    | (s, .ok x) =>
      match yieldAll base rest s with
      | (s, y) => (s, ⟨x.setName (base ++ x.hdr.name) :: y.items, y.err⟩)

/-- The body of the `with` in `iter_elems_transformed`: for a shape with holes (1158-1166) the outside under `base.outside.` and then
the holes under `base.inside.`. Only groups and shapes with holes have the method: `AttributeError` otherwise. -/
def iterXfBody (root : Option Str) (e : Elem) (s : TState) : TState × Yields :=
  match e with
  | .group h _ elems => yieldAll (rootName root h.name ++ ['.']) (elems.map Prod.snd) s
  | .holes h outside inside =>
    let base := rootName root h.name
    match yieldAll (base ++ ".outside.".toList) [outside] s with
    | (s, y) =>
      match y.err with
      | some _ => (s, y)
      | none =>
        match yieldAll (base ++ ".inside.".toList) inside s with
        | (s, z) => (s, ⟨y.items ++ z.items, z.err⟩)
  | _ => (s, ⟨[], some .attribute⟩)

/-- model.py:961-971, 1155-1166 `iter_elems_transformed(root, matrix)`: `with matrix.push()` and `compose` of the own transform; the
`with` pops at the end and on exceptions. -/
def iterXf (root : Option Str) (e : Elem) (m : TState) : TState × Yields :=
  match e with
  | .group _ _ _ | .holes _ _ _ =>
    match iterXfBody root e (m.push.compose e.hdr.xf) with
    | (s, y) =>
      match s.pop with
      | ⟨s, none⟩ => (s, y)
      | ⟨s, some er⟩ => (s, ⟨y.items, some er⟩)
  | _ => (m, ⟨[], some .attribute⟩)

end X7.Elem
