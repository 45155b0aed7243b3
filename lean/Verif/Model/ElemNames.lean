import Verif.Model.Elem

/-!
Model of names in trees of elements (x7/geom/model.py): `iter_elems` (345-347, 950-959, 1146-1153), `lookup` (973-984,
1168-1178), `replace` (483-485, 986-1001, 1180-1183). Elements are values, a tree shares no element (simplification).
-/

noncomputable section

namespace X7.Elem

/-- One item produced by `iter_elems`: name, element, and the state of the matrix object at that moment. -/
structure Yield where
  name : Str
  elem : Elem
  mat : TState

/-- The run of a generator to its end: the items, the matrix object afterwards, the exception if any. -/
structure Gen where
  items : List Yield
  mat : TState
  err : Option PyErr

/-- `root + '.' + self.name if root else self.name` (model.py:957). -/
def rootName (root : Option Str) (name : Str) : Str :=
  match root with
  | some (c :: r) => (c :: r) ++ '.' :: name
  | _ => name

/-- `'%s.%s.' % (root, self.name) if root else self.name` (model.py:1150): with one more dot at the end. -/
def rootNameHoles (root : Option Str) (name : Str) : Str :=
  match root with
  | some (c :: r) => (c :: r) ++ '.' :: name ++ ['.']
  | _ => name

/-- model.py:345-347 `Elem.iter_elems(root, matrix)`; `None + '.'` is a `TypeError`. -/
def iterLeaf (e : Elem) (root : Option Str) (m : TState) : Gen :=
  match root with
  | some r => ⟨[⟨r ++ '.' :: e.hdr.name, e, m⟩], m, none⟩
  | none => ⟨[], m, some .type⟩

mutual
/-- model.py:345-347, 950-959, 1146-1153 `iter_elems(root, matrix)` with `matrix` given, consumed to the end by a caller who
does not change the matrix. -/
def iterElems : Elem → Option Str → TState → Gen
  | .curve h x, root, m => iterLeaf (.curve h x) root m
  | .rect h x y, root, m => iterLeaf (.rect h x y) root m
  | .rrect h x y z, root, m => iterLeaf (.rrect h x y z) root m
  | .ellipse h x y, root, m => iterLeaf (.ellipse h x y) root m
  | .group h _ es, root, m =>
    let m1 := m.push.compose h.xf
    let g := iterAll es (rootName root h.name) m1
    match g.err with
    | some e => ⟨g.items, g.mat, some e⟩
    | none => ⟨g.items, g.mat.pop.st, g.mat.pop.err⟩
  | .holes h o i, root, m =>
    let m1 := m.push.compose h.xf
    if m1.stack = [] then ⟨[], m1, some .emptyStack⟩
    else
      let base := rootNameHoles root h.name
      let g1 := iterElems o (some (base ++ ".outside".toList)) m1
      match g1.err with
      | some e => ⟨g1.items, g1.mat.pop.st, g1.mat.pop.err.orElse fun _ => some e⟩
      | none =>
        let g2 := iterIn i (base ++ ".inside".toList) g1.mat
        ⟨g1.items ++ g2.items, g2.mat.pop.st, g2.mat.pop.err.orElse fun _ => g2.err⟩
/-- model.py:956-957 the loop of `Group.iter_elems`. -/
def iterAll : List (Str × Elem) → Str → TState → Gen
  | [], _, m => ⟨[], m, none⟩
  | (_, e) :: rest, root, m =>
    let g1 := iterElems e (some root) m
    match g1.err with
    | some er => ⟨g1.items, g1.mat, some er⟩
    | none =>
      let g2 := iterAll rest root g1.mat
      ⟨g1.items ++ g2.items, g2.mat, g2.err⟩
/-- model.py:1152-1153 the loop of `ElemWithHoles.iter_elems`. -/
def iterIn : List Elem → Str → TState → Gen
  | [], _, m => ⟨[], m, none⟩
  | e :: rest, root, m =>
    let g1 := iterElems e (some root) m
    match g1.err with
    | some er => ⟨g1.items, g1.mat, some er⟩
    | none =>
      let g2 := iterIn rest root g1.mat
      ⟨g1.items ++ g2.items, g2.mat, g2.err⟩
end

/-- `isinstance(item, Group)`. -/
def isGroup : Elem → Bool
  | .group _ _ _ => true
  | _ => false

/-- model.py:1168-1178 `ElemWithHoles.lookup`. -/
def lookupHoles (o : Elem) (i : List Elem) (tag : Str) : Except PyErr Elem :=
  let (head, tail) := partitionDot tag
  if head = "outside".toList then
    if tail = o.hdr.name then .ok o else .error .key
  else if head = "inside".toList then
    match i.find? fun e => tail = e.hdr.name with
    | some e => .ok e
    | none => .error .key
  else .error .key

mutual
/-- model.py:973-984, 1168-1178 `lookup(tag)`; other elements have no such method. -/
def lookup : Elem → Str → Except PyErr Elem
  | .group _ _ es, tag => lookupAll es (partitionDot tag).1 (partitionDot tag).2
  | .holes _ o i, tag => lookupHoles o i tag
  | .curve _ _, _ => .error .attribute
  | .rect _ _ _, _ => .error .attribute
  | .rrect _ _ _ _, _ => .error .attribute
  | .ellipse _ _ _, _ => .error .attribute
/-- model.py:975-984 `self.elems[head]` and what follows. -/
def lookupAll : List (Str × Elem) → Str → Str → Except PyErr Elem
  | [], _, _ => .error .key
  | (k, e) :: rest, head, tail =>
    if k = head then
      if tail ≠ [] then
        if isGroup e then lookup e tail else .error .value
      else .ok e
    else lookupAll rest head tail
end

/-- model.py:483-485, 1180-1183 and `hasattr(e, 'replace')` (999) for elements that are not groups: curves answer 0, shapes
with holes raise, the others have no such method. -/
def replaceOther : Elem → Except PyErr ℕ
  | .holes _ _ _ => .error .notImplemented
  | _ => .ok 0

mutual
/-- model.py:986-1001 `replace(elem, replacement)` applied to an element of a group that is not a match: the element afterwards
(also when an exception leaves it half done) and the count. `same e` is `e == elem`. -/
def replace (same : Elem → Bool) (r : Elem) : Elem → Elem × Except PyErr ℕ
  | .group h hidden es =>
    let res := replaceAll same r es es
    (.group h hidden res.1, res.2)
  | .curve h x => (.curve h x, replaceOther (.curve h x))
  | .rect h x y => (.rect h x y, replaceOther (.rect h x y))
  | .rrect h x y z => (.rrect h x y z, replaceOther (.rrect h x y z))
  | .ellipse h x y => (.ellipse h x y, replaceOther (.ellipse h x y))
  | .holes h o i => (.holes h o i, replaceOther (.holes h o i))
/-- model.py:990-1000 the loop over `list(self.elems.items())`; `cur` is the dict as it is now. A group below is changed in
place, so its entry of `cur` changes with it. -/
def replaceAll (same : Elem → Bool) (r : Elem) : (todo cur : List (Str × Elem)) → List (Str × Elem) × Except PyErr ℕ
  | [], cur => (cur, .ok 0)
  | (k, e) :: rest, cur =>
    if same e then
      let cur1 := cur.filter fun x => x.1 ≠ k
      if r.hdr.name ∈ cur1.map Prod.fst then (cur1, .error .value)
      else if hasDot r.hdr.name then (cur1, .error .value)
      else
        match replaceAll same r rest (cur1 ++ [(r.hdr.name, r)]) with
        | (c, .ok n) => (c, .ok (n + 1))
        | (c, .error er) => (c, .error er)
    else
      match replace same r e with
      | (e', .error er) => (cur.map fun x => if x.1 = k then (k, e') else x, .error er)
      | (e', .ok n) =>
        match replaceAll same r rest (cur.map fun x => if x.1 = k then (k, e') else x) with
        | (c, .ok n') => (c, .ok (n + n'))
        | (c, .error er) => (c, .error er)
end

end X7.Elem
