import Verif.Model.Flatten
import Verif.Model.GroupNames

/-!
Model of `GroupBuilder` (x7/geom/model.py:1186-1337) and of `Group.add_pt`/`lookup_pt` (1003-1012).

Group objects live on a heap because a nested builder goes on adding to a group that already is an element of another one.
Elements that are not built by a nested builder are values: the builder never changes them after adding, and an element object is added
at most once (`GroupNames` models what happens otherwise). `pens_by_shape` always is a `PensByShape` (1196-1197).
-/

noncomputable section

namespace X7.Build

open GroupNames

/-- An entry of `Group.elems`: an element, or a group object on the heap. -/
inductive Item
  | leaf (e : Elem)
  | grp (g : ℕ)

/-- model.py:816-838 a `Group` object: `elems` and `points` in insertion order. -/
structure GObj where
  hdr : Hdr
  hidden : Bool
  items : List (Str × Item)
  points : List (Str × Pt ℝ)

/-- The heap: the group objects `0 .. next - 1`. -/
structure BState where
  obj : ℕ → GObj
  next : ℕ

/-- model.py:1188-1201 the attributes of a `GroupBuilder`. -/
structure GB where
  name : Str
  pens : ByShape PenBrush
  kind : String
  hidden : Bool
  group : ℕ

/-- The argument `shape_kind`: None, a string, or a `PenBrush`. -/
inductive KindArg
  | none
  | kind (s : String)
  | pb (p : PenBrush)

/-- The class and the other arguments of an element. -/
inductive ShapeArg
  | rect (p1 p2 : Pt ℝ)
  | rrect (p1 p2 : Pt ℝ) (radius : ℝ)
  | ellipse (p1 p2 : Pt ℝ)
  | curve (cps : List (CP ℝ))

/-- `type(elem).__name__`. -/
def clsOf : Elem → Str
  | .curve _ _ => "ElemCurve".toList
  | .rect _ _ _ => "ElemRectangle".toList
  | .rrect _ _ _ _ => "ElemRectangleRounded".toList
  | .ellipse _ _ _ => "ElemEllipse".toList
  | .group _ _ _ => "Group".toList
  | .holes _ _ _ => "ElemWithHoles".toList

/-- `PenBrush('default')`. -/
def defaultPb : PenBrush := ⟨some ⟨⟨.name "default"⟩, 0⟩, none⟩

/-- model.py:911-928 `Group.add(name, elem)`: the key used. -/
def addKey (o : GObj) (cls name : Str) : Except PyErr Str :=
  match pickName (o.items.map Prod.fst) cls name false with
  | none => .error .recursion
  | some k => if hasDot k then .error .value else if k ∈ o.items.map Prod.fst then .error .value else .ok k

/-- model.py:926-928 the dict after `Group.add`. -/
def GObj.put (o : GObj) (k : Str) (i : Item) : GObj := { o with items := o.items ++ [(k, i)] }

/-- model.py:363-366, 553-560, 634-637, 729-735, 781-784 the constructors called with `penbrush` and `closed`: rectangles and ellipses
assert `closed`, filled elements too (143-144). -/
def construct (name : Str) (pb : PenBrush) (closed : Bool) : ShapeArg → Except PyErr Elem
  | .curve cps =>
    match Elem.checkClosed pb closed with
    | .error e => .error e
    | .ok _ => .ok (.curve ⟨name, pb, closed, Mat3.one⟩ cps)
  | .rect p1 p2 => if closed then .ok (.rect ⟨name, pb, true, Mat3.one⟩ p1 p2) else .error .assertion
  | .rrect p1 p2 r => if closed then .ok (.rrect ⟨name, pb, true, Mat3.one⟩ p1 p2 r) else .error .assertion
  | .ellipse p1 p2 => if closed then .ok (.ellipse ⟨name, pb, true, Mat3.one⟩ p1 p2) else .error .assertion

/-- model.py:1223-1227 the pen and brush chosen: a kind that is None or empty stands for the default of the builder. -/
def pickPen (b : GB) : KindArg → Except PyErr PenBrush
  | .pb p => .ok p
  | .none => b.pens.get b.kind
  | .kind s => b.pens.get (if s = "" then b.kind else s)

/-- model.py:1188-1201 `GroupBuilder(name, pens, shape_kind)` without a group: makes a new group object. -/
def newBuilder (st : BState) (name : Str) (pens : ByShape PenBrush) (kind : String) : BState × GB :=
  (⟨Function.update st.obj st.next ⟨⟨name, defaultPb, false, Mat3.one⟩, false, [], []⟩, st.next + 1⟩,
   ⟨name, pens, kind, false, st.next⟩)

/-- model.py:1213-1214, 911-928 `add(name, elem)`; the element afterwards has the key as its name. -/
def addElem (st : BState) (b : GB) (name : Str) (e : Elem) : BState × Except PyErr Elem :=
  match addKey (st.obj b.group) (clsOf e) name with
  | .error er => (st, .error er)
  | .ok k => (⟨Function.update st.obj b.group ((st.obj b.group).put k (.leaf (e.setName k))), st.next⟩, .ok (e.setName k))

/-- model.py:1219-1232 `elem_any`. -/
def elemAny (st : BState) (b : GB) (name : Str) (kind : KindArg) (closed : Option Bool) (shape : ShapeArg) :
    BState × Except PyErr Elem :=
  match pickPen b kind with
  | .error er => (st, .error er)
  | .ok pb =>
    match construct name pb (closed.getD pb.filled) shape with
    | .error er => (st, .error er)
    | .ok e => addElem st b name e

/-- model.py:1234-1245 `rect` with its default `closed=True`. -/
def rect (st : BState) (b : GB) (name : Str) (p1 p2 : Pt ℝ) (kind : KindArg) (closed : Option Bool := some true) :=
  elemAny st b name kind closed (.rect p1 p2)

/-- model.py:1247-1261 `rrect`. -/
def rrect (st : BState) (b : GB) (name : Str) (p1 p2 : Pt ℝ) (radius : ℝ) (kind : KindArg) (closed : Option Bool := some true) :=
  elemAny st b name kind closed (.rrect p1 p2 radius)

/-- model.py:1263-1275 `ellipse`. -/
def ellipse (st : BState) (b : GB) (name : Str) (p1 p2 : Pt ℝ) (kind : KindArg) (closed : Option Bool := some true) :=
  elemAny st b name kind closed (.ellipse p1 p2)

/-- model.py:1277-1287 `curve` with its default `closed=None`. -/
def curve (st : BState) (b : GB) (name : Str) (cps : List (CP ℝ)) (kind : KindArg) (closed : Option Bool := none) :=
  elemAny st b name kind closed (.curve cps)

/-- model.py:1289-1294 `group`: the new group object gets the key as its name, the new builder keeps the name asked for. -/
def group (st : BState) (b : GB) (name : Str) (pens : Option (ByShape PenBrush)) (kind : Option String) :
    BState × Except PyErr GB :=
  let pens := pens.getD b.pens
  let kind := match kind with
    | none => b.kind
    | some s => if s = "" then b.kind else s
  match addKey (st.obj b.group) "Group".toList name with
  | .error er => (st, .error er)
  | .ok k =>
    let obj := Function.update st.obj st.next ⟨⟨k, defaultPb, false, Mat3.one⟩, false, [], []⟩
    (⟨Function.update obj b.group ((st.obj b.group).put k (.grp st.next)), st.next + 1⟩, .ok ⟨name, pens, kind, false, st.next⟩)

/-- model.py:1296-1307 `rotate_about_center`; `elem` is not a group under construction. -/
def rotateAboutCenter (st : BState) (b : GB) (elem : Elem) (angle : ℝ) (sh : Bool) (extra : Str) : BState × Except PyErr Elem :=
  match elem.center with
  | .error er => (st, .error er)
  | .ok center =>
    match (elem.transform (TState.new.rotateAbout angle center)).2 with
    | .error er => (st, .error er)
    | .ok new =>
      match addElem st b (elem.hdr.name ++ "_r".toList ++ extra) new with
      | (st, .error er) => (st, .error er)
      | (st, .ok new) =>
        if sh then
          match ellipse st b (elem.hdr.name ++ "_c".toList ++ extra) (center.subVec ⟨1, 1⟩) (center.addVector ⟨1, 1⟩)
              (.pb elem.hdr.pb) with
          | (st, .error er) => (st, .error er)
          | (st, .ok _) => (st, .ok new)
        else (st, .ok new)

/-- model.py:1003-1008, 1204-1208 `point`/`add_pt`: both assertions, then the entry. -/
def addPt (st : BState) (b : GB) (name : Str) (p : Pt ℝ) : BState × Except PyErr Unit :=
  let o := st.obj b.group
  if name ∈ o.points.map Prod.fst then (st, .error .assertion)
  else if hasDot name then (st, .error .assertion)
  else (⟨Function.update st.obj b.group { o with points := o.points ++ [(name, p)] }, st.next⟩, .ok ())

/-- model.py:1010-1012, 1210-1211 `lookup_pt`. -/
def lookupPt (st : BState) (b : GB) (name : Str) : Except PyErr (Pt ℝ) :=
  if hasDot name then .error .assertion
  else match (st.obj b.group).points.find? fun x => x.1 = name with
    | some x => .ok x.2
    | none => .error .key

/-- model.py:1309-1310 `hide`: an attribute of the builder that nothing reads. -/
def hide (b : GB) : GB := { b with hidden := true }

/-- The element tree of a group object, looking at most `fuel` levels deep. -/
def tree (st : BState) : ℕ → ℕ → Elem
  | 0, g => .group (st.obj g).hdr (st.obj g).hidden []
  | n + 1, g => .group (st.obj g).hdr (st.obj g).hidden
      ((st.obj g).items.map fun x => (x.1, match x.2 with | .leaf e => e | .grp g' => tree st n g'))

/-- `builder.the_group` as a value. -/
def theGroup (st : BState) (b : GB) : Elem := tree st st.next b.group

/-- The calls a program makes; builders are numbered in the order they were created (0 is the first). -/
inductive BOp
  | elem (i : ℕ) (name : Str) (kind : KindArg) (closed : Option Bool) (shape : ShapeArg)
  | add (i : ℕ) (name : Str) (e : Elem)
  | group (i : ℕ) (name : Str) (pens : Option (ByShape PenBrush)) (kind : Option String)
  | point (i : ℕ) (name : Str) (p : Pt ℝ)
  | rotate (i : ℕ) (e : Elem) (angle : ℝ) (sh : Bool) (extra : Str)
  | hide (i : ℕ)

/-- One call; calls on builders that do not exist are ignored, exceptions are caught. -/
def step (s : BState × List GB) (op : BOp) : BState × List GB :=
  match op with
  | .elem i name kind closed shape =>
    match s.2[i]? with
    | none => s
    | some b => ((elemAny s.1 b name kind closed shape).1, s.2)
  | .add i name e =>
    match s.2[i]? with
    | none => s
    | some b => ((addElem s.1 b name e).1, s.2)
  | .group i name pens kind =>
    match s.2[i]? with
    | none => s
    | some b =>
      match group s.1 b name pens kind with
      | (st, .ok b') => (st, s.2 ++ [b'])
      | (st, .error _) => (st, s.2)
  | .point i name p =>
    match s.2[i]? with
    | none => s
    | some b => ((addPt s.1 b name p).1, s.2)
  | .rotate i e angle sh extra =>
    match s.2[i]? with
    | none => s
    | some b => ((rotateAboutCenter s.1 b e angle sh extra).1, s.2)
  | .hide i =>
    match s.2[i]? with
    | none => s
    | some b => (s.1, s.2.set i (hide b))

/-- A program: a first builder, then calls. -/
def run (name : Str) (pens : ByShape PenBrush) (kind : String) (ops : List BOp) : BState × List GB :=
  let r := newBuilder ⟨fun _ => ⟨⟨[], defaultPb, false, Mat3.one⟩, false, [], []⟩, 0⟩ name pens kind
  ops.foldl step (r.1, [r.2])

end X7.Build
