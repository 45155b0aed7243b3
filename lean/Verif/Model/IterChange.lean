import Verif.Model.GroupNames
import Verif.Model.Flatten

/-!
Groups that are changed while a generator over them is suspended (x7/geom/model.py 345-347, 890-928, 950-971, 985-1003).

`for elem in self.elems.values()` asks an iterator of the dict for one value at a time. A dict is its table of entries in the order of
insertion; a deleted entry leaves a gap, and an insertion may rebuild the table without its gaps (`rebuild`: when this happens is up to
Python). As documented for Python 3.8 and later, the iterator raises `RuntimeError` if the number of entries has changed since it was
made, and gives at most as many values as there were entries then: if there is still another entry it raises `RuntimeError`.

Elements are numbers, as in `GroupNames`. Simplifications: elements are basic shapes or groups (the list of holes of a shape with holes has
no such checks), the transform object is left out (C78), and so are exceptions of
`elem.transform` (C71).
-/

namespace X7.IterChange

/-- A dict from names to elements: its table of entries. -/
structure Dict where
  slots : List (Option (Str × ℕ))

/-- `d.items()`. -/
def Dict.items (d : Dict) : List (Str × ℕ) := d.slots.filterMap id
/-- `d.keys()`. -/
def Dict.keys (d : Dict) : List Str := d.items.map Prod.fst
/-- `len(d)`. -/
def Dict.len (d : Dict) : ℕ := d.items.length

/-- `d[k] = v`: an entry that exists keeps its place, a new one comes last. -/
def Dict.set (d : Dict) (rebuild : Bool) (k : Str) (v : ℕ) : Dict :=
  if k ∈ d.keys then ⟨d.slots.map fun s => s.map fun kv => if kv.1 = k then (k, v) else kv⟩
  else ⟨(if rebuild then d.items.map some else d.slots) ++ [some (k, v)]⟩

/-- `del d[k]`. -/
def Dict.del (d : Dict) (k : Str) : Dict := ⟨d.slots.map fun s => if s.map Prod.fst = some k then none else s⟩

/-- An iterator of a dict: the number of entries when it was made, its place in the table, how many values it may still give. -/
structure It where
  used : ℕ
  pos : ℕ
  left : ℕ

/-- What an iterator does when asked: a value, the end, or `RuntimeError`. -/
inductive Got
  | value (v : ℕ) (it : It)
  | stop
  | changed

/-- The first entry at or after a place of the table, with its place. -/
def scan : List (Option (Str × ℕ)) → ℕ → Option (ℕ × ℕ)
  | [], _ => none
  | _ :: r, p + 1 => (scan r p).map fun x => (x.1 + 1, x.2)
  | none :: r, 0 => (scan r 0).map fun x => (x.1 + 1, x.2)
  | some kv :: _, 0 => some (0, kv.2)

/-- `iter(d.values())`. -/
def Dict.iter (d : Dict) : It := ⟨d.len, 0, d.len⟩

/-- `next` of such an iterator. -/
def Dict.next (d : Dict) (it : It) : Got :=
  if d.len ≠ it.used then .changed
  else match scan d.slots it.pos with
    | none => .stop
    | some (p, v) => if it.left = 0 then .changed else .value v ⟨it.used, p + 1, it.left - 1⟩

/-- The objects of a program: names of elements; for each group its dict `elems`, which may be exchanged for another one; the dicts. -/
structure Heap where
  name : ℕ → Str
  elems : ℕ → Option ℕ
  dict : ℕ → Dict
  /-- The number of the next dict to be made. -/
  fresh : ℕ

/-- Changes of groups and elements. -/
inductive Chg
  /-- `g.add(name, e, fix)` -/
  | add (g : ℕ) (name : Str) (e : ℕ) (fix rebuild : Bool)
  /-- `g.elems[k] = e` -/
  | set (g : ℕ) (k : Str) (e : ℕ) (rebuild : Bool)
  /-- `del g.elems[k]`, as in `replace` (994) -/
  | del (g : ℕ) (k : Str)
  /-- `e.name = n` -/
  | rename (e : ℕ) (n : Str)
  /-- `g.restore(g')` -/
  | restore (g g' : ℕ)

/-- model.py:898-904, 911-928, 994 the effect of a change; one that raises an exception changes nothing. -/
def Heap.change (cls : ℕ → Str) (h : Heap) : Chg → Heap
  | .add g name e fix rebuild =>
    match h.elems g with
    | none => h
    | some d =>
      match GroupNames.pickName (h.dict d).keys (cls e) name fix with
      | none => h
      | some n =>
        if hasDot n then h
        else if n ∈ (h.dict d).keys then h
        else { h with dict := Function.update h.dict d ((h.dict d).set rebuild n e), name := Function.update h.name e n }
  | .set g k e rebuild =>
    match h.elems g with
    | none => h
    | some d => { h with dict := Function.update h.dict d ((h.dict d).set rebuild k e) }
  | .del g k =>
    match h.elems g with
    | none => h
    | some d => { h with dict := Function.update h.dict d ((h.dict d).del k) }
  | .rename e n => { h with name := Function.update h.name e n }
  | .restore g g' =>
    match h.elems g, h.elems g' with
    | some _, some d' =>
      ⟨Function.update h.name g (h.name g'), Function.update h.elems g (some h.fresh),
        Function.update h.dict h.fresh ⟨(h.dict d').items.map some⟩, h.fresh + 1⟩
    | _, _ => h

/-- What `next` of a generator does. -/
inductive Out
  | item (name : Str) (e : ℕ)
  | stop
  | runtime
  | attribute
deriving DecidableEq

/-- A generator of `iter_elems_transformed`: not started; suspended in the loop, with the names around, the dict and its iterator; ended. -/
inductive Flat
  | new (g : ℕ) (root : Option Str)
  | running (base : Str) (d : ℕ) (it : It)
  | ended

/-- model.py:968-971 on with the loop. -/
def Heap.loop (h : Heap) (base : Str) (d : ℕ) (it : It) : Flat × Out :=
  match (h.dict d).next it with
  | .value v it => (.running base d it, .item (base ++ '.' :: h.name v) v)
  | .stop => (.ended, .stop)
  | .changed => (.ended, .runtime)

/-- model.py:961-971 `next` of a generator of `iter_elems_transformed(root)`: the names of the new elements and the elements they were made of. -/
def Heap.nextFlat (h : Heap) : Flat → Flat × Out
  | .new g root =>
    match h.elems g with
    | none => (.ended, .attribute)
    | some d => h.loop (Elem.rootName root (h.name g)) d (h.dict d).iter
  | .running base d it => h.loop base d it
  | .ended => (.ended, .stop)

/-- What a program does: it asks the generator, or makes a change. -/
inductive Step
  | next
  | change (c : Chg)

/-- A program with one generator of `iter_elems_transformed`; generators change nothing, so others do not matter. -/
def run (cls : ℕ → Str) : Heap → Flat → List Step → Heap × Flat × List Out
  | h, g, [] => (h, g, [])
  | h, g, .next :: r =>
    let o := h.nextFlat g
    let q := run cls h o.1 r
    (q.1, q.2.1, o.2 :: q.2.2)
  | h, g, .change c :: r => run cls (h.change cls c) g r

/-- A loop of `iter_elems` over a group that has been entered: the group, its dict, the name of what is around it, the iterator. -/
structure Frame where
  g : ℕ
  d : ℕ
  root : Option Str
  it : It

/-- model.py:345-347, 956-957 `next` of a generator of `iter_elems` that is inside of the given loops, the innermost first. It has no result
if it goes down for ever in a group that holds itself. -/
inductive Resume (h : Heap) : List Frame → List Frame → Out → Prop
  | ended : Resume h [] [] .stop
  | leave (f : Frame) (fs gs : List Frame) (o : Out) : (h.dict f.d).next f.it = .stop → Resume h fs gs o → Resume h (f :: fs) gs o
  | changed (f : Frame) (fs : List Frame) : (h.dict f.d).next f.it = .changed → Resume h (f :: fs) [] .runtime
  | shape (f : Frame) (fs : List Frame) (v : ℕ) (it : It) : (h.dict f.d).next f.it = .value v it → h.elems v = none →
      Resume h (f :: fs) ({ f with it := it } :: fs) (.item (Elem.rootName f.root (h.name f.g) ++ '.' :: h.name v) v)
  | enter (f : Frame) (fs gs : List Frame) (v d : ℕ) (it : It) (o : Out) : (h.dict f.d).next f.it = .value v it → h.elems v = some d →
      Resume h (⟨v, d, some (Elem.rootName f.root (h.name f.g)), (h.dict d).iter⟩ :: { f with it := it } :: fs) gs o → Resume h (f :: fs) gs o

/-- model.py:950-952 the first `next` of `g.iter_elems(root)`. -/
def Start (h : Heap) (g : ℕ) (root : Option Str) (gs : List Frame) (o : Out) : Prop :=
  ∃ d, h.elems g = some d ∧ Resume h [⟨g, d, root, (h.dict d).iter⟩] gs o

end X7.IterChange
