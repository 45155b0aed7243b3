import Verif.Model.Flatten

/-!
Model of `iter_elems` and `iter_elems_transformed` (x7/geom/model.py 345-347, 950-971, 1146-1166) as generators: the caller decides when
to ask for the next item, when to drop the generator, and what to do with the shared transform object in between.

The bodies have no branches that depend on the transform, so a generator is the list of what it still has to do (`Act`), and the number of
`with` blocks it is in. Dropping a generator that is suspended raises `GeneratorExit` at the `yield`: the `with` blocks pop, the plain
`push`/`pop` of `Group.iter_elems` (953-959) do not. Simplification: the tree is not changed while a generator is running; for that see
`Model/IterChange.lean`.
-/

noncomputable section

namespace X7.Iter

open Elem

/-- One action of the body of a generator. -/
inductive Act
  /-- `matrix.push()` and `matrix.compose(xf)`; `guarded` if in a `with`. -/
  | enter (xf : Mat3 ℝ) (guarded : Bool)
  /-- `yield name, e, matrix`. -/
  | item (name : Str) (e : Elem)
  /-- `xf = e.transform(matrix); xf.name = base + xf.name; yield xf`. -/
  | xitem (base : Str) (e : Elem)
  /-- `matrix.pop()`; `guarded` if it is the end of a `with`. -/
  | leave (guarded : Bool)
  | raise (er : PyErr)

/-- model.py:345-347 `Elem.iter_elems`; `None + '.'` is a `TypeError`. -/
def actsLeaf (e : Elem) (root : Option Str) : List Act :=
  match root with
  | some r => [.item (r ++ '.' :: e.hdr.name) e]
  | none => [.raise .type]

mutual
/-- model.py:345-347, 950-959, 1146-1153 the actions of `iter_elems(root, matrix)`. -/
def acts : Elem → Option Str → List Act
  | .curve h x, root => actsLeaf (.curve h x) root
  | .rect h x y, root => actsLeaf (.rect h x y) root
  | .rrect h x y z, root => actsLeaf (.rrect h x y z) root
  | .ellipse h x y, root => actsLeaf (.ellipse h x y) root
  | .group h _ es, root => .enter h.xf false :: (actsAll es (rootName root h.name) ++ [.leave false])
  | .holes h o i, root =>
    let base := rootNameHoles root h.name
    .enter h.xf true :: (acts o (some (base ++ ".outside".toList)) ++ (actsIn i (base ++ ".inside".toList) ++ [.leave true]))
/-- model.py:956-957. -/
def actsAll : List (Str × Elem) → Str → List Act
  | [], _ => []
  | (_, e) :: rest, root => acts e (some root) ++ actsAll rest root
/-- model.py:1152-1153. -/
def actsIn : List Elem → Str → List Act
  | [], _ => []
  | e :: rest, root => acts e (some root) ++ actsIn rest root
end

/-- model.py:961-971, 1155-1166 the actions of `iter_elems_transformed(root, matrix)`; other elements have no such method. -/
def actsXf (e : Elem) (root : Option Str) : List Act :=
  match e with
  | .group h _ es =>
    .enter h.xf true :: (es.map (fun x => .xitem (rootName root h.name ++ ['.']) x.2) ++ [.leave true])
  | .holes h o i =>
    let base := rootName root h.name
    .enter h.xf true :: (.xitem (base ++ ".outside.".toList) o :: (i.map (fun x => .xitem (base ++ ".inside.".toList) x) ++ [.leave true]))
  | _ => [.raise .attribute]

/-- A generator object: what is left to do, and the number of `with` blocks around the place where it is suspended. A new generator has
done nothing, a finished one has nothing left. -/
structure Coro where
  acts : List Act
  withs : ℕ

/-- What `next(g)` does: give an item, with the matrix and the stack of the transform object at that moment; give an element; raise
`StopIteration`; raise another exception. -/
inductive Out
  | item (name : Str) (e : Elem) (mat : Mat3 ℝ) (stack : List (Mat3 ℝ))
  | elem (e : Elem)
  | stop
  | err (er : PyErr)

/-- An exception leaves `k` nested `with` blocks: transform.py:333-334 `__exit__` pops; an exception of `pop` takes its place. -/
def unwind : ℕ → TState → Option PyErr → TState × Option PyErr
  | 0, s, er => (s, er)
  | k + 1, s, er =>
    match s.pop.err with
    | some e => unwind k s.pop.st (some e)
    | none => unwind k s.pop.st er

/-- An exception ends the generator. -/
def fail (k : ℕ) (s : TState) (er : PyErr) : Coro × TState × Out :=
  match unwind k s (some er) with
  | (s, some e) => (⟨[], 0⟩, s, .err e)
  | (s, none) => (⟨[], 0⟩, s, .err er)

/-- `next(g)`: on to the next `yield`. -/
def resume : List Act → ℕ → TState → Coro × TState × Out
  | [], _, s => (⟨[], 0⟩, s, .stop)
  | .enter xf g :: r, k, s => resume r (if g then k + 1 else k) (s.push.compose xf)
  | .item n e :: r, k, s => (⟨r, k⟩, s, .item n e s.mat s.stack)
  | .xitem base e :: r, k, s =>
    match transform e s with
    | (s, .error er) => fail k s er
    | (s, .ok x) => (⟨r, k⟩, s, .elem (x.setName (base ++ x.hdr.name)))
  | .leave g :: r, k, s =>
    match s.pop.err with
    | some er => fail (if g then k - 1 else k) s.pop.st er
    | none => resume r (if g then k - 1 else k) s.pop.st
  | .raise er :: _, k, s => fail k s er

/-- `g.close()`, or dropping the last reference to `g`: the `with` blocks are left; only an exception of theirs gets out. -/
def close (c : Coro) (s : TState) : Coro × TState × Option PyErr :=
  match unwind c.withs s none with
  | (s, er) => (⟨[], 0⟩, s, er)

/-- The objects of a program: transform objects, and generators with the transform object each one was given (model.py:952, 963, 1148,
1157: a new one, used by nothing else, if none was given). -/
structure Sys where
  mats : ℕ → TState
  gens : ℕ → Coro × ℕ

/-- What a program does: `next` or `close` of a generator, or something with a transform object. -/
inductive Op
  | next (i : ℕ)
  | close (i : ℕ)
  | use (j : ℕ) (f : TState → TState)

/-- What it sees. -/
inductive Event
  | next (i : ℕ) (o : Out)
  | closed (i : ℕ) (er : Option PyErr)

/-- One operation. -/
def step (sys : Sys) : Op → Sys × List Event
  | .next i =>
    let c := (sys.gens i).1
    let j := (sys.gens i).2
    let r := resume c.acts c.withs (sys.mats j)
    (⟨Function.update sys.mats j r.2.1, Function.update sys.gens i (r.1, j)⟩, [.next i r.2.2])
  | .close i =>
    let c := (sys.gens i).1
    let j := (sys.gens i).2
    let r := close c (sys.mats j)
    (⟨Function.update sys.mats j r.2.1, Function.update sys.gens i (r.1, j)⟩, [.closed i r.2.2])
  | .use j f => (⟨Function.update sys.mats j (f (sys.mats j)), sys.gens⟩, [])

/-- A program. -/
def run : Sys → List Op → Sys × List Event
  | sys, [] => (sys, [])
  | sys, op :: ops =>
    let r := step sys op
    let q := run r.1 ops
    (q.1, r.2 ++ q.2)

end X7.Iter
