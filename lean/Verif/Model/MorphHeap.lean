import Verif.Model.CurveHeap
import Verif.Model.Morph

/-!
Model of `Morph` objects (x7/geom/anim.py 292-342) among the curve objects of Model/CurveHeap: a morph holds references to its
source and target, which its constructor changes and which others may change later, and to a curve of its own, whose points and
vectors `update` writes in place.

Simplification: of `model.replace` (anim.py:314-316) only the answer is given here; what it does to the tree is in Model/Morph, and
`restore` (341-342) too.
-/

noncomputable section

namespace X7.MH

open CH Anim

/-- anim.py:303-305 `self.orig`, `self.morph`, `self.target`. -/
structure MorphObj where
  orig : ℕ
  morph : ℕ
  target : ℕ

/-- All objects. -/
structure World where
  heap : Heap
  morphs : List MorphObj

/-- anim.py:299-302 `while len(..) < len(..): curve.add_one()`: `n` times, as each `add_one` adds one (model.py:504). -/
def pad (h : Heap) (i : ℕ) : ℕ → Heap × Option PyErr
  | 0 => (h, none)
  | n + 1 =>
    match CH.addOne h i with
    | (h1, none) => pad h1 i n
    | (h1, some e) => (h1, some e)

/-- The number of control points of a curve. -/
def size (h : Heap) (i : ℕ) : ℕ :=
  match h.curves[i]? with
  | some c => c.cps.length
  | none => 0

/-- anim.py:296-302 the two loops of the constructor. -/
def padBoth (h : Heap) (i j : ℕ) (force : Bool) : Heap × Option PyErr :=
  if force then
    match pad h i (size h j - size h i) with
    | (h1, some e) => (h1, some e)
    | (h1, none) => pad h1 j (size h1 i - size h1 j)
  else (h, none)

/-- anim.py:293-316 `Morph(model, source, target, t_func, force)`; the copy is made before the numbers are compared. `found` is what
`model.replace(source, copy)` answers: how many times the source is in the model, or an exception. -/
def newMorph (w : World) (i j : ℕ) (force : Bool) (found : Except PyErr ℕ) : World × Option PyErr :=
  if i < w.heap.curves.length ∧ j < w.heap.curves.length then
    match padBoth w.heap i j force with
    | (h1, some e) => ({ w with heap := h1 }, some e)
    | (h1, none) =>
      match CH.copy h1 i with
      | (h2, some e) => ({ w with heap := h2 }, some e)
      | (h2, none) =>
        if size h2 i ≠ size h2 j then ({ w with heap := h2 }, some .morph)
        else
          match found with
          | .error e => ({ w with heap := h2 }, some e)
          | .ok 0 => ({ w with heap := h2 }, some .morph)
          | .ok (_ + 1) => (⟨h2, w.morphs ++ [⟨i, h1.curves.length, j⟩]⟩, none)
  else (w, some .attribute)

/-- anim.py:339 `m.setxy(*(o + t * (tgt - o)).xy())` for points. -/
def mixPtAt (h : Heap) (t : ℝ) (m o g : ℕ) : Option Heap :=
  match h.pts[o]?, h.pts[g]? with
  | some a, some b => some { h with pts := h.pts.set m (Morph.mixPt t a b) }
  | _, _ => none

/-- anim.py:339 `m.setxy(*(o + t * (tgt - o)).xy())` for vectors. -/
def mixVecAt (h : Heap) (t : ℝ) (m o g : ℕ) : Option Heap :=
  match h.vecs[o]?, h.vecs[g]? with
  | some a, some b => some { h with vecs := h.vecs.set m (Morph.mixVec t a b) }
  | _, _ => none

/-- anim.py:337-339 one control point: the centre, then the left handle, then the right handle. -/
def mixCpAt (h : Heap) (t : ℝ) (m o g : ℕ) : Option Heap :=
  match h.cps[m]?, h.cps[o]?, h.cps[g]? with
  | some M, some O, some G =>
    match mixPtAt h t M.c O.c G.c with
    | some h1 =>
      match mixVecAt h1 t M.dl O.dl G.dl with
      | some h2 => mixVecAt h2 t M.dr O.dr G.dr
      | none => none
    | none => none
  | _, _, _ => none

/-- anim.py:336-339 the loop over `zip(morph_cp, orig_cp, target_cp)`. -/
def mixLoop (h : Heap) (t : ℝ) : (ms os gs : List ℕ) → Option Heap
  | m :: ms, o :: os, g :: gs =>
    match mixCpAt h t m o g with
    | some h1 => mixLoop h1 t ms os gs
    | none => none
  | _, _, _ => some h

/-- anim.py:330-333 one control point is moved off-screen. -/
def hideCpAt (h : Heap) (m : ℕ) : Option Heap :=
  match h.cps[m]? with
  | some M => some { h with pts := h.pts.set M.c ⟨1000000, 1000000⟩, vecs := (h.vecs.set M.dl ⟨0, 0⟩).set M.dr ⟨0, 0⟩ }
  | none => none

/-- anim.py:330-333 the loop. -/
def hideLoop (h : Heap) : List ℕ → Option Heap
  | [] => some h
  | m :: ms =>
    match hideCpAt h m with
    | some h1 => hideLoop h1 ms
    | none => none

/-- anim.py:318-339 `update(t)`; `t` is what `t_func` has returned. A pair times a vector is a `TypeError`, if there is any control
point. -/
def update (h : Heap) (m : MorphObj) (t : TVal) : Heap × Option PyErr :=
  match h.curves[m.morph]?, h.curves[m.orig]?, h.curves[m.target]? with
  | some cm, some co, some ct =>
    match t with
    | .none =>
      match hideLoop h cm.cps with
      | some h1 => (h1, none)
      | none => (h, some .attribute)
    | .num t =>
      match mixLoop h t cm.cps co.cps ct.cps with
      | some h1 => (h1, none)
      | none => (h, some .attribute)
    | .pair _ _ => if cm.cps = [] ∨ co.cps = [] ∨ ct.cps = [] then (h, none) else (h, some .type)
  | _, _, _ => (h, some .attribute)

/-- The calls of a program on curves and morphs. -/
inductive Call
  | curve (op : Op)
  | morph (source target : ℕ) (force : Bool) (found : Except PyErr ℕ)
  | update (k : ℕ) (t : TVal)

/-- One call: the objects afterwards and the exception raised, if any. -/
def step (w : World) : Call → World × Option PyErr
  | .curve op => (⟨(CH.step w.heap op).1, w.morphs⟩, (CH.step w.heap op).2)
  | .morph i j force found => newMorph w i j force found
  | .update k t =>
    match w.morphs[k]? with
    | some m => (⟨(update w.heap m t).1, w.morphs⟩, (update w.heap m t).2)
    | none => (w, some .attribute)

/-- A history of calls, exceptions being caught: the objects at the end and the exceptions in order. -/
def run (w : World) : List Call → World × List (Option PyErr)
  | [] => (w, [])
  | a :: as => ((run (step w a).1 as).1, (step w a).2 :: (run (step w a).1 as).2)

end X7.MH
