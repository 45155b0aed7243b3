import Verif.Model.MorphHeap

/-!
Model of `MorphMultiStep` objects (x7/geom/anim.py 345-411) among the curve objects of Model/CurveHeap and the morphs of
Model/MorphHeap: the constructor adds control points to the targets and turns them in place; the source is copied.

Simplification: of `model.replace` (anim.py:371-373) only the answer is given here; what it does to the tree is in Model/Morph, and
`restore` (410-411) too.
-/

noncomputable section

namespace X7.Multi

open CH Anim

/-- anim.py:349-352, 369 `self.orig`, `self.morph`, and `self.all_steps` with `self.all_curves`. -/
structure MultiObj where
  orig : ℕ
  morph : ℕ
  stops : List (ℝ × ℕ)

/-- All objects. -/
structure World where
  heap : Heap
  morphs : List MH.MorphObj
  multis : List MultiObj

/-- The next statement, unless an exception has been raised. -/
def thenDo {S : Type} (r : S × Option PyErr) (f : S → S × Option PyErr) : S × Option PyErr :=
  match r.2 with
  | none => f r.1
  | some _ => r

/-- anim.py:362-364 `ll`: the first control point nearest to the corner of the bounding box. -/
def lowest (h : Hdr) (cps : List (CP ℝ)) : Except PyErr ℕ :=
  match Elem.bbox (.curve h cps) with
  | .error e => .error e
  | .ok bbox =>
    match bbox.pll with
    | .error e => .error e
    | .ok p1 =>
      match Morph.firstMin (cps.map fun cp => (p1.sub cp.c).length) with
      | none => .error .index
      | some ll => .ok ll

/-- anim.py:362-367 one curve is turned. -/
def turnLow (h : Heap) (i : ℕ) : Heap × Option PyErr :=
  match h.curves[i]? with
  | some c =>
    match readCps h c.cps, h.xfs[c.xf]? with
    | some vs, some m =>
      match lowest ⟨c.name, c.pb, c.closed, m⟩ vs with
      | .ok ll => CH.step h (.turn i ll)
      | .error e => (h, some e)
    | _, _ => (h, some .attribute)
  | none => (h, some .attribute)

/-- anim.py:355-367 the loop over the curves; `n` is `max_len`. -/
def prep (force : Bool) (n : ℕ) : List ℕ → Heap → Heap × Option PyErr
  | [], h => (h, none)
  | i :: is, h =>
    thenDo (MH.pad h i (n - MH.size h i)) fun h1 =>
      thenDo (if force then turnLow h1 i else (h1, none)) fun h2 => prep force n is h2

/-- anim.py:350-369 the curves of the constructor: the copy of the source, the loop, the copy that is shown. -/
def build (h : Heap) (i : ℕ) (ts : List ℕ) (force : Bool) : Heap × Option PyErr :=
  thenDo (CH.copy h i) fun h1 =>
    thenDo (prep force (((h.curves.length :: ts).map (MH.size h1)).foldl max 0) (h.curves.length :: ts) h1) fun h2 =>
      CH.copy h2 h.curves.length

/-- anim.py:346-373 `MorphMultiStep(model, source, targets, t_func, force)`. `found` is what `model.replace` answers. -/
def newMulti (w : World) (i : ℕ) (targets : List (ℝ × ℕ)) (force : Bool) (found : Except PyErr ℕ) : World × Option PyErr :=
  if i < w.heap.curves.length ∧ ∀ x ∈ targets, x.2 < w.heap.curves.length then
    match build w.heap i (targets.map Prod.snd) force with
    | (h1, some e) => ({ w with heap := h1 }, some e)
    | (h1, none) =>
      match found with
      | .error e => ({ w with heap := h1 }, some e)
      | .ok 0 => ({ w with heap := h1 }, some .morph)
      | .ok (_ + 1) =>
        (⟨h1, w.morphs, w.multis ++ [⟨i, w.heap.curves.length + 1, (0, w.heap.curves.length) :: targets⟩]⟩, none)
  else (w, some .attribute)

/-- anim.py:387-397 the curves to mix and the fraction. -/
def pickStop (stops : List (ℝ × ℕ)) (t : ℝ) : Except PyErr (ℕ × ℕ × ℝ) :=
  let steps := stops.map Prod.fst
  let curves := stops.map Prod.snd
  let idx := bisectRight steps t
  if idx = 0 then .ok (curves.getD 0 0, curves.getD 0 0, t)
  else if curves.length ≤ idx then .ok (curves.getD (curves.length - 1) 0, curves.getD (curves.length - 1) 0, t)
  else
    match pyDiv (t - steps.getD (idx - 1) 0) (steps.getD idx 0 - steps.getD (idx - 1) 0) with
    | .error e => .error e
    | .ok t => .ok (curves.getD (idx - 1) 0, curves.getD idx 0, t)

/-- anim.py:375-408 `update(t)`; `t` is what `t_func` has returned. The loops 381-384 and 405-408 are those of `Morph.update`
(330-333, 336-339). A pair cannot be compared with the steps (`TypeError`). -/
def update (h : Heap) (m : MultiObj) (t : TVal) : Heap × Option PyErr :=
  match t with
  | .none => MH.update h ⟨m.morph, m.morph, m.morph⟩ .none
  | .pair _ _ => (h, some .type)
  | .num t =>
    match pickStop m.stops t with
    | .error e => (h, some e)
    | .ok (lo, hi, t) => MH.update h ⟨lo, m.morph, hi⟩ (.num t)

/-- The calls of a program on curves, morphs and multi-step morphs. -/
inductive Call
  | base (a : MH.Call)
  | multi (source : ℕ) (targets : List (ℝ × ℕ)) (force : Bool) (found : Except PyErr ℕ)
  | update (k : ℕ) (t : TVal)

/-- One call: the objects afterwards and the exception raised, if any. -/
def step (w : World) : Call → World × Option PyErr
  | .base a => (⟨(MH.step ⟨w.heap, w.morphs⟩ a).1.heap, (MH.step ⟨w.heap, w.morphs⟩ a).1.morphs, w.multis⟩,
      (MH.step ⟨w.heap, w.morphs⟩ a).2)
  | .multi i targets force found => newMulti w i targets force found
  | .update k t =>
    match w.multis[k]? with
    | some m => (⟨(update w.heap m t).1, w.morphs, w.multis⟩, (update w.heap m t).2)
    | none => (w, some .attribute)

/-- A history of calls, exceptions being caught: the objects at the end and the exceptions in order. -/
def run (w : World) : List Call → World × List (Option PyErr)
  | [] => (w, [])
  | a :: as => ((run (step w a).1 as).1, (step w a).2 :: (run (step w a).1 as).2)

end X7.Multi
