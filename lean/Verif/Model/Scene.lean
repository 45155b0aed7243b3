import Verif.Model.MultiHeap

/-!
Model of an `AnimationHolder` (x7/geom/anim.py 274-285) with every kind of animation in it, and of the `Builder` (439-464) which
draws its frames: animations of points (195-271) that are centres of control points of curves, morphs (318-339) and multi-step morphs
(375-408), all working in place on the objects of Model/CurveHeap.

The constructors are in Model/Anim, Model/MorphHeap and Model/MultiHeap; here the animations are given. All points are plain
(see Model/Anim for relative points).
-/

noncomputable section

namespace X7.Scene

open CH Anim

/-- An animation object. `orig` is the position when it was made (57). The function of `generic` gets the time, this position and the
present position (206). -/
inductive Item
  | generic (pt : ℕ) (orig : Pt ℝ) (func : TVal → Pt ℝ → Pt ℝ → Except PyErr (Pt ℝ))
  | point (a : Anim)
  | morph (m : MH.MorphObj) (func : TFunc)
  | multi (m : Multi.MultiObj) (func : TFunc)

/-- `self.point.setxy(..)`, unless computing the arguments has raised. -/
def move (h : Heap) (pt : ℕ) (r : Except PyErr (Pt ℝ)) : Heap × Option PyErr :=
  match r with
  | .ok p => ({ h with pts := h.pts.set pt p }, none)
  | .error e => (h, some e)

/-- anim.py:219-224 `AnimationLinear.update`: the new position. -/
def linear (orig targ : Pt ℝ) : TVal → Except PyErr (Pt ℝ)
  | .none => .error .type
  | .num t => .ok ⟨(1 - t) * orig.x + t * targ.x, (1 - t) * orig.y + t * targ.y⟩
  | .pair tx ty => .ok ⟨(1 - tx) * orig.x + tx * targ.x, (1 - ty) * orig.y + ty * targ.y⟩

/-- anim.py:219-224, 234-235, 249-254, 268-271 `update(t)` of an animation of a point. -/
def updPoint (h : Heap) (a : Anim) (t : TVal) : Heap × Option PyErr :=
  match a with
  | .linear pt orig target =>
    match h.pts[target]? with
    | some targ => move h pt (linear orig targ t)
    | none => (h, some .attribute)
  | .linearFunc pt orig target func =>
    match func t with
    | .error e => (h, some e)
    | .ok t =>
      match h.pts[target]? with
      | some targ => move h pt (linear orig targ t)
      | none => (h, some .attribute)
  | .sinusoidal pt orig target frequency offset =>
    match t with
    | .num t =>
      match h.pts[target]? with
      | some targ => move h pt (linear orig targ (.num ((1 - Real.cos (t * tau * frequency + offset * tau / 360)) * (1 / 2))))
      | none => (h, some .attribute)
    | _ => (h, some .type)
  | .circular pt orig radius frequency offset =>
    match t with
    | .num t =>
      move h pt (.ok ⟨orig.x + radius * Real.sin (t * tau * frequency + offset), orig.y + radius * Real.cos (t * tau * frequency + offset)⟩)
    | _ => (h, some .type)

/-- `animation.update(t)`: anim.py:204-206 `AnimationGeneric`, 209-271 other animations of points, 318-339 `Morph`, 375-408
`MorphMultiStep`. -/
def update (h : Heap) (x : Item) (t : TVal) : Heap × Option PyErr :=
  match x with
  | .generic pt orig func =>
    match h.pts[pt]? with
    | some p => move h pt (func t orig p)
    | none => (h, some .attribute)
  | .point a => updPoint h a t
  | .morph m func =>
    match func t with
    | .ok s => MH.update h m s
    | .error e => (h, some e)
  | .multi m func =>
    match func t with
    | .ok s => Multi.update h m s
    | .error e => (h, some e)

/-- anim.py:283-285 `AnimationHolder.update(t)`: one after the other until one raises. -/
def updateAll (h : Heap) : List Item → TVal → Heap × Option PyErr
  | [], _ => (h, none)
  | x :: xs, t =>
    match update h x t with
    | (h1, none) => updateAll h1 xs t
    | (h1, some e) => (h1, some e)

/-- anim.py:452-460 `build_one(t)`: the animations are updated, then the model is drawn; `draw h` is the image, or the exception, when the
objects are as in `h`. Simplification: drawing changes no point or vector. -/
def buildOne {I : Type} (draw : Heap → Except PyErr I) (xs : List Item) (h : Heap) (t : TVal) : Heap × Except PyErr I :=
  match updateAll h xs t with
  | (h1, none) => (h1, draw h1)
  | (h1, some e) => (h1, .error e)

/-- anim.py:462-464 the comprehension of `build_all`, over the times that are left. -/
def buildList {I : Type} (draw : Heap → Except PyErr I) (xs : List Item) (h : Heap) : List TVal → Heap × Except PyErr (List I)
  | [] => (h, .ok [])
  | t :: ts =>
    match buildOne draw xs h t with
    | (h1, .error e) => (h1, .error e)
    | (h1, .ok im) =>
      match buildList draw xs h1 ts with
      | (h2, .ok ims) => (h2, .ok (im :: ims))
      | (h2, .error e) => (h2, .error e)

/-- anim.py:462-464 `build_all(steps)`. -/
def buildAll {I : Type} (draw : Heap → Except PyErr I) (xs : List Item) (h : Heap) (steps : ℕ) : Heap × Except PyErr (List I) :=
  buildList draw xs h ((List.range steps).map fun (i : ℕ) => .num ((i : ℝ) / steps))

/-- The calls a program may make between frames: one animation on its own, the holder, one frame, all frames. -/
inductive Call
  | one (k : ℕ) (t : TVal)
  | all (t : TVal)
  | frame (t : TVal)
  | frames (steps : ℕ)

/-- One call; exceptions are caught. -/
def step {I : Type} (draw : Heap → Except PyErr I) (xs : List Item) (h : Heap) : Call → Heap
  | .one k t =>
    match xs[k]? with
    | some x => (update h x t).1
    | none => h
  | .all t => (updateAll h xs t).1
  | .frame t => (buildOne draw xs h t).1
  | .frames n => (buildAll draw xs h n).1

/-- A history of calls. -/
def run {I : Type} (draw : Heap → Except PyErr I) (xs : List Item) (h : Heap) : List Call → Heap
  | [] => h
  | a :: as => run draw xs (step draw xs h a) as

end X7.Scene
