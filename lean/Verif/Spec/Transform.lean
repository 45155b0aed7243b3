import Verif.Model.Transform

/-!
What `Transform` calls mean, in terms of maps of the plane. Independent of matrices.
-/

noncomputable section

namespace X7.TSpec

abbrev Plane := Pt ℝ → Pt ℝ

/-- Translation. -/
def shift (dx dy : ℝ) : Plane := fun p => ⟨p.x + dx, p.y + dy⟩
/-- Axis scaling. -/
def stretch (sx sy : ℝ) : Plane := fun p => ⟨sx * p.x, sy * p.y⟩
/-- Clockwise rotation about the origin (right, up space). -/
def turnCw (deg : ℝ) : Plane := fun p =>
  ⟨Real.cos (radians deg) * p.x + Real.sin (radians deg) * p.y,
   -(Real.sin (radians deg)) * p.x + Real.cos (radians deg) * p.y⟩
/-- Counter-clockwise rotation about the origin. -/
def turnCcw (deg : ℝ) : Plane := fun p =>
  ⟨Real.cos (radians deg) * p.x - Real.sin (radians deg) * p.y,
   Real.sin (radians deg) * p.x + Real.cos (radians deg) * p.y⟩
/-- Clockwise rotation about a centre. -/
def turnAbout (deg : ℝ) (c : Pt ℝ) : Plane := fun p =>
  shift c.x c.y (turnCw deg ⟨p.x - c.x, p.y - c.y⟩)

/-- The elementary maps that `scale_bbox` performs, in order. They stop early where it raises. -/
def boxMaps (start target : BBox ℝ) (keep : Bool) : List Plane :=
  match start with
  | .none => []
  | .box xl yl xh yh =>
    let w := xh - xl
    let h := yh - yl
    if keep then
      if w = 0 ∨ h = 0 then []
      else match target with
        | .none => [shift (-xl) (-yl), stretch 0 0]
        | .box txl tyl txh tyh =>
          let k := min ((txh - txl) / w) ((tyh - tyl) / h)
          [shift (-xl) (-yl), stretch k k,
           shift (txl + (txh - txl - w * k) / 2) (tyl + (tyh - tyl - h * k) / 2)]
    else
      if w = 0 ∨ h = 0 then [shift (-xl) (-yl)]
      else match target with
        | .none => [shift (-xl) (-yl), stretch 0 0]
        | .box txl tyl txh tyh =>
          [shift (-xl) (-yl), stretch ((txh - txl) / w) ((tyh - tyl) / h), shift txl tyl]

/-- Abstract object: the current map and the saved maps. -/
structure AState where
  cur : Plane
  stack : List Plane

/-- Meaning of one call: translate/scale/rotate/compose_outer act after the current map, compose acts before it. -/
def AState.step (a : AState) : TOp → AState
  | .translate dx dy => { a with cur := shift dx dy ∘ a.cur }
  | .scale sx sy => { a with cur := stretch sx sy ∘ a.cur }
  | .rotate d => { a with cur := turnCw d ∘ a.cur }
  | .rotateCcw d => { a with cur := turnCcw d ∘ a.cur }
  | .rotateAbout d c => { a with cur := turnAbout d c ∘ a.cur }
  | .scaleBBox s t k => { a with cur := (boxMaps s t k).foldl (fun f g => g ∘ f) a.cur }
  | .compose m => { a with cur := a.cur ∘ m.apply }
  | .composeOuter m => { a with cur := m.apply ∘ a.cur }
  | .reset => { a with cur := id }
  | .setMatrix m => { a with cur := m.apply }
  | .push => { a with stack := a.cur :: a.stack }
  | .pop => match a.stack with
    | [] => a
    | f :: rest => ⟨f, rest⟩
  | .untransform _ => a
  | .untransformPts _ => a
  | .transform _ => a

/-- Meaning of a history. -/
def AState.run (a : AState) (ops : List TOp) : AState := ops.foldl AState.step a

/-- Matrices handed in from outside are affine (last row 0 0 1), as those of every `Transform` are. -/
def OpAffine : TOp → Prop
  | .compose m => m.Affine
  | .composeOuter m => m.Affine
  | .setMatrix m => m.Affine
  | _ => True

/-- Histories in which `rotate_about` is never called while an inverse may be cached (`c`: an inverse may be cached). -/
def NoStale : Bool → List TOp → Prop
  | _, [] => True
  | c, o :: os =>
    match o with
    | .untransform _ => NoStale true os
    | .untransformPts _ => NoStale true os
    | .rotateAbout _ _ => c = false ∧ NoStale false os
    | .push => NoStale c os
    | .pop => NoStale c os
    | .transform _ => NoStale c os
    | .scaleBBox _ _ _ => NoStale c os
    | .translate _ _ => NoStale false os
    | .scale _ _ => NoStale false os
    | .rotate _ => NoStale false os
    | .rotateCcw _ => NoStale false os
    | .compose _ => NoStale false os
    | .composeOuter _ => NoStale false os
    | .reset => NoStale false os
    | .setMatrix _ => NoStale false os

/-- Bookkeeping for the stale rotations: the number of saved maps, and what was done by `rotate_about` since an inverse was
first asked for, all other changes of the map starting afresh (`none`: not asked for since the last such change). A `pop` of
an empty stack and a `scale_bbox` that raises before its first step change nothing. -/
structure Pending where
  depth : ℕ
  rot : Option Plane

open Classical in
def Pending.step (a : Pending) : TOp → Pending
  | .rotateAbout d c => { a with rot := a.rot.map fun f => turnAbout d c ∘ f }
  | .untransform _ => { a with rot := some (a.rot.getD id) }
  | .untransformPts _ => { a with rot := some (a.rot.getD id) }
  | .transform _ => a
  | .push => { a with depth := a.depth + 1 }
  | .pop => if a.depth = 0 then a else ⟨a.depth - 1, none⟩
  | .scaleBBox s t k => if boxMaps s t k = [] then a else { a with rot := none }
  | .translate _ _ => { a with rot := none }
  | .scale _ _ => { a with rot := none }
  | .rotate _ => { a with rot := none }
  | .rotateCcw _ => { a with rot := none }
  | .compose _ => { a with rot := none }
  | .composeOuter _ => { a with rot := none }
  | .reset => { a with rot := none }
  | .setMatrix _ => { a with rot := none }

/-- The `rotate_about` calls of a history that a cached inverse does not know of, as one map of the plane. -/
def staleTurn (ops : List TOp) : Plane := (ops.foldl Pending.step ⟨0, none⟩).rot.getD id

end X7.TSpec

namespace X7

/-- Calls other than push and pop. -/
def NotStack : TOp → Prop
  | .push => False
  | .pop => False
  | _ => True

/-- Calls that cannot raise. -/
def Total : TOp → Prop
  | .scaleBBox _ _ _ => False
  | .pop => False
  | .push => False
  | .untransform _ => False
  | .untransformPts _ => False
  | _ => True

/-- Balanced programs that use `with` (headers of total calls), no bare push/pop. -/
def Prog.WithOnly : Prog → Prop
  | .skip => True
  | .raise _ => True
  | .op o => NotStack o
  | .seq p q => p.WithOnly ∧ q.WithOnly
  | .withPush hdr body => (∀ o ∈ hdr, Total o) ∧ body.WithOnly
  | .pushPop _ => False
  | .attempt p => p.WithOnly

/-- Balanced programs with bare push/pop too. -/
def Prog.Balanced : Prog → Prop
  | .skip => True
  | .raise _ => True
  | .op o => NotStack o
  | .seq p q => p.Balanced ∧ q.Balanced
  | .withPush hdr body => (∀ o ∈ hdr, NotStack o) ∧ body.Balanced
  | .pushPop body => body.Balanced
  | .attempt p => p.WithOnly

/-- Depth bookkeeping: pushes add one, pops remove one unless the stack is empty. -/
def depth : ℕ → List TOp → ℕ
  | n, [] => n
  | n, .push :: os => depth (n + 1) os
  | n, .pop :: os => depth (n - 1) os
  | n, _ :: os => depth n os

end X7
