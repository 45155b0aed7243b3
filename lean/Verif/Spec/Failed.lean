import Verif.Model.Transform
import Verif.Model.Builder
import Verif.Model.BoxObj

/-!
What C109 says about calls that raise an exception, apart from the code: a program which catches the exceptions and one in which the
failing calls are left out.
-/

namespace X7.Failed

variable {S O : Type*}

/-- What a program leaves that makes these calls one after the other and catches all exceptions. -/
def final (step : S → O → S × Option PyErr) : S → List O → S
  | s, [] => s
  | s, o :: os => final step (step s o).1 os

/-- The exceptions of this program. -/
def errors (step : S → O → S × Option PyErr) : S → List O → List (Option PyErr)
  | _, [] => []
  | s, o :: os => (step s o).2 :: errors step (step s o).1 os

/-- The same calls without those that would raise an exception. Each is judged by what the calls kept before it have done. -/
def good (step : S → O → S × Option PyErr) : S → List O → List O
  | _, [] => []
  | s, o :: os =>
    match (step s o).2 with
    | none => o :: good step (step s o).1 os
    | some _ => good step s os

/-- The exception of a result. -/
def errOf {α : Type*} : Except PyErr α → Option PyErr
  | .ok _ => none
  | .error e => some e

/-- Calls on transforms. -/
noncomputable def onTransform (s : TState) (o : TOp) : TState × Option PyErr := ((s.step o).st, (s.step o).err)

/-- Calls on boxes. -/
def onBoxes {K : Type*} [Field K] [LinearOrder K] (h : List (BoxObj K)) (c : BoxObj.Call K) : List (BoxObj K) × Option PyErr :=
  ((BoxObj.step h c).1, errOf (BoxObj.step h c).2)

/-- Calls on builders: the model catches exceptions, so here they are listed again. -/
noncomputable def onBuilders (s : Build.BState × List Build.GB) (o : Build.BOp) : (Build.BState × List Build.GB) × Option PyErr :=
  (Build.step s o,
    match o with
    | .elem i name kind closed shape => s.2[i]?.bind fun b => errOf (Build.elemAny s.1 b name kind closed shape).2
    | .add i name e => s.2[i]?.bind fun b => errOf (Build.addElem s.1 b name e).2
    | .group i name pens kind => s.2[i]?.bind fun b => errOf (Build.group s.1 b name pens kind).2
    | .point i name p => s.2[i]?.bind fun b => errOf (Build.addPt s.1 b name p).2
    | .rotate i e angle sh extra => s.2[i]?.bind fun b => errOf (Build.rotateAboutCenter s.1 b e angle sh extra).2
    | .hide _ => none)

/-- The call is not `scale_bbox`. -/
def NoBox : TOp → Prop
  | .scaleBBox _ _ _ => False
  | _ => True

/-- The call is not `rotate_about`. -/
def NoTurn : TOp → Prop
  | .rotateAbout _ _ => False
  | _ => True

mutual
/-- The keys of every group are different, as those of a Python dict are. -/
def Dict : Elem → Prop
  | .group _ _ es => (es.map Prod.fst).Nodup ∧ DictAll es
  | .holes _ _ _ => True
  | .curve _ _ => True
  | .rect _ _ _ => True
  | .rrect _ _ _ _ => True
  | .ellipse _ _ _ => True
/-- The same for the elements of a group. -/
def DictAll : List (Str × Elem) → Prop
  | [] => True
  | (_, e) :: rest => Dict e ∧ DictAll rest
end

/-- The answer of `untransform(p)`. -/
noncomputable def answer (s : TState) (p : Pt ℝ) : Except PyErr (Pt ℝ) := (s.untransform p).2

end X7.Failed
