import Verif.Model.Anim
import Verif.Model.ElemNames

/-!
Model of x7/geom/anim.py `Morph` (292-342) and `MorphMultiStep` (345-411). Control points are values (their points are plain
points without names, shared with nothing else). The curve object put into the model tree is one object; so the tree is kept as a
function of its control points.
-/

noncomputable section

namespace X7.Morph

open Anim Elem

/-- model.py:374-375, 155-158 `e == curve`. -/
def sameCurve (h : Hdr) (cps : List (CP ℝ)) (e : Elem) : Bool := by
  classical exact decide (e = .curve h cps)

/-- anim.py:299-302, 356-357 `while len(cps) < n: add_one()`, with the assertion at the end of `add_one` (model.py:504). -/
def padTo (n : ℕ) (cps : List (CP ℝ)) : Except PyErr (List (CP ℝ)) :=
  if cps.length < n then
    match addOne cps with
    | .error e => .error e
    | .ok new => if new.length = cps.length + 1 then padTo n new else .error .assertion
  else .ok cps
termination_by n - cps.length

/-- A `Morph` object together with the model it is in. `orig`, `target`, `morph` are control points of `self.orig`, `self.target`,
`self.morph`; `tree cps` is the model when `self.morph` has the control points `cps`. Simplification: source and target are not
changed by others later. -/
structure M where
  hdr : Hdr
  orig : List (CP ℝ)
  target : List (CP ℝ)
  morph : List (CP ℝ)
  tree : List (CP ℝ) → Elem
  tfunc : TFunc

/-- The model as it is now. -/
def M.now (m : M) : Elem := m.tree m.morph

/-- anim.py:303-316 the constructor after padding. -/
def finish (model : List (CP ℝ) → Elem) (h : Hdr) (source target : List (CP ℝ)) (tfunc : TFunc) : Except PyErr M :=
  if source.length ≠ target.length then .error .morph
  else
    match (replace (sameCurve h source) (.curve h source) (model source)).2 with
    | .error e => .error e
    | .ok count =>
      if count = 0 then .error .morph
      else .ok ⟨h, source, target, source, fun cps => (replace (sameCurve h source) (.curve h cps) (model source)).1, tfunc⟩

/-- anim.py:293-316 `Morph(model, source, target, t_func, force)`; `model cps` is the given model when the source has the control
points `cps` (the source may be in it). -/
def mk (model : List (CP ℝ) → Elem) (h : Hdr) (source target : List (CP ℝ)) (tfunc : TFunc) (force : Bool) : Except PyErr M :=
  if force then
    match padTo target.length source with
    | .error e => .error e
    | .ok source =>
      match padTo source.length target with
      | .error e => .error e
      | .ok target => finish model h source target tfunc
  else finish model h source target tfunc

/-- `o + t * (tgt - o)` for points. -/
def mixPt (t : ℝ) (o g : Pt ℝ) : Pt ℝ := o.addVector ((g.sub o).mul t)

/-- `o + t * (tgt - o)` for vectors. -/
def mixVec (t : ℝ) (o g : Vec ℝ) : Vec ℝ := o.add ((g.sub o).mul t)

/-- anim.py:337-339, 406-408 one control point: `kind` stays. -/
def mixCP (t : ℝ) (m o g : CP ℝ) : CP ℝ := ⟨mixPt t o.c g.c, mixVec t o.dl g.dl, mixVec t o.dr g.dr, m.kind⟩

/-- anim.py:336-339, 405-408 the loop over `zip(morph, orig, target)`; what is left of the longest stays. -/
def mixAll (t : ℝ) : (m o g : List (CP ℝ)) → List (CP ℝ)
  | m :: ms, o :: os, g :: gs => mixCP t m o g :: mixAll t ms os gs
  | ms, _, _ => ms

/-- anim.py:330-333 off-screen. -/
def hide (m : List (CP ℝ)) : List (CP ℝ) := m.map fun cp => ⟨⟨1000000, 1000000⟩, ⟨0, 0⟩, ⟨0, 0⟩, cp.kind⟩

/-- anim.py:318-339 `update(t)`; a pair times a vector is a `TypeError` (if there is any control point). -/
def M.update (m : M) (t : TVal) : Except PyErr M :=
  match m.tfunc t with
  | .error e => .error e
  | .ok .none => .ok { m with morph := hide m.morph }
  | .ok (.num t) => .ok { m with morph := mixAll t m.morph m.orig m.target }
  | .ok (.pair _ _) => if m.morph = [] then .ok m else .error .type

/-- anim.py:341-342 `restore()`: afterwards the tree no longer contains `self.morph`. -/
def M.restore (m : M) : Except PyErr M :=
  match replace (sameCurve m.hdr m.morph) (.curve m.hdr m.orig) m.now with
  | (_, .error e) => .error e
  | (tree, .ok _) => .ok { m with tree := fun _ => tree }

/-! ### Several steps -/

/-- Index of the least element, the first one in case of ties: `sorted((dist, idx) ...)[0][1]`. -/
def firstMinFrom (best : ℝ) (bi : ℕ) : ℕ → List ℝ → ℕ
  | _, [] => bi
  | i, v :: vs => if v < best then firstMinFrom v i (i + 1) vs else firstMinFrom best bi (i + 1) vs

/-- anim.py:363-364 `dists[0][1]`. -/
def firstMin : List ℝ → Option ℕ
  | [] => none
  | v :: vs => some (firstMinFrom v 0 1 vs)

/-- anim.py:362-367 the rotation of one curve. -/
def rotateLL (h : Hdr) (cps : List (CP ℝ)) : Except PyErr (List (CP ℝ)) :=
  match Elem.bbox (.curve h cps) with
  | .error e => .error e
  | .ok bbox =>
    match bbox.pll with
    | .error e => .error e
    | .ok p1 =>
      match firstMin (cps.map fun cp => (p1.sub cp.c).length) with
      | none => .error .index
      | some ll => .ok (cps.drop ll ++ cps.take ll)

/-- anim.py:355-367 the loop over the curves. -/
def prepAll (force : Bool) (maxLen : ℕ) : List (Hdr × List (CP ℝ)) → Except PyErr (List (List (CP ℝ)))
  | [] => .ok []
  | (h, cps) :: rest =>
    match padTo maxLen cps with
    | .error e => .error e
    | .ok cps =>
      match if force then rotateLL h cps else .ok cps with
      | .error e => .error e
      | .ok cps =>
        match prepAll force maxLen rest with
        | .error e => .error e
        | .ok l => .ok (cps :: l)

/-- A `MorphMultiStep` object with the model it is in. -/
structure MM where
  hdr : Hdr
  orig : List (CP ℝ)
  steps : List ℝ
  curves : List (List (CP ℝ))
  morph : List (CP ℝ)
  tree : List (CP ℝ) → Elem
  tfunc : TFunc

/-- The model as it is now. -/
def MM.now (m : MM) : Elem := m.tree m.morph

/-- anim.py:346-373 `MorphMultiStep(model, source, targets, t_func, force)`; the source itself is copied, not changed. -/
def mkMulti (model : Elem) (h : Hdr) (source : List (CP ℝ)) (targets : List (ℝ × Hdr × List (CP ℝ))) (tfunc : TFunc) (force : Bool) :
    Except PyErr MM :=
  let allSteps := 0 :: targets.map fun x => x.1
  let allCurves := (h, source) :: targets.map fun x => x.2
  let maxLen := (allCurves.map fun x => x.2.length).foldl max 0
  match prepAll force maxLen allCurves with
  | .error e => .error e
  | .ok curves =>
    let morph := curves.getD 0 []
    match (replace (sameCurve h source) (.curve h morph) model).2 with
    | .error e => .error e
    | .ok count =>
      if count = 0 then .error .morph
      else .ok ⟨h, source, allSteps, curves, morph, fun cps => (replace (sameCurve h source) (.curve h cps) model).1, tfunc⟩

/-- anim.py:387-397 the curves to mix and the fraction. -/
def pick (steps : List ℝ) (curves : List (List (CP ℝ))) (t : ℝ) : Except PyErr (List (CP ℝ) × List (CP ℝ) × ℝ) :=
  let idx := bisectRight steps t
  if idx = 0 then .ok (curves.getD 0 [], curves.getD 0 [], t)
  else if curves.length ≤ idx then .ok (curves.getD (curves.length - 1) [], curves.getD (curves.length - 1) [], t)
  else
    match pyDiv (t - steps.getD (idx - 1) 0) (steps.getD idx 0 - steps.getD (idx - 1) 0) with
    | .error e => .error e
    | .ok t => .ok (curves.getD (idx - 1) [], curves.getD idx [], t)

/-- anim.py:375-408 `update(t)`; a pair cannot be compared with the steps (`TypeError`). -/
def MM.update (m : MM) (t : TVal) : Except PyErr MM :=
  match m.tfunc t with
  | .error e => .error e
  | .ok .none => .ok { m with morph := hide m.morph }
  | .ok (.pair _ _) => .error .type
  | .ok (.num t) =>
    match pick m.steps m.curves t with
    | .error e => .error e
    | .ok (low, high, t) => .ok { m with morph := mixAll t m.morph low high }

/-- anim.py:410-411 `restore()`. -/
def MM.restore (m : MM) : Except PyErr MM :=
  match replace (sameCurve m.hdr m.morph) (.curve m.hdr m.orig) m.now with
  | (_, .error e) => .error e
  | (tree, .ok _) => .ok { m with tree := fun _ => tree }

end X7.Morph
