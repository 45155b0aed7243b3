import Verif.Model.MorphHeap
import Verif.Spec.CurveHeap

/-!
What C108 says about morphs among curves that change, apart from the code: curves are independent values, a morph is three
numbers of curves.
-/

noncomputable section

namespace X7.MH

open CH Anim

/-- The curves as values, and for each morph the numbers of its source, its own curve and its target. -/
structure Values where
  st : State
  morphs : List MorphObj

/-- Curve `i` gets `n` control points more, one after the other. -/
def padVal (s : State) (i : ℕ) : ℕ → State × Option PyErr
  | 0 => (s, none)
  | n + 1 =>
    match s.step (.addOne i) with
    | (s1, none) => padVal s1 i n
    | (s1, some e) => (s1, some e)

/-- The number of control points of curve `i`. -/
def sizeVal (s : State) (i : ℕ) : ℕ :=
  match s.curves[i]? with
  | some c => c.cps.length
  | none => 0

/-- The shorter of two curves gets as many control points as the longer, if this is wanted. -/
def padBothVal (s : State) (i j : ℕ) (force : Bool) : State × Option PyErr :=
  if force then
    match padVal s i (sizeVal s j - sizeVal s i) with
    | (s1, some e) => (s1, some e)
    | (s1, none) => padVal s1 j (sizeVal s1 i - sizeVal s1 j)
  else (s, none)

/-- The curve of a morph is hidden or becomes the mixture of the present values of source and target. -/
def updVal (s : State) (m : MorphObj) (t : TVal) : State × Option PyErr :=
  match s.curves[m.morph]?, s.curves[m.orig]?, s.curves[m.target]? with
  | some cm, some co, some ct =>
    match t with
    | .none => (⟨s.xfs, s.curves.set m.morph { cm with cps := Morph.hide cm.cps }⟩, none)
    | .num t => (⟨s.xfs, s.curves.set m.morph { cm with cps := Morph.mixAll t cm.cps co.cps ct.cps }⟩, none)
    | .pair _ _ => if cm.cps = [] ∨ co.cps = [] ∨ ct.cps = [] then (s, none) else (s, some .type)
  | _, _, _ => (s, some .attribute)

/-- What each call does to the values. `morph`: the shorter curve is filled up; then there is one more curve, a copy of the source,
and one more morph if the numbers of control points are equal and the source has been found in the model. `update`: see above. -/
def Values.step (v : Values) : Call → Values × Option PyErr
  | .curve op => (⟨(v.st.step op).1, v.morphs⟩, (v.st.step op).2)
  | .morph i j force found =>
    if i < v.st.curves.length ∧ j < v.st.curves.length then
      match padBothVal v.st i j force with
      | (s1, some e) => ({ v with st := s1 }, some e)
      | (s1, none) =>
        match s1.step (.copy i) with
        | (s2, some e) => ({ v with st := s2 }, some e)
        | (s2, none) =>
          if sizeVal s2 i ≠ sizeVal s2 j then ({ v with st := s2 }, some .morph)
          else
            match found with
            | .error e => ({ v with st := s2 }, some e)
            | .ok 0 => ({ v with st := s2 }, some .morph)
            | .ok (_ + 1) => (⟨s2, v.morphs ++ [⟨i, s1.curves.length, j⟩]⟩, none)
    else (v, some .attribute)
  | .update k t =>
    match v.morphs[k]? with
    | some m => (⟨(updVal v.st m t).1, v.morphs⟩, (updVal v.st m t).2)
    | none => (v, some .attribute)

/-- A history of calls. -/
def Values.run (v : Values) : List Call → Values × List (Option PyErr)
  | [] => (v, [])
  | a :: as => (((v.step a).1.run as).1, (v.step a).2 :: ((v.step a).1.run as).2)

/-- The present values of all objects. -/
def World.values (w : World) : Option Values :=
  match vals w.heap with
  | some s => some ⟨s, w.morphs⟩
  | none => none

/-- The point and the two vectors of control point object `p` are not those of `q`. -/
def Distinct (h : Heap) (p q : ℕ) : Prop :=
  ∀ o o' : CpObj, h.cps[p]? = some o → h.cps[q]? = some o' →
    o.c ≠ o'.c ∧ o.dl ≠ o'.dl ∧ o.dl ≠ o'.dr ∧ o.dr ≠ o'.dl ∧ o.dr ≠ o'.dr

/-- The points and vectors of curve `k` are held only once. -/
def Private (h : Heap) (k : ℕ) : Prop :=
  ∀ c : CurveObj, h.curves[k]? = some c → ∀ p ∈ c.cps,
    (∀ o : CpObj, h.cps[p]? = some o → o.dl ≠ o.dr) ∧
    ∀ (l : ℕ) (d : CurveObj), h.curves[l]? = some d → ∀ q ∈ d.cps, q ≠ p → Distinct h p q

/-- What histories keep: no control point object is held twice; every morph has three curves, its own is neither source nor target,
and the points and vectors of its own curve are held only once. -/
structure Sound (w : World) : Prop where
  apart : Apart w.heap
  morphs : ∀ m ∈ w.morphs, m.orig < m.morph ∧ m.target < m.morph ∧ m.morph < w.heap.curves.length ∧ Private w.heap m.morph

/-- No curve of a morph is reversed. (A reversed curve holds the points and vectors of the original.) -/
def Values.Allowed (v : Values) : List Call → Prop
  | [] => True
  | a :: as => (∀ m ∈ v.morphs, a ≠ .curve (.reversed m.morph)) ∧ (v.step a).1.Allowed as

/-- The curves that may get control points by a call. -/
def Call.mayGrow : Call → List ℕ
  | .curve (.addOne i) => [i]
  | .curve _ => []
  | .morph i j _ _ => [i, j]
  | .update _ _ => []

/-- The curves whose outline may be changed by a call: one that is restored, the curve of a morph that is updated. -/
def Call.redraws (v : Values) : Call → Option ℕ
  | .curve (.restore i _) => some i
  | .curve _ => none
  | .morph _ _ _ _ => none
  | .update k _ => v.morphs[k]?.map MorphObj.morph

/-- Curve `k` is never redrawn in a history. -/
def Values.Untouched (v : Values) (k : ℕ) : List Call → Prop
  | [] => True
  | a :: as => a.redraws v ≠ some k ∧ (v.step a).1.Untouched k as

/-- `r` is `s` of the way from `o` to `g`, number by number. -/
def Mixed (s : ℝ) (o g r : List (CP ℝ)) : Prop :=
  r.length = o.length ∧ ∀ (i : ℕ) (a b c : CP ℝ), o[i]? = some a → g[i]? = some b → r[i]? = some c →
    ∀ k, Morph.coord k c = Morph.coord k a + s * (Morph.coord k b - Morph.coord k a)

end X7.MH
