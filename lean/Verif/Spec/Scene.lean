import Verif.Model.Scene
import Verif.Spec.MultiHeap

/-! What C112 says about animations that work on the same points and vectors, apart from the code: what each reads and writes. -/

noncomputable section

namespace X7.Scene

open CH Anim

/-- A place that can be read and written: a point or a vector. -/
inductive Place
  | pt (i : ℕ)
  | vec (i : ℕ)
  deriving DecidableEq

/-- The point and the two vectors of a control point. -/
def cpPlaces (h : Heap) (p : ℕ) : List Place :=
  match h.cps[p]? with
  | some o => [.pt o.c, .vec o.dl, .vec o.dr]
  | none => []

/-- The points and vectors of a curve. -/
def places (h : Heap) (k : ℕ) : List Place :=
  match h.curves[k]? with
  | some c => c.cps.flatMap (cpPlaces h)
  | none => []

/-- What an animation moves: its point, or all of its own curve. -/
def writes (h : Heap) : Item → List Place
  | .generic pt _ _ => [.pt pt]
  | .point a => [.pt a.pt]
  | .morph m _ => places h m.morph
  | .multi m _ => places h m.morph

/-- What an animation looks at: its target; the source and target of a morph; all curves of a multi-step morph; the point itself, if a
function of the user makes use of it. -/
def reads (h : Heap) : Item → List Place
  | .generic pt _ func => by classical exact if ∃ t o p q, func t o p ≠ func t o q then [.pt pt] else []
  | .point (.linear _ _ g) => [.pt g]
  | .point (.linearFunc _ _ g _) => [.pt g]
  | .point (.sinusoidal _ _ g _ _) => [.pt g]
  | .point (.circular _ _ _ _ _) => []
  | .morph m _ => places h m.orig ++ places h m.target
  | .multi m _ => m.stops.flatMap fun x => places h x.2

/-- Nothing that an animation looks at is moved by it or by a later one, unless an earlier one moves it first. -/
def Ordered (h : Heap) (xs : List Item) : Prop :=
  ∀ (pre : List Item) (x : Item) (post : List Item), xs = pre ++ x :: post →
    ∀ l ∈ reads h x, l ∈ (x :: post).flatMap (writes h) → l ∈ pre.flatMap (writes h)

/-- The curves of morphs have at least as many control points as the curve shown. (`Morph` and `MorphMultiStep` see to it when they are
made.) -/
def Matched (h : Heap) : Item → Prop
  | .morph m _ => MH.size h m.morph ≤ MH.size h m.orig ∧ MH.size h m.morph ≤ MH.size h m.target
  | .multi m _ => m.stops ≠ [] ∧ ∀ x ∈ m.stops, MH.size h m.morph ≤ MH.size h x.2
  | _ => True

/-- What is at a place. -/
def at' (h : Heap) : Place → Option (ℝ × ℝ)
  | .pt i => h.pts[i]?.map fun p => (p.x, p.y)
  | .vec i => h.vecs[i]?.map fun v => (v.x, v.y)

end X7.Scene
