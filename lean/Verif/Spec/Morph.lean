import Verif.Model.Morph
import Verif.Spec.Bezier
import Verif.Spec.ElemNames
import Verif.Spec.Anim

/-! What C59 and C60 say about morphs, apart from the code. -/

noncomputable section

namespace X7.Morph

open Anim Elem

/-- The six numbers of a control point. -/
def coord (k : Fin 6) (cp : CP ℝ) : ℝ :=
  match k with
  | 0 => cp.c.x
  | 1 => cp.c.y
  | 2 => cp.dl.x
  | 3 => cp.dl.y
  | 4 => cp.dr.x
  | 5 => cp.dr.y

/-- `r` is `s` of the way from `o` to `g`, number by number; kinds are those of `o`. -/
def Blended (s : ℝ) (o g r : List (CP ℝ)) : Prop :=
  r.length = o.length ∧ ∀ (i : ℕ) (a b c : CP ℝ), o[i]? = some a → g[i]? = some b → r[i]? = some c →
    c.kind = a.kind ∧ ∀ k, coord k c = coord k a + s * (coord k b - coord k a)

/-- All control points a million away with no handles. -/
def OffScreen (o r : List (CP ℝ)) : Prop :=
  r.length = o.length ∧ ∀ cp ∈ r, cp.c = ⟨1000000, 1000000⟩ ∧ cp.dl = ⟨0, 0⟩ ∧ cp.dr = ⟨0, 0⟩

/-- The same closed line: started elsewhere, or one segment cut in two halves. -/
inductive SameLoop : List (Poly4 ℝ) → List (Poly4 ℝ) → Prop
  | refl (a) : SameLoop a a
  | step {a S L R rest b} (i j : ℕ) : a.rotate i = S :: rest → b.rotate j = L :: R :: rest →
      (∀ u, L.at' u = S.at' (u / 2) ∧ R.at' u = S.at' ((1 + u) / 2)) → SameLoop a b
  | turn {a} (i : ℕ) : SameLoop a (a.rotate i)
  | trans {a b c} : SameLoop a b → SameLoop b c → SameLoop a c

/-- The points of a line. -/
def trace (segs : List (Poly4 ℝ)) : Set (Pt ℝ) := {p | ∃ S ∈ segs, ∃ u, 0 ≤ u ∧ u ≤ 1 ∧ S.at' u = p}

/-- `x` is somewhere below the group `g`. -/
inductive Below (x : Elem) : Elem → Prop
  | here {h hd es k} : (k, x) ∈ es → Below x (.group h hd es)
  | deep {h hd es k g} : (k, g) ∈ es → Below x g → Below x (.group h hd es)

/-- A history of updates, failures being caught. -/
def M.after (m : M) (ts : List TVal) : M :=
  ts.foldl (fun m t => match m.update t with | .ok m' => m' | .error _ => m) m

/-- A history of updates, failures being caught. -/
def MM.after (m : MM) (ts : List TVal) : MM :=
  ts.foldl (fun m t => match m.update t with | .ok m' => m' | .error _ => m) m

end X7.Morph
