import Verif.Model.Iter
import Verif.Spec.ElemNames

/-! What programs that use generators rely on. -/

noncomputable section

namespace X7.Iter

open Elem

/-- Two transform objects with the same matrix and the same stack; a cached inverse does not count. -/
def Same (s t : TState) : Prop := s.mat = t.mat ∧ s.stack = t.stack

/-- Something is done with a transform object that leaves it as it was. -/
def Balanced (f : TState → TState) : Prop := ∀ s, Same (f s) s

/-- Generator `i` works on transform object `j` and no other generator does; and all other use of transform objects in the program is
balanced. -/
def Alone (sys : Sys) (i j : ℕ) (ops : List Op) : Prop :=
  (sys.gens i).2 = j ∧ (∀ i', i' ≠ i → (sys.gens i').2 ≠ j) ∧ ∀ j' f, Op.use j' f ∈ ops → Balanced f

/-- What the calls of `next` on generator `i` gave, in order. -/
def nextsOf (i : ℕ) (evs : List Event) : List Out :=
  evs.filterMap fun
    | .next i' o => if i' = i then some o else none
    | .closed _ _ => none

/-- How often the program calls `next` on generator `i`. -/
def asks (i : ℕ) (ops : List Op) : ℕ :=
  ops.countP fun
    | .next i' => i' = i
    | _ => false

/-- The transform object inside of the given transforms, from the outside in: each one pushes and composes. -/
def inside (m : TState) (xfs : List (Mat3 ℝ)) : TState := xfs.foldl (fun s x => s.push.compose x) m

mutual
/-- Made of groups and basic shapes: no shapes with holes. -/
def NoHoles : Elem → Prop
  | .group _ _ es => NoHolesAll es
  | .holes _ _ _ => False
  | .curve _ _ => True
  | .rect _ _ _ => True
  | .rrect _ _ _ _ => True
  | .ellipse _ _ _ => True
def NoHolesAll : List (Str × Elem) → Prop
  | [] => True
  | (_, e) :: rest => NoHoles e ∧ NoHolesAll rest
end

end X7.Iter
