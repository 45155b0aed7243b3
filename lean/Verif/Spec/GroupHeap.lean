import Verif.Model.GroupHeap
import Verif.Spec.ElemNames
import Verif.Spec.Elem
import Mathlib.Logic.Relation

noncomputable section

namespace X7.GH
open Relation

/-- Object `j` is an element of group `i`. -/
def Child (w : World) (i j : ℕ) : Prop := ∃ it hd es k, w.items[i]? = some it ∧ it.body = .group hd es ∧ (k, j) ∈ es

/-- The same, but the group is not hidden. -/
def Shown (w : World) (i j : ℕ) : Prop := ∃ it es k, w.items[i]? = some it ∧ it.body = .group false es ∧ (k, j) ∈ es

/-- `j` is `i`, or in it, or in a group in it, and so on. -/
def Within (w : World) (i j : ℕ) : Prop := ReflTransGen (Child w) i j

/-- The same along groups which are not hidden. -/
def InView (w : World) (i j : ℕ) : Prop := ReflTransGen (Shown w) i j

/-- No group is in itself, at any depth. -/
def Acyclic (w : World) : Prop := ∀ i, ¬ TransGen (Child w) i i

/-- Object `g` is a group: hidden or not, with elements `es`, and its transform has matrix `x`. -/
def Holds (w : World) (g : ℕ) (hidden : Bool) (es : List (Str × ℕ)) (x : Mat3 ℝ) : Prop :=
  ∃ it, w.items[g]? = some it ∧ it.body = .group hidden es ∧ w.xfs[it.xf]? = some x

/-- Objects `i` and `j` have the same transform object. -/
def SameXf (w : World) (i j : ℕ) : Prop := ∃ a b, w.items[i]? = some a ∧ w.items[j]? = some b ∧ a.xf = b.xf

/-- What `i` draws on a canvas with matrix `m`. -/
def pic (cfg : DCfg) (w : World) (n i : ℕ) (m : Mat3 ℝ) : Except PyErr (List Path) := (draw cfg w n i ⟨m, none, []⟩).2

/-- The elements of a group as values. -/
def kids (f : ℕ → Option Elem) : List (Str × ℕ) → Option (List (Str × Elem))
  | [] => some []
  | (k, i) :: rest =>
    match f i, kids f rest with
    | some e, some es => some ((k, e) :: es)
    | _, _ => none

/-- The tree which hangs on object `i`, as a value; `none` if it is deeper than `n`. -/
def tree (w : World) : ℕ → ℕ → Option Elem
  | 0, _ => none
  | n + 1, i =>
    match w.items[i]? with
    | none => none
    | some it =>
      match w.xfs[it.xf]? with
      | none => none
      | some m =>
        match it.body with
        | .leaf l => some (leafElem it.name it.pb m l)
        | .group hidden es => (kids (tree w n) es).map (Elem.group ⟨it.name, it.pb, false, m⟩ hidden)

/-- The call changes how object `j` itself is drawn, or the transform object it has. Renaming does not. -/
def Writes (w : World) (j : ℕ) : Op → Prop
  | .add g _ _ _ => j = g
  | .setXf i _ => SameXf w j i
  | .setHidden g _ => j = g
  | .edit i _ _ _ _ => j = i
  | .restoreGroup g _ => j = g
  | _ => False

/-- No call of the history writes object `j`. -/
def Spared (j : ℕ) : World → List Op → Prop
  | _, [] => True
  | w, op :: ops => ¬ Writes w j op ∧ Spared j (step w op).1 ops

/-- No call of the history writes an object which `i` shows at that moment. -/
def SparedView (i : ℕ) : World → List Op → Prop
  | _, [] => True
  | w, op :: ops => (∀ j, InView w i j → ¬ Writes w j op) ∧ SparedView i (step w op).1 ops

/-- The call renames no element of a group, and no element is added under an empty name. -/
def KeepsNames (w : World) (op : Op) : Prop :=
  (∀ j it it', w.items[j]? = some it → (step w op).1.items[j]? = some it' → (∃ g, Child w g j) → it'.name = it.name) ∧
  ∀ g name e fix it', op = .add g name e fix → (step w op).1.items[e]? = some it' → it'.name ≠ []

/-- The same for a history. -/
def KeepAllNames : World → List Op → Prop
  | _, [] => True
  | w, op :: ops => KeepsNames w op ∧ KeepAllNames (step w op).1 ops

/-- The call does not put a group into itself. -/
def NoLoop (w : World) : Op → Prop
  | .add g _ e _ => ¬ Within w e g
  | .restoreGroup g h => ∀ c, Child w h c → ¬ Within w c g
  | _ => True

/-- The same for a history. -/
def NoLoops : World → List Op → Prop
  | _, [] => True
  | w, op :: ops => NoLoop w op ∧ NoLoops (step w op).1 ops

end X7.GH
