import Verif.Model.GroupLook
import Verif.Spec.GroupHeap
import Verif.Spec.ElemNames

noncomputable section

namespace X7.GL
open X7.GH

/-- The object reached from `g` by going down along keys. -/
def follow (w : World) : ℕ → List Str → Option ℕ
  | i, [] => some i
  | i, k :: ks =>
    match elems w i with
    | some es =>
      match es.find? fun x => x.1 = k with
      | some (_, j) => follow w j ks
      | none => none
    | none => none

/-- The items of a generator with their elements as values. -/
def values (f : ℕ → Option Elem) : List Item' → Option (List Elem.Yield)
  | [] => some []
  | y :: ys =>
    match f y.obj, values f ys with
    | some t, some ts => some (⟨y.name, t, y.mat⟩ :: ts)
    | _, _ => none

/-- A group with elements `es` has an element equal to `e`. -/
def Match (w : World) (e : ℕ) (es : List (Str × ℕ)) : Prop := ∃ x ∈ es, same w x.2 e = true

/-- Object `r` named `rn` can take the place of what is equal to `e` in a group with elements `es`: there is at most one such element, and if
there is one, the name has no dot and is not the key of another element. -/
def Fits (w : World) (e : ℕ) (rn : Str) (es : List (Str × ℕ)) : Prop :=
  ∀ x ∈ es, same w x.2 e = true → hasDot rn = false ∧ ∀ y ∈ es, y ≠ x → same w y.2 e = false ∧ y.1 ≠ rn

open Classical in
/-- The elements of a group afterwards: those equal to `e` are gone, and if there was one, `r` is at the end. -/
def after (w : World) (e r : ℕ) (rn : Str) (es : List (Str × ℕ)) : List (Str × ℕ) :=
  if Match w e es then (es.filter fun x => !same w x.2 e) ++ [(rn, r)] else es

/-- The groups in object `g`, at any depth, `g` included, which have an element equal to `e`. -/
def Affected (w : World) (e g : ℕ) : Set ℕ := {i | Within w g i ∧ ∃ es, elems w i = some es ∧ Match w e es}

open Classical in
/-- The objects `w'` are the objects `w` after `e` has been replaced by `r` in the groups in `g`, at any depth: those have lost what was equal to
`e` and, if there was something, have `r` at the end; nothing else has changed. -/
def Replaced (w : World) (g e r : ℕ) (rn : Str) (w' : World) : Prop :=
  w'.xfs = w.xfs ∧ w'.items.length = w.items.length ∧
  ∀ (i : ℕ) (it : Item), w.items[i]? = some it → ∃ it' : Item, w'.items[i]? = some it' ∧ it'.name = it.name ∧ it'.pb = it.pb ∧ it'.xf = it.xf ∧
    (∀ l, it.body = .leaf l → it'.body = .leaf l) ∧
    ∀ hd es, it.body = .group hd es → it'.body = .group hd (if Within w g i then after w e r rn es else es)

end X7.GL
