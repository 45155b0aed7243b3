import Verif.Model.Display

/-!
Words for C100: the elements of a tree in the order in which they are read, with their depth, and how many lines an element has of its own.
-/

namespace X7.Disp

open Dump

mutual
/-- `Outline e w`: `w` lists `e` and everything below it, each with its indentation: an element comes before what it holds, the elements of
a group in the order of their keys (2 spaces further in), outside before inside (4 spaces further in). -/
inductive Outline : DElem → List (ℕ × DElem) → Prop
  | curve (h cps) : Outline (.curve h cps) [(0, .curve h cps)]
  | rect (h p q) : Outline (.rect h p q) [(0, .rect h p q)]
  | rrect (h p q r) : Outline (.rrect h p q r) [(0, .rrect h p q r)]
  | ellipse (h p q) : Outline (.ellipse h p q) [(0, .ellipse h p q)]
  | group (h hidden elems points) (es : List (Str × DElem)) (w : List (ℕ × DElem)) : es.Perm elems → es.Pairwise (fun x y => x.1 ≤ y.1) → OutlineAll (es.map Prod.snd) w →
      Outline (.group h hidden elems points) ((0, .group h hidden elems points) :: w.map fun x => (x.1 + 2, x.2))
  | holes (h outside inside) (w : List (ℕ × DElem)) : OutlineAll (outside :: inside) w →
      Outline (.holes h outside inside) ((0, .holes h outside inside) :: w.map fun x => (x.1 + 4, x.2))
/-- The outlines of a list of elements, one after the other. -/
inductive OutlineAll : List DElem → List (ℕ × DElem) → Prop
  | nil : OutlineAll [] []
  | cons (e es) (w v : List (ℕ × DElem)) : Outline e w → OutlineAll es v → OutlineAll (e :: es) (w ++ v)
end

/-- `Reordered e e'`: they differ only in the order in which the entries of dicts were made, at any depth. -/
inductive Reordered : DElem → DElem → Prop
  | refl (e) : Reordered e e
  | trans (a b c) : Reordered a b → Reordered b c → Reordered a c
  | dicts (h hidden) (elems elems' : List (Str × DElem)) (points points' : List (Str × DPt)) : elems.Perm elems' →
      (elems.map Prod.fst).Nodup → points.Perm points' → (points.map Prod.fst).Nodup →
      Reordered (.group h hidden elems points) (.group h hidden elems' points')
  | entry (h hidden) (l : List (Str × DElem)) (k e e') (r : List (Str × DElem)) (points) : Reordered e e' →
      Reordered (.group h hidden (l ++ (k, e) :: r) points) (.group h hidden (l ++ (k, e') :: r) points)
  | outside (h e e' inside) : Reordered e e' → Reordered (.holes h e inside) (.holes h e' inside)
  | inside (h outside) (l : List DElem) (e e') (r : List DElem) : Reordered e e' →
      Reordered (.holes h outside (l ++ e :: r)) (.holes h outside (l ++ e' :: r))

/-- The number of lines an element has of its own, next to its heading. -/
noncomputable def extra (detail : Bool) : DElem → ℕ
  | .curve _ cps => if detail then 1 + cps.length else 0
  | .rect _ _ _ => if detail then 1 else 0
  | .rrect _ _ _ _ => if detail then 1 else 0
  | .ellipse _ _ _ => if detail then 1 else 0
  | .group h _ _ points => (open scoped Classical in if h.xf = Mat3.one then 0 else 1) + points.length
  | .holes h _ _ => (open scoped Classical in if h.xf = Mat3.one then 0 else 1) + 2

/-- `n` spaces. -/
def spaces (n : ℕ) : Str := List.replicate n ' '

end X7.Disp
