import Verif.Model.ElemNames

/-!
Specification of names in trees of elements.
-/

namespace X7.Elem

/-- Components joined by dots. -/
def joinDots : List Str → Str
  | [] => []
  | [c] => c
  | c :: rest => c ++ '.' :: joinDots rest

mutual
/-- Every element of a tree that is not a group, in order, with the components of its name and the transforms around it from the
outside in. The parts of a shape with holes are listed under its name, an empty component, and `outside` or `inside`. -/
def parts : Elem → List (List Str × List (Mat3 ℝ) × Elem)
  | .curve h x => [([h.name], [], .curve h x)]
  | .rect h x y => [([h.name], [], .rect h x y)]
  | .rrect h x y z => [([h.name], [], .rrect h x y z)]
  | .ellipse h x y => [([h.name], [], .ellipse h x y)]
  | .group h _ es => (partsAll es).map fun p => (h.name :: p.1, h.xf :: p.2.1, p.2.2)
  | .holes h o i =>
    ((parts o).map fun p => (h.name :: [] :: "outside".toList :: p.1, h.xf :: p.2.1, p.2.2)) ++
      (partsIn i).map fun p => (h.name :: [] :: "inside".toList :: p.1, h.xf :: p.2.1, p.2.2)
def partsAll : List (Str × Elem) → List (List Str × List (Mat3 ℝ) × Elem)
  | [] => []
  | (_, e) :: rest => parts e ++ partsAll rest
def partsIn : List Elem → List (List Str × List (Mat3 ℝ) × Elem)
  | [] => []
  | e :: rest => parts e ++ partsIn rest
end

mutual
/-- Groups and shapes with holes have non-empty names. -/
def Named : Elem → Prop
  | .group h _ es => h.name ≠ [] ∧ NamedAll es
  | .holes h o i => h.name ≠ [] ∧ Named o ∧ NamedIn i
  | .curve _ _ => True
  | .rect _ _ _ => True
  | .rrect _ _ _ _ => True
  | .ellipse _ _ _ => True
def NamedAll : List (Str × Elem) → Prop
  | [] => True
  | (_, e) :: rest => Named e ∧ NamedAll rest
def NamedIn : List Elem → Prop
  | [] => True
  | e :: rest => Named e ∧ NamedIn rest
end

mutual
/-- What `Group.add` keeps up (C42): in every group the keys are distinct, dot-free and the names of the elements; they are not
empty; and there are no shapes with holes. -/
def Keyed : Elem → Prop
  | .group _ _ es => (es.map Prod.fst).Nodup ∧ KeyedAll es
  | .holes _ _ _ => False
  | .curve _ _ => True
  | .rect _ _ _ => True
  | .rrect _ _ _ _ => True
  | .ellipse _ _ _ => True
def KeyedAll : List (Str × Elem) → Prop
  | [] => True
  | (k, e) :: rest => (k = e.hdr.name ∧ k ≠ [] ∧ '.' ∉ k ∧ Keyed e) ∧ KeyedAll rest
end

mutual
/-- The element reached from a group by going down along keys. -/
def find : Elem → List Str → Option Elem
  | .group h hidden es, [] => some (.group h hidden es)
  | .group _ _ es, k :: ks => findAll es k ks
  | e, [] => some e
  | _, _ :: _ => none
def findAll : List (Str × Elem) → Str → List Str → Option Elem
  | [], _, _ => none
  | (k', e) :: rest, k, ks => if k' = k then find e ks else findAll rest k ks
end

mutual
/-- How many elements below `e` are to be replaced (not looking inside those). -/
def hits (same : Elem → Bool) : Elem → ℕ
  | .group _ _ es => hitsAll same es
  | .curve _ _ => 0
  | .rect _ _ _ => 0
  | .rrect _ _ _ _ => 0
  | .ellipse _ _ _ => 0
  | .holes _ _ _ => 0
def hitsAll (same : Elem → Bool) : List (Str × Elem) → ℕ
  | [] => 0
  | (_, e) :: rest => (if same e then 1 else hits same e) + hitsAll same rest
end

mutual
/-- The tree with every hit replaced: it leaves its group, the replacement comes last. -/
def replaced (same : Elem → Bool) (r : Elem) : Elem → Elem
  | .group h hidden es => .group h hidden (kept same r es ++ if es.any (fun x => same x.2) then [(r.hdr.name, r)] else [])
  | .curve h x => .curve h x
  | .rect h x y => .rect h x y
  | .rrect h x y z => .rrect h x y z
  | .ellipse h x y => .ellipse h x y
  | .holes h o i => .holes h o i
def kept (same : Elem → Bool) (r : Elem) : List (Str × Elem) → List (Str × Elem)
  | [] => []
  | (k, e) :: rest => if same e then kept same r rest else (k, replaced same r e) :: kept same r rest
end

mutual
/-- No group has two hits, the name of the replacement is free in each group with a hit and has no dot, and no shape with holes
has to be looked into. -/
def Replaceable (same : Elem → Bool) (r : Elem) : Elem → Prop
  | .group _ _ es => (es.map Prod.fst).Nodup ∧ (es.filter fun x => same x.2).length ≤ 1 ∧
      ((∃ x ∈ es, same x.2 = true) → '.' ∉ r.hdr.name ∧ ∀ x ∈ es, same x.2 = false → x.1 ≠ r.hdr.name) ∧ ReplaceableAll same r es
  | .curve _ _ => True
  | .rect _ _ _ => True
  | .rrect _ _ _ _ => True
  | .ellipse _ _ _ => True
  | .holes _ _ _ => False
def ReplaceableAll (same : Elem → Bool) (r : Elem) : List (Str × Elem) → Prop
  | [] => True
  | (_, e) :: rest => (same e = false → Replaceable same r e) ∧ ReplaceableAll same r rest
end

end X7.Elem
