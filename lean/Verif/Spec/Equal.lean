import Verif.Model.Dump
import Verif.Spec.Dump
import Verif.Model.Elem

/-!
What C74 says about `==`.
-/

noncomputable section

namespace X7.Dump

/-- One element can be turned into the other by swapping neighbouring entries of the dicts of groups, anywhere inside. Everything else is
the same. -/
inductive Reorder : DElem → DElem → Prop
  | refl (d) : Reorder d d
  | trans {a b c} : Reorder a b → Reorder b c → Reorder a c
  | elems (h hid a x y b ps) : Reorder (.group h hid (a ++ x :: y :: b) ps) (.group h hid (a ++ y :: x :: b) ps)
  | points (h hid es a x y b) : Reorder (.group h hid es (a ++ x :: y :: b)) (.group h hid es (a ++ y :: x :: b))
  | member (h hid a k b ps) {d d'} : Reorder d d' → Reorder (.group h hid (a ++ (k, d) :: b) ps) (.group h hid (a ++ (k, d') :: b) ps)
  | outside (h is) {d d'} : Reorder d d' → Reorder (.holes h d is) (.holes h d' is)
  | hole (h o a b) {d d'} : Reorder d d' → Reorder (.holes h o (a ++ d :: b)) (.holes h o (a ++ d' :: b))

mutual
/-- The keys of every dict are distinct, as in all dicts. -/
def Keys : DElem → Prop
  | .group _ _ es ps => (es.map Prod.fst).Nodup ∧ (ps.map Prod.fst).Nodup ∧ KeysAll es
  | .holes _ o is => Keys o ∧ KeysIn is
  | _ => True
def KeysAll : List (Str × DElem) → Prop
  | [] => True
  | (_, e) :: rest => Keys e ∧ KeysAll rest
def KeysIn : List DElem → Prop
  | [] => True
  | e :: rest => Keys e ∧ KeysIn rest
end

/-- The position of a point. -/
def DPt.pos (p : DPt) : Pt ℝ := ⟨p.xy.1, p.xy.2⟩

/-- geom.py:246-247 the coordinates of a vector. -/
def DVec.val : DVec → Vec ℝ
  | .vec x y => ⟨x, y⟩
  | .rel p q => p.pos.sub q.pos

def DCp.plain (c : DCp) : CP ℝ := ⟨c.c.pos, c.dl.val, c.dr.val, String.ofList c.kind⟩

mutual
/-- The element as drawing sees it: positions instead of point objects. -/
def DElem.plain : DElem → Elem
  | .curve h cps => .curve ⟨h.name, h.pb, h.closed, h.xf⟩ (cps.map DCp.plain)
  | .rect h p q => .rect ⟨h.name, h.pb, h.closed, h.xf⟩ p.pos q.pos
  | .rrect h p q r => .rrect ⟨h.name, h.pb, h.closed, h.xf⟩ p.pos q.pos r
  | .ellipse h p q => .ellipse ⟨h.name, h.pb, h.closed, h.xf⟩ p.pos q.pos
  | .group h hid es _ => .group ⟨h.name, h.pb, h.closed, h.xf⟩ hid (plainAll es)
  | .holes h o is => .holes ⟨h.name, h.pb, h.closed, h.xf⟩ o.plain (plainIn is)
def plainAll : List (Str × DElem) → List (Str × Elem)
  | [] => []
  | (k, e) :: rest => (k, e.plain) :: plainAll rest
def plainIn : List DElem → List Elem
  | [] => []
  | e :: rest => e.plain :: plainIn rest
end

mutual
/-- No groups in it. -/
def NoGroups : DElem → Prop
  | .group _ _ _ _ => False
  | .holes _ o is => NoGroups o ∧ NoGroupsIn is
  | _ => True
def NoGroupsIn : List DElem → Prop
  | [] => True
  | e :: rest => NoGroups e ∧ NoGroupsIn rest
end

mutual
/-- No holes made of groups. -/
def PlainHoles : DElem → Prop
  | .group _ _ es _ => PlainHolesAll es
  | .holes _ o is => PlainHoles o ∧ NoGroupsIn is
  | _ => True
def PlainHolesAll : List (Str × DElem) → Prop
  | [] => True
  | (_, e) :: rest => PlainHoles e ∧ PlainHolesAll rest
end

mutual
/-- No shape with holes has a group as, or in, its outside. -/
def PlainOutsides : DElem → Prop
  | .group _ _ es _ => PlainOutsidesAll es
  | .holes _ o is => NoGroups o ∧ PlainOutsidesIn is
  | _ => True
def PlainOutsidesAll : List (Str × DElem) → Prop
  | [] => True
  | (_, e) :: rest => PlainOutsides e ∧ PlainOutsidesAll rest
def PlainOutsidesIn : List DElem → Prop
  | [] => True
  | e :: rest => PlainOutsides e ∧ PlainOutsidesIn rest
end

mutual
/-- The element with unnamed points in the place of positions, to be compared by `==`. -/
def obj : Elem → DElem
  | .curve h cps => .curve ⟨h.name, h.pb, h.closed, h.xf⟩
      (cps.map fun c => ⟨.point c.c.x c.c.y none, .vec c.dl.x c.dl.y, .vec c.dr.x c.dr.y, c.kind.toList⟩)
  | .rect h p q => .rect ⟨h.name, h.pb, h.closed, h.xf⟩ (.point p.x p.y none) (.point q.x q.y none)
  | .rrect h p q r => .rrect ⟨h.name, h.pb, h.closed, h.xf⟩ (.point p.x p.y none) (.point q.x q.y none) r
  | .ellipse h p q => .ellipse ⟨h.name, h.pb, h.closed, h.xf⟩ (.point p.x p.y none) (.point q.x q.y none)
  | .group h hid es => .group ⟨h.name, h.pb, h.closed, h.xf⟩ hid (objAll es) []
  | .holes h o is => .holes ⟨h.name, h.pb, h.closed, h.xf⟩ (obj o) (objIn is)
def objAll : List (Str × Elem) → List (Str × DElem)
  | [] => []
  | (k, e) :: rest => (k, obj e) :: objAll rest
def objIn : List Elem → List DElem
  | [] => []
  | e :: rest => obj e :: objIn rest
end

end X7.Dump
