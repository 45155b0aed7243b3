import Verif.Spec.Builder
import Verif.Spec.Equal

/-!
Drawings made with `GroupBuilder`, written with `dump` and read back.
-/

noncomputable section

namespace X7.Build

open Dump

/-- The group object `g` with everything in it, points included, looking at most `fuel` levels deep. Points have no names of their own. -/
def objTree (st : BState) : ℕ → ℕ → DElem
  | 0, g =>
    let o := st.obj g
    .group ⟨o.hdr.name, o.hdr.pb, o.hdr.closed, o.hdr.xf⟩ o.hidden [] (o.points.map fun x => (x.1, .point x.2.x x.2.y none))
  | n + 1, g =>
    let o := st.obj g
    .group ⟨o.hdr.name, o.hdr.pb, o.hdr.closed, o.hdr.xf⟩ o.hidden
      (o.items.map fun x => (x.1, match x.2 with | .leaf e => obj e | .grp g' => objTree st n g'))
      (o.points.map fun x => (x.1, .point x.2.x x.2.y none))

/-- `builder.the_group`, points included. -/
def theObj (st : BState) (b : GB) : DElem := objTree st st.next b.group

/-- Elements made outside of the builder are such as `dump` can write. -/
def BOp.Writable : BOp → Prop
  | .add _ _ e => (obj e).Ok
  | .rotate _ e _ _ _ => (obj e).Ok
  | _ => True

mutual
/-- The entries of the group, and of all groups in it, are in the order of their keys. -/
def InOrder : Elem → Prop
  | .group _ _ es => (es.map Prod.fst).Pairwise (· ≤ ·) ∧ InOrderAll es
  | _ => True
def InOrderAll : List (Str × Elem) → Prop
  | [] => True
  | (_, e) :: rest => InOrder e ∧ InOrderAll rest
end

end X7.Build
