import Verif.Model.PointHeap

namespace X7.PH
variable {K : Type*} [Field K]

/-- What reading a point means: `Reads h i p`, object `i` is at position `p` now. -/
inductive Reads (h : Heap K) : ℕ → Pt K → Prop
  | point {i x y n} : h[i]? = some (.point x y n) → Reads h i ⟨x, y⟩
  | rel {i dx dy b n p} : h[i]? = some (.rel dx dy b n) → Reads h b p → Reads h i ⟨p.x + dx, p.y + dy⟩
  | pcalc {i r s n dx dy b n' p} : h[i]? = some (.pcalc r s n) → h[r]? = some (.rel dx dy b n') → Reads h b p →
      Reads h i ⟨p.x + s * dx, p.y + s * dy⟩

/-- `Depends h j i`: the position of point `j` is chained on the plain point `i`. -/
inductive Depends (h : Heap K) : ℕ → ℕ → Prop
  | point {i x y n} : h[i]? = some (.point x y n) → Depends h i i
  | rel {i dx dy b n k} : h[i]? = some (.rel dx dy b n) → Depends h b k → Depends h i k
  | pcalc {i r s n dx dy b n' k} : h[i]? = some (.pcalc r s n) → h[r]? = some (.rel dx dy b n') → Depends h b k →
      Depends h i k

/-- A point whose chain contains a PointCalc built on a PointCalc. -/
inductive Broken (h : Heap K) : ℕ → Prop
  | pcalc {i r s n b s' n'} : h[i]? = some (.pcalc r s n) → h[r]? = some (.pcalc b s' n') → Broken h i
  | rel {i dx dy b n} : h[i]? = some (.rel dx dy b n) → Broken h b → Broken h i
  | pcalcRel {i r s n dx dy b n'} : h[i]? = some (.pcalc r s n) → h[r]? = some (.rel dx dy b n') → Broken h b → Broken h i

/-- The calls that mutate object `i` (its own coordinates, delta or scale). -/
def Mutates (i : ℕ) : POp K → Prop
  | .setXY j _ _ => j = i
  | .setFrom j _ => j = i
  | .setDelta j _ _ => j = i
  | .setScale j _ => j = i
  | _ => False

end X7.PH
