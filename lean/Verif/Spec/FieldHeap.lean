import Verif.Model.FieldHeap

/-! What C80 says about histories of vector fields, apart from the code. -/

namespace X7.VF

/-- The operation looks something up in field `f`. -/
def FOp.LooksUp (f : ℕ) : FOp → Prop
  | .lookup g _ _ => g = f
  | _ => False

/-- The operation assigns to an attribute of field `f`. -/
def FOp.Assigns (f : ℕ) : FOp → Prop
  | .setVx g _ => g = f
  | .setVy g _ => g = f
  | _ => False

/-- The operation changes array `a` in place. -/
def FOp.Changes (a : ℕ) : FOp → Prop
  | .poke b _ _ _ => b = a
  | _ => False

/-- The states a program can reach. -/
def FSt.Reachable (copies : Bool) (s : FSt) : Prop := ∃ ops, s = FSt.empty.run copies ops

end X7.VF
