import Mathlib.Algebra.Order.Field.Basic
import Mathlib.Algebra.Ring.Parity
import Verif.Model.Vec

/-! What rounding to `n` decimals means. -/

namespace X7.RSpec
variable {K : Type*} [Field K] [LinearOrder K] [IsStrictOrderedRing K]

/-- `r` has at most `n` decimals. -/
def OnGrid (n : ℤ) (r : K) : Prop := ∃ k : ℤ, r * 10 ^ n = k

/-- `r` is the number with `n` decimals nearest to `x`; of two equally near ones the one with an even last digit. -/
def Nearest (n : ℤ) (x r : K) : Prop :=
  ∃ k : ℤ, r * 10 ^ n = k ∧ |x * 10 ^ n - k| ≤ 1 / 2 ∧ (|x * 10 ^ n - k| = 1 / 2 → Even k)

/-- Two points differ by at most `d` in each coordinate. -/
def Within (d : K) (p q : Pt K) : Prop := |p.x - q.x| ≤ d ∧ |p.y - q.y| ≤ d

/-- Both coordinates have at most `n` decimals. -/
def GridPt (n : ℤ) (p : Pt K) : Prop := OnGrid n p.x ∧ OnGrid n p.y

end X7.RSpec
