import Verif.Model.Parse

namespace X7.Parse
variable {N P X : Type*}

/-- The well-formed inputs and what they stand for: one output per number pair, point or tuple, in order. -/
inductive Good (allow : Bool) : List (Item N P X) → List (Item N P X) → Prop
  | nil : Good allow [] []
  | pair (a y : N) {rest out} : Good allow rest out → Good allow (.num a :: .num y :: rest) (.tup [.num a, .num y] :: out)
  | point (p : P) {rest out} : Good allow rest out → Good allow (.pt p :: rest) (.pt p :: out)
  | tuple2 (v w : Item N P X) {rest out} : Good allow rest out → Good allow (.tup [v, w] :: rest) (.tup [v, w] :: out)
  | tuple3 (u v w : Item N P X) {rest out} : allow = true → Good allow rest out →
      Good allow (.tup [u, v, w] :: rest) (.tup [u, v, w] :: out)

/-- The values of an input or output, flattened: numbers stand for themselves, tuples for their elements. -/
def flat : List (Item N P X) → List (Item N P X)
  | [] => []
  | .tup vs :: rest => vs ++ flat rest
  | i :: rest => i :: flat rest

end X7.Parse
