import Verif.Py.Basic

/-!
Model of `BasePoint.parse` (x7/geom/geom.py 348-386). An input element is a number, a point object, a tuple of anything, or
some other object. `isinstance` tests are tags; the contents of numbers, points and other objects stay opaque.
-/

namespace X7.Parse

/-- Elements of the input. `N` numbers, `P` point objects, `X` any other object. -/
inductive Item (N P X : Type*)
  | num (n : N)
  | pt (p : P)
  | tup (vs : List (Item N P X))
  | other (x : X)

/-- geom.py:348-386 `BasePoint.parse(pts, allow_thruples)`. `a :: rest` is the iterator; `next(it)` in the number branch
takes the following element. An output `(a, y)` is a tuple of two numbers. -/
def parse {N P X : Type*} (allow : Bool) : List (Item N P X) → Except PyErr (List (Item N P X))
  | [] => .ok []
  | .num a :: rest =>
    match rest with
    | [] => .error .value                       -- StopIteration -> ValueError
    | .num y :: rest' =>
      match parse allow rest' with
      | .ok out => .ok (.tup [.num a, .num y] :: out)
      | .error e => .error e
    | _ :: _ => .error .value
  | .pt p :: rest =>
    match parse allow rest with
    | .ok out => .ok (.pt p :: out)
    | .error e => .error e
  | .tup vs :: rest =>
    if (if allow then vs.length = 2 ∨ vs.length = 3 else vs.length = 2) then
      match parse allow rest with
      | .ok out => .ok (.tup vs :: out)
      | .error e => .error e
    else .error .value
  | .other _ :: _ => .error .value

end X7.Parse
