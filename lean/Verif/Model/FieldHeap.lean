import Mathlib.Logic.Function.Basic
import Verif.Model.VecField

/-!
Model of `VectorField` (x7/geom/vec_field.py) with fields and arrays as objects: fields can share arrays, arrays are changed in place, the
attributes `vx` and `vy` are assigned to, and the interpolators are made at the first lookup and kept (65-72). `Mesh.__eq__`,
`VectorField.__eq__` (22-28, 52-56) and `Mesh.uniform` (33-39) are here too.

All arrays have the shape of the mesh. A mesh is a value: nothing assigns to its attributes.
-/

noncomputable section

open Classical

namespace X7.VF

/-- The contents of an array. -/
abbrev Arr := ℕ → ℕ → ℝ

/-- What an interpolator reads: the array object itself, or a copy made when it was created. It depends on the version of scipy which one. -/
inductive Interp
  | ref (a : ℕ)
  | snap (v : Arr)

/-- vec_field.py:45-50 the attributes of a `VectorField`; `interp_x` and `interp_y` are set together. -/
structure FObj where
  mesh : Mesh
  vx : ℕ
  vy : ℕ
  cache : Option (Interp × Interp)

/-- The heap: arrays `0 .. next - 1`, fields `0 .. nf - 1`. -/
structure FSt where
  arr : ℕ → Arr
  next : ℕ
  fld : ℕ → FObj
  nf : ℕ

/-- Before a program runs. -/
def FSt.empty : FSt := ⟨fun _ _ _ => 0, 0, fun _ => ⟨⟨0, 0, 0, 0, 0⟩, 0, 0, none⟩, 0⟩

/-- The vectors of a field, as `f.vx` and `f.vy` show them. -/
def FSt.vectors (s : FSt) (f : ℕ) : Field := ⟨(s.fld f).mesh, s.arr (s.fld f).vx, s.arr (s.fld f).vy⟩

/-- A new array. -/
def FSt.newArr (s : FSt) (v : Arr) : FSt := { s with arr := Function.update s.arr s.next v, next := s.next + 1 }

/-- vec_field.py:45-50 `VectorField(mesh, vx, vy)` over two arrays. -/
def FSt.newFld (s : FSt) (m : Mesh) (ax ay : ℕ) : FSt := { s with fld := Function.update s.fld s.nf ⟨m, ax, ay, none⟩, nf := s.nf + 1 }

/-- A new field with two new arrays. -/
def FSt.newBoth (s : FSt) (g : Field) : FSt := ((s.newArr g.vx).newArr g.vy).newFld g.mesh s.next (s.next + 1)

/-- The methods that return a new field. -/
inductive Derive
  | copy
  | normalized
  | smoothed
  | scaled (sx : ℝ) (sy : Option ℝ)

/-- vec_field.py:58-59, 102-134 what they return; `none` for an exception or a field of `nan`s. -/
def Derive.apply (f : Field) : Derive → Option Field
  | .copy => some f
  | .normalized => match f.normalized with | .ok r => r | .error _ => none
  | .smoothed => match f.smoothed with | .ok r => r | .error _ => none
  | .scaled sx sy => some (f.scaled sx sy)

/-- What a program does with arrays and fields. -/
inductive FOp
  /-- a new array -/
  | array (v : Arr)
  /-- `mesh.zeros()`, `VectorField(mesh)` -/
  | zeros (m : Mesh)
  /-- `VectorField(mesh, vx, vy)` -/
  | field (m : Mesh) (ax ay : ℕ)
  /-- `f.copy()`, `f.normalized()`, … -/
  | derive (f : ℕ) (d : Derive)
  /-- `a[i, j] = v` -/
  | poke (a i j : ℕ) (v : ℝ)
  /-- `f.vx = a` -/
  | setVx (f a : ℕ)
  /-- `f.vy = a` -/
  | setVy (f a : ℕ)
  /-- `f.lookup(x, y)` -/
  | lookup (f : ℕ) (x y : ℝ)

/-- What an interpolator reads now. -/
def FSt.vals (s : FSt) : Interp → Arr
  | .ref a => s.arr a
  | .snap v => v

/-- A new interpolator; `copies`: does scipy copy the values? -/
def FSt.mkInterp (s : FSt) (copies : Bool) (a : ℕ) : Interp := if copies then .snap (s.arr a) else .ref a

/-- vec_field.py:65-77 `lookup(x, y)`: an interpolator is an object, so `not self.interp_x` tests for None. Making an interpolator fails
as in `Field.lookup`. -/
def FSt.lookup (copies : Bool) (s : FSt) (f : ℕ) (x y : ℝ) : FSt × Except PyErr (Vec ℝ) :=
  let o := s.fld f
  let m := o.mesh
  match o.cache with
  | some (ix, iy) => (s, .ok ⟨interp m.cx m.cy m.n (s.vals ix) x y, interp m.cx m.cy m.n (s.vals iy) x y⟩)
  | none =>
    if m.n < 2 ∨ m.xh ≤ m.xl ∨ m.yh ≤ m.yl then (s, .error .value)
    else
      let ix := s.mkInterp copies o.vx
      let iy := s.mkInterp copies o.vy
      ({ s with fld := Function.update s.fld f { o with cache := some (ix, iy) } },
       .ok ⟨interp m.cx m.cy m.n (s.vals ix) x y, interp m.cx m.cy m.n (s.vals iy) x y⟩)

/-- One operation; operations on objects that do not exist are ignored. -/
def FSt.step (copies : Bool) (s : FSt) : FOp → FSt
  | .array v => s.newArr v
  | .zeros m => s.newBoth m.zeros
  | .field m ax ay => if ax < s.next ∧ ay < s.next then s.newFld m ax ay else s
  | .derive f d =>
    if f < s.nf then
      match d.apply (s.vectors f) with
      | some g => s.newBoth g
      | none => s
    else s
  | .poke a i j v => if a < s.next then { s with arr := Function.update s.arr a (Function.update (s.arr a) i (Function.update (s.arr a i) j v)) } else s
  | .setVx f a => if f < s.nf ∧ a < s.next then { s with fld := Function.update s.fld f { s.fld f with vx := a } } else s
  | .setVy f a => if f < s.nf ∧ a < s.next then { s with fld := Function.update s.fld f { s.fld f with vy := a } } else s
  | .lookup f x y => if f < s.nf then (s.lookup copies f x y).1 else s

/-- A program. -/
def FSt.run (copies : Bool) (s : FSt) (ops : List FOp) : FSt := ops.foldl (FSt.step copies) s

/-- vec_field.py:22-28 `Mesh.__eq__`: box, steps, and the arrays made from them. -/
def Mesh.eqv (m m' : Mesh) : Bool :=
  decide (m.xl = m'.xl ∧ m.yl = m'.yl ∧ m.xh = m'.xh ∧ m.yh = m'.yh) && decide (m.n = m'.n) &&
    decide (∀ i < m.n, m.cx i = m'.cx i) && decide (∀ i < m.n, m.cy i = m'.cy i) &&
    decide (∀ i < m.n, ∀ j < m.n, m.gridXY i j = m'.gridXY i j)

/-- vec_field.py:52-56 `VectorField.__eq__`. -/
def Field.eqv (f g : Field) : Bool :=
  f.mesh.eqv g.mesh && decide (∀ i < f.mesh.n, ∀ j < f.mesh.n, f.vx i j = g.vx i j) &&
    decide (∀ i < f.mesh.n, ∀ j < f.mesh.n, f.vy i j = g.vy i j)

/-- vec_field.py:33-39 `uniform(magnitude)`. `u` is the sequence of results of `random.random()`; `random.uniform(a, b)` is
`a + (b - a) * random()`. The values are used row by row, `vx` before `vy`. -/
def Mesh.uniform (m : Mesh) (u : ℕ → ℝ) (magnitude : ℝ) : Field :=
  let uni := fun k => -magnitude + (magnitude - -magnitude) * u k
  ⟨m, fun i j => if i < m.n ∧ j < m.n then uni (2 * (i * m.n + j)) else 0,
      fun i j => if i < m.n ∧ j < m.n then uni (2 * (i * m.n + j) + 1) else 0⟩

end X7.VF
