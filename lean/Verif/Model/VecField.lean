import Mathlib.Algebra.BigOperators.Group.Finset.Basic
import Verif.Model.VecReal

/-!
Model of x7/geom/vec_field.py: `Mesh` and `VectorField`. Arrays are functions of two indices below `n` (= `steps`; a mesh has the
same number of coordinates in both directions). Fields are values here: the interpolators kept after the first lookup (66-70), changes of
arrays and sharing are in Model/FieldHeap.
-/

noncomputable section

namespace X7.VF

/-- vec_field.py:11-21 `Mesh(bbox, steps)`. -/
structure Mesh where
  n : ℕ
  xl : ℝ
  yl : ℝ
  xh : ℝ
  yh : ℝ

/-- `np.linspace(lo, hi, n)[i]`. -/
def linspace (lo hi : ℝ) (n i : ℕ) : ℝ := if n ≤ 1 then lo else lo + (i : ℝ) * ((hi - lo) / ((n : ℝ) - 1))

/-- vec_field.py:15 `coord_x`. -/
def Mesh.cx (m : Mesh) (i : ℕ) : ℝ := linspace m.xl m.xh m.n i

/-- vec_field.py:16 `coord_y`. -/
def Mesh.cy (m : Mesh) (i : ℕ) : ℝ := linspace m.yl m.yh m.n i

/-- vec_field.py:18-19 `x_grid[i, j]`, `y_grid[i, j]`: `np.meshgrid(cx, cy)` puts y along the first index. -/
def Mesh.gridXY (m : Mesh) (i j : ℕ) : Pt ℝ := ⟨m.cx j, m.cy i⟩

/-- vec_field.py:42-50 `VectorField`. -/
structure Field where
  mesh : Mesh
  vx : ℕ → ℕ → ℝ
  vy : ℕ → ℕ → ℝ

/-- vec_field.py:31-32 `mesh.zeros()`. -/
def Mesh.zeros (m : Mesh) : Field := ⟨m, fun _ _ => 0, fun _ _ => 0⟩

/-- Library assumption (scipy `RegularGridInterpolator`, linear): the interval used for `x`: `searchsorted(grid, x) - 1`, kept
between 0 and `n - 2`, so that points outside the grid are extrapolated (`fill_value=None`). -/
def cell (g : ℕ → ℝ) (n : ℕ) (x : ℝ) : ℕ := min (((List.range n).filter fun i => decide (g i < x)).length - 1) (n - 2)

/-- Library assumption: the position of `x` in its interval. -/
def frac (g : ℕ → ℝ) (i : ℕ) (x : ℝ) : ℝ := (x - g i) / (g (i + 1) - g i)

/-- Library assumption: the weighted sum over the four corners of the cell. -/
def interp (gx gy : ℕ → ℝ) (n : ℕ) (f : ℕ → ℕ → ℝ) (x y : ℝ) : ℝ :=
  let i := cell gx n x
  let j := cell gy n y
  let s := frac gx i x
  let t := frac gy j y
  f i j * (1 - s) * (1 - t) + f i (j + 1) * (1 - s) * t + f (i + 1) j * s * (1 - t) + f (i + 1) (j + 1) * s * t

/-- vec_field.py:65-77 `interp_coords`, `lookup`. The interpolator needs at least two strictly ascending coordinates in both
directions (`ValueError`; simplification: descending ones, which some versions of scipy accept, count as an error). -/
def Field.lookup (f : Field) (x y : ℝ) : Except PyErr (Vec ℝ) :=
  if f.mesh.n < 2 ∨ f.mesh.xh ≤ f.mesh.xl ∨ f.mesh.yh ≤ f.mesh.yl then .error .value
  else .ok ⟨interp f.mesh.cx f.mesh.cy f.mesh.n f.vx x y, interp f.mesh.cx f.mesh.cy f.mesh.n f.vy x y⟩

/-- transform.py:84-87 `transform(x, y)` with vec_field.py:79-82 `transform_np_pts`. -/
def Field.transform (f : Field) (p : Pt ℝ) : Except PyErr (Pt ℝ) :=
  match f.lookup p.x p.y with
  | .ok v => .ok (p.addVector v)
  | .error e => .error e

/-- transform.py:89-94 `transform_width` as `VectorField` inherits it. -/
def Field.transformWidth (f : Field) (width : ℝ) : Except PyErr ℝ :=
  let w := width * (√2 / 2)
  match f.transform ⟨0, 0⟩ with
  | .error e => .error e
  | .ok z => match f.transform ⟨w, w⟩ with
    | .error e => .error e
    | .ok q => .ok (hypot (q.x - z.x) (q.y - z.y))

/-- transform.py:101-115 `transform_pts(pts, flatten)` with vec_field.py:79-82, which gives pairs: unpacking them into three
variables is a `ValueError`. For no points, `np.array([]).T[:2, :]` is an `IndexError`. -/
def Field.transformPts (f : Field) (pts : List (Pt ℝ)) : Except PyErr (List (Pt ℝ)) :=
  match pts with
  | [] => .error .index
  | p :: _ => match f.lookup p.x p.y with
    | .error e => .error e
    | .ok _ => .error .value

/-- vec_field.py:84-85 `quiver`: the arrow drawn for index `(i, j)`: where, and what. -/
def Field.arrow (f : Field) (i j : ℕ) : Pt ℝ × Vec ℝ := (f.mesh.gridXY i j, ⟨f.vx i j, f.vy i j⟩)

/-- vec_field.py:103 the magnitudes. -/
def Field.mag (f : Field) (i j : ℕ) : ℝ := √(f.vx i j * f.vx i j + f.vy i j * f.vy i j)

/-- `np.amax` of an `n × n` array, `n ≥ 1`. -/
def amax (n : ℕ) (a : ℕ → ℕ → ℝ) : ℝ :=
  ((List.range n).flatMap fun i => (List.range n).map fun j => a i j).foldl max (a 0 0)

/-- vec_field.py:102-107 `normalized()`. `np.amax` of an empty array is a `ValueError`. `1 / 0` in numpy is infinite (a warning,
no exception) and `0 * inf` is `nan`: `none` stands for the field of `nan`s. -/
def Field.normalized (f : Field) : Except PyErr (Option Field) :=
  if f.mesh.n = 0 then .error .value
  else
    let maxMag := amax f.mesh.n f.mag
    if maxMag = 0 then .ok none
    else .ok (some ⟨f.mesh, fun i j => f.vx i j * (1 / maxMag), fun i j => f.vy i j * (1 / maxMag)⟩)

/-- `range(max(0, i - 2), min(n, i + 2))`. -/
def window (n i : ℕ) : List ℕ := (List.range n).filter fun x => decide (i ≤ x + 2) && decide (x < i + 2)

/-- vec_field.py:115-130 the two inner loops: sum over the window and count. -/
def windowSum (n : ℕ) (a : ℕ → ℕ → ℝ) (i j : ℕ) : ℝ :=
  ((window n i).map fun x => ((window n j).map fun y => a x y).sum).sum

def windowCount (n i j : ℕ) : ℕ := (window n i).length * (window n j).length

/-- vec_field.py:113-128 the smoothed value at `(i, j)` before normalisation. -/
def smoothVal (n : ℕ) (a : ℕ → ℕ → ℝ) (i j : ℕ) : ℝ :=
  (windowSum n a i j + (20 - 1) * a i j) / ((windowCount n i j : ℝ) + (20 - 1))

/-- vec_field.py:109-130 `smoothed()`. -/
def Field.smoothed (f : Field) : Except PyErr (Option Field) :=
  Field.normalized ⟨f.mesh, smoothVal f.mesh.n f.vx, smoothVal f.mesh.n f.vy⟩

/-- vec_field.py:132-134 `scaled(sx, sy=None)`. -/
def Field.scaled (f : Field) (sx : ℝ) (sy : Option ℝ) : Field :=
  let sy := match sy with | some s => s | none => sx
  ⟨f.mesh, fun i j => f.vx i j * sx, fun i j => f.vy i j * sy⟩

end X7.VF
