import Verif.Model.Transform

/-!
`Transform` and `Matrix` (x7/geom/transform.py) with references: numpy arrays, `Matrix` objects which refer to arrays, `Transform` objects
which refer to `Matrix` objects (`_mat`, `stack`) and to an array (`_inverse`). A program holds Transforms, Matrix objects and arrays.
-/

noncomputable section

namespace X7.XH

/-- transform.py:119-128 the attributes of a `Transform`: `_mat` and `stack` (top first) refer to `Matrix` objects, `_inverse` to an array. -/
structure TObj where
  mat : ℕ
  inv : Option ℕ
  stack : List ℕ

/-- All objects: the arrays; the `Matrix` objects, each referring to its array `ndmat`; the `Transform` objects; and what the program holds besides
these: `Matrix` objects it made and arrays. -/
structure Heap where
  arrs : List (Mat3 ℝ)
  mats : List ℕ
  ts : List TObj
  user : List ℕ
  held : List ℕ

/-- No objects. -/
def Heap.empty : Heap := ⟨[], [], [], [], []⟩

/-- The nine numbers in an array. (A reference always refers to something, `Lemmas/XfHeap.lean`; the identity stands for the other case.) -/
def Heap.arr (h : Heap) (a : ℕ) : Mat3 ℝ := (h.arrs[a]?).getD Mat3.one

/-- The nine numbers in the array of a `Matrix`. -/
def Heap.mat (h : Heap) (k : ℕ) : Mat3 ℝ := h.arr ((h.mats[k]?).getD h.arrs.length)

/-- transform.py:24-25, 38-39 `Matrix()`, `Matrix(values)`, `copy()`: a new object with a new array. Its reference is `h.mats.length`. -/
def newMat (h : Heap) (m : Mat3 ℝ) : Heap := ⟨h.arrs ++ [m], h.mats ++ [h.arrs.length], h.ts, h.user, h.held⟩

/-- transform.py:41-47 `self.ndmat = np.dot(..)`: the object refers to a new array. -/
def rebind (h : Heap) (k : ℕ) (m : Mat3 ℝ) : Heap := ⟨h.arrs ++ [m], h.mats.set k h.arrs.length, h.ts, h.user, h.held⟩

/-- transform.py:41-43 `pre_dot_eq`. -/
def preDot (h : Heap) (k : ℕ) (m : Mat3 ℝ) : Heap := rebind h k (m.mul (h.mat k))

/-- transform.py:45-47 `post_dot_eq`. -/
def postDot (h : Heap) (k : ℕ) (m : Mat3 ℝ) : Heap := rebind h k ((h.mat k).mul m)

/-- Assignment to attributes of a `Transform`. -/
def setT (h : Heap) (i : ℕ) (f : TObj → TObj) : Heap := ⟨h.arrs, h.mats, h.ts.modify i f, h.user, h.held⟩

/-- `self._inverse = None`. -/
def clear (h : Heap) (i : ℕ) : Heap := setT h i fun t => ⟨t.mat, none, t.stack⟩

/-- `self._mat.pre_dot_eq(m)`. -/
def preDotT (h : Heap) (i : ℕ) (m : Mat3 ℝ) : Heap :=
  match h.ts[i]? with
  | none => h
  | some t => preDot h t.mat m

/-- `self._mat.post_dot_eq(m)`. -/
def postDotT (h : Heap) (i : ℕ) (m : Mat3 ℝ) : Heap :=
  match h.ts[i]? with
  | none => h
  | some t => postDot h t.mat m

/-- `self._mat = Matrix(..)` with a new `Matrix`. -/
def freshMat (h : Heap) (i : ℕ) (m : Mat3 ℝ) : Heap := setT (newMat h m) i fun t => ⟨h.mats.length, t.inv, t.stack⟩

/-- transform.py:190-193 `translate`. -/
def translate (h : Heap) (i : ℕ) (dx dy : ℝ) : Heap := clear (preDotT h i (Mat3.translateMat dx dy)) i

/-- transform.py:195-198 `scale`. -/
def scale (h : Heap) (i : ℕ) (sx sy : ℝ) : Heap := clear (preDotT h i (Mat3.scaleMat sx sy)) i

/-- transform.py:222-226 `rotate`. -/
def rotate (h : Heap) (i : ℕ) (deg : ℝ) : Heap :=
  clear (preDotT h i (Mat3.rotateMat (Real.cos (radians deg)) (Real.sin (radians deg)))) i

/-- transform.py:228-232 `rotate_ccw`. -/
def rotateCcw (h : Heap) (i : ℕ) (deg : ℝ) : Heap :=
  clear (preDotT h i (Mat3.rotateMatCcw (Real.cos (radians deg)) (Real.sin (radians deg)))) i

/-- transform.py:234-239 `rotate_about`: `_inverse` is not cleared. The temporary `Transform` is not kept, so only its matrix is represented. -/
def rotateAbout (h : Heap) (i : ℕ) (angle : ℝ) (center : Pt ℝ) : Heap :=
  preDotT h i (((TState.new.translate (-center.x) (-center.y)).rotate angle).translate center.x center.y).mat

/-- transform.py:241-246 `compose` with (the `Matrix` of a Transform or) a `Matrix`. -/
def compose (h : Heap) (i k : ℕ) : Heap := clear (postDotT h i (h.mat k)) i

/-- transform.py:248-253 `compose_outer`. -/
def composeOuter (h : Heap) (i k : ℕ) : Heap := clear (preDotT h i (h.mat k)) i

/-- transform.py:206-220 `scale_bbox`. -/
def scaleBBox (h : Heap) (i : ℕ) (start target : BBox ℝ) (keep_aspect : Bool) : Heap × Option PyErr :=
  if keep_aspect then
    if start.width = 0 ∨ start.height = 0 then (h, some .zeroDivision)
    else
      let k := min (target.width / start.width) (target.height / start.height)
      match start with
      | .none => (h, some .type)
      | .box xl yl _ _ =>
        let h1 := translate h i (-xl) (-yl)
        let h2 := scale h1 i k k
        let w_extra := target.width - start.width * k
        let h_extra := target.height - start.height * k
        match target with
        | .none => (h2, some .type)
        | .box txl tyl _ _ => (translate h2 i (txl + w_extra / 2) (tyl + h_extra / 2), none)
  else
    match start with
    | .none => (h, some .type)
    | .box xl yl _ _ =>
      let h1 := translate h i (-xl) (-yl)
      if start.width = 0 ∨ start.height = 0 then (h1, some .zeroDivision)
      else
        let h2 := scale h1 i (target.width / start.width) (target.height / start.height)
        match target with
        | .none => (h2, some .type)
        | .box txl tyl _ _ => (translate h2 i txl tyl, none)

/-- transform.py:162-165 `reset`. -/
def reset (h : Heap) (i : ℕ) : Heap := clear (freshMat h i Mat3.one) i

/-- transform.py:147-149 `set_matrix(xform)`, where `k` is the `Matrix` of `xform`: a copy of it. -/
def setMatrix (h : Heap) (i k : ℕ) : Heap := clear (freshMat h i (h.mat k)) i

/-- transform.py:119-128 `Transform()` and `Transform(6-tuple)`. -/
def newT (h : Heap) (m : Mat3 ℝ) : Heap :=
  ⟨h.arrs ++ [m], h.mats ++ [h.arrs.length], h.ts ++ [⟨h.mats.length, none, []⟩], h.user, h.held⟩

/-- transform.py:142-145 `copy`: a new `Transform` of the six numbers, whose matrix is then set. -/
def copy (h : Heap) (t : TObj) : Heap :=
  let m := h.mat t.mat
  setMatrix (newT h (Mat3.of6 m.a m.b m.c m.d m.e m.f)) h.ts.length t.mat

/-- transform.py:303-319 `push`: a copy of the matrix goes on the stack. -/
def push (h : Heap) (i : ℕ) : Heap :=
  match h.ts[i]? with
  | none => h
  | some t => setT (newMat h (h.mat t.mat)) i fun t => ⟨t.mat, t.inv, h.mats.length :: t.stack⟩

/-- transform.py:321-325 `pop`. -/
def pop (h : Heap) (i : ℕ) : Heap × Option PyErr :=
  match h.ts[i]? with
  | none => (h, some .attribute)
  | some t =>
    match t.stack with
    | [] => (h, some .emptyStack)
    | k :: rest => (clear (setT h i fun t => ⟨k, t.inv, rest⟩) i, none)

/-- transform.py:151-156 the property `inverse`: the array itself, which is also kept. -/
def inverse (h : Heap) (i : ℕ) : Heap × Except PyErr ℕ :=
  match h.ts[i]? with
  | none => (h, .error .attribute)
  | some t =>
    match t.inv with
    | some a => (h, .ok a)
    | none =>
      match (h.mat t.mat).inv with
      | .error e => (h, .error e)
      | .ok m => (⟨h.arrs ++ [m], h.mats, h.ts.modify i fun t => ⟨t.mat, some h.arrs.length, t.stack⟩, h.user, h.held⟩, .ok h.arrs.length)

/-- transform.py:278-280, 84-87 `transform(x, y)`. -/
def transform (h : Heap) (t : TObj) (p : Pt ℝ) : Pt ℝ := (h.mat t.mat).apply p

/-- transform.py:287-291 `untransform(x, y)`. -/
def untransform (h : Heap) (i : ℕ) (p : Pt ℝ) : Heap × Except PyErr (Pt ℝ) :=
  match inverse h i with
  | (h', .ok a) => (h', .ok ((h'.arr a).apply p))
  | (h', .error e) => (h', .error e)

/-- Calls of a program. `i`, `j` are Transforms, `k` counts the `Matrix` objects the program holds, `x` the arrays it holds. -/
inductive Op
  | new
  | new6 (a b c d e f : ℝ)
  | copy (i : ℕ)
  | translate (i : ℕ) (dx dy : ℝ)
  | scale (i : ℕ) (sx sy : ℝ)
  | rotate (i : ℕ) (deg : ℝ)
  | rotateCcw (i : ℕ) (deg : ℝ)
  | rotateAbout (i : ℕ) (deg : ℝ) (c : Pt ℝ)
  | scaleBBox (i : ℕ) (start target : BBox ℝ) (keep : Bool)
  | composeT (i j : ℕ)
  | composeM (i k : ℕ)
  | outerT (i j : ℕ)
  | outerM (i k : ℕ)
  | reset (i : ℕ)
  | setMatrix (i j : ℕ)
  | push (i : ℕ)
  | pop (i : ℕ)
  | untransform (i : ℕ) (p : Pt ℝ)
  | inverse (i : ℕ)                        -- `t.inverse`: the program then holds the array
  | newM (m : Mat3 ℝ)                      -- transform.py:24-25 `Matrix(numbers)`
  | copyM (k : ℕ)                          -- transform.py:38-39
  | inverseM (k : ℕ)                       -- transform.py:49-51
  | preM (k x : ℕ)                         -- transform.py:41-43 with an array the program holds
  | postM (k x : ℕ)                        -- transform.py:45-47
  | ndmat (k : ℕ)                          -- `m.ndmat`: the program then holds the array
  | assignM (k x : ℕ)                      -- `m.ndmat = array`
  | array (m : Mat3 ℝ)                     -- `np.array(..)`
  | write (x : ℕ) (m : Mat3 ℝ)             -- `array[..] = ..`

/-- A call on Transform `i`, if there is one. -/
def onT (h : Heap) (i : ℕ) (f : TObj → Heap × Option PyErr) : Heap × Option PyErr :=
  match h.ts[i]? with
  | none => (h, some .attribute)
  | some t => f t

/-- One call: all objects afterwards, and the exception if any. -/
def step (h : Heap) : Op → Heap × Option PyErr
  | .new => (newT h Mat3.one, none)
  | .new6 a b c d e f => (newT h (Mat3.of6 a b c d e f), none)
  | .copy i => onT h i fun t => (copy h t, none)
  | .translate i dx dy => onT h i fun _ => (translate h i dx dy, none)
  | .scale i sx sy => onT h i fun _ => (scale h i sx sy, none)
  | .rotate i d => onT h i fun _ => (rotate h i d, none)
  | .rotateCcw i d => onT h i fun _ => (rotateCcw h i d, none)
  | .rotateAbout i d c => onT h i fun _ => (rotateAbout h i d c, none)
  | .scaleBBox i a b keep => onT h i fun _ => scaleBBox h i a b keep
  | .composeT i j => onT h i fun _ => onT h j fun u => (compose h i u.mat, none)
  | .composeM i k => onT h i fun _ => match h.user[k]? with
    | none => (h, some .attribute)
    | some u => (compose h i u, none)
  | .outerT i j => onT h i fun _ => onT h j fun u => (composeOuter h i u.mat, none)
  | .outerM i k => onT h i fun _ => match h.user[k]? with
    | none => (h, some .attribute)
    | some u => (composeOuter h i u, none)
  | .reset i => onT h i fun _ => (reset h i, none)
  | .setMatrix i j => onT h i fun _ => onT h j fun u => (setMatrix h i u.mat, none)
  | .push i => onT h i fun _ => (push h i, none)
  | .pop i => pop h i
  | .untransform i p => match untransform h i p with
    | (h', .ok _) => (h', none)
    | (h', .error e) => (h', some e)
  | .inverse i => match inverse h i with
    | (h', .ok a) => (⟨h'.arrs, h'.mats, h'.ts, h'.user, h'.held ++ [a]⟩, none)
    | (h', .error e) => (h', some e)
  | .newM m => (⟨h.arrs ++ [m], h.mats ++ [h.arrs.length], h.ts, h.user ++ [h.mats.length], h.held⟩, none)
  | .copyM k => match h.user[k]? with
    | none => (h, some .attribute)
    | some u => (⟨h.arrs ++ [h.mat u], h.mats ++ [h.arrs.length], h.ts, h.user ++ [h.mats.length], h.held⟩, none)
  | .inverseM k => match h.user[k]? with
    | none => (h, some .attribute)
    | some u => match (h.mat u).inv with
      | .error e => (h, some e)
      | .ok m => (⟨h.arrs ++ [m], h.mats ++ [h.arrs.length], h.ts, h.user ++ [h.mats.length], h.held⟩, none)
  | .preM k x => match h.user[k]?, h.held[x]? with
    | some u, some a => (preDot h u (h.arr a), none)
    | _, _ => (h, some .attribute)
  | .postM k x => match h.user[k]?, h.held[x]? with
    | some u, some a => (postDot h u (h.arr a), none)
    | _, _ => (h, some .attribute)
  | .ndmat k => match h.user[k]? with
    | none => (h, some .attribute)
    | some u => (⟨h.arrs, h.mats, h.ts, h.user, h.held ++ [(h.mats[u]?).getD h.arrs.length]⟩, none)
  | .assignM k x => match h.user[k]?, h.held[x]? with
    | some u, some a => (⟨h.arrs, h.mats.set u a, h.ts, h.user, h.held⟩, none)
    | _, _ => (h, some .attribute)
  | .array m => (⟨h.arrs ++ [m], h.mats, h.ts, h.user, h.held ++ [h.arrs.length]⟩, none)
  | .write x m => match h.held[x]? with
    | none => (h, some .attribute)
    | some a => (⟨h.arrs.set a m, h.mats, h.ts, h.user, h.held⟩, none)

/-- A history of calls; exceptions are caught by the caller, who goes on. -/
def run (h : Heap) (ops : List Op) : Heap := ops.foldl (fun h o => (step h o).1) h

end X7.XH
