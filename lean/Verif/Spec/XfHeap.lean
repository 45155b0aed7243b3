import Verif.Model.XfHeap
import Verif.Spec.Transform

noncomputable section

namespace X7.XH

/-- What Transform `i` is, as a value: its matrix, the inverse it keeps, the saved matrices. -/
def state (h : Heap) (i : ℕ) : Option TState :=
  (h.ts[i]?).map fun t => ⟨h.mat t.mat, t.inv.map h.arr, t.stack.map h.mat⟩

/-- The numbers of the `k`th Matrix of the program. -/
def matrixOf (h : Heap) (k : ℕ) : Option (Mat3 ℝ) := (h.user[k]?).map h.mat

/-- The numbers in the `x`th array of the program. -/
def arrayOf (h : Heap) (x : ℕ) : Option (Mat3 ℝ) := (h.held[x]?).map h.arr

/-- The call which an operation is on one Transform, with the matrices that other objects have at that moment. (Reading `inverse` does to the object
what `untransform` does.) -/
def asked (h : Heap) : Op → Option (ℕ × TOp)
  | .translate i dx dy => some (i, .translate dx dy)
  | .scale i sx sy => some (i, .scale sx sy)
  | .rotate i d => some (i, .rotate d)
  | .rotateCcw i d => some (i, .rotateCcw d)
  | .rotateAbout i d c => some (i, .rotateAbout d c)
  | .scaleBBox i a b k => some (i, .scaleBBox a b k)
  | .composeT i j => (state h j).map fun s => (i, .compose s.mat)
  | .composeM i k => (matrixOf h k).map fun m => (i, .compose m)
  | .outerT i j => (state h j).map fun s => (i, .composeOuter s.mat)
  | .outerM i k => (matrixOf h k).map fun m => (i, .composeOuter m)
  | .reset i => some (i, .reset)
  | .setMatrix i j => (state h j).map fun s => (i, .setMatrix s.mat)
  | .push i => some (i, .push)
  | .pop i => some (i, .pop)
  | .untransform i p => some (i, .untransform p)
  | .inverse i => some (i, .untransform ⟨0, 0⟩)
  | _ => none

/-- The calls of a history on Transform `i`, in order. -/
def calls (i : ℕ) : Heap → List Op → List TOp
  | _, [] => []
  | h, op :: ops =>
    (match asked h op with
      | some (j, o) => if j = i then [o] else []
      | none => []) ++ calls i (step h op).1 ops

/-- The operation writes into the array which Transform `i` keeps as its inverse. -/
def Spoils (h : Heap) (i : ℕ) (op : Op) : Prop :=
  ∃ x m t a, op = .write x m ∧ h.ts[i]? = some t ∧ t.inv = some a ∧ h.held[x]? = some a

/-- No operation of the history does. -/
def Unspoilt (i : ℕ) : Heap → List Op → Prop
  | _, [] => True
  | h, op :: ops => ¬ Spoils h i op ∧ Unspoilt i (step h op).1 ops

/-- The operation is a call on a Transform, or makes one. -/
def OnTransform : Op → Prop
  | .newM _ | .copyM _ | .inverseM _ | .preM _ _ | .postM _ _ | .ndmat _ | .assignM _ _ | .array _ | .write _ _ => False
  | _ => True

/-- Two values which differ in the kept inverse at most. -/
def SameXf (s s' : TState) : Prop := s.mat = s'.mat ∧ s.stack = s'.stack

end X7.XH
