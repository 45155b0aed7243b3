import Verif.Model.ElemHeap

/-!
What a mutable element is worth: its value, as compared by `==`, and the objects this value hangs on.
-/

noncomputable section

namespace X7.EH

/-- A point or vector as compared by `==`: coordinates, name, whether it is a point. -/
abbrev PtVal := ℝ × ℝ × Option String × Bool

/-- A control point as compared by `==`. -/
abbrev CpVal := PtVal × PtVal × PtVal × String

/-- A curve or P1P2 shape as compared by `==`. -/
inductive EVal
  | curve (name : Str) (pb : PenBrush) (closed : Bool) (m : Mat3 ℝ) (cps : List CpVal)
  | shape (name : Str) (pb : PenBrush) (closed : Bool) (m : Mat3 ℝ) (cls : Cls) (p1 p2 : PtVal) (radius : ℝ)

def ptVal (h : Heap) (i : ℕ) : Option PtVal :=
  match h[i]? with
  | some (.pt x y n) => some (x, y, n, true)
  | some (.vec x y) => some (x, y, none, false)
  | _ => none

def matVal (h : Heap) (i : ℕ) : Option (Mat3 ℝ) :=
  match h[i]? with
  | some (.xform m) => some m
  | _ => none

def cpVal (h : Heap) (i : ℕ) : Option CpVal :=
  match h[i]? with
  | some (.cp c dl dr kind) => do
    let c ← ptVal h c
    let dl ← ptVal h dl
    let dr ← ptVal h dr
    some (c, dl, dr, kind)
  | _ => none

/-- The values of a list of control points. -/
def cpVals (h : Heap) : List ℕ → Option (List CpVal)
  | [] => some []
  | i :: rest => do
    let v ← cpVal h i
    let vs ← cpVals h rest
    some (v :: vs)

/-- The value of element `i`; `none` if it is not a curve or P1P2 shape with all its objects in place. -/
def val (h : Heap) (i : ℕ) : Option EVal :=
  match h[i]? with
  | some (.curve a cps) => do
    let m ← matVal h a.xf
    let vs ← cpVals h cps
    some (.curve a.name a.pb a.closed m vs)
  | some (.shape a cls p1 p2 r) => do
    let m ← matVal h a.xf
    let v1 ← ptVal h p1
    let v2 ← ptVal h p2
    some (.shape a.name a.pb a.closed m cls v1 v2 r)
  | _ => none

/-- The objects a control point hangs on. -/
def cpObjs (h : Heap) (i : ℕ) : List ℕ :=
  match h[i]? with
  | some (.cp c dl dr _) => [i, c, dl, dr]
  | _ => [i]

/-- The objects other than the transform that element `i` hangs on. -/
def objs (h : Heap) (i : ℕ) : List ℕ :=
  match h[i]? with
  | some (.curve _ cps) => i :: cps.flatMap (cpObjs h)
  | some (.shape _ _ p1 p2 _) => [i, p1, p2]
  | _ => [i]

/-- The transform object of element `i`. -/
def xfOf (h : Heap) (i : ℕ) : Option ℕ :=
  match h[i]? with
  | some (.curve a _) => some a.xf
  | some (.shape a _ _ _ _) => some a.xf
  | _ => none

/-- No point of the value has a name. -/
def CpVal.Unnamed (v : CpVal) : Prop := v.1.2.2.1 = none ∧ v.2.1.2.2.1 = none ∧ v.2.2.1.2.2.1 = none

def EVal.Unnamed : EVal → Prop
  | .curve _ _ _ _ cps => ∀ v ∈ cps, v.Unnamed
  | .shape _ _ _ _ _ p1 p2 _ => p1.2.2.1 = none ∧ p2.2.2.1 = none

/-- A filled element is closed, P1P2 shapes always are (what the constructors check). -/
def EVal.Made : EVal → Prop
  | .curve _ pb closed _ _ => pb.filled = true → closed = true
  | .shape _ _ closed _ _ p1 p2 _ => closed = true ∧ p1.2.2.2 = true ∧ p2.2.2.2 = true

/-- The change does not touch object `i`. -/
def Op.Spares (i : ℕ) : Op → Prop
  | .write j _ => j ≠ i
  | .alloc _ => True

/-- The objects `restore` may write: the element and its control points, or its two points. -/
def own (h : Heap) (i : ℕ) : List ℕ :=
  match h[i]? with
  | some (.curve _ cps) => i :: cps
  | some (.shape _ _ p1 p2 _) => [i, p1, p2]
  | _ => [i]

/-- Values between which `restore` can go: the same class, the same number of control points, plain points. -/
def EVal.Fits : EVal → EVal → Prop
  | .curve _ _ _ _ cps, .curve _ _ _ _ cps' => cps.length = cps'.length
  | .shape _ _ _ _ cls p1 p2 r, .shape _ _ _ _ cls' q1 q2 r' =>
      cls = cls' ∧ p1.2.2 = (none, true) ∧ p2.2.2 = (none, true) ∧ q1.2.2 = (none, true) ∧ q2.2.2 = (none, true) ∧
        (cls ≠ .rounded → r = r')
  | _, _ => False

/-- The same value with another transform. -/
def EVal.withMat (m : Mat3 ℝ) : EVal → EVal
  | .curve n pb c _ cps => .curve n pb c m cps
  | .shape n pb c _ cls p1 p2 r => .shape n pb c m cls p1 p2 r

/-- The transform of a value. -/
def EVal.mat : EVal → Mat3 ℝ
  | .curve _ _ _ m _ => m
  | .shape _ _ _ m _ _ _ _ => m

/-- The pen and brush of a value. -/
def EVal.pb : EVal → PenBrush
  | .curve _ pb _ _ _ => pb
  | .shape _ pb _ _ _ _ _ _ => pb

/-- A group, with its entries as references. -/
structure GVal where
  name : Str
  pb : PenBrush
  closed : Bool
  m : Mat3 ℝ
  hidden : Bool
  elems : List (Str × ℕ)
  points : List (Str × ℕ)

def gval (h : Heap) (i : ℕ) : Option GVal :=
  match h[i]? with
  | some (.group a hidden elems points) => (matVal h a.xf).map fun m => ⟨a.name, a.pb, a.closed, m, hidden, elems, points⟩
  | _ => none

/-- The values of a list of elements. -/
def vals (h : Heap) : List ℕ → Option (List EVal)
  | [] => some []
  | i :: rest => do
    let v ← val h i
    let vs ← vals h rest
    some (v :: vs)

/-- A shape with holes, with the values of its parts. -/
structure HVal where
  name : Str
  pb : PenBrush
  closed : Bool
  m : Mat3 ℝ
  outside : EVal
  inside : List EVal

def hval (h : Heap) (i : ℕ) : Option HVal :=
  match h[i]? with
  | some (.holes a outside inside) => do
    let m ← matVal h a.xf
    let o ← val h outside
    let is ← vals h inside
    some ⟨a.name, a.pb, a.closed, m, o, is⟩
  | _ => none

end X7.EH
