import Verif.Model.Builder

/-!
What a `GroupBuilder` is expected to do.
-/

noncomputable section

namespace X7.Build

open GroupNames

/-- The pen and brush of a kind of shape, by name. -/
def penNamed (pens : ByShape PenBrush) (kind : String) : Option PenBrush :=
  [("edge", pens.edge), ("filled", pens.filled), ("clear", pens.clear), ("edge_filled", pens.edge_filled),
    ("edge_clear", pens.edge_clear)].lookup kind

/-- The pen and brush a call uses: the one given, or that of the kind given, or that of the default kind of the builder. -/
def penFor (b : GB) : KindArg → Option PenBrush
  | .pb p => some p
  | .none => penNamed b.pens b.kind
  | .kind "" => penNamed b.pens b.kind
  | .kind s => penNamed b.pens s

/-- Whether a shape can be made with this pen and `closed`: curves are closed if filled, all other shapes are closed. -/
def Allowed (pb : PenBrush) (closed : Bool) : ShapeArg → Prop
  | .curve _ => pb.brush ≠ none → closed = true
  | _ => closed = true

/-- The element asked for: the shape with the given header. -/
def shaped (h : Hdr) : ShapeArg → Elem
  | .curve cps => .curve h cps
  | .rect p1 p2 => .rect h p1 p2
  | .rrect p1 p2 r => .rrect h p1 p2 r
  | .ellipse p1 p2 => .ellipse h p1 p2

/-- The word used in made-up names. -/
def word : Elem → Str
  | .curve _ _ => "curve".toList
  | .rect _ _ _ => "rectangle".toList
  | .rrect _ _ _ _ => "rectanglerounded".toList
  | .ellipse _ _ _ => "ellipse".toList
  | .group _ _ _ => "group".toList
  | .holes _ _ _ => "withholes".toList

/-- The key under which something called `name` is stored: the name if it is free, else the word, `#` and the least number that
makes it free. -/
def KeyFor (taken : List Str) (word name key : Str) : Prop :=
  (name ∉ taken → key = name) ∧
  (name ∈ taken → ∃ n, key = word ++ '#' :: fmtNat n ∧ key ∉ taken ∧ ∀ j < n, word ++ '#' :: fmtNat j ∈ taken)

/-- The entries of a group. -/
def entries : Elem → List (Str × Elem)
  | .group _ _ es => es
  | _ => []

/-- `e` with one more entry at the end. -/
def withEntry (e : Elem) (k : Str) (x : Elem) : Elem :=
  match e with
  | .group h hidden es => .group h hidden (es ++ [(k, x)])
  | e => e

/-- The keys of the entries. -/
def keysOf (e : Elem) : List Str := (entries e).map Prod.fst

/-- The points of the group of a builder. -/
def pointsOf (st : BState) (b : GB) : List (Str × Pt ℝ) := (st.obj b.group).points

end X7.Build
