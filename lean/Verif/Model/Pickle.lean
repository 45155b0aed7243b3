import Verif.Model.Dump

/-!
Model of writing test data as Python text: `PicklerExtensionGeom.do_pickle` and `methods` (x7/geom/testing.py 18-90), on top of
the model of `dump`.

A line is the number of spaces in front of it and its tokens. `prefix` is given by its length: it is made of spaces.
-/

noncomputable section

namespace X7.Dump

/-- The members of a list given to `do_pickle`. A tuple of three is `triple` if it is a str, an `Elem` and a `Transform`. -/
inductive PItem
  | elem (e : DElem)
  | triple (s : Str) (e : DElem) (t : Mat3 ℝ)
  | other

/-- The data given to `do_pickle`. -/
inductive PData
  | elem (e : DElem)
  | list (l : List PItem)
  | other

/-- `isinstance(d, Elem)`. -/
def PItem.isElem : PItem → Bool
  | .elem _ => true
  | _ => false

/-- testing.py:43-48 `is_tuple_str_elem_transform`. -/
def PItem.isTriple : PItem → Bool
  | .triple _ _ _ => true
  | _ => false

/-- model.py:70-71, 90-91 the spaces of a line: four for each level of depth. -/
def cols (l : List (ℕ × List Tok)) : List (ℕ × List Tok) := l.map fun x => (4 * x.1, x.2)

/-- `text.lstrip()`. The first token is not blank: only the spaces of the first line go. -/
def lstrip : List (ℕ × List Tok) → List (ℕ × List Tok)
  | [] => []
  | (_, l) :: rest => (0, l) :: rest

/-- testing.py:50-55 `dump_one_elem(elem)`. -/
def dumpOne (np : ℕ) (e : DElem) : List (ℕ × List Tok) := lstrip (cols (dump { DC.new false with depth := np / 4 } e).lines)

/-- testing.py:61-63, 72-74 the context with `[` written. -/
def startList (np : ℕ) : DC := { (DC.new false).append [.lb] with depth := np / 4 + 1 }

/-- testing.py:67-69, 86-88 `]` behind `prefix`, and `output(just_lines=True)` (model.py:58-60). -/
def endList (np : ℕ) (dc : DC) : List (ℕ × List Tok) := cols dc.lines ++ [(np, [.rb])]

/-- testing.py:64-66 an element of a list. -/
def listElem (dc : DC) : PItem → DC
  | .elem e => (dump dc e).addComma
  | _ => dc

/-- testing.py:75-85 a tuple of a list. `ed.count('\n') == 0`: one line. -/
def listTriple (np : ℕ) (dc : DC) : PItem → DC
  | .triple s e t =>
    let ed := dumpOne np e
    if ed.length = 1 then
      dc.append ([.lp, .str s, .comma] ++ ed.flatMap Prod.snd ++ [.comma] ++ reprXf t ++ [.rp, .comma])
    else
      let dc := dc.append [.lp, .str s, .comma]
      let dc := (dump { dc with depth := dc.depth + 1 } e).addComma
      let dc := dc.append (reprXf t ++ [.rp, .comma])
      { dc with depth := dc.depth - 1 }
  | _ => dc

/-- testing.py:41-90 `do_pickle(data, prefix)`. -/
def doPickle (np : ℕ) : PData → Option (List (ℕ × List Tok))
  | .elem e => some (dumpOne np e)
  | .list l =>
    if l.all PItem.isElem then some (endList np (l.foldl listElem (startList np)))
    else if l.all PItem.isTriple then some (endList np (l.foldl (listTriple np) (startList np)))
    else none
  | .other => none

/-- testing.py:18-39 `methods()`: the names of the primitives and of all subclasses of `Elem`. -/
def pickleMethods : List Str :=
  (["BBox", "Point", "Vector", "ControlPoint", "Pen", "Brush", "PenBrush", "Transform"] ++
    ["ElemCurve", "ElemP1P2", "ElemRectangle", "ElemRectangleRounded", "ElemEllipse", "Group", "ElemWithHoles"]).map String.toList

end X7.Dump
