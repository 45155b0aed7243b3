import Verif.Model.Colors
import Mathlib.Data.List.Sort
import Mathlib.Order.Fin.Basic
import Mathlib.Data.List.Lex
import Mathlib.Data.Char

/-!
Model of writing elements as Python text: `DumpContext` (x7/geom/model.py 36-95), `dump_elem` (313-338) and the `dump` methods
(541-547, 661-662, 783-784, 812-813, 940-948, 1136-1144), and the `__repr__` methods they use (geom.py 81-83, 229-230, 283-291,
486-487, 516-520; bezier.py 32-33; colors.py 44-45, 65-66, 121-122; transform.py 132-133; model.py 371-372, 564-565, 739-740,
844-846, 1033-1038).

Text is a list of tokens: identifiers, literals, brackets, commas, `=`, `:`. Spaces are left out. Simplifications: `repr` of a number
or string is one literal token (library assumption: the literal denotes the value it was made from; for numpy numbers this is
so before numpy 2). Elements carry what `==` compares: points with names, relative points, names, pens, transforms.
-/

noncomputable section

namespace X7.Dump

/-- Tokens of Python text. -/
inductive Tok
  | id (s : Str)
  | str (s : Str)
  | num (x : ℝ)
  | int (n : ℤ)
  | lp | rp | lb | rb | lc | rc | comma | eq | colon

noncomputable instance : DecidableEq Tok := Classical.decEq _

/-- `Point`, `PointRelative`, `PointCalc` (geom.py 417, 478, 511). -/
inductive DPt
  | point (x y : ℝ) (name : Option Str)
  | rel (dx dy : ℝ) (base : DPt) (name : Option Str)
  | pcalc (base : DPt) (scale : ℝ) (name : Option Str)

/-- `Vector`, `VectorRelative` (geom.py 42, 212). -/
inductive DVec
  | vec (x y : ℝ)
  | rel (p1 p2 : DPt)

/-- bezier.py:20-27 `ControlPoint`. -/
structure DCp where
  c : DPt
  dl : DVec
  dr : DVec
  kind : Str

/-- model.py:138-144 attributes of every element. -/
structure DHdr where
  name : Str
  pb : PenBrush
  closed : Bool
  xf : Mat3 ℝ

/-- The element classes. -/
inductive DElem
  | curve (h : DHdr) (cps : List DCp)
  | rect (h : DHdr) (p1 p2 : DPt)
  | rrect (h : DHdr) (p1 p2 : DPt) (radius : ℝ)
  | ellipse (h : DHdr) (p1 p2 : DPt)
  | group (h : DHdr) (hidden : Bool) (elems : List (Str × DElem)) (points : List (Str × DPt))
  | holes (h : DHdr) (outside : DElem) (inside : List DElem)

def DElem.hdr : DElem → DHdr
  | .curve h _ => h
  | .rect h _ _ => h
  | .rrect h _ _ _ => h
  | .ellipse h _ _ => h
  | .group h _ _ _ => h
  | .holes h _ _ => h

/-- `Name(`. -/
def opens (f : String) : List Tok := [.id f.toList, .lp]

/-- geom.py:287-288 `_namestr`. -/
def nameToks : Option Str → List Tok
  | some s => if s ≠ [] then [.comma, .str s] else []
  | none => []

/-- geom.py:283-285, 486-487, 516-520 `repr` of a point. -/
def reprPt : DPt → List Tok
  | .point x y n => opens "Point" ++ [.num x, .comma, .num y] ++ nameToks n ++ [.rp]
  | .rel dx dy base n => opens "PointRelative" ++ [.num dx, .comma, .num dy, .comma] ++ reprPt base ++ nameToks n ++ [.rp]
  | .pcalc base scale n => opens "PointCalc" ++ reprPt base ++ [.comma, .num scale] ++ nameToks n ++ [.rp]

/-- geom.py:81-83, 229-230 `repr` of a vector. -/
def reprVec : DVec → List Tok
  | .vec x y => opens "Vector" ++ [.num x, .comma, .num y, .rp]
  | .rel p q => opens "VectorRelative" ++ reprPt p ++ [.comma] ++ reprPt q ++ [.rp]

/-- bezier.py:32-33 `repr` of a control point. -/
def reprCp (c : DCp) : List Tok :=
  opens "ControlPoint" ++ reprPt c.c ++ [.comma] ++ reprVec c.dl ++ [.comma] ++ reprVec c.dr ++ [.comma, .str c.kind, .rp]

/-- The numbers of a tuple, between commas. -/
def intToks : List ℤ → List Tok
  | [] => []
  | [n] => [.int n]
  | n :: rest => .int n :: .comma :: intToks rest

/-- `repr` of a colour: a string, a number or a tuple. -/
def reprColor : Color → List Tok
  | .name s => [.str s.toList]
  | .num n => [.int n]
  | .tup [n] => [.lp, .int n, .comma, .rp]
  | .tup l => .lp :: intToks l ++ [.rp]

/-- colors.py:44-45 `repr` of a brush or None. -/
def reprBrush : Option Brush → List Tok
  | none => [.id "None".toList]
  | some b => opens "Brush" ++ reprColor b.color ++ [.rp]

/-- colors.py:65-66 `repr` of a pen or None. -/
def reprPen : Option Pen → List Tok
  | none => [.id "None".toList]
  | some p => opens "Pen" ++ reprColor p.brush.color ++ [.comma, .num p.width, .rp]

/-- colors.py:121-122 `repr` of a `PenBrush`. -/
def reprPB (pb : PenBrush) : List Tok := opens "PenBrush" ++ reprPen pb.pen ++ [.comma] ++ reprBrush pb.brush ++ [.rp]

/-- transform.py:132-140 `repr` of a transform: the first two rows. -/
def reprXf (m : Mat3 ℝ) : List Tok :=
  opens "Transform" ++ [.lp, .num m.a, .comma, .num m.b, .comma, .num m.c, .comma, .num m.d, .comma, .num m.e, .comma, .num m.f,
    .rp, .rp]

/-- model.py:36-50 `DumpContext`: a line is its depth and its tokens, `vars` and `prefixes` are dicts. The imports are in Model/DumpHist. -/
structure DC where
  depth : ℕ
  lines : List (ℕ × List Tok)
  vars : List (List Tok × Str)
  prefixes : List (Str × ℕ)
  useVars : Bool

/-- model.py:44-50 `DumpContext(use_vars)`. -/
def DC.new (useVars : Bool) : DC := ⟨0, [], [], [], useVars⟩

/-- `d.get(k)`. -/
def dget {α β : Type} [DecidableEq α] (d : List (α × β)) (k : α) : Option β := (d.find? fun x => x.1 = k).map Prod.snd

/-- `d[k] = v`. -/
def dset {α β : Type} [DecidableEq α] (d : List (α × β)) (k : α) (v : β) : List (α × β) :=
  if (dget d k).isSome then d.map fun x => if x.1 = k then (k, v) else x else d ++ [(k, v)]

/-- model.py:82 `'%s_%d' % (prefix, n)`. -/
def varName (pfx : Str) (n : ℕ) : Str := pfx ++ '_' :: fmtNat n

/-- model.py:77-85 `set_var(value, prefix)`, `value` given by its `repr`: the text to use. -/
def DC.setVar (dc : DC) (value : List Tok) (pfx : Str) : DC × List Tok :=
  if dc.useVars then
    match dget dc.vars value with
    | some v => (dc, [.id v])
    | none =>
      let n := (dget dc.prefixes pfx).getD 0 + 1
      ({ dc with vars := dset dc.vars value (varName pfx n), prefixes := dset dc.prefixes pfx n }, [.id (varName pfx n)])
  else (dc, value)

/-- model.py:87-88 `append(line)`. -/
def DC.append (dc : DC) (line : List Tok) : DC := { dc with lines := dc.lines ++ [(dc.depth, line)] }

/-- model.py:94-95 `add_comma()`: the last line gets a comma. -/
def DC.addComma (dc : DC) : DC :=
  match dc.lines.getLast? with
  | some (d, l) => { dc with lines := dc.lines.dropLast ++ [(d, l ++ [.comma])] }
  | none => dc

/-- `repr` of a bool. -/
def reprBool (b : Bool) : List Tok := [.id (if b then "True" else "False").toList]

/-- model.py:315-322 the common arguments: `Cls('name', pen, closed=..., xform=..., ` . -/
def basicToks (dc : DC) (cls : String) (h : DHdr) : DC × List Tok :=
  let r := dc.setVar (reprPB h.pb) "pen".toList
  let basic := opens cls ++ [.str h.name, .comma] ++ r.2 ++ [.comma, .id "closed".toList, .eq] ++ reprBool h.closed ++ [.comma]
  if h.xf ≠ Mat3.one then
    let s := r.1.setVar (reprXf h.xf) "xform".toList
    (s.1, basic ++ [.id "xform".toList, .eq] ++ s.2 ++ [.comma])
  else (r.1, basic)

/-- model.py:313-338 `dump_elem`: the common arguments and `args`. -/
def dumpElem (dc : DC) (cls : String) (h : DHdr) (args : List Tok) : DC :=
  let r := basicToks dc cls h
  r.1.append (r.2 ++ args)

/-- `key=value` for a point. -/
def kwPt (k : String) (p : DPt) : List Tok := [.id k.toList, .eq] ++ reprPt p

/-- `', '.join(...)`. -/
def joinComma : List (List Tok) → List Tok
  | [] => []
  | [l] => l
  | l :: rest => l ++ .comma :: joinComma rest

mutual
/-- model.py:371-372, 564-565, 739-740, 844-846, 1033-1038 `repr` of an element. Curves and P1P2 shapes show neither pen nor
transform, groups do not show `closed`. Dicts are shown in the order of their entries. -/
def reprElem : DElem → List Tok
  | .curve h cps => opens "ElemCurve" ++ [.str h.name, .comma] ++ joinComma (cps.map reprCp) ++ [.rp]
  | .rect h p q => opens "ElemRectangle" ++ [.str h.name, .comma] ++ reprPt p ++ [.comma] ++ reprPt q ++ [.rp]
  | .rrect h p q r =>
    opens "ElemRectangleRounded" ++ [.str h.name, .comma] ++ reprPt p ++ [.comma] ++ reprPt q ++ [.comma, .num r, .rp]
  | .ellipse h p q => opens "ElemEllipse" ++ [.str h.name, .comma] ++ reprPt p ++ [.comma] ++ reprPt q ++ [.rp]
  | .group h hidden elems points =>
    opens "Group" ++ [.str h.name, .comma] ++ reprPB h.pb ++ [.comma] ++ reprBool hidden ++ [.comma] ++ reprXf h.xf ++
      [.comma, .lc] ++ joinComma (reprDict elems) ++ [.rc, .comma, .lc] ++
      joinComma (points.map fun x => [.str x.1, .colon] ++ reprPt x.2) ++ [.rc, .rp]
  | .holes h outside inside =>
    opens "ElemWithHoles" ++ [.str h.name, .comma] ++ reprPB h.pb ++ [.comma] ++ reprElem outside ++ [.comma, .lb] ++
      joinComma (reprIn inside) ++ [.rb, .comma] ++ reprBool h.closed ++ [.comma] ++ reprXf h.xf ++ [.rp]
/-- The entries of the dict `elems`: `'key': value`. -/
def reprDict : List (Str × DElem) → List (List Tok)
  | [] => []
  | (k, e) :: rest => ([.str k, .colon] ++ reprElem e) :: reprDict rest
/-- The elements of the list `inside`. -/
def reprIn : List DElem → List (List Tok)
  | [] => []
  | e :: rest => reprElem e :: reprIn rest
end

mutual
/-- The element with the dict of every group in the order of its keys, as `sorted(self.elems.items())` (model.py:944) visits it. The
outside of a shape with holes is written by `repr`, which keeps the order of the entries. -/
def sortDicts : DElem → DElem
  | .group h hidden elems points => .group h hidden ((sortAll elems).mergeSort fun x y => decide (x.1 ≤ y.1)) points
  | .holes h o is => .holes h o (sortIn is)
  | .curve h cps => .curve h cps
  | .rect h p q => .rect h p q
  | .rrect h p q r => .rrect h p q r
  | .ellipse h p q => .ellipse h p q
/-- The entries of a dict. -/
def sortAll : List (Str × DElem) → List (Str × DElem)
  | [] => []
  | (k, e) :: rest => (k, sortDicts e) :: sortAll rest
/-- A list of elements. -/
def sortIn : List DElem → List DElem
  | [] => []
  | e :: rest => sortDicts e :: sortIn rest
end

mutual
/-- model.py:541-547, 661-662, 783-784, 812-813, 940-948, 1136-1144 `dump(context)` of an element whose dicts are in the order of
their keys. `with context` raises the depth for its body. -/
def dumpS (dc : DC) : DElem → DC
  | .curve h cps =>
    let dc := dumpElem dc "ElemCurve" h [.id "control_points".toList, .eq, .lb]
    let dc := cps.foldl (fun dc cp => dc.append (reprCp cp ++ [.comma])) { dc with depth := dc.depth + 1 }
    { dc with depth := dc.depth - 1 }.append [.rb, .rp]
  | .rect h p q => dumpElem dc "ElemRectangle" h (kwPt "p1" p ++ [.comma] ++ kwPt "p2" q ++ [.rp])
  | .rrect h p q r => dumpElem dc "ElemRectangleRounded" h
      (kwPt "p1" p ++ [.comma] ++ kwPt "p2" q ++ [.comma, .id "radius".toList, .eq, .num r, .rp])
  | .ellipse h p q => dumpElem dc "ElemEllipse" h (kwPt "p1" p ++ [.comma] ++ kwPt "p2" q ++ [.rp])
  | .group h _ elems _ =>
    let dc := dumpElem dc "Group" h [.id "elems".toList, .eq, .lb]
    let dc := dumpAll { dc with depth := dc.depth + 1 } elems
    { dc with depth := dc.depth - 1 }.append [.rb, .rp]
  | .holes h outside inside =>
    let dc := dumpElem dc "ElemWithHoles" h
      ([.id "outside".toList, .eq] ++ reprElem outside ++ [.comma, .id "inside".toList, .eq, .lb])
    let dc := dumpIn { dc with depth := dc.depth + 1 } inside
    { dc with depth := dc.depth - 1 }.append [.rb, .rp]
/-- model.py:944-946 the loop over the entries of a group. -/
def dumpAll (dc : DC) : List (Str × DElem) → DC
  | [] => dc
  | (_, e) :: rest => dumpAll (dumpS dc e).addComma rest
/-- model.py:1140-1142 the loop over the holes. -/
def dumpIn (dc : DC) : List DElem → DC
  | [] => dc
  | e :: rest => dumpIn (dumpS dc e).addComma rest
end

/-- `elem.dump(context)`. -/
def dump (dc : DC) (e : DElem) : DC := dumpS dc (sortDicts e)

/-- model.py:57-66 `output()`: the lines `name = value` for the variables, in the order of the names, and the lines of the model.
It changes the first line of the context: `'model = '` is put in front of its
indentation. No line is an `IndexError`. -/
def DC.output (dc : DC) : DC × Except PyErr (List (Str × List Tok) × List (ℕ × List Tok)) :=
  match dc.lines with
  | [] => (dc, .error .index)
  | (_, l) :: rest =>
    let dc := { dc with lines := (0, [.id "model".toList, .eq] ++ l) :: rest }
    (dc, .ok ((dc.vars.map fun x => (x.2, x.1)).mergeSort fun x y => decide (x.1 ≤ y.1), dc.lines))

end X7.Dump
