import Verif.Model.Dump

/-!
What dumped text means: the part of Python's grammar that is needed (names, literals, calls with keyword arguments, lists,
tuples, assignments) and the constructors of the classes involved.
-/

noncomputable section

namespace X7.Dump

/-- Expressions. `kw k e` is a keyword argument `k=e`, or an assignment; `item k e` is an entry `'k': e` of a dict. -/
inductive Expr
  | name (s : Str)
  | str (s : Str)
  | num (x : ℝ)
  | int (n : ℤ)
  | call (f : Str) (args : List Expr)
  | list (l : List Expr)
  | tuple (l : List Expr)
  | kw (k : Str) (e : Expr)
  | dict (l : List Expr)
  | item (k : Str) (e : Expr)

mutual
/-- Read one expression; at most `n` nested steps. -/
def parse : ℕ → List Tok → Option (Expr × List Tok)
  | 0, _ => none
  | n + 1, .str k :: .colon :: r =>
    match parse n r with
    | some (e, r) => some (.item k e, r)
    | none => none
  | _ + 1, .str s :: r => some (.str s, r)
  | _ + 1, .num x :: r => some (.num x, r)
  | _ + 1, .int k :: r => some (.int k, r)
  | n + 1, .id f :: .lp :: r =>
    match parseSeq n .rp r with
    | some (args, _, r) => some (.call f args, r)
    | none => none
  | n + 1, .id k :: .eq :: r =>
    match parse n r with
    | some (e, r) => some (.kw k e, r)
    | none => none
  | _ + 1, .id s :: r => some (.name s, r)
  | n + 1, .lb :: r =>
    match parseSeq n .rb r with
    | some (l, _, r) => some (.list l, r)
    | none => none
  | n + 1, .lc :: r =>
    match parseSeq n .rc r with
    | some (l, _, r) => some (.dict l, r)
    | none => none
  | n + 1, .lp :: r =>
    match parseSeq n .rp r with
    | some ([e], false, r) => some (e, r)
    | some (l, _, r) => some (.tuple l, r)
    | none => none
  | _ + 1, _ => none
/-- Read expressions separated by commas up to the closing bracket; a last comma is allowed and reported. -/
def parseSeq : ℕ → Tok → List Tok → Option (List Expr × Bool × List Tok)
  | 0, _, _ => none
  | _ + 1, _, [] => none
  | n + 1, close, t :: r =>
    if t = close then some ([], false, r)
    else
      match parse n (t :: r) with
      | some (e, .comma :: r) =>
        match parseSeq n close r with
        | some (l, b, r) => some (e :: l, b || l.isEmpty, r)
        | none => none
      | some (e, t :: r) => if t = close then some ([e], false, r) else none
      | _ => none
end

/-- Values. -/
inductive Val
  | none
  | bool (b : Bool)
  | str (s : Str)
  | num (x : ℝ)
  | int (n : ℤ)
  | tuple (l : List Val)
  | list (l : List Val)
  | pt (p : DPt)
  | vec (v : DVec)
  | cp (c : DCp)
  | brush (b : Brush)
  | pen (p : Pen)
  | pb (pb : PenBrush)
  | xf (m : Mat3 ℝ)
  | elem (e : DElem)
  | dict (l : List (Str × Val))

/-- Bind arguments to parameters: positional ones in order, keyword ones by name. `none`: `TypeError`. -/
def bindArgs (params : List String) (pos : List Val) (kws : List (Str × Val)) : Option (Str → Option Val) :=
  if params.length < pos.length then none
  else if kws.all fun x => ((params.drop pos.length).map String.toList).contains x.1 then
    some fun k =>
      match (params.map String.toList).idxOf? k with
      | some i => match pos[i]? with
        | some v => some v
        | none => dget kws k
      | none => none
  else none

def Val.int? : Val → Option ℤ
  | .int n => some n
  | _ => Option.none

def Val.cp? : Val → Option DCp
  | .cp c => some c
  | _ => Option.none

/-- The colour a value stands for. -/
def Val.color : Val → Option Color
  | .str s => some (.name (String.ofList s))
  | .int n => some (.num n)
  | .tuple l => (l.mapM Val.int?).map Color.tup
  | _ => Option.none

/-- The optional name argument of a point. -/
def Val.name? : Option Val → Option (Option Str)
  | Option.none => some Option.none
  | some .none => some Option.none
  | some (.str s) => some (some s)
  | _ => Option.none

/-- `hasattr(p, 'base')`. -/
def DPt.hasBase : DPt → Bool
  | .point _ _ _ => false
  | _ => true

/-- geom.py: `p.xy()`; `PointCalc.xy` (523-527) scales the offset of its base. -/
def DPt.xy : DPt → ℝ × ℝ
  | .point x y _ => (x, y)
  | .rel dx dy base _ => (dx + base.xy.1, dy + base.xy.2)
  | .pcalc (.rel dx dy base _) s _ => (base.xy.1 + dx * s, base.xy.2 + dy * s)
  | .pcalc base _ _ => base.xy

def DPt.name : DPt → Option Str
  | .point _ _ n => n
  | .rel _ _ _ n => n
  | .pcalc _ _ n => n

/-- geom.py:320-321 `fixed()`. -/
def DPt.fixed (p : DPt) : DPt :=
  .point p.xy.1 p.xy.2 (match p.name with | some s => if s ≠ [] then some ("fixed_".toList ++ s) else none | none => none)

/-- model.py:138-144 the constructor of `Elem`; `closed` and `xform` are optional. -/
def mkHdr (a : Str → Option Val) (dflt : Bool) : Option DHdr := do
  let .str name ← a "name".toList | none
  let .pb pb ← a "penbrush".toList | none
  let .bool closed ← some ((a "closed".toList).getD (.bool dflt)) | none
  let .xf m ← some ((a "xform".toList).getD (.xf Mat3.one)) | none
  if pb.filled && !closed then none else some ⟨name, pb, closed, m⟩

/-- The control points of a list. -/
def Val.cps : Val → Option (List DCp)
  | .list l => l.mapM Val.cp?
  | _ => Option.none

/-- model.py:554-559 the corners of a P1P2 shape: `closed` has to be True. -/
def mkP1P2 (a : Str → Option Val) : Option (DHdr × DPt × DPt) := do
  let h ← mkHdr a true
  let .pt p1 ← a "p1".toList | none
  let .pt p2 ← a "p2".toList | none
  if h.closed then some (h, p1.fixed, p2.fixed) else none

/-- model.py:833-836, 911-928 `self.add(elem.name, elem, False)` for each element. Names with dots or used twice, which `add`
rejects or changes, are left undefined. -/
def addAll (l : List Val) (d : List (Str × DElem)) : Option (List (Str × DElem)) :=
  match l with
  | [] => some d
  | .elem e :: rest =>
    if '.' ∈ e.hdr.name ∨ e.hdr.name ∈ d.map Prod.fst then none else addAll rest (d ++ [(e.hdr.name, e)])
  | _ => none

/-- model.py:837-838 `dict(elems)`: the elements of a dict, under their keys. -/
def elemDict : List (Str × Val) → Option (List (Str × DElem))
  | [] => some []
  | (k, .elem e) :: rest => (elemDict rest).map fun d => (k, e) :: d
  | _ => none

/-- The argument `elems`: a list of elements, or a dict of elements. -/
def Val.elems : Val → Option (List (Str × DElem))
  | .list l => addAll l []
  | .dict d => elemDict d
  | _ => Option.none

/-- The points of a dict. -/
def ptDict : List (Str × Val) → Option (List (Str × DPt))
  | [] => some []
  | (k, .pt p) :: rest => (ptDict rest).map fun d => (k, p) :: d
  | _ => none

/-- model.py:832 the argument `points`: a dict of points. -/
def Val.pts : Val → Option (List (Str × DPt))
  | .dict d => ptDict d
  | _ => Option.none

/-- Calling a class. `none`: an exception. -/
def construct (f : Str) (pos : List Val) (kws : List (Str × Val)) : Option Val :=
  if f = "Point".toList then do
    let a ← bindArgs ["x", "y", "name"] pos kws
    let .num x ← a "x".toList | none
    let .num y ← a "y".toList | none
    let n ← Val.name? (a "name".toList)
    some (.pt (.point x y n))
  else if f = "PointRelative".toList then do
    let a ← bindArgs ["dx", "dy", "base", "name"] pos kws
    let .num x ← a "dx".toList | none
    let .num y ← a "dy".toList | none
    let .pt b ← a "base".toList | none
    let n ← Val.name? (a "name".toList)
    some (.pt (.rel x y b n))
  else if f = "PointCalc".toList then do
    let a ← bindArgs ["base", "scale", "name"] pos kws
    let .pt b ← a "base".toList | none
    let .num s ← a "scale".toList | none
    let n ← Val.name? (a "name".toList)
    if b.hasBase then some (.pt (.pcalc b s n)) else none
  else if f = "Vector".toList then do
    let a ← bindArgs ["x", "y"] pos kws
    let .num x ← a "x".toList | none
    let .num y ← a "y".toList | none
    some (.vec (.vec x y))
  else if f = "VectorRelative".toList then do
    let a ← bindArgs ["p1", "p2"] pos kws
    let .pt p ← a "p1".toList | none
    let .pt q ← a "p2".toList | none
    some (.vec (.rel p q))
  else if f = "ControlPoint".toList then do
    let a ← bindArgs ["c", "dl", "dr", "kind"] pos kws
    let .pt c ← a "c".toList | none
    let .vec dl ← a "dl".toList | none
    let .vec dr ← a "dr".toList | none
    let .str k ← a "kind".toList | none
    some (.cp ⟨c, dl, dr, k⟩)
  else if f = "Brush".toList then do
    let a ← bindArgs ["color"] pos kws
    let v ← a "color".toList
    let c ← v.color
    some (.brush ⟨c⟩)
  else if f = "Pen".toList then do
    let a ← bindArgs ["brush", "width"] pos kws
    let v ← a "brush".toList
    let c ← v.color
    let .num w ← a "width".toList | none
    some (.pen ⟨⟨c⟩, w⟩)
  else if f = "PenBrush".toList then do
    let a ← bindArgs ["pen", "brush"] pos kws
    let p ← match a "pen".toList with | some .none => some none | some (.pen p) => some (some p) | _ => none
    let b ← match a "brush".toList with | some .none => some none | some (.brush b) => some (some b) | _ => none
    some (.pb ⟨p, b⟩)
  else if f = "Transform".toList then do
    let a ← bindArgs ["mat2x3"] pos kws
    let .tuple [.num a, .num b, .num c, .num d, .num e, .num f] ← a "mat2x3".toList | none
    some (.xf (Mat3.of6 a b c d e f))
  else if f = "ElemCurve".toList then do
    let a ← bindArgs ["name", "penbrush", "control_points", "closed", "xform"] pos kws
    let h ← mkHdr a true
    let v ← a "control_points".toList
    let cps ← v.cps
    some (.elem (.curve h cps))
  else if f = "ElemRectangle".toList then do
    let a ← bindArgs ["name", "penbrush", "p1", "p2", "closed", "xform"] pos kws
    let r ← mkP1P2 a
    some (.elem (.rect r.1 r.2.1 r.2.2))
  else if f = "ElemRectangleRounded".toList then do
    let a ← bindArgs ["name", "penbrush", "p1", "p2", "radius", "closed", "xform"] pos kws
    let r ← mkP1P2 a
    let .num rad ← a "radius".toList | none
    some (.elem (.rrect r.1 r.2.1 r.2.2 rad))
  else if f = "ElemEllipse".toList then do
    let a ← bindArgs ["name", "penbrush", "p1", "p2", "closed", "xform"] pos kws
    let r ← mkP1P2 a
    some (.elem (.ellipse r.1 r.2.1 r.2.2))
  else if f = "Group".toList then do
    let a ← bindArgs ["name", "penbrush", "hidden", "xform", "elems", "points", "closed", "fix_names"] pos kws
    let h ← mkHdr a false
    let .bool hidden ← some ((a "hidden".toList).getD (.bool false)) | none
    let v ← a "elems".toList
    let d ← v.elems
    let ps ← ((a "points".toList).getD (.dict [])).pts
    if (a "fix_names".toList).isSome then none
    else some (.elem (.group h hidden d ps))
  else none

mutual
/-- The value of an expression, `env` giving the values of the variables. `none`: an exception (dicts with a key given twice, of which
Python keeps the last value, are left undefined). -/
def eval (env : Str → Option Val) : Expr → Option Val
  | .name s =>
    if s = "None".toList then some .none else if s = "True".toList then some (.bool true)
    else if s = "False".toList then some (.bool false) else env s
  | .str s => some (.str s)
  | .num x => some (.num x)
  | .int n => some (.int n)
  | .list l => match evalArgs env l with | some (vs, []) => some (.list vs) | _ => none
  | .tuple l => match evalArgs env l with | some (vs, []) => some (.tuple vs) | _ => none
  | .call f args => match evalArgs env args with | some (pos, kws) => construct f pos kws | none => none
  | .kw _ e => eval env e
  | .dict l => match evalItems env l with | some d => if (d.map Prod.fst).Nodup then some (.dict d) else none | none => none
  | .item _ _ => none
/-- The values of arguments: positional and keyword ones. A positional one after a keyword is a `SyntaxError`. -/
def evalArgs (env : Str → Option Val) : List Expr → Option (List Val × List (Str × Val))
  | [] => some ([], [])
  | .kw k e :: rest =>
    match eval env e, evalArgs env rest with
    | some v, some ([], kws) => some ([], (k, v) :: kws)
    | _, _ => none
  | e :: rest =>
    match eval env e, evalArgs env rest with
    | some v, some (pos, kws) => some (v :: pos, kws)
    | _, _ => none
/-- The values of the entries of a dict. -/
def evalItems (env : Str → Option Val) : List Expr → Option (List (Str × Val))
  | [] => some []
  | .item k e :: rest =>
    match eval env e, evalItems env rest with
    | some v, some d => some ((k, v) :: d)
    | _, _ => none
  | _ :: _ => none
end

/-- The expression that makes up a text. -/
def parseAll (toks : List Tok) : Option Expr :=
  match parse toks.length toks with
  | some (e, []) => some e
  | _ => none

/-- The variables set by lines `name = value`; values do not use variables. -/
def envOf (vars : List (Str × List Tok)) : Str → Option Val := fun s =>
  match dget vars s with
  | some toks => match parseAll toks with | some e => eval (fun _ => none) e | none => none
  | none => none

/-- The element a dumped text stands for: first the lines of the variables, then one statement spread over `lines` (line breaks
inside brackets mean nothing): an expression or an assignment of it. -/
def readElem (vars : List (Str × List Tok)) (lines : List (ℕ × List Tok)) : Option DElem :=
  match parseAll (lines.flatMap Prod.snd) with
  | some e => match eval (envOf vars) e with | some (.elem e) => some e | _ => none
  | none => none

/-- Points that survive `repr`: no empty names, `PointCalc` over a point with a base. -/
def DPt.Ok : DPt → Prop
  | .point _ _ n => n ≠ some []
  | .rel _ _ b n => b.Ok ∧ n ≠ some []
  | .pcalc b _ n => b.Ok ∧ b.hasBase = true ∧ n ≠ some []

def DVec.Ok : DVec → Prop
  | .vec _ _ => True
  | .rel p q => p.Ok ∧ q.Ok

def DCp.Ok (c : DCp) : Prop := c.c.Ok ∧ c.dl.Ok ∧ c.dr.Ok

/-- What the constructors guarantee (a filled element is closed), and an affine transform. -/
def DHdr.Ok (h : DHdr) : Prop := (h.pb.filled = true → h.closed = true) ∧ h.xf.Affine

/-- A plain point without a name. -/
def DPt.Plain : DPt → Prop
  | .point _ _ n => n = none
  | _ => False

mutual
/-- Elements that dump can write: no shapes with holes, nothing hidden, no points in groups, groups keyed by the names of their
elements, corners without names. -/
def DElem.Ok : DElem → Prop
  | .curve h cps => h.Ok ∧ ∀ c ∈ cps, c.Ok
  | .rect h p q => h.Ok ∧ h.closed = true ∧ p.Plain ∧ q.Plain
  | .rrect h p q _ => h.Ok ∧ h.closed = true ∧ p.Plain ∧ q.Plain
  | .ellipse h p q => h.Ok ∧ h.closed = true ∧ p.Plain ∧ q.Plain
  | .group h hidden elems points =>
    h.Ok ∧ hidden = false ∧ points = [] ∧ (elems.map Prod.fst).Nodup ∧ OkAll elems
  | .holes _ _ _ => False
/-- The entries of a group. -/
def OkAll : List (Str × DElem) → Prop
  | [] => True
  | (k, e) :: rest => (k = e.hdr.name ∧ '.' ∉ k ∧ e.Ok) ∧ OkAll rest
end

mutual
/-- `==` of elements: everything equal, dicts equal whatever the order of their entries. -/
inductive Same : DElem → DElem → Prop
  | refl (e : DElem) : Same e e
  | group (h : DHdr) (hidden : Bool) (points : List (Str × DPt)) {d d' d'' : List (Str × DElem)} :
      SameDict d d' → d'.Perm d'' → Same (.group h hidden d points) (.group h hidden d'' points)
/-- Dicts with the same keys in the same order and equal elements. -/
inductive SameDict : List (Str × DElem) → List (Str × DElem) → Prop
  | nil : SameDict [] []
  | cons {k : Str} {e e' : DElem} {d d' : List (Str × DElem)} : Same e e' → SameDict d d' → SameDict ((k, e) :: d) ((k, e') :: d')
end

end X7.Dump
