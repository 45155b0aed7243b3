import Verif.Model.Printed

/-! What printed forms mean, and what of a value is shown in them. -/

noncomputable section

namespace X7.Dump

/-- What a text evaluates to in Python, no variables being set. -/
def readVal (toks : List Tok) : Option Val :=
  match parseAll toks with
  | some e => eval (fun _ => none) e
  | none => none

/-- The arguments of a text that is a call of the class `f` with the given parameters. -/
def readCall (f : String) (params : List String) (toks : List Tok) : Option (Str → Option Val) :=
  match parseAll toks with
  | some (.call g args) =>
    if g = f.toList then match evalArgs (fun _ => none) args with | some (pos, kws) => bindArgs params pos kws | none => none
    else none
  | _ => none

/-- The line a text evaluates to (geom.py:815-822 `Line.__init__`). -/
def readLine (toks : List Tok) : Option DLine :=
  match readCall "Line" ["origin", "direction"] toks with
  | some a =>
    match a "origin".toList, a "direction".toList with
    | some (.pt o), some (.vec v) => some ⟨o, v⟩
    | some (.pt o), some (.pt q) => some ⟨o, .vec (q.xy.1 - o.xy.1) (q.xy.2 - o.xy.2)⟩
    | _, _ => none
  | none => none

/-- A value as an argument of `BBox`. -/
def Val.barg : Option Val → Option (BArg ℝ)
  | some (.num x) => some (.num x)
  | some .none => Option.none
  | Option.none => Option.none
  | some _ => some .other

/-- The box a text evaluates to. -/
def readBox (toks : List Tok) : Option (BBox ℝ) :=
  match readCall "BBox" ["xl", "yl", "xh", "yh"] toks with
  | some a =>
    match BBox.init (Val.barg (a "xl".toList)) (Val.barg (a "yl".toList)) (Val.barg (a "xh".toList)) (Val.barg (a "yh".toList)) with
    | .ok b => some b
    | .error _ => none
  | none => none

/-- An optional pen argument. -/
def Val.pb? : Option Val → Option PenBrush
  | some (.pb p) => some p
  | _ => Option.none

/-- The `PensByShape` a text evaluates to. -/
def readPens (toks : List Tok) : Option (ByShape PenBrush) :=
  match readCall "PensByShape" ["edge", "filled", "clear", "edge_filled", "edge_clear"] toks with
  | some a => some (PensByShape.init (Val.pb? (a "edge".toList)) (Val.pb? (a "filled".toList)) (Val.pb? (a "clear".toList))
      (Val.pb? (a "edge_filled".toList)) (Val.pb? (a "edge_clear".toList)))
  | none => none

/-- No empty name: None instead. -/
def shownName : Option Str → Option Str
  | some [] => none
  | n => n

/-- The point with None for empty names. -/
def DPt.shown : DPt → DPt
  | .point x y n => .point x y (shownName n)
  | .rel dx dy b n => .rel dx dy b.shown (shownName n)
  | .pcalc b s n => .pcalc b.shown s (shownName n)

def DVec.shown : DVec → DVec
  | .vec x y => .vec x y
  | .rel p q => .rel p.shown q.shown

def DCp.shown (c : DCp) : DCp := ⟨c.c.shown, c.dl.shown, c.dr.shown, c.kind⟩

def DLine.shown (l : DLine) : DLine := ⟨l.origin.shown, l.direction.shown⟩

/-- What the constructor of `PointCalc` checks, at every depth. -/
def DPt.Made : DPt → Prop
  | .point _ _ _ => True
  | .rel _ _ b _ => b.Made
  | .pcalc b _ _ => b.Made ∧ b.hasBase = true

def DVec.Made : DVec → Prop
  | .vec _ _ => True
  | .rel p q => p.Made ∧ q.Made

def DCp.Made (c : DCp) : Prop := c.c.Made ∧ c.dl.Made ∧ c.dr.Made

/-- The first two rows of a matrix. -/
def rows2 (m : Mat3 ℝ) : Mat3 ℝ := Mat3.of6 m.a m.b m.c m.d m.e m.f

mutual
/-- The element with everything replaced that its text does not show: pens, `closed` and transforms of curves and P1P2 shapes,
`closed` of groups. -/
def DElem.shown : DElem → DElem
  | .curve h cps => .curve ⟨h.name, ⟨none, none⟩, true, Mat3.one⟩ (cps.map DCp.shown)
  | .rect h p q => .rect ⟨h.name, ⟨none, none⟩, true, Mat3.one⟩ p.shown q.shown
  | .rrect h p q r => .rrect ⟨h.name, ⟨none, none⟩, true, Mat3.one⟩ p.shown q.shown r
  | .ellipse h p q => .ellipse ⟨h.name, ⟨none, none⟩, true, Mat3.one⟩ p.shown q.shown
  | .group h hid es ps => .group ⟨h.name, h.pb, false, rows2 h.xf⟩ hid (shownAll es) (ps.map fun x => (x.1, x.2.shown))
  | .holes h o is => .holes ⟨h.name, h.pb, h.closed, rows2 h.xf⟩ o.shown (shownIn is)
def shownAll : List (Str × DElem) → List (Str × DElem)
  | [] => []
  | (k, e) :: rest => (k, e.shown) :: shownAll rest
def shownIn : List DElem → List DElem
  | [] => []
  | e :: rest => e.shown :: shownIn rest
end

mutual
/-- Groups of groups and points, as the constructors make them: affine transforms, no brush (groups that are not closed cannot be
filled), dicts. -/
def DElem.Readable : DElem → Prop
  | .group h _ es ps => h.pb.filled = false ∧ h.xf.Affine ∧ (es.map Prod.fst).Nodup ∧ (ps.map Prod.fst).Nodup ∧
      (∀ x ∈ ps, x.2.Made) ∧ ReadableAll es
  | _ => False
def ReadableAll : List (Str × DElem) → Prop
  | [] => True
  | (_, e) :: rest => e.Readable ∧ ReadableAll rest
end

/-- Curves and P1P2 shapes, made of points that the constructors make. -/
def DElem.Basic : DElem → Prop
  | .curve _ cps => ∀ c ∈ cps, c.Made
  | .rect _ p q => p.Made ∧ q.Made
  | .rrect _ p q _ => p.Made ∧ q.Made
  | .ellipse _ p q => p.Made ∧ q.Made
  | _ => False

/-- geom.py:109-110, 246-247 `xy()` of a vector. -/
def DVec.xy : DVec → ℝ × ℝ
  | .vec x y => (x, y)
  | .rel p q => (p.xy.1 - q.xy.1, p.xy.2 - q.xy.2)

/-- Coordinates that differ by at most `d`. -/
def Near (d : ℝ) (a b : ℝ × ℝ) : Prop := |a.1 - b.1| ≤ d ∧ |a.2 - b.2| ≤ d

end X7.Dump
