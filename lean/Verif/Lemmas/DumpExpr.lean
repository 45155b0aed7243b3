import Verif.Lemmas.Dump

/-! Lemmas for Props/Dump: the expressions behind the texts of values, and what they evaluate to. -/

noncomputable section

namespace X7.Dump

def nameE : Option Str → List Expr
  | some s => if s ≠ [] then [.str s] else []
  | none => []

def exprPt : DPt → Expr
  | .point x y n => .call "Point".toList ([.num x, .num y] ++ nameE n)
  | .rel dx dy b n => .call "PointRelative".toList ([.num dx, .num dy, exprPt b] ++ nameE n)
  | .pcalc b s n => .call "PointCalc".toList ([exprPt b, .num s] ++ nameE n)

def exprVec : DVec → Expr
  | .vec x y => .call "Vector".toList [.num x, .num y]
  | .rel p q => .call "VectorRelative".toList [exprPt p, exprPt q]

def exprCp (c : DCp) : Expr := .call "ControlPoint".toList [exprPt c.c, exprVec c.dl, exprVec c.dr, .str c.kind]

def exprColor : Color → Expr
  | .name s => .str s.toList
  | .num n => .int n
  | .tup l => .tuple (l.map Expr.int)

def exprBrush : Option Brush → Expr
  | none => .name "None".toList
  | some b => .call "Brush".toList [exprColor b.color]

def exprPen : Option Pen → Expr
  | none => .name "None".toList
  | some p => .call "Pen".toList [exprColor p.brush.color, .num p.width]

def exprPB (pb : PenBrush) : Expr := .call "PenBrush".toList [exprPen pb.pen, exprBrush pb.brush]

def exprXf (m : Mat3 ℝ) : Expr :=
  .call "Transform".toList [.tuple [.num m.a, .num m.b, .num m.c, .num m.d, .num m.e, .num m.f]]

theorem toks_exprPt (p : DPt) : toks (exprPt p) = reprPt p := by
  induction p with
  | point x y n =>
    cases n with
    | none => simp [exprPt, toks, sepToks, reprPt, opens, nameE, nameToks]
    | some s => by_cases h : s = [] <;> simp [exprPt, toks, sepToks, reprPt, opens, nameE, nameToks, h]
  | rel dx dy b n ih =>
    cases n with
    | none => simp [exprPt, toks, sepToks, reprPt, opens, nameE, nameToks, ih]
    | some s => by_cases h : s = [] <;> simp [exprPt, toks, sepToks, reprPt, opens, nameE, nameToks, h, ih]
  | pcalc b s n ih =>
    cases n with
    | none => simp [exprPt, toks, sepToks, reprPt, opens, nameE, nameToks, ih]
    | some s => by_cases h : s = [] <;> simp [exprPt, toks, sepToks, reprPt, opens, nameE, nameToks, h, ih]

theorem toks_exprVec (v : DVec) : toks (exprVec v) = reprVec v := by
  cases v <;> simp [exprVec, toks, sepToks, reprVec, opens, toks_exprPt]

theorem toks_exprCp (c : DCp) : toks (exprCp c) = reprCp c := by
  simp [exprCp, toks, sepToks, reprCp, opens, toks_exprPt, toks_exprVec]

theorem sepToks_ints (l : List ℤ) : sepToks (l.map Expr.int) = intToks l := by
  induction l with
  | nil => simp [sepToks, intToks]
  | cons a l ih =>
    cases l with
    | nil => simp [sepToks, intToks, toks]
    | cons b l =>
      simp only [List.map_cons] at ih ⊢
      rw [sepToks, ih]
      · simp [toks, intToks]
      · simp

theorem toks_exprColor (c : Color) : toks (exprColor c) = reprColor c := by
  cases c with
  | name s => simp [exprColor, toks, reprColor]
  | num n => simp [exprColor, toks, reprColor]
  | tup l =>
    match l with
    | [] => simp [exprColor, toks, reprColor, tupToks, intToks]
    | [a] => simp [exprColor, toks, reprColor, tupToks]
    | a :: b :: l =>
      have := sepToks_ints (b :: l)
      simp only [List.map_cons] at this
      simp only [exprColor, toks, List.map_cons, tupToks, this]
      simp [reprColor, intToks]

theorem toks_exprBrush (b : Option Brush) : toks (exprBrush b) = reprBrush b := by
  cases b <;> simp [exprBrush, toks, sepToks, reprBrush, opens, toks_exprColor]

theorem toks_exprPen (b : Option Pen) : toks (exprPen b) = reprPen b := by
  cases b <;> simp [exprPen, toks, sepToks, reprPen, opens, toks_exprColor]

theorem toks_exprPB (pb : PenBrush) : toks (exprPB pb) = reprPB pb := by
  simp [exprPB, toks, sepToks, reprPB, opens, toks_exprPen, toks_exprBrush]

theorem toks_exprXf (m : Mat3 ℝ) : toks (exprXf m) = reprXf m := by
  simp [exprXf, toks, sepToks, tupToks, reprXf, opens]

/-- Not a keyword argument. -/
def Expr.NoKw : Expr → Prop
  | .kw _ _ => False
  | _ => True

theorem evalArgs_cons {env : Str → Option Val} {e : Expr} {rest : List Expr} (h : e.NoKw) :
    evalArgs env (e :: rest) =
      match eval env e, evalArgs env rest with
      | some v, some (pos, kws) => some (v :: pos, kws)
      | _, _ => none := by
  cases e with
  | kw => exact absurd h (by simp [Expr.NoKw])
  | _ => simp only [evalArgs]; rfl

theorem evalArgs_kw {env : Str → Option Val} {k : Str} {e : Expr} {rest : List Expr} :
    evalArgs env (.kw k e :: rest) =
      match eval env e, evalArgs env rest with
      | some v, some ([], kws) => some ([], (k, v) :: kws)
      | _, _ => none := by
  simp only [evalArgs]; rfl

theorem evalArgs_ok {env : Str → Option Val} {e : Expr} {rest : List Expr} {v : Val} {pos : List Val}
    {kws : List (Str × Val)} (h : e.NoKw) (he : eval env e = some v) (hr : evalArgs env rest = some (pos, kws)) :
    evalArgs env (e :: rest) = some (v :: pos, kws) := by
  rw [evalArgs_cons h, he, hr]

theorem evalArgs_kw_ok {env : Str → Option Val} {k : Str} {e : Expr} {rest : List Expr} {v : Val}
    {kws : List (Str × Val)} (he : eval env e = some v) (hr : evalArgs env rest = some ([], kws)) :
    evalArgs env (.kw k e :: rest) = some ([], (k, v) :: kws) := by
  rw [evalArgs_kw, he, hr]

theorem evalArgs_nil {env : Str → Option Val} : evalArgs env [] = some ([], []) := by simp [evalArgs]

theorem eval_call {env : Str → Option Val} {f : Str} {args : List Expr} {pos : List Val} {kws : List (Str × Val)}
    (h : evalArgs env args = some (pos, kws)) : eval env (.call f args) = construct f pos kws := by
  simp only [eval]; rw [h]

theorem nk_num (x : ℝ) : (Expr.num x).NoKw := trivial
theorem nk_str (x : Str) : (Expr.str x).NoKw := trivial
theorem nk_int (x : ℤ) : (Expr.int x).NoKw := trivial
theorem nk_tuple (x : List Expr) : (Expr.tuple x).NoKw := trivial
theorem noKw_exprPt (p : DPt) : (exprPt p).NoKw := by cases p <;> trivial
theorem noKw_exprVec (p : DVec) : (exprVec p).NoKw := by cases p <;> trivial
theorem noKw_exprColor (p : Color) : (exprColor p).NoKw := by cases p <;> trivial
theorem noKw_exprPen (p : Option Pen) : (exprPen p).NoKw := by cases p <;> trivial
theorem noKw_exprBrush (p : Option Brush) : (exprBrush p).NoKw := by cases p <;> trivial

theorem eval_num (env : Str → Option Val) (x : ℝ) : eval env (.num x) = some (.num x) := by simp [eval]
theorem eval_str (env : Str → Option Val) (x : Str) : eval env (.str x) = some (.str x) := by simp [eval]

theorem eval_exprPt (env : Str → Option Val) (p : DPt) (h : p.Ok) : eval env (exprPt p) = some (.pt p) := by
  induction p with
  | point x y n =>
    cases n with
    | none =>
      rw [exprPt, show nameE none = [] from rfl, List.append_nil]
      rw [eval_call (evalArgs_ok (nk_num _) (eval_num _ _) (evalArgs_ok (nk_num _) (eval_num _ _) evalArgs_nil))]
      rfl
    | some s =>
      have hs : s ≠ [] := by simpa [DPt.Ok] using h
      have : nameE (some s) = [.str s] := by simp [nameE, hs]
      rw [exprPt, this]
      simp only [List.cons_append, List.nil_append]
      rw [eval_call (evalArgs_ok (nk_num _) (eval_num _ _) (evalArgs_ok (nk_num _) (eval_num _ _)
        (evalArgs_ok (nk_str _) (eval_str _ _) evalArgs_nil)))]
      rfl
  | rel dx dy b n ih =>
    have hb := ih h.1
    cases n with
    | none =>
      rw [exprPt, show nameE none = [] from rfl, List.append_nil]
      rw [eval_call (evalArgs_ok (nk_num _) (eval_num _ _) (evalArgs_ok (nk_num _) (eval_num _ _)
        (evalArgs_ok (noKw_exprPt b) hb evalArgs_nil)))]
      rfl
    | some s =>
      have hs : s ≠ [] := by simpa using h.2
      have : nameE (some s) = [.str s] := by simp [nameE, hs]
      rw [exprPt, this]
      simp only [List.cons_append, List.nil_append]
      rw [eval_call (evalArgs_ok (nk_num _) (eval_num _ _) (evalArgs_ok (nk_num _) (eval_num _ _)
        (evalArgs_ok (noKw_exprPt b) hb (evalArgs_ok (nk_str _) (eval_str _ _) evalArgs_nil))))]
      rfl
  | pcalc b s n ih =>
    have hb := ih h.1
    have key : ∀ n, (if b.hasBase then some (Val.pt (.pcalc b s n)) else none) = some (.pt (.pcalc b s n)) := by
      intro n; rw [if_pos h.2.1]
    cases n with
    | none =>
      rw [exprPt, show nameE none = [] from rfl, List.append_nil]
      rw [eval_call (evalArgs_ok (noKw_exprPt b) hb (evalArgs_ok (nk_num _) (eval_num _ _) evalArgs_nil))]
      exact key none
    | some t =>
      have hs : t ≠ [] := by simpa using h.2.2
      have : nameE (some t) = [.str t] := by simp [nameE, hs]
      rw [exprPt, this]
      simp only [List.cons_append, List.nil_append]
      rw [eval_call (evalArgs_ok (noKw_exprPt b) hb (evalArgs_ok (nk_num _) (eval_num _ _)
        (evalArgs_ok (nk_str _) (eval_str _ _) evalArgs_nil)))]
      exact key (some t)

theorem eval_exprVec (env : Str → Option Val) (v : DVec) (h : v.Ok) : eval env (exprVec v) = some (.vec v) := by
  cases v with
  | vec x y =>
    rw [exprVec, eval_call (evalArgs_ok (nk_num _) (eval_num _ _) (evalArgs_ok (nk_num _) (eval_num _ _) evalArgs_nil))]
    rfl
  | rel p q =>
    rw [exprVec, eval_call (evalArgs_ok (noKw_exprPt p) (eval_exprPt _ p h.1)
      (evalArgs_ok (noKw_exprPt q) (eval_exprPt _ q h.2) evalArgs_nil))]
    rfl

theorem eval_exprCp (env : Str → Option Val) (c : DCp) (h : c.Ok) : eval env (exprCp c) = some (.cp c) := by
  rw [exprCp, eval_call (evalArgs_ok (noKw_exprPt c.c) (eval_exprPt _ _ h.1)
    (evalArgs_ok (noKw_exprVec c.dl) (eval_exprVec _ _ h.2.1) (evalArgs_ok (noKw_exprVec c.dr) (eval_exprVec _ _ h.2.2)
      (evalArgs_ok (nk_str _) (eval_str _ _) evalArgs_nil))))]
  rfl

theorem evalArgs_ints (env : Str → Option Val) (l : List ℤ) : evalArgs env (l.map Expr.int) = some (l.map Val.int, []) := by
  induction l with
  | nil => simp [evalArgs]
  | cons a l ih =>
    simp only [List.map_cons]
    exact evalArgs_ok (nk_int _) (by simp [eval]) ih

/-- The value a colour evaluates to. -/
def colorVal : Color → Val
  | .name s => .str s.toList
  | .num n => .int n
  | .tup l => .tuple (l.map Val.int)

theorem eval_exprColor (env : Str → Option Val) (c : Color) : eval env (exprColor c) = some (colorVal c) := by
  cases c with
  | name s => simp [exprColor, eval, colorVal]
  | num n => simp [exprColor, eval, colorVal]
  | tup l =>
    simp only [exprColor, eval, colorVal]
    rw [evalArgs_ints]

theorem mapM_ints (l : List ℤ) :
    (l.map Val.int).mapM Val.int? = some l := by
  induction l with
  | nil => rfl
  | cons a l ih =>
    rw [List.map_cons, List.mapM_cons, ih]
    rfl

theorem color_colorVal (c : Color) : (colorVal c).color = some c := by
  cases c with
  | name s => simp [colorVal, Val.color]
  | num n => rfl
  | tup l =>
    simp only [colorVal, Val.color]
    rw [mapM_ints]
    rfl

theorem construct_brush (c : Color) : construct "Brush".toList [colorVal c] [] = some (.brush ⟨c⟩) := by
  have : construct "Brush".toList [colorVal c] [] = (colorVal c).color.bind fun c => some (.brush ⟨c⟩) := rfl
  rw [this, color_colorVal]
  rfl

theorem construct_pen (c : Color) (w : ℝ) : construct "Pen".toList [colorVal c, .num w] [] = some (.pen ⟨⟨c⟩, w⟩) := by
  have : construct "Pen".toList [colorVal c, .num w] [] = (colorVal c).color.bind fun c => some (.pen ⟨⟨c⟩, w⟩) := rfl
  rw [this, color_colorVal]
  rfl

/-- The value an optional pen evaluates to. -/
def penVal : Option Pen → Val
  | none => .none
  | some p => .pen p

def brushVal : Option Brush → Val
  | none => .none
  | some b => .brush b

theorem eval_exprPen (env : Str → Option Val) (p : Option Pen) : eval env (exprPen p) = some (penVal p) := by
  cases p with
  | none => simp [exprPen, eval, penVal]
  | some p =>
    rw [exprPen, eval_call (evalArgs_ok (noKw_exprColor _) (eval_exprColor _ _)
      (evalArgs_ok (nk_num _) (eval_num _ _) evalArgs_nil)), construct_pen]
    rfl

theorem eval_exprBrush (env : Str → Option Val) (p : Option Brush) : eval env (exprBrush p) = some (brushVal p) := by
  cases p with
  | none => simp [exprBrush, eval, brushVal]
  | some p =>
    rw [exprBrush, eval_call (evalArgs_ok (noKw_exprColor _) (eval_exprColor _ _) evalArgs_nil), construct_brush]
    rfl

theorem eval_exprPB (env : Str → Option Val) (pb : PenBrush) : eval env (exprPB pb) = some (.pb pb) := by
  rw [exprPB, eval_call (evalArgs_ok (noKw_exprPen _) (eval_exprPen _ _)
    (evalArgs_ok (noKw_exprBrush _) (eval_exprBrush _ _) evalArgs_nil))]
  obtain ⟨p, b⟩ := pb
  cases p <;> cases b <;> rfl

theorem eval_exprXf (env : Str → Option Val) (m : Mat3 ℝ) (h : m.Affine) : eval env (exprXf m) = some (.xf m) := by
  have ht : eval env (.tuple [.num m.a, .num m.b, .num m.c, .num m.d, .num m.e, .num m.f]) =
      some (.tuple [.num m.a, .num m.b, .num m.c, .num m.d, .num m.e, .num m.f]) := by
    simp [eval, evalArgs]
  rw [exprXf, eval_call (evalArgs_ok (nk_tuple _) ht evalArgs_nil)]
  have : construct "Transform".toList [.tuple [.num m.a, .num m.b, .num m.c, .num m.d, .num m.e, .num m.f]] [] =
      some (.xf (Mat3.of6 m.a m.b m.c m.d m.e m.f)) := rfl
  rw [this]
  obtain ⟨h1, h2, h3⟩ := h
  congr 2
  ext <;> simp [Mat3.of6, h1, h2, h3]

end X7.Dump
