import Verif.Lemmas.Printed

/-! C101: printed forms. -/

noncomputable section

namespace X7.Dump

/-! ### `repr` reads back -/

/-- C101: the text of a point evaluates to that point, empty names being lost. -/
theorem C101_point (p : DPt) (h : p.Made) : readVal (reprPt p) = some (.pt p.shown) := by
  rw [← reprPt_shown, ← toks_exprPt, readVal_toks, eval_exprPt _ _ (shown_ok h)]

/-- C101: the text of a vector evaluates to that vector. -/
theorem C101_vector (v : DVec) (h : v.Made) : readVal (reprVec v) = some (.vec v.shown) := by
  rw [← reprVec_shown, ← toks_exprVec, readVal_toks, eval_exprVec _ _ (vecShown_ok h)]

/-- C101: the text of a control point evaluates to that control point. -/
theorem C101_control_point (c : DCp) (h : c.Made) : readVal (reprCp c) = some (.cp c.shown) := by
  rw [← reprCp_shown, ← toks_exprCp, readVal_toks, eval_exprCp]
  exact ⟨shown_ok h.1, vecShown_ok h.2.1, vecShown_ok h.2.2⟩

/-- C101: the text of a brush, a pen, or a pair of them evaluates to it. -/
theorem C101_pens (b : Brush) (p : Pen) (pb : PenBrush) : readVal (reprBrush (some b)) = some (.brush b) ∧
    readVal (reprPen (some p)) = some (.pen p) ∧ readVal (reprPB pb) = some (.pb pb) := by
  refine ⟨?_, ?_, ?_⟩
  · rw [← toks_exprBrush, readVal_toks, eval_exprBrush]; rfl
  · rw [← toks_exprPen, readVal_toks, eval_exprPen]; rfl
  · rw [← toks_exprPB, readVal_toks, eval_exprPB]

/-- C101: the text of a transform evaluates to the transform with the same first two rows: the same one if it is affine. -/
theorem C101_transform (m : Mat3 ℝ) : readVal (reprXf m) = some (.xf (rows2 m)) ∧ (rows2 m = m ↔ m.Affine) := by
  constructor
  · rw [← reprXf_rows, ← toks_exprXf, readVal_toks, eval_exprXf _ _ ⟨rfl, rfl, rfl⟩]
  · exact ⟨fun h => by rw [← h]; exact ⟨rfl, rfl, rfl⟩, rows2_affine⟩

theorem readCall_toks {f : String} {params : List String} {args : List Expr} {pos : List Val} {kws : List (Str × Val)}
    (h : evalArgs (fun _ => none) args = some (pos, kws)) : readCall f params (toks (.call f.toList args)) = bindArgs params pos kws := by
  unfold readCall
  rw [parseAll_toks]
  simp only [if_true]
  rw [h]

/-- The expression of a line. -/
theorem toks_line (l : DLine) : toks (.call "Line".toList [exprPt l.origin, exprVec l.direction]) = reprLine l := by
  simp [toks, sepToks, reprLine, opens, toks_exprPt, toks_exprVec]

theorem reprLine_shown (l : DLine) : reprLine l.shown = reprLine l := by
  simp [reprLine, DLine.shown, reprPt_shown, reprVec_shown]

/-- C101: the text of a line evaluates to that line. -/
theorem C101_line (l : DLine) (ho : l.origin.Made) (hd : l.direction.Made) : readLine (reprLine l) = some l.shown := by
  rw [← reprLine_shown, ← toks_line]
  unfold readLine
  simp only [DLine.shown]
  rw [readCall_toks (evalArgs_ok (noKw_exprPt _) (eval_exprPt _ _ (shown_ok ho))
    (evalArgs_ok (noKw_exprVec _) (eval_exprVec _ _ (vecShown_ok hd)) evalArgs_nil))]
  rfl

/-- The expression of a coordinate of a box. -/
def coordE : Option ℝ → Expr
  | some x => .num x
  | none => .name "None".toList

def coordV : Option ℝ → Val
  | some x => .num x
  | none => .none

theorem eval_coordE (env : Str → Option Val) (x : Option ℝ) : eval env (coordE x) = some (coordV x) := by
  cases x <;> simp [coordE, coordV, eval]

def boxE (a b c d : Option ℝ) : Expr := .call "BBox".toList
  [.kw "xl".toList (coordE a), .kw "yl".toList (coordE b), .kw "xh".toList (coordE c), .kw "yh".toList (coordE d)]

theorem toks_box (b : BBox ℝ) : reprBox b = toks (match b with
    | .none => boxE none none none none | .box xl yl xh yh => boxE (some xl) (some yl) (some xh) (some yh)) := by
  cases b <;> simp [reprBox, boxToks, boxE, coordE, toks, sepToks, opens]

theorem read_boxE (a b c d : Option ℝ) : readCall "BBox" ["xl", "yl", "xh", "yh"] (toks (boxE a b c d)) =
    bindArgs ["xl", "yl", "xh", "yh"] [] [("xl".toList, coordV a), ("yl".toList, coordV b), ("xh".toList, coordV c),
      ("yh".toList, coordV d)] :=
  readCall_toks (evalArgs_kw_ok (eval_coordE _ _) (evalArgs_kw_ok (eval_coordE _ _) (evalArgs_kw_ok (eval_coordE _ _)
    (evalArgs_kw_ok (eval_coordE _ _) evalArgs_nil))))

/-- C101: the text of a box evaluates to that box, with its coordinates put in order; of a box without coordinates to such a box. -/
theorem C101_box : readBox (reprBox .none) = some .none ∧
    ∀ xl yl xh yh, readBox (reprBox (.box xl yl xh yh)) = some (.box (min xl xh) (min yl yh) (max xl xh) (max yl yh)) := by
  constructor
  · rw [toks_box]
    unfold readBox
    rw [read_boxE]
    rfl
  · intro xl yl xh yh
    rw [toks_box]
    unfold readBox
    rw [read_boxE]
    rfl

def pensE (s : ByShape PenBrush) : Expr := .call "PensByShape".toList
  [.kw "edge".toList (exprPB s.edge), .kw "filled".toList (exprPB s.filled), .kw "clear".toList (exprPB s.clear),
    .kw "edge_filled".toList (exprPB s.edge_filled), .kw "edge_clear".toList (exprPB s.edge_clear)]

theorem toks_pens (s : ByShape PenBrush) : toks (pensE s) = reprPens s := by
  simp [reprPens, pensE, toks, sepToks, opens, toks_exprPB]

/-- C101: the text of a `PensByShape` evaluates to it. -/
theorem C101_pens_by_shape (s : ByShape PenBrush) : readPens (reprPens s) = some s := by
  rw [← toks_pens]
  unfold readPens pensE
  rw [readCall_toks (evalArgs_kw_ok (eval_exprPB _ _) (evalArgs_kw_ok (eval_exprPB _ _) (evalArgs_kw_ok (eval_exprPB _ _)
    (evalArgs_kw_ok (eval_exprPB _ _) (evalArgs_kw_ok (eval_exprPB _ _) evalArgs_nil)))))]
  rfl

/-! ### Equal texts -/

/-- C101: two points, vectors, control points, lines or pens have the same text exactly if they are the same, up to empty names;
two transforms exactly if their first two rows are the same; two boxes exactly if their coordinates are. -/
theorem C101_same_text :
    (∀ p q : DPt, reprPt p = reprPt q ↔ p.shown = q.shown) ∧ (∀ p q : DVec, reprVec p = reprVec q ↔ p.shown = q.shown) ∧
    (∀ p q : DCp, reprCp p = reprCp q ↔ p.shown = q.shown) ∧ (∀ p q : DLine, reprLine p = reprLine q ↔ p.shown = q.shown) ∧
    (∀ p q : PenBrush, reprPB p = reprPB q ↔ p = q) ∧ (∀ p q : ByShape PenBrush, reprPens p = reprPens q ↔ p = q) ∧
    (∀ m n : Mat3 ℝ, reprXf m = reprXf n ↔ rows2 m = rows2 n) ∧ (∀ b c : BBox ℝ, reprBox b = reprBox c ↔ b = c) := by
  have s0 : Stop [] := by simp [Stop]
  have ap : ∀ {a b : List Tok}, a = b → a ++ [] = b ++ [] := fun h => by rw [h]
  refine ⟨fun p q => ⟨fun h => (pt_code (ap h) s0 s0).1, fun h => ?_⟩, fun p q => ⟨fun h => (vec_code (ap h) s0 s0).1, fun h => ?_⟩,
    fun p q => ⟨fun h => (cp_code (ap h) s0 s0).1, fun h => ?_⟩, fun p q => ⟨fun h => ?_, fun h => ?_⟩,
    fun p q => ⟨fun h => (pb_code (ap h) s0 s0).1, fun h => by rw [h]⟩, fun p q => ⟨fun h => ?_, fun h => by rw [h]⟩,
    fun m n => ⟨fun h => (xf_code (ap h) s0 s0).1, fun h => ?_⟩, fun b c => ⟨fun h => ?_, fun h => by rw [h]⟩⟩
  · rw [← reprPt_shown, h, reprPt_shown]
  · rw [← reprVec_shown, h, reprVec_shown]
  · rw [← reprCp_shown, h, reprCp_shown]
  · rw [← toks_line, ← toks_line] at h
    have := (toks_inj (ap h) s0 s0).1
    simp only [Expr.call.injEq, true_and, List.cons.injEq, and_true] at this
    simp [DLine.shown, exprPt_inj this.1, exprVec_inj this.2]
  · rw [← reprLine_shown, h, reprLine_shown]
  · have := C101_pens_by_shape p
    rw [h, C101_pens_by_shape q] at this
    simpa using this.symm
  · rw [← reprXf_rows, h, reprXf_rows]
  · cases b <;> cases c <;> simp_all [reprBox, boxToks, opens]

/-- C101: two elements have the same text exactly if they are the same up to what the text does not show. -/
theorem C101_elem (e e' : DElem) : reprElem e = reprElem e' ↔ e.shown = e'.shown := by
  constructor
  · intro h
    exact (elem_code e e' [] [] (by rw [h])).1
  · intro h
    rw [← reprElem_shown, h, reprElem_shown]

/-! ### Elements -/

/-- C101: the text of a group of groups and points evaluates to that group, except that it is not closed. -/
theorem C101_group (e : DElem) (h : e.Readable) : readVal (reprElem e) = some (.elem e.shown) := by
  rw [← toks_exprG e h, readVal_toks, eval_exprG e h]

/-- C101: the text of a filled group (which has to be closed) cannot be evaluated. -/
theorem C101_group_filled_counterexample (hd : DHdr) (hid : Bool) (es : List (Str × DElem)) (ps : List (Str × DPt))
    (hf : hd.pb.filled = true) (hx : hd.xf.Affine) (hes : (es.map Prod.fst).Nodup) (hps : (ps.map Prod.fst).Nodup)
    (hp : ∀ x ∈ ps, x.2.Made) (hr : ReadableAll es) : readVal (reprElem (.group hd hid es ps)) = none := by
  have ht : toks (exprG (.group hd hid es ps)) = reprElem (.group hd hid es ps) := by
    simp only [exprG, toks, sepToks, reprElem, toks_exprPB, toks_exprXf, opens, reprBool, sep_join, toks_exprD es hr, List.map_map,
      Function.comp_def, toks_exprPt]
    simp
  rw [← ht, readVal_toks, exprG, eval_call (pos := [.str hd.name, .pb hd.pb, .bool hid, .xf hd.xf,
    .dict (es.map fun x => (x.1, .elem x.2.shown)), .dict (ps.map fun x => (x.1, .pt x.2.shown))]) (kws := []), construct_group_pos, hf]
  · rfl
  · refine evalArgs_ok (nk_str _) (eval_str _ _) (evalArgs_ok trivial (eval_exprPB _ _) (evalArgs_ok trivial (by cases hid <;> simp [eval])
      (evalArgs_ok trivial (eval_exprXf _ _ hx) (evalArgs_ok trivial ?_ (evalArgs_ok trivial ?_ evalArgs_nil)))))
    · simp only [eval]
      rw [eval_exprD es hr]
      simp [Function.comp_def, hes]
    · simp only [eval]
      rw [evalItems_pts _ ps hp]
      simp [Function.comp_def, hps]

theorem evalArgs_shownCps (env : Str → Option Val) (cps : List DCp) (h : ∀ c ∈ cps, c.Made) :
    evalArgs env (cps.map fun c => exprCp c.shown) = some (cps.map fun c => .cp c.shown, []) := by
  induction cps with
  | nil => exact evalArgs_nil
  | cons c cps ih =>
    have hc := h c (by simp)
    exact evalArgs_ok trivial (eval_exprCp _ _ ⟨shown_ok hc.1, vecShown_ok hc.2.1, vecShown_ok hc.2.2⟩)
      (ih fun c hc => h c (List.mem_cons_of_mem _ hc))

theorem construct_curve_pos (n : Str) (l : List DCp) : construct "ElemCurve".toList (.str n :: l.map Val.cp) [] = none := by
  match l with
  | [] => rfl
  | [_] => rfl
  | [_, _] => rfl
  | [_, _, _] => rfl
  | [_, _, _, _] => rfl
  | a :: b :: c :: d :: e :: l =>
    have : bindArgs ["name", "penbrush", "control_points", "closed", "xform"] (.str n :: (List.map Val.cp (a :: b :: c :: d :: e :: l))) [] =
        none := if_pos (by simp)
    have h2 : ∀ pos, construct "ElemCurve".toList pos [] =
        (bindArgs ["name", "penbrush", "control_points", "closed", "xform"] pos []).bind fun a => (mkHdr a true).bind fun h =>
          (a "control_points".toList).bind fun v => v.cps.bind fun cps => some (.elem (.curve h cps)) := fun _ => rfl
    rw [h2, this]
    rfl

/-- C101 is false for curves and P1P2 shapes: the pen is missing, and evaluating the text is an error. -/
theorem C101_basic_counterexample (e : DElem) (h : e.Basic) : readVal (reprElem e) = none := by
  have two : ∀ (f : String) (n : Str) (p q : DPt), p.Made → q.Made →
      evalArgs (fun _ => none) [.str n, exprPt p.shown, exprPt q.shown] = some ([.str n, .pt p.shown, .pt q.shown], []) :=
    fun f n p q hp hq => evalArgs_ok (nk_str _) (eval_str _ _) (evalArgs_ok (noKw_exprPt _) (eval_exprPt _ _ (shown_ok hp))
      (evalArgs_ok (noKw_exprPt _) (eval_exprPt _ _ (shown_ok hq)) evalArgs_nil))
  cases e with
  | curve hd cps =>
    cases cps with
    | nil =>
      have : reprElem (.curve hd []) = [.id "ElemCurve".toList, .lp, .str hd.name, .comma, .rp] := by
        simp [reprElem, opens, joinComma]
      rw [this]
      have hp : parseAll [.id "ElemCurve".toList, .lp, .str hd.name, .comma, .rp] = some (.call "ElemCurve".toList [.str hd.name]) := by
        simp [parseAll, parse, parseSeq]
      unfold readVal
      rw [hp]
      simp only []
      rw [eval_call (evalArgs_ok (nk_str _) (eval_str _ _) evalArgs_nil)]
      exact construct_curve_pos _ []
    | cons c cps =>
      have ht : reprElem (.curve hd (c :: cps)) = toks (.call "ElemCurve".toList
          (.str hd.name :: (c :: cps).map fun c => exprCp c.shown)) := by
        simp only [toks, sep_join, List.map_cons, List.map_map, Function.comp_def, toks_exprCp, reprCp_shown, reprElem, opens]
        simp [toks, joinComma]
      rw [ht, readVal_toks, eval_call (evalArgs_ok (nk_str _) (eval_str _ _) (evalArgs_shownCps _ _ h))]
      have := construct_curve_pos hd.name ((c :: cps).map DCp.shown)
      rwa [List.map_map] at this
  | rect hd p q =>
    have ht : reprElem (.rect hd p q) = toks (.call "ElemRectangle".toList [.str hd.name, exprPt p.shown, exprPt q.shown]) := by
      simp [toks, sepToks, toks_exprPt, reprPt_shown, reprElem, opens]
    rw [ht, readVal_toks, eval_call (two "" _ _ _ h.1 h.2)]
    rfl
  | ellipse hd p q =>
    have ht : reprElem (.ellipse hd p q) = toks (.call "ElemEllipse".toList [.str hd.name, exprPt p.shown, exprPt q.shown]) := by
      simp [toks, sepToks, toks_exprPt, reprPt_shown, reprElem, opens]
    rw [ht, readVal_toks, eval_call (two "" _ _ _ h.1 h.2)]
    rfl
  | rrect hd p q r =>
    have ht : reprElem (.rrect hd p q r) =
        toks (.call "ElemRectangleRounded".toList [.str hd.name, exprPt p.shown, exprPt q.shown, .num r]) := by
      simp [toks, sepToks, toks_exprPt, reprPt_shown, reprElem, opens]
    rw [ht, readVal_toks, eval_call (evalArgs_ok (nk_str _) (eval_str _ _) (evalArgs_ok (noKw_exprPt _) (eval_exprPt _ _ (shown_ok h.1))
      (evalArgs_ok (noKw_exprPt _) (eval_exprPt _ _ (shown_ok h.2)) (evalArgs_ok (nk_num _) (eval_num _ _) evalArgs_nil))))]
    rfl
  | group => simp [DElem.Basic] at h
  | holes => simp [DElem.Basic] at h

/-- C101 is false for matrices: the text names another class, and evaluating it is an error. -/
theorem C101_matrix_counterexample (m : Mat3 ℝ) : readVal (reprMat m) = none := by
  have ht : reprMat m = toks (.call "Transform".toList [.tuple [.tuple [.num m.a, .num m.b, .num m.c],
      .tuple [.num m.d, .num m.e, .num m.f], .tuple [.num m.g, .num m.h, .num m.i]]]) := by
    simp [toks, sepToks, tupToks, reprMat, row3, opens]
  have ha : evalArgs (fun _ => none) [.tuple [.tuple [.num m.a, .num m.b, .num m.c],
      .tuple [.num m.d, .num m.e, .num m.f], .tuple [.num m.g, .num m.h, .num m.i]]] =
      some ([.tuple [.tuple [.num m.a, .num m.b, .num m.c], .tuple [.num m.d, .num m.e, .num m.f],
        .tuple [.num m.g, .num m.h, .num m.i]]], []) := by
    simp [eval, evalArgs]
  rw [ht, readVal_toks, eval_call ha]
  rfl

/-- C101, empty names: the text of a point with an empty name evaluates to a point without a name, which is a different one. -/
theorem C101_name_counterexample : ∃ p q : DPt, p.Made ∧ readVal (reprPt p) = some (.pt q) ∧ p ≠ q :=
  ⟨.point 1 2 (some []), .point 1 2 none, trivial, C101_point _ trivial, by simp⟩

/-! ### `str` -/

theorem round_near {x y : ℝ} (h : roundTo 2 x = roundTo 2 y) : |x - y| ≤ 1 / 100 := by
  have h1 := roundTo_within 2 x
  have h2 := roundTo_within 2 y
  rw [h] at h1
  have : ((10 : ℝ) ^ (-(2 : ℤ)) / 2) = 1 / 200 := by norm_num
  rw [this] at h1 h2
  rw [abs_le] at *
  constructor <;> linarith [h1.1, h1.2, h2.1, h2.2]

theorem roundPt_xy (n : ℤ) (p : DPt) : (roundPt n p).xy = (roundTo n p.xy.1, roundTo n p.xy.2) := by
  cases p <;> rfl

theorem strPt_code {p q : DPt} {r r' : List Tok} (h : strPt p ++ r = strPt q ++ r') : p.xy = q.xy ∧ r = r' := by
  simp only [strPt, List.cons_append, List.nil_append, List.cons.injEq, Tok.num.injEq, true_and] at h
  exact ⟨Prod.ext h.1 h.2.1, h.2.2⟩

theorem roundPt_near {p q : DPt} (h : (roundPt 2 p).xy = (roundPt 2 q).xy) : Near (1 / 100) p.xy q.xy := by
  rw [roundPt_xy, roundPt_xy] at h
  exact ⟨round_near (Prod.ext_iff.1 h).1, round_near (Prod.ext_iff.1 h).2⟩

theorem near_sub {p q p' q' : DPt} (h : Near (1 / 100) p.xy p'.xy) (h' : Near (1 / 100) q.xy q'.xy) :
    Near (2 / 100) (DVec.rel p q).xy (DVec.rel p' q').xy := by
  obtain ⟨h1, h2⟩ := h
  obtain ⟨h3, h4⟩ := h'
  rw [abs_le] at h1 h2 h3 h4
  constructor <;> rw [abs_le] <;> simp only [DVec.xy] <;> constructor <;> linarith [h1.1, h1.2, h2.1, h2.2, h3.1, h3.2, h4.1, h4.2]

theorem near_mono {a b : ℝ × ℝ} (h : Near (1 / 100) a b) : Near (2 / 100) a b :=
  ⟨h.1.trans (by norm_num), h.2.trans (by norm_num)⟩

/-- C101: lines printed by `str` as the same text have origins within a hundredth of each other, and directions within two hundredths
(one, if the directions are plain vectors). -/
theorem C101_str_line (l l' : DLine) (h : strLine l = strLine l') : Near (1 / 100) l.origin.xy l'.origin.xy ∧
    Near (2 / 100) l.direction.xy l'.direction.xy ∧
    (∀ x y x' y', l.direction = .vec x y → l'.direction = .vec x' y' → Near (1 / 100) (x, y) (x', y')) := by
  simp only [strLine, List.append_assoc] at h
  obtain ⟨h1, h2⟩ := strPt_code h
  simp only [List.cons_append, List.nil_append, List.cons.injEq, true_and] at h2
  obtain ⟨o, d⟩ := l
  obtain ⟨o', d'⟩ := l'
  refine ⟨roundPt_near h1, ?_⟩
  cases d with
  | vec x y =>
    cases d' with
    | vec x' y' =>
      simp only [roundVec, strVec, List.cons.injEq, Tok.num.injEq, true_and, and_true] at h2
      have hn : Near (1 / 100) (x, y) (x', y') := ⟨round_near h2.1, round_near h2.2⟩
      refine ⟨near_mono hn, ?_⟩
      simp only [DVec.vec.injEq]
      rintro _ _ _ _ ⟨rfl, rfl⟩ ⟨rfl, rfl⟩
      exact hn
    | rel p' q' => simp [roundVec, strVec, strPt] at h2
  | rel p q =>
    cases d' with
    | vec x' y' => simp [roundVec, strVec, strPt] at h2
    | rel p' q' =>
      simp only [roundVec, strVec, List.append_assoc, List.append_cancel_left_eq] at h2
      obtain ⟨h3, h4⟩ := strPt_code h2
      simp only [List.cons_append, List.nil_append, List.cons.injEq, true_and] at h4
      obtain ⟨h5, -⟩ := strPt_code h4
      exact ⟨near_sub (roundPt_near h3) (roundPt_near h5), by simp⟩

/-- C101: `str` of a transform does not determine it, but its first two rows up to a hundredth. -/
theorem C101_str_transform (m n : Mat3 ℝ) (h : strXf m = strXf n) : |m.a - n.a| ≤ 1 / 100 ∧ |m.b - n.b| ≤ 1 / 100 ∧
    |m.c - n.c| ≤ 1 / 100 ∧ |m.d - n.d| ≤ 1 / 100 ∧ |m.e - n.e| ≤ 1 / 100 ∧ |m.f - n.f| ≤ 1 / 100 := by
  simp only [strXf, List.cons.injEq, Tok.num.injEq, true_and, and_true] at h
  obtain ⟨h1, h2, h3, h4, h5, h6⟩ := h
  exact ⟨round_near h1, round_near h2, round_near h3, round_near h4, round_near h5, round_near h6⟩

theorem strCp_code {p q : DCp} {r r' : List Tok} (h : strCp p ++ r = strCp q ++ r') (hr : Stop r) (hr' : Stop r') :
    p.shown = q.shown ∧ r = r' := by
  have ht : ∀ c, strCp c = toks (.tuple [exprPt c.c, exprVec c.dl, exprVec c.dr, .str c.kind]) := by
    intro c
    simp [toks, tupToks, sepToks, strCp, toks_exprPt, toks_exprVec]
  rw [ht, ht] at h
  obtain ⟨h1, h2⟩ := toks_inj h hr hr'
  simp only [Expr.tuple.injEq, List.cons.injEq, and_true, Expr.str.injEq] at h1
  exact ⟨by simp [DCp.shown, exprPt_inj h1.1, exprVec_inj h1.2.1, exprVec_inj h1.2.2.1, h1.2.2.2], h2⟩

theorem shown_xy (p : DPt) : p.shown.xy = p.xy := by
  induction p with
  | point => rfl
  | rel dx dy b n ih => simp [DPt.shown, DPt.xy, ih]
  | pcalc b s n ih =>
    cases b with
    | point => rfl
    | rel dx dy b n =>
      have := ih
      simp only [DPt.shown, DPt.xy, Prod.mk.injEq, add_right_inj] at this
      simp [DPt.shown, DPt.xy, this.1, this.2]
    | pcalc b' s' n' =>
      have : ∀ b s n s' n', (DPt.pcalc (.pcalc b s n) s' n').xy = (DPt.pcalc b s n).xy := fun b s n s' n' => by simp [DPt.xy]
      simp only [DPt.shown] at ih ⊢
      rw [this, this, ih]

theorem roundVec_near {v w : DVec} (h : (roundVec 2 v).shown = (roundVec 2 w).shown) : Near (2 / 100) v.xy w.xy := by
  cases v with
  | vec x y =>
    cases w with
    | vec x' y' =>
      simp only [roundVec, DVec.shown, DVec.vec.injEq] at h
      exact near_mono ⟨round_near h.1, round_near h.2⟩
    | rel p' q' => simp [roundVec, DVec.shown] at h
  | rel p q =>
    cases w with
    | vec x' y' => simp [roundVec, DVec.shown] at h
    | rel p' q' =>
      simp only [roundVec, DVec.shown, DVec.rel.injEq] at h
      have key : ∀ {p q : DPt}, (roundPt 2 p).shown = (roundPt 2 q).shown → Near (1 / 100) p.xy q.xy := fun {p q} h => by
        apply roundPt_near
        rw [← shown_xy, h, shown_xy]
      exact near_sub (key h.1) (key h.2)

/-- C101: curves printed by `str` as the same text have the same name, and as many control points, in the same places up to hundredths. -/
theorem C101_str_curve (hd hd' : DHdr) (cps cps' : List DCp) (h : strElem (.curve hd cps) = strElem (.curve hd' cps')) :
    hd.name = hd'.name ∧ List.Forall₂ (fun c c' => Near (1 / 100) c.c.xy c'.c.xy ∧ Near (2 / 100) c.dl.xy c'.dl.xy ∧
      Near (2 / 100) c.dr.xy c'.dr.xy ∧ c.kind = c'.kind) cps cps' := by
  simp only [strElem, List.append_assoc, List.append_cancel_left_eq, List.cons_append, List.nil_append, List.cons.injEq, true_and,
    Tok.str.injEq] at h
  refine ⟨h.1, ?_⟩
  obtain ⟨h1, -⟩ := join_code (fun c => strCp (roundCp 2 c)) (fun c => (roundCp 2 c).shown) (.inl rfl)
    (fun a => ⟨.lp, _, rfl, by simp⟩) cps cps' (fun a _ b r r' => strCp_code) [] [] h.2
  have h2 : List.Forall₂ (fun c c' => (roundCp 2 c).shown = (roundCp 2 c').shown) cps cps' := by
    rw [← List.forall₂_map_left_iff (f := fun c => (roundCp 2 c).shown) (R := fun x c' => x = (roundCp 2 c').shown),
      ← List.forall₂_map_right_iff (f := fun c => (roundCp 2 c).shown) (R := fun x y => x = y), List.forall₂_eq_eq_eq]
    exact h1
  refine h2.imp fun c c' hc => ?_
  simp only [DCp.shown, roundCp, DCp.mk.injEq] at hc
  refine ⟨roundPt_near ?_, roundVec_near hc.2.1, roundVec_near hc.2.2.1, hc.2.2.2⟩
  rw [← shown_xy, hc.1, shown_xy]

/-- C101: `str` of a group tells its name and how many elements and points it has, and nothing else. -/
theorem C101_str_group (hd hd' : DHdr) (hid hid' : Bool) (es es' : List (Str × DElem)) (ps ps' : List (Str × DPt)) :
    strElem (.group hd hid es ps) = strElem (.group hd' hid' es' ps') ↔
      hd.name = hd'.name ∧ es.length = es'.length ∧ ps.length = ps'.length := by
  simp [strElem, opens]

/-- C101 is false for `str`: different lines, different transforms and different curves have the same text. -/
theorem C101_str_counterexample : (∃ l l' : DLine, l ≠ l' ∧ strLine l = strLine l') ∧ (∃ m n : Mat3 ℝ, m ≠ n ∧ strXf m = strXf n) ∧
    ∀ hd, ∃ c c' : DElem, c = .curve hd [] ∧ c.hdr.name = c'.hdr.name ∧ c ≠ c' ∧ strElem c = strElem c' := by
  have h0 : roundTo 2 (1000⁻¹ : ℝ) = 0 := by
    have : ⌊(1000⁻¹ * 10 ^ (2 : ℤ) : ℝ)⌋ = 0 := by rw [Int.floor_eq_zero_iff]; norm_num
    simp only [roundTo, roundHE, this]
    norm_num
  have h1 : roundTo 2 (0 : ℝ) = 0 := by simp [roundTo, roundHE]
  refine ⟨⟨⟨.point 0 0 none, .vec 0 0⟩, ⟨.point 1000⁻¹ 0 none, .vec 0 0⟩, by simp, by simp [strLine, roundPt, h0, h1]⟩,
    ⟨Mat3.of6 0 0 0 0 0 0, Mat3.of6 1000⁻¹ 0 0 0 0 0, fun h => ?_, by simp [strXf, Mat3.of6, h0, h1]⟩, fun hd => ?_⟩
  · have := congrArg Mat3.a h
    norm_num [Mat3.of6] at this
  · refine ⟨.curve hd [], .curve ⟨hd.name, hd.pb, !hd.closed, hd.xf⟩ [], rfl, rfl, ?_, rfl⟩
    obtain ⟨n, pb, cl, m⟩ := hd
    cases cl <;> simp

/-- C101 is false for `str` of a `PenBrush`: a pen of width 1 is shown as its colour, but a colour given as pen means width 0; what is
shown for the latter is a pair. -/
theorem C101_str_pen_counterexample (s : String) :
    strPB ⟨some ⟨⟨.name s⟩, 1⟩, none⟩ = opens "PenBrush" ++ [.id s.toList, .comma, .id "None".toList, .rp] ∧
    PenBrush.init (some (.color (.name s))) none ≠ ⟨some ⟨⟨.name s⟩, 1⟩, none⟩ ∧
    strPB (PenBrush.init (some (.color (.name s))) none) =
      opens "PenBrush" ++ [.lp, .id s.toList, .comma, .num 0, .rp, .comma, .id "None".toList, .rp] := by
  refine ⟨by simp [strPB, strColor], ?_, ?_⟩
  · simp [PenBrush.init, PenBrush.penOf, Pen.init]
  · simp [strPB, strColor, PenBrush.init, PenBrush.penOf, Pen.init, BrushArg.toBrush]

/-! ### Cases -/

/-- A named point over a named base. -/
example : (DPt.pcalc (.rel 1 2 (.point 3 4 (some "b".toList)) none) 2 (some "c".toList)).Made := ⟨trivial, rfl⟩

/-- A hidden group within a group, with a point. -/
example : DElem.Readable (.group ⟨"g".toList, ⟨some ⟨⟨.name "black"⟩, 1⟩, none⟩, false, Mat3.one⟩ false
    [("h".toList, .group ⟨"h".toList, ⟨none, none⟩, false, Mat3.one⟩ true [] [])] [("p".toList, .point 1 2 none)]) := by
  simp [DElem.Readable, ReadableAll, PenBrush.filled, DPt.Made, Mat3.Affine, Mat3.one]

/-- A rectangle. -/
example (hd : DHdr) : (DElem.rect hd (.point 1 2 none) (.point 3 4 none)).Basic := ⟨trivial, trivial⟩

end X7.Dump
