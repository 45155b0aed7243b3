import Verif.Lemmas.Fill
import Verif.Props.Elem
import Verif.Props.AreaCurve

/-!
C128: what a filled shape with holes covers.
-/

noncomputable section

namespace X7.Elem
open Classical

/-- A closed shape draws a path that ends where it starts. -/
theorem closedShape_returns {cfg : DCfg} {e : Elem} (he : ClosedShape e) {m : Mat3 ℝ} {ps : List Path} (h : drawn cfg e m = .ok ps) :
    ∃ q, ps = [q] ∧ Returns q := by
  have hb : e.Basic := by cases e <;> simp_all [ClosedShape, Basic]
  have key : ∀ pts, outline cfg e = .ok pts → pts.head? = pts.getLast? := by
    intro pts ho
    have curve : ∀ (n : ℕ) (cps : List (CP ℝ)), 1 ≤ n → (pathOf n (segs true cps)).head? = (pathOf n (segs true cps)).getLast? := by
      intro n cps hn
      rcases Approx.segs_closes cps with h | ⟨s, ss, h, hc⟩
      · rw [h]; rfl
      · have hj := segs_join true cps
        rw [h] at hj ⊢
        exact pathOf_returns n hn s ss hj hc
    cases e with
    | curve hd cps =>
      simp only [outline, Except.ok.injEq] at ho
      rw [← ho, show hd.closed = true from he]
      exact curve _ cps (le_max_left _ _)
    | rect h p1 p2 =>
      simp only [outline, Except.ok.injEq] at ho
      rw [← ho]; rfl
    | rrect h p1 p2 r =>
      simp only [outline] at ho
      cases hm : makeRoundedRect p1 p2 r with
      | error er => rw [hm] at ho; cases ho
      | ok cps => rw [hm] at ho; cases ho; exact curve _ cps (by norm_num)
    | ellipse h p1 p2 =>
      simp only [outline] at ho
      cases hm : makeEllipseP1P2 p1 p2 with
      | error er => rw [hm] at ho; cases ho
      | ok cps => rw [hm] at ho; cases ho; exact curve _ cps (by norm_num)
    | group h hd es => exact he.elim
    | holes h o i => exact he.elim
  rw [drawn_basic cfg e hb] at h
  cases ho : outline cfg e with
  | error er => rw [ho] at h; cases h
  | ok pts =>
    rw [ho] at h
    cases h
    refine ⟨_, rfl, ?_⟩
    rw [Returns]
    simp only [List.head?_map, List.getLast?_map, key pts ho]

/-- C128: the filled path of a shape with holes covers, by the even-odd rule, the points that an odd number of the outlines of its outside and
its holes cover. The holes may draw any number of paths (groups); each path must end where it starts. -/
theorem C128_parity (cfg : DCfg) (h : Hdr) (o : Elem) (inside : List Elem) (m : Mat3 ℝ) (b : Brush) (po : Path) (pss : List (List Path))
    (hb : h.pb.brush = some b) (ho : drawn cfg o (m.mul h.xf) = .ok [po]) (hne : po.pts ≠ [])
    (hi : List.Forall₂ (fun e ps => drawn cfg e (m.mul h.xf) = .ok ps) inside pss) (hq : ∀ q ∈ pss.flatten, Returns q) :
    ∃ fill edges, drawn cfg (.holes h o inside) m = .ok (fill :: edges) ∧ fill.pb = ⟨none, some b⟩ ∧ (∀ e ∈ edges, e.pb.brush = none) ∧
      ∀ p, Covers fill.pts p ↔ Odd ((if Covers po.pts p then 1 else 0) + pss.flatten.countP fun q => decide (Covers q.pts p)) := by
  obtain ⟨last, hl⟩ : ∃ last, po.pts.getLast? = some last := ⟨_, List.getLast?_eq_getLast_of_ne_nil hne⟩
  refine ⟨_, _, C46_holes_filled cfg h o inside ⟨m, none, []⟩ b po last pss hb ho hl hi, rfl, ?_, fun p => covers_fill hl pss.flatten hq p⟩
  · intro e he
    obtain ⟨q, -, rfl⟩ := List.mem_map.1 he
    rfl

/-- C128: a shape with holes whose outside and holes are closed shapes (rectangles, rounded rectangles, ellipses, closed curves) fills the outside
without the holes: it covers exactly the points that the outside alone covers and none of the holes does, wherever the holes lie inside the
outside and do not overlap. -/
theorem C128_region (cfg : DCfg) (h : Hdr) (o : Elem) (inside : List Elem) (m : Mat3 ℝ) (b : Brush) (po : Path) (qs : List Path)
    (hb : h.pb.brush = some b) (ho : drawn cfg o (m.mul h.xf) = .ok [po]) (hne : po.pts ≠ [])
    (hi : List.Forall₂ (fun e q => drawn cfg e (m.mul h.xf) = .ok [q]) inside qs) (hc : ∀ e ∈ inside, ClosedShape e) :
    ∃ fill edges, drawn cfg (.holes h o inside) m = .ok (fill :: edges) ∧ fill.pb = ⟨none, some b⟩ ∧ (∀ e ∈ edges, e.pb.brush = none) ∧
      ∀ p, (∀ q ∈ qs, Covers q.pts p → Covers po.pts p) → qs.Pairwise (fun q q' => ¬ (Covers q.pts p ∧ Covers q'.pts p)) →
        (Covers fill.pts p ↔ Covers po.pts p ∧ ∀ q ∈ qs, ¬ Covers q.pts p) := by
  have e1 : ∀ l : List Path, (l.map fun p => [p]).flatten = l := by
    intro l; induction l with
    | nil => rfl
    | cons x l ih => simp [ih]
  have hi' : List.Forall₂ (fun e ps => drawn cfg e (m.mul h.xf) = .ok ps) inside (qs.map fun q => [q]) := by
    rw [List.forall₂_map_right_iff]; exact hi
  have hq : ∀ q ∈ (qs.map fun q => [q]).flatten, Returns q := by
    rw [e1]
    intro q hq
    obtain ⟨i, hi1, rfl⟩ := List.getElem_of_mem hq
    have hlen := hi.length_eq
    have hd := List.Forall₂.get hi (i := i) (by omega) hi1
    simp only [List.get_eq_getElem] at hd
    obtain ⟨q', e, hr⟩ := closedShape_returns (hc _ (List.getElem_mem _)) hd
    cases e
    exact hr
  obtain ⟨fill, edges, k1, k2, k3, k4⟩ := C128_parity cfg h o inside m b po _ hb ho hne hi' hq
  refine ⟨fill, edges, k1, k2, k3, fun p hin hpw => ?_⟩
  rw [k4 p, e1]
  by_cases hex : ∃ q ∈ qs, Covers q.pts p
  · obtain ⟨q, hq1, hq2⟩ := hex
    have hone : qs.countP (fun q => decide (Covers q.pts p)) = 1 := by
      clear hi hi' hq k1 k4 hin
      induction qs with
      | nil => simp at hq1
      | cons x l ih =>
        have hp := List.pairwise_cons.1 hpw
        rw [List.countP_cons]
        rcases List.mem_cons.1 hq1 with rfl | hq1
        · have h0 : l.countP (fun q => decide (Covers q.pts p)) = 0 := by
            rw [List.countP_eq_zero]
            intro y hy hcy
            exact hp.1 y hy ⟨hq2, of_decide_eq_true hcy⟩
          simp [h0, hq2]
        · rw [ih hp.2 hq1]
          have : ¬ Covers x.pts p := fun hx => hp.1 q hq1 ⟨hx, hq2⟩
          simp [this]
    rw [hone, if_pos (hin q hq1 hq2)]
    constructor
    · intro h; exact absurd h (by decide)
    · rintro ⟨-, h⟩; exact absurd hq2 (h q hq1)
  · push Not at hex
    have h0 : qs.countP (fun q => decide (Covers q.pts p)) = 0 := by
      rw [List.countP_eq_zero]
      intro y hy hcy
      exact hex y hy (of_decide_eq_true hcy)
    rw [h0]
    constructor
    · intro h
      refine ⟨?_, hex⟩
      by_contra hn
      rw [if_neg hn] at h
      exact absurd h (by decide)
    · rintro ⟨h, -⟩
      rw [if_pos h]; decide

/-- C128: the area `polygon_area` finds for the filled path is the sum of the signed areas of outside and holes: the lines there and back
between them cancel. -/
theorem C128_area (cfg : DCfg) (h : Hdr) (o : Elem) (inside : List Elem) (m : Mat3 ℝ) (b : Brush) (po : Path) (pss : List (List Path))
    (hb : h.pb.brush = some b) (ho : drawn cfg o (m.mul h.xf) = .ok [po]) (hne : po.pts ≠ [])
    (hi : List.Forall₂ (fun e ps => drawn cfg e (m.mul h.xf) = .ok ps) inside pss) (hq : ∀ q ∈ pss.flatten, Returns q) :
    ∃ fill edges, drawn cfg (.holes h o inside) m = .ok (fill :: edges) ∧
      polygonArea fill.pts = polygonArea po.pts + (pss.flatten.map fun q => polygonArea q.pts).sum := by
  obtain ⟨last, hl⟩ : ∃ last, po.pts.getLast? = some last := ⟨_, List.getLast?_eq_getLast_of_ne_nil hne⟩
  refine ⟨_, _, C46_holes_filled cfg h o inside ⟨m, none, []⟩ b po last pss hb ho hl hi, ?_⟩
  have e : ∀ l : List (Pt ℝ), polygonArea l = cyc crs l / 2 := fun l => polygonArea_eq l
  simp only [e]
  rw [cyc_fill (fun a => by simp [crs]; ring) (fun a b => by simp [crs]; ring) hl pss.flatten hq, add_div]
  congr 1
  rw [div_eq_mul_inv, ← List.sum_map_mul_right]
  simp [div_eq_mul_inv]

/-! ### Rectangles -/

theorem covers_box (x1 y1 x2 y2 : ℝ) (p : Pt ℝ) :
    Covers [⟨x1, y1⟩, ⟨x1, y2⟩, ⟨x2, y2⟩, ⟨x2, y1⟩, ⟨x1, y1⟩] p ↔ min x1 x2 ≤ p.x ∧ p.x < max x1 x2 ∧ min y1 y2 ≤ p.y ∧ p.y < max y1 y2 := by
  have h1 : ∀ x : ℝ, Crosses p ⟨x, y1⟩ ⟨x, y2⟩ ↔ ((min y1 y2 ≤ p.y ∧ p.y < max y1 y2) ∧ p.x < x) := by
    intro x
    simp only [Crosses, sub_self, mul_zero, add_zero]
    refine and_congr_left fun _ => ?_
    rcases le_total y1 y2 with h | h
    · rw [min_eq_left h, max_eq_right h]
      constructor
      · intro hn
        constructor
        · by_contra hc
          exact hn ⟨fun _ => by linarith, fun _ => by linarith⟩
        · by_contra hc
          exact hn ⟨fun _ => by linarith, fun _ => by linarith⟩
      · rintro ⟨a, b⟩ hi
        linarith [hi.2 b]
    · rw [min_eq_right h, max_eq_left h]
      constructor
      · intro hn
        constructor
        · by_contra hc
          exact hn ⟨fun _ => by linarith, fun _ => by linarith⟩
        · by_contra hc
          exact hn ⟨fun _ => by linarith, fun _ => by linarith⟩
      · rintro ⟨a, b⟩ hi
        linarith [hi.1 b]
  have h1' : ∀ x : ℝ, Crosses p ⟨x, y2⟩ ⟨x, y1⟩ ↔ ((min y1 y2 ≤ p.y ∧ p.y < max y1 y2) ∧ p.x < x) := fun x => by
    rw [← h1]; exact ⟨crosses_symm, crosses_symm⟩
  have h2 : ∀ x x' y : ℝ, ¬ Crosses p ⟨x, y⟩ ⟨x', y⟩ := fun x x' y => by simp [Crosses]
  have e : (([⟨x1, y1⟩, ⟨x1, y2⟩, ⟨x2, y2⟩, ⟨x2, y1⟩, ⟨x1, y1⟩] : List (Pt ℝ)).rotate 1) =
      [⟨x1, y2⟩, ⟨x2, y2⟩, ⟨x2, y1⟩, ⟨x1, y1⟩, ⟨x1, y1⟩] := by simp
  rw [Covers, e]
  simp only [List.zip_cons_cons, List.zip_nil_right, List.countP_cons, List.countP_nil, decide_eq_true_eq, h1, h1', h2, if_false]
  by_cases hy : min y1 y2 ≤ p.y ∧ p.y < max y1 y2
  · simp only [hy, true_and, and_true]
    rcases le_total x1 x2 with h | h
    · rw [min_eq_left h, max_eq_right h]
      by_cases a : p.x < x1 <;> by_cases b : p.x < x2 <;> simp [a, b, not_le.2, show ¬ Odd 2 by decide] <;> linarith
    · rw [min_eq_right h, max_eq_left h]
      by_cases a : p.x < x1 <;> by_cases b : p.x < x2 <;> simp [a, b, not_le.2, show ¬ Odd 2 by decide] <;> linarith
  · have : ¬ (min x1 x2 ≤ p.x ∧ p.x < max x1 x2 ∧ min y1 y2 ≤ p.y ∧ p.y < max y1 y2) := fun hh => hy hh.2.2
    simp only [hy, false_and, if_false, this]
    simp

/-- C128: a rectangle covers the points between its sides, the lower and left ones included. -/
theorem C128_rectangle (cfg : DCfg) (h : Hdr) (hx : h.xf = Mat3.one) (p1 p2 : Pt ℝ) :
    ∃ q, drawn cfg (.rect h p1 p2) Mat3.one = .ok [q] ∧
      ∀ p, Covers q.pts p ↔ min p1.x p2.x ≤ p.x ∧ p.x < max p1.x p2.x ∧ min p1.y p2.y ≤ p.y ∧ p.y < max p1.y p2.y := by
  rw [drawn_basic cfg _ (by simp only [Basic])]
  simp only [outline, Except.map, hdr, hx]
  refine ⟨_, rfl, fun p => ?_⟩
  rw [← covers_box]
  simp [Mat3.apply, Mat3.mul, Mat3.one]

/-- A filled pen. -/
def fillPen : PenBrush := ⟨none, some ⟨.name "red"⟩⟩
/-- A rectangle without a transform. -/
def box (x1 y1 x2 y2 : ℝ) : Elem := .rect ⟨"r".toList, fillPen, true, Mat3.one⟩ ⟨x1, y1⟩ ⟨x2, y2⟩
/-- The path it draws. -/
def boxPath (x1 y1 x2 y2 : ℝ) : Path := ⟨fillPen, true, [⟨x1, y1⟩, ⟨x1, y2⟩, ⟨x2, y2⟩, ⟨x2, y1⟩, ⟨x1, y1⟩]⟩

theorem drawn_box (cfg : DCfg) (x1 y1 x2 y2 : ℝ) :
    drawn cfg (box x1 y1 x2 y2) ((Mat3.one : Mat3 ℝ).mul Mat3.one) = .ok [boxPath x1 y1 x2 y2] := by
  rw [drawn_basic cfg _ (by simp only [Basic, box])]
  simp [box, boxPath, outline, Except.map, hdr, Mat3.apply, Mat3.mul, Mat3.one]

/-- A square with a square hole meets the assumptions: the hole is not filled, the rest is. -/
example (cfg : DCfg) : ∃ fill edges, drawn cfg (.holes ⟨"h".toList, fillPen, true, Mat3.one⟩ (box 0 0 4 4) [box 1 1 2 2]) Mat3.one =
    .ok (fill :: edges) ∧ Covers fill.pts ⟨1 / 2, 1 / 2⟩ ∧ ¬ Covers fill.pts ⟨3 / 2, 3 / 2⟩ := by
  obtain ⟨fill, edges, h1, -, -, h2⟩ := C128_region cfg ⟨"h".toList, fillPen, true, Mat3.one⟩ (box 0 0 4 4) [box 1 1 2 2] Mat3.one ⟨.name "red"⟩
    (boxPath 0 0 4 4) [boxPath 1 1 2 2] rfl (drawn_box _ _ _ _ _) (by simp [boxPath]) (.cons (drawn_box _ _ _ _ _) .nil) (by simp [box, ClosedShape])
  refine ⟨fill, edges, h1, (h2 _ ?_ (by simp)).2 ?_, fun hc => ?_⟩
  · simp [boxPath, covers_box]; norm_num
  · simp [boxPath, covers_box]; norm_num
  · have := (h2 _ (by simp [boxPath, covers_box]; norm_num) (by simp)).1 hc
    simp [boxPath, covers_box] at this
    norm_num at this

/-! ### Where it goes wrong -/

/-- C128 (finding): where two holes overlap the shape is filled. -/
theorem C128_overlap_counterexample (cfg : DCfg) : ∃ (h : Hdr) (o a b : Elem) (fill pa pb : Path) (edges : List Path) (p : Pt ℝ),
    drawn cfg (.holes h o [a, b]) Mat3.one = .ok (fill :: edges) ∧ drawn cfg a Mat3.one = .ok [pa] ∧ drawn cfg b Mat3.one = .ok [pb] ∧
      h.xf = Mat3.one ∧ Covers pa.pts p ∧ Covers pb.pts p ∧ Covers fill.pts p := by
  obtain ⟨fill, edges, h1, -, -, h2⟩ := C128_parity cfg ⟨"h".toList, fillPen, true, Mat3.one⟩ (box 0 0 9 9) [box 1 1 3 3, box 2 2 4 4] Mat3.one
    ⟨.name "red"⟩ (boxPath 0 0 9 9) [[boxPath 1 1 3 3], [boxPath 2 2 4 4]] rfl (drawn_box _ _ _ _ _) (by simp [boxPath])
    (.cons (drawn_box _ _ _ _ _) (.cons (drawn_box _ _ _ _ _) .nil)) (by simp [boxPath, Returns])
  have e : ((Mat3.one : Mat3 ℝ).mul Mat3.one) = Mat3.one := by simp [Mat3.mul, Mat3.one]
  have d := drawn_box cfg
  rw [e] at d
  refine ⟨_, _, _, _, fill, _, _, edges, ⟨5 / 2, 5 / 2⟩, h1, d _ _ _ _, d _ _ _ _, rfl, ?_, ?_, ?_⟩
  · simp [boxPath, covers_box]; norm_num
  · simp [boxPath, covers_box]; norm_num
  · rw [h2]
    simp [boxPath, covers_box, List.countP_cons]
    norm_num
    decide

/-- C128 (finding): where a hole sticks out of the outside the shape is filled. -/
theorem C128_outside_counterexample (cfg : DCfg) : ∃ (h : Hdr) (o a : Elem) (fill po : Path) (edges : List Path) (p : Pt ℝ),
    drawn cfg (.holes h o [a]) Mat3.one = .ok (fill :: edges) ∧ drawn cfg o Mat3.one = .ok [po] ∧
      h.xf = Mat3.one ∧ ¬ Covers po.pts p ∧ Covers fill.pts p := by
  obtain ⟨fill, edges, h1, -, -, h2⟩ := C128_parity cfg ⟨"h".toList, fillPen, true, Mat3.one⟩ (box 0 0 2 2) [box 1 1 3 3] Mat3.one
    ⟨.name "red"⟩ (boxPath 0 0 2 2) [[boxPath 1 1 3 3]] rfl (drawn_box _ _ _ _ _) (by simp [boxPath])
    (.cons (drawn_box _ _ _ _ _) .nil) (by simp [boxPath, Returns])
  have e : ((Mat3.one : Mat3 ℝ).mul Mat3.one) = Mat3.one := by simp [Mat3.mul, Mat3.one]
  have d := drawn_box cfg
  rw [e] at d
  refine ⟨_, _, _, fill, _, edges, ⟨5 / 2, 5 / 2⟩, h1, d _ _ _ _, rfl, ?_, ?_⟩
  · simp [boxPath, covers_box]; norm_num
  · rw [h2]
    simp [boxPath, covers_box, List.countP_cons]
    norm_num

/-- An open curve of three straight strokes. -/
def vee : Elem := .curve ⟨"v".toList, fillPen, false, Mat3.one⟩
  [⟨⟨4, 4⟩, ⟨0, 0⟩, ⟨0, 0⟩, "sharp"⟩, ⟨⟨8, 4⟩, ⟨0, 0⟩, ⟨0, 0⟩, "sharp"⟩, ⟨⟨4, 8⟩, ⟨0, 0⟩, ⟨0, 0⟩, "sharp"⟩]

/-- C128 (finding): an open curve as a hole takes away points it does not cover: the triangle between its ends and the last point of the
outside. -/
theorem C128_open_counterexample (cfg : DCfg) (hcfg : cfg.showCps = false ∧ cfg.pointsPerCurve = 1) :
    ∃ (h : Hdr) (o a : Elem) (fill po pa : Path) (edges : List Path) (p : Pt ℝ),
      drawn cfg (.holes h o [a]) Mat3.one = .ok (fill :: edges) ∧ drawn cfg o Mat3.one = .ok [po] ∧ drawn cfg a Mat3.one = .ok [pa] ∧
      h.xf = Mat3.one ∧ Covers po.pts p ∧ ¬ Covers pa.pts p ∧ ¬ Covers fill.pts p := by
  have e : ((Mat3.one : Mat3 ℝ).mul Mat3.one) = Mat3.one := by simp [Mat3.mul, Mat3.one]
  have d := drawn_box cfg
  have hv : drawn cfg vee Mat3.one = .ok [⟨fillPen, false, [⟨4, 4⟩, ⟨8, 4⟩, ⟨4, 8⟩]⟩] := by
    rw [drawn_basic cfg _ (by simp only [Basic, vee])]
    simp [vee, outline, Except.map, hdr, Mat3.apply, Mat3.mul, Mat3.one, hcfg, pathOf, segs, openSegs, seg, Poly4.at', bern, List.range_succ,
      CP.l, CP.r, Pt.addVector]
  have hv' : drawn cfg vee ((Mat3.one : Mat3 ℝ).mul Mat3.one) = .ok [⟨fillPen, false, [⟨4, 4⟩, ⟨8, 4⟩, ⟨4, 8⟩]⟩] := by rw [e]; exact hv
  have h1 := C46_holes_filled cfg ⟨"h".toList, fillPen, true, Mat3.one⟩ (box 0 0 10 10) [vee] ⟨Mat3.one, none, []⟩ ⟨.name "red"⟩
    (boxPath 0 0 10 10) ⟨0, 0⟩ [[⟨fillPen, false, [⟨4, 4⟩, ⟨8, 4⟩, ⟨4, 8⟩]⟩]] rfl (d _ _ _ _) (by simp [boxPath]) (.cons hv' .nil)
  rw [e] at d
  refine ⟨_, _, _, _, _, _, _, ⟨2, 3⟩, h1, d _ _ _ _, hv, rfl, ?_, ?_, ?_⟩
  · simp [boxPath, covers_box]; norm_num
  · simp [Covers, Crosses, List.countP_cons]; norm_num
  · simp [boxPath, Covers, Crosses, List.countP_cons]
    norm_num

/-- C128 (finding): a shape with holes used as a hole of another one cuts nothing out: it gives its filled path and its outlines to the path
of the larger shape, and they cancel. -/
theorem C128_nested_counterexample (cfg : DCfg) (h h' : Hdr) (o o' : Elem) (inside' : List Elem) (m : Mat3 ℝ) (b b' : Brush) (po po' : Path)
    (qs : List Path) (hb : h.pb.brush = some b) (hb' : h'.pb.brush = some b') (ho : drawn cfg o (m.mul h.xf) = .ok [po]) (hne : po.pts ≠ [])
    (ho' : drawn cfg o' ((m.mul h.xf).mul h'.xf) = .ok [po']) (hne' : po'.pts ≠ []) (hc' : ClosedShape o')
    (hi' : List.Forall₂ (fun e q => drawn cfg e ((m.mul h.xf).mul h'.xf) = .ok [q]) inside' qs) (hc : ∀ e ∈ inside', ClosedShape e) :
    ∃ fill edges, drawn cfg (.holes h o [.holes h' o' inside']) m = .ok (fill :: edges) ∧ fill.pb = ⟨none, some b⟩ ∧
      ∀ p, Covers fill.pts p ↔ Covers po.pts p := by
  obtain ⟨last', hl'⟩ : ∃ last, po'.pts.getLast? = some last := ⟨_, List.getLast?_eq_getLast_of_ne_nil hne'⟩
  have hr' : Returns po' := by
    obtain ⟨q, e, hr⟩ := closedShape_returns hc' ho'
    cases e; exact hr
  have hrq : ∀ q ∈ qs, Returns q := by
    intro q hq
    obtain ⟨i, hi1, rfl⟩ := List.getElem_of_mem hq
    have hlen := hi'.length_eq
    have hd := List.Forall₂.get hi' (i := i) (by omega) hi1
    simp only [List.get_eq_getElem] at hd
    obtain ⟨q', e, hr⟩ := closedShape_returns (hc _ (List.getElem_mem _)) hd
    cases e
    exact hr
  have hd := (C46_holes_simple cfg h' o' inside' ⟨m.mul h.xf, none, []⟩ b' po' last' qs hb' ho' hl' hi').1
  set F : Path := ⟨⟨none, some b'⟩, po'.closed, po'.pts ++ qs.flatMap fun q => q.pts ++ [last']⟩ with hF
  have hFr : Returns F := by
    rw [Returns, hF]
    simp only
    have h1 : (po'.pts ++ qs.flatMap fun q => q.pts ++ [last']).head? = some last' := by
      rw [List.head?_append, hr', hl']; rfl
    rw [h1, List.getLast?_append, hl']
    induction qs using List.reverseRecOn with
    | nil => simp
    | append_singleton l x _ => simp
  obtain ⟨fill, edges, k1, k2, -, k4⟩ := C128_parity cfg h o [.holes h' o' inside'] m b po
    [F :: (po' :: qs).map fun q : Path => { q with pb := (⟨h'.pb.pen, none⟩ : PenBrush) }] hb ho hne (.cons hd .nil) (by
      intro q hq
      simp only [List.flatten_cons, List.flatten_nil, List.append_nil, List.mem_cons, List.mem_map] at hq
      rcases hq with rfl | ⟨q, (rfl | hq), rfl⟩
      · exact hFr
      · exact hr'
      · exact hrq q hq)
  refine ⟨fill, edges, k1, k2, fun p => ?_⟩
  rw [k4 p]
  have hev : Even (([F :: (po' :: qs).map fun q : Path => { q with pb := (⟨h'.pb.pen, none⟩ : PenBrush) }] : List (List Path)).flatten.countP
      fun q => decide (Covers q.pts p)) := by
    have hF2 := covers_fill hl' qs hrq p
    have e3 : ((po' :: qs).map fun q : Path => { q with pb := (⟨h'.pb.pen, none⟩ : PenBrush) }).countP (fun q => decide (Covers q.pts p)) =
        (if Covers po'.pts p then 1 else 0) + qs.countP fun q => decide (Covers q.pts p) := by
      rw [List.countP_map, List.countP_cons, add_comm]
      simp only [Function.comp_def, decide_eq_true_eq]
    simp only [List.flatten_cons, List.flatten_nil, List.append_nil]
    rw [List.countP_cons, e3]
    by_cases hcov : Covers F.pts p
    · have := hF2.1 hcov
      simp only [hcov, decide_true, if_true]
      exact this.add_one
    · have := fun hh => hcov (hF2.2 hh)
      simp only [hcov, decide_false]
      simpa using Nat.not_odd_iff_even.1 this
  by_cases hp : Covers po.pts p
  · rw [if_pos hp]
    refine ⟨fun _ => hp, fun _ => ?_⟩
    rw [add_comm]; exact hev.add_one
  · rw [if_neg hp, zero_add]
    exact ⟨fun h => absurd hev (Nat.not_even_iff_odd.2 h), fun h => absurd h hp⟩

end X7.Elem
