import Verif.Spec.BoxUpdate
import Verif.Props.ElemHeap

/-!
C81: `bbox_int_update` resizes rectangles, rounded rectangles and ellipses to the box given, and changes nothing else.
-/

noncomputable section

namespace X7
open Elem

/-- C81, the box: after an update of a rectangle, rounded rectangle or ellipse with a box that has coordinates, `bbox_int()` is that
box, and everything but the two points is as before. -/
theorem C81_box (e : Elem) (he : e.Resizable) (b : BBox ℝ) (hb : b.Norm) (hn : b ≠ .none) :
    ∃ e', e.bboxIntUpdate b = .ok e' ∧ e'.bboxInt = .ok b ∧ e'.SameButPoints e ∧ e'.hdr = e.hdr := by
  cases b with
  | none => exact absurd rfl hn
  | box xl yl xh yh =>
    obtain ⟨hx, hy⟩ := hb
    cases e with
    | rect h p q =>
      refine ⟨_, rfl, ?_, rfl, rfl⟩
      simp [bboxInt, BBox.ofPts, BBox.mk', hx, hy]
    | rrect h p q r =>
      refine ⟨_, rfl, ?_, ⟨rfl, rfl⟩, rfl⟩
      simp [bboxInt, BBox.ofPts, BBox.mk', hx, hy]
    | ellipse h p q =>
      refine ⟨_, rfl, ?_, rfl, rfl⟩
      simp [bboxInt, BBox.ofPts, BBox.mk', hx, hy]
    | curve h cps => exact he.elim
    | group h hd es => exact he.elim
    | holes h o i => exact he.elim

/-- C81, what cannot be resized: any element with the box without coordinates, and curves, groups and shapes with holes with any box,
give `ValueError`. -/
theorem C81_error (e : Elem) (b : BBox ℝ) : e.bboxIntUpdate b = .error .value ↔ (b = .none ∨ ¬ e.Resizable) := by
  cases e <;> cases b <;> simp [bboxIntUpdate, BBox.p1p2, Except.map, Resizable]

/-- C81: nothing else goes wrong. -/
theorem C81_total (e : Elem) (b : BBox ℝ) (er : PyErr) (h : e.bboxIntUpdate b = .error er) : er = .value := by
  cases e <;> cases b <;> simp [bboxIntUpdate, BBox.p1p2, Except.map] at h <;> exact h.symm

/-- C81, only the last update matters: two updates are as good as the second. -/
theorem C81_last (e : Elem) (b b' : BBox ℝ) (e' : Elem) (h : e.bboxIntUpdate b = .ok e') :
    e'.bboxIntUpdate b' = e.bboxIntUpdate b' := by
  cases e <;> cases b <;> simp [bboxIntUpdate, BBox.p1p2, Except.map] at h <;> subst h <;> rfl

/-- C81, resizing an ellipse is stretching it: its control points afterwards are the images of its control points before, under any
map that stretches along the axes and takes the old box to the new one. -/
theorem C81_ellipse {h : Hdr} {p q : Pt ℝ} {b b' : BBox ℝ} {e' : Elem} (hb : (Elem.ellipse h p q).bboxInt = .ok b) (hb' : b'.Norm)
    (hu : (Elem.ellipse h p q).bboxIntUpdate b' = .ok e') {f : Pt ℝ → Pt ℝ} (hf : IsStretch f b b') :
    ∃ cps, (Elem.ellipse h p q).asDigi = .ok cps ∧ e'.asDigi = .ok (cps.map (·.transformLin f)) := by
  obtain ⟨⟨sx, sy, tx, ty, hs⟩, xl, yl, xh, yh, xl', yl', xh', yh', rfl, rfl, h1, h2⟩ := hf
  simp only [bboxInt, Except.ok.injEq] at hb
  simp only [bboxIntUpdate, BBox.p1p2, Except.map, Except.ok.injEq] at hu
  subst hu
  obtain ⟨hx, hy⟩ := hb'
  rw [hs] at h1 h2
  simp only [Pt.mk.injEq] at h1 h2
  obtain ⟨rfl, rfl⟩ := h1
  obtain ⟨rfl, rfl⟩ := h2
  refine ⟨makeEllipseCps ⟨(xl + xh) / 2, (yl + yh) / 2⟩ ((xh - xl) / 2) ((yh - yl) / 2), ?_, ?_⟩
  · simp only [asDigi, makeEllipseP1P2, hb, BBox.center, BBox.width, BBox.height, bind, Except.bind]
  · have hn : BBox.ofPts (⟨sx * xl + tx, sy * yl + ty⟩ : Pt ℝ) ⟨sx * xh + tx, sy * yh + ty⟩ =
        .box (sx * xl + tx) (sy * yl + ty) (sx * xh + tx) (sy * yh + ty) := by
      simp only [BBox.ofPts, BBox.mk', min_eq_left hx, min_eq_left hy, max_eq_right hx, max_eq_right hy]
    simp only [asDigi, makeEllipseP1P2, hn, BBox.center, BBox.width, BBox.height, bind, Except.bind, Except.ok.injEq]
    simp only [makeEllipseCps, List.map_cons, List.map_nil, CP.transformLin, CP.l, CP.r, hs, Pt.addVector, Pt.subVec, Pt.sub,
      Vec.mul, Vec.neg, List.cons.injEq, CP.mk.injEq, Pt.mk.injEq, Vec.mk.injEq, and_true]
    refine ⟨?_, ?_, ?_, ?_⟩ <;> refine ⟨⟨?_, ?_⟩, ⟨?_, ?_⟩, ?_, ?_⟩ <;> ring

/-- C81, resizing a rectangle is stretching it: the corners afterwards are the images of the corners before, in some order (the
first point becomes the corner with the low coordinates), and in the same order if the points were the low and high corner. -/
theorem C81_rectangle {h : Hdr} {p q : Pt ℝ} {b b' : BBox ℝ} {e' : Elem} (hb : (Elem.rect h p q).bboxInt = .ok b)
    (hu : (Elem.rect h p q).bboxIntUpdate b' = .ok e') {f : Pt ℝ → Pt ℝ} (hf : IsStretch f b b') :
    ∃ cps cps', (Elem.rect h p q).asDigi = .ok cps ∧ e'.asDigi = .ok cps' ∧ cps'.Perm (cps.map (·.transformLin f)) ∧
      (p.x ≤ q.x → p.y ≤ q.y → cps' = cps.map (·.transformLin f)) := by
  obtain ⟨⟨sx, sy, tx, ty, hs⟩, xl, yl, xh, yh, xl', yl', xh', yh', rfl, rfl, h1, h2⟩ := hf
  simp only [bboxInt, Except.ok.injEq, BBox.ofPts, BBox.mk', BBox.box.injEq] at hb
  simp only [bboxIntUpdate, BBox.p1p2, Except.map, Except.ok.injEq] at hu
  subst hu
  rw [hs] at h1 h2
  simp only [Pt.mk.injEq] at h1 h2
  obtain ⟨rfl, rfl⟩ := h1
  obtain ⟨rfl, rfl⟩ := h2
  obtain ⟨rfl, rfl, rfl, rfl⟩ := hb
  refine ⟨_, _, rfl, rfl, ?_, ?_⟩
  · have key : ∀ c : Pt ℝ, (CP.mk c ⟨0, 0⟩ ⟨0, 0⟩ "smooth").transformLin f = CP.mk (f c) ⟨0, 0⟩ ⟨0, 0⟩ "smooth" := by
      intro c; simp [CP.transformLin, CP.l, CP.r, Pt.addVector, Pt.sub]
    simp only [corners, List.map_cons, List.map_nil, key, hs]
    rcases le_total p.x q.x with hx | hx <;> rcases le_total p.y q.y with hy | hy <;>
      simp only [min_eq_left hx, min_eq_left hy, min_eq_right hx, min_eq_right hy, max_eq_left hx, max_eq_left hy, max_eq_right hx,
        max_eq_right hy]
    · exact .refl _
    · generalize CP.mk (⟨sx * p.x + tx, sy * p.y + ty⟩ : Pt ℝ) _ _ _ = A
      generalize CP.mk (⟨sx * p.x + tx, sy * q.y + ty⟩ : Pt ℝ) _ _ _ = B
      generalize CP.mk (⟨sx * q.x + tx, sy * q.y + ty⟩ : Pt ℝ) _ _ _ = C
      generalize CP.mk (⟨sx * q.x + tx, sy * p.y + ty⟩ : Pt ℝ) _ _ _ = D
      exact (List.Perm.swap A B _).trans (((List.Perm.swap C D _).cons B).cons A)
    · generalize CP.mk (⟨sx * p.x + tx, sy * p.y + ty⟩ : Pt ℝ) _ _ _ = A
      generalize CP.mk (⟨sx * p.x + tx, sy * q.y + ty⟩ : Pt ℝ) _ _ _ = B
      generalize CP.mk (⟨sx * q.x + tx, sy * q.y + ty⟩ : Pt ℝ) _ _ _ = C
      generalize CP.mk (⟨sx * q.x + tx, sy * p.y + ty⟩ : Pt ℝ) _ _ _ = D
      exact List.reverse_perm [A, B, C, D]
    · generalize CP.mk (⟨sx * p.x + tx, sy * p.y + ty⟩ : Pt ℝ) _ _ _ = A
      generalize CP.mk (⟨sx * p.x + tx, sy * q.y + ty⟩ : Pt ℝ) _ _ _ = B
      generalize CP.mk (⟨sx * q.x + tx, sy * q.y + ty⟩ : Pt ℝ) _ _ _ = C
      generalize CP.mk (⟨sx * q.x + tx, sy * p.y + ty⟩ : Pt ℝ) _ _ _ = D
      exact List.perm_append_comm (l₁ := [C, D]) (l₂ := [A, B])
  · intro hx hy
    simp [corners, CP.transformLin, CP.l, CP.r, Pt.addVector, Pt.sub, hs, min_eq_left hx, min_eq_left hy, max_eq_right hx,
      max_eq_right hy]

/-- C81: there is such a stretch from every box with positive area, so the two theorems above are not empty. -/
theorem C81_stretch_exists (b b' : BBox ℝ) (hb : b.Fat) (hb' : b' ≠ .none) : ∃ f, IsStretch f b b' := by
  cases b with
  | none => exact hb.elim
  | box xl yl xh yh =>
    cases b' with
    | none => exact absurd rfl hb'
    | box xl' yl' xh' yh' =>
      obtain ⟨hx, hy⟩ := hb
      have hx' : xh - xl ≠ 0 := (sub_pos.2 hx).ne'
      have hy' : yh - yl ≠ 0 := (sub_pos.2 hy).ne'
      refine ⟨fun p => ⟨(xh' - xl') / (xh - xl) * p.x + (xl' - (xh' - xl') / (xh - xl) * xl),
        (yh' - yl') / (yh - yl) * p.y + (yl' - (yh' - yl') / (yh - yl) * yl)⟩, ⟨_, _, _, _, fun p => rfl⟩,
        xl, yl, xh, yh, xl', yl', xh', yh', rfl, rfl, ?_, ?_⟩
      · simp only [Pt.mk.injEq]; constructor <;> ring
      · simp only [Pt.mk.injEq]; constructor <;> field_simp <;> ring

/-- C81, what is drawn: the curve of a rectangle, rounded rectangle, ellipse or curve is its control points moved by its transform, so
it follows the control points; groups and shapes with holes have no control points of their own. -/
theorem C81_drawn (e : Elem) :
    (e.Resizable ∨ (∃ h cps, e = .curve h cps) → e.asCurves = match e.asDigi with
      | .error er => .error er
      | .ok cps => curveOf e.hdr cps) ∧
    ((∃ h hd es, e = .group h hd es) ∨ (∃ h o i, e = .holes h o i) → e.asDigi = .error .value) := by
  constructor
  · intro he
    cases e with
    | rect h p q => rfl
    | rrect h p q r => rfl
    | ellipse h p q => rfl
    | curve h cps => rfl
    | group h hd es => rcases he with he | ⟨_, _, he⟩; exacts [he.elim, nomatch he]
    | holes h o i => rcases he with he | ⟨_, _, he⟩; exacts [he.elim, nomatch he]
  · rintro (⟨h, hd, es, rfl⟩ | ⟨h, o, i, rfl⟩) <;> rfl

/-- C81, an ellipse updated with its own box has the same control points. -/
theorem C81_own_ellipse {h : Hdr} {p q : Pt ℝ} {b : BBox ℝ} (hb : (Elem.ellipse h p q).bboxInt = .ok b) :
    ∃ e', (Elem.ellipse h p q).bboxIntUpdate b = .ok e' ∧ e'.asDigi = (Elem.ellipse h p q).asDigi ∧
      e'.asCurves = (Elem.ellipse h p q).asCurves := by
  simp only [bboxInt, Except.ok.injEq] at hb
  have hm : BBox.ofPts (⟨min p.x q.x, min p.y q.y⟩ : Pt ℝ) ⟨max p.x q.x, max p.y q.y⟩ = BBox.ofPts p q := by
    simp [BBox.ofPts, BBox.mk']
  subst hb
  refine ⟨.ellipse h ⟨min p.x q.x, min p.y q.y⟩ ⟨max p.x q.x, max p.y q.y⟩, rfl, ?_, ?_⟩
  · simp only [asDigi, makeEllipseP1P2, hm]
  · simp only [asCurves, makeEllipseP1P2, hm]

/-- C81, counterexample: an update of a rectangle with its own box is not without effect: if the first point is not the low corner, the
points are exchanged or mixed. -/
theorem C81_own_rectangle_counterexample (h : Hdr) (p q : Pt ℝ) (hp : q.x < p.x ∨ q.y < p.y) :
    ∃ b e', (Elem.rect h p q).bboxInt = .ok b ∧ (Elem.rect h p q).bboxIntUpdate b = .ok e' ∧ e' ≠ Elem.rect h p q := by
  refine ⟨_, _, rfl, rfl, ?_⟩
  simp only [ne_eq, Elem.rect.injEq, true_and, not_and_or]
  left
  intro he
  have h1 := congrArg Pt.x he
  have h2 := congrArg Pt.y he
  simp only at h1 h2
  rcases hp with hp | hp
  · rw [min_eq_right hp.le] at h1; exact hp.ne h1
  · rw [min_eq_right hp.le] at h2; exact hp.ne h2

example : (Elem.rect ⟨[], ⟨none, none⟩, true, Mat3.one⟩ ⟨3, 0⟩ ⟨1, 2⟩).Resizable ∧ (BBox.box (0 : ℝ) 0 5 7).Norm := by
  constructor
  · trivial
  · constructor <;> norm_num

namespace EH

/-- C81 on objects: an update changes the coordinates of the two points of the element and nothing else: their names, the other
attributes, the transform and every other object stay. -/
theorem C81_frame {h : Heap} {i p1 p2 : ℕ} {a : Attr} {cls : Cls} {r x1 y1 x2 y2 : ℝ} {n1 n2 : Option String}
    (hi : h[i]? = some (.shape a cls p1 p2 r)) (h1 : h[p1]? = some (.pt x1 y1 n1)) (h2 : h[p2]? = some (.pt x2 y2 n2))
    (hne : p1 ≠ p2) (xl yl xh yh : ℝ) :
    ∃ h', bboxIntUpdate h i (.box xl yl xh yh) = .ok h' ∧ h'[p1]? = some (.pt xl yl n1) ∧ h'[p2]? = some (.pt xh yh n2) ∧
      h.length ≤ h'.length ∧ ∀ k, k < h.length → k ≠ p1 → k ≠ p2 → h'[k]? = h[k]? := by
  have l1 := get_lt h1
  have l2 := get_lt h2
  refine ⟨(((h ++ [Obj.pt xl yl none]).set p1 (Obj.pt xl yl n1)) ++ [Obj.pt xh yh none]).set p2 (Obj.pt xh yh n2), ?_, ?_, ?_, ?_, ?_⟩
  · unfold bboxIntUpdate
    rw [hi]
    have e1 : restorePt (h ++ [Obj.pt xl yl none]) p1 ((h ++ [Obj.pt xl yl none]).length - 1) =
        .ok ((h ++ [Obj.pt xl yl none]).set p1 (Obj.pt xl yl n1)) := by
      unfold restorePt
      rw [List.getElem?_append_left l1, h1]
      simp
    simp only [e1]
    unfold restorePt
    have e2 : ((h ++ [Obj.pt xl yl none]).set p1 (Obj.pt xl yl n1) ++ [Obj.pt xh yh none])[p2]? = some (Obj.pt x2 y2 n2) := by
      rw [List.getElem?_append_left (by simp; omega), List.getElem?_set_ne hne, List.getElem?_append_left l2, h2]
    rw [e2]
    simp
  · rw [List.getElem?_set_ne hne.symm, List.getElem?_append_left (by simp; omega), List.getElem?_set_self (by simp; omega)]
  · rw [List.getElem?_set_self (by simp; omega)]
  · simp; omega
  · intro k hk k1 k2
    rw [List.getElem?_set_ne k2.symm, List.getElem?_append_left (by simp; omega), List.getElem?_set_ne k1.symm,
      List.getElem?_append_left hk]

/-- C81 on objects: the value of the element afterwards. -/
theorem C81_value {h : Heap} {i : ℕ} {n : Str} {pb : PenBrush} {c : Bool} {m : Mat3 ℝ} {cls : Cls} {r x1 y1 x2 y2 : ℝ}
    {n1 n2 : Option String} (hv : val h i = some (.shape n pb c m cls (x1, y1, n1, true) (x2, y2, n2, true) r))
    (hn : (objs h i).Nodup) (xl yl xh yh : ℝ) :
    ∃ h', bboxIntUpdate h i (.box xl yl xh yh) = .ok h' ∧
      val h' i = some (.shape n pb c m cls (xl, yl, n1, true) (xh, yh, n2, true) r) ∧ xfOf h' i = xfOf h i := by
  rcases val_some hv with ⟨a, cps, m', vs, g1, g2, g3, he⟩ | ⟨a, cls', p1, p2, r', m', v1, v2, g1, g2, g3, g4, he⟩
  · simp at he
  · simp only [EVal.shape.injEq] at he
    obtain ⟨rfl, rfl, rfl, rfl, rfl, rfl, rfl, rfl⟩ := he
    have ho : objs h i = [i, p1, p2] := by unfold objs; rw [g1]
    rw [ho] at hn
    have d1 : i ≠ p1 := by intro e; simp [e] at hn
    have d2 : i ≠ p2 := by intro e; simp [e] at hn
    have d3 : p1 ≠ p2 := by intro e; simp [e] at hn
    have q1 : h[p1]? = some (.pt x1 y1 n1) := by
      unfold ptVal at g3
      split at g3 <;> simp_all
    have q2 : h[p2]? = some (.pt x2 y2 n2) := by
      unfold ptVal at g4
      split at g4 <;> simp_all
    obtain ⟨h', u1, u2, u3, u4, u5⟩ := C81_frame g1 q1 q2 d3 xl yl xh yh
    have g1' : h'[i]? = some (.shape a cls p1 p2 r) := by rw [u5 i (get_lt g1) d1 d2, g1]
    have hm : h[a.xf]? = some (.xform m) := matVal_get g2
    have gm : h'[a.xf]? = some (.xform m) := by
      rw [u5 a.xf (get_lt hm) ?_ ?_, hm]
      · intro e; rw [e, q1] at hm; simp at hm
      · intro e; rw [e, q2] at hm; simp at hm
    refine ⟨h', u1, ?_, ?_⟩
    · unfold val
      rw [g1']
      simp [matVal, gm, ptVal, u2, u3]
    · unfold xfOf
      rw [g1', g1]

/-- C81 and C45, undo: a copy taken before an update is not changed by it, and restoring from it undoes the update. -/
theorem C81_undo {h h' : Heap} {i j : ℕ} {n : Str} {pb : PenBrush} {m : Mat3 ℝ} {cls : Cls} {r x1 y1 x2 y2 : ℝ}
    (hv : val h i = some (.shape n pb true m cls (x1, y1, none, true) (x2, y2, none, true) r)) (hn : (objs h i).Nodup)
    (hc : copyBasic h i = .ok (h', j)) (xl yl xh yh : ℝ) :
    ∃ h2 h3, bboxIntUpdate h' i (.box xl yl xh yh) = .ok h2 ∧ val h2 j = val h i ∧ restoreBasic h2 i j = .ok h3 ∧
      val h3 i = val h i := by
  have hmade : (EVal.shape n pb true m cls (x1, y1, none, true) (x2, y2, none, true) r).Made := ⟨rfl, rfl, rfl⟩
  have hun : (EVal.shape n pb true m cls (x1, y1, none, true) (x2, y2, none, true) r).Unnamed := ⟨rfl, rfl⟩
  obtain ⟨new, j', c1, c2, c3, c4, c5⟩ := C45_copy hv hmade hun
  rw [hc] at c1
  simp only [Except.ok.injEq, Prod.mk.injEq] at c1
  obtain ⟨rfl, rfl⟩ := c1
  rcases val_some hv with ⟨a, cps, m', vs, g1, g2, g3, he⟩ | ⟨a, cls', p1, p2, r', m', v1, v2, g1, g2, g3, g4, he⟩
  · simp at he
  simp only [EVal.shape.injEq] at he
  obtain ⟨rfl, rfl, hcl, rfl, rfl, rfl, rfl, rfl⟩ := he
  have ho : objs h i = [i, p1, p2] := by unfold objs; rw [g1]
  have hn0 := hn
  rw [ho] at hn
  have d1 : i ≠ p1 := by intro e; simp [e] at hn
  have d2 : i ≠ p2 := by intro e; simp [e] at hn
  have d3 : p1 ≠ p2 := by intro e; simp [e] at hn
  have li := get_lt g1
  have l1 := ptVal_lt g3
  have l2 := ptVal_lt g4
  have q1 : (h ++ new)[p1]? = some (.pt x1 y1 none) := by
    rw [List.getElem?_append_left l1]
    unfold ptVal at g3
    split at g3 <;> simp_all
  have q2 : (h ++ new)[p2]? = some (.pt x2 y2 none) := by
    rw [List.getElem?_append_left l2]
    unfold ptVal at g4
    split at g4 <;> simp_all
  have gi : (h ++ new)[i]? = some (.shape a cls p1 p2 r) := by rw [List.getElem?_append_left li, g1]
  obtain ⟨h2, u1, u2, u3, u4, u5⟩ := C81_frame gi q1 q2 d3 xl yl xh yh
  have hobj : objs (h ++ new) i = [i, p1, p2] := by unfold objs; rw [gi]
  obtain ⟨h2', w1, w2, w3⟩ := C81_value c3 (by rw [hobj, ← ho]; exact hn0) xl yl xh yh
  rw [u1] at w1
  obtain rfl := Except.ok.inj w1
  -- the copy
  rcases val_some c2 with ⟨b, cps, m'', vs, f1, f2, f3, he⟩ | ⟨b, cls', s1, s2, r', m'', v1, v2, f1, f2, f3, f4, he⟩
  · simp at he
  simp only [EVal.shape.injEq] at he
  obtain ⟨hbn, hbp, hbc, rfl, rfl, rfl, rfl, rfl⟩ := he
  have hoj : objs (h ++ new) j = [j, s1, s2] := by unfold objs; rw [f1]
  have kj := c4 j (by rw [hoj]; simp)
  have k1 := c4 s1 (by rw [hoj]; simp)
  have k2 := c4 s2 (by rw [hoj]; simp)
  have fj : h2[j]? = some (.shape b cls s1 s2 r) := by rw [u5 j (get_lt f1) (by omega) (by omega), f1]
  have e1 : ptVal h2 s1 = some (x1, y1, none, true) := by
    rw [ptVal_congr (u5 s1 (ptVal_lt f3) (by omega) (by omega)), f3]
  have e2 : ptVal h2 s2 = some (x2, y2, none, true) := by
    rw [ptVal_congr (u5 s2 (ptVal_lt f4) (by omega) (by omega)), f4]
  have e3 : matVal h2 b.xf = some m := by
    have hm := matVal_get f2
    rw [matVal_congr (u5 b.xf (get_lt hm) ?_ ?_), f2]
    · intro e; rw [e, q1] at hm; simp at hm
    · intro e; rw [e, q2] at hm; simp at hm
  have vj : val h2 j = some (.shape a.name a.pb true m cls (x1, y1, none, true) (x2, y2, none, true) r) := by
    unfold val
    rw [fj]
    simp [e1, e2, e3, hbn, hbp, hbc]
  have gi2 : h2[i]? = some (.shape a cls p1 p2 r) := by rw [u5 i (get_lt gi) d1 d2, gi]
  have own2 : own h2 i = [i, p1, p2] := by unfold own; rw [gi2]
  have obj2 : objs h2 j = [j, s1, s2] := by unfold objs; rw [fj]
  obtain ⟨h3, t1, t2, t3, t4, t5⟩ := C45_restore w2 vj ⟨rfl, rfl, rfl, rfl, rfl, fun _ => rfl⟩ ⟨rfl, rfl⟩ (by rw [own2]; exact hn) (by
    intro k hk hk'
    rw [own2] at hk
    rw [obj2] at hk'
    simp only [List.mem_cons, List.not_mem_nil, or_false] at hk hk'
    rcases hk with rfl | rfl | rfl <;> rcases hk' with e | e | e <;> omega)
  exact ⟨h2, h3, u1, by rw [vj, hv], t1, by rw [t2, hv]⟩

/-- C81 on objects: the exceptions. A curve, group or shape with holes, and a box without coordinates. -/
theorem C81_object_error (h : Heap) (i : ℕ) (b : BBox ℝ) :
    (∀ a cps, h[i]? = some (.curve a cps) → bboxIntUpdate h i b = .error .value) ∧
    (∀ a hd es ps, h[i]? = some (.group a hd es ps) → bboxIntUpdate h i b = .error .value) ∧
    (∀ a o is, h[i]? = some (.holes a o is) → bboxIntUpdate h i b = .error .value) ∧
    (∀ a cls p q r, h[i]? = some (.shape a cls p q r) → bboxIntUpdate h i .none = .error .value) := by
  refine ⟨?_, ?_, ?_, ?_⟩ <;> intros <;> simp_all [bboxIntUpdate]

/-- An ellipse with its points and transform. -/
example : let h : Heap := [.xform Mat3.one, .pt 1 2 none, .pt 3 5 none, .shape ⟨['e'], ⟨none, none⟩, true, 0⟩ .ellipse 1 2 0]
    val h 3 = some (.shape ['e'] ⟨none, none⟩ true Mat3.one .ellipse (1, 2, none, true) (3, 5, none, true) 0) ∧
      (objs h 3).Nodup := by
  constructor
  · rfl
  · simp [objs]

end EH
end X7
