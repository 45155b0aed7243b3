import Verif.Lemmas.FillMove
import Verif.Props.Fill
import Verif.Props.ElemBBox

/-!
C130: what is filled follows the transforms, stays in the bounding box and does not depend on the direction of the outline.
-/

noncomputable section

namespace X7.Elem
open Classical

/-- C130: a transform that does not flatten the plane (also one that mirrors) maps what a polygon covers to what the mapped polygon covers, except
maybe points on a side. -/
theorem C130_transform (m : Mat3 ℝ) (hm : Solid m) (pts : List (Pt ℝ)) (p : Pt ℝ) (hp : ¬ OnSide pts p) :
    Covers (pts.map m.apply) (m.apply p) ↔ Covers pts p := (carries_apply hm pts p hp).2

/-- C130: if any element is drawn under a further transform then it draws the same paths with the same pens and brushes, mapped by it, and fails if
and only if it failed before. -/
theorem C130_paths (cfg : DCfg) (e : Elem) (he : AffineOwn e) (n m : Mat3 ℝ) (hm : m.Affine) :
    drawn cfg e (n.mul m) = (drawn cfg e m).map (List.map (mapped n)) := drawn_moved cfg n e he m hm

/-- C130: so each path fills the same part of the plane, mapped. -/
theorem C130_element (cfg : DCfg) (e : Elem) (he : AffineOwn e) (n m : Mat3 ℝ) (hm : m.Affine) (hn : Solid n) (ps : List Path)
    (hd : drawn cfg e m = .ok ps) :
    ∃ ps', drawn cfg e (n.mul m) = .ok ps' ∧ List.Forall₂ (fun q q' => q'.pb = q.pb ∧
      ∀ p, ¬ OnSide q.pts p → (Covers q'.pts (n.apply p) ↔ Covers q.pts p)) ps ps' := by
  refine ⟨ps.map (mapped n), by rw [C130_paths cfg e he n m hm, hd]; rfl, ?_⟩
  rw [List.forall₂_map_right_iff, List.forall₂_same]
  exact fun q _ => ⟨rfl, fun p hp => C130_transform n hn q.pts p hp⟩

/-- C130: for a point on a side this can fail. The left side of a square is covered and its right side is not; mirrored, the image of the left side
is the right side. -/
theorem C130_side_counterexample : ∃ (m : Mat3 ℝ) (pts : List (Pt ℝ)) (p : Pt ℝ), Solid m ∧ Covers pts p ∧ ¬ Covers (pts.map m.apply) (m.apply p) := by
  refine ⟨⟨-1, 0, 0, 0, 1, 0, 0, 0, 1⟩, [⟨0, 0⟩, ⟨0, 2⟩, ⟨2, 2⟩, ⟨2, 0⟩, ⟨0, 0⟩], ⟨0, 1⟩, by norm_num [Solid], (covers_box 0 0 2 2 _).2 (by norm_num), ?_⟩
  simp only [List.map_cons, List.map_nil, Mat3.apply]
  norm_num
  intro h
  have := (covers_box 0 0 (-2) 2 ⟨0, 1⟩).1 h
  norm_num at this

/-- C130: it does not matter in which direction the outline runs, nor at which of its points it starts. -/
theorem C130_direction (pts : List (Pt ℝ)) (p : Pt ℝ) :
    (Covers pts.reverse p ↔ Covers pts p) ∧ ∀ k, Covers (pts.rotate k) p ↔ Covers pts p := by
  refine ⟨?_, fun k => ?_⟩
  · rw [covers_iff, covers_iff, cyc_reverse, funext fun a => funext fun b => crossing_comm p b a]
  · rw [covers_iff, covers_iff, cyc_rotate]

/-- C130: a polygon covers nothing outside a box that contains its points. -/
theorem C130_box (b : BBox ℝ) (pts : List (Pt ℝ)) (hb : ∀ q ∈ pts, q ∈ b.Region) (p : Pt ℝ) (hp : Covers pts p) : p ∈ b.Region := by
  obtain ⟨⟨q1, m1, h1⟩, ⟨q2, m2, h2⟩, ⟨q3, m3, h3⟩, ⟨q4, m4, h4⟩⟩ := covers_around hp
  cases b with
  | none => exact hb q1 m1
  | box xl yl xh yh =>
    exact ⟨⟨(hb q1 m1).1.1.trans h1, h2.le.trans (hb q2 m2).1.2⟩, (hb q3 m3).2.1.trans h3, h4.le.trans (hb q4 m4).2.2⟩

/-- C130: nothing an element fills is outside its `bbox()`: whatever the (not flattening) transform of the context, each covered point is the image of a
point of the box. -/
theorem C130_bbox (cfg : DCfg) (e : Elem) (hs : e.Sound) (b : BBox ℝ) (hb : e.bbox = .ok b) (s : TState) (hm : Solid s.mat) (ps : List Path)
    (hp : (paths cfg e s).2 = .ok ps) (q : Path) (hq : q ∈ ps) (p : Pt ℝ) (hc : Covers q.pts p) : ∃ p0 ∈ b.Region, p = s.mat.apply p0 := by
  have h0 : ∀ l : List (Pt ℝ), (∀ x ∈ l, ∃ y ∈ b.Region, x = s.mat.apply y) → ∃ l0 : List (Pt ℝ), (∀ y ∈ l0, y ∈ b.Region) ∧ l = l0.map s.mat.apply := by
    intro l
    induction l with
    | nil => exact fun _ => ⟨[], by simp, rfl⟩
    | cons a l ih =>
      intro h
      obtain ⟨l0, h1, h2⟩ := ih fun x hx => h x (by simp [hx])
      obtain ⟨y, h3, h4⟩ := h a (by simp)
      exact ⟨y :: l0, by simpa [h3] using h1, by rw [List.map_cons, ← h2, h4]⟩
  obtain ⟨l0, h1, h2⟩ := h0 q.pts fun x hx => C39_bbox_context cfg e hs b hb s ps hp q hq x hx
  obtain ⟨p0, rfl⟩ := apply_onto hm p
  refine ⟨p0, ?_, rfl⟩
  rw [h2] at hc
  by_cases ho : OnSide l0 p0
  · obtain ⟨⟨u, w⟩, he, v, v0, v1, rfl⟩ := ho
    have hu := h1 u (List.of_mem_zip he).1
    have hw := h1 w (by simpa using (List.of_mem_zip he).2)
    cases b with
    | none => exact hu
    | box xl yl xh yh =>
      obtain ⟨⟨a1, a2⟩, a3, a4⟩ := hu
      obtain ⟨⟨b1, b2⟩, b3, b4⟩ := hw
      refine ⟨⟨?_, ?_⟩, ?_, ?_⟩ <;> simp only <;> nlinarith [mul_nonneg v0 (sub_nonneg.2 b1), mul_nonneg v0 (sub_nonneg.2 b2), mul_nonneg v0 (sub_nonneg.2 b3),
        mul_nonneg v0 (sub_nonneg.2 b4), mul_nonneg (sub_nonneg.2 v1) (sub_nonneg.2 a1), mul_nonneg (sub_nonneg.2 v1) (sub_nonneg.2 a2),
        mul_nonneg (sub_nonneg.2 v1) (sub_nonneg.2 a3), mul_nonneg (sub_nonneg.2 v1) (sub_nonneg.2 a4)]
  · exact C130_box b l0 h1 p0 ((C130_transform _ hm l0 p0 ho).1 hc)

/-- A square with a square hole, rotated by a quarter turn about the origin and moved: the hole is still not filled, the rest still is. -/
example (cfg : DCfg) : ∃ ps, drawn cfg (.holes ⟨"h".toList, fillPen, true, Mat3.one⟩ (box 0 0 4 4) [box 1 1 2 2])
    ((⟨0, -1, 10, 1, 0, 0, 0, 0, 1⟩ : Mat3 ℝ).mul Mat3.one) = .ok ps ∧ ∃ fill ∈ ps, Covers fill.pts ⟨7, 1 / 2⟩ ∧ ¬ Covers fill.pts ⟨35 / 4, 3 / 2⟩ := by
  have h := drawn_holes_filled cfg ⟨"h".toList, fillPen, true, Mat3.one⟩ (box 0 0 4 4) [box 1 1 2 2] Mat3.one ⟨.name "red"⟩ (boxPath 0 0 4 4) ⟨0, 0⟩
    [[boxPath 1 1 2 2]] rfl (drawn_box cfg 0 0 4 4) rfl (.cons (drawn_box cfg 1 1 2 2) .nil)
  have ha : (Mat3.one : Mat3 ℝ).Affine := ⟨rfl, rfl, rfl⟩
  obtain ⟨fill, edges, h1, -, -, h2⟩ := C128_region cfg ⟨"h".toList, fillPen, true, Mat3.one⟩ (box 0 0 4 4) [box 1 1 2 2] Mat3.one ⟨.name "red"⟩
    (boxPath 0 0 4 4) [boxPath 1 1 2 2] rfl (drawn_box _ _ _ _ _) (by simp [boxPath]) (.cons (drawn_box _ _ _ _ _) .nil) (by simp [box, ClosedShape])
  rw [h1, Except.ok.injEq, List.cons.injEq] at h
  obtain ⟨ps', h3, h4⟩ := C130_element cfg (.holes ⟨"h".toList, fillPen, true, Mat3.one⟩ (box 0 0 4 4) [box 1 1 2 2])
    (by simp [AffineOwn, AffineIn, box, ha]) ⟨0, -1, 10, 1, 0, 0, 0, 0, 1⟩ Mat3.one ha (by norm_num [Solid]) _ h1
  cases h4 with
  | cons h5 _ =>
    rename_i fill' _ _
    have e1 := h5.2 ⟨1 / 2, 3⟩ (by
      rw [h.1]
      rintro ⟨e, he, v, v0, v1, hv⟩
      rw [Pt.ext_iff] at hv
      simp [boxPath, fillTail] at he
      rcases he with rfl | rfl | rfl | rfl | rfl | rfl | rfl | rfl | rfl | rfl | rfl <;> simp at hv <;> linarith [hv.1, hv.2])
    have e2 := h5.2 ⟨3 / 2, 5 / 4⟩ (by
      rw [h.1]
      rintro ⟨e, he, v, v0, v1, hv⟩
      rw [Pt.ext_iff] at hv
      simp [boxPath, fillTail] at he
      rcases he with rfl | rfl | rfl | rfl | rfl | rfl | rfl | rfl | rfl | rfl | rfl <;> simp at hv <;> linarith [hv.1, hv.2])
    norm_num [Mat3.apply] at e1 e2
    refine ⟨_, h3, fill', by simp, e1.2 ((h2 _ ?_ (by simp)).2 ?_), fun hc => ?_⟩
    · simp [boxPath, covers_box]; norm_num
    · simp [boxPath, covers_box]; norm_num
    · have := (h2 _ (by simp [boxPath, covers_box]; norm_num) (by simp)).1 (e2.1 hc)
      simp [boxPath, covers_box] at this
      norm_num at this

end X7.Elem
