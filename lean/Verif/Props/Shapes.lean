import Verif.Spec.Shapes
import Verif.Lemmas.Shapes
import Verif.Props.Bezier

namespace X7

/-! ### C49 -/

theorem min_half (a b : ℝ) : min a b = (a + b) / 2 - |a - b| / 2 := by
  rcases le_total a b with h | h
  · rw [min_eq_left h, abs_of_nonpos (by linarith)]; ring
  · rw [min_eq_right h, abs_of_nonneg (by linarith)]; ring

theorem max_half (a b : ℝ) : max a b = (a + b) / 2 + |a - b| / 2 := by
  rcases le_total a b with h | h
  · rw [max_eq_right h, abs_of_nonpos (by linarith)]; ring
  · rw [max_eq_left h, abs_of_nonneg (by linarith)]; ring

theorem box_add_eq {a b c d a' b' c' d' e f g h : ℝ} (h1 : a ≤ c) (h2 : b ≤ d) (h3 : a' ≤ c') (h4 : b' ≤ d')
    (h5 : min a a' = e) (h6 : min b b' = f) (h7 : max c c' = g) (h8 : max d d' = h) :
    (BBox.box a b c d).add (.box a' b' c' d') = .box e f g h := by
  subst h5 h6 h7 h8
  simp only [BBox.add]
  exact BBox.mk'_of_le ((min_le_left _ _).trans (h1.trans (le_max_left _ _))) ((min_le_left _ _).trans (h2.trans (le_max_left _ _)))

theorem cp_bbox_eq {cp : CP ℝ} {a b c d : ℝ} (h1 : min (min (cp.c.x + cp.dl.x) (cp.c.x + cp.dr.x)) cp.c.x = a)
    (h2 : min (min (cp.c.y + cp.dl.y) (cp.c.y + cp.dr.y)) cp.c.y = b) (h3 : max (max (cp.c.x + cp.dl.x) (cp.c.x + cp.dr.x)) cp.c.x = c)
    (h4 : max (max (cp.c.y + cp.dl.y) (cp.c.y + cp.dr.y)) cp.c.y = d) : cp.bbox = .box a b c d := by
  subst h1 h2 h3 h4; rfl

theorem makeEllipseP1P2_eq (p1 p2 : Pt ℝ) :
    makeEllipseP1P2 p1 p2 = .ok (makeEllipseCps ⟨(p1.x + p2.x) / 2, (p1.y + p2.y) / 2⟩ (|p1.x - p2.x| / 2) (|p1.y - p2.y| / 2)) := by
  simp only [makeEllipseP1P2, BBox.ofPts, BBox.mk', BBox.center, BBox.width, BBox.height, bind, Except.bind, min_add_max]
  rw [max_sub_min_eq_abs, max_sub_min_eq_abs, abs_sub_comm p2.x, abs_sub_comm p2.y]

/-- C49: the bounding box of the control points, handles included, is exactly the box given by the two corners. -/
theorem C49_bbox (p1 p2 : Pt ℝ) : ∃ cps, makeEllipseP1P2 p1 p2 = .ok cps ∧ bboxCps cps = .ok (BBox.ofPts p1 p2) := by
  refine ⟨_, makeEllipseP1P2_eq p1 p2, ?_⟩
  obtain ⟨k0, k1⟩ := bez90_bounds
  have hw := abs_nonneg (p1.x - p2.x)
  have hh := abs_nonneg (p1.y - p2.y)
  have ex1 : min p1.x p2.x = (p1.x + p2.x) / 2 - |p1.x - p2.x| / 2 := min_half _ _
  have ex2 : max p1.x p2.x = (p1.x + p2.x) / 2 + |p1.x - p2.x| / 2 := max_half _ _
  have ey1 : min p1.y p2.y = (p1.y + p2.y) / 2 - |p1.y - p2.y| / 2 := min_half _ _
  have ey2 : max p1.y p2.y = (p1.y + p2.y) / 2 + |p1.y - p2.y| / 2 := max_half _ _
  rw [BBox.ofPts, BBox.mk', ex1, ex2, ey1, ey2]
  generalize (p1.x + p2.x) / 2 = cx, (p1.y + p2.y) / 2 = cy at *
  generalize hA : |p1.x - p2.x| / 2 = a at *
  generalize hB : |p1.y - p2.y| / 2 = b at *
  have ha : 0 ≤ a := by linarith
  have hb : 0 ≤ b := by linarith
  have hka : 0 ≤ a * bez90 := by positivity
  have hkb : 0 ≤ b * bez90 := by positivity
  have hka' : a * bez90 ≤ a := by nlinarith
  have hkb' : b * bez90 ≤ b := by nlinarith
  simp only [makeEllipseCps, bboxCps, List.foldl_cons, List.foldl_nil, Except.ok.injEq]
  rw [cp_bbox_eq (a := cx + a) (b := cy - b * bez90) (c := cx + a) (d := cy + b * bez90),
    cp_bbox_eq (a := cx - a * bez90) (b := cy - b) (c := cx + a * bez90) (d := cy - b),
    cp_bbox_eq (a := cx - a) (b := cy - b * bez90) (c := cx - a) (d := cy + b * bez90),
    cp_bbox_eq (a := cx - a * bez90) (b := cy + b) (c := cx + a * bez90) (d := cy + b),
    box_add_eq (e := cx - a * bez90) (f := cy - b) (g := cx + a) (h := cy + b * bez90),
    box_add_eq (e := cx - a) (f := cy - b) (g := cx + a) (h := cy + b * bez90),
    box_add_eq (e := cx - a) (f := cy - b) (g := cx + a) (h := cy + b)]
  all_goals try simp only [Pt.addVector, Pt.subVec, Vec.mul, Vec.neg, min_def, max_def]
  all_goals first | linarith | (split_ifs <;> linarith)

/-- C49: every control point and handle end, and every point of the curve, is in the box. -/
theorem C49_inside (p1 p2 : Pt ℝ) : ∃ cps, makeEllipseP1P2 p1 p2 = .ok cps ∧
    (∀ cp ∈ cps, cp.c ∈ (BBox.ofPts p1 p2).Region ∧ cp.l ∈ (BBox.ofPts p1 p2).Region ∧ cp.r ∈ (BBox.ofPts p1 p2).Region) ∧
    curveSet true cps ⊆ (BBox.ofPts p1 p2).Region := by
  obtain ⟨cps, h, hb⟩ := C49_bbox p1 p2
  refine ⟨cps, h, ?_, ?_⟩
  · cases cps with
    | nil => simp
    | cons p rest =>
      simp only [bboxCps, Except.ok.injEq] at hb
      intro cp hcp
      have hs := fold_bbox_sub p rest cp hcp
      rw [hb] at hs
      obtain ⟨h1, h2, h3⟩ := cp_bbox_mem cp
      exact ⟨hs h1, hs h2, hs h3⟩
  · rintro q ⟨s, hs, t, h0, h1, rfl⟩
    exact C32_curve_in_bbox true cps _ hb s hs t h0 h1

/-- C49: the curve is symmetric under both reflections through the centre. -/
theorem C49_symmetric (c : Pt ℝ) (rx ry : ℝ) (q : Pt ℝ) (hq : q ∈ curveSet true (makeEllipseCps c rx ry)) :
    (⟨2 * c.x - q.x, q.y⟩ : Pt ℝ) ∈ curveSet true (makeEllipseCps c rx ry) ∧
    (⟨q.x, 2 * c.y - q.y⟩ : Pt ℝ) ∈ curveSet true (makeEllipseCps c rx ry) := by
  obtain ⟨s, hs, t, h0, h1, rfl⟩ := hq
  simp only [curveSet, Set.mem_ofPred_eq]
  simp only [ellipse_segs] at hs ⊢
  obtain ⟨e1, e2⟩ := quarter_swap t
  simp only [List.mem_cons, List.not_mem_nil, or_false, exists_eq_or_imp, exists_eq_left] at hs ⊢
  have key : ∀ v u : Vec ℝ, (quarter c v u).at' (1 - t) = _ := fun v u => quarter_at c v u (1 - t)
  rcases hs with rfl | rfl | rfl | rfl
  · exact ⟨.inr (.inl ⟨1 - t, by linarith, by linarith, by rw [key, quarter_at, e1, e2]; ext <;> simp <;> ring⟩),
      .inr (.inr (.inr ⟨1 - t, by linarith, by linarith, by rw [key, quarter_at, e1, e2]; ext <;> simp <;> ring⟩))⟩
  · exact ⟨.inl ⟨1 - t, by linarith, by linarith, by rw [key, quarter_at, e1, e2]; ext <;> simp <;> ring⟩,
      .inr (.inr (.inl ⟨1 - t, by linarith, by linarith, by rw [key, quarter_at, e1, e2]; ext <;> simp <;> ring⟩))⟩
  · exact ⟨.inr (.inr (.inr ⟨1 - t, by linarith, by linarith, by rw [key, quarter_at, e1, e2]; ext <;> simp <;> ring⟩)),
      .inr (.inl ⟨1 - t, by linarith, by linarith, by rw [key, quarter_at, e1, e2]; ext <;> simp <;> ring⟩)⟩
  · exact ⟨.inr (.inr (.inl ⟨1 - t, by linarith, by linarith, by rw [key, quarter_at, e1, e2]; ext <;> simp <;> ring⟩)),
      .inl ⟨1 - t, by linarith, by linarith, by rw [key, quarter_at, e1, e2]; ext <;> simp <;> ring⟩⟩

/-- C49: the middle and the ends of the four segments are the points of the ellipse at all multiples of 45 degrees. -/
theorem C49_on_ellipse (c : Pt ℝ) (rx ry : ℝ) (i j : ℕ) (hi : i < 4) (hj : j ≤ 2) :
    ∃ s, (segs true (makeEllipseCps c rx ry))[i]? = some s ∧
      s.at' ((j : ℝ) / 2) = ellipsePoint c rx ry (-(i * (Real.pi / 2) + j * (Real.pi / 4))) := by
  rw [ellipse_segs]
  obtain ⟨hx, hy⟩ := quarter_half
  have x0 : quarterX 0 = 1 := by simp [quarterX]
  have x1 : quarterX 1 = 0 := by simp [quarterX]
  have y0 : quarterY 0 = 0 := by simp [quarterY]
  have y1 : quarterY 1 = 1 := by simp [quarterY]
  have c3 : Real.cos (3 * (Real.pi / 2)) = 0 := by
    rw [show 3 * (Real.pi / 2) = Real.pi + Real.pi / 2 by ring, Real.cos_add]; simp
  have s3 : Real.sin (3 * (Real.pi / 2)) = -1 := by
    rw [show 3 * (Real.pi / 2) = Real.pi + Real.pi / 2 by ring, Real.sin_add]; simp
  have c2 : Real.cos (2 * (Real.pi / 2)) = -1 := by rw [mul_div_cancel₀ _ (by norm_num)]; simp
  have s2 : Real.sin (2 * (Real.pi / 2)) = 0 := by rw [mul_div_cancel₀ _ (by norm_num)]; simp
  have c2' : Real.cos (2 * (Real.pi / 4)) = 0 := by rw [show 2 * (Real.pi / 4) = Real.pi / 2 by ring]; simp
  have s2' : Real.sin (2 * (Real.pi / 4)) = 1 := by rw [show 2 * (Real.pi / 4) = Real.pi / 2 by ring]; simp
  interval_cases i <;> interval_cases j <;> refine ⟨_, rfl, ?_⟩ <;>
    simp only [quarter_at, ellipsePoint, Real.cos_neg, Real.sin_neg, Real.cos_add, Real.sin_add, Nat.cast_ofNat, Nat.cast_zero,
      Nat.cast_one, zero_div, zero_mul, one_mul, div_self (two_ne_zero : (2 : ℝ) ≠ 0), hx, hy, x0, x1, y0, y1, c3, s3, c2, s2, c2', s2',
      Real.cos_zero, Real.sin_zero, Real.cos_pi_div_two, Real.sin_pi_div_two, Real.cos_pi_div_four, Real.sin_pi_div_four] <;>
    ext <;> simp only <;> ring

/-- C49: no point of the curve is inside the ellipse, and none is further out than 0.03 percent. -/
theorem C49_deviation (c : Pt ℝ) (rx ry : ℝ) (hx : rx ≠ 0) (hy : ry ≠ 0) (q : Pt ℝ)
    (hq : q ∈ curveSet true (makeEllipseCps c rx ry)) :
    1 ≤ ellipseRadius c rx ry q ∧ ellipseRadius c rx ry q ≤ 1 + 3 / 10000 := by
  obtain ⟨s, hs, t, h0, h1, rfl⟩ := hq
  obtain ⟨b1, b2⟩ := quarter_bounds t h0 h1
  have key : ((s.at' t).x - c.x) ^ 2 / rx ^ 2 + ((s.at' t).y - c.y) ^ 2 / ry ^ 2 = quarterX t ^ 2 + quarterY t ^ 2 := by
    rw [ellipse_segs] at hs
    simp only [List.mem_cons, List.not_mem_nil, or_false] at hs
    rcases hs with rfl | rfl | rfl | rfl <;> rw [quarter_at] <;> field_simp <;> ring
  rw [ellipseRadius, div_pow, div_pow, key]
  constructor
  · rw [← Real.sqrt_one]; exact Real.sqrt_le_sqrt b1
  · rw [Real.sqrt_le_left (by norm_num)]; exact b2

example : (⟨2, 0⟩ : Pt ℝ) ∈ curveSet true (makeEllipseCps ⟨0, 0⟩ 2 1) :=
  ⟨quarter ⟨0, 0⟩ ⟨2, 0⟩ ⟨0, -1⟩, by rw [ellipse_segs]; simp, 0, le_rfl, by norm_num, by
    rw [quarter_at]; ext <;> simp [quarterX, quarterY]⟩

/-! ### C50 -/

theorem corner_mem (p1 p2 a : Pt ℝ) (hx : a.x = p1.x ∨ a.x = p2.x) (hy : a.y = p1.y ∨ a.y = p2.y) : a ∈ (BBox.ofPts p1 p2).Region := by
  simp only [BBox.ofPts, BBox.mk', BBox.Region, Set.mem_ofPred_eq]
  rcases hx with h | h <;> rcases hy with h' | h' <;> rw [h, h'] <;> simp

theorem cornerL_within {bb : BBox ℝ} {a b : Pt ℝ} {w nr la s : ℝ} (ha : a ∈ bb.Region) (hb : b ∈ bb.Region)
    (h : CornerOk w nr la s) : (cornerL b (a.sub b) la s).Within bb.Region ∧ (cornerR b (a.sub b) la s).Within bb.Region := by
  have h' : CornerOk (a.sub b).length (la * (a.sub b).length) la s := ⟨h.1, h.2.1, rfl, h.2.2.2⟩
  obtain ⟨e1, ⟨t2, a2, b2, e2⟩, ⟨t3, a3, b3, e3⟩⟩ := cornerL_along h'
  obtain ⟨e4, ⟨t5, a5, b5, e5⟩, ⟨t6, a6, b6, e6⟩⟩ := cornerR_along h'
  refine ⟨⟨?_, ?_, ?_⟩, ?_, ?_, ?_⟩
  · rw [e1]; exact along_mem ha hb h.1 h.2.1
  · rw [e2]; exact along_mem ha hb a2 b2
  · rw [e3]; exact along_mem ha hb a3 b3
  · rw [e4]; exact along_mem ha hb h.1 h.2.1
  · rw [e5]; exact along_mem ha hb a5 b5
  · rw [e6]; exact along_mem ha hb a6 b6

/-- C50: with a radius that is not negative the function succeeds and all control points and handle ends are in the rectangle,
so is the whole curve. -/
theorem C50_inside (p1 p2 : Pt ℝ) (radius : ℝ) (hr : 0 ≤ radius) :
    ∃ cps, makeRoundedRect p1 p2 radius = .ok cps ∧
      (∀ cp ∈ cps, cp.c ∈ (BBox.ofPts p1 p2).Region ∧ cp.l ∈ (BBox.ofPts p1 p2).Region ∧ cp.r ∈ (BBox.ofPts p1 p2).Region) ∧
      curveSet true cps ⊆ (BBox.ofPts p1 p2).Region := by
  obtain ⟨a0, s0, b0, t0, a1, s1, b1, t1, a2, s2, b2, t2, a3, s3, b3, t3, o0, q0, o1, q1, o2, q2, o3, q3, he⟩ :=
    makeRoundedRect_eq p1 p2 radius hr _ _ _ rfl rfl rfl
  have m1 : p1 ∈ (BBox.ofPts p1 p2).Region := corner_mem p1 p2 p1 (.inl rfl) (.inl rfl)
  have m2 : (⟨p1.x, p2.y⟩ : Pt ℝ) ∈ (BBox.ofPts p1 p2).Region := corner_mem p1 p2 _ (.inl rfl) (.inr rfl)
  have m3 : p2 ∈ (BBox.ofPts p1 p2).Region := corner_mem p1 p2 p2 (.inr rfl) (.inr rfl)
  have m4 : (⟨p2.x, p1.y⟩ : Pt ℝ) ∈ (BBox.ofPts p1 p2).Region := corner_mem p1 p2 _ (.inr rfl) (.inl rfl)
  refine ⟨_, he, ?_⟩
  generalize hl : dedupe _ = cps
  have hw : ∀ cp ∈ cps, CP.Within (BBox.ofPts p1 p2).Region cp := by
    rw [← hl]
    apply dedupe_within
    simp only [List.mem_cons, List.not_mem_nil, or_false]
    rintro cp (rfl | rfl | rfl | rfl | rfl | rfl | rfl | rfl)
    exacts [(cornerL_within m4 m1 o0).1, (cornerL_within m2 m1 q0).2, (cornerL_within m1 m2 o1).1, (cornerL_within m3 m2 q1).2,
      (cornerL_within m2 m3 o2).1, (cornerL_within m4 m3 q2).2, (cornerL_within m3 m4 o3).1, (cornerL_within m1 m4 q3).2]
  refine ⟨hw, ?_⟩
  rintro q ⟨s, hs, t, t0, t1, rfl⟩
  obtain ⟨p, hp, p', hp', rfl⟩ := mem_segs true _ s hs
  have a := hw p hp
  have b := hw p' hp'
  exact bern_mem_box a.1 a.2.2 b.2.1 b.1 t0 t1


/-- The list after removal of duplicates, when the radius used is not zero: nothing, or the pairs on the vertical edges,
or the pairs on the horizontal edges, or both are merged. -/
theorem dedupe_eight (L0 R0 L1 R1 L2 R2 L3 R3 : CP ℝ) (n0 : L0.c ≠ R0.c) (n1 : L1.c ≠ R1.c) (n2 : L2.c ≠ R2.c) (n3 : L3.c ≠ R3.c) :
    (R0.c ≠ L1.c → R1.c ≠ L2.c → R2.c ≠ L3.c → R3.c ≠ L0.c →
      dedupe [L0, R0, L1, R1, L2, R2, L3, R3] = [R0, L1, R1, L2, R2, L3, R3, L0]) ∧
    (R0.c = L1.c → R1.c ≠ L2.c → R2.c = L3.c → R3.c ≠ L0.c →
      dedupe [L0, R0, L1, R1, L2, R2, L3, R3] = [{ R0 with dr := L1.dr }, R1, L2, { R2 with dr := L3.dr }, R3, L0]) ∧
    (R0.c ≠ L1.c → R1.c = L2.c → R2.c ≠ L3.c → R3.c = L0.c →
      dedupe [L0, R0, L1, R1, L2, R2, L3, R3] = [R0, L1, { R1 with dr := L2.dr }, R2, L3, { R3 with dr := L0.dr }]) ∧
    (R0.c = L1.c → R1.c = L2.c → R2.c = L3.c → R3.c = L0.c →
      dedupe [L0, R0, L1, R1, L2, R2, L3, R3] =
        [{ R0 with dr := L1.dr }, { R1 with dr := L2.dr }, { R2 with dr := L3.dr }, { R3 with dr := L0.dr }]) := by
  have hr : List.range 8 = [0, 1, 2, 3, 4, 5, 6, 7] := rfl
  refine ⟨?_, ?_, ?_, ?_⟩ <;> intro m0 m1 m2 m3
  · simp [dedupe, hr, dedupeStep, n0, n1, n2, n3, m0, m1, m2, m3, n0.symm, n1.symm, n2.symm, n3.symm, m0.symm, m1.symm, m2.symm, m3.symm]
  · rw [m0] at n0
    rw [m2] at n2
    simp [dedupe, hr, dedupeStep, n0, n1, n2, n3, m0, m1, m2, m3, n0.symm, n1.symm, n2.symm, n3.symm, m1.symm, m3.symm]
  · rw [m1] at n1
    rw [m3] at n3
    simp [dedupe, hr, dedupeStep, n0, n1, n2, n3, m0, m1, m2, m3, n0.symm, n1.symm, n2.symm, n3.symm, m0.symm, m2.symm]
  · rw [m0] at n0
    rw [m1] at n1
    rw [m2] at n2
    rw [m3] at n3
    simp [dedupe, hr, dedupeStep, n0, n1, n2, n3, m0, m1, m2, m3, n0.symm, n1.symm, n2.symm, n3.symm]


theorem dedupe_zero (L0 R0 L1 R1 L2 R2 L3 R3 : CP ℝ) (n0 : L0.c = R0.c) (n1 : L1.c = R1.c) (n2 : L2.c = R2.c) (n3 : L3.c = R3.c)
    (m0 : R0.c ≠ R1.c) (m1 : R1.c ≠ R2.c) (m2 : R2.c ≠ R3.c) (m3 : R3.c ≠ R0.c) :
    dedupe [L0, R0, L1, R1, L2, R2, L3, R3] = [{ L1 with dr := R1.dr }, { L2 with dr := R2.dr }, { L3 with dr := R3.dr }, { L0 with dr := R0.dr }] := by
  have hr : List.range 8 = [0, 1, 2, 3, 4, 5, 6, 7] := rfl
  simp [dedupe, hr, dedupeStep, n0, n1, n2, n3, m0, m1, m2, m3, m0.symm, m1.symm, m2.symm, m3.symm]

theorem corner_arc (b : Pt ℝ) (u v : Vec ℝ) (nr la s lc s' : ℝ) (hu : la * u.length = nr) (hv : lc * v.length = nr)
    (hp : u.x * v.x + u.y * v.y = 0) (hn : 0 ≤ nr) (p q : CP ℝ) (h1 : p.c = (cornerL b u la s).c) (h2 : p.dr = (cornerL b u la s).dr)
    (h3 : q.c = (cornerR b v lc s').c) (h4 : q.dl = (cornerR b v lc s').dl) :
    ArcOf ⟨b.x + la * u.x + lc * v.x, b.y + la * u.y + lc * v.y⟩ nr (seg p q) := by
  intro t h0 h1'
  have hs : seg p q = quarter ⟨b.x + la * u.x + lc * v.x, b.y + la * u.y + lc * v.y⟩ (v.mul (-lc)) (u.mul (-la)) := by
    simp only [seg, quarter, h1, h2, h3, h4, cornerL, cornerR, Pt.addVector, Vec.mul, Vec.neg, Poly4.mk.injEq, Pt.mk.injEq]
    refine ⟨⟨?_, ?_⟩, ⟨?_, ?_⟩, ⟨?_, ?_⟩, ?_, ?_⟩ <;> ring
  rw [hs, quarter_at]
  obtain ⟨b1, b2⟩ := quarter_bounds t h0 h1'
  have hu2 : la ^ 2 * (u.x * u.x + u.y * u.y) = nr ^ 2 := by
    rw [← hu, mul_pow]; congr 1; rw [Vec.length, hypot, Real.sq_sqrt (by nlinarith [mul_self_nonneg u.x, mul_self_nonneg u.y])]
  have hv2 : lc ^ 2 * (v.x * v.x + v.y * v.y) = nr ^ 2 := by
    rw [← hv, mul_pow]; congr 1; rw [Vec.length, hypot, Real.sq_sqrt (by nlinarith [mul_self_nonneg v.x, mul_self_nonneg v.y])]
  have key : ((b.x + la * u.x + lc * v.x + quarterX t * (v.mul (-lc)).x + quarterY t * (u.mul (-la)).x) - (b.x + la * u.x + lc * v.x)) ^ 2 +
      ((b.y + la * u.y + lc * v.y + quarterX t * (v.mul (-lc)).y + quarterY t * (u.mul (-la)).y) - (b.y + la * u.y + lc * v.y)) ^ 2 =
      nr ^ 2 * (quarterX t ^ 2 + quarterY t ^ 2) := by
    simp only [Vec.mul]
    linear_combination quarterX t ^ 2 * hv2 + quarterY t ^ 2 * hu2 + 2 * quarterX t * quarterY t * la * lc * hp
  rw [key]
  constructor
  · apply Real.le_sqrt_of_sq_le; nlinarith [sq_nonneg nr]
  · rw [Real.sqrt_le_left (by positivity), mul_pow]
    exact mul_le_mul_of_nonneg_left b2 (sq_nonneg _)


theorem inner_coord (x1 x2 nr f : ℝ) (h : f * |x1 - x2| = nr) :
    (x1 + f * (x2 - x1) = min x1 x2 + nr ∨ x1 + f * (x2 - x1) = max x1 x2 - nr) := by
  rcases le_total x1 x2 with hx | hx
  · left; rw [abs_of_nonpos (by linarith)] at h; rw [min_eq_left hx]; linarith
  · right; rw [abs_of_nonneg (by linarith)] at h; rw [max_eq_left hx]; linarith

theorem edge_x {x : ℝ} {p q : CP ℝ} (h1 : p.c.x = x) (h2 : p.dr.x = 0) (h3 : q.dl.x = 0) (h4 : q.c.x = x) (t : ℝ) :
    ((seg p q).at' t).x = x := by
  simp only [seg, Poly4.at', bern, h1, h2, h3, h4]; ring

theorem edge_y {x : ℝ} {p q : CP ℝ} (h1 : p.c.y = x) (h2 : p.dr.y = 0) (h3 : q.dl.y = 0) (h4 : q.c.y = x) (t : ℝ) :
    ((seg p q).at' t).y = x := by
  simp only [seg, Poly4.at', bern, h1, h2, h3, h4]; ring

set_option maxHeartbeats 800000 in
/-- C50: the curve of a rectangle with sides of positive length and a positive radius consists of pieces of the edges and of
corner arcs of the radius `min(radius, w/2, h/2)`, one at each of the four corners, and has this many control points: eight, less
two for each direction in which the arcs meet. -/
theorem C50_shape (p1 p2 : Pt ℝ) (radius w h nr : ℝ) (hr : 0 < radius) (hx : p1.x ≠ p2.x) (hy : p1.y ≠ p2.y)
    (hw : w = |p1.x - p2.x|) (hh : h = |p1.y - p2.y|) (hnr : nr = min radius (min (w / 2) (h / 2))) :
    ∃ cps, makeRoundedRect p1 p2 radius = .ok cps ∧
      cps.length + (if 2 * nr = w then 2 else 0) + (if 2 * nr = h then 2 else 0) = 8 ∧
      (∀ s ∈ segs true cps, OnEdge p1 p2 s ∨ ∃ o, InnerCorner p1 p2 nr o ∧ ArcOf o nr s) ∧
      ∀ o, InnerCorner p1 p2 nr o → ∃ s ∈ segs true cps, ArcOf o nr s := by
  obtain ⟨a0, s0, b0, t0, a1, s1, b1, t1, a2, s2, b2, t2, a3, s3, b3, t3, o0, q0, o1, q1, o2, q2, o3, q3, he⟩ :=
    makeRoundedRect_eq p1 p2 radius hr.le _ _ _ hw hh hnr
  have w0 : 0 < w := by rw [hw]; exact abs_pos.2 (sub_ne_zero.2 hx)
  have h0 : 0 < h := by rw [hh]; exact abs_pos.2 (sub_ne_zero.2 hy)
  have n0 : 0 < nr := by rw [hnr]; exact lt_min hr (lt_min (by linarith) (by linarith))
  obtain ⟨f, hf⟩ : ∃ f, f * w = nr := ⟨nr / w, by field_simp⟩
  obtain ⟨g, hg⟩ : ∃ g, g * h = nr := ⟨nr / h, by field_simp⟩
  have ca : ∀ {a s}, CornerOk w nr a s → a = f := fun hc => mul_right_cancel₀ w0.ne' (hc.2.2.1.trans hf.symm)
  have cb : ∀ {a s}, CornerOk h nr a s → a = g := fun hc => mul_right_cancel₀ h0.ne' (hc.2.2.1.trans hg.symm)
  obtain rfl := ca o0
  obtain rfl := ca q1
  obtain rfl := ca o2
  obtain rfl := ca q3
  obtain rfl := cb q0
  obtain rfl := cb o1
  obtain rfl := cb q2
  obtain rfl := cb o3
  clear ca cb
  have f0 : 0 < b3 := by by_contra hc; nlinarith
  have g0 : 0 < a3 := by by_contra hc; nlinarith
  have hfw : 2 * nr = w ↔ 2 * b3 = 1 := by
    constructor
    · intro e; exact mul_right_cancel₀ w0.ne' (by linarith)
    · intro e; rw [← hf, ← mul_assoc, e, one_mul]
  have hgh : 2 * nr = h ↔ 2 * a3 = 1 := by
    constructor
    · intro e; exact mul_right_cancel₀ h0.ne' (by linarith)
    · intro e; rw [← hg, ← mul_assoc, e, one_mul]
  have dx : p2.x - p1.x ≠ 0 := sub_ne_zero.2 (Ne.symm hx)
  have dy : p2.y - p1.y ≠ 0 := sub_ne_zero.2 (Ne.symm hy)
  have fdx : b3 * (p2.x - p1.x) ≠ 0 := mul_ne_zero f0.ne' dx
  have gdy : a3 * (p2.y - p1.y) ≠ 0 := mul_ne_zero g0.ne' dy
  have fdx' : b3 * (p1.x - p2.x) ≠ 0 := mul_ne_zero f0.ne' (sub_ne_zero.2 hx)
  have gdy' : a3 * (p1.y - p2.y) ≠ 0 := mul_ne_zero g0.ne' (sub_ne_zero.2 hy)
  have lw : ∀ v : Vec ℝ, v.y = 0 → |v.x| = w → b3 * v.length = nr := by
    intro v e1 e2; rw [← hf, ← e2, Vec.length, hypot, e1, mul_zero, add_zero, Real.sqrt_mul_self_eq_abs]
  have lh : ∀ v : Vec ℝ, v.x = 0 → |v.y| = h → a3 * v.length = nr := by
    intro v e1 e2; rw [← hg, ← e2, Vec.length, hypot, e1, mul_zero, zero_add, Real.sqrt_mul_self_eq_abs]
  have ix1 := inner_coord p1.x p2.x nr b3 (by rw [← hw, hf])
  have ix2 := inner_coord p2.x p1.x nr b3 (by rw [abs_sub_comm, ← hw, hf])
  have iy1 := inner_coord p1.y p2.y nr a3 (by rw [← hh, hg])
  have iy2 := inner_coord p2.y p1.y nr a3 (by rw [abs_sub_comm, ← hh, hg])
  rw [min_comm, max_comm] at ix2 iy2
  generalize hL0 : cornerL p1 ((⟨p2.x, p1.y⟩ : Pt ℝ).sub p1) b3 s0 = L0 at he
  generalize hR0 : cornerR p1 ((⟨p1.x, p2.y⟩ : Pt ℝ).sub p1) a3 t0 = R0 at he
  generalize hL1 : cornerL ⟨p1.x, p2.y⟩ (p1.sub ⟨p1.x, p2.y⟩) a3 s1 = L1 at he
  generalize hR1 : cornerR ⟨p1.x, p2.y⟩ (p2.sub ⟨p1.x, p2.y⟩) b3 t1 = R1 at he
  generalize hL2 : cornerL p2 ((⟨p1.x, p2.y⟩ : Pt ℝ).sub p2) b3 s2 = L2 at he
  generalize hR2 : cornerR p2 ((⟨p2.x, p1.y⟩ : Pt ℝ).sub p2) a3 t2 = R2 at he
  generalize hL3 : cornerL ⟨p2.x, p1.y⟩ (p2.sub ⟨p2.x, p1.y⟩) a3 s3 = L3 at he
  generalize hR3 : cornerR ⟨p2.x, p1.y⟩ (p1.sub ⟨p2.x, p1.y⟩) b3 t3 = R3 at he
  have nn0 : L0.c ≠ R0.c := by
    intro e; rw [← hL0, ← hR0] at e
    have := congrArg Pt.x e
    simp [cornerL, cornerR, Pt.addVector, Vec.mul, Pt.sub] at this
    rcases this with h | h
    · exact absurd h dx
    · exact absurd h f0.ne'
  have nn1 : L1.c ≠ R1.c := by
    intro e; rw [← hL1, ← hR1] at e
    have := congrArg Pt.y e
    simp [cornerL, cornerR, Pt.addVector, Vec.mul, Pt.sub] at this
    rcases this with h | h
    · exact absurd h (sub_ne_zero.2 hy)
    · exact absurd h g0.ne'
  have nn2 : L2.c ≠ R2.c := by
    intro e; rw [← hL2, ← hR2] at e
    have := congrArg Pt.x e
    simp [cornerL, cornerR, Pt.addVector, Vec.mul, Pt.sub] at this
    rcases this with h | h
    · exact absurd h (sub_ne_zero.2 hx)
    · exact absurd h f0.ne'
  have nn3 : L3.c ≠ R3.c := by
    intro e; rw [← hL3, ← hR3] at e
    have := congrArg Pt.y e
    simp [cornerL, cornerR, Pt.addVector, Vec.mul, Pt.sub] at this
    rcases this with h | h
    · exact absurd h dy
    · exact absurd h g0.ne'
  have m0 : R0.c = L1.c ↔ 2 * a3 = 1 := by
    rw [← hR0, ← hL1]
    simp only [cornerL, cornerR, Pt.addVector, Vec.mul, Pt.sub, Pt.mk.injEq, sub_self, zero_mul, true_and, add_zero]
    constructor
    · intro e; exact mul_right_cancel₀ dy (by linarith)
    · intro e; linear_combination (p2.y - p1.y) * e
  have m2 : R2.c = L3.c ↔ 2 * a3 = 1 := by
    rw [← hR2, ← hL3]
    simp only [cornerL, cornerR, Pt.addVector, Vec.mul, Pt.sub, Pt.mk.injEq, sub_self, zero_mul, true_and, add_zero]
    constructor
    · intro e; exact mul_right_cancel₀ dy (by linarith)
    · intro e; linear_combination (p1.y - p2.y) * e
  have m1 : R1.c = L2.c ↔ 2 * b3 = 1 := by
    rw [← hR1, ← hL2]
    simp only [cornerL, cornerR, Pt.addVector, Vec.mul, Pt.sub, Pt.mk.injEq, sub_self, zero_mul, and_true, add_zero]
    constructor
    · intro e; exact mul_right_cancel₀ dx (by linarith)
    · intro e; linear_combination (p2.x - p1.x) * e
  have m3 : R3.c = L0.c ↔ 2 * b3 = 1 := by
    rw [← hR3, ← hL0]
    simp only [cornerL, cornerR, Pt.addVector, Vec.mul, Pt.sub, Pt.mk.injEq, sub_self, zero_mul, and_true, add_zero]
    constructor
    · intro e; exact mul_right_cancel₀ dx (by linarith)
    · intro e; linear_combination (p1.x - p2.x) * e
  have A0 : ∀ p q : CP ℝ, p.c = L0.c → p.dr = L0.dr → q.c = R0.c → q.dl = R0.dl →
      ArcOf ⟨p1.x + b3 * (p2.x - p1.x), p1.y + a3 * (p2.y - p1.y)⟩ nr (seg p q) := by
    intro p q e1 e2 e3 e4
    subst hL0 hR0
    have := corner_arc _ _ _ nr _ _ _ _ (lw _ ?_ ?_) (lh _ ?_ ?_) ?_ n0.le p q e1 e2 e3 e4
    · simpa [Pt.sub] using this
    all_goals simp [Pt.sub, hw, hh, abs_sub_comm]
  have A1 : ∀ p q : CP ℝ, p.c = L1.c → p.dr = L1.dr → q.c = R1.c → q.dl = R1.dl →
      ArcOf ⟨p1.x + b3 * (p2.x - p1.x), p2.y + a3 * (p1.y - p2.y)⟩ nr (seg p q) := by
    intro p q e1 e2 e3 e4
    subst hL1 hR1
    have := corner_arc _ _ _ nr _ _ _ _ (lh _ ?_ ?_) (lw _ ?_ ?_) ?_ n0.le p q e1 e2 e3 e4
    · simpa [Pt.sub] using this
    all_goals simp [Pt.sub, hw, hh, abs_sub_comm]
  have A2 : ∀ p q : CP ℝ, p.c = L2.c → p.dr = L2.dr → q.c = R2.c → q.dl = R2.dl →
      ArcOf ⟨p2.x + b3 * (p1.x - p2.x), p2.y + a3 * (p1.y - p2.y)⟩ nr (seg p q) := by
    intro p q e1 e2 e3 e4
    subst hL2 hR2
    have := corner_arc _ _ _ nr _ _ _ _ (lw _ ?_ ?_) (lh _ ?_ ?_) ?_ n0.le p q e1 e2 e3 e4
    · simpa [Pt.sub] using this
    all_goals simp [Pt.sub, hw, hh, abs_sub_comm]
  have A3 : ∀ p q : CP ℝ, p.c = L3.c → p.dr = L3.dr → q.c = R3.c → q.dl = R3.dl →
      ArcOf ⟨p2.x + b3 * (p1.x - p2.x), p1.y + a3 * (p2.y - p1.y)⟩ nr (seg p q) := by
    intro p q e1 e2 e3 e4
    subst hL3 hR3
    have := corner_arc _ _ _ nr _ _ _ _ (lh _ ?_ ?_) (lw _ ?_ ?_) ?_ n0.le p q e1 e2 e3 e4
    · simpa [Pt.sub] using this
    all_goals simp [Pt.sub, hw, hh, abs_sub_comm]
  have hin : ∀ {x y : ℝ} {s : Poly4 ℝ}, (x = min p1.x p2.x + nr ∨ x = max p1.x p2.x - nr) →
      (y = min p1.y p2.y + nr ∨ y = max p1.y p2.y - nr) → ArcOf ⟨x, y⟩ nr s →
      OnEdge p1 p2 s ∨ ∃ o, InnerCorner p1 p2 nr o ∧ ArcOf o nr s := fun h1 h2 h3 => .inr ⟨_, ⟨h1, h2⟩, h3⟩
  have hall : ∀ o, InnerCorner p1 p2 nr o → (o.x = p1.x + b3 * (p2.x - p1.x) ∨ o.x = p2.x + b3 * (p1.x - p2.x)) ∧
      (o.y = p1.y + a3 * (p2.y - p1.y) ∨ o.y = p2.y + a3 * (p1.y - p2.y)) := by
    rintro o ⟨h1, h2⟩
    refine ⟨?_, ?_⟩
    · rcases le_total p1.x p2.x with hl | hl
      · rw [abs_of_nonpos (by linarith)] at hw
        rw [min_eq_left hl, max_eq_right hl] at h1
        exact h1.imp (fun e => by rw [e, ← hf, hw]; ring) (fun e => by rw [e, ← hf, hw]; ring)
      · rw [abs_of_nonneg (by linarith)] at hw
        rw [min_eq_right hl, max_eq_left hl] at h1
        exact h1.symm.imp (fun e => by rw [e, ← hf, hw]; ring) (fun e => by rw [e, ← hf, hw])
    · rcases le_total p1.y p2.y with hl | hl
      · rw [abs_of_nonpos (by linarith)] at hh
        rw [min_eq_left hl, max_eq_right hl] at h2
        exact h2.imp (fun e => by rw [e, ← hg, hh]; ring) (fun e => by rw [e, ← hg, hh]; ring)
      · rw [abs_of_nonneg (by linarith)] at hh
        rw [min_eq_right hl, max_eq_left hl] at h2
        exact h2.symm.imp (fun e => by rw [e, ← hg, hh]; ring) (fun e => by rw [e, ← hg, hh])
  have E0 : ∀ p q : CP ℝ, p.c = R0.c → p.dr = R0.dr → q.c = L1.c → q.dl = L1.dl → OnEdge p1 p2 (seg p q) := by
    intro p q e1 e2 e3 e4
    subst hL1 hR0
    refine .inl (edge_x ?_ ?_ ?_ ?_) <;> simp [e1, e2, e3, e4, cornerL, cornerR, Pt.addVector, Vec.mul, Pt.sub]
  have E1 : ∀ p q : CP ℝ, p.c = R1.c → p.dr = R1.dr → q.c = L2.c → q.dl = L2.dl → OnEdge p1 p2 (seg p q) := by
    intro p q e1 e2 e3 e4
    subst hL2 hR1
    refine .inr (.inr (.inr (edge_y ?_ ?_ ?_ ?_))) <;> simp [e1, e2, e3, e4, cornerL, cornerR, Pt.addVector, Vec.mul, Pt.sub]
  have E2 : ∀ p q : CP ℝ, p.c = R2.c → p.dr = R2.dr → q.c = L3.c → q.dl = L3.dl → OnEdge p1 p2 (seg p q) := by
    intro p q e1 e2 e3 e4
    subst hL3 hR2
    refine .inr (.inl (edge_x ?_ ?_ ?_ ?_)) <;> simp [e1, e2, e3, e4, cornerL, cornerR, Pt.addVector, Vec.mul, Pt.sub]
  have E3 : ∀ p q : CP ℝ, p.c = R3.c → p.dr = R3.dr → q.c = L0.c → q.dl = L0.dl → OnEdge p1 p2 (seg p q) := by
    intro p q e1 e2 e3 e4
    subst hL0 hR3
    refine .inr (.inr (.inl (edge_y ?_ ?_ ?_ ?_))) <;> simp [e1, e2, e3, e4, cornerL, cornerR, Pt.addVector, Vec.mul, Pt.sub]
  clear hL0 hL1 hL2 hL3 hR0 hR1 hR2 hR3
  obtain ⟨d1, d2, d3, d4⟩ := dedupe_eight L0 R0 L1 R1 L2 R2 L3 R3 nn0 nn1 nn2 nn3
  refine ⟨_, he, ?_⟩
  by_cases ef : 2 * b3 = 1 <;> by_cases eg : 2 * a3 = 1
  · rw [d4 (m0.2 eg) (m1.2 ef) (m2.2 eg) (m3.2 ef), if_pos (hfw.2 ef), if_pos (hgh.2 eg)]
    refine ⟨rfl, fun s hs => ?_, fun o ho => ?_⟩
    swap
    · obtain ⟨ox | ox, oy | oy⟩ := hall o ho <;> rw [show o = ⟨o.x, o.y⟩ from rfl, ox, oy]
      · exact ⟨_, List.mem_of_getElem? (i := 3) rfl, A0 _ _ (m3.2 ef) rfl rfl rfl⟩
      · exact ⟨_, List.mem_of_getElem? (i := 0) rfl, A1 _ _ (m0.2 eg) rfl rfl rfl⟩
      · exact ⟨_, List.mem_of_getElem? (i := 2) rfl, A3 _ _ (m2.2 eg) rfl rfl rfl⟩
      · exact ⟨_, List.mem_of_getElem? (i := 1) rfl, A2 _ _ (m1.2 ef) rfl rfl rfl⟩
    simp [segs, closedSegs, List.rotate] at hs
    rcases hs with rfl | rfl | rfl | rfl
    exacts [hin ix1 iy2 (A1 _ _ (m0.2 eg) rfl rfl rfl), hin ix2 iy2 (A2 _ _ (m1.2 ef) rfl rfl rfl), hin ix2 iy1 (A3 _ _ (m2.2 eg) rfl rfl rfl), hin ix1 iy1 (A0 _ _ (m3.2 ef) rfl rfl rfl)]
  · rw [d3 (mt m0.1 eg) (m1.2 ef) (mt m2.1 eg) (m3.2 ef), if_pos (hfw.2 ef), if_neg (mt hgh.1 eg)]
    refine ⟨rfl, fun s hs => ?_, fun o ho => ?_⟩
    swap
    · obtain ⟨ox | ox, oy | oy⟩ := hall o ho <;> rw [show o = ⟨o.x, o.y⟩ from rfl, ox, oy]
      · exact ⟨_, List.mem_of_getElem? (i := 5) rfl, A0 _ _ (m3.2 ef) rfl rfl rfl⟩
      · exact ⟨_, List.mem_of_getElem? (i := 1) rfl, A1 _ _ rfl rfl rfl rfl⟩
      · exact ⟨_, List.mem_of_getElem? (i := 4) rfl, A3 _ _ rfl rfl rfl rfl⟩
      · exact ⟨_, List.mem_of_getElem? (i := 2) rfl, A2 _ _ (m1.2 ef) rfl rfl rfl⟩
    simp [segs, closedSegs, List.rotate] at hs
    rcases hs with rfl | rfl | rfl | rfl | rfl | rfl
    exacts [.inl (E0 _ _ rfl rfl rfl rfl), hin ix1 iy2 (A1 _ _ rfl rfl rfl rfl), hin ix2 iy2 (A2 _ _ (m1.2 ef) rfl rfl rfl), .inl (E2 _ _ rfl rfl rfl rfl),
      hin ix2 iy1 (A3 _ _ rfl rfl rfl rfl), hin ix1 iy1 (A0 _ _ (m3.2 ef) rfl rfl rfl)]
  · rw [d2 (m0.2 eg) (mt m1.1 ef) (m2.2 eg) (mt m3.1 ef), if_neg (mt hfw.1 ef), if_pos (hgh.2 eg)]
    refine ⟨rfl, fun s hs => ?_, fun o ho => ?_⟩
    swap
    · obtain ⟨ox | ox, oy | oy⟩ := hall o ho <;> rw [show o = ⟨o.x, o.y⟩ from rfl, ox, oy]
      · exact ⟨_, List.mem_of_getElem? (i := 5) rfl, A0 _ _ rfl rfl rfl rfl⟩
      · exact ⟨_, List.mem_of_getElem? (i := 0) rfl, A1 _ _ (m0.2 eg) rfl rfl rfl⟩
      · exact ⟨_, List.mem_of_getElem? (i := 3) rfl, A3 _ _ (m2.2 eg) rfl rfl rfl⟩
      · exact ⟨_, List.mem_of_getElem? (i := 2) rfl, A2 _ _ rfl rfl rfl rfl⟩
    simp [segs, closedSegs, List.rotate] at hs
    rcases hs with rfl | rfl | rfl | rfl | rfl | rfl
    exacts [hin ix1 iy2 (A1 _ _ (m0.2 eg) rfl rfl rfl), .inl (E1 _ _ rfl rfl rfl rfl), hin ix2 iy2 (A2 _ _ rfl rfl rfl rfl), hin ix2 iy1 (A3 _ _ (m2.2 eg) rfl rfl rfl),
      .inl (E3 _ _ rfl rfl rfl rfl), hin ix1 iy1 (A0 _ _ rfl rfl rfl rfl)]
  · rw [d1 (mt m0.1 eg) (mt m1.1 ef) (mt m2.1 eg) (mt m3.1 ef), if_neg (mt hfw.1 ef), if_neg (mt hgh.1 eg)]
    refine ⟨rfl, fun s hs => ?_, fun o ho => ?_⟩
    swap
    · obtain ⟨ox | ox, oy | oy⟩ := hall o ho <;> rw [show o = ⟨o.x, o.y⟩ from rfl, ox, oy]
      · exact ⟨_, List.mem_of_getElem? (i := 7) rfl, A0 _ _ rfl rfl rfl rfl⟩
      · exact ⟨_, List.mem_of_getElem? (i := 1) rfl, A1 _ _ rfl rfl rfl rfl⟩
      · exact ⟨_, List.mem_of_getElem? (i := 5) rfl, A3 _ _ rfl rfl rfl rfl⟩
      · exact ⟨_, List.mem_of_getElem? (i := 3) rfl, A2 _ _ rfl rfl rfl rfl⟩
    simp [segs, closedSegs, List.rotate] at hs
    rcases hs with rfl | rfl | rfl | rfl | rfl | rfl | rfl | rfl
    exacts [.inl (E0 _ _ rfl rfl rfl rfl), hin ix1 iy2 (A1 _ _ rfl rfl rfl rfl), .inl (E1 _ _ rfl rfl rfl rfl), hin ix2 iy2 (A2 _ _ rfl rfl rfl rfl),
      .inl (E2 _ _ rfl rfl rfl rfl), hin ix2 iy1 (A3 _ _ rfl rfl rfl rfl), .inl (E3 _ _ rfl rfl rfl rfl), hin ix1 iy1 (A0 _ _ rfl rfl rfl rfl)]

/-- C50: radius zero gives the four corners. -/
theorem C50_zero_radius (p1 p2 : Pt ℝ) (hx : p1.x ≠ p2.x) (hy : p1.y ≠ p2.y) :
    ∃ cps, makeRoundedRect p1 p2 0 = .ok cps ∧ cps.map (·.c) = [⟨p1.x, p2.y⟩, p2, ⟨p2.x, p1.y⟩, p1] ∧
      ∀ cp ∈ cps, cp.dl = ⟨0, 0⟩ ∧ cp.dr = ⟨0, 0⟩ := by
  obtain ⟨a0, s0, b0, t0, a1, s1, b1, t1, a2, s2, b2, t2, a3, s3, b3, t3, o0, q0, o1, q1, o2, q2, o3, q3, he⟩ :=
    makeRoundedRect_eq p1 p2 0 le_rfl _ _ _ rfl rfl rfl
  have w0 : 0 < |p1.x - p2.x| := abs_pos.2 (sub_ne_zero.2 hx)
  have h0 : 0 < |p1.y - p2.y| := abs_pos.2 (sub_ne_zero.2 hy)
  rw [min_eq_left (le_min (by linarith) (by linarith))] at o0 o1 o2 o3 q0 q1 q2 q3
  have ca : ∀ {a s}, CornerOk |p1.x - p2.x| 0 a s → a = 0 := fun hc => (mul_eq_zero.1 hc.2.2.1).resolve_right w0.ne'
  have cb : ∀ {a s}, CornerOk |p1.y - p2.y| 0 a s → a = 0 := fun hc => (mul_eq_zero.1 hc.2.2.1).resolve_right h0.ne'
  rw [ca o0, ca q1, ca o2, ca q3, cb q0, cb o1, cb q2, cb o3, dedupe_zero] at he
  · refine ⟨_, he, ?_, ?_⟩
    · simp [cornerL, Pt.addVector, Vec.mul]
    · simp [cornerL, cornerR, Pt.addVector, Vec.mul, Vec.neg]
  all_goals simp [cornerL, cornerR, Pt.addVector, Vec.mul, Pt.ext_iff, hx, hy, hx.symm, hy.symm]

/-- C50: the bound on the radius is needed: with a negative radius handle ends leave the rectangle. -/
theorem C50_negative_radius_counterexample : ∃ cps, makeRoundedRect ⟨0, 0⟩ ⟨4, 4⟩ (-1) = .ok cps ∧
    ∃ cp ∈ cps, cp.c ∉ (BBox.ofPts (⟨0, 0⟩ : Pt ℝ) ⟨4, 4⟩).Region := by
  have l1 : Vec.length (⟨4, 0⟩ : Vec ℝ) = 4 := hypot_unique (by norm_num) (by norm_num)
  have l2 : Vec.length (⟨0, 4⟩ : Vec ℝ) = 4 := hypot_unique (by norm_num) (by norm_num)
  have l3 : Vec.length (⟨-4, 0⟩ : Vec ℝ) = 4 := hypot_unique (by norm_num) (by norm_num)
  have l4 : Vec.length (⟨0, -4⟩ : Vec ℝ) = 4 := hypot_unique (by norm_num) (by norm_num)
  have key : ∀ a b c : Pt ℝ, (a.sub b).length = 4 → (c.sub b).length = 4 →
      roundedCorner (-1) a b c = .ok (cornerL b (a.sub b) (-1 / 4) 1, cornerR b (c.sub b) (-1 / 4) 1) := by
    intro a b c h1 h2
    have u : ∀ v : Vec ℝ, v.length = 4 → cornerSide v 2 (-1) = .ok (v.mul (-1 / 4)) := by
      intro v hv
      have hz : v ≠ ⟨0, 0⟩ := by
        intro e; rw [Vec.length_eq_zero.2 e] at hv; norm_num at hv
      simp only [cornerSide, Vec.unit_ok hz, hv, Except.map, Vec.mul]
      norm_num
      constructor <;> ring
    have sc : cornerScale 2 (-1) = .ok 1 := by norm_num [cornerScale, pyDiv]
    have hn : min (-1 : ℝ) (min 2 2) = -1 := by norm_num
    simp only [roundedCorner, h1, h2, show (4 : ℝ) / 2 = 2 by norm_num, hn, u _ h1, u _ h2, sc]
    rfl
  have k0 := key ⟨4, 0⟩ ⟨0, 0⟩ ⟨0, 4⟩ (by simpa [Pt.sub] using l1) (by simpa [Pt.sub] using l2)
  have k1 := key ⟨0, 0⟩ ⟨0, 4⟩ ⟨4, 4⟩ (by simpa [Pt.sub] using l4) (by simpa [Pt.sub] using l1)
  have k2 := key ⟨0, 4⟩ ⟨4, 4⟩ ⟨4, 0⟩ (by simpa [Pt.sub] using l3) (by simpa [Pt.sub] using l4)
  have k3 := key ⟨4, 4⟩ ⟨4, 0⟩ ⟨0, 0⟩ (by simpa [Pt.sub] using l2) (by simpa [Pt.sub] using l3)
  have he : makeRoundedRect ⟨0, 0⟩ ⟨4, 4⟩ (-1) = .ok (dedupe
      [cornerL ⟨0, 0⟩ (Pt.sub ⟨4, 0⟩ ⟨0, 0⟩) (-1 / 4) 1, cornerR ⟨0, 0⟩ (Pt.sub ⟨0, 4⟩ ⟨0, 0⟩) (-1 / 4) 1,
       cornerL ⟨0, 4⟩ (Pt.sub ⟨0, 0⟩ ⟨0, 4⟩) (-1 / 4) 1, cornerR ⟨0, 4⟩ (Pt.sub ⟨4, 4⟩ ⟨0, 4⟩) (-1 / 4) 1,
       cornerL ⟨4, 4⟩ (Pt.sub ⟨0, 4⟩ ⟨4, 4⟩) (-1 / 4) 1, cornerR ⟨4, 4⟩ (Pt.sub ⟨4, 0⟩ ⟨4, 4⟩) (-1 / 4) 1,
       cornerL ⟨4, 0⟩ (Pt.sub ⟨4, 4⟩ ⟨4, 0⟩) (-1 / 4) 1, cornerR ⟨4, 0⟩ (Pt.sub ⟨0, 0⟩ ⟨4, 0⟩) (-1 / 4) 1]) := by
    simp [makeRoundedRect, iterRotate3m1, k0, k1, k2, k3, bind, Except.bind, pure, Except.pure]
  rw [(dedupe_eight _ _ _ _ _ _ _ _ _ _ _ _).1] at he
  · refine ⟨_, he, cornerR ⟨0, 0⟩ (Pt.sub ⟨0, 4⟩ ⟨0, 0⟩) (-1 / 4) 1, by simp, ?_⟩
    norm_num [cornerR, Pt.addVector, Vec.mul, Pt.sub, BBox.ofPts, BBox.mk', BBox.Region]
  all_goals norm_num [cornerR, cornerL, Pt.addVector, Vec.mul, Pt.sub]

example : ∃ p1 p2 : Pt ℝ, ∃ w h nr : ℝ, p1.x ≠ p2.x ∧ p1.y ≠ p2.y ∧ w = |p1.x - p2.x| ∧ h = |p1.y - p2.y| ∧
    nr = min 5 (min (w / 2) (h / 2)) ∧ 2 * nr = h ∧ 2 * nr ≠ w :=
  ⟨⟨0, 0⟩, ⟨8, 4⟩, 8, 4, 2, by norm_num, by norm_num, by norm_num, by norm_num, by norm_num, by norm_num, by norm_num⟩

end X7
