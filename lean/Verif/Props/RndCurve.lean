import Verif.Lemmas.FlBezier
import Verif.Props.RndBox
import Verif.Props.Bezier

/-!
C86: curves under rounding.
-/

namespace X7
open Rnd
variable (R : Rnd)

/-- C86: the path has as many points as without rounding. -/
theorem C86_length (f : Pt ℝ → Pt ℝ) (cps : List (CP ℝ)) (closed : Bool) (steps : ℕ) (h : 1 ≤ steps) :
    (Fl.bezPath R f cps closed steps).length = (bezPath f cps closed steps).length := by
  rw [Fl.bezPath_eq _ _ _ _ h, X7.bezPath_eq _ _ _ _ h, xyFlatten_length, xyFlatten_length]
  have hl : (neighbours closed cps).length = (segs closed cps).length := by
    rw [segs_length]; cases closed <;> simp [neighbours]
  by_cases h0 : (neighbours closed cps).length = 0
  · have h1 := h0
    rw [hl] at h1
    rw [List.length_eq_zero_iff] at h0 h1
    rw [h0, h1]; rfl
  · rw [pathG_length, pathOf_length, List.length_map, List.length_map, hl]
    · intro e; apply h0; rw [hl]; simpa using e
    · intro e; apply h0; simpa using e

/-- C86: at the control points nothing is lost: the path passes exactly through the transformed centres, where segments meet the
two computations give the same point, and a closed path ends exactly where it starts. -/
theorem C86_passes_centres (f : Pt ℝ → Pt ℝ) (cps : List (CP ℝ)) (closed : Bool) (steps : ℕ) (h : 1 ≤ steps) (k : ℕ)
    (p q : CP ℝ) (hpq : (neighbours closed cps)[k]? = some (p, q)) :
    pairAt (Fl.bezPath R f cps closed steps) (k * steps) = some (f p.c) ∧
    pairAt (Fl.bezPath R f cps closed steps) ((k + 1) * steps) = some (f q.c) := by
  have hne : steps ≠ 0 := by omega
  constructor
  · have := Fl.path_get (R := R) f cps closed steps h k 0 (by omega) _ hpq
    simpa [Fl.sampleAt, Fl.fseg] using this
  · have := Fl.path_get (R := R) f cps closed steps h k steps le_rfl _ hpq
    rw [Nat.succ_mul]
    simpa [Fl.sampleAt, Fl.fseg, hne] using this

theorem C86_closes (f : Pt ℝ → Pt ℝ) (p : CP ℝ) (cps : List (CP ℝ)) (steps : ℕ) (h : 1 ≤ steps) :
    pairAt (Fl.bezPath R f (p :: cps) true steps) 0 = some (f p.c) ∧
    pairAt (Fl.bezPath R f (p :: cps) true steps) ((p :: cps).length * steps) = some (f p.c) := by
  have hlen : (neighbours true (p :: cps)).length = cps.length + 1 := by simp [neighbours]
  have h0 : (neighbours true (p :: cps))[0]? = some (p, (p :: cps).rotate 1 |>.head (by simp)) := by
    simp [neighbours, List.zip, List.head_eq_getElem]
  have h1 : (neighbours true (p :: cps))[cps.length]? = some ((p :: cps)[cps.length], p) := by
    rw [neighbours, List.getElem?_zip_eq_some]
    refine ⟨by simp, ?_⟩
    rw [if_pos rfl, List.getElem?_rotate (by simp)]
    simp
  constructor
  · have := (C86_passes_centres R f (p :: cps) true steps h 0 _ _ h0).1
    simpa using this
  · exact (C86_passes_centres R f (p :: cps) true steps h _ _ _ h1).2

/-- C86: each computed sample of a segment is a point of the exact curve of the given control points, up to nine roundings: of the
point whose parameter is the computed quotient `i/steps`. -/
theorem C86_samples (a b c d : Pt ℝ) (steps i : ℕ) (h : 1 ≤ steps) (hi : i ≤ steps) (Mx My : ℝ)
    (hx : |a.x| ≤ Mx ∧ |b.x| ≤ Mx ∧ |c.x| ≤ Mx ∧ |d.x| ≤ Mx) (hy : |a.y| ≤ My ∧ |b.y| ≤ My ∧ |c.y| ≤ My ∧ |d.y| ≤ My) :
    ∃ P t, (Fl.bezXY R a b c d steps)[i]? = some P ∧ (0 ≤ t ∧ t ≤ 1) ∧ |t - (i : ℝ) / steps| ≤ R.u * ((i : ℝ) / steps) ∧
      Within (R.gam 9 * Mx) (R.gam 9 * My) P (bern a b c d t) := by
  refine ⟨Fl.sampleAt R steps ⟨a, b, c, d⟩ i, R.fl ((i : ℝ) / steps), ?_, Fl.quot_mem h hi, ?_, ?_⟩
  · have := Fl.bezXY_eq (R := R) ⟨a, b, c, d⟩ steps h
    simp only at this
    rw [this, List.getElem?_map, List.getElem?_range (by omega)]; rfl
  · have := R.err ((i : ℝ) / steps)
    rwa [abs_of_nonneg (a := (i : ℝ) / steps) (by positivity)] at this
  · have := Fl.sampleAt_near (R := R) (k := 0) (s := ⟨a, b, c, d⟩) (s' := ⟨a, b, c, d⟩) (Mx := Mx) (My := My) h hi
      ⟨Near.of_le hx.1, Near.of_le hy.1⟩ ⟨Near.of_le hx.2.1, Near.of_le hy.2.1⟩
      ⟨Near.of_le hx.2.2.1, Near.of_le hy.2.2.1⟩ ⟨Near.of_le hx.2.2.2, Near.of_le hy.2.2.2⟩
    exact ⟨this.1.2, this.2.2⟩

/-- C86: the whole of `bez_path`, computing handles, transforming and sampling: every point of the path is within thirteen
roundings of a point of the exact transformed curve, on the segment it belongs to. -/
theorem C86_path (mode : DotMode) (m : Mat3 ℝ) (cps : List (CP ℝ)) (closed : Bool) (steps : ℕ) (h : 1 ≤ steps) (Bx By : ℝ)
    (hb : ∀ cp ∈ cps, cp.Bounded Bx By) (k i : ℕ) (hi : i ≤ steps) (p q : CP ℝ)
    (hpq : (neighbours closed cps)[k]? = some (p, q)) :
    ∃ P t, pairAt (Fl.bezPath R (Fl.apply R mode m) cps closed steps) (k * steps + i) = some P ∧ (0 ≤ t ∧ t ≤ 1) ∧
      |t - (i : ℝ) / steps| ≤ R.u * ((i : ℝ) / steps) ∧
      Within (R.gam 13 * (|m.a| * Bx + |m.b| * By + |m.c|)) (R.gam 13 * (|m.d| * Bx + |m.e| * By + |m.f|)) P
        (((seg p q).map m.apply).at' t) := by
  refine ⟨_, R.fl ((i : ℝ) / steps), Fl.path_get (R := R) _ cps closed steps h k i hi _ hpq, Fl.quot_mem h hi, ?_, ?_⟩
  · have := R.err ((i : ℝ) / steps)
    rwa [abs_of_nonneg (a := (i : ℝ) / steps) (by positivity)] at this
  · obtain ⟨hp, hq⟩ := Fl.mem_neighbours (List.mem_of_getElem? hpq)
    obtain ⟨c1, -, r1⟩ := Fl.cp_near (R := R) (hb p hp)
    obtain ⟨c2, l2, -⟩ := Fl.cp_near (R := R) (hb q hq)
    have key : ∀ {x' x : Pt ℝ}, Fl.NearPt R 1 x' x Bx By →
        R.Near 4 (Fl.apply R mode m x').x (m.apply x).x (|m.a| * Bx + |m.b| * By + |m.c|) ∧
        R.Near 4 (Fl.apply R mode m x').y (m.apply x).y (|m.d| * Bx + |m.e| * By + |m.f|) :=
      fun hx => ⟨Fl.apply_near_x mode m hx.1 hx.2, Fl.apply_near_y mode m hx.1 hx.2⟩
    have := Fl.sampleAt_near (R := R) (k := 4) (s := (seg p q).map m.apply) (s' := Fl.fseg R (Fl.apply R mode m) (p, q))
      h hi (key c1) (key r1) (key l2) (key c2)
    exact ⟨this.1.2, this.2.2⟩

/-- C86: the bounding box of a curve, computed with rounding and transformed with rounding, encloses what is drawn up to nine
roundings of its largest coordinates. -/
theorem C86_in_box (mode : DotMode) (m : Mat3 ℝ) (cps : List (CP ℝ)) (closed : Bool) (steps : ℕ) (h : 1 ≤ steps)
    (bb : BBox ℝ) (hbb : Fl.curveBBox R cps = .ok bb) (xl yl xh yh : ℝ)
    (htr : bb.transformed (Fl.apply R mode m) = .ok (.box xl yl xh yh)) (P : Pt ℝ) (n : ℕ)
    (hP : pairAt (Fl.bezPath R (Fl.apply R mode m) cps closed steps) n = some P) :
    (xl - R.gam 9 * max |xl| |xh| ≤ P.x ∧ P.x ≤ xh + R.gam 9 * max |xl| |xh|) ∧
    (yl - R.gam 9 * max |yl| |yh| ≤ P.y ∧ P.y ≤ yh + R.gam 9 * max |yl| |yh|) := by
  -- every point belongs to a segment
  obtain ⟨k, i, pq, hi, hpq, hn⟩ : ∃ k i pq, i ≤ steps ∧ (neighbours closed cps)[k]? = some pq ∧ n = k * steps + i := by
    rw [Fl.bezPath_eq _ _ _ _ h, pairAt_flatten] at hP
    have hlt := (List.getElem?_eq_some_iff.1 hP).1
    by_cases h0 : (neighbours closed cps).map (Fl.fseg R (Fl.apply R mode m)) = []
    · rw [h0] at hlt; simp [pathG] at hlt
    · rw [pathG_length _ _ _ h0, List.length_map] at hlt
      have hne : 0 < (neighbours closed cps).length := by
        rw [List.length_pos_iff]; intro e; apply h0; rw [e]; rfl
      by_cases hlast : n = (neighbours closed cps).length * steps
      · refine ⟨(neighbours closed cps).length - 1, steps, _, le_rfl, List.getElem?_eq_getElem (by omega), ?_⟩
        rw [hlast]
        obtain ⟨l, hl⟩ : ∃ l, (neighbours closed cps).length = l + 1 := ⟨_, (Nat.succ_pred_eq_of_pos hne).symm⟩
        rw [hl, Nat.add_sub_cancel, Nat.succ_mul]
      · refine ⟨n / steps, n % steps, _, (Nat.mod_lt _ (by omega)).le,
          List.getElem?_eq_getElem ((Nat.div_lt_iff_lt_mul (by omega)).2 (by omega)), ?_⟩
        rw [mul_comm]; exact (Nat.div_add_mod n steps).symm
  subst hn
  rw [Fl.path_get (R := R) _ cps closed steps h k i hi pq hpq] at hP
  cases hP
  -- the computed control polygon lies in the box
  obtain ⟨hp, hq⟩ := Fl.mem_neighbours (List.mem_of_getElem? hpq)
  rw [Fl.curveBBox_eq] at hbb
  have hsub : ∀ cp ∈ cps, (Fl.cpBBox R cp).Region ⊆ bb.Region := by
    intro cp hcp
    rw [← Fl.rcp_bbox]
    cases cps with
    | nil => simp at hcp
    | cons c rest =>
      simp only [List.map_cons, bboxCps, Except.ok.injEq] at hbb
      subst hbb
      exact fold_bbox_sub _ _ _ (by rw [← List.map_cons]; exact List.mem_map_of_mem hcp)
  have hmem : ∀ cp ∈ cps, cp.c ∈ bb.Region ∧ Fl.cpL R cp ∈ bb.Region ∧ Fl.cpR R cp ∈ bb.Region := by
    intro cp hcp
    have := cp_bbox_mem (Fl.rcp R cp)
    rw [Fl.rcp_bbox, Fl.rcp_l, Fl.rcp_r] at this
    exact ⟨hsub cp hcp this.1, hsub cp hcp this.2.1, hsub cp hcp this.2.2⟩
  have enc := C85_transformed_encloses R mode m bb _ htr
  have ha := enc _ (hmem _ hp).1
  have hb := enc _ (hmem _ hp).2.2
  have hc := enc _ (hmem _ hq).2.1
  have hd := enc _ (hmem _ hq).1
  have bound : ∀ {x l h : ℝ}, l ≤ x → x ≤ h → |x| ≤ max |l| |h| := fun h1 h2 => abs_le_max_abs_abs h1 h2
  have hN : ∀ {x : Pt ℝ}, x ∈ (BBox.box xl yl xh yh).Region →
      R.Near 0 x.x x.x (max |xl| |xh|) ∧ R.Near 0 x.y x.y (max |yl| |yh|) :=
    fun hx => ⟨Near.of_le (bound hx.1.1 hx.1.2), Near.of_le (bound hx.2.1 hx.2.2)⟩
  have hnear := Fl.sampleAt_near (R := R) (k := 0) (s := Fl.fseg R (Fl.apply R mode m) pq)
    (s' := Fl.fseg R (Fl.apply R mode m) pq) h hi (hN ha) (hN hb) (hN hc) (hN hd)
  obtain ⟨q0, q1⟩ := Fl.quot_mem (R := R) h hi
  have hin := bern_mem_box ha hb hc hd q0 q1
  have e1 := abs_le.1 hnear.1.2
  have e2 := abs_le.1 hnear.2.2
  obtain ⟨⟨i1, i2⟩, i3, i4⟩ := hin
  simp only [Fl.fseg, Nat.zero_add] at e1 e2
  simp only [Fl.fseg]
  exact ⟨⟨by linarith [e1.1], by linarith [e1.2]⟩, by linarith [e2.1], by linarith [e2.2]⟩

/-- C86: without the tolerance this fails: with two binary digits, the curve with all its control points at (3, 3) has the sample
(2, 2). -/
theorem C86_in_box_counterexample :
    ∃ (R : Rnd) (a : Pt ℝ), R.RepPt a ∧ (Fl.bezXY R a a a a 2)[1]? = some ⟨2, 2⟩ ∧
      (⟨2, 2⟩ : Pt ℝ) ∉ (BBox.ofPts a a).Region := by
  have rep : ∀ (n k : ℤ), |n| ≤ 4 → flBin 2 ((n : ℝ) * 2 ^ k) = (n : ℝ) * 2 ^ k := by
    intro n k h; exact flBin_rep 2 (by norm_num) n k (by norm_num; exact h)
  have f3 : flBin 2 3 = 3 := by have := rep 3 0 (by norm_num); norm_num at this; exact this
  have f12 : flBin 2 (1 / 2) = 1 / 2 := by have := rep 1 (-1) (by norm_num); norm_num at this ⊢; exact this
  have f14 : flBin 2 (1 / 4) = 1 / 4 := by have := rep 1 (-2) (by norm_num); norm_num at this ⊢; exact this
  have f18 : flBin 2 (1 / 8) = 1 / 8 := by have := rep 1 (-3) (by norm_num); norm_num at this ⊢; exact this
  have f38 : flBin 2 (3 / 8) = 3 / 8 := by have := rep 3 (-3) (by norm_num); norm_num at this ⊢; exact this
  have f98 : flBin 2 (9 / 8) = 1 := by
    have := Fl.flBin_eq 2 (9 / 8) 0 2 (by rw [abs_of_pos (by norm_num)]; norm_num) (by rw [abs_of_pos (by norm_num)]; norm_num)
      (by
        constructor
        · rw [abs_le]; norm_num
        · intro h; norm_num at h)
    rw [this]; norm_num
  have f118 : flBin 2 (11 / 8) = 3 / 2 := by
    have := Fl.flBin_eq 2 (11 / 8) 0 3 (by rw [abs_of_pos (by norm_num)]; norm_num) (by rw [abs_of_pos (by norm_num)]; norm_num)
      (by
        constructor
        · rw [abs_le]; norm_num
        · intro h; norm_num at h)
    rw [this]; norm_num
  have f52 : flBin 2 (5 / 2) = 2 := by
    have := Fl.flBin_eq 2 (5 / 2) 1 2 (by rw [abs_of_pos (by norm_num)]; norm_num) (by rw [abs_of_pos (by norm_num)]; norm_num)
      (by
        constructor
        · rw [abs_le]; norm_num
        · intro _; exact ⟨1, rfl⟩)
    rw [this]; norm_num
  have f198 : flBin 2 (19 / 8) = 2 := by
    have := Fl.flBin_eq 2 (19 / 8) 1 2 (by rw [abs_of_pos (by norm_num)]; norm_num) (by rw [abs_of_pos (by norm_num)]; norm_num)
      (by
        constructor
        · rw [abs_le]; norm_num
        · intro h; norm_num at h)
    rw [this]; norm_num
  refine ⟨.binary 2 (by norm_num), ⟨3, 3⟩, ⟨f3, f3⟩, ?_, ?_⟩
  · have e : Fl.bezSum (.binary 2 (by norm_num)) (1 / 8) (1 / 8) (1 / 8) (1 / 8) 3 3 3 3 = 2 := by
      simp only [Fl.bezSum, Rnd.binary]
      rw [show (1 / 8 : ℝ) * 3 = 3 / 8 by norm_num, show (3 : ℝ) * (1 / 8) = 3 / 8 by norm_num, f38,
        show (3 / 8 : ℝ) * 3 = 9 / 8 by norm_num, f98, show (3 / 8 : ℝ) + 1 = 11 / 8 by norm_num, f118,
        show (3 / 2 : ℝ) + 1 = 5 / 2 by norm_num, f52, show (2 : ℝ) + 3 / 8 = 19 / 8 by norm_num, f198]
    have e2 : Fl.bezAt (.binary 2 (by norm_num)) ⟨3, 3⟩ ⟨3, 3⟩ ⟨3, 3⟩ ⟨3, 3⟩ (1 / 2) = ⟨2, 2⟩ := by
      have s : (Rnd.binary 2 (by norm_num)).fl (1 - 1 / 2) = 1 / 2 := by
        show flBin 2 _ = _
        rw [show (1 : ℝ) - 1 / 2 = 1 / 2 by norm_num, f12]
      have s2 : (Rnd.binary 2 (by norm_num)).fl (1 / 2 * (1 / 2)) = 1 / 4 := by
        show flBin 2 _ = _
        rw [show (1 : ℝ) / 2 * (1 / 2) = 1 / 4 by norm_num, f14]
      have s3 : (Rnd.binary 2 (by norm_num)).fl (1 / 2 * (1 / 4)) = 1 / 8 := by
        show flBin 2 _ = _
        rw [show (1 : ℝ) / 2 * (1 / 4) = 1 / 8 by norm_num, f18]
      have s3' : (Rnd.binary 2 (by norm_num)).fl (1 / 4 * (1 / 2)) = 1 / 8 := by rw [mul_comm, s3]
      simp only [Fl.bezAt, s, s2, s3, s3', e]
    have e3 : (Rnd.binary 2 (by norm_num)).fl (((1 : ℕ) : ℝ) / ((2 : ℕ) : ℝ)) = 1 / 2 := by
      show flBin 2 _ = _
      rw [show ((1 : ℕ) : ℝ) / ((2 : ℕ) : ℝ) = 1 / 2 by norm_num, f12]
    simp only [Fl.bezXY, Nat.add_one_sub_one, List.range'_one, List.map_cons, List.map_nil, e3, e2]
    rfl
  · simp [BBox.ofPts, BBox.mk', BBox.Region]; norm_num

/-! ### Splitting -/

/-- C86: splitting keeps the ends exactly; the new centre and the new handles are those of exact arithmetic up to eleven roundings. -/
theorem C86_split (cp1 cp2 : CP ℝ) (t Bx By : ℝ) (h0 : 0 ≤ t) (hb1 : cp1.Bounded Bx By) (hb2 : cp2.Bounded Bx By) :
    let r := Fl.bezSplit R cp1 cp2 t
    let e := bezSplit cp1 cp2 t
    let Sx := (1 + 2 * t) ^ 3 * Bx
    let Sy := (1 + 2 * t) ^ 3 * By
    (r.1.c = cp1.c ∧ r.1.dl = cp1.dl ∧ r.2.2.c = cp2.c ∧ r.2.2.dr = cp2.dr) ∧
    Within (R.gam 10 * Sx) (R.gam 10 * Sy) r.2.1.c ((seg cp1 cp2).at' t) ∧
    WithinVec (R.gam 11 * (2 * Sx)) (R.gam 11 * (2 * Sy)) r.1.dr e.1.dr ∧
    WithinVec (R.gam 11 * (2 * Sx)) (R.gam 11 * (2 * Sy)) r.2.1.dl e.2.1.dl ∧
    WithinVec (R.gam 11 * (2 * Sx)) (R.gam 11 * (2 * Sy)) r.2.1.dr e.2.1.dr ∧
    WithinVec (R.gam 11 * (2 * Sx)) (R.gam 11 * (2 * Sy)) r.2.2.dl e.2.2.dl := by
  intro r e Sx Sy
  obtain ⟨c1, -, r1⟩ := Fl.cp_near (R := R) hb1
  obtain ⟨c2, l2, -⟩ := Fl.cp_near (R := R) hb2
  have hB : 0 ≤ Bx ∧ 0 ≤ By := ⟨c1.1.size_nonneg, c1.2.size_nonneg⟩
  have w : 1 ≤ 1 + 2 * t := by linarith
  have up : ∀ {p' p : Pt ℝ} {j k : ℕ}, j ≤ k → ∀ {n : ℕ}, n ≤ 3 →
      Fl.NearPt R j p' p ((1 + 2 * t) ^ n * Bx) ((1 + 2 * t) ^ n * By) → Fl.NearPt R k p' p Sx Sy := by
    intro p' p j k hjk n hn hp
    have : (1 + 2 * t) ^ n ≤ (1 + 2 * t) ^ 3 := pow_le_pow_right₀ w hn
    exact hp.mono hjk (mul_le_mul_of_nonneg_right this hB.1) (mul_le_mul_of_nonneg_right this hB.2)
  have z : ∀ {p' p : Pt ℝ} {k : ℕ}, Fl.NearPt R k p' p Bx By →
      Fl.NearPt R k p' p ((1 + 2 * t) ^ 0 * Bx) ((1 + 2 * t) ^ 0 * By) := by
    intro p' p k h; simpa using h
  have st : ∀ {p p' q q' : Pt ℝ} {k n : ℕ}, Fl.NearPt R k p' p ((1 + 2 * t) ^ n * Bx) ((1 + 2 * t) ^ n * By) →
      Fl.NearPt R k q' q ((1 + 2 * t) ^ n * Bx) ((1 + 2 * t) ^ n * By) →
      Fl.NearPt R (k + 3) (Fl.lerp R t p' q') (lerp t p q) ((1 + 2 * t) ^ (n + 1) * Bx) ((1 + 2 * t) ^ (n + 1) * By) := by
    intro p p' q q' k n hp hq
    have := Fl.lerp_near h0 hp hq
    simpa only [pow_succ', mul_assoc] using this
  have ab := st (z c1) (z r1)
  have bc := st (z r1) (z l2)
  have cd := st (z l2) (z c2)
  have abc := st ab bc
  have bcd := st bc cd
  have abcd := st abc bcd
  have m10 := up (k := 10) (by omega) (by omega) abcd
  refine ⟨⟨rfl, rfl, rfl, rfl⟩, ?_, ?_, ?_, ?_, ?_⟩
  · have hm : (bezSplit cp1 cp2 t).2.1.c = (seg cp1 cp2).at' t := by
      ext <;> simp only [bezSplit, lerp, Pt.addVector, Pt.sub, Vec.mul, CP.r, CP.l, seg, Poly4.at', bern] <;> ring
    rw [← hm]
    exact ⟨m10.1.2, m10.2.2⟩
  · have := Fl.sub_near (up (k := 10) (by omega) (by omega) ab) (up (k := 10) (by omega) (by omega) (z c1))
    exact ⟨this.1.2, this.2.2⟩
  · have := Fl.sub_near (up (k := 10) (by omega) (by omega) abc) m10
    exact ⟨this.1.2, this.2.2⟩
  · have := Fl.sub_near (up (k := 10) (by omega) (by omega) bcd) m10
    exact ⟨this.1.2, this.2.2⟩
  · have := Fl.sub_near (up (k := 10) (by omega) (by omega) cd) (up (k := 10) (by omega) (by omega) (z c2))
    exact ⟨this.1.2, this.2.2⟩

/-- C86: the new centre lies in every box that contains the four computed control points, without tolerance, as long as `t` is below
1 by two roundings; so for the default `t = 1/2`. -/
theorem C86_split_inside (cp1 cp2 : CP ℝ) (t : ℝ) (h0 : 0 ≤ t) (h1 : t * (1 + R.u) ^ 2 ≤ 1) (hr1 : R.RepPt cp1.c)
    (hr2 : R.RepPt cp2.c) (b : BBox ℝ) (hb1 : (Fl.cpBBox R cp1).Region ⊆ b.Region)
    (hb2 : (Fl.cpBBox R cp2).Region ⊆ b.Region) : (Fl.bezSplit R cp1 cp2 t).2.1.c ∈ b.Region := by
  have m1 := cp_bbox_mem (Fl.rcp R cp1)
  have m2 := cp_bbox_mem (Fl.rcp R cp2)
  rw [Fl.rcp_bbox, Fl.rcp_l, Fl.rcp_r] at m1 m2
  have a := hb1 m1.1
  have b' := hb1 m1.2.2
  have c := hb2 m2.2.1
  have d := hb2 m2.1
  cases b with
  | none => exact absurd a (by simp [BBox.Region])
  | box xl yl xh yh =>
    have rb : R.RepPt (Fl.cpR R cp1) := ⟨R.rep_fl _, R.rep_fl _⟩
    have rc : R.RepPt (Fl.cpL R cp2) := ⟨R.rep_fl _, R.rep_fl _⟩
    have ab := Fl.lerp_mem a b' hr1 rb h0 h1
    have bc := Fl.lerp_mem b' c rb rc h0 h1
    have cd := Fl.lerp_mem c d rc hr2 h0 h1
    have abc := Fl.lerp_mem ab bc (Fl.lerp_rep _ _ _) (Fl.lerp_rep _ _ _) h0 h1
    have bcd := Fl.lerp_mem bc cd (Fl.lerp_rep _ _ _) (Fl.lerp_rep _ _ _) h0 h1
    exact Fl.lerp_mem abc bcd (Fl.lerp_rep _ _ _) (Fl.lerp_rep _ _ _) h0 h1

/-- C86: at `t = 1` it may lie outside, whatever the precision: the curve from `2^p` (no handle) to `1/4` with left handle `2^p` is
split at 0, which is not between `1/4` and `2^p`, where all its control points are. -/
theorem C86_split_inside_counterexample (p : ℕ) (hp : 1 ≤ p) :
    let R := Rnd.binary p hp
    let cp1 : CP ℝ := ⟨⟨2 ^ p, 0⟩, ⟨0, 0⟩, ⟨0, 0⟩, "smooth"⟩
    let cp2 : CP ℝ := ⟨⟨1 / 4, 0⟩, ⟨2 ^ p, 0⟩, ⟨0, 0⟩, "smooth"⟩
    (R.RepPt cp1.c ∧ R.RepPt cp2.c ∧ R.Rep cp2.dl.x) ∧
    Fl.curveBBox R [cp1, cp2] = .ok (.box (1 / 4) 0 (2 ^ p) 0) ∧ (Fl.bezSplit R cp1 cp2 1).2.1.c = ⟨0, 0⟩ := by
  intro R cp1 cp2
  have two : (2 : ℝ) ≤ 2 ^ p := by
    calc (2 : ℝ) = 2 ^ 1 := by norm_num
      _ ≤ 2 ^ p := pow_le_pow_right₀ (by norm_num) hp
  have zp : (2 : ℝ) ^ ((p : ℤ)) = 2 ^ p := zpow_natCast 2 p
  have f0 : flBin p 0 = 0 := flBin_zero p
  have fp : flBin p (2 ^ p) = 2 ^ p := by
    have := flBin_rep p hp 1 p (by simpa using one_le_pow₀ (by norm_num : (1 : ℤ) ≤ 2))
    rw [zp] at this; simpa using this
  have fq : flBin p (1 / 4) = 1 / 4 := by
    have := flBin_rep p hp 1 (-2) (by simpa using one_le_pow₀ (by norm_num : (1 : ℤ) ≤ 2))
    norm_num at this ⊢; exact this
  have below : flBin p (2 ^ p - 1 / 4) = 2 ^ p := Fl.flBin_sub_quarter p hp
  have above : flBin p (1 / 4 + 2 ^ p) = 2 ^ p := by
    obtain ⟨k, rfl⟩ : ∃ k, p = k + 1 := ⟨p - 1, by omega⟩
    have one : (1 : ℝ) ≤ 2 ^ k := one_le_pow₀ (by norm_num)
    have := Fl.flBin_eq (k + 1) (1 / 4 + 2 ^ (k + 1)) ((k + 1 : ℕ) : ℤ) (2 ^ k)
      (by rw [abs_of_pos (by linarith), zp]; linarith)
      (by rw [abs_of_pos (by linarith), zpow_add₀ (by norm_num), zp]; norm_num; linarith)
      (by
        have e : ((k + 1 : ℕ) : ℤ) - ((k + 1 : ℕ) : ℤ) + 1 = 1 := by ring
        rw [e, zpow_one, pow_succ]
        constructor
        · rw [abs_le]; push_cast; constructor <;> linarith
        · intro h; push_cast at h
          rw [show (1 / 4 + (2 : ℝ) ^ k * 2) / 2 - 2 ^ k = 1 / 8 by ring] at h; norm_num at h)
    rw [this, show ((k + 1 : ℕ) : ℤ) - ((k + 1 : ℕ) : ℤ) + 1 = 1 by ring]; push_cast; ring
  have fn : flBin p (1 / 4 - 2 ^ p) = -2 ^ p := by
    rw [show (1 / 4 - 2 ^ p : ℝ) = -(2 ^ p - 1 / 4) by ring, flBin_neg, below]
  have fnp : flBin p (-2 ^ p) = -2 ^ p := by rw [flBin_neg, fp]
  have hR : ∀ x, R.fl x = flBin p x := fun _ => rfl
  have hr : Fl.cpR R cp1 = ⟨2 ^ p, 0⟩ := by simp [Fl.cpR, Fl.addVector, cp1, hR, f0, fp]
  have hl1 : Fl.cpL R cp1 = ⟨2 ^ p, 0⟩ := by simp [Fl.cpL, Fl.addVector, cp1, hR, f0, fp]
  have hl : Fl.cpL R cp2 = ⟨2 ^ p, 0⟩ := by
    simp only [Fl.cpL, Fl.addVector, cp2, hR, above, add_zero, f0]
  have hr2 : Fl.cpR R cp2 = ⟨1 / 4, 0⟩ := by
    simp only [Fl.cpR, Fl.addVector, cp2, hR, add_zero, f0, fq]
  have L1 : Fl.lerp R 1 ⟨2 ^ p, 0⟩ ⟨2 ^ p, 0⟩ = ⟨2 ^ p, 0⟩ := by
    simp [Fl.lerp, Fl.addVector, Fl.smul, Fl.sub, hR, f0, fp]
  have L2 : Fl.lerp R 1 ⟨2 ^ p, 0⟩ ⟨1 / 4, 0⟩ = ⟨0, 0⟩ := by
    simp only [Fl.lerp, Fl.addVector, Fl.smul, Fl.sub, hR, mul_one, one_mul, fn, fnp, sub_self, f0, add_zero,
      add_neg_cancel]
  have L3 : Fl.lerp R 1 ⟨2 ^ p, 0⟩ ⟨0, 0⟩ = ⟨0, 0⟩ := by
    simp only [Fl.lerp, Fl.addVector, Fl.smul, Fl.sub, hR, mul_one, one_mul, zero_sub, fnp, sub_self, f0, add_zero,
      add_neg_cancel, neg_zero]
  refine ⟨⟨⟨fp, f0⟩, ⟨fq, f0⟩, fp⟩, ?_, ?_⟩
  · have q : (1 / 4 : ℝ) ≤ 2 ^ p := by linarith
    have b1 : Fl.cpBBox R cp1 = .box (2 ^ p) 0 (2 ^ p) 0 := by
      simp only [Fl.cpBBox, hl1, hr]; simp [cp1, BBox.add, BBox.grow, BBox.ofPts, BBox.mk']
    have b2 : Fl.cpBBox R cp2 = .box (1 / 4) 0 (2 ^ p) 0 := by
      simp only [Fl.cpBBox, hl, hr2, cp2]; simp only [BBox.add, BBox.grow, BBox.ofPts, BBox.mk', min_eq_left q, min_eq_right q,
        max_eq_left q, max_eq_right q, min_self, max_self]
    simp only [Fl.curveBBox, List.foldl, b1, b2, BBox.add, min_eq_left q, min_eq_right q, max_eq_left q, max_eq_right q, min_self,
      max_self, BBox.mk']
  · simp only [Fl.bezSplit, hr, hl]
    show Fl.lerp R 1 (Fl.lerp R 1 (Fl.lerp R 1 ⟨2 ^ p, 0⟩ ⟨2 ^ p, 0⟩) (Fl.lerp R 1 ⟨2 ^ p, 0⟩ ⟨2 ^ p, 0⟩))
      (Fl.lerp R 1 (Fl.lerp R 1 ⟨2 ^ p, 0⟩ ⟨2 ^ p, 0⟩) (Fl.lerp R 1 ⟨2 ^ p, 0⟩ ⟨1 / 4, 0⟩)) = _
    rw [L1, L1, L2, L3, L3]

/-- The hypotheses are met: Python's doubles, a closed curve of two control points, split in the middle; thirteen roundings are less
than `2^-48` of the size. -/
example : ∃ (R : Rnd) (p q : CP ℝ), R.u = 2 ^ (-53 : ℤ) ∧ p.Bounded 2 2 ∧ q.Bounded 2 2 ∧
    (neighbours true [p, q])[1]? = some (q, p) ∧ (∃ bb, Fl.curveBBox R [p, q] = .ok bb) ∧
    (1 / 2 : ℝ) * (1 + R.u) ^ 2 ≤ 1 ∧ R.gam 13 ≤ 2 ^ (-48 : ℤ) := by
  refine ⟨.binary 53 (by norm_num), ⟨⟨0, 0⟩, ⟨-1, 0⟩, ⟨1, 0⟩, "smooth"⟩, ⟨⟨1, 1⟩, ⟨1, 0⟩, ⟨-1, 0⟩, "smooth"⟩, rfl, ?_, ?_, rfl,
    ⟨_, rfl⟩, ?_, ?_⟩
  · norm_num [CP.Bounded]
  · norm_num [CP.Bounded]
  · norm_num [Rnd.binary]
  · refine (Rnd.gam_le _ 13 ?_).trans ?_ <;> norm_num [Rnd.binary]

end X7
