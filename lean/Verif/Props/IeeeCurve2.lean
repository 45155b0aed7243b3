import Verif.Props.IeeeCurve
import Verif.Props.NanBox
import Verif.Props.BBox

/-!
C105, continued: boxes of curves, splits, linear animations and morphs with floats of finite range.
-/

noncomputable section

namespace X7.Fmt
open NB
variable {F : Fmt}

/-! ### Boxes -/

theorem toF_num (x : ℝ) : ∃ r : EReal, F.toF x = .num r := by
  unfold toF fin
  split
  · exact ⟨_, rfl⟩
  · split <;> exact ⟨_, rfl⟩

/-- C105: the box of a curve of finite control points is, whether or not an end of a handle is too large, the smallest box around the
centres and the computed ends of the handles; it has no NaN. (`C` runs over all boxes with finite and infinite sides.) -/
theorem C105_bbox (cps : List (CP ℝ)) (h : cps ≠ []) :
    ∃ B : BBox EReal, F.curveBBox (cps.map finCP) = .ok (lift B) ∧ B.Norm ∧
      ∀ C : BBox EReal, B.Region ⊆ C.Region ↔ ∀ cp ∈ cps, ∀ p : Pt EReal,
        liftPt p ∈ [finPt cp.c, F.cpL (finCP cp), F.cpR (finCP cp)] → p ∈ C.Region := by
  have linj : ∀ {p q : Pt EReal}, liftPt p = liftPt q ↔ p = q := by
    intro p q
    constructor
    · intro e; simp only [liftPt, Pt.mk.injEq, Num.num.injEq] at e; exact Pt.ext e.1 e.2
    · rintro rfl; rfl
  obtain ⟨hmk, hof, -, -, -, -, hadd, hgrow, -⟩ := C97_no_nan (α := EReal)
  have one : ∀ cp : CP ℝ, ∃ b : BBox EReal, F.cpBBox (finCP cp) = lift b ∧ b.Norm ∧
      ∀ C : BBox EReal, b.Region ⊆ C.Region ↔ ∀ p : Pt EReal,
        liftPt p ∈ [finPt cp.c, F.cpL (finCP cp), F.cpR (finCP cp)] → p ∈ C.Region := by
    intro cp
    obtain ⟨lx, h1⟩ := F.toF_num (cp.c.x + cp.dl.x)
    obtain ⟨ly, h2⟩ := F.toF_num (cp.c.y + cp.dl.y)
    obtain ⟨rx, h3⟩ := F.toF_num (cp.c.x + cp.dr.x)
    obtain ⟨ry, h4⟩ := F.toF_num (cp.c.y + cp.dr.y)
    have el : F.cpL (finCP cp) = liftPt ⟨lx, ly⟩ := by
      simp only [cpL, addVec, finCP, finPt, finV, add_fin, liftPt]; rw [h1, h2]
    have er : F.cpR (finCP cp) = liftPt ⟨rx, ry⟩ := by
      simp only [cpR, addVec, finCP, finPt, finV, add_fin, liftPt]; rw [h3, h4]
    have ec : finPt cp.c = liftPt ⟨(cp.c.x : EReal), (cp.c.y : EReal)⟩ := rfl
    have ec' : (finCP cp).c = liftPt ⟨(cp.c.x : EReal), (cp.c.y : EReal)⟩ := rfl
    refine ⟨_, ?_, BBox.norm_grow (BBox.norm_ofPts ⟨lx, ly⟩ ⟨rx, ry⟩) ⟨(cp.c.x : EReal), (cp.c.y : EReal)⟩, ?_⟩
    · unfold cpBBox
      rw [el, er, ec', hof, hgrow]
    · intro C
      rw [BBox.grow_eq_add (BBox.norm_ofPts _ _), BBox.region_add_lub (BBox.norm_ofPts _ _) (by exact ⟨le_rfl, le_rfl⟩),
        BBox.C08_init_corners, BBox.region_point, el, er, ec]
      simp only [List.mem_cons, List.not_mem_nil, or_false, linj]
      constructor
      · rintro ⟨⟨a, b⟩, c⟩ p (rfl | rfl | rfl)
        · exact c
        · exact a
        · exact b
      · intro H
        exact ⟨⟨H _ (.inr (.inl rfl)), H _ (.inr (.inr rfl))⟩, H _ (.inl rfl)⟩
  cases cps with
  | nil => exact absurd rfl h
  | cons cp rest =>
    have fold : ∀ (rest : List (CP ℝ)) (b0 : BBox EReal), b0.Norm →
        ∃ B : BBox EReal, (rest.map finCP).foldl (fun bb cp => NB.add bb (F.cpBBox cp)) (lift b0) = lift B ∧ B.Norm ∧
          ∀ C : BBox EReal, B.Region ⊆ C.Region ↔ b0.Region ⊆ C.Region ∧ ∀ cp ∈ rest, ∀ p : Pt EReal,
            liftPt p ∈ [finPt cp.c, F.cpL (finCP cp), F.cpR (finCP cp)] → p ∈ C.Region := by
      intro rest
      induction rest with
      | nil => intro b0 h0; exact ⟨b0, rfl, h0, fun C => by simp⟩
      | cons cp rest ih =>
        intro b0 h0
        obtain ⟨b, e, hn, hb⟩ := one cp
        obtain ⟨B, e', hn', hB⟩ := ih (b0.add b) (BBox.norm_add _ _)
        refine ⟨B, ?_, hn', fun C => ?_⟩
        · rw [List.map_cons, List.foldl_cons, e, hadd, e']
        · rw [hB, BBox.region_add_lub h0 hn, hb, List.forall_mem_cons, and_assoc]
    obtain ⟨b, e, hn, hb⟩ := one cp
    obtain ⟨B, e', hn', hB⟩ := fold rest b hn
    refine ⟨B, ?_, hn', fun C => ?_⟩
    · simp only [List.map_cons, curveBBox]
      rw [e, e']
    · rw [hB, hb, List.forall_mem_cons]

/-! ### Points on the way from one to another -/

theorem rnd_up {x : ℝ} (h : F.tiny ≤ x) : F.rnd x ≤ x * (1 + F.u) := by
  have h0 := F.tiny_pos.trans_le h
  have e := F.rnd_big (x := x) (by rwa [abs_of_pos h0])
  have := flBin_err F.p x
  rw [← e, abs_of_pos h0] at this
  have := (abs_le.1 this).2
  change F.rnd x - x ≤ F.u * x at this
  linarith

/-- The difference of two floats, if it is small, is a float. -/
theorem rnd_diff {p q : ℝ} (hp : F.IsFl p) (hq : F.IsFl q) (h : |q - p| < F.tiny) : F.rnd (q - p) = q - p := by
  obtain ⟨m, rfl⟩ := F.fl_mult hp
  obtain ⟨n, rfl⟩ := F.fl_mult hq
  have ht := F.tiny_pos
  have h0 := F.eta_pos
  rw [F.rnd_small (by linarith)]
  have : ((n : ℝ) * 2 ^ F.emin - m * 2 ^ F.emin) / 2 ^ F.emin = ((n - m : ℤ) : ℝ) := by push_cast; field_simp
  rw [this, pyRound_int]
  push_cast; ring

/-- `p + t * (q - p)` with rounding. -/
def lerpR (F : Fmt) (t p q : ℝ) : ℝ := F.rnd (p + F.rnd (F.rnd (q - p) * t))

theorem lerpR_up {t p q : ℝ} (hp : F.IsFl p) (hq : F.IsFl q) (t0 : 0 ≤ t) (t1 : t * (1 + F.u) ^ 2 ≤ 1) (h : p ≤ q) :
    (0 ≤ F.rnd (F.rnd (q - p) * t) ∧ F.rnd (F.rnd (q - p) * t) ≤ q - p) ∧ p ≤ F.lerpR t p q ∧ F.lerpR t p q ≤ q := by
  have hu := F.upos
  have ht := F.tiny_pos
  have d0 : 0 ≤ F.rnd (q - p) := F.rnd_nonneg (by linarith)
  have tl : t ≤ 1 := by nlinarith [mul_nonneg t0 hu.le]
  have m0 : 0 ≤ F.rnd (F.rnd (q - p) * t) := F.rnd_nonneg (by positivity)
  have key : F.rnd (F.rnd (q - p) * t) ≤ q - p := by
    rcases lt_or_ge (q - p) F.tiny with hs | hs
    · have e := rnd_diff hp hq (by rwa [abs_of_nonneg (by linarith)])
      have : F.rnd ((q - p) * t) ≤ F.rnd (q - p) := F.rnd_mono (by nlinarith)
      rw [e]; rwa [e] at this
    · have h1 := rnd_up hs
      rcases lt_or_ge (F.rnd (q - p) * t) F.tiny with h2 | h2
      · have := F.rnd_mono h2.le
        rw [F.rnd_tiny] at this
        linarith
      · have h3 := rnd_up h2
        have e0 : 0 ≤ q - p := by linarith
        calc F.rnd (F.rnd (q - p) * t) ≤ F.rnd (q - p) * t * (1 + F.u) := h3
          _ ≤ (q - p) * (1 + F.u) * t * (1 + F.u) := by gcongr
          _ = (q - p) * (t * (1 + F.u) ^ 2) := by ring
          _ ≤ (q - p) * 1 := by gcongr
          _ = q - p := mul_one _
  refine ⟨⟨m0, key⟩, ?_, ?_⟩
  · have := F.rnd_mono (show p ≤ p + F.rnd (F.rnd (q - p) * t) by linarith)
    rwa [F.rnd_fl hp] at this
  · have := F.rnd_mono (show p + F.rnd (F.rnd (q - p) * t) ≤ q by linarith)
    rwa [F.rnd_fl hq] at this

theorem lerpR_neg (t p q : ℝ) : F.lerpR t (-p) (-q) = -F.lerpR t p q := by
  unfold lerpR
  rw [show -q - -p = -(q - p) by ring, F.rnd_neg, neg_mul, F.rnd_neg, ← neg_add, F.rnd_neg]

/-- One coordinate on the way from `p` to `q`. -/
theorem lerp_coord {t p q : ℝ} (hp : F.IsFl p) (hq : F.IsFl q) (t0 : 0 ≤ t) (t1 : t * (1 + F.u) ^ 2 ≤ 1) (h : |q - p| < F.limit) :
    F.add (fin p) (F.mul (F.sub (fin q) (fin p)) (fin t)) = fin (F.lerpR t p q) ∧ F.IsFl (F.lerpR t p q) ∧
      min p q ≤ F.lerpR t p q ∧ F.lerpR t p q ≤ max p q := by
  have hu := F.upos
  have tl : t ≤ 1 := by nlinarith [mul_nonneg t0 hu.le]
  have key : (min p q ≤ F.lerpR t p q ∧ F.lerpR t p q ≤ max p q) ∧ |F.rnd (F.rnd (q - p) * t)| ≤ |q - p| ∧
      |p + F.rnd (F.rnd (q - p) * t)| ≤ F.maxf := by
    have mp := abs_le.1 (F.fl_le_maxf hp)
    have mq := abs_le.1 (F.fl_le_maxf hq)
    rcases le_total p q with hh | hh
    · obtain ⟨⟨a, b⟩, c, d⟩ := lerpR_up hp hq t0 t1 hh
      rw [min_eq_left hh, max_eq_right hh]
      exact ⟨⟨c, d⟩, by rw [abs_of_nonneg a, abs_of_nonneg (by linarith)]; exact b, abs_le.2 ⟨by linarith, by linarith⟩⟩
    · obtain ⟨⟨a, b⟩, c, d⟩ := lerpR_up (F.fl_neg hp) (F.fl_neg hq) t0 t1 (by linarith : -p ≤ -q)
      rw [lerpR_neg] at c d
      rw [show -q - -p = -(q - p) by ring, F.rnd_neg, neg_mul, F.rnd_neg] at a b
      rw [min_eq_right hh, max_eq_left hh]
      exact ⟨⟨by linarith, by linarith⟩, by rw [abs_of_nonpos (by linarith), abs_of_nonpos (by linarith)]; linarith,
        abs_le.2 ⟨by linarith, by linarith⟩⟩
  obtain ⟨k1, k2, k3⟩ := key
  have d1 := (F.rnd_in_iff _).2 h
  have d2 : |F.rnd (q - p) * t| ≤ F.maxf := by
    rw [abs_mul, abs_of_nonneg t0]
    have := abs_nonneg (F.rnd (q - p))
    nlinarith
  refine ⟨?_, fl_rnd _ (F.rnd_le_maxf k3), k1⟩
  rw [sub_fin, F.toF_fin d1, mul_fin, F.toF_in d2, add_fin, F.toF_in k3]
  rfl

/-- `p + t * (q - p)` of points with rounding. -/
def lerpPt (F : Fmt) (t : ℝ) (p q : Pt ℝ) : Pt ℝ := ⟨F.lerpR t p.x q.x, F.lerpR t p.y q.y⟩

/-- `p + t * (q - p)` of points in a box that is not too large stays in the box. -/
theorem lerp_box {t : ℝ} (t0 : 0 ≤ t) (t1 : t * (1 + F.u) ^ 2 ≤ 1) {xl yl xh yh : ℝ} (wx : xh - xl < F.limit) (wy : yh - yl < F.limit)
    {p q : Pt ℝ} (hp : F.FlPt p) (hq : F.FlPt q) (bp : p ∈ (BBox.box xl yl xh yh).Region) (bq : q ∈ (BBox.box xl yl xh yh).Region) :
    F.lerp (fin t) (finPt p) (finPt q) = finPt (F.lerpPt t p q) ∧ F.FlPt (F.lerpPt t p q) ∧
      F.lerpPt t p q ∈ (BBox.box xl yl xh yh).Region := by
  obtain ⟨⟨p1, p2⟩, p3, p4⟩ := bp
  obtain ⟨⟨q1, q2⟩, q3, q4⟩ := bq
  obtain ⟨ex, fx, x1, x2⟩ := lerp_coord hp.1 hq.1 t0 t1 (abs_lt.2 ⟨by linarith, by linarith⟩)
  obtain ⟨ey, fy, y1, y2⟩ := lerp_coord hp.2 hq.2 t0 t1 (abs_lt.2 ⟨by linarith, by linarith⟩)
  refine ⟨?_, ⟨fx, fy⟩, ⟨(le_min p1 q1).trans x1, x2.trans (max_le p2 q2)⟩, (le_min p3 q3).trans y1, y2.trans (max_le p4 q4)⟩
  simp only [lerp, addVec, smul, sub2, finPt]
  rw [ex, ey]
  rfl

theorem sub2_box {xl yl xh yh : ℝ} (wx : xh - xl < F.limit) (wy : yh - yl < F.limit)
    {p q : Pt ℝ} (bp : p ∈ (BBox.box xl yl xh yh).Region) (bq : q ∈ (BBox.box xl yl xh yh).Region) :
    F.sub2 (finPt p) (finPt q) = finV ⟨F.rnd (p.x - q.x), F.rnd (p.y - q.y)⟩ := by
  obtain ⟨⟨p1, p2⟩, p3, p4⟩ := bp
  obtain ⟨⟨q1, q2⟩, q3, q4⟩ := bq
  simp only [sub2, finPt, finV, sub_fin]
  rw [F.toF_fin ((F.rnd_in_iff _).2 (abs_lt.2 ⟨by linarith, by linarith⟩)),
    F.toF_fin ((F.rnd_in_iff _).2 (abs_lt.2 ⟨by linarith, by linarith⟩))]

/-- The points that `bez_split` computes, from the four control points. -/
def splitPts (F : Fmt) (t : ℝ) (a b c d : Pt ℝ) : Pt ℝ × Pt ℝ × Pt ℝ × Pt ℝ × Pt ℝ :=
  let ab := F.lerpPt t a b
  let bc := F.lerpPt t b c
  let cd := F.lerpPt t c d
  let abc := F.lerpPt t ab bc
  let bcd := F.lerpPt t bc cd
  (ab, abc, F.lerpPt t abc bcd, bcd, cd)

def subR (F : Fmt) (p q : Pt ℝ) : Vec ℝ := ⟨F.rnd (p.x - q.x), F.rnd (p.y - q.y)⟩

theorem split_core (cp1 cp2 : CP ℝ) (b c : Pt ℝ) (hb : F.cpR (finCP cp1) = finPt b) (hc : F.cpL (finCP cp2) = finPt c)
    (h1 : F.FlCP cp1) (h2 : F.FlCP cp2) (t : ℝ) (t0 : 0 ≤ t) (t1 : t * (1 + F.u) ^ 2 ≤ 1) (xl yl xh yh : ℝ)
    (wx : xh - xl < F.limit) (wy : yh - yl < F.limit) (hin : ∀ p ∈ [cp1.c, b, c, cp2.c], p ∈ (BBox.box xl yl xh yh).Region) :
    let P := F.splitPts t cp1.c b c cp2.c
    F.bezSplit (finCP cp1) (finCP cp2) (fin t) = (finCP ⟨cp1.c, cp1.dl, F.subR P.1 cp1.c, "smooth"⟩,
      finCP ⟨P.2.2.1, F.subR P.2.1 P.2.2.1, F.subR P.2.2.2.1 P.2.2.1, "smooth"⟩, finCP ⟨cp2.c, F.subR P.2.2.2.2 cp2.c, cp2.dr, "smooth"⟩) ∧
    P.2.2.1 ∈ (BBox.box xl yl xh yh).Region := by
  simp only [List.forall_mem_cons, List.not_mem_nil, IsEmpty.forall_iff, implies_true, and_true] at hin
  obtain ⟨i1, i2, i3, i4⟩ := hin
  have fsum : ∀ {x y r : ℝ}, F.add (fin x) (fin y) = fin r → F.IsFl r := by
    intro x y r h
    rw [add_fin] at h
    by_cases hl : |x + y| < F.limit
    · obtain ⟨r', e, f, -⟩ := (F.C98_rounding (x + y)).2.2.1 hl
      rw [e, fin_inj] at h
      rwa [← h]
    · rcases le_abs.1 (not_lt.1 hl) with h' | h'
      · rw [F.toF_top h'] at h; simp [fin] at h
      · rw [F.toF_bot (by linarith)] at h; simp [fin] at h
  have fb : F.FlPt b := by
    simp only [cpR, addVec, finCP, finPt, finV, Pt.mk.injEq] at hb
    exact ⟨fsum hb.1, fsum hb.2⟩
  have fc : F.FlPt c := by
    simp only [cpL, addVec, finCP, finPt, finV, Pt.mk.injEq] at hc
    exact ⟨fsum hc.1, fsum hc.2⟩
  obtain ⟨e1, f1, j1⟩ := lerp_box t0 t1 wx wy h1.1 fb i1 i2
  obtain ⟨e2, f2, j2⟩ := lerp_box t0 t1 wx wy fb fc i2 i3
  obtain ⟨e3, f3, j3⟩ := lerp_box t0 t1 wx wy fc h2.1 i3 i4
  obtain ⟨e4, f4, j4⟩ := lerp_box t0 t1 wx wy f1 f2 j1 j2
  obtain ⟨e5, f5, j5⟩ := lerp_box t0 t1 wx wy f2 f3 j2 j3
  obtain ⟨e6, f6, j6⟩ := lerp_box t0 t1 wx wy f4 f5 j4 j5
  have c1 : (finCP cp1).c = finPt cp1.c := rfl
  have c2 : (finCP cp2).c = finPt cp2.c := rfl
  refine ⟨?_, j6⟩
  unfold bezSplit
  simp only
  rw [hb, hc, c1, c2, e1, e2, e3, e4, e5, e6, sub2_box wx wy j1 i1, sub2_box wx wy j4 j6, sub2_box wx wy j5 j6, sub2_box wx wy j3 i4]
  rfl

/-- C105: splitting a segment whose control points (centres and computed ends of handles) are finite and lie in a box that is narrower
than the largest float: for a parameter from 0 to a little below 1 all results are finite, the outer centres and handles are kept, and
the new centre lies in that box. -/
theorem C105_split_inside (cp1 cp2 : CP ℝ) (b c : Pt ℝ) (hb : F.cpR (finCP cp1) = finPt b) (hc : F.cpL (finCP cp2) = finPt c)
    (h1 : F.FlCP cp1) (h2 : F.FlCP cp2) (t : ℝ) (t0 : 0 ≤ t) (t1 : t * (1 + F.u) ^ 2 ≤ 1) (xl yl xh yh : ℝ)
    (wx : xh - xl < F.limit) (wy : yh - yl < F.limit) (hin : ∀ p ∈ [cp1.c, b, c, cp2.c], p ∈ (BBox.box xl yl xh yh).Region) :
    ∃ l m r : CP ℝ, F.bezSplit (finCP cp1) (finCP cp2) (fin t) = (finCP l, finCP m, finCP r) ∧
      l.c = cp1.c ∧ l.dl = cp1.dl ∧ r.c = cp2.c ∧ r.dr = cp2.dr ∧ m.c ∈ (BBox.box xl yl xh yh).Region := by
  obtain ⟨e, j⟩ := split_core cp1 cp2 b c hb hc h1 h2 t t0 t1 xl yl xh yh wx wy hin
  exact ⟨_, _, _, e, rfl, rfl, rfl, rfl, j⟩

theorem lerp_near {t p p' q q' S W : ℝ} {n : ℕ} (t0 : 0 ≤ t) (hp : F.NearW n p' p S W) (hq : F.NearW n q' q S W) :
    F.NearW (n + 3) (F.lerpR t p' q') (p + (q - p) * t) ((1 + 2 * t) * S) ((1 + 2 * t) * (W + F.eta)) := by
  have ht : F.NearW 0 t t t t := .of_le (le_of_eq (abs_of_nonneg t0))
  have h1 := (hp.add (((hq.sub hp).rnd.mul ht).rnd)).rnd
  have he := F.eta_pos'
  exact h1.congr rfl (by ring) (by omega) (by nlinarith [mul_nonneg t0 he.le])

/-- C105: and under the same conditions the new centre is the point of the exact segment, and the new handles are those of the exact
split, up to eleven roundings and a few times the smallest float. -/
theorem C105_split_near (cp1 cp2 : CP ℝ) (b c : Pt ℝ) (hb : F.cpR (finCP cp1) = finPt b) (hc : F.cpL (finCP cp2) = finPt c)
    (h1 : F.FlCP cp1) (h2 : F.FlCP cp2) (t : ℝ) (t0 : 0 ≤ t) (t1 : t * (1 + F.u) ^ 2 ≤ 1) (xl yl xh yh : ℝ)
    (wx : xh - xl < F.limit) (wy : yh - yl < F.limit) (hin : ∀ p ∈ [cp1.c, b, c, cp2.c], p ∈ (BBox.box xl yl xh yh).Region)
    (Bx By : ℝ) (hb1 : cp1.Bounded Bx By) (hb2 : cp2.Bounded Bx By) :
    let tol := fun (n : ℕ) (k B : ℝ) => (1 + F.u) ^ n * (k * ((1 + 2 * t) ^ 3 * (B + 5 * F.eta))) - k * ((1 + 2 * t) ^ 3 * B)
    let e := X7.bezSplit cp1 cp2 t
    ∃ l m r : CP ℝ, F.bezSplit (finCP cp1) (finCP cp2) (fin t) = (finCP l, finCP m, finCP r) ∧
      Within (tol 10 1 Bx) (tol 10 1 By) m.c ((seg cp1 cp2).at' t) ∧
      WithinVec (tol 11 2 Bx) (tol 11 2 By) l.dr e.1.dr ∧ WithinVec (tol 11 2 Bx) (tol 11 2 By) m.dl e.2.1.dl ∧
      WithinVec (tol 11 2 Bx) (tol 11 2 By) m.dr e.2.1.dr ∧ WithinVec (tol 11 2 Bx) (tol 11 2 By) r.dl e.2.2.dl := by
  intro tol e
  obtain ⟨eq, -⟩ := split_core cp1 cp2 b c hb hc h1 h2 t t0 t1 xl yl xh yh wx wy hin
  refine ⟨_, _, _, eq, ?_⟩
  have he := F.eta_pos'
  have w1 : 1 ≤ 1 + 2 * t := by linarith
  have w : ∀ {n : ℕ}, n ≤ 3 → (1 + 2 * t) ^ n ≤ (1 + 2 * t) ^ 3 := fun hn => pow_le_pow_right₀ w1 hn
  -- the rounded ends of handles
  have hand : ∀ {x y r : ℝ}, F.add (fin x) (fin y) = fin r → r = F.rnd (x + y) := by
    intro x y r h
    rw [add_fin] at h
    by_cases hl : |x + y| < F.limit
    · rw [F.toF_fin ((F.rnd_in_iff _).2 hl), fin_inj] at h
      exact h.symm
    · rcases le_abs.1 (not_lt.1 hl) with h' | h'
      · rw [F.toF_top h'] at h; simp [fin] at h
      · rw [F.toF_bot (by linarith)] at h; simp [fin] at h
  simp only [cpR, cpL, addVec, finCP, finPt, finV, Pt.mk.injEq] at hb hc
  have cen : ∀ {x v B : ℝ}, |x| + |v| ≤ B → F.NearW 1 x x B (B + F.eta) := fun {x v B} h =>
    (NearW.of_le (by linarith [abs_nonneg v])).mono (by omega) (by linarith)
  have hnd : ∀ {x v B r : ℝ}, |x| + |v| ≤ B → F.add (fin x) (fin v) = fin r → F.NearW 1 r (x + v) B (B + F.eta) := fun h hr => by
    rw [hand hr]
    exact (NearW.of_le ((abs_add_le _ _).trans h)).rnd.mono le_rfl (by linarith)
  -- one axis
  have axis : ∀ {a b c d b' c' B : ℝ}, F.NearW 1 a a B (B + F.eta) → F.NearW 1 b' b B (B + F.eta) → F.NearW 1 c' c B (B + F.eta) →
      F.NearW 1 d d B (B + F.eta) →
      let ab := a + (b - a) * t
      let bc := b + (c - b) * t
      let cd := c + (d - c) * t
      let abc := ab + (bc - ab) * t
      let bcd := bc + (cd - bc) * t
      let abcd := abc + (bcd - abc) * t
      let ab' := F.lerpR t a b'
      let bc' := F.lerpR t b' c'
      let cd' := F.lerpR t c' d
      let abc' := F.lerpR t ab' bc'
      let bcd' := F.lerpR t bc' cd'
      let abcd' := F.lerpR t abc' bcd'
      |abcd' - abcd| ≤ tol 10 1 B ∧ |F.rnd (ab' - a) - (ab - a)| ≤ tol 11 2 B ∧ |F.rnd (abc' - abcd') - (abc - abcd)| ≤ tol 11 2 B ∧
      |F.rnd (bcd' - abcd') - (bcd - abcd)| ≤ tol 11 2 B ∧ |F.rnd (cd' - d) - (cd - d)| ≤ tol 11 2 B := by
    intro a b c d b' c' B ha hb hc hd ab bc cd abc bcd abcd ab' bc' cd' abc' bcd' abcd'
    have B0 : 0 ≤ B := (abs_nonneg _).trans ha.1
    have n1 := lerp_near t0 ha hb
    have n2 := lerp_near t0 hb hc
    have n3 := lerp_near t0 hc hd
    have n4 := lerp_near t0 n1 n2
    have n5 := lerp_near t0 n2 n3
    have n6 := lerp_near t0 n4 n5
    have T0 : 0 ≤ (1 + 2 * t) ^ 3 := by positivity
    have fit : ∀ {n : ℕ} {x' x S W : ℝ}, F.NearW n x' x S W → n ≤ 10 → ∀ {k : ℕ}, k ≤ 3 → S = (1 + 2 * t) ^ k * B →
        W ≤ (1 + 2 * t) ^ k * (B + 4 * F.eta) → F.NearW 10 x' x ((1 + 2 * t) ^ 3 * B) ((1 + 2 * t) ^ 3 * (B + 4 * F.eta)) := by
      intro n x' x S W hx hn k hk hS hW
      have hk3 := w hk
      subst hS
      refine ⟨hx.1.trans (mul_le_mul_of_nonneg_right hk3 B0), ?_⟩
      have u1 : 1 ≤ (1 + F.u) ^ 10 := one_le_pow₀ F.one_le_u
      have h3 := (hx.mono hn hW).2
      have h4 : (1 + F.u) ^ 10 * ((1 + 2 * t) ^ k * (B + 4 * F.eta)) - (1 + 2 * t) ^ k * B ≤
          (1 + F.u) ^ 10 * ((1 + 2 * t) ^ 3 * (B + 4 * F.eta)) - (1 + 2 * t) ^ 3 * B := by
        have : 0 ≤ ((1 + 2 * t) ^ 3 - (1 + 2 * t) ^ k) * ((1 + F.u) ^ 10 * (B + 4 * F.eta) - B) := by
          apply mul_nonneg (by linarith)
          nlinarith
        nlinarith
      linarith
    have e0 : 0 ≤ t * F.eta := by positivity
    have x0 := fit ha (by omega) (k := 0) (by omega) (by simp) (by simp; linarith)
    have x0' := fit hd (by omega) (k := 0) (by omega) (by simp) (by simp; linarith)
    have tw : ∀ {k : ℕ}, 0 ≤ (1 + 2 * t) ^ k := fun {k} => by positivity
    have x1 := fit n1 (by omega) (k := 1) (by omega) (by ring) (by nlinarith)
    have x3 := fit n3 (by omega) (k := 1) (by omega) (by ring) (by nlinarith)
    have two : (1 + 2 * t) * ((1 + 2 * t) * (B + F.eta + F.eta) + F.eta) ≤ (1 + 2 * t) ^ 2 * (B + 3 * F.eta) := by
      rw [pow_two, mul_assoc]
      gcongr
      nlinarith
    have x4 := fit n4 (by omega) (k := 2) (by omega) (by ring) (two.trans (by gcongr; linarith))
    have x5 := fit n5 (by omega) (k := 2) (by omega) (by ring) (two.trans (by gcongr; linarith))
    have three : (1 + 2 * t) * ((1 + 2 * t) * ((1 + 2 * t) * (B + F.eta + F.eta) + F.eta) + F.eta) ≤ (1 + 2 * t) ^ 3 * (B + 4 * F.eta) := by
      have : (1 + 2 * t) ^ 2 * (B + 3 * F.eta) + F.eta ≤ (1 + 2 * t) ^ 2 * (B + 4 * F.eta) := by
        have : 1 ≤ (1 + 2 * t) ^ 2 := one_le_pow₀ w1
        nlinarith
      calc _ ≤ (1 + 2 * t) * ((1 + 2 * t) ^ 2 * (B + 4 * F.eta)) := by gcongr; linarith
        _ = _ := by ring
    have x6 := fit n6 (by omega) (k := 3) (by omega) (by ring) three
    have d2 : ∀ {x' x y' y : ℝ}, F.NearW 10 x' x ((1 + 2 * t) ^ 3 * B) ((1 + 2 * t) ^ 3 * (B + 4 * F.eta)) →
        F.NearW 10 y' y ((1 + 2 * t) ^ 3 * B) ((1 + 2 * t) ^ 3 * (B + 4 * F.eta)) → |F.rnd (x' - y') - (x - y)| ≤ tol 11 2 B := by
      intro x' x y' y hx hy
      refine ((hx.sub hy).rnd.congr (m := 11) (T := 2 * ((1 + 2 * t) ^ 3 * B)) (V := 2 * ((1 + 2 * t) ^ 3 * (B + 5 * F.eta))) rfl
        (by ring) (by simp) ?_).2
      have : 1 ≤ (1 + 2 * t) ^ 3 := one_le_pow₀ w1
      nlinarith
    refine ⟨?_, d2 x1 x0, d2 x4 x6, d2 x5 x6, d2 x3 x0'⟩
    refine (x6.congr (m := 10) (T := 1 * ((1 + 2 * t) ^ 3 * B)) (V := 1 * ((1 + 2 * t) ^ 3 * (B + 5 * F.eta))) rfl (by ring) le_rfl ?_).2
    rw [one_mul]
    gcongr
    linarith
  obtain ⟨X1, X2, X3, X4, X5⟩ := axis (cen hb1.1.1) (hnd hb1.1.2 hb.1) (hnd hb2.1.1 hc.1) (cen hb2.1.1)
  obtain ⟨Y1, Y2, Y3, Y4, Y5⟩ := axis (cen hb1.2.1) (hnd hb1.2.2 hb.2) (hnd hb2.2.1 hc.2) (cen hb2.2.1)
  have hm : (X7.bezSplit cp1 cp2 t).2.1.c = (seg cp1 cp2).at' t := by
    ext <;> simp only [X7.bezSplit, X7.lerp, Pt.addVector, Pt.sub, Vec.mul, CP.r, CP.l, seg, Poly4.at', bern] <;> ring
  rw [← hm]
  exact ⟨⟨X1, Y1⟩, ⟨X2, Y2⟩, ⟨X3, Y3⟩, ⟨X4, Y4⟩, X5, Y5⟩

theorem two_maxf : F.limit ≤ F.maxf - -F.maxf := by
  have h0 : (0 : ℝ) < 2 ^ F.emax := by positivity
  have hp := F.two_p
  unfold limit maxf
  nlinarith

/-- C105: without the bound on the size of the box this is wrong: the straight segment from minus the largest to the largest float has
its middle at zero, but splitting it there gives a control point whose coordinates are NaN. -/
theorem C105_split_counterexample : ∃ cp1 cp2 : CP ℝ, F.FlCP cp1 ∧ F.FlCP cp2 ∧ ((seg cp1 cp2).at' (1 / 2)).x = 0 ∧
    (F.bezSplit (finCP cp1) (finCP cp2) (fin (1 / 2))).2.1.c.x = .nan := by
  have fm := F.fl_maxf
  have f0 : F.IsFl 0 := fl_zero
  have hm := F.maxf_pos
  refine ⟨⟨⟨-F.maxf, 0⟩, ⟨0, 0⟩, ⟨0, 0⟩, "sharp"⟩, ⟨⟨F.maxf, 0⟩, ⟨0, 0⟩, ⟨0, 0⟩, "sharp"⟩,
    ⟨⟨F.fl_neg fm, f0⟩, ⟨f0, f0⟩, f0, f0⟩, ⟨⟨fm, f0⟩, ⟨f0, f0⟩, f0, f0⟩, ?_, ?_⟩
  · simp [seg, Poly4.at', bern]; ring
  · have e1 : F.add (fin (-F.maxf)) (fin 0) = fin (-F.maxf) := by rw [add_fin, add_zero, F.toF_self (F.fl_neg fm)]
    have e2 : F.add (fin F.maxf) (fin 0) = fin F.maxf := by rw [add_fin, add_zero, F.toF_self fm]
    have z : ∀ x : ℝ, F.sub (fin x) (fin x) = fin 0 := fun x => by rw [sub_fin, sub_self, F.toF_self f0]
    have z2 : F.mul (fin 0) (fin (1 / 2)) = fin 0 := by rw [mul_fin, zero_mul, F.toF_self f0]
    have e3 : F.sub (fin F.maxf) (fin (-F.maxf)) = .num ⊤ := by rw [sub_fin, F.toF_top two_maxf]
    have e4 : F.mul (.num ⊤) (fin (1 / 2)) = .num ⊤ := by
      simp [mul, fin]
      exact EReal.top_mul_coe_of_pos (by norm_num)
    have e5 : F.add (fin (-F.maxf)) (.num ⊤) = .num ⊤ := by simp [add, fin]
    have e6 : F.sub (.num ⊤) (fin (-F.maxf)) = .num ⊤ := by rw [sub, neg_fin]; simp [add, fin]
    have e7 : F.sub (fin F.maxf) (.num ⊤) = .num ⊥ := by simp [sub, neg, add, fin]
    have e8 : F.mul (.num ⊥) (fin (1 / 2)) = .num ⊥ := by
      simp [mul, fin]
      exact EReal.bot_mul_coe_of_pos (by norm_num)
    have e9 : F.add (.num ⊤) (.num ⊥) = .nan := by simp [add]
    have n1 : ∀ a : N, F.sub .nan a = .nan := fun a => by cases a <;> rfl
    have n2 : ∀ a : N, F.mul .nan a = .nan := fun a => by cases a <;> rfl
    have n3 : ∀ a : N, F.add a .nan = .nan := fun a => by cases a <;> rfl
    simp only [bezSplit, lerp, cpL, cpR, addVec, smul, sub2, finCP, finPt, finV]
    simp only [e1, e2, e3, e4, e5, e6, e7, e8, e9, z, z2, n1, n2, n3]

/-! ### Animations -/

/-- C105: a linear animation of finite points is at its start at time 0 and at its target at time 1, exactly. -/
theorem C105_linear_ends (h1 : F.HasOne) (o g : Pt ℝ) (ho : F.FlPt o) (hg : F.FlPt g) :
    F.animLinear (finPt o) (finPt g) (fin 0) (fin 0) = finPt o ∧ F.animLinear (finPt o) (finPt g) (fin 1) (fin 1) = finPt g := by
  have f0 : F.IsFl 0 := fl_zero
  have e0 : F.sub (fin 1) (fin 0) = fin 1 := by rw [sub_fin, sub_zero, F.toF_self (fl_one h1)]
  have e1 : F.sub (fin 1) (fin 1) = fin 0 := by rw [sub_fin, sub_self, F.toF_self f0]
  constructor
  · simp only [animLinear, finPt, e0, mul_fin, one_mul, zero_mul, F.toF_self f0, F.toF_self ho.1, F.toF_self ho.2, add_fin, add_zero]
  · simp only [animLinear, finPt, e1, mul_fin, one_mul, zero_mul, F.toF_self f0, F.toF_self hg.1, F.toF_self hg.2, add_fin, zero_add]

/-- A number of `[0, 1]` times the largest float is not rounded up. -/
theorem mul_maxf (he : 0 ≤ F.emax) {s : ℝ} (hs : F.IsFl s) (s0 : 0 ≤ s) : F.rnd (s * F.maxf) ≤ s * F.maxf := by
  rcases s0.eq_or_lt with rfl | sp
  · simp [F.rnd_zero]
  -- the digits of `s`, with the first one not zero
  obtain ⟨m, e, m1, m2, es, he'⟩ : ∃ m e : ℤ, 2 ^ (F.p - 1) ≤ m ∧ m < 2 ^ F.p ∧ s = m * 2 ^ e ∧ F.emin - F.p + 1 ≤ e := by
    obtain ⟨m, e, hm, hl, -, rfl⟩ := hs
    have h0 : (0 : ℝ) < 2 ^ e := by positivity
    have mp : 0 < m := by
      have : (0 : ℝ) < m := by by_contra hc; push Not at hc; nlinarith
      exact_mod_cast this
    rw [abs_of_pos mp] at hm
    have hn : m.toNat ≠ 0 := by omega
    set k := Nat.log 2 m.toNat with hk
    have k1 := Nat.pow_log_le_self 2 hn
    have k2 := Nat.lt_pow_succ_log_self (b := 2) (by norm_num) m.toNat
    have kp : k < F.p := by
      rw [← hk] at k1
      by_contra hc
      push Not at hc
      have : (2 : ℕ) ^ F.p ≤ 2 ^ k := Nat.pow_le_pow_right (by norm_num) hc
      have h3 : ((2 : ℕ) ^ F.p : ℤ) ≤ m.toNat := by exact_mod_cast this.trans k1
      push_cast at h3
      omega
    have mm : ((m.toNat : ℕ) : ℤ) = m := Int.toNat_of_nonneg mp.le
    have k1' : (2 : ℤ) ^ k ≤ m := by rw [← mm]; exact_mod_cast k1
    have k2' : m < (2 : ℤ) ^ (k + 1) := by rw [← mm]; exact_mod_cast k2
    refine ⟨m * 2 ^ (F.p - 1 - k), e - ((F.p - 1 - k : ℕ) : ℤ), ?_, ?_, ?_, by omega⟩
    · calc (2 : ℤ) ^ (F.p - 1) = 2 ^ k * 2 ^ (F.p - 1 - k) := by rw [← pow_add]; congr 1; omega
        _ ≤ m * 2 ^ (F.p - 1 - k) := by gcongr
    · calc m * 2 ^ (F.p - 1 - k) < 2 ^ (k + 1) * 2 ^ (F.p - 1 - k) := by gcongr
        _ = 2 ^ F.p := by rw [← pow_add]; congr 1; omega
    · rw [zpow_sub₀ (by norm_num), zpow_natCast]
      push_cast
      field_simp
  have hp := F.hp
  have two : (2 : ℝ) ^ F.p = 2 * 2 ^ (F.p - 1) := by rw [← pow_succ']; congr 1; omega
  have P0 : (0 : ℝ) < 2 ^ (F.p - 1) := by positivity
  obtain ⟨K, hK⟩ : ∃ K : ℤ, K = e + F.p + F.emax := ⟨_, rfl⟩
  have k0 : (0 : ℝ) < 2 ^ K := by positivity
  have ex : s * F.maxf = (m - m / 2 ^ F.p) * 2 ^ K := by
    rw [es, hK, zpow_add₀ (by norm_num), zpow_add₀ (by norm_num), zpow_natCast]
    unfold maxf
    field_simp
  rcases m1.eq_or_lt with hm | hm
  · -- a power of two
    have : s * F.maxf = ((2 ^ F.p - 1 : ℤ) : ℝ) * 2 ^ (K - 1) := by
      rw [ex, ← hm, zpow_sub_one₀ (by norm_num)]
      push_cast
      rw [two]
      field_simp
    rw [this, F.rnd_rep]
    · have h3 : (1 : ℤ) ≤ 2 ^ F.p := one_le_pow₀ (by norm_num)
      rw [abs_of_nonneg (by omega)]; omega
    · omega
  · have m1' : (2 : ℝ) ^ (F.p - 1) + 1 ≤ m := by exact_mod_cast hm
    have m2' : (m : ℝ) + 1 ≤ 2 ^ F.p := by exact_mod_cast m2
    have Pp : (0 : ℝ) < 2 ^ F.p := by positivity
    have f1 : (m : ℝ) / 2 ^ F.p < 1 := by rw [div_lt_one Pp]; linarith
    have f2 : 1 / 2 < (m : ℝ) / 2 ^ F.p := by rw [lt_div_iff₀ Pp, two]; linarith
    have pos : 0 < s * F.maxf := mul_pos sp F.maxf_pos
    have lg : Int.log 2 |s * F.maxf| = F.p - 1 + K := by
      apply log_eq
      · rw [abs_of_pos pos, ex, zpow_add₀ (by norm_num)]
        have : (2 : ℝ) ^ ((F.p : ℤ) - 1) = 2 ^ (F.p - 1) := by
          rw [← zpow_natCast]; congr 1; omega
        rw [this]
        gcongr
        linarith
      · rw [abs_of_pos pos, ex, show (F.p : ℤ) - 1 + K + 1 = F.p + K by ring, zpow_add₀ (by norm_num), zpow_natCast]
        gcongr
        linarith
    have la : F.last (s * F.maxf) = K := by
      unfold last
      rw [lg, max_eq_right (by omega)]
      ring
    have q : s * F.maxf / 2 ^ K = m - m / 2 ^ F.p := by rw [ex]; field_simp
    have r : pyRound (s * F.maxf / 2 ^ K) = m - 1 := by
      symm
      rw [← isRound_iff, q]
      have : |(m : ℝ) - m / 2 ^ F.p - ((m - 1 : ℤ) : ℝ)| < 1 / 2 := by
        push_cast
        rw [abs_lt]; constructor <;> linarith
      exact ⟨this.le, fun h => absurd h this.ne⟩
    unfold rnd
    rw [la, r, ex]
    push_cast
    rw [mul_comm]
    gcongr

theorem mul_maxf_abs (he : 0 ≤ F.emax) {s x : ℝ} (hs : F.IsFl s) (s0 : 0 ≤ s) (hx : |x| ≤ F.maxf) : |F.rnd (s * x)| ≤ s * F.maxf := by
  have h := mul_maxf he hs s0
  have x1 := abs_le.1 hx
  have a1 : F.rnd (s * x) ≤ F.rnd (s * F.maxf) := F.rnd_mono (mul_le_mul_of_nonneg_left x1.2 s0)
  have a2 : F.rnd (-(s * F.maxf)) ≤ F.rnd (s * x) := F.rnd_mono (by nlinarith)
  rw [F.rnd_neg] at a2
  exact abs_le.2 ⟨by linarith, by linarith⟩

/-- `1 - t`, rounded. -/
theorem one_sub (h1 : F.HasOne) (he : F.emin ≤ -(F.p : ℤ)) {t : ℝ} (t0 : 0 ≤ t) (t1 : t ≤ 1) : F.rnd (1 - t) ≤ 1 - t + F.u / 2 := by
  rcases t0.eq_or_lt with rfl | tp
  · rw [sub_zero, F.rnd_fl (fl_one h1)]; linarith [F.upos]
  rcases t1.eq_or_lt with rfl | tp'
  · rw [sub_self, F.rnd_zero]; linarith [F.upos]
  set x := 1 - t with hx
  have x0 : 0 < x := by linarith
  have la : F.last x ≤ -(F.p : ℤ) := by
    unfold last
    apply max_le he
    have : Int.log 2 |x| < 0 := by
      rw [abs_of_pos x0]
      have := (Int.lt_zpow_iff_log_lt (b := 2) (R := ℝ) (x := 0) (r := x) (by norm_num) x0).1 (by simp; linarith)
      exact this
    omega
  have h0 : (0 : ℝ) < 2 ^ F.last x := by positivity
  have h2 : (2 : ℝ) ^ F.last x ≤ F.u := zpow_le_zpow_right₀ (by norm_num) la
  have h3 := (isRound_pyRound (x / 2 ^ F.last x)).1
  have h4 := (abs_le.1 h3).1
  have h5 : (pyRound (x / 2 ^ F.last x) : ℝ) ≤ x / 2 ^ F.last x + 1 / 2 := by linarith
  unfold rnd
  calc (2 : ℝ) ^ F.last x * pyRound (x / 2 ^ F.last x) ≤ 2 ^ F.last x * (x / 2 ^ F.last x + 1 / 2) := by gcongr
    _ = x + 2 ^ F.last x / 2 := by field_simp
    _ ≤ x + F.u / 2 := by linarith

/-- One coordinate of a linear animation. -/
theorem linear_coord (h1 : F.HasOne) (he : F.emin ≤ -(F.p : ℤ)) {o g t M : ℝ} (ho : |o| ≤ M) (hg : |g| ≤ M) (hM : M ≤ F.maxf) (ht : F.IsFl t) (t0 : 0 ≤ t) (t1 : t ≤ 1) :
    ∃ r, F.add (F.mul (F.sub (fin 1) (fin t)) (fin o)) (F.mul (fin t) (fin g)) = fin r ∧ F.IsFl r ∧
      |r - ((1 - t) * o + t * g)| ≤ (1 + F.u) ^ 3 * ((1 + F.eta / 2) * M + 3 * F.eta / 2) - M := by
  have hu := F.upos
  have hη := F.eta_pos'
  have us := rnd_unit h1 (x := 1 - t) ⟨by linarith, by linarith⟩
  have fs : F.IsFl (F.rnd (1 - t)) := fl_rnd _ (by rw [abs_of_nonneg us.1]; linarith [three_le_maxf h1])
  have b1 := mul_maxf_abs h1.2 fs us.1 (ho.trans hM)
  have b2 := mul_maxf_abs h1.2 ht t0 (hg.trans hM)
  have mp := F.maxf_pos
  have p1 : |F.rnd (1 - t) * o| ≤ F.maxf := by
    rw [abs_mul, abs_of_nonneg us.1]
    calc _ ≤ 1 * F.maxf := mul_le_mul us.2 (ho.trans hM) (abs_nonneg _) zero_le_one
      _ = _ := one_mul _
  have p2 : |t * g| ≤ F.maxf := by
    rw [abs_mul, abs_of_nonneg t0]
    calc _ ≤ 1 * F.maxf := mul_le_mul t1 (hg.trans hM) (abs_nonneg _) zero_le_one
      _ = _ := one_mul _
  have sum : |F.rnd (F.rnd (1 - t) * o) + F.rnd (t * g)| < F.limit := by
    have h3 := one_sub h1 he t0 t1
    have h4 : |F.rnd (F.rnd (1 - t) * o) + F.rnd (t * g)| ≤ (1 + F.u / 2) * F.maxf := by
      refine (abs_add_le _ _).trans ?_
      nlinarith
    refine h4.trans_lt ?_
    unfold limit maxf u
    have e0 : (0 : ℝ) < 2 ^ F.emax := by positivity
    have P0 : (0 : ℝ) < 2 ^ F.p := by positivity
    rw [← mul_assoc]
    gcongr
    rw [zpow_neg, zpow_natCast]
    have : (2 : ℝ) ^ F.p * (2 ^ F.p)⁻¹ = 1 := mul_inv_cancel₀ P0.ne'
    have i0 : 0 < ((2 : ℝ) ^ F.p)⁻¹ := by positivity
    nlinarith
  have fin' := (F.rnd_in_iff _).2 sum
  refine ⟨F.rnd (F.rnd (F.rnd (1 - t) * o) + F.rnd (t * g)), ?_, fl_rnd _ fin', ?_⟩
  · rw [sub_fin, F.toF_in (unit_fin h1 ⟨by linarith, by linarith⟩), mul_fin, F.toF_in p1, mul_fin, F.toF_in p2, add_fin, F.toF_fin fin']
  · have M0 : 0 ≤ M := (abs_nonneg _).trans ho
    have ns : F.NearW 1 (F.rnd (1 - t)) (1 - t) (1 - t) (1 - t + F.eta / 2) :=
      (NearW.of_le (le_of_eq (abs_of_nonneg (by linarith)))).rnd
    have no : F.NearW 0 o o M M := .of_le ho
    have ng : F.NearW 0 g g M M := .of_le hg
    have nt : F.NearW 0 t t t t := .of_le (le_of_eq (abs_of_nonneg t0))
    have := ((ns.mul no).rnd.add (nt.mul ng).rnd).rnd
    exact (this.congr (T := M) (V := (1 + F.eta / 2) * M + 3 * F.eta / 2) (m := 3) rfl (by ring) (by omega) (le_of_eq (by ring))).2

/-- C105: a linear animation between finite points never overflows, however large they are: at every time from 0 to 1 the point is
finite, and three roundings, and a few times the smallest float, from where it should be. The times of the two coordinates may
differ. -/
theorem C105_linear_finite (h1 : F.HasOne) (he : F.emin ≤ -(F.p : ℤ)) (o g : Pt ℝ) (ho : F.FlPt o) (hg : F.FlPt g) (tx ty : ℝ)
    (fx : F.IsFl tx) (fy : F.IsFl ty) (hx : 0 ≤ tx ∧ tx ≤ 1) (hy : 0 ≤ ty ∧ ty ≤ 1) :
    ∃ P, F.animLinear (finPt o) (finPt g) (fin tx) (fin ty) = finPt P ∧ F.FlPt P ∧
      Within ((1 + F.u) ^ 3 * ((1 + F.eta / 2) * max |o.x| |g.x| + 3 * F.eta / 2) - max |o.x| |g.x|)
        ((1 + F.u) ^ 3 * ((1 + F.eta / 2) * max |o.y| |g.y| + 3 * F.eta / 2) - max |o.y| |g.y|)
        P ⟨(1 - tx) * o.x + tx * g.x, (1 - ty) * o.y + ty * g.y⟩ := by
  obtain ⟨x, ex, f1, wx⟩ := linear_coord h1 he (le_max_left |o.x| |g.x|) (le_max_right _ _)
    (max_le (F.fl_le_maxf ho.1) (F.fl_le_maxf hg.1)) fx hx.1 hx.2
  obtain ⟨y, ey, f2, wy⟩ := linear_coord h1 he (le_max_left |o.y| |g.y|) (le_max_right _ _)
    (max_le (F.fl_le_maxf ho.2) (F.fl_le_maxf hg.2)) fy hy.1 hy.2
  refine ⟨⟨x, y⟩, ?_, ⟨f1, f2⟩, wx, wy⟩
  simp only [animLinear, finPt]
  rw [ex, ey]

/-- C105: with an infinite target the animation is not at its start at time 0 but at NaN. -/
theorem C105_linear_counterexample (o : Pt ℝ) :
    F.animLinear (finPt o) ⟨.num ⊤, .num ⊥⟩ (fin 0) (fin 0) = ⟨.nan, .nan⟩ := by
  have n2 : F.mul (fin 0) (.num ⊤) = .nan := by simp [mul, fin]
  have n2' : F.mul (fin 0) (.num ⊥) = .nan := by simp [mul, fin]
  have n3 : ∀ a : N, F.add a .nan = .nan := fun a => by cases a <;> rfl
  simp only [animLinear, finPt, n2, n2', n3]

theorem lerp_zero {p q : ℝ} (hp : F.IsFl p) (h : |q - p| < F.limit) : F.add (fin p) (F.mul (F.sub (fin q) (fin p)) (fin 0)) = fin p := by
  rw [sub_fin, F.toF_fin ((F.rnd_in_iff _).2 h), mul_fin, mul_zero, F.toF_self fl_zero, add_fin, add_zero, F.toF_self hp]

/-- C105: a coordinate of a morphed control point — a centre's or a handle's — if the two shapes are less than the largest float apart
in it: at time 0 it is the original's, and at every time from 0 to a little below 1 it is between the original's and the target's. -/
theorem C105_morph (t : ℝ) (t0 : 0 ≤ t) (t1 : t * (1 + F.u) ^ 2 ≤ 1) (m : CP N) (o g : CP ℝ) (ho : F.FlCP o) (hg : F.FlCP g)
    (hc : |g.c.x - o.c.x| < F.limit ∧ |g.c.y - o.c.y| < F.limit) (hl : |g.dl.x - o.dl.x| < F.limit ∧ |g.dl.y - o.dl.y| < F.limit)
    (hr : |g.dr.x - o.dr.x| < F.limit ∧ |g.dr.y - o.dr.y| < F.limit) :
    F.mixCP (fin 0) m (finCP o) (finCP g) = ⟨finPt o.c, finV o.dl, finV o.dr, m.kind⟩ ∧
    ∃ r : CP ℝ, F.mixCP (fin t) m (finCP o) (finCP g) = finCP r ∧ F.FlCP r ∧ r.kind = m.kind ∧
      (r.c.x ∈ Set.uIcc o.c.x g.c.x ∧ r.c.y ∈ Set.uIcc o.c.y g.c.y) ∧ (r.dl.x ∈ Set.uIcc o.dl.x g.dl.x ∧ r.dl.y ∈ Set.uIcc o.dl.y g.dl.y) ∧
      (r.dr.x ∈ Set.uIcc o.dr.x g.dr.x ∧ r.dr.y ∈ Set.uIcc o.dr.y g.dr.y) := by
  constructor
  · simp only [mixCP, mixVec, lerp, addVec, smul, sub2, finCP, finPt, finV]
    rw [lerp_zero ho.1.1 hc.1, lerp_zero ho.1.2 hc.2, lerp_zero ho.2.1.1 hl.1, lerp_zero ho.2.1.2 hl.2, lerp_zero ho.2.2.1 hr.1,
      lerp_zero ho.2.2.2 hr.2]
  · obtain ⟨e1, f1, b1⟩ := lerp_coord ho.1.1 hg.1.1 t0 t1 hc.1
    obtain ⟨e2, f2, b2⟩ := lerp_coord ho.1.2 hg.1.2 t0 t1 hc.2
    obtain ⟨e3, f3, b3⟩ := lerp_coord ho.2.1.1 hg.2.1.1 t0 t1 hl.1
    obtain ⟨e4, f4, b4⟩ := lerp_coord ho.2.1.2 hg.2.1.2 t0 t1 hl.2
    obtain ⟨e5, f5, b5⟩ := lerp_coord ho.2.2.1 hg.2.2.1 t0 t1 hr.1
    obtain ⟨e6, f6, b6⟩ := lerp_coord ho.2.2.2 hg.2.2.2 t0 t1 hr.2
    refine ⟨⟨⟨_, _⟩, ⟨_, _⟩, ⟨_, _⟩, m.kind⟩, ?_, ⟨⟨f1, f2⟩, ⟨f3, f4⟩, f5, f6⟩, rfl, ⟨b1, b2⟩, ⟨b3, b4⟩, b5, b6⟩
    simp only [mixCP, mixVec, lerp, addVec, smul, sub2, finCP, finPt, finV]
    rw [e1, e2, e3, e4, e5, e6]
    rfl

/-- C105: and it is where it should be, up to three roundings and a few times the smallest float. -/
theorem C105_morph_near (t : ℝ) (t0 : 0 ≤ t) (t1 : t * (1 + F.u) ^ 2 ≤ 1) (m : CP N) (o g : CP ℝ) (ho : F.FlCP o) (hg : F.FlCP g)
    (hc : |g.c.x - o.c.x| < F.limit ∧ |g.c.y - o.c.y| < F.limit) (hl : |g.dl.x - o.dl.x| < F.limit ∧ |g.dl.y - o.dl.y| < F.limit)
    (hr : |g.dr.x - o.dr.x| < F.limit ∧ |g.dr.y - o.dr.y| < F.limit) :
    let tol := fun x y : ℝ => (1 + F.u) ^ 3 * ((1 + 2 * t) * (max |x| |y| + F.eta)) - (1 + 2 * t) * max |x| |y|
    ∃ r : CP ℝ, F.mixCP (fin t) m (finCP o) (finCP g) = finCP r ∧
      Within (tol o.c.x g.c.x) (tol o.c.y g.c.y) r.c ⟨o.c.x + t * (g.c.x - o.c.x), o.c.y + t * (g.c.y - o.c.y)⟩ ∧
      WithinVec (tol o.dl.x g.dl.x) (tol o.dl.y g.dl.y) r.dl ⟨o.dl.x + t * (g.dl.x - o.dl.x), o.dl.y + t * (g.dl.y - o.dl.y)⟩ ∧
      WithinVec (tol o.dr.x g.dr.x) (tol o.dr.y g.dr.y) r.dr ⟨o.dr.x + t * (g.dr.x - o.dr.x), o.dr.y + t * (g.dr.y - o.dr.y)⟩ := by
  intro tol
  have near : ∀ x y : ℝ, |F.lerpR t x y - (x + t * (y - x))| ≤ tol x y := by
    intro x y
    have := (lerp_near (F := F) (n := 0) t0 (NearW.of_le (le_max_left |x| |y|)) (NearW.of_le (le_max_right |x| |y|))).2
    rw [mul_comm t]
    exact this
  refine ⟨⟨⟨F.lerpR t o.c.x g.c.x, F.lerpR t o.c.y g.c.y⟩, ⟨F.lerpR t o.dl.x g.dl.x, F.lerpR t o.dl.y g.dl.y⟩,
    ⟨F.lerpR t o.dr.x g.dr.x, F.lerpR t o.dr.y g.dr.y⟩, m.kind⟩, ?_, ⟨near _ _, near _ _⟩, ⟨near _ _, near _ _⟩, near _ _, near _ _⟩
  simp only [mixCP, mixVec, lerp, addVec, smul, sub2, finCP, finPt, finV]
  rw [(lerp_coord ho.1.1 hg.1.1 t0 t1 hc.1).1, (lerp_coord ho.1.2 hg.1.2 t0 t1 hc.2).1, (lerp_coord ho.2.1.1 hg.2.1.1 t0 t1 hl.1).1,
    (lerp_coord ho.2.1.2 hg.2.1.2 t0 t1 hl.2).1, (lerp_coord ho.2.2.1 hg.2.2.1 t0 t1 hr.1).1, (lerp_coord ho.2.2.2 hg.2.2.2 t0 t1 hr.2).1]

theorem lerp_far {p q t : ℝ} (t0 : 0 ≤ t) (h : F.limit ≤ |q - p|) :
    F.add (fin p) (F.mul (F.sub (fin q) (fin p)) (fin t)) = if t = 0 then .nan else if p < q then .num ⊤ else .num ⊥ := by
  have lp : 0 < F.limit := F.maxf_pos.trans F.maxf_lt_limit
  rw [sub_fin]
  rcases le_abs.1 h with h' | h'
  · rw [F.toF_top h']
    split
    · rename_i e; subst e; simp [mul, fin, add]
    · rename_i e
      rw [if_pos (by linarith)]
      have tp : 0 < t := lt_of_le_of_ne t0 (Ne.symm e)
      have : F.mul (.num ⊤) (fin t) = .num ⊤ := by
        simp [mul, fin, e]
        exact EReal.top_mul_coe_of_pos tp
      rw [this]; simp [add, fin]
  · rw [F.toF_bot (by linarith)]
    split
    · rename_i e; subst e; simp [mul, fin, add]
    · rename_i e
      rw [if_neg (by linarith)]
      have tp : 0 < t := lt_of_le_of_ne t0 (Ne.symm e)
      have : F.mul (.num ⊥) (fin t) = .num ⊥ := by
        simp [mul, fin, e]
        exact EReal.bot_mul_coe_of_pos tp
      rw [this]; simp [add, fin]

/-- C105: where two shapes are further apart than the largest float, the coordinate of a morph is never finite: NaN at time 0, when the
original should be seen, and infinite later. -/
theorem C105_morph_far (t : ℝ) (t0 : 0 ≤ t) (m : CP N) (o g : CP ℝ) (h : F.limit ≤ |g.c.x - o.c.x|) :
    (F.mixCP (fin t) m (finCP o) (finCP g)).c.x = if t = 0 then .nan else if o.c.x < g.c.x then .num ⊤ else .num ⊥ :=
  lerp_far t0 h

/-- The hypothesis is met by shapes of finite floats. -/
example : ∃ o g : ℝ, F.IsFl o ∧ F.IsFl g ∧ F.limit ≤ |g - o| :=
  ⟨-F.maxf, F.maxf, F.fl_neg F.fl_maxf, F.fl_maxf, two_maxf.trans (le_abs_self _)⟩

/-! ### A curve of finite control points whose points are infinite -/

/-- A result of an operation with doubles, rounded to the nearest. -/
theorem dbl_near {x : ℝ} (m : ℤ) (e : ℤ) (h1 : 2 ^ 52 * 2 ^ e ≤ x) (h2 : x < 2 ^ 53 * 2 ^ e) (he : -1074 ≤ e ∧ e ≤ 971)
    (hm : 0 ≤ m ∧ m < 2 ^ 53) (hr : 2 * |x - m * 2 ^ e| < 2 ^ e ∨ 2 * |x - m * 2 ^ e| = 2 ^ e ∧ Even m) :
    double.toF x = fin (m * 2 ^ e) := by
  have h0 : (0 : ℝ) < 2 ^ e := by positivity
  have x0 : 0 < x := lt_of_lt_of_le (by positivity) h1
  have lg : Int.log 2 |x| = 52 + e := by
    apply log_eq
    · rw [abs_of_pos x0, zpow_add₀ (by norm_num)]; exact_mod_cast h1
    · rw [abs_of_pos x0, show (52 : ℤ) + e + 1 = 53 + e by ring, zpow_add₀ (by norm_num)]; exact_mod_cast h2
  have la : double.last x = e := by
    unfold last
    rw [lg]
    simp only [double]
    omega
  have er : |x / 2 ^ e - m| = |x - m * 2 ^ e| / 2 ^ e := by
    rw [show x / 2 ^ e - m = (x - m * 2 ^ e) / 2 ^ e by field_simp, abs_div, abs_of_pos h0]
  have r : pyRound (x / 2 ^ e) = m := by
    symm
    rw [← isRound_iff]
    unfold IsRound
    rw [er, div_le_iff₀ h0, div_eq_iff h0.ne']
    rcases hr with hr | ⟨hr, hev⟩
    · exact ⟨by linarith, fun h => by linarith⟩
    · exact ⟨by linarith, fun _ => hev⟩
  have rv : double.rnd x = m * 2 ^ e := by unfold rnd; rw [la, r, mul_comm]
  have fl : double.IsFl (m * 2 ^ e) := ⟨m, e, by rw [abs_of_nonneg hm.1]; exact hm.2, he.1, he.2, rfl⟩
  rw [double.toF_fin (by rw [rv]; exact double.fl_le_maxf fl), rv]

set_option exponentiation.threshold 2000 in
theorem third : double.toF (((1 : ℕ) : ℝ) / (3 : ℕ)) = fin (6004799503160661 * 2 ^ (-54 : ℤ)) := by
  have := dbl_near (x := ((1 : ℕ) : ℝ) / (3 : ℕ)) 6004799503160661 (-54) (by norm_num) (by norm_num) (by norm_num) (by norm_num)
    (.inl (by norm_num [abs_of_nonneg, abs_of_nonpos]))
  exact_mod_cast this

set_option exponentiation.threshold 2000 in
set_option maxHeartbeats 1000000 in
theorem over_coord : (double.bezAt ⟨fin double.maxf, fin 0⟩ ⟨fin double.maxf, fin 0⟩ ⟨fin double.maxf, fin 0⟩ ⟨fin double.maxf, fin 0⟩
    (double.toF (((1 : ℕ) : ℝ) / (3 : ℕ)))).x = .num ⊤ := by
  rw [third]
  have M : double.maxf = 9007199254740991 * 2 ^ 971 := by norm_num [maxf, double]
  have ht2 : double.toF (((6004799503160661 : ℝ) * 2 ^ (-54 : ℤ)) * ((6004799503160661 : ℝ) * 2 ^ (-54 : ℤ))) = fin ((8006399337547548 : ℝ) * 2 ^ (-56 : ℤ)) := by
    have := dbl_near (x := ((6004799503160661 : ℝ) * 2 ^ (-54 : ℤ)) * ((6004799503160661 : ℝ) * 2 ^ (-54 : ℤ))) 8006399337547548 (-56) (by norm_num) (by norm_num) (by norm_num) (by norm_num)
      (.inl (by rw [abs_of_nonpos (by norm_num)]; norm_num))
    exact_mod_cast this
  have ht3 : double.toF (((6004799503160661 : ℝ) * 2 ^ (-54 : ℤ)) * ((8006399337547548 : ℝ) * 2 ^ (-56 : ℤ))) = fin ((5337599558365032 : ℝ) * 2 ^ (-57 : ℤ)) := by
    have := dbl_near (x := ((6004799503160661 : ℝ) * 2 ^ (-54 : ℤ)) * ((8006399337547548 : ℝ) * 2 ^ (-56 : ℤ))) 5337599558365032 (-57) (by norm_num) (by norm_num) (by norm_num) (by norm_num)
      (.inl (by rw [abs_of_nonpos (by norm_num)]; norm_num))
    exact_mod_cast this
  have hs : double.toF (1 - ((6004799503160661 : ℝ) * 2 ^ (-54 : ℤ))) = fin ((6004799503160662 : ℝ) * 2 ^ (-53 : ℤ)) := by
    have := dbl_near (x := 1 - ((6004799503160661 : ℝ) * 2 ^ (-54 : ℤ))) 6004799503160662 (-53) (by norm_num) (by norm_num) (by norm_num) (by norm_num)
      (.inr ⟨by rw [abs_of_nonpos (by norm_num)]; norm_num, by decide⟩)
    exact_mod_cast this
  have hs2 : double.toF (((6004799503160662 : ℝ) * 2 ^ (-53 : ℤ)) * ((6004799503160662 : ℝ) * 2 ^ (-53 : ℤ))) = fin ((8006399337547550 : ℝ) * 2 ^ (-54 : ℤ)) := by
    have := dbl_near (x := ((6004799503160662 : ℝ) * 2 ^ (-53 : ℤ)) * ((6004799503160662 : ℝ) * 2 ^ (-53 : ℤ))) 8006399337547550 (-54) (by norm_num) (by norm_num) (by norm_num) (by norm_num)
      (.inl (by rw [abs_of_nonneg (by norm_num)]; norm_num))
    exact_mod_cast this
  have hs3 : double.toF (((6004799503160662 : ℝ) * 2 ^ (-53 : ℤ)) * ((8006399337547550 : ℝ) * 2 ^ (-54 : ℤ))) = fin ((5337599558365034 : ℝ) * 2 ^ (-54 : ℤ)) := by
    have := dbl_near (x := ((6004799503160662 : ℝ) * 2 ^ (-53 : ℤ)) * ((8006399337547550 : ℝ) * 2 ^ (-54 : ℤ))) 5337599558365034 (-54) (by norm_num) (by norm_num) (by norm_num) (by norm_num)
      (.inl (by rw [abs_of_nonpos (by norm_num)]; norm_num))
    exact_mod_cast this
  have hs2t : double.toF (((8006399337547550 : ℝ) * 2 ^ (-54 : ℤ)) * ((6004799503160661 : ℝ) * 2 ^ (-54 : ℤ))) = fin ((5337599558365033 : ℝ) * 2 ^ (-55 : ℤ)) := by
    have := dbl_near (x := ((8006399337547550 : ℝ) * 2 ^ (-54 : ℤ)) * ((6004799503160661 : ℝ) * 2 ^ (-54 : ℤ))) 5337599558365033 (-55) (by norm_num) (by norm_num) (by norm_num) (by norm_num)
      (.inl (by rw [abs_of_nonneg (by norm_num)]; norm_num))
    exact_mod_cast this
  have hst2 : double.toF (((6004799503160662 : ℝ) * 2 ^ (-53 : ℤ)) * ((8006399337547548 : ℝ) * 2 ^ (-56 : ℤ))) = fin ((5337599558365033 : ℝ) * 2 ^ (-56 : ℤ)) := by
    have := dbl_near (x := ((6004799503160662 : ℝ) * 2 ^ (-53 : ℤ)) * ((8006399337547548 : ℝ) * 2 ^ (-56 : ℤ))) 5337599558365033 (-56) (by norm_num) (by norm_num) (by norm_num) (by norm_num)
      (.inl (by rw [abs_of_nonpos (by norm_num)]; norm_num))
    exact_mod_cast this
  have hb3 : double.toF (3 * ((5337599558365033 : ℝ) * 2 ^ (-55 : ℤ))) = fin ((8006399337547550 : ℝ) * 2 ^ (-54 : ℤ)) := by
    have := dbl_near (x := 3 * ((5337599558365033 : ℝ) * 2 ^ (-55 : ℤ))) 8006399337547550 (-54) (by norm_num) (by norm_num) (by norm_num) (by norm_num)
      (.inr ⟨by rw [abs_of_nonpos (by norm_num)]; norm_num, by decide⟩)
    exact_mod_cast this
  have hc3 : double.toF (3 * ((5337599558365033 : ℝ) * 2 ^ (-56 : ℤ))) = fin ((8006399337547550 : ℝ) * 2 ^ (-55 : ℤ)) := by
    have := dbl_near (x := 3 * ((5337599558365033 : ℝ) * 2 ^ (-56 : ℤ))) 8006399337547550 (-55) (by norm_num) (by norm_num) (by norm_num) (by norm_num)
      (.inr ⟨by rw [abs_of_nonpos (by norm_num)]; norm_num, by decide⟩)
    exact_mod_cast this
  have ha : double.toF (((5337599558365034 : ℝ) * 2 ^ (-54 : ℤ)) * double.maxf) = fin ((5337599558365033 : ℝ) * 2 ^ (970 : ℤ)) := by
    have := dbl_near (x := ((5337599558365034 : ℝ) * 2 ^ (-54 : ℤ)) * double.maxf) 5337599558365033 (970) (by norm_num [M]) (by norm_num [M]) (by norm_num) (by norm_num)
      (.inl (by rw [abs_of_nonneg (by norm_num [M])]; norm_num [M]))
    exact_mod_cast this
  have hb : double.toF (((8006399337547550 : ℝ) * 2 ^ (-54 : ℤ)) * double.maxf) = fin ((8006399337547549 : ℝ) * 2 ^ (970 : ℤ)) := by
    have := dbl_near (x := ((8006399337547550 : ℝ) * 2 ^ (-54 : ℤ)) * double.maxf) 8006399337547549 (970) (by norm_num [M]) (by norm_num [M]) (by norm_num) (by norm_num)
      (.inl (by rw [abs_of_nonneg (by norm_num [M])]; norm_num [M]))
    exact_mod_cast this
  have hc : double.toF (((8006399337547550 : ℝ) * 2 ^ (-55 : ℤ)) * double.maxf) = fin ((8006399337547549 : ℝ) * 2 ^ (969 : ℤ)) := by
    have := dbl_near (x := ((8006399337547550 : ℝ) * 2 ^ (-55 : ℤ)) * double.maxf) 8006399337547549 (969) (by norm_num [M]) (by norm_num [M]) (by norm_num) (by norm_num)
      (.inl (by rw [abs_of_nonneg (by norm_num [M])]; norm_num [M]))
    exact_mod_cast this
  have hd : double.toF (((5337599558365032 : ℝ) * 2 ^ (-57 : ℤ)) * double.maxf) = fin ((5337599558365031 : ℝ) * 2 ^ (967 : ℤ)) := by
    have := dbl_near (x := ((5337599558365032 : ℝ) * 2 ^ (-57 : ℤ)) * double.maxf) 5337599558365031 (967) (by norm_num [M]) (by norm_num [M]) (by norm_num) (by norm_num)
      (.inl (by rw [abs_of_nonneg (by norm_num [M])]; norm_num [M]))
    exact_mod_cast this
  have hab : double.toF (((5337599558365033 : ℝ) * 2 ^ (970 : ℤ)) + ((8006399337547549 : ℝ) * 2 ^ (970 : ℤ))) = fin ((6671999447956291 : ℝ) * 2 ^ (971 : ℤ)) := by
    have := dbl_near (x := ((5337599558365033 : ℝ) * 2 ^ (970 : ℤ)) + ((8006399337547549 : ℝ) * 2 ^ (970 : ℤ))) 6671999447956291 (971) (by norm_num) (by norm_num) (by norm_num) (by norm_num)
      (.inl (by rw [abs_of_nonneg (by norm_num)]; norm_num))
    exact_mod_cast this
  have habc : double.toF (((6671999447956291 : ℝ) * 2 ^ (971 : ℤ)) + ((8006399337547549 : ℝ) * 2 ^ (969 : ℤ))) = fin ((8673599282343178 : ℝ) * 2 ^ (971 : ℤ)) := by
    have := dbl_near (x := ((6671999447956291 : ℝ) * 2 ^ (971 : ℤ)) + ((8006399337547549 : ℝ) * 2 ^ (969 : ℤ))) 8673599282343178 (971) (by norm_num) (by norm_num) (by norm_num) (by norm_num)
      (.inl (by rw [abs_of_nonneg (by norm_num)]; norm_num))
    exact_mod_cast this
  have fin_ov : double.limit ≤ 8673599282343178 * 2 ^ (971 : ℤ) + 5337599558365031 * 2 ^ (967 : ℤ) := by norm_num [limit, double]
  simp only [bezAt, bezSum, mul_fin, sub_fin, ht2, ht3, hs, hs2, hs3, hs2t, hst2, hb3, hc3, ha, hb, hc, hd, hab, habc, add_fin]
  rw [double.toF_top fin_ov]

/-- C105: without a bound below the largest float `C105_samples` is wrong, with Python's floats: a curve whose two control points are the
same point, with the largest float as coordinate, has a finite box, but its path visits infinity. -/
theorem C105_overflow_counterexample : ∃ cps : List (CP ℝ), (∀ cp ∈ cps, double.FlCP cp) ∧
    double.curveBBox (cps.map finCP) = .ok (finBox (.box double.maxf 0 double.maxf 0)) ∧
    ∃ P, pairAt (double.bezPath id (cps.map finCP) false 3) 1 = some P ∧ P.x = .num ⊤ := by
  have f0 : double.IsFl 0 := fl_zero
  have fm := double.fl_maxf
  obtain ⟨cp, hcp⟩ : ∃ cp : CP ℝ, cp = ⟨⟨double.maxf, 0⟩, ⟨0, 0⟩, ⟨0, 0⟩, "sharp"⟩ := ⟨_, rfl⟩
  have e0 : double.add (fin 0) (fin 0) = fin 0 := by rw [add_fin, add_zero, double.toF_self f0]
  have e1 : double.add (fin double.maxf) (fin 0) = fin double.maxf := by rw [add_fin, add_zero, double.toF_self fm]
  have el : double.cpL (finCP cp) = ⟨fin double.maxf, fin 0⟩ := by
    subst hcp; simp only [cpL, addVec, finCP, finPt, finV]; rw [e0, e1]
  have er : double.cpR (finCP cp) = ⟨fin double.maxf, fin 0⟩ := by
    subst hcp; simp only [cpR, addVec, finCP, finPt, finV]; rw [e0, e1]
  have ec : (finCP cp).c = ⟨fin double.maxf, fin 0⟩ := by subst hcp; rfl
  refine ⟨[cp, cp], ?_, ?_, ?_⟩
  · have : double.FlCP cp := by subst hcp; exact ⟨⟨fm, f0⟩, ⟨f0, f0⟩, f0, f0⟩
    intro c hc
    simp only [List.mem_cons, List.not_mem_nil, or_false, or_self] at hc
    rwa [hc]
  · simp only [List.map_cons, List.map_nil, curveBBox, List.foldl_cons, List.foldl_nil]
    unfold cpBBox
    rw [el, er, ec]
    simp [NB.ofPts, NB.mk', NB.grow, NB.add, pmin_fin, pmax_fin, finBox]
  · have h := path_get (F := double) id [finCP cp, finCP cp] false 3 (by norm_num) 0 1 (by norm_num) (finCP cp, finCP cp) rfl
    refine ⟨_, h, ?_⟩
    have : double.sampleN 3 (double.segN id (finCP cp, finCP cp)) 1 =
        double.bezAt ⟨fin double.maxf, fin 0⟩ ⟨fin double.maxf, fin 0⟩ ⟨fin double.maxf, fin 0⟩ ⟨fin double.maxf, fin 0⟩
          (double.toF (((1 : ℕ) : ℝ) / (3 : ℕ))) := by
      simp only [sampleN, segN, id]
      rw [if_neg (by norm_num), if_neg (by norm_num), el, er, ec]
    rw [this]
    exact over_coord

set_option exponentiation.threshold 2000 in
/-- C105: with Python's floats the bounds of `C105_samples` and `C105_path` are met by all numbers up to `1 - 2⁻⁴⁹` times the largest
float. -/
theorem C105_double (n : ℕ) (hn : n ≤ 4) (V : ℝ) (h0 : 0 ≤ V) (hV : V ≤ (1 - 2 ^ (-49 : ℤ)) * double.maxf) : double.curveTop n V ≤ double.maxf := by
  have hu : double.u = 2 ^ (-53 : ℤ) := rfl
  have he : double.eta = 2 ^ (-1074 : ℤ) := rfl
  have eb : double.eta ≤ 2 ^ (-100 : ℤ) := by rw [he]; exact zpow_le_zpow_right₀ (by norm_num) (by norm_num)
  have e0 := double.eta_pos'
  have mb : (2 : ℝ) ≤ double.maxf := by linarith [three_le_maxf (F := double) ⟨by simp [double], by simp [double]⟩]
  have p1 : (1 + double.u) ^ (n + 9) ≤ (1 + double.u) ^ 13 := pow_le_pow_right₀ double.one_le_u (by omega)
  have p2 : (1 + double.u) ^ 13 ≤ 1 + 14 * 2 ^ (-53 : ℤ) := by rw [hu]; norm_num
  have a1 : (1 + 11 * double.eta) * V + 4 * double.eta ≤ (1 + 2 ^ (-90 : ℤ)) * V + 2 ^ (-90 : ℤ) := by
    have : 11 * double.eta ≤ 2 ^ (-90 : ℤ) := by
      have : (11 : ℝ) * 2 ^ (-100 : ℤ) ≤ 2 ^ (-90 : ℤ) := by norm_num
      linarith
    have h4 : 4 * double.eta ≤ 2 ^ (-90 : ℤ) := by linarith
    have := mul_le_mul_of_nonneg_right this h0
    linarith
  have a0 : 0 ≤ (1 + 11 * double.eta) * V + 4 * double.eta := add_nonneg (mul_nonneg (by linarith) h0) (by linarith)
  unfold curveTop
  calc _ ≤ (1 + 14 * 2 ^ (-53 : ℤ)) * ((1 + 2 ^ (-90 : ℤ)) * V + 2 ^ (-90 : ℤ)) :=
        mul_le_mul (p1.trans p2) a1 a0 (by positivity)
    _ ≤ (1 + 14 * 2 ^ (-53 : ℤ)) * ((1 + 2 ^ (-90 : ℤ)) * ((1 - 2 ^ (-49 : ℤ)) * double.maxf) + 2 ^ (-90 : ℤ)) := by gcongr
    _ ≤ double.maxf := by
      generalize double.maxf = m at mb
      have m1 : (1 : ℝ) ≤ m := le_trans (by norm_num) mb
      norm_num
      linarith

/-- One is a Python float, and the smallest one is small enough for `C105_linear_finite`. -/
theorem C105_double_ok : double.HasOne ∧ double.emin ≤ -(double.p : ℤ) := by
  refine ⟨⟨?_, ?_⟩, ?_⟩ <;> simp [double]

set_option exponentiation.threshold 2000 in
/-- The hypotheses of `C105_samples` are met by a curve of doubles with coordinates up to 2 ^ 1023. -/
example : ∃ a b c d : Pt ℝ, (∀ p ∈ [a, b, c, d], double.FlPt p ∧ |p.x| ≤ 2 ^ 1023 ∧ |p.y| ≤ 2 ^ 1023) ∧ a.x = 2 ^ 1023 ∧
    double.curveTop 0 (2 ^ 1023) ≤ double.maxf := by
  have f0 : double.IsFl 0 := fl_zero
  have f1 : double.IsFl (2 ^ 1023) := ⟨2 ^ 52, 971, by simp [double], by simp [double], by simp [double], by norm_num⟩
  refine ⟨⟨2 ^ 1023, 0⟩, ⟨0, 0⟩, ⟨0, 2 ^ 1023⟩, ⟨0, 0⟩, ?_, rfl, C105_double 0 (by norm_num) _ (by norm_num) ?_⟩
  · simp only [List.forall_mem_cons, List.not_mem_nil, IsEmpty.forall_iff, implies_true, and_true]
    have p0 : (0 : ℝ) ≤ 2 ^ 1023 := by positivity
    have a1 : |(2 : ℝ) ^ 1023| ≤ 2 ^ 1023 := (abs_of_nonneg p0).le
    have a0 : |(0 : ℝ)| ≤ 2 ^ 1023 := by rw [abs_zero]; exact p0
    exact ⟨⟨⟨f1, f0⟩, a1, a0⟩, ⟨⟨f0, f0⟩, a0, a0⟩, ⟨⟨f0, f1⟩, a0, a1⟩, ⟨f0, f0⟩, a0, a0⟩
  · norm_num [maxf, double]

set_option exponentiation.threshold 2000 in
/-- Those of `C105_path` by two control points with handles, under a rotation by a right angle with a shift. -/
example : ∃ (m : Mat3 ℝ) (p q : CP ℝ), p.Bounded 100 100 ∧ q.Bounded 100 100 ∧ p.dr.x ≠ 0 ∧ (100 : ℝ) ≤ double.maxf ∧
    double.curveTop 4 (double.rowTop m.a m.b m.c 100 100) ≤ double.maxf ∧ double.curveTop 4 (double.rowTop m.d m.e m.f 100 100) ≤ double.maxf ∧
    (neighbours true [p, q])[1]? = some (q, p) := by
  have e0 := double.eta_pos'
  have he := eta_le_one C105_double_ok.1
  have big : (1000 : ℝ) ≤ (1 - 2 ^ (-49 : ℤ)) * double.maxf := by norm_num [maxf, double]
  refine ⟨⟨0, -1, 5, 1, 0, 7, 0, 0, 1⟩, ⟨⟨1, 2⟩, ⟨-3, 0⟩, ⟨3, 0⟩, "smooth"⟩, ⟨⟨50, 20⟩, ⟨-3, 1⟩, ⟨3, -1⟩, "smooth"⟩,
    by norm_num [CP.Bounded], by norm_num [CP.Bounded], by norm_num, by norm_num [maxf, double], ?_, ?_, rfl⟩
  · refine C105_double 4 le_rfl _ (by unfold rowTop; positivity) (le_trans ?_ big)
    norm_num [rowTop]; linarith
  · refine C105_double 4 le_rfl _ (by unfold rowTop; positivity) (le_trans ?_ big)
    norm_num [rowTop]; linarith

/-- Those of `C105_split_inside` by two control points with handles, split in the middle. -/
example : ∃ (cp1 cp2 : CP ℝ) (b c : Pt ℝ), double.cpR (finCP cp1) = finPt b ∧ double.cpL (finCP cp2) = finPt c ∧ double.FlCP cp1 ∧
    double.FlCP cp2 ∧ (1 / 2 : ℝ) * (1 + double.u) ^ 2 ≤ 1 ∧ (8 : ℝ) - 0 < double.limit ∧
    (∀ p ∈ [cp1.c, b, c, cp2.c], p ∈ (BBox.box (0 : ℝ) 0 8 8).Region) ∧ b ≠ cp1.c := by
  have fl : ∀ n : ℤ, |n| < 9 → double.IsFl n := fun n hn => ⟨n, 0, by simp only [double]; omega, by simp [double], by simp [double], by simp⟩
  have f0 : double.IsFl 0 := by exact_mod_cast fl 0 (by norm_num)
  have f3 : double.IsFl 3 := by exact_mod_cast fl 3 (by norm_num)
  have f4 : double.IsFl 4 := by exact_mod_cast fl 4 (by norm_num)
  have f8 : double.IsFl 8 := by exact_mod_cast fl 8 (by norm_num)
  have fm4 : double.IsFl (-4) := double.fl_neg f4
  refine ⟨⟨⟨0, 0⟩, ⟨0, 0⟩, ⟨3, 8⟩, "smooth"⟩, ⟨⟨8, 0⟩, ⟨-4, 4⟩, ⟨0, 0⟩, "smooth"⟩, ⟨3, 8⟩, ⟨4, 4⟩, ?_, ?_,
    ⟨⟨f0, f0⟩, ⟨f0, f0⟩, f3, f8⟩, ⟨⟨f8, f0⟩, ⟨fm4, f4⟩, f0, f0⟩, ?_, ?_, ?_, by simp⟩
  · simp only [cpR, addVec, finCP, finPt, finV, add_fin, zero_add]; rw [double.toF_self f3, double.toF_self f8]
  · simp only [cpL, addVec, finCP, finPt, finV, add_fin, zero_add]
    norm_num
    rw [double.toF_self f4]
  · have : double.u = 2 ^ (-53 : ℤ) := rfl
    rw [this]; norm_num
  · refine lt_of_lt_of_le ?_ double.maxf_lt_limit.le
    have h1 : (1 : ℝ) ≤ 2 ^ (971 : ℤ) := one_le_zpow₀ (by norm_num) (by norm_num)
    simp only [maxf, double]
    generalize (2 : ℝ) ^ (971 : ℤ) = w at h1
    norm_num
    linarith
  · simp [BBox.Region]; norm_num

end X7.Fmt
