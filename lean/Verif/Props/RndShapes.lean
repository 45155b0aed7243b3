import Verif.Lemmas.RndShapes
import Verif.Props.Shapes

/-!
C99: ellipses, rounded rectangles and `scale_bbox` under rounding. `R` is any rounding with the properties of `Rnd`.
-/

namespace X7
open Rnd
variable (R : Rnd)

/-- C99: without rounding the rounded versions are the exact models that the other properties are about. -/
theorem C99_exact_shapes :
    (∀ c rx ry, Fl.makeEllipseCps .exact bez90 c rx ry = makeEllipseCps c rx ry) ∧
    (∀ p1 p2, Fl.makeEllipseP1P2 .exact bez90 p1 p2 = makeEllipseP1P2 p1 p2) ∧
    (∀ p1 p2 radius, Fl.makeRoundedRect .exact hypot bez90 p1 p2 radius = makeRoundedRect p1 p2 radius) ∧
    (∀ mode start target m, Fl.scaleBBox .exact mode start target = .ok m →
      TState.new.scaleBBox start target false = ⟨⟨m, none, []⟩, none⟩) := by
  refine ⟨fun _ _ _ => rfl, fun _ _ => rfl, fun p1 p2 radius => ?_, fun mode start target m h => ?_⟩
  · have hc : ∀ a b c, Fl.roundedCorner .exact hypot bez90 radius a b c = roundedCorner radius a b c := by
      intro a b c
      have hs : ∀ len nr, cornerScale len nr = .ok (Fl.cornerScale .exact len nr) := by
        intro len nr
        unfold cornerScale Fl.cornerScale pyDiv
        by_cases h : nr = 0
        · simp [h]
        · simp [h, Rnd.exact]
      unfold roundedCorner
      simp only [hs]
      rfl
    unfold Fl.makeRoundedRect makeRoundedRect
    simp only [hc]
  · have key : ∀ m n, Fl.mul .exact mode m n = m.mul n := by
      intro m n
      cases mode <;> simp [Fl.mul, Fl.dot3, Mat3.mul, Rnd.exact, add_assoc]
    unfold Fl.scaleBBox at h
    unfold TState.scaleBBox
    cases start with
    | none => cases h
    | box xl yl xh yh =>
      have hw : Fl.width .exact (.box xl yl xh yh) = (BBox.box xl yl xh yh).width := rfl
      have hh : Fl.height .exact (.box xl yl xh yh) = (BBox.box xl yl xh yh).height := rfl
      simp only [hw, hh] at h
      simp only [Bool.false_eq_true, if_false]
      split_ifs at h ⊢ with h0
      cases target with
      | none => cases h
      | box txl tyl txh tyh =>
        simp only [Except.ok.injEq] at h
        subst h
        simp only [Fl.history, List.foldl_cons, List.foldl_nil, if_true, key]
        rfl

/-! ### Rounded rectangles -/

theorem Fl.cornerScale_bounds (hu : R.u ≤ 1 / 32) (b90 len nr : ℝ) (hb0 : 0 ≤ b90) (hb1 : b90 ≤ 4 / 5) (h0 : 0 ≤ nr) (h1 : nr ≤ len)
    (hn : R.Rep nr) :
    0 ≤ R.fl (nr * b90) ∧ R.fl (nr * b90) ≤ nr ∧ 0 ≤ R.fl (R.fl (nr * b90) * Fl.cornerScale R len nr) ∧
      nr + R.fl (R.fl (nr * b90) * Fl.cornerScale R len nr) ≤ len := by
  have u0 := R.u_nonneg
  have g0 : 0 ≤ R.fl (nr * b90) := R.fl_nonneg (by positivity)
  have g1 : R.fl (nr * b90) ≤ nr := R.fl_le_of_rep (by nlinarith) hn
  refine ⟨g0, g1, ?_⟩
  unfold Fl.cornerScale
  split_ifs with hz
  · have hp : 0 < nr := lt_of_le_of_ne h0 (Ne.symm hz)
    have l0 : 0 ≤ R.fl (len - nr) := R.fl_nonneg (by linarith)
    set m := min (R.fl (len - nr)) nr with hm
    have m0 : 0 ≤ m := le_min l0 h0
    have m1 : m ≤ (1 + R.u) * (len - nr) := (min_le_left _ _).trans (R.fl_le (by linarith))
    have q0 : 0 ≤ m / nr := by positivity
    have s0 := R.fl_nonneg q0
    have s1 := R.fl_le q0
    have f0 : 0 ≤ R.fl (nr * b90) * R.fl (m / nr) := mul_nonneg g0 s0
    refine ⟨R.fl_nonneg f0, ?_⟩
    have f1 := R.fl_le f0
    have b1 := R.fl_le (x := nr * b90) (by positivity)
    have p1 : R.fl (nr * b90) * R.fl (m / nr) ≤ ((1 + R.u) * (nr * b90)) * ((1 + R.u) * (m / nr)) :=
      mul_le_mul b1 s1 s0 (by positivity)
    have p2 : ((1 + R.u) * (nr * b90)) * ((1 + R.u) * (m / nr)) = (1 + R.u) ^ 2 * b90 * m := by
      field_simp
    rw [p2] at p1
    have p3 : (1 + R.u) * (R.fl (nr * b90) * R.fl (m / nr)) ≤ (1 + R.u) ^ 4 * b90 * (len - nr) := by
      calc (1 + R.u) * (R.fl (nr * b90) * R.fl (m / nr)) ≤ (1 + R.u) * ((1 + R.u) ^ 2 * b90 * m) := by gcongr
        _ ≤ (1 + R.u) * ((1 + R.u) ^ 2 * b90 * ((1 + R.u) * (len - nr))) := by gcongr
        _ = _ := by ring
    have p4 : (1 + R.u) ^ 4 * b90 ≤ 1 := by
      calc (1 + R.u) ^ 4 * b90 ≤ (1 + 1 / 32) ^ 4 * (4 / 5) := by gcongr
        _ ≤ 1 := by norm_num
    have p5 : (1 + R.u) ^ 4 * b90 * (len - nr) ≤ 1 * (len - nr) := mul_le_mul_of_nonneg_right p4 (by linarith)
    linarith
  · rw [mul_zero, R.fl_zero]
    exact ⟨le_rfl, by linarith⟩

/-- A point on the way from `b` to `a`. -/
theorem way_mem {a b t : ℝ} (h0 : 0 ≤ t) (h1 : t ≤ |a - b|) : min a b ≤ b + sgn a b * t ∧ b + sgn a b * t ≤ max a b := by
  rcases sgn_cases a b with ⟨h, e⟩ | ⟨h, e⟩ | ⟨h, e⟩ <;> rw [e]
  · rw [abs_of_pos (by linarith)] at h1
    rw [min_eq_right h.le, max_eq_left h.le]
    constructor <;> linarith
  · rw [abs_of_neg (by linarith)] at h1
    rw [min_eq_left h.le, max_eq_right h.le]
    constructor <;> linarith
  · subst h; simp

/-- The centre stays between the corners, and the ends of the handles do so up to three roundings. -/
theorem Fl.side_bounds (hu : R.u ≤ 1 / 32) (b90 a b nr : ℝ) (hb0 : 0 ≤ b90) (hb1 : b90 ≤ 4 / 5) (ha : R.Rep a) (hb : R.Rep b)
    (hn : R.Rep nr) (h0 : 0 ≤ nr) (h1 : nr ≤ halfSide R a b) :
    (min a b ≤ sideC R a b nr ∧ sideC R a b nr ≤ max a b) ∧
    (∃ q, (min a b ≤ q ∧ q ≤ max a b) ∧ |R.fl (sideC R a b nr + sideOut R b90 a b nr) - q| ≤ 3 * R.u * max |a| |b|) ∧
    (∃ q, (min a b ≤ q ∧ q ≤ max a b) ∧ |R.fl (sideC R a b nr + sideIn R b90 a b nr) - q| ≤ 3 * R.u * max |a| |b|) := by
  have u0 := R.u_nonneg
  obtain ⟨g0, g1, g2, g3⟩ := Fl.cornerScale_bounds R hu b90 (halfSide R a b) nr hb0 hb1 h0 h1 hn
  have hD := halfSide_le (R := R) a b
  have M0 : 0 ≤ max |a| |b| := (abs_nonneg a).trans (le_max_left _ _)
  have size : ∀ q, min a b ≤ q → q ≤ max a b → |q| ≤ max |a| |b| := by
    intro q q1 q2
    have := le_abs_self a
    have := neg_abs_le a
    have := le_abs_self b
    have := neg_abs_le b
    rw [abs_le]
    constructor
    · rcases min_choice a b with e | e <;> rw [e] at q1
      · linarith [le_max_left |a| |b|]
      · linarith [le_max_right |a| |b|]
    · rcases max_choice a b with e | e <;> rw [e] at q2
      · linarith [le_max_left |a| |b|]
      · linarith [le_max_right |a| |b|]
  have hc := way_mem (a := a) (b := b) h0 (h1.trans hD)
  have hmin : R.Rep (min a b) := by rcases min_choice a b with e | e <;> rw [e] <;> assumption
  have hmax : R.Rep (max a b) := by rcases max_choice a b with e | e <;> rw [e] <;> assumption
  have cc : min a b ≤ sideC R a b nr ∧ sideC R a b nr ≤ max a b := ⟨R.le_fl_of_rep hc.1 hmin, R.fl_le_of_rep hc.2 hmax⟩
  have ec : |sideC R a b nr - (b + sgn a b * nr)| ≤ R.u * max |a| |b| :=
    (R.err _).trans (mul_le_mul_of_nonneg_left (size _ hc.1 hc.2) u0)
  have fin : ∀ w q, (min a b ≤ q ∧ q ≤ max a b) → q = b + sgn a b * nr + w →
      |R.fl (sideC R a b nr + w) - q| ≤ 3 * R.u * max |a| |b| := by
    intro w q hq e
    have k1 : |sideC R a b nr + w - q| ≤ R.u * max |a| |b| := by rw [e]; convert ec using 2; ring
    have k2 := size q hq.1 hq.2
    have k3 : |sideC R a b nr + w| ≤ (1 + R.u) * max |a| |b| := by
      have := abs_add_le (sideC R a b nr + w - q) q
      rw [sub_add_cancel] at this
      linarith
    have k4 := (R.err (sideC R a b nr + w)).trans (mul_le_mul_of_nonneg_left k3 u0)
    have := abs_add_le (R.fl (sideC R a b nr + w) - (sideC R a b nr + w)) (sideC R a b nr + w - q)
    rw [sub_add_sub_cancel] at this
    nlinarith [mul_nonneg u0 M0]
  refine ⟨cc, ⟨b + sgn a b * (nr + R.fl (R.fl (nr * b90) * Fl.cornerScale R (halfSide R a b) nr)), ?_, ?_⟩,
    ⟨b + sgn a b * (nr - R.fl (nr * b90)), ?_, ?_⟩⟩
  · exact way_mem (by linarith) (by linarith)
  · apply fin
    · exact way_mem (by linarith) (by linarith)
    · unfold sideOut; ring
  · exact way_mem (by linarith) (by linarith)
  · apply fin
    · exact way_mem (by linarith) (by linarith)
    · unfold sideIn; ring

/-- The radius used is a float, not negative, and at most half of each side. -/
theorem Fl.usedRadius (p1 p2 : Pt ℝ) (radius : ℝ) (hr : R.Rep radius) (hr0 : 0 ≤ radius) :
    R.Rep (min radius (min (halfSide R p1.x p2.x) (halfSide R p1.y p2.y))) ∧
    0 ≤ min radius (min (halfSide R p1.x p2.x) (halfSide R p1.y p2.y)) ∧
    min radius (min (halfSide R p1.x p2.x) (halfSide R p1.y p2.y)) ≤ halfSide R p1.x p2.x ∧
    min radius (min (halfSide R p1.x p2.x) (halfSide R p1.y p2.y)) ≤ halfSide R p1.y p2.y := by
  refine ⟨?_, le_min hr0 (le_min (halfSide_nonneg _ _) (halfSide_nonneg _ _)), (min_le_right _ _).trans (min_le_left _ _),
    (min_le_right _ _).trans (min_le_right _ _)⟩
  rcases min_choice radius (min (halfSide R p1.x p2.x) (halfSide R p1.y p2.y)) with e | e <;> rw [e]
  · exact hr
  · rcases min_choice (halfSide R p1.x p2.x) (halfSide R p1.y p2.y) with e | e <;> rw [e] <;> exact halfSide_rep _ _

/-- C99: whatever the rounding, a rounded rectangle of floats has all its control points exactly inside the rectangle, and the ends
of their handles inside up to three roundings. -/
theorem C99_rounded_rect (hu : R.u ≤ 1 / 32) (hyp : ℝ → ℝ → ℝ) (hh : AxisHypot hyp) (b90 : ℝ) (hb0 : 0 ≤ b90) (hb1 : b90 ≤ 4 / 5)
    (p1 p2 : Pt ℝ) (h1 : R.RepPt p1) (h2 : R.RepPt p2) (radius : ℝ) (hr : R.Rep radius) (hr0 : 0 ≤ radius) :
    ∃ cps, Fl.makeRoundedRect R hyp b90 p1 p2 radius = .ok cps ∧ ∀ cp ∈ cps,
      cp.c ∈ (BBox.ofPts p1 p2).Region ∧
      (∃ q ∈ (BBox.ofPts p1 p2).Region, Within (3 * R.u * max |p1.x| |p2.x|) (3 * R.u * max |p1.y| |p2.y|) (Fl.cpL R cp) q) ∧
      (∃ q ∈ (BBox.ofPts p1 p2).Region, Within (3 * R.u * max |p1.x| |p2.x|) (3 * R.u * max |p1.y| |p2.y|) (Fl.cpR R cp) q) := by
  obtain ⟨n1, n2, n3, n4⟩ := Fl.usedRadius R p1 p2 radius hr hr0
  refine ⟨_, makeRoundedRect_fl hyp hh b90 p1 p2 h1 h2 radius hr hr0, ?_⟩
  set nr := min radius (min (halfSide R p1.x p2.x) (halfSide R p1.y p2.y)) with hnr
  have u0 := R.u_nonneg
  have ex0 : 0 ≤ 3 * R.u * max |p1.x| |p2.x| := by
    have : 0 ≤ max |p1.x| |p2.x| := (abs_nonneg _).trans (le_max_left _ _)
    positivity
  have ey0 : 0 ≤ 3 * R.u * max |p1.y| |p2.y| := by
    have : 0 ≤ max |p1.y| |p2.y| := (abs_nonneg _).trans (le_max_left _ _)
    positivity
  have mem : ∀ q : Pt ℝ, q ∈ (BBox.ofPts p1 p2).Region ↔
      (min p1.x p2.x ≤ q.x ∧ q.x ≤ max p1.x p2.x) ∧ min p1.y p2.y ≤ q.y ∧ q.y ≤ max p1.y p2.y := fun q => Iff.rfl
  have key := dedupe_keeps
    (P := fun c d => c ∈ (BBox.ofPts p1 p2).Region ∧
      ∃ q ∈ (BBox.ofPts p1 p2).Region, Within (3 * R.u * max |p1.x| |p2.x|) (3 * R.u * max |p1.y| |p2.y|) (Fl.addVector R c d) q)
    (Q := fun c d => ∃ q ∈ (BBox.ofPts p1 p2).Region,
      Within (3 * R.u * max |p1.x| |p2.x|) (3 * R.u * max |p1.y| |p2.y|) (Fl.addVector R c d) q)
    (rrList R b90 p1 p2 nr) ?_
  · intro cp hcp
    obtain ⟨⟨k1, k2⟩, k3⟩ := key cp hcp
    exact ⟨k1, k2, k3⟩
  · have bx := Fl.side_bounds R hu b90 p2.x p1.x nr hb0 hb1 h2.1 h1.1 n1 n2 (by rw [halfSide_comm]; exact n3)
    have bx' := Fl.side_bounds R hu b90 p1.x p2.x nr hb0 hb1 h1.1 h2.1 n1 n2 n3
    have b_y := Fl.side_bounds R hu b90 p2.y p1.y nr hb0 hb1 h2.2 h1.2 n1 n2 (by rw [halfSide_comm]; exact n4)
    have b_y' := Fl.side_bounds R hu b90 p1.y p2.y nr hb0 hb1 h1.2 h2.2 n1 n2 n4
    rw [min_comm p2.x, max_comm p2.x, max_comm |p2.x|] at bx
    rw [min_comm p2.y, max_comm p2.y, max_comm |p2.y|] at b_y
    -- a control point on a horizontal side, on a vertical side
    have hx : ∀ c d e y : ℝ, (min p1.x p2.x ≤ c ∧ c ≤ max p1.x p2.x) → (min p1.y p2.y ≤ y ∧ y ≤ max p1.y p2.y) → R.Rep y →
        (∃ q, (min p1.x p2.x ≤ q ∧ q ≤ max p1.x p2.x) ∧ |R.fl (c + d) - q| ≤ 3 * R.u * max |p1.x| |p2.x|) →
        (∃ q, (min p1.x p2.x ≤ q ∧ q ≤ max p1.x p2.x) ∧ |R.fl (c + e) - q| ≤ 3 * R.u * max |p1.x| |p2.x|) →
        ((⟨c, y⟩ : Pt ℝ) ∈ (BBox.ofPts p1 p2).Region ∧ ∃ q ∈ (BBox.ofPts p1 p2).Region,
          Within (3 * R.u * max |p1.x| |p2.x|) (3 * R.u * max |p1.y| |p2.y|) (Fl.addVector R ⟨c, y⟩ ⟨d, 0⟩) q) ∧
        ∃ q ∈ (BBox.ofPts p1 p2).Region,
          Within (3 * R.u * max |p1.x| |p2.x|) (3 * R.u * max |p1.y| |p2.y|) (Fl.addVector R ⟨c, y⟩ ⟨e, 0⟩) q := by
      rintro c d e y hc hy ry ⟨q, q1, q2⟩ ⟨q', q1', q2'⟩
      refine ⟨⟨(mem _).2 ⟨hc, hy⟩, ⟨q, y⟩, (mem _).2 ⟨q1, hy⟩, q2, ?_⟩, ⟨q', y⟩, (mem _).2 ⟨q1', hy⟩, q2', ?_⟩
      all_goals
        simp only [Fl.addVector, add_zero]
        rw [ry]; simpa using ey0
    have hy : ∀ c d e x : ℝ, (min p1.y p2.y ≤ c ∧ c ≤ max p1.y p2.y) → (min p1.x p2.x ≤ x ∧ x ≤ max p1.x p2.x) → R.Rep x →
        (∃ q, (min p1.y p2.y ≤ q ∧ q ≤ max p1.y p2.y) ∧ |R.fl (c + d) - q| ≤ 3 * R.u * max |p1.y| |p2.y|) →
        (∃ q, (min p1.y p2.y ≤ q ∧ q ≤ max p1.y p2.y) ∧ |R.fl (c + e) - q| ≤ 3 * R.u * max |p1.y| |p2.y|) →
        ((⟨x, c⟩ : Pt ℝ) ∈ (BBox.ofPts p1 p2).Region ∧ ∃ q ∈ (BBox.ofPts p1 p2).Region,
          Within (3 * R.u * max |p1.x| |p2.x|) (3 * R.u * max |p1.y| |p2.y|) (Fl.addVector R ⟨x, c⟩ ⟨0, d⟩) q) ∧
        ∃ q ∈ (BBox.ofPts p1 p2).Region,
          Within (3 * R.u * max |p1.x| |p2.x|) (3 * R.u * max |p1.y| |p2.y|) (Fl.addVector R ⟨x, c⟩ ⟨0, e⟩) q := by
      rintro c d e y hc hy ry ⟨q, q1, q2⟩ ⟨q', q1', q2'⟩
      refine ⟨⟨(mem _).2 ⟨hy, hc⟩, ⟨y, q⟩, (mem _).2 ⟨hy, q1⟩, ?_, q2⟩, ⟨y, q'⟩, (mem _).2 ⟨hy, q1'⟩, ?_, q2'⟩
      all_goals
        simp only [Fl.addVector, add_zero]
        rw [ry]; simpa using ex0
    have x1 : min p1.x p2.x ≤ p1.x ∧ p1.x ≤ max p1.x p2.x := ⟨min_le_left _ _, le_max_left _ _⟩
    have x2 : min p1.x p2.x ≤ p2.x ∧ p2.x ≤ max p1.x p2.x := ⟨min_le_right _ _, le_max_right _ _⟩
    have y1 : min p1.y p2.y ≤ p1.y ∧ p1.y ≤ max p1.y p2.y := ⟨min_le_left _ _, le_max_left _ _⟩
    have y2 : min p1.y p2.y ≤ p2.y ∧ p2.y ≤ max p1.y p2.y := ⟨min_le_right _ _, le_max_right _ _⟩
    simp only [rrList, List.mem_cons, List.not_mem_nil, or_false]
    rintro cp (rfl | rfl | rfl | rfl | rfl | rfl | rfl | rfl)
    exacts [hx _ _ _ _ bx.1 y1 h1.2 bx.2.1 bx.2.2, hy _ _ _ _ b_y.1 x1 h1.1 b_y.2.2 b_y.2.1,
      hy _ _ _ _ b_y'.1 x1 h1.1 b_y'.2.1 b_y'.2.2, hx _ _ _ _ bx.1 y2 h2.2 bx.2.2 bx.2.1,
      hx _ _ _ _ bx'.1 y2 h2.2 bx'.2.1 bx'.2.2, hy _ _ _ _ b_y'.1 x2 h2.1 b_y'.2.2 b_y'.2.1,
      hy _ _ _ _ b_y.1 x2 h2.1 b_y.2.1 b_y.2.2, hx _ _ _ _ bx'.1 y1 h1.2 bx'.2.2 bx'.2.1]

theorem axisHypot_hypot : AxisHypot hypot := by
  intro x
  constructor
  · show √(x * x + 0 * 0) = |x|
    rw [mul_zero, add_zero, Real.sqrt_mul_self_eq_abs]
  · show √(0 * 0 + x * x) = |x|
    rw [mul_zero, zero_add, Real.sqrt_mul_self_eq_abs]

theorem min_lip {r a b a' b' e : ℝ} (ha : |a - a'| ≤ e) (hb : |b - b'| ≤ e) : |min r (min a b) - min r (min a' b')| ≤ e := by
  have e0 : 0 ≤ e := (abs_nonneg _).trans ha
  rw [abs_le] at *
  have step : ∀ {x y : ℝ}, -e ≤ x - y → min r x ≥ min r y - e := by
    intro x y h
    rcases min_choice r x with h1 | h1 <;> rw [h1]
    · linarith [min_le_left r y]
    · linarith [min_le_right r y]
  have inner : ∀ {x y x' y' : ℝ}, -e ≤ x - x' → -e ≤ y - y' → -e ≤ min x y - min x' y' := by
    intro x y x' y' h1 h2
    rcases min_choice x y with h3 | h3 <;> rw [h3]
    · linarith [min_le_left x' y']
    · linarith [min_le_right x' y']
  constructor
  · linarith [step (inner ha.1 hb.1)]
  · have := step (x := min a' b') (y := min a b) (inner (by linarith [ha.2]) (by linarith [hb.2]))
    linarith

/-- C99: the places of the control points computed are those of the exact rounded rectangle (C50) up to two roundings: every place
computed is near an exact one and every exact one is near one computed. -/
theorem C99_rounded_close (hyp : ℝ → ℝ → ℝ) (hh : AxisHypot hyp) (b90 : ℝ) (p1 p2 : Pt ℝ) (h1 : R.RepPt p1) (h2 : R.RepPt p2)
    (radius : ℝ) (hr : R.Rep radius) (hr0 : 0 ≤ radius) (M : ℝ) (hM : (|p1.x| ≤ M ∧ |p1.y| ≤ M) ∧ |p2.x| ≤ M ∧ |p2.y| ≤ M) :
    ∃ cps cps', Fl.makeRoundedRect R hyp b90 p1 p2 radius = .ok cps ∧ makeRoundedRect p1 p2 radius = .ok cps' ∧
      (∀ cp ∈ cps, ∃ cp' ∈ cps', Within (2 * R.u * M) (2 * R.u * M) cp.c cp'.c) ∧
      (∀ cp' ∈ cps', ∃ cp ∈ cps, Within (2 * R.u * M) (2 * R.u * M) cp.c cp'.c) := by
  have u0 := R.u_nonneg
  have M0 : 0 ≤ M := (abs_nonneg _).trans hM.1.1
  have hx := makeRoundedRect_fl (R := .exact) hypot axisHypot_hypot bez90 p1 p2 ⟨rfl, rfl⟩ ⟨rfl, rfl⟩ radius rfl hr0
  rw [C99_exact_shapes.2.2.1] at hx
  refine ⟨_, _, makeRoundedRect_fl hyp hh b90 p1 p2 h1 h2 radius hr hr0, hx, ?_⟩
  obtain ⟨-, n2, n3, n4⟩ := Fl.usedRadius R p1 p2 radius hr hr0
  set nr := min radius (min (halfSide R p1.x p2.x) (halfSide R p1.y p2.y)) with hnr
  set ne := min radius (min (halfSide .exact p1.x p2.x) (halfSide .exact p1.y p2.y)) with hne
  have hs : ∀ a b : ℝ, |a| ≤ M → |b| ≤ M → |halfSide R a b - halfSide .exact a b| ≤ R.u * M := by
    intro a b ha hb
    have e := R.err |a - b|
    rw [abs_abs] at e
    have d : |a - b| ≤ 2 * M := (abs_sub _ _).trans (by linarith)
    have : halfSide R a b - halfSide .exact a b = (R.fl |a - b| - |a - b|) / 2 := by
      show R.fl |a - b| / 2 - |a - b| / 2 = _
      ring
    rw [this, abs_div, abs_of_pos (by norm_num : (0 : ℝ) < 2)]
    have := mul_le_mul_of_nonneg_left d u0
    linarith
  have hd : |nr - ne| ≤ R.u * M := min_lip (hs _ _ hM.1.1 hM.2.1) (hs _ _ hM.1.2 hM.2.2)
  have side : ∀ a b : ℝ, |a| ≤ M → |b| ≤ M → nr ≤ halfSide R a b → |sideC R a b nr - sideC .exact a b ne| ≤ 2 * R.u * M := by
    intro a b ha hb hn
    have w := way_mem (a := a) (b := b) n2 (hn.trans (halfSide_le a b))
    have k : |b + sgn a b * nr| ≤ M := by
      rw [abs_le] at *
      constructor
      · rcases min_choice a b with e | e <;> rw [e] at w <;> linarith
      · rcases max_choice a b with e | e <;> rw [e] at w <;> linarith
    have e1 := (R.err (b + sgn a b * nr)).trans (mul_le_mul_of_nonneg_left k u0)
    have e2 : |sgn a b * nr - sgn a b * ne| ≤ R.u * M := by
      rcases sgn_cases a b with ⟨-, e⟩ | ⟨-, e⟩ | ⟨-, e⟩ <;> rw [e]
      · simpa using hd
      · rw [show -1 * nr - -1 * ne = -(nr - ne) by ring, abs_neg]; exact hd
      · simp; positivity
    show |R.fl (b + sgn a b * nr) - (b + sgn a b * ne)| ≤ _
    have e3 := abs_add_le (R.fl (b + sgn a b * nr) - (b + sgn a b * nr)) (sgn a b * nr - sgn a b * ne)
    rw [show R.fl (b + sgn a b * nr) - (b + sgn a b * nr) + (sgn a b * nr - sgn a b * ne) =
      R.fl (b + sgn a b * nr) - (b + sgn a b * ne) by ring] at e3
    linarith
  have zero : ∀ x : ℝ, |x - x| ≤ 2 * R.u * M := by intro x; simp; positivity
  have sx := side p2.x p1.x hM.2.1 hM.1.1 (by rw [halfSide_comm]; exact n3)
  have sx' := side p1.x p2.x hM.1.1 hM.2.1 n3
  have sy := side p2.y p1.y hM.2.2 hM.1.2 (by rw [halfSide_comm]; exact n4)
  have sy' := side p1.y p2.y hM.1.2 hM.2.2 n4
  have all : List.Forall₂ (Within (2 * R.u * M) (2 * R.u * M)) ((rrList R b90 p1 p2 nr).map CP.c) ((rrList .exact bez90 p1 p2 ne).map CP.c) := by
    simp only [rrList, List.map_cons, List.map_nil]
    exact .cons ⟨sx, zero _⟩ (.cons ⟨zero _, sy⟩ (.cons ⟨zero _, sy'⟩ (.cons ⟨sx, zero _⟩ (.cons ⟨sx', zero _⟩ (.cons ⟨zero _, sy'⟩
      (.cons ⟨zero _, sy⟩ (.cons ⟨sx', zero _⟩ .nil)))))))
  have left : ∀ (P : Pt ℝ → Pt ℝ → Prop) (l l' : List (Pt ℝ)), List.Forall₂ P l l' → (∀ x ∈ l, ∃ y ∈ l', P x y) ∧ ∀ y ∈ l', ∃ x ∈ l, P x y := by
    intro P l l' h
    induction h with
    | nil => simp
    | cons h _ ih =>
      rename_i a b l l' _
      constructor
      · intro x hx
        rcases List.mem_cons.1 hx with rfl | hx
        · exact ⟨b, by simp, h⟩
        · obtain ⟨y, y1, y2⟩ := ih.1 x hx
          exact ⟨y, by simp [y1], y2⟩
      · intro x hx
        rcases List.mem_cons.1 hx with rfl | hx
        · exact ⟨a, by simp, h⟩
        · obtain ⟨y, y1, y2⟩ := ih.2 x hx
          exact ⟨y, by simp [y1], y2⟩
  obtain ⟨l1, l2⟩ := left _ _ _ all
  constructor
  · intro cp hcp
    obtain ⟨y, y1, y2⟩ := l1 cp.c ((dedupe_centres _ _).1 (List.mem_map_of_mem hcp))
    obtain ⟨cp', c1, rfl⟩ := List.mem_map.1 ((dedupe_centres _ _).2 y1)
    exact ⟨cp', c1, y2⟩
  · intro cp hcp
    obtain ⟨y, y1, y2⟩ := l2 cp.c ((dedupe_centres _ _).1 (List.mem_map_of_mem hcp))
    obtain ⟨cp', c1, rfl⟩ := List.mem_map.1 ((dedupe_centres _ _).2 y1)
    exact ⟨cp', c1, y2⟩

/-- The floats used in the counterexamples. -/
theorem Fl.flBin_whole (p : ℕ) (hp : 1 ≤ p) (n : ℤ) (h : |n| ≤ 2 ^ p) : flBin p (n : ℝ) = n := by
  have := flBin_rep p hp n 0 h
  simpa using this

theorem Fl.flBin_succ_pow (p : ℕ) (hp : 2 ≤ p) : flBin p (2 ^ p + 1) = 2 ^ p := by
  have m0 : (4 : ℝ) ≤ 2 ^ p := by
    calc (4 : ℝ) = 2 ^ 2 := by norm_num
      _ ≤ 2 ^ p := pow_le_pow_right₀ (by norm_num) hp
  have zp : (2 : ℝ) ^ (p : ℤ) = 2 ^ p := zpow_natCast 2 p
  have e : (p : ℤ) - p + 1 = 1 := by ring
  obtain ⟨q, rfl⟩ : ∃ q, p = q + 2 := ⟨p - 2, by omega⟩
  have := Fl.flBin_eq (q + 2) (2 ^ (q + 2) + 1) ((q + 2 : ℕ) : ℤ) (2 ^ (q + 1))
    (by rw [abs_of_pos (by linarith), zp]; linarith)
    (by rw [abs_of_pos (by linarith), zpow_add₀ (by norm_num), zp, zpow_one]; linarith)
    (by
      rw [e, zpow_one]
      have e2 : ((2 : ℝ) ^ (q + 2) + 1) / 2 = 2 ^ (q + 1) + 1 / 2 := by rw [pow_succ (n := q + 1)]; ring
      rw [e2]
      constructor
      · push_cast; rw [abs_le]; constructor <;> linarith
      · intro _
        rw [pow_succ]; exact even_two.mul_left _)
  rw [this, e, zpow_one]
  push_cast
  ring

/-- C99: the removal of duplicates compares places exactly, and under rounding misses some: at every precision from 2 binary digits on
there is a square whose exact rounded rectangle with a large radius is a circle of 4 control points (C50), and whose computed one has
8, with gaps in between. -/
theorem C99_rounded_rect_counterexample (p : ℕ) (hp : 2 ≤ p) (hyp : ℝ → ℝ → ℝ) (hh : AxisHypot hyp) (b90 : ℝ) :
    ∃ (p1 p2 : Pt ℝ) (cps cps' : List (CP ℝ)), (Rnd.binary p (by omega)).RepPt p1 ∧ (Rnd.binary p (by omega)).RepPt p2 ∧
      Fl.makeRoundedRect (Rnd.binary p (by omega)) hyp b90 p1 p2 (2 ^ p) = .ok cps ∧ cps.length = 8 ∧
      makeRoundedRect p1 p2 (2 ^ p) = .ok cps' ∧ cps'.length = 4 := by
  set R := Rnd.binary p (by omega) with hR
  have hfl : R.fl = flBin p := rfl
  have m0 : (4 : ℝ) ≤ 2 ^ p := by
    calc (4 : ℝ) = 2 ^ 2 := by norm_num
      _ ≤ 2 ^ p := pow_le_pow_right₀ (by norm_num) hp
  have z0 : (4 : ℤ) ≤ 2 ^ p := by exact_mod_cast m0
  have r1 : R.Rep (-1) := R.rep_neg R.rep_one
  have r2 : R.Rep (2 ^ p) := by
    have := Fl.flBin_whole p (by omega) (2 ^ p) (by rw [abs_of_pos (by omega)])
    push_cast at this; exact this
  have hs : halfSide R (-1) (2 ^ p) = 2 ^ p / 2 := by
    unfold halfSide
    rw [abs_of_neg (by linarith), show -(-1 - (2 : ℝ) ^ p) = 2 ^ p + 1 by ring, hfl, Fl.flBin_succ_pow p hp]
  have s1 : sgn (2 ^ p) (-1) = 1 := by unfold sgn; rw [if_pos (by linarith)]
  have s2 : sgn (-1) (2 ^ p) = -1 := by unfold sgn; rw [if_neg (by linarith), if_pos (by linarith)]
  have hnr : min ((2 : ℝ) ^ p) (min (2 ^ p / 2) (2 ^ p / 2)) = 2 ^ p / 2 := by rw [min_self, min_eq_right (by linarith)]
  obtain ⟨q, hq⟩ : ∃ q, p = q + 1 := ⟨p - 1, by omega⟩
  have half : ((2 : ℝ) ^ p) / 2 = 2 ^ q := by rw [hq, pow_succ]; ring
  have halfz : ((2 : ℤ) ^ p) = 2 * 2 ^ q := by rw [hq, pow_succ]; ring
  have c1 : sideC R (2 ^ p) (-1) (2 ^ p / 2) = 2 ^ p / 2 - 1 := by
    unfold sideC
    rw [s1, hfl, half]
    have := Fl.flBin_whole p (by omega) (2 ^ q - 1) (by rw [abs_of_pos (by omega)]; omega)
    push_cast at this
    rw [show -1 + 1 * (2 : ℝ) ^ q = 2 ^ q - 1 by ring]; exact this
  have c2 : sideC R (-1) (2 ^ p) (2 ^ p / 2) = 2 ^ p / 2 := by
    unfold sideC
    rw [s2, hfl]
    have := Fl.flBin_whole p (by omega) (2 ^ q) (by rw [abs_of_pos (by omega)]; omega)
    push_cast at this
    rw [show (2 : ℝ) ^ p + -1 * (2 ^ p / 2) = 2 ^ p / 2 by ring, half]; exact this
  have hx := makeRoundedRect_fl (R := .exact) hypot axisHypot_hypot bez90 ⟨-1, -1⟩ ⟨2 ^ p, 2 ^ p⟩ ⟨rfl, rfl⟩ ⟨rfl, rfl⟩ (2 ^ p) rfl
    (by positivity)
  rw [C99_exact_shapes.2.2.1] at hx
  refine ⟨⟨-1, -1⟩, ⟨2 ^ p, 2 ^ p⟩, _, _, ⟨r1, r1⟩, ⟨r2, r2⟩,
    makeRoundedRect_fl hyp hh b90 ⟨-1, -1⟩ ⟨2 ^ p, 2 ^ p⟩ ⟨r1, r1⟩ ⟨r2, r2⟩ (2 ^ p) r2 (by positivity), ?_, hx, ?_⟩
  · simp only [hs, hnr]
    unfold rrList
    have neg1 : (2 : ℝ) ^ p / 2 - 1 ≠ -1 := by intro h; linarith
    have neg2 : (2 : ℝ) ^ p / 2 ≠ 2 ^ p := by intro h; linarith
    have neg3 : (2 : ℝ) ^ p / 2 - 1 ≠ 2 ^ p := by intro h; linarith
    have neg4 : (2 : ℝ) ^ p / 2 ≠ -1 := by intro h; linarith
    have neg5 : (2 : ℝ) ^ p / 2 - 1 ≠ 2 ^ p / 2 := by intro h; linarith
    simp only [c1, c2]
    rw [(dedupe_eight _ _ _ _ _ _ _ _ _ _ _ _).1]
    · rfl
    all_goals simp only [ne_eq, Pt.mk.injEq]; tauto
  · have hse : halfSide .exact (-1) ((2 : ℝ) ^ p) = (2 ^ p + 1) / 2 := by
      unfold halfSide
      rw [abs_of_neg (by linarith)]
      show -(-1 - (2 : ℝ) ^ p) / 2 = _
      ring
    have hne : min ((2 : ℝ) ^ p) (min ((2 ^ p + 1) / 2) ((2 ^ p + 1) / 2)) = (2 ^ p + 1) / 2 := by rw [min_self, min_eq_right (by linarith)]
    simp only [hse, hne]
    have d1 : sideC .exact (2 ^ p) (-1) ((2 ^ p + 1) / 2) = (2 ^ p - 1) / 2 := by
      unfold sideC
      rw [s1]
      show -1 + 1 * (((2 : ℝ) ^ p + 1) / 2) = _
      ring
    have d2 : sideC .exact (-1) (2 ^ p) ((2 ^ p + 1) / 2) = (2 ^ p - 1) / 2 := by
      unfold sideC
      rw [s2]
      show (2 : ℝ) ^ p + -1 * ((2 ^ p + 1) / 2) = _
      ring
    have neg1 : ((2 : ℝ) ^ p - 1) / 2 ≠ -1 := by intro h; linarith
    have neg2 : ((2 : ℝ) ^ p - 1) / 2 ≠ 2 ^ p := by intro h; linarith
    unfold rrList
    simp only [d1, d2]
    rw [(dedupe_eight _ _ _ _ _ _ _ _ _ _ _ _).2.2.2]
    · rfl
    all_goals first | rfl | (simp only [ne_eq, Pt.mk.injEq]; tauto)

/-! ### Ellipses -/

/-- C99: the control points of an ellipse in a box are those of the exact one (C49) up to two roundings of the size of the corners, and
their handles up to two more than the factor that is used. -/
theorem C99_ellipse (k : ℕ) (b90 : ℝ) (hb : |b90 - bez90| ≤ R.gam k) (p1 p2 : Pt ℝ) :
    ∃ cps cps', Fl.makeEllipseP1P2 R b90 p1 p2 = .ok cps ∧ makeEllipseP1P2 p1 p2 = .ok cps' ∧
      List.Forall₂ (fun cp cp' : CP ℝ =>
        Within (R.gam 2 * (|p1.x| + |p2.x|)) (R.gam 2 * (|p1.y| + |p2.y|)) cp.c cp'.c ∧
        WithinVec (R.gam (k + 2) * (|p1.x| + |p2.x|) / 2) (R.gam (k + 2) * (|p1.y| + |p2.y|) / 2) cp.dl cp'.dl ∧
        WithinVec (R.gam (k + 2) * (|p1.x| + |p2.x|) / 2) (R.gam (k + 2) * (|p1.y| + |p2.y|) / 2) cp.dr cp'.dr) cps cps' := by
  have hb1 : |bez90| ≤ 1 := by
    obtain ⟨k0, k1⟩ := bez90_bounds
    rw [abs_of_nonneg (by linarith)]; linarith
  have nb : R.Near k b90 bez90 1 := ⟨hb1, by simpa using hb⟩
  -- one axis
  have axis : ∀ a b : ℝ, ∃ c c' r r' : ℝ,
      c = R.fl (R.fl (min a b + max a b) / 2) ∧ c' = (min a b + max a b) / 2 ∧ r = R.fl (R.fl (max a b - min a b) / 2) ∧
      r' = (max a b - min a b) / 2 ∧
      |R.fl (c + r) - (c' + r')| ≤ R.gam 2 * (|a| + |b|) ∧ |R.fl (c - r) - (c' - r')| ≤ R.gam 2 * (|a| + |b|) ∧
      |R.fl c - c'| ≤ R.gam 2 * (|a| + |b|) ∧ |R.fl (r * b90) - r' * bez90| ≤ R.gam (k + 2) * (|a| + |b|) / 2 := by
    intro a b
    refine ⟨_, _, _, _, rfl, rfl, rfl, rfl, ?_⟩
    have hs : |min a b| + |max a b| = |a| + |b| := by
      rcases le_total a b with h | h
      · rw [min_eq_left h, max_eq_right h]
      · rw [min_eq_right h, max_eq_left h, add_comm]
    have sz : 0 ≤ |a| + |b| := by positivity
    have nc : R.Near 1 (R.fl (R.fl (min a b + max a b) / 2)) ((min a b + max a b) / 2) ((|a| + |b|) / 2) := by
      rw [R.fl_half, R.idem]
      have := (((Near.of_abs (R := R) (min a b)).add (Near.of_abs (max a b))).half)
      rw [hs] at this
      exact this
    have nr : R.Near 1 (R.fl (R.fl (max a b - min a b) / 2)) ((max a b - min a b) / 2) ((|a| + |b|) / 2) := by
      rw [R.fl_half, R.idem]
      have := (((Near.of_abs (R := R) (max a b)).sub (Near.of_abs (min a b))).half)
      rw [add_comm |max a b|, hs] at this
      exact this
    have e1 := nc.add nr
    have e2 := nc.sub nr
    rw [add_halves] at e1 e2
    have e3 := (nc.fl).mono (n := 2) le_rfl (half_le_self sz)
    have e4 := (nr.mul nb).mono (n := k + 2) (by omega) le_rfl
    refine ⟨e1.2, e2.2, e3.2, ?_⟩
    have := e4.2
    rw [mul_one, ← mul_div_assoc] at this
    exact this
  obtain ⟨cx, cx', rx, rx', hcx, hcx', hrx, hrx', x1, x2, x3, x4⟩ := axis p1.x p2.x
  obtain ⟨cy, cy', ry, ry', hcy, hcy', hry, hry', y1, y2, y3, y4⟩ := axis p1.y p2.y
  have E : Fl.makeEllipseP1P2 R b90 p1 p2 = .ok (Fl.makeEllipseCps R b90 ⟨cx, cy⟩ rx ry) := by
    rw [hcx, hcy, hrx, hry]; rfl
  have E' : makeEllipseP1P2 p1 p2 = .ok (makeEllipseCps ⟨cx', cy'⟩ rx' ry') := by
    rw [hcx', hcy', hrx', hry']; rfl
  refine ⟨_, _, E, E', ?_⟩
  have g2 := R.gam_nonneg (k + 2)
  have zx : |(0 : ℝ) - 0| ≤ R.gam (k + 2) * (|p1.x| + |p2.x|) / 2 := by simp; positivity
  have zy : |(0 : ℝ) - 0| ≤ R.gam (k + 2) * (|p1.y| + |p2.y|) / 2 := by simp; positivity
  have neg : ∀ x y e : ℝ, |x - y| ≤ e → |-x - -y| ≤ e := by
    intro x y e h; rw [show -x - -y = -(x - y) by ring, abs_neg]; exact h
  simp only [Fl.makeEllipseCps, makeEllipseCps, Fl.addVector, Fl.subVec, Fl.smul, Vec.neg, Vec.mul, Pt.addVector, Pt.subVec, zero_mul,
    R.fl_zero, add_zero, sub_zero, neg_zero]
  exact .cons ⟨⟨x1, y3⟩, ⟨zx, y4⟩, ⟨zx, neg _ _ _ y4⟩⟩ (.cons ⟨⟨x3, y2⟩, ⟨x4, zy⟩, ⟨neg _ _ _ x4, zy⟩⟩
    (.cons ⟨⟨x2, y3⟩, ⟨zx, neg _ _ _ y4⟩, ⟨zx, y4⟩⟩ (.cons ⟨⟨x3, y1⟩, ⟨neg _ _ _ x4, zy⟩, ⟨x4, zy⟩⟩ .nil)))

theorem Fl.flBin_tie_below (p : ℕ) (hp : 2 ≤ p) : flBin p (2 ^ p - 3 / 2) = 2 ^ p - 2 := by
  have m0 : (4 : ℝ) ≤ 2 ^ p := by
    calc (4 : ℝ) = 2 ^ 2 := by norm_num
      _ ≤ 2 ^ p := pow_le_pow_right₀ (by norm_num) hp
  have zp : (2 : ℝ) ^ (p : ℤ) = 2 ^ p := zpow_natCast 2 p
  have zq : (2 : ℝ) ^ ((p : ℤ) - 1) = 2 ^ p / 2 := by rw [zpow_sub₀ (by norm_num), zp, zpow_one]
  have e : (p : ℤ) - 1 - p + 1 = 0 := by ring
  have := Fl.flBin_eq p (2 ^ p - 3 / 2) ((p : ℤ) - 1) (2 ^ p - 2)
    (by rw [abs_of_pos (by linarith), zq]; linarith)
    (by rw [abs_of_pos (by linarith), sub_add_cancel, zp]; linarith)
    (by
      rw [e, zpow_zero, div_one]
      constructor
      · push_cast; rw [abs_le]; constructor <;> linarith
      · intro _
        obtain ⟨q, rfl⟩ : ∃ q, p = q + 1 := ⟨p - 1, by omega⟩
        rw [pow_succ]
        exact (even_two.mul_left _).sub even_two)
  rw [this, e, zpow_zero, mul_one]
  push_cast
  ring

/-- C99: at every precision from 2 binary digits on there is a box of floats whose ellipse has a control point outside the box. In
exact arithmetic (C49) all of it is inside. -/
theorem C99_ellipse_counterexample (p : ℕ) (hp : 2 ≤ p) (b90 : ℝ) :
    ∃ (p1 p2 : Pt ℝ) (cps : List (CP ℝ)), (Rnd.binary p (by omega)).RepPt p1 ∧ (Rnd.binary p (by omega)).RepPt p2 ∧
      Fl.makeEllipseP1P2 (Rnd.binary p (by omega)) b90 p1 p2 = .ok cps ∧ ∃ cp ∈ cps, cp.c ∉ (BBox.ofPts p1 p2).Region := by
  set R := Rnd.binary p (by omega) with hR
  have hfl : R.fl = flBin p := rfl
  have m0 : (4 : ℝ) ≤ 2 ^ p := by
    calc (4 : ℝ) = 2 ^ 2 := by norm_num
      _ ≤ 2 ^ p := pow_le_pow_right₀ (by norm_num) hp
  have z0 : (4 : ℤ) ≤ 2 ^ p := by exact_mod_cast m0
  have r1 : R.Rep (2 ^ p - 1) := by
    have := Fl.flBin_whole p (by omega) (2 ^ p - 1) (by rw [abs_of_pos (by omega)]; omega)
    push_cast at this; exact this
  have r2 : R.Rep (2 ^ p + 2) := by
    obtain ⟨q, hq⟩ : ∃ q, p = q + 1 := ⟨p - 1, by omega⟩
    have hz : (2 : ℤ) ^ p = 2 * 2 ^ q := by rw [hq, pow_succ]; ring
    have := flBin_rep p (by omega) (2 ^ q + 1) 1 (by rw [abs_of_pos (by omega)]; omega)
    push_cast at this
    rw [zpow_one, show ((2 : ℝ) ^ q + 1) * 2 = 2 ^ p + 2 by rw [hq, pow_succ]; ring] at this
    exact this
  have sum : R.fl (2 ^ p - 1 + (2 ^ p + 2)) = 2 * 2 ^ p := by
    rw [show (2 : ℝ) ^ p - 1 + (2 ^ p + 2) = 2 * (2 ^ p + 1 / 2) by ring, R.dbl]
    have : R.fl (2 ^ p + 1 / 2) = 2 ^ p := by
      apply le_antisymm
      · have h1 := R.mono (2 ^ p + 1 / 2) (2 ^ p + 1) (by linarith)
        rw [hfl, Fl.flBin_succ_pow p hp] at h1
        exact h1
      · refine R.le_fl_of_rep (by linarith) ?_
        have := Fl.flBin_whole p (by omega) (2 ^ p) (by rw [abs_of_pos (by omega)])
        push_cast at this; exact this
    rw [this]
  have diff : R.fl (2 ^ p + 2 - (2 ^ p - 1)) = 3 := by
    rw [show (2 : ℝ) ^ p + 2 - (2 ^ p - 1) = 3 by ring]
    have := Fl.flBin_whole p (by omega) 3 (by rw [abs_of_pos (by omega)]; omega)
    push_cast at this; exact this
  have rp : R.fl (2 ^ p) = 2 ^ p := by
    have := Fl.flBin_whole p (by omega) (2 ^ p) (by rw [abs_of_pos (by omega)])
    push_cast at this; exact this
  have r3 : R.fl (3 / 2) = 3 / 2 := by
    rw [R.fl_half]
    have := Fl.flBin_whole p (by omega) 3 (by rw [abs_of_pos (by omega)]; omega)
    push_cast at this
    rw [hfl, this]
  refine ⟨⟨2 ^ p - 1, 0⟩, ⟨2 ^ p + 2, 0⟩, _, ⟨r1, R.rep_zero⟩, ⟨r2, R.rep_zero⟩, rfl,
    ⟨⟨2 ^ p - 2, 0⟩, (⟨0, R.fl (0 * b90)⟩ : Vec ℝ).neg, ⟨0, R.fl (0 * b90)⟩, "smooth"⟩, ?_, ?_⟩
  · have a1 : min ((2 : ℝ) ^ p - 1) (2 ^ p + 2) = 2 ^ p - 1 := min_eq_left (by linarith)
    have a2 : max ((2 : ℝ) ^ p - 1) (2 ^ p + 2) = 2 ^ p + 2 := max_eq_right (by linarith)
    have tie : R.fl (2 ^ p - 3 / 2) = 2 ^ p - 2 := by rw [hfl]; exact Fl.flBin_tie_below p hp
    simp only [BBox.ofPts, BBox.mk', Fl.makeEllipseCps, Fl.width, Fl.height, a1, a2, min_self, max_self, sum, diff, Fl.addVector, Fl.subVec,
      Fl.smul, sub_self, zero_mul, R.fl_zero, zero_div, sub_zero, add_zero, r3]
    rw [show (2 : ℝ) * 2 ^ p / 2 = 2 ^ p by ring, rp, tie]
    simp
  · rintro ⟨⟨h1, -⟩, -⟩
    have a1 : min ((2 : ℝ) ^ p - 1) (2 ^ p + 2) = 2 ^ p - 1 := min_eq_left (by linarith)
    simp only [a1] at h1
    linarith

/-- The hypotheses of the theorems on rounded rectangles can be met: Python's floats, `math.hypot` exact, the exact factor. -/
example : ∃ (R : Rnd) (hyp : ℝ → ℝ → ℝ) (b90 : ℝ), R.u ≤ 1 / 32 ∧ AxisHypot hyp ∧ 0 ≤ b90 ∧ b90 ≤ 4 / 5 ∧ R.RepPt ⟨0, 0⟩ ∧
    R.RepPt ⟨1, 2⟩ ∧ R.Rep 1 ∧ b90 ≠ 0 := by
  have r2 : (Rnd.binary 53 (by norm_num)).Rep 2 := by
    have := Fl.flBin_whole 53 (by norm_num) 2 (by norm_num)
    exact_mod_cast this
  refine ⟨Rnd.binary 53 (by norm_num), hypot, 11 / 20, ?_, axisHypot_hypot, by norm_num, by norm_num, ⟨Rnd.rep_zero _, Rnd.rep_zero _⟩,
    ⟨Rnd.rep_one _, r2⟩, Rnd.rep_one _, by norm_num⟩
  show (2 : ℝ) ^ (-53 : ℤ) ≤ 1 / 32
  norm_num

end X7
