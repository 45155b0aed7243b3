import Mathlib.Tactic.IntervalCases
import Mathlib.Analysis.SpecialFunctions.Trigonometric.Arctan
import Verif.Model.Shapes
import Verif.Lemmas.BezierReal
import Verif.Spec.Shapes

namespace X7

theorem bez90_eq : bez90 = 4 / 3 * (√2 - 1) := by
  have h8 : radians (90 / 4) = Real.pi / 8 := by rw [radians]; ring
  rw [bez90, h8]
  congr 1
  have hc : 0 < Real.cos (Real.pi / 8) := Real.cos_pos_of_mem_Ioo ⟨by linarith [Real.pi_pos], by linarith [Real.pi_pos]⟩
  have hs : 0 < Real.sin (Real.pi / 8) := Real.sin_pos_of_pos_of_lt_pi (by linarith [Real.pi_pos]) (by linarith [Real.pi_pos])
  have ht : 0 < Real.tan (Real.pi / 8) := by rw [Real.tan_eq_sin_div_cos]; positivity
  have h1 : Real.tan (Real.pi / 4) = 1 := Real.tan_pi_div_four
  have h2 : Real.tan (2 * (Real.pi / 8)) = 2 * Real.tan (Real.pi / 8) / (1 - Real.tan (Real.pi / 8) ^ 2) := Real.tan_two_mul
  rw [show 2 * (Real.pi / 8) = Real.pi / 4 by ring, h1] at h2
  set t := Real.tan (Real.pi / 8)
  have hd : 1 - t ^ 2 ≠ 0 := by
    intro h; rw [h, div_zero] at h2; norm_num at h2
  rw [eq_div_iff hd] at h2
  have h3 : (t + 1) ^ 2 = 2 := by linarith
  have h4 : √2 = t + 1 := by
    rw [← h3]; exact Real.sqrt_sq (by linarith)
  rw [h4]; ring

theorem sqrt2_sq : √2 * √2 = 2 := Real.mul_self_sqrt (by norm_num)

theorem sqrt2_bounds : 1.41421 < √2 ∧ √2 < 1.41422 := by
  constructor
  · exact Real.lt_sqrt_of_sq_lt (by norm_num)
  · rw [Real.sqrt_lt' (by norm_num)]; norm_num

theorem bez90_bounds : 0 < bez90 ∧ bez90 < 1 := by
  obtain ⟨h1, h2⟩ := sqrt2_bounds
  rw [bez90_eq]
  constructor <;> nlinarith

/-- One side of a corner. -/
theorem corner_side (v : Vec ℝ) (nr : ℝ) (h0 : 0 ≤ nr) (h1 : nr ≤ v.length / 2) :
    ∃ lam, 0 ≤ lam ∧ lam ≤ 1 / 2 ∧ lam * v.length = nr ∧ (v.length = 0 → lam = 0) ∧
      cornerSide v (v.length / 2) nr = .ok (v.mul lam) := by
  unfold cornerSide
  by_cases hv : v = ⟨0, 0⟩
  · have hl : v.length = 0 := Vec.length_eq_zero.2 hv
    refine ⟨0, le_rfl, by norm_num, ?_, fun _ => rfl, ?_⟩
    · rw [hl] at h1 ⊢; linarith
    · rw [hl, if_neg (by norm_num), hv]; simp [Vec.mul]
  · have hl := Vec.length_pos hv
    refine ⟨nr / v.length, by positivity, ?_, by field_simp, fun h => absurd h hl.ne', ?_⟩
    · rw [div_le_div_iff₀ hl (by norm_num)]; linarith
    · rw [if_pos (by positivity), Vec.unit_ok hv]
      simp only [Except.map, Vec.mul, Except.ok.injEq, Vec.mk.injEq]
      constructor <;> ring

theorem corner_scale (len nr : ℝ) (h0 : 0 ≤ nr) (h1 : nr ≤ len) :
    ∃ sc, 0 ≤ sc ∧ nr * sc ≤ len - nr ∧
      cornerScale len nr = .ok sc := by
  unfold cornerScale
  by_cases h : nr = 0
  · exact ⟨0, le_rfl, by rw [h]; linarith, by simp [h]⟩
  · have hp : 0 < nr := lt_of_le_of_ne h0 (Ne.symm h)
    refine ⟨min (len - nr) nr / nr, ?_, ?_, by simp [h, pyDiv]⟩
    · exact div_nonneg (le_min (by linarith) h0) h0
    · rw [mul_div_cancel₀ _ h]; exact min_le_left _ _

/-- The point at fraction `t` on the way from `b` to `a`. -/
def along (b a : Pt ℝ) (t : ℝ) : Pt ℝ := ⟨b.x + t * (a.x - b.x), b.y + t * (a.y - b.y)⟩

/-- The control point made on the side `v` of a corner `b`, before the corner. -/
noncomputable def cornerL (b : Pt ℝ) (v : Vec ℝ) (la s : ℝ) : CP ℝ :=
  ⟨b.addVector (v.mul la), ((v.mul la).mul bez90).mul s, ((v.mul la).mul bez90).neg, "smooth"⟩

/-- The control point made on the side `v` of a corner `b`, after the corner. -/
noncomputable def cornerR (b : Pt ℝ) (v : Vec ℝ) (la s : ℝ) : CP ℝ :=
  ⟨b.addVector (v.mul la), ((v.mul la).mul bez90).neg, ((v.mul la).mul bez90).mul s, "smooth"⟩

/-- The fraction and handle scale are such that everything stays on the near half of the side. -/
def CornerOk (len nr la s : ℝ) : Prop :=
  0 ≤ la ∧ la ≤ 1 / 2 ∧ la * len = nr ∧ 0 ≤ s ∧ la + la * bez90 * s ≤ 1 / 2

theorem roundedCorner_form (radius : ℝ) (a b c : Pt ℝ) (hr : 0 ≤ radius) :
    ∃ la sa lc sc, roundedCorner radius a b c = .ok (cornerL b (a.sub b) la sa, cornerR b (c.sub b) lc sc) ∧
      CornerOk (a.sub b).length (min radius (min ((a.sub b).length / 2) ((c.sub b).length / 2))) la sa ∧
      CornerOk (c.sub b).length (min radius (min ((a.sub b).length / 2) ((c.sub b).length / 2))) lc sc := by
  set nr := min radius (min ((a.sub b).length / 2) ((c.sub b).length / 2)) with hnr
  have n0 : 0 ≤ nr := le_min hr (le_min (by have := Vec.length_nonneg (a.sub b); linarith) (by have := Vec.length_nonneg (c.sub b); linarith))
  have na : nr ≤ (a.sub b).length / 2 := (min_le_right _ _).trans (min_le_left _ _)
  have nc : nr ≤ (c.sub b).length / 2 := (min_le_right _ _).trans (min_le_right _ _)
  obtain ⟨la, la0, la1, la2, la3, la4⟩ := corner_side (a.sub b) nr n0 na
  obtain ⟨lc, lc0, lc1, lc2, lc3, lc4⟩ := corner_side (c.sub b) nr n0 nc
  obtain ⟨sa, sa0, sa1, sa2⟩ := corner_scale _ nr n0 na
  obtain ⟨sc, sc0, sc1, sc2⟩ := corner_scale _ nr n0 nc
  obtain ⟨k0, k1⟩ := bez90_bounds
  have key : ∀ (lam s len : ℝ), 0 ≤ lam → lam ≤ 1 / 2 → lam * len = nr → (len = 0 → lam = 0) → 0 ≤ s → nr * s ≤ len / 2 - nr → 0 ≤ len →
      lam + lam * bez90 * s ≤ 1 / 2 := by
    intro lam s len h0 h1 h2 h3 h4 h5 h6
    rcases h6.eq_or_lt with h | h
    · rw [h3 h.symm]; norm_num
    · have hb : bez90 * (nr * s) ≤ len / 2 - nr := by
        have : 0 ≤ nr * s := mul_nonneg n0 h4
        nlinarith
      have : (lam + lam * bez90 * s) * len ≤ 1 / 2 * len := by
        have e : (lam + lam * bez90 * s) * len = lam * len + bez90 * (lam * len * s) := by ring
        rw [e, h2]; linarith
      exact le_of_mul_le_mul_right this h
  refine ⟨la, sa, lc, sc, ?_, ⟨la0, la1, la2, sa0, key _ _ _ la0 la1 la2 la3 sa0 sa1 (Vec.length_nonneg _)⟩,
    ⟨lc0, lc1, lc2, sc0, key _ _ _ lc0 lc1 lc2 lc3 sc0 sc1 (Vec.length_nonneg _)⟩⟩
  unfold roundedCorner
  simp only
  rw [← hnr, la4, lc4, sa2, sc2]
  rfl

/-- Centre and handle ends lie on the half of the side that is next to the corner. -/
theorem cornerL_along {b a : Pt ℝ} {nr la s : ℝ} (h : CornerOk (a.sub b).length nr la s) :
    (cornerL b (a.sub b) la s).c = along b a la ∧
    (∃ t, 0 ≤ t ∧ t ≤ 1 / 2 ∧ (cornerL b (a.sub b) la s).l = along b a t) ∧
    ∃ t, 0 ≤ t ∧ t ≤ 1 / 2 ∧ (cornerL b (a.sub b) la s).r = along b a t := by
  obtain ⟨h0, h1, h2, h3, h4⟩ := h
  obtain ⟨k0, k1⟩ := bez90_bounds
  refine ⟨?_, ⟨la + la * bez90 * s, by positivity, h4, ?_⟩, la - la * bez90, by nlinarith, by nlinarith, ?_⟩
  · ext <;> simp [cornerL, Pt.addVector, Vec.mul, Pt.sub, along] <;> ring
  · ext <;> simp [cornerL, CP.l, Pt.addVector, Vec.mul, Pt.sub, along] <;> ring
  · ext <;> simp [cornerL, CP.r, Pt.addVector, Vec.mul, Vec.neg, Pt.sub, along] <;> ring

theorem cornerR_along {b a : Pt ℝ} {nr la s : ℝ} (h : CornerOk (a.sub b).length nr la s) :
    (cornerR b (a.sub b) la s).c = along b a la ∧
    (∃ t, 0 ≤ t ∧ t ≤ 1 / 2 ∧ (cornerR b (a.sub b) la s).l = along b a t) ∧
    ∃ t, 0 ≤ t ∧ t ≤ 1 / 2 ∧ (cornerR b (a.sub b) la s).r = along b a t := by
  obtain ⟨h1, h2, h3⟩ := cornerL_along h
  exact ⟨h1, h3, h2⟩

theorem along_mem {bb : BBox ℝ} {a b : Pt ℝ} (ha : a ∈ bb.Region) (hb : b ∈ bb.Region) {t : ℝ} (h0 : 0 ≤ t) (h1 : t ≤ 1 / 2) :
    along b a t ∈ bb.Region := by
  cases bb with
  | none => exact ha
  | box xl yl xh yh =>
    obtain ⟨⟨a1, a2⟩, a3, a4⟩ := ha
    obtain ⟨⟨b1, b2⟩, b3, b4⟩ := hb
    refine ⟨⟨?_, ?_⟩, ?_, ?_⟩ <;> simp only [along] <;> nlinarith

/-- Centre and handle ends in a set. -/
def CP.Within (S : Set (Pt ℝ)) (cp : CP ℝ) : Prop := cp.c ∈ S ∧ cp.l ∈ S ∧ cp.r ∈ S

theorem dedupeStep_within {S : Set (Pt ℝ)} {s : List (CP ℝ) × List (CP ℝ)} (i : ℕ) (h1 : ∀ cp ∈ s.1, cp.Within S)
    (h2 : ∀ cp ∈ s.2, cp.Within S) : (∀ cp ∈ (dedupeStep s i).1, cp.Within S) ∧ ∀ cp ∈ (dedupeStep s i).2, cp.Within S := by
  unfold dedupeStep
  simp only
  split
  · rename_i a b c ha hb hc
    have hb' := h1 b (List.mem_of_getElem? hb)
    have hc' := h1 c (List.mem_of_getElem? hc)
    split_ifs with hbc hba
    · have hw : CP.Within S { b with dr := c.dr } := by
        refine ⟨hb'.1, hb'.2.1, ?_⟩
        have : CP.r { b with dr := c.dr } = c.r := by simp [CP.r, hbc]
        rw [this]; exact hc'.2.2
      constructor
      · intro cp hcp
        rcases List.mem_or_eq_of_mem_set hcp with h | h
        · exact h1 cp h
        · rw [h]; exact hw
      · intro cp hcp
        rcases List.mem_append.1 hcp with h | h
        · exact h2 cp h
        · rw [List.mem_singleton.1 h]; exact hw
    · exact ⟨h1, h2⟩
    · refine ⟨h1, fun cp hcp => ?_⟩
      rcases List.mem_append.1 hcp with h | h
      · exact h2 cp h
      · rw [List.mem_singleton.1 h]; exact hb'
  · exact ⟨h1, h2⟩

theorem dedupe_within {S : Set (Pt ℝ)} (cps : List (CP ℝ)) (h : ∀ cp ∈ cps, cp.Within S) : ∀ cp ∈ dedupe cps, cp.Within S := by
  have : ∀ (l : List ℕ) (s : List (CP ℝ) × List (CP ℝ)), (∀ cp ∈ s.1, cp.Within S) → (∀ cp ∈ s.2, cp.Within S) →
      ∀ cp ∈ (l.foldl dedupeStep s).2, cp.Within S := by
    intro l
    induction l with
    | nil => exact fun s _ h2 => h2
    | cons i l ih =>
      intro s h1 h2
      obtain ⟨h3, h4⟩ := dedupeStep_within i h1 h2
      exact ih _ h3 h4
  exact this _ _ h (by simp)

/-- The eight control points before duplicates are removed. `w`, `h` are the sides, `nr` the radius used. -/
theorem makeRoundedRect_eq (p1 p2 : Pt ℝ) (radius : ℝ) (hr : 0 ≤ radius) (w h nr : ℝ) (hw : w = |p1.x - p2.x|) (hh : h = |p1.y - p2.y|)
    (hnr : nr = min radius (min (w / 2) (h / 2))) :
    ∃ a0 s0 b0 t0 a1 s1 b1 t1 a2 s2 b2 t2 a3 s3 b3 t3,
      CornerOk w nr a0 s0 ∧ CornerOk h nr b0 t0 ∧ CornerOk h nr a1 s1 ∧ CornerOk w nr b1 t1 ∧
      CornerOk w nr a2 s2 ∧ CornerOk h nr b2 t2 ∧ CornerOk h nr a3 s3 ∧ CornerOk w nr b3 t3 ∧
      makeRoundedRect p1 p2 radius = .ok (dedupe
        [cornerL p1 ((⟨p2.x, p1.y⟩ : Pt ℝ).sub p1) a0 s0, cornerR p1 ((⟨p1.x, p2.y⟩ : Pt ℝ).sub p1) b0 t0,
         cornerL ⟨p1.x, p2.y⟩ (p1.sub ⟨p1.x, p2.y⟩) a1 s1, cornerR ⟨p1.x, p2.y⟩ (p2.sub ⟨p1.x, p2.y⟩) b1 t1,
         cornerL p2 ((⟨p1.x, p2.y⟩ : Pt ℝ).sub p2) a2 s2, cornerR p2 ((⟨p2.x, p1.y⟩ : Pt ℝ).sub p2) b2 t2,
         cornerL ⟨p2.x, p1.y⟩ (p2.sub ⟨p2.x, p1.y⟩) a3 s3, cornerR ⟨p2.x, p1.y⟩ (p1.sub ⟨p2.x, p1.y⟩) b3 t3]) := by
  obtain ⟨a0, s0, b0, t0, h0, o0, q0⟩ := roundedCorner_form radius ⟨p2.x, p1.y⟩ p1 ⟨p1.x, p2.y⟩ hr
  obtain ⟨a1, s1, b1, t1, h1, o1, q1⟩ := roundedCorner_form radius p1 ⟨p1.x, p2.y⟩ p2 hr
  obtain ⟨a2, s2, b2, t2, h2, o2, q2⟩ := roundedCorner_form radius ⟨p1.x, p2.y⟩ p2 ⟨p2.x, p1.y⟩ hr
  obtain ⟨a3, s3, b3, t3, h3, o3, q3⟩ := roundedCorner_form radius p2 ⟨p2.x, p1.y⟩ p1 hr
  have lx : ∀ x : ℝ, Vec.length (⟨x, 0⟩ : Vec ℝ) = |x| := by
    intro x; simp [Vec.length, hypot, Real.sqrt_mul_self_eq_abs]
  have ly : ∀ x : ℝ, Vec.length (⟨0, x⟩ : Vec ℝ) = |x| := by
    intro x; simp [Vec.length, hypot, Real.sqrt_mul_self_eq_abs]
  simp only [Pt.sub, sub_self, lx, ly, abs_sub_comm p2.x p1.x, abs_sub_comm p2.y p1.y, ← hw, ← hh, min_comm (h / 2) (w / 2), ← hnr] at o0 o1 o2 o3 q0 q1 q2 q3
  refine ⟨a0, s0, b0, t0, a1, s1, b1, t1, a2, s2, b2, t2, a3, s3, b3, t3, o0, q0, o1, q1, o2, q2, o3, q3, ?_⟩
  simp [makeRoundedRect, iterRotate3m1, h0, h1, h2, h3, bind, Except.bind, pure, Except.pure]

/-- The control polygon of a quarter turn about `o` from `o + v` to `o + u`. -/
noncomputable def quarter (o : Pt ℝ) (v u : Vec ℝ) : Poly4 ℝ :=
  ⟨o.addVector v, (o.addVector v).addVector (u.mul bez90), (o.addVector u).addVector (v.mul bez90), o.addVector u⟩

noncomputable def quarterX (t : ℝ) : ℝ := (1 - t) ^ 3 + 3 * (1 - t) ^ 2 * t + 3 * (1 - t) * t ^ 2 * bez90
noncomputable def quarterY (t : ℝ) : ℝ := 3 * (1 - t) ^ 2 * t * bez90 + 3 * (1 - t) * t ^ 2 + t ^ 3

theorem quarter_at (o : Pt ℝ) (v u : Vec ℝ) (t : ℝ) :
    (quarter o v u).at' t = ⟨o.x + quarterX t * v.x + quarterY t * u.x, o.y + quarterX t * v.y + quarterY t * u.y⟩ := by
  ext <;> simp only [quarter, Poly4.at', bern, Pt.addVector, Vec.mul, quarterX, quarterY] <;> ring

theorem quarter_swap (t : ℝ) : quarterX (1 - t) = quarterY t ∧ quarterY (1 - t) = quarterX t := by
  constructor <;> simp only [quarterX, quarterY] <;> ring

theorem bez90_rel : 9 * bez90 ^ 2 + 24 * bez90 - 16 = 0 := by
  rw [bez90_eq]; linear_combination 16 * sqrt2_sq

theorem quarter_radius (t : ℝ) :
    quarterX t ^ 2 + quarterY t ^ 2 = 1 + (9 * bez90 ^ 2 + 6 * bez90 - 6) * ((t * (1 - t)) ^ 2 * (1 - 4 * (t * (1 - t)))) := by
  simp only [quarterX, quarterY]
  linear_combination (2 * t ^ 3 * (1 - t) ^ 3) * bez90_rel

theorem quarter_bounds (t : ℝ) (h0 : 0 ≤ t) (h1 : t ≤ 1) :
    1 ≤ quarterX t ^ 2 + quarterY t ^ 2 ∧ quarterX t ^ 2 + quarterY t ^ 2 ≤ (1 + 3 / 10000) ^ 2 := by
  rw [quarter_radius]
  obtain ⟨s1, s2⟩ := sqrt2_bounds
  have hk : bez90 = 4 / 3 * (√2 - 1) := bez90_eq
  have c0 : 0 ≤ 9 * bez90 ^ 2 + 6 * bez90 - 6 := by nlinarith
  have c1 : 9 * bez90 ^ 2 + 6 * bez90 - 6 ≤ 60 / 1000 := by nlinarith
  have hu0 : 0 ≤ t * (1 - t) := mul_nonneg h0 (by linarith)
  have hu1 : 0 ≤ 1 - 4 * (t * (1 - t)) := by nlinarith [sq_nonneg (2 * t - 1)]
  generalize t * (1 - t) = u at *
  have b0 : 0 ≤ u ^ 2 * (1 - 4 * u) := by positivity
  have b1 : u ^ 2 * (1 - 4 * u) ≤ 1 / 108 := by
    nlinarith [mul_nonneg (sq_nonneg (u - 1 / 6)) (by linarith : (0 : ℝ) ≤ u + 1 / 12)]
  constructor
  · nlinarith [mul_nonneg c0 b0]
  · have := mul_le_mul c1 b1 b0 (by norm_num)
    norm_num at this ⊢
    linarith

theorem quarter_half : quarterX (1 / 2) = √2 / 2 ∧ quarterY (1 / 2) = √2 / 2 := by
  constructor <;> simp only [quarterX, quarterY, bez90_eq] <;> ring

theorem ellipse_segs (c : Pt ℝ) (rx ry : ℝ) :
    segs true (makeEllipseCps c rx ry) =
      [quarter c ⟨rx, 0⟩ ⟨0, -ry⟩, quarter c ⟨0, -ry⟩ ⟨-rx, 0⟩, quarter c ⟨-rx, 0⟩ ⟨0, ry⟩, quarter c ⟨0, ry⟩ ⟨rx, 0⟩] := by
  simp only [segs, if_true, closedSegs, makeEllipseCps, List.rotate, List.length_cons, List.length_nil]
  simp [seg, quarter, Pt.addVector, Pt.subVec, Vec.mul, Vec.neg]
  simp [sub_eq_add_neg]

end X7
