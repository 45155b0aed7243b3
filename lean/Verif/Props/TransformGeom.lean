import Mathlib.Tactic.Positivity
import Verif.Props.Transform
import Verif.Spec.Region
import Verif.Spec.Line

/-!
C24-C28: geometry of `Transform`.
-/

namespace X7
open TSpec

/-! ### C24 -/

theorem scaleBBox_apply (s : TState) (hs : s.mat.Affine) (start target : BBox ℝ) (k : Bool) :
    (s.scaleBBox start target k).st.mat.apply = (boxMaps start target k).foldl (fun f g => g ∘ f) s.mat.apply := by
  have h := scaleBBox_denotes (s := { s with stack := [] }) (a := ⟨s.mat.apply, []⟩) ⟨hs, rfl, by simp, rfl⟩ start target k
  refine Eq.trans ?_ h.cur
  simp only [TState.scaleBBox]
  repeat' split
  all_goals rfl

/-- C24: without keep_aspect, the point at relative position `(u, v)` of the start box goes to the point at the same
relative position of the target box (corners: `u, v ∈ {0, 1}`), on top of whatever the transform did before. -/
theorem C24_scale_bbox (s : TState) (hs : s.mat.Affine) (xl yl xh yh txl tyl txh tyh : ℝ) (hw : xl ≠ xh) (hh : yl ≠ yh) :
    let r := s.scaleBBox (.box xl yl xh yh) (.box txl tyl txh tyh) false
    r.err = none ∧ ∀ p u v, s.transform p = ⟨xl + u * (xh - xl), yl + v * (yh - yl)⟩ →
      r.st.transform p = ⟨txl + u * (txh - txl), tyl + v * (tyh - tyl)⟩ := by
  have hw' : xh - xl ≠ 0 := fun h => hw (by linarith)
  have hh' : yh - yl ≠ 0 := fun h => hh (by linarith)
  have hz : ¬ (xh - xl = 0 ∨ yh - yl = 0) := by tauto
  refine ⟨by simp [TState.scaleBBox, BBox.width, BBox.height, hz], ?_⟩
  intro p u v h
  have h' : s.mat.apply p = _ := h
  have := congrFun (scaleBBox_apply s hs (.box xl yl xh yh) (.box txl tyl txh tyh) false) p
  show (s.scaleBBox _ _ false).st.mat.apply p = _
  rw [this]
  simp only [boxMaps, hz, if_false, Bool.false_eq_true, List.foldl, Function.comp, h', shift, stretch]
  ext <;> simp only <;> field_simp <;> ring

/-- C24: with keep_aspect and boxes of positive size, the added map is a uniform positive scaling `k` that sends centre to
centre, keeps the start box inside the target box and fills it in at least one dimension. -/
theorem C24_scale_bbox_keep_aspect (s : TState) (hs : s.mat.Affine) (xl yl xh yh txl tyl txh tyh : ℝ)
    (hstart : (BBox.box xl yl xh yh).Fat) (htarget : (BBox.box txl tyl txh tyh).Fat) :
    let r := s.scaleBBox (.box xl yl xh yh) (.box txl tyl txh tyh) true
    r.err = none ∧ ∃ k, 0 < k ∧
      (∀ p, (r.st.transform p).x - (txl + txh) / 2 = k * ((s.transform p).x - (xl + xh) / 2) ∧
            (r.st.transform p).y - (tyl + tyh) / 2 = k * ((s.transform p).y - (yl + yh) / 2)) ∧
      (∀ p, s.transform p ∈ (BBox.box xl yl xh yh).Region → r.st.transform p ∈ (BBox.box txl tyl txh tyh).Region) ∧
      (k * (xh - xl) = txh - txl ∨ k * (yh - yl) = tyh - tyl) := by
  obtain ⟨hw, hh⟩ := hstart
  obtain ⟨htw, hth⟩ := htarget
  have hw' : 0 < xh - xl := by linarith
  have hh' : 0 < yh - yl := by linarith
  have htw' : 0 < txh - txl := by linarith
  have hth' : 0 < tyh - tyl := by linarith
  have hz : ¬ (xh - xl = 0 ∨ yh - yl = 0) := by
    rintro (h | h) <;> linarith
  have hap := scaleBBox_apply s hs (.box xl yl xh yh) (.box txl tyl txh tyh) true
  have key : ∀ p, (s.scaleBBox (.box xl yl xh yh) (.box txl tyl txh tyh) true).st.transform p = _ :=
    fun p => congrFun hap p
  simp only [boxMaps, hz, if_false, if_true, List.foldl, Function.comp, shift, stretch] at key
  set k := min ((txh - txl) / (xh - xl)) ((tyh - tyl) / (yh - yl)) with hk
  have hkpos : 0 < k := lt_min (div_pos htw' hw') (div_pos hth' hh')
  have hk1 : k * (xh - xl) ≤ txh - txl := by
    rw [← le_div_iff₀ hw']; exact min_le_left _ _
  have hk2 : k * (yh - yl) ≤ tyh - tyl := by
    rw [← le_div_iff₀ hh']; exact min_le_right _ _
  have hmap : ∀ p, ((s.scaleBBox (.box xl yl xh yh) (.box txl tyl txh tyh) true).st.transform p).x - (txl + txh) / 2
        = k * ((s.transform p).x - (xl + xh) / 2) ∧
      ((s.scaleBBox (.box xl yl xh yh) (.box txl tyl txh tyh) true).st.transform p).y - (tyl + tyh) / 2
        = k * ((s.transform p).y - (yl + yh) / 2) := by
    intro p
    rw [key p]
    show _ = k * ((s.mat.apply p).x - _) ∧ _ = k * ((s.mat.apply p).y - _)
    constructor <;> simp only <;> ring
  refine ⟨by simp [TState.scaleBBox, BBox.width, BBox.height, hz], k, hkpos, hmap, ?_, ?_⟩
  · intro p ⟨⟨h1, h2⟩, h3, h4⟩
    obtain ⟨e1, e2⟩ := hmap p
    set q := s.transform p
    refine ⟨⟨?_, ?_⟩, ?_, ?_⟩
    · nlinarith
    · nlinarith
    · nlinarith
    · nlinarith
  · rcases le_total ((txh - txl) / (xh - xl)) ((tyh - tyl) / (yh - yl)) with h | h
    · left; rw [hk, min_eq_left h]; field_simp
    · right; rw [hk, min_eq_right h]; field_simp

/-- C24: a start box of zero width or height (or the none box, with keep_aspect) raises `ZeroDivisionError`, and the
transform is left unchanged with keep_aspect but already translated without it. -/
theorem C24_zero_size (s : TState) (xl yl xh yh : ℝ) (target : BBox ℝ) (h : xh = xl ∨ yh = yl) :
    s.scaleBBox (.box xl yl xh yh) target true = ⟨s, some .zeroDivision⟩ ∧
    s.scaleBBox (.box xl yl xh yh) target false = ⟨s.translate (-xl) (-yl), some .zeroDivision⟩ := by
  have hz : xh - xl = 0 ∨ yh - yl = 0 := by rcases h with h | h <;> simp [h]
  simp [TState.scaleBBox, BBox.width, BBox.height, hz]

/-- C24: the none box raises, as start or as target. -/
theorem C24_none (s : TState) (b : BBox ℝ) (keep : Bool) :
    (s.scaleBBox .none b keep).err ≠ none ∧ (s.scaleBBox b .none keep).err ≠ none := by
  constructor
  · cases keep <;> simp [TState.scaleBBox, BBox.width]
  · simp only [TState.scaleBBox]
    repeat' split
    all_goals simp_all

example : (BBox.box 0 0 2 (1 : ℝ)).Fat ∧ (BBox.box 5 5 6 (9 : ℝ)).Fat := by norm_num [BBox.Fat]

/-! ### C25 -/

/-- The map a call adds to a new transform. -/
theorem rotate_new (d : ℝ) : (TState.new.rotate d).transform = turnCw d := by
  show ((Mat3.rotateMat _ _).mul Mat3.one).apply = _
  rw [Mat3.mul_one', apply_rotateMat]

theorem rotateCcw_new (d : ℝ) : (TState.new.rotateCcw d).transform = turnCcw d := by
  show ((Mat3.rotateMatCcw _ _).mul Mat3.one).apply = _
  rw [Mat3.mul_one', apply_rotateMatCcw]

theorem rotateAbout_new (d : ℝ) (c : Pt ℝ) : (TState.new.rotateAbout d c).transform = turnAbout d c := by
  show (Mat3.mul _ Mat3.one).apply = _
  rw [Mat3.mul_one']
  exact (rotateAbout_mat d c).2

theorem dist_eq_of_sq {p q p' q' : Pt ℝ}
    (h : (p.x - q.x) ^ 2 + (p.y - q.y) ^ 2 = (p'.x - q'.x) ^ 2 + (p'.y - q'.y) ^ 2) :
    Line.dist p q = Line.dist p' q' := by
  unfold Line.dist; rw [h]

/-- C25: all three rotations preserve distances. -/
theorem C25_isometry (d : ℝ) (c p q : Pt ℝ) :
    Line.dist ((TState.new.rotate d).transform p) ((TState.new.rotate d).transform q) = Line.dist p q ∧
    Line.dist ((TState.new.rotateCcw d).transform p) ((TState.new.rotateCcw d).transform q) = Line.dist p q ∧
    Line.dist ((TState.new.rotateAbout d c).transform p) ((TState.new.rotateAbout d c).transform q) = Line.dist p q := by
  rw [rotate_new, rotateCcw_new, rotateAbout_new]
  have h := Real.sin_sq_add_cos_sq (radians d)
  refine ⟨dist_eq_of_sq ?_, dist_eq_of_sq ?_, dist_eq_of_sq ?_⟩ <;>
    simp only [turnAbout, turnCw, turnCcw, shift] <;>
    linear_combination ((p.x - q.x) ^ 2 + (p.y - q.y) ^ 2) * h

/-- C25: angles add up (on any transform, not only a new one). -/
theorem C25_additive (s : TState) (a b : ℝ) (c : Pt ℝ) :
    ((s.rotate a).rotate b).mat = (s.rotate (a + b)).mat ∧
    ((s.rotateCcw a).rotateCcw b).mat = (s.rotateCcw (a + b)).mat ∧
    ((s.rotateAbout a c).rotateAbout b c).mat = (s.rotateAbout (a + b) c).mat := by
  refine ⟨?_, ?_, ?_⟩
  all_goals
    simp only [TState.rotate, TState.rotateCcw, TState.rotateAbout, TState.translate, TState.new, ← Mat3.mul_assoc',
      radians_add, Real.cos_add, Real.sin_add]
    congr 1
    ext <;> simp [Mat3.mul, Mat3.rotateMat, Mat3.rotateMatCcw, Mat3.translateMat, Mat3.one] <;> ring

/-- C25: `rotate` and `rotate_ccw` undo each other, `rotate_about` is undone by the opposite angle. -/
theorem C25_inverse (s : TState) (a : ℝ) (c : Pt ℝ) :
    ((s.rotate a).rotateCcw a).mat = s.mat ∧ ((s.rotateCcw a).rotate a).mat = s.mat ∧
    ((s.rotateAbout a c).rotateAbout (-a) c).mat = s.mat := by
  have h := Real.sin_sq_add_cos_sq (radians a)
  refine ⟨?_, ?_, ?_⟩
  · show Mat3.mul _ (Mat3.mul _ _) = _
    rw [← Mat3.mul_assoc']
    convert Mat3.one_mul' s.mat using 2
    ext <;> simp [Mat3.mul, Mat3.rotateMat, Mat3.rotateMatCcw, Mat3.one] <;> first | ring1 | linear_combination h
  · show Mat3.mul _ (Mat3.mul _ _) = _
    rw [← Mat3.mul_assoc']
    convert Mat3.one_mul' s.mat using 2
    ext <;> simp [Mat3.mul, Mat3.rotateMat, Mat3.rotateMatCcw, Mat3.one] <;> first | ring1 | linear_combination h
  · rw [(C25_additive s a (-a) c).2.2]
    have h0 : radians 0 = 0 := by simp [radians]
    show Mat3.mul _ _ = _
    convert Mat3.one_mul' s.mat using 2
    ext <;> simp [TState.translate, TState.rotate, TState.new, Mat3.mul, Mat3.rotateMat, Mat3.translateMat, Mat3.one, h0]

/-- C25: `rotate_about` fixes its centre. -/
theorem C25_fixes_centre (s : TState) (hs : s.mat.Affine) (a : ℝ) (c p : Pt ℝ) (h : s.transform p = c) :
    (s.rotateAbout a c).transform p = c := by
  show (Mat3.mul _ _).apply p = c
  rw [Mat3.apply_mul hs, (rotateAbout_mat a c).2, show s.mat.apply p = c from h]
  ext <;> simp [turnAbout, turnCw, shift]

/-- C25: `rotate_ccw` is `Vector.rotate`; `rotate` is `Vector.rotate` by the opposite angle, i.e. clockwise, contrary to
its documentation. -/
theorem C25_sense (d : ℝ) (p : Pt ℝ) :
    (TState.new.rotateCcw d).transform p = (p.v.rotate d).p ∧
    (TState.new.rotate d).transform p = (p.v.rotate (-d)).p := by
  rw [rotate_new, rotateCcw_new]
  constructor
  · ext <;> simp [turnCcw, Vec.rotate, Vec.p, Pt.v]
  · ext <;> simp [turnCw, Vec.rotate, Vec.p, Pt.v, radians_neg]

/-- C25: `rotate(90)` sends (1, 0) to (0, -1). -/
theorem C25_rotate_doc_counterexample :
    (TState.new.rotate 90).transform ⟨1, 0⟩ = ⟨0, -1⟩ := by
  rw [rotate_new]
  have h90 : radians 90 = Real.pi / 2 := by simp [radians]; ring
  ext <;> simp [turnCw, h90]

/-! ### C26 -/

/-- Snapping as documented: entries below 1e-16 in absolute value become 0. -/
noncomputable def snapped (v v' : ℝ) : Prop := (|v| < 1 / 10 ^ 16 ∧ v' = 0) ∨ (1 / 10 ^ 16 ≤ |v| ∧ v' = v)

open Classical in
theorem snapped_ite (v : ℝ) : snapped v (if TState.nearZero v then 0 else v) := by
  unfold snapped TState.nearZero
  by_cases h : |v| < 1 / 10 ^ 16
  · left; simp only [h, if_true, and_self]
  · right; rw [if_neg h]; exact ⟨not_lt.1 h, rfl⟩

/-- C26: `simplify` returns two affine transforms whose composition (first after second) is the original matrix with small
entries of the linear part snapped to 0; the second has no translation. -/
theorem C26_simplify (s : TState) :
    let r := s.simplify
    let m := r.1.mat.mul r.2.mat
    r.1.mat.Affine ∧ r.2.mat.Affine ∧ r.2.mat.c = 0 ∧ r.2.mat.f = 0 ∧
    snapped s.mat.a m.a ∧ snapped s.mat.b m.b ∧ m.c = s.mat.c ∧
    snapped s.mat.d m.d ∧ snapped s.mat.e m.e ∧ m.f = s.mat.f ∧ m.Affine := by
  unfold TState.simplify
  split
  · simp only [TState.new6, TState.new, Mat3.mul_one']
    exact ⟨⟨rfl, rfl, rfl⟩, ⟨rfl, rfl, rfl⟩, rfl, rfl, snapped_ite _, snapped_ite _, rfl, snapped_ite _,
      snapped_ite _, rfl, ⟨rfl, rfl, rfl⟩⟩
  · have e : ∀ a b c d e f : ℝ, (Mat3.of6 1 0 c 0 1 f).mul (Mat3.of6 a b 0 d e 0) = Mat3.of6 a b c d e f := by
      intros; ext <;> simp [Mat3.mul, Mat3.of6]
    simp only [TState.new6, e]
    exact ⟨⟨rfl, rfl, rfl⟩, ⟨rfl, rfl, rfl⟩, rfl, rfl, snapped_ite _, snapped_ite _, rfl, snapped_ite _,
      snapped_ite _, rfl, ⟨rfl, rfl, rfl⟩⟩

/-- C26: if no entry of the linear part is non-zero and below 1e-16, the composition transforms every point as the original. -/
theorem C26_simplify_exact (s : TState) (hs : s.mat.Affine)
    (h : ∀ v ∈ [s.mat.a, s.mat.b, s.mat.d, s.mat.e], v = 0 ∨ 1 / 10 ^ 16 ≤ |v|) (p : Pt ℝ) :
    s.simplify.1.transform (s.simplify.2.transform p) = s.transform p := by
  obtain ⟨_, h2, _, _, ha, hb, hc, hd, he, hf, hm⟩ := C26_simplify s
  have fix : ∀ v v', (v = 0 ∨ 1 / 10 ^ 16 ≤ |v|) → snapped v v' → v' = v := by
    rintro v v' (h | h) (⟨h1, h2⟩ | ⟨h1, h2⟩)
    · rw [h2, h]
    · exact h2
    · exact absurd h1 (not_lt.2 h)
    · exact h2
  show s.simplify.1.mat.apply (s.simplify.2.mat.apply p) = s.mat.apply p
  rw [← Mat3.apply_mul h2]
  congr 1
  obtain ⟨g1, g2, g3⟩ := hs
  obtain ⟨k1, k2, k3⟩ := hm
  ext
  · exact fix _ _ (h _ (by simp)) ha
  · exact fix _ _ (h _ (by simp)) hb
  · exact hc
  · exact fix _ _ (h _ (by simp)) hd
  · exact fix _ _ (h _ (by simp)) he
  · exact hf
  · rw [k1, g1]
  · rw [k2, g2]
  · rw [k3, g3]

/-- C26: `is_simple` holds exactly if the images of the two unit axes, taken from the image of the origin, are along the
axes (either both keep their axis or both swap), up to the threshold. -/
theorem C26_is_simple (s : TState) :
    s.isSimple ↔
      let o := s.transform ⟨0, 0⟩
      let i := s.transform ⟨1, 0⟩
      let j := s.transform ⟨0, 1⟩
      (|j.x - o.x| < 1 / 10 ^ 16 ∧ |i.y - o.y| < 1 / 10 ^ 16) ∨ (|i.x - o.x| < 1 / 10 ^ 16 ∧ |j.y - o.y| < 1 / 10 ^ 16) := by
  simp [TState.isSimple, TState.nearZero, TState.transform, Mat3.apply]

/-- C26: a simple transform is returned unchanged as the first part and the second is the identity; otherwise the first is
a pure translation. -/
theorem C26_parts (s : TState) (p : Pt ℝ) :
    (s.isSimple → s.simplify.2.transform p = p) ∧
    (¬ s.isSimple → s.simplify.1.transform p = ⟨p.x + s.mat.c, p.y + s.mat.f⟩) := by
  constructor
  · intro h
    simp only [TState.simplify, h, if_true]
    exact Mat3.apply_one p
  · intro h
    simp only [TState.simplify, h, if_false]
    ext <;> simp [TState.transform, TState.new6, Mat3.of6, Mat3.apply]

example : (TState.new6 2 1 5 0 3 7).mat.Affine ∧
    ∀ v ∈ [(2 : ℝ), 1, 0, 3], v = 0 ∨ 1 / 10 ^ 16 ≤ |v| := by
  refine ⟨⟨rfl, rfl, rfl⟩, ?_⟩
  intro v hv
  simp only [List.mem_cons, List.not_mem_nil, or_false] at hv
  rcases hv with rfl | rfl | rfl | rfl <;> norm_num

/-! ### C27 -/

/-- C27: `canvas_fit`. -/
theorem C27_canvas_fit (w h zoom zx zy : ℝ) (p : Pt ℝ) :
    (TState.canvasFit w h zoom zx zy).transform p = ⟨zoom * p.x + zx, h - (zoom * p.y + zy)⟩ := by
  ext <;> simp [TState.canvasFit, TState.scale, TState.translate, TState.new, TState.transform, Mat3.mul, Mat3.apply,
    Mat3.scaleMat, Mat3.translateMat, Mat3.one] <;> ring

/-- C27: `scale_vals` are the lengths of the images of the unit axes. -/
theorem C27_scale_vals (s : TState) :
    s.scaleVals = (Line.dist (s.transform ⟨1, 0⟩) (s.transform ⟨0, 0⟩), Line.dist (s.transform ⟨0, 1⟩) (s.transform ⟨0, 0⟩)) := by
  simp [TState.scaleVals, hypot, Line.dist, TState.transform, Mat3.apply, sq]

/-- C27: `transform_width` is linear in the width and non-negative for non-negative widths. -/
theorem C27_width_linear (s : TState) (a b w : ℝ) :
    s.transformWidth (a + b) = s.transformWidth a + s.transformWidth b ∧
    s.transformWidth (a * w) = a * s.transformWidth w ∧ (0 ≤ w → 0 ≤ s.transformWidth w) := by
  refine ⟨by simp only [TState.transformWidth]; ring, by simp only [TState.transformWidth]; ring, ?_⟩
  intro h
  simp only [TState.transformWidth]
  positivity

/-- C27: for a similarity of ratio `k` (all distances scaled by `k`), `transform_width` scales by `k`. -/
theorem C27_width_similarity (s : TState) (k : ℝ)
    (h : ∀ p q, Line.dist (s.transform p) (s.transform q) = k * Line.dist p q) (w : ℝ) :
    s.transformWidth w = w * |k| := by
  have h0 : Line.dist (⟨1, 0⟩ : Pt ℝ) ⟨0, 0⟩ = 1 := by simp [Line.dist]
  have h1 : Line.dist (⟨0, 1⟩ : Pt ℝ) ⟨0, 0⟩ = 1 := by simp [Line.dist]
  simp only [TState.transformWidth, C27_scale_vals, h, h0, h1, mul_one]
  ring

example : ∀ p q, Line.dist ((TState.new.scale 3 3).transform p) ((TState.new.scale 3 3).transform q) = 3 * Line.dist p q := by
  intro p q
  have h3 : (3 : ℝ) = Real.sqrt (3 ^ 2) := by rw [Real.sqrt_sq]; norm_num
  unfold Line.dist
  conv_rhs => rw [h3, ← Real.sqrt_mul (by norm_num)]
  congr 1
  simp [TState.scale, TState.new, TState.transform, Mat3.mul, Mat3.apply, Mat3.scaleMat, Mat3.one]; ring

/-! ### C28 -/

/-- C28: `transform_pts` is pointwise `transform`, in order; the kind of every output is that of the first input; an empty
list raises. -/
theorem C28_transform_pts (s : TState) (pts : List (Bool × Pt ℝ)) :
    (∀ k p rest, pts = (k, p) :: rest → s.transformPtsKind pts = .ok (pts.map fun q => (k, s.transform q.2))) ∧
    (pts = [] → s.transformPtsKind pts = .error .value) := by
  constructor
  · rintro k p rest rfl
    simp [TState.transformPtsKind, TState.transform, Mat3.apply3, Mat3.apply]
  · rintro rfl; rfl

theorem C28_transform_pts_plain (s : TState) (pts : List (Pt ℝ)) (h : pts ≠ []) :
    s.transformPts pts = .ok (pts.map s.transform) := by
  cases pts with
  | nil => exact absurd rfl h
  | cons p ps => simp [TState.transformPts, TState.transform, Mat3.apply3, Mat3.apply]

/-- C28: the flattened form is the concatenation of the transformed pairs. -/
theorem C28_flatten (s : TState) (pts : List (Pt ℝ)) (h : pts ≠ []) :
    s.transformPtsFlat pts = .ok ((pts.map s.transform).flatMap fun p => [p.x, p.y]) := by
  cases pts with
  | nil => exact absurd rfl h
  | cons p ps =>
    simp [TState.transformPtsFlat, TState.transform, Mat3.apply3, Mat3.apply, List.flatMap_map]

/-- C28: `untransform_pts` is pointwise `untransform` and leaves the object as a single `untransform` would. -/
theorem C28_untransform_pts (s : TState) (pts : List (Pt ℝ)) (h : pts ≠ []) (p : Pt ℝ) :
    (s.untransformPts pts).1 = (s.untransform p).1 ∧
    (s.untransformPts pts).2 = pts.mapM (fun q => (s.untransform q).2) := by
  refine ⟨by rw [untransformPts_same, untransform_same], ?_⟩
  cases hr : s.inverse with
  | mk s' r =>
    cases r with
    | error e =>
      cases pts with
      | nil => exact absurd rfl h
      | cons q qs =>
        simp [TState.untransformPts, TState.untransform, hr, List.mapM_cons, bind, Except.bind]
    | ok i =>
      have : ∀ l : List (Pt ℝ), l.mapM (fun q => (s.untransform q).2) = .ok (l.map i.apply) := by
        intro l
        induction l with
        | nil => rfl
        | cons q qs ih =>
          rw [List.mapM_cons, ih]
          simp [TState.untransform, hr, bind, Except.bind, pure, Except.pure]
      rw [this]
      cases pts with
      | nil => exact absurd rfl h
      | cons q qs => simp [TState.untransformPts, hr, Mat3.apply3, Mat3.apply]

end X7
