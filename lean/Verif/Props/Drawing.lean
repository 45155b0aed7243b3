import Mathlib.Data.Set.Lattice
import Mathlib.Tactic.NormNum
import Mathlib.Tactic.Linarith
import Verif.Spec.Drawing
import Verif.Props.Transform

/-!
C63: helpers of `DrawingContext`. C64: `image_fix_palette`.
-/

namespace X7.Drawing

variable {I C : Type}

/-! ### C63: pixel boxes -/

/-- C63: the union of the smallest boxes around two sets of pixels is the smallest box around both. -/
theorem C63_bbox_max_tight {S T : Set (ℤ × ℤ)} {a b : PBox} (ha : Tight S a) (hb : Tight T b) :
    ∃ c, bboxMax (some a) (some b) = .ok c ∧ Tight (S ∪ T) c := by
  refine ⟨_, rfl, ?_, ?_, ?_, ?_, ?_⟩
  · rintro p (hp | hp)
    · have := ha.1 p hp
      simp only [PBox.Mem] at this ⊢
      omega
    · have := hb.1 p hp
      simp only [PBox.Mem] at this ⊢
      omega
  · obtain ⟨p, hp, h1⟩ := ha.2.1
    obtain ⟨q, hq, h2⟩ := hb.2.1
    rcases le_total a.xl b.xl with h | h
    · exact ⟨p, .inl hp, by simp only; omega⟩
    · exact ⟨q, .inr hq, by simp only; omega⟩
  · obtain ⟨p, hp, h1⟩ := ha.2.2.1
    obtain ⟨q, hq, h2⟩ := hb.2.2.1
    rcases le_total b.xh a.xh with h | h
    · exact ⟨p, .inl hp, by simp only; omega⟩
    · exact ⟨q, .inr hq, by simp only; omega⟩
  · obtain ⟨p, hp, h1⟩ := ha.2.2.2.1
    obtain ⟨q, hq, h2⟩ := hb.2.2.2.1
    rcases le_total a.yl b.yl with h | h
    · exact ⟨p, .inl hp, by simp only; omega⟩
    · exact ⟨q, .inr hq, by simp only; omega⟩
  · obtain ⟨p, hp, h1⟩ := ha.2.2.2.2
    obtain ⟨q, hq, h2⟩ := hb.2.2.2.2
    rcases le_total b.yh a.yh with h | h
    · exact ⟨p, .inl hp, by simp only; omega⟩
    · exact ⟨q, .inr hq, by simp only; omega⟩

/-- C63: `bbox_max` is commutative, associative and idempotent on boxes. -/
theorem C63_bbox_max_algebra (a b c : PBox) :
    bboxMax (some a) (some b) = bboxMax (some b) (some a) ∧ bboxMax (some a) (some a) = .ok a ∧
      ∃ ab bc, bboxMax (some a) (some b) = .ok ab ∧ bboxMax (some b) (some c) = .ok bc ∧
        bboxMax (some ab) (some c) = bboxMax (some a) (some bc) := by
  refine ⟨?_, ?_, _, _, rfl, rfl, ?_⟩
  · simp [bboxMax, min_comm, max_comm]
  · simp [bboxMax]
  · simp [bboxMax, min_assoc, max_assoc]

/-- C63 (false): the box of an empty image, `None`, is not neutral but a `TypeError`. -/
theorem C63_bbox_max_none_counterexample (a : Option PBox) :
    bboxMax a none = .error .type ∧ bboxMax none a = .error .type := by
  cases a <;> exact ⟨rfl, rfl⟩

/-- The smallest box around a set of pixels is unique. -/
theorem tight_unique {S : Set (ℤ × ℤ)} {a b : PBox} (ha : Tight S a) (hb : Tight S b) : a = b := by
  obtain ⟨ha, ⟨p1, h1, e1⟩, ⟨p2, h2, e2⟩, ⟨p3, h3, e3⟩, ⟨p4, h4, e4⟩⟩ := ha
  obtain ⟨hb, ⟨q1, k1, f1⟩, ⟨q2, k2, f2⟩, ⟨q3, k3, f3⟩, ⟨q4, k4, f4⟩⟩ := hb
  have a1 := hb p1 h1; have a2 := hb p2 h2; have a3 := hb p3 h3; have a4 := hb p4 h4
  have b1 := ha q1 k1; have b2 := ha q2 k2; have b3 := ha q3 k3; have b4 := ha q4 k4
  simp only [PBox.Mem] at *
  ext <;> omega

theorem maxBBoxGo_tight {S : Set (ℤ × ℤ)} {a : PBox} (ha : Tight S a) :
    ∀ (l : List (Set (ℤ × ℤ) × PBox)), (∀ x ∈ l, Tight x.1 x.2) →
      ∃ c, maxBBoxGo (some a) (l.map fun x => some x.2) = .ok (some c) ∧ Tight (S ∪ {p | ∃ x ∈ l, p ∈ x.1}) c
  | [], _ => ⟨a, rfl, by simpa using ha⟩
  | x :: l, h => by
    obtain ⟨c, hc, ht⟩ := C63_bbox_max_tight ha (h x (by simp))
    obtain ⟨d, hd, htd⟩ := maxBBoxGo_tight ht l fun y hy => h y (by simp [hy])
    refine ⟨d, ?_, ?_⟩
    · simp only [List.map_cons, maxBBoxGo, hc]
      exact hd
    · have e : S ∪ {p | ∃ y ∈ x :: l, p ∈ y.1} = S ∪ x.1 ∪ {p | ∃ y ∈ l, p ∈ y.1} := by
        ext p
        simp [or_assoc]
      rw [e]
      exact htd

/-- C63: `max_bbox` of images none of which is empty is the smallest box around all their pixels. -/
theorem C63_max_bbox (l : List (Set (ℤ × ℤ) × PBox)) (hl : l ≠ []) (h : ∀ x ∈ l, GetBBox x.1 (some x.2)) :
    ∃ c, maxBBox (l.map fun x => some x.2) = .ok (some c) ∧ Tight {p | ∃ x ∈ l, p ∈ x.1} c := by
  match l, hl with
  | x :: l, _ =>
    obtain ⟨c, hc, ht⟩ := maxBBoxGo_tight (h x (by simp)) l fun y hy => h y (by simp [hy])
    refine ⟨c, hc, ?_⟩
    have e : {p | ∃ y ∈ x :: l, p ∈ y.1} = x.1 ∪ {p | ∃ y ∈ l, p ∈ y.1} := by
      ext p
      simp
    rw [e]
    exact ht

/-- C63: the automatic crop of `save_animation` stays within the first image, and keeps every pixel of every image lying within
that size. -/
theorem C63_autocrop (xs ys : ℤ) (l : List (Set (ℤ × ℤ) × PBox)) (hl : l ≠ []) (h : ∀ x ∈ l, GetBBox x.1 (some x.2))
    (hin : ∀ x ∈ l, ∀ p ∈ x.1, 0 ≤ p.1 ∧ p.1 < xs ∧ 0 ≤ p.2 ∧ p.2 < ys) :
    ∃ c, autocropBox xs ys (l.map fun x => some x.2) = .ok c ∧ (∀ x ∈ l, ∀ p ∈ x.1, c.Mem p) ∧
      0 ≤ c.xl ∧ 0 ≤ c.yl ∧ c.xh ≤ xs ∧ c.yh ≤ ys ∧
      -- the margin is 16 pixels where the image is large enough
      (∀ b, Tight {p | ∃ x ∈ l, p ∈ x.1} b → (c.xl = b.xl - 16 ∨ c.xl = 0 ∧ b.xl < 16) ∧ (c.yl = b.yl - 16 ∨ c.yl = 0 ∧ b.yl < 16) ∧
        (c.xh = b.xh + 16 ∨ c.xh = xs ∧ xs < b.xh + 16) ∧ (c.yh = b.yh + 16 ∨ c.yh = ys ∧ ys < b.yh + 16)) := by
  obtain ⟨b, hb, ht⟩ := C63_max_bbox l hl h
  have e : autocropBox xs ys (l.map fun x => some x.2) =
      .ok ⟨max 0 (b.xl - 16), max 0 (b.yl - 16), min xs (b.xh + 16), min ys (b.yh + 16)⟩ := by
    rw [autocropBox, hb]
  refine ⟨_, e, ?_, ?_, ?_, ?_, ?_, ?_⟩
  · intro x hx p hp
    have h1 := ht.1 p ⟨x, hx, hp⟩
    have h2 := hin x hx p hp
    simp only [PBox.Mem] at h1 ⊢
    omega
  · simp
  · simp
  · simp
  · simp
  · intro b' hb'
    obtain rfl := tight_unique ht hb'
    simp only
    omega

/-- C63 (a single empty frame among others makes saving fail). -/
theorem C63_autocrop_empty_counterexample (xs ys : ℤ) (a : Option PBox) (l : List (Option PBox)) :
    autocropBox xs ys (a :: none :: l) = .error .type := by
  simp [autocropBox, maxBBox, maxBBoxGo, (C63_bbox_max_none_counterexample a).1]

/-! ### C63: scaling -/

/-- C63: `unscale_pt` inverts `scale_pt` on both sides whenever the matrix is invertible, and raises otherwise; for an affine matrix
(C21: every one built by the methods of `Transform`) with a correct cached inverse, if any (C22). -/
theorem C63_scale_unscale (m : TState) (haf : m.mat.Affine) (hc : ∀ i, m.inv = some i → m.mat.inv = .ok i) (x y : ℝ) :
    (m.mat.det ≠ 0 → (unscalePt m (scalePt m x y).x (scalePt m x y).y).2 = .ok ⟨x, y⟩ ∧
      ∃ q, (unscalePt m x y).2 = .ok q ∧ scalePt m q.x q.y = ⟨x, y⟩) ∧
    (m.mat.det = 0 → (unscalePt m x y).2 = .error .linAlg) := by
  have hun : ∀ q, (m.untransform q).2 = (m.mat.inv).map (fun i => i.apply q) := by
    intro q
    rw [← inverse_val hc]
    unfold TState.untransform
    split <;> rename_i h <;> rw [h] <;> rfl
  simp only [unscalePt, scalePt, hun, TState.transform]
  constructor
  · intro hd
    obtain ⟨i, hi⟩ := Mat3.inv_isOk hd
    obtain ⟨_, h1, h2⟩ := Mat3.inv_ok hi
    have hia := Mat3.inv_affine haf hi
    refine ⟨?_, i.apply ⟨x, y⟩, ?_, ?_⟩
    · rw [hi]
      show Except.ok (i.apply (m.mat.apply ⟨x, y⟩)) = _
      rw [← Mat3.apply_mul haf, h2, Mat3.apply_one]
    · rw [hi]; rfl
    · show m.mat.apply (i.apply ⟨x, y⟩) = _
      rw [← Mat3.apply_mul hia, h1, Mat3.apply_one]
  · intro hd
    rw [Mat3.inv, if_pos hd]; rfl

/-- Non-vacuity: the matrix `Transform().scale(5, -5).translate(500, 500)` of `run_model` (anim.py:580). -/
example : let m := ((TState.new.scale 5 (-5)).translate 500 500)
    m.mat.Affine ∧ (∀ i, m.inv = some i → m.mat.inv = .ok i) ∧ m.mat.det ≠ 0 := by
  refine ⟨?_, ?_, ?_⟩
  · simp [TState.scale, TState.translate, TState.new, Mat3.Affine, Mat3.mul, Mat3.scaleMat, Mat3.translateMat, Mat3.one]
  · simp [TState.scale, TState.translate]
  · norm_num [TState.scale, TState.translate, TState.new, Mat3.det, Mat3.mul, Mat3.scaleMat, Mat3.translateMat, Mat3.one]

theorem pyInt_near (x : ℝ) : |(pyInt x : ℝ) - x| < 1 := by
  unfold pyInt
  split
  · rw [abs_lt]
    constructor
    · linarith [Int.lt_floor_add_one x]
    · linarith [Int.floor_le x]
  · rw [abs_lt]
    constructor
    · linarith [Int.le_ceil x]
    · linarith [Int.ceil_lt_add_one x]

theorem pyInt_mono {x y : ℝ} (h : x ≤ y) : pyInt x ≤ pyInt y := by
  unfold pyInt
  split
  · rw [if_pos (by linarith)]
    exact Int.floor_mono h
  · rename_i hx
    split
    · have h1 : ⌈x⌉ ≤ 0 := Int.ceil_le.2 (by push_cast; linarith)
      have h2 : 0 ≤ ⌊y⌋ := Int.le_floor.2 (by push_cast; linarith)
      omega
    · exact Int.ceil_mono h

theorem pyInt_min (x y : ℝ) : min (pyInt x) (pyInt y) = pyInt (min x y) := by
  rcases le_total x y with h | h
  · rw [min_eq_left h, min_eq_left (pyInt_mono h)]
  · rw [min_eq_right h, min_eq_right (pyInt_mono h)]

theorem pyInt_max (x y : ℝ) : max (pyInt x) (pyInt y) = pyInt (max x y) := by
  rcases le_total x y with h | h
  · rw [max_eq_right h, max_eq_right (pyInt_mono h)]
  · rw [max_eq_left h, max_eq_left (pyInt_mono h)]

/-- C63: `crop_to_pixels` returns an ordered box, each side of which is within one pixel of the box spanned by the two mapped
corners; the order of the corners does not matter. -/
theorem C63_crop (m : TState) (c0 c1 c2 c3 : ℝ) :
    let b := cropToPixels m c0 c1 c2 c3
    let p := scalePt m c0 c1
    let q := scalePt m c2 c3
    b.xl ≤ b.xh ∧ b.yl ≤ b.yh ∧
      |(b.xl : ℝ) - min p.x q.x| < 1 ∧ |(b.xh : ℝ) - max p.x q.x| < 1 ∧ |(b.yl : ℝ) - min p.y q.y| < 1 ∧
      |(b.yh : ℝ) - max p.y q.y| < 1 ∧ cropToPixels m c2 c3 c0 c1 = b := by
  simp only [cropToPixels, pyInt_min, pyInt_max]
  refine ⟨pyInt_mono min_le_max, pyInt_mono min_le_max, pyInt_near _, pyInt_near _, pyInt_near _, pyInt_near _, ?_⟩
  ext <;> simp [min_comm, max_comm]

/-- C63: within the positive quadrant, where images are, the left and upper sides never cut anything off. -/
theorem C63_crop_positive (m : TState) (c0 c1 c2 c3 : ℝ) (hp : 0 ≤ (scalePt m c0 c1).x ∧ 0 ≤ (scalePt m c0 c1).y)
    (hq : 0 ≤ (scalePt m c2 c3).x ∧ 0 ≤ (scalePt m c2 c3).y) :
    let b := cropToPixels m c0 c1 c2 c3
    (0 ≤ b.xl ∧ 0 ≤ b.yl) ∧
    (b.xl : ℝ) ≤ (scalePt m c0 c1).x ∧ (b.xl : ℝ) ≤ (scalePt m c2 c3).x ∧ (b.yl : ℝ) ≤ (scalePt m c0 c1).y ∧
      (b.yl : ℝ) ≤ (scalePt m c2 c3).y := by
  have key : ∀ {x : ℝ}, 0 ≤ x → 0 ≤ pyInt x ∧ (pyInt x : ℝ) ≤ x := by
    intro x hx
    rw [pyInt, if_pos hx]
    exact ⟨Int.floor_nonneg.2 hx, Int.floor_le x⟩
  simp only [cropToPixels, pyInt_min]
  have h1 := key (le_min hp.1 hq.1)
  have h2 := key (le_min hp.2 hq.2)
  exact ⟨⟨h1.1, h2.1⟩, h1.2.trans (min_le_left _ _), h1.2.trans (min_le_right _ _), h2.2.trans (min_le_left _ _),
    h2.2.trans (min_le_right _ _)⟩

/-- C63 (false): the box need not enclose the crop: a crop ending in the middle of a pixel loses that pixel on the right, and a crop
starting at a negative coordinate loses it on the left. -/
theorem C63_crop_counterexample :
    cropToPixels TState.new (-1 / 2) 0 (3 / 2) 1 = ⟨0, 0, 1, 1⟩ := by
  have h1 : pyInt (-1 / 2) = 0 := by
    rw [pyInt, if_neg (by norm_num), Int.ceil_eq_iff]
    norm_num
  have h2 : pyInt (3 / 2) = 1 := by
    rw [pyInt, if_pos (by norm_num), Int.floor_eq_iff]
    norm_num
  have h3 : pyInt 0 = 0 := by simp [pyInt]
  have h4 : pyInt 1 = 1 := by simp [pyInt]
  simp [cropToPixels, scalePt, TState.transform, TState.new, Mat3.apply, Mat3.one, h1, h2, h3, h4]

/-! ### C63: shadows -/

/-- C63: whatever the model's drawing does, and whether or not it fails, afterwards the context draws where it drew before, and no
shadow colour is set. -/
theorem C63_shadow_restores (blank : I) (makeShadow : I → I) (body : DC I C → DC I C × Option PyErr) (color : C) (d : DC I C) :
    (d.shadowDraw blank makeShadow body color).1.draw = d.draw ∧
      (d.shadowDraw blank makeShadow body color).1.shadowColor = none := by
  simp only [DC.shadowDraw]
  split
  · exact ⟨rfl, rfl⟩
  · simp only [DC.refreshShadow]
    split
    · exact ⟨rfl, rfl⟩
    · split <;> exact ⟨rfl, rfl⟩

theorem runSteps_eq : ∀ (l : List (Step I C)) (d : DC I C),
    runSteps l d = ({ d with imgs := d.imgs.modify d.draw (painted d.shadowColor l) }, failure l)
  | [], d => by
    simp only [runSteps, failure, Prod.mk.injEq, and_true]
    have : (painted d.shadowColor ([] : List (Step I C))) = id := by
      funext x; simp [painted]
    simp [this]
  | .raise e :: rest, d => by
    simp only [runSteps, failure, Prod.mk.injEq, and_true]
    have : (painted d.shadowColor (.raise e :: rest : List (Step I C))) = id := by
      funext x; simp [painted]
    simp [this]
  | .paint f :: rest, d => by
    rw [runSteps, runSteps_eq rest, failure]
    simp only [DC.paintWith, Prod.mk.injEq, and_true]
    congr 1
    apply List.ext_getElem?
    intro i
    simp only [List.getElem?_modify]
    cases d.imgs[i]? with
    | none => simp
    | some v =>
      by_cases h : d.draw = i <;> simp [h, painted]

/-- The shadow image a context shows. -/
def DC.shadowImage (d : DC I C) : Option I := d.shadow.bind fun s => d.imgs[s]?

theorem refresh_ok (makeShadow : I → I) (d : DC I C) (hd : d.WF) {s : ℕ} {im : I} (hs : d.shadow = some s) (hi : d.imgs[s]? = some im) :
    (d.refreshShadow makeShadow).WF ∧
      (d.refreshShadow makeShadow).imgs[(d.refreshShadow makeShadow).background]? = d.imgs[d.background]? ∧
      (d.refreshShadow makeShadow).imgs[(d.refreshShadow makeShadow).layer]? = d.imgs[d.layer]? ∧
      (d.refreshShadow makeShadow).shadowImage = some (makeShadow im) := by
  have e : d.refreshShadow makeShadow = { d with imgs := d.imgs ++ [makeShadow im], shadow := some d.imgs.length } := by
    simp [DC.refreshShadow, hs, hi]
  have h1 := hd.bg
  have h2 := hd.la
  rw [e]
  refine ⟨⟨?_, ?_, hd.ne, ?_⟩, ?_, ?_, ?_⟩
  · simp only [List.length_append, List.length_singleton]; omega
  · simp only [List.length_append, List.length_singleton]; omega
  · intro s' hs'
    simp only [Option.some.injEq] at hs'
    subst hs'
    simp only [List.length_append, List.length_singleton]
    omega
  · exact List.getElem?_append_left h1
  · exact List.getElem?_append_left h2
  · simp [DC.shadowImage]

theorem alloc_ok (blank : I) (d : DC I C) (hd : d.WF) :
    (d.allocShadow blank).WF ∧ (d.allocShadow blank).background = d.background ∧ (d.allocShadow blank).layer = d.layer ∧
      (d.allocShadow blank).imgs[d.background]? = d.imgs[d.background]? ∧
      (d.allocShadow blank).imgs[d.layer]? = d.imgs[d.layer]? ∧
      ∃ s, (d.allocShadow blank).shadow = some s ∧ (d.allocShadow blank).imgs[s]? = some (d.shadowImage.getD blank) := by
  cases hs : d.shadow with
  | some s =>
    have e : d.allocShadow blank = d := by simp [DC.allocShadow, hs]
    have hl := (hd.sh s hs).1
    rw [e]
    exact ⟨hd, rfl, rfl, rfl, rfl, s, hs, by simp [DC.shadowImage, hs, hl]⟩
  | none =>
    have e : d.allocShadow blank = { d with imgs := d.imgs ++ [blank], shadow := some d.imgs.length } := by
      simp [DC.allocShadow, hs]
    have h1 := hd.bg
    have h2 := hd.la
    rw [e]
    refine ⟨⟨?_, ?_, hd.ne, ?_⟩, rfl, rfl, ?_, ?_, d.imgs.length, rfl, ?_⟩
    · simp only [List.length_append, List.length_singleton]; omega
    · simp only [List.length_append, List.length_singleton]; omega
    · intro s' hs'
      simp only [Option.some.injEq] at hs'
      subst hs'
      simp only [List.length_append, List.length_singleton]
      omega
    · exact List.getElem?_append_left h1
    · exact List.getElem?_append_left h2
    · simp [DC.shadowImage, hs]

/-- C63: drawing a shadow leaves background and layer alone; what is drawn, with the shadow colour, goes on the shadow (a blank one at
first), which is then blurred. If drawing fails, what was drawn so far stays there, unblurred, and the error is passed on. -/
theorem C63_shadow_image (blank : I) (makeShadow : I → I) (steps : List (Step I C)) (color : C) (d : DC I C) (hd : d.WF) :
    let r := d.shadowDraw blank makeShadow (runSteps steps) color
    let drawn := painted (some color) steps (d.shadowImage.getD blank)
    r.1.WF ∧ r.2 = failure steps ∧
      r.1.imgs[r.1.background]? = d.imgs[d.background]? ∧ r.1.imgs[r.1.layer]? = d.imgs[d.layer]? ∧
      r.1.shadowImage = some (if failure steps = none then makeShadow drawn else drawn) := by
  obtain ⟨hw, hb, hl, ib, il, s, hs, hi⟩ := alloc_ok blank d hd
  intro r drawn
  let a : DC I C := { d.allocShadow blank with
    imgs := (d.allocShadow blank).imgs.modify s (painted (some color) steps), draw := d.draw, shadowColor := none }
  have hr : r = match failure steps with
      | some e => (a, some e)
      | none => (a.refreshShadow makeShadow, none) := by
    have ha : a = { d.allocShadow blank with
        imgs := (d.allocShadow blank).imgs.modify s (painted (some color) steps), draw := d.draw, shadow := some s,
        shadowColor := none } := by
      simp only [a, hs]
    simp only [r, DC.shadowDraw, runSteps_eq, hs, Option.getD_some, ha]
    cases failure steps <;> rfl
  have hsw := hw.sh s hs
  have haw : a.WF := by
    refine ⟨?_, ?_, hw.ne, ?_⟩
    · simpa [a] using hw.bg
    · simpa [a] using hw.la
    · intro s' hs'
      simpa [a] using hw.sh s' hs'
  have hai : a.imgs[s]? = some drawn := by
    simp only [a, List.getElem?_modify, hi, drawn]
    simp
  have hab : a.imgs[a.background]? = d.imgs[d.background]? := by
    rw [← ib]
    simp only [a, List.getElem?_modify, hb]
    rw [hb] at hsw
    simp [hsw.2.1]
  have hal : a.imgs[a.layer]? = d.imgs[d.layer]? := by
    rw [← il]
    simp only [a, List.getElem?_modify, hl]
    rw [hl] at hsw
    simp [hsw.2.2]
  have has : a.shadow = some s := hs
  cases hf : failure steps with
  | some e =>
    rw [hf] at hr
    simp only at hr
    rw [hr]
    refine ⟨haw, rfl, hab, hal, ?_⟩
    simp [DC.shadowImage, has, hai]
  | none =>
    rw [hf] at hr
    simp only at hr
    rw [hr]
    obtain ⟨k1, k2, k3, k4⟩ := refresh_ok makeShadow a haw has hai
    exact ⟨k1, rfl, k2.trans hab, k3.trans hal, by simpa using k4⟩

/-- One use of a context; the program goes on after an exception. -/
def DC.use (blank : I) (makeShadow : I → I) (d : DC I C) : Use I C → DC I C
  | .draw steps => (runSteps steps d).1
  | .shadow steps c => (d.shadowDraw blank makeShadow (runSteps steps) c).1

theorem use_ok (blank : I) (makeShadow : I → I) : ∀ (us : List (Use I C)) (d : DC I C) (bg la : I), d.WF → d.draw = d.layer →
    d.shadowColor = none → d.imgs[d.background]? = some bg → d.imgs[d.layer]? = some la →
    let r := us.foldl (DC.use blank makeShadow) d
    r.WF ∧ r.imgs[r.background]? = some bg ∧ r.imgs[r.layer]? = some (layerOf us la) ∧
      r.shadowImage = shadowOf blank makeShadow us d.shadowImage := by
  intro us
  induction us with
  | nil => intro d bg la hw _ _ hb hl; exact ⟨hw, hb, hl, rfl⟩
  | cons u us ih =>
    intro d bg la hw hd hc hb hl
    cases u with
    | draw steps =>
      have e : d.use blank makeShadow (.draw steps) = { d with imgs := d.imgs.modify d.layer (painted none steps) } := by
        simp only [DC.use, runSteps_eq, hd, hc]
      rw [List.foldl_cons, e]
      have hs : DC.shadowImage { d with imgs := d.imgs.modify d.layer (painted none steps) } = d.shadowImage := by
        simp only [DC.shadowImage]
        cases h : d.shadow with
        | none => rfl
        | some s =>
          have := (hw.sh s h).2.2
          simp only [Option.bind_some, List.getElem?_modify, this.symm, if_false, id_eq]
          simp
      have := ih { d with imgs := d.imgs.modify d.layer (painted none steps) } bg (painted none steps la)
        ⟨by simpa using hw.bg, by simpa using hw.la, hw.ne, fun s h => by simpa using hw.sh s h⟩ hd hc
        (by simp [List.getElem?_modify, hw.ne.symm, hb]) (by simp [List.getElem?_modify, hl])
      rw [hs] at this
      exact this
    | shadow steps c =>
      obtain ⟨k1, -, k3, k4, k5⟩ := C63_shadow_image blank makeShadow steps c d hw
      obtain ⟨r1, r2⟩ := C63_shadow_restores blank makeShadow (runSteps steps) c d
      have hlay : (d.shadowDraw blank makeShadow (runSteps steps) c).1.layer = d.layer := by
        simp only [DC.shadowDraw, runSteps_eq]
        have ha : ∀ d : DC I C, (d.allocShadow blank).layer = d.layer := fun d => by
          unfold DC.allocShadow; split <;> rfl
        have hr : ∀ d : DC I C, (d.refreshShadow makeShadow).layer = d.layer := fun d => by
          unfold DC.refreshShadow; split
          · rfl
          · split <;> rfl
        split
        · exact ha d
        · rw [hr]; exact ha d
      rw [List.foldl_cons]
      have := ih (d.shadowDraw blank makeShadow (runSteps steps) c).1 bg la k1 (by rw [r1, hlay, hd]) r2 (k3.trans hb) (k4.trans hl)
      rw [k5] at this
      exact this

/-- C63: the image of a context, after any sequence of drawings and shadows, is the background, under the shadow if any, under the layer,
on which everything was drawn in order. -/
theorem C63_image (over : I → I → I) (blank bg : I) (makeShadow : I → I) (us : List (Use I C)) :
    (us.foldl (DC.use blank makeShadow) (DC.new bg blank)).image over =
      some (over (match shadowOf blank makeShadow us none with
        | none => bg
        | some sh => over bg sh) (layerOf us blank)) := by
  obtain ⟨k1, k2, k3, k4⟩ := use_ok blank makeShadow us (DC.new bg blank) bg blank
    ⟨by simp [DC.new], by simp [DC.new], by simp [DC.new], by simp [DC.new]⟩ rfl rfl rfl rfl
  have k4 : (us.foldl (DC.use blank makeShadow) (DC.new bg blank)).shadowImage = shadowOf blank makeShadow us none := k4
  generalize us.foldl (DC.use blank makeShadow) (DC.new bg blank) = r at k1 k2 k3 k4
  simp only [DC.image, k2, k3]
  rw [← k4]
  cases h : r.shadow with
  | none => simp [DC.shadowImage, h]
  | some s =>
    have := (k1.sh s h).1
    simp [DC.shadowImage, h, List.getElem?_eq_getElem this]

/-- Two drawings and a shadow between them: the shadow lies below both. -/
example (f g : ℕ → ℕ) (over : ℕ → ℕ → ℕ) : (([.draw [.paint fun _ => f], .shadow [.paint fun _ => g] 1, .draw [.paint fun _ => g]] :
    List (Use ℕ ℕ)).foldl (DC.use 0 (· + 1)) (DC.new 7 0)).image over = some (over (over 7 (g 0 + 1)) (g (f 0))) := by
  rw [C63_image]; rfl

/-- C63: so the shadow of several models depends on how they are drawn: a later call blurs the earlier shadows again. -/
theorem C63_shadow_again (blank : I) (makeShadow : I → I) (s1 s2 : List (Step I C)) (c : C) (d : DC I C) (hd : d.WF)
    (h0 : d.shadow = none) (h1 : failure s1 = none) (h2 : failure s2 = none) :
    (((d.shadowDraw blank makeShadow (runSteps s1) c).1).shadowDraw blank makeShadow (runSteps s2) c).1.shadowImage =
      some (makeShadow (painted (some c) s2 (makeShadow (painted (some c) s1 blank)))) := by
  obtain ⟨hw, _, _, _, hi⟩ := C63_shadow_image blank makeShadow s1 c d hd
  obtain ⟨_, _, _, _, hj⟩ := C63_shadow_image blank makeShadow s2 c _ hw
  rw [hj, hi]
  simp [h1, h2, DC.shadowImage, h0]

/-- C63 (false with nesting): if drawing a model itself draws a shadow, the rest of the outer model is drawn on the shadow without
the shadow colour. -/
theorem C63_shadow_nested_counterexample :
    ∃ (body : DC (List (Option ℕ)) ℕ → DC (List (Option ℕ)) ℕ × Option PyErr) (mark : Option ℕ → List (Option ℕ) → List (Option ℕ)),
      (mark = fun c im => im ++ [c]) ∧
      (body = fun d =>
        let r := (d.paintWith mark).shadowDraw [] id (runSteps [.paint mark]) 7
        (r.1.paintWith mark, r.2)) ∧
      (((DC.new [] []).shadowDraw [] id body 7).1.imgs) =
        [[], [], [some 7, some 7, none], [some 7, some 7], [some 7, some 7]] := by
  refine ⟨_, _, rfl, rfl, ?_⟩
  rfl

/-- Non-vacuity: a new context is well formed. -/
theorem new_wf (bg blank : I) : (DC.new bg blank : DC I C).WF :=
  ⟨by simp [DC.new], by simp [DC.new], by simp [DC.new], by simp [DC.new]⟩

end X7.Drawing
