import Verif.Lemmas.ElemBBox
import Verif.Props.Elem

/-!
C39: the bounding box of a tree of elements encloses what it draws.
-/

namespace X7.Elem

theorem sound_affine (e : Elem) (h : e.Sound) : e.hdr.xf.Affine := by
  cases e <;> simp only [Sound] at h <;> first | exact h | exact h.1

/-- C39: in a drawing context with any matrix, every vertex of every path is the image under the context matrix of a point in
`bbox()`. -/
theorem C39_bbox_context (cfg : DCfg) (e : Elem) (hs : e.Sound) (b : BBox ℝ) (hb : e.bbox = .ok b) (s : TState) (ps : List Path)
    (hp : (paths cfg e s).2 = .ok ps) : ∀ p ∈ ps, ∀ q ∈ p.pts, ∃ q0 ∈ b.Region, q = s.mat.apply q0 := by
  intro p hpp q hq
  rw [drawn_push] at hp
  cases h1 : bboxInt e with
  | error er => rw [bbox, h1] at hb; simp [bboxFrom] at hb
  | ok bi =>
    rw [bbox, h1] at hb
    simp only [bboxFrom] at hb
    obtain ⟨q0, h0, rfl⟩ := drawn_in_bboxInt cfg e hs s.mat bi h1 ps hp p hpp q hq
    exact ⟨e.hdr.xf.apply q0, mem_bboxOf _ _ _ hb q0 h0, Mat3.apply_mul (sound_affine e hs) q0⟩

/-- C39: with an identity drawing context every vertex of every path lies in `bbox()`. -/
theorem C39_bbox_encloses (cfg : DCfg) (e : Elem) (hs : e.Sound) (b : BBox ℝ) (hb : e.bbox = .ok b) (s : TState)
    (hid : s.mat = Mat3.one) (ps : List Path) (hp : (paths cfg e s).2 = .ok ps) : ∀ p ∈ ps, ∀ q ∈ p.pts, q ∈ b.Region := by
  intro p hpp q hq
  obtain ⟨q0, h0, rfl⟩ := C39_bbox_context cfg e hs b hb s ps hp p hpp q hq
  rwa [hid, Mat3.apply_one]

/-- C39: for a rectangle under any own transform `bbox()` is the smallest box around the drawn corners. -/
theorem C39_rect_tight (cfg : DCfg) (h : Hdr) (p1 p2 : Pt ℝ) (s : TState) (hid : s.mat = Mat3.one) (c : BBox ℝ)
    (hc : ∀ ps, (paths cfg (.rect h p1 p2) s).2 = .ok ps → ∀ p ∈ ps, ∀ q ∈ p.pts, q ∈ c.Region) :
    ∃ b, (Elem.rect h p1 p2).bbox = .ok b ∧ b.Region ⊆ c.Region := by
  have hd : (paths cfg (.rect h p1 p2) s).2 = _ := (drawn_push cfg (.rect h p1 p2) s).trans (drawn_basic cfg (.rect h p1 p2) trivial s.mat)
  simp only [outline, Except.map] at hd
  have hc' := hc _ hd
  rw [hid, Mat3.one_mul'] at hc'
  simp only [hdr, List.mem_singleton, forall_eq, List.map_cons, List.map_nil, List.mem_cons, List.not_mem_nil, or_false,
    forall_eq_or_imp] at hc'
  obtain ⟨c1, c2, c3, c4, _⟩ := hc'
  refine ⟨_, rfl, ?_⟩
  have key : ∀ a b : Pt ℝ, a ∈ c.Region → b ∈ c.Region → (BBox.ofPts a b).Region ⊆ c.Region := by
    intro a b ha hb
    cases c with
    | none => exact ha.elim
    | box xl yl xh yh =>
      obtain ⟨⟨a1, a2⟩, a3, a4⟩ := ha
      obtain ⟨⟨b1, b2⟩, b3, b4⟩ := hb
      rintro q ⟨⟨q1, q2⟩, q3, q4⟩
      exact ⟨⟨(le_min a1 b1).trans q1, q2.trans (max_le a2 b2)⟩, (le_min a3 b3).trans q3, q4.trans (max_le a4 b4)⟩
  have mem : ∀ x y : ℝ, (x = p1.x ∨ x = p2.x) → (y = p1.y ∨ y = p2.y) → h.xf.apply ⟨x, y⟩ ∈ c.Region := by
    rintro x y (rfl | rfl) (rfl | rfl)
    · exact c1
    · exact c2
    · exact c4
    · exact c3
  have mn : ∀ a b : ℝ, min a b = a ∨ min a b = b := fun a b => min_choice a b
  have mx : ∀ a b : ℝ, max a b = a ∨ max a b = b := fun a b => max_choice a b
  refine (BBox.region_add_lub (BBox.norm_ofPts _ _) (BBox.norm_ofPts _ _)).2 ⟨key _ _ ?_ ?_, key _ _ ?_ ?_⟩ <;>
    apply mem <;> first | exact mn _ _ | exact mx _ _

/-- C39 (claim false here): a shape with holes whose outside has a transform of its own. The outside is drawn with it, `bbox()`
leaves it out: a square moved by ten with a hole is drawn outside its bounding box. -/
theorem C39_outside_transform_counterexample (cfg : DCfg) : ∃ (e : Elem) (b : BBox ℝ) (ps : List Path),
    e.bbox = .ok b ∧ (paths cfg e ⟨Mat3.one, none, []⟩).2 = .ok ps ∧ ∃ p ∈ ps, ∃ q ∈ p.pts, q ∉ b.Region := by
  let t : Mat3 ℝ := ⟨1, 0, 10, 0, 1, 0, 0, 0, 1⟩
  let o : Elem := .rect ⟨['o'], ⟨none, none⟩, true, t⟩ ⟨0, 0⟩ ⟨4, 4⟩
  let i : Elem := .rect (hdr0 none) ⟨1, 1⟩ ⟨2, 2⟩
  have h1 : drawn cfg o Mat3.one = .ok [⟨⟨none, none⟩, true, [⟨10, 0⟩, ⟨10, 4⟩, ⟨14, 4⟩, ⟨14, 0⟩, ⟨10, 0⟩]⟩] := by
    rw [C41_shape cfg o trivial]
    norm_num [o, t, outline, Except.map, hdr, Mat3.one_mul', Mat3.apply]
  obtain ⟨ps, h2⟩ : ∃ ps, drawn cfg i Mat3.one = .ok ps := by
    rw [C41_shape cfg i trivial]; exact ⟨_, rfl⟩
  have h3 := C46_holes_unfilled cfg (hdr0 none) o [i] ⟨Mat3.one, none, []⟩ _ [ps] rfl
    (by simp only [hdr0, Mat3.mul_one']; exact h1) (.cons (by simp only [hdr0, Mat3.mul_one']; exact h2) .nil)
  have hb : bbox (.holes (hdr0 none) o [i]) = .ok (.box 0 0 4 4) := by
    norm_num [bbox, bboxInt, bboxFrom, bboxIn, o, i, hdr, hdr0, BBox.ofPts, BBox.mk', bboxOf, Mat3.apply_one, BBox.add, BBox.copy,
      BBox.contains]
  refine ⟨_, _, _, hb, h3, _, List.mem_cons_self, ⟨10, 0⟩, by simp, ?_⟩
  simp only [BBox.Region, Set.mem_ofPred_eq]
  norm_num

/-- C39 (claim false here): a shape with an empty list of holes draws its outside but has no bounding box: `bbox()` raises
`ValueError`. -/
theorem C39_no_holes_counterexample (cfg : DCfg) : ∃ (e : Elem) (ps : List Path), e.Sound ∧
    e.bbox = .error .value ∧ (paths cfg e ⟨Mat3.one, none, []⟩).2 = .ok ps ∧ ps ≠ [] := by
  have h3 := C46_holes_unfilled cfg (hdr0 none) (.rect (hdr0 none) ⟨0, 0⟩ ⟨0 + 4, 0 + 4⟩) [] ⟨Mat3.one, none, []⟩ _ [] rfl
    (by have := drawn_square cfg none 0 4; simp only [hdr0, Mat3.mul_one'] at this ⊢; exact this) .nil
  refine ⟨_, _, ?_, ?_, h3, by simp⟩
  · simp [Sound, SoundIn, hdr0, hdr, Mat3.affine_one]
  · simp [bbox, bboxFrom, bboxInt, bboxIn, BBox.contains, BBox.ofPts, BBox.mk']

/-- A square with a square hole inside a rotated and moved group is sound and has a box: the hypotheses of C39 are met. -/
example : (Elem.group ⟨['g'], ⟨none, none⟩, false, ⟨0, -1, 5, 1, 0, 0, 0, 0, 1⟩⟩ false
      [(['s'], .holes (hdr0 none) (.rect (hdr0 none) ⟨0, 0⟩ ⟨4, 4⟩) [.rect (hdr0 none) ⟨1, 1⟩ ⟨2, 2⟩])]).Sound ∧
    (Elem.group ⟨['g'], ⟨none, none⟩, false, ⟨0, -1, 5, 1, 0, 0, 0, 0, 1⟩⟩ false
      [(['s'], .holes (hdr0 none) (.rect (hdr0 none) ⟨0, 0⟩ ⟨4, 4⟩) [.rect (hdr0 none) ⟨1, 1⟩ ⟨2, 2⟩])]).bbox =
      .ok (.box 1 0 5 4) := by
  constructor
  · simp [Sound, SoundAll, SoundIn, hdr0, hdr, Mat3.Affine, Mat3.one]
  · norm_num [bbox, bboxInt, bboxFrom, bboxIn, bboxAll, hdr, hdr0, BBox.ofPts, BBox.mk', bboxOf, Mat3.one, Mat3.apply,
      BBox.add, BBox.copy, BBox.contains]

end X7.Elem
