import Verif.Lemmas.Round
import Verif.Lemmas.BBox
import Verif.Props.PointHeap
import Verif.Spec.Region

/-! C75: rounding of points, vectors, boxes and control points. -/

namespace X7
open RSpec
variable {K : Type*} [Field K] [LinearOrder K] [IsStrictOrderedRing K] [FloorRing K]

/-- The rounding function assumed for Python's `round` is the nearest number with `n` decimals, ties to even. -/
theorem C75_number (n : ℤ) (x r : K) : roundTo n x = r ↔ Nearest n x r := by
  rw [nearest_iff, eq_comm]

/-- C75: rounding moves each coordinate by at most half a unit of the last place, leaves numbers that already have at most `n` decimals
alone, keeps order and is symmetric around 0; so does rounding of vectors and points. -/
theorem C75_coordinates (n : ℤ) (p q : Pt K) :
    Within (10 ^ (-n) / 2) (p.round n) p ∧ GridPt n (p.round n) ∧
    (∀ m, n ≤ m → (p.round n).round m = p.round n) ∧ (GridPt n p → p.round n = p) ∧
    (p.x ≤ q.x → (p.round n).x ≤ (q.round n).x) ∧ (p.y ≤ q.y → (p.round n).y ≤ (q.round n).y) ∧
    p.neg.round n = (p.round n).neg ∧ p.v.round n = (p.round n).v ∧ p.v.neg.round n = (p.v.round n).neg := by
  refine ⟨⟨roundTo_within n _, roundTo_within n _⟩, ⟨onGrid_round n _, onGrid_round n _⟩, fun m hm => ?_, fun h => ?_, roundTo_mono n,
    roundTo_mono n, ?_, rfl, ?_⟩
  · simp only [Pt.round, roundTo_of_grid (onGrid_le hm (onGrid_round n p.x)), roundTo_of_grid (onGrid_le hm (onGrid_round n p.y))]
  · simp only [Pt.round, roundTo_of_grid h.1, roundTo_of_grid h.2]
  · simp only [Pt.round, Pt.neg, roundTo_neg]
  · simp only [Vec.round, Vec.neg, roundTo_neg]

/-- C75: rounding in two steps can end elsewhere than rounding at once. -/
theorem C75_twice_counterexample : ∃ p : Pt ℚ, (p.round 1).round 0 ≠ p.round 0 := by
  refine ⟨⟨146 / 100, 0⟩, fun h => ?_⟩
  have h1 : roundTo 1 (146 / 100 : ℚ) = 15 / 10 := (C75_number _ _ _).2 ⟨15, by norm_num, by norm_num [abs_le], by norm_num [abs_of_neg]⟩
  have h2 : roundTo 0 (15 / 10 : ℚ) = 2 := (C75_number _ _ _).2 ⟨2, by norm_num, by norm_num [abs_le], fun _ => by decide⟩
  have h3 : roundTo 0 (146 / 100 : ℚ) = 1 := (C75_number _ _ _).2 ⟨1, by norm_num, by norm_num [abs_le], by norm_num [abs_of_pos]⟩
  have := congrArg Pt.x h
  simp only [Pt.round, h1, h2, h3] at this
  norm_num at this

section heap
open PH

theorem roundObj_reads (n : ℤ) {h : Heap K} (hw : WF h) {i : ℕ} {p : Pt K} (hp : Reads h i p) :
    ∃ o, h[i]? = some o ∧ roundObj n h i = .ok (.point (roundTo n p.x) (roundTo n p.y)
      (if hasBase h i then fixedName (nameOf o) else nameOf o)) ∧ ∀ a b, o ≠ .vecRel a b := by
  cases hp with
  | @point _ x y nm h1 => exact ⟨_, h1, by simp [roundObj, h1, hasBase, nameOf], by simp⟩
  | @rel _ dx dy b nm p' h1 h2 =>
    have hb : isBasePoint h i := by simp [isBasePoint, h1]
    have := (reads_iff hw i hb _).2 (.rel h1 h2)
    exact ⟨_, h1, by simp [roundObj, h1, hasBase, nameOf, this], by simp⟩
  | @pcalc _ r s nm dx dy b nm' p' h1 h2 h3 =>
    have hb : isBasePoint h i := by simp [isBasePoint, h1]
    have := (reads_iff hw i hb _).2 (.pcalc h1 h2 h3)
    exact ⟨_, h1, by simp [roundObj, h1, hasBase, nameOf, this], by simp⟩

/-- C75: `round` of a point made by any history that stands at `p` returns a new plain `Point` at the rounded position. A `Point` hands
on its name, a relative or calculated point gives `fixed_` and its name. No other object changes, and whatever is done later to other
objects the new point stays where it is. -/
theorem C75_point (n : ℤ) (ops later : List (POp K)) (i : ℕ) (p : Pt K) (hp : Reads (run [] ops) i p)
    (hm : ∀ op ∈ later, ¬ Mutates (run [] ops).length op) :
    let h := run [] ops
    let s := roundStep n h i
    ∃ o r, h[i]? = some o ∧ Nearest n p.x r.x ∧ Nearest n p.y r.y ∧ s.2 = none ∧
      s.1 = h ++ [.point r.x r.y (if hasBase h i then fixedName (nameOf o) else nameOf o)] ∧
      Reads (run s.1 later) h.length r := by
  intro h s
  have hw : WF h := run_wf wf_nil ops
  change ∀ op ∈ later, ¬ Mutates h.length op at hm
  change Reads h i p at hp
  clear_value h
  obtain ⟨o, h1, h2, h3⟩ := roundObj_reads n hw hp
  have hs : s = (h ++ [.point (roundTo n p.x) (roundTo n p.y) (if hasBase h i then fixedName (nameOf o) else nameOf o)], none) := by
    simp only [s, roundStep, h1, h2]
    cases o with
    | vecRel a b => exact absurd rfl (h3 a b)
    | _ => rfl
  refine ⟨o, ⟨roundTo n p.x, roundTo n p.y⟩, h1, (C75_number _ _ _).1 rfl, (C75_number _ _ _).1 rfl, by rw [hs], by rw [hs], ?_⟩
  rw [hs]
  have := run_get (h := h ++ [.point (roundTo n p.x) (roundTo n p.y) (if hasBase h i then fixedName (nameOf o) else nameOf o)])
    (i := h.length) (by simp) later hm
  refine Reads.point (n := if hasBase h i then fixedName (nameOf o) else nameOf o) ?_
  rw [this]
  simp

/-- C75: `round` of a vector between two points gives a vector between two new points, the rounded ones: its value is the difference of
the rounded positions. That has at most `n` decimals and is within one unit of the last place of the true difference. -/
theorem C75_vector_relative (n : ℤ) (ops : List (POp K)) (i p q : ℕ) (hi : (run [] ops)[i]? = some (.vecRel p q)) (a b : Pt K)
    (ha : Reads (run [] ops) p a) (hb : Reads (run [] ops) q b) :
    let h := run [] ops
    let s := roundStep n h i
    ∃ r, s.2 = none ∧ s.1.length = h.length + 3 ∧ (∀ k < h.length, s.1[k]? = h[k]?) ∧
      s.1[h.length + 2]? = some (.vecRel h.length (h.length + 1)) ∧ Reads s.1 h.length (a.round n) ∧
      Reads s.1 (h.length + 1) (b.round n) ∧
      xy s.1 (h.length + 2) = .ok r ∧ r = ⟨(a.round n).x - (b.round n).x, (a.round n).y - (b.round n).y⟩ ∧ GridPt n r ∧
      Within (10 ^ (-n)) r ⟨a.x - b.x, a.y - b.y⟩ := by
  intro h s
  have hw : WF h := run_wf wf_nil ops
  change h[i]? = _ at hi
  change Reads h p a at ha
  change Reads h q b at hb
  clear_value h
  obtain ⟨o, -, h2, -⟩ := roundObj_reads n hw ha
  obtain ⟨o', -, h2', -⟩ := roundObj_reads n hw hb
  generalize (if hasBase h p then fixedName (nameOf o) else nameOf o) = n1 at h2
  generalize (if hasBase h q then fixedName (nameOf o') else nameOf o') = n2 at h2'
  have hs : s = (h ++ [.point (roundTo n a.x) (roundTo n a.y) n1, .point (roundTo n b.x) (roundTo n b.y) n2,
      .vecRel h.length (h.length + 1)], none) := by
    simp only [s, roundStep, hi, h2, h2']
  rw [hs]
  have g0 : (h ++ [PObj.point (roundTo n a.x) (roundTo n a.y) n1, .point (roundTo n b.x) (roundTo n b.y) n2,
      .vecRel h.length (h.length + 1)])[h.length]? = some (.point (roundTo n a.x) (roundTo n a.y) n1) := by simp
  have g1 : (h ++ [PObj.point (roundTo n a.x) (roundTo n a.y) n1, .point (roundTo n b.x) (roundTo n b.y) n2,
      .vecRel h.length (h.length + 1)])[h.length + 1]? = some (.point (roundTo n b.x) (roundTo n b.y) n2) := by simp
  have g2 : (h ++ [PObj.point (roundTo n a.x) (roundTo n a.y) n1, .point (roundTo n b.x) (roundTo n b.y) n2,
      .vecRel h.length (h.length + 1)])[h.length + 2]? = some (.vecRel h.length (h.length + 1)) := by simp
  refine ⟨_, rfl, by simp, fun k hk => List.getElem?_append_left hk, g2, .point g0, .point g1, ?_, rfl,
    ⟨onGrid_sub (onGrid_round n _) (onGrid_round n _), onGrid_sub (onGrid_round n _) (onGrid_round n _)⟩, ?_⟩
  · rw [xy_vecRel g2 (by omega) (by omega), xy_point g0, xy_point g1]
    rfl
  · have hh : ∀ u v : K, |roundTo n u - roundTo n v - (u - v)| ≤ 10 ^ (-n) := by
      intro u v
      rw [show roundTo n u - roundTo n v - (u - v) = (roundTo n u - u) - (roundTo n v - v) by ring]
      refine (abs_sub _ _).trans ?_
      have := roundTo_within n u
      have := roundTo_within n v
      linarith
    exact ⟨hh _ _, hh _ _⟩

/-- C75: a point that cannot be read (a `PointCalc` over a `PointCalc` in its chain) cannot be rounded either, with the same error, and
nothing changes. -/
theorem C75_unreadable (n : ℤ) (ops : List (POp K)) (i : ℕ) (hi : isBasePoint (run [] ops) i) (e : PyErr)
    (he : xy (run [] ops) i = .error e) : roundStep n (run [] ops) i = (run [] ops, some e) := by
  generalize run [] ops = h at *
  cases ho : h[i]? with
  | none => simp [isBasePoint, ho] at hi
  | some o =>
    cases o with
    | point x y nm => rw [xy_point ho] at he; simp at he
    | rel dx dy b nm => simp only [roundStep, roundObj, ho, he]
    | pcalc b s nm => simp only [roundStep, roundObj, ho, he]
    | vec x y => simp [isBasePoint, ho] at hi
    | vecRel a b => simp [isBasePoint, ho] at hi

/-- Rounding a relative point and then moving its base: the rounded point stays. -/
example : Reads (run (roundStep 0 (run [] [.mkPoint (1 / 4 : ℚ) 2 none, .mkRel 1 1 0 (some "a")]) 1).1 [.setXY 0 50 50]) 2 ⟨1, 3⟩ ∧
    (roundStep 0 (run [] [.mkPoint (1 / 4 : ℚ) 2 none, .mkRel 1 1 0 (some "a")]) 1).1[2]? = some (.point 1 3 (some "fixed_a")) := by
  have hp : Reads (run [] [.mkPoint (1 / 4 : ℚ) 2 none, .mkRel 1 1 0 (some "a")]) 1 ⟨1 / 4 + 1, 2 + 1⟩ :=
    .rel (dx := 1) (dy := 1) (b := 0) (n := some "a") rfl (.point (x := 1 / 4) (y := 2) (n := none) rfl)
  obtain ⟨o, r, h1, h2, h3, -, h5, h6⟩ := C75_point 0 _ [.setXY 0 50 50] 1 _ hp (by simp [Mutates, run, step, isBasePoint])
  have hx : r.x = 1 := by
    rw [← (C75_number _ _ _).2 h2]
    exact (C75_number _ _ _).2 ⟨1, by norm_num, by norm_num [abs_le], by norm_num [abs_of_pos]⟩
  have hy : r.y = 3 := by
    rw [← (C75_number _ _ _).2 h3]
    exact (C75_number _ _ _).2 ⟨3, by norm_num, by norm_num [abs_le], by norm_num [abs_of_pos]⟩
  have ho : o = .rel 1 1 0 (some "a") := by
    have e : (run [] [POp.mkPoint (1 / 4 : ℚ) 2 none, .mkRel 1 1 0 (some "a")])[1]? = some (.rel 1 1 0 (some "a")) := rfl
    rw [e] at h1
    exact (Option.some.inj h1).symm
  have hr : r = ⟨1, 3⟩ := by ext <;> assumption
  subst hr ho
  refine ⟨h6, ?_⟩
  rw [h5]
  rfl

end heap

/-- C75: rounding a vector between two points is not rounding its value. -/
theorem C75_vector_relative_counterexample : ∃ a b : Pt ℚ,
    (⟨(a.round 0).x - (b.round 0).x, (a.round 0).y - (b.round 0).y⟩ : Pt ℚ) ≠ Pt.round 0 ⟨a.x - b.x, a.y - b.y⟩ := by
  refine ⟨⟨6 / 10, 0⟩, ⟨4 / 10, 0⟩, fun h => ?_⟩
  have h1 : roundTo 0 (6 / 10 : ℚ) = 1 := (C75_number _ _ _).2 ⟨1, by norm_num, by norm_num [abs_le], by norm_num [abs_of_neg]⟩
  have h2 : roundTo 0 (4 / 10 : ℚ) = 0 := (C75_number _ _ _).2 ⟨0, by norm_num, by norm_num [abs_le], by norm_num [abs_of_pos]⟩
  have h3 : roundTo 0 (6 / 10 - 4 / 10 : ℚ) = 0 :=
    (C75_number _ _ _).2 ⟨0, by norm_num, by norm_num [abs_le], by norm_num [abs_of_pos]⟩
  have := congrArg Pt.x h
  simp only [Pt.round, h1, h2, h3] at this
  norm_num at this

/-- C75: rounding a control point keeps its kind and puts its centre and both handle ends on the grid. The centre moves by at most half a
unit of the last place in each coordinate, the handle ends by at most one unit. Opposite handles stay opposite, and handles that were
zero stay zero. -/
theorem C75_control_point (n : ℤ) (cp : CP K) :
    (cp.round n).kind = cp.kind ∧ GridPt n (cp.round n).c ∧ GridPt n (cp.round n).l ∧ GridPt n (cp.round n).r ∧
    (cp.round n).c = cp.c.round n ∧
    Within (10 ^ (-n) / 2) (cp.round n).c cp.c ∧ Within (10 ^ (-n)) (cp.round n).l cp.l ∧ Within (10 ^ (-n)) (cp.round n).r cp.r ∧
    (cp.dl = cp.dr.neg → (cp.round n).dl = (cp.round n).dr.neg) ∧ (cp.dl = ⟨0, 0⟩ → (cp.round n).dl = ⟨0, 0⟩) ∧
    (cp.dr = ⟨0, 0⟩ → (cp.round n).dr = ⟨0, 0⟩) ∧ ∀ m, n ≤ m → (cp.round n).round m = cp.round n := by
  have hh : ∀ u v : K, |roundTo n u + roundTo n v - (u + v)| ≤ 10 ^ (-n) := by
    intro u v
    rw [show roundTo n u + roundTo n v - (u + v) = (roundTo n u - u) + (roundTo n v - v) by ring]
    refine (abs_add_le _ _).trans ?_
    have := roundTo_within n u
    have := roundTo_within n v
    linarith
  have g := onGrid_round (K := K) n
  have z : roundTo n (0 : K) = 0 := roundTo_of_grid ⟨0, by simp⟩
  refine ⟨rfl, ⟨g _, g _⟩, ⟨onGrid_add (g _) (g _), onGrid_add (g _) (g _)⟩, ⟨onGrid_add (g _) (g _), onGrid_add (g _) (g _)⟩, rfl,
    ⟨roundTo_within n _, roundTo_within n _⟩, ⟨hh _ _, hh _ _⟩, ⟨hh _ _, hh _ _⟩, fun h => ?_, fun h => ?_, fun h => ?_, fun m hm => ?_⟩
  · simp only [CP.round, Vec.round, h, Vec.neg, roundTo_neg]
  · simp only [CP.round, Vec.round, h, z]
  · simp only [CP.round, Vec.round, h, z]
  · simp only [CP.round, Vec.round, Pt.round, roundTo_of_grid (onGrid_le hm (g _))]

/-- C75: the handle end of a rounded control point need not be the rounded handle end, and the handles of a smooth control point need
not stay on one line. -/
theorem C75_control_point_counterexample : ∃ a b : CP ℚ, (a.round 0).l ≠ a.l.round 0 ∧
    b.kind = "smooth" ∧ b.dl.cross b.dr = 0 ∧ (b.round 0).dl.cross (b.round 0).dr ≠ 0 := by
  have h4 : roundTo 0 (4 / 10 : ℚ) = 0 := (C75_number _ _ _).2 ⟨0, by norm_num, by norm_num [abs_le], by norm_num [abs_of_pos]⟩
  have h8 : roundTo 0 (4 / 10 + 4 / 10 : ℚ) = 1 :=
    (C75_number _ _ _).2 ⟨1, by norm_num, by norm_num [abs_le], by norm_num [abs_of_neg]⟩
  have h3 : roundTo 0 (-8 / 10 : ℚ) = -1 :=
    (C75_number _ _ _).2 ⟨-1, by norm_num, by norm_num [abs_le], by norm_num [abs_of_pos]⟩
  have h1 : roundTo 0 (1 : ℚ) = 1 := (C75_number _ _ _).2 ⟨1, by norm_num, by norm_num, by norm_num⟩
  have h2 : roundTo 0 (-2 : ℚ) = -2 := (C75_number _ _ _).2 ⟨-2, by norm_num, by norm_num, by norm_num⟩
  refine ⟨⟨⟨4 / 10, 0⟩, ⟨4 / 10, 0⟩, ⟨0, 0⟩, "smooth"⟩, ⟨⟨0, 0⟩, ⟨-2, -8 / 10⟩, ⟨1, 4 / 10⟩, "smooth"⟩, fun h => ?_, rfl, ?_, ?_⟩
  · have := congrArg Pt.x h
    simp only [CP.l, CP.round, Pt.round, Vec.round, Pt.addVector, h4, h8] at this
    norm_num at this
  · norm_num [Vec.cross]
  · simp only [CP.round, Vec.round, Vec.cross, h1, h2, h3, h4]
    norm_num

/-- C75: rounding a box rounds its four sides, none becoming smaller than its opposite; the rounded box holds the rounded points of the
box. The none box cannot be rounded. -/
theorem C75_bbox (n : ℤ) (xl yl xh yh : K) (hx : xl ≤ xh) (hy : yl ≤ yh) :
    (BBox.box xl yl xh yh).round (roundTo n) = .ok (.box (roundTo n xl) (roundTo n yl) (roundTo n xh) (roundTo n yh)) ∧
    (∀ p ∈ (BBox.box xl yl xh yh).Region, p.round n ∈ (BBox.box (roundTo n xl) (roundTo n yl) (roundTo n xh) (roundTo n yh)).Region) ∧
    (BBox.none : BBox K).round (roundTo n) = .error .type := by
  refine ⟨?_, ?_, rfl⟩
  · rw [BBox.round, BBox.mk'_of_le (roundTo_mono n hx) (roundTo_mono n hy)]
  · rintro p ⟨⟨h1, h2⟩, h3, h4⟩
    exact ⟨⟨roundTo_mono n h1, roundTo_mono n h2⟩, roundTo_mono n h3, roundTo_mono n h4⟩

/-- C75: rounding the smallest box around points gives the smallest box around the rounded points, and rounding a union gives the union of
the rounded boxes. -/
theorem C75_bbox_union (n : ℤ) :
    (∀ (p : Pt K) (ps : List (Pt K)),
      (BBox.growAll .none (p :: ps)).round (roundTo n) = .ok (BBox.growAll .none ((p :: ps).map (Pt.round n)))) ∧
    (∀ a b ra rb : BBox K, a.Norm → b.Norm → a.round (roundTo n) = .ok ra → b.round (roundTo n) = .ok rb →
      (a.add b).round (roundTo n) = .ok (ra.add rb)) := by
  have hm : Monotone (roundTo (K := K) n) := fun _ _ h => roundTo_mono n h
  constructor
  · intro p ps
    have key : ∀ (ps : List (Pt K)) (xl yl xh yh : K), xl ≤ xh → yl ≤ yh →
        (BBox.growAll (.box xl yl xh yh) ps).round (roundTo n) =
          .ok (BBox.growAll (.box (roundTo n xl) (roundTo n yl) (roundTo n xh) (roundTo n yh)) (ps.map (Pt.round n))) := by
      intro ps
      induction ps with
      | nil => intro xl yl xh yh h1 h2; exact (C75_bbox n xl yl xh yh h1 h2).1
      | cons q qs ih =>
        intro xl yl xh yh h1 h2
        have := ih (min xl q.x) (min yl q.y) (max xh q.x) (max yh q.y) ((min_le_left _ _).trans (h1.trans (le_max_left _ _)))
          ((min_le_left _ _).trans (h2.trans (le_max_left _ _)))
        simp only [hm.map_min, hm.map_max] at this
        exact this
    exact key ps p.x p.y p.x p.y le_rfl le_rfl
  · intro a b ra rb ha hb h1 h2
    cases a with
    | none => cases h1
    | box axl ayl axh ayh =>
      cases b with
      | none => cases h2
      | box bxl byl bxh byh =>
        obtain ⟨a1, a2⟩ := ha
        obtain ⟨b1, b2⟩ := hb
        rw [(C75_bbox n _ _ _ _ a1 a2).1] at h1
        rw [(C75_bbox n _ _ _ _ b1 b2).1] at h2
        cases h1
        cases h2
        have c1 : min axl bxl ≤ max axh bxh := (min_le_left _ _).trans (a1.trans (le_max_left _ _))
        have c2 : min ayl byl ≤ max ayh byh := (min_le_left _ _).trans (a2.trans (le_max_left _ _))
        have e := (C75_bbox n _ _ _ _ c1 c2).1
        simp only [hm.map_min, hm.map_max] at e
        have d1 := hm c1
        have d2 := hm c2
        simp only [hm.map_min, hm.map_max] at d1 d2
        simp only [BBox.add, BBox.mk'_of_le c1 c2, BBox.mk'_of_le d1 d2, e]

end X7
