import Verif.Lemmas.Bezier

/-!
C29-C34: Bezier curves, exact arithmetic over any (ordered) field.
-/

namespace X7
set_option linter.unusedSectionVars false
variable {K : Type*} [Field K]

/-- C29: the first half traces the original curve on `[0, t]`, the second on `[t, 1]`. -/
theorem C29_split_traces (p q : CP K) (t u : K) :
    let (l, m, r) := bezSplit p q t
    (seg l m).at' u = (seg p q).at' (t * u) ∧ (seg m r).at' u = (seg p q).at' (t + (1 - t) * u) := by
  constructor <;>
    (simp only [bezSplit, seg, Poly4.at', bern, lerp, Pt.addVector, Pt.sub, Vec.mul, CP.l, CP.r]
     ext <;> simp only <;> ring)

/-- C29: the halves join at the curve point of parameter `t`, with handles in opposite directions (weights `1 - t` and
`t`), so that the tangent is continuous. -/
theorem C29_split_joint (p q : CP K) (t : K) :
    let m := (bezSplit p q t).2.1
    m.c = (seg p q).at' t ∧ (1 - t) * m.dl.x = -(t * m.dr.x) ∧ (1 - t) * m.dl.y = -(t * m.dr.y) := by
  refine ⟨?_, ?_, ?_⟩
  · ext <;> simp only [bezSplit, seg, Poly4.at', bern, lerp, Pt.addVector, Pt.sub, Vec.mul, CP.l, CP.r] <;> ring
  · simp only [bezSplit, lerp, Pt.addVector, Pt.sub, Vec.mul, CP.l, CP.r]; ring
  · simp only [bezSplit, lerp, Pt.addVector, Pt.sub, Vec.mul, CP.l, CP.r]; ring

/-- C29: the ends and their outer handles are unchanged. -/
theorem C29_split_ends (p q : CP K) (t : K) :
    let (l, _, r) := bezSplit p q t
    l.c = p.c ∧ l.dl = p.dl ∧ r.c = q.c ∧ r.dr = q.dr := ⟨rfl, rfl, rfl, rfl⟩

/-- C29 (kind): all three results are 'smooth' whatever the ends were. -/
theorem C29_split_kind (p q : CP K) (t : K) :
    let (l, m, r) := bezSplit p q t
    l.kind = "smooth" ∧ m.kind = "smooth" ∧ r.kind = "smooth" := ⟨rfl, rfl, rfl⟩

/-! ### C30 -/

/-- C30: `bez` returns `2 * (steps + 1)` numbers, pair `i` is the cubic at `i / steps`, the first and last pairs are the
end points themselves. -/
theorem C30_bez [CharZero K] (a b c d : Pt K) (steps : ℕ) (h : 1 ≤ steps) :
    (bez a b c d steps).length = 2 * (steps + 1) ∧
    (∀ i ≤ steps, pairAt (bez a b c d steps) i = some (bern a b c d ((i : K) / steps))) ∧
    pairAt (bez a b c d steps) 0 = some a ∧ pairAt (bez a b c d steps) steps = some d := by
  have key : ∀ i ≤ steps, pairAt (bez a b c d steps) i = some (bern a b c d ((i : K) / steps)) := by
    intro i hi
    rw [bez, pairAt_flatten, bezXY_eq a b c d steps h]
    simp [List.getElem?_range (show i < steps + 1 by omega)]
  have hn : (steps : K) ≠ 0 := by exact_mod_cast (by omega : steps ≠ 0)
  refine ⟨?_, key, ?_, ?_⟩
  · rw [bez, xyFlatten_length, bezXY_eq a b c d steps h]; simp
  · rw [key 0 (by omega)]; simp [bern_zero]
  · rw [key steps le_rfl, div_self hn, bern_one]

/-- C30: with zero steps only the two end points are returned. -/
theorem C30_bez_zero (a b c d : Pt K) : bez a b c d 0 = [a.x, a.y, d.x, d.y] := by
  simp [bez, bezXY, xyFlatten]

/-! ### C31 -/

/-- C31: number of coordinates of `bez_path`. -/
theorem C31_length [CharZero K] (f : Pt K → Pt K) (cps : List (CP K)) (closed : Bool) (steps : ℕ) (h : 1 ≤ steps)
    (hn : if closed then 1 ≤ cps.length else 2 ≤ cps.length) :
    (bezPath f cps closed steps).length = 2 * ((if closed then cps.length else cps.length - 1) * steps + 1) := by
  have hl := segs_length closed cps
  rw [bezPath_eq f cps closed steps h, xyFlatten_length, pathOf_length, List.length_map, hl]
  intro e
  have : (segs closed cps).length = 0 := by
    rw [List.map_eq_nil_iff] at e; rw [e]; rfl
  rw [hl] at this
  cases closed <;> simp at hn <;> simp at this <;> first | omega | simp_all

/-- C31: point `k * steps + i` of the path is the point of parameter `i / steps` of segment `k` (of the transformed control
points); in particular consecutive segments share their junction exactly once. -/
theorem C31_points [CharZero K] (f : Pt K → Pt K) (cps : List (CP K)) (closed : Bool) (steps : ℕ) (h : 1 ≤ steps)
    (k i : ℕ) (hi : i ≤ steps) (s : Poly4 K) (hs : (segs closed cps)[k]? = some s) :
    pairAt (bezPath f cps closed steps) (k * steps + i) = some (bern (f s.a) (f s.b) (f s.c) (f s.d) ((i : K) / steps)) := by
  rw [bezPath_eq f cps closed steps h, pairAt_flatten]
  have := pathOf_get steps h ((segs closed cps).map (Poly4.map f)) ?_ k i hi (s.map f) (by simp [hs])
  · exact this
  · intro k s s' h1 h2
    rw [List.getElem?_map, Option.map_eq_some_iff] at h1 h2
    obtain ⟨x, hx, rfl⟩ := h1
    obtain ⟨y, hy, rfl⟩ := h2
    simp only [Poly4.map]
    rw [segs_join closed cps k x y hx hy]

/-- C31: a closed path ends exactly where it starts, at the first control point. -/
theorem C31_closed_ends [CharZero K] (f : Pt K → Pt K) (p : CP K) (cps : List (CP K)) (steps : ℕ) (h : 1 ≤ steps) :
    pairAt (bezPath f (p :: cps) true steps) 0 = some (f p.c) ∧
    pairAt (bezPath f (p :: cps) true steps) ((p :: cps).length * steps) = some (f p.c) := by
  have hn : (steps : K) ≠ 0 := by exact_mod_cast (by omega : steps ≠ 0)
  constructor
  · have hlen : 0 < (segs true (p :: cps)).length := by rw [segs_length]; simp
    have := C31_points f (p :: cps) true steps h 0 0 (by omega) _ (List.getElem?_eq_getElem hlen)
    simp only [zero_mul, zero_add, Nat.cast_zero, zero_div, bern_zero] at this
    rw [this]
    simp [segs, closedSegs, seg]
  · have hlen : cps.length < (segs true (p :: cps)).length := by rw [segs_length]; simp
    have := C31_points f (p :: cps) true steps h cps.length steps le_rfl _ (List.getElem?_eq_getElem hlen)
    rw [div_self hn, bern_one] at this
    rw [List.length_cons, Nat.succ_mul, this]
    simp [segs, closedSegs, seg, List.getElem_rotate]

/-- C31: no control points, or a single control point of an open curve, give an empty path. -/
theorem C31_empty (f : Pt K → Pt K) (p : CP K) (closed : Bool) (steps : ℕ) :
    bezPath f [] closed steps = [] ∧ bezPath f [p] false steps = [] := by
  simp [bezPath]

/-! ### C32 -/

section
variable [LinearOrder K] [IsStrictOrderedRing K]

/-- C32: every point of every segment of a curve lies in the bounding box computed for the curve. -/
theorem C32_curve_in_bbox (closed : Bool) (cps : List (CP K)) (bb : BBox K) (hb : bboxCps cps = .ok bb)
    (s : Poly4 K) (hs : s ∈ segs closed cps) (t : K) (h0 : 0 ≤ t) (h1 : t ≤ 1) : s.at' t ∈ bb.Region := by
  have hsub : ∀ cp ∈ cps, cp.bbox.Region ⊆ bb.Region := by
    cases cps with
    | nil => simp
    | cons p rest =>
      simp only [bboxCps, Except.ok.injEq] at hb
      subst hb
      exact fold_bbox_sub p rest
  obtain ⟨p, hp, q, hq, rfl⟩ := mem_segs closed cps s hs
  obtain ⟨p1, _, p3⟩ := cp_bbox_mem p
  obtain ⟨q1, q2, _⟩ := cp_bbox_mem q
  have hp1 := hsub p hp p1
  have hp3 := hsub p hp p3
  have hq1 := hsub q hq q1
  have hq2 := hsub q hq q2
  cases bb with
  | none => exact absurd hp1 (by simp [BBox.Region])
  | box xl yl xh yh => exact bern_mem_box hp1 hp3 hq2 hq1 h0 h1

/-- C32: the box is normalised, and exists for every non-empty list; an empty curve raises `IndexError`. -/
theorem C32_bbox_total (cps : List (CP K)) :
    (cps ≠ [] → ∃ bb, bboxCps cps = .ok bb ∧ bb.Norm) ∧ (cps = [] → bboxCps cps = .error .index) := by
  constructor
  · intro h
    cases cps with
    | nil => exact absurd rfl h
    | cons p rest =>
      refine ⟨_, rfl, ?_⟩
      have : ∀ (l : List (CP K)) (b : BBox K), b.Norm → (l.foldl (fun bb cp => bb.add cp.bbox) b).Norm := by
        intro l
        induction l with
        | nil => exact fun b h => h
        | cons c l ih => exact fun b h => ih _ (BBox.norm_add _ _)
      exact this rest _ (cp_bbox_norm p)
  · rintro rfl; rfl

end

/-! ### C33 -/

/-- C33: reversing twice gives back the list. -/
theorem C33_involution (cps : List (CP K)) : CP.reverseList (CP.reverseList cps) = cps := by
  simp only [CP.reverseList, ← List.map_reverse, List.reverse_reverse, List.map_map]
  conv_rhs => rw [← List.map_id cps]
  rfl

/-- C33: the reversed polygon is traced backwards. -/
theorem C33_trace (s : Poly4 K) (t : K) : s.rev.at' t = s.at' (1 - t) := by
  ext <;> simp only [Poly4.rev, Poly4.at', bern] <;> ring

/-- C33: the segments of the reversed list of an open curve are the segments of the original backwards, in reverse order. -/
theorem C33_open (cps : List (CP K)) : segs false (CP.reverseList cps) = ((segs false cps).map Poly4.rev).reverse := by
  simp only [segs, Bool.false_eq_true, if_false]
  rw [openSegs_eq, openSegs_eq]
  induction cps with
  | nil => rfl
  | cons p cps ih =>
    cases cps with
    | nil => rfl
    | cons q cps =>
      rw [show CP.reverseList (p :: q :: cps) = CP.reverseList (q :: cps) ++ [p.reversed] by simp [CP.reverseList]]
      rw [show CP.reverseList (q :: cps) = CP.reverseList cps ++ [q.reversed] by simp [CP.reverseList]] at ih ⊢
      rw [openSegs'_append2, ih]
      simp [openSegs']
      rfl

/-- C33: for a closed curve the same holds up to the choice of the starting segment. -/
theorem C33_closed (cps : List (CP K)) :
    segs true (CP.reverseList cps) = ((segs true cps).map Poly4.rev).reverse.rotate 1 := by
  simp only [segs, if_true]
  cases cps with
  | nil => rfl
  | cons p cps =>
    have e := C33_open (p :: cps)
    simp only [segs, Bool.false_eq_true, if_false, openSegs_eq] at e
    rcases List.eq_nil_or_concat cps with rfl | ⟨r, q, rfl⟩
    · simp [CP.reverseList, closedSegs]; rfl
    · have h1 : CP.reverseList (p :: r.concat q) = q.reversed :: (CP.reverseList r ++ [p.reversed]) := by
        simp [CP.reverseList]
      have h2 : closedSegs (p :: r.concat q) = openSegs' (p :: r.concat q) ++ [seg q p] := by
        rw [closedSegs_eq, List.concat_eq_append]
        exact openSegs'_append2 (p :: r) q p
      have h3 : closedSegs (CP.reverseList (p :: r.concat q)) =
          openSegs' (CP.reverseList (p :: r.concat q)) ++ [seg p.reversed q.reversed] := by
        rw [h1, closedSegs_eq]
        exact openSegs'_append2 (q.reversed :: CP.reverseList r) _ _
      rw [h3, h2, e]
      simp
      rfl

/-! ### C34 -/

/-- Transforming a control point by a matrix (`Transform.transform_pt` is `Mat3.apply`). -/
theorem C34_trace (p q : CP K) (m : Mat3 K) (t : K) :
    (seg (p.transformLin m.apply) (q.transformLin m.apply)).at' t = m.apply ((seg p q).at' t) := by
  ext <;> simp only [seg, CP.transformLin, Poly4.at', bern, Mat3.apply, CP.l, CP.r, Pt.addVector, Pt.sub] <;> ring

/-- C34: transforming by `A` and then by `B` is transforming by the product. -/
theorem C34_compose (p : CP K) (a b : Mat3 K) (ha : a.Affine) :
    (p.transformLin a.apply).transformLin b.apply = p.transformLin (b.mul a).apply := by
  have e : ∀ x y : Pt K, x.addVector (y.sub x) = y := by
    intro x y; ext <;> simp [Pt.addVector, Pt.sub]
  simp only [CP.transformLin, CP.l, CP.r, e, Mat3.apply_mul ha]

/-- C34: the identity gives an equal control point; the kind is kept by any transform. -/
theorem C34_identity_kind (p : CP K) (f : Pt K → Pt K) :
    p.transformLin (Mat3.one : Mat3 K).apply = p ∧ (p.transformLin f).kind = p.kind := by
  refine ⟨?_, rfl⟩
  ext <;> simp [CP.transformLin, CP.l, CP.r, Mat3.apply_one, Pt.addVector, Pt.sub]

/-- C34: an invertible transform can be undone exactly. -/
theorem C34_inverse [DecidableEq K] (p : CP K) (m n : Mat3 K) (hm : m.Affine) (h : m.inv = .ok n) :
    (p.transformLin m.apply).transformLin n.apply = p := by
  rw [C34_compose p m n hm, (Mat3.inv_ok h).2.2, (C34_identity_kind p id).1]

/-- C34: handles transform as vectors, without the translation. -/
theorem C34_handles (p : CP K) (m : Mat3 K) :
    (p.transformLin m.apply).dl = m.applyVec p.dl ∧ (p.transformLin m.apply).dr = m.applyVec p.dr := by
  constructor <;> ext <;> simp [CP.transformLin, CP.l, CP.r, Mat3.apply, Mat3.applyVec, Pt.addVector, Pt.sub] <;> ring

example : bezSplit (K := ℚ) ⟨⟨0, 0⟩, ⟨0, 0⟩, ⟨8, 8⟩, "sharp"⟩ ⟨⟨4, 0⟩, ⟨-8, 8⟩, ⟨0, 0⟩, "sharp"⟩ (1 / 2) =
    (⟨⟨0, 0⟩, ⟨0, 0⟩, ⟨4, 4⟩, "smooth"⟩, ⟨⟨2, 6⟩, ⟨1, 0⟩, ⟨-1, 0⟩, "smooth"⟩, ⟨⟨4, 0⟩, ⟨-4, 4⟩, ⟨0, 0⟩, "smooth"⟩) := by
  norm_num [bezSplit, lerp, CP.l, CP.r, Pt.addVector, Pt.sub, Vec.mul]
example : bezPath (K := ℚ) id [⟨⟨0, 0⟩, ⟨0, 0⟩, ⟨3, 0⟩, "sharp"⟩, ⟨⟨6, 6⟩, ⟨0, 0⟩, ⟨0, 0⟩, "sharp"⟩] false 1 = [0, 0, 6, 6] := by
  norm_num [bezPath, bez, bezXY, xyFlatten]

end X7
