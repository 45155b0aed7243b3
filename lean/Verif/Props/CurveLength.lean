import Verif.Lemmas.CurveLength
import Verif.Lemmas.Approx
import Verif.Props.BezierReal
import Verif.Props.SelfCurve
import Verif.Props.AreaCurve
import Verif.Spec.Refine
import Mathlib.Topology.Order.Basic
import Mathlib.Analysis.SpecificLimits.Basic

/-!
C127: the length of a curve and the area it encloses. What `bez_split`, `add_one`, `self_intersect`, reversing and transforms do to them, and
how long the path drawn is.
-/

noncomputable section

namespace X7.Approx
open X7.Utils (distPt)
open Filter Topology

/-! ### Bounds -/

/-- C127: a segment is at least as long as the line between its ends and at most as long as the lines from its start along the handles to its
end. -/
theorem C127_segment (p q : CP ℝ) :
    distPt p.c q.c ≤ arcLen (seg p q) ∧ arcLen (seg p q) ≤ distPt p.c p.r + distPt p.r q.l + distPt q.l q.c := by
  constructor
  · have := chord_le (seg p q) zero_le_one
    rw [← arcLen_eq] at this
    simpa [Poly4.at', bern, seg] using this
  · exact polygon_ge (seg p q)

/-- The bounds are attained: by a straight stroke. -/
example : arcLen (seg ⟨⟨0, 0⟩, ⟨0, 0⟩, ⟨1, 0⟩, "sharp"⟩ ⟨⟨3, 0⟩, ⟨-1, 0⟩, ⟨0, 0⟩, "sharp"⟩) = 3 := by
  have h := C127_segment ⟨⟨0, 0⟩, ⟨0, 0⟩, ⟨1, 0⟩, "sharp"⟩ ⟨⟨3, 0⟩, ⟨-1, 0⟩, ⟨0, 0⟩, "sharp"⟩
  simp [distPt, CP.l, CP.r, Pt.addVector] at h
  norm_num at h
  linarith [h.1, h.2]

/-! ### Drawing -/

theorem path_len (m : Mat3 ℝ) (closed : Bool) (cps : List (CP ℝ)) {n : ℕ} (hn : 1 ≤ n) :
    lineLen (pathOf n ((segs closed cps).map (Poly4.map m.apply))) ≤ curveLen ((segs closed cps).map (Poly4.map m.apply)) ∧
    curveLen ((segs closed cps).map (Poly4.map m.apply)) ≤ lineLen (pathOf n ((segs closed cps).map (Poly4.map m.apply))) +
      6 * (((segs closed cps).map (Poly4.map m.apply)).map bend).sum / n := by
  have hj := segs_join closed (cps.map (·.transformLin m.apply))
  rw [Elem.segs_transform] at hj
  rw [lineLen_pathOf hn _ hj]
  generalize (segs closed cps).map (Poly4.map m.apply) = ss
  constructor
  · exact List.sum_le_sum fun s _ => (samples_len hn s).1
  · have : curveLen ss ≤ (ss.map fun s => (lineLen (samples n s) + 6 * bend s / n)).sum := List.sum_le_sum fun s _ => (samples_len hn s).2
    refine this.trans (le_of_eq ?_)
    rw [List.sum_map_add]
    congr 1
    clear this hj
    induction ss with
    | nil => simp
    | cons s ss ih => rw [List.map_cons, List.sum_cons, ih, List.map_cons, List.sum_cons]; ring

/-- C127: the path that `bez_path` returns, its points joined by lines, is never longer than the curve, and falls short of it by at most six
times the sum of the bends over the number of steps. -/
theorem C127_bez_path (m : Mat3 ℝ) (cps : List (CP ℝ)) (closed : Bool) (steps : ℕ) (hs : 1 ≤ steps) :
    ∃ ps, bezPath m.apply cps closed steps = xyFlatten ps ∧
      lineLen ps ≤ curveLen ((segs closed cps).map (Poly4.map m.apply)) ∧
      curveLen ((segs closed cps).map (Poly4.map m.apply)) - 6 * (((segs closed cps).map (Poly4.map m.apply)).map bend).sum / steps ≤
        lineLen ps := by
  refine ⟨_, bezPath_eq m.apply cps closed steps hs, (path_len m closed cps hs).1, ?_⟩
  linarith [(path_len m closed cps hs).2]

/-- C127: so with more and more steps its length tends to that of the curve. -/
theorem C127_bez_path_limit (m : Mat3 ℝ) (cps : List (CP ℝ)) (closed : Bool) (ε : ℝ) (hε : 0 < ε) :
    ∃ N : ℕ, ∀ steps ≥ N, ∃ ps, bezPath m.apply cps closed steps = xyFlatten ps ∧
      |lineLen ps - curveLen ((segs closed cps).map (Poly4.map m.apply))| < ε := by
  set B := 6 * (((segs closed cps).map (Poly4.map m.apply)).map bend).sum with hB
  obtain ⟨N, hN⟩ := exists_nat_gt (B / ε)
  refine ⟨N + 1, fun steps hst => ?_⟩
  obtain ⟨ps, h1, h2, h3⟩ := C127_bez_path m cps closed steps (by omega)
  refine ⟨ps, h1, ?_⟩
  have hp : (0 : ℝ) < steps := by exact_mod_cast (by omega : 0 < steps)
  have : B / steps < ε := by
    rw [div_lt_iff₀ hp]
    rw [div_lt_iff₀ hε] at hN
    have : (N : ℝ) ≤ steps := by exact_mod_cast (by omega : N ≤ steps)
    nlinarith
  rw [abs_lt]
  constructor <;> linarith

/-- C127: the same for what a curve draws, through the transform of the drawing context and its own. -/
theorem C127_curve (cfg : DCfg) (h : Hdr) (cps : List (CP ℝ)) (m : Mat3 ℝ) (n : ℕ)
    (hn : n = max 1 (if cfg.showCps then 10 else cfg.pointsPerCurve)) :
    ∃ pts, Elem.drawn cfg (.curve h cps) m = .ok [⟨h.pb, h.closed, pts⟩] ∧
      lineLen pts ≤ curveLen ((segs h.closed cps).map (Poly4.map (m.mul h.xf).apply)) ∧
      curveLen ((segs h.closed cps).map (Poly4.map (m.mul h.xf).apply)) -
        6 * (((segs h.closed cps).map (Poly4.map (m.mul h.xf).apply)).map bend).sum / n ≤ lineLen pts := by
  rw [Elem.drawn_basic cfg _ (by simp only [Elem.Basic])]
  simp only [Elem.outline, Except.map, Elem.hdr]
  refine ⟨_, rfl, ?_⟩
  rw [← hn, ← Elem.pathOf_map]
  have := path_len (m.mul h.xf) h.closed cps (n := n) (by rw [hn]; exact le_max_left _ _)
  exact ⟨this.1, by linarith [this.2]⟩

/-! ### Transforms and reversal -/

/-- C127: a transform that multiplies all distances by `k` multiplies the length of every curve by `k`. -/
theorem C127_transform (m : Mat3 ℝ) (k : ℝ) (hm : Scales m k) (closed : Bool) (cps : List (CP ℝ)) :
    curveLen (segs closed (cps.map (·.transformLin m.apply))) = k * curveLen (segs closed cps) := by
  rw [Elem.segs_transform, curveLen, curveLen, List.map_map, ← List.sum_map_mul_left]
  congr 1
  refine List.map_congr_left fun s _ => ?_
  rw [Function.comp_apply, arcLen_eq, arcLen_eq, ← intervalIntegral.integral_const_mul]
  congr 1
  funext t
  rw [vel_map, hm, distPt_nrm]
  simp

/-- Turning, moving and scaling by the same factor in both directions are such transforms: `[k cos, -k sin; k sin, k cos]`. -/
example (k c s dx dy : ℝ) (hk : 0 ≤ k) (h : c ^ 2 + s ^ 2 = 1) : Scales ⟨k * c, -(k * s), dx, k * s, k * c, dy, 0, 0, 1⟩ k := by
  intro p q
  rw [distPt, distPt, ← Real.sqrt_sq hk, ← Real.sqrt_mul (sq_nonneg _)]
  congr 1
  simp only [Mat3.apply]
  rw [Real.sqrt_sq hk]
  linear_combination k ^ 2 * ((p.x - q.x) ^ 2 + (p.y - q.y) ^ 2) * h

/-- C127: reversing a curve leaves its length and turns the sign of its area. -/
theorem C127_reverse (closed : Bool) (cps : List (CP ℝ)) :
    curveLen (segs closed (CP.reverseList cps)) = curveLen (segs closed cps) ∧
    enclosed (segs closed (CP.reverseList cps)) = -enclosed (segs closed cps) := by
  have key : ∀ Q : Poly4 ℝ → ℝ, ((segs closed (CP.reverseList cps)).map Q).sum = ((segs closed cps).map fun s => Q s.rev).sum := by
    intro Q
    cases closed with
    | false => rw [C33_open, List.map_reverse, List.sum_reverse, List.map_map]; rfl
    | true =>
      rw [C33_closed, ((List.rotate_perm _ 1).map Q).sum_eq, List.map_reverse, List.sum_reverse, List.map_map]; rfl
  constructor
  · rw [curveLen, key]; simp only [arcLen_rev]; rfl
  · rw [enclosed, key]
    simp only [swept_rev]
    rw [enclosed, ← neg_one_mul, ← List.sum_map_mul_left]
    simp

/-! ### Cutting -/

/-- C127: the two parts that `bez_split` makes are together as long as the segment and sweep over the same area. -/
theorem C127_split (p q : CP ℝ) (t : ℝ) (t0 : 0 ≤ t) (t1 : t ≤ 1) :
    let (l, m, r) := bezSplit p q t
    arcLen (seg l m) + arcLen (seg m r) = arcLen (seg p q) ∧ swept (seg l m) + swept (seg m r) = swept (seg p q) :=
  ⟨alongLen.two t0 t1 fun u => C29_split_traces p q t u, alongArea.two t0 t1 fun u => C29_split_traces p q t u⟩

theorem add_one_along {Q : Poly4 ℝ → ℝ} (A : Along Q) (cps : List (CP ℝ)) (hn : 2 ≤ cps.length) (new : List (CP ℝ))
    (h : addOne cps = .ok new) : new.length = cps.length + 1 ∧ ((segs true new).map Q).sum = ((segs true cps).map Q).sum := by
  obtain ⟨new', S, L, R, rest, i, j, hok, hlen, e1, e2, hh, -⟩ := C36_add_one_closed cps hn
  rw [h] at hok
  cases hok
  refine ⟨hlen, ?_⟩
  have := A.two (S := S) (L := L) (R := R) (t := 1 / 2) (by norm_num) (by norm_num) fun u =>
    ⟨by rw [(hh u).1]; congr 1; ring, by rw [(hh u).2]; congr 1; ring⟩
  rw [← ((List.rotate_perm (segs true new) j).map Q).sum_eq, ← ((List.rotate_perm (segs true cps) i).map Q).sum_eq, e1, e2]
  simp only [List.map_cons, List.sum_cons]
  linarith

/-- C127: `add_one`, called any number of times, leaves length and area of a closed curve. -/
theorem C127_add_one (cps : List (CP ℝ)) (hn : 2 ≤ cps.length) (n : ℕ) (new : List (CP ℝ)) (h : Refine.addMany n cps = .ok new) :
    curveLen (segs true new) = curveLen (segs true cps) ∧ enclosed (segs true new) = enclosed (segs true cps) := by
  induction n generalizing cps with
  | zero => simp only [Refine.addMany, Except.ok.injEq] at h; subst h; exact ⟨rfl, rfl⟩
  | succ n ih =>
    simp only [Refine.addMany] at h
    cases h1 : addOne cps with
    | error e => rw [h1] at h; cases h
    | ok mid =>
      rw [h1] at h
      obtain ⟨l1, a1⟩ := add_one_along alongLen cps hn mid h1
      obtain ⟨-, a2⟩ := add_one_along alongArea cps hn mid h1
      obtain ⟨k1, k2⟩ := ih mid (by omega) h
      exact ⟨k1.trans a1, k2.trans a2⟩

/-! ### Taking a curve apart where it crosses itself -/

open Bzi

theorem pieces_along {Q : Poly4 ℝ → ℝ} (A : Along Q) {curves : List ((CP ℝ × CP ℝ) × List (ℝ × Pt ℝ))} {pieces : List (List (Poly4 ℝ))}
    (he : Exact curves)
    (h : List.Forall₂ (fun c ps => Pieces (seg c.1.1 c.1.2) ((sortIxs c.2).map Prod.fst) ps) curves pieces) :
    (pieces.flatten.map Q).sum = (curves.map fun c => Q (seg c.1.1 c.1.2)).sum := by
  induction h with
  | nil => simp
  | @cons c ps curves pieces h1 _ ih =>
    have hc := he c (by simp)
    have hs : ∀ s ∈ (sortIxs c.2).map Prod.fst, 0 ≤ s ∧ s ≤ 1 := by
      intro s hs
      obtain ⟨x, hx, rfl⟩ := List.mem_map.1 hs
      have := hc x ((sortIxs_perm c.2).mem_iff.1 hx)
      exact ⟨this.1, this.2.1.le⟩
    have k := A.of_pieces (seg c.1.1 c.1.2) _ 0 ps (List.pairwise_cons.2 ⟨fun s h => (hs s h).1, sortIxs_sorted c.2⟩) (by
      intro s h
      rcases List.mem_cons.1 h with rfl | h
      · norm_num
      · exact (hs s h).2) h1
    rw [← A.eq] at k
    rw [List.flatten_cons, List.map_append, List.sum_append, k, ih fun c hc => he c (by simp [hc]), List.map_cons, List.sum_cons]

theorem allCurves_along {Q : Poly4 ℝ → ℝ} (A : Along Q) (hit : CP ℝ → CP ℝ → Bool) (cps : List (CP ℝ)) :
    ((allCurves hit cps).map fun c => Q (seg c.1 c.2)).sum = ((closedSegs cps).map Q).sum := by
  have hcl : closedSegs cps = (iterRotate2 cps).map fun c => seg c.1 c.2 := by
    simp only [iterRotate2, closedSegs]
    rw [← List.map_uncurry_zip_eq_zipWith]
    rfl
  rw [hcl, allCurves]
  generalize iterRotate2 cps = l
  induction l with
  | nil => simp
  | cons ab l ih =>
    rw [List.flatMap_cons, List.map_append, List.sum_append, ih, List.map_cons, List.map_cons, List.sum_cons]
    congr 1
    split
    · have := A.two (t := 1 / 2) (by norm_num) (by norm_num) fun u => C29_split_traces ab.1 ab.2 (1 / 2) u
      simp only [List.map_cons, List.map_nil, List.sum_cons, List.sum_nil, add_zero]
      exact this
    · simp

theorem loops_along {A : Type*} [AddCommMonoid A] {Q : Poly4 ℝ → A} {w : List (Pt ℝ)} {arcs : List (List (Poly4 ℝ))} {out : List (List (CP ℝ))} (h : Loops w arcs out) :
    (out.map fun c => ((closedSegs c).map Q).sum).sum = (arcs.flatten.map Q).sum := by
  obtain ⟨loops, h1, h2⟩ := h
  have e1 : (out.map fun c => ((closedSegs c).map Q).sum).sum =
      (loops.flatten.map fun i => (((arcs[i]?).getD []).map Q).sum).sum := by
    clear h1
    induction h2 with
    | nil => simp
    | cons h _ ih =>
      rw [List.map_cons, List.sum_cons, ih, List.flatten_cons, List.map_append, List.sum_append]
      congr 1
      rw [(h.2.2.perm.map Q).sum_eq, List.map_flatMap, List.flatMap_def, List.sum_flatten, List.map_map]
      rfl
  rw [e1, (h1.map _).sum_eq, List.map_flatten, List.sum_flatten, List.map_map]
  congr 1
  apply List.ext_getElem
  · simp
  · intro i h1 h2
    have hi : i < arcs.length := by simpa using h2
    simp [List.getElem?_eq_getElem hi]

theorem self_along {Q : Poly4 ℝ → ℝ} (A : Along Q) (hit : CP ℝ → CP ℝ → Bool) (ixs : List (List (ℝ × Pt ℝ))) (cps : List (CP ℝ))
    (hlen : ixs.length = (allCurves hit cps).length) (he : Exact ((allCurves hit cps).zip ixs))
    (ha : Apart ((allCurves hit cps).zip ixs)) (hne : ∃ l ∈ ixs, l ≠ []) (out : List (List (CP ℝ)))
    (ho : Bzi.selfIntersect hit ixs cps = .ok out) :
    (out.map fun c => ((closedSegs c).map Q).sum).sum = ((closedSegs cps).map Q).sum := by
  have h := C65_result hit ixs cps hlen he ha hne
  rw [ho] at h
  obtain ⟨pieces, arcs, h1, h2, h3⟩ := h
  rw [loops_along h3, (h2.whole.perm.map Q).sum_eq, pieces_along A he h1, ← allCurves_along A hit cps]
  have e2 := List.map_fst_zip (l₁ := allCurves hit cps) (l₂ := ixs) hlen.ge
  conv_rhs => rw [← e2, List.map_map]
  rfl

/-- C127: with a right intersection finder, intersections away from the ends of segments and different ones at least 1e-11 apart, the curves
that `bez_self_intersect` returns for a curve that crosses itself are together as long as the curve, and the signed areas they enclose add up
to the signed area the curve encloses. -/
theorem C127_self_intersect (lib : Lib) (cps : List (CP ℝ)) (hs : lib.Sound) (hn : NoEnds lib (segList lib cps))
    (ha : CrossApart lib (segList lib cps)) (hx : ∃ i j t s, Cross lib (segList lib cps) i j t s) (out : List (List (CP ℝ)))
    (ho : selfIntersectLib lib cps = .ok out) :
    (out.map fun c => curveLen (segs true c)).sum = curveLen (segs true cps) ∧
    (out.map fun c => enclosed (segs true c)).sum = enclosed (segs true cps) := by
  rw [← nonempty_iff] at hx
  exact ⟨self_along alongLen _ _ cps (findIxs_length _ _) (exact_of lib cps hs hn) (apart_of lib cps ha) hx out ho,
    self_along alongArea _ _ cps (findIxs_length _ _) (exact_of lib cps hs hn) (apart_of lib cps ha) hx out ho⟩

/-- C127: the same for `self_intersect()` of a closed curve, against the curve as its own transform places it. -/
theorem C127_elem (lib : Lib) (h : Hdr) (cps : List (CP ℝ)) (hs : lib.Sound) (hc : h.closed = true)
    (hn : NoEnds lib (segList lib (cps.map (·.transformLin h.xf.apply))))
    (ha : CrossApart lib (segList lib (cps.map (·.transformLin h.xf.apply)))) (es : List Elem)
    (he : Elem.selfIntersect lib (.curve h cps) = .ok es) (hne : es ≠ []) :
    ∃ out : List (List (CP ℝ)), es = out.mapIdx (fun i c => .curve ⟨h.name ++ "_i".toList ++ fmtNat i, h.pb, h.closed, Mat3.one⟩ c) ∧
      (out.map fun c => curveLen (segs h.closed c)).sum = curveLen ((segs h.closed cps).map (Poly4.map h.xf.apply)) ∧
      (out.map fun c => enclosed (segs h.closed c)).sum = det2 h.xf * enclosed (segs h.closed cps) := by
  obtain ⟨h1, -⟩ := Elem.C77_elem lib h cps hs hc hn ha es he
  have hx : ∃ i j t s, Cross lib (segList lib (cps.map (·.transformLin h.xf.apply))) i j t s := by
    by_contra hx
    exact hne (h1.2 hx)
  have hout : ∃ out, selfIntersectLib lib (cps.map (·.transformLin h.xf.apply)) = .ok out ∧
      es = out.mapIdx (fun i c => .curve ⟨h.name ++ "_i".toList ++ fmtNat i, h.pb, h.closed, Mat3.one⟩ c) := by
    simp only [Elem.selfIntersect] at he
    cases ho : selfIntersectLib lib (cps.map (·.transformLin h.xf.apply)) with
    | error e => simp [ho] at he
    | ok out =>
      rw [ho] at he
      refine ⟨out, rfl, ?_⟩
      cases out with
      | nil => simpa using he.symm
      | cons c rest =>
        simp only at he
        cases hk : Elem.checkClosed h.pb h.closed with
        | error e => simp [hk] at he
        | ok u =>
          rw [hk] at he
          simpa using he.symm
  obtain ⟨out, ho, rfl⟩ := hout
  obtain ⟨k1, k2⟩ := C127_self_intersect lib _ hs hn ha hx out ho
  rw [Elem.segs_transform] at k1 k2
  rw [hc]
  refine ⟨out, rfl, k1, k2.trans ?_⟩
  rw [C121_transform]

/-- The bow tie: its two triangles are run through in opposite directions, so their areas cancel. -/
example : ∃ out, selfIntersectLib bowLib bow = .ok out ∧ (out.map fun c => enclosed (segs true c)).sum = 0 := by
  have hn : NoEnds bowLib (segList bowLib bow) := by
    intro i j t s h
    obtain ⟨-, -, rfl, rfl⟩ := (bow_cross _ _ _ _).1 h
    norm_num
  have ha : CrossApart bowLib (segList bowLib bow) := by
    intro i j t s i' j' t' s' A A' h h' hA hA' hne
    obtain ⟨rfl, rfl, rfl, rfl⟩ := (bow_cross _ _ _ _).1 h
    obtain ⟨rfl, rfl, rfl, rfl⟩ := (bow_cross _ _ _ _).1 h'
    rw [hA] at hA'
    cases hA'
    exact absurd rfl hne
  obtain ⟨out, ho⟩ := bow_result
  refine ⟨out, ho, ?_⟩
  rw [(C127_self_intersect bowLib bow bowLib_sound hn ha ⟨0, 2, 1 / 2, 1 / 2, (bow_cross _ _ _ _).2 ⟨rfl, rfl, rfl, rfl⟩⟩ out ho).2]
  simp [segs, closedSegs, bow, enclosed, swept_eq, seg, cr, Poly4.c1, Poly4.c2, Poly4.c3]
  norm_num

end X7.Approx
