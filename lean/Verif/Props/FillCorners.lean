import Verif.Props.FillChange

/-!
C138: closed curves without handles are the polygons of their corners.
-/

open MeasureTheory Set X7.Approx

noncomputable section

namespace X7.Elem

theorem sense_level {p a b : Pt ℝ} (h : a.y = b.y) : sense p a b = 0 := by
  simp [sense, Crosses, h]

theorem winding_cyc (pts : List (Pt ℝ)) (p : Pt ℝ) : winding pts p = cyc (sense p) pts := by
  rw [winding, cyc, ← List.map_uncurry_zip_eq_zipWith]
  rfl

open Classical in
/-- Points along a line add up to the line. -/
theorem run_line (p : Pt ℝ) (s : Poly4 ℝ) (hb : s.b = s.a) (hc : s.c = s.d) {n : ℕ} (hn : 1 ≤ n) : run (sense p) (samples n s) = sense p s.a s.d := by
  have hn0 : (n : ℝ) ≠ 0 := by exact_mod_cast (by omega : n ≠ 0)
  have ex : ∀ t, (s.at' t).x = s.a.x + (3 * (1 - t) * t ^ 2 + t ^ 3) * (s.d.x - s.a.x) := fun t => by
    simp only [Poly4.at', bern, hb, hc]; ring
  have ey : ∀ t, (s.at' t).y = s.a.y + (3 * (1 - t) * t ^ 2 + t ^ 3) * (s.d.y - s.a.y) := fun t => by
    simp only [Poly4.at', bern, hb, hc]; ring
  have e0 : s.at' ((0 : ℕ) / (n : ℝ)) = s.a := by
    ext
    · rw [ex]; simp
    · rw [ey]; simp
  have e1 : s.at' ((n : ℝ) / n) = s.d := by
    ext
    · rw [ex, div_self hn0]; ring
    · rw [ey, div_self hn0]; ring
  rw [samples, run_range]
  by_cases h : s.a.y = s.d.y
  · rw [sense_level h]
    refine Finset.sum_eq_zero fun i _ => sense_level ?_
    rw [ey, ey, h, sub_self, mul_zero, mul_zero]
  · have hne : s.d.y - s.a.y ≠ 0 := fun h' => h (by linarith)
    have hl : ∀ t, (s.at' t).x = (s.d.x - s.a.x) / (s.d.y - s.a.y) * (s.at' t).y + (s.a.x - (s.d.x - s.a.x) / (s.d.y - s.a.y) * s.a.y) := fun t => by
      rw [ex, ey]
      field_simp
      ring
    have ha := hl ((0 : ℕ) / (n : ℝ))
    have hd := hl ((n : ℝ) / n)
    rw [e0] at ha
    rw [e1] at hd
    rw [sense_flat ha hd, Finset.sum_congr rfl fun (i : ℕ) _ => sense_flat (p := p) (hl ((i : ℝ) / n)) (hl (((i + 1 : ℕ) : ℝ) / n))]
    by_cases hp : p.x < (s.d.x - s.a.x) / (s.d.y - s.a.y) * p.y + (s.a.x - (s.d.x - s.a.x) / (s.d.y - s.a.y) * s.a.y)
    · simp only [if_pos hp]
      rw [Finset.sum_range_sub (fun i : ℕ => if p.y < (s.at' ((i : ℝ) / n)).y then (1 : ℤ) else 0), e0, e1]
    · simp only [if_neg hp, Finset.sum_const_zero]

theorem last_seg (M : Pt ℝ → Pt ℝ) (z : CP ℝ) (l : List (CP ℝ)) (x : CP ℝ) :
    (((List.zipWith seg (x :: l) (l ++ [z])).map (Poly4.map M)).getLast?.map Poly4.d) = some (M z.c) := by
  induction l generalizing x with
  | nil => simp [seg, Poly4.map]
  | cons y l ih =>
    have := ih y
    cases l with
    | nil => simp [seg, Poly4.map]
    | cons w l =>
      simp only [List.cons_append, List.zipWith_cons_cons, List.map_cons, List.getLast?_cons_cons] at this ⊢
      exact this

/-- Without handles the drawn path goes around points as often as the polygon of the corners. -/
theorem winding_corners (M : Mat3 ℝ) (cps : List (CP ℝ)) (h0 : ∀ cp ∈ cps, cp.dl = ⟨0, 0⟩ ∧ cp.dr = ⟨0, 0⟩) {n : ℕ} (hn : 1 ≤ n) (p : Pt ℝ) :
    winding (pathOf n ((segs true cps).map (Poly4.map M.apply))) p = winding (cps.map fun cp => M.apply cp.c) p := by
  have hs : ∀ s ∈ (segs true cps).map (Poly4.map M.apply), s.b = s.a ∧ s.c = s.d := by
    intro s hs
    obtain ⟨x, hx, rfl⟩ := List.mem_map.1 hs
    simp only [segs, if_true, closedSegs] at hx
    rw [← List.map_uncurry_zip_eq_zipWith] at hx
    obtain ⟨e, he, rfl⟩ := List.mem_map.1 hx
    have h1 := h0 _ (List.of_mem_zip he).1
    have h2 := h0 _ (List.mem_rotate.1 (List.of_mem_zip he).2)
    simp [Function.uncurry, seg, Poly4.map, h1, h2]
  have hj := segs_joins true cps M.apply
  cases cps with
  | nil => rfl
  | cons c l =>
    have hz : segs true (c :: l) = List.zipWith seg (c :: l) (l ++ [c]) := by simp [segs, closedSegs]
    have hl := last_seg M.apply c l c
    rw [← hz] at hl
    obtain ⟨s, ss, hss⟩ : ∃ s ss, (segs true (c :: l)).map (Poly4.map M.apply) = s :: ss := by
      cases hh : (segs true (c :: l)).map (Poly4.map M.apply) with
      | nil => rw [hh] at hl; simp at hl
      | cons s ss => exact ⟨s, ss, rfl⟩
    have hsa : s.a = M.apply c.c := by
      have := congrArg List.head? hss
      rw [hz] at this
      cases l <;> simp at this <;> rw [← this] <;> rfl
    have hsum : ((s :: ss).map fun s => sense p s.a s.d).sum = winding ((c :: l).map fun cp => M.apply cp.c) p := by
      rw [← hss, hz, winding, ← List.map_rotate, List.zip_map, List.map_map, List.map_map, ← List.map_uncurry_zip_eq_zipWith, List.map_map]
      simp only [List.rotate_cons_succ, List.rotate_zero]
      rfl
    rw [hss] at hj hs hl ⊢
    rw [winding_cyc, cyc_pathOf _ hn s ss hj, List.map_congr_left fun s' hs' => run_line p s' (hs s' hs').1 (hs s' hs').2 hn, hsum]
    have hlast : (ss.getLast?.map Poly4.d).getD s.d = M.apply c.c := by
      cases ss with
      | nil => simpa using hl
      | cons x ss =>
        rw [List.getLast?_cons_cons] at hl
        rw [hl]; rfl
    rw [hlast, hsa, sense_level rfl, add_zero]

/-- C138: a closed curve without handles goes around each point as often as the polygon of its corners, and so fills the same, whatever the number of points per
segment. -/
theorem C138_corners (cfg : DCfg) (h : Hdr) (cps : List (CP ℝ)) (m : Mat3 ℝ) (hc : h.closed = true) (h0 : ∀ cp ∈ cps, cp.dl = ⟨0, 0⟩ ∧ cp.dr = ⟨0, 0⟩) :
    ∃ q, drawn cfg (.curve h cps) m = .ok [q] ∧ ∀ p, winding q.pts p = winding (cps.map fun cp => (m.mul h.xf).apply cp.c) p ∧
      (Covers q.pts p ↔ Covers (cps.map fun cp => (m.mul h.xf).apply cp.c) p) := by
  refine ⟨_, drawn_basic cfg _ (by simp only [Elem.Basic]) m, fun p => ?_⟩
  simp only [hdr]
  rw [← pathOf_map, hc]
  have := winding_corners (m.mul h.xf) cps h0 (le_max_left 1 (if cfg.showCps then 10 else cfg.pointsPerCurve)) p
  exact ⟨this, by rw [winding_odd, winding_odd, this]⟩

/-- A rectangle as a curve without handles: `C138_exact` applies, and the area is that of the rectangle. -/
example (pb : PenBrush) : let cps : List (CP ℝ) := [⟨⟨0, 0⟩, ⟨0, 0⟩, ⟨0, 0⟩, "sharp"⟩, ⟨⟨0, 3⟩, ⟨0, 0⟩, ⟨0, 0⟩, "sharp"⟩, ⟨⟨2, 3⟩, ⟨0, 0⟩, ⟨0, 0⟩, "sharp"⟩,
      ⟨⟨2, 0⟩, ⟨0, 0⟩, ⟨0, 0⟩, "sharp"⟩, ⟨⟨0, 0⟩, ⟨0, 0⟩, ⟨0, 0⟩, "sharp"⟩]
    areaOf (settled ⟨"c".toList, pb, true, Mat3.one⟩ cps Mat3.one) = |det2 ((Mat3.one : Mat3 ℝ).mul Mat3.one) * enclosed (segs true cps)| := by
  intro cps
  have one : ∀ p : Pt ℝ, ((Mat3.one : Mat3 ℝ).mul Mat3.one).apply p = p := fun p => by ext <;> simp [Mat3.apply, Mat3.one, Mat3.mul]
  refine C138_exact ⟨"c".toList, pb, true, Mat3.one⟩ cps Mat3.one rfl fun N => ⟨N, le_rfl, ?_⟩
  obtain ⟨q, h1, h2⟩ := C138_corners ⟨false, N⟩ ⟨"c".toList, pb, true, Mat3.one⟩ cps Mat3.one rfl (by simp [cps])
  refine ⟨q, h1, -1, Or.inr rfl, fun p => ?_⟩
  rw [(h2 p).1]
  simp only [cps, List.map_cons, List.map_nil, one]
  exact winding_box (by norm_num) (by norm_num) p

end X7.Elem
