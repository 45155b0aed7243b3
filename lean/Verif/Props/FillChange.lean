import Verif.Lemmas.FillChange

/-!
C138: how much the area of what is filled can change: with the points, the number of points per curve, the rounding, the time of a morph.
-/

open MeasureTheory Set X7.Approx
open X7.Utils (distPt)

noncomputable section

namespace X7.Elem

theorem area_moved {pts pts' : List (Pt ℝ)} {δ : ℝ} (hδ : 0 ≤ δ) (h : ∀ p, (∀ x, OnSide pts x → δ < distPt p x) → (Covers pts p ↔ Covers pts' p)) :
    |areaOf {p | Covers pts p} - areaOf {p | Covers pts' p}| ≤ 2 * δ * perimeter pts + pts.length * (Real.pi * δ ^ 2) := by
  have hc := area_change (A := {p | Covers pts p}) (B := {p | Covers pts' p}) (covers_finite pts) (L := pts.zip (pts.rotate 1)) hδ fun p hp =>
    h p fun x ⟨e, he, v, v0, v1, hx⟩ => hp e he x ⟨v, v0, v1, hx⟩
  rwa [List.length_zip, List.length_rotate, min_self] at hc

/-- C138: if every point of a polygon is moved by at most `δ`, the area of what it fills changes by at most `2 δ` times the length of its outline, plus one disc
of radius `δ` per point. -/
theorem C138_moved (pts pts' : List (Pt ℝ)) (δ : ℝ) (hδ : 0 ≤ δ) (hl : List.Forall₂ (fun a b => distPt a b ≤ δ) pts pts') :
    |areaOf {p | Covers pts p} - areaOf {p | Covers pts' p}| ≤ 2 * δ * perimeter pts + pts.length * (Real.pi * δ ^ 2) :=
  area_moved hδ fun p hp => C132_moved pts pts' δ hl p hp

/-- C138: so computing in floating point changes the area of what a curve fills by no more than that. -/
theorem C138_rounded (R : Rnd) (mode : DotMode) (m : Mat3 ℝ) (cps : List (CP ℝ)) (closed : Bool) (steps : ℕ) (hs : 1 ≤ steps)
    (Bx By : ℝ) (hb : ∀ cp ∈ cps, cp.Bounded Bx By) :
    let δ := √(((R.gam 13 + 6 * R.u) * (|m.a| * Bx + |m.b| * By + |m.c|)) ^ 2 + ((R.gam 13 + 6 * R.u) * (|m.d| * Bx + |m.e| * By + |m.f|)) ^ 2)
    ∃ ps ps', bezPath m.apply cps closed steps = xyFlatten ps ∧ Fl.bezPath R (Fl.apply R mode m) cps closed steps = xyFlatten ps' ∧
      |areaOf {p | Covers ps p} - areaOf {p | Covers ps' p}| ≤ 2 * δ * perimeter ps + ps.length * (Real.pi * δ ^ 2) := by
  intro δ
  obtain ⟨ps, ps', h1, h2, h3, -⟩ := C132_rounded R mode m cps closed steps hs Bx By hb
  exact ⟨ps, ps', h1, h2, C138_moved ps ps' δ (Real.sqrt_nonneg _) h3⟩

/-- C138: in a morph the area of what is filled changes with the value of the time function at most so fast: a morph does not jump. -/
theorem C138_morph {model : List (CP ℝ) → Elem} {h : Hdr} {source target : List (CP ℝ)} {tfunc : Anim.TFunc} {force : Bool} {m : Morph.M}
    (hm : Morph.mk model h source target tfunc force = .ok m) (hk : Elem.Keyed (model m.orig)) (K : ℝ) (K0 : 0 ≤ K)
    (hK : List.Forall₂ (Anim.Apart K) m.orig m.target)
    (cfg : DCfg) (mat : Mat3 ℝ) (L : ℝ) (L0 : 0 ≤ L)
    (hL : ∀ p q, distPt ((mat.mul h.xf).apply p) ((mat.mul h.xf).apply q) ≤ L * distPt p q)
    (ts ts' : List Anim.TVal) (t t' : Anim.TVal) (s s' : ℝ) (hs : tfunc t = .ok (.num s)) (hs' : tfunc t' = .ok (.num s')) :
    ∃ m1 m2 q q', (m.after ts).update t = .ok m1 ∧ (m.after ts').update t' = .ok m2 ∧
      drawn cfg (.curve h m1.morph) mat = .ok [q] ∧ drawn cfg (.curve h m2.morph) mat = .ok [q'] ∧
      |areaOf {p | Covers q.pts p} - areaOf {p | Covers q'.pts p}| ≤
        2 * (L * (K * |s - s'|)) * perimeter q.pts + q.pts.length * (Real.pi * (L * (K * |s - s'|)) ^ 2) := by
  obtain ⟨m1, m2, q, q', u1, u2, d1, d2, d3⟩ := C132_morph hm hk K hK cfg mat L L0 hL ts ts' t t' s s' hs hs'
  exact ⟨m1, m2, q, q', u1, u2, d1, d2, area_moved (by positivity) d3⟩

/-! ### Points per curve -/

/-- C138: drawn with more points per segment a curve, also one that crosses itself, fills almost the same area: the difference is of the order `1/n²`.
`M` bounds how much the placed segments bend. -/
theorem C138_steps (cfg cfg' : DCfg) (h : Hdr) (cps : List (CP ℝ)) (m : Mat3 ℝ) (n n' : ℕ)
    (hn : n = max 1 (if cfg.showCps then 10 else cfg.pointsPerCurve)) (hn' : n' = max 1 (if cfg'.showCps then 10 else cfg'.pointsPerCurve)) (hle : n ≤ n')
    (M : ℝ) (M0 : 0 ≤ M) (hM : ∀ s ∈ segs h.closed cps, bend (s.map (m.mul h.xf).apply) ≤ M) :
    ∃ q q', drawn cfg (.curve h cps) m = .ok [q] ∧ drawn cfg' (.curve h cps) m = .ok [q'] ∧
      |areaOf {p | Covers q.pts p} - areaOf {p | Covers q'.pts p}| ≤
        (9 / 2 * M * curveLen ((segs h.closed cps).map (Poly4.map (m.mul h.xf).apply)) + 16 * (segs h.closed cps).length * M ^ 2) / n ^ 2 := by
  refine ⟨_, _, drawn_basic cfg _ (by simp only [Elem.Basic]) m, drawn_basic cfg' _ (by simp only [Elem.Basic]) m, ?_⟩
  have hM' : ∀ s ∈ (segs h.closed cps).map (Poly4.map (m.mul h.xf).apply), bend s ≤ M := by
    intro s hs
    obtain ⟨x, hx, rfl⟩ := List.mem_map.1 hs
    exact hM x hx
  rw [← hn, ← hn']
  simp only [hdr]
  rw [← pathOf_map, ← pathOf_map]
  have h1 : 1 ≤ n := by rw [hn]; exact le_max_left _ _
  have := area_near (A := {p | Covers (pathOf n ((segs h.closed cps).map (Poly4.map (m.mul h.xf).apply))) p})
    (B := {p | Covers (pathOf n' ((segs h.closed cps).map (Poly4.map (m.mul h.xf).apply))) p}) (covers_finite _) M0 hM' h1
    fun p hp => covers_steps (segs_joins h.closed cps _) hM' h1 hle hp
  rwa [List.length_map] at this

/-- The points that a curve fills if it is drawn with enough points per segment. -/
def settled (h : Hdr) (cps : List (CP ℝ)) (m : Mat3 ℝ) : Set (Pt ℝ) :=
  {p | ∃ N, ∀ cfg : DCfg, cfg.showCps = false → N ≤ cfg.pointsPerCurve → ∃ q, drawn cfg (.curve h cps) m = .ok [q] ∧ Covers q.pts p}

/-- C138: so the area of what a curve fills tends to the area of what it fills with enough points, and the error is of the order `1/n²`. -/
theorem C138_limit (h : Hdr) (cps : List (CP ℝ)) (m : Mat3 ℝ) (M : ℝ) (M0 : 0 ≤ M) (hM : ∀ s ∈ segs h.closed cps, bend (s.map (m.mul h.xf).apply) ≤ M)
    (cfg : DCfg) (hc : cfg.showCps = false) (h1 : 1 ≤ cfg.pointsPerCurve) :
    ∃ q, drawn cfg (.curve h cps) m = .ok [q] ∧ |areaOf {p | Covers q.pts p} - areaOf (settled h cps m)| ≤
      (9 / 2 * M * curveLen ((segs h.closed cps).map (Poly4.map (m.mul h.xf).apply)) + 16 * (segs h.closed cps).length * M ^ 2) / cfg.pointsPerCurve ^ 2 := by
  have hd : ∀ cfg : DCfg, cfg.showCps = false → 1 ≤ cfg.pointsPerCurve →
      drawn cfg (.curve h cps) m = .ok [⟨h.pb, h.closed, pathOf cfg.pointsPerCurve ((segs h.closed cps).map (Poly4.map (m.mul h.xf).apply))⟩] := by
    intro cfg hc h1
    rw [drawn_basic cfg _ (by simp only [Elem.Basic]) m, pathOf_map]
    simp only [outline, Except.map, hdr, hc, Bool.false_eq_true, if_false, max_eq_right h1]
  have hM' : ∀ s ∈ (segs h.closed cps).map (Poly4.map (m.mul h.xf).apply), bend s ≤ M := by
    intro s hs
    obtain ⟨x, hx, rfl⟩ := List.mem_map.1 hs
    exact hM x hx
  refine ⟨_, hd cfg hc h1, ?_⟩
  have := area_near (A := {p | Covers (pathOf cfg.pointsPerCurve ((segs h.closed cps).map (Poly4.map (m.mul h.xf).apply))) p})
    (B := settled h cps m) (covers_finite _) M0 hM' h1 ?_
  · rwa [List.length_map] at this
  intro p hp
  simp only [mem_ofPred_eq, settled]
  constructor
  · intro hcov
    refine ⟨cfg.pointsPerCurve, fun cfg' hc' hN => ⟨_, hd cfg' hc' (h1.trans hN), ?_⟩⟩
    exact (covers_steps (segs_joins h.closed cps _) hM' h1 hN hp).1 hcov
  · rintro ⟨N, hN⟩
    obtain ⟨q, hq, hcov⟩ := hN ⟨false, max N cfg.pointsPerCurve⟩ rfl (le_max_left _ _)
    rw [hd ⟨false, max N cfg.pointsPerCurve⟩ rfl (h1.trans (le_max_right _ _))] at hq
    simp only [Except.ok.injEq, List.cons.injEq, and_true] at hq
    subst hq
    exact (covers_steps (segs_joins h.closed cps _) hM' h1 (le_max_right _ _) hp).2 hcov

/-- C138: if a closed curve, drawn with as many points as one likes, goes around no point more than once and always in one sense, the area of what it fills with
enough points is exactly the area it encloses times the factor of the transforms. -/
theorem C138_exact (h : Hdr) (cps : List (CP ℝ)) (m : Mat3 ℝ) (hc : h.closed = true)
    (hw : ∀ N, ∃ n, N ≤ n ∧ ∃ q, drawn ⟨false, n⟩ (.curve h cps) m = .ok [q] ∧ ∃ σ : ℤ, (σ = 1 ∨ σ = -1) ∧ ∀ p, winding q.pts p = 0 ∨ winding q.pts p = σ) :
    areaOf (settled h cps m) = |det2 (m.mul h.xf) * enclosed (segs true cps)| := by
  obtain ⟨M, M0, hM⟩ := bends_le ((segs h.closed cps).map (Poly4.map (m.mul h.xf).apply))
  have hM' : ∀ s ∈ segs h.closed cps, bend (s.map (m.mul h.xf).apply) ≤ M := fun s hs => hM _ (List.mem_map.2 ⟨s, hs, rfl⟩)
  set C := 9 / 2 * M * curveLen ((segs h.closed cps).map (Poly4.map (m.mul h.xf).apply)) + 16 * (segs h.closed cps).length * M ^ 2 with hC
  set d := det2 (m.mul h.xf)
  set E := enclosed (segs true cps)
  set e2 := ((segs true cps).map err2).sum
  set e4 := ((segs true cps).map err4).sum
  by_contra hne
  have hpos : 0 < |areaOf (settled h cps m) - (|d * E|)| := abs_pos.2 (sub_ne_zero.2 hne)
  set D := |C| + |d| * (|e2| + |e4|) with hD
  have D0 : 0 ≤ D := by positivity
  obtain ⟨N, hN⟩ := exists_nat_gt (D / |areaOf (settled h cps m) - (|d * E|)|)
  obtain ⟨n, hn, q, hq, σ, hσ, hwq⟩ := hw (N + 1)
  have h1 : 1 ≤ n := by omega
  have n1 : (1 : ℝ) ≤ n := by exact_mod_cast h1
  obtain ⟨q', hq', hA⟩ := C138_limit h cps m M M0 hM' ⟨false, n⟩ rfl h1
  obtain ⟨pts, hp, hB⟩ := C136_curve ⟨false, n⟩ h cps m n hc (by simp [h1])
  rw [hq] at hq' hp
  simp only [Except.ok.injEq, List.cons.injEq, and_true] at hq' hp
  subst hq'
  subst hp
  rw [hB σ hσ hwq] at hA
  simp only at hA
  rw [← hC] at hA
  have n2 : (n : ℝ) ≤ (n : ℝ) ^ 2 := by nlinarith
  have n4 : (n : ℝ) ≤ (n : ℝ) ^ 4 := n2.trans (pow_le_pow_right₀ n1 (by norm_num))
  have hdiff : |(|d * (E - e2 / n ^ 2 + e4 / n ^ 4)| - (|d * E|))| ≤ |d| * (|e2| + |e4|) / n := by
    refine (abs_abs_sub_abs_le_abs_sub _ _).trans ?_
    rw [show d * (E - e2 / n ^ 2 + e4 / n ^ 4) - d * E = d * (e4 / n ^ 4 - e2 / n ^ 2) by ring, abs_mul, mul_div_assoc, add_comm |e2|, add_div]
    refine mul_le_mul_of_nonneg_left ((abs_sub _ _).trans ?_) (abs_nonneg _)
    rw [abs_div, abs_div, abs_of_nonneg (by positivity : (0 : ℝ) ≤ (n : ℝ) ^ 4), abs_of_nonneg (by positivity : (0 : ℝ) ≤ (n : ℝ) ^ 2)]
    gcongr
  have hA' : |(|d * (E - e2 / n ^ 2 + e4 / n ^ 4)| - areaOf (settled h cps m))| ≤ |C| / n :=
    hA.trans ((div_le_div_of_nonneg_right (le_abs_self C) (by positivity)).trans (by gcongr))
  have hall : |areaOf (settled h cps m) - (|d * E|)| ≤ D / n := by
    rw [hD, add_div]
    refine (abs_sub_le _ (|d * (E - e2 / n ^ 2 + e4 / n ^ 4)|) _).trans (add_le_add ?_ hdiff)
    rw [abs_sub_comm]
    exact hA'
  rw [div_lt_iff₀ hpos] at hN
  rw [le_div_iff₀ (by linarith)] at hall
  have hNn : (N : ℝ) ≤ n := by exact_mod_cast (by omega : N ≤ n)
  nlinarith

/-- The unit square with one corner moved by a hundredth: the area changes by less than a tenth. -/
example : |areaOf {p | Covers [⟨0, 0⟩, ⟨1, 0⟩, ⟨1, 1⟩, ⟨0, 1⟩] p} - areaOf {p | Covers [⟨0, 0⟩, ⟨1, 0⟩, ⟨1, 101 / 100⟩, ⟨0, 1⟩] p}| ≤ 1 / 10 := by
  have z : ∀ p : Pt ℝ, distPt p p ≤ 1 / 100 := fun p => by simp [distPt]
  refine (C138_moved _ _ (1 / 100) (by norm_num) (.cons (z _) (.cons (z _) (.cons ?_ (.cons (z _) .nil))))).trans ?_
  · rw [distPt, Real.sqrt_le_iff]
    norm_num
  · have h : perimeter [⟨0, 0⟩, ⟨1, 0⟩, ⟨1, 1⟩, ⟨0, 1⟩] = 4 := by
      norm_num [perimeter, distPt, List.rotate_cons_succ]
    rw [h]
    norm_num
    nlinarith [Real.pi_lt_d4]

/-- A square as a curve without handles, placed as it is: its sides bend by two. -/
example (pb : PenBrush) : let cps : List (CP ℝ) := [⟨⟨0, 0⟩, ⟨0, 0⟩, ⟨0, 0⟩, "sharp"⟩, ⟨⟨0, 2⟩, ⟨0, 0⟩, ⟨0, 0⟩, "sharp"⟩, ⟨⟨2, 2⟩, ⟨0, 0⟩, ⟨0, 0⟩, "sharp"⟩,
      ⟨⟨2, 0⟩, ⟨0, 0⟩, ⟨0, 0⟩, "sharp"⟩]
    ∃ q, drawn ⟨false, 100⟩ (.curve ⟨"c".toList, pb, true, Mat3.one⟩ cps) Mat3.one = .ok [q] ∧
      |areaOf {p | Covers q.pts p} - areaOf (settled ⟨"c".toList, pb, true, Mat3.one⟩ cps Mat3.one)| ≤
        (9 / 2 * 2 * curveLen ((segs true cps).map (Poly4.map ((Mat3.one : Mat3 ℝ).mul Mat3.one).apply)) + 16 * (segs true cps).length * 2 ^ 2) / (100 : ℕ) ^ 2 := by
  intro cps
  refine C138_limit ⟨"c".toList, pb, true, Mat3.one⟩ cps Mat3.one 2 (by norm_num) ?_ ⟨false, 100⟩ rfl (by norm_num)
  have one : ∀ p : Pt ℝ, ((Mat3.one : Mat3 ℝ).mul Mat3.one).apply p = p := fun p => by ext <;> simp [Mat3.apply, Mat3.one, Mat3.mul]
  have hs : segs true cps = [⟨⟨0, 0⟩, ⟨0, 0⟩, ⟨0, 2⟩, ⟨0, 2⟩⟩, ⟨⟨0, 2⟩, ⟨0, 2⟩, ⟨2, 2⟩, ⟨2, 2⟩⟩, ⟨⟨2, 2⟩, ⟨2, 2⟩, ⟨2, 0⟩, ⟨2, 0⟩⟩,
      ⟨⟨2, 0⟩, ⟨2, 0⟩, ⟨0, 0⟩, ⟨0, 0⟩⟩] := by
    simp [cps, segs, closedSegs, seg]
  intro s h
  simp only at h
  rw [hs] at h
  simp only [List.mem_cons, List.not_mem_nil, or_false] at h
  rcases h with rfl | rfl | rfl | rfl <;> simp only [Poly4.map, one] <;> rw [bend, max_le_iff, Real.sqrt_le_iff, Real.sqrt_le_iff] <;> norm_num

end X7.Elem
