import Verif.Spec.RoundedFill
import Verif.Lemmas.RoundedFill

/-!
C133: what a filled rectangle with rounded corners covers.
-/

noncomputable section

namespace X7.Elem
open X7.Utils (distPt)
open Classical

theorem core_coord {x1 x2 w f r x : ℝ} (hx : x1 ≠ x2) (hw : w = |x1 - x2|) (hf : f * w = r) :
    (min x1 x2 + r ≤ x1 + x * (x2 - x1) ∧ x1 + x * (x2 - x1) ≤ max x1 x2 - r) ↔ (f ≤ x ∧ x ≤ 1 - f) := by
  rcases lt_or_gt_of_ne hx with h | h
  · rw [abs_of_neg (by linarith)] at hw
    rw [min_eq_left h.le, max_eq_right h.le, ← hf, hw]
    have h0 : 0 < x2 - x1 := by linarith
    constructor
    · rintro ⟨h1, h2⟩
      exact ⟨by nlinarith, by nlinarith⟩
    · rintro ⟨h1, h2⟩
      exact ⟨by nlinarith, by nlinarith⟩
  · rw [abs_of_pos (by linarith)] at hw
    rw [min_eq_right h.le, max_eq_left h.le, ← hf, hw]
    have h0 : 0 < x1 - x2 := by linarith
    constructor
    · rintro ⟨h1, h2⟩
      exact ⟨by nlinarith, by nlinarith⟩
    · rintro ⟨h1, h2⟩
      exact ⟨by nlinarith, by nlinarith⟩

theorem mix_within {l h a b u : ℝ} (ha : l ≤ a ∧ a ≤ h) (hb : l ≤ b ∧ b ≤ h) (u0 : 0 ≤ u) (v0 : 0 ≤ 1 - u) : l ≤ u * a + (1 - u) * b ∧ u * a + (1 - u) * b ≤ h := by
  have h1 := mul_le_mul_of_nonneg_left ha.1 u0
  have h2 := mul_le_mul_of_nonneg_left ha.2 u0
  have h3 := mul_le_mul_of_nonneg_left hb.1 v0
  have h4 := mul_le_mul_of_nonneg_left hb.2 v0
  exact ⟨by linarith, by linarith⟩

theorem near_convex (f g W H T : ℝ) : Convex ℝ {s : ℝ × ℝ | ∃ a b, (f ≤ a ∧ a ≤ 1 - f) ∧ (g ≤ b ∧ b ≤ 1 - g) ∧ (W * (s.1 - a)) ^ 2 + (H * (s.2 - b)) ^ 2 < T} := by
  rintro x ⟨a, b, ha, hb, hs⟩ y ⟨a', b', ha', hb', hs'⟩ u v u0 v0 huv
  have hv : v = 1 - u := by linarith
  subst hv
  refine ⟨u * a + (1 - u) * a', u * b + (1 - u) * b', mix_within ha ha' u0 v0, mix_within hb hb' u0 v0, ?_⟩
  simp only [Prod.fst_add, Prod.snd_add, Prod.smul_fst, Prod.smul_snd, smul_eq_mul]
  have e : (W * (u * x.1 + (1 - u) * y.1 - (u * a + (1 - u) * a'))) ^ 2 + (H * (u * x.2 + (1 - u) * y.2 - (u * b + (1 - u) * b'))) ^ 2 =
      u * ((W * (x.1 - a)) ^ 2 + (H * (x.2 - b)) ^ 2) + (1 - u) * ((W * (y.1 - a')) ^ 2 + (H * (y.2 - b')) ^ 2) -
      u * (1 - u) * ((W * (x.1 - a) - W * (y.1 - a')) ^ 2 + (H * (x.2 - b) - H * (y.2 - b')) ^ 2) := by ring
  have e0 : 0 ≤ u * (1 - u) * ((W * (x.1 - a) - W * (y.1 - a')) ^ 2 + (H * (x.2 - b) - H * (y.2 - b')) ^ 2) := by positivity
  rw [e]
  generalize (W * (x.1 - a)) ^ 2 + (H * (x.2 - b)) ^ 2 = P at *
  generalize (W * (y.1 - a')) ^ 2 + (H * (y.2 - b')) ^ 2 = Q at *
  generalize u * (1 - u) * ((W * (x.1 - a) - W * (y.1 - a')) ^ 2 + (H * (x.2 - b) - H * (y.2 - b')) ^ 2) = Z at *
  rcases eq_or_lt_of_le u0 with h0 | h0
  · rw [← h0]; linarith
  · have := mul_pos h0 (sub_pos.2 hs)
    have := mul_nonneg v0 (sub_pos.2 hs').le
    linarith

/-- C133: a filled rectangle with rounded corners covers every point that is nearer than 0.999 times the radius to the rectangle without a rim as wide as the
radius, and no point that is farther from it than 1.0003 times the radius; the radius is the one given or half the shorter side, whichever is less. -/
theorem C133_rounded (cfg : DCfg) (h : Hdr) (p1 p2 : Pt ℝ) (radius : ℝ) (hr : 0 < radius) (hx : p1.x ≠ p2.x) (hy : p1.y ≠ p2.y) (m : Mat3 ℝ)
    (hm : Solid (m.mul h.xf)) :
    ∃ q, drawn cfg (.rrect h p1 p2 radius) m = .ok [q] ∧ q.pb = h.pb ∧
      let r := min radius (min (|p1.x - p2.x| / 2) (|p1.y - p2.y| / 2))
      ∀ p, ((∃ o, Core p1 p2 r o ∧ distPt o p < 999 / 1000 * r) → Covers q.pts ((m.mul h.xf).apply p)) ∧
        ((∀ o, Core p1 p2 r o → (1 + 3 / 10000) * r < distPt o p) → ¬ Covers q.pts ((m.mul h.xf).apply p)) := by
  obtain ⟨cps, f, g, e, hcps, f0, f1, hf, g0, g1, hg, e0, e1, e2, e3, e4, e5, e6, e7, hsegs⟩ := rrect_segs p1 p2 radius _ _ _ hr hx hy rfl rfl rfl
  have ok : RoundOk f g e := ⟨f0, f1, g0, g1, e0, e1, e2, e3, e4, e5, e6, e7⟩
  have hd := drawn_basic cfg (.rrect h p1 p2 radius) trivial m
  simp only [outline, hcps, Except.map, hdr] at hd
  refine ⟨_, hd, rfl, ?_⟩
  intro r p
  change f * |p1.x - p2.x| = r at hf
  change g * |p1.y - p2.y| = r at hg
  have w0 : 0 < |p1.x - p2.x| := abs_pos.2 (sub_ne_zero.2 hx)
  have h0 : 0 < |p1.y - p2.y| := abs_pos.2 (sub_ne_zero.2 hy)
  have r0 : 0 < r := by rw [← hf]; positivity
  clear_value r
  have dx : p2.x - p1.x ≠ 0 := sub_ne_zero.2 hx.symm
  have dy : p2.y - p1.y ≠ 0 := sub_ne_zero.2 hy.symm
  let A : Mat3 ℝ := toRect p1 p2
  have hA : Solid A := by simp only [Solid, A, toRect]; simpa using ⟨dx, dy⟩
  have hj : ∀ k s s', (roundSegs f g e)[k]? = some s → (roundSegs f g e)[k + 1]? = some s' → s.d = s'.a := by
    intro k s s' h1 h2
    have := segs_join true cps k (s.map A.apply) (s'.map A.apply) (by rw [hsegs, List.getElem?_map, h1]; rfl) (by rw [hsegs, List.getElem?_map, h2]; rfl)
    simp only [Poly4.map, A, toRect, Mat3.apply, Pt.mk.injEq, zero_mul, zero_add, add_zero, add_left_inj] at this
    exact Pt.ext (mul_left_cancel₀ dx this.1) (mul_left_cancel₀ dy this.2)
  have hret := round_returns hj (n := 20) (by norm_num)
  have hpts : (pathOf 20 (segs true cps)).map (m.mul h.xf).apply = ((pathOf 20 (roundSegs f g e)).map A.apply).map (m.mul h.xf).apply := by
    rw [hsegs, pathOf_map]
  change (_ → Covers ((pathOf 20 (segs true cps)).map (m.mul h.xf).apply) _) ∧ (_ → ¬ Covers ((pathOf 20 (segs true cps)).map (m.mul h.xf).apply) _)
  rw [hpts]
  have onto : ∀ o : Pt ℝ, ∃ w, A.apply w = o := fun o => apply_onto hA o
  have core : ∀ w : Pt ℝ, Core p1 p2 r (A.apply w) ↔ (f ≤ w.x ∧ w.x ≤ 1 - f) ∧ (g ≤ w.y ∧ w.y ≤ 1 - g) := by
    intro w
    rw [← core_coord hx rfl hf, ← core_coord hy rfl hg, Core]
    simp only [A, toRect, Mat3.apply, zero_mul, zero_add, add_zero]
    rw [show (p2.x - p1.x) * w.x + p1.x = p1.x + w.x * (p2.x - p1.x) by ring, show (p2.y - p1.y) * w.y + p1.y = p1.y + w.y * (p2.y - p1.y) by ring]
    tauto
  have dist : ∀ w w' : Pt ℝ, distPt (A.apply w) (A.apply w') = √((|p1.x - p2.x| * (w'.x - w.x)) ^ 2 + (|p1.y - p2.y| * (w'.y - w.y)) ^ 2) := by
    intro w w'
    rw [distPt, mul_pow, mul_pow, sq_abs, sq_abs]
    congr 1
    simp only [A, toRect, Mat3.apply]
    ring
  obtain ⟨w, hw⟩ := onto p
  have key : ¬ OnSide (pathOf 20 (roundSegs f g e)) w → (Covers (((pathOf 20 (roundSegs f g e)).map A.apply).map (m.mul h.xf).apply) ((m.mul h.xf).apply p) ↔
      Covers (pathOf 20 (roundSegs f g e)) w) := by
    intro hn
    rw [← hw, C130_transform _ hm _ _ (by rwa [onSide_apply hA]), C130_transform _ hA _ _ hn]
  refine ⟨?_, fun hfar => ?_⟩
  · rintro ⟨o, ho, hdo⟩
    obtain ⟨v, rfl⟩ := onto o
    let S : Set (ℝ × ℝ) := {s | ∃ a b, (f ≤ a ∧ a ≤ 1 - f) ∧ (g ≤ b ∧ b ≤ 1 - g) ∧
      (|p1.x - p2.x| * (s.1 - a)) ^ 2 + (|p1.y - p2.y| * (s.2 - b)) ^ 2 < (999 / 1000 * r) ^ 2}
    have hS : ∀ s ∈ S, ¬ OnSide (pathOf 20 (roundSegs f g e)) ⟨s.1, s.2⟩ := by
      rintro s ⟨a, b, ha, hb, hs⟩
      exact round_inside ok hf hg (p := ⟨s.1, s.2⟩) ha hb hs hj hret
    have hwS : (w.x, w.y) ∈ S := by
      obtain ⟨c1, c2⟩ := (core v).1 ho
      refine ⟨v.x, v.y, c1, c2, ?_⟩
      rw [← hw, dist, Real.sqrt_lt' (by positivity)] at hdo
      exact hdo
    rw [key (hS _ hwS)]
    have hconv : IsPreconnected S := (near_convex f g _ _ _).isPreconnected
    refine (C131_connected _ S hconv hS (w.x, w.y) hwS (1 / 2, 1 / 2) ?_).2 (round_middle ok hj)
    refine ⟨1 / 2, 1 / 2, ⟨f1, by linarith⟩, ⟨g1, by linarith⟩, ?_⟩
    simp only [sub_self, mul_zero]
    rw [show (0 : ℝ) ^ 2 + 0 ^ 2 = 0 by norm_num]
    positivity
  · have hout := round_far ok hf hg r0 (p := w) (fun a b ha ha' hb hb' => by
      have := hfar (A.apply ⟨a, b⟩) ((core _).2 ⟨⟨ha, ha'⟩, hb, hb'⟩)
      rwa [← hw, dist] at this) 20
    rw [key hout.1]
    exact hout.2

theorem run_straight {p a b : Pt ℝ} (h : ∀ x, OnSeg a b x → 0 < distPt p x) {n : ℕ} (hn : 1 ≤ n) :
    run (crossing p) (Approx.samples n ⟨a, a, b, b⟩) = crossing p a b := by
  obtain ⟨⟨q, hq⟩, r, hr⟩ := Approx.samples_ends hn ⟨a, a, b, b⟩
  have hall : ∀ x ∈ Approx.samples n ⟨a, a, b, b⟩, OnSeg a b x := by
    intro x hx
    obtain ⟨i, hi, rfl⟩ := List.mem_map.1 hx
    rw [List.mem_range] at hi
    have t1 : (i : ℝ) / n ≤ 1 := by
      rw [div_le_one (by exact_mod_cast hn)]
      exact_mod_cast Nat.lt_succ_iff.1 hi
    have t0 : (0 : ℝ) ≤ (i : ℝ) / n := by positivity
    generalize (i : ℝ) / n = t at *
    refine ⟨t ^ 2 * (3 - 2 * t), mul_nonneg (sq_nonneg _) (by linarith), ?_, ?_⟩
    · nlinarith [mul_nonneg (sq_nonneg (1 - t)) (by linarith : (0 : ℝ) ≤ 1 + 2 * t)]
    · simp only [Poly4.at', bern, Pt.mk.injEq]
      constructor <;> ring
  cases r with
  | nil =>
    have hl : (Approx.samples n ⟨a, a, b, b⟩).length = n + 1 := by simp [Approx.samples]
    rw [hr] at hl
    simp at hl
    omega
  | cons a' l =>
    have : a' = a := by
      rw [hr] at hq
      simpa using (List.cons.inj hq).1
    subst this
    rw [hr] at hall ⊢
    exact run_near_line le_rfl h l fun x hx => ⟨x, hall x (by simp [hx]), by simp [distPt]⟩

/-- C133: with the radius zero it covers what the rectangle covers, away from the sides. -/
theorem C133_zero (cfg : DCfg) (h : Hdr) (p1 p2 : Pt ℝ) (hx : p1.x ≠ p2.x) (hy : p1.y ≠ p2.y) (m : Mat3 ℝ) :
    ∃ q q', drawn cfg (.rrect h p1 p2 0) m = .ok [q] ∧ drawn cfg (.rect h p1 p2) m = .ok [q'] ∧ q.pb = q'.pb ∧
      ∀ p, ¬ OnSide q'.pts p → (Covers q.pts p ↔ Covers q'.pts p) := by
  obtain ⟨cps, hcps, hc, hz⟩ := C50_zero_radius p1 p2 hx hy
  have hd := drawn_basic cfg (.rrect h p1 p2 0) trivial m
  have hd' := drawn_basic cfg (.rect h p1 p2) trivial m
  simp only [outline, hcps, Except.map, hdr] at hd hd'
  refine ⟨_, _, hd, hd', rfl, ?_⟩
  intro p hp
  let M := (m.mul h.xf).apply
  have hsegs : (segs true cps).map (Poly4.map M) = [⟨M ⟨p1.x, p2.y⟩, M ⟨p1.x, p2.y⟩, M p2, M p2⟩, ⟨M p2, M p2, M ⟨p2.x, p1.y⟩, M ⟨p2.x, p1.y⟩⟩,
      ⟨M ⟨p2.x, p1.y⟩, M ⟨p2.x, p1.y⟩, M p1, M p1⟩, ⟨M p1, M p1, M ⟨p1.x, p2.y⟩, M ⟨p1.x, p2.y⟩⟩] := by
    have hl : cps.length = 4 := by simpa using congrArg List.length hc
    obtain ⟨c1, c2, c3, c4, rfl⟩ : ∃ c1 c2 c3 c4, cps = [c1, c2, c3, c4] := by
      rcases cps with _ | ⟨c1, _ | ⟨c2, _ | ⟨c3, _ | ⟨c4, _ | ⟨c5, l⟩⟩⟩⟩⟩ <;> simp at hl
      exact ⟨c1, c2, c3, c4, rfl⟩
    · simp only [List.map_cons, List.map_nil, List.cons.injEq, and_true] at hc
      obtain ⟨h1, h2, h3, h4⟩ := hc
      have z1 := hz c1 (by simp)
      have z2 := hz c2 (by simp)
      have z3 := hz c3 (by simp)
      have z4 := hz c4 (by simp)
      simp [segs, closedSegs, seg, Poly4.map, h1, h2, h3, h4, z1, z2, z3, z4]
  change ¬ OnSide ([p1, ⟨p1.x, p2.y⟩, p2, ⟨p2.x, p1.y⟩, p1].map M) p at hp
  change Covers ((pathOf 20 (segs true cps)).map M) p ↔ Covers ([p1, ⟨p1.x, p2.y⟩, p2, ⟨p2.x, p1.y⟩, p1].map M) p
  rw [← pathOf_map, hsegs]
  simp only [List.map_cons, List.map_nil] at hp ⊢
  generalize M p1 = A at *
  generalize M ⟨p1.x, p2.y⟩ = B at *
  generalize M p2 = C at *
  generalize M ⟨p2.x, p1.y⟩ = D at *
  have off : ∀ a b, (a, b) ∈ [(A, B), (B, C), (C, D), (D, A)] → ∀ x, OnSeg a b x → 0 < distPt p x := by
    intro a b hab x hx
    have hne : p ≠ x := by
      rintro rfl
      obtain ⟨v, v0, v1, rfl⟩ := hx
      refine hp ⟨(a, b), ?_, v, v0, v1, rfl⟩
      simp only [List.rotate_cons_succ, List.cons_append, List.nil_append, List.rotate_zero, List.zip_cons_cons, List.zip_nil_right]
      simp only [List.mem_cons, List.not_mem_nil, or_false] at hab ⊢
      tauto
    rw [distPt, Real.sqrt_pos]
    by_contra hle
    have h1 : p.x - x.x = 0 := by nlinarith [sq_nonneg (p.x - x.x), sq_nonneg (p.y - x.y)]
    have h2 : p.y - x.y = 0 := by nlinarith [sq_nonneg (p.x - x.x), sq_nonneg (p.y - x.y)]
    exact hne (Pt.ext (by linarith) (by linarith))
  rw [covers_iff, covers_iff, cyc_pathOf _ (by norm_num) _ _ (by
    intro k x y h1 h2
    match k with
    | 0 => simp at h1 h2; rw [← h1, ← h2]
    | 1 => simp at h1 h2; rw [← h1, ← h2]
    | 2 => simp at h1 h2; rw [← h1, ← h2]
    | k + 3 => simp at h2), cyc_cons]
  simp only [List.map_cons, List.map_nil, run_straight (off A B (by simp)) (n := 20) (by norm_num), run_straight (off B C (by simp)) (n := 20) (by norm_num),
    run_straight (off C D (by simp)) (n := 20) (by norm_num), run_straight (off D A (by simp)) (n := 20) (by norm_num), List.cons_append, List.nil_append, run,
    List.sum_cons, List.sum_nil, crossing_self, add_zero]
  simp only [List.getLast?_cons_cons, List.getLast?_singleton, Option.map_some, Option.getD_some, crossing_self, add_zero]
  rw [show crossing p B C + (crossing p C D + (crossing p D A + crossing p A B)) = crossing p A B + (crossing p B C + (crossing p C D + crossing p D A)) by ring]

/-- A rectangle 4 by 2 with corners of radius 1/2, drawn turned by a quarter: its middle and a point on the diagonal inside the corner are filled, and a point nearer
to the corner is not. -/
example (cfg : DCfg) : ∃ q, drawn cfg (.rrect ⟨"r".toList, fillPen, true, Mat3.one⟩ ⟨0, 0⟩ ⟨4, 2⟩ (1 / 2)) ⟨0, -1, 0, 1, 0, 0, 0, 0, 1⟩ = .ok [q] ∧
    Covers q.pts ⟨-1, 2⟩ ∧ Covers q.pts ⟨-1 / 5, 1 / 5⟩ ∧ ¬ Covers q.pts ⟨-1 / 10, 1 / 10⟩ := by
  obtain ⟨q, h, -, hq⟩ := C133_rounded cfg ⟨"r".toList, fillPen, true, Mat3.one⟩ ⟨0, 0⟩ ⟨4, 2⟩ (1 / 2) (by norm_num) (by norm_num) (by norm_num)
    ⟨0, -1, 0, 1, 0, 0, 0, 0, 1⟩ (by simp [Solid, Mat3.mul, Mat3.one])
  have hr : min (1 / 2 : ℝ) (min (|0 - 4| / 2) (|0 - 2| / 2)) = 1 / 2 := by norm_num
  simp only [hr] at hq
  have hc : ∀ o : Pt ℝ, Core ⟨0, 0⟩ ⟨4, 2⟩ (1 / 2) o ↔ 1 / 2 ≤ o.x ∧ o.x ≤ 7 / 2 ∧ 1 / 2 ≤ o.y ∧ o.y ≤ 3 / 2 := by
    intro o
    rw [Core, min_eq_left (by norm_num : (0 : ℝ) ≤ 4), max_eq_right (by norm_num : (0 : ℝ) ≤ 4), min_eq_left (by norm_num : (0 : ℝ) ≤ 2),
      max_eq_right (by norm_num : (0 : ℝ) ≤ 2)]
    norm_num
  refine ⟨q, h, ?_, ?_, ?_⟩
  · have := (hq ⟨2, 1⟩).1 ⟨⟨2, 1⟩, by rw [hc]; norm_num, by norm_num [distPt]⟩
    simpa [Mat3.mul, Mat3.one, Mat3.apply] using this
  · have := (hq ⟨1 / 5, 1 / 5⟩).1 ⟨⟨1 / 2, 1 / 2⟩, by rw [hc]; norm_num, by rw [distPt, Real.sqrt_lt' (by norm_num)]; norm_num⟩
    simpa [Mat3.mul, Mat3.one, Mat3.apply, neg_div] using this
  · have := (hq ⟨1 / 10, 1 / 10⟩).2 fun o ho => by
      rw [hc] at ho
      rw [distPt, Real.lt_sqrt (by norm_num)]
      simp only
      nlinarith [ho.1, ho.2.2.1]
    simpa [Mat3.mul, Mat3.one, Mat3.apply, neg_div] using this

end X7.Elem
