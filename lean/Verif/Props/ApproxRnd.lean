import Verif.Props.Approx
import Verif.Props.RndCurve
import Mathlib.Analysis.Complex.Norm

/-!
C123: what `bez_path` returns when every operation is rounded, joined by straight lines, is close to the exact curve.
-/

namespace X7.Approx
open X7.Utils (distPt)

theorem distPt_comm (p q : Pt ℝ) : distPt p q = distPt q p := by
  rw [distPt, distPt, sub_sq_comm, sub_sq_comm p.y]

theorem sqrt_add_le (a b c d : ℝ) : √((a + c) ^ 2 + (b + d) ^ 2) ≤ √(a ^ 2 + b ^ 2) + √(c ^ 2 + d ^ 2) := by
  have e : ∀ x y : ℝ, √(x ^ 2 + y ^ 2) = ‖(⟨x, y⟩ : ℂ)‖ := by
    intro x y; rw [Complex.norm_def, Complex.normSq_mk, ← sq, ← sq]
  rw [e, e, e]
  exact norm_add_le (⟨a, b⟩ : ℂ) ⟨c, d⟩

theorem distPt_tri (p q r : Pt ℝ) : distPt p r ≤ distPt p q + distPt q r := by
  have := sqrt_add_le (p.x - q.x) (p.y - q.y) (q.x - r.x) (q.y - r.y)
  simpa [distPt] using this

/-- Lines whose ends are close are close. -/
theorem between_close {ex ey : ℝ} {P Q P' Q' : Pt ℝ} (h : X7.Within ex ey P Q) (h' : X7.Within ex ey P' Q') {v : ℝ} (v0 : 0 ≤ v)
    (v1 : v ≤ 1) : distPt (between P P' v) (between Q Q' v) ≤ √(ex ^ 2 + ey ^ 2) := by
  have key : ∀ {a b c d e : ℝ}, |a - b| ≤ e → |c - d| ≤ e → (a + v * (c - a) - (b + v * (d - b))) ^ 2 ≤ e ^ 2 := by
    intro a b c d e h1 h2
    rw [← sq_abs]
    apply pow_le_pow_left₀ (abs_nonneg _)
    rw [show a + v * (c - a) - (b + v * (d - b)) = (1 - v) * (a - b) + v * (c - d) by ring]
    refine (abs_add_le _ _).trans ?_
    rw [abs_mul, abs_mul, abs_of_nonneg v0, abs_of_nonneg (by linarith : 0 ≤ 1 - v)]
    nlinarith [mul_le_mul_of_nonneg_left h1 (by linarith : 0 ≤ 1 - v), mul_le_mul_of_nonneg_left h2 v0]
  exact Real.sqrt_le_sqrt (add_le_add (key h.1 h'.1) (key h.2 h'.2))

/-- A number between the first and the last of some numbers lies between two neighbouring ones. -/
theorem cell_of (f : ℕ → ℝ) : ∀ (n : ℕ), 1 ≤ n → ∀ t, f 0 ≤ t → t ≤ f n → ∃ i < n, f i ≤ t ∧ t ≤ f (i + 1)
  | 0, h, _, _, _ => by omega
  | n + 1, _, t, h0, h1 => by
    rcases Nat.eq_zero_or_pos n with rfl | hn
    · exact ⟨0, by omega, h0, h1⟩
    rcases le_total t (f n) with h | h
    · obtain ⟨i, hi, hh⟩ := cell_of f n hn t h0 h
      exact ⟨i, by omega, hh⟩
    · exact ⟨n, by omega, h, h1⟩

/-- One step of a segment whose two samples are computed: the lines drawn and the piece of the curve are close. -/
theorem step_close (s : Poly4 ℝ) {M a b ex ey w : ℝ} {P P' : Pt ℝ} (hM : bend s ≤ M) (a0 : 0 ≤ a) (ab : a ≤ b) (b1 : b ≤ 1)
    (hw : b - a ≤ w) (hP : X7.Within ex ey P (s.at' a)) (hP' : X7.Within ex ey P' (s.at' b)) {v : ℝ} (v0 : 0 ≤ v) (v1 : v ≤ 1) :
    distPt (s.at' (a + v * (b - a))) (between P P' v) ≤ 3 / 4 * M * w ^ 2 + √(ex ^ 2 + ey ^ 2) := by
  have M0 : 0 ≤ M := (bend_nonneg s).trans hM
  have h1 := chord_close s a0 (by linarith : 0 ≤ b - a) (by linarith : a + (b - a) ≤ 1) v0 v1 hM
  rw [show a + (b - a) = b by ring] at h1
  have h2 := between_close hP hP' v0 v1
  rw [distPt_comm] at h2
  refine (distPt_tri _ (between (s.at' a) (s.at' b) v) _).trans (add_le_add (h1.trans ?_) h2)
  have : (b - a) ^ 2 ≤ w ^ 2 := pow_le_pow_left₀ (by linarith) hw 2
  gcongr

theorem segs_neighbours (closed : Bool) (cps : List (CP ℝ)) :
    segs closed cps = (neighbours closed cps).map fun pq => seg pq.1 pq.2 := by
  rw [← zip_segs, Fl.zip_neighbours]

/-- **C123.** Every operation of `bez_path` rounded: the points it returns, joined by straight lines, and the exact curve through the
control points, transformed exactly, are as close as the number of steps promises, plus thirteen roundings of the size of the
coordinates. -/
theorem C123_bez_path (R : Rnd) (mode : DotMode) (m : Mat3 ℝ) (cps : List (CP ℝ)) (closed : Bool) (steps : ℕ) (hs : 1 ≤ steps)
    (Bx By : ℝ) (hb : ∀ cp ∈ cps, cp.Bounded Bx By) (L M : ℝ) (L0 : 0 ≤ L)
    (hL : ∀ p q, distPt (m.apply p) (m.apply q) ≤ L * distPt p q) (hM : ∀ s ∈ segs closed cps, bend s ≤ M) :
    ∃ ps, Fl.bezPath R (Fl.apply R mode m) cps closed steps = xyFlatten ps ∧
      Close (3 / 4 * (L * M) * (1 / steps + 2 * R.u) ^ 2 +
          √((R.gam 13 * (|m.a| * Bx + |m.b| * By + |m.c|)) ^ 2 + (R.gam 13 * (|m.d| * Bx + |m.e| * By + |m.f|)) ^ 2))
        (m.apply '' curveSet closed cps) (joined ps) := by
  set ex := R.gam 13 * (|m.a| * Bx + |m.b| * By + |m.c|) with hex
  set ey := R.gam 13 * (|m.d| * Bx + |m.e| * By + |m.f|) with hey
  have hp : (0 : ℝ) < steps := by exact_mod_cast hs
  have hu := R.u_nonneg
  have heq := Fl.bezPath_eq (R := R) (Fl.apply R mode m) cps closed steps hs
  set ps := pathG (Fl.sampleAt R steps) steps ((neighbours closed cps).map (Fl.fseg R (Fl.apply R mode m))) with hps
  refine ⟨ps, heq, ?_⟩
  let t : ℕ → ℝ := fun i => R.fl ((i : ℝ) / steps)
  have t0 : t 0 = 0 := by simp [t, R.fl_zero]
  have tn : t steps = 1 := by simp [t, div_self hp.ne', R.fl_one]
  have tm : ∀ i, t i ≤ t (i + 1) := fun i => R.mono _ _ (by push_cast; gcongr; linarith)
  have tb : ∀ i ≤ steps, 0 ≤ t i ∧ t i ≤ 1 := fun i hi => Fl.quot_mem hs hi
  have tw : ∀ i, i + 1 ≤ steps → t (i + 1) - t i ≤ 1 / steps + 2 * R.u := by
    intro i hi
    have e1 := R.err ((i : ℝ) / steps)
    have e2 := R.err (((i + 1 : ℕ) : ℝ) / steps)
    have d1 : (i : ℝ) / steps ≤ 1 := by rw [div_le_one hp]; exact_mod_cast (by omega : i ≤ steps)
    have d2 : ((i + 1 : ℕ) : ℝ) / steps ≤ 1 := by rw [div_le_one hp]; exact_mod_cast hi
    rw [abs_of_nonneg (a := (i : ℝ) / steps) (by positivity)] at e1
    rw [abs_of_nonneg (a := ((i + 1 : ℕ) : ℝ) / steps) (by positivity)] at e2
    have f1 := (abs_le.1 e1).1
    have f2 := (abs_le.1 e2).2
    have g1 := mul_le_mul_of_nonneg_left d1 hu
    have g2 := mul_le_mul_of_nonneg_left d2 hu
    have e3 : ((i + 1 : ℕ) : ℝ) / steps = (i : ℝ) / steps + 1 / steps := by push_cast; rw [add_div]
    simp only [t]
    rw [e3] at f2 g2 ⊢
    linarith
  -- the samples
  have smp : ∀ k i p q, (neighbours closed cps)[k]? = some (p, q) → i ≤ steps → ∃ P, ps[k * steps + i]? = some P ∧
      X7.Within ex ey P (((seg p q).map m.apply).at' (t i)) := by
    intro k i p q hpq hi
    have hg := Fl.path_get (R := R) (Fl.apply R mode m) cps closed steps hs k i hi _ hpq
    rw [heq, pairAt_flatten] at hg
    refine ⟨_, hg, ?_⟩
    obtain ⟨hp', hq'⟩ := Fl.mem_neighbours (List.mem_of_getElem? hpq)
    obtain ⟨c1, -, r1⟩ := Fl.cp_near (R := R) (hb p hp')
    obtain ⟨c2, l2, -⟩ := Fl.cp_near (R := R) (hb q hq')
    have key : ∀ {x' x : Pt ℝ}, Fl.NearPt R 1 x' x Bx By →
        R.Near 4 (Fl.apply R mode m x').x (m.apply x).x (|m.a| * Bx + |m.b| * By + |m.c|) ∧
        R.Near 4 (Fl.apply R mode m x').y (m.apply x).y (|m.d| * Bx + |m.e| * By + |m.f|) :=
      fun hx => ⟨Fl.apply_near_x mode m hx.1 hx.2, Fl.apply_near_y mode m hx.1 hx.2⟩
    have := Fl.sampleAt_near (R := R) (k := 4) (s := (seg p q).map m.apply) (s' := Fl.fseg R (Fl.apply R mode m) (p, q))
      hs hi (key c1) (key r1) (key l2) (key c2)
    exact ⟨this.1.2, this.2.2⟩
  -- a step of the curve and the line drawn for it
  have stp : ∀ k i p q, (neighbours closed cps)[k]? = some (p, q) → i < steps → ∃ P P', ps[k * steps + i]? = some P ∧
      ps[k * steps + i + 1]? = some P' ∧ ∀ v, 0 ≤ v → v ≤ 1 →
        distPt (((seg p q).map m.apply).at' (t i + v * (t (i + 1) - t i))) (between P P' v) ≤
          3 / 4 * (L * M) * (1 / steps + 2 * R.u) ^ 2 + √(ex ^ 2 + ey ^ 2) := by
    intro k i p q hpq hi
    obtain ⟨P, h1, h2⟩ := smp k i p q hpq hi.le
    obtain ⟨P', h1', h2'⟩ := smp k (i + 1) p q hpq hi
    refine ⟨P, P', h1, h1', fun v v0 v1 => ?_⟩
    have hmem : seg p q ∈ segs closed cps := by
      rw [segs_neighbours]
      exact List.mem_map.2 ⟨_, List.mem_of_getElem? hpq, rfl⟩
    exact step_close _ (bend_scaled m hL L0 _ (hM _ hmem)) (tb i hi.le).1 (tm i) (tb (i + 1) hi).2 (tw i hi) h2 h2' v0 v1
  rw [← traced_map]
  constructor
  · rintro _ ⟨s, hs', x, x0, x1, rfl⟩
    obtain ⟨s, hs'', rfl⟩ := List.mem_map.1 hs'
    rw [segs_neighbours] at hs''
    obtain ⟨⟨p, q⟩, hpq, rfl⟩ := List.mem_map.1 hs''
    obtain ⟨k, hk⟩ := List.mem_iff_getElem?.1 hpq
    obtain ⟨i, hi, y0, y1⟩ := cell_of t steps hs x (by rw [t0]; exact x0) (by rw [tn]; exact x1)
    obtain ⟨P, P', g1, g2, g3⟩ := stp k i p q hk hi
    obtain ⟨v, v0, v1, hv⟩ : ∃ v, 0 ≤ v ∧ v ≤ 1 ∧ t i + v * (t (i + 1) - t i) = x := by
      rcases eq_or_lt_of_le (tm i) with he | hl
      · exact ⟨0, le_rfl, zero_le_one, by linarith⟩
      · have hd : 0 < t (i + 1) - t i := by linarith
        exact ⟨(x - t i) / (t (i + 1) - t i), div_nonneg (by linarith) hd.le, (div_le_one hd).2 (by linarith),
          by field_simp; ring⟩
    rw [← hv]
    exact ⟨_, ⟨_, P, P', g1, g2, v, v0, v1, rfl⟩, g3 v v0 v1⟩
  · rintro _ ⟨j, P, P', hP, hP', v, v0, v1, rfl⟩
    have hlt := (List.getElem?_eq_some_iff.1 hP').1
    by_cases hn : (neighbours closed cps).map (Fl.fseg R (Fl.apply R mode m)) = []
    · rw [hps, hn] at hlt; simp [pathG] at hlt
    rw [hps, pathG_length _ _ _ hn, List.length_map] at hlt
    have hk : j / steps < (neighbours closed cps).length := (Nat.div_lt_iff_lt_mul (by omega)).2 (by omega)
    have hdm : j / steps * steps + j % steps = j := by rw [Nat.mul_comm]; exact Nat.div_add_mod j steps
    have hm := Nat.mod_lt j (by omega : 0 < steps)
    obtain ⟨Q, Q', g1, g2, g3⟩ := stp (j / steps) (j % steps) _ _ (List.getElem?_eq_getElem hk) hm
    rw [hdm] at g1 g2
    rw [hP] at g1
    rw [hP'] at g2
    obtain rfl := Option.some.inj g1
    obtain rfl := Option.some.inj g2
    have hr : 0 ≤ t (j % steps) + v * (t (j % steps + 1) - t (j % steps)) ∧
        t (j % steps) + v * (t (j % steps + 1) - t (j % steps)) ≤ 1 := by
      have h1 := tb (j % steps) hm.le
      have h2 := tb (j % steps + 1) hm
      have h3 := tm (j % steps)
      constructor
      · exact add_nonneg h1.1 (mul_nonneg v0 (by linarith))
      · nlinarith
    refine ⟨_, ⟨_, List.mem_map.2 ⟨seg (neighbours closed cps)[j / steps].1 (neighbours closed cps)[j / steps].2, ?_, rfl⟩,
      _, hr.1, hr.2, rfl⟩, ?_⟩
    · rw [segs_neighbours]
      exact List.mem_map.2 ⟨_, List.getElem_mem hk, rfl⟩
    · rw [distPt_comm]
      exact g3 v v0 v1

/-- Python's doubles: up to a million steps the computed path is within `3/4 * L * M / steps²`, enlarged by a billionth, plus `2^-48`
of the size of the coordinates. -/
theorem C123_doubles (mode : DotMode) (m : Mat3 ℝ) (cps : List (CP ℝ)) (closed : Bool) (steps : ℕ) (hs : 1 ≤ steps)
    (hs' : steps ≤ 1000000) (B C : ℝ) (B0 : 0 ≤ B) (hb : ∀ cp ∈ cps, cp.Bounded B B)
    (hC : (|m.a| + |m.b|) * B + |m.c| ≤ C ∧ (|m.d| + |m.e|) * B + |m.f| ≤ C) (L M : ℝ) (L0 : 0 ≤ L) (M0 : 0 ≤ M)
    (hL : ∀ p q, distPt (m.apply p) (m.apply q) ≤ L * distPt p q) (hM : ∀ s ∈ segs closed cps, bend s ≤ M) :
    ∃ ps, Fl.bezPath (.binary 53 (by norm_num)) (Fl.apply (.binary 53 (by norm_num)) mode m) cps closed steps = xyFlatten ps ∧
      Close (3 / 4 * (L * M) / steps ^ 2 * (1 + 1 / 10 ^ 9) + 2 ^ (-47 : ℤ) * C)
        (m.apply '' curveSet closed cps) (joined ps) := by
  obtain ⟨ps, h1, h2⟩ := C123_bez_path (.binary 53 (by norm_num)) mode m cps closed steps hs B B hb L M L0 hL hM
  have hp : (0 : ℝ) < steps := by exact_mod_cast hs
  have hp' : (steps : ℝ) ≤ 1000000 := by exact_mod_cast hs'
  set R : Rnd := .binary 53 (by norm_num) with hR
  have hu : R.u = 2 ^ (-53 : ℤ) := rfl
  have hg : R.gam 13 ≤ 2 ^ (-48 : ℤ) := by
    refine (Rnd.gam_le _ 13 ?_).trans ?_ <;> norm_num [hR, Rnd.binary]
  have hg0 := R.gam_nonneg 13
  have hle : 3 / 4 * (L * M) * (1 / steps + 2 * R.u) ^ 2 +
      √((R.gam 13 * (|m.a| * B + |m.b| * B + |m.c|)) ^ 2 + (R.gam 13 * (|m.d| * B + |m.e| * B + |m.f|)) ^ 2) ≤
      3 / 4 * (L * M) / steps ^ 2 * (1 + 1 / 10 ^ 9) + 2 ^ (-47 : ℤ) * C := by
    have a0 := abs_nonneg m.a
    have b0 := abs_nonneg m.b
    have c0 := abs_nonneg m.c
    have d0 := abs_nonneg m.d
    have e0 := abs_nonneg m.e
    have f0 := abs_nonneg m.f
    have C0 : 0 ≤ C := le_trans (by positivity) hC.1
    have k : ∀ x, 0 ≤ x → x ≤ C → (R.gam 13 * x) ^ 2 ≤ (2 ^ (-48 : ℤ) * C) ^ 2 := fun x x0 xC =>
      pow_le_pow_left₀ (mul_nonneg hg0 x0) (mul_le_mul hg xC x0 (by positivity)) 2
    refine add_le_add ?_ ?_
    · have e : 3 / 4 * (L * M) * (1 / steps + 2 * R.u) ^ 2 = 3 / 4 * (L * M) / steps ^ 2 * (1 + 2 * R.u * steps) ^ 2 := by
        field_simp
      rw [e]
      refine mul_le_mul_of_nonneg_left ?_ (by positivity)
      have x0 : 0 ≤ R.u * steps := mul_nonneg R.u_nonneg hp.le
      have x1 : R.u * steps ≤ 2 ^ (-53 : ℤ) * 1000000 := by rw [hu]; gcongr
      norm_num at x1
      nlinarith
    · rw [Real.sqrt_le_iff]
      refine ⟨by positivity, ?_⟩
      have h1 := k _ (by positivity : 0 ≤ |m.a| * B + |m.b| * B + |m.c|) (by linarith [hC.1])
      have h2 := k _ (by positivity : 0 ≤ |m.d| * B + |m.e| * B + |m.f|) (by linarith [hC.2])
      have e : (2 ^ (-47 : ℤ) * C) ^ 2 = 4 * (2 ^ (-48 : ℤ) * C) ^ 2 := by norm_num; ring
      rw [e]
      nlinarith [sq_nonneg (2 ^ (-48 : ℤ) * C)]
  exact ⟨ps, h1, fun p hp => (h2.1 p hp).imp fun _ h => ⟨h.1, h.2.trans hle⟩,
    fun p hp => (h2.2 p hp).imp fun _ h => ⟨h.1, h.2.trans hle⟩⟩

/-- The hypotheses are met: a closed curve of two control points, scaled to three times its size and moved by (100, 50). -/
example : ∃ (m : Mat3 ℝ) (p q : CP ℝ), (∀ cp ∈ [p, q], cp.Bounded 2 2) ∧
    ((|m.a| + |m.b|) * 2 + |m.c| ≤ 106 ∧ (|m.d| + |m.e|) * 2 + |m.f| ≤ 106) ∧
    (∀ x y, distPt (m.apply x) (m.apply y) ≤ 3 * distPt x y) ∧ (segs true [p, q]).length = 2 ∧
    ∀ s ∈ segs true [p, q], bend s ≤ 3 := by
  refine ⟨⟨3, 0, 100, 0, 3, 50, 0, 0, 1⟩, ⟨⟨0, 0⟩, ⟨-1, 0⟩, ⟨1, 0⟩, "smooth"⟩, ⟨⟨1, 1⟩, ⟨1, 0⟩, ⟨-1, 0⟩, "smooth"⟩, ?_, ?_, ?_, ?_, ?_⟩
  · intro cp hcp
    simp only [List.mem_cons, List.not_mem_nil, or_false] at hcp
    rcases hcp with rfl | rfl <;> norm_num [CP.Bounded]
  · norm_num
  · intro x y
    simp only [Mat3.apply, distPt]
    refine le_of_eq ?_
    rw [show (3 * x.x + 0 * x.y + 100 - (3 * y.x + 0 * y.y + 100)) ^ 2 + (0 * x.x + 3 * x.y + 50 - (0 * y.x + 3 * y.y + 50)) ^ 2 =
      3 ^ 2 * ((x.x - y.x) ^ 2 + (x.y - y.y) ^ 2) by ring, Real.sqrt_mul (by norm_num), Real.sqrt_sq (by norm_num)]
  · simp [segs, closedSegs]
  · intro s hs
    simp [segs, closedSegs, seg] at hs
    rcases hs with rfl | rfl <;>
    · simp only [bend]
      refine max_le (Real.sqrt_le_iff.2 ⟨by norm_num, by norm_num⟩) (Real.sqrt_le_iff.2 ⟨by norm_num, by norm_num⟩)

end X7.Approx
