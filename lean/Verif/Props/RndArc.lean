import Verif.Model.RndShapes
import Verif.Spec.Rnd
import Verif.Spec.RndVec
import Verif.Spec.Utils
import Verif.Lemmas.Fl
import Verif.Lemmas.Rnd

/-!
C99: angles and arcs under rounding. `R` is any rounding with the properties of `Rnd`.
-/

namespace X7
open Rnd
variable (R : Rnd)

/-- `fmod` is the exact remainder: it differs from the number by whole multiples and is smaller than `m`. -/
theorem Fl.fmod_spec (a m : ℝ) (hm : 0 < m) :
    (∃ k : ℤ, a - Fl.fmod a m = m * k) ∧ |Fl.fmod a m| < m ∧ (0 ≤ a → 0 ≤ Fl.fmod a m) ∧ (a ≤ 0 → Fl.fmod a m ≤ 0) := by
  unfold Fl.fmod
  split_ifs with h
  · have h1 := Int.floor_le (a / m)
    have h2 := Int.lt_floor_add_one (a / m)
    rw [le_div_iff₀ hm] at h1
    rw [div_lt_iff₀ hm] at h2
    refine ⟨⟨⌊a / m⌋, by ring⟩, ?_, fun _ => by nlinarith, fun h0 => ?_⟩
    · rw [abs_lt]; constructor <;> nlinarith
    · have : a = 0 := le_antisymm h0 h
      subst this; simp
  · have h1 := Int.le_ceil (a / m)
    have h2 := Int.ceil_lt_add_one (a / m)
    rw [div_le_iff₀ hm] at h1
    have h3 : (⌈a / m⌉ : ℝ) - 1 < a / m := by linarith
    rw [lt_div_iff₀ hm] at h3
    refine ⟨⟨⌈a / m⌉, by ring⟩, ?_, fun h0 => absurd h0 h, fun _ => by nlinarith⟩
    rw [abs_lt]; constructor <;> nlinarith

/-- Python's `%`: between 0 and `m`, both included, and off by at most one rounding of `m`. -/
theorem Fl.pyMod_spec (a m : ℝ) (hm : 0 < m) (hr : R.Rep m) :
    0 ≤ Fl.pyMod R a m ∧ Fl.pyMod R a m ≤ m ∧ ∃ k : ℤ, |Fl.pyMod R a m - (a - m * k)| ≤ R.u * m := by
  obtain ⟨⟨k, hk⟩, ha, -, -⟩ := Fl.fmod_spec a m hm
  have hu := R.u_nonneg
  rw [abs_lt] at ha
  unfold Fl.pyMod
  split_ifs with h
  · refine ⟨R.fl_nonneg (by linarith), R.fl_le_of_rep (by linarith) hr, k - 1, ?_⟩
    have e : a - m * ((k - 1 : ℤ) : ℝ) = Fl.fmod a m + m := by push_cast; linarith
    rw [e]
    refine (R.err _).trans (mul_le_mul_of_nonneg_left ?_ hu)
    rw [abs_of_nonneg (by linarith)]; linarith
  · refine ⟨not_lt.1 h, ha.2.le, k, ?_⟩
    have e : a - m * (k : ℝ) = Fl.fmod a m := by linarith
    rw [e]; simp; positivity

theorem Fl.pyMod_exact (a m : ℝ) (hm : 0 < m) : Fl.pyMod .exact a m = Utils.pyMod a m := by
  obtain ⟨⟨k, hk⟩, ha, -, -⟩ := Fl.fmod_spec a m hm
  rw [abs_lt] at ha
  have key : ∀ j : ℤ, 0 ≤ a - m * j → a - m * j < m → a - m * j = Utils.pyMod a m := by
    intro j h0 h1
    have : ⌊a / m⌋ = j := by
      rw [Int.floor_eq_iff, le_div_iff₀ hm, div_lt_iff₀ hm]
      constructor <;> nlinarith
    rw [Utils.pyMod, this]
  unfold Fl.pyMod
  split_ifs with h
  · show Fl.fmod a m + m = _
    have e : Fl.fmod a m + m = a - m * ((k - 1 : ℤ) : ℝ) := by push_cast; linarith
    rw [e]; apply key <;> rw [← e] <;> linarith
  · have e : Fl.fmod a m = a - m * k := by linarith
    rw [e]; apply key <;> rw [← e] <;> linarith [not_lt.1 h]

theorem Rnd.rep_nat (n : ℕ) (h : (n : ℝ) * R.u ≤ 1) : R.Rep n := by
  have := R.int n (by simpa using h)
  simpa [Rep] using this

theorem Rnd.rep_360 (h : 360 * R.u ≤ 1) : R.Rep 360 := by
  have := R.rep_nat 360 (by simpa using h)
  simpa using this

theorem Rnd.rep_180 (h : 360 * R.u ≤ 1) : R.Rep 180 := by
  have := R.rep_nat 180 (by push_cast; linarith [R.u_nonneg])
  simpa using this

/-- C99: without rounding the rounded versions are the exact models that the other properties are about. -/
theorem C99_exact_arc :
    (∀ t s, Fl.minRotation .exact t s = Utils.minRotation t s) ∧
    (∀ (L : Fl.ArcLib), L.cos = Real.cos → L.sin = Real.sin → L.rad = radians → L.trange = Utils.tRange →
      (∀ r sa ea c steps dir, Fl.arc .exact L r sa ea c steps dir = Utils.arc r sa ea c steps dir) ∧
      (L.hyp = hypot → L.sqrt = Real.sqrt → L.angle = Vec.angle →
        ∀ r s e steps side, 0 ≤ r → Fl.arc2p .exact L r s e steps side = Utils.arc2p r s e steps side)) := by
  have m : ∀ a, Fl.pyMod .exact a 360 = Utils.pyMod a 360 := fun a => Fl.pyMod_exact a 360 (by norm_num)
  have ang : ∀ sa ea dir, Fl.arcAngles .exact sa ea dir = Utils.arcAngles sa ea dir := by
    intro sa ea dir
    cases dir <;> simp only [Fl.arcAngles, Utils.arcAngles, m] <;> rfl
  refine ⟨fun t s => ?_, fun L hc hs hr ht => ?_⟩
  · show Fl.pyMod .exact (t - s + 180) 360 - 180 = _
    rw [m]; rfl
  · have harc : ∀ r sa ea c steps dir, Fl.arc .exact L r sa ea c steps dir = Utils.arc r sa ea c steps dir := by
      intro r sa ea c steps dir
      simp only [Fl.arc, ang, hr, ht]
      unfold Utils.arc
      have : Fl.arcPoint .exact L r c = fun t => ⟨r * Real.cos t + c.x, r * Real.sin t + c.y⟩ := by
        funext t; simp only [Fl.arcPoint, hc, hs]; rfl
      rw [this]; rfl
    refine ⟨harc, fun hh hq ha r s e steps side hr0 => ?_⟩
    simp only [Fl.arc2p, harc, hh, hq, ha]
    unfold Utils.arc2p
    have e1 : Fl.sub .exact e s = e.sub s := rfl
    have e2 : Rnd.exact.fl (hypot (Fl.sub .exact e s).x (Fl.sub .exact e s).y / 2) = (e.sub s).length / 2 := rfl
    have hl : 0 ≤ (e.sub s).length / 2 := by
      have : 0 ≤ (e.sub s).length := Real.sqrt_nonneg _
      linarith
    rw [e2]
    simp only
    by_cases h1 : r < (e.sub s).length / 2
    · rw [if_pos h1, if_pos h1]
    by_cases h2 : (e.sub s).length / 2 = 0
    · rw [if_neg h1, if_neg h1, if_pos h2, if_pos h2]
    rw [if_neg h1, if_neg h1, if_neg h2, if_neg h2]
    have e3 : Fl.unit .exact hypot (Fl.smul .exact (Fl.normal (Fl.sub .exact e s)) side) = ((e.sub s).normal.mul side).unit := rfl
    have hd : ¬ Rnd.exact.fl (Rnd.exact.fl (r * r) - Rnd.exact.fl ((e.sub s).length / 2 * ((e.sub s).length / 2))) < 0 := by
      show ¬ (r * r - (e.sub s).length / 2 * ((e.sub s).length / 2) < 0)
      have := not_lt.1 h1
      nlinarith
    rw [e3]
    cases ((e.sub s).normal.mul side).unit with
    | error x => rfl
    | ok clv =>
      simp only
      rw [if_neg hd]
      rfl

/-! ### Angles -/

/-- C99: the smallest rotation computed lies between -180 and 180, **both included**, and turns the source into the target up to
three roundings. -/
theorem C99_min_rotation (h : 360 * R.u ≤ 1) (target source : ℝ) :
    -180 ≤ Fl.minRotation R target source ∧ Fl.minRotation R target source ≤ 180 ∧
    ∃ d, Utils.SameAngle (source + d) target ∧
      |Fl.minRotation R target source - d| ≤ R.gam 2 * (|target - source| + 180) + R.u * 540 := by
  have hu := R.u_nonneg
  have r360 := R.rep_360 h
  have r180 := R.rep_180 h
  obtain ⟨a1, a2, k, a3⟩ := Fl.pyMod_spec R (R.fl (R.fl (target - source) + 180)) 360 (by norm_num) r360
  set m := Fl.pyMod R (R.fl (R.fl (target - source) + 180)) 360 with hm
  have hr : Fl.minRotation R target source = R.fl (m - 180) := rfl
  rw [hr]
  refine ⟨R.le_fl_of_rep (by linarith) (R.rep_neg r180), R.fl_le_of_rep (by linarith) r180,
    target - source - 360 * k, ⟨-k, by push_cast; ring⟩, ?_⟩
  have e1 := R.err (m - 180)
  have e2 : |m - 180| ≤ 180 := by rw [abs_le]; constructor <;> linarith
  have n1 : R.Near 1 (R.fl (target - source)) (target - source) |target - source| := (Near.of_abs _).fl
  have n2 := (n1.add (Near.of_le (R := R) (x := 180) (A := 180) (by norm_num))).mono (n := 2) (by omega) le_rfl
  have e4 := n2.2
  have e5 := mul_le_mul_of_nonneg_left e2 hu
  rw [abs_le] at *
  constructor <;> linarith [e1.1, e1.2, a3.1, a3.2, e4.1, e4.2]

/-- C99: on whole degrees the computed smallest rotation is exactly the exact one (C51), so then 180 does not occur. -/
theorem C99_min_rotation_whole (t s : ℤ) (h : (|(t : ℝ)| + |(s : ℝ)| + 360) * R.u ≤ 1) :
    Fl.minRotation R t s = Utils.minRotation t s := by
  have hu := R.u_nonneg
  have fi : ∀ n : ℤ, |(n : ℝ)| ≤ |(t : ℝ)| + |(s : ℝ)| + 360 → R.fl n = n := fun n hn =>
    R.int n (le_trans (mul_le_mul_of_nonneg_right hn hu) h)
  have d1 : R.fl ((t : ℝ) - s) = (t : ℝ) - s := by
    have := fi (t - s) (by push_cast; refine (abs_sub _ _).trans ?_; linarith)
    push_cast at this; exact this
  have d2 : R.fl ((t : ℝ) - s + 180) = (t : ℝ) - s + 180 := by
    have := fi (t - s + 180) (by
      push_cast
      refine (abs_add_le _ _).trans ?_
      have := abs_sub (t : ℝ) s
      rw [abs_of_pos (by norm_num : (0 : ℝ) < 180)]; linarith)
    push_cast at this; exact this
  have p : ∀ n : ℤ, |n| ≤ 360 → R.fl n = n := fun n hn => by
    apply fi
    have : |(n : ℝ)| ≤ 360 := by exact_mod_cast hn
    have := abs_nonneg (t : ℝ)
    have := abs_nonneg (s : ℝ)
    linarith
  have hx : Fl.pyMod R ((t : ℝ) - s + 180) 360 = Fl.pyMod .exact ((t : ℝ) - s + 180) 360 := by
    unfold Fl.pyMod
    split_ifs with h1
    · obtain ⟨⟨k, hk⟩, ha, -, -⟩ := Fl.fmod_spec ((t : ℝ) - s + 180) 360 (by norm_num)
      have e : Fl.fmod ((t : ℝ) - s + 180) 360 + 360 = ((t - s + 180 - 360 * k + 360 : ℤ) : ℝ) := by push_cast; linarith
      rw [e]
      show _ = _
      apply p
      rw [abs_lt] at ha
      have a1 : (0 : ℝ) ≤ ((t - s + 180 - 360 * k + 360 : ℤ) : ℝ) := by rw [← e]; linarith
      have a2 : ((t - s + 180 - 360 * k + 360 : ℤ) : ℝ) ≤ 360 := by rw [← e]; linarith
      rw [abs_le]
      constructor
      · have : (0 : ℤ) ≤ t - s + 180 - 360 * k + 360 := by exact_mod_cast a1
        omega
      · exact_mod_cast a2
    · rfl
  have hint : ∃ n : ℤ, Fl.pyMod .exact ((t : ℝ) - s + 180) 360 = n := by
    rw [Fl.pyMod_exact _ _ (by norm_num)]
    exact ⟨t - s + 180 - 360 * ⌊((t : ℝ) - s + 180) / 360⌋, by unfold Utils.pyMod; push_cast; ring⟩
  obtain ⟨n, hn⟩ := hint
  obtain ⟨b1, b2, -⟩ := Fl.pyMod_spec .exact ((t : ℝ) - s + 180) 360 (by norm_num) rfl
  have hn2 : |n - 180| ≤ 360 := by
    rw [hn] at b1 b2
    have c1 : 0 ≤ n := by exact_mod_cast b1
    have c2 : n ≤ 360 := by exact_mod_cast b2
    rw [abs_le]; constructor <;> omega
  have hp := p _ hn2
  push_cast at hp
  unfold Fl.minRotation
  rw [d1, d2, hx, hn, hp, ← hn, Fl.pyMod_exact _ _ (by norm_num)]
  rfl

/-- C99: at every precision from 9 binary digits on there are angles for which the computed smallest rotation is 180 degrees. The
exact one is never 180 (C51): here it is just above -180 degrees, so the sense of the rotation flips. -/
theorem C99_min_rotation_counterexample (p : ℕ) (hp : 9 ≤ p) :
    ∃ t : ℝ, (Rnd.binary p (by omega)).Rep t ∧ Fl.minRotation (Rnd.binary p (by omega)) t 0 = 180 ∧
      Utils.minRotation t 0 < 180 := by
  obtain ⟨q, rfl⟩ : ∃ q, p = q + 9 := ⟨p - 9, by omega⟩
  have hfl : (Rnd.binary (q + 9) (by omega)).fl = flBin (q + 9) := rfl
  have m1 : (1 : ℝ) ≤ 2 ^ q := one_le_pow₀ (by norm_num)
  have m0 : (0 : ℝ) < 2 ^ q := by positivity
  have rep : ∀ n k : ℤ, |n| ≤ 2 ^ (q + 9) → flBin (q + 9) ((n : ℝ) * 2 ^ k) = (n : ℝ) * 2 ^ k := fun n k h =>
    flBin_rep (q + 9) (by omega) n k h
  have zq : (2 : ℝ) ^ (-(q : ℤ) - 1) = 1 / (2 * 2 ^ q) := by
    rw [zpow_sub₀ (by norm_num), zpow_neg, zpow_natCast, zpow_one]; field_simp
  have pz : ((2 : ℤ) ^ q : ℤ) ≥ 1 := one_le_pow₀ (by norm_num)
  -- the angle
  have ht : flBin (q + 9) (-180 - 1 / (2 * 2 ^ q)) = -180 - 1 / (2 * 2 ^ q) := by
    have := rep (-(360 * 2 ^ q) - 1) (-(q : ℤ) - 1) (by
      rw [abs_of_nonpos (by omega), pow_add]; omega)
    rw [zq] at this
    push_cast at this
    rw [show (-(360 * 2 ^ q) - 1) * (1 / (2 * 2 ^ q)) = (-180 - 1 / (2 * 2 ^ q) : ℝ) by field_simp; ring] at this
    exact this
  have ht2 : flBin (q + 9) (-(1 / (2 * 2 ^ q))) = -(1 / (2 * 2 ^ q)) := by
    have := rep (-1) (-(q : ℤ) - 1) (by simp; exact one_le_pow₀ (by norm_num))
    rw [zq] at this
    push_cast at this
    rw [show (-1) * (1 / (2 * 2 ^ q)) = (-(1 / (2 * 2 ^ q)) : ℝ) by ring] at this
    exact this
  have s1 : (1 : ℝ) / (2 * 2 ^ q) ≤ 1 / 2 := by
    rw [div_le_div_iff₀ (by positivity) (by norm_num)]; linarith
  have s0 : (0 : ℝ) < 1 / (2 * 2 ^ q) := by positivity
  set t : ℝ := 1 / (2 * 2 ^ q) with htd
  have hmod : Fl.fmod (-t) 360 = -t := by
    unfold Fl.fmod
    rw [if_neg (by linarith)]
    have : ⌈-t / 360⌉ = 0 := by
      rw [Int.ceil_eq_iff]; push_cast; constructor
      · rw [zero_sub, lt_div_iff₀ (by norm_num)]; linarith
      · rw [div_le_iff₀ (by norm_num)]; linarith
    rw [this]; simp
  have h360 : flBin (q + 9) (-t + 360) = 360 := by
    have := Fl.flBin_eq (q + 9) (-t + 360) 8 (360 * 2 ^ q)
      (by rw [abs_of_pos (by linarith)]; norm_num; linarith) (by rw [abs_of_pos (by linarith)]; norm_num; linarith)
      (by
        have e : (8 : ℤ) - ((q + 9 : ℕ) : ℤ) + 1 = -(q : ℤ) := by push_cast; ring
        rw [e, zpow_neg, zpow_natCast]
        have e2 : (-t + 360) / ((2 : ℝ) ^ q)⁻¹ = 360 * 2 ^ q - 1 / 2 := by rw [htd]; field_simp; ring
        rw [e2]
        constructor
        · push_cast; rw [abs_le]; constructor <;> linarith
        · intro _; exact (by decide : Even (360 : ℤ)).mul_right _)
    rw [this]
    have e : (8 : ℤ) - ((q + 9 : ℕ) : ℤ) + 1 = -(q : ℤ) := by push_cast; ring
    rw [e, zpow_neg, zpow_natCast]
    push_cast
    field_simp
  have h180 : flBin (q + 9) (360 - 180) = 180 := by
    have := rep 180 0 (by
      rw [pow_add]; norm_num; omega)
    norm_num at this ⊢; exact this
  refine ⟨-180 - t, ht, ?_, ?_⟩
  · unfold Fl.minRotation Fl.pyMod
    rw [hfl, sub_zero, ht, show -180 - t + 180 = -t by ring, ht2, hmod, if_pos (by linarith), h360, h180]
  · have : Utils.minRotation (-180 - t) 0 = (-180 - t - 0 + 180) - 360 * ⌊(-180 - t - 0 + 180) / 360⌋ - 180 := rfl
    rw [this]
    have h := Int.lt_floor_add_one ((-180 - t - 0 + 180) / 360)
    rw [div_lt_iff₀ (by norm_num)] at h
    linarith

/-! ### Arcs -/

theorem Fl.steps_spec (w : ℝ) (hw : 0 ≤ w) (h : (w + 1) * R.u ≤ 1) :
    w < ⌊R.fl (R.fl w + 1)⌋₊ ∧ (⌊R.fl (R.fl w + 1)⌋₊ : ℝ) ≤ (1 + R.u) ^ 2 * (w + 1) := by
  have hu := R.u_nonneg
  have f0 := Nat.floor_le hw
  have f1 := Nat.lt_floor_add_one w
  have r0 : R.Rep (⌊w⌋₊ : ℝ) := R.rep_nat _ (le_trans (mul_le_mul_of_nonneg_right (by linarith) hu) h)
  have r1 : R.Rep ((⌊w⌋₊ : ℝ) + 1) := by
    have := R.rep_nat (⌊w⌋₊ + 1) (le_trans (mul_le_mul_of_nonneg_right (by push_cast; linarith) hu) h)
    push_cast at this; exact this
  have g0 := R.le_fl_of_rep f0 r0
  have g1 : ((⌊w⌋₊ : ℝ) + 1) ≤ R.fl (R.fl w + 1) := R.le_fl_of_rep (by linarith) r1
  constructor
  · refine lt_of_lt_of_le f1 ?_
    have := Nat.le_floor (α := ℝ) (n := ⌊w⌋₊ + 1) (a := R.fl (R.fl w + 1)) (by push_cast; exact g1)
    exact_mod_cast this
  · have k1 := R.fl_le hw
    have k0 := R.fl_nonneg hw
    have k2 := R.fl_le (x := R.fl w + 1) (by linarith)
    refine (Nat.floor_le (by linarith)).trans (k2.trans ?_)
    nlinarith

/-- C99: the points of an arc. The computed points are those at the angles that `t_range` gives between two angles `a` and `b`,
each off the circle by a few roundings; `a` and `b` are the angles asked for up to full turns and roundings; counter-clockwise
arcs do not go back, clockwise ones do not go forward, and neither goes through more than a full turn and a rounding; by default
there is more than one step per degree, but not many more. -/
theorem C99_arc (h : 1440 * R.u ≤ 1) (L : Fl.ArcLib) (k : ℕ) (hc : ∀ t, |L.cos t - Real.cos t| ≤ R.gam k)
    (hs : ∀ t, |L.sin t - Real.sin t| ≤ R.gam k) (r sa ea : ℝ) (c : Pt ℝ) (steps : ℤ) (dir : Utils.Dir) :
    ∃ (a b : ℝ) (n : ℕ),
      List.Forall₂ (fun p t => Within (R.gam (k + 2) * (|r| + |c.x|)) (R.gam (k + 2) * (|r| + |c.y|)) p
        ⟨c.x + r * Real.cos t, c.y + r * Real.sin t⟩) (Fl.arc R L r sa ea c steps dir) (L.trange n (L.rad a) (L.rad b)) ∧
      (∃ a', Utils.SameAngle a' sa ∧ |a - a'| ≤ 1080 * R.u) ∧ (∃ b', Utils.SameAngle b' ea ∧ |b - b'| ≤ 1080 * R.u) ∧
      (match dir with
        | .ccw => 0 ≤ b - a ∧ b - a ≤ 360 + 720 * R.u
        | .cw => -(360 + 720 * R.u) ≤ b - a ∧ b - a ≤ 0
        | .none => a = sa ∧ b = ea) ∧
      (0 ≤ steps → n = steps.toNat) ∧
      (steps < 0 → (|b - a| + 1) * R.u ≤ 1 → |b - a| < n ∧ n ≤ (1 + R.u) ^ 2 * (|b - a| + 1)) := by
  have hu := R.u_nonneg
  have r360 : R.Rep 360 := R.rep_360 (by linarith)
  obtain ⟨s0, s1, ks, s2⟩ := Fl.pyMod_spec R sa 360 (by norm_num) r360
  obtain ⟨e0, e1, ke, e2⟩ := Fl.pyMod_spec R ea 360 (by norm_num) r360
  refine ⟨(Fl.arcAngles R sa ea dir).1, (Fl.arcAngles R sa ea dir).2,
    Fl.arcSteps R (Fl.arcAngles R sa ea dir).1 (Fl.arcAngles R sa ea dir).2 steps, ?_, ?_, ?_, ?_, ?_, ?_⟩
  · unfold Fl.arc
    simp only
    rw [List.forall₂_map_left_iff, List.forall₂_same]
    intro t _
    have nc : R.Near k (L.cos t) (Real.cos t) 1 := ⟨Real.abs_cos_le_one t, by simpa using hc t⟩
    have ns : R.Near k (L.sin t) (Real.sin t) 1 := ⟨Real.abs_sin_le_one t, by simpa using hs t⟩
    have h1 := (((Near.of_abs (R := R) r).mul nc).add (Near.of_abs c.x)).mono (n := k + 2) (by omega) le_rfl
    have h2 := (((Near.of_abs (R := R) r).mul ns).add (Near.of_abs c.y)).mono (n := k + 2) (by omega) le_rfl
    rw [mul_one] at h1 h2
    constructor
    · have := h1.2
      rw [add_comm (r * Real.cos t)] at this
      exact this
    · have := h2.2
      rw [add_comm (r * Real.sin t)] at this
      exact this
  · have small : ∃ a', Utils.SameAngle a' sa ∧ |Fl.pyMod R sa 360 - a'| ≤ 1080 * R.u :=
      ⟨sa - 360 * ks, ⟨-ks, by push_cast; ring⟩, s2.trans (by linarith)⟩
    cases dir
    · exact small
    · simp only [Fl.arcAngles]
      split_ifs
      · refine ⟨sa - 360 * ks + 360, ⟨-ks + 1, by push_cast; ring⟩, ?_⟩
        have := R.err (Fl.pyMod R sa 360 + 360)
        rw [abs_of_nonneg (by linarith : 0 ≤ Fl.pyMod R sa 360 + 360)] at this
        rw [abs_le] at *
        constructor <;> nlinarith
      · exact small
    · exact ⟨sa, ⟨0, by simp⟩, by simp [Fl.arcAngles]; linarith⟩
  · have small : ∃ a', Utils.SameAngle a' ea ∧ |Fl.pyMod R ea 360 - a'| ≤ 1080 * R.u :=
      ⟨ea - 360 * ke, ⟨-ke, by push_cast; ring⟩, e2.trans (by linarith)⟩
    cases dir
    · simp only [Fl.arcAngles]
      split_ifs
      · refine ⟨ea - 360 * ke + 360, ⟨-ke + 1, by push_cast; ring⟩, ?_⟩
        have := R.err (Fl.pyMod R ea 360 + 360)
        rw [abs_of_nonneg (by linarith : 0 ≤ Fl.pyMod R ea 360 + 360)] at this
        rw [abs_le] at *
        constructor <;> nlinarith
      · exact small
    · exact small
    · exact ⟨ea, ⟨0, by simp⟩, by simp [Fl.arcAngles]; linarith⟩
  · have over : ∀ x y : ℝ, 0 ≤ x → x < y → y ≤ 360 → 0 ≤ R.fl (x + 360) - y ∧ R.fl (x + 360) - y ≤ 360 + 720 * R.u := by
      intro x y hx hxy hy
      have g1 : 360 ≤ R.fl (x + 360) := R.le_fl_of_rep (by linarith) r360
      have g2 := R.err (x + 360)
      rw [abs_of_nonneg (by linarith : 0 ≤ x + 360)] at g2
      have := (abs_le.1 g2).2
      constructor
      · linarith
      · nlinarith
    cases dir
    · simp only [Fl.arcAngles]
      split_ifs with hlt
      · exact over _ _ e0 hlt s1
      · constructor <;> linarith [not_lt.1 hlt]
    · simp only [Fl.arcAngles]
      split_ifs with hlt
      · obtain ⟨g1, g2⟩ := over _ _ s0 hlt e1
        constructor <;> linarith
      · constructor <;> linarith [not_lt.1 hlt]
    · exact ⟨rfl, rfl⟩
  · intro hst
    simp [Fl.arcSteps, not_lt.2 hst]
  · intro hst hw
    have := Fl.steps_spec R _ (abs_nonneg _) hw
    have ea' : ∀ x : ℝ, |R.fl x| = R.fl |x| := by
      intro x
      rcases le_total 0 x with hx | hx
      · rw [abs_of_nonneg hx, abs_of_nonneg (R.fl_nonneg hx)]
      · rw [abs_of_nonpos hx, abs_of_nonpos (R.fl_nonpos hx), R.neg]
    rw [Fl.arcSteps, if_pos hst, ea']
    exact this

/-- C99: an arc between two points is computed exactly if the points differ and half their distance, as computed, is not more than
the radius; rounding never makes the code take the square root of a negative number. The result starts with the end, the centre
and the start. -/
theorem C99_arc2p (L : Fl.ArcLib) (hh : ∀ x y, 0 ≤ L.hyp x y ∧ (L.hyp x y = 0 ↔ x = 0 ∧ y = 0)) (r : ℝ) (s e : Pt ℝ)
    (steps : ℤ) (side : ℝ) (hside : side ≠ 0) :
    (s ≠ e ∧ R.fl (L.hyp (R.fl (e.x - s.x)) (R.fl (e.y - s.y)) / 2) ≤ r →
      ∃ c l, Fl.arc2p R L r s e steps side = .ok (e :: c :: s :: l)) ∧
    (¬ (s ≠ e ∧ R.fl (L.hyp (R.fl (e.x - s.x)) (R.fl (e.y - s.y)) / 2) ≤ r) →
      Fl.arc2p R L r s e steps side = .error .value) := by
  set vl := R.fl (L.hyp (R.fl (e.x - s.x)) (R.fl (e.y - s.y)) / 2) with hvl
  have hz : vl = 0 ↔ s = e := by
    rw [hvl, R.fl_eq_zero, div_eq_zero_iff]
    simp only [(hh _ _).2, R.fl_eq_zero, sub_eq_zero, OfNat.ofNat_ne_zero, or_false]
    constructor
    · rintro ⟨h1, h2⟩; exact Pt.ext h1.symm h2.symm
    · rintro rfl; exact ⟨rfl, rfl⟩
  have h0 : 0 ≤ vl := R.fl_nonneg (by linarith [(hh (R.fl (e.x - s.x)) (R.fl (e.y - s.y))).1])
  have hd : Fl.arc2p R L r s e steps side = if r < vl then .error .value else if vl = 0 then .error .value else
      match Fl.unit R L.hyp (Fl.smul R (Fl.normal (Fl.sub R e s)) side) with
      | .error x => .error x
      | .ok clv =>
        if R.fl (R.fl (r * r) - R.fl (vl * vl)) < 0 then .error .value
        else .ok ([e, Fl.addVector R (Fl.addVector R s (Fl.smul R (Fl.sub R e s) (1 / 2)))
            (Fl.smul R clv (L.sqrt (R.fl (R.fl (r * r) - R.fl (vl * vl))))), s] ++ _) := rfl
  constructor
  · rintro ⟨hse, hle⟩
    have hv : vl ≠ 0 := fun h => hse (hz.1 h)
    rw [hd, if_neg (not_lt.2 hle), if_neg hv]
    have hn : L.hyp (Fl.smul R (Fl.normal (Fl.sub R e s)) side).x (Fl.smul R (Fl.normal (Fl.sub R e s)) side).y ≠ 0 := by
      rw [Ne, (hh _ _).2]
      simp only [Fl.smul, Fl.normal, Fl.sub, R.fl_eq_zero, mul_eq_zero, neg_eq_zero, hside, or_false, sub_eq_zero]
      rintro ⟨h1, h2⟩
      exact hse (Pt.ext h2.symm h1.symm)
    have hsq : ¬ R.fl (R.fl (r * r) - R.fl (vl * vl)) < 0 := by
      rw [not_lt]
      apply R.fl_nonneg
      have := R.mono (vl * vl) (r * r) (by nlinarith)
      linarith
    simp only [Fl.unit, if_neg hn]
    rw [if_neg hsq]
    exact ⟨_, _, rfl⟩
  · intro hnot
    rw [hd]
    by_cases h1 : r < vl
    · rw [if_pos h1]
    · rw [if_neg h1, if_pos]
      rw [hz]
      by_contra hse
      exact hnot ⟨hse, not_lt.1 h1⟩

/-- The hypotheses can be met: Python's floats and exact libraries. -/
example : ∃ (R : Rnd) (L : Fl.ArcLib), R.u = 2 ^ (-53 : ℤ) ∧ 1440 * R.u ≤ 1 ∧ (∀ t, |L.cos t - Real.cos t| ≤ R.gam 1) ∧
    (∀ t, |L.sin t - Real.sin t| ≤ R.gam 1) ∧ (∀ x y, 0 ≤ L.hyp x y ∧ (L.hyp x y = 0 ↔ x = 0 ∧ y = 0)) := by
  refine ⟨Rnd.binary 53 (by norm_num), ⟨Real.cos, Real.sin, radians, Real.sqrt, hypot, Vec.angle, Utils.tRange⟩, rfl, ?_, ?_, ?_, ?_⟩
  · show 1440 * (2 : ℝ) ^ (-53 : ℤ) ≤ 1
    norm_num
  · intro t; simpa using Rnd.gam_nonneg _ 1
  · intro t; simpa using Rnd.gam_nonneg _ 1
  · intro x y
    refine ⟨Real.sqrt_nonneg _, ?_⟩
    show √(x * x + y * y) = 0 ↔ _
    rw [Real.sqrt_eq_zero (by nlinarith [mul_self_nonneg x, mul_self_nonneg y])]
    constructor
    · intro h
      constructor <;> nlinarith [mul_self_nonneg x, mul_self_nonneg y]
    · rintro ⟨rfl, rfl⟩; simp

end X7
