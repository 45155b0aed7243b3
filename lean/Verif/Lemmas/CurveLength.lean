import Verif.Spec.CurveLength
import Verif.Lemmas.AreaCurve
import Verif.Lemmas.Elem
import Mathlib.Analysis.Calculus.Deriv.Comp
import Mathlib.MeasureTheory.Integral.IntervalIntegral.Basic

noncomputable section

namespace X7.Approx
open X7.Utils (distPt)

/-- Velocity. -/
def vel (s : Poly4 ℝ) (t : ℝ) : Pt ℝ :=
  ⟨(Poly4.c1 s).x + (Poly4.c2 s).x * (2 * t) + (Poly4.c3 s).x * (3 * t ^ 2),
    (Poly4.c1 s).y + (Poly4.c2 s).y * (2 * t) + (Poly4.c3 s).y * (3 * t ^ 2)⟩

/-- The length of a vector. -/
def nrm (p : Pt ℝ) : ℝ := √(p.x ^ 2 + p.y ^ 2)

theorem nrm_nonneg (p : Pt ℝ) : 0 ≤ nrm p := Real.sqrt_nonneg _

theorem nrm_sq (p : Pt ℝ) : nrm p ^ 2 = p.x ^ 2 + p.y ^ 2 := Real.sq_sqrt (by positivity)

theorem dot_le (u v : Pt ℝ) : u.x * v.x + u.y * v.y ≤ nrm u * nrm v := by
  have h : (u.x * v.x + u.y * v.y) ^ 2 ≤ (nrm u * nrm v) ^ 2 := by
    rw [mul_pow, nrm_sq, nrm_sq]; nlinarith [sq_nonneg (u.x * v.y - u.y * v.x)]
  exact abs_le_of_sq_le_sq' h (mul_nonneg (nrm_nonneg _) (nrm_nonneg _)) |>.2

theorem nrm_add (u v : Pt ℝ) : nrm ⟨u.x + v.x, u.y + v.y⟩ ≤ nrm u + nrm v := by
  apply Real.sqrt_le_iff.2 ⟨add_nonneg (nrm_nonneg _) (nrm_nonneg _), ?_⟩
  have := dot_le u v
  have h1 := nrm_sq u
  have h2 := nrm_sq v
  simp only
  nlinarith

theorem nrm_smul (k : ℝ) (u : Pt ℝ) : nrm ⟨k * u.x, k * u.y⟩ = |k| * nrm u := by
  rw [nrm, nrm, ← Real.sqrt_sq_eq_abs, ← Real.sqrt_mul (sq_nonneg k)]
  congr 1; simp only; ring

theorem distPt_nrm (p q : Pt ℝ) : distPt p q = nrm ⟨q.x - p.x, q.y - p.y⟩ := by
  rw [distPt, nrm]; congr 1; simp only; ring

/-- There is a direction along which a vector has its full length. -/
theorem nrm_dir (v : Pt ℝ) : ∃ w : Pt ℝ, nrm w = 1 ∧ nrm v = w.x * v.x + w.y * v.y := by
  by_cases h : nrm v = 0
  · refine ⟨⟨1, 0⟩, by simp [nrm], ?_⟩
    have := nrm_sq v
    rw [h] at this
    have hx : v.x = 0 := by nlinarith [sq_nonneg v.x, sq_nonneg v.y]
    rw [h, hx]; simp
  · refine ⟨⟨(nrm v)⁻¹ * v.x, (nrm v)⁻¹ * v.y⟩, ?_, ?_⟩
    · rw [nrm_smul, abs_of_nonneg (inv_nonneg.2 (nrm_nonneg v)), inv_mul_cancel₀ h]
    · have := nrm_sq v
      field_simp
      linarith

theorem has_x (s : Poly4 ℝ) (t : ℝ) : HasDerivAt (fun u => (s.at' u).x) (vel s t).x t := by
  simp only [at_x]; exact cubic_deriv _ _ _ _ t

theorem has_y (s : Poly4 ℝ) (t : ℝ) : HasDerivAt (fun u => (s.at' u).y) (vel s t).y t := by
  simp only [at_y]; exact cubic_deriv _ _ _ _ t

theorem arcLen_eq (s : Poly4 ℝ) : arcLen s = ∫ t in (0 : ℝ)..1, nrm (vel s t) := by
  simp only [arcLen, (has_x s _).deriv, (has_y s _).deriv]; rfl

theorem cont_vx (s : Poly4 ℝ) : Continuous fun t => (vel s t).x := by simp only [vel]; fun_prop
theorem cont_vy (s : Poly4 ℝ) : Continuous fun t => (vel s t).y := by simp only [vel]; fun_prop

theorem cont_speed (s : Poly4 ℝ) : Continuous fun t => nrm (vel s t) := by
  have := cont_vx s
  have := cont_vy s
  simp only [nrm]; fun_prop

/-- The velocity of a part. -/
theorem vel_part {P S : Poly4 ℝ} {a b : ℝ} (h : ∀ u, P.at' u = S.at' (a + u * (b - a))) (u : ℝ) :
    (vel P u).x = (b - a) * (vel S (a + u * (b - a))).x ∧ (vel P u).y = (b - a) * (vel S (a + u * (b - a))).y := by
  have ha : HasDerivAt (fun u : ℝ => a + u * (b - a)) (b - a) u := by
    have := ((hasDerivAt_id u).mul_const (b - a)).const_add a
    simpa using this
  constructor
  · have h1 := (has_x S (a + u * (b - a))).comp u ha
    have h2 := has_x P u
    simp only [h] at h2
    rw [h2.unique h1, mul_comm]
  · have h1 := (has_y S (a + u * (b - a))).comp u ha
    have h2 := has_y P u
    simp only [h] at h2
    rw [h2.unique h1, mul_comm]

/-- A quantity of segments which is the integral of something along them that does not depend on how they are run through. -/
structure Along (Q : Poly4 ℝ → ℝ) where
  G : Poly4 ℝ → ℝ → ℝ
  cont : ∀ s, Continuous (G s)
  eq : ∀ s, Q s = ∫ t in (0 : ℝ)..1, G s t
  part : ∀ {P S : Poly4 ℝ} {a b : ℝ}, a ≤ b → (∀ u, P.at' u = S.at' (a + u * (b - a))) → ∀ u, G P u = (b - a) * G S (a + u * (b - a))

def alongLen : Along arcLen where
  G s t := nrm (vel s t)
  cont := cont_speed
  eq := arcLen_eq
  part {P S a b} hab h u := by
    obtain ⟨h1, h2⟩ := vel_part h u
    have : vel P u = ⟨(b - a) * (vel S (a + u * (b - a))).x, (b - a) * (vel S (a + u * (b - a))).y⟩ := by
      ext <;> assumption
    rw [this, nrm_smul, abs_of_nonneg (by linarith)]

def alongArea : Along swept where
  G s t := ((s.at' t).x * (vel s t).y - (s.at' t).y * (vel s t).x) / 2
  cont s := by
    have := cont_vx s
    have := cont_vy s
    simp only [at_x, at_y]
    fun_prop
  eq s := by
    rw [swept]
    simp only [(has_x s _).deriv, (has_y s _).deriv]
    rw [intervalIntegral.integral_div]
  part {P S a b} _ h u := by
    obtain ⟨h1, h2⟩ := vel_part h u
    rw [h1, h2, h u]; ring

section
variable {Q : Poly4 ℝ → ℝ} (A : Along Q)
include A

theorem Along.integrable (s : Poly4 ℝ) (a b : ℝ) : IntervalIntegrable (A.G s) MeasureTheory.volume a b :=
  (A.cont s).intervalIntegrable a b

theorem Along.of_part {P S : Poly4 ℝ} {a b : ℝ} (hab : a ≤ b) (h : ∀ u, P.at' u = S.at' (a + u * (b - a))) :
    Q P = ∫ t in a..b, A.G S t := by
  have hp : ∀ u, A.G P u = (b - a) * A.G S (a + (b - a) * u) := fun u => by rw [A.part hab h u, mul_comm u]
  rw [A.eq P]
  simp only [hp]
  rw [intervalIntegral.integral_const_mul, ← smul_eq_mul, intervalIntegral.smul_integral_comp_add_mul]
  simp

theorem Along.of_pieces (S : Poly4 ℝ) : ∀ (ts : List ℝ) (t : ℝ) (pieces : List (Poly4 ℝ)), (t :: ts).Pairwise (· ≤ ·) →
    (∀ s ∈ t :: ts, s ≤ 1) →
    List.Forall₂ (fun (ab : ℝ × ℝ) P => ∀ u, P.at' u = S.at' (ab.1 + u * (ab.2 - ab.1))) ((t :: ts).zip (ts ++ [1])) pieces →
    (pieces.map Q).sum = ∫ u in t..1, A.G S u
  | [], t, pieces, hs, h1, hf => by
    cases hf with
    | cons h hn =>
      cases hn
      simpa using A.of_part (h1 t (by simp)) h
  | t' :: ts, t, pieces, hs, h1, hf => by
    have hs' := List.pairwise_cons.1 hs
    cases hf with
    | @cons _ P _ ps h hn =>
      rw [List.map_cons, List.sum_cons, Along.of_pieces S ts t' ps hs'.2 (fun s hs => h1 s (List.mem_cons_of_mem _ hs)) hn,
        A.of_part (hs'.1 t' (by simp)) h, intervalIntegral.integral_add_adjacent_intervals (A.integrable S _ _) (A.integrable S _ _)]

/-- Two parts make the whole. -/
theorem Along.two {S L R : Poly4 ℝ} {t : ℝ} (t0 : 0 ≤ t) (t1 : t ≤ 1) (h : ∀ u, L.at' u = S.at' (t * u) ∧ R.at' u = S.at' (t + (1 - t) * u)) :
    Q L + Q R = Q S := by
  have := A.of_pieces S [t] 0 [L, R] (by simp [t0]) (by simp [t1])
    (by
      refine .cons (fun u => ?_) (.cons (fun u => ?_) .nil)
      · rw [(h u).1]; congr 1; simp; ring
      · rw [(h u).2]; congr 1; simp; ring)
  rw [← A.eq S] at this
  simpa using this

end

/-! ### Chords -/

theorem delta_eq (s : Poly4 ℝ) (w : Pt ℝ) (a b : ℝ) :
    w.x * ((s.at' b).x - (s.at' a).x) + w.y * ((s.at' b).y - (s.at' a).y) =
      ∫ t in a..b, (w.x * (vel s t).x + w.y * (vel s t).y) := by
  have hd : ∀ t ∈ Set.uIcc a b, HasDerivAt (fun u => w.x * (s.at' u).x + w.y * (s.at' u).y) (w.x * (vel s t).x + w.y * (vel s t).y) t :=
    fun t _ => ((has_x s t).const_mul w.x).add ((has_y s t).const_mul w.y)
  rw [intervalIntegral.integral_eq_sub_of_hasDerivAt hd]
  · ring
  · have := cont_vx s
    have := cont_vy s
    exact (by fun_prop : Continuous fun t => w.x * (vel s t).x + w.y * (vel s t).y).intervalIntegrable a b

theorem chord_le (s : Poly4 ℝ) {a b : ℝ} (hab : a ≤ b) : distPt (s.at' a) (s.at' b) ≤ ∫ t in a..b, nrm (vel s t) := by
  obtain ⟨w, hw, e⟩ := nrm_dir ⟨(s.at' b).x - (s.at' a).x, (s.at' b).y - (s.at' a).y⟩
  rw [distPt_nrm, e, delta_eq]
  have := cont_vx s
  have := cont_vy s
  refine intervalIntegral.integral_mono_on hab
    ((by fun_prop : Continuous fun t => w.x * (vel s t).x + w.y * (vel s t).y).intervalIntegrable a b)
    ((cont_speed s).intervalIntegrable a b) fun t _ => ?_
  have := dot_le w (vel s t)
  rwa [hw, one_mul] at this

theorem bend_bounds (s : Poly4 ℝ) {v : ℝ} (v0 : 0 ≤ v) (v1 : v ≤ 1) :
    nrm ⟨(1 - v) * (s.a.x - 2 * s.b.x + s.c.x) + v * (s.b.x - 2 * s.c.x + s.d.x),
      (1 - v) * (s.a.y - 2 * s.b.y + s.c.y) + v * (s.b.y - 2 * s.c.y + s.d.y)⟩ ≤ bend s := by
  have h1 : nrm ⟨s.a.x - 2 * s.b.x + s.c.x, s.a.y - 2 * s.b.y + s.c.y⟩ ≤ bend s := le_max_left _ _
  have h2 : nrm ⟨s.b.x - 2 * s.c.x + s.d.x, s.b.y - 2 * s.c.y + s.d.y⟩ ≤ bend s := le_max_right _ _
  refine (nrm_add ⟨(1 - v) * (s.a.x - 2 * s.b.x + s.c.x), (1 - v) * (s.a.y - 2 * s.b.y + s.c.y)⟩
    ⟨v * (s.b.x - 2 * s.c.x + s.d.x), v * (s.b.y - 2 * s.c.y + s.d.y)⟩).trans ?_
  have e1 := nrm_smul (1 - v) ⟨s.a.x - 2 * s.b.x + s.c.x, s.a.y - 2 * s.b.y + s.c.y⟩
  have e2 := nrm_smul v ⟨s.b.x - 2 * s.c.x + s.d.x, s.b.y - 2 * s.c.y + s.d.y⟩
  simp only at e1 e2
  rw [e1, e2, abs_of_nonneg v0, abs_of_nonneg (by linarith)]
  nlinarith

theorem vel_change (s : Poly4 ℝ) {t m : ℝ} (t0 : 0 ≤ t) (t1 : t ≤ 1) (m0 : 0 ≤ m) (m1 : m ≤ 1) :
    nrm ⟨(vel s t).x - (vel s m).x, (vel s t).y - (vel s m).y⟩ ≤ 6 * bend s * |t - m| := by
  have e := nrm_smul (6 * (t - m))
    ⟨(1 - (t + m) / 2) * (s.a.x - 2 * s.b.x + s.c.x) + (t + m) / 2 * (s.b.x - 2 * s.c.x + s.d.x),
      (1 - (t + m) / 2) * (s.a.y - 2 * s.b.y + s.c.y) + (t + m) / 2 * (s.b.y - 2 * s.c.y + s.d.y)⟩
  have h : (⟨(vel s t).x - (vel s m).x, (vel s t).y - (vel s m).y⟩ : Pt ℝ) =
      ⟨6 * (t - m) * ((1 - (t + m) / 2) * (s.a.x - 2 * s.b.x + s.c.x) + (t + m) / 2 * (s.b.x - 2 * s.c.x + s.d.x)),
        6 * (t - m) * ((1 - (t + m) / 2) * (s.a.y - 2 * s.b.y + s.c.y) + (t + m) / 2 * (s.b.y - 2 * s.c.y + s.d.y))⟩ := by
    ext <;> simp only [vel, Poly4.c1, Poly4.c2, Poly4.c3] <;> ring
  rw [h, e, abs_mul, abs_of_nonneg (by norm_num : (0 : ℝ) ≤ 6)]
  have := bend_bounds s (v := (t + m) / 2) (by linarith) (by linarith)
  nlinarith [abs_nonneg (t - m), mul_le_mul_of_nonneg_left this (abs_nonneg (t - m))]

/-- The arc is not much longer than its chord. -/
theorem arc_le (s : Poly4 ℝ) {a b : ℝ} (a0 : 0 ≤ a) (hab : a ≤ b) (b1 : b ≤ 1) :
    (∫ t in a..b, nrm (vel s t)) ≤ distPt (s.at' a) (s.at' b) + 6 * bend s * (b - a) ^ 2 := by
  set m := (a + b) / 2 with hm
  have hb : 0 ≤ bend s := le_max_of_le_left (Real.sqrt_nonneg _)
  have hnear : ∀ t ∈ Set.Icc a b, nrm ⟨(vel s t).x - (vel s m).x, (vel s t).y - (vel s m).y⟩ ≤ 3 * bend s * (b - a) := by
    intro t ht
    refine (vel_change s (by linarith [ht.1]) (by linarith [ht.2]) (by linarith) (by linarith)).trans ?_
    have : |t - m| ≤ (b - a) / 2 := abs_le.2 ⟨by linarith [ht.1], by linarith [ht.2]⟩
    nlinarith [mul_le_mul_of_nonneg_left this hb]
  have h1 : (∫ t in a..b, nrm (vel s t)) ≤ ∫ _ in a..b, (nrm (vel s m) + 3 * bend s * (b - a)) := by
    refine intervalIntegral.integral_mono_on hab ((cont_speed s).intervalIntegrable a b) (continuous_const.intervalIntegrable a b)
      fun t ht => ?_
    have := nrm_add (vel s m) ⟨(vel s t).x - (vel s m).x, (vel s t).y - (vel s m).y⟩
    simp only [add_sub_cancel] at this
    exact this.trans (by linarith [hnear t ht])
  rw [intervalIntegral.integral_const, smul_eq_mul] at h1
  obtain ⟨w, hw, e⟩ := nrm_dir (vel s m)
  have h2 : (b - a) * nrm (vel s m) ≤ distPt (s.at' a) (s.at' b) + (b - a) * (3 * bend s * (b - a)) := by
    have k1 : (∫ _ in a..b, (nrm (vel s m) - 3 * bend s * (b - a))) ≤ ∫ t in a..b, (w.x * (vel s t).x + w.y * (vel s t).y) := by
      have := cont_vx s
      have := cont_vy s
      refine intervalIntegral.integral_mono_on hab (continuous_const.intervalIntegrable a b)
        ((by fun_prop : Continuous fun t => w.x * (vel s t).x + w.y * (vel s t).y).intervalIntegrable a b) fun t ht => ?_
      have := dot_le ⟨-w.x, -w.y⟩ ⟨(vel s t).x - (vel s m).x, (vel s t).y - (vel s m).y⟩
      have hw' : nrm ⟨-w.x, -w.y⟩ = 1 := by rw [← hw]; simp [nrm]
      rw [hw', one_mul] at this
      simp only at this
      rw [e]
      linarith [hnear t ht]
    rw [← delta_eq, intervalIntegral.integral_const, smul_eq_mul] at k1
    have k2 := dot_le w ⟨(s.at' b).x - (s.at' a).x, (s.at' b).y - (s.at' a).y⟩
    rw [hw, one_mul, ← distPt_nrm] at k2
    simp only at k2
    linarith
  nlinarith

theorem polygon_ge (s : Poly4 ℝ) : arcLen s ≤ distPt s.a s.b + distPt s.b s.c + distPt s.c s.d := by
  simp only [distPt_nrm]
  set u : Pt ℝ := ⟨s.b.x - s.a.x, s.b.y - s.a.y⟩ with hu
  set v : Pt ℝ := ⟨s.c.x - s.b.x, s.c.y - s.b.y⟩ with hv
  set w : Pt ℝ := ⟨s.d.x - s.c.x, s.d.y - s.c.y⟩ with hw
  have e := quintic_integral (3 * nrm u) (6 * (nrm v - nrm u)) (3 * (nrm u - 2 * nrm v + nrm w)) 0 0
  rw [arcLen_eq]
  have h : (∫ t in (0 : ℝ)..1, nrm (vel s t)) ≤ ∫ t in (0 : ℝ)..1, (3 * nrm u + 6 * (nrm v - nrm u) * t +
      3 * (nrm u - 2 * nrm v + nrm w) * t ^ 2 + 0 * t ^ 3 + 0 * t ^ 4) := by
    refine intervalIntegral.integral_mono_on zero_le_one ((cont_speed s).intervalIntegrable 0 1)
      ((by fun_prop : Continuous fun t : ℝ => 3 * nrm u + 6 * (nrm v - nrm u) * t +
        3 * (nrm u - 2 * nrm v + nrm w) * t ^ 2 + 0 * t ^ 3 + 0 * t ^ 4).intervalIntegrable 0 1) fun t ht => ?_
    have k : vel s t = ⟨3 * (1 - t) ^ 2 * u.x + (6 * t * (1 - t) * v.x + 3 * t ^ 2 * w.x),
        3 * (1 - t) ^ 2 * u.y + (6 * t * (1 - t) * v.y + 3 * t ^ 2 * w.y)⟩ := by
      ext <;> simp only [vel, Poly4.c1, Poly4.c2, Poly4.c3, hu, hv, hw] <;> ring
    rw [k]
    have a1 := nrm_add ⟨3 * (1 - t) ^ 2 * u.x, 3 * (1 - t) ^ 2 * u.y⟩
      ⟨6 * t * (1 - t) * v.x + 3 * t ^ 2 * w.x, 6 * t * (1 - t) * v.y + 3 * t ^ 2 * w.y⟩
    have a2 := nrm_add ⟨6 * t * (1 - t) * v.x, 6 * t * (1 - t) * v.y⟩ ⟨3 * t ^ 2 * w.x, 3 * t ^ 2 * w.y⟩
    have t0 : 0 ≤ t := ht.1
    have t1 : 0 ≤ 1 - t := by linarith [ht.2]
    rw [nrm_smul, abs_of_nonneg (by positivity)] at a1
    rw [nrm_smul, nrm_smul, abs_of_nonneg (by positivity), abs_of_nonneg (by positivity)] at a2
    simp only at a1 a2
    nlinarith
  rw [e] at h
  linarith

/-! ### Polylines -/

theorem lineLen_glue : ∀ (p q : List (Pt ℝ)) (b : Pt ℝ), lineLen (p ++ [b] ++ q) = lineLen (p ++ [b]) + lineLen (b :: q)
  | [], q, b => by simp [lineLen]
  | [a], q, b => by simp [lineLen]
  | a :: a' :: p, q, b => by
    have := lineLen_glue (a' :: p) q b
    simp only [List.cons_append, lineLen] at this ⊢
    rw [this]; ring

theorem lineLen_range (g : ℕ → Pt ℝ) (k : ℕ) :
    lineLen ((List.range (k + 1)).map g) = ((List.range k).map fun i => distPt (g i) (g (i + 1))).sum := by
  induction k generalizing g with
  | zero => simp [lineLen]
  | succ k ih =>
    have := ih (fun i => g (i + 1))
    rw [List.range_succ_eq_map] at this
    rw [List.range_succ_eq_map (n := k + 1), List.range_succ_eq_map (n := k)]
    simp only [List.map_cons, List.map_map, Function.comp_def, Nat.succ_eq_add_one, List.sum_cons, lineLen] at this ⊢
    rw [this]

theorem lineLen_tails {n : ℕ} (hn : 1 ≤ n) : ∀ (ss : List (Poly4 ℝ)) (b : Pt ℝ), (∀ s, ss[0]? = some s → b = s.a) →
    (∀ k s s', ss[k]? = some s → ss[k + 1]? = some s' → s.d = s'.a) →
    lineLen (b :: ss.flatMap fun s => (samples n s).tail) = (ss.map fun s => lineLen (samples n s)).sum
  | [], b, _, _ => by simp [lineLen]
  | s :: ss, b, h0, hj => by
    obtain ⟨⟨q, hq⟩, r, hr⟩ := samples_ends hn s
    have ih := lineLen_tails hn ss s.d (fun s' hs' => hj 0 s s' rfl hs') (fun k x y hx hy => hj (k + 1) x y hx hy)
    have e : b :: (s :: ss).flatMap (fun s => (samples n s).tail) = r ++ [s.d] ++ ss.flatMap fun s => (samples n s).tail := by
      rw [← hr, h0 s rfl, List.flatMap_cons, hq]; rfl
    rw [e, lineLen_glue, ih, ← hr, List.map_cons, List.sum_cons]

theorem lineLen_pathOf {n : ℕ} (hn : 1 ≤ n) (ss : List (Poly4 ℝ))
    (hj : ∀ k s s', ss[k]? = some s → ss[k + 1]? = some s' → s.d = s'.a) :
    lineLen (pathOf n ss) = (ss.map fun s => lineLen (samples n s)).sum := by
  cases ss with
  | nil => simp [pathOf, lineLen]
  | cons s ss =>
    rw [← lineLen_tails hn (s :: ss) s.a (fun s' h => by cases h; rfl) hj]
    obtain ⟨⟨q, hq⟩, -⟩ := samples_ends hn s
    congr 1
    rw [List.flatMap_cons, hq, List.tail_cons, ← List.cons_append, ← hq]
    rfl

theorem arc_steps (s : Poly4 ℝ) (n : ℕ) : ∀ k : ℕ,
    ((List.range k).map fun (i : ℕ) => ∫ t in ((i : ℝ) / n)..(((i + 1 : ℕ) : ℝ) / n), nrm (vel s t)).sum = ∫ t in (0 : ℝ)..((k : ℝ) / n), nrm (vel s t)
  | 0 => by simp
  | k + 1 => by
    rw [List.range_succ, List.map_append, List.sum_append, arc_steps s n k]
    simp only [List.map_cons, List.map_nil, List.sum_cons, List.sum_nil, add_zero]
    rw [intervalIntegral.integral_add_adjacent_intervals ((cont_speed s).intervalIntegrable _ _) ((cont_speed s).intervalIntegrable _ _)]

theorem samples_len {n : ℕ} (hn : 1 ≤ n) (s : Poly4 ℝ) :
    lineLen (samples n s) ≤ arcLen s ∧ arcLen s ≤ lineLen (samples n s) + 6 * bend s / n := by
  have hp : (0 : ℝ) < n := by exact_mod_cast hn
  have hA := arc_steps s n n
  rw [div_self hp.ne', ← arcLen_eq] at hA
  rw [samples, lineLen_range, ← hA]
  have step : ∀ i : ℕ, (i : ℝ) / n ≤ ((i + 1 : ℕ) : ℝ) / n ∧ ((i + 1 : ℕ) : ℝ) / n - (i : ℝ) / n = 1 / n := fun i => by
    push_cast
    exact ⟨by gcongr; linarith, by ring⟩
  constructor
  · exact List.sum_le_sum fun i _ => chord_le s (step i).1
  · have : ((List.range n).map fun (i : ℕ) => ∫ t in ((i : ℝ) / n)..(((i + 1 : ℕ) : ℝ) / n), nrm (vel s t)).sum ≤
        ((List.range n).map fun (i : ℕ) => (distPt (s.at' ((i : ℝ) / n)) (s.at' (((i + 1 : ℕ) : ℝ) / n)) + 6 * bend s * (1 / n) ^ 2)).sum := by
      refine List.sum_le_sum fun i hi => ?_
      have hi' : i + 1 ≤ n := List.mem_range.1 hi
      have := arc_le s (a := (i : ℝ) / n) (b := ((i + 1 : ℕ) : ℝ) / n) (by positivity) (step i).1
        ((div_le_one hp).2 (by exact_mod_cast hi'))
      rwa [(step i).2] at this
    refine this.trans (le_of_eq ?_)
    rw [List.sum_map_add]
    simp only [List.map_const', List.sum_replicate, List.length_range, nsmul_eq_mul]
    field_simp

/-! ### Transforms, reversal -/

theorem vel_map (m : Mat3 ℝ) (s : Poly4 ℝ) (t : ℝ) :
    nrm (vel (s.map m.apply) t) = distPt (m.apply ⟨0, 0⟩) (m.apply (vel s t)) := by
  rw [distPt_nrm]
  congr 1
  ext <;> simp only [vel, Poly4.c1, Poly4.c2, Poly4.c3, Poly4.map, Mat3.apply] <;> ring

theorem vel_rev (s : Poly4 ℝ) (t : ℝ) : nrm (vel s.rev t) = nrm (vel s (1 - t)) := by
  rw [nrm, nrm]
  congr 1
  simp only [vel, Poly4.c1, Poly4.c2, Poly4.c3, Poly4.rev]; ring

theorem arcLen_rev (s : Poly4 ℝ) : arcLen s.rev = arcLen s := by
  rw [arcLen_eq, arcLen_eq]
  simp only [vel_rev]
  rw [intervalIntegral.integral_comp_sub_left (fun t => nrm (vel s t))]
  simp

theorem swept_rev (s : Poly4 ℝ) : swept s.rev = -swept s := by
  rw [swept_eq, swept_eq]
  simp only [cr, Poly4.c1, Poly4.c2, Poly4.c3, Poly4.rev]; ring

end X7.Approx
