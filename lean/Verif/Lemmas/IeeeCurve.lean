import Verif.Lemmas.FlBezier
import Verif.Props.IeeeLine
import Verif.Spec.IeeeCurve

/-! Errors of sums of products with floats of finite range: relative ones and those of numbers that are too small. -/

noncomputable section

namespace X7.Fmt
open NB
variable {F : Fmt}

theorem upos : 0 < F.u := by unfold u; positivity
theorem eta_pos' : 0 < F.eta := F.eta_pos
theorem one_le_u : 1 ≤ 1 + F.u := by linarith [F.upos]

/-- `x'` is computed for `x` with `n` roundings; `S` bounds the terms of the exact value, `W` those of the computed one before the
`n` roundings. -/
def NearW (F : Fmt) (n : ℕ) (x' x S W : ℝ) : Prop := |x| ≤ S ∧ |x' - x| ≤ (1 + F.u) ^ n * W - S

namespace NearW
variable {n m : ℕ} {x x' y y' S T W V : ℝ}

theorem of_le (h : |x| ≤ S) : F.NearW 0 x x S S := ⟨h, by simp⟩

theorem size (h : F.NearW n x' x S W) : |x'| ≤ (1 + F.u) ^ n * W := by
  have := abs_sub_abs_le_abs_sub x' x
  linarith [h.1, h.2]

theorem nonneg (h : F.NearW n x' x S W) : 0 ≤ W := by
  have h1 := (abs_nonneg _).trans h.size
  have h2 : (0 : ℝ) < (1 + F.u) ^ n := by have := F.upos; positivity
  nlinarith [h1, h2]

theorem mono (h : F.NearW n x' x S W) (hn : n ≤ m) (hW : W ≤ V) : F.NearW m x' x S V := by
  refine ⟨h.1, h.2.trans ?_⟩
  have h1 : (1 + F.u) ^ n ≤ (1 + F.u) ^ m := pow_le_pow_right₀ F.one_le_u hn
  have h2 := h.nonneg
  have h3 : (0 : ℝ) < (1 + F.u) ^ m := by have := F.upos; positivity
  have : (1 + F.u) ^ n * W ≤ (1 + F.u) ^ m * V := mul_le_mul h1 hW h2 h3.le
  linarith

theorem rnd (h : F.NearW n x' x S W) : F.NearW (n + 1) (F.rnd x') x S (W + F.eta / 2) := by
  refine ⟨h.1, ?_⟩
  have h1 := F.rnd_err x'
  have h2 := h.size
  have h3 := h.2
  have h4 : |F.rnd x' - x| ≤ |F.rnd x' - x'| + |x' - x| := abs_sub_le _ _ _
  have hu := F.upos
  have h5 : F.u * |x'| ≤ F.u * ((1 + F.u) ^ n * W) := by gcongr
  have h6 : 1 ≤ (1 + F.u) ^ (n + 1) := one_le_pow₀ F.one_le_u
  have h7 : F.eta / 2 ≤ (1 + F.u) ^ (n + 1) * (F.eta / 2) := by
    have := F.eta_pos'
    nlinarith
  change |F.rnd x' - x'| ≤ F.u * |x'| + F.eta / 2 at h1
  rw [mul_add]
  have h8 : (1 + F.u) ^ (n + 1) * W = (1 + F.u) ^ n * W + F.u * ((1 + F.u) ^ n * W) := by ring
  linarith

theorem add (hx : F.NearW n x' x S W) (hy : F.NearW m y' y T V) : F.NearW (max n m) (x' + y') (x + y) (S + T) (W + V) := by
  have h1 := (hx.mono (le_max_left n m) le_rfl).2
  have h2 := (hy.mono (le_max_right n m) le_rfl).2
  refine ⟨(abs_add_le _ _).trans (add_le_add hx.1 hy.1), ?_⟩
  have : |x' + y' - (x + y)| ≤ |x' - x| + |y' - y| := by
    rw [show x' + y' - (x + y) = (x' - x) + (y' - y) by ring]; exact abs_add_le _ _
  rw [mul_add]; linarith

theorem neg (hx : F.NearW n x' x S W) : F.NearW n (-x') (-x) S W :=
  ⟨by rw [abs_neg]; exact hx.1, by rw [show -x' - -x = -(x' - x) by ring, abs_neg]; exact hx.2⟩

theorem sub (hx : F.NearW n x' x S W) (hy : F.NearW m y' y T V) : F.NearW (max n m) (x' - y') (x - y) (S + T) (W + V) := by
  simpa only [sub_eq_add_neg] using hx.add hy.neg

theorem mul (hx : F.NearW n x' x S W) (hy : F.NearW m y' y T V) : F.NearW (n + m) (x' * y') (x * y) (S * T) (W * V) := by
  have S0 : 0 ≤ S := (abs_nonneg _).trans hx.1
  have T0 : 0 ≤ T := (abs_nonneg _).trans hy.1
  refine ⟨by rw [abs_mul]; exact mul_le_mul hx.1 hy.1 (abs_nonneg _) S0, ?_⟩
  have h1 : |x' * y' - x * y| ≤ |x' - x| * |y' - y| + |x' - x| * |y| + |x| * |y' - y| := by
    rw [show x' * y' - x * y = (x' - x) * (y' - y) + (x' - x) * y + x * (y' - y) by ring]
    refine (abs_add_le _ _).trans ?_
    gcongr
    · refine (abs_add_le _ _).trans ?_
      rw [abs_mul, abs_mul]
    · rw [abs_mul]
  have hx2 := hx.2
  have hy2 := hy.2
  have a0 := abs_nonneg (x' - x)
  have b0 := abs_nonneg (y' - y)
  set A := (1 + F.u) ^ n * W
  set B := (1 + F.u) ^ m * V
  have e : (1 + F.u) ^ (n + m) * (W * V) = A * B := by simp only [A, B, pow_add]; ring
  rw [e]
  have h2 : |x' - x| * |y' - y| ≤ (A - S) * (B - T) := mul_le_mul hx2 hy2 b0 (a0.trans hx2)
  have h3 : |x' - x| * |y| ≤ (A - S) * T := mul_le_mul hx2 hy.1 (abs_nonneg _) (a0.trans hx2)
  have h4 : |x| * |y' - y| ≤ S * (B - T) := mul_le_mul hx.1 hy2 b0 S0
  nlinarith

theorem congr (h : F.NearW n x' x S W) {z T V : ℝ} {m : ℕ} (hz : x = z) (hS : S = T) (hn : n ≤ m) (hW : W ≤ V) :
    F.NearW m x' z T V := by
  subst hz; subst hS; exact h.mono hn hW

end NearW

/-! ### Finite results -/

theorem add_fin_ok {x y : ℝ} (h : |x + y| ≤ F.maxf) : F.add (fin x) (fin y) = fin (F.rnd (x + y)) := by
  rw [add_fin, F.toF_in h]

theorem sub_fin_ok {x y : ℝ} (h : |x - y| ≤ F.maxf) : F.sub (fin x) (fin y) = fin (F.rnd (x - y)) := by
  rw [sub_fin, F.toF_in h]

theorem mul_fin_ok {x y : ℝ} (h : |x * y| ≤ F.maxf) : F.mul (fin x) (fin y) = fin (F.rnd (x * y)) := by
  rw [mul_fin, F.toF_in h]

theorem fl_one (h1 : F.HasOne) : F.IsFl 1 :=
  ⟨1, 0, by simp; exact one_lt_pow₀ (by norm_num) (by have := F.hp; omega), h1.1, h1.2, by simp⟩

theorem fl_zero : F.IsFl 0 := ⟨0, F.emin, by simp, le_rfl, F.he, by simp⟩

theorem eta_le_one (h1 : F.HasOne) : F.eta ≤ 1 := by
  unfold eta
  exact (zpow_le_zpow_right₀ (by norm_num) h1.1).trans (by simp)

theorem three_le_maxf (h1 : F.HasOne) : 3 ≤ F.maxf := by
  unfold maxf
  have := F.two_p
  have h2 : (1 : ℝ) ≤ 2 ^ F.emax := one_le_zpow₀ (by norm_num) h1.2
  norm_num at this
  nlinarith

/-- Rounding keeps the unit interval. -/
theorem rnd_unit (h1 : F.HasOne) {x : ℝ} (h : 0 ≤ x ∧ x ≤ 1) : 0 ≤ F.rnd x ∧ F.rnd x ≤ 1 := by
  refine ⟨F.rnd_nonneg h.1, ?_⟩
  have := F.rnd_mono h.2
  rwa [F.rnd_fl (fl_one h1)] at this

theorem unit_mul {x y : ℝ} (hx : 0 ≤ x ∧ x ≤ 1) (hy : 0 ≤ y ∧ y ≤ 1) : 0 ≤ x * y ∧ x * y ≤ 1 :=
  ⟨mul_nonneg hx.1 hy.1, mul_le_one₀ hx.2 hy.1 hy.2⟩

theorem unit_fin (h1 : F.HasOne) {x : ℝ} (h : 0 ≤ x ∧ x ≤ 1) : |x| ≤ F.maxf := by
  rw [abs_of_nonneg h.1]; linarith [three_le_maxf h1]

/-- The real number that `bezSum` rounds its way to. -/
def sumR (F : Fmt) (s3 s2t st2 t3 a b c d : ℝ) : ℝ :=
  F.rnd (F.rnd (F.rnd (F.rnd (s3 * a) + F.rnd (F.rnd (3 * s2t) * b)) + F.rnd (F.rnd (3 * st2) * c)) + F.rnd (t3 * d))

/-- The coordinate of a sample. -/
def bezR (F : Fmt) (a b c d t : ℝ) : ℝ :=
  let s := F.rnd (1 - t)
  F.sumR (F.rnd (s * F.rnd (s * s))) (F.rnd (F.rnd (s * s) * t)) (F.rnd (s * F.rnd (t * t))) (F.rnd (t * F.rnd (t * t))) a b c d

theorem bezR_near (h1 : F.HasOne) {k : ℕ} {t a a' b b' c c' d d' S V : ℝ} (t0 : 0 ≤ t) (t1 : t ≤ 1)
    (ha : F.NearW k a' a S V) (hb : F.NearW k b' b S V) (hc : F.NearW k c' c S V) (hd : F.NearW k d' d S V)
    (hm : F.curveTop k V ≤ F.maxf) :
    F.NearW (k + 9) (F.bezR a' b' c' d' t)
      ((1 - t) ^ 3 * a + 3 * (1 - t) ^ 2 * t * b + 3 * (1 - t) * t ^ 2 * c + t ^ 3 * d) S ((1 + 11 * F.eta) * V + 4 * F.eta) ∧
    (let s := F.sub (fin 1) (fin t)
     F.bezSum (F.mul s (F.mul s s)) (F.mul (F.mul s s) (fin t)) (F.mul s (F.mul (fin t) (fin t)))
      (F.mul (fin t) (F.mul (fin t) (fin t))) (fin a') (fin b') (fin c') (fin d')) = fin (F.bezR a' b' c' d' t) := by
  have V0 := ha.nonneg
  have S0 : 0 ≤ S := (abs_nonneg _).trans ha.1
  obtain ⟨h, hh⟩ : ∃ h, F.eta / 2 = h := ⟨_, rfl⟩
  have h0 : 0 < h := by have := F.eta_pos'; rw [← hh]; positivity
  have hle : h ≤ 1 / 2 := by have := eta_le_one h1; linarith
  have ht : F.NearW 0 t t t t := .of_le (by rw [abs_of_nonneg t0])
  have hs : F.NearW 1 (F.rnd (1 - t)) (1 - t) (1 - t) ((1 - t) + h) := by
    rw [← hh]; exact (NearW.of_le (by rw [abs_of_nonneg (by linarith)])).rnd
  have h3 : F.NearW 0 (3 : ℝ) 3 3 3 := .of_le (by norm_num)
  have s2 := (hs.mul hs).rnd
  have s3 := (hs.mul s2).rnd
  have s2t := (s2.mul ht).rnd
  have t2 := (ht.mul ht).rnd
  have st2 := (hs.mul t2).rnd
  have t3 := (ht.mul t2).rnd
  have p1 := s3.mul ha
  have p2' := (h3.mul s2t).rnd
  have p2 := p2'.mul hb
  have p3' := (h3.mul st2).rnd
  have p3 := p3'.mul hc
  have p4 := t3.mul hd
  have e1 := p1.rnd
  have e2 := p2.rnd
  have e3 := p3.rnd
  have e4 := p4.rnd
  have a1 := e1.add e2
  have a2 := a1.rnd.add e3
  have a3 := a2.rnd.add e4
  have fin' := a3.rnd
  simp only [hh] at s2 s3 s2t t2 st2 t3 p1 p2' p2 p3' p3 p4 e1 e2 e3 e4 a1 a2 a3 fin'
  set A := (1 - t + h) * ((1 - t + h) * (1 - t + h) + h) + h with hA
  set B := ((1 - t + h) * (1 - t + h) + h) * t + h with hB
  set C := (1 - t + h) * (t * t + h) + h with hC
  set D := t * (t * t + h) + h with hD
  have A0 : 0 ≤ A := s3.nonneg
  have B0 : 0 ≤ B := s2t.nonneg
  have C0 : 0 ≤ C := st2.nonneg
  have D0 : 0 ≤ D := t3.nonneg
  have sum : A + (3 * B + h) + (3 * C + h) + D ≤ 1 + 22 * h := by
    have : A + (3 * B + h) + (3 * C + h) + D = (1 + h) ^ 3 + h * (14 + 4 * h) := by
      simp only [hA, hB, hC, hD]; ring
    rw [this]
    have q : h * h ≤ 1 / 2 * h := mul_le_mul_of_nonneg_right hle h0.le
    have q' : h * (h * h) ≤ h * (1 / 2 * h) := mul_le_mul_of_nonneg_left q h0.le
    nlinarith
  have total : A * V + h + ((3 * B + h) * V + h) + h + ((3 * C + h) * V + h) + h + (D * V + h) + h ≤ (1 + 11 * F.eta) * V + 4 * F.eta := by
    have := mul_le_mul_of_nonneg_right sum V0
    have e : F.eta = 2 * h := by rw [← hh]; ring
    rw [e]; nlinarith
  -- every result is below the largest one
  have below : ∀ {n : ℕ} {x' x S' W : ℝ}, F.NearW n x' x S' W → n ≤ k + 9 → W ≤ (1 + 11 * F.eta) * V + 4 * F.eta → |x'| ≤ F.maxf := by
    intro n x' x S' W hx hn hW
    exact ((hx.mono hn hW).size).trans hm
  have AV : 0 ≤ A * V := mul_nonneg A0 V0
  have BV : 0 ≤ (3 * B + h) * V := by positivity
  have CV : 0 ≤ (3 * C + h) * V := by positivity
  have DV : 0 ≤ D * V := mul_nonneg D0 V0
  constructor
  · exact fin'.congr (by ring) (by ring) (by omega) total
  · have us : 0 ≤ F.rnd (1 - t) ∧ F.rnd (1 - t) ≤ 1 := rnd_unit h1 ⟨by linarith, by linarith⟩
    have ut : 0 ≤ t ∧ t ≤ 1 := ⟨t0, t1⟩
    have us2 := rnd_unit h1 (unit_mul us us)
    have ut2 := rnd_unit h1 (unit_mul ut ut)
    have us2t := rnd_unit h1 (unit_mul us2 ut)
    have ust2 := rnd_unit h1 (unit_mul us ut2)
    have three : ∀ {x : ℝ}, 0 ≤ x ∧ x ≤ 1 → |3 * x| ≤ F.maxf := by
      intro x hx
      rw [abs_of_nonneg (by linarith [hx.1])]; linarith [three_le_maxf h1, hx.2]
    dsimp only
    rw [sub_fin_ok (unit_fin h1 ⟨by linarith, by linarith⟩), mul_fin_ok (unit_fin h1 (unit_mul us us)),
      mul_fin_ok (unit_fin h1 (unit_mul us us2)), mul_fin_ok (unit_fin h1 (unit_mul us2 ut)), mul_fin_ok (unit_fin h1 (unit_mul ut ut)),
      mul_fin_ok (unit_fin h1 (unit_mul us ut2)), mul_fin_ok (unit_fin h1 (unit_mul ut ut2))]
    unfold bezSum
    rw [mul_fin_ok (three us2t), mul_fin_ok (three ust2), mul_fin_ok (below p1 (by omega) (by linarith)),
      mul_fin_ok (below p2 (by omega) (by linarith)), mul_fin_ok (below p3 (by omega) (by linarith)),
      mul_fin_ok (below p4 (by omega) (by linarith)), add_fin_ok (below a1 (by omega) (by linarith)),
      add_fin_ok (below a2 (by omega) (by linarith)), add_fin_ok (below a3 (by omega) (by linarith))]
    rfl

end X7.Fmt
