import Verif.Spec.SmoothMany
import Verif.Props.VecField
import Mathlib.Topology.MetricSpace.Cauchy
import Mathlib.Analysis.SpecificLimits.Basic

noncomputable section

namespace X7.VF
open Filter Topology

/-- One component after `k` smoothings without normalisation. -/
def again (n : ℕ) (k : ℕ) (a : ℕ → ℕ → ℝ) : ℕ → ℕ → ℝ := (smoothVal n)^[k] a

theorem again_zero (n : ℕ) (a : ℕ → ℕ → ℝ) : again n 0 a = a := rfl

theorem again_succ (n k : ℕ) (a : ℕ → ℕ → ℝ) : again n (k + 1) a = smoothVal n (again n k a) := Function.iterate_succ_apply' ..

theorem again_add (n k m : ℕ) (a : ℕ → ℕ → ℝ) : again n (k + m) a = again n k (again n m a) := Function.iterate_add_apply ..

theorem mean_congr {n : ℕ} {w a b : ℕ → ℕ → ℝ} (h : ∀ x y, x < n → y < n → a x y = b x y) : mean n w a = mean n w b := by
  unfold mean
  congr 1
  apply List.map_congr_left
  intro x hx
  congr 1
  apply List.map_congr_left
  intro y hy
  rw [h x y (List.mem_range.1 hx) (List.mem_range.1 hy)]

theorem mean_lin (n : ℕ) (w a b : ℕ → ℕ → ℝ) (c d : ℝ) :
    mean n w (fun x y => c * a x y + d * b x y) = c * mean n w a + d * mean n w b := by
  unfold mean
  rw [← List.sum_map_mul_left, ← List.sum_map_mul_left, ← List.sum_map_add]
  congr 1
  apply List.map_congr_left
  intro x _
  rw [← List.sum_map_mul_left, ← List.sum_map_mul_left, ← List.sum_map_add]
  congr 1
  apply List.map_congr_left
  intro y _
  ring

theorem again_congr {n : ℕ} {a b : ℕ → ℕ → ℝ} (h : ∀ x y, x < n → y < n → a x y = b x y) (k : ℕ) :
    ∀ x y, x < n → y < n → again n k a x y = again n k b x y := by
  induction k with
  | zero => exact h
  | succ k ih =>
    intro x y hx hy
    rw [again_succ, again_succ, smoothVal_mean n _ x y hx hy, smoothVal_mean n _ x y hx hy]
    exact mean_congr ih

theorem again_lin (n : ℕ) (a b : ℕ → ℕ → ℝ) (c d : ℝ) (k : ℕ) :
    ∀ x y, x < n → y < n → again n k (fun x y => c * a x y + d * b x y) x y = c * again n k a x y + d * again n k b x y := by
  induction k with
  | zero => intro x y _ _; rfl
  | succ k ih =>
    intro x y hx hy
    rw [again_succ, again_succ, again_succ, smoothVal_mean n _ x y hx hy, smoothVal_mean n _ x y hx hy, smoothVal_mean n _ x y hx hy,
      ← mean_lin]
    exact mean_congr ih

theorem again_bounded {n : ℕ} {a : ℕ → ℕ → ℝ} {lo hi : ℝ} (h : ∀ x y, x < n → y < n → lo ≤ a x y ∧ a x y ≤ hi) (k : ℕ) :
    ∀ x y, x < n → y < n → lo ≤ again n k a x y ∧ again n k a x y ≤ hi := by
  induction k with
  | zero => exact h
  | succ k ih =>
    intro x y hx hy
    rw [again_succ]
    exact C57_smooth_bounded n _ lo hi ih x y hx hy

theorem weight_ge {n i j x y : ℕ} (hi : i < n) (hj : j < n) (hx : Near i x) (hy : Near j y) : 1 / 35 ≤ weight n i j x y := by
  unfold weight
  rw [score_sum n i j hi hj]
  have h1 := window_length n i
  have h2 := window_length n j
  have hc : (windowCount n i j : ℝ) ≤ 16 := by
    have : windowCount n i j ≤ 16 := by
      unfold windowCount
      exact (Nat.mul_le_mul h1 h2)
    exact_mod_cast this
  have hs : 1 ≤ score i j x y := by
    unfold score
    split_ifs with k1
    · norm_num
    · exact le_rfl
    · rename_i k2; exact absurd ⟨hx, hy⟩ k2
  have h0 : (0 : ℝ) ≤ windowCount n i j := Nat.cast_nonneg _
  rw [div_le_div_iff₀ (by norm_num) (by linarith)]
  linarith

/-- One node below the bound pulls the mean below it. -/
theorem mean_pull {n : ℕ} {w a : ℕ → ℕ → ℝ} (hw : ∀ x y, 0 ≤ w x y) (h1 : mean n w (fun _ _ => 1) = 1) {hi : ℝ}
    (h : ∀ x y, x < n → y < n → a x y ≤ hi) {x y : ℕ} (hx : x < n) (hy : y < n) : mean n w a ≤ hi - w x y * (hi - a x y) := by
  have key : mean n w a ≤ mean n w (fun x' y' => if x' = x ∧ y' = y then a x y else hi) := by
    apply mean_le n w _ _ hw
    intro x' y' hx' hy'
    split_ifs with e
    · rw [e.1, e.2]
    · exact h x' y' hx' hy'
  refine key.trans (le_of_eq ?_)
  have e : (fun x' y' => if x' = x ∧ y' = y then a x y else hi) =
      fun x' y' => hi * (fun _ _ => (1 : ℝ)) x' y' + (a x y - hi) / 19 * (fun x' y' => if x' = x ∧ y' = y then (19 : ℝ) else 0) x' y' := by
    funext x' y'
    by_cases e : x' = x ∧ y' = y
    · simp only [if_pos e]; ring
    · simp only [if_neg e]; ring
  rw [e, mean_lin, h1]
  have e2 : mean n w (fun x' y' => if x' = x ∧ y' = y then (19 : ℝ) else 0) = 19 * w x y := by
    rw [← centre_eq n w x y hx hy]
    unfold mean
    congr 1
    apply List.map_congr_left
    intro x' _
    congr 1
    apply List.map_congr_left
    intro y' _
    ring
  rw [e2]
  ring

/-- A low node spreads: after `k` steps every node at most `k` away is lower than the bound. -/
theorem again_spread {n : ℕ} {a : ℕ → ℕ → ℝ} {hi d : ℝ} (d0 : 0 ≤ d) (h : ∀ x y, x < n → y < n → a x y ≤ hi) {x0 y0 : ℕ}
    (hd : a x0 y0 ≤ hi - d) (hx0 : x0 < n) (hy0 : y0 < n) (k : ℕ) : ∀ x y, x < n → y < n → x ≤ x0 + k → x0 ≤ x + k → y ≤ y0 + k → y0 ≤ y + k →
      again n k a x y ≤ hi - d * (1 / 35) ^ k := by
  have up : ∀ k x y, x < n → y < n → again n k a x y ≤ hi := by
    intro k
    induction k with
    | zero => exact h
    | succ k ih =>
      intro x y hx hy
      rw [again_succ, smoothVal_mean n _ x y hx hy]
      have := mean_le n (weight n x y) _ (fun _ _ => hi) (fun x' y' => weight_nonneg n x y x' y' hx hy) ih
      rwa [mean_const, weight_sum n x y hx hy, mul_one] at this
  induction k with
  | zero =>
    intro x y _ _ h1 h2 h3 h4
    obtain rfl : x = x0 := by omega
    obtain rfl : y = y0 := by omega
    simpa [again_zero] using hd
  | succ k ih =>
    intro x y hx hy h1 h2 h3 h4
    have step : ∀ u u0 : ℕ, u < n → u0 < n → u ≤ u0 + (k + 1) → u0 ≤ u + (k + 1) → ∃ v, v < n ∧ Near u v ∧ v ≤ u0 + k ∧ u0 ≤ v + k := by
      intro u u0 g1 g0 g2 g3
      by_cases c1 : u = u0 + (k + 1)
      · exact ⟨u - 1, by omega, ⟨by omega, by omega⟩, by omega, by omega⟩
      · by_cases c2 : u0 = u + (k + 1)
        · exact ⟨u + 1, by omega, ⟨by omega, by omega⟩, by omega, by omega⟩
        · exact ⟨u, g1, ⟨by omega, by omega⟩, by omega, by omega⟩
    obtain ⟨x', a1, a2, a3, a4⟩ := step x x0 hx hx0 h1 h2
    obtain ⟨y', b1, b2, b3, b4⟩ := step y y0 hy hy0 h3 h4
    rw [again_succ, smoothVal_mean n _ x y hx hy]
    have p := mean_pull (fun x' y' => weight_nonneg n x y x' y' hx hy) (weight_sum n x y hx hy) (up k) a1 b1
    have q := ih x' y' a1 b1 a3 a4 b3 b4
    have w := weight_ge hx hy a2 b2
    have r : 1 / 35 * (d * (1 / 35) ^ k) ≤ weight n x y x' y' * (hi - again n k a x' y') :=
      mul_le_mul w (by linarith) (by positivity) (weight_nonneg n x y x' y' hx hy)
    rw [pow_succ]
    linarith

/-- The lowest of the values on the mesh. -/
theorem exists_min {n : ℕ} (hn : 0 < n) (a : ℕ → ℕ → ℝ) : ∃ x y, x < n ∧ y < n ∧ ∀ x' y', x' < n → y' < n → a x y ≤ a x' y' := by
  obtain ⟨x, y, h1, h2, h3⟩ := amax_mem hn fun x y => -a x y
  refine ⟨x, y, h1, h2, fun x' y' h1' h2' => ?_⟩
  have := amax_ge (a := fun x y => -a x y) h1' h2'
  rw [h3] at this
  linarith

theorem exists_max {n : ℕ} (hn : 0 < n) (a : ℕ → ℕ → ℝ) : ∃ x y, x < n ∧ y < n ∧ ∀ x' y', x' < n → y' < n → a x' y' ≤ a x y := by
  obtain ⟨x, y, h1, h2, h3⟩ := amax_mem hn a
  exact ⟨x, y, h1, h2, fun x' y' h1' h2' => h3 ▸ amax_ge h1' h2'⟩

/-- `n` steps bring the values closer together by a fixed factor. -/
theorem again_contract {n : ℕ} (hn : 0 < n) (q : ℕ) : ∀ (a : ℕ → ℕ → ℝ) (lo hi : ℝ), (∀ x y, x < n → y < n → lo ≤ a x y ∧ a x y ≤ hi) →
    ∃ lo' hi', hi' - lo' ≤ (1 - (1 / 35) ^ n) ^ q * (hi - lo) ∧ ∀ x y, x < n → y < n → lo' ≤ again n (q * n) a x y ∧ again n (q * n) a x y ≤ hi' := by
  induction q with
  | zero => intro a lo hi h; exact ⟨lo, hi, by simp, by simpa [again_zero] using h⟩
  | succ q ih =>
    intro a lo hi h
    obtain ⟨x0, y0, hx0, hy0, hmin⟩ := exists_min hn a
    obtain ⟨x1, y1, hx1, hy1, hmax⟩ := exists_max hn a
    have hd : 0 ≤ a x1 y1 - a x0 y0 := by linarith [hmin x1 y1 hx1 hy1]
    have hs : ∀ x y, x < n → y < n → a x0 y0 ≤ again n n a x y ∧ again n n a x y ≤ a x1 y1 - (a x1 y1 - a x0 y0) * (1 / 35) ^ n := by
      intro x y hx hy
      refine ⟨(again_bounded (fun x y hx hy => ⟨hmin x y hx hy, hmax x y hx hy⟩) n x y hx hy).1, ?_⟩
      exact again_spread hd hmax (by linarith) hx0 hy0 n x y hx hy (by omega) (by omega) (by omega) (by omega)
    obtain ⟨lo', hi', k1, k2⟩ := ih _ _ _ hs
    refine ⟨lo', hi', ?_, ?_⟩
    · refine k1.trans ?_
      have e1 : (1 : ℝ) / 35 ≤ 1 := by norm_num
      have e0 : (0 : ℝ) ≤ 1 - (1 / 35) ^ n := by
        have := pow_le_one₀ (n := n) (by norm_num : (0 : ℝ) ≤ 1 / 35) e1
        linarith
      have h3 : a x1 y1 - a x0 y0 ≤ hi - lo := by linarith [(h x0 y0 hx0 hy0).1, (h x1 y1 hx1 hy1).2]
      rw [pow_succ, mul_assoc]
      refine mul_le_mul_of_nonneg_left ?_ (pow_nonneg e0 q)
      have := mul_le_mul_of_nonneg_left h3 e0
      linarith
    · intro x y hx hy
      rw [Nat.succ_mul, again_add]
      exact k2 x y hx hy

/-- In the end all values are close together, and stay between the bounds reached. -/
theorem again_eventually {n : ℕ} (hn : 0 < n) (a : ℕ → ℕ → ℝ) {e : ℝ} (he : 0 < e) :
    ∃ N lo hi, hi - lo ≤ e ∧ ∀ k ≥ N, ∀ x y, x < n → y < n → lo ≤ again n k a x y ∧ again n k a x y ≤ hi := by
  obtain ⟨x0, y0, hx0, hy0, hmin⟩ := exists_min hn a
  obtain ⟨x1, y1, hx1, hy1, hmax⟩ := exists_max hn a
  have hr0 : (0 : ℝ) ≤ 1 - (1 / 35) ^ n := by
    have := pow_le_one₀ (n := n) (by norm_num : (0 : ℝ) ≤ 1 / 35) (by norm_num)
    linarith
  have hr1 : 1 - (1 / 35 : ℝ) ^ n < 1 := by
    have : (0 : ℝ) < (1 / 35) ^ n := by positivity
    linarith
  have hD : 0 ≤ a x1 y1 - a x0 y0 := by linarith [hmin x1 y1 hx1 hy1]
  obtain ⟨q, hq⟩ := exists_pow_lt_of_lt_one (x := e / (a x1 y1 - a x0 y0 + 1)) (by positivity) hr1
  obtain ⟨lo, hi, h1, h2⟩ := again_contract hn q a (a x0 y0) (a x1 y1) fun x y hx hy => ⟨hmin x y hx hy, hmax x y hx hy⟩
  refine ⟨q * n, lo, hi, ?_, ?_⟩
  · rw [lt_div_iff₀ (by positivity)] at hq
    have := pow_nonneg hr0 q
    linarith
  · intro k hk x y hx hy
    obtain ⟨m, rfl⟩ := Nat.exists_eq_add_of_le hk
    rw [Nat.add_comm, again_add]
    exact again_bounded h2 m x y hx hy

/-- All nodes have the same limit. -/
theorem again_limit {n : ℕ} (hn : 0 < n) (a : ℕ → ℕ → ℝ) :
    ∃ L, ∀ e > 0, ∃ N, ∀ k ≥ N, ∀ x y, x < n → y < n → |again n k a x y - L| ≤ e := by
  have hc : CauchySeq fun k => again n k a 0 0 := by
    rw [Metric.cauchySeq_iff']
    intro e he
    obtain ⟨N, lo, hi, h1, h2⟩ := again_eventually hn a (half_pos he)
    refine ⟨N, fun k hk => ?_⟩
    have g1 := h2 k hk 0 0 hn hn
    have g2 := h2 N le_rfl 0 0 hn hn
    rw [Real.dist_eq, abs_lt]
    constructor <;> linarith [g1.1, g1.2, g2.1, g2.2]
  obtain ⟨L, hL⟩ := cauchySeq_tendsto_of_complete hc
  refine ⟨L, fun e he => ?_⟩
  obtain ⟨N, lo, hi, h1, h2⟩ := again_eventually hn a he
  have l1 : lo ≤ L := ge_of_tendsto hL (eventually_atTop.2 ⟨N, fun k hk => (h2 k hk 0 0 hn hn).1⟩)
  have l2 : L ≤ hi := le_of_tendsto hL (eventually_atTop.2 ⟨N, fun k hk => (h2 k hk 0 0 hn hn).2⟩)
  refine ⟨N, fun k hk x y hx hy => ?_⟩
  have g := h2 k hk x y hx hy
  rw [abs_le]
  constructor <;> linarith [g.1, g.2]

end X7.VF
