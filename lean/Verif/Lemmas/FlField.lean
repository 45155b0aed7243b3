import Verif.Model.RndField
import Verif.Spec.RndField
import Verif.Lemmas.Fl
import Verif.Lemmas.FlAnim
import Verif.Props.VecField

/-! Relative errors of numbers that are not negative, running sums and fields: lemmas for C103. -/

noncomputable section

namespace X7
namespace Rnd
variable {R : Rnd}

/-- `x'` is a number `x ≥ 0` after `k` roundings. -/
def Rel (R : Rnd) (k : ℕ) (x' x : ℝ) : Prop := 0 ≤ x ∧ (1 - R.u) ^ k * x ≤ x' ∧ x' ≤ (1 + R.u) ^ k * x

theorem one_sub_pos : 0 < 1 - R.u := by linarith [R.u_le]

theorem one_sub_le : 1 - R.u ≤ 1 := by linarith [R.u_nonneg]

theorem one_le_add : 1 ≤ 1 + R.u := by linarith [R.u_nonneg]

namespace Rel
variable {k l : ℕ} {x x' y y' : ℝ}

theorem refl (h : 0 ≤ x) : Rel R 0 x x := ⟨h, by simp, by simp⟩

theorem nonneg (h : Rel R k x' x) : 0 ≤ x' := (mul_nonneg (pow_nonneg R.one_sub_pos.le k) h.1).trans h.2.1

theorem mono (h : Rel R k x' x) (hkl : k ≤ l) : Rel R l x' x := by
  have h0 := h.1
  refine ⟨h0, le_trans ?_ h.2.1, h.2.2.trans ?_⟩
  · exact mul_le_mul_of_nonneg_right (pow_le_pow_of_le_one R.one_sub_pos.le R.one_sub_le hkl) h0
  · exact mul_le_mul_of_nonneg_right (pow_le_pow_right₀ R.one_le_add hkl) h0

theorem fl (h : Rel R k x' x) : Rel R (k + 1) (R.fl x') x := by
  refine ⟨h.1, ?_, ?_⟩
  · refine le_trans ?_ (R.le_fl h.nonneg)
    rw [pow_succ', mul_assoc]
    exact mul_le_mul_of_nonneg_left h.2.1 R.one_sub_pos.le
  · refine (R.fl_le h.nonneg).trans ?_
    rw [pow_succ', mul_assoc]
    exact mul_le_mul_of_nonneg_left h.2.2 (by linarith [R.one_le_add])

theorem add' (hx : Rel R k x' x) (hy : Rel R k y' y) : Rel R k (x' + y') (x + y) :=
  ⟨add_nonneg hx.1 hy.1, by linarith [hx.2.1, hy.2.1], by linarith [hx.2.2, hy.2.2]⟩

theorem mul' (hx : Rel R k x' x) (hy : Rel R l y' y) : Rel R (k + l) (x' * y') (x * y) := by
  refine ⟨mul_nonneg hx.1 hy.1, ?_, ?_⟩
  · calc (1 - R.u) ^ (k + l) * (x * y) = ((1 - R.u) ^ k * x) * ((1 - R.u) ^ l * y) := by rw [pow_add]; ring
      _ ≤ x' * y' := mul_le_mul hx.2.1 hy.2.1 (mul_nonneg (pow_nonneg R.one_sub_pos.le l) hy.1) hx.nonneg
  · calc x' * y' ≤ ((1 + R.u) ^ k * x) * ((1 + R.u) ^ l * y) :=
          mul_le_mul hx.2.2 hy.2.2 hy.nonneg (hx.nonneg.trans hx.2.2)
      _ = _ := by rw [pow_add]; ring

theorem sqrt (hx : Rel R (2 * k) x' x) : Rel R k (√x') (√x) := by
  refine ⟨Real.sqrt_nonneg _, ?_, ?_⟩
  · have : (0 : ℝ) ≤ (1 - R.u) ^ k := pow_nonneg R.one_sub_pos.le k
    rw [← Real.sqrt_sq this, ← Real.sqrt_mul (sq_nonneg _)]
    apply Real.sqrt_le_sqrt
    rw [← pow_mul, mul_comm k 2]
    exact hx.2.1
  · have : (0 : ℝ) ≤ (1 + R.u) ^ k := pow_nonneg (by linarith [R.one_le_add]) k
    rw [← Real.sqrt_sq this, ← Real.sqrt_mul (sq_nonneg _)]
    apply Real.sqrt_le_sqrt
    rw [← pow_mul, mul_comm k 2]
    exact hx.2.2

end Rel

/-- A running sum with rounding. -/
def runSum (R : Rnd) (s : ℝ) (l : List ℝ) : ℝ := l.foldl (fun u v => R.fl (u + v)) s

theorem runSum_near (l : List ℝ) {k : ℕ} {s' s S : ℝ} (h : R.Near k s' s S) :
    R.Near (k + l.length) (R.runSum s' l) (s + l.sum) (S + (l.map (|·|)).sum) := by
  induction l generalizing k s' s S with
  | nil => simpa [runSum] using h
  | cons a l ih =>
    have := ih (h.add (Near.of_abs (R := R) a))
    simp only [List.length_cons, List.sum_cons, List.map_cons, runSum, List.foldl_cons, ← add_assoc] at this ⊢
    exact this.mono (by omega) le_rfl

theorem runSum_rel (l : List ℝ) (hl : ∀ a ∈ l, 0 ≤ a) {k : ℕ} {s' s : ℝ} (h : Rel R k s' s) :
    Rel R (k + l.length) (R.runSum s' l) (s + l.sum) := by
  induction l generalizing k s' s with
  | nil => simpa [runSum] using h
  | cons a l ih =>
    have h1 := (h.add' ((Rel.refl (R := R) (hl a (by simp))).mono (Nat.zero_le k))).fl
    have := ih (fun b hb => hl b (by simp [hb])) h1
    simp only [List.length_cons, List.sum_cons, runSum, List.foldl_cons, ← add_assoc] at this ⊢
    exact this.mono (by omega)

theorem runSum_neg (l : List ℝ) (s : ℝ) : R.runSum (-s) (l.map (- ·)) = -R.runSum s l := by
  induction l generalizing s with
  | nil => simp [runSum]
  | cons a l ih =>
    have := ih (R.fl (s + a))
    simp only [runSum, List.map_cons, List.foldl_cons] at this ⊢
    rw [← neg_add, R.neg, this]

end Rnd

open Rnd

namespace Fl
variable {R : Rnd}

/-- The entries of the window in the order of the loops. -/
def cells (n : ℕ) (a : ℕ → ℕ → ℝ) (i j : ℕ) : List ℝ :=
  (VF.window n i).flatMap fun x => (VF.window n j).map fun y => a x y

theorem windowSum_run (n : ℕ) (a : ℕ → ℕ → ℝ) (i j : ℕ) : fieldWindowSum R n a i j = R.runSum 0 (cells n a i j) := by
  unfold fieldWindowSum cells runSum
  generalize VF.window n i = l
  generalize (0 : ℝ) = s
  induction l generalizing s with
  | nil => rfl
  | cons x l ih => simp only [List.foldl_cons, List.flatMap_cons, List.foldl_append, List.foldl_map]; exact ih _

theorem cells_sum (n : ℕ) (a : ℕ → ℕ → ℝ) (i j : ℕ) : (cells n a i j).sum = VF.windowSum n a i j := by
  unfold VF.windowSum cells
  generalize VF.window n i = l
  induction l with
  | nil => rfl
  | cons x l ih => simp only [List.flatMap_cons, List.sum_append, List.map_cons, List.sum_cons, ih]

theorem cells_length (n : ℕ) (a : ℕ → ℕ → ℝ) (i j : ℕ) : (cells n a i j).length = VF.windowCount n i j := by
  unfold VF.windowCount cells
  simp [List.length_flatMap]

theorem cells_map (n : ℕ) (a : ℕ → ℕ → ℝ) (g : ℝ → ℝ) (i j : ℕ) : (cells n a i j).map g = cells n (fun x y => g (a x y)) i j := by
  unfold cells
  rw [List.map_flatMap]
  simp [Function.comp_def]

theorem windowCount_le (n i j : ℕ) : VF.windowCount n i j ≤ 16 := by
  unfold VF.windowCount
  have h1 := VF.window_length n i
  have h2 := VF.window_length n j
  calc _ ≤ 4 * 4 := Nat.mul_le_mul h1 h2
    _ = 16 := rfl

theorem smoothVal_near (n : ℕ) (a : ℕ → ℕ → ℝ) (i j : ℕ) :
    R.Near 18 (fieldSmoothVal R n a i j) (VF.smoothVal n a i j) (VF.smoothVal n (fun x y => |a x y|) i j) := by
  have h0 : R.Near 0 0 0 0 := Near.of_le (by simp)
  have h1 := runSum_near (cells n a i j) h0
  rw [← windowSum_run, zero_add, zero_add, zero_add, cells_sum, cells_map, cells_sum, cells_length] at h1
  have h2 := h1.mono (windowCount_le n i j) le_rfl
  have h3 := (Near.of_le (R := R) (x := (20 - 1 : ℝ)) (A := 20 - 1) (by norm_num)).mul (Near.of_abs (R := R) (a i j))
  have h4 := h2.add h3
  have hc : (0 : ℝ) < (VF.windowCount n i j : ℝ) + (20 - 1) := by positivity
  have h5 := (h4.mul' (Near.of_le (R := R) (x := 1 / ((VF.windowCount n i j : ℝ) + (20 - 1))) (A := 1 / ((VF.windowCount n i j : ℝ) + (20 - 1)))
    (by rw [abs_of_pos (by positivity)]))).fl
  simp only [mul_one_div] at h5
  exact h5.mono (by norm_num) le_rfl

theorem smoothVal_rel (n : ℕ) (a : ℕ → ℕ → ℝ) (ha : ∀ i j, i < n → j < n → 0 ≤ a i j) (i j : ℕ) (hi : i < n) (hj : j < n) :
    Rel R 18 (fieldSmoothVal R n a i j) (VF.smoothVal n a i j) := by
  have hcells : ∀ v ∈ cells n a i j, 0 ≤ v := by
    intro v hv
    simp only [cells, List.mem_flatMap, List.mem_map] at hv
    obtain ⟨x, hx, y, hy, rfl⟩ := hv
    exact ha x y (VF.mem_window.1 hx).1 (VF.mem_window.1 hy).1
  have h1 := runSum_rel (cells n a i j) hcells (Rel.refl (R := R) le_rfl)
  rw [← windowSum_run, zero_add, zero_add, cells_sum, cells_length] at h1
  have h2 := h1.mono (windowCount_le n i j)
  have h3 := ((Rel.refl (R := R) (x := (20 - 1 : ℝ)) (by norm_num)).mul' (Rel.refl (R := R) (ha i j hi hj))).fl
  have h4 := (h2.add' (h3.mono (l := 16) (by norm_num))).fl
  have hc : (0 : ℝ) < (VF.windowCount n i j : ℝ) + (20 - 1) := by positivity
  have h5 := (h4.mul' (Rel.refl (R := R) (x := 1 / ((VF.windowCount n i j : ℝ) + (20 - 1))) (by positivity))).fl
  simp only [mul_one_div] at h5
  exact h5.mono (by norm_num)

theorem smoothVal_neg (n : ℕ) (a : ℕ → ℕ → ℝ) (i j : ℕ) :
    fieldSmoothVal R n (fun x y => -a x y) i j = -fieldSmoothVal R n a i j := by
  unfold fieldSmoothVal
  have h := runSum_neg (R := R) (cells n a i j) 0
  rw [neg_zero, cells_map] at h
  rw [windowSum_run, windowSum_run, h]
  simp only [mul_neg, R.neg]
  rw [← neg_add, R.neg, neg_div, R.neg]

theorem smoothVal_neg' (n : ℕ) (a : ℕ → ℕ → ℝ) (i j : ℕ) :
    VF.smoothVal n (fun x y => -a x y) i j = -VF.smoothVal n a i j := by
  unfold VF.smoothVal
  have neg : ∀ l : List ℝ, (l.map fun v => -v).sum = -l.sum := by
    intro l
    induction l with
    | nil => simp
    | cons v l ih => simp only [List.map_cons, List.sum_cons, ih]; ring
  rw [← cells_sum, ← cells_sum, ← cells_map n a (fun v => -v), neg]
  ring

/-- Sign kept and the absolute value after `k` roundings. -/
def SRel (R : Rnd) (k : ℕ) (x' x : ℝ) : Prop := 0 ≤ x' * x ∧ Rel R k |x'| |x|

theorem SRel.of_rel {k : ℕ} {x' x : ℝ} (h : Rel R k x' x) : SRel R k x' x := by
  refine ⟨mul_nonneg h.nonneg h.1, ?_⟩
  rwa [abs_of_nonneg h.nonneg, abs_of_nonneg h.1]

theorem SRel.neg {k : ℕ} {x' x : ℝ} (h : SRel R k x' x) : SRel R k (-x') (-x) := by
  refine ⟨by rw [neg_mul_neg]; exact h.1, ?_⟩
  rw [abs_neg, abs_neg]; exact h.2

theorem SRel.refl (x : ℝ) : SRel R 0 x x := ⟨mul_self_nonneg x, Rel.refl (abs_nonneg x)⟩

theorem SRel.sq {k : ℕ} {x' x : ℝ} (h : SRel R k x' x) : Rel R (2 * k) (x' * x') (x * x) := by
  have := h.2.mul' h.2
  rw [abs_mul_abs_self, abs_mul_abs_self] at this
  rwa [two_mul]

theorem smoothVal_srel (n : ℕ) (a : ℕ → ℕ → ℝ) (ha : OneSign n a) (i j : ℕ) (hi : i < n) (hj : j < n) :
    SRel R 18 (fieldSmoothVal R n a i j) (VF.smoothVal n a i j) := by
  rcases ha with ha | ha
  · exact SRel.of_rel (smoothVal_rel n a ha i j hi hj)
  · have := (SRel.of_rel (smoothVal_rel (R := R) n (fun x y => -a x y) (fun i j h1 h2 => by linarith [ha i j h1 h2]) i j hi hj)).neg
    rwa [smoothVal_neg, smoothVal_neg', neg_neg, neg_neg] at this

theorem mag_rel {k : ℕ} {f' f : VF.Field} {i j : ℕ} (hx : SRel R k (f'.vx i j) (f.vx i j)) (hy : SRel R k (f'.vy i j) (f.vy i j)) :
    Rel R (k + 2) (fieldMag R f' i j) (f.mag i j) := by
  have h := ((hx.sq.fl).add' hy.sq.fl).fl
  rw [show 2 * k + 1 + 1 = 2 * (k + 1) by ring] at h
  exact h.sqrt.fl

theorem amax_rel {k n : ℕ} {a' a : ℕ → ℕ → ℝ} (hn : 0 < n) (h : ∀ i j, i < n → j < n → Rel R k (a' i j) (a i j)) :
    Rel R k (VF.amax n a') (VF.amax n a) := by
  obtain ⟨i, j, hi, hj, e⟩ := VF.amax_mem hn a
  obtain ⟨i', j', hi', hj', e'⟩ := VF.amax_mem hn a'
  refine ⟨by rw [e]; exact (h i j hi hj).1, ?_, ?_⟩
  · rw [e]; exact (h i j hi hj).2.1.trans (VF.amax_ge hi hj)
  · rw [e']
    refine (h i' j' hi' hj').2.2.trans (mul_le_mul_of_nonneg_left (VF.amax_ge hi' hj') ?_)
    exact pow_nonneg (by linarith [R.one_le_add]) k

/-- The factor by which `k` roundings up and `k` roundings down can differ. -/
theorem factor_of {k : ℕ} {x' x M' M : ℝ} (hx : SRel R k x' x) (hM : Rel R (k + 2) M' M) (h0 : 0 < M) :
    WithinFactor (((1 + R.u) / (1 - R.u)) ^ (k + 2)) (R.fl (x' * R.fl (1 / M'))) (x * (1 / M)) := by
  have p1 := R.one_sub_pos
  have p2 : 0 < 1 + R.u := by linarith [R.one_le_add]
  have pM : 0 < M' := lt_of_lt_of_le (mul_pos (pow_pos p1 _) h0) hM.2.1
  have k1 : 0 < R.fl (1 / M') := R.fl_pos (by positivity)
  have k2 : R.fl (1 / M') ≤ (1 + R.u) * (1 / M') := R.fl_le (by positivity)
  have k3 : (1 - R.u) * (1 / M') ≤ R.fl (1 / M') := R.le_fl (by positivity)
  have absfl : ∀ z, |R.fl z| = R.fl |z| := by
    intro z
    rcases le_total 0 z with hz | hz
    · rw [abs_of_nonneg hz, abs_of_nonneg (R.fl_nonneg hz)]
    · rw [abs_of_nonpos hz, R.neg, abs_of_nonpos]
      have := R.fl_nonneg (x := -z) (by linarith)
      rw [R.neg] at this; linarith
  have e1 : |R.fl (x' * R.fl (1 / M'))| = R.fl (|x'| * R.fl (1 / M')) := by rw [absfl, abs_mul, abs_of_pos k1]
  have e2 : |x * (1 / M)| = |x| * (1 / M) := by rw [abs_mul, abs_of_pos (by positivity : 0 < 1 / M)]
  have n1 : 0 ≤ |x'| * R.fl (1 / M') := mul_nonneg (abs_nonneg _) k1.le
  have up : R.fl (|x'| * R.fl (1 / M')) ≤ ((1 + R.u) / (1 - R.u)) ^ (k + 2) * (|x| * (1 / M)) := by
    have i1 : 1 / M' ≤ 1 / ((1 - R.u) ^ (k + 2) * M) := one_div_le_one_div_of_le (by positivity) hM.2.1
    calc R.fl (|x'| * R.fl (1 / M')) ≤ (1 + R.u) * (|x'| * R.fl (1 / M')) := R.fl_le n1
      _ ≤ (1 + R.u) * ((1 + R.u) ^ k * |x| * ((1 + R.u) * (1 / ((1 - R.u) ^ (k + 2) * M)))) := by
          refine mul_le_mul_of_nonneg_left ?_ p2.le
          refine mul_le_mul hx.2.2.2 (k2.trans ?_) k1.le (by positivity)
          exact mul_le_mul_of_nonneg_left i1 p2.le
      _ = _ := by rw [div_pow]; field_simp; ring
  have lo : |x| * (1 / M) ≤ ((1 + R.u) / (1 - R.u)) ^ (k + 2) * R.fl (|x'| * R.fl (1 / M')) := by
    have i1 : 1 / ((1 + R.u) ^ (k + 2) * M) ≤ 1 / M' := one_div_le_one_div_of_le pM hM.2.2
    have : (1 - R.u) * ((1 - R.u) ^ k * |x| * ((1 - R.u) * (1 / ((1 + R.u) ^ (k + 2) * M)))) ≤ R.fl (|x'| * R.fl (1 / M')) := by
      refine le_trans ?_ (R.le_fl n1)
      refine mul_le_mul_of_nonneg_left ?_ p1.le
      refine mul_le_mul hx.2.2.1 (le_trans ?_ k3) (by positivity) (abs_nonneg _)
      exact mul_le_mul_of_nonneg_left i1 p1.le
    calc |x| * (1 / M) = ((1 + R.u) / (1 - R.u)) ^ (k + 2) *
          ((1 - R.u) * ((1 - R.u) ^ k * |x| * ((1 - R.u) * (1 / ((1 + R.u) ^ (k + 2) * M))))) := by
            rw [div_pow]; field_simp; ring
      _ ≤ _ := mul_le_mul_of_nonneg_left this (by positivity)
  refine ⟨?_, by rw [e1, e2]; exact up, by rw [e1, e2]; exact lo⟩
  have hs := hx.1
  have hM0 : 0 < 1 / M := by positivity
  rcases le_total 0 x' with h | h
  · have a1 : 0 ≤ R.fl (x' * R.fl (1 / M')) := R.fl_nonneg (mul_nonneg h k1.le)
    rcases h.lt_or_eq with h' | h'
    · exact mul_nonneg a1 (mul_nonneg (nonneg_of_mul_nonneg_right hs h') hM0.le)
    · rw [← h']; simp [R.fl_zero]
  · have a1 : R.fl (x' * R.fl (1 / M')) ≤ 0 := by
      have := R.fl_nonneg (x := -(x' * R.fl (1 / M'))) (by nlinarith)
      rw [R.neg] at this; linarith
    rcases h.lt_or_eq with h' | h'
    · have hx0 : x ≤ 0 := by
        by_contra hc
        push Not at hc
        nlinarith
      exact mul_nonneg_of_nonpos_of_nonpos a1 (mul_nonpos_of_nonpos_of_nonneg hx0 hM0.le)
    · rw [h']; simp [R.fl_zero]

/-- Normalising fields whose components agree up to `k` roundings. -/
theorem normalized_rel {k : ℕ} {f' f : VF.Field} (hm : f'.mesh = f.mesh)
    (hx : ∀ i j, i < f.mesh.n → j < f.mesh.n → SRel R k (f'.vx i j) (f.vx i j))
    (hy : ∀ i j, i < f.mesh.n → j < f.mesh.n → SRel R k (f'.vy i j) (f.vy i j))
    (h0 : ∃ i j, i < f.mesh.n ∧ j < f.mesh.n ∧ ¬ (f.vx i j = 0 ∧ f.vy i j = 0)) :
    ∃ g' g, fieldNormalized R f' = .ok (some g') ∧ f.normalized = .ok (some g) ∧ g'.mesh = f.mesh ∧
      ∀ i j, i < f.mesh.n → j < f.mesh.n →
        WithinFactor (((1 + R.u) / (1 - R.u)) ^ (k + 2)) (g'.vx i j) (g.vx i j) ∧
        WithinFactor (((1 + R.u) / (1 - R.u)) ^ (k + 2)) (g'.vy i j) (g.vy i j) := by
  obtain ⟨i, j, hi, hj, hne⟩ := h0
  have hn : 0 < f.mesh.n := by omega
  have hM := amax_rel (R := R) hn fun i j h1 h2 => mag_rel (hx i j h1 h2) (hy i j h1 h2)
  have hpos : 0 < VF.amax f.mesh.n f.mag := by
    refine lt_of_lt_of_le ?_ (VF.amax_ge hi hj)
    refine Real.sqrt_pos.2 ?_
    rcases not_and_or.1 hne with h | h
    · have := mul_self_pos.2 h; nlinarith [mul_self_nonneg (f.vy i j)]
    · have := mul_self_pos.2 h; nlinarith [mul_self_nonneg (f.vx i j)]
  have hpos' : 0 < VF.amax f.mesh.n (fieldMag R f') := lt_of_lt_of_le (mul_pos (pow_pos R.one_sub_pos _) hpos) hM.2.1
  refine ⟨⟨f.mesh, fun i j => R.fl (f'.vx i j * R.fl (1 / VF.amax f.mesh.n (fieldMag R f'))),
      fun i j => R.fl (f'.vy i j * R.fl (1 / VF.amax f.mesh.n (fieldMag R f')))⟩,
    ⟨f.mesh, fun i j => f.vx i j * (1 / VF.amax f.mesh.n f.mag), fun i j => f.vy i j * (1 / VF.amax f.mesh.n f.mag)⟩, ?_, ?_, rfl, ?_⟩
  · unfold fieldNormalized
    rw [hm, if_neg (by omega)]
    simp only
    rw [if_neg hpos'.ne']
  · unfold VF.Field.normalized
    rw [if_neg (by omega)]
    simp only
    rw [if_neg hpos.ne']
  · intro i j h1 h2
    exact ⟨factor_of (hx i j h1 h2) hM hpos, factor_of (hy i j h1 h2) hM hpos⟩

end Fl
end X7
