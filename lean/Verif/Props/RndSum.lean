import Verif.Lemmas.FlSum
import Verif.Props.RndVec

/-!
C87, continued: the sum that Python takes from 3.12 on, and the area with it. Its error does not grow with the number of the summands.
-/

namespace X7
namespace Fl
open Rnd

/-! ### Lemmas -/

/-- The errors of the additions, one after the other. -/
noncomputable def errs (R : Rnd) (a : ℝ) : List ℝ → List ℝ
  | [] => []
  | x :: xs => (a + x - R.fl (a + x)) :: errs R (R.fl (a + x)) xs

theorem errs_length (R : Rnd) (xs : List ℝ) : ∀ a, (errs R a xs).length = xs.length := by
  induction xs with
  | nil => intro a; rfl
  | cons x xs ih => intro a; simp [errs, ih]

theorem errs_sum (R : Rnd) (xs : List ℝ) : ∀ a, xs.foldl (fun acc x => R.fl (acc + x)) a + (errs R a xs).sum = a + xs.sum := by
  induction xs with
  | nil => intro a; simp [errs]
  | cons x xs ih =>
    intro a
    have := ih (R.fl (a + x))
    simp only [List.foldl_cons, errs, List.sum_cons]
    linarith

theorem errs_abs (R : Rnd) (xs : List ℝ) : ∀ (a B : ℝ) (j : ℕ), 0 ≤ B → |a| ≤ (1 + R.u) ^ j * B →
    ((errs R a xs).map abs).sum ≤ xs.length * (R.u * ((1 + R.u) ^ (j + xs.length) * (B + (xs.map abs).sum))) := by
  have hu := R.u_nonneg
  have hpow : ∀ n, (1 : ℝ) ≤ (1 + R.u) ^ n := fun n => R.one_le_pow n
  induction xs with
  | nil => intro a B j _ _; simp [errs]
  | cons x xs ih =>
    intro a B j hB ha
    have hx := abs_nonneg x
    have hS : 0 ≤ (xs.map abs).sum := List.sum_nonneg (by intro y hy; obtain ⟨z, -, rfl⟩ := List.mem_map.1 hy; exact abs_nonneg z)
    have h1 : |a + x| ≤ (1 + R.u) ^ j * (B + |x|) := by
      refine (abs_add_le a x).trans ?_
      have := hpow j
      nlinarith
    have h2 : |R.fl (a + x)| ≤ (1 + R.u) ^ (j + 1) * (B + |x|) := by
      refine (abs_fl_le _).trans ?_
      rw [pow_succ]
      nlinarith
    have h3 := ih (R.fl (a + x)) (B + |x|) (j + 1) (by positivity) h2
    have h4 : |a + x - R.fl (a + x)| ≤ R.u * ((1 + R.u) ^ (j + (xs.length + 1)) * (B + (|x| + (xs.map abs).sum))) := by
      rw [abs_sub_comm]
      refine (R.err _).trans (mul_le_mul_of_nonneg_left ?_ hu)
      refine h1.trans ?_
      have h5 : (1 + R.u) ^ j ≤ (1 + R.u) ^ (j + (xs.length + 1)) := pow_le_pow_right₀ (by linarith) (by omega)
      have h6 : B + |x| ≤ B + (|x| + (xs.map abs).sum) := by linarith
      exact mul_le_mul h5 h6 (by positivity) (by positivity)
    simp only [errs, List.map_cons, List.sum_cons, List.length_cons, Nat.cast_add, Nat.cast_one]
    rw [show j + 1 + xs.length = j + (xs.length + 1) by ring, add_assoc B] at h3
    rw [add_mul, one_mul]
    linarith

/-- A step with the compensation adds the exact error. -/
theorem sumStep_exact (p : ℕ) (hp : 1 ≤ p) (fc : ℝ × ℝ) (x : ℝ) (hf : (Rnd.binary p hp).Rep fc.1) (hx : (Rnd.binary p hp).Rep x) :
    sumStep (Rnd.binary p hp) fc x = ((Rnd.binary p hp).fl (fc.1 + x),
      (Rnd.binary p hp).fl (fc.2 + (fc.1 + x - (Rnd.binary p hp).fl (fc.1 + x)))) := by
  have hf' : flBin p fc.1 = fc.1 := hf
  have hx' : flBin p x = x := hx
  have e : ∀ y, (Rnd.binary p hp).fl y = flBin p y := fun _ => rfl
  simp only [sumStep, e]
  split_ifs with h
  · rw [add_back_rep p hp hf' hx' h, show fc.1 - flBin p (fc.1 + x) + x = fc.1 + x - flBin p (fc.1 + x) by ring,
      add_error_rep p hp hf' hx' h]
  · push Not at h
    have h1 := add_back_rep p hp hx' hf' h.le
    have h2 := add_error_rep p hp hx' hf' h.le
    rw [add_comm x fc.1] at h1 h2
    rw [h1, show x - flBin p (fc.1 + x) + fc.1 = fc.1 + x - flBin p (fc.1 + x) by ring, h2]

theorem foldl_sumStep (p : ℕ) (hp : 1 ≤ p) (xs : List ℝ) : ∀ fc : ℝ × ℝ, (Rnd.binary p hp).Rep fc.1 → (∀ x ∈ xs, (Rnd.binary p hp).Rep x) →
    xs.foldl (sumStep (Rnd.binary p hp)) fc = (xs.foldl (fun acc x => (Rnd.binary p hp).fl (acc + x)) fc.1,
      (errs (Rnd.binary p hp) fc.1 xs).foldl (fun acc x => (Rnd.binary p hp).fl (acc + x)) fc.2) := by
  induction xs with
  | nil => intro fc _ _; rfl
  | cons x xs ih =>
    intro fc hf hx
    rw [List.foldl_cons, ih _ ?_ (fun y hy => hx y (by simp [hy])), sumStep_exact p hp fc x hf (hx x (by simp))]
    · rfl
    · rw [sumStep_exact p hp fc x hf (hx x (by simp))]
      exact Rnd.rep_fl _ _

/-! ### Theorems -/

/-- C87: Python's `sum` from 3.12 on is nearly as good as one rounding of the exact sum: what is added to the error of one rounding is of
second order in the unit roundoff. -/
theorem C87_sum_compensated (p : ℕ) (hp : 1 ≤ p) (xs : List ℝ) (hx : ∀ x ∈ xs, (Rnd.binary p hp).Rep x) :
    |Fl.sum (Rnd.binary p hp) .compensated xs - xs.sum| ≤ (Rnd.binary p hp).u * |xs.sum| +
      (1 + (Rnd.binary p hp).u) ^ (xs.length + 1) * xs.length * (Rnd.binary p hp).u * (Rnd.binary p hp).gam xs.length * (xs.map abs).sum := by
  set R := Rnd.binary p hp with hR
  have hu := R.u_nonneg
  have h0 := foldl_sumStep p hp xs (0, 0) (Rnd.rep_zero _) hx
  simp only [Fl.sum, sumComp]
  rw [← hR] at h0
  rw [h0]
  simp only
  have h1 := errs_sum R xs 0
  rw [zero_add] at h1
  have h2 := sumPlain_near (R := R) (k := 0) id id abs (errs R 0 xs) (fun x _ => Near.of_abs x)
  rw [errs_length, List.map_id, zero_add] at h2
  simp only [sumPlain] at h2
  have h3 := errs_abs R xs 0 0 0 le_rfl (by simp)
  rw [zero_add, zero_add] at h3
  set f := xs.foldl (fun acc x => R.fl (acc + x)) 0
  set c := (errs R 0 xs).foldl (fun acc x => R.fl (acc + x)) 0
  set S := (xs.map abs).sum
  set n : ℝ := (xs.length : ℝ)
  have hδ : |f + c - xs.sum| ≤ R.gam xs.length * (n * (R.u * ((1 + R.u) ^ xs.length * S))) := by
    have e : f + c - xs.sum = c - (errs R 0 xs).sum := by linarith
    rw [e]
    exact h2.2.trans (mul_le_mul_of_nonneg_left h3 (R.gam_nonneg _))
  set δ := R.gam xs.length * (n * (R.u * ((1 + R.u) ^ xs.length * S))) with hδ'
  have h4 := R.err (f + c)
  have h5 : |f + c| ≤ |xs.sum| + δ := by
    have := abs_add_le (f + c - xs.sum) xs.sum
    rw [sub_add_cancel] at this
    linarith
  have h6 : |R.fl (f + c) - xs.sum| ≤ R.u * (|xs.sum| + δ) + δ := by
    have e : R.fl (f + c) - xs.sum = (R.fl (f + c) - (f + c)) + (f + c - xs.sum) := by ring
    rw [e]
    refine (abs_add_le _ _).trans (add_le_add (h4.trans (mul_le_mul_of_nonneg_left h5 hu)) hδ)
  refine h6.trans (le_of_eq ?_)
  rw [hδ', pow_succ]
  ring

/-- C87: with this sum the error of the area is that of a single term, whatever the number of corners, up to second order. -/
theorem C87_area_compensated (p : ℕ) (hp : 1 ≤ p) (pts : List (Pt ℝ)) :
    |Fl.polygonArea (Rnd.binary p hp) .compensated pts - X7.polygonArea pts| ≤
      ((Rnd.binary p hp).gam 3 + (1 + (Rnd.binary p hp).u) ^ (pts.length + 3) * pts.length * (Rnd.binary p hp).u * (Rnd.binary p hp).gam pts.length) *
        (areaSize pts / 2) := by
  set R := Rnd.binary p hp with hR
  have hu := R.u_nonneg
  set ts := (iterRotate2 pts).map fun ab => R.fl (R.fl (ab.1.x * ab.2.y) - R.fl (ab.1.y * ab.2.x)) with hts
  have hl : (iterRotate2 pts).length = pts.length := by simp [iterRotate2]
  have hlen : ts.length = pts.length := by rw [hts, List.length_map, hl]
  have h1 := C87_sum_compensated p hp ts (by
    intro x hx
    rw [hts] at hx
    obtain ⟨ab, -, rfl⟩ := List.mem_map.1 hx
    exact Rnd.rep_fl _ _)
  rw [← hR, hlen] at h1
  have hterm : ∀ ab : Pt ℝ × Pt ℝ, R.Near 2 (R.fl (R.fl (ab.1.x * ab.2.y) - R.fl (ab.1.y * ab.2.x))) (ab.1.x * ab.2.y - ab.1.y * ab.2.x)
      (|ab.1.x| * |ab.2.y| + |ab.1.y| * |ab.2.x|) := fun ab =>
    ((Near.of_abs ab.1.x).mul (Near.of_abs ab.2.y)).sub ((Near.of_abs ab.1.y).mul (Near.of_abs ab.2.x))
  have hsum : ∀ l : List (Pt ℝ × Pt ℝ),
      |(l.map fun ab => R.fl (R.fl (ab.1.x * ab.2.y) - R.fl (ab.1.y * ab.2.x))).sum - (l.map fun ab => ab.1.x * ab.2.y - ab.1.y * ab.2.x).sum| ≤
        R.gam 2 * (l.map fun ab => |ab.1.x| * |ab.2.y| + |ab.1.y| * |ab.2.x|).sum ∧
      ((l.map fun ab => R.fl (R.fl (ab.1.x * ab.2.y) - R.fl (ab.1.y * ab.2.x))).map abs).sum ≤
        (1 + R.u) ^ 2 * (l.map fun ab => |ab.1.x| * |ab.2.y| + |ab.1.y| * |ab.2.x|).sum := by
    intro l
    induction l with
    | nil => simp
    | cons ab l ih =>
      obtain ⟨i1, i2⟩ := ih
      have ht := hterm ab
      simp only [List.map_cons, List.sum_cons]
      constructor
      · rw [add_sub_add_comm, mul_add]
        exact (abs_add_le _ _).trans (add_le_add ht.2 i1)
      · rw [mul_add]
        exact add_le_add ht.abs_le' i2
  obtain ⟨h2, h3⟩ := hsum (iterRotate2 pts)
  have hrep : R.Rep (Fl.sum R .compensated ts) := R.rep_fl _
  have e1 : Fl.polygonArea R .compensated pts = Fl.sum R .compensated ts / 2 := by
    rw [Fl.polygonArea, R.fl_half, hrep]
  have e2 : X7.polygonArea pts = ((iterRotate2 pts).map fun ab => ab.1.x * ab.2.y - ab.1.y * ab.2.x).sum / 2 := rfl
  have e3 : areaSize pts = ((iterRotate2 pts).map fun ab => |ab.1.x| * |ab.2.y| + |ab.1.y| * |ab.2.x|).sum := rfl
  rw [← hts] at h2 h3
  rw [e1, e2, ← sub_div, abs_div, abs_of_pos (by norm_num : (0 : ℝ) < 2), ← mul_div_assoc]
  rw [← e3] at h2 h3
  refine div_le_div_of_nonneg_right ?_ (by norm_num)
  set K := (1 + R.u) ^ (pts.length + 1) * pts.length * R.u * R.gam pts.length with hK
  have hK0 : 0 ≤ K := by
    have := R.gam_nonneg pts.length
    positivity
  set T := ((iterRotate2 pts).map fun ab => ab.1.x * ab.2.y - ab.1.y * ab.2.x).sum
  set S := areaSize pts
  have h4 : |ts.sum| ≤ (1 + R.u) ^ 2 * S := by
    refine le_trans ?_ h3
    have : ∀ l : List ℝ, |l.sum| ≤ (l.map abs).sum := by
      intro l
      induction l with
      | nil => simp
      | cons x l ih => simp only [List.sum_cons, List.map_cons]; exact (abs_add_le _ _).trans (by linarith)
    exact this ts
  have e4 : Fl.sum R .compensated ts - T = (Fl.sum R .compensated ts - ts.sum) + (ts.sum - T) := by ring
  rw [e4]
  refine (abs_add_le _ _).trans ((add_le_add h1 h2).trans ?_)
  have h5 : R.u * |ts.sum| ≤ R.u * ((1 + R.u) ^ 2 * S) := mul_le_mul_of_nonneg_left h4 hu
  have h6 : K * (ts.map abs).sum ≤ K * ((1 + R.u) ^ 2 * S) := mul_le_mul_of_nonneg_left h3 hK0
  have e5 : (1 + R.u) ^ (pts.length + 3) * pts.length * R.u * R.gam pts.length = K * (1 + R.u) ^ 2 := by
    rw [hK]; ring
  rw [e5]
  have e6 : R.gam 3 = R.gam 2 + R.u * (1 + R.u) ^ 2 := by unfold Rnd.gam; ring
  rw [e6]
  nlinarith

/-- C87: for Python floats and up to a million corners: four roundings of the size of the area, no more. -/
theorem C87_area_python (pts : List (Pt ℝ)) (h : pts.length ≤ 2 ^ 20) :
    |Fl.polygonArea (Rnd.binary 53 (by norm_num)) .compensated pts - X7.polygonArea pts| ≤ 4 * (2 : ℝ) ^ (-53 : ℤ) * (areaSize pts / 2) := by
  have h1 := C87_area_compensated 53 (by norm_num) pts
  set R := Rnd.binary 53 (by norm_num) with hR
  have hu : R.u = (2 : ℝ) ^ (-53 : ℤ) := rfl
  have hn : (pts.length : ℝ) ≤ 2 ^ 20 := by exact_mod_cast h
  have hn0 : (0 : ℝ) ≤ pts.length := by positivity
  have hu0 := R.u_nonneg
  have hS : 0 ≤ areaSize pts := by
    apply List.sum_nonneg
    intro x hx
    obtain ⟨ab, -, rfl⟩ := List.mem_map.1 hx
    positivity
  refine h1.trans (mul_le_mul_of_nonneg_right ?_ (by positivity))
  have hnu : (pts.length : ℝ) * R.u ≤ 2 ^ (-33 : ℤ) := by
    rw [hu]
    calc (pts.length : ℝ) * 2 ^ (-53 : ℤ) ≤ 2 ^ 20 * 2 ^ (-53 : ℤ) := by gcongr
      _ = 2 ^ (-33 : ℤ) := by norm_num
  have hnu8 : (pts.length : ℝ) * R.u ≤ 1 / 8 := hnu.trans (by norm_num)
  have hg := R.gam_le pts.length (hnu.trans (by norm_num))
  have hg3 : R.gam 3 ≤ 3.5 * R.u := by
    unfold Rnd.gam
    rw [hu]
    norm_num
  have hpow : (1 + R.u) ^ (pts.length + 3) ≤ 4 := by
    have hm := R.gam_le (pts.length + 3) (by
      push_cast
      rw [add_mul]
      have : (3 : ℝ) * R.u ≤ 1 / 4 := by rw [hu]; norm_num
      linarith)
    unfold Rnd.gam at hm
    have : (2 : ℝ) * (((pts.length + 3 : ℕ) : ℝ) * R.u) ≤ 1 := by
      push_cast
      rw [add_mul]
      have : (3 : ℝ) * R.u ≤ 1 / 8 := by rw [hu]; norm_num
      linarith
    linarith
  have h5 : (1 + R.u) ^ (pts.length + 3) * pts.length * R.u * R.gam pts.length ≤ 0.5 * R.u := by
    have hg0 := R.gam_nonneg pts.length
    calc (1 + R.u) ^ (pts.length + 3) * pts.length * R.u * R.gam pts.length
        ≤ 4 * pts.length * R.u * (2 * (pts.length * R.u)) := by gcongr
      _ = 8 * R.u * (pts.length * (pts.length * R.u)) := by ring
      _ ≤ 8 * R.u * (2 ^ 20 * 2 ^ (-33 : ℤ)) := by gcongr
      _ ≤ 0.5 * R.u := by
        have : (8 : ℝ) * (2 ^ 20 * 2 ^ (-33 : ℤ)) ≤ 0.5 := by norm_num
        nlinarith
  rw [← hu]
  linarith

end Fl
end X7
