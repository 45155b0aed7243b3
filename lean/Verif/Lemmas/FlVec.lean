import Verif.Spec.RndVec
import Verif.Lemmas.Fl

/-!
Lemmas on rounded sums and products of matrices.
-/

namespace X7
namespace Fl
open Rnd
variable {R : Rnd}

/-! ### Sums -/

theorem sumPlain_near_aux {ι : Type*} {k : ℕ} (x' x A : ι → ℝ) (l : List ι) (h : ∀ i ∈ l, R.Near k (x' i) (x i) (A i)) :
    ∀ {j : ℕ} {a' a A0 : ℝ}, k ≤ j → R.Near j a' a A0 →
      R.Near (j + l.length) ((l.map x').foldl (fun acc x => R.fl (acc + x)) a') (a + (l.map x).sum) (A0 + (l.map A).sum) := by
  induction l with
  | nil => intro j a' a A0 _ ha; simpa using ha
  | cons i l ih =>
    intro j a' a A0 hj ha
    have hi := h i (by simp)
    have := ih (fun t ht => h t (by simp [ht])) (j := j + 1) (by omega)
      ((ha.add hi).mono (n := j + 1) (by omega) le_rfl)
    simp only [List.map_cons, List.foldl_cons, List.sum_cons, List.length_cons, ← add_assoc]
    convert this using 1
    omega

theorem sumPlain_near {ι : Type*} {k : ℕ} (x' x A : ι → ℝ) (l : List ι) (h : ∀ i ∈ l, R.Near k (x' i) (x i) (A i)) :
    R.Near (k + l.length) (sumPlain R (l.map x')) (l.map x).sum (l.map A).sum := by
  have := sumPlain_near_aux x' x A l h (j := k) (a' := 0) (a := 0) (A0 := 0) le_rfl
    ((Near.of_le (R := R) (x := 0) (A := 0) (by simp)).mono (Nat.zero_le k) le_rfl)
  simpa [sumPlain] using this

theorem abs_fl_le (x : ℝ) : |R.fl x| ≤ (1 + R.u) * |x| := by
  have := R.err x
  have h := abs_add_le (R.fl x - x) x
  simp only [sub_add_cancel] at h
  linarith

/-- What is added to the compensation is small. -/
theorem comp_term (f x t : ℝ) (ht : |t - (f + x)| ≤ R.u * (|f| + |x|)) :
    |R.fl (R.fl (f - t) + x)| ≤ (1 + R.u) * (((1 + R.u) ^ 2 - 1) * (|f| + |x|)) := by
  have hu := R.u_nonneg
  have h1 := R.err (f - t)
  have h2 : |f - t| ≤ |x| + R.u * (|f| + |x|) := by
    have e : f - t = -(t - (f + x)) - x := by ring
    rw [e]
    refine (abs_sub _ _).trans ?_
    rw [abs_neg]; linarith
  have h3 : |R.fl (f - t) + x| ≤ ((1 + R.u) ^ 2 - 1) * (|f| + |x|) := by
    have e : R.fl (f - t) + x = (R.fl (f - t) - (f - t)) + -(t - (f + x)) := by ring
    rw [e]
    refine (abs_add_le _ _).trans ?_
    rw [abs_neg]
    have hf := abs_nonneg f
    nlinarith [mul_le_mul_of_nonneg_left h2 hu, mul_nonneg hu hf]
  refine (abs_fl_le _).trans ?_
  gcongr

theorem sumStep_fst (l : List ℝ) : ∀ fc : ℝ × ℝ,
    (l.foldl (sumStep R) fc).1 = l.foldl (fun acc x => R.fl (acc + x)) fc.1 := by
  induction l with
  | nil => intro _; rfl
  | cons x l ih => intro fc; simp only [List.foldl_cons]; rw [ih]; rfl

theorem sumStep_snd (l : List ℝ) : ∀ {n : ℕ} {fc : ℝ × ℝ} {A : ℝ}, 0 ≤ A → |fc.1| ≤ (1 + R.u) ^ n * A →
    |fc.2| ≤ R.gam (3 * n + 1) * A →
    |(l.foldl (sumStep R) fc).2| ≤ R.gam (3 * (n + l.length) + 1) * (A + (l.map abs).sum) := by
  induction l with
  | nil => intro n fc A _ _ h; simpa using h
  | cons x l ih =>
    intro n fc A hA h1 h2
    have hu := R.u_nonneg
    have hx := abs_nonneg x
    have hw : 1 ≤ 1 + R.u := by linarith
    have hwn := R.one_le_pow n
    have hfx : |fc.1| + |x| ≤ (1 + R.u) ^ n * (A + |x|) := by nlinarith
    have ht : |R.fl (fc.1 + x) - (fc.1 + x)| ≤ R.u * (|fc.1| + |x|) :=
      (R.err _).trans (by gcongr; exact abs_add_le _ _)
    have hterm : ∀ d, |d| ≤ (1 + R.u) * (((1 + R.u) ^ 2 - 1) * (|fc.1| + |x|)) →
        |R.fl (fc.2 + d)| ≤ R.gam (3 * (n + 1) + 1) * (A + |x|) := by
      intro d hd
      refine (abs_fl_le _).trans ?_
      have g2 : 0 ≤ (1 + R.u) ^ 2 - 1 := by nlinarith
      have hd' : |d| ≤ (1 + R.u) * (((1 + R.u) ^ 2 - 1) * ((1 + R.u) ^ n * (A + |x|))) := by
        refine hd.trans ?_; gcongr
      have hc' : |fc.2| ≤ R.gam (3 * n + 1) * (A + |x|) :=
        h2.trans (by have := R.gam_nonneg (3 * n + 1); gcongr; linarith)
      have hsum : |fc.2 + d| ≤ (((1 + R.u) ^ (3 * n + 1) - 1) + ((1 + R.u) ^ 2 - 1) * (1 + R.u) ^ (n + 1)) * (A + |x|) := by
        refine (abs_add_le _ _).trans ((add_le_add hc' hd').trans (le_of_eq ?_))
        unfold gam; ring
      have hpow : (1 + R.u) ^ (n + 1) ≤ (1 + R.u) ^ (3 * n + 1) := pow_le_pow_right₀ hw (by omega)
      have hcoef : (1 + R.u) * (((1 + R.u) ^ (3 * n + 1) - 1) + ((1 + R.u) ^ 2 - 1) * (1 + R.u) ^ (n + 1)) ≤
          R.gam (3 * (n + 1) + 1) := by
        have : ((1 + R.u) ^ 2 - 1) * (1 + R.u) ^ (n + 1) ≤ ((1 + R.u) ^ 2 - 1) * (1 + R.u) ^ (3 * n + 1) := by gcongr
        have e : R.gam (3 * (n + 1) + 1) = (1 + R.u) ^ 3 * (1 + R.u) ^ (3 * n + 1) - 1 := by
          unfold gam; rw [← pow_add]; congr 2; omega
        rw [e]
        nlinarith
      calc (1 + R.u) * |fc.2 + d| ≤ (1 + R.u) * ((((1 + R.u) ^ (3 * n + 1) - 1) +
              ((1 + R.u) ^ 2 - 1) * (1 + R.u) ^ (n + 1)) * (A + |x|)) := by gcongr
        _ = ((1 + R.u) * (((1 + R.u) ^ (3 * n + 1) - 1) + ((1 + R.u) ^ 2 - 1) * (1 + R.u) ^ (n + 1))) * (A + |x|) := by ring
        _ ≤ _ := by gcongr
    have hf' : |(sumStep R fc x).1| ≤ (1 + R.u) ^ (n + 1) * (A + |x|) := by
      simp only [sumStep]
      refine (abs_fl_le _).trans ?_
      rw [pow_succ']
      rw [mul_assoc]
      have := (abs_add_le fc.1 x).trans hfx
      gcongr
    have hc' : |(sumStep R fc x).2| ≤ R.gam (3 * (n + 1) + 1) * (A + |x|) := by
      simp only [sumStep]
      split
      · exact hterm _ (comp_term _ _ _ ht)
      · refine hterm _ ?_
        rw [add_comm |fc.1|]
        refine comp_term x fc.1 _ ?_
        rw [add_comm x, add_comm |x|]; exact ht
    have := ih (n := n + 1) (add_nonneg hA hx) hf' hc'
    simp only [List.foldl_cons, List.length_cons, List.map_cons, List.sum_cons, ← add_assoc] at this ⊢
    rw [show n + l.length + 1 = n + 1 + l.length by omega]
    exact this

theorem sum_near (mode : SumMode) {ι : Type*} {k : ℕ} (x' x A : ι → ℝ) (l : List ι)
    (h : ∀ i ∈ l, R.Near k (x' i) (x i) (A i)) :
    R.Near (k + sumRounds mode l.length) (sum R mode (l.map x')) (l.map x).sum (l.map A).sum := by
  cases mode with
  | plain => exact sumPlain_near x' x A l h
  | compensated =>
    have hp := sumPlain_near x' x A l h
    have hA := hp.size_nonneg
    have hc := sumStep_snd (R := R) (l.map x') (n := 0) (fc := (0, 0)) (A := 0) le_rfl (by simp) (by simp)
    simp only [zero_add, List.length_map] at hc
    have hx : ((l.map x').map abs).sum ≤ (1 + R.u) ^ k * (l.map A).sum := by
      clear hp hc hA
      induction l with
      | nil => simp
      | cons i l ih =>
        simp only [List.map_cons, List.sum_cons, mul_add]
        exact add_le_add (h i (by simp)).abs_le' (ih fun t ht => h t (by simp [ht]))
    have hmain : R.Near (k + (4 * l.length + 1)) ((((l.map x').foldl (sumStep R) (0, 0)).1) +
        ((l.map x').foldl (sumStep R) (0, 0)).2) (l.map x).sum (l.map A).sum := by
      refine ⟨hp.1, ?_⟩
      rw [sumStep_fst]
      have hpe := hp.2
      unfold sumPlain at hpe
      set f := (l.map x').foldl (fun acc x => R.fl (acc + x)) 0
      set c := ((l.map x').foldl (sumStep R) (0, 0)).2
      have e : f + c - (l.map x).sum = (f - (l.map x).sum) + c := by ring
      rw [e]
      refine (abs_add_le _ _).trans ?_
      have hc2 : |c| ≤ R.gam (3 * l.length + 1) * ((1 + R.u) ^ k * (l.map A).sum) :=
        hc.trans (by have := R.gam_nonneg (3 * l.length + 1); gcongr)
      refine (add_le_add hpe hc2).trans ?_
      rw [← mul_assoc, ← add_mul]
      refine mul_le_mul_of_nonneg_right ?_ hA
      unfold gam
      have e1 : (1 + R.u) ^ (k + (4 * l.length + 1)) = (1 + R.u) ^ k * (1 + R.u) ^ (3 * l.length + 1) * (1 + R.u) ^ l.length := by
        rw [← pow_add, ← pow_add]; congr 1; omega
      rw [e1, pow_add]
      have h1 := R.one_le_pow k
      have h2 := R.one_le_pow (3 * l.length + 1)
      have h3 := R.one_le_pow l.length
      nlinarith [mul_nonneg (mul_nonneg (by linarith : 0 ≤ (1 + R.u) ^ k) (sub_nonneg.2 h2)) (sub_nonneg.2 h3)]
    exact hmain.fl

/-! ### Exact sums -/

theorem exact_int {x : ℝ} (n : ℤ) (hx : x = n) (h : |x| * R.u ≤ 1) : R.fl x = x := by
  subst hx; exact R.int n h

theorem sumPlain_int_aux (l : List ℤ) : ∀ (a : ℤ), ((|(a : ℝ)| + (l.map fun n : ℤ => |(n : ℝ)|).sum) * R.u ≤ 1) →
    (l.map fun n : ℤ => (n : ℝ)).foldl (fun acc x => R.fl (acc + x)) (a : ℝ) = a + (l.map fun n : ℤ => (n : ℝ)).sum := by
  have hu := R.u_nonneg
  induction l with
  | nil => intro a _; simp
  | cons n l ih =>
    intro a h
    have hn : 0 ≤ (l.map fun n : ℤ => |(n : ℝ)|).sum := List.sum_nonneg (by simp)
    simp only [List.map_cons, List.sum_cons] at h
    have hab := abs_add_le (a : ℝ) (n : ℝ)
    have e : R.fl ((a : ℝ) + n) = ((a + n : ℤ) : ℝ) := by
      push_cast
      refine exact_int (a + n) (by push_cast; rfl) (le_trans ?_ h)
      gcongr; linarith
    simp only [List.map_cons, List.foldl_cons, List.sum_cons, e]
    rw [ih (a + n)]
    · push_cast; ring
    · refine le_trans ?_ h
      push_cast
      exact mul_le_mul_of_nonneg_right (by linarith) hu

theorem sumStep_int_aux (l : List ℤ) : ∀ (a : ℤ), ((|(a : ℝ)| + (l.map fun n : ℤ => |(n : ℝ)|).sum) * R.u ≤ 1) →
    (l.map fun n : ℤ => (n : ℝ)).foldl (sumStep R) ((a : ℝ), 0) = (a + (l.map fun n : ℤ => (n : ℝ)).sum, 0) := by
  have hu := R.u_nonneg
  induction l with
  | nil => intro a _; simp
  | cons n l ih =>
    intro a h
    have hn : 0 ≤ (l.map fun n : ℤ => |(n : ℝ)|).sum := List.sum_nonneg (by simp)
    simp only [List.map_cons, List.sum_cons] at h
    have hab := abs_add_le (a : ℝ) (n : ℝ)
    have ha0 := abs_nonneg (a : ℝ)
    have hn0 := abs_nonneg (n : ℝ)
    have e : R.fl ((a : ℝ) + n) = ((a + n : ℤ) : ℝ) := by
      push_cast
      refine exact_int (a + n) (by push_cast; rfl) (le_trans ?_ h)
      gcongr; linarith
    have e1 : R.fl ((a : ℝ) - ((a + n : ℤ) : ℝ)) = -n := by
      have : (a : ℝ) - ((a + n : ℤ) : ℝ) = ((-n : ℤ) : ℝ) := by push_cast; ring
      rw [this, R.int]
      · push_cast; rfl
      · push_cast; rw [abs_neg]; refine le_trans ?_ h; gcongr; linarith
    have e2 : R.fl ((n : ℝ) - ((a + n : ℤ) : ℝ)) = -a := by
      have : (n : ℝ) - ((a + n : ℤ) : ℝ) = ((-a : ℤ) : ℝ) := by push_cast; ring
      rw [this, R.int]
      · push_cast; rfl
      · push_cast; rw [abs_neg]; refine le_trans ?_ h; gcongr; linarith
    have es : sumStep R ((a : ℝ), 0) (n : ℝ) = (((a + n : ℤ) : ℝ), 0) := by
      simp only [sumStep, e, e1, e2, neg_add_cancel, R.fl_zero, add_zero, ite_self]
    simp only [List.map_cons, List.foldl_cons, List.sum_cons, es]
    rw [ih (a + n)]
    · push_cast; rw [add_assoc]
    · refine le_trans ?_ h
      push_cast
      exact mul_le_mul_of_nonneg_right (by linarith) hu

theorem sum_int (mode : SumMode) (l : List ℤ) (h : (l.map fun n : ℤ => |(n : ℝ)|).sum * R.u ≤ 1) :
    sum R mode (l.map fun n : ℤ => (n : ℝ)) = (l.map fun n : ℤ => (n : ℝ)).sum := by
  cases mode with
  | plain =>
    have := sumPlain_int_aux (R := R) l 0 (by simpa using h)
    simpa [sum, sumPlain] using this
  | compensated =>
    have := sumStep_int_aux (R := R) l 0 (by simpa using h)
    simp only [Int.cast_zero, zero_add] at this
    simp only [sum, sumComp, this, add_zero]
    have e : (l.map fun n : ℤ => (n : ℝ)).sum = (l.sum : ℤ) := by
      clear h this
      induction l with
      | nil => simp
      | cons n l ih => rw [List.map_cons, List.sum_cons, List.sum_cons, ih]; push_cast; rfl
    have hle : |(l.map fun n : ℤ => (n : ℝ)).sum| ≤ (l.map fun n : ℤ => |(n : ℝ)|).sum := by
      clear h this e
      induction l with
      | nil => simp
      | cons n l ih => simp only [List.map_cons, List.sum_cons]; exact (abs_add_le _ _).trans (by linarith)
    exact exact_int l.sum e (le_trans (mul_le_mul_of_nonneg_right hle R.u_nonneg) h)

/-! ### Matrices -/

/-- All entries of a matrix are computed values. -/
def NearM (R : Rnd) (n : ℕ) (m' m A : Mat3 ℝ) : Prop :=
  (R.Near n m'.a m.a A.a ∧ R.Near n m'.b m.b A.b ∧ R.Near n m'.c m.c A.c) ∧
  (R.Near n m'.d m.d A.d ∧ R.Near n m'.e m.e A.e ∧ R.Near n m'.f m.f A.f) ∧
  R.Near n m'.g m.g A.g ∧ R.Near n m'.h m.h A.h ∧ R.Near n m'.i m.i A.i

theorem mul_near (mode : DotMode) {i j : ℕ} {m' m A n' n B : Mat3 ℝ} (hm : NearM R i m' m A) (hn : NearM R j n' n B) :
    NearM R (i + j + 3) (mul R mode m' n') (m.mul n) (A.mul B) := by
  obtain ⟨⟨a1, a2, a3⟩, ⟨a4, a5, a6⟩, a7, a8, a9⟩ := hm
  obtain ⟨⟨b1, b2, b3⟩, ⟨b4, b5, b6⟩, b7, b8, b9⟩ := hn
  exact ⟨⟨dot3_near mode a1 b1 a2 b4 a3 b7, dot3_near mode a1 b2 a2 b5 a3 b8, dot3_near mode a1 b3 a2 b6 a3 b9⟩,
    ⟨dot3_near mode a4 b1 a5 b4 a6 b7, dot3_near mode a4 b2 a5 b5 a6 b8, dot3_near mode a4 b3 a5 b6 a6 b9⟩,
    dot3_near mode a7 b1 a8 b4 a9 b7, dot3_near mode a7 b2 a8 b5 a9 b8, dot3_near mode a7 b3 a8 b6 a9 b9⟩

theorem apply_nearM (mode : DotMode) {k : ℕ} {m' m A : Mat3 ℝ} (hm : NearM R k m' m A) (p : Pt ℝ) :
    R.Near (k + 3) (apply R mode m' p).x (m.apply p).x (A.a * |p.x| + A.b * |p.y| + A.c) ∧
    R.Near (k + 3) (apply R mode m' p).y (m.apply p).y (A.d * |p.x| + A.e * |p.y| + A.f) := by
  obtain ⟨⟨a1, a2, a3⟩, ⟨a4, a5, a6⟩, -⟩ := hm
  have one : R.Near 0 1 1 1 := Near.of_le (by simp)
  have h1 := dot3_near mode a1 (Near.of_abs p.x) a2 (Near.of_abs p.y) a3 one
  have h2 := dot3_near mode a4 (Near.of_abs p.x) a5 (Near.of_abs p.y) a6 one
  simp only [mul_one, add_zero] at h1 h2
  exact ⟨h1, h2⟩

theorem nearM_abs (m : Mat3 ℝ) : NearM R 0 m m m.absM :=
  ⟨⟨Near.of_abs _, Near.of_abs _, Near.of_abs _⟩, ⟨Near.of_abs _, Near.of_abs _, Near.of_abs _⟩, Near.of_abs _, Near.of_abs _,
    Near.of_abs _⟩

/-- The three orders of summation agree when one product is 0 or all is exact. -/
theorem dot3_first {mode : DotMode} {a x c z : ℝ} (b y : ℝ) (h : b * y = 0) (hc : c * z = 0) :
    dot3 R mode a x b y c z = R.fl (a * x) := by
  cases mode <;> simp [dot3, h, hc, R.fl_zero, R.idem]

theorem dot3_second {mode : DotMode} {b y c z : ℝ} (a x : ℝ) (h : a * x = 0) (hc : c * z = 0) :
    dot3 R mode a x b y c z = R.fl (b * y) := by
  cases mode <;> simp [dot3, h, hc, R.fl_zero, R.idem]

theorem dot3_third {mode : DotMode} {c z : ℝ} (a x b y : ℝ) (h : a * x = 0) (h2 : b * y = 0) :
    dot3 R mode a x b y c z = R.fl (c * z) := by
  cases mode <;> simp [dot3, h, h2, R.fl_zero, R.idem]

theorem dot3_first_third {mode : DotMode} {a x c z : ℝ} (b y : ℝ) (h : b * y = 0) (hx : R.Rep (a * x)) (hz : R.Rep (c * z)) :
    dot3 R mode a x b y c z = R.fl (a * x + c * z) := by
  unfold Rep at hx hz
  cases mode <;> simp [dot3, h, R.fl_zero, hx, hz]

theorem dot3_second_third {mode : DotMode} {b y c z : ℝ} (a x : ℝ) (h : a * x = 0) (hy : R.Rep (b * y)) (hz : R.Rep (c * z)) :
    dot3 R mode a x b y c z = R.fl (b * y + c * z) := by
  unfold Rep at hy hz
  cases mode <;> simp [dot3, h, R.fl_zero, hy, hz, R.idem]

end Fl
end X7
