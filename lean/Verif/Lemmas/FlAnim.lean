import Mathlib.Tactic.FinCases
import Verif.Model.RndAnim
import Verif.Lemmas.Fl
import Verif.Lemmas.FlBezier
import Verif.Lemmas.FlVec
import Verif.Lemmas.Morph
import Verif.Props.MorphMulti

/-! Rounded blending, quotients and times: lemmas for C88. -/

noncomputable section

namespace X7

namespace Rnd
variable {R : Rnd}

/-- A rounded positive number is positive. -/
theorem fl_pos {x : ℝ} (h : 0 < x) : 0 < R.fl x :=
  lt_of_le_of_ne (R.fl_nonneg h.le) fun e => h.ne' (R.fl_eq_zero.1 e.symm)

theorem le_fl {x : ℝ} (h : 0 ≤ x) : (1 - R.u) * x ≤ R.fl x := by
  have := R.err x
  rw [abs_of_nonneg h, abs_le] at this
  linarith [this.1]

/-- Dividing by a rounded number counts as two roundings. -/
theorem Near.inv_fl {y : ℝ} (hy : 0 < y) : R.Near 2 (1 / R.fl y) (1 / y) (1 / y) := by
  have hu := R.u_nonneg
  have hu2 := R.u_le
  have h1 := R.le_fl hy.le
  have h2 := R.fl_le hy.le
  have hp := R.fl_pos hy
  refine ⟨by rw [abs_of_pos (by positivity)], ?_⟩
  rw [gam, abs_le]
  have hq : (1 + R.u) ^ 2 * R.fl y ≥ y := by
    have : (1 + R.u) ^ 2 * R.fl y ≥ (1 + R.u) ^ 2 * ((1 - R.u) * y) := by
      apply mul_le_mul_of_nonneg_left h1; positivity
    have h3 : (1 + R.u) ^ 2 * (1 - R.u) ≥ 1 := by
      have : 0 ≤ R.u * (1 - R.u - R.u ^ 2) := mul_nonneg hu (by nlinarith)
      nlinarith
    nlinarith
  have hr : (2 - (1 + R.u) ^ 2) * R.fl y ≤ y := by
    rcases le_or_gt (2 - (1 + R.u) ^ 2) 0 with h | h
    · nlinarith
    · have : (2 - (1 + R.u) ^ 2) * R.fl y ≤ (2 - (1 + R.u) ^ 2) * ((1 + R.u) * y) := mul_le_mul_of_nonneg_left h2 h.le
      have h3 : (2 - (1 + R.u) ^ 2) * (1 + R.u) ≤ 1 := by nlinarith [pow_nonneg hu 2, pow_nonneg hu 3]
      nlinarith
  constructor
  · rw [show -(((1 + R.u) ^ 2 - 1) * (1 / y)) = (2 - (1 + R.u) ^ 2) / y - 1 / y by ring]
    have : (2 - (1 + R.u) ^ 2) / y ≤ 1 / R.fl y := by rw [div_le_div_iff₀ hy hp]; linarith
    linarith
  · rw [show ((1 + R.u) ^ 2 - 1) * (1 / y) = (1 + R.u) ^ 2 / y - 1 / y by ring]
    have : 1 / R.fl y ≤ (1 + R.u) ^ 2 / y := by rw [div_le_div_iff₀ hp hy]; linarith
    linarith

theorem Near.div_fl {m : ℕ} {x' x A y : ℝ} (hx : R.Near m x' x A) (hy : 0 < y) :
    R.Near (m + 3) (R.fl (x' / R.fl y)) (x / y) (A / y) := by
  have := (hx.mul' (Near.inv_fl (R := R) hy)).fl
  simpa only [mul_one_div] using this

/-- A rounded quotient of rounded numbers with `0 ≤ x ≤ y`. -/
theorem frac_mem {x y : ℝ} (h0 : 0 ≤ x) (h : x ≤ y) : 0 ≤ R.fl (R.fl x / R.fl y) ∧ R.fl (R.fl x / R.fl y) ≤ 1 := by
  have hx := R.fl_nonneg h0
  have hy := R.fl_nonneg (h0.trans h)
  refine ⟨R.fl_nonneg (div_nonneg hx hy), R.fl_le_of_rep ?_ R.rep_one⟩
  exact div_le_one_of_le₀ (R.mono _ _ h) hy

end Rnd

namespace Fl
variable {R : Rnd}
open Rnd Morph Anim

theorem coord_mixCP (t : ℝ) (m o g : CP ℝ) (k : Fin 6) :
    coord k (Fl.mixCP R t m o g) = R.fl (coord k o + R.fl (R.fl (coord k g - coord k o) * t)) := by
  fin_cases k <;> rfl

theorem mixAll_length (t : ℝ) : ∀ m o g : List (CP ℝ), (Fl.mixAll R t m o g).length = m.length
  | [], _, _ => by simp [Fl.mixAll]
  | _ :: _, [], _ => by simp [Fl.mixAll]
  | _ :: _, _ :: _, [] => by simp [Fl.mixAll]
  | _ :: ms, _ :: os, _ :: gs => by simp [Fl.mixAll, mixAll_length t ms os gs]

theorem mixAll_get (t : ℝ) : ∀ (m o g : List (CP ℝ)) (i : ℕ) (x a b : CP ℝ), m[i]? = some x → o[i]? = some a → g[i]? = some b →
    (Fl.mixAll R t m o g)[i]? = some (Fl.mixCP R t x a b)
  | [], _, _, _, _, _, _, h, _, _ => by simp at h
  | _ :: _, [], _, _, _, _, _, _, h, _ => by simp at h
  | _ :: _, _ :: _, [], _, _, _, _, _, _, h => by simp at h
  | m :: ms, o :: os, g :: gs, 0, x, a, b, h1, h2, h3 => by
    simp only [List.getElem?_cons_zero, Option.some.injEq] at h1 h2 h3
    subst h1 h2 h3; simp [Fl.mixAll]
  | m :: ms, o :: os, g :: gs, i + 1, x, a, b, h1, h2, h3 => by
    simp only [List.getElem?_cons_succ] at h1 h2 h3
    simp only [Fl.mixAll, List.getElem?_cons_succ]
    exact mixAll_get t ms os gs i x a b h1 h2 h3

theorem mixAll_kinds (t : ℝ) : ∀ m o g : List (CP ℝ), (Fl.mixAll R t m o g).map CP.kind = m.map CP.kind
  | [], _, _ => by simp [Fl.mixAll]
  | _ :: _, [], _ => by simp [Fl.mixAll]
  | _ :: _, _ :: _, [] => by simp [Fl.mixAll]
  | _ :: ms, _ :: os, _ :: gs => by simp [Fl.mixAll, mixAll_kinds t ms os gs, Fl.mixCP]

/-- One coordinate of a blend, for a computed fraction. -/
theorem mix_near {j : ℕ} {o g t' t S : ℝ} (ht : R.Near j t' t t) (ho : |o| ≤ S) (hg : |g| ≤ S) :
    R.Near (j + 3) (R.fl (o + R.fl (R.fl (g - o) * t'))) (o + t * (g - o)) ((1 + 2 * t) * S) := by
  have := ((Near.of_le (R := R) ho).add (((Near.of_le (R := R) hg).sub (Near.of_le ho)).mul ht)).mono (n := j + 3) (by omega) le_rfl
  rw [show S + (S + S) * t = (1 + 2 * t) * S by ring, show o + (g - o) * t = o + t * (g - o) by ring] at this
  exact this

theorem mix_zero {o g : ℝ} (ho : R.Rep o) : R.fl (o + R.fl (R.fl (g - o) * 0)) = o := by
  rw [mul_zero, R.fl_zero, add_zero]; exact ho

theorem mix_same {o t : ℝ} (ho : R.Rep o) : R.fl (o + R.fl (R.fl (o - o) * t)) = o := by
  rw [sub_self, R.fl_zero, zero_mul, R.fl_zero, add_zero]; exact ho

/-- What `pick` finds: two curves and a computed fraction, which is the exact one but for rounding. -/
theorem pick_fl (steps : List ℝ) (curves : List (List (CP ℝ))) (hl : steps.length = curves.length) (hne : curves ≠ []) (t : ℝ) :
    ∃ lo hi s, Fl.pick R steps curves t = .ok (lo, hi, s) ∧ lo ∈ curves ∧ hi ∈ curves ∧
      (lo = hi ∧ (∀ φ : List (CP ℝ) → ℝ, PolyAt (steps.zip (curves.map φ)) t (φ lo)) ∨
        ∃ (i : ℕ) (a b τ : ℝ), steps[i]? = some a ∧ steps[i + 1]? = some b ∧ curves[i]? = some lo ∧ a ≤ t ∧ t < b ∧
          τ = (t - a) / (b - a) ∧ 0 ≤ τ ∧ τ ≤ 1 ∧ 0 ≤ s ∧ s ≤ 1 ∧ (t = a → s = 0) ∧
          R.Near 4 s τ τ ∧ ∀ φ : List (CP ℝ) → ℝ, PolyAt (steps.zip (curves.map φ)) t (φ lo + τ * (φ hi - φ lo))) := by
  obtain ⟨b0, b1, b2⟩ := bisectRight_spec steps t
  have hpos : 0 < curves.length := List.length_pos_of_ne_nil hne
  unfold Fl.pick
  simp only
  generalize bisectRight steps t = j at b0 b1 b2
  have get : ∀ i, i < curves.length → ∃ a c, steps[i]? = some a ∧ curves[i]? = some c ∧ steps.getD i 0 = a ∧ curves.getD i [] = c ∧
      c ∈ curves ∧ ∀ φ : List (CP ℝ) → ℝ, (steps.zip (curves.map φ))[i]? = some (a, φ c) := by
    intro i hi
    refine ⟨steps[i]'(hl ▸ hi), curves[i], by simp, by simp, ?_, ?_, by simp, ?_⟩
    · simp [List.getD, hl ▸ hi, hl, hi]
    · simp [List.getD, hi]
    · intro φ
      rw [List.getElem?_zip_eq_some]
      simp [hi]
  have hzl : ∀ φ : List (CP ℝ) → ℝ, (steps.zip (curves.map φ)).length = curves.length := fun φ => by simp [hl]
  by_cases hj0 : j = 0
  · rw [if_pos hj0]
    subst hj0
    obtain ⟨a, c, g1, g2, g3, g4, g5, g6⟩ := get 0 hpos
    rw [g4]
    refine ⟨c, c, t, rfl, g5, g5, Or.inl ⟨rfl, fun φ => Or.inl ⟨(a, φ c), ?_, ?_, rfl⟩⟩⟩
    · rw [List.head?_eq_getElem?]; exact g6 φ
    · rw [g3] at b2
      rcases b2 with b2 | b2
      · omega
      · exact b2
  · rw [if_neg hj0]
    have b1 := b1.resolve_left hj0
    by_cases hjn : curves.length ≤ j
    · rw [if_pos hjn]
      have : j = curves.length := by omega
      subst this
      obtain ⟨a, c, g1, g2, g3, g4, g5, g6⟩ := get (curves.length - 1) (by omega)
      rw [g4]
      rw [g3] at b1
      refine ⟨c, c, t, rfl, g5, g5, Or.inl ⟨rfl, fun φ => Or.inr (Or.inl ⟨(a, φ c), ?_, b1, rfl⟩)⟩⟩
      rw [List.getLast?_eq_getElem?, hzl]
      exact g6 φ
    · rw [if_neg hjn]
      have b2 := b2.resolve_left (by omega)
      obtain ⟨a, c, g1, g2, g3, g4, g5, g6⟩ := get (j - 1) (by omega)
      obtain ⟨a', c', g1', g2', g3', g4', g5', g6'⟩ := get j (by omega)
      rw [g3] at b1 ⊢
      rw [g3'] at b2 ⊢
      rw [g4, g4']
      have hab : 0 < a' - a := by linarith
      have hd : R.fl (a' - a) ≠ 0 := (R.fl_pos hab).ne'
      have hta : 0 ≤ t - a := by linarith
      obtain ⟨m1, m2⟩ := R.frac_mem (x := t - a) (y := a' - a) hta (by linarith)
      have near : R.Near 4 (R.fl (R.fl (t - a) / R.fl (a' - a))) ((t - a) / (a' - a)) ((t - a) / (a' - a)) := by
        have := ((Near.of_abs (R := R) (t - a)).fl).div_fl hab
        rwa [abs_of_nonneg hta] at this
      simp only [pyDiv, if_neg hd]
      refine ⟨c, c', _, rfl, g5, g5', Or.inr ⟨j - 1, a, a', (t - a) / (a' - a), g1, ?_, g2, b1, b2, rfl, div_nonneg hta hab.le,
        div_le_one_of_le₀ (by linarith) hab.le, m1, m2, ?_, near, fun φ => Or.inr (Or.inr ⟨j - 1, (a, φ c), (a', φ c'), g6 φ, ?_, b1, b2, rfl⟩)⟩⟩
      · rw [Nat.sub_add_cancel (by omega)]; exact g1'
      · rintro rfl; simp [R.fl_zero]
      · rw [Nat.sub_add_cancel (by omega)]
        exact g6' φ

/-- Which value `np.interp` computes. -/
theorem npInterp_cases (curve : List (ℝ × ℝ)) (hne : curve ≠ []) (t : ℝ) :
    (∃ k, curve.head? = some k ∧ t < k.1 ∧ Fl.npInterp R (curve.map Prod.fst) (curve.map Prod.snd) t = k.2) ∨
    (∃ k, curve.getLast? = some k ∧ k.1 ≤ t ∧ Fl.npInterp R (curve.map Prod.fst) (curve.map Prod.snd) t = k.2) ∨
    ∃ (i : ℕ) (a b : ℝ × ℝ), curve[i]? = some a ∧ curve[i + 1]? = some b ∧ a.1 ≤ t ∧ t < b.1 ∧
      Fl.npInterp R (curve.map Prod.fst) (curve.map Prod.snd) t =
        R.fl (R.fl (R.fl (R.fl (b.2 - a.2) / R.fl (b.1 - a.1)) * R.fl (t - a.1)) + a.2) := by
  obtain ⟨h0, h1, h2⟩ := bisectRight_spec (curve.map Prod.fst) t
  have hpos : 0 < curve.length := List.length_pos_of_ne_nil hne
  unfold Fl.npInterp
  simp only
  generalize bisectRight (curve.map Prod.fst) t = j at h0 h1 h2
  rw [List.length_map] at h0 h2 ⊢
  have get : ∀ i, i < curve.length → ∃ k, curve[i]? = some k := fun i hi => ⟨curve[i], by simp [hi]⟩
  by_cases hj0 : j = 0
  · rw [if_pos hj0]
    subst hj0
    obtain ⟨k, hk⟩ := get 0 hpos
    obtain ⟨e1, e2⟩ := getD_map_fst curve 0 k hk
    rw [e1] at h2
    refine Or.inl ⟨k, by rw [List.head?_eq_getElem?]; exact hk, ?_, e2⟩
    rcases h2 with h2 | h2
    · omega
    · exact h2
  · rw [if_neg hj0]
    have h1 := h1.resolve_left hj0
    obtain ⟨k, hk⟩ := get (j - 1) (by omega)
    obtain ⟨e1, e2⟩ := getD_map_fst curve (j - 1) k hk
    rw [e1] at h1
    by_cases hjn : j = curve.length
    · rw [if_pos hjn]
      refine Or.inr (Or.inl ⟨k, ?_, h1, e2⟩)
      rw [List.getLast?_eq_getElem?, ← hjn]
      exact hk
    · rw [if_neg hjn]
      have h2 := h2.resolve_left hjn
      obtain ⟨k', hk'⟩ := get j (by omega)
      obtain ⟨e3, e4⟩ := getD_map_fst curve j k' hk'
      rw [e3] at h2
      refine Or.inr (Or.inr ⟨j - 1, k, k', hk, ?_, h1, h2, ?_⟩)
      · rw [Nat.sub_add_cancel (by omega)]; exact hk'
      · rw [e1, e2, e3, e4]

/-- The tie above 1 is rounded down. -/
theorem flBin_one_add (p : ℕ) (hp : 2 ≤ p) : flBin p (1 + (2 : ℝ) ^ (-(p : ℤ))) = 1 := by
  obtain ⟨q, rfl⟩ : ∃ q, p = q + 2 := ⟨p - 2, by omega⟩
  have hz : (0 : ℝ) < 2 ^ (-((q + 2 : ℕ) : ℤ)) := by positivity
  have hle : (2 : ℝ) ^ (-((q + 2 : ℕ) : ℤ)) < 1 := by
    rw [zpow_neg, zpow_natCast]
    exact inv_lt_one_of_one_lt₀ (one_lt_pow₀ (by norm_num) (by omega))
  have e0 : (0 : ℤ) - ((q + 2 : ℕ) : ℤ) + 1 = -((q + 1 : ℕ) : ℤ) := by push_cast; ring
  have zz : (2 : ℝ) ^ (-((q + 2 : ℕ) : ℤ)) * 2 ^ (q + 1) = 1 / 2 := by
    rw [zpow_neg, zpow_natCast, pow_succ (2 : ℝ) (q + 1)]
    field_simp
  have := flBin_eq (q + 2) (1 + (2 : ℝ) ^ (-((q + 2 : ℕ) : ℤ))) 0 (2 ^ (q + 1)) (by rw [abs_of_pos (by linarith), zpow_zero]; linarith)
    (by rw [abs_of_pos (by linarith), zero_add, zpow_one]; linarith)
    (by
      rw [e0, zpow_neg (2 : ℝ) ((q + 1 : ℕ) : ℤ), zpow_natCast (2 : ℝ) (q + 1), div_inv_eq_mul, add_mul, zz, one_mul]
      constructor
      · push_cast; rw [add_sub_cancel_left]; norm_num
      · intro _; exact ⟨2 ^ q, by rw [pow_succ]; ring⟩)
  rw [this, e0, zpow_neg, zpow_natCast]
  push_cast
  field_simp

end Fl
end X7
