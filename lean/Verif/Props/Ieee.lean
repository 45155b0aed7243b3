import Verif.Lemmas.Ieee
import Verif.Lemmas.Fl
import Verif.Spec.Region

/-!
C98: floats of finite range.
-/

noncomputable section

namespace X7.Fmt
open NB
variable (F : Fmt)

theorem two_p : (2 : ℝ) ^ 2 ≤ 2 ^ F.p := pow_le_pow_right₀ (by norm_num) F.hp

/-- The exponent of the last place near the largest floats. -/
theorem last_top {x : ℝ} (h1 : F.maxf ≤ x) (h2 : x ≤ F.limit) : F.last x = F.emax := by
  have h0 : (0 : ℝ) < 2 ^ F.emax := by positivity
  have hp := F.two_p
  have hx : 0 < x := F.maxf_pos.trans_le h1
  have hl : Int.log 2 |x| = F.emax + F.p - 1 := by
    apply log_eq
    · rw [abs_of_pos hx]
      refine le_trans ?_ h1
      rw [add_sub_assoc, zpow_add₀ (by norm_num), zpow_sub_one₀ (by norm_num), zpow_natCast, maxf, mul_comm]
      norm_num at hp
      have : (2 : ℝ) ^ F.p * 2⁻¹ ≤ 2 ^ F.p - 1 := by linarith
      gcongr
    · rw [abs_of_pos hx]
      refine lt_of_le_of_lt h2 ?_
      rw [show F.emax + F.p - 1 + 1 = F.p + F.emax by ring, zpow_add₀ (by norm_num), zpow_natCast, limit]
      have : (2 : ℝ) ^ F.p - 1 / 2 < 2 ^ F.p := by linarith
      gcongr
  unfold last
  rw [hl]
  have := F.he
  omega

theorem maxf_lt_limit : F.maxf < F.limit := by
  unfold maxf limit
  have h0 : (0 : ℝ) < 2 ^ F.emax := by positivity
  have : (2 : ℝ) ^ F.p - 1 < 2 ^ F.p - 1 / 2 := by linarith
  gcongr

theorem rnd_limit : F.rnd F.limit = 2 ^ F.p * 2 ^ F.emax := by
  have h0 : (0 : ℝ) < 2 ^ F.emax := by positivity
  unfold rnd
  rw [F.last_top F.maxf_lt_limit.le le_rfl]
  have e : F.limit / 2 ^ F.emax = 2 ^ F.p - 1 / 2 := by unfold limit; field_simp
  have : pyRound (2 ^ F.p - 1 / 2 : ℝ) = 2 ^ F.p := by
    symm
    rw [← isRound_iff]
    constructor
    · push_cast; rw [show (2 : ℝ) ^ F.p - 1 / 2 - 2 ^ F.p = -(1 / 2) by ring, abs_neg]; norm_num
    · intro _
      have := F.hp
      exact (even_two).pow_of_ne_zero (by omega)
  rw [e, this]; push_cast; ring

/-- Rounding exceeds the largest float from the limit on. -/
theorem over_iff (x : ℝ) : F.maxf < F.rnd x ↔ F.limit ≤ x := by
  have h0 : (0 : ℝ) < 2 ^ F.emax := by positivity
  constructor
  · intro h
    by_contra hc
    push Not at hc
    rcases le_total x F.maxf with hx | hx
    · have := F.rnd_mono hx
      rw [F.rnd_fl F.fl_maxf] at this; linarith
    · have e : pyRound (x / 2 ^ F.emax) ≤ 2 ^ F.p - 1 := by
        by_contra hc2
        push Not at hc2
        have h1 : (2 ^ F.p : ℤ) ≤ pyRound (x / 2 ^ F.emax) := by omega
        have h2 := (abs_le.1 (isRound_pyRound (x / 2 ^ F.emax)).1).1
        have h3 : (2 : ℝ) ^ F.p ≤ pyRound (x / 2 ^ F.emax) := by exact_mod_cast h1
        have h4 : x / 2 ^ F.emax < 2 ^ F.p - 1 / 2 := by rw [div_lt_iff₀ h0]; exact hc
        linarith
      have e2 : (pyRound (x / 2 ^ F.emax) : ℝ) ≤ 2 ^ F.p - 1 := by exact_mod_cast e
      unfold rnd at h
      rw [F.last_top hx hc.le, maxf, mul_comm] at h
      have := lt_of_mul_lt_mul_left h h0.le
      linarith
  · intro h
    have h1 := F.rnd_mono h
    rw [rnd_limit] at h1
    refine lt_of_lt_of_le ?_ h1
    unfold maxf
    have : (2 : ℝ) ^ F.p - 1 < 2 ^ F.p := by linarith
    gcongr

theorem under_iff (x : ℝ) : F.rnd x < -F.maxf ↔ x ≤ -F.limit := by
  have := F.over_iff (-x)
  rw [rnd_neg] at this
  constructor
  · intro h; have := this.1 (by linarith); linarith
  · intro h; have := this.2 (by linarith); linarith

theorem rnd_in_iff (x : ℝ) : |F.rnd x| ≤ F.maxf ↔ |x| < F.limit := by
  rw [abs_le, abs_lt]
  have h1 := F.over_iff x
  have h2 := F.under_iff x
  constructor
  · rintro ⟨a, b⟩
    exact ⟨not_le.1 fun h => absurd (h2.2 h) (not_lt.2 a), not_le.1 fun h => absurd (h1.2 h) (not_lt.2 b)⟩
  · rintro ⟨a, b⟩
    exact ⟨not_lt.1 fun h => absurd (h2.1 h) (not_le.2 a), not_lt.1 fun h => absurd (h1.1 h) (not_le.2 b)⟩

/-- C98: the result of an operation is infinite exactly if the exact result is too large; else it is a float, and no float is nearer
to the exact result. It is the exact result if that is a float. -/
theorem C98_rounding (x : ℝ) :
    (F.toF x = .num ⊤ ↔ F.limit ≤ x) ∧ (F.toF x = .num ⊥ ↔ x ≤ -F.limit) ∧
    (|x| < F.limit → ∃ r, F.toF x = fin r ∧ F.IsFl r ∧ ∀ y, F.IsFl y → |r - x| ≤ |y - x|) ∧
    (F.IsFl x → F.toF x = fin x) := by
  have ho := F.over_iff x
  have hu := F.under_iff x
  have hm := F.maxf_pos
  refine ⟨?_, ?_, ?_, ?_⟩
  · rw [← ho]
    unfold toF
    split
    next h => simp [h]
    next h =>
      split
      next h' => simp [h]
      next h' => simp [h, fin]
  · rw [← hu]
    unfold toF
    split
    next h => simp; linarith
    next h =>
      split
      next h' => simp [h']
      next h' => simp [fin]; linarith
  · intro h
    have h1 := (F.rnd_in_iff x).2 h
    refine ⟨F.rnd x, F.toF_fin h1, F.fl_rnd h1, ?_⟩
    rintro y ⟨m, e, hm, he, _, rfl⟩
    exact F.rnd_nearest x m e hm he
  · intro h
    rw [F.toF_in (F.fl_le_maxf h), F.rnd_fl h]

/-- C98: rounding is monotone, also where it overflows. -/
theorem C98_monotone (x y : ℝ) (h : x ≤ y) : le (F.toF x) (F.toF y) = true := by
  have h1 := F.rnd_mono h
  have hm := F.maxf_pos
  unfold toF
  split
  next a => rw [if_pos (by linarith)]; simp [le]
  next a =>
    split
    next b => split <;> try split
              all_goals simp [le, fin]
    next b =>
      split
      next c => simp [le, fin]
      next c => rw [if_neg (by linarith)]; simpa [le, fin] using h1

theorem toF_normal {x : ℝ} (h : F.InRange x) : F.toF x = fin (flBin F.p x) := by
  rcases h with rfl | ⟨h1, h2⟩
  · rw [F.toF_in (by simpa using F.maxf_pos.le), rnd_zero, flBin_zero]
  · rw [F.toF_fin ((F.rnd_in_iff x).2 h2), F.rnd_big h1]

/-- C98: an expression none of whose operations has a result that is too small or too large is evaluated as C85 to C89 assume. -/
theorem C98_transfer (e : Ex) (he : ∀ r ∈ e.results (.binary F.p (by have := F.hp; omega)), F.InRange r) :
    e.ieee F = fin (e.wide (.binary F.p (by have := F.hp; omega))) := by
  induction e with
  | val x => rfl
  | add a b iha ihb =>
    simp only [Ex.results, List.mem_cons, List.mem_append] at he
    rw [Ex.ieee, iha fun r hr => he r (.inr (.inl hr)), ihb fun r hr => he r (.inr (.inr hr)), add_fin,
      F.toF_normal (he _ (.inl rfl))]
    rfl
  | sub a b iha ihb =>
    simp only [Ex.results, List.mem_cons, List.mem_append] at he
    rw [Ex.ieee, iha fun r hr => he r (.inr (.inl hr)), ihb fun r hr => he r (.inr (.inr hr)), sub_fin,
      F.toF_normal (he _ (.inl rfl))]
    rfl
  | mul a b iha ihb =>
    simp only [Ex.results, List.mem_cons, List.mem_append] at he
    rw [Ex.ieee, iha fun r hr => he r (.inr (.inl hr)), ihb fun r hr => he r (.inr (.inr hr)), mul_fin,
      F.toF_normal (he _ (.inl rfl))]
    rfl
  | half a iha =>
    simp only [Ex.results, List.mem_cons] at he
    rw [Ex.ieee, iha fun r hr => he r (.inr hr), half_fin, F.toF_normal (he _ (.inl rfl))]
    rfl

/-- C98: the functions that C98_transfer applies to: with floats of finite range, and as they are in C85 and C87. -/
theorem C98_functions (R : Rnd) :
    (∀ p q : Pt ℝ, F.mid (finPt p) (finPt q) =
        ⟨(Ex.half (.add (.val p.x) (.val q.x))).ieee F, (Ex.half (.add (.val p.y) (.val q.y))).ieee F⟩ ∧
      Fl.mid R p q = ⟨(Ex.half (.add (.val p.x) (.val q.x))).wide R, (Ex.half (.add (.val p.y) (.val q.y))).wide R⟩) ∧
    (∀ xl yl xh yh : ℝ,
      (F.center (finBox (.box xl yl xh yh)) =
          .ok ⟨(Ex.half (.add (.val xl) (.val xh))).ieee F, (Ex.half (.add (.val yl) (.val yh))).ieee F⟩ ∧
        Fl.center R (.box xl yl xh yh) =
          .ok ⟨(Ex.half (.add (.val xl) (.val xh))).wide R, (Ex.half (.add (.val yl) (.val yh))).wide R⟩) ∧
      (F.width (finBox (.box xl yl xh yh)) = (Ex.sub (.val xh) (.val xl)).ieee F ∧
        Fl.width R (.box xl yl xh yh) = (Ex.sub (.val xh) (.val xl)).wide R) ∧
      (F.height (finBox (.box xl yl xh yh)) = (Ex.sub (.val yh) (.val yl)).ieee F ∧
        Fl.height R (.box xl yl xh yh) = (Ex.sub (.val yh) (.val yl)).wide R) ∧
      (F.area (finBox (.box xl yl xh yh)) = (Ex.mul (.sub (.val xh) (.val xl)) (.sub (.val yh) (.val yl))).ieee F ∧
        Fl.area R (.box xl yl xh yh) = (Ex.mul (.sub (.val xh) (.val xl)) (.sub (.val yh) (.val yl))).wide R)) ∧
    (∀ a x b y c z : ℝ,
      (F.dot3 .left (fin a) (fin x) (fin b) (fin y) (fin c) (fin z) =
          (Ex.add (.add (.mul (.val a) (.val x)) (.mul (.val b) (.val y))) (.mul (.val c) (.val z))).ieee F ∧
        Fl.dot3 R .left a x b y c z =
          (Ex.add (.add (.mul (.val a) (.val x)) (.mul (.val b) (.val y))) (.mul (.val c) (.val z))).wide R) ∧
      (F.dot3 .right (fin a) (fin x) (fin b) (fin y) (fin c) (fin z) =
          (Ex.add (.mul (.val a) (.val x)) (.add (.mul (.val b) (.val y)) (.mul (.val c) (.val z)))).ieee F ∧
        Fl.dot3 R .right a x b y c z =
          (Ex.add (.mul (.val a) (.val x)) (.add (.mul (.val b) (.val y)) (.mul (.val c) (.val z)))).wide R)) :=
  ⟨fun _ _ => ⟨rfl, rfl⟩, fun _ _ _ _ => ⟨⟨rfl, rfl⟩, ⟨rfl, rfl⟩, ⟨rfl, rfl⟩, ⟨rfl, rfl⟩⟩, fun _ _ _ _ _ _ => ⟨⟨rfl, rfl⟩, rfl, rfl⟩⟩

/-! ### Boxes -/

/-- Floats are whole multiples of the smallest one. -/
theorem fl_mult {x : ℝ} (h : F.IsFl x) : ∃ n : ℤ, x = n * 2 ^ F.emin := by
  obtain ⟨m, e, _, h2, _, rfl⟩ := h
  obtain ⟨j, hj⟩ : ∃ j : ℕ, e = F.emin + j := ⟨(e - F.emin).toNat, by omega⟩
  exact ⟨m * 2 ^ j, by rw [hj, zpow_add₀ (by norm_num), zpow_natCast]; push_cast; ring⟩

theorem rnd_eta : F.rnd (2 ^ F.emin) = 2 ^ F.emin := by
  have := F.rnd_rep 1 F.emin (by simp; exact one_le_pow₀ (by norm_num)) le_rfl
  simpa using this

/-- The difference of two floats is not rounded to zero. -/
theorem rnd_sub_pos {x y : ℝ} (hx : F.IsFl x) (hy : F.IsFl y) (h : x < y) : 0 < F.rnd (y - x) := by
  obtain ⟨m, rfl⟩ := F.fl_mult hx
  obtain ⟨n, rfl⟩ := F.fl_mult hy
  have h0 := F.eta_pos
  have h1 : (m : ℝ) < n := lt_of_mul_lt_mul_right h h0.le
  have h2 : m + 1 ≤ n := by exact_mod_cast h1
  have h3 : (m : ℝ) + 1 ≤ n := by exact_mod_cast h2
  have h4 : (2 : ℝ) ^ F.emin ≤ n * 2 ^ F.emin - m * 2 ^ F.emin := by nlinarith
  have := F.rnd_mono h4
  rw [rnd_eta] at this
  linarith

theorem toF_nonneg {x : ℝ} (h : 0 ≤ x) : ∃ w, F.toF x = .num w ∧ 0 ≤ w ∧ (w = 0 ↔ F.rnd x = 0) ∧ (w = ⊤ ↔ F.limit ≤ x) := by
  have hr := F.rnd_nonneg h
  have hm := F.maxf_pos
  have ho := F.over_iff x
  unfold toF
  split
  next a => exact ⟨⊤, rfl, le_top, by simp; linarith, by simp; exact ho.1 a⟩
  next a =>
    rw [if_neg (by linarith)]
    refine ⟨(F.rnd x : EReal), rfl, by exact_mod_cast hr, by norm_cast, ?_⟩
    constructor
    · intro h; exact absurd h (EReal.coe_ne_top _)
    · intro h; exact absurd (ho.2 h) a

/-- C98: the width of a box of floats is a number, not negative; it is zero exactly if the box has no extent in x (gradual underflow
is needed for this), and infinite exactly if the difference is too large. -/
theorem C98_width (xl yl xh yh : ℝ) (hf : F.FlBox (.box xl yl xh yh)) (hn : (BBox.box xl yl xh yh).Norm) :
    ∃ w, F.width (finBox (.box xl yl xh yh)) = .num w ∧ 0 ≤ w ∧ (w = 0 ↔ xl = xh) ∧ (w = ⊤ ↔ F.limit ≤ xh - xl) := by
  obtain ⟨w, h1, h2, h3, h4⟩ := F.toF_nonneg (x := xh - xl) (by linarith [hn.1])
  refine ⟨w, (F.sub_fin xh xl).trans h1, h2, h3.trans ?_, h4⟩
  constructor
  · intro h
    by_contra hc
    exact (F.rnd_sub_pos hf.1.1 hf.2.1 (lt_of_le_of_ne hn.1 hc)).ne' h
  · intro h; rw [h, sub_self, rnd_zero]

/-- C98: the same for the height. -/
theorem C98_height (xl yl xh yh : ℝ) (hf : F.FlBox (.box xl yl xh yh)) (hn : (BBox.box xl yl xh yh).Norm) :
    ∃ w, F.height (finBox (.box xl yl xh yh)) = .num w ∧ 0 ≤ w ∧ (w = 0 ↔ yl = yh) ∧ (w = ⊤ ↔ F.limit ≤ yh - yl) :=
  F.C98_width yl xl yh xh ⟨⟨hf.1.2, hf.1.1⟩, hf.2.2, hf.2.1⟩ ⟨hn.2, hn.1⟩

/-- The product of two numbers other than minus infinity. -/
theorem mul_num (w v : EReal) (wb : w ≠ ⊥) (vb : v ≠ ⊥) :
    ((w = 0 ∧ v = ⊤) ∨ (w = ⊤ ∧ v = 0) → F.mul (.num w) (.num v) = .nan) ∧
    (¬ ((w = 0 ∧ v = ⊤) ∨ (w = ⊤ ∧ v = 0)) → w = ⊤ ∨ v = ⊤ → F.mul (.num w) (.num v) = .num (w * v)) ∧
    (¬ (w = ⊤ ∨ v = ⊤) → F.mul (.num w) (.num v) = F.toF (w.toReal * v.toReal)) := by
  simp only [mul, wb, vb, or_false, false_or]
  refine ⟨fun h => if_pos h, fun h h' => ?_, fun h => ?_⟩
  · rw [if_neg h, if_pos h']
  · push Not at h
    simp [h.1, h.2]

/-- C98: the area of a box of floats is NaN exactly if one side overflows and the other is zero; else it is not negative, and zero if a
side is zero. -/
theorem C98_area (xl yl xh yh : ℝ) (hf : F.FlBox (.box xl yl xh yh)) (hn : (BBox.box xl yl xh yh).Norm) :
    (F.area (finBox (.box xl yl xh yh)) = .nan ↔
      (xl = xh ∧ F.limit ≤ yh - yl) ∨ (F.limit ≤ xh - xl ∧ yl = yh)) ∧
    (∀ a, F.area (finBox (.box xl yl xh yh)) = .num a → 0 ≤ a ∧ (xl = xh ∨ yl = yh → a = 0)) := by
  obtain ⟨w, w1, w2, w3, w4⟩ := F.C98_width xl yl xh yh hf hn
  obtain ⟨v, v1, v2, v3, v4⟩ := F.C98_height xl yl xh yh hf hn
  have e : F.area (finBox (.box xl yl xh yh)) = F.mul (.num w) (.num v) := by rw [← w1, ← v1]; rfl
  have wb : w ≠ ⊥ := fun h => by rw [h] at w2; simp at w2
  have vb : v ≠ ⊥ := fun h => by rw [h] at v2; simp at v2
  rw [e, ← w3, ← w4, ← v3, ← v4]
  by_cases hnan : (w = 0 ∧ v = ⊤) ∨ (w = ⊤ ∧ v = 0)
  · have : F.mul (.num w) (.num v) = .nan := (F.mul_num w v wb vb).1 hnan
    rw [this]
    exact ⟨by simpa using hnan, fun a h => by cases h⟩
  · by_cases hinf : w = ⊤ ∨ v = ⊤
    · have : F.mul (.num w) (.num v) = .num (w * v) := (F.mul_num w v wb vb).2.1 hnan hinf
      rw [this]
      refine ⟨by simpa using hnan, fun a h => ?_⟩
      cases h
      exact ⟨mul_nonneg w2 v2, fun h => by rcases h with h | h <;> simp [h]⟩
    · have e2 : F.mul (.num w) (.num v) = F.toF (w.toReal * v.toReal) := (F.mul_num w v wb vb).2.2 hinf
      obtain ⟨a, a1, a2, a3, _⟩ := F.toF_nonneg (x := w.toReal * v.toReal)
        (mul_nonneg (EReal.toReal_nonneg w2) (EReal.toReal_nonneg v2))
      rw [e2, a1]
      refine ⟨by simpa using hnan, fun b h => ?_⟩
      cases h
      refine ⟨a2, fun h => a3.2 ?_⟩
      rcases h with h | h <;> simp [h, rnd_zero]

/-- C98: a box with an extent in both directions can have area zero (C85 is about unlimited range): the sides are the smallest positive
float. This is so in every format that has floats below 1/2, as that of Python. -/
theorem C98_area_zero_counterexample (he : F.emin ≤ -2) : ∃ b : BBox ℝ, F.FlBox b ∧ b.Norm ∧ NB.isEmpty (finBox b) = false ∧
    F.area (finBox b) = fin 0 := by
  have h0 := F.eta_pos
  have fl : F.IsFl (2 ^ F.emin) := ⟨1, F.emin, by simp; exact one_lt_pow₀ (by norm_num) (by have := F.hp; omega), le_rfl, F.he, by simp⟩
  have fl0 : F.IsFl 0 := ⟨0, F.emin, by simp, le_rfl, F.he, by simp⟩
  refine ⟨.box 0 0 (2 ^ F.emin) (2 ^ F.emin), ⟨⟨fl0, fl0⟩, fl, fl⟩, ⟨h0.le, h0.le⟩, ?_, ?_⟩
  · have : eq (fin 0) (fin (2 ^ F.emin)) = false := by
      simp only [eq, fin, decide_eq_false_iff_not]
      intro h
      exact h0.ne (by exact_mod_cast h)
    simp only [NB.isEmpty, finBox, this]; rfl
  · have e1 : F.sub (fin (2 ^ F.emin)) (fin 0) = fin (2 ^ F.emin) := by
      rw [sub_fin, sub_zero]; exact (F.C98_rounding _).2.2.2 fl
    show F.mul (F.sub _ _) (F.sub _ _) = _
    rw [e1, mul_fin]
    have h4 : (2 : ℝ) ^ F.emin ≤ 1 / 4 := (zpow_le_zpow_right₀ (by norm_num) he).trans (by norm_num)
    have hr : F.rnd (2 ^ F.emin * 2 ^ F.emin) = 0 := by
      have ht : (2 : ℝ) ^ F.emin ≤ F.tiny := zpow_le_zpow_right₀ (by norm_num) (by have := F.hp; omega)
      rw [F.rnd_small (by rw [abs_of_pos (by positivity)]; nlinarith)]
      have e : (2 : ℝ) ^ F.emin * 2 ^ F.emin / 2 ^ F.emin = 2 ^ F.emin := by field_simp
      have : pyRound ((2 : ℝ) ^ F.emin) = 0 := by
        symm
        rw [← isRound_iff]
        refine ⟨?_, fun _ => by simp⟩
        rw [Int.cast_zero, sub_zero, abs_of_pos h0]; linarith
      rw [e, this]; simp
    rw [F.toF_fin (by rw [hr]; simpa using F.maxf_pos.le), hr]

example : double.emin ≤ -2 := by norm_num [double]

/-- C98: the area of a box of finite floats can be NaN: a horizontal line from the least to the greatest float. -/
theorem C98_area_nan_counterexample : ∃ b : BBox ℝ, F.FlBox b ∧ b.Norm ∧ F.area (finBox b) = .nan := by
  have fl0 : F.IsFl 0 := ⟨0, F.emin, by simp, le_rfl, F.he, by simp⟩
  have hm := F.maxf_pos
  have hb : F.FlBox (.box (-F.maxf) 0 F.maxf 0) := ⟨⟨F.fl_neg F.fl_maxf, fl0⟩, F.fl_maxf, fl0⟩
  have hn : (BBox.box (-F.maxf) 0 F.maxf 0).Norm := ⟨by linarith, le_rfl⟩
  refine ⟨_, hb, hn, (F.C98_area _ _ _ _ hb hn).1.2 (.inr ⟨?_, rfl⟩)⟩
  have h0 : (0 : ℝ) < 2 ^ F.emax := by positivity
  have hp := F.two_p
  norm_num at hp
  unfold maxf limit
  have : (2 : ℝ) ^ F.p - 1 / 2 ≤ 2 * (2 ^ F.p - 1) := by linarith
  calc ((2 : ℝ) ^ F.p - 1 / 2) * 2 ^ F.emax ≤ 2 * (2 ^ F.p - 1) * 2 ^ F.emax := by gcongr
    _ = _ := by ring

/-- Twice a float is not rounded, unless it is too large. -/
theorem rnd_dbl {x : ℝ} (h : F.IsFl x) : F.rnd (2 * x) = 2 * x := by
  obtain ⟨m, e, h1, h2, _, rfl⟩ := h
  have := F.rnd_rep m (e + 1) h1.le (by omega)
  rw [zpow_add_one₀ (by norm_num)] at this
  rw [show 2 * ((m : ℝ) * 2 ^ e) = m * (2 ^ e * 2) by ring]; exact this

/-- One coordinate of a midpoint. -/
theorem mid_coord {x y : ℝ} (hx : F.IsFl x) (hy : F.IsFl y) :
    (|x + y| < F.limit → ∃ c, F.half (F.add (fin x) (fin y)) = fin c ∧ min x y ≤ c ∧ c ≤ max x y) ∧
    (F.limit ≤ |x + y| → F.half (F.add (fin x) (fin y)) = .num ⊤ ∨ F.half (F.add (fin x) (fin y)) = .num ⊥) := by
  have key : ∀ {x y : ℝ}, F.IsFl x → F.IsFl y → x ≤ y → x ≤ F.rnd (F.rnd (x + y) / 2) ∧ F.rnd (F.rnd (x + y) / 2) ≤ y := by
    intro x y hx hy h
    have h1 := F.rnd_mono (show 2 * x ≤ x + y by linarith)
    have h2 := F.rnd_mono (show x + y ≤ 2 * y by linarith)
    rw [F.rnd_dbl hx] at h1
    rw [F.rnd_dbl hy] at h2
    have h3 := F.rnd_mono (show x ≤ F.rnd (x + y) / 2 by linarith)
    have h4 := F.rnd_mono (show F.rnd (x + y) / 2 ≤ y by linarith)
    rw [F.rnd_fl hx] at h3
    rw [F.rnd_fl hy] at h4
    exact ⟨h3, h4⟩
  rw [add_fin]
  constructor
  · intro h
    have h1 := (F.rnd_in_iff _).2 h
    have h2 : |F.rnd (x + y) / 2| ≤ F.maxf := by
      rw [abs_div, abs_of_pos (show (0 : ℝ) < 2 by norm_num)]
      have := abs_nonneg (F.rnd (x + y)); linarith
    refine ⟨F.rnd (F.rnd (x + y) / 2), by rw [F.toF_fin h1, half_fin, F.toF_in h2], ?_⟩
    rcases le_total x y with hxy | hxy
    · rw [min_eq_left hxy, max_eq_right hxy]; exact key hx hy hxy
    · rw [min_eq_right hxy, max_eq_left hxy, add_comm]; exact key hy hx hxy
  · intro h
    rcases le_abs.1 h with h | h
    · left; rw [(F.C98_rounding (x + y)).1.2 h]; simp [half]
    · right; rw [(F.C98_rounding (x + y)).2.1.2 (by linarith)]; simp [half]

/-- C98: the centre of a box of floats is in the box, in spite of rounding and underflow, unless a sum of coordinates overflows; then
it is not. -/
theorem C98_center (xl yl xh yh : ℝ) (hf : F.FlBox (.box xl yl xh yh)) (hn : (BBox.box xl yl xh yh).Norm) :
    ∃ c, F.center (finBox (.box xl yl xh yh)) = .ok c ∧
      (Inside (finBox (.box xl yl xh yh)) c ↔ |xl + xh| < F.limit ∧ |yl + yh| < F.limit) := by
  refine ⟨_, rfl, ?_⟩
  obtain ⟨x1, x2⟩ := F.mid_coord hf.1.1 hf.2.1
  obtain ⟨y1, y2⟩ := F.mid_coord hf.1.2 hf.2.2
  have nx : xl ≤ xh := hn.1
  have ny : yl ≤ yh := hn.2
  constructor
  · rintro ⟨⟨a, b⟩, c, d⟩
    constructor
    · by_contra hc
      rcases x2 (not_lt.1 hc) with h | h
      · simp only [h] at b; simp [le, fin] at b
      · simp only [h] at a; simp [le, fin] at a
    · by_contra hc
      rcases y2 (not_lt.1 hc) with h | h
      · simp only [h] at d; simp [le, fin] at d
      · simp only [h] at c; simp [le, fin] at c
  · rintro ⟨hx, hy⟩
    obtain ⟨c, e, c1, c2⟩ := x1 hx
    obtain ⟨d, e', d1, d2⟩ := y1 hy
    rw [min_eq_left nx] at c1
    rw [max_eq_right nx] at c2
    rw [min_eq_left ny] at d1
    rw [max_eq_right ny] at d2
    simp only [e, e']
    exact ⟨⟨le_fin.2 c1, le_fin.2 c2⟩, le_fin.2 d1, le_fin.2 d2⟩

/-- C98: the midpoint of two points of floats is in the box they span, unless a sum overflows. -/
theorem C98_mid (p q : Pt ℝ) (hp : F.FlPt p) (hq : F.FlPt q) :
    Inside (NB.ofPts (finPt p) (finPt q)) (F.mid (finPt p) (finPt q)) ↔ |p.x + q.x| < F.limit ∧ |p.y + q.y| < F.limit := by
  obtain ⟨x1, x2⟩ := F.mid_coord hp.1 hq.1
  obtain ⟨y1, y2⟩ := F.mid_coord hp.2 hq.2
  have mn : ∀ a b : ℝ, pmin (fin a) (fin b) = fin (min a b) := fun a b => by
    simp [pmin, fin, lt]; split <;> rename_i h
    · rw [min_eq_right h.le]
    · rw [min_eq_left (not_lt.1 h)]
  have mx : ∀ a b : ℝ, pmax (fin a) (fin b) = fin (max a b) := fun a b => by
    simp [pmax, fin, lt]; split <;> rename_i h
    · rw [max_eq_right h.le]
    · rw [max_eq_left (not_lt.1 h)]
  have eb : NB.ofPts (finPt p) (finPt q) =
      .box (fin (min p.x q.x)) (fin (min p.y q.y)) (fin (max p.x q.x)) (fin (max p.y q.y)) := by
    simp only [NB.ofPts, NB.mk', finPt, mn, mx]
  rw [eb]
  constructor
  · rintro ⟨⟨a, b⟩, c, d⟩
    simp only [mid, finPt] at a b c d
    constructor
    · by_contra hc
      rcases x2 (not_lt.1 hc) with h | h
      · simp only [h] at b; simp [le, fin] at b
      · simp only [h] at a; simp [le, fin] at a
    · by_contra hc
      rcases y2 (not_lt.1 hc) with h | h
      · simp only [h] at d; simp [le, fin] at d
      · simp only [h] at c; simp [le, fin] at c
  · rintro ⟨hx, hy⟩
    obtain ⟨c, e, c1, c2⟩ := x1 hx
    obtain ⟨d, e', d1, d2⟩ := y1 hy
    simp only [Inside, mid, finPt, e, e']
    exact ⟨⟨le_fin.2 c1, le_fin.2 c2⟩, le_fin.2 d1, le_fin.2 d2⟩

/-- C98: so the centre of a box of finite floats, even of a single point, can be infinite (C85 is about unlimited range). -/
theorem C98_center_counterexample : ∃ b : BBox ℝ, F.FlBox b ∧ b.Norm ∧ ∃ c, F.center (finBox b) = .ok c ∧ ¬ Inside (finBox b) c := by
  have hb : F.FlBox (.box F.maxf F.maxf F.maxf F.maxf) := ⟨⟨F.fl_maxf, F.fl_maxf⟩, F.fl_maxf, F.fl_maxf⟩
  have hn : (BBox.box F.maxf F.maxf F.maxf F.maxf).Norm := ⟨le_rfl, le_rfl⟩
  obtain ⟨c, e, h⟩ := F.C98_center _ _ _ _ hb hn
  refine ⟨_, hb, hn, c, e, fun hc => ?_⟩
  have h1 := (h.1 hc).1
  have h0 : (0 : ℝ) < 2 ^ F.emax := by positivity
  have hp := F.two_p
  norm_num at hp
  have hm := F.maxf_pos
  rw [abs_of_pos (by linarith)] at h1
  unfold maxf limit at h1
  have : (2 : ℝ) ^ F.p - 1 / 2 ≤ 2 * (2 ^ F.p - 1) := by linarith
  have h2 : ((2 : ℝ) ^ F.p - 1 / 2) * 2 ^ F.emax ≤ 2 * (2 ^ F.p - 1) * 2 ^ F.emax := by gcongr
  linarith

end X7.Fmt
