import Verif.Lemmas.Ieee
import Verif.Props.Ieee
import Verif.Spec.IeeeLine

/-!
C104: lines with floats of finite range, infinities and NaN. `F` is any format.
-/

noncomputable section

namespace X7.Fmt
open NB
variable (F : Fmt)

/-! ### Small facts about the arithmetic -/

theorem neg_neg' (a : N) : neg (neg a) = a := by cases a <;> simp [neg]

theorem toF_neg (x : ℝ) : F.toF (-x) = neg (F.toF x) := by
  have hm := F.maxf_pos
  unfold toF
  rw [F.rnd_neg]
  by_cases h1 : F.maxf < F.rnd x
  · rw [if_neg (by linarith), if_pos (by linarith), if_pos h1]; simp [neg]
  · by_cases h2 : F.rnd x < -F.maxf
    · rw [if_pos (by linarith), if_neg h1, if_pos h2]; simp [neg]
    · rw [if_neg (by linarith), if_neg (by linarith), if_neg h1, if_neg h2]; simp [neg, fin]

theorem mul_comm' (a b : N) : F.mul a b = F.mul b a := by
  cases a with
  | nan => cases b <;> rfl
  | num a =>
    cases b with
    | nan => rfl
    | num b =>
      simp only [mul, mul_comm b.toReal, mul_comm b a]
      by_cases h1 : (a = 0 ∧ (b = ⊤ ∨ b = ⊥)) ∨ ((a = ⊤ ∨ a = ⊥) ∧ b = 0)
      · rw [if_pos h1, if_pos (by tauto)]
      · rw [if_neg h1]
        by_cases h2 : a = ⊤ ∨ a = ⊥ ∨ b = ⊤ ∨ b = ⊥
        · rw [if_pos h2, if_neg (by tauto), if_pos (by tauto)]
        · rw [if_neg h2, if_neg (by tauto), if_neg (by tauto)]

theorem neg_mul' (a b : N) : F.mul (neg a) b = neg (F.mul a b) := by
  cases a with
  | nan => cases b <;> rfl
  | num a =>
    cases b with
    | nan => rfl
    | num b =>
      show F.mul (.num (-a)) (.num b) = _
      simp only [mul, EReal.neg_eq_zero_iff, EReal.neg_eq_top_iff, EReal.neg_eq_bot_iff]
      by_cases h1 : (a = 0 ∧ (b = ⊤ ∨ b = ⊥)) ∨ ((a = ⊤ ∨ a = ⊥) ∧ b = 0)
      · rw [if_pos (by tauto), if_pos h1]; rfl
      · by_cases h2 : a = ⊤ ∨ a = ⊥ ∨ b = ⊤ ∨ b = ⊥
        · rw [if_neg (by tauto), if_pos (by tauto), if_neg h1, if_pos h2, EReal.neg_mul]; rfl
        · rw [if_neg (by tauto), if_neg (by tauto), if_neg h1, if_neg h2, EReal.toReal_neg_eq, neg_mul, F.toF_neg]

theorem add_comm' (a b : N) : F.add a b = F.add b a := by
  cases a with
  | nan => cases b <;> rfl
  | num a =>
    cases b with
    | nan => rfl
    | num b =>
      simp only [add, add_comm b.toReal]
      by_cases h1 : (a = ⊤ ∧ b = ⊥) ∨ (a = ⊥ ∧ b = ⊤)
      · rw [if_pos h1, if_pos (by tauto)]
      · rw [if_neg h1]
        by_cases h2 : a = ⊤ ∨ b = ⊤
        · rw [if_pos h2, if_neg (by tauto), if_pos (by tauto)]
        · rw [if_neg h2]
          by_cases h3 : a = ⊥ ∨ b = ⊥
          · rw [if_pos h3, if_neg (by tauto), if_neg (by tauto), if_pos (by tauto)]
          · rw [if_neg h3, if_neg (by tauto), if_neg (by tauto), if_neg (by tauto)]

theorem neg_add' (a b : N) : F.add (neg a) (neg b) = neg (F.add a b) := by
  cases a with
  | nan => cases b <;> rfl
  | num a =>
    cases b with
    | nan => rfl
    | num b =>
      show F.add (.num (-a)) (.num (-b)) = _
      simp only [add, EReal.neg_eq_top_iff, EReal.neg_eq_bot_iff]
      by_cases h1 : (a = ⊤ ∧ b = ⊥) ∨ (a = ⊥ ∧ b = ⊤)
      · rw [if_pos (by tauto), if_pos h1]; rfl
      · by_cases h2 : a = ⊤ ∨ b = ⊤
        · have h3 : ¬(a = ⊥ ∨ b = ⊥) := by
            rintro (rfl | rfl) <;> rcases h2 with h | h <;> simp_all
          rw [if_neg (by tauto), if_neg h3, if_pos h2, if_neg h1, if_pos h2]; simp [neg]
        · by_cases h3 : a = ⊥ ∨ b = ⊥
          · rw [if_neg (by tauto), if_pos h3, if_neg h1, if_neg h2, if_pos h3]; simp [neg]
          · rw [if_neg (by tauto), if_neg h3, if_neg h2, if_neg h1, if_neg h2, if_neg h3, EReal.toReal_neg_eq,
              EReal.toReal_neg_eq, ← neg_add, F.toF_neg]

theorem eq_zero_neg (a : N) : eq (neg a) (fin 0) = eq a (fin 0) := by
  cases a with
  | nan => rfl
  | num a => simp [eq, neg, fin]

/-- The denominator is the negative of the cross product, with infinities and NaN as with numbers. -/
theorem den_eq (v w : Vec N) : F.dot (normal v) w = neg (F.cross v w) := by
  simp only [dot, normal, cross, sub, F.neg_mul']
  rw [← F.neg_add', neg_neg', F.add_comm']

theorem cross_swap (v w : Vec N) : F.cross w v = neg (F.cross v w) := by
  simp only [cross, sub]
  rw [← F.neg_add', neg_neg', F.add_comm', F.mul_comm' w.x, F.mul_comm' w.y]

theorem div_ok (a : N) {b : N} (h : eq b (fin 0) = false) : ∃ r, F.div a b = .ok r := by
  cases b with
  | nan => exact ⟨_, rfl⟩
  | num b =>
    have hb : b ≠ 0 := by simpa [eq, fin] using h
    simp only [div, if_neg hb]
    cases a with
    | nan => exact ⟨_, rfl⟩
    | num a =>
      simp only
      by_cases h1 : b = ⊤ ∨ b = ⊥
      · rw [if_pos h1]; by_cases h2 : a = ⊤ ∨ a = ⊥
        · rw [if_pos h2]; exact ⟨_, rfl⟩
        · rw [if_neg h2]; exact ⟨_, rfl⟩
      · rw [if_neg h1]; by_cases h2 : a = ⊤ ∨ a = ⊥
        · rw [if_pos h2]; exact ⟨_, rfl⟩
        · rw [if_neg h2]; exact ⟨_, rfl⟩

theorem lineT_ok {l o : Line N} (h : eq (F.cross l.direction o.direction) (fin 0) = false) : ∃ t, F.lineT l o = .ok t :=
  F.div_ok _ (by rw [F.den_eq, eq_zero_neg]; exact h)

/-! ### Errors -/

/-- C104: whatever the coordinates are, infinities and NaN among them, `intersection` raises `ParallelLineError` exactly if `parallel`
says so, and no other exception: the denominator is never zero. -/
theorem C104_intersection_errors (l o : Line N) :
    (F.parallel l o = true ↔ F.intersection l o = .error .parallelLine) ∧
    (F.parallel l o = false ↔ ∃ p, F.intersection l o = .ok p) := by
  unfold parallel intersection
  cases h : eq (F.cross l.direction o.direction) (fin 0) with
  | true => simp
  | false =>
    obtain ⟨t, ht⟩ := F.lineT_ok h
    simp [ht]

/-- C104: `parallel` is symmetric. -/
theorem C104_parallel_symm (l o : Line N) : F.parallel l o = F.parallel o l := by
  unfold parallel
  rw [F.cross_swap l.direction o.direction, eq_zero_neg]

theorem eq_num_iff {a b : N} : eq a b = true ↔ ∃ r, a = .num r ∧ b = .num r := by
  cases a with
  | nan => simp [eq]
  | num a => cases b with
    | nan => simp [eq]
    | num b => simp [eq, eq_comm]

/-- The difference of two finite results is zero exactly if they are equal. -/
theorem sub_toF_zero (x y : ℝ) :
    eq (F.sub (F.toF x) (F.toF y)) (fin 0) = true ↔ (|x| < F.limit ∧ |y| < F.limit ∧ F.rnd x = F.rnd y) := by
  have hx := F.rnd_in_iff x
  have hy := F.rnd_in_iff y
  have hm := F.maxf_pos
  have big : ∀ z, ¬ |z| < F.limit → F.toF z = .num ⊤ ∨ F.toF z = .num ⊥ := by
    intro z hz
    have hr := (not_congr (F.rnd_in_iff z)).2 hz
    rw [abs_le] at hr
    unfold toF
    by_cases h1 : F.maxf < F.rnd z
    · rw [if_pos h1]; exact .inl rfl
    · rw [if_neg h1, if_pos (by by_contra h2; exact hr ⟨by linarith, by linarith⟩)]; exact .inr rfl
  by_cases h1 : |x| < F.limit
  · by_cases h2 : |y| < F.limit
    · rw [F.toF_fin (hx.2 h1), F.toF_fin (hy.2 h2), F.sub_fin]
      have f1 := F.fl_rnd (hx.2 h1)
      have f2 := F.fl_rnd (hy.2 h2)
      have z : F.toF (F.rnd x - F.rnd y) = fin 0 ↔ F.rnd x = F.rnd y := by
        constructor
        · intro h
          have hin : |F.rnd x - F.rnd y| < F.limit := by
            by_contra hc
            rcases big _ hc with h' | h' <;> rw [h'] at h <;> simp [fin] at h
          rw [F.toF_fin ((F.rnd_in_iff _).2 hin), fin_inj] at h
          rcases lt_trichotomy (F.rnd x) (F.rnd y) with hlt | he | hlt
          · have := F.rnd_sub_pos f1 f2 hlt
            rw [← neg_sub, F.rnd_neg] at h; linarith
          · exact he
          · have := F.rnd_sub_pos f2 f1 hlt
            linarith
        · intro h
          rw [h, sub_self, F.toF_in (by simpa using hm.le), F.rnd_zero]
      rw [eq_num_iff]
      constructor
      · rintro ⟨r, h3, h4⟩
        exact ⟨h1, h2, z.1 (by rw [h3, h4])⟩
      · rintro ⟨-, -, h⟩
        exact ⟨(0 : ℝ), by rw [z.2 h]; rfl, rfl⟩
    · rw [F.toF_fin (hx.2 h1)]
      refine ⟨fun h => ?_, fun h => absurd h.2.1 h2⟩
      rcases big y h2 with h' | h' <;> rw [h'] at h <;> simp [sub, neg, add, fin, eq] at h
  · refine ⟨fun h => ?_, fun h => absurd h.1 h1⟩
    rcases big x h1 with h' | h' <;> rw [h'] at h <;> cases hyv : F.toF y with
      | nan => rw [hyv] at h; simp [sub, neg, add, eq] at h
      | num b =>
        rw [hyv] at h
        rw [eq_num_iff] at h
        obtain ⟨r, h3, h4⟩ := h
        have hr : r = 0 := by simpa [fin] using h4.symm
        subst hr
        simp only [sub, neg, add] at h3
        split at h3
        · cases h3
        · first
            | (simp at h3; done)
            | (split at h3 <;> simp at h3)

/-- C104: for lines of finite floats, `parallel` compares the two rounded products of the cross product: it is true exactly if neither
overflows and they are equal. -/
theorem C104_parallel_iff (l o : Line ℝ) :
    F.parallel (finLine l) (finLine o) = true ↔
      (|l.direction.x * o.direction.y| < F.limit ∧ |l.direction.y * o.direction.x| < F.limit ∧
        F.rnd (l.direction.x * o.direction.y) = F.rnd (l.direction.y * o.direction.x)) := by
  rw [← F.sub_toF_zero]
  unfold parallel cross finLine
  simp only [mul_fin]

/-- C104: so a line is parallel to itself exactly if the product of the two coordinates of its direction does not overflow. -/
theorem C104_self_parallel (l : Line ℝ) :
    F.parallel (finLine l) (finLine l) = true ↔ |l.direction.x * l.direction.y| < F.limit := by
  rw [C104_parallel_iff, mul_comm l.direction.y]
  tauto

/-- Perpendicular directions with one coordinate zero each. -/
theorem C104_perpendicular (l o : Line ℝ) (h1 : l.direction.y = 0) (h2 : o.direction.x = 0) :
    F.parallel (finLine l) (finLine o) = true ↔ |l.direction.x * o.direction.y| ≤ 2 ^ F.emin / 2 := by
  rw [C104_parallel_iff, h1, zero_mul, F.rnd_zero, abs_zero]
  have e0 := F.eta_pos
  have lim : (2 : ℝ) ^ F.emin ≤ F.maxf := by
    have : F.IsFl ((2 : ℝ) ^ F.emin) := ⟨1, F.emin, by
      rw [abs_one]; exact one_lt_pow₀ (by norm_num) (by have := F.hp; omega), le_rfl, F.he, by push_cast; ring⟩
    have := F.fl_le_maxf this
    rwa [abs_of_pos e0] at this
  have lt := F.maxf_lt_limit
  have key : ∀ z : ℝ, F.rnd z = 0 ↔ |z| ≤ 2 ^ F.emin / 2 := by
    have pos : ∀ z : ℝ, 0 ≤ z → (F.rnd z = 0 ↔ z ≤ 2 ^ F.emin / 2) := by
      intro z hz
      constructor
      · intro h
        by_contra hc
        push Not at hc
        have := F.rnd_nearest z 1 F.emin (by rw [abs_one]; exact one_lt_pow₀ (by norm_num) (by have := F.hp; omega)) le_rfl
        rw [h] at this
        push_cast at this
        rw [zero_sub, abs_neg, abs_of_nonneg hz, one_mul] at this
        rcases le_total z (2 ^ F.emin) with hl | hl
        · rw [abs_of_nonneg (by linarith)] at this; linarith
        · have m := F.rnd_mono hl
          rw [F.rnd_eta, h] at m
          linarith
      · intro h
        have ht : (2 : ℝ) ^ F.emin ≤ F.tiny := zpow_le_zpow_right₀ (by norm_num) (by have := F.hp; omega)
        rw [F.rnd_small (by rw [abs_of_nonneg hz]; linarith)]
        have h3 : pyRound (z / 2 ^ F.emin) = 0 := by
          symm
          rw [← isRound_iff]
          have h4 : z / 2 ^ F.emin ≤ 1 / 2 := by rw [div_le_iff₀ e0]; linarith
          have h5 : 0 ≤ z / 2 ^ F.emin := div_nonneg hz e0.le
          exact ⟨by rw [Int.cast_zero, sub_zero, abs_of_nonneg h5]; exact h4, fun _ => by simp⟩
        rw [h3]; simp
    intro z
    rcases le_total 0 z with h | h
    · rw [abs_of_nonneg h]; exact pos z h
    · rw [abs_of_nonpos h, ← pos (-z) (by linarith), F.rnd_neg, neg_eq_zero]
  rw [key]
  constructor
  · rintro ⟨-, -, h⟩; exact h
  · intro h; exact ⟨by linarith, by linarith, h⟩

/-- C104: perpendicular lines of finite floats can be `parallel`: those through the origin along the axes with the smallest positive
float as length, or any two lengths whose product is not above half of the smallest positive float. Their `intersection` raises
`ParallelLineError`. -/
theorem C104_perpendicular_counterexample (he : F.emin ≤ -1) : ∃ l o : Line ℝ, F.FlLine l ∧ F.FlLine o ∧
    l.direction.x * o.direction.x + l.direction.y * o.direction.y = 0 ∧ l.direction ≠ ⟨0, 0⟩ ∧ o.direction ≠ ⟨0, 0⟩ ∧
    l.origin = o.origin ∧ F.intersection (finLine l) (finLine o) = .error .parallelLine := by
  have e0 := F.eta_pos
  have f0 : F.IsFl 0 := ⟨0, F.emin, by simp, le_rfl, F.he, by simp⟩
  have f1 : F.IsFl (2 ^ F.emin) := ⟨1, F.emin, by
    rw [abs_one]; exact one_lt_pow₀ (by norm_num) (by have := F.hp; omega), le_rfl, F.he, by push_cast; ring⟩
  refine ⟨⟨⟨0, 0⟩, ⟨2 ^ F.emin, 0⟩⟩, ⟨⟨0, 0⟩, ⟨0, 2 ^ F.emin⟩⟩, ⟨⟨f0, f0⟩, f1, f0⟩, ⟨⟨f0, f0⟩, f0, f1⟩, by simp, ?_, ?_, rfl, ?_⟩
  · intro h; have := congrArg Vec.x h; simp only at this; linarith
  · intro h; have := congrArg Vec.y h; simp only at this; linarith
  · rw [← (F.C104_intersection_errors _ _).1, C104_perpendicular _ _ _ rfl rfl]
    simp only
    rw [abs_of_pos (by positivity)]
    have : (2 : ℝ) ^ F.emin ≤ 1 / 2 := by
      calc (2 : ℝ) ^ F.emin ≤ 2 ^ (-1 : ℤ) := zpow_le_zpow_right₀ (by norm_num) he
        _ = 1 / 2 := by norm_num
    nlinarith

/-- The largest float times itself overflows. -/
theorem maxf_sq (h : 0 ≤ F.emax) : F.limit ≤ F.maxf * F.maxf := by
  have t := F.two_p
  have e1 : (1 : ℝ) ≤ 2 ^ F.emax := one_le_zpow₀ (by norm_num) h
  have lt : F.limit = F.maxf + 2 ^ F.emax / 2 := by unfold limit maxf; ring
  have m3 : 3 ≤ F.maxf := by unfold maxf; nlinarith
  have le : (2 : ℝ) ^ F.emax ≤ F.maxf := by unfold maxf; nlinarith
  rw [lt]; nlinarith

theorem toF_top {x : ℝ} (h : F.limit ≤ x) : F.toF x = .num ⊤ := by
  unfold toF
  rw [if_pos ((F.over_iff x).2 h)]

theorem toF_bot {x : ℝ} (h : x ≤ -F.limit) : F.toF x = .num ⊥ := by
  have := F.toF_top (x := -x) (by linarith)
  rw [F.toF_neg] at this
  cases hx : F.toF x with
  | nan => rw [hx] at this; simp [neg] at this
  | num a => rw [hx] at this; simp [neg] at this; rw [this]

/-- C104: lines with the same direction need not be `parallel`: if the product of the coordinates of the direction overflows, the cross
product is NaN, and `intersection` returns a point whose coordinates are NaN, without an exception. -/
theorem C104_nan_counterexample (he : 0 ≤ F.emax) : ∃ l o : Line ℝ, F.FlLine l ∧ F.FlLine o ∧ l.direction = o.direction ∧
    F.parallel (finLine l) (finLine o) = false ∧ F.intersection (finLine l) (finLine o) = .ok ⟨.nan, .nan⟩ := by
  have f0 : F.IsFl 0 := ⟨0, F.emin, by simp, le_rfl, F.he, by simp⟩
  have fm := F.fl_maxf
  have big := F.toF_top (F.maxf_sq he)
  have c : F.cross ⟨fin F.maxf, fin F.maxf⟩ ⟨fin F.maxf, fin F.maxf⟩ = .nan := by
    simp only [cross, mul_fin, big, sub, neg, add]
    simp
  have hp : F.parallel (finLine ⟨⟨0, 0⟩, ⟨F.maxf, F.maxf⟩⟩) (finLine ⟨⟨0, F.maxf⟩, ⟨F.maxf, F.maxf⟩⟩) = false := by
    show eq (F.cross ⟨fin F.maxf, fin F.maxf⟩ ⟨fin F.maxf, fin F.maxf⟩) _ = false
    rw [c]; rfl
  refine ⟨⟨⟨0, 0⟩, ⟨F.maxf, F.maxf⟩⟩, ⟨⟨0, F.maxf⟩, ⟨F.maxf, F.maxf⟩⟩, ⟨⟨f0, f0⟩, fm, fm⟩, ⟨⟨f0, fm⟩, fm, fm⟩, rfl, hp, ?_⟩
  unfold intersection
  have h' : eq (F.cross (finLine ⟨⟨0, 0⟩, ⟨F.maxf, F.maxf⟩⟩).direction (finLine ⟨⟨0, F.maxf⟩, ⟨F.maxf, F.maxf⟩⟩).direction) (fin 0) = false := hp
  rw [h']
  have t : F.lineT (finLine ⟨⟨0, 0⟩, ⟨F.maxf, F.maxf⟩⟩) (finLine ⟨⟨0, F.maxf⟩, ⟨F.maxf, F.maxf⟩⟩) = .ok .nan := by
    have d : F.dot (normal ⟨fin F.maxf, fin F.maxf⟩) ⟨fin F.maxf, fin F.maxf⟩ = .nan := by rw [F.den_eq, c]; rfl
    show F.div _ (F.dot (normal ⟨fin F.maxf, fin F.maxf⟩) ⟨fin F.maxf, fin F.maxf⟩) = _
    rw [d]; rfl
  simp only [t]
  rfl

/-! ### Segments -/

theorem add_finite {a b : N} {r : ℝ} (h : F.add a b = fin r) : ∃ x y : ℝ, a = fin x ∧ b = fin y := by
  cases a with
  | nan => cases b <;> simp [add, fin] at h
  | num a => cases b with
    | nan => simp [add, fin] at h
    | num b =>
      simp only [add] at h
      split at h
      · simp [fin] at h
      · split at h
        · simp [fin] at h
        · split at h
          · simp [fin] at h
          · rename_i h1 h2 h3
            push Not at h2 h3
            exact ⟨a.toReal, b.toReal, by rw [fin, EReal.coe_toReal h2.1 h3.1], by rw [fin, EReal.coe_toReal h2.2 h3.2]⟩

theorem neg_finite {a : N} {r : ℝ} (h : neg a = fin r) : a = fin (-r) := by
  have := congrArg neg h
  rwa [neg_neg', neg_fin] at this

theorem sub_finite {a b : N} {r : ℝ} (h : F.sub a b = fin r) : ∃ x y : ℝ, a = fin x ∧ b = fin y := by
  obtain ⟨x, y, h1, h2⟩ := F.add_finite h
  exact ⟨x, -y, h1, neg_finite h2⟩

theorem mul_finite {a b : N} {r : ℝ} (h : F.mul a b = fin r) : ∃ x y : ℝ, a = fin x ∧ b = fin y := by
  cases a with
  | nan => cases b <;> simp [mul, fin] at h
  | num a => cases b with
    | nan => simp [mul, fin] at h
    | num b =>
      simp only [mul] at h
      split at h
      · simp [fin] at h
      · split at h
        · rename_i h1 h2
          exfalso
          simp only [fin, Num.num.injEq] at h
          push Not at h1
          rcases eq_or_ne a 0 with ha | ha
          · have hb := h1.1 ha
            subst ha
            rcases h2 with h2 | h2 | h2 | h2
            · simp at h2
            · simp at h2
            · exact hb.1 h2
            · exact hb.2 h2
          · rcases eq_or_ne b 0 with hb | hb
            · subst hb
              rcases h2 with h2 | h2 | h2 | h2
              · exact (h1.2 (.inl h2)) rfl
              · exact (h1.2 (.inr h2)) rfl
              · simp at h2
              · simp at h2
            · have key : a * b = ⊤ ∨ a * b = ⊥ := by
                rcases lt_or_gt_of_ne ha with la | la <;> rcases lt_or_gt_of_ne hb with lb | lb <;>
                  rcases h2 with rfl | rfl | rfl | rfl <;>
                  simp_all [EReal.top_mul_of_pos, EReal.top_mul_of_neg, EReal.bot_mul_of_pos, EReal.bot_mul_of_neg,
                    EReal.mul_top_of_pos, EReal.mul_top_of_neg, EReal.mul_bot_of_pos, EReal.mul_bot_of_neg]
              rcases key with k | k <;> rw [k] at h <;> simp at h
        · rename_i h1 h2
          push Not at h2
          exact ⟨a.toReal, b.toReal, by rw [fin, EReal.coe_toReal h2.1 h2.2.1], by rw [fin, EReal.coe_toReal h2.2.2.1 h2.2.2.2]⟩

theorem finite_of_hyp {hyp : N → N → N} (hh : HypLaw hyp) {a b c : N} (h : lt (hyp a b) c = true) :
    ∃ x y : ℝ, a = fin x ∧ b = fin y := by
  have nt : ∀ r : EReal, hyp a b = .num r → r ≠ ⊤ := by
    rintro r hr rfl
    rw [hr] at h
    cases c with
    | nan => simp [lt] at h
    | num c => simp [lt] at h
  have nn : hyp a b ≠ .nan := by
    intro hr; rw [hr] at h; cases c <;> simp [lt] at h
  obtain ⟨r, hr⟩ : ∃ r, hyp a b = .num r := by
    cases hv : hyp a b with
    | nan => exact absurd hv nn
    | num r => exact ⟨r, rfl⟩
  have ninf : ¬ (a = .num ⊤ ∨ a = .num ⊥ ∨ b = .num ⊤ ∨ b = .num ⊥) := fun hc => nt _ (hh.inf a b hc) rfl
  push Not at ninf
  have ha : a ≠ .nan := by rintro rfl; exact nt _ hr ((hh.nan b).1 r hr)
  have hb : b ≠ .nan := by rintro rfl; exact nt _ hr ((hh.nan a).2 r hr)
  cases a with
  | nan => exact absurd rfl ha
  | num a => cases b with
    | nan => exact absurd rfl hb
    | num b =>
      simp only [ne_eq, Num.num.injEq] at ninf
      exact ⟨a.toReal, b.toReal, by rw [fin, EReal.coe_toReal ninf.1 ninf.2.1], by rw [fin, EReal.coe_toReal ninf.2.2.1 ninf.2.2.2]⟩

/-- C104: whatever the coordinates are, infinities and NaN among them: when `segment_intersection` returns a crossing, the point and
both parameters are finite numbers and the parameters are between 0 and 1. -/
theorem C104_segment_sound {hyp : N → N → N} (hh : HypLaw hyp) (l o : Line N) (p : Pt N) (t_self t_other : N)
    (h : F.segmentIntersection hyp l o = .ok (some (p, t_self, t_other))) :
    ∃ x y s t : ℝ, p = ⟨fin x, fin y⟩ ∧ t_self = fin s ∧ t_other = fin t ∧ 0 ≤ s ∧ s ≤ 1 ∧ 0 ≤ t ∧ t ≤ 1 := by
  unfold segmentIntersection at h
  split at h
  · cases h
  · cases h
  · split at h
    · cases h
    · split at h
      · cases h
      · rename_i t1 ht1
        split at h
        · cases h
        · rename_i c1
          split at h
          · cases h
          · rename_i t2 ht2
            split at h
            · cases h
            · rename_i c2
              simp only at h
              split at h
              · cases h
              · rename_i c3
                simp only [Except.ok.injEq, Option.some.injEq, Prod.mk.injEq] at h
                obtain ⟨rfl, rfl, rfl⟩ := h
                have c3' : lt (hyp (F.sub2 (F.lineAt l t2) (F.lineAt o t1)).x (F.sub2 (F.lineAt l t2) (F.lineAt o t1)).y)
                    (F.toF (1 / 10 ^ 7)) = true := by simpa using c3
                obtain ⟨dx, dy, hdx, hdy⟩ := finite_of_hyp hh c3'
                obtain ⟨ax, bx, hax, hbx⟩ := F.sub_finite hdx
                obtain ⟨ay, byy, hay, hby⟩ := F.sub_finite hdy
                obtain ⟨_, _, _, m1⟩ := F.add_finite hax
                obtain ⟨_, s, _, hs⟩ := F.mul_finite m1
                obtain ⟨_, _, _, m2⟩ := F.add_finite hbx
                obtain ⟨_, t, _, ht⟩ := F.mul_finite m2
                subst hs ht
                have b1 : 0 ≤ t ∧ t ≤ 1 := by
                  have : 0 ≤ t ∧ (t : EReal) ≤ 1 := by simpa [lt, fin] using c1
                  exact_mod_cast this
                have b2 : 0 ≤ s ∧ s ≤ 1 := by
                  have : 0 ≤ s ∧ (s : EReal) ≤ 1 := by simpa [lt, fin] using c2
                  exact_mod_cast this
                refine ⟨bx, byy, s, t, ?_, rfl, rfl, b2.1, b2.2, b1.1, b1.2⟩
                ext
                · exact hbx
                · exact hby

/-- C104: the only exceptions of `segment_intersection` are `ParallelLineError` and `AssertionError`, whatever the coordinates are. -/
theorem C104_segment_errors (hyp : N → N → N) (l o : Line N) (e : PyErr) (h : F.segmentIntersection hyp l o = .error e) :
    e = .parallelLine ∨ e = .assertion := by
  unfold segmentIntersection at h
  split at h
  · rename_i e' he'
    simp only [segmentBBox, NB.ofPts, NB.mk', NB.overlaps] at he'
    split at he' <;> cases he'
  · cases h
  · split at h
    · cases h; exact .inl rfl
    · rename_i hp
      have hp1 : eq (F.cross l.direction o.direction) (fin 0) = false := by simpa [parallel] using hp
      have hp2 : eq (F.cross o.direction l.direction) (fin 0) = false := by rw [F.cross_swap l.direction, eq_zero_neg]; exact hp1
      obtain ⟨t1, ht1⟩ := F.lineT_ok hp1
      obtain ⟨t2, ht2⟩ := F.lineT_ok hp2
      rw [ht1, ht2] at h
      simp only at h
      split at h
      · cases h
      · split at h
        · cases h
        · split at h
          · cases h; exact .inr rfl
          · cases h

/-- The parts of `intersection` where nothing is out of range. -/
theorem parts_transfer (l o : Line ℝ) {R : Rnd} (fl : ∀ r, F.InRange r → F.toF r = fin (R.fl r)) (h : ∀ r ∈ lineResults R l o, F.InRange r) :
    F.cross (finLine l).direction (finLine o).direction = fin (Fl.cross R l.direction o.direction) ∧
    (Fl.cross R l.direction o.direction ≠ 0 →
      ∃ t, F.lineT (finLine l) (finLine o) = .ok (fin t) ∧ Fl.lineT R l o = .ok t ∧
        F.lineAt (finLine o) (fin t) = finPt (Fl.lineAt R o t) ∧
        t = R.fl (Fl.dot R (Fl.normal l.direction) (Fl.sub R l.origin o.origin) / Fl.dot R (Fl.normal l.direction) o.direction)) := by
  simp only [lineResults, List.mem_cons, List.not_mem_nil, or_false, forall_eq_or_imp, forall_eq] at h
  obtain ⟨h1, h2, h3, h4, h5, h6, h7, h8, h9, h10, h11, h12, h13⟩ := h
  have c : F.cross (finLine l).direction (finLine o).direction = fin (Fl.cross R l.direction o.direction) := by
    show F.sub (F.mul (fin _) (fin _)) (F.mul (fin _) (fin _)) = _
    rw [mul_fin, mul_fin, fl _ h1, fl _ h2, sub_fin, fl _ h3]
    rfl
  refine ⟨c, fun hz => ?_⟩
  have den : F.dot (normal (finLine l).direction) (finLine o).direction = fin (Fl.dot R (Fl.normal l.direction) o.direction) := by
    rw [F.den_eq, c, neg_fin]
    congr 1
    show -(R.fl (R.fl (l.direction.x * o.direction.y) - R.fl (l.direction.y * o.direction.x))) =
      R.fl (R.fl (l.direction.y * o.direction.x) + R.fl (-l.direction.x * o.direction.y))
    rw [neg_mul, R.neg, ← R.neg]
    congr 1; ring
  have w : F.sub2 (finLine l).origin (finLine o).origin = ⟨fin (Fl.sub R l.origin o.origin).x, fin (Fl.sub R l.origin o.origin).y⟩ := by
    show (⟨F.sub (fin _) (fin _), F.sub (fin _) (fin _)⟩ : Vec N) = _
    rw [sub_fin, sub_fin, fl _ h4, fl _ h5]
    rfl
  have num : F.dot (normal (finLine l).direction) (F.sub2 (finLine l).origin (finLine o).origin) =
      fin (Fl.dot R (Fl.normal l.direction) (Fl.sub R l.origin o.origin)) := by
    rw [w]
    show F.add (F.mul (fin _) (fin _)) (F.mul (neg (fin _)) (fin _)) = _
    rw [neg_fin, mul_fin, mul_fin, fl _ h6, fl _ h7, add_fin, fl _ h8]
    rfl
  have hd : Fl.dot R (Fl.normal l.direction) o.direction ≠ 0 := by
    intro hd
    rw [hd, F.den_eq, c, neg_fin, fin_inj, neg_eq_zero] at den
    exact hz den
  refine ⟨_, ?_, ?_, ?_, rfl⟩
  · unfold lineT
    rw [num, den]
    simp only [div, fin]
    rw [if_neg (by simpa using hd), if_neg (by simp), if_neg (by simp)]
    simp only [EReal.toReal_coe]
    rw [fl _ h9]
    rfl
  · unfold Fl.lineT Fl.div
    rw [if_neg hd]
  · show (⟨F.add (fin _) (F.mul (fin _) (fin _)), F.add (fin _) (F.mul (fin _) (fin _))⟩ : Pt N) = _
    rw [mul_fin, mul_fin, fl _ h10, fl _ h11, add_fin, add_fin, fl _ h12, fl _ h13]
    rfl

/-- C104: where no operation has a result that is too small or too large, `intersection` is as C89 says, with Python's floats of
`F.p` digits. -/
theorem C104_transfer (l o : Line ℝ) (h : ∀ r ∈ lineResults (.binary F.p (by have := F.hp; omega)) l o, F.InRange r) :
    F.intersection (finLine l) (finLine o) =
      match Fl.lineIntersection (.binary F.p (by have := F.hp; omega)) l o with
      | .ok p => .ok (finPt p)
      | .error e => .error e := by
  obtain ⟨c, ht⟩ := F.parts_transfer l o (fun r hr => F.toF_normal hr) h
  unfold intersection Fl.lineIntersection
  rw [c]
  by_cases hz : Fl.cross (.binary F.p (by have := F.hp; omega)) l.direction o.direction = 0
  · rw [if_pos (by simp [eq, fin, hz]), if_pos hz]
  · rw [if_neg (by simp [eq, fin, hz]), if_neg hz]
    obtain ⟨t, h1, h2, h3, -⟩ := ht hz
    rw [h1, h2]
    simp only
    rw [h3]

/-- C104: the same of `segment_intersection`, if both have the same hypot. -/
theorem C104_segment_transfer (hyp : N → N → N) (hyp' : ℝ → ℝ → ℝ) (hh : F.SameHyp hyp hyp') (l o : Line ℝ)
    (h : ∀ r ∈ segmentResults (.binary F.p (by have := F.hp; omega)) l o, F.InRange r) :
    F.segmentIntersection hyp (finLine l) (finLine o) =
      match Fl.segmentIntersection (.binary F.p (by have := F.hp; omega)) hyp' l o with
      | .ok none => .ok none
      | .ok (some (p, s, t)) => .ok (some (finPt p, fin s, fin t))
      | .error e => .error e := by
  set R : Rnd := .binary F.p (by have := F.hp; omega) with hR
  have fl : ∀ r, F.InRange r → F.toF r = fin (R.fl r) := fun r hr => F.toF_normal hr
  simp only [segmentResults, List.mem_append, or_imp, forall_and] at h
  obtain ⟨⟨⟨h1, h2⟩, h3⟩, h4⟩ := h
  simp only [List.mem_cons, List.not_mem_nil, or_false, forall_eq_or_imp, forall_eq] at h1 h4
  obtain ⟨g1, g2, g3, g4⟩ := h1
  obtain ⟨d1, d2, d4, d3⟩ := h4
  obtain ⟨c, ht⟩ := F.parts_transfer l o fl h2
  obtain ⟨c', ht'⟩ := F.parts_transfer o l fl h3
  have mn : ∀ a b : ℝ, pmin (fin a) (fin b) = fin (min a b) := fun a b => by
    unfold pmin
    by_cases hl : b < a
    · rw [if_pos (lt_fin.2 hl), min_eq_right hl.le]
    · rw [if_neg (by rw [lt_fin]; exact hl), min_eq_left (not_lt.1 hl)]
  have mx : ∀ a b : ℝ, pmax (fin a) (fin b) = fin (max a b) := fun a b => by
    unfold pmax
    by_cases hl : a < b
    · rw [if_pos (lt_fin.2 hl), max_eq_right hl.le]
    · rw [if_neg (by rw [lt_fin]; exact hl), max_eq_left (not_lt.1 hl)]
  have bb : ∀ l : Line ℝ, F.InRange (l.origin.x + l.direction.x) → F.InRange (l.origin.y + l.direction.y) →
      F.segmentBBox (finLine l) = finBox (Fl.segmentBBox R l) := by
    intro l i1 i2
    show NB.mk' (fin _) (fin _) (F.add (fin _) (fin _)) (F.add (fin _) (fin _)) = _
    rw [add_fin, add_fin, fl _ i1, fl _ i2]
    simp only [NB.mk', mn, mx]
    rfl
  have ov : NB.overlaps (F.segmentBBox (finLine l)) (F.segmentBBox (finLine o)) =
      (Fl.segmentBBox R l).overlaps (Fl.segmentBBox R o) := by
    rw [bb l g1 g2, bb o g3 g4]
    simp only [Fl.segmentBBox, BBox.ofPts, BBox.mk', finBox, NB.overlaps, BBox.overlaps]
    simp only [Bool.or_eq_true, le_fin, or_assoc, ge_iff_le]
  have ltz : ∀ t : ℝ, (lt (fin t) (fin 0) || lt (fin 1) (fin t)) = true ↔ (t < 0 ∨ t > 1) := by
    intro t; rw [Bool.or_eq_true, lt_fin, lt_fin]
  unfold segmentIntersection Fl.segmentIntersection
  rw [ov]
  cases (Fl.segmentBBox R l).overlaps (Fl.segmentBBox R o) with
  | error e => rfl
  | ok b =>
    cases b with
    | false => rfl
    | true =>
      simp only
      by_cases hz : Fl.cross R l.direction o.direction = 0
      · rw [if_pos (by simp [parallel, c, eq, fin, hz]), if_pos (by simp [Fl.lineParallel, hz])]
      · rw [if_neg (by simp [parallel, c, eq, fin, hz]), if_neg (by simp [Fl.lineParallel, hz])]
        have hz' : Fl.cross R o.direction l.direction ≠ 0 := by
          intro hz'
          have := F.cross_swap (finLine l).direction (finLine o).direction
          rw [c, c', hz', neg_fin, fin_inj] at this
          exact hz (by linarith)
        obtain ⟨t, a1, a2, a3, a4⟩ := ht hz
        obtain ⟨t', b1, b2, b3, b4⟩ := ht' hz'
        simp only [a1, a2, b1, b2]
        by_cases q1 : t < 0 ∨ t > 1
        · rw [if_pos ((ltz t).2 q1), if_pos q1]
        · rw [if_neg (by rw [ltz]; exact q1), if_neg q1]
          by_cases q2 : t' < 0 ∨ t' > 1
          · rw [if_pos ((ltz t').2 q2), if_pos q2]
          · rw [if_neg (by rw [ltz]; exact q2), if_neg q2]
            rw [← a4, ← b4] at d1 d2 d4
            have dd : F.sub2 (F.lineAt (finLine l) (fin t')) (F.lineAt (finLine o) (fin t)) =
                ⟨fin (Fl.sub R (Fl.lineAt R l t') (Fl.lineAt R o t)).x, fin (Fl.sub R (Fl.lineAt R l t') (Fl.lineAt R o t)).y⟩ := by
              rw [a3, b3]
              show (⟨F.sub (fin _) (fin _), F.sub (fin _) (fin _)⟩ : Vec N) = _
              rw [sub_fin, sub_fin, fl _ d1, fl _ d2]
              rfl
            rw [dd, hh _ _ d4, fl _ d3]
            by_cases q3 : hyp' (Fl.sub R (Fl.lineAt R l t') (Fl.lineAt R o t)).x (Fl.sub R (Fl.lineAt R l t') (Fl.lineAt R o t)).y <
                R.fl (1 / 10 ^ 7)
            · rw [if_neg (by rw [lt_fin.2 q3]; simp), if_neg (not_not.2 q3)]
              simp only [a3]
            · have q4 : lt (fin (hyp' (Fl.sub R (Fl.lineAt R l t') (Fl.lineAt R o t)).x (Fl.sub R (Fl.lineAt R l t') (Fl.lineAt R o t)).y))
                  (fin (R.fl (1 / 10 ^ 7))) = false := by rw [Bool.eq_false_iff, Ne, lt_fin]; exact q3
              rw [if_pos (by rw [q4]; rfl), if_pos q3]

/-- C104: the same of `closest`. -/
theorem C104_closest_transfer (hyp : N → N → N) (hyp' : ℝ → ℝ → ℝ) (hh : F.SameHyp hyp hyp') (l : Line ℝ)
    (p : Pt ℝ) (h : ∀ r ∈ closestResults (.binary F.p (by have := F.hp; omega)) hyp' l p, F.InRange r) :
    F.closest hyp (finLine l) (finPt p) =
      match Fl.lineClosest (.binary F.p (by have := F.hp; omega)) hyp' l p with
      | .ok q => .ok (finPt q)
      | .error e => .error e := by
  set R : Rnd := .binary F.p (by have := F.hp; omega) with hR
  have fl : ∀ r, F.InRange r → F.toF r = fin (R.fl r) := fun r hr => F.toF_normal hr
  simp only [closestResults, List.mem_cons, List.not_mem_nil, or_false, forall_eq_or_imp, forall_eq] at h
  obtain ⟨h0, h1, h2, h3, h4, h5, h6, h7, h8, h9, h10, h11⟩ := h
  have hl : hyp (finLine l).direction.x (finLine l).direction.y = fin (hyp' l.direction.x l.direction.y) := hh _ _ h0
  unfold closest Fl.lineClosest unit Fl.unit
  simp only [hl]
  by_cases hz : hyp' l.direction.x l.direction.y = 0
  · rw [if_pos (by simp [eq, fin, hz]), if_pos hz]
  · rw [if_neg (by simp [eq, fin, hz]), if_neg hz]
    have dv : ∀ x : ℝ, F.div (fin x) (fin (hyp' l.direction.x l.direction.y)) = .ok (F.toF (x / hyp' l.direction.x l.direction.y)) := by
      intro x
      simp only [div, fin]
      rw [if_neg (by simpa using hz), if_neg (by simp), if_neg (by simp)]
      rfl
    have e1 := dv l.direction.x
    have e2 := dv l.direction.y
    rw [fl _ h1] at e1
    rw [fl _ h2] at e2
    have e1' : F.div (finLine l).direction.x (fin (hyp' l.direction.x l.direction.y)) = _ := e1
    have e2' : F.div (finLine l).direction.y (fin (hyp' l.direction.x l.direction.y)) = _ := e2
    rw [e1', e2']
    simp only
    have w : F.sub2 (finPt p) (finLine l).origin = ⟨fin (Fl.sub R p l.origin).x, fin (Fl.sub R p l.origin).y⟩ := by
      show (⟨F.sub (fin _) (fin _), F.sub (fin _) (fin _)⟩ : Vec N) = _
      rw [sub_fin, sub_fin, fl _ h3, fl _ h4]
      rfl
    rw [w]
    simp only [dot, smul, addVec, mul_fin, fl _ h5, fl _ h6, add_fin, fl _ h7, fl _ h8, fl _ h9]
    congr 1
    show (⟨F.add (fin _) (fin _), F.add (fin _) (fin _)⟩ : Pt N) = _
    rw [add_fin, add_fin, fl _ h10, fl _ h11]
    rfl

/-- The hypotheses of `C104_transfer` can be met: the diagonals of a square. -/
example : ∀ r ∈ lineResults (.binary double.p (by norm_num [double])) ⟨⟨0, 0⟩, ⟨2, 2⟩⟩ ⟨⟨0, 2⟩, ⟨2, -2⟩⟩, double.InRange r := by
  set R : Rnd := .binary double.p (by norm_num [double]) with hR
  have i : ∀ n : ℤ, |n| ≤ 8 → R.fl n = n := by
    intro n hn
    have := flBin_rep 53 (by norm_num) n 0 (hn.trans (by norm_num))
    rw [zpow_zero, mul_one] at this
    exact this
  have i0 : R.fl 0 = 0 := by simpa using i 0 (by norm_num)
  have i1 : R.fl 1 = 1 := by simpa using i 1 (by norm_num)
  have i1' : R.fl (-1) = -1 := by simpa using i (-1) (by norm_num)
  have i2 : R.fl (-2) = -2 := by simpa using i (-2) (by norm_num)
  have i4 : R.fl 4 = 4 := by simpa using i 4 (by norm_num)
  have i4' : R.fl (-4) = -4 := by simpa using i (-4) (by norm_num)
  have i8 : R.fl 8 = 8 := by simpa using i 8 (by norm_num)
  have ih : R.fl (1 / 2) = 1 / 2 := by
    have := flBin_rep 53 (by norm_num) 1 (-1) (by norm_num)
    norm_num at this
    exact this
  have t : double.tiny ≤ 1 / 2 := by
    calc double.tiny ≤ 2 ^ (-1 : ℤ) := zpow_le_zpow_right₀ (by norm_num) (by norm_num [double])
      _ = 1 / 2 := by norm_num
  have l : 16 ≤ double.limit := by
    have e : (1 : ℝ) ≤ 2 ^ Fmt.double.emax := one_le_zpow₀ (by norm_num) (by norm_num [Fmt.double])
    have p : (2 : ℝ) ^ Fmt.double.p = 9007199254740992 := by norm_num [Fmt.double]
    have := double.maxf_lt_limit
    unfold maxf at this; rw [p] at this; nlinarith
  have a : ∀ r : ℝ, 1 / 2 ≤ |r| → |r| ≤ 8 → double.InRange r := fun r h1 h2 => .inr ⟨by linarith, by linarith⟩
  intro r hr
  have v1 : (Fl.sub R ⟨0, 0⟩ ⟨0, 2⟩) = (⟨0, -2⟩ : Vec ℝ) := by simp [Fl.sub, i0, i2]
  have n1 : Fl.dot R (Fl.normal (⟨2, 2⟩ : Vec ℝ)) ⟨0, -2⟩ = 4 := by simp [Fl.dot, Fl.normal, i0]; norm_num [i4]
  have n2 : Fl.dot R (Fl.normal (⟨2, 2⟩ : Vec ℝ)) ⟨2, -2⟩ = 8 := by simp [Fl.dot, Fl.normal]; norm_num [i4, i8]
  simp only [lineResults, v1, n1, n2, List.mem_cons, List.not_mem_nil, or_false] at hr
  norm_num [i4, i4', ih, i1, i1', i0] at hr
  have ih' : R.fl 2⁻¹ = 2⁻¹ := by rw [← one_div, ih]
  norm_num [ih', i1, i1'] at hr
  rcases hr with rfl | rfl | rfl | rfl | rfl | rfl | rfl | rfl | rfl | rfl | rfl | rfl | rfl <;>
    first | exact .inl rfl | exact a _ (by norm_num) (by norm_num)

/-! ### Unit vectors -/

/-- The size of the last digit of a number that is at least the smallest float is not above the number. -/
theorem last_le {s : ℝ} (h : 2 ^ F.emin ≤ s) : (2 : ℝ) ^ F.last s ≤ s := by
  have s0 : 0 < s := F.eta_pos.trans_le h
  unfold Fmt.last
  rw [abs_of_pos s0]
  rcases max_choice F.emin (Int.log 2 s - F.p + 1) with hm | hm <;> rw [hm]
  · exact h
  · calc (2 : ℝ) ^ (Int.log 2 s - F.p + 1) ≤ 2 ^ Int.log 2 s := zpow_le_zpow_right₀ (by norm_num) (by have := F.hp; omega)
      _ ≤ s := by simpa using Int.zpow_log_le_self (b := 2) (by norm_num) s0

/-- C104: `unit` of a vector of floats raises `ZeroDivisionError` exactly for the zero vector, however small the others are, if the
length is in the range of floats; and no other exception. -/
theorem C104_unit_errors {hyp : N → N → N} (hh : F.HypClose hyp) {x y : ℝ} (hx : F.IsFl x) (hy : F.IsFl y)
    (hs : √(x ^ 2 + y ^ 2) < F.maxf) :
    (F.unit hyp ⟨fin x, fin y⟩ = .error .zeroDivision ↔ x = 0 ∧ y = 0) ∧
    (¬ (x = 0 ∧ y = 0) → ∃ v, F.unit hyp ⟨fin x, fin y⟩ = .ok v) := by
  have e0 := F.eta_pos
  obtain ⟨r, hr, fr, hc, hz⟩ := hh x y hs
  by_cases h : x = 0 ∧ y = 0
  · refine ⟨⟨fun _ => h, fun _ => ?_⟩, fun hn => absurd h hn⟩
    unfold unit
    simp only [hr, hz h]
    rw [if_pos (by simp [eq, fin])]
  · have ge : ∀ {z : ℝ}, F.IsFl z → z ≠ 0 → (2 : ℝ) ^ F.emin ≤ |z| := by
      intro z hz h0
      obtain ⟨k, rfl⟩ := F.fl_mult hz
      have : k ≠ 0 := by rintro rfl; simp at h0
      have : (1 : ℝ) ≤ |(k : ℝ)| := by exact_mod_cast Int.one_le_abs this
      rw [abs_mul, abs_of_pos e0]; nlinarith
    have low : (2 : ℝ) ^ F.emin ≤ √(x ^ 2 + y ^ 2) := by
      rcases not_and_or.1 h with h | h
      · exact (ge hx h).trans (Real.abs_le_sqrt (by nlinarith [sq_nonneg y]))
      · exact (ge hy h).trans (Real.abs_le_sqrt (by nlinarith [sq_nonneg x]))
    have hne : r ≠ 0 := by
      rintro rfl
      rw [zero_sub, abs_neg, abs_of_nonneg (Real.sqrt_nonneg _)] at hc
      exact absurd hc (not_lt.2 (F.last_le low))
    have hz : eq (fin r) (fin 0) = false := by simp [eq, fin, hne]
    obtain ⟨u, hu⟩ := F.div_ok (fin x) hz
    obtain ⟨v, hv⟩ := F.div_ok (fin y) hz
    have out : F.unit hyp ⟨fin x, fin y⟩ = .ok ⟨u, v⟩ := by
      unfold unit
      simp only [hr, hz, hu, hv]
      rfl
    exact ⟨⟨fun hc => (by rw [out] at hc; cases hc), fun hc => absurd hc h⟩, fun _ => ⟨_, out⟩⟩

/-- C104: `closest` has no exception but that of `unit` of the direction. -/
theorem C104_closest_errors (hyp : N → N → N) (l : Line N) (p : Pt N) (e : PyErr) :
    F.closest hyp l p = .error e ↔ F.unit hyp l.direction = .error e := by
  unfold closest
  cases F.unit hyp l.direction <;> simp

/-- A correctly rounded hypot meets the assumptions. -/
theorem hypRounded_ok : HypLaw F.hypRounded ∧ F.HypClose F.hypRounded := by
  refine ⟨⟨?_, ?_⟩, ?_⟩
  · rintro a b (rfl | rfl | rfl | rfl)
    · cases b <;> simp [hypRounded]
    · cases b <;> simp [hypRounded]
    · cases a <;> simp [hypRounded]
    · cases a <;> simp [hypRounded]
  · intro a
    constructor
    · intro r h
      cases a with
      | nan => simp [hypRounded] at h
      | num a => simp only [hypRounded] at h; split at h <;> cases h; rfl
    · intro r h
      cases a with
      | nan => simp [hypRounded] at h
      | num a => simp only [hypRounded] at h; split at h <;> cases h; rfl
  · intro x y h
    have h' : |√(x ^ 2 + y ^ 2)| ≤ F.maxf := by rw [abs_of_nonneg (Real.sqrt_nonneg _)]; exact h.le
    refine ⟨F.rnd (√(x ^ 2 + y ^ 2)), ?_, F.fl_rnd (F.rnd_le_maxf h'), ?_, ?_⟩
    · simp only [hypRounded, fin, EReal.coe_ne_top, EReal.coe_ne_bot, or_self, if_false, EReal.toReal_coe]
      exact F.toF_in h'
    · set s := √(x ^ 2 + y ^ 2)
      have p0 : (0 : ℝ) < 2 ^ F.last s := by positivity
      have h2 := (isRound_pyRound (s / 2 ^ F.last s)).1
      have e : F.rnd s - s = -(2 ^ F.last s * (s / 2 ^ F.last s - pyRound (s / 2 ^ F.last s))) := by
        unfold rnd; field_simp; ring
      rw [e, abs_neg, abs_mul, abs_of_pos p0]
      nlinarith
    · rintro ⟨rfl, rfl⟩
      simp [F.rnd_zero]

/-- A correctly rounded hypot agrees with rounding to `F.p` digits. -/
example : F.SameHyp F.hypRounded fun x y => flBin F.p (√(x ^ 2 + y ^ 2)) := by
  intro x y h
  simp only [hypRounded, fin, EReal.coe_ne_top, EReal.coe_ne_bot, or_self, if_false, EReal.toReal_coe]
  exact F.toF_normal h

/-- The hypotheses can be met: Python's floats, a correctly rounded hypot, the vector (1, 0). -/
example : ∃ v, Fmt.double.unit Fmt.double.hypRounded ⟨fin 1, fin 0⟩ = .ok v := by
  have f1 : Fmt.double.IsFl 1 := ⟨1, 0, by norm_num [double], by norm_num [double], by norm_num [double], by norm_num⟩
  have f0 : Fmt.double.IsFl 0 := ⟨0, 0, by norm_num [double], by norm_num [double], by norm_num [double], by norm_num⟩
  have m : 1 < Fmt.double.maxf := by
    have e : (1 : ℝ) ≤ 2 ^ Fmt.double.emax := one_le_zpow₀ (by norm_num) (by norm_num [Fmt.double])
    have p : (2 : ℝ) ^ Fmt.double.p = 9007199254740992 := by norm_num [Fmt.double]
    unfold maxf; rw [p]; nlinarith
  exact (C104_unit_errors Fmt.double (hypRounded_ok Fmt.double).2 f1 f0 (by simpa using m)).2 (by norm_num)

/-- C104: `unit` need not give a vector of length about 1: the vector with both coordinates the smallest positive float has the unit
vector (1, 1) or (1/2, 1/2), as `math.hypot` rounds. -/
theorem C104_unit_counterexample {hyp : N → N → N} (hh : F.HypClose hyp) (he : F.emin ≤ -1) (he' : 0 ≤ F.emax) :
    F.unit hyp ⟨fin (2 ^ F.emin), fin (2 ^ F.emin)⟩ = .ok ⟨fin 1, fin 1⟩ ∨
    F.unit hyp ⟨fin (2 ^ F.emin), fin (2 ^ F.emin)⟩ = .ok ⟨fin (1 / 2), fin (1 / 2)⟩ := by
  have e0 := F.eta_pos
  have hp1 : (1 : ℤ) < 2 ^ F.p := one_lt_pow₀ (by norm_num) (by have := F.hp; omega)
  have f1 : F.IsFl 1 := ⟨1, 0, by rw [abs_one]; exact hp1, by omega, he', by norm_num⟩
  have f2 : F.IsFl (1 / 2) := ⟨1, -1, by rw [abs_one]; exact hp1, he, by omega, by norm_num⟩
  have hs : √((2 ^ F.emin) ^ 2 + (2 ^ F.emin) ^ 2) = √2 * (2 : ℝ) ^ F.emin := by
    rw [← two_mul, Real.sqrt_mul (by norm_num), Real.sqrt_sq e0.le]
  have s1 : √2 < 1.5 := by rw [Real.sqrt_lt' (by norm_num)]; norm_num
  have s2 : 1.4 < √2 := by rw [Real.lt_sqrt (by norm_num)]; norm_num
  have lt2 : √2 * (2 : ℝ) ^ F.emin < 2 ^ (F.emin + 1) := by
    rw [zpow_add_one₀ (by norm_num)]; nlinarith
  have hm : √2 * (2 : ℝ) ^ F.emin < F.maxf := by
    have := F.fl_le_maxf f1
    rw [abs_one] at this
    have : (2 : ℝ) ^ F.emin ≤ 1 / 2 := by
      calc (2 : ℝ) ^ F.emin ≤ 2 ^ (-1 : ℤ) := zpow_le_zpow_right₀ (by norm_num) he
        _ = 1 / 2 := by norm_num
    nlinarith
  have last : F.last (√2 * (2 : ℝ) ^ F.emin) = F.emin := by
    unfold Fmt.last
    rw [abs_of_pos (by positivity)]
    have := (Int.lt_zpow_iff_log_lt (b := 2) (x := F.emin + 1) (r := √2 * (2 : ℝ) ^ F.emin) (by norm_num) (by positivity)).1
      (by exact_mod_cast lt2)
    have := F.hp
    exact max_eq_left (by omega)
  obtain ⟨r, hr, ⟨m, e, -, h2, -, h4⟩, h5, -⟩ := hh _ _ (by rw [hs]; exact hm)
  rw [hs, last] at h5
  obtain ⟨k, hk⟩ : ∃ k : ℤ, r = k * 2 ^ F.emin := by
    refine ⟨m * 2 ^ (e - F.emin).toNat, ?_⟩
    rw [h4]; push_cast
    rw [mul_assoc, ← zpow_natCast, ← zpow_add₀ (by norm_num)]
    congr 2; omega
  rw [hk, ← sub_mul, abs_mul, abs_of_pos e0] at h5
  have h6 : |(k : ℝ) - √2| < 1 := by
    by_contra hc; push Not at hc; nlinarith
  rw [abs_lt] at h6
  have k0 : 0 < k := by exact_mod_cast (show (0 : ℝ) < k by linarith)
  have k3 : k < 3 := by exact_mod_cast (show (k : ℝ) < 3 by linarith)
  have out : ∀ {j : ℝ}, j ≠ 0 → r = j * 2 ^ F.emin → F.IsFl (1 / j) →
      F.unit hyp ⟨fin (2 ^ F.emin), fin (2 ^ F.emin)⟩ = .ok ⟨fin (1 / j), fin (1 / j)⟩ := by
    intro j hj hr' fj
    have rn : r ≠ 0 := by rw [hr']; exact mul_ne_zero hj e0.ne'
    have d : F.div (fin (2 ^ F.emin)) (fin r) = .ok (fin (1 / j)) := by
      simp only [div, fin]
      rw [if_neg (by simpa using rn), if_neg (by simp), if_neg (by simp)]
      simp only [EReal.toReal_coe]
      have : (2 : ℝ) ^ F.emin / r = 1 / j := by rw [hr']; field_simp
      rw [this, F.toF_in (F.fl_le_maxf fj), F.rnd_fl fj]
      rfl
    unfold unit
    simp only [hr, d]
    rw [if_neg (by simp [eq, fin, rn])]
  obtain rfl | rfl : k = 1 ∨ k = 2 := by omega
  · left
    have := out (j := 1) one_ne_zero (by rw [hk]; push_cast; rfl) (by simpa using f1)
    simpa using this
  · right
    exact out (j := 2) two_ne_zero (by rw [hk]; push_cast; rfl) f2

/-- The hypotheses on the format hold for Python's floats. -/
example : double.emin ≤ -1 ∧ 0 ≤ double.emax := by norm_num [double]

/-- The hypotheses of `C104_segment_sound` can be met: the diagonals of a square, with Python's floats and a correctly rounded hypot. -/
example : Fmt.double.segmentIntersection Fmt.double.hypRounded
    ⟨⟨fin 0, fin 0⟩, ⟨fin 2, fin 2⟩⟩ ⟨⟨fin 0, fin 2⟩, ⟨fin 2, fin (-2)⟩⟩ = .ok (some (⟨fin 1, fin 1⟩, fin (1 / 2), fin (1 / 2))) := by
  have fi : ∀ n : ℤ, |n| < 2 ^ 53 → Fmt.double.toF n = fin n := by
    intro n hn
    have f : Fmt.double.IsFl n := ⟨n, 0, hn, by norm_num [double], by norm_num [double], by norm_num⟩
    rw [toF_in _ (fl_le_maxf _ f), rnd_fl _ f]
  have i : ∀ x : ℝ, ∀ n : ℤ, x = n → |n| < 2 ^ 53 → Fmt.double.toF x = fin x := by rintro x n rfl h; exact fi n h
  have t0 := i 0 0 (by norm_num) (by norm_num)
  have t1 := i 1 1 (by norm_num) (by norm_num)
  have t2 := i 2 2 (by norm_num) (by norm_num)
  have t4 := i 4 4 (by norm_num) (by norm_num)
  have t8 := i 8 8 (by norm_num) (by norm_num)
  have t1' := i (-1) (-1) (by norm_num) (by norm_num)
  have t2' := i (-2) (-2) (by norm_num) (by norm_num)
  have t4' := i (-4) (-4) (by norm_num) (by norm_num)
  have t8' := i (-8) (-8) (by norm_num) (by norm_num)
  have th : Fmt.double.toF (1 / 2) = fin (1 / 2) := by
    have f : Fmt.double.IsFl (1 / 2) := ⟨1, -1, by norm_num [double], by norm_num [double], by norm_num [double], by norm_num⟩
    rw [toF_in _ (fl_le_maxf _ f), rnd_fl _ f]
  have dv : ∀ x y : ℝ, y ≠ 0 → Fmt.double.div (fin x) (fin y) = .ok (Fmt.double.toF (x / y)) := by
    intro x y h
    simp only [div, fin]
    rw [if_neg (by simpa using h), if_neg (by simp), if_neg (by simp)]
    rfl
  have o : NB.overlaps (Fmt.double.segmentBBox ⟨⟨fin 0, fin 0⟩, ⟨fin 2, fin 2⟩⟩)
      (Fmt.double.segmentBBox ⟨⟨fin 0, fin 2⟩, ⟨fin 2, fin (-2)⟩⟩) = .ok true := by
    have h02 : lt (fin 0) (fin 2) = true := lt_fin.2 (by norm_num)
    have h20 : lt (fin 2) (fin 0) = false := by rw [Bool.eq_false_iff, Ne, lt_fin]; norm_num
    have l20 : le (fin 2) (fin 0) = false := by rw [Bool.eq_false_iff, Ne, le_fin]; norm_num
    have e1 : (0 : ℝ) + 2 = 2 := by norm_num
    have e2 : (2 : ℝ) + -2 = 0 := by norm_num
    simp only [segmentBBox, NB.ofPts, NB.mk', addVec, add_fin, e1, e2, t2, t0, pmin, pmax, h02, h20, NB.overlaps, l20,
      if_true, Bool.false_eq_true, if_false, Bool.or_self]
  have p : Fmt.double.parallel ⟨⟨fin 0, fin 0⟩, ⟨fin 2, fin 2⟩⟩ ⟨⟨fin 0, fin 2⟩, ⟨fin 2, fin (-2)⟩⟩ = false := by
    simp only [parallel, cross, mul_fin, sub_fin]
    have h1 : (2 : ℝ) * -2 = -4 := by norm_num
    have h2 : (2 : ℝ) * 2 = 4 := by norm_num
    have h3 : (-4 : ℝ) - 4 = -8 := by norm_num
    rw [h1, h2, t4, t4', sub_fin, h3, t8', Bool.eq_false_iff, Ne, eq_num_iff]
    rintro ⟨r, h, h'⟩
    rw [← h', fin_inj] at h
    norm_num at h
  have l1 : Fmt.double.lineT ⟨⟨fin 0, fin 0⟩, ⟨fin 2, fin 2⟩⟩ ⟨⟨fin 0, fin 2⟩, ⟨fin 2, fin (-2)⟩⟩ = .ok (fin (1 / 2)) := by
    simp only [lineT, dot, normal, sub2, sub_fin, neg_fin]
    norm_num [t0, t2', mul_fin, t4, t4', add_fin, t8, dv, th]
  have l2 : Fmt.double.lineT ⟨⟨fin 0, fin 2⟩, ⟨fin 2, fin (-2)⟩⟩ ⟨⟨fin 0, fin 0⟩, ⟨fin 2, fin 2⟩⟩ = .ok (fin (1 / 2)) := by
    simp only [lineT, dot, normal, sub2, sub_fin, neg_fin]
    norm_num [t0, t2, t2', mul_fin, t4, t4', add_fin, t8', dv, th]
  have a1 : Fmt.double.lineAt ⟨⟨fin 0, fin 0⟩, ⟨fin 2, fin 2⟩⟩ (fin (1 / 2)) = ⟨fin 1, fin 1⟩ := by
    simp only [lineAt, addVec, smul, mul_fin]
    norm_num [t1, add_fin]
  have a2 : Fmt.double.lineAt ⟨⟨fin 0, fin 2⟩, ⟨fin 2, fin (-2)⟩⟩ (fin (1 / 2)) = ⟨fin 1, fin 1⟩ := by
    simp only [lineAt, addVec, smul, mul_fin]
    norm_num [t1, t1', add_fin]
  have c : lt (Fmt.double.hypRounded (fin 0) (fin 0)) (Fmt.double.toF (1 / 10 ^ 7)) = true := by
    have h0 : Fmt.double.hypRounded (fin 0) (fin 0) = fin 0 := by simp [hypRounded, fin, t0]
    have m := fl_le_maxf Fmt.double ⟨1, 0, by norm_num [double], by norm_num [double], by norm_num [double], by norm_num⟩ (x := 1)
    rw [abs_one] at m
    have hh : |(1 / 10 ^ 7 : ℝ)| ≤ Fmt.double.maxf := by
      rw [abs_of_pos (by positivity)]
      have : (1 / 10 ^ 7 : ℝ) ≤ 1 := by norm_num
      linarith
    rw [h0, toF_in _ hh, lt_fin]
    have : (2 : ℝ) ^ (-24 : ℤ) ≤ 1 / 10 ^ 7 := by norm_num
    have := Fmt.double.rnd_mono this
    rw [show (2 : ℝ) ^ (-24 : ℤ) = ((1 : ℤ) : ℝ) * 2 ^ (-24 : ℤ) by norm_num, rnd_rep _ 1 (-24) (by norm_num [double]) (by norm_num [double])] at this
    exact lt_of_lt_of_le (by norm_num) this
  have b : (lt (fin (1 / 2)) (fin 0) || lt (fin 1) (fin (1 / 2))) = false := by
    have h1 : lt (fin (1 / 2)) (fin 0) = false := by rw [Bool.eq_false_iff, Ne, lt_fin]; norm_num
    have h2 : lt (fin 1) (fin (1 / 2)) = false := by rw [Bool.eq_false_iff, Ne, lt_fin]; norm_num
    rw [h1, h2]; rfl
  unfold segmentIntersection
  simp only [o, p, l1, l2, b, a1, a2, sub2, sub_fin, sub_self, t0, c]
  rfl

end X7.Fmt
