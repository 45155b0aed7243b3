import Verif.Props.Ieee

/-!
C98, continued: expanding boxes and transforming points and boxes with floats of finite range.
-/

noncomputable section

namespace X7.Fmt
open NB
variable (F : Fmt)

theorem pmin_of_le {a b : Num EReal} (h : le a b = true) : pmin a b = a := by
  cases a <;> cases b <;> simp_all [pmin, lt, le]

theorem pmax_of_le {a b : Num EReal} (h : le a b = true) : pmax a b = b := by
  cases a <;> cases b <;> simp [le] at h
  rename_i a b
  by_cases hab : a < b
  · simp [pmax, lt, hab]
  · have : a = b := le_antisymm h (not_lt.1 hab)
    simp [pmax, lt, this]

theorem le_trans' {a b c : Num EReal} (h1 : le a b = true) (h2 : le b c = true) : le a c = true := by
  cases a <;> cases b <;> cases c <;> simp_all [le]
  exact h1.trans h2

theorem toF_self {x : ℝ} (h : F.IsFl x) : F.toF x = fin x := (F.C98_rounding x).2.2.2 h

/-- Half of minus the width is not positive. -/
theorem half_neg_width {l h : ℝ} (hl : l ≤ h) : ∃ z, F.half (neg (F.sub (fin h) (fin l))) = .num z ∧ z ≤ 0 := by
  rw [sub_fin]
  obtain ⟨w, w1, w2, _, _⟩ := F.toF_nonneg (x := h - l) (by linarith)
  rw [w1]
  show ∃ z, F.half (.num (-w)) = .num z ∧ z ≤ 0
  by_cases hw : w = ⊤
  · subst hw
    exact ⟨⊥, by simp [half], bot_le⟩
  · have hb : w ≠ ⊥ := fun h => by rw [h] at w2; simp at w2
    have e : F.half (.num (-w)) = F.toF ((-w).toReal / 2) := by
      have h1 : -w ≠ ⊤ := by simpa using hb
      have h2 : -w ≠ ⊥ := by simpa using hw
      simp [half, hw, hb]
    have hr : 0 ≤ w.toReal := EReal.toReal_nonneg w2
    have hm := F.C98_monotone ((-w).toReal / 2) 0 (by rw [_root_.EReal.toReal_neg_eq]; linarith)
    rw [F.toF_self (x := 0) ⟨0, F.emin, by simp, le_rfl, F.he, by simp⟩] at hm
    rw [e]
    cases hz : F.toF ((-w).toReal / 2) with
    | nan => rw [hz] at hm; simp [le, fin] at hm
    | num z => rw [hz] at hm; exact ⟨z, rfl, by simpa [le, fin] using hm⟩

/-- Growing along one axis. -/
theorem axis_grow {l h : ℝ} (fl : F.IsFl l) (fh : F.IsFl h) (hl : l ≤ h) (e : EReal) (he : 0 ≤ e) :
    let e' := pmax (.num e) (F.half (neg (F.sub (fin h) (fin l))))
    le (pmin (F.sub (fin l) e') (F.add (fin h) e')) (fin l) = true ∧
    le (fin h) (pmax (F.sub (fin l) e') (F.add (fin h) e')) = true := by
  intro e'
  have h1 : e' = .num e := by
    obtain ⟨z, hz, hz0⟩ := F.half_neg_width hl
    simp only [e', hz, pmax, lt]
    rw [if_neg (by simpa using hz0.trans he)]
  rw [h1]
  have h2 : le (F.sub (fin l) (.num e)) (fin l) = true ∧ le (fin h) (F.add (fin h) (.num e)) = true := by
    induction e with
    | bot => simp at he
    | top => constructor <;> simp [sub, neg, add, fin, le]
    | coe r =>
      have hr : 0 ≤ r := by exact_mod_cast he
      have m1 := F.C98_monotone (l - r) l (by linarith)
      have m2 := F.C98_monotone h (h + r) (by linarith)
      rw [F.toF_self fl] at m1
      rw [F.toF_self fh] at m2
      constructor
      · have := F.sub_fin l r; unfold fin at this m1 ⊢; rw [this]; exact m1
      · have := F.add_fin h r; unfold fin at this m2 ⊢; rw [this]; exact m2
  have h3 : le (F.sub (fin l) (.num e)) (F.add (fin h) (.num e)) = true :=
    le_trans' h2.1 (le_trans' (le_fin.2 hl) h2.2)
  rw [pmin_of_le h3, pmax_of_le h3]
  exact h2

/-- Shrinking along one axis. -/
theorem axis_shrink {l h : ℝ} (fl : F.IsFl l) (fh : F.IsFl h) (hl : l ≤ h) (e : ℝ) (fe : F.IsFl e) (he : e ≤ 0) :
    let e' := pmax (fin e) (F.half (neg (F.sub (fin h) (fin l))))
    le (fin l) (pmin (F.sub (fin l) e') (F.add (fin h) e')) = true ∧
    le (pmax (F.sub (fin l) e') (F.add (fin h) e')) (fin h) = true := by
  intro e'
  have h1 : ∃ t : ℝ, e' = fin t ∧ t ≤ 0 ∧ -(h - l) ≤ t := by
    by_cases hw : F.limit ≤ h - l
    · have : F.half (neg (F.sub (fin h) (fin l))) = .num ⊥ := by
        rw [sub_fin, (F.C98_rounding _).1.2 hw]; simp [neg, half]
      refine ⟨e, by simp only [e', this]; simp [pmax, lt, fin], he, ?_⟩
      have := (abs_le.1 (F.fl_le_maxf fe)).1
      have := F.maxf_lt_limit
      linarith
    · have hb : |h - l| < F.limit := by rw [abs_of_nonneg (by linarith)]; exact not_le.1 hw
      have hm := (F.rnd_in_iff _).2 hb
      have e1 : F.half (neg (F.sub (fin h) (fin l))) = fin (F.rnd (-F.rnd (h - l) / 2)) := by
        rw [sub_fin, F.toF_fin hm, neg_fin, half_fin, F.toF_in]
        rw [abs_div, abs_neg, abs_of_pos (show (0 : ℝ) < 2 by norm_num)]
        have := abs_nonneg (F.rnd (h - l)); linarith
      have hz : F.rnd (-F.rnd (h - l) / 2) ≤ 0 := by
        have h0 := F.rnd_nonneg (x := h - l) (by linarith)
        have := F.rnd_mono (show -F.rnd (h - l) / 2 ≤ 0 by linarith)
        rwa [rnd_zero] at this
      have hz2 : -(h - l) ≤ F.rnd (-F.rnd (h - l) / 2) := by
        have hneg : -F.rnd (h - l) / 2 = -(F.rnd (h - l) / 2) := by ring
        rw [hneg, rnd_neg]
        suffices F.rnd (F.rnd (h - l) / 2) ≤ h - l by linarith
        have h0 : 0 ≤ h - l := by linarith
        by_cases hs : h - l < 2 * F.tiny
        · -- exact difference
          obtain ⟨a, rfl⟩ := F.fl_mult fl
          obtain ⟨b, rfl⟩ := F.fl_mult fh
          have hx : F.rnd (b * 2 ^ F.emin - a * 2 ^ F.emin) = b * 2 ^ F.emin - a * 2 ^ F.emin := by
            rw [F.rnd_small (by rw [abs_of_nonneg h0]; exact hs)]
            have e3 : ((b : ℝ) * 2 ^ F.emin - a * 2 ^ F.emin) / 2 ^ F.emin = ((b - a : ℤ) : ℝ) := by
              push_cast; field_simp
            rw [e3, pyRound_int]; push_cast; ring
          rw [hx]
          have := F.rnd_mono (show ((b : ℝ) * 2 ^ F.emin - a * 2 ^ F.emin) / 2 ≤ b * 2 ^ F.emin - a * 2 ^ F.emin by linarith)
          rwa [hx] at this
        · push Not at hs
          have ht := F.tiny_pos
          have hbig : F.rnd (h - l) = flBin F.p (h - l) := F.rnd_big (by rw [abs_of_nonneg h0]; linarith)
          have hlow : 2 * F.tiny ≤ F.rnd (h - l) := by
            have h5 := F.rnd_mono hs
            have h6 : F.rnd (2 * F.tiny) = 2 * F.tiny := by
              have h7 := F.rnd_rep (2 ^ (F.p - 1)) (F.emin + 1)
                (by rw [abs_of_nonneg (by positivity)]; exact pow_le_pow_right₀ (by norm_num) (by omega)) (by omega)
              rw [zpow_add_one₀ (by norm_num)] at h7
              rw [F.tiny_eq, show 2 * (((2 ^ (F.p - 1) : ℤ) : ℝ) * 2 ^ F.emin) = ((2 ^ (F.p - 1) : ℤ) : ℝ) * (2 ^ F.emin * 2) by ring]
              exact h7
            rwa [h6] at h5
          have hhalf : F.rnd (F.rnd (h - l) / 2) = F.rnd (h - l) / 2 := by
            rw [F.rnd_big (by rw [abs_of_nonneg (by linarith)]; linarith), hbig]
            have h7 := flBin_dbl F.p (flBin F.p (h - l) / 2)
            rw [mul_div_cancel₀ _ (by norm_num), flBin_idem _ (by have := F.hp; omega)] at h7
            linarith
          rw [hhalf, hbig]
          have h8 := (abs_le.1 (flBin_err F.p (h - l))).2
          rw [abs_of_nonneg h0] at h8
          have h9 : (2 : ℝ) ^ (-(F.p : ℤ)) ≤ 1 / 2 := by
            refine (zpow_le_zpow_right₀ (by norm_num) (show -(F.p : ℤ) ≤ -1 by have := F.hp; omega)).trans ?_
            norm_num
          nlinarith
      refine ⟨max e (F.rnd (-F.rnd (h - l) / 2)), ?_, max_le he hz, hz2.trans (le_max_right _ _)⟩
      show pmax (fin e) (F.half (neg (F.sub (fin h) (fin l)))) = _
      rw [e1]
      rcases le_total e (F.rnd (-F.rnd (h - l) / 2)) with hlt | hlt
      · rw [pmax_of_le (le_fin.2 hlt), max_eq_right hlt]
      · rw [max_eq_left hlt, pmax, if_neg]
        simpa [lt, fin] using hlt
  obtain ⟨t, ht, ht0, ht1⟩ := h1
  rw [ht, sub_fin, add_fin]
  have a1 := F.C98_monotone l (l - t) (by linarith)
  have a2 := F.C98_monotone (l - t) h (by linarith)
  have b1 := F.C98_monotone l (h + t) (by linarith)
  have b2 := F.C98_monotone (h + t) h (by linarith)
  rw [F.toF_self fl] at a1 b1
  rw [F.toF_self fh] at a2 b2
  constructor
  · unfold pmin; split
    · exact b1
    · exact a1
  · unfold pmax; split
    · exact b2
    · exact a2

theorem expand_eq (xl yl xh yh : ℝ) (ex : Num EReal) (ey : Option (Num EReal)) :
    F.expand (finBox (.box xl yl xh yh)) ex ey =
      let ex' := pmax ex (F.half (neg (F.sub (fin xh) (fin xl))))
      let ey' := pmax (ey.getD ex) (F.half (neg (F.sub (fin yh) (fin yl))))
      .ok (NB.mk' (F.sub (fin xl) ex') (F.sub (fin yl) ey') (F.add (fin xh) ex') (F.add (fin yh) ey')) := by
  cases ey <;> rfl

/-- C98: expanding a box of floats by amounts that are not negative, infinite ones among them, gives a box without NaN that contains it,
also where sides overflow. -/
theorem C98_expand_grows (b : BBox ℝ) (hf : F.FlBox b) (hn : b.Norm) (hb : b ≠ .none) (ex : EReal) (ey : Option EReal) (hx : 0 ≤ ex)
    (hy : ∀ e ∈ ey, 0 ≤ e) :
    ∃ b', F.expand (finBox b) (.num ex) (ey.map .num) = .ok b' ∧ ¬ HasNan b' ∧ NB.contains b' (finBox b) = .ok true := by
  cases b with
  | none => exact absurd rfl hb
  | box xl yl xh yh =>
    obtain ⟨⟨f1, f2⟩, f3, f4⟩ := hf
    have e2 : ∃ e, 0 ≤ e ∧ (ey.map Num.num).getD (.num ex) = .num e := by
      cases ey with
      | none => exact ⟨ex, hx, rfl⟩
      | some e => exact ⟨e, hy e rfl, rfl⟩
    obtain ⟨e, he, hge⟩ := e2
    obtain ⟨a1, a2⟩ := F.axis_grow f1 f3 hn.1 ex hx
    obtain ⟨b1, b2⟩ := F.axis_grow f2 f4 hn.2 e he
    refine ⟨_, (F.expand_eq _ _ _ _ _ _), ?_, ?_⟩
    · rw [hge]
      simp only [NB.mk', HasNan]
      rintro (h | h | h | h)
      · rw [h] at a1; simp [le] at a1
      · rw [h] at b1; simp [le] at b1
      · rw [h] at a2; simp [le, fin] at a2
      · rw [h] at b2; simp [le, fin] at b2
    · rw [hge]
      simp only [NB.mk', finBox, NB.contains, a1, a2, b1, b2]; rfl

/-- C98: expanding by amounts that are finite floats and not positive, that is shrinking, however much, gives a box without NaN inside of
the old one. -/
theorem C98_expand_shrinks (b : BBox ℝ) (hf : F.FlBox b) (hn : b.Norm) (hb : b ≠ .none) (ex : ℝ) (ey : Option ℝ)
    (fx : F.IsFl ex) (fy : ∀ e ∈ ey, F.IsFl e) (hx : ex ≤ 0) (hy : ∀ e ∈ ey, e ≤ 0) :
    ∃ b', F.expand (finBox b) (fin ex) (ey.map fin) = .ok b' ∧ ¬ HasNan b' ∧ NB.contains (finBox b) b' = .ok true := by
  cases b with
  | none => exact absurd rfl hb
  | box xl yl xh yh =>
    obtain ⟨⟨f1, f2⟩, f3, f4⟩ := hf
    have e2 : ∃ e, F.IsFl e ∧ e ≤ 0 ∧ (ey.map fin).getD (fin ex) = fin e := by
      cases ey with
      | none => exact ⟨ex, fx, hx, rfl⟩
      | some e => exact ⟨e, fy e rfl, hy e rfl, rfl⟩
    obtain ⟨e, fe, he, hge⟩ := e2
    obtain ⟨a1, a2⟩ := F.axis_shrink f1 f3 hn.1 ex fx hx
    obtain ⟨b1, b2⟩ := F.axis_shrink f2 f4 hn.2 e fe he
    refine ⟨_, (F.expand_eq _ _ _ _ _ _), ?_, ?_⟩
    · rw [hge]
      simp only [NB.mk', HasNan]
      rintro (h | h | h | h)
      · rw [h] at a1; simp [le, fin] at a1
      · rw [h] at b1; simp [le, fin] at b1
      · rw [h] at a2; simp [le] at a2
      · rw [h] at b2; simp [le] at b2
    · rw [hge]
      simp only [NB.mk', finBox, NB.contains, a1, a2, b1, b2]; rfl

/-- C98: shrinking by an infinite amount a box whose sides overflow gives the box of everything instead of one inside of it. -/
theorem C98_expand_counterexample : ∃ b : BBox ℝ, F.FlBox b ∧ b.Norm ∧
    F.expand (finBox b) (.num ⊥) none = .ok (.box (.num ⊥) (.num ⊥) (.num ⊤) (.num ⊤)) := by
  have hm := F.maxf_pos
  have hf := F.fl_maxf
  refine ⟨.box (-F.maxf) (-F.maxf) F.maxf F.maxf, ⟨⟨F.fl_neg hf, F.fl_neg hf⟩, hf, hf⟩, ⟨by linarith, by linarith⟩, ?_⟩
  have hlim : F.limit ≤ F.maxf - -F.maxf := by
    have h0 : (0 : ℝ) < 2 ^ F.emax := by positivity
    have hp := F.two_p
    norm_num at hp
    unfold maxf limit
    have : (2 : ℝ) ^ F.p - 1 / 2 ≤ 2 * (2 ^ F.p - 1) := by linarith
    calc ((2 : ℝ) ^ F.p - 1 / 2) * 2 ^ F.emax ≤ 2 * (2 ^ F.p - 1) * 2 ^ F.emax := by gcongr
      _ = _ := by ring
  have e1 : F.half (neg (F.sub (fin F.maxf) (fin (-F.maxf)))) = .num ⊥ := by
    rw [sub_fin, (F.C98_rounding _).1.2 hlim]; simp [neg, half]
  rw [expand_eq]
  simp only [e1, Option.getD_none]
  have e2 : pmax (.num ⊥) (.num (⊥ : EReal)) = .num ⊥ := by simp [pmax, lt]
  rw [e2]
  have e3 : F.sub (fin (-F.maxf)) (.num ⊥) = .num ⊤ := by simp [sub, neg, add, fin]
  have e4 : F.add (fin F.maxf) (.num ⊥) = .num ⊥ := by simp [add, fin]
  rw [e3, e4]
  simp [NB.mk', pmin, pmax, lt]

/-! ### Transformations -/

/-- One entry of the product, each operation rounded, without regard to overflow. -/
def rdot (mode : DotMode) (a x b y c : ℝ) : ℝ :=
  match mode with
  | .left => F.rnd (F.rnd (F.rnd (a * x) + F.rnd (b * y)) + F.rnd (c * 1))
  | .right => F.rnd (F.rnd (a * x) + F.rnd (F.rnd (b * y) + F.rnd (c * 1)))
  | .fused => F.rnd (c * 1 + F.rnd (b * y + F.rnd (a * x)))

theorem dot3_fin (mode : DotMode) (a x b y c : ℝ) (h : |a| * |x| + |b| * |y| + |c| ≤ F.maxf / 4) :
    F.dot3 mode (fin a) (fin x) (fin b) (fin y) (fin c) (fin 1) = fin (F.rdot mode a x b y c) := by
  have ha : 0 ≤ |a * x| := abs_nonneg _
  have hb : 0 ≤ |b * y| := abs_nonneg _
  have hc : 0 ≤ |c * 1| := abs_nonneg _
  have hs : |a * x| + |b * y| + |c * 1| ≤ F.maxf / 4 := by rw [abs_mul, abs_mul, mul_one]; exact h
  have hm := F.maxf_pos
  have ra := F.rnd_abs_le (a * x)
  have rb := F.rnd_abs_le (b * y)
  have rc := F.rnd_abs_le (c * 1)
  cases mode <;> simp only [dot3, rdot]
  · have s1 := abs_add_le (F.rnd (a * x)) (F.rnd (b * y))
    have r1 := F.rnd_abs_le (F.rnd (a * x) + F.rnd (b * y))
    have s2 := abs_add_le (F.rnd (F.rnd (a * x) + F.rnd (b * y))) (F.rnd (c * 1))
    rw [mul_fin, mul_fin, mul_fin, F.toF_in (x := a * x) (by linarith), F.toF_in (x := b * y) (by linarith),
      F.toF_in (x := c * 1) (by linarith), add_fin, F.toF_in (by linarith), add_fin, F.toF_in (by linarith)]
  · have s1 := abs_add_le (F.rnd (b * y)) (F.rnd (c * 1))
    have r1 := F.rnd_abs_le (F.rnd (b * y) + F.rnd (c * 1))
    have s2 := abs_add_le (F.rnd (a * x)) (F.rnd (F.rnd (b * y) + F.rnd (c * 1)))
    rw [mul_fin, mul_fin, mul_fin, F.toF_in (x := a * x) (by linarith), F.toF_in (x := b * y) (by linarith),
      F.toF_in (x := c * 1) (by linarith), add_fin, F.toF_in (by linarith), add_fin, F.toF_in (by linarith)]
  · have s1 := abs_add_le (b * y) (F.rnd (a * x))
    have r1 := F.rnd_abs_le (b * y + F.rnd (a * x))
    have s2 := abs_add_le (c * 1) (F.rnd (b * y + F.rnd (a * x)))
    rw [mul_fin, F.toF_in (x := a * x) (by linarith), fma_fin, F.toF_in (by linarith), fma_fin, F.toF_in (by linarith)]

theorem rdot_isFl (mode : DotMode) (a x b y c : ℝ) (h : |a| * |x| + |b| * |y| + |c| ≤ F.maxf / 4) :
    F.IsFl (F.rdot mode a x b y c) := by
  have ha : 0 ≤ |a * x| := abs_nonneg _
  have hb : 0 ≤ |b * y| := abs_nonneg _
  have hc : 0 ≤ |c * 1| := abs_nonneg _
  have hs : |a * x| + |b * y| + |c * 1| ≤ F.maxf / 4 := by rw [abs_mul, abs_mul, mul_one]; exact h
  have ra := F.rnd_abs_le (a * x)
  have rb := F.rnd_abs_le (b * y)
  have rc := F.rnd_abs_le (c * 1)
  cases mode <;> simp only [rdot] <;> apply F.fl_rnd <;> apply F.rnd_le_maxf
  · have s1 := abs_add_le (F.rnd (a * x)) (F.rnd (b * y))
    have r1 := F.rnd_abs_le (F.rnd (a * x) + F.rnd (b * y))
    have s2 := abs_add_le (F.rnd (F.rnd (a * x) + F.rnd (b * y))) (F.rnd (c * 1))
    linarith
  · have s1 := abs_add_le (F.rnd (b * y)) (F.rnd (c * 1))
    have r1 := F.rnd_abs_le (F.rnd (b * y) + F.rnd (c * 1))
    have s2 := abs_add_le (F.rnd (a * x)) (F.rnd (F.rnd (b * y) + F.rnd (c * 1)))
    linarith
  · have s1 := abs_add_le (b * y) (F.rnd (a * x))
    have r1 := F.rnd_abs_le (b * y + F.rnd (a * x))
    have s2 := abs_add_le (c * 1) (F.rnd (b * y + F.rnd (a * x)))
    linarith

/-- `x'` approximates `x`, whose size is at most `A`, after `n` roundings and `k` losses of half the smallest float. -/
def NearU (n : ℕ) (k : ℝ) (x' x A : ℝ) : Prop :=
  |x| ≤ A ∧ |x' - x| ≤ ((1 + (2 : ℝ) ^ (-(F.p : ℤ))) ^ n - 1) * A + k * (2 ^ F.emin / 2)

theorem u_pos : 0 < (2 : ℝ) ^ (-(F.p : ℤ)) := by positivity

theorem u_le : (2 : ℝ) ^ (-(F.p : ℤ)) ≤ 1 / 4 := by
  refine (zpow_le_zpow_right₀ (by norm_num) (show -(F.p : ℤ) ≤ -2 by have := F.hp; omega)).trans ?_
  norm_num

variable {F} in
theorem NearU.fl {n : ℕ} {k x' x A : ℝ} (h : F.NearU n k x' x A) :
    F.NearU (n + 1) ((1 + (2 : ℝ) ^ (-(F.p : ℤ))) * k + 1) (F.rnd x') x A := by
  refine ⟨h.1, ?_⟩
  have e := F.rnd_err x'
  have h1 := h.2
  have h0 := h.1
  have hu := F.u_pos
  generalize (2 : ℝ) ^ (-(F.p : ℤ)) = u at *
  generalize (2 : ℝ) ^ F.emin / 2 = d at *
  have t1 : |F.rnd x' - x| ≤ |F.rnd x' - x'| + |x' - x| := by
    have := abs_add_le (F.rnd x' - x') (x' - x); rwa [sub_add_sub_cancel] at this
  have t2 : |x'| ≤ |x' - x| + |x| := by
    have := abs_add_le (x' - x) x; rwa [sub_add_cancel] at this
  have t3 : u * |x'| ≤ u * (((1 + u) ^ n - 1) * A + k * d + A) := mul_le_mul_of_nonneg_left (by linarith) hu.le
  have : |F.rnd x' - x| ≤ u * (((1 + u) ^ n - 1) * A + k * d + A) + d + (((1 + u) ^ n - 1) * A + k * d) := by linarith
  refine this.trans (le_of_eq ?_)
  ring

variable {F} in
theorem NearU.add {n : ℕ} {k l x' x A y' y B : ℝ} (h : F.NearU n k x' x A) (g : F.NearU n l y' y B) :
    F.NearU n (k + l) (x' + y') (x + y) (A + B) := by
  refine ⟨(abs_add_le _ _).trans (add_le_add h.1 g.1), ?_⟩
  have e : x' + y' - (x + y) = (x' - x) + (y' - y) := by ring
  rw [e]
  refine (abs_add_le _ _).trans ((add_le_add h.2 g.2).trans (le_of_eq (by ring)))

variable {F} in
theorem NearU.mono {n m : ℕ} {k l x' x A : ℝ} (h : F.NearU n k x' x A) (hn : n ≤ m) (hk : k ≤ l) : F.NearU m l x' x A := by
  refine ⟨h.1, h.2.trans ?_⟩
  have hA : 0 ≤ A := (abs_nonneg _).trans h.1
  have hd : (0 : ℝ) ≤ 2 ^ F.emin / 2 := by positivity
  have hu := F.u_pos
  have := pow_le_pow_right₀ (show (1 : ℝ) ≤ 1 + 2 ^ (-(F.p : ℤ)) by linarith) hn
  have h1 : ((1 + (2 : ℝ) ^ (-(F.p : ℤ))) ^ n - 1) * A ≤ ((1 + (2 : ℝ) ^ (-(F.p : ℤ))) ^ m - 1) * A :=
    mul_le_mul_of_nonneg_right (by linarith) hA
  have h2 := mul_le_mul_of_nonneg_right hk hd
  linarith

theorem NearU.self (x : ℝ) : F.NearU 0 0 x x |x| := ⟨le_rfl, by simp⟩

theorem rdot_near (mode : DotMode) (a x b y c : ℝ) :
    F.NearU 3 8 (F.rdot mode a x b y c) (a * x + b * y + c) (|a| * |x| + |b| * |y| + |c|) := by
  have hu := F.u_pos
  have hu4 := F.u_le
  have pa := (NearU.self F (a * x)).fl
  have pb := (NearU.self F (b * y)).fl
  have pc := (NearU.self F (c * 1)).fl
  rw [abs_mul] at pa pb
  rw [mul_one] at pc
  cases mode <;> simp only [rdot, mul_one]
  · refine (((pa.add pb).fl.add (pc.mono (by norm_num) le_rfl)).fl).mono (by norm_num) ?_
    nlinarith
  · have := ((pa.mono (m := 2) (by norm_num) le_rfl).add (pb.add pc).fl).fl.mono (m := 3) (l := 8) (by norm_num) (by nlinarith)
    rwa [← add_assoc, ← add_assoc] at this
  · have qb := NearU.self F (b * y)
    have qc := NearU.self F c
    rw [abs_mul] at qb
    have := ((qc.mono (m := 2) (Nat.zero_le _) le_rfl).add ((qb.mono (m := 1) (Nat.zero_le _) le_rfl).add pa).fl).fl.mono
      (m := 3) (l := 8) (by norm_num) (by nlinarith)
    have e1 : c + (b * y + a * x) = a * x + b * y + c := by ring
    have e2 : |c| + (|b| * |y| + |a| * |x|) = |a| * |x| + |b| * |y| + |c| := by ring
    rwa [e1, e2] at this

theorem apply_fin (mode : DotMode) (m : Mat3 ℝ) (p : Pt ℝ) (hx : rowSizeX m p ≤ F.maxf / 4) (hy : rowSizeY m p ≤ F.maxf / 4) :
    F.apply mode m (finPt p) = finPt ⟨F.rdot mode m.a p.x m.b p.y m.c, F.rdot mode m.d p.x m.e p.y m.f⟩ := by
  simp only [apply, finPt, F.dot3_fin mode _ _ _ _ _ hx, F.dot3_fin mode _ _ _ _ _ hy]

/-- C98: transforming a point gives finite floats near the exact image, in whatever order and with or without fused operations the
product is summed, as long as the terms of the product are a quarter of the largest float at most; results may underflow, which adds
at most four of the smallest float. -/
theorem C98_transform (mode : DotMode) (m : Mat3 ℝ) (p : Pt ℝ) (hx : rowSizeX m p ≤ F.maxf / 4) (hy : rowSizeY m p ≤ F.maxf / 4) :
    ∃ q, F.apply mode m (finPt p) = finPt q ∧ F.FlPt q ∧
      Within (((1 + (2 : ℝ) ^ (-(F.p : ℤ))) ^ 3 - 1) * rowSizeX m p + 4 * 2 ^ F.emin)
        (((1 + (2 : ℝ) ^ (-(F.p : ℤ))) ^ 3 - 1) * rowSizeY m p + 4 * 2 ^ F.emin) q (m.apply p) := by
  refine ⟨_, F.apply_fin mode m p hx hy, ⟨F.rdot_isFl mode _ _ _ _ _ hx, F.rdot_isFl mode _ _ _ _ _ hy⟩, ?_, ?_⟩
  · refine (F.rdot_near mode m.a p.x m.b p.y m.c).2.trans (le_of_eq ?_)
    unfold rowSizeX; ring
  · refine (F.rdot_near mode m.d p.x m.e p.y m.f).2.trans (le_of_eq ?_)
    unfold rowSizeY; ring

theorem rdot_mono_x (mode : DotMode) {a x x' b y c : ℝ} (h : a * x ≤ a * x') : F.rdot mode a x b y c ≤ F.rdot mode a x' b y c := by
  have h1 := F.rnd_mono h
  cases mode <;> simp only [rdot] <;> apply F.rnd_mono
  · have := F.rnd_mono (show F.rnd (a * x) + F.rnd (b * y) ≤ F.rnd (a * x') + F.rnd (b * y) by linarith); linarith
  · linarith
  · have := F.rnd_mono (show b * y + F.rnd (a * x) ≤ b * y + F.rnd (a * x') by linarith); linarith

theorem rdot_mono_y (mode : DotMode) {a x b y y' c : ℝ} (h : b * y ≤ b * y') : F.rdot mode a x b y c ≤ F.rdot mode a x b y' c := by
  have h1 := F.rnd_mono h
  cases mode <;> simp only [rdot] <;> apply F.rnd_mono
  · have := F.rnd_mono (show F.rnd (a * x) + F.rnd (b * y) ≤ F.rnd (a * x) + F.rnd (b * y') by linarith); linarith
  · have := F.rnd_mono (show F.rnd (b * y) + F.rnd (c * 1) ≤ F.rnd (b * y') + F.rnd (c * 1) by linarith); linarith
  · have := F.rnd_mono (show b * y + F.rnd (a * x) ≤ b * y' + F.rnd (a * x) by linarith); linarith

theorem rdot_corners (mode : DotMode) (a b c : ℝ) {x y xl xh yl yh : ℝ} (hx1 : xl ≤ x) (hx2 : x ≤ xh) (hy1 : yl ≤ y) (hy2 : y ≤ yh) :
    (∃ x' y', (x' = xl ∨ x' = xh) ∧ (y' = yl ∨ y' = yh) ∧ F.rdot mode a x b y c ≤ F.rdot mode a x' b y' c) ∧
    ∃ x' y', (x' = xl ∨ x' = xh) ∧ (y' = yl ∨ y' = yh) ∧ F.rdot mode a x' b y' c ≤ F.rdot mode a x b y c := by
  have key : ∀ {k v lo hi : ℝ}, lo ≤ v → v ≤ hi →
      (∃ v', (v' = lo ∨ v' = hi) ∧ k * v ≤ k * v') ∧ ∃ v', (v' = lo ∨ v' = hi) ∧ k * v' ≤ k * v := by
    intro k v lo hi h1 h2
    rcases le_total 0 k with hk | hk
    · exact ⟨⟨hi, Or.inr rfl, mul_le_mul_of_nonneg_left h2 hk⟩, lo, Or.inl rfl, mul_le_mul_of_nonneg_left h1 hk⟩
    · exact ⟨⟨lo, Or.inl rfl, mul_le_mul_of_nonpos_left h1 hk⟩, hi, Or.inr rfl, mul_le_mul_of_nonpos_left h2 hk⟩
  obtain ⟨⟨x1, a1, a2⟩, x2, a3, a4⟩ := key (k := a) hx1 hx2
  obtain ⟨⟨y1, b1, b2⟩, y2, b3, b4⟩ := key (k := b) hy1 hy2
  exact ⟨⟨x1, y1, a1, b1, (F.rdot_mono_x mode a2).trans (F.rdot_mono_y mode b2)⟩,
    x2, y2, a3, b3, (F.rdot_mono_y mode b4).trans (F.rdot_mono_x mode a4)⟩

theorem pmin_fin (a b : ℝ) : pmin (fin a) (fin b) = fin (min a b) := by
  rcases le_total a b with h | h
  · rw [pmin_of_le (le_fin.2 h), min_eq_left h]
  · rw [min_eq_right h]
    unfold pmin
    split
    · rfl
    · rename_i h1
      have : a = b := le_antisymm (not_lt.1 (by simpa [lt, fin] using h1)) h
      rw [this]

theorem pmax_fin (a b : ℝ) : pmax (fin a) (fin b) = fin (max a b) := by
  rcases le_total a b with h | h
  · rw [pmax_of_le (le_fin.2 h), max_eq_right h]
  · rw [max_eq_left h, pmax, if_neg]
    simpa [lt, fin] using h

/-- C98: where the terms of the products stay below a quarter of the largest float in the four corners, the box of the corners' computed
images is a box of finite numbers and contains the computed image of every point of the box. -/
theorem C98_transformed (mode : DotMode) (m : Mat3 ℝ) (xl yl xh yh : ℝ) (hn : xl ≤ xh ∧ yl ≤ yh)
    (hc : ∀ x ∈ [xl, xh], ∀ y ∈ [yl, yh], rowSizeX m ⟨x, y⟩ ≤ F.maxf / 4 ∧ rowSizeY m ⟨x, y⟩ ≤ F.maxf / 4) :
    ∃ b', NB.transformed (finBox (.box xl yl xh yh)) (F.apply mode m) = .ok (finBox b') ∧
      ∀ p ∈ (BBox.box xl yl xh yh).Region, ∃ q, F.apply mode m (finPt p) = finPt q ∧ q ∈ b'.Region := by
  let r : Pt ℝ → Pt ℝ := fun p => ⟨F.rdot mode m.a p.x m.b p.y m.c, F.rdot mode m.d p.x m.e p.y m.f⟩
  have hr : ∀ x ∈ [xl, xh], ∀ y ∈ [yl, yh], F.apply mode m ⟨fin x, fin y⟩ = finPt (r ⟨x, y⟩) :=
    fun x hx y hy => F.apply_fin mode m ⟨x, y⟩ (hc x hx y hy).1 (hc x hx y hy).2
  have e1 := hr xl (by simp) yl (by simp)
  have e2 := hr xl (by simp) yh (by simp)
  have e3 := hr xh (by simp) yh (by simp)
  have e4 := hr xh (by simp) yl (by simp)
  refine ⟨BBox.add (BBox.ofPts (r ⟨xl, yl⟩) (r ⟨xl, yh⟩)) (BBox.ofPts (r ⟨xh, yh⟩) (r ⟨xh, yl⟩)), ?_, ?_⟩
  · simp only [NB.transformed, finBox, e1, e2, e3, e4, NB.ofPts, NB.mk', NB.add, finPt, pmin_fin, pmax_fin, BBox.ofPts, BBox.mk',
      BBox.add]
  · intro p hp
    obtain ⟨⟨hx1, hx2⟩, hy1, hy2⟩ := hp
    have bx : ∃ x ∈ [xl, xh], |p.x| ≤ |x| := by
      rcases le_total |xl| |xh| with h | h
      · exact ⟨xh, by simp, (abs_le_max_abs_abs hx1 hx2).trans (max_le h le_rfl)⟩
      · exact ⟨xl, by simp, (abs_le_max_abs_abs hx1 hx2).trans (max_le le_rfl h)⟩
    have bY : ∃ y ∈ [yl, yh], |p.y| ≤ |y| := by
      rcases le_total |yl| |yh| with h | h
      · exact ⟨yh, by simp, (abs_le_max_abs_abs hy1 hy2).trans (max_le h le_rfl)⟩
      · exact ⟨yl, by simp, (abs_le_max_abs_abs hy1 hy2).trans (max_le le_rfl h)⟩
    obtain ⟨x, hx, hpx⟩ := bx
    obtain ⟨y, hy, hpy⟩ := bY
    have sX : rowSizeX m p ≤ F.maxf / 4 := by
      refine le_trans ?_ (hc x hx y hy).1
      unfold rowSizeX; gcongr
    have sY : rowSizeY m p ≤ F.maxf / 4 := by
      refine le_trans ?_ (hc x hx y hy).2
      unfold rowSizeY; gcongr
    refine ⟨r p, F.apply_fin mode m p sX sY, ?_⟩
    have hin : ∀ x' y', (x' = xl ∨ x' = xh) → (y' = yl ∨ y' = yh) →
        r ⟨x', y'⟩ ∈ (BBox.add (BBox.ofPts (r ⟨xl, yl⟩) (r ⟨xl, yh⟩)) (BBox.ofPts (r ⟨xh, yh⟩) (r ⟨xh, yl⟩))).Region := by
      intro x' y' h1 h2
      simp only [BBox.ofPts, BBox.mk', BBox.add, BBox.Region, Set.mem_setOf_eq]
      rcases h1 with rfl | rfl <;> rcases h2 with rfl | rfl <;> simp
    obtain ⟨⟨x1, y1, a1, b1, c1⟩, x2, y2, a2, b2, c2⟩ := F.rdot_corners mode m.a m.b m.c hx1 hx2 hy1 hy2
    obtain ⟨⟨x3, y3, a3, b3, c3⟩, x4, y4, a4, b4, c4⟩ := F.rdot_corners mode m.d m.e m.f hx1 hx2 hy1 hy2
    have i1 := hin x1 y1 a1 b1
    have i2 := hin x2 y2 a2 b2
    have i3 := hin x3 y3 a3 b3
    have i4 := hin x4 y4 a4 b4
    exact ⟨⟨i2.1.1.trans c2, c1.trans i1.1.2⟩, i4.2.1.trans c4, c3.trans i3.2.2⟩

/-- C98: beyond that size an image that is small can be computed as NaN: with doubles, `maxf * x - maxf * y` at the point (2, 2). -/
theorem C98_transform_counterexample : ∃ (m : Mat3 ℝ) (p : Pt ℝ), double.IsFl m.a ∧ double.IsFl m.b ∧ double.FlPt p ∧
    (m.apply p).x = 0 ∧ (double.apply .left m (finPt p)).x = .nan := by
  have h2 : double.IsFl 2 := ⟨2, 0, by norm_num [double], by norm_num [double], by norm_num [double], by norm_num⟩
  refine ⟨⟨double.maxf, -double.maxf, 0, 0, 0, 0, 0, 0, 1⟩, ⟨2, 2⟩, double.fl_maxf, double.fl_neg double.fl_maxf, ⟨h2, h2⟩, ?_, ?_⟩
  · simp [Mat3.apply]
  · have hlim : double.limit ≤ double.maxf * 2 := by
      have h0 : (0 : ℝ) < 2 ^ double.emax := by positivity
      have hp := double.two_p
      norm_num at hp
      unfold maxf limit
      have : (2 : ℝ) ^ double.p - 1 / 2 ≤ 2 * (2 ^ double.p - 1) := by linarith
      calc ((2 : ℝ) ^ double.p - 1 / 2) * 2 ^ double.emax ≤ 2 * (2 ^ double.p - 1) * 2 ^ double.emax := by gcongr
        _ = _ := by ring
    have e1 : double.toF (double.maxf * 2) = .num ⊤ := (double.C98_rounding _).1.2 hlim
    have e2 : double.toF (-double.maxf * 2) = .num ⊥ := (double.C98_rounding _).2.1.2 (by linarith)
    simp only [apply, finPt, dot3, mul_fin, e1, e2]
    simp [add]

/-- The transformation of the unit square by a double matrix meets the size bound of `C98_transformed`, if the largest float is 16 at
least. -/
example (F : Fmt) (h : 16 ≤ F.maxf) : ∀ x ∈ [(0 : ℝ), 1], ∀ y ∈ [(0 : ℝ), 1],
    rowSizeX ⟨2, -1, 1, 0, 3, 1, 0, 0, 1⟩ ⟨x, y⟩ ≤ F.maxf / 4 ∧ rowSizeY ⟨2, -1, 1, 0, 3, 1, 0, 0, 1⟩ ⟨x, y⟩ ≤ F.maxf / 4 := by
  intro x hx y hy
  simp only [List.mem_cons, List.not_mem_nil, or_false] at hx hy
  rcases hx with rfl | rfl <;> rcases hy with rfl | rfl <;> constructor <;> norm_num [rowSizeX, rowSizeY] <;> linarith

/-- `C98_expand_grows` and `C98_expand_shrinks` on a box whose width overflows. -/
example : double.FlBox (.box (-double.maxf) 0 double.maxf 0) ∧ (BBox.box (-double.maxf) 0 double.maxf 0).Norm := by
  have hm := double.maxf_pos
  have h0 : double.IsFl 0 := ⟨0, 0, by norm_num, by norm_num [double], by norm_num [double], by norm_num⟩
  exact ⟨⟨⟨double.fl_neg double.fl_maxf, h0⟩, double.fl_maxf, h0⟩, by linarith, le_rfl⟩

/-! ### Infinite points and NaN -/

theorem add_inf_fin {i : EReal} (hi : i = ⊤ ∨ i = ⊥) (y : ℝ) : F.add (.num i) (fin y) = .num i ∧ F.add (fin y) (.num i) = .num i := by
  rcases hi with rfl | rfl <;> simp [add, fin]

theorem mul_inf {i : EReal} (hi : i = ⊤ ∨ i = ⊥) (a : ℝ) : F.mul (fin a) (.num i) = if a = 0 then .nan else .num ((a : EReal) * i) := by
  rcases hi with rfl | rfl <;> by_cases h : a = 0 <;> simp [mul, fin, h]

theorem mul_inf_inf {i : EReal} (hi : i = ⊤ ∨ i = ⊥) {a : ℝ} (h : a ≠ 0) : (a : EReal) * i = ⊤ ∨ (a : EReal) * i = ⊥ := by
  rcases lt_or_gt_of_ne h with h | h <;> rcases hi with rfl | rfl <;>
    simp [EReal.coe_mul_top_of_pos, EReal.coe_mul_top_of_neg, EReal.coe_mul_bot_of_pos, EReal.coe_mul_bot_of_neg, h]

theorem fma_inf_addend {i : EReal} (hi : i = ⊤ ∨ i = ⊥) (b y : ℝ) : F.fma (fin b) (fin y) (.num i) = .num i := by
  rcases hi with rfl | rfl <;> simp [fma, fin]

theorem fma_inf {i : EReal} (hi : i = ⊤ ∨ i = ⊥) (b : ℝ) (c : ℝ) :
    F.fma (fin b) (.num i) (fin c) = F.add (F.mul (fin b) (.num i)) (fin c) := by
  rcases hi with rfl | rfl <;> simp [fma, fin]

theorem nan_add (a : Num EReal) : F.add .nan a = .nan ∧ F.add a .nan = .nan := by cases a <;> simp [add]
theorem nan_mul (a : Num EReal) : F.mul a .nan = .nan := by cases a <;> simp [mul]
theorem nan_fma (a b : Num EReal) : F.fma a b .nan = .nan ∧ F.fma a .nan b = .nan := by cases a <;> cases b <;> simp [fma]

theorem dot3_inf_x (mode : DotMode) {i : EReal} (hi : i = ⊤ ∨ i = ⊥) (a b y c : ℝ) (h : |b| * |y| + |c| ≤ F.maxf / 4) :
    F.dot3 mode (fin a) (.num i) (fin b) (fin y) (fin c) (fin 1) = if a = 0 then .nan else .num ((a : EReal) * i) := by
  have hb : 0 ≤ |b * y| := abs_nonneg _
  have hc : 0 ≤ |c * 1| := abs_nonneg _
  have hs : |b * y| + |c * 1| ≤ F.maxf / 4 := by rw [abs_mul, mul_one]; exact h
  have hm := F.maxf_pos
  have rb := F.rnd_abs_le (b * y)
  have rc := F.rnd_abs_le (c * 1)
  have s1 := abs_add_le (F.rnd (b * y)) (F.rnd (c * 1))
  by_cases ha : a = 0
  · rw [if_pos ha]
    cases mode <;> simp only [dot3, F.mul_inf hi, if_pos ha, F.nan_add, F.nan_fma]
  · rw [if_neg ha]
    have hi' := mul_inf_inf hi ha
    cases mode <;> simp only [dot3, F.mul_inf hi, if_neg ha, mul_fin, F.fma_inf_addend hi']
    · rw [F.toF_in (x := b * y) (by linarith), F.toF_in (x := c * 1) (by linarith), (F.add_inf_fin hi' _).1, (F.add_inf_fin hi' _).1]
    · rw [F.toF_in (x := b * y) (by linarith), F.toF_in (x := c * 1) (by linarith), add_fin, F.toF_in (by linarith),
        (F.add_inf_fin hi' _).1]

theorem dot3_inf_y (mode : DotMode) {i : EReal} (hi : i = ⊤ ∨ i = ⊥) (a b x c : ℝ) (h : |a| * |x| + |c| ≤ F.maxf / 4) :
    F.dot3 mode (fin a) (fin x) (fin b) (.num i) (fin c) (fin 1) = if b = 0 then .nan else .num ((b : EReal) * i) := by
  have hb : 0 ≤ |a * x| := abs_nonneg _
  have hc : 0 ≤ |c * 1| := abs_nonneg _
  have hs : |a * x| + |c * 1| ≤ F.maxf / 4 := by rw [abs_mul, mul_one]; exact h
  have hm := F.maxf_pos
  by_cases ha : b = 0
  · rw [if_pos ha]
    cases mode <;> simp only [dot3, F.mul_inf hi, if_pos ha, F.nan_add, F.nan_fma]
    rw [mul_fin, F.toF_in (x := a * x) (by linarith), F.fma_inf hi, F.mul_inf hi, if_pos ha, (F.nan_add _).1, (F.nan_fma _ _).1]
  · rw [if_neg ha]
    have hi' := mul_inf_inf hi ha
    cases mode <;> simp only [dot3, F.mul_inf hi, if_neg ha, mul_fin]
    · rw [F.toF_in (x := a * x) (by linarith), F.toF_in (x := c * 1) (by linarith), (F.add_inf_fin hi' _).2, (F.add_inf_fin hi' _).1]
    · rw [F.toF_in (x := a * x) (by linarith), F.toF_in (x := c * 1) (by linarith), (F.add_inf_fin hi' _).1, (F.add_inf_fin hi' _).2]
    · rw [F.toF_in (x := a * x) (by linarith), F.fma_inf hi, F.mul_inf hi, if_neg ha, (F.add_inf_fin hi' _).1, F.fma_inf_addend hi']

/-- C98: transforming a point with one infinite coordinate. A coordinate of the result is infinite, with the sign of the product, if the
entry of the matrix that goes with the infinite coordinate is not zero; otherwise it is NaN, as zero times infinity is. -/
theorem C98_transform_infinite (mode : DotMode) (m : Mat3 ℝ) {i : EReal} (hi : i = ⊤ ∨ i = ⊥) (z : ℝ) :
    (|m.b| * |z| + |m.c| ≤ F.maxf / 4 → |m.e| * |z| + |m.f| ≤ F.maxf / 4 → F.apply mode m ⟨.num i, fin z⟩ =
      ⟨if m.a = 0 then .nan else .num ((m.a : EReal) * i), if m.d = 0 then .nan else .num ((m.d : EReal) * i)⟩) ∧
    (|m.a| * |z| + |m.c| ≤ F.maxf / 4 → |m.d| * |z| + |m.f| ≤ F.maxf / 4 → F.apply mode m ⟨fin z, .num i⟩ =
      ⟨if m.b = 0 then .nan else .num ((m.b : EReal) * i), if m.e = 0 then .nan else .num ((m.e : EReal) * i)⟩) := by
  constructor
  · intro h1 h2
    rw [apply, F.dot3_inf_x mode hi _ _ _ _ h1, F.dot3_inf_x mode hi _ _ _ _ h2]
  · intro h1 h2
    rw [apply, F.dot3_inf_y mode hi _ _ _ _ h1, F.dot3_inf_y mode hi _ _ _ _ h2]

/-- C98: one NaN coordinate makes both coordinates of the transformed point NaN. -/
theorem C98_transform_nan (mode : DotMode) (m : Mat3 ℝ) (q : Num EReal) :
    F.apply mode m ⟨.nan, q⟩ = ⟨.nan, .nan⟩ ∧ F.apply mode m ⟨q, .nan⟩ = ⟨.nan, .nan⟩ := by
  constructor <;> cases mode <;> simp only [apply, dot3, F.nan_mul, F.nan_add, F.nan_fma]

/-- C98, a consequence: the identity does not leave a point with an infinite coordinate unchanged, its other coordinate becomes NaN. -/
theorem C98_identity_counterexample (mode : DotMode) : F.apply mode Mat3.one ⟨.num ⊤, fin 0⟩ = ⟨.num ⊤, .nan⟩ := by
  have hm := F.maxf_pos
  rw [(F.C98_transform_infinite mode Mat3.one (.inl rfl) 0).1 (by simp [Mat3.one]; linarith) (by simp [Mat3.one]; linarith)]
  simp [Mat3.one]

end X7.Fmt
