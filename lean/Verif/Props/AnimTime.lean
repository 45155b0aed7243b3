import Mathlib.Tactic.Linarith
import Mathlib.Tactic.Ring
import Mathlib.Tactic.FieldSimp
import Mathlib.Tactic.Positivity
import Mathlib.Tactic.LinearCombination
import Mathlib.Tactic.IntervalCases
import Verif.Props.Anim

/-! C61: time functions. C62: builders. -/

noncomputable section

namespace X7.Anim

/-! ### Bisection -/

theorem bisectGo_spec (a : List ℝ) (x : ℝ) (lo hi : ℕ) (h : lo ≤ hi) (hn : hi ≤ a.length)
    (h1 : lo = 0 ∨ a.getD (lo - 1) 0 ≤ x) (h2 : hi = a.length ∨ x < a.getD hi 0) :
    let r := bisectGo a x lo hi
    r ≤ a.length ∧ (r = 0 ∨ a.getD (r - 1) 0 ≤ x) ∧ (r = a.length ∨ x < a.getD r 0) := by
  induction lo, hi using bisectGo.induct a x with
  | case1 lo hi hlt mid hx ih =>
    rw [bisectGo, if_pos hlt]
    simp only
    rw [if_pos hx]
    exact ih (by omega) (by omega) h1 (Or.inr hx)
  | case2 lo hi hlt mid hx ih =>
    rw [bisectGo, if_pos hlt]
    simp only
    rw [if_neg hx]
    exact ih (by omega) hn (Or.inr (by simpa using not_lt.1 hx)) h2
  | case3 lo hi hlt =>
    rw [bisectGo, if_neg hlt]
    have : lo = hi := by omega
    subst this
    exact ⟨hn, h1, h2⟩

/-- Sorted or not: the element before the place found is at most `x`, the element at the place is more. -/
theorem bisectRight_spec (a : List ℝ) (x : ℝ) :
    bisectRight a x ≤ a.length ∧ (bisectRight a x = 0 ∨ a.getD (bisectRight a x - 1) 0 ≤ x) ∧
      (bisectRight a x = a.length ∨ x < a.getD (bisectRight a x) 0) :=
  bisectGo_spec a x 0 a.length (Nat.zero_le _) le_rfl (Or.inl rfl) (Or.inl rfl)

theorem getD_map_fst (c : List (ℝ × ℝ)) (i : ℕ) (k : ℝ × ℝ) (h : c[i]? = some k) :
    (c.map Prod.fst).getD i 0 = k.1 ∧ (c.map Prod.snd).getD i 0 = k.2 := by
  simp [List.getD, h]

theorem npInterp_poly (curve : List (ℝ × ℝ)) (hne : curve ≠ []) (t : ℝ) :
    PolyAt curve t (npInterp (curve.map Prod.fst) (curve.map Prod.snd) t) := by
  obtain ⟨h0, h1, h2⟩ := bisectRight_spec (curve.map Prod.fst) t
  have hpos : 0 < curve.length := List.length_pos_of_ne_nil hne
  unfold npInterp
  simp only
  generalize bisectRight (curve.map Prod.fst) t = j at h0 h1 h2
  rw [List.length_map] at h0 h2 ⊢
  have get : ∀ i, i < curve.length → ∃ k, curve[i]? = some k := fun i hi => ⟨curve[i], by simp [hi]⟩
  by_cases hj0 : j = 0
  · rw [if_pos hj0]
    subst hj0
    obtain ⟨k, hk⟩ := get 0 hpos
    obtain ⟨e1, e2⟩ := getD_map_fst curve 0 k hk
    rw [e1] at h2
    refine Or.inl ⟨k, by rw [List.head?_eq_getElem?]; exact hk, ?_, e2⟩
    rcases h2 with h2 | h2
    · omega
    · exact h2
  · rw [if_neg hj0]
    have h1 := h1.resolve_left hj0
    obtain ⟨k, hk⟩ := get (j - 1) (by omega)
    obtain ⟨e1, e2⟩ := getD_map_fst curve (j - 1) k hk
    rw [e1] at h1
    by_cases hjn : j = curve.length
    · rw [if_pos hjn]
      refine Or.inr (Or.inl ⟨k, ?_, h1, e2⟩)
      rw [List.getLast?_eq_getElem?, ← hjn]
      exact hk
    · rw [if_neg hjn]
      have h2 := h2.resolve_left hjn
      obtain ⟨k', hk'⟩ := get j (by omega)
      obtain ⟨e3, e4⟩ := getD_map_fst curve j k' hk'
      rw [e3] at h2
      refine Or.inr (Or.inr ⟨j - 1, k, k', hk, ?_, h1, h2, ?_⟩)
      · rw [Nat.sub_add_cancel (by omega)]; exact hk'
      · rw [e1, e2, e3, e4]; ring

/-- Knots in order of time. -/
def Ordered (curve : List (ℝ × ℝ)) : Prop := curve.Pairwise fun a b => a.1 ≤ b.1

theorem ordered_get {curve : List (ℝ × ℝ)} (h : Ordered curve) {i j : ℕ} {a b : ℝ × ℝ} (hij : i ≤ j)
    (ha : curve[i]? = some a) (hb : curve[j]? = some b) : a.1 ≤ b.1 := by
  rcases hij.eq_or_lt with rfl | hlt
  · rw [ha] at hb; injection hb with hb; rw [hb]
  · obtain ⟨hi, rfl⟩ := List.getElem?_eq_some_iff.1 ha
    obtain ⟨hj, rfl⟩ := List.getElem?_eq_some_iff.1 hb
    exact List.pairwise_iff_getElem.1 h i j hi hj hlt

/-- For knots in order the height is unique. -/
theorem poly_unique {curve : List (ℝ × ℝ)} (h : Ordered curve) {t v w : ℝ} (hv : PolyAt curve t v) (hw : PolyAt curve t w) : v = w := by
  have toIdx : ∀ {v}, PolyAt curve t v → (∃ k, curve[0]? = some k ∧ t < k.1 ∧ v = k.2) ∨
      (∃ n k, curve[n]? = some k ∧ n + 1 = curve.length ∧ k.1 ≤ t ∧ v = k.2) ∨
      ∃ (i : ℕ) (a b : ℝ × ℝ), curve[i]? = some a ∧ curve[i + 1]? = some b ∧ a.1 ≤ t ∧ t < b.1 ∧
        v = a.2 + (t - a.1) / (b.1 - a.1) * (b.2 - a.2) := by
    rintro v (⟨k, h1, h2⟩ | ⟨k, h1, h2⟩ | h3)
    · exact Or.inl ⟨k, by rw [← List.head?_eq_getElem?]; exact h1, h2⟩
    · rw [List.getLast?_eq_getElem?] at h1
      have := (List.getElem?_eq_some_iff.1 h1).1
      exact Or.inr (Or.inl ⟨_, k, h1, by omega, h2⟩)
    · exact Or.inr (Or.inr h3)
  have len : ∀ {i : ℕ} {a : ℝ × ℝ}, curve[i]? = some a → i < curve.length := fun h => (List.getElem?_eq_some_iff.1 h).1
  rcases toIdx hv with ⟨k, a1, a2, a3⟩ | ⟨n, k, a1, a4, a2, a3⟩ | ⟨i, a, b, a1, a2, a3, a4, a5⟩ <;>
    rcases toIdx hw with ⟨k', b1, b2, b3⟩ | ⟨n', k', b1, b4, b2, b3⟩ | ⟨i', a', b', b1, b2, b3, b4, b5⟩
  · rw [a1] at b1; injection b1 with b1; rw [a3, b3, b1]
  · have := ordered_get h (Nat.zero_le _) a1 b1; linarith
  · have := ordered_get h (Nat.zero_le _) a1 b1; linarith
  · have := ordered_get h (Nat.zero_le _) b1 a1; linarith
  · have : n = n' := by omega
    subst this
    rw [a1] at b1; injection b1 with b1; rw [a3, b3, b1]
  · have := len b2
    have := ordered_get h (by omega) b2 a1; linarith
  · have := ordered_get h (Nat.zero_le _) b1 a1; linarith
  · have := len a2
    have := ordered_get h (by omega) a2 b1; linarith
  · have : i = i' := by
      rcases lt_trichotomy i i' with hlt | heq | hgt
      · have := ordered_get h (by omega : i + 1 ≤ i') a2 b1; linarith
      · exact heq
      · have := ordered_get h (by omega : i' + 1 ≤ i) b2 a1; linarith
    subst this
    rw [a1] at b1; injection b1 with b1
    rw [a2] at b2; injection b2 with b2
    rw [a5, b5, b1, b2]

/-- **C61.** `interpolate` follows the polyline through the knots: level before the first and after the last, linear between; pairs
are mapped in each component; no knots is an error. -/
theorem C61_interpolate (curve : List (ℝ × ℝ)) (hne : curve ≠ []) :
    ∃ f, interpolate curve = .ok f ∧ (∀ t, ∃ v, f (.num t) = .ok (.num v) ∧ PolyAt curve t v ∧
      (Ordered curve → ∀ w, PolyAt curve t w → w = v)) ∧
      ∀ x y, ∃ v w, f (.num x) = .ok (.num v) ∧ f (.num y) = .ok (.num w) ∧ f (.pair x y) = .ok (.pair v w) := by
  have e : ∃ f, interpolate curve = .ok f ∧ ∀ x y, f (.num x) = .ok (.num (npInterp (curve.map Prod.fst) (curve.map Prod.snd) x)) ∧
      f (.pair x y) = .ok (.pair (npInterp (curve.map Prod.fst) (curve.map Prod.snd) x) (npInterp (curve.map Prod.fst) (curve.map Prod.snd) y)) := by
    unfold interpolate
    rw [if_neg hne]
    exact ⟨_, rfl, fun x y => ⟨rfl, rfl⟩⟩
  obtain ⟨f, e1, e2⟩ := e
  exact ⟨f, e1, fun t => ⟨_, (e2 t t).1, npInterp_poly curve hne t, fun ho w hw => poly_unique ho hw (npInterp_poly curve hne t)⟩,
    fun x y => ⟨_, _, (e2 x x).1, (e2 y y).1, (e2 x y).2⟩⟩

/-- The height at a knot, if the times increase. -/
theorem poly_knot {curve : List (ℝ × ℝ)} (hs : curve.Pairwise fun a b => a.1 < b.1) {k : ℝ × ℝ} (hk : k ∈ curve) : PolyAt curve k.1 k.2 := by
  obtain ⟨i, hi, rfl⟩ := List.getElem_of_mem hk
  by_cases hlast : i + 1 = curve.length
  · refine Or.inr (Or.inl ⟨curve[i], ?_, le_rfl, rfl⟩)
    rw [List.getLast?_eq_getElem?, ← hlast]
    simp
  · refine Or.inr (Or.inr ⟨i, curve[i], curve[i + 1], by simp, by simp [(by omega : i + 1 < curve.length)], le_rfl, ?_, by simp⟩)
    exact List.pairwise_iff_getElem.1 hs i (i + 1) hi (by omega) (by omega)

/-- Every knot is hit, if the times increase. -/
theorem C61_knots (curve : List (ℝ × ℝ)) (hs : curve.Pairwise fun a b => a.1 < b.1) (f : TFunc) (hf : interpolate curve = .ok f)
    (k : ℝ × ℝ) (hk : k ∈ curve) : f (.num k.1) = .ok (.num k.2) := by
  have hne : curve ≠ [] := List.ne_nil_of_mem hk
  obtain ⟨f', e1, e2, -⟩ := C61_interpolate curve hne
  rw [hf] at e1
  injection e1 with e1
  subst e1
  obtain ⟨v, h1, -, h3⟩ := e2 k.1
  rw [h1, ← h3 (hs.imp fun h => h.le) k.2]
  exact poly_knot hs hk

/-- The value stays between bounds on the values of the knots. -/
theorem C61_bounded (curve : List (ℝ × ℝ)) (f : TFunc) (hf : interpolate curve = .ok f) (lo hi : ℝ)
    (hb : ∀ k ∈ curve, lo ≤ k.2 ∧ k.2 ≤ hi) (t v : ℝ) (hv : f (.num t) = .ok (.num v)) : lo ≤ v ∧ v ≤ hi := by
  have hne : curve ≠ [] := by
    rintro rfl
    simp [interpolate] at hf
  obtain ⟨f', e1, e2, -⟩ := C61_interpolate curve hne
  rw [hf] at e1
  injection e1 with e1
  subst e1
  obtain ⟨v', h1, h2, -⟩ := e2 t
  rw [hv] at h1
  injection h1 with h1
  injection h1 with h1
  subst h1
  rcases h2 with ⟨k, h1, -, h3⟩ | ⟨k, h1, -, h3⟩ | ⟨i, a, b, a1, a2, a3, a4, a5⟩
  · rw [h3]; exact hb k (List.mem_of_mem_head? h1)
  · rw [h3]; exact hb k (List.mem_of_mem_getLast? h1)
  · have ha := hb a (List.mem_of_getElem? a1)
    have hb' := hb b (List.mem_of_getElem? a2)
    have hd : 0 < b.1 - a.1 := by linarith
    have s0 : 0 ≤ (t - a.1) / (b.1 - a.1) := div_nonneg (by linarith) hd.le
    have s1 : (t - a.1) / (b.1 - a.1) ≤ 1 := by rw [div_le_one hd]; linarith
    rw [a5]
    generalize (t - a.1) / (b.1 - a.1) = s at s0 s1
    constructor
    · nlinarith [mul_nonneg s0 (sub_nonneg.2 hb'.1), mul_nonneg (sub_nonneg.2 s1) (sub_nonneg.2 ha.1)]
    · nlinarith [mul_nonneg s0 (sub_nonneg.2 hb'.2), mul_nonneg (sub_nonneg.2 s1) (sub_nonneg.2 ha.2)]

theorem ramp_poly {start stop : ℝ} (h0 : 0 ≤ start) (h1 : start < stop) (h2 : stop ≤ 1) (t : ℝ) (u d : ℝ) :
    PolyAt [(0, u), (start, u), (stop, u + d), (1, u + d)] t (u + d * max 0 (min 1 ((t - start) / (stop - start)))) := by
  have hd : 0 < stop - start := by linarith
  rcases lt_or_ge t start with ht | ht
  · have : (t - start) / (stop - start) ≤ 0 := div_nonpos_of_nonpos_of_nonneg (by linarith) hd.le
    have e : max 0 (min 1 ((t - start) / (stop - start))) = 0 := by
      rw [max_eq_left]; exact (min_le_right _ _).trans this
    rw [e]
    rcases lt_or_ge t 0 with ht0 | ht0
    · exact Or.inl ⟨(0, u), rfl, ht0, by simp⟩
    · exact Or.inr (Or.inr ⟨0, (0, u), (start, u), rfl, rfl, ht0, ht, by simp⟩)
  · rcases lt_or_ge t stop with ht' | ht'
    · have s0 : 0 ≤ (t - start) / (stop - start) := div_nonneg (by linarith) hd.le
      have s1 : (t - start) / (stop - start) ≤ 1 := by rw [div_le_one hd]; linarith
      rw [min_eq_right s1, max_eq_right s0]
      exact Or.inr (Or.inr ⟨1, (start, u), (stop, u + d), rfl, rfl, ht, ht', by simp; ring⟩)
    · have : 1 ≤ (t - start) / (stop - start) := by rw [le_div_iff₀ hd]; linarith
      rw [min_eq_left this, max_eq_right (by norm_num : (0 : ℝ) ≤ 1)]
      rcases lt_or_ge t 1 with h | h
      · exact Or.inr (Or.inr ⟨2, (stop, u + d), (1, u + d), rfl, rfl, ht', h, by simp⟩)
      · exact Or.inr (Or.inl ⟨(1, u + d), rfl, h, by simp⟩)

/-- The ramps: 0 up to `start`, 1 from `end` on, straight in between; `ramp_down` is one minus `ramp_up`. -/
theorem C61_ramp (start stop : ℝ) (h0 : 0 ≤ start) (h1 : start < stop) (h2 : stop ≤ 1) :
    ∃ f g, rampUp start stop = .ok f ∧ rampDown start stop = .ok g ∧ ∀ t,
      f (.num t) = .ok (.num (max 0 (min 1 ((t - start) / (stop - start))))) ∧
      g (.num t) = .ok (.num (1 - max 0 (min 1 ((t - start) / (stop - start))))) := by
  have ho : ∀ a b : ℝ, Ordered [(0, a), (start, a), (stop, b), (1, b)] := by
    intro a b
    simp only [Ordered, List.pairwise_cons, List.mem_cons, List.not_mem_nil, or_false, forall_eq_or_imp, forall_eq, List.Pairwise.nil,
      and_true, IsEmpty.forall_iff, implies_true]
    refine ⟨⟨?_, ?_, ?_⟩, ⟨?_, ?_⟩, ?_⟩ <;> linarith
  obtain ⟨f, e1, e2, -⟩ := C61_interpolate [(0, 0), (start, 0), (stop, 1), (1, 1)] (by simp)
  obtain ⟨g, e3, e4, -⟩ := C61_interpolate [(0, 1), (start, 1), (stop, 0), (1, 0)] (by simp)
  refine ⟨f, g, e1, e3, fun t => ⟨?_, ?_⟩⟩
  · obtain ⟨v, a1, -, a3⟩ := e2 t
    rw [a1, ← a3 (ho 0 1) _ (by simpa using ramp_poly h0 h1 h2 t 0 1)]
  · obtain ⟨v, a1, -, a3⟩ := e4 t
    have hp := ramp_poly h0 h1 h2 t 1 (-1)
    rw [show (1 : ℝ) + -1 = 0 by norm_num, neg_one_mul, ← sub_eq_add_neg] at hp
    rw [a1, ← a3 (ho 1 0) _ hp]

/-- The ramp up is monotone from 0 to 1. -/
theorem C61_ramp_monotone (start stop : ℝ) (h0 : 0 ≤ start) (h1 : start < stop) (h2 : stop ≤ 1) (f : TFunc)
    (hf : rampUp start stop = .ok f) (t t' v v' : ℝ) (ht : t ≤ t') (hv : f (.num t) = .ok (.num v))
    (hv' : f (.num t') = .ok (.num v')) : 0 ≤ v ∧ v ≤ v' ∧ v' ≤ 1 := by
  obtain ⟨f', g, e1, -, e3⟩ := C61_ramp start stop h0 h1 h2
  rw [hf] at e1
  injection e1 with e1
  subst e1
  rw [(e3 t).1] at hv
  rw [(e3 t').1] at hv'
  injection hv with hv
  injection hv' with hv'
  injection hv with hv
  injection hv' with hv'
  subst hv hv'
  have hd : 0 < stop - start := by linarith
  refine ⟨le_max_left _ _, ?_, ?_⟩
  · apply max_le_max le_rfl
    apply min_le_min le_rfl
    gcongr
  · exact max_le (by norm_num) (min_le_left _ _)

/-- Without offset: the stated wave, with period `1 / frequency`, between `shift - |scale|` and `shift + |scale|`. -/
theorem C61_periodic (trig : ℝ → ℝ) (f scale shift t : ℝ) (hper : ∀ x, trig (x + 2 * Real.pi) = trig x) :
    periodic trig f 0 scale shift (.num t) = .ok (.num (trig (2 * Real.pi * f * t) * scale + shift)) ∧
    (f ≠ 0 → periodic trig f 0 scale shift (.num (t + 1 / f)) = periodic trig f 0 scale shift (.num t)) ∧
    ∀ offset, (∀ x, |trig x| ≤ 1) → ∀ v, periodic trig f offset scale shift (.num t) = .ok (.num v) → |v - shift| ≤ |scale| := by
  have e : ∀ t : ℝ, periodic trig f 0 scale shift (.num t) = .ok (.num (trig (2 * Real.pi * f * t) * scale + shift)) := by
    intro t
    have : t * (tau * f + radians 0) = 2 * Real.pi * f * t := by unfold tau radians; ring
    simp only [periodic, this]
  refine ⟨e t, fun hf => ?_, fun offset hb v hv => ?_⟩
  · rw [e, e]
    have : 2 * Real.pi * f * (t + 1 / f) = 2 * Real.pi * f * t + 2 * Real.pi := by field_simp
    rw [this, hper]
  · simp only [periodic] at hv
    injection hv with hv
    injection hv with hv
    rw [← hv, add_sub_cancel_right, abs_mul]
    exact mul_le_of_le_one_left (abs_nonneg _) (hb _)

/-- `sin` and `cos` are such waves. -/
example : (∀ x, Real.sin (x + 2 * Real.pi) = Real.sin x) ∧ (∀ x, |Real.sin x| ≤ 1) ∧ (∀ x, Real.cos (x + 2 * Real.pi) = Real.cos x) ∧
    ∀ x, |Real.cos x| ≤ 1 := ⟨Real.sin_add_two_pi, Real.abs_sin_le_one, Real.cos_add_two_pi, Real.abs_cos_le_one⟩

/-- The offset is no phase: at time 0 it makes no difference, although the documentation has `radians(offset)` added to the argument. -/
theorem C61_offset_counterexample (trig : ℝ → ℝ) (f offset scale shift : ℝ) :
    periodic trig f offset scale shift (.num 0) = periodic trig f 0 scale shift (.num 0) ∧
    (scale ≠ 0 → periodic Real.sin f 90 scale shift (.num 0) ≠ .ok (.num (Real.sin (f * 0 + radians 90) * scale + shift))) := by
  constructor
  · simp [periodic]
  · intro hs h
    have h90 : radians 90 = Real.pi / 2 := by unfold radians; ring
    rw [h90] at h
    simp [periodic] at h
    exact hs h

/-- `sin_cos` gives points on a circle of radius `|scale|` around `(shift, shift)`. -/
theorem C61_sin_cos (f offset scale shift t : ℝ) : ∃ x y, sinCos f offset scale shift (.num t) = .ok (.pair x y) ∧
    hypot (x - shift) (y - shift) = |scale| := by
  refine ⟨_, _, rfl, ?_⟩
  apply hypot_unique (abs_nonneg _)
  rw [abs_mul_abs_self]
  have := Real.sin_sq_add_cos_sq (t * (tau * f + radians offset))
  linear_combination -(scale ^ 2) * this

/-- `hide_if` hides exactly below the threshold and passes every other number on. -/
theorem C61_hide_if (func : TFunc) (threshold : ℝ) (t : TVal) (v : ℝ) (hv : func t = .ok (.num v)) :
    (v < threshold → hideIf func threshold t = .ok .none) ∧ (threshold ≤ v → hideIf func threshold t = .ok (.num v)) := by
  unfold hideIf
  rw [hv]
  constructor
  · intro h; simp only; rw [if_pos h]
  · intro h; simp only; rw [if_neg (not_lt.2 h)]

/-- An animation moved by `identity_xy()` moves as one without a function. -/
theorem C61_identity_xy (h : PH.Heap ℝ) (pt target : ℕ) (orig : Pt ℝ) (t : TVal) (ht : t ≠ .none) :
    update h (.linearFunc pt orig target identityXy) t = update h (.linear pt orig target) t := by
  cases t with
  | none => exact absurd rfl ht
  | num t => simp only [update, identityXy, updLinear]
  | pair x y => rfl

/-- The time function `identity_xy()`: its value is always a pair; a number stands for both times, a pair is unchanged. -/
theorem C61_identity_xy_value (t : TVal) (v : TVal) (h : identityXy t = .ok v) :
    ∃ tx ty, v = .pair tx ty ∧ (t = .pair tx ty ∨ (t = .num tx ∧ tx = ty)) := by
  cases t with
  | none => cases h
  | num t => cases h; exact ⟨t, t, rfl, Or.inr ⟨rfl, rfl⟩⟩
  | pair x y => cases h; exact ⟨x, y, rfl, Or.inl rfl⟩

/-- An animation moved by `xy(x_func, y_func)`: the first function moves `x`, the second one `y`, each from the start (0) to the target (1). -/
theorem C61_xy (h : PH.Heap ℝ) (pt target : ℕ) (x0 y0 : ℝ) (orig targ : Pt ℝ) (n : Option String) (fx fy : ℝ → ℝ) (t : ℝ)
    (hp : h[pt]? = some (.point x0 y0 n)) (ht : PH.xy h target = .ok targ) :
    ∃ h', update h (.linearFunc pt orig target (xyFunc fx fy)) (.num t) = .ok h' ∧
      PH.xy h' pt = .ok ⟨orig.x + fx t * (targ.x - orig.x), orig.y + fy t * (targ.y - orig.y)⟩ := by
  have hlt : pt < h.length := (List.getElem?_eq_some_iff.1 hp).1
  refine ⟨h.set pt (.point ((1 - fx t) * orig.x + fx t * targ.x) ((1 - fy t) * orig.y + fy t * targ.y) n), ?_, ?_⟩
  · simp only [update, xyFunc, updLinear, ht, setxy, PH.step, hp]
  · rw [PH.xy, List.getElem?_set_self hlt]
    simp only [Except.ok.injEq, Pt.mk.injEq]
    constructor <;> ring

example : ([.point 1 2 none, .point 3 4 none] : PH.Heap ℝ)[0]? = some (.point 1 2 none) ∧
    PH.xy ([.point 1 2 none, .point 3 4 none] : PH.Heap ℝ) 1 = .ok ⟨3, 4⟩ := by
  refine ⟨rfl, ?_⟩
  rw [PH.xy]; rfl

/-! ### C62 -/

/-- The objects at time `t`, starting from the objects `h`. -/
def objectsAt (h : PH.Heap ℝ) (anims : List Anim) (t : ℝ) : PH.Heap ℝ := (updateAll h anims (.num t)).1

/-- **C62.** `build_all(steps)` gives `steps` images, image `i` showing the animations at time `i / steps` as if nothing had been
updated before. -/
theorem C62_build_all {I : Type} (draw : PH.Heap ℝ → I) (ops : List (PH.POp ℝ)) (anims : List Anim)
    (hf : Fine (PH.run [] ops) anims) (hist : List (Anim × TVal)) (hh : ∀ x ∈ hist, x.1 ∈ anims) (steps : ℕ)
    (hA : ∀ a ∈ anims, ∀ t, ∃ p, At (PH.run [] ops) a t p) :
    (buildAll (fun h => .ok (draw h)) anims steps (history (PH.run [] ops) hist)).2 =
      .ok ((List.range steps).map fun i => draw (objectsAt (PH.run [] ops) anims ((i : ℕ) / (steps : ℝ)))) := by
  have upd : ∀ hist : List (Anim × TVal), (∀ x ∈ hist, x.1 ∈ anims) → ∀ t : ℝ,
      updateAll (history (PH.run [] ops) hist) anims (.num t) = (objectsAt (PH.run [] ops) anims t, none) := by
    intro hist hh t
    have := C58_history ops anims anims anims hf (List.Perm.refl _) (List.Perm.refl _) hist [] hh (by simp) t (fun a ha => hA a ha t)
    rw [this]
    obtain ⟨h2, e1, -⟩ := C58_holder ops anims anims hf (List.Perm.refl _) [] (by simp) t (fun a ha => hA a ha t)
    have e : history (PH.run [] ops) [] = PH.run [] ops := rfl
    rw [e] at e1 ⊢
    unfold objectsAt
    rw [e1]
  have app : ∀ (t : ℝ) (l : List Anim) (h : PH.Heap ℝ), (updateAll h l (.num t)).2 = none →
      (updateAll h l (.num t)).1 = history h (l.map fun a => (a, .num t)) := by
    intro t l
    induction l with
    | nil => intro h _; rfl
    | cons a l ih =>
      intro h hn
      simp only [updateAll] at hn ⊢
      cases hu : update h a (.num t) with
      | error e => rw [hu] at hn; simp at hn
      | ok h' =>
        rw [hu] at hn
        simp only at hn ⊢
        rw [ih h' hn]
        simp [history, hu]
  have key : ∀ (k i : ℕ) (hist : List (Anim × TVal)), (∀ x ∈ hist, x.1 ∈ anims) →
      (buildFrom (fun h => .ok (draw h)) anims steps k i (history (PH.run [] ops) hist)).2 =
        .ok ((List.range k).map fun m => draw (objectsAt (PH.run [] ops) anims (((i + m : ℕ) : ℝ) / (steps : ℝ)))) := by
    intro k
    induction k with
    | zero => intro i hist hh; simp [buildFrom]
    | succ k ih =>
      intro i hist hh
      have hu := upd hist hh ((i : ℝ) / steps)
      have ha := app ((i : ℝ) / steps) anims (history (PH.run [] ops) hist) (by rw [hu])
      rw [hu] at ha
      simp only at ha
      have hh2 : ∀ x ∈ hist ++ anims.map (fun a => (a, TVal.num ((i : ℝ) / steps))), x.1 ∈ anims := by
        intro x hx
        rcases List.mem_append.1 hx with hx | hx
        · exact hh x hx
        · obtain ⟨a, ha, rfl⟩ := List.mem_map.1 hx
          exact ha
      have hcat : history (history (PH.run [] ops) hist) (anims.map fun a => (a, TVal.num ((i : ℝ) / steps))) =
          history (PH.run [] ops) (hist ++ anims.map fun a => (a, TVal.num ((i : ℝ) / steps))) := by
        simp [history, List.foldl_append]
      simp only [buildFrom, hu]
      have := ih (i + 1) _ hh2
      rw [← hcat, ← ha] at this
      rw [List.range_succ_eq_map, List.map_cons, List.map_map]
      generalize hb : buildFrom (fun h => Except.ok (draw h)) anims steps k (i + 1)
        (objectsAt (PH.run [] ops) anims ((i : ℝ) / steps)) = res at this
      obtain ⟨h3, r⟩ := res
      simp only at this
      subst this
      simp only [Nat.add_zero, Function.comp_def]
      congr 3
      funext m
      rw [show i + 1 + m = i + m.succ by omega]
  have := key steps 0 hist hh
  simpa [buildAll] using this

/-- The times are from 0 on and never reach 1. -/
theorem C62_times (steps i : ℕ) (hi : i < steps) : (0 : ℝ) ≤ (i : ℝ) / steps ∧ (i : ℝ) / steps < 1 := by
  have : (0 : ℝ) < steps := by exact_mod_cast (by omega : 0 < steps)
  refine ⟨by positivity, ?_⟩
  rw [div_lt_one this]
  exact_mod_cast hi

theorem animateFrom_eq {I : Type} (draw : ℝ → I) (part : ℝ → I) (t_low d : ℝ) (k step : ℕ) (images : List I) :
    animateFrom (fun t => some (draw t)) part t_low d k step images =
      (images ++ (List.range k).flatMap fun (i : ℕ) => [draw (t_low + ((step + i : ℕ) : ℝ) * d), draw (t_low + ((step + i : ℕ) : ℝ) * d)], true) := by
  induction k generalizing step images with
  | zero => simp [animateFrom]
  | succ k ih =>
    simp only [animateFrom]
    rw [ih, List.range_succ_eq_map, List.flatMap_cons, List.flatMap_map]
    simp only [Nat.add_zero, List.append_assoc, List.cons_append, List.nil_append, Nat.succ_eq_add_one]
    have : ∀ i : ℕ, step + 1 + i = step + (i + 1) := fun i => by omega
    simp only [this]

/-- `SimpleAnimation.animate` appends the image of every step twice: with the times evenly from `t_low` to `t_high` there are
`2 * (steps + 1)` images. -/
theorem C62_simple_counterexample {I : Type} (draw : ℝ → I) (part : ℝ → I) (t_low t_high : ℝ) (steps : ℕ) (hs : 0 < steps) (old : List I) :
    ∃ images, animate (fun t => some (draw t)) part t_low t_high steps old = .ok (images, true) ∧
      images = old ++ ((List.range (steps + 1)).flatMap fun (i : ℕ) =>
        [draw (t_low + (i : ℝ) / steps * (t_high - t_low)), draw (t_low + (i : ℝ) / steps * (t_high - t_low))]) ∧
      images.length = old.length + 2 * (steps + 1) := by
  have hne : (steps : ℝ) ≠ 0 := by exact_mod_cast hs.ne'
  have e : ∀ i : ℕ, t_low + ((i : ℕ) : ℝ) * ((t_high - t_low) / (steps : ℝ)) = t_low + (i : ℝ) / steps * (t_high - t_low) := by
    intro i; field_simp
  refine ⟨_, ?_, rfl, ?_⟩
  · unfold animate pyDiv
    rw [if_neg hne]
    simp only
    rw [animateFrom_eq]
    simp only [Nat.zero_add, e]
  · simp
    ring

/-- No steps is a division by zero: nothing is drawn. -/
theorem C62_simple_zero {I : Type} (draw : ℝ → Option I) (part : ℝ → I) (t_low t_high : ℝ) (old : List I) :
    animate draw part t_low t_high 0 old = .error .zeroDivision := by
  simp [animate, pyDiv]

/-- A moved point, built in four frames after two other updates, meets the hypotheses of `C62_build_all`. -/
example : let ops : List (PH.POp ℝ) := [.mkPoint 0 0 none, .mkPoint 9 9 none]
    Fine (PH.run [] ops) [.circular 0 ⟨0, 0⟩ 2 1 0, .circular 1 ⟨9, 9⟩ 1 3 0] ∧
    ∀ a ∈ [Anim.circular 0 ⟨0, 0⟩ 2 1 0, .circular 1 ⟨9, 9⟩ 1 3 0], ∀ t, ∃ p, At (PH.run [] ops) a t p := by
  intro ops
  have h0 : (PH.run [] ops)[0]? = some (.point 0 0 none) := by simp [ops, PH.run, PH.step]
  have h1 : (PH.run [] ops)[1]? = some (.point 9 9 none) := by simp [ops, PH.run, PH.step]
  refine ⟨⟨?_, by simp [Anim.pt], ?_⟩, ?_⟩
  · intro a ha
    simp only [List.mem_cons, List.not_mem_nil, or_false] at ha
    rcases ha with rfl | rfl
    · exact ⟨_, _, _, h0⟩
    · exact ⟨_, _, _, h1⟩
  · intro a ha g hg
    simp only [List.mem_cons, List.not_mem_nil, or_false] at ha
    rcases ha with rfl | rfl <;> simp [Anim.target] at hg
  · intro a ha t
    simp only [List.mem_cons, List.not_mem_nil, or_false] at ha
    rcases ha with rfl | rfl <;> exact ⟨_, .circular⟩

end X7.Anim
