import Verif.Lemmas.SmoothMany

/-!
C126: smoothing a vector field again and again.
-/

noncomputable section

namespace X7.VF
open Filter Topology

theorem smoothMany_form (k : ℕ) : ∀ (f : Field) (i₀ j₀ : ℕ), i₀ < f.mesh.n → j₀ < f.mesh.n → (f.vx i₀ j₀ ≠ 0 ∨ f.vy i₀ j₀ ≠ 0) →
    ∃ g c i j, f.smoothMany k = .ok (some g) ∧ g.mesh = f.mesh ∧ 0 < c ∧
      (∀ x y, x < f.mesh.n → y < f.mesh.n → g.vx x y = c * again f.mesh.n k f.vx x y ∧ g.vy x y = c * again f.mesh.n k f.vy x y) ∧
      (1 ≤ k → (∀ x y, x < f.mesh.n → y < f.mesh.n → g.mag x y ≤ 1) ∧ i < f.mesh.n ∧ j < f.mesh.n ∧ g.mag i j = 1) := by
  induction k with
  | zero =>
    intro f i₀ j₀ _ _ _
    exact ⟨f, 1, 0, 0, rfl, rfl, one_pos, fun x y _ _ => by simp [again_zero], by omega⟩
  | succ k ih =>
    intro f i₀ j₀ hi hj h0
    obtain ⟨g1, h1, h2, ⟨c1, hc1, h3⟩, h4, i, j, h5, h6, h7⟩ := C57_smoothed f i₀ j₀ hi hj h0
    have hne : g1.vx i j ≠ 0 ∨ g1.vy i j ≠ 0 := by
      by_contra hcon
      push Not at hcon
      have := (mag_eq_zero g1 i j).2 hcon
      rw [h7] at this
      exact one_ne_zero this
    obtain ⟨g, c, i', j', e1, e2, e3, e4, e5⟩ := ih g1 i j (h2 ▸ h5) (h2 ▸ h6) hne
    rw [h2] at e4 e5
    have tr : ∀ a b : ℕ → ℕ → ℝ, (∀ x y, x < f.mesh.n → y < f.mesh.n → b x y = mean f.mesh.n (weight f.mesh.n x y) a * c1) →
        ∀ x y, x < f.mesh.n → y < f.mesh.n → again f.mesh.n k b x y = c1 * again f.mesh.n (k + 1) a x y := by
      intro a b hb x y hx hy
      have q1 := again_congr (a := b) (b := fun x y => c1 * smoothVal f.mesh.n a x y + 0 * (fun _ _ => (0 : ℝ)) x y) (fun x y hx hy => by
        rw [hb x y hx hy, smoothVal_mean _ _ _ _ hx hy]; ring) k x y hx hy
      rw [q1, again_lin _ _ _ _ _ k x y hx hy, zero_mul, add_zero]
      rfl
    refine ⟨g, c * c1, ?_⟩
    rcases Nat.eq_zero_or_pos k with rfl | hk
    · refine ⟨i, j, by rw [Field.smoothMany, h1]; exact e1, e2.trans h2, mul_pos e3 hc1, ?_, ?_⟩
      · intro x y hx hy
        obtain ⟨q1, q2⟩ := e4 x y hx hy
        rw [q1, q2, tr _ _ (fun x y hx hy => (h3 x y hx hy).1) x y hx hy, tr _ _ (fun x y hx hy => (h3 x y hx hy).2) x y hx hy]
        constructor <;> ring
      · intro _
        have : g = g1 := by
          simp only [Field.smoothMany, Except.ok.injEq, Option.some.injEq] at e1
          exact e1.symm
        subst this
        exact ⟨h4, h5, h6, h7⟩
    · refine ⟨i', j', by rw [Field.smoothMany, h1]; exact e1, e2.trans h2, mul_pos e3 hc1, ?_, fun _ => e5 hk⟩
      intro x y hx hy
      obtain ⟨q1, q2⟩ := e4 x y hx hy
      rw [q1, q2, tr _ _ (fun x y hx hy => (h3 x y hx hy).1) x y hx hy, tr _ _ (fun x y hx hy => (h3 x y hx hy).2) x y hx hy]
      constructor <;> ring

/-- C126: a field with a vector other than zero can be smoothed any number of times: no exception, never a field of `nan`s; the mesh stays, and
after one smoothing or more the largest magnitude is exactly 1. -/
theorem C126_defined (f : Field) (i₀ j₀ : ℕ) (hi : i₀ < f.mesh.n) (hj : j₀ < f.mesh.n) (h0 : f.vx i₀ j₀ ≠ 0 ∨ f.vy i₀ j₀ ≠ 0) (k : ℕ) :
    ∃ g, f.smoothMany k = .ok (some g) ∧ g.mesh = f.mesh ∧
      (1 ≤ k → (∀ i j, i < f.mesh.n → j < f.mesh.n → g.mag i j ≤ 1) ∧ ∃ i j, i < f.mesh.n ∧ j < f.mesh.n ∧ g.mag i j = 1) := by
  obtain ⟨g, c, i, j, h1, h2, -, -, h5⟩ := smoothMany_form k f i₀ j₀ hi hj h0
  exact ⟨g, h1, h2, fun hk => ⟨(h5 hk).1, i, j, (h5 hk).2⟩⟩

/-- C126: if no vector of the field points to the wrong side of a line, none ever will, however often the field is smoothed. -/
theorem C126_side (f : Field) (d : Vec ℝ) (hd : ∀ i j, i < f.mesh.n → j < f.mesh.n → 0 ≤ d.x * f.vx i j + d.y * f.vy i j) (k : ℕ) (g : Field)
    (hg : f.smoothMany k = .ok (some g)) : ∀ i j, i < f.mesh.n → j < f.mesh.n → 0 ≤ d.x * g.vx i j + d.y * g.vy i j := by
  by_cases hz : ∃ i₀ j₀, i₀ < f.mesh.n ∧ j₀ < f.mesh.n ∧ (f.vx i₀ j₀ ≠ 0 ∨ f.vy i₀ j₀ ≠ 0)
  · obtain ⟨i₀, j₀, hi, hj, h0⟩ := hz
    obtain ⟨g', c, i, j, h1, h2, hc, h4, -⟩ := smoothMany_form k f i₀ j₀ hi hj h0
    rw [hg] at h1
    simp only [Except.ok.injEq, Option.some.injEq] at h1
    subst h1
    intro x y hx hy
    obtain ⟨B1, hB1⟩ : ∃ B, ∀ x y, x < f.mesh.n → y < f.mesh.n → d.x * f.vx x y + d.y * f.vy x y ≤ B := by
      obtain ⟨x1, y1, -, -, h⟩ := exists_max (by omega : 0 < f.mesh.n) fun x y => d.x * f.vx x y + d.y * f.vy x y
      exact ⟨_, h⟩
    have q := (again_bounded (fun x y hx hy => ⟨hd x y hx hy, hB1 x y hx hy⟩) k x y hx hy).1
    rw [again_lin _ _ _ _ _ k x y hx hy] at q
    rw [(h4 x y hx hy).1, (h4 x y hx hy).2]
    have := mul_nonneg hc.le q
    linarith
  · push Not at hz
    intro x y hx hy
    have hzero := (C57_normalized_zero ⟨f.mesh, smoothVal f.mesh.n f.vx, smoothVal f.mesh.n f.vy⟩).2 (by simp only; omega) (by
      intro x y hx hy
      have b1 := C57_smooth_bounded f.mesh.n f.vx 0 0 (fun x y hx hy => by rw [(hz x y hx hy).1]; simp) x y hx hy
      have b2 := C57_smooth_bounded f.mesh.n f.vy 0 0 (fun x y hx hy => by rw [(hz x y hx hy).2]; simp) x y hx hy
      exact ⟨le_antisymm b1.2 b1.1, le_antisymm b2.2 b2.1⟩)
    cases k with
    | zero =>
      simp only [Field.smoothMany, Except.ok.injEq, Option.some.injEq] at hg
      subst hg
      exact hd x y hx hy
    | succ k =>
      rw [Field.smoothMany, Field.smoothed, hzero] at hg
      simp at hg

/-- C126: a field whose vectors all point to the same side of some line becomes uniform when it is smoothed again and again: there is one vector
of length 1 to which all its vectors come as close as one likes, and stay so. -/
theorem C126_uniform (f : Field) (hn : 0 < f.mesh.n) (hs : f.OneSided) : ∃ u : Vec ℝ, u.length = 1 ∧
    ∀ e > 0, ∃ N, ∀ k ≥ N, ∃ g, f.smoothMany k = .ok (some g) ∧ g.mesh = f.mesh ∧ g.Nearly u e := by
  obtain ⟨d, hd⟩ := hs
  have h0 : f.vx 0 0 ≠ 0 ∨ f.vy 0 0 ≠ 0 := by
    by_contra hcon
    push Not at hcon
    have := hd 0 0 hn hn
    rw [hcon.1, hcon.2] at this
    simp at this
  have H := fun k => smoothMany_form k f 0 0 hn hn h0
  choose g c i j h1 h2 h3 h4 h5 using H
  obtain ⟨Lx, hLx⟩ := again_limit hn f.vx
  obtain ⟨Ly, hLy⟩ := again_limit hn f.vy
  -- the limit is not zero
  obtain ⟨x0, y0, hx0, hy0, hmin⟩ := exists_min hn fun x y => d.x * f.vx x y + d.y * f.vy x y
  obtain ⟨x1, y1, -, -, hmax⟩ := exists_max hn fun x y => d.x * f.vx x y + d.y * f.vy x y
  have hc0 := hd x0 y0 hx0 hy0
  have lim : ∀ (a : ℕ → ℕ → ℝ) (L : ℝ), (∀ e > 0, ∃ N, ∀ k ≥ N, ∀ x y, x < f.mesh.n → y < f.mesh.n → |again f.mesh.n k a x y - L| ≤ e) →
      ∀ p q : ℕ → ℕ, (∀ k, 1 ≤ k → p k < f.mesh.n ∧ q k < f.mesh.n) → Tendsto (fun k => again f.mesh.n k a (p k) (q k)) atTop (𝓝 L) := by
    intro a L hL p q hpq
    rw [Metric.tendsto_atTop]
    intro e he
    obtain ⟨N, hN⟩ := hL (e / 2) (half_pos he)
    refine ⟨max N 1, fun k hk => ?_⟩
    obtain ⟨a1, a2⟩ := hpq k ((le_max_right _ _).trans hk)
    rw [Real.dist_eq]
    have := hN k ((le_max_left _ _).trans hk) _ _ a1 a2
    linarith
  have hdot : d.x * f.vx x0 y0 + d.y * f.vy x0 y0 ≤ d.x * Lx + d.y * Ly := by
    have t1 := lim f.vx Lx hLx (fun _ => 0) (fun _ => 0) (fun _ _ => ⟨hn, hn⟩)
    have t2 := lim f.vy Ly hLy (fun _ => 0) (fun _ => 0) (fun _ _ => ⟨hn, hn⟩)
    refine ge_of_tendsto ((t1.const_mul d.x).add (t2.const_mul d.y)) (Eventually.of_forall fun k => ?_)
    have q := (again_bounded (fun x y hx hy => ⟨hmin x y hx hy, hmax x y hx hy⟩) k 0 0 hn hn).1
    rwa [again_lin _ _ _ _ _ k 0 0 hn hn] at q
  have hL0 : ¬ (Lx = 0 ∧ Ly = 0) := by
    rintro ⟨e1, e2⟩
    rw [e1, e2] at hdot
    linarith
  have hr : 0 < hypot Lx Ly := hypot_pos hL0
  -- the factors converge
  have hX := lim f.vx Lx hLx i j fun k hk => ⟨(h5 k hk).2.1, (h5 k hk).2.2.1⟩
  have hY := lim f.vy Ly hLy i j fun k hk => ⟨(h5 k hk).2.1, (h5 k hk).2.2.1⟩
  have hlen : Tendsto (fun k => hypot (again f.mesh.n k f.vx (i k) (j k)) (again f.mesh.n k f.vy (i k) (j k))) atTop (𝓝 (hypot Lx Ly)) :=
    Filter.Tendsto.sqrt ((hX.mul hX).add (hY.mul hY))
  have hcl : Tendsto c atTop (𝓝 (hypot Lx Ly)⁻¹) := by
    refine (hlen.inv₀ hr.ne').congr' (eventually_atTop.2 ⟨1, fun k hk => ?_⟩)
    obtain ⟨-, a1, a2, a3⟩ := h5 k hk
    obtain ⟨b1, b2⟩ := h4 k _ _ a1 a2
    have e : (g k).mag (i k) (j k) = hypot ((g k).vx (i k) (j k)) ((g k).vy (i k) (j k)) := rfl
    rw [e, b1, b2, mul_comm (c k), mul_comm (c k), hypot_mul, abs_of_pos (h3 k)] at a3
    exact (eq_inv_of_mul_eq_one_right a3).symm
  refine ⟨⟨Lx * (hypot Lx Ly)⁻¹, Ly * (hypot Lx Ly)⁻¹⟩, ?_, ?_⟩
  · rw [Vec.length]
    simp only
    rw [hypot_mul, abs_of_pos (inv_pos.2 hr), mul_inv_cancel₀ hr.ne']
  · intro e he
    set r := hypot Lx Ly with hrdef
    have comp : ∀ (a : ℕ → ℕ → ℝ) (L : ℝ),
        (∀ e > 0, ∃ N, ∀ k ≥ N, ∀ x y, x < f.mesh.n → y < f.mesh.n → |again f.mesh.n k a x y - L| ≤ e) →
        ∃ N, ∀ k ≥ N, ∀ x y, x < f.mesh.n → y < f.mesh.n → |c k * again f.mesh.n k a x y - L * r⁻¹| ≤ e := by
      intro a L hL
      have hpos : 0 < e / (2 * (|L| + 1)) := by positivity
      obtain ⟨N1, hN1⟩ := Metric.tendsto_atTop.1 hcl (min r⁻¹ (e / (2 * (|L| + 1)))) (lt_min (inv_pos.2 hr) hpos)
      obtain ⟨N2, hN2⟩ := hL (e * r / 4) (by positivity)
      refine ⟨max N1 N2, fun k hk x y hx hy => ?_⟩
      have g1 := hN1 k ((le_max_left _ _).trans hk)
      have g2 := hN2 k ((le_max_right _ _).trans hk) x y hx hy
      rw [Real.dist_eq] at g1
      have g3 := (g1.trans_le (min_le_left _ _)).le
      have g4 := (g1.trans_le (min_le_right _ _)).le
      have eq : c k * again f.mesh.n k a x y - L * r⁻¹ = c k * (again f.mesh.n k a x y - L) + L * (c k - r⁻¹) := by ring
      rw [eq]
      refine (abs_add_le _ _).trans ?_
      rw [abs_mul, abs_mul, abs_of_pos (h3 k)]
      have c2 : c k ≤ 2 * r⁻¹ := by linarith [(abs_le.1 g3).2]
      have p1 : c k * |again f.mesh.n k a x y - L| ≤ 2 * r⁻¹ * (e * r / 4) :=
        mul_le_mul c2 g2 (abs_nonneg _) (by positivity)
      have p2 : |L| * |c k - r⁻¹| ≤ (|L| + 1) * (e / (2 * (|L| + 1))) :=
        mul_le_mul (by linarith) g4 (abs_nonneg _) (by positivity)
      have e1 : 2 * r⁻¹ * (e * r / 4) = e / 2 := by field_simp; ring
      have e2 : (|L| + 1) * (e / (2 * (|L| + 1))) = e / 2 := by field_simp
      linarith
    obtain ⟨N1, hN1⟩ := comp f.vx Lx hLx
    obtain ⟨N2, hN2⟩ := comp f.vy Ly hLy
    refine ⟨max N1 N2, fun k hk => ⟨g k, h1 k, h2 k, fun x y hx hy => ?_⟩⟩
    rw [h2 k] at hx hy
    rw [(h4 k x y hx hy).1, (h4 k x y hx hy).2]
    exact ⟨hN1 k ((le_max_left _ _).trans hk) x y hx hy, hN2 k ((le_max_right _ _).trans hk) x y hx hy⟩

/-- C126: so moving points by such a field becomes a plain shift by one step of length 1 everywhere on the mesh. -/
theorem C126_shift (f : Field) (h : f.mesh.Fat) (hs : f.OneSided) : ∃ u : Vec ℝ, u.length = 1 ∧
    ∀ e > 0, ∃ N, ∀ k ≥ N, ∃ g, f.smoothMany k = .ok (some g) ∧
      ∀ p : Pt ℝ, f.mesh.xl ≤ p.x → p.x ≤ f.mesh.xh → f.mesh.yl ≤ p.y → p.y ≤ f.mesh.yh →
        ∃ q, g.transform p = .ok q ∧ |q.x - (p.x + u.x)| ≤ e ∧ |q.y - (p.y + u.y)| ≤ e := by
  obtain ⟨u, hu, H⟩ := C126_uniform f (by have := h.n; omega) hs
  refine ⟨u, hu, fun e he => ?_⟩
  obtain ⟨N, hN⟩ := H e he
  refine ⟨N, fun k hk => ?_⟩
  obtain ⟨g, h1, h2, h3⟩ := hN k hk
  refine ⟨g, h1, fun p a1 a2 a3 a4 => ?_⟩
  obtain ⟨v, hv, ht⟩ := (C56_transform g (h2 ▸ h) p).1
  have b1 := (C56_bounded g (h2 ▸ h) p.x p.y (h2 ▸ a1) (h2 ▸ a2) (h2 ▸ a3) (h2 ▸ a4) v hv (u.x - e) (u.x + e)).1 fun i j hi hj => by
    have := abs_le.1 (h3 i j hi hj).1
    constructor <;> linarith [this.1, this.2]
  have b2 := (C56_bounded g (h2 ▸ h) p.x p.y (h2 ▸ a1) (h2 ▸ a2) (h2 ▸ a3) (h2 ▸ a4) v hv (u.y - e) (u.y + e)).2 fun i j hi hj => by
    have := abs_le.1 (h3 i j hi hj).2
    constructor <;> linarith [this.1, this.2]
  refine ⟨_, ht, ?_, ?_⟩
  · rw [abs_le]; constructor <;> simp only <;> linarith [b1.1, b1.2]
  · rw [abs_le]; constructor <;> simp only <;> linarith [b2.1, b2.2]

/-- C126: a uniform field of length 1 stays what it is. -/
theorem C126_uniform_stays (f : Field) (hn : 0 < f.mesh.n) (u : Vec ℝ) (hu : u.length = 1) (hf : f.Nearly u 0) (k : ℕ) :
    ∃ g, f.smoothMany k = .ok (some g) ∧ g.mesh = f.mesh ∧ g.Nearly u 0 := by
  have hv : ∀ x y, x < f.mesh.n → y < f.mesh.n → f.vx x y = u.x ∧ f.vy x y = u.y := by
    intro x y hx hy
    obtain ⟨a, b⟩ := hf x y hx hy
    exact ⟨by linarith [abs_nonpos_iff.1 a], by linarith [abs_nonpos_iff.1 b]⟩
  have hne : ¬ (u.x = 0 ∧ u.y = 0) := by
    intro h
    rw [Vec.length, hypot_eq_zero.2 h] at hu
    exact zero_ne_one hu
  have h0 : f.vx 0 0 ≠ 0 ∨ f.vy 0 0 ≠ 0 := by
    obtain ⟨a, b⟩ := hv 0 0 hn hn
    rw [a, b]
    by_contra hcon
    push Not at hcon
    exact hne hcon
  obtain ⟨g, c, i, j, h1, h2, h3, h4, h5⟩ := smoothMany_form k f 0 0 hn hn h0
  have hvx : ∀ x y, x < f.mesh.n → y < f.mesh.n → again f.mesh.n k f.vx x y = u.x := fun x y hx hy => by
    have := again_bounded (a := f.vx) (lo := u.x) (hi := u.x) (fun x y hx hy => by rw [(hv x y hx hy).1]; simp) k x y hx hy
    exact le_antisymm this.2 this.1
  have hvy : ∀ x y, x < f.mesh.n → y < f.mesh.n → again f.mesh.n k f.vy x y = u.y := fun x y hx hy => by
    have := again_bounded (a := f.vy) (lo := u.y) (hi := u.y) (fun x y hx hy => by rw [(hv x y hx hy).2]; simp) k x y hx hy
    exact le_antisymm this.2 this.1
  refine ⟨g, h1, h2, ?_⟩
  rcases Nat.eq_zero_or_pos k with rfl | hk
  · simp only [Field.smoothMany, Except.ok.injEq, Option.some.injEq] at h1
    subst h1
    exact hf
  · obtain ⟨-, a1, a2, a3⟩ := h5 hk
    have e : g.mag i j = hypot (g.vx i j) (g.vy i j) := rfl
    rw [e, (h4 i j a1 a2).1, (h4 i j a1 a2).2, hvx i j a1 a2, hvy i j a1 a2, mul_comm c, mul_comm c, hypot_mul, abs_of_pos h3] at a3
    have hc : c = 1 := by
      rw [Vec.length] at hu
      rwa [hu, one_mul] at a3
    intro x y hx hy
    rw [h2] at hx hy
    rw [(h4 x y hx hy).1, (h4 x y hx hy).2, hvx x y hx hy, hvy x y hx hy, hc]
    simp

/-- C126: not every field becomes uniform: two rows of opposite vectors stay opposite, however often they are smoothed. -/
theorem C126_opposed_counterexample : ∃ f : Field, f.mesh.n = 2 ∧ ∀ k, ∃ g, f.smoothMany k = .ok (some g) ∧ g.mesh = f.mesh ∧
    ∀ j, j < 2 → g.vx 0 j = 1 ∧ g.vx 1 j = -1 ∧ g.vy 0 j = 0 ∧ g.vy 1 j = 0 := by
  let f : Field := ⟨⟨2, 0, 0, 1, 1⟩, fun i _ => if i = 0 then 1 else -1, fun _ _ => 0⟩
  have hw : window 2 0 = [0, 1] ∧ window 2 1 = [0, 1] := by decide
  have hx : ∀ k i j, i < 2 → j < 2 → again 2 k f.vx i j = (19 / 23) ^ k * (if i = 0 then 1 else -1) ∧ again 2 k f.vy i j = 0 := by
    intro k
    induction k with
    | zero => intro i j _ _; simp [again_zero, f]
    | succ k ih =>
      intro i j hi hj
      have a0 := ih 0 0 (by omega) (by omega)
      have a1 := ih 0 1 (by omega) (by omega)
      have a2 := ih 1 0 (by omega) (by omega)
      have a3 := ih 1 1 (by omega) (by omega)
      obtain rfl | rfl : i = 0 ∨ i = 1 := by omega
      · obtain rfl | rfl : j = 0 ∨ j = 1 := by omega
        all_goals
          rw [again_succ, again_succ]
          simp only [smoothVal, windowSum, windowCount, hw.1, hw.2, List.map_cons, List.map_nil, List.sum_cons, List.sum_nil, a0, a1, a2, a3,
            List.length_cons, List.length_nil]
          norm_num
          ring
      · obtain rfl | rfl : j = 0 ∨ j = 1 := by omega
        all_goals
          rw [again_succ, again_succ]
          simp only [smoothVal, windowSum, windowCount, hw.1, hw.2, List.map_cons, List.map_nil, List.sum_cons, List.sum_nil, a0, a1, a2, a3,
            List.length_cons, List.length_nil]
          norm_num
          ring
  refine ⟨f, rfl, fun k => ?_⟩
  obtain ⟨g, c, i, j, h1, h2, h3, h4, h5⟩ := smoothMany_form k f 0 0 (by simp [f]) (by simp [f]) (Or.inl (by simp [f]))
  refine ⟨g, h1, h2, ?_⟩
  have hc : c * (19 / 23) ^ k = 1 := by
    rcases Nat.eq_zero_or_pos k with rfl | hk
    · simp only [Field.smoothMany, Except.ok.injEq, Option.some.injEq] at h1
      subst h1
      have := (h4 0 0 (by simp [f]) (by simp [f])).1
      simp [again_zero, f] at this
      simp [← this]
    · obtain ⟨-, a1, a2, a3⟩ := h5 hk
      have e : g.mag i j = hypot (g.vx i j) (g.vy i j) := rfl
      rw [e, (h4 i j a1 a2).1, (h4 i j a1 a2).2, (hx k i j a1 a2).1, (hx k i j a1 a2).2] at a3
      have hp : 0 < c * (19 / 23 : ℝ) ^ k := by positivity
      rw [mul_zero, hypot, mul_zero, add_zero, Real.sqrt_mul_self_eq_abs, ← mul_assoc, abs_mul, abs_of_pos hp] at a3
      split_ifs at a3 <;> simpa using a3
  intro j' hj'
  obtain ⟨b1, b2⟩ := h4 0 j' (by simp [f]) (by simpa [f] using hj')
  obtain ⟨b3, b4⟩ := h4 1 j' (by simp [f]) (by simpa [f] using hj')
  have e : f.mesh.n = 2 := rfl
  rw [e, (hx k 0 j' (by omega) hj').1] at b1
  rw [e, (hx k 0 j' (by omega) hj').2] at b2
  rw [e, (hx k 1 j' (by omega) hj').1] at b3
  rw [e, (hx k 1 j' (by omega) hj').2] at b4
  refine ⟨?_, ?_, by rw [b2, mul_zero], by rw [b4, mul_zero]⟩
  · rw [b1, ← mul_assoc, hc]; simp
  · rw [b3, ← mul_assoc, hc]; simp

/-- A field that is one-sided and not uniform: the vectors of `i + j` to the right and one up. -/
example : (⟨⟨5, 0, 0, 1, 1⟩, fun i j => i + j, fun _ _ => 1⟩ : Field).OneSided ∧ (⟨5, 0, 0, 1, 1⟩ : Mesh).Fat :=
  ⟨⟨⟨0, 1⟩, fun i j _ _ => by simp⟩, by norm_num, by norm_num, by norm_num⟩

end X7.VF
