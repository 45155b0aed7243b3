import Verif.Lemmas.FlVec
import Verif.Lemmas.Rnd

/-!
C87: points, vectors, areas and transforms under rounding. `R` is any rounding with the properties of `Rnd`.
-/

namespace X7
open Rnd
variable (R : Rnd)

/-- C87: without rounding the rounded versions are the exact models that the other properties are about. -/
theorem C87_exact_model :
    (∀ v w, Fl.dot .exact v w = v.dot w) ∧ (∀ v w, Fl.cross .exact v w = v.cross w) ∧ (∀ v : Vec ℝ, Fl.normal v = v.normal) ∧
    (∀ v, Fl.unit .exact hypot v = v.unit) ∧
    (∀ v d, Fl.rotate .exact (Real.cos (radians d)) (Real.sin (radians d)) v = v.rotate d) ∧
    (∀ mode pts, Fl.polygonArea .exact mode pts = polygonArea pts) ∧
    (∀ mode ops, Fl.history .exact mode ops = exactHistory ops) := by
  refine ⟨fun _ _ => rfl, fun _ _ => rfl, fun _ => rfl, fun _ => rfl, fun _ _ => rfl, ?_, ?_⟩
  · intro mode pts
    have key : ∀ xs : List ℝ, Fl.sum .exact mode xs = xs.sum := by
      intro xs
      have h := Fl.sum_near (R := .exact) mode id id abs xs (k := 0) fun i _ => Near.of_abs i
      have h2 := h.2
      have g : ∀ n, Rnd.exact.gam n = 0 := by intro n; simp [Rnd.gam, Rnd.exact]
      rw [g, zero_mul, List.map_id] at h2
      linarith [abs_le.1 h2]
    simp only [Fl.polygonArea, polygonArea, key]
    rfl
  · intro mode ops
    have key : ∀ m n, Fl.mul .exact mode m n = m.mul n := by
      intro m n
      cases mode <;> simp [Fl.mul, Fl.dot3, Mat3.mul, Rnd.exact, add_assoc]
    simp only [Fl.history, exactHistory, key]

/-! ### Points -/

/-- C87: the difference of two points is right in sign: a coordinate of it is zero, positive or negative exactly if the exact one
is. So two points are equal exactly if their difference is the zero vector. -/
theorem C87_difference_sign (p q : Pt ℝ) :
    ((Fl.sub R p q).x = 0 ↔ p.x = q.x) ∧ (0 < (Fl.sub R p q).x ↔ q.x < p.x) ∧
    ((Fl.sub R p q).y = 0 ↔ p.y = q.y) ∧ (0 < (Fl.sub R p q).y ↔ q.y < p.y) ∧
    (Fl.sub R p q = ⟨0, 0⟩ ↔ p = q) := by
  have z : ∀ x y : ℝ, R.fl (x - y) = 0 ↔ x = y := fun x y => by rw [R.fl_eq_zero, sub_eq_zero]
  have pos : ∀ x y : ℝ, 0 < R.fl (x - y) ↔ y < x := by
    intro x y
    constructor
    · intro h
      by_contra hc
      exact absurd (R.fl_nonpos (sub_nonpos.2 (not_lt.1 hc))) (not_le.2 h)
    · intro h
      refine lt_of_le_of_ne (R.fl_nonneg (sub_pos.2 h).le) ?_
      intro e
      exact h.ne ((z x y).1 e.symm).symm
  refine ⟨z _ _, pos _ _, z _ _, pos _ _, ?_⟩
  simp only [Fl.sub, Vec.mk.injEq, z]
  constructor
  · rintro ⟨h1, h2⟩; exact Pt.ext h1 h2
  · rintro rfl; exact ⟨rfl, rfl⟩

/-- C87: moving a point by the difference to another point, as `PointRelative.fromxy` does, gives the other point up to two
roundings, exactly if the base is the origin or the point itself. -/
theorem C87_relative (p base : Pt ℝ) :
    Within (R.gam 2 * (|p.x| + 2 * |base.x|)) (R.gam 2 * (|p.y| + 2 * |base.y|)) (Fl.relativeXY R p base) p ∧
    (R.RepPt p → base = ⟨0, 0⟩ ∨ base = p → Fl.relativeXY R p base = p) := by
  constructor
  · have key : ∀ x b : ℝ, |R.fl (R.fl (x - b) + b) - x| ≤ R.gam 2 * (|x| + 2 * |b|) := by
      intro x b
      have := (((Near.of_abs (R := R) x).sub (Near.of_abs b)).add (Near.of_abs b)).2
      rw [sub_add_cancel, add_assoc |x|, ← two_mul] at this
      exact this
    exact ⟨key _ _, key _ _⟩
  · rintro ⟨hx, hy⟩ (rfl | rfl)
    · unfold Rep at hx hy
      simp [Fl.relativeXY, hx, hy]
    · unfold Rep at hx hy
      simp [Fl.relativeXY, R.fl_zero, hx, hy]

/-- C87: it is not exact in general, at any precision: the point 1/4 relative to the base `2^p` is found at 0. -/
theorem C87_relative_counterexample (p : ℕ) (hp : 1 ≤ p) :
    (Rnd.binary p hp).RepPt ⟨1 / 4, 0⟩ ∧ (Rnd.binary p hp).RepPt ⟨2 ^ p, 0⟩ ∧
    Fl.relativeXY (.binary p hp) ⟨1 / 4, 0⟩ ⟨2 ^ p, 0⟩ = ⟨0, 0⟩ := by
  have zp : (2 : ℝ) ^ ((p : ℤ)) = 2 ^ p := zpow_natCast 2 p
  have f0 : flBin p 0 = 0 := flBin_zero p
  have fp : flBin p (2 ^ p) = 2 ^ p := by
    have := flBin_rep p hp 1 p (by simpa using one_le_pow₀ (by norm_num : (1 : ℤ) ≤ 2))
    rw [zp] at this; simpa using this
  have fq : flBin p (1 / 4) = 1 / 4 := by
    have := flBin_rep p hp 1 (-2) (by simpa using one_le_pow₀ (by norm_num : (1 : ℤ) ≤ 2))
    norm_num at this ⊢; exact this
  have fn : flBin p (1 / 4 - 2 ^ p) = -2 ^ p := by
    rw [show (1 / 4 - 2 ^ p : ℝ) = -(2 ^ p - 1 / 4) by ring, flBin_neg, Fl.flBin_sub_quarter p hp]
  refine ⟨⟨fq, f0⟩, ⟨fp, f0⟩, ?_⟩
  have hR : ∀ x, (Rnd.binary p hp).fl x = flBin p x := fun _ => rfl
  simp only [Fl.relativeXY, hR, fn, neg_add_cancel, sub_zero, add_zero, f0]

/-! ### Vectors -/

/-- C87: the laws of dot and cross product that hold without tolerance. -/
theorem C87_products (v w : Vec ℝ) :
    Fl.dot R v w = Fl.dot R w v ∧ Fl.cross R v w = -Fl.cross R w v ∧ Fl.cross R v v = 0 ∧ Fl.dot R v (Fl.normal v) = 0 ∧
    0 ≤ Fl.dot R v v ∧ (Fl.dot R v v = 0 ↔ v = ⟨0, 0⟩) := by
  have n1 := R.fl_nonneg (mul_self_nonneg v.x)
  have n2 := R.fl_nonneg (mul_self_nonneg v.y)
  refine ⟨?_, ?_, ?_, ?_, R.fl_nonneg (add_nonneg n1 n2), ?_⟩
  · simp only [Fl.dot, mul_comm]
  · simp only [Fl.cross]
    rw [← R.neg, neg_sub, mul_comm w.y, mul_comm w.x]
  · simp only [Fl.cross, mul_comm v.y v.x, sub_self, R.fl_zero]
  · simp only [Fl.dot, Fl.normal, mul_neg, R.neg, mul_comm v.y v.x, add_neg_cancel, R.fl_zero]
  · rw [Fl.dot, R.fl_eq_zero]
    constructor
    · intro h
      have h1 : R.fl (v.x * v.x) = 0 := by linarith
      have h2 : R.fl (v.y * v.y) = 0 := by linarith
      rw [R.fl_eq_zero, mul_self_eq_zero] at h1 h2
      exact Vec.ext h1 h2
    · rintro rfl; simp [R.fl_zero]

/-- C87: dot and cross product are exact up to two roundings of the sizes of their products. -/
theorem C87_products_near (v w : Vec ℝ) :
    |Fl.dot R v w - (v.x * w.x + v.y * w.y)| ≤ R.gam 2 * (|v.x| * |w.x| + |v.y| * |w.y|) ∧
    |Fl.cross R v w - (v.x * w.y - v.y * w.x)| ≤ R.gam 2 * (|v.x| * |w.y| + |v.y| * |w.x|) := by
  have n : ∀ x y : ℝ, R.Near 1 (R.fl (x * y)) (x * y) (|x| * |y|) := fun x y => (Near.of_abs x).mul (Near.of_abs y)
  exact ⟨((n v.x w.x).add (n v.y w.y)).2, ((n v.x w.y).sub (n v.y w.x)).2⟩

/-- C87: a vector turned with a computed cosine and sine that are right up to `k` roundings is the turned vector up to `k + 2`
roundings. -/
theorem C87_rotate (k : ℕ) (θ c s : ℝ) (hc : |c - Real.cos θ| ≤ R.gam k) (hs : |s - Real.sin θ| ≤ R.gam k) (v : Vec ℝ) :
    WithinVec (R.gam (k + 2) * (|v.x| + |v.y|)) (R.gam (k + 2) * (|v.x| + |v.y|)) (Fl.rotate R c s v)
      ⟨Real.cos θ * v.x - Real.sin θ * v.y, Real.sin θ * v.x + Real.cos θ * v.y⟩ := by
  have nc : R.Near k c (Real.cos θ) 1 := ⟨Real.abs_cos_le_one θ, by simpa using hc⟩
  have ns : R.Near k s (Real.sin θ) 1 := ⟨Real.abs_sin_le_one θ, by simpa using hs⟩
  have h1 := (nc.mul (Near.of_abs v.x)).sub (ns.mul (Near.of_abs v.y))
  have h2 := (ns.mul (Near.of_abs v.x)).add (nc.mul (Near.of_abs v.y))
  simp only [one_mul, max_self, add_zero] at h1 h2
  exact ⟨h1.2, h2.2⟩

/-- C87: `unit()` raises exactly for the zero vector; otherwise each coordinate has the sign it had, and the length of the result
is one up to one rounding and the error of `math.hypot`. -/
theorem C87_unit (e : ℝ) (he : 0 ≤ e) (he1 : e < 1) (hyp : ℝ → ℝ → ℝ) (hh : HypotLaw e hyp) (v : Vec ℝ) :
    (v = ⟨0, 0⟩ → Fl.unit R hyp v = .error .zeroDivision) ∧
    (v ≠ ⟨0, 0⟩ → ∃ w, Fl.unit R hyp v = .ok w ∧ (0 < w.x ↔ 0 < v.x) ∧ (w.x = 0 ↔ v.x = 0) ∧ (0 < w.y ↔ 0 < v.y) ∧
      (w.y = 0 ↔ v.y = 0) ∧ (1 - R.u) / (1 + e) ≤ w.length ∧ w.length ≤ (1 + R.u) / (1 - e)) := by
  have hu := R.u_nonneg
  have hu2 := R.u_le
  constructor
  · rintro rfl
    have := hh 0 0
    simp only [mul_zero, add_zero, Real.sqrt_zero, sub_zero, abs_nonpos_iff] at this
    simp [Fl.unit, this]
  · intro hv
    set l := √(v.x * v.x + v.y * v.y) with hl
    have hsq : 0 < v.x * v.x + v.y * v.y := by
      rcases lt_or_eq_of_le (add_nonneg (mul_self_nonneg v.x) (mul_self_nonneg v.y)) with h | h
      · exact h
      · exfalso; apply hv
        have h1 : v.x * v.x = 0 := by linarith [mul_self_nonneg v.x, mul_self_nonneg v.y]
        have h2 : v.y * v.y = 0 := by linarith [mul_self_nonneg v.x, mul_self_nonneg v.y]
        exact Vec.ext (mul_self_eq_zero.1 h1) (mul_self_eq_zero.1 h2)
    have hlpos : 0 < l := Real.sqrt_pos.2 hsq
    have hll : l * l = v.x * v.x + v.y * v.y := Real.mul_self_sqrt hsq.le
    set L := hyp v.x v.y with hL
    have hLe := abs_le.1 (hh v.x v.y)
    rw [← hl, ← hL] at hLe
    have hL1 : (1 - e) * l ≤ L := by linarith [hLe.1]
    have hL2 : L ≤ (1 + e) * l := by linarith [hLe.2]
    have hLpos : 0 < L := lt_of_lt_of_le (mul_pos (by linarith) hlpos) hL1
    have zero : ∀ a : ℝ, R.fl (a / L) = 0 ↔ a = 0 := by
      intro a; rw [R.fl_eq_zero, div_eq_zero_iff]; simp [hLpos.ne']
    have pos : ∀ a : ℝ, 0 < R.fl (a / L) ↔ 0 < a := by
      intro a
      constructor
      · intro h
        by_contra hc
        exact absurd (R.fl_nonpos (div_nonpos_of_nonpos_of_nonneg (not_lt.1 hc) hLpos.le)) (not_le.2 h)
      · intro h
        refine lt_of_le_of_ne (R.fl_nonneg (div_pos h hLpos).le) ?_
        intro e; exact h.ne' ((zero a).1 e.symm)
    refine ⟨⟨R.fl (v.x / L), R.fl (v.y / L)⟩, ?_, pos _, zero _, pos _, zero _, ?_, ?_⟩
    · simp only [Fl.unit]; rw [if_neg hLpos.ne']
    all_goals
      simp only [Vec.length, hypot]
      have sq : ∀ a : ℝ, (1 - R.u) ^ 2 * (a / L * (a / L)) ≤ R.fl (a / L) * R.fl (a / L) ∧
          R.fl (a / L) * R.fl (a / L) ≤ (1 + R.u) ^ 2 * (a / L * (a / L)) := by
        intro a
        have er := R.err (a / L)
        have h1 : |R.fl (a / L)| ≤ (1 + R.u) * |a / L| := Fl.abs_fl_le _
        have h2 : (1 - R.u) * |a / L| ≤ |R.fl (a / L)| := by
          have := abs_sub_abs_le_abs_sub (a / L) (R.fl (a / L))
          rw [abs_sub_comm] at this
          linarith
        rw [← abs_mul_abs_self (R.fl (a / L)), ← abs_mul_abs_self (a / L)]
        have h0 := abs_nonneg (a / L)
        have h3 : 0 ≤ (1 - R.u) * |a / L| := mul_nonneg (by linarith) h0
        constructor
        · have := mul_le_mul h2 h2 h3 (abs_nonneg _)
          nlinarith
        · have := mul_le_mul h1 h1 (abs_nonneg _) (mul_nonneg (by linarith) h0)
          nlinarith
      obtain ⟨a1, a2⟩ := sq v.x
      obtain ⟨b1, b2⟩ := sq v.y
      have hs : v.x / L * (v.x / L) + v.y / L * (v.y / L) = (l / L) ^ 2 := by
        field_simp; nlinarith
    · apply Real.le_sqrt_of_sq_le
      have : (1 - R.u) / (1 + e) ≤ (1 - R.u) * (l / L) := by
        rw [div_eq_mul_one_div]
        refine mul_le_mul_of_nonneg_left ?_ (by linarith)
        rw [div_le_div_iff₀ (by linarith) hLpos]; linarith
      calc ((1 - R.u) / (1 + e)) ^ 2 ≤ ((1 - R.u) * (l / L)) ^ 2 := by
            have : 0 ≤ (1 - R.u) / (1 + e) := div_nonneg (by linarith) (by linarith)
            gcongr
        _ = (1 - R.u) ^ 2 * (v.x / L * (v.x / L) + v.y / L * (v.y / L)) := by rw [hs]; ring
        _ ≤ _ := by linarith
    · refine Real.sqrt_le_iff.2 ⟨div_nonneg (by linarith) (by linarith), ?_⟩
      have h1 : (1 + R.u) * (l / L) ≤ (1 + R.u) / (1 - e) := by
        rw [div_eq_mul_one_div (1 + R.u) (1 - e)]
        refine mul_le_mul_of_nonneg_left ?_ (by linarith)
        rw [div_le_div_iff₀ hLpos (by linarith)]; linarith
      calc _ ≤ (1 + R.u) ^ 2 * (v.x / L * (v.x / L) + v.y / L * (v.y / L)) := by linarith
        _ = ((1 + R.u) * (l / L)) ^ 2 := by rw [hs]; ring
        _ ≤ ((1 + R.u) / (1 - e)) ^ 2 := by
            have : 0 ≤ (1 + R.u) * (l / L) := by positivity
            gcongr

/-! ### Areas -/

/-- C87: the area of a polygon of `n` points is exact up to `n + 2` roundings (`4 n + 4` from Python 3.12 on) of the size of the
products in it. -/
theorem C87_area (mode : SumMode) (pts : List (Pt ℝ)) :
    |Fl.polygonArea R mode pts - polygonArea pts| ≤ R.gam (2 + sumRounds mode pts.length) * (areaSize pts / 2) := by
  have h := Fl.sum_near (R := R) mode (k := 2)
    (fun ab : Pt ℝ × Pt ℝ => R.fl (R.fl (ab.1.x * ab.2.y) - R.fl (ab.1.y * ab.2.x)))
    (fun ab => ab.1.x * ab.2.y - ab.1.y * ab.2.x) (fun ab => |ab.1.x| * |ab.2.y| + |ab.1.y| * |ab.2.x|) (iterRotate2 pts)
    (fun ab _ => ((Near.of_abs ab.1.x).mul (Near.of_abs ab.2.y)).sub ((Near.of_abs ab.1.y).mul (Near.of_abs ab.2.x)))
  have hl : (iterRotate2 pts).length = pts.length := by simp [iterRotate2]
  rw [hl] at h
  -- the sum is a float, so halving it does not round
  have hrep : ∀ xs : List ℝ, R.Rep (Fl.sum R mode xs) := by
    intro xs
    cases mode with
    | plain =>
      have : ∀ (xs : List ℝ) (a : ℝ), R.Rep a → R.Rep (xs.foldl (fun acc x => R.fl (acc + x)) a) := by
        intro xs
        induction xs with
        | nil => intro a ha; exact ha
        | cons x xs ih => intro a _; exact ih _ (R.rep_fl _)
      exact this xs 0 R.rep_zero
    | compensated => exact R.rep_fl _
  have h2 := h.half.2
  rw [Fl.polygonArea, R.fl_half, hrep]
  exact h2

/-- C87: with whole coordinates the area is exact, as long as the products taken together are below `1/u`, `2^53` for Python
floats. -/
theorem C87_area_exact (mode : SumMode) (pts : List (Pt ℝ)) (hint : ∀ p ∈ pts, ∃ m n : ℤ, p = ⟨m, n⟩)
    (hs : areaSize pts * R.u ≤ 1) : Fl.polygonArea R mode pts = polygonArea pts := by
  have hu := R.u_nonneg
  -- each term is a whole number
  have hmem : ∀ ab ∈ iterRotate2 pts, ab.1 ∈ pts ∧ ab.2 ∈ pts := by
    intro ab hab
    have := List.of_mem_zip hab
    exact ⟨this.1, by simpa using this.2⟩
  have hnn : ∀ ab : Pt ℝ × Pt ℝ, 0 ≤ |ab.1.x| * |ab.2.y| + |ab.1.y| * |ab.2.x| := fun ab => by positivity
  have hone : ∀ ab ∈ iterRotate2 pts, (|ab.1.x| * |ab.2.y| + |ab.1.y| * |ab.2.x|) * R.u ≤ 1 := by
    intro ab hab
    refine le_trans (mul_le_mul_of_nonneg_right ?_ hu) hs
    exact List.single_le_sum (by rintro y hy; obtain ⟨ab, -, rfl⟩ := List.mem_map.1 hy; exact hnn ab) _ (List.mem_map_of_mem hab)
  have hterm : ∀ ab ∈ iterRotate2 pts, ∃ n : ℤ, ab.1.x * ab.2.y - ab.1.y * ab.2.x = n ∧
      R.fl (R.fl (ab.1.x * ab.2.y) - R.fl (ab.1.y * ab.2.x)) = n ∧
      |(n : ℝ)| ≤ |ab.1.x| * |ab.2.y| + |ab.1.y| * |ab.2.x| := by
    intro ab hab
    obtain ⟨m1, n1, h1⟩ := hint _ (hmem ab hab).1
    obtain ⟨m2, n2, h2⟩ := hint _ (hmem ab hab).2
    have h := hone ab hab
    have ex : ab.1.x = m1 := by rw [h1]
    have ey : ab.1.y = n1 := by rw [h1]
    have fx : ab.2.x = m2 := by rw [h2]
    have fy : ab.2.y = n2 := by rw [h2]
    rw [ex, ey, fx, fy] at h ⊢
    have p1 : 0 ≤ |(m1 : ℝ)| * |(n2 : ℝ)| := by positivity
    have p2 : 0 ≤ |(n1 : ℝ)| * |(m2 : ℝ)| := by positivity
    have a1 : R.fl ((m1 : ℝ) * n2) = (m1 : ℝ) * n2 :=
      Fl.exact_int (m1 * n2) (by push_cast; rfl) (by rw [abs_mul]; nlinarith)
    have a2 : R.fl ((n1 : ℝ) * m2) = (n1 : ℝ) * m2 :=
      Fl.exact_int (n1 * m2) (by push_cast; rfl) (by rw [abs_mul]; nlinarith)
    have le : |(m1 : ℝ) * n2 - n1 * m2| ≤ |(m1 : ℝ)| * |(n2 : ℝ)| + |(n1 : ℝ)| * |(m2 : ℝ)| := by
      refine (abs_sub _ _).trans ?_
      rw [abs_mul, abs_mul]
    refine ⟨m1 * n2 - n1 * m2, by push_cast; rfl, ?_, by push_cast; exact le⟩
    rw [a1, a2]
    push_cast
    exact Fl.exact_int (m1 * n2 - n1 * m2) (by push_cast; rfl) (le_trans (mul_le_mul_of_nonneg_right le hu) h)
  -- so the list of terms is a list of whole numbers
  obtain ⟨ns, e1, e2, e3⟩ : ∃ ns : List ℤ,
      ((iterRotate2 pts).map fun ab => R.fl (R.fl (ab.1.x * ab.2.y) - R.fl (ab.1.y * ab.2.x))) = ns.map (fun n : ℤ => (n : ℝ)) ∧
      ((iterRotate2 pts).map fun ab => ab.1.x * ab.2.y - ab.1.y * ab.2.x) = ns.map (fun n : ℤ => (n : ℝ)) ∧
      (ns.map fun n : ℤ => |(n : ℝ)|).sum ≤ areaSize pts := by
    unfold areaSize
    clear hs hone hmem
    generalize iterRotate2 pts = l at hterm
    induction l with
    | nil => exact ⟨[], rfl, rfl, by simp⟩
    | cons ab l ih =>
      obtain ⟨ns, i1, i2, i3⟩ := ih (fun x hx => hterm x (by simp [hx]))
      obtain ⟨n, n1, n2, n3⟩ := hterm ab (by simp)
      refine ⟨n :: ns, by simp [i1, n2], by simp [i2, n1], ?_⟩
      simp only [List.map_cons, List.sum_cons]
      exact add_le_add n3 i3
  have hsum := Fl.sum_int (R := R) mode ns (le_trans (mul_le_mul_of_nonneg_right e3 hu) hs)
  have hfl : R.fl (ns.map fun n : ℤ => (n : ℝ)).sum = (ns.map fun n : ℤ => (n : ℝ)).sum := by
    have e : (ns.map fun n : ℤ => (n : ℝ)).sum = (ns.sum : ℤ) := by
      clear e1 e2 e3 hsum
      induction ns with
      | nil => simp
      | cons n l ih => rw [List.map_cons, List.sum_cons, List.sum_cons, ih]; push_cast; rfl
    have hle : |(ns.map fun n : ℤ => (n : ℝ)).sum| ≤ (ns.map fun n : ℤ => |(n : ℝ)|).sum := by
      clear e1 e2 e3 hsum e
      induction ns with
      | nil => simp
      | cons n l ih => simp only [List.map_cons, List.sum_cons]; exact (abs_add_le _ _).trans (by linarith)
    exact Fl.exact_int ns.sum e (le_trans (mul_le_mul_of_nonneg_right (hle.trans e3) hu) hs)
  rw [Fl.polygonArea, polygonArea, e1, e2, hsum, R.fl_half, hfl]

/-! ### Transforms -/

/-- C87: transforming a point by the matrix of any history of calls gives the exact result up to three roundings per call and three
for the point, relative to the sizes that occur. -/
theorem C87_history (mode : DotMode) (ops : List (Bool × Mat3 ℝ)) (p : Pt ℝ) :
    Within (R.gam (3 * ops.length + 3) * rowSizeX (sizeHistory ops) p) (R.gam (3 * ops.length + 3) * rowSizeY (sizeHistory ops) p)
      (Fl.apply R mode (Fl.history R mode ops) p) ((exactHistory ops).apply p) := by
  have key : ∀ (ops : List (Bool × Mat3 ℝ)) {k : ℕ} {m' m A : Mat3 ℝ}, Fl.NearM R k m' m A →
      Fl.NearM R (k + 3 * ops.length)
        (ops.foldl (fun acc op => if op.1 then Fl.mul R mode op.2 acc else Fl.mul R mode acc op.2) m')
        (ops.foldl (fun acc op => if op.1 then op.2.mul acc else acc.mul op.2) m)
        ((ops.map fun op => (op.1, op.2.absM)).foldl (fun acc op => if op.1 then op.2.mul acc else acc.mul op.2) A) := by
    intro ops
    induction ops with
    | nil => intro k m' m A h; exact h
    | cons op ops ih =>
      intro k m' m A h
      rcases op with ⟨b, n⟩
      have h1 : Fl.NearM R (k + 3) (if b then Fl.mul R mode n m' else Fl.mul R mode m' n)
          (if b then n.mul m else m.mul n) (if b then n.absM.mul A else A.mul n.absM) := by
        cases b with
        | true => have := Fl.mul_near mode (Fl.nearM_abs (R := R) n) h; simpa using this
        | false => have := Fl.mul_near mode h (Fl.nearM_abs (R := R) n); simpa using this
      have := ih h1
      simp only [List.foldl_cons, List.map_cons, List.length_cons]
      rw [show k + 3 * (ops.length + 1) = k + 3 + 3 * ops.length by omega]
      exact this
  have one : Fl.NearM R 0 Mat3.one Mat3.one Mat3.one := by
    have := Fl.nearM_abs (R := R) Mat3.one
    simpa [Mat3.absM, Mat3.one] using this
  have h := Fl.apply_nearM mode (key ops one) p
  simp only [zero_add] at h
  have up : ∀ {a b c x y : ℝ}, a * |x| + b * |y| + c ≤ |a| * |x| + |b| * |y| + |c| := by
    intro a b c x y
    have := le_abs_self a; have := le_abs_self b; have := le_abs_self c
    gcongr
  exact ⟨(h.1.mono le_rfl up).2, (h.2.mono le_rfl up).2⟩

/-- C87: the last row of the matrix stays exactly 0, 0, 1, so that leaving it out (`as_6tuple`, `copy`) loses nothing. -/
theorem C87_last_row (mode : DotMode) (ops : List (Bool × Mat3 ℝ)) (h : ∀ op ∈ ops, op.2.Affine) :
    (Fl.history R mode ops).Affine := by
  have mul : ∀ m n : Mat3 ℝ, m.Affine → n.Affine → (Fl.mul R mode m n).Affine := by
    rintro m n ⟨h1, h2, h3⟩ ⟨h4, h5, h6⟩
    refine ⟨?_, ?_, ?_⟩ <;> simp only [Fl.mul, h1, h2, h3, h4, h5, h6]
    · rw [Fl.dot3_third _ _ _ _ (by ring) (by ring)]; simp [R.fl_zero]
    · rw [Fl.dot3_third _ _ _ _ (by ring) (by ring)]; simp [R.fl_zero]
    · rw [Fl.dot3_third _ _ _ _ (by ring) (by ring)]; simp [R.fl_one]
  have key : ∀ (ops : List (Bool × Mat3 ℝ)) (m : Mat3 ℝ), (∀ op ∈ ops, op.2.Affine) → m.Affine →
      (ops.foldl (fun acc op => if op.1 then Fl.mul R mode op.2 acc else Fl.mul R mode acc op.2) m).Affine := by
    intro ops
    induction ops with
    | nil => intro m _ hm; exact hm
    | cons op ops ih =>
      intro m ho hm
      refine ih _ (fun x hx => ho x (by simp [hx])) ?_
      have := ho op (by simp)
      beta_reduce
      split
      · exact mul _ _ this hm
      · exact mul _ _ hm this
  exact key ops _ h (by simp [Mat3.Affine, Mat3.one])

/-- C87: one call on a new `Transform` gives exactly the matrix of the call. -/
theorem C87_first_call (mode : DotMode) (b : Bool) (m : Mat3 ℝ) (hm : m.RepM R) : Fl.history R mode [(b, m)] = m := by
  obtain ⟨⟨h1, h2, h3⟩, ⟨h4, h5, h6⟩, h7, h8, h9⟩ := hm
  unfold Rep at *
  cases b <;> cases mode <;>
    ext <;> simp [Fl.history, Fl.mul, Mat3.one, Fl.dot3, R.fl_zero, R.idem, h1, h2, h3, h4, h5, h6, h7, h8, h9]

/-- C87: a new `Transform` moves no point; a translation adds with one rounding, as adding a vector does; a scaling multiplies with
one rounding; a half or quarter turn (cosine and sine 0 or ±1) does not round at all. -/
theorem C87_simple_exact (mode : DotMode) (p : Pt ℝ) (hp : R.RepPt p) :
    Fl.apply R mode Mat3.one p = p ∧
    (∀ dx dy, R.Rep dx → R.Rep dy → Fl.apply R mode (Mat3.translateMat dx dy) p = Fl.addVector R p ⟨dx, dy⟩) ∧
    (∀ sx sy, Fl.apply R mode (Mat3.scaleMat sx sy) p = ⟨R.fl (sx * p.x), R.fl (sy * p.y)⟩) ∧
    Fl.apply R mode (Mat3.rotateMat (-1) 0) p = ⟨-p.x, -p.y⟩ ∧ Fl.apply R mode (Mat3.rotateMat 0 1) p = ⟨p.y, -p.x⟩ ∧
    Fl.apply R mode (Mat3.rotateMat 0 (-1)) p = ⟨-p.y, p.x⟩ := by
  obtain ⟨hx, hy⟩ := hp
  unfold Rep at hx hy
  refine ⟨?_, ?_, ?_, ?_, ?_, ?_⟩
  · cases mode <;> ext <;> simp [Fl.apply, Mat3.one, Fl.dot3, R.fl_zero, hx, hy]
  · intro dx dy h1 h2
    unfold Rep at h1 h2
    cases mode <;> ext <;> simp [Fl.apply, Mat3.translateMat, Fl.dot3, R.fl_zero, hx, hy, h1, h2, Fl.addVector, R.idem]
  · intro sx sy
    cases mode <;> ext <;> simp [Fl.apply, Mat3.scaleMat, Fl.dot3, R.fl_zero, R.idem]
  · cases mode <;> ext <;> simp [Fl.apply, Mat3.rotateMat, Fl.dot3, R.fl_zero, R.neg, hx, hy]
  · cases mode <;> ext <;> simp [Fl.apply, Mat3.rotateMat, Fl.dot3, R.fl_zero, R.neg, hx, hy]
  · cases mode <;> ext <;> simp [Fl.apply, Mat3.rotateMat, Fl.dot3, R.fl_zero, R.neg, hx, hy]

/-- The hypotheses are met: Python's doubles with a correctly rounded `hypot`, a triangle with whole coordinates, and a history of
a scaling, a translation and a composition. -/
example : ∃ (R : Rnd) (hyp : ℝ → ℝ → ℝ), R.u = 2 ^ (-53 : ℤ) ∧ HypotLaw R.u hyp ∧ R.u < 1 ∧
    areaSize [⟨0, 0⟩, ⟨3, 0⟩, ⟨1, 2⟩] * R.u ≤ 1 ∧
    (∀ op ∈ [(true, Mat3.scaleMat 2 3), (true, Mat3.translateMat 1 1), (false, Mat3.scaleMat 5 (1 / 3))],
      Mat3.Affine (K := ℝ) op.2) := by
  refine ⟨.binary 53 (by norm_num), fun x y => flBin 53 √(x * x + y * y), rfl, ?_, ?_, ?_, ?_⟩
  · intro x y
    have := flBin_err 53 √(x * x + y * y)
    rwa [abs_of_nonneg (a := √(x * x + y * y)) (Real.sqrt_nonneg _)] at this
  · show (2 : ℝ) ^ (-((53 : ℕ) : ℤ)) < 1
    norm_num
  · show areaSize _ * (2 : ℝ) ^ (-((53 : ℕ) : ℤ)) ≤ 1
    norm_num [areaSize, iterRotate2, List.rotate]
  · simp [Mat3.Affine, Mat3.scaleMat, Mat3.translateMat]

end X7
