import Verif.Spec.Approx
import Verif.Lemmas.Elem
import Verif.Lemmas.Shapes

namespace X7.Approx
open X7.Utils (distPt)

/-- The curve minus its chord between the parameters `a` and `a + h`. -/
theorem chord_diff (s : Poly4 ℝ) (a h v : ℝ) :
    (s.at' (a + v * h)).x - (between (s.at' a) (s.at' (a + h)) v).x = -(3 * (v * (1 - v)) * h ^ 2) *
      ((1 - (a + (1 + v) * h / 3)) * (s.a.x - 2 * s.b.x + s.c.x) + (a + (1 + v) * h / 3) * (s.b.x - 2 * s.c.x + s.d.x)) ∧
    (s.at' (a + v * h)).y - (between (s.at' a) (s.at' (a + h)) v).y = -(3 * (v * (1 - v)) * h ^ 2) *
      ((1 - (a + (1 + v) * h / 3)) * (s.a.y - 2 * s.b.y + s.c.y) + (a + (1 + v) * h / 3) * (s.b.y - 2 * s.c.y + s.d.y)) := by
  constructor <;> simp only [between, Poly4.at', bern] <;> ring

theorem bend_nonneg (s : Poly4 ℝ) : 0 ≤ bend s := le_max_of_le_left (Real.sqrt_nonneg _)

theorem mix_le {x1 y1 x2 y2 u M : ℝ} (u0 : 0 ≤ u) (u1 : u ≤ 1) (h1 : x1 ^ 2 + y1 ^ 2 ≤ M ^ 2) (h2 : x2 ^ 2 + y2 ^ 2 ≤ M ^ 2) :
    ((1 - u) * x1 + u * x2) ^ 2 + ((1 - u) * y1 + u * y2) ^ 2 ≤ M ^ 2 := by
  have e : ((1 - u) * x1 + u * x2) ^ 2 + ((1 - u) * y1 + u * y2) ^ 2 =
      (1 - u) * (x1 ^ 2 + y1 ^ 2) + u * (x2 ^ 2 + y2 ^ 2) - u * (1 - u) * ((x1 - x2) ^ 2 + (y1 - y2) ^ 2) := by ring
  have p : 0 ≤ u * (1 - u) * ((x1 - x2) ^ 2 + (y1 - y2) ^ 2) := by
    have : 0 ≤ 1 - u := by linarith
    positivity
  rw [e]
  nlinarith [mul_le_mul_of_nonneg_left h1 (by linarith : 0 ≤ 1 - u), mul_le_mul_of_nonneg_left h2 u0]

theorem bend_sq (s : Poly4 ℝ) {M : ℝ} (hM : bend s ≤ M) :
    (s.a.x - 2 * s.b.x + s.c.x) ^ 2 + (s.a.y - 2 * s.b.y + s.c.y) ^ 2 ≤ M ^ 2 ∧
    (s.b.x - 2 * s.c.x + s.d.x) ^ 2 + (s.b.y - 2 * s.c.y + s.d.y) ^ 2 ≤ M ^ 2 := by
  have h := max_le_iff.1 hM
  exact ⟨(Real.sqrt_le_iff.1 h.1).2, (Real.sqrt_le_iff.1 h.2).2⟩

/-- How far the curve is from its chord. -/
theorem chord_close (s : Poly4 ℝ) {a h v M : ℝ} (a0 : 0 ≤ a) (h0 : 0 ≤ h) (ah : a + h ≤ 1) (v0 : 0 ≤ v) (v1 : v ≤ 1)
    (hM : bend s ≤ M) : distPt (s.at' (a + v * h)) (between (s.at' a) (s.at' (a + h)) v) ≤ 3 / 4 * M * h ^ 2 := by
  obtain ⟨ex, ey⟩ := chord_diff s a h v
  obtain ⟨b1, b2⟩ := bend_sq s hM
  have hM0 : 0 ≤ M := (bend_nonneg s).trans hM
  have u0 : 0 ≤ a + (1 + v) * h / 3 := by positivity
  have u1 : a + (1 + v) * h / 3 ≤ 1 := by
    have := mul_le_mul_of_nonneg_right v1 h0
    have e : (1 + v) * h / 3 = h / 3 + v * h / 3 := by ring
    rw [e]
    linarith
  have key := mix_le u0 u1 b1 b2
  rw [distPt, Real.sqrt_le_iff, ex, ey]
  refine ⟨by positivity, ?_⟩
  have hk : (3 * (v * (1 - v)) * h ^ 2) ^ 2 ≤ (3 / 4 * h ^ 2) ^ 2 := by
    have hv0 : 0 ≤ v * (1 - v) := mul_nonneg v0 (by linarith)
    have hv1 : v * (1 - v) ≤ 1 / 4 := by linarith [show v * (1 - v) = 1 / 4 - (2 * v - 1) ^ 2 / 4 by ring, sq_nonneg (2 * v - 1)]
    apply pow_le_pow_left₀ (by positivity)
    exact mul_le_mul_of_nonneg_right (by linarith) (sq_nonneg h)
  rw [mul_pow, mul_pow, ← mul_add, neg_sq]
  calc _ ≤ (3 / 4 * h ^ 2) ^ 2 * M ^ 2 := mul_le_mul hk key (by positivity) (by positivity)
    _ = _ := by ring

/-- The parameters of a step. -/
theorem cell {n : ℕ} (hn : 1 ≤ n) {t : ℝ} (t0 : 0 ≤ t) (t1 : t ≤ 1) :
    ∃ i : ℕ, i < n ∧ ∃ v, 0 ≤ v ∧ v ≤ 1 ∧ t = (i : ℝ) / n + v * (1 / n) := by
  have hp : (0 : ℝ) < n := by exact_mod_cast hn
  rcases eq_or_lt_of_le t1 with rfl | ht
  · refine ⟨n - 1, by omega, 1, by norm_num, le_rfl, ?_⟩
    rw [Nat.cast_sub hn]
    field_simp
    simp
  · refine ⟨⌊t * n⌋₊, ?_, t * n - ⌊t * n⌋₊, ?_, ?_, ?_⟩
    · rw [Nat.floor_lt (by positivity)]; nlinarith
    · linarith [Nat.floor_le (by positivity : 0 ≤ t * n)]
    · linarith [Nat.lt_floor_add_one (t * n)]
    · field_simp; ring

/-- Which segment and step a line of the path belongs to. -/
theorem pathOf_line {n : ℕ} (hn : 1 ≤ n) (ss : List (Poly4 ℝ))
    (hj : ∀ k s s', ss[k]? = some s → ss[k + 1]? = some s' → s.d = s'.a) {j : ℕ} {p p' : Pt ℝ}
    (hp : (pathOf n ss)[j]? = some p) (hp' : (pathOf n ss)[j + 1]? = some p') :
    ∃ s ∈ ss, ∃ i : ℕ, i < n ∧ p = s.at' ((i : ℝ) / n) ∧ p' = s.at' ((i : ℝ) / n + 1 / n) := by
  have hne : ss ≠ [] := by rintro rfl; simp [pathOf] at hp
  have hl := (List.getElem?_eq_some_iff.1 hp').1
  rw [pathOf_length n ss hne] at hl
  have hk : j / n < ss.length := by
    rw [Nat.div_lt_iff_lt_mul (by omega)]; omega
  have hdm : j = j / n * n + j % n := by
    rw [Nat.mul_comm]; exact (Nat.div_add_mod j n).symm
  have hm := Nat.mod_lt j (by omega : 0 < n)
  have g1 := pathOf_get n hn ss hj (j / n) (j % n) hm.le _ (List.getElem?_eq_getElem hk)
  have g2 := pathOf_get n hn ss hj (j / n) (j % n + 1) hm _ (List.getElem?_eq_getElem hk)
  rw [← hdm, hp] at g1
  rw [← Nat.add_assoc, ← hdm, hp'] at g2
  refine ⟨_, List.getElem_mem hk, j % n, hm, Option.some.inj g1, ?_⟩
  rw [Option.some.inj g2]
  push_cast
  rw [add_div]

/-- A step of a segment is a line of the path. -/
theorem line_pathOf {n : ℕ} (hn : 1 ≤ n) (ss : List (Poly4 ℝ))
    (hj : ∀ k s s', ss[k]? = some s → ss[k + 1]? = some s' → s.d = s'.a) {s : Poly4 ℝ} (hs : s ∈ ss) {i : ℕ} (hi : i < n)
    {v : ℝ} (v0 : 0 ≤ v) (v1 : v ≤ 1) :
    between (s.at' ((i : ℝ) / n)) (s.at' ((i : ℝ) / n + 1 / n)) v ∈ joined (pathOf n ss) := by
  obtain ⟨k, hk⟩ := List.mem_iff_getElem?.1 hs
  refine ⟨k * n + i, _, _, pathOf_get n hn ss hj k i hi.le s hk, pathOf_get n hn ss hj k (i + 1) hi s hk, v, v0, v1, ?_⟩
  push_cast
  rw [add_div]

theorem pathOf_close {n : ℕ} (hn : 1 ≤ n) (ss : List (Poly4 ℝ))
    (hj : ∀ k s s', ss[k]? = some s → ss[k + 1]? = some s' → s.d = s'.a) {M : ℝ} (hM : ∀ s ∈ ss, bend s ≤ M) :
    Close (3 / 4 * M / n ^ 2) (traced ss) (joined (pathOf n ss)) := by
  have hp : (0 : ℝ) < n := by exact_mod_cast hn
  have cl : ∀ s ∈ ss, ∀ i : ℕ, i < n → ∀ v, 0 ≤ v → v ≤ 1 →
      distPt (s.at' ((i : ℝ) / n + v * (1 / n))) (between (s.at' ((i : ℝ) / n)) (s.at' ((i : ℝ) / n + 1 / n)) v) ≤
        3 / 4 * M / n ^ 2 ∧ 0 ≤ (i : ℝ) / n + v * (1 / n) ∧ (i : ℝ) / n + v * (1 / n) ≤ 1 := by
    intro s hs i hi v v0 v1
    have hi' : (i : ℝ) / n + 1 / n ≤ 1 := by
      rw [← add_div, div_le_one hp]; exact_mod_cast hi
    have h0 : (0 : ℝ) ≤ 1 / n := by positivity
    refine ⟨(chord_close s (by positivity) h0 hi' v0 v1 (hM s hs)).trans (le_of_eq ?_), by positivity,
      by linarith [mul_le_mul_of_nonneg_right v1 h0]⟩
    field_simp
  constructor
  · rintro q ⟨s, hs, t, t0, t1, rfl⟩
    obtain ⟨i, hi, v, v0, v1, rfl⟩ := cell hn t0 t1
    exact ⟨_, line_pathOf hn ss hj hs hi v0 v1, (cl s hs i hi v v0 v1).1⟩
  · rintro q ⟨j, p, p', hp1, hp2, v, v0, v1, rfl⟩
    obtain ⟨s, hs, i, hi, rfl, rfl⟩ := pathOf_line hn ss hj hp1 hp2
    obtain ⟨h1, h2, h3⟩ := cl s hs i hi v v0 v1
    refine ⟨_, ⟨s, hs, _, h2, h3, rfl⟩, ?_⟩
    rw [distPt] at h1 ⊢
    rwa [sub_sq_comm, sub_sq_comm (Pt.y _)]

theorem segs_joins (closed : Bool) (cps : List (CP ℝ)) (f : Pt ℝ → Pt ℝ) :
    ∀ k s s', ((segs closed cps).map (Poly4.map f))[k]? = some s → ((segs closed cps).map (Poly4.map f))[k + 1]? = some s' →
      s.d = s'.a := by
  intro k s s' h1 h2
  rw [List.getElem?_map, Option.map_eq_some_iff] at h1 h2
  obtain ⟨x, hx, rfl⟩ := h1
  obtain ⟨y, hy, rfl⟩ := h2
  simp only [Poly4.map]
  rw [segs_join closed cps k x y hx hy]

theorem traced_map (m : Mat3 ℝ) (closed : Bool) (cps : List (CP ℝ)) :
    traced ((segs closed cps).map (Poly4.map m.apply)) = m.apply '' curveSet closed cps := by
  ext q
  simp only [traced, Set.mem_ofPred_eq, List.mem_map, Set.mem_image, curveSet]
  constructor
  · rintro ⟨_, ⟨s, hs, rfl⟩, t, t0, t1, rfl⟩
    exact ⟨s.at' t, ⟨s, hs, t, t0, t1, rfl⟩, (Elem.at'_map m s t).symm⟩
  · rintro ⟨_, ⟨s, hs, t, t0, t1, rfl⟩, rfl⟩
    exact ⟨_, ⟨s, hs, rfl⟩, t, t0, t1, (Elem.at'_map m s t).symm⟩

end X7.Approx
