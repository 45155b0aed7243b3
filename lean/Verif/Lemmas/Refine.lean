import Verif.Spec.Refine
import Verif.Lemmas.Approx
import Verif.Lemmas.BezierReal

namespace X7.Refine
open X7.Approx X7.Utils

theorem combo_le {x1 y1 x2 y2 u v k M : ℝ} (u0 : 0 ≤ u) (v0 : 0 ≤ v) (hk : u + v ≤ k) (h1 : x1 ^ 2 + y1 ^ 2 ≤ M ^ 2)
    (h2 : x2 ^ 2 + y2 ^ 2 ≤ M ^ 2) : (u * x1 + v * x2) ^ 2 + (u * y1 + v * y2) ^ 2 ≤ (k * M) ^ 2 := by
  have e : (u * x1 + v * x2) ^ 2 + (u * y1 + v * y2) ^ 2 =
      u * (u + v) * (x1 ^ 2 + y1 ^ 2) + v * (u + v) * (x2 ^ 2 + y2 ^ 2) - u * v * ((x1 - x2) ^ 2 + (y1 - y2) ^ 2) := by ring
  have p : 0 ≤ u * v * ((x1 - x2) ^ 2 + (y1 - y2) ^ 2) := by positivity
  have q1 := mul_le_mul_of_nonneg_left h1 (mul_nonneg u0 (add_nonneg u0 v0))
  have q2 := mul_le_mul_of_nonneg_left h2 (mul_nonneg v0 (add_nonneg u0 v0))
  have q3 : (u + v) ^ 2 * M ^ 2 ≤ k ^ 2 * M ^ 2 :=
    mul_le_mul_of_nonneg_right (pow_le_pow_left₀ (add_nonneg u0 v0) hk 2) (sq_nonneg M)
  rw [e, mul_pow]
  nlinarith

/-- Two points whose difference is a combination of the second differences. -/
theorem dist_combo (s : Poly4 ℝ) {p q : Pt ℝ} {u v k M : ℝ} (u0 : 0 ≤ u) (v0 : 0 ≤ v) (hk : u + v ≤ k) (hM : bend s ≤ M)
    (ex : p.x - q.x = u * (s.a.x - 2 * s.b.x + s.c.x) + v * (s.b.x - 2 * s.c.x + s.d.x))
    (ey : p.y - q.y = u * (s.a.y - 2 * s.b.y + s.c.y) + v * (s.b.y - 2 * s.c.y + s.d.y)) : distPt p q ≤ k * M := by
  obtain ⟨b1, b2⟩ := bend_sq s hM
  rw [distPt, Real.sqrt_le_iff, ex, ey]
  exact ⟨mul_nonneg ((add_nonneg u0 v0).trans hk) ((bend_nonneg s).trans hM), combo_le u0 v0 hk b1 b2⟩

theorem distPt_comm' (p q : Pt ℝ) : distPt p q = distPt q p := by
  rw [distPt, distPt, sub_sq_comm, sub_sq_comm p.y]

/-- The points of the three lines. -/
theorem joined4 (s : Poly4 ℝ) (q : Pt ℝ) : q ∈ joined [s.a, s.b, s.c, s.d] ↔
    ∃ v, 0 ≤ v ∧ v ≤ 1 ∧ (q = between s.a s.b v ∨ q = between s.b s.c v ∨ q = between s.c s.d v) := by
  constructor
  · rintro ⟨i, p, p', h1, h2, v, v0, v1, rfl⟩
    refine ⟨v, v0, v1, ?_⟩
    rcases i with _ | _ | _ | i
    · simp at h1 h2; subst h1 h2; exact .inl rfl
    · simp at h1 h2; subst h1 h2; exact .inr (.inl rfl)
    · simp at h1 h2; subst h1 h2; exact .inr (.inr rfl)
    · simp at h2
  · rintro ⟨v, v0, v1, rfl | rfl | rfl⟩
    · exact ⟨0, s.a, s.b, rfl, rfl, v, v0, v1, rfl⟩
    · exact ⟨1, s.b, s.c, rfl, rfl, v, v0, v1, rfl⟩
    · exact ⟨2, s.c, s.d, rfl, rfl, v, v0, v1, rfl⟩

theorem close1 (s : Poly4 ℝ) {v M : ℝ} (v0 : 0 ≤ v) (v1 : v ≤ 1) (hM : bend s ≤ M) :
    distPt (s.at' (v / 3)) (between s.a s.b v) ≤ M / 3 := by
  have := dist_combo (p := s.at' (v / 3)) (q := between s.a s.b v) s (u := v ^ 2 / 3 - v ^ 3 / 27) (v := v ^ 3 / 27) (k := 1 / 3)
    (by nlinarith [mul_nonneg (sq_nonneg v) (by linarith : 0 ≤ 9 - v)]) (by positivity) (by nlinarith) hM
    (by simp only [Poly4.at', bern, between]; ring) (by simp only [Poly4.at', bern, between]; ring)
  linarith

theorem close2 (s : Poly4 ℝ) {v M : ℝ} (v0 : 0 ≤ v) (v1 : v ≤ 1) (hM : bend s ≤ M) :
    distPt (s.at' ((1 + v) / 3)) (between s.b s.c v) ≤ M / 3 := by
  have := dist_combo (p := s.at' ((1 + v) / 3)) (q := between s.b s.c v) s (u := ((2 - v) / 3) ^ 3) (v := ((1 + v) / 3) ^ 3)
    (k := 1 / 3) (pow_nonneg (by linarith) 3) (pow_nonneg (by linarith) 3) (by nlinarith) hM
    (by simp only [Poly4.at', bern, between]; ring) (by simp only [Poly4.at', bern, between]; ring)
  linarith

theorem close3 (s : Poly4 ℝ) {v M : ℝ} (v0 : 0 ≤ v) (v1 : v ≤ 1) (hM : bend s ≤ M) :
    distPt (s.at' ((2 + v) / 3)) (between s.c s.d v) ≤ M / 3 := by
  have w0 : 0 ≤ 1 - v := by linarith
  have := dist_combo (p := s.at' ((2 + v) / 3)) (q := between s.c s.d v) s (v := (1 - v) ^ 2 / 3 - (1 - v) ^ 3 / 27)
    (u := (1 - v) ^ 3 / 27) (k := 1 / 3) (by positivity)
    (by nlinarith [mul_nonneg (sq_nonneg (1 - v)) (by linarith : 0 ≤ 9 - (1 - v))]) (by nlinarith) hM
    (by simp only [Poly4.at', bern, between]; ring) (by simp only [Poly4.at', bern, between]; ring)
  linarith

theorem polygon_close (s : Poly4 ℝ) {M : ℝ} (hM : bend s ≤ M) : Close (M / 3) (traced [s]) (joined [s.a, s.b, s.c, s.d]) := by
  constructor
  · rintro q ⟨s', hs', t, t0, t1, rfl⟩
    obtain rfl := List.mem_singleton.1 hs'
    rcases le_total (3 * t) 1 with h1 | h1
    · have := close1 s' (v := 3 * t) (by linarith) h1 hM
      rw [show 3 * t / 3 = t by ring] at this
      exact ⟨_, (joined4 _ _).2 ⟨3 * t, by linarith, h1, .inl rfl⟩, this⟩
    · rcases le_total (3 * t) 2 with h2 | h2
      · have := close2 s' (v := 3 * t - 1) (by linarith) (by linarith) hM
        rw [show (1 + (3 * t - 1)) / 3 = t by ring] at this
        exact ⟨_, (joined4 _ _).2 ⟨3 * t - 1, by linarith, by linarith, .inr (.inl rfl)⟩, this⟩
      · have := close3 s' (v := 3 * t - 2) (by linarith) (by linarith) hM
        rw [show (2 + (3 * t - 2)) / 3 = t by ring] at this
        exact ⟨_, (joined4 _ _).2 ⟨3 * t - 2, by linarith, by linarith, .inr (.inr rfl)⟩, this⟩
  · intro q hq
    obtain ⟨v, v0, v1, rfl | rfl | rfl⟩ := (joined4 _ _).1 hq
    · refine ⟨_, ⟨s, List.mem_singleton.2 rfl, v / 3, by linarith, by linarith, rfl⟩, ?_⟩
      rw [distPt_comm']; exact close1 s v0 v1 hM
    · refine ⟨_, ⟨s, List.mem_singleton.2 rfl, (1 + v) / 3, by linarith, by linarith, rfl⟩, ?_⟩
      rw [distPt_comm']; exact close2 s v0 v1 hM
    · refine ⟨_, ⟨s, List.mem_singleton.2 rfl, (2 + v) / 3, by linarith, by linarith, rfl⟩, ?_⟩
      rw [distPt_comm']; exact close3 s v0 v1 hM

theorem near (p q : Pt ℝ) {e : ℝ} (h : distPt p q ≤ e) : |p.x - q.x| ≤ e ∧ |p.y - q.y| ≤ e := by
  have h0 := (Real.sqrt_le_iff.1 h)
  constructor
  · exact abs_le_of_sq_le_sq (by nlinarith [sq_nonneg (p.y - q.y)]) h0.1
  · exact abs_le_of_sq_le_sq (by nlinarith [sq_nonneg (p.x - q.x)]) h0.1

/-- The control points of a segment and of its parts up to and from `t`. -/
theorem parts_eq {S L R : Poly4 ℝ} (h : ∀ u, L.at' u = S.at' (u / 2) ∧ R.at' u = S.at' ((1 + u) / 2)) :
    L = ⟨S.a, ⟨(S.a.x + S.b.x) / 2, (S.a.y + S.b.y) / 2⟩,
      ⟨(S.a.x + 2 * S.b.x + S.c.x) / 4, (S.a.y + 2 * S.b.y + S.c.y) / 4⟩,
      ⟨(S.a.x + 3 * S.b.x + 3 * S.c.x + S.d.x) / 8, (S.a.y + 3 * S.b.y + 3 * S.c.y + S.d.y) / 8⟩⟩ ∧
    R = ⟨⟨(S.a.x + 3 * S.b.x + 3 * S.c.x + S.d.x) / 8, (S.a.y + 3 * S.b.y + 3 * S.c.y + S.d.y) / 8⟩,
      ⟨(S.b.x + 2 * S.c.x + S.d.x) / 4, (S.b.y + 2 * S.c.y + S.d.y) / 4⟩,
      ⟨(S.c.x + S.d.x) / 2, (S.c.y + S.d.y) / 2⟩, S.d⟩ := by
  obtain ⟨⟨ax, ay⟩, ⟨bx, by'⟩, ⟨cx, cy⟩, ⟨dx, dy⟩⟩ := S
  obtain ⟨⟨lax, lay⟩, ⟨lbx, lby⟩, ⟨lcx, lcy⟩, ⟨ldx, ldy⟩⟩ := L
  obtain ⟨⟨rax, ray⟩, ⟨rbx, rby⟩, ⟨rcx, rcy⟩, ⟨rdx, rdy⟩⟩ := R
  have h0 := h 0
  have h1 := h 1
  have h2 := h 2
  have h3 := h (-1)
  simp only [Poly4.at', bern, Pt.mk.injEq] at h0 h1 h2 h3
  obtain ⟨⟨a1, a2⟩, a3, a4⟩ := h0
  obtain ⟨⟨b1, b2⟩, b3, b4⟩ := h1
  obtain ⟨⟨c1, c2⟩, c3, c4⟩ := h2
  obtain ⟨⟨d1, d2⟩, d3, d4⟩ := h3
  norm_num at a1 a2 a3 a4 b1 b2 b3 b4 c1 c2 c3 c4 d1 d2 d3 d4
  simp only [Poly4.mk.injEq, Pt.mk.injEq]
  refine ⟨⟨⟨?_, ?_⟩, ⟨?_, ?_⟩, ⟨?_, ?_⟩, ?_, ?_⟩, ⟨?_, ?_⟩, ⟨?_, ?_⟩, ⟨?_, ?_⟩, ?_, ?_⟩ <;> linarith

theorem bend_le {s : Poly4 ℝ} {S : Poly4 ℝ} {M k u v u' v' : ℝ} (hM : bend S ≤ M) (u0 : 0 ≤ u) (v0 : 0 ≤ v) (h : u + v ≤ k)
    (u0' : 0 ≤ u') (v0' : 0 ≤ v') (h' : u' + v' ≤ k)
    (e1 : s.a.x - 2 * s.b.x + s.c.x = u * (S.a.x - 2 * S.b.x + S.c.x) + v * (S.b.x - 2 * S.c.x + S.d.x))
    (e2 : s.a.y - 2 * s.b.y + s.c.y = u * (S.a.y - 2 * S.b.y + S.c.y) + v * (S.b.y - 2 * S.c.y + S.d.y))
    (e3 : s.b.x - 2 * s.c.x + s.d.x = u' * (S.a.x - 2 * S.b.x + S.c.x) + v' * (S.b.x - 2 * S.c.x + S.d.x))
    (e4 : s.b.y - 2 * s.c.y + s.d.y = u' * (S.a.y - 2 * S.b.y + S.c.y) + v' * (S.b.y - 2 * S.c.y + S.d.y)) :
    bend s ≤ k * M := by
  obtain ⟨b1, b2⟩ := bend_sq S hM
  have k0 := mul_nonneg ((add_nonneg u0 v0).trans h) ((bend_nonneg S).trans hM)
  rw [bend, e1, e2, e3, e4]
  exact max_le (Real.sqrt_le_iff.2 ⟨k0, combo_le u0 v0 h b1 b2⟩) (Real.sqrt_le_iff.2 ⟨k0, combo_le u0' v0' h' b1 b2⟩)

theorem bend_halves {S L R : Poly4 ℝ} (h : ∀ u, L.at' u = S.at' (u / 2) ∧ R.at' u = S.at' ((1 + u) / 2)) :
    bend L ≤ 1 / 4 * bend S ∧ bend R ≤ 1 / 4 * bend S := by
  obtain ⟨rfl, rfl⟩ := parts_eq h
  constructor
  · exact bend_le (u := 1 / 4) (v := 0) (u' := 1 / 8) (v' := 1 / 8) le_rfl (by norm_num) (by norm_num) (by norm_num) (by norm_num)
      (by norm_num) (by norm_num) (by simp only; ring) (by simp only; ring) (by simp only; ring) (by simp only; ring)
  · exact bend_le (u := 1 / 8) (v := 1 / 8) (u' := 0) (v' := 1 / 4) le_rfl (by norm_num) (by norm_num) (by norm_num) (by norm_num)
      (by norm_num) (by norm_num) (by simp only; ring) (by simp only; ring) (by simp only; ring) (by simp only; ring)

/-- Every control point of a closed curve is where a segment starts and where one ends. -/
theorem mem_closed {cps : List (CP ℝ)} {cp : CP ℝ} (h : cp ∈ cps) :
    (∃ s ∈ segs true cps, s.a = cp.c ∧ s.b = cp.r) ∧ ∃ s ∈ segs true cps, s.d = cp.c ∧ s.c = cp.l := by
  obtain ⟨i, hi, rfl⟩ := List.mem_iff_getElem.1 h
  have hl : (cps.rotate 1).length = cps.length := List.length_rotate ..
  constructor
  · refine ⟨seg cps[i] ((cps.rotate 1)[i]'(by omega)), ?_, rfl, rfl⟩
    rw [segs, if_pos rfl, closedSegs, List.mem_iff_getElem]
    exact ⟨i, by simp [hi], by simp⟩
  · have hr : cps[i] ∈ cps.rotate 1 := by simp
    obtain ⟨j, hj, e⟩ := List.mem_iff_getElem.1 hr
    refine ⟨seg (cps[j]'(by omega)) cps[i], ?_, rfl, rfl⟩
    rw [segs, if_pos rfl, closedSegs, List.mem_iff_getElem]
    exact ⟨j, by simp; omega, by rw [List.getElem_zipWith, e]⟩

/-- Every control point of an open curve of two points or more is where a segment starts or ends; only the first has an idle left handle
and only the last an idle right handle. -/
theorem mem_open {cps : List (CP ℝ)} (hn : 2 ≤ cps.length) {cp : CP ℝ} (h : cp ∈ cps) :
    (∃ s ∈ segs false cps, s.a = cp.c ∨ s.d = cp.c) ∧ (cps.head? = some cp ∨ ∃ s ∈ segs false cps, s.c = cp.l) ∧
      (cps.getLast? = some cp ∨ ∃ s ∈ segs false cps, s.b = cp.r) := by
  have mem : ∀ (i : ℕ) (hi : i + 1 < cps.length), seg cps[i] cps[i + 1] ∈ segs false cps := by
    intro i hi
    rw [segs, if_neg (by simp), openSegs, List.mem_iff_getElem]
    exact ⟨i, by simp; omega, by simp⟩
  obtain ⟨i, hi, rfl⟩ := List.mem_iff_getElem.1 h
  refine ⟨?_, ?_, ?_⟩
  · rcases Nat.lt_or_ge (i + 1) cps.length with hlt | hge
    · exact ⟨_, mem i hlt, .inl rfl⟩
    · obtain ⟨k, rfl⟩ : ∃ k, i = k + 1 := ⟨i - 1, by omega⟩
      exact ⟨_, mem k hi, .inr rfl⟩
  · rcases i with _ | k
    · left; rw [List.head?_eq_getElem?, List.getElem?_eq_getElem hi]
    · right; exact ⟨_, mem k hi, rfl⟩
  · rcases Nat.lt_or_ge (i + 1) cps.length with hlt | hge
    · right; exact ⟨_, mem i hlt, rfl⟩
    · left
      rw [List.getLast?_eq_getElem?, ← List.getElem?_eq_getElem hi]
      congr 1; omega

theorem mem_rotate_cons {α : Type*} {l rest : List α} {x : α} {i : ℕ} (h : l.rotate i = x :: rest) (y : α) :
    y ∈ l ↔ y = x ∨ y ∈ rest := by
  rw [← List.mem_rotate (n := i), h, List.mem_cons]

end X7.Refine
