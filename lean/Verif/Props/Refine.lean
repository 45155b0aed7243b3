import Verif.Lemmas.Refine
import Verif.Props.BezierReal
import Verif.Props.Sharp

/-!
C125: how far the control points of a curve, and the box drawn from them, are from the curve; what splitting does to that distance.
-/

namespace X7.Refine
open X7.Approx X7.Utils

/-- C125: the handles of a segment end near the curve: at most a third of its bend away from the points one third and two thirds along. -/
theorem C125_handles (s : Poly4 ℝ) : distPt s.b (s.at' (1 / 3)) ≤ bend s / 3 ∧ distPt s.c (s.at' (2 / 3)) ≤ bend s / 3 := by
  have h1 := close1 s (v := 1) zero_le_one le_rfl le_rfl
  have h2 := close3 s (v := 0) le_rfl zero_le_one le_rfl
  rw [distPt_comm'] at h1 h2
  constructor
  · convert h1 using 2; ext <;> simp [between]
  · convert h2 using 2
    · ext <;> simp [between]
    · norm_num

/-- C125: the lines through the control points and handles are close to the curve, seen from both: at most a third of the largest bend. -/
theorem C125_polygon (closed : Bool) (cps : List (CP ℝ)) (M : ℝ) (hM : ∀ s ∈ segs closed cps, bend s ≤ M) :
    Close (M / 3) (curveSet closed cps) (polygonSet closed cps) := by
  constructor
  · rintro q ⟨s, hs, t, t0, t1, rfl⟩
    obtain ⟨q', hq', h⟩ := (polygon_close s (hM s hs)).1 (s.at' t) ⟨s, List.mem_singleton.2 rfl, t, t0, t1, rfl⟩
    exact ⟨q', ⟨s, hs, hq'⟩, h⟩
  · rintro q ⟨s, hs, hq⟩
    obtain ⟨q', ⟨s', hs', t, t0, t1, rfl⟩, h⟩ := (polygon_close s (hM s hs)).2 q hq
    obtain rfl := List.mem_singleton.1 hs'
    exact ⟨_, ⟨s', hs, t, t0, t1, rfl⟩, h⟩

theorem around_eq {e : ℝ} (e0 : 0 ≤ e) {xl yl xh yh : ℝ} (h : ∃ q, q ∈ (BBox.box xl yl xh yh).Region) :
    around e (.box xl yl xh yh) = (BBox.box (xl - e) (yl - e) (xh + e) (yh + e)).Region := by
  obtain ⟨q1, ⟨h1, h2⟩, h3, h4⟩ := h
  have hx := h1.trans h2
  have hy := h3.trans h4
  ext q
  constructor
  · rintro ⟨q0, ⟨⟨a, b⟩, c, d⟩, k1, k2⟩
    rw [abs_le] at k1 k2
    exact ⟨⟨by linarith, by linarith⟩, by linarith, by linarith⟩
  · rintro ⟨⟨a, b⟩, c, d⟩
    have aux : ∀ l m x : ℝ, l ≤ m → l - e ≤ x → x ≤ m + e → l ≤ max l (min x m) ∧ max l (min x m) ≤ m ∧ |x - max l (min x m)| ≤ e := by
      intro l m x hl g1 g2
      refine ⟨le_max_left _ _, max_le hl (min_le_right _ _), ?_⟩
      rw [abs_le]
      rcases le_total x m with hm | hm
      · rw [min_eq_left hm]
        rcases le_total l x with hx | hx
        · rw [max_eq_right hx]; constructor <;> linarith
        · rw [max_eq_left hx]; constructor <;> linarith
      · rw [min_eq_right hm, max_eq_right hl]; constructor <;> linarith
    obtain ⟨a1, a2, a3⟩ := aux xl xh q.x hx a b
    obtain ⟨b1, b2, b3⟩ := aux yl yh q.y hy c d
    exact ⟨⟨_, _⟩, ⟨⟨a1, a2⟩, b1, b2⟩, a3, b3⟩

theorem box_around {closed : Bool} {cps : List (CP ℝ)} {M : ℝ} {bb b : BBox ℝ} (hb : bboxCps cps = .ok bb)
    (hin : curveSet closed cps ⊆ b.Region) (hM : ∀ s ∈ segs closed cps, bend s ≤ M) (hne : ∃ s, s ∈ segs closed cps)
    (hc : ∀ cp ∈ cps, (∃ s ∈ segs closed cps, s.a = cp.c ∨ s.d = cp.c) ∧ (cp.l = cp.c ∨ ∃ s ∈ segs closed cps, s.c = cp.l) ∧
      (cp.r = cp.c ∨ ∃ s ∈ segs closed cps, s.b = cp.r)) : bb.Region ⊆ around (M / 3) b := by
  obtain ⟨s0, hs0⟩ := hne
  have M0 : 0 ≤ M / 3 := by linarith [(bend_nonneg s0).trans (hM s0 hs0)]
  have on : ∀ s ∈ segs closed cps, ∀ t, 0 ≤ t → t ≤ 1 → s.at' t ∈ b.Region := fun s hs t t0 t1 => hin ⟨s, hs, t, t0, t1, rfl⟩
  cases b with
  | none => exact absurd (on s0 hs0 0 le_rfl zero_le_one) id
  | box xl yl xh yh =>
    rw [around_eq M0 ⟨_, on s0 hs0 0 le_rfl zero_le_one⟩, C32_bbox_least cps bb hb, ← around_eq M0 ⟨_, on s0 hs0 0 le_rfl zero_le_one⟩]
    have ce : ∀ cp ∈ cps, cp.c ∈ around (M / 3) (.box xl yl xh yh) := by
      intro cp hcp
      refine ⟨cp.c, ?_, by simpa using M0, by simpa using M0⟩
      obtain ⟨s, hs, e | e⟩ := (hc cp hcp).1
      · have := on s hs 0 le_rfl zero_le_one
        rwa [show s.at' 0 = cp.c by rw [← e]; ext <;> simp [Poly4.at', bern]] at this
      · have := on s hs 1 zero_le_one le_rfl
        rwa [show s.at' 1 = cp.c by rw [← e]; ext <;> simp [Poly4.at', bern]] at this
    intro cp hcp
    refine ⟨ce cp hcp, ?_, ?_⟩
    · rcases (hc cp hcp).2.1 with e | ⟨s, hs, e⟩
      · rw [e]; exact ce cp hcp
      · obtain ⟨k1, k2⟩ := near _ _ (C125_handles s).2
        rw [← e]
        exact ⟨_, on s hs (2 / 3) (by norm_num) (by norm_num), by linarith [hM s hs], by linarith [hM s hs]⟩
    · rcases (hc cp hcp).2.2 with e | ⟨s, hs, e⟩
      · rw [e]; exact ce cp hcp
      · obtain ⟨k1, k2⟩ := near _ _ (C125_handles s).1
        rw [← e]
        exact ⟨_, on s hs (1 / 3) (by norm_num) (by norm_num), by linarith [hM s hs], by linarith [hM s hs]⟩

/-- C125: the box of a closed curve is larger than any box that holds the curve by at most a third of the largest bend on each side. -/
theorem C125_box (cps : List (CP ℝ)) (M : ℝ) (hM : ∀ s ∈ segs true cps, bend s ≤ M) (bb b : BBox ℝ) (hb : bboxCps cps = .ok bb)
    (hin : curveSet true cps ⊆ b.Region) : bb.Region ⊆ around (M / 3) b := by
  have hne : cps ≠ [] := by rintro rfl; simp [bboxCps] at hb
  obtain ⟨p, hp⟩ := List.exists_mem_of_ne_nil cps hne
  obtain ⟨s, hs, -⟩ := (mem_closed hp).1
  refine box_around hb hin hM ⟨s, hs⟩ ?_
  intro cp hcp
  obtain ⟨⟨s1, h1, e1, e2⟩, s2, h2, e3, e4⟩ := mem_closed hcp
  exact ⟨⟨s1, h1, .inl e1⟩, .inr ⟨s2, h2, e4⟩, .inr ⟨s1, h1, e2⟩⟩

/-- C125: the same for an open curve of two points or more whose unused handles, before the first and after the last point, are zero. -/
theorem C125_box_open (cps : List (CP ℝ)) (hn : 2 ≤ cps.length) (hh : ∀ p, cps.head? = some p → p.dl = ⟨0, 0⟩)
    (hl : ∀ p, cps.getLast? = some p → p.dr = ⟨0, 0⟩) (M : ℝ) (hM : ∀ s ∈ segs false cps, bend s ≤ M) (bb b : BBox ℝ)
    (hb : bboxCps cps = .ok bb) (hin : curveSet false cps ⊆ b.Region) : bb.Region ⊆ around (M / 3) b := by
  have hne : cps ≠ [] := by rintro rfl; simp [bboxCps] at hb
  obtain ⟨p, hp⟩ := List.exists_mem_of_ne_nil cps hne
  obtain ⟨s, hs, -⟩ := (mem_open hn hp).1
  refine box_around hb hin hM ⟨s, hs⟩ ?_
  intro cp hcp
  obtain ⟨h1, h2, h3⟩ := mem_open hn hcp
  refine ⟨h1, ?_, ?_⟩
  · rcases h2 with h | h
    · left; simp [CP.l, hh _ h, Pt.addVector]
    · exact .inr h
  · rcases h3 with h | h
    · left; simp [CP.r, hl _ h, Pt.addVector]
    · exact .inr h

/-- C125: a third cannot be improved: for every bend there is a closed curve of that bend whose box is larger than the smallest one by a third
of it. -/
theorem C125_box_sharp (h : ℝ) (hh : 0 ≤ h) : ∃ (cps : List (CP ℝ)) (bb b : BBox ℝ), (∀ s ∈ segs true cps, bend s ≤ h) ∧
    bboxCps cps = .ok bb ∧ curveSet true cps ⊆ b.Region ∧ ∃ q ∈ bb.Region, ∀ q0 ∈ b.Region, h / 3 ≤ q.y - q0.y := by
  let p : CP ℝ := ⟨⟨0, 0⟩, ⟨0, -h / 3⟩, ⟨0, 2 * h / 3⟩, "smooth"⟩
  let q : CP ℝ := ⟨⟨0, -h⟩, ⟨0, 4 * h / 3⟩, ⟨0, h / 3⟩, "smooth"⟩
  have hseg : segs true [p, q] = [⟨⟨0, 0⟩, ⟨0, 2 * h / 3⟩, ⟨0, h / 3⟩, ⟨0, -h⟩⟩, ⟨⟨0, -h⟩, ⟨0, -h + h / 3⟩, ⟨0, -h / 3⟩, ⟨0, 0⟩⟩] := by
    simp [segs, closedSegs, p, q, seg]
    ring
  obtain ⟨bb, hbb, -⟩ := (C32_bbox_total [p, q]).1 (by simp)
  have hsub := (C32_bbox_least [p, q] bb hbb bb).1 (fun _ h => h)
  refine ⟨[p, q], bb, .box 0 (-h) 0 (h / 3), ?_, hbb, ?_, p.r, (hsub p (by simp)).2.2, ?_⟩
  · intro s hs
    rw [hseg] at hs
    simp only [List.mem_cons, List.not_mem_nil, or_false] at hs
    rcases hs with rfl | rfl <;> rw [bend] <;> refine max_le (Real.sqrt_le_iff.2 ⟨hh, ?_⟩) (Real.sqrt_le_iff.2 ⟨hh, ?_⟩) <;> simp only <;>
      nlinarith [sq_nonneg h]
  · rintro r ⟨s, hs, t, t0, t1, rfl⟩
    rw [hseg] at hs
    simp only [List.mem_cons, List.not_mem_nil, or_false] at hs
    have a1 : 0 ≤ h * t := mul_nonneg hh t0
    have a2 : 0 ≤ h * (1 - t) := mul_nonneg hh (by linarith)
    rcases hs with rfl | rfl
    · refine ⟨⟨by simp [Poly4.at', bern], by simp [Poly4.at', bern]⟩, ?_, ?_⟩ <;> simp only [Poly4.at', bern]
      · nlinarith [mul_nonneg a1 t0, mul_nonneg a2 t0, mul_nonneg (mul_nonneg a2 t0) t0]
      · nlinarith [mul_nonneg hh (sq_nonneg (3 * t - 1))]
    · refine ⟨⟨by simp [Poly4.at', bern], by simp [Poly4.at', bern]⟩, ?_, ?_⟩ <;> simp only [Poly4.at', bern]
      · nlinarith [mul_nonneg a1 t0, mul_nonneg a2 t0, mul_nonneg (mul_nonneg a2 t0) t0]
      · nlinarith [mul_nonneg a1 t0, mul_nonneg a2 t0, mul_nonneg (mul_nonneg a2 t0) t0]
  · rintro q0 ⟨-, -, h4⟩
    simp only [p, CP.r, Pt.addVector]
    linarith

/-- C125 (finding): the box of an open curve also holds the handles that no segment uses, so that it can be larger than the curve by any amount:
here a straight line from (0, 0) to (1, 0). -/
theorem C125_box_open_counterexample (d : ℝ) : ∃ (p q : CP ℝ) (bb : BBox ℝ), bboxCps [p, q] = .ok bb ∧
    (∀ s ∈ segs false [p, q], bend s = 0) ∧ curveSet false [p, q] ⊆ (BBox.box 0 0 1 0).Region ∧
    ∃ r ∈ bb.Region, r.y = d := by
  let p : CP ℝ := ⟨⟨0, 0⟩, ⟨0, d⟩, ⟨1 / 3, 0⟩, "smooth"⟩
  let q : CP ℝ := ⟨⟨1, 0⟩, ⟨-1 / 3, 0⟩, ⟨0, 0⟩, "smooth"⟩
  obtain ⟨bb, hbb, -⟩ := (C32_bbox_total [p, q]).1 (by simp)
  have hsub := (C32_bbox_least [p, q] bb hbb bb).1 (fun _ h => h)
  have hseg : segs false [p, q] = [⟨⟨0, 0⟩, ⟨1 / 3, 0⟩, ⟨2 / 3, 0⟩, ⟨1, 0⟩⟩] := by
    simp [segs, openSegs, p, q, seg]; norm_num
  refine ⟨p, q, bb, hbb, ?_, ?_, p.l, (hsub p (by simp)).2.1, by simp [p, CP.l, Pt.addVector]⟩
  · intro s hs
    rw [hseg] at hs
    obtain rfl := List.mem_singleton.1 hs
    norm_num [bend]
  · rintro r ⟨s, hs, t, t0, t1, rfl⟩
    rw [hseg] at hs
    obtain rfl := List.mem_singleton.1 hs
    have e : (Poly4.at' (⟨⟨0, 0⟩, ⟨1 / 3, 0⟩, ⟨2 / 3, 0⟩, ⟨1, 0⟩⟩ : Poly4 ℝ) t) = ⟨t, 0⟩ := by
      ext <;> simp only [Poly4.at', bern] <;> ring
    rw [e]
    exact ⟨⟨t0, t1⟩, le_rfl, le_rfl⟩

/-! ### Splitting -/

/-- C125: splitting a segment at `t` makes it flatter: the parts have at most `t²` and `(1 - t)²` of the bend. -/
theorem C125_split (p q : CP ℝ) (t : ℝ) (t0 : 0 ≤ t) (t1 : t ≤ 1) :
    let (l, m, r) := bezSplit p q t
    bend (seg l m) ≤ t ^ 2 * bend (seg p q) ∧ bend (seg m r) ≤ (1 - t) ^ 2 * bend (seg p q) := by
  have s0 : 0 ≤ 1 - t := by linarith
  constructor
  · apply bend_le (u := t ^ 2) (v := 0) (u' := t ^ 2 * (1 - t)) (v' := t ^ 2 * t) le_rfl (by positivity) le_rfl (by simp) (by positivity)
      (by positivity) (by linarith) <;>
    · simp only [seg, lerp, Pt.addVector, Pt.sub, Vec.mul, CP.l, CP.r]; ring
  · apply bend_le (u := (1 - t) ^ 2 * (1 - t)) (v := (1 - t) ^ 2 * t) (u' := 0) (v' := (1 - t) ^ 2) le_rfl (by positivity) (by positivity)
      (by linarith) le_rfl (by positivity) (by simp) <;>
    · simp only [seg, lerp, Pt.addVector, Pt.sub, Vec.mul, CP.l, CP.r]; ring

/-- C125: after `n` calls of `bez_split` a piece is part of the curve, has at most one part in `4ⁿ` of its bend, and its control polygon is that
much closer. -/
theorem C125_pieces (p q : CP ℝ) (n : ℕ) (p' q' : CP ℝ) (h : Piece p q n p' q') :
    bend (seg p' q') ≤ bend (seg p q) / 4 ^ n ∧ traced [seg p' q'] ⊆ traced [seg p q] ∧
      Close (bend (seg p q) / 4 ^ n / 3) (traced [seg p' q']) (polygonSet false [p', q']) := by
  have main : bend (seg p' q') ≤ bend (seg p q) / 4 ^ n ∧ traced [seg p' q'] ⊆ traced [seg p q] := by
    induction h with
    | whole => simp
    | @first n a b h ih =>
      obtain ⟨i1, i2⟩ := ih
      have k := (C125_split a b (1 / 2) (by norm_num) (by norm_num)).1
      constructor
      · refine k.trans ?_
        have e : bend (seg p q) / 4 ^ (n + 1) = bend (seg p q) / 4 ^ n / 4 := by rw [pow_succ, div_div]
        rw [e]
        linarith
      · refine Set.Subset.trans ?_ i2
        rintro r ⟨s, hs, t, t0, t1, rfl⟩
        obtain rfl := List.mem_singleton.1 hs
        exact ⟨_, List.mem_singleton.2 rfl, 1 / 2 * t, by linarith, by linarith, (C29_split_traces a b (1 / 2) t).1⟩
    | @second n a b h ih =>
      obtain ⟨i1, i2⟩ := ih
      have k := (C125_split a b (1 / 2) (by norm_num) (by norm_num)).2
      constructor
      · refine k.trans ?_
        have e : bend (seg p q) / 4 ^ (n + 1) = bend (seg p q) / 4 ^ n / 4 := by rw [pow_succ, div_div]
        rw [e]
        linarith
      · refine Set.Subset.trans ?_ i2
        rintro r ⟨s, hs, t, t0, t1, rfl⟩
        obtain rfl := List.mem_singleton.1 hs
        exact ⟨_, List.mem_singleton.2 rfl, 1 / 2 + (1 - 1 / 2) * t, by linarith, by linarith, (C29_split_traces a b (1 / 2) t).2⟩
  refine ⟨main.1, main.2, ?_⟩
  have := C125_polygon false [p', q'] _ (fun s hs => by
    have e : segs false [p', q'] = [seg p' q'] := rfl
    rw [e] at hs
    obtain rfl := List.mem_singleton.1 hs
    exact main.1)
  exact this

/-- C125: the pieces after `n` calls cover the curve. -/
theorem C125_pieces_cover (p q : CP ℝ) (n : ℕ) (t : ℝ) (t0 : 0 ≤ t) (t1 : t ≤ 1) :
    ∃ p' q', Piece p q n p' q' ∧ (seg p q).at' t ∈ traced [seg p' q'] := by
  induction n with
  | zero => exact ⟨p, q, .whole, _, List.mem_singleton.2 rfl, t, t0, t1, rfl⟩
  | succ n ih =>
    obtain ⟨a, b, h, s, hs, u, u0, u1, e⟩ := ih
    obtain rfl := List.mem_singleton.1 hs
    rw [e]
    rcases le_total u (1 / 2) with hu | hu
    · refine ⟨_, _, h.first, _, List.mem_singleton.2 rfl, 2 * u, by linarith, by linarith, ?_⟩
      have := (C29_split_traces a b (1 / 2) (2 * u)).1
      rw [show 1 / 2 * (2 * u) = u by ring] at this
      exact this.symm
    · refine ⟨_, _, h.second, _, List.mem_singleton.2 rfl, 2 * u - 1, by linarith, by linarith, ?_⟩
      have := (C29_split_traces a b (1 / 2) (2 * u - 1)).2
      rw [show 1 / 2 + (1 - 1 / 2) * (2 * u - 1) = u by ring] at this
      exact this.symm

theorem add_one_step (cps : List (CP ℝ)) (hn : 2 ≤ cps.length) : ∃ new, addOne cps = .ok new ∧ new.length = cps.length + 1 ∧
    curveSet true new = curveSet true cps ∧ (∀ M, (∀ s ∈ segs true cps, bend s ≤ M) → ∀ s ∈ segs true new, bend s ≤ M) ∧
    (∀ bb bb', bboxCps cps = .ok bb → bboxCps new = .ok bb' → bb'.Region ⊆ bb.Region) ∧
    (∀ T ∈ segs true cps, T.a = T.d → (∃ U ∈ segs true cps, U.a ≠ U.d) → T ∈ segs true new ∧ ∃ U ∈ segs true new, U.a ≠ U.d) := by
  obtain ⟨new, S, L, R, rest, i, j, hok, hlen, e1, e2, hh, hmax⟩ := C36_add_one_closed cps hn
  have m1 : ∀ s, s ∈ segs true cps ↔ s = S ∨ s ∈ rest := fun s => mem_rotate_cons e1 s
  have m2 : ∀ s, s ∈ segs true new ↔ s = L ∨ s = R ∨ s ∈ rest := fun s => by
    rw [mem_rotate_cons e2 s, List.mem_cons]
  refine ⟨new, hok, hlen, ?_, ?_, ?_, ?_⟩
  · ext r
    constructor
    · rintro ⟨s, hs, t, t0, t1, rfl⟩
      rcases (m2 s).1 hs with rfl | rfl | hs
      · exact ⟨S, (m1 S).2 (.inl rfl), t / 2, by linarith, by linarith, (hh t).1⟩
      · exact ⟨S, (m1 S).2 (.inl rfl), (1 + t) / 2, by linarith, by linarith, (hh t).2⟩
      · exact ⟨s, (m1 s).2 (.inr hs), t, t0, t1, rfl⟩
    · rintro ⟨s, hs, t, t0, t1, rfl⟩
      rcases (m1 s).1 hs with rfl | hs
      · rcases le_total t (1 / 2) with ht | ht
        · exact ⟨L, (m2 L).2 (.inl rfl), 2 * t, by linarith, by linarith, by rw [(hh _).1]; congr 1; ring⟩
        · exact ⟨R, (m2 R).2 (.inr (.inl rfl)), 2 * t - 1, by linarith, by linarith, by rw [(hh _).2]; congr 1; ring⟩
      · exact ⟨s, (m2 s).2 (.inr (.inr hs)), t, t0, t1, rfl⟩
  · intro M hM s hs
    have hS := hM S ((m1 S).2 (.inl rfl))
    have h0 := bend_nonneg S
    rcases (m2 s).1 hs with rfl | rfl | hs
    · linarith [(bend_halves hh).1]
    · linarith [(bend_halves hh).2]
    · exact hM s ((m1 s).2 (.inr hs))
  · intro bb bb' hb hb'
    have hsub := (C32_bbox_least cps bb hb bb).1 (fun _ h => h)
    have hin : ∀ s ∈ segs true cps, s.a ∈ bb.Region ∧ s.b ∈ bb.Region ∧ s.c ∈ bb.Region ∧ s.d ∈ bb.Region := by
      intro s hs
      obtain ⟨p, hp, q, hq, rfl⟩ := mem_segs true cps s hs
      exact ⟨(hsub p hp).1, (hsub p hp).2.2, (hsub q hq).2.1, (hsub q hq).1⟩
    have hin' : ∀ s ∈ segs true new, s.a ∈ bb.Region ∧ s.b ∈ bb.Region ∧ s.c ∈ bb.Region ∧ s.d ∈ bb.Region := by
      obtain ⟨eL, eR⟩ := parts_eq hh
      obtain ⟨h1, h2, h3, h4⟩ := hin S ((m1 S).2 (.inl rfl))
      intro s hs
      cases bb with
      | none => exact h1.elim
      | box xl yl xh yh =>
        obtain ⟨⟨a1, a2⟩, a3, a4⟩ := h1
        obtain ⟨⟨b1, b2⟩, b3, b4⟩ := h2
        obtain ⟨⟨c1, c2⟩, c3, c4⟩ := h3
        obtain ⟨⟨d1, d2⟩, d3, d4⟩ := h4
        rcases (m2 s).1 hs with rfl | rfl | hs
        · rw [eL]
          refine ⟨⟨⟨?_, ?_⟩, ?_, ?_⟩, ⟨⟨?_, ?_⟩, ?_, ?_⟩, ⟨⟨?_, ?_⟩, ?_, ?_⟩, ⟨?_, ?_⟩, ?_, ?_⟩ <;> simp only <;> linarith
        · rw [eR]
          refine ⟨⟨⟨?_, ?_⟩, ?_, ?_⟩, ⟨⟨?_, ?_⟩, ?_, ?_⟩, ⟨⟨?_, ?_⟩, ?_, ?_⟩, ⟨?_, ?_⟩, ?_, ?_⟩ <;> simp only <;> linarith
        · exact hin s ((m1 s).2 (.inr hs))
    rw [C32_bbox_least new bb' hb']
    intro cp hcp
    obtain ⟨⟨s, hs, k1, k2⟩, s', hs', k3, k4⟩ := mem_closed hcp
    exact ⟨k1 ▸ (hin' s hs).1, k4 ▸ (hin' s' hs').2.2.1, k2 ▸ (hin' s hs).2.1⟩
  · intro T hT hT0 ⟨U, hU, hU0⟩
    have hS : S.a ≠ S.d := by
      intro e
      have := hmax U hU
      rw [e, sub_self, sub_self, show hypot (0 : ℝ) 0 = 0 from hypot_eq_zero.2 ⟨rfl, rfl⟩] at this
      have h0 : hypot (U.a.x - U.d.x) (U.a.y - U.d.y) = 0 := le_antisymm this (hypot_nonneg _ _)
      obtain ⟨k1, k2⟩ := hypot_eq_zero.1 h0
      exact hU0 (by ext <;> linarith)
    have hTr : T ∈ rest := by
      rcases (m1 T).1 hT with rfl | h
      · exact absurd hT0 hS
      · exact h
    refine ⟨(m2 T).2 (.inr (.inr hTr)), ?_⟩
    obtain ⟨eL, eR⟩ := parts_eq hh
    by_cases hL : L.a = L.d
    · refine ⟨R, (m2 R).2 (.inr (.inl rfl)), fun hR => hS ?_⟩
      rw [eL] at hL
      rw [eR] at hR
      simp only at hL hR
      rw [hL, hR]
    · exact ⟨L, (m2 L).2 (.inl rfl), hL⟩

/-- C125: calling `add_one()` of a closed curve of two points or more any number of times leaves the curve where it is, never makes a segment
bend more and never makes the box larger. -/
theorem C125_add_one (cps : List (CP ℝ)) (hn : 2 ≤ cps.length) (n : ℕ) : ∃ new, addMany n cps = .ok new ∧ new.length = cps.length + n ∧
    curveSet true new = curveSet true cps ∧ (∀ M, (∀ s ∈ segs true cps, bend s ≤ M) → ∀ s ∈ segs true new, bend s ≤ M) ∧
    ∀ bb, bboxCps cps = .ok bb → ∃ bb', bboxCps new = .ok bb' ∧ bb'.Region ⊆ bb.Region := by
  induction n generalizing cps with
  | zero => exact ⟨cps, rfl, rfl, rfl, fun _ h => h, fun bb h => ⟨bb, h, fun _ h => h⟩⟩
  | succ n ih =>
    obtain ⟨mid, h1, h2, h3, h4, h5, -⟩ := add_one_step cps hn
    obtain ⟨new, g1, g2, g3, g4, g5⟩ := ih mid (by omega)
    refine ⟨new, ?_, by omega, g3.trans h3, fun M hM => g4 M (h4 M hM), ?_⟩
    · rw [addMany, h1]; exact g1
    · intro bb hb
      obtain ⟨bm, hbm, -⟩ := (C32_bbox_total mid).1 (by rintro rfl; simp at h2)
      obtain ⟨bb', k1, k2⟩ := g5 bm hbm
      exact ⟨bb', k1, k2.trans (h5 bb bm hb hbm)⟩

/-- C125 (finding): however often `add_one()` is called, it never splits a segment which returns to where it started, as long as one other segment
does not: the segment to split is chosen by the distance of its ends. -/
theorem C125_loop_never_split (cps : List (CP ℝ)) (hn : 2 ≤ cps.length) (T U : Poly4 ℝ) (hT : T ∈ segs true cps) (hT0 : T.a = T.d)
    (hU : U ∈ segs true cps) (hU0 : U.a ≠ U.d) (n : ℕ) : ∃ new, addMany n cps = .ok new ∧ T ∈ segs true new := by
  induction n generalizing cps U with
  | zero => exact ⟨cps, rfl, hT⟩
  | succ n ih =>
    obtain ⟨mid, h1, h2, -, -, -, h6⟩ := add_one_step cps hn
    obtain ⟨hT', U', hU', hU0'⟩ := h6 T hT hT0 ⟨U, hU, hU0⟩
    obtain ⟨new, g1, g2⟩ := ih mid (by omega) U' hT' hU' hU0'
    exact ⟨new, by rw [addMany, h1]; exact g1, g2⟩

/-- C125 (finding): so the box need not come closer to the curve: here it stays one unit higher than the curve for ever, although the pieces
`bez_split` makes come as close as one likes. -/
theorem C125_add_one_box_counterexample : ∃ (cps : List (CP ℝ)) (b : BBox ℝ), curveSet true cps ⊆ b.Region ∧
    ∀ n, ∃ new bb, addMany n cps = .ok new ∧ bboxCps new = .ok bb ∧ ∃ q ∈ bb.Region, ∀ q0 ∈ b.Region, 1 ≤ q.y - q0.y := by
  let p : CP ℝ := ⟨⟨0, 0⟩, ⟨0, 0⟩, ⟨0, 4⟩, "smooth"⟩
  let q : CP ℝ := ⟨⟨0, 0⟩, ⟨0, 4⟩, ⟨0, 0⟩, "smooth"⟩
  let r : CP ℝ := ⟨⟨1, 0⟩, ⟨0, 0⟩, ⟨0, 0⟩, "smooth"⟩
  have hseg : segs true [p, q, r] = [⟨⟨0, 0⟩, ⟨0, 4⟩, ⟨0, 4⟩, ⟨0, 0⟩⟩, ⟨⟨0, 0⟩, ⟨0, 0⟩, ⟨1, 0⟩, ⟨1, 0⟩⟩, ⟨⟨1, 0⟩, ⟨1, 0⟩, ⟨0, 0⟩, ⟨0, 0⟩⟩] := by
    simp [segs, closedSegs, p, q, r, seg]
  refine ⟨[p, q, r], .box 0 0 1 3, ?_, ?_⟩
  · rintro x ⟨s, hs, t, t0, t1, rfl⟩
    rw [hseg] at hs
    simp only [List.mem_cons, List.not_mem_nil, or_false] at hs
    have u0 : 0 ≤ 1 - t := by linarith
    have a1 : 0 ≤ t * (1 - t) := mul_nonneg t0 u0
    have a2 := mul_nonneg a1 t0
    have a3 := mul_nonneg a1 u0
    have a4 := pow_nonneg t0 3
    have a5 := pow_nonneg u0 3
    rcases hs with rfl | rfl | rfl
    · refine ⟨⟨?_, ?_⟩, ?_, ?_⟩ <;> simp only [Poly4.at', bern] <;> nlinarith [sq_nonneg (2 * t - 1)]
    · refine ⟨⟨?_, ?_⟩, ?_, ?_⟩ <;> simp only [Poly4.at', bern] <;> nlinarith
    · refine ⟨⟨?_, ?_⟩, ?_, ?_⟩ <;> simp only [Poly4.at', bern] <;> nlinarith
  · intro n
    obtain ⟨new, h1, h2⟩ := C125_loop_never_split [p, q, r] (by simp) ⟨⟨0, 0⟩, ⟨0, 4⟩, ⟨0, 4⟩, ⟨0, 0⟩⟩ ⟨⟨0, 0⟩, ⟨0, 0⟩, ⟨1, 0⟩, ⟨1, 0⟩⟩
      (by rw [hseg]; simp) rfl (by rw [hseg]; simp) (by simp) n
    obtain ⟨a, ha, b, hb, e⟩ := mem_segs true new _ h2
    obtain ⟨bb, hbb, -⟩ := (C32_bbox_total new).1 (by rintro rfl; simp at ha)
    have hsub := (C32_bbox_least new bb hbb bb).1 (fun _ h => h)
    refine ⟨new, bb, h1, hbb, a.r, (hsub a ha).2.2, ?_⟩
    have e1 : a.r = ⟨0, 4⟩ := (congrArg Poly4.b e).symm
    rintro q0 ⟨-, -, k⟩
    rw [e1]
    simp only
    linarith

/-- The hypotheses of C125_box, C125_add_one and C125_loop_never_split are met by a closed curve of three
points with a loop. -/
example : ∃ cps : List (CP ℝ), 2 ≤ cps.length ∧ (∃ bb, bboxCps cps = .ok bb) ∧
    (∃ T ∈ segs true cps, T.a = T.d ∧ bend T ≠ 0) ∧ ∃ U ∈ segs true cps, U.a ≠ U.d := by
  refine ⟨[⟨⟨0, 0⟩, ⟨0, 0⟩, ⟨0, 4⟩, "smooth"⟩, ⟨⟨0, 0⟩, ⟨4, 0⟩, ⟨0, 0⟩, "smooth"⟩, ⟨⟨1, 0⟩, ⟨0, 0⟩, ⟨0, 0⟩, "smooth"⟩], by simp,
    ⟨_, rfl⟩, ⟨⟨⟨0, 0⟩, ⟨0, 4⟩, ⟨4, 0⟩, ⟨0, 0⟩⟩, by simp [segs, closedSegs, seg], rfl, ?_⟩,
    ⟨⟨0, 0⟩, ⟨0, 0⟩, ⟨1, 0⟩, ⟨1, 0⟩⟩, by simp [segs, closedSegs, seg], by simp⟩
  have : 0 < bend (⟨⟨0, 0⟩, ⟨0, 4⟩, ⟨4, 0⟩, ⟨0, 0⟩⟩ : Poly4 ℝ) := lt_max_of_lt_left (Real.sqrt_pos.2 (by norm_num))
  exact this.ne'

end X7.Refine
