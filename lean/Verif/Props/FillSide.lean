import Verif.Lemmas.FillSide
import Verif.Props.FillMove
import Verif.Lemmas.Approx
import Verif.Props.Shapes
import Mathlib.Topology.Connected.TotallyDisconnected
import Mathlib.Analysis.Normed.Module.Convex
import Mathlib.Topology.MetricSpace.ProperSpace.Real

/-!
C131: what is filled changes only at outlines, whichever way one looks; and what a filled ellipse covers.
-/

noncomputable section

namespace X7.Elem
open Classical

/-- C131: of two points, which are not on an outline, both or none are filled if the line between them crosses an even number of sides of the polygon, and
exactly one of them if it crosses an odd number. (The line must not go through a corner.) -/
theorem C131_segment (pts : List (Pt ℝ)) (p q : Pt ℝ) (hv : ∀ a ∈ pts, ¬ OnSeg p q a) (hp : ¬ OnSide pts p) (hq : ¬ OnSide pts q) :
    (Covers pts p ↔ Covers pts q) ↔ Even (sidesMet pts p q) := segment_any pts p q hv hp hq

theorem bound_list (f : Pt ℝ → ℝ) (l : List (Pt ℝ)) : ∃ B, ∀ a ∈ l, f a < B := by
  induction l with
  | nil => exact ⟨0, by simp⟩
  | cons a l ih =>
    obtain ⟨B, hB⟩ := ih
    refine ⟨max B (f a + 1), fun b hb => ?_⟩
    rcases List.mem_cons.1 hb with rfl | hb
    · exact lt_of_lt_of_le (by linarith) (le_max_right _ _)
    · exact lt_of_lt_of_le (hB b hb) (le_max_left _ _)

theorem side_half {pts : List (Pt ℝ)} {p : Pt ℝ} {u v c : ℝ} (h : ∀ a ∈ pts, u * a.x + v * a.y ≤ c) (hp : OnSide pts p) : u * p.x + v * p.y ≤ c := by
  obtain ⟨⟨a, b⟩, he, w, w0, w1, rfl⟩ := hp
  have ha := h a (List.of_mem_zip he).1
  have hb := h b (by simpa using (List.of_mem_zip he).2)
  simp only
  nlinarith [mul_nonneg w0 (sub_nonneg.2 hb), mul_nonneg (sub_nonneg.2 w1) (sub_nonneg.2 ha)]

/-- C131: nothing is filled beyond a straight line that has all points of the polygon on its one side. -/
theorem C131_hull (pts : List (Pt ℝ)) (p : Pt ℝ) (u v c : ℝ) (h : ∀ a ∈ pts, u * a.x + v * a.y ≤ c) (hc : Covers pts p) : u * p.x + v * p.y ≤ c := by
  by_contra hlt
  have hn : ¬ OnSide pts p := fun ho => hlt (side_half h ho)
  obtain ⟨⟨a0, m0, -⟩, -⟩ := covers_around hc
  have hpos : 0 < u ^ 2 + v ^ 2 := by
    by_contra hz
    have h1 : u ^ 2 = 0 := by nlinarith [sq_nonneg u, sq_nonneg v]
    have h2 : v ^ 2 = 0 := by nlinarith [sq_nonneg u, sq_nonneg v]
    rw [sq_eq_zero_iff] at h1 h2
    have := h a0 m0
    rw [h1, h2] at this hlt
    simp only [zero_mul, add_zero] at this hlt
    exact hlt this
  have hm : Solid ⟨u, v, 0, -v, u, 0, 0, 0, 1⟩ := by
    simp only [Solid]
    nlinarith
  have h2 := (C130_transform _ hm pts p hn).2 hc
  obtain ⟨-, ⟨b, hb, hx⟩, -⟩ := covers_around h2
  obtain ⟨a, ha, rfl⟩ := List.mem_map.1 hb
  have := h a ha
  simp only [Mat3.apply, add_zero] at hx
  linarith

/-- C131: it does not matter which way one looks: a point is filled if and only if a ray from it, in any direction that does not lead through a corner,
meets an odd number of sides. -/
theorem C131_ray (pts : List (Pt ℝ)) (p : Pt ℝ) (hp : ¬ OnSide pts p) (u v : ℝ) (huv : u ≠ 0 ∨ v ≠ 0) (hv : ∀ a ∈ pts, ¬ OnRay p u v a) :
    Covers pts p ↔ Odd (sidesHit pts p u v) := by
  have hpos : 0 < u ^ 2 + v ^ 2 := by
    rcases huv with h | h
    · nlinarith [sq_nonneg v, sq_pos_of_ne_zero h]
    · nlinarith [sq_nonneg u, sq_pos_of_ne_zero h]
  obtain ⟨B, hB⟩ := bound_list (fun a => u * a.x + v * a.y) pts
  -- far enough
  obtain ⟨L, hL0, hL⟩ : ∃ L, 0 < L ∧ B < u * (p.x + L * u) + v * (p.y + L * v) := by
    refine ⟨max 1 ((B + 1 - (u * p.x + v * p.y)) / (u ^ 2 + v ^ 2)), lt_of_lt_of_le one_pos (le_max_left _ _), ?_⟩
    have h1 := le_max_right 1 ((B + 1 - (u * p.x + v * p.y)) / (u ^ 2 + v ^ 2))
    rw [div_le_iff₀ hpos] at h1
    nlinarith
  have hq : ¬ OnSide pts ⟨p.x + L * u, p.y + L * v⟩ := fun ho => by
    have := side_half (fun a ha => (hB a ha).le) ho
    simp only at this
    linarith
  have hqc : ¬ Covers pts ⟨p.x + L * u, p.y + L * v⟩ := fun hc => by
    have := C131_hull pts _ u v B (fun a ha => (hB a ha).le) hc
    simp only at this
    linarith
  have hs := C131_segment pts p ⟨p.x + L * u, p.y + L * v⟩ (by
    rintro a ha ⟨w, w0, w1, rfl⟩
    exact hv _ ha ⟨w * L, by positivity, by ext <;> simp only <;> ring⟩) hp hq
  have he : sidesMet pts p ⟨p.x + L * u, p.y + L * v⟩ = sidesHit pts p u v := by
    rw [sidesMet, sidesHit]
    refine List.countP_congr fun e he => ?_
    simp only [decide_eq_true_eq]
    constructor
    · rintro ⟨x, ⟨w, w0, w1, rfl⟩, h2⟩
      exact ⟨_, ⟨w * L, by positivity, by ext <;> simp only <;> ring⟩, h2⟩
    · rintro ⟨x, ⟨t, t0, rfl⟩, h2⟩
      refine ⟨_, ⟨t / L, by positivity, ?_, ?_⟩, h2⟩
      · rw [div_le_one hL0]
        by_contra hc
        push Not at hc
        obtain ⟨w, w0, w1, hw⟩ := h2
        have := side_half (fun a ha => (hB a ha).le) ⟨e, he, w, w0, w1, hw⟩
        simp only at this
        nlinarith
      · ext <;> simp only <;> field_simp <;> ring
  rw [he] at hs
  rw [← Nat.not_even_iff_odd, ← hs]
  tauto

/-! ### Connected regions -/

theorem side_closed (pts : List (Pt ℝ)) : IsClosed {s : ℝ × ℝ | OnSide pts ⟨s.1, s.2⟩} := by
  have : {s : ℝ × ℝ | OnSide pts ⟨s.1, s.2⟩} = ⋃ e ∈ (pts.zip (pts.rotate 1)).toFinset,
      (fun v : ℝ => ((e.1.x + v * (e.2.x - e.1.x), e.1.y + v * (e.2.y - e.1.y)) : ℝ × ℝ)) '' Set.Icc 0 1 := by
    ext s
    simp only [OnSide, Set.mem_setOf_eq, Set.mem_iUnion, List.mem_toFinset, Set.mem_image, Set.mem_Icc, exists_prop]
    refine exists_congr fun e => and_congr_right fun _ => exists_congr fun v => ?_
    rw [and_assoc]
    refine and_congr_right fun _ => and_congr_right fun _ => ?_
    rw [Pt.mk.injEq, Prod.ext_iff]
    constructor <;> rintro ⟨h1, h2⟩ <;> exact ⟨h1.symm, h2.symm⟩
  rw [this]
  refine Set.Finite.isClosed_biUnion (Finset.finite_toSet _) fun e _ => ?_
  exact (isCompact_Icc.image (by fun_prop)).isClosed

theorem corner_side {pts : List (Pt ℝ)} {a : Pt ℝ} (ha : a ∈ pts) : OnSide pts a := by
  obtain ⟨i, hi, rfl⟩ := List.mem_iff_getElem.1 ha
  refine ⟨(pts[i], (pts.rotate 1)[i]'(by simpa using hi)), ?_, 0, le_rfl, zero_le_one, by simp⟩
  rw [List.mem_iff_getElem]
  exact ⟨i, by simpa using hi, by simp⟩

/-- C131: what is filled changes only at outlines: in a connected part of the plane with no point on an outline all points are filled or none is. -/
theorem C131_connected (pts : List (Pt ℝ)) (S : Set (ℝ × ℝ)) (hS : IsPreconnected S) (hn : ∀ s ∈ S, ¬ OnSide pts ⟨s.1, s.2⟩) :
    ∀ s ∈ S, ∀ t ∈ S, (Covers pts ⟨s.1, s.2⟩ ↔ Covers pts ⟨t.1, t.2⟩) := by
  intro s hs t ht
  have key := hS.constant (f := fun s : ℝ × ℝ => decide (Covers pts ⟨s.1, s.2⟩)) ?_ hs ht
  · simpa using key
  · intro x hx
    apply ContinuousAt.continuousWithinAt
    have hopen : IsOpen {s : ℝ × ℝ | OnSide pts ⟨s.1, s.2⟩}ᶜ := (side_closed pts).isOpen_compl
    obtain ⟨ε, ε0, hball⟩ := Metric.isOpen_iff.1 hopen x (hn x hx)
    refine ContinuousAt.congr (f := fun _ => decide (Covers pts ⟨x.1, x.2⟩)) continuousAt_const ?_
    filter_upwards [Metric.ball_mem_nhds x ε0] with y hy
    have hseg : ∀ z : Pt ℝ, OnSeg ⟨x.1, x.2⟩ ⟨y.1, y.2⟩ z → ¬ OnSide pts z := by
      rintro z ⟨v, v0, v1, rfl⟩
      have hc := (convex_ball x ε).add_smul_sub_mem (Metric.mem_ball_self ε0) hy ⟨v0, v1⟩
      have := hball hc
      simpa using this
    have h := C131_segment pts ⟨x.1, x.2⟩ ⟨y.1, y.2⟩ (fun a ha ho => hseg a ho (corner_side ha)) (hseg _ (onSeg_start _ _)) (hseg _ (onSeg_end _ _))
    have h0 : sidesMet pts ⟨x.1, x.2⟩ ⟨y.1, y.2⟩ = 0 := by
      rw [sidesMet, List.countP_eq_zero]
      intro e he
      simp only [decide_eq_true_eq]
      rintro ⟨z, h1, v, v0, v1, h2⟩
      exact hseg z h1 ⟨e, he, v, v0, v1, h2⟩
    rw [h0] at h
    have := h.2 (by simp)
    simp [this]

/-- C131: at a side, away from corners and other sides, it does change: if the line from `p` to `q` meets one side only then one of them is filled and the
other is not. -/
theorem C131_outline (pts : List (Pt ℝ)) (p q : Pt ℝ) (hv : ∀ a ∈ pts, ¬ OnSeg p q a) (hp : ¬ OnSide pts p) (hq : ¬ OnSide pts q)
    (h1 : sidesMet pts p q = 1) : (Covers pts p ∧ ¬ Covers pts q) ∨ (¬ Covers pts p ∧ Covers pts q) := by
  have := C131_segment pts p q hv hp hq
  rw [h1] at this
  have h2 : ¬ Even 1 := by decide
  tauto

/-! ### The ellipse -/

/-- The outline of the ellipse with half axes 1 about the origin, as it is drawn. -/
def unitOutline : List (Pt ℝ) := pathOf 20 (segs true (makeEllipseCps ⟨0, 0⟩ 1 1))

theorem ellipse_unit (c : Pt ℝ) (rx ry : ℝ) : segs true (makeEllipseCps c rx ry) =
    (segs true (makeEllipseCps ⟨0, 0⟩ 1 1)).map (Poly4.map (Mat3.apply ⟨rx, 0, c.x, 0, ry, c.y, 0, 0, 1⟩)) := by
  rw [ellipse_segs, ellipse_segs]
  simp only [List.map_cons, List.map_nil, Poly4.map, quarter, Pt.addVector, Vec.mul, Mat3.apply]
  refine List.cons_eq_cons.2 ⟨?_, List.cons_eq_cons.2 ⟨?_, List.cons_eq_cons.2 ⟨?_, List.cons_eq_cons.2 ⟨?_, rfl⟩⟩⟩⟩ <;> congr 1 <;> congr 1 <;> ring

theorem unit_segs : segs true (makeEllipseCps ⟨0, 0⟩ 1 1) =
    [quarter ⟨0, 0⟩ ⟨1, 0⟩ ⟨0, -1⟩, quarter ⟨0, 0⟩ ⟨0, -1⟩ ⟨-1, 0⟩, quarter ⟨0, 0⟩ ⟨-1, 0⟩ ⟨0, 1⟩, quarter ⟨0, 0⟩ ⟨0, 1⟩ ⟨1, 0⟩] := ellipse_segs _ _ _

theorem unit_traced {q : Pt ℝ} (h : q ∈ Approx.traced (segs true (makeEllipseCps ⟨0, 0⟩ 1 1))) :
    1 ≤ q.x ^ 2 + q.y ^ 2 ∧ q.x ^ 2 + q.y ^ 2 ≤ (1 + 3 / 10000) ^ 2 := by
  obtain ⟨s, hs, t, t0, t1, rfl⟩ := h
  rw [unit_segs] at hs
  have := quarter_bounds t t0 t1
  have key : (s.at' t).x ^ 2 + (s.at' t).y ^ 2 = quarterX t ^ 2 + quarterY t ^ 2 := by
    simp only [List.mem_cons, List.not_mem_nil, or_false] at hs
    rcases hs with rfl | rfl | rfl | rfl <;> rw [quarter_at] <;> ring
  rwa [key]

theorem pathOf_traced {n : ℕ} {ss : List (Poly4 ℝ)} {q : Pt ℝ} (h : q ∈ pathOf n ss) : q ∈ Approx.traced ss := by
  have one : ∀ s : Poly4 ℝ, q ∈ (List.range (n + 1)).map (fun (i : ℕ) => s.at' ((i : ℝ) / n)) → ∃ t, 0 ≤ t ∧ t ≤ 1 ∧ q = s.at' t := by
    intro s hs
    obtain ⟨i, hi, rfl⟩ := List.mem_map.1 hs
    rw [List.mem_range] at hi
    refine ⟨_, by positivity, ?_, rfl⟩
    rcases Nat.eq_zero_or_pos n with h | h
    · subst h; simp
    · rw [div_le_one (by exact_mod_cast h)]
      exact_mod_cast Nat.lt_succ_iff.1 hi
  cases ss with
  | nil => simp [pathOf] at h
  | cons s ss =>
    rw [pathOf, List.mem_append, List.mem_flatMap] at h
    rcases h with h | ⟨s', hs', h⟩
    · exact ⟨s, by simp, one s h⟩
    · exact ⟨s', by simp [hs'], one s' (List.mem_of_mem_tail h)⟩

theorem side_joined {pts : List (Pt ℝ)} {p : Pt ℝ} (hr : pts.head? = pts.getLast?) (h : OnSide pts p) : p ∈ pts ∨ p ∈ Approx.joined pts := by
  obtain ⟨e, he, v, v0, v1, hp⟩ := h
  obtain ⟨i, hi, rfl⟩ := List.mem_iff_getElem.1 he
  simp only [List.length_zip, List.length_rotate, min_self] at hi
  simp only [List.getElem_zip, List.getElem_rotate] at hp
  by_cases hl : i + 1 < pts.length
  · right
    refine ⟨i, pts[i], pts[i + 1], by simp, by simp, v, v0, v1, ?_⟩
    simp only [Nat.mod_eq_of_lt hl] at hp
    rw [hp]; rfl
  · left
    have hl' : i + 1 = pts.length := by omega
    simp only [hl', Nat.mod_self] at hp
    have h1 : pts[i] = pts[0] := by
      rw [List.head?_eq_getElem?, List.getLast?_eq_getElem?, List.getElem?_eq_getElem (by omega), List.getElem?_eq_getElem (by omega), Option.some.injEq] at hr
      rw [hr]
      congr 1
      omega
    rw [h1, sub_self, sub_self, mul_zero, add_zero, add_zero] at hp
    rw [hp]
    exact List.getElem_mem _

theorem unit_returns : unitOutline.head? = unitOutline.getLast? := by
  rw [unitOutline, unit_segs]
  refine pathOf_returns 20 (by norm_num) _ _ (by rw [← unit_segs]; exact segs_join true _) ?_
  simp [quarter, Pt.addVector, Vec.mul]

theorem unit_bend : ∀ s ∈ segs true (makeEllipseCps ⟨0, 0⟩ 1 1), Approx.bend s ≤ 1 / 2 := by
  obtain ⟨s1, s2⟩ := sqrt2_bounds
  have hk : bez90 = 4 / 3 * (√2 - 1) := bez90_eq
  have k1 : 0.552 < bez90 := by rw [hk]; linarith
  have k2 : bez90 < 0.553 := by rw [hk]; linarith
  intro s hs
  rw [unit_segs] at hs
  simp only [List.mem_cons, List.not_mem_nil, or_false] at hs
  have hb : (1 - bez90) ^ 2 + (2 * bez90 - 1) ^ 2 ≤ (1 / 2) ^ 2 := by nlinarith
  rcases hs with rfl | rfl | rfl | rfl <;> refine max_le ?_ ?_ <;> rw [Real.sqrt_le_left (by norm_num)] <;> simp only [quarter, Pt.addVector, Vec.mul] <;> nlinarith

theorem unit_side {p : Pt ℝ} (h : OnSide unitOutline p) : (999 / 1000 : ℝ) ^ 2 ≤ p.x ^ 2 + p.y ^ 2 := by
  rcases side_joined unit_returns h with h | h
  · have := (unit_traced (pathOf_traced h)).1
    nlinarith
  · have hc := (Approx.pathOf_close (n := 20) (by norm_num) _ (segs_join true (makeEllipseCps ⟨0, 0⟩ 1 1)) unit_bend).2 p h
    obtain ⟨q, hq, hd⟩ := hc
    have hq1 := (unit_traced hq).1
    rw [Utils.distPt, Real.sqrt_le_left (by norm_num)] at hd
    -- Cauchy and Schwarz
    have hd' : (p.x - q.x) ^ 2 + (p.y - q.y) ^ 2 ≤ (1 / 1000) ^ 2 := hd.trans (by norm_num)
    by_contra hlt
    push Not at hlt
    have hcs : (p.x * q.x + p.y * q.y) ^ 2 ≤ (p.x ^ 2 + p.y ^ 2) * (q.x ^ 2 + q.y ^ 2) := by nlinarith [sq_nonneg (p.x * q.y - p.y * q.x)]
    have e1 : √(q.x ^ 2 + q.y ^ 2) ≤ √(p.x ^ 2 + p.y ^ 2) + √((p.x - q.x) ^ 2 + (p.y - q.y) ^ 2) := by
      rw [Real.sqrt_le_left (by positivity), add_sq, Real.sq_sqrt (by positivity), Real.sq_sqrt (by positivity)]
      have : -(p.x * (p.x - q.x) + p.y * (p.y - q.y)) ≤ √(p.x ^ 2 + p.y ^ 2) * √((p.x - q.x) ^ 2 + (p.y - q.y) ^ 2) := by
        rw [← Real.sqrt_mul (by positivity)]
        apply Real.le_sqrt_of_sq_le
        nlinarith [sq_nonneg (p.x * (p.y - q.y) - p.y * (p.x - q.x))]
      nlinarith
    have e2 : 1 ≤ √(q.x ^ 2 + q.y ^ 2) := by
      rw [Real.one_le_sqrt]; exact hq1
    have e3 : √(p.x ^ 2 + p.y ^ 2) < 999 / 1000 := by
      rw [Real.sqrt_lt' (by norm_num)]; exact hlt
    have e4 : √((p.x - q.x) ^ 2 + (p.y - q.y) ^ 2) ≤ 1 / 1000 := by
      rw [Real.sqrt_le_left (by norm_num)]; exact hd'
    linarith

theorem unit_far {p : Pt ℝ} (h : (1 + 3 / 10000 : ℝ) < √(p.x ^ 2 + p.y ^ 2)) : ¬ OnSide unitOutline p ∧ ¬ Covers unitOutline p := by
  have hh : ∀ a ∈ unitOutline, p.x * a.x + p.y * a.y ≤ √(p.x ^ 2 + p.y ^ 2) * (1 + 3 / 10000) := by
    intro a ha
    have h1 := (unit_traced (pathOf_traced ha)).2
    have h2 : √(a.x ^ 2 + a.y ^ 2) ≤ 1 + 3 / 10000 := by
      rw [Real.sqrt_le_left (by norm_num)]; exact h1
    refine le_trans ?_ (mul_le_mul_of_nonneg_left h2 (Real.sqrt_nonneg _))
    rw [← Real.sqrt_mul (by positivity)]
    apply Real.le_sqrt_of_sq_le
    nlinarith [sq_nonneg (p.x * a.y - p.y * a.x)]
  have hs : √(p.x ^ 2 + p.y ^ 2) ^ 2 = p.x ^ 2 + p.y ^ 2 := Real.sq_sqrt (by positivity)
  refine ⟨fun ho => ?_, fun hc => ?_⟩
  · have := side_half hh ho
    nlinarith
  · have := C131_hull _ p p.x p.y _ hh hc
    nlinarith

theorem run_zero {p : Pt ℝ} {P : Prop} : ∀ l : List (Pt ℝ), (∀ a ∈ l, p.y < a.y ↔ P) → run (crossing p) l = 0
  | [], _ => rfl
  | [_], _ => rfl
  | a :: b :: l, h => by
    rw [run, run_zero (b :: l) fun x hx => h x (by simp [hx])]
    have : (p.y < a.y ↔ p.y < b.y) := (h a (by simp)).trans (h b (by simp)).symm
    simp [crossing, Crosses, this]

theorem quarter_pos {t : ℝ} (h0 : 0 ≤ t) (h1 : t ≤ 1) : 0 ≤ quarterX t ∧ 0 ≤ quarterY t ∧ (t < 1 → 0 < quarterX t) ∧ (0 < t → 0 < quarterY t) := by
  obtain ⟨k0, -⟩ := bez90_bounds
  have h2 : 0 ≤ 1 - t := by linarith
  refine ⟨?_, ?_, fun h => ?_, fun h => ?_⟩
  · rw [quarterX]; positivity
  · rw [quarterY]; positivity
  · have : 0 < 1 - t := by linarith
    rw [quarterX]; positivity
  · rw [quarterY]; positivity

theorem unit_center : Covers unitOutline ⟨0, 0⟩ := by
  let f1 : ℕ → Pt ℝ := fun i => ⟨quarterX ((i : ℝ) / 20), -quarterY ((i : ℝ) / 20)⟩
  let f2 : ℕ → Pt ℝ := fun i => ⟨-quarterY ((i : ℝ) / 20), -quarterX ((i : ℝ) / 20)⟩
  let f3 : ℕ → Pt ℝ := fun i => ⟨-quarterX ((i : ℝ) / 20), quarterY ((i : ℝ) / 20)⟩
  let f4 : ℕ → Pt ℝ := fun i => ⟨quarterY ((i : ℝ) / 20), quarterX ((i : ℝ) / 20)⟩
  have hi : ∀ i : ℕ, i < 21 → (0 : ℝ) ≤ (i : ℝ) / 20 ∧ (i : ℝ) / 20 ≤ 1 := by
    intro i hi
    refine ⟨by positivity, ?_⟩
    rw [div_le_one (by norm_num)]
    exact_mod_cast Nat.lt_succ_iff.1 hi
  have hU : unitOutline = (f1 0 :: ((List.range' 1 20).map f1 ++ (List.range' 1 19).map f2)) ++ [f2 20] ++
      ((f3 1 :: ((List.range' 2 19).map f3 ++ (List.range' 1 18).map f4)) ++ [f4 19] ++ [f4 20]) := by
    have h1 : (fun i : ℕ => (quarter ⟨0, 0⟩ ⟨1, 0⟩ ⟨0, -1⟩).at' ((i : ℝ) / ((20 : ℕ) : ℝ))) = f1 := by
      funext i; rw [quarter_at]; ext <;> simp [f1]
    have h2 : (fun i : ℕ => (quarter ⟨0, 0⟩ ⟨0, -1⟩ ⟨-1, 0⟩).at' ((i : ℝ) / ((20 : ℕ) : ℝ))) = f2 := by
      funext i; rw [quarter_at]; ext <;> simp [f2]
    have h3 : (fun i : ℕ => (quarter ⟨0, 0⟩ ⟨-1, 0⟩ ⟨0, 1⟩).at' ((i : ℝ) / ((20 : ℕ) : ℝ))) = f3 := by
      funext i; rw [quarter_at]; ext <;> simp [f3]
    have h4 : (fun i : ℕ => (quarter ⟨0, 0⟩ ⟨0, 1⟩ ⟨1, 0⟩).at' ((i : ℝ) / ((20 : ℕ) : ℝ))) = f4 := by
      funext i; rw [quarter_at]; ext <;> simp [f4]
    have hr : List.range (20 + 1) = 0 :: List.range' 1 20 := rfl
    rw [unitOutline, unit_segs]
    simp only [pathOf, List.flatMap_cons, List.flatMap_nil, h1, h2, h3, h4]
    clear h1 h2 h3 h4
    clear_value f1 f2 f3 f4
    simp only [hr, List.map_cons, List.tail_cons, List.append_nil]
    rw [show (List.range' 1 20).map f2 = (List.range' 1 19).map f2 ++ [f2 20] from rfl,
      show (List.range' 1 20).map f3 = f3 1 :: (List.range' 2 19).map f3 from rfl,
      show (List.range' 1 20).map f4 = (List.range' 1 18).map f4 ++ [f4 19] ++ [f4 20] from rfl]
    simp only [List.cons_append, List.append_assoc, List.nil_append]
  have x1 : f2 20 = ⟨-1, 0⟩ := by simp [f2, quarterX, quarterY]
  have x2 : f4 20 = ⟨1, 0⟩ := by simp [f4, quarterX, quarterY]
  have x3 : f1 0 = ⟨1, 0⟩ := by simp [f1, quarterX, quarterY]
  have hN : run (crossing ⟨0, 0⟩) (f1 0 :: ((List.range' 1 20).map f1 ++ (List.range' 1 19).map f2) ++ [f2 20]) = 0 := by
    refine run_zero (P := False) _ fun a ha => ?_
    rw [iff_false, not_lt]
    simp only [List.cons_append, List.mem_cons, List.mem_append, List.mem_map, List.mem_range'_1, List.not_mem_nil, or_false] at ha
    rcases ha with rfl | (⟨i, hi', rfl⟩ | ⟨i, hi', rfl⟩) | rfl
    · rw [x3]
    · have := (quarter_pos (hi i (by omega)).1 (hi i (by omega)).2).2.1
      simp only [f1]; linarith
    · have := (quarter_pos (hi i (by omega)).1 (hi i (by omega)).2).1
      simp only [f2]; linarith
    · rw [x1]
  have hlt : ∀ i : ℕ, i < 20 → 0 < (f4 i).y := by
    intro i h20
    refine (quarter_pos (hi i (by omega)).1 (hi i (by omega)).2).2.2.1 ?_
    rw [div_lt_one (by norm_num)]
    exact_mod_cast h20
  have hgt : ∀ i : ℕ, 1 ≤ i → i < 21 → 0 < (f3 i).y := by
    intro i h1 h21
    refine (quarter_pos (hi i h21).1 (hi i h21).2).2.2.2 ?_
    have : (0 : ℝ) < i := by exact_mod_cast h1
    positivity
  have hP : run (crossing ⟨0, 0⟩) (f3 1 :: ((List.range' 2 19).map f3 ++ (List.range' 1 18).map f4) ++ [f4 19]) = 0 := by
    refine run_zero (P := True) _ fun a ha => ?_
    rw [iff_true]
    simp only [List.cons_append, List.mem_cons, List.mem_append, List.mem_map, List.mem_range'_1, List.not_mem_nil, or_false] at ha
    rcases ha with rfl | (⟨i, hi', rfl⟩ | ⟨i, hi', rfl⟩) | rfl
    · exact hgt 1 (by norm_num) (by norm_num)
    · exact hgt i (by omega) (by omega)
    · exact hlt i (by omega)
    · exact hlt 19 (by norm_num)
  have c1 : crossing ⟨0, 0⟩ (f2 20) (f3 1) = 0 := by
    rw [x1]
    simp only [crossing, Crosses, zero_sub, neg_zero, zero_div, zero_mul, add_zero, sub_self]
    norm_num
  have c2 : crossing ⟨0, 0⟩ (f4 19) (f4 20) = 1 := by
    have h19 := hlt 19 (by norm_num)
    rw [x2]
    have e : (0 - (f4 19).y) / (0 - (f4 19).y) = 1 := div_self (by linarith)
    simp only [crossing, Crosses, e]
    simp [h19]
  have c3 : crossing ⟨0, 0⟩ (f4 20) (f1 0) = 0 := by
    rw [x2, x3]
    simp [crossing, Crosses]
  rw [covers_iff, hU]
  clear_value f1 f2 f3 f4
  have hc := cyc_cons (crossing ⟨0, 0⟩) (f1 0) (((List.range' 1 20).map f1 ++ (List.range' 1 19).map f2) ++ [f2 20] ++
      ((f3 1 :: ((List.range' 2 19).map f3 ++ (List.range' 1 18).map f4)) ++ [f4 19] ++ [f4 20]))
  refine hc.trans ?_
  have g1 := run_glue (crossing ⟨0, 0⟩) (f1 0 :: ((List.range' 1 20).map f1 ++ (List.range' 1 19).map f2))
    (((f3 1 :: ((List.range' 2 19).map f3 ++ (List.range' 1 18).map f4)) ++ [f4 19] ++ [f4 20]) ++ [f1 0]) (f2 20)
  have g2 := run_glue (crossing ⟨0, 0⟩) (f3 1 :: ((List.range' 2 19).map f3 ++ (List.range' 1 18).map f4)) [f4 20, f1 0] (f4 19)
  rw [hN, zero_add] at g1
  rw [hP, zero_add] at g2
  simp only [List.cons_append, List.append_assoc, List.nil_append] at g1 g2 ⊢
  rw [g1, run, g2, c1]
  simp [run, c2, c3]

/-- C131: a filled ellipse covers every point of the ellipse between its corners shrunk by 0.1 percent, and no point outside the ellipse enlarged by 0.03
percent. -/
theorem C131_ellipse (cfg : DCfg) (h : Hdr) (p1 p2 : Pt ℝ) (hx : p1.x ≠ p2.x) (hy : p1.y ≠ p2.y) (m : Mat3 ℝ) (hm : Solid (m.mul h.xf)) :
    ∃ q, drawn cfg (.ellipse h p1 p2) m = .ok [q] ∧ q.pb = h.pb ∧
      let c : Pt ℝ := ⟨(p1.x + p2.x) / 2, (p1.y + p2.y) / 2⟩
      let rx := |p1.x - p2.x| / 2
      let ry := |p1.y - p2.y| / 2
      ∀ p, (ellipseRadius c rx ry p < 999 / 1000 → Covers q.pts ((m.mul h.xf).apply p)) ∧
        (1 + 3 / 10000 < ellipseRadius c rx ry p → ¬ Covers q.pts ((m.mul h.xf).apply p)) := by
  have hd := drawn_basic cfg (.ellipse h p1 p2) trivial m
  simp only [outline, makeEllipseP1P2_eq, Except.map, hdr] at hd
  refine ⟨_, hd, rfl, ?_⟩
  intro c rx ry p
  have hrx : 0 < rx := by have := abs_pos.2 (sub_ne_zero.2 hx); positivity
  have hry : 0 < ry := by have := abs_pos.2 (sub_ne_zero.2 hy); positivity
  let A : Mat3 ℝ := ⟨rx, 0, c.x, 0, ry, c.y, 0, 0, 1⟩
  have hA : Solid A := by simp only [Solid, A]; nlinarith [mul_pos hrx hry]
  have hpts : (pathOf 20 (segs true (makeEllipseCps c rx ry))).map (m.mul h.xf).apply = (unitOutline.map A.apply).map (m.mul h.xf).apply := by
    rw [ellipse_unit, pathOf_map]; rfl
  change (_ → Covers ((pathOf 20 (segs true (makeEllipseCps c rx ry))).map (m.mul h.xf).apply) _) ∧
    (_ → ¬ Covers ((pathOf 20 (segs true (makeEllipseCps c rx ry))).map (m.mul h.xf).apply) _)
  rw [hpts]
  let w : Pt ℝ := ⟨(p.x - c.x) / rx, (p.y - c.y) / ry⟩
  have hw : A.apply w = p := by
    ext
    · simp only [A, w, Mat3.apply]; field_simp; ring
    · simp only [A, w, Mat3.apply]; field_simp; ring
  have hr : ellipseRadius c rx ry p = √(w.x ^ 2 + w.y ^ 2) := rfl
  have key : ¬ OnSide unitOutline w → (Covers ((unitOutline.map A.apply).map (m.mul h.xf).apply) ((m.mul h.xf).apply p) ↔ Covers unitOutline w) := by
    intro hn
    rw [← hw, C130_transform _ hm _ _ (by rwa [onSide_apply hA]), C130_transform _ hA _ _ hn]
  rw [hr]
  refine ⟨fun hlt => ?_, fun hlt => ?_⟩
  · have hlt2 : ∀ s : ℝ × ℝ, √(s.1 ^ 2 + s.2 ^ 2) < 999 / 1000 → ¬ OnSide unitOutline ⟨s.1, s.2⟩ := by
      intro s hs ho
      rw [Real.sqrt_lt' (by norm_num)] at hs
      have := unit_side ho
      simp only at this
      linarith
    rw [key (hlt2 (w.x, w.y) hlt)]
    have hconv : IsPreconnected {s : ℝ × ℝ | s.1 ^ 2 + s.2 ^ 2 < (999 / 1000) ^ 2} := by
      apply Convex.isPreconnected
      intro a ha b hb u v u0 v0 huv
      simp only [Set.mem_setOf_eq, Prod.fst_add, Prod.snd_add, Prod.smul_fst, Prod.smul_snd, smul_eq_mul] at ha hb ⊢
      have hv : v = 1 - u := by linarith
      subst hv
      have e : (u * a.1 + (1 - u) * b.1) ^ 2 + (u * a.2 + (1 - u) * b.2) ^ 2 = u * (a.1 ^ 2 + a.2 ^ 2) + (1 - u) * (b.1 ^ 2 + b.2 ^ 2) -
          u * (1 - u) * ((a.1 - b.1) ^ 2 + (a.2 - b.2) ^ 2) := by ring
      have e0 : 0 ≤ u * (1 - u) * ((a.1 - b.1) ^ 2 + (a.2 - b.2) ^ 2) := by positivity
      rw [e]
      rcases eq_or_lt_of_le u0 with h0 | h0
      · rw [← h0] at e0 ⊢
        linarith
      · nlinarith [mul_pos h0 (sub_pos.2 ha), mul_nonneg v0 (sub_pos.2 hb).le]
    refine (C131_connected unitOutline _ hconv ?_ (w.x, w.y) ?_ (0, 0) ?_).2 unit_center
    · intro s hs
      refine hlt2 s ?_
      rw [Real.sqrt_lt' (by norm_num)]
      exact hs
    · rw [Real.sqrt_lt' (by norm_num)] at hlt
      exact hlt
    · norm_num
  · rw [key (unit_far hlt).1]
    exact (unit_far hlt).2

/-! ### Cases that meet the hypotheses -/

/-- A point in a square, not on an outline, and a slanted ray from it that leads through no corner: it is filled, so the ray meets an odd number of sides. -/
example : ∃ (pts : List (Pt ℝ)) (p : Pt ℝ), ¬ OnSide pts p ∧ (∀ a ∈ pts, ¬ OnRay p 2 1 a) ∧ Covers pts p ∧ Odd (sidesHit pts p 2 1) := by
  have hn : ¬ OnSide [⟨0, 0⟩, ⟨4, 0⟩, ⟨4, 4⟩, ⟨0, 4⟩] (⟨1, 2⟩ : Pt ℝ) := by
    rintro ⟨e, he, v, v0, v1, h⟩
    simp only [List.rotate_cons_succ, List.cons_append, List.nil_append, List.rotate_zero, List.zip_cons_cons, List.zip_nil_right, List.mem_cons,
      List.not_mem_nil, or_false] at he
    rw [Pt.mk.injEq] at h
    obtain ⟨h1, h2⟩ := h
    rcases he with rfl | rfl | rfl | rfl <;> simp only at h1 h2 <;> linarith
  have hr : ∀ a ∈ ([⟨0, 0⟩, ⟨4, 0⟩, ⟨4, 4⟩, ⟨0, 4⟩] : List (Pt ℝ)), ¬ OnRay ⟨1, 2⟩ 2 1 a := by
    rintro a ha ⟨t, t0, rfl⟩
    simp only [List.mem_cons, List.not_mem_nil, or_false, Pt.mk.injEq] at ha
    rcases ha with ⟨h1, h2⟩ | ⟨h1, h2⟩ | ⟨h1, h2⟩ | ⟨h1, h2⟩ <;> linarith
  have hc : Covers [⟨0, 0⟩, ⟨4, 0⟩, ⟨4, 4⟩, ⟨0, 4⟩] (⟨1, 2⟩ : Pt ℝ) := by
    rw [covers_iff]
    simp [cyc, crossing, Crosses]
    norm_num
  exact ⟨_, _, hn, hr, hc, (C131_ray _ _ hn 2 1 (by norm_num) hr).1 hc⟩

/-- An ellipse of radii 2 and 1, drawn turned by a quarter: its centre is filled and a point at its corner is not. -/
example (cfg : DCfg) : ∃ q, drawn cfg (.ellipse ⟨"e".toList, fillPen, true, Mat3.one⟩ ⟨0, 0⟩ ⟨4, 2⟩) ⟨0, -1, 0, 1, 0, 0, 0, 0, 1⟩ = .ok [q] ∧
    Covers q.pts ⟨-1, 2⟩ ∧ ¬ Covers q.pts ⟨-2, 4⟩ := by
  obtain ⟨q, h, -, hq⟩ := C131_ellipse cfg ⟨"e".toList, fillPen, true, Mat3.one⟩ ⟨0, 0⟩ ⟨4, 2⟩ (by norm_num) (by norm_num) ⟨0, -1, 0, 1, 0, 0, 0, 0, 1⟩
    (by simp [Solid, Mat3.mul, Mat3.one])
  refine ⟨q, h, ?_, ?_⟩
  · have := (hq ⟨2, 1⟩).1 (by norm_num [ellipseRadius])
    simpa [Mat3.mul, Mat3.one, Mat3.apply] using this
  · have := (hq ⟨4, 2⟩).2 (by
      rw [ellipseRadius, Real.lt_sqrt (by norm_num)]
      norm_num)
    simpa [Mat3.mul, Mat3.one, Mat3.apply] using this

end X7.Elem
