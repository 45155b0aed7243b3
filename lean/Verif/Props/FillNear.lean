import Verif.Lemmas.FillNear
import Verif.Props.Approx
import Verif.Props.ApproxRnd
import Verif.Props.Speed

/-!
C132: what is filled, away from the outline, does not depend on small changes: of the points, of the number of points per curve, of rounding.
-/

noncomputable section

namespace X7.Elem
open X7.Utils (distPt)
open X7.Approx (bend)
open Classical

/-- C132: if every point of a polygon is moved by at most `δ`, a point that is farther than `δ` from its sides is filled after it exactly if it was before. -/
theorem C132_moved (pts pts' : List (Pt ℝ)) (δ : ℝ) (hl : List.Forall₂ (fun a b => distPt a b ≤ δ) pts pts') (p : Pt ℝ)
    (h : ∀ x, OnSide pts x → δ < distPt p x) : Covers pts p ↔ Covers pts' p := covers_near hl h

/-- C132: that cannot be improved: at the distance `δ` itself what is filled may change. -/
theorem C132_moved_sharp (δ : ℝ) (h0 : 0 < δ) (h1 : δ ≤ 1 / 2) : ∃ (pts pts' : List (Pt ℝ)) (p : Pt ℝ),
    List.Forall₂ (fun a b => distPt a b ≤ δ) pts pts' ∧ (∀ x, OnSide pts x → δ ≤ distPt p x) ∧ Covers pts p ∧ ¬ Covers pts' p := by
  refine ⟨[⟨0, 0⟩, ⟨0, 2⟩, ⟨2, 2⟩, ⟨2, 0⟩, ⟨0, 0⟩], [⟨0 - δ, 0⟩, ⟨0 - δ, 2⟩, ⟨2 - δ, 2⟩, ⟨2 - δ, 0⟩, ⟨0 - δ, 0⟩], ⟨2 - δ, 1⟩, ?_, ?_, ?_, ?_⟩
  · have : ∀ x y : ℝ, distPt ⟨x, y⟩ ⟨x - δ, y⟩ ≤ δ := fun x y => by
      rw [distPt, Real.sqrt_le_iff]
      exact ⟨h0.le, by simp only; apply le_of_eq; ring⟩
    exact .cons (this _ _) (.cons (this _ _) (.cons (this _ _) (.cons (this _ _) (.cons (this _ _) .nil))))
  · rintro x ⟨e, he, v, v0, v1, rfl⟩
    rw [distPt]
    apply Real.le_sqrt_of_sq_le
    simp only [List.rotate_cons_succ, List.cons_append, List.nil_append, List.rotate_zero, List.zip_cons_cons, List.zip_nil_right, List.mem_cons,
      List.not_mem_nil, or_false] at he
    rcases he with rfl | rfl | rfl | rfl | rfl <;> simp only <;> nlinarith [sq_nonneg (1 - v * 2), sq_nonneg (2 - δ - v * 2), sq_nonneg (v * 2 - δ), sq_nonneg (v * 2 - 1)]
  · refine (covers_box 0 0 2 2 _).2 ?_
    rw [min_eq_left (by norm_num : (0 : ℝ) ≤ 2), max_eq_right (by norm_num : (0 : ℝ) ≤ 2)]
    refine ⟨?_, ?_, ?_, ?_⟩ <;> simp only <;> linarith
  · intro hc
    have := (covers_box (0 - δ) 0 (2 - δ) 2 _).1 hc
    rw [max_eq_right (by linarith : 0 - δ ≤ 2 - δ)] at this
    simp at this

/-! ### Points per curve -/

theorem dist_tri (a b c : Pt ℝ) : distPt a c ≤ distPt a b + distPt b c := Approx.distPt_tri a b c

theorem far_chord {s : Poly4 ℝ} {n : ℕ} (hn : 1 ≤ n) {M : ℝ} (hM : bend s ≤ M) {p : Pt ℝ}
    (hp : ∀ t, 0 ≤ t → t ≤ 1 → 3 / 2 * M / n ^ 2 < distPt p (s.at' t)) (i : ℕ) (hi : i < n) (x : Pt ℝ)
    (hx : OnSeg (s.at' ((i : ℝ) / n)) (s.at' (((i + 1 : ℕ) : ℝ) / n)) x) : 3 / 4 * M / n ^ 2 < distPt p x := by
  obtain ⟨v, v0, v1, rfl⟩ := hx
  have hn0 : (0 : ℝ) < n := by exact_mod_cast hn
  have h1 : (i : ℝ) / n + 1 / n ≤ 1 := by rw [← add_div, div_le_one hn0]; exact_mod_cast hi
  have hc := Approx.chord_close s (a := (i : ℝ) / n) (h := 1 / n) (v := v) (M := M) (by positivity) (by positivity) h1 v0 v1 hM
  have hv : v * (1 / (n : ℝ)) ≤ 1 / n := mul_le_of_le_one_left (by positivity) v1
  have hf := hp ((i : ℝ) / n + v * (1 / n)) (by positivity) (by linarith)
  have ht := dist_tri p ⟨(s.at' ((i : ℝ) / n)).x + v * ((s.at' (((i + 1 : ℕ) : ℝ) / n)).x - (s.at' ((i : ℝ) / n)).x),
    (s.at' ((i : ℝ) / n)).y + v * ((s.at' (((i + 1 : ℕ) : ℝ) / n)).y - (s.at' ((i : ℝ) / n)).y)⟩ (s.at' ((i : ℝ) / n + v * (1 / n)))
  have ea : (i : ℝ) / n + 1 / n = ((i + 1 : ℕ) : ℝ) / n := by push_cast; rw [add_div]
  rw [ea, Approx.distPt_comm] at hc
  have e2 : 3 / 4 * M * (1 / (n : ℝ)) ^ 2 = 3 / 4 * M / n ^ 2 := by field_simp
  have e3 : 3 / 2 * M / (n : ℝ) ^ 2 = 2 * (3 / 4 * M / n ^ 2) := by ring
  rw [e2] at hc
  rw [e3] at hf
  simp only [Approx.between] at hc
  linarith

theorem covers_refined {ss : List (Poly4 ℝ)} (hj : ∀ k s s', ss[k]? = some s → ss[k + 1]? = some s' → s.d = s'.a) {M : ℝ}
    (hM : ∀ s ∈ ss, bend s ≤ M) {n k : ℕ} (hn : 1 ≤ n) (hk : 1 ≤ k) {p : Pt ℝ} (hp : ∀ q ∈ Approx.traced ss, 3 / 2 * M / n ^ 2 < distPt p q) :
    Covers (pathOf (n * k) ss) p ↔ Covers (pathOf n ss) p := by
  cases ss with
  | nil => rfl
  | cons s ss =>
    rw [covers_iff, covers_iff, cyc_pathOf _ (Nat.mul_pos hn hk) s ss hj, cyc_pathOf _ hn s ss hj]
    rw [List.map_congr_left fun s' hs' => samples_refined hn hk (hM s' hs') (far_chord hn (hM s' hs') fun t t0 t1 => hp _ ⟨s', hs', t, t0, t1, rfl⟩)]

theorem covers_steps {ss : List (Poly4 ℝ)} (hj : ∀ k s s', ss[k]? = some s → ss[k + 1]? = some s' → s.d = s'.a) {M : ℝ}
    (hM : ∀ s ∈ ss, bend s ≤ M) {n n' : ℕ} (hn : 1 ≤ n) (hn' : n ≤ n') {p : Pt ℝ} (hp : ∀ q ∈ Approx.traced ss, 3 / 2 * M / n ^ 2 < distPt p q) :
    Covers (pathOf n ss) p ↔ Covers (pathOf n' ss) p := by
  have hn0 : (0 : ℝ) < n := by exact_mod_cast hn
  have hle : (n : ℝ) ≤ n' := by exact_mod_cast hn'
  rw [← covers_refined hj hM hn (hn.trans hn') hp, ← covers_refined hj hM (hn.trans hn') hn fun q hq => lt_of_le_of_lt ?_ (hp q hq), Nat.mul_comm]
  have hM0 : 0 ≤ M := by
    obtain ⟨s, hs, -⟩ := hq
    exact (Approx.bend_nonneg s).trans (hM s hs)
  gcongr

theorem segs_bend {m : Mat3 ℝ} {cps : List (CP ℝ)} {closed : Bool} {L M : ℝ} (L0 : 0 ≤ L)
    (hL : ∀ p q, distPt (m.apply p) (m.apply q) ≤ L * distPt p q) (hM : ∀ s ∈ segs closed cps, bend s ≤ M) :
    ∀ s ∈ (segs closed cps).map (Poly4.map m.apply), bend s ≤ L * M := by
  intro s hs
  obtain ⟨x, hx, rfl⟩ := List.mem_map.1 hs
  exact Approx.bend_scaled m hL L0 x (hM x hx)

/-- C132: with more steps `bez_path` covers the same points, up to those that are within `3/2 * L * M / steps²` of the curve: `M` bounds how much a segment
bends, `L` how much the transform magnifies. -/
theorem C132_bez_path (m : Mat3 ℝ) (cps : List (CP ℝ)) (closed : Bool) (n n' : ℕ) (hn : 1 ≤ n) (hn' : n ≤ n') (L M : ℝ) (L0 : 0 ≤ L)
    (hL : ∀ p q, distPt (m.apply p) (m.apply q) ≤ L * distPt p q) (hM : ∀ s ∈ segs closed cps, bend s ≤ M) :
    ∃ ps ps', bezPath m.apply cps closed n = xyFlatten ps ∧ bezPath m.apply cps closed n' = xyFlatten ps' ∧
      ∀ p, (∀ q ∈ m.apply '' curveSet closed cps, 3 / 2 * (L * M) / n ^ 2 < distPt p q) → (Covers ps p ↔ Covers ps' p) := by
  refine ⟨_, _, bezPath_eq m.apply cps closed n hn, bezPath_eq m.apply cps closed n' (hn.trans hn'), fun p hp => ?_⟩
  rw [← Approx.traced_map] at hp
  exact covers_steps (Approx.segs_joins closed cps _) (segs_bend L0 hL hM) hn hn' hp

theorem traced_away (ss : List (Poly4 ℝ)) (p : Pt ℝ) (hp : p ∉ Approx.traced ss) : ∃ d, 0 < d ∧ ∀ q ∈ Approx.traced ss, d ≤ distPt p q := by
  induction ss with
  | nil => exact ⟨1, one_pos, by rintro q ⟨s, hs, -⟩; simp at hs⟩
  | cons s ss ih =>
    obtain ⟨d, d0, hd⟩ := ih fun ⟨s', hs', h⟩ => hp ⟨s', by simp [hs'], h⟩
    have hcont : ContinuousOn (fun t : ℝ => distPt p (s.at' t)) (Set.Icc 0 1) := by
      apply Continuous.continuousOn
      simp only [distPt, Poly4.at', bern]
      fun_prop
    obtain ⟨t0, ht0, hmin⟩ := isCompact_Icc.exists_isMinOn ⟨0, by simp⟩ hcont
    refine ⟨min d (distPt p (s.at' t0)), lt_min d0 ?_, ?_⟩
    · rw [distPt, Real.sqrt_pos]
      by_contra hz
      push Not at hz
      apply hp
      refine ⟨s, by simp, t0, ht0.1, ht0.2, ?_⟩
      have h1 : (p.x - (s.at' t0).x) ^ 2 = 0 := by nlinarith [sq_nonneg (p.x - (s.at' t0).x), sq_nonneg (p.y - (s.at' t0).y)]
      have h2 : (p.y - (s.at' t0).y) ^ 2 = 0 := by nlinarith [sq_nonneg (p.x - (s.at' t0).x), sq_nonneg (p.y - (s.at' t0).y)]
      rw [sq_eq_zero_iff, sub_eq_zero] at h1 h2
      ext <;> assumption
    · rintro q ⟨s', hs', t, u0, u1, rfl⟩
      rcases List.mem_cons.1 hs' with rfl | hs'
      · exact (min_le_right _ _).trans (hmin ⟨u0, u1⟩)
      · exact (min_le_left _ _).trans (hd _ ⟨s', hs', t, u0, u1, rfl⟩)

theorem bends_le (ss : List (Poly4 ℝ)) : ∃ M, 0 ≤ M ∧ ∀ s ∈ ss, bend s ≤ M := by
  induction ss with
  | nil => exact ⟨0, le_rfl, by simp⟩
  | cons s ss ih =>
    obtain ⟨M, M0, hM⟩ := ih
    refine ⟨max M (bend s), M0.trans (le_max_left _ _), fun s' hs' => ?_⟩
    rcases List.mem_cons.1 hs' with rfl | hs'
    · exact le_max_right _ _
    · exact (hM s' hs').trans (le_max_left _ _)

/-- C132: every point that is not on the curve is, with enough steps, covered by what `bez_path` returns for all numbers of steps, or for none. -/
theorem C132_limit (m : Mat3 ℝ) (cps : List (CP ℝ)) (closed : Bool) (p : Pt ℝ) (hp : p ∉ m.apply '' curveSet closed cps) :
    ∃ N, ∀ n n', N ≤ n → N ≤ n' → ∃ ps ps', bezPath m.apply cps closed n = xyFlatten ps ∧ bezPath m.apply cps closed n' = xyFlatten ps' ∧
      (Covers ps p ↔ Covers ps' p) := by
  rw [← Approx.traced_map] at hp
  obtain ⟨d, d0, hd⟩ := traced_away _ p hp
  obtain ⟨M, M0, hM⟩ := bends_le ((segs closed cps).map (Poly4.map m.apply))
  obtain ⟨N, hN⟩ := exists_nat_gt (3 / 2 * M / d)
  refine ⟨N + 1, fun n n' h1 h2 => ⟨_, _, bezPath_eq m.apply cps closed n (by omega), bezPath_eq m.apply cps closed n' (by omega), ?_⟩⟩
  have far : ∀ q ∈ Approx.traced ((segs closed cps).map (Poly4.map m.apply)), 3 / 2 * M / ((N + 1 : ℕ) : ℝ) ^ 2 < distPt p q := by
    intro q hq
    refine lt_of_lt_of_le ?_ (hd q hq)
    have h0 : (0 : ℝ) ≤ N := Nat.cast_nonneg N
    rw [div_lt_iff₀ d0] at hN
    push_cast
    rw [div_lt_iff₀ (by positivity)]
    nlinarith [mul_nonneg h0 h0, mul_nonneg d0.le h0, mul_nonneg d0.le (mul_nonneg h0 h0)]
  rw [← covers_steps (Approx.segs_joins closed cps _) hM (by omega) h1 far, ← covers_steps (Approx.segs_joins closed cps _) hM (by omega) h2 far]

/-- C132: two drawing contexts that differ in the number of points per curve fill the same points of a curve element, up to those near the curve. -/
theorem C132_curve (cfg cfg' : DCfg) (h : Hdr) (cps : List (CP ℝ)) (m : Mat3 ℝ) (n n' : ℕ)
    (hn : n = max 1 (if cfg.showCps then 10 else cfg.pointsPerCurve)) (hn' : n' = max 1 (if cfg'.showCps then 10 else cfg'.pointsPerCurve)) (hle : n ≤ n')
    (L M : ℝ) (L0 : 0 ≤ L) (hL : ∀ p q, distPt ((m.mul h.xf).apply p) ((m.mul h.xf).apply q) ≤ L * distPt p q)
    (hM : ∀ s ∈ segs h.closed cps, bend s ≤ M) :
    ∃ q q', drawn cfg (.curve h cps) m = .ok [q] ∧ drawn cfg' (.curve h cps) m = .ok [q'] ∧ q.pb = h.pb ∧ q'.pb = h.pb ∧
      ∀ p, (∀ x ∈ (m.mul h.xf).apply '' curveSet h.closed cps, 3 / 2 * (L * M) / n ^ 2 < distPt p x) → (Covers q.pts p ↔ Covers q'.pts p) := by
  refine ⟨_, _, drawn_basic cfg _ (by simp only [Elem.Basic]) m, drawn_basic cfg' _ (by simp only [Elem.Basic]) m, rfl, rfl, fun p hp => ?_⟩
  rw [← Approx.traced_map] at hp
  rw [← hn, ← hn', ← pathOf_map, ← pathOf_map]
  exact covers_steps (Approx.segs_joins h.closed cps _) (segs_bend L0 hL hM) (by rw [hn]; exact le_max_left _ _) hle hp

/-! ### Morphs -/

/-- C132: what a morph fills at two times differs only near the outline: at points that are at most as far from it as its points move. -/
theorem C132_morph {model : List (CP ℝ) → Elem} {h : Hdr} {source target : List (CP ℝ)} {tfunc : Anim.TFunc} {force : Bool} {m : Morph.M}
    (hm : Morph.mk model h source target tfunc force = .ok m) (hk : Elem.Keyed (model m.orig)) (K : ℝ) (hK : List.Forall₂ (Anim.Apart K) m.orig m.target)
    (cfg : DCfg) (mat : Mat3 ℝ) (L : ℝ) (L0 : 0 ≤ L)
    (hL : ∀ p q, distPt ((mat.mul h.xf).apply p) ((mat.mul h.xf).apply q) ≤ L * distPt p q)
    (ts ts' : List Anim.TVal) (t t' : Anim.TVal) (s s' : ℝ) (hs : tfunc t = .ok (.num s)) (hs' : tfunc t' = .ok (.num s')) :
    ∃ m1 m2 q q', (m.after ts).update t = .ok m1 ∧ (m.after ts').update t' = .ok m2 ∧
      drawn cfg (.curve h m1.morph) mat = .ok [q] ∧ drawn cfg (.curve h m2.morph) mat = .ok [q'] ∧
      ∀ p, (∀ x, OnSide q.pts x → L * (K * |s - s'|) < distPt p x) → (Covers q.pts p ↔ Covers q'.pts p) := by
  obtain ⟨m1, m2, pts, pts', u1, u2, d1, d2, d3⟩ := Anim.C129_morph hm hk K hK cfg mat L L0 hL ts ts' t t' s s' hs hs'
  exact ⟨m1, m2, _, _, u1, u2, d1, d2, fun p hp => covers_near d3 hp⟩

/-! ### Rounding -/

theorem pathG_forall₂ {α : Type*} {D : Pt ℝ → Pt ℝ → Prop} {g g' : Poly4 ℝ → ℕ → Pt ℝ} {n : ℕ} {A B : α → Poly4 ℝ} :
    ∀ l : List α, (∀ x ∈ l, ∀ i ≤ n, D (g (A x) i) (g' (B x) i)) → List.Forall₂ D (pathG g n (l.map A)) (pathG g' n (l.map B)) := by
  intro l h
  have one : ∀ x ∈ l, List.Forall₂ D ((List.range (n + 1)).map (g (A x))) ((List.range (n + 1)).map (g' (B x))) := by
    intro x hx
    rw [List.forall₂_map_left_iff, List.forall₂_map_right_iff, List.forall₂_same]
    intro i hi
    exact h x hx i (Nat.lt_succ_iff.1 (List.mem_range.1 hi))
  have tl : ∀ {a b : List (Pt ℝ)}, List.Forall₂ D a b → List.Forall₂ D a.tail b.tail := by
    intro a b hab
    cases hab with
    | nil => exact .nil
    | cons _ h => exact h
  cases l with
  | nil => exact .nil
  | cons x l =>
    simp only [List.map_cons, pathG]
    refine List.rel_append (one x (by simp)) ?_
    have : ∀ r : List α, (∀ y ∈ r, y ∈ x :: l) → List.Forall₂ D ((r.map A).flatMap fun s => ((List.range (n + 1)).map (g s)).tail)
        ((r.map B).flatMap fun s => ((List.range (n + 1)).map (g' s)).tail) := by
      intro r
      induction r with
      | nil => intro _; exact .nil
      | cons y r ih =>
        intro hr
        simp only [List.map_cons, List.flatMap_cons]
        exact List.rel_append (tl (one y (hr y (by simp)))) (ih fun z hz => hr z (by simp [hz]))
    exact this l fun y hy => by simp [hy]

theorem bern_slow {a b c d X t t' : ℝ} (ha : |a| ≤ X) (hb : |b| ≤ X) (hc : |c| ≤ X) (hd : |d| ≤ X) (t0 : 0 ≤ t) (t1 : t ≤ 1) (u0 : 0 ≤ t') (u1 : t' ≤ 1) :
    |((1 - t) ^ 3 * a + 3 * (1 - t) ^ 2 * t * b + 3 * (1 - t) * t ^ 2 * c + t ^ 3 * d) -
      ((1 - t') ^ 3 * a + 3 * (1 - t') ^ 2 * t' * b + 3 * (1 - t') * t' ^ 2 * c + t' ^ 3 * d)| ≤ 6 * X * |t - t'| := by
  have key : ∀ x y z u v : ℝ, |x| ≤ X → |y| ≤ X → |z| ≤ X → 0 ≤ u → u ≤ 1 → 0 ≤ v → v ≤ 1 →
      |(1 - u) * (1 - v) * x + ((1 - u) * v + u * (1 - v)) * y + u * v * z| ≤ X := by
    intro x y z u v hx hy hz u0 u1 v0 v1
    have u2 : 0 ≤ 1 - u := by linarith
    have v2 : 0 ≤ 1 - v := by linarith
    have w0 := mul_nonneg u2 v2
    have w1 : 0 ≤ (1 - u) * v + u * (1 - v) := by positivity
    have w2 := mul_nonneg u0 v0
    rw [abs_le] at hx hy hz ⊢
    constructor
    · linarith [mul_le_mul_of_nonneg_left hx.1 w0, mul_le_mul_of_nonneg_left hy.1 w1, mul_le_mul_of_nonneg_left hz.1 w2]
    · linarith [mul_le_mul_of_nonneg_left hx.2 w0, mul_le_mul_of_nonneg_left hy.2 w1, mul_le_mul_of_nonneg_left hz.2 w2]
  have e : ((1 - t) ^ 3 * a + 3 * (1 - t) ^ 2 * t * b + 3 * (1 - t) * t ^ 2 * c + t ^ 3 * d) -
      ((1 - t') ^ 3 * a + 3 * (1 - t') ^ 2 * t' * b + 3 * (1 - t') * t' ^ 2 * c + t' ^ 3 * d) =
      ((((1 - t) * (1 - t) * b + ((1 - t) * t + t * (1 - t)) * c + t * t * d) - ((1 - t) * (1 - t) * a + ((1 - t) * t + t * (1 - t)) * b + t * t * c)) +
        (((1 - t) * (1 - t') * b + ((1 - t) * t' + t * (1 - t')) * c + t * t' * d) -
          ((1 - t) * (1 - t') * a + ((1 - t) * t' + t * (1 - t')) * b + t * t' * c)) +
        (((1 - t') * (1 - t') * b + ((1 - t') * t' + t' * (1 - t')) * c + t' * t' * d) -
          ((1 - t') * (1 - t') * a + ((1 - t') * t' + t' * (1 - t')) * b + t' * t' * c))) * (t - t') := by ring
  rw [e, abs_mul]
  refine mul_le_mul_of_nonneg_right ?_ (abs_nonneg _)
  have k1 := abs_le.1 (key b c d t t hb hc hd t0 t1 t0 t1)
  have k2 := abs_le.1 (key a b c t t ha hb hc t0 t1 t0 t1)
  have k3 := abs_le.1 (key b c d t t' hb hc hd t0 t1 u0 u1)
  have k4 := abs_le.1 (key a b c t t' ha hb hc t0 t1 u0 u1)
  have k5 := abs_le.1 (key b c d t' t' hb hc hd u0 u1 u0 u1)
  have k6 := abs_le.1 (key a b c t' t' ha hb hc u0 u1 u0 u1)
  rw [abs_le]
  constructor <;> linarith [k1.1, k1.2, k2.1, k2.2, k3.1, k3.2, k4.1, k4.2, k5.1, k5.2, k6.1, k6.2]

theorem apply_bounded (m : Mat3 ℝ) {q : Pt ℝ} {Bx By : ℝ} (hx : |q.x| ≤ Bx) (hy : |q.y| ≤ By) :
    |(m.apply q).x| ≤ |m.a| * Bx + |m.b| * By + |m.c| ∧ |(m.apply q).y| ≤ |m.d| * Bx + |m.e| * By + |m.f| := by
  have key : ∀ a b c : ℝ, |a * q.x + b * q.y + c| ≤ |a| * Bx + |b| * By + |c| := by
    intro a b c
    refine (abs_add_three _ _ _).trans ?_
    rw [abs_mul, abs_mul]
    gcongr
  exact ⟨key _ _ _, key _ _ _⟩

/-- C132: with every operation of `bez_path` rounded every point it returns moves by at most thirteen roundings of the size of the coordinates and six of the
parameter,
and what the path covers changes only at points no farther from its sides than that. -/
theorem C132_rounded (R : Rnd) (mode : DotMode) (m : Mat3 ℝ) (cps : List (CP ℝ)) (closed : Bool) (steps : ℕ) (hs : 1 ≤ steps)
    (Bx By : ℝ) (hb : ∀ cp ∈ cps, cp.Bounded Bx By) :
    let δ := √(((R.gam 13 + 6 * R.u) * (|m.a| * Bx + |m.b| * By + |m.c|)) ^ 2 + ((R.gam 13 + 6 * R.u) * (|m.d| * Bx + |m.e| * By + |m.f|)) ^ 2)
    ∃ ps ps', bezPath m.apply cps closed steps = xyFlatten ps ∧ Fl.bezPath R (Fl.apply R mode m) cps closed steps = xyFlatten ps' ∧
      List.Forall₂ (fun p q => distPt p q ≤ δ) ps ps' ∧ ∀ p, (∀ x, OnSide ps x → δ < distPt p x) → (Covers ps p ↔ Covers ps' p) := by
  intro δ
  have hd : List.Forall₂ (fun p q => distPt p q ≤ δ) (pathOf steps ((segs closed cps).map (Poly4.map m.apply)))
      (pathG (Fl.sampleAt R steps) steps ((neighbours closed cps).map (Fl.fseg R (Fl.apply R mode m)))) := by
    rw [Approx.segs_neighbours, List.map_map]
    have e : ∀ l, pathOf steps l = pathG (fun (s : Poly4 ℝ) (i : ℕ) => s.at' ((i : ℝ) / steps)) steps l := by
      intro l; cases l <;> rfl
    rw [e]
    refine pathG_forall₂ _ ?_
    rintro ⟨p, q⟩ hpq i hi
    obtain ⟨hp', hq'⟩ := Fl.mem_neighbours hpq
    obtain ⟨c1, -, r1⟩ := Fl.cp_near (R := R) (hb p hp')
    obtain ⟨c2, l2, -⟩ := Fl.cp_near (R := R) (hb q hq')
    have key : ∀ {x' x : Pt ℝ}, Fl.NearPt R 1 x' x Bx By →
        R.Near 4 (Fl.apply R mode m x').x (m.apply x).x (|m.a| * Bx + |m.b| * By + |m.c|) ∧
        R.Near 4 (Fl.apply R mode m x').y (m.apply x).y (|m.d| * Bx + |m.e| * By + |m.f|) :=
      fun hx => ⟨Fl.apply_near_x mode m hx.1 hx.2, Fl.apply_near_y mode m hx.1 hx.2⟩
    have hn := Fl.sampleAt_near (R := R) (k := 4) (s := (seg p q).map m.apply) (s' := Fl.fseg R (Fl.apply R mode m) (p, q))
      hs hi (key c1) (key r1) (key l2) (key c2)
    have bd : ∀ {x' x : Pt ℝ}, Fl.NearPt R 1 x' x Bx By → |(m.apply x).x| ≤ |m.a| * Bx + |m.b| * By + |m.c| ∧ |(m.apply x).y| ≤ |m.d| * Bx + |m.e| * By + |m.f| :=
      fun hx => apply_bounded m hx.1.1 hx.2.1
    obtain ⟨v0, v1⟩ := Fl.quot_mem (R := R) hs hi
    have hp0 : (0 : ℝ) < steps := by exact_mod_cast hs
    have w1 : (i : ℝ) / steps ≤ 1 := by rw [div_le_one hp0]; exact_mod_cast hi
    have w0 : 0 ≤ (i : ℝ) / steps := by positivity
    have hu : |(i : ℝ) / steps - R.fl ((i : ℝ) / steps)| ≤ R.u := by
      rw [abs_sub_comm]
      refine (R.err _).trans ?_
      rw [abs_of_nonneg w0]
      exact mul_le_of_le_one_right R.u_nonneg w1
    have X0 : 0 ≤ |m.a| * Bx + |m.b| * By + |m.c| := (abs_nonneg _).trans (bd c1).1
    have Y0 : 0 ≤ |m.d| * Bx + |m.e| * By + |m.f| := (abs_nonneg _).trans (bd c1).2
    have sx := bern_slow (bd c1).1 (bd r1).1 (bd l2).1 (bd c2).1 w0 w1 v0 v1
    have sy := bern_slow (bd c1).2 (bd r1).2 (bd l2).2 (bd c2).2 w0 w1 v0 v1
    have ux := sx.trans (mul_le_mul_of_nonneg_left hu (by positivity))
    have uy := sy.trans (mul_le_mul_of_nonneg_left hu (by positivity))
    have gx := hn.1.2
    have gy := hn.2.2
    have dx : |((bern (m.apply p.c) (m.apply ⟨p.c.x + p.dr.x, p.c.y + p.dr.y⟩) (m.apply ⟨q.c.x + q.dl.x, q.c.y + q.dl.y⟩) (m.apply q.c) ((i : ℝ) / steps)).x -
        (Fl.sampleAt R steps (Fl.fseg R (Fl.apply R mode m) (p, q)) i).x)| ≤ (R.gam 13 + 6 * R.u) * (|m.a| * Bx + |m.b| * By + |m.c|) := by
      rw [abs_sub_comm] at gx
      refine (abs_sub_le _ _ _).trans ((add_le_add ux gx).trans (le_of_eq ?_))
      ring
    have dy : |((bern (m.apply p.c) (m.apply ⟨p.c.x + p.dr.x, p.c.y + p.dr.y⟩) (m.apply ⟨q.c.x + q.dl.x, q.c.y + q.dl.y⟩) (m.apply q.c) ((i : ℝ) / steps)).y -
        (Fl.sampleAt R steps (Fl.fseg R (Fl.apply R mode m) (p, q)) i).y)| ≤ (R.gam 13 + 6 * R.u) * (|m.d| * Bx + |m.e| * By + |m.f|) := by
      rw [abs_sub_comm] at gy
      refine (abs_sub_le _ _ _).trans ((add_le_add uy gy).trans (le_of_eq ?_))
      ring
    refine Real.sqrt_le_sqrt (add_le_add ?_ ?_)
    · exact sq_le_sq' (abs_le.1 dx).1 (abs_le.1 dx).2
    · exact sq_le_sq' (abs_le.1 dy).1 (abs_le.1 dy).2
  exact ⟨_, _, bezPath_eq m.apply cps closed steps hs, Fl.bezPath_eq (R := R) (Fl.apply R mode m) cps closed steps hs, hd, fun p hp => covers_near hd hp⟩

/-! ### A case that meets the hypotheses -/

/-- A square as a curve without handles: its sides bend by two, its centre is far enough from it for twenty points per curve, and the transform is one. -/
example : let cps : List (CP ℝ) := [⟨⟨0, 0⟩, ⟨0, 0⟩, ⟨0, 0⟩, "sharp"⟩, ⟨⟨0, 2⟩, ⟨0, 0⟩, ⟨0, 0⟩, "sharp"⟩, ⟨⟨2, 2⟩, ⟨0, 0⟩, ⟨0, 0⟩, "sharp"⟩,
      ⟨⟨2, 0⟩, ⟨0, 0⟩, ⟨0, 0⟩, "sharp"⟩]
    (∀ p q, distPt ((Mat3.one : Mat3 ℝ).apply p) (Mat3.one.apply q) ≤ 1 * distPt p q) ∧ (∀ s ∈ segs true cps, bend s ≤ 2) ∧
      ∀ q ∈ (Mat3.one : Mat3 ℝ).apply '' curveSet true cps, 3 / 2 * (1 * 2) / (20 : ℕ) ^ 2 < distPt ⟨1, 1⟩ q := by
  intro cps
  have one : ∀ p : Pt ℝ, (Mat3.one : Mat3 ℝ).apply p = p := fun p => by ext <;> simp [Mat3.apply, Mat3.one]
  have hs : segs true cps = [⟨⟨0, 0⟩, ⟨0, 0⟩, ⟨0, 2⟩, ⟨0, 2⟩⟩, ⟨⟨0, 2⟩, ⟨0, 2⟩, ⟨2, 2⟩, ⟨2, 2⟩⟩, ⟨⟨2, 2⟩, ⟨2, 2⟩, ⟨2, 0⟩, ⟨2, 0⟩⟩,
      ⟨⟨2, 0⟩, ⟨2, 0⟩, ⟨0, 0⟩, ⟨0, 0⟩⟩] := by
    simp [cps, segs, closedSegs, seg]
  refine ⟨fun p q => by rw [one, one, one_mul], ?_, ?_⟩
  · intro s h
    rw [hs] at h
    simp only [List.mem_cons, List.not_mem_nil, or_false] at h
    rcases h with rfl | rfl | rfl | rfl <;> rw [bend, max_le_iff, Real.sqrt_le_iff, Real.sqrt_le_iff] <;> norm_num
  · rw [← Approx.traced_map, hs]
    rintro q ⟨s, h, t, t0, t1, rfl⟩
    rw [distPt, Real.lt_sqrt (by norm_num)]
    simp only [List.map_cons, List.map_nil, Poly4.map, one, List.mem_cons, List.not_mem_nil, or_false] at h
    rcases h with rfl | rfl | rfl | rfl <;> simp only [Poly4.at', bern]
    · nlinarith [sq_nonneg (1 - ((1 - t) ^ 3 * 0 + 3 * (1 - t) ^ 2 * t * 0 + 3 * (1 - t) * t ^ 2 * 2 + t ^ 3 * (2 : ℝ)))]
    · have : (1 : ℝ) - ((1 - t) ^ 3 * 2 + 3 * (1 - t) ^ 2 * t * 2 + 3 * (1 - t) * t ^ 2 * 2 + t ^ 3 * 2) = -1 := by ring
      rw [this]
      nlinarith [sq_nonneg (1 - ((1 - t) ^ 3 * 0 + 3 * (1 - t) ^ 2 * t * 0 + 3 * (1 - t) * t ^ 2 * 2 + t ^ 3 * (2 : ℝ)))]
    · have : (1 : ℝ) - ((1 - t) ^ 3 * 2 + 3 * (1 - t) ^ 2 * t * 2 + 3 * (1 - t) * t ^ 2 * 2 + t ^ 3 * 2) = -1 := by ring
      rw [this]
      nlinarith [sq_nonneg (1 - ((1 - t) ^ 3 * 2 + 3 * (1 - t) ^ 2 * t * 2 + 3 * (1 - t) * t ^ 2 * 0 + t ^ 3 * (0 : ℝ)))]
    · nlinarith [sq_nonneg (1 - ((1 - t) ^ 3 * 2 + 3 * (1 - t) ^ 2 * t * 2 + 3 * (1 - t) * t ^ 2 * 0 + t ^ 3 * (0 : ℝ)))]

end X7.Elem
