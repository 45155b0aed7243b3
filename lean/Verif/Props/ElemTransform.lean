import Verif.Props.Elem
import Verif.Props.TransformGeom
import Verif.Lemmas.ElemBBox
import Verif.Lemmas.RoundedSwap

/-!
C38: transforming rectangles, rounded rectangles and ellipses.
-/

namespace X7.Elem

/-- No entry of the linear part is so small that `simplify` snaps it to zero, except exact zeros. -/
def Clean (x : Mat3 ℝ) : Prop := ∀ v ∈ [x.a, x.b, x.d, x.e], v = 0 ∨ 1 / 10 ^ 16 ≤ |v|

/-- The matrix of the residual transform of `simplify`. -/
noncomputable def residual (x : Mat3 ℝ) : Mat3 ℝ := (TState.simplify ⟨x, none, []⟩).2.mat

theorem simplify_onlyMat (s : TState) : s.simplify.2 = (TState.simplify ⟨s.mat, none, []⟩).2 := rfl

open Classical in
theorem residual_clean {x : Mat3 ℝ} (hc : Clean x) :
    residual x = if (x.b = 0 ∧ x.d = 0) ∨ (x.a = 0 ∧ x.e = 0) then Mat3.one else Mat3.of6 x.a x.b 0 x.d x.e 0 := by
  have fix : ∀ v ∈ [x.a, x.b, x.d, x.e], (TState.nearZero v ↔ v = 0) := by
    intro v hv
    rcases hc v hv with h | h
    · simp [TState.nearZero, h]
    · constructor
      · intro h'; exact absurd h' (not_lt.2 h)
      · intro h'; rw [h', abs_zero] at h; norm_num at h
  have ha := fix x.a (by simp)
  have hb := fix x.b (by simp)
  have hd := fix x.d (by simp)
  have he := fix x.e (by simp)
  have snap : ∀ v, (TState.nearZero v ↔ v = 0) → (if TState.nearZero v then 0 else v) = v := by
    intro v h
    split
    · rename_i h'; exact (h.1 h').symm
    · rfl
  simp only [residual, TState.simplify, TState.isSimple, ha, hb, hd, he]
  split
  · rfl
  · simp only [TState.new6]
    congr 1
    all_goals split <;> rename_i h' <;> first | exact h'.symm | rfl

open Classical in
/-- What `transform_pts` of a two-point shape returns. -/
theorem transformPtsP_eq (xf : Mat3 ℝ) (m : TState) (points : List (Pt ℝ)) (hne : points ≠ []) :
    ∃ m', m'.mat = m.mat ∧ m'.stack = m.stack ∧ transformPtsP xf m points = (m',
      match (residual (m.mat.mul xf)).inv with
      | .ok i => .ok (residual (m.mat.mul xf), points.map fun p => i.apply ((m.mat.mul xf).apply p))
      | .error e => .error e) := by
  set x := m.push.compose xf with hx
  have hxm : x.mat = m.mat.mul xf := rfl
  have go_inv : ∀ (ps : List (Pt ℝ)) (rot : TState) (i : Mat3 ℝ), rot.mat = residual x.mat → rot.inv = some i →
      transformPtsP.go x rot ps = .ok (ps.map fun p => i.apply (x.mat.apply p)) := by
    intro ps
    induction ps with
    | nil => intro rot i _ _; simp [transformPtsP.go]
    | cons p ps ih =>
      intro rot i h1 h2
      simp only [transformPtsP.go, TState.untransform, TState.inverse, h2, TState.transform]
      rw [ih rot i h1 h2]
      rfl
  have hrinv : x.simplify.2.inv = none := by
    unfold TState.simplify
    split <;> rfl
  have hgo : transformPtsP.go x x.simplify.2 points =
      match (residual x.mat).inv with
      | .ok i => .ok (points.map fun p => i.apply (x.mat.apply p))
      | .error e => .error e := by
    cases points with
    | nil => exact absurd rfl hne
    | cons p ps =>
      have hr : x.simplify.2.mat = residual x.mat := rfl
      simp only [transformPtsP.go, TState.untransform, TState.inverse, hrinv, hr]
      cases hi : (residual x.mat).inv with
      | error e => rfl
      | ok i =>
        simp only
        rw [go_inv ps ⟨residual x.mat, some i, x.simplify.2.stack⟩ i rfl rfl]
        rfl
  refine ⟨⟨m.mat, none, m.stack⟩, rfl, rfl, ?_⟩
  unfold transformPtsP
  rw [drawSpace_eq]
  · rw [← hx]
    simp only
    rw [hgo, hxm]
    cases (residual (m.mat.mul xf)).inv <;> rfl
  · intro y
    simp only
    split <;> exact ⟨rfl, rfl⟩

/-- A residual that is not the identity only moves the points: by one vector `w`, which the residual maps to the translation. -/
theorem residual_shift {x i : Mat3 ℝ} (hx : x.Affine) (ha : (Mat3.of6 x.a x.b 0 x.d x.e 0).inv = .ok i) :
    ∃ w : Vec ℝ, (∀ p, i.apply (x.apply p) = p.addVector w) ∧
      ∀ p, (Mat3.of6 x.a x.b 0 x.d x.e 0).apply (p.addVector w) = x.apply p := by
  set A := Mat3.of6 x.a x.b 0 x.d x.e 0 with hA
  have hAa : A.Affine := Mat3.affine_of6 ..
  have hia : i.Affine := Mat3.inv_affine hAa ha
  obtain ⟨_, h1, h2⟩ := Mat3.inv_ok ha
  have k1 : ∀ q, A.apply (i.apply q) = q := fun q => by rw [← Mat3.apply_mul hia, h1, Mat3.apply_one]
  have k2 : ∀ q, i.apply (A.apply q) = q := fun q => by rw [← Mat3.apply_mul hAa, h2, Mat3.apply_one]
  have hw := k1 ⟨x.c, x.f⟩
  have key : ∀ p, A.apply (p.addVector ⟨(i.apply ⟨x.c, x.f⟩).x, (i.apply ⟨x.c, x.f⟩).y⟩) = x.apply p := by
    intro p
    generalize i.apply ⟨x.c, x.f⟩ = w at hw
    have hwx := congrArg Pt.x hw
    have hwy := congrArg Pt.y hw
    simp only [hA, Mat3.of6, Mat3.apply] at hwx hwy
    ext <;> simp only [hA, Mat3.of6, Mat3.apply, Pt.addVector] <;> linarith
  exact ⟨⟨_, _⟩, fun p => by rw [← key p, k2], key⟩

/-- What drawing a rectangle gives. -/
theorem drawn_rect (cfg : DCfg) (h : Hdr) (p1 p2 : Pt ℝ) (m : Mat3 ℝ) : drawn cfg (.rect h p1 p2) m =
    .ok [⟨h.pb, h.closed, [p1, ⟨p1.x, p2.y⟩, p2, ⟨p2.x, p1.y⟩, p1].map (m.mul h.xf).apply⟩] := by
  rw [drawn_basic cfg (.rect h p1 p2) trivial]; rfl

/-- The inverse of the identity. -/
theorem inv_one : (Mat3.one : Mat3 ℝ).inv = .ok Mat3.one := by
  obtain ⟨i, hi⟩ := Mat3.inv_isOk (m := (Mat3.one : Mat3 ℝ)) (by simp [Mat3.one, Mat3.det])
  have := (Mat3.inv_ok hi).2.1
  rw [Mat3.one_mul'] at this
  rw [hi, this]

/-- C38: `transform` succeeds unless the composed matrix is singular and not axis preserving (then it is a `LinAlgError`); in
every case the caller's matrix and its stack are as before. -/
theorem C38_caller_matrix (h : Hdr) (p1 p2 : Pt ℝ) (m : TState) (hc : Clean (m.mat.mul h.xf)) :
    let x := m.mat.mul h.xf
    (transform (.rect h p1 p2) m).1.mat = m.mat ∧ (transform (.rect h p1 p2) m).1.stack = m.stack ∧
    ((∃ e, (transform (.rect h p1 p2) m).2 = .ok e) ↔
      (x.b = 0 ∧ x.d = 0) ∨ (x.a = 0 ∧ x.e = 0) ∨ x.a * x.e - x.b * x.d ≠ 0) ∧
    ((¬ ∃ e, (transform (.rect h p1 p2) m).2 = .ok e) → (transform (.rect h p1 p2) m).2 = .error .linAlg) := by
  intro x
  obtain ⟨m', h1, h2, h3⟩ := transformPtsP_eq h.xf m [p1, p2] (by simp)
  have hx : x = m.mat.mul h.xf := rfl
  rw [← hx] at h3 hc
  simp only [transform, h3]
  cases hi : (residual x).inv with
  | ok i =>
    simp only [List.map_cons, List.map_nil, h1, h2, true_and, Except.ok.injEq, exists_eq', true_iff, not_true, false_implies, and_true]
    by_cases hs : (x.b = 0 ∧ x.d = 0) ∨ (x.a = 0 ∧ x.e = 0)
    · rcases hs with hs | hs
      · exact .inl hs
      · exact .inr (.inl hs)
    · rw [residual_clean hc, if_neg hs] at hi
      have := (Mat3.inv_ok hi).1
      exact .inr (.inr (by simpa [Mat3.det, Mat3.of6] using this))
  | error e =>
    have he : e = .linAlg := by
      unfold Mat3.inv at hi
      split at hi <;> simp_all
    subst he
    simp only [h1, h2, true_and, reduceCtorEq, exists_false, false_iff, not_false_eq_true, implies_true, and_true]
    rintro (hs | hs | hs)
    · rw [residual_clean hc, if_pos (.inl hs), inv_one] at hi; simp at hi
    · rw [residual_clean hc, if_pos (.inr hs), inv_one] at hi; simp at hi
    · by_cases hs' : (x.b = 0 ∧ x.d = 0) ∨ (x.a = 0 ∧ x.e = 0)
      · rw [residual_clean hc, if_pos hs', inv_one] at hi; simp at hi
      · rw [residual_clean hc, if_neg hs'] at hi
        obtain ⟨i, hi'⟩ := Mat3.inv_isOk (m := Mat3.of6 x.a x.b 0 x.d x.e 0) (by simpa [Mat3.det, Mat3.of6] using hs)
        rw [hi'] at hi; simp at hi

/-- C38: a rectangle transformed by `m` and drawn under any context gives the same five points as the original drawn under the
composed matrix. They come in the same order, or, possible only when the composed matrix exchanges the axes, backwards. -/
theorem C38_rect (cfg : DCfg) (h : Hdr) (p1 p2 : Pt ℝ) (m m' s : TState) (e' : Elem) (hcl : h.closed = true)
    (hx : h.xf.Affine) (hm : m.mat.Affine) (hc : Clean (m.mat.mul h.xf))
    (ht : transform (.rect h p1 p2) m = (m', .ok e')) :
    ∃ pts, drawn cfg (.rect h p1 p2) (s.mat.mul m.mat) = .ok [⟨h.pb, true, pts⟩] ∧ pts.length = 5 ∧
      ((paths cfg e' s).2 = .ok [⟨h.pb, true, pts⟩] ∨
        (paths cfg e' s).2 = .ok [⟨h.pb, true, pts.reverse⟩] ∧ (m.mat.mul h.xf).a = 0 ∧ (m.mat.mul h.xf).e = 0) := by
  obtain ⟨m'', h1, h2, h3⟩ := transformPtsP_eq h.xf m [p1, p2] (by simp)
  have hxa : (m.mat.mul h.xf).Affine := Mat3.affine_mul hm hx
  simp only [transform, h3] at ht
  have hD : ∀ q, ((s.mat.mul m.mat).mul h.xf).apply q = s.mat.apply ((m.mat.mul h.xf).apply q) := by
    intro q; rw [Mat3.mul_assoc', Mat3.apply_mul hxa]
  rw [drawn_rect, hcl]
  refine ⟨_, rfl, rfl, ?_⟩
  rw [drawn_push]
  generalize m.mat.mul h.xf = x at *
  cases hi : (residual x).inv with
  | error e => rw [hi] at ht; simp at ht
  | ok i =>
    rw [hi] at ht
    simp only [List.map_cons, List.map_nil, Prod.mk.injEq, Except.ok.injEq] at ht
    obtain ⟨_, rfl⟩ := ht
    rw [drawn_rect]
    by_cases hs : (x.b = 0 ∧ x.d = 0) ∨ (x.a = 0 ∧ x.e = 0)
    · rw [residual_clean hc, if_pos hs, inv_one] at hi
      injection hi with hi
      subst hi
      simp only [residual_clean hc, if_pos hs, Mat3.apply_one, Mat3.mul_one', List.map_cons, List.map_nil, hD]
      have hxq : ∀ q : Pt ℝ, x.apply q = ⟨x.a * q.x + x.b * q.y + x.c, x.d * q.x + x.e * q.y + x.f⟩ := fun _ => rfl
      rcases hs with ⟨hb, hd⟩ | ⟨ha, he⟩
      · left
        simp only [hxq, hb, hd]
        simp
      · right
        refine ⟨?_, ha, he⟩
        simp only [hxq, ha, he]
        simp
    · rw [residual_clean hc, if_neg hs] at hi
      obtain ⟨w, hw1, hw2⟩ := residual_shift hxa hi
      left
      have hres : residual x = Mat3.of6 x.a x.b 0 x.d x.e 0 := by rw [residual_clean hc, if_neg hs]
      have ho : ∀ q, (s.mat.mul (residual x)).apply (q.addVector w) = s.mat.apply (x.apply q) := by
        intro q
        rw [hres, Mat3.apply_mul (Mat3.affine_of6 ..), hw2]
      simp only [hw1, List.map_cons, List.map_nil, hD]
      have e1 : (⟨(p1.addVector w).x, (p2.addVector w).y⟩ : Pt ℝ) = (⟨p1.x, p2.y⟩ : Pt ℝ).addVector w := rfl
      have e2 : (⟨(p2.addVector w).x, (p1.addVector w).y⟩ : Pt ℝ) = (⟨p2.x, p1.y⟩ : Pt ℝ).addVector w := rfl
      rw [e1, e2, ho, ho, ho, ho]

/-! ### Ellipses -/

/-- The points at the times in `T` of the four quarters of an ellipse. -/
def OnEll (T : Set ℝ) (c : Pt ℝ) (rx ry : ℝ) (q : Pt ℝ) : Prop :=
  ∃ u v t : ℝ, (u = 1 ∨ u = -1) ∧ (v = 1 ∨ v = -1) ∧ t ∈ T ∧ q = ⟨c.x + u * rx * quarterX t, c.y + v * ry * quarterY t⟩

theorem onEll_neg_x (T : Set ℝ) (c : Pt ℝ) (rx ry : ℝ) (q : Pt ℝ) : OnEll T c (-rx) ry q ↔ OnEll T c rx ry q := by
  have neg : ∀ u : ℝ, (u = 1 ∨ u = -1) → (-u = 1 ∨ -u = -1) := by
    rintro u (h | h)
    · right; rw [h]
    · left; rw [h]; ring
  constructor <;> rintro ⟨u, v, t, hu, hv, ht, rfl⟩ <;> refine ⟨-u, v, t, neg u hu, hv, ht, ?_⟩ <;> ext <;> simp

theorem onEll_neg_y (T : Set ℝ) (c : Pt ℝ) (rx ry : ℝ) (q : Pt ℝ) : OnEll T c rx (-ry) q ↔ OnEll T c rx ry q := by
  have neg : ∀ u : ℝ, (u = 1 ∨ u = -1) → (-u = 1 ∨ -u = -1) := by
    rintro u (h | h)
    · right; rw [h]
    · left; rw [h]; ring
  constructor <;> rintro ⟨u, v, t, hu, hv, ht, rfl⟩ <;> refine ⟨u, -v, t, hu, neg v hv, ht, ?_⟩ <;> ext <;> simp

theorem onEll_abs (T : Set ℝ) (c : Pt ℝ) (a b rx ry : ℝ) (q : Pt ℝ) :
    OnEll T c (|a| * rx) (|b| * ry) q ↔ OnEll T c (a * rx) (b * ry) q := by
  rcases abs_choice a with h | h <;> rcases abs_choice b with h' | h' <;> rw [h, h'] <;>
    simp only [neg_mul, onEll_neg_x, onEll_neg_y]

theorem ellipse_mem (T : Set ℝ) (hT : ∀ t ∈ T, 1 - t ∈ T) (c : Pt ℝ) (rx ry : ℝ) (q : Pt ℝ) :
    (∃ s ∈ segs true (makeEllipseCps c rx ry), ∃ t ∈ T, q = s.at' t) ↔ OnEll T c rx ry q := by
  rw [ellipse_segs]
  have hx : ∀ t, quarterX (1 - t) = quarterY t := fun t => (quarter_swap t).1
  have hy : ∀ t, quarterY (1 - t) = quarterX t := fun t => (quarter_swap t).2
  constructor
  · rintro ⟨s, hs, t, ht, rfl⟩
    simp only [List.mem_cons, List.not_mem_nil, or_false] at hs
    rcases hs with rfl | rfl | rfl | rfl <;> rw [quarter_at]
    · exact ⟨1, -1, t, .inl rfl, .inr rfl, ht, by ext <;> simp <;> ring⟩
    · exact ⟨-1, -1, 1 - t, .inr rfl, .inr rfl, hT t ht, by ext <;> simp [hx, hy] <;> ring⟩
    · exact ⟨-1, 1, t, .inr rfl, .inl rfl, ht, by ext <;> simp <;> ring⟩
    · exact ⟨1, 1, 1 - t, .inl rfl, .inl rfl, hT t ht, by ext <;> simp [hx, hy] <;> ring⟩
  · rintro ⟨u, v, t, hu, hv, ht, rfl⟩
    rcases hu with rfl | rfl <;> rcases hv with rfl | rfl
    · exact ⟨quarter c ⟨0, ry⟩ ⟨rx, 0⟩, by simp, 1 - t, hT t ht, by rw [quarter_at]; ext <;> simp [hx, hy] <;> ring⟩
    · exact ⟨quarter c ⟨rx, 0⟩ ⟨0, -ry⟩, by simp, t, ht, by rw [quarter_at]; ext <;> simp <;> ring⟩
    · exact ⟨quarter c ⟨-rx, 0⟩ ⟨0, ry⟩, by simp, t, ht, by rw [quarter_at]; ext <;> simp <;> ring⟩
    · exact ⟨quarter c ⟨0, -ry⟩ ⟨-rx, 0⟩, by simp, 1 - t, hT t ht, by rw [quarter_at]; ext <;> simp [hx, hy] <;> ring⟩

/-- The times used for `n` steps. -/
def steps (n : ℕ) : Set ℝ := {t | ∃ i : ℕ, i ≤ n ∧ t = (i : ℝ) / n}

theorem steps_symm (n : ℕ) (hn : 1 ≤ n) : ∀ t ∈ steps n, 1 - t ∈ steps n := by
  rintro t ⟨i, hi, rfl⟩
  refine ⟨n - i, by omega, ?_⟩
  have : (n : ℝ) ≠ 0 := by exact_mod_cast (by omega : n ≠ 0)
  rw [Nat.cast_sub hi]
  field_simp

theorem mem_pathOf_iff (n : ℕ) (hn : 1 ≤ n) (closed : Bool) (cps : List (CP ℝ)) (q : Pt ℝ) :
    q ∈ pathOf n (segs closed cps) ↔ ∃ s ∈ segs closed cps, ∃ t ∈ steps n, q = s.at' t := by
  constructor
  · intro hq
    have key : ∀ s : Poly4 ℝ, q ∈ (List.range (n + 1)).map (fun (i : ℕ) => s.at' ((i : ℝ) / n)) →
        ∃ t ∈ steps n, q = s.at' t := by
      intro s hs
      obtain ⟨i, hi, rfl⟩ := List.mem_map.1 hs
      rw [List.mem_range] at hi
      exact ⟨_, ⟨i, by omega, rfl⟩, rfl⟩
    generalize segs closed cps = ss at hq
    cases ss with
    | nil => simp [pathOf] at hq
    | cons s rest =>
      rw [pathOf, List.mem_append, List.mem_flatMap] at hq
      rcases hq with hq | ⟨s', hs', hq⟩
      · exact ⟨s, by simp, key s hq⟩
      · exact ⟨s', by simp [hs'], key s' (List.mem_of_mem_tail hq)⟩
  · rintro ⟨s, hs, t, ⟨i, hi, rfl⟩, rfl⟩
    obtain ⟨k, hk⟩ := List.mem_iff_getElem?.1 hs
    exact List.mem_iff_getElem?.2 ⟨_, pathOf_get n hn _ (fun k s s' => segs_join closed cps k s s') k i hi s hk⟩

/-- The vertices an ellipse draws. -/
theorem drawn_ellipse (cfg : DCfg) (h : Hdr) (p1 p2 : Pt ℝ) (m : Mat3 ℝ) : ∃ pts,
    drawn cfg (.ellipse h p1 p2) m = .ok [⟨h.pb, h.closed, pts⟩] ∧ pts.length = 81 ∧
    ∀ q, q ∈ pts ↔ ∃ q0, OnEll (steps 20) ⟨(p1.x + p2.x) / 2, (p1.y + p2.y) / 2⟩ (|p1.x - p2.x| / 2) (|p1.y - p2.y| / 2) q0 ∧
      q = (m.mul h.xf).apply q0 := by
  rw [drawn_basic cfg (.ellipse h p1 p2) trivial]
  simp only [outline, makeEllipseP1P2_eq, Except.map, hdr]
  refine ⟨_, rfl, ?_, ?_⟩
  · rw [List.length_map, pathOf_length _ _ (by rw [ellipse_segs]; simp), ellipse_segs]; rfl
  · intro q
    rw [List.mem_map]
    simp only [mem_pathOf_iff 20 (by norm_num), ellipse_mem _ (steps_symm 20 (by norm_num))]
    exact exists_congr fun q0 => and_congr_right fun _ => eq_comm

/-- C38: an ellipse transformed by `m` and drawn under any context gives the same set of vertices as the original drawn under the
composed matrix. -/
theorem C38_ellipse (cfg : DCfg) (h : Hdr) (p1 p2 : Pt ℝ) (m m' s : TState) (e' : Elem) (hcl : h.closed = true)
    (hx : h.xf.Affine) (hm : m.mat.Affine) (hc : Clean (m.mat.mul h.xf))
    (ht : transform (.ellipse h p1 p2) m = (m', .ok e')) :
    ∃ pts pts', drawn cfg (.ellipse h p1 p2) (s.mat.mul m.mat) = .ok [⟨h.pb, true, pts⟩] ∧
      (paths cfg e' s).2 = .ok [⟨h.pb, true, pts'⟩] ∧ pts'.length = pts.length ∧ ∀ q, q ∈ pts' ↔ q ∈ pts := by
  obtain ⟨m'', h1, h2, h3⟩ := transformPtsP_eq h.xf m [p1, p2] (by simp)
  have hxa : (m.mat.mul h.xf).Affine := Mat3.affine_mul hm hx
  simp only [transform, h3] at ht
  have hD : ∀ q, ((s.mat.mul m.mat).mul h.xf).apply q = s.mat.apply ((m.mat.mul h.xf).apply q) := by
    intro q; rw [Mat3.mul_assoc', Mat3.apply_mul hxa]
  obtain ⟨pts, d1, d2, d3⟩ := drawn_ellipse cfg h p1 p2 (s.mat.mul m.mat)
  simp only [hD] at d3
  rw [hcl] at d1
  generalize m.mat.mul h.xf = x at *
  cases hi : (residual x).inv with
  | error e => rw [hi] at ht; simp at ht
  | ok i =>
    rw [hi] at ht
    simp only [List.map_cons, List.map_nil, Prod.mk.injEq, Except.ok.injEq] at ht
    obtain ⟨_, rfl⟩ := ht
    rw [drawn_push]
    obtain ⟨pts', e1, e2, e3⟩ := drawn_ellipse cfg { h with closed := true, xf := residual x } (i.apply (x.apply p1))
      (i.apply (x.apply p2)) s.mat
    refine ⟨pts, pts', d1, e1, by rw [d2, e2], ?_⟩
    intro q
    rw [e3, d3]
    by_cases hs : (x.b = 0 ∧ x.d = 0) ∨ (x.a = 0 ∧ x.e = 0)
    · rw [residual_clean hc, if_pos hs, inv_one] at hi
      injection hi with hi
      subst hi
      simp only [residual_clean hc, if_pos hs, Mat3.apply_one, Mat3.mul_one']
      have hxq : ∀ q : Pt ℝ, x.apply q = ⟨x.a * q.x + x.b * q.y + x.c, x.d * q.x + x.e * q.y + x.f⟩ := fun _ => rfl
      rcases hs with ⟨hb, hd⟩ | ⟨ha, he⟩
      · have ex : |(x.apply p1).x - (x.apply p2).x| / 2 = |x.a| * (|p1.x - p2.x| / 2) := by
          rw [hxq, hxq, ← mul_div_assoc, ← abs_mul, hb]; congr 2; ring
        have ey : |(x.apply p1).y - (x.apply p2).y| / 2 = |x.e| * (|p1.y - p2.y| / 2) := by
          rw [hxq, hxq, ← mul_div_assoc, ← abs_mul, hd]; congr 2; ring
        rw [ex, ey]
        simp only [onEll_abs]
        generalize |p1.x - p2.x| / 2 = rx
        generalize |p1.y - p2.y| / 2 = ry
        constructor
        · rintro ⟨q0, ⟨u, v, t, hu, hv, ht, rfl⟩, rfl⟩
          refine ⟨_, ⟨u, v, t, hu, hv, ht, rfl⟩, ?_⟩
          congr 1
          simp only [hxq, hb, hd]
          ext <;> simp only <;> ring
        · rintro ⟨q0, ⟨u, v, t, hu, hv, ht, rfl⟩, rfl⟩
          refine ⟨_, ⟨u, v, t, hu, hv, ht, rfl⟩, ?_⟩
          congr 1
          simp only [hxq, hb, hd]
          ext <;> simp only <;> ring
      · have ex : |(x.apply p1).x - (x.apply p2).x| / 2 = |x.b| * (|p1.y - p2.y| / 2) := by
          rw [hxq, hxq, ← mul_div_assoc, ← abs_mul, ha]; congr 2; ring
        have ey : |(x.apply p1).y - (x.apply p2).y| / 2 = |x.d| * (|p1.x - p2.x| / 2) := by
          rw [hxq, hxq, ← mul_div_assoc, ← abs_mul, he]; congr 2; ring
        rw [ex, ey]
        simp only [onEll_abs]
        generalize |p1.x - p2.x| / 2 = rx
        generalize |p1.y - p2.y| / 2 = ry
        constructor
        · rintro ⟨q0, ⟨u, v, t, hu, hv, ht, rfl⟩, rfl⟩
          refine ⟨_, ⟨v, u, 1 - t, hv, hu, steps_symm 20 (by norm_num) t ht, rfl⟩, ?_⟩
          congr 1
          simp only [hxq, ha, he, (quarter_swap t).1, (quarter_swap t).2]
          ext <;> simp only <;> ring
        · rintro ⟨q0, ⟨u, v, t, hu, hv, ht, rfl⟩, rfl⟩
          refine ⟨_, ⟨v, u, 1 - t, hv, hu, steps_symm 20 (by norm_num) t ht, rfl⟩, ?_⟩
          congr 1
          simp only [hxq, ha, he, (quarter_swap t).1, (quarter_swap t).2]
          ext <;> simp only <;> ring
    · rw [residual_clean hc, if_neg hs] at hi
      obtain ⟨w, hw1, hw2⟩ := residual_shift hxa hi
      have hres : residual x = Mat3.of6 x.a x.b 0 x.d x.e 0 := by rw [residual_clean hc, if_neg hs]
      have ho : ∀ q, (s.mat.mul (residual x)).apply (q.addVector w) = s.mat.apply (x.apply q) := by
        intro q
        rw [hres, Mat3.apply_mul (Mat3.affine_of6 ..), hw2]
      simp only [hw1]
      have ex : |(p1.addVector w).x - (p2.addVector w).x| = |p1.x - p2.x| := by
        congr 1; simp only [Pt.addVector]; ring
      have ey : |(p1.addVector w).y - (p2.addVector w).y| = |p1.y - p2.y| := by
        congr 1; simp only [Pt.addVector]; ring
      rw [ex, ey]
      constructor
      · rintro ⟨q0, ⟨u, v, t, hu, hv, ht, rfl⟩, rfl⟩
        refine ⟨_, ⟨u, v, t, hu, hv, ht, rfl⟩, ?_⟩
        rw [← ho]
        congr 1
        ext <;> simp only [Pt.addVector] <;> ring
      · rintro ⟨q0, ⟨u, v, t, hu, hv, ht, rfl⟩, rfl⟩
        refine ⟨_, ⟨u, v, t, hu, hv, ht, rfl⟩, ?_⟩
        rw [← ho]
        congr 1
        ext <;> simp only [Pt.addVector] <;> ring

/-! ### Rounded rectangles -/

section Rounded
variable {g : Mat3 ℝ} {k : ℝ}

/-- A scaling by `k` in both directions with optional mirroring, and a translation. -/
def Uniform (g : Mat3 ℝ) (k : ℝ) : Prop := g.b = 0 ∧ g.d = 0 ∧ |g.a| = k ∧ |g.e| = k ∧ 0 < k

theorem applyVec_length (hg : Uniform g k) (v : Vec ℝ) : (g.applyVec v).length = k * v.length := by
  obtain ⟨hb, hd, ha, he, hk⟩ := hg
  apply hypot_unique (mul_nonneg hk.le (Vec.length_nonneg v))
  have h1 := Vec.length_sq v
  simp only [Vec.dot] at h1
  have h2 : g.a * g.a = k * k := by rw [← ha, abs_mul_abs_self]
  have h3 : g.e * g.e = k * k := by rw [← he, abs_mul_abs_self]
  simp only [Mat3.applyVec, hb, hd]
  linear_combination (k * k) * h1 - (v.x * v.x) * h2 - (v.y * v.y) * h3

theorem applyVec_mul (v : Vec ℝ) (t : ℝ) : g.applyVec (v.mul t) = (g.applyVec v).mul t := by
  ext <;> simp only [Mat3.applyVec, Vec.mul] <;> ring

theorem applyVec_neg (v : Vec ℝ) : g.applyVec v.neg = (g.applyVec v).neg := by
  ext <;> simp only [Mat3.applyVec, Vec.neg] <;> ring

theorem cornerSide_scale (hg : Uniform g k) (v : Vec ℝ) (nr : ℝ) :
    cornerSide (g.applyVec v) (k * (v.length / 2)) (k * nr) = (cornerSide v (v.length / 2) nr).map g.applyVec := by
  obtain ⟨hb, hd, ha, he, hk⟩ := id hg
  unfold cornerSide
  by_cases hv : v = ⟨0, 0⟩
  · have hl : v.length = 0 := Vec.length_eq_zero.2 hv
    rw [hl]
    simp [Except.map, Mat3.applyVec]
  · have hl := Vec.length_pos hv
    have hgl := applyVec_length hg v
    have hgv : g.applyVec v ≠ ⟨0, 0⟩ := by
      intro h
      rw [← Vec.length_eq_zero, hgl] at h
      exact absurd h (by positivity)
    rw [if_pos (by positivity), if_pos (by positivity), Vec.unit_ok hv, Vec.unit_ok hgv, hgl]
    simp only [Except.map, Vec.mul, Mat3.applyVec, hb, hd, Except.ok.injEq, Vec.mk.injEq]
    constructor <;> field_simp <;> ring

theorem cornerScale_scale (hk : 0 < k) (len nr : ℝ) : cornerScale (k * len) (k * nr) = cornerScale len nr := by
  unfold cornerScale
  by_cases h : nr = 0
  · simp [h]
  · rw [if_pos (mul_ne_zero hk.ne' h), if_pos h, ← mul_sub, ← mul_min_of_nonneg _ _ hk.le]
    simp only [pyDiv, h, mul_ne_zero hk.ne' h, if_false, Except.ok.injEq]
    rw [mul_div_mul_left _ _ hk.ne']

theorem transformLin_eq (g : Mat3 ℝ) (cp : CP ℝ) :
    cp.transformLin g.apply = ⟨g.apply cp.c, g.applyVec cp.dl, g.applyVec cp.dr, cp.kind⟩ := by
  obtain ⟨h1, h2⟩ := C34_handles cp g
  rw [← h1, ← h2]
  rfl

theorem roundedCorner_scale (hg : Uniform g k) (r : ℝ) (a b c : Pt ℝ) :
    roundedCorner (k * r) (g.apply a) (g.apply b) (g.apply c) =
      (roundedCorner r a b c).map fun lr => (lr.1.transformLin g.apply, lr.2.transformLin g.apply) := by
  have hk := hg.2.2.2.2
  have e : ∀ x : ℝ, k * x / 2 = k * (x / 2) := fun x => by ring
  simp only [roundedCorner, Mat3.apply_sub, applyVec_length hg, e]
  rw [← mul_min_of_nonneg _ _ hk.le, ← mul_min_of_nonneg _ _ hk.le, cornerSide_scale hg, cornerSide_scale hg, cornerScale_scale hk,
    cornerScale_scale hk]
  generalize min r (min ((a.sub b).length / 2) ((c.sub b).length / 2)) = nr
  cases cornerSide (a.sub b) ((a.sub b).length / 2) nr with
  | error e => rfl
  | ok ab =>
    cases cornerSide (c.sub b) ((c.sub b).length / 2) nr with
    | error e => rfl
    | ok cb =>
      cases cornerScale ((a.sub b).length / 2) nr with
      | error e => rfl
      | ok s1 =>
        cases cornerScale ((c.sub b).length / 2) nr with
        | error e => rfl
        | ok s2 =>
          simp only [bind, Except.bind, Except.map, transformLin_eq, Mat3.apply_addVector, applyVec_mul, applyVec_neg]

theorem apply_inj (hg : Uniform g k) {p q : Pt ℝ} : g.apply p = g.apply q ↔ p = q := by
  obtain ⟨hb, hd, ha, he, hk⟩ := hg
  have ha' : g.a ≠ 0 := by intro h; rw [h, abs_zero] at ha; exact hk.ne ha
  have he' : g.e ≠ 0 := by intro h; rw [h, abs_zero] at he; exact hk.ne he
  constructor
  · intro h
    have h1 := congrArg Pt.x h
    have h2 := congrArg Pt.y h
    simp only [Mat3.apply, hb, hd, zero_mul, add_zero, zero_add, add_left_inj, mul_eq_mul_left_iff, ha', he', or_false] at h1 h2
    exact Pt.ext h1 h2
  · exact congrArg _

theorem dedupeStep_map (hg : Uniform g k) (st : List (CP ℝ) × List (CP ℝ)) (i : ℕ) :
    dedupeStep (st.1.map (·.transformLin g.apply), st.2.map (·.transformLin g.apply)) i =
      ((dedupeStep st i).1.map (·.transformLin g.apply), (dedupeStep st i).2.map (·.transformLin g.apply)) := by
  simp only [dedupeStep, List.length_map, List.getElem?_map]
  cases st.1[i]? with
  | none => rfl
  | some a =>
    cases st.1[(i + 1) % st.1.length]? with
    | none => rfl
    | some b =>
      cases st.1[(i + 2) % st.1.length]? with
      | none => rfl
      | some c =>
        simp only [Option.map_some]
        have e1 : ((b.transformLin g.apply).c = (c.transformLin g.apply).c) ↔ b.c = c.c := apply_inj hg
        have e2 : ((b.transformLin g.apply).c = (a.transformLin g.apply).c) ↔ b.c = a.c := apply_inj hg
        have e3 : ({ b.transformLin g.apply with dr := (c.transformLin g.apply).dr } : CP ℝ) =
            ({ b with dr := c.dr } : CP ℝ).transformLin g.apply := by simp only [transformLin_eq]
        by_cases h1 : b.c = c.c
        · rw [if_pos (e1.2 h1), if_pos h1, e3]
          simp
        · rw [if_neg (fun h => h1 (e1.1 h)), if_neg h1]
          by_cases h2 : b.c = a.c
          · rw [if_pos (e2.2 h2), if_pos h2]
          · rw [if_neg (fun h => h2 (e2.1 h)), if_neg h2]
            simp

theorem dedupe_map (hg : Uniform g k) (cps : List (CP ℝ)) :
    dedupe (cps.map (·.transformLin g.apply)) = (dedupe cps).map (·.transformLin g.apply) := by
  unfold dedupe
  have key : ∀ (l : List ℕ) (st : List (CP ℝ) × List (CP ℝ)),
      l.foldl dedupeStep (st.1.map (·.transformLin g.apply), st.2.map (·.transformLin g.apply)) =
        ((l.foldl dedupeStep st).1.map (·.transformLin g.apply), (l.foldl dedupeStep st).2.map (·.transformLin g.apply)) := by
    intro l
    induction l with
    | nil => intro st; rfl
    | cons i l ih => intro st; rw [List.foldl_cons, dedupeStep_map hg, ih]; rfl
  have := key (List.range cps.length) (cps, [])
  simp only [List.map_nil] at this
  rw [List.length_map, this]

theorem iterRotate3m1_four {α : Type} (a b c d : α) :
    iterRotate3m1 [a, b, c, d] = [(d, a, b), (a, b, c), (b, c, d), (c, d, a)] := rfl

theorem makeRoundedRect_scale (hg : Uniform g k) (p1 p2 : Pt ℝ) (r : ℝ) :
    makeRoundedRect (g.apply p1) (g.apply p2) (k * r) = (makeRoundedRect p1 p2 r).map (·.map (·.transformLin g.apply)) := by
  have c1 : (⟨(g.apply p1).x, (g.apply p2).y⟩ : Pt ℝ) = g.apply ⟨p1.x, p2.y⟩ := by
    simp [Mat3.apply, hg.1, hg.2.1]
  have c2 : (⟨(g.apply p2).x, (g.apply p1).y⟩ : Pt ℝ) = g.apply ⟨p2.x, p1.y⟩ := by
    simp [Mat3.apply, hg.1, hg.2.1]
  simp only [makeRoundedRect, c1, c2, iterRotate3m1_four, List.mapM_cons, List.mapM_nil, roundedCorner_scale hg]
  cases roundedCorner r ⟨p2.x, p1.y⟩ p1 ⟨p1.x, p2.y⟩ with
  | error e => rfl
  | ok lr0 =>
    cases roundedCorner r p1 ⟨p1.x, p2.y⟩ p2 with
    | error e => rfl
    | ok lr1 =>
      cases roundedCorner r ⟨p1.x, p2.y⟩ p2 ⟨p2.x, p1.y⟩ with
      | error e => rfl
      | ok lr2 =>
        cases roundedCorner r p2 ⟨p2.x, p1.y⟩ p1 with
        | error e => rfl
        | ok lr3 =>
          simp only [Except.map, bind, Except.bind, pure, Except.pure, List.flatMap_cons, List.flatMap_nil, List.append_nil,
            List.cons_append, List.nil_append, Except.ok.injEq]
          rw [← dedupe_map hg]
          rfl

end Rounded

/-- C67: a rounded rectangle transformed by `m` and drawn gives exactly the vertices of the original drawn under the composed
matrix, in the same order, when the composed matrix is not axis preserving, or scales both axes by the same amount (with or
without mirroring). Matrices exchanging the axes are in `C67_rounded_exchange`; for axis-preserving matrices with different
scales the claim is false (`C67_rounded_counterexample`). -/
theorem C67_rounded (cfg : DCfg) (h : Hdr) (p1 p2 : Pt ℝ) (r : ℝ) (hr : 0 ≤ r) (m m' s : TState) (e' : Elem)
    (hcl : h.closed = true) (hx : h.xf.Affine) (hm : m.mat.Affine) (hc : Clean (m.mat.mul h.xf))
    (hu : let x := m.mat.mul h.xf
      ¬ ((x.b = 0 ∧ x.d = 0) ∨ (x.a = 0 ∧ x.e = 0)) ∨ (x.b = 0 ∧ x.d = 0 ∧ |x.a| = |x.e| ∧ x.a ≠ 0))
    (ht : transform (.rrect h p1 p2 r) m = (m', .ok e')) :
    (paths cfg e' s).2 = drawn cfg (.rrect h p1 p2 r) (s.mat.mul m.mat) := by
  obtain ⟨m'', h1, h2, h3⟩ := transformPtsP_eq h.xf m [p1, p2, p1.addVector ⟨r, 0⟩] (by simp)
  have hxa : (m.mat.mul h.xf).Affine := Mat3.affine_mul hm hx
  simp only [transform, h3] at ht
  have hD : ((s.mat.mul m.mat).mul h.xf) = s.mat.mul (m.mat.mul h.xf) := Mat3.mul_assoc' ..
  rw [drawn_push, drawn_basic cfg (.rrect h p1 p2 r) trivial]
  simp only [hdr, hD, hcl]
  generalize m.mat.mul h.xf = x at *
  simp only at hu
  cases hi : (residual x).inv with
  | error e => rw [hi] at ht; simp at ht
  | ok i =>
    rw [hi] at ht
    simp only [List.map_cons, List.map_nil, Prod.mk.injEq, Except.ok.injEq] at ht
    obtain ⟨_, rfl⟩ := ht
    rw [drawn_basic cfg (.rrect _ _ _ _) trivial]
    simp only [hdr, outline]
    -- both cases: the points and the radius are moved by a uniform map `g` and the residual undoes it
    have main : ∀ (g : Mat3 ℝ) (k : ℝ), Uniform g k → g.Affine → i.apply (x.apply p1) = g.apply p1 →
        i.apply (x.apply p2) = g.apply p2 → ((i.apply (x.apply (p1.addVector ⟨r, 0⟩))).sub (i.apply (x.apply p1))).length = k * r →
        (∀ q, (s.mat.mul (residual x)).apply (g.apply q) = (s.mat.mul x).apply q) →
        Except.map (fun pts => [(⟨h.pb, true, List.map (s.mat.mul (residual x)).apply pts⟩ : Path)])
          (Except.map (fun cps => pathOf 20 (segs true cps))
            (makeRoundedRect (i.apply (x.apply p1)) (i.apply (x.apply p2))
              ((i.apply (x.apply (p1.addVector ⟨r, 0⟩))).sub (i.apply (x.apply p1))).length)) =
        Except.map (fun pts => [(⟨h.pb, true, List.map (s.mat.mul x).apply pts⟩ : Path)])
          (Except.map (fun cps => pathOf 20 (segs true cps)) (makeRoundedRect p1 p2 r)) := by
      intro g k hg hga e1 e2 e3 e4
      rw [e3, e1, e2, makeRoundedRect_scale hg]
      cases makeRoundedRect p1 p2 r with
      | error e => rfl
      | ok cps =>
        simp only [Except.map]
        rw [segs_transform, pathOf_map, List.map_map]
        congr 3
        exact List.map_congr_left fun q _ => e4 q
    rcases hu with hs | ⟨hb, hd, hae, ha0⟩
    · rw [residual_clean hc, if_neg hs] at hi
      obtain ⟨w, hw1, hw2⟩ := residual_shift hxa hi
      have hres : residual x = Mat3.of6 x.a x.b 0 x.d x.e 0 := by rw [residual_clean hc, if_neg hs]
      have hgw : ∀ q : Pt ℝ, (Mat3.of6 1 0 w.x 0 1 w.y : Mat3 ℝ).apply q = q.addVector w := by
        intro q; ext <;> simp [Mat3.of6, Mat3.apply, Pt.addVector]
      refine main (Mat3.of6 1 0 w.x 0 1 w.y) 1 ⟨rfl, rfl, abs_one, abs_one, one_pos⟩ (Mat3.affine_of6 ..) ?_ ?_ ?_ ?_
      · rw [hw1, hgw]
      · rw [hw1, hgw]
      · rw [hw1, hw1]
        apply hypot_unique (by linarith)
        simp only [Pt.addVector, Pt.sub]; ring
      · intro q
        rw [hgw, hres, Mat3.apply_mul (Mat3.affine_of6 ..), hw2, Mat3.apply_mul hxa]
    · have hs : (x.b = 0 ∧ x.d = 0) ∨ (x.a = 0 ∧ x.e = 0) := .inl ⟨hb, hd⟩
      rw [residual_clean hc, if_pos hs, inv_one] at hi
      injection hi with hi
      subst hi
      have hres : residual x = Mat3.one := by rw [residual_clean hc, if_pos hs]
      have hk : 0 < |x.a| := abs_pos.2 ha0
      refine main x |x.a| ⟨hb, hd, rfl, hae.symm, hk⟩ hxa (Mat3.apply_one _) (Mat3.apply_one _) ?_ ?_
      · rw [Mat3.apply_one, Mat3.apply_one]
        apply hypot_unique (mul_nonneg hk.le hr)
        have := abs_mul_abs_self x.a
        simp only [Mat3.apply, Pt.addVector, Pt.sub, hb, hd]
        linear_combination (r * r) * this
      · intro q
        rw [hres, Mat3.mul_one', Mat3.apply_mul hxa]

theorem at'_rev (s : Poly4 ℝ) (t : ℝ) : s.rev.at' t = s.at' (1 - t) := by
  ext <;> simp only [Poly4.at', Poly4.rev, bern] <;> ring

theorem at'_flip (s : Poly4 ℝ) (t : ℝ) : (s.map Pt.flip).at' t = (s.at' t).flip := by
  ext <;> simp only [Poly4.at', Poly4.map, bern, Pt.flip]

theorem pathOf_flip (p1 p2 : Pt ℝ) (r : ℝ) (hr : 0 ≤ r) :
    ∃ cps cps', makeRoundedRect p1 p2 r = .ok cps ∧ makeRoundedRect p1.flip p2.flip r = .ok cps' ∧
      (pathOf 20 (segs true cps')).length = (pathOf 20 (segs true cps)).length ∧
      ∀ q, q ∈ pathOf 20 (segs true cps') ↔ ∃ q0 ∈ pathOf 20 (segs true cps), q = q0.flip := by
  obtain ⟨cps, cps', h1, h2, h3, h4, h5⟩ := makeRoundedRect_flip p1 p2 r hr
  have hl : ∀ l : List (CP ℝ), (segs true l).length = l.length := by
    intro l; simp [segs, closedSegs]
  have n1 : segs true cps ≠ [] := by
    intro h; have := hl cps; rw [h] at this; exact h4 (List.length_eq_zero_iff.1 this.symm)
  have n2 : segs true cps' ≠ [] := by
    intro h; have := hl cps'; rw [h, h3] at this; exact h4 (List.length_eq_zero_iff.1 this.symm)
  refine ⟨cps, cps', h1, h2, ?_, fun q => ?_⟩
  · rw [pathOf_length _ _ n1, pathOf_length _ _ n2, hl, hl, h3]
  · rw [mem_pathOf_iff 20 (by norm_num)]
    simp only [mem_pathOf_iff 20 (by norm_num)]
    constructor
    · rintro ⟨s, hs, t, ht, rfl⟩
      obtain ⟨s0, hs0, rfl⟩ := (h5 s).1 hs
      exact ⟨_, ⟨s0, hs0, 1 - t, steps_symm 20 (by norm_num) t ht, rfl⟩, by rw [at'_flip, at'_rev]⟩
    · rintro ⟨q0, ⟨s0, hs0, t, ht, rfl⟩, rfl⟩
      exact ⟨_, (h5 _).2 ⟨s0, hs0, rfl⟩, 1 - t, steps_symm 20 (by norm_num) t ht, by rw [at'_flip, at'_rev, sub_sub_cancel]⟩

/-- C67: for matrices which exchange the axes and scale both by the same amount the same vertices are drawn (in another order:
the outline is walked the other way round). -/
theorem C67_rounded_exchange (cfg : DCfg) (h : Hdr) (p1 p2 : Pt ℝ) (r : ℝ) (hr : 0 ≤ r) (m m' s : TState) (e' : Elem)
    (hcl : h.closed = true) (hx : h.xf.Affine) (hm : m.mat.Affine) (hc : Clean (m.mat.mul h.xf))
    (hu : let x := m.mat.mul h.xf
      x.a = 0 ∧ x.e = 0 ∧ |x.b| = |x.d| ∧ x.b ≠ 0)
    (ht : transform (.rrect h p1 p2 r) m = (m', .ok e')) :
    ∃ pts pts', drawn cfg (.rrect h p1 p2 r) (s.mat.mul m.mat) = .ok [⟨h.pb, true, pts⟩] ∧
      (paths cfg e' s).2 = .ok [⟨h.pb, true, pts'⟩] ∧ pts'.length = pts.length ∧ ∀ q, q ∈ pts' ↔ q ∈ pts := by
  obtain ⟨m'', h1, h2, h3⟩ := transformPtsP_eq h.xf m [p1, p2, p1.addVector ⟨r, 0⟩] (by simp)
  have hxa : (m.mat.mul h.xf).Affine := Mat3.affine_mul hm hx
  simp only [transform, h3] at ht
  have hD : ((s.mat.mul m.mat).mul h.xf) = s.mat.mul (m.mat.mul h.xf) := Mat3.mul_assoc' ..
  rw [drawn_push, drawn_basic cfg (.rrect h p1 p2 r) trivial]
  simp only [hdr, hD, hcl]
  generalize m.mat.mul h.xf = x at *
  simp only at hu
  obtain ⟨ha, he, hbd, hb0⟩ := hu
  have hs : (x.b = 0 ∧ x.d = 0) ∨ (x.a = 0 ∧ x.e = 0) := .inr ⟨ha, he⟩
  have hres : residual x = Mat3.one := by rw [residual_clean hc, if_pos hs]
  rw [hres, inv_one] at ht
  simp only [List.map_cons, List.map_nil, Prod.mk.injEq, Except.ok.injEq] at ht
  obtain ⟨_, rfl⟩ := ht
  rw [drawn_basic cfg (.rrect _ _ _ _) trivial]
  simp only [hdr, outline, Mat3.apply_one, Mat3.mul_one']
  have hk : 0 < |x.b| := abs_pos.2 hb0
  have hg : Uniform (Mat3.of6 x.b 0 x.c 0 x.d x.f) |x.b| := ⟨rfl, rfl, rfl, hbd.symm, hk⟩
  have hga : ∀ q : Pt ℝ, (Mat3.of6 x.b 0 x.c 0 x.d x.f).apply q.flip = x.apply q := by
    intro q
    ext <;> simp only [Mat3.of6, Mat3.apply, Pt.flip, ha, he] <;> ring
  have hrad : ((x.apply (p1.addVector ⟨r, 0⟩)).sub (x.apply p1)).length = |x.b| * r := by
    apply hypot_unique (mul_nonneg hk.le hr)
    have h5 := abs_mul_abs_self x.d
    rw [← hbd] at h5
    simp only [Mat3.apply, Pt.addVector, Pt.sub, ha, he]
    linear_combination (r * r) * h5
  obtain ⟨cps, cps', e1, e2, e3, e4⟩ := pathOf_flip p1 p2 r hr
  rw [hrad, ← hga p1, ← hga p2, makeRoundedRect_scale hg, e1, e2]
  simp only [Except.map]
  rw [segs_transform, pathOf_map, List.map_map]
  refine ⟨_, _, rfl, rfl, ?_, fun q => ?_⟩
  · rw [List.length_map, List.length_map, e3]
  · simp only [List.mem_map, Function.comp_apply]
    constructor
    · rintro ⟨q1, hq1, rfl⟩
      obtain ⟨q0, hq0, rfl⟩ := (e4 q1).1 hq1
      exact ⟨q0, hq0, by rw [hga, Mat3.apply_mul hxa]⟩
    · rintro ⟨q0, hq0, rfl⟩
      exact ⟨q0.flip, (e4 _).2 ⟨q0, hq0, rfl⟩, by rw [hga, Mat3.apply_mul hxa]⟩

theorem closedSegs_length (cps : List (CP ℝ)) : (segs true cps).length = cps.length := by
  simp [segs, closedSegs]

/-- C67: with different scales of the axes the corner radius is not transformed: a square of side 4 with corner radius 1
stretched fourfold in `x` has another outline (here even another number of vertices) than the original drawn under the matrix. -/
theorem C67_rounded_counterexample (cfg : DCfg) : ∃ (e' : Elem) (m' : TState) (ps ps' : List (Pt ℝ)),
    let m : TState := ⟨Mat3.of6 4 0 0 0 1 0, none, []⟩
    transform (.rrect (hdr0 none) ⟨0, 0⟩ ⟨4, 4⟩ 1) m = (m', .ok e') ∧
    drawn cfg e' Mat3.one = .ok [⟨⟨none, none⟩, true, ps'⟩] ∧
    drawn cfg (.rrect (hdr0 none) ⟨0, 0⟩ ⟨4, 4⟩ 1) m.mat = .ok [⟨⟨none, none⟩, true, ps⟩] ∧
    ps.length = 161 ∧ ps'.length = 121 := by
  have hc : Clean (Mat3.of6 4 0 0 0 1 0) := by
    intro v hv
    simp only [Mat3.of6, List.mem_cons, List.not_mem_nil, or_false] at hv
    rcases hv with rfl | rfl | rfl | rfl <;> norm_num
  have hres : residual (Mat3.of6 4 0 0 0 1 0) = Mat3.one := by
    rw [residual_clean hc, if_pos (.inl ⟨rfl, rfl⟩)]
  obtain ⟨m'', h1, h2, h3⟩ := transformPtsP_eq Mat3.one ⟨Mat3.of6 4 0 0 0 1 0, none, []⟩
    [(⟨0, 0⟩ : Pt ℝ), ⟨4, 4⟩, (⟨0, 0⟩ : Pt ℝ).addVector ⟨1, 0⟩] (by simp)
  simp only [Mat3.mul_one', hres, inv_one] at h3
  have e1 : (Mat3.of6 4 0 0 0 1 0 : Mat3 ℝ).apply ⟨0, 0⟩ = ⟨0, 0⟩ := by simp [Mat3.of6, Mat3.apply]
  have e2 : (Mat3.of6 4 0 0 0 1 0 : Mat3 ℝ).apply ⟨4, 4⟩ = ⟨16, 4⟩ := by norm_num [Mat3.of6, Mat3.apply]
  have e3 : (Mat3.of6 4 0 0 0 1 0 : Mat3 ℝ).apply ((⟨0, 0⟩ : Pt ℝ).addVector ⟨1, 0⟩) = ⟨4, 0⟩ := by
    norm_num [Mat3.of6, Mat3.apply, Pt.addVector]
  have e4 : ((⟨4, 0⟩ : Pt ℝ).sub ⟨0, 0⟩).length = 4 := hypot_unique (by norm_num) (by norm_num [Pt.sub])
  have ht : transform (.rrect (hdr0 none) ⟨0, 0⟩ ⟨4, 4⟩ 1) ⟨Mat3.of6 4 0 0 0 1 0, none, []⟩ =
      (m'', .ok (.rrect (hdr0 none) ⟨0, 0⟩ ⟨16, 4⟩ 4)) := by
    simp only [transform, hdr0, h3, List.map_cons, List.map_nil, Mat3.apply_one, e1, e2, e3, e4]
  obtain ⟨cps, c1, c2, -⟩ := C50_shape ⟨0, 0⟩ ⟨4, 4⟩ 1 4 4 1 (by norm_num) (by norm_num) (by norm_num) (by norm_num) (by norm_num)
    (by norm_num)
  obtain ⟨cps', d1, d2, -⟩ := C50_shape ⟨0, 0⟩ ⟨16, 4⟩ 4 16 4 2 (by norm_num) (by norm_num) (by norm_num) (by norm_num)
    (by norm_num) (by norm_num)
  norm_num at c2 d2
  have k1 : (segs true cps).length = 8 := by rw [closedSegs_length, c2]
  have k2 : (segs true cps').length = 6 := by rw [closedSegs_length]; omega
  have q1 : drawn cfg (.rrect (hdr0 none) ⟨0, 0⟩ ⟨16, 4⟩ 4) Mat3.one =
      .ok [⟨⟨none, none⟩, true, (pathOf 20 (segs true cps')).map (Mat3.one.mul Mat3.one).apply⟩] := by
    rw [drawn_basic cfg (.rrect _ _ _ _) trivial]
    simp only [outline, d1, Except.map, hdr, hdr0]
  have q2 : drawn cfg (.rrect (hdr0 none) ⟨0, 0⟩ ⟨4, 4⟩ 1) (Mat3.of6 4 0 0 0 1 0) =
      .ok [⟨⟨none, none⟩, true, (pathOf 20 (segs true cps)).map ((Mat3.of6 4 0 0 0 1 0 : Mat3 ℝ).mul Mat3.one).apply⟩] := by
    rw [drawn_basic cfg (.rrect _ _ _ _) trivial]
    simp only [outline, c1, Except.map, hdr, hdr0]
  refine ⟨_, m'', _, _, ht, q1, q2, ?_, ?_⟩
  · rw [List.length_map, pathOf_length _ _ (by intro h; rw [h] at k1; simp at k1), k1]
  · rw [List.length_map, pathOf_length _ _ (by intro h; rw [h] at k2; simp at k2), k2]

/-- The hypotheses of the C38 theorems are met by a matrix with rotation, scaling and translation. -/
example : let m : TState := ⟨Mat3.of6 3 (-4) 7 4 3 1, none, []⟩
    Clean (m.mat.mul (hdr0 none).xf) ∧ m.mat.Affine ∧ ∃ m' e', transform (.rect (hdr0 none) ⟨0, 0⟩ ⟨4, 2⟩) m = (m', .ok e') := by
  have hc : Clean (Mat3.mul (Mat3.of6 3 (-4) 7 4 3 1) (hdr0 none).xf) := by
    intro v hv
    simp only [hdr0, Mat3.mul_one', Mat3.of6, List.mem_cons, List.not_mem_nil, or_false] at hv
    rcases hv with rfl | rfl | rfl | rfl <;> norm_num
  refine ⟨hc, Mat3.affine_of6 .., ?_⟩
  obtain ⟨-, -, h, -⟩ := C38_caller_matrix (hdr0 none) ⟨0, 0⟩ ⟨4, 2⟩ ⟨Mat3.of6 3 (-4) 7 4 3 1, none, []⟩ hc
  obtain ⟨e, he⟩ := h.2 (by simp only [hdr0, Mat3.mul_one', Mat3.of6]; norm_num)
  exact ⟨_, e, Prod.ext rfl he⟩

/-- Those of `C67_rounded_exchange` are met by a quarter turn with scaling. -/
example : let m : TState := ⟨Mat3.of6 0 (-3) 7 3 0 1, none, []⟩
    let x := m.mat.mul (hdr0 none).xf
    (hdr0 none).closed = true ∧ Clean x ∧ m.mat.Affine ∧ x.a = 0 ∧ x.e = 0 ∧ |x.b| = |x.d| ∧ x.b ≠ 0 ∧
    ∃ m' e', transform (.rrect (hdr0 none) ⟨0, 0⟩ ⟨4, 2⟩ 1) m = (m', .ok e') := by
  have hc : Clean (Mat3.mul (Mat3.of6 0 (-3) 7 3 0 1) (hdr0 none).xf) := by
    intro v hv
    simp only [hdr0, Mat3.mul_one', Mat3.of6, List.mem_cons, List.not_mem_nil, or_false] at hv
    rcases hv with rfl | rfl | rfl | rfl <;> norm_num
  refine ⟨rfl, hc, Mat3.affine_of6 .., ?_, ?_, ?_, ?_, ?_⟩
  · simp [hdr0, Mat3.mul_one', Mat3.of6]
  · simp [hdr0, Mat3.mul_one', Mat3.of6]
  · simp [hdr0, Mat3.mul_one', Mat3.of6]
  · simp [hdr0, Mat3.mul_one', Mat3.of6]
  · obtain ⟨m'', h1, h2, h3⟩ := transformPtsP_eq (hdr0 none).xf ⟨Mat3.of6 0 (-3) 7 3 0 1, none, []⟩
      [⟨0, 0⟩, ⟨4, 2⟩, Pt.addVector ⟨0, 0⟩ ⟨1, 0⟩] (by simp)
    have hres : residual (Mat3.mul (Mat3.of6 0 (-3) 7 3 0 1) (hdr0 none).xf) = Mat3.one := by
      rw [residual_clean hc, if_pos]
      right
      simp [hdr0, Mat3.mul_one', Mat3.of6]
    simp only [transform, h3, hres, inv_one]
    exact ⟨_, _, rfl⟩

end X7.Elem
