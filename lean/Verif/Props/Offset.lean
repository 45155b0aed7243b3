import Verif.Spec.Offset
import Verif.Props.BezierReal
import Verif.Props.Bezier
import Verif.Props.Area
import Verif.Props.Elem

/-!
C73: `ElemCurve.offset`.
-/

noncomputable section

namespace X7.Elem

/-! ### Without the exceptions -/

/-- The point `offset_pt` returns. -/
def offVal (dl : Vec ℝ) (pt : Pt ℝ) (dr : Vec ℝ) (o : ℝ) : Pt ℝ :=
  match offsetPt dl pt dr o with
  | .ok q => q
  | .error _ => pt

theorem offsetPt_ok (dl : Vec ℝ) (pt : Pt ℝ) (dr : Vec ℝ) (o : ℝ) : offsetPt dl pt dr o = .ok (offVal dl pt dr o) := by
  obtain ⟨q, hq, -⟩ := C37_bounded dl dr pt o
  simp only [offVal, hq]

/-- The control point made from `cm`. -/
def offCp (cl cm cr : CP ℝ) (o : ℝ) : CP ℝ :=
  let co := offVal cm.dl cm.c cm.dr o
  ⟨co, (offVal (cl.r.sub cm.l) cm.l (cm.c.sub cm.l) o).sub co, (offVal (cm.c.sub cm.r) cm.r (cr.l.sub cm.r) o).sub co, cm.kind⟩

theorem offsetCp_ok (cl cm cr : CP ℝ) (o : ℝ) : offsetCp cl cm cr o = .ok (offCp cl cm cr o) := by
  simp only [offsetCp, offsetPt_ok, offCp]

/-- The new control points. -/
def newCps (x : List (CP ℝ)) (o : ℝ) : List (CP ℝ) := (iterRotate3m1 x).map fun t => offCp t.1 t.2.1 t.2.2 o

/-- The list that is gone through. -/
def ccwOf (cps : List (CP ℝ)) : List (CP ℝ) := if polygonArea (ring cps) < 0 then CP.reverseList cps else cps

theorem mapM_total {α β : Type*} (f : α → Except PyErr β) (g : α → β) (h : ∀ a, f a = .ok (g a)) :
    ∀ l : List α, l.mapM f = .ok (l.map g)
  | [] => rfl
  | a :: l => by rw [List.mapM_cons, h, mapM_total f g h l]; rfl

theorem offsetCps_ok (cps : List (CP ℝ)) (o : ℝ) : offsetCps cps o = .ok (newCps (ccwOf cps) o) := by
  unfold offsetCps newCps ccwOf ring CP.reverseList
  exact mapM_total _ _ (fun t => offsetCp_ok _ _ _ _) _

theorem curve_transform_new (h : Hdr) (cps : List (CP ℝ)) : ((Elem.curve h cps).transform TState.new).2 =
    (checkClosed h.pb h.closed).map fun _ => Elem.curve { h with xf := Mat3.one } (cps.map (·.transformLin h.xf.apply)) := by
  simp only [transform]
  cases hc : checkClosed h.pb h.closed with
  | error er => rw [drawSpace_eq (fun x => ⟨rfl, rfl⟩)]; rfl
  | ok u =>
    rw [drawSpace_eq (fun x => ⟨rfl, rfl⟩)]
    simp only [Except.map, TState.push, TState.new, TState.compose]
    rw [Mat3.one_mul']

/-- All of `offset`. -/
theorem offset_eq (h : Hdr) (cps : List (CP ℝ)) (o : ℝ) : (Elem.curve h cps).offset o =
    if h.pb.brush.isSome = true ∧ h.closed = false then .error .assertion
    else .ok (.curve ⟨h.name ++ "_o".toList, h.pb, h.closed, Mat3.one⟩ (newCps (ccwOf (cps.map (·.transformLin h.xf.apply))) o)) := by
  simp only [offset, curve_transform_new]
  by_cases hc : h.pb.brush.isSome = true ∧ h.closed = false
  · have hc' : checkClosed h.pb h.closed = .error .assertion := by simp [checkClosed, PenBrush.filled, hc.1, hc.2]
    rw [if_pos hc, hc']
    rfl
  · have hc' : checkClosed h.pb h.closed = .ok () := by
      unfold checkClosed
      rw [if_neg]
      simpa [PenBrush.filled] using hc
    rw [if_neg hc, hc']
    simp only [Except.map, offsetCps_ok]

/-! ### Control polygons -/

theorem ring_length (x : List (CP ℝ)) : (ring x).length = 3 * x.length := by
  induction x with
  | nil => rfl
  | cons a x ih => simp only [ring, List.flatMap_cons, List.length_append] at ih ⊢; rw [ih]; simp; ring

theorem ring_get (x : List (CP ℝ)) (k : ℕ) (hk : k < x.length) (d : Pt ℝ) :
    (ring x).getD (3 * k) d = (x[k]).l ∧ (ring x).getD (3 * k + 1) d = (x[k]).c ∧ (ring x).getD (3 * k + 2) d = (x[k]).r := by
  induction x generalizing k with
  | nil => simp at hk
  | cons a x ih =>
    cases k with
    | zero => simp [ring]
    | succ k =>
      have := ih k (by simpa using hk)
      have e : ∀ j, (ring (a :: x)).getD (3 * (k + 1) + j) d = (ring x).getD (3 * k + j) d := by
        intro j
        show (a.l :: a.c :: a.r :: ring x).getD (3 * (k + 1) + j) d = _
        rw [show 3 * (k + 1) + j = 3 * k + j + 1 + 1 + 1 by ring]
        simp
      have e0 := e 0
      simp only [Nat.add_zero] at e0
      rw [e0, e, e]
      simpa using this

theorem ring_vertex (x : List (CP ℝ)) (k : ℕ) (hx : 0 < x.length) :
    vertex (ring x) (3 * k) = (x[k % x.length]'(Nat.mod_lt _ hx)).l ∧
    vertex (ring x) (3 * k + 1) = (x[k % x.length]'(Nat.mod_lt _ hx)).c ∧
    vertex (ring x) (3 * k + 2) = (x[k % x.length]'(Nat.mod_lt _ hx)).r := by
  have e : ∀ j < 3, (3 * k + j) % (3 * x.length) = 3 * (k % x.length) + j := by
    intro j hj
    have h1 := Nat.div_add_mod k x.length
    have h2 := Nat.mod_lt k hx
    have h3 : 3 * k + j = 3 * (k % x.length) + j + 3 * x.length * (k / x.length) := by nlinarith
    rw [h3, Nat.add_mul_mod_self_left, Nat.mod_eq_of_lt (by omega)]
  have e0 := e 0 (by norm_num)
  simp only [Nat.add_zero] at e0
  unfold vertex
  rw [ring_length, e0, e 1 (by norm_num), e 2 (by norm_num)]
  exact ring_get x _ (Nat.mod_lt _ hx) _

theorem newCps_length (x : List (CP ℝ)) (o : ℝ) : (newCps x o).length = x.length := by
  simp [newCps, iterRotate3m1]

theorem newCps_get (x : List (CP ℝ)) (o : ℝ) (k : ℕ) (hk : k < x.length) :
    (newCps x o)[k]'(by rw [newCps_length]; exact hk) =
      offCp (x[(k + x.length - 1) % x.length]'(Nat.mod_lt _ (by omega))) x[k] (x[(k + 1) % x.length]'(Nat.mod_lt _ (by omega))) o := by
  have h : k + (x.length - 1) = k + x.length - 1 := by omega
  simp only [newCps, iterRotate3m1, List.getElem_map, List.getElem_zip, List.getElem_rotate, h]

theorem addVector_sub (p q : Pt ℝ) : q.addVector (p.sub q) = p := by
  ext <;> simp [Pt.addVector, Pt.sub]

theorem l_sub_c (p : CP ℝ) : p.l.sub p.c = p.dl ∧ p.r.sub p.c = p.dr := by
  constructor <;> ext <;> simp [CP.l, CP.r, Pt.addVector, Pt.sub]

theorem offCp_pts (a b c : CP ℝ) (o : ℝ) : (offCp a b c o).l = offVal (a.r.sub b.l) b.l (b.c.sub b.l) o ∧
    (offCp a b c o).c = offVal (b.l.sub b.c) b.c (b.r.sub b.c) o ∧ (offCp a b c o).r = offVal (b.c.sub b.r) b.r (c.l.sub b.r) o := by
  rw [(l_sub_c b).1, (l_sub_c b).2]
  exact ⟨addVector_sub _ _, rfl, addVector_sub _ _⟩

theorem vertex_mod (R : List (Pt ℝ)) (i : ℕ) : vertex R (i % R.length) = vertex R i := by
  simp [vertex]

theorem newCps_ring (x : List (CP ℝ)) (o : ℝ) (hx : 0 < x.length) (i : ℕ) :
    vertex (ring (newCps x o)) i = offVal ((vertex (ring x) (i + (ring x).length - 1)).sub (vertex (ring x) i)) (vertex (ring x) i)
      ((vertex (ring x) (i + 1)).sub (vertex (ring x) i)) o := by
  have hn : 0 < (newCps x o).length := by rw [newCps_length]; exact hx
  have key : ∀ k, (newCps x o)[k % (newCps x o).length]'(Nat.mod_lt _ hn) =
      offCp (x[(k + x.length - 1) % x.length]'(Nat.mod_lt _ hx)) (x[k % x.length]'(Nat.mod_lt _ hx))
        (x[(k + 1) % x.length]'(Nat.mod_lt _ hx)) o := by
    intro k
    have h := newCps_get x o (k % x.length) (Nat.mod_lt _ hx)
    have e1 : (k % x.length + x.length - 1) % x.length = (k + x.length - 1) % x.length := by
      have := Nat.div_add_mod k x.length
      have h2 : k + x.length - 1 = k % x.length + x.length - 1 + x.length * (k / x.length) := by omega
      rw [h2, Nat.add_mul_mod_self_left]
    have e2 : (k % x.length + 1) % x.length = (k + 1) % x.length := by rw [Nat.mod_add_mod]
    simp only [e1, e2] at h
    simp only [newCps_length]
    exact h
  have hdm := Nat.div_add_mod i 3
  have hlt := Nat.mod_lt i (show 3 > 0 by norm_num)
  generalize i / 3 = k at hdm
  have hL := ring_length x
  obtain ⟨a1, a2, a3⟩ := ring_vertex (newCps x o) k hn
  obtain ⟨b1, b2, b3⟩ := ring_vertex x k hx
  rw [key] at a1 a2 a3
  obtain ⟨p1, p2, p3⟩ := offCp_pts (x[(k + x.length - 1) % x.length]'(Nat.mod_lt _ hx)) (x[k % x.length]'(Nat.mod_lt _ hx))
    (x[(k + 1) % x.length]'(Nat.mod_lt _ hx)) o
  have hcase : i % 3 = 0 ∨ i % 3 = 1 ∨ i % 3 = 2 := by omega
  rcases hcase with h | h | h
  · rw [h, Nat.add_zero] at hdm
    rw [← hdm, a1, p1, b1, b2, hL, show 3 * k + 3 * x.length - 1 = 3 * (k + x.length - 1) + 2 by omega,
      (ring_vertex x (k + x.length - 1) hx).2.2]
  · rw [h] at hdm
    rw [← hdm, a2, p2, b2, show 3 * k + 1 + 1 = 3 * k + 2 by ring, b3, hL,
      show 3 * k + 1 + 3 * x.length - 1 = 3 * (k + x.length) by omega, (ring_vertex x (k + x.length) hx).1]
    simp only [Nat.add_mod_right]
  · rw [h] at hdm
    rw [← hdm, a3, p3, b3, show 3 * k + 2 + 1 = 3 * (k + 1) by ring, (ring_vertex x (k + 1) hx).1, hL,
      show 3 * k + 2 + 3 * x.length - 1 = 3 * (k + x.length) + 1 by omega, (ring_vertex x (k + x.length) hx).2.1]
    simp only [Nat.add_mod_right]

theorem ring_reverse (x : List (CP ℝ)) : ring (CP.reverseList x) = (ring x).reverse := by
  induction x with
  | nil => rfl
  | cons a x ih =>
    have e : CP.reverseList (a :: x) = CP.reverseList x ++ [a.reversed] := by simp [CP.reverseList]
    rw [e]
    simp only [ring, List.flatMap_append, List.flatMap_cons, List.reverse_append] at ih ⊢
    rw [ih]
    simp [CP.reversed, CP.l, CP.r]

theorem ccwOf_oriented (cps : List (CP ℝ)) : Oriented cps (ccwOf cps) := by
  unfold Oriented ccwOf
  split
  · rename_i h
    refine ⟨.inr rfl, ?_⟩
    rw [ring_reverse, C07_reverse]; linarith
  · rename_i h
    exact ⟨.inl rfl, not_lt.1 h⟩

/-! ### The property -/

/-- C73: `offset` of a curve fails exactly when the curve is filled and not closed (`AssertionError`). Otherwise the result is a curve with
`_o` appended to the name, the same pen and `closed`, no transform, and as many control points as the curve. -/
theorem C73_result (h : Hdr) (cps : List (CP ℝ)) (o : ℝ) :
    (h.pb.brush ≠ none ∧ h.closed = false → (Elem.curve h cps).offset o = .error .assertion) ∧
    (¬ (h.pb.brush ≠ none ∧ h.closed = false) → ∃ new, (Elem.curve h cps).offset o =
      .ok (.curve ⟨h.name ++ "_o".toList, h.pb, h.closed, Mat3.one⟩ new) ∧ new.length = cps.length) := by
  rw [offset_eq]
  have e : (h.pb.brush ≠ none ∧ h.closed = false) ↔ (h.pb.brush.isSome = true ∧ h.closed = false) := by
    cases h.pb.brush <;> simp
  rw [e]
  refine ⟨fun a => if_pos a, fun a => ⟨_, if_neg a, ?_⟩⟩
  rw [newCps_length]
  unfold ccwOf
  split <;> simp [CP.reverseList]

/-- C73: the result is made from the curve with its transform applied, traced so that the area is not negative. Its kinds are kept, and every
vertex of its control polygon is `offset_pt` of the vertex and its two neighbours on the control polygon. -/
theorem C73_ring (h h' : Hdr) (cps new : List (CP ℝ)) (o : ℝ) (hr : (Elem.curve h cps).offset o = .ok (.curve h' new)) :
    ∃ ccw, Oriented (cps.map (·.transformLin h.xf.apply)) ccw ∧ new.map CP.kind = ccw.map CP.kind ∧
      (ring new).length = (ring ccw).length ∧
      (cps ≠ [] → ∀ i, let R := ring ccw
        offsetPt ((vertex R (i + R.length - 1)).sub (vertex R i)) (vertex R i) ((vertex R (i + 1)).sub (vertex R i)) o =
          .ok (vertex (ring new) i)) := by
  rw [offset_eq] at hr
  split at hr
  · simp at hr
  · simp only [Except.ok.injEq, Elem.curve.injEq] at hr
    obtain ⟨-, rfl⟩ := hr
    refine ⟨_, ccwOf_oriented _, ?_, by rw [ring_length, ring_length, newCps_length], ?_⟩
    · generalize ccwOf _ = x
      refine List.ext_getElem (by simp [newCps_length]) fun k h1 h2 => ?_
      simp only [List.getElem_map]
      rw [newCps_get x o k (by simpa using h2)]
      rfl
    · intro hne i R
      have hx : 0 < (ccwOf (cps.map (·.transformLin h.xf.apply))).length := by
        have hp : 0 < cps.length := List.length_pos_iff.2 hne
        unfold ccwOf
        split <;> simpa [CP.reverseList] using hp
      rw [newCps_ring _ o hx i, ← offsetPt_ok]

/-- A corner of the control polygon where the two sides can be moved: they have a length, and they go straight on or meet in an angle at which
the moved sides cross within 100. -/
def Good (p v n : Pt ℝ) (o : ℝ) : Prop :=
  p ≠ v ∧ n ≠ v ∧ ((∃ k > 0, n.sub v = (v.sub p).mul k) ∨
    (NotStraight (p.sub v) (n.sub v) ∧ ∃ q, signedDist v (v.sub p) q = o ∧ signedDist v (n.sub v) q = o ∧
      hypot (q.x - v.x) (q.y - v.y) ≤ 100))

theorem sub_ne {p v : Pt ℝ} (h : p ≠ v) : p.sub v ≠ ⟨0, 0⟩ := by
  intro e
  apply h
  simp only [Pt.sub, Vec.mk.injEq] at e
  ext <;> linarith

theorem sub_neg (p v : Pt ℝ) : (p.sub v).neg = v.sub p := by
  ext <;> simp [Pt.sub, Vec.neg]

theorem signedDist_scale (v : Pt ℝ) (t : Vec ℝ) (k : ℝ) (hk : 0 < k) (q : Pt ℝ) : signedDist v (t.mul k) q = signedDist v t q := by
  have hl : √((t.x * k) ^ 2 + (t.y * k) ^ 2) = k * √(t.x ^ 2 + t.y ^ 2) := by
    rw [show (t.x * k) ^ 2 + (t.y * k) ^ 2 = k ^ 2 * (t.x ^ 2 + t.y ^ 2) by ring, Real.sqrt_mul (by positivity), Real.sqrt_sq hk.le]
  simp only [signedDist, Vec.mul, hl]
  rw [show t.x * k * (q.y - v.y) - t.y * k * (q.x - v.x) = k * (t.x * (q.y - v.y) - t.y * (q.x - v.x)) by ring,
    mul_div_mul_left _ _ hk.ne']

/-- At a good corner the new vertex is at signed distance `offset` from both sides. -/
theorem good_corner {p v n : Pt ℝ} {o : ℝ} (hg : Good p v n o) {q : Pt ℝ}
    (hq : offsetPt (p.sub v) v (n.sub v) o = .ok q) : signedDist v (v.sub p) q = o ∧ signedDist v (n.sub v) q = o := by
  obtain ⟨h1, h2, h3⟩ := hg
  by_cases hs : NotStraight (p.sub v) (n.sub v)
  · rcases h3 with ⟨k, hk, he⟩ | ⟨-, q', e1, e2, e3⟩
    · exfalso
      have hc : (p.sub v).cross (n.sub v) = 0 := by rw [he]; simp only [Vec.cross, Pt.sub, Vec.mul]; ring
      rw [NotStraight, hc, abs_zero] at hs
      have := Vec.length_pos (sub_ne h1)
      have := Vec.length_pos (sub_ne h2)
      have : 0 < 1 / 10 ^ 10 * ((p.sub v).length * (n.sub v).length) := by positivity
      linarith
    · have := (C37_mitre v o (sub_ne h1) (sub_ne h2) hs).2 q' ⟨by rw [sub_neg]; exact e1, e2⟩ e3
      rw [this] at hq
      injection hq with hq
      subst hq
      exact ⟨e1, e2⟩
  · rcases h3 with ⟨k, hk, he⟩ | ⟨hns, -⟩
    · obtain ⟨q', e1, e2, -⟩ := C37_straight v o (sub_ne h1) (sub_ne h2) hs
      rw [e1] at hq
      injection hq with hq
      subst hq
      rw [sub_neg] at e2
      exact ⟨e2, by rw [he, signedDist_scale _ _ _ hk]; exact e2⟩
    · exact absurd hns hs

/-- C73: a side of the control polygon between two good corners becomes a side on the parallel line at signed distance `offset` (to the left
of the direction of travel: for a positive area, inwards). -/
theorem C73_parallel (h h' : Hdr) (cps new : List (CP ℝ)) (o : ℝ) (hr : (Elem.curve h cps).offset o = .ok (.curve h' new))
    (hne : cps ≠ []) : ∃ ccw, Oriented (cps.map (·.transformLin h.xf.apply)) ccw ∧ ∀ i, let R := ring ccw
      Good (vertex R (i + R.length - 1)) (vertex R i) (vertex R (i + 1)) o →
      Good (vertex R i) (vertex R (i + 1)) (vertex R (i + 2)) o →
      let side := (vertex R (i + 1)).sub (vertex R i)
      signedDist (vertex R i) side (vertex (ring new) i) = o ∧ signedDist (vertex R i) side (vertex (ring new) (i + 1)) = o := by
  obtain ⟨ccw, h1, -, h3, h2⟩ := C73_ring h h' cps new o hr
  refine ⟨ccw, h1, ?_⟩
  intro i R g1 g2 side
  have k1 := h2 hne i
  have k2 := h2 hne (i + 1)
  have hp : vertex (ring ccw) (i + 1 + (ring ccw).length - 1) = vertex (ring ccw) i := by
    rw [show i + 1 + (ring ccw).length - 1 = i + (ring ccw).length by omega]
    simp [vertex]
  simp only [hp] at k2
  refine ⟨(good_corner g1 k1).2, ?_⟩
  have := (good_corner g2 k2).1
  have e : ∀ q, signedDist (vertex R (i + 1)) side q = signedDist (vertex R i) side q := by
    intro q
    simp only [signedDist, side, Pt.sub]
    congr 1; ring
  rw [← e]; exact this

theorem offVal_zero (dl : Vec ℝ) (pt : Pt ℝ) (dr : Vec ℝ) : offVal dl pt dr 0 = pt := by
  have key : offsetPt dl pt dr 0 = .ok pt := by
    by_cases h : dl = ⟨0, 0⟩ ∨ dr = ⟨0, 0⟩
    · exact C37_zero_handle dl dr pt 0 h
    · rw [not_or] at h
      by_cases hs : NotStraight dl dr
      · obtain ⟨a, b, w, s, -, -, -, -, -, hsv, -, -, g3, -⟩ := offsetPt_angled pt 0 h.1 h.2 hs
        rw [zero_div] at hsv
        subst hsv
        rw [g3 (by simp)]
        congr 1
        ext <;> simp [Pt.addVector, Vec.mul]
      · obtain ⟨q, e1, -, -, e2⟩ := C37_straight pt 0 h.1 h.2 hs
        rw [abs_zero, hypot_eq_zero] at e2
        rw [e1]
        congr 1
        ext <;> linarith [e2.1, e2.2]
  rw [offsetPt_ok] at key
  injection key

/-- C73: offsetting by 0 gives the curve with its transform applied, traced with non-negative area. -/
theorem C73_zero (h h' : Hdr) (cps new : List (CP ℝ)) (hr : (Elem.curve h cps).offset 0 = .ok (.curve h' new)) :
    Oriented (cps.map (·.transformLin h.xf.apply)) new := by
  rw [offset_eq] at hr
  split at hr
  · simp at hr
  · simp only [Except.ok.injEq, Elem.curve.injEq] at hr
    obtain ⟨-, rfl⟩ := hr
    have : ∀ x, newCps x 0 = x := by
      intro x
      refine List.ext_getElem (newCps_length x 0) fun k h1 h2 => ?_
      rw [newCps_get x 0 k h2]
      simp only [offCp, offVal_zero]
      rw [(l_sub_c _).1, (l_sub_c _).2]
    rw [this]
    exact ccwOf_oriented _

/-- C73: if the area of the control polygon is not 0, the direction in which the curve is traced does not matter. -/
theorem C73_direction (h : Hdr) (cps : List (CP ℝ)) (o : ℝ) (ha : polygonArea (ring (cps.map (·.transformLin h.xf.apply))) ≠ 0) :
    (Elem.curve h (CP.reverseList cps)).offset o = (Elem.curve h cps).offset o := by
  rw [offset_eq, offset_eq]
  have e : (CP.reverseList cps).map (·.transformLin h.xf.apply) = CP.reverseList (cps.map (·.transformLin h.xf.apply)) := by
    simp only [CP.reverseList, List.map_map, List.map_reverse]
    rfl
  rw [e]
  generalize cps.map (·.transformLin h.xf.apply) = x at ha
  have : ccwOf (CP.reverseList x) = ccwOf x := by
    unfold ccwOf
    rw [ring_reverse, C07_reverse, C33_involution]
    rcases lt_or_gt_of_ne ha with h | h
    · rw [if_neg (by linarith), if_pos h]
    · rw [if_pos (by linarith), if_neg (by linarith)]
  rw [this]

theorem iterRotate3m1_rotate {α : Type*} (x : List α) (n : ℕ) : iterRotate3m1 (x.rotate n) = (iterRotate3m1 x).rotate n := by
  unfold iterRotate3m1
  refine List.ext_getElem (by simp) fun k h1 h2 => ?_
  simp only [List.getElem_zip, List.getElem_rotate, List.length_rotate, List.length_zip, Nat.min_self]
  simp only [List.length_zip, List.length_rotate, Nat.min_self] at h1
  congr 2
  · rw [Nat.mod_add_mod, Nat.mod_add_mod]; congr 1; ring
  · congr 1
    simp only [Nat.mod_add_mod]
    have : k + 1 + n = k + n + 1 := by ring
    simp only [this]

theorem ring_rotate (x : List (CP ℝ)) (n : ℕ) : ring (x.rotate n) = (ring x).rotate (3 * n) := by
  induction n generalizing x with
  | zero => simp
  | succ n ih =>
    rw [show n + 1 = 1 + n by ring, ← List.rotate_rotate, ih, show 3 * (1 + n) = 3 + 3 * n by ring, ← List.rotate_rotate]
    congr 1
    cases x with
    | nil => rfl
    | cons a x => simp [ring]

theorem reverseList_rotate (x : List (CP ℝ)) (n : ℕ) : ∃ m, CP.reverseList (x.rotate n) = (CP.reverseList x).rotate m := by
  refine ⟨x.length - n % x.length, ?_⟩
  simp only [CP.reverseList, List.map_rotate]
  rw [← List.map_rotate, List.reverse_rotate]

/-- C73: starting a closed curve at another of its points gives the same result, started at another point. -/
theorem C73_start (h h' : Hdr) (cps new : List (CP ℝ)) (n : ℕ) (o : ℝ) (hr : (Elem.curve h cps).offset o = .ok (.curve h' new)) :
    ∃ m, (Elem.curve h (cps.rotate n)).offset o = .ok (.curve h' (new.rotate m)) := by
  rw [offset_eq] at hr ⊢
  split at hr
  · simp at hr
  · rename_i hc
    simp only [Except.ok.injEq, Elem.curve.injEq] at hr
    obtain ⟨rfl, rfl⟩ := hr
    rw [if_neg hc, List.map_rotate]
    generalize cps.map (·.transformLin h.xf.apply) = x
    have hn : ∀ (y : List (CP ℝ)) m, newCps (y.rotate m) o = (newCps y o).rotate m := by
      intro y m
      simp only [newCps, iterRotate3m1_rotate, List.map_rotate]
    unfold ccwOf
    rw [ring_rotate, C07_rotate]
    split
    · obtain ⟨m, hm⟩ := reverseList_rotate x n
      exact ⟨m, by rw [hm, hn]⟩
    · exact ⟨n, by rw [hn]⟩

/-! ### Rigid motions -/

/-- The matrix of a rotation followed by a move. -/
def rigid (c s tx ty : ℝ) : Mat3 ℝ := ⟨c, -s, tx, s, c, ty, 0, 0, 1⟩

/-- The rotation of a vector. -/
def rotv (c s : ℝ) (v : Vec ℝ) : Vec ℝ := ⟨c * v.x - s * v.y, s * v.x + c * v.y⟩

section
variable {c s : ℝ} (hcs : c ^ 2 + s ^ 2 = 1)
include hcs

theorem rotv_zero (v : Vec ℝ) : rotv c s v = ⟨0, 0⟩ ↔ v = ⟨0, 0⟩ := by
  constructor
  · intro h
    simp only [rotv, Vec.mk.injEq] at h
    ext
    · show v.x = 0
      linear_combination (-v.x) * hcs + c * h.1 + s * h.2
    · show v.y = 0
      linear_combination (-v.y) * hcs + c * h.2 - s * h.1
  · rintro rfl; simp [rotv]

theorem rotv_length (v : Vec ℝ) : (rotv c s v).length = v.length := by
  simp only [Vec.length, hypot, rotv]
  congr 1
  linear_combination (v.x ^ 2 + v.y ^ 2) * hcs

theorem rotv_unit (v : Vec ℝ) : (rotv c s v).unit = v.unit.map (rotv c s) := by
  simp only [Vec.unit, rotv_length hcs]
  split
  · rfl
  · simp only [Except.map, rotv]
    congr 2 <;> ring

theorem rotv_cross (v w : Vec ℝ) : (rotv c s v).cross (rotv c s w) = v.cross w := by
  simp only [Vec.cross, rotv]
  linear_combination (v.x * w.y - v.y * w.x) * hcs

theorem offsetPt_rigid (dl : Vec ℝ) (pt : Pt ℝ) (dr : Vec ℝ) (o tx ty : ℝ) :
    offsetPt (rotv c s dl) ⟨c * pt.x - s * pt.y + tx, s * pt.x + c * pt.y + ty⟩ (rotv c s dr) o =
      (offsetPt dl pt dr o).map fun q => ⟨c * q.x - s * q.y + tx, s * q.x + c * q.y + ty⟩ := by
  by_cases h : dl = ⟨0, 0⟩ ∨ dr = ⟨0, 0⟩
  · rw [C37_zero_handle dl dr pt o h, C37_zero_handle _ _ _ _ (by rwa [rotv_zero hcs, rotv_zero hcs])]
    rfl
  · rw [not_or] at h
    obtain ⟨a, ha, -⟩ := unit_facts h.1
    obtain ⟨b, hb, -⟩ := unit_facts h.2
    rw [offsetPt_eq pt o h.1 h.2 ha hb, offsetPt_eq (a := rotv c s a) (b := rotv c s b) _ o (by rw [Ne, rotv_zero hcs]; exact h.1)
      (by rw [Ne, rotv_zero hcs]; exact h.2) (by rw [rotv_unit hcs, ha]; rfl) (by rw [rotv_unit hcs, hb]; rfl), rotv_cross hcs]
    split
    · simp only [Except.map, Pt.addVector, Vec.mul, Vec.normal, rotv]
      congr 2 <;> ring
    · have e : (rotv c s b).add (rotv c s a) = rotv c s (b.add a) := by
        simp only [rotv, Vec.add]; congr 1 <;> ring
      rw [e, rotv_unit hcs]
      cases (b.add a).unit with
      | error er => rfl
      | ok w =>
        simp only [Except.map, bind, Except.bind, rotv_cross hcs, pyDiv]
        by_cases hz : w.cross a = 0
        · simp only [if_pos hz]
        · simp only [if_neg hz]
          generalize (if |o / w.cross a| > offsetLimit then offsetLimit else o / w.cross a) = t
          simp only [Pt.addVector, Vec.mul, rotv]
          congr 2 <;> ring

theorem offVal_rigid (p q r : Pt ℝ) (o tx ty : ℝ) :
    offVal (((rigid c s tx ty).apply p).sub ((rigid c s tx ty).apply q)) ((rigid c s tx ty).apply q)
      (((rigid c s tx ty).apply r).sub ((rigid c s tx ty).apply q)) o =
    (rigid c s tx ty).apply (offVal (p.sub q) q (r.sub q) o) := by
  have h := offsetPt_rigid hcs (p.sub q) q (r.sub q) o tx ty
  have e : ∀ a b : Pt ℝ, ((rigid c s tx ty).apply a).sub ((rigid c s tx ty).apply b) = rotv c s (a.sub b) := by
    intro a b
    simp only [rigid, Mat3.apply, Pt.sub, rotv]
    congr 1 <;> ring
  have e2 : ∀ a : Pt ℝ, (⟨c * a.x - s * a.y + tx, s * a.x + c * a.y + ty⟩ : Pt ℝ) = (rigid c s tx ty).apply a := by
    intro a
    simp only [rigid, Mat3.apply]
    congr 1; ring
  rw [e2, offsetPt_ok, offsetPt_ok] at h
  simp only [Except.map, Except.ok.injEq, e2] at h
  rw [e, e]
  exact h

theorem newCps_rigid (x : List (CP ℝ)) (o tx ty : ℝ) : newCps (x.map (·.transformLin (rigid c s tx ty).apply)) o =
    (newCps x o).map (·.transformLin (rigid c s tx ty).apply) := by
  generalize hM : (rigid c s tx ty) = M
  have tl : ∀ a : CP ℝ, (a.transformLin M.apply).l = M.apply a.l ∧ (a.transformLin M.apply).c = M.apply a.c ∧
      (a.transformLin M.apply).r = M.apply a.r := fun a => ⟨addVector_sub _ _, rfl, addVector_sub _ _⟩
  refine List.ext_getElem (by simp [newCps_length]) fun k h1 h2 => ?_
  have hk : k < x.length := by simpa [newCps_length] using h2
  rw [newCps_get _ o k (by simpa using hk)]
  simp only [List.getElem_map]
  rw [newCps_get x o k hk]
  simp only [List.length_map]
  generalize x[k] = b
  generalize x[(k + x.length - 1) % x.length]'_ = a
  generalize x[(k + 1) % x.length]'_ = d
  have hp := offCp_pts a b d o
  have hr : ∀ p q r : Pt ℝ, offVal ((M.apply p).sub (M.apply q)) (M.apply q) ((M.apply r).sub (M.apply q)) o =
      M.apply (offVal (p.sub q) q (r.sub q) o) := by
    subst hM
    exact fun p q r => offVal_rigid hcs p q r o tx ty
  have hq := offCp_pts (a.transformLin M.apply) (b.transformLin M.apply) (d.transformLin M.apply) o
  simp only [(tl a).2.2, (tl b).1, (tl b).2.1, (tl b).2.2, (tl d).1, hr, ← hp.1, ← hp.2.1, ← hp.2.2] at hq
  have ext : ∀ u v : CP ℝ, u.l = v.l → u.c = v.c → u.r = v.r → u.kind = v.kind → u = v := by
    intro u v h1 h2 h3 h4
    have a1 := (l_sub_c u).1; have a2 := (l_sub_c u).2
    rw [h1, h2, (l_sub_c v).1] at a1
    rw [h2, h3, (l_sub_c v).2] at a2
    cases u; cases v
    simp_all
  have ht := tl (offCp a b d o)
  exact ext _ _ (hq.1.trans ht.1.symm) (hq.2.1.trans ht.2.1.symm) (hq.2.2.trans ht.2.2.symm) rfl

theorem ccwOf_rigid (x : List (CP ℝ)) (tx ty : ℝ) : ccwOf (x.map (·.transformLin (rigid c s tx ty).apply)) =
    (ccwOf x).map (·.transformLin (rigid c s tx ty).apply) := by
  have hring : ring (x.map (·.transformLin (rigid c s tx ty).apply)) = (ring x).map (rigid c s tx ty).apply := by
    induction x with
    | nil => rfl
    | cons a x ih =>
      simp only [ring, List.map_cons, List.flatMap_cons, List.map_append] at ih ⊢
      rw [ih]
      have e1 : (a.transformLin (rigid c s tx ty).apply).l = (rigid c s tx ty).apply a.l := addVector_sub _ _
      have e2 : (a.transformLin (rigid c s tx ty).apply).r = (rigid c s tx ty).apply a.r := addVector_sub _ _
      rw [e1, e2]
      rfl
  have harea : polygonArea ((ring x).map (rigid c s tx ty).apply) = polygonArea (ring x) := by
    have := C07_affine c (-s) s c tx ty (ring x)
    simp only [rigid] at this ⊢
    rw [show (c * c - -s * s) = 1 by linear_combination hcs, one_mul] at this
    exact this
  unfold ccwOf
  rw [hring, harea]
  split
  · simp only [CP.reverseList, List.map_map, List.map_reverse]
    rfl
  · rfl

end

/-- C73: rotating and moving the curve rotates and moves the result, and nothing else. -/
theorem C73_rigid (h h' : Hdr) (cps new : List (CP ℝ)) (o : ℝ) (hr : (Elem.curve h cps).offset o = .ok (.curve h' new))
    (haf : h.xf.Affine) (c s tx ty : ℝ) (hcs : c ^ 2 + s ^ 2 = 1) :
    (Elem.curve { h with xf := (rigid c s tx ty).mul h.xf } cps).offset o =
      .ok (.curve h' (new.map (·.transformLin (rigid c s tx ty).apply))) := by
  rw [offset_eq] at hr ⊢
  split at hr
  · simp at hr
  · rename_i hc
    simp only [Except.ok.injEq, Elem.curve.injEq] at hr
    obtain ⟨rfl, rfl⟩ := hr
    rw [if_neg hc]
    have e : cps.map (·.transformLin ((rigid c s tx ty).mul h.xf).apply) =
        (cps.map (·.transformLin h.xf.apply)).map (·.transformLin (rigid c s tx ty).apply) := by
      rw [List.map_map]
      refine List.map_congr_left fun a _ => ?_
      simp only [Function.comp, CP.transformLin, Mat3.apply_mul haf, CP.l, CP.r, addVector_sub]
    rw [e, ccwOf_rigid hcs, newCps_rigid hcs]

/-- C73, what the code does not do: a curve whose points have no handles (a polygon) is not moved, however large the offset. -/
theorem C73_corners_counterexample (h h' : Hdr) (cps new : List (CP ℝ)) (o : ℝ)
    (hz : ∀ a ∈ cps, a.dl = ⟨0, 0⟩ ∧ a.dr = ⟨0, 0⟩) (hr : (Elem.curve h cps).offset o = .ok (.curve h' new)) :
    Oriented (cps.map (·.transformLin h.xf.apply)) new := by
  have hz' : ∀ a ∈ ccwOf (cps.map (·.transformLin h.xf.apply)), a.dl = ⟨0, 0⟩ ∧ a.dr = ⟨0, 0⟩ := by
    have h1 : ∀ a ∈ cps.map (·.transformLin h.xf.apply), a.dl = ⟨0, 0⟩ ∧ a.dr = ⟨0, 0⟩ := by
      intro a ha
      obtain ⟨b, hb, rfl⟩ := List.mem_map.1 ha
      obtain ⟨z1, z2⟩ := hz b hb
      simp [CP.transformLin, CP.l, CP.r, z1, z2, Pt.addVector, Pt.sub]
    intro a ha
    unfold ccwOf at ha
    split at ha
    · simp only [CP.reverseList, List.mem_map, List.mem_reverse] at ha
      obtain ⟨b, hb, rfl⟩ := ha
      obtain ⟨d, hd, rfl⟩ := hb
      have := h1 (d.transformLin h.xf.apply) (List.mem_map.2 ⟨d, hd, rfl⟩)
      exact ⟨this.2, this.1⟩
    · exact h1 a ha
  rw [offset_eq] at hr
  split at hr
  · simp at hr
  · simp only [Except.ok.injEq, Elem.curve.injEq] at hr
    obtain ⟨-, rfl⟩ := hr
    have ho := ccwOf_oriented (cps.map (·.transformLin h.xf.apply))
    generalize ccwOf (cps.map (·.transformLin h.xf.apply)) = x at hz' ho
    have : newCps x o = x := by
      refine List.ext_getElem (newCps_length x o) fun k h1 h2 => ?_
      rw [newCps_get x o k h2]
      obtain ⟨z1, z2⟩ := hz' x[k] (List.getElem_mem _)
      have zero : ∀ (a : Vec ℝ) (p : Pt ℝ) (b : Vec ℝ), a = ⟨0, 0⟩ ∨ b = ⟨0, 0⟩ → offVal a p b o = p := by
        intro a p b hab
        have := C37_zero_handle a b p o hab
        rw [offsetPt_ok] at this
        injection this
      have y1 : x[k].c.sub x[k].l = ⟨0, 0⟩ := by simp [CP.l, z1, Pt.addVector, Pt.sub]
      have y2 : x[k].c.sub x[k].r = ⟨0, 0⟩ := by simp [CP.r, z2, Pt.addVector, Pt.sub]
      simp only [offCp]
      rw [zero _ _ _ (.inr y1), zero _ _ _ (.inl y2), zero _ _ _ (.inl z1), (l_sub_c _).1, (l_sub_c _).2]
    rw [this]
    exact ho

/-! ### A square of side 30 with its handles along the sides -/

/-- The control points. -/
def square30 : List (CP ℝ) :=
  [⟨⟨0, 0⟩, ⟨0, 10⟩, ⟨10, 0⟩, "sharp"⟩, ⟨⟨30, 0⟩, ⟨-10, 0⟩, ⟨0, 10⟩, "sharp"⟩, ⟨⟨30, 30⟩, ⟨0, -10⟩, ⟨-10, 0⟩, "sharp"⟩, ⟨⟨0, 30⟩, ⟨10, 0⟩, ⟨0, -10⟩, "sharp"⟩]

theorem square30_area : polygonArea (ring square30) = 900 := by
  simp [square30, ring, polygonArea_cons, chain, crs, CP.l, CP.r, Pt.addVector]
  norm_num

/-- The corner at the origin and the handle point after it are good, so `C73_parallel` applies to the first handle. -/
example : Good (vertex (ring square30) 0) (vertex (ring square30) 1) (vertex (ring square30) 2) 1 ∧
    Good (vertex (ring square30) 1) (vertex (ring square30) 2) (vertex (ring square30) 3) 1 := by
  have e0 : vertex (ring square30) 0 = ⟨0, 10⟩ := by simp [vertex, ring, square30, CP.l, Pt.addVector]
  have e1 : vertex (ring square30) 1 = ⟨0, 0⟩ := by simp [vertex, ring, square30]
  have e2 : vertex (ring square30) 2 = ⟨10, 0⟩ := by simp [vertex, ring, square30, CP.r, Pt.addVector]
  have e3 : vertex (ring square30) 3 = ⟨20, 0⟩ := by simp [vertex, ring, square30, CP.l, Pt.addVector]; norm_num
  have s100 : √(100 : ℝ) = 10 := by rw [show (100 : ℝ) = 10 ^ 2 by norm_num]; exact Real.sqrt_sq (by norm_num)
  rw [e0, e1, e2, e3]
  refine ⟨⟨by simp, by simp, .inr ⟨?_, ⟨1, 1⟩, ?_, ?_, ?_⟩⟩, ⟨by simp, by simp, .inl ⟨1, one_pos, ?_⟩⟩⟩
  · simp only [NotStraight, Vec.length, hypot, Pt.sub, Vec.cross]
    norm_num [s100, abs_of_neg]
  · simp only [signedDist, Pt.sub]; norm_num [s100]
  · simp only [signedDist, Pt.sub]; norm_num [s100]
  · simp only [hypot]
    have : √(2 : ℝ) ≤ 2 := by rw [Real.sqrt_le_left (by norm_num)]; norm_num
    norm_num; linarith
  · ext <;> simp [Pt.sub, Vec.mul] <;> norm_num

end X7.Elem
