import Verif.Lemmas.BezierReal
import Verif.Props.Bezier

/-!
C35-C37: control points under non-linear transformers, `ElemCurve.add_one`, `ElemCurve.offset_pt` (over ℝ).
-/

namespace X7

/-! ### C35 -/

/-- C35: whatever the non-linear map `f` is, the centre is mapped, the kind is kept. -/
theorem C35_centre_kind (cp cp' : CP ℝ) (f : Pt ℝ → Pt ℝ) (h : cp.transformNonlin f = .ok cp') :
    cp'.c = f cp.c ∧ cp'.kind = cp.kind := by
  unfold CP.transformNonlin at h
  simp only at h
  split at h
  · simp [Vec.truediv, pyDiv, bind, Except.bind, pure, Except.pure] at h
    subst h; exact ⟨rfl, rfl⟩
  · split at h
    · split at h
      · revert h
        generalize ((cp.transformLin f).dr.sub (cp.transformLin f).dl).unit = u
        intro h
        cases u with
        | error e => simp [bind, Except.bind] at h
        | ok u =>
          simp [bind, Except.bind] at h
          subst h; exact ⟨rfl, rfl⟩
      · cases h; exact ⟨rfl, rfl⟩
    · cases h; exact ⟨rfl, rfl⟩

/-- C35: a 'very-smooth' point always succeeds, its right handle is half the way from the image of the left handle end to
the image of the right handle end, and its handles are exactly opposite. -/
theorem C35_very_smooth (cp : CP ℝ) (f : Pt ℝ → Pt ℝ) (hk : cp.kind = "very-smooth") :
    ∃ cp', cp.transformNonlin f = .ok cp' ∧ cp'.dr = ⟨((f cp.r).x - (f cp.l).x) / 2, ((f cp.r).y - (f cp.l).y) / 2⟩ ∧
      cp'.dl = ⟨-cp'.dr.x, -cp'.dr.y⟩ := by
  have hk' : (cp.transformLin f).kind = "very-smooth" := hk
  refine ⟨{ cp.transformLin f with
      dr := ⟨((cp.transformLin f).dr.sub (cp.transformLin f).dl).x / 2, ((cp.transformLin f).dr.sub (cp.transformLin f).dl).y / 2⟩,
      dl := Vec.neg ⟨((cp.transformLin f).dr.sub (cp.transformLin f).dl).x / 2, ((cp.transformLin f).dr.sub (cp.transformLin f).dl).y / 2⟩ },
    ?_, ?_, ?_⟩
  · unfold CP.transformNonlin
    simp only [hk', if_true]
    simp [Vec.truediv, pyDiv, bind, Except.bind, pure, Except.pure]
  · ext <;> simp [Vec.sub, Vec.subVector, CP.transformLin, Pt.sub]
  · rfl

/-- C35: a 'smooth' point whose handle ends have different images: the new handles point in opposite directions along the
line through the two images and keep the lengths of the transformed handles. -/
theorem C35_smooth (cp : CP ℝ) (f : Pt ℝ → Pt ℝ) (hk : cp.kind = "smooth") (hne : f cp.r ≠ f cp.l) :
    ∃ (cp' : CP ℝ) (u : Vec ℝ), cp.transformNonlin f = .ok cp' ∧
      u.x ^ 2 + u.y ^ 2 = 1 ∧
      (∃ d > 0, (f cp.r).x - (f cp.l).x = d * u.x ∧ (f cp.r).y - (f cp.l).y = d * u.y) ∧
      cp'.dr = ⟨u.x * hypot ((f cp.r).x - (f cp.c).x) ((f cp.r).y - (f cp.c).y),
                u.y * hypot ((f cp.r).x - (f cp.c).x) ((f cp.r).y - (f cp.c).y)⟩ ∧
      cp'.dl = ⟨-u.x * hypot ((f cp.l).x - (f cp.c).x) ((f cp.l).y - (f cp.c).y),
                -u.y * hypot ((f cp.l).x - (f cp.c).x) ((f cp.l).y - (f cp.c).y)⟩ := by
  have hk' : (cp.transformLin f).kind = "smooth" := hk
  set v := (cp.transformLin f).dr.sub (cp.transformLin f).dl with hv
  have vx : v.x = (f cp.r).x - (f cp.l).x := by simp [hv, Vec.sub, Vec.subVector, CP.transformLin, Pt.sub]
  have vy : v.y = (f cp.r).y - (f cp.l).y := by simp [hv, Vec.sub, Vec.subVector, CP.transformLin, Pt.sub]
  have v0 : v ≠ ⟨0, 0⟩ := by
    intro e
    apply hne
    rw [e] at vx vy
    simp only at vx vy
    ext <;> linarith
  have hL := Vec.length_pos v0
  have hb : ((cp.transformLin f).dl.toBool || (cp.transformLin f).dr.toBool) = true := by
    by_contra hc
    simp [Vec.toBool] at hc
    apply v0
    rw [hv]
    ext <;> simp [Vec.sub, Vec.subVector, hc]
  refine ⟨{ cp.transformLin f with
      dr := Vec.mul ⟨v.x / v.length, v.y / v.length⟩ (cp.transformLin f).dr.length,
      dl := Vec.mul ⟨v.x / v.length, v.y / v.length⟩ (-(cp.transformLin f).dl.length) },
    ⟨v.x / v.length, v.y / v.length⟩, ?_, ?_, ?_, ?_, ?_⟩
  · unfold CP.transformNonlin
    simp only [hk', if_true, hb]
    rw [if_neg (by decide)]
    rw [← hv, Vec.unit_ok v0]
    simp only [bind, Except.bind]
  · simp only
    have := Vec.length_sq v
    simp only [Vec.dot] at this
    field_simp
    nlinarith
  · refine ⟨v.length, hL, ?_, ?_⟩
    · simp only; rw [← vx]; field_simp
    · simp only; rw [← vy]; field_simp
  · simp [Vec.mul, Vec.length, CP.transformLin, Pt.sub]
  · simp [Vec.mul, Vec.length, CP.transformLin, Pt.sub]

/-- C35: a 'smooth' point whose handle ends have the same image different from the image of the centre raises
`ZeroDivisionError`. -/
theorem C35_smooth_zero_division (cp : CP ℝ) (f : Pt ℝ → Pt ℝ) (hk : cp.kind = "smooth") (he : f cp.r = f cp.l)
    (hc : f cp.l ≠ f cp.c) : cp.transformNonlin f = .error .zeroDivision := by
  have hk' : (cp.transformLin f).kind = "smooth" := hk
  have hb : ((cp.transformLin f).dl.toBool || (cp.transformLin f).dr.toBool) = true := by
    by_contra hh
    simp [Vec.toBool, CP.transformLin, Pt.sub] at hh
    apply hc
    ext <;> linarith [hh.1.1, hh.1.2]
  have hv : (cp.transformLin f).dr.sub (cp.transformLin f).dl = ⟨0, 0⟩ := by
    ext <;> simp [Vec.sub, Vec.subVector, CP.transformLin, Pt.sub, he]
  unfold CP.transformNonlin
  simp only [hk', if_true, hb]
  rw [if_neg (by decide), hv, Vec.unit_zero]
  rfl

/-- C35: a point of any other kind, and a 'smooth' point all of whose images coincide, get the plain images. -/
theorem C35_other (cp : CP ℝ) (f : Pt ℝ → Pt ℝ)
    (h : (cp.kind ≠ "very-smooth" ∧ cp.kind ≠ "smooth") ∨ (cp.kind = "smooth" ∧ f cp.l = f cp.c ∧ f cp.r = f cp.c)) :
    ∃ cp', cp.transformNonlin f = .ok cp' ∧ cp'.c = f cp.c ∧ cp'.l = f cp.l ∧ cp'.r = f cp.r := by
  refine ⟨cp.transformLin f, ?_, rfl, ?_, ?_⟩
  · rcases h with ⟨h1, h2⟩ | ⟨hk, hl, hr⟩
    · have h1' : (cp.transformLin f).kind ≠ "very-smooth" := h1
      have h2' : (cp.transformLin f).kind ≠ "smooth" := h2
      simp [CP.transformNonlin, h1', h2']
    · have hk' : (cp.transformLin f).kind = "smooth" := hk
      have hb : ((cp.transformLin f).dl.toBool || (cp.transformLin f).dr.toBool) = false := by
        simp [Vec.toBool, CP.transformLin, Pt.sub, hl, hr]
      unfold CP.transformNonlin
      simp only [hk', hb]
      simp
  · ext <;> simp [CP.l, CP.transformLin, Pt.sub, Pt.addVector]
  · ext <;> simp [CP.r, CP.transformLin, Pt.sub, Pt.addVector]

/-- A smooth point under a non-linear map. -/
example : ∃ (cp : CP ℝ) (f : Pt ℝ → Pt ℝ), cp.kind = "smooth" ∧ f cp.r ≠ f cp.l :=
  ⟨⟨⟨0, 0⟩, ⟨-1, 0⟩, ⟨2, 0⟩, "smooth"⟩, fun p => ⟨p.x, p.x * p.x⟩, rfl, by
    simp [CP.l, CP.r, Pt.addVector]; norm_num⟩
example : ∃ (cp : CP ℝ) (f : Pt ℝ → Pt ℝ), cp.kind = "smooth" ∧ f cp.r = f cp.l ∧ f cp.l ≠ f cp.c :=
  ⟨⟨⟨0, 0⟩, ⟨-1, 0⟩, ⟨1, 0⟩, "smooth"⟩, fun p => ⟨p.x * p.x, 0⟩, rfl, by
    simp [CP.l, CP.r, Pt.addVector], by simp [CP.l, Pt.addVector]⟩

/-! ### C36 -/

/-- C36: for a closed curve of at least two control points: one more control point; cutting both closed curves open at a
suitable place, they have the same segments in the same order except that one segment `S`, one of those with the most
distant end points, is replaced by two which trace its first and second half. -/
theorem C36_add_one_closed (cps : List (CP ℝ)) (hn : 2 ≤ cps.length) :
    ∃ new S L R rest i j, addOne cps = .ok new ∧ new.length = cps.length + 1 ∧
      (segs true cps).rotate i = S :: rest ∧ (segs true new).rotate j = L :: R :: rest ∧
      (∀ u, L.at' u = S.at' (u / 2) ∧ R.at' u = S.at' ((1 + u) / 2)) ∧
      (∀ T ∈ segs true cps, hypot (T.a.x - T.d.x) (T.a.y - T.d.y) ≤ hypot (S.a.x - S.d.x) (S.a.y - S.d.y)) := by
  set dists := (iterRotate2 cps).map fun ab => (ab.1.c.sub ab.2.c).length with hd
  have hlen : dists.length = cps.length := by simp [hd, iterRotate2]
  obtain ⟨idx, hidx⟩ := lastMax_some (vs := dists) (by intro e; rw [e] at hlen; simp at hlen; omega)
  obtain ⟨b, hb, hmax⟩ := lastMax_spec hidx
  have hlt : idx < cps.length := by rw [← hlen]; exact (List.getElem?_eq_some_iff.1 hb).1
  -- distances of the segments
  have hds : dists = (closedSegs cps).map fun T => hypot (T.a.x - T.d.x) (T.a.y - T.d.y) := by
    rw [hd, iterRotate2, closedSegs]
    apply List.ext_getElem (by simp)
    intro k h1 h2
    simp [seg, Vec.length, Pt.sub]
  have tail : ∀ (p q : CP ℝ) (B new : List (CP ℝ)) (i j : ℕ), i = idx →
      cps.rotate i = p :: q :: B →
      addOne cps = .ok new → new.length = cps.length + 1 →
      new.rotate j = (bezSplit p q (1 / 2)).1 :: (bezSplit p q (1 / 2)).2.1 :: (bezSplit p q (1 / 2)).2.2 :: B →
      ∃ new S L R rest i j, addOne cps = .ok new ∧ new.length = cps.length + 1 ∧
      (segs true cps).rotate i = S :: rest ∧ (segs true new).rotate j = L :: R :: rest ∧
      (∀ u, L.at' u = S.at' (u / 2) ∧ R.at' u = S.at' ((1 + u) / 2)) ∧
      (∀ T ∈ segs true cps, hypot (T.a.x - T.d.x) (T.a.y - T.d.y) ≤ hypot (S.a.x - S.d.x) (S.a.y - S.d.y)) := by
    intro p q B new i j hi hrot hok hl hnew
    have hS : (closedSegs cps).rotate i = seg p q :: openSegs' (q :: (B ++ [p])) := by
      rw [← closedSegs_rotate, hrot, closedSegs_eq]; rfl
    refine ⟨new, seg p q, seg (bezSplit p q (1 / 2)).1 (bezSplit p q (1 / 2)).2.1,
      seg (bezSplit p q (1 / 2)).2.1 (bezSplit p q (1 / 2)).2.2, openSegs' (q :: (B ++ [p])), i, j, hok, hl, hS, ?_, ?_, ?_⟩
    · simp only [segs, if_true]
      rw [← closedSegs_rotate, hnew, closedSegs_eq]
      simp only [List.cons_append, openSegs']
      rw [openSegs'_congr (q := q) (r := (bezSplit p q (1 / 2)).2.2) (p := p) (l := (bezSplit p q (1 / 2)).1) B rfl rfl rfl rfl]
    · intro u
      have := C29_split_traces p q (1 / 2) u
      refine ⟨this.1.trans ?_, this.2.trans ?_⟩ <;> congr 1 <;> ring
    · intro T hT
      simp only [segs, if_true] at hT
      obtain ⟨k, hk⟩ := List.getElem?_of_mem hT
      have h1 : dists[k]? = some (hypot (T.a.x - T.d.x) (T.a.y - T.d.y)) := by rw [hds]; simp [hk]
      have h2 : (closedSegs cps)[idx]? = some (seg p q) := by
        have : ((closedSegs cps).rotate i)[0]? = some (seg p q) := by rw [hS]; rfl
        have hcl : (closedSegs cps).length = cps.length := by simp [closedSegs]
        rw [List.getElem?_rotate (by omega)] at this
        rw [hcl, hi, Nat.zero_add, Nat.mod_eq_of_lt hlt] at this
        exact this
      have h3 : b = hypot ((seg p q).a.x - (seg p q).d.x) ((seg p q).a.y - (seg p q).d.y) := by
        rw [hds] at hb
        simp [h2] at hb
        exact hb.symm
      rw [← h3]
      exact (hmax k _ h1).1
  have hleft : idx % cps.length = idx := Nat.mod_eq_of_lt hlt
  by_cases hw : idx + 1 < cps.length
  · -- the split pair does not wrap around
    obtain ⟨A, p, q, B, rfl, hA⟩ : ∃ A p q B, cps = A ++ p :: q :: B ∧ A.length = idx := by
      refine ⟨cps.take idx, cps[idx], cps[idx + 1], cps.drop (idx + 2), ?_, by simp; omega⟩
      rw [← List.drop_eq_getElem_cons hw, ← List.drop_eq_getElem_cons hlt, List.take_append_drop]
    subst hA
    have hright : (A.length + 1) % (A ++ p :: q :: B).length = A.length + 1 := Nat.mod_eq_of_lt hw
    refine tail p q (B ++ A) (A ++ (bezSplit p q (1 / 2)).1 :: (bezSplit p q (1 / 2)).2.1 :: (bezSplit p q (1 / 2)).2.2 :: B)
      A.length A.length rfl (by rw [List.rotate_append_length_eq]; simp) ?_ (by simp; omega)
      (by rw [List.rotate_append_length_eq]; simp)
    unfold addOne
    simp only
    rw [← hd, hidx]
    simp only [hleft, hright]
    have e1 : (A ++ p :: q :: B)[A.length]? = some p := by simp
    have e2 : (A ++ p :: q :: B)[A.length + 1]? = some q := by
      rw [List.getElem?_append_right (by omega)]; simp
    rw [e1, e2]
    simp only
    congr 1
    rw [List.set_append_right _ _ le_rfl, List.set_append_right _ _ (by omega)]
    simp [insertIdx_append_len]
  · -- it wraps around
    have hlast : idx = cps.length - 1 := by omega
    obtain ⟨q, B, p, rfl⟩ : ∃ q B p, cps = q :: (B ++ [p]) := by
      cases cps with
      | nil => simp at hn
      | cons q t =>
        rcases List.eq_nil_or_concat t with rfl | ⟨B, p, rfl⟩
        · simp at hn
        · exact ⟨q, B, p, by simp⟩
    have hidx' : idx = B.length + 1 := by simp at hlast; omega
    subst hidx'
    have hright : (B.length + 1 + 1) % (q :: (B ++ [p])).length = 0 := by simp
    refine tail p q B ((bezSplit p q (1 / 2)).2.1 :: (bezSplit p q (1 / 2)).2.2 :: (B ++ [(bezSplit p q (1 / 2)).1]))
      (B.length + 1) (B.length + 2) rfl ?_ ?_ (by simp) ?_
    · have := List.rotate_append_length_eq (q :: B) [p]
      simpa using this
    · unfold addOne
      simp only
      rw [← hd, hidx]
      simp only [hleft, hright]
      have e1 : (q :: (B ++ [p]))[B.length + 1]? = some p := by simp
      have e2 : (q :: (B ++ [p]))[0]? = some q := by simp
      rw [e1, e2]
      simp
    · have := List.rotate_append_length_eq ((bezSplit p q (1 / 2)).2.1 :: (bezSplit p q (1 / 2)).2.2 :: B) [(bezSplit p q (1 / 2)).1]
      simpa using this

/-- C36: an empty curve raises `IndexError`. -/
theorem C36_empty : addOne [] = .error .index := by
  simp [addOne, iterRotate2, lastMax]

/-- C36: every two-point curve is split on the way back from the second to the first control point, and the new point comes
first. -/
theorem C36_two_points (p q : CP ℝ) :
    addOne [p, q] = .ok [(bezSplit q p (1 / 2)).2.1, (bezSplit q p (1 / 2)).2.2, (bezSplit q p (1 / 2)).1] := by
  have h : (p.c.sub q.c).length = (q.c.sub p.c).length := by
    apply hypot_unique (Vec.length_nonneg _)
    rw [Vec.length_sq]
    simp [Vec.dot, Pt.sub]; ring
  have hm : lastMax ((iterRotate2 [p, q]).map fun ab => (ab.1.c.sub ab.2.c).length) = some 1 := by
    simp [iterRotate2, lastMax, lastMaxFrom, h]
  unfold addOne
  simp only
  rw [hm]
  simp

/-- C36: hence an open curve of two control points is not kept: here it starts at a point that was not on it. -/
theorem C36_open_counterexample : ∃ (p q : CP ℝ) (new : List (CP ℝ)), addOne [p, q] = .ok new ∧
    ∃ start ∈ (segs false new).head?.map (·.at' 0), ∀ T ∈ segs false [p, q], ∀ t, 0 ≤ t → t ≤ 1 → T.at' t ≠ start := by
  refine ⟨⟨⟨0, 0⟩, ⟨0, 0⟩, ⟨1, 1⟩, "smooth"⟩, ⟨⟨4, 0⟩, ⟨-1, 1⟩, ⟨0, 0⟩, "smooth"⟩, _, C36_two_points _ _, ⟨2, 0⟩, ?_, ?_⟩
  · simp [segs, openSegs, seg, Poly4.at', bern, bezSplit, lerp, Pt.addVector, Pt.sub, Vec.mul, CP.l, CP.r]
    norm_num
  · intro T hT t h0 h1 he
    simp [segs, openSegs, seg] at hT
    subst hT
    simp [Poly4.at', bern] at he
    obtain ⟨hx, hy⟩ := he
    have h2 : 3 * (t * (1 - t)) = 0 := by linear_combination hy
    rcases mul_eq_zero.1 ((mul_eq_zero.1 h2).resolve_left (by norm_num)) with h | h
    · subst h; norm_num at hx
    · have : t = 1 := by linarith
      subst this; norm_num at hx

/-- C36: a closed curve of one control point is not kept either: the result passes through a point not on the original. -/
theorem C36_one_point_counterexample : ∃ (p : CP ℝ) (new : List (CP ℝ)), addOne [p] = .ok new ∧
    ∃ T ∈ segs true new, ∃ u, 0 ≤ u ∧ u ≤ 1 ∧ ∀ S ∈ segs true [p], ∀ t, S.at' t ≠ T.at' u := by
  refine ⟨⟨⟨0, 0⟩, ⟨0, 4⟩, ⟨4, 0⟩, "smooth"⟩, [⟨⟨3 / 2, 3 / 2⟩, ⟨1 / 2, -1 / 2⟩, ⟨-1 / 2, 1 / 2⟩, "smooth"⟩,
    ⟨⟨0, 0⟩, ⟨0, 2⟩, ⟨4, 0⟩, "smooth"⟩], ?_, ?_⟩
  · unfold addOne
    simp only
    have hm : lastMax ((iterRotate2 [(⟨⟨0, 0⟩, ⟨0, 4⟩, ⟨4, 0⟩, "smooth"⟩ : CP ℝ)]).map
        fun ab => (ab.1.c.sub ab.2.c).length) = some 0 := by
      simp [iterRotate2, lastMax, lastMaxFrom]
    rw [hm]
    simp [bezSplit, lerp, Pt.addVector, Pt.sub, Vec.mul, CP.l, CP.r]
    norm_num
  · refine ⟨seg ⟨⟨0, 0⟩, ⟨0, 2⟩, ⟨4, 0⟩, "smooth"⟩ ⟨⟨3 / 2, 3 / 2⟩, ⟨1 / 2, -1 / 2⟩, ⟨-1 / 2, 1 / 2⟩, "smooth"⟩, ?_, 1 / 2, ?_⟩
    · simp [segs, closedSegs]
    · refine ⟨by norm_num, by norm_num, ?_⟩
      intro S hS t he
      simp [segs, closedSegs, seg] at hS
      subst hS
      simp [Poly4.at', bern, seg] at he
      obtain ⟨hx, hy⟩ := he
      norm_num at hx hy
      nlinarith

/-! ### C37 -/

theorem unit_facts {v : Vec ℝ} (h : v ≠ ⟨0, 0⟩) :
    ∃ a : Vec ℝ, v.unit = .ok a ∧ a.x * a.x + a.y * a.y = 1 ∧ v.x = v.length * a.x ∧ v.y = v.length * a.y ∧ 0 < v.length := by
  have hL := Vec.length_pos h
  refine ⟨_, Vec.unit_ok h, ?_, ?_, ?_, hL⟩
  · have := Vec.length_sq v
    simp only [Vec.dot] at this
    simp only
    field_simp
    nlinarith
  · simp only; field_simp
  · simp only; field_simp

/-- `offset_pt` for two non-zero handles in terms of the unit handles. -/
theorem offsetPt_eq {dl dr a b : Vec ℝ} (pt : Pt ℝ) (offset : ℝ) (hl : dl ≠ ⟨0, 0⟩) (hr : dr ≠ ⟨0, 0⟩)
    (ha : dl.unit = .ok a) (hb : dr.unit = .ok b) :
    offsetPt dl pt dr offset =
      if |a.cross b| < 1 / 10 ^ 10 then .ok (pt.addVector (a.normal.mul offset))
      else (do
        let v_offset ← (b.add a).unit
        let scale ← pyDiv offset (v_offset.cross a)
        let scale := if |scale| > offsetLimit then offsetLimit else scale
        .ok (pt.addVector (v_offset.mul scale))) := by
  have : ¬ (dl = ⟨0, 0⟩ ∨ dr = ⟨0, 0⟩) := by simp [hl, hr]
  rw [offsetPt, if_neg this, ha, hb]
  rfl

/-- The angle between the handles is not (nearly) 0 or 180 degrees: the test `abs(dl.cross(dr)) < 1e-10` of the unit
handles fails. -/
def NotStraight (dl dr : Vec ℝ) : Prop := 1 / 10 ^ 10 * (dl.length * dr.length) ≤ |dl.cross dr|

/-- What `offset_pt` computes for a joint that is not straight. -/
theorem offsetPt_angled {dl dr : Vec ℝ} (pt : Pt ℝ) (offset : ℝ) (hl : dl ≠ ⟨0, 0⟩) (hr : dr ≠ ⟨0, 0⟩)
    (hs : NotStraight dl dr) :
    ∃ (a b w : Vec ℝ) (s : ℝ), dl.unit = .ok a ∧ dr.unit = .ok b ∧ (b.add a).unit = .ok w ∧ w.cross a ≠ 0 ∧ w.length = 1 ∧
      s = offset / (w.cross a) ∧
      signedDist pt dl.neg (pt.addVector (w.mul s)) = offset ∧ signedDist pt dr (pt.addVector (w.mul s)) = offset ∧
      (|s| ≤ 100 → offsetPt dl pt dr offset = .ok (pt.addVector (w.mul s))) ∧
      (100 < |s| → offsetPt dl pt dr offset = .ok (pt.addVector (w.mul 100))) := by
  obtain ⟨a, ha, ha1, hax, hay, hla⟩ := unit_facts hl
  obtain ⟨b, hb, hb1, hbx, hby, hlb⟩ := unit_facts hr
  have hc : dl.cross dr = dl.length * dr.length * a.cross b := by
    simp only [Vec.cross]; rw [hax, hay, hbx, hby]
    have : ∀ L M : ℝ, L * a.x * (M * b.y) - L * a.y * (M * b.x) = L * M * (a.x * b.y - a.y * b.x) := by intros; ring
    exact this _ _
  have hns : 1 / 10 ^ 10 ≤ |a.cross b| := by
    rw [NotStraight, hc, abs_mul, abs_of_pos (mul_pos hla hlb), mul_comm] at hs
    exact le_of_mul_le_mul_left hs (mul_pos hla hlb)
  have hab0 : a.cross b ≠ 0 := by
    intro h; rw [h, abs_zero] at hns; norm_num at hns
  have hv0 : b.add a ≠ ⟨0, 0⟩ := by
    intro h
    have hx : b.x + a.x = 0 := congrArg Vec.x h
    have hy : b.y + a.y = 0 := congrArg Vec.y h
    apply hab0
    simp only [Vec.cross]
    linear_combination a.x * hy - a.y * hx
  obtain ⟨w, hw, hw1, hwx, hwy, hlw⟩ := unit_facts hv0
  have hvx : b.x + a.x = (b.add a).length * w.x := hwx
  have hvy : b.y + a.y = (b.add a).length * w.y := hwy
  generalize (b.add a).length = M at hvx hvy hlw
  -- both crosses with the bisector are the same
  have c1 : M * w.cross a = -(a.cross b) := by
    simp only [Vec.cross]; linear_combination (-a.y) * hvx + a.x * hvy
  have c2 : M * b.cross w = -(a.cross b) := by
    simp only [Vec.cross]; linear_combination (-b.x) * hvy + b.y * hvx
  have hwa : w.cross a ≠ 0 := by
    intro h; rw [h, mul_zero] at c1; exact hab0 (by linarith)
  have hbw : b.cross w = w.cross a := mul_left_cancel₀ hlw.ne' (c2.trans c1.symm)
  refine ⟨a, b, w, offset / (w.cross a), ha, hb, hw, hwa, ?_, rfl, ?_, ?_, ?_, ?_⟩
  · exact hypot_unique zero_le_one (by linarith)
  · have hneg : Real.sqrt (dl.neg.x ^ 2 + dl.neg.y ^ 2) = dl.length := by
      simp only [Vec.neg, Vec.length, hypot]; congr 1; ring
    rw [signedDist, hneg, div_eq_iff hla.ne']
    simp only [Vec.neg, Pt.addVector, Vec.mul]
    have e : w.cross a * (offset / w.cross a) = offset := by field_simp
    have e2 : -dl.x * (pt.y + w.y * (offset / w.cross a) - pt.y) - -dl.y * (pt.x + w.x * (offset / w.cross a) - pt.x)
        = dl.length * (w.cross a * (offset / w.cross a)) := by
      simp only [Vec.cross]
      generalize offset / (w.x * a.y - w.y * a.x) = s
      linear_combination (-w.y * s) * hax + (w.x * s) * hay
    rw [e2, e, mul_comm]
  · have hpos : Real.sqrt (dr.x ^ 2 + dr.y ^ 2) = dr.length := by
      simp only [Vec.length, hypot]; congr 1; ring
    rw [signedDist, hpos, div_eq_iff hlb.ne']
    simp only [Pt.addVector, Vec.mul]
    have e : w.cross a * (offset / w.cross a) = offset := by field_simp
    have e2 : dr.x * (pt.y + w.y * (offset / w.cross a) - pt.y) - dr.y * (pt.x + w.x * (offset / w.cross a) - pt.x)
        = dr.length * (b.cross w * (offset / w.cross a)) := by
      generalize offset / w.cross a = s
      simp only [Vec.cross]
      linear_combination (w.y * s) * hbx - (w.x * s) * hby
    rw [e2, hbw, e, mul_comm]
  all_goals
    intro hlim
    rw [offsetPt_eq pt offset hl hr ha hb, if_neg (not_lt.2 hns), hw]
    simp only [bind, Except.bind, pyDiv, if_neg hwa]
  · rw [if_neg (by simpa [offsetLimit] using hlim)]
  · rw [if_pos (by simpa [offsetLimit] using hlim)]
    rfl

/-- The two offset lines of a joint that is not straight meet in at most one point. -/
theorem meet_unique {dl dr : Vec ℝ} (pt : Pt ℝ) (hl : dl ≠ ⟨0, 0⟩) (hr : dr ≠ ⟨0, 0⟩) (hs : NotStraight dl dr) {q q' : Pt ℝ}
    (h1 : signedDist pt dl.neg q = signedDist pt dl.neg q') (h2 : signedDist pt dr q = signedDist pt dr q') : q = q' := by
  have hla := Vec.length_pos hl
  have hlb := Vec.length_pos hr
  have hneg : Real.sqrt (dl.neg.x ^ 2 + dl.neg.y ^ 2) = dl.length := by
    simp only [Vec.neg, Vec.length, hypot]; congr 1; ring
  have hpos : Real.sqrt (dr.x ^ 2 + dr.y ^ 2) = dr.length := by
    simp only [Vec.length, hypot]; congr 1; ring
  rw [signedDist, signedDist, hneg, div_left_inj' hla.ne'] at h1
  rw [signedDist, signedDist, hpos, div_left_inj' hlb.ne'] at h2
  simp only [Vec.neg] at h1
  have hc : dl.cross dr ≠ 0 := by
    intro h
    rw [NotStraight, h, abs_zero] at hs
    have := mul_pos hla hlb
    linarith
  have ex : dl.cross dr * (q.x - q'.x) = 0 := by
    simp only [Vec.cross]; linear_combination -dr.x * h1 - dl.x * h2
  have ey : dl.cross dr * (q.y - q'.y) = 0 := by
    simp only [Vec.cross]; linear_combination -dr.y * h1 - dl.y * h2
  ext
  · linarith [(mul_eq_zero.1 ex).resolve_left hc]
  · linarith [(mul_eq_zero.1 ey).resolve_left hc]

theorem dist_addVector (pt : Pt ℝ) (w : Vec ℝ) (s : ℝ) (hw : w.length = 1) :
    hypot ((pt.addVector (w.mul s)).x - pt.x) ((pt.addVector (w.mul s)).y - pt.y) = |s| := by
  simp only [Pt.addVector, Vec.mul, add_sub_cancel_left]
  rw [hypot_mul]
  have : hypot w.x w.y = 1 := hw
  rw [this, one_mul]

/-- C37: at a joint that is not straight there is exactly one point at signed distance `offset` from both edge lines (the
incoming edge runs against `dl`, the outgoing one along `dr`; positive is to the left); if it is no further than 100 from
the joint, that is the point returned. -/
theorem C37_mitre {dl dr : Vec ℝ} (pt : Pt ℝ) (offset : ℝ) (hl : dl ≠ ⟨0, 0⟩) (hr : dr ≠ ⟨0, 0⟩)
    (hs : NotStraight dl dr) :
    (∃! q : Pt ℝ, signedDist pt dl.neg q = offset ∧ signedDist pt dr q = offset) ∧
    ∀ q : Pt ℝ, signedDist pt dl.neg q = offset ∧ signedDist pt dr q = offset →
      hypot (q.x - pt.x) (q.y - pt.y) ≤ 100 → offsetPt dl pt dr offset = .ok q := by
  obtain ⟨a, b, w, s, -, -, -, -, hw1, -, h1, h2, h3, -⟩ := offsetPt_angled pt offset hl hr hs
  refine ⟨⟨pt.addVector (w.mul s), ⟨h1, h2⟩, ?_⟩, ?_⟩
  · rintro q ⟨e1, e2⟩
    exact meet_unique pt hl hr hs (e1.trans h1.symm) (e2.trans h2.symm)
  · rintro q ⟨e1, e2⟩ h
    have hq : q = pt.addVector (w.mul s) := meet_unique pt hl hr hs (e1.trans h1.symm) (e2.trans h2.symm)
    subst hq
    rw [dist_addVector pt w s hw1] at h
    exact h3 h

/-- C37: if that point is further away, the result is at distance exactly 100 from the joint, on the line through the joint
and that point. -/
theorem C37_limited {dl dr : Vec ℝ} (pt : Pt ℝ) (offset : ℝ) (hl : dl ≠ ⟨0, 0⟩) (hr : dr ≠ ⟨0, 0⟩)
    (hs : NotStraight dl dr) (q : Pt ℝ) (h1 : signedDist pt dl.neg q = offset) (h2 : signedDist pt dr q = offset)
    (hfar : 100 < hypot (q.x - pt.x) (q.y - pt.y)) :
    ∃ r, offsetPt dl pt dr offset = .ok r ∧ hypot (r.x - pt.x) (r.y - pt.y) = 100 ∧
      (r.x - pt.x) * (q.y - pt.y) = (r.y - pt.y) * (q.x - pt.x) := by
  obtain ⟨a, b, w, s, -, -, -, -, hw1, -, g1, g2, -, g4⟩ := offsetPt_angled pt offset hl hr hs
  have hq : q = pt.addVector (w.mul s) := meet_unique pt hl hr hs (h1.trans g1.symm) (h2.trans g2.symm)
  subst hq
  rw [dist_addVector pt w s hw1] at hfar
  refine ⟨_, g4 hfar, ?_, ?_⟩
  · rw [dist_addVector pt w 100 hw1]; norm_num
  · simp [Pt.addVector, Vec.mul]; ring

/-- C37: at a straight joint the point moves by exactly `offset` along the normal of the incoming edge, without a limit. -/
theorem C37_straight {dl dr : Vec ℝ} (pt : Pt ℝ) (offset : ℝ) (hl : dl ≠ ⟨0, 0⟩) (hr : dr ≠ ⟨0, 0⟩)
    (hs : ¬ NotStraight dl dr) :
    ∃ q, offsetPt dl pt dr offset = .ok q ∧ signedDist pt dl.neg q = offset ∧
      dl.x * (q.x - pt.x) + dl.y * (q.y - pt.y) = 0 ∧ hypot (q.x - pt.x) (q.y - pt.y) = |offset| := by
  obtain ⟨a, ha, ha1, hax, hay, hla⟩ := unit_facts hl
  obtain ⟨b, hb, hb1, hbx, hby, hlb⟩ := unit_facts hr
  have hc : dl.cross dr = dl.length * dr.length * a.cross b := by
    simp only [Vec.cross]; rw [hax, hay, hbx, hby]
    have : ∀ L M : ℝ, L * a.x * (M * b.y) - L * a.y * (M * b.x) = L * M * (a.x * b.y - a.y * b.x) := by intros; ring
    exact this _ _
  have hst : |a.cross b| < 1 / 10 ^ 10 := by
    rw [NotStraight, hc, abs_mul, abs_of_pos (mul_pos hla hlb), not_le, mul_comm (1 / 10 ^ 10 : ℝ)] at hs
    exact lt_of_mul_lt_mul_left hs (mul_pos hla hlb).le
  refine ⟨pt.addVector (a.normal.mul offset), ?_, ?_, ?_, ?_⟩
  · rw [offsetPt_eq pt offset hl hr ha hb, if_pos hst]
  · have hneg : Real.sqrt (dl.neg.x ^ 2 + dl.neg.y ^ 2) = dl.length := by
      simp only [Vec.neg, Vec.length, hypot]; congr 1; ring
    rw [signedDist, hneg, div_eq_iff hla.ne']
    simp only [Vec.neg, Pt.addVector, Vec.mul, Vec.normal]
    linear_combination (a.x * offset) * hax + (a.y * offset) * hay + offset * dl.length * ha1
  · simp only [Pt.addVector, Vec.mul, Vec.normal]
    linear_combination (a.y * offset) * hax - (a.x * offset) * hay
  · apply dist_addVector
    exact hypot_unique zero_le_one (by simp only [Vec.normal]; linarith)

/-- C37: with a zero handle the point does not move. -/
theorem C37_zero_handle (dl dr : Vec ℝ) (pt : Pt ℝ) (offset : ℝ) (h : dl = ⟨0, 0⟩ ∨ dr = ⟨0, 0⟩) :
    offsetPt dl pt dr offset = .ok pt := by
  rw [offsetPt, if_pos h]

/-- C37: `offset_pt` never fails and never moves the point further than the larger of `|offset|` and 100. -/
theorem C37_bounded (dl dr : Vec ℝ) (pt : Pt ℝ) (offset : ℝ) :
    ∃ q, offsetPt dl pt dr offset = .ok q ∧ hypot (q.x - pt.x) (q.y - pt.y) ≤ max |offset| 100 := by
  by_cases h : dl = ⟨0, 0⟩ ∨ dr = ⟨0, 0⟩
  · refine ⟨pt, C37_zero_handle dl dr pt offset h, ?_⟩
    rw [sub_self, sub_self, hypot_eq_zero.2 ⟨rfl, rfl⟩]
    exact le_max_of_le_right (by norm_num)
  · rw [not_or] at h
    by_cases hs : NotStraight dl dr
    · obtain ⟨a, b, w, s, -, -, -, -, hw1, -, -, -, g3, g4⟩ := offsetPt_angled pt offset h.1 h.2 hs
      by_cases hl : |s| ≤ 100
      · exact ⟨_, g3 hl, by rw [dist_addVector pt w s hw1]; exact le_max_of_le_right hl⟩
      · refine ⟨_, g4 (not_le.1 hl), ?_⟩
        rw [dist_addVector pt w 100 hw1]; exact le_max_of_le_right (by norm_num)
    · obtain ⟨q, hq, -, -, hd⟩ := C37_straight pt offset h.1 h.2 hs
      exact ⟨q, hq, by rw [hd]; exact le_max_left _ _⟩

/-- C37: the limit does not keep the side: here a positive offset moves the point to the negative side of both edges. -/
theorem C37_limit_sign_counterexample : ∃ (dl dr : Vec ℝ) (pt : Pt ℝ) (offset : ℝ) (q : Pt ℝ), 0 < offset ∧
    offsetPt dl pt dr offset = .ok q ∧ signedDist pt dl.neg q < 0 ∧ signedDist pt dr q < 0 := by
  have hns : NotStraight ⟨1, 0⟩ ⟨0, 1⟩ := by
    simp [NotStraight, Vec.length, hypot, Vec.cross]; norm_num
  have hl : (⟨1, 0⟩ : Vec ℝ) ≠ ⟨0, 0⟩ := by simp
  have hr : (⟨0, 1⟩ : Vec ℝ) ≠ ⟨0, 0⟩ := by simp
  obtain ⟨a, b, w, s, ha, hb, hw, hwa, hw1, hs, -, -, -, g4⟩ := offsetPt_angled (⟨0, 0⟩ : Pt ℝ) 1000 hl hr hns
  have e1 : a = ⟨1, 0⟩ := by
    rw [Vec.unit_ok hl] at ha; simp [Vec.length, hypot] at ha; exact ha.symm
  have e2 : b = ⟨0, 1⟩ := by
    rw [Vec.unit_ok hr] at hb; simp [Vec.length, hypot] at hb; exact hb.symm
  have hv : b.add a = ⟨1, 1⟩ := by rw [e1, e2]; simp [Vec.add]
  have hv0 : (⟨1, 1⟩ : Vec ℝ) ≠ ⟨0, 0⟩ := by simp
  have hL := Vec.length_pos hv0
  rw [hv, Vec.unit_ok hv0] at hw
  simp only [Except.ok.injEq] at hw
  have hwy : 0 < w.y := by rw [← hw]; positivity
  have hwx : 0 < w.x := by rw [← hw]; positivity
  have hwy1 : w.y ≤ 1 := by
    have h := Vec.length_sq w
    rw [hw1] at h
    simp only [Vec.dot] at h
    nlinarith [mul_self_nonneg w.x]
  have hs' : s = -(1000 / w.y) := by
    rw [hs, e1]; simp [Vec.cross, div_neg]
  have hbig : 100 < |s| := by
    rw [hs', abs_neg, abs_of_pos (by positivity)]
    rw [lt_div_iff₀ hwy]; linarith
  refine ⟨_, _, _, _, _, by norm_num, g4 hbig, ?_, ?_⟩
  · simp [signedDist, Vec.neg, Pt.addVector, Vec.mul]; exact hwy
  · simp [signedDist, Pt.addVector, Vec.mul]; exact hwx

example : NotStraight ⟨1, 0⟩ ⟨0, 1⟩ := by
  simp [NotStraight, Vec.length, hypot, Vec.cross]; norm_num
example : ¬ NotStraight ⟨1, 0⟩ ⟨-1, 0⟩ := by
  simp [NotStraight, Vec.length, hypot, Vec.cross]

end X7
