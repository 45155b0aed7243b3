import Verif.Props.Shapes
import Verif.Spec.Bezier

/-!
A rounded rectangle and its mirror image in the line `x = y`: exchanging the coordinates of the corners gives the exchanged
control points, in another order.
-/

namespace X7

/-- Mirror image in the line `x = y`. -/
def Pt.flip (p : Pt ℝ) : Pt ℝ := ⟨p.y, p.x⟩
def Vec.flip (v : Vec ℝ) : Vec ℝ := ⟨v.y, v.x⟩

/-- The mirror image of a control point for the opposite direction of travel. -/
def CP.flip (cp : CP ℝ) : CP ℝ := ⟨cp.c.flip, cp.dr.flip, cp.dl.flip, cp.kind⟩

theorem Pt.flip_inj {p q : Pt ℝ} : p.flip = q.flip ↔ p = q := by
  constructor
  · intro h
    exact Pt.ext (congrArg Pt.y h) (congrArg Pt.x h)
  · exact congrArg _

theorem seg_flip (p q : CP ℝ) : seg q.flip p.flip = (seg p q).rev.map Pt.flip := rfl

theorem Vec.flip_length (v : Vec ℝ) : v.flip.length = v.length := by
  simp only [Vec.length, hypot, Vec.flip, add_comm]

theorem cornerSide_flip (v : Vec ℝ) (len nr : ℝ) : cornerSide v.flip len nr = (cornerSide v len nr).map Vec.flip := by
  unfold cornerSide
  by_cases hl : len = 0
  · simp [hl, Except.map, Vec.flip]
  · rw [if_pos hl, if_pos hl]
    by_cases hv : v = ⟨0, 0⟩
    · subst hv
      have e : Vec.flip ⟨0, 0⟩ = (⟨0, 0⟩ : Vec ℝ) := rfl
      rw [e]
      cases h : (⟨0, 0⟩ : Vec ℝ).unit with
      | error e => rfl
      | ok u =>
        exfalso
        have hl0 : Vec.length (⟨0, 0⟩ : Vec ℝ) = 0 := Vec.length_eq_zero.2 rfl
        simp [Vec.unit, hl0, Vec.truediv, pyDiv] at h
    · have hv' : v.flip ≠ ⟨0, 0⟩ := by
        intro h; exact hv (Vec.ext (congrArg Vec.y h) (congrArg Vec.x h))
      rw [Vec.unit_ok hv, Vec.unit_ok hv', Vec.flip_length]
      rfl

theorem cornerSide_ok (v : Vec ℝ) (nr : ℝ) : ∃ u, cornerSide v (v.length / 2) nr = .ok u := by
  unfold cornerSide
  by_cases hv : v = ⟨0, 0⟩
  · rw [Vec.length_eq_zero.2 hv]; simp
  · rw [Vec.unit_ok hv]
    split_ifs
    · exact ⟨_, rfl⟩
    · exact ⟨_, rfl⟩

theorem cornerScale_ok (len nr : ℝ) : ∃ u, cornerScale len nr = .ok u := by
  unfold cornerScale
  by_cases h : nr = 0
  · exact ⟨0, by simp [h]⟩
  · exact ⟨_, by simp only [ne_eq, h, not_false_eq_true, if_true, pyDiv, if_false]; rfl⟩

theorem Pt.flip_sub (a b : Pt ℝ) : a.flip.sub b.flip = (a.sub b).flip := rfl

/-- The corner walked the other way round, mirrored. -/
theorem roundedCorner_flip (r : ℝ) (a b c : Pt ℝ) :
    ∃ L R, roundedCorner r a b c = .ok (L, R) ∧ roundedCorner r c.flip b.flip a.flip = .ok (R.flip, L.flip) := by
  simp only [roundedCorner, Pt.flip_sub, Vec.flip_length]
  rw [min_comm ((c.sub b).length / 2)]
  generalize min r (min ((a.sub b).length / 2) ((c.sub b).length / 2)) = nr
  obtain ⟨ab, h1⟩ := cornerSide_ok (a.sub b) nr
  obtain ⟨cb, h2⟩ := cornerSide_ok (c.sub b) nr
  obtain ⟨s1, h3⟩ := cornerScale_ok ((a.sub b).length / 2) nr
  obtain ⟨s2, h4⟩ := cornerScale_ok ((c.sub b).length / 2) nr
  rw [cornerSide_flip, cornerSide_flip, h1, h2, h3, h4]
  exact ⟨_, _, rfl, rfl⟩

/-- Both lists of eight control points before duplicates are removed. -/
theorem makeRoundedRect_flip_raw (p1 p2 : Pt ℝ) (r : ℝ) :
    ∃ L0 R0 L1 R1 L2 R2 L3 R3,
      makeRoundedRect p1 p2 r = .ok (dedupe [L0, R0, L1, R1, L2, R2, L3, R3]) ∧
      makeRoundedRect p1.flip p2.flip r =
        .ok (dedupe [R0.flip, L0.flip, R3.flip, L3.flip, R2.flip, L2.flip, R1.flip, L1.flip]) ∧
      roundedCorner r ⟨p2.x, p1.y⟩ p1 ⟨p1.x, p2.y⟩ = .ok (L0, R0) ∧ roundedCorner r p1 ⟨p1.x, p2.y⟩ p2 = .ok (L1, R1) ∧
      roundedCorner r ⟨p1.x, p2.y⟩ p2 ⟨p2.x, p1.y⟩ = .ok (L2, R2) ∧ roundedCorner r p2 ⟨p2.x, p1.y⟩ p1 = .ok (L3, R3) := by
  obtain ⟨L0, R0, h0, k0⟩ := roundedCorner_flip r ⟨p2.x, p1.y⟩ p1 ⟨p1.x, p2.y⟩
  obtain ⟨L1, R1, h1, k1⟩ := roundedCorner_flip r p1 ⟨p1.x, p2.y⟩ p2
  obtain ⟨L2, R2, h2, k2⟩ := roundedCorner_flip r ⟨p1.x, p2.y⟩ p2 ⟨p2.x, p1.y⟩
  obtain ⟨L3, R3, h3, k3⟩ := roundedCorner_flip r p2 ⟨p2.x, p1.y⟩ p1
  refine ⟨L0, R0, L1, R1, L2, R2, L3, R3, ?_, ?_, h0, h1, h2, h3⟩
  · simp [makeRoundedRect, iterRotate3m1, h0, h1, h2, h3, bind, Except.bind, pure, Except.pure]
  · simp only [Pt.flip] at k0 k1 k2 k3
    simp [makeRoundedRect, iterRotate3m1, Pt.flip, k0, k1, k2, k3, bind, Except.bind, pure, Except.pure]

/-- The centres of the control points of one corner, the radius used being `nr`. -/
theorem roundedCorner_centres (r : ℝ) (hr : 0 ≤ r) (a b c : Pt ℝ) (L R : CP ℝ) (la lc nr : ℝ) (h : roundedCorner r a b c = .ok (L, R))
    (hn : nr = min r (min ((a.sub b).length / 2) ((c.sub b).length / 2))) (ha : 0 < (a.sub b).length) (hc : 0 < (c.sub b).length)
    (ea : la * (a.sub b).length = nr) (ec : lc * (c.sub b).length = nr) :
    L.c = b.addVector ((a.sub b).mul la) ∧ R.c = b.addVector ((c.sub b).mul lc) := by
  obtain ⟨la', sa, lc', sc, e, h1, h2⟩ := roundedCorner_form r a b c hr
  rw [← hn] at h1 h2
  have e1 : la' = la := mul_right_cancel₀ ha.ne' (h1.2.2.1.trans ea.symm)
  have e2 : lc' = lc := mul_right_cancel₀ hc.ne' (h2.2.2.1.trans ec.symm)
  subst e1 e2
  rw [e] at h
  simp only [Except.ok.injEq, Prod.mk.injEq] at h
  obtain ⟨rfl, rfl⟩ := h
  exact ⟨rfl, rfl⟩

/-- With sides and radius not zero: the two control points of a corner differ; those that meet on an edge do so on the
opposite edge too. -/
theorem rounded_coincide (p1 p2 : Pt ℝ) (r : ℝ) (hr : 0 < r) (hx : p1.x ≠ p2.x) (hy : p1.y ≠ p2.y) (L0 R0 L1 R1 L2 R2 L3 R3 : CP ℝ)
    (h0 : roundedCorner r ⟨p2.x, p1.y⟩ p1 ⟨p1.x, p2.y⟩ = .ok (L0, R0)) (h1 : roundedCorner r p1 ⟨p1.x, p2.y⟩ p2 = .ok (L1, R1))
    (h2 : roundedCorner r ⟨p1.x, p2.y⟩ p2 ⟨p2.x, p1.y⟩ = .ok (L2, R2)) (h3 : roundedCorner r p2 ⟨p2.x, p1.y⟩ p1 = .ok (L3, R3)) :
    L0.c ≠ R0.c ∧ L1.c ≠ R1.c ∧ L2.c ≠ R2.c ∧ L3.c ≠ R3.c ∧ (R0.c = L1.c ↔ R2.c = L3.c) ∧ (R1.c = L2.c ↔ R3.c = L0.c) := by
  have lx : ∀ x : ℝ, Vec.length (⟨x, 0⟩ : Vec ℝ) = |x| := by
    intro x; simp [Vec.length, hypot, Real.sqrt_mul_self_eq_abs]
  have ly : ∀ x : ℝ, Vec.length (⟨0, x⟩ : Vec ℝ) = |x| := by
    intro x; simp [Vec.length, hypot, Real.sqrt_mul_self_eq_abs]
  have dx : p2.x - p1.x ≠ 0 := sub_ne_zero.2 (Ne.symm hx)
  have dy : p2.y - p1.y ≠ 0 := sub_ne_zero.2 (Ne.symm hy)
  have w0 : 0 < |p2.x - p1.x| := abs_pos.2 dx
  have v0 : 0 < |p2.y - p1.y| := abs_pos.2 dy
  obtain ⟨w, hw⟩ : ∃ w, w = |p2.x - p1.x| := ⟨_, rfl⟩
  obtain ⟨v, hv⟩ : ∃ v, v = |p2.y - p1.y| := ⟨_, rfl⟩
  rw [← hw] at w0
  rw [← hv] at v0
  obtain ⟨nr, hnr⟩ : ∃ nr, nr = min r (min (w / 2) (v / 2)) := ⟨_, rfl⟩
  have n0 : 0 < nr := by rw [hnr]; exact lt_min hr (lt_min (by linarith) (by linarith))
  obtain ⟨f, hf⟩ : ∃ f, f * w = nr := ⟨nr / w, by field_simp⟩
  obtain ⟨g, hg⟩ : ∃ g, g * v = nr := ⟨nr / v, by field_simp⟩
  have f0 : f ≠ 0 := by rintro rfl; rw [zero_mul] at hf; exact n0.ne hf
  have g0 : g ≠ 0 := by rintro rfl; rw [zero_mul] at hg; exact n0.ne hg
  have hnr' : nr = min r (min (v / 2) (w / 2)) := by rw [min_comm (v / 2)]; exact hnr
  have hw' : |p1.x - p2.x| = w := by rw [hw, abs_sub_comm]
  have hv' : |p1.y - p2.y| = v := by rw [hv, abs_sub_comm]
  obtain ⟨c0, d0⟩ := roundedCorner_centres r hr.le _ _ _ _ _ f g nr h0 (by simp [Pt.sub, lx, ly, ← hw, ← hv, ← hnr])
    (by simpa [Pt.sub, lx, ← hw] using w0) (by simpa [Pt.sub, ly, ← hv] using v0) (by simpa [Pt.sub, lx, ← hw] using hf)
    (by simpa [Pt.sub, ly, ← hv] using hg)
  obtain ⟨c1, d1⟩ := roundedCorner_centres r hr.le _ _ _ _ _ g f nr h1 (by simp [Pt.sub, lx, ly, ← hw, hv', ← hnr'])
    (by simpa [Pt.sub, ly, hv'] using v0) (by simpa [Pt.sub, lx, ← hw] using w0) (by simpa [Pt.sub, ly, hv'] using hg)
    (by simpa [Pt.sub, lx, ← hw] using hf)
  obtain ⟨c2, d2⟩ := roundedCorner_centres r hr.le _ _ _ _ _ f g nr h2 (by simp [Pt.sub, lx, ly, hw', hv', ← hnr])
    (by simpa [Pt.sub, lx, hw'] using w0) (by simpa [Pt.sub, ly, hv'] using v0) (by simpa [Pt.sub, lx, hw'] using hf)
    (by simpa [Pt.sub, ly, hv'] using hg)
  obtain ⟨c3, d3⟩ := roundedCorner_centres r hr.le _ _ _ _ _ g f nr h3 (by simp [Pt.sub, lx, ly, hw', ← hv, ← hnr'])
    (by simpa [Pt.sub, ly, ← hv] using v0) (by simpa [Pt.sub, lx, hw'] using w0) (by simpa [Pt.sub, ly, ← hv] using hg)
    (by simpa [Pt.sub, lx, hw'] using hf)
  rw [c0, c1, c2, c3, d0, d1, d2, d3]
  have dx' : p1.x - p2.x ≠ 0 := sub_ne_zero.2 hx
  have dy' : p1.y - p2.y ≠ 0 := sub_ne_zero.2 hy
  simp only [Pt.addVector, Vec.mul, Pt.sub, Pt.mk.injEq, sub_self, zero_mul, add_zero, true_and, and_true, ne_eq]
  refine ⟨?_, ?_, ?_, ?_, ?_, ?_⟩
  · rintro ⟨e, -⟩
    exact mul_ne_zero dx f0 (by linarith)
  · rintro ⟨-, e⟩
    exact mul_ne_zero dy' g0 (by linarith)
  · rintro ⟨e, -⟩
    exact mul_ne_zero dx' f0 (by linarith)
  · rintro ⟨-, e⟩
    exact mul_ne_zero dy g0 (by linarith)
  · constructor <;> intro e <;> linarith
  · constructor <;> intro e <;> linarith

theorem mem_rev_flip (l l' : List (Poly4 ℝ)) (h : l' ~r (l.map fun s => s.rev.map Pt.flip).reverse) (s : Poly4 ℝ) :
    s ∈ l' ↔ ∃ s0 ∈ l, s = s0.rev.map Pt.flip := by
  rw [h.mem_iff, List.mem_reverse, List.mem_map]
  simp only [eq_comm]

/-- The segments after removal of duplicates correspond. -/
theorem dedupe_flip (L0 R0 L1 R1 L2 R2 L3 R3 : CP ℝ) (n0 : L0.c ≠ R0.c) (n1 : L1.c ≠ R1.c) (n2 : L2.c ≠ R2.c) (n3 : L3.c ≠ R3.c)
    (hp : R0.c = L1.c ↔ R2.c = L3.c) (hq : R1.c = L2.c ↔ R3.c = L0.c) :
    (dedupe [R0.flip, L0.flip, R3.flip, L3.flip, R2.flip, L2.flip, R1.flip, L1.flip]).length =
      (dedupe [L0, R0, L1, R1, L2, R2, L3, R3]).length ∧ dedupe [L0, R0, L1, R1, L2, R2, L3, R3] ≠ [] ∧
    ∀ s, s ∈ segs true (dedupe [R0.flip, L0.flip, R3.flip, L3.flip, R2.flip, L2.flip, R1.flip, L1.flip]) ↔
      ∃ s0 ∈ segs true (dedupe [L0, R0, L1, R1, L2, R2, L3, R3]), s = s0.rev.map Pt.flip := by
  have fl : ∀ a b : CP ℝ, a.flip.c = b.flip.c ↔ a.c = b.c := fun a b => Pt.flip_inj
  obtain ⟨d1, d2, d3, d4⟩ := dedupe_eight L0 R0 L1 R1 L2 R2 L3 R3 n0 n1 n2 n3
  obtain ⟨e1, e2, e3, e4⟩ := dedupe_eight R0.flip L0.flip R3.flip L3.flip R2.flip L2.flip R1.flip L1.flip
    (fun h => n0 ((fl _ _).1 h).symm) (fun h => n3 ((fl _ _).1 h).symm) (fun h => n2 ((fl _ _).1 h).symm)
    (fun h => n1 ((fl _ _).1 h).symm)
  simp only [fl, ne_eq] at e1 e2 e3 e4
  by_cases P : R0.c = L1.c <;> by_cases Q : R1.c = L2.c
  · rw [d4 P Q (hp.1 P) (hq.1 Q), e4 (hq.1 Q).symm (hp.1 P).symm Q.symm P.symm]
    refine ⟨rfl, by simp, mem_rev_flip _ _ ⟨3, ?_⟩⟩
    simp [segs, closedSegs, List.rotate, seg, Poly4.rev, Poly4.map, CP.flip, Pt.flip, P, Q, hp.1 P, hq.1 Q, Vec.flip]
  · rw [d2 P Q (hp.1 P) (mt hq.2 Q), e3 (fun h => Q (hq.2 h.symm)) (hp.1 P).symm (fun h => Q h.symm) P.symm]
    refine ⟨rfl, by simp, mem_rev_flip _ _ ⟨5, ?_⟩⟩
    simp [segs, closedSegs, List.rotate, seg, Poly4.rev, Poly4.map, CP.flip, Pt.flip, P, hp.1 P, Vec.flip]
  · rw [d3 P Q (mt hp.2 P) (hq.1 Q), e2 (hq.1 Q).symm (fun h => P (hp.2 h.symm)) Q.symm (fun h => P h.symm)]
    refine ⟨rfl, by simp, mem_rev_flip _ _ ⟨5, ?_⟩⟩
    simp [segs, closedSegs, List.rotate, seg, Poly4.rev, Poly4.map, CP.flip, Pt.flip, Q, hq.1 Q, Vec.flip]
  · rw [d1 P Q (mt hp.2 P) (mt hq.2 Q), e1 (fun h => Q (hq.2 h.symm)) (fun h => P (hp.2 h.symm)) (fun h => Q h.symm) (fun h => P h.symm)]
    refine ⟨rfl, by simp, mem_rev_flip _ _ ⟨7, ?_⟩⟩
    simp [segs, closedSegs, List.rotate, seg, Poly4.rev, Poly4.map, CP.flip, Pt.flip, Vec.flip]

/-- A control point without handles. -/
def CP.flat (c : Pt ℝ) : CP ℝ := ⟨c, ⟨0, 0⟩, ⟨0, 0⟩, "smooth"⟩

theorem roundedCorner_zero (r : ℝ) (a b c : Pt ℝ) (h : min r (min ((a.sub b).length / 2) ((c.sub b).length / 2)) = 0) :
    roundedCorner r a b c = .ok (CP.flat b, CP.flat b) := by
  have hs : ∀ v : Vec ℝ, cornerSide v (v.length / 2) 0 = .ok ⟨0, 0⟩ := by
    intro v
    obtain ⟨u, hu⟩ := cornerSide_ok v 0
    unfold cornerSide at hu ⊢
    by_cases hv : v = ⟨0, 0⟩
    · rw [Vec.length_eq_zero.2 hv]; simp
    · rw [Vec.unit_ok hv]
      split_ifs <;> simp [Except.map, Vec.mul]
  have hc : ∀ l : ℝ, cornerScale l 0 = .ok 0 := fun l => by simp [cornerScale]
  simp only [roundedCorner, h, hs, hc]
  simp [bind, Except.bind, CP.flat, Pt.addVector, Vec.mul, Vec.neg]

theorem CP.flat_flip (c : Pt ℝ) : (CP.flat c).flip = CP.flat c.flip := rfl

theorem dedupe_flat (a b c d : Pt ℝ) (h : (a = d ∧ b = c) ∨ (a = b ∧ c = d) ∨ (a ≠ b ∧ b ≠ c ∧ c ≠ d ∧ d ≠ a)) :
    (dedupe [CP.flat a.flip, CP.flat a.flip, CP.flat d.flip, CP.flat d.flip, CP.flat c.flip, CP.flat c.flip, CP.flat b.flip, CP.flat b.flip]).length =
      (dedupe [CP.flat a, CP.flat a, CP.flat b, CP.flat b, CP.flat c, CP.flat c, CP.flat d, CP.flat d]).length ∧
    dedupe [CP.flat a, CP.flat a, CP.flat b, CP.flat b, CP.flat c, CP.flat c, CP.flat d, CP.flat d] ≠ [] ∧
    ∀ s, s ∈ segs true (dedupe [CP.flat a.flip, CP.flat a.flip, CP.flat d.flip, CP.flat d.flip, CP.flat c.flip, CP.flat c.flip, CP.flat b.flip,
        CP.flat b.flip]) ↔
      ∃ s0 ∈ segs true (dedupe [CP.flat a, CP.flat a, CP.flat b, CP.flat b, CP.flat c, CP.flat c, CP.flat d, CP.flat d]),
        s = s0.rev.map Pt.flip := by
  have hr : List.range 8 = [0, 1, 2, 3, 4, 5, 6, 7] := rfl
  have k1 : ∀ a : Pt ℝ, dedupe [CP.flat a, CP.flat a, CP.flat a, CP.flat a, CP.flat a, CP.flat a, CP.flat a, CP.flat a] =
      [CP.flat a, CP.flat a, CP.flat a, CP.flat a, CP.flat a, CP.flat a, CP.flat a, CP.flat a] := by
    intro a
    simp [dedupe, hr, dedupeStep, CP.flat]
  have k2 : ∀ a b : Pt ℝ, a ≠ b → dedupe [CP.flat a, CP.flat a, CP.flat a, CP.flat a, CP.flat b, CP.flat b, CP.flat b, CP.flat b] =
      [CP.flat a, CP.flat a, CP.flat b, CP.flat b, CP.flat b, CP.flat a] := by
    intro a b h
    simp [dedupe, hr, dedupeStep, CP.flat, h, h.symm]
  have k3 : ∀ a b : Pt ℝ, a ≠ b → dedupe [CP.flat a, CP.flat a, CP.flat b, CP.flat b, CP.flat b, CP.flat b, CP.flat a, CP.flat a] =
      [CP.flat b, CP.flat b, CP.flat b, CP.flat a, CP.flat a, CP.flat a] := by
    intro a b h
    simp [dedupe, hr, dedupeStep, CP.flat, h, h.symm]
  have k4 : ∀ a b c d : Pt ℝ, a ≠ b → b ≠ c → c ≠ d → d ≠ a →
      dedupe [CP.flat a, CP.flat a, CP.flat b, CP.flat b, CP.flat c, CP.flat c, CP.flat d, CP.flat d] =
        [CP.flat b, CP.flat c, CP.flat d, CP.flat a] := by
    intro a b c d h1 h2 h3 h4
    simp [dedupe, hr, dedupeStep, CP.flat, h1, h2, h3, h4, h1.symm, h2.symm, h3.symm, h4.symm]
  have hf : ∀ {a b : Pt ℝ}, a ≠ b → a.flip ≠ b.flip := fun h e => h (Pt.flip_inj.1 e)
  have hs : ∀ x y : Pt ℝ, (seg (CP.flat x) (CP.flat y)).rev.map Pt.flip = seg (CP.flat y.flip) (CP.flat x.flip) := fun _ _ => rfl
  rcases h with ⟨rfl, rfl⟩ | ⟨rfl, rfl⟩ | ⟨h1, h2, h3, h4⟩
  · by_cases h : a = b
    · subst h
      rw [k1, k1]
      refine ⟨rfl, by simp, mem_rev_flip _ _ ⟨0, ?_⟩⟩
      simp [segs, closedSegs, List.rotate, hs]
    · rw [k2 _ _ (hf h), k3 _ _ h]
      refine ⟨rfl, by simp, mem_rev_flip _ _ ⟨4, ?_⟩⟩
      simp [segs, closedSegs, List.rotate, hs]
  · by_cases h : a = c
    · subst h
      rw [k1, k1]
      refine ⟨rfl, by simp, mem_rev_flip _ _ ⟨0, ?_⟩⟩
      simp [segs, closedSegs, List.rotate, hs]
    · rw [k3 _ _ (hf h), k2 _ _ h]
      refine ⟨rfl, by simp, mem_rev_flip _ _ ⟨4, ?_⟩⟩
      simp [segs, closedSegs, List.rotate, hs]
  · rw [k4 _ _ _ _ h1 h2 h3 h4, k4 _ _ _ _ (hf h4.symm) (hf h3.symm) (hf h2.symm) (hf h1.symm)]
    refine ⟨rfl, by simp, mem_rev_flip _ _ ⟨2, ?_⟩⟩
    simp [segs, closedSegs, List.rotate, hs]

/-- Exchanging the coordinates of the corners exchanges the coordinates of the outline, which is walked the other way round. -/
theorem makeRoundedRect_flip (p1 p2 : Pt ℝ) (r : ℝ) (hr : 0 ≤ r) :
    ∃ cps cps', makeRoundedRect p1 p2 r = .ok cps ∧ makeRoundedRect p1.flip p2.flip r = .ok cps' ∧ cps'.length = cps.length ∧
      cps ≠ [] ∧ ∀ s, s ∈ segs true cps' ↔ ∃ s0 ∈ segs true cps, s = s0.rev.map Pt.flip := by
  obtain ⟨L0, R0, L1, R1, L2, R2, L3, R3, e, e', h0, h1, h2, h3⟩ := makeRoundedRect_flip_raw p1 p2 r
  refine ⟨_, _, e, e', ?_⟩
  by_cases hz : 0 < r ∧ p1.x ≠ p2.x ∧ p1.y ≠ p2.y
  · obtain ⟨n0, n1, n2, n3, hp, hq⟩ := rounded_coincide p1 p2 r hz.1 hz.2.1 hz.2.2 _ _ _ _ _ _ _ _ h0 h1 h2 h3
    exact dedupe_flip _ _ _ _ _ _ _ _ n0 n1 n2 n3 hp hq
  · have lx : ∀ x : ℝ, Vec.length (⟨x, 0⟩ : Vec ℝ) = |x| := by
      intro x; simp [Vec.length, hypot, Real.sqrt_mul_self_eq_abs]
    have ly : ∀ x : ℝ, Vec.length (⟨0, x⟩ : Vec ℝ) = |x| := by
      intro x; simp [Vec.length, hypot, Real.sqrt_mul_self_eq_abs]
    have key : ∀ u v : ℝ, (r = 0 ∨ u = 0 ∨ v = 0) → 0 ≤ u → 0 ≤ v → min r (min (u / 2) (v / 2)) = 0 := by
      rintro u v (h | h | h) hu hv
      · rw [h]; exact min_eq_left (le_min (by linarith) (by linarith))
      · rw [h, zero_div, min_eq_left (by linarith : (0 : ℝ) ≤ v / 2), min_eq_right hr]
      · rw [h, zero_div, min_eq_right (by linarith : (0 : ℝ) ≤ u / 2), min_eq_right hr]
    have hc : r = 0 ∨ p2.x - p1.x = 0 ∨ p2.y - p1.y = 0 := by
      by_contra hcon
      push Not at hcon
      exact hz ⟨lt_of_le_of_ne hr (Ne.symm hcon.1), fun h => hcon.2.1 (by rw [h, sub_self]), fun h => hcon.2.2 (by rw [h, sub_self])⟩
    have hk : min r (min (|p2.x - p1.x| / 2) (|p2.y - p1.y| / 2)) = 0 :=
      key _ _ (by simpa only [abs_eq_zero] using hc) (abs_nonneg _) (abs_nonneg _)
    have hk' : min r (min (|p2.y - p1.y| / 2) (|p2.x - p1.x| / 2)) = 0 := by rw [min_comm (|p2.y - p1.y| / 2)]; exact hk
    rw [roundedCorner_zero _ _ _ _ (by simpa [Pt.sub, lx, ly] using hk)] at h0
    rw [roundedCorner_zero _ _ _ _ (by simpa [Pt.sub, lx, ly, abs_sub_comm p1.y] using hk')] at h1
    rw [roundedCorner_zero _ _ _ _ (by simpa [Pt.sub, lx, ly, abs_sub_comm p1.y, abs_sub_comm p1.x] using hk)] at h2
    rw [roundedCorner_zero _ _ _ _ (by simpa [Pt.sub, lx, ly, abs_sub_comm p1.x] using hk')] at h3
    simp only [Except.ok.injEq, Prod.mk.injEq] at h0 h1 h2 h3
    obtain ⟨rfl, rfl⟩ := h0
    obtain ⟨rfl, rfl⟩ := h1
    obtain ⟨rfl, rfl⟩ := h2
    obtain ⟨rfl, rfl⟩ := h3
    have hcase : ∀ p1 p2 : Pt ℝ, (p1 = ⟨p2.x, p1.y⟩ ∧ (⟨p1.x, p2.y⟩ : Pt ℝ) = p2) ∨ (p1 = ⟨p1.x, p2.y⟩ ∧ p2 = ⟨p2.x, p1.y⟩) ∨
        (p1 ≠ ⟨p1.x, p2.y⟩ ∧ (⟨p1.x, p2.y⟩ : Pt ℝ) ≠ p2 ∧ p2 ≠ ⟨p2.x, p1.y⟩ ∧ (⟨p2.x, p1.y⟩ : Pt ℝ) ≠ p1) := by
      rintro ⟨x1, y1⟩ ⟨x2, y2⟩
      simp only [ne_eq, Pt.mk.injEq, true_and, and_true]
      by_cases ex : x1 = x2
      · exact .inl ⟨ex, ex⟩
      · by_cases ey : y1 = y2
        · exact .inr (.inl ⟨ey, ey.symm⟩)
        · exact .inr (.inr ⟨ey, ex, fun h => ey h.symm, fun h => ex h.symm⟩)
    exact dedupe_flat p1 ⟨p1.x, p2.y⟩ p2 ⟨p2.x, p1.y⟩ (hcase p1 p2)

end X7
