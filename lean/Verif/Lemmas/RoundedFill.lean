import Verif.Props.Shapes
import Verif.Lemmas.FillNear

noncomputable section

namespace X7
open Classical

/-- The segments of a rounded rectangle seen in the coordinates in which the rectangle is the unit square; `f` and `g` are the parts of the sides that the
radius takes up, the `e` say where the handles of the straight pieces end. A straight piece of length zero is left out. -/
def roundSegs (f g : ℝ) (e : ℕ → ℝ) : List (Poly4 ℝ) :=
  (if 2 * g = 1 then [] else [⟨⟨0, g⟩, ⟨0, e 0⟩, ⟨0, e 1⟩, ⟨0, 1 - g⟩⟩]) ++ quarter ⟨f, 1 - g⟩ ⟨-f, 0⟩ ⟨0, g⟩ ::
    ((if 2 * f = 1 then [] else [⟨⟨f, 1⟩, ⟨e 2, 1⟩, ⟨e 3, 1⟩, ⟨1 - f, 1⟩⟩]) ++ quarter ⟨1 - f, 1 - g⟩ ⟨0, g⟩ ⟨f, 0⟩ ::
      ((if 2 * g = 1 then [] else [⟨⟨1, 1 - g⟩, ⟨1, e 4⟩, ⟨1, e 5⟩, ⟨1, g⟩⟩]) ++ quarter ⟨1 - f, g⟩ ⟨f, 0⟩ ⟨0, -g⟩ ::
        ((if 2 * f = 1 then [] else [⟨⟨1 - f, 0⟩, ⟨e 6, 0⟩, ⟨e 7, 0⟩, ⟨f, 0⟩⟩]) ++ [quarter ⟨f, g⟩ ⟨0, -g⟩ ⟨-f, 0⟩])))

/-- From the unit square to the rectangle. -/
def toRect (p1 p2 : Pt ℝ) : Mat3 ℝ := ⟨p2.x - p1.x, 0, p1.x, 0, p2.y - p1.y, p1.y, 0, 0, 1⟩

set_option maxHeartbeats 800000 in
theorem rrect_segs (p1 p2 : Pt ℝ) (radius w h nr : ℝ) (hr : 0 < radius) (hx : p1.x ≠ p2.x) (hy : p1.y ≠ p2.y)
    (hw : w = |p1.x - p2.x|) (hh : h = |p1.y - p2.y|) (hnr : nr = min radius (min (w / 2) (h / 2))) :
    ∃ cps f g e, makeRoundedRect p1 p2 radius = .ok cps ∧ 0 < f ∧ f ≤ 1 / 2 ∧ f * w = nr ∧ 0 < g ∧ g ≤ 1 / 2 ∧ g * h = nr ∧
      (g ≤ e 0 ∧ e 0 ≤ 1 - g) ∧ (g ≤ e 1 ∧ e 1 ≤ 1 - g) ∧ (f ≤ e 2 ∧ e 2 ≤ 1 - f) ∧ (f ≤ e 3 ∧ e 3 ≤ 1 - f) ∧
      (g ≤ e 4 ∧ e 4 ≤ 1 - g) ∧ (g ≤ e 5 ∧ e 5 ≤ 1 - g) ∧ (f ≤ e 6 ∧ e 6 ≤ 1 - f) ∧ (f ≤ e 7 ∧ e 7 ≤ 1 - f) ∧
      segs true cps = (roundSegs f g e).map (Poly4.map (toRect p1 p2).apply) := by
  obtain ⟨a0, s0, b0, t0, a1, s1, b1, t1, a2, s2, b2, t2, a3, s3, b3, t3, o0, q0, o1, q1, o2, q2, o3, q3, he⟩ :=
    makeRoundedRect_eq p1 p2 radius hr.le _ _ _ hw hh hnr
  have w0 : 0 < w := by rw [hw]; exact abs_pos.2 (sub_ne_zero.2 hx)
  have h0 : 0 < h := by rw [hh]; exact abs_pos.2 (sub_ne_zero.2 hy)
  have n0 : 0 < nr := by rw [hnr]; exact lt_min hr (lt_min (by linarith) (by linarith))
  obtain ⟨f, hf⟩ : ∃ f, f * w = nr := ⟨nr / w, by field_simp⟩
  obtain ⟨g, hg⟩ : ∃ g, g * h = nr := ⟨nr / h, by field_simp⟩
  have ca : ∀ {a s}, CornerOk w nr a s → a = f := fun hc => mul_right_cancel₀ w0.ne' (hc.2.2.1.trans hf.symm)
  have cb : ∀ {a s}, CornerOk h nr a s → a = g := fun hc => mul_right_cancel₀ h0.ne' (hc.2.2.1.trans hg.symm)
  obtain rfl := ca o0
  obtain rfl := ca q1
  obtain rfl := ca o2
  obtain rfl := ca q3
  obtain rfl := cb q0
  obtain rfl := cb o1
  obtain rfl := cb q2
  obtain rfl := cb o3
  clear ca cb
  have f0 : 0 < b3 := by by_contra hc; nlinarith
  have g0 : 0 < a3 := by by_contra hc; nlinarith
  obtain ⟨k0, k1⟩ := bez90_bounds
  have rng : ∀ {len a s : ℝ}, CornerOk len nr a s → a ≤ a + a * bez90 * s ∧ a + a * bez90 * s ≤ 1 / 2 := by
    rintro len a s ⟨z0, z1, z2, z3, z4⟩
    have : 0 ≤ a * bez90 * s := by positivity
    exact ⟨by linarith, z4⟩
  let e : ℕ → ℝ := fun i => match i with
    | 0 => a3 + a3 * bez90 * t0
    | 1 => 1 - (a3 + a3 * bez90 * s1)
    | 2 => b3 + b3 * bez90 * t1
    | 3 => 1 - (b3 + b3 * bez90 * s2)
    | 4 => 1 - (a3 + a3 * bez90 * t2)
    | 5 => a3 + a3 * bez90 * s3
    | 6 => 1 - (b3 + b3 * bez90 * t3)
    | 7 => b3 + b3 * bez90 * s0
    | _ => 0
  have dx : p2.x - p1.x ≠ 0 := sub_ne_zero.2 (Ne.symm hx)
  have dy : p2.y - p1.y ≠ 0 := sub_ne_zero.2 (Ne.symm hy)
  generalize hL0 : cornerL p1 ((⟨p2.x, p1.y⟩ : Pt ℝ).sub p1) b3 s0 = L0 at he
  generalize hR0 : cornerR p1 ((⟨p1.x, p2.y⟩ : Pt ℝ).sub p1) a3 t0 = R0 at he
  generalize hL1 : cornerL ⟨p1.x, p2.y⟩ (p1.sub ⟨p1.x, p2.y⟩) a3 s1 = L1 at he
  generalize hR1 : cornerR ⟨p1.x, p2.y⟩ (p2.sub ⟨p1.x, p2.y⟩) b3 t1 = R1 at he
  generalize hL2 : cornerL p2 ((⟨p1.x, p2.y⟩ : Pt ℝ).sub p2) b3 s2 = L2 at he
  generalize hR2 : cornerR p2 ((⟨p2.x, p1.y⟩ : Pt ℝ).sub p2) a3 t2 = R2 at he
  generalize hL3 : cornerL ⟨p2.x, p1.y⟩ (p2.sub ⟨p2.x, p1.y⟩) a3 s3 = L3 at he
  generalize hR3 : cornerR ⟨p2.x, p1.y⟩ (p1.sub ⟨p2.x, p1.y⟩) b3 t3 = R3 at he
  have nn0 : L0.c ≠ R0.c := by
    intro e; rw [← hL0, ← hR0] at e
    have := congrArg Pt.x e
    simp [cornerL, cornerR, Pt.addVector, Vec.mul, Pt.sub] at this
    rcases this with h | h
    · exact absurd h dx
    · exact absurd h f0.ne'
  have nn1 : L1.c ≠ R1.c := by
    intro e; rw [← hL1, ← hR1] at e
    have := congrArg Pt.y e
    simp [cornerL, cornerR, Pt.addVector, Vec.mul, Pt.sub] at this
    rcases this with h | h
    · exact absurd h (sub_ne_zero.2 hy)
    · exact absurd h g0.ne'
  have nn2 : L2.c ≠ R2.c := by
    intro e; rw [← hL2, ← hR2] at e
    have := congrArg Pt.x e
    simp [cornerL, cornerR, Pt.addVector, Vec.mul, Pt.sub] at this
    rcases this with h | h
    · exact absurd h (sub_ne_zero.2 hx)
    · exact absurd h f0.ne'
  have nn3 : L3.c ≠ R3.c := by
    intro e; rw [← hL3, ← hR3] at e
    have := congrArg Pt.y e
    simp [cornerL, cornerR, Pt.addVector, Vec.mul, Pt.sub] at this
    rcases this with h | h
    · exact absurd h dy
    · exact absurd h g0.ne'
  have m0 : R0.c = L1.c ↔ 2 * a3 = 1 := by
    rw [← hR0, ← hL1]
    simp only [cornerL, cornerR, Pt.addVector, Vec.mul, Pt.sub, Pt.mk.injEq, sub_self, zero_mul, true_and, add_zero]
    constructor
    · intro e; exact mul_right_cancel₀ dy (by linarith)
    · intro e; linear_combination (p2.y - p1.y) * e
  have m2 : R2.c = L3.c ↔ 2 * a3 = 1 := by
    rw [← hR2, ← hL3]
    simp only [cornerL, cornerR, Pt.addVector, Vec.mul, Pt.sub, Pt.mk.injEq, sub_self, zero_mul, true_and, add_zero]
    constructor
    · intro e; exact mul_right_cancel₀ dy (by linarith)
    · intro e; linear_combination (p1.y - p2.y) * e
  have m1 : R1.c = L2.c ↔ 2 * b3 = 1 := by
    rw [← hR1, ← hL2]
    simp only [cornerL, cornerR, Pt.addVector, Vec.mul, Pt.sub, Pt.mk.injEq, sub_self, zero_mul, and_true, add_zero]
    constructor
    · intro e; exact mul_right_cancel₀ dx (by linarith)
    · intro e; linear_combination (p2.x - p1.x) * e
  have m3 : R3.c = L0.c ↔ 2 * b3 = 1 := by
    rw [← hR3, ← hL0]
    simp only [cornerL, cornerR, Pt.addVector, Vec.mul, Pt.sub, Pt.mk.injEq, sub_self, zero_mul, and_true, add_zero]
    constructor
    · intro e; exact mul_right_cancel₀ dx (by linarith)
    · intro e; linear_combination (p1.x - p2.x) * e
  have ex : ∀ p q : CP ℝ, ∀ l r l' r' : CP ℝ, p.c = l.c → p.dr = l.dr → q.c = r.c → q.dl = r.dl → l = l' → r = r' → seg p q = seg l' r' := by
    rintro p q l r l' r' e1 e2 e3 e4 rfl rfl
    simp [seg, e1, e2, e3, e4]
  have A0 : ∀ p q : CP ℝ, p.c = L0.c → p.dr = L0.dr → q.c = R0.c → q.dl = R0.dl →
      seg p q = (quarter ⟨b3, a3⟩ ⟨0, -a3⟩ ⟨-b3, 0⟩).map (toRect p1 p2).apply := by
    intro p q e1 e2 e3 e4
    rw [ex p q _ _ _ _ e1 e2 e3 e4 hL0.symm hR0.symm]
    simp only [seg, Poly4.map, quarter, toRect, Mat3.apply, cornerL, cornerR, Pt.addVector, Vec.mul, Vec.neg, Pt.sub, Poly4.mk.injEq, Pt.mk.injEq]
    refine ⟨⟨?_, ?_⟩, ⟨?_, ?_⟩, ⟨?_, ?_⟩, ?_, ?_⟩ <;> ring
  have A1 : ∀ p q : CP ℝ, p.c = L1.c → p.dr = L1.dr → q.c = R1.c → q.dl = R1.dl →
      seg p q = (quarter ⟨b3, 1 - a3⟩ ⟨-b3, 0⟩ ⟨0, a3⟩).map (toRect p1 p2).apply := by
    intro p q e1 e2 e3 e4
    rw [ex p q _ _ _ _ e1 e2 e3 e4 hL1.symm hR1.symm]
    simp only [seg, Poly4.map, quarter, toRect, Mat3.apply, cornerL, cornerR, Pt.addVector, Vec.mul, Vec.neg, Pt.sub, Poly4.mk.injEq, Pt.mk.injEq]
    refine ⟨⟨?_, ?_⟩, ⟨?_, ?_⟩, ⟨?_, ?_⟩, ?_, ?_⟩ <;> ring
  have A2 : ∀ p q : CP ℝ, p.c = L2.c → p.dr = L2.dr → q.c = R2.c → q.dl = R2.dl →
      seg p q = (quarter ⟨1 - b3, 1 - a3⟩ ⟨0, a3⟩ ⟨b3, 0⟩).map (toRect p1 p2).apply := by
    intro p q e1 e2 e3 e4
    rw [ex p q _ _ _ _ e1 e2 e3 e4 hL2.symm hR2.symm]
    simp only [seg, Poly4.map, quarter, toRect, Mat3.apply, cornerL, cornerR, Pt.addVector, Vec.mul, Vec.neg, Pt.sub, Poly4.mk.injEq, Pt.mk.injEq]
    refine ⟨⟨?_, ?_⟩, ⟨?_, ?_⟩, ⟨?_, ?_⟩, ?_, ?_⟩ <;> ring
  have A3 : ∀ p q : CP ℝ, p.c = L3.c → p.dr = L3.dr → q.c = R3.c → q.dl = R3.dl →
      seg p q = (quarter ⟨1 - b3, a3⟩ ⟨b3, 0⟩ ⟨0, -a3⟩).map (toRect p1 p2).apply := by
    intro p q e1 e2 e3 e4
    rw [ex p q _ _ _ _ e1 e2 e3 e4 hL3.symm hR3.symm]
    simp only [seg, Poly4.map, quarter, toRect, Mat3.apply, cornerL, cornerR, Pt.addVector, Vec.mul, Vec.neg, Pt.sub, Poly4.mk.injEq, Pt.mk.injEq]
    refine ⟨⟨?_, ?_⟩, ⟨?_, ?_⟩, ⟨?_, ?_⟩, ?_, ?_⟩ <;> ring
  have E0 : seg R0 L1 = (⟨⟨0, a3⟩, ⟨0, e 0⟩, ⟨0, e 1⟩, ⟨0, 1 - a3⟩⟩ : Poly4 ℝ).map (toRect p1 p2).apply := by
    rw [← hR0, ← hL1]
    simp only [e, seg, Poly4.map, toRect, Mat3.apply, cornerL, cornerR, Pt.addVector, Vec.mul, Vec.neg, Pt.sub, Poly4.mk.injEq, Pt.mk.injEq]
    refine ⟨⟨?_, ?_⟩, ⟨?_, ?_⟩, ⟨?_, ?_⟩, ?_, ?_⟩ <;> ring
  have E1 : seg R1 L2 = (⟨⟨b3, 1⟩, ⟨e 2, 1⟩, ⟨e 3, 1⟩, ⟨1 - b3, 1⟩⟩ : Poly4 ℝ).map (toRect p1 p2).apply := by
    rw [← hR1, ← hL2]
    simp only [e, seg, Poly4.map, toRect, Mat3.apply, cornerL, cornerR, Pt.addVector, Vec.mul, Vec.neg, Pt.sub, Poly4.mk.injEq, Pt.mk.injEq]
    refine ⟨⟨?_, ?_⟩, ⟨?_, ?_⟩, ⟨?_, ?_⟩, ?_, ?_⟩ <;> ring
  have E2 : seg R2 L3 = (⟨⟨1, 1 - a3⟩, ⟨1, e 4⟩, ⟨1, e 5⟩, ⟨1, a3⟩⟩ : Poly4 ℝ).map (toRect p1 p2).apply := by
    rw [← hR2, ← hL3]
    simp only [e, seg, Poly4.map, toRect, Mat3.apply, cornerL, cornerR, Pt.addVector, Vec.mul, Vec.neg, Pt.sub, Poly4.mk.injEq, Pt.mk.injEq]
    refine ⟨⟨?_, ?_⟩, ⟨?_, ?_⟩, ⟨?_, ?_⟩, ?_, ?_⟩ <;> ring
  have E3 : seg R3 L0 = (⟨⟨1 - b3, 0⟩, ⟨e 6, 0⟩, ⟨e 7, 0⟩, ⟨b3, 0⟩⟩ : Poly4 ℝ).map (toRect p1 p2).apply := by
    rw [← hR3, ← hL0]
    simp only [e, seg, Poly4.map, toRect, Mat3.apply, cornerL, cornerR, Pt.addVector, Vec.mul, Vec.neg, Pt.sub, Poly4.mk.injEq, Pt.mk.injEq]
    refine ⟨⟨?_, ?_⟩, ⟨?_, ?_⟩, ⟨?_, ?_⟩, ?_, ?_⟩ <;> ring
  clear hL0 hL1 hL2 hL3 hR0 hR1 hR2 hR3 ex
  obtain ⟨d1, d2, d3, d4⟩ := dedupe_eight L0 R0 L1 R1 L2 R2 L3 R3 nn0 nn1 nn2 nn3
  have r0 := rng q0
  have r1 := rng o1
  have r2 := rng q1
  have r3 := rng o2
  have r4 := rng q2
  have r5 := rng o3
  have r6 := rng q3
  have r7 := rng o0
  refine ⟨_, b3, a3, e, he, f0, q3.2.1, hf, g0, o3.2.1, hg, ⟨?_, ?_⟩, ⟨?_, ?_⟩, ⟨?_, ?_⟩, ⟨?_, ?_⟩, ⟨?_, ?_⟩, ⟨?_, ?_⟩, ⟨?_, ?_⟩, ⟨?_, ?_⟩, ?_⟩
  iterate 16 (· simp only [e]; linarith)
  clear_value e
  by_cases ef : 2 * b3 = 1 <;> by_cases eg : 2 * a3 = 1
  · rw [d4 (m0.2 eg) (m1.2 ef) (m2.2 eg) (m3.2 ef), roundSegs, if_pos eg, if_pos ef, if_pos eg, if_pos ef]
    exact congrArg₂ List.cons (A1 _ _ (m0.2 eg) rfl rfl rfl) (congrArg₂ List.cons (A2 _ _ (m1.2 ef) rfl rfl rfl) (congrArg₂ List.cons (A3 _ _ (m2.2 eg) rfl rfl rfl) (congrArg₂ List.cons (A0 _ _ (m3.2 ef) rfl rfl rfl) rfl)))
  · rw [d3 (mt m0.1 eg) (m1.2 ef) (mt m2.1 eg) (m3.2 ef), roundSegs, if_neg eg, if_pos ef, if_neg eg, if_pos ef]
    exact congrArg₂ List.cons (E0) (congrArg₂ List.cons (A1 _ _ rfl rfl rfl rfl) (congrArg₂ List.cons (A2 _ _ (m1.2 ef) rfl rfl rfl) (congrArg₂ List.cons (E2) (congrArg₂ List.cons (A3 _ _ rfl rfl rfl rfl) (congrArg₂ List.cons (A0 _ _ (m3.2 ef) rfl rfl rfl) rfl)))))
  · rw [d2 (m0.2 eg) (mt m1.1 ef) (m2.2 eg) (mt m3.1 ef), roundSegs, if_pos eg, if_neg ef, if_pos eg, if_neg ef]
    exact congrArg₂ List.cons (A1 _ _ (m0.2 eg) rfl rfl rfl) (congrArg₂ List.cons (E1) (congrArg₂ List.cons (A2 _ _ rfl rfl rfl rfl) (congrArg₂ List.cons (A3 _ _ (m2.2 eg) rfl rfl rfl) (congrArg₂ List.cons (E3) (congrArg₂ List.cons (A0 _ _ rfl rfl rfl rfl) rfl)))))
  · rw [d1 (mt m0.1 eg) (mt m1.1 ef) (mt m2.1 eg) (mt m3.1 ef), roundSegs, if_neg eg, if_neg ef, if_neg eg, if_neg ef]
    exact congrArg₂ List.cons (E0) (congrArg₂ List.cons (A1 _ _ rfl rfl rfl rfl) (congrArg₂ List.cons (E1) (congrArg₂ List.cons (A2 _ _ rfl rfl rfl rfl) (congrArg₂ List.cons (E2) (congrArg₂ List.cons (A3 _ _ rfl rfl rfl rfl) (congrArg₂ List.cons (E3) (congrArg₂ List.cons (A0 _ _ rfl rfl rfl rfl) rfl)))))))

end X7

namespace X7.Elem
open Classical

/-! ### What the segments are -/

/-- A piece of a rounded corner: about one of the inner corners, turned outwards. -/
def CornerArc (f g : ℝ) (s : Poly4 ℝ) : Prop :=
  ∃ a b σ τ : ℝ, ((a = f ∧ σ = -1) ∨ (a = 1 - f ∧ σ = 1)) ∧ ((b = g ∧ τ = -1) ∨ (b = 1 - g ∧ τ = 1)) ∧
    ((∀ t, s.at' t = ⟨a + σ * f * quarterX t, b + τ * g * quarterY t⟩) ∨ ∀ t, s.at' t = ⟨a + σ * f * quarterY t, b + τ * g * quarterX t⟩)

/-- A piece of a vertical side of the square. -/
def SideX (g : ℝ) (s : Poly4 ℝ) : Prop := ∃ x : ℝ, (x = 0 ∨ x = 1) ∧ ∀ t, 0 ≤ t → t ≤ 1 → (s.at' t).x = x ∧ g ≤ (s.at' t).y ∧ (s.at' t).y ≤ 1 - g

/-- A piece of a horizontal side of the square. -/
def SideY (f : ℝ) (s : Poly4 ℝ) : Prop := ∃ y : ℝ, (y = 0 ∨ y = 1) ∧ ∀ t, 0 ≤ t → t ≤ 1 → (s.at' t).y = y ∧ f ≤ (s.at' t).x ∧ (s.at' t).x ≤ 1 - f

theorem bern_within {l u a b c d t : ℝ} (ha : l ≤ a ∧ a ≤ u) (hb : l ≤ b ∧ b ≤ u) (hc : l ≤ c ∧ c ≤ u) (hd : l ≤ d ∧ d ≤ u) (t0 : 0 ≤ t) (t1 : t ≤ 1)
    {z : ℝ} (hz : z = (1 - t) ^ 3 * a + 3 * (1 - t) ^ 2 * t * b + 3 * (1 - t) * t ^ 2 * c + t ^ 3 * d) : l ≤ z ∧ z ≤ u := by
  have h1 : 0 ≤ 1 - t := by linarith
  have w1 : 0 ≤ (1 - t) ^ 3 := by positivity
  have w2 : 0 ≤ 3 * (1 - t) ^ 2 * t := by positivity
  have w3 : 0 ≤ 3 * (1 - t) * t ^ 2 := by positivity
  have w4 : 0 ≤ t ^ 3 := by positivity
  have e : (1 - t) ^ 3 + 3 * (1 - t) ^ 2 * t + 3 * (1 - t) * t ^ 2 + t ^ 3 = 1 := by ring
  rw [hz]
  generalize (1 - t) ^ 3 = x1 at *
  generalize 3 * (1 - t) ^ 2 * t = x2 at *
  generalize 3 * (1 - t) * t ^ 2 = x3 at *
  generalize t ^ 3 = x4 at *
  have el : l = x1 * l + x2 * l + x3 * l + x4 * l := by rw [← add_mul, ← add_mul, ← add_mul, e, one_mul]
  have eu : u = x1 * u + x2 * u + x3 * u + x4 * u := by rw [← add_mul, ← add_mul, ← add_mul, e, one_mul]
  constructor
  · linarith [mul_le_mul_of_nonneg_left ha.1 w1, mul_le_mul_of_nonneg_left hb.1 w2, mul_le_mul_of_nonneg_left hc.1 w3, mul_le_mul_of_nonneg_left hd.1 w4]
  · linarith [mul_le_mul_of_nonneg_left ha.2 w1, mul_le_mul_of_nonneg_left hb.2 w2, mul_le_mul_of_nonneg_left hc.2 w3, mul_le_mul_of_nonneg_left hd.2 w4]

/-- What `f`, `g` and the handles satisfy. -/
structure RoundOk (f g : ℝ) (e : ℕ → ℝ) : Prop where
  f0 : 0 < f
  f1 : f ≤ 1 / 2
  g0 : 0 < g
  g1 : g ≤ 1 / 2
  e0 : g ≤ e 0 ∧ e 0 ≤ 1 - g
  e1 : g ≤ e 1 ∧ e 1 ≤ 1 - g
  e2 : f ≤ e 2 ∧ e 2 ≤ 1 - f
  e3 : f ≤ e 3 ∧ e 3 ≤ 1 - f
  e4 : g ≤ e 4 ∧ e 4 ≤ 1 - g
  e5 : g ≤ e 5 ∧ e 5 ≤ 1 - g
  e6 : f ≤ e 6 ∧ e 6 ≤ 1 - f
  e7 : f ≤ e 7 ∧ e 7 ≤ 1 - f

theorem round_kinds {f g : ℝ} {e : ℕ → ℝ} (h : RoundOk f g e) {s : Poly4 ℝ} (hs : s ∈ roundSegs f g e) : CornerArc f g s ∨ SideX g s ∨ SideY f s := by
  have hf : f ≤ 1 - f := by linarith [h.f1]
  have hg : g ≤ 1 - g := by linarith [h.g1]
  have vx : ∀ x a b c d : ℝ, x = 0 ∨ x = 1 → (g ≤ a ∧ a ≤ 1 - g) → (g ≤ b ∧ b ≤ 1 - g) → (g ≤ c ∧ c ≤ 1 - g) → (g ≤ d ∧ d ≤ 1 - g) →
      CornerArc f g ⟨⟨x, a⟩, ⟨x, b⟩, ⟨x, c⟩, ⟨x, d⟩⟩ ∨ SideX g ⟨⟨x, a⟩, ⟨x, b⟩, ⟨x, c⟩, ⟨x, d⟩⟩ ∨ SideY f ⟨⟨x, a⟩, ⟨x, b⟩, ⟨x, c⟩, ⟨x, d⟩⟩ :=
    fun x a b c d hx ha hb hc hd => .inr (.inl ⟨x, hx, fun t t0 t1 => ⟨by simp only [Poly4.at', bern]; ring, bern_within ha hb hc hd t0 t1 rfl⟩⟩)
  have vy : ∀ y a b c d : ℝ, y = 0 ∨ y = 1 → (f ≤ a ∧ a ≤ 1 - f) → (f ≤ b ∧ b ≤ 1 - f) → (f ≤ c ∧ c ≤ 1 - f) → (f ≤ d ∧ d ≤ 1 - f) →
      CornerArc f g ⟨⟨a, y⟩, ⟨b, y⟩, ⟨c, y⟩, ⟨d, y⟩⟩ ∨ SideX g ⟨⟨a, y⟩, ⟨b, y⟩, ⟨c, y⟩, ⟨d, y⟩⟩ ∨ SideY f ⟨⟨a, y⟩, ⟨b, y⟩, ⟨c, y⟩, ⟨d, y⟩⟩ :=
    fun y a b c d hy ha hb hc hd => .inr (.inr ⟨y, hy, fun t t0 t1 => ⟨by simp only [Poly4.at', bern]; ring, bern_within ha hb hc hd t0 t1 rfl⟩⟩)
  have one : ∀ {P : Prop} [Decidable P] {x : Poly4 ℝ}, s ∈ (if P then [] else [x]) → s = x := by
    intro P _ x hx
    split at hx
    · simp at hx
    · simpa using hx
  simp only [roundSegs, List.mem_append, List.mem_cons, List.not_mem_nil, or_false] at hs
  rcases hs with hs | rfl | hs | rfl | hs | rfl | hs | rfl
  · rw [one hs]; exact vx _ _ _ _ _ (.inl rfl) ⟨le_rfl, hg⟩ h.e0 h.e1 ⟨hg, le_rfl⟩
  · exact .inl ⟨f, 1 - g, -1, 1, .inl ⟨rfl, rfl⟩, .inr ⟨rfl, rfl⟩, .inl fun t => by rw [quarter_at]; ext <;> simp only <;> ring⟩
  · rw [one hs]; exact vy _ _ _ _ _ (.inr rfl) ⟨le_rfl, hf⟩ h.e2 h.e3 ⟨hf, le_rfl⟩
  · exact .inl ⟨1 - f, 1 - g, 1, 1, .inr ⟨rfl, rfl⟩, .inr ⟨rfl, rfl⟩, .inr fun t => by rw [quarter_at]; ext <;> simp only <;> ring⟩
  · rw [one hs]; exact vx _ _ _ _ _ (.inr rfl) ⟨hg, le_rfl⟩ h.e4 h.e5 ⟨le_rfl, hg⟩
  · exact .inl ⟨1 - f, g, 1, -1, .inr ⟨rfl, rfl⟩, .inl ⟨rfl, rfl⟩, .inl fun t => by rw [quarter_at]; ext <;> simp only <;> ring⟩
  · rw [one hs]; exact vy _ _ _ _ _ (.inl rfl) ⟨hf, le_rfl⟩ h.e6 h.e7 ⟨le_rfl, hf⟩
  · exact .inl ⟨f, g, -1, -1, .inl ⟨rfl, rfl⟩, .inl ⟨rfl, rfl⟩, .inr fun t => by rw [quarter_at]; ext <;> simp only <;> ring⟩

/-! ### The outside -/

/-- A point of the outline is near a point of the core. -/
theorem round_out {f g w h r : ℝ} {e : ℕ → ℝ} (ok : RoundOk f g e) (hw : f * w = r) (hh : g * h = r) {q : Pt ℝ}
    (hq : q ∈ Approx.traced (roundSegs f g e)) : ∃ a b, (f ≤ a ∧ a ≤ 1 - f) ∧ (g ≤ b ∧ b ≤ 1 - g) ∧
      (w * (q.x - a)) ^ 2 + (h * (q.y - b)) ^ 2 ≤ ((1 + 3 / 10000) * r) ^ 2 := by
  have hf : f ≤ 1 - f := by linarith [ok.f1]
  have hg : g ≤ 1 - g := by linarith [ok.g1]
  have r0 : r ^ 2 ≤ ((1 + 3 / 10000) * r) ^ 2 := by nlinarith [sq_nonneg r]
  obtain ⟨s, hs, t, t0, t1, rfl⟩ := hq
  rcases round_kinds ok hs with ⟨a, b, σ, τ, ha, hb, hq⟩ | ⟨x, hx, hq⟩ | ⟨y, hy, hq⟩
  · have s1 : σ ^ 2 = 1 := by rcases ha with ⟨-, h⟩ | ⟨-, h⟩ <;> rw [h] <;> norm_num
    have s2 : τ ^ 2 = 1 := by rcases hb with ⟨-, h⟩ | ⟨-, h⟩ <;> rw [h] <;> norm_num
    refine ⟨a, b, ?_, ?_, ?_⟩
    · rcases ha with ⟨h, -⟩ | ⟨h, -⟩ <;> rw [h] <;> constructor <;> linarith
    · rcases hb with ⟨h, -⟩ | ⟨h, -⟩ <;> rw [h] <;> constructor <;> linarith
    · have hb := (quarter_bounds t t0 t1).2
      have key : ∀ X Y : ℝ, X ^ 2 + Y ^ 2 ≤ (1 + 3 / 10000) ^ 2 →
          (w * (a + σ * f * X - a)) ^ 2 + (h * (b + τ * g * Y - b)) ^ 2 ≤ ((1 + 3 / 10000) * r) ^ 2 := by
        intro X Y hXY
        have e1 : (w * (a + σ * f * X - a)) ^ 2 + (h * (b + τ * g * Y - b)) ^ 2 = σ ^ 2 * (f * w) ^ 2 * X ^ 2 + τ ^ 2 * (g * h) ^ 2 * Y ^ 2 := by ring
        rw [e1, s1, s2, hw, hh]
        nlinarith [mul_le_mul_of_nonneg_left hXY (sq_nonneg r)]
      rcases hq with hq | hq <;> rw [hq t] <;> apply key <;> linarith
  · obtain ⟨h1, h2, h3⟩ := hq t t0 t1
    rcases hx with rfl | rfl
    · refine ⟨f, _, ⟨le_rfl, hf⟩, ⟨h2, h3⟩, ?_⟩
      rw [h1, sub_self, show (w * (0 - f)) ^ 2 + (h * 0) ^ 2 = (f * w) ^ 2 by ring, hw]; exact r0
    · refine ⟨1 - f, _, ⟨hf, le_rfl⟩, ⟨h2, h3⟩, ?_⟩
      rw [h1, sub_self, show (w * (1 - (1 - f))) ^ 2 + (h * 0) ^ 2 = (f * w) ^ 2 by ring, hw]; exact r0
  · obtain ⟨h1, h2, h3⟩ := hq t t0 t1
    rcases hy with rfl | rfl
    · refine ⟨_, g, ⟨h2, h3⟩, ⟨le_rfl, hg⟩, ?_⟩
      rw [h1, sub_self, show (w * 0) ^ 2 + (h * (0 - g)) ^ 2 = (g * h) ^ 2 by ring, hh]; exact r0
    · refine ⟨_, 1 - g, ⟨h2, h3⟩, ⟨hg, le_rfl⟩, ?_⟩
      rw [h1, sub_self, show (w * 0) ^ 2 + (h * (1 - (1 - g))) ^ 2 = (g * h) ^ 2 by ring, hh]; exact r0

theorem clamp {l u x : ℝ} (h : l ≤ u) : ∃ a, (l ≤ a ∧ a ≤ u) ∧ ∀ a', l ≤ a' → a' ≤ u → (x - a) * (a' - a) ≤ 0 := by
  rcases le_total x l with h1 | h1
  · exact ⟨l, ⟨le_rfl, h⟩, fun a' h2 h3 => by nlinarith⟩
  · rcases le_total u x with h2 | h2
    · exact ⟨u, ⟨h, le_rfl⟩, fun a' h3 h4 => by nlinarith⟩
    · exact ⟨x, ⟨h1, h2⟩, fun a' _ _ => by simp⟩

theorem round_far {f g w h r : ℝ} {e : ℕ → ℝ} (ok : RoundOk f g e) (hw : f * w = r) (hh : g * h = r) (r0 : 0 < r) {p : Pt ℝ}
    (hp : ∀ a b, f ≤ a → a ≤ 1 - f → g ≤ b → b ≤ 1 - g → (1 + 3 / 10000) * r < √((w * (p.x - a)) ^ 2 + (h * (p.y - b)) ^ 2)) (n : ℕ) :
    ¬ OnSide (pathOf n (roundSegs f g e)) p ∧ ¬ Covers (pathOf n (roundSegs f g e)) p := by
  have hf : f ≤ 1 - f := by linarith [ok.f1]
  have hg : g ≤ 1 - g := by linarith [ok.g1]
  obtain ⟨a, ha, hax⟩ := clamp (x := p.x) hf
  obtain ⟨b, hb, hby⟩ := clamp (x := p.y) hg
  have hN := hp a b ha.1 ha.2 hb.1 hb.2
  set N := √((w * (p.x - a)) ^ 2 + (h * (p.y - b)) ^ 2) with hNd
  have hN2 : N ^ 2 = (w * (p.x - a)) ^ 2 + (h * (p.y - b)) ^ 2 := Real.sq_sqrt (by positivity)
  have N0 : 0 ≤ N := Real.sqrt_nonneg _
  let ρ : ℝ := (1 + 3 / 10000) * r
  have hall : ∀ q ∈ pathOf n (roundSegs f g e), w ^ 2 * (p.x - a) * q.x + h ^ 2 * (p.y - b) * q.y ≤ w ^ 2 * (p.x - a) * a + h ^ 2 * (p.y - b) * b + N * ρ := by
    intro q hq
    obtain ⟨a', b', ha', hb', hd⟩ := round_out ok hw hh (pathOf_traced hq)
    have c1 := mul_nonneg (sq_nonneg w) (sub_nonneg.2 (hax a' ha'.1 ha'.2))
    have c2 := mul_nonneg (sq_nonneg h) (sub_nonneg.2 (hby b' hb'.1 hb'.2))
    have c3 : (w * (p.x - a)) * (w * (q.x - a')) + (h * (p.y - b)) * (h * (q.y - b')) ≤ N * ρ := by
      have hρ : √((w * (q.x - a')) ^ 2 + (h * (q.y - b')) ^ 2) ≤ ρ := by
        rw [Real.sqrt_le_left (by positivity)]; exact hd
      refine le_trans ?_ (mul_le_mul_of_nonneg_left hρ N0)
      rw [hNd, ← Real.sqrt_mul (by positivity)]
      apply Real.le_sqrt_of_sq_le
      nlinarith [sq_nonneg ((w * (p.x - a)) * (h * (q.y - b')) - (h * (p.y - b)) * (w * (q.x - a')))]
    linarith
  have hlt : w ^ 2 * (p.x - a) * a + h ^ 2 * (p.y - b) * b + N * ρ < w ^ 2 * (p.x - a) * p.x + h ^ 2 * (p.y - b) * p.y := by
    have hN3 : 0 < N := lt_of_le_of_lt (by positivity) hN
    have : N * ρ < N * N := mul_lt_mul_of_pos_left hN hN3
    linarith [hN2]
  exact ⟨fun ho => absurd (side_half hall ho) (not_le.2 hlt), fun hc => absurd (C131_hull _ p _ _ _ hall hc) (not_le.2 hlt)⟩

/-! ### The inside -/

theorem joined_side {pts : List (Pt ℝ)} {p : Pt ℝ} (h : p ∈ Approx.joined pts) : OnSide pts p := by
  obtain ⟨i, a, b, ha, hb, v, v0, v1, rfl⟩ := h
  have hi := (List.getElem?_eq_some_iff.1 hb).1
  refine ⟨(a, b), List.mem_iff_getElem?.2 ⟨i, ?_⟩, v, v0, v1, rfl⟩
  rw [List.getElem?_zip_eq_some]
  refine ⟨ha, ?_⟩
  rw [List.getElem?_rotate (by omega), Nat.mod_eq_of_lt hi, hb]

/-- The chords of the quarter of a circle. -/
theorem quarter_chord {i : ℕ} (hi : i < 20) {v : ℝ} (v0 : 0 ≤ v) (v1 : v ≤ 1) :
    let t := (i : ℝ) / (20 : ℕ); let t' := (i : ℝ) / (20 : ℕ) + 1 / (20 : ℕ)
    let X := quarterX t + v * (quarterX t' - quarterX t); let Y := quarterY t + v * (quarterY t' - quarterY t)
    0 ≤ X ∧ 0 ≤ Y ∧ (999 / 1000 : ℝ) ^ 2 ≤ X ^ 2 + Y ^ 2 := by
  intro t t' X Y
  have t0 : 0 ≤ t := by positivity
  have t1 : t' ≤ 1 := by
    have : (i : ℝ) + 1 ≤ 20 := by exact_mod_cast hi
    simp only [t']; push_cast; linarith
  have tt : t' = t + 1 / 20 := by simp only [t, t']; norm_num
  have q1 := quarter_pos t0 (by linarith)
  have q2 := quarter_pos (t := t') (by linarith) t1
  refine ⟨?_, ?_, ?_⟩
  · have := mul_nonneg v0 q2.1
    have := mul_nonneg (sub_nonneg.2 v1) q1.1
    simp only [X]; nlinarith
  · have := mul_nonneg v0 q2.2.1
    have := mul_nonneg (sub_nonneg.2 v1) q1.2.1
    simp only [Y]; nlinarith
  · have hl := Approx.line_pathOf (n := 20) (by norm_num) (segs true (makeEllipseCps ⟨0, 0⟩ 1 1)) (segs_join true _)
      (s := quarter ⟨0, 0⟩ ⟨1, 0⟩ ⟨0, -1⟩) (by rw [unit_segs]; simp) hi v0 v1
    have := unit_side (joined_side hl)
    simp only [Approx.between, quarter_at] at this
    refine this.trans (le_of_eq ?_)
    simp only [X, Y, t, t']
    ring

theorem round_inside {f g w h r : ℝ} {e : ℕ → ℝ} (ok : RoundOk f g e) (hw : f * w = r) (hh : g * h = r) {p : Pt ℝ} {a b : ℝ}
    (ha : f ≤ a ∧ a ≤ 1 - f) (hb : g ≤ b ∧ b ≤ 1 - g) (hp : (w * (p.x - a)) ^ 2 + (h * (p.y - b)) ^ 2 < (999 / 1000 * r) ^ 2)
    (hj : ∀ k s s', (roundSegs f g e)[k]? = some s → (roundSegs f g e)[k + 1]? = some s' → s.d = s'.a)
    (hr : (pathOf 20 (roundSegs f g e)).head? = (pathOf 20 (roundSegs f g e)).getLast?) : ¬ OnSide (pathOf 20 (roundSegs f g e)) p := by
  have hk : (999 / 1000 * r) ^ 2 ≤ r ^ 2 := by nlinarith [sq_nonneg r]
  intro ho
  -- the point is on a chord
  obtain ⟨s, hs, t, t', v, t0, t1, t0', t1', X0, Y0, hXY, hpv⟩ : ∃ s ∈ roundSegs f g e, ∃ t t' v : ℝ, 0 ≤ t ∧ t ≤ 1 ∧ 0 ≤ t' ∧ t' ≤ 1 ∧
      0 ≤ quarterX t + v * (quarterX t' - quarterX t) ∧ 0 ≤ quarterY t + v * (quarterY t' - quarterY t) ∧
      (999 / 1000 : ℝ) ^ 2 ≤ (quarterX t + v * (quarterX t' - quarterX t)) ^ 2 + (quarterY t + v * (quarterY t' - quarterY t)) ^ 2 ∧
      p = Approx.between (s.at' t) (s.at' t') v := by
    rcases side_joined hr ho with hm | hm
    · obtain ⟨s, hs, t, t0, t1, rfl⟩ := pathOf_traced hm
      have q1 := quarter_pos t0 t1
      have q2 := (quarter_bounds t t0 t1).1
      refine ⟨s, hs, t, t, 0, t0, t1, t0, t1, by simpa using q1.1, by simpa using q1.2.1, ?_, by simp [Approx.between]⟩
      rw [zero_mul, zero_mul, add_zero, add_zero]
      nlinarith
    · obtain ⟨j, x, y, hx, hy, v, v0, v1, rfl⟩ := hm
      obtain ⟨s, hs, i, hi, rfl, rfl⟩ := Approx.pathOf_line (by norm_num) _ hj hx hy
      have i1 : (i : ℝ) / (20 : ℕ) + 1 / (20 : ℕ) ≤ 1 := by
        have : (i : ℝ) + 1 ≤ 20 := by exact_mod_cast hi
        push_cast; linarith
      have i0 : (0 : ℝ) ≤ (i : ℝ) / (20 : ℕ) := by positivity
      have i2 : (0 : ℝ) ≤ 1 / (20 : ℕ) := by positivity
      obtain ⟨X0, Y0, hXY⟩ := quarter_chord hi v0 v1
      exact ⟨s, hs, _, _, v, i0, by linarith, by linarith, i1, X0, Y0, hXY, rfl⟩
  rcases round_kinds ok hs with ⟨A, B, σ, τ, hA, hB, hq⟩ | ⟨x, hx, hq⟩ | ⟨y, hy, hq⟩
  · have hx : ∀ X : ℝ, 0 ≤ X → r ^ 2 * X ^ 2 ≤ (w * (A + σ * f * X - a)) ^ 2 := by
      intro X hX
      have hfX : 0 ≤ f * X := mul_nonneg ok.f0.le hX
      have : (f * X) ^ 2 ≤ (A + σ * f * X - a) ^ 2 := by
        rcases hA with ⟨rfl, rfl⟩ | ⟨rfl, rfl⟩
        · nlinarith [ha.1]
        · nlinarith [ha.2]
      rw [← hw]
      calc _ = w ^ 2 * (f * X) ^ 2 := by ring
        _ ≤ w ^ 2 * (A + σ * f * X - a) ^ 2 := mul_le_mul_of_nonneg_left this (sq_nonneg w)
        _ = _ := by ring
    have hy : ∀ Y : ℝ, 0 ≤ Y → r ^ 2 * Y ^ 2 ≤ (h * (B + τ * g * Y - b)) ^ 2 := by
      intro Y hY
      have hgY : 0 ≤ g * Y := mul_nonneg ok.g0.le hY
      have : (g * Y) ^ 2 ≤ (B + τ * g * Y - b) ^ 2 := by
        rcases hB with ⟨rfl, rfl⟩ | ⟨rfl, rfl⟩
        · nlinarith [hb.1]
        · nlinarith [hb.2]
      rw [← hh]
      calc _ = h ^ 2 * (g * Y) ^ 2 := by ring
        _ ≤ h ^ 2 * (B + τ * g * Y - b) ^ 2 := mul_le_mul_of_nonneg_left this (sq_nonneg h)
        _ = _ := by ring
    have hm := mul_le_mul_of_nonneg_left hXY (sq_nonneg r)
    rw [mul_add, ← mul_pow, mul_comm r] at hm
    rcases hq with hq | hq
    · have e1 : p.x = A + σ * f * (quarterX t + v * (quarterX t' - quarterX t)) := by rw [hpv]; simp only [Approx.between, hq]; ring
      have e2 : p.y = B + τ * g * (quarterY t + v * (quarterY t' - quarterY t)) := by rw [hpv]; simp only [Approx.between, hq]; ring
      have k1 := hx _ X0
      have k2 := hy _ Y0
      rw [e1, e2] at hp
      exact absurd (hm.trans (add_le_add k1 k2)) (not_le.2 hp)
    · have e1 : p.x = A + σ * f * (quarterY t + v * (quarterY t' - quarterY t)) := by rw [hpv]; simp only [Approx.between, hq]; ring
      have e2 : p.y = B + τ * g * (quarterX t + v * (quarterX t' - quarterX t)) := by rw [hpv]; simp only [Approx.between, hq]; ring
      have k1 := hx _ Y0
      have k2 := hy _ X0
      rw [e1, e2] at hp
      rw [add_comm] at hm
      exact absurd (hm.trans (add_le_add k1 k2)) (not_le.2 hp)
  · have h1 := (hq _ t0 t1).1
    have h2 := (hq _ t0' t1').1
    have hpx : p.x = x := by rw [hpv]; simp only [Approx.between, h1, h2]; ring
    have : r ^ 2 ≤ (w * (p.x - a)) ^ 2 := by
      rw [hpx, ← hw, mul_pow, mul_pow, mul_comm (f ^ 2)]
      refine mul_le_mul_of_nonneg_left ?_ (sq_nonneg w)
      rcases hx with rfl | rfl <;> nlinarith [ok.f0]
    exact absurd hp (not_lt.2 (hk.trans (this.trans (le_add_of_nonneg_right (sq_nonneg _)))))
  · have h1 := (hq _ t0 t1).1
    have h2 := (hq _ t0' t1').1
    have hpy : p.y = y := by rw [hpv]; simp only [Approx.between, h1, h2]; ring
    have : r ^ 2 ≤ (h * (p.y - b)) ^ 2 := by
      rw [hpy, ← hh, mul_pow, mul_pow, mul_comm (g ^ 2)]
      refine mul_le_mul_of_nonneg_left ?_ (sq_nonneg h)
      rcases hy with rfl | rfl <;> nlinarith [ok.g0]
    exact absurd hp (not_lt.2 (hk.trans (this.trans (le_add_of_nonneg_left (sq_nonneg _)))))

/-! ### The middle -/

/-- Points on the other side of a line cross as the line from the first to the last of them does. -/
theorem run_half {p a b : Pt ℝ} (u v c : ℝ) (l : List (Pt ℝ)) (h : ∀ x ∈ a :: (l ++ [b]), u * x.x + v * x.y ≤ c) (hp : c < u * p.x + v * p.y) :
    run (crossing p) (a :: l ++ [b]) = crossing p a b := by
  have hn : ¬ Covers (a :: (l ++ [b])) p := fun hcov => absurd (C131_hull _ p u v c h hcov) (not_le.2 hp)
  have := not_covers hn
  rw [cyc_cons, show a :: (l ++ [b]) ++ [a] = (a :: l) ++ [b] ++ [a] by simp, run_glue] at this
  simp only [run, add_zero] at this
  rw [crossing_comm p b a] at this
  have h2 : ∀ y z : ZMod 2, y + z = 0 → y = z := by decide
  exact h2 _ _ this

theorem run_samples {p : Pt ℝ} {s : Poly4 ℝ} (u v c : ℝ) (h : ∀ t, 0 ≤ t → t ≤ 1 → u * (s.at' t).x + v * (s.at' t).y ≤ c) (hp : c < u * p.x + v * p.y)
    {n : ℕ} (hn : 1 ≤ n) : run (crossing p) (Approx.samples n s) = crossing p s.a s.d := by
  obtain ⟨⟨q, hq⟩, r, hr⟩ := Approx.samples_ends hn s
  have hall : ∀ x ∈ Approx.samples n s, u * x.x + v * x.y ≤ c := by
    intro x hx
    obtain ⟨i, hi, rfl⟩ := List.mem_map.1 hx
    rw [List.mem_range] at hi
    refine h _ (by positivity) ?_
    rw [div_le_one (by exact_mod_cast hn)]
    exact_mod_cast Nat.lt_succ_iff.1 hi
  cases r with
  | nil =>
    have hl : (Approx.samples n s).length = n + 1 := by simp [Approx.samples]
    rw [hr] at hl
    simp at hl
    omega
  | cons a l =>
    have : a = s.a := by
      rw [hr] at hq
      simpa using (List.cons.inj hq).1
    subst this
    rw [hr] at hall ⊢
    exact run_half u v c l hall hp

theorem round_close {f g : ℝ} {e : ℕ → ℝ} {s0 : Poly4 ℝ} {ss : List (Poly4 ℝ)} (h : roundSegs f g e = s0 :: ss) :
    (ss.getLast?.map Poly4.d).getD s0.d = s0.a := by
  by_cases eg : 2 * g = 1 <;> by_cases ef : 2 * f = 1 <;> simp only [roundSegs, eg, ef, if_true, if_false, List.nil_append, List.cons_append] at h <;>
    obtain ⟨rfl, rfl⟩ := List.cons.inj h <;> simp [quarter, Pt.addVector] <;> linarith

theorem round_returns {f g : ℝ} {e : ℕ → ℝ} (hj : ∀ k s s', (roundSegs f g e)[k]? = some s → (roundSegs f g e)[k + 1]? = some s' → s.d = s'.a) {n : ℕ} (hn : 1 ≤ n) :
    (pathOf n (roundSegs f g e)).head? = (pathOf n (roundSegs f g e)).getLast? := by
  rcases hss : roundSegs f g e with _ | ⟨s0, ss⟩
  · rfl
  · rw [hss] at hj
    refine pathOf_returns n hn s0 ss hj ?_
    have := round_close hss
    cases ss with
    | nil => simpa using this
    | cons x l => simpa [List.getLast?_eq_getLast_of_ne_nil] using this

theorem quarter_sum {t : ℝ} (t0 : 0 ≤ t) (t1 : t ≤ 1) : 1 ≤ quarterX t + quarterY t := by
  have h1 := quarter_pos t0 t1
  have h2 := (quarter_bounds t t0 t1).1
  nlinarith [mul_nonneg h1.1 h1.2.1]

theorem round_middle {f g : ℝ} {e : ℕ → ℝ} (ok : RoundOk f g e)
    (hj : ∀ k s s', (roundSegs f g e)[k]? = some s → (roundSegs f g e)[k + 1]? = some s' → s.d = s'.a) :
    Covers (pathOf 20 (roundSegs f g e)) ⟨1 / 2, 1 / 2⟩ := by
  have hf := ok.f0
  have hf1 := ok.f1
  have hg := ok.g0
  have hg1 := ok.g1
  let c : Pt ℝ := ⟨1 / 2, 1 / 2⟩
  have hsum : cyc (crossing c) (pathOf 20 (roundSegs f g e)) = ((roundSegs f g e).map fun s => crossing c s.a s.d).sum := by
    have hone : ∀ s ∈ roundSegs f g e, run (crossing c) (Approx.samples 20 s) = crossing c s.a s.d := by
      intro s hs
      have fg : 0 < f * g := mul_pos hf hg
      have fg1 : 2 * (f * g) ≤ f := by nlinarith
      rcases round_kinds ok hs with ⟨A, B, σ, τ, hA, hB, hq⟩ | ⟨x, hx, hq⟩ | ⟨y, hy, hq⟩
      · -- the corner is beyond the line through its ends
        refine run_samples (-σ * g) (-τ * f) (-σ * g * A - τ * f * B - f * g) (fun t t0 t1 => ?_) ?_ (by norm_num)
        · have hQ := quarter_sum t0 t1
          have s1 : σ * σ = 1 := by rcases hA with ⟨-, h⟩ | ⟨-, h⟩ <;> rw [h] <;> norm_num
          have s2 : τ * τ = 1 := by rcases hB with ⟨-, h⟩ | ⟨-, h⟩ <;> rw [h] <;> norm_num
          have hm := mul_le_mul_of_nonneg_left hQ fg.le
          have key : ∀ P Q : ℝ, P + Q = quarterX t + quarterY t →
              -σ * g * (A + σ * f * P) + -τ * f * (B + τ * g * Q) ≤ -σ * g * A - τ * f * B - f * g := by
            intro P Q hPQ
            have e1 : -σ * g * (A + σ * f * P) + -τ * f * (B + τ * g * Q) = -σ * g * A - τ * f * B - (σ * σ) * (f * g * P) - (τ * τ) * (f * g * Q) := by ring
            rw [e1, s1, s2]
            rw [← hPQ] at hm
            linarith
          rcases hq with hq | hq <;> rw [hq t] <;> apply key <;> ring
        · have k1 : σ * g * (1 / 2 - A) ≤ 0 := by
            rcases hA with ⟨rfl, rfl⟩ | ⟨rfl, rfl⟩ <;> nlinarith
          have k2 : τ * f * (1 / 2 - B) ≤ 0 := by
            rcases hB with ⟨rfl, rfl⟩ | ⟨rfl, rfl⟩ <;> nlinarith
          simp only [c]
          linarith
      · rcases hx with rfl | rfl
        · exact run_samples 1 0 0 (fun t t0 t1 => by rw [(hq t t0 t1).1]; simp) (by norm_num [c]) (by norm_num)
        · exact run_samples (-1) 0 (-1) (fun t t0 t1 => by rw [(hq t t0 t1).1]; simp) (by norm_num [c]) (by norm_num)
      · rcases hy with rfl | rfl
        · exact run_samples 0 1 0 (fun t t0 t1 => by rw [(hq t t0 t1).1]; simp) (by norm_num [c]) (by norm_num)
        · exact run_samples 0 (-1) (-1) (fun t t0 t1 => by rw [(hq t t0 t1).1]; simp) (by norm_num [c]) (by norm_num)
    rcases hss : roundSegs f g e with _ | ⟨s0, ss⟩
    · simp [pathOf, cyc]
    · rw [hss] at hj hone
      rw [cyc_pathOf _ (by norm_num) s0 ss hj, round_close hss, crossing_self, add_zero, List.map_congr_left hone]
  have hcut : ∀ a b x : Pt ℝ, ∀ u v k : ℝ, u * a.x + v * a.y ≤ k → u * b.x + v * b.y ≤ k → u * x.x + v * x.y ≤ k → k < u * c.x + v * c.y →
      crossing c a b = crossing c a x + crossing c x b := by
    intro a b x u v k h1 h2 h3 h4
    have := run_half u v k [x] (a := a) (b := b) (by simpa using ⟨h1, h3, h2⟩) h4
    simpa [run] using this.symm
  -- all eight pieces
  have h8 : ((roundSegs f g e).map fun s => crossing c s.a s.d).sum =
      crossing c ⟨0, g⟩ ⟨0, 1 - g⟩ + (crossing c ⟨0, 1 - g⟩ ⟨f, 1⟩ + (crossing c ⟨f, 1⟩ ⟨1 - f, 1⟩ + (crossing c ⟨1 - f, 1⟩ ⟨1, 1 - g⟩ +
        (crossing c ⟨1, 1 - g⟩ ⟨1, g⟩ + (crossing c ⟨1, g⟩ ⟨1 - f, 0⟩ + (crossing c ⟨1 - f, 0⟩ ⟨f, 0⟩ + crossing c ⟨f, 0⟩ ⟨0, g⟩)))))) := by
    have q1 : crossing c (quarter ⟨f, 1 - g⟩ ⟨-f, 0⟩ ⟨0, g⟩).a (quarter ⟨f, 1 - g⟩ ⟨-f, 0⟩ ⟨0, g⟩).d = crossing c ⟨0, 1 - g⟩ ⟨f, 1⟩ := by
      simp [quarter, Pt.addVector]
    have q2 : crossing c (quarter ⟨1 - f, 1 - g⟩ ⟨0, g⟩ ⟨f, 0⟩).a (quarter ⟨1 - f, 1 - g⟩ ⟨0, g⟩ ⟨f, 0⟩).d = crossing c ⟨1 - f, 1⟩ ⟨1, 1 - g⟩ := by
      simp [quarter, Pt.addVector]
    have q3 : crossing c (quarter ⟨1 - f, g⟩ ⟨f, 0⟩ ⟨0, -g⟩).a (quarter ⟨1 - f, g⟩ ⟨f, 0⟩ ⟨0, -g⟩).d = crossing c ⟨1, g⟩ ⟨1 - f, 0⟩ := by
      simp [quarter, Pt.addVector]
    have q4 : crossing c (quarter ⟨f, g⟩ ⟨0, -g⟩ ⟨-f, 0⟩).a (quarter ⟨f, g⟩ ⟨0, -g⟩ ⟨-f, 0⟩).d = crossing c ⟨f, 0⟩ ⟨0, g⟩ := by
      simp [quarter, Pt.addVector]
    have one : ∀ (P : Prop) [Decidable P] (x : Poly4 ℝ) (l : List (Poly4 ℝ)), (P → x.a = x.d) →
        (((if P then [] else [x]) ++ l).map fun s => crossing c s.a s.d).sum = crossing c x.a x.d + (l.map fun s => crossing c s.a s.d).sum := by
      intro P _ x l hx
      split
      · rw [hx ‹_›, crossing_self]; simp
      · simp
    have cons : ∀ (x : Poly4 ℝ) (l : List (Poly4 ℝ)), ((x :: l).map fun s => crossing c s.a s.d).sum = crossing c x.a x.d + (l.map fun s => crossing c s.a s.d).sum := by
      intro x l; simp
    rw [roundSegs, one _ _ _ (fun h => by simp; linarith), cons, q1, one _ _ _ (fun h => by simp; linarith), cons, q2,
      one _ _ _ (fun h => by simp; linarith), cons, q3, one _ _ _ (fun h => by simp; linarith), cons, q4]
    simp
  -- down to the four middles of the sides
  have m0 := hcut ⟨0, g⟩ ⟨0, 1 - g⟩ ⟨0, 1 / 2⟩ 1 0 0 (by norm_num) (by norm_num) (by norm_num) (by norm_num [c])
  have m1 := hcut ⟨f, 1⟩ ⟨1 - f, 1⟩ ⟨1 / 2, 1⟩ 0 (-1) (-1) (by norm_num) (by norm_num) (by norm_num) (by norm_num [c])
  have m2 := hcut ⟨1, 1 - g⟩ ⟨1, g⟩ ⟨1, 1 / 2⟩ (-1) 0 (-1) (by norm_num) (by norm_num) (by norm_num) (by norm_num [c])
  have m3 := hcut ⟨1 - f, 0⟩ ⟨f, 0⟩ ⟨1 / 2, 0⟩ 0 1 0 (by norm_num) (by norm_num) (by norm_num) (by norm_num [c])
  have n1 := run_half (p := c) (a := ⟨0, 1 / 2⟩) (b := ⟨1 / 2, 1⟩) 1 (-1) (-1 / 2) [⟨0, 1 - g⟩, ⟨f, 1⟩] (by
    intro x hx
    simp only [List.cons_append, List.nil_append, List.mem_cons, List.not_mem_nil, or_false] at hx
    rcases hx with rfl | rfl | rfl | rfl <;> simp only <;> linarith) (by norm_num [c])
  have n2 := run_half (p := c) (a := ⟨1 / 2, 1⟩) (b := ⟨1, 1 / 2⟩) (-1) (-1) (-3 / 2) [⟨1 - f, 1⟩, ⟨1, 1 - g⟩] (by
    intro x hx
    simp only [List.cons_append, List.nil_append, List.mem_cons, List.not_mem_nil, or_false] at hx
    rcases hx with rfl | rfl | rfl | rfl <;> simp only <;> linarith) (by norm_num [c])
  have n3 := run_half (p := c) (a := ⟨1, 1 / 2⟩) (b := ⟨1 / 2, 0⟩) (-1) 1 (-1 / 2) [⟨1, g⟩, ⟨1 - f, 0⟩] (by
    intro x hx
    simp only [List.cons_append, List.nil_append, List.mem_cons, List.not_mem_nil, or_false] at hx
    rcases hx with rfl | rfl | rfl | rfl <;> simp only <;> linarith) (by norm_num [c])
  have n4 := run_half (p := c) (a := ⟨1 / 2, 0⟩) (b := ⟨0, 1 / 2⟩) 1 1 (1 / 2) [⟨f, 0⟩, ⟨0, g⟩] (by
    intro x hx
    simp only [List.cons_append, List.nil_append, List.mem_cons, List.not_mem_nil, or_false] at hx
    rcases hx with rfl | rfl | rfl | rfl <;> simp only <;> linarith) (by norm_num [c])
  simp only [List.cons_append, List.nil_append, run, add_zero] at n1 n2 n3 n4
  have d1 : crossing c ⟨0, 1 / 2⟩ ⟨1 / 2, 1⟩ = 0 := by norm_num [crossing, Crosses, c]
  have d2 : crossing c ⟨1 / 2, 1⟩ ⟨1, 1 / 2⟩ = 1 := by norm_num [crossing, Crosses, c]
  have d3 : crossing c ⟨1, 1 / 2⟩ ⟨1 / 2, 0⟩ = 0 := by norm_num [crossing, Crosses, c]
  have d4 : crossing c ⟨1 / 2, 0⟩ ⟨0, 1 / 2⟩ = 0 := by norm_num [crossing, Crosses, c]
  rw [covers_iff, hsum, h8, m0, m1, m2, m3]
  rw [d1] at n1
  rw [d2] at n2
  rw [d3] at n3
  rw [d4] at n4
  linear_combination n1 + n2 + n3 + n4

end X7.Elem
