import Verif.Spec.FillSide
import Verif.Lemmas.FillMove

noncomputable section

namespace X7.Elem

theorem onSeg_apply {m : Mat3 ℝ} (hm : Solid m) {a b p : Pt ℝ} : OnSeg (m.apply a) (m.apply b) (m.apply p) ↔ OnSeg a b p := by
  refine exists_congr fun v => and_congr_right fun _ => and_congr_right fun _ => ?_
  simp only [Mat3.apply, Pt.mk.injEq]
  constructor
  · rintro ⟨h1, h2⟩
    ext
    · apply mul_left_cancel₀ hm
      simp only
      linear_combination m.e * h1 - m.b * h2
    · apply mul_left_cancel₀ hm
      simp only
      linear_combination m.a * h2 - m.d * h1
  · intro h
    rw [Pt.ext_iff] at h
    simp only at h
    rw [h.1, h.2]
    constructor <;> ring

theorem segMeet_apply {m : Mat3 ℝ} (hm : Solid m) {p q a b : Pt ℝ} :
    SegMeet (m.apply p) (m.apply q) (m.apply a) (m.apply b) ↔ SegMeet p q a b := by
  constructor
  · rintro ⟨x, h1, h2⟩
    obtain ⟨y, rfl⟩ := apply_onto hm x
    exact ⟨y, (onSeg_apply hm).1 h1, (onSeg_apply hm).1 h2⟩
  · rintro ⟨x, h1, h2⟩
    exact ⟨m.apply x, (onSeg_apply hm).2 h1, (onSeg_apply hm).2 h2⟩

theorem onSeg_start (a b : Pt ℝ) : OnSeg a b a := ⟨0, le_rfl, zero_le_one, by simp⟩
theorem onSeg_end (a b : Pt ℝ) : OnSeg a b b := ⟨1, zero_le_one, le_rfl, by simp⟩

/-- A level line changes the crossings of a side if and only if it meets the side. -/
theorem level (p q a b : Pt ℝ) (hy : p.y = q.y) (hx : p.x ≤ q.x) (ha : ¬ OnSeg p q a) (hb : ¬ OnSeg p q b) (hp : ¬ OnSeg a b p) :
    (Crosses p a b ↔ Crosses q a b) ↔ ¬ SegMeet p q a b := by
  have hpq : ∀ x : Pt ℝ, OnSeg p q x ↔ x.y = p.y ∧ p.x ≤ x.x ∧ x.x ≤ q.x := by
    intro x
    constructor
    · rintro ⟨v, v0, v1, rfl⟩
      refine ⟨by simp [hy], ?_, ?_⟩ <;> simp only <;> nlinarith
    · rintro ⟨h1, h2, h3⟩
      rcases eq_or_lt_of_le hx with h | h
      · exact ⟨0, le_rfl, zero_le_one, by ext <;> simp <;> linarith⟩
      · refine ⟨(x.x - p.x) / (q.x - p.x), div_nonneg (by linarith) (by linarith), (div_le_one (by linarith)).2 (by linarith), ?_⟩
        have : q.x - p.x ≠ 0 := by linarith
        ext
        · simp only; field_simp; ring
        · simp [hy, h1]
  by_cases hs : p.y < a.y ↔ p.y < b.y
  · have h1 : ¬ Crosses p a b := fun h => h.1 hs
    have h2 : ¬ Crosses q a b := fun h => h.1 (by rw [← hy]; exact hs)
    simp only [h1, h2, iff_self, true_iff]
    rintro ⟨x, m1, v, v0, v1, rfl⟩
    rw [hpq] at m1 ha hb
    obtain ⟨e1, e2, e3⟩ := m1
    simp only at e1 e2 e3
    by_cases hay : p.y < a.y
    · have hby := hs.1 hay
      rcases eq_or_lt_of_le v0 with h | h
      · rw [← h, zero_mul, add_zero] at e1
        linarith
      · nlinarith [mul_pos h (sub_pos.2 hby), mul_nonneg (sub_nonneg.2 v1) (sub_nonneg.2 hay.le)]
    · have hby : ¬ p.y < b.y := fun h => hay (hs.2 h)
      push Not at hay hby
      -- one of the ends is at this height
      by_cases h0 : a.y = p.y
      · by_cases h1 : b.y = p.y
        · -- both are
          apply hp
          have a1 : a.x < p.x ∨ q.x < a.x := by
            by_contra hc
            push Not at hc
            exact ha ⟨h0, hc⟩
          have b1 : b.x < p.x ∨ q.x < b.x := by
            by_contra hc
            push Not at hc
            exact hb ⟨h1, hc⟩
          have hne : b.x - a.x ≠ 0 := by
            intro h
            have : b.x = a.x := by linarith
            rw [this, sub_self, mul_zero, add_zero] at e2 e3
            rcases a1 with h | h <;> linarith
          refine ⟨(p.x - a.x) / (b.x - a.x), ?_, ?_, ?_⟩
          · rcases a1 with h | h
            · apply div_nonneg (by linarith)
              by_contra hc
              nlinarith
            · apply div_nonneg_of_nonpos (by linarith)
              by_contra hc
              nlinarith
          · rcases a1 with h | h
            · have : 0 < b.x - a.x := by
                by_contra hc
                nlinarith
              rw [div_le_one this]
              rcases b1 with h' | h'
              · nlinarith
              · linarith
            · have : b.x - a.x < 0 := by
                by_contra hc
                nlinarith
              rw [div_le_one_of_neg this]
              rcases b1 with h' | h'
              · linarith
              · nlinarith
          · ext
            · simp only; field_simp; ring
            · simp [h0, h1]
        · -- only the start is
          have hv : v = 0 := by
            have : v * (b.y - a.y) = 0 := by linarith
            rcases mul_eq_zero.1 this with h | h
            · exact h
            · exact absurd (by linarith) h1
          subst hv
          simp only [zero_mul, add_zero] at e2 e3
          exact ha ⟨h0, e2, e3⟩
      · -- then only the end can be
        have h2 : a.y < p.y := lt_of_le_of_ne hay h0
        have hv : v = 1 := by
          by_contra hv
          have : v < 1 := lt_of_le_of_ne v1 hv
          nlinarith [mul_pos (sub_pos.2 this) (sub_pos.2 h2), mul_nonneg v0 (sub_nonneg.2 hby)]
        subst hv
        simp only [one_mul, add_sub_cancel] at e1 e2 e3
        exact hb ⟨e1, e2, e3⟩
  · have hne : b.y - a.y ≠ 0 := by
      intro h0
      apply hs
      rw [show b.y = a.y by linarith]
    have hs' : ¬ (q.y < a.y ↔ q.y < b.y) := by rw [← hy]; exact hs
    simp only [Crosses, hs, hs', not_false_eq_true, true_and]
    rw [← hy]
    -- the place where the side is at this height
    have hv0 : 0 ≤ (p.y - a.y) / (b.y - a.y) ∧ (p.y - a.y) / (b.y - a.y) ≤ 1 := by
      rcases lt_or_gt_of_ne hne with h | h
      · rw [div_le_one_of_neg h]
        constructor
        · apply div_nonneg_of_nonpos _ h.le
          by_contra hc
          exact hs ⟨fun _ => by linarith, fun _ => by linarith⟩
        · by_contra hc
          exact hs ⟨fun _ => by linarith, fun _ => by linarith⟩
      · rw [div_le_one h]
        constructor
        · apply div_nonneg _ h.le
          by_contra hc
          exact hs ⟨fun _ => by linarith, fun _ => by linarith⟩
        · by_contra hc
          exact hs ⟨fun _ => by linarith, fun _ => by linarith⟩
    have hyy : a.y + (p.y - a.y) / (b.y - a.y) * (b.y - a.y) = p.y := by field_simp; ring
    have hm : SegMeet p q a b ↔ p.x ≤ a.x + (p.y - a.y) / (b.y - a.y) * (b.x - a.x) ∧ a.x + (p.y - a.y) / (b.y - a.y) * (b.x - a.x) ≤ q.x := by
      constructor
      · rintro ⟨x, m1, v, v0, v1, rfl⟩
        rw [hpq] at m1
        obtain ⟨e1, e2⟩ := m1
        simp only at e1 e2
        have : v = (p.y - a.y) / (b.y - a.y) := by
          rw [eq_div_iff hne]; linarith
        rw [← this]
        exact e2
      · intro h
        exact ⟨⟨_, _⟩, (hpq _).2 ⟨hyy, h⟩, _, hv0.1, hv0.2, rfl⟩
    have hpx : p.x ≠ a.x + (p.y - a.y) / (b.y - a.y) * (b.x - a.x) := by
      intro h
      exact hp ⟨_, hv0.1, hv0.2, by ext <;> simp only <;> linarith⟩
    rw [hm]
    generalize a.x + (p.y - a.y) / (b.y - a.y) * (b.x - a.x) = X at hpx
    constructor
    · rintro h ⟨h1, h2⟩
      have := h.1 (lt_of_le_of_ne h1 hpx)
      linarith
    · intro h
      constructor
      · intro h1
        by_contra hc
        exact h ⟨h1.le, by linarith⟩
      · intro h1
        linarith

theorem countP_even {α : Type*} (P : α → Prop) [DecidablePred P] (l : List α) : Even (l.countP fun e => decide (P e)) ↔
    (l.map fun e => if P e then (1 : ZMod 2) else 0).sum = 0 := by
  rw [← ZMod.natCast_eq_zero_iff_even]
  have : ((l.countP fun e => decide (P e) : ℕ) : ZMod 2) = (l.map fun e => if P e then (1 : ZMod 2) else 0).sum := by
    induction l with
    | nil => simp
    | cons a l ih =>
      rw [List.countP_cons, List.map_cons, List.sum_cons, ← ih]
      by_cases h : P a <;> simp [h, add_comm]
  rw [this]

theorem cyc_map_zip (X : Pt ℝ → Pt ℝ → ZMod 2) (l : List (Pt ℝ)) : cyc X l = ((l.zip (l.rotate 1)).map fun e => X e.1 e.2).sum := by
  rw [cyc, ← List.map_uncurry_zip_eq_zipWith]; rfl

theorem segment_level (pts : List (Pt ℝ)) (p q : Pt ℝ) (hy : p.y = q.y) (hx : p.x ≤ q.x) (hv : ∀ a ∈ pts, ¬ OnSeg p q a) (hp : ¬ OnSide pts p) :
    (Covers pts p ↔ Covers pts q) ↔ Even (sidesMet pts p q) := by
  classical
  rw [covers_iff, covers_iff, cyc_map_zip, cyc_map_zip, sidesMet, countP_even]
  have hz : ((pts.zip (pts.rotate 1)).map fun e => crossing p e.1 e.2) = (pts.zip (pts.rotate 1)).map fun e =>
      (crossing q e.1 e.2 + if SegMeet p q e.1 e.2 then 1 else 0) := by
    refine List.map_congr_left fun e he => ?_
    have h := level p q e.1 e.2 hy hx (hv _ (List.of_mem_zip he).1) (hv _ (by simpa using (List.of_mem_zip he).2))
      fun ⟨v, v0, v1, h⟩ => hp ⟨e, he, v, v0, v1, h⟩
    simp only [crossing]
    by_cases h1 : Crosses p e.1 e.2 <;> by_cases h2 : Crosses q e.1 e.2 <;> by_cases h3 : SegMeet p q e.1 e.2 <;> simp_all
    decide
  rw [hz, List.sum_map_add]
  generalize ((pts.zip (pts.rotate 1)).map fun e => crossing q e.1 e.2).sum = u
  generalize (List.map (fun e : Pt ℝ × Pt ℝ => if SegMeet p q e.1 e.2 then (1 : ZMod 2) else 0) _).sum = w
  revert u w
  decide

theorem zip_apply (m : Mat3 ℝ) (pts : List (Pt ℝ)) : (pts.map m.apply).zip ((pts.map m.apply).rotate 1) = (pts.zip (pts.rotate 1)).map (Prod.map m.apply m.apply) := by
  rw [← List.map_rotate, List.zip_map]

theorem sidesMet_apply {m : Mat3 ℝ} (hm : Solid m) (pts : List (Pt ℝ)) (p q : Pt ℝ) : sidesMet (pts.map m.apply) (m.apply p) (m.apply q) = sidesMet pts p q := by
  classical
  rw [sidesMet, sidesMet, zip_apply, List.countP_map]
  congr 1
  funext e
  simp [segMeet_apply hm]

theorem segment_any (pts : List (Pt ℝ)) (p q : Pt ℝ) (hv : ∀ a ∈ pts, ¬ OnSeg p q a) (hp : ¬ OnSide pts p) (hq : ¬ OnSide pts q) :
    (Covers pts p ↔ Covers pts q) ↔ Even (sidesMet pts p q) := by
  by_cases h : p = q
  · subst h
    exact segment_level pts p p rfl le_rfl hv hp
  · have hpos : 0 < (q.x - p.x) ^ 2 + (q.y - p.y) ^ 2 := by
      by_contra hc
      apply h
      have h1 : (q.x - p.x) ^ 2 = 0 := by nlinarith [sq_nonneg (q.x - p.x), sq_nonneg (q.y - p.y)]
      have h2 : (q.y - p.y) ^ 2 = 0 := by nlinarith [sq_nonneg (q.x - p.x), sq_nonneg (q.y - p.y)]
      rw [sq_eq_zero_iff] at h1 h2
      ext <;> linarith
    let m : Mat3 ℝ := ⟨q.x - p.x, q.y - p.y, 0, -(q.y - p.y), q.x - p.x, 0, 0, 0, 1⟩
    have hm : Solid m := by
      simp only [Solid, m]
      nlinarith
    rw [← sidesMet_apply hm, ← (carries_apply hm pts p hp).2, ← (carries_apply hm pts q hq).2]
    refine segment_level _ _ _ ?_ ?_ ?_ ((carries_apply hm pts p hp).1)
    · simp only [m, Mat3.apply]; ring
    · simp only [m, Mat3.apply]; nlinarith
    · intro a ha
      obtain ⟨b, hb, rfl⟩ := List.mem_map.1 ha
      rw [onSeg_apply hm]
      exact hv b hb

end X7.Elem
