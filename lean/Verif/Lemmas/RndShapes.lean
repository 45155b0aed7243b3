import Verif.Model.RndShapes
import Verif.Spec.Rnd
import Verif.Spec.RndVec
import Verif.Lemmas.Fl
import Verif.Lemmas.Rnd
import Verif.Lemmas.Shapes

/-!
Lemmas on rounded rectangles under rounding.
-/

noncomputable section

namespace X7
open Rnd
variable {R : Rnd}

/-! ### Removal of duplicates -/

/-- What holds of centre and left handle, and of centre and right handle, still holds after removal of duplicates. -/
theorem dedupeStep_keeps {P Q : Pt ℝ → Vec ℝ → Prop} {s : List (CP ℝ) × List (CP ℝ)} (i : ℕ)
    (h1 : ∀ cp ∈ s.1, P cp.c cp.dl ∧ Q cp.c cp.dr) (h2 : ∀ cp ∈ s.2, P cp.c cp.dl ∧ Q cp.c cp.dr) :
    (∀ cp ∈ (dedupeStep s i).1, P cp.c cp.dl ∧ Q cp.c cp.dr) ∧ ∀ cp ∈ (dedupeStep s i).2, P cp.c cp.dl ∧ Q cp.c cp.dr := by
  unfold dedupeStep
  simp only
  split
  · rename_i a b c ha hb hc
    have hb' := h1 b (List.mem_of_getElem? hb)
    have hc' := h1 c (List.mem_of_getElem? hc)
    split_ifs with hbc hba
    · have hw : P b.c b.dl ∧ Q b.c c.dr := ⟨hb'.1, by rw [hbc]; exact hc'.2⟩
      constructor
      · intro cp hcp
        rcases List.mem_or_eq_of_mem_set hcp with h | h
        · exact h1 cp h
        · rw [h]; exact hw
      · intro cp hcp
        rcases List.mem_append.1 hcp with h | h
        · exact h2 cp h
        · rw [List.mem_singleton.1 h]; exact hw
    · exact ⟨h1, h2⟩
    · refine ⟨h1, fun cp hcp => ?_⟩
      rcases List.mem_append.1 hcp with h | h
      · exact h2 cp h
      · rw [List.mem_singleton.1 h]; exact hb'
  · exact ⟨h1, h2⟩

theorem dedupe_keeps {P Q : Pt ℝ → Vec ℝ → Prop} (cps : List (CP ℝ)) (h : ∀ cp ∈ cps, P cp.c cp.dl ∧ Q cp.c cp.dr) :
    ∀ cp ∈ dedupe cps, P cp.c cp.dl ∧ Q cp.c cp.dr := by
  have : ∀ (l : List ℕ) (s : List (CP ℝ) × List (CP ℝ)), (∀ cp ∈ s.1, P cp.c cp.dl ∧ Q cp.c cp.dr) →
      (∀ cp ∈ s.2, P cp.c cp.dl ∧ Q cp.c cp.dr) → ∀ cp ∈ (l.foldl dedupeStep s).2, P cp.c cp.dl ∧ Q cp.c cp.dr := by
    intro l
    induction l with
    | nil => exact fun s _ h2 => h2
    | cons i l ih =>
      intro s h1 h2
      obtain ⟨h3, h4⟩ := dedupeStep_keeps i h1 h2
      exact ih _ h3 h4
  exact this _ _ h (by simp)

/-- The centres of the list worked on do not change, and the centres kept only grow. -/
theorem dedupeStep_centres (s : List (CP ℝ) × List (CP ℝ)) (i : ℕ) :
    (dedupeStep s i).1.map CP.c = s.1.map CP.c ∧ ∃ t, (dedupeStep s i).2.map CP.c = s.2.map CP.c ++ t := by
  unfold dedupeStep
  simp only
  split
  · rename_i a b c ha hb hc
    split_ifs with hbc hba
    · refine ⟨?_, [b.c], by simp⟩
      rw [List.map_set]
      apply List.ext_getElem?
      intro j
      rw [List.getElem?_set]
      split_ifs with h1 h2
      · subst h1; simp [hb]
      · subst h1
        rw [List.getElem?_eq_none]
        simpa using h2
      · rfl
    · exact ⟨rfl, [], by simp⟩
    · exact ⟨rfl, [b.c], by simp⟩
  · exact ⟨rfl, [], by simp⟩

theorem foldl_centres (l : List ℕ) (s : List (CP ℝ) × List (CP ℝ)) :
    (l.foldl dedupeStep s).1.map CP.c = s.1.map CP.c ∧ ∃ t, (l.foldl dedupeStep s).2.map CP.c = s.2.map CP.c ++ t := by
  induction l generalizing s with
  | nil => exact ⟨rfl, [], by simp⟩
  | cons i l ih =>
    obtain ⟨h1, t1, h2⟩ := dedupeStep_centres s i
    obtain ⟨h3, t2, h4⟩ := ih (dedupeStep s i)
    refine ⟨h3.trans h1, t1 ++ t2, ?_⟩
    rw [List.foldl_cons, h4, h2, List.append_assoc]

/-- If the control point after index `i` differs from the one before, or equals the one after, its centre is kept. -/
theorem dedupe_mem_step (cps : List (CP ℝ)) (i : ℕ) (hi : i < cps.length) (a b c : Pt ℝ)
    (ha : (cps.map CP.c)[i]? = some a) (hb : (cps.map CP.c)[(i + 1) % cps.length]? = some b)
    (hc : (cps.map CP.c)[(i + 2) % cps.length]? = some c) (h : b = c ∨ b ≠ a) : b ∈ (dedupe cps).map CP.c := by
  have hsplit : List.range cps.length = List.range i ++ i :: List.range' (i + 1) (cps.length - i - 1) := by
    rw [List.range_eq_range', List.range_eq_range']
    have e : cps.length = i + (1 + (cps.length - i - 1)) := by omega
    conv_lhs => rw [e]
    rw [← List.range'_append_1, ← List.range'_append_1]
    simp [List.range'_succ]
  unfold dedupe
  rw [hsplit, List.foldl_append, List.foldl_cons]
  obtain ⟨h1, -⟩ := foldl_centres (List.range i) (cps, [])
  set s := (List.range i).foldl dedupeStep (cps, []) with hs
  obtain ⟨-, t, h2⟩ := foldl_centres (List.range' (i + 1) (cps.length - i - 1)) (dedupeStep s i)
  rw [h2]
  apply List.mem_append_left
  have hlen : s.1.length = cps.length := by
    have := congrArg List.length h1
    simpa using this
  have get : ∀ (j : ℕ) (x : Pt ℝ), (cps.map CP.c)[j]? = some x → ∃ y : CP ℝ, s.1[j]? = some y ∧ y.c = x := by
    intro j x hx
    rw [← h1, List.getElem?_map] at hx
    cases hy : s.1[j]? with
    | none => rw [hy] at hx; simp at hx
    | some y => rw [hy] at hx; exact ⟨y, rfl, by simpa using hx⟩
  obtain ⟨a', a1, a2⟩ := get _ _ ha
  obtain ⟨b', b1, b2⟩ := get _ _ hb
  obtain ⟨c', c1, c2⟩ := get _ _ hc
  unfold dedupeStep
  simp only
  rw [hlen, a1, b1, c1]
  simp only
  split_ifs with hbc hba
  · simp [b2]
  · exfalso
    rcases h with h | h
    · exact hbc (by rw [b2, c2, h])
    · exact h (by rw [← a2, ← b2, hba])
  · simp [b2]

/-- Removal of duplicates keeps exactly the same set of places. -/
theorem dedupe_centres (cps : List (CP ℝ)) (q : Pt ℝ) : q ∈ (dedupe cps).map CP.c ↔ q ∈ cps.map CP.c := by
  constructor
  · intro h
    obtain ⟨cp, h1, rfl⟩ := List.mem_map.1 h
    have := dedupe_keeps (P := fun c _ => c ∈ cps.map CP.c) (Q := fun _ _ => True) cps
      (fun cp hcp => ⟨List.mem_map_of_mem hcp, trivial⟩) cp h1
    exact this.1
  · intro h
    obtain ⟨j, hj, hq⟩ := List.getElem_of_mem h
    have hn : 0 < cps.length := by
      rw [List.length_map] at hj; omega
    rw [List.length_map] at hj
    have at' : ∀ k, ∃ x, (cps.map CP.c)[k % cps.length]? = some x := by
      intro k
      have : k % cps.length < (cps.map CP.c).length := by rw [List.length_map]; exact Nat.mod_lt _ hn
      exact ⟨_, List.getElem?_eq_getElem this⟩
    have hq' : (cps.map CP.c)[j]? = some q := by
      rw [List.getElem?_eq_getElem (by rw [List.length_map]; exact hj), hq]
    -- the predecessor index
    obtain ⟨i, hi, hij⟩ : ∃ i < cps.length, (i + 1) % cps.length = j := by
      rcases Nat.eq_zero_or_pos j with h0 | h0
      · refine ⟨cps.length - 1, by omega, ?_⟩
        rw [show cps.length - 1 + 1 = cps.length by omega, Nat.mod_self, h0]
      · exact ⟨j - 1, by omega, by rw [show j - 1 + 1 = j by omega, Nat.mod_eq_of_lt hj]⟩
    obtain ⟨a, ha⟩ := at' i
    rw [Nat.mod_eq_of_lt hi] at ha
    obtain ⟨c, hc⟩ := at' (i + 2)
    by_cases hk : q = c ∨ q ≠ a
    · exact dedupe_mem_step cps i hi a q c ha (by rw [hij]; exact hq') hc hk
    · push Not at hk
      obtain ⟨-, rfl⟩ := hk
      -- the predecessor has the same centre, and it is kept
      obtain ⟨i', hi', hij'⟩ : ∃ i' < cps.length, (i' + 1) % cps.length = i := by
        rcases Nat.eq_zero_or_pos i with h0 | h0
        · refine ⟨cps.length - 1, by omega, ?_⟩
          rw [show cps.length - 1 + 1 = cps.length by omega, Nat.mod_self, h0]
        · exact ⟨i - 1, by omega, by rw [show i - 1 + 1 = i by omega, Nat.mod_eq_of_lt hi]⟩
      obtain ⟨a', ha'⟩ := at' i'
      rw [Nat.mod_eq_of_lt hi'] at ha'
      have e2 : (i' + 2) % cps.length = j := by
        rw [← hij, ← hij', Nat.mod_add_mod]
      exact dedupe_mem_step cps i' hi' a' q q ha' (by rw [hij']; exact ha) (by rw [e2]; exact hq') (.inl rfl)

/-! ### One side of a rounded corner -/

/-- The sign of `a - b` as a number. -/
def sgn (a b : ℝ) : ℝ := if b < a then 1 else if a < b then -1 else 0

theorem sgn_cases (a b : ℝ) : (b < a ∧ sgn a b = 1) ∨ (a < b ∧ sgn a b = -1) ∨ (a = b ∧ sgn a b = 0) := by
  unfold sgn
  rcases lt_trichotomy a b with h | h | h
  · exact .inr (.inl ⟨h, by rw [if_neg (not_lt.2 h.le), if_pos h]⟩)
  · subst h; exact .inr (.inr ⟨rfl, by simp⟩)
  · exact .inl ⟨h, by rw [if_pos h]⟩

theorem fl_sgn_mul (a b x : ℝ) : R.fl (sgn a b * x) = sgn a b * R.fl x := by
  rcases sgn_cases a b with ⟨-, e⟩ | ⟨-, e⟩ | ⟨-, e⟩ <;> rw [e]
  · simp
  · rw [neg_one_mul, R.neg, neg_one_mul]
  · simp [R.fl_zero]

theorem abs_fl (x : ℝ) : |R.fl x| = R.fl |x| := by
  rcases le_total 0 x with hx | hx
  · rw [abs_of_nonneg hx, abs_of_nonneg (R.fl_nonneg hx)]
  · rw [abs_of_nonpos hx, abs_of_nonpos (R.fl_nonpos hx), R.neg]

/-- The side towards a neighbour in the direction of the x-axis or of the y-axis. -/
theorem unit_sgn (a b nr : ℝ) (hne : a ≠ b) (hr : R.Rep nr) :
    R.fl (R.fl (R.fl (a - b) / |R.fl (a - b)|) * nr) = sgn a b * nr := by
  rcases sgn_cases a b with ⟨h, e⟩ | ⟨h, e⟩ | ⟨h, e⟩
  · have : 0 < R.fl (a - b) := lt_of_le_of_ne (R.fl_nonneg (by linarith)) (Ne.symm (by rw [Ne, R.fl_eq_zero]; linarith))
    rw [abs_of_pos this, div_self this.ne', R.fl_one, e, one_mul, hr]
  · have : R.fl (a - b) < 0 := lt_of_le_of_ne (R.fl_nonpos (by linarith)) (by rw [Ne, R.fl_eq_zero]; linarith)
    rw [abs_of_neg this, div_neg, div_self this.ne, R.neg, R.fl_one, e, neg_one_mul, R.neg, hr]
  · exact absurd h hne

theorem cornerSide_x (hyp : ℝ → ℝ → ℝ) (hh : AxisHypot hyp) (a b nr : ℝ) (hr : R.Rep nr) (hn0 : 0 ≤ nr)
    (hn : nr ≤ R.fl (hyp (R.fl (a - b)) 0 / 2)) :
    Fl.cornerSide R hyp ⟨R.fl (a - b), 0⟩ (R.fl (hyp (R.fl (a - b)) 0 / 2)) nr = .ok ⟨sgn a b * nr, 0⟩ := by
  unfold Fl.cornerSide
  rw [(hh _).1] at hn ⊢
  by_cases hne : a = b
  · subst hne
    have e : R.fl (|R.fl (a - a)| / 2) = 0 := by simp [R.fl_zero]
    rw [e] at hn ⊢
    have : nr = 0 := le_antisymm hn hn0
    subst this
    simp
  · have hx : R.fl (a - b) ≠ 0 := by rw [Ne, R.fl_eq_zero, sub_eq_zero]; exact hne
    have hp : R.fl (|R.fl (a - b)| / 2) ≠ 0 := by rw [Ne, R.fl_eq_zero]; simpa using hx
    rw [if_pos hp]
    unfold Fl.unit
    simp only [(hh _).1]
    rw [if_neg (by simpa using hx)]
    simp only [Except.map, Fl.smul]
    rw [unit_sgn a b nr hne hr]
    simp [R.fl_zero]

theorem cornerSide_y (hyp : ℝ → ℝ → ℝ) (hh : AxisHypot hyp) (a b nr : ℝ) (hr : R.Rep nr) (hn0 : 0 ≤ nr)
    (hn : nr ≤ R.fl (hyp 0 (R.fl (a - b)) / 2)) :
    Fl.cornerSide R hyp ⟨0, R.fl (a - b)⟩ (R.fl (hyp 0 (R.fl (a - b)) / 2)) nr = .ok ⟨0, sgn a b * nr⟩ := by
  unfold Fl.cornerSide
  rw [(hh _).2] at hn ⊢
  by_cases hne : a = b
  · subst hne
    have e : R.fl (|R.fl (a - a)| / 2) = 0 := by simp [R.fl_zero]
    rw [e] at hn ⊢
    have : nr = 0 := le_antisymm hn hn0
    subst this
    simp
  · have hx : R.fl (a - b) ≠ 0 := by rw [Ne, R.fl_eq_zero, sub_eq_zero]; exact hne
    have hp : R.fl (|R.fl (a - b)| / 2) ≠ 0 := by rw [Ne, R.fl_eq_zero]; simpa using hx
    rw [if_pos hp]
    unfold Fl.unit
    simp only [(hh _).2]
    rw [if_neg (by simpa using hx)]
    simp only [Except.map, Fl.smul]
    rw [unit_sgn a b nr hne hr]
    simp [R.fl_zero]

/-- The length of half a side, as computed. -/
def halfSide (R : Rnd) (a b : ℝ) : ℝ := R.fl |a - b| / 2

theorem halfSide_comm (a b : ℝ) : halfSide R a b = halfSide R b a := by unfold halfSide; rw [abs_sub_comm]

theorem halfSide_rep (a b : ℝ) : R.Rep (halfSide R a b) := R.rep_half (R.rep_fl _)

theorem halfSide_nonneg (a b : ℝ) : 0 ≤ halfSide R a b := by
  have := R.fl_nonneg (abs_nonneg (a - b)); unfold halfSide; linarith

theorem halfSide_le (a b : ℝ) : halfSide R a b ≤ |a - b| := by
  have := R.fl_le (abs_nonneg (a - b))
  have := R.u_le
  have := abs_nonneg (a - b)
  unfold halfSide
  nlinarith

theorem half_hyp_x (hyp : ℝ → ℝ → ℝ) (hh : AxisHypot hyp) (a b : ℝ) : R.fl (hyp (R.fl (a - b)) 0 / 2) = halfSide R a b := by
  rw [(hh _).1, abs_fl, fl_half, R.idem]; rfl

theorem half_hyp_y (hyp : ℝ → ℝ → ℝ) (hh : AxisHypot hyp) (a b : ℝ) : R.fl (hyp 0 (R.fl (a - b)) / 2) = halfSide R a b := by
  rw [(hh _).2, abs_fl, fl_half, R.idem]; rfl

/-- One coordinate of a control point next to a corner: centre, handle towards the neighbour, handle towards the corner. -/
def sideC (R : Rnd) (a b nr : ℝ) : ℝ := R.fl (b + sgn a b * nr)
def sideOut (R : Rnd) (b90 a b nr : ℝ) : ℝ := sgn a b * R.fl (R.fl (nr * b90) * Fl.cornerScale R (halfSide R a b) nr)
def sideIn (R : Rnd) (b90 a b nr : ℝ) : ℝ := -(sgn a b * R.fl (nr * b90))

theorem neg_zero_mul_fl (x : ℝ) : R.fl (0 * x) = 0 := by simp [R.fl_zero]

/-- A corner whose neighbour before is along the x-axis and whose neighbour after is along the y-axis. -/
theorem roundedCorner_xy (hyp : ℝ → ℝ → ℝ) (hh : AxisHypot hyp) (b90 radius ax bx c_y b_y nr : ℝ) (hr : R.Rep radius) (hr0 : 0 ≤ radius)
    (hbx : R.Rep bx) (hby : R.Rep b_y) (hnr : nr = min radius (min (halfSide R ax bx) (halfSide R c_y b_y))) :
    Fl.roundedCorner R hyp b90 radius ⟨ax, b_y⟩ ⟨bx, b_y⟩ ⟨bx, c_y⟩ =
      .ok (⟨⟨sideC R ax bx nr, b_y⟩, ⟨sideOut R b90 ax bx nr, 0⟩, ⟨sideIn R b90 ax bx nr, 0⟩, "smooth"⟩,
        ⟨⟨bx, sideC R c_y b_y nr⟩, ⟨0, sideIn R b90 c_y b_y nr⟩, ⟨0, sideOut R b90 c_y b_y nr⟩, "smooth"⟩) := by
  have repnr : R.Rep nr := by
    rw [hnr]
    rcases min_choice radius (min (halfSide R ax bx) (halfSide R c_y b_y)) with e | e <;> rw [e]
    · exact hr
    · rcases min_choice (halfSide R ax bx) (halfSide R c_y b_y) with e | e <;> rw [e] <;> exact halfSide_rep _ _
  have nr0 : 0 ≤ nr := by rw [hnr]; exact le_min hr0 (le_min (halfSide_nonneg _ _) (halfSide_nonneg _ _))
  have n1 : nr ≤ halfSide R ax bx := by rw [hnr]; exact (min_le_right _ _).trans (min_le_left _ _)
  have n2 : nr ≤ halfSide R c_y b_y := by rw [hnr]; exact (min_le_right _ _).trans (min_le_right _ _)
  have e1 : Fl.sub R (⟨ax, b_y⟩ : Pt ℝ) ⟨bx, b_y⟩ = ⟨R.fl (ax - bx), 0⟩ := by simp [Fl.sub, R.fl_zero]
  have e2 : Fl.sub R (⟨bx, c_y⟩ : Pt ℝ) ⟨bx, b_y⟩ = ⟨0, R.fl (c_y - b_y)⟩ := by simp [Fl.sub, R.fl_zero]
  have c1 := cornerSide_x (R := R) hyp hh ax bx nr repnr nr0 (by rw [half_hyp_x hyp hh]; exact n1)
  have c2 := cornerSide_y (R := R) hyp hh c_y b_y nr repnr nr0 (by rw [half_hyp_y hyp hh]; exact n2)
  rw [half_hyp_x hyp hh] at c1
  rw [half_hyp_y hyp hh] at c2
  unfold Fl.roundedCorner
  simp only [e1, e2, half_hyp_x hyp hh, half_hyp_y hyp hh, ← hnr, c1, c2]
  simp only [bind, Except.bind, Fl.addVector, Fl.smul, Vec.neg, mul_assoc, fl_sgn_mul, add_zero, neg_zero_mul_fl, neg_zero]
  rw [hbx, hby]
  rfl

/-- A corner whose neighbour before is along the y-axis and whose neighbour after is along the x-axis. -/
theorem roundedCorner_yx (hyp : ℝ → ℝ → ℝ) (hh : AxisHypot hyp) (b90 radius a_y b_y cx bx nr : ℝ) (hr : R.Rep radius) (hr0 : 0 ≤ radius)
    (hbx : R.Rep bx) (hby : R.Rep b_y) (hnr : nr = min radius (min (halfSide R a_y b_y) (halfSide R cx bx))) :
    Fl.roundedCorner R hyp b90 radius ⟨bx, a_y⟩ ⟨bx, b_y⟩ ⟨cx, b_y⟩ =
      .ok (⟨⟨bx, sideC R a_y b_y nr⟩, ⟨0, sideOut R b90 a_y b_y nr⟩, ⟨0, sideIn R b90 a_y b_y nr⟩, "smooth"⟩,
        ⟨⟨sideC R cx bx nr, b_y⟩, ⟨sideIn R b90 cx bx nr, 0⟩, ⟨sideOut R b90 cx bx nr, 0⟩, "smooth"⟩) := by
  have repnr : R.Rep nr := by
    rw [hnr]
    rcases min_choice radius (min (halfSide R a_y b_y) (halfSide R cx bx)) with e | e <;> rw [e]
    · exact hr
    · rcases min_choice (halfSide R a_y b_y) (halfSide R cx bx) with e | e <;> rw [e] <;> exact halfSide_rep _ _
  have nr0 : 0 ≤ nr := by rw [hnr]; exact le_min hr0 (le_min (halfSide_nonneg _ _) (halfSide_nonneg _ _))
  have n1 : nr ≤ halfSide R a_y b_y := by rw [hnr]; exact (min_le_right _ _).trans (min_le_left _ _)
  have n2 : nr ≤ halfSide R cx bx := by rw [hnr]; exact (min_le_right _ _).trans (min_le_right _ _)
  have e1 : Fl.sub R (⟨bx, a_y⟩ : Pt ℝ) ⟨bx, b_y⟩ = ⟨0, R.fl (a_y - b_y)⟩ := by simp [Fl.sub, R.fl_zero]
  have e2 : Fl.sub R (⟨cx, b_y⟩ : Pt ℝ) ⟨bx, b_y⟩ = ⟨R.fl (cx - bx), 0⟩ := by simp [Fl.sub, R.fl_zero]
  have c1 := cornerSide_y (R := R) hyp hh a_y b_y nr repnr nr0 (by rw [half_hyp_y hyp hh]; exact n1)
  have c2 := cornerSide_x (R := R) hyp hh cx bx nr repnr nr0 (by rw [half_hyp_x hyp hh]; exact n2)
  rw [half_hyp_y hyp hh] at c1
  rw [half_hyp_x hyp hh] at c2
  unfold Fl.roundedCorner
  simp only [e1, e2, half_hyp_x hyp hh, half_hyp_y hyp hh, ← hnr, c1, c2]
  simp only [bind, Except.bind, Fl.addVector, Fl.smul, Vec.neg, mul_assoc, fl_sgn_mul, add_zero, neg_zero_mul_fl, neg_zero]
  rw [hbx, hby]
  rfl

/-- The eight control points before duplicates are removed; `nr` is the radius used. -/
def rrList (R : Rnd) (b90 : ℝ) (p1 p2 : Pt ℝ) (nr : ℝ) : List (CP ℝ) :=
  [⟨⟨sideC R p2.x p1.x nr, p1.y⟩, ⟨sideOut R b90 p2.x p1.x nr, 0⟩, ⟨sideIn R b90 p2.x p1.x nr, 0⟩, "smooth"⟩,
   ⟨⟨p1.x, sideC R p2.y p1.y nr⟩, ⟨0, sideIn R b90 p2.y p1.y nr⟩, ⟨0, sideOut R b90 p2.y p1.y nr⟩, "smooth"⟩,
   ⟨⟨p1.x, sideC R p1.y p2.y nr⟩, ⟨0, sideOut R b90 p1.y p2.y nr⟩, ⟨0, sideIn R b90 p1.y p2.y nr⟩, "smooth"⟩,
   ⟨⟨sideC R p2.x p1.x nr, p2.y⟩, ⟨sideIn R b90 p2.x p1.x nr, 0⟩, ⟨sideOut R b90 p2.x p1.x nr, 0⟩, "smooth"⟩,
   ⟨⟨sideC R p1.x p2.x nr, p2.y⟩, ⟨sideOut R b90 p1.x p2.x nr, 0⟩, ⟨sideIn R b90 p1.x p2.x nr, 0⟩, "smooth"⟩,
   ⟨⟨p2.x, sideC R p1.y p2.y nr⟩, ⟨0, sideIn R b90 p1.y p2.y nr⟩, ⟨0, sideOut R b90 p1.y p2.y nr⟩, "smooth"⟩,
   ⟨⟨p2.x, sideC R p2.y p1.y nr⟩, ⟨0, sideOut R b90 p2.y p1.y nr⟩, ⟨0, sideIn R b90 p2.y p1.y nr⟩, "smooth"⟩,
   ⟨⟨sideC R p1.x p2.x nr, p1.y⟩, ⟨sideIn R b90 p1.x p2.x nr, 0⟩, ⟨sideOut R b90 p1.x p2.x nr, 0⟩, "smooth"⟩]

theorem makeRoundedRect_fl (hyp : ℝ → ℝ → ℝ) (hh : AxisHypot hyp) (b90 : ℝ) (p1 p2 : Pt ℝ) (h1 : R.RepPt p1) (h2 : R.RepPt p2)
    (radius : ℝ) (hr : R.Rep radius) (hr0 : 0 ≤ radius) :
    Fl.makeRoundedRect R hyp b90 p1 p2 radius =
      .ok (dedupe (rrList R b90 p1 p2 (min radius (min (halfSide R p1.x p2.x) (halfSide R p1.y p2.y))))) := by
  have cx := halfSide_comm (R := R) p1.x p2.x
  have cy := halfSide_comm (R := R) p1.y p2.y
  have k1 := roundedCorner_xy (R := R) hyp hh b90 radius p2.x p1.x p2.y p1.y _ hr hr0 h1.1 h1.2 rfl
  have k2 := roundedCorner_yx (R := R) hyp hh b90 radius p1.y p2.y p2.x p1.x _ hr hr0 h1.1 h2.2 rfl
  have k3 := roundedCorner_xy (R := R) hyp hh b90 radius p1.x p2.x p1.y p2.y _ hr hr0 h2.1 h2.2 rfl
  have k4 := roundedCorner_yx (R := R) hyp hh b90 radius p2.y p1.y p1.x p2.x _ hr hr0 h2.1 h1.2 rfl
  rw [← cx, ← cy] at k1
  rw [← cx, min_comm (halfSide R p1.y p2.y)] at k2
  rw [← cy, min_comm (halfSide R p1.y p2.y)] at k4
  have it : iterRotate3m1 [p1, (⟨p1.x, p2.y⟩ : Pt ℝ), p2, ⟨p2.x, p1.y⟩] =
      [(⟨p2.x, p1.y⟩, p1, ⟨p1.x, p2.y⟩), (p1, ⟨p1.x, p2.y⟩, p2), (⟨p1.x, p2.y⟩, p2, ⟨p2.x, p1.y⟩), (p2, ⟨p2.x, p1.y⟩, p1)] := rfl
  unfold Fl.makeRoundedRect
  simp only [it, List.mapM_cons, List.mapM_nil]
  have k1' : Fl.roundedCorner R hyp b90 radius ⟨p2.x, p1.y⟩ p1 ⟨p1.x, p2.y⟩ = _ := k1
  have k2' : Fl.roundedCorner R hyp b90 radius p1 ⟨p1.x, p2.y⟩ p2 = _ := k2
  have k3' : Fl.roundedCorner R hyp b90 radius ⟨p1.x, p2.y⟩ p2 ⟨p2.x, p1.y⟩ = _ := k3
  have k4' : Fl.roundedCorner R hyp b90 radius p2 ⟨p2.x, p1.y⟩ p1 = _ := k4
  rw [k1', k2', k3', k4']
  rfl

end X7
