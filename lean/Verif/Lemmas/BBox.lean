import Mathlib.Tactic.Order
import Mathlib.Tactic.Tauto
import Verif.Spec.Region

namespace X7.BBox
variable {α : Type*} [LinearOrder α]

theorem norm_none : (BBox.none : BBox α).Norm := trivial

theorem norm_mk' (a b c d : α) : (mk' a b c d).Norm :=
  ⟨min_le_max, min_le_max⟩

theorem norm_ofPts (p q : Pt α) : (ofPts p q).Norm := norm_mk' _ _ _ _

theorem mk'_of_le {a b c d : α} (h1 : a ≤ c) (h2 : b ≤ d) : mk' a b c d = .box a b c d := by
  simp [mk', h1, h2]

theorem copy_of_norm {b : BBox α} (h : b.Norm) : b.copy = b := by
  cases b with
  | none => rfl
  | box xl yl xh yh => exact mk'_of_le h.1 h.2

theorem norm_copy (b : BBox α) : b.copy.Norm := by
  cases b with
  | none => trivial
  | box xl yl xh yh => exact norm_mk' _ _ _ _

theorem norm_add (a b : BBox α) : (a.add b).Norm := by
  cases b with
  | none => exact norm_copy _
  | box xl yl xh yh =>
    cases a with
    | none => exact norm_mk' _ _ _ _
    | box _ _ _ _ => exact norm_mk' _ _ _ _

theorem norm_grow {b : BBox α} (h : b.Norm) (p : Pt α) : (b.grow p).Norm := by
  cases b with
  | none => exact ⟨le_refl _, le_refl _⟩
  | box xl yl xh yh =>
    simp only [Norm] at h
    exact ⟨by order, by order⟩

theorem norm_inter (a b : BBox α) : (a.inter b).Norm := by
  cases a <;> cases b <;> simp only [inter]
  all_goals try trivial
  split
  · trivial
  · exact norm_mk' _ _ _ _

/-- Regions of normalised boxes: subset = coordinate inequalities. -/
theorem region_subset_box {xl yl xh yh xl' yl' xh' yh' : α} (h1 : xl ≤ xh) (h2 : yl ≤ yh) :
    Region (.box xl yl xh yh) ⊆ Region (.box xl' yl' xh' yh') ↔
      xl' ≤ xl ∧ xh ≤ xh' ∧ yl' ≤ yl ∧ yh ≤ yh' := by
  constructor
  · intro h
    have a := h (show (⟨xl, yl⟩ : Pt α) ∈ Region (.box xl yl xh yh) from ⟨⟨le_refl _, h1⟩, ⟨le_refl _, h2⟩⟩)
    have b := h (show (⟨xh, yh⟩ : Pt α) ∈ Region (.box xl yl xh yh) from ⟨⟨h1, le_refl _⟩, ⟨h2, le_refl _⟩⟩)
    exact ⟨a.1.1, b.1.2, a.2.1, b.2.2⟩
  · rintro ⟨a, b, c, d⟩ p ⟨⟨p1, p2⟩, ⟨p3, p4⟩⟩
    exact ⟨⟨by order, by order⟩, ⟨by order, by order⟩⟩

/-- A normalised box is determined by its region. -/
theorem region_inj {a b : BBox α} (ha : a.Norm) (hb : b.Norm) (h : Region a = Region b) : a = b := by
  cases a with
  | none =>
    cases b with
    | none => rfl
    | box xl yl xh yh =>
      exfalso
      have : (⟨xl, yl⟩ : Pt α) ∈ Region (.box xl yl xh yh) := ⟨⟨le_refl _, hb.1⟩, ⟨le_refl _, hb.2⟩⟩
      rw [← h] at this
      exact this
  | box xl yl xh yh =>
    cases b with
    | none =>
      exfalso
      have : (⟨xl, yl⟩ : Pt α) ∈ Region (.box xl yl xh yh) := ⟨⟨le_refl _, ha.1⟩, ⟨le_refl _, ha.2⟩⟩
      rw [h] at this
      exact this
    | box xl' yl' xh' yh' =>
      have h1 := (region_subset_box ha.1 ha.2).1 h.subset
      have h2 := (region_subset_box hb.1 hb.2).1 h.symm.subset
      have e1 : xl = xl' := by order
      have e2 : yl = yl' := by order
      have e3 : xh = xh' := by order
      have e4 : yh = yh' := by order
      subst e1 e2 e3 e4; rfl

theorem region_inter (a b : BBox α) (ha : a.Norm) (hb : b.Norm) :
    Region (a.inter b) = Region a ∩ Region b := by
  cases a with
  | none => simp [inter, Region]
  | box xl yl xh yh =>
    cases b with
    | none => simp [inter, Region]
    | box xl' yl' xh' yh' =>
      simp only [Norm] at ha hb
      simp only [inter]
      split
      · rename_i h
        ext p
        simp only [Region, Set.mem_empty_iff_false, Set.mem_inter_iff, Set.mem_ofPred_eq, false_iff]
        rintro ⟨⟨⟨_, _⟩, _, _⟩, ⟨_, _⟩, _, _⟩
        rcases h with h | h | h | h <;> order
      · rename_i h
        push Not at h
        obtain ⟨h1, h2, h3, h4⟩ := h
        rw [mk'_of_le (by simp; tauto) (by simp; tauto)]
        ext p
        simp only [Region, Set.mem_inter_iff, Set.mem_ofPred_eq, max_le_iff, le_min_iff]
        tauto

theorem region_add_lub {a b c : BBox α} (ha : a.Norm) (hb : b.Norm) :
    Region (a.add b) ⊆ Region c ↔ Region a ⊆ Region c ∧ Region b ⊆ Region c := by
  cases b with
  | none => simp [add, copy_of_norm ha, Region]
  | box xl' yl' xh' yh' =>
    cases a with
    | none => simp only [add, copy_of_norm hb]; simp [Region]
    | box xl yl xh yh =>
      simp only [Norm] at ha hb
      simp only [add]
      rw [mk'_of_le (by order) (by order)]
      cases c with
      | none =>
        constructor
        · intro h
          exfalso
          exact h (show (⟨min xl xl', min yl yl'⟩ : Pt α) ∈ _ from
            ⟨⟨le_refl _, by simp only []; order⟩, ⟨le_refl _, by simp only []; order⟩⟩)
        · intro h
          exfalso
          exact h.1 (show (⟨xl, yl⟩ : Pt α) ∈ _ from ⟨⟨le_refl _, ha.1⟩, ⟨le_refl _, ha.2⟩⟩)
      | box a b c d =>
        rw [region_subset_box (by order) (by order), region_subset_box ha.1 ha.2,
          region_subset_box hb.1 hb.2]
        simp only [le_min_iff, max_le_iff]
        tauto

theorem grow_eq_add {b : BBox α} (h : b.Norm) (p : Pt α) : b.grow p = b.add (.box p.x p.y p.x p.y) := by
  cases b with
  | none => simp [grow, add, copy, mk']
  | box xl yl xh yh =>
    simp only [Norm] at h
    simp only [grow, add]
    rw [mk'_of_le (by order) (by order)]

/-- Region of a single point box. -/
theorem region_point (p : Pt α) (c : BBox α) :
    Region (.box p.x p.y p.x p.y) ⊆ Region c ↔ p ∈ Region c := by
  constructor
  · intro h; exact h ⟨⟨le_refl _, le_refl _⟩, ⟨le_refl _, le_refl _⟩⟩
  · rintro h q ⟨⟨h1, h2⟩, h3, h4⟩
    have : q = p := Pt.ext (le_antisymm h2 h1) (le_antisymm h4 h3)
    rwa [this]

theorem norm_growAll {b : BBox α} (h : b.Norm) (ps : List (Pt α)) : (b.growAll ps).Norm := by
  induction ps generalizing b with
  | nil => exact h
  | cons p ps ih => exact ih (norm_grow h p)

theorem region_growAll {b c : BBox α} (hb : b.Norm) (ps : List (Pt α)) :
    Region (b.growAll ps) ⊆ Region c ↔ Region b ⊆ Region c ∧ ∀ p ∈ ps, p ∈ Region c := by
  induction ps generalizing b with
  | nil => simp [growAll]
  | cons p ps ih =>
    have := ih (norm_grow hb p)
    rw [grow_eq_add hb, region_add_lub hb (show Norm (.box p.x p.y p.x p.y) from ⟨le_refl _, le_refl _⟩),
      region_point] at this
    simp only [growAll, List.foldl_cons, List.mem_cons, forall_eq_or_imp] at this ⊢
    rw [← and_assoc, ← this, grow_eq_add hb]

end X7.BBox
