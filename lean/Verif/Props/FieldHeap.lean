import Verif.Spec.FieldHeap
import Verif.Spec.VecField
import Verif.Props.VecField

/-! C80: histories of vector fields: changes of the vectors, copies, lookups; equality; random fields. -/

noncomputable section

open Classical

namespace X7.VF

variable {copies : Bool}

/-! ### Helpers: what one operation leaves alone -/

/-- Every field refers to arrays that exist; fields that do not exist have no interpolators. -/
structure FSt.WF (s : FSt) : Prop where
  vx : ∀ f < s.nf, (s.fld f).vx < s.next
  vy : ∀ f < s.nf, (s.fld f).vy < s.next
  cache : ∀ f, s.nf ≤ f → (s.fld f).cache = none

theorem newBoth_wf {s : FSt} (h : s.WF) (g : Field) : (s.newBoth g).WF := by
  constructor
  · intro f hf
    simp only [FSt.newBoth, FSt.newFld, FSt.newArr, Function.update_apply] at hf ⊢
    split
    · show s.next < _; omega
    · have := h.vx f (by omega); omega
  · intro f hf
    simp only [FSt.newBoth, FSt.newFld, FSt.newArr, Function.update_apply] at hf ⊢
    split
    · show s.next + 1 < _; omega
    · have := h.vy f (by omega); omega
  · intro f hf
    simp only [FSt.newBoth, FSt.newFld, FSt.newArr, Function.update_apply] at hf ⊢
    split
    · rfl
    · exact h.cache f (by omega)

theorem lookup_fld (s : FSt) (f : ℕ) (x y : ℝ) (g : ℕ) :
    ((s.lookup copies f x y).1.fld g).mesh = (s.fld g).mesh ∧ ((s.lookup copies f x y).1.fld g).vx = (s.fld g).vx ∧
      ((s.lookup copies f x y).1.fld g).vy = (s.fld g).vy ∧ (s.lookup copies f x y).1.arr = s.arr ∧
      (s.lookup copies f x y).1.next = s.next ∧ (s.lookup copies f x y).1.nf = s.nf ∧
      (g ≠ f → ((s.lookup copies f x y).1.fld g).cache = (s.fld g).cache) := by
  unfold FSt.lookup
  cases hc : (s.fld f).cache with
  | some c => obtain ⟨ix, iy⟩ := c; simp [hc]
  | none =>
    simp only [hc]
    split
    · exact ⟨rfl, rfl, rfl, rfl, rfl, rfl, fun _ => rfl⟩
    · simp only [Function.update_apply]
      split
      · next h => subst h; simp
      · simp

theorem step_wf {s : FSt} (h : s.WF) (op : FOp) : (s.step copies op).WF := by
  cases op with
  | array v => exact ⟨fun f hf => Nat.lt_succ_of_lt (h.vx f hf), fun f hf => Nat.lt_succ_of_lt (h.vy f hf), h.cache⟩
  | zeros m => exact newBoth_wf h _
  | field m ax ay =>
    simp only [FSt.step]
    split
    · next hh =>
      constructor
      · intro f hf
        simp only [FSt.newFld, Function.update_apply] at hf ⊢
        split
        · exact hh.1
        · exact h.vx f (by omega)
      · intro f hf
        simp only [FSt.newFld, Function.update_apply] at hf ⊢
        split
        · exact hh.2
        · exact h.vy f (by omega)
      · intro f hf
        simp only [FSt.newFld, Function.update_apply] at hf ⊢
        split
        · rfl
        · exact h.cache f (by omega)
    · exact h
  | derive f d =>
    simp only [FSt.step]
    split
    · split
      · exact newBoth_wf h _
      · exact h
    · exact h
  | poke a i j v =>
    simp only [FSt.step]
    split
    · exact ⟨h.vx, h.vy, h.cache⟩
    · exact h
  | setVx f a =>
    simp only [FSt.step]
    split
    · next hh =>
      constructor
      · intro g hg
        simp only [Function.update_apply]
        split
        · exact hh.2
        · exact h.vx g hg
      · intro g hg
        simp only [Function.update_apply]
        split
        · next e => subst e; exact h.vy g hg
        · exact h.vy g hg
      · intro g hg
        simp only [Function.update_apply]
        split
        · next e => subst e; exact h.cache g hg
        · exact h.cache g hg
    · exact h
  | setVy f a =>
    simp only [FSt.step]
    split
    · next hh =>
      constructor
      · intro g hg
        simp only [Function.update_apply]
        split
        · next e => subst e; exact h.vx g hg
        · exact h.vx g hg
      · intro g hg
        simp only [Function.update_apply]
        split
        · exact hh.2
        · exact h.vy g hg
      · intro g hg
        simp only [Function.update_apply]
        split
        · next e => subst e; exact h.cache g hg
        · exact h.cache g hg
    · exact h
  | lookup f x y =>
    simp only [FSt.step]
    split
    · next hh =>
      constructor
      · intro g hg
        obtain ⟨-, k2, -, -, k5, k6, -⟩ := lookup_fld (copies := copies) s f x y g
        rw [k2, k5]; exact h.vx g (k6 ▸ hg)
      · intro g hg
        obtain ⟨-, -, k3, -, k5, k6, -⟩ := lookup_fld (copies := copies) s f x y g
        rw [k3, k5]; exact h.vy g (k6 ▸ hg)
      · intro g hg
        obtain ⟨-, -, -, -, -, k6, k7⟩ := lookup_fld (copies := copies) s f x y g
        rw [k6] at hg
        rw [k7 (by omega)]; exact h.cache g hg
    · exact h

/-- What one operation leaves alone. -/
theorem step_frame {s : FSt} (h : s.WF) (op : FOp) (f : ℕ) (hf : f < s.nf) :
    f < (s.step copies op).nf ∧ s.next ≤ (s.step copies op).next ∧ ((s.step copies op).fld f).mesh = (s.fld f).mesh ∧
      (¬op.Assigns f → ((s.step copies op).fld f).vx = (s.fld f).vx ∧ ((s.step copies op).fld f).vy = (s.fld f).vy) ∧
      (∀ a < s.next, ¬op.Changes a → (s.step copies op).arr a = s.arr a) ∧
      (¬op.LooksUp f ∨ (s.fld f).cache ≠ none → ((s.step copies op).fld f).cache = (s.fld f).cache) := by
  have hb : ∀ g : Field, f < (s.newBoth g).nf ∧ s.next ≤ (s.newBoth g).next ∧ (s.newBoth g).fld f = s.fld f ∧
      ∀ a < s.next, (s.newBoth g).arr a = s.arr a := by
    intro g
    simp only [FSt.newBoth, FSt.newFld, FSt.newArr]
    refine ⟨by omega, by omega, Function.update_of_ne (by omega) _ _, fun a ha => ?_⟩
    rw [Function.update_of_ne (by omega), Function.update_of_ne (by omega)]
  cases op with
  | array v =>
    refine ⟨hf, Nat.le_succ _, rfl, fun _ => ⟨rfl, rfl⟩, fun a ha _ => ?_, fun _ => rfl⟩
    exact Function.update_of_ne (by omega) _ _
  | zeros m =>
    obtain ⟨k1, k2, k3, k4⟩ := hb m.zeros
    exact ⟨k1, k2, congrArg _ k3, fun _ => ⟨congrArg _ k3, congrArg _ k3⟩, fun a ha _ => k4 a ha, fun _ => congrArg _ k3⟩
  | field m ax ay =>
    simp only [FSt.step]
    split
    · have e : (s.newFld m ax ay).fld f = s.fld f := Function.update_of_ne (by omega) _ _
      exact ⟨Nat.lt_succ_of_lt hf, le_rfl, congrArg _ e, fun _ => ⟨congrArg _ e, congrArg _ e⟩, fun _ _ _ => rfl, fun _ => congrArg _ e⟩
    · exact ⟨hf, le_rfl, rfl, fun _ => ⟨rfl, rfl⟩, fun _ _ _ => rfl, fun _ => rfl⟩
  | derive g d =>
    simp only [FSt.step]
    split
    · split
      · next u _ =>
        obtain ⟨k1, k2, k3, k4⟩ := hb u
        exact ⟨k1, k2, congrArg _ k3, fun _ => ⟨congrArg _ k3, congrArg _ k3⟩, fun a ha _ => k4 a ha, fun _ => congrArg _ k3⟩
      · exact ⟨hf, le_rfl, rfl, fun _ => ⟨rfl, rfl⟩, fun _ _ _ => rfl, fun _ => rfl⟩
    · exact ⟨hf, le_rfl, rfl, fun _ => ⟨rfl, rfl⟩, fun _ _ _ => rfl, fun _ => rfl⟩
  | poke a i j v =>
    simp only [FSt.step]
    split
    · refine ⟨hf, le_rfl, rfl, fun _ => ⟨rfl, rfl⟩, fun b hb hc => ?_, fun _ => rfl⟩
      exact Function.update_of_ne (fun e => hc e.symm) _ _
    · exact ⟨hf, le_rfl, rfl, fun _ => ⟨rfl, rfl⟩, fun _ _ _ => rfl, fun _ => rfl⟩
  | setVx g a =>
    simp only [FSt.step]
    split
    · simp only [Function.update_apply]
      by_cases e : f = g
      · subst e
        simp only [if_true]
        exact ⟨hf, le_rfl, trivial, fun h => absurd rfl h, fun _ _ _ => trivial, fun _ => trivial⟩
      · simp only [if_neg e]
        exact ⟨hf, le_rfl, trivial, fun _ => ⟨trivial, trivial⟩, fun _ _ _ => trivial, fun _ => trivial⟩
    · exact ⟨hf, le_rfl, rfl, fun _ => ⟨rfl, rfl⟩, fun _ _ _ => rfl, fun _ => rfl⟩
  | setVy g a =>
    simp only [FSt.step]
    split
    · simp only [Function.update_apply]
      by_cases e : f = g
      · subst e
        simp only [if_true]
        exact ⟨hf, le_rfl, trivial, fun h => absurd rfl h, fun _ _ _ => trivial, fun _ => trivial⟩
      · simp only [if_neg e]
        exact ⟨hf, le_rfl, trivial, fun _ => ⟨trivial, trivial⟩, fun _ _ _ => trivial, fun _ => trivial⟩
    · exact ⟨hf, le_rfl, rfl, fun _ => ⟨rfl, rfl⟩, fun _ _ _ => rfl, fun _ => rfl⟩
  | lookup g x y =>
    simp only [FSt.step]
    split
    · obtain ⟨k1, k2, k3, k4, k5, k6, k7⟩ := lookup_fld (copies := copies) s g x y f
      refine ⟨k6 ▸ hf, k5.ge, k1, fun _ => ⟨k2, k3⟩, fun a _ _ => congrFun k4 a, fun hh => ?_⟩
      by_cases e : f = g
      · subst e
        rcases hh with hh | hh
        · exact absurd rfl hh
        · unfold FSt.lookup
          cases hc : (s.fld f).cache with
          | none => exact absurd hc hh
          | some c => simp [hc]
      · exact k7 e
    · exact ⟨hf, le_rfl, rfl, fun _ => ⟨rfl, rfl⟩, fun _ _ _ => rfl, fun _ => rfl⟩

theorem empty_wf : FSt.empty.WF := ⟨fun f hf => absurd hf (Nat.not_lt_zero f), fun f hf => absurd hf (Nat.not_lt_zero f), fun _ _ => rfl⟩

theorem run_wf {s : FSt} (h : s.WF) (ops : List FOp) : (s.run copies ops).WF := by
  induction ops generalizing s with
  | nil => exact h
  | cons op ops ih => exact ih (step_wf h op)

theorem FSt.Reachable.wf {s : FSt} (h : s.Reachable copies) : s.WF := by
  obtain ⟨ops, rfl⟩ := h; exact run_wf empty_wf ops

theorem run_one (s : FSt) (op : FOp) : s.run copies [op] = s.step copies op := rfl

theorem run_append (s : FSt) (a b : List FOp) : s.run copies (a ++ b) = (s.run copies a).run copies b := List.foldl_append

/-- A lookup without interpolators reads the vectors as they are. -/
theorem lookup_none {s : FSt} {f : ℕ} (h : (s.fld f).cache = none) (x y : ℝ) :
    (s.lookup copies f x y).2 = (s.vectors f).lookup x y := by
  by_cases hm : (s.fld f).mesh.n < 2 ∨ (s.fld f).mesh.xh ≤ (s.fld f).mesh.xl ∨ (s.fld f).mesh.yh ≤ (s.fld f).mesh.yl
  · have e : (s.vectors f).lookup x y = .error .value := by unfold Field.lookup; exact if_pos hm
    rw [e]
    simp only [FSt.lookup, h, if_pos hm]
  · have e : (s.vectors f).lookup x y = .ok ⟨interp (s.fld f).mesh.cx (s.fld f).mesh.cy (s.fld f).mesh.n (s.arr (s.fld f).vx) x y,
        interp (s.fld f).mesh.cx (s.fld f).mesh.cy (s.fld f).mesh.n (s.arr (s.fld f).vy) x y⟩ := by
      unfold Field.lookup; exact if_neg hm
    rw [e]
    simp only [FSt.lookup, h, if_neg hm]
    unfold FSt.mkInterp
    cases copies <;> rfl

theorem lookup_some {s : FSt} {f : ℕ} {ix iy : Interp} (h : (s.fld f).cache = some (ix, iy)) (hm : (s.fld f).mesh.Fat) (x y : ℝ) :
    (s.lookup copies f x y).2 = Field.lookup ⟨(s.fld f).mesh, s.vals ix, s.vals iy⟩ x y := by
  rw [lookup_ok (f := ⟨(s.fld f).mesh, s.vals ix, s.vals iy⟩) hm]
  unfold FSt.lookup
  simp only [h]

theorem step_lookup {s : FSt} {f : ℕ} (hf : f < s.nf) (hm : (s.fld f).mesh.Fat) (h : (s.fld f).cache = none) (x y : ℝ) :
    ((s.step copies (.lookup f x y)).fld f).cache = some (s.mkInterp copies (s.fld f).vx, s.mkInterp copies (s.fld f).vy) := by
  have hn : ¬((s.fld f).mesh.n < 2 ∨ (s.fld f).mesh.xh ≤ (s.fld f).mesh.xl ∨ (s.fld f).mesh.yh ≤ (s.fld f).mesh.yl) := by
    have h1 := hm.n; have h2 := hm.x; have h3 := hm.y
    push Not
    exact ⟨h1, h2, h3⟩
  simp only [FSt.step, if_pos hf, FSt.lookup, h, if_neg hn, Function.update_self]

/-- Over a whole program. -/
theorem run_frame {s : FSt} (h : s.WF) (f : ℕ) (hf : f < s.nf) (ops : List FOp) :
    f < (s.run copies ops).nf ∧ s.next ≤ (s.run copies ops).next ∧ ((s.run copies ops).fld f).mesh = (s.fld f).mesh ∧
      ((∀ op ∈ ops, ¬op.Assigns f) → ((s.run copies ops).fld f).vx = (s.fld f).vx ∧ ((s.run copies ops).fld f).vy = (s.fld f).vy) ∧
      (∀ a < s.next, (∀ op ∈ ops, ¬op.Changes a) → (s.run copies ops).arr a = s.arr a) ∧
      ((s.fld f).cache ≠ none → ((s.run copies ops).fld f).cache = (s.fld f).cache) := by
  induction ops generalizing s with
  | nil => exact ⟨hf, le_rfl, rfl, fun _ => ⟨rfl, rfl⟩, fun _ _ _ => rfl, fun _ => rfl⟩
  | cons op ops ih =>
    obtain ⟨k1, k2, k3, k4, k5, k6⟩ := step_frame (copies := copies) h op f hf
    obtain ⟨l1, l2, l3, l4, l5, l6⟩ := ih (step_wf (copies := copies) h op) k1
    refine ⟨l1, k2.trans l2, l3.trans k3, fun ha => ?_, fun a ha hc => ?_, fun hc => ?_⟩
    · have k := k4 (ha op (List.mem_cons_self ..))
      have l := l4 fun o ho => ha o (List.mem_cons_of_mem _ ho)
      exact ⟨l.1.trans k.1, l.2.trans k.2⟩
    · exact (l5 a (by omega) fun o ho => hc o (List.mem_cons_of_mem _ ho)).trans (k5 a ha (hc op (List.mem_cons_self ..)))
    · have e := k6 (.inr hc)
      exact (l6 (by rw [e]; exact hc)).trans e

/-- A field in which nothing was looked up has no interpolators. -/
theorem cache_none (f : ℕ) (ops : List FOp) (h : ∀ op ∈ ops, ¬op.LooksUp f) : ((FSt.empty.run copies ops).fld f).cache = none := by
  induction ops using List.reverseRecOn with
  | nil => rfl
  | append_singleton ops op ih =>
    have ih := ih fun o ho => h o (List.mem_append_left _ ho)
    have hw := run_wf (copies := copies) empty_wf ops
    have ho := h op (by simp)
    rw [run_append]
    by_cases hf : f < (FSt.empty.run copies ops).nf
    · exact ((step_frame (copies := copies) hw op f hf).2.2.2.2.2 (.inl ho)).trans ih
    · generalize FSt.empty.run copies ops = s at ih hw hf
      have hb : ∀ g : Field, ((s.newBoth g).fld f).cache = none := by
        intro g
        simp only [FSt.newBoth, FSt.newFld, FSt.newArr, Function.update_apply]
        split
        · rfl
        · exact ih
      show ((s.step copies op).fld f).cache = none
      cases op with
      | array v => exact ih
      | zeros m => exact hb _
      | field m ax ay =>
        simp only [FSt.step]
        split
        · simp only [FSt.newFld, Function.update_apply]
          split
          · rfl
          · exact ih
        · exact ih
      | derive g d =>
        simp only [FSt.step]
        split
        · split
          · exact hb _
          · exact ih
        · exact ih
      | poke a i j v =>
        simp only [FSt.step]
        split <;> exact ih
      | setVx g a =>
        simp only [FSt.step]
        split
        · simp only [Function.update_apply]
          split
          · next e => subst e; exact ih
          · exact ih
        · exact ih
      | setVy g a =>
        simp only [FSt.step]
        split
        · simp only [Function.update_apply]
          split
          · next e => subst e; exact ih
          · exact ih
        · exact ih
      | lookup g x y =>
        simp only [FSt.step]
        split
        · exact ((lookup_fld (copies := copies) s g x y f).2.2.2.2.2.2 fun e => ho e.symm).trans ih
        · exact ih

/-! ### C80 -/

/-- C80: looking up changes no vectors, of this field or of others. -/
theorem C80_lookup_pure (s : FSt) (f : ℕ) (x y : ℝ) (g : ℕ) :
    (s.lookup copies f x y).1.vectors g = s.vectors g ∧ (s.lookup copies f x y).1.arr = s.arr := by
  obtain ⟨k1, k2, k3, k4, -⟩ := lookup_fld (copies := copies) s f x y g
  exact ⟨by simp only [FSt.vectors, k1, k2, k3, k4], k4⟩

/-- C80: in every history in which the attributes of a field are not assigned to after a lookup in it, and, if scipy copies the values,
its arrays are not changed after a lookup either: a lookup interpolates the vectors that the field has now. -/
theorem C80_current (f : ℕ) (ops : List FOp)
    (ha : ∀ a op b, ops = a ++ op :: b → op.Assigns f → ∀ o ∈ a, ¬o.LooksUp f)
    (hc : copies = true → ∀ a op b, ops = a ++ op :: b →
      op.Changes ((FSt.empty.run copies a).fld f).vx ∨ op.Changes ((FSt.empty.run copies a).fld f).vy → ∀ o ∈ a, ¬o.LooksUp f)
    (hf : f < (FSt.empty.run copies ops).nf) (x y : ℝ) :
    ((FSt.empty.run copies ops).lookup copies f x y).2 = ((FSt.empty.run copies ops).vectors f).lookup x y := by
  have hw := run_wf (copies := copies) empty_wf ops
  have key : ∀ ops : List FOp, (∀ a op b, ops = a ++ op :: b → op.Assigns f → ∀ o ∈ a, ¬o.LooksUp f) →
      (copies = true → ∀ a op b, ops = a ++ op :: b →
        op.Changes ((FSt.empty.run copies a).fld f).vx ∨ op.Changes ((FSt.empty.run copies a).fld f).vy → ∀ o ∈ a, ¬o.LooksUp f) →
      let s := FSt.empty.run copies ops
      (s.fld f).cache = none ∨ (f < s.nf ∧ (s.fld f).mesh.Fat ∧ (s.fld f).cache = some (s.mkInterp copies (s.fld f).vx, s.mkInterp copies (s.fld f).vy)) := by
    intro ops
    induction ops using List.reverseRecOn with
    | nil => intro _ _; exact .inl rfl
    | append_singleton ops op ih =>
      intro ha hc
      have ih := ih (fun a o b e => ha a o (b ++ [op]) (by rw [e]; simp)) (fun h a o b e => hc h a o (b ++ [op]) (by rw [e]; simp))
      have hA := ha ops op [] rfl
      have hC := fun h => hc h ops op [] rfl
      have hw := run_wf (copies := copies) empty_wf ops
      by_cases hl : ∀ o ∈ ops ++ [op], ¬o.LooksUp f
      · exact .inl (cache_none f _ hl)
      rw [run_append]
      rcases ih with ih | ⟨hf, hm, ih⟩
      · by_cases hf : f < (FSt.empty.run copies ops).nf
        · by_cases ho : op.LooksUp f
          · cases op with
            | lookup g x y =>
              obtain rfl : g = f := ho
              by_cases hm : ((FSt.empty.run copies ops).fld g).mesh.Fat
              · refine .inr ?_
                obtain ⟨k1, k2, k3, k4, k5, -⟩ := step_frame (copies := copies) hw (.lookup g x y) g hf
                have k4 := k4 (fun h => h)
                refine ⟨k1, k3.symm ▸ hm, (step_lookup hf hm ih x y).trans ?_⟩
                rw [run_one, k4.1, k4.2]
                unfold FSt.mkInterp
                rw [k5 _ (hw.vx g hf) (fun h => h), k5 _ (hw.vy g hf) (fun h => h)]
              · refine .inl ?_
                rw [run_one]
                have : ((FSt.empty.run copies ops).fld g).mesh.n < 2 ∨ ((FSt.empty.run copies ops).fld g).mesh.xh ≤ ((FSt.empty.run copies ops).fld g).mesh.xl ∨
                    ((FSt.empty.run copies ops).fld g).mesh.yh ≤ ((FSt.empty.run copies ops).fld g).mesh.yl := by
                  by_contra hn
                  push Not at hn
                  exact hm ⟨hn.1, hn.2.1, hn.2.2⟩
                simp only [FSt.step, if_pos hf, FSt.lookup, ih, if_pos this]
            | _ => exact absurd ho (fun h => h)
          · exact .inl (((step_frame (copies := copies) hw op f hf).2.2.2.2.2 (.inl ho)).trans ih)
        · refine .inl ?_
          have hs : (FSt.step copies (FSt.empty.run copies ops) op).WF := step_wf hw op
          by_cases hn : (FSt.step copies (FSt.empty.run copies ops) op).nf ≤ f
          · exact hs.cache f hn
          · -- a new field
            generalize FSt.empty.run copies ops = s at ih hw hf hs hn
            have hb : ∀ g : Field, ((s.newBoth g).fld f).cache = none := by
              intro g
              simp only [FSt.newBoth, FSt.newFld, FSt.newArr, Function.update_apply]
              split
              · rfl
              · exact ih
            show ((s.step copies op).fld f).cache = none
            cases op with
            | array v => exact ih
            | zeros m => exact hb _
            | field m ax ay =>
              simp only [FSt.step]
              split
              · simp only [FSt.newFld, Function.update_apply]
                split
                · rfl
                · exact ih
              · exact ih
            | derive g d =>
              simp only [FSt.step]
              split
              · split
                · exact hb _
                · exact ih
              · exact ih
            | poke a i j v => exact absurd hn (by simp only [FSt.step]; split <;> simpa using hf)
            | setVx g a => exact absurd hn (by simp only [FSt.step]; split <;> simpa using hf)
            | setVy g a => exact absurd hn (by simp only [FSt.step]; split <;> simpa using hf)
            | lookup g x y =>
              refine absurd hn ?_
              simp only [FSt.step]
              split
              · rw [(lookup_fld (copies := copies) s g x y f).2.2.2.2.2.1]; simpa using hf
              · simpa using hf
      · have hlo : ¬∀ o ∈ ops, ¬o.LooksUp f := fun h => by
          rw [cache_none f ops h] at ih; exact absurd ih (by simp)
        have hA : ¬op.Assigns f := fun h => hlo (hA h)
        obtain ⟨k1, k2, k3, k4, k5, k6⟩ := step_frame (copies := copies) hw op f hf
        have k4 := k4 hA
        refine .inr ⟨k1, k3.symm ▸ hm, (k6 (.inr (by rw [ih]; simp))).trans (ih.trans ?_)⟩
        rw [run_one, k4.1, k4.2]
        unfold FSt.mkInterp
        cases hcp : copies with
        | false => rfl
        | true =>
          subst hcp
          have hC := hC rfl
          simp only [if_true]
          rw [k5 _ (hw.vx f hf) fun h => hlo (hC (.inl h)), k5 _ (hw.vy f hf) fun h => hlo (hC (.inr h))]
  rcases key ops ha hc with h | ⟨-, hm, h⟩
  · exact lookup_none h x y
  · rw [lookup_some h hm]
    congr 1
    unfold FSt.mkInterp FSt.vectors
    cases copies <;> rfl

/-- C80: in general, lookups read the arrays that the field had at the first lookup: what is in them now, if scipy keeps the arrays. -/
theorem C80_first (a b : List FOp) (f : ℕ) (x0 y0 x y : ℝ) (h0 : ∀ o ∈ a, ¬o.LooksUp f)
    (hf : f < (FSt.empty.run false a).nf) (hm : ((FSt.empty.run false a).fld f).mesh.Fat) :
    let s1 := FSt.empty.run false a
    let s2 := FSt.empty.run false (a ++ .lookup f x0 y0 :: b)
    (s2.lookup false f x y).2 = Field.lookup ⟨(s1.fld f).mesh, s2.arr (s1.fld f).vx, s2.arr (s1.fld f).vy⟩ x y := by
  intro s1 s2
  have hw := run_wf (copies := false) empty_wf a
  have e : s2 = (s1.step false (.lookup f x0 y0)).run false b := run_append _ _ _
  have hc := step_lookup (copies := false) hf hm (cache_none f a h0) x0 y0
  obtain ⟨k1, -, k3, -⟩ := step_frame (copies := false) hw (.lookup f x0 y0) f hf
  obtain ⟨-, -, l3, -, -, l6⟩ := run_frame (copies := false) (step_wf hw (.lookup f x0 y0)) f k1 b
  have hc2 := (l6 (by rw [hc]; simp)).trans hc
  rw [← e] at hc2 l3
  have l3 : (s2.fld f).mesh = (s1.fld f).mesh := l3.trans k3
  rw [lookup_some hc2 (l3 ▸ hm), l3]
  rfl

/-- C80: or what was in them at that time, if it copies the values. -/
theorem C80_first_copies (a b : List FOp) (f : ℕ) (x0 y0 x y : ℝ) (h0 : ∀ o ∈ a, ¬o.LooksUp f)
    (hf : f < (FSt.empty.run true a).nf) (hm : ((FSt.empty.run true a).fld f).mesh.Fat) :
    ((FSt.empty.run true (a ++ .lookup f x0 y0 :: b)).lookup true f x y).2 = ((FSt.empty.run true a).vectors f).lookup x y := by
  have hw := run_wf (copies := true) empty_wf a
  rw [run_append, FSt.run, List.foldl_cons]
  have hc := step_lookup (copies := true) hf hm (cache_none f a h0) x0 y0
  obtain ⟨k1, -, k3, -⟩ := step_frame (copies := true) hw (.lookup f x0 y0) f hf
  obtain ⟨-, -, l3, -, -, l6⟩ := run_frame (copies := true) (step_wf hw (.lookup f x0 y0)) f k1 b
  have hc2 := (l6 (by rw [hc]; simp)).trans hc
  have l3 := l3.trans k3
  rw [show List.foldl (FSt.step true) ((FSt.empty.run true a).step true (.lookup f x0 y0)) b = ((FSt.empty.run true a).step true (.lookup f x0 y0)).run true b from rfl,
    lookup_some hc2 (l3 ▸ hm), l3]
  rfl

/-- C80: the vectors of a field change only when its attributes are assigned to or one of its two arrays is changed. -/
theorem C80_frame (s : FSt) (hs : s.Reachable copies) (f : ℕ) (hf : f < s.nf) (ops : List FOp)
    (h : ∀ op ∈ ops, ¬op.Assigns f ∧ ¬op.Changes (s.fld f).vx ∧ ¬op.Changes (s.fld f).vy) :
    (s.run copies ops).vectors f = s.vectors f := by
  obtain ⟨-, -, k3, k4, k5, -⟩ := run_frame (copies := copies) hs.wf f hf ops
  have k4 := k4 fun o ho => (h o ho).1
  simp only [FSt.vectors, k3, k4.1, k4.2, k5 _ (hs.wf.vx f hf) fun o ho => (h o ho).2.1, k5 _ (hs.wf.vy f hf) fun o ho => (h o ho).2.2]

/-- C80: a copy has the vectors that the field has now, in arrays of its own; nothing else changes. -/
theorem C80_copy (s : FSt) (hs : s.Reachable copies) (f : ℕ) (hf : f < s.nf) :
    let t := s.step copies (.derive f .copy)
    t.nf = s.nf + 1 ∧ t.vectors s.nf = s.vectors f ∧ (∀ g < s.nf, t.vectors g = s.vectors g ∧ t.fld g = s.fld g) ∧
      (∀ x y, (t.lookup copies s.nf x y).2 = (s.vectors f).lookup x y) ∧
      (t.fld s.nf).vx ≠ (t.fld s.nf).vy ∧
      ∀ g < s.nf, ∀ a ∈ [(t.fld s.nf).vx, (t.fld s.nf).vy], a ≠ (s.fld g).vx ∧ a ≠ (s.fld g).vy := by
  intro t
  have e : t = s.newBoth (s.vectors f) := by simp only [t, FSt.step, if_pos hf, Derive.apply]
  have hw := hs.wf
  have e1 : t.fld s.nf = ⟨(s.fld f).mesh, s.next, s.next + 1, none⟩ := by
    rw [e]; simp only [FSt.newBoth, FSt.newFld, FSt.newArr, Function.update_self]; rfl
  have hv : t.vectors s.nf = s.vectors f := by
    simp only [FSt.vectors, e1]
    rw [e]
    simp only [FSt.newBoth, FSt.newFld, FSt.newArr, FSt.vectors, Function.update_self]
    congr 1
    rw [Function.update_of_ne (by omega), Function.update_self]
  refine ⟨by rw [e]; rfl, hv, fun g hg => ?_, fun x y => ?_, ?_, fun g hg a ha => ?_⟩
  · have e2 : t.fld g = s.fld g := by
      rw [e]; simp only [FSt.newBoth, FSt.newFld, FSt.newArr]; exact Function.update_of_ne (by omega) _ _
    refine ⟨?_, e2⟩
    have e3 : ∀ a < s.next, t.arr a = s.arr a := by
      intro a ha
      rw [e]; simp only [FSt.newBoth, FSt.newFld, FSt.newArr]
      rw [Function.update_of_ne (by omega), Function.update_of_ne (by omega)]
    simp only [FSt.vectors, e2, e3 _ (hw.vx g hg), e3 _ (hw.vy g hg)]
  · rw [lookup_none (by rw [e1]), hv]
  · rw [e1]; simp
  · rw [e1] at ha
    have h1 := hw.vx g hg
    have h2 := hw.vy g hg
    simp only [List.mem_cons, List.not_mem_nil, or_false] at ha
    constructor <;> rcases ha with rfl | rfl <;> omega

/-- C80: so the copy and the field are independent: what is done to one and its arrays does not show in the other. -/
theorem C80_copy_independent (s : FSt) (hs : s.Reachable copies) (f : ℕ) (hf : f < s.nf) (ops : List FOp) :
    let t := s.step copies (.derive f .copy)
    ((∀ op ∈ ops, ¬op.Assigns s.nf ∧ ¬op.Changes (t.fld s.nf).vx ∧ ¬op.Changes (t.fld s.nf).vy) →
      (t.run copies ops).vectors s.nf = s.vectors f) ∧
    ((∀ op ∈ ops, ¬op.Assigns f ∧ ∀ a, op.Changes a → a = (t.fld s.nf).vx ∨ a = (t.fld s.nf).vy) →
      (t.run copies ops).vectors f = s.vectors f) := by
  intro t
  obtain ⟨k1, k2, k3, -, -, k6⟩ := C80_copy s hs f hf
  have ht : t.Reachable copies := by
    obtain ⟨o, rfl⟩ := hs
    refine ⟨o ++ [.derive f .copy], ?_⟩
    rw [run_append, run_one]
  refine ⟨fun h => ?_, fun h => ?_⟩
  · rw [C80_frame t ht s.nf (by rw [k1]; omega) ops h, k2]
  · rw [C80_frame t ht f (by rw [k1]; omega) ops fun op ho => ⟨(h op ho).1, fun hc => ?_, fun hc => ?_⟩, (k3 f hf).1]
    · rw [(k3 f hf).2] at hc
      rcases (h op ho).2 _ hc with e | e
      · exact (k6 f hf _ (by simp [t])).1 e.symm
      · exact (k6 f hf _ (by simp [t])).1 e.symm
    · rw [(k3 f hf).2] at hc
      rcases (h op ho).2 _ hc with e | e
      · exact (k6 f hf _ (by simp [t])).2 e.symm
      · exact (k6 f hf _ (by simp [t])).2 e.symm

/-- A field of zeros, a lookup, then `f.vx` is replaced by ones. -/
def staleOps : List FOp := [.zeros ⟨2, 0, 0, 1, 1⟩, .lookup 0 0 0, .array fun _ _ => 1, .setVx 0 2]

theorem not_one_le : ¬(1 : ℝ) ≤ 0 := by norm_num

theorem stale_vectors : (FSt.empty.run copies staleOps).vectors 0 = ⟨⟨2, 0, 0, 1, 1⟩, fun _ _ => 1, fun _ _ => 0⟩ ∧
    0 < (FSt.empty.run copies staleOps).nf ∧ (FSt.empty.run copies staleOps).Reachable copies := by
  refine ⟨?_, ?_, _, rfl⟩
  · cases copies <;>
      simp [staleOps, FSt.run, FSt.step, FSt.empty, FSt.newBoth, FSt.newFld, FSt.newArr, FSt.lookup, FSt.mkInterp, Mesh.zeros, not_one_le, FSt.vectors,
        Function.update_apply]
  · cases copies <;>
      simp [staleOps, FSt.run, FSt.step, FSt.empty, FSt.newBoth, FSt.newFld, FSt.newArr, FSt.lookup, FSt.mkInterp, Mesh.zeros, not_one_le]

theorem fat_unit : (⟨2, 0, 0, 1, 1⟩ : Mesh).Fat := ⟨le_rfl, zero_lt_one, zero_lt_one⟩

theorem lookup_const (c d : ℝ) (x y : ℝ) : Field.lookup ⟨⟨2, 0, 0, 1, 1⟩, fun _ _ => c, fun _ _ => d⟩ x y = .ok ⟨c, d⟩ := by
  rw [lookup_ok (f := ⟨⟨2, 0, 0, 1, 1⟩, fun _ _ => c, fun _ _ => d⟩) fat_unit]
  congr 1
  unfold interp
  ext <;> ring

/-- C80: after a lookup, assigning new vectors to a field is ignored: the field shows ones but looks up zeros, at every point. -/
theorem C80_stale_counterexample (x y : ℝ) :
    ((FSt.empty.run copies staleOps).vectors 0).lookup x y = .ok ⟨1, 0⟩ ∧
      ((FSt.empty.run copies staleOps).lookup copies 0 x y).2 = .ok ⟨0, 0⟩ := by
  refine ⟨by rw [stale_vectors.1, lookup_const], ?_⟩
  have h : ((FSt.empty.run copies [.zeros ⟨2, 0, 0, 1, 1⟩]).fld 0).mesh = ⟨2, 0, 0, 1, 1⟩ := by
    cases copies <;> simp [FSt.run, FSt.step, FSt.newBoth, FSt.newFld, FSt.newArr, FSt.empty, Mesh.zeros]
  cases copies with
  | true =>
    have := C80_first_copies [.zeros ⟨2, 0, 0, 1, 1⟩] [.array fun _ _ => 1, .setVx 0 2] 0 0 0 x y (by simp [FOp.LooksUp])
      (by simp [FSt.run, FSt.step, FSt.newBoth, FSt.newFld, FSt.newArr, FSt.empty]) (h ▸ fat_unit)
    refine this.trans ?_
    have e : (FSt.empty.run true [.zeros ⟨2, 0, 0, 1, 1⟩]).vectors 0 = ⟨⟨2, 0, 0, 1, 1⟩, fun _ _ => 0, fun _ _ => 0⟩ := by
      simp [FSt.run, FSt.step, FSt.newBoth, FSt.newFld, FSt.newArr, FSt.empty, FSt.vectors, Mesh.zeros]
    rw [e, lookup_const]
  | false =>
    have := C80_first [.zeros ⟨2, 0, 0, 1, 1⟩] [.array fun _ _ => 1, .setVx 0 2] 0 0 0 x y (by simp [FOp.LooksUp])
      (by simp [FSt.run, FSt.step, FSt.newBoth, FSt.newFld, FSt.newArr, FSt.empty]) (h ▸ fat_unit)
    refine this.trans ?_
    rw [h]
    have e : (Field.mk ⟨2, 0, 0, 1, 1⟩ ((FSt.empty.run false staleOps).arr ((FSt.empty.run false [.zeros ⟨2, 0, 0, 1, 1⟩]).fld 0).vx)
        ((FSt.empty.run false staleOps).arr ((FSt.empty.run false [.zeros ⟨2, 0, 0, 1, 1⟩]).fld 0).vy)) =
        ⟨⟨2, 0, 0, 1, 1⟩, fun _ _ => 0, fun _ _ => 0⟩ := by
      simp [staleOps, FSt.run, FSt.step, FSt.newBoth, FSt.newFld, FSt.newArr, FSt.empty, FSt.lookup, FSt.mkInterp, Mesh.zeros, not_one_le, Function.update_apply]
    exact (congrArg (fun g : Field => g.lookup x y) e).trans (lookup_const 0 0 x y)

/-! ### Equality -/

/-- `==` of meshes is: same box, same steps. -/
theorem mesh_eqv (m m' : Mesh) : m.eqv m' = true ↔ m = m' := by
  constructor
  · intro h
    simp only [Mesh.eqv, Bool.and_eq_true, decide_eq_true_eq] at h
    obtain ⟨⟨⟨⟨⟨h1, h2, h3, h4⟩, h5⟩, -⟩, -⟩, -⟩ := h
    cases m; cases m'; simp_all
  · rintro rfl
    simp [Mesh.eqv]

/-- C80: two fields are equal exactly if they have the same mesh and the same vectors at its nodes. -/
theorem C80_eq_iff (f g : Field) : f.eqv g = true ↔
    f.mesh = g.mesh ∧ ∀ i < f.mesh.n, ∀ j < f.mesh.n, f.vx i j = g.vx i j ∧ f.vy i j = g.vy i j := by
  simp only [Field.eqv, Bool.and_eq_true, decide_eq_true_eq, mesh_eqv]
  exact ⟨fun h => ⟨h.1.1, fun i hi j hj => ⟨h.1.2 i hi j hj, h.2 i hi j hj⟩⟩,
    fun h => ⟨⟨h.1, fun i hi j hj => (h.2 i hi j hj).1⟩, fun i hi j hj => (h.2 i hi j hj).2⟩⟩

/-- C80: `==` of fields is an equivalence. -/
theorem C80_eq_equivalence : Equivalence fun f g : Field => f.eqv g = true := by
  refine ⟨fun f => (C80_eq_iff f f).2 ⟨rfl, fun _ _ _ _ => ⟨rfl, rfl⟩⟩, fun {f g} h => ?_, fun {f g k} h h' => ?_⟩
  · rw [C80_eq_iff] at h ⊢
    exact ⟨h.1.symm, fun i hi j hj => ⟨(h.2 i (h.1 ▸ hi) j (h.1 ▸ hj)).1.symm, (h.2 i (h.1 ▸ hi) j (h.1 ▸ hj)).2.symm⟩⟩
  · rw [C80_eq_iff] at h h' ⊢
    refine ⟨h.1.trans h'.1, fun i hi j hj => ?_⟩
    have a := h.2 i hi j hj
    have b := h'.2 i (h.1 ▸ hi) j (h.1 ▸ hj)
    exact ⟨a.1.trans b.1, a.2.trans b.2⟩

/-- C80: equal fields look up the same vectors everywhere, the first time. -/
theorem C80_eq_lookup (f g : Field) (h : f.eqv g = true) (x y : ℝ) : f.lookup x y = g.lookup x y := by
  obtain ⟨hm, hv⟩ := (C80_eq_iff f g).1 h
  by_cases hb : f.mesh.n < 2 ∨ f.mesh.xh ≤ f.mesh.xl ∨ f.mesh.yh ≤ f.mesh.yl
  · unfold Field.lookup
    rw [if_pos hb, if_pos (hm ▸ hb)]
  · have hb' := hb
    push Not at hb'
    unfold Field.lookup
    rw [if_neg hb, if_neg (hm ▸ hb), ← hm]
    have hi : cell f.mesh.cx f.mesh.n x + 1 < f.mesh.n := (cell_spec hb'.1 hb'.2.1 x).1
    have hj : cell f.mesh.cy f.mesh.n y + 1 < f.mesh.n := (cell_spec hb'.1 hb'.2.2 y).1
    have a := hv (cell f.mesh.cx f.mesh.n x) (by omega) (cell f.mesh.cy f.mesh.n y) (by omega)
    have b := hv (cell f.mesh.cx f.mesh.n x) (by omega) _ hj
    have c := hv _ hi (cell f.mesh.cy f.mesh.n y) (by omega)
    have d := hv _ hi _ hj
    unfold interp
    simp only [a.1, a.2, b.1, b.2, c.1, c.2, d.1, d.2]

/-- C80: not always: `==` does not see the interpolators. A copy of the field of `C80_stale_counterexample` is equal to it and looks up
other vectors. -/
theorem C80_eq_counterexample (x y : ℝ) :
    let t := (FSt.empty.run copies staleOps).step copies (.derive 0 .copy)
    (t.vectors 0).eqv (t.vectors 1) = true ∧ (t.lookup copies 0 x y).2 = .ok ⟨0, 0⟩ ∧ (t.lookup copies 1 x y).2 = .ok ⟨1, 0⟩ := by
  intro t
  obtain ⟨h1, h2, h3⟩ := stale_vectors (copies := copies)
  have hn : (FSt.empty.run copies staleOps).nf = 1 := by
    cases copies <;>
      simp [staleOps, FSt.run, FSt.step, FSt.empty, FSt.newBoth, FSt.newFld, FSt.newArr, FSt.lookup, FSt.mkInterp, Mesh.zeros, not_one_le]
  obtain ⟨k1, k2, k3, k4, -⟩ := C80_copy (copies := copies) _ h3 0 h2
  rw [hn] at k2 k4
  refine ⟨?_, ?_, ?_⟩
  · rw [k2, (k3 0 h2).1]
    exact C80_eq_equivalence.refl _
  · have e := C80_stale_counterexample (copies := copies) x y
    have : (t.lookup copies 0 x y).2 = ((FSt.empty.run copies staleOps).lookup copies 0 x y).2 := by
      have hc : (((FSt.empty.run copies staleOps).fld 0).cache) ≠ none := by
        cases copies <;>
          simp [staleOps, FSt.run, FSt.step, FSt.empty, FSt.newBoth, FSt.newFld, FSt.newArr, FSt.lookup, FSt.mkInterp, Mesh.zeros, not_one_le]
      have hfat : ((FSt.empty.run copies staleOps).fld 0).mesh.Fat := by
        have := congrArg Field.mesh h1
        exact (show ((FSt.empty.run copies staleOps).fld 0).mesh = _ from this) ▸ fat_unit
      have ef := (k3 0 h2).2
      cases hcc : ((FSt.empty.run copies staleOps).fld 0).cache with
      | none => exact absurd hcc hc
      | some c =>
        obtain ⟨ix, iy⟩ := c
        rw [lookup_some hcc hfat, lookup_some (s := t) (by rw [ef]; exact hcc) (by rw [ef]; exact hfat), ef]
        have ha : ∀ a < 3, t.arr a = (FSt.empty.run copies staleOps).arr a := by
          intro a ha
          have hnext : (FSt.empty.run copies staleOps).next = 3 := by
            cases copies <;>
              simp [staleOps, FSt.run, FSt.step, FSt.empty, FSt.newBoth, FSt.newFld, FSt.newArr, FSt.lookup, FSt.mkInterp, Mesh.zeros, not_one_le]
          exact (step_frame (copies := copies) h3.wf (.derive 0 .copy) 0 h2).2.2.2.2.1 a (by rw [hnext]; exact ha) (fun h => h)
        have hix : (ix = .ref 0 ∧ iy = .ref 1) ∨ ∃ u v, ix = .snap u ∧ iy = .snap v := by
          revert hcc
          cases copies <;>
            simp [staleOps, FSt.run, FSt.step, FSt.empty, FSt.newBoth, FSt.newFld, FSt.newArr, FSt.lookup, FSt.mkInterp, Mesh.zeros, not_one_le] <;>
            intro h1 h2 <;> simp [← h1, ← h2]
        rcases hix with ⟨rfl, rfl⟩ | ⟨u, v, rfl, rfl⟩
        · simp only [FSt.vals, ha 0 (by omega), ha 1 (by omega)]
        · rfl
    rw [this, e.2]
  · rw [k4, h1, lookup_const]

/-- C80: a random field of magnitude `m`: no component anywhere in the mesh, at nodes or between them, exceeds `m`. -/
theorem C80_uniform (m : Mesh) (hm : m.Fat) (u : ℕ → ℝ) (hu : ∀ k, 0 ≤ u k ∧ u k ≤ 1) (magnitude : ℝ) (h0 : 0 ≤ magnitude) (x y : ℝ)
    (hx1 : m.xl ≤ x) (hx2 : x ≤ m.xh) (hy1 : m.yl ≤ y) (hy2 : y ≤ m.yh) :
    ∃ v, (m.uniform u magnitude).lookup x y = .ok v ∧ |v.x| ≤ magnitude ∧ |v.y| ≤ magnitude := by
  have hr : ∀ k, -magnitude ≤ -magnitude + (magnitude - -magnitude) * u k ∧ -magnitude + (magnitude - -magnitude) * u k ≤ magnitude := by
    intro k
    obtain ⟨h1, h2⟩ := hu k
    constructor <;> nlinarith
  obtain ⟨i, j, s, t, hi, hj, s1, s2, t1, t2, -, -, hl⟩ := C56_bilinear (m.uniform u magnitude) hm x y hx1 hx2 hy1 hy2
  refine ⟨_, hl, ?_, ?_⟩
  all_goals
    rw [abs_le]
    apply blend_mem s1 s2 t1 t2
    all_goals
      simp only [Mesh.uniform]
      rw [if_pos]
      · exact hr _
      · constructor
        · first | exact hi | exact Nat.lt_of_succ_lt hi
        · first | exact hj | exact Nat.lt_of_succ_lt hj

/-- The hypotheses of `C80_uniform` are met. -/
example : ∃ v, ((⟨2, 0, 0, 1, 1⟩ : Mesh).uniform (fun _ => 1 / 4) 3).lookup (1 / 2) (1 / 3) = .ok v ∧ |v.x| ≤ 3 ∧ |v.y| ≤ 3 :=
  C80_uniform _ fat_unit _ (by intro; norm_num) 3 (by norm_num) _ _ (by norm_num) (by norm_num) (by norm_num) (by norm_num)

/-- A history as in `C80_current`: vectors assigned before the first lookup, changed in place after it. -/
example (x y : ℝ) : let ops := [FOp.zeros ⟨2, 0, 0, 1, 1⟩, .array fun _ _ => 1, .setVx 0 2, .lookup 0 0 0, .poke 2 0 0 5]
    ((FSt.empty.run false ops).lookup false 0 x y).2 = ((FSt.empty.run false ops).vectors 0).lookup x y := by
  intro ops
  apply C80_current
  · intro a op b e ho o hoa hl
    have e1 : ops[a.length]? = some op := by rw [e]; simp
    obtain ⟨k, hk, hk'⟩ := List.getElem_of_mem hoa
    have e2 : ops[k]? = some o := by rw [e, List.getElem?_append_left hk, List.getElem?_eq_getElem hk, hk']
    have hlen : a.length < 5 := (List.getElem?_eq_some_iff.1 e1).1
    clear hk' hoa e
    generalize a.length = n at hlen e1 hk
    rcases n with _ | _ | _ | _ | _ | n
    · omega
    · simp [ops] at e1; subst e1; exact ho
    · rcases k with _ | _ | k
      · simp [ops] at e2; subst e2; exact hl
      · simp [ops] at e2; subst e2; exact hl
      · omega
    · simp [ops] at e1; subst e1; exact ho
    · simp [ops] at e1; subst e1; exact ho
    · omega
  · intro h; cases h
  · simp [ops, FSt.run, FSt.step, FSt.empty, FSt.newBoth, FSt.newFld, FSt.newArr, FSt.lookup, FSt.mkInterp, Mesh.zeros, not_one_le]

end X7.VF
