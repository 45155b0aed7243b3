import Mathlib.Tactic.Ring
import Mathlib.Tactic.LinearCombination
import Verif.Spec.PointHeap

namespace X7.PH
set_option linter.unusedSectionVars false
variable {K : Type*} [Field K]

/-- Every reference is to an older object of the right class. -/
def WFObj (h : Heap K) (i : ℕ) : PObj K → Prop
  | .point _ _ _ => True
  | .vec _ _ => True
  | .rel _ _ b _ => b < i ∧ isBasePoint h b
  | .pcalc b _ _ => b < i ∧ hasBase h b
  | .vecRel p q => p < i ∧ q < i ∧ isBasePoint h p ∧ isBasePoint h q

def WF (h : Heap K) : Prop := ∀ i o, h[i]? = some o → WFObj h i o

theorem wf_nil : WF ([] : Heap K) := by intro i o h; simp at h

/-- Same class of object at every old index. -/
def sameClass : PObj K → PObj K → Prop
  | .point .., .point .. => True
  | .rel _ _ b _, .rel _ _ b' _ => b = b'
  | .pcalc b _ _, .pcalc b' _ _ => b = b'
  | .vec .., .vec .. => True
  | .vecRel p q, .vecRel p' q' => p = p' ∧ q = q'
  | _, _ => False

theorem lt_of_isBasePoint {h : Heap K} {i : ℕ} (hi : isBasePoint h i) : i < h.length := by
  by_contra hc
  simp [isBasePoint, List.getElem?_eq_none (not_lt.1 hc)] at hi

theorem lt_of_hasBase {h : Heap K} {i : ℕ} (hi : hasBase h i) : i < h.length := by
  by_contra hc
  simp [hasBase, List.getElem?_eq_none (not_lt.1 hc)] at hi

theorem isBasePoint_append {h l : Heap K} {i : ℕ} (hi : isBasePoint h i) : isBasePoint (h ++ l) i := by
  have := lt_of_isBasePoint hi
  simpa [isBasePoint, List.getElem?_append_left this] using hi

theorem hasBase_append {h l : Heap K} {i : ℕ} (hi : hasBase h i) : hasBase (h ++ l) i := by
  have := lt_of_hasBase hi
  simpa [hasBase, List.getElem?_append_left this] using hi

theorem wfObj_append {h l : Heap K} {i : ℕ} {o : PObj K} (ho : WFObj h i o) : WFObj (h ++ l) i o := by
  cases o with
  | point => trivial
  | vec => trivial
  | rel dx dy b n => exact ⟨ho.1, isBasePoint_append ho.2⟩
  | pcalc b s n => exact ⟨ho.1, hasBase_append ho.2⟩
  | vecRel p q => exact ⟨ho.1, ho.2.1, isBasePoint_append ho.2.2.1, isBasePoint_append ho.2.2.2⟩

theorem wf_append1 {h : Heap K} {o : PObj K} (hw : WF h) (ho : WFObj h h.length o) : WF (h ++ [o]) := by
  intro i o' hi
  rcases lt_trichotomy i h.length with hlt | heq | hgt
  · rw [List.getElem?_append_left hlt] at hi
    exact wfObj_append (hw i o' hi)
  · subst heq
    simp at hi
    subst hi
    exact wfObj_append ho
  · rw [List.getElem?_append_right (le_of_lt hgt), List.getElem?_eq_none] at hi
    · cases hi
    · simp; omega

theorem class_set {h : Heap K} {i : ℕ} {o o' : PObj K} (ho : h[i]? = some o) (hc : sameClass o o') (k : ℕ) :
    isBasePoint (h.set i o') k = isBasePoint h k ∧ hasBase (h.set i o') k = hasBase h k := by
  have hlt : i < h.length := (List.getElem?_eq_some_iff.1 ho).1
  by_cases hk : i = k
  · subst hk
    simp only [isBasePoint, hasBase, List.getElem?_set_self hlt, ho]
    cases o <;> cases o' <;> simp_all [sameClass]
  · simp [isBasePoint, hasBase, List.getElem?_set_ne hk]

theorem wf_set {h : Heap K} {i : ℕ} {o o' : PObj K} (hw : WF h) (ho : h[i]? = some o) (hc : sameClass o o') :
    WF (h.set i o') := by
  have hcl := class_set ho hc
  have hlt : i < h.length := (List.getElem?_eq_some_iff.1 ho).1
  have lift : ∀ k x, WFObj h k x → WFObj (h.set i o') k x := by
    intro k x hx
    cases x <;> simp_all [WFObj]
  intro k x hx
  by_cases hk : i = k
  · subst hk
    rw [List.getElem?_set_self hlt] at hx
    cases hx
    have := lift i o (hw i o ho)
    cases o <;> cases o' <;> simp_all [sameClass, WFObj]
  · rw [List.getElem?_set_ne hk] at hx
    exact lift k x (hw k x hx)

theorem wfObj_copyObj {h : Heap K} {i j : ℕ} {o : PObj K} (hij : i ≤ j) (ho : WFObj h i o) : WFObj h j (copyObj o) := by
  cases o with
  | point => trivial
  | vec => trivial
  | rel dx dy b n => exact ⟨lt_of_lt_of_le ho.1 hij, ho.2⟩
  | pcalc b s n => exact ⟨lt_of_lt_of_le ho.1 hij, ho.2⟩
  | vecRel p q => exact ⟨lt_of_lt_of_le ho.1 hij, lt_of_lt_of_le ho.2.1 hij, ho.2.2⟩

theorem isBasePoint_at {h : Heap K} {i : ℕ} {o : PObj K} (ho : h[i]? = some o) :
    isBasePoint h i = match o with | .point .. => true | .rel .. => true | .pcalc .. => true | _ => false := by
  simp only [isBasePoint, ho]
  cases o <;> rfl

theorem step_wf {h : Heap K} (hw : WF h) (op : POp K) : WF (step h op).1 := by
  cases op with
  | mkPoint x y n => exact wf_append1 hw trivial
  | mkVec x y => exact wf_append1 hw trivial
  | mkRel dx dy b n =>
    simp only [step]
    split
    · rename_i hb; exact wf_append1 hw ⟨lt_of_isBasePoint hb, hb⟩
    · exact hw
  | fromXY x y b =>
    simp only [step]
    split
    · rename_i hb
      split
      · exact wf_append1 hw ⟨lt_of_isBasePoint hb, hb⟩
      · exact hw
    · exact hw
  | mkCalc b s n =>
    simp only [step]
    split
    · rename_i hb; exact wf_append1 hw ⟨lt_of_hasBase hb, hb⟩
    · exact hw
  | mkVecRel p q =>
    simp only [step]
    split
    · rename_i hb; exact wf_append1 hw ⟨lt_of_isBasePoint hb.1, lt_of_isBasePoint hb.2, hb.1, hb.2⟩
    · exact hw
  | setXY i x y =>
    simp only [step]
    split
    · rename_i hi; exact wf_set hw hi trivial
    · rename_i hi; exact wf_set hw hi trivial
    · exact hw
    · exact hw
  | setFrom i j =>
    simp only [step]
    split
    · rename_i hi
      split
      · exact wf_set hw hi trivial
      · exact hw
    · rename_i hi
      split
      · exact wf_set hw hi trivial
      · exact hw
    · exact hw
    · exact hw
  | setDelta i dx dy =>
    simp only [step]
    split
    · rename_i hi; exact wf_set hw hi rfl
    · exact hw
  | setScale i s =>
    simp only [step]
    split
    · rename_i hi; exact wf_set hw hi rfl
    · exact hw
  | fixed i =>
    simp only [step]
    split
    · split
      · apply wf_append1 hw
        split <;> trivial
      · exact hw
    · exact hw
  | copy i =>
    simp only [step]
    split
    · rename_i p q hi
      split
      · rename_i a b ha hb
        have hv := hw i _ hi
        have hil : i < h.length := (List.getElem?_eq_some_iff.1 hi).1
        have hp : p < h.length := hv.1.trans hil
        have hq : q < h.length := hv.2.1.trans hil
        have h1 : WF (h ++ [copyObj a]) := wf_append1 hw (wfObj_copyObj hp.le (hw p a ha))
        have h2 : WF (h ++ [copyObj a] ++ [copyObj b]) := by
          apply wf_append1 h1
          apply wfObj_append
          exact wfObj_copyObj (by simp; omega) (hw q b hb)
        have h3 : WF (h ++ [copyObj a] ++ [copyObj b] ++ [.vecRel h.length (h.length + 1)]) := by
          apply wf_append1 h2
          have hap := hv.2.2.1
          have hbp := hv.2.2.2
          rw [isBasePoint_at ha] at hap
          rw [isBasePoint_at hb] at hbp
          refine ⟨by simp, by simp, ?_, ?_⟩
          · rw [isBasePoint_at (o := copyObj a) (by simp)]
            cases a <;> simp_all [copyObj]
          · rw [isBasePoint_at (o := copyObj b) (by simp)]
            cases b <;> simp_all [copyObj]
        simpa using h3
      · exact hw
    · rename_i o _ hi
      exact wf_append1 hw (wfObj_copyObj (List.getElem?_eq_some_iff.1 hi).1.le (hw i o hi))
    · exact hw

theorem run_wf {h : Heap K} (hw : WF h) (ops : List (POp K)) : WF (run h ops) := by
  induction ops generalizing h with
  | nil => exact hw
  | cons o os ih => exact ih (step_wf hw o)

/-- Reading depends only on the object and older ones. -/
theorem xy_agree {h h' : Heap K} (i : ℕ) (ha : ∀ k ≤ i, h[k]? = h'[k]?) : xy h i = xy h' i := by
  induction i using Nat.strong_induction_on with
  | _ i ih =>
    rw [xy, xy, ha i le_rfl]
    have ih' : ∀ b, b < i → xy h b = xy h' b := fun b hb => ih b hb (fun k hk => ha k (hk.trans hb.le))
    cases hi : h'[i]? with
    | none => rfl
    | some o =>
      cases o with
      | point => rfl
      | vec => rfl
      | rel dx dy b n =>
        by_cases hb : b < i
        · simp only [hb, dif_pos, ih' b hb]
        · simp only [hb, dif_neg, not_false_iff]
      | pcalc r s n =>
        by_cases hr : r < i
        · simp only [hr, if_true, ha r hr.le]
          cases hrr : h'[r]? with
          | none => rfl
          | some o =>
            cases o with
            | rel dx dy b n =>
              by_cases hb : b < i
              · simp only [hb, dif_pos, ih' b hb]
              · simp only [hb, dif_neg, not_false_iff]
            | pcalc b _ _ =>
              by_cases hb : b < i
              · simp only [hb, dif_pos, ih' b hb]
              · simp only [hb, dif_neg, not_false_iff]
            | _ => rfl
        · simp only [hr, if_false]
      | vecRel p q =>
        by_cases hb : p < i ∧ q < i
        · simp only [hb, and_self, dif_pos, ih' p hb.1, ih' q hb.2]
        · simp only [hb, dif_neg, not_false_iff]

theorem xy_append {h l : Heap K} {i : ℕ} (hi : i < h.length) : xy (h ++ l) i = xy h i :=
  xy_agree i fun _ hk => List.getElem?_append_left (lt_of_le_of_lt hk hi)

theorem xy_point {h : Heap K} {i : ℕ} {x y : K} {n} (hi : h[i]? = some (.point x y n)) : xy h i = .ok ⟨x, y⟩ := by
  rw [xy, hi]

theorem xy_rel {h : Heap K} {i : ℕ} {dx dy : K} {b n} (hi : h[i]? = some (.rel dx dy b n)) (hb : b < i) :
    xy h i = match xy h b with | .ok p => .ok ⟨dx + p.x, dy + p.y⟩ | .error e => .error e := by
  rw [xy, hi]; simp only [hb, dif_pos]
  cases xy h b <;> rfl

theorem xy_calc_rel {h : Heap K} {i r : ℕ} {s dx dy : K} {b n n'} (hi : h[i]? = some (.pcalc r s n)) (hr : r < i)
    (hrr : h[r]? = some (.rel dx dy b n')) (hb : b < i) :
    xy h i = match xy h b with | .ok p => .ok ⟨s * dx + p.x, s * dy + p.y⟩ | .error e => .error e := by
  rw [xy, hi]; simp only [hr, if_true, hrr, hb, dif_pos]
  cases xy h b <;> rfl

theorem xy_calc_calc {h : Heap K} {i r : ℕ} {s s' : K} {b n n'} (hi : h[i]? = some (.pcalc r s n)) (hr : r < i)
    (hrr : h[r]? = some (.pcalc b s' n')) (hb : b < i) :
    xy h i = match xy h b with | .ok _ => .error .attribute | .error e => .error e := by
  rw [xy, hi]; simp only [hr, if_true, hrr, hb, dif_pos]
  cases xy h b <;> rfl

theorem xy_vecRel {h : Heap K} {i p q : ℕ} (hi : h[i]? = some (.vecRel p q)) (hp : p < i) (hq : q < i) :
    xy h i = match xy h p with
      | .ok a => match xy h q with
        | .ok b => .ok ⟨a.x - b.x, a.y - b.y⟩
        | .error e => .error e
      | .error e => .error e := by
  rw [xy, hi]; simp only [hp, hq, and_self, dif_pos]
  cases xy h p <;> cases xy h q <;> rfl

/-- Case analysis of the points of a well-formed heap. -/
theorem point_cases {h : Heap K} (hw : WF h) {i : ℕ} (hi : isBasePoint h i) :
    (∃ x y n, h[i]? = some (.point x y n)) ∨
    (∃ dx dy b n, h[i]? = some (.rel dx dy b n) ∧ b < i ∧ isBasePoint h b) ∨
    (∃ r s n dx dy b n', h[i]? = some (.pcalc r s n) ∧ r < i ∧ h[r]? = some (.rel dx dy b n') ∧ b < i ∧ isBasePoint h b) ∨
    (∃ r s n b s' n', h[i]? = some (.pcalc r s n) ∧ r < i ∧ h[r]? = some (.pcalc b s' n') ∧ b < i ∧ isBasePoint h b) := by
  cases ho : h[i]? with
  | none => simp [isBasePoint, ho] at hi
  | some o =>
    have w := hw i o ho
    cases o with
    | point x y n => exact Or.inl ⟨x, y, n, rfl⟩
    | vec => simp [isBasePoint, ho] at hi
    | vecRel => simp [isBasePoint, ho] at hi
    | rel dx dy b n => exact Or.inr (Or.inl ⟨dx, dy, b, n, rfl, w.1, w.2⟩)
    | pcalc r s n =>
      have hb := w.2
      cases hr : h[r]? with
      | none => simp [hasBase, hr] at hb
      | some o =>
        have w' := hw r o hr
        cases o with
        | rel dx dy b n' => exact Or.inr (Or.inr (Or.inl ⟨r, s, n, dx, dy, b, n', rfl, w.1, hr, w'.1.trans w.1, w'.2⟩))
        | pcalc b s' n' =>
          refine Or.inr (Or.inr (Or.inr ⟨r, s, n, b, s', n', rfl, w.1, hr, w'.1.trans w.1, ?_⟩))
          have := w'.2
          revert this
          simp only [hasBase, isBasePoint]
          cases hbb : h[b]? with
          | none => simp
          | some o => cases o <;> simp
        | _ => simp [hasBase, hr] at hb

end X7.PH
