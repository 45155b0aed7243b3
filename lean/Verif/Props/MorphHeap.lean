import Verif.Lemmas.MorphHeapStep
import Verif.Props.CurveHeap
import Verif.Props.Morph

/-!
C108: several morphs, whose sources and targets may be shared and changed, through every history of calls.
-/

noncomputable section

namespace X7.MH

open CH Anim

/-- C108: as long as no curve of a morph is reversed, every history of calls on curves and morphs does to the curves what it would do
to independent values, and raises the same exceptions. -/
theorem C108_history {w : World} {v : Values} (hv : w.values = some v) (hs : Sound w) (as : List Call) (ha : v.Allowed as) :
    (run w as).1.values = some (v.run as).1 ∧ (run w as).2 = (v.run as).2 ∧ Sound (run w as).1 := by
  obtain ⟨e, J⟩ := run_winv (winv_iff.2 ⟨hv, hs⟩) as ha
  exact ⟨(winv_iff.1 J).1, e, (winv_iff.1 J).2⟩

/-- C108: in particular for every program that starts with nothing. -/
theorem C108_program (as : List Call) (ha : Values.Allowed ⟨⟨[], []⟩, []⟩ as) :
    (run ⟨Heap.empty, []⟩ as).1.values = some (Values.run ⟨⟨[], []⟩, []⟩ as).1 ∧
    (run ⟨Heap.empty, []⟩ as).2 = (Values.run ⟨⟨[], []⟩, []⟩ as).2 ∧ Sound (run ⟨Heap.empty, []⟩ as).1 :=
  C108_history rfl ⟨⟨by simp [Heap.empty], by simp [Heap.empty]⟩, by simp⟩ as ha

/-! ### Updates -/

theorem mixed_mixAll (s : ℝ) {m o g : List (CP ℝ)} (hl : m.length = o.length) : Mixed s o g (Morph.mixAll s m o g) := by
  refine ⟨by rw [Morph.mixAll_length, hl], ?_⟩
  intro i a b c ha hb hc k
  obtain ⟨x, hx⟩ : ∃ x, m[i]? = some x := by
    have := (List.getElem?_eq_some_iff.1 ha).1
    exact ⟨_, List.getElem?_eq_getElem (by omega)⟩
  rw [Morph.mixAll_get s m o g i x a b hx ha hb] at hc
  cases hc
  fin_cases k <;> simp [Morph.coord, Morph.mixCP, Morph.mixPt, Morph.mixVec, Pt.addVector, Pt.sub, Vec.mul, Vec.add, Vec.sub, Vec.subVector] <;> ring

/-- C108: whatever has happened before, `update` on a morph whose function gives the number `s` raises nothing and changes no curve
but the one of the morph. This one keeps its name, pen, transform and number of control points. If it has as many control points
as the source, then each of them which has a partner in the target is `s` of the way from where the source is now to where the
target is now. -/
theorem C108_update {w : World} {v : Values} (hv : w.values = some v) (hs : Sound w) {k : ℕ} {m : MorphObj} (hm : v.morphs[k]? = some m)
    (s : ℝ) :
    ∃ w' v' co ct cm cm', step w (.update k (.num s)) = (w', none) ∧ w'.values = some v' ∧ v'.morphs = v.morphs ∧
      (∀ l, l ≠ m.morph → v'.st.curves[l]? = v.st.curves[l]?) ∧ v'.st.xfs = v.st.xfs ∧
      v.st.curves[m.orig]? = some co ∧ v.st.curves[m.target]? = some ct ∧ v.st.curves[m.morph]? = some cm ∧
      v'.st.curves[m.morph]? = some cm' ∧ cm'.name = cm.name ∧ cm'.pb = cm.pb ∧ cm'.closed = cm.closed ∧ cm'.xf = cm.xf ∧
      cm'.cps.length = cm.cps.length ∧ (cm.cps.length = co.cps.length → Mixed s co.cps ct.cps cm'.cps) := by
  have J := winv_iff.2 ⟨hv, hs⟩
  obtain ⟨e, J1⟩ := step_winv J (.update k (.num s)) (by simp)
  obtain ⟨a, b, c, -⟩ := J.ok m (by rw [J.morphs]; exact List.mem_of_getElem? hm)
  rw [J.inv.len] at c
  have h1 := List.getElem?_eq_getElem (l := v.st.curves) (i := m.orig) (by omega)
  have h2 := List.getElem?_eq_getElem (l := v.st.curves) (i := m.target) (by omega)
  have h3 := List.getElem?_eq_getElem (l := v.st.curves) (i := m.morph) c
  simp only [Values.step, hm, updVal, h1, h2, h3] at e J1
  refine ⟨_, _, _, _, _, _, Prod.ext rfl e, (winv_iff.1 J1).1, rfl, ?_, rfl, h1, h2, h3, List.getElem?_set_self c, rfl, rfl, rfl, rfl,
    Morph.mixAll_length _ _ _ _, mixed_mixAll s⟩
  intro l hl
  exact List.getElem?_set_ne (Ne.symm hl)

/-- C108: if the function of the morph gives `None`, all control points of the curve of the morph go off-screen and nothing else
changes; if it gives a pair, there is a `TypeError` and nothing changes (unless there are no control points). -/
theorem C108_hidden {w : World} {v : Values} (hv : w.values = some v) (hs : Sound w) {k : ℕ} {m : MorphObj} (hm : v.morphs[k]? = some m) :
    (∃ w' v' cm cm', step w (.update k .none) = (w', none) ∧ w'.values = some v' ∧ v'.morphs = v.morphs ∧
      (∀ l, l ≠ m.morph → v'.st.curves[l]? = v.st.curves[l]?) ∧ v'.st.xfs = v.st.xfs ∧
      v.st.curves[m.morph]? = some cm ∧ v'.st.curves[m.morph]? = some cm' ∧ Morph.OffScreen cm.cps cm'.cps) ∧
    ∀ x y, ∃ w' e, step w (.update k (.pair x y)) = (w', e) ∧ w'.values = some v ∧
      (e = none ∨ e = some .type) ∧ ((∀ (l : ℕ) (c : Curve), v.st.curves[l]? = some c → c.cps ≠ []) → e = some .type) := by
  have J := winv_iff.2 ⟨hv, hs⟩
  obtain ⟨a, b, c, -⟩ := J.ok m (by rw [J.morphs]; exact List.mem_of_getElem? hm)
  rw [J.inv.len] at c
  have h1 := List.getElem?_eq_getElem (l := v.st.curves) (i := m.orig) (by omega)
  have h2 := List.getElem?_eq_getElem (l := v.st.curves) (i := m.target) (by omega)
  have h3 := List.getElem?_eq_getElem (l := v.st.curves) (i := m.morph) c
  constructor
  · obtain ⟨e, J1⟩ := step_winv J (.update k .none) (by simp)
    simp only [Values.step, hm, updVal, h1, h2, h3] at e J1
    refine ⟨_, _, _, _, Prod.ext rfl e, (winv_iff.1 J1).1, rfl, ?_, rfl, h3, List.getElem?_set_self c, ?_⟩
    · intro l hl
      exact List.getElem?_set_ne (Ne.symm hl)
    · refine ⟨by simp [Morph.hide], ?_⟩
      intro cp hcp
      simp only [Morph.hide, List.mem_map] at hcp
      obtain ⟨x, -, rfl⟩ := hcp
      exact ⟨rfl, rfl, rfl⟩
  · intro x y
    obtain ⟨e, J1⟩ := step_winv J (.update k (.pair x y)) (by simp)
    simp only [Values.step, hm, updVal, h1, h2, h3] at e J1
    by_cases hn : v.st.curves[m.morph].cps = [] ∨ v.st.curves[m.orig].cps = [] ∨ v.st.curves[m.target].cps = []
    · rw [if_pos hn] at e J1
      refine ⟨_, none, Prod.ext rfl e, (winv_iff.1 J1).1, .inl rfl, fun hc => ?_⟩
      rcases hn with hn | hn | hn
      · exact absurd hn (hc _ _ h3)
      · exact absurd hn (hc _ _ h1)
      · exact absurd hn (hc _ _ h2)
    · rw [if_neg hn] at e J1
      exact ⟨_, some .type, Prod.ext rfl e, (winv_iff.1 J1).1, .inr rfl, fun _ => rfl⟩

/-! ### Sizes -/

theorem padVal_other (n : ℕ) (s : State) (i : ℕ) {l : ℕ} (hl : l ≠ i) : (padVal s i n).1.curves[l]? = s.curves[l]? := by
  induction n generalizing s with
  | zero => rfl
  | succ n ih =>
    have h1 : (s.step (.addOne i)).1.curves[l]? = s.curves[l]? := by
      simp only [State.step]
      split
      · split
        · exact List.getElem?_set_ne (Ne.symm hl)
        · rfl
      · rfl
    unfold padVal
    split
    · rename_i s1 e
      rw [e] at h1
      rw [ih s1]; exact h1
    · rename_i s1 x e
      rw [e] at h1
      exact h1

theorem padBothVal_other (s : State) (i j : ℕ) (force : Bool) {l : ℕ} (hi : l ≠ i) (hj : l ≠ j) :
    (padBothVal s i j force).1.curves[l]? = s.curves[l]? := by
  unfold padBothVal
  split
  · have := padVal_other (sizeVal s j - sizeVal s i) s i hi
    split
    · rename_i s1 x e
      rw [e] at this
      exact this
    · rename_i s1 e
      rw [e] at this
      rw [padVal_other _ _ _ hj]; exact this
  · rfl

theorem copy_get (s : State) (i : ℕ) {l : ℕ} (hl : l < s.curves.length) : (s.step (.copy i)).1.curves[l]? = s.curves[l]? :=
  s.step_other (.copy i) hl (by simp [Op.writes])

theorem morph_other (v : Values) (i j : ℕ) (force : Bool) (found : Except PyErr ℕ) {l : ℕ} (hl : l < v.st.curves.length) (hi : l ≠ i) (hj : l ≠ j) :
    (v.step (.morph i j force found)).1.st.curves[l]? = v.st.curves[l]? := by
  simp only [Values.step]
  split
  · have h1 := padBothVal_other v.st i j force hi hj
    have h2 := padBothVal_len v.st i j force
    split
    · rename_i s1 x e
      rw [e] at h1
      exact h1
    · rename_i s1 e
      rw [e] at h1 h2
      have h3 := copy_get s1 i (l := l) (by simp only at h2; omega)
      split
      · rename_i s2 x e2
        rw [e2] at h3
        exact h3.trans h1
      · rename_i s2 e2
        rw [e2] at h3
        split
        · exact h3.trans h1
        split <;> exact h3.trans h1
  · rfl

theorem size_of_get {s s' : State} {l : ℕ} (e : s'.curves[l]? = s.curves[l]?) : sizeVal s' l = sizeVal s l := by
  unfold sizeVal; rw [e]

theorem step_length (v : Values) (a : Call) : v.st.curves.length ≤ (v.step a).1.st.curves.length := by
  cases a with
  | curve op => exact step_len _ _
  | morph i j force found =>
    simp only [Values.step]
    split
    · have h2 := padBothVal_len v.st i j force
      split
      · rename_i s1 x e
        rw [e] at h2
        exact h2.ge
      · rename_i s1 e
        rw [e] at h2
        have h3 := step_len s1 (.copy i)
        split
        · rename_i s2 x e2
          rw [e2] at h3
          exact h2.ge.trans h3
        · rename_i s2 e2
          rw [e2] at h3
          split
          · exact h2.ge.trans h3
          split <;> exact h2.ge.trans h3
    · exact le_rfl
  | update k t =>
    simp only [Values.step]
    split
    · simp only [updVal]
      split
      · split
        · simp
        · simp
        · split <;> simp
      · exact le_rfl
    · exact le_rfl

theorem size_step (v : Values) (a : Call) {l : ℕ} (hl : l < v.st.curves.length) (hg : l ∉ a.mayGrow) :
    sizeVal (v.step a).1.st l = sizeVal v.st l := by
  cases a with
  | curve op =>
    simp only [Values.step]
    by_cases hw : op.writes = some l
    · have hc := List.getElem?_eq_getElem hl
      cases op with
      | addOne i =>
        simp [Op.writes] at hw
        simp [Call.mayGrow, hw] at hg
      | restore i j =>
        simp [Op.writes] at hw
        subst hw
        simp only [State.step, hc]
        split
        · rename_i c d e1 e2
          cases e1
          split
          · split
            · rename_i hl'
              simp only [sizeVal, hc]
              rw [List.getElem?_set_self hl]
              exact hl'.symm
            · simp only [sizeVal, hc]
              rw [List.getElem?_set_self hl]
          · rfl
        · rfl
      | turn i r =>
        simp [Op.writes] at hw
        subst hw
        simp only [State.step, hc, sizeVal]
        rw [List.getElem?_set_self hl]
        simp
        omega
      | _ => simp [Op.writes] at hw
    · exact size_of_get (v.st.step_other op hl hw)
  | morph i j force found =>
    simp only [Call.mayGrow, List.mem_cons, List.not_mem_nil, or_false, not_or] at hg
    exact size_of_get (morph_other v i j force found hl hg.1 hg.2)
  | update k t =>
    simp only [Values.step]
    split
    · rename_i m hm
      simp only [updVal]
      split
      · rename_i cm co ct e1 e2 e3
        split
        · by_cases h : m.morph = l
          · subst h
            simp only [sizeVal, e1]
            rw [List.getElem?_set_self hl]
            simp [Morph.hide]
          · exact size_of_get (List.getElem?_set_ne h)
        · by_cases h : m.morph = l
          · subst h
            simp only [sizeVal, e1]
            rw [List.getElem?_set_self hl]
            exact Morph.mixAll_length _ _ _ _
          · exact size_of_get (List.getElem?_set_ne h)
        · split <;> rfl
      · rfl
    · rfl

theorem size_run (v : Values) (as : List Call) {l : ℕ} (hl : l < v.st.curves.length) (hg : ∀ a ∈ as, l ∉ a.mayGrow) :
    sizeVal (v.run as).1.st l = sizeVal v.st l ∧ l < (v.run as).1.st.curves.length := by
  induction as generalizing v with
  | nil => exact ⟨rfl, hl⟩
  | cons a as ih =>
    have h1 := step_length v a
    obtain ⟨h2, h3⟩ := ih (v.step a).1 (by omega) (fun b hb => hg b (by simp [hb]))
    exact ⟨h2.trans (size_step v a hl (hg a (by simp))), h3⟩

theorem step_morphs (v : Values) (a : Call) : v.morphs <+: (v.step a).1.morphs := by
  cases a with
  | curve op => exact List.prefix_rfl
  | morph i j force found =>
    simp only [Values.step]
    split
    · split
      · exact List.prefix_rfl
      · split
        · exact List.prefix_rfl
        · split
          · exact List.prefix_rfl
          split
          · exact List.prefix_rfl
          · exact List.prefix_rfl
          · exact List.prefix_append _ _
    · exact List.prefix_rfl
  | update k t =>
    simp only [Values.step]
    split <;> exact List.prefix_rfl

theorem run_morphs (v : Values) (as : List Call) : v.morphs <+: (v.run as).1.morphs := by
  induction as generalizing v with
  | nil => exact List.prefix_rfl
  | cons a as ih => exact (step_morphs v a).trans (ih _)

/-- What a constructor that raises nothing has done. -/
theorem morph_made {v v1 : Values} {i j : ℕ} {force : Bool} {found : Except PyErr ℕ} (e : v.step (.morph i j force found) = (v1, none)) :
    i < v.st.curves.length ∧ j < v.st.curves.length ∧ v1.morphs = v.morphs ++ [⟨i, v.st.curves.length, j⟩] ∧
      v1.st.curves.length = v.st.curves.length + 1 ∧ sizeVal v1.st i = sizeVal v1.st j ∧
      v1.st.curves[v.st.curves.length]? = v1.st.curves[i]? := by
  simp only [Values.step] at e
  split at e
  · rename_i hij
    have h2 := padBothVal_len v.st i j force
    split at e
    · cases e
    · rename_i s1 e1
      rw [e1] at h2
      simp only at h2
      have h3 := copy_get s1 i (l := i) (by omega)
      have h4 : (s1.step (.copy i)).2 = none → ∃ c, s1.curves[i]? = some c ∧ (s1.step (.copy i)).1.curves = s1.curves ++ [c] := by
        simp only [State.step, State.add]
        rw [List.getElem?_eq_getElem (by omega : i < s1.curves.length)]
        simp only
        split
        · simp
        · exact fun _ => ⟨_, rfl, rfl⟩
      split at e
      · cases e
      · rename_i s2 e2
        rw [e2] at h3 h4
        obtain ⟨c, c1, c2⟩ := h4 rfl
        simp only at c2 h3
        split at e
        · cases e
        · rename_i hn
          split at e <;> cases e
          refine ⟨hij.1, hij.2, by simp [h2], by simp [c2, h2], not_not.1 hn, ?_⟩
          simp only
          rw [h3, c1, c2, ← h2]
          simp
  · cases e

/-- C108: a morph was made without an exception, and then followed any history of calls, among them updates of it and of other
morphs, in which neither its source nor its target nor its own curve may get control points (by `add_one` or by a further morph from
or to one of them). Then source, target and the curve of the morph have equally many control points, and after `update` with the
number `s` every control point of the morph is `s` of the way from where the source is now to where the target is now. -/
theorem C108_morph {w w1 : World} {v : Values} (hv : w.values = some v) (hs : Sound w) {i j : ℕ} {force : Bool} {found : Except PyErr ℕ}
    (e : step w (.morph i j force found) = (w1, none)) (as : List Call) (ha : (v.step (.morph i j force found)).1.Allowed as)
    (hg : ∀ a ∈ as, i ∉ a.mayGrow ∧ j ∉ a.mayGrow ∧ v.st.curves.length ∉ a.mayGrow) (s : ℝ) :
    ∃ w2 v2 co ct cm, step (run w1 as).1 (.update v.morphs.length (.num s)) = (w2, none) ∧ w2.values = some v2 ∧
      v2.st.curves[i]? = some co ∧ v2.st.curves[j]? = some ct ∧ v2.st.curves[v.st.curves.length]? = some cm ∧
      co.cps.length = ct.cps.length ∧ Mixed s co.cps ct.cps cm.cps := by
  have J := winv_iff.2 ⟨hv, hs⟩
  obtain ⟨e1, J1⟩ := step_winv J (.morph i j force found) (by simp)
  rw [e] at e1 J1
  simp only at e1 J1
  obtain ⟨a1, a2, a3, a4, a5, a6⟩ := morph_made (v := v) (v1 := (v.step (.morph i j force found)).1) (i := i) (j := j) (force := force) (found := found)
    (Prod.ext rfl e1.symm)
  obtain ⟨v1, hv1⟩ : ∃ v1, v1 = (v.step (.morph i j force found)).1 := ⟨_, rfl⟩
  rw [← hv1] at a3 a4 a5 a6 J1 ha
  obtain ⟨-, J2⟩ := run_winv J1 as ha
  obtain ⟨b1, b2⟩ := winv_iff.1 J2
  have hm : (v1.run as).1.morphs[v.morphs.length]? = some ⟨i, v.st.curves.length, j⟩ :=
    pre_get (run_morphs v1 as) (by rw [a3]; simp)
  obtain ⟨w2, v2, co, ct, cm, cm', c1, c2, c3, c4, c5, c6, c7, c8, c9, c10, c11, c12, c13, c14, c15⟩ := C108_update b1 b2 hm s
  simp only at c4 c6 c7 c8 c9
  obtain ⟨s1, -⟩ := size_run v1 as (l := i) (by omega) (fun a h => (hg a h).1)
  obtain ⟨s2, -⟩ := size_run v1 as (l := j) (by omega) (fun a h => (hg a h).2.1)
  obtain ⟨s3, -⟩ := size_run v1 as (l := v.st.curves.length) (by omega) (fun a h => (hg a h).2.2)
  have s4 : sizeVal v1.st v.st.curves.length = sizeVal v1.st i := by simp only [sizeVal, a6]
  have t1 : sizeVal (v1.run as).1.st i = co.cps.length := by simp only [sizeVal, c6]
  have t2 : sizeVal (v1.run as).1.st j = ct.cps.length := by simp only [sizeVal, c7]
  have t3 : sizeVal (v1.run as).1.st v.st.curves.length = cm.cps.length := by simp only [sizeVal, c8]
  refine ⟨w2, v2, co, ct, cm', c1, c2, ?_, ?_, c9, by omega, c15 (by omega)⟩
  · rw [c4 i (by omega)]; exact c6
  · rw [c4 j (by omega)]; exact c7

/-! ### Outlines -/

/-- A control point without its kind. -/
def plain (p : CP ℝ) : CP ℝ := ⟨p.c, p.dl, p.dr, ""⟩

theorem segs_plain (cps : List (CP ℝ)) : segs true (cps.map plain) = segs true cps := by
  simp only [segs, if_true, closedSegs]
  rw [← List.map_rotate, List.zipWith_map]
  rfl

theorem mixed_plain {s : ℝ} {o g r x : List (CP ℝ)} (hb : Mixed s o g r) (hl : o.length = g.length) (hx : x.length = o.length)
    (he : ∀ (i : ℕ) (a b y : CP ℝ), o[i]? = some a → g[i]? = some b → x[i]? = some y → ∀ k,
      Morph.coord k y = Morph.coord k a + s * (Morph.coord k b - Morph.coord k a)) : r.map plain = x.map plain := by
  apply List.ext_getElem (by simp [hb.1, hx])
  intro i h1 h2
  simp only [List.length_map] at h1 h2
  have ho : i < o.length := by omega
  have hg : i < g.length := by omega
  simp only [List.getElem_map]
  have a1 := hb.2 i o[i] g[i] r[i] (by simp) (by simp) (by simp)
  have a2 := he i o[i] g[i] x[i] (by simp) (by simp) (by simp)
  obtain ⟨e1, e2, e3⟩ := Morph.cp_ext_coord (a := r[i]) (b := x[i]) fun k => by rw [a1 k, a2 k]
  simp only [plain, e1, e2, e3]

/-- C108: at 0 the line through the control points of the morph is the one of the source, at 1 the one of the target. -/
theorem C108_ends (o g r : List (CP ℝ)) (hl : o.length = g.length) :
    (Mixed 0 o g r → Morph.trace (segs true r) = Morph.trace (segs true o)) ∧
    (Mixed 1 o g r → Morph.trace (segs true r) = Morph.trace (segs true g)) := by
  constructor
  · intro h
    rw [← segs_plain r, ← segs_plain o, mixed_plain h hl (x := o) rfl]
    intro i a b y ha hb hy k
    rw [ha] at hy
    cases hy
    ring
  · intro h
    rw [← segs_plain r, ← segs_plain g, mixed_plain h hl (x := g) hl.symm]
    intro i a b y ha hb hy k
    rw [hb] at hy
    cases hy
    ring

/-- Curve `n` has an outline and at least two control points; it has these afterwards. -/
def Keeps (s s' : State) (n : ℕ) : Prop :=
  ∀ c, s.curves[n]? = some c → 2 ≤ c.cps.length → ∃ c', s'.curves[n]? = some c' ∧ c'.outline = c.outline ∧ 2 ≤ c'.cps.length ∧
    c'.name = c.name ∧ c'.pb = c.pb ∧ c'.closed = c.closed ∧ c'.xf = c.xf

theorem Keeps.refl (s : State) (n : ℕ) : Keeps s s n := fun c hc h2 => ⟨c, hc, rfl, h2, rfl, rfl, rfl, rfl⟩

theorem Keeps.trans {a b c : State} {n : ℕ} (h : Keeps a b n) (g : Keeps b c n) : Keeps a c n := by
  intro x hx h2
  obtain ⟨y, y1, y2, y3, y4, y5, y6, y7⟩ := h x hx h2
  obtain ⟨z, z1, z2, z3, z4, z5, z6, z7⟩ := g y y1 y3
  exact ⟨z, z1, z2.trans y2, z3, z4.trans y4, z5.trans y5, z6.trans y6, z7.trans y7⟩

theorem Keeps.step (s : State) (op : Op) {n : ℕ} (hr : op.restores ≠ some n) : Keeps s (s.step op).1 n := by
  intro c hc h2
  obtain ⟨c', c1, c2, c3, c4, c5, c6, c7⟩ := s.step_kept op hc h2 hr
  exact ⟨c', c1, c2, by omega, c4, c5, c6, c7⟩

theorem Keeps.pad (n : ℕ) (s : State) (i l : ℕ) : Keeps s (padVal s i n).1 l := by
  induction n generalizing s with
  | zero => exact .refl s l
  | succ n ih =>
    have h1 := Keeps.step s (.addOne i) (n := l) (by simp [Op.restores])
    unfold padVal
    split
    · rename_i s1 e
      rw [e] at h1
      exact h1.trans (ih s1)
    · rename_i s1 x e
      rw [e] at h1
      exact h1

theorem Keeps.padBoth (s : State) (i j : ℕ) (force : Bool) (l : ℕ) : Keeps s (padBothVal s i j force).1 l := by
  unfold padBothVal
  split
  · have h1 := Keeps.pad (sizeVal s j - sizeVal s i) s i l
    split
    · rename_i s1 x e
      rw [e] at h1
      exact h1
    · rename_i s1 e
      rw [e] at h1
      exact h1.trans (Keeps.pad _ _ _ _)
  · exact .refl s l

theorem Keeps.call (v : Values) (a : Call) {n : ℕ} (hr : a.redraws v ≠ some n) : Keeps v.st (v.step a).1.st n := by
  cases a with
  | curve op =>
    refine Keeps.step v.st op ?_
    intro h
    cases op <;> simp [Op.restores] at h
    subst h
    exact hr rfl
  | morph i j force found =>
    simp only [Values.step]
    split
    · have h1 := Keeps.padBoth v.st i j force n
      split
      · rename_i s1 x e
        rw [e] at h1
        exact h1
      · rename_i s1 e
        rw [e] at h1
        have h2 := Keeps.step s1 (.copy i) (n := n) (by simp [Op.restores])
        split
        · rename_i s2 x e2
          rw [e2] at h2
          exact h1.trans h2
        · rename_i s2 e2
          rw [e2] at h2
          split
          · exact h1.trans h2
          split <;> exact h1.trans h2
    · exact .refl _ n
  | update k t =>
    simp only [Values.step]
    split
    · rename_i m hm
      have hne : m.morph ≠ n := fun h => hr (by simp [Call.redraws, hm, h])
      have key : (updVal v.st m t).1.curves[n]? = v.st.curves[n]? := by
        simp only [updVal]
        split
        · split
          · exact List.getElem?_set_ne hne
          · exact List.getElem?_set_ne hne
          · split <;> rfl
        · rfl
      intro c hc h2
      exact ⟨c, key.trans hc, rfl, h2, rfl, rfl, rfl, rfl⟩
    · exact .refl _ n

/-- C108: through every history of calls on curves and morphs, a closed curve of at least two control points keeps its outline, name,
pen and transform, as long as it is not restored and is not the curve of a morph that is updated; in particular if it is source or
target of any number of morphs. -/
theorem C108_outline {w : World} {v : Values} (hv : w.values = some v) (hs : Sound w) {n : ℕ} {c : Curve} (hc : v.st.curves[n]? = some c)
    (h2 : 2 ≤ c.cps.length) (as : List Call) (ha : v.Allowed as) (hu : v.Untouched n as) :
    ∃ v' c', (run w as).1.values = some v' ∧ v'.st.curves[n]? = some c' ∧ c'.outline = c.outline ∧ 2 ≤ c'.cps.length ∧
      c'.name = c.name ∧ c'.pb = c.pb ∧ c'.closed = c.closed ∧ c'.xf = c.xf := by
  have K : Keeps v.st (v.run as).1.st n := by
    clear hv hs hc h2 ha
    induction as generalizing v with
    | nil => exact .refl _ n
    | cons a as ih => exact (Keeps.call v a hu.1).trans (ih hu.2)
  obtain ⟨c', hc'⟩ := K c hc h2
  exact ⟨_, c', (C108_history hv hs as ha).1, hc'⟩

/-! ### Making a morph -/

theorem padVal_ok (n : ℕ) (s : State) (i : ℕ) {c : Curve} (hc : s.curves[i]? = some c) (h2 : 2 ≤ c.cps.length) :
    (padVal s i n).2 = none ∧ sizeVal (padVal s i n).1 i = c.cps.length + n := by
  induction n generalizing s c with
  | zero => exact ⟨rfl, by simp [padVal, sizeVal, hc]⟩
  | succ n ih =>
    obtain ⟨c', c1, -, c3, -⟩ := s.step_kept (.addOne i) hc h2 (by simp [Op.restores])
    have he : (s.step (.addOne i)).2 = none := by
      obtain ⟨new, _, _, _, _, _, _, e1, -⟩ := C36_add_one_closed c.cps h2
      simp only [State.step, hc, e1]
    simp only [Op.adds, if_true] at c3
    unfold padVal
    split
    · rename_i s1 e
      rw [e] at c1
      obtain ⟨i1, i2⟩ := ih s1 c1 (by omega)
      exact ⟨i1, by omega⟩
    · rename_i s1 x e
      rw [e] at he
      cases he

/-- C108: `Morph` with `force` of two curves with at least two control points each, the source being closed if it is filled: nothing
is raised if the source is in the model (`n + 1` times); both get the larger number of control points and keep their outlines; there is
one more curve, equal to the source as it is now; other curves do not change. -/
theorem C108_made {w : World} {v : Values} (hv : w.values = some v) (hs : Sound w) {i j : ℕ} {c d : Curve}
    (hc : v.st.curves[i]? = some c) (hd : v.st.curves[j]? = some d) (h2 : 2 ≤ c.cps.length) (g2 : 2 ≤ d.cps.length)
    (hf : c.pb.filled = true → c.closed = true) (n : ℕ) :
    ∃ w' v' c' d', step w (.morph i j true (.ok (n + 1))) = (w', none) ∧ w'.values = some v' ∧
      v'.morphs = v.morphs ++ [⟨i, v.st.curves.length, j⟩] ∧ v'.st.curves.length = v.st.curves.length + 1 ∧
      v'.st.curves[i]? = some c' ∧ v'.st.curves[j]? = some d' ∧ v'.st.curves[v.st.curves.length]? = some c' ∧
      c'.cps.length = max c.cps.length d.cps.length ∧ d'.cps.length = max c.cps.length d.cps.length ∧
      c'.outline = c.outline ∧ d'.outline = d.outline ∧
      ∀ l, l < v.st.curves.length → l ≠ i → l ≠ j → v'.st.curves[l]? = v.st.curves[l]? := by
  have J := winv_iff.2 ⟨hv, hs⟩
  obtain ⟨e, J1⟩ := step_winv J (.morph i j true (.ok (n + 1))) (by simp)
  have hil : i < v.st.curves.length := (List.getElem?_eq_some_iff.1 hc).1
  have hjl : j < v.st.curves.length := (List.getElem?_eq_some_iff.1 hd).1
  obtain ⟨ci, ci1, ci2, ci3, ci4, ci5, ci6, ci7⟩ := Keeps.call v (.morph i j true (.ok (n + 1))) (n := i) (by simp [Call.redraws]) c hc h2
  obtain ⟨dj, dj1, dj2, -⟩ := Keeps.call v (.morph i j true (.ok (n + 1))) (n := j) (by simp [Call.redraws]) d hd g2
  have main : (v.step (.morph i j true (.ok (n + 1)))).2 = none ∧ sizeVal (v.step (.morph i j true (.ok (n + 1)))).1.st i = max c.cps.length d.cps.length := by
    have si : sizeVal v.st i = c.cps.length := by simp only [sizeVal, hc]
    have sj : sizeVal v.st j = d.cps.length := by simp only [sizeVal, hd]
    obtain ⟨p1, p2⟩ := padVal_ok (d.cps.length - c.cps.length) v.st i hc h2
    obtain ⟨c1, c1a, c1b, c1c, c1d⟩ := Keeps.pad (d.cps.length - c.cps.length) v.st i i c hc h2
    obtain ⟨d1, d1a, d1b, d1c, d1d⟩ := Keeps.pad (d.cps.length - c.cps.length) v.st i j d hd g2
    have q : (padBothVal v.st i j true).2 = none ∧ sizeVal (padBothVal v.st i j true).1 i = max c.cps.length d.cps.length ∧
        sizeVal (padBothVal v.st i j true).1 j = max c.cps.length d.cps.length := by
      simp only [padBothVal, if_true, si, sj]
      obtain ⟨A, hA⟩ : ∃ A, A = padVal v.st i (d.cps.length - c.cps.length) := ⟨_, rfl⟩
      have oth : j ≠ i → A.1.curves[j]? = v.st.curves[j]? := fun h => by rw [hA]; exact padVal_other _ _ _ h
      rw [← hA] at p1 p2 c1a d1a ⊢
      obtain ⟨A1, A2⟩ := A
      simp only at p1 p2 c1a d1a oth
      subst p1
      simp only
      have t1 : sizeVal A1 j = d1.cps.length := by simp only [sizeVal, d1a]
      obtain ⟨r1, r2⟩ := padVal_ok (sizeVal A1 i - sizeVal A1 j) A1 j d1a d1c
      refine ⟨r1, ?_, ?_⟩
      · by_cases hij : j = i
        · subst hij
          rw [hc] at hd
          cases hd
          rw [r2]
          omega
        · rw [size_of_get (padVal_other _ _ _ (Ne.symm hij)), p2]
          omega
      · rw [r2]
        by_cases hij : j = i
        · subst hij
          rw [hc] at hd
          cases hd
          omega
        · rw [oth hij, hd] at d1a
          cases d1a
          omega
    obtain ⟨q1, q2, q3⟩ := q
    have len := padBothVal_len v.st i j true
    obtain ⟨x, x1, -, -, x4, x5, x6, -⟩ := Keeps.padBoth v.st i j true i c hc h2
    simp only [Values.step, if_pos (show i < v.st.curves.length ∧ j < v.st.curves.length from ⟨hil, hjl⟩)]
    obtain ⟨A, hA⟩ : ∃ A, A = padBothVal v.st i j true := ⟨_, rfl⟩
    rw [← hA] at q1 q2 q3 len x1 ⊢
    obtain ⟨A1, A2⟩ := A
    simp only at q1 q2 q3 len x1
    subst q1
    have hb : ¬ ((x.pb.filled && !x.closed) = true) := by
      rw [x5, x6]
      intro hb
      simp only [Bool.and_eq_true, Bool.not_eq_true'] at hb
      rw [hf hb.1] at hb
      exact absurd hb.2 (by simp)
    have cp : A1.step (.copy i) = (⟨A1.xfs, A1.curves ++ [x]⟩, none) := by
      simp only [State.step, x1, State.add, if_neg hb]
    simp only [cp]
    have u1 : sizeVal ⟨A1.xfs, A1.curves ++ [x]⟩ i = sizeVal A1 i := size_of_get (List.getElem?_append_left (by omega))
    have u2 : sizeVal ⟨A1.xfs, A1.curves ++ [x]⟩ j = sizeVal A1 j := size_of_get (List.getElem?_append_left (by omega))
    rw [if_neg (by rw [u1, u2, q2, q3]; simp)]
    exact ⟨rfl, u1.trans q2⟩
  rw [main.1] at e
  obtain ⟨m1, m2, m3, m4, m5, m6⟩ := morph_made (v := v) (v1 := (v.step (.morph i j true (.ok (n + 1)))).1) (Prod.ext rfl main.1)
  refine ⟨_, _, ci, dj, Prod.ext rfl e, (winv_iff.1 J1).1, m3, m4, ci1, dj1, m6.trans ci1, ?_, ?_, ci2, dj2, ?_⟩
  · rw [← main.2]; simp only [sizeVal, ci1]
  · rw [← main.2, m5]; simp only [sizeVal, dj1]
  · intro l hl hi hj
    exact morph_other v i j true _ hl hi hj

/-! ### What goes wrong when curves are shared -/

/-- Three control points. -/
def three : List (CP ℝ) := [⟨⟨0, 0⟩, ⟨0, 0⟩, ⟨0, 0⟩, "smooth"⟩, ⟨⟨8, 0⟩, ⟨0, 0⟩, ⟨0, 0⟩, "smooth"⟩, ⟨⟨8, 8⟩, ⟨0, 0⟩, ⟨0, 0⟩, "smooth"⟩]

theorem bulge_addOne : X7.addOne bulge = .ok (⟨⟨2, 6⟩, ⟨1, 0⟩, ⟨-1, 0⟩, "smooth"⟩ :: flat) := by
  have hm : lastMax ((iterRotate2 bulge).map fun ab => (ab.1.c.sub ab.2.c).length) = some 1 := by
    have : hypot (-4 : ℝ) 0 = hypot 4 0 := by
      apply hypot_unique (hypot_nonneg _ _)
      rw [hypot_sq]; norm_num
    simp [bulge, iterRotate2, lastMax, lastMaxFrom, Vec.length, Pt.sub, this]
  simp only [X7.addOne, hm]
  have hs := bulge_split
  rw [show (1 / 2 : ℝ) = 2⁻¹ by norm_num] at hs
  simp [bulge, flat, hs]

/-- The control points of the first morph at 1. -/
def half : List (CP ℝ) := [⟨⟨2, 6⟩, ⟨1, 0⟩, ⟨-1, 0⟩, "smooth"⟩, ⟨⟨0, 0⟩, ⟨0, 4⟩, ⟨0, 0⟩, "smooth"⟩]

theorem half_right : (⟨4, 0⟩ : Pt ℝ) ∉ Morph.trace (segs true half) := by
  rintro ⟨S, hS, u, h0, h1, e⟩
  simp [segs, closedSegs, half] at hS
  rcases hS with rfl | rfl <;> simp [seg, Poly4.at', bern, CP.r, CP.l, Pt.addVector] at e
  · nlinarith [mul_nonneg h0 (sub_nonneg.2 h1), pow_nonneg h0 3, pow_nonneg (sub_nonneg.2 h1) 3,
      mul_nonneg (mul_nonneg h0 h0) (sub_nonneg.2 h1), mul_nonneg h0 (mul_nonneg (sub_nonneg.2 h1) (sub_nonneg.2 h1))]
  · nlinarith [mul_nonneg h0 (sub_nonneg.2 h1), pow_nonneg h0 3, pow_nonneg (sub_nonneg.2 h1) 3,
      mul_nonneg (mul_nonneg h0 h0) (sub_nonneg.2 h1), mul_nonneg h0 (mul_nonneg (sub_nonneg.2 h1) (sub_nonneg.2 h1))]

theorem bulge_right : (⟨4, 0⟩ : Pt ℝ) ∈ Morph.trace (segs true bulge) := by
  refine ⟨seg ⟨⟨4, 0⟩, ⟨0, 0⟩, ⟨0, 8⟩, "smooth"⟩ ⟨⟨0, 0⟩, ⟨0, 8⟩, ⟨0, 0⟩, "smooth"⟩, ?_, 0, by norm_num, by norm_num, ?_⟩
  · simp [segs, closedSegs, bulge]
  · simp only [seg, Poly4.at', bern]; norm_num

/-- C108: a chain of morphs. Curve 0 is morphed to curve 1, and then curve 1 to curve 2, which has a control point more. The second
`Morph` adds a control point to curve 1 after the first one has compared the numbers. Nothing is raised; but the first morph, at 1, does
not show the line of its target: it moves to the first two of its three control points. -/
theorem C108_chain_counterexample (pb : PenBrush) :
    ∃ (as : List Call) (w : World) (v : Values) (target shown : Curve), as = [.curve (.make [] pb true Mat3.one flat),
        .curve (.make [] pb true Mat3.one bulge), .curve (.make [] pb true Mat3.one three), .morph 0 1 true (.ok 1), .morph 1 2 true (.ok 1),
        .update 0 (.num 1)] ∧
      run ⟨Heap.empty, []⟩ as = (w, [none, none, none, none, none, none]) ∧ w.values = some v ∧
      v.morphs[0]? = some ⟨0, 3, 1⟩ ∧ v.st.curves[1]? = some target ∧ v.st.curves[3]? = some shown ∧
      target.cps.length = 3 ∧ shown.cps.length = 2 ∧ shown.outline ≠ target.outline := by
  obtain ⟨as, has⟩ : ∃ as : List Call, as = [.curve (.make [] pb true Mat3.one flat),
        .curve (.make [] pb true Mat3.one bulge), .curve (.make [] pb true Mat3.one three), .morph 0 1 true (.ok 1), .morph 1 2 true (.ok 1),
        .update 0 (.num 1)] := ⟨_, rfl⟩
  have lf : flat.length = 2 := rfl
  have lb : bulge.length = 2 := rfl
  have lt : three.length = 3 := rfl
  have key : Values.run ⟨⟨[], []⟩, []⟩ as = (⟨⟨[Mat3.one, Mat3.one, Mat3.one], [⟨[], pb, true, 0, flat⟩,
      ⟨[], pb, true, 1, ⟨⟨2, 6⟩, ⟨1, 0⟩, ⟨-1, 0⟩, "smooth"⟩ :: flat⟩, ⟨[], pb, true, 2, three⟩, ⟨[], pb, true, 0, half⟩,
      ⟨[], pb, true, 1, ⟨⟨2, 6⟩, ⟨1, 0⟩, ⟨-1, 0⟩, "smooth"⟩ :: flat⟩]⟩, [⟨0, 3, 1⟩, ⟨1, 4, 2⟩]⟩,
      [none, none, none, none, none, none]) := by
    have mix : Morph.mixAll 1 flat flat (⟨⟨2, 6⟩, ⟨1, 0⟩, ⟨-1, 0⟩, "smooth"⟩ :: flat) = half := by
      simp [Morph.mixAll, flat, half, Morph.mixCP, Morph.mixPt, Morph.mixVec, Pt.addVector, Pt.sub, Vec.mul, Vec.add, Vec.sub,
        Vec.subVector]
    rw [has]
    simp [Values.run, Values.step, State.step, State.addXf, State.add, padBothVal, padVal, sizeVal, lf, lb, lt, bulge_addOne, updVal,
      mix]
  have ha : Values.Allowed ⟨⟨[], []⟩, []⟩ as := by
    rw [has]
    simp [Values.Allowed]
  obtain ⟨p1, p2, -⟩ := C108_program as ha
  rw [key] at p1 p2
  refine ⟨as, _, _, _, _, has, Prod.ext rfl p2, p1, rfl, rfl, rfl, rfl, rfl, ?_⟩
  intro h
  have h1 : (⟨4, 0⟩ : Pt ℝ) ∈ Morph.trace (segs true (⟨⟨2, 6⟩, ⟨1, 0⟩, ⟨-1, 0⟩, "smooth"⟩ :: flat)) := by
    rw [(outline_addOne (by simp [bulge]) bulge_addOne).1]
    exact bulge_right
  simp only [Curve.outline] at h
  rw [← h] at h1
  exact half_right h1

/-- C108: if the curve of a morph is reversed, the reversed curve holds its points and vectors: the next update of the morph moves
the reversed curve too. -/
theorem C108_reversed_counterexample (pb : PenBrush) :
    ∃ (as : List Call) (w w' : World) (v v' : Values) (c c' : Curve), as = [.curve (.make [] pb true Mat3.one
        [⟨⟨0, 0⟩, ⟨0, 0⟩, ⟨0, 0⟩, "smooth"⟩]), .curve (.make [] pb true Mat3.one [⟨⟨4, 0⟩, ⟨0, 0⟩, ⟨0, 0⟩, "smooth"⟩]),
        .morph 0 1 true (.ok 1), .curve (.reversed 2)] ∧
      run ⟨Heap.empty, []⟩ as = (w, [none, none, none, none]) ∧ w.values = some v ∧ v.morphs[0]? = some ⟨0, 2, 1⟩ ∧
      step w (.update 0 (.num 1)) = (w', none) ∧ w'.values = some v' ∧
      v.st.curves[3]? = some c ∧ v'.st.curves[3]? = some c' ∧ c.cps.map CP.c = [⟨0, 0⟩] ∧ c'.cps.map CP.c = [⟨4, 0⟩] := by
  refine ⟨_, ⟨⟨[Mat3.one, Mat3.one], [⟨0, 0⟩, ⟨4, 0⟩, ⟨0, 0⟩], [⟨0, 0⟩, ⟨0, 0⟩, ⟨0, 0⟩, ⟨0, 0⟩, ⟨0, 0⟩, ⟨0, 0⟩],
      [⟨0, 0, 1, "smooth"⟩, ⟨1, 2, 3, "smooth"⟩, ⟨2, 4, 5, "smooth"⟩, ⟨2, 5, 4, "smooth"⟩],
      [⟨[], pb, true, 0, [0]⟩, ⟨[], pb, true, 1, [1]⟩, ⟨[], pb, true, 0, [2]⟩, ⟨[], pb, true, 0, [3]⟩]⟩, [⟨0, 2, 1⟩]⟩,
    ⟨⟨[Mat3.one, Mat3.one], [⟨0, 0⟩, ⟨4, 0⟩, ⟨4, 0⟩], [⟨0, 0⟩, ⟨0, 0⟩, ⟨0, 0⟩, ⟨0, 0⟩, ⟨0, 0⟩, ⟨0, 0⟩],
      [⟨0, 0, 1, "smooth"⟩, ⟨1, 2, 3, "smooth"⟩, ⟨2, 4, 5, "smooth"⟩, ⟨2, 5, 4, "smooth"⟩],
      [⟨[], pb, true, 0, [0]⟩, ⟨[], pb, true, 1, [1]⟩, ⟨[], pb, true, 0, [2]⟩, ⟨[], pb, true, 0, [3]⟩]⟩, [⟨0, 2, 1⟩]⟩,
    _, _, _, _, rfl, ?_, by simp [World.values, vals, curveVals, readCps, readCp]; rfl, rfl, ?_,
    by simp [World.values, vals, curveVals, readCps, readCp]; rfl, rfl, rfl, rfl, rfl⟩
  · simp [run, step, CH.step, make, newCps, newCp, newCurveXf, newXf, Heap.empty, newMorph, padBoth, pad, size, CH.copy, readCps,
      readCp, newCurve, CH.reversed, reverseCps, reverseCp]
  · simp [step, update, mixLoop, mixCpAt, mixPtAt, mixVecAt, Morph.mixPt, Morph.mixVec, Pt.addVector, Pt.sub, Vec.mul, Vec.add, Vec.sub,
      Vec.subVector]

/-! ### The hypotheses are met -/

/-- Two morphs from one source; the second target is changed and restored in between. -/
example (pb : PenBrush) : ∃ (w : World) (v : Values) (c d : Curve) (as : List Call), w.values = some v ∧ Sound w ∧
    v.morphs[0]? = some ⟨0, 3, 1⟩ ∧ v.st.curves[0]? = some c ∧ v.st.curves[2]? = some d ∧ 2 ≤ c.cps.length ∧ 2 ≤ d.cps.length ∧
    (c.pb.filled = true → c.closed = true) ∧ as = [.morph 0 2 true (.ok 1), .update 0 (.num (1 / 2)), .curve (.turn 0 1), .update 1 .none,
      .curve (.reversed 1)] ∧ v.Allowed as ∧ v.Untouched 0 as := by
  obtain ⟨as, has⟩ : ∃ as : List Call, as = [.curve (.make [] pb true Mat3.one flat),
        .curve (.make [] pb true Mat3.one bulge), .curve (.make [] pb true Mat3.one flat), .morph 0 1 true (.ok 1)] := ⟨_, rfl⟩
  have lf : flat.length = 2 := rfl
  have lb : bulge.length = 2 := rfl
  have key : (Values.run ⟨⟨[], []⟩, []⟩ as).1 = ⟨⟨[Mat3.one, Mat3.one, Mat3.one], [⟨[], pb, true, 0, flat⟩,
      ⟨[], pb, true, 1, bulge⟩, ⟨[], pb, true, 2, flat⟩, ⟨[], pb, true, 0, flat⟩]⟩, [⟨0, 3, 1⟩]⟩ := by
    rw [has]
    simp [Values.run, Values.step, State.step, State.addXf, State.add, padBothVal, padVal, sizeVal, lf, lb]
  obtain ⟨p1, -, p3⟩ := C108_program as (by rw [has]; simp [Values.Allowed])
  rw [key] at p1
  refine ⟨_, _, _, _, _, p1, p3, rfl, rfl, rfl, lf.ge, lf.ge, fun _ => rfl, rfl, ?_, ?_⟩ <;>
    simp [Values.Allowed, Values.Untouched, Call.redraws, Values.step, State.step, State.addXf, State.add, padBothVal, padVal, sizeVal,
      lf, lb, updVal]

/-- The curves of the first morph do not grow by these calls. -/
example : ∀ a ∈ ([.morph 4 2 true (.ok 1), .update 0 (.num (1 / 2)), .curve (.turn 0 1), .curve (.addOne 2), .update 1 .none] : List Call),
    0 ∉ a.mayGrow ∧ 1 ∉ a.mayGrow ∧ 3 ∉ a.mayGrow := by
  simp [Call.mayGrow]

end X7.MH
