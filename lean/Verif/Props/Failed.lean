import Verif.Spec.Failed
import Verif.Props.Builder
import Verif.Props.BoxObj
import Verif.Props.ElemNames
import Verif.Props.LineHeap
import Verif.Props.MorphHeap
import Verif.Props.PointHeap
import Verif.Props.Transform

/-!
C109: what a call that raises an exception leaves behind.
-/

noncomputable section

namespace X7.Failed

section General

variable {S O : Type*} {step : S → O → S × Option PyErr}

theorem good_errors (step : S → O → S × Option PyErr) (ops : List O) (s : S) : ∀ e ∈ errors step s (good step s ops), e = none := by
  induction ops generalizing s with
  | nil => simp [good, errors]
  | cons o os ih =>
    unfold good
    split
    · rename_i h
      intro e he
      simp only [errors, List.mem_cons] at he
      rcases he with rfl | he
      · exact h
      · exact ih _ e he
    · exact ih s

theorem good_sublist (step : S → O → S × Option PyErr) (ops : List O) (s : S) : (good step s ops).Sublist ops := by
  induction ops generalizing s with
  | nil => exact List.Sublist.refl _
  | cons o os ih =>
    unfold good
    split
    · exact (ih _).cons_cons o
    · exact (ih s).cons o

/-- If failing calls change nothing, they may be left out. -/
theorem leave_out (P : S → List O → Prop) (hP : ∀ s o os, P s (o :: os) → P (step s o).1 os)
    (ha : ∀ s o os e, P s (o :: os) → (step s o).2 = some e → (step s o).1 = s) (ops : List O) (s : S) (hs : P s ops) :
    final step s ops = final step s (good step s ops) := by
  induction ops generalizing s with
  | nil => rfl
  | cons o os ih =>
    have h1 := hP s o os hs
    unfold good
    split
    · exact ih _ h1
    · rename_i e he
      rw [ha s o os e hs he] at h1
      rw [final, ha s o os e hs he]
      exact ih s h1

theorem final_foldl (step : S → O → S × Option PyErr) (ops : List O) (s : S) :
    ops.foldl (fun s o => (step s o).1) s = final step s ops := by
  induction ops generalizing s with
  | nil => rfl
  | cons o os ih => exact ih _

end General

/-! ### Points, lines and boxes -/

section Points

variable {K : Type*} [Field K]

theorem points_same (h : PH.Heap K) (o : PH.POp K) (e : PyErr) (he : (PH.step h o).2 = some e) : (PH.step h o).1 = h := by
  revert he
  cases o <;> simp only [PH.step] <;> (repeat' split) <;> simp

theorem lineOfDiff_same (s : LH.St K) (o p q : ℕ) (e : PyErr) (he : (LH.lineOfDiff s o p q).2 = some e) : (LH.lineOfDiff s o p q).1 = s := by
  unfold LH.lineOfDiff at he ⊢
  split
  · rfl
  · split
    · rfl
    · simp_all

theorem shifted_same (s : LH.St K) (f : Pt K → Pt K → Pt K) (l v : ℕ) (e : PyErr) (he : (LH.shifted s f l v).2 = some e) :
    (LH.shifted s f l v).1 = s := by
  unfold LH.shifted at he ⊢
  split
  · rfl
  · split
    · split
      · rfl
      · split
        · rfl
        · simp_all
    · rfl

theorem lines_same (s : LH.St K) (o : LH.LOp K) (e : PyErr) (he : (LH.step s o).2 = some e) : (LH.step s o).1 = s := by
  cases o with
  | pt op => simp only [LH.step] at he ⊢; rw [points_same s.h op e he]
  | mk o d =>
    revert he
    simp only [LH.step]
    split
    · split
      · simp
      · split
        · exact lineOfDiff_same s o o d e
        · simp
    · simp
  | fromPts p q =>
    revert he
    simp only [LH.step]
    split
    · exact lineOfDiff_same s p p q e
    · simp
  | add l v => exact shifted_same s _ l v e he
  | sub l v => exact shifted_same s _ l v e he

/-- C109: points, vectors and lines. A program that catches exceptions leaves what it would leave without the calls that raise
one. -/
theorem C109_points (h : PH.Heap K) (ops : List (PH.POp K)) : PH.run h ops = PH.run h (good PH.step h ops) := by
  simp only [PH.run, final_foldl]
  exact leave_out (fun _ _ => True) (fun _ _ _ _ => trivial) (fun s o _ e _ => points_same s o e) ops h trivial

/-- C109: the same for lines. -/
theorem C109_lines (s : LH.St K) (ops : List (LH.LOp K)) : LH.run s ops = LH.run s (good LH.step s ops) := by
  simp only [LH.run, final_foldl]
  exact leave_out (fun _ _ => True) (fun _ _ _ _ => trivial) (fun s o _ e _ => lines_same s o e) ops s trivial

end Points

section Boxes

variable {K : Type*} [Field K] [LinearOrder K]

theorem boxes_run (h : List (BoxObj K)) (cs : List (BoxObj.Call K)) : BoxObj.run h cs = final onBoxes h cs := by
  induction cs generalizing h with
  | nil => rfl
  | cons c cs ih => exact ih _

theorem errOf_some {α : Type*} {r : Except PyErr α} {e : PyErr} (h : errOf r = some e) : r = .error e := by
  cases r <;> simp_all [errOf]

/-- C109: the same for boxes, as long as item assignments put numbers into boxes that have coordinates. -/
theorem C109_boxes (h : List (BoxObj K)) (hh : ∀ b ∈ h, b.Whole) (cs : List (BoxObj.Call K)) (hc : BoxObj.Filling h cs) :
    BoxObj.run h cs = BoxObj.run h (good onBoxes h cs) := by
  rw [boxes_run, boxes_run]
  refine leave_out (fun h cs => BoxObj.Filling h cs ∧ ∀ b ∈ h, b.Whole) ?_ ?_ cs h ⟨hc, hh⟩
  · intro h c cs hp
    exact ⟨hp.1.2, BoxObj.C94_whole [c] h ⟨hp.1.1, trivial⟩ hp.2⟩
  · intro h c cs e hp he
    exact BoxObj.C94_atomic h hp.2 c e (errOf_some he)

end Boxes

/-! ### Transforms -/

/-- Matrix and stack are the same; an inverse is remembered only if there is one. -/
structure Alike (s t : TState) : Prop where
  mat : s.mat = t.mat
  stack : s.stack = t.stack
  left : s.inv ≠ none → s.mat.det ≠ 0
  right : t.inv ≠ none → t.mat.det ≠ 0

theorem inv_err (m : Mat3 ℝ) : errOf m.inv = if m.det = 0 then some .linAlg else none := by
  unfold Mat3.inv
  split <;> simp [errOf]

theorem inverse_err {s : TState} (h : s.inv ≠ none → s.mat.det ≠ 0) :
    errOf s.inverse.2 = if s.mat.det = 0 then some .linAlg else none := by
  unfold TState.inverse
  cases hi : s.inv with
  | some i => simp [errOf, h (by simp [hi])]
  | none =>
    rw [← inv_err]
    simp only
    split <;> rename_i e <;> rw [e] <;> rfl

theorem inverse_left {s : TState} (h : s.inv ≠ none → s.mat.det ≠ 0) : s.inverse.1.inv ≠ none → s.inverse.1.mat.det ≠ 0 := by
  unfold TState.inverse
  cases hi : s.inv with
  | some i => simpa [hi] using h
  | none =>
    simp only
    split
    · rename_i i e
      intro _ hd
      simp only at hd
      rw [Mat3.inv, if_pos hd] at e
      cases e
    · simp [hi]

theorem untransform_err (s : TState) (p : Pt ℝ) : (s.step (.untransform p)).err = errOf s.inverse.2 := by
  simp only [TState.step, TState.untransform]
  obtain ⟨A, hA⟩ : ∃ A, A = s.inverse := ⟨_, rfl⟩
  rw [← hA]
  obtain ⟨A1, A2⟩ := A
  cases A2 <;> rfl

theorem untransformPts_err (s : TState) (ps : List (Pt ℝ)) :
    (s.step (.untransformPts ps)).err = match errOf s.inverse.2 with
      | some e => some e
      | none => if ps = [] then some .value else none := by
  simp only [TState.step, TState.untransformPts]
  obtain ⟨A, hA⟩ : ∃ A, A = s.inverse := ⟨_, rfl⟩
  rw [← hA]
  obtain ⟨A1, A2⟩ := A
  cases A2 with
  | error e => rfl
  | ok i => cases ps <;> simp [errOf]

theorem det_rotateAbout (s : TState) (a : ℝ) (c : Pt ℝ) : (s.rotateAbout a c).mat.det = s.mat.det := by
  have h := Real.cos_sq_add_sin_sq (radians a)
  simp only [TState.rotateAbout, TState.new, TState.translate, TState.rotate, Mat3.det, Mat3.mul, Mat3.translateMat, Mat3.rotateMat,
    Mat3.one]
  linear_combination (Mat3.det s.mat) * h - (Mat3.det s.mat) * h + (s.mat.a * (s.mat.e * s.mat.i - s.mat.f * s.mat.h) -
    s.mat.b * (s.mat.d * s.mat.i - s.mat.f * s.mat.g) + s.mat.c * (s.mat.d * s.mat.h - s.mat.e * s.mat.g)) * h

/-- Alike states raise the same and stay alike; a failing call may be made on one only. -/
theorem Alike.step {s t : TState} (R : Alike s t) (o : TOp) (ho : NoBox o) :
    (s.step o).err = (t.step o).err ∧ Alike (s.step o).st (t.step o).st ∧
      ((t.step o).err ≠ none → Alike (s.step o).st t) := by
  obtain ⟨r1, r2, r3, r4⟩ := R
  cases o with
  | scaleBBox a b k => exact ho.elim
  | pop =>
    simp only [TState.step, TState.pop]
    rw [r2]
    cases ht : t.stack with
    | nil => exact ⟨rfl, ⟨r1, by simp only [r2], r3, r4⟩, fun _ => ⟨r1, r2, r3, r4⟩⟩
    | cons m rest => exact ⟨rfl, ⟨rfl, rfl, by simp, by simp⟩, by simp⟩
  | untransform p =>
    have e1 := untransform_err s p
    have e2 := untransform_err t p
    rw [inverse_err r3] at e1
    rw [inverse_err r4] at e2
    rw [r1] at e1
    refine ⟨e1.trans e2.symm, ?_, fun _ => ?_⟩
    · simp only [TState.step, untransform_same]
      exact ⟨(inverse_same s).1.trans (r1.trans (inverse_same t).1.symm), (inverse_same s).2.trans (r2.trans (inverse_same t).2.symm),
        inverse_left r3, inverse_left r4⟩
    · simp only [TState.step, untransform_same]
      exact ⟨(inverse_same s).1.trans r1, (inverse_same s).2.trans r2, inverse_left r3, r4⟩
  | untransformPts ps =>
    have e1 := untransformPts_err s ps
    have e2 := untransformPts_err t ps
    rw [inverse_err r3, r1] at e1
    rw [inverse_err r4] at e2
    refine ⟨e1.trans e2.symm, ?_, fun _ => ?_⟩
    · simp only [TState.step, untransformPts_same]
      exact ⟨(inverse_same s).1.trans (r1.trans (inverse_same t).1.symm), (inverse_same s).2.trans (r2.trans (inverse_same t).2.symm),
        inverse_left r3, inverse_left r4⟩
    · simp only [TState.step, untransformPts_same]
      exact ⟨(inverse_same s).1.trans r1, (inverse_same s).2.trans r2, inverse_left r3, r4⟩
  | rotateAbout a c =>
    refine ⟨rfl, ⟨?_, r2, ?_, ?_⟩, by simp [TState.step]⟩
    · simp only [TState.step, TState.rotateAbout, r1]
    · simp only [TState.step]; rw [det_rotateAbout]; exact r3
    · simp only [TState.step]; rw [det_rotateAbout]; exact r4
  | push => exact ⟨rfl, ⟨r1, by simp only [TState.step, TState.push, r1, r2], r3, r4⟩, by simp [TState.step]⟩
  | transform p => exact ⟨rfl, ⟨r1, r2, r3, r4⟩, by simp [TState.step]⟩
  | translate dx dy =>
    exact ⟨rfl, ⟨by simp only [TState.step, TState.translate, r1], r2, by simp [TState.step, TState.translate],
      by simp [TState.step, TState.translate]⟩, by simp [TState.step]⟩
  | scale dx dy =>
    exact ⟨rfl, ⟨by simp only [TState.step, TState.scale, r1], r2, by simp [TState.step, TState.scale],
      by simp [TState.step, TState.scale]⟩, by simp [TState.step]⟩
  | rotate d =>
    exact ⟨rfl, ⟨by simp only [TState.step, TState.rotate, r1], r2, by simp [TState.step, TState.rotate],
      by simp [TState.step, TState.rotate]⟩, by simp [TState.step]⟩
  | rotateCcw d =>
    exact ⟨rfl, ⟨by simp only [TState.step, TState.rotateCcw, r1], r2, by simp [TState.step, TState.rotateCcw],
      by simp [TState.step, TState.rotateCcw]⟩, by simp [TState.step]⟩
  | compose m =>
    exact ⟨rfl, ⟨by simp only [TState.step, TState.compose, r1], r2, by simp [TState.step, TState.compose],
      by simp [TState.step, TState.compose]⟩, by simp [TState.step]⟩
  | composeOuter m =>
    exact ⟨rfl, ⟨by simp only [TState.step, TState.composeOuter, r1], r2, by simp [TState.step, TState.composeOuter],
      by simp [TState.step, TState.composeOuter]⟩, by simp [TState.step]⟩
  | reset =>
    exact ⟨rfl, ⟨rfl, r2, by simp [TState.step, TState.reset], by simp [TState.step, TState.reset]⟩, by simp [TState.step]⟩
  | setMatrix m =>
    exact ⟨rfl, ⟨rfl, r2, by simp [TState.step, TState.setMatrix], by simp [TState.step, TState.setMatrix]⟩, by simp [TState.step]⟩

theorem Alike.run {s t : TState} (R : Alike s t) (ops : List TOp) (ho : ∀ o ∈ ops, NoBox o) :
    Alike (s.run ops) (t.run (good onTransform t ops)) := by
  induction ops generalizing s t with
  | nil => exact R
  | cons o os ih =>
    obtain ⟨h1, h2, h3⟩ := R.step o (ho o (by simp))
    have hr : s.run (o :: os) = (s.step o).st.run os := rfl
    rw [hr]
    unfold good
    split
    · exact ih h2 fun o h => ho o (by simp [h])
    · rename_i e he
      exact ih (h3 (by rw [show (t.step o).err = some e from he]; simp)) fun o h => ho o (by simp [h])

theorem coherent_step {s : TState} (h : Coherent s) (o : TOp) (ho : NoBox o) (ht : NoTurn o) : Coherent (s.step o).st := by
  cases o with
  | scaleBBox a b k => exact ho.elim
  | rotateAbout a c => exact ht.elim
  | untransform p => simp only [TState.step, untransform_same]; exact coherent_inverse h
  | untransformPts p => simp only [TState.step, untransformPts_same]; exact coherent_inverse h
  | pop =>
    simp only [TState.step, TState.pop]
    split
    · exact h
    · intro i hi; cases hi
  | push => exact h
  | transform p => exact h
  | _ => intro i hi; cases hi

theorem coherent_run {s : TState} (h : Coherent s) (ops : List TOp) (ho : ∀ o ∈ ops, NoBox o) (ht : ∀ o ∈ ops, NoTurn o) :
    Coherent (s.run ops) := by
  induction ops generalizing s with
  | nil => exact h
  | cons o os ih =>
    exact ih (coherent_step h o (ho o (by simp)) (ht o (by simp))) (fun o h => ho o (by simp [h])) fun o h => ht o (by simp [h])

theorem answer_coherent {s : TState} (h : Coherent s) (p : Pt ℝ) : answer s p = s.mat.inv.map fun i => i.apply p := by
  have := inverse_val h
  unfold answer TState.untransform
  obtain ⟨A, hA⟩ : ∃ A, A = s.inverse := ⟨_, rfl⟩
  rw [← hA] at this ⊢
  obtain ⟨A1, A2⟩ := A
  simp only at this
  rw [← this]
  cases A2 <;> rfl

/-- C109: transforms. Without `scale_bbox`, a program that catches exceptions leaves the matrix and the stack that it would leave
without the calls that raise one. If it does not call `rotate_about` either, `untransform` answers the same afterwards. -/
theorem C109_transforms (ops : List TOp) (ho : ∀ o ∈ ops, NoBox o) :
    (TState.new.run ops).mat = (TState.new.run (good onTransform TState.new ops)).mat ∧
    (TState.new.run ops).stack = (TState.new.run (good onTransform TState.new ops)).stack ∧
    ((∀ o ∈ ops, NoTurn o) → ∀ p, answer (TState.new.run ops) p = answer (TState.new.run (good onTransform TState.new ops)) p) := by
  have R := Alike.run (s := TState.new) (t := TState.new) ⟨rfl, rfl, by simp [TState.new], by simp [TState.new]⟩ ops ho
  refine ⟨R.mat, R.stack, fun ht p => ?_⟩
  have hc : Coherent TState.new := by intro i hi; cases hi
  have hs := good_sublist onTransform ops TState.new
  rw [answer_coherent (coherent_run hc ops ho ht), answer_coherent (coherent_run hc _ (fun o h => ho o (hs.subset h))
    (fun o h => ht o (hs.subset h))), R.mat]

/-- C109 (false for `rotate_about`): `untransform_pts([])` raises, but has remembered the inverse; `rotate_about` does not forget it,
so `untransform` then answers something else than it would have. -/
theorem C109_transforms_counterexample : ∃ (ops : List TOp) (p : Pt ℝ), (∀ o ∈ ops, NoBox o) ∧
    errors onTransform TState.new ops = [some .value, none] ∧
    answer (TState.new.run ops) p ≠ answer (TState.new.run (good onTransform TState.new ops)) p := by
  have hi : (Mat3.one : Mat3 ℝ).inv = .ok Mat3.one := by
    simp [Mat3.inv, Mat3.one, Mat3.det]
  have h90 : radians 90 = Real.pi / 2 := by simp [radians]; ring
  refine ⟨[.untransformPts [], .rotateAbout 90 ⟨0, 0⟩], ⟨1, 0⟩, by simp [NoBox], ?_, ?_⟩
  · simp [errors, onTransform, TState.step, TState.untransformPts, TState.inverse, TState.new, hi]
  · have hg : good onTransform TState.new [.untransformPts [], .rotateAbout 90 ⟨0, 0⟩] = [.rotateAbout 90 ⟨0, 0⟩] := by
      simp [good, onTransform, TState.step, TState.untransformPts, TState.inverse, TState.new, hi]
    rw [hg]
    have hb : (Mat3.rotateMat 0 1 : Mat3 ℝ).inv = .ok (Mat3.rotateMat 0 (-1)) := by
      simp [Mat3.inv, Mat3.rotateMat, Mat3.det]
    simp [answer, TState.run, TState.step, TState.untransform, TState.untransformPts, TState.inverse, TState.new, hi, TState.rotateAbout,
      TState.translate, TState.rotate, h90, Mat3.mul, Mat3.one, Mat3.translateMat, Mat3.rotateMat, Mat3.apply, Mat3.inv, Mat3.det]

/-- C109: `scale_bbox` that raises leaves the transform as it was, or moved by the lower left corner of the first box, and then perhaps
scaled too; the stack is as it was. With `keep_aspect` and a second box that has coordinates it leaves it as it was. -/
theorem C109_scale_bbox (s : TState) (a b : BBox ℝ) (k : Bool) (e : PyErr) (he : (s.scaleBBox a b k).err = some e) :
    ((s.scaleBBox a b k).st = s ∨ ∃ xl yl xh yh, a = .box xl yl xh yh ∧ ((s.scaleBBox a b k).st = s.translate (-xl) (-yl) ∨
      b = .none ∧ (s.scaleBBox a b k).st = (s.translate (-xl) (-yl)).scale 0 0)) ∧
    (k = true → b ≠ .none → (s.scaleBBox a b k).st = s) := by
  cases a with
  | none =>
    have : (s.scaleBBox .none b k).st = s := by cases k <;> simp [TState.scaleBBox, BBox.width]
    exact ⟨.inl this, fun _ _ => this⟩
  | box xl yl xh yh =>
    by_cases hz : xh - xl = 0 ∨ yh - yl = 0
    · cases k with
      | true =>
        have : (s.scaleBBox (.box xl yl xh yh) b true).st = s := by simp [TState.scaleBBox, BBox.width, BBox.height, hz]
        exact ⟨.inl this, fun _ _ => this⟩
      | false =>
        refine ⟨.inr ⟨_, _, _, _, rfl, .inl ?_⟩, by simp⟩
        simp [TState.scaleBBox, BBox.width, BBox.height, hz]
    · cases b with
      | box _ _ _ _ => cases k <;> simp [TState.scaleBBox, BBox.width, BBox.height, hz] at he
      | none =>
        refine ⟨.inr ⟨_, _, _, _, rfl, .inr ⟨rfl, ?_⟩⟩, by simp⟩
        cases k <;> simp [TState.scaleBBox, BBox.width, BBox.height, hz]

/-- C109 (false for `scale_bbox`): a first box without height is a `ZeroDivisionError`, but the transform has been moved. -/
theorem C109_scale_bbox_counterexample : ∃ a b : BBox ℝ, (TState.new.scaleBBox a b false).err = some .zeroDivision ∧
    (TState.new.scaleBBox a b false).st.transform ⟨1, 2⟩ = ⟨0, 0⟩ := by
  refine ⟨.box 1 2 3 2, .box 0 0 1 1, ?_, ?_⟩ <;>
    simp [TState.scaleBBox, BBox.width, BBox.height, TState.new, TState.translate, TState.transform, Mat3.apply, Mat3.mul,
      Mat3.translateMat, Mat3.one]

/-! ### Groups -/

theorem addElem_same {S : Build.BState × List Build.GB} {b : Build.GB} {name : Str} {x e : _} (he : errOf (Build.addElem S.1 b name x).2 = some e) :
    (Build.addElem S.1 b name x).1 = S.1 := by
  revert he
  unfold Build.addElem
  split <;> simp [errOf]

theorem builders_same {S : Build.BState × List Build.GB} (h : Build.WF S) (o : Build.BOp) (e : PyErr)
    (he : (onBuilders S o).2 = some e) : (onBuilders S o).1 = S := by
  cases o with
  | elem i name kind closed shape =>
    simp only [onBuilders, Build.step] at he ⊢
    cases hb : S.2[i]? with
    | none => rfl
    | some b =>
      rw [hb] at he
      simp only [Option.bind_some] at he
      refine Prod.ext ?_ rfl
      revert he
      simp only [Build.elemAny]
      split
      · simp
      · split
        · simp
        · exact addElem_same
  | add i name x =>
    simp only [onBuilders, Build.step] at he ⊢
    cases hb : S.2[i]? with
    | none => rfl
    | some b =>
      rw [hb] at he
      exact Prod.ext (addElem_same he) rfl
  | group i name pens kind =>
    simp only [onBuilders, Build.step] at he ⊢
    cases hb : S.2[i]? with
    | none => rfl
    | some b =>
      rw [hb] at he
      simp only [Option.bind_some] at he ⊢
      revert he
      simp only [Build.group]
      cases Build.addKey (S.1.obj b.group) "Group".toList name <;> simp [errOf]
  | point i name p =>
    simp only [onBuilders, Build.step] at he ⊢
    cases hb : S.2[i]? with
    | none => rfl
    | some b =>
      rw [hb] at he
      refine Prod.ext ?_ rfl
      revert he
      simp only [Option.bind_some, Build.addPt]
      split
      · simp
      · split <;> simp [errOf]
  | hide i => simp [onBuilders] at he
  | rotate i x angle sh extra =>
    simp only [onBuilders, Build.step] at he ⊢
    cases hb : S.2[i]? with
    | none => rfl
    | some b =>
      rw [hb] at he
      have hg : b.group < S.1.next := h.own i b hb ▸ h.lt hb
      refine Prod.ext ?_ rfl
      revert he
      simp only [Option.bind_some, Build.rotateAboutCenter]
      cases x.center with
      | error er => simp
      | ok c =>
        simp only
        cases (x.transform (TState.new.rotateAbout angle c)).2 with
        | error er => simp
        | ok t =>
          simp only
          rcases Build.addElem_spec h b hg (x.hdr.name ++ "_r".toList ++ extra) t with
            ⟨h0, h1⟩ | ⟨h0, k, st', h1, h2, h3, h4, h5, h6, h7⟩
          · rw [h1]; simp
          · have hw := Build.addElem_wf h b hg (x.hdr.name ++ "_r".toList ++ extra) t
            rw [h1] at hw ⊢
            have hg' : b.group < st'.next := by rw [h5]; exact hg
            cases sh with
            | false => simp [errOf]
            | true =>
              simp only [if_true, Build.ellipse, Build.elemAny, Build.pickPen, Option.getD_some, Build.construct]
              rcases Build.addElem_spec hw.1 b hg' (x.hdr.name ++ "_c".toList ++ extra)
                  (.ellipse ⟨x.hdr.name ++ "_c".toList ++ extra, x.hdr.pb, true, Mat3.one⟩ (c.subVec ⟨1, 1⟩) (c.addVector ⟨1, 1⟩)) with
                ⟨j0, j1⟩ | ⟨j0, k', st'', j1, j2, j3, j4, -⟩
              · exfalso
                simp only [List.mem_append, not_or] at h0 j0
                rcases j0 with (j0 | j0) | j0
                · exact h0.1.1 j0
                · simp at j0
                · exact h0.2 j0
              · simp only [] at j1
                rw [j1]
                simp [errOf]

/-- C109: `GroupBuilder`. A program that catches exceptions leaves what it would leave without the calls that raise one, also where a
call adds two elements. -/
theorem C109_builders (name : Str) (pens : ByShape PenBrush) (kind : String) (ops more : List Build.BOp) :
    Build.run name pens kind (ops ++ more) = Build.run name pens kind (ops ++ good onBuilders (Build.run name pens kind ops) more) := by
  rw [Build.run_append, Build.run_append]
  have hf : ∀ (ops : List Build.BOp) S, ops.foldl Build.step S = final onBuilders S ops := by
    intro ops
    induction ops with
    | nil => intro S; rfl
    | cons o os ih => intro S; exact ih _
  rw [hf, hf]
  exact leave_out (fun S _ => Build.WF S) (fun S o _ h => (Build.step_wf h o).1) (fun S o _ e h => builders_same h o e) more _
    (Build.run_wf name pens kind ops)

mutual
theorem replace_same {same : Elem → Bool} {r : Elem} : (e : Elem) → Elem.hits same e = 0 → Dict e → (Elem.replace same r e).1 = e
  | .curve h x, _, _ => rfl
  | .rect h x y, _, _ => rfl
  | .rrect h x y z, _, _ => rfl
  | .ellipse h x y, _, _ => rfl
  | .holes h o i, _, _ => rfl
  | .group h hidden es, hh, hs => by
    have := replaceAll_same (same := same) (r := r) es [] (by simpa [Elem.hits] using hh) hs.1 hs.2
    simp only [List.nil_append] at this
    simp only [Elem.replace, this]
theorem replaceAll_same {same : Elem → Bool} {r : Elem} : (es pre : List (Str × Elem)) → Elem.hitsAll same es = 0 →
    ((pre ++ es).map Prod.fst).Nodup → DictAll es → (Elem.replaceAll same r es (pre ++ es)).1 = pre ++ es
  | [], pre, _, _, _ => rfl
  | (k, e) :: rest, pre, hh, hn, hs => by
    simp only [Elem.hitsAll] at hh
    have hne : ¬ same e = true := by
      intro h
      rw [if_pos h] at hh
      omega
    rw [if_neg hne] at hh
    have h1 := replace_same (same := same) (r := r) e (by omega) hs.1
    have h2 := replaceAll_same (same := same) (r := r) rest (pre ++ [(k, e)]) (by omega) (by simpa using hn) hs.2
    simp only [List.append_assoc, List.singleton_append] at h2
    have hu := Elem.upd_eq (e' := e) hn
    simp only [Elem.replaceAll, if_neg hne]
    obtain ⟨A, hA⟩ : ∃ A, A = Elem.replace same r e := ⟨_, rfl⟩
    rw [← hA] at h1 ⊢
    obtain ⟨A1, A2⟩ := A
    simp only at h1
    subst h1
    cases A2 with
    | error er => exact hu
    | ok n =>
      simp only [hu]
      obtain ⟨B, hB⟩ : ∃ B, B = Elem.replaceAll same r rest (pre ++ (k, A1) :: rest) := ⟨_, rfl⟩
      rw [← hB] at h2 ⊢
      obtain ⟨B1, B2⟩ := B
      cases B2 <;> exact h2
end

/-- C109: `replace` that finds nothing to replace leaves the tree as it is, whether it raises or not (a shape with holes makes it raise;
compare `Elem.C44_holes_counterexample`). If it raises with something to replace, this may be lost: `Elem.C44_atomic_counterexample`. -/
theorem C109_replace (same : Elem → Bool) (r e : Elem) (h : Elem.hits same e = 0) (hs : Dict e) : (Elem.replace same r e).1 = e :=
  replace_same e h hs

/-! ### Curves and morphs -/

section Curves

open CH

theorem values_same (s : State) (op : Op) (e : PyErr) (hr : op.restores = none) (he : (s.step op).2 = some e) : (s.step op).1 = s := by
  have ha : ∀ c, (s.add c).2 = some e → (s.add c).1 = s := by
    intro c; unfold State.add; split <;> simp
  have hx : ∀ n pb cl m cps, (s.addXf n pb cl m cps).2 = some e → (s.addXf n pb cl m cps).1 = s := by
    intro n pb cl m cps; unfold State.addXf; split <;> simp
  revert he
  cases op with
  | restore i j => simp [Op.restores] at hr
  | make n pb c m vs => exact hx _ _ _ _ _
  | copy i => simp only [State.step]; split <;> first | exact ha _ | simp
  | reversed i => simp only [State.step]; split <;> first | exact ha _ | simp
  | turn i k => simp only [State.step]; split <;> simp
  | setXf i m => simp only [State.step]; split <;> simp
  | addOne i => simp only [State.step]; split <;> (try split) <;> simp
  | transform i m => simp only [State.step]; split <;> (try split) <;> first | exact hx _ _ _ _ _ | simp
  | offset i off => simp only [State.step]; repeat' split
                    all_goals first | exact hx _ _ _ _ _ | simp

theorem curves_run (h : Heap) (ops : List Op) : (CH.run h ops).1 = final CH.step h ops := by
  induction ops generalizing h with
  | nil => rfl
  | cons o os ih => exact ih _

theorem values_run (s : State) (ops : List Op) : (s.run ops).1 = final State.step s ops := by
  induction ops generalizing s with
  | nil => rfl
  | cons o os ih => exact ih _

theorem curves_good {h : Heap} {s : State} (I : Inv h s) (ops : List Op) : good CH.step h ops = good State.step s ops := by
  induction ops generalizing h s with
  | nil => rfl
  | cons o os ih =>
    obtain ⟨e, J⟩ := step_inv I o
    unfold good
    rw [e, ih J, ih I]

/-- C109: curves. Without `restore`, a program that catches exceptions leaves curves and transforms with the values that they would
have without the calls that raise one. -/
theorem C109_curves {h : Heap} {s : State} (hv : vals h = some s) (ha : Apart h) (ops : List Op) (hr : ∀ op ∈ ops, op.restores = none) :
    ∃ s', vals (CH.run h ops).1 = some s' ∧ vals (CH.run h (good CH.step h ops)).1 = some s' := by
  have I := inv_iff.2 ⟨hv, ha⟩
  refine ⟨_, (C106_history hv ha ops).1, ?_⟩
  rw [(C106_history hv ha _).1, curves_good I, values_run, values_run]
  exact congrArg some (leave_out (fun _ ops => ∀ op ∈ ops, op.restores = none) (fun s o os hp op ho => hp op (by simp [ho]))
    (fun s o os e hp => values_same s o e (hp o (by simp))) ops s hr).symm

/-- C109 (false for `restore`): a curve restored from one with another number of control points raises, but has the other's name. -/
theorem C109_restore_counterexample (pb : PenBrush) (n m : Str) (hnm : n ≠ m) : ∃ (vs ws : List (CP ℝ)) (s : State),
    vals (CH.run Heap.empty [.make n pb true Mat3.one vs, .make m pb true Mat3.one ws, .restore 0 1]).1 = some s ∧
    (CH.run Heap.empty [.make n pb true Mat3.one vs, .make m pb true Mat3.one ws, .restore 0 1]).2 = [none, none, some .geomInternal] ∧
    ∃ c, s.curves[0]? = some c ∧ c.cps = vs ∧ c.name ≠ n := by
  refine ⟨bulge, [], _, (C106_program _).1, ?_, ?_⟩
  · rw [(C106_program _).2.1]
    simp [State.run, State.step, State.addXf, bulge]
  · exact ⟨⟨m, pb, true, 2, bulge⟩, by simp [State.run, State.step, State.addXf, bulge], rfl, hnm.symm⟩

open MH Anim

/-- C109: `update` of a morph that raises changes nothing. -/
theorem C109_update {w : World} {v : Values} (hv : w.values = some v) (hs : Sound w) (k : ℕ) (t : TVal) (e : PyErr)
    (he : (MH.step w (.update k t)).2 = some e) : (MH.step w (.update k t)).1.values = some v := by
  obtain ⟨e1, J⟩ := step_winv (winv_iff.2 ⟨hv, hs⟩) (.update k t) (by simp)
  rw [(winv_iff.1 J).1]
  rw [he] at e1
  congr 1
  revert e1
  simp only [Values.step]
  cases hm : v.morphs[k]? with
  | none => simp
  | some m =>
    simp only
    intro e1
    have : (updVal v.st m t).1 = v.st := by
      revert e1
      unfold updVal
      repeat' split
      all_goals simp
    rw [this]

theorem morph_unforced (v : Values) (i j : ℕ) (found : Except PyErr ℕ) {l : ℕ} (hl : l < v.st.curves.length) :
    (v.step (.morph i j false found)).1.st.curves[l]? = v.st.curves[l]? := by
  simp only [Values.step, padBothVal]
  split
  · simp only [Bool.false_eq_true, if_false]
    have h3 := copy_get v.st i (l := l) hl
    split
    · rename_i s2 x e2
      rw [e2] at h3
      exact h3
    · rename_i s2 e2
      rw [e2] at h3
      split
      · exact h3
      split <;> exact h3
  · rfl

theorem morph_failed (v : Values) (i j : ℕ) (force : Bool) (found : Except PyErr ℕ) (e : PyErr)
    (he : (v.step (.morph i j force found)).2 = some e) : (v.step (.morph i j force found)).1.morphs = v.morphs := by
  revert he
  simp only [Values.step]
  repeat' split
  all_goals simp

/-- C109: `Morph` that raises makes no morph. Without `force` it changes no curve. With `force` it may have given control points to
source and target; every curve with at least two keeps its outline, name, pen and transform. -/
theorem C109_morph {w : World} {v : Values} (hv : w.values = some v) (hs : Sound w) (i j : ℕ) (force : Bool) (found : Except PyErr ℕ)
    (e : PyErr) (he : (MH.step w (.morph i j force found)).2 = some e) :
    ∃ v', (MH.step w (.morph i j force found)).1.values = some v' ∧ v'.morphs = v.morphs ∧
      (∀ l, l < v.st.curves.length → force = false ∨ l ≠ i ∧ l ≠ j → v'.st.curves[l]? = v.st.curves[l]?) ∧
      ∀ (l : ℕ) (c : Curve), v.st.curves[l]? = some c → 2 ≤ c.cps.length → ∃ c' : Curve, v'.st.curves[l]? = some c' ∧
        c'.outline = c.outline ∧ c'.name = c.name ∧ c'.pb = c.pb ∧ c'.closed = c.closed ∧ c'.xf = c.xf := by
  obtain ⟨e1, J⟩ := step_winv (winv_iff.2 ⟨hv, hs⟩) (.morph i j force found) (by simp)
  rw [he] at e1
  refine ⟨_, (winv_iff.1 J).1, morph_failed v i j force found e e1.symm, ?_, ?_⟩
  · intro l hl h
    rcases h with rfl | ⟨h1, h2⟩
    · exact morph_unforced v i j found hl
    · exact morph_other v i j force found hl h1 h2
  · intro l c hc h2
    obtain ⟨c', c1, c2, -, c4⟩ := Keeps.call v (.morph i j force found) (n := l) (by simp [Call.redraws]) c hc h2
    exact ⟨c', c1, c2, c4⟩

theorem not_found {v : Values} {i j : ℕ} {force : Bool} (h : (v.step (.morph i j force (.ok 1))).2 = none) :
    (v.step (.morph i j force (.ok 0))).2 = some .morph ∧
      (v.step (.morph i j force (.ok 0))).1.st = (v.step (.morph i j force (.ok 1))).1.st := by
  revert h
  simp only [Values.step]
  repeat' split
  all_goals simp

/-- C109 (false for `Morph` with `force`): the source is not in the model, so `MorphError` is raised, but both curves have the larger
number of control points now, and will keep it. -/
theorem C109_morph_counterexample {w : World} {v : Values} (hv : w.values = some v) (hs : Sound w) {i j : ℕ} {c d : Curve}
    (hc : v.st.curves[i]? = some c) (hd : v.st.curves[j]? = some d) (h2 : 2 ≤ c.cps.length) (g2 : 2 ≤ d.cps.length)
    (hf : c.pb.filled = true → c.closed = true) :
    (MH.step w (.morph i j true (.ok 0))).2 = some .morph ∧
    ∃ v' c' d', (MH.step w (.morph i j true (.ok 0))).1.values = some v' ∧ v'.st.curves[i]? = some c' ∧ v'.st.curves[j]? = some d' ∧
      c'.cps.length = max c.cps.length d.cps.length ∧ d'.cps.length = max c.cps.length d.cps.length := by
  obtain ⟨w', v', c', d', a1, a2, -, -, a5, a6, -, a8, a9, -⟩ := C108_made hv hs hc hd h2 g2 hf 0
  obtain ⟨e0, J0⟩ := step_winv (winv_iff.2 ⟨hv, hs⟩) (.morph i j true (.ok 0)) (by simp)
  obtain ⟨e1, J1⟩ := step_winv (winv_iff.2 ⟨hv, hs⟩) (.morph i j true (.ok 1)) (by simp)
  rw [a1] at e1 J1
  obtain ⟨n1, n2⟩ := not_found e1.symm
  have hv' : v' = (v.step (.morph i j true (.ok 1))).1 := by
    have := (winv_iff.1 J1).1
    rw [a2] at this
    exact Option.some.inj this
  rw [hv'] at a5 a6
  exact ⟨e0.trans n1, _, c', d', (winv_iff.1 J0).1, by rw [n2]; exact a5, by rw [n2]; exact a6, a8, a9⟩

end Curves

/-! ### Examples -/

/-- Programs with calls that raise: an attribute of a point that has none, a line whose direction is a line of no vector, a box without
coordinates, a transform that cannot be inverted and an empty stack. -/
example : good PH.step ([] : PH.Heap ℝ) [.mkPoint 1 2 none, .setDelta 0 3 4, .setXY 0 5 6] = [.mkPoint 1 2 none, .setXY 0 5 6] := by
  simp [good, PH.step]

example : good onTransform TState.new [.scale 0 1, .untransform ⟨1, 1⟩, .pop, .push] = [.scale 0 1, .push] := by
  simp [good, onTransform, TState.step, TState.untransform, TState.inverse, TState.pop, TState.new, TState.scale, Mat3.inv, Mat3.det,
    Mat3.mul, Mat3.scaleMat, Mat3.one]

example (pb : PenBrush) : good CH.step CH.Heap.empty [.make [] pb true Mat3.one CH.bulge, .addOne 1, .copy 0] =
    [.make [] pb true Mat3.one CH.bulge, .copy 0] := by
  rw [curves_good (s := ⟨[], []⟩) (CH.inv_iff.2 ⟨rfl, ⟨by simp [CH.Heap.empty], by simp [CH.Heap.empty]⟩⟩)]
  simp [good, CH.State.step, CH.State.addXf, CH.State.add, CH.bulge]

example (pens : ByShape PenBrush) : good onBuilders (Build.run [] pens "shape" []) [.point 0 "a.b".toList ⟨0, 0⟩, .point 0 "a".toList ⟨0, 0⟩] =
    [.point 0 "a".toList ⟨0, 0⟩] := by
  simp [good, onBuilders, Build.run, Build.newBuilder, Build.addPt, errOf, hasDot]

end X7.Failed
