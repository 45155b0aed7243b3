import Verif.Lemmas.Mat3
import Verif.Lemmas.VecReal
import Verif.Spec.Transform

/-!
C21-C23: histories of calls on a `Transform`.
-/

namespace X7
open TSpec

/-- The object and its meaning agree. -/
structure Denotes (s : TState) (a : AState) : Prop where
  affine : s.mat.Affine
  cur : s.mat.apply = a.cur
  stackAffine : ∀ m ∈ s.stack, m.Affine
  stack : s.stack.map Mat3.apply = a.stack

theorem apply_mul_fun {m n : Mat3 ℝ} (hn : n.Affine) : (m.mul n).apply = m.apply ∘ n.apply :=
  funext fun p => Mat3.apply_mul hn p

theorem apply_translateMat (dx dy : ℝ) : (Mat3.translateMat dx dy).apply = shift dx dy := by
  funext p; ext <;> simp [Mat3.apply, Mat3.translateMat, shift]

theorem apply_scaleMat (sx sy : ℝ) : (Mat3.scaleMat sx sy).apply = stretch sx sy := by
  funext p; ext <;> simp [Mat3.apply, Mat3.scaleMat, stretch]

theorem apply_rotateMat (d : ℝ) :
    (Mat3.rotateMat (Real.cos (radians d)) (Real.sin (radians d))).apply = turnCw d := by
  funext p; ext <;> simp [Mat3.apply, Mat3.rotateMat, turnCw]

theorem apply_rotateMatCcw (d : ℝ) :
    (Mat3.rotateMatCcw (Real.cos (radians d)) (Real.sin (radians d))).apply = turnCcw d := by
  funext p; ext <;> simp [Mat3.apply, Mat3.rotateMatCcw, turnCcw]; ring

theorem affine_translateMat (dx dy : ℝ) : (Mat3.translateMat dx dy).Affine := ⟨rfl, rfl, rfl⟩
theorem affine_scaleMat (dx dy : ℝ) : (Mat3.scaleMat dx dy).Affine := ⟨rfl, rfl, rfl⟩
theorem affine_rotateMat (c s : ℝ) : (Mat3.rotateMat c s).Affine := ⟨rfl, rfl, rfl⟩
theorem affine_rotateMatCcw (c s : ℝ) : (Mat3.rotateMatCcw c s).Affine := ⟨rfl, rfl, rfl⟩

theorem Denotes.pre {s : TState} {a : AState} (h : Denotes s a) {m : Mat3 ℝ} (hm : m.Affine) (i : Option (Mat3 ℝ)) :
    Denotes { s with mat := m.mul s.mat, inv := i } { a with cur := m.apply ∘ a.cur } :=
  ⟨Mat3.affine_mul hm h.affine, by rw [apply_mul_fun h.affine, h.cur], h.stackAffine, h.stack⟩

theorem Denotes.translate {s : TState} {a : AState} (h : Denotes s a) (dx dy : ℝ) :
    Denotes (s.translate dx dy) { a with cur := shift dx dy ∘ a.cur } := by
  have := h.pre (affine_translateMat dx dy) none
  rwa [apply_translateMat] at this

theorem Denotes.scale {s : TState} {a : AState} (h : Denotes s a) (sx sy : ℝ) :
    Denotes (s.scale sx sy) { a with cur := stretch sx sy ∘ a.cur } := by
  have := h.pre (affine_scaleMat sx sy) none
  rwa [apply_scaleMat] at this

theorem rotateAbout_mat (d : ℝ) (c : Pt ℝ) :
    let m := (((TState.new.translate (-c.x) (-c.y)).rotate d).translate c.x c.y).mat
    m.Affine ∧ m.apply = turnAbout d c := by
  constructor
  · simp [TState.translate, TState.rotate, TState.new, Mat3.Affine, Mat3.mul, Mat3.translateMat, Mat3.rotateMat,
      Mat3.one]
  · funext p
    ext <;> simp [TState.translate, TState.rotate, TState.new, Mat3.mul, Mat3.translateMat, Mat3.rotateMat,
      Mat3.one, Mat3.apply, turnAbout, turnCw, shift] <;> ring

theorem scaleBBox_denotes {s : TState} {a : AState} (h : Denotes s a) (start target : BBox ℝ) (k : Bool) :
    Denotes (s.scaleBBox start target k).st
      { a with cur := (boxMaps start target k).foldl (fun f g => g ∘ f) a.cur } := by
  cases start with
  | none => cases k <;> simpa [TState.scaleBBox, boxMaps, BBox.width] using h
  | box xl yl xh yh =>
    cases k with
    | true =>
      by_cases hz : xh - xl = 0 ∨ yh - yl = 0
      · simpa [TState.scaleBBox, boxMaps, BBox.width, BBox.height, hz] using h
      · cases target with
        | none =>
          have := (h.translate (-xl) (-yl)).scale 0 0
          simpa [TState.scaleBBox, boxMaps, BBox.width, BBox.height, hz] using this
        | box txl tyl txh tyh =>
          simp only [TState.scaleBBox, boxMaps, BBox.width, BBox.height, hz, if_true, if_false, List.foldl]
          exact ((h.translate _ _).scale _ _).translate _ _
    | false =>
      by_cases hz : xh - xl = 0 ∨ yh - yl = 0
      · have := h.translate (-xl) (-yl)
        simpa [TState.scaleBBox, boxMaps, BBox.width, BBox.height, hz] using this
      · cases target with
        | none =>
          have := (h.translate (-xl) (-yl)).scale 0 0
          simpa [TState.scaleBBox, boxMaps, BBox.width, BBox.height, hz] using this
        | box txl tyl txh tyh =>
          simp only [TState.scaleBBox, boxMaps, BBox.width, BBox.height, hz, if_true, if_false, List.foldl]
          exact ((h.translate _ _).scale _ _).translate _ _

theorem inverse_same (s : TState) : (s.inverse).1.mat = s.mat ∧ (s.inverse).1.stack = s.stack := by
  unfold TState.inverse
  split
  · exact ⟨rfl, rfl⟩
  · split <;> exact ⟨rfl, rfl⟩

theorem untransform_same (s : TState) (p : Pt ℝ) :
    (s.untransform p).1 = (s.inverse).1 := by
  unfold TState.untransform
  split <;> rename_i h <;> rw [h]

theorem untransformPts_same (s : TState) (ps : List (Pt ℝ)) :
    (s.untransformPts ps).1 = (s.inverse).1 := by
  unfold TState.untransformPts
  split
  · rename_i h
    split <;> rw [h]
  · rename_i h
    rw [h]

theorem step_denotes {s : TState} {a : AState} (h : Denotes s a) (o : TOp) (ho : OpAffine o) :
    Denotes (s.step o).st (a.step o) := by
  cases o with
  | translate dx dy => exact h.translate dx dy
  | scale sx sy => exact h.scale sx sy
  | rotate d =>
    have := h.pre (affine_rotateMat (Real.cos (radians d)) (Real.sin (radians d))) none
    rwa [apply_rotateMat] at this
  | rotateCcw d =>
    have := h.pre (affine_rotateMatCcw (Real.cos (radians d)) (Real.sin (radians d))) none
    rwa [apply_rotateMatCcw] at this
  | rotateAbout d c =>
    obtain ⟨h1, h2⟩ := rotateAbout_mat d c
    have := h.pre h1 s.inv
    rw [h2] at this
    exact this
  | scaleBBox st t k => exact scaleBBox_denotes h st t k
  | compose m =>
    refine ⟨Mat3.affine_mul h.affine ho, ?_, h.stackAffine, h.stack⟩
    show (s.mat.mul m).apply = a.cur ∘ m.apply
    rw [apply_mul_fun ho, h.cur]
  | composeOuter m => exact h.pre ho none
  | reset => exact ⟨Mat3.affine_one, funext fun p => Mat3.apply_one p, h.stackAffine, h.stack⟩
  | setMatrix m => exact ⟨ho, rfl, h.stackAffine, h.stack⟩
  | push =>
    refine ⟨h.affine, h.cur, ?_, ?_⟩
    · intro m hm
      rcases List.mem_cons.1 hm with rfl | hm
      · exact h.affine
      · exact h.stackAffine m hm
    · show (s.mat :: s.stack).map Mat3.apply = a.cur :: a.stack
      rw [List.map_cons, h.cur, h.stack]
  | pop =>
    have hs := h.stack
    cases e : s.stack with
    | nil =>
      rw [e] at hs
      simp only [TState.step, TState.pop, e, AState.step]
      rw [← hs]
      exact h
    | cons m rest =>
      rw [e] at hs
      simp only [TState.step, TState.pop, e, AState.step]
      rw [← hs]
      have ha := h.stackAffine
      rw [e] at ha
      exact ⟨ha m (by simp), rfl, fun x hx => ha x (by simp [hx]), rfl⟩
  | untransform p =>
    have e := inverse_same s
    simp only [TState.step, AState.step, untransform_same]
    exact ⟨by rw [e.1]; exact h.affine, by rw [e.1]; exact h.cur, by rw [e.2]; exact h.stackAffine,
      by rw [e.2]; exact h.stack⟩
  | untransformPts ps =>
    have e := inverse_same s
    simp only [TState.step, AState.step, untransformPts_same]
    exact ⟨by rw [e.1]; exact h.affine, by rw [e.1]; exact h.cur, by rw [e.2]; exact h.stackAffine,
      by rw [e.2]; exact h.stack⟩
  | transform p => exact h

theorem run_denotes {s : TState} {a : AState} (h : Denotes s a) (ops : List TOp) (ho : ∀ o ∈ ops, OpAffine o) :
    Denotes (s.run ops) (a.run ops) := by
  induction ops generalizing s a with
  | nil => exact h
  | cons o os ih =>
    exact ih (step_denotes h o (ho o (by simp))) (fun o' h' => ho o' (by simp [h']))

/-- A new transform. -/
theorem denotes_new : Denotes TState.new ⟨id, []⟩ :=
  ⟨Mat3.affine_one, funext fun p => Mat3.apply_one p, by simp [TState.new], rfl⟩

/-- C21: after any history of calls, starting from a new `Transform`, `transform` is the composition of the elementary
maps, the matrix is affine, and the saved matrices denote the saved maps. -/
theorem C21_history (ops : List TOp) (ho : ∀ o ∈ ops, OpAffine o) :
    (TState.new.run ops).mat.Affine ∧
    (∀ p, (TState.new.run ops).transform p = (AState.run ⟨id, []⟩ ops).cur p) ∧
    (TState.new.run ops).stack.map Mat3.apply = (AState.run ⟨id, []⟩ ops).stack := by
  have h := run_denotes denotes_new ops ho
  exact ⟨h.affine, fun p => congrFun h.cur p, h.stack⟩

/-- C21: the same starting from any object whose matrices are affine. -/
theorem C21_history_from (s : TState) (hs : s.mat.Affine) (hst : ∀ m ∈ s.stack, m.Affine) (ops : List TOp)
    (ho : ∀ o ∈ ops, OpAffine o) (p : Pt ℝ) :
    (s.run ops).transform p = (AState.run ⟨s.transform, s.stack.map Mat3.apply⟩ ops).cur p :=
  congrFun (run_denotes ⟨hs, rfl, hst, rfl⟩ ops ho).cur p

/-- C21: a copy transforms the same way, has an empty stack and no cached inverse. -/
theorem C21_copy (s : TState) (p : Pt ℝ) :
    s.copy.transform p = s.transform p ∧ s.copy.mat = s.mat ∧ s.copy.stack = [] ∧ s.copy.inv = none :=
  ⟨rfl, rfl, rfl, rfl⟩

example : ∀ o ∈ [TOp.translate 1 2, .compose (Mat3.of6 1 0 3 0 1 4), .push, .rotate 90, .pop], OpAffine o := by
  intro o ho
  simp at ho
  rcases ho with rfl | rfl | rfl | rfl | rfl <;> simp [OpAffine, Mat3.affine_of6]

/-! ### C22 -/

/-- The cached inverse, if any, is the inverse of the current matrix. -/
def Coherent (s : TState) : Prop := ∀ i, s.inv = some i → s.mat.inv = .ok i

theorem coherent_inverse {s : TState} (h : Coherent s) : Coherent (s.inverse).1 := by
  unfold TState.inverse
  split
  · exact h
  · split
    · rename_i i hi
      intro j hj
      simp only [Option.some.injEq] at hj
      rw [← hj]; exact hi
    · exact h

theorem inverse_val {s : TState} (h : Coherent s) : (s.inverse).2 = s.mat.inv := by
  unfold TState.inverse
  split
  · rename_i i hi; exact (h i hi).symm
  · split <;> rename_i h' <;> exact h'.symm

theorem run_coherent (ops : List TOp) : ∀ (c : Bool) (s : TState), NoStale c ops → Coherent s →
    (c = false → s.inv = none) → Coherent (s.run ops) := by
  have hnone : ∀ s : TState, s.inv = none → Coherent s := fun s hs i hi => by rw [hs] at hi; cases hi
  induction ops with
  | nil => exact fun _ _ _ h _ => h
  | cons o os ih =>
    intro c s hn hc hcache
    show Coherent ((s.step o).st.run os)
    cases o with
    | untransform p =>
      refine ih true _ hn ?_ (by simp)
      simp only [TState.step, untransform_same]
      exact coherent_inverse hc
    | untransformPts p =>
      refine ih true _ hn ?_ (by simp)
      simp only [TState.step, untransformPts_same]
      exact coherent_inverse hc
    | rotateAbout d ct =>
      have hi : (s.step (.rotateAbout d ct)).st.inv = none := hcache hn.1
      exact ih false _ hn.2 (hnone _ hi) (fun _ => hi)
    | push => exact ih c _ hn hc hcache
    | transform p => exact ih c _ hn hc hcache
    | pop =>
      refine ih c _ hn ?_ ?_
      · simp only [TState.step, TState.pop]
        split
        · exact hc
        · exact hnone _ rfl
      · simp only [TState.step, TState.pop]
        split
        · exact hcache
        · exact fun _ => rfl
    | scaleBBox st t k =>
      have key : (s.step (.scaleBBox st t k)).st = s ∨ (s.step (.scaleBBox st t k)).st.inv = none := by
        simp only [TState.step, TState.scaleBBox]
        repeat' split
        all_goals first | exact Or.inl rfl | exact Or.inr rfl
      rcases key with e | e
      · refine ih c _ hn ?_ ?_ <;> rw [e]
        · exact hc
        · exact hcache
      · exact ih c _ hn (hnone _ e) (fun _ => e)
    | translate dx dy => exact ih false _ hn (hnone _ rfl) (fun _ => rfl)
    | scale dx dy => exact ih false _ hn (hnone _ rfl) (fun _ => rfl)
    | rotate d => exact ih false _ hn (hnone _ rfl) (fun _ => rfl)
    | rotateCcw d => exact ih false _ hn (hnone _ rfl) (fun _ => rfl)
    | compose m => exact ih false _ hn (hnone _ rfl) (fun _ => rfl)
    | composeOuter m => exact ih false _ hn (hnone _ rfl) (fun _ => rfl)
    | reset => exact ih false _ hn (hnone _ rfl) (fun _ => rfl)
    | setMatrix m => exact ih false _ hn (hnone _ rfl) (fun _ => rfl)

/-- The object knows what is pending: either no inverse is cached, or the cached one is the inverse of the matrix before the
pending rotations. -/
structure Tracks (s : TState) (a : Pending) : Prop where
  depth : s.stack.length = a.depth
  fresh : a.rot = none → s.inv = none
  stale : ∀ f, a.rot = some f → ∃ R : Mat3 ℝ, R.Affine ∧ R.det = 1 ∧ R.apply = f ∧
    ((s.inv = none ∧ s.mat.det = 0) ∨ ∃ i M, s.inv = some i ∧ M.Affine ∧ M.inv = .ok i ∧ s.mat = R.mul M)

theorem Tracks.clear {s : TState} {d : ℕ} (h1 : s.stack.length = d) (h2 : s.inv = none) : Tracks s ⟨d, none⟩ :=
  ⟨h1, fun _ => h2, fun f hf => by simp at hf⟩

theorem Tracks.ask {s : TState} {a : Pending} (h : Tracks s a) (ha : s.mat.Affine) :
    Tracks (s.inverse).1 { a with rot := some (a.rot.getD id) } := by
  refine ⟨by rw [(inverse_same s).2]; exact h.depth, fun h => by simp at h, fun f hf => ?_⟩
  simp only [Option.some.injEq] at hf
  cases hr : a.rot with
  | none =>
    rw [hr] at hf
    refine ⟨Mat3.one, Mat3.affine_one, by simp [Mat3.det, Mat3.one], by rw [← hf]; exact funext fun p => Mat3.apply_one p, ?_⟩
    unfold TState.inverse
    rw [h.fresh hr]
    simp only
    cases hi : s.mat.inv with
    | ok i => exact .inr ⟨i, s.mat, rfl, ha, hi, by rw [Mat3.one_mul']⟩
    | error e =>
      refine .inl ⟨h.fresh hr, ?_⟩
      by_contra hd
      obtain ⟨i, hi'⟩ := Mat3.inv_isOk hd
      rw [hi'] at hi; cases hi
  | some g =>
    rw [hr] at hf
    have hf : g = f := hf
    subst hf
    obtain ⟨R, r1, r2, r3, r4⟩ := h.stale g hr
    refine ⟨R, r1, r2, r3, ?_⟩
    rcases r4 with ⟨r5, r6⟩ | ⟨i, M, r5, r6⟩
    · refine .inl ⟨?_, by rw [(inverse_same s).1]; exact r6⟩
      unfold TState.inverse
      rw [r5]
      simp only [Mat3.inv, if_pos r6]
      exact r5
    · refine .inr ⟨i, M, ?_, by rw [(inverse_same s).1]; exact r6⟩
      unfold TState.inverse
      rw [r5]
      exact r5

theorem Tracks.step {s : TState} {a : Pending} (h : Tracks s a) (ha : s.mat.Affine) (o : TOp) :
    Tracks (s.step o).st (a.step o) := by
  cases o with
  | untransform p => simp only [TState.step, untransform_same]; exact h.ask ha
  | untransformPts p => simp only [TState.step, untransformPts_same]; exact h.ask ha
  | rotateAbout d c =>
    obtain ⟨h1, h2⟩ := rotateAbout_mat d c
    refine ⟨h.depth, ?_, ?_⟩
    · intro hr
      simp only [Pending.step, Option.map_eq_none_iff] at hr
      exact h.fresh hr
    · intro f hf
      simp only [Pending.step, Option.map_eq_some_iff] at hf
      obtain ⟨g, hg, rfl⟩ := hf
      obtain ⟨R, r1, r2, r3, r4⟩ := h.stale g hg
      set Q := (((TState.new.translate (-c.x) (-c.y)).rotate d).translate c.x c.y).mat with hQ
      have hQd : Q.det = 1 := by
        have := Real.cos_sq_add_sin_sq (radians d)
        simp [hQ, TState.translate, TState.rotate, TState.new, Mat3.mul, Mat3.translateMat, Mat3.rotateMat, Mat3.one, Mat3.det]
        linear_combination this
      refine ⟨Q.mul R, Mat3.affine_mul h1 r1, by rw [Mat3.det_mul, hQd, r2, one_mul], by rw [apply_mul_fun r1, h2, r3], ?_⟩
      have hm : (s.step (.rotateAbout d c)).st.mat = Q.mul s.mat := rfl
      have hi : (s.step (.rotateAbout d c)).st.inv = s.inv := rfl
      rw [hm, hi]
      rcases r4 with ⟨r5, r6⟩ | ⟨i, M, r5, r6, r7, r8⟩
      · exact .inl ⟨r5, by rw [Mat3.det_mul, r6, mul_zero]⟩
      · exact .inr ⟨i, M, r5, r6, r7, by rw [r8, Mat3.mul_assoc']⟩
  | push => exact ⟨by simp [TState.step, TState.push, Pending.step, h.depth], h.fresh, h.stale⟩
  | transform p => exact h
  | pop =>
    have hd := h.depth
    simp only [TState.step, TState.pop, Pending.step]
    cases hs : s.stack with
    | nil =>
      rw [hs] at hd
      rw [if_pos (show a.depth = 0 from hd.symm)]
      exact h
    | cons m rest =>
      rw [hs] at hd
      rw [if_neg (by rw [← hd]; simp)]
      exact .clear (by rw [← hd]; simp) rfl
  | scaleBBox st t k =>
    have key : (boxMaps st t k = [] ∧ (s.step (.scaleBBox st t k)).st = s) ∨
        (boxMaps st t k ≠ [] ∧ (s.step (.scaleBBox st t k)).st.inv = none) := by
      cases st with
      | none => left; cases k <;> simp [boxMaps, TState.step, TState.scaleBBox, BBox.width]
      | box xl yl xh yh =>
        by_cases hz : xh - xl = 0 ∨ yh - yl = 0
        · cases k with
          | true => left; simp [boxMaps, TState.step, TState.scaleBBox, BBox.width, BBox.height, hz]
          | false => right; simp [boxMaps, TState.step, TState.scaleBBox, BBox.width, BBox.height, hz, TState.translate]
        · right
          cases k <;> cases t <;>
            simp [boxMaps, TState.step, TState.scaleBBox, BBox.width, BBox.height, hz, TState.translate, TState.scale]
    have hst : (s.step (.scaleBBox st t k)).st.stack = s.stack := by
      simp only [TState.step, TState.scaleBBox]
      repeat' split
      all_goals rfl
    simp only [Pending.step]
    rcases key with ⟨e1, e2⟩ | ⟨e1, e2⟩
    · rw [if_pos e1, e2]; exact h
    · rw [if_neg e1]; exact .clear (by rw [hst]; exact h.depth) e2
  | translate dx dy => exact .clear h.depth rfl
  | scale dx dy => exact .clear h.depth rfl
  | rotate d => exact .clear h.depth rfl
  | rotateCcw d => exact .clear h.depth rfl
  | compose m => exact .clear h.depth rfl
  | composeOuter m => exact .clear h.depth rfl
  | reset => exact .clear h.depth rfl
  | setMatrix m => exact .clear h.depth rfl

theorem Tracks.run {s : TState} {a : Pending} {b : AState} (h : Tracks s a) (hd : Denotes s b) (ops : List TOp)
    (ho : ∀ o ∈ ops, OpAffine o) : Tracks (s.run ops) (ops.foldl Pending.step a) := by
  induction ops generalizing s a b with
  | nil => exact h
  | cons o os ih =>
    exact ih (h.step hd.affine o) (step_denotes hd o (ho o (by simp))) (fun o' h' => ho o' (by simp [h']))

/-- C22, exactly what `untransform` answers after any history: for a singular matrix it raises; otherwise it returns the
point that `transform` maps to `p` turned by the `rotate_about` calls the cached inverse does not know of. -/
theorem C22_exact (ops : List TOp) (ho : ∀ o ∈ ops, OpAffine o) (p : Pt ℝ) :
    let s := TState.new.run ops
    (s.mat.det ≠ 0 → ∃ q, (s.untransform p).2 = .ok q ∧ s.transform q = staleTurn ops p) ∧
    (s.mat.det = 0 → (s.untransform p).2 = .error .linAlg) := by
  intro s
  have ht : Tracks s (ops.foldl Pending.step ⟨0, none⟩) :=
    Tracks.run (.clear rfl rfl) denotes_new ops ho
  have haf : s.mat.Affine := (C21_history ops ho).1
  unfold staleTurn
  generalize ops.foldl Pending.step ⟨0, none⟩ = a at ht
  have plain : s.inv = none → (s.mat.det ≠ 0 → ∃ q, (s.untransform p).2 = .ok q ∧ s.transform q = p) ∧
      (s.mat.det = 0 → (s.untransform p).2 = .error .linAlg) := by
    intro hn
    constructor
    · intro hd
      obtain ⟨i, hi⟩ := Mat3.inv_isOk hd
      obtain ⟨_, h1, h2⟩ := Mat3.inv_ok hi
      refine ⟨i.apply p, ?_, ?_⟩
      · simp [TState.untransform, TState.inverse, hn, hi]
      · show s.mat.apply (i.apply p) = p
        rw [← Mat3.apply_mul (Mat3.inv_affine haf hi), h1, Mat3.apply_one]
    · intro hd
      simp [TState.untransform, TState.inverse, hn, Mat3.inv, hd]
  cases hr : a.rot with
  | none => exact plain (ht.fresh hr)
  | some f =>
    obtain ⟨R, r1, r2, r3, ⟨r4, r5⟩ | ⟨i, M, r4, r5, r6, r7⟩⟩ := ht.stale f hr
    · exact ⟨fun hd => absurd r5 hd, (plain r4).2⟩
    · obtain ⟨hM, h1, h2⟩ := Mat3.inv_ok r6
      have hd : s.mat.det ≠ 0 := by rw [r7, Mat3.det_mul, r2, one_mul]; exact hM
      refine ⟨fun _ => ⟨i.apply p, ?_, ?_⟩, fun h => absurd h hd⟩
      · simp [TState.untransform, TState.inverse, r4]
      · show s.mat.apply (i.apply p) = f p
        rw [r7, Mat3.apply_mul r5, ← Mat3.apply_mul (Mat3.inv_affine r5 r6), h1, Mat3.apply_one, r3]

/-- C22: so the round trip through an invertible matrix brings back `p` exactly if the stale rotations leave the image of
`p` where it is, for every `p` exactly if they cancel. -/
theorem C22_roundtrip_iff (ops : List TOp) (ho : ∀ o ∈ ops, OpAffine o) (hd : (TState.new.run ops).mat.det ≠ 0) (p : Pt ℝ) :
    let s := TState.new.run ops
    (s.untransform (s.transform p)).2 = .ok p ↔ staleTurn ops (s.transform p) = s.transform p := by
  intro s
  obtain ⟨q, h1, h2⟩ := (C22_exact ops ho (s.transform p)).1 hd
  have haf : s.mat.Affine := (C21_history ops ho).1
  obtain ⟨i, hi⟩ := Mat3.inv_isOk hd
  obtain ⟨_, _, h3⟩ := Mat3.inv_ok hi
  have inj : ∀ a b, s.transform a = s.transform b → a = b := by
    intro a b hab
    have : i.apply (s.mat.apply a) = i.apply (s.mat.apply b) := congrArg _ hab
    rwa [← Mat3.apply_mul haf, ← Mat3.apply_mul haf, h3, Mat3.apply_one, Mat3.apply_one] at this
  rw [h1]
  constructor
  · intro h
    injection h with h
    rw [← h2, h]
  · intro h
    rw [h] at h2
    rw [inj _ _ h2]

/-- C22, for histories without `rotate_about` while an inverse may be cached (without this it is false, see below): if the
matrix is invertible, `untransform` succeeds and is inverse to `transform` on both sides; if it is singular the call raises. -/
theorem C22_roundtrip (ops : List TOp) (ho : ∀ o ∈ ops, OpAffine o) (hn : NoStale false ops) (p : Pt ℝ) :
    let s := TState.new.run ops
    (s.mat.det ≠ 0 →
      (s.untransform (s.transform p)).2 = .ok p ∧ ∃ q, (s.untransform p).2 = .ok q ∧ s.transform q = p) ∧
    (s.mat.det = 0 → (s.untransform p).2 = .error .linAlg) := by
  intro s
  have hco : Coherent s := run_coherent ops false _ hn (fun i hi => by simp [TState.new] at hi) (fun _ => rfl)
  have haf : s.mat.Affine := (C21_history ops ho).1
  have hval := inverse_val hco
  have hun : ∀ q, (s.untransform q).2 = (s.mat.inv).map (fun i => i.apply q) := by
    intro q
    rw [← hval]
    unfold TState.untransform
    split <;> rename_i h <;> rw [h] <;> rfl
  constructor
  · intro hd
    obtain ⟨i, hi⟩ := Mat3.inv_isOk hd
    obtain ⟨_, h1, h2⟩ := Mat3.inv_ok hi
    have hia := Mat3.inv_affine haf hi
    refine ⟨?_, i.apply p, ?_, ?_⟩
    · rw [hun, hi]
      show Except.ok (i.apply (s.mat.apply p)) = _
      rw [← Mat3.apply_mul haf, h2, Mat3.apply_one]
    · rw [hun, hi]; rfl
    · show s.mat.apply (i.apply p) = p
      rw [← Mat3.apply_mul hia, h1, Mat3.apply_one]
  · intro hd
    rw [hun, Mat3.inv, if_pos hd]; rfl

/-- C22 (false in general): after an `untransform` call, `rotate_about` leaves the cached inverse in place, and
`untransform` no longer undoes `transform`. -/
theorem C22_rotate_about_counterexample :
    ∃ ops : List TOp, (∀ o ∈ ops, OpAffine o) ∧ ∃ p : Pt ℝ,
      let s := TState.new.run ops
      s.mat.det ≠ 0 ∧ (s.untransform (s.transform p)).2 ≠ .ok p := by
  refine ⟨[.untransform ⟨0, 0⟩, .rotateAbout 90 ⟨0, 0⟩], ?_, ⟨1, 0⟩, ?_⟩
  · intro o ho; simp at ho; rcases ho with rfl | rfl <;> trivial
  · have h90 : radians 90 = Real.pi / 2 := by simp [radians]; ring
    have hi : (Mat3.one : Mat3 ℝ).inv = .ok Mat3.one := by
      simp [Mat3.inv, Mat3.one, Mat3.det]
    simp only [TState.run, List.foldl, TState.step, TState.untransform, TState.inverse, TState.new, hi,
      TState.rotateAbout, TState.translate, TState.rotate, TState.transform, h90, Real.cos_pi_div_two,
      Real.sin_pi_div_two]
    constructor
    · norm_num [Mat3.det, Mat3.mul, Mat3.one, Mat3.translateMat, Mat3.rotateMat]
    · norm_num [Mat3.mul, Mat3.one, Mat3.translateMat, Mat3.rotateMat, Mat3.apply]

/-- The hypotheses of the exact claim are met by histories with stale rotations: here the stale rotations cancel. -/
example : ∀ o ∈ [TOp.untransform ⟨0, 0⟩, .rotateAbout 90 ⟨1, 0⟩, .transform ⟨2, 0⟩, .rotateAbout (-90) ⟨1, 0⟩], OpAffine o := by
  intro o ho; simp at ho; rcases ho with rfl | rfl | rfl | rfl <;> trivial

/-- A clearing call between: nothing stale. -/
example : staleTurn [.untransform ⟨0, 0⟩, .rotateAbout 90 ⟨1, 0⟩, .scale 2 2] = id := by
  simp [staleTurn, Pending.step]

example : staleTurn [.untransform ⟨0, 0⟩, .push, .rotateAbout 90 ⟨1, 0⟩, .untransform ⟨5, 5⟩] = turnAbout 90 ⟨1, 0⟩ := by
  simp [staleTurn, Pending.step]

example : NoStale false [.translate 1 2, .untransform ⟨3, 4⟩, .scale 2 3, .rotateAbout 30 ⟨1, 1⟩, .untransform ⟨0, 0⟩] := by
  simp [NoStale]

/-! ### C23 -/

theorem step_stack (s : TState) (o : TOp) (h : NotStack o) : (s.step o).st.stack = s.stack := by
  cases o with
  | push => exact h.elim
  | pop => exact h.elim
  | untransform p => simp only [TState.step, untransform_same]; exact (inverse_same s).2
  | untransformPts p => simp only [TState.step, untransformPts_same]; exact (inverse_same s).2
  | scaleBBox st t k =>
    simp only [TState.step, TState.scaleBBox]
    repeat' split
    all_goals rfl
  | _ => rfl

theorem total_notStack {o : TOp} (h : Total o) : NotStack o := by cases o <;> simp_all [Total, NotStack]

theorem chain_stack (s : TState) (os : List TOp) (h : ∀ o ∈ os, NotStack o) : (s.chain os).st.stack = s.stack := by
  induction os generalizing s with
  | nil => rfl
  | cons o os ih =>
    have h1 := step_stack s o (h o (by simp))
    simp only [TState.chain]
    split
    · rename_i s' hs
      rw [ih s' (fun o' h' => h o' (by simp [h']))]
      rw [hs] at h1; exact h1
    · exact h1

theorem chain_total (s : TState) (os : List TOp) (h : ∀ o ∈ os, Total o) : (s.chain os).err = none := by
  induction os generalizing s with
  | nil => rfl
  | cons o os ih =>
    have h1 : (s.step o).err = none := by
      have := h o (by simp)
      cases o <;> first | rfl | exact this.elim
    simp only [TState.chain]
    split
    · rename_i s' hs
      exact ih s' (fun o' h' => h o' (by simp [h']))
    · exact h1

theorem withOnly_stack (p : Prog) (h : p.WithOnly) (s : TState) : (p.exec s).st.stack = s.stack := by
  induction p generalizing s with
  | skip => rfl
  | raise e => rfl
  | op o => exact step_stack s o h
  | seq p q ihp ihq =>
    have h1 := ihp h.1 s
    simp only [Prog.exec]
    split
    · rename_i s' hs
      rw [ihq h.2 s']; rw [hs] at h1; exact h1
    · exact h1
  | pushPop body _ => exact h.elim
  | attempt p ih => exact ih h s
  | withPush hdr body ih =>
    have h1 := chain_stack s.push hdr (fun o ho => total_notStack (h.1 o ho))
    have h2 := chain_total s.push hdr h.1
    simp only [Prog.exec]
    split
    · rename_i s1 hs1
      rw [hs1] at h1
      have hne : s1.stack ≠ [] := by
        show s1.stack ≠ []
        rw [show s1.stack = s.mat :: s.stack from h1]; simp
      rw [if_neg hne]
      have h3 := ih h.2 s1
      have h4 : (body.exec s1).st.stack = s.mat :: s.stack := h3.trans h1
      simp only [TState.pop, h4]
    · rename_i r hr
      exfalso
      cases hrr : s.push.chain hdr with
      | mk st err =>
        rw [hrr] at h2
        exact hr st (by rw [hrr, show err = none from h2])

/-- C23: a `with m.push()...:` block whose header calls cannot raise restores exactly the matrix and the stack it found,
whatever balanced `with`-code runs inside and whether or not the body raises; the body's exception is passed on. -/
theorem C23_with_restores (hdr : List TOp) (body : Prog) (hh : ∀ o ∈ hdr, Total o) (hb : body.WithOnly) (s : TState) :
    ((Prog.withPush hdr body).exec s).st.mat = s.mat ∧ ((Prog.withPush hdr body).exec s).st.stack = s.stack ∧
    ((Prog.withPush hdr body).exec s).err = (body.exec (s.push.chain hdr).st).err := by
  have h1 := chain_stack s.push hdr (fun o ho => total_notStack (hh o ho))
  have h2 := chain_total s.push hdr hh
  cases hrr : s.push.chain hdr with
  | mk s1 err =>
    rw [hrr] at h1 h2
    have h1' : s1.stack = s.mat :: s.stack := h1
    simp only at h2
    subst h2
    have h4 : (body.exec s1).st.stack = s.mat :: s.stack := (withOnly_stack body hb s1).trans h1'
    simp only [Prog.exec, hrr, h1', TState.pop, h4]
    simp

/-- C23: well-nested push/pop (with or without `with`) that runs to completion restores the stack; in particular a
`push ... pop` pair restores the matrix. -/
theorem balanced_stack (p : Prog) (h : p.Balanced) (s : TState) (hok : (p.exec s).err = none) :
    (p.exec s).st.stack = s.stack := by
  induction p generalizing s with
  | skip => rfl
  | raise e => rfl
  | op o => exact step_stack s o h
  | seq p q ihp ihq =>
    simp only [Prog.exec] at hok ⊢
    split at hok
    · rename_i s' hs
      have h1 := ihp h.1 s (by rw [hs])
      rw [hs] at h1
      exact (ihq h.2 s' hok).trans h1
    · rename_i r hr
      exfalso
      cases hrr : p.exec s with
      | mk st err => rw [hrr] at hok; exact hr st (by rw [hrr, show err = none from hok])
  | pushPop body ih =>
    simp only [Prog.exec] at hok ⊢
    split at hok
    · rename_i s' hs
      have h1 := ih h s.push (by rw [hs])
      rw [hs] at h1
      have h1' : s'.stack = s.mat :: s.stack := h1
      simp [TState.pop, h1']
    · rename_i r hr
      exfalso
      cases hrr : body.exec s.push with
      | mk st err => rw [hrr] at hok; exact hr st (by rw [hrr, show err = none from hok])
  | attempt p ih => exact withOnly_stack p h s
  | withPush hdr body ih =>
    have h1 := chain_stack s.push hdr h.1
    simp only [Prog.exec] at hok ⊢
    split at hok
    · rename_i s1 hs1
      rw [hs1] at h1
      have h1' : s1.stack = s.mat :: s.stack := h1
      have hne : s1.stack ≠ [] := by rw [h1']; simp
      rw [if_neg hne] at hok
      have hb : (body.exec s1).err = none := by
        cases hp : (body.exec s1).st.pop with
        | mk s2 e => cases e <;> simp_all
      have h4 : (body.exec s1).st.stack = s.mat :: s.stack := (ih h.2 s1 hb).trans h1'
      simp only [hne, if_false, TState.pop, h4]
    · rename_i r hr
      exfalso
      cases hrr : s.push.chain hdr with
      | mk st err => rw [hrr] at hok; exact hr st (by rw [hrr, show err = none from hok])

theorem C23_push_pop_restores (body : Prog) (hb : body.Balanced) (s : TState)
    (hok : (body.exec s.push).err = none) :
    ((Prog.pushPop body).exec s).err = none ∧ ((Prog.pushPop body).exec s).st.mat = s.mat ∧
    ((Prog.pushPop body).exec s).st.stack = s.stack := by
  have h := balanced_stack body hb s.push hok
  cases hr : body.exec s.push with
  | mk st err =>
    rw [hr] at hok h
    simp only at hok
    subst hok
    have h' : st.stack = s.mat :: s.stack := h
    simp [Prog.exec, hr, TState.pop, h']

/-- C23: `pop` on an empty stack raises `EmptyStackError` and changes nothing; it cannot fail otherwise. -/
theorem C23_pop_empty (s : TState) :
    (s.stack = [] → s.pop = ⟨s, some .emptyStack⟩) ∧ (s.stack ≠ [] → s.pop.err = none) := by
  constructor
  · intro h; simp [TState.pop, h]
  · intro h
    cases e : s.stack with
    | nil => exact absurd e h
    | cons m r => simp [TState.pop, e]

/-- C23: the depth of the stack after any history is determined by the pushes and pops alone. -/
theorem C23_depth (s : TState) (ops : List TOp) : (s.run ops).stack.length = depth s.stack.length ops := by
  induction ops generalizing s with
  | nil => rfl
  | cons o os ih =>
    have h := ih (s.step o).st
    show ((s.step o).st.run os).stack.length = _
    rw [h]
    cases o with
    | push => rfl
    | pop =>
      simp only [TState.step, TState.pop, depth]
      cases e : s.stack <;> simp [e]
    | untransform p => rw [step_stack s (.untransform p) trivial]; rfl
    | untransformPts p => rw [step_stack s (.untransformPts p) trivial]; rfl
    | scaleBBox a b k => rw [step_stack s (.scaleBBox a b k) trivial]; rfl
    | _ => rfl

/-- C23 (limit of the `with` idiom): if a call in the header chain raises, the block is never entered and the pushed
matrix stays on the stack. -/
theorem C23_with_header_counterexample :
    ∃ (hdr : List TOp) (s : TState), (∀ o ∈ hdr, NotStack o) ∧
      ((Prog.withPush hdr .skip).exec s).st.stack ≠ s.stack := by
  refine ⟨[.scaleBBox (.box 0 0 0 1) (.box 0 0 1 1) true], TState.new, by simp [NotStack], ?_⟩
  simp [Prog.exec, TState.chain, TState.step, TState.scaleBBox, BBox.width, TState.push, TState.new]

example : (Prog.withPush [.translate 1 2] (.seq (.op (.rotate 30)) (.withPush [.scale 2 2] (.raise .value)))).WithOnly := by
  simp [Prog.WithOnly, Total, NotStack]
example : ((Prog.withPush [.translate 1 2] (.raise .value)).exec TState.new).err = some .value := by
  simp [Prog.exec, TState.chain, TState.step, TState.translate, TState.push, TState.new, TState.pop]

end X7
