import Verif.Spec.ShapeHeap

noncomputable section

namespace X7.SH

/-- References exist, and different shapes have different points. -/
structure Ok (w : World) : Prop where
  bd : ∀ (k : ℕ) (s : Shape), w.shapes[k]? = some s → s.xf < w.xfs.length ∧ s.p1 < w.pts.length ∧ s.p2 < w.pts.length ∧ s.p1 ≠ s.p2
  sep : ∀ (k m : ℕ) (s o : Shape), w.shapes[k]? = some s → w.shapes[m]? = some o → k ≠ m →
    s.p1 ≠ o.p1 ∧ s.p1 ≠ o.p2 ∧ s.p2 ≠ o.p1 ∧ s.p2 ≠ o.p2

theorem ok_empty : Ok World.empty :=
  ⟨fun k s h => by simp [World.empty] at h, fun k m s o h => by simp [World.empty] at h⟩

/-- What a call may do to the references. -/
structure Good (w w' : World) : Prop where
  pts : w.pts.length ≤ w'.pts.length
  xfs : w.xfs.length ≤ w'.xfs.length
  old : ∀ (k : ℕ) (s : Shape), w.shapes[k]? = some s → ∃ s', w'.shapes[k]? = some s' ∧ s'.p1 = s.p1 ∧ s'.p2 = s.p2
  new : ∀ (k : ℕ) (s' : Shape), w'.shapes[k]? = some s' → w.shapes[k]? = none →
    k = w.shapes.length ∧ s'.p1 = w.pts.length ∧ s'.p2 = w.pts.length + 1 ∧ w.pts.length + 2 ≤ w'.pts.length
  xf : ∀ (k : ℕ) (s' : Shape), w'.shapes[k]? = some s' →
    (∃ (m : ℕ) (o : Shape), w.shapes[m]? = some o ∧ s'.xf = o.xf) ∨ (s'.xf = w.xfs.length ∧ w.xfs.length < w'.xfs.length)

theorem good_same {w w' : World} (hp : w.pts.length ≤ w'.pts.length) (hx : w.xfs.length ≤ w'.xfs.length)
    (hs : w'.shapes = w.shapes) : Good w w' :=
  ⟨hp, hx, fun k s h => ⟨s, by rw [hs]; exact h, rfl, rfl⟩, fun k s' h h' => by (rw [hs, h'] at h; cases h),
   fun k s' h => .inl ⟨k, s', by rw [← hs]; exact h, rfl⟩⟩

theorem good_refl (w : World) : Good w w := good_same le_rfl le_rfl rfl

theorem good_new (w : World) (l : List (Mat3 ℝ)) (name : Str) (pb : PenBrush) (xf : ℕ) (cls : Cls) (p1 p2 : Pt ℝ)
    (hx : (∃ (m : ℕ) (o : Shape), w.shapes[m]? = some o ∧ xf = o.xf) ∨ (xf = w.xfs.length ∧ 0 < l.length)) :
    Good w (newShape { w with xfs := w.xfs ++ l } name pb xf cls p1 p2) := by
  refine ⟨by simp [newShape], by simp [newShape], fun k s h => ⟨s, ?_, rfl, rfl⟩, fun k s' h h' => ?_, fun k s' h => ?_⟩
  · simp only [newShape]
    rw [List.getElem?_append_left (List.getElem?_eq_some_iff.1 h).1]; exact h
  · simp only [newShape] at h
    have hk := List.getElem?_eq_none_iff.1 h'
    rw [List.getElem?_append_right hk] at h
    rcases Nat.eq_zero_or_pos (k - w.shapes.length) with h0 | h0
    · rw [h0] at h
      simp only [List.getElem?_cons_zero, Option.some.injEq] at h
      subst h
      exact ⟨by omega, rfl, rfl, by simp [newShape]⟩
    · rw [List.getElem?_eq_none (by simp only [List.length_singleton]; omega)] at h; cases h
  · simp only [newShape] at h
    by_cases hk : k < w.shapes.length
    · rw [List.getElem?_append_left hk] at h
      exact .inl ⟨k, s', h, rfl⟩
    · rw [List.getElem?_append_right (not_lt.1 hk)] at h
      rcases Nat.eq_zero_or_pos (k - w.shapes.length) with h0 | h0
      · rw [h0] at h
        simp only [List.getElem?_cons_zero, Option.some.injEq] at h
        subst h
        rcases hx with hx | ⟨hx, hl⟩
        · exact .inl hx
        · exact .inr ⟨hx, by simpa [newShape] using hl⟩
      · rw [List.getElem?_eq_none (by simp only [List.length_singleton]; omega)] at h; cases h

theorem good_new0 (w : World) (name : Str) (pb : PenBrush) (k : ℕ) (s : Shape) (hs : w.shapes[k]? = some s) (cls : Cls) (p1 p2 : Pt ℝ) :
    Good w (newShape w name pb s.xf cls p1 p2) := by
  have h := good_new w [] name pb s.xf cls p1 p2 (.inl ⟨k, s, hs, rfl⟩)
  rw [List.append_nil] at h
  exact h

theorem good_set (w : World) (pts : List (Pt ℝ)) (hp : pts.length = w.pts.length) (x : Mat3 ℝ) (k : ℕ) (s s' : Shape)
    (hs : w.shapes[k]? = some s) (h1 : s'.p1 = s.p1) (h2 : s'.p2 = s.p2) (hx : s'.xf = w.xfs.length) :
    Good w { w with xfs := w.xfs ++ [x], pts := pts, shapes := w.shapes.set k s' } := by
  have hk := (List.getElem?_eq_some_iff.1 hs).1
  refine ⟨hp.ge, by simp, fun j t h => ?_, fun j t h h' => ?_, fun j t h => ?_⟩
  · by_cases hj : k = j
    · subst hj
      rw [hs] at h; cases h
      exact ⟨s', by simp [hk], h1, h2⟩
    · exact ⟨t, by simpa [List.getElem?_set_ne hj] using h, rfl, rfl⟩
  · have hl := (List.getElem?_eq_some_iff.1 h).1
    simp only [List.length_set] at hl
    have := List.getElem?_eq_none_iff.1 h'
    omega
  · by_cases hj : k = j
    · subst hj
      simp only [List.getElem?_set_self hk, Option.some.injEq] at h
      subst h
      exact .inr ⟨hx, by simp⟩
    · simp only [List.getElem?_set_ne hj] at h
      exact .inl ⟨j, t, h, rfl⟩

theorem good_points (w : World) (k : ℕ) : Good w (points w k).1 := by
  simp only [points]
  repeat' split
  all_goals first | exact good_refl w | exact good_same (by simp) le_rfl rfl

theorem good_step (w : World) (op : Op) : Good w (step w op).1 := by
  cases op with
  | mkPt p => exact good_same (by simp [step]) le_rfl rfl
  | movePt i p =>
    simp only [step]; split
    · exact good_same (by simp) le_rfl rfl
    · exact good_refl w
  | make name pb cls i j xf =>
    simp only [step, make]
    split
    · cases xf with
      | none => exact good_new w [Mat3.one] _ _ _ _ _ _ (.inr ⟨rfl, by simp⟩)
      | some k =>
        simp only
        split
        · rename_i s hs; exact good_new0 w _ _ k s hs _ _ _
        · exact good_refl w
    · exact good_refl w
  | setXf k m =>
    simp only [step]; split
    · exact good_same le_rfl (by simp) rfl
    · exact good_refl w
  | copy k =>
    simp only [step, copy]
    split
    · rename_i s hs
      split
      · exact good_new0 w _ _ k s hs _ _ _
      · exact good_refl w
    · exact good_refl w
  | restore k m =>
    simp only [step, restore]
    split
    · rename_i s o hs ho
      split
      · split
        · exact good_set w _ (by simp) _ k s _ hs rfl rfl rfl
        · exact good_set w _ (by simp) _ k s _ hs rfl rfl rfl
      · exact good_refl w
    · exact good_refl w
  | transform k m =>
    simp only [step, transform]
    split
    · split
      · exact good_new w [_] _ _ _ _ _ _ (.inr ⟨rfl, by simp⟩)
      · exact good_new w [_] _ _ _ _ _ _ (.inr ⟨rfl, by simp⟩)
      · exact good_new w [_] _ _ _ _ _ _ (.inr ⟨rfl, by simp⟩)
      · exact good_refl w
      · exact good_refl w
    · exact good_refl w
  | update k b =>
    simp only [step, update]
    split
    · split
      · exact good_refl w
      · exact good_same (by simp) le_rfl rfl
    · exact good_refl w
  | points k => exact good_points w k
  | digi k =>
    simp only [step, digi]
    split
    · split
      · exact good_points w k
      · split
        · split
          · exact good_same (by simp) le_rfl rfl
          · exact good_refl w
        · exact good_refl w
    · exact good_refl w

theorem ok_good {w w' : World} (h : Ok w) (g : Good w w') : Ok w' := by
  have key : ∀ (k : ℕ) (s' : Shape), w'.shapes[k]? = some s' →
      (∃ s, w.shapes[k]? = some s ∧ s'.p1 = s.p1 ∧ s'.p2 = s.p2) ∨
      (k = w.shapes.length ∧ s'.p1 = w.pts.length ∧ s'.p2 = w.pts.length + 1 ∧ w.pts.length + 2 ≤ w'.pts.length) := by
    intro k s' hs'
    cases hs : w.shapes[k]? with
    | none => exact .inr (g.new k s' hs' hs)
    | some s =>
      obtain ⟨t, ht, h1, h2⟩ := g.old k s hs
      rw [hs'] at ht; cases ht
      exact .inl ⟨s, rfl, h1, h2⟩
  refine ⟨fun k s' hs' => ?_, fun k m s' o' hs' ho' hkm => ?_⟩
  · have hp := g.pts
    have hx := g.xfs
    refine ⟨?_, ?_⟩
    · rcases g.xf k s' hs' with ⟨m, o, ho, e⟩ | ⟨e, hl⟩
      · have := (h.bd m o ho).1; omega
      · omega
    · rcases key k s' hs' with ⟨s, hs, e1, e2⟩ | ⟨-, e1, e2, hl⟩
      · have := h.bd k s hs
        rw [e1, e2]
        exact ⟨by omega, by omega, this.2.2.2⟩
      · exact ⟨by omega, by omega, by omega⟩
  · rcases key k s' hs' with ⟨s, hs, e1, e2⟩ | ⟨ek, e1, e2, -⟩ <;>
      rcases key m o' ho' with ⟨o, ho, f1, f2⟩ | ⟨em, f1, f2, -⟩
    · rw [e1, e2, f1, f2]; exact h.sep k m s o hs ho hkm
    · have := h.bd k s hs
      exact ⟨by omega, by omega, by omega, by omega⟩
    · have := h.bd m o ho
      exact ⟨by omega, by omega, by omega, by omega⟩
    · exact absurd (ek.trans em.symm) hkm

theorem ok_step {w : World} (h : Ok w) (op : Op) : Ok (step w op).1 := ok_good h (good_step w op)

theorem run_cons (w : World) (op : Op) (ops : List Op) : run w (op :: ops) = run (step w op).1 ops := rfl

theorem ok_run {w : World} (h : Ok w) (ops : List Op) : Ok (run w ops) := by
  induction ops generalizing w with
  | nil => exact h
  | cons op ops ih => exact ih (ok_step h op)

theorem run_append (w : World) (a b : List Op) : run w (a ++ b) = run (run w a) b := by
  simp [run, List.foldl_append]

theorem pts_run (w : World) (ops : List Op) : w.pts.length ≤ (run w ops).pts.length := by
  induction ops generalizing w with
  | nil => exact le_rfl
  | cons op ops ih => exact (good_step w op).pts.trans (ih _)

theorem refs_run (w : World) (ops : List Op) (k : ℕ) (s : Shape) (hs : w.shapes[k]? = some s) :
    ∃ s', (run w ops).shapes[k]? = some s' ∧ s'.p1 = s.p1 ∧ s'.p2 = s.p2 := by
  induction ops generalizing w s with
  | nil => exact ⟨s, hs, rfl, rfl⟩
  | cons op ops ih =>
    obtain ⟨t, ht, h1, h2⟩ := (good_step w op).old k s hs
    obtain ⟨s', hs', h3, h4⟩ := ih _ t ht
    exact ⟨s', hs', h3.trans h1, h4.trans h2⟩

/-- Objects which exist keep their owners. -/
theorem owns_step (w : World) (op : Op) (k i : ℕ) (hi : i < w.pts.length) : Owns (step w op).1 k i ↔ Owns w k i := by
  have g := good_step w op
  constructor
  · rintro ⟨s', hs', h⟩
    cases hs : w.shapes[k]? with
    | none => have := g.new k s' hs' hs; omega
    | some s =>
      obtain ⟨t, ht, h1, h2⟩ := g.old k s hs
      rw [hs'] at ht; cases ht
      exact ⟨s, hs, by rw [← h1, ← h2]; exact h⟩
  · rintro ⟨s, hs, h⟩
    obtain ⟨t, ht, h1, h2⟩ := g.old k s hs
    exact ⟨t, ht, by rw [h1, h2]; exact h⟩

theorem owns_run (w : World) (ops : List Op) (k i : ℕ) (hi : i < w.pts.length) : Owns (run w ops) k i ↔ Owns w k i := by
  induction ops generalizing w with
  | nil => rfl
  | cons op ops ih =>
    rw [run_cons, ih _ (lt_of_lt_of_le hi (good_step w op).pts), owns_step w op k i hi]

theorem first_run (w : World) (ops : List Op) (k i : ℕ) (h : First w k i) : First (run w ops) k i := by
  obtain ⟨s, hs, rfl⟩ := h
  obtain ⟨t, ht, h1, -⟩ := refs_run w ops k s hs
  exact ⟨t, ht, h1.symm⟩

theorem second_run (w : World) (ops : List Op) (k i : ℕ) (h : Second w k i) : Second (run w ops) k i := by
  obtain ⟨s, hs, rfl⟩ := h
  obtain ⟨t, ht, -, h2⟩ := refs_run w ops k s hs
  exact ⟨t, ht, h2.symm⟩

theorem owns_lt {w : World} (h : Ok w) {k i : ℕ} (ho : Owns w k i) : i < w.pts.length := by
  obtain ⟨s, hs, rfl | rfl⟩ := ho
  · exact (h.bd k s hs).2.1
  · exact (h.bd k s hs).2.2.1

theorem owns_unique {w : World} (h : Ok w) {k m i : ℕ} (hk : Owns w k i) (hm : Owns w m i) : k = m := by
  by_contra hne
  obtain ⟨s, hs, e⟩ := hk
  obtain ⟨o, ho, f⟩ := hm
  have := h.sep k m s o hs ho hne
  rcases e with rfl | rfl <;> rcases f with f | f <;> simp_all

/-- What the shape reads. -/
theorem val_eq {w : World} {k : ℕ} {s : Shape} {m : Mat3 ℝ} {p1 p2 : Pt ℝ} (hs : w.shapes[k]? = some s) (hm : w.xfs[s.xf]? = some m)
    (h1 : w.pts[s.p1]? = some p1) (h2 : w.pts[s.p2]? = some p2) : val w k = some (elemOf s.cls ⟨s.name, s.pb, true, m⟩ p1 p2) := by
  simp [val, hs, hm, h1, h2]

theorem val_parts {w : World} (h : Ok w) {k : ℕ} {s : Shape} (hs : w.shapes[k]? = some s) :
    ∃ m p1 p2, w.xfs[s.xf]? = some m ∧ w.pts[s.p1]? = some p1 ∧ w.pts[s.p2]? = some p2 ∧
      val w k = some (elemOf s.cls ⟨s.name, s.pb, true, m⟩ p1 p2) := by
  obtain ⟨hx, h1, h2, -⟩ := h.bd k s hs
  exact ⟨_, _, _, List.getElem?_eq_getElem hx, List.getElem?_eq_getElem h1, List.getElem?_eq_getElem h2,
    val_eq hs (List.getElem?_eq_getElem hx) (List.getElem?_eq_getElem h1) (List.getElem?_eq_getElem h2)⟩

theorem val_some_lt {w : World} {k : ℕ} {e : Elem} (h : val w k = some e) : ∃ s, w.shapes[k]? = some s := by
  cases hs : w.shapes[k]? with
  | none => simp [val, hs] at h
  | some s => exact ⟨s, rfl⟩

theorem val_congr {w w' : World} {k : ℕ} {s : Shape} (hs : w.shapes[k]? = some s) (hs' : w'.shapes[k]? = some s)
    (hx : w'.xfs[s.xf]? = w.xfs[s.xf]?) (h1 : w'.pts[s.p1]? = w.pts[s.p1]?) (h2 : w'.pts[s.p2]? = w.pts[s.p2]?) :
    val w' k = val w k := by
  simp [val, hs, hs', hx, h1, h2]

theorem val_pts_append {w w' : World} (h : Ok w) {k : ℕ} {s : Shape} (hs : w.shapes[k]? = some s) (lp : List (Pt ℝ)) (lx : List (Mat3 ℝ))
    (ls : List Shape) (hp : w'.pts = w.pts ++ lp) (hx : w'.xfs = w.xfs ++ lx) (hs' : w'.shapes = w.shapes ++ ls) :
    val w' k = val w k := by
  obtain ⟨b, b1, b2, -⟩ := h.bd k s hs
  refine val_congr hs ?_ ?_ ?_ ?_
  · rw [hs', List.getElem?_append_left (List.getElem?_eq_some_iff.1 hs).1]; exact hs
  · rw [hx, List.getElem?_append_left b]
  · rw [hp, List.getElem?_append_left b1]
  · rw [hp, List.getElem?_append_left b2]

theorem val_new {w : World} (h : Ok w) {k : ℕ} {s : Shape} (hs : w.shapes[k]? = some s) (l : List (Mat3 ℝ)) (name : Str) (pb : PenBrush)
    (xf : ℕ) (cls : Cls) (p1 p2 : Pt ℝ) : val (newShape { w with xfs := w.xfs ++ l } name pb xf cls p1 p2) k = val w k :=
  val_pts_append h hs _ _ _ rfl rfl rfl

theorem val_new0 {w : World} (h : Ok w) {k : ℕ} {s : Shape} (hs : w.shapes[k]? = some s) (name : Str) (pb : PenBrush)
    (xf : ℕ) (cls : Cls) (p1 p2 : Pt ℝ) : val (newShape w name pb xf cls p1 p2) k = val w k :=
  val_pts_append h hs _ [] _ rfl (by simp [newShape]) rfl

/-- The new shape itself. -/
theorem val_new_self (w : World) (name : Str) (pb : PenBrush) (xf : ℕ) (cls : Cls) (p1 p2 : Pt ℝ) (m : Mat3 ℝ)
    (hm : w.xfs[xf]? = some m) :
    val (newShape w name pb xf cls p1 p2) w.shapes.length = some (elemOf cls ⟨name, pb, true, m⟩ p1 p2) := by
  refine val_eq (s := ⟨name, pb, xf, cls, w.pts.length, w.pts.length + 1⟩) ?_ hm ?_ ?_
  · simp [newShape]
  · simp [newShape]
  · simp only [newShape]
    rw [List.getElem?_append_right (by omega)]
    simp

theorem getElem?_set_set_ne {α : Type} (l : List α) (a b c : ℕ) (x y : α) (h1 : a ≠ c) (h2 : b ≠ c) : ((l.set a x).set b y)[c]? = l[c]? := by
  rw [List.getElem?_set_ne h2, List.getElem?_set_ne h1]

theorem val_points {w : World} (h : Ok w) {k : ℕ} {s : Shape} (hs : w.shapes[k]? = some s) (m : ℕ) : val (points w m).1 k = val w k := by
  simp only [points]
  repeat' split
  all_goals first | rfl | exact val_pts_append h hs _ [] [] rfl (by simp) (by simp)

/-- A call which does not write a shape leaves its value as it is. -/
theorem val_step {w : World} (h : Ok w) {k : ℕ} {s : Shape} (hs : w.shapes[k]? = some s) (op : Op) (hw : ¬ Writes w k op) :
    val (step w op).1 k = val w k := by
  cases op with
  | mkPt p => exact val_pts_append h hs _ [] [] rfl (by simp [step]) (by simp [step])
  | movePt i p =>
    simp only [step]; split
    · have hn : i ≠ s.p1 ∧ i ≠ s.p2 := ⟨fun e => hw ⟨s, hs, .inl e⟩, fun e => hw ⟨s, hs, .inr e⟩⟩
      exact val_congr hs hs rfl (List.getElem?_set_ne hn.1) (List.getElem?_set_ne hn.2)
    · rfl
  | make name pb cls i j xf =>
    simp only [step, make]
    split
    · cases xf with
      | none => exact val_new h hs [Mat3.one] _ _ _ _ _ _
      | some m =>
        simp only
        split
        · exact val_new0 h hs _ _ _ _ _ _
        · rfl
    · rfl
  | setXf m x =>
    simp only [step]; split
    · rename_i o ho
      have hn : o.xf ≠ s.xf := fun e => hw ⟨s, o, hs, ho, e.symm⟩
      exact val_congr hs hs (List.getElem?_set_ne hn) rfl rfl
    · rfl
  | copy m =>
    simp only [step, copy]
    split
    · split
      · exact val_new0 h hs _ _ _ _ _ _
      · rfl
    · rfl
  | restore j m =>
    have hjk : j ≠ k := hw
    simp only [step, restore]
    split
    · rename_i t o ht ho
      obtain ⟨a1, a2, a3, a4⟩ := h.sep j k t s ht hs hjk
      have hx := (h.bd k s hs).1
      split
      · split
        · exact val_congr hs (by simpa [List.getElem?_set_ne hjk] using hs) (by simp [List.getElem?_append_left hx])
            (getElem?_set_set_ne _ _ _ _ _ _ a1 a3) (getElem?_set_set_ne _ _ _ _ _ _ a2 a4)
        · exact val_congr hs (by simpa [List.getElem?_set_ne hjk] using hs) (by simp [List.getElem?_append_left hx])
            (getElem?_set_set_ne _ _ _ _ _ _ a1 a3) (getElem?_set_set_ne _ _ _ _ _ _ a2 a4)
      · rfl
    · rfl
  | transform j m =>
    simp only [step, transform]
    split
    · split
      · exact val_new h hs [_] _ _ _ _ _ _
      · exact val_new h hs [_] _ _ _ _ _ _
      · exact val_new h hs [_] _ _ _ _ _ _
      · rfl
      · rfl
    · rfl
  | update j b =>
    have hjk : j ≠ k := hw
    simp only [step, update]
    split
    · rename_i t ht
      obtain ⟨a1, a2, a3, a4⟩ := h.sep j k t s ht hs hjk
      split
      · rfl
      · exact val_congr hs hs rfl (getElem?_set_set_ne _ _ _ _ _ _ a1 a3) (getElem?_set_set_ne _ _ _ _ _ _ a2 a4)
    · rfl
  | points j => exact val_points h hs j
  | digi j =>
    simp only [step, digi]
    split
    · split
      · exact val_points h hs j
      · split
        · split
          · exact val_pts_append h hs _ [] [] rfl (by simp) (by simp)
          · rfl
        · rfl
    · rfl

theorem val_spared {w : World} (h : Ok w) {k : ℕ} {s : Shape} (hs : w.shapes[k]? = some s) (ops : List Op) (hsp : Spared k w ops) :
    val (run w ops) k = val w k := by
  induction ops generalizing w s with
  | nil => rfl
  | cons op ops ih =>
    obtain ⟨s', hs', -, -⟩ := (good_step w op).old k s hs
    rw [run_cons, ih (ok_step h op) hs' hsp.2, val_step h hs op hsp.1]

/-- The lists given out stay. -/
theorem given_step (w : World) (op : Op) : ∃ l, (step w op).1.given = w.given ++ l := by
  have same : ∃ l, w.given = w.given ++ l := ⟨[], by simp⟩
  have pts : ∀ k, ∃ l, (points w k).1.given = w.given ++ l := fun k => by
    simp only [points]; (repeat' split) <;> first | exact same | exact ⟨_, rfl⟩
  cases op with
  | points k => exact pts k
  | digi k =>
    simp only [step, digi]
    split
    · split
      · exact pts k
      · split
        · split
          · exact ⟨_, rfl⟩
          · exact same
        · exact same
    · exact same
  | _ =>
    simp only [step, make, copy, restore, transform, update, newShape]
    (repeat' split) <;> exact same

theorem given_run (w : World) (ops : List Op) (i : ℕ) (g : List ℕ) (h : w.given[i]? = some g) : (run w ops).given[i]? = some g := by
  induction ops generalizing w with
  | nil => exact h
  | cons op ops ih =>
    obtain ⟨l, e⟩ := given_step w op
    refine ih _ ?_
    rw [e, List.getElem?_append_left (List.getElem?_eq_some_iff.1 h).1]; exact h

theorem first_elemOf (c : Cls) (h : Hdr) (p1 p2 : Pt ℝ) : first (elemOf c h p1 p2) = some p1 := by cases c <;> rfl

theorem second_elemOf (c : Cls) (h : Hdr) (p1 p2 : Pt ℝ) : second (elemOf c h p1 p2) = some p2 := by cases c <;> rfl

theorem cls_ok {c d r : Cls} (h h' : Hdr) (p1 p2 q1 q2 : Pt ℝ) (hr : restoreCls c d = .ok r) :
    (SameCls (elemOf c h p1 p2) (elemOf d h' q1 q2) → elemOf r h' q1 q2 = elemOf d h' q1 q2) ∧
    (¬ SameCls (elemOf c h p1 p2) (elemOf d h' q1 q2) → ¬ Rounded (elemOf c h p1 p2) ∧
      elemOf r h' q1 q2 = clsOf (elemOf c h p1 p2) (elemOf d h' q1 q2) q1 q2) := by
  cases c <;> cases d <;> cases hr <;>
    first
      | exact ⟨fun _ => rfl, fun hn => absurd trivial hn⟩
      | exact ⟨fun hn => absurd hn (by simp [elemOf, SameCls]), fun _ => ⟨by simp [elemOf, Rounded], rfl⟩⟩

theorem cls_err {c d : Cls} {er : PyErr} (h h' : Hdr) (p1 p2 q1 q2 : Pt ℝ) (hr : restoreCls c d = .error er) :
    ¬ SameCls (elemOf c h p1 p2) (elemOf d h' q1 q2) ∧ er = .attribute ∧ Rounded (elemOf c h p1 p2) ∧
      elemOf c h' q1 q2 = clsOf (elemOf c h p1 p2) (elemOf d h' q1 q2) q1 q2 := by
  cases c <;> cases d <;> cases hr <;> exact ⟨by simp [elemOf, SameCls], rfl, trivial, rfl⟩

theorem restore_val {w : World} (hok : Ok w) {k m : ℕ} {a b : Elem} (ha : val w k = some a) (hb : val w m = some b) :
    ∃ e : Elem, (SameCls a b → (step w (.restore k m)).2 = none ∧ e = b) ∧ val (step w (.restore k m)).1 k = some e ∧
      (∀ j, j ≠ k → ¬ SameXf (step w (.restore k m)).1 k j) ∧
      (¬ SameCls a b → ∀ q1 q2, first b = some q1 → second b = some q2 →
        ((step w (.restore k m)).2 = some .attribute ↔ Rounded a) ∧ ((step w (.restore k m)).2 = none ↔ ¬ Rounded a) ∧
        e = clsOf a b q1 q2) := by
  obtain ⟨s, hs⟩ := val_some_lt ha
  obtain ⟨o, ho⟩ := val_some_lt hb
  obtain ⟨x, p1, p2, hx, h1, h2, hv⟩ := val_parts hok hs
  obtain ⟨y, q1, q2, hy, g1, g2, hv'⟩ := val_parts hok ho
  rw [ha] at hv; cases hv
  rw [hb] at hv'; cases hv'
  obtain ⟨-, b1, b2, hne⟩ := hok.bd k s hs
  have hk := (List.getElem?_eq_some_iff.1 hs).1
  have gen : ∀ c : Cls,
      val { w with xfs := w.xfs ++ [y], pts := (w.pts.set s.p1 q1).set s.p2 q2,
                   shapes := w.shapes.set k ⟨o.name, o.pb, w.xfs.length, c, s.p1, s.p2⟩ } k =
        some (elemOf c ⟨o.name, o.pb, true, y⟩ q1 q2) ∧
      ∀ j, j ≠ k → ¬ SameXf { w with xfs := w.xfs ++ [y], pts := (w.pts.set s.p1 q1).set s.p2 q2,
                                      shapes := w.shapes.set k ⟨o.name, o.pb, w.xfs.length, c, s.p1, s.p2⟩ } k j := by
    intro c
    refine ⟨val_eq (s := ⟨o.name, o.pb, w.xfs.length, c, s.p1, s.p2⟩) (List.getElem?_set_self hk) (by simp) ?_ ?_, ?_⟩
    · simp only
      rw [List.getElem?_set_ne hne.symm, List.getElem?_set_self b1]
    · exact List.getElem?_set_self (by simpa using b2)
    · rintro j hj ⟨u, v, hu, hv, hxf⟩
      simp only [List.getElem?_set_self hk, Option.some.injEq] at hu
      simp only [List.getElem?_set_ne hj.symm] at hv
      subst hu
      have := (hok.bd j v hv).1
      simp only at hxf
      omega
  have hok' : ∀ c, restoreCls s.cls o.cls = .ok c → step w (.restore k m) =
      ({ w with xfs := w.xfs ++ [y], pts := (w.pts.set s.p1 q1).set s.p2 q2,
                shapes := w.shapes.set k ⟨o.name, o.pb, w.xfs.length, c, s.p1, s.p2⟩ }, none) := by
    intro c hc
    simp [step, restore, hs, ho, hy, g1, g2, hc]
  have her : ∀ e, restoreCls s.cls o.cls = .error e → step w (.restore k m) =
      ({ w with xfs := w.xfs ++ [y], pts := (w.pts.set s.p1 q1).set s.p2 q2,
                shapes := w.shapes.set k ⟨o.name, o.pb, w.xfs.length, s.cls, s.p1, s.p2⟩ }, some e) := by
    intro e hc
    simp [step, restore, hs, ho, hy, g1, g2, hc]
  cases hcl : restoreCls s.cls o.cls with
  | ok c =>
    rw [hok' c hcl]
    refine ⟨_, fun h => ⟨rfl, (cls_ok _ _ _ _ _ _ hcl).1 h⟩, (gen c).1, (gen c).2, fun h r1 r2 f1 f2 => ?_⟩
    rw [first_elemOf, Option.some.injEq] at f1
    rw [second_elemOf, Option.some.injEq] at f2
    subst f1 f2
    have := (cls_ok _ _ _ _ _ _ hcl).2 h
    exact ⟨⟨fun h => by simp at h, fun h => absurd h this.1⟩, ⟨fun _ => this.1, fun _ => rfl⟩, this.2⟩
  | error er =>
    rw [her er hcl]
    refine ⟨_, fun h => absurd h (cls_err _ _ _ _ _ _ hcl).1, (gen s.cls).1, (gen s.cls).2, fun h r1 r2 f1 f2 => ?_⟩
    rw [first_elemOf, Option.some.injEq] at f1
    rw [second_elemOf, Option.some.injEq] at f2
    subst f1 f2
    obtain ⟨-, h2, h3, h4⟩ := cls_err _ _ _ _ _ _ hcl
    subst h2
    exact ⟨⟨fun _ => h3, fun _ => rfl⟩, ⟨fun h => by simp at h, fun h => absurd h3 h⟩, h4⟩

theorem fresh_xf {w : World} (hok : Ok w) (l : Mat3 ℝ) (name : Str) (pb : PenBrush) (cls : Cls) (p1 p2 : Pt ℝ) (m : ℕ)
    (hm : m ≠ w.shapes.length) :
    ¬ SameXf (newShape { w with xfs := w.xfs ++ [l] } name pb w.xfs.length cls p1 p2) m w.shapes.length := by
  rintro ⟨s, o, hs, ho, hx⟩
  simp only [newShape] at hs ho
  rw [List.getElem?_append_right le_rfl] at ho
  simp at ho
  subst ho
  have hml : m < w.shapes.length := by
    have := (List.getElem?_eq_some_iff.1 hs).1
    simp at this; omega
  rw [List.getElem?_append_left hml] at hs
  have := (hok.bd m s hs).1
  simp only at hx
  omega

theorem transform_val {w : World} (hok : Ok w) {k : ℕ} {e : Elem} {m : TState} (he : val w k = some e) :
    (∀ e', (e.transform m).2 = .ok e' → (step w (.transform k m)).2 = none ∧
      val (step w (.transform k m)).1 w.shapes.length = some e' ∧
      ∀ j, j ≠ w.shapes.length → ¬ SameXf (step w (.transform k m)).1 j w.shapes.length) ∧
    ∀ er, (e.transform m).2 = .error er → step w (.transform k m) = (w, some er) := by
  obtain ⟨s, hs⟩ := val_some_lt he
  obtain ⟨x, p1, p2, hx, h1, h2, hv⟩ := val_parts hok hs
  refine ⟨fun e' h' => ?_, fun er h' => by simp [step, transform, hs, he, h']⟩
  have hshape : (∃ r q1 q2, e' = .rect ⟨s.name, s.pb, true, r⟩ q1 q2) ∨ (∃ r q1 q2, e' = .ellipse ⟨s.name, s.pb, true, r⟩ q1 q2) ∨
      ∃ r q1 q2 z, e' = .rrect ⟨s.name, s.pb, true, r⟩ q1 q2 z := by
    rw [he] at hv; cases hv
    cases hcl : s.cls with
    | rect =>
      rw [hcl] at h'
      simp only [elemOf, Elem.transform] at h'
      split at h' <;> cases h'
      exact .inl ⟨_, _, _, rfl⟩
    | ellipse =>
      rw [hcl] at h'
      simp only [elemOf, Elem.transform] at h'
      split at h' <;> cases h'
      exact .inr (.inl ⟨_, _, _, rfl⟩)
    | rounded z =>
      rw [hcl] at h'
      simp only [elemOf, Elem.transform] at h'
      split at h' <;> cases h'
      exact .inr (.inr ⟨_, _, _, _, rfl⟩)
  rcases hshape with ⟨r, q1, q2, rfl⟩ | ⟨r, q1, q2, rfl⟩ | ⟨r, q1, q2, z, rfl⟩
  · have hst : step w (.transform k m) = (newShape { w with xfs := w.xfs ++ [r] } s.name s.pb w.xfs.length .rect q1 q2, none) := by
      simp [step, transform, hs, he, h']
    rw [hst]
    exact ⟨rfl, val_new_self { w with xfs := w.xfs ++ [r] } _ _ _ _ _ _ r (by simp), fun j hj => fresh_xf hok _ _ _ _ _ _ j hj⟩
  · have hst : step w (.transform k m) = (newShape { w with xfs := w.xfs ++ [r] } s.name s.pb w.xfs.length .ellipse q1 q2, none) := by
      simp [step, transform, hs, he, h']
    rw [hst]
    exact ⟨rfl, val_new_self { w with xfs := w.xfs ++ [r] } _ _ _ _ _ _ r (by simp), fun j hj => fresh_xf hok _ _ _ _ _ _ j hj⟩
  · have hst : step w (.transform k m) = (newShape { w with xfs := w.xfs ++ [r] } s.name s.pb w.xfs.length (.rounded z) q1 q2, none) := by
      simp [step, transform, hs, he, h']
    rw [hst]
    exact ⟨rfl, val_new_self { w with xfs := w.xfs ++ [r] } _ _ _ _ _ _ r (by simp), fun j hj => fresh_xf hok _ _ _ _ _ _ j hj⟩

/-- The class as a number. -/
def Cls.tag : Cls → ℕ
  | .rect => 0
  | .ellipse => 1
  | .rounded _ => 2

theorem tag_restore {c d r : Cls} (h : restoreCls c d = .ok r) : r.tag = c.tag := by
  cases c <;> cases d <;> simp [restoreCls] at h <;> subst h <;> rfl

theorem cls_step (w : World) (op : Op) (k : ℕ) (s : Shape) (hs : w.shapes[k]? = some s) :
    ∃ s', (step w op).1.shapes[k]? = some s' ∧ s'.cls.tag = s.cls.tag := by
  have hk := (List.getElem?_eq_some_iff.1 hs).1
  have same : ∀ w' : World, (∃ l, w'.shapes = w.shapes ++ l) → ∃ s', w'.shapes[k]? = some s' ∧ s'.cls.tag = s.cls.tag := by
    rintro w' ⟨l, e⟩
    exact ⟨s, by rw [e, List.getElem?_append_left hk]; exact hs, rfl⟩
  cases op with
  | restore j m =>
    simp only [step, restore]
    split
    · rename_i t o ht ho
      have set : ∀ (w' : World) (t' : Shape), t'.cls.tag = t.cls.tag → w'.shapes = w.shapes.set j t' →
          ∃ s', w'.shapes[k]? = some s' ∧ s'.cls.tag = s.cls.tag := by
        intro w' t' htag e
        by_cases hj : j = k
        · subst hj
          rw [hs] at ht; cases ht
          exact ⟨t', by rw [e, List.getElem?_set_self hk], htag⟩
        · exact ⟨s, by rw [e, List.getElem?_set_ne hj]; exact hs, rfl⟩
      split
      · split
        · rename_i c hc
          exact set _ ⟨o.name, o.pb, w.xfs.length, c, t.p1, t.p2⟩ (tag_restore hc) rfl
        · exact set _ ⟨o.name, o.pb, w.xfs.length, t.cls, t.p1, t.p2⟩ rfl rfl
      · exact same w ⟨[], by simp⟩
    · exact same w ⟨[], by simp⟩
  | _ =>
    apply same
    simp only [step, make, copy, transform, update, points, digi, newShape]
    (repeat' split) <;> first | exact ⟨[], (List.append_nil _).symm⟩ | exact ⟨_, rfl⟩

theorem cls_run {w : World} (hok : Ok w) (ops : List Op) {k : ℕ} {e e' : Elem} (he : val w k = some e) (he' : val (run w ops) k = some e') :
    SameCls e' e := by
  obtain ⟨s, hs⟩ := val_some_lt he
  have : ∃ s', (run w ops).shapes[k]? = some s' ∧ s'.cls.tag = s.cls.tag := by
    clear he he' hok
    induction ops generalizing w s with
    | nil => exact ⟨s, hs, rfl⟩
    | cons op ops ih =>
      obtain ⟨t, ht, h1⟩ := cls_step w op k s hs
      obtain ⟨u, hu, h2⟩ := ih t ht
      exact ⟨u, hu, h2.trans h1⟩
  obtain ⟨s', hs', ht⟩ := this
  obtain ⟨x, p1, p2, -, -, -, hv⟩ := val_parts hok hs
  obtain ⟨y, q1, q2, -, -, -, hv'⟩ := val_parts (ok_run hok ops) hs'
  rw [he] at hv; cases hv
  rw [he'] at hv'; cases hv'
  cases h1 : s.cls <;> cases h2 : s'.cls <;> simp_all [Cls.tag, elemOf, SameCls]

/-- Moving a point which is no corner changes no shape. -/
theorem val_move_unowned {w : World} (h : Ok w) (i : ℕ) (p : Pt ℝ) (hi : ∀ m, ¬ Owns w m i) (m : ℕ) :
    val (step w (.movePt i p)).1 m = val w m := by
  cases hs : w.shapes[m]? with
  | none =>
    have : (step w (.movePt i p)).1.shapes = w.shapes := by simp only [step]; split <;> rfl
    simp [val, hs, this]
  | some s => exact val_step h hs _ (hi m)

end X7.SH
