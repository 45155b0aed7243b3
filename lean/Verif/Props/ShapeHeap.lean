import Verif.Lemmas.ShapeHeap

/-!
C114: rectangles, rounded rectangles and ellipses as objects through every history of calls, and the points which they give out.

`run World.empty before` is any state which a program can reach, `later` any further history.
-/

noncomputable section

namespace X7.SH

/-- A point object is a corner of at most one shape, and which one never changes: not by copying, restoring, resizing, transforming
or by making more shapes. -/
theorem C114_owner (before later : List Op) (k m i : ℕ) :
    (Owns (run .empty before) k i → Owns (run .empty before) m i → k = m) ∧
    (i < (run .empty before).pts.length → (Owns (run (run .empty before) later) k i ↔ Owns (run .empty before) k i)) ∧
    (First (run .empty before) k i → First (run (run .empty before) later) k i) ∧
    (Second (run .empty before) k i → Second (run (run .empty before) later) k i) ∧
    (First (run .empty before) k i → ¬ Second (run .empty before) k i) :=
  ⟨owns_unique (ok_run ok_empty before), owns_run _ later k i, first_run _ later k i, second_run _ later k i, by
    rintro ⟨s, hs, rfl⟩ ⟨o, ho, e⟩
    rw [hs] at ho; cases ho
    exact ((ok_run ok_empty before).bd k s hs).2.2.2 e⟩

/-- The points which a program makes itself, and passes to constructors, are never corners: moving one changes no shape, whatever
has been done with it. -/
theorem C114_caller (before later : List Op) (p q : Pt ℝ) (m : ℕ) :
    val (run .empty (before ++ .mkPt p :: later ++ [.movePt (run .empty before).pts.length q])) m =
      val (run .empty (before ++ .mkPt p :: later)) m := by
  obtain ⟨w, e⟩ : ∃ w, w = run .empty before := ⟨_, rfl⟩
  have hok : Ok w := e ▸ ok_run ok_empty before
  rw [run_append _ _ [_], run_append, ← e]
  refine val_move_unowned (ok_run hok _) _ q (fun j ho => ?_) m
  rw [run_cons, owns_run _ _ _ _ (by simp [step])] at ho
  obtain ⟨s, hs, hj⟩ := ho
  have := hok.bd j s hs
  omega

/-- Moving a corner of a shape moves that corner of that shape and does nothing to any other shape. -/
theorem C114_move (before : List Op) (k i : ℕ) (p : Pt ℝ) (e : Elem) (he : val (run .empty before) k = some e) :
    (First (run .empty before) k i → val (run .empty (before ++ [.movePt i p])) k = some (withFirst p e)) ∧
    (Second (run .empty before) k i → val (run .empty (before ++ [.movePt i p])) k = some (withSecond p e)) ∧
    (Owns (run .empty before) k i → ∀ m, m ≠ k → val (run .empty (before ++ [.movePt i p])) m = val (run .empty before) m) := by
  have hok := ok_run ok_empty before
  rw [run_append]
  generalize run World.empty before = w at *
  have hrun : ∀ op, run w [op] = (step w op).1 := fun _ => rfl
  rw [hrun]
  refine ⟨?_, ?_, ?_⟩
  · rintro ⟨s, hs, rfl⟩
    obtain ⟨m, p1, p2, hm, h1, h2, hv⟩ := val_parts hok hs
    obtain ⟨-, b1, b2, hne⟩ := hok.bd k s hs
    rw [he] at hv; cases hv
    simp only [step, if_pos b1]
    rw [val_eq (w := { w with pts := w.pts.set s.p1 p }) hs hm (List.getElem?_set_self b1) (by rw [List.getElem?_set_ne hne]; exact h2)]
    cases s.cls <;> rfl
  · rintro ⟨s, hs, rfl⟩
    obtain ⟨m, p1, p2, hm, h1, h2, hv⟩ := val_parts hok hs
    obtain ⟨-, b1, b2, hne⟩ := hok.bd k s hs
    rw [he] at hv; cases hv
    simp only [step, if_pos b2]
    rw [val_eq (w := { w with pts := w.pts.set s.p2 p }) hs hm (by rw [List.getElem?_set_ne hne.symm]; exact h1) (List.getElem?_set_self b2)]
    cases s.cls <;> rfl
  · intro ho m hm
    cases hs : w.shapes[m]? with
    | none =>
      have : (step w (.movePt i p)).1.shapes = w.shapes := by simp only [step]; split <;> rfl
      simp [val, hs, this]
    | some s => exact val_step hok hs _ (fun ho' => hm (owns_unique hok ho' ho))

/-- A call changes only the shape it is meant for, the shape whose corner it moves, and the shapes which have the transform object
which it changes. -/
theorem C114_others (before : List Op) (op : Op) (k : ℕ) (e : Elem) (he : val (run .empty before) k = some e)
    (hw : ¬ Writes (run .empty before) k op) : val (run .empty (before ++ [op])) k = some e := by
  rw [run_append, ← he]
  obtain ⟨s, hs⟩ := val_some_lt he
  exact val_step (ok_run ok_empty before) hs op hw

/-- The same for histories. -/
theorem C114_history (before later : List Op) (k : ℕ) (e : Elem) (he : val (run .empty before) k = some e)
    (hw : Spared k (run .empty before) later) : val (run .empty (before ++ later)) k = some e := by
  rw [run_append, ← he]
  obtain ⟨s, hs⟩ := val_some_lt he
  exact val_spared (ok_run ok_empty before) hs later hw

/-- Changing the transform of a shape changes it for each shape which has this object, and nothing else of it. -/
theorem C114_setXf (before : List Op) (k m : ℕ) (x : Mat3 ℝ) (e : Elem) (he : val (run .empty before) k = some e)
    (hx : SameXf (run .empty before) k m) : val (run .empty (before ++ [.setXf m x])) k = some (withXf x e) := by
  have hok := ok_run ok_empty before
  rw [run_append]
  generalize run World.empty before = w at *
  obtain ⟨s, o, hs, ho, e1⟩ := hx
  obtain ⟨y, p1, p2, hy, h1, h2, hv⟩ := val_parts hok hs
  rw [he] at hv; cases hv
  have hst : run w [.setXf m x] = { w with xfs := w.xfs.set o.xf x } := by simp [run, step, ho]
  rw [hst, val_eq (w := { w with xfs := w.xfs.set o.xf x }) hs (by rw [← e1]; exact List.getElem?_set_self (hok.bd k s hs).1) h1 h2]
  cases s.cls <;> rfl

/-- A new shape has the coordinates which the two points have now, and a transform of its own or, if it is given one, the transform
object of another shape. -/
theorem C114_make (before : List Op) (name : Str) (pb : PenBrush) (cls : Cls) (i j : ℕ) (p1 p2 : Pt ℝ)
    (h1 : (run .empty before).pts[i]? = some p1) (h2 : (run .empty before).pts[j]? = some p2) :
    ((step (run .empty before) (.make name pb cls i j none)).2 = none ∧
      val (step (run .empty before) (.make name pb cls i j none)).1 (run .empty before).shapes.length =
        some (elemOf cls ⟨name, pb, true, Mat3.one⟩ p1 p2) ∧
      ∀ m, m ≠ (run .empty before).shapes.length →
        ¬ SameXf (step (run .empty before) (.make name pb cls i j none)).1 m (run .empty before).shapes.length) ∧
    ∀ (k : ℕ) (e : Elem), val (run .empty before) k = some e →
      (step (run .empty before) (.make name pb cls i j (some k))).2 = none ∧
      val (step (run .empty before) (.make name pb cls i j (some k))).1 (run .empty before).shapes.length =
        some (elemOf cls ⟨name, pb, true, e.hdr.xf⟩ p1 p2) ∧
      SameXf (step (run .empty before) (.make name pb cls i j (some k))).1 k (run .empty before).shapes.length := by
  have hok := ok_run ok_empty before
  generalize run World.empty before = w at *
  refine ⟨?_, fun k e he => ?_⟩
  · have hst : step w (.make name pb cls i j none) =
        (newShape { w with xfs := w.xfs ++ [Mat3.one] } name pb w.xfs.length cls p1 p2, none) := by simp [step, make, h1, h2]
    rw [hst]
    refine ⟨rfl, val_new_self { w with xfs := w.xfs ++ [Mat3.one] } _ _ _ _ _ _ _ (by simp), fun m hm => ?_⟩
    rintro ⟨s, o, hs, ho, hx⟩
    simp only [newShape] at hs ho
    rw [List.getElem?_append_right le_rfl] at ho
    simp at ho
    subst ho
    have hml : m < w.shapes.length := by
      have := (List.getElem?_eq_some_iff.1 hs).1
      simp at this; omega
    rw [List.getElem?_append_left hml] at hs
    have := (hok.bd m s hs).1
    simp only at hx
    omega
  · obtain ⟨s, hs⟩ := val_some_lt he
    obtain ⟨m, q1, q2, hm, g1, g2, hv⟩ := val_parts hok hs
    rw [he] at hv; cases hv
    have hst : step w (.make name pb cls i j (some k)) = (newShape w name pb s.xf cls p1 p2, none) := by simp [step, make, h1, h2, hs]
    rw [hst]
    refine ⟨rfl, ?_, ?_⟩
    · rw [val_new_self w name pb s.xf cls p1 p2 m hm]
      cases s.cls <;> rfl
    · refine ⟨s, ⟨name, pb, s.xf, cls, w.pts.length, w.pts.length + 1⟩, ?_, ?_, rfl⟩
      · simp only [newShape]
        rw [List.getElem?_append_left (List.getElem?_eq_some_iff.1 hs).1]; exact hs
      · simp [newShape]

/-- A copy is a new shape with the same value. Its points are new, but its transform is the same object. -/
theorem C114_copy (before : List Op) (k : ℕ) (e : Elem) (he : val (run .empty before) k = some e) :
    (step (run .empty before) (.copy k)).2 = none ∧
    val (step (run .empty before) (.copy k)).1 (run .empty before).shapes.length = some e ∧
    SameXf (step (run .empty before) (.copy k)).1 k (run .empty before).shapes.length ∧
    (∀ i, Owns (step (run .empty before) (.copy k)).1 (run .empty before).shapes.length i → (run .empty before).pts.length ≤ i) := by
  have hok := ok_run ok_empty before
  generalize run World.empty before = w at *
  obtain ⟨s, hs⟩ := val_some_lt he
  obtain ⟨m, q1, q2, hm, g1, g2, hv⟩ := val_parts hok hs
  have hst : step w (.copy k) = (newShape w s.name s.pb s.xf s.cls q1 q2, none) := by simp [step, copy, hs, g1, g2]
  rw [hst]
  refine ⟨rfl, ?_, ?_, ?_⟩
  · rw [val_new_self w _ _ _ _ _ _ m hm, ← he, hv]
  · refine ⟨s, ⟨s.name, s.pb, s.xf, s.cls, w.pts.length, w.pts.length + 1⟩, ?_, ?_, rfl⟩
    · simp only [newShape]
      rw [List.getElem?_append_left (List.getElem?_eq_some_iff.1 hs).1]; exact hs
    · simp [newShape]
  · rintro i ⟨o, ho, hi⟩
    simp [newShape] at ho
    subst ho
    simp only at hi
    omega

/-- Restoring a shape from one of the same class gives it the value of the other; it keeps its points and gets a transform of its
own. -/
theorem C114_restore (before : List Op) (k m : ℕ) (a b : Elem) (ha : val (run .empty before) k = some a)
    (hb : val (run .empty before) m = some b) (hc : SameCls a b) :
    (step (run .empty before) (.restore k m)).2 = none ∧ val (step (run .empty before) (.restore k m)).1 k = some b ∧
    ∀ j, j ≠ k → ¬ SameXf (step (run .empty before) (.restore k m)).1 k j := by
  have hok := ok_run ok_empty before
  generalize run World.empty before = w at *
  obtain ⟨e, c, hv, hr, -⟩ := restore_val hok ha hb
  obtain ⟨h1, h2⟩ := c hc
  exact ⟨h1, by rw [hv, h2], hr⟩

/-- Restoring a shape from one of another class. The shape stays of its class. A rounded rectangle keeps its radius and raises an
AttributeError, but only when everything else has been taken over. -/
theorem C114_restore_class (before : List Op) (k m : ℕ) (a b : Elem) (q1 q2 : Pt ℝ) (ha : val (run .empty before) k = some a)
    (hb : val (run .empty before) m = some b) (hc : ¬ SameCls a b) (h1 : first b = some q1) (h2 : second b = some q2) :
    ((step (run .empty before) (.restore k m)).2 = some .attribute ↔ Rounded a) ∧
    ((step (run .empty before) (.restore k m)).2 = none ↔ ¬ Rounded a) ∧
    val (step (run .empty before) (.restore k m)).1 k = some (clsOf a b q1 q2) := by
  have hok := ok_run ok_empty before
  generalize run World.empty before = w at *
  obtain ⟨e, -, hv, -, c⟩ := restore_val hok ha hb
  obtain ⟨g1, g2, g3⟩ := c hc q1 q2 h1 h2
  exact ⟨g1, g2, by rw [hv, g3]⟩

/-- Resizing a shape writes the corners of the box into its two points; without a box nothing is written. -/
theorem C114_update (before : List Op) (k : ℕ) (e : Elem) (he : val (run .empty before) k = some e) :
    (∀ xl yl xh yh : ℝ, (step (run .empty before) (.update k (.box xl yl xh yh))).2 = none ∧
      val (step (run .empty before) (.update k (.box xl yl xh yh))).1 k = some (withFirst ⟨xl, yl⟩ (withSecond ⟨xh, yh⟩ e))) ∧
    step (run .empty before) (.update k .none) = (run .empty before, some .value) := by
  have hok := ok_run ok_empty before
  generalize run World.empty before = w at *
  obtain ⟨s, hs⟩ := val_some_lt he
  obtain ⟨m, q1, q2, hm, g1, g2, hv⟩ := val_parts hok hs
  obtain ⟨-, b1, b2, hne⟩ := hok.bd k s hs
  rw [he] at hv; cases hv
  refine ⟨fun xl yl xh yh => ⟨by simp [step, update, hs], ?_⟩, by simp [step, update, hs]⟩
  have hst : (step w (.update k (.box xl yl xh yh))).1 = { w with pts := (w.pts.set s.p1 ⟨xl, yl⟩).set s.p2 ⟨xh, yh⟩ } := by
    simp [step, update, hs]
  rw [hst, val_eq (w := { w with pts := (w.pts.set s.p1 ⟨xl, yl⟩).set s.p2 ⟨xh, yh⟩ }) hs hm
    (by rw [List.getElem?_set_ne hne.symm, List.getElem?_set_self b1]) (List.getElem?_set_self (by simpa using b2))]
  cases s.cls <;> rfl

/-- `transform` makes a new shape with points and a transform of its own, or raises and makes nothing. -/
theorem C114_transform (before : List Op) (k : ℕ) (e : Elem) (m : TState) (he : val (run .empty before) k = some e) :
    (∀ e', (e.transform m).2 = .ok e' → (step (run .empty before) (.transform k m)).2 = none ∧
      val (step (run .empty before) (.transform k m)).1 (run .empty before).shapes.length = some e' ∧
      ∀ j, j ≠ (run .empty before).shapes.length →
        ¬ SameXf (step (run .empty before) (.transform k m)).1 j (run .empty before).shapes.length) ∧
    ∀ er, (e.transform m).2 = .error er → step (run .empty before) (.transform k m) = (run .empty before, some er) := by
  have hok := ok_run ok_empty before
  generalize run World.empty before = w at *
  exact transform_val hok he

/-- `points()` gives the four corners. The first and third are the points of the shape, the others belong to no shape. -/
theorem C114_points (before : List Op) (k : ℕ) (e : Elem) (p1 p2 : Pt ℝ) (he : val (run .empty before) k = some e)
    (h1 : first e = some p1) (h2 : second e = some p2) :
    (step (run .empty before) (.points k)).2 = none ∧
    ∃ a b c d : ℕ, (step (run .empty before) (.points k)).1.given = (run .empty before).given ++ [[a, b, c, d]] ∧
      (step (run .empty before) (.points k)).1.pts[a]? = some p1 ∧
      (step (run .empty before) (.points k)).1.pts[b]? = some ⟨p1.x, p2.y⟩ ∧
      (step (run .empty before) (.points k)).1.pts[c]? = some p2 ∧
      (step (run .empty before) (.points k)).1.pts[d]? = some ⟨p2.x, p1.y⟩ ∧
      First (step (run .empty before) (.points k)).1 k a ∧ Second (step (run .empty before) (.points k)).1 k c ∧
      (∀ m, ¬ Owns (step (run .empty before) (.points k)).1 m b ∧ ¬ Owns (step (run .empty before) (.points k)).1 m d) ∧
      b ≠ d := by
  have hok := ok_run ok_empty before
  generalize run World.empty before = w at *
  obtain ⟨s, hs⟩ := val_some_lt he
  obtain ⟨m, q1, q2, hm, g1, g2, hv⟩ := val_parts hok hs
  obtain ⟨-, b1, b2, hne⟩ := hok.bd k s hs
  rw [he] at hv; cases hv
  have e1 : q1 = p1 := by cases hc : s.cls <;> simpa [hc, elemOf, first] using h1
  have e2 : q2 = p2 := by cases hc : s.cls <;> simpa [hc, elemOf, second] using h2
  subst e1 e2
  have hst : step w (.points k) = (⟨w.pts ++ [⟨q1.x, q2.y⟩, ⟨q2.x, q1.y⟩], w.xfs, w.shapes,
      w.given ++ [[s.p1, w.pts.length, s.p2, w.pts.length + 1]]⟩, none) := by simp [step, points, hs, g1, g2]
  rw [hst]
  refine ⟨rfl, s.p1, w.pts.length, s.p2, w.pts.length + 1, rfl, ?_, ?_, ?_, ?_, ⟨s, hs, rfl⟩, ⟨s, hs, rfl⟩, fun j => ⟨?_, ?_⟩, by omega⟩
  · simp only; rw [List.getElem?_append_left b1]; exact g1
  · simp
  · simp only; rw [List.getElem?_append_left b2]; exact g2
  · simp only; rw [List.getElem?_append_right (by omega)]; simp
  · rintro ⟨o, ho, hi⟩
    have := hok.bd j o ho
    omega
  · rintro ⟨o, ho, hi⟩
    have := hok.bd j o ho
    omega

/-- `as_digi_points()` of a rectangle gives the points of `points()` as centres. For the other shapes all centres are new points which
belong to no shape. -/
theorem C114_digi (before : List Op) (k : ℕ) (e : Elem) (he : val (run .empty before) k = some e) :
    ((∃ h p1 p2, e = .rect h p1 p2) → step (run .empty before) (.digi k) = step (run .empty before) (.points k)) ∧
    ((¬ ∃ h p1 p2, e = .rect h p1 p2) →
      (∀ cps, e.asDigi = .ok cps → (step (run .empty before) (.digi k)).2 = none ∧
        ∃ g : List ℕ, (step (run .empty before) (.digi k)).1.given = (run .empty before).given ++ [g] ∧
          g.map ((step (run .empty before) (.digi k)).1.pts[·]?) = cps.map (fun c => some c.c) ∧
          ∀ i ∈ g, ∀ m, ¬ Owns (step (run .empty before) (.digi k)).1 m i) ∧
      ∀ er, e.asDigi = .error er → step (run .empty before) (.digi k) = (run .empty before, some er)) := by
  have hok := ok_run ok_empty before
  generalize run World.empty before = w at *
  obtain ⟨s, hs⟩ := val_some_lt he
  obtain ⟨m, q1, q2, hm, g1, g2, hv⟩ := val_parts hok hs
  have hv' := he
  rw [hv] at hv'; cases hv'
  refine ⟨?_, fun hn => ⟨fun cps hc => ?_, fun er hc => ?_⟩⟩
  · rintro ⟨h, p1, p2, hr⟩
    cases hcl : s.cls with
    | rect => simp [step, digi, hs, hcl]
    | ellipse => simp [hcl, elemOf] at hr
    | rounded r => simp [hcl, elemOf] at hr
  · have hst : step w (.digi k) = (⟨w.pts ++ cps.map (·.c), w.xfs, w.shapes,
        w.given ++ [(List.range cps.length).map (w.pts.length + ·)]⟩, none) := by
      cases hcl : s.cls with
      | rect => exact absurd ⟨_, _, _, by rw [hcl]; rfl⟩ hn
      | ellipse => (rw [hcl] at hv hc; simp [step, digi, hs, hcl, hv, hc])
      | rounded r => (rw [hcl] at hv hc; simp [step, digi, hs, hcl, hv, hc])
    rw [hst]
    refine ⟨rfl, _, rfl, ?_, fun i hi j => ?_⟩
    · apply List.ext_getElem
      · simp
      · intro n h1 h2
        simp at h1
        simp [List.getElem?_append_right, h1]
    · rintro ⟨o, ho, hi'⟩
      have := hok.bd j o ho
      simp at hi
      omega
  · cases hcl : s.cls with
    | rect => exact absurd ⟨_, _, _, by rw [hcl]; rfl⟩ hn
    | ellipse => (rw [hcl] at hv hc; simp [step, digi, hs, hcl, hv, hc])
    | rounded r => (rw [hcl] at hv hc; simp [step, digi, hs, hcl, hv, hc])

/-- The points which `points()` gave out, after any further history: the first and third are the corners which the shape has then and
moving them moves these corners and nothing else; moving the second or fourth changes no shape. -/
theorem C114_handles (before later : List Op) (k : ℕ) (e : Elem) (p : Pt ℝ) (he : val (run .empty before) k = some e) :
    ∃ a b c d : ℕ, (run .empty (before ++ .points k :: later)).given[(run .empty before).given.length]? = some [a, b, c, d] ∧
      ∃ e', val (run .empty (before ++ .points k :: later)) k = some e' ∧
        (run .empty (before ++ .points k :: later)).pts[a]? = first e' ∧
        (run .empty (before ++ .points k :: later)).pts[c]? = second e' ∧
        val (run .empty (before ++ .points k :: later ++ [.movePt a p])) k = some (withFirst p e') ∧
        val (run .empty (before ++ .points k :: later ++ [.movePt c p])) k = some (withSecond p e') ∧
        (∀ m, m ≠ k →
          val (run .empty (before ++ .points k :: later ++ [.movePt a p])) m = val (run .empty (before ++ .points k :: later)) m ∧
          val (run .empty (before ++ .points k :: later ++ [.movePt c p])) m = val (run .empty (before ++ .points k :: later)) m) ∧
        ∀ m,
          val (run .empty (before ++ .points k :: later ++ [.movePt b p])) m = val (run .empty (before ++ .points k :: later)) m ∧
          val (run .empty (before ++ .points k :: later ++ [.movePt d p])) m = val (run .empty (before ++ .points k :: later)) m := by
  have hok := ok_run ok_empty before
  obtain ⟨s, hs⟩ := val_some_lt he
  obtain ⟨x, p1, p2, -, -, -, hv⟩ := val_parts hok hs
  have h1 : first e = some p1 := by
    rw [he] at hv; cases hv; cases s.cls <;> rfl
  have h2 : second e = some p2 := by
    rw [he] at hv; cases hv; cases s.cls <;> rfl
  obtain ⟨-, a, b, c, d, hg, -, rb, -, rd, ha, hc, hn, -⟩ := C114_points before k e p1 p2 he h1 h2
  have hrun : run .empty (before ++ .points k :: later) = run (step (run .empty before) (.points k)).1 later := by
    rw [run_append]; rfl
  have hok1 := ok_step hok (.points k)
  have hok2 : Ok (run .empty (before ++ .points k :: later)) := ok_run ok_empty _
  have ha2 : First (run .empty (before ++ .points k :: later)) k a := by rw [hrun]; exact first_run _ later k a ha
  have hc2 : Second (run .empty (before ++ .points k :: later)) k c := by rw [hrun]; exact second_run _ later k c hc
  have hn2 : ∀ m, ¬ Owns (run .empty (before ++ .points k :: later)) m b ∧ ¬ Owns (run .empty (before ++ .points k :: later)) m d := by
    intro m
    rw [hrun, owns_run _ later m b (List.getElem?_eq_some_iff.1 rb).1, owns_run _ later m d (List.getElem?_eq_some_iff.1 rd).1]
    exact hn m
  obtain ⟨t, ht, hat⟩ := ha2
  obtain ⟨t', ht', hct⟩ := hc2
  rw [ht] at ht'; cases ht'
  obtain ⟨y, r1, r2, -, g1, g2, hv2⟩ := val_parts hok2 ht
  obtain ⟨ma, -, oa⟩ := C114_move _ k a p _ hv2
  obtain ⟨-, mc, oc⟩ := C114_move _ k c p _ hv2
  refine ⟨a, b, c, d, ?_, _, hv2, ?_, ?_, ma ⟨t, ht, hat⟩, mc ⟨t, ht, hct⟩,
    fun m hm => ⟨oa ⟨t, ht, .inl hat⟩ m hm, oc ⟨t, ht, .inr hct⟩ m hm⟩, fun m => ⟨?_, ?_⟩⟩
  · rw [hrun]
    exact given_run _ later _ _ (by rw [hg]; simp)
  · rw [hat, g1]; cases t.cls <;> rfl
  · rw [hct, g2]; cases t.cls <;> rfl
  · rw [run_append _ _ [_]]
    exact val_move_unowned hok2 b p (fun j => (hn2 j).1) m
  · rw [run_append _ _ [_]]
    exact val_move_unowned hok2 d p (fun j => (hn2 j).2) m

/-- The points which `as_digi_points()` of an ellipse or a rounded rectangle gave out, after any further history: moving them changes no
shape. -/
theorem C114_digi_handles (before later : List Op) (k : ℕ) (e : Elem) (he : val (run .empty before) k = some e)
    (hn : ¬ ∃ h p1 p2, e = .rect h p1 p2) (cps : List (CP ℝ)) (hc : e.asDigi = .ok cps) :
    ∃ g : List ℕ, g.length = cps.length ∧
      (run .empty (before ++ .digi k :: later)).given[(run .empty before).given.length]? = some g ∧
      ∀ i ∈ g, ∀ (p : Pt ℝ) (m : ℕ),
        val (run .empty (before ++ .digi k :: later ++ [.movePt i p])) m = val (run .empty (before ++ .digi k :: later)) m := by
  have hok := ok_run ok_empty before
  obtain ⟨-, g, hg, hr, ho⟩ := ((C114_digi before k e he).2 hn).1 cps hc
  have hrun : run .empty (before ++ .digi k :: later) = run (step (run .empty before) (.digi k)).1 later := by
    rw [run_append]; rfl
  refine ⟨g, by simpa using congrArg List.length hr, ?_, fun i hi p m => ?_⟩
  · rw [hrun]
    exact given_run _ later _ _ (by rw [hg]; simp)
  · rw [run_append _ _ [_]]
    refine val_move_unowned (ok_run ok_empty _) i p (fun j hj => ?_) m
    have hlt : i < (step (run .empty before) (.digi k)).1.pts.length := by
      have : (step (run .empty before) (.digi k)).1.pts[i]? ∈ cps.map (fun c => some c.c) := by
        rw [← hr]; exact List.mem_map_of_mem hi
      obtain ⟨c, -, hcc⟩ := List.mem_map.1 this
      exact (List.getElem?_eq_some_iff.1 hcc.symm).1
    rw [hrun, owns_run _ later j i hlt] at hj
    exact ho i hi j hj

/-- Undo: copy a shape, do anything that spares the copy, restore the shape from the copy: it has its old value. -/
theorem C114_undo (before later : List Op) (k : ℕ) (e : Elem) (he : val (run .empty before) k = some e)
    (hsp : Spared (run .empty before).shapes.length (run .empty (before ++ [.copy k])) later)
    (e' : Elem) (he' : val (run .empty (before ++ .copy k :: later)) k = some e') :
    SameCls e' e ∧ (step (run .empty (before ++ .copy k :: later)) (.restore k (run .empty before).shapes.length)).2 = none ∧
      val (run .empty (before ++ .copy k :: later ++ [.restore k (run .empty before).shapes.length])) k = some e := by
  have hcopy := (C114_copy before k e he).2.1
  have hn : val (run .empty (before ++ [.copy k])) (run .empty before).shapes.length = some e := by rw [run_append]; exact hcopy
  have hn' := C114_history (before ++ [.copy k]) later _ e hn hsp
  rw [List.append_assoc, List.singleton_append] at hn'
  have hcl : SameCls e' e := by
    rw [run_append] at he'
    exact cls_run (ok_run ok_empty before) _ he he'
  obtain ⟨h1, h2, -⟩ := C114_restore (before ++ .copy k :: later) k _ e' e he' hn' hcl
  exact ⟨hcl, h1, by rw [run_append _ _ [_]]; exact h2⟩

/-- Two points, a rectangle, its copy, an ellipse and a rounded rectangle; then `points()` of the rectangle. -/
def demo (pb : PenBrush) : List Op :=
  [.mkPt ⟨0, 0⟩, .mkPt ⟨2, 1⟩, .make [] pb .rect 0 1 none, .copy 0, .make [] pb .ellipse 0 1 none, .make [] pb (.rounded 1) 0 1 none,
   .points 0]

theorem demo_world (pb : PenBrush) : run .empty (demo pb) =
    ⟨[⟨0, 0⟩, ⟨2, 1⟩, ⟨0, 0⟩, ⟨2, 1⟩, ⟨0, 0⟩, ⟨2, 1⟩, ⟨0, 0⟩, ⟨2, 1⟩, ⟨0, 0⟩, ⟨2, 1⟩, ⟨0, 1⟩, ⟨2, 0⟩],
     [Mat3.one, Mat3.one, Mat3.one],
     [⟨[], pb, 0, .rect, 2, 3⟩, ⟨[], pb, 0, .rect, 4, 5⟩, ⟨[], pb, 1, .ellipse, 6, 7⟩, ⟨[], pb, 2, .rounded 1, 8, 9⟩],
     [[2, 10, 3, 11]]⟩ := rfl

/-- The hypotheses of the theorems are met: the four shapes of `demo` have values, corners and shared or own transforms. -/
example (pb : PenBrush) : val (run .empty (demo pb)) 0 = some (.rect ⟨[], pb, true, Mat3.one⟩ ⟨0, 0⟩ ⟨2, 1⟩) ∧
    val (run .empty (demo pb)) 2 = some (.ellipse ⟨[], pb, true, Mat3.one⟩ ⟨0, 0⟩ ⟨2, 1⟩) ∧
    val (run .empty (demo pb)) 3 = some (.rrect ⟨[], pb, true, Mat3.one⟩ ⟨0, 0⟩ ⟨2, 1⟩ 1) ∧
    First (run .empty (demo pb)) 0 2 ∧ Second (run .empty (demo pb)) 0 3 ∧
    SameXf (run .empty (demo pb)) 0 1 ∧ ¬ SameXf (run .empty (demo pb)) 0 2 := by
  rw [demo_world]
  refine ⟨rfl, rfl, rfl, ⟨_, rfl, rfl⟩, ⟨_, rfl, rfl⟩, ⟨_, _, rfl, rfl, rfl⟩, ?_⟩
  rintro ⟨s, o, hs, ho, h⟩
  simp at hs ho
  subst hs ho
  simp at h

/-- A history which spares the copy: the rectangle is resized and a corner of it moved; undoing brings the rectangle back. -/
example (pb : PenBrush) :
    Spared (run .empty (demo pb)).shapes.length (run .empty (demo pb ++ [.copy 0])) [.update 0 (.box 3 3 5 6), .movePt 2 ⟨1, 1⟩] := by
  rw [run_append, demo_world]
  refine ⟨by simp [Writes], ?_, trivial⟩
  rintro ⟨s, hs, h⟩
  have : s = ⟨[], pb, 0, .rect, 12, 13⟩ := (Option.some.inj hs).symm
  subst this
  simp at h

/-- Finding: the four points which `points()` gave out do not stay corners. When the shape is resized two of them go along and two stay:
they are then no rectangle, and not what `points()` gives now. -/
theorem C114_handles_stale_counterexample (pb : PenBrush) :
    (run .empty (demo pb)).given[0]? = some [2, 10, 3, 11] ∧
    [2, 10, 3, 11].map ((run .empty (demo pb)).pts[·]?) = [some ⟨0, 0⟩, some ⟨0, 1⟩, some ⟨2, 1⟩, some ⟨2, 0⟩] ∧
    [2, 10, 3, 11].map ((run .empty (demo pb ++ [.update 0 (.box 3 3 5 6)])).pts[·]?) =
      [some ⟨3, 3⟩, some ⟨0, 1⟩, some ⟨5, 6⟩, some ⟨2, 0⟩] := by
  rw [run_append, demo_world]
  exact ⟨rfl, rfl, rfl⟩

/-- Finding: restoring a rounded rectangle from a rectangle raises, but the points have been moved, and nothing undoes it. -/
theorem C114_restore_class_counterexample (pb : PenBrush) :
    (step (run .empty (demo pb ++ [.update 0 (.box 3 3 5 6)])) (.restore 3 0)).2 = some .attribute ∧
    val (run .empty (demo pb ++ [.update 0 (.box 3 3 5 6)])) 3 = some (.rrect ⟨[], pb, true, Mat3.one⟩ ⟨0, 0⟩ ⟨2, 1⟩ 1) ∧
    val (step (run .empty (demo pb ++ [.update 0 (.box 3 3 5 6)])) (.restore 3 0)).1 3 =
      some (.rrect ⟨[], pb, true, Mat3.one⟩ ⟨3, 3⟩ ⟨5, 6⟩ 1) := by
  rw [run_append, demo_world]
  exact ⟨rfl, rfl, rfl⟩

/-- Finding: a copy is not spared by a change of the transform of the original, so undoing does not bring the transform back. -/
theorem C114_copy_transform_counterexample (pb : PenBrush) (m : Mat3 ℝ) (hm : m ≠ Mat3.one) :
    val (run .empty (demo pb)) 0 = some (.rect ⟨[], pb, true, Mat3.one⟩ ⟨0, 0⟩ ⟨2, 1⟩) ∧
    val (run .empty (demo pb ++ [.setXf 0 m, .restore 0 1])) 0 = some (.rect ⟨[], pb, true, m⟩ ⟨0, 0⟩ ⟨2, 1⟩) ∧
    val (run .empty (demo pb ++ [.setXf 0 m, .restore 0 1])) 0 ≠ val (run .empty (demo pb)) 0 := by
  have h2 : val (run .empty (demo pb ++ [.setXf 0 m, .restore 0 1])) 0 = some (.rect ⟨[], pb, true, m⟩ ⟨0, 0⟩ ⟨2, 1⟩) := by
    rw [run_append, demo_world]; rfl
  have h1 : val (run .empty (demo pb)) 0 = some (.rect ⟨[], pb, true, Mat3.one⟩ ⟨0, 0⟩ ⟨2, 1⟩) := by
    rw [demo_world]; rfl
  refine ⟨h1, h2, ?_⟩
  rw [h1, h2]
  simpa using hm

end X7.SH
