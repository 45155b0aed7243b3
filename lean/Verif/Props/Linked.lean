import Verif.Lemmas.LinkedAdd

/-!
C113: curves whose control points hang on other points, through every history of calls.
-/

noncomputable section

namespace X7.LK
open PH

/-- The call `point.setxy(x + dx, y + dy)` on the plain point `b` at `(x, y)`. -/
abbrev moveBy (b : ℕ) (x y dx dy : ℝ) : Op := .pts (.setXY b (x + dx) (y + dy))

/-! ### Moving a point -/

/-- C113: moving a plain point moves the centre of every control point that hangs on it and of no other, and changes a handle by as
much as its end goes along more than its start. -/
theorem C113_move (ops : List Op) {b : ℕ} {x y dx dy : ℝ} {n} {p : ℕ} {o : Cp} {v : CP ℝ}
    (hb : (run .empty ops).pts[b]? = some (.point x y n)) (ho : (run .empty ops).cps[p]? = some o)
    (hv : readCp (run .empty ops) p = .ok v) :
    readCp (step (run .empty ops) (moveBy b x y dx dy)).1 p = .ok
      ⟨⟨v.c.x + follow (run .empty ops).pts b o.c * dx, v.c.y + follow (run .empty ops).pts b o.c * dy⟩,
       ⟨v.dl.x + swing (run .empty ops).pts b o.dl * dx, v.dl.y + swing (run .empty ops).pts b o.dl * dy⟩,
       ⟨v.dr.x + swing (run .empty ops).pts b o.dr * dx, v.dr.y + swing (run .empty ops).pts b o.dr * dy⟩, v.kind⟩ := by
  have k := ok_run ops
  generalize run .empty ops = w at *
  rw [readCp_at ho] at hv
  have := move_obj k.wf hb dx dy (k.ref ho) hv
  rw [readCp_at (w := (step w (moveBy b x y dx dy)).1) (o := o) ho]
  simpa only [step, PH.step, hb] using this

theorem rides_read {w : World} (k : Ok w) {b : ℕ} {x y : ℝ} {n} (hb : w.pts[b]? = some (.point x y n)) (dx dy : ℝ) {p : ℕ} {v : CP ℝ}
    (hv : readCp w p = .ok v) (hr : Rides w b p) : readCp (step w (moveBy b x y dx dy)).1 p = .ok (shift dx dy v) := by
  obtain ⟨o, ho, h1, h2, h3⟩ := hr
  rw [readCp_at ho] at hv
  have := move_obj k.wf hb dx dy (k.ref ho) hv
  rw [readCp_at (w := (step w (moveBy b x y dx dy)).1) (o := o) ho]
  simp only [step, PH.step, hb]
  rw [this, follow_pos h1, h2, h3]
  simp [shift]

theorem stays_read {w : World} (k : Ok w) {b : ℕ} {x y : ℝ} {n} (hb : w.pts[b]? = some (.point x y n)) (dx dy : ℝ) {p : ℕ} {v : CP ℝ}
    (hv : readCp w p = .ok v) (hr : Stays w b p) : readCp (step w (moveBy b x y dx dy)).1 p = .ok v := by
  obtain ⟨o, ho, h1, h2, h3⟩ := hr
  rw [readCp_at ho] at hv
  have := move_obj k.wf hb dx dy (k.ref ho) hv
  rw [readCp_at (w := (step w (moveBy b x y dx dy)).1) (o := o) ho]
  simp only [step, PH.step, hb]
  rw [this, follow_neg h1, h2, h3]
  simp

theorem readCurve_get {w : World} {k : ℕ} {vs : List (CP ℝ)} (h : readCurve w k = .ok vs) :
    ∃ c, w.curves[k]? = some c ∧ readCps w c.cps = .ok vs := by
  simp only [readCurve] at h
  cases hc : w.curves[k]? with
  | none => rw [hc] at h; simp at h
  | some c => rw [hc] at h; exact ⟨c, rfl, h⟩

theorem trace_shift (closed : Bool) (vs : List (CP ℝ)) (dx dy : ℝ) :
    Morph.trace (segs closed (vs.map (shift dx dy))) = shiftPt dx dy '' Morph.trace (segs closed vs) := by
  let sh : Poly4 ℝ → Poly4 ℝ := fun S => ⟨shiftPt dx dy S.a, shiftPt dx dy S.b, shiftPt dx dy S.c, shiftPt dx dy S.d⟩
  have hseg : ∀ p q : CP ℝ, seg (shift dx dy p) (shift dx dy q) = sh (seg p q) := by
    intro p q
    simp only [seg, shift, sh, shiftPt, Poly4.mk.injEq, Pt.mk.injEq, true_and, and_true]
    refine ⟨⟨?_, ?_⟩, ?_, ?_⟩ <;> ring
  have hmap : segs closed (vs.map (shift dx dy)) = (segs closed vs).map sh := by
    have z : ∀ a b : List (CP ℝ), List.zipWith seg (a.map (shift dx dy)) (b.map (shift dx dy)) = (List.zipWith seg a b).map sh := by
      intro a b
      simp only [List.zipWith_map_left, List.zipWith_map_right, List.map_zipWith, hseg]
    cases closed
    · simp only [segs, openSegs, Bool.false_eq_true, if_false, ← List.map_tail, z]
    · simp only [segs, closedSegs, if_true, ← List.map_rotate, z]
  have hat : ∀ S u, (sh S).at' u = shiftPt dx dy (S.at' u) := by
    intro S u
    simp only [sh, Poly4.at', bern, shiftPt, Pt.mk.injEq]
    constructor <;> ring
  ext z
  simp only [Morph.trace, hmap, Set.mem_ofPred_eq, List.mem_map, Set.mem_image]
  constructor
  · rintro ⟨T, ⟨S, hS, rfl⟩, u, h0, h1, rfl⟩
    exact ⟨_, ⟨S, hS, u, h0, h1, rfl⟩, (hat S u).symm⟩
  · rintro ⟨_, ⟨S, hS, u, h0, h1, rfl⟩, rfl⟩
    exact ⟨_, ⟨S, hS, rfl⟩, u, h0, h1, hat S u⟩

/-- C113: a curve which hangs on a point as a whole is moved as a whole with it: every control point and so the whole outline. -/
theorem C113_rigid (ops : List Op) {b : ℕ} {x y : ℝ} {n} (dx dy : ℝ) {k : ℕ} {vs : List (CP ℝ)}
    (hb : (run .empty ops).pts[b]? = some (.point x y n)) (hv : readCurve (run .empty ops) k = .ok vs)
    (hr : ∀ p, Has (run .empty ops) k p → Rides (run .empty ops) b p) :
    readCurve (step (run .empty ops) (moveBy b x y dx dy)).1 k = .ok (vs.map (shift dx dy)) ∧
    outline (step (run .empty ops) (moveBy b x y dx dy)).1 k = (outline (run .empty ops) k).map (shiftPt dx dy '' ·) := by
  have K := ok_run ops
  generalize run .empty ops = w at *
  obtain ⟨c, hc, hv'⟩ := readCurve_get hv
  obtain ⟨hl, hg⟩ := readCps_get hv'
  have h1 : readCurve (step w (moveBy b x y dx dy)).1 k = .ok (vs.map (shift dx dy)) := by
    simp only [readCurve]
    show (match w.curves[k]? with | some c => readCps (step w (moveBy b x y dx dy)).1 c.cps | none => _) = _
    rw [hc]
    refine readCps_of (by simp [hl]) fun t p hp => ?_
    obtain ⟨v, e1, e2⟩ := hg t p hp
    exact ⟨shift dx dy v, by simp [e1], rides_read K hb dx dy e2 (hr p ⟨c, hc, List.mem_of_getElem? hp⟩)⟩
  refine ⟨h1, ?_⟩
  have hc' : (step w (moveBy b x y dx dy)).1.curves[k]? = some c := hc
  simp only [outline, h1, hv, hc, hc', Option.map_some, trace_shift]

/-- C113: a curve which has nothing to do with a point is where it was when that point is moved. -/
theorem C113_still (ops : List Op) {b : ℕ} {x y : ℝ} {n} (dx dy : ℝ) {k : ℕ} {vs : List (CP ℝ)}
    (hb : (run .empty ops).pts[b]? = some (.point x y n)) (hv : readCurve (run .empty ops) k = .ok vs)
    (hr : ∀ p, Has (run .empty ops) k p → Stays (run .empty ops) b p) :
    readCurve (step (run .empty ops) (moveBy b x y dx dy)).1 k = .ok vs := by
  have K := ok_run ops
  generalize run .empty ops = w at *
  obtain ⟨c, hc, hv'⟩ := readCurve_get hv
  obtain ⟨hl, hg⟩ := readCps_get hv'
  simp only [readCurve]
  show (match w.curves[k]? with | some c => readCps (step w (moveBy b x y dx dy)).1 c.cps | none => _) = _
  rw [hc]
  refine readCps_of hl fun t p hp => ?_
  obtain ⟨v, e1, e2⟩ := hg t p hp
  exact ⟨v, e1, stays_read K hb dx dy e2 (hr p ⟨c, hc, List.mem_of_getElem? hp⟩)⟩

/-! ### What a call leaves alone -/

/-- C113: a call changes what a control point reads only if it puts other objects into it or sets an object it uses. -/
theorem C113_others (ops : List Op) (op : Op) {p : ℕ} (hp : p < (run .empty ops).cps.length) (ht : ¬ Touches (run .empty ops) p op)
    (hs : ∀ j, CpUses (run .empty ops) p j → ¬ Sets j op) :
    readCp (step (run .empty ops) op).1 p = readCp (run .empty ops) p :=
  (step_readCp (ok_run ops) op hp ht hs).2

/-- A curve keeps its control points unless one of them is touched. -/
theorem step_curve {w : World} (K : Ok w) (op : Op) {k : ℕ} {c : Curve} (hc : w.curves[k]? = some c)
    (ht : ∀ p ∈ c.cps, ¬ Touches w p op) : ∃ c', (step w op).1.curves[k]? = some c' ∧ c'.cps = c.cps := by
  have hk : k < w.curves.length := (List.getElem?_eq_some_iff.1 hc).1
  by_cases hr : ∃ m, op = .restore k m
  · obtain ⟨m, rfl⟩ := hr
    simp only [step, restore, hc]
    cases hm : w.curves[m]? with
    | none => exact ⟨c, hc, rfl⟩
    | some d =>
      simp only
      have k1 : Ok { w with curves := w.curves.set k ⟨d.closed, c.cps⟩ } := K.setCurve (K.curve k c hc)
      split
      · obtain ⟨-, -, -, b4, -⟩ := restoreCps_ok k1 c.cps d.cps (K.curve k c hc) (K.curve m d hm)
        exact ⟨⟨d.closed, c.cps⟩, by rw [b4]; exact List.getElem?_set_self hk, rfl⟩
      · exact ⟨⟨d.closed, c.cps⟩, List.getElem?_set_self hk, rfl⟩
  · by_cases ha : op = .addOne k
    · subst ha
      simp only [step]
      rcases addOne_shape K k with ⟨e, he⟩ | ⟨c', left, right, p, q, o1, o2, m, -, A, -⟩
      · rw [he]; exact ⟨c, hc, rfl⟩
      · have : c' = c := by have := A.here; rw [hc] at this; exact (Option.some.inj this).symm
        subst this
        exact absurd ⟨c', hc, List.mem_of_getElem? A.lt⟩ (ht p (List.mem_of_getElem? A.lt))
    · exact ⟨c, by rw [(step_all K op).2.2 k hk (fun m e => hr ⟨m, e⟩) ha]; exact hc, rfl⟩

/-! ### Copies -/

/-- What `copy()` makes. -/
theorem copy_made {w : World} (K : Ok w) {k : ℕ} {c : Curve} {vs : List (CP ℝ)} (hc : w.curves[k]? = some c)
    (hv : readCps w c.cps = .ok vs) :
    ∃ w' js, step w (.copy k) = ({ w' with curves := w.curves ++ [⟨c.closed, js⟩] }, none) ∧ Made w w' js vs := by
  obtain ⟨w', js, e, M⟩ := fixedCps_made K c.cps hv (K.curve k c hc)
  refine ⟨w', js, ?_, M⟩
  simp only [step, copy, hc, e, M.curves]

theorem readCps_pts {w : World} (cs : List Curve) (is : List ℕ) : readCps { w with curves := cs } is = readCps w is :=
  readCps_congr fun _ _ => rfl

/-- C113: `copy()` of a curve whose points can be read is a new curve with the same control points; every other curve is as before.
If a point cannot be read, `copy()` raises what reading it raises and changes nothing. -/
theorem C113_copy (ops : List Op) (k : ℕ) {c : Curve} (hc : (run .empty ops).curves[k]? = some c) :
    (∀ vs, readCurve (run .empty ops) k = .ok vs →
      (step (run .empty ops) (.copy k)).2 = none ∧
      readCurve (step (run .empty ops) (.copy k)).1 (run .empty ops).curves.length = .ok vs ∧
      outline (step (run .empty ops) (.copy k)).1 (run .empty ops).curves.length = outline (run .empty ops) k ∧
      ∀ j < (run .empty ops).curves.length, readCurve (step (run .empty ops) (.copy k)).1 j = readCurve (run .empty ops) j) ∧
    (∀ e, readCurve (run .empty ops) k = .error e → step (run .empty ops) (.copy k) = (run .empty ops, some e)) := by
  have K := ok_run ops
  generalize run .empty ops = w at *
  have hr : readCurve w k = readCps w c.cps := by simp only [readCurve, hc]
  constructor
  · intro vs hv
    rw [hr] at hv
    obtain ⟨w', js, e, M⟩ := copy_made K hc hv
    rw [e]
    have g : (w.curves ++ [(⟨c.closed, js⟩ : Curve)])[w.curves.length]? = some ⟨c.closed, js⟩ := by simp
    have r1 : readCurve { w' with curves := w.curves ++ [⟨c.closed, js⟩] } w.curves.length = .ok vs := by
      simp only [readCurve, g, readCps_pts]; exact M.read
    refine ⟨rfl, r1, ?_, ?_⟩
    · simp only [outline, r1, g, hc, hr, hv]
    · intro j hj
      simp only [readCurve, List.getElem?_append_left hj]
      cases hj' : w.curves[j]? with
      | none => rfl
      | some d =>
        simp only [readCps_pts]
        exact readCps_congr fun p hp => (M.ext (fun _ => False)).readCp K (K.curve j d hj' p hp) (by simp)
  · intro e he
    rw [hr] at he
    simp only [step, copy, hc, fixedCps_error K c.cps he (K.curve k c hc)]

/-- What the snapshot keeps. -/
structure Kept (w : World) (k : ℕ) (js : List ℕ) (vs : List (CP ℝ)) (lo hi plo phi : ℕ) : Prop where
  ok : Ok w
  curve : ∃ c, w.curves[k]? = some c ∧ c.cps = js
  read : readCps w js = .ok vs
  cps : ∀ p ∈ js, lo ≤ p ∧ p < hi ∧ p < w.cps.length
  plain : ∀ p ∈ js, ∃ o, w.cps[p]? = some o ∧ PlainAt w.pts plo o ∧ o.c < phi ∧ o.dl < phi ∧ o.dr < phi

theorem Kept.step {w : World} {k : ℕ} {js : List ℕ} {vs : List (CP ℝ)} {lo hi plo phi : ℕ} (S : Kept w k js vs lo hi plo phi) (op : Op)
    (ht : ∀ p, lo ≤ p ∧ p < hi → ¬ Touches w p op) (hs : ∀ j, plo ≤ j → j < phi → ¬ Sets j op) :
    Kept (step w op).1 k js vs lo hi plo phi := by
  have untouched : ∀ p ∈ js, (LK.step w op).1.cps[p]? = w.cps[p]? ∧ readCp (LK.step w op).1 p = readCp w p := by
    intro p hp
    obtain ⟨h1, h2, h3⟩ := S.cps p hp
    refine step_readCp S.ok op h3 (ht p ⟨h1, h2⟩) ?_
    rintro j ⟨o, ho, hu⟩
    obtain ⟨o', ho', P, q1, q2, q3⟩ := S.plain p hp
    rw [ho] at ho'
    cases ho'
    obtain ⟨p1, p2, p3, p4, p5, p6⟩ := P
    rcases hu with hu | hu | hu
    · rw [uses_plain (.inl p4) hu]; exact hs _ p1 q1
    · rw [uses_plain (.inr p5) hu]; exact hs _ p2 q2
    · rw [uses_plain (.inr p6) hu]; exact hs _ p3 q3
  have K' := (step_all S.ok op).1
  refine ⟨K', ?_, ?_, ?_, ?_⟩
  · obtain ⟨c, hc, e⟩ := S.curve
    obtain ⟨c', hc', e'⟩ := step_curve S.ok op hc (fun p hp => by
      rw [e] at hp
      obtain ⟨h1, h2, -⟩ := S.cps p hp
      exact ht p ⟨h1, h2⟩)
    exact ⟨c', hc', e'.trans e⟩
  · rw [readCps_congr fun p hp => (untouched p hp).2]; exact S.read
  · intro p hp
    obtain ⟨h1, h2, h3⟩ := S.cps p hp
    refine ⟨h1, h2, ?_⟩
    have := (untouched p hp).1
    rw [List.getElem?_eq_getElem h3] at this
    exact (List.getElem?_eq_some_iff.1 this).1
  · intro p hp
    obtain ⟨o, ho, P, q1, q2, q3⟩ := S.plain p hp
    refine ⟨o, by rw [(untouched p hp).1]; exact ho, ?_, q1, q2, q3⟩
    obtain ⟨p1, p2, p3, p4, p5, p6⟩ := P
    by_cases hpt : ∃ a, op = .pts a
    · obtain ⟨a, rfl⟩ := hpt
      have get : ∀ i, plo ≤ i → i < phi → i < w.pts.length → (PH.step w.pts a).1[i]? = w.pts[i]? := fun i a1 a2 a3 =>
        (step_get a3 a (hs i a1 a2)).1
      have l : ∀ (i : ℕ) (o : PObj ℝ), w.pts[i]? = some o → i < w.pts.length := fun i o h => (List.getElem?_eq_some_iff.1 h).1
      obtain ⟨x, y, m, e1⟩ := p4
      obtain ⟨x', y', e2⟩ := p5
      obtain ⟨x'', y'', e3⟩ := p6
      exact ⟨p1, p2, p3, ⟨x, y, m, by show (PH.step w.pts a).1[o.c]? = _; rw [get _ p1 q1 (l _ _ e1)]; exact e1⟩,
        ⟨x', y', by show (PH.step w.pts a).1[o.dl]? = _; rw [get _ p2 q2 (l _ _ e2)]; exact e2⟩,
        ⟨x'', y'', by show (PH.step w.pts a).1[o.dr]? = _; rw [get _ p3 q3 (l _ _ e3)]; exact e3⟩⟩
    · obtain ⟨l, e⟩ := ((step_all S.ok op).2.1 (fun a h => hpt ⟨a, h⟩)).pts
      rw [e]
      exact PlainAt.append ⟨p1, p2, p3, p4, p5, p6⟩

theorem Kept.run {w : World} {k : ℕ} {js : List ℕ} {vs : List (CP ℝ)} {lo hi plo phi : ℕ} (S : Kept w k js vs lo hi plo phi)
    (ops : List Op) (ht : Spared (fun p => lo ≤ p ∧ p < hi) w ops) (hs : ∀ op ∈ ops, ∀ j, plo ≤ j → j < phi → ¬ Sets j op) :
    Kept (run w ops) k js vs lo hi plo phi := by
  induction ops generalizing w with
  | nil => exact S
  | cons op ops ih =>
    exact ih (S.step op ht.1 (hs op (by simp))) ht.2 (fun o ho => hs o (by simp [ho]))

theorem kept_copy {w : World} (K : Ok w) {k : ℕ} {vs : List (CP ℝ)} (hv : readCurve w k = .ok vs) :
    ∃ js, Kept (step w (.copy k)).1 w.curves.length js vs w.cps.length (step w (.copy k)).1.cps.length w.pts.length
      (step w (.copy k)).1.pts.length ∧ js.Nodup := by
  obtain ⟨c, hc, hv'⟩ := readCurve_get hv
  obtain ⟨w', js, e, M⟩ := copy_made K hc hv'
  have K' := (step_all K (.copy k)).1
  rw [e] at K' ⊢
  refine ⟨js, ⟨K', ⟨⟨c.closed, js⟩, by simp, rfl⟩, ?_, ?_, ?_⟩, M.nodup⟩
  · simp only [readCps_pts]; exact M.read
  · intro p hp
    obtain ⟨h1, h2⟩ := M.lt p hp
    exact ⟨h1, h2, h2⟩
  · intro p hp
    obtain ⟨o, ho, P⟩ := M.plain p hp
    have r := plain_ref P
    exact ⟨o, ho, P, lt_of_isBasePoint r.1, lt_of_isVec r.2.1, lt_of_isVec r.2.2⟩

/-- C113: a copy is a snapshot. Whatever is called later on other objects, including moving the points the original hangs on, the copy
keeps the control points which the original had when it was copied. -/
theorem C113_snapshot (ops later : List Op) (k : ℕ) {vs : List (CP ℝ)} (hv : readCurve (run .empty ops) k = .ok vs)
    (ht : Spared (fun p => (run .empty ops).cps.length ≤ p ∧ p < (step (run .empty ops) (.copy k)).1.cps.length)
      (step (run .empty ops) (.copy k)).1 later)
    (hs : ∀ op ∈ later, ∀ j, (run .empty ops).pts.length ≤ j → j < (step (run .empty ops) (.copy k)).1.pts.length → ¬ Sets j op) :
    readCurve (run (step (run .empty ops) (.copy k)).1 later) (run .empty ops).curves.length = .ok vs := by
  obtain ⟨js, S, -⟩ := kept_copy (ok_run ops) hv
  have S' := S.run later ht hs
  obtain ⟨c, hc, e⟩ := S'.curve
  simp only [readCurve, hc, e]
  exact S'.read

/-- C113: `cp.copy()` never raises. The new control point reads the same (or fails to read with the same exception), consists of new
objects, and its centre hangs on the older points that the original hangs on, except that a plain centre is copied into a new plain
point. No other control point changes. -/
theorem C113_cp_copy (ops : List Op) {p : ℕ} {o : Cp} (ho : (run .empty ops).cps[p]? = some o) :
    (step (run .empty ops) (.copyCp p)).2 = none ∧
    (step (run .empty ops) (.copyCp p)).1.cps.length = (run .empty ops).cps.length + 1 ∧
    readCp (step (run .empty ops) (.copyCp p)).1 (run .empty ops).cps.length = readCp (run .empty ops) p ∧
    (∃ o', (step (run .empty ops) (.copyCp p)).1.cps[(run .empty ops).cps.length]? = some o' ∧
      (run .empty ops).pts.length ≤ o'.c ∧ (run .empty ops).pts.length ≤ o'.dl ∧ (run .empty ops).pts.length ≤ o'.dr ∧
      ∀ b < (run .empty ops).pts.length,
        (Depends (step (run .empty ops) (.copyCp p)).1.pts o'.c b ↔ Depends (run .empty ops).pts o.c b ∧ b ≠ o.c)) ∧
    ∀ q < (run .empty ops).cps.length, readCp (step (run .empty ops) (.copyCp p)).1 q = readCp (run .empty ops) q := by
  have K := ok_run ops
  generalize run .empty ops = w at *
  obtain ⟨l, o', e, -, C⟩ := copyParts_ok K.wf (K.ref ho)
  have es : step w (.copyCp p) = ({ w with pts := w.pts ++ l, cps := w.cps ++ [o'] }, none) := by
    simp only [step, copyCp, ho, e]
  have fr := fun q hq => (step_readCp K (.copyCp p) (p := q) hq (by intro h; exact h) (by intro j _ h; exact h)).2
  rw [es] at fr ⊢
  have g : (w.cps ++ [o'])[w.cps.length]? = some o' := by simp
  refine ⟨rfl, by simp, ?_, ⟨o', g, C.fresh.1, C.fresh.2.1, C.fresh.2.2, C.dep⟩, fr⟩
  rw [readCp_at (w := { w with pts := w.pts ++ l, cps := w.cps ++ [o'] }) g, readCp_at ho]
  exact C.read

/-! ### Restoring -/

/-- C113: `cp.restore(other)` does the same to an existing control point: it holds new objects that read what the other one reads. -/
theorem C113_cp_restore (ops : List Op) {p q : ℕ} {o : Cp} (hp : p < (run .empty ops).cps.length) (ho : (run .empty ops).cps[q]? = some o) :
    (step (run .empty ops) (.restoreCp p q)).2 = none ∧
    readCp (step (run .empty ops) (.restoreCp p q)).1 p = readCp (run .empty ops) q ∧
    (∃ o', (step (run .empty ops) (.restoreCp p q)).1.cps[p]? = some o' ∧
      (run .empty ops).pts.length ≤ o'.c ∧ (run .empty ops).pts.length ≤ o'.dl ∧ (run .empty ops).pts.length ≤ o'.dr ∧
      ∀ b < (run .empty ops).pts.length,
        (Depends (step (run .empty ops) (.restoreCp p q)).1.pts o'.c b ↔ Depends (run .empty ops).pts o.c b ∧ b ≠ o.c)) ∧
    ∀ r < (run .empty ops).cps.length, r ≠ p → readCp (step (run .empty ops) (.restoreCp p q)).1 r = readCp (run .empty ops) r := by
  have K := ok_run ops
  generalize run .empty ops = w at *
  obtain ⟨w', l, o', e, e', C, -, -⟩ := restoreCp_ok K hp ho
  subst e'
  have es : step w (.restoreCp p q) = ({ w with pts := w.pts ++ l, cps := w.cps.set p o' }, none) := by
    simp only [step, e]
  have fr := fun r hr (hne : r ≠ p) =>
    (step_readCp K (.restoreCp p q) (p := r) hr (by intro h; exact hne h.symm) (by intro j _ h; exact h)).2
  rw [es] at fr ⊢
  have g : (w.cps.set p o')[p]? = some o' := List.getElem?_set_self hp
  refine ⟨rfl, ?_, ⟨o', g, C.fresh.1, C.fresh.2.1, C.fresh.2.2, C.dep⟩, fr⟩
  rw [readCp_at (w := { w with pts := w.pts ++ l, cps := w.cps.set p o' }) g, C.read, readCp_at ho]

theorem restore_eq {w : World} {k m : ℕ} {c d : Curve} (hc : w.curves[k]? = some c) (hd : w.curves[m]? = some d)
    (hl : c.cps.length = d.cps.length) :
    step w (.restore k m) = restoreCps { w with curves := w.curves.set k ⟨d.closed, c.cps⟩ } c.cps d.cps := by
  simp only [step, restore, hc, hd, if_pos hl]

/-- C113: `restore(other)` with as many control points gives a curve the control points, and so the outline, that the other one has now,
and leaves every control point alone which is not one of its own. -/
theorem C113_restore (ops : List Op) {k m : ℕ} {c d : Curve} {vs : List (CP ℝ)} (hc : (run .empty ops).curves[k]? = some c)
    (hd : (run .empty ops).curves[m]? = some d) (hl : c.cps.length = d.cps.length) (hn : c.cps.Nodup)
    (hx : k = m ∨ ∀ p ∈ c.cps, p ∉ d.cps) (hv : readCurve (run .empty ops) m = .ok vs) :
    (step (run .empty ops) (.restore k m)).2 = none ∧
    readCurve (step (run .empty ops) (.restore k m)).1 k = .ok vs ∧
    outline (step (run .empty ops) (.restore k m)).1 k = outline (run .empty ops) m ∧
    ∀ p < (run .empty ops).cps.length, p ∉ c.cps →
      readCp (step (run .empty ops) (.restore k m)).1 p = readCp (run .empty ops) p := by
  have K := ok_run ops
  generalize run .empty ops = w at *
  have hk : k < w.curves.length := (List.getElem?_eq_some_iff.1 hc).1
  have hv' : readCps w d.cps = .ok vs := by simpa only [readCurve, hd] using hv
  obtain ⟨hvl, hg⟩ := readCps_get hv'
  have k1 : Ok { w with curves := w.curves.set k ⟨d.closed, c.cps⟩ } := K.setCurve (K.curve k c hc)
  have cl : Clean c.cps d.cps := by
    rcases hx with rfl | hx
    · rw [hc] at hd; cases hd; exact clean_self hn
    · exact clean_of hn hx
  obtain ⟨b1, b2, b3, b4, b5, b6⟩ := restoreCps_ok k1 c.cps d.cps (K.curve k c hc) (K.curve m d hd)
  rw [restore_eq hc hd hl]
  generalize restoreCps { w with curves := w.curves.set k ⟨d.closed, c.cps⟩ } c.cps d.cps = R at *
  have hcv : R.1.curves[k]? = some ⟨d.closed, c.cps⟩ := by rw [b4]; exact List.getElem?_set_self hk
  have r1 : readCurve R.1 k = .ok vs := by
    simp only [readCurve, hcv]
    refine readCps_of (by rw [hvl, hl]) fun t p hp => ?_
    have htl : t < d.cps.length := by have := (List.getElem?_eq_some_iff.1 hp).1; omega
    have hq : d.cps[t]? = some d.cps[t] := List.getElem?_eq_getElem htl
    obtain ⟨v, e1, e2⟩ := hg t _ hq
    have ho := List.getElem?_eq_getElem (K.curve m d hd _ (List.getElem_mem htl))
    obtain ⟨o', f1, C⟩ := b6 cl t p _ _ hp hq ho
    refine ⟨v, e1, ?_⟩
    rw [readCp_at f1, C.read, ← e2, readCp_at ho]
  refine ⟨b1, r1, ?_, ?_⟩
  · simp only [outline, r1, hcv, hv, hd]
  · intro p hp hpc
    rw [b3.readCp k1 hp hpc]
    rfl

/-- C113: after `restore(other)` a centre hangs on the older points that the centre it was copied from hangs on, except that a plain
point is copied into a new plain point which hangs on nothing else. -/
theorem C113_restore_links (ops : List Op) {k m : ℕ} {c d : Curve} (hc : (run .empty ops).curves[k]? = some c)
    (hd : (run .empty ops).curves[m]? = some d) (hl : c.cps.length = d.cps.length) (hn : c.cps.Nodup)
    (hx : k = m ∨ ∀ p ∈ c.cps, p ∉ d.cps) {t p q : ℕ} {o : Cp} (hp : c.cps[t]? = some p) (hq : d.cps[t]? = some q)
    (ho : (run .empty ops).cps[q]? = some o) :
    ∃ o', (step (run .empty ops) (.restore k m)).1.cps[p]? = some o' ∧ ∀ b < (run .empty ops).pts.length,
      (Depends (step (run .empty ops) (.restore k m)).1.pts o'.c b ↔ Depends (run .empty ops).pts o.c b ∧ b ≠ o.c) := by
  have K := ok_run ops
  generalize run .empty ops = w at *
  have k1 : Ok { w with curves := w.curves.set k ⟨d.closed, c.cps⟩ } := K.setCurve (K.curve k c hc)
  have cl : Clean c.cps d.cps := by
    rcases hx with rfl | hx
    · rw [hc] at hd; cases hd; exact clean_self hn
    · exact clean_of hn hx
  obtain ⟨b1, b2, b3, b4, b5, b6⟩ := restoreCps_ok k1 c.cps d.cps (K.curve k c hc) (K.curve m d hd)
  rw [restore_eq hc hd hl]
  obtain ⟨o', f1, C⟩ := b6 cl t p q o hp hq ho
  exact ⟨o', f1, C.dep⟩

/-- C113: `restore` with another number of control points raises and no control point is changed. -/
theorem C113_restore_mismatch (ops : List Op) {k m : ℕ} {c d : Curve} (hc : (run .empty ops).curves[k]? = some c)
    (hd : (run .empty ops).curves[m]? = some d) (hl : c.cps.length ≠ d.cps.length) :
    (step (run .empty ops) (.restore k m)).2 = some .geomInternal ∧
    ∀ j, readCurve (step (run .empty ops) (.restore k m)).1 j = readCurve (run .empty ops) j := by
  generalize run .empty ops = w at *
  have hk : k < w.curves.length := (List.getElem?_eq_some_iff.1 hc).1
  simp only [step, restore, hc, hd, if_neg hl, true_and]
  intro j
  simp only [readCurve, List.getElem?_set]
  by_cases hj : k = j
  · subst hj
    simp only [if_true, hk, hc, readCps_pts]
  · simp only [hj, if_false]
    cases w.curves[j]? with
    | none => rfl
    | some x => simp only [readCps_pts]

/-- C113: undo by `saved = curve.copy()` and later `curve.restore(saved)`. As long as the saved copy is left alone and the curve has as
many control points as before, undo brings the control points back exactly. But it also cuts the curve off: no point that exists at
that time moves it any more. -/
theorem C113_undo (ops later : List Op) (k : ℕ) {vs : List (CP ℝ)} (hv : readCurve (run .empty ops) k = .ok vs)
    (ht : Spared (fun p => (run .empty ops).cps.length ≤ p ∧ p < (step (run .empty ops) (.copy k)).1.cps.length)
      (step (run .empty ops) (.copy k)).1 later)
    (hs : ∀ op ∈ later, ∀ j, (run .empty ops).pts.length ≤ j → j < (step (run .empty ops) (.copy k)).1.pts.length → ¬ Sets j op)
    {c : Curve} (hc : (run (step (run .empty ops) (.copy k)).1 later).curves[k]? = some c) (hl : c.cps.length = vs.length)
    (hn : c.cps.Nodup) (hx : ∀ p ∈ c.cps, ¬ ((run .empty ops).cps.length ≤ p ∧ p < (step (run .empty ops) (.copy k)).1.cps.length)) :
    let w := run (step (run .empty ops) (.copy k)).1 later
    let w' := (step w (.restore k (run .empty ops).curves.length)).1
    (step w (.restore k (run .empty ops).curves.length)).2 = none ∧ readCurve w' k = .ok vs ∧
    ∀ b x y n, w.pts[b]? = some (.point x y n) → ∀ dx dy, readCurve (step w' (moveBy b x y dx dy)).1 k = .ok vs := by
  intro w w'
  obtain ⟨js, S, -⟩ := kept_copy (ok_run ops) hv
  have S' := S.run later ht hs
  obtain ⟨d, hd, e⟩ := S'.curve
  have hdl : c.cps.length = d.cps.length := by rw [e, hl, (readCps_get S'.read).1]
  have hrun : w = run .empty (ops ++ .copy k :: later) := by rw [run_append]; rfl
  have hvm : readCurve w (run .empty ops).curves.length = .ok vs := by
    show readCurve (run (step (run .empty ops) (.copy k)).1 later) _ = _
    simp only [readCurve, hd, e]; exact S'.read
  have hdis : ∀ p ∈ c.cps, p ∉ d.cps := fun p hp hpd => by
    rw [e] at hpd
    obtain ⟨a1, a2, -⟩ := S'.cps p hpd
    exact hx p hp ⟨a1, a2⟩
  obtain ⟨r1, r2, -, -⟩ := C113_restore (ops ++ .copy k :: later) (k := k) (m := (run .empty ops).curves.length) (by rw [← hrun]; exact hc)
    (by rw [← hrun]; exact hd) hdl hn (.inr hdis) (by rw [← hrun]; exact hvm)
  rw [← hrun] at r1 r2
  refine ⟨r1, r2, ?_⟩
  intro b x y n hb dx dy
  have K : Ok w := S'.ok
  have k1 : Ok { w with curves := w.curves.set k ⟨d.closed, c.cps⟩ } := K.setCurve (K.curve k c hc)
  obtain ⟨b1, b2, b3, b4, b5, b6⟩ := restoreCps_ok k1 c.cps d.cps (K.curve k c hc) (K.curve _ d hd)
  have hw' : w' = (restoreCps { w with curves := w.curves.set k ⟨d.closed, c.cps⟩ } c.cps d.cps).1 := by
    show (step w (.restore k (run .empty ops).curves.length)).1 = _
    rw [restore_eq hc hd hdl]
  have K' : Ok w' := by rw [hw']; exact b2
  rw [← hw'] at b3 b6 b4
  have hk : k < w.curves.length := (List.getElem?_eq_some_iff.1 hc).1
  have hcv : w'.curves[k]? = some ⟨d.closed, c.cps⟩ := by rw [b4]; exact List.getElem?_set_self hk
  obtain ⟨l, hl'⟩ := b3.pts
  have hbl : b < w.pts.length := (List.getElem?_eq_some_iff.1 hb).1
  have hb' : w'.pts[b]? = some (.point x y n) := by
    rw [hl']
    show (w.pts ++ l)[b]? = _
    rw [List.getElem?_append_left hbl]; exact hb
  obtain ⟨c0, hc0, hv0⟩ := readCurve_get r2
  have : c0 = ⟨d.closed, c.cps⟩ := by
    have h := hc0
    change w'.curves[k]? = _ at h
    rw [hcv] at h; exact (Option.some.inj h).symm
  subst this
  obtain ⟨hvl, hg⟩ := readCps_get hv0
  simp only [readCurve]
  show (match w'.curves[k]? with | some c => readCps (step w' (moveBy b x y dx dy)).1 c.cps | none => _) = _
  rw [hcv]
  refine readCps_of hvl fun t p hp => ?_
  obtain ⟨v, e1, e2⟩ := hg t p hp
  refine ⟨v, e1, stays_read K' hb' dx dy e2 ?_⟩
  have htl : t < d.cps.length := by have := (List.getElem?_eq_some_iff.1 hp).1; simp only at this; omega
  have hq : d.cps[t]? = some d.cps[t] := List.getElem?_eq_getElem htl
  obtain ⟨o, ho, P, -⟩ := S'.plain d.cps[t] (by rw [← e]; exact List.getElem_mem htl)
  obtain ⟨o', f1, C⟩ := b6 (clean_of hn hdis) t p _ o hp hq ho
  obtain ⟨-, -, -, p4, ⟨x5, y5, p5⟩, ⟨x6, y6, p6⟩⟩ := P
  refine ⟨o', f1, fun hdep => ?_, swing_plain ⟨x5, y5, C.dl x5 y5 p5⟩, swing_plain ⟨x6, y6, C.dr x6 y6 p6⟩⟩
  obtain ⟨h1, h2⟩ := (C.dep b hbl).1 hdep
  exact h2 (depends_plain p4 h1)

/-! ### Other new curves -/

/-- C113: `transform` makes a curve of new plain points: the transformed control points, which no older point moves. -/
theorem C113_transform (ops : List Op) (k : ℕ) (m : Mat3 ℝ) {vs : List (CP ℝ)} (hv : readCurve (run .empty ops) k = .ok vs) :
    (step (run .empty ops) (.transform k m)).2 = none ∧
    readCurve (step (run .empty ops) (.transform k m)).1 (run .empty ops).curves.length = .ok (vs.map fun v => v.transformLin m.apply) ∧
    ∀ p, Has (step (run .empty ops) (.transform k m)).1 (run .empty ops).curves.length p → ∀ b < (run .empty ops).pts.length,
      Stays (step (run .empty ops) (.transform k m)).1 b p := by
  have K := ok_run ops
  generalize run .empty ops = w at *
  obtain ⟨c, hc, hv'⟩ := readCurve_get hv
  have M := newCps_made K (vs.map fun v => v.transformLin m.apply)
  obtain ⟨W, hW⟩ : ∃ W, W = newCps w (vs.map fun v => v.transformLin m.apply) := ⟨_, rfl⟩
  have e : step w (.transform k m) = ({ W.1 with curves := W.1.curves ++ [⟨c.closed, W.2⟩] }, none) := by
    simp only [step, transform, hc, hv', hW]
  rw [← hW] at M
  rw [e, M.curves]
  have g : (w.curves ++ [(⟨c.closed, W.2⟩ : Curve)])[w.curves.length]? = some ⟨c.closed, W.2⟩ := by simp
  refine ⟨rfl, ?_, ?_⟩
  · simp only [readCurve, g, readCps_pts]; exact M.read
  · rintro p ⟨c', hc', hp⟩ b hb
    simp only [g, Option.some.injEq] at hc'
    subst hc'
    obtain ⟨o, ho, P⟩ := M.plain p hp
    exact P.stays (w := { W.1 with curves := w.curves ++ [⟨c.closed, W.2⟩] }) ho hb

/-- C113: a curve of the reversed control points shares the points: it reads as the original backwards and hangs on the same points. -/
theorem C113_reversed (ops : List Op) (k : ℕ) {vs : List (CP ℝ)} (hv : readCurve (run .empty ops) k = .ok vs) :
    (step (run .empty ops) (.reversed k)).2 = none ∧
    readCurve (step (run .empty ops) (.reversed k)).1 (run .empty ops).curves.length =
      .ok (vs.reverse.map fun v => ⟨v.c, v.dr, v.dl, v.kind⟩) ∧
    ∀ b, (∀ p, Has (run .empty ops) k p → Rides (run .empty ops) b p) →
      ∀ p, Has (step (run .empty ops) (.reversed k)).1 (run .empty ops).curves.length p → Rides (step (run .empty ops) (.reversed k)).1 b p := by
  have K := ok_run ops
  generalize run .empty ops = w at *
  obtain ⟨c, hc, hv'⟩ := readCurve_get hv
  obtain ⟨hl, hg⟩ := readCps_get hv'
  obtain ⟨w', js, e, k', E, e2, e3, e4, hlt, get⟩ := reverseCps_ok K c.cps.reverse (fun p hp => K.curve k c hc p (List.mem_reverse.1 hp))
  have es : step w (.reversed k) = ({ w' with curves := w.curves ++ [⟨c.closed, js⟩] }, none) := by
    simp only [step, reversed, hc, e, e2]
  rw [es]
  have g : (w.curves ++ [(⟨c.closed, js⟩ : Curve)])[w.curves.length]? = some ⟨c.closed, js⟩ := by simp
  have idx : ∀ (t q : ℕ), js[t]? = some q → ∃ p o, c.cps.reverse[t]? = some p ∧ w.cps[p]? = some o ∧ w'.cps[q]? = some ⟨o.c, o.dr, o.dl, o.kind⟩ := by
    intro t q hq
    have htl : t < c.cps.reverse.length := by have := (List.getElem?_eq_some_iff.1 hq).1; omega
    have hp := List.getElem?_eq_getElem htl
    obtain ⟨q', o, h1, h2, h3⟩ := get t _ hp
    rw [hq] at h1
    cases h1
    exact ⟨_, o, hp, h2, h3⟩
  refine ⟨rfl, ?_, ?_⟩
  · simp only [readCurve, g, readCps_pts]
    have hgr : readCps w c.cps.reverse = .ok vs.reverse := by
      refine readCps_of (by simp [hl]) fun t p hp => ?_
      have htl : t < c.cps.length := by have := (List.getElem?_eq_some_iff.1 hp).1; simpa using this
      rw [List.getElem?_reverse htl] at hp
      obtain ⟨v, h1, h2⟩ := hg _ p hp
      refine ⟨v, ?_, h2⟩
      rw [List.getElem?_reverse (by omega), hl]; exact h1
    obtain ⟨hl2, hg2⟩ := readCps_get hgr
    refine readCps_of (by simp [hl, e4]) fun t q hq => ?_
    obtain ⟨p, o, h1, h2, h3⟩ := idx t q hq
    obtain ⟨v, f1, f2⟩ := hg2 t p h1
    refine ⟨⟨v.c, v.dr, v.dl, v.kind⟩, by simp only [List.getElem?_map, f1, Option.map_some], ?_⟩
    rw [readCp_at h2] at f2
    rw [readCp_at h3, e3]
    obtain ⟨a1, a2, a3, a4⟩ := readObj_ok.1 f2
    exact readObj_ok.2 ⟨a1, a3, a2, a4⟩
  · rintro b hr q ⟨c', hc', hq⟩
    simp only [g, Option.some.injEq] at hc'
    subst hc'
    obtain ⟨t, ht⟩ := List.mem_iff_getElem?.1 hq
    obtain ⟨p, o, h1, h2, h3⟩ := idx t q ht
    obtain ⟨o', ho', r1, r2, r3⟩ := hr p ⟨c, hc, List.mem_reverse.1 (List.mem_of_getElem? h1)⟩
    rw [h2] at ho'
    cases ho'
    refine ⟨⟨o.c, o.dr, o.dl, o.kind⟩, h3, ?_, ?_, ?_⟩
    · show Depends w'.pts o.c b; rw [e3]; exact r1
    · show swing w'.pts b o.dr = 0; rw [e3]; exact r3
    · show swing w'.pts b o.dl = 0; rw [e3]; exact r2

/-! ### Adding a control point -/

/-- C113: `add_one()` gives the control points that it gives for plain points, so it keeps the outline of a closed curve. -/
theorem C113_addOne (ops : List Op) {k : ℕ} {c : Curve} {vs : List (CP ℝ)} (hc : (run .empty ops).curves[k]? = some c) (hn : c.cps.Nodup)
    (hv : readCurve (run .empty ops) k = .ok vs) (hne : vs ≠ []) :
    ∃ new, X7.addOne vs = .ok new ∧ (step (run .empty ops) (.addOne k)).2 = none ∧
      readCurve (step (run .empty ops) (.addOne k)).1 k = .ok new ∧
      (c.closed = true → 2 ≤ vs.length →
        outline (step (run .empty ops) (.addOne k)).1 k = outline (run .empty ops) k ∧ new.length = vs.length + 1) := by
  have K := ok_run ops
  generalize run .empty ops = w at *
  have hk : k < w.curves.length := (List.getElem?_eq_some_iff.1 hc).1
  have hv' : readCps w c.cps = .ok vs := by simpa only [readCurve, hc] using hv
  obtain ⟨left, right, p, q, o1, o2, m, base, M, e0, A, e1, e2, e3, hr⟩ := addOne_value K hc hn hv' hne
  have hcv : (addOne w k).1.curves[k]? = some { c with cps := c.cps.insertIdx right w.cps.length } := by
    rw [A.curves]; exact List.getElem?_set_self hk
  have r1 : readCurve (addOne w k).1 k = .ok (base.insertIdx right M) := by
    simp only [readCurve, hcv]; exact readCps_insertIdx e2 e3 right
  refine ⟨_, e1, e0, r1, fun hcl h2 => ?_⟩
  obtain ⟨f1, f2⟩ := CH.outline_addOne h2 e1
  refine ⟨?_, f2⟩
  show outline (addOne w k).1 k = _
  simp only [outline, r1, hcv, hv, hc, hcl, f1]

/-- C113: `add_one()` on a curve without control points raises and changes nothing. -/
theorem C113_addOne_empty (ops : List Op) {k : ℕ} {c : Curve} (hc : (run .empty ops).curves[k]? = some c) (he : c.cps = []) :
    step (run .empty ops) (.addOne k) = (run .empty ops, some .index) := by
  simp only [step, addOne, hc, he, readCs, iterRotate2, List.rotate_nil, List.zip_nil_left, List.map_nil, lastMax]

/-- C113: what `add_one()` does to the links. The new control point is plain, so no older point moves it. Its two neighbours get a copy
of their centre, so a plain point which is the centre of one of them loses its hold on that control point. All others keep their
objects. -/
theorem C113_addOne_links (ops : List Op) {k : ℕ} {c : Curve} {vs : List (CP ℝ)} (hc : (run .empty ops).curves[k]? = some c)
    (hn : c.cps.Nodup) (hv : readCurve (run .empty ops) k = .ok vs) (h2 : 2 ≤ vs.length) :
    ∃ left right p q o1 o2 o1' o2', right = (left + 1) % c.cps.length ∧ c.cps[left]? = some p ∧ c.cps[right]? = some q ∧
      (step (run .empty ops) (.addOne k)).1.curves[k]? = some { c with cps := c.cps.insertIdx right (run .empty ops).cps.length } ∧
      (∀ b < (run .empty ops).pts.length, Stays (step (run .empty ops) (.addOne k)).1 b (run .empty ops).cps.length) ∧
      (run .empty ops).cps[p]? = some o1 ∧ (step (run .empty ops) (.addOne k)).1.cps[p]? = some o1' ∧
      (run .empty ops).cps[q]? = some o2 ∧ (step (run .empty ops) (.addOne k)).1.cps[q]? = some o2' ∧
      (∀ b < (run .empty ops).pts.length,
        (Depends (step (run .empty ops) (.addOne k)).1.pts o1'.c b ↔ Depends (run .empty ops).pts o1.c b ∧ b ≠ o1.c) ∧
        (Depends (step (run .empty ops) (.addOne k)).1.pts o2'.c b ↔ Depends (run .empty ops).pts o2.c b ∧ b ≠ o2.c)) ∧
      ∀ r < (run .empty ops).cps.length, r ≠ p → r ≠ q →
        (step (run .empty ops) (.addOne k)).1.cps[r]? = (run .empty ops).cps[r]? := by
  have K := ok_run ops
  generalize run .empty ops = w at *
  have hk : k < w.curves.length := (List.getElem?_eq_some_iff.1 hc).1
  have hv' : readCps w c.cps = .ok vs := by simpa only [readCurve, hc] using hv
  obtain ⟨left, right, p, q, o1, o2, m, base, M, e0, A, e1, e2, e3, hr⟩ := addOne_value K hc hn hv' (by rintro rfl; simp at h2)
  obtain ⟨hl, -⟩ := readCps_get hv'
  have hpq : p ≠ q := by
    rintro rfl
    have h1 := A.lt
    have hll := (List.getElem?_eq_some_iff.1 h1).1
    have := (List.getElem?_inj hll hn).1 (h1.trans A.rt.symm)
    have hx := A.next
    by_cases hz : left + 1 < c.cps.length
    · rw [Nat.mod_eq_of_lt hz] at hx; omega
    · have : left + 1 = c.cps.length := by omega
      rw [this, Nat.mod_self] at hx; omega
  obtain ⟨g1, l, r, g2, o1', o2', hs, P, C1, hp', C2, hq', ⟨x, hx⟩, z, hz⟩ := A.made
  obtain ⟨y, hy⟩ := P.pre
  refine ⟨left, right, p, q, o1, o2, o1', o2', A.next, A.lt, A.rt, ?_, ?_, A.fst, hp' hpq, A.snd, hq', ?_, ?_⟩
  · show (addOne w k).1.curves[k]? = _
    rw [A.curves]; exact List.getElem?_set_self hk
  · intro b hb
    exact A.mid.2.stays A.mid.1 hb
  · intro b hb
    have l1 := lt_of_isBasePoint (K.ref A.fst).1
    have l2 := lt_of_isBasePoint (K.ref A.snd).1
    refine ⟨?_, ?_⟩
    · show Depends (addOne w k).1.pts o1'.c b ↔ _
      rw [C1.dep b (by rw [hy]; simp; omega), P.lft.1, hy, depends_append K.wf l1]
    · show Depends (addOne w k).1.pts o2'.c b ↔ _
      rw [C2.dep b (by rw [hx, hy]; simp; omega), P.rgt.1, hx, hy, List.append_assoc, depends_append K.wf l2]
  · intro r hr h1 h2
    exact A.ext.cps r hr (by rintro (h | h); exacts [h1 h, h2 h])

/-- C113: hence `add_one()` tears a curve that hangs on a point. All its centres are relative to `b` and its handles plain vectors, so
moving `b` moved it as a whole; after `add_one()` the same move leaves the new control point behind. -/
theorem C113_addOne_torn (ops : List Op) {k : ℕ} {c : Curve} {vs : List (CP ℝ)} (hc : (run .empty ops).curves[k]? = some c)
    (hn : c.cps.Nodup) (hv : readCurve (run .empty ops) k = .ok vs) (h2 : 2 ≤ vs.length) {b : ℕ} {x y : ℝ} {n}
    (hb : (run .empty ops).pts[b]? = some (.point x y n))
    (hr : ∀ p ∈ c.cps, ∃ o, (run .empty ops).cps[p]? = some o ∧ Depends (run .empty ops).pts o.c b ∧ b ≠ o.c ∧
      (∃ x y, (run .empty ops).pts[o.dl]? = some (.vec x y)) ∧ ∃ x y, (run .empty ops).pts[o.dr]? = some (.vec x y)) (dx dy : ℝ) :
    readCurve (step (run .empty ops) (moveBy b x y dx dy)).1 k = .ok (vs.map (shift dx dy)) ∧
    ∃ new right M, readCurve (step (run .empty ops) (.addOne k)).1 k = .ok new ∧ X7.addOne vs = .ok new ∧ new[right]? = some M ∧
      readCurve (step (step (run .empty ops) (.addOne k)).1 (moveBy b x y dx dy)).1 k = .ok ((new.map (shift dx dy)).set right M) := by
  refine ⟨(C113_rigid ops dx dy hb hv ?_).1, ?_⟩
  · rintro p ⟨c', hc', hp⟩
    rw [hc] at hc'
    cases hc'
    obtain ⟨o, ho, h1, -, h3, h4⟩ := hr p hp
    exact ⟨o, ho, h1, swing_plain h3, swing_plain h4⟩
  have K := ok_run ops
  generalize run .empty ops = w at *
  have hk : k < w.curves.length := (List.getElem?_eq_some_iff.1 hc).1
  have hv' : readCps w c.cps = .ok vs := by simpa only [readCurve, hc] using hv
  obtain ⟨left, right, p, q, o1, o2, m, base, M, e0, A, e1, e2, e3, hrl⟩ := addOne_value K hc hn hv' (by rintro rfl; simp at h2)
  have hcv : (addOne w k).1.curves[k]? = some { c with cps := c.cps.insertIdx right w.cps.length } := by
    rw [A.curves]; exact List.getElem?_set_self hk
  have r1 : readCurve (addOne w k).1 k = .ok (base.insertIdx right M) := by
    simp only [readCurve, hcv]; exact readCps_insertIdx e2 e3 right
  obtain ⟨hbl, hbg⟩ := readCps_get e2
  have hbs : b < w.pts.length := (List.getElem?_eq_some_iff.1 hb).1
  obtain ⟨ap, hap⟩ := A.ext.pts
  have hb1 : (addOne w k).1.pts[b]? = some (.point x y n) := by
    rw [hap, List.getElem?_append_left hbs]; exact hb
  obtain ⟨g1, l, r, g2, o1', o2', hs, P, C1, hp', C2, hq', ⟨xx, hx⟩, z, hz⟩ := A.made
  obtain ⟨yy, hy⟩ := P.pre
  have vecs : ∀ {i : ℕ} {a : List (PObj ℝ)}, (∃ x y, w.pts[i]? = some (.vec x y)) → ∃ x y, (w.pts ++ a)[i]? = some (.vec x y) := by
    rintro i a ⟨x, y, e⟩
    exact ⟨x, y, by rw [List.getElem?_append_left (List.getElem?_eq_some_iff.1 e).1]; exact e⟩
  have old : ∀ a ∈ c.cps, Rides (addOne w k).1 b a := by
    intro a ha
    obtain ⟨o, ho, d1, d2, d3, d4⟩ := hr a ha
    have lo := lt_of_isBasePoint (K.ref ho).1
    by_cases haq : a = q
    · subst haq
      rw [A.snd] at ho
      cases ho
      obtain ⟨-, -, -, x3, y3, v3⟩ := P.rgt
      obtain ⟨x4, y4, v4⟩ := vecs (a := yy ++ xx) d4
      refine ⟨o2', hq', (C2.dep b (by rw [hx, hy]; simp; omega)).2 ⟨?_, ?_⟩, swing_plain ⟨x3, y3, C2.dl x3 y3 ?_⟩,
        swing_plain ⟨x4, y4, C2.dr x4 y4 ?_⟩⟩
      · rw [P.rgt.1, hx, hy, List.append_assoc, depends_append K.wf lo]; exact d1
      · rw [P.rgt.1]; exact d2
      · rw [hx, List.getElem?_append_left (List.getElem?_eq_some_iff.1 v3).1]; exact v3
      · rw [P.rgt.2.1, hx, hy, List.append_assoc]; exact v4
    · by_cases happ : a = p
      · subst happ
        rw [A.fst] at ho
        cases ho
        obtain ⟨-, -, -, x3, y3, v3⟩ := P.lft
        obtain ⟨x4, y4, v4⟩ := vecs (a := yy) d3
        refine ⟨o1', hp' haq, (C1.dep b (by rw [hy]; simp; omega)).2 ⟨?_, ?_⟩, swing_plain ⟨x4, y4, C1.dl x4 y4 ?_⟩,
          swing_plain ⟨x3, y3, C1.dr x3 y3 v3⟩⟩
        · rw [P.lft.1, hy, depends_append K.wf lo]; exact d1
        · rw [P.lft.1]; exact d2
        · rw [P.lft.2.1, hy]; exact v4
      · refine ⟨o, ?_, ?_, swing_plain ?_, swing_plain ?_⟩
        · rw [A.ext.cps a (K.curve k c hc a ha) (by rintro (h | h); exacts [happ h, haq h])]; exact ho
        · rw [hap, depends_append K.wf lo]; exact d1
        · rw [hap]; exact vecs d3
        · rw [hap]; exact vecs d4
  have mid : readCp (step (addOne w k).1 (moveBy b x y dx dy)).1 w.cps.length = .ok M :=
    stays_read A.ok hb1 dx dy e3 (A.mid.2.stays A.mid.1 hbs)
  have hbase : readCps (step (addOne w k).1 (moveBy b x y dx dy)).1 c.cps = .ok (base.map (shift dx dy)) := by
    refine readCps_of (by simp [hbl]) fun t a ha => ?_
    obtain ⟨v, f1, f2⟩ := hbg t a ha
    exact ⟨shift dx dy v, by simp [f1], rides_read A.ok hb1 dx dy f2 (old a (List.mem_of_getElem? ha))⟩
  refine ⟨base.insertIdx right M, right, M, r1, e1, by rw [List.getElem?_insertIdx_self, if_pos (by omega)], ?_⟩
  have hcv' : (step (addOne w k).1 (moveBy b x y dx dy)).1.curves[k]? = some { c with cps := c.cps.insertIdx right w.cps.length } := hcv
  show readCurve (step (addOne w k).1 (moveBy b x y dx dy)).1 k = _
  simp only [readCurve, hcv']
  rw [readCps_insertIdx hbase mid right]
  congr 1
  apply List.ext_getElem?
  intro t
  simp only [List.getElem?_set, List.getElem?_map, List.getElem?_insertIdx, List.length_map, List.length_insertIdx]
  rcases lt_trichotomy t right with h | h | h
  · simp [h, h.ne']
  · subst h; simp [show t ≤ base.length by omega]
  · simp [h.not_gt, h.ne', h.ne]

/-- C113: and `add_one()` orphans the points of a curve made of plain points and vectors: afterwards no older object, in particular
neither of the two points which the caller put there, moves the new control point or its neighbours. -/
theorem C113_addOne_orphans (ops : List Op) {k : ℕ} {c : Curve} {vs : List (CP ℝ)} (hc : (run .empty ops).curves[k]? = some c)
    (hn : c.cps.Nodup) (hv : readCurve (run .empty ops) k = .ok vs) (h2 : 2 ≤ vs.length)
    (hr : ∀ p ∈ c.cps, ∃ o, (run .empty ops).cps[p]? = some o ∧ (∃ x y n, (run .empty ops).pts[o.c]? = some (.point x y n)) ∧
      (∃ x y, (run .empty ops).pts[o.dl]? = some (.vec x y)) ∧ ∃ x y, (run .empty ops).pts[o.dr]? = some (.vec x y)) :
    ∃ left right p q, right = (left + 1) % c.cps.length ∧ c.cps[left]? = some p ∧ c.cps[right]? = some q ∧ p ≠ q ∧
      (step (run .empty ops) (.addOne k)).1.curves[k]? = some { c with cps := c.cps.insertIdx right (run .empty ops).cps.length } ∧
      ∀ b < (run .empty ops).pts.length, Stays (step (run .empty ops) (.addOne k)).1 b p ∧
        Stays (step (run .empty ops) (.addOne k)).1 b q ∧ Stays (step (run .empty ops) (.addOne k)).1 b (run .empty ops).cps.length := by
  have K := ok_run ops
  generalize run .empty ops = w at *
  have hk : k < w.curves.length := (List.getElem?_eq_some_iff.1 hc).1
  have hv' : readCps w c.cps = .ok vs := by simpa only [readCurve, hc] using hv
  obtain ⟨left, right, p, q, o1, o2, m, base, M, e0, A, e1, e2, e3, hrl⟩ := addOne_value K hc hn hv' (by rintro rfl; simp at h2)
  obtain ⟨hl, -⟩ := readCps_get hv'
  have hpq : p ≠ q := by
    rintro rfl
    have h1 := A.lt
    have hll := (List.getElem?_eq_some_iff.1 h1).1
    have := (List.getElem?_inj hll hn).1 (h1.trans A.rt.symm)
    have hx := A.next
    by_cases hz : left + 1 < c.cps.length
    · rw [Nat.mod_eq_of_lt hz] at hx; omega
    · have : left + 1 = c.cps.length := by omega
      rw [this, Nat.mod_self] at hx; omega
  obtain ⟨g1, l, r, g2, o1', o2', hs, P, C1, hp', C2, hq', ⟨xx, hx⟩, z, hz⟩ := A.made
  obtain ⟨yy, hy⟩ := P.pre
  have get : ∀ {i : ℕ} {a : PObj ℝ} {t : List (PObj ℝ)}, w.pts[i]? = some a → (w.pts ++ t)[i]? = some a := fun {i a t} e => by
    rw [List.getElem?_append_left (List.getElem?_eq_some_iff.1 e).1]; exact e
  refine ⟨left, right, p, q, A.next, A.lt, A.rt, hpq, ?_, fun b hb => ⟨?_, ?_, A.mid.2.stays A.mid.1 hb⟩⟩
  · show (addOne w k).1.curves[k]? = _
    rw [A.curves]; exact List.getElem?_set_self hk
  · obtain ⟨o, ho, ⟨x, y, n, f1⟩, ⟨x', y', f2⟩, -⟩ := hr p (List.mem_of_getElem? A.lt)
    rw [A.fst] at ho
    cases ho
    obtain ⟨-, -, -, x3, y3, v3⟩ := P.lft
    refine ⟨o1', hp' hpq, fun hd => ?_, swing_plain ⟨x', y', C1.dl x' y' ?_⟩, swing_plain ⟨x3, y3, C1.dr x3 y3 v3⟩⟩
    · obtain ⟨a, a'⟩ := (C1.dep b (by rw [hy]; simp; omega)).1 hd
      exact a' (depends_plain ⟨x, y, n, by rw [P.lft.1, hy]; exact get f1⟩ a)
    · rw [P.lft.2.1, hy]; exact get f2
  · obtain ⟨o, ho, ⟨x, y, n, f1⟩, -, ⟨x', y', f2⟩⟩ := hr q (List.mem_of_getElem? A.rt)
    rw [A.snd] at ho
    cases ho
    obtain ⟨-, -, -, x3, y3, v3⟩ := P.rgt
    refine ⟨o2', hq', fun hd => ?_, swing_plain ⟨x3, y3, C2.dl x3 y3 ?_⟩, swing_plain ⟨x', y', C2.dr x' y' ?_⟩⟩
    · obtain ⟨a, a'⟩ := (C2.dep b (by rw [hx, hy]; simp; omega)).1 hd
      exact a' (depends_plain ⟨x, y, n, by rw [P.rgt.1, hx, hy, List.append_assoc]; exact get f1⟩ a)
    · rw [hx, List.getElem?_append_left (List.getElem?_eq_some_iff.1 v3).1]; exact v3
    · rw [P.rgt.2.1, hx, hy, List.append_assoc]; exact get f2

/-! ### Concrete programs -/

/-- A closed curve of two control points which both hang on one plain point. -/
def demo : List Op :=
  [.pts (.mkPoint 0 0 none), .pts (.mkRel 0 0 0 none), .pts (.mkRel 4 0 0 none), .pts (.mkVec 0 0),
   .mkCp 1 3 3 "smooth", .mkCp 2 3 3 "smooth", .mkCurve true [0, 1]]

theorem demo_run : run .empty demo = ⟨[.point 0 0 none, .rel 0 0 0 none, .rel 4 0 0 none, .vec 0 0],
    [⟨1, 3, 3, "smooth"⟩, ⟨2, 3, 3, "smooth"⟩], [⟨true, [0, 1]⟩]⟩ := by
  simp [run, demo, step, PH.step, World.empty, isBasePoint, isVec]

abbrev demoVals : List (CP ℝ) := [⟨⟨0, 0⟩, ⟨0, 0⟩, ⟨0, 0⟩, "smooth"⟩, ⟨⟨4, 0⟩, ⟨0, 0⟩, ⟨0, 0⟩, "smooth"⟩]

theorem demo_read : readCurve (run .empty demo) 0 = .ok demoVals := by
  rw [demo_run]
  simp [readCurve, readCps, readCp, readObj, readVec, xy]

theorem demo_hangs : ∀ p ∈ [0, 1], ∃ o, (run .empty demo).cps[p]? = some o ∧ Depends (run .empty demo).pts o.c 0 ∧ 0 ≠ o.c ∧
      (∃ x y, (run .empty demo).pts[o.dl]? = some (.vec x y)) ∧ ∃ x y, (run .empty demo).pts[o.dr]? = some (.vec x y) := by
  rw [demo_run]
  intro p hp
  have hb : Depends ([.point 0 0 none, .rel 0 0 0 none, .rel 4 0 0 none, .vec 0 0] : Heap ℝ) 0 0 := .point (x := 0) (y := 0) (n := none) rfl
  rcases (by simpa using hp : p = 0 ∨ p = 1) with rfl | rfl
  · exact ⟨_, rfl, .rel (dx := 0) (dy := 0) (n := none) rfl hb, by decide, ⟨0, 0, rfl⟩, 0, 0, rfl⟩
  · exact ⟨_, rfl, .rel (dx := 4) (dy := 0) (n := none) rfl hb, by decide, ⟨0, 0, rfl⟩, 0, 0, rfl⟩

/-- The hypotheses of `C113_rigid` are met. -/
example : outline (step (run .empty demo) (moveBy 0 0 0 0 10)).1 0 = (outline (run .empty demo) 0).map (shiftPt 0 10 '' ·) :=
  (C113_rigid demo (b := 0) (x := 0) (y := 0) (n := none) 0 10 (by rw [demo_run]; rfl) demo_read (by
    rintro p ⟨c, hc, hp⟩
    rw [demo_run] at hc
    obtain ⟨o, ho, h1, -, h3, h4⟩ := demo_hangs p (by cases hc; exact hp)
    exact ⟨o, ho, h1, swing_plain h3, swing_plain h4⟩)).2

/-- The hypotheses of `C113_snapshot` are met: the base is moved after the copy was made, and the copy keeps still. -/
example : readCurve (run (step (run .empty demo) (.copy 0)).1 [moveBy 0 0 0 0 10]) 1 = .ok demoVals := by
  have hlen : (run .empty demo).curves.length = 1 := by rw [demo_run]; rfl
  rw [← hlen]
  refine C113_snapshot demo [moveBy 0 0 0 0 10] 0 demo_read ⟨fun p _ h => h, trivial⟩ ?_
  intro op hop j hj _ hs
  simp only [List.mem_singleton] at hop
  subst hop
  have : 0 = j := by simpa [Sets, Mutates] using hs
  have hpl : (run .empty demo).pts.length = 4 := by rw [demo_run]; rfl
  omega

/-- C113: so undo does not put everything back: the control points are the same, but a later move of the base no longer moves the
curve. -/
theorem C113_undo_counterexample : ∃ ops k vs b, ∃ x y : ℝ,
    readCurve (run .empty ops) k = .ok vs ∧
    readCurve (run .empty (ops ++ [.copy k, .restore k (run .empty ops).curves.length])) k = .ok vs ∧
    readCurve (run .empty (ops ++ [moveBy b x y 0 10])) k = .ok (vs.map (shift 0 10)) ∧
    readCurve (run .empty (ops ++ [.copy k, .restore k (run .empty ops).curves.length, moveBy b x y 0 10])) k = .ok vs ∧
    vs.map (shift 0 10) ≠ vs := by
  have hlen : (run .empty demo).curves.length = 1 := by rw [demo_run]; rfl
  have hcur : (run .empty demo).curves[0]? = some ⟨true, [0, 1]⟩ := by rw [demo_run]; rfl
  have hb : (run .empty demo).pts[0]? = some (.point 0 0 none) := by rw [demo_run]; rfl
  have hcl : (run .empty demo).cps.length = 2 := by rw [demo_run]; rfl
  have K := ok_run demo
  obtain ⟨c', hc', e'⟩ := step_curve K (.copy 0) hcur (by intro p _ h; exact h)
  obtain ⟨l, hl⟩ := ((step_all K (.copy 0)).2.1 (by simp)).pts
  obtain ⟨h1, h2, h3⟩ := C113_undo demo [] 0 demo_read trivial (by simp) (c := c') hc' (by rw [e']; rfl) (by rw [e']; decide) (by
    intro p hp
    rw [e'] at hp
    rw [hcl]
    rcases (by simpa using hp : p = 0 ∨ p = 1) with rfl | rfl <;> omega)
  refine ⟨demo, 0, demoVals, 0, 0, 0, demo_read, ?_, ?_, ?_, ?_⟩
  · rw [run_append]; exact h2
  · rw [run_append]
    exact (C113_addOne_torn demo hcur (by decide) demo_read (by simp) hb (by exact demo_hangs) 0 10).1
  · rw [run_append]
    refine h3 0 0 0 none ?_ 0 10
    show (step (run .empty demo) (.copy 0)).1.pts[0]? = _
    rw [hl, List.getElem?_append_left (by rw [demo_run]; simp)]; exact hb
  · simp [shift]

/-- C113: a closed curve hangs on a point as a whole. Before `add_one()`, moving the point by `(0, 10)` moves the outline by
`(0, 10)`; `add_one()` keeps the outline; afterwards moving the point by `(0, 10)` does not move the outline by `(0, 10)`. -/
theorem C113_addOne_torn_counterexample : ∃ ops k b, ∃ x y : ℝ,
    outline (run .empty (ops ++ [moveBy b x y 0 10])) k = (outline (run .empty ops) k).map (shiftPt 0 10 '' ·) ∧
    outline (run .empty (ops ++ [.addOne k])) k = outline (run .empty ops) k ∧
    outline (run .empty (ops ++ [.addOne k, moveBy b x y 0 10])) k ≠ (outline (run .empty (ops ++ [.addOne k])) k).map (shiftPt 0 10 '' ·) := by
  have hcur : (run .empty demo).curves[0]? = some ⟨true, [0, 1]⟩ := by rw [demo_run]; rfl
  have hb : (run .empty demo).pts[0]? = some (.point 0 0 none) := by rw [demo_run]; rfl
  obtain ⟨r0, new, right, M, r1, r2, r3, r4⟩ := C113_addOne_torn demo hcur (by decide) demo_read (by simp) hb (by exact demo_hangs) 0 10
  obtain ⟨new', r2', -, -, hout⟩ := C113_addOne demo hcur (by decide) demo_read (by simp)
  refine ⟨demo, 0, 0, 0, 0, ?_, ?_, ?_⟩
  · rw [run_append]
    exact (C113_rigid demo (b := 0) (x := 0) (y := 0) (n := none) 0 10 hb demo_read (by
      rintro p ⟨c, hc, hp⟩
      rw [hcur] at hc
      obtain ⟨o, ho, h1, -, h3, h4⟩ := demo_hangs p (by cases hc; exact hp)
      exact ⟨o, ho, h1, swing_plain h3, swing_plain h4⟩)).2
  · rw [run_append]; exact (hout rfl (by simp)).1
  · rw [run_append, run_append]
    show outline (step (step (run .empty demo) (.addOne 0)).1 (moveBy 0 0 0 0 10)).1 0 ≠ (outline (step (run .empty demo) (.addOne 0)).1 0).map _
    rw [(hout rfl (by simp)).1]
    obtain ⟨left, right', p, q, -, -, -, -, -, -, -, hcv, -⟩ := C113_addOne_links demo hcur (by decide) demo_read (by simp)
    obtain ⟨W, hW⟩ : ∃ W, W = (step (step (run .empty demo) (.addOne 0)).1 (moveBy 0 0 0 0 10)).1 := ⟨_, rfl⟩
    have hcv' : W.curves[0]? = some ⟨true, [0, 1].insertIdx right' (run .empty demo).cps.length⟩ := by rw [hW]; exact hcv
    rw [← hW] at r4 ⊢
    simp only [outline, hcv', r4, hcur, demo_read, Option.map_some]
    intro h
    have h := Option.some.inj h
    have hM0 : M.c.y = 0 := by
      rw [C36_two_points, Except.ok.injEq] at r2
      subst r2
      have := List.mem_of_getElem? r3
      simp only [List.mem_cons, List.not_mem_nil, or_false] at this
      rcases this with rfl | rfl | rfl <;>
        simp [bezSplit, lerp, Pt.addVector, Pt.sub, Vec.mul, CP.l, CP.r]
    have hin : M.c ∈ Morph.trace (segs true ((new.map (shift 0 10)).set right M)) := by
      have hrl : right < ((new.map (shift 0 10)).set right M).length := by
        have := (List.getElem?_eq_some_iff.1 r3).1; simpa using this
      obtain ⟨L, hL⟩ : ∃ L, L = (new.map (shift 0 10)).set right M := ⟨_, rfl⟩
      have hg : L[right]? = some M := by rw [hL]; exact List.getElem?_set_self (by simpa using hrl)
      rw [← hL] at hrl ⊢
      have hrot : (L.rotate 1)[right]? = some ((L.rotate 1)[right]'(by simpa using hrl)) := List.getElem?_eq_getElem _
      refine ⟨seg M ((L.rotate 1)[right]'(by simpa using hrl)), ?_, 0, le_refl _, zero_le_one, ?_⟩
      · simp only [segs, closedSegs, if_true]
        refine List.mem_of_getElem? (i := right) ?_
        simp only [List.getElem?_zipWith, hg, hrot]
      · simp [seg, Poly4.at', bern]
    rw [h] at hin
    obtain ⟨z, ⟨S, hS, u, -, -, hz⟩, e⟩ := hin
    have hy : z.y = 0 := by
      simp only [segs, closedSegs, if_true] at hS
      simp at hS
      rcases hS with rfl | rfl <;> rw [← hz] <;> simp [seg, Poly4.at', bern]
    have := congrArg Pt.y e
    simp [shiftPt, hy, hM0] at this

/-- C113: the curve which the caller made from two plain points is not moved by either of them after `add_one()`. -/
theorem C113_addOne_orphans_counterexample : ∃ ops k b vs vs' new, ∃ x y : ℝ,
    readCurve (run .empty ops) k = .ok vs ∧ readCurve (run .empty (ops ++ [moveBy b x y 0 10])) k = .ok vs' ∧ vs' ≠ vs ∧
    readCurve (run .empty (ops ++ [.addOne k])) k = .ok new ∧
    readCurve (run .empty (ops ++ [.addOne k, moveBy b x y 0 10])) k = .ok new := by
  obtain ⟨ops, hops⟩ : ∃ ops : List Op, ops = [.pts (.mkPoint 0 0 none), .pts (.mkPoint 4 0 none), .pts (.mkVec 0 0),
    .mkCp 0 2 2 "smooth", .mkCp 1 2 2 "smooth", .mkCurve true [0, 1]] := ⟨_, rfl⟩
  have hrun : run .empty ops = ⟨[.point 0 0 none, .point 4 0 none, .vec 0 0],
      [⟨0, 2, 2, "smooth"⟩, ⟨1, 2, 2, "smooth"⟩], [⟨true, [0, 1]⟩]⟩ := by
    simp [hops, run, step, PH.step, World.empty, isBasePoint, isVec]
  have hread : readCurve (run .empty ops) 0 = .ok demoVals := by
    rw [hrun]; simp [readCurve, readCps, readCp, readObj, readVec, xy]
  have hcur : (run .empty ops).curves[0]? = some ⟨true, [0, 1]⟩ := by rw [hrun]; rfl
  obtain ⟨left, right, p, q, hnx, hl, hr, hpq, hcv, hst⟩ := C113_addOne_orphans ops hcur (by decide) hread (by simp) (by
    rw [hrun]
    intro p hp
    rcases (by simpa using hp : p = 0 ∨ p = 1) with rfl | rfl
    · exact ⟨_, rfl, ⟨0, 0, none, rfl⟩, ⟨0, 0, rfl⟩, 0, 0, rfl⟩
    · exact ⟨_, rfl, ⟨4, 0, none, rfl⟩, ⟨0, 0, rfl⟩, 0, 0, rfl⟩)
  obtain ⟨new, -, -, hnew, -⟩ := C113_addOne ops hcur (by decide) hread (by simp)
  obtain ⟨hs1, hs2, hs3⟩ := hst 0 (by rw [hrun]; simp)
  have hb : (run .empty (ops ++ [.addOne 0])).pts[0]? = some (.point 0 0 none) := by
    obtain ⟨l, e⟩ := ((step_all (ok_run ops) (.addOne 0)).2.1 (by simp)).pts
    rw [run_append]
    show (step (run .empty ops) (.addOne 0)).1.pts[0]? = _
    rw [e, hrun]; rfl
  have hpm : p = 0 ∨ p = 1 := by simpa using List.mem_of_getElem? hl
  have hqm : q = 0 ∨ q = 1 := by simpa using List.mem_of_getElem? hr
  have h1 : readCurve (run .empty (ops ++ [.addOne 0])) 0 = .ok new := by rw [run_append]; exact hnew
  refine ⟨ops, 0, 0, demoVals, [⟨⟨0, 10⟩, ⟨0, 0⟩, ⟨0, 0⟩, "smooth"⟩, ⟨⟨4, 0⟩, ⟨0, 0⟩, ⟨0, 0⟩, "smooth"⟩], new, 0, 0, hread, ?_, ?_, h1, ?_⟩
  · have e : run .empty (ops ++ [moveBy 0 0 0 0 10]) = ⟨[.point 0 10 none, .point 4 0 none, .vec 0 0],
        [⟨0, 2, 2, "smooth"⟩, ⟨1, 2, 2, "smooth"⟩], [⟨true, [0, 1]⟩]⟩ := by
      rw [run_append, hrun]; simp [run, step, PH.step]
    rw [e]
    simp [readCurve, readCps, readCp, readObj, readVec, xy]
  · simp
  · have := C113_still (ops ++ [.addOne 0]) 0 10 hb h1 (by
      rintro r ⟨c, hc, hrc⟩
      rw [run_append] at hc ⊢
      change (step (run .empty ops) (.addOne 0)).1.curves[0]? = _ at hc
      rw [hcv] at hc
      cases hc
      change Stays (step (run .empty ops) (.addOne 0)).1 0 r
      rcases List.eq_or_mem_of_mem_insertIdx hrc with rfl | hm
      · exact hs3
      · rcases (by simpa using hm : r = 0 ∨ r = 1) with rfl | rfl <;> rcases hpm with rfl | rfl <;> rcases hqm with rfl | rfl <;>
          first | exact hs1 | exact hs2 | exact absurd rfl hpq)
    rw [run_append] at this ⊢
    exact this

/-- C113: `cp.restore(cp.copy())` keeps what a control point reads but not how its handles follow. The handle here is the difference of
two points which move together, so it keeps still; the copy of the one is relative to the base as before, the copy of the other is a
new plain point, so the restored handle changes when the base is moved. -/
theorem C113_handle_copy_counterexample : ∃ ops p b v v', ∃ x y : ℝ,
    readCp (run .empty ops) p = .ok v ∧ readCp (run .empty (ops ++ [.copyCp p, .restoreCp p (p + 1)])) p = .ok v ∧
    readCp (run .empty (ops ++ [moveBy b x y 0 10])) p = .ok (shift 0 10 v) ∧
    readCp (run .empty (ops ++ [.copyCp p, .restoreCp p (p + 1), moveBy b x y 0 10])) p = .ok v' ∧
    v.dl = ⟨1, 1⟩ ∧ v'.dl ≠ v.dl := by
  obtain ⟨ops, hops⟩ : ∃ ops : List Op, ops = [.pts (.mkPoint 0 0 none), .pts (.mkRel 1 1 0 none), .pts (.mkVecRel 1 0),
    .pts (.mkRel 0 0 0 none), .mkCp 3 2 2 "smooth"] := ⟨_, rfl⟩
  have hrun : run .empty ops = ⟨[.point 0 0 none, .rel 1 1 0 none, .vecRel 1 0, .rel 0 0 0 none], [⟨3, 2, 2, "smooth"⟩], []⟩ := by
    simp [hops, run, step, PH.step, World.empty, isBasePoint, isVec]
  have hcopy : run .empty (ops ++ [.copyCp 0, .restoreCp 0 1]) = ⟨[.point 0 0 none, .rel 1 1 0 none, .vecRel 1 0, .rel 0 0 0 none,
      .rel 0 0 0 none, .rel 1 1 0 none, .point 0 0 none, .vecRel 5 6, .rel 1 1 0 none, .point 0 0 none, .vecRel 8 9,
      .rel 0 0 0 none, .rel 1 1 0 none, .point 0 0 none, .vecRel 12 13, .rel 1 1 0 none, .point 0 0 none, .vecRel 15 16],
      [⟨11, 14, 17, "smooth"⟩, ⟨4, 7, 10, "smooth"⟩], []⟩ := by
    rw [run_append, hrun]
    rfl
  have hmove : run .empty (ops ++ [moveBy 0 0 0 0 10]) =
      ⟨[.point 0 10 none, .rel 1 1 0 none, .vecRel 1 0, .rel 0 0 0 none], [⟨3, 2, 2, "smooth"⟩], []⟩ := by
    rw [run_append, hrun]; simp [run, step, PH.step]
  have hboth : run .empty (ops ++ [.copyCp 0, .restoreCp 0 1, moveBy 0 0 0 0 10]) = ⟨[.point 0 10 none, .rel 1 1 0 none, .vecRel 1 0,
      .rel 0 0 0 none, .rel 0 0 0 none, .rel 1 1 0 none, .point 0 0 none, .vecRel 5 6, .rel 1 1 0 none, .point 0 0 none, .vecRel 8 9,
      .rel 0 0 0 none, .rel 1 1 0 none, .point 0 0 none, .vecRel 12 13, .rel 1 1 0 none, .point 0 0 none, .vecRel 15 16],
      [⟨11, 14, 17, "smooth"⟩, ⟨4, 7, 10, "smooth"⟩], []⟩ := by
    rw [show ops ++ [.copyCp 0, .restoreCp 0 1, moveBy 0 0 0 0 10] = (ops ++ [.copyCp 0, .restoreCp 0 1]) ++ [moveBy 0 0 0 0 10] by simp,
      run_append, hcopy]
    simp [run, step, PH.step]
  refine ⟨ops, 0, 0, ⟨⟨0, 0⟩, ⟨1, 1⟩, ⟨1, 1⟩, "smooth"⟩, ⟨⟨0, 10⟩, ⟨1, 11⟩, ⟨1, 11⟩, "smooth"⟩, 0, 0, ?_, ?_, ?_, ?_, rfl, ?_⟩
  · rw [hrun]; simp [readCp, readObj, readVec, xy]
  · rw [hcopy]; simp [readCp, readObj, readVec, xy]
  · rw [hmove]; simp [shift, readCp, readObj, readVec, xy]
  · rw [hboth]; simp [readCp, readObj, readVec, xy]
    norm_num
  · simp

end X7.LK
