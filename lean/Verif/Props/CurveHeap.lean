import Verif.Lemmas.CurveHeapStep

/-!
C106: curves as objects through every history of calls.
-/

noncomputable section

namespace X7.CH

/-- C106: as long as no control point object is held twice, every history of calls does to the curves what it would do to
independent values, raises the same exceptions, and no control point object is held twice afterwards. -/
theorem C106_history {h : Heap} {s : State} (hv : vals h = some s) (ha : Apart h) (ops : List Op) :
    vals (run h ops).1 = some (s.run ops).1 ∧ (run h ops).2 = (s.run ops).2 ∧ Apart (run h ops).1 := by
  obtain ⟨e, I⟩ := run_inv (inv_iff.2 ⟨hv, ha⟩) ops
  exact ⟨(inv_iff.1 I).1, e, (inv_iff.1 I).2⟩

/-- C106: in particular for every program that starts with nothing. -/
theorem C106_program (ops : List Op) :
    vals (run Heap.empty ops).1 = some (State.run ⟨[], []⟩ ops).1 ∧ (run Heap.empty ops).2 = (State.run ⟨[], []⟩ ops).2 ∧
      Apart (run Heap.empty ops).1 :=
  C106_history rfl ⟨by simp [Heap.empty], by simp [Heap.empty]⟩ ops

/-! ### Points and vectors never move -/

theorem newCps_grow (h : Heap) (vs : List (CP ℝ)) : Grow h (newCps h vs).1 := (newCps_made h vs).grow

theorem newCurve_grow (h : Heap) (c : CurveObj) : Grow h (newCurve h c).1 := by
  unfold newCurve; split <;> exact ⟨List.prefix_rfl, List.prefix_rfl⟩

theorem newCurveXf_grow (h : Heap) (n : Str) (pb : PenBrush) (c : Bool) (m : Mat3 ℝ) (is : List ℕ) :
    Grow h (newCurveXf h n pb c m is).1 := by
  unfold newCurveXf; split <;> exact ⟨List.prefix_rfl, List.prefix_rfl⟩

theorem restoreCp_grow {h h' : Heap} {i j : ℕ} (e : restoreCp h i j = some h') : Grow h h' := by
  unfold restoreCp at e
  split at e
  · cases e; exact ⟨List.prefix_append _ _, List.prefix_append _ _⟩
  · cases e

theorem restoreCps_grow {h h' : Heap} {is js : List ℕ} (e : restoreCps h is js = some h') : Grow h h' := by
  induction is generalizing h js with
  | nil => simp [restoreCps] at e; subst e; exact .refl _
  | cons i is ih =>
    cases js with
    | nil => simp [restoreCps] at e; subst e; exact .refl _
    | cons j js =>
      unfold restoreCps at e
      split at e
      · rename_i h1 e1
        exact (restoreCp_grow e1).trans (ih e)
      · cases e

theorem splitCp_grow {h h' : Heap} {i j : ℕ} {k : ℕ × ℕ × ℕ} (e : splitCp h i j = some (h', k)) : Grow h h' := by
  unfold splitCp at e
  split at e
  · simp only [Option.some.injEq, Prod.mk.injEq] at e
    rw [← e.1]
    exact ⟨List.prefix_append _ _, List.prefix_append _ _⟩
  · cases e

theorem reverseCps_grow {h h' : Heap} {is js : List ℕ} (e : reverseCps h is = some (h', js)) : Grow h h' := by
  induction is generalizing h js with
  | nil => simp [reverseCps] at e; rw [← e.1]; exact .refl _
  | cons i is ih =>
    unfold reverseCps at e
    split at e
    · rename_i h1 j e1
      split at e
      · rename_i h2 js' e2
        simp only [Option.some.injEq, Prod.mk.injEq] at e
        rw [e.1] at e2
        refine Grow.trans ?_ (ih e2)
        unfold reverseCp at e1
        split at e1
        · simp only [Option.some.injEq, Prod.mk.injEq] at e1
          rw [← e1.1]
          exact ⟨List.prefix_rfl, List.prefix_rfl⟩
        · cases e1
      · cases e
    · cases e

theorem step_grow (h : Heap) (op : Op) : Grow h (step h op).1 := by
  cases op with
  | make n pb c m vs => exact (newCps_grow h vs).trans (newCurveXf_grow _ _ _ _ _ _)
  | copy i =>
    simp only [step, copy]
    split
    · split
      · exact (newCps_grow h _).trans (newCurve_grow _ _)
      · exact .refl h
    · exact .refl h
  | addOne i =>
    simp only [step, addOne]
    split
    · split
      · split
        · exact .refl h
        · split
          · split
            · rename_i e1
              split
              · rename_i e2
                split
                · rename_i e3
                  exact ⟨((splitCp_grow e1).trans ((restoreCp_grow e2).trans (restoreCp_grow e3))).pts,
                    ((splitCp_grow e1).trans ((restoreCp_grow e2).trans (restoreCp_grow e3))).vecs⟩
                · exact (splitCp_grow e1).trans (restoreCp_grow e2)
              · exact splitCp_grow e1
            · exact .refl h
          · exact .refl h
      · exact .refl h
    · exact .refl h
  | restore i j =>
    simp only [step, restore, newXf]
    split
    · split
      · split
        · split
          · rename_i e
            exact ⟨(restoreCps_grow e).pts, (restoreCps_grow e).vecs⟩
          · exact ⟨List.prefix_rfl, List.prefix_rfl⟩
        · exact ⟨List.prefix_rfl, List.prefix_rfl⟩
      · exact .refl h
    · exact .refl h
  | transform i m =>
    simp only [step, transform]
    split
    · split
      · exact (newCps_grow h _).trans (newCurveXf_grow _ _ _ _ _ _)
      · exact .refl h
    · exact .refl h
  | reversed i =>
    simp only [step, reversed]
    split
    · split
      · rename_i e
        exact (reverseCps_grow e).trans (newCurve_grow _ _)
      · exact .refl h
    · exact .refl h
  | offset i off =>
    simp only [step, offset]
    split
    · split
      · split
        · exact .refl h
        · split
          · exact .refl h
          · exact (newCps_grow h _).trans (newCurveXf_grow _ _ _ _ _ _)
      · exact .refl h
    · exact .refl h
  | turn i k =>
    simp only [step, turn]
    split
    · exact ⟨List.prefix_rfl, List.prefix_rfl⟩
    · exact .refl h
  | setXf i m =>
    simp only [step, setXf]
    split
    · exact ⟨List.prefix_rfl, List.prefix_rfl⟩
    · exact .refl h

/-- C106: no call on curves ever moves an existing point or changes an existing vector, even if control points are shared. -/
theorem C106_points_stay (h : Heap) (ops : List Op) :
    (∀ (i : ℕ) (p : Pt ℝ), h.pts[i]? = some p → (run h ops).1.pts[i]? = some p) ∧
    (∀ (i : ℕ) (v : Vec ℝ), h.vecs[i]? = some v → (run h ops).1.vecs[i]? = some v) := by
  have g : Grow h (run h ops).1 := by
    induction ops generalizing h with
    | nil => exact .refl h
    | cons op ops ih => exact (step_grow h op).trans (ih _)
  exact ⟨fun i p hp => pre_get g.pts hp, fun i v hv => pre_get g.vecs hv⟩

/-! ### Outlines -/

theorem outline_turn (cps : List (CP ℝ)) (k : ℕ) :
    Morph.trace (segs true (cps.drop k ++ cps.take k)) = Morph.trace (segs true cps) := by
  simp only [segs, if_true]
  by_cases hk : k ≤ cps.length
  · rw [← List.rotate_eq_drop_append_take hk, closedSegs_rotate, Morph.trace_rotate]
  · rw [List.drop_eq_nil_of_le (by omega), List.take_of_length_le (by omega), List.nil_append]

theorem outline_addOne {cps new : List (CP ℝ)} (h2 : 2 ≤ cps.length) (e : X7.addOne cps = .ok new) :
    Morph.trace (segs true new) = Morph.trace (segs true cps) ∧ new.length = cps.length + 1 := by
  obtain ⟨new', S, L, R, rest, i, j, e1, e2, e3, e4, e5, -⟩ := C36_add_one_closed cps h2
  rw [e] at e1
  cases e1
  exact ⟨(Morph.sameLoop_trace (.step i j e3 e4 e5)).symm, e2⟩

theorem trace_rev (a : List (Poly4 ℝ)) : Morph.trace (a.map Poly4.rev).reverse = Morph.trace a := by
  ext p
  simp only [Morph.trace, List.mem_reverse, List.mem_map, Set.mem_ofPred_eq]
  constructor
  · rintro ⟨S, ⟨T, hT, rfl⟩, u, h0, h1, rfl⟩
    exact ⟨T, hT, 1 - u, by linarith, by linarith, (C33_trace T u).symm⟩
  · rintro ⟨T, hT, u, h0, h1, rfl⟩
    refine ⟨T.rev, ⟨T, hT, rfl⟩, 1 - u, by linarith, by linarith, ?_⟩
    rw [C33_trace]; congr 1; ring

theorem outline_reversed (cps : List (CP ℝ)) :
    Morph.trace (segs true (CP.reverseList cps)) = Morph.trace (segs true cps) := by
  rw [C33_closed, Morph.trace_rotate, trace_rev]

theorem outline_transform (cps : List (CP ℝ)) (m : Mat3 ℝ) :
    Morph.trace (segs true (cps.map fun v => v.transformLin m.apply)) = m.apply '' Morph.trace (segs true cps) := by
  have e0 : ∀ p q : CP ℝ, seg (p.transformLin m.apply) (q.transformLin m.apply) = (seg p q).map m.apply := by
    intro p q
    simp [seg, Poly4.map, CP.transformLin, CP.l, CP.r, Pt.addVector, Pt.sub]
  have e1 : ∀ (S : Poly4 ℝ) (u : ℝ), (S.map m.apply).at' u = m.apply (S.at' u) := by
    intro S u
    ext <;> simp only [Poly4.map, Poly4.at', bern, Mat3.apply] <;> ring
  have e : segs true (cps.map fun v => v.transformLin m.apply) = (segs true cps).map (Poly4.map m.apply) := by
    simp only [segs, if_true, closedSegs]
    rw [← List.map_rotate, List.zipWith_map, List.map_zipWith]
    simp only [e0]
  rw [e]
  ext p
  simp only [Morph.trace, Set.mem_ofPred_eq, Set.mem_image, List.mem_map]
  constructor
  · rintro ⟨_, ⟨S, hS, rfl⟩, u, h0, h1, rfl⟩
    exact ⟨S.at' u, ⟨S, hS, u, h0, h1, rfl⟩, (e1 S u).symm⟩
  · rintro ⟨_, ⟨S, hS, u, h0, h1, rfl⟩, rfl⟩
    exact ⟨_, ⟨S, hS, rfl⟩, u, h0, h1, e1 S u⟩

/-! ### One curve through a history -/

theorem State.add_get (s : State) (c : Curve) {k : ℕ} (hk : k < s.curves.length) : (s.add c).1.curves[k]? = s.curves[k]? := by
  unfold State.add
  split
  · rfl
  · exact List.getElem?_append_left hk

theorem State.addXf_get (s : State) (n : Str) (pb : PenBrush) (cl : Bool) (m : Mat3 ℝ) (cps : List (CP ℝ)) {k : ℕ}
    (hk : k < s.curves.length) : (s.addXf n pb cl m cps).1.curves[k]? = s.curves[k]? := by
  unfold State.addXf
  split
  · rfl
  · exact List.getElem?_append_left hk

/-- A call that does not write to curve `k` leaves it. -/
theorem State.step_other (s : State) (op : Op) {k : ℕ} (hk : k < s.curves.length) (hw : op.writes ≠ some k) :
    (s.step op).1.curves[k]? = s.curves[k]? := by
  cases op with
  | make n pb c m vs => exact s.addXf_get _ _ _ _ _ hk
  | copy i =>
    simp only [State.step]
    split
    · exact s.add_get _ hk
    · rfl
  | addOne i =>
    simp only [State.step]
    split
    · split
      · exact List.getElem?_set_ne (fun e => hw (by simp [Op.writes, e]))
      · rfl
    · rfl
  | restore i j =>
    simp only [State.step]
    split
    · split
      · split <;> exact List.getElem?_set_ne (fun e => hw (by simp [Op.writes, e]))
      · rfl
    · rfl
  | transform i m =>
    simp only [State.step]
    split
    · split
      · exact s.addXf_get _ _ _ _ _ hk
      · rfl
    · rfl
  | reversed i =>
    simp only [State.step]
    split
    · exact s.add_get _ hk
    · rfl
  | offset i off =>
    simp only [State.step]
    split
    · split
      · split
        · rfl
        · split
          · rfl
          · exact s.addXf_get _ _ _ _ _ hk
      · rfl
    · rfl
  | turn i k' =>
    simp only [State.step]
    split
    · exact List.getElem?_set_ne (fun e => hw (by simp [Op.writes, e]))
    · rfl
  | setXf i m =>
    simp only [State.step]
    split <;> rfl

theorem State.run_other (s : State) (ops : List Op) {k : ℕ} (hk : k < s.curves.length) (hw : ∀ op ∈ ops, op.writes ≠ some k) :
    (s.run ops).1.curves[k]? = s.curves[k]? := by
  induction ops generalizing s with
  | nil => rfl
  | cons op ops ih =>
    have h1 := s.step_other op hk (hw op (by simp))
    have hk' : k < (s.step op).1.curves.length := by
      rw [List.getElem?_eq_getElem hk] at h1
      exact (List.getElem?_eq_some_iff.1 h1).1
    exact (ih _ hk' (fun o ho => hw o (by simp [ho]))).trans h1

/-- C106: a curve has the same values after any history of calls on other curves. -/
theorem C106_others {h : Heap} {s : State} (hv : vals h = some s) (ha : Apart h) {k : ℕ} {c : Curve} (hc : s.curves[k]? = some c)
    (ops : List Op) (hw : ∀ op ∈ ops, op.writes ≠ some k) :
    ∃ s', vals (run h ops).1 = some s' ∧ s'.curves[k]? = some c :=
  ⟨_, (C106_history hv ha ops).1, (s.run_other ops (List.getElem?_eq_some_iff.1 hc).1 hw).trans hc⟩

theorem State.step_kept (s : State) (op : Op) {k : ℕ} {c : Curve} (hc : s.curves[k]? = some c) (h2 : 2 ≤ c.cps.length)
    (hr : op.restores ≠ some k) :
    ∃ c', (s.step op).1.curves[k]? = some c' ∧ c'.outline = c.outline ∧
      c'.cps.length = c.cps.length + (if op.adds = some k then 1 else 0) ∧
      c'.name = c.name ∧ c'.pb = c.pb ∧ c'.closed = c.closed ∧ c'.xf = c.xf := by
  have hk : k < s.curves.length := (List.getElem?_eq_some_iff.1 hc).1
  by_cases hw : op.writes = some k
  · cases op with
    | addOne i =>
      have hi : i = k := by simpa [Op.writes] using hw
      subst hi
      obtain ⟨new, hnew⟩ : ∃ new, X7.addOne c.cps = .ok new := by
        obtain ⟨new, _, _, _, _, _, _, e1, -⟩ := C36_add_one_closed c.cps h2
        exact ⟨new, e1⟩
      obtain ⟨o1, o2⟩ := outline_addOne h2 hnew
      refine ⟨{ c with cps := new }, ?_, o1, by simp [Op.adds, o2], rfl, rfl, rfl, rfl⟩
      simp only [State.step, hc, hnew]
      rw [List.getElem?_set_self hk]
    | restore i j => exact absurd hw hr
    | turn i r =>
      have hi : i = k := by simpa [Op.writes] using hw
      subst hi
      refine ⟨{ c with cps := c.cps.drop r ++ c.cps.take r }, ?_, outline_turn c.cps r, ?_, rfl, rfl, rfl, rfl⟩
      · simp only [State.step, hc]
        rw [List.getElem?_set_self hk]
      · simp [Op.adds]; omega
    | _ => simp [Op.writes] at hw
  · refine ⟨c, (s.step_other op hk hw).trans hc, rfl, ?_, rfl, rfl, rfl, rfl⟩
    rw [if_neg]
    · rfl
    · intro e
      cases op <;> simp [Op.adds] at e
      subst e
      exact hw rfl

/-- C106: through every history of calls on curves, a closed curve of at least two control points keeps its outline, its name,
pen and transform, as long as it is not restored; it has one control point more for each `add_one`. -/
theorem C106_outline {h : Heap} {s : State} (hv : vals h = some s) (ha : Apart h) {k : ℕ} {c : Curve} (hc : s.curves[k]? = some c)
    (h2 : 2 ≤ c.cps.length) (ops : List Op) (hr : ∀ op ∈ ops, op.restores ≠ some k) :
    ∃ s' c', vals (run h ops).1 = some s' ∧ s'.curves[k]? = some c' ∧ c'.outline = c.outline ∧
      c'.cps.length = c.cps.length + ops.countP (fun op => op.adds = some k) ∧
      c'.name = c.name ∧ c'.pb = c.pb ∧ c'.closed = c.closed ∧ c'.xf = c.xf := by
  refine ⟨(s.run ops).1, ?_⟩
  rw [(C106_history hv ha ops).1]
  suffices ∃ c', (s.run ops).1.curves[k]? = some c' ∧ c'.outline = c.outline ∧
      c'.cps.length = c.cps.length + ops.countP (fun op => op.adds = some k) ∧
      c'.name = c.name ∧ c'.pb = c.pb ∧ c'.closed = c.closed ∧ c'.xf = c.xf by
    obtain ⟨c', hc'⟩ := this
    exact ⟨c', rfl, hc'⟩
  clear hv ha
  induction ops generalizing s c with
  | nil => exact ⟨c, hc, rfl, rfl, rfl, rfl, rfl, rfl⟩
  | cons op ops ih =>
    obtain ⟨d, d1, d2, d3, d4, d5, d6, d7⟩ := s.step_kept op hc h2 (hr op (by simp))
    obtain ⟨c', e1, e2, e3, e4, e5, e6, e7⟩ := ih d1 (by omega) (fun o ho => hr o (by simp [ho]))
    refine ⟨c', e1, e2.trans d2, ?_, e4.trans d4, e5.trans d5, e6.trans d6, e7.trans d7⟩
    rw [e3, d3, List.countP_cons]
    simp only [decide_eq_true_eq]
    omega

/-- C106: the outlines of the curves that are made from curves. A copy and a reversed curve have the outline of the original and
share its transform. A transformed curve has the image of the outline under the transform of the curve and then the given one,
and the identity as its own transform. -/
theorem C106_made {h : Heap} {s : State} (hv : vals h = some s) (ha : Apart h) {i : ℕ} {c : Curve} {x : Mat3 ℝ}
    (hc : s.curves[i]? = some c) (hx : s.xfs[c.xf]? = some x) (hf : c.pb.filled = true → c.closed = true) (m : Mat3 ℝ) :
    (∃ h', step h (.copy i) = (h', none) ∧ vals h' = some ⟨s.xfs, s.curves ++ [c]⟩) ∧
    (∃ h' c', step h (.reversed i) = (h', none) ∧ vals h' = some ⟨s.xfs, s.curves ++ [c']⟩ ∧
      c'.outline = c.outline ∧ c'.name = c.name ∧ c'.pb = c.pb ∧ c'.closed = c.closed ∧ c'.xf = c.xf) ∧
    (∃ h' c', step h (.transform i m) = (h', none) ∧ vals h' = some ⟨s.xfs ++ [Mat3.one], s.curves ++ [c']⟩ ∧
      c'.outline = (m.mul x).apply '' c.outline ∧ c'.name = c.name ∧ c'.pb = c.pb ∧ c'.closed = c.closed ∧
      c'.xf = s.xfs.length) := by
  have hb : ¬ ((c.pb.filled && !c.closed) = true) := by
    intro hb
    simp only [Bool.and_eq_true, Bool.not_eq_true'] at hb
    rw [hf hb.1] at hb
    exact absurd hb.2 (by simp)
  have I := inv_iff.2 ⟨hv, ha⟩
  have key : ∀ (op : Op) (t : State), s.step op = (t, none) → ∃ h', step h op = (h', none) ∧ vals h' = some t := by
    intro op t e
    obtain ⟨e1, I1⟩ := step_inv I op
    rw [e] at e1 I1
    exact ⟨(step h op).1, Prod.ext rfl e1, (inv_iff.1 I1).1⟩
  refine ⟨key _ _ ?_, ?_, ?_⟩
  · simp only [State.step, hc, State.add, if_neg hb]
  · obtain ⟨h', g1, g2⟩ := key (.reversed i) ⟨s.xfs, s.curves ++ [{ c with cps := CP.reverseList c.cps }]⟩ (by
      simp only [State.step, hc, State.add, if_neg hb])
    exact ⟨h', _, g1, g2, outline_reversed c.cps, rfl, rfl, rfl, rfl⟩
  · obtain ⟨h', g1, g2⟩ := key (.transform i m) ⟨s.xfs ++ [Mat3.one], s.curves ++ [⟨c.name, c.pb, c.closed, s.xfs.length,
      c.cps.map fun v => v.transformLin (m.mul x).apply⟩]⟩ (by
      simp only [State.step, hc, hx, State.addXf, if_neg hb])
    exact ⟨h', _, g1, g2, outline_transform c.cps (m.mul x), rfl, rfl, rfl, rfl⟩

/-- C106: restoring from a copy after any history which does not write to the copy. If the curve has as many control points as
then, it gets all its values back and a transform of its own; else `GeomInternalError` is raised, the curve keeps its control
points, but name, pen, closed and transform are those of the copy. -/
theorem C106_undo {h : Heap} {s s2 : State} (hv : vals h = some s) (ha : Apart h) {i : ℕ} {c d : Curve}
    (hc : s.curves[i]? = some c) (hf : c.pb.filled = true → c.closed = true) (mid : List Op)
    (hw : ∀ op ∈ mid, op.writes ≠ some s.curves.length)
    (h2 : vals (run h (.copy i :: mid)).1 = some s2) (hd : s2.curves[i]? = some d) :
    (d.cps.length = c.cps.length →
      ∃ h3 s3, step (run h (.copy i :: mid)).1 (.restore i s.curves.length) = (h3, none) ∧ vals h3 = some s3 ∧
        s3.curves[i]? = some { c with xf := s2.xfs.length } ∧ s3.xfs[s2.xfs.length]? = s2.xfs[c.xf]?) ∧
    (d.cps.length ≠ c.cps.length →
      ∃ h3 s3, step (run h (.copy i :: mid)).1 (.restore i s.curves.length) = (h3, some .geomInternal) ∧ vals h3 = some s3 ∧
        s3.curves[i]? = some { c with xf := s2.xfs.length, cps := d.cps } ∧ s3.xfs[s2.xfs.length]? = s2.xfs[c.xf]?) := by
  have hb : ¬ ((c.pb.filled && !c.closed) = true) := by
    intro hb
    simp only [Bool.and_eq_true, Bool.not_eq_true'] at hb
    rw [hf hb.1] at hb
    exact absurd hb.2 (by simp)
  obtain ⟨-, I2⟩ := run_inv (inv_iff.2 ⟨hv, ha⟩) (.copy i :: mid)
  have e2 : s2 = (s.run (.copy i :: mid)).1 := by
    rw [(inv_iff.1 I2).1] at h2
    exact (Option.some.inj h2).symm
  have e1 : s.step (.copy i) = (⟨s.xfs, s.curves ++ [c]⟩, none) := by
    simp only [State.step, hc, State.add, if_neg hb]
  have e3 : s2 = ((⟨s.xfs, s.curves ++ [c]⟩ : State).run mid).1 := by
    rw [e2]; simp only [State.run, e1]
  have hn : s2.curves[s.curves.length]? = some c := by
    rw [e3, State.run_other _ mid (by simp) hw]
    simp
  rw [← e2] at I2
  obtain ⟨f1, I3⟩ := step_inv I2 (.restore i s.curves.length)
  obtain ⟨x, hx⟩ : ∃ x, s2.xfs[c.xf]? = some x := by
    rcases I2.get s.curves.length with ⟨-, g⟩ | ⟨c0, vs, m, g1, g2, g3, g4, g5⟩
    · rw [hn] at g; cases g
    · rw [hn] at g3
      have : c = ⟨c0.name, c0.pb, c0.closed, c0.xf, vs⟩ := Option.some.inj g3
      exact ⟨m, by rw [this]; exact g5⟩
  have hil : i < s2.curves.length := (List.getElem?_eq_some_iff.1 hd).1
  constructor
  · intro hl
    have e : s2.step (.restore i s.curves.length) = (⟨s2.xfs ++ [x], s2.curves.set i { c with xf := s2.xfs.length }⟩, none) := by
      simp only [State.step, hd, hn, hx]
      rw [if_pos hl]
    rw [e] at f1 I3
    refine ⟨_, _, Prod.ext rfl f1, (inv_iff.1 I3).1, ?_, ?_⟩
    · exact List.getElem?_set_self hil
    · rw [hx]; simp
  · intro hl
    have e : s2.step (.restore i s.curves.length) =
        (⟨s2.xfs ++ [x], s2.curves.set i { c with xf := s2.xfs.length, cps := d.cps }⟩, some .geomInternal) := by
      simp only [State.step, hd, hn, hx]
      rw [if_neg hl]
    rw [e] at f1 I3
    refine ⟨_, _, Prod.ext rfl f1, (inv_iff.1 I3).1, ?_, ?_⟩
    · exact List.getElem?_set_self hil
    · rw [hx]; simp

/-- C106: hence `add_one` cannot be undone by restoring a copy: for every curve of at least two control points the restore raises,
and the curve has one control point more than the copy. -/
theorem C106_undo_counterexample {h : Heap} {s : State} (hv : vals h = some s) (ha : Apart h) {i : ℕ} {c : Curve}
    (hc : s.curves[i]? = some c) (hf : c.pb.filled = true → c.closed = true) (h2 : 2 ≤ c.cps.length) :
    (run h [.copy i, .addOne i, .restore i s.curves.length]).2 = [none, none, some .geomInternal] ∧
    ∃ s' c', vals (run h [.copy i, .addOne i, .restore i s.curves.length]).1 = some s' ∧ s'.curves[i]? = some c' ∧
      c'.cps.length = c.cps.length + 1 ∧ c'.outline = c.outline := by
  have hik : i < s.curves.length := (List.getElem?_eq_some_iff.1 hc).1
  obtain ⟨s2, d, g1, g2, g3, g4, -⟩ := C106_outline hv ha hc h2 [.copy i, .addOne i] (by
    intro op ho
    simp only [List.mem_cons, List.not_mem_nil, or_false] at ho
    rcases ho with rfl | rfl <;> simp [Op.restores])
  have g4' : d.cps.length = c.cps.length + 1 := by rw [g4]; simp [Op.adds]
  obtain ⟨h3, s3, k1, k2, k3, -⟩ := (C106_undo hv ha hc hf [.addOne i] (by
    intro op ho
    simp only [List.mem_cons, List.not_mem_nil, or_false] at ho
    subst ho
    simp [Op.writes]; omega) g1 g2).2 (by omega)
  have e1 : (run h [.copy i, .addOne i]).2 = [none, none] := by
    have hb : ¬ ((c.pb.filled && !c.closed) = true) := by
      intro hb
      simp only [Bool.and_eq_true, Bool.not_eq_true'] at hb
      rw [hf hb.1] at hb
      exact absurd hb.2 (by simp)
    obtain ⟨new, _, _, _, _, _, _, a1, -⟩ := C36_add_one_closed c.cps h2
    rw [(C106_history hv ha _).2.1]
    have b1 : s.step (.copy i) = (⟨s.xfs, s.curves ++ [c]⟩, none) := by
      simp only [State.step, hc, State.add, if_neg hb]
    have b2 : (s.curves ++ [c])[i]? = some c := (List.getElem?_append_left hik).trans hc
    simp only [State.run, b1]
    simp only [State.step, b2, a1]
  simp only [run] at k1 e1 ⊢
  rw [k1]
  simp only [List.cons.injEq, and_true] at e1 ⊢
  refine ⟨⟨e1.1, e1.2⟩, s3, _, k2, k3, g4', g3⟩

/-! ### Shared control points -/

/-- A closed curve of two control points that bulges upwards on the way back. -/
def bulge : List (CP ℝ) := [⟨⟨0, 0⟩, ⟨0, 8⟩, ⟨0, 0⟩, "smooth"⟩, ⟨⟨4, 0⟩, ⟨0, 0⟩, ⟨0, 8⟩, "smooth"⟩]

/-- A program that copies, cuts, turns, reverses, transforms and restores; and objects that meet the hypotheses. -/
example (pb : PenBrush) : ∃ (ops : List Op) (s : State) (c : Curve), vals (run Heap.empty ops).1 = some s ∧
    Apart (run Heap.empty ops).1 ∧ s.curves[0]? = some c ∧ 2 ≤ c.cps.length ∧ (c.pb.filled = true → c.closed = true) ∧
    s.xfs[c.xf]? = some Mat3.one ∧ 1 < s.curves.length := by
  refine ⟨[.make [] pb true Mat3.one bulge, .copy 0, .turn 1 1], _, ⟨[], pb, true, 0, bulge⟩, (C106_program _).1,
    (C106_program _).2.2, ?_⟩
  simp [State.run, State.step, State.addXf, State.add, bulge]

example : ∃ ops : List Op, (∀ op ∈ ops, op.restores ≠ some 0) ∧ (∀ op ∈ ops, op.writes ≠ some 2) ∧
    ops.countP (fun op => op.adds = some 0) = 2 :=
  ⟨[.addOne 0, .turn 0 1, .copy 0, .restore 1 2, .addOne 0, .transform 0 Mat3.one], by simp [Op.restores], by simp [Op.writes],
    by simp [Op.adds]⟩

/-- The two control points after `add_one`. -/
def flat : List (CP ℝ) := [⟨⟨0, 0⟩, ⟨0, 4⟩, ⟨0, 0⟩, "smooth"⟩, ⟨⟨4, 0⟩, ⟨0, 0⟩, ⟨0, 4⟩, "smooth"⟩]

theorem bulge_split : bezSplit (K := ℝ) ⟨⟨4, 0⟩, ⟨0, 0⟩, ⟨0, 8⟩, "smooth"⟩ ⟨⟨0, 0⟩, ⟨0, 8⟩, ⟨0, 0⟩, "smooth"⟩ (1 / 2) =
    (⟨⟨4, 0⟩, ⟨0, 0⟩, ⟨0, 4⟩, "smooth"⟩, ⟨⟨2, 6⟩, ⟨1, 0⟩, ⟨-1, 0⟩, "smooth"⟩, ⟨⟨0, 0⟩, ⟨0, 4⟩, ⟨0, 0⟩, "smooth"⟩) := by
  norm_num [bezSplit, lerp, CP.l, CP.r, Pt.addVector, Pt.sub, Vec.mul]

theorem bulge_top : (⟨2, 6⟩ : Pt ℝ) ∈ Morph.trace (segs true bulge) := by
  refine ⟨seg ⟨⟨4, 0⟩, ⟨0, 0⟩, ⟨0, 8⟩, "smooth"⟩ ⟨⟨0, 0⟩, ⟨0, 8⟩, ⟨0, 0⟩, "smooth"⟩, ?_, 1 / 2, by norm_num, by norm_num, ?_⟩
  · simp [segs, closedSegs, bulge]
  · simp only [seg, Poly4.at', bern]; norm_num

theorem flat_low : (⟨2, 6⟩ : Pt ℝ) ∉ Morph.trace (segs true flat) := by
  rintro ⟨S, hS, u, h0, h1, e⟩
  simp [segs, closedSegs, flat] at hS
  rcases hS with rfl | rfl <;> simp [seg, Poly4.at', bern] at e
  nlinarith [sq_nonneg (u - 1 / 2), mul_nonneg h0 (sub_nonneg.2 h1)]

/-- C106: two curves with the same control point objects, as made by `ElemCurve(.., curve.control_points, ..)`: `add_one` on one
of them changes the outline of the other. -/
theorem C106_shared_counterexample (pb : PenBrush) :
    ∃ h1 h2 h3 s2 s3 c c', make Heap.empty [] pb true Mat3.one bulge = (h1, none) ∧ share h1 0 = (h2, none) ∧
      addOne h2 1 = (h3, none) ∧ vals h2 = some s2 ∧ vals h3 = some s3 ∧
      s2.curves[0]? = some c ∧ s3.curves[0]? = some c' ∧ c.cps = bulge ∧ c'.outline ≠ c.outline := by
  have hb : (pb.filled && !true) = false := by simp
  have hm : lastMax ((iterRotate2 bulge).map fun ab => (ab.1.c.sub ab.2.c).length) = some 1 := by
    have : hypot (-4 : ℝ) 0 = hypot 4 0 := by
      apply hypot_unique (hypot_nonneg _ _)
      rw [hypot_sq]; norm_num
    simp [bulge, iterRotate2, lastMax, lastMaxFrom, Vec.length, Pt.sub, this]
  have hr : ∀ cs, readCps ⟨[Mat3.one], [⟨0, 0⟩, ⟨4, 0⟩], [⟨0, 8⟩, ⟨0, 0⟩, ⟨0, 0⟩, ⟨0, 8⟩],
      [⟨0, 0, 1, "smooth"⟩, ⟨1, 2, 3, "smooth"⟩], cs⟩ [0, 1] = some bulge := by
    intro cs
    simp [readCps, readCp, bulge]
  refine ⟨⟨[Mat3.one], [⟨0, 0⟩, ⟨4, 0⟩], [⟨0, 8⟩, ⟨0, 0⟩, ⟨0, 0⟩, ⟨0, 8⟩], [⟨0, 0, 1, "smooth"⟩, ⟨1, 2, 3, "smooth"⟩],
      [⟨[], pb, true, 0, [0, 1]⟩]⟩,
    ⟨[Mat3.one], [⟨0, 0⟩, ⟨4, 0⟩], [⟨0, 8⟩, ⟨0, 0⟩, ⟨0, 0⟩, ⟨0, 8⟩], [⟨0, 0, 1, "smooth"⟩, ⟨1, 2, 3, "smooth"⟩],
      [⟨[], pb, true, 0, [0, 1]⟩, ⟨[], pb, true, 0, [0, 1]⟩]⟩,
    ⟨[Mat3.one], [⟨0, 0⟩, ⟨4, 0⟩, ⟨2, 6⟩, ⟨4, 0⟩, ⟨0, 0⟩],
      [⟨0, 8⟩, ⟨0, 0⟩, ⟨0, 0⟩, ⟨0, 8⟩, ⟨0, 4⟩, ⟨1, 0⟩, ⟨-1, 0⟩, ⟨0, 4⟩, ⟨0, 0⟩, ⟨0, 4⟩, ⟨0, 4⟩, ⟨0, 0⟩],
      [⟨4, 10, 11, "smooth"⟩, ⟨3, 8, 9, "smooth"⟩, ⟨1, 2, 4, "smooth"⟩, ⟨2, 5, 6, "smooth"⟩, ⟨0, 7, 1, "smooth"⟩],
      [⟨[], pb, true, 0, [0, 1]⟩, ⟨[], pb, true, 0, [3, 0, 1]⟩]⟩,
    ⟨[Mat3.one], [⟨[], pb, true, 0, bulge⟩, ⟨[], pb, true, 0, bulge⟩]⟩,
    ⟨[Mat3.one], [⟨[], pb, true, 0, flat⟩, ⟨[], pb, true, 0, ⟨⟨2, 6⟩, ⟨1, 0⟩, ⟨-1, 0⟩, "smooth"⟩ :: flat⟩]⟩, _, _,
    ?_, ?_, ?_, ?_, ?_, rfl, rfl, rfl, ?_⟩
  · simp [make, newCps, newCp, newCurveXf, newXf, Heap.empty, bulge]
  · simp [share, newCurve]
  · have hc0 : readCp ⟨[Mat3.one], [⟨0, 0⟩, ⟨4, 0⟩], [⟨0, 8⟩, ⟨0, 0⟩, ⟨0, 0⟩, ⟨0, 8⟩], [⟨0, 0, 1, "smooth"⟩, ⟨1, 2, 3, "smooth"⟩],
        [⟨[], pb, true, 0, [0, 1]⟩, ⟨[], pb, true, 0, [0, 1]⟩]⟩ 0 = some ⟨⟨0, 0⟩, ⟨0, 8⟩, ⟨0, 0⟩, "smooth"⟩ := rfl
    have hc1 : readCp ⟨[Mat3.one], [⟨0, 0⟩, ⟨4, 0⟩], [⟨0, 8⟩, ⟨0, 0⟩, ⟨0, 0⟩, ⟨0, 8⟩], [⟨0, 0, 1, "smooth"⟩, ⟨1, 2, 3, "smooth"⟩],
        [⟨[], pb, true, 0, [0, 1]⟩, ⟨[], pb, true, 0, [0, 1]⟩]⟩ 1 = some ⟨⟨4, 0⟩, ⟨0, 0⟩, ⟨0, 8⟩, "smooth"⟩ := rfl
    simp only [addOne, List.getElem?_cons_succ, List.getElem?_cons_zero, hr, hm, List.length_cons, List.length_nil]
    norm_num only
    simp only [List.getElem?_cons_succ, List.getElem?_cons_zero, splitCp, hc0, hc1, bulge_split]
    simp [restoreCp, readCp]
  · simp only [vals, curveVals, hr]
  · simp [vals, curveVals, readCps, readCp, flat]
  · intro e
    have h1 : (⟨2, 6⟩ : Pt ℝ) ∈ Morph.trace (segs true bulge) := bulge_top
    exact flat_low (show (⟨2, 6⟩ : Pt ℝ) ∈ Morph.trace (segs true flat) from (Set.ext_iff.1 e _).2 h1)

end X7.CH
