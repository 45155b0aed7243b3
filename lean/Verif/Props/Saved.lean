import Verif.Lemmas.Saved

/-!
C107: what a program makes with `GroupBuilder`, written with `dump` and read back.
-/

noncomputable section

namespace X7.Build

open Dump GroupNames

theorem objTree_no_points {s : BState × List GB} (h : WF s) (hp : ∀ g < s.1.next, (s.1.obj g).points = []) :
    ∀ n g, g < s.1.next → objTree s.1 n g = obj (tree s.1 n g) := by
  intro n
  induction n with
  | zero => intro g hg; simp only [objTree, tree, obj, objAll, hp g hg, List.map_nil]
  | succ n ih =>
    intro g hg
    simp only [objTree, tree, obj, hp g hg, List.map_nil, objAll_eq, List.map_map]
    congr 1
    refine List.map_congr_left fun x hx => ?_
    obtain ⟨k, i⟩ := x
    cases i with
    | leaf e => rfl
    | grp g' => simp [ih g' (h.grp g hg k g' hx).2.1]

variable (n0 : Str) (pens : ByShape PenBrush) (kind0 : String) (ops : List BOp)

/-- What is read back, in full. -/
theorem saved_sort (ho : ∀ op ∈ ops, op.Writable) (i : ℕ) (b : GB) (hb : (run n0 pens kind0 ops).2[i]? = some b) (useVars : Bool)
    (n : ℕ) :
    let S := run n0 pens kind0 ops
    (obj (theGroup S.1 b)).Ok ∧ ∃ vars lines, (outputs n (dump (DC.new useVars) (theObj S.1 b))).output.2 = .ok (vars, lines) ∧
      readElem vars lines = some (sortDicts (obj (theGroup S.1 b))) := by
  intro S
  have h : WF S := run_wf n0 pens kind0 ops
  have hg : b.group < S.1.next := h.own i b hb ▸ h.lt hb
  have hk : (obj (theGroup S.1 b)).Ok := tree_ok h (run_leaves n0 pens kind0 ops ho) _ _ hg
  refine ⟨hk, ?_⟩
  rw [← dump_bare, show bare (theObj S.1 b) = obj (theGroup S.1 b) from bare_objTree _ _ _]
  exact wrote_output (wrote_elem (sortDicts _) (DC.new useVars) (DC.Ok.new useVars) (sort_elem _ hk).1) n

/-- **C107.** After any program the group of every builder can be written, with or without variables, and read back. What is read back
can be written again (so it has no points and nothing in it is hidden). It is equal to the group without its points; its entries are in
the order of their keys. If no builder was given points, it is equal to the group. -/
theorem C107_saved (ho : ∀ op ∈ ops, op.Writable) (i : ℕ) (b : GB) (hb : (run n0 pens kind0 ops).2[i]? = some b) (useVars : Bool)
    (n : ℕ) :
    let S := run n0 pens kind0 ops
    ∃ vars lines e', (outputs n (dump (DC.new useVars) (theObj S.1 b))).output.2 = .ok (vars, lines) ∧
      readElem vars lines = some e' ∧ e'.Ok ∧ (obj (theGroup S.1 b)).eqv e' = true ∧ InOrder e'.plain ∧
      ((∀ c ∈ S.2, pointsOf S.1 c = []) → (theObj S.1 b).eqv e' = true) := by
  intro S
  obtain ⟨hk, vars, lines, h1, h2⟩ := saved_sort n0 pens kind0 ops ho i b hb useVars n
  obtain ⟨s1, s2⟩ := sort_elem _ hk
  have he : (obj (theGroup S.1 b)).eqv (sortDicts (obj (theGroup S.1 b))) = true :=
    (eqv_iff_reorder (ok_keys _ hk)).2 (same_reorder s2)
  refine ⟨vars, lines, _, h1, h2, s1, he, sort_inOrder _, fun hp => ?_⟩
  have h : WF S := run_wf n0 pens kind0 ops
  have hg : b.group < S.1.next := h.own i b hb ▸ h.lt hb
  have : theObj S.1 b = obj (theGroup S.1 b) := by
    refine objTree_no_points h (fun g hg => ?_) _ _ hg
    obtain ⟨c, hc⟩ : ∃ c, S.2[g]? = some c := ⟨S.2[g]'(by rw [h.len]; exact hg), List.getElem?_eq_getElem _⟩
    have := hp c (List.mem_of_getElem? hc)
    rw [pointsOf, h.own g c hc] at this
    exact this
  rw [this]
  exact he

/-- **C107.** What is read back draws the same paths, in some order, and has the same bounding box. -/
theorem C107_drawn (ho : ∀ op ∈ ops, op.Writable) (i : ℕ) (b : GB) (hb : (run n0 pens kind0 ops).2[i]? = some b) (useVars : Bool)
    (n : ℕ) (vars lines e')
    (h1 : (outputs n (dump (DC.new useVars) (theObj (run n0 pens kind0 ops).1 b))).output.2 = .ok (vars, lines))
    (h2 : readElem vars lines = some e') (cfg : DCfg) (s : TState) :
    let S := run n0 pens kind0 ops
    (∀ ps, (Elem.paths cfg (theGroup S.1 b) s).2 = .ok ps → ∃ qs, (Elem.paths cfg e'.plain s).2 = .ok qs ∧ ps.Perm qs) ∧
    (∀ qs, (Elem.paths cfg e'.plain s).2 = .ok qs → ∃ ps, (Elem.paths cfg (theGroup S.1 b) s).2 = .ok ps ∧ ps.Perm qs) ∧
    (∀ box, (theGroup S.1 b).bbox = .ok box ↔ e'.plain.bbox = .ok box) := by
  intro S
  obtain ⟨vars', lines', e'', h1', h2', hk', he, -, -⟩ := C107_saved n0 pens kind0 ops ho i b hb useVars n
  rw [h1] at h1'
  simp only [Except.ok.injEq, Prod.mk.injEq] at h1'
  obtain ⟨rfl, rfl⟩ := h1'
  rw [h2] at h2'
  injection h2' with h2'
  subst h2'
  have hk := (saved_sort n0 pens kind0 ops ho i b hb useVars n).1
  have hpl : (obj (theGroup S.1 b)).plain = theGroup S.1 b := plain_obj _
  have he' := C74_equivalence.2.1 _ _ (ok_keys _ hk) he
  refine ⟨fun ps hps => ?_, fun qs hqs => ?_, fun box => ⟨fun h => ?_, fun h => ?_⟩⟩
  · exact C74_drawn cfg (ok_keys _ hk) (ok_plainHoles _ hk) he s ps (by rw [hpl]; exact hps)
  · obtain ⟨ps, a, c⟩ := C74_drawn cfg (ok_keys _ hk') (ok_plainHoles _ hk') he' s qs hqs
    rw [hpl] at a
    exact ⟨ps, a, c.symm⟩
  · exact C74_bbox (ok_keys _ hk) he box (by rw [hpl]; exact h)
  · have := C74_bbox (ok_keys _ hk') he' box h
    rwa [hpl] at this

/-- **C107.** If the names were given in ascending order, in the group and in all groups in it, it draws as before. -/
theorem C107_kept (ho : ∀ op ∈ ops, op.Writable) (i : ℕ) (b : GB) (hb : (run n0 pens kind0 ops).2[i]? = some b) (useVars : Bool)
    (n : ℕ) (vars lines e')
    (h1 : (outputs n (dump (DC.new useVars) (theObj (run n0 pens kind0 ops).1 b))).output.2 = .ok (vars, lines))
    (h2 : readElem vars lines = some e') (hs : InOrder (theGroup (run n0 pens kind0 ops).1 b)) :
    e'.plain = theGroup (run n0 pens kind0 ops).1 b := by
  obtain ⟨hk, vars', lines', h1', h2'⟩ := saved_sort n0 pens kind0 ops ho i b hb useVars n
  rw [h1] at h1'
  simp only [Except.ok.injEq, Prod.mk.injEq] at h1'
  obtain ⟨rfl, rfl⟩ := h1'
  rw [h2] at h2'
  injection h2' with h2'
  subst h2'
  rw [sort_of_inOrder _ hk (by rw [plain_obj]; exact hs), plain_obj]

/-! ### What is lost -/

/-- A point given to the builder is not in what is read back. -/
theorem C107_point_counterexample (name : Str) (hd : '.' ∉ name) (p : Pt ℝ) (useVars : Bool) (n : ℕ) :
    ∃ b, (run n0 pens kind0 [.point 0 name p]).2[0]? = some b ∧
      lookupPt (run n0 pens kind0 [.point 0 name p]).1 b name = .ok p ∧
      ∀ vars lines e', (outputs n (dump (DC.new useVars) (theObj (run n0 pens kind0 [.point 0 name p]).1 b))).output.2 =
          .ok (vars, lines) → readElem vars lines = some e' →
        (theObj (run n0 pens kind0 [.point 0 name p]).1 b).eqv e' = false := by
  have hdot : hasDot name = false := by
    rw [← Bool.not_eq_true, hasDot_iff]; exact hd
  refine ⟨_, rfl, ?_, ?_⟩
  · simp [run, step, newBuilder, addPt, lookupPt, hdot]
  · intro vars lines e' h1 h2
    obtain ⟨hk, vars', lines', h1', h2'⟩ := saved_sort n0 pens kind0 [.point 0 name p] (by simp [BOp.Writable]) 0 _ rfl useVars n
    rw [h1] at h1'
    simp only [Except.ok.injEq, Prod.mk.injEq] at h1'
    obtain ⟨rfl, rfl⟩ := h1'
    rw [h2] at h2'
    injection h2' with h2'
    subst h2'
    simp [theObj, theGroup, tree, run, step, newBuilder, addPt, hdot, objTree, obj, objAll, sortDicts, sortAll, DElem.eqv, dictEqv]

/-- The element a builder makes for a rectangle. -/
def box (name : Str) (pb : PenBrush) (p q : Pt ℝ) : Elem := .rect ⟨name, pb, true, Mat3.one⟩ p q

/-- Two rectangles in the same place, the second covers the first. When the group has been written and read back, the first covers the
second: what was hidden is seen now. -/
theorem C107_on_top_counterexample (pb1 pb2 : PenBrush) (p q : Pt ℝ) (useVars : Bool) (n : ℕ) (cfg : DCfg) (s : TState) :
    let ops : List BOp := [.elem 0 "b".toList (.pb pb1) (some true) (.rect p q), .elem 0 "a".toList (.pb pb2) (some true) (.rect p q)]
    let S := run n0 pens kind0 ops
    ∃ b pts, S.2[0]? = some b ∧ (Elem.paths cfg (theGroup S.1 b) s).2 = .ok [⟨pb1, true, pts⟩, ⟨pb2, true, pts⟩] ∧
      ∃ vars lines e', (outputs n (dump (DC.new useVars) (theObj S.1 b))).output.2 = .ok (vars, lines) ∧
        readElem vars lines = some e' ∧ (theObj S.1 b).eqv e' = true ∧
        (Elem.paths cfg e'.plain s).2 = .ok [⟨pb2, true, pts⟩, ⟨pb1, true, pts⟩] := by
  intro ops S
  have hS : theGroup S.1 ⟨n0, pens, kind0, false, 0⟩ = .group ⟨n0, defaultPb, false, Mat3.one⟩ false
      [("b".toList, box "b".toList pb1 p q), ("a".toList, box "a".toList pb2 p q)] := by
    simp [S, ops, run, step, newBuilder, addKey, pickName, hasDot, GObj.put, elemAny, pickPen, construct, addElem,
      afterLastDot, theGroup, tree, Elem.setName, box]
  have hw : ∀ op ∈ ops, op.Writable := by simp [ops, BOp.Writable]
  obtain ⟨vars, lines, e', h1, h2, -, h3, -, h4⟩ := C107_saved n0 pens kind0 ops hw 0 _ rfl useVars n
  obtain ⟨hk, vars', lines', h1', h2'⟩ := saved_sort n0 pens kind0 ops hw 0 _ rfl useVars n
  rw [h1] at h1'
  simp only [Except.ok.injEq, Prod.mk.injEq] at h1'
  obtain ⟨rfl, rfl⟩ := h1'
  rw [h2] at h2'
  injection h2' with h2'
  have hpl : e'.plain = .group ⟨n0, defaultPb, false, Mat3.one⟩ false
      [("a".toList, box "a".toList pb2 p q), ("b".toList, box "b".toList pb1 p q)] := by
    rw [h2']
    change (sortDicts (obj (theGroup S.1 ⟨n0, pens, kind0, false, 0⟩))).plain = _
    rw [hS]
    simp only [obj, objAll, sortDicts, sortAll, box]
    rw [show ∀ (x y : Str × DElem) , x.1 = "b".toList → y.1 = "a".toList →
      ([x, y].mergeSort fun x y => decide (x.1 ≤ y.1)) = [y, x] from fun x y hx hy => by
        simp only [List.mergeSort, List.MergeSort.Internal.splitInTwo, List.merge]
        have hba : ¬ (['b'] : Str) ≤ ['a'] := by decide
        simp [List.merge, hx, hy, hba]]
    · simp [DElem.plain, plainAll, DPt.pos, DPt.xy]
    · rfl
    · rfl
  have hp : ∀ (nm : Str) (pb : PenBrush) (t : TState), (Elem.paths cfg (box nm pb p q) t).2 =
      .ok [⟨pb, true, (Elem.corners p q).map t.mat.apply ++ [t.mat.apply p]⟩] := by
    intro nm pb t
    rw [box, Elem.drawn_push, Elem.C41_shape cfg (.rect _ _ _) trivial]
    simp [Elem.outline, Except.map, Elem.hdr, Mat3.mul_one', Elem.corners]
  refine ⟨_, (Elem.corners p q).map s.mat.apply ++ [s.mat.apply p], rfl, ?_, vars, lines, e', h1, h2, h4 ?_, ?_⟩
  · change (Elem.paths cfg (theGroup S.1 ⟨n0, pens, kind0, false, 0⟩) s).2 = _
    rw [hS, paths_group, if_neg (by simp), pathsAll_iff]
    exact ⟨[_, _], .cons (hp _ _ _) (.cons (hp _ _ _) .nil), by simp [TState.push, TState.compose, Mat3.mul_one']⟩
  · intro c hc
    have : c = ⟨n0, pens, kind0, false, 0⟩ := by
      simpa [S, ops, run, step, newBuilder] using hc
    subst this
    simp [S, ops, run, step, newBuilder, addKey, pickName, hasDot, GObj.put, elemAny, pickPen, construct, addElem,
      afterLastDot, pointsOf]
  · rw [hpl, paths_group, if_neg (by simp), pathsAll_iff]
    exact ⟨[_, _], .cons (hp _ _ _) (.cons (hp _ _ _) .nil), by simp [TState.push, TState.compose, Mat3.mul_one']⟩

/-- The program of C72 meets the hypotheses: it is written and read back, without the point. -/
example (p : PenBrush) (pens : ByShape PenBrush) (i : ℕ) (b : GB) (hb : (run ['t'] pens "edge" (prog p)).2[i]? = some b) (n : ℕ) :
    ∃ vars lines e', (outputs n (dump (DC.new true) (theObj (run ['t'] pens "edge" (prog p)).1 b))).output.2 = .ok (vars, lines) ∧
      readElem vars lines = some e' ∧ (obj (theGroup (run ['t'] pens "edge" (prog p)).1 b)).eqv e' = true := by
  have hw : ∀ op ∈ prog p, op.Writable := by simp [prog, BOp.Writable]
  obtain ⟨vars, lines, e', h1, h2, -, h3, -⟩ := C107_saved ['t'] pens "edge" (prog p) hw i b hb true n
  exact ⟨vars, lines, e', h1, h2, h3⟩

/-- An element that may be handed to `add`. -/
example : (BOp.add 0 ['x'] (.rect ⟨['q'], ⟨none, none⟩, true, Mat3.one⟩ ⟨0, 0⟩ ⟨2, 1⟩)).Writable := by
  simp [BOp.Writable, obj, DElem.Ok, DHdr.Ok, DPt.Plain, Mat3.affine_one]

/-- Groups in the order of their keys: the hypothesis of `C107_kept`. -/
example (pb : PenBrush) (p q : Pt ℝ) : InOrder (.group ⟨['g'], pb, false, Mat3.one⟩ false
    [(['a'], box ['a'] pb p q), (['b'], .group ⟨['b'], pb, false, Mat3.one⟩ false [(['a'], box ['a'] pb p q)])]) := by
  have : (['a'] : Str) ≤ ['b'] := by decide
  simp [InOrder, InOrderAll, box, this]

end X7.Build
