import Verif.Lemmas.Elem
import Verif.Props.Shapes
import Verif.Props.Bezier

/-!
C40, C41, C46: drawing trees of elements.
-/

namespace X7.Elem

/-! ### C40 -/

/-- C40: `paths` leaves the current matrix and the stack of the drawing context as found, whether it returns or raises (the
outcome is the second component and is not restricted). -/
theorem C40_paths (cfg : DCfg) (e : Elem) (s : TState) :
    (paths cfg e s).1.mat = s.mat ∧ (paths cfg e s).1.stack = s.stack := paths_keeps cfg e s

/-- C40: the same for `control_paths`. -/
theorem C40_control_paths (e : Elem) (s : TState) :
    (controlPaths e s).1.mat = s.mat ∧ (controlPaths e s).1.stack = s.stack := controlPaths_keeps e s

/-- C40: the loop over the elements of a group (any failure point in it) leaves the matrix it was given: after the failure of
the third element the matrix is the one of the group, not of the element. -/
theorem C40_group_loop (cfg : DCfg) (es : List (Str × Elem)) (s : TState) :
    (pathsAll cfg es s).1.mat = s.mat ∧ (pathsAll cfg es s).1.stack = s.stack := pathsAll_keeps cfg es s

/-- C40: the result of `paths` does not depend on the stack or the cached inverse of the context. -/
theorem C40_matrix_only (cfg : DCfg) (e : Elem) (s : TState) : (paths cfg e s).2 = drawn cfg e s.mat := drawn_push cfg e s

/-! ### C46 -/

/-- C46: a hidden group draws nothing and does not touch the context. -/
theorem C46_hidden (cfg : DCfg) (h : Hdr) (es : List (Str × Elem)) (s : TState) :
    paths cfg (.group h true es) s = (s, .ok []) := by rw [paths, if_pos rfl]

/-- C46: a visible group draws the paths of its elements in insertion order, under the matrix composed with its transform. -/
theorem C46_group (cfg : DCfg) (h : Hdr) (es : List (Str × Elem)) (s : TState) (pss : List (List Path))
    (hp : List.Forall₂ (fun x ps => drawn cfg x.2 (s.mat.mul h.xf) = .ok ps) es pss) :
    (paths cfg (.group h false es) s).2 = .ok pss.flatten := by
  rw [drawn_push, drawn_group]
  have : (es.mapM fun x => drawn cfg x.2 (s.mat.mul h.xf)) = .ok pss := by
    induction hp with
    | nil => rfl
    | cons h1 _ ih => rw [List.mapM_cons, h1, ih]; rfl
  rw [this]; rfl

/-- C46: a filled shape with holes. The outside draws the one path `po`, hole number `i` draws the paths `pss[i]`. First comes
one filled path without outline: the outside, then every hole path, each closed by going back to the last point of the
outside. Then come outlines, without filling: the outside and, for every path of a hole, all paths of this hole. -/
theorem C46_holes_filled (cfg : DCfg) (h : Hdr) (o : Elem) (inside : List Elem) (s : TState) (b : Brush) (po : Path)
    (last : Pt ℝ) (pss : List (List Path)) (hb : h.pb.brush = some b) (ho : drawn cfg o (s.mat.mul h.xf) = .ok [po])
    (hl : po.pts.getLast? = some last)
    (hi : List.Forall₂ (fun e ps => drawn cfg e (s.mat.mul h.xf) = .ok ps) inside pss) :
    (paths cfg (.holes h o inside) s).2 = .ok (
      ⟨⟨none, some b⟩, po.closed, po.pts ++ pss.flatten.flatMap fun q => q.pts ++ [last]⟩ ::
      (po :: pss.flatMap fun ps => ps.flatMap fun _ => ps).map fun q => { q with pb := ⟨h.pb.pen, none⟩ }) := by
  rw [drawn_push]
  exact drawn_holes_filled cfg h o inside s.mat b po last pss hb ho hl hi

/-- C46: when every hole draws one path there is one filled path and one outline for each part. -/
theorem C46_holes_simple (cfg : DCfg) (h : Hdr) (o : Elem) (inside : List Elem) (s : TState) (b : Brush) (po : Path)
    (last : Pt ℝ) (ps : List Path) (hb : h.pb.brush = some b) (ho : drawn cfg o (s.mat.mul h.xf) = .ok [po])
    (hl : po.pts.getLast? = some last)
    (hi : List.Forall₂ (fun e p => drawn cfg e (s.mat.mul h.xf) = .ok [p]) inside ps) :
    (paths cfg (.holes h o inside) s).2 = .ok (
      ⟨⟨none, some b⟩, po.closed, po.pts ++ ps.flatMap fun q => q.pts ++ [last]⟩ ::
      (po :: ps).map fun q => { q with pb := ⟨h.pb.pen, none⟩ }) ∧
    ∀ r, (paths cfg (.holes h o inside) s).2 = .ok r → r.length = inside.length + 2 := by
  have e1 : ∀ l : List Path, (l.map fun p => [p]).flatten = l := by
    intro l; induction l <;> simp_all
  have e2 : ∀ l : List Path, ((l.map fun p => [p]).flatMap fun ps => ps.flatMap fun _ => ps) = l := by
    intro l; induction l <;> simp_all
  have hf : List.Forall₂ (fun e ps => drawn cfg e (s.mat.mul h.xf) = .ok ps) inside (ps.map fun p => [p]) :=
    List.forall₂_map_right_iff.2 hi
  have key := C46_holes_filled cfg h o inside s b po last (ps.map fun p => [p]) hb ho hl hf
  rw [e1, e2] at key
  refine ⟨key, ?_⟩
  intro r hr
  rw [key] at hr
  injection hr with hr
  subst hr
  simp [hi.length_eq]

/-- C46: without a brush there are only the outlines: the outside and every path of every hole once. -/
theorem C46_holes_unfilled (cfg : DCfg) (h : Hdr) (o : Elem) (inside : List Elem) (s : TState) (po : Path)
    (pss : List (List Path)) (hb : h.pb.brush = none) (ho : drawn cfg o (s.mat.mul h.xf) = .ok [po])
    (hi : List.Forall₂ (fun e ps => drawn cfg e (s.mat.mul h.xf) = .ok ps) inside pss) :
    (paths cfg (.holes h o inside) s).2 = .ok ((po :: pss.flatten).map fun q => { q with pb := ⟨h.pb.pen, none⟩ }) := by
  rw [drawn_push]
  exact drawn_holes_edge cfg h o inside s.mat po pss hb ho hi

/-- C46: an outside that does not draw exactly one path (an empty, hidden or larger group) fails with `AssertionError`. -/
theorem C46_outside_one_path (cfg : DCfg) (h : Hdr) (o : Elem) (inside : List Elem) (s : TState) (ps : List Path)
    (ho : drawn cfg o (s.mat.mul h.xf) = .ok ps) (hl : ps.length ≠ 1) :
    (paths cfg (.holes h o inside) s).2 = .error .assertion := by
  rw [drawn_push]
  exact drawn_holes_bad cfg h o inside s.mat ps ho hl

/-- C46: the number of outlines is not one per path: a hole that draws `k` paths (a group of `k` shapes) contributes `k * k`
outlines to a filled shape, each path `k` times. -/
theorem C46_duplicates_counterexample (cfg : DCfg) (h : Hdr) (o e : Elem) (s : TState) (b : Brush) (po : Path)
    (last : Pt ℝ) (ps : List Path) (hb : h.pb.brush = some b) (ho : drawn cfg o (s.mat.mul h.xf) = .ok [po])
    (hl : po.pts.getLast? = some last) (he : drawn cfg e (s.mat.mul h.xf) = .ok ps) :
    ∃ r, (paths cfg (.holes h o [e]) s).2 = .ok r ∧ r.length = 2 + ps.length * ps.length := by
  refine ⟨_, C46_holes_filled cfg h o [e] s b po last [ps] hb ho hl (.cons he .nil), ?_⟩
  simp
  ring

/-! ### C41 -/

/-- C41: the drawing of a tree is the drawings of its shapes one after the other, each under the context matrix composed with
the transforms of the groups around it, outermost first. A failing shape ends the drawing with its exception. -/
theorem C41_leaves (cfg : DCfg) (e : Elem) (s : TState) :
    (paths cfg e s).2 = ((leaves e).mapM fun x => drawn cfg x.2 (x.1.foldl Mat3.mul s.mat)).map List.flatten := by
  rw [drawn_push, drawn_leaves]

/-- C41: a basic shape draws one path: its outline mapped by the matrix composed with its own transform. -/
theorem C41_shape (cfg : DCfg) (e : Elem) (he : e.Basic) (m : Mat3 ℝ) :
    drawn cfg e m = (outline cfg e).map fun pts => [⟨e.hdr.pb, e.hdr.closed, pts.map (m.mul e.hdr.xf).apply⟩] :=
  drawn_basic cfg e he m

/-- C41: a curve transformed by `m` and drawn is the curve drawn under the composed matrix. -/
theorem C41_transform_curve (cfg : DCfg) (h : Hdr) (cps : List (CP ℝ)) (m m' s : TState) (e' : Elem)
    (hx : h.xf.Affine) (hm : m.mat.Affine) (ht : transform (.curve h cps) m = (m', .ok e')) :
    (paths cfg e' s).2 = drawn cfg (.curve h cps) (s.mat.mul m.mat) := by
  cases hc : checkClosed h.pb h.closed with
  | error er =>
    simp only [transform, hc] at ht
    rw [drawSpace_eq (fun x => ⟨rfl, rfl⟩)] at ht
    simp at ht
  | ok u =>
    simp only [transform, hc] at ht
    rw [drawSpace_eq (fun x => ⟨rfl, rfl⟩)] at ht
    simp only [Prod.mk.injEq, Except.ok.injEq] at ht
    obtain ⟨_, rfl⟩ := ht
    rw [drawn_push, drawn_basic cfg (.curve _ _) trivial, drawn_basic cfg (.curve h cps) trivial]
    simp only [outline, hdr, Except.map, TState.push, TState.compose]
    rw [segs_transform, pathOf_map, List.map_map]
    congr 3
    apply List.map_congr_left
    intro p _
    simp only [Function.comp_apply, Mat3.mul_one', ← Mat3.apply_mul (Mat3.affine_mul hm hx), Mat3.mul_assoc']

/-- C41: a group transformed by `m` and drawn is the group drawn under the composed matrix (any elements, any matrices). -/
theorem C41_transform_group (cfg : DCfg) (h : Hdr) (hidden : Bool) (es : List (Str × Elem)) (m m' s : TState) (e' : Elem)
    (ht : transform (.group h hidden es) m = (m', .ok e')) :
    (paths cfg e' s).2 = drawn cfg (.group h hidden es) (s.mat.mul m.mat) := by
  simp only [transform] at ht
  cases hc : checkClosed h.pb false with
  | error er => rw [hc] at ht; simp at ht
  | ok u =>
    rw [hc] at ht
    simp only [Prod.mk.injEq, Except.ok.injEq] at ht
    obtain ⟨_, rfl⟩ := ht
    cases hidden with
    | true => rw [drawn_push, drawn_hidden, drawn_hidden]
    | false =>
      rw [drawn_push, drawn_group, drawn_group]
      simp only [TState.copy, TState.setMatrix, TState.compose, Mat3.mul_assoc']

/-! ### Cases -/

/-- A header without pen, with or without a brush. -/
noncomputable def hdr0 (brush : Option Brush) : Hdr := ⟨['x'], ⟨none, brush⟩, true, Mat3.one⟩

/-- A square of side `a` at `(x, x)` draws its five points. -/
theorem drawn_square (cfg : DCfg) (br : Option Brush) (x a : ℝ) :
    drawn cfg (.rect (hdr0 br) ⟨x, x⟩ ⟨x + a, x + a⟩) Mat3.one =
      .ok [⟨⟨none, br⟩, true, [⟨x, x⟩, ⟨x, x + a⟩, ⟨x + a, x + a⟩, ⟨x + a, x⟩, ⟨x, x⟩]⟩] := by
  rw [C41_shape cfg (.rect _ _ _) trivial]
  simp [outline, Except.map, hdr, hdr0, Mat3.mul_one', Mat3.apply_one]

/-- A square with a square hole: the hypotheses of `C46_holes_simple` are met; one filled path of 11 points, two outlines. -/
example (cfg : DCfg) (b : Brush) : ∃ fill e1 e2,
    (paths cfg (.holes (hdr0 (some b)) (.rect (hdr0 none) ⟨0, 0⟩ ⟨0 + 4, 0 + 4⟩) [.rect (hdr0 none) ⟨1, 1⟩ ⟨1 + 1, 1 + 1⟩])
      ⟨Mat3.one, none, []⟩).2 = .ok [fill, e1, e2] ∧ fill.pts.length = 11 ∧ e1.pts.length = 5 := by
  have h1 := drawn_square cfg none 0 4
  have h2 := drawn_square cfg none 1 1
  have := (C46_holes_simple cfg (hdr0 (some b)) _ _ ⟨Mat3.one, none, []⟩ b _ ⟨0, 0⟩ _ rfl
    (by simp only [hdr0, Mat3.mul_one'] at h1 ⊢; exact h1) rfl
    (.cons (by simp only [hdr0, Mat3.mul_one'] at h2 ⊢; exact h2) .nil)).1
  exact ⟨_, _, _, this, by simp, by simp⟩

/-- A failure part-way: the second element of the group fails, the context is as found (C40). -/
example (cfg : DCfg) (s : TState) :
    (paths cfg (.group (hdr0 none) false [(['a'], .rect (hdr0 none) ⟨0, 0⟩ ⟨1, 1⟩),
      (['b'], .holes (hdr0 none) (.group (hdr0 none) false []) [])]) s).2 = .error .assertion := by
  rw [drawn_push, drawn_group]
  have h1 : ∀ m, drawn cfg (.holes (hdr0 none) (.group (hdr0 none) false []) []) m = .error .assertion :=
    fun m => drawn_holes_bad cfg _ _ _ m [] (by rw [drawn_group]; rfl) (by simp)
  have h2 : ∀ m, ∃ ps, drawn cfg (.rect (hdr0 none) ⟨0, 0⟩ ⟨1, 1⟩) m = .ok ps := by
    intro m; rw [C41_shape cfg (.rect _ _ _) trivial]; exact ⟨_, rfl⟩
  obtain ⟨ps, h2⟩ := h2 (s.mat.mul (hdr0 none).xf)
  rw [List.mapM_cons, h2, List.mapM_cons, h1]
  rfl

/-- A nested tree: two groups around a shape, whose matrix is the product in order. -/
example (a b : Hdr) (r : Elem) (hr : r.Basic) :
    leaves (.group a false [(['g'], .group b false [(['r'], r)])]) = [([a.xf, b.xf], r)] := by
  cases r <;> simp_all [leaves, leavesAll, Basic]

end X7.Elem
