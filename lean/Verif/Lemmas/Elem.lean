import Verif.Spec.Elem
import Verif.Lemmas.Mat3
import Verif.Lemmas.Shapes

namespace X7.Elem

/-- A computation that leaves matrix and stack as found. -/
def Keeps {α : Type} (body : TState → TState × Except PyErr α) : Prop :=
  ∀ s, (body s).1.mat = s.mat ∧ (body s).1.stack = s.stack

theorem drawSpace_eq {α : Type} {body : TState → TState × Except PyErr α} (h : Keeps body) (s : TState) (xf : Mat3 ℝ) :
    drawSpace s xf body = (⟨s.mat, none, s.stack⟩, (body (s.push.compose xf)).2) := by
  obtain ⟨h1, h2⟩ := h (s.push.compose xf)
  simp only [drawSpace]
  rw [if_neg (by simp [TState.push, TState.compose])]
  have : (body (s.push.compose xf)).1.pop = ⟨⟨s.mat, none, s.stack⟩, none⟩ := by
    unfold TState.pop
    rw [h2]
    simp [TState.push, TState.compose]
  rw [this]

theorem drawSpace_keeps {α : Type} {body : TState → TState × Except PyErr α} (h : Keeps body) (xf : Mat3 ℝ) :
    Keeps fun s => drawSpace s xf body := by
  intro s
  simp only [drawSpace_eq h]
  exact ⟨trivial, trivial⟩

theorem curvePaths_keeps (cfg : DCfg) (h : Hdr) (cps : List (CP ℝ)) : Keeps (curvePaths cfg h cps) := fun _ => ⟨rfl, rfl⟩

theorem rectPaths_keeps (h : Hdr) (p1 p2 : Pt ℝ) : Keeps (rectPaths h p1 p2) := fun _ => ⟨rfl, rfl⟩

theorem shapePaths_keeps (h : Hdr) (mk : Except PyErr (List (CP ℝ))) : Keeps (shapePaths h mk) := by
  intro s; cases mk <;> exact ⟨rfl, rfl⟩

/-- The body of `ElemWithHoles.paths`. -/
noncomputable def holesBody (cfg : DCfg) (h : Hdr) (outside : Elem) (inside : List Elem) (s : TState) : TState × Except PyErr (List Path) :=
  match paths cfg outside s with
  | (s, .error e) => (s, .error e)
  | (s, .ok edges) =>
    match edges with
    | [edge] =>
      let edge_brush : PenBrush := ⟨h.pb.pen, none⟩
      let edge' := { edge with pb := edge_brush }
      match h.pb.brush with
      | some b =>
        match pathsFill cfg edge_brush inside s ([edge'], ⟨⟨none, some b⟩, edge.closed, edge.pts⟩) with
        | (s, .ok (edges, fill)) => (s, .ok (fill :: edges))
        | (s, .error e) => (s, .error e)
      | none => pathsEdge cfg edge_brush inside s [edge']
    | _ => (s, .error .assertion)

theorem paths_holes (cfg : DCfg) (h : Hdr) (o : Elem) (i : List Elem) (s : TState) :
    paths cfg (.holes h o i) s = drawSpace s h.xf (holesBody cfg h o i) := by
  rw [paths]; rfl

mutual
theorem paths_keeps (cfg : DCfg) : (e : Elem) → Keeps (paths cfg e)
  | .curve h cps => by
    intro s; rw [paths]; exact drawSpace_keeps (curvePaths_keeps cfg h cps) _ s
  | .rect h p1 p2 => by
    intro s; rw [paths]; exact drawSpace_keeps (rectPaths_keeps h p1 p2) _ s
  | .rrect h p1 p2 r => by
    intro s; rw [paths]; exact drawSpace_keeps (shapePaths_keeps h _) _ s
  | .ellipse h p1 p2 => by
    intro s; rw [paths]; exact drawSpace_keeps (shapePaths_keeps h _) _ s
  | .group h hidden elems => by
    intro s; rw [paths]
    split
    · exact ⟨rfl, rfl⟩
    · exact drawSpace_keeps (pathsAll_keeps cfg elems) _ s
  | .holes h o i => by
    intro s; rw [paths_holes]
    refine drawSpace_keeps ?_ _ s
    intro s
    obtain ⟨h1, h2⟩ := paths_keeps cfg o s
    simp only [holesBody]
    split
    · rename_i s' e he
      rw [he] at h1 h2
      exact ⟨h1, h2⟩
    · rename_i s' edges he
      rw [he] at h1 h2
      simp only at h1 h2
      split
      · rename_i edge
        split
        · rename_i b hb
          obtain ⟨h3, h4⟩ := pathsFill_keeps cfg ⟨h.pb.pen, none⟩ i s' ([{ edge with pb := ⟨h.pb.pen, none⟩ }], ⟨⟨none, some b⟩, edge.closed, edge.pts⟩)
          split
          · rename_i s'' e2 fl he2
            rw [he2] at h3 h4
            exact ⟨h3.trans h1, h4.trans h2⟩
          · rename_i s'' er he2
            rw [he2] at h3 h4
            exact ⟨h3.trans h1, h4.trans h2⟩
        · obtain ⟨h3, h4⟩ := pathsEdge_keeps cfg ⟨h.pb.pen, none⟩ i s' [{ edge with pb := ⟨h.pb.pen, none⟩ }]
          exact ⟨h3.trans h1, h4.trans h2⟩
      · exact ⟨h1, h2⟩
theorem pathsAll_keeps (cfg : DCfg) : (es : List (Str × Elem)) → Keeps (pathsAll cfg es)
  | [] => fun s => by rw [pathsAll]; exact ⟨rfl, rfl⟩
  | (k, e) :: rest => by
    intro s; rw [pathsAll]
    obtain ⟨h1, h2⟩ := paths_keeps cfg e s
    split
    · rename_i s' er he
      rw [he] at h1 h2
      exact ⟨h1, h2⟩
    · rename_i s' ps he
      rw [he] at h1 h2
      obtain ⟨h3, h4⟩ := pathsAll_keeps cfg rest s'
      split
      · rename_i s'' er he2
        rw [he2] at h3 h4
        exact ⟨h3.trans h1, h4.trans h2⟩
      · rename_i s'' qs he2
        rw [he2] at h3 h4
        exact ⟨h3.trans h1, h4.trans h2⟩
theorem pathsFill_keeps (cfg : DCfg) (edge : PenBrush) : (es : List Elem) → (s : TState) → (acc : List Path × Path) →
    (pathsFill cfg edge es s acc).1.mat = s.mat ∧ (pathsFill cfg edge es s acc).1.stack = s.stack
  | [] => fun s acc => by rw [pathsFill]; exact ⟨rfl, rfl⟩
  | e :: rest => by
    intro s acc; rw [pathsFill]
    obtain ⟨h1, h2⟩ := paths_keeps cfg e s
    split
    · rename_i s' er he
      rw [he] at h1 h2
      exact ⟨h1, h2⟩
    · rename_i s' ps he
      rw [he] at h1 h2
      split
      · exact ⟨h1, h2⟩
      · rename_i acc' _
        obtain ⟨h3, h4⟩ := pathsFill_keeps cfg edge rest s' acc'
        exact ⟨h3.trans h1, h4.trans h2⟩
theorem pathsEdge_keeps (cfg : DCfg) (edge : PenBrush) : (es : List Elem) → (s : TState) → (acc : List Path) →
    (pathsEdge cfg edge es s acc).1.mat = s.mat ∧ (pathsEdge cfg edge es s acc).1.stack = s.stack
  | [] => fun s acc => by rw [pathsEdge]; exact ⟨rfl, rfl⟩
  | e :: rest => by
    intro s acc; rw [pathsEdge]
    obtain ⟨h1, h2⟩ := paths_keeps cfg e s
    split
    · rename_i s' er he
      rw [he] at h1 h2
      exact ⟨h1, h2⟩
    · rename_i s' ps he
      rw [he] at h1 h2
      obtain ⟨h3, h4⟩ := pathsEdge_keeps cfg edge rest s' (acc ++ ps.map fun q => { q with pb := edge })
      exact ⟨h3.trans h1, h4.trans h2⟩
end


theorem holesBody_keeps (cfg : DCfg) (h : Hdr) (o : Elem) (i : List Elem) : Keeps (holesBody cfg h o i) := by
  intro s
  obtain ⟨h1, h2⟩ := paths_keeps cfg o s
  simp only [holesBody]
  split
  · rename_i s' e he
    rw [he] at h1 h2
    exact ⟨h1, h2⟩
  · rename_i s' edges he
    rw [he] at h1 h2
    simp only at h1 h2
    split
    · rename_i edge
      split
      · rename_i b hb
        obtain ⟨h3, h4⟩ := pathsFill_keeps cfg ⟨h.pb.pen, none⟩ i s' ([{ edge with pb := ⟨h.pb.pen, none⟩ }], ⟨⟨none, some b⟩, edge.closed, edge.pts⟩)
        split
        · rename_i s'' e2 fl he2
          rw [he2] at h3 h4
          exact ⟨h3.trans h1, h4.trans h2⟩
        · rename_i s'' er he2
          rw [he2] at h3 h4
          exact ⟨h3.trans h1, h4.trans h2⟩
      · obtain ⟨h3, h4⟩ := pathsEdge_keeps cfg ⟨h.pb.pen, none⟩ i s' [{ edge with pb := ⟨h.pb.pen, none⟩ }]
        exact ⟨h3.trans h1, h4.trans h2⟩
    · exact ⟨h1, h2⟩

/-! ### Drawing depends on the matrix only -/

/-- The result depends on the current matrix only, not on the stack or the cached inverse. -/
def OnlyMat {α : Type} (body : TState → TState × Except PyErr α) : Prop :=
  ∀ s s' : TState, s.mat = s'.mat → (body s).2 = (body s').2

theorem drawSpace_onlyMat {α : Type} {body : TState → TState × Except PyErr α} (h : Keeps body) (h2 : OnlyMat body) (xf : Mat3 ℝ) :
    OnlyMat fun s => drawSpace s xf body := by
  intro s s' hs
  simp only [drawSpace_eq h]
  exact h2 _ _ (by simp [TState.push, TState.compose, hs])

theorem curvePaths_onlyMat (cfg : DCfg) (h : Hdr) (cps : List (CP ℝ)) : OnlyMat (curvePaths cfg h cps) := by
  intro s s' hs; simp only [curvePaths, hs]

theorem rectPaths_onlyMat (h : Hdr) (p1 p2 : Pt ℝ) : OnlyMat (rectPaths h p1 p2) := by
  intro s s' hs; simp only [rectPaths, TState.transformPts, hs]; split <;> rfl

theorem shapePaths_onlyMat (h : Hdr) (mk : Except PyErr (List (CP ℝ))) : OnlyMat (shapePaths h mk) := by
  intro s s' hs; simp only [shapePaths, hs]; split <;> rfl

theorem pair_cases {α : Type} (x : TState × α) : ∃ a r, x = (a, r) := ⟨_, _, rfl⟩

mutual
theorem paths_onlyMat (cfg : DCfg) : (e : Elem) → OnlyMat (paths cfg e)
  | .curve h cps => by
    intro s s' hs; simp only [paths]; exact drawSpace_onlyMat (curvePaths_keeps cfg h cps) (curvePaths_onlyMat cfg h cps) _ s s' hs
  | .rect h p1 p2 => by
    intro s s' hs; simp only [paths]; exact drawSpace_onlyMat (rectPaths_keeps h p1 p2) (rectPaths_onlyMat h p1 p2) _ s s' hs
  | .rrect h p1 p2 r => by
    intro s s' hs; simp only [paths]; exact drawSpace_onlyMat (shapePaths_keeps h _) (shapePaths_onlyMat h _) _ s s' hs
  | .ellipse h p1 p2 => by
    intro s s' hs; simp only [paths]; exact drawSpace_onlyMat (shapePaths_keeps h _) (shapePaths_onlyMat h _) _ s s' hs
  | .group h hidden elems => by
    intro s s' hs; simp only [paths]
    split
    · rfl
    · exact drawSpace_onlyMat (pathsAll_keeps cfg elems) (pathsAll_onlyMat cfg elems) _ s s' hs
  | .holes h o i => by
    intro s s' hs
    rw [paths_holes, paths_holes]
    refine drawSpace_onlyMat (holesBody_keeps cfg h o i) ?_ _ s s' hs
    clear hs s s'
    intro s s' hs
    have h0 := paths_onlyMat cfg o s s' hs
    have h1 := (paths_keeps cfg o s).1
    have h1' := (paths_keeps cfg o s').1
    obtain ⟨a, r, ha⟩ := pair_cases (paths cfg o s)
    obtain ⟨a', r', ha'⟩ := pair_cases (paths cfg o s')
    simp only [holesBody]
    rw [ha] at h0 h1 ⊢
    rw [ha'] at h0 h1' ⊢
    simp only at h0 h1 h1'
    subst h0
    have haa : a.mat = a'.mat := by rw [h1, h1', hs]
    match r with
    | .error er => rfl
    | .ok [] => rfl
    | .ok (_ :: _ :: _) => rfl
    | .ok [edge] =>
      cases hb : h.pb.brush with
      | none => exact pathsEdge_onlyMat cfg _ i _ a a' haa
      | some b =>
        have h2 := pathsFill_onlyMat cfg ⟨h.pb.pen, none⟩ i ([{ edge with pb := ⟨h.pb.pen, none⟩ }], ⟨⟨none, some b⟩, edge.closed, edge.pts⟩) a a' haa
        obtain ⟨c, t, hc⟩ := pair_cases (pathsFill cfg ⟨h.pb.pen, none⟩ i a ([{ edge with pb := ⟨h.pb.pen, none⟩ }], ⟨⟨none, some b⟩, edge.closed, edge.pts⟩))
        obtain ⟨c', t', hc'⟩ := pair_cases (pathsFill cfg ⟨h.pb.pen, none⟩ i a' ([{ edge with pb := ⟨h.pb.pen, none⟩ }], ⟨⟨none, some b⟩, edge.closed, edge.pts⟩))
        simp only [hc, hc'] at h2 ⊢
        subst h2
        cases t <;> rfl
theorem pathsAll_onlyMat (cfg : DCfg) : (es : List (Str × Elem)) → OnlyMat (pathsAll cfg es)
  | [] => fun s s' _ => by simp only [pathsAll]
  | (k, e) :: rest => by
    intro s s' hs; rw [pathsAll, pathsAll]
    have h0 := paths_onlyMat cfg e s s' hs
    have h1 := (paths_keeps cfg e s).1
    have h1' := (paths_keeps cfg e s').1
    obtain ⟨a, r, ha⟩ := pair_cases (paths cfg e s)
    obtain ⟨a', r', ha'⟩ := pair_cases (paths cfg e s')
    rw [ha] at h0 h1 ⊢
    rw [ha'] at h0 h1' ⊢
    simp only at h0 h1 h1'
    subst h0
    cases r with
    | error er => rfl
    | ok ps =>
      have h2 := pathsAll_onlyMat cfg rest a a' (by rw [h1, h1', hs])
      obtain ⟨b, t, hb⟩ := pair_cases (pathsAll cfg rest a)
      obtain ⟨b', t', hb'⟩ := pair_cases (pathsAll cfg rest a')
      simp only [hb, hb'] at h2 ⊢
      subst h2
      cases t <;> rfl
theorem pathsFill_onlyMat (cfg : DCfg) (edge : PenBrush) : (es : List Elem) → (acc : List Path × Path) →
    OnlyMat (fun s => pathsFill cfg edge es s acc)
  | [] => fun acc s s' _ => by simp only [pathsFill]
  | e :: rest => by
    intro acc s s' hs
    simp only
    rw [pathsFill, pathsFill]
    have h0 := paths_onlyMat cfg e s s' hs
    have h1 := (paths_keeps cfg e s).1
    have h1' := (paths_keeps cfg e s').1
    obtain ⟨a, r, ha⟩ := pair_cases (paths cfg e s)
    obtain ⟨a', r', ha'⟩ := pair_cases (paths cfg e s')
    rw [ha] at h0 h1 ⊢
    rw [ha'] at h0 h1' ⊢
    simp only at h0 h1 h1'
    subst h0
    cases r with
    | error er => rfl
    | ok ps =>
      simp only
      cases fillInside edge ps ps acc with
      | error er => rfl
      | ok acc' => exact pathsFill_onlyMat cfg edge rest acc' a a' (by rw [h1, h1', hs])
theorem pathsEdge_onlyMat (cfg : DCfg) (edge : PenBrush) : (es : List Elem) → (acc : List Path) →
    OnlyMat (fun s => pathsEdge cfg edge es s acc)
  | [] => fun acc s s' _ => by simp only [pathsEdge]
  | e :: rest => by
    intro acc s s' hs
    simp only
    rw [pathsEdge, pathsEdge]
    have h0 := paths_onlyMat cfg e s s' hs
    have h1 := (paths_keeps cfg e s).1
    have h1' := (paths_keeps cfg e s').1
    obtain ⟨a, r, ha⟩ := pair_cases (paths cfg e s)
    obtain ⟨a', r', ha'⟩ := pair_cases (paths cfg e s')
    rw [ha] at h0 h1 ⊢
    rw [ha'] at h0 h1' ⊢
    simp only at h0 h1 h1'
    subst h0
    cases r with
    | error er => rfl
    | ok ps => exact pathsEdge_onlyMat cfg edge rest _ a a' (by rw [h1, h1', hs])
end


/-! ### Control paths -/

theorem cpsControl_keeps (mk : Except PyErr (List (CP ℝ))) : Keeps (cpsControl mk) := by
  intro s; cases mk <;> exact ⟨rfl, rfl⟩

theorem rectControl_keeps (p1 p2 : Pt ℝ) : Keeps (rectControl p1 p2) := fun _ => ⟨rfl, rfl⟩

mutual
theorem controlPaths_keeps : (e : Elem) → Keeps (controlPaths e)
  | .curve h cps => by
    intro s; rw [controlPaths]; exact drawSpace_keeps (cpsControl_keeps _) _ s
  | .rect h p1 p2 => by
    intro s; rw [controlPaths]; exact drawSpace_keeps (rectControl_keeps p1 p2) _ s
  | .rrect h p1 p2 r => by
    intro s; rw [controlPaths]; exact drawSpace_keeps (cpsControl_keeps _) _ s
  | .ellipse h p1 p2 => by
    intro s; rw [controlPaths]; exact drawSpace_keeps (cpsControl_keeps _) _ s
  | .group h hidden elems => by
    intro s; rw [controlPaths]
    split
    · exact ⟨rfl, rfl⟩
    · exact drawSpace_keeps (controlPathsAll_keeps elems) _ s
  | .holes h o i => by
    intro s; rw [controlPaths]
    refine drawSpace_keeps ?_ _ s
    intro s
    obtain ⟨h1, h2⟩ := controlPaths_keeps o s
    simp only
    split
    · rename_i s' e he
      rw [he] at h1 h2
      exact ⟨h1, h2⟩
    · rename_i s' edges he
      rw [he] at h1 h2
      obtain ⟨h3, h4⟩ := controlPathsIn_keeps i s'
      split
      · rename_i s'' er he2
        rw [he2] at h3 h4
        exact ⟨h3.trans h1, h4.trans h2⟩
      · rename_i s'' er he2
        rw [he2] at h3 h4
        exact ⟨h3.trans h1, h4.trans h2⟩
theorem controlPathsAll_keeps : (es : List (Str × Elem)) → Keeps (controlPathsAll es)
  | [] => fun s => by rw [controlPathsAll]; exact ⟨rfl, rfl⟩
  | (k, e) :: rest => by
    intro s; rw [controlPathsAll]
    obtain ⟨h1, h2⟩ := controlPaths_keeps e s
    split
    · rename_i s' er he
      rw [he] at h1 h2
      exact ⟨h1, h2⟩
    · rename_i s' ps he
      rw [he] at h1 h2
      obtain ⟨h3, h4⟩ := controlPathsAll_keeps rest s'
      split
      · rename_i s'' er he2
        rw [he2] at h3 h4
        exact ⟨h3.trans h1, h4.trans h2⟩
      · rename_i s'' qs he2
        rw [he2] at h3 h4
        exact ⟨h3.trans h1, h4.trans h2⟩
theorem controlPathsIn_keeps : (es : List Elem) → Keeps (controlPathsIn es)
  | [] => fun s => by rw [controlPathsIn]; exact ⟨rfl, rfl⟩
  | e :: rest => by
    intro s; rw [controlPathsIn]
    obtain ⟨h1, h2⟩ := controlPaths_keeps e s
    split
    · rename_i s' er he
      rw [he] at h1 h2
      exact ⟨h1, h2⟩
    · rename_i s' ps he
      rw [he] at h1 h2
      obtain ⟨h3, h4⟩ := controlPathsIn_keeps rest s'
      split
      · rename_i s'' er he2
        rw [he2] at h3 h4
        exact ⟨h3.trans h1, h4.trans h2⟩
      · rename_i s'' qs he2
        rw [he2] at h3 h4
        exact ⟨h3.trans h1, h4.trans h2⟩
end


/-! ### Basic shapes -/

theorem pairUp_flatten (ps : List (Pt ℝ)) : pairUp (xyFlatten ps) = ps := by
  induction ps with
  | nil => rfl
  | cons p ps ih =>
    simp only [xyFlatten, List.flatMap_cons, List.cons_append, List.nil_append, pairUp] at ih ⊢
    rw [ih]

theorem seg_transform (f : Pt ℝ → Pt ℝ) (p q : CP ℝ) : seg (p.transformLin f) (q.transformLin f) = (seg p q).map f := by
  simp [seg, Poly4.map, CP.transformLin, CP.l_eq, CP.r_eq, Pt.sub]

theorem segs_transform (f : Pt ℝ → Pt ℝ) (closed : Bool) (cps : List (CP ℝ)) :
    segs closed (cps.map (·.transformLin f)) = (segs closed cps).map (Poly4.map f) := by
  have key : ∀ l1 l2 : List (CP ℝ), List.zipWith seg (l1.map (·.transformLin f)) (l2.map (·.transformLin f)) =
      (List.zipWith seg l1 l2).map (Poly4.map f) := by
    intro l1 l2
    rw [List.zipWith_map, List.map_zipWith]
    simp only [seg_transform]
  cases closed with
  | true => simp only [segs, if_true, closedSegs, ← List.map_rotate, key]
  | false => simp only [segs, Bool.false_eq_true, if_false, openSegs, ← List.map_tail, key]

theorem at'_map (m : Mat3 ℝ) (s : Poly4 ℝ) (t : ℝ) : (s.map m.apply).at' t = m.apply (s.at' t) := by
  ext <;> simp only [Poly4.map, Poly4.at', bern, Mat3.apply] <;> ring

theorem pathOf_map (m : Mat3 ℝ) (n : ℕ) (ss : List (Poly4 ℝ)) :
    pathOf n (ss.map (Poly4.map m.apply)) = (pathOf n ss).map m.apply := by
  cases ss with
  | nil => rfl
  | cons s rest =>
    simp only [pathOf, List.map_cons, List.map_append, List.map_map, List.map_flatMap, List.flatMap_map, at'_map,
      Function.comp_def, List.map_tail]

theorem bezXY_max (a b c d : Pt ℝ) (n : ℕ) : bezXY a b c d n = bezXY a b c d (max 1 n) := by
  rcases Nat.eq_zero_or_pos n with rfl | h
  · rfl
  · rw [max_eq_right h]

theorem curvePts_eq (cps : List (CP ℝ)) (closed : Bool) (n : ℕ) :
    curvePts cps closed n = xyFlatten (pathOf (max 1 n) (segs closed cps)) := by
  unfold curvePts
  rw [← zip_segs]
  simp only
  generalize cps.zip (cps.tail ++ if closed then cps else []) = prs
  have hb : ∀ pq : CP ℝ × CP ℝ, bez pq.1.c pq.1.r pq.2.l pq.2.c n =
      xyFlatten ((List.range (max 1 n + 1)).map fun (i : ℕ) => (seg pq.1 pq.2).at' ((i : ℝ) / (max 1 n : ℕ))) := by
    intro pq; rw [bez, bezXY_max, bezXY_eq _ _ _ _ _ (le_max_left _ _)]; rfl
  simp only [hb]
  generalize max 1 n = N
  have step : ∀ (prs : List (CP ℝ × CP ℝ)) (acc : List ℝ),
      (prs.foldl (fun (acc : List ℝ × ℕ) pq =>
        (acc.1 ++ (xyFlatten ((List.range (N + 1)).map fun (i : ℕ) =>
          (seg pq.1 pq.2).at' ((i : ℝ) / N))).drop acc.2, 2)) (acc, 2)).1 =
      acc ++ xyFlatten ((prs.map fun pq => seg pq.1 pq.2).flatMap fun s =>
        ((List.range (N + 1)).map (fun (i : ℕ) => s.at' ((i : ℝ) / N))).tail) := by
    intro prs
    induction prs with
    | nil => intro acc; simp [xyFlatten]
    | cons pq prs ih =>
      intro acc
      rw [List.foldl_cons]
      simp only
      rw [ih, xyFlatten_drop2, List.map_cons, List.flatMap_cons, xyFlatten_append, List.append_assoc]
  cases prs with
  | nil => simp [pathOf, xyFlatten]
  | cons pq prs =>
    rw [List.foldl_cons, step]
    simp [pathOf, xyFlatten_append]

theorem drawn_push (cfg : DCfg) (e : Elem) (s : TState) : (paths cfg e s).2 = drawn cfg e s.mat :=
  paths_onlyMat cfg e _ _ rfl

theorem drawn_basic (cfg : DCfg) (e : Elem) (he : e.Basic) (m : Mat3 ℝ) :
    drawn cfg e m = (outline cfg e).map fun pts => [⟨e.hdr.pb, e.hdr.closed, pts.map (m.mul e.hdr.xf).apply⟩] := by
  cases e with
  | curve h cps =>
    simp only [drawn, paths, drawSpace_eq (curvePaths_keeps cfg h cps), curvePaths, TState.push, TState.compose, outline, hdr,
      Except.map]
    rw [curvePts_eq, pairUp_flatten, segs_transform, pathOf_map]
  | rect h p1 p2 =>
    simp only [drawn, paths, drawSpace_eq (rectPaths_keeps h p1 p2), rectPaths, TState.push, TState.compose, outline, hdr,
      Except.map, corners, TState.transformPts]
    simp [Mat3.apply, Mat3.apply3]
  | rrect h p1 p2 r =>
    simp only [drawn, paths, drawSpace_eq (shapePaths_keeps h _), TState.push, TState.compose, outline, hdr]
    cases makeRoundedRect p1 p2 r with
    | error er => rfl
    | ok cps =>
      simp only [shapePaths, Except.map]
      rw [bezPath_eq _ _ _ _ (by norm_num), pairUp_flatten, pathOf_map]
  | ellipse h p1 p2 =>
    simp only [drawn, paths, drawSpace_eq (shapePaths_keeps h _), TState.push, TState.compose, outline, hdr]
    cases makeEllipseP1P2 p1 p2 with
    | error er => rfl
    | ok cps =>
      simp only [shapePaths, Except.map]
      rw [bezPath_eq _ _ _ _ (by norm_num), pairUp_flatten, pathOf_map]
  | group h x y => exact he.elim
  | holes h x y => exact he.elim

/-! ### Groups -/

theorem drawn_pathsAll (cfg : DCfg) (es : List (Str × Elem)) (s : TState) :
    (pathsAll cfg es s).2 = (es.mapM fun x => drawn cfg x.2 s.mat).map List.flatten := by
  induction es generalizing s with
  | nil => simp only [pathsAll, List.mapM_nil]; rfl
  | cons x es ih =>
    obtain ⟨k, e⟩ := x
    rw [pathsAll, List.mapM_cons]
    have h1 := (paths_keeps cfg e s).1
    have h2 := drawn_push cfg e s
    obtain ⟨a, r, ha⟩ := pair_cases (paths cfg e s)
    rw [ha] at h1 h2 ⊢
    simp only at h1 h2
    subst h2
    simp only
    cases drawn cfg e s.mat with
    | error er => rfl
    | ok ps =>
      simp only
      have h3 := ih a
      rw [h1] at h3
      obtain ⟨b, t, hb⟩ := pair_cases (pathsAll cfg es a)
      rw [hb] at h3 ⊢
      simp only at h3
      subst h3
      cases es.mapM fun x => drawn cfg x.2 s.mat <;> rfl

theorem drawn_group (cfg : DCfg) (h : Hdr) (es : List (Str × Elem)) (m : Mat3 ℝ) :
    drawn cfg (.group h false es) m = (es.mapM fun x => drawn cfg x.2 (m.mul h.xf)).map List.flatten := by
  simp only [drawn, paths, drawSpace_eq (pathsAll_keeps cfg es), Bool.false_eq_true, if_false]
  rw [drawn_pathsAll]
  rfl

theorem drawn_hidden (cfg : DCfg) (h : Hdr) (es : List (Str × Elem)) (m : Mat3 ℝ) :
    drawn cfg (.group h true es) m = .ok [] := by
  simp only [drawn, paths, if_true]

mutual
theorem drawn_leaves (cfg : DCfg) : (e : Elem) → (m : Mat3 ℝ) →
    drawn cfg e m = ((leaves e).mapM fun x => drawn cfg x.2 (x.1.foldl Mat3.mul m)).map List.flatten
  | .curve h cps => by
    intro m; simp only [leaves, List.mapM_cons, List.mapM_nil, List.foldl_nil]
    cases drawn cfg (.curve h cps) m <;> simp [bind, Except.bind, pure, Except.pure, Except.map]
  | .rect h p1 p2 => by
    intro m; simp only [leaves, List.mapM_cons, List.mapM_nil, List.foldl_nil]
    cases drawn cfg (.rect h p1 p2) m <;> simp [bind, Except.bind, pure, Except.pure, Except.map]
  | .rrect h p1 p2 r => by
    intro m; simp only [leaves, List.mapM_cons, List.mapM_nil, List.foldl_nil]
    cases drawn cfg (.rrect h p1 p2 r) m <;> simp [bind, Except.bind, pure, Except.pure, Except.map]
  | .ellipse h p1 p2 => by
    intro m; simp only [leaves, List.mapM_cons, List.mapM_nil, List.foldl_nil]
    cases drawn cfg (.ellipse h p1 p2) m <;> simp [bind, Except.bind, pure, Except.pure, Except.map]
  | .holes h o i => by
    intro m; simp only [leaves, List.mapM_cons, List.mapM_nil, List.foldl_nil]
    cases drawn cfg (.holes h o i) m <;> simp [bind, Except.bind, pure, Except.pure, Except.map]
  | .group h hidden es => by
    intro m
    cases hidden with
    | true => rw [drawn_hidden]; simp [leaves, pure, Except.pure, Except.map]
    | false =>
      rw [drawn_group, drawn_leavesAll cfg es (m.mul h.xf)]
      simp only [leaves, Bool.false_eq_true, if_false, List.mapM_map, Function.comp_def, List.foldl_cons]
theorem drawn_leavesAll (cfg : DCfg) : (es : List (Str × Elem)) → (m : Mat3 ℝ) →
    (es.mapM fun x => drawn cfg x.2 m).map List.flatten =
      ((leavesAll es).mapM fun x => drawn cfg x.2 (x.1.foldl Mat3.mul m)).map List.flatten
  | [] => by intro m; simp [leavesAll]
  | (k, e) :: rest => by
    intro m
    have h1 := drawn_leaves cfg e m
    have h2 := drawn_leavesAll cfg rest m
    rw [List.mapM_cons, leavesAll, List.mapM_append]
    revert h1 h2
    generalize drawn cfg e m = A
    generalize (List.mapM (fun x : Str × Elem => drawn cfg x.2 m) rest) = B
    generalize (List.mapM (fun x : List (Mat3 ℝ) × Elem => drawn cfg x.2 (x.1.foldl Mat3.mul m)) (leaves e)) = C
    generalize (List.mapM (fun x : List (Mat3 ℝ) × Elem => drawn cfg x.2 (x.1.foldl Mat3.mul m)) (leavesAll rest)) = D
    intro h1 h2
    cases A <;> cases B <;> cases C <;> cases D <;> simp_all [bind, Except.bind, pure, Except.pure, Except.map]
end


/-! ### Shapes with holes -/

/-- What the loop over the holes adds to the filled path. -/
def fillTail (last : Pt ℝ) (pss : List (List Path)) : List (Pt ℝ) :=
  pss.flatten.flatMap fun q => q.pts ++ [last]

theorem fillInside_eq (edge : PenBrush) (ps : List Path) (last : Pt ℝ) :
    ∀ (todo : List Path) (edges : List Path) (fill : Path), fill.pts.getLast? = some last →
      ∃ fill', fillInside edge ps todo (edges, fill) =
          .ok (edges ++ (todo.flatMap fun _ => ps).map (fun q => { q with pb := edge }), fill') ∧
        fill' = { fill with pts := fill.pts ++ todo.flatMap fun q => q.pts ++ [last] } ∧ fill'.pts.getLast? = some last := by
  intro todo
  induction todo with
  | nil => intro edges fill h; exact ⟨fill, by simp [fillInside], by simp, h⟩
  | cons q todo ih =>
    intro edges fill h
    obtain ⟨f', h1, h2, h3⟩ := ih (edges ++ ps.map fun q => { q with pb := edge })
      { fill with pts := fill.pts ++ (q.pts ++ [last]) } (by simp)
    refine ⟨f', ?_, ?_, h3⟩
    · simp only [fillInside, Path.extend, if_true, h, h1]
      simp
    · rw [h2]; simp

theorem pathsFill_eq (cfg : DCfg) (edge : PenBrush) (last : Pt ℝ) (m : Mat3 ℝ) :
    ∀ (inside : List Elem) (pss : List (List Path)), List.Forall₂ (fun e ps => drawn cfg e m = .ok ps) inside pss →
      ∀ (s : TState) (edges : List Path) (fill : Path), s.mat = m → fill.pts.getLast? = some last →
        (pathsFill cfg edge inside s (edges, fill)).2 =
          .ok (edges ++ (pss.flatMap fun ps => ps.flatMap fun _ => ps).map (fun q => { q with pb := edge }),
            { fill with pts := fill.pts ++ fillTail last pss }) := by
  intro inside pss h
  induction h with
  | nil => intro s edges fill _ _; simp [pathsFill, fillTail]
  | @cons e ps inside pss he _ ih =>
    intro s edges fill hs hl
    rw [pathsFill]
    have h1 := (paths_keeps cfg e s).1
    have h2 := drawn_push cfg e s
    obtain ⟨a, r, ha⟩ := pair_cases (paths cfg e s)
    rw [ha] at h1 h2 ⊢
    simp only at h1 h2
    rw [hs, he] at h2
    subst h2
    obtain ⟨f', e1, e2, e3⟩ := fillInside_eq edge ps last ps edges fill hl
    simp only [e1]
    rw [ih a _ f' (h1.trans hs) e3, e2]
    simp [fillTail]

theorem pathsEdge_eq (cfg : DCfg) (edge : PenBrush) (m : Mat3 ℝ) :
    ∀ (inside : List Elem) (pss : List (List Path)), List.Forall₂ (fun e ps => drawn cfg e m = .ok ps) inside pss →
      ∀ (s : TState) (edges : List Path), s.mat = m →
        (pathsEdge cfg edge inside s edges).2 = .ok (edges ++ pss.flatten.map fun q => { q with pb := edge }) := by
  intro inside pss h
  induction h with
  | nil => intro s edges _; simp [pathsEdge]
  | @cons e ps inside pss he _ ih =>
    intro s edges hs
    rw [pathsEdge]
    have h1 := (paths_keeps cfg e s).1
    have h2 := drawn_push cfg e s
    obtain ⟨a, r, ha⟩ := pair_cases (paths cfg e s)
    rw [ha] at h1 h2 ⊢
    simp only at h1 h2
    rw [hs, he] at h2
    subst h2
    simp only
    rw [ih a _ (h1.trans hs)]
    simp

theorem drawn_holes_filled (cfg : DCfg) (h : Hdr) (o : Elem) (inside : List Elem) (m : Mat3 ℝ) (b : Brush) (po : Path)
    (last : Pt ℝ) (pss : List (List Path)) (hb : h.pb.brush = some b) (ho : drawn cfg o (m.mul h.xf) = .ok [po])
    (hl : po.pts.getLast? = some last)
    (hi : List.Forall₂ (fun e ps => drawn cfg e (m.mul h.xf) = .ok ps) inside pss) :
    drawn cfg (.holes h o inside) m = .ok (⟨⟨none, some b⟩, po.closed, po.pts ++ fillTail last pss⟩ ::
      (po :: pss.flatMap fun ps => ps.flatMap fun _ => ps).map fun q => { q with pb := ⟨h.pb.pen, none⟩ }) := by
  simp only [drawn, paths_holes, drawSpace_eq (holesBody_keeps cfg h o inside), holesBody, TState.push, TState.compose]
  have h1 := (paths_keeps cfg o ⟨m.mul h.xf, none, [m]⟩).1
  have h2 := drawn_push cfg o ⟨m.mul h.xf, none, [m]⟩
  obtain ⟨a, r, ha⟩ := pair_cases (paths cfg o ⟨m.mul h.xf, none, [m]⟩)
  rw [ha] at h1 h2 ⊢
  simp only [ho] at h1 h2
  subst h2
  simp only [hb]
  have h3 := pathsFill_eq cfg ⟨h.pb.pen, none⟩ last (m.mul h.xf) inside pss hi a [{ po with pb := ⟨h.pb.pen, none⟩ }]
    ⟨⟨none, some b⟩, po.closed, po.pts⟩ h1 hl
  obtain ⟨c, t, hc⟩ := pair_cases (pathsFill cfg ⟨h.pb.pen, none⟩ inside a ([{ po with pb := ⟨h.pb.pen, none⟩ }],
    ⟨⟨none, some b⟩, po.closed, po.pts⟩))
  rw [hc] at h3 ⊢
  simp only at h3
  subst h3
  simp

theorem drawn_holes_edge (cfg : DCfg) (h : Hdr) (o : Elem) (inside : List Elem) (m : Mat3 ℝ) (po : Path)
    (pss : List (List Path)) (hb : h.pb.brush = none) (ho : drawn cfg o (m.mul h.xf) = .ok [po])
    (hi : List.Forall₂ (fun e ps => drawn cfg e (m.mul h.xf) = .ok ps) inside pss) :
    drawn cfg (.holes h o inside) m = .ok ((po :: pss.flatten).map fun q => { q with pb := ⟨h.pb.pen, none⟩ }) := by
  simp only [drawn, paths_holes, drawSpace_eq (holesBody_keeps cfg h o inside), holesBody, TState.push, TState.compose]
  have h1 := (paths_keeps cfg o ⟨m.mul h.xf, none, [m]⟩).1
  have h2 := drawn_push cfg o ⟨m.mul h.xf, none, [m]⟩
  obtain ⟨a, r, ha⟩ := pair_cases (paths cfg o ⟨m.mul h.xf, none, [m]⟩)
  rw [ha] at h1 h2 ⊢
  simp only [ho] at h1 h2
  subst h2
  simp only [hb]
  rw [pathsEdge_eq cfg _ (m.mul h.xf) inside pss hi a _ h1]
  simp

theorem drawn_holes_bad (cfg : DCfg) (h : Hdr) (o : Elem) (inside : List Elem) (m : Mat3 ℝ) (ps : List Path)
    (ho : drawn cfg o (m.mul h.xf) = .ok ps) (hl : ps.length ≠ 1) :
    drawn cfg (.holes h o inside) m = .error .assertion := by
  simp only [drawn, paths_holes, drawSpace_eq (holesBody_keeps cfg h o inside), holesBody, TState.push, TState.compose]
  have h2 := drawn_push cfg o ⟨m.mul h.xf, none, [m]⟩
  obtain ⟨a, r, ha⟩ := pair_cases (paths cfg o ⟨m.mul h.xf, none, [m]⟩)
  rw [ha] at h2 ⊢
  simp only [ho] at h2
  subst h2
  match ps, hl with
  | [], _ => rfl
  | [_], hl => exact absurd rfl hl
  | _ :: _ :: _, _ => rfl

end X7.Elem
