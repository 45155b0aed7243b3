import Verif.Lemmas.Draw
import Verif.Props.ElemBBox

/-!
C69: `draw` puts the paths of an element on the canvas, in order, with the pens and brushes it was given.
-/

namespace X7.Elem

theorem drawRest_keeps (cfg : DrawCfg) (e : Elem) (s : TState) :
    (drawRest cfg e s).st.mat = s.mat ∧ (drawRest cfg e s).st.stack = s.stack := by
  have h := paths_keeps cfg.toDCfg e s
  unfold drawRest
  split <;> rename_i h1 <;> rw [h1] at h <;> exact h

theorem drawControl_keeps (e : Elem) (s : TState) :
    (drawControl e s).st.mat = s.mat ∧ (drawControl e s).st.stack = s.stack := by
  have h := controlPaths_keeps e s
  unfold drawControl
  split <;> rename_i h1 <;> rw [h1] at h <;> exact h

/-- C69: `draw` leaves the matrix and the stack of the context as found, whether it returns or raises. -/
theorem C69_keeps (cfg : DrawCfg) (e : Elem) (s : TState) :
    (draw cfg e s).st.mat = s.mat ∧ (draw cfg e s).st.stack = s.stack := by
  unfold draw
  split
  · dsimp only
    split
    · exact drawControl_keeps e s
    · have h1 := drawRest_keeps cfg e (drawControl e s).st
      have h2 := drawControl_keeps e s
      exact ⟨h1.1.trans h2.1, h1.2.trans h2.2⟩
  · exact drawRest_keeps cfg e s

theorem drawRest_spec (cfg : DrawCfg) (hs : cfg.showall = false) (e : Elem) (s : TState) (ps : List Path)
    (hp : (paths cfg.toDCfg e s).2 = .ok ps)
    (hne : ∀ p ∈ ps, p.pb.pen.isSome → p.pb.brush.isSome → p.pts ≠ []) :
    ∃ opss, (drawRest cfg e s).ops = opss.flatten ∧ (drawRest cfg e s).err = none ∧
      List.Forall₂ (fun p ops => ∃ a d, ops = a ++ d ∧
        Paints cfg.prod cfg.shadowColor s.mat p a ∧ IsDots cfg.debug cfg.prod s.mat p d) ps opss := by
  have h := paths_keeps cfg.toDCfg e s
  obtain ⟨s1, r, h1⟩ := pair_cases (paths cfg.toDCfg e s)
  rw [h1] at h hp
  simp only at h hp
  subst hp
  obtain ⟨opss, h2, h3⟩ := drawPaths_spec cfg hs s1 ps hne
  rw [h.1] at h3
  exact ⟨opss, by simp [drawRest, h1, h2], by simp [drawRest, h1, h2], h3⟩

/-- C69: `draw` issues, for the paths of the element in their order, what each path becomes on the canvas, followed by the dots
of debugging mode, and nothing else (control points not shown). Widths are measured with the matrix of the context. -/
theorem C69_ops (cfg : DrawCfg) (hc : cfg.showCps = false) (hs : cfg.showall = false) (e : Elem) (s : TState) (ps : List Path)
    (hp : (paths cfg.toDCfg e s).2 = .ok ps)
    (hne : ∀ p ∈ ps, p.pb.pen.isSome → p.pb.brush.isSome → p.pts ≠ []) :
    ∃ opss, (draw cfg e s).ops = opss.flatten ∧ (draw cfg e s).err = none ∧
      List.Forall₂ (fun p ops => ∃ a d, ops = a ++ d ∧
        Paints cfg.prod cfg.shadowColor s.mat p a ∧ IsDots cfg.debug cfg.prod s.mat p d) ps opss := by
  have : draw cfg e s = drawRest cfg e s := by simp [draw, hc]
  rw [this]
  exact drawRest_spec cfg hs e s ps hp hne

theorem isWidth_unique {prod : Bool} {m : Mat3 ℝ} {pen : Pen} {v w : ℤ} (hv : IsWidth prod m pen v) (hw : IsWidth prod m pen w) :
    v = w := by
  unfold IsWidth at hv hw
  split_ifs at hv hw
  · obtain ⟨a, ha, rfl⟩ := hv
    obtain ⟨b, hb, rfl⟩ := hw
    rw [isRound_unique ha hb]
  · rw [hv, hw]

/-- C69: what a path becomes is determined: one outcome for every path (but no outcome for an empty path with pen and brush). -/
theorem C69_determined (prod debug : Bool) (shadow : Option Color) (m : Mat3 ℝ) (p : Path) (a b d d' : List DrawOp)
    (ha : Paints prod shadow m p a) (hb : Paints prod shadow m p b) (hd : IsDots debug prod m p d)
    (hd' : IsDots debug prod m p d') : a ++ d = b ++ d' := by
  have h1 : a = b := by
    cases ha with
    | stroke pen closed pts w hw =>
      cases hb with
      | stroke _ _ _ w' hw' => rw [isWidth_unique hw hw']
    | fill => cases hb; rfl
    | both pen b closed p pts w hw =>
      cases hb with
      | both _ _ _ _ _ w' hw' => rw [isWidth_unique hw hw']
    | neither => cases hb; rfl
  have h2 : d = d' := by
    unfold IsDots at hd hd'
    split at hd
    · rename_i pen hpen
      simp only [hpen] at hd'
      obtain ⟨n, hn, rfl⟩ := hd
      obtain ⟨n', hn', rfl⟩ := hd'
      rw [isRound_unique hn hn']
    · rename_i hx
      split at hd'
      · rename_i pen hpen
        exact (hx _ rfl hpen).elim
      · rw [hd, hd']
  rw [h1, h2]

/-- C69: with the control points shown, their markers come first: for each control point the two handles as grey lines, a knob at
the end of each, a square at the point; for each corner of a rectangle a square. -/
theorem C69_ops_cps (cfg : DrawCfg) (hc : cfg.showCps = true) (hs : cfg.showall = false) (e : Elem) (s : TState)
    (ps : List Path) (cs : List (List CEntry)) (hcs : (controlPaths e s).2 = .ok cs)
    (hp : (paths cfg.toDCfg e s).2 = .ok ps)
    (hne : ∀ p ∈ ps, p.pb.pen.isSome → p.pb.brush.isSome → p.pts ≠ []) :
    ∃ opss, (draw cfg e s).ops = (cs.flatten.flatMap fun c => match c with
        | .pt p => [marker p]
        | .cp c => [.line [c.c, c.l] (some (.name "grey")) 0 false, .line [c.c, c.r] (some (.name "grey")) 0 false,
            knob c.l, knob c.r, marker c.c]) ++ opss.flatten ∧
      (draw cfg e s).err = none ∧
      List.Forall₂ (fun p ops => ∃ a d, ops = a ++ d ∧
        Paints cfg.prod cfg.shadowColor s.mat p a ∧ IsDots cfg.debug cfg.prod s.mat p d) ps opss := by
  have h := controlPaths_keeps e s
  obtain ⟨s1, r, h1⟩ := pair_cases (controlPaths e s)
  rw [h1] at h hcs
  simp only at h hcs
  subst hcs
  have hp1 : (paths cfg.toDCfg e s1).2 = .ok ps := by rw [drawn_push, h.1, ← drawn_push]; exact hp
  obtain ⟨opss, h2, h3, h4⟩ := drawRest_spec cfg hs e s1 ps hp1 hne
  rw [h.1] at h4
  refine ⟨opss, ?_, ?_, h4⟩
  · simp only [draw, hc, if_true, drawControl, h1, h2]
    congr 1
    apply congrFun
    congr 1
    funext c
    cases c <;> rfl
  · simp only [draw, hc, if_true, drawControl, h1, h3]

/-- C69: a hidden group puts nothing on the canvas and does not touch the context. -/
theorem C69_hidden (cfg : DrawCfg) (h : Hdr) (es : List (Str × Elem)) (s : TState) :
    draw cfg (.group h true es) s = ⟨s, [], none⟩ := by
  simp [draw, drawRest, drawControl, paths, controlPaths, drawPaths]

/-- C69: if some part of the element fails to produce its paths, the exception comes out and nothing at all has been put on the
canvas (control points not shown). -/
theorem C69_fail (cfg : DrawCfg) (hc : cfg.showCps = false) (e : Elem) (s : TState) (er : PyErr)
    (hp : (paths cfg.toDCfg e s).2 = .error er) : (draw cfg e s).ops = [] ∧ (draw cfg e s).err = some er := by
  obtain ⟨s1, r, h1⟩ := pair_cases (paths cfg.toDCfg e s)
  rw [h1] at hp
  simp only at hp
  subst hp
  simp [draw, hc, drawRest, h1]

/-- C69: every line along a path is at least one pixel wide, in draft mode exactly one. -/
theorem C69_width (cfg : DrawCfg) (hc : cfg.showCps = false) (hs : cfg.showall = false) (e : Elem) (s : TState) (ps : List Path)
    (hp : (paths cfg.toDCfg e s).2 = .ok ps) (hne : ∀ p ∈ ps, p.pb.pen.isSome → p.pb.brush.isSome → p.pts ≠ [])
    (pts : List (Pt ℝ)) (c : Option Color) (w : ℤ) (j : Bool) (h : DrawOp.line pts c w j ∈ (draw cfg e s).ops) :
    1 ≤ w ∧ (cfg.prod = false → w = 1) := by
  obtain ⟨opss, h1, _, h2⟩ := C69_ops cfg hc hs e s ps hp hne
  rw [h1, List.mem_flatten] at h
  obtain ⟨ops, ho, h⟩ := h
  clear h1 hp hne
  induction h2 with
  | nil => simp at ho
  | cons hx _ ih =>
    rw [List.mem_cons] at ho
    rcases ho with rfl | ho
    · obtain ⟨a, d, rfl, hx1, hx2⟩ := hx
      have hd : ∀ o ∈ d, ∃ p q a b, o = DrawOp.ellipse p q a b := by
        unfold IsDots at hx2
        split at hx2
        · obtain ⟨n, _, rfl⟩ := hx2
          intro o ho
          split at ho
          · obtain ⟨q, _, rfl⟩ := List.mem_map.1 ho
            exact ⟨_, _, _, _, rfl⟩
          · simp at ho
        · subst hx2; simp
      have hw : ∀ (pen : Pen) (w : ℤ), IsWidth cfg.prod s.mat pen w → 1 ≤ w ∧ (cfg.prod = false → w = 1) := by
        intro pen w hw
        unfold IsWidth at hw
        split_ifs at hw with hprod
        · obtain ⟨n, _, rfl⟩ := hw
          exact ⟨le_max_left _ _, fun h => by simp [h] at hprod⟩
        · exact ⟨by omega, fun _ => hw⟩
      rw [List.mem_append] at h
      rcases h with h | h
      · cases hx1 with
        | stroke pen closed pts w hw' =>
          simp only [List.mem_singleton, DrawOp.line.injEq] at h
          obtain ⟨_, _, rfl, _⟩ := h
          exact hw pen _ hw'
        | fill => simp at h
        | both pen b closed p pts w hw' =>
          simp only [List.mem_cons, List.not_mem_nil, or_false, reduceCtorEq, false_or, DrawOp.line.injEq] at h
          obtain ⟨_, _, rfl, _⟩ := h
          exact hw pen _ hw'
        | neither =>
          simp only [List.mem_singleton, DrawOp.line.injEq] at h
          obtain ⟨_, _, rfl, _⟩ := h
          simp
      · obtain ⟨_, _, _, _, h⟩ := hd _ h
        cases h
    · exact ih ho

/-- Every operation of a drawing without control points comes from one path. -/
theorem mem_draw_ops (cfg : DrawCfg) (hc : cfg.showCps = false) (hs : cfg.showall = false) (e : Elem) (s : TState) (ps : List Path)
    (hp : (paths cfg.toDCfg e s).2 = .ok ps) (hne : ∀ p ∈ ps, p.pb.pen.isSome → p.pb.brush.isSome → p.pts ≠ [])
    (o : DrawOp) (h : o ∈ (draw cfg e s).ops) : ∃ p ∈ ps,
      (∃ a, Paints cfg.prod cfg.shadowColor s.mat p a ∧ o ∈ a) ∨ (∃ d, IsDots cfg.debug cfg.prod s.mat p d ∧ o ∈ d) := by
  obtain ⟨opss, h1, _, h2⟩ := C69_ops cfg hc hs e s ps hp hne
  rw [h1, List.mem_flatten] at h
  obtain ⟨ops, ho, h⟩ := h
  clear h1 hp hne
  induction h2 with
  | nil => simp at ho
  | cons hx _ ih =>
    rw [List.mem_cons] at ho
    rcases ho with rfl | ho
    · obtain ⟨a, d, rfl, hx1, hx2⟩ := hx
      refine ⟨_, List.mem_cons_self, ?_⟩
      rcases List.mem_append.1 h with h | h
      · exact .inl ⟨a, hx1, h⟩
      · exact .inr ⟨d, hx2, h⟩
    · obtain ⟨p, hp, h⟩ := ih ho
      exact ⟨p, List.mem_cons_of_mem _ hp, h⟩

theorem dots_ellipse {debug prod : Bool} {m : Mat3 ℝ} {p : Path} {d : List DrawOp} (h : IsDots debug prod m p d) :
    ∀ o ∈ d, ∃ p q a b, o = DrawOp.ellipse p q a b := by
  unfold IsDots at h
  split at h
  · obtain ⟨n, _, rfl⟩ := h
    intro o ho
    split at ho
    · obtain ⟨q, _, rfl⟩ := List.mem_map.1 ho
      exact ⟨_, _, _, _, rfl⟩
    · simp at ho
  · subst h; simp

/-- C69: while a shadow is drawn every area is in the shadow colour, except that transparent areas stay transparent. -/
theorem C69_shadow (cfg : DrawCfg) (hc : cfg.showCps = false) (hs : cfg.showall = false) (c : Color)
    (hsh : cfg.shadowColor = some c) (hct : c.truthy = true) (e : Elem) (s : TState) (ps : List Path)
    (hp : (paths cfg.toDCfg e s).2 = .ok ps) (hne : ∀ p ∈ ps, p.pb.pen.isSome → p.pb.brush.isSome → p.pts ≠ [])
    (pts : List (Pt ℝ)) (f : Option Color) (h : DrawOp.polygon pts f ∈ (draw cfg e s).ops) :
    ∃ p ∈ ps, ∃ b : Brush, p.pb.brush = some b ∧ p.pts = pts ∧
      ((b.color = .tup [0, 0, 0, 0] ∧ f = some (.tup [0, 0, 0, 0])) ∨ (b.color ≠ .tup [0, 0, 0, 0] ∧ f = some c)) := by
  obtain ⟨p, hpp, h | h⟩ := mem_draw_ops cfg hc hs e s ps hp hne _ h
  · obtain ⟨a, ha, hm⟩ := h
    have key : ∀ b : Brush, (b.color = .tup [0, 0, 0, 0] ∧ some (areaColor cfg.shadowColor b.color) = some (.tup [0, 0, 0, 0])) ∨
        (b.color ≠ .tup [0, 0, 0, 0] ∧ some (areaColor cfg.shadowColor b.color) = some c) := by
      intro b
      by_cases hb : b.color = .tup [0, 0, 0, 0] <;> simp [areaColor, hsh, hct, hb]
    cases ha with
    | stroke => simp at hm
    | fill b closed pts =>
      simp only [List.mem_singleton, DrawOp.polygon.injEq] at hm
      obtain ⟨rfl, rfl⟩ := hm
      exact ⟨_, hpp, b, rfl, rfl, key b⟩
    | both pen b closed q pts w hw =>
      simp only [List.mem_cons, List.not_mem_nil, or_false, reduceCtorEq, DrawOp.polygon.injEq] at hm
      obtain ⟨rfl, rfl⟩ := hm
      exact ⟨_, hpp, b, rfl, rfl, key b⟩
    | neither => simp at hm
  · obtain ⟨d, hd, hm⟩ := h
    obtain ⟨_, _, _, _, h⟩ := dots_ellipse hd _ hm
    cases h

/-- C69: every area and every line drawn has its points inside the image of the bounding box of the element under the matrix of
the context. -/
theorem C69_bbox (cfg : DrawCfg) (hc : cfg.showCps = false) (hs : cfg.showall = false) (e : Elem) (hso : e.Sound) (b : BBox ℝ)
    (hb : e.bbox = .ok b) (s : TState) (ps : List Path) (hp : (paths cfg.toDCfg e s).2 = .ok ps)
    (hne : ∀ p ∈ ps, p.pb.pen.isSome → p.pb.brush.isSome → p.pts ≠ []) (pts : List (Pt ℝ))
    (h : (∃ f, DrawOp.polygon pts f ∈ (draw cfg e s).ops) ∨ ∃ f w j, DrawOp.line pts f w j ∈ (draw cfg e s).ops) :
    ∀ q ∈ pts, ∃ q0 ∈ b.Region, q = s.mat.apply q0 := by
  have key : ∃ p ∈ ps, ∀ q ∈ pts, q ∈ p.pts := by
    rcases h with ⟨f, h⟩ | ⟨f, w, j, h⟩
    all_goals
      obtain ⟨p, hpp, h | h⟩ := mem_draw_ops cfg hc hs e s ps hp hne _ h
      · obtain ⟨a, ha, hm⟩ := h
        refine ⟨p, hpp, ?_⟩
        cases ha <;> simp at hm
        all_goals
          obtain ⟨rfl, _⟩ := hm
          intro q hq
          simp only [List.mem_cons, List.mem_append, List.not_mem_nil, or_false] at hq ⊢
          tauto
      · obtain ⟨d, hd, hm⟩ := h
        obtain ⟨_, _, _, _, h⟩ := dots_ellipse hd _ hm
        cases h
  obtain ⟨p, hpp, hq⟩ := key
  intro q hq'
  exact C39_bbox_context cfg.toDCfg e hso b hb s ps hp p hpp q (hq q hq')

/-! ### Groups -/

theorem drawPaths_append (cfg : DrawCfg) (m : TState) (ps qs : List Path) (a : List DrawOp)
    (h : drawPaths cfg m ps = (a, none)) : drawPaths cfg m (ps ++ qs) = (a ++ (drawPaths cfg m qs).1, (drawPaths cfg m qs).2) := by
  induction ps generalizing a with
  | nil =>
    simp only [drawPaths, Prod.mk.injEq] at h
    obtain ⟨rfl, _⟩ := h
    rfl
  | cons p ps ih =>
    simp only [List.cons_append, drawPaths] at h ⊢
    split at h
    · simp at h
    · rename_i ops hx
      simp only [Prod.mk.injEq] at h
      obtain ⟨rfl, h2⟩ := h
      rw [ih _ (Prod.ext rfl h2)]
      simp

/-- Pens with a positive width do not see the matrix. -/
theorem drawPath_positive (cfg : DrawCfg) (m m' : TState) (p : Path) (h : ∀ pen, p.pb.pen = some pen → 0 < pen.width) :
    drawPath cfg m p = drawPath cfg m' p := by
  have h1 : p.pb.strokeWidth m = p.pb.strokeWidth m' := by
    unfold PenBrush.strokeWidth
    cases hp : p.pb.pen with
    | none => rfl
    | some pen => simp [h pen hp]
  simp only [drawPath, lineWidth, afterPath, pathDebug, h1]

theorem drawPaths_positive (cfg : DrawCfg) (m m' : TState) (ps : List Path)
    (h : ∀ p ∈ ps, ∀ pen, p.pb.pen = some pen → 0 < pen.width) : drawPaths cfg m ps = drawPaths cfg m' ps := by
  induction ps with
  | nil => rfl
  | cons p ps ih =>
    simp only [drawPaths]
    rw [drawPath_positive cfg m m' p (h p (by simp)), ih fun q hq => h q (by simp [hq])]

theorem fillInside_pb (edge : PenBrush) (ps : List Path) : ∀ (l edges : List Path) (fill : Path) (r : List Path × Path),
    (∀ q ∈ edges, q.pb = edge) → fillInside edge ps l (edges, fill) = .ok r → (∀ q ∈ r.1, q.pb = edge) ∧ r.2.pb = fill.pb := by
  intro l
  induction l with
  | nil => intro edges fill r h1 h2; cases h2; exact ⟨h1, rfl⟩
  | cons p l ih =>
    intro edges fill r h1 h2
    rw [fillInside] at h2
    split at h2
    · rename_i fill' hf
      have hpb : fill'.pb = fill.pb := by
        simp only [Path.extend, if_true] at hf
        split at hf
        · cases hf
        · cases hf; rfl
      have := ih _ fill' r (by
        intro q hq
        rcases List.mem_append.1 hq with hq | hq
        · exact h1 q hq
        · obtain ⟨x, _, rfl⟩ := List.mem_map.1 hq
          rfl) h2
      exact ⟨this.1, this.2.trans hpb⟩
    · cases h2

theorem pathsFill_pb (cfg : DCfg) (edge : PenBrush) : ∀ (es : List Elem) (s : TState) (edges : List Path) (fill : Path)
    (s' : TState) (r : List Path × Path), (∀ q ∈ edges, q.pb = edge) → pathsFill cfg edge es s (edges, fill) = (s', .ok r) →
    (∀ q ∈ r.1, q.pb = edge) ∧ r.2.pb = fill.pb := by
  intro es
  induction es with
  | nil => intro s edges fill s' r h1 h2; rw [pathsFill] at h2; cases h2; exact ⟨h1, rfl⟩
  | cons e es ih =>
    intro s edges fill s' r h1 h2
    rw [pathsFill] at h2
    split at h2
    · cases h2
    · split at h2
      · cases h2
      · rename_i ps _ acc hacc
        obtain ⟨a1, a2⟩ := acc
        have h3 := fillInside_pb edge _ _ edges fill _ h1 hacc
        have h4 := ih _ _ _ _ _ h3.1 h2
        exact ⟨h4.1, h4.2.trans h3.2⟩

theorem pathsEdge_pb (cfg : DCfg) (edge : PenBrush) : ∀ (es : List Elem) (s : TState) (edges : List Path)
    (s' : TState) (r : List Path), (∀ q ∈ edges, q.pb = edge) → pathsEdge cfg edge es s edges = (s', .ok r) →
    ∀ q ∈ r, q.pb = edge := by
  intro es
  induction es with
  | nil => intro s edges s' r h1 h2; rw [pathsEdge] at h2; cases h2; exact h1
  | cons e es ih =>
    intro s edges s' r h1 h2
    rw [pathsEdge] at h2
    split at h2
    · cases h2
    · refine ih _ _ _ _ ?_ h2
      intro q hq
      rcases List.mem_append.1 hq with hq | hq
      · exact h1 q hq
      · obtain ⟨x, _, rfl⟩ := List.mem_map.1 hq
        rfl

theorem holes_pens (cfg : DCfg) (h : Hdr) (o : Elem) (i : List Elem) (s : TState) (ps : List Path)
    (hp : (holesBody cfg h o i s).2 = .ok ps) : ∀ p ∈ ps, ∀ pen, p.pb.pen = some pen → h.pb.pen = some pen := by
  unfold holesBody at hp
  split at hp
  · cases hp
  · split at hp
    · dsimp only at hp
      split at hp
      · split at hp
        · rename_i hx
          cases hp
          have h1 := pathsFill_pb cfg _ _ _ _ _ _ _ (by
            intro q hq
            rw [List.mem_singleton] at hq
            subst hq
            rfl) hx
          intro p hpp pen hpen
          rcases List.mem_cons.1 hpp with rfl | hpp
          · rw [h1.2] at hpen; cases hpen
          · rw [h1.1 p hpp] at hpen; exact hpen
        · cases hp
      · rename_i hx
        obtain ⟨s2, r, h2⟩ := pair_cases (pathsEdge cfg ⟨h.pb.pen, none⟩ i _ _)
        rw [h2] at hp
        simp only at hp
        subst hp
        have h1 := pathsEdge_pb cfg _ _ _ _ _ _ (by
            intro q hq
            rw [List.mem_singleton] at hq
            subst hq
            rfl) h2
        intro p hpp pen hpen
        rw [h1 p hpp] at hpen; exact hpen
    · cases hp

theorem basic_pens (cfg : DCfg) (P : Pen → Prop) (e : Elem) (he : e.Basic) (m : Mat3 ℝ) (ps : List Path)
    (hP : ∀ pen, e.hdr.pb.pen = some pen → P pen) (hd : drawn cfg e m = .ok ps) :
    ∀ p ∈ ps, ∀ pen, p.pb.pen = some pen → P pen := by
  rw [drawn_basic cfg e he] at hd
  cases ho : outline cfg e with
  | error er => rw [ho] at hd; cases hd
  | ok pts =>
    rw [ho] at hd
    cases hd
    intro p hp pen hpen
    rw [List.mem_singleton] at hp
    subst hp
    exact hP pen hpen

mutual
theorem drawn_pens (cfg : DCfg) (P : Pen → Prop) : (e : Elem) → (m : Mat3 ℝ) → (ps : List Path) → Pens P e → drawn cfg e m = .ok ps →
    ∀ p ∈ ps, ∀ pen, p.pb.pen = some pen → P pen
  | .curve h cps, m, ps, hP, hd => basic_pens cfg P (.curve h cps) trivial m ps hP hd
  | .rect h x y, m, ps, hP, hd => basic_pens cfg P (.rect h x y) trivial m ps hP hd
  | .rrect h x y z, m, ps, hP, hd => basic_pens cfg P (.rrect h x y z) trivial m ps hP hd
  | .ellipse h x y, m, ps, hP, hd => basic_pens cfg P (.ellipse h x y) trivial m ps hP hd
  | .group h hidden es, m, ps, hP, hd => by
    cases hidden with
    | true => rw [drawn_hidden] at hd; cases hd; simp
    | false =>
      rw [drawn_group] at hd
      cases hx : es.mapM fun x => drawn cfg x.2 (m.mul h.xf) with
      | error er => rw [hx] at hd; cases hd
      | ok pss =>
        rw [hx] at hd
        cases hd
        intro p hp pen hpen
        obtain ⟨qs, hq, hp⟩ := List.mem_flatten.1 hp
        exact drawn_pensAll cfg P es (m.mul h.xf) pss hP hx qs hq p hp pen hpen
  | .holes h o i, m, ps, hP, hd => by
    intro p hp pen hpen
    refine hP pen ?_
    unfold drawn at hd
    rw [paths_holes, drawSpace_eq (holesBody_keeps cfg h o i)] at hd
    exact holes_pens cfg h o i _ ps hd p hp pen hpen
theorem drawn_pensAll (cfg : DCfg) (P : Pen → Prop) : (es : List (Str × Elem)) → (m : Mat3 ℝ) → (pss : List (List Path)) →
    PensAll P es → (es.mapM fun x => drawn cfg x.2 m) = .ok pss → ∀ ps ∈ pss, ∀ p ∈ ps, ∀ pen, p.pb.pen = some pen → P pen
  | [], m, pss, _, hd => by cases hd; simp
  | (k, e) :: es, m, pss, hP, hd => by
    rw [List.mapM_cons] at hd
    cases h1 : drawn cfg e m with
    | error er => simp only [h1] at hd; cases hd
    | ok qs =>
      cases h2 : es.mapM fun x => drawn cfg x.2 m with
      | error er => simp only [h1, h2] at hd; cases hd
      | ok qss =>
        simp only [h1, h2] at hd
        cases hd
        intro ps hps
        rcases List.mem_cons.1 hps with rfl | hps
        · exact drawn_pens cfg P e m _ hP.1 h1
        · exact drawn_pensAll cfg P es m qss hP.2 h2 ps hps
end

/-- C69: drawing a group is drawing its elements one after the other under the matrix composed with the transform of the group,
provided all pens have their width in pixels. (Control points not shown: they would all be drawn before the first path.) -/
theorem C69_group (cfg : DrawCfg) (hc : cfg.showCps = false) (h : Hdr) (es : List (Str × Elem)) (s : TState)
    (hpos : Pens (fun pen => 0 < pen.width) (.group h false es)) (opss : List (List DrawOp))
    (hd : List.Forall₂ (fun x ops => (draw cfg x.2 ⟨s.mat.mul h.xf, none, []⟩).ops = ops ∧
      (draw cfg x.2 ⟨s.mat.mul h.xf, none, []⟩).err = none) es opss) :
    (draw cfg (.group h false es) s).ops = opss.flatten ∧ (draw cfg (.group h false es) s).err = none := by
  have hdr : ∀ (e : Elem) (t : TState), draw cfg e t = drawRest cfg e t := fun e t => by simp [draw, hc]
  set n : TState := ⟨s.mat.mul h.xf, none, []⟩ with hn
  have hone : ∀ (e : Elem) (t : TState), (drawRest cfg e t).err = none → ∃ ps, drawn cfg.toDCfg e t.mat = .ok ps ∧
      ∃ t', drawPaths cfg t' ps = ((drawRest cfg e t).ops, none) := by
    intro e t ht
    have h0 := drawn_push cfg.toDCfg e t
    obtain ⟨t1, r, h1⟩ := pair_cases (paths cfg.toDCfg e t)
    rw [h1] at h0
    simp only at h0
    subst h0
    cases hr : drawn cfg.toDCfg e t.mat with
    | error er => rw [hr] at h1; simp [drawRest, h1] at ht
    | ok ps =>
      rw [hr] at h1
      refine ⟨ps, rfl, t1, ?_⟩
      simp only [drawRest, h1] at ht ⊢
      exact Prod.ext rfl ht
  have hall : ∃ pss, (es.mapM fun x => drawn cfg.toDCfg x.2 (s.mat.mul h.xf)) = .ok pss ∧
      drawPaths cfg s pss.flatten = (opss.flatten, none) := by
    have hP : PensAll (fun pen => 0 < pen.width) es := hpos
    clear hpos
    induction hd with
    | nil => exact ⟨[], rfl, rfl⟩
    | @cons x ops es opss hx _ ih =>
      obtain ⟨k, e⟩ := x
      obtain ⟨pss, h1, h2⟩ := ih hP.2
      rw [hdr] at hx
      obtain ⟨ps, h3, t', h4⟩ := hone e n hx.2
      refine ⟨ps :: pss, ?_, ?_⟩
      · rw [List.mapM_cons]
        simp only at h3 ⊢
        rw [show drawn cfg.toDCfg e (s.mat.mul h.xf) = .ok ps from h3, h1]
        rfl
      · rw [drawPaths_positive cfg t' s ps (drawn_pens cfg.toDCfg _ e _ ps hP.1 h3), hx.1] at h4
        rw [List.flatten_cons, drawPaths_append cfg s ps _ ops h4, h2, List.flatten_cons]
  obtain ⟨pss, h1, h2⟩ := hall
  have h3 : (paths cfg.toDCfg (.group h false es) s).2 = .ok pss.flatten := by
    rw [drawn_push, drawn_group, h1]; rfl
  have h5 := paths_keeps cfg.toDCfg (.group h false es) s
  obtain ⟨t1, r, h4⟩ := pair_cases (paths cfg.toDCfg (.group h false es) s)
  rw [h4] at h3 h5
  simp only at h3 h5
  subst h3
  have hpp : drawPaths cfg t1 pss.flatten = drawPaths cfg s pss.flatten := drawPaths_positive _ _ _ _ <| by
    intro p hp pen hpen
    obtain ⟨qs, hq, hp⟩ := List.mem_flatten.1 hp
    exact drawn_pensAll cfg.toDCfg _ es _ pss hpos h1 qs hq p hp pen hpen
  rw [hdr]
  simp only [drawRest, h4, hpp, h2, and_self]

/-- C69: a filled shape with holes whose parts draw one path each: one area, covering all parts, and then one line for each part
along it. -/
theorem C69_holes (cfg : DrawCfg) (hc : cfg.showCps = false) (hs : cfg.showall = false) (hdb : cfg.debug = false) (h : Hdr)
    (o : Elem) (inside : List Elem) (s : TState) (b : Brush) (po : Path) (last : Pt ℝ) (ps : List Path) (hb : h.pb.brush = some b)
    (ho : drawn cfg.toDCfg o (s.mat.mul h.xf) = .ok [po]) (hl : po.pts.getLast? = some last)
    (hi : List.Forall₂ (fun e p => drawn cfg.toDCfg e (s.mat.mul h.xf) = .ok [p]) inside ps) :
    ∃ w, (draw cfg (.holes h o inside) s).ops =
      .polygon (po.pts ++ ps.flatMap fun q => q.pts ++ [last]) (some (areaColor cfg.shadowColor b.color)) ::
      (po :: ps).map (fun q => .line q.pts (h.pb.pen.map fun p => p.brush.color) w true) ∧
      (draw cfg (.holes h o inside) s).err = none ∧ (∀ pen, h.pb.pen = some pen → IsWidth cfg.prod s.mat pen w) ∧
      (h.pb.pen = none → w = 1) := by
  have h1 := (C46_holes_simple cfg.toDCfg h o inside s b po last ps hb ho hl hi).1
  obtain ⟨opss, h2, h3, h4⟩ := C69_ops cfg hc hs _ s _ h1 (by
    intro p hp
    rcases List.mem_cons.1 hp with rfl | hp
    · simp
    · obtain ⟨q, _, rfl⟩ := List.mem_map.1 hp
      simp)
  have hdots : ∀ p d, IsDots cfg.debug cfg.prod s.mat p d → d = [] := by
    intro p d hd; rw [hdb] at hd; exact hd
  obtain ⟨w, hw1, hw2⟩ : ∃ w, (∀ pen, h.pb.pen = some pen → IsWidth cfg.prod s.mat pen w) ∧ (h.pb.pen = none → w = 1) := by
    cases hpen : h.pb.pen with
    | none => exact ⟨1, by simp, fun _ => rfl⟩
    | some pen =>
      refine ⟨if cfg.prod then max 1 (pyRound (askedWidth s.mat pen)) else 1, ?_, by simp⟩
      rintro pen' ⟨⟩
      unfold IsWidth
      split_ifs
      · exact ⟨_, isRound_pyRound _, rfl⟩
      · rfl
  refine ⟨w, ?_, h3, hw1, hw2⟩
  rw [h2]
  cases h4 with
  | cons hx hrest =>
    rename_i ops opss
    obtain ⟨a, d, rfl, ha, hd⟩ := hx
    rw [hdots _ _ hd]
    have e1 : a = [.polygon (po.pts ++ ps.flatMap fun q => q.pts ++ [last]) (some (areaColor cfg.shadowColor b.color))] := by
      cases ha; rfl
    rw [e1]
    simp only [List.append_nil, List.flatten_cons, List.singleton_append, List.cons.injEq, true_and]
    clear h1 h2 h3 hi ho ha hd
    generalize po :: ps = l at hrest ⊢
    revert opss
    induction l with
    | nil => intro opss hrest; cases hrest; rfl
    | cons q l ih =>
      intro opss hrest
      rw [List.map_cons] at hrest
      cases hrest with
      | cons hx hrest =>
        obtain ⟨a, d, rfl, ha, hd⟩ := hx
        rw [hdots _ _ hd, List.flatten_cons, ih hrest, List.map_cons]
        have e2 : a = [.line q.pts (h.pb.pen.map fun p => p.brush.color) w true] := by
          obtain ⟨nm, ⟨pen, br⟩, cl, xf⟩ := h
          simp only at ha hw1 hw2 ⊢
          cases pen with
          | none => cases ha; rw [hw2 rfl]; rfl
          | some pen =>
            cases ha with
            | stroke _ _ _ w' hw' => rw [isWidth_unique (hw1 pen rfl) hw']; rfl
        rw [e2]; rfl

/-! ### Control points -/

/-- An entry carried along by a map. -/
noncomputable def moved (f : Pt ℝ → Pt ℝ) : CEntry → CEntry
  | .pt p => .pt (f p)
  | .cp c => .cp (c.transformLin f)

theorem carried_moved (f : Pt ℝ → Pt ℝ) (c : CEntry) : Carried f c (moved f c) := by
  cases c with
  | pt p => rfl
  | cp c => refine ⟨rfl, ?_, ?_, rfl⟩ <;> simp [CP.transformLin, CP.l, CP.r, Pt.addVector, Pt.sub]

/-- What `control_paths` gives for a tree under the matrix `m`. -/
noncomputable def shown (e : Elem) (m : Mat3 ℝ) : Except PyErr (List (List CEntry)) :=
  (shownParts e).mapM fun x => (ownControl x.2).map fun l => l.map (moved ((x.1.foldl Mat3.mul m).mul x.2.hdr.xf).apply)

theorem mapM_map_head (xf : Mat3 ℝ) (l : List (List (Mat3 ℝ) × Elem)) (m : Mat3 ℝ) :
    ((l.map fun x => (xf :: x.1, x.2)).mapM fun x => (ownControl x.2).map fun l =>
      l.map (moved ((x.1.foldl Mat3.mul m).mul x.2.hdr.xf).apply)) =
    l.mapM fun x => (ownControl x.2).map fun l => l.map (moved ((x.1.foldl Mat3.mul (m.mul xf)).mul x.2.hdr.xf).apply) := by
  induction l with
  | nil => rfl
  | cons x l ih => rw [List.map_cons, List.mapM_cons, List.mapM_cons, ih]; rfl

mutual
theorem controlPaths_shown : (e : Elem) → (s : TState) → (controlPaths e s).2 = shown e s.mat
  | .curve h cps, s => by
    simp only [controlPaths, shown, shownParts, List.mapM_cons, List.mapM_nil]
    rw [drawSpace_eq (cpsControl_keeps _)]
    simp only [cpsControl, ownControl, TState.push, TState.compose, Except.map, List.map_map]
    rfl
  | .rect h p1 p2, s => by
    simp only [controlPaths, shown, shownParts, List.mapM_cons, List.mapM_nil]
    rw [drawSpace_eq (rectControl_keeps p1 p2)]
    simp only [rectControl, corners, TState.transformPts, TState.push, TState.compose, ownControl, Except.map]
    rfl
  | .rrect h p1 p2 r, s => by
    simp only [controlPaths, shown, shownParts, List.mapM_cons, List.mapM_nil]
    rw [drawSpace_eq (cpsControl_keeps _)]
    simp only [ownControl]
    cases makeRoundedRect p1 p2 r with
    | error er => rfl
    | ok cps =>
      simp only [cpsControl, TState.push, TState.compose, Except.map, List.map_map]
      rfl
  | .ellipse h p1 p2, s => by
    simp only [controlPaths, shown, shownParts, List.mapM_cons, List.mapM_nil]
    rw [drawSpace_eq (cpsControl_keeps _)]
    simp only [ownControl]
    cases makeEllipseP1P2 p1 p2 with
    | error er => rfl
    | ok cps =>
      simp only [cpsControl, TState.push, TState.compose, Except.map, List.map_map]
      rfl
  | .group h hidden es, s => by
    cases hidden with
    | true => simp only [controlPaths, shown, shownParts, if_true, List.mapM_nil]; rfl
    | false =>
      simp only [controlPaths, shown, shownParts, Bool.false_eq_true, if_false]
      rw [drawSpace_eq (controlPathsAll_keeps es), mapM_map_head]
      exact controlPathsAll_shown es _
  | .holes h o i, s => by
    rw [controlPaths, shown, shownParts, mapM_map_head, List.mapM_append]
    have hk : Keeps fun s =>
      match controlPaths o s with
      | (s, .error e) => ((s, .error e) : TState × Except PyErr (List (List CEntry)))
      | (s, .ok ps) =>
        match controlPathsIn i s with
        | (s, .error e) => (s, .error e)
        | (s, .ok qs) => (s, .ok (ps ++ qs)) := by
      intro s
      obtain ⟨h1, h2⟩ := controlPaths_keeps o s
      simp only
      split
      · rename_i s' e he
        rw [he] at h1 h2
        exact ⟨h1, h2⟩
      · rename_i s' edges he
        rw [he] at h1 h2
        obtain ⟨h3, h4⟩ := controlPathsIn_keeps i s'
        split
        · rename_i s'' er he2
          rw [he2] at h3 h4
          exact ⟨h3.trans h1, h4.trans h2⟩
        · rename_i s'' er he2
          rw [he2] at h3 h4
          exact ⟨h3.trans h1, h4.trans h2⟩
    refine (congrArg Prod.snd (drawSpace_eq hk s h.xf)).trans ?_
    have h1 := controlPaths_shown o (s.push.compose h.xf)
    have h2 := (controlPaths_keeps o (s.push.compose h.xf)).1
    obtain ⟨t, r, h3⟩ := pair_cases (controlPaths o (s.push.compose h.xf))
    rw [h3] at h1 h2
    simp only at h1 h2
    rw [h3]
    subst h1
    have h4 := controlPathsIn_shown i t
    rw [h2] at h4
    obtain ⟨u, q, h5⟩ := pair_cases (controlPathsIn i t)
    rw [h5] at h4
    simp only at h4
    subst h4
    simp only [shown, TState.push, TState.compose] at h5 ⊢
    generalize List.mapM (m := Except PyErr) _ (shownParts _) = A
    cases A with
    | error er => rfl
    | ok x =>
      simp only [h5]
      generalize List.mapM (m := Except PyErr) _ _ = B
      cases B <;> rfl
theorem controlPathsAll_shown : (es : List (Str × Elem)) → (s : TState) → (controlPathsAll es s).2 =
    (shownPartsAll es).mapM fun x => (ownControl x.2).map fun l => l.map (moved ((x.1.foldl Mat3.mul s.mat).mul x.2.hdr.xf).apply)
  | [], s => by rw [controlPathsAll, shownPartsAll]; rfl
  | (k, e) :: es, s => by
    rw [controlPathsAll, shownPartsAll, List.mapM_append]
    have h1 := controlPaths_shown e s
    have h2 := (controlPaths_keeps e s).1
    obtain ⟨t, r, h3⟩ := pair_cases (controlPaths e s)
    rw [h3] at h1 h2
    simp only at h1 h2
    rw [h3]
    subst h1
    have h4 := controlPathsAll_shown es t
    rw [h2] at h4
    obtain ⟨u, q, h5⟩ := pair_cases (controlPathsAll es t)
    rw [h5] at h4
    simp only at h4
    subst h4
    simp only [shown, TState.push, TState.compose] at h5 ⊢
    generalize List.mapM (m := Except PyErr) _ (shownParts _) = A
    cases A with
    | error er => rfl
    | ok x =>
      simp only [h5]
      generalize List.mapM (m := Except PyErr) _ _ = B
      cases B <;> rfl
theorem controlPathsIn_shown : (es : List Elem) → (s : TState) → (controlPathsIn es s).2 =
    (shownPartsIn es).mapM fun x => (ownControl x.2).map fun l => l.map (moved ((x.1.foldl Mat3.mul s.mat).mul x.2.hdr.xf).apply)
  | [], s => by rw [controlPathsIn, shownPartsIn]; rfl
  | e :: es, s => by
    rw [controlPathsIn, shownPartsIn, List.mapM_append]
    have h1 := controlPaths_shown e s
    have h2 := (controlPaths_keeps e s).1
    obtain ⟨t, r, h3⟩ := pair_cases (controlPaths e s)
    rw [h3] at h1 h2
    simp only at h1 h2
    rw [h3]
    subst h1
    have h4 := controlPathsIn_shown es t
    rw [h2] at h4
    obtain ⟨u, q, h5⟩ := pair_cases (controlPathsIn es t)
    rw [h5] at h4
    simp only at h4
    subst h4
    simp only [shown, TState.push, TState.compose] at h5 ⊢
    generalize List.mapM (m := Except PyErr) _ (shownParts _) = A
    cases A with
    | error er => rfl
    | ok x =>
      simp only [h5]
      generalize List.mapM (m := Except PyErr) _ _ = B
      cases B <;> rfl
end

/-- C69: `control_paths` of a tree gives one list for each basic shape shown, in order: its own control points carried along by the
matrix of the context composed with the transforms around the shape (outermost first) and its own. -/
theorem C69_control_paths (e : Elem) (s : TState) (owns : List (List CEntry))
    (ho : List.Forall₂ (fun x l => ownControl x.2 = .ok l) (shownParts e) owns) :
    ∃ out, (controlPaths e s).2 = .ok out ∧ List.Forall₂ (fun (xl : (List (Mat3 ℝ) × Elem) × List CEntry) o =>
      List.Forall₂ (Carried ((xl.1.1.foldl Mat3.mul s.mat).mul xl.1.2.hdr.xf).apply) xl.2 o) ((shownParts e).zip owns) out := by
  rw [controlPaths_shown, shown]
  generalize shownParts e = l at ho ⊢
  induction ho with
  | nil => exact ⟨[], rfl, .nil⟩
  | @cons x l xs ls hx _ ih =>
    obtain ⟨out, h1, h2⟩ := ih
    refine ⟨l.map (moved ((x.1.foldl Mat3.mul s.mat).mul x.2.hdr.xf).apply) :: out, ?_, ?_⟩
    · rw [List.mapM_cons, h1, hx]; rfl
    · rw [List.zip_cons_cons]
      refine .cons ?_ h2
      rw [List.forall₂_map_right_iff, List.forall₂_same]
      intro c _
      exact carried_moved _ c

/-! ### What the code does not do -/

/-- The corner squares of a rectangle shown on a canvas give their high corner first (C69: recent versions of PIL reject this). -/
theorem C69_marker_corners_counterexample (cfg : DrawCfg) (hc : cfg.showCps = true) (h : Hdr) (p1 p2 : Pt ℝ) (s : TState) :
    ∃ p q o f, DrawOp.rectangle p q o f ∈ (draw cfg (.rect h p1 p2) s).ops ∧ q.x < p.x ∧ q.y < p.y := by
  have h1 := controlPaths_shown (.rect h p1 p2) s
  obtain ⟨t, r, h2⟩ := pair_cases (controlPaths (.rect h p1 p2) s)
  rw [h2] at h1
  simp only at h1
  subst h1
  let p := (s.mat.mul h.xf).apply p1
  refine ⟨⟨p.x + 5, p.y + 5⟩, ⟨p.x - 5, p.y - 5⟩, some (.name "red"), some (.name "grey"), ?_, ?_, ?_⟩
  · have h3 : shown (.rect h p1 p2) s.mat = .ok [[.pt p, .pt ((s.mat.mul h.xf).apply ⟨p1.x, p2.y⟩),
        .pt ((s.mat.mul h.xf).apply p2), .pt ((s.mat.mul h.xf).apply ⟨p2.x, p1.y⟩)]] := rfl
    rw [h3] at h2
    simp [draw, hc, drawControl, h2, drawEntry, Pt.addVector, Pt.subVec]
  · simp only; linarith
  · simp only; linarith

/-- C69: a pen whose width is in drawing units does not follow the transforms of the tree: with a pen of 1 unit inside a group
enlarged 10 times the line is 1 pixel wide, not the 10 pixels of the same shape drawn under the composed matrix. -/
theorem C69_group_width_counterexample (cfg : DrawCfg) (hc : cfg.showCps = false) (hs : cfg.showall = false)
    (hp : cfg.prod = true) : ∃ (h : Hdr) (e : Elem) (s : TState) (pts pts' : List (Pt ℝ)) (c c' : Option Color),
      DrawOp.line pts c 1 true ∈ (draw cfg (.group h false [(['e'], e)]) s).ops ∧
      DrawOp.line pts' c' 10 true ∈ (draw cfg e ⟨s.mat.mul h.xf, none, []⟩).ops := by
  let t : Mat3 ℝ := ⟨10, 0, 0, 0, 10, 0, 0, 0, 1⟩
  let pen : Pen := ⟨⟨.name "black"⟩, -1⟩
  let e : Elem := .rect ⟨['e'], ⟨some pen, none⟩, true, Mat3.one⟩ ⟨0, 0⟩ ⟨1, 1⟩
  let g : Hdr := ⟨['g'], ⟨none, none⟩, false, t⟩
  let s : TState := ⟨Mat3.one, none, []⟩
  let pts : List (Pt ℝ) := [⟨0, 0⟩, ⟨0, 10⟩, ⟨10, 10⟩, ⟨10, 0⟩, ⟨0, 0⟩]
  have he : ∀ m : Mat3 ℝ, m = t → drawn cfg.toDCfg e m = .ok [⟨⟨some pen, none⟩, true, pts⟩] := by
    rintro m rfl
    rw [drawn_basic cfg.toDCfg e trivial]
    norm_num [e, t, pts, outline, Except.map, hdr, Mat3.mul_one', Mat3.apply]
  have hg : (paths cfg.toDCfg (.group g false [(['e'], e)]) s).2 = .ok [⟨⟨some pen, none⟩, true, pts⟩] := by
    have := C46_group cfg.toDCfg g [(['e'], e)] s [[⟨⟨some pen, none⟩, true, pts⟩]] (.cons (he _ (Mat3.one_mul' _)) .nil)
    simpa using this
  have he' : (paths cfg.toDCfg e ⟨s.mat.mul g.xf, none, []⟩).2 = .ok [⟨⟨some pen, none⟩, true, pts⟩] := he _ (Mat3.one_mul' _)
  have hw : ∀ (m : Mat3 ℝ) (n w : ℤ), IsRound (askedWidth m pen) n → IsWidth cfg.prod m pen w → w = max 1 n := by
    intro m n w hn hw
    rw [hp] at hw
    obtain ⟨n', h1, h2⟩ := hw
    rw [h2, isRound_unique h1 hn]
  have key : ∀ (x : Elem) (u : TState) (n : ℤ), (paths cfg.toDCfg x u).2 = .ok [⟨⟨some pen, none⟩, true, pts⟩] →
      IsRound (askedWidth u.mat pen) n → DrawOp.line pts (some (.name "black")) (max 1 n) true ∈ (draw cfg x u).ops := by
    intro x u n hx hn
    obtain ⟨opss, h1, _, h2⟩ := C69_ops cfg hc hs x u _ hx (by simp)
    rw [h1]
    cases h2 with
    | cons ha hr =>
      obtain ⟨a, d, rfl, ha, _⟩ := ha
      cases ha with
      | stroke _ _ _ w hw' =>
        rw [hw _ n w hn hw']
        exact List.mem_flatten.2 ⟨_, List.mem_cons_self, List.mem_append_left _ List.mem_cons_self⟩
  refine ⟨g, e, s, pts, pts, _, _, key _ s 1 hg ?_, key e _ 10 he' ?_⟩
  · norm_num [IsRound, askedWidth, pen, s, Mat3.one]
  · have : Real.sqrt 100 = 10 := by rw [show (100 : ℝ) = 10 ^ 2 by norm_num]; exact Real.sqrt_sq (by norm_num)
    norm_num [IsRound, askedWidth, pen, s, Mat3.one_mul', g, t, this]

/-- C69: a closed curve without control points, with pen and brush: an empty area is issued and `draw` raises `IndexError`. -/
theorem C69_empty_counterexample (cfg : DrawCfg) (hc : cfg.showCps = false) (hs : cfg.showall = false) (pen : Pen) (b : Brush)
    (s : TState) : ∃ h : Hdr, (draw cfg (.curve h []) s).err = some .index ∧
      (draw cfg (.curve h []) s).ops = [.polygon [] (some (areaColor cfg.shadowColor b.color))] := by
  let h : Hdr := ⟨['x'], ⟨some pen, some b⟩, true, Mat3.one⟩
  have h0 : (paths cfg.toDCfg (.curve h []) s).2 = .ok [⟨h.pb, true, []⟩] := by
    simp only [paths]
    rw [drawSpace_eq (curvePaths_keeps _ _ _)]
    simp [curvePaths, curvePts, pairUp, h]
  obtain ⟨t, r, h1⟩ := pair_cases (paths cfg.toDCfg (.curve h []) s)
  rw [h1] at h0
  simp only at h0
  subst h0
  have hl : ∃ w, lineWidth cfg t ⟨some pen, some b⟩ = .ok w := by
    unfold lineWidth
    split
    · rw [strokeWidth_some _ pen t rfl]; exact ⟨_, rfl⟩
    · exact ⟨_, rfl⟩
  obtain ⟨w, hl⟩ := hl
  have hfc : fillColorOf cfg ⟨some pen, some b⟩ = some (areaColor cfg.shadowColor b.color) := by
    simp only [fillColorOf, areaColor, PenBrush.fillColor, Option.map_some, Color.transparent]
    cases cfg.shadowColor with
    | none => rfl
    | some c => simp only [Bool.and_eq_true, decide_eq_true_eq, ne_eq, Option.some.injEq]; split_ifs <;> rfl
  refine ⟨h, ?_, ?_⟩ <;>
    simp [draw, hc, drawRest, h1, drawPaths, drawPath, h, hl, PenBrush.filled, PenBrush.stroked, hs, hfc]

/-- C69: a shape with holes that has a brush but no pen still gets lines along its parts (without a colour, so in the default ink
of the canvas). -/
theorem C69_holes_lines_counterexample (cfg : DrawCfg) (hc : cfg.showCps = false) (hs : cfg.showall = false)
    (hdb : cfg.debug = false) (b : Brush) : ∃ (e : Elem) (pts : List (Pt ℝ)), e.hdr.pb = ⟨none, some b⟩ ∧
      DrawOp.line pts none 1 true ∈ (draw cfg e ⟨Mat3.one, none, []⟩).ops := by
  have h1 := drawn_square cfg.toDCfg none 0 4
  obtain ⟨w, h2, _, _, h3⟩ := C69_holes cfg hc hs hdb (hdr0 (some b)) (.rect (hdr0 none) ⟨0, 0⟩ ⟨0 + 4, 0 + 4⟩) []
    ⟨Mat3.one, none, []⟩ b _ ⟨0, 0⟩ [] rfl (by simp only [hdr0, Mat3.mul_one'] at h1 ⊢; exact h1) rfl .nil
  rw [h3 rfl] at h2
  exact ⟨_, _, rfl, by rw [h2]; simp only [hdr0, Option.map_none, List.map_cons, List.mem_cons]; exact .inr (.inl rfl)⟩

/-! ### Cases -/

/-- A filled and stroked square in a group: the hypotheses of `C69_ops`, `C69_bbox` and `C69_group` are met. -/
example (cfg : DrawCfg) (pen : Pen) (b : Brush) (hp : 0 < pen.width) (s : TState) :
    let e : Elem := .group ⟨['g'], ⟨none, none⟩, false, Mat3.one⟩ false
      [(['a'], .rect ⟨['a'], ⟨some pen, some b⟩, true, Mat3.one⟩ ⟨0, 0⟩ ⟨1, 2⟩)]
    Pens (fun p => 0 < p.width) e ∧ e.Sound ∧ (∃ bb, e.bbox = .ok bb) ∧
    ∃ ps, (paths cfg.toDCfg e s).2 = .ok ps ∧ ps ≠ [] ∧ ∀ p ∈ ps, p.pts ≠ [] := by
  intro e
  refine ⟨?_, ?_, ?_, ?_⟩
  · simpa [e, Pens, PensAll] using hp
  · simp [e, Sound, SoundAll, Mat3.affine_one]
  · exact ⟨_, rfl⟩
  · refine ⟨_, C46_group cfg.toDCfg _ _ s _ (.cons (drawn_basic cfg.toDCfg (.rect _ _ _) trivial _) .nil), ?_, ?_⟩
    · simp
    · simp

end X7.Elem
