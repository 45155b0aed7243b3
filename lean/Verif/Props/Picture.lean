import Verif.Lemmas.Picture

/-!
C135: the picture that the filled areas of an element make.
-/

noncomputable section

namespace X7.Elem
open X7.Utils (distPt)
open X7.Approx (bend)
open Classical

/-! ### The last area wins -/

theorem fold_keeps (shadow : Option Color) (p : Pt ℝ) : ∀ (ps : List Path) (c : Option Color), (∀ q ∈ ps, q.pb.brush.isSome → ¬ Covers q.pts p) →
    ps.foldl (colorBy shadow p) c = c
  | [], _, _ => rfl
  | q :: ps, c, h => by
    have : colorBy shadow p c q = c := by
      unfold colorBy
      split
      · rename_i b hb
        rw [if_neg (h q (by simp) (by simp [hb]))]
      · rfl
    rw [List.foldl_cons, this]
    exact fold_keeps shadow p ps c fun q hq => h q (by simp [hq])

/-- C135: after `draw` a point has the colour of the last path with a brush that covers it (or the shadow colour). -/
theorem C135_top (cfg : DrawCfg) (hc : cfg.showCps = false) (hs : cfg.showall = false) (e : Elem) (s : TState) (before after : List Path) (q : Path) (b : Brush)
    (hp : (paths cfg.toDCfg e s).2 = .ok (before ++ q :: after))
    (hne : ∀ p ∈ before ++ q :: after, p.pb.pen.isSome → p.pb.brush.isSome → p.pts ≠ []) (hb : q.pb.brush = some b) (p : Pt ℝ) (hq : Covers q.pts p)
    (ha : ∀ q' ∈ after, q'.pb.brush.isSome → ¬ Covers q'.pts p) (c : Option Color) :
    areaAt p (draw cfg e s).ops c = some (areaColor cfg.shadowColor b.color) := by
  rw [areaAt_draw cfg hc hs e s _ hp hne, List.foldl_append, List.foldl_cons, fold_keeps _ _ _ _ ha]
  simp only [colorBy, hb, if_pos hq]

/-- C135: a point that no path with a brush covers keeps the colour it had. -/
theorem C135_keeps (cfg : DrawCfg) (hc : cfg.showCps = false) (hs : cfg.showall = false) (e : Elem) (s : TState) (ps : List Path)
    (hp : (paths cfg.toDCfg e s).2 = .ok ps) (hne : ∀ p ∈ ps, p.pb.pen.isSome → p.pb.brush.isSome → p.pts ≠ []) (p : Pt ℝ)
    (ha : ∀ q ∈ ps, q.pb.brush.isSome → ¬ Covers q.pts p) (c : Option Color) : areaAt p (draw cfg e s).ops c = c := by
  rw [areaAt_draw cfg hc hs e s _ hp hne, fold_keeps _ _ _ _ ha]

/-- C135: so does every point that is not the image of a point of the bounding box. -/
theorem C135_outside (cfg : DrawCfg) (hc : cfg.showCps = false) (hs : cfg.showall = false) (e : Elem) (hso : e.Sound) (b : BBox ℝ) (hb : e.bbox = .ok b)
    (s : TState) (hm : Solid s.mat) (ps : List Path) (hp : (paths cfg.toDCfg e s).2 = .ok ps)
    (hne : ∀ p ∈ ps, p.pb.pen.isSome → p.pb.brush.isSome → p.pts ≠ []) (p : Pt ℝ) (ho : ∀ p0 ∈ b.Region, p ≠ s.mat.apply p0) (c : Option Color) :
    areaAt p (draw cfg e s).ops c = c := by
  refine C135_keeps cfg hc hs e s ps hp hne p (fun q hq _ h => ?_) c
  obtain ⟨p0, h1, h2⟩ := C130_bbox cfg.toDCfg e hso b hb s hm ps hp q hq p h
  exact ho p0 h1 h2

/-- C135: a group makes the picture its entries make one after the other, each on top of those before. -/
theorem C135_group (cfg : DrawCfg) (hc : cfg.showCps = false) (h : Hdr) (es : List (Str × Elem)) (s : TState)
    (hpos : Pens (fun pen => 0 < pen.width) (.group h false es))
    (hd : ∀ x ∈ es, (draw cfg x.2 ⟨s.mat.mul h.xf, none, []⟩).err = none) (p : Pt ℝ) (c : Option Color) :
    areaAt p (draw cfg (.group h false es) s).ops c = es.foldl (fun c x => areaAt p (draw cfg x.2 ⟨s.mat.mul h.xf, none, []⟩).ops c) c := by
  rw [(C69_group cfg hc h es s hpos (es.map fun x => (draw cfg x.2 ⟨s.mat.mul h.xf, none, []⟩).ops) (by
    rw [List.forall₂_map_right_iff, List.forall₂_same]
    exact fun x hx => ⟨rfl, hd x hx⟩)).1]
  clear hd hpos
  induction es generalizing c with
  | nil => rfl
  | cons x es ih => rw [List.map_cons, List.flatten_cons, areaAt_append, ih, List.foldl_cons]

/-- C135: with a shadow colour the areas make a silhouette: if no brush is transparent, a point has the shadow colour exactly if some path with a brush covers
it, whatever the order. -/
theorem C135_shadow (cfg : DrawCfg) (hc : cfg.showCps = false) (hs : cfg.showall = false) (k : Color) (hk : cfg.shadowColor = some k) (hkt : k.truthy = true)
    (e : Elem) (s : TState) (ps : List Path) (hp : (paths cfg.toDCfg e s).2 = .ok ps)
    (hne : ∀ p ∈ ps, p.pb.pen.isSome → p.pb.brush.isSome → p.pts ≠ []) (ht : ∀ q ∈ ps, ∀ b, q.pb.brush = some b → b.color ≠ .tup [0, 0, 0, 0])
    (p : Pt ℝ) (c : Option Color) :
    areaAt p (draw cfg e s).ops c = if ∃ q ∈ ps, q.pb.brush.isSome ∧ Covers q.pts p then some k else c := by
  rw [areaAt_draw cfg hc hs e s _ hp hne]
  clear hp hne
  induction ps generalizing c with
  | nil => simp
  | cons q ps ih =>
    rw [List.foldl_cons, ih fun q hq => ht q (by simp [hq])]
    have hq : colorBy cfg.shadowColor p c q = if q.pb.brush.isSome ∧ Covers q.pts p then some k else c := by
      unfold colorBy
      split
      · rename_i b hb
        simp [hb, areaColor, hk, hkt, ht q (by simp) b hb]
      · rename_i hb
        simp [hb]
    rw [hq]
    by_cases h1 : q.pb.brush.isSome ∧ Covers q.pts p
    · simp [h1]
    · simp [h1]

/-! ### Transforms -/

/-- C135: drawn under a further transform that does not flatten the plane, an element makes the same picture, mapped, except maybe on the sides of its
outlines. -/
theorem C135_transform (cfg : DrawCfg) (hc : cfg.showCps = false) (hs : cfg.showall = false) (e : Elem) (he : AffineOwn e) (n : Mat3 ℝ) (s s' : TState)
    (hm : s.mat.Affine) (hn : Solid n) (hs' : s'.mat = n.mul s.mat) (ps : List Path) (hp : (paths cfg.toDCfg e s).2 = .ok ps)
    (hne : ∀ p ∈ ps, p.pb.pen.isSome → p.pb.brush.isSome → p.pts ≠ []) (p : Pt ℝ) (ho : ∀ q ∈ ps, ¬ OnSide q.pts p) (c : Option Color) :
    areaAt (n.apply p) (draw cfg e s').ops c = areaAt p (draw cfg e s).ops c := by
  have hp' : (paths cfg.toDCfg e s').2 = .ok (ps.map (mapped n)) := by
    have h1 := drawn_push cfg.toDCfg e s
    have h2 := drawn_push cfg.toDCfg e s'
    rw [hp] at h1
    rw [hs', C130_paths cfg.toDCfg e he n s.mat hm, ← h1] at h2
    exact h2
  rw [areaAt_draw cfg hc hs e s _ hp hne, areaAt_draw cfg hc hs e s' _ hp' (by
    intro q hq h1 h2
    obtain ⟨q0, h3, rfl⟩ := List.mem_map.1 hq
    have := hne q0 h3 h1 h2
    simpa [mapped] using this)]
  clear hp hp' hne
  induction ps generalizing c with
  | nil => rfl
  | cons q ps ih =>
    have : colorBy cfg.shadowColor (n.apply p) c (mapped n q) = colorBy cfg.shadowColor p c q := by
      have h1 := C130_transform n hn q.pts p (ho q (by simp))
      simp only [colorBy, mapped, h1]
    rw [List.map_cons, List.foldl_cons, List.foldl_cons, this, ih fun q hq => ho q (by simp [hq])]

/-! ### Points per curve -/

/-- C135: for any tree of elements the number of points per curve does not matter away from the curves: with other numbers the element draws as many paths,
with the same pens and brushes (or fails in the same way), and each covers the same points, except some within 3/2*M/n² of a curve, for the smaller number n. -/
theorem C135_steps (cfg cfg' : DCfg) (e : Elem) (m : Mat3 ℝ) (n n' : ℕ) (hn : n = max 1 (if cfg.showCps then 10 else cfg.pointsPerCurve))
    (hn' : n' = max 1 (if cfg'.showCps then 10 else cfg'.pointsPerCurve)) (hle : n ≤ n') (M : ℝ) (hM : ∀ s ∈ placed e m, bend s ≤ M) :
    (∀ er, drawn cfg e m = .error er ↔ drawn cfg' e m = .error er) ∧ ∀ ps, drawn cfg e m = .ok ps → ∃ ps', drawn cfg' e m = .ok ps' ∧
      List.Forall₂ (fun q q' => q'.pb = q.pb ∧ q'.closed = q.closed ∧ (q'.pts = [] ↔ q.pts = []) ∧
        ∀ p, (∀ x ∈ Approx.traced (placed e m), 3 / 2 * M / n ^ 2 < distPt p x) → (Covers q'.pts p ↔ Covers q.pts p)) ps ps' := by
  have h := drawn_same (F := fun p => ∀ x ∈ Approx.traced (placed e m), 3 / 2 * M / n ^ 2 < distPt p x) hn hn' hle e m ⟨hM, fun p hp => hp⟩
  generalize drawn cfg e m = x at h ⊢
  generalize drawn cfg' e m = y at h ⊢
  cases x with
  | error a => cases y with
    | error b =>
      have : a = b := h
      subst this
      simp
    | ok _ => exact h.elim
  | ok ps => cases y with
    | error b => exact h.elim
    | ok ps' =>
      refine ⟨by simp, fun ps0 h0 => ?_⟩
      cases h0
      refine ⟨ps', rfl, List.Forall₂.imp (fun q q' hq => ⟨hq.1, hq.2.1, ?_, fun p hp => hq.covers hp⟩) h⟩
      rw [← List.head?_eq_none_iff, ← List.head?_eq_none_iff, hq.2.2.1]

/-- C135: the picture of a tree of elements is the same for both, except near the curves. -/
theorem C135_picture (cfg cfg' : DrawCfg) (hc : cfg.showCps = false) (hs : cfg.showall = false) (hc' : cfg'.showCps = false) (hs' : cfg'.showall = false)
    (hsh : cfg'.shadowColor = cfg.shadowColor) (e : Elem) (s : TState) (n n' : ℕ) (hn : n = max 1 cfg.pointsPerCurve) (hn' : n' = max 1 cfg'.pointsPerCurve)
    (hle : n ≤ n') (M : ℝ) (hM : ∀ x ∈ placed e s.mat, bend x ≤ M) (ps : List Path) (hp : (paths cfg.toDCfg e s).2 = .ok ps)
    (hne : ∀ p ∈ ps, p.pb.pen.isSome → p.pb.brush.isSome → p.pts ≠ []) (p : Pt ℝ)
    (hfar : ∀ x ∈ Approx.traced (placed e s.mat), 3 / 2 * M / n ^ 2 < distPt p x) (c : Option Color) :
    areaAt p (draw cfg' e s).ops c = areaAt p (draw cfg e s).ops c := by
  have h1 := drawn_push cfg.toDCfg e s
  have h2 := drawn_push cfg'.toDCfg e s
  rw [hp] at h1
  obtain ⟨ps', h3, h4⟩ := (C135_steps cfg.toDCfg cfg'.toDCfg e s.mat n n' (by simp [hn, hc]) (by simp [hn', hc']) hle M hM).2 ps h1.symm
  rw [h3] at h2
  rw [areaAt_draw cfg hc hs e s ps hp hne, areaAt_draw cfg' hc' hs' e s ps' h2 (by
    clear hp h1 h2 h3
    induction h4 with
    | nil => simp
    | cons hx _ ih =>
      intro q hq k1 k2
      rcases List.mem_cons.1 hq with rfl | hq
      · rw [hx.1] at k1 k2
        exact fun h => hne _ (by simp) k1 k2 (hx.2.2.1.1 h)
      · exact ih (fun q hq => hne q (by simp [hq])) q hq k1 k2), hsh]
  clear hp h1 h2 h3 hne
  induction h4 generalizing c with
  | nil => rfl
  | cons hx _ ih =>
    rw [List.foldl_cons, List.foldl_cons, ih]
    congr 1
    simp only [colorBy, hx.1, hx.2.2.2 p hfar]

/-- C135: so at each point that is not on a curve the picture settles: from some number of points per curve on it does not change. -/
theorem C135_limit (e : Elem) (s : TState) (p : Pt ℝ) (hp : p ∉ Approx.traced (placed e s.mat)) : ∃ N : ℕ, ∀ cfg cfg' : DrawCfg, cfg.showCps = false →
    cfg.showall = false → cfg'.showCps = false → cfg'.showall = false → cfg'.shadowColor = cfg.shadowColor → N ≤ cfg.pointsPerCurve →
    N ≤ cfg'.pointsPerCurve → ∀ ps ps', (paths cfg.toDCfg e s).2 = .ok ps → (∀ p ∈ ps, p.pb.pen.isSome → p.pb.brush.isSome → p.pts ≠ []) →
    (paths cfg'.toDCfg e s).2 = .ok ps' → (∀ p ∈ ps', p.pb.pen.isSome → p.pb.brush.isSome → p.pts ≠ []) → ∀ c : Option Color,
    areaAt p (draw cfg' e s).ops c = areaAt p (draw cfg e s).ops c := by
  obtain ⟨d, d0, hd⟩ := traced_away _ p hp
  obtain ⟨M, M0, hM⟩ := bends_le (placed e s.mat)
  obtain ⟨N, hN⟩ := exists_nat_gt (3 / 2 * M / d)
  have far : ∀ n : ℕ, N + 1 ≤ n → ∀ q ∈ Approx.traced (placed e s.mat), 3 / 2 * M / (n : ℝ) ^ 2 < distPt p q := by
    intro n hn q hq
    refine lt_of_lt_of_le ?_ (hd q hq)
    have h0 : (0 : ℝ) ≤ N := Nat.cast_nonneg N
    have hn' : (N : ℝ) + 1 ≤ n := by exact_mod_cast hn
    refine lt_of_le_of_lt (b := 3 / 2 * M / ((N : ℝ) + 1) ^ 2) (by gcongr) ?_
    rw [div_lt_iff₀ d0] at hN
    rw [div_lt_iff₀ (by positivity)]
    nlinarith [mul_nonneg h0 h0, mul_nonneg d0.le h0, mul_nonneg d0.le (mul_nonneg h0 h0)]
  refine ⟨N + 1, fun cfg cfg' hc hs hc' hs' hsh h1 h2 ps ps' k1 k2 k3 k4 c => ?_⟩
  have m1 : max 1 cfg.pointsPerCurve = cfg.pointsPerCurve := max_eq_right (by omega)
  have m2 : max 1 cfg'.pointsPerCurve = cfg'.pointsPerCurve := max_eq_right (by omega)
  rcases le_total cfg.pointsPerCurve cfg'.pointsPerCurve with hl | hl
  · exact C135_picture cfg cfg' hc hs hc' hs' hsh e s _ _ m1.symm m2.symm hl M hM ps k1 k2 p (far _ h1) c
  · exact (C135_picture cfg' cfg hc' hs' hc hs hsh.symm e s _ _ m2.symm m1.symm hl M hM ps' k3 k4 p (far _ h2) c).symm

/-! ### Cases -/

/-- A red square with a smaller blue one on top, in a group: blue where both are, red where only the first is, and the background elsewhere. -/
example (cfg : DrawCfg) (hc : cfg.showCps = false) (hs : cfg.showall = false) (hk : cfg.shadowColor = none) (c : Option Color) :
    let e : Elem := .group ⟨"g".toList, ⟨none, none⟩, false, Mat3.one⟩ false [("a".toList, .rect (hdr0 (some ⟨.name "red"⟩)) ⟨0, 0⟩ ⟨0 + 4, 0 + 4⟩),
      ("b".toList, .rect (hdr0 (some ⟨.name "blue"⟩)) ⟨1, 1⟩ ⟨1 + 2, 1 + 2⟩)]
    areaAt ⟨2, 2⟩ (draw cfg e ⟨Mat3.one, none, []⟩).ops c = some (.name "blue") ∧ areaAt ⟨1 / 2, 2⟩ (draw cfg e ⟨Mat3.one, none, []⟩).ops c = some (.name "red") ∧
      areaAt ⟨5, 2⟩ (draw cfg e ⟨Mat3.one, none, []⟩).ops c = c := by
  intro e
  have hp : (paths cfg.toDCfg e ⟨Mat3.one, none, []⟩).2 = .ok [⟨⟨none, some ⟨.name "red"⟩⟩, true, [⟨0, 0⟩, ⟨0, 0 + 4⟩, ⟨0 + 4, 0 + 4⟩, ⟨0 + 4, 0⟩, ⟨0, 0⟩]⟩,
      ⟨⟨none, some ⟨.name "blue"⟩⟩, true, [⟨1, 1⟩, ⟨1, 1 + 2⟩, ⟨1 + 2, 1 + 2⟩, ⟨1 + 2, 1⟩, ⟨1, 1⟩]⟩] := by
    rw [drawn_push, drawn_group, Mat3.mul_one']
    simp only [List.mapM_cons, drawn_square]
    rfl
  have hne : ∀ q ∈ [(⟨⟨none, some ⟨.name "red"⟩⟩, true, [⟨0, 0⟩, ⟨0, 0 + 4⟩, ⟨0 + 4, 0 + 4⟩, ⟨0 + 4, 0⟩, ⟨0, 0⟩]⟩ : Path),
      ⟨⟨none, some ⟨.name "blue"⟩⟩, true, [⟨1, 1⟩, ⟨1, 1 + 2⟩, ⟨1 + 2, 1 + 2⟩, ⟨1 + 2, 1⟩, ⟨1, 1⟩]⟩], q.pb.pen.isSome → q.pb.brush.isSome → q.pts ≠ [] := by
    simp
  refine ⟨?_, ?_, ?_⟩
  · rw [C135_top cfg hc hs e _ [_] [] _ ⟨.name "blue"⟩ hp hne rfl _ ((covers_box _ _ _ _ _).2 (by norm_num)) (by simp), hk]
    rfl
  · rw [C135_top cfg hc hs e _ [] [_] _ ⟨.name "red"⟩ hp hne rfl _ ((covers_box _ _ _ _ _).2 (by norm_num)) (by simp [covers_box]; norm_num), hk]
    rfl
  · exact C135_keeps cfg hc hs e _ _ hp hne _ (by simp [covers_box]; norm_num) c

/-- A loop in a group, and a point inside of it that is not on the loop. -/
example (pb : PenBrush) : (⟨1 / 2, 1 / 2⟩ : Pt ℝ) ∉ Approx.traced (placed (.group ⟨"g".toList, ⟨none, none⟩, false, Mat3.one⟩ false
    [("a".toList, .curve ⟨"a".toList, pb, true, Mat3.one⟩ [⟨⟨0, 0⟩, ⟨0, 3⟩, ⟨3, 0⟩, ""⟩])]) Mat3.one) := by
  simp only [placed, placedAll, Mat3.mul_one', Approx.traced, Set.mem_ofPred_eq, not_exists, not_and]
  rintro s hs t t0 t1 h
  simp [segs, closedSegs, Poly4.map, Mat3.apply_one] at hs
  subst hs
  simp only [Poly4.at', bern, seg, Pt.mk.injEq] at h
  obtain ⟨h1, h2⟩ := h
  have h3 : t * (1 - t) * (1 - 2 * t) = 0 := by linear_combination (h2 - h1) / 9
  rcases mul_eq_zero.1 h3 with h3 | h3
  · rcases mul_eq_zero.1 h3 with h3 | h3
    · rw [h3] at h1; norm_num at h1
    · rw [h3] at h1; norm_num at h1
  · have : t = 1 / 2 := by linarith
    rw [this] at h1; norm_num at h1

end X7.Elem
