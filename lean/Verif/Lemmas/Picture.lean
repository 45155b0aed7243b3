import Verif.Spec.Picture
import Verif.Props.FillNear
import Verif.Props.FillMove
import Verif.Props.Draw

/-!
Two drawings of an element that differ in the number of points per curve.
-/

noncomputable section

namespace X7.Elem
open X7.Utils (distPt)
open X7.Approx (bend)
open Classical

/-- The side from the last point of one run to the first point of the next. -/
def joint (Φ : Pt ℝ → Pt ℝ → ZMod 2) : Option (Pt ℝ) → Option (Pt ℝ) → ZMod 2
  | some a, some b => Φ a b
  | _, _ => 0

theorem run_append (Φ : Pt ℝ → Pt ℝ → ZMod 2) : ∀ a b : List (Pt ℝ), run Φ (a ++ b) = run Φ a + joint Φ a.getLast? b.head? + run Φ b
  | [], b => by simp [run, joint]
  | [x], [] => by simp [run, joint]
  | [x], y :: b => by simp [run, joint]
  | x :: y :: a, b => by
    have := run_append Φ (y :: a) b
    simp only [List.cons_append, run, List.getLast?_cons_cons] at this ⊢
    rw [this]
    ring

theorem cyc_ends (Φ : Pt ℝ → Pt ℝ → ZMod 2) (l : List (Pt ℝ)) : cyc Φ l = run Φ l + joint Φ l.getLast? l.head? := by
  cases l with
  | nil => simp [cyc, run, joint]
  | cons a l =>
    rw [cyc_cons, run_append]
    simp [run]

theorem run_pathOf (Φ : Pt ℝ → Pt ℝ → ZMod 2) {n : ℕ} (hn : 1 ≤ n) (s : Poly4 ℝ) (ss : List (Poly4 ℝ))
    (hj : ∀ k x y, (s :: ss)[k]? = some x → (s :: ss)[k + 1]? = some y → x.d = y.a) :
    run Φ (pathOf n (s :: ss)) = ((s :: ss).map fun s => run Φ (Approx.samples n s)).sum ∧
      (pathOf n (s :: ss)).head? = some s.a ∧ (pathOf n (s :: ss)).getLast? = some ((ss.getLast?.map Poly4.d).getD s.d) := by
  obtain ⟨⟨q, hq⟩, r, hr⟩ := Approx.samples_ends hn s
  have hp' : pathOf n (s :: ss) = s.a :: (q ++ ss.flatMap fun s => (Approx.samples n s).tail) := by
    rw [← List.cons_append, ← hq]; rfl
  have hp : pathOf n (s :: ss) = r ++ [s.d] ++ ss.flatMap fun s => (Approx.samples n s).tail := by
    rw [← hr]; rfl
  obtain ⟨-, p', h2⟩ := Approx.chain_path hn ss r s.d (fun s' hs' => hj 0 s s' rfl hs') (fun k x y hx hy => hj (k + 1) x y hx hy)
  have e : s.a :: (s :: ss).flatMap (fun s => (Approx.samples n s).tail) = pathOf n (s :: ss) := by
    rw [hp', List.flatMap_cons, hq]; rfl
  refine ⟨?_, ?_, ?_⟩
  · rw [← e]
    exact run_tails Φ hn (s :: ss) s.a (fun s' h => by cases h; rfl) hj
  · rw [hp']; rfl
  · rw [hp, h2]; simp

/-! ### Paths that cover the same -/

/-- Two paths with the same pen, brush and ends that rays from the points in `F` cross equally. -/
def Same (F : Pt ℝ → Prop) (q q' : Path) : Prop :=
  q'.pb = q.pb ∧ q'.closed = q.closed ∧ q'.pts.head? = q.pts.head? ∧ q'.pts.getLast? = q.pts.getLast? ∧
    ∀ p, F p → run (crossing p) q'.pts = run (crossing p) q.pts

theorem Same.refl (F : Pt ℝ → Prop) (q : Path) : Same F q q := ⟨rfl, rfl, rfl, rfl, fun _ _ => rfl⟩

theorem Same.paint {F : Pt ℝ → Prop} {q q' : Path} (h : Same F q q') (pb : PenBrush) : Same F { q with pb := pb } { q' with pb := pb } :=
  ⟨rfl, h.2.1, h.2.2.1, h.2.2.2.1, h.2.2.2.2⟩

theorem Same.covers {F : Pt ℝ → Prop} {q q' : Path} (h : Same F q q') {p : Pt ℝ} (hp : F p) : Covers q'.pts p ↔ Covers q.pts p := by
  rw [covers_iff, covers_iff, cyc_ends, cyc_ends, h.2.2.1, h.2.2.2.1, h.2.2.2.2 p hp]

theorem same_append {F : Pt ℝ → Prop} {q q' r r' : Path} (h : Same F q q') (k : Same F r r') :
    Same F { q with pts := q.pts ++ r.pts } { q' with pts := q'.pts ++ r'.pts } := by
  obtain ⟨h1, h2, h3, h4, h5⟩ := h
  obtain ⟨-, -, k3, k4, k5⟩ := k
  refine ⟨h1, h2, ?_, ?_, fun p hp => ?_⟩
  · simp only [List.head?_append, h3, k3]
  · simp only [List.getLast?_append, h4, k4]
  · simp only [run_append, h5 p hp, k5 p hp, h4, k3]

/-- Two results: lists of paths that are the same, or the same exception. -/
def SameRes (F : Pt ℝ → Prop) : Except PyErr (List Path) → Except PyErr (List Path) → Prop
  | .ok ps, .ok ps' => List.Forall₂ (Same F) ps ps'
  | .error e, .error e' => e = e'
  | _, _ => False

/-- The same for the two parts of what a shape with holes collects. -/
def SameAcc (F : Pt ℝ → Prop) : Except PyErr (List Path × Path) → Except PyErr (List Path × Path) → Prop
  | .ok a, .ok a' => List.Forall₂ (Same F) a.1 a'.1 ∧ Same F a.2 a'.2
  | .error e, .error e' => e = e'
  | _, _ => False

theorem same_extend {F : Pt ℝ → Prop} {q q' r r' : Path} (h : Same F q q') (k : Same F r r') :
    (∃ e, q.extend r.pts true = .error e ∧ q'.extend r'.pts true = .error e) ∨
      ∃ f f', q.extend r.pts true = .ok f ∧ q'.extend r'.pts true = .ok f' ∧ Same F f f' := by
  have hl := h.2.2.2.1
  simp only [Path.extend, if_true, hl]
  cases hq : q.pts.getLast? with
  | none => exact .inl ⟨_, rfl, rfl⟩
  | some x =>
    refine .inr ⟨_, _, rfl, rfl, ?_⟩
    have := same_append k (Same.refl F ⟨⟨none, none⟩, true, [x]⟩)
    exact same_append h this

theorem same_paint_all {F : Pt ℝ → Prop} {ps ps' : List Path} (h : List.Forall₂ (Same F) ps ps') (edge : PenBrush) :
    List.Forall₂ (Same F) (ps.map fun q => { q with pb := edge }) (ps'.map fun q => { q with pb := edge }) := by
  rw [List.forall₂_map_left_iff, List.forall₂_map_right_iff]
  exact h.imp fun _ _ h => h.paint edge

theorem same_fillInside {F : Pt ℝ → Prop} (edge : PenBrush) {ps ps' : List Path} (h : List.Forall₂ (Same F) ps ps') :
    ∀ {l l' : List Path}, List.Forall₂ (Same F) l l' → ∀ {edges edges' : List Path} {fill fill' : Path}, List.Forall₂ (Same F) edges edges' → Same F fill fill' →
      SameAcc F (fillInside edge ps l (edges, fill)) (fillInside edge ps' l' (edges', fill')) := by
  intro l l' hl
  induction hl with
  | nil => exact fun h1 h2 => ⟨h1, h2⟩
  | cons hx _ ih =>
    intro edges edges' fill fill' h1 h2
    rw [fillInside, fillInside]
    rcases same_extend h2 hx with ⟨e, e1, e2⟩ | ⟨f, f', e1, e2, e3⟩
    · rw [e1, e2]; exact rfl
    · rw [e1, e2]
      exact ih (List.rel_append h1 (same_paint_all h edge)) e3

theorem same_curve {F : Pt ℝ → Prop} {cfg cfg' : DCfg} {n n' : ℕ} (hn : n = max 1 (if cfg.showCps then 10 else cfg.pointsPerCurve))
    (hn' : n' = max 1 (if cfg'.showCps then 10 else cfg'.pointsPerCurve)) (hle : n ≤ n') {M : ℝ} (h : Hdr) (cps : List (CP ℝ)) (m : Mat3 ℝ)
    (hM : ∀ s ∈ placed (.curve h cps) m, bend s ≤ M) (hF : ∀ p, F p → ∀ x ∈ Approx.traced (placed (.curve h cps) m), 3 / 2 * M / n ^ 2 < distPt p x) :
    SameRes F (drawn cfg (.curve h cps) m) (drawn cfg' (.curve h cps) m) := by
  have n1 : 1 ≤ n := by rw [hn]; exact le_max_left _ _
  rw [drawn_basic cfg _ (by simp only [Elem.Basic]) m, drawn_basic cfg' _ (by simp only [Elem.Basic]) m]
  simp only [outline, Except.map, hdr]
  rw [← hn, ← hn', ← pathOf_map, ← pathOf_map]
  rw [placed] at hM hF
  have hj := Approx.segs_joins h.closed cps (m.mul h.xf).apply
  generalize (segs h.closed cps).map (Poly4.map (m.mul h.xf).apply) = ss at *
  refine .cons ?_ .nil
  cases ss with
  | nil => exact Same.refl F _
  | cons s ss =>
    refine ⟨rfl, rfl, ?_, ?_, fun p hp => ?_⟩
    · rw [(run_pathOf (crossing ⟨0, 0⟩) (n1.trans hle) s ss hj).2.1, (run_pathOf (crossing ⟨0, 0⟩) n1 s ss hj).2.1]
    · rw [(run_pathOf (crossing ⟨0, 0⟩) (n1.trans hle) s ss hj).2.2, (run_pathOf (crossing ⟨0, 0⟩) n1 s ss hj).2.2]
    · rw [(run_pathOf (crossing p) (n1.trans hle) s ss hj).1, (run_pathOf (crossing p) n1 s ss hj).1]
      congr 1
      refine List.map_congr_left fun s' hs' => ?_
      have far : ∀ t, 0 ≤ t → t ≤ 1 → 3 / 2 * M / n ^ 2 < distPt p (s'.at' t) := fun t t0 t1 => hF p hp _ ⟨s', hs', t, t0, t1, rfl⟩
      have M0 : 0 ≤ M := (Approx.bend_nonneg s').trans (hM s' hs')
      have hn0 : (0 : ℝ) < n := by exact_mod_cast n1
      have hc : (n : ℝ) ≤ n' := by exact_mod_cast hle
      rw [← samples_refined n1 (n1.trans hle) (hM s' hs') (far_chord n1 (hM s' hs') far), Nat.mul_comm,
        samples_refined (n1.trans hle) n1 (hM s' hs') (far_chord (n1.trans hle) (hM s' hs') fun t t0 t1 => lt_of_le_of_lt (by gcongr) (far t t0 t1))]

theorem traced_append (a b : List (Poly4 ℝ)) (x : Pt ℝ) : x ∈ Approx.traced (a ++ b) ↔ x ∈ Approx.traced a ∨ x ∈ Approx.traced b := by
  simp only [Approx.traced, Set.mem_ofPred_eq, List.mem_append]
  constructor
  · rintro ⟨s, hs | hs, h⟩
    · exact .inl ⟨s, hs, h⟩
    · exact .inr ⟨s, hs, h⟩
  · rintro (⟨s, hs, h⟩ | ⟨s, hs, h⟩)
    · exact ⟨s, .inl hs, h⟩
    · exact ⟨s, .inr hs, h⟩

theorem sameRes_refl (F : Pt ℝ → Prop) (r : Except PyErr (List Path)) : SameRes F r r := by
  cases r with
  | error e => exact rfl
  | ok ps => exact List.forall₂_same.2 fun q _ => Same.refl F q

section
variable {F : Pt ℝ → Prop} {cfg cfg' : DCfg} {n n' : ℕ} {M : ℝ}

/-- What is asked of the segments. -/
def Away (F : Pt ℝ → Prop) (n : ℕ) (M : ℝ) (ss : List (Poly4 ℝ)) : Prop :=
  (∀ s ∈ ss, bend s ≤ M) ∧ ∀ p, F p → ∀ x ∈ Approx.traced ss, 3 / 2 * M / n ^ 2 < distPt p x

theorem Away.split {a b : List (Poly4 ℝ)} (h : Away F n M (a ++ b)) : Away F n M a ∧ Away F n M b :=
  ⟨⟨fun s hs => h.1 s (by simp [hs]), fun p hp x hx => h.2 p hp x ((traced_append a b x).2 (.inl hx))⟩,
    ⟨fun s hs => h.1 s (by simp [hs]), fun p hp x hx => h.2 p hp x ((traced_append a b x).2 (.inr hx))⟩⟩

mutual
theorem drawn_same (hn : n = max 1 (if cfg.showCps then 10 else cfg.pointsPerCurve)) (hn' : n' = max 1 (if cfg'.showCps then 10 else cfg'.pointsPerCurve))
    (hle : n ≤ n') : (e : Elem) → (m : Mat3 ℝ) → Away F n M (placed e m) → SameRes F (drawn cfg e m) (drawn cfg' e m)
  | .curve h cps, m, ha => same_curve hn hn' hle h cps m ha.1 ha.2
  | .rect h p1 p2, m, _ => by
    rw [drawn_basic cfg _ (by simp only [Elem.Basic]) m, drawn_basic cfg' _ (by simp only [Elem.Basic]) m]
    exact sameRes_refl F _
  | .rrect h p1 p2 r, m, _ => by
    rw [drawn_basic cfg _ (by simp only [Elem.Basic]) m, drawn_basic cfg' _ (by simp only [Elem.Basic]) m]
    exact sameRes_refl F _
  | .ellipse h p1 p2, m, _ => by
    rw [drawn_basic cfg _ (by simp only [Elem.Basic]) m, drawn_basic cfg' _ (by simp only [Elem.Basic]) m]
    exact sameRes_refl F _
  | .group h true es, m, _ => by rw [drawn_hidden, drawn_hidden]; exact .nil
  | .group h false es, m, ha => by
    rw [placed, if_neg (by simp)] at ha
    rw [drawn_group, drawn_group]
    exact same_all hn hn' hle es (m.mul h.xf) ha
  | .holes h o i, m, ha => by
    rw [placed] at ha
    have ho := drawn_same hn hn' hle o (m.mul h.xf) ha.split.1
    rw [drawn_holes, drawn_holes]
    match h1 : drawn cfg o (m.mul h.xf), h2 : drawn cfg' o (m.mul h.xf), ho with
    | .error e, .error e', ho => exact ho
    | .ok [], .ok [], _ => exact rfl
    | .ok (_ :: _ :: _), .ok (_ :: _ :: _), _ => exact rfl
    | .ok [], .ok (_ :: _), ho => cases ho
    | .ok (_ :: _), .ok [], ho => cases ho
    | .ok [_], .ok (_ :: _ :: _), ho => cases ho with | cons _ h => cases h
    | .ok (_ :: _ :: _), .ok [_], ho => cases ho with | cons _ h => cases h
    | .ok [edge], .ok [edge'], ho =>
      have he : Same F edge edge' := by cases ho with | cons h _ => exact h
      simp only [Except.bind, holesD]
      cases hb : h.pb.brush with
      | none => exact same_edge hn hn' hle ⟨h.pb.pen, none⟩ i (m.mul h.xf) ha.split.2 (.cons (he.paint _) .nil)
      | some b =>
        have := same_fill hn hn' hle ⟨h.pb.pen, none⟩ i (m.mul h.xf) ha.split.2 (edges := [{ edge with pb := ⟨h.pb.pen, none⟩ }])
          (edges' := [{ edge' with pb := ⟨h.pb.pen, none⟩ }]) (fill := ⟨⟨none, some b⟩, edge.closed, edge.pts⟩)
          (fill' := ⟨⟨none, some b⟩, edge'.closed, edge'.pts⟩) (.cons (he.paint _) .nil) (he.paint _)
        simp only
        generalize fillD cfg ⟨h.pb.pen, none⟩ (m.mul h.xf) i ([{ edge with pb := ⟨h.pb.pen, none⟩ }], ⟨⟨none, some b⟩, edge.closed, edge.pts⟩) = x at this ⊢
        generalize fillD cfg' ⟨h.pb.pen, none⟩ (m.mul h.xf) i ([{ edge' with pb := ⟨h.pb.pen, none⟩ }], ⟨⟨none, some b⟩, edge'.closed, edge'.pts⟩) = y at this ⊢
        cases x <;> cases y
        · exact this
        · exact this.elim
        · exact this.elim
        · exact .cons this.2 this.1
theorem same_all (hn : n = max 1 (if cfg.showCps then 10 else cfg.pointsPerCurve)) (hn' : n' = max 1 (if cfg'.showCps then 10 else cfg'.pointsPerCurve))
    (hle : n ≤ n') : (es : List (Str × Elem)) → (m : Mat3 ℝ) → Away F n M (placedAll es m) →
      SameRes F ((es.mapM fun x => drawn cfg x.2 m).map List.flatten) ((es.mapM fun x => drawn cfg' x.2 m).map List.flatten)
  | [], _, _ => .nil
  | (k, e) :: es, m, ha => by
    rw [placedAll] at ha
    have h1 := drawn_same hn hn' hle e m ha.split.1
    have h2 := same_all hn hn' hle es m ha.split.2
    rw [List.mapM_cons, List.mapM_cons]
    simp only
    generalize drawn cfg e m = x at h1 ⊢
    generalize drawn cfg' e m = y at h1 ⊢
    generalize (es.mapM fun x => drawn cfg x.2 m) = u at h2 ⊢
    generalize (es.mapM fun x => drawn cfg' x.2 m) = v at h2 ⊢
    cases x <;> cases y
    · exact h1
    · exact h1.elim
    · exact h1.elim
    · cases u <;> cases v
      · exact h2
      · exact h2.elim
      · exact h2.elim
      · exact List.rel_append h1 h2
theorem same_fill (hn : n = max 1 (if cfg.showCps then 10 else cfg.pointsPerCurve)) (hn' : n' = max 1 (if cfg'.showCps then 10 else cfg'.pointsPerCurve))
    (hle : n ≤ n') (edge : PenBrush) : (es : List Elem) → (m : Mat3 ℝ) → Away F n M (placedIn es m) → {edges edges' : List Path} → {fill fill' : Path} →
      List.Forall₂ (Same F) edges edges' → Same F fill fill' → SameAcc F (fillD cfg edge m es (edges, fill)) (fillD cfg' edge m es (edges', fill'))
  | [], _, _, _, _, _, _, h1, h2 => ⟨h1, h2⟩
  | e :: es, m, ha, edges, edges', fill, fill', h1, h2 => by
    rw [placedIn] at ha
    have h3 := drawn_same hn hn' hle e m ha.split.1
    rw [fillD, fillD]
    generalize drawn cfg e m = x at h3 ⊢
    generalize drawn cfg' e m = y at h3 ⊢
    cases x with
    | error e => cases y with
      | error e' => exact h3
      | ok ps => exact h3.elim
    | ok ps => cases y with
      | error e' => exact h3.elim
      | ok ps' =>
        have h4 := same_fillInside edge h3 h3 h1 h2
        simp only [Except.bind]
        generalize fillInside edge ps ps (edges, fill) = u at h4 ⊢
        generalize fillInside edge ps' ps' (edges', fill') = v at h4 ⊢
        cases u <;> cases v
        · exact h4
        · exact h4.elim
        · exact h4.elim
        · exact same_fill hn hn' hle edge es m ha.split.2 h4.1 h4.2
theorem same_edge (hn : n = max 1 (if cfg.showCps then 10 else cfg.pointsPerCurve)) (hn' : n' = max 1 (if cfg'.showCps then 10 else cfg'.pointsPerCurve))
    (hle : n ≤ n') (edge : PenBrush) : (es : List Elem) → (m : Mat3 ℝ) → Away F n M (placedIn es m) → {edges edges' : List Path} →
      List.Forall₂ (Same F) edges edges' → SameRes F (edgeD cfg edge m es edges) (edgeD cfg' edge m es edges')
  | [], _, _, _, _, h1 => h1
  | e :: es, m, ha, edges, edges', h1 => by
    rw [placedIn] at ha
    have h3 := drawn_same hn hn' hle e m ha.split.1
    rw [edgeD, edgeD]
    generalize drawn cfg e m = x at h3 ⊢
    generalize drawn cfg' e m = y at h3 ⊢
    cases x with
    | error e => cases y with
      | error e' => exact h3
      | ok ps => exact h3.elim
    | ok ps => cases y with
      | error e' => exact h3.elim
      | ok ps' => exact same_edge hn hn' hle edge es m ha.split.2 (List.rel_append h1 (same_paint_all h3 edge))
end

end

/-! ### The picture -/

theorem areaAt_append (p : Pt ℝ) : ∀ (a b : List DrawOp) (c : Option Color), areaAt p (a ++ b) c = areaAt p b (areaAt p a c)
  | [], _, _ => rfl
  | .polygon pts f :: a, b, c => by simp only [List.cons_append, areaAt]; exact areaAt_append p a b _
  | .line .. :: a, b, c => by simp only [List.cons_append, areaAt]; exact areaAt_append p a b _
  | .ellipse .. :: a, b, c => by simp only [List.cons_append, areaAt]; exact areaAt_append p a b _
  | .rectangle .. :: a, b, c => by simp only [List.cons_append, areaAt]; exact areaAt_append p a b _
  | .show :: a, b, c => by simp only [List.cons_append, areaAt]; exact areaAt_append p a b _

theorem areaAt_none (p : Pt ℝ) : ∀ (a : List DrawOp) (c : Option Color), (∀ pts f, DrawOp.polygon pts f ∉ a) → areaAt p a c = c
  | [], _, _ => rfl
  | .polygon pts f :: a, c, h => absurd List.mem_cons_self (h pts f)
  | .line .. :: a, c, h => by rw [areaAt]; exacts [areaAt_none p a c fun pts f hm => h pts f (List.mem_cons_of_mem _ hm), by simp]
  | .ellipse .. :: a, c, h => by rw [areaAt]; exacts [areaAt_none p a c fun pts f hm => h pts f (List.mem_cons_of_mem _ hm), by simp]
  | .rectangle .. :: a, c, h => by rw [areaAt]; exacts [areaAt_none p a c fun pts f hm => h pts f (List.mem_cons_of_mem _ hm), by simp]
  | .show :: a, c, h => by rw [areaAt]; exacts [areaAt_none p a c fun pts f hm => h pts f (List.mem_cons_of_mem _ hm), by simp]

/-- What one path makes of the colour. -/
def colorBy (shadow : Option Color) (p : Pt ℝ) (c : Option Color) (q : Path) : Option Color :=
  match q.pb.brush with
  | some b => if Covers q.pts p then some (areaColor shadow b.color) else c
  | none => c

theorem areaAt_paints {prod debug : Bool} {shadow : Option Color} {m : Mat3 ℝ} {q : Path} {a d : List DrawOp} (ha : Paints prod shadow m q a)
    (hd : IsDots debug prod m q d) (p : Pt ℝ) (c : Option Color) : areaAt p (a ++ d) c = colorBy shadow p c q := by
  rw [areaAt_append]
  rw [areaAt_none p d]
  · cases ha <;> simp [areaAt, colorBy]
  · intro pts f hm
    unfold IsDots at hd
    split at hd
    · obtain ⟨k, -, rfl⟩ := hd
      split at hm
      · obtain ⟨x, -, hx⟩ := List.mem_map.1 hm
        split at hx <;> cases hx
      · simp at hm
    · subst hd; simp at hm

theorem areaAt_draw (cfg : DrawCfg) (hc : cfg.showCps = false) (hs : cfg.showall = false) (e : Elem) (s : TState) (ps : List Path)
    (hp : (paths cfg.toDCfg e s).2 = .ok ps) (hne : ∀ p ∈ ps, p.pb.pen.isSome → p.pb.brush.isSome → p.pts ≠ []) (p : Pt ℝ) (c : Option Color) :
    areaAt p (draw cfg e s).ops c = ps.foldl (colorBy cfg.shadowColor p) c := by
  obtain ⟨opss, h1, -, h2⟩ := C69_ops cfg hc hs e s ps hp hne
  rw [h1]
  clear h1 hp hne
  induction h2 generalizing c with
  | nil => rfl
  | cons hx _ ih =>
    obtain ⟨a, d, rfl, ha, hd⟩ := hx
    rw [List.flatten_cons, areaAt_append, ih, areaAt_paints ha hd]
    rfl

end X7.Elem
