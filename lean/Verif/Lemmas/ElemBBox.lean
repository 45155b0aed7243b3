import Verif.Lemmas.Elem
import Verif.Props.Shapes
import Verif.Props.BBox

namespace X7.Elem

/-- The affine image of a box lies in the box of the images of its corners. -/
theorem mem_bboxOf (xf : Mat3 ℝ) (b b' : BBox ℝ) (h : bboxOf xf b = .ok b') (q : Pt ℝ) (hq : q ∈ b.Region) :
    xf.apply q ∈ b'.Region := by
  cases b with
  | none => simp [bboxOf] at h
  | box xl yl xh yh =>
    simp only [bboxOf, Except.ok.injEq] at h
    subst h
    obtain ⟨⟨h1, h2⟩, h3, h4⟩ := hq
    have key : ∀ a b c : ℝ,
        (a * xl + b * yl + c ≤ a * q.x + b * q.y + c ∨ a * xh + b * yh + c ≤ a * q.x + b * q.y + c ∨
          a * xl + b * yh + c ≤ a * q.x + b * q.y + c ∨ a * xh + b * yl + c ≤ a * q.x + b * q.y + c) ∧
        (a * q.x + b * q.y + c ≤ a * xl + b * yl + c ∨ a * q.x + b * q.y + c ≤ a * xh + b * yh + c ∨
          a * q.x + b * q.y + c ≤ a * xl + b * yh + c ∨ a * q.x + b * q.y + c ≤ a * xh + b * yl + c) := by
      intro a b c
      rcases le_total 0 a with ha | ha <;> rcases le_total 0 b with hb | hb
      · exact ⟨.inl (by nlinarith), .inr (.inl (by nlinarith))⟩
      · exact ⟨.inr (.inr (.inl (by nlinarith))), .inr (.inr (.inr (by nlinarith)))⟩
      · exact ⟨.inr (.inr (.inr (by nlinarith))), .inr (.inr (.inl (by nlinarith)))⟩
      · exact ⟨.inr (.inl (by nlinarith)), .inl (by nlinarith)⟩
    obtain ⟨kx1, kx2⟩ := key xf.a xf.b xf.c
    obtain ⟨ky1, ky2⟩ := key xf.d xf.e xf.f
    simp only [BBox.ofPts, BBox.mk', BBox.add, BBox.copy, BBox.Region, Set.mem_ofPred_eq, Mat3.apply]
    simp only [min_le_iff, le_max_iff]
    refine ⟨⟨?_, ?_⟩, ?_, ?_⟩
    · rcases kx1 with h | h | h | h <;> simp only [h, true_or, or_true]
    · rcases kx2 with h | h | h | h <;> simp only [h, true_or, or_true]
    · rcases ky1 with h | h | h | h <;> simp only [h, true_or, or_true]
    · rcases ky2 with h | h | h | h <;> simp only [h, true_or, or_true]

theorem norm_bboxOf (xf : Mat3 ℝ) (b b' : BBox ℝ) (h : bboxOf xf b = .ok b') : b'.Norm := by
  cases b with
  | none => simp [bboxOf] at h
  | box xl yl xh yh =>
    simp only [bboxOf, Except.ok.injEq] at h
    subst h
    exact BBox.norm_add _ _

theorem mem_pathOf (n : ℕ) (ss : List (Poly4 ℝ)) (q : Pt ℝ) (hq : q ∈ pathOf n ss) :
    ∃ s ∈ ss, ∃ t, 0 ≤ t ∧ t ≤ 1 ∧ q = s.at' t := by
  have key : ∀ s : Poly4 ℝ, q ∈ (List.range (n + 1)).map (fun (i : ℕ) => s.at' ((i : ℝ) / n)) →
      ∃ t, 0 ≤ t ∧ t ≤ 1 ∧ q = s.at' t := by
    intro s hs
    obtain ⟨i, hi, rfl⟩ := List.mem_map.1 hs
    rw [List.mem_range] at hi
    refine ⟨_, by positivity, ?_, rfl⟩
    rcases Nat.eq_zero_or_pos n with rfl | hn
    · simp
    · rw [div_le_one (by exact_mod_cast hn)]; exact_mod_cast (by omega : i ≤ n)
  cases ss with
  | nil => simp [pathOf] at hq
  | cons s rest =>
    rw [pathOf, List.mem_append, List.mem_flatMap] at hq
    rcases hq with hq | ⟨s', hs', hq⟩
    · exact ⟨s, by simp, key s hq⟩
    · exact ⟨s', by simp [hs'], key s' (List.mem_of_mem_tail hq)⟩

/-- The outline of a basic shape lies in its inner box. -/
theorem outline_mem (cfg : DCfg) (e : Elem) (he : e.Basic) (hs : e.Sound) (b : BBox ℝ) (hb : bboxInt e = .ok b)
    (pts : List (Pt ℝ)) (ho : outline cfg e = .ok pts) : ∀ q ∈ pts, q ∈ b.Region := by
  intro q hq
  cases e with
  | curve h cps =>
    rw [bboxInt] at hb
    simp only [outline, Except.ok.injEq] at ho
    subst ho
    obtain ⟨s, hs, t, h0, h1, rfl⟩ := mem_pathOf _ _ _ hq
    exact C32_curve_in_bbox _ cps b hb s hs t h0 h1
  | rect h p1 p2 =>
    simp only [bboxInt, Except.ok.injEq] at hb
    simp only [outline, Except.ok.injEq] at ho
    subst ho hb
    simp only [List.mem_cons, List.not_mem_nil, or_false] at hq
    rcases hq with rfl | rfl | rfl | rfl | rfl <;>
      simp [BBox.ofPts, BBox.mk', BBox.Region]
  | rrect h p1 p2 r =>
    simp only [bboxInt, Except.ok.injEq] at hb
    subst hb
    obtain ⟨cps, h1, _, h2⟩ := C50_inside p1 p2 r hs.2
    simp only [outline, h1, Except.map, Except.ok.injEq] at ho
    subst ho
    obtain ⟨s, hs, t, h0, h1, rfl⟩ := mem_pathOf _ _ _ hq
    exact h2 ⟨s, hs, t, h0, h1, rfl⟩
  | ellipse h p1 p2 =>
    simp only [bboxInt, Except.ok.injEq] at hb
    subst hb
    obtain ⟨cps, h1, _, h2⟩ := C49_inside p1 p2
    simp only [outline, h1, Except.map, Except.ok.injEq] at ho
    subst ho
    obtain ⟨s, hs, t, h0, h1, rfl⟩ := mem_pathOf _ _ _ hq
    exact h2 ⟨s, hs, t, h0, h1, rfl⟩
  | group h x y => exact he.elim
  | holes h x y => exact he.elim

/-- Every point drawn by `e` under the matrix `m` satisfies `P`. -/
def AllPts (cfg : DCfg) (e : Elem) (m : Mat3 ℝ) (P : Pt ℝ → Prop) : Prop :=
  ∀ ps, drawn cfg e m = .ok ps → ∀ p ∈ ps, ∀ q ∈ p.pts, P q

theorem basic_pts (cfg : DCfg) (e : Elem) (he : e.Basic) (hs : e.Sound) (m : Mat3 ℝ) (b : BBox ℝ) (hb : bboxInt e = .ok b) :
    AllPts cfg e m fun q => ∃ q0 ∈ b.Region, q = (m.mul e.hdr.xf).apply q0 := by
  intro ps hd p hp q hq
  rw [drawn_basic cfg e he] at hd
  cases ho : outline cfg e with
  | error er => rw [ho] at hd; simp [Except.map] at hd
  | ok pts =>
    rw [ho] at hd
    simp only [Except.map, Except.ok.injEq] at hd
    subst hd
    simp only [List.mem_singleton] at hp
    subst hp
    obtain ⟨q0, h0, rfl⟩ := List.mem_map.1 hq
    exact ⟨q0, outline_mem cfg e he hs b hb pts ho q0 h0, rfl⟩

theorem group_pts (cfg : DCfg) (h : Hdr) (hidden : Bool) (es : List (Str × Elem)) (m : Mat3 ℝ) (P : Pt ℝ → Prop)
    (hP : ∀ x ∈ es, AllPts cfg x.2 (m.mul h.xf) P) : AllPts cfg (.group h hidden es) m P := by
  intro ps hd
  cases hidden with
  | true =>
    rw [drawn_hidden] at hd
    simp only [Except.ok.injEq] at hd
    subst hd
    simp
  | false =>
    rw [drawn_group] at hd
    have key : ∀ (es : List (Str × Elem)) (pss : List (List Path)), (∀ x ∈ es, AllPts cfg x.2 (m.mul h.xf) P) →
        (es.mapM fun x => drawn cfg x.2 (m.mul h.xf)) = .ok pss → ∀ p ∈ pss.flatten, ∀ q ∈ p.pts, P q := by
      intro es
      induction es with
      | nil =>
        intro pss _ hm
        simp only [List.mapM_nil, pure, Except.pure, Except.ok.injEq] at hm
        subst hm
        simp
      | cons x es ih =>
        intro pss hP hm
        rw [List.mapM_cons] at hm
        cases h1 : drawn cfg x.2 (m.mul h.xf) with
        | error er => rw [h1] at hm; simp [bind, Except.bind] at hm
        | ok ps1 =>
          cases h2 : es.mapM fun x => drawn cfg x.2 (m.mul h.xf) with
          | error er => rw [h1, h2] at hm; simp [bind, Except.bind] at hm
          | ok pss2 =>
            rw [h1, h2] at hm
            simp only [bind, Except.bind, pure, Except.pure, Except.ok.injEq] at hm
            subst hm
            intro p hp
            rw [List.flatten_cons, List.mem_append] at hp
            rcases hp with hp | hp
            · exact hP x (by simp) ps1 h1 p hp
            · exact ih pss2 (fun x hx => hP x (by simp [hx])) h2 p hp
    cases hm : es.mapM fun x => drawn cfg x.2 (m.mul h.xf) with
    | error er => rw [hm] at hd; simp [Except.map] at hd
    | ok pss =>
      rw [hm] at hd
      simp only [Except.map, Except.ok.injEq] at hd
      subst hd
      exact key es pss hP hm

theorem extend_pts (P : Pt ℝ → Prop) (p p' : Path) (more : List (Pt ℝ)) (c : Bool) (h1 : ∀ q ∈ p.pts, P q) (h2 : ∀ q ∈ more, P q)
    (h : p.extend more c = .ok p') : ∀ q ∈ p'.pts, P q := by
  cases c with
  | false =>
    simp only [Path.extend, Bool.false_eq_true, if_false, Except.ok.injEq] at h
    subst h
    intro q hq
    rcases List.mem_append.1 hq with hq | hq
    · exact h1 q hq
    · exact h2 q hq
  | true =>
    simp only [Path.extend, if_true] at h
    cases hl : p.pts.getLast? with
    | none => rw [hl] at h; simp at h
    | some l =>
      rw [hl] at h
      simp only [Except.ok.injEq] at h
      subst h
      intro q hq
      rcases List.mem_append.1 hq with hq | hq
      · exact h1 q hq
      · rcases List.mem_append.1 hq with hq | hq
        · exact h2 q hq
        · rw [List.mem_singleton] at hq
          subst hq
          exact h1 _ (List.mem_of_getLast? hl)

theorem fillInside_pts (P : Pt ℝ → Prop) (edge : PenBrush) (ps : List Path) (hps : ∀ p ∈ ps, ∀ q ∈ p.pts, P q) :
    ∀ (todo : List Path), (∀ p ∈ todo, ∀ q ∈ p.pts, P q) → ∀ (edges edges' : List Path) (fill fill' : Path),
      (∀ p ∈ edges, ∀ q ∈ p.pts, P q) → (∀ q ∈ fill.pts, P q) → fillInside edge ps todo (edges, fill) = .ok (edges', fill') →
      (∀ p ∈ edges', ∀ q ∈ p.pts, P q) ∧ ∀ q ∈ fill'.pts, P q := by
  intro todo
  induction todo with
  | nil =>
    intro _ edges edges' fill fill' h1 h2 h
    simp only [fillInside, Except.ok.injEq, Prod.mk.injEq] at h
    obtain ⟨rfl, rfl⟩ := h
    exact ⟨h1, h2⟩
  | cons t todo ih =>
    intro ht edges edges' fill fill' h1 h2 h
    simp only [fillInside] at h
    cases he : fill.extend t.pts true with
    | error er => rw [he] at h; simp at h
    | ok f =>
      rw [he] at h
      refine ih (fun p hp => ht p (by simp [hp])) _ edges' f fill' ?_ (extend_pts P fill f _ true h2 (ht t (by simp)) he) h
      intro p hp
      rcases List.mem_append.1 hp with hp | hp
      · exact h1 p hp
      · obtain ⟨p0, h0, rfl⟩ := List.mem_map.1 hp
        exact hps p0 h0

theorem pathsFill_pts (cfg : DCfg) (P : Pt ℝ → Prop) (edge : PenBrush) (m : Mat3 ℝ) :
    ∀ (inside : List Elem), (∀ e ∈ inside, AllPts cfg e m P) → ∀ (s : TState) (edges edges' : List Path) (fill fill' : Path),
      s.mat = m → (∀ p ∈ edges, ∀ q ∈ p.pts, P q) → (∀ q ∈ fill.pts, P q) →
      (pathsFill cfg edge inside s (edges, fill)).2 = .ok (edges', fill') →
      (∀ p ∈ edges', ∀ q ∈ p.pts, P q) ∧ ∀ q ∈ fill'.pts, P q := by
  intro inside
  induction inside with
  | nil =>
    intro _ s edges edges' fill fill' _ h1 h2 h
    simp only [pathsFill, Except.ok.injEq, Prod.mk.injEq] at h
    obtain ⟨rfl, rfl⟩ := h
    exact ⟨h1, h2⟩
  | cons e inside ih =>
    intro hi s edges edges' fill fill' hs h1 h2 h
    rw [pathsFill] at h
    have k1 := (paths_keeps cfg e s).1
    have k2 := drawn_push cfg e s
    obtain ⟨a, r, ha⟩ := pair_cases (paths cfg e s)
    rw [ha] at k1 k2 h
    simp only [hs] at k1 k2
    cases r with
    | error er => simp at h
    | ok ps =>
      have hps := hi e (by simp) ps k2.symm
      simp only at h
      cases hf : fillInside edge ps ps (edges, fill) with
      | error er => rw [hf] at h; simp at h
      | ok acc =>
        obtain ⟨edges2, fill2⟩ := acc
        rw [hf] at h
        obtain ⟨j1, j2⟩ := fillInside_pts P edge ps hps ps hps edges edges2 fill fill2 h1 h2 hf
        exact ih (fun e he => hi e (by simp [he])) a edges2 edges' fill2 fill' k1 j1 j2 h

theorem pathsEdge_pts (cfg : DCfg) (P : Pt ℝ → Prop) (edge : PenBrush) (m : Mat3 ℝ) :
    ∀ (inside : List Elem), (∀ e ∈ inside, AllPts cfg e m P) → ∀ (s : TState) (edges edges' : List Path),
      s.mat = m → (∀ p ∈ edges, ∀ q ∈ p.pts, P q) → (pathsEdge cfg edge inside s edges).2 = .ok edges' →
      ∀ p ∈ edges', ∀ q ∈ p.pts, P q := by
  intro inside
  induction inside with
  | nil =>
    intro _ s edges edges' _ h1 h
    simp only [pathsEdge, Except.ok.injEq] at h
    subst h
    exact h1
  | cons e inside ih =>
    intro hi s edges edges' hs h1 h
    rw [pathsEdge] at h
    have k1 := (paths_keeps cfg e s).1
    have k2 := drawn_push cfg e s
    obtain ⟨a, r, ha⟩ := pair_cases (paths cfg e s)
    rw [ha] at k1 k2 h
    simp only [hs] at k1 k2
    cases r with
    | error er => simp at h
    | ok ps =>
      refine ih (fun e he => hi e (by simp [he])) a _ edges' k1 ?_ h
      intro p hp
      rcases List.mem_append.1 hp with hp | hp
      · exact h1 p hp
      · obtain ⟨p0, h0, rfl⟩ := List.mem_map.1 hp
        exact hi e (by simp) ps k2.symm p0 h0

theorem holes_pts (cfg : DCfg) (h : Hdr) (o : Elem) (inside : List Elem) (m : Mat3 ℝ) (P : Pt ℝ → Prop)
    (ho : AllPts cfg o (m.mul h.xf) P) (hi : ∀ e ∈ inside, AllPts cfg e (m.mul h.xf) P) :
    AllPts cfg (.holes h o inside) m P := by
  intro ps hd
  simp only [drawn, paths_holes, drawSpace_eq (holesBody_keeps cfg h o inside), holesBody, TState.push, TState.compose] at hd
  have h1 := (paths_keeps cfg o ⟨m.mul h.xf, none, [m]⟩).1
  have h2 := drawn_push cfg o ⟨m.mul h.xf, none, [m]⟩
  obtain ⟨a, r, ha⟩ := pair_cases (paths cfg o ⟨m.mul h.xf, none, [m]⟩)
  rw [ha] at h1 h2 hd
  simp only at h1 h2
  match r with
  | .error er => simp at hd
  | .ok [] => simp at hd
  | .ok (_ :: _ :: _) => simp at hd
  | .ok [po] =>
    have hpo := ho [po] h2.symm po (by simp)
    have he : ∀ p ∈ [{ po with pb := (⟨h.pb.pen, none⟩ : PenBrush) }], ∀ q ∈ p.pts, P q := by
      intro p hp; rw [List.mem_singleton] at hp; subst hp; exact hpo
    cases hb : h.pb.brush with
    | none =>
      simp only [hb] at hd
      exact pathsEdge_pts cfg P _ _ inside hi a _ ps h1 he hd
    | some b =>
      simp only [hb] at hd
      obtain ⟨c, t, hc⟩ := pair_cases (pathsFill cfg ⟨h.pb.pen, none⟩ inside a ([{ po with pb := ⟨h.pb.pen, none⟩ }],
        ⟨⟨none, some b⟩, po.closed, po.pts⟩))
      rw [hc] at hd
      cases t with
      | error er => simp at hd
      | ok ef =>
        obtain ⟨edges, fill⟩ := ef
        simp only [Except.ok.injEq] at hd
        subst hd
        obtain ⟨j1, j2⟩ := pathsFill_pts cfg P _ _ inside hi a _ edges ⟨⟨none, some b⟩, po.closed, po.pts⟩ fill h1 he hpo (by rw [hc])
        intro p hp
        rcases List.mem_cons.1 hp with rfl | hp
        · exact j2
        · exact j1 p hp

theorem bboxAll_spec : ∀ (es : List (Str × Elem)) (acc b : BBox ℝ), acc.Norm → bboxAll es acc = .ok b →
    acc.Region ⊆ b.Region ∧ ∀ x ∈ es, ∃ bx, bboxInt x.2 = .ok bx ∧ ∀ b', bboxOf x.2.hdr.xf bx = .ok b' → b'.Region ⊆ b.Region := by
  intro es
  induction es with
  | nil =>
    intro acc b _ h
    simp only [bboxAll, Except.ok.injEq] at h
    subst h
    exact ⟨subset_rfl, by simp⟩
  | cons x es ih =>
    intro acc b hn h
    obtain ⟨k, e⟩ := x
    rw [bboxAll] at h
    cases h1 : bboxInt e with
    | error er => rw [h1] at h; simp [bboxFrom] at h
    | ok bx =>
      rw [h1] at h
      simp only [bboxFrom] at h
      cases h2 : bboxOf e.hdr.xf bx with
      | error er => rw [h2] at h; simp at h
      | ok be =>
        rw [h2] at h
        simp only at h
        obtain ⟨j1, j2⟩ := ih _ b (BBox.norm_add _ _) h
        have hs := region_sub_add hn (norm_bboxOf _ _ _ h2)
        refine ⟨hs.1.trans j1, ?_⟩
        intro x hx
        rcases List.mem_cons.1 hx with rfl | hx
        · refine ⟨bx, h1, ?_⟩
          intro b' hb'
          rw [h2] at hb'
          injection hb' with hb'
          subst hb'
          exact hs.2.trans j1
        · exact j2 x hx

theorem bboxIn_eq_all (es : List Elem) (acc : BBox ℝ) : bboxIn es acc = bboxAll (es.map fun e => ([], e)) acc := by
  induction es generalizing acc with
  | nil => simp [bboxIn, bboxAll]
  | cons e es ih =>
    rw [List.map_cons, bboxIn, bboxAll]
    cases bboxFrom e.hdr.xf (bboxInt e) with
    | error er => rfl
    | ok bb => exact ih _

theorem norm_bboxAll : ∀ (es : List (Str × Elem)) (acc b : BBox ℝ), acc.Norm → bboxAll es acc = .ok b → b.Norm := by
  intro es
  induction es with
  | nil =>
    intro acc b hn h
    simp only [bboxAll, Except.ok.injEq] at h
    subst h
    exact hn
  | cons x es ih =>
    intro acc b hn h
    rw [bboxAll] at h
    cases h1 : bboxFrom x.2.hdr.xf (bboxInt x.2) with
    | error er => rw [h1] at h; simp at h
    | ok be => rw [h1] at h; exact ih _ b (BBox.norm_add _ _) h

theorem contains_region {a b : BBox ℝ} (hb : b.Norm) (h : a.contains b = .ok true) : b.Region ⊆ a.Region := by
  obtain ⟨h1, h2⟩ := BBox.C12_contains_iff a b hb
  by_cases ha : a = .none
  · rw [h1 (.inl ha)] at h; simp at h
  · by_cases hb : b = .none
    · rw [h1 (.inr hb)] at h; simp at h
    · obtain ⟨r, hr, hi⟩ := h2 ha hb
      rw [hr] at h
      injection h with h
      exact hi.1 h

mutual
theorem drawn_in_bboxInt (cfg : DCfg) : (e : Elem) → e.Sound → (m : Mat3 ℝ) → (b : BBox ℝ) → bboxInt e = .ok b →
    AllPts cfg e m fun q => ∃ q0 ∈ b.Region, q = (m.mul e.hdr.xf).apply q0
  | .curve h cps => fun hs m b hb => basic_pts cfg (.curve h cps) trivial hs m b hb
  | .rect h p1 p2 => fun hs m b hb => basic_pts cfg (.rect h p1 p2) trivial hs m b hb
  | .rrect h p1 p2 r => fun hs m b hb => basic_pts cfg (.rrect h p1 p2 r) trivial hs m b hb
  | .ellipse h p1 p2 => fun hs m b hb => basic_pts cfg (.ellipse h p1 p2) trivial hs m b hb
  | .group h hidden es => by
    intro hs m b hb
    rw [Sound] at hs
    rw [bboxInt] at hb
    have hb' : bboxAll es .none = .ok b := by
      split at hb
      · simp at hb
      · exact hb
    have h2 := (bboxAll_spec es .none b BBox.norm_none hb').2
    refine group_pts cfg h hidden es m _ ?_
    intro x hx ps hd p hp q hq
    obtain ⟨bx, j1, j2⟩ := h2 x hx
    obtain ⟨hsx, hall⟩ := drawn_in_bboxAll cfg es hs.2 x hx
    obtain ⟨q0, h0, rfl⟩ := hall (m.mul h.xf) bx j1 ps hd p hp q hq
    obtain ⟨b', hb'⟩ : ∃ b', bboxOf x.2.hdr.xf bx = .ok b' := by
      cases bx with
      | none => exact h0.elim
      | box xl yl xh yh => exact ⟨_, rfl⟩
    refine ⟨x.2.hdr.xf.apply q0, j2 b' hb' (mem_bboxOf _ _ _ hb' q0 h0), ?_⟩
    rw [Mat3.apply_mul hsx]
    rfl
  | .holes h o i => by
    intro hs m b hb
    rw [Sound] at hs
    obtain ⟨hx, hox, hos, his⟩ := hs
    rw [bboxInt] at hb
    cases h1 : bboxInt o with
    | error er => rw [h1] at hb; simp at hb
    | ok bo =>
      cases h2 : bboxIn i .none with
      | error er => rw [h1, h2] at hb; simp at hb
      | ok bi =>
        rw [h1, h2] at hb
        simp only at hb
        cases h3 : bo.contains bi with
        | error er => rw [h3] at hb; simp at hb
        | ok r =>
          cases r with
          | false => rw [h3] at hb; simp at hb
          | true =>
            rw [h3] at hb
            simp only [Except.ok.injEq] at hb
            subst hb
            rw [bboxIn_eq_all] at h2
            have hsub := contains_region (norm_bboxAll _ _ _ BBox.norm_none h2) h3
            have h4 := (bboxAll_spec _ .none bi BBox.norm_none h2).2
            refine holes_pts cfg h o i m _ ?_ ?_
            · intro ps hd p hp q hq
              have := drawn_in_bboxInt cfg o hos (m.mul h.xf) bo h1 ps hd p hp q hq
              rw [hox, Mat3.mul_one'] at this
              exact this
            · intro e he ps hd p hp q hq
              obtain ⟨bx, j1, j2⟩ := h4 ([], e) (List.mem_map.2 ⟨e, he, rfl⟩)
              obtain ⟨hse, hall⟩ := drawn_in_bboxIn cfg i his e he
              obtain ⟨q0, h0, rfl⟩ := hall (m.mul h.xf) bx j1 ps hd p hp q hq
              obtain ⟨b', hb'⟩ : ∃ b', bboxOf e.hdr.xf bx = .ok b' := by
                cases bx with
                | none => exact h0.elim
                | box xl yl xh yh => exact ⟨_, rfl⟩
              refine ⟨e.hdr.xf.apply q0, hsub (j2 b' hb' (mem_bboxOf _ _ _ hb' q0 h0)), ?_⟩
              rw [Mat3.apply_mul hse]
              rfl
theorem drawn_in_bboxAll (cfg : DCfg) : (es : List (Str × Elem)) → SoundAll es → ∀ x ∈ es, x.2.hdr.xf.Affine ∧
    ∀ (m : Mat3 ℝ) (b : BBox ℝ), bboxInt x.2 = .ok b →
      AllPts cfg x.2 m fun q => ∃ q0 ∈ b.Region, q = (m.mul x.2.hdr.xf).apply q0
  | [] => by simp
  | (k, e) :: rest => by
    intro hs x hx
    rw [SoundAll] at hs
    rcases List.mem_cons.1 hx with rfl | hx
    · refine ⟨?_, fun m b hb => drawn_in_bboxInt cfg e hs.1 m b hb⟩
      have := hs.1
      cases e <;> simp only [Sound] at this <;> first | exact this | exact this.1
    · exact drawn_in_bboxAll cfg rest hs.2 x hx
theorem drawn_in_bboxIn (cfg : DCfg) : (es : List Elem) → SoundIn es → ∀ e ∈ es, e.hdr.xf.Affine ∧
    ∀ (m : Mat3 ℝ) (b : BBox ℝ), bboxInt e = .ok b →
      AllPts cfg e m fun q => ∃ q0 ∈ b.Region, q = (m.mul e.hdr.xf).apply q0
  | [] => by simp
  | e :: rest => by
    intro hs x hx
    rw [SoundIn] at hs
    rcases List.mem_cons.1 hx with hxe | hx
    · rw [hxe]
      refine ⟨?_, fun m b hb => drawn_in_bboxInt cfg e hs.1 m b hb⟩
      have := hs.1
      clear hx hxe
      cases e <;> simp only [Sound] at this <;> first | exact this | exact this.1
    · exact drawn_in_bboxIn cfg rest hs.2 x hx
end

end X7.Elem
