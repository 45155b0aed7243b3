import Verif.Lemmas.Equal
import Verif.Lemmas.ElemBBox
import Verif.Props.BBox

/-!
C74: `==` of points, vectors, control points and elements.
-/

noncomputable section

open scoped Classical

namespace X7.Dump

/-- C74: points, vectors and control points are equal exactly if they are of the same class with equal attributes: names count, and so
does the point a relative point is relative to. -/
theorem C74_points : (∀ a b : DPt, a.eqv b = true ↔ a = b) ∧ (∀ a b : DVec, a.eqv b = true ↔ a = b) ∧
    (∀ a b : DCp, a.eqv b = true ↔ a = b) := ⟨DPt.eqv_iff, DVec.eqv_iff, DCp.eqv_iff⟩

/-- C74: pens and transforms. -/
theorem C74_pens : (∀ a b : PenBrush, pbEqv a b = true ↔ a = b) ∧ (∀ a b : Mat3 ℝ, xfEqv a b = true ↔ a = b) := ⟨pbEqv_iff, xfEqv_iff⟩

/-- C74: two elements are equal exactly if they are the same up to the order of the entries of dicts. -/
theorem C74_same {d : DElem} (hk : Keys d) (d' : DElem) : d.eqv d' = true ↔ Reorder d d' := eqv_iff_reorder hk

/-- C74: `==` is an equivalence relation on elements. -/
theorem C74_equivalence : (∀ d, Keys d → d.eqv d = true) ∧ (∀ d d' : DElem, Keys d → d.eqv d' = true → d'.eqv d = true) ∧
    (∀ d d' d'' : DElem, Keys d → d.eqv d' = true → d'.eqv d'' = true → d.eqv d'' = true) := by
  refine ⟨eqv_refl, fun d d' hk h => ?_, fun d d' d'' hk h1 h2 => ?_⟩
  · have hr := (eqv_iff_reorder hk).1 h
    exact (eqv_iff_reorder (hr.keys hk)).2 hr.symm
  · have hr := (eqv_iff_reorder hk).1 h1
    exact (eqv_iff_reorder hk).2 (hr.trans ((eqv_iff_reorder (hr.keys hk)).1 h2))

/-- C74: without groups, equal elements are the same. -/
theorem reorder_noGroups {d d' : DElem} (h : Reorder d d') : NoGroups d → d = d' := by
  induction h with
  | refl d => exact fun _ => rfl
  | trans _ _ ih1 ih2 =>
    intro h
    have e := ih1 h
    subst e
    exact ih2 h
  | elems => intro h; simp [NoGroups] at h
  | points => intro h; simp [NoGroups] at h
  | member => intro h; simp [NoGroups] at h
  | outside h is _ ih =>
    intro hn
    rw [NoGroups] at hn
    rw [ih hn.1]
  | hole h o a b _ ih =>
    rename_i d d' _
    intro hn
    rw [NoGroups] at hn
    have : ∀ l : List DElem, NoGroupsIn l → ∀ x ∈ l, NoGroups x := by
      intro l
      induction l with
      | nil => simp
      | cons x l ih => simp only [NoGroupsIn]; intro ⟨h1, h2⟩ y hy; rcases List.mem_cons.1 hy with rfl | hy; exacts [h1, ih h2 y hy]
    rw [ih (this _ hn.2 d (by simp))]

theorem C74_no_groups {d : DElem} (hk : Keys d) (hn : NoGroups d) (d' : DElem) : d.eqv d' = true ↔ d = d' :=
  ⟨fun h => reorder_noGroups ((eqv_iff_reorder hk).1 h) hn, fun h => h ▸ eqv_refl d hk⟩

/-! ### Drawing -/

theorem plainAll_eq (es : List (Str × DElem)) : plainAll es = es.map fun x => (x.1, x.2.plain) := by
  induction es with
  | nil => rfl
  | cons x es ih => obtain ⟨k, e⟩ := x; simp [plainAll, ih]

theorem plainIn_eq (es : List DElem) : plainIn es = es.map DElem.plain := by
  induction es with
  | nil => rfl
  | cons x es ih => simp [plainIn, ih]

theorem pathsAll_iff (cfg : DCfg) (es : List (Str × Elem)) : ∀ (s : TState) (l : List Path), (Elem.pathsAll cfg es s).2 = .ok l ↔
    ∃ L, List.Forall₂ (fun x ps => (Elem.paths cfg x.2 s).2 = .ok ps) es L ∧ l = L.flatten := by
  induction es with
  | nil =>
    intro s l
    rw [Elem.pathsAll]
    simp [eq_comm]
  | cons x es ih =>
    intro s l
    obtain ⟨k, e⟩ := x
    rw [Elem.pathsAll]
    have hk := (Elem.paths_keeps cfg e s).1
    obtain ⟨a, r, ha⟩ := Elem.pair_cases (Elem.paths cfg e s)
    rw [ha] at hk ⊢
    cases r with
    | error er =>
      simp only [List.forall₂_cons_left_iff]
      constructor
      · intro h; simp at h
      · rintro ⟨L, ⟨b, c, h1, -⟩, -⟩
        simp [ha] at h1
    | ok ps =>
      have hm := Elem.pathsAll_onlyMat cfg es a s hk
      obtain ⟨b, t, hb⟩ := Elem.pair_cases (Elem.pathsAll cfg es a)
      have hi := ih s
      rw [← hm, hb] at hi
      simp only [hb]
      cases t with
      | error er =>
        constructor
        · intro h; simp at h
        · rintro ⟨L, h1, rfl⟩
          cases h1 with
          | cons h2 h3 =>
            have := (hi _).2 ⟨_, h3, rfl⟩
            simp at this
      | ok qs =>
        constructor
        · intro h
          simp only [Except.ok.injEq] at h
          obtain ⟨L, h1, h2⟩ := (hi qs).1 rfl
          refine ⟨ps :: L, .cons (by simp [ha]) h1, ?_⟩
          rw [← h, h2]; rfl
        · rintro ⟨L, h1, rfl⟩
          cases h1 with
          | cons h2 h3 =>
            rename_i p L'
            simp only [ha, Except.ok.injEq] at h2
            have h4 := (hi _).2 ⟨_, h3, rfl⟩
            simp only [Except.ok.injEq] at h4
            simp [h2, h4]

theorem forall₂_append {α β : Type} {R : α → β → Prop} : ∀ {a b : List α} {L : List β}, List.Forall₂ R (a ++ b) L →
    ∃ L1 L2, List.Forall₂ R a L1 ∧ List.Forall₂ R b L2 ∧ L = L1 ++ L2
  | [], _, L, h => ⟨[], L, .nil, h, rfl⟩
  | _ :: a, _, _, .cons h1 h2 => by
    obtain ⟨L1, L2, e1, e2, rfl⟩ := forall₂_append (a := a) h2
    exact ⟨_ :: L1, L2, .cons h1 e1, e2, rfl⟩

/-- `e'` draws the paths of `e`, maybe in another order. -/
def DrawsLike (cfg : DCfg) (e e' : Elem) : Prop :=
  ∀ s ps, (e.paths cfg s).2 = .ok ps → ∃ qs, (e'.paths cfg s).2 = .ok qs ∧ ps.Perm qs

theorem paths_group (cfg : DCfg) (h : Hdr) (hid : Bool) (es : List (Str × Elem)) (s : TState) :
    (Elem.paths cfg (.group h hid es) s).2 = if hid then .ok [] else (Elem.pathsAll cfg es (s.push.compose h.xf)).2 := by
  rw [Elem.paths]
  split
  · rfl
  · rw [Elem.drawSpace_eq (Elem.pathsAll_keeps cfg es)]

theorem drawsLike_group (cfg : DCfg) (h : Hdr) (hid : Bool) (es es' : List (Str × Elem))
    (H : ∀ s L, List.Forall₂ (fun x ps => (Elem.paths cfg x.2 s).2 = .ok ps) es L →
      ∃ L', List.Forall₂ (fun x ps => (Elem.paths cfg x.2 s).2 = .ok ps) es' L' ∧ L.flatten.Perm L'.flatten) :
    DrawsLike cfg (.group h hid es) (.group h hid es') := by
  intro s ps hp
  rw [paths_group] at hp ⊢
  cases hid with
  | true => exact ⟨ps, hp, .refl _⟩
  | false =>
    simp only [Bool.false_eq_true, if_false] at hp ⊢
    obtain ⟨L, h1, rfl⟩ := (pathsAll_iff cfg es _ _).1 hp
    obtain ⟨L', h2, h3⟩ := H _ L h1
    exact ⟨_, (pathsAll_iff cfg es' _ _).2 ⟨L', h2, rfl⟩, h3⟩

theorem holesBody_congr (cfg : DCfg) (h : Hdr) (o o' : Elem) (i : List Elem) (s : TState)
    (he : (Elem.paths cfg o s).2 = (Elem.paths cfg o' s).2) : (Elem.holesBody cfg h o i s).2 = (Elem.holesBody cfg h o' i s).2 := by
  have h1 := (Elem.paths_keeps cfg o s).1
  have h1' := (Elem.paths_keeps cfg o' s).1
  obtain ⟨a, r, ha⟩ := Elem.pair_cases (Elem.paths cfg o s)
  obtain ⟨a', r', ha'⟩ := Elem.pair_cases (Elem.paths cfg o' s)
  simp only [Elem.holesBody]
  rw [ha] at he h1 ⊢
  rw [ha'] at he h1' ⊢
  simp only at he h1 h1'
  subst he
  have haa : a.mat = a'.mat := by rw [h1, h1']
  match r with
  | .error er => rfl
  | .ok [] => rfl
  | .ok (_ :: _ :: _) => rfl
  | .ok [edge] =>
    cases hb : h.pb.brush with
    | none => exact Elem.pathsEdge_onlyMat cfg _ i _ a a' haa
    | some b =>
      have h2 := Elem.pathsFill_onlyMat cfg ⟨h.pb.pen, none⟩ i ([{ edge with pb := ⟨h.pb.pen, none⟩ }], ⟨⟨none, some b⟩, edge.closed, edge.pts⟩) a a' haa
      obtain ⟨c, t, hc⟩ := Elem.pair_cases (Elem.pathsFill cfg ⟨h.pb.pen, none⟩ i a ([{ edge with pb := ⟨h.pb.pen, none⟩ }], ⟨⟨none, some b⟩, edge.closed, edge.pts⟩))
      obtain ⟨c', t', hc'⟩ := Elem.pair_cases (Elem.pathsFill cfg ⟨h.pb.pen, none⟩ i a' ([{ edge with pb := ⟨h.pb.pen, none⟩ }], ⟨⟨none, some b⟩, edge.closed, edge.pts⟩))
      simp only [hc, hc'] at h2 ⊢
      subst h2
      cases t <;> rfl

/-- `ElemWithHoles.paths` needs exactly one path of its outside. -/
theorem holesBody_one (cfg : DCfg) (h : Hdr) (o : Elem) (i : List Elem) (s : TState) (ps : List Path)
    (hp : (Elem.holesBody cfg h o i s).2 = .ok ps) : ∃ edge, (Elem.paths cfg o s).2 = .ok [edge] := by
  obtain ⟨a, r, ha⟩ := Elem.pair_cases (Elem.paths cfg o s)
  simp only [Elem.holesBody, ha] at hp ⊢
  match r, hp with
  | .error er, hp => simp at hp
  | .ok [], hp => simp at hp
  | .ok (_ :: _ :: _), hp => simp at hp
  | .ok [edge], _ => exact ⟨edge, rfl⟩

theorem plainHolesAll_iff (es : List (Str × DElem)) : PlainHolesAll es ↔ ∀ x ∈ es, PlainHoles x.2 := by
  induction es with
  | nil => simp [PlainHolesAll]
  | cons x es ih => obtain ⟨k, e⟩ := x; simp [PlainHolesAll, ih]

theorem noGroupsIn_iff (es : List DElem) : NoGroupsIn es ↔ ∀ x ∈ es, NoGroups x := by
  induction es with
  | nil => simp [NoGroupsIn]
  | cons x es ih => simp [NoGroupsIn, ih]

theorem reorder_plainHoles {d d' : DElem} (h : Reorder d d') : PlainHoles d → PlainHoles d' := by
  induction h with
  | refl => exact id
  | trans _ _ ih1 ih2 => exact fun h => ih2 (ih1 h)
  | elems h hid a x y b ps =>
    simp only [PlainHoles, plainHolesAll_iff]
    have hp : (a ++ x :: y :: b).Perm (a ++ y :: x :: b) := .append_left a (.swap _ _ _)
    exact fun h z hz => h z (hp.mem_iff.2 hz)
  | points => simp only [PlainHoles]; exact id
  | member h hid a k b ps _ ih =>
    simp only [PlainHoles, plainHolesAll_iff, List.mem_append, List.mem_cons]
    rintro h3 z (hz | rfl | hz)
    · exact h3 z (.inl hz)
    · exact ih (h3 _ (.inr (.inl rfl)))
    · exact h3 z (.inr (.inr hz))
  | outside h is _ ih => simp only [PlainHoles]; exact fun ⟨h1, h2⟩ => ⟨ih h1, h2⟩
  | hole h o a b hr ih =>
    simp only [PlainHoles, noGroupsIn_iff]
    rintro ⟨h1, h2⟩
    rw [← reorder_noGroups hr (h2 _ (by simp))]
    exact ⟨h1, h2⟩

theorem reorder_draws (cfg : DCfg) {d d' : DElem} (h : Reorder d d') : PlainHoles d → DrawsLike cfg d.plain d'.plain := by
  induction h with
  | refl => exact fun _ s ps h => ⟨ps, h, .refl _⟩
  | trans h1 _ ih1 ih2 =>
    intro h s ps hp
    obtain ⟨qs, h3, h4⟩ := ih1 h s ps hp
    obtain ⟨rs, h5, h6⟩ := ih2 (reorder_plainHoles h1 h) s qs h3
    exact ⟨rs, h5, h4.trans h6⟩
  | elems h hid a x y b ps =>
    intro _
    simp only [DElem.plain, plainAll_eq, List.map_append, List.map_cons]
    apply drawsLike_group
    intro s L hL
    obtain ⟨L1, L2, e1, e2, rfl⟩ := forall₂_append hL
    cases e2 with
    | @cons _ p1 _ _ e3 e4 =>
      cases e4 with
      | @cons _ p2 _ L3 e5 e6 =>
        refine ⟨L1 ++ p2 :: p1 :: L3, List.rel_append e1 (.cons e5 (.cons e3 e6)), ?_⟩
        simp only [List.flatten_append, List.flatten_cons]
        refine .append_left _ ?_
        rw [← List.append_assoc, ← List.append_assoc]
        exact .append_right _ List.perm_append_comm
  | points h hid es a x y b =>
    intro _ s ps hp
    simp only [DElem.plain] at hp ⊢
    exact ⟨ps, hp, .refl _⟩
  | member h hid a k b ps _ ih =>
    intro hpl
    rw [PlainHoles, plainHolesAll_iff] at hpl
    have ih := ih (hpl _ (by simp : (k, _) ∈ _))
    simp only [DElem.plain, plainAll_eq, List.map_append, List.map_cons]
    apply drawsLike_group
    intro s L hL
    obtain ⟨L1, L2, e1, e2, rfl⟩ := forall₂_append hL
    cases e2 with
    | @cons _ p1 _ L3 e3 e4 =>
      obtain ⟨qs, h3, h4⟩ := ih s _ e3
      refine ⟨L1 ++ qs :: L3, List.rel_append e1 (.cons h3 e4), ?_⟩
      simp only [List.flatten_append, List.flatten_cons]
      exact .append_left _ (.append_right _ h4)
  | outside h is _ ih =>
    intro hpl s ps hp
    rw [PlainHoles] at hpl
    simp only [DElem.plain] at hp ⊢
    rw [Elem.paths_holes, Elem.drawSpace_eq (Elem.holesBody_keeps _ _ _ _)] at hp ⊢
    obtain ⟨edge, he⟩ := holesBody_one _ _ _ _ _ _ hp
    obtain ⟨qs, h3, h4⟩ := ih hpl.1 _ _ he
    rw [List.singleton_perm] at h4
    subst h4
    refine ⟨ps, ?_, .refl _⟩
    rw [← hp]
    exact (holesBody_congr _ _ _ _ _ _ (he.trans h3.symm)).symm
  | hole h o a b hr _ =>
    intro hpl s ps hp
    rw [PlainHoles, noGroupsIn_iff] at hpl
    rw [← reorder_noGroups hr (hpl.2 _ (by simp))]
    exact ⟨ps, hp, .refl _⟩

/-- C74: equal elements draw the same paths, up to their order (for elements whose holes are not groups). -/
theorem C74_drawn (cfg : DCfg) {d d' : DElem} (hk : Keys d) (hp : PlainHoles d) (h : d.eqv d' = true) (s : TState) (ps : List Path)
    (hps : (d.plain.paths cfg s).2 = .ok ps) : ∃ qs, (d'.plain.paths cfg s).2 = .ok qs ∧ ps.Perm qs :=
  reorder_draws cfg ((eqv_iff_reorder hk).1 h) hp s ps hps

/-! ### Bounding boxes -/

theorem add_swap (a b c : BBox ℝ) (ha : a.Norm) (hb : b.Norm) (hc : c.Norm) : (a.add b).add c = (a.add c).add b := by
  rw [BBox.C09_add_assoc a b c ha hb hc, BBox.C09_add_comm b c hb hc, ← BBox.C09_add_assoc a c b ha hc hb]

/-- The boxes of the elements of a group. -/
def boxOf (x : Str × Elem) (bb : BBox ℝ) : Prop := Elem.bboxFrom x.2.hdr.xf x.2.bboxInt = .ok bb

theorem boxOf_norm {x : Str × Elem} {bb : BBox ℝ} (h : boxOf x bb) : bb.Norm := by
  unfold boxOf at h
  cases hb : x.2.bboxInt with
  | error er => rw [hb] at h; simp [Elem.bboxFrom] at h
  | ok b => rw [hb] at h; exact Elem.norm_bboxOf _ _ _ h

theorem bboxAll_iff (es : List (Str × Elem)) : ∀ (acc b : BBox ℝ), Elem.bboxAll es acc = .ok b ↔
    ∃ L, List.Forall₂ boxOf es L ∧ b = L.foldl BBox.add acc := by
  induction es with
  | nil => intro acc b; rw [Elem.bboxAll]; simp [eq_comm]
  | cons x es ih =>
    intro acc b
    obtain ⟨k, e⟩ := x
    rw [Elem.bboxAll]
    constructor
    · intro h
      split at h
      · simp at h
      · rename_i bb hb
        obtain ⟨L, h1, h2⟩ := (ih _ _).1 h
        exact ⟨bb :: L, .cons hb h1, h2⟩
    · rintro ⟨L, h1, rfl⟩
      cases h1 with
      | cons h2 h3 =>
        unfold boxOf at h2
        simp only at h2
        rw [h2]
        exact (ih _ _).2 ⟨_, h3, rfl⟩

theorem foldl_norm (L : List (BBox ℝ)) (hL : ∀ b ∈ L, b.Norm) : ∀ acc : BBox ℝ, acc.Norm → (L.foldl BBox.add acc).Norm := by
  induction L with
  | nil => exact fun acc h => h
  | cons b L ih => exact fun acc h => ih (fun c hc => hL c (by simp [hc])) _ (BBox.norm_add _ _)

theorem plain_hdr (d : DElem) : d.plain.hdr = ⟨d.hdr.name, d.hdr.pb, d.hdr.closed, d.hdr.xf⟩ := by
  cases d <;> simp [DElem.plain, Elem.hdr, DElem.hdr]

theorem reorder_hdr {d d' : DElem} (h : Reorder d d') : d.hdr = d'.hdr := by
  induction h with
  | trans _ _ ih1 ih2 => exact ih1.trans ih2
  | _ => simp [DElem.hdr]

theorem reorder_bbox {d d' : DElem} (h : Reorder d d') : ∀ b, d.plain.bboxInt = .ok b → d'.plain.bboxInt = .ok b := by
  induction h with
  | refl => exact fun _ h => h
  | trans _ _ ih1 ih2 => exact fun b h => ih2 b (ih1 b h)
  | elems h hid a x y b ps =>
    intro bb
    simp only [DElem.plain, plainAll_eq, List.map_append, List.map_cons, Elem.bboxInt]
    rw [if_neg (by simp), if_neg (by simp), bboxAll_iff, bboxAll_iff]
    rintro ⟨L, hL, rfl⟩
    obtain ⟨L1, L2, e1, e2, rfl⟩ := forall₂_append hL
    have n1 : ∀ b ∈ L1, b.Norm := by
      intro b hb
      obtain ⟨i, hi, rfl⟩ := List.getElem_of_mem hb
      have := (List.forall₂_iff_get.1 e1).2 i (by rw [(List.forall₂_iff_get.1 e1).1]; exact hi) hi
      exact boxOf_norm this
    cases e2 with
    | @cons _ p1 _ _ e3 e4 =>
      cases e4 with
      | @cons _ p2 _ L3 e5 e6 =>
        refine ⟨L1 ++ p2 :: p1 :: L3, List.rel_append e1 (.cons e5 (.cons e3 e6)), ?_⟩
        simp only [List.foldl_append, List.foldl_cons]
        rw [add_swap _ _ _ (foldl_norm L1 n1 .none trivial) (boxOf_norm e3) (boxOf_norm e5)]
  | points h hid es a x y b => exact fun b h => h
  | @member h hid a k b ps d d' hr ih =>
    intro bb
    simp only [DElem.plain, plainAll_eq, List.map_append, List.map_cons, Elem.bboxInt]
    rw [if_neg (by simp), if_neg (by simp), bboxAll_iff, bboxAll_iff]
    rintro ⟨L, hL, rfl⟩
    obtain ⟨L1, L2, e1, e2, rfl⟩ := forall₂_append hL
    cases e2 with
    | @cons _ p1 _ L3 e3 e4 =>
      refine ⟨L1 ++ p1 :: L3, List.rel_append e1 (.cons ?_ e4), rfl⟩
      unfold boxOf at e3 ⊢
      simp only [plain_hdr, reorder_hdr hr] at e3 ⊢
      cases hb : d.plain.bboxInt with
      | error er => rw [hb] at e3; simp [Elem.bboxFrom] at e3
      | ok bb => rw [ih bb hb, ← hb]; exact e3
  | @outside h is d d' hr ih =>
    intro bb
    simp only [DElem.plain, Elem.bboxInt]
    cases hb : d.plain.bboxInt with
    | error er => intro h; simp at h
    | ok b0 => rw [ih b0 hb]; exact id
  | @hole h o a b d d' hr ih =>
    intro bb
    simp only [DElem.plain, Elem.bboxInt, plainIn_eq, List.map_append, List.map_cons]
    have key : ∀ (l : List Elem) (acc b0 : BBox ℝ), Elem.bboxIn (l ++ d.plain :: b.map DElem.plain) acc = .ok b0 →
        Elem.bboxIn (l ++ d'.plain :: b.map DElem.plain) acc = .ok b0 := by
      intro l
      induction l with
      | nil =>
        intro acc b0
        simp only [List.nil_append, Elem.bboxIn, plain_hdr, reorder_hdr hr]
        cases hb : d.plain.bboxInt with
        | error er => simp [Elem.bboxFrom]
        | ok b1 => rw [ih b1 hb]; exact id
      | cons z l ihl =>
        intro acc b0
        simp only [List.cons_append, Elem.bboxIn]
        cases Elem.bboxFrom z.hdr.xf z.bboxInt with
        | error er => exact id
        | ok b1 => exact ihl _ _
    cases o.plain.bboxInt with
    | error er => exact id
    | ok b0 =>
      simp only
      cases hb : Elem.bboxIn (a.map DElem.plain ++ d.plain :: b.map DElem.plain) .none with
      | error er => intro h; simp at h
      | ok b1 => rw [key _ _ _ hb]; exact id

/-- C74: equal elements have the same bounding box. -/
theorem C74_bbox {d d' : DElem} (hk : Keys d) (h : d.eqv d' = true) (b : BBox ℝ) (hb : d.plain.bbox = .ok b) : d'.plain.bbox = .ok b := by
  have hr := (eqv_iff_reorder hk).1 h
  unfold Elem.bbox at hb ⊢
  rw [plain_hdr, ← reorder_hdr hr, ← plain_hdr]
  cases hi : d.plain.bboxInt with
  | error er => rw [hi] at hb; simp [Elem.bboxFrom] at hb
  | ok b0 => rw [reorder_bbox hr b0 hi, ← hi]; exact hb

/-! ### Copies and transforms -/

theorem objAll_eq (es : List (Str × Elem)) : objAll es = es.map fun x => (x.1, obj x.2) := by
  induction es with
  | nil => rfl
  | cons x es ih => obtain ⟨k, e⟩ := x; simp [objAll, ih]

theorem objIn_eq (es : List Elem) : objIn es = es.map obj := by
  induction es with
  | nil => rfl
  | cons x es ih => simp [objIn, ih]

theorem reorder_obj {d d' : DElem} (h : Reorder d d') : Reorder (obj d.plain) (obj d'.plain) := by
  induction h with
  | refl => exact .refl _
  | trans _ _ ih1 ih2 => exact .trans ih1 ih2
  | elems h hid a x y b ps =>
    simp only [DElem.plain, plainAll_eq, obj, objAll_eq, List.map_append, List.map_cons]
    exact .elems ..
  | points => exact .refl _
  | member h hid a k b ps _ ih =>
    simp only [DElem.plain, plainAll_eq, obj, objAll_eq, List.map_append, List.map_cons]
    exact .member _ _ _ _ _ _ ih
  | outside h is _ ih =>
    simp only [DElem.plain, obj]
    exact .outside _ _ ih
  | hole h o a b _ ih =>
    simp only [DElem.plain, plainIn_eq, obj, objIn_eq, List.map_append, List.map_cons]
    exact .hole _ _ _ _ ih

/-- Replacing the pen of an object. -/
def repen (pb : PenBrush) : DElem → DElem
  | .curve h x => .curve { h with pb := pb } x
  | .rect h x y => .rect { h with pb := pb } x y
  | .rrect h x y z => .rrect { h with pb := pb } x y z
  | .ellipse h x y => .ellipse { h with pb := pb } x y
  | .group h x y z => .group { h with pb := pb } x y z
  | .holes h x y => .holes { h with pb := pb } x y

theorem obj_setPb (e : Elem) (pb : PenBrush) : obj (e.setPb pb) = repen pb (obj e) := by
  cases e <;> simp [obj, Elem.setPb, repen]

theorem reorder_repen (pb : PenBrush) {d d' : DElem} (h : Reorder d d') : Reorder (repen pb d) (repen pb d') := by
  induction h with
  | refl => exact .refl _
  | trans _ _ ih1 ih2 => exact .trans ih1 ih2
  | elems => exact .elems ..
  | points => exact .points ..
  | member h hid a k b ps hr _ => exact .member _ _ _ _ _ _ hr
  | outside h is hr _ => exact .outside _ _ hr
  | hole h o a b hr _ => exact .hole _ _ _ _ hr

theorem copyAll_iff (es : List Elem) : ∀ l, Elem.copyAll es = .ok l ↔ List.Forall₂ (fun e c => Elem.copy e = .ok c) es l := by
  induction es with
  | nil => intro l; rw [Elem.copyAll]; simp [eq_comm]
  | cons e es ih =>
    intro l
    rw [Elem.copyAll]
    constructor
    · intro h
      split at h
      · simp at h
      · rename_i c hc
        split at h
        · simp at h
        · rename_i cs hcs
          simp only [Except.ok.injEq] at h
          subst h
          exact .cons hc ((ih cs).1 hcs)
    · intro h
      cases h with
      | cons h1 h2 => simp only [h1, (ih _).2 h2]

/-- Copies agree. -/
def CopiesLike (e e' : Elem) : Prop := ∀ c, e.copy = .ok c → ∃ c', e'.copy = .ok c' ∧ Reorder (obj c) (obj c')

theorem group_ok {h : Hdr} {hid : Bool} {es : List (Str × Elem)} {c : Elem} : Elem.copy (.group h hid es) = .ok c ↔
    Elem.checkClosed h.pb false = .ok () ∧ c = .group { h with closed := false } hid es := by
  rw [Elem.copy]
  cases Elem.checkClosed h.pb false <;> simp [bind, Except.bind, eq_comm]

theorem holes_ok {h : Hdr} {o : Elem} {is : List Elem} {c : Elem} : Elem.copy (.holes h o is) = .ok c ↔
    ∃ o' is', Elem.copy o = .ok o' ∧ Elem.copyAll is = .ok is' ∧ Elem.checkClosed h.pb h.closed = .ok () ∧
      c = .holes h (o'.setPb h.pb) (is'.map (·.setPb h.pb)) := by
  rw [Elem.copy]
  cases Elem.copy o with
  | error er => simp
  | ok o' =>
    simp only
    cases Elem.copyAll is with
    | error er => simp
    | ok is' => cases Elem.checkClosed h.pb h.closed <;> simp [bind, Except.bind, eq_comm]

theorem copies_trans {a b c : Elem} (h1 : CopiesLike a b) (h2 : CopiesLike b c) : CopiesLike a c := by
  intro x hx
  obtain ⟨y, hy, r1⟩ := h1 x hx
  obtain ⟨z, hz, r2⟩ := h2 y hy
  exact ⟨z, hz, r1.trans r2⟩

theorem reorder_copy {d d' : DElem} (h : Reorder d d') : CopiesLike d.plain d'.plain := by
  induction h with
  | refl => exact fun c hc => ⟨c, hc, .refl _⟩
  | trans _ _ ih1 ih2 => exact copies_trans ih1 ih2
  | elems h hid a x y b ps =>
    intro c hc
    have hr := reorder_obj (.elems { h with closed := false } hid a x y b ps)
    simp only [DElem.plain, group_ok] at hc hr ⊢
    obtain ⟨h1, rfl⟩ := hc
    exact ⟨_, ⟨h1, rfl⟩, hr⟩
  | points h hid es a x y b => exact fun c hc => ⟨c, hc, .refl _⟩
  | member h hid a k b ps hr _ =>
    intro c hc
    have hr := reorder_obj (.member { h with closed := false } hid a k b ps hr)
    simp only [DElem.plain, group_ok] at hc hr ⊢
    obtain ⟨h1, rfl⟩ := hc
    exact ⟨_, ⟨h1, rfl⟩, hr⟩
  | outside h is _ ih =>
    intro c hc
    simp only [DElem.plain] at hc ⊢
    obtain ⟨o', is', h1, h2, h3, rfl⟩ := holes_ok.1 hc
    obtain ⟨o'', h4, h5⟩ := ih o' h1
    refine ⟨_, holes_ok.2 ⟨o'', is', h4, h2, h3, rfl⟩, ?_⟩
    simp only [obj, obj_setPb]
    exact .outside _ _ (reorder_repen _ h5)
  | hole h o a b _ ih =>
    intro c hc
    simp only [DElem.plain, plainIn_eq, List.map_append, List.map_cons] at hc ⊢
    obtain ⟨o', is', h1, h2, h3, rfl⟩ := holes_ok.1 hc
    obtain ⟨L1, L2, e1, e2, rfl⟩ := forall₂_append ((copyAll_iff _ _).1 h2)
    cases e2 with
    | @cons _ p1 _ L3 e3 e4 =>
      obtain ⟨p2, h4, h5⟩ := ih p1 e3
      refine ⟨_, holes_ok.2 ⟨o', L1 ++ p2 :: L3, h1, (copyAll_iff _ _).2 (List.rel_append e1 (.cons h4 e4)), h3, rfl⟩, ?_⟩
      simp only [obj, objIn_eq, List.map_append, List.map_cons, obj_setPb]
      exact .hole _ _ _ _ (reorder_repen _ h5)

theorem transform_group {h : Hdr} {hid : Bool} {es : List (Str × Elem)} {m : TState} {r : Elem} :
    (Elem.transform (.group h hid es) m).2 = .ok r ↔ Elem.checkClosed h.pb false = .ok () ∧
      r = .group { h with closed := false, xf := (m.copy.compose h.xf).mat } hid es := by
  simp only [Elem.transform]
  cases Elem.checkClosed h.pb false <;> simp [eq_comm]

theorem transform_holes {h : Hdr} {o : Elem} {is : List Elem} {m : TState} {r : Elem} :
    (Elem.transform (.holes h o is) m).2 = .ok r ↔ ∃ c, Elem.copy (.holes h o is) = .ok c ∧
      ∃ o' is', c = .holes h o' is' ∧ r = .holes { h with xf := (m.copy.compose h.xf).copy.mat } o' is' := by
  rw [Elem.copy]
  simp only [Elem.transform]
  cases Elem.copy o with
  | error er => simp
  | ok o' =>
    simp only
    cases Elem.copyAll is with
    | error er => simp
    | ok is' => cases Elem.checkClosed h.pb h.closed <;> simp [bind, Except.bind, eq_comm]

/-- The object with another transform. -/
def rexf (m : Mat3 ℝ) : DElem → DElem
  | .curve h x => .curve { h with xf := m } x
  | .rect h x y => .rect { h with xf := m } x y
  | .rrect h x y z => .rrect { h with xf := m } x y z
  | .ellipse h x y => .ellipse { h with xf := m } x y
  | .group h x y z => .group { h with xf := m } x y z
  | .holes h x y => .holes { h with xf := m } x y

theorem reorder_rexf (m : Mat3 ℝ) {d d' : DElem} (h : Reorder d d') : Reorder (rexf m d) (rexf m d') := by
  induction h with
  | refl => exact .refl _
  | trans _ _ ih1 ih2 => exact .trans ih1 ih2
  | elems => exact .elems ..
  | points => exact .points ..
  | member h hid a k b ps hr _ => exact .member _ _ _ _ _ _ hr
  | outside h is hr _ => exact .outside _ _ hr
  | hole h o a b hr _ => exact .hole _ _ _ _ hr

theorem copy_holes_form {h : Hdr} {o : Elem} {is : List Elem} {c : Elem} (hc : Elem.copy (.holes h o is) = .ok c) :
    ∃ o' is', c = .holes h o' is' := by
  obtain ⟨o', is', -, -, -, rfl⟩ := holes_ok.1 hc
  exact ⟨_, _, rfl⟩

theorem reorder_transform (m : TState) {d d' : DElem} (h : Reorder d d') : ∀ r, (d.plain.transform m).2 = .ok r →
    ∃ r', (d'.plain.transform m).2 = .ok r' ∧ Reorder (obj r) (obj r') := by
  have holes : ∀ (h : Hdr) (o o' : Elem) (is is' : List Elem), CopiesLike (.holes h o is) (.holes h o' is') →
      ∀ r, (Elem.transform (.holes h o is) m).2 = .ok r →
      ∃ r', (Elem.transform (.holes h o' is') m).2 = .ok r' ∧ Reorder (obj r) (obj r') := by
    intro h o o' is is' hl r hr
    obtain ⟨c, hc, a, l, rfl, rfl⟩ := transform_holes.1 hr
    obtain ⟨c', hc', hrr⟩ := hl _ hc
    obtain ⟨a', l', rfl⟩ := copy_holes_form hc'
    refine ⟨_, transform_holes.2 ⟨_, hc', a', l', rfl, rfl⟩, ?_⟩
    have := reorder_rexf (m.copy.compose h.xf).copy.mat hrr
    simpa only [obj, rexf] using this
  induction h with
  | refl => exact fun r hr => ⟨r, hr, .refl _⟩
  | trans _ _ ih1 ih2 =>
    intro r hr
    obtain ⟨r', h1, h2⟩ := ih1 r hr
    obtain ⟨r'', h3, h4⟩ := ih2 r' h1
    exact ⟨r'', h3, h2.trans h4⟩
  | elems h hid a x y b ps =>
    intro r hr
    simp only [DElem.plain, transform_group] at hr ⊢
    obtain ⟨h1, rfl⟩ := hr
    refine ⟨_, ⟨h1, rfl⟩, ?_⟩
    simp only [plainAll_eq, obj, objAll_eq, List.map_append, List.map_cons]
    exact .elems ..
  | points h hid es a x y b => exact fun r hr => ⟨r, hr, .refl _⟩
  | member h hid a k b ps hrr _ =>
    intro r hr
    simp only [DElem.plain, transform_group] at hr ⊢
    obtain ⟨h1, rfl⟩ := hr
    refine ⟨_, ⟨h1, rfl⟩, ?_⟩
    simp only [plainAll_eq, obj, objAll_eq, List.map_append, List.map_cons]
    exact .member _ _ _ _ _ _ (reorder_obj hrr)
  | outside h is hrr _ =>
    have hc := reorder_copy (.outside h is hrr)
    simp only [DElem.plain] at hc ⊢
    exact holes _ _ _ _ _ hc
  | hole h o a b hrr _ =>
    have hc := reorder_copy (.hole h o a b hrr)
    simp only [DElem.plain] at hc ⊢
    exact holes _ _ _ _ _ hc

mutual
theorem keys_plain : (d : DElem) → Keys d → Keys (obj d.plain)
  | .curve _ _, _ => by simp [DElem.plain, obj, Keys]
  | .rect _ _ _, _ => by simp [DElem.plain, obj, Keys]
  | .rrect _ _ _ _, _ => by simp [DElem.plain, obj, Keys]
  | .ellipse _ _ _, _ => by simp [DElem.plain, obj, Keys]
  | .group h hid es ps, hk => by
    rw [Keys] at hk
    simp only [DElem.plain, obj, Keys]
    refine ⟨?_, by simp, keys_plainAll es hk.2.2⟩
    rw [objAll_eq, plainAll_eq, List.map_map, List.map_map]
    exact hk.1
  | .holes h o is, hk => by
    rw [Keys] at hk
    simp only [DElem.plain, obj, Keys]
    exact ⟨keys_plain o hk.1, keys_plainIn is hk.2⟩
theorem keys_plainAll : (es : List (Str × DElem)) → KeysAll es → KeysAll (objAll (plainAll es))
  | [], _ => by simp [plainAll, objAll, KeysAll]
  | (k, e) :: rest, hk => by
    simp only [plainAll, objAll, KeysAll] at hk ⊢
    exact ⟨keys_plain e hk.1, keys_plainAll rest hk.2⟩
theorem keys_plainIn : (es : List DElem) → KeysIn es → KeysIn (objIn (plainIn es))
  | [], _ => by simp [plainIn, objIn, KeysIn]
  | e :: rest, hk => by
    simp only [plainIn, objIn, KeysIn] at hk ⊢
    exact ⟨keys_plain e hk.1, keys_plainIn rest hk.2⟩
end

theorem keys_setPb (e : Elem) (pb : PenBrush) : Keys (obj (e.setPb pb)) ↔ Keys (obj e) := by
  rw [obj_setPb]
  cases obj e <;> simp [repen, Keys]

mutual
theorem keys_copy : (e : Elem) → Keys (obj e) → ∀ c, e.copy = .ok c → Keys (obj c)
  | .curve h cps, _ => by
    intro c hc
    rw [Elem.copy] at hc
    cases hx : Elem.checkClosed h.pb h.closed <;> simp [hx, bind, Except.bind] at hc
    subst hc; simp [obj, Keys]
  | .rect h p q, _ => by
    intro c hc
    rw [Elem.copy] at hc
    split at hc <;> simp at hc
    subst hc; simp [obj, Keys]
  | .rrect h p q r, _ => by
    intro c hc
    rw [Elem.copy] at hc
    split at hc <;> simp at hc
    subst hc; simp [obj, Keys]
  | .ellipse h p q, _ => by
    intro c hc
    rw [Elem.copy] at hc
    split at hc <;> simp at hc
    subst hc; simp [obj, Keys]
  | .group h hid es, hk => by
    intro c hc
    obtain ⟨-, rfl⟩ := group_ok.1 hc
    simpa only [obj, Keys] using hk
  | .holes h o is, hk => by
    intro c hc
    obtain ⟨o', is', h1, h2, -, rfl⟩ := holes_ok.1 hc
    simp only [obj, Keys] at hk ⊢
    exact ⟨(keys_setPb _ _).2 (keys_copy o hk.1 o' h1), keys_copyAll is hk.2 h.pb is' h2⟩
theorem keys_copyAll : (es : List Elem) → KeysIn (objIn es) → ∀ pb l, Elem.copyAll es = .ok l → KeysIn (objIn (l.map (·.setPb pb)))
  | [], _ => by
    intro pb l hl
    rw [Elem.copyAll] at hl
    simp only [Except.ok.injEq] at hl
    subst hl; simp [objIn, KeysIn]
  | e :: rest, hk => by
    intro pb l hl
    simp only [objIn, KeysIn] at hk
    cases (copyAll_iff _ _).1 hl with
    | @cons _ c _ cs h1 h2 =>
      simp only [List.map_cons, objIn, KeysIn]
      exact ⟨(keys_setPb _ _).2 (keys_copy e hk.1 c h1), keys_copyAll rest hk.2 pb cs ((copyAll_iff _ _).2 h2)⟩
end

theorem keys_transform (e : Elem) (hk : Keys (obj e)) (m : TState) (r : Elem) (hr : (e.transform m).2 = .ok r) : Keys (obj r) := by
  cases e with
  | curve h cps =>
    simp only [Elem.transform, Elem.drawSpace] at hr
    split at hr
    · simp at hr
    · cases hx : Elem.checkClosed h.pb h.closed with
      | error er => simp only [hx] at hr; split at hr <;> simp at hr
      | ok u =>
        simp only [hx] at hr
        split at hr
        · simp only [Except.ok.injEq] at hr
          subst hr; simp [obj, Keys]
        · simp at hr
  | rect h p q =>
    simp only [Elem.transform] at hr
    split at hr <;> simp at hr
    subst hr; simp [obj, Keys]
  | rrect h p q r =>
    simp only [Elem.transform] at hr
    split at hr <;> simp at hr
    subst hr; simp [obj, Keys]
  | ellipse h p q =>
    simp only [Elem.transform] at hr
    split at hr <;> simp at hr
    subst hr; simp [obj, Keys]
  | group h hid es =>
    obtain ⟨-, rfl⟩ := transform_group.1 hr
    simpa only [obj, Keys] using hk
  | holes h o is =>
    obtain ⟨c, hc, o', is', rfl, rfl⟩ := transform_holes.1 hr
    have := keys_copy _ hk _ hc
    simpa only [obj, Keys] using this

/-- C74: transforming equal elements gives equal elements. -/
theorem C74_transform {d d' : DElem} (hk : Keys d) (h : d.eqv d' = true) (m : TState) (r : Elem)
    (hr : (d.plain.transform m).2 = .ok r) : ∃ r', (d'.plain.transform m).2 = .ok r' ∧ (obj r).eqv (obj r') = true := by
  obtain ⟨r', h1, h2⟩ := reorder_transform m ((eqv_iff_reorder hk).1 h) r hr
  exact ⟨r', h1, (eqv_iff_reorder (keys_transform _ (keys_plain d hk) m r hr)).2 h2⟩

/-- C74: copies of equal elements are equal. -/
theorem C74_copy {d d' : DElem} (hk : Keys d) (h : d.eqv d' = true) (c : Elem) (hc : d.plain.copy = .ok c) :
    ∃ c', d'.plain.copy = .ok c' ∧ (obj c).eqv (obj c') = true := by
  obtain ⟨r', h1, h2⟩ := reorder_copy ((eqv_iff_reorder hk).1 h) c hc
  exact ⟨r', h1, (eqv_iff_reorder (keys_copy _ (keys_plain d hk) c hc)).2 h2⟩

/-! ### Text -/

mutual
/-- Without the `points` of groups, except in outsides. -/
def strip : DElem → DElem
  | .group h hid es _ => .group h hid (stripAll es) []
  | .holes h o is => .holes h o (stripIn is)
  | .curve h cps => .curve h cps
  | .rect h p q => .rect h p q
  | .rrect h p q r => .rrect h p q r
  | .ellipse h p q => .ellipse h p q
def stripAll : List (Str × DElem) → List (Str × DElem)
  | [] => []
  | (k, e) :: rest => (k, strip e) :: stripAll rest
def stripIn : List DElem → List DElem
  | [] => []
  | e :: rest => strip e :: stripIn rest
end

mutual
theorem dumpS_strip : (d : DElem) → ∀ dc, dumpS dc (strip d) = dumpS dc d
  | .curve _ _ => fun _ => rfl
  | .rect _ _ _ => fun _ => rfl
  | .rrect _ _ _ _ => fun _ => rfl
  | .ellipse _ _ _ => fun _ => rfl
  | .group h hid es ps => by
    intro dc
    simp only [strip, dumpS, dumpAll_strip es]
  | .holes h o is => by
    intro dc
    simp only [strip, dumpS, dumpIn_strip is]
theorem dumpAll_strip : (es : List (Str × DElem)) → ∀ dc, dumpAll dc (stripAll es) = dumpAll dc es
  | [] => fun _ => rfl
  | (k, e) :: rest => by
    intro dc
    simp only [stripAll, dumpAll, dumpS_strip e, dumpAll_strip rest]
theorem dumpIn_strip : (es : List DElem) → ∀ dc, dumpIn dc (stripIn es) = dumpIn dc es
  | [] => fun _ => rfl
  | e :: rest => by
    intro dc
    simp only [stripIn, dumpIn, dumpS_strip e, dumpIn_strip rest]
end

theorem stripAll_eq (es : List (Str × DElem)) : stripAll es = es.map fun x => (x.1, strip x.2) := by
  induction es with
  | nil => rfl
  | cons x es ih => obtain ⟨k, e⟩ := x; simp [stripAll, ih]

theorem stripIn_eq (es : List DElem) : stripIn es = es.map strip := by
  induction es with
  | nil => rfl
  | cons x es ih => simp [stripIn, ih]

theorem sortAll_eq (es : List (Str × DElem)) : sortAll es = es.map fun x => (x.1, sortDicts x.2) := by
  induction es with
  | nil => rfl
  | cons x es ih => obtain ⟨k, e⟩ := x; simp [sortAll, ih]

theorem sortIn_eq (es : List DElem) : sortIn es = es.map sortDicts := by
  induction es with
  | nil => rfl
  | cons x es ih => simp [sortIn, ih]

theorem sort_perm {l m : List (Str × DElem)} (hp : l.Perm m) (hn : (l.map Prod.fst).Nodup) :
    (l.mergeSort fun x y => decide (x.1 ≤ y.1)) = m.mergeSort fun x y => decide (x.1 ≤ y.1) := by
  have hl := List.mergeSort_perm l fun x y => decide (x.1 ≤ y.1)
  have hm := List.mergeSort_perm m fun x y => decide (x.1 ≤ y.1)
  have pw : ∀ l : List (Str × DElem), (l.mergeSort fun x y => decide (x.1 ≤ y.1)).Pairwise fun x y => decide (x.1 ≤ y.1) = true := by
    intro l
    refine List.pairwise_mergeSort ?_ ?_ l
    · intro a b c
      simp only [decide_eq_true_eq]
      exact fun h1 h2 => le_trans h1 h2
    · intro a b
      simp only [Bool.or_eq_true, decide_eq_true_eq]
      exact le_total _ _
  refine List.Perm.eq_of_pairwise ?_ (pw l) (pw m) (hl.trans (hp.trans hm.symm))
  intro a b ha hb h1 h2
  simp only [decide_eq_true_eq] at h1 h2
  have e : a.1 = b.1 := le_antisymm h1 h2
  have ha := hl.mem_iff.1 ha
  have hb := hp.mem_iff.2 (hm.mem_iff.1 hb)
  have := dget_of_mem hn (k := a.1) (v := a.2) ha
  have := dget_of_mem hn (k := b.1) (v := b.2) hb
  rw [← e] at this
  exact Prod.ext e (by simp_all)

theorem plainOutsidesAll_iff (es : List (Str × DElem)) : PlainOutsidesAll es ↔ ∀ x ∈ es, PlainOutsides x.2 := by
  induction es with
  | nil => simp [PlainOutsidesAll]
  | cons x es ih => obtain ⟨k, e⟩ := x; simp [PlainOutsidesAll, ih]

theorem plainOutsidesIn_iff (es : List DElem) : PlainOutsidesIn es ↔ ∀ x ∈ es, PlainOutsides x := by
  induction es with
  | nil => simp [PlainOutsidesIn]
  | cons x es ih => simp [PlainOutsidesIn, ih]

theorem reorder_plainOutsides {d d' : DElem} (h : Reorder d d') : PlainOutsides d → PlainOutsides d' := by
  induction h with
  | refl => exact id
  | trans _ _ ih1 ih2 => exact fun h => ih2 (ih1 h)
  | elems h hid a x y b ps =>
    simp only [PlainOutsides, plainOutsidesAll_iff]
    have hp : (a ++ x :: y :: b).Perm (a ++ y :: x :: b) := .append_left a (.swap _ _ _)
    exact fun h z hz => h z (hp.mem_iff.2 hz)
  | points => simp only [PlainOutsides]; exact id
  | member h hid a k b ps _ ih =>
    simp only [PlainOutsides, plainOutsidesAll_iff, List.mem_append, List.mem_cons]
    rintro h3 z (hz | rfl | hz)
    · exact h3 z (.inl hz)
    · exact ih (h3 _ (.inr (.inl rfl)))
    · exact h3 z (.inr (.inr hz))
  | outside h is hr ih =>
    simp only [PlainOutsides]
    rintro ⟨h1, h2⟩
    rw [← reorder_noGroups hr h1]
    exact ⟨h1, h2⟩
  | hole h o a b hr ih =>
    simp only [PlainOutsides, plainOutsidesIn_iff, List.mem_append, List.mem_cons]
    rintro ⟨h1, h2⟩
    refine ⟨h1, ?_⟩
    rintro z (hz | rfl | hz)
    · exact h2 z (.inl hz)
    · exact ih (h2 _ (.inr (.inl rfl)))
    · exact h2 z (.inr (.inr hz))

theorem reorder_sort {d d' : DElem} (h : Reorder d d') : Keys d → PlainOutsides d → strip (sortDicts d) = strip (sortDicts d') := by
  induction h with
  | refl => exact fun _ _ => rfl
  | trans h1 _ ih1 ih2 => exact fun hk hp => (ih1 hk hp).trans (ih2 (h1.keys hk) (reorder_plainOutsides h1 hp))
  | elems h hid a x y b ps =>
    intro hk _
    rw [Keys] at hk
    simp only [sortDicts, strip, sortAll_eq]
    rw [sort_perm ((List.Perm.append_left a (.swap y x b)).map _)]
    rw [List.map_map]
    exact hk.1
  | points h hid es a x y b => intro _ _; simp only [sortDicts, strip]
  | @member h hid a k b ps d d' hr ih =>
    intro hk hp
    rw [Keys] at hk
    rw [PlainOutsides, plainOutsidesAll_iff] at hp
    have ih := ih ((keysAll_iff _).1 hk.2.2 (k, d) (by simp)) (hp (k, d) (by simp))
    have key : ∀ l : List (Str × DElem), stripAll (l.mergeSort fun x y => decide (x.1 ≤ y.1)) =
        (stripAll l).mergeSort fun x y => decide (x.1 ≤ y.1) := by
      intro l
      rw [stripAll_eq, stripAll_eq]
      exact List.map_mergeSort (fun _ _ _ _ => rfl)
    simp only [sortDicts, strip, key]
    congr 2
    simp only [sortAll_eq, stripAll_eq, List.map_append, List.map_cons, ih]
  | outside h is hr ih =>
    intro hk hp
    rw [PlainOutsides] at hp
    rw [reorder_noGroups hr hp.1]
  | @hole h o a b d d' _ ih =>
    intro hk hp
    rw [Keys] at hk
    rw [PlainOutsides, plainOutsidesIn_iff] at hp
    have ih := ih ((keysIn_iff _).1 hk.2 d (by simp)) (hp.2 d (by simp))
    simp only [sortDicts, strip, sortIn_eq, stripIn_eq, List.map_append, List.map_cons, ih]

/-- C74: equal elements are dumped as the same text, unless a shape with holes has a group as its outside. -/
theorem C74_dump {d d' : DElem} (hk : Keys d) (hp : PlainOutsides d) (h : d.eqv d' = true) (dc : DC) : dump dc d = dump dc d' := by
  unfold dump
  rw [← dumpS_strip, reorder_sort ((eqv_iff_reorder hk).1 h) hk hp, dumpS_strip]

mutual
theorem same_reorder : {d d' : DElem} → Same d d' → Reorder d d'
  | _, _, .refl e => .refl e
  | _, _, .group h hid ps hd hp =>
    .trans (reorder_members (h := h) (hid := hid) (ps := ps) (sameDict_reorder hd) []) (reorder_perm (h := h) (hid := hid) hp ps [])
theorem sameDict_reorder : {d d' : List (Str × DElem)} → SameDict d d' → List.Forall₂ (fun x y => x.1 = y.1 ∧ Reorder x.2 y.2) d d'
  | _, _, .nil => .nil
  | _, _, .cons h hd => .cons ⟨rfl, same_reorder h⟩ (sameDict_reorder hd)
end

mutual
theorem ok_keys : (d : DElem) → d.Ok → Keys d
  | .curve _ _, _ => by simp [Keys]
  | .rect _ _ _, _ => by simp [Keys]
  | .rrect _ _ _ _, _ => by simp [Keys]
  | .ellipse _ _ _, _ => by simp [Keys]
  | .group h hid es ps, ho => by
    simp only [DElem.Ok] at ho
    obtain ⟨-, -, rfl, hn, ha⟩ := ho
    simp only [Keys]
    exact ⟨hn, by simp, okAll_keys es ha⟩
  | .holes _ _ _, ho => by simp [DElem.Ok] at ho
theorem okAll_keys : (es : List (Str × DElem)) → OkAll es → KeysAll es
  | [], _ => by simp [KeysAll]
  | (k, e) :: rest, ho => by
    simp only [OkAll] at ho
    simp only [KeysAll]
    exact ⟨ok_keys e ho.1.2.2, okAll_keys rest ho.2⟩
end

mutual
theorem ok_outsides : (d : DElem) → d.Ok → PlainOutsides d
  | .curve _ _, _ => by simp [PlainOutsides]
  | .rect _ _ _, _ => by simp [PlainOutsides]
  | .rrect _ _ _ _, _ => by simp [PlainOutsides]
  | .ellipse _ _ _, _ => by simp [PlainOutsides]
  | .group h hid es ps, ho => by
    simp only [DElem.Ok] at ho
    simp only [PlainOutsides]
    exact okAll_outsides es ho.2.2.2.2
  | .holes _ _ _, ho => by simp [DElem.Ok] at ho
theorem okAll_outsides : (es : List (Str × DElem)) → OkAll es → PlainOutsidesAll es
  | [], _ => by simp [PlainOutsidesAll]
  | (k, e) :: rest, ho => by
    simp only [OkAll] at ho
    simp only [PlainOutsidesAll]
    exact ⟨ok_outsides e ho.1.2.2, okAll_outsides rest ho.2⟩
end

/-- C74: what is read back from the text of an element is equal to it. -/
theorem C74_reread (e : DElem) (ho : e.Ok) (useVars : Bool) :
    ∃ vars lines e', (dump (DC.new useVars) e).output.2 = .ok (vars, lines) ∧ readElem vars lines = some e' ∧ e.eqv e' = true := by
  obtain ⟨vars, lines, e', h1, h2, h3⟩ := C48_roundtrip e ho useVars 0
  exact ⟨vars, lines, e', h1, h2, (eqv_iff_reorder (ok_keys e ho)).2 (same_reorder h3)⟩

/-- C74: elements that dump can write are equal exactly if they are written as the same text. -/
theorem C74_text (d d' : DElem) (ho : d.Ok) (ho' : d'.Ok) (useVars : Bool) :
    d.eqv d' = true ↔ (dump (DC.new useVars) d).output.2 = (dump (DC.new useVars) d').output.2 := by
  constructor
  · intro h
    rw [C74_dump (ok_keys d ho) (ok_outsides d ho) h]
  · intro h
    obtain ⟨vars, lines, e, h1, h2, h3⟩ := C74_reread d ho useVars
    obtain ⟨vars', lines', e', h1', h2', h3'⟩ := C74_reread d' ho' useVars
    rw [h1, h1'] at h
    simp only [Except.ok.injEq, Prod.mk.injEq] at h
    obtain ⟨rfl, rfl⟩ := h
    rw [h2] at h2'
    injection h2' with h2'
    subst h2'
    have r1 := (eqv_iff_reorder (ok_keys d ho)).1 h3
    have r2 := (eqv_iff_reorder (ok_keys d' ho')).1 h3'
    exact (eqv_iff_reorder (ok_keys d ho)).2 (r1.trans r2.symm)

/-! ### Cases -/

/-- The attributes of the curves below. -/
def exHdr (name : String) (closed : Bool) : DHdr := ⟨name.toList, ⟨none, none⟩, closed, Mat3.one⟩

/-- A group of an open and a closed curve. -/
def exGroup (rev : Bool) : DElem :=
  let a := ("a".toList, DElem.curve (exHdr "a" false) [])
  let b := ("b".toList, DElem.curve (exHdr "b" true) [])
  .group (exHdr "g" false) false (if rev then [b, a] else [a, b]) [("p".toList, .rel 1 2 (.point 3 4 none) none)]

theorem exGroup_keys : Keys (exGroup false) := by
  simp [exGroup, Keys, KeysAll]

theorem exGroup_eq : (exGroup false).eqv (exGroup true) = true :=
  (C74_same exGroup_keys _).2 (.elems _ _ [] _ _ [] _)

/-- C74, what does not follow: equal groups may draw their paths in a different order, so what is drawn on top differs. -/
theorem C74_order_counterexample : ∃ d d' : DElem, Keys d ∧ d.eqv d' = true ∧ ∀ cfg s, ∃ ps qs, (d.plain.paths cfg s).2 = .ok ps ∧
    (d'.plain.paths cfg s).2 = .ok qs ∧ ps ≠ qs := by
  refine ⟨exGroup false, exGroup true, exGroup_keys, exGroup_eq, fun cfg s => ?_⟩
  have hp : PlainHoles (exGroup false) := by simp [exGroup, PlainHoles, PlainHolesAll]
  have c1 : ∀ (n : String) (b : Bool) (s : TState), (Elem.paths cfg (.curve ⟨n.toList, ⟨none, none⟩, b, Mat3.one⟩ []) s).2 =
      .ok [⟨⟨none, none⟩, b, []⟩] := by
    intro n b s
    rw [Elem.paths, Elem.drawSpace_eq (Elem.curvePaths_keeps _ _ _)]
    simp [Elem.curvePaths, Elem.curvePts, pairUp]
  refine ⟨[⟨⟨none, none⟩, false, []⟩, ⟨⟨none, none⟩, true, []⟩], [⟨⟨none, none⟩, true, []⟩, ⟨⟨none, none⟩, false, []⟩], ?_, ?_, by simp⟩
  · simp only [exGroup, DElem.plain, Bool.false_eq_true, if_false, paths_group, plainAll, exHdr, List.map_nil]
    rw [pathsAll_iff]
    exact ⟨[_, _], .cons (c1 _ _ _) (.cons (c1 _ _ _) .nil), rfl⟩
  · simp only [exGroup, DElem.plain, Bool.false_eq_true, if_true, if_false, paths_group, plainAll, exHdr, List.map_nil]
    rw [pathsAll_iff]
    exact ⟨[_, _], .cons (c1 _ _ _) (.cons (c1 _ _ _) .nil), rfl⟩

/-- C74 is false for the text of shapes with groups as outside: `repr` writes the entries of a dict in their order, so two equal shapes
are written differently. -/
theorem C74_dump_counterexample : ∃ d d' : DElem, Keys d ∧ d.eqv d' = true ∧
    ∀ use, (dump (DC.new use) d).output.2 ≠ (dump (DC.new use) d').output.2 := by
  have hk : Keys (.holes (exHdr "h" true) (exGroup false) []) := by
    simp only [Keys, KeysIn, and_true]
    exact exGroup_keys
  refine ⟨.holes (exHdr "h" true) (exGroup false) [], .holes (exHdr "h" true) (exGroup true) [], hk,
    (C74_same hk _).2 (.outside _ _ (.elems _ _ [] _ _ [] _)), fun use => ?_⟩
  intro h
  simp only [dump, sortDicts, sortIn, dumpS, dumpIn, dumpElem, DC.append, DC.output] at h
  set B := basicToks (DC.new use) "ElemWithHoles" (exHdr "h" true) with hB
  have hn : B.1.lines = [] := by
    rw [hB]
    unfold basicToks DC.setVar
    cases use <;> simp [exHdr, DC.new, dget]
  rw [hn] at h
  simp only [List.nil_append, List.cons_append, Except.ok.injEq, Prod.mk.injEq, true_and, List.cons.injEq, and_true, List.append_assoc,
    List.append_cancel_left_eq, List.append_cancel_right_eq] at h
  simp [exGroup, reprElem, reprDict, joinComma] at h

/-- Points at the same place that are not equal: of another class, or with another name. -/
example : (DPt.rel 1 2 (.point 3 4 none) none).pos = (DPt.point 4 6 none).pos ∧
    (DPt.rel 1 2 (.point 3 4 none) none).eqv (.point 4 6 none) = false ∧
    (DPt.point 4 6 none).eqv (.point 4 6 (some "p".toList)) = false := by
  refine ⟨?_, ?_, ?_⟩
  · simp [DPt.pos, DPt.xy]; norm_num
  · simp [DPt.eqv]
  · simp [DPt.eqv]

end X7.Dump
