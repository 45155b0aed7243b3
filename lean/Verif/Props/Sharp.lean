import Verif.Props.BBox
import Verif.Props.Bezier
import Verif.Props.ElemBBox
import Verif.Props.TransformGeom
import Verif.Props.VecField
import Verif.Props.Close
import Verif.Props.Colors
import Verif.Props.AnimTime
import Verif.Model.AnimTrig

/-!
Sharper forms of properties proved in other modules: what a predicate means exactly, that a box is the smallest one, and what the
convenience forms of arguments stand for.
-/

namespace X7

/-! ### C13 -/

namespace BBox
variable {α : Type*} [LinearOrder α]

set_option maxHeartbeats 1000000 in
/-- C13: boxes of positive width and height touch at a side exactly if they share at least two points but do not overlap; they touch
exactly if they share at least one point but do not overlap. -/
theorem C13_touches_exact (a b : BBox α) (ha : a.Fat) (hb : b.Fat) :
    (a.touchesSide b = true ↔ a.overlaps b = .ok false ∧ ∃ p q, p ≠ q ∧ p ∈ a.Region ∧ p ∈ b.Region ∧ q ∈ a.Region ∧ q ∈ b.Region) ∧
    (a.touches b = true ↔ a.overlaps b = .ok false ∧ ∃ p, p ∈ a.Region ∧ p ∈ b.Region) := by
  cases a with
  | none => exact ha.elim
  | box xl yl xh yh =>
    cases b with
    | none => exact hb.elim
    | box xl' yl' xh' yh' =>
      obtain ⟨a1, a2⟩ := ha
      obtain ⟨b1, b2⟩ := hb
      have hov : (BBox.box xl yl xh yh).overlaps (.box xl' yl' xh' yh') = .ok false ↔ xl ≥ xh' ∨ xh ≤ xl' ∨ yl ≥ yh' ∨ yh ≤ yl' := by
        simp only [overlaps]
        split_ifs with h <;> simp [h]
      rw [hov]
      simp only [touchesSide, touches, decide_eq_true_eq, Region, Set.mem_ofPred_eq]
      refine ⟨⟨?_, ?_⟩, ?_, ?_⟩
      · rintro (⟨h, h1, h2⟩ | ⟨h, h1, h2⟩)
        · refine ⟨by rcases h with h | h; exact .inl h.le; exact .inr (.inl h.ge), ?_⟩
          have hm : max yl yl' < min yh yh' := max_lt (lt_min a2 h1) (lt_min h2 b2)
          rcases h with h | h
          · exact ⟨⟨xl, max yl yl'⟩, ⟨xl, min yh yh'⟩, by simpa using hm.ne, ⟨⟨le_rfl, a1.le⟩, le_max_left _ _, hm.le.trans (min_le_left _ _)⟩,
              ⟨⟨by order, by order⟩, le_max_right _ _, hm.le.trans (min_le_right _ _)⟩,
              ⟨⟨le_rfl, a1.le⟩, (le_max_left _ _).trans hm.le, min_le_left _ _⟩,
              ⟨by order, by order⟩, (le_max_right _ _).trans hm.le, min_le_right _ _⟩
          · exact ⟨⟨xh, max yl yl'⟩, ⟨xh, min yh yh'⟩, by simpa using hm.ne, ⟨⟨a1.le, le_rfl⟩, le_max_left _ _, hm.le.trans (min_le_left _ _)⟩,
              ⟨⟨by order, by order⟩, le_max_right _ _, hm.le.trans (min_le_right _ _)⟩,
              ⟨⟨a1.le, le_rfl⟩, (le_max_left _ _).trans hm.le, min_le_left _ _⟩,
              ⟨by order, by order⟩, (le_max_right _ _).trans hm.le, min_le_right _ _⟩
        · refine ⟨by rcases h with h | h; exact .inr (.inr (.inl h.le)); exact .inr (.inr (.inr h.ge)), ?_⟩
          have hm : max xl xl' < min xh xh' := max_lt (lt_min a1 h1) (lt_min h2 b1)
          rcases h with h | h
          · exact ⟨⟨max xl xl', yl⟩, ⟨min xh xh', yl⟩, by simpa using hm.ne, ⟨⟨le_max_left _ _, hm.le.trans (min_le_left _ _)⟩, le_rfl, a2.le⟩,
              ⟨⟨le_max_right _ _, hm.le.trans (min_le_right _ _)⟩, by order, by order⟩,
              ⟨⟨(le_max_left _ _).trans hm.le, min_le_left _ _⟩, le_rfl, a2.le⟩,
              ⟨(le_max_right _ _).trans hm.le, min_le_right _ _⟩, by order, by order⟩
          · exact ⟨⟨max xl xl', yh⟩, ⟨min xh xh', yh⟩, by simpa using hm.ne, ⟨⟨le_max_left _ _, hm.le.trans (min_le_left _ _)⟩, a2.le, le_rfl⟩,
              ⟨⟨le_max_right _ _, hm.le.trans (min_le_right _ _)⟩, by order, by order⟩,
              ⟨⟨(le_max_left _ _).trans hm.le, min_le_left _ _⟩, a2.le, le_rfl⟩,
              ⟨(le_max_right _ _).trans hm.le, min_le_right _ _⟩, by order, by order⟩
      · rintro ⟨h, ⟨px, py⟩, ⟨qx, qy⟩, hpq, ⟨⟨p1, p2⟩, p3, p4⟩, ⟨⟨p5, p6⟩, p7, p8⟩, ⟨⟨q1, q2⟩, q3, q4⟩, ⟨q5, q6⟩, q7, q8⟩
        simp only at p1 p2 p3 p4 p5 p6 p7 p8 q1 q2 q3 q4 q5 q6 q7 q8
        have hy : px = qx → yl < yh' ∧ yl' < yh := by
          intro e
          constructor <;> (by_contra hc; push Not at hc; exact hpq (by rw [e, show py = qy by order]))
        have hx : py = qy → xl < xh' ∧ xl' < xh := by
          intro e
          constructor <;> (by_contra hc; push Not at hc; exact hpq (by rw [e, show px = qx by order]))
        rcases h with h | h | h | h
        · exact .inl ⟨.inl (by order), hy (by order)⟩
        · exact .inl ⟨.inr (by order), hy (by order)⟩
        · exact .inr ⟨.inl (by order), hx (by order)⟩
        · exact .inr ⟨.inr (by order), hx (by order)⟩
      · rintro (⟨h, h1, h2⟩ | ⟨h, h1, h2⟩)
        · refine ⟨by rcases h with h | h; exact .inl h.le; exact .inr (.inl h.ge), ?_⟩
          have hm : max yl yl' ≤ min yh yh' := max_le (le_min a2.le h1) (le_min h2 b2.le)
          rcases h with h | h
          · exact ⟨⟨xl, max yl yl'⟩, ⟨⟨le_rfl, a1.le⟩, le_max_left _ _, hm.trans (min_le_left _ _)⟩,
              ⟨by order, by order⟩, le_max_right _ _, hm.trans (min_le_right _ _)⟩
          · exact ⟨⟨xh, max yl yl'⟩, ⟨⟨a1.le, le_rfl⟩, le_max_left _ _, hm.trans (min_le_left _ _)⟩,
              ⟨by order, by order⟩, le_max_right _ _, hm.trans (min_le_right _ _)⟩
        · refine ⟨by rcases h with h | h; exact .inr (.inr (.inl h.le)); exact .inr (.inr (.inr h.ge)), ?_⟩
          have hm : max xl xl' ≤ min xh xh' := max_le (le_min a1.le h1) (le_min h2 b1.le)
          rcases h with h | h
          · exact ⟨⟨max xl xl', yl⟩, ⟨⟨le_max_left _ _, hm.trans (min_le_left _ _)⟩, le_rfl, a2.le⟩,
              ⟨le_max_right _ _, hm.trans (min_le_right _ _)⟩, by order, by order⟩
          · exact ⟨⟨max xl xl', yh⟩, ⟨⟨le_max_left _ _, hm.trans (min_le_left _ _)⟩, a2.le, le_rfl⟩,
              ⟨le_max_right _ _, hm.trans (min_le_right _ _)⟩, by order, by order⟩
      · rintro ⟨h, ⟨px, py⟩, ⟨⟨p1, p2⟩, p3, p4⟩, ⟨p5, p6⟩, p7, p8⟩
        simp only at p1 p2 p3 p4 p5 p6 p7 p8
        rcases h with h | h | h | h
        · exact .inl ⟨.inl (by order), by order, by order⟩
        · exact .inl ⟨.inr (by order), by order, by order⟩
        · exact .inr ⟨.inl (by order), by order, by order⟩
        · exact .inr ⟨.inr (by order), by order, by order⟩

/-- Two squares with a side in common, and two with only a corner in common. -/
example : (BBox.box (0 : ℤ) 0 2 2).touchesSide (.box 2 1 4 3) = true ∧ (BBox.box (0 : ℤ) 0 2 2).touchesSide (.box 2 2 4 4) = false ∧
    (BBox.box (0 : ℤ) 0 2 2).touches (.box 2 2 4 4) = true := by decide

end BBox

/-! ### C32 -/

section
variable {K : Type*} [Field K] [LinearOrder K] [IsStrictOrderedRing K]

theorem cp_bbox_sub (cp : CP K) (b : BBox K) :
    cp.bbox.Region ⊆ b.Region ↔ cp.c ∈ b.Region ∧ cp.l ∈ b.Region ∧ cp.r ∈ b.Region := by
  constructor
  · intro h
    obtain ⟨h1, h2, h3⟩ := cp_bbox_mem cp
    exact ⟨h h1, h h2, h h3⟩
  · cases b with
    | none => rintro ⟨h, -⟩; exact h.elim
    | box xl yl xh yh =>
      rintro ⟨⟨⟨c1, c2⟩, c3, c4⟩, ⟨⟨l1, l2⟩, l3, l4⟩, ⟨r1, r2⟩, r3, r4⟩
      simp only [CP.bbox, BBox.ofPts, BBox.mk', BBox.grow]
      rintro q ⟨⟨q1, q2⟩, q3, q4⟩
      exact ⟨⟨(le_min (le_min l1 r1) c1).trans q1, q2.trans (max_le (max_le l2 r2) c2)⟩,
        (le_min (le_min l3 r3) c3).trans q3, q4.trans (max_le (max_le l4 r4) c4)⟩

/-- C32: the bounding box of a curve is the smallest box that holds the centres and the ends of the handles of all its control points. -/
theorem C32_bbox_least (cps : List (CP K)) (bb : BBox K) (hb : bboxCps cps = .ok bb) (b : BBox K) :
    bb.Region ⊆ b.Region ↔ ∀ cp ∈ cps, cp.c ∈ b.Region ∧ cp.l ∈ b.Region ∧ cp.r ∈ b.Region := by
  cases cps with
  | nil => simp [bboxCps] at hb
  | cons p rest =>
    simp only [bboxCps, Except.ok.injEq] at hb
    subst hb
    have key : ∀ (l : List (CP K)) (a : BBox K), a.Norm → ((l.foldl (fun bb cp => bb.add cp.bbox) a).Region ⊆ b.Region ↔
        a.Region ⊆ b.Region ∧ ∀ cp ∈ l, cp.bbox.Region ⊆ b.Region) := by
      intro l
      induction l with
      | nil => intro a _; simp
      | cons c l ih =>
        intro a ha
        rw [List.foldl_cons, ih _ (BBox.norm_add _ _), BBox.region_add_lub ha (cp_bbox_norm c)]
        simp only [List.mem_cons, forall_eq_or_imp, and_assoc]
    rw [key rest _ (cp_bbox_norm p)]
    simp only [List.mem_cons, forall_eq_or_imp, cp_bbox_sub]

end

/-! ### C39 -/

namespace Elem

theorem bboxAll_iff : ∀ (es : List (Str × Elem)) (acc b : BBox ℝ), bboxAll es acc = .ok b ↔
    ∃ bs, List.Forall₂ (fun x b => x.2.bbox = .ok b) es bs ∧ b = bs.foldl BBox.add acc := by
  intro es
  induction es with
  | nil => intro acc b; simp [bboxAll, eq_comm]
  | cons x es ih =>
    intro acc b
    obtain ⟨k, e⟩ := x
    rw [bboxAll]
    cases h : bboxFrom e.hdr.xf (bboxInt e) with
    | error er =>
      simp only [reduceCtorEq, false_iff]
      rintro ⟨bs, h1, -⟩
      cases h1 with
      | cons h2 _ => rw [bbox, h] at h2; cases h2
    | ok bb =>
      simp only [ih]
      constructor
      · rintro ⟨bs, h1, rfl⟩
        exact ⟨bb :: bs, .cons h h1, rfl⟩
      · rintro ⟨bs, h1, rfl⟩
        cases h1 with
        | cons h2 h3 =>
          rw [bbox, h] at h2
          injection h2 with h2
          subst h2
          exact ⟨_, h3, rfl⟩

theorem bboxOf_norm {m : Mat3 ℝ} {bb b : BBox ℝ} (h : bboxOf m bb = .ok b) : b.Norm := by
  cases bb with
  | none => simp [bboxOf] at h
  | box xl yl xh yh =>
    simp only [bboxOf, Except.ok.injEq] at h
    rw [← h]
    exact BBox.norm_add _ _

theorem bbox_norm {e : Elem} {b : BBox ℝ} (h : e.bbox = .ok b) : b.Norm := by
  rw [bbox] at h
  cases h1 : bboxInt e with
  | error er => rw [h1] at h; cases h
  | ok bb => rw [h1] at h; exact bboxOf_norm h

theorem fold_add_norm (bs : List (BBox ℝ)) : ∀ acc : BBox ℝ, acc.Norm → (bs.foldl BBox.add acc).Norm := by
  induction bs with
  | nil => exact fun _ h => h
  | cons b bs ih => exact fun _ _ => ih _ (BBox.norm_add _ _)

theorem bboxInt_norm : (e : Elem) → ∀ b, bboxInt e = .ok b → b.Norm
  | .curve h cps => fun b hb => by
    rw [bboxInt] at hb
    cases cps with
    | nil => simp [bboxCps] at hb
    | cons p rest =>
      obtain ⟨bb, h1, h2⟩ := (C32_bbox_total (p :: rest)).1 (by simp)
      rw [h1] at hb
      injection hb with hb
      exact hb ▸ h2
  | .rect h p1 p2 => fun b hb => by
    rw [bboxInt] at hb; injection hb with hb; exact hb ▸ BBox.norm_ofPts _ _
  | .rrect h p1 p2 r => fun b hb => by
    rw [bboxInt] at hb; injection hb with hb; exact hb ▸ BBox.norm_ofPts _ _
  | .ellipse h p1 p2 => fun b hb => by
    rw [bboxInt] at hb; injection hb with hb; exact hb ▸ BBox.norm_ofPts _ _
  | .group h hid es => fun b hb => by
    rw [bboxInt] at hb
    split_ifs at hb
    obtain ⟨bs, -, rfl⟩ := (bboxAll_iff _ _ _).1 hb
    exact fold_add_norm bs _ trivial
  | .holes h o is => fun b hb => by
    have ih := bboxInt_norm o
    rw [bboxInt] at hb
    split at hb
    · cases hb
    · rename_i bo ho
      split at hb
      · cases hb
      · split at hb
        · injection hb with hb
          exact hb ▸ ih _ ho
        · cases hb
        · cases hb

/-- C39: the bounding box of a group in its own space is the smallest box around the bounding boxes of its members: it exists exactly
if the group is not empty and every member has a box. -/
theorem C39_group_least (h : Hdr) (hid : Bool) (es : List (Str × Elem)) :
    (es = [] → bboxInt (.group h hid es) = .error .geomInternal) ∧
    (es ≠ [] → ((∃ b, bboxInt (.group h hid es) = .ok b) ↔ ∀ x ∈ es, ∃ b, x.2.bbox = .ok b)) ∧
    ∀ b, bboxInt (.group h hid es) = .ok b → ∀ c : BBox ℝ, b.Region ⊆ c.Region ↔ ∀ x ∈ es, ∀ b', x.2.bbox = .ok b' → b'.Region ⊆ c.Region := by
  refine ⟨?_, ?_, ?_⟩
  · rintro rfl; simp [bboxInt]
  · intro hne
    rw [bboxInt, if_neg (by simpa using hne)]
    constructor
    · rintro ⟨b, hb⟩ x hx
      obtain ⟨bs, h1, -⟩ := (bboxAll_iff _ _ _).1 hb
      obtain ⟨i, hi, rfl⟩ := List.getElem_of_mem hx
      exact ⟨_, (List.forall₂_iff_get.1 h1).2 i hi ((List.forall₂_iff_get.1 h1).1 ▸ hi)⟩
    · intro hall
      have : ∀ l : List (Str × Elem), (∀ x ∈ l, ∃ b, x.2.bbox = .ok b) → ∃ bs, List.Forall₂ (fun x b => x.2.bbox = .ok b) l bs := by
        intro l
        induction l with
        | nil => intro _; exact ⟨[], .nil⟩
        | cons x l ih =>
          intro hl
          obtain ⟨b, hb⟩ := hl x List.mem_cons_self
          obtain ⟨bs, hbs⟩ := ih fun y hy => hl y (List.mem_cons_of_mem _ hy)
          exact ⟨_, .cons hb hbs⟩
      obtain ⟨bs, hbs⟩ := this es hall
      exact ⟨_, (bboxAll_iff _ _ _).2 ⟨bs, hbs, rfl⟩⟩
  · intro b hb c
    rw [bboxInt] at hb
    split_ifs at hb
    obtain ⟨bs, h1, rfl⟩ := (bboxAll_iff _ _ _).1 hb
    have key : ∀ (l : List (Str × Elem)) (bs : List (BBox ℝ)) (acc : BBox ℝ), List.Forall₂ (fun x b => x.2.bbox = .ok b) l bs → acc.Norm →
        ((bs.foldl BBox.add acc).Region ⊆ c.Region ↔
          acc.Region ⊆ c.Region ∧ ∀ x ∈ l, ∀ b', x.2.bbox = .ok b' → b'.Region ⊆ c.Region) := by
      intro l bs acc hl
      induction hl generalizing acc with
      | nil => intro _; simp
      | @cons x b l bs hx _ ih =>
        intro hn
        rw [List.foldl_cons, ih _ (BBox.norm_add _ _), BBox.region_add_lub hn (bbox_norm hx)]
        simp only [List.mem_cons, forall_eq_or_imp, hx, Except.ok.injEq, forall_eq', and_assoc]
    rw [key es bs .none h1 trivial]
    simp [BBox.Region]

/-- C39: `bbox()` is the smallest box around the images of the points of `bbox_int()` under the own transform. -/
theorem C39_bbox_least (e : Elem) (b : BBox ℝ) (hb : e.bbox = .ok b) :
    ∃ bi, bboxInt e = .ok bi ∧ ∀ c : BBox ℝ, b.Region ⊆ c.Region ↔ ∀ p ∈ bi.Region, e.hdr.xf.apply p ∈ c.Region := by
  rw [bbox] at hb
  cases h1 : bboxInt e with
  | error er => rw [h1] at hb; cases hb
  | ok bi =>
    rw [h1] at hb
    simp only [bboxFrom] at hb
    refine ⟨bi, rfl, fun c => ⟨fun hs p hp => hs (mem_bboxOf _ _ _ hb p hp), fun hall => ?_⟩⟩
    cases bi with
    | none => simp [bboxOf] at hb
    | box xl yl xh yh =>
      have hn := bboxInt_norm e _ h1
      simp only [bboxOf, Except.ok.injEq] at hb
      subst hb
      have key : ∀ a b : Pt ℝ, a ∈ c.Region → b ∈ c.Region → (BBox.ofPts a b).Region ⊆ c.Region := by
        intro a b ha hb
        cases c with
        | none => exact ha.elim
        | box xl yl xh yh =>
          obtain ⟨⟨a1, a2⟩, a3, a4⟩ := ha
          obtain ⟨⟨b1, b2⟩, b3, b4⟩ := hb
          rintro q ⟨⟨q1, q2⟩, q3, q4⟩
          exact ⟨⟨(le_min a1 b1).trans q1, q2.trans (max_le a2 b2)⟩, (le_min a3 b3).trans q3, q4.trans (max_le a4 b4)⟩
      obtain ⟨n1, n2⟩ := hn
      exact (BBox.region_add_lub (BBox.norm_ofPts _ _) (BBox.norm_ofPts _ _)).2
        ⟨key _ _ (hall _ ⟨⟨le_rfl, n1⟩, le_rfl, n2⟩) (hall _ ⟨⟨n1, le_rfl⟩, n2, le_rfl⟩),
          key _ _ (hall _ ⟨⟨le_rfl, n1⟩, n2, le_rfl⟩) (hall _ ⟨⟨n1, le_rfl⟩, le_rfl, n2⟩)⟩

end Elem

/-! ### C41 -/

namespace Elem

mutual
/-- A tree as the constructors leave it: a group is not closed, and the parts of a shape with holes have its pen and brush
(model.py:820-826, 1022-1024). -/
def Fresh : Elem → Prop
  | .group h _ es => h.closed = false ∧ FreshAll es
  | .holes h o is => o.hdr.pb = h.pb ∧ Fresh o ∧ FreshIn h.pb is
  | _ => True
/-- The members of a group. -/
def FreshAll : List (Str × Elem) → Prop
  | [] => True
  | (_, e) :: rest => Fresh e ∧ FreshAll rest
/-- The holes of a shape with the given pen and brush. -/
def FreshIn (pb : PenBrush) : List Elem → Prop
  | [] => True
  | e :: rest => e.hdr.pb = pb ∧ Fresh e ∧ FreshIn pb rest
end

theorem setPb_self (e : Elem) (pb : PenBrush) (h : e.hdr.pb = pb) : e.setPb pb = e := by
  subst h
  cases e <;> rfl

mutual
theorem fresh_copy : (e : Elem) → e.Fresh → ∀ c, e.copy = .ok c → c = e
  | .curve h cps => fun _ c hc => by
    rw [copy] at hc
    cases hk : checkClosed h.pb h.closed with
    | error er => rw [hk] at hc; cases hc
    | ok u => rw [hk] at hc; injection hc with hc; exact hc.symm
  | .rect h p1 p2 => fun _ c hc => by
    rw [copy] at hc; split_ifs at hc; injection hc with hc; exact hc.symm
  | .rrect h p1 p2 r => fun _ c hc => by
    rw [copy] at hc; split_ifs at hc; injection hc with hc; exact hc.symm
  | .ellipse h p1 p2 => fun _ c hc => by
    rw [copy] at hc; split_ifs at hc; injection hc with hc; exact hc.symm
  | .group h hid es => fun hf c hc => by
    rw [Fresh] at hf
    rw [copy] at hc
    cases hk : checkClosed h.pb false with
    | error er => rw [hk] at hc; cases hc
    | ok u =>
      rw [hk] at hc
      injection hc with hc
      rw [← hc, ← hf.1]
  | .holes h o is => fun hf c hc => by
    rw [Fresh] at hf
    have ho := fresh_copy o hf.2.1
    have hi := fresh_copyAll h.pb is hf.2.2
    rw [copy] at hc
    split at hc
    · cases hc
    · rename_i o' eo
      split at hc
      · cases hc
      · rename_i is' ei
        cases hk : checkClosed h.pb h.closed with
        | error er => rw [hk] at hc; cases hc
        | ok u =>
          rw [hk] at hc
          injection hc with hc
          rw [← hc, ho _ eo, (hi _ ei).1, setPb_self _ _ hf.1, (hi _ ei).2]
theorem fresh_copyAll (pb : PenBrush) : (es : List Elem) → FreshIn pb es → ∀ l, copyAll es = .ok l → l = es ∧ es.map (·.setPb pb) = es
  | [] => fun _ l hl => by rw [copyAll] at hl; injection hl with hl; exact ⟨hl.symm, rfl⟩
  | e :: rest => fun hf l hl => by
    rw [FreshIn] at hf
    have h1 := fresh_copy e hf.2.1
    have h2 := fresh_copyAll pb rest hf.2.2
    rw [copyAll] at hl
    split at hl
    · cases hl
    · rename_i c hc
      split at hl
      · cases hl
      · rename_i cs hcs
        injection hl with hl
        rw [← hl, h1 _ hc, (h2 _ hcs).1, List.map_cons, setPb_self _ _ hf.1, (h2 _ hcs).2]
        exact ⟨rfl, rfl⟩
end

theorem holesBody_onlyMat (cfg : DCfg) (h : Hdr) (o : Elem) (i : List Elem) : OnlyMat (holesBody cfg h o i) := by
  intro s s' hs
  have h0 := paths_onlyMat cfg o s s' hs
  have h1 := (paths_keeps cfg o s).1
  have h1' := (paths_keeps cfg o s').1
  obtain ⟨a, r, ha⟩ := pair_cases (paths cfg o s)
  obtain ⟨a', r', ha'⟩ := pair_cases (paths cfg o s')
  simp only [holesBody]
  rw [ha] at h0 h1 ⊢
  rw [ha'] at h0 h1' ⊢
  simp only at h0 h1 h1'
  subst h0
  have haa : a.mat = a'.mat := by rw [h1, h1', hs]
  match r with
  | .error er => rfl
  | .ok [] => rfl
  | .ok (_ :: _ :: _) => rfl
  | .ok [edge] =>
    cases hb : h.pb.brush with
    | none => exact pathsEdge_onlyMat cfg _ i _ a a' haa
    | some b =>
      have h2 := pathsFill_onlyMat cfg ⟨h.pb.pen, none⟩ i ([{ edge with pb := ⟨h.pb.pen, none⟩ }], ⟨⟨none, some b⟩, edge.closed, edge.pts⟩) a a' haa
      obtain ⟨c, t, hc⟩ := pair_cases (pathsFill cfg ⟨h.pb.pen, none⟩ i a ([{ edge with pb := ⟨h.pb.pen, none⟩ }], ⟨⟨none, some b⟩, edge.closed, edge.pts⟩))
      obtain ⟨c', t', hc'⟩ := pair_cases (pathsFill cfg ⟨h.pb.pen, none⟩ i a' ([{ edge with pb := ⟨h.pb.pen, none⟩ }], ⟨⟨none, some b⟩, edge.closed, edge.pts⟩))
      simp only [hc, hc'] at h2 ⊢
      subst h2
      cases t <;> rfl

/-- C41: the copy of a tree, as the constructors leave it, draws what the tree draws, in every context. -/
theorem C41_copy (cfg : DCfg) (e c : Elem) (hf : e.Fresh) (hc : e.copy = .ok c) (s : TState) : paths cfg c s = paths cfg e s := by
  rw [fresh_copy e hf c hc]

/-- C41: a shape with holes (as its constructor leaves it) transformed by `m` and drawn is the shape drawn under the composed matrix. -/
theorem C41_transform_holes (cfg : DCfg) (h : Hdr) (o : Elem) (is : List Elem) (m m' s : TState) (e' : Elem)
    (hf : (Elem.holes h o is).Fresh) (ht : transform (.holes h o is) m = (m', .ok e')) :
    (paths cfg e' s).2 = drawn cfg (.holes h o is) (s.mat.mul m.mat) := by
  rw [Fresh] at hf
  simp only [transform] at ht
  split at ht
  · simp at ht
  · rename_i o' eo
    split at ht
    · simp at ht
    · rename_i is' ei
      cases hk : checkClosed h.pb h.closed with
      | error er => rw [hk] at ht; simp at ht
      | ok u =>
        rw [hk] at ht
        simp only [Prod.mk.injEq, Except.ok.injEq] at ht
        obtain ⟨-, rfl⟩ := ht
        obtain ⟨e1, e2⟩ := fresh_copyAll h.pb is hf.2.2 _ ei
        rw [fresh_copy o hf.2.1 _ eo, e1, setPb_self _ _ hf.1, e2, drawn_push]
        simp only [drawn, paths_holes]
        rw [drawSpace_eq (holesBody_keeps cfg _ o is), drawSpace_eq (holesBody_keeps cfg _ o is)]
        simp only [TState.push, TState.compose, TState.copy, TState.setMatrix, Mat3.mul_assoc']
        have hl := holesBody_onlyMat cfg h o is
        exact hl _ _ rfl

/-- A shape with a hole as the constructor leaves it. -/
example : (Elem.holes (hdr0 none) (.rect (hdr0 none) ⟨0, 0⟩ ⟨4, 4⟩) [.rect (hdr0 none) ⟨1, 1⟩ ⟨2, 2⟩]).Fresh := by
  simp [Fresh, FreshIn, hdr0, hdr]

end Elem

/-! ### C27 -/

/-- C27: `transform_width` multiplies by the mean of the lengths of the images of the two unit axes. -/
theorem C27_width (s : TState) (w : ℝ) :
    s.transformWidth w = w * ((Line.dist (s.transform ⟨1, 0⟩) (s.transform ⟨0, 0⟩) + Line.dist (s.transform ⟨0, 1⟩) (s.transform ⟨0, 0⟩)) / 2) := by
  simp only [TState.transformWidth, C27_scale_vals]
  rw [abs_of_nonneg (show 0 ≤ Line.dist (s.transform ⟨1, 0⟩) (s.transform ⟨0, 0⟩) from Real.sqrt_nonneg _),
    abs_of_nonneg (show 0 ≤ Line.dist (s.transform ⟨0, 1⟩) (s.transform ⟨0, 0⟩) from Real.sqrt_nonneg _)]
  ring

/-! ### C76 -/

/-- C76: control points are close exactly if they are of one kind and centres, left and right handles are each close as points or
vectors are. -/
theorem C76_control_points_exact (a b : CP ℝ) (d : ℝ) :
    a.close b d ↔ a.kind = b.kind ∧ √((a.c.x - b.c.x) ^ 2 + (a.c.y - b.c.y) ^ 2) < d ∧
      √((a.dl.x - b.dl.x) ^ 2 + (a.dl.y - b.dl.y) ^ 2) < d ∧ √((a.dr.x - b.dr.x) ^ 2 + (a.dr.y - b.dr.y) ^ 2) < d := by
  simp only [CP.close, Pt.close_iff, Vec.close_iff, hypot, sq]

/-! ### C55 -/

theorem penOf_color {c : Color} (hc : ∀ x y, c ≠ .tup [x, y]) : PenBrush.penOf (some (.color c)) = some ⟨⟨c⟩, 0⟩ := by
  unfold PenBrush.penOf
  split
  · rename_i h; cases h
  · rename_i h; cases h
  · rename_i h; cases h
  · rename_i h; cases h; exact absurd rfl (hc _ _)
  · rename_i h; cases h; rfl

/-- C55: what the arguments of `PenBrush(pen, brush)` stand for: a pen, a pair of colour or brush and width, or a colour, which gives a
pen of width 0 unless it is a tuple of two numbers; a brush or a colour. -/
theorem C55_arguments (p : Pen) (b : Brush) (c : Color) (hc : ∀ x y, c ≠ .tup [x, y]) (w : ℝ) (brush : Option BrushArg)
    (pen : Option PenArg) :
    (PenBrush.init none brush).pen = none ∧ (PenBrush.init (some (.pen p)) brush).pen = some p ∧
    (PenBrush.init (some (.pair (.color c) w)) brush).pen = some ⟨⟨c⟩, w⟩ ∧ (PenBrush.init (some (.pair (.brush b) w)) brush).pen = some ⟨b, w⟩ ∧
    (PenBrush.init (some (.color c)) brush).pen = some ⟨⟨c⟩, 0⟩ ∧ (PenBrush.init pen none).brush = none ∧
    (PenBrush.init pen (some (.brush b))).brush = some b ∧ (PenBrush.init pen (some (.color c))).brush = some ⟨c⟩ :=
  ⟨rfl, rfl, rfl, rfl, penOf_color hc, rfl, rfl, rfl⟩

example : ∀ x y, Color.name "red" ≠ .tup [x, y] := by simp
example : ∀ x y, Color.transparent ≠ .tup [x, y] := by simp [Color.transparent]

/-- C55 fails for colours that are tuples of two numbers (grey and alpha): as a pen, `(grey, alpha)` is taken for the colour `grey` and
the width `alpha`, while as a brush it is a colour. -/
theorem C55_pair_counterexample (x y : ℤ) (brush : Option BrushArg) (pen : Option PenArg) (pb : PenBrush) :
    (PenBrush.init (some (.color (.tup [x, y]))) brush).pen = some ⟨⟨.num x⟩, y⟩ ∧
    (PenBrush.init pen (some (.color (.tup [x, y])))).brush = some ⟨.tup [x, y]⟩ ∧
    pb.replace (some (.color (.tup [x, y]))) none none = .ok ⟨some ⟨⟨.num x⟩, y⟩, pb.brush⟩ := by
  refine ⟨rfl, rfl, ?_⟩
  obtain ⟨pen, brush⟩ := pb
  cases brush <;> simp [PenBrush.replace, PenArg.truthy, Color.truthy, PenBrush.init, PenBrush.penOf, BrushArg.toBrush, Pen.init]

/-- C55: `replace` with colours in place of pens and brushes: a colour that is true is taken as it is by the constructor; one that is
not ('', 0 or ()) changes nothing. -/
theorem C55_replace_colors (pb : PenBrush) (c : Color) (hc : ∀ x y, c ≠ .tup [x, y]) (b : BrushArg) (w : ℝ) :
    (c.truthy = true → pb.replace (some (.color c)) none none = .ok ⟨some ⟨⟨c⟩, 0⟩, pb.brush⟩) ∧
    (c.truthy = true → pb.replace none none (some (.color c)) = .ok ⟨pb.pen, some ⟨c⟩⟩) ∧
    pb.replace (some (.pair b w)) none none = .ok ⟨some ⟨b.toBrush, w⟩, pb.brush⟩ ∧
    (c.truthy = false → pb.replace (some (.color c)) none none = .ok pb ∧ pb.replace none none (some (.color c)) = .ok pb) ∧
    (c.truthy = true ↔ c ≠ .name "" ∧ c ≠ .num 0 ∧ c ≠ .tup []) := by
  obtain ⟨pen, brush⟩ := pb
  refine ⟨fun h => ?_, fun h => ?_, ?_, fun h => ?_, ?_⟩
  · cases brush <;> simp [PenBrush.replace, PenArg.truthy, h, PenBrush.init, penOf_color hc, BrushArg.toBrush]
  · cases pen <;> simp [PenBrush.replace, BrushArg.truthy, h, PenBrush.init, PenBrush.penOf, BrushArg.toBrush]
  · cases brush <;> simp [PenBrush.replace, PenArg.truthy, PenBrush.init, PenBrush.penOf, BrushArg.toBrush, Pen.init]
  · cases pen <;> cases brush <;>
      simp [PenBrush.replace, PenArg.truthy, BrushArg.truthy, h, PenBrush.init, PenBrush.penOf, BrushArg.toBrush]
  · cases c <;> simp [Color.truthy]

/-! ### C61 -/

namespace Anim

/-- C61: `Animation.sin` and `Animation.cos`: without an offset, the sine or cosine of as many turns as the frequency says per unit of
time, times the scale, plus the shift; never further from the shift than the scale; the two together are `sin_cos`. Pairs and `None` raise
`TypeError`. -/
theorem C61_sin_and_cos (f offset scale shift t : ℝ) :
    animSin f 0 scale shift (.num t) = .ok (.num (Real.sin (2 * Real.pi * f * t) * scale + shift)) ∧
    animCos f 0 scale shift (.num t) = .ok (.num (Real.cos (2 * Real.pi * f * t) * scale + shift)) ∧
    (∃ x y, animSin f offset scale shift (.num t) = .ok (.num x) ∧ animCos f offset scale shift (.num t) = .ok (.num y) ∧
      sinCos f offset scale shift (.num t) = .ok (.pair x y) ∧ |x - shift| ≤ |scale| ∧ |y - shift| ≤ |scale|) ∧
    ∀ v, (∀ t, v ≠ .num t) → animSin f offset scale shift v = .error .type ∧ animCos f offset scale shift v = .error .type := by
  refine ⟨(C61_periodic Real.sin f scale shift t Real.sin_add_two_pi).1, (C61_periodic Real.cos f scale shift t Real.cos_add_two_pi).1,
    ⟨_, _, rfl, rfl, rfl, ?_, ?_⟩, ?_⟩
  · exact (C61_periodic Real.sin f scale shift t Real.sin_add_two_pi).2.2 offset Real.abs_sin_le_one _ rfl
  · exact (C61_periodic Real.cos f scale shift t Real.cos_add_two_pi).2.2 offset Real.abs_cos_le_one _ rfl
  · intro v hv
    cases v with
    | num t => exact absurd rfl (hv t)
    | pair x y => exact ⟨rfl, rfl⟩
    | none => exact ⟨rfl, rfl⟩

end Anim

end X7
