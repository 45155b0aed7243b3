import Mathlib.Topology.Order.IntermediateValue
import Mathlib.Topology.Instances.Real.Lemmas
import Verif.Model.Flatten
import Verif.Spec.Flatten
import Verif.Props.ElemTransform

/-!
C70: `as_curves` keeps every outline where it is. C71: `iter_elems_transformed` gives the elements of a group where they are.
-/

noncomputable section

namespace X7.Elem

/-! ### C70 -/

theorem foldl_mul (l : List (Mat3 ℝ)) (a b : Mat3 ℝ) : l.foldl Mat3.mul (a.mul b) = a.mul (l.foldl Mat3.mul b) := by
  induction l generalizing b with
  | nil => rfl
  | cons x l ih => rw [List.foldl_cons, List.foldl_cons, Mat3.mul_assoc', ih]

theorem foldl_affine (l : List (Mat3 ℝ)) (a : Mat3 ℝ) (ha : a.Affine) (h : ∀ x ∈ l, x.Affine) : (l.foldl Mat3.mul a).Affine := by
  induction l generalizing a with
  | nil => exact ha
  | cons x l ih => exact ih _ (Mat3.affine_mul ha (h x (by simp))) fun y hy => h y (by simp [hy])

/-- A part as a single curve: constructor check and control points under the transforms. -/
def partCps : Elem → Except PyErr (List (CP ℝ))
  | .curve _ cps => .ok cps
  | .rect _ p1 p2 => .ok ((corners p1 p2).map fun p => CP.mk p ⟨0, 0⟩ ⟨0, 0⟩ "smooth")
  | .rrect _ p1 p2 r => makeRoundedRect p1 p2 r
  | .ellipse _ p1 p2 => makeEllipseP1P2 p1 p2
  | .group _ _ _ => .error .notImplemented
  | .holes _ _ _ => .error .notImplemented

/-- What `as_curves` makes of a part. -/
def flat (x : List Str × List (Mat3 ℝ) × Elem) : Except PyErr (Hdr × List (CP ℝ)) :=
  match partCps x.2.2 with
  | .error er => .error er
  | .ok cps => .ok ({ x.2.2.hdr with xf := Mat3.one }, cps.map (·.transformLin (whole x).apply))

theorem checkClosed_ok {pb : PenBrush} {c : Bool} (h : pb.filled = true → c = true) : checkClosed pb c = .ok () := by
  unfold checkClosed
  cases hf : pb.filled <;> cases hc : c <;> simp_all

theorem transformLin_comp (cps : List (CP ℝ)) (a b : Mat3 ℝ) (ha : a.Affine) :
    (cps.map (·.transformLin a.apply)).map (·.transformLin b.apply) = cps.map (·.transformLin (b.mul a).apply) := by
  rw [List.map_map]
  refine List.map_congr_left fun p _ => ?_
  exact C34_compose p a b ha

mutual
theorem parts_affine : (e : Elem) → Made e → ∀ x ∈ parts e, (∀ m ∈ x.2.1, m.Affine) ∧ Made x.2.2 ∧ x.2.2.Basic ∧ x.2.2.hdr.xf.Affine
  | .curve h x, hm, y, hy => by simp only [parts, List.mem_singleton] at hy; subst hy; exact ⟨by simp, hm, trivial, hm.1⟩
  | .rect h x z, hm, y, hy => by simp only [parts, List.mem_singleton] at hy; subst hy; exact ⟨by simp, hm, trivial, hm.1⟩
  | .rrect h x z r, hm, y, hy => by simp only [parts, List.mem_singleton] at hy; subst hy; exact ⟨by simp, hm, trivial, hm.1⟩
  | .ellipse h x z, hm, y, hy => by simp only [parts, List.mem_singleton] at hy; subst hy; exact ⟨by simp, hm, trivial, hm.1⟩
  | .group h b es, hm, y, hy => by
    simp only [parts, List.mem_map] at hy
    obtain ⟨z, hz, rfl⟩ := hy
    obtain ⟨h1, h2⟩ := partsAll_affine es hm.2 z hz
    refine ⟨?_, h2⟩
    intro m hmm
    rcases List.mem_cons.1 hmm with rfl | hmm
    · exact hm.1
    · exact h1 m hmm
  | .holes h o i, hm, y, hy => by
    simp only [parts, List.mem_append, List.mem_map] at hy
    have key : ∀ z : List Str × List (Mat3 ℝ) × Elem, (∀ m ∈ z.2.1, m.Affine) ∧ Made z.2.2 ∧ z.2.2.Basic ∧ z.2.2.hdr.xf.Affine → ∀ n : List Str,
        (∀ m ∈ (n, h.xf :: z.2.1, z.2.2).2.1, m.Affine) ∧ Made z.2.2 ∧ z.2.2.Basic ∧ z.2.2.hdr.xf.Affine := by
      intro z hz n
      refine ⟨?_, hz.2⟩
      intro m hmm
      rcases List.mem_cons.1 hmm with rfl | hmm
      · exact hm.1
      · exact hz.1 m hmm
    rcases hy with ⟨z, hz, rfl⟩ | ⟨z, hz, rfl⟩
    · exact key z (parts_affine o hm.2.1 z hz) _
    · exact key z (partsIn_affine i hm.2.2 z hz) _
theorem partsAll_affine : (es : List (Str × Elem)) → MadeAll es → ∀ x ∈ partsAll es,
    (∀ m ∈ x.2.1, m.Affine) ∧ Made x.2.2 ∧ x.2.2.Basic ∧ x.2.2.hdr.xf.Affine
  | [], _, x, hx => by simp [partsAll] at hx
  | (_, e) :: rest, hm, x, hx => by
    rcases List.mem_append.1 hx with h | h
    · exact parts_affine e hm.1 x h
    · exact partsAll_affine rest hm.2 x h
theorem partsIn_affine : (es : List Elem) → MadeIn es → ∀ x ∈ partsIn es,
    (∀ m ∈ x.2.1, m.Affine) ∧ Made x.2.2 ∧ x.2.2.Basic ∧ x.2.2.hdr.xf.Affine
  | [], _, x, hx => by simp [partsIn] at hx
  | e :: rest, hm, x, hx => by
    rcases List.mem_append.1 hx with h | h
    · exact parts_affine e hm.1 x h
    · exact partsIn_affine rest hm.2 x h
end

theorem whole_affine {x : List Str × List (Mat3 ℝ) × Elem} (h : (∀ m ∈ x.2.1, m.Affine) ∧ Made x.2.2 ∧ x.2.2.Basic ∧ x.2.2.hdr.xf.Affine) :
    (whole x).Affine := Mat3.affine_mul (foldl_affine _ _ Mat3.affine_one h.1) h.2.2.2

/-- Going one level up. -/
theorem flat_up (xf : Mat3 ℝ) (n : List Str) (x : List Str × List (Mat3 ℝ) × Elem) (hx : (whole x).Affine) :
    flat (n, xf :: x.2.1, x.2.2) = (flat x).map (curveMoved xf) := by
  have : whole (n, xf :: x.2.1, x.2.2) = xf.mul (whole x) := by
    simp only [whole, List.foldl_cons, Mat3.one_mul']
    rw [← Mat3.mul_assoc', ← foldl_mul, Mat3.mul_one']
  unfold flat
  simp only [this]
  cases partCps x.2.2 with
  | error er => rfl
  | ok cps =>
    simp only [Except.map, curveMoved, Mat3.mul_one', transformLin_comp _ _ _ hx]

theorem mapM_map_ok {α β γ : Type} (f : α → Except PyErr β) (g : β → γ) (l : List α) :
    l.mapM (fun x => (f x).map g) = (l.mapM f).map (List.map g) := by
  induction l with
  | nil => rfl
  | cons x l ih =>
    rw [List.mapM_cons, List.mapM_cons, ih]
    cases f x <;> cases List.mapM f l <;> rfl

theorem mapM_congr' {α β : Type} {f g : α → Except PyErr β} {l : List α} (h : ∀ x ∈ l, f x = g x) : l.mapM f = l.mapM g := by
  induction l with
  | nil => rfl
  | cons x l ih => rw [List.mapM_cons, List.mapM_cons, h x (by simp), ih fun y hy => h y (by simp [hy])]

theorem curveOf_eq (e : Elem) (n : Str) (cps : List (CP ℝ)) (hf : e.hdr.pb.filled = true → e.hdr.closed = true)
    (hp : partCps e = .ok cps) : curveOf e.hdr cps = [(([n], [], e) : List Str × List (Mat3 ℝ) × Elem)].mapM flat := by
  simp only [curveOf, checkClosed_ok hf, List.mapM_cons, List.mapM_nil, flat, hp, whole, List.foldl_nil, Mat3.one_mul']
  rfl

mutual
theorem asCurves_flat : (e : Elem) → Made e → asCurves e = (parts e).mapM flat
  | .curve h x, hm => by rw [asCurves, parts]; exact curveOf_eq (.curve h x) _ _ hm.2 rfl
  | .rect h x y, hm => by rw [asCurves, parts]; exact curveOf_eq (.rect h x y) _ _ (fun _ => hm.2) rfl
  | .rrect h x y r, hm => by
    rw [asCurves, parts]
    cases hp : makeRoundedRect x y r with
    | error er => simp only [List.mapM_cons, List.mapM_nil, flat, partCps, hp]; rfl
    | ok cps => exact curveOf_eq (.rrect h x y r) _ _ (fun _ => hm.2) hp
  | .ellipse h x y, hm => by
    rw [asCurves, parts]
    cases hp : makeEllipseP1P2 x y with
    | error er => simp only [List.mapM_cons, List.mapM_nil, flat, partCps, hp]; rfl
    | ok cps => exact curveOf_eq (.ellipse h x y) _ _ (fun _ => hm.2) hp
  | .group h b es, hm => by
    rw [asCurves, parts, List.mapM_map]
    have h1 := asCurvesAll_flat es hm.2
    rw [h1]
    have h2 : (partsAll es).mapM (fun p => flat (h.name :: p.1, h.xf :: p.2.1, p.2.2)) =
        (partsAll es).mapM fun p => (flat p).map (curveMoved h.xf) :=
      mapM_congr' fun x hx => flat_up _ _ _ (whole_affine (partsAll_affine es hm.2 x hx))
    simp only [Function.comp_def] at h2 ⊢
    rw [h2, mapM_map_ok]
    cases (partsAll es).mapM flat <;> rfl
  | .holes h o i, hm => by
    rw [asCurves, parts, List.mapM_append, List.mapM_map, List.mapM_map]
    rw [asCurves_flat o hm.2.1, asCurvesIn_flat i hm.2.2]
    have h1 : (parts o).mapM (fun p => flat (h.name :: [] :: "outside".toList :: p.1, h.xf :: p.2.1, p.2.2)) =
        (parts o).mapM fun p => (flat p).map (curveMoved h.xf) :=
      mapM_congr' fun x hx => flat_up _ _ _ (whole_affine (parts_affine o hm.2.1 x hx))
    have h2 : (partsIn i).mapM (fun p => flat (h.name :: [] :: "inside".toList :: p.1, h.xf :: p.2.1, p.2.2)) =
        (partsIn i).mapM fun p => (flat p).map (curveMoved h.xf) :=
      mapM_congr' fun x hx => flat_up _ _ _ (whole_affine (partsIn_affine i hm.2.2 x hx))
    simp only [Function.comp_def] at h1 h2 ⊢
    rw [h1, h2, mapM_map_ok, mapM_map_ok]
    cases (parts o).mapM flat <;> cases (partsIn i).mapM flat <;> simp [Except.map, bind, Except.bind, pure, Except.pure]
theorem asCurvesAll_flat : (es : List (Str × Elem)) → MadeAll es → asCurvesAll es = (partsAll es).mapM flat
  | [], _ => rfl
  | (_, e) :: rest, hm => by
    rw [asCurvesAll, partsAll, List.mapM_append, asCurves_flat e hm.1, asCurvesAll_flat rest hm.2]
    cases (parts e).mapM flat <;> cases (partsAll rest).mapM flat <;> rfl
theorem asCurvesIn_flat : (es : List Elem) → MadeIn es → asCurvesIn es = (partsIn es).mapM flat
  | [], _ => rfl
  | e :: rest, hm => by
    rw [asCurvesIn, partsIn, List.mapM_append, asCurves_flat e hm.1, asCurvesIn_flat rest hm.2]
    cases (parts e).mapM flat <;> cases (partsIn rest).mapM flat <;> rfl
end

theorem curveSet_map (closed : Bool) (cps : List (CP ℝ)) (m : Mat3 ℝ) :
    curveSet closed (cps.map (·.transformLin m.apply)) = m.apply '' curveSet closed cps := by
  ext q
  simp only [curveSet, segs_transform, Set.mem_setOf_eq, List.mem_map, Set.mem_image]
  constructor
  · rintro ⟨_, ⟨s, hs, rfl⟩, t, h0, h1, rfl⟩
    exact ⟨s.at' t, ⟨s, hs, t, h0, h1, rfl⟩, (at'_map m s t).symm⟩
  · rintro ⟨_, ⟨s, hs, t, h0, h1, rfl⟩, rfl⟩
    exact ⟨_, ⟨s, hs, rfl⟩, t, h0, h1, (at'_map m s t).symm⟩

/-- The smooth step from 0 to 1 takes every value in between. -/
theorem smoothstep_onto (u : ℝ) (h0 : 0 ≤ u) (h1 : u ≤ 1) : ∃ t : ℝ, 0 ≤ t ∧ t ≤ 1 ∧ 3 * t ^ 2 - 2 * t ^ 3 = u := by
  have hc : ContinuousOn (fun t : ℝ => 3 * t ^ 2 - 2 * t ^ 3) (Set.Icc 0 1) := by fun_prop
  have h := intermediate_value_Icc (zero_le_one' ℝ) hc
  have hu : u ∈ Set.Icc ((fun t : ℝ => 3 * t ^ 2 - 2 * t ^ 3) 0) ((fun t : ℝ => 3 * t ^ 2 - 2 * t ^ 3) 1) := by
    constructor <;> norm_num <;> assumption
  obtain ⟨t, ht, he⟩ := h hu
  exact ⟨t, ht.1, ht.2, he⟩

/-- The segment between two control points without handles runs along the straight line. -/
theorem sharp_side (p q : Pt ℝ) (k : String) :
    {x | ∃ t, 0 ≤ t ∧ t ≤ 1 ∧ x = (seg (CP.mk p ⟨0, 0⟩ ⟨0, 0⟩ k) (CP.mk q ⟨0, 0⟩ ⟨0, 0⟩ k)).at' t} = side p q := by
  have hat : ∀ t : ℝ, (seg (CP.mk p ⟨0, 0⟩ ⟨0, 0⟩ k) (CP.mk q ⟨0, 0⟩ ⟨0, 0⟩ k)).at' t =
      ⟨(1 - (3 * t ^ 2 - 2 * t ^ 3)) * p.x + (3 * t ^ 2 - 2 * t ^ 3) * q.x,
       (1 - (3 * t ^ 2 - 2 * t ^ 3)) * p.y + (3 * t ^ 2 - 2 * t ^ 3) * q.y⟩ := by
    intro t
    ext <;> simp only [seg, Poly4.at', bern, add_zero] <;> ring
  ext x
  simp only [Set.mem_setOf_eq, side, hat]
  constructor
  · rintro ⟨t, h0, h1, rfl⟩
    refine ⟨3 * t ^ 2 - 2 * t ^ 3, ?_, ?_, rfl⟩
    · nlinarith [mul_nonneg (mul_nonneg h0 h0) (by linarith : 0 ≤ 3 - 2 * t)]
    · nlinarith [mul_nonneg (mul_nonneg (sub_nonneg.2 h1) (sub_nonneg.2 h1)) (by linarith : 0 ≤ 1 + 2 * t)]
  · rintro ⟨u, h0, h1, rfl⟩
    obtain ⟨t, h2, h3, rfl⟩ := smoothstep_onto u h0 h1
    exact ⟨t, h2, h3, rfl⟩

theorem rect_outline (p1 p2 : Pt ℝ) :
    curveSet true ((corners p1 p2).map fun p => CP.mk p ⟨0, 0⟩ ⟨0, 0⟩ "smooth") =
      side p1 ⟨p1.x, p2.y⟩ ∪ side ⟨p1.x, p2.y⟩ p2 ∪ side p2 ⟨p2.x, p1.y⟩ ∪ side ⟨p2.x, p1.y⟩ p1 := by
  simp only [← sharp_side _ _ "smooth"]
  ext q
  simp [curveSet, segs, closedSegs, corners, Set.mem_union, or_assoc]

/-- The control points of a part draw its outline. -/
theorem partCps_outline (e : Elem) (hb : e.Basic) (hm : Made e) (S : Set (Pt ℝ)) :
    HasOutline e S ↔ ∃ cps, partCps e = .ok cps ∧ S = curveSet e.hdr.closed cps := by
  cases e with
  | curve h cps => simp [HasOutline, partCps, hdr]
  | rect h p1 p2 =>
    have := hm.2
    simp only [HasOutline, partCps, hdr, this, Except.ok.injEq, exists_eq_left', rect_outline]
  | rrect h p1 p2 r => simp only [HasOutline, partCps, hdr, hm.2]
  | ellipse h p1 p2 => simp only [HasOutline, partCps, hdr, hm.2]
  | group => exact hb.elim
  | holes => exact hb.elim

/-- `c` is the part `x` of a tree as a curve of its own: same name, pen and brush, open or closed as the part, no transform, and its
points are the outline of the part carried by all the transforms that apply to it. -/
def IsFlat (x : List Str × List (Mat3 ℝ) × Elem) (c : Hdr × List (CP ℝ)) : Prop :=
  c.1.name = x.2.2.hdr.name ∧ c.1.pb = x.2.2.hdr.pb ∧ c.1.closed = x.2.2.hdr.closed ∧ c.1.xf = Mat3.one ∧
    ∃ S, HasOutline x.2.2 S ∧ curveSet c.1.closed c.2 = (whole x).apply '' S

theorem flat_isFlat {x : List Str × List (Mat3 ℝ) × Elem} {c : Hdr × List (CP ℝ)} (hb : x.2.2.Basic) (hm : Made x.2.2)
    (h : flat x = .ok c) : IsFlat x c := by
  unfold flat at h
  split at h
  · cases h
  · rename_i cps hp
    cases h
    exact ⟨rfl, rfl, rfl, rfl, _, (partCps_outline _ hb hm _).2 ⟨cps, hp, rfl⟩, curveSet_map _ _ _⟩

theorem mapM_forall₂ {α β : Type} {f : α → Except PyErr β} {l : List α} {r : List β} (h : l.mapM f = .ok r) :
    List.Forall₂ (fun x y => f x = .ok y) l r := by
  induction l generalizing r with
  | nil => cases h; exact .nil
  | cons x l ih =>
    rw [List.mapM_cons] at h
    cases h1 : f x with
    | error er => rw [h1] at h; cases h
    | ok y =>
      rw [h1] at h
      cases h2 : l.mapM f with
      | error er => rw [h2] at h; cases h
      | ok ys => rw [h2] at h; cases h; exact .cons h1 (ih h2)

/-- C70: `as_curves` gives one curve for every part of the tree (that is not a group or a shape with holes), in order, each running
along the outline of the part where the part is drawn, with its name, pen and brush. -/
theorem C70_as_curves (e : Elem) (hm : Made e) (cs : List (Hdr × List (CP ℝ))) (h : asCurves e = .ok cs) :
    List.Forall₂ IsFlat (parts e) cs := by
  rw [asCurves_flat e hm] at h
  have hp := parts_affine e hm
  generalize parts e = l at h hp
  have h2 := mapM_forall₂ h
  clear h
  induction h2 with
  | nil => exact .nil
  | cons h1 _ ih => exact .cons (flat_isFlat (hp _ (by simp)).2.2.1 (hp _ (by simp)).2.1 h1) (ih fun x hx => hp x (by simp [hx]))

/-- C70: it fails only if some part has no outline: then for that reason, with the exception of the first such part. -/
theorem C70_fails (e : Elem) (hm : Made e) (er : PyErr) (h : asCurves e = .error er) :
    ∃ before x after, parts e = before ++ x :: after ∧ (∀ y ∈ before, ∃ S, HasOutline y.2.2 S) ∧ (∀ S, ¬ HasOutline x.2.2 S) ∧
      asCurves x.2.2 = .error er := by
  rw [asCurves_flat e hm] at h
  have hp := parts_affine e hm
  generalize parts e = l at h hp
  induction l with
  | nil => cases h
  | cons x l ih =>
    rw [List.mapM_cons] at h
    cases h1 : flat x with
    | error er' =>
      rw [h1] at h
      cases h
      refine ⟨[], x, l, rfl, by simp, ?_, ?_⟩
      · intro S hS
        obtain ⟨cps, h2, _⟩ := (partCps_outline _ (hp x (by simp)).2.2.1 (hp x (by simp)).2.1 S).1 hS
        simp [flat, h2] at h1
      · obtain ⟨n, l, e⟩ := x
        have h2 := (hp _ (List.mem_cons_self)).2
        simp only at h2 ⊢
        have h3 : partCps e = .error er := by
          unfold flat at h1
          split at h1
          · rename_i h4; cases h1; exact h4
          · cases h1
        cases e with
        | curve h cps => cases h3
        | rect h p1 p2 => cases h3
        | rrect h p1 p2 r => simp only [partCps] at h3; simp [asCurves, h3]
        | ellipse h p1 p2 => simp only [partCps] at h3; simp [asCurves, h3]
        | group => exact h2.2.1.elim
        | holes => exact h2.2.1.elim
    | ok c =>
      rw [h1] at h
      cases h2 : l.mapM flat with
      | ok cs => rw [h2] at h; cases h
      | error er' =>
        rw [h2] at h
        cases h
        obtain ⟨b, y, a, rfl, h4, h5⟩ := ih h2 fun y hy => hp y (by simp [hy])
        refine ⟨x :: b, y, a, rfl, ?_, h5⟩
        intro z hz
        rcases List.mem_cons.1 hz with rfl | hz
        · obtain ⟨_, _, _, _, S, hS, _⟩ := flat_isFlat (hp z (by simp)).2.2.1 (hp z (by simp)).2.1 h1
          exact ⟨S, hS⟩
        · exact h4 z hz

mutual
theorem leaves_parts : (e : Elem) → CurvesOnly e → leaves e = (parts e).map (fun x => (x.2.1, x.2.2)) ∧
    ∀ x ∈ parts e, ∃ h cps, x.2.2 = .curve h cps
  | .curve h x, _ => ⟨rfl, by simp [parts]⟩
  | .rect _ _ _, h => h.elim
  | .rrect _ _ _ _, h => h.elim
  | .ellipse _ _ _, h => h.elim
  | .holes _ _ _, h => h.elim
  | .group h b es, hc => by
    obtain ⟨h1, h2⟩ := leavesAll_partsAll es hc.2
    refine ⟨?_, ?_⟩
    · simp [leaves, parts, hc.1, h1]
    · intro x hx
      simp only [parts, List.mem_map] at hx
      obtain ⟨y, hy, rfl⟩ := hx
      exact h2 y hy
theorem leavesAll_partsAll : (es : List (Str × Elem)) → CurvesOnlyAll es → leavesAll es = (partsAll es).map (fun x => (x.2.1, x.2.2)) ∧
    ∀ x ∈ partsAll es, ∃ h cps, x.2.2 = .curve h cps
  | [], _ => ⟨rfl, by simp [partsAll]⟩
  | (_, e) :: rest, hc => by
    obtain ⟨h1, h2⟩ := leaves_parts e hc.1
    obtain ⟨h3, h4⟩ := leavesAll_partsAll rest hc.2
    refine ⟨by simp [leavesAll, partsAll, h1, h3], ?_⟩
    intro x hx
    rcases List.mem_append.1 hx with hx | hx
    · exact h2 x hx
    · exact h4 x hx
end

theorem drawn_flat (cfg : DCfg) (m : Mat3 ℝ) (x : List Str × List (Mat3 ℝ) × Elem) (h : Hdr) (cps : List (CP ℝ))
    (hx : x.2.2 = .curve h cps) (c : Hdr × List (CP ℝ)) (hw : (whole x).Affine) (hf : flat x = .ok c) :
    drawn cfg x.2.2 (x.2.1.foldl Mat3.mul m) = drawn cfg (.curve c.1 c.2) m := by
  have hw' : (x.2.1.foldl Mat3.mul m).mul h.xf = m.mul (whole x) := by
    have : x.2.2.hdr = h := by rw [hx]; rfl
    rw [whole, this, ← Mat3.mul_assoc', ← foldl_mul, Mat3.mul_one']
  simp only [flat, hx, partCps, Except.ok.injEq] at hf
  subst hf
  have hb : ∀ (h : Hdr) cps, Basic (.curve h cps) := fun _ _ => trivial
  rw [hx, drawn_basic _ _ (hb _ _), drawn_basic _ _ (hb _ _)]
  simp only [outline, Except.map, hdr, segs_transform, pathOf_map, List.map_map, Mat3.mul_one', hw']
  congr 4
  funext p
  exact Mat3.apply_mul hw p

/-- C70: a tree of curves and visible groups draws, in any context, the same paths as the list of its curves. -/
theorem C70_drawn (cfg : DCfg) (e : Elem) (hm : Made e) (hc : CurvesOnly e) (m : Mat3 ℝ) (cs : List (Hdr × List (CP ℝ)))
    (h : asCurves e = .ok cs) :
    drawn cfg e m = (cs.mapM fun c => drawn cfg (.curve c.1 c.2) m).map List.flatten := by
  rw [asCurves_flat e hm] at h
  obtain ⟨h1, h2⟩ := leaves_parts e hc
  have hp := parts_affine e hm
  rw [drawn_leaves, h1, List.mapM_map]
  congr 1
  have h3 := mapM_forall₂ h
  generalize parts e = l at h2 hp h3
  clear h1 h
  induction h3 with
  | nil => rfl
  | cons h4 _ ih =>
    obtain ⟨h, cps, hx⟩ := h2 _ (List.mem_cons_self)
    rw [List.mapM_cons, List.mapM_cons, ih (fun x hx => h2 x (by simp [hx])) (fun x hx => hp x (by simp [hx]))]
    simp only [Function.comp_apply]
    rw [drawn_flat cfg m _ h cps hx _ (whole_affine (hp _ (List.mem_cons_self))) h4]

/-- C70 is false for hidden groups: nothing is drawn, but there are curves. -/
theorem C70_hidden_counterexample : ∃ (e : Elem) (c : Hdr × List (CP ℝ)), Made e ∧ asCurves e = .ok [c] ∧
    (∀ cfg m, drawn cfg e m = .ok []) ∧ (∀ cfg m, ∃ p, drawn cfg (.curve c.1 c.2) m = .ok [p] ∧ p.pts ≠ []) := by
  let h : Hdr := ⟨"r".toList, ⟨some ⟨⟨.name "red"⟩, 1⟩, none⟩, true, Mat3.one⟩
  refine ⟨.group h true [("r".toList, .rect h ⟨0, 0⟩ ⟨1, 1⟩)], _, ?_, rfl, ?_, ?_⟩
  · simp [Made, MadeAll, h, Mat3.affine_one]
  · intro cfg m; exact drawn_hidden cfg h _ m
  · intro cfg m
    have hb : ∀ (h : Hdr) cps, Basic (.curve h cps) := fun _ _ => trivial
    refine ⟨_, drawn_basic cfg _ (hb _ _) m, ?_⟩
    simp [h, outline, curveMoved, corners, segs, closedSegs, pathOf, hdr, List.range_succ]

/-- C70 is false for filled shapes with holes in this sense: every hole becomes a filled curve of its own. -/
theorem C70_holes_counterexample (h : Hdr) (o i : Elem) (ho : o.Basic) (hi : i.Basic) (hm : Made (.holes h o [i]))
    (hf : h.pb.filled = true) (hpo : o.hdr.pb = h.pb) (hpi : i.hdr.pb = h.pb) (cs : List (Hdr × List (CP ℝ)))
    (hc : asCurves (.holes h o [i]) = .ok cs) :
    ∃ co ci, cs = [co, ci] ∧ co.1.pb.filled = true ∧ ci.1.pb.filled = true := by
  have h1 := C70_as_curves _ hm cs hc
  have hp : ∀ e : Elem, e.Basic → parts e = [([e.hdr.name], [], e)] := by
    intro e he
    cases e with
    | group => exact he.elim
    | holes => exact he.elim
    | _ => rfl
  simp only [parts, partsIn, hp o ho, hp i hi, List.append_nil, List.map_cons, List.map_nil, List.cons_append, List.nil_append] at h1
  cases h1 with
  | cons h2 h3 =>
    cases h3 with
    | cons h4 h5 =>
      cases h5
      refine ⟨_, _, rfl, ?_, ?_⟩
      · rw [h2.2.1]; simpa [hpo] using hf
      · rw [h4.2.1]; simpa [hpi] using hf

/-! ### C71 -/

open Classical in
/-- `transform` leaves the matrix and the stack of the caller's transform as they were, for every kind of element, also when it
raises; the result depends on the matrix only. -/
theorem transform_keeps (e : Elem) : Keeps (transform e) ∧ OnlyMat (transform e) := by
  have hP : ∀ (xf : Mat3 ℝ) (m : TState) (points : List (Pt ℝ)), points ≠ [] → ∃ r : Mat3 ℝ → Except PyErr (Mat3 ℝ × List (Pt ℝ)),
      ∀ m, ∃ m', m'.mat = m.mat ∧ m'.stack = m.stack ∧ transformPtsP xf m points = (m', r m.mat) := by
    intro xf m points hne
    refine ⟨fun M => match (residual (M.mul xf)).inv with
      | .ok i => .ok (residual (M.mul xf), points.map fun p => i.apply ((M.mul xf).apply p))
      | .error e => .error e, fun m => ?_⟩
    obtain ⟨m', h1, h2, h3⟩ := transformPtsP_eq xf m points hne
    exact ⟨m', h1, h2, h3⟩
  cases e with
  | curve h cps =>
    have hk : Keeps fun x : TState =>
      (match checkClosed h.pb h.closed with
      | .ok _ => (x, .ok (.curve { h with xf := Mat3.one } (cps.map (·.transformLin x.mat.apply))))
      | .error er => (x, .error er) : TState × Except PyErr Elem) := by
      intro x; split <;> exact ⟨rfl, rfl⟩
    refine ⟨drawSpace_keeps hk h.xf, drawSpace_onlyMat hk ?_ h.xf⟩
    intro s s' hs
    simp only [hs]
    split <;> rfl
  | rect h p1 p2 =>
    obtain ⟨r, hr⟩ := hP h.xf ⟨Mat3.one, none, []⟩ [p1, p2] (by simp)
    constructor
    · intro m
      obtain ⟨m', h1, h2, h3⟩ := hr m
      simp only [transform, h3]
      split <;> (rename_i he; simp only [Prod.mk.injEq] at he; rw [← he.1]; exact ⟨h1, h2⟩)
    · intro m n hmn
      obtain ⟨m', h1, h2, h3⟩ := hr m
      obtain ⟨n', _, _, h4⟩ := hr n
      simp only [transform, h3, h4, hmn]
      generalize r n.mat = R
      rcases R with er | ⟨a, l⟩
      · rfl
      · rcases l with _ | ⟨_, _ | ⟨_, _ | _⟩⟩ <;> rfl
  | rrect h p1 p2 rad =>
    obtain ⟨r, hr⟩ := hP h.xf ⟨Mat3.one, none, []⟩ [p1, p2, p1.addVector ⟨rad, 0⟩] (by simp)
    constructor
    · intro m
      obtain ⟨m', h1, h2, h3⟩ := hr m
      simp only [transform, h3]
      split <;> (rename_i he; simp only [Prod.mk.injEq] at he; rw [← he.1]; exact ⟨h1, h2⟩)
    · intro m n hmn
      obtain ⟨m', h1, h2, h3⟩ := hr m
      obtain ⟨n', _, _, h4⟩ := hr n
      simp only [transform, h3, h4, hmn]
      generalize r n.mat = R
      rcases R with er | ⟨a, l⟩
      · rfl
      · rcases l with _ | ⟨_, _ | ⟨_, _ | ⟨_, _ | _⟩⟩⟩ <;> rfl
  | ellipse h p1 p2 =>
    obtain ⟨r, hr⟩ := hP h.xf ⟨Mat3.one, none, []⟩ [p1, p2] (by simp)
    constructor
    · intro m
      obtain ⟨m', h1, h2, h3⟩ := hr m
      simp only [transform, h3]
      split <;> (rename_i he; simp only [Prod.mk.injEq] at he; rw [← he.1]; exact ⟨h1, h2⟩)
    · intro m n hmn
      obtain ⟨m', h1, h2, h3⟩ := hr m
      obtain ⟨n', _, _, h4⟩ := hr n
      simp only [transform, h3, h4, hmn]
      generalize r n.mat = R
      rcases R with er | ⟨a, l⟩
      · rfl
      · rcases l with _ | ⟨_, _ | ⟨_, _ | _⟩⟩ <;> rfl
  | group h hidden es =>
    constructor
    · intro m; simp only [transform]; split <;> exact ⟨rfl, rfl⟩
    · intro m n hmn
      simp only [transform, TState.copy, TState.compose, hmn]
      split <;> rfl
  | holes h o i =>
    constructor
    · intro m
      simp only [transform]
      split
      · exact ⟨rfl, rfl⟩
      · split
        · exact ⟨rfl, rfl⟩
        · split <;> exact ⟨rfl, rfl⟩
    · intro m n hmn
      simp only [transform, TState.copy, TState.compose, hmn]
      split
      · rfl
      · split
        · rfl
        · split <;> rfl

/-- C71 (and C38, C41): `transform` never changes the transform object it is given, whatever the element and whether it returns or
raises. -/
theorem C71_transform_caller (e : Elem) (m : TState) : (transform e m).1.mat = m.mat ∧ (transform e m).1.stack = m.stack :=
  (transform_keeps e).1 m

/-- The element a transformed element is listed as. -/
def listed (base : Str) (e : Elem) (m : Mat3 ℝ) (x : Elem) : Prop :=
  ∃ y, (transform e ⟨m, none, []⟩).2 = .ok y ∧ x = y.setName (base ++ y.hdr.name)

theorem yieldAll_spec (base : Str) (es : List Elem) (s : TState) :
    (yieldAll base es s).1.mat = s.mat ∧ (yieldAll base es s).1.stack = s.stack ∧
    List.Forall₂ (fun e x => listed base e s.mat x) (es.take (yieldAll base es s).2.items.length) (yieldAll base es s).2.items ∧
    ((yieldAll base es s).2.err = none → (yieldAll base es s).2.items.length = es.length) ∧
    (∀ er, (yieldAll base es s).2.err = some er → ∃ e, es[(yieldAll base es s).2.items.length]? = some e ∧
      (transform e ⟨s.mat, none, []⟩).2 = .error er) := by
  induction es generalizing s with
  | nil => simp [yieldAll]
  | cons e es ih =>
    have hk := (transform_keeps e).1 s
    have ho := (transform_keeps e).2 s ⟨s.mat, none, []⟩ rfl
    obtain ⟨a, r, ha⟩ := pair_cases (transform e s)
    rw [ha] at hk ho
    simp only at hk ho
    obtain ⟨h1, h2⟩ := hk
    cases r with
    | error er =>
      simp only [yieldAll, ha]
      refine ⟨h1, h2, by simp, by simp, ?_⟩
      intro er' he
      cases he
      exact ⟨e, by simp, ho.symm⟩
    | ok x =>
      obtain ⟨i1, i2, i3, i4, i5⟩ := ih a
      simp only [yieldAll, ha]
      obtain ⟨b, y, hb⟩ : ∃ b y, yieldAll base es a = (b, y) := ⟨_, _, rfl⟩
      rw [hb] at i1 i2 i3 i4 i5 ⊢
      simp only [h1] at i1 i2 i3 i4 i5 ⊢
      refine ⟨i1, i2.trans h2, ?_, ?_, ?_⟩
      · simp only [List.length_cons, List.take_succ_cons]
        exact .cons ⟨x, ho.symm, rfl⟩ i3
      · intro he; simp [i4 he]
      · intro er he
        obtain ⟨e', h3, h4⟩ := i5 er he
        exact ⟨e', by simpa using h3, h4⟩

/-- C71: `iter_elems_transformed` of a group leaves the matrix object given to it as it was and yields, in order, the elements of the
group transformed by the matrix composed with the transform of the group, named by the path to them; it stops early only with the
exception of the first element that cannot be transformed. -/
theorem C71_group (root : Option Str) (h : Hdr) (hidden : Bool) (es : List (Str × Elem)) (m : TState) :
    let r := iterXf root (.group h hidden es) m
    r.1.mat = m.mat ∧ r.1.stack = m.stack ∧
    List.Forall₂ (fun e x => listed (rootName root h.name ++ ['.']) e.2 (m.mat.mul h.xf) x) (es.take r.2.items.length) r.2.items ∧
    (r.2.err = none → r.2.items.length = es.length) ∧
    (∀ er, r.2.err = some er → ∃ e, es[r.2.items.length]? = some e ∧
      (transform e.2 ⟨m.mat.mul h.xf, none, []⟩).2 = .error er) := by
  intro r
  obtain ⟨h1, h2, h3, h4, h5⟩ := yieldAll_spec (rootName root h.name ++ ['.']) (es.map Prod.snd) (m.push.compose h.xf)
  obtain ⟨b, y, hb⟩ : ∃ b y, yieldAll (rootName root h.name ++ ['.']) (es.map Prod.snd) (m.push.compose h.xf) = (b, y) := ⟨_, _, rfl⟩
  rw [hb] at h1 h2 h3 h4 h5
  simp only at h1 h2 h3 h4 h5
  have hm : (m.push.compose h.xf).mat = m.mat.mul h.xf := rfl
  have hs : (m.push.compose h.xf).stack = m.mat :: m.stack := rfl
  rw [hm] at h1 h3 h5
  rw [hs] at h2
  have hr : r = (⟨m.mat, none, m.stack⟩, y) := by
    simp only [r, iterXf, iterXfBody, hdr, hb, TState.pop, h2]
  rw [hr]
  simp only
  refine ⟨trivial, trivial, ?_, ?_, ?_⟩
  · rw [← List.map_take, List.forall₂_map_left_iff] at h3
    exact h3
  · simpa using h4
  · intro er he
    obtain ⟨e, h6, h7⟩ := h5 er he
    rw [List.getElem?_map, Option.map_eq_some_iff] at h6
    obtain ⟨x, h8, rfl⟩ := h6
    exact ⟨x, h8, h7⟩

/-- C71: the same for a shape with holes: the outside and then the holes. -/
theorem C71_holes (root : Option Str) (h : Hdr) (o : Elem) (inside : List Elem) (m : TState) :
    let r := iterXf root (.holes h o inside) m
    let base := rootName root h.name
    r.1.mat = m.mat ∧ r.1.stack = m.stack ∧
    (r.2.err = none → ∃ x xs, r.2.items = x :: xs ∧ listed (base ++ ".outside.".toList) o (m.mat.mul h.xf) x ∧
      List.Forall₂ (fun e x => listed (base ++ ".inside.".toList) e (m.mat.mul h.xf) x) inside xs) ∧
    (∀ er, r.2.err = some er →
      (r.2.items = [] ∧ (transform o ⟨m.mat.mul h.xf, none, []⟩).2 = .error er) ∨
      ∃ x xs e, r.2.items = x :: xs ∧ listed (base ++ ".outside.".toList) o (m.mat.mul h.xf) x ∧
        List.Forall₂ (fun e x => listed (base ++ ".inside.".toList) e (m.mat.mul h.xf) x) (inside.take xs.length) xs ∧
        inside[xs.length]? = some e ∧ (transform e ⟨m.mat.mul h.xf, none, []⟩).2 = .error er) := by
  intro r base
  have hm : (m.push.compose h.xf).mat = m.mat.mul h.xf := rfl
  have hs : (m.push.compose h.xf).stack = m.mat :: m.stack := rfl
  obtain ⟨h1, h2, h3, h4, h5⟩ := yieldAll_spec (base ++ ".outside.".toList) [o] (m.push.compose h.xf)
  obtain ⟨b, y, hb⟩ : ∃ b y, yieldAll (base ++ ".outside.".toList) [o] (m.push.compose h.xf) = (b, y) := ⟨_, _, rfl⟩
  rw [hb] at h1 h2 h3 h4 h5
  simp only [hm, hs] at h1 h2 h3 h4 h5
  cases hy : y.err with
  | some er =>
    have hr : r = (⟨m.mat, none, m.stack⟩, y) := by
      simp only [r, iterXf, iterXfBody, hdr, base] at hb ⊢
      simp only [hb, hy, TState.pop, h2]
    rw [hr]
    refine ⟨rfl, rfl, by simp [hy], ?_⟩
    intro er' he
    obtain ⟨e, h6, h7⟩ := h5 er' he
    have hlen : y.items.length = 0 := by
      have := (List.getElem?_eq_some_iff.1 h6).1
      simp only [List.length_cons, List.length_nil] at this
      omega
    simp only [hlen, List.getElem?_cons_zero, Option.some.injEq] at h6
    exact .inl ⟨List.length_eq_zero_iff.1 hlen, h6 ▸ h7⟩
  | none =>
    obtain ⟨i1, i2, i3, i4, i5⟩ := yieldAll_spec (base ++ ".inside.".toList) inside b
    obtain ⟨c, z, hc⟩ : ∃ c z, yieldAll (base ++ ".inside.".toList) inside b = (c, z) := ⟨_, _, rfl⟩
    rw [hc] at i1 i2 i3 i4 i5
    simp only [h1, h2] at i1 i2 i3 i4 i5
    have hr : r = (⟨m.mat, none, m.stack⟩, ⟨y.items ++ z.items, z.err⟩) := by
      simp only [r, iterXf, iterXfBody, hdr, base] at hb hc ⊢
      simp only [hb, hy, hc, TState.pop, i2]
    rw [hr]
    have hl := h4 hy
    obtain ⟨x, hx⟩ : ∃ x, y.items = [x] := by
      simp only [List.length_cons, List.length_nil] at hl
      exact List.length_eq_one_iff.1 (by omega)
    rw [hx] at h3
    have hxl : listed (base ++ ".outside.".toList) o (m.mat.mul h.xf) x := by
      simp only [List.length_cons, List.length_nil, zero_add, List.take_succ_cons, List.take_nil] at h3
      cases h3 with
      | cons h6 _ => exact h6
    refine ⟨rfl, rfl, ?_, ?_⟩
    · intro he
      simp only at he
      rw [i4 he, List.take_length] at i3
      exact ⟨x, z.items, by simp [hx], hxl, i3⟩
    · intro er he
      obtain ⟨e, h6, h7⟩ := i5 er he
      exact .inr ⟨x, z.items, e, by simp [hx], hxl, i3, h6, h7⟩

theorem hdr_setName (e : Elem) (n : Str) : (e.setName n).hdr = { e.hdr with name := n } := by cases e <;> rfl

open Classical in
theorem transform_hdr (e : Elem) (m : TState) (x : Elem) (h : (transform e m).2 = .ok x) :
    x.hdr.name = e.hdr.name ∧ x.hdr.pb = e.hdr.pb := by
  cases e with
  | curve hd cps =>
    simp only [transform] at h
    rw [drawSpace_eq (by intro x; split <;> exact ⟨rfl, rfl⟩)] at h
    simp only at h
    split at h
    · cases h; exact ⟨rfl, rfl⟩
    · cases h
  | rect hd p1 p2 =>
    simp only [transform] at h
    split at h <;> cases h
    exact ⟨rfl, rfl⟩
  | rrect hd p1 p2 r =>
    simp only [transform] at h
    split at h <;> cases h
    exact ⟨rfl, rfl⟩
  | ellipse hd p1 p2 =>
    simp only [transform] at h
    split at h <;> cases h
    exact ⟨rfl, rfl⟩
  | group hd b es =>
    simp only [transform] at h
    split at h <;> cases h
    exact ⟨rfl, rfl⟩
  | holes hd o i =>
    simp only [transform] at h
    split at h
    · cases h
    · split at h
      · cases h
      · split at h <;> cases h
        exact ⟨rfl, rfl⟩

/-- C71: the name of an item is the path of the group, a dot and the name of the element; pen and brush are those of the element. -/
theorem C71_names (base : Str) (e : Elem) (m : Mat3 ℝ) (x : Elem) (h : listed base e m x) :
    x.hdr.name = base ++ e.hdr.name ∧ x.hdr.pb = e.hdr.pb := by
  obtain ⟨y, h1, rfl⟩ := h
  obtain ⟨h2, h3⟩ := transform_hdr e _ y h1
  rw [hdr_setName]
  exact ⟨by simp [h2], h3⟩

/-- Drawing does not look at the name of an element. -/
theorem drawn_setName (cfg : DCfg) (e : Elem) (n : Str) (m : Mat3 ℝ) : drawn cfg (e.setName n) m = drawn cfg e m := by
  cases e <;> simp only [setName, drawn, paths] <;> rfl

/-- C71: drawing the items one after the other in a context is drawing the group in the context with the matrix composed; here for
groups whose elements are curves and groups (rectangles and ellipses: C38, C67). -/
theorem C71_drawn (cfg : DCfg) (root : Option Str) (h : Hdr) (es : List (Str × Elem)) (m : TState) (d : Mat3 ℝ) (hm : m.mat.Affine)
    (hx : h.xf.Affine) (hes : ∀ e ∈ es, (∃ h' cps, e.2 = .curve h' cps ∧ h'.xf.Affine) ∨ ∃ h' b es', e.2 = .group h' b es')
    (hr : (iterXf root (.group h false es) m).2.err = none) :
    ((iterXf root (.group h false es) m).2.items.mapM fun x => drawn cfg x d).map List.flatten =
      drawn cfg (.group h false es) (d.mul m.mat) := by
  have h34 := (C71_group root h false es m).2.2
  have h3 := h34.1
  rw [h34.2.1 hr, List.take_length] at h3
  clear h34
  rw [drawn_group]
  congr 1
  generalize (iterXf root (.group h false es) m).2.items = items at h3
  clear hr
  induction h3 with
  | nil => rfl
  | @cons e x es' xs h5 _ ih =>
    rw [List.mapM_cons, List.mapM_cons, ih fun e he => hes e (by simp [he])]
    obtain ⟨y, hy, rfl⟩ := h5
    have : drawn cfg (y.setName (rootName root h.name ++ ['.'] ++ y.hdr.name)) d = drawn cfg e.2 ((d.mul m.mat).mul h.xf) := by
      rw [drawn_setName]
      rcases hes e (by simp) with ⟨h', cps, he, ha⟩ | ⟨h', b, es'', he⟩
      · rw [he] at hy ⊢
        rw [Mat3.mul_assoc']
        exact C41_transform_curve cfg h' cps ⟨m.mat.mul h.xf, none, []⟩ _ ⟨d, none, []⟩ y ha (Mat3.affine_mul hm hx) (Prod.ext rfl hy)
      · rw [he] at hy ⊢
        rw [Mat3.mul_assoc']
        exact C41_transform_group cfg h' b es'' ⟨m.mat.mul h.xf, none, []⟩ _ ⟨d, none, []⟩ y (Prod.ext rfl hy)
    rw [this]

/-- C71 is false for hidden groups: nothing is drawn, but their elements are listed. -/
theorem C71_hidden_counterexample (cfg : DCfg) : ∃ (h : Hdr) (es : List (Str × Elem)),
    (iterXf none (.group h true es) ⟨Mat3.one, none, []⟩).2.err = none ∧
    (iterXf none (.group h true es) ⟨Mat3.one, none, []⟩).2.items.length = 1 ∧
    drawn cfg (.group h true es) Mat3.one = .ok [] := by
  let h : Hdr := ⟨"g".toList, ⟨none, none⟩, true, Mat3.one⟩
  refine ⟨h, [("c".toList, .curve h [])], ?_, ?_, drawn_hidden _ _ _ _⟩ <;>
    simp [iterXf, iterXfBody, yieldAll, transform, drawSpace, checkClosed, TState.push, TState.compose, TState.pop, hdr, h,
      PenBrush.filled]

/-- A visible group of a curve and a rectangle: what C70 and C71 assume and give. -/
example : ∃ e : Elem, Made e ∧ (∃ cs, asCurves e = .ok cs ∧ cs.length = 2) := by
  let h : Hdr := ⟨"g".toList, ⟨some ⟨⟨.name "red"⟩, 1⟩, none⟩, true, Mat3.of6 2 0 1 0 2 1⟩
  refine ⟨.group h false [("r".toList, .rect h ⟨0, 0⟩ ⟨1, 1⟩), ("c".toList, .curve h [⟨⟨0, 0⟩, ⟨0, 0⟩, ⟨1, 0⟩, "smooth"⟩])], ?_, ?_⟩
  · simp [Made, MadeAll, h, Mat3.affine_of6]
  · refine ⟨_, rfl, rfl⟩

end X7.Elem
