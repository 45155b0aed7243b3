import Mathlib.Tactic.NormNum
import Mathlib.Tactic.FieldSimp
import Verif.Props.Morph
import Verif.Props.AnimTime
import Verif.Props.BBox

/-! C60: `MorphMultiStep`. -/

noncomputable section

namespace X7.Morph

open Anim Elem

/-! ### Preparation -/

theorem firstMinFrom_spec (vs : List ℝ) : ∀ (pre : List ℝ) (best : ℝ) (bi : ℕ), pre[bi]? = some best →
    (∀ x ∈ pre, best ≤ x) → ∃ b, (pre ++ vs)[firstMinFrom best bi pre.length vs]? = some b ∧ ∀ x ∈ pre ++ vs, b ≤ x := by
  induction vs with
  | nil => intro pre best bi h1 h2; exact ⟨best, by simpa [firstMinFrom] using h1, by simpa using h2⟩
  | cons v vs ih =>
    intro pre best bi h1 h2
    have e : pre ++ v :: vs = (pre ++ [v]) ++ vs := by simp
    have el : (pre ++ [v]).length = pre.length + 1 := by simp
    simp only [firstMinFrom]
    rw [e, ← el]
    by_cases hv : v < best
    · rw [if_pos hv]
      apply ih
      · simp
      · intro x hx
        rcases List.mem_append.1 hx with hx | hx
        · exact hv.le.trans (h2 x hx)
        · simp at hx; exact hx.ge
    · rw [if_neg hv]
      apply ih
      · rw [List.getElem?_append_left (List.getElem?_eq_some_iff.1 h1).1]; exact h1
      · intro x hx
        rcases List.mem_append.1 hx with hx | hx
        · exact h2 x hx
        · simp at hx; rw [hx]; exact not_lt.1 hv

theorem firstMin_spec {vs : List ℝ} (hne : vs ≠ []) : ∃ i b, firstMin vs = some i ∧ vs[i]? = some b ∧ ∀ x ∈ vs, b ≤ x := by
  cases vs with
  | nil => exact absurd rfl hne
  | cons v vs =>
    obtain ⟨b, h1, h2⟩ := firstMinFrom_spec vs [v] v 0 rfl (by simp)
    exact ⟨_, b, rfl, by simpa using h1, by simpa using h2⟩

theorem curve_bbox_box (h : Hdr) (cps : List (CP ℝ)) (hne : cps ≠ []) :
    ∃ xl yl xh yh, Elem.bbox (.curve h cps) = .ok (.box xl yl xh yh) := by
  have hcp : ∀ cp : CP ℝ, ∃ a b c d, cp.bbox = .box a b c d := fun cp => ⟨_, _, _, _, rfl⟩
  have hfold : ∀ (l : List (CP ℝ)) (b : BBox ℝ), (∃ x y z w, b = .box x y z w) →
      ∃ x y z w, l.foldl (fun bb cp => bb.add cp.bbox) b = .box x y z w := by
    intro l
    induction l with
    | nil => intro b hb; exact hb
    | cons cp l ih =>
      rintro b ⟨x, y, z, w, rfl⟩
      obtain ⟨a, b, c, d, e⟩ := hcp cp
      simp only [List.foldl_cons]
      apply ih
      rw [e]
      exact ⟨_, _, _, _, rfl⟩
  cases cps with
  | nil => exact absurd rfl hne
  | cons cp rest =>
    obtain ⟨x, y, z, w, e⟩ := hfold rest cp.bbox (hcp cp)
    simp only [Elem.bbox, bboxInt, bboxCps, e, bboxFrom, bboxOf, hdr]
    exact ⟨_, _, _, _, rfl⟩

/-- The rotation always works, is a rotation, and puts a control point nearest to the lower left corner of the bounding box first. -/
theorem rotateLL_ok (h : Hdr) (cps : List (CP ℝ)) (hne : cps ≠ []) :
    ∃ new xl yl xh yh, rotateLL h cps = .ok new ∧ Elem.bbox (.curve h cps) = .ok (.box xl yl xh yh) ∧ (∃ i, new = cps.rotate i) ∧
      ∃ first rest, new = first :: rest ∧ ∀ cp ∈ new, hypot (xl - first.c.x) (yl - first.c.y) ≤ hypot (xl - cp.c.x) (yl - cp.c.y) := by
  obtain ⟨xl, yl, xh, yh, hb⟩ := curve_bbox_box h cps hne
  obtain ⟨i, b, h1, h2, h3⟩ := firstMin_spec (vs := cps.map fun cp => ((⟨xl, yl⟩ : Pt ℝ).sub cp.c).length) (by simpa using hne)
  have hi : i < cps.length := by simpa using (List.getElem?_eq_some_iff.1 h2).1
  have hrot : cps.drop i ++ cps.take i = cps.rotate i := (List.rotate_eq_drop_append_take hi.le).symm
  refine ⟨cps.rotate i, xl, yl, xh, yh, ?_, hb, ⟨i, rfl⟩, ?_⟩
  · unfold rotateLL
    rw [hb]
    simp only [BBox.pll, h1, hrot]
  · refine ⟨cps[i], cps.drop (i + 1) ++ cps.take i, ?_, ?_⟩
    · rw [← hrot, List.drop_eq_getElem_cons hi]; rfl
    · intro cp hcp
      rw [List.mem_rotate] at hcp
      simp only [List.getElem?_map, Option.map_eq_some_iff] at h2
      obtain ⟨c, hc, rfl⟩ := h2
      have : c = cps[i] := by
        have := List.getElem?_eq_getElem hi
        rw [hc] at this; injection this
      subst this
      exact h3 _ (List.mem_map_of_mem hcp)

/-- One curve and what becomes of it: `n` control points, the same closed line, and, if forced, starting at the lower left. -/
def Prepared (force : Bool) (n : ℕ) (x : Hdr × List (CP ℝ)) (new : List (CP ℝ)) : Prop :=
  new.length = n ∧ SameLoop (segs true x.2) (segs true new) ∧
  (force = true → ∃ xl yl xh yh first rest, Elem.bbox (.curve x.1 new) = .ok (.box xl yl xh yh) ∧ new = first :: rest ∧
    ∀ cp ∈ new, hypot (xl - first.c.x) (yl - first.c.y) ≤ hypot (xl - cp.c.x) (yl - cp.c.y))

theorem cp_bbox_norm (cp : CP ℝ) : cp.bbox.Norm := BBox.norm_grow (BBox.norm_ofPts _ _) _

theorem foldl_add_perm {l l' : List (CP ℝ)} (hp : l.Perm l') : ∀ b : BBox ℝ, b.Norm →
    l.foldl (fun bb cp => bb.add cp.bbox) b = l'.foldl (fun bb cp => bb.add cp.bbox) b := by
  induction hp with
  | nil => intro b _; rfl
  | cons x _ ih => intro b _; exact ih _ (BBox.norm_add _ _)
  | swap x y l =>
    intro b hb
    simp only [List.foldl_cons]
    rw [BBox.C09_add_assoc _ _ _ hb (cp_bbox_norm _) (cp_bbox_norm _), BBox.C09_add_assoc _ _ _ hb (cp_bbox_norm _) (cp_bbox_norm _),
      BBox.C09_add_comm y.bbox x.bbox (cp_bbox_norm _) (cp_bbox_norm _)]
  | trans _ _ ih1 ih2 => intro b hb; rw [ih1 b hb, ih2 b hb]

theorem bbox_rotate (cps : List (CP ℝ)) (i : ℕ) (h : Hdr) : Elem.bbox (.curve h (cps.rotate i)) = Elem.bbox (.curve h cps) := by
  have e : ∀ l : List (CP ℝ), l ≠ [] → bboxCps l = .ok (l.foldl (fun bb cp => bb.add cp.bbox) .none) := by
    intro l hl
    cases l with
    | nil => exact absurd rfl hl
    | cons cp rest =>
      have : (BBox.none : BBox ℝ).add cp.bbox = cp.bbox := by
        have hc := BBox.copy_of_norm (cp_bbox_norm cp)
        simpa [BBox.add, CP.bbox, BBox.ofPts, BBox.mk', BBox.grow] using hc
      simp only [bboxCps, List.foldl_cons, this]
  by_cases hne : cps = []
  · subst hne; simp
  · simp only [Elem.bbox, bboxInt, hdr]
    rw [e cps hne, e (cps.rotate i) (by simpa using hne), foldl_add_perm (List.rotate_perm cps i) _ BBox.norm_none]

theorem prepAll_ok (force : Bool) (n : ℕ) : ∀ l : List (Hdr × List (CP ℝ)), (∀ x ∈ l, 2 ≤ x.2.length ∧ x.2.length ≤ n) →
    ∃ curves, prepAll force n l = .ok curves ∧ List.Forall₂ (Prepared force n) l curves := by
  intro l
  induction l with
  | nil => intro _; exact ⟨[], rfl, .nil⟩
  | cons x l ih =>
    intro hall
    obtain ⟨h, cps⟩ := x
    obtain ⟨hx1, hx2⟩ := hall (h, cps) List.mem_cons_self
    obtain ⟨curves, e1, e2⟩ := ih fun x hx => hall x (List.mem_cons_of_mem _ hx)
    obtain ⟨new, f1, f2, f3⟩ := padTo_ok n cps (Or.inl hx1)
    have hl : new.length = n := by rw [f2]; exact max_eq_left hx2
    simp only at hx1 hx2
    have hne : new ≠ [] := by
      intro h0
      rw [h0] at hl
      simp only [List.length_nil] at hl
      omega
    cases force with
    | false =>
      refine ⟨new :: curves, ?_, .cons ⟨hl, f3, by simp⟩ e2⟩
      simp only [prepAll, f1, Bool.false_eq_true, if_false, e1]
    | true =>
      obtain ⟨new', xl, yl, xh, yh, g1, g2, ⟨i, rfl⟩, first, rest, g4, g5⟩ := rotateLL_ok h new hne
      refine ⟨new.rotate i :: curves, ?_, .cons ⟨by simpa using hl, ?_, fun _ => ⟨xl, yl, xh, yh, first, rest, ?_, g4, g5⟩⟩ e2⟩
      · simp only [prepAll, f1, if_true, g1, e1]
      · refine f3.trans ?_
        simp only [segs, if_true, closedSegs_rotate]
        exact .turn i
      · rw [bbox_rotate]; exact g2

/-- **C60.** Construction: the steps are 0 and the given ones, every curve has the same number of control points (the largest) on the
same closed line, and the model holds the morph, showing the first curve, in the place of the source. -/
theorem C60_prepare (model : Elem) (h : Hdr) (source : List (CP ℝ)) (targets : List (ℝ × Hdr × List (CP ℝ))) (tfunc : TFunc) (force : Bool)
    (hs : 2 ≤ source.length) (ht : ∀ x ∈ targets, 2 ≤ x.2.2.length) (hk : Keyed model) (hfound : Below (.curve h source) model) :
    ∃ m n, mkMulti model h source targets tfunc force = .ok m ∧ m.steps = 0 :: targets.map (fun x => x.1) ∧
      (∀ x ∈ source.length :: targets.map (fun x => x.2.2.length), x ≤ n) ∧ n ∈ source.length :: targets.map (fun x => x.2.2.length) ∧
      List.Forall₂ (Prepared force n) ((h, source) :: targets.map fun x => x.2) m.curves ∧
      m.curves.head? = some m.morph ∧ m.tfunc = tfunc ∧
      ∀ cps, m.tree cps = replaced (sameCurve h source) (.curve h cps) model := by
  set all := (h, source) :: targets.map fun x => x.2 with hall
  set n := (all.map fun x => x.2.length).foldl max 0 with hn
  have hfold : ∀ (l : List ℕ) (a : ℕ), (∀ x ∈ l, x ≤ l.foldl max a) ∧ a ≤ l.foldl max a ∧ (l.foldl max a = a ∨ l.foldl max a ∈ l) := by
    intro l
    induction l with
    | nil => intro a; simp
    | cons y l ih =>
      intro a
      obtain ⟨h1, h2, h3⟩ := ih (max a y)
      simp only [List.foldl_cons]
      refine ⟨?_, (le_max_left a y).trans h2, ?_⟩
      · intro x hx
        rcases List.mem_cons.1 hx with rfl | hx
        · exact (le_max_right a x).trans h2
        · exact h1 x hx
      · rcases h3 with h3 | h3
        · rcases max_choice a y with h4 | h4
          · exact Or.inl (h3.trans h4)
          · exact Or.inr (by rw [h3, h4]; exact List.mem_cons_self)
        · exact Or.inr (List.mem_cons_of_mem _ h3)
  have hlens : (all.map fun x => x.2.length) = source.length :: targets.map (fun x => x.2.2.length) := by
    simp [hall]
  obtain ⟨f1, f2, f3⟩ := hfold (all.map fun x => x.2.length) 0
  rw [← hn] at f1 f2 f3
  have hle : ∀ x ∈ all, 2 ≤ x.2.length ∧ x.2.length ≤ n := by
    intro x hx
    refine ⟨?_, f1 _ (List.mem_map_of_mem (f := fun x : Hdr × List (CP ℝ) => x.2.length) hx)⟩
    rcases List.mem_cons.1 hx with rfl | hx
    · exact hs
    · obtain ⟨y, hy, rfl⟩ := List.mem_map.1 hx
      exact ht y hy
  obtain ⟨curves, e1, e2⟩ := prepAll_ok force n all hle
  have hrep : ∀ cps, replace (sameCurve h source) (.curve h cps) model =
      (replaced (sameCurve h source) (.curve h cps) model, .ok (hits (sameCurve h source) model)) := fun cps =>
    C44_replace _ (keyed_replaceable h source cps model hk)
  have hpos := below_hits hfound
  have hn0 : n ≠ 0 := by
    have := (hle (h, source) List.mem_cons_self).1
    have := (hle (h, source) List.mem_cons_self).2
    omega
  refine ⟨⟨h, source, 0 :: targets.map (fun x => x.1), curves, curves.getD 0 [],
    fun cps => (replace (sameCurve h source) (.curve h cps) model).1, tfunc⟩, n, ?_, rfl, ?_, ?_, e2, ?_, rfl, fun cps => by
      simp only [hrep]⟩
  · unfold mkMulti
    simp only [← hall, ← hn, e1, hrep]
    rw [if_neg hpos.ne']
  · rw [← hlens]; exact f1
  · rw [← hlens]; exact f3.resolve_left hn0
  · rw [hall] at e2
    cases e2
    rfl

/-! ### Updates -/

/-- The curves picked and the fraction, for any quantity that is mixed linearly. -/
theorem pick_ok (steps : List ℝ) (curves : List (List (CP ℝ))) (hl : steps.length = curves.length) (hne : curves ≠ []) (t : ℝ) :
    ∃ lo hi s, pick steps curves t = .ok (lo, hi, s) ∧ lo ∈ curves ∧ hi ∈ curves ∧
      ∀ φ : List (CP ℝ) → ℝ, PolyAt (steps.zip (curves.map φ)) t (φ lo + s * (φ hi - φ lo)) := by
  obtain ⟨b0, b1, b2⟩ := bisectRight_spec steps t
  have hpos : 0 < curves.length := List.length_pos_of_ne_nil hne
  unfold pick
  simp only
  generalize bisectRight steps t = j at b0 b1 b2
  have get : ∀ i, i < curves.length → ∃ a c, steps[i]? = some a ∧ curves[i]? = some c ∧ steps.getD i 0 = a ∧ curves.getD i [] = c ∧
      c ∈ curves ∧ ∀ φ : List (CP ℝ) → ℝ, (steps.zip (curves.map φ))[i]? = some (a, φ c) := by
    intro i hi
    refine ⟨steps[i]'(hl ▸ hi), curves[i], by simp, by simp, ?_, ?_, by simp, ?_⟩
    · simp [List.getD, hl ▸ hi, hl, hi]
    · simp [List.getD, hi]
    · intro φ
      rw [List.getElem?_zip_eq_some]
      simp [hi]
  have hzl : ∀ φ : List (CP ℝ) → ℝ, (steps.zip (curves.map φ)).length = curves.length := fun φ => by simp [hl]
  by_cases hj0 : j = 0
  · rw [if_pos hj0]
    subst hj0
    obtain ⟨a, c, g1, g2, g3, g4, g5, g6⟩ := get 0 hpos
    rw [g4]
    refine ⟨c, c, t, rfl, g5, g5, fun φ => Or.inl ⟨(a, φ c), ?_, ?_, by ring⟩⟩
    · rw [List.head?_eq_getElem?]; exact g6 φ
    · rw [g3] at b2
      rcases b2 with b2 | b2
      · omega
      · exact b2
  · rw [if_neg hj0]
    have b1 := b1.resolve_left hj0
    by_cases hjn : curves.length ≤ j
    · rw [if_pos hjn]
      have : j = curves.length := by omega
      subst this
      obtain ⟨a, c, g1, g2, g3, g4, g5, g6⟩ := get (curves.length - 1) (by omega)
      rw [g4]
      rw [g3] at b1
      refine ⟨c, c, t, rfl, g5, g5, fun φ => Or.inr (Or.inl ⟨(a, φ c), ?_, b1, by ring⟩)⟩
      rw [List.getLast?_eq_getElem?, hzl]
      exact g6 φ
    · rw [if_neg hjn]
      have b2 := b2.resolve_left (by omega)
      obtain ⟨a, c, g1, g2, g3, g4, g5, g6⟩ := get (j - 1) (by omega)
      obtain ⟨a', c', g1', g2', g3', g4', g5', g6'⟩ := get j (by omega)
      rw [g3] at b1 ⊢
      rw [g3'] at b2 ⊢
      rw [g4, g4']
      have hd : a' - a ≠ 0 := by linarith
      simp only [pyDiv, if_neg hd]
      refine ⟨c, c', _, rfl, g5, g5', fun φ => Or.inr (Or.inr ⟨j - 1, (a, φ c), (a', φ c'), g6 φ, ?_, b1, b2, rfl⟩)⟩
      rw [Nat.sub_add_cancel (by omega)]
      exact g6' φ

/-- What updates keep. -/
def KeptM (m m' : MM) : Prop := m'.hdr = m.hdr ∧ m'.orig = m.orig ∧ m'.steps = m.steps ∧ m'.curves = m.curves ∧ m'.tree = m.tree ∧
  m'.tfunc = m.tfunc ∧ m'.morph.map CP.kind = m.morph.map CP.kind

theorem updateM_kept {m m' : MM} {t : TVal} (h : m.update t = .ok m') : KeptM m m' := by
  unfold MM.update at h
  split at h
  · cases h
  · injection h with h; subst h; exact ⟨rfl, rfl, rfl, rfl, rfl, rfl, hide_kinds _⟩
  · cases h
  · split at h
    · cases h
    · injection h with h; subst h; exact ⟨rfl, rfl, rfl, rfl, rfl, rfl, mixAll_kinds _ _ _ _⟩

theorem afterM_kept (ts : List TVal) : ∀ m : MM, KeptM m (m.after ts) := by
  induction ts with
  | nil => intro m; exact ⟨rfl, rfl, rfl, rfl, rfl, rfl, rfl⟩
  | cons t ts ih =>
    intro m
    have key : ∀ m1, KeptM m m1 → KeptM m (m1.after ts) := by
      rintro m1 ⟨a1, a2, a3, a4, a5, a6, a7⟩
      obtain ⟨b1, b2, b3, b4, b5, b6, b7⟩ := ih m1
      exact ⟨b1.trans a1, b2.trans a2, b3.trans a3, b4.trans a4, b5.trans a5, b6.trans a6, b7.trans a7⟩
    have : m.after (t :: ts) = (match m.update t with | .ok m' => m' | .error _ => m).after ts := rfl
    rw [this]
    cases hu : m.update t with
    | ok m' => exact key m' (updateM_kept hu)
    | error e => exact key m ⟨rfl, rfl, rfl, rfl, rfl, rfl, rfl⟩

/-- After any history of updates, an update to `t` shows at every control point and for each of its numbers the value at `t_func(t)`
of the polyline through the values at the steps: the first curve before the first step, the last one from the last step on, a blend
of the two neighbours in between. In particular no division by zero happens. -/
theorem C60_update {model : Elem} {h : Hdr} {source : List (CP ℝ)} {targets : List (ℝ × Hdr × List (CP ℝ))} {tfunc : TFunc} {force : Bool}
    (hs : 2 ≤ source.length) (ht : ∀ x ∈ targets, 2 ≤ x.2.2.length) (hk : Keyed model) (hfound : Below (.curve h source) model)
    {m : MM} (hm : mkMulti model h source targets tfunc force = .ok m) (ts : List TVal) (t : TVal) (s : ℝ)
    (hf : tfunc t = .ok (.num s)) :
    ∃ m', (m.after ts).update t = .ok m' ∧ m'.morph.length = m.morph.length ∧ m'.now = replaced (sameCurve h source) (.curve h m'.morph) model ∧
      (∀ c ∈ m.curves, c.length = m.morph.length) ∧
      ∀ (i : ℕ) (hi : i < m'.morph.length) (k : Fin 6),
        PolyAt (m.steps.zip (m.curves.map fun c => coord k (c.getD i ⟨⟨0, 0⟩, ⟨0, 0⟩, ⟨0, 0⟩, ""⟩))) s (coord k m'.morph[i]) := by
  obtain ⟨m0, n, e1, e2, -, -, e3, e4, e5, e6⟩ := C60_prepare model h source targets tfunc force hs ht hk hfound
  rw [hm] at e1
  injection e1 with e1
  subst e1
  obtain ⟨k1, k2, k3, k4, k5, k6, k7⟩ := afterM_kept ts m
  have hlen : m.steps.length = m.curves.length := by
    rw [e2, ← e3.length_eq]; simp
  have hne : m.curves ≠ [] := by intro h0; rw [h0] at e4; simp at e4
  have hall : ∀ c ∈ m.curves, c.length = n := by
    have : ∀ (l : List (Hdr × List (CP ℝ))) (cs : List (List (CP ℝ))), List.Forall₂ (Prepared force n) l cs → ∀ c ∈ cs, c.length = n := by
      intro l cs hfa
      induction hfa with
      | nil => simp
      | cons h1 _ ih =>
        intro c hc
        rcases List.mem_cons.1 hc with rfl | hc
        · exact h1.1
        · exact ih c hc
    exact this _ _ e3
  have hmn : m.morph.length = n := hall _ (List.mem_of_mem_head? e4)
  obtain ⟨lo, hi, u, p1, p2, p3, p4⟩ := pick_ok m.steps m.curves hlen hne s
  have hml : (m.after ts).morph.length = n := by
    rw [← hmn]; simpa using congrArg List.length k7
  refine ⟨{ m.after ts with morph := mixAll u (m.after ts).morph lo hi }, ?_, ?_, ?_, fun c hc => by rw [hall c hc, hmn], ?_⟩
  · have hf' : (m.after ts).tfunc t = .ok (.num s) := by rw [k6, e5, hf]
    unfold MM.update
    rw [hf']
    simp only [k3, k4, p1]
  · simp only [mixAll_length, hml, hmn]
  · simp only [MM.now, k5, e6]
  · intro i hi' k
    simp only [mixAll_length, hml] at hi'
    have hlo : i < lo.length := by rw [hall lo p2]; exact hi'
    have hhi : i < hi.length := by rw [hall hi p3]; exact hi'
    have g := mixAll_get u (m.after ts).morph lo hi i _ _ _ (List.getElem?_eq_getElem (by rw [hml]; exact hi'))
      (List.getElem?_eq_getElem hlo) (List.getElem?_eq_getElem hhi)
    obtain ⟨hg1, hg2⟩ := List.getElem?_eq_some_iff.1 g
    simp only [hg2, coord_mix]
    have := p4 fun c => coord k (c.getD i ⟨⟨0, 0⟩, ⟨0, 0⟩, ⟨0, 0⟩, ""⟩)
    have d1 : lo.getD i ⟨⟨0, 0⟩, ⟨0, 0⟩, ⟨0, 0⟩, ""⟩ = lo[i] := by simp [List.getD, hlo]
    have d2 : hi.getD i ⟨⟨0, 0⟩, ⟨0, 0⟩, ⟨0, 0⟩, ""⟩ = hi[i] := by simp [List.getD, hhi]
    rw [d1, d2] at this
    exact this

/-- When the steps increase from 0 on: at each step exactly its curve is shown (except for the kinds). -/
theorem C60_at_step {model : Elem} {h : Hdr} {source : List (CP ℝ)} {targets : List (ℝ × Hdr × List (CP ℝ))} {tfunc : TFunc} {force : Bool}
    (hs : 2 ≤ source.length) (ht : ∀ x ∈ targets, 2 ≤ x.2.2.length) (hk : Keyed model) (hfound : Below (.curve h source) model)
    {m : MM} (hm : mkMulti model h source targets tfunc force = .ok m) (hinc : (0 :: targets.map fun x => x.1).Pairwise (· < ·))
    (ts : List TVal) (t : TVal) (j : ℕ) (s : ℝ) (hj : (0 :: targets.map fun x => x.1)[j]? = some s) (hf : tfunc t = .ok (.num s)) :
    ∃ m' c, (m.after ts).update t = .ok m' ∧ m.curves[j]? = some c ∧
      (m'.morph.map fun cp => (cp.c, cp.dl, cp.dr)) = c.map fun cp => (cp.c, cp.dl, cp.dr) := by
  obtain ⟨m', u1, u2, u3, u4, u5⟩ := C60_update hs ht hk hfound hm ts t s hf
  obtain ⟨m0, n, e1, e2, -, -, e3, e4, e5, e6⟩ := C60_prepare model h source targets tfunc force hs ht hk hfound
  rw [hm] at e1
  injection e1 with e1
  subst e1
  have hlen : m.steps.length = m.curves.length := by
    rw [e2, ← e3.length_eq]; simp
  rw [← e2] at hj hinc
  obtain ⟨hj1, hj2⟩ := List.getElem?_eq_some_iff.1 hj
  have hjc : j < m.curves.length := hlen ▸ hj1
  refine ⟨m', m.curves[j], u1, by simp, ?_⟩
  apply List.ext_getElem
  · simp [u2, u4 _ (List.getElem_mem hjc)]
  · intro i hi1 hi2
    simp only [List.length_map] at hi1 hi2
    have key : ∀ k, coord k m'.morph[i] = coord k (m.curves[j])[i] := by
      intro k
      have hp := u5 i hi1 k
      have hpw : (m.steps.zip (m.curves.map fun c => coord k (c.getD i ⟨⟨0, 0⟩, ⟨0, 0⟩, ⟨0, 0⟩, ""⟩))).Pairwise fun a b => a.1 < b.1 := by
        have : (m.steps.zip (m.curves.map fun c => coord k (c.getD i ⟨⟨0, 0⟩, ⟨0, 0⟩, ⟨0, 0⟩, ""⟩))).map Prod.fst = m.steps := by
          rw [List.map_fst_zip (by simp [hlen])]
        rw [← this, List.pairwise_map] at hinc
        exact hinc
      have hmem : (s, coord k (m.curves[j])[i]) ∈ m.steps.zip (m.curves.map fun c => coord k (c.getD i ⟨⟨0, 0⟩, ⟨0, 0⟩, ⟨0, 0⟩, ""⟩)) := by
        apply List.mem_of_getElem? (i := j)
        rw [List.getElem?_zip_eq_some]
        refine ⟨hj, ?_⟩
        simp [hjc, List.getD, hi2]
      exact poly_unique (hpw.imp fun h => h.le) hp (poly_knot hpw hmem)
    obtain ⟨c1, c2, c3⟩ := cp_ext_coord key
    simp [c1, c2, c3]

/-- `None` hides, and `restore()` puts the unchanged source back after any history, unless some other curve in the model equals the
one shown last. -/
theorem C60_hidden_restore {model : Elem} {h : Hdr} {source : List (CP ℝ)} {targets : List (ℝ × Hdr × List (CP ℝ))} {tfunc : TFunc}
    {force : Bool} (hs : 2 ≤ source.length) (ht : ∀ x ∈ targets, 2 ≤ x.2.2.length) (hk : Keyed model)
    (hfound : Below (.curve h source) model) {m : MM} (hm : mkMulti model h source targets tfunc force = .ok m) (ts : List TVal) :
    (∀ t, tfunc t = .ok .none → ∃ m', (m.after ts).update t = .ok m' ∧ OffScreen m.morph m'.morph) ∧
    ((Below (.curve h (m.after ts).morph) model → (m.after ts).morph = source) →
      ∃ m', (m.after ts).restore = .ok m' ∧ m'.now = replaced (sameCurve h source) (.curve h source) model) := by
  obtain ⟨k1, k2, k3, k4, k5, k6, k7⟩ := afterM_kept ts m
  obtain ⟨m0, n, e1, e2, -, -, e3, e4, e5, e6⟩ := C60_prepare model h source targets tfunc force hs ht hk hfound
  rw [hm] at e1
  injection e1 with e1
  subst e1
  have hho : m.hdr = h ∧ m.orig = source := by
    unfold mkMulti at hm
    simp only at hm
    split at hm
    · cases hm
    · split at hm
      · cases hm
      · split at hm
        · cases hm
        · injection hm with hm
          subst hm
          exact ⟨rfl, rfl⟩
  constructor
  · intro t hf
    refine ⟨{ m.after ts with morph := hide (m.after ts).morph }, ?_, ?_, ?_⟩
    · have hf' : (m.after ts).tfunc t = .ok .none := by rw [k6, e5, hf]
      unfold MM.update
      rw [hf']
    · have := congrArg List.length k7
      simpa [hide] using this
    · intro cp hcp
      simp only [hide, List.mem_map] at hcp
      obtain ⟨x, -, rfl⟩ := hcp
      exact ⟨rfl, rfl, rfl⟩
  · intro hother
    have hnow : (m.after ts).now = replaced (sameCurve h source) (.curve h (m.after ts).morph) model := by
      simp only [MM.now, k5, e6]
    obtain ⟨t1, t2, t3⟩ := replaced_twice (same2 := sameCurve h (m.after ts).morph) (r2 := .curve h source)
      (fun _ _ _ => sameCurve_false.2 (by simp)) (sameCurve_iff.2 rfl) rfl model
      (keyed_replaceable h source (m.after ts).morph model hk) (by
        intro x hx hx2
        rw [sameCurve_iff] at hx2 ⊢
        subst hx2
        rw [hother hx])
    refine ⟨{ m.after ts with tree := fun _ => replaced (sameCurve h source) (.curve h source) model }, ?_, rfl⟩
    have hh : (m.after ts).hdr = h := k1.trans hho.1
    have ho : (m.after ts).orig = source := k2.trans hho.2
    have hr := C44_replace _ t1
    rw [t2, ← hnow] at hr
    unfold MM.restore
    simp only [hh, ho]
    rw [hr]

/-- The rotation looks for the corner of the bounding box after the curve's own transform, among the control points before it: for a
curve with a translation the first control point can be above and to the right of another one. -/
theorem C60_xform_counterexample : ∃ (h : Hdr) (a b : CP ℝ), rotateLL h [a, b] = .ok [b, a] ∧ a.c.x < b.c.x ∧ a.c.y < b.c.y ∧
    (h.xf.apply a.c).x < (h.xf.apply b.c).x ∧ (h.xf.apply a.c).y < (h.xf.apply b.c).y := by
  let h : Hdr := ⟨['a'], ⟨none, none⟩, true, ⟨1, 0, 100, 0, 1, 100, 0, 0, 1⟩⟩
  refine ⟨h, ⟨⟨0, 0⟩, ⟨0, 0⟩, ⟨0, 0⟩, "smooth"⟩, ⟨⟨3, 4⟩, ⟨0, 0⟩, ⟨0, 0⟩, "smooth"⟩, ?_, by norm_num, by norm_num, ?_, ?_⟩
  · have hb : Elem.bbox (.curve h [⟨⟨0, 0⟩, ⟨0, 0⟩, ⟨0, 0⟩, "smooth"⟩, ⟨⟨3, 4⟩, ⟨0, 0⟩, ⟨0, 0⟩, "smooth"⟩]) = .ok (.box 100 100 103 104) := by
      norm_num [Elem.bbox, bboxInt, bboxFrom, bboxCps, CP.bbox, BBox.ofPts, BBox.mk', BBox.grow, BBox.add, CP.l, CP.r, Pt.addVector, hdr, h,
        bboxOf, Mat3.apply]
    have hlt : hypot (100 - 3) (100 - 4) < hypot (100 - 0) (100 - 0) := by
      unfold hypot
      apply Real.sqrt_lt_sqrt <;> norm_num
    unfold rotateLL
    rw [hb]
    simp only [BBox.pll, List.map_cons, List.map_nil, Pt.sub, Vec.length, firstMin, firstMinFrom]
    rw [if_pos hlt]
    simp
  · norm_num [Mat3.apply, h]
  · norm_num [Mat3.apply, h]

/-- The rotation also takes place for open curves, which it changes: here a point on the new line is not on the old one. -/
theorem C60_open_counterexample : ∃ (h : Hdr) (cps new : List (CP ℝ)), h.xf = Mat3.one ∧ rotateLL h cps = .ok new ∧
    ∃ p ∈ trace (segs false new), p ∉ trace (segs false cps) := by
  let h : Hdr := ⟨['a'], ⟨none, none⟩, false, Mat3.one⟩
  let a : CP ℝ := ⟨⟨0, 4⟩, ⟨0, 0⟩, ⟨0, 0⟩, "smooth"⟩
  let b : CP ℝ := ⟨⟨0, 0⟩, ⟨0, 0⟩, ⟨0, 0⟩, "smooth"⟩
  let c : CP ℝ := ⟨⟨4, 0⟩, ⟨0, 0⟩, ⟨0, 0⟩, "smooth"⟩
  refine ⟨h, [a, b, c], [b, c, a], rfl, ?_, ⟨2, 2⟩, ⟨seg c a, by simp [segs, openSegs], 1 / 2, by norm_num, by norm_num, ?_⟩, ?_⟩
  · have hb : Elem.bbox (.curve h [a, b, c]) = .ok (.box 0 0 4 4) := by
      norm_num [Elem.bbox, bboxInt, bboxFrom, bboxCps, CP.bbox, BBox.ofPts, BBox.mk', BBox.grow, BBox.add, CP.l, CP.r, Pt.addVector, hdr, h,
        bboxOf, Mat3.apply, Mat3.one, a, b, c]
    have h1 : hypot (0 - 0) (0 - 0) < hypot (0 - 0) (0 - 4) := by
      unfold hypot
      apply Real.sqrt_lt_sqrt <;> norm_num
    have h2 : ¬ hypot (0 - 4) (0 - 0) < hypot (0 - 0) (0 - 0) := by
      rw [not_lt]
      unfold hypot
      apply Real.sqrt_le_sqrt; norm_num
    unfold rotateLL
    rw [hb]
    simp only [BBox.pll, List.map_cons, List.map_nil, Pt.sub, Vec.length, firstMin, firstMinFrom, a, b, c]
    rw [if_pos h1, if_neg h2]
    simp
  · norm_num [Poly4.at', bern, seg, a, c]
  · rintro ⟨S, hS, u, -, -, he⟩
    simp only [segs, Bool.false_eq_true, if_false, openSegs, List.tail_cons, List.zipWith_cons_cons, List.zipWith_nil_right, List.mem_cons,
      List.not_mem_nil, or_false] at hS
    rcases hS with rfl | rfl
    · simp [Poly4.at', bern, seg, a, b] at he
    · simp [Poly4.at', bern, seg, b, c] at he

/-- A source of two and targets of three and two control points at times 1/2 and 1 meet the hypotheses of `C60_at_step`. -/
example (h h' hr : Hdr) (hn : h.name = ['a']) (p q r : CP ℝ) :
    let model : Elem := .group hr false [(['a'], .curve h [p, q])]
    let targets : List (ℝ × Hdr × List (CP ℝ)) := [(1 / 2, h', [p, q, r]), (1, h', [r, q])]
    Keyed model ∧ Below (.curve h [p, q]) model ∧ (0 :: targets.map fun x => x.1).Pairwise (· < ·) ∧ ∀ x ∈ targets, 2 ≤ x.2.2.length := by
  intro model targets
  refine ⟨by simp [model, Keyed, KeyedAll, hdr, hn], .here List.mem_cons_self, ?_, ?_⟩
  · norm_num [targets]
  · simp [targets]

end X7.Morph
