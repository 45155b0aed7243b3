import Verif.Lemmas.FillAlong

/-!
C134: what a curve fills does not depend on how it is divided into segments: `add_one`, `self_intersect` and reversing it.
-/

noncomputable section

namespace X7.Elem
open X7.Utils (distPt)
open X7.Approx (bend)
open X7.Bzi
open Classical

/-! ### The crossings of a closed curve are those of its segments -/

theorem last_d (s : Poly4 ℝ) (ss : List (Poly4 ℝ)) : (ss.getLast?.map Poly4.d).getD s.d = (((s :: ss).map Poly4.d).getLast?).getD s.d := by
  cases ss with
  | nil => rfl
  | cons s' ss => simp only [List.map_cons, List.getLast?_cons_cons]; rw [← List.map_cons, List.getLast?_map]

theorem closed_cover (m : Mat3 ℝ) (cps : List (CP ℝ)) {n : ℕ} (hn : 1 ≤ n) (p : Pt ℝ) :
    Covers (pathOf n ((segs true cps).map (Poly4.map m.apply))) p ↔ ((segs true cps).map (seen p m n)).sum = 1 := by
  have hj := Approx.segs_joins true cps m.apply
  have hr : ∀ s ss, (segs true cps).map (Poly4.map m.apply) = s :: ss → (((s :: ss).map Poly4.d).getLast?).getD s.d = s.a := by
    intro s ss e
    rw [← e]
    cases cps with
    | nil => simp [segs, closedSegs] at e
    | cons c cps =>
      have e1 : ∀ (l l' : List (CP ℝ)), l.length = l'.length → ((List.zipWith seg l l').map (Poly4.map m.apply)).map Poly4.d = l'.map fun c => m.apply c.c := by
        intro l
        induction l with
        | nil => intro l' h; cases l' <;> simp at h ⊢
        | cons a l ih =>
          intro l' h
          cases l' with
          | nil => simp at h
          | cons b l' =>
            simp only [List.zipWith_cons_cons, List.map_cons]
            rw [ih l' (by simpa using h)]
            rfl
      have e2 : s.a = m.apply c.c := by
        simp only [segs, if_true, closedSegs, List.rotate_cons_succ, List.rotate_zero] at e
        cases cps <;> simp at e <;> rw [← e.1] <;> rfl
      simp only [segs, if_true, closedSegs, List.rotate_cons_succ, List.rotate_zero]
      rw [e1 _ _ (by simp)]
      simp [e2]
  have es : (segs true cps).map (seen p m n) = ((segs true cps).map (Poly4.map m.apply)).map fun s => run (crossing p) (Approx.samples n s) := by
    rw [List.map_map]; rfl
  rw [es, covers_iff]
  generalize (segs true cps).map (Poly4.map m.apply) = l at *
  cases l with
  | nil => simp [pathOf, cyc]
  | cons s ss => rw [cyc_pathOf _ hn s ss hj, last_d, hr s ss rfl, crossing_self, add_zero]

theorem pot_segs {m : Mat3 ℝ} {cps : List (CP ℝ)} {n : ℕ} (hn : 1 ≤ n) {L M : ℝ} (L0 : 0 ≤ L)
    (hL : ∀ p q, distPt (m.apply p) (m.apply q) ≤ L * distPt p q) (hM : ∀ s ∈ segs true cps, bend s ≤ M) {p : Pt ℝ}
    (hp : ∀ q ∈ m.apply '' curveSet true cps, 6 * (L * M) / n ^ 2 < distPt p q) : ∀ s ∈ segs true cps, Pot (seen p m n) s := by
  intro s hs
  exact pot_seen hn (segs_bend L0 hL hM _ (List.mem_map_of_mem hs)) fun t t0 t1 => hp _ ⟨_, ⟨s, hs, t, t0, t1, rfl⟩, rfl⟩

/-! ### More control points -/

theorem add_one_seen {Q : Poly4 ℝ → ZMod 2} (cps : List (CP ℝ)) (hn : 2 ≤ cps.length) (hQ : ∀ s ∈ segs true cps, Pot Q s) (new : List (CP ℝ))
    (h : addOne cps = .ok new) :
    new.length = cps.length + 1 ∧ ((segs true new).map Q).sum = ((segs true cps).map Q).sum ∧ ∀ s ∈ segs true new, Pot Q s := by
  obtain ⟨new', S, L, R, rest, i, j, hok, hlen, e1, e2, hh, -⟩ := C36_add_one_closed cps hn
  rw [h] at hok
  cases hok
  have hm : ∀ s, s ∈ S :: rest → Pot Q s := fun s hs => hQ s (by rw [← e1] at hs; exact List.mem_rotate.1 hs)
  obtain ⟨k1, k2, k3⟩ := (hm S (by simp)).two (L := L) (R := R) (t := 1 / 2) (by norm_num) (by norm_num) fun u =>
    ⟨by rw [(hh u).1]; congr 1; ring, by rw [(hh u).2]; congr 1; ring⟩
  refine ⟨hlen, ?_, ?_⟩
  · rw [← ((List.rotate_perm (segs true new) j).map Q).sum_eq, ← ((List.rotate_perm (segs true cps) i).map Q).sum_eq, e1, e2]
    simp only [List.map_cons, List.sum_cons]
    rw [← add_assoc, k1]
  · intro s hs
    rw [← List.mem_rotate (n := j), e2] at hs
    simp only [List.mem_cons] at hs
    rcases hs with rfl | rfl | hs
    · exact k2
    · exact k3
    · exact hm s (by simp [hs])

theorem add_many_seen {Q : Poly4 ℝ → ZMod 2} (k : ℕ) : ∀ (cps : List (CP ℝ)), 2 ≤ cps.length → (∀ s ∈ segs true cps, Pot Q s) → ∀ new,
    Refine.addMany k cps = .ok new → ((segs true new).map Q).sum = ((segs true cps).map Q).sum := by
  induction k with
  | zero => intro cps _ _ new h; simp only [Refine.addMany, Except.ok.injEq] at h; subst h; rfl
  | succ k ih =>
    intro cps hn hQ new h
    simp only [Refine.addMany] at h
    cases h1 : addOne cps with
    | error e => rw [h1] at h; cases h
    | ok mid =>
      rw [h1] at h
      obtain ⟨l1, a1, q1⟩ := add_one_seen cps hn hQ mid h1
      exact (ih mid (by omega) q1 new h).trans a1

/-- C134: `add_one`, called any number of times, does not change what a closed curve fills, up to points within `6 * L * M / steps²` of the curve: `M` bounds
how much a segment bends, `L` how much the transform magnifies. -/
theorem C134_add_one (m : Mat3 ℝ) (cps : List (CP ℝ)) (hc : 2 ≤ cps.length) (k : ℕ) (new : List (CP ℝ)) (h : Refine.addMany k cps = .ok new)
    (n : ℕ) (hn : 1 ≤ n) (L M : ℝ) (L0 : 0 ≤ L) (hL : ∀ p q, distPt (m.apply p) (m.apply q) ≤ L * distPt p q) (hM : ∀ s ∈ segs true cps, bend s ≤ M) :
    ∃ ps ps', bezPath m.apply cps true n = xyFlatten ps ∧ bezPath m.apply new true n = xyFlatten ps' ∧
      ∀ p, (∀ q ∈ m.apply '' curveSet true cps, 6 * (L * M) / n ^ 2 < distPt p q) → (Covers ps p ↔ Covers ps' p) := by
  refine ⟨_, _, bezPath_eq m.apply cps true n hn, bezPath_eq m.apply new true n hn, fun p hp => ?_⟩
  rw [closed_cover m cps hn, closed_cover m new hn, add_many_seen k cps hc (pot_segs hn L0 hL hM hp) new h]

/-! ### Taking a curve apart where it crosses itself -/

theorem pieces_seen {Q : Poly4 ℝ → ZMod 2} {curves : List ((CP ℝ × CP ℝ) × List (ℝ × Pt ℝ))} {pieces : List (List (Poly4 ℝ))}
    (he : Exact curves) (hQ : ∀ c ∈ curves, Pot Q (seg c.1.1 c.1.2))
    (h : List.Forall₂ (fun c ps => Pieces (seg c.1.1 c.1.2) ((sortIxs c.2).map Prod.fst) ps) curves pieces) :
    (pieces.flatten.map Q).sum = (curves.map fun c => Q (seg c.1.1 c.1.2)).sum := by
  induction h with
  | nil => simp
  | @cons c ps curves pieces h1 _ ih =>
    have hc := he c (by simp)
    have hs : ∀ s ∈ (sortIxs c.2).map Prod.fst, 0 ≤ s ∧ s ≤ 1 := by
      intro s hs
      obtain ⟨x, hx, rfl⟩ := List.mem_map.1 hs
      have := hc x ((sortIxs_perm c.2).mem_iff.1 hx)
      exact ⟨this.1, this.2.1.le⟩
    obtain ⟨φ, hφ⟩ := hQ c (by simp)
    have k := Pot.pieces hφ _ 0 ps (List.pairwise_cons.2 ⟨fun s h => (hs s h).1, sortIxs_sorted c.2⟩) (by
      intro s h
      rcases List.mem_cons.1 h with rfl | h
      · norm_num
      · exact hs s h) h1
    rw [← hφ (seg c.1.1 c.1.2) 0 1 le_rfl zero_le_one le_rfl fun u => by congr 1; ring] at k
    rw [List.flatten_cons, List.map_append, List.sum_append, k, ih (fun c hc => he c (by simp [hc])) fun c hc => hQ c (by simp [hc]), List.map_cons,
      List.sum_cons]

theorem allCurves_seen {Q : Poly4 ℝ → ZMod 2} (hit : CP ℝ → CP ℝ → Bool) (cps : List (CP ℝ)) (hQ : ∀ s ∈ closedSegs cps, Pot Q s) :
    ((allCurves hit cps).map fun c => Q (seg c.1 c.2)).sum = ((closedSegs cps).map Q).sum ∧ ∀ c ∈ allCurves hit cps, Pot Q (seg c.1 c.2) := by
  have hcl : closedSegs cps = (iterRotate2 cps).map fun c => seg c.1 c.2 := by
    simp only [iterRotate2, closedSegs]
    rw [← List.map_uncurry_zip_eq_zipWith]
    rfl
  rw [hcl] at hQ ⊢
  rw [allCurves]
  clear hcl
  generalize iterRotate2 cps = l at *
  induction l with
  | nil => simp
  | cons ab l ih =>
    obtain ⟨i1, i2⟩ := ih fun s hs => hQ s (by rw [List.map_cons]; exact List.mem_cons_of_mem _ hs)
    have h0 := hQ (seg ab.1 ab.2) (by simp)
    obtain ⟨t1, t2, t3⟩ := h0.two (t := 1 / 2) (by norm_num) (by norm_num) fun u => C29_split_traces ab.1 ab.2 (1 / 2) u
    constructor
    · rw [List.flatMap_cons, List.map_append, List.sum_append, i1, List.map_cons, List.map_cons, List.sum_cons]
      congr 1
      split
      · simp only [List.map_cons, List.map_nil, List.sum_cons, List.sum_nil, add_zero]
        exact t1
      · simp
    · intro c hc
      rw [List.flatMap_cons, List.mem_append] at hc
      rcases hc with hc | hc
      · split at hc
        · simp only [List.mem_cons, List.not_mem_nil, or_false] at hc
          rcases hc with rfl | rfl
          · exact t2
          · exact t3
        · simp only [List.mem_cons, List.not_mem_nil, or_false] at hc
          subst hc
          exact h0
      · exact i2 c hc

theorem self_seen {Q : Poly4 ℝ → ZMod 2} (hit : CP ℝ → CP ℝ → Bool) (ixs : List (List (ℝ × Pt ℝ))) (cps : List (CP ℝ))
    (hQ : ∀ s ∈ closedSegs cps, Pot Q s) (hlen : ixs.length = (allCurves hit cps).length) (he : Exact ((allCurves hit cps).zip ixs))
    (ha : Apart ((allCurves hit cps).zip ixs)) (hne : ∃ l ∈ ixs, l ≠ []) (out : List (List (CP ℝ)))
    (ho : Bzi.selfIntersect hit ixs cps = .ok out) :
    (out.map fun c => ((closedSegs c).map Q).sum).sum = ((closedSegs cps).map Q).sum := by
  have h := C65_result hit ixs cps hlen he ha hne
  rw [ho] at h
  obtain ⟨pieces, arcs, h1, h2, h3⟩ := h
  obtain ⟨k1, k2⟩ := allCurves_seen hit cps hQ
  rw [Approx.loops_along h3, (h2.whole.perm.map Q).sum_eq, pieces_seen he (fun c hc => k2 c.1 (List.of_mem_zip (a := c.1) (b := c.2) hc).1) h1, ← k1]
  have e2 := List.map_fst_zip (l₁ := allCurves hit cps) (l₂ := ixs) hlen.ge
  conv_rhs => rw [← e2, List.map_map]
  rfl

theorem odd_count {α : Type*} (l : List α) (C : α → Prop) (f : α → ZMod 2) (h : ∀ a, C a ↔ f a = 1) : Odd (l.countP fun a => decide (C a)) ↔ (l.map f).sum = 1 := by
  rw [← ZMod.natCast_eq_one_iff_odd]
  have : ((l.countP fun a => decide (C a) : ℕ) : ZMod 2) = (l.map f).sum := by
    induction l with
    | nil => simp
    | cons a l ih =>
      rw [List.countP_cons, List.map_cons, List.sum_cons, Nat.cast_add, ih, add_comm]
      congr 1
      by_cases hc : C a
      · simp [hc, (h a).1 hc]
      · have h2 : ∀ z : ZMod 2, z ≠ 1 → z = 0 := by decide
        simp [hc, h2 _ (fun e => hc ((h a).2 e))]
  rw [this]

/-- C134: with a right intersection finder, intersections away from the ends of segments and different ones at least 1e-11 apart, a point is filled by a curve
that crosses itself exactly if an odd number of the curves that `bez_self_intersect` returns fill it, up to points near the curve. -/
theorem C134_self_intersect (lib : Lib) (cps : List (CP ℝ)) (hs : lib.Sound) (hn : NoEnds lib (segList lib cps))
    (ha : CrossApart lib (segList lib cps)) (hx : ∃ i j t s, Cross lib (segList lib cps) i j t s) (out : List (List (CP ℝ)))
    (ho : selfIntersectLib lib cps = .ok out) (m : Mat3 ℝ) (n : ℕ) (h1 : 1 ≤ n) (L M : ℝ) (L0 : 0 ≤ L)
    (hL : ∀ p q, distPt (m.apply p) (m.apply q) ≤ L * distPt p q) (hM : ∀ s ∈ segs true cps, bend s ≤ M) :
    ∃ ps pss, bezPath m.apply cps true n = xyFlatten ps ∧ List.Forall₂ (fun c q => bezPath m.apply c true n = xyFlatten q) out pss ∧
      ∀ p, (∀ q ∈ m.apply '' curveSet true cps, 6 * (L * M) / n ^ 2 < distPt p q) →
        (Covers ps p ↔ Odd (pss.countP fun q => decide (Covers q p))) := by
  refine ⟨_, out.map fun c => pathOf n ((segs true c).map (Poly4.map m.apply)), bezPath_eq m.apply cps true n h1, ?_, fun p hp => ?_⟩
  · rw [List.forall₂_map_right_iff, List.forall₂_same]
    exact fun c _ => bezPath_eq m.apply c true n h1
  · rw [← nonempty_iff] at hx
    have := self_seen (Q := seen p m n) _ _ cps (pot_segs h1 L0 hL hM hp) (findIxs_length _ _) (exact_of lib cps hs hn) (apart_of lib cps ha) hx out ho
    rw [List.countP_map]
    rw [closed_cover m cps h1]
    refine Iff.trans ?_ (odd_count out (fun c => Covers (pathOf n ((segs true c).map (Poly4.map m.apply))) p) (fun c => ((segs true c).map (seen p m n)).sum)
      fun c => closed_cover m c h1 p).symm
    change ((closedSegs cps).map (seen p m n)).sum = 1 ↔ (out.map fun c => ((closedSegs c).map (seen p m n)).sum).sum = 1
    rw [this]

/-- C134: the same for `self_intersect()` of a closed curve and what is drawn of it and of the curves it returns, which have its pen and brush. -/
theorem C134_elem (cfg : DCfg) (lib : Lib) (h : Hdr) (cps : List (CP ℝ)) (hs : lib.Sound) (hc : h.closed = true) (hA : h.xf.Affine)
    (hn : NoEnds lib (segList lib (cps.map (·.transformLin h.xf.apply))))
    (ha : CrossApart lib (segList lib (cps.map (·.transformLin h.xf.apply)))) (es : List Elem)
    (he : Elem.selfIntersect lib (.curve h cps) = .ok es) (hne : es ≠ []) (m : Mat3 ℝ) (n : ℕ)
    (h1 : n = max 1 (if cfg.showCps then 10 else cfg.pointsPerCurve)) (L M : ℝ) (L0 : 0 ≤ L)
    (hL : ∀ p q, distPt (m.apply p) (m.apply q) ≤ L * distPt p q) (hM : ∀ s ∈ segs true cps, bend (s.map h.xf.apply) ≤ M) :
    ∃ q qs, drawn cfg (.curve h cps) m = .ok [q] ∧ List.Forall₂ (fun e q => drawn cfg e m = .ok [q]) es qs ∧ q.pb = h.pb ∧ (∀ q ∈ qs, q.pb = h.pb) ∧
      ∀ p, (∀ x ∈ (m.mul h.xf).apply '' curveSet true cps, 6 * (L * M) / n ^ 2 < distPt p x) →
        (Covers q.pts p ↔ Odd (qs.countP fun q => decide (Covers q.pts p))) := by
  obtain ⟨hx1, -⟩ := Elem.C77_elem lib h cps hs hc hn ha es he
  have hx : ∃ i j t s, Cross lib (segList lib (cps.map (·.transformLin h.xf.apply))) i j t s := by
    by_contra hx
    exact hne (hx1.2 hx)
  have hout : ∃ out, selfIntersectLib lib (cps.map (·.transformLin h.xf.apply)) = .ok out ∧
      es = out.mapIdx (fun i c => .curve ⟨h.name ++ "_i".toList ++ fmtNat i, h.pb, h.closed, Mat3.one⟩ c) := by
    simp only [Elem.selfIntersect] at he
    cases ho : selfIntersectLib lib (cps.map (·.transformLin h.xf.apply)) with
    | error e => simp [ho] at he
    | ok out =>
      rw [ho] at he
      refine ⟨out, rfl, ?_⟩
      cases out with
      | nil => simpa using he.symm
      | cons c rest =>
        simp only at he
        cases hk : Elem.checkClosed h.pb h.closed with
        | error e => simp [hk] at he
        | ok u =>
          rw [hk] at he
          simpa using he.symm
  obtain ⟨out, ho, rfl⟩ := hout
  have n1 : 1 ≤ n := by rw [h1]; exact le_max_left _ _
  obtain ⟨ps, pss, d1, d2, d3⟩ := C134_self_intersect lib _ hs hn ha hx out ho m n n1 L M L0 hL (by
    rw [segs_transform]
    intro s hs
    obtain ⟨x, hx, rfl⟩ := List.mem_map.1 hs
    exact hM x hx)
  have e0 : ∀ c : List (CP ℝ), ∀ ps, bezPath m.apply c true n = xyFlatten ps → ps = pathOf n ((segs true c).map (Poly4.map m.apply)) := by
    intro c ps hps
    rw [bezPath_eq m.apply c true n n1] at hps
    have := congrArg pairUp hps
    rw [pairUp_flatten, pairUp_flatten] at this
    exact this.symm
  have e1 := e0 _ _ d1
  refine ⟨_, pss.map fun q => ⟨h.pb, h.closed, q⟩, drawn_basic cfg _ (by simp only [Elem.Basic]) m, ?_, rfl, ?_, fun p hp => ?_⟩
  · rw [List.forall₂_map_right_iff]
    have key : ∀ (out : List (List (CP ℝ))) (pss) (f : ℕ → Str), List.Forall₂ (fun c q => bezPath m.apply c true n = xyFlatten q) out pss →
        List.Forall₂ (fun e q => drawn cfg e m = .ok [⟨h.pb, h.closed, q⟩]) (out.mapIdx fun i c => Elem.curve ⟨f i, h.pb, h.closed, Mat3.one⟩ c) pss := by
      intro out pss f hf
      induction hf generalizing f with
      | nil => exact .nil
      | @cons c q out pss hcq _ ih =>
        rw [List.mapIdx_cons]
        refine .cons ?_ (ih fun i => f (i + 1))
        rw [drawn_basic cfg _ (by simp only [Elem.Basic]) m, e0 c q hcq]
        simp only [outline, Except.map, hdr]
        rw [← h1, ← pathOf_map, hc, show m.mul Mat3.one = m by ext <;> simp [Mat3.mul, Mat3.one]]
    exact key out pss _ d2
  · intro q hq
    obtain ⟨x, -, rfl⟩ := List.mem_map.1 hq
    rfl
  · have e2 : (segs true (cps.map (·.transformLin h.xf.apply))).map (Poly4.map m.apply) = (segs true cps).map (Poly4.map (m.mul h.xf).apply) := by
      rw [segs_transform, List.map_map]
      refine List.map_congr_left fun s _ => ?_
      simp [Poly4.map, Mat3.apply_mul hA]
    have e3 : m.apply '' curveSet true (cps.map (·.transformLin h.xf.apply)) = (m.mul h.xf).apply '' curveSet true cps := by
      rw [← Approx.traced_map, ← Approx.traced_map, e2]
    rw [e3] at d3
    have := d3 p hp
    rw [List.countP_map]
    rw [e1, e2] at this
    simp only [hdr]
    rw [← h1, ← pathOf_map, hc]
    exact this

/-! ### The other way round -/

theorem cover_sum {n : ℕ} (hn : 1 ≤ n) (ss : List (Poly4 ℝ)) (hj : ∀ k x y, ss[k]? = some x → ss[k + 1]? = some y → x.d = y.a) (p : Pt ℝ) :
    Covers (pathOf n ss) p ↔ (ss.map fun s => run (crossing p) (Approx.samples n s)).sum +
      crossing p (((ss.map Poly4.d).getLast?).getD p) (((ss.map Poly4.a).head?).getD p) = 1 := by
  rw [covers_iff]
  cases ss with
  | nil => simp [pathOf, cyc, crossing_self]
  | cons s ss =>
    rw [cyc_pathOf _ hn s ss hj, last_d]
    have : ∀ x, (((s :: ss).map Poly4.d).getLast?).getD x = (((s :: ss).map Poly4.d).getLast?).getD s.d := by
      intro x
      rw [List.map_cons, List.getLast?_cons]
      rfl
    rw [this p]
    rfl

theorem samples_rev {n : ℕ} (hn : 1 ≤ n) (s : Poly4 ℝ) : Approx.samples n s.rev = (Approx.samples n s).reverse := by
  have hn0 : (n : ℝ) ≠ 0 := by exact_mod_cast (by omega : n ≠ 0)
  apply List.ext_getElem
  · simp [Approx.samples]
  · intro i h1 h2
    have hi : i ≤ n := by simpa [Approx.samples, Nat.lt_succ_iff] using h1
    simp only [Approx.samples, List.getElem_map, List.getElem_range, List.getElem_reverse, List.length_map, List.length_range]
    have at'_rev : ∀ t : ℝ, s.rev.at' t = s.at' (1 - t) := fun t => by ext <;> simp only [Poly4.at', Poly4.rev, bern] <;> ring
    rw [at'_rev]
    congr 1
    rw [show n + 1 - 1 - i = n - i by omega, Nat.cast_sub hi]
    field_simp

/-- C134: a curve, open or closed, fills what the same curve reversed fills. -/
theorem C134_reverse (m : Mat3 ℝ) (cps : List (CP ℝ)) (closed : Bool) (n : ℕ) (hn : 1 ≤ n) :
    ∃ ps ps', bezPath m.apply cps closed n = xyFlatten ps ∧ bezPath m.apply (CP.reverseList cps) closed n = xyFlatten ps' ∧ ∀ p, Covers ps p ↔ Covers ps' p := by
  refine ⟨_, _, bezPath_eq m.apply cps closed n hn, bezPath_eq m.apply _ closed n hn, fun p => ?_⟩
  have hq : ∀ s : Poly4 ℝ, seen p m n s.rev = seen p m n s := by
    intro s
    rw [seen, show s.rev.map m.apply = (s.map m.apply).rev from rfl, samples_rev hn, run_reverse]
    congr 1
    funext a b
    exact crossing_comm p b a
  cases closed with
  | true =>
    rw [closed_cover m cps hn, closed_cover m _ hn, C33_closed, ((List.rotate_perm _ 1).map (seen p m n)).sum_eq, List.map_reverse, List.sum_reverse, List.map_map]
    simp only [Function.comp_def, hq]
  | false =>
    rw [cover_sum hn _ (Approx.segs_joins false cps m.apply), cover_sum hn _ (Approx.segs_joins false _ m.apply), C33_open]
    simp only [List.map_reverse, List.map_map, List.sum_reverse, List.getLast?_reverse, List.head?_reverse]
    have e1 : ∀ s : Poly4 ℝ, run (crossing p) (Approx.samples n ((s.rev).map m.apply)) = run (crossing p) (Approx.samples n (s.map m.apply)) := hq
    simp only [Function.comp_def, e1]
    rw [crossing_comm]
    rfl

/-! ### A case that meets the hypotheses -/

/-- The bow tie drawn with a hundred points for each segment: a point in one of its two triangles is far enough from the curve. -/
example : ∃ out ps pss, selfIntersectLib bowLib bow = .ok out ∧ bezPath (Mat3.one : Mat3 ℝ).apply bow true 100 = xyFlatten ps ∧
    List.Forall₂ (fun c q => bezPath (Mat3.one : Mat3 ℝ).apply c true 100 = xyFlatten q) out pss ∧
      (Covers ps ⟨3 / 2, 1⟩ ↔ Odd (pss.countP fun q => decide (Covers q ⟨3 / 2, 1⟩))) := by
  have hn : NoEnds bowLib (segList bowLib bow) := by
    intro i j t s h
    obtain ⟨-, -, rfl, rfl⟩ := (bow_cross _ _ _ _).1 h
    norm_num
  have ha : CrossApart bowLib (segList bowLib bow) := by
    intro i j t s i' j' t' s' A A' h h' hA hA' hne
    obtain ⟨rfl, rfl, rfl, rfl⟩ := (bow_cross _ _ _ _).1 h
    obtain ⟨rfl, rfl, rfl, rfl⟩ := (bow_cross _ _ _ _).1 h'
    rw [hA] at hA'
    cases hA'
    exact absurd rfl hne
  have one : ∀ p : Pt ℝ, (Mat3.one : Mat3 ℝ).apply p = p := fun p => by ext <;> simp [Mat3.apply, Mat3.one]
  have hs : segs true bow = [⟨⟨0, 0⟩, ⟨0, 0⟩, ⟨2, 2⟩, ⟨2, 2⟩⟩, ⟨⟨2, 2⟩, ⟨2, 2⟩, ⟨2, 0⟩, ⟨2, 0⟩⟩, ⟨⟨2, 0⟩, ⟨2, 0⟩, ⟨0, 2⟩, ⟨0, 2⟩⟩,
      ⟨⟨0, 2⟩, ⟨0, 2⟩, ⟨0, 0⟩, ⟨0, 0⟩⟩] := by
    simp [bow, segs, closedSegs, seg]
  obtain ⟨out, ho⟩ := bow_result
  obtain ⟨ps, pss, d1, d2, d3⟩ := C134_self_intersect bowLib bow bowLib_sound hn ha ⟨0, 2, 1 / 2, 1 / 2, (bow_cross _ _ _ _).2 ⟨rfl, rfl, rfl, rfl⟩⟩ out ho Mat3.one 100
    (by norm_num) 1 3 zero_le_one (fun p q => by rw [one, one, one_mul]) (by
      intro s h
      rw [hs] at h
      simp only [List.mem_cons, List.not_mem_nil, or_false] at h
      rcases h with rfl | rfl | rfl | rfl <;> rw [bend, max_le_iff, Real.sqrt_le_iff, Real.sqrt_le_iff] <;> norm_num)
  refine ⟨out, ps, pss, ho, d1, d2, d3 _ ?_⟩
  rw [← Approx.traced_map, hs]
  rintro q ⟨s, h, t, t0, t1, rfl⟩
  rw [distPt, Real.lt_sqrt (by norm_num)]
  simp only [List.map_cons, List.map_nil, Poly4.map, one, List.mem_cons, List.not_mem_nil, or_false] at h
  have w : ∀ x y : ℝ, (x - y = 1 / 2 ∨ x - y = -(1 / 2) ∨ x + y = 1 / 2 ∨ x + y = -(1 / 2) ∨ x = -(1 / 2) ∨ x = 3 / 2) → (6 * (1 * 3) / (100 : ℕ) ^ 2 : ℝ) ^ 2 < x ^ 2 + y ^ 2 := by
    intro x y hxy
    norm_num
    rcases hxy with h | h | h | h | h | h
    · nlinarith [sq_nonneg (x + y)]
    · nlinarith [sq_nonneg (x + y)]
    · nlinarith [sq_nonneg (x - y)]
    · nlinarith [sq_nonneg (x - y)]
    · rw [h]; nlinarith [sq_nonneg y]
    · rw [h]; nlinarith [sq_nonneg y]
  apply w
  rcases h with rfl | rfl | rfl | rfl <;> simp only [Poly4.at', bern]
  · left; ring
  · right; right; right; right; left; ring
  · right; right; left; ring
  · right; right; right; right; right; ring

end X7.Elem
