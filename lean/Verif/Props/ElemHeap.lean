import Verif.Lemmas.ElemHeap

/-!
C45: copies of elements are equal and independent; `restore` brings a saved state back. Where the code does not do this
(shared transforms, dropped `closed`, holes restored from themselves) the failure is proved.
-/

noncomputable section

namespace X7.EH

/-- C45, equality: the copy of a curve or P1P2 shape made of unnamed points is equal to it, no existing object is changed, and
everything the copy hangs on is new, except the transform, which is that of the original. -/
theorem C45_copy {h : Heap} {i : ℕ} {v : EVal} (hv : val h i = some v) (hm : v.Made) (hu : v.Unnamed) :
    ∃ new j, copyBasic h i = .ok (h ++ new, j) ∧ val (h ++ new) j = some v ∧ val (h ++ new) i = some v ∧
      (∀ k ∈ objs (h ++ new) j, h.length ≤ k) ∧ xfOf (h ++ new) j = xfOf h i := by
  obtain ⟨new, j, h1, h2, h3, h4, _⟩ := copyBasic_ok hv hm
  rw [copyVal_id hu] at h2
  exact ⟨new, j, h1, h2, val_app hv _, h4, h3⟩

/-- C45, independence: after a copy, no history of changes to objects that existed before, other than the transform, changes the
copy; and no history of changes to objects made by the copy or later changes the original. -/
theorem C45_copy_independent {h h' : Heap} {i j x : ℕ} {v : EVal} (hv : val h i = some v) (hm : v.Made) (hu : v.Unnamed)
    (hx : xfOf h i = some x) (hc : copyBasic h i = .ok (h', j)) :
    (∀ ops : List Op, (∀ k o, Op.write k o ∈ ops → k < h.length ∧ k ≠ x) → val (run h' ops) j = some v) ∧
    (∀ ops : List Op, (∀ k o, Op.write k o ∈ ops → h.length ≤ k) → val (run h' ops) i = some v) := by
  obtain ⟨new, j', h1, h2, h3, h4, h5⟩ := C45_copy hv hm hu
  rw [hc] at h1
  simp only [Except.ok.injEq, Prod.mk.injEq] at h1
  obtain ⟨rfl, rfl⟩ := h1
  constructor
  · intro ops ho
    refine val_run h2 ?_ ?_
    · intro op hop k hk
      cases op with
      | write a o =>
        have := h4 k hk
        have := (ho a o hop).1
        simp only [Op.Spares]; omega
      | alloc => trivial
    · intro op hop y hy
      rw [h5, hx] at hy
      simp only [Option.some.injEq] at hy
      subst hy
      cases op with
      | write a o => exact (ho a o hop).2
      | alloc => trivial
  · intro ops ho
    have hsub : ∀ k ∈ objs (h ++ new) i, k < h.length := by
      intro k hk
      have : objs (h ++ new) i = objs h i := by
        rcases val_some hv with ⟨a, cps, m, vs, g1, g2, g3, rfl⟩ | ⟨a, cls, p1, p2, r, m, v1, v2, g1, g2, g3, g4, rfl⟩
        · unfold objs
          rw [get_app g1, g1]
          simp only [cpVals_objs_app g3]
        · unfold objs
          rw [get_app g1, g1]
      rw [this] at hk
      exact objs_lt hv k hk
    refine val_run h3 ?_ ?_
    · intro op hop k hk
      cases op with
      | write a o =>
        have := hsub k hk
        have := ho a o hop
        simp only [Op.Spares]; omega
      | alloc => trivial
    · intro op hop y hy
      have hy' : xfOf h i = some y := by
        rcases val_some hv with ⟨a, cps, m, vs, g1, g2, g3, rfl⟩ | ⟨a, cls, p1, p2, r, m, v1, v2, g1, g2, g3, g4, rfl⟩
        · unfold xfOf at hy ⊢
          rw [get_app g1] at hy
          rw [g1]; exact hy
        · unfold xfOf at hy ⊢
          rw [get_app g1] at hy
          rw [g1]; exact hy
      have := xfOf_lt hv hy'
      cases op with
      | write a o =>
        have := ho a o hop
        simp only [Op.Spares]; omega
      | alloc => trivial

theorem val_set_xf {h : Heap} {i x : ℕ} {v : EVal} (hv : val h i = some v) (hx : xfOf h i = some x) (m : Mat3 ℝ) :
    val (h.set x (.xform m)) i = some (v.withMat m) := by
  have hset : ∀ y, matVal h y = some v.mat → y = x → matVal (h.set x (.xform m)) y = some m := by
    intro y hy e
    subst e
    unfold matVal
    rw [List.getElem?_set_self (get_lt (matVal_get hy))]
  have hpt : ∀ {y w}, matVal h x = some v.mat → ptVal h y = some w → ptVal (h.set x (.xform m)) y = some w := by
    intro y w hxm hy
    rw [ptVal_congr (List.getElem?_set_ne ?_), hy]
    rintro rfl
    unfold ptVal at hy
    rw [matVal_get hxm] at hy
    simp at hy
  rcases val_some hv with ⟨a, cps, m0, vs, g1, g2, g3, rfl⟩ | ⟨a, cls, p1, p2, r, m0, v1, v2, g1, g2, g3, g4, rfl⟩
  · have hxa : a.xf = x := by unfold xfOf at hx; rw [g1] at hx; simpa using hx
    have hne : i ≠ x := by rintro rfl; rw [hxa] at g2; rw [matVal_get g2] at g1; simp at g1
    have hcp : ∀ (l : List ℕ) (ws : List CpVal), cpVals h l = some ws → cpVals (h.set x (.xform m)) l = some ws := by
      intro l
      induction l with
      | nil => intro ws hw; exact hw
      | cons k l ih =>
        intro ws hw
        obtain ⟨w, ws', rfl, c1, c2⟩ := cpVals_cons hw
        obtain ⟨c, dl, dr, k1, k2, k3, k4⟩ := cpVal_some c1
        have hk : (h.set x (.xform m))[k]? = h[k]? := by
          rw [List.getElem?_set_ne]
          rintro rfl
          rw [hxa] at g2
          rw [matVal_get g2] at k1; simp at k1
        have hc : cpVal (h.set x (.xform m)) k = some w := by
          unfold cpVal
          rw [hk, k1]
          simp only
          rw [hpt (hxa ▸ g2) k2, hpt (hxa ▸ g2) k3, hpt (hxa ▸ g2) k4]
          rfl
        simp only [cpVals]
        rw [hc, ih _ c2]
        rfl
    exact val_curve (m := m) (by rw [List.getElem?_set_ne (Ne.symm hne), g1]) (hset _ g2 hxa) (hcp _ _ g3)
  · have hxa : a.xf = x := by unfold xfOf at hx; rw [g1] at hx; simpa using hx
    have hne : i ≠ x := by rintro rfl; rw [hxa] at g2; rw [matVal_get g2] at g1; simp at g1
    exact val_shape (m := m) (by rw [List.getElem?_set_ne (Ne.symm hne), g1]) (hset _ g2 hxa) (hpt (hxa ▸ g2) g3)
      (hpt (hxa ▸ g2) g4)

/-- C45 fails for transforms: after `dup = elem.copy()`, changing the matrix of `dup.xform` (or of `elem.xform`: it is one
object) changes both elements. -/
theorem C45_copy_transform_counterexample {h : Heap} {i x : ℕ} {v : EVal} (hv : val h i = some v) (hm : v.Made)
    (hu : v.Unnamed) (hx : xfOf h i = some x) (m : Mat3 ℝ) :
    ∃ h' j, copyBasic h i = .ok (h', j) ∧ xfOf h' j = some x ∧
      val (run h' [.write x (.xform m)]) i = some (v.withMat m) ∧
      val (run h' [.write x (.xform m)]) j = some (v.withMat m) := by
  obtain ⟨new, j, h1, h2, h3, h4, h5⟩ := C45_copy hv hm hu
  have hxi : xfOf (h ++ new) i = some x := by
    unfold xfOf at hx ⊢
    split at hx
    · rename_i a cps g; rw [get_app g]; exact hx
    · rename_i a cls p1 p2 r g; rw [get_app g]; exact hx
    · simp at hx
  exact ⟨h ++ new, j, h1, h5.trans hx, val_set_xf h3 hxi m, val_set_xf h2 (h5.trans hx) m⟩

/-- C45 fails for named points: the copy of a curve with a point named `n` has a point named `fixed_n`, and is not equal to the
original; the copy of a P1P2 shape with a named point has an unnamed one. -/
theorem C45_copy_name_counterexample :
    (∀ {h : Heap} {i : ℕ} {n pb c m cps}, val h i = some (.curve n pb c m cps) → (pb.filled = true → c = true) →
      (∃ v ∈ cps, ∃ s : String, s ≠ "" ∧ v.1.2.2.1 = some s) →
      ∃ h' j w, copyBasic h i = .ok (h', j) ∧ val h' j = some w ∧ w ≠ .curve n pb c m cps) ∧
    (∀ {h : Heap} {i : ℕ} {n pb m cls p1 p2 r}, val h i = some (.shape n pb true m cls p1 p2 r) → p1.2.2 = (some "fixed_a", true) →
      p2.2.2.2 = true → ∃ h' j w, copyBasic h i = .ok (h', j) ∧ val h' j = some w ∧ w ≠ .shape n pb true m cls p1 p2 r) := by
  constructor
  · intro h i n pb c m cps hv hcl ⟨v, hmem, s, hs, hn⟩
    obtain ⟨new, j, h1, h2, _⟩ := copyBasic_ok hv hcl
    refine ⟨_, _, _, h1, h2, ?_⟩
    simp only [copyVal, ne_eq, EVal.curve.injEq, true_and]
    intro he
    have hv2 : fixCpVal v = v := by
      have : ∀ (l : List CpVal), l.map fixCpVal = l → ∀ v ∈ l, fixCpVal v = v := by
        intro l
        induction l with
        | nil => simp
        | cons a l ih =>
          intro he v hv
          simp only [List.map_cons, List.cons.injEq] at he
          rcases List.mem_cons.1 hv with rfl | hv
          · exact he.1
          · exact ih he.2 v hv
      exact this cps he v hmem
    have : fixName v.1.2.2.1 = v.1.2.2.1 := by
      have := congrArg (fun z : CpVal => z.1.2.2.1) hv2
      simpa [fixCpVal, fixPt] using this
    rw [hn] at this
    simp only [fixName, bne_iff_ne, ne_eq, hs, not_false_eq_true, if_true, Option.some.injEq] at this
    have := congrArg String.length this
    simp only [String.length_append] at this
    have h6 : "fixed_".length = 6 := by decide
    omega
  · intro h i n pb m cls p1 p2 r hv hn hb
    obtain ⟨new, j, h1, h2, _⟩ := copyBasic_ok hv ⟨rfl, by rw [hn], hb⟩
    refine ⟨_, _, _, h1, h2, ?_⟩
    simp only [copyVal, ne_eq, EVal.shape.injEq, true_and, and_true, not_and]
    intro he
    have := congrArg (fun z : PtVal => z.2.2.1) he
    simp [hn] at this

theorem copyXf_ok {h : Heap} {x : ℕ} {m : Mat3 ℝ} (e : matVal h x = some m) :
    copyXf h x = .ok (h ++ [.xform m], h.length) := by
  unfold copyXf derive
  rw [matVal_get e]

/-- C45, restore: `self.restore(other)` between elements of the same kind (the same number of control points, unnamed points, no
object of `other` used as a control point or corner of `self`) makes `self` equal to `other`, leaves `other` and every object
that is not part of `self` as it was, and gives `self` a transform object of its own. -/
theorem C45_restore {h : Heap} {i j : ℕ} {u w : EVal} (hi : val h i = some u) (hj : val h j = some w) (hf : u.Fits w)
    (hu : w.Unnamed) (hn : (own h i).Nodup) (hd : ∀ k ∈ own h i, k ∉ objs h j) :
    ∃ h', restoreBasic h i j = .ok h' ∧ val h' i = some w ∧ val h' j = some w ∧ xfOf h' i = some h.length ∧
      ∀ k, k < h.length → k ∉ own h i → h'[k]? = h[k]? := by
  rcases val_some hi with ⟨a, cps, m, vs, g1, g2, g3, rfl⟩ | ⟨a, cls, p1, p2, r, m, v1, v2, g1, g2, g3, g4, rfl⟩ <;>
  rcases val_some hj with ⟨b, cps', m', vs', f1, f2, f3, rfl⟩ | ⟨b, cls', q1, q2, r', m', w1, w2, f1, f2, f3, f4, rfl⟩
  · have hown : own h i = i :: cps := by unfold own; rw [g1]
    have hobj : objs h j = j :: cps'.flatMap (cpObjs h) := by unfold objs; rw [f1]
    rw [hown] at hn hd ⊢
    rw [hobj] at hd
    have hil := get_lt g1
    have hnd := List.nodup_cons.1 hn
    -- the heap in which the loop starts
    generalize hg : (h ++ [Obj.xform m']).set i (.curve { b with xf := h.length } cps) = g
    have hgk : ∀ k, k < h.length → k ≠ i → g[k]? = h[k]? := by
      intro k hk hne
      rw [← hg, List.getElem?_set_ne (Ne.symm hne), List.getElem?_append_left hk]
    have hgl : g.length = h.length + 1 := by rw [← hg]; simp
    have hgi : g[i]? = some (.curve { b with xf := h.length } cps) := by
      rw [← hg, List.getElem?_set_self]; simp; omega
    have hgm : g[h.length]? = some (.xform m') := by
      rw [← hg, List.getElem?_set_ne (by omega)]; simp
    have hcpi : ∀ k ∈ cps, ∃ c dl dr kk, h[k]? = some (.cp c dl dr kk) := by
      clear hn hd hnd hg hgi hown g1 hf hi
      induction cps generalizing vs with
      | nil => simp
      | cons k cps ih =>
        obtain ⟨v, ws, rfl, c1, c2⟩ := cpVals_cons g3
        intro k' hk'
        rcases List.mem_cons.1 hk' with rfl | hk'
        · obtain ⟨c, dl, dr, e1, _⟩ := cpVal_some c1
          exact ⟨_, _, _, _, e1⟩
        · exact ih ws c2 k' hk'
    have hjl := objs_lt hj
    rw [hobj] at hjl
    have hsame : ∀ k ∈ cps', ∀ y ∈ cpObjs h k, g[y]? = h[y]? := by
      intro k hk y hy
      have hmem : y ∈ j :: cps'.flatMap (cpObjs h) := by
        simp only [List.mem_cons, List.mem_flatMap]; exact Or.inr ⟨k, hk, hy⟩
      refine hgk y (hjl y hmem) ?_
      rintro rfl
      exact hd y (by simp) hmem
    have hobj' : ∀ k ∈ cps', cpObjs g k = cpObjs h k := by
      intro k hk
      have : g[k]? = h[k]? := hsame k hk k (by unfold cpObjs; split <;> simp)
      unfold cpObjs
      rw [this]
    obtain ⟨h2, r2, v2, s2, l2⟩ := restoreCps_ok (h := g) (is := cps) (js := cps') (vs := vs')
      (by rw [cpVals_length g3, cpVals_length f3]; exact hf) hnd.2
      (fun k hk => by
        obtain ⟨c, dl, dr, kk, e1⟩ := hcpi k hk
        exact ⟨c, dl, dr, kk, by rw [hgk k (get_lt e1) (by rintro rfl; exact hnd.1 hk), e1]⟩)
      (by rw [cpVals_congr hsame, f3])
      (fun k hk k' hk' hmem => by
        rw [hobj' k' hk'] at hmem
        refine hd k (by simp [hk]) ?_
        simp only [List.mem_cons, List.mem_flatMap]; exact Or.inr ⟨k', hk', hmem⟩)
    have hcl : ∀ k ∈ cps, k < h.length := fun k hk => by obtain ⟨_, _, _, _, e1⟩ := hcpi k hk; exact get_lt e1
    have hplain : vs'.map plainCp = vs' := by
      conv_rhs => rw [← List.map_id vs']
      exact List.map_congr_left fun v hv => plainCp_id (hu v hv)
    rw [hplain] at v2
    have hframe : ∀ k, k < h.length → k ∉ i :: cps → h2[k]? = h[k]? := by
      intro k hk hmem
      simp only [List.mem_cons, not_or] at hmem
      rw [s2 k (by omega) hmem.2, hgk k hk hmem.1]
    have h2i : h2[i]? = some (.curve { b with xf := h.length } cps) := by
      rw [s2 i (by omega) hnd.1, hgi]
    refine ⟨h2, ?_, ?_, ?_, ?_, hframe⟩
    · unfold restoreBasic
      rw [g1, f1]
      simp only [bind, Except.bind]
      rw [copyXf_ok f2]
      simp only
      rw [hg, if_pos (by rw [cpVals_length g3, cpVals_length f3]; exact hf)]
      exact r2
    · refine val_curve (a := { b with xf := h.length }) h2i ?_ v2
      unfold matVal
      rw [s2 h.length (by omega) (fun hm => absurd (hcl _ hm) (by omega)), hgm]
    · rw [val_congr (h := h), hj]
      · rw [hobj]
        intro k hk
        exact hframe k (hjl k hk) (fun hm => hd k hm hk)
      · intro x hx
        have hx' : x = b.xf := by unfold xfOf at hx; rw [f1] at hx; simpa using hx.symm
        subst hx'
        refine hframe _ (get_lt (matVal_get f2)) ?_
        intro hm
        rcases List.mem_cons.1 hm with e | hm
        · have := matVal_get f2; rw [e, g1] at this; simp at this
        · obtain ⟨_, _, _, _, e1⟩ := hcpi _ hm
          rw [matVal_get f2] at e1; simp at e1
    · unfold xfOf; rw [h2i]
  · exact absurd hf (by simp [EVal.Fits])
  · exact absurd hf (by simp [EVal.Fits])
  · obtain ⟨rfl, n1, n2, n3, n4, hr⟩ := hf
    have hown : own h i = [i, p1, p2] := by unfold own; rw [g1]
    have hobj : objs h j = [j, q1, q2] := by unfold objs; rw [f1]
    rw [hown] at hn hd ⊢
    rw [hobj] at hd
    simp only [List.nodup_cons, List.mem_cons, List.not_mem_nil, or_false, not_or, not_false_eq_true, List.nodup_nil,
      and_true] at hn
    obtain ⟨⟨hn1, hn2⟩, hn3⟩ := hn
    have hpt : ∀ {k : ℕ} {v : PtVal}, ptVal h k = some v → v.2.2 = (none, true) → h[k]? = some (.pt v.1 v.2.1 none) := by
      intro k v hk hv
      unfold ptVal at hk
      split at hk
      · rename_i x y n e
        simp only [Option.some.injEq] at hk
        subst hk
        simp only [Prod.mk.injEq, and_true] at hv
        rw [e]; simp only at hv ⊢; rw [hv]
      · simp only [Option.some.injEq] at hk
        subst hk
        simp at hv
      · simp at hk
    have P1 := hpt g3 n1
    have P2 := hpt g4 n2
    have Q1 := hpt f3 n3
    have Q2 := hpt f4 n4
    have d1 := hd i (by simp)
    have d2 := hd p1 (by simp)
    have d3 := hd p2 (by simp)
    simp only [List.mem_cons, List.not_mem_nil, or_false, not_or] at d1 d2 d3
    have hil := get_lt g1
    have hp1 := get_lt P1
    have hp2 := get_lt P2
    have hq1 := get_lt Q1
    have hq2 := get_lt Q2
    generalize hg : (h ++ [Obj.xform m']).set i
      (.shape { b with xf := h.length } cls p1 p2 (if cls = .rounded then r' else r)) = g
    have hrr : (if cls = .rounded then r' else r) = r' := by
      by_cases hc : cls = .rounded
      · rw [if_pos hc]
      · rw [if_neg hc]; exact hr hc
    have hgk : ∀ k, k < h.length → k ≠ i → g[k]? = h[k]? := by
      intro k hk hne
      rw [← hg, List.getElem?_set_ne (Ne.symm hne), List.getElem?_append_left hk]
    have hgl : g.length = h.length + 1 := by rw [← hg]; simp
    have hgi : g[i]? = some (.shape { b with xf := h.length } cls p1 p2 r') := by
      rw [← hg, List.getElem?_set_self, hrr]; simp; omega
    have hgm : g[h.length]? = some (.xform m') := by
      rw [← hg, List.getElem?_set_ne (by omega)]; simp
    have r1 : restorePt g p1 q1 = .ok (g.set p1 (.pt w1.1 w1.2.1 none)) := by
      unfold restorePt
      rw [hgk p1 hp1 (Ne.symm hn1), hgk q1 hq1 (fun e => d1.2.1 e.symm), P1, Q1]
    have r2 : restorePt (g.set p1 (.pt w1.1 w1.2.1 none)) p2 q2 =
        .ok ((g.set p1 (.pt w1.1 w1.2.1 none)).set p2 (.pt w2.1 w2.2.1 none)) := by
      unfold restorePt
      rw [List.getElem?_set_ne hn3, List.getElem?_set_ne d2.2.2, hgk p2 hp2 (Ne.symm hn2),
        hgk q2 hq2 (fun e => d1.2.2 e.symm), P2, Q2]
    generalize hg2 : (g.set p1 (.pt w1.1 w1.2.1 none)).set p2 (.pt w2.1 w2.2.1 none) = h2 at r2
    have hframe0 : ∀ k, k ≠ p1 → k ≠ p2 → h2[k]? = g[k]? := by
      intro k e1 e2
      rw [← hg2, List.getElem?_set_ne (Ne.symm e2), List.getElem?_set_ne (Ne.symm e1)]
    have hframe : ∀ k, k < h.length → k ∉ [i, p1, p2] → h2[k]? = h[k]? := by
      intro k hk hmem
      simp only [List.mem_cons, List.not_mem_nil, or_false, not_or] at hmem
      rw [hframe0 k hmem.2.1 hmem.2.2, hgk k hk hmem.1]
    have h2i : h2[i]? = some (.shape { b with xf := h.length } cls p1 p2 r') := by
      rw [hframe0 i hn1 hn2, hgi]
    have e1 : h2[p1]? = some (.pt w1.1 w1.2.1 none) := by
      rw [← hg2, List.getElem?_set_ne (Ne.symm hn3), List.getElem?_set_self (by omega)]
    have e2 : h2[p2]? = some (.pt w2.1 w2.2.1 none) := by
      rw [← hg2, List.getElem?_set_self (by simp; omega)]
    have hw : ∀ {w : PtVal}, w.2.2 = (none, true) → (w.1, w.2.1, (none : Option String), true) = w := by
      rintro ⟨x, y, n, b⟩ hw; simp only at hw ⊢; rw [hw]
    refine ⟨h2, ?_, ?_, ?_, ?_, hframe⟩
    · unfold restoreBasic
      rw [g1, f1]
      simp only [bind, Except.bind]
      rw [copyXf_ok f2]
      simp only
      rw [hg, r1]
      exact r2
    · refine val_shape (a := { b with xf := h.length }) h2i ?_ ?_ ?_
      · unfold matVal
        rw [hframe0 h.length (by omega) (by omega), hgm]
      · unfold ptVal; rw [e1]; simp only; rw [hw n3]
      · unfold ptVal; rw [e2]; simp only; rw [hw n4]
    · rw [val_congr (h := h), hj]
      · rw [hobj]
        intro k hk
        refine hframe k ?_ (fun hm => hd k hm hk)
        have := objs_lt hj
        rw [hobj] at this
        exact this k hk
      · intro x hx
        have hx' : x = b.xf := by unfold xfOf at hx; rw [f1] at hx; simpa using hx.symm
        subst hx'
        have hm2 := matVal_get f2
        refine hframe _ (get_lt hm2) ?_
        simp only [List.mem_cons, List.not_mem_nil, or_false, not_or]
        refine ⟨?_, ?_, ?_⟩
        · intro e; rw [e, g1] at hm2; simp at hm2
        · intro e; rw [e, P1] at hm2; simp at hm2
        · intro e; rw [e, P2] at hm2; simp at hm2
    · unfold xfOf; rw [h2i]

/-- C45, undo: save a copy, change the element in any way (its attributes, its points, its control points, everything else in the
program) that leaves the saved copy and the shared transform object alone and keeps the kind of the element, then restore: the
element is as it was when it was saved. -/
theorem C45_undo {h h' : Heap} {i j x : ℕ} {u v : EVal} (hv : val h i = some v) (hm : v.Made) (hu : v.Unnamed)
    (hx : xfOf h i = some x) (hc : copyBasic h i = .ok (h', j)) (ops : List Op)
    (hs : ∀ k o, Op.write k o ∈ ops → k ∉ objs h' j ∧ k ≠ x)
    (hi : val (run h' ops) i = some u) (hf : u.Fits v) (hn : (own (run h' ops) i).Nodup)
    (hd : ∀ k ∈ own (run h' ops) i, k ∉ objs h' j) :
    ∃ h3, restoreBasic (run h' ops) i j = .ok h3 ∧ val h3 i = some v ∧ val h3 j = some v := by
  obtain ⟨new, j', h1, h2, h3, h4, h5⟩ := C45_copy hv hm hu
  rw [hc] at h1
  simp only [Except.ok.injEq, Prod.mk.injEq] at h1
  obtain ⟨rfl, rfl⟩ := h1
  have hsp : ∀ op ∈ ops, ∀ k ∈ objs (h ++ new) j, op.Spares k := by
    intro op hop k hk
    cases op with
    | write a o => intro e; subst e; exact (hs a o hop).1 hk
    | alloc => trivial
  have hj : val (run (h ++ new) ops) j = some v := by
    refine val_run h2 hsp ?_
    intro op hop y hy
    rw [h5, hx] at hy
    simp only [Option.some.injEq] at hy
    subst hy
    cases op with
    | write a o => exact (hs a o hop).2
    | alloc => trivial
  have hget : ∀ k ∈ objs (h ++ new) j, (run (h ++ new) ops)[k]? = (h ++ new)[k]? := fun k hk =>
    run_spares (objs_lt h2 k hk) (fun op ho => hsp op ho k hk)
  have hobj : objs (run (h ++ new) ops) j = objs (h ++ new) j := by
    have e0 := hget j (by unfold objs; split <;> simp)
    unfold objs
    rw [e0]
    cases hjj : (h ++ new)[j]? with
    | none => rfl
    | some o =>
      cases o with
      | curve a cps =>
        simp only [List.cons.injEq, true_and]
        have : ∀ k ∈ cps, (run (h ++ new) ops)[k]? = (h ++ new)[k]? := by
          intro k hk
          apply hget
          unfold objs
          rw [hjj]
          simp only [List.mem_cons, List.mem_flatMap]
          exact Or.inr ⟨k, hk, by unfold cpObjs; split <;> simp⟩
        clear hjj
        induction cps with
        | nil => rfl
        | cons k cps ih =>
          simp only [List.flatMap_cons]
          rw [ih (fun k' hk' => this k' (by simp [hk']))]
          congr 1
          unfold cpObjs
          rw [this k (by simp)]
      | _ => rfl
  obtain ⟨h3, r1, r2, r3, _⟩ := C45_restore hi hj hf hu hn (by rw [hobj]; exact hd)
  exact ⟨h3, r1, r2, r3⟩

theorem gval_some {h : Heap} {i : ℕ} {g : GVal} (e : gval h i = some g) :
    ∃ x, h[i]? = some (.group ⟨g.name, g.pb, g.closed, x⟩ g.hidden g.elems g.points) ∧ matVal h x = some g.m := by
  unfold gval at e
  split at e
  · rename_i a hidden elems points hi
    simp only [Option.map_eq_some_iff] at e
    obtain ⟨m, hm, rfl⟩ := e
    exact ⟨a.xf, hi, hm⟩
  · simp at e

/-- C45, groups: the copy of an open group without fill has the same attributes, the same matrix in a transform of its own, and
its own dictionaries with the same elements: no change to an object that existed before, in particular to the attributes, the
entries or the transform of the original group, changes it. -/
theorem C45_group_copy {h : Heap} {i : ℕ} {g : GVal} (hg : gval h i = some g) (hc : g.closed = false)
    (hp : g.pb.filled = false) :
    ∃ h' j, copyGroup h i = .ok (h', j) ∧ gval h' j = some g ∧ gval h' i = some g ∧
      (∀ ops : List Op, (∀ k o, Op.write k o ∈ ops → k < h.length) → gval (run h' ops) j = some g) ∧
      (∀ ops : List Op, (∀ k o, Op.write k o ∈ ops → h.length ≤ k) → gval (run h' ops) i = some g) := by
  obtain ⟨x, h1, h2⟩ := gval_some hg
  have hj : ∀ f : Heap, f[h.length]? = some (.xform g.m) →
      f[h.length + 1]? = some (.group ⟨g.name, g.pb, g.closed, h.length⟩ g.hidden g.elems g.points) →
      gval f (h.length + 1) = some g := by
    intro f e1 e2
    unfold gval
    rw [e2]
    simp only
    unfold matVal
    rw [e1]; rfl
  have hi : ∀ f : Heap, f[i]? = h[i]? → f[x]? = h[x]? → gval f i = some g := by
    intro f e1 e2
    unfold gval
    rw [e1, h1]
    simp only
    rw [matVal_congr e2, h2]; rfl
  have hil := get_lt h1
  have hxl := get_lt (matVal_get h2)
  have n1 : (h ++ [Obj.xform g.m, .group ⟨g.name, g.pb, g.closed, h.length⟩ g.hidden g.elems g.points])[h.length]? =
      some (.xform g.m) := by simp
  have n2 : (h ++ [Obj.xform g.m, .group ⟨g.name, g.pb, g.closed, h.length⟩ g.hidden g.elems g.points])[h.length + 1]? =
      some (.group ⟨g.name, g.pb, g.closed, h.length⟩ g.hidden g.elems g.points) := by simp
  refine ⟨h ++ [.xform g.m, .group ⟨g.name, g.pb, g.closed, h.length⟩ g.hidden g.elems g.points], h.length + 1, ?_,
    hj _ n1 n2, ?_, ?_, ?_⟩
  · unfold copyGroup
    rw [h1]
    simp only [bind, Except.bind]
    rw [copyXf_ok h2]
    simp [checkClosed, hp, hc]
  · exact hi _ (List.getElem?_append_left hil) (List.getElem?_append_left hxl)
  · intro ops ho
    have hs : ∀ y, h.length ≤ y → ∀ op ∈ ops, op.Spares y := by
      intro y hy op hop
      cases op with
      | write a o => have := ho a o hop; simp only [Op.Spares]; omega
      | alloc => trivial
    refine hj _ ?_ ?_
    · rw [run_spares (by simp) (hs _ le_rfl), n1]
    · rw [run_spares (by simp) (hs _ (by omega)), n2]
  · intro ops ho
    have hs : ∀ y, y < h.length → ∀ op ∈ ops, op.Spares y := by
      intro y hy op hop
      cases op with
      | write a o => have := ho a o hop; simp only [Op.Spares]; omega
      | alloc => trivial
    refine hi _ ?_ ?_
    · rw [run_spares (by simp; omega) (hs _ hil), List.getElem?_append_left hil]
    · rw [run_spares (by simp; omega) (hs _ hxl), List.getElem?_append_left hxl]

/-- C45 fails for closed groups: the copy is not closed, and a filled group cannot be copied at all. -/
theorem C45_group_closed_counterexample {h : Heap} {i : ℕ} {g : GVal} (hg : gval h i = some g) (hc : g.closed = true) :
    (g.pb.filled = true → copyGroup h i = .error .assertion) ∧
    (g.pb.filled = false → ∃ h' j, copyGroup h i = .ok (h', j) ∧ gval h' j = some { g with closed := false } ∧
      gval h' i ≠ gval h' j) := by
  obtain ⟨x, h1, h2⟩ := gval_some hg
  constructor
  · intro hp
    unfold copyGroup
    rw [h1]
    simp only [bind, Except.bind]
    rw [copyXf_ok h2]
    simp [checkClosed, hp]
  · intro hp
    have hj : gval (h ++ [Obj.xform g.m, .group ⟨g.name, g.pb, false, h.length⟩ g.hidden g.elems g.points])
        (h.length + 1) = some { g with closed := false } := by
      unfold gval
      have : (h ++ [Obj.xform g.m, .group ⟨g.name, g.pb, false, h.length⟩ g.hidden g.elems g.points])[h.length + 1]? =
        some (.group ⟨g.name, g.pb, false, h.length⟩ g.hidden g.elems g.points) := by simp
      rw [this]
      simp [matVal]
    refine ⟨_, h.length + 1, ?_, hj, ?_⟩
    · unfold copyGroup
      rw [h1]
      simp only [bind, Except.bind]
      rw [copyXf_ok h2]
      simp [checkClosed, hp]
    · rw [hj]
      unfold gval
      rw [get_app h1]
      simp only
      rw [matVal_app h2]
      simp only [Option.map_some, ne_eq, Option.some.injEq]
      intro e
      have := congrArg GVal.closed e
      simp [hc] at this

/-- C45, groups: `self.restore(other)` gives `self` the name, pen, entries, points and matrix of `other`; the elements are the
same objects, changes made to an element itself are not undone; `closed` is not restored; nothing but `self` is changed. -/
theorem C45_group_restore {h : Heap} {i j : ℕ} {g f : GVal} (hg : gval h i = some g) (hf : gval h j = some f) :
    ∃ h', restoreGroup h i j = .ok h' ∧ gval h' i = some { f with closed := g.closed } ∧
      ∀ k, k ≠ i → h'[k]? = h[k]? := by
  obtain ⟨x, h1, h2⟩ := gval_some hg
  obtain ⟨y, f1, f2⟩ := gval_some hf
  refine ⟨h.set i (.group ⟨f.name, f.pb, g.closed, y⟩ f.hidden f.elems f.points), ?_, ?_, ?_⟩
  · unfold restoreGroup
    rw [h1, f1]
  · unfold gval
    rw [List.getElem?_set_self (get_lt h1)]
    simp only
    rw [matVal_congr (List.getElem?_set_ne ?_), f2]
    · rfl
    · rintro rfl
      rw [matVal_get f2] at h1; simp at h1
  · intro k hk
    exact List.getElem?_set_ne (Ne.symm hk)

/-- C45 fails for groups: after `self.restore(saved)` the two share one transform object, so turning `self` afterwards turns
the saved state too, and restoring once more does not undo it. -/
theorem C45_group_restore_counterexample {h : Heap} {i j : ℕ} {g f : GVal} (hij : i ≠ j) (hg : gval h i = some g)
    (hf : gval h j = some f) (m : Mat3 ℝ) :
    ∃ h' x, restoreGroup h i j = .ok h' ∧ (∃ o, h'[i]? = some (.group ⟨f.name, f.pb, g.closed, x⟩ o f.elems f.points)) ∧
      gval (run h' [.write x (.xform m)]) j = some { f with m := m } := by
  obtain ⟨x, h1, h2⟩ := gval_some hg
  obtain ⟨y, f1, f2⟩ := gval_some hf
  refine ⟨h.set i (.group ⟨f.name, f.pb, g.closed, y⟩ f.hidden f.elems f.points), y, ?_, ⟨f.hidden, ?_⟩, ?_⟩
  · unfold restoreGroup
    rw [h1, f1]
  · rw [List.getElem?_set_self (get_lt h1)]
  · have hyj : y ≠ j := by
      rintro rfl
      rw [matVal_get f2] at f1; simp at f1
    show gval ((h.set i _).set y (.xform m)) j = _
    unfold gval
    rw [List.getElem?_set_ne hyj, List.getElem?_set_ne hij, f1]
    simp only
    unfold matVal
    rw [List.getElem?_set_self (by rw [List.length_set]; exact get_lt (matVal_get f2))]
    rfl

theorem vals_cons {h : Heap} {i : ℕ} {l : List ℕ} {vs : List EVal} (e : vals h (i :: l) = some vs) :
    ∃ v ws, vs = v :: ws ∧ val h i = some v ∧ vals h l = some ws := by
  simp only [vals, Option.bind_eq_bind, Option.bind_eq_some_iff, Option.some.injEq] at e
  obtain ⟨a, ha, b, hb, rfl⟩ := e
  exact ⟨a, b, rfl, ha, hb⟩

theorem vals_app {h : Heap} {is : List ℕ} {vs : List EVal} (e : vals h is = some vs) (l : Heap) :
    vals (h ++ l) is = some vs := by
  induction is generalizing vs with
  | nil => exact e
  | cons i is ih =>
    obtain ⟨v, ws, rfl, h1, h2⟩ := vals_cons e
    simp only [vals]
    rw [val_app h1, ih h2]
    rfl

theorem objs_app {h : Heap} {i : ℕ} {v : EVal} (hv : val h i = some v) (l : Heap) : objs (h ++ l) i = objs h i := by
  rcases val_some hv with ⟨a, cps, m, vs, g1, g2, g3, rfl⟩ | ⟨a, cls, p1, p2, r, m, v1, v2, g1, g2, g3, g4, rfl⟩
  · unfold objs
    rw [get_app g1, g1]
    simp only [cpVals_objs_app g3]
  · unfold objs
    rw [get_app g1, g1]

theorem copyList_ok {h : Heap} {is : List ℕ} {vs : List EVal} (e : vals h is = some vs) (hm : ∀ v ∈ vs, v.Made)
    (hu : ∀ v ∈ vs, v.Unnamed) :
    ∃ new js, copyList h is = .ok (h ++ new, js) ∧ vals (h ++ new) js = some vs ∧
      ∀ j ∈ js, ∀ k ∈ objs (h ++ new) j, h.length ≤ k := by
  induction is generalizing h vs with
  | nil =>
    simp only [vals, Option.some.injEq] at e
    subst e
    exact ⟨[], [], by simp [copyList], by simp [vals], by simp⟩
  | cons i is ih =>
    obtain ⟨v, ws, rfl, h1, h2⟩ := vals_cons e
    obtain ⟨n1, j, f1, c1, _, o1, _⟩ := C45_copy h1 (hm v (by simp)) (hu v (by simp))
    obtain ⟨n2, js, f2, c2, o2⟩ := ih (vals_app h2 n1) (fun w hw => hm w (by simp [hw])) (fun w hw => hu w (by simp [hw]))
    refine ⟨n1 ++ n2, j :: js, ?_, ?_, ?_⟩
    · simp only [copyList, bind, Except.bind]
      rw [f1]; simp only
      rw [f2]; simp
    · rw [← List.append_assoc]
      simp only [vals]
      rw [val_app c1, c2]
      rfl
    · rw [← List.append_assoc]
      intro j' hj' k hk
      rcases List.mem_cons.1 hj' with rfl | hj'
      · rw [objs_app c1] at hk
        exact o1 k hk
      · have := o2 j' hj' k hk
        simp only [List.length_append] at this
        omega

theorem setPb_id {h : Heap} {i : ℕ} {v : EVal} (hv : val h i = some v) : setPb h v.pb i = h := by
  rcases val_some hv with ⟨a, cps, m, vs, g1, g2, g3, rfl⟩ | ⟨a, cls, p1, p2, r, m, v1, v2, g1, g2, g3, g4, rfl⟩
  · unfold setPb
    rw [g1]
    have := List.set_getElem_self (get_lt g1)
    rw [(List.getElem?_eq_some_iff.1 g1).2] at this
    exact this
  · unfold setPb
    rw [g1]
    have := List.set_getElem_self (get_lt g1)
    rw [(List.getElem?_eq_some_iff.1 g1).2] at this
    exact this

theorem setPbs_id {h : Heap} {is : List ℕ} {vs : List EVal} {pb : PenBrush} (e : vals h is = some vs)
    (hp : ∀ v ∈ vs, v.pb = pb) : is.foldl (fun h k => setPb h pb k) h = h := by
  induction is generalizing vs with
  | nil => rfl
  | cons i is ih =>
    obtain ⟨v, ws, rfl, h1, h2⟩ := vals_cons e
    simp only [List.foldl_cons]
    rw [← hp v (by simp), setPb_id h1, hp v (by simp)]
    exact ih h2 (fun w hw => hp w (by simp [hw]))

theorem hval_some {h : Heap} {i : ℕ} {v : HVal} (e : hval h i = some v) :
    ∃ x o is, h[i]? = some (.holes ⟨v.name, v.pb, v.closed, x⟩ o is) ∧ matVal h x = some v.m ∧ val h o = some v.outside ∧
      vals h is = some v.inside := by
  unfold hval at e
  split at e
  · rename_i a o is hi
    simp only [Option.bind_eq_bind, Option.bind_eq_some_iff, Option.some.injEq] at e
    obtain ⟨m, hm, v1, h1, v2, h2, rfl⟩ := e
    exact ⟨a.xf, o, is, hi, hm, h1, h2⟩
  · simp at e

/-- What the constructors of a shape with holes and of its parts check and set. -/
def HVal.Made (v : HVal) : Prop :=
  (v.pb.filled = true → v.closed = true) ∧ (∀ p ∈ v.outside :: v.inside, p.Made ∧ p.Unnamed ∧ p.pb = v.pb)

/-- C45, shapes with holes: the copy is equal, nothing that existed is changed, and the outline, the holes and everything they
hang on except their transforms are new, and so is the transform of the shape. -/
theorem C45_holes_copy {h : Heap} {i : ℕ} {v : HVal} (hv : hval h i = some v) (hm : v.Made) :
    ∃ new j x o is, copyHoles h i = .ok (h ++ new, j) ∧ hval (h ++ new) j = some v ∧
      (h ++ new)[j]? = some (.holes ⟨v.name, v.pb, v.closed, x⟩ o is) ∧ h.length ≤ j ∧ h.length ≤ x ∧
      ∀ p ∈ o :: is, ∀ k ∈ objs (h ++ new) p, h.length ≤ k := by
  obtain ⟨x, o, is, h1, h2, h3, h4⟩ := hval_some hv
  obtain ⟨hcl, hp⟩ := hm
  obtain ⟨n1, o', f1, c1, _, o1, _⟩ := C45_copy h3 (hp _ (by simp)).1 (hp _ (by simp)).2.1
  obtain ⟨n2, is', f2, c2, o2⟩ := copyList_ok (vals_app h4 n1) (fun w hw => (hp w (by simp [hw])).1)
    (fun w hw => (hp w (by simp [hw])).2.1)
  have hxf := copyXf_ok (matVal_app (matVal_app h2 n1) n2)
  have hck : checkClosed v.pb v.closed = .ok () := by
    unfold checkClosed
    rw [if_neg]
    cases hf : v.pb.filled with
    | false => simp
    | true => simp [hcl hf]
  have co : val (h ++ n1 ++ n2 ++ [.xform v.m]) o' = some v.outside := val_app (val_app c1 _) _
  have ci : vals (h ++ n1 ++ n2 ++ [.xform v.m]) is' = some v.inside := vals_app c2 _
  refine ⟨n1 ++ n2 ++ [.xform v.m] ++ [.holes ⟨v.name, v.pb, v.closed, (h ++ n1 ++ n2).length⟩ o' is'],
    (h ++ n1 ++ n2 ++ [Obj.xform v.m]).length, (h ++ n1 ++ n2).length, o', is', ?_, ?_, ?_, ?_, ?_, ?_⟩
  · unfold copyHoles
    rw [h1]
    simp only [bind, Except.bind]
    rw [f1]; simp only
    rw [f2]; simp only
    rw [hxf]; simp only
    rw [hck]; simp only
    have e1 : setPb (h ++ n1 ++ n2 ++ [Obj.xform v.m]) v.pb o' = h ++ n1 ++ n2 ++ [Obj.xform v.m] := by
      rw [← (hp v.outside (by simp)).2.2]; exact setPb_id co
    rw [e1, setPbs_id ci (fun w hw => (hp w (by simp [hw])).2.2)]
    simp
  · rw [← List.append_assoc, ← List.append_assoc, ← List.append_assoc]
    unfold hval
    rw [get_new]
    simp only
    rw [val_app co, vals_app ci, matVal_app (m := v.m)]
    · rfl
    · unfold matVal; rw [get_new]
  · rw [← List.append_assoc, ← List.append_assoc, ← List.append_assoc, get_new]
  · simp
  · simp
  · rw [← List.append_assoc, ← List.append_assoc, ← List.append_assoc]
    intro p hpm k hk
    rcases List.mem_cons.1 hpm with rfl | hpm
    · rw [objs_app co, objs_app (val_app c1 _), objs_app c1] at hk
      exact o1 k hk
    · have hpv : ∃ w, val (h ++ n1 ++ n2) p = some w := by
        have : ∀ (l : List ℕ) (ws : List EVal), vals (h ++ n1 ++ n2) l = some ws → p ∈ l →
            ∃ w, val (h ++ n1 ++ n2) p = some w := by
          intro l
          induction l with
          | nil => simp
          | cons a l ih =>
            intro ws hw hp
            obtain ⟨w, ws', rfl, e1, e2⟩ := vals_cons hw
            rcases List.mem_cons.1 hp with rfl | hp
            · exact ⟨w, e1⟩
            · exact ih _ e2 hp
        exact this _ _ c2 hpm
      obtain ⟨w, hw⟩ := hpv
      rw [objs_app (val_app hw _), objs_app hw] at hk
      have := o2 p hpm k hk
      simp only [List.length_append] at this
      omega

/-- C45 fails for shapes with holes: `self.restore(other)` restores name, pen, matrix and outline, but the holes are those
`self` has at that moment; if they differ from those of `other`, `self` is not equal to `other` afterwards. -/
theorem C45_holes_restore_counterexample {h : Heap} {i j : ℕ} {v w : HVal} (hv : hval h i = some v) (hw : hval h j = some w)
    (hvm : v.Made) (hwm : w.Made) :
    ∃ h', restoreHoles h i j = .ok h' ∧ hval h' i = some { w with inside := v.inside } ∧
      (v.inside ≠ w.inside → hval h' i ≠ some w) := by
  obtain ⟨x, o, is, h1, h2, h3, h4⟩ := hval_some hv
  obtain ⟨y, q, js, k1, k2, k3, k4⟩ := hval_some hw
  obtain ⟨n1, o', f1, c1, _, o1, _⟩ := C45_copy k3 (hwm.2 _ (by simp)).1 (hwm.2 _ (by simp)).2.1
  obtain ⟨n2, is', f2, c2, o2⟩ := copyList_ok (vals_app h4 n1) (fun w hw => (hvm.2 w (by simp [hw])).1)
    (fun w hw => (hvm.2 w (by simp [hw])).2.1)
  have hi : (h ++ n1 ++ n2)[i]? = some (.holes ⟨v.name, v.pb, v.closed, x⟩ o is) := get_app (get_app h1 _) _
  have hset : ((h ++ n1 ++ n2).set i (.holes ⟨w.name, w.pb, w.closed, y⟩ o' is'))[i]? =
      some (.holes ⟨w.name, w.pb, w.closed, y⟩ o' is') := List.getElem?_set_self (get_lt hi)
  have hmat : matVal ((h ++ n1 ++ n2).set i (.holes ⟨w.name, w.pb, w.closed, y⟩ o' is')) y = some w.m := by
    rw [matVal_congr (List.getElem?_set_ne ?_), matVal_app (matVal_app k2 _) _]
    rintro rfl
    rw [matVal_get k2] at h1; simp at h1
  -- the parts do not hang on the shape itself
  have hval_set : ∀ {p : ℕ} {u : EVal}, val (h ++ n1 ++ n2) p = some u →
      val ((h ++ n1 ++ n2).set i (.holes ⟨w.name, w.pb, w.closed, y⟩ o' is')) p = some u := by
    intro p u hu
    have hpt : ∀ {k : ℕ} {z : PtVal}, ptVal (h ++ n1 ++ n2) k = some z →
        ptVal ((h ++ n1 ++ n2).set i (.holes ⟨w.name, w.pb, w.closed, y⟩ o' is')) k = some z := by
      intro k z hk
      rw [ptVal_congr (List.getElem?_set_ne ?_), hk]
      rintro rfl
      unfold ptVal at hk; rw [hi] at hk; simp at hk
    have hmt : ∀ {k : ℕ} {z : Mat3 ℝ}, matVal (h ++ n1 ++ n2) k = some z →
        matVal ((h ++ n1 ++ n2).set i (.holes ⟨w.name, w.pb, w.closed, y⟩ o' is')) k = some z := by
      intro k z hk
      rw [matVal_congr (List.getElem?_set_ne ?_), hk]
      rintro rfl
      rw [matVal_get hk] at hi; simp at hi
    have hcp : ∀ (l : List ℕ) (ws : List CpVal), cpVals (h ++ n1 ++ n2) l = some ws →
        cpVals ((h ++ n1 ++ n2).set i (.holes ⟨w.name, w.pb, w.closed, y⟩ o' is')) l = some ws := by
      intro l
      induction l with
      | nil => intro ws hw; exact hw
      | cons k l ih =>
        intro ws hw
        obtain ⟨z, ws', rfl, e1, e2⟩ := cpVals_cons hw
        obtain ⟨c, dl, dr, j1, j2, j3, j4⟩ := cpVal_some e1
        simp only [cpVals]
        rw [ih _ e2]
        unfold cpVal
        rw [List.getElem?_set_ne (by rintro rfl; rw [hi] at j1; simp at j1), j1]
        simp only
        rw [hpt j2, hpt j3, hpt j4]
        rfl
    rcases val_some hu with ⟨a, cps, m, vs, g1, g2, g3, rfl⟩ | ⟨a, cls, p1, p2, r, m, v1, v2, g1, g2, g3, g4, rfl⟩
    · exact val_curve (by rw [List.getElem?_set_ne (by rintro rfl; rw [hi] at g1; simp at g1), g1]) (hmt g2) (hcp _ _ g3)
    · exact val_shape (by rw [List.getElem?_set_ne (by rintro rfl; rw [hi] at g1; simp at g1), g1]) (hmt g2) (hpt g3) (hpt g4)
  have hvals_set : ∀ (l : List ℕ) (us : List EVal), vals (h ++ n1 ++ n2) l = some us →
      vals ((h ++ n1 ++ n2).set i (.holes ⟨w.name, w.pb, w.closed, y⟩ o' is')) l = some us := by
    intro l
    induction l with
    | nil => intro us hu; exact hu
    | cons a l ih =>
      intro us hu
      obtain ⟨z, zs, rfl, e1, e2⟩ := vals_cons hu
      simp only [vals]
      rw [hval_set e1, ih _ e2]
      rfl
  have hres : hval ((h ++ n1 ++ n2).set i (.holes ⟨w.name, w.pb, w.closed, y⟩ o' is')) i =
      some { w with inside := v.inside } := by
    unfold hval
    rw [hset]
    simp only
    rw [hmat, hval_set (val_app c1 _), hvals_set _ _ c2]
    rfl
  refine ⟨_, ?_, hres, ?_⟩
  · unfold restoreHoles
    rw [h1, k1]
    simp only [bind, Except.bind]
    rw [f1]; simp only
    rw [f2]
  · intro hne e
    rw [hres] at e
    simp only [Option.some.injEq] at e
    have := congrArg HVal.inside e
    exact hne this

/-- The hypotheses of the theorems on copies are met: a closed curve with two control points sharing no objects, and a
rectangle. -/
def demo : Heap :=
  [.xform ⟨1, 0, 5, 0, 1, 6, 0, 0, 1⟩, .pt 0 0 none, .vec 1 0, .vec (-1) 0, .pt 3 4 none, .vec 0 1, .vec 0 (-1),
   .cp 1 2 3 "smooth", .cp 4 5 6 "sharp", .curve ⟨"c".toList, ⟨none, none⟩, true, 0⟩ [7, 8],
   .shape ⟨"r".toList, ⟨none, none⟩, true, 0⟩ .rounded 1 4 2]

example : ∃ v, val demo 9 = some v ∧ v.Made ∧ v.Unnamed ∧ (own demo 9).Nodup ∧ xfOf demo 9 = some 0 := by
  refine ⟨.curve "c".toList ⟨none, none⟩ true ⟨1, 0, 5, 0, 1, 6, 0, 0, 1⟩
    [((0, 0, none, true), (1, 0, none, false), (-1, 0, none, false), "smooth"),
     ((3, 4, none, true), (0, 1, none, false), (0, -1, none, false), "sharp")], ?_, ?_, ?_, ?_, ?_⟩
  · rfl
  · intro _; rfl
  · intro v hv
    simp only [List.mem_cons, List.not_mem_nil, or_false] at hv
    rcases hv with rfl | rfl <;> exact ⟨rfl, rfl, rfl⟩
  · show ([9, 7, 8] : List ℕ).Nodup
    decide
  · rfl

example : ∃ v, val demo 10 = some v ∧ v.Made ∧ v.Unnamed ∧ v.Fits v ∧ (own demo 10).Nodup := by
  refine ⟨.shape "r".toList ⟨none, none⟩ true ⟨1, 0, 5, 0, 1, 6, 0, 0, 1⟩ .rounded (0, 0, none, true) (3, 4, none, true) 2,
    rfl, ⟨rfl, rfl, rfl⟩, ⟨rfl, rfl⟩, ⟨rfl, rfl, rfl, rfl, rfl, by simp⟩, ?_⟩
  show ([10, 1, 4] : List ℕ).Nodup
  decide

/-- An open group holding the curve, and the rectangle with the curve as hole. -/
def demo2 : Heap :=
  demo ++ [.group ⟨"g".toList, ⟨none, none⟩, false, 0⟩ false [("c".toList, 9)] [], .holes ⟨"h".toList, ⟨none, none⟩, true, 0⟩ 10 [9]]

example : ∃ g, gval demo2 11 = some g ∧ g.closed = false ∧ g.pb.filled = false ∧ g.elems ≠ [] :=
  ⟨⟨"g".toList, ⟨none, none⟩, false, ⟨1, 0, 5, 0, 1, 6, 0, 0, 1⟩, false, [("c".toList, 9)], []⟩, rfl, rfl, rfl, by simp⟩

example : ∃ v, hval demo2 12 = some v ∧ v.Made ∧ v.inside ≠ [] := by
  refine ⟨⟨"h".toList, ⟨none, none⟩, true, ⟨1, 0, 5, 0, 1, 6, 0, 0, 1⟩,
    .shape "r".toList ⟨none, none⟩ true ⟨1, 0, 5, 0, 1, 6, 0, 0, 1⟩ .rounded (0, 0, none, true) (3, 4, none, true) 2,
    [.curve "c".toList ⟨none, none⟩ true ⟨1, 0, 5, 0, 1, 6, 0, 0, 1⟩
    [((0, 0, none, true), (1, 0, none, false), (-1, 0, none, false), "smooth"),
     ((3, 4, none, true), (0, 1, none, false), (0, -1, none, false), "sharp")]]⟩, rfl, ⟨fun _ => rfl, ?_⟩, by simp⟩
  intro p hp
  simp only [List.mem_cons, List.not_mem_nil, or_false] at hp
  rcases hp with rfl | rfl
  · exact ⟨⟨rfl, rfl, rfl⟩, ⟨rfl, rfl⟩, rfl⟩
  · refine ⟨fun _ => rfl, ?_, rfl⟩
    intro v hv
    simp only [List.mem_cons, List.not_mem_nil, or_false] at hv
    rcases hv with rfl | rfl <;> exact ⟨rfl, rfl, rfl⟩

end X7.EH
