import Verif.Lemmas.MorphHeap

/-! Each call on curves and morphs does to the values what the specification says. -/

noncomputable section

namespace X7.MH

open CH Anim

theorem distinct_congr {h h' : Heap} (e : h'.cps = h.cps) {p q : ℕ} : Distinct h' p q ↔ Distinct h p q := by
  unfold Distinct; rw [e]

theorem private_congr {h h' : Heap} (e : h'.cps = h.cps) (ec : h'.curves = h.curves) {k : ℕ} : Private h' k ↔ Private h k := by
  unfold Private Distinct; rw [e, ec]

theorem readCps_congr {h h' : Heap} {is : List ℕ} (e : ∀ i ∈ is, readCp h' i = readCp h i) : readCps h' is = readCps h is := by
  induction is with
  | nil => rfl
  | cons i is ih =>
    unfold readCps
    rw [e i (by simp), ih (fun j hj => e j (by simp [hj]))]

/-! ### Writing in place -/

/-- Points and vectors of one control point are written; others do not see it. -/
theorem read_other {h h' : Heap} {m q : ℕ} {M : CpObj} (hM : h.cps[m]? = some M) (e : h'.cps = h.cps)
    (hp : ∀ i, i ≠ M.c → h'.pts[i]? = h.pts[i]?) (hv : ∀ i, i ≠ M.dl → i ≠ M.dr → h'.vecs[i]? = h.vecs[i]?) (d : Distinct h m q) :
    readCp h' q = readCp h q := by
  unfold readCp
  rw [e]
  cases hq : h.cps[q]? with
  | none => rfl
  | some o =>
    obtain ⟨a, b, c, f, g⟩ := d M o hM hq
    simp only
    rw [hp _ a.symm, hv _ b.symm f.symm, hv _ c.symm g.symm]

theorem mixCpAt_ok {h : Heap} {t : ℝ} {m o g : ℕ} {mv ov gv : CP ℝ} (hm : readCp h m = some mv) (ho : readCp h o = some ov)
    (hg : readCp h g = some gv) (hs : ∀ M : CpObj, h.cps[m]? = some M → M.dl ≠ M.dr) (hmo : Distinct h m o) (hmg : Distinct h m g) :
    ∃ h', mixCpAt h t m o g = some h' ∧ h'.cps = h.cps ∧ h'.curves = h.curves ∧ h'.xfs = h.xfs ∧
      readCp h' m = some (Morph.mixCP t mv ov gv) ∧ ∀ q, Distinct h m q → readCp h' q = readCp h q := by
  obtain ⟨M, a0, a1, a2, a3, a4⟩ := readCp_some hm
  obtain ⟨O, b0, b1, b2, b3, b4⟩ := readCp_some ho
  obtain ⟨G, c0, c1, c2, c3, c4⟩ := readCp_some hg
  have hd := hs M a0
  obtain ⟨d1, d2, d3, d4, d5⟩ := hmo M O a0 b0
  obtain ⟨e1, e2, e3, e4, e5⟩ := hmg M G a0 c0
  have la := (List.getElem?_eq_some_iff.1 a1).1
  have ll := (List.getElem?_eq_some_iff.1 a2).1
  have lr := (List.getElem?_eq_some_iff.1 a3).1
  obtain ⟨V, hV⟩ : ∃ V, V = h.vecs.set M.dl (Morph.mixVec t ov.dl gv.dl) := ⟨_, rfl⟩
  have v1 : V[O.dr]? = some ov.dr := by rw [hV, List.getElem?_set_ne d3, b3]
  have v2 : V[G.dr]? = some gv.dr := by rw [hV, List.getElem?_set_ne e3, c3]
  refine ⟨{ h with pts := h.pts.set M.c (Morph.mixPt t ov.c gv.c), vecs := V.set M.dr (Morph.mixVec t ov.dr gv.dr) }, ?_, rfl, rfl, rfl, ?_, ?_⟩
  · simp only [mixCpAt, mixPtAt, mixVecAt, a0, b0, c0, b1, c1, b2, c2, ← hV, v1, v2]
  · refine readCp_of (o := M) a0 ?_ ?_ ?_ a4
    · simp only [Morph.mixCP]
      rw [List.getElem?_set_self la]
    · simp only [Morph.mixCP]
      rw [List.getElem?_set_ne hd.symm, hV, List.getElem?_set_self ll]
    · simp only [Morph.mixCP]
      rw [List.getElem?_set_self (by rw [hV, List.length_set]; exact lr)]
  · intro q hq
    refine read_other a0 rfl ?_ ?_ hq
    · intro i hi
      exact List.getElem?_set_ne hi.symm
    · intro i h1 h2
      simp only
      rw [List.getElem?_set_ne h2.symm, hV, List.getElem?_set_ne h1.symm]

theorem mixLoop_ok {t : ℝ} {ms os gs : List ℕ} {h : Heap} {mv ov gv : List (CP ℝ)} (hm : readCps h ms = some mv)
    (ho : readCps h os = some ov) (hg : readCps h gs = some gv) (hn : ms.Nodup)
    (hs : ∀ p ∈ ms, ∀ M : CpObj, h.cps[p]? = some M → M.dl ≠ M.dr) (hmm : ∀ p ∈ ms, ∀ q ∈ ms, q ≠ p → Distinct h p q)
    (hmo : ∀ p ∈ ms, ∀ q ∈ os, Distinct h p q) (hmg : ∀ p ∈ ms, ∀ q ∈ gs, Distinct h p q) :
    ∃ h', mixLoop h t ms os gs = some h' ∧ h'.cps = h.cps ∧ h'.curves = h.curves ∧ h'.xfs = h.xfs ∧
      readCps h' ms = some (Morph.mixAll t mv ov gv) ∧ ∀ q, (∀ p ∈ ms, Distinct h p q) → readCp h' q = readCp h q := by
  induction ms generalizing os gs h mv ov gv with
  | nil =>
    simp [readCps] at hm
    subst hm
    exact ⟨h, by simp [mixLoop], rfl, rfl, rfl, by simp [readCps, Morph.mixAll], fun _ _ => rfl⟩
  | cons m ms ih =>
    obtain ⟨v, vs, rfl, m1, m2⟩ := readCps_cons hm
    cases os with
    | nil =>
      simp [readCps] at ho
      subst ho
      exact ⟨h, by simp [mixLoop], rfl, rfl, rfl, by simp [hm, Morph.mixAll], fun _ _ => rfl⟩
    | cons o os =>
      obtain ⟨u, us, rfl, o1, o2⟩ := readCps_cons ho
      cases gs with
      | nil =>
        simp [readCps] at hg
        subst hg
        exact ⟨h, by simp [mixLoop], rfl, rfl, rfl, by simp [hm, Morph.mixAll], fun _ _ => rfl⟩
      | cons g gs =>
        obtain ⟨w, ws, rfl, g1, g2⟩ := readCps_cons hg
        rw [List.nodup_cons] at hn
        obtain ⟨h1, k1, k2, k3, k4, k5, k6⟩ := mixCpAt_ok (t := t) m1 o1 g1 (hs m (by simp)) (hmo m (by simp) o (by simp))
          (hmg m (by simp) g (by simp))
        have r1 : readCps h1 ms = some vs := by
          rw [readCps_congr fun i hi => k6 i (hmm m (by simp) i (by simp [hi]) (by rintro rfl; exact hn.1 hi))]; exact m2
        have r2 : readCps h1 os = some us := by
          rw [readCps_congr fun i hi => k6 i (hmo m (by simp) i (by simp [hi]))]; exact o2
        have r3 : readCps h1 gs = some ws := by
          rw [readCps_congr fun i hi => k6 i (hmg m (by simp) i (by simp [hi]))]; exact g2
        obtain ⟨h', l1, l2, l3, l4, l5, l6⟩ := ih r1 r2 r3 hn.2 (fun p hp M hM => hs p (by simp [hp]) M (k2 ▸ hM))
          (fun p hp q hq hqp => (distinct_congr k2).2 (hmm p (by simp [hp]) q (by simp [hq]) hqp))
          (fun p hp q hq => (distinct_congr k2).2 (hmo p (by simp [hp]) q (by simp [hq])))
          (fun p hp q hq => (distinct_congr k2).2 (hmg p (by simp [hp]) q (by simp [hq])))
        refine ⟨h', ?_, l2.trans k2, l3.trans k3, l4.trans k4, ?_, ?_⟩
        · simp only [mixLoop, k1, l1]
        · refine readCps_cons_of ?_ l5
          rw [l6 m fun p hp => (distinct_congr k2).2 (hmm p (by simp [hp]) m (by simp) (by rintro rfl; exact hn.1 hp))]
          exact k5
        · intro q hq
          rw [l6 q fun p hp => (distinct_congr k2).2 (hq p (by simp [hp])), k6 q (hq m (by simp))]

theorem hideCpAt_ok {h : Heap} {m : ℕ} {mv : CP ℝ} (hm : readCp h m = some mv)
    (hs : ∀ M : CpObj, h.cps[m]? = some M → M.dl ≠ M.dr) :
    ∃ h', hideCpAt h m = some h' ∧ h'.cps = h.cps ∧ h'.curves = h.curves ∧ h'.xfs = h.xfs ∧
      readCp h' m = some ⟨⟨1000000, 1000000⟩, ⟨0, 0⟩, ⟨0, 0⟩, mv.kind⟩ ∧ ∀ q, Distinct h m q → readCp h' q = readCp h q := by
  obtain ⟨M, a0, a1, a2, a3, a4⟩ := readCp_some hm
  have hd := hs M a0
  have la := (List.getElem?_eq_some_iff.1 a1).1
  have ll := (List.getElem?_eq_some_iff.1 a2).1
  have lr := (List.getElem?_eq_some_iff.1 a3).1
  refine ⟨{ h with pts := h.pts.set M.c ⟨1000000, 1000000⟩, vecs := (h.vecs.set M.dl ⟨0, 0⟩).set M.dr ⟨0, 0⟩ }, ?_, rfl, rfl, rfl, ?_, ?_⟩
  · simp only [hideCpAt, a0]
  · refine readCp_of (o := M) a0 ?_ ?_ ?_ a4
    · simp only
      rw [List.getElem?_set_self la]
    · simp only
      rw [List.getElem?_set_ne hd.symm, List.getElem?_set_self ll]
    · simp only
      rw [List.getElem?_set_self (by rw [List.length_set]; exact lr)]
  · intro q hq
    refine read_other a0 rfl ?_ ?_ hq
    · intro i hi
      exact List.getElem?_set_ne hi.symm
    · intro i h1 h2
      simp only
      rw [List.getElem?_set_ne h2.symm, List.getElem?_set_ne h1.symm]

theorem hideLoop_ok {ms : List ℕ} {h : Heap} {mv : List (CP ℝ)} (hm : readCps h ms = some mv) (hn : ms.Nodup)
    (hs : ∀ p ∈ ms, ∀ M : CpObj, h.cps[p]? = some M → M.dl ≠ M.dr) (hmm : ∀ p ∈ ms, ∀ q ∈ ms, q ≠ p → Distinct h p q) :
    ∃ h', hideLoop h ms = some h' ∧ h'.cps = h.cps ∧ h'.curves = h.curves ∧ h'.xfs = h.xfs ∧
      readCps h' ms = some (Morph.hide mv) ∧ ∀ q, (∀ p ∈ ms, Distinct h p q) → readCp h' q = readCp h q := by
  induction ms generalizing h mv with
  | nil =>
    simp [readCps] at hm
    subst hm
    exact ⟨h, rfl, rfl, rfl, rfl, rfl, fun _ _ => rfl⟩
  | cons m ms ih =>
    obtain ⟨v, vs, rfl, m1, m2⟩ := readCps_cons hm
    rw [List.nodup_cons] at hn
    obtain ⟨h1, k1, k2, k3, k4, k5, k6⟩ := hideCpAt_ok m1 (hs m (by simp))
    have r1 : readCps h1 ms = some vs := by
      rw [readCps_congr fun i hi => k6 i (hmm m (by simp) i (by simp [hi]) (by rintro rfl; exact hn.1 hi))]; exact m2
    obtain ⟨h', l1, l2, l3, l4, l5, l6⟩ := ih r1 hn.2 (fun p hp M hM => hs p (by simp [hp]) M (k2 ▸ hM))
      (fun p hp q hq hqp => (distinct_congr k2).2 (hmm p (by simp [hp]) q (by simp [hq]) hqp))
    refine ⟨h', ?_, l2.trans k2, l3.trans k3, l4.trans k4, ?_, ?_⟩
    · simp only [hideLoop, k1, l1]
    · refine readCps_cons_of ?_ l5
      rw [l6 m fun p hp => (distinct_congr k2).2 (hmm p (by simp [hp]) m (by simp) (by rintro rfl; exact hn.1 hp))]
      exact k5
    · intro q hq
      rw [l6 q fun p hp => (distinct_congr k2).2 (hq p (by simp [hp])), k6 q (hq m (by simp))]

/-- The values of the control points of one curve are changed in place. -/
theorem Inv.inPlace {h h' : Heap} {s : State} (I : Inv h s) {k : ℕ} {c : CurveObj} (hc : h.curves[k]? = some c) (e : h'.cps = h.cps)
    (ec : h'.curves = h.curves) (ex : h'.xfs = h.xfs) {vs : List (CP ℝ)} (hr : readCps h' c.cps = some vs)
    (ho : ∀ (l : ℕ) (d : CurveObj), h.curves[l]? = some d → l ≠ k → ∀ q ∈ d.cps, readCp h' q = readCp h q) :
    Inv h' ⟨s.xfs, s.curves.set k ⟨c.name, c.pb, c.closed, c.xf, vs⟩⟩ := by
  have hk := (List.getElem?_eq_some_iff.1 hc).1
  refine ⟨ex.trans I.xfs, by rw [ec]; simp [I.len], ?_, ?_, ?_, ?_⟩
  · intro l d hd
    rw [ec] at hd
    by_cases hl : l = k
    · subst hl
      rw [hc] at hd
      cases hd
      refine ⟨vs, hr, ?_⟩
      simp only
      rw [List.getElem?_set_self (by rw [← I.len]; exact hk)]
    · obtain ⟨us, u1, u2⟩ := I.cur l d hd
      refine ⟨us, ?_, ?_⟩
      · rw [readCps_congr (ho l d hd hl)]; exact u1
      · simp only
        rw [List.getElem?_set_ne (Ne.symm hl)]; exact u2
  · intro l d hd; rw [ec] at hd; rw [ex]; exact I.xf l d hd
  · intro l d hd; rw [ec] at hd; exact I.nodup l d hd
  · intro a b c d hab ha hb; rw [ec] at ha hb; exact I.disj a b c d hab ha hb

theorem update_inv {h : Heap} {s : State} (I : Inv h s) (m : MorphObj) (ho : m.orig ≠ m.morph) (ht : m.target ≠ m.morph)
    (P : Private h m.morph) (t : TVal) :
    (update h m t).2 = (updVal s m t).2 ∧ Inv (update h m t).1 (updVal s m t).1 ∧ (update h m t).1.cps = h.cps ∧
      (update h m t).1.curves = h.curves := by
  rcases I.get m.morph with ⟨a1, a2⟩ | ⟨cm, vm, xm, a1, a2, a3, -, -⟩
  · simp only [update, updVal, a1, a2]
    exact ⟨by first | rfl | trivial, I, by first | rfl | trivial, by first | rfl | trivial⟩
  rcases I.get m.orig with ⟨b1, b2⟩ | ⟨co, vo, xo, b1, b2, b3, -, -⟩
  · simp only [update, updVal, a1, a3, b1, b2]
    exact ⟨by first | rfl | trivial, I, by first | rfl | trivial, by first | rfl | trivial⟩
  rcases I.get m.target with ⟨c1, c2⟩ | ⟨ct, vt, xt, c1, c2, c3, -, -⟩
  · simp only [update, updVal, a1, a3, b1, b3, c1, c2]
    exact ⟨by first | rfl | trivial, I, by first | rfl | trivial, by first | rfl | trivial⟩
  have hs : ∀ p ∈ cm.cps, ∀ M : CpObj, h.cps[p]? = some M → M.dl ≠ M.dr := fun p hp => (P cm a1 p hp).1
  have hmm : ∀ p ∈ cm.cps, ∀ q ∈ cm.cps, q ≠ p → Distinct h p q := fun p hp => (P cm a1 p hp).2 m.morph cm a1
  have hoth : ∀ (l : ℕ) (d : CurveObj), h.curves[l]? = some d → l ≠ m.morph → ∀ q ∈ d.cps, ∀ p ∈ cm.cps, Distinct h p q := by
    intro l d hd hl q hq p hp
    refine (P cm a1 p hp).2 l d hd q hq ?_
    rintro rfl
    exact I.disj l m.morph d cm hl hd a1 hq hp
  cases t with
  | none =>
    obtain ⟨h', k1, k2, k3, k4, k5, k6⟩ := hideLoop_ok a2 (I.nodup _ _ a1) hs hmm
    simp only [update, updVal, a1, a3, b1, b3, c1, c3, k1]
    exact ⟨by first | rfl | trivial, Inv.inPlace I a1 k2 k3 k4 k5 (fun l d hd hl q hq => k6 q (hoth l d hd hl q hq)), k2, k3⟩
  | num t =>
    obtain ⟨h', k1, k2, k3, k4, k5, k6⟩ := mixLoop_ok (t := t) a2 b2 c2 (I.nodup _ _ a1) hs hmm
      (fun p hp q hq => hoth _ _ b1 ho q hq p hp) (fun p hp q hq => hoth _ _ c1 ht q hq p hp)
    simp only [update, updVal, a1, a3, b1, b3, c1, c3, k1]
    exact ⟨by first | rfl | trivial, Inv.inPlace I a1 k2 k3 k4 k5 (fun l d hd hl q hq => k6 q (hoth l d hd hl q hq)), k2, k3⟩
  | pair u v =>
    have nil : ∀ {is : List ℕ} {vs : List (CP ℝ)}, readCps h is = some vs → (is = [] ↔ vs = []) := by
      intro is vs e
      have := readCps_length e
      rw [← List.length_eq_zero_iff, ← List.length_eq_zero_iff, this]
    simp only [update, updVal, a1, a3, b1, b3, c1, c3]
    by_cases hn : vm = [] ∨ vo = [] ∨ vt = []
    · rw [if_pos hn, if_pos (by rwa [nil a2, nil b2, nil c2])]
      exact ⟨by first | rfl | trivial, I, by first | rfl | trivial, by first | rfl | trivial⟩
    · rw [if_neg hn, if_neg (by rwa [nil a2, nil b2, nil c2])]
      exact ⟨by first | rfl | trivial, I, by first | rfl | trivial, by first | rfl | trivial⟩

/-! ### Making a morph -/

theorem size_eq {h : Heap} {s : State} (I : Inv h s) (i : ℕ) : size h i = sizeVal s i := by
  rcases I.get i with ⟨a1, a2⟩ | ⟨c, vs, m, a1, a2, a3, -, -⟩
  · simp only [size, sizeVal, a1, a2]
  · simp only [size, sizeVal, a1, a3]
    exact (readCps_length a2).symm

theorem addOne_len (s : State) (i : ℕ) : (s.step (.addOne i)).1.curves.length = s.curves.length := by
  simp only [State.step]
  split
  · split <;> simp
  · rfl

theorem padVal_len (n : ℕ) (s : State) (i : ℕ) : (padVal s i n).1.curves.length = s.curves.length := by
  induction n generalizing s with
  | zero => rfl
  | succ n ih =>
    have := addOne_len s i
    unfold padVal
    split
    · rename_i s1 e
      rw [e] at this
      rw [ih s1, this]
    · rename_i s1 x e
      rw [e] at this
      exact this

theorem pad_inv {h : Heap} {s : State} (I : Inv h s) (i n : ℕ) :
    (pad h i n).2 = (padVal s i n).2 ∧ Inv (pad h i n).1 (padVal s i n).1 ∧
      ∀ k, k < h.curves.length → Private h k → Private (pad h i n).1 k := by
  induction n generalizing h s with
  | zero => exact ⟨rfl, I, fun _ _ hk => hk⟩
  | succ n ih =>
    obtain ⟨e1, I1⟩ := addOne_inv I i
    have len : (CH.addOne h i).1.curves.length = h.curves.length := by
      rw [I1.len, I.len, addOne_len]
    have P := fun k (hk : k < h.curves.length) (hp : Private h k) => step_private I (.addOne i) hp hk (by simp)
    simp only [CH.step] at P
    unfold pad padVal
    obtain ⟨A, hA⟩ : ∃ A, A = CH.addOne h i := ⟨_, rfl⟩
    obtain ⟨B, hB⟩ : ∃ B, B = s.step (.addOne i) := ⟨_, rfl⟩
    rw [← hA] at e1 I1 len P ⊢
    rw [← hB] at e1 I1 ⊢
    obtain ⟨A1, A2⟩ := A
    obtain ⟨B1, B2⟩ := B
    simp only at e1 I1 len P
    subst e1
    cases A2 with
    | none =>
      obtain ⟨f1, f2, f3⟩ := ih I1
      exact ⟨f1, f2, fun k hk hp => f3 k (by omega) (P k hk hp)⟩
    | some e => exact ⟨rfl, I1, P⟩

theorem padBothVal_len (s : State) (i j : ℕ) (force : Bool) : (padBothVal s i j force).1.curves.length = s.curves.length := by
  unfold padBothVal
  split
  · have := padVal_len (sizeVal s j - sizeVal s i) s i
    split
    · rename_i s1 x e
      rw [e] at this
      exact this
    · rename_i s1 e
      rw [e] at this
      rw [padVal_len, this]
  · rfl

theorem padBoth_inv {h : Heap} {s : State} (I : Inv h s) (i j : ℕ) (force : Bool) :
    (padBoth h i j force).2 = (padBothVal s i j force).2 ∧ Inv (padBoth h i j force).1 (padBothVal s i j force).1 ∧
      ∀ k, k < h.curves.length → Private h k → Private (padBoth h i j force).1 k := by
  unfold padBoth padBothVal
  cases force with
  | false => exact ⟨rfl, I, fun _ _ hk => hk⟩
  | true =>
    simp only [if_true]
    rw [size_eq I i, size_eq I j]
    obtain ⟨e1, I1, P⟩ := pad_inv I i (sizeVal s j - sizeVal s i)
    have len : (pad h i (sizeVal s j - sizeVal s i)).1.curves.length = h.curves.length := by
      rw [I1.len, I.len, padVal_len]
    obtain ⟨A, hA⟩ : ∃ A, A = pad h i (sizeVal s j - sizeVal s i) := ⟨_, rfl⟩
    obtain ⟨B, hB⟩ : ∃ B, B = padVal s i (sizeVal s j - sizeVal s i) := ⟨_, rfl⟩
    rw [← hA] at e1 I1 len P ⊢
    rw [← hB] at e1 I1 ⊢
    obtain ⟨A1, A2⟩ := A
    obtain ⟨B1, B2⟩ := B
    simp only at e1 I1 len P
    subst e1
    cases A2 with
    | some e => exact ⟨rfl, I1, P⟩
    | none =>
      simp only
      rw [size_eq I1 i, size_eq I1 j]
      obtain ⟨f1, f2, f3⟩ := pad_inv I1 j (sizeVal B1 i - sizeVal B1 j)
      exact ⟨f1, f2, fun k hk hp => f3 k (by omega) (P k hk hp)⟩

/-! ### Histories -/

/-- The objects hold the values, and what is written is held once. -/
structure WInv (w : World) (v : Values) : Prop where
  inv : Inv w.heap v.st
  morphs : w.morphs = v.morphs
  ok : ∀ m ∈ w.morphs, m.orig < m.morph ∧ m.target < m.morph ∧ m.morph < w.heap.curves.length ∧ Private w.heap m.morph

theorem step_len (s : State) (op : Op) : s.curves.length ≤ (s.step op).1.curves.length := by
  have ha : ∀ c, s.curves.length ≤ (s.add c).1.curves.length := by
    intro c; unfold State.add; split <;> simp
  have hx : ∀ n pb cl m cps, s.curves.length ≤ (s.addXf n pb cl m cps).1.curves.length := by
    intro n pb cl m cps; unfold State.addXf; split <;> simp
  cases op with
  | make n pb c m vs => exact hx _ _ _ _ _
  | copy i =>
    simp only [State.step]
    split
    · exact ha _
    · exact le_rfl
  | addOne i => exact (addOne_len s i).ge
  | restore i j =>
    simp only [State.step]
    split
    · split
      · split <;> simp
      · exact le_rfl
    · exact le_rfl
  | transform i m =>
    simp only [State.step]
    split
    · split
      · exact hx _ _ _ _ _
      · exact le_rfl
    · exact le_rfl
  | reversed i =>
    simp only [State.step]
    split
    · exact ha _
    · exact le_rfl
  | offset i off =>
    simp only [State.step]
    split
    · split
      · split
        · exact le_rfl
        · split
          · exact le_rfl
          · exact hx _ _ _ _ _
      · exact le_rfl
    · exact le_rfl
  | turn i k =>
    simp only [State.step]
    split
    · simp
    · exact le_rfl
  | setXf i m =>
    simp only [State.step]
    split <;> simp

theorem WInv.keep {w : World} {v : Values} (J : WInv w v) {h' : Heap} {s' : State} (I : Inv h' s')
    (len : v.st.curves.length ≤ s'.curves.length) (P : ∀ m ∈ w.morphs, Private h' m.morph) : WInv ⟨h', w.morphs⟩ ⟨s', v.morphs⟩ := by
  refine ⟨I, J.morphs, ?_⟩
  intro m hm
  obtain ⟨a, b, c, -⟩ := J.ok m hm
  have := I.len
  have := J.inv.len
  exact ⟨a, b, by simp only; omega, P m hm⟩

theorem newMorph_inv {w : World} {v : Values} (J : WInv w v) (i j : ℕ) (force : Bool) (found : Except PyErr ℕ) :
    (newMorph w i j force found).2 = (v.step (.morph i j force found)).2 ∧
      WInv (newMorph w i j force found).1 (v.step (.morph i j force found)).1 := by
  simp only [newMorph, Values.step]
  rw [J.inv.len]
  by_cases hij : i < v.st.curves.length ∧ j < v.st.curves.length
  swap
  · rw [if_neg hij, if_neg hij]
    exact ⟨rfl, J⟩
  rw [if_pos hij, if_pos hij]
  obtain ⟨e1, I1, P1⟩ := padBoth_inv J.inv i j force
  have len1 := padBothVal_len v.st i j force
  obtain ⟨A, hA⟩ : ∃ A, A = padBoth w.heap i j force := ⟨_, rfl⟩
  obtain ⟨B, hB⟩ : ∃ B, B = padBothVal v.st i j force := ⟨_, rfl⟩
  rw [← hA] at e1 I1 P1 ⊢
  rw [← hB] at e1 I1 len1 ⊢
  obtain ⟨h1, A2⟩ := A
  obtain ⟨s1, B2⟩ := B
  simp only at e1 I1 P1 len1
  subst e1
  have Q1 : ∀ m ∈ w.morphs, Private h1 m.morph := fun m hm => P1 _ (J.ok m hm).2.2.1 (J.ok m hm).2.2.2
  have lh1 : h1.curves.length = w.heap.curves.length := by rw [I1.len, len1, J.inv.len]
  cases A2 with
  | some e =>
    simp only
    exact ⟨by first | rfl | trivial, J.keep I1 len1.ge Q1⟩
  | none =>
    simp only
    obtain ⟨e2, I2⟩ := copy_inv I1 i
    obtain ⟨W, F⟩ := step_fresh I1 (.copy i) (by simp)
    simp only [CH.step] at F
    have len2 := step_len s1 (.copy i)
    obtain ⟨A, hA⟩ : ∃ A, A = CH.copy h1 i := ⟨_, rfl⟩
    obtain ⟨B, hB⟩ : ∃ B, B = s1.step (.copy i) := ⟨_, rfl⟩
    have hlen : B.2 = none → B.1.curves.length = s1.curves.length + 1 := by
      rw [hB]
      simp only [State.step, State.add]
      split
      · split <;> simp
      · simp
    rw [← hA] at e2 I2 F ⊢
    rw [← hB] at e2 I2 len2 ⊢
    obtain ⟨h2, A2⟩ := A
    obtain ⟨s2, B2⟩ := B
    simp only at e2 I2 F len2 hlen
    subst e2
    have Q2 : ∀ m ∈ w.morphs, Private h2 m.morph := fun m hm => F.private I1 (.inl (Q1 m hm))
    cases A2 with
    | some e =>
      simp only
      exact ⟨by first | rfl | trivial, J.keep I2 (by omega) Q2⟩
    | none =>
      simp only
      rw [size_eq I2 i, size_eq I2 j]
      split
      · exact ⟨by first | rfl | trivial, J.keep I2 (by omega) Q2⟩
      split
      · exact ⟨by first | rfl | trivial, J.keep I2 (by omega) Q2⟩
      · exact ⟨by first | rfl | trivial, J.keep I2 (by omega) Q2⟩
      · refine ⟨by first | rfl | trivial, I2, ?_, ?_⟩
        · simp only [J.morphs, I1.len]
        · intro m hm
          simp only [List.mem_append, List.mem_singleton] at hm
          have := I2.len
          have := hlen rfl
          have := J.inv.len
          rcases hm with hm | rfl
          · obtain ⟨a, b, c, -⟩ := J.ok m hm
            exact ⟨a, b, by simp only; omega, Q2 m hm⟩
          · exact ⟨by simp only; omega, by simp only; omega, by simp only; omega, F.private I1 (.inr le_rfl)⟩

theorem step_winv {w : World} {v : Values} (J : WInv w v) (a : Call) (ha : ∀ m ∈ v.morphs, a ≠ .curve (.reversed m.morph)) :
    (step w a).2 = (v.step a).2 ∧ WInv (step w a).1 (v.step a).1 := by
  cases a with
  | curve op =>
    obtain ⟨e, I⟩ := step_inv J.inv op
    refine ⟨e, J.keep I (step_len _ _) ?_⟩
    intro m hm
    refine step_private J.inv op (J.ok m hm).2.2.2 (J.ok m hm).2.2.1 ?_
    rintro rfl
    exact ha m (J.morphs ▸ hm) rfl
  | morph i j force found => exact newMorph_inv J i j force found
  | update k t =>
    simp only [step, Values.step]
    rw [J.morphs]
    cases hm : v.morphs[k]? with
    | none => exact ⟨by first | rfl | trivial, J⟩
    | some m =>
      have hm' : m ∈ w.morphs := by rw [J.morphs]; exact List.mem_of_getElem? hm
      obtain ⟨a, b, c, d⟩ := J.ok m hm'
      obtain ⟨e1, e2, e3, e4⟩ := update_inv J.inv m (by omega) (by omega) d t
      simp only
      refine ⟨e1, ?_⟩
      have := J.keep e2 (by have := e2.len; have := J.inv.len; rw [e4] at *; omega)
        (fun m' hm' => (private_congr e3 e4).2 (J.ok m' hm').2.2.2)
      rw [J.morphs] at this
      exact this

theorem run_winv {w : World} {v : Values} (J : WInv w v) (as : List Call) (ha : v.Allowed as) :
    (run w as).2 = (v.run as).2 ∧ WInv (run w as).1 (v.run as).1 := by
  induction as generalizing w v with
  | nil => exact ⟨rfl, J⟩
  | cons a as ih =>
    obtain ⟨e1, J1⟩ := step_winv J a ha.1
    obtain ⟨e2, J2⟩ := ih J1 ha.2
    exact ⟨by simp only [run, Values.run, e1, e2], J2⟩

theorem winv_iff {w : World} {v : Values} : WInv w v ↔ w.values = some v ∧ Sound w := by
  have hv : w.values = some v ↔ vals w.heap = some v.st ∧ w.morphs = v.morphs := by
    unfold World.values
    split
    · rename_i s hs
      rw [hs]
      cases v
      simp
    · rename_i hs
      simp [hs]
  rw [hv]
  constructor
  · rintro ⟨a, b, c⟩
    exact ⟨⟨(inv_iff.1 a).1, b⟩, (inv_iff.1 a).2, c⟩
  · rintro ⟨⟨a, b⟩, c, d⟩
    exact ⟨inv_iff.2 ⟨a, c⟩, b, d⟩

end X7.MH
