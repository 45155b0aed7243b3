import Verif.Lemmas.CurveHeapStep
import Verif.Spec.MorphHeap

/-! Which points and vectors are held by which control points: new control points hold new ones. -/

noncomputable section

namespace X7.MH

open CH Anim

/-- Control point `p` of `h'` holds a point and two vectors which are not in `h`. -/
def New (h h' : Heap) (p : ℕ) : Prop :=
  ∀ o : CpObj, h'.cps[p]? = some o → h.pts.length ≤ o.c ∧ h.vecs.length ≤ o.dl ∧ h.vecs.length ≤ o.dr ∧ o.dl ≠ o.dr

/-- The control points in `W` are written or made, with new points and vectors; nothing else changes. -/
structure Fresh (h h' : Heap) (W : List ℕ) : Prop where
  new : ∀ p ∈ W, New h h' p
  sep : ∀ p ∈ W, ∀ q ∈ W, q ≠ p → Distinct h' p q
  old : ∀ p, p < h.cps.length → p ∉ W → h'.cps[p]? = h.cps[p]?
  live : ∀ (l : ℕ) (d : CurveObj), h'.curves[l]? = some d → ∀ q ∈ d.cps, q ∈ W ∨ ∃ d0, h.curves[l]? = some d0 ∧ q ∈ d0.cps

theorem Fresh.refl (h : Heap) : Fresh h h [] :=
  ⟨by simp, by simp, fun _ _ _ => rfl, fun _ d hd _ hq => .inr ⟨d, hd, hq⟩⟩

theorem live_bound {h : Heap} {s : State} (I : Inv h s) {l q : ℕ} {d : CurveObj} (hd : h.curves[l]? = some d) (hq : q ∈ d.cps) :
    ∃ o, h.cps[q]? = some o ∧ o.c < h.pts.length ∧ o.dl < h.vecs.length ∧ o.dr < h.vecs.length := by
  obtain ⟨vs, h1, -⟩ := I.cur l d hd
  obtain ⟨k, hk⟩ := List.getElem?_of_mem hq
  obtain ⟨v, -, h2⟩ := readCps_get h1 hk
  obtain ⟨o, a0, a1, a2, a3, -⟩ := readCp_some h2
  exact ⟨o, a0, (List.getElem?_eq_some_iff.1 a1).1, (List.getElem?_eq_some_iff.1 a2).1, (List.getElem?_eq_some_iff.1 a3).1⟩

theorem live_lt {h : Heap} {s : State} (I : Inv h s) {l q : ℕ} {d : CurveObj} (hd : h.curves[l]? = some d) (hq : q ∈ d.cps) :
    q < h.cps.length := by
  obtain ⟨o, a0, -⟩ := live_bound I hd hq
  exact (List.getElem?_eq_some_iff.1 a0).1

theorem Distinct.symm {h : Heap} {p q : ℕ} (d : Distinct h p q) : Distinct h q p := by
  intro o o' ho ho'
  obtain ⟨a, b, c, e, f⟩ := d o' o ho' ho
  exact ⟨a.symm, b.symm, e.symm, c.symm, f.symm⟩

theorem Fresh.private {h h' : Heap} {s : State} (I : Inv h s) {W : List ℕ} (F : Fresh h h' W) {k : ℕ}
    (hk : Private h k ∨ h.curves.length ≤ k) : Private h' k := by
  have key : ∀ p ∈ W, ∀ (l q : ℕ) (d : CurveObj), h.curves[l]? = some d → q ∈ d.cps → q ∉ W → Distinct h' p q := by
    intro p hp l q d hd hq hqW o o' ho ho'
    obtain ⟨a1, a2, a3, a4⟩ := F.new p hp o ho
    obtain ⟨u, b0, b1, b2, b3⟩ := live_bound I hd hq
    rw [F.old q (live_lt I hd hq) hqW, b0] at ho'
    cases ho'
    refine ⟨?_, ?_, ?_, ?_, ?_⟩ <;> omega
  intro c hc p hp
  rcases F.live k c hc p hp with hW | ⟨c0, hc0, hp0⟩
  · refine ⟨fun o ho => (F.new p hW o ho).2.2.2, ?_⟩
    intro l d hd q hq hqp
    by_cases hqW : q ∈ W
    · exact F.sep p hW q hqW hqp
    · rcases F.live l d hd q hq with h1 | ⟨d0, hd0, hq0⟩
      · exact absurd h1 hqW
      · exact key p hW l q d0 hd0 hq0 hqW
  · have P : Private h k := by
      rcases hk with hk | hk
      · exact hk
      · have := (List.getElem?_eq_some_iff.1 hc0).1; omega
    by_cases hpW : p ∈ W
    · refine ⟨fun o ho => (F.new p hpW o ho).2.2.2, ?_⟩
      intro l d hd q hq hqp
      by_cases hqW : q ∈ W
      · exact F.sep p hpW q hqW hqp
      · rcases F.live l d hd q hq with h1 | ⟨d0, hd0, hq0⟩
        · exact absurd h1 hqW
        · exact key p hpW l q d0 hd0 hq0 hqW
    · have e := F.old p (live_lt I hc0 hp0) hpW
      refine ⟨fun o ho => (P c0 hc0 p hp0).1 o (e ▸ ho), ?_⟩
      intro l d hd q hq hqp
      by_cases hqW : q ∈ W
      · exact (key q hqW k p c0 hc0 hp0 hpW).symm
      · rcases F.live l d hd q hq with h1 | ⟨d0, hd0, hq0⟩
        · exact absurd h1 hqW
        · have e' := F.old q (live_lt I hd0 hq0) hqW
          intro o o' ho ho'
          exact (P c0 hc0 p hp0).2 l d0 hd0 q hq0 hqp o o' (e ▸ ho) (e' ▸ ho')

/-! ### New control points -/

theorem newCps_new (h : Heap) (vs : List (CP ℝ)) : (∀ p ∈ (newCps h vs).2, New h (newCps h vs).1 p) ∧
    ∀ p ∈ (newCps h vs).2, ∀ q ∈ (newCps h vs).2, q ≠ p → Distinct (newCps h vs).1 p q := by
  induction vs generalizing h with
  | nil => simp [newCps]
  | cons v vs ih =>
    obtain ⟨i1, i2⟩ := ih (newCp h v).1
    have M := newCps_made (newCp h v).1 vs
    have e1 : (newCps h (v :: vs)).1 = (newCps (newCp h v).1 vs).1 := rfl
    have e2 : (newCps h (v :: vs)).2 = h.cps.length :: (newCps (newCp h v).1 vs).2 := rfl
    have lp : (newCp h v).1.pts.length = h.pts.length + 1 := by simp [newCp]
    have lv : (newCp h v).1.vecs.length = h.vecs.length + 2 := by simp [newCp]
    have e0 : (newCps (newCp h v).1 vs).1.cps[h.cps.length]? =
        some ⟨h.pts.length, h.vecs.length, h.vecs.length + 1, v.kind⟩ := by
      rw [M.old _ (by simp [newCp])]
      simp [newCp]
    rw [e1, e2]
    obtain ⟨H, hH⟩ : ∃ H, H = (newCps (newCp h v).1 vs).1 := ⟨_, rfl⟩
    obtain ⟨J, hJ⟩ : ∃ J, J = (newCps (newCp h v).1 vs).2 := ⟨_, rfl⟩
    rw [← hH] at i1 i2 e0 ⊢
    rw [← hJ] at i1 i2 ⊢
    have key : ∀ q ∈ J, Distinct H h.cps.length q := by
      intro q hq o o' ho ho'
      rw [e0] at ho
      cases ho
      obtain ⟨a1, a2, a3, a4⟩ := i1 q hq o' ho'
      refine ⟨?_, ?_, ?_, ?_, ?_⟩ <;> simp only <;> omega
    constructor
    · intro p hp
      rcases List.mem_cons.1 hp with rfl | hp
      · intro o ho
        rw [e0] at ho
        cases ho
        refine ⟨?_, ?_, ?_, ?_⟩ <;> simp
      · intro o ho
        obtain ⟨a1, a2, a3, a4⟩ := i1 p hp o ho
        exact ⟨by omega, by omega, by omega, a4⟩
    · intro p hp q hq hqp
      rcases List.mem_cons.1 hp with rfl | hp <;> rcases List.mem_cons.1 hq with rfl | hq
      · exact absurd rfl hqp
      · exact key q hq
      · exact (key p hp).symm
      · exact i2 p hp q hq hqp

/-- A new curve of new control points, or none. -/
theorem fresh_made {h h' : Heap} {vs : List (CP ℝ)} (hcps : h'.cps = (newCps h vs).1.cps)
    (hc : h'.curves = h.curves ∨ ∃ c : CurveObj, c.cps = (newCps h vs).2 ∧ h'.curves = h.curves ++ [c]) :
    Fresh h h' (newCps h vs).2 := by
  obtain ⟨n1, n2⟩ := newCps_new h vs
  have M := newCps_made h vs
  refine ⟨?_, ?_, ?_, ?_⟩
  · intro p hp o ho
    rw [hcps] at ho
    exact n1 p hp o ho
  · intro p hp q hq hqp o o' ho ho'
    rw [hcps] at ho ho'
    exact n2 p hp q hq hqp o o' ho ho'
  · intro p hp _
    rw [hcps]
    exact M.old p hp
  · intro l d hd q hq
    rcases hc with hc | ⟨c, c1, c2⟩
    · rw [hc] at hd
      exact .inr ⟨d, hd, hq⟩
    · rw [c2] at hd
      by_cases hl : l < h.curves.length
      · rw [List.getElem?_append_left hl] at hd
        exact .inr ⟨d, hd, hq⟩
      · have hd' := List.mem_of_getElem? hd
        rw [List.getElem?_append_right (by omega)] at hd
        have := List.mem_of_getElem? hd
        simp only [List.mem_singleton] at this
        subst this
        rw [c1] at hq
        exact .inl hq

theorem fresh_newCurve (h : Heap) (vs : List (CP ℝ)) (c : CurveObj) (hc : c.cps = (newCps h vs).2) :
    Fresh h (newCurve (newCps h vs).1 c).1 (newCps h vs).2 := by
  have M := newCps_made h vs
  unfold newCurve
  split
  · exact fresh_made rfl (.inl M.curves)
  · exact fresh_made rfl (.inr ⟨c, hc, by simp [M.curves]⟩)

theorem fresh_newCurveXf (h : Heap) (vs : List (CP ℝ)) (n : Str) (pb : PenBrush) (cl : Bool) (m : Mat3 ℝ) :
    Fresh h (newCurveXf (newCps h vs).1 n pb cl m (newCps h vs).2).1 (newCps h vs).2 := by
  have M := newCps_made h vs
  unfold newCurveXf
  split
  · exact fresh_made rfl (.inl M.curves)
  · exact fresh_made rfl (.inr ⟨⟨n, pb, cl, (newCps h vs).1.xfs.length, (newCps h vs).2⟩, rfl, by simp [newXf, M.curves]⟩)

/-! ### Restored control points -/

theorem restoreCp_eq {h h' : Heap} {i j : ℕ} (e : restoreCp h i j = some h') :
    i < h.cps.length ∧ h'.pts.length = h.pts.length + 1 ∧ h'.vecs.length = h.vecs.length + 2 ∧ h'.curves = h.curves ∧
      (∃ k, h'.cps[i]? = some ⟨h.pts.length, h.vecs.length, h.vecs.length + 1, k⟩) ∧
      ∀ k, k ≠ i → h'.cps[k]? = h.cps[k]? := by
  unfold restoreCp at e
  split at e
  · rename_i o v h1 h2
    have hi := (List.getElem?_eq_some_iff.1 h1).1
    cases e
    refine ⟨hi, by simp, by simp, rfl, ⟨v.kind, ?_⟩, ?_⟩
    · simp only
      rw [List.getElem?_set_self hi]
    · intro k hk
      exact List.getElem?_set_ne (Ne.symm hk)
  · cases e

theorem restoreCps_eq {h h' : Heap} {is js : List ℕ} (hn : is.Nodup) (hl : is.length = js.length)
    (e : restoreCps h is js = some h') :
    h.pts.length ≤ h'.pts.length ∧ h.vecs.length ≤ h'.vecs.length ∧ h'.curves = h.curves ∧ (∀ p ∈ is, New h h' p) ∧
      (∀ p ∈ is, ∀ q ∈ is, q ≠ p → Distinct h' p q) ∧ ∀ k, k ∉ is → h'.cps[k]? = h.cps[k]? := by
  induction is generalizing h js with
  | nil =>
    cases js with
    | nil => simp [restoreCps] at e; subst e; simp
    | cons _ _ => simp at hl
  | cons i is ih =>
    cases js with
    | nil => simp at hl
    | cons j js =>
      rw [List.nodup_cons] at hn
      unfold restoreCps at e
      split at e
      · rename_i h1 e1
        obtain ⟨r0, r1, r2, r3, ⟨kd, r4⟩, r5⟩ := restoreCp_eq e1
        obtain ⟨s1, s2, s3, s4, s5, s6⟩ := ih hn.2 (by simpa using hl) e
        have e0 := (s6 i hn.1).trans r4
        have key : ∀ q ∈ is, Distinct h' i q := by
          intro q hq o o' ho ho'
          rw [e0] at ho
          cases ho
          obtain ⟨a1, a2, a3, a4⟩ := s4 q hq o' ho'
          refine ⟨?_, ?_, ?_, ?_, ?_⟩ <;> simp only <;> omega
        refine ⟨by omega, by omega, s3.trans r3, ?_, ?_, ?_⟩
        · intro p hp
          rcases List.mem_cons.1 hp with rfl | hp
          · intro o ho
            rw [e0] at ho
            cases ho
            refine ⟨?_, ?_, ?_, ?_⟩ <;> simp
          · intro o ho
            obtain ⟨a1, a2, a3, a4⟩ := s4 p hp o ho
            exact ⟨by omega, by omega, by omega, a4⟩
        · intro p hp q hq hqp
          rcases List.mem_cons.1 hp with h1 | h1 <;> rcases List.mem_cons.1 hq with h2 | h2
          · exact absurd (h2.trans h1.symm) hqp
          · rw [h1]; exact key q h2
          · rw [h2]; exact (key p h1).symm
          · exact s5 p h1 q h2 hqp
        · intro k hk
          simp only [List.mem_cons, not_or] at hk
          rw [s6 k hk.2, r5 k hk.1]
      · cases e

theorem set_live {h : Heap} {i : ℕ} {c c' : CurveObj} (hc : h.curves[i]? = some c) {W : List ℕ}
    (hw : ∀ q ∈ c'.cps, q ∈ W ∨ q ∈ c.cps) {l : ℕ} {d : CurveObj} (hd : (h.curves.set i c')[l]? = some d) :
    ∀ q ∈ d.cps, q ∈ W ∨ ∃ d0, h.curves[l]? = some d0 ∧ q ∈ d0.cps := by
  intro q hq
  by_cases hl : l = i
  · subst hl
    rw [List.getElem?_set_self (List.getElem?_eq_some_iff.1 hc).1] at hd
    cases hd
    rcases hw q hq with h1 | h1
    · exact .inl h1
    · exact .inr ⟨c, hc, h1⟩
  · rw [List.getElem?_set_ne (Ne.symm hl)] at hd
    exact .inr ⟨d, hd, hq⟩

theorem restore_fresh {h : Heap} {s : State} (I : Inv h s) (i j : ℕ) : ∃ W, Fresh h (restore h i j).1 W := by
  simp only [restore, newXf]
  split
  · rename_i c d hc hd
    split
    · rename_i m hm
      have nil : Fresh h { h with xfs := h.xfs ++ [m], curves := h.curves.set i ⟨d.name, d.pb, d.closed, h.xfs.length, c.cps⟩ } [] :=
        ⟨by simp, by simp, fun _ _ _ => rfl, fun l e he => set_live (c' := ⟨d.name, d.pb, d.closed, h.xfs.length, c.cps⟩) hc (fun q hq => .inr hq) he⟩
      split
      · rename_i hl
        split
        · rename_i h3 e
          obtain ⟨s1, s2, s3, s4, s5, s6⟩ := restoreCps_eq (I.nodup i c hc) hl e
          refine ⟨c.cps, s4, s5, fun p _ hp => s6 p hp, ?_⟩
          intro l e he
          rw [s3] at he
          exact set_live (c' := ⟨d.name, d.pb, d.closed, h.xfs.length, c.cps⟩) hc (fun q hq => .inr hq) he
        · exact ⟨[], nil⟩
      · exact ⟨[], nil⟩
    · exact ⟨[], .refl h⟩
  · exact ⟨[], .refl h⟩

theorem splitCp_eq {h h' : Heap} {i j : ℕ} {k : ℕ × ℕ × ℕ} (e : splitCp h i j = some (h', k)) :
    k = (h.cps.length, h.cps.length + 1, h.cps.length + 2) ∧ i < h.cps.length ∧ j < h.cps.length ∧
      h'.pts.length = h.pts.length + 1 ∧ h'.vecs.length = h.vecs.length + 4 ∧ h'.curves = h.curves ∧
      (∃ kd, h'.cps[h.cps.length + 1]? = some ⟨h.pts.length, h.vecs.length + 1, h.vecs.length + 2, kd⟩) ∧
      ∀ p, p < h.cps.length → h'.cps[p]? = h.cps[p]? := by
  unfold splitCp at e
  split at e
  · rename_i o1 o2 v1 v2 a1 a2 a3 a4
    simp only [Option.some.injEq, Prod.mk.injEq] at e
    obtain ⟨e1, e2⟩ := e
    refine ⟨e2.symm, (List.getElem?_eq_some_iff.1 a1).1, (List.getElem?_eq_some_iff.1 a2).1, ?_⟩
    subst e1
    refine ⟨by simp, by simp, rfl, ⟨(bezSplit v1 v2 (1 / 2)).2.1.kind, by simp⟩, ?_⟩
    intro p hp
    exact List.getElem?_append_left hp
  · cases e

theorem addOne_fresh (h : Heap) (i : ℕ) : ∃ W, Fresh h (CH.addOne h i).1 W := by
  simp only [CH.addOne]
  split
  · rename_i c hc
    split
    · rename_i vs hv
      split
      · exact ⟨[], .refl h⟩
      · rename_i idx hidx
        split
        · rename_i p q hp hq
          split
          · rename_i h1 l m r e1
            obtain ⟨a0, a1, a2, a3, a4, a5, ⟨kd, a6⟩, a7⟩ := splitCp_eq e1
            cases a0
            split
            · rename_i h2 e2
              obtain ⟨b0, b1, b2, b3, ⟨kb, b4⟩, b5⟩ := restoreCp_eq e2
              split
              · rename_i h3 e3
                obtain ⟨c0, c1, c2, c3, ⟨kc, c4⟩, c5⟩ := restoreCp_eq e3
                have om : h3.cps[h.cps.length + 1]? = some ⟨h.pts.length, h.vecs.length + 1, h.vecs.length + 2, kd⟩ := by
                  rw [c5 _ (by omega), b5 _ (by omega), a6]
                have op : p ≠ q → h3.cps[p]? = some ⟨h.pts.length + 1, h.vecs.length + 4, h.vecs.length + 5, kb⟩ := by
                  intro hpq
                  rw [c5 _ hpq, b4, a3, a4]
                have oq : h3.cps[q]? = some ⟨h.pts.length + 2, h.vecs.length + 6, h.vecs.length + 7, kc⟩ := by
                  rw [c4, b1, b2, a3, a4]
                refine ⟨[p, q, h.cps.length + 1], ?_, ?_, ?_, ?_⟩
                · intro x hx o ho
                  simp only at ho
                  have hx' : x = q ∨ (x = p ∧ p ≠ q) ∨ x = h.cps.length + 1 := by
                    simp only [List.mem_cons, List.not_mem_nil, or_false] at hx
                    by_cases hpq : p = q
                    · rcases hx with rfl | rfl | rfl <;> simp [hpq]
                    · rcases hx with rfl | rfl | rfl <;> simp [hpq]
                  rcases hx' with rfl | ⟨rfl, hpq⟩ | rfl
                  · rw [oq] at ho; cases ho; refine ⟨?_, ?_, ?_, ?_⟩ <;> simp only <;> omega
                  · rw [op hpq] at ho; cases ho; refine ⟨?_, ?_, ?_, ?_⟩ <;> simp only <;> omega
                  · rw [om] at ho; cases ho; refine ⟨?_, ?_, ?_, ?_⟩ <;> simp only <;> omega
                · have hx' : ∀ x ∈ [p, q, h.cps.length + 1], x = q ∨ (x = p ∧ p ≠ q) ∨ x = h.cps.length + 1 := by
                    intro x hx
                    simp only [List.mem_cons, List.not_mem_nil, or_false] at hx
                    by_cases hpq : p = q
                    · rcases hx with rfl | rfl | rfl <;> simp [hpq]
                    · rcases hx with rfl | rfl | rfl <;> simp [hpq]
                  intro x hx y hy hyx o o' ho ho'
                  simp only at ho ho'
                  rcases hx' x hx with h1 | ⟨h1, hpq⟩ | h1 <;> rcases hx' y hy with h2 | ⟨h2, hpq'⟩ | h2 <;> rw [h1] at ho <;>
                    rw [h2] at ho'
                  · exact absurd (h2.trans h1.symm) hyx
                  · rw [oq] at ho; rw [op hpq'] at ho'; cases ho; cases ho'; refine ⟨?_, ?_, ?_, ?_, ?_⟩ <;> simp only <;> omega
                  · rw [oq] at ho; rw [om] at ho'; cases ho; cases ho'; refine ⟨?_, ?_, ?_, ?_, ?_⟩ <;> simp only <;> omega
                  · rw [op hpq] at ho; rw [oq] at ho'; cases ho; cases ho'; refine ⟨?_, ?_, ?_, ?_, ?_⟩ <;> simp only <;> omega
                  · exact absurd (h2.trans h1.symm) hyx
                  · rw [op hpq] at ho; rw [om] at ho'; cases ho; cases ho'; refine ⟨?_, ?_, ?_, ?_, ?_⟩ <;> simp only <;> omega
                  · rw [om] at ho; rw [oq] at ho'; cases ho; cases ho'; refine ⟨?_, ?_, ?_, ?_, ?_⟩ <;> simp only <;> omega
                  · rw [om] at ho; rw [op hpq'] at ho'; cases ho; cases ho'; refine ⟨?_, ?_, ?_, ?_, ?_⟩ <;> simp only <;> omega
                  · exact absurd (h2.trans h1.symm) hyx
                · intro x hx hxW
                  simp only [List.mem_cons, List.not_mem_nil, or_false, not_or] at hxW
                  simp only
                  rw [c5 x hxW.2.1, b5 x hxW.1, a7 x hx]
                · intro l d hd
                  simp only at hd
                  rw [c3, b3, a5] at hd
                  refine set_live hc (fun q' hq' => ?_) hd
                  simp only at hq'
                  rcases List.eq_or_mem_of_mem_insertIdx hq' with rfl | h1
                  · left; simp
                  · exact .inr h1
              · refine ⟨[p], ?_, ?_, ?_, ?_⟩
                · intro x hx o ho
                  simp only [List.mem_singleton] at hx
                  subst hx
                  simp only at ho
                  rw [b4, a3, a4] at ho; cases ho; refine ⟨?_, ?_, ?_, ?_⟩ <;> simp only <;> omega
                · intro x hx y hy hyx
                  simp only [List.mem_singleton] at hx hy
                  exact absurd (hy.trans hx.symm) hyx
                · intro x hx hxW
                  simp only [List.mem_singleton] at hxW
                  simp only
                  rw [b5 x hxW, a7 x hx]
                · intro l d hd q hq
                  simp only at hd
                  rw [b3, a5] at hd
                  exact .inr ⟨d, hd, hq⟩
            · refine ⟨[], by simp, by simp, fun x hx _ => a7 x hx, ?_⟩
              intro l d hd q hq
              simp only at hd
              rw [a5] at hd
              exact .inr ⟨d, hd, hq⟩
          · exact ⟨[], .refl h⟩
        · exact ⟨[], .refl h⟩
    · exact ⟨[], .refl h⟩
  · exact ⟨[], .refl h⟩

/-- Every call but `reversed` writes and makes only control points which hold new points and vectors. -/
theorem step_fresh {h : Heap} {s : State} (I : Inv h s) (op : Op) (hop : ∀ i, op ≠ .reversed i) : ∃ W, Fresh h (CH.step h op).1 W := by
  cases op with
  | make n pb c m vs => exact ⟨_, fresh_newCurveXf h vs n pb c m⟩
  | copy i =>
    simp only [CH.step, CH.copy]
    split
    · split
      · exact ⟨_, fresh_newCurve h _ _ rfl⟩
      · exact ⟨[], .refl h⟩
    · exact ⟨[], .refl h⟩
  | addOne i => exact addOne_fresh h i
  | restore i j => exact restore_fresh I i j
  | transform i m =>
    simp only [CH.step, CH.transform]
    split
    · split
      · exact ⟨_, fresh_newCurveXf h _ _ _ _ _⟩
      · exact ⟨[], .refl h⟩
    · exact ⟨[], .refl h⟩
  | reversed i => exact absurd rfl (hop i)
  | offset i off =>
    simp only [CH.step, CH.offset]
    split
    · split
      · split
        · exact ⟨[], .refl h⟩
        · split
          · exact ⟨[], .refl h⟩
          · exact ⟨_, fresh_newCurveXf h _ _ _ _ _⟩
      · exact ⟨[], .refl h⟩
    · exact ⟨[], .refl h⟩
  | turn i k =>
    simp only [CH.step, CH.turn]
    split
    · rename_i c hc
      refine ⟨[], by simp, by simp, fun _ _ _ => rfl, fun l e he => set_live hc (fun q hq => .inr ?_) he⟩
      simp only [List.mem_append] at hq
      rcases hq with hq | hq
      · exact List.mem_of_mem_drop hq
      · exact List.mem_of_mem_take hq
    · exact ⟨[], .refl h⟩
  | setXf i m =>
    simp only [CH.step, CH.setXf]
    split
    · exact ⟨[], by simp, by simp, fun _ _ _ => rfl, fun l d hd q hq => .inr ⟨d, hd, hq⟩⟩
    · exact ⟨[], .refl h⟩

/-! ### Reversed curves -/

theorem reverseCps_eq {h h' : Heap} {is js : List ℕ} (e : reverseCps h is = some (h', js)) (hi : ∀ p ∈ is, p < h.cps.length) :
    h'.curves = h.curves ∧ (∀ p, p < h.cps.length → h'.cps[p]? = h.cps[p]?) ∧
      ∀ q ∈ js, ∃ p ∈ is, ∃ o, h.cps[p]? = some o ∧ h'.cps[q]? = some ⟨o.c, o.dr, o.dl, o.kind⟩ := by
  induction is generalizing h js with
  | nil =>
    simp [reverseCps] at e
    obtain ⟨rfl, rfl⟩ := e
    simp
  | cons i is ih =>
    unfold reverseCps at e
    split at e
    · rename_i h1 j e1
      split at e
      · rename_i h2 js' e2
        simp only [Option.some.injEq, Prod.mk.injEq] at e
        obtain ⟨rfl, rfl⟩ := e
        unfold reverseCp at e1
        split at e1
        · rename_i o ho
          simp only [Option.some.injEq, Prod.mk.injEq] at e1
          obtain ⟨rfl, rfl⟩ := e1
          obtain ⟨k1, k2, k3⟩ := ih e2 (fun p hp => by
            have := hi p (List.mem_cons_of_mem _ hp)
            simp only [List.length_append, List.length_singleton]; omega)
          simp only [List.length_append, List.length_singleton] at k2
          refine ⟨k1, ?_, ?_⟩
          · intro p hp
            rw [k2 p (by omega), List.getElem?_append_left hp]
          · intro q hq
            rcases List.mem_cons.1 hq with rfl | hq
            · refine ⟨i, by simp, o, ho, ?_⟩
              rw [k2 _ (by omega)]
              simp
            · obtain ⟨p, p1, o', p2, p3⟩ := k3 q hq
              rw [List.getElem?_append_left (hi p (List.mem_cons_of_mem _ p1))] at p2
              exact ⟨p, List.mem_cons_of_mem _ p1, o', p2, p3⟩
        · cases e1
      · cases e
    · cases e

theorem reversed_private {h : Heap} {s : State} (I : Inv h s) {i k : ℕ} (hk : Private h k) (hkl : k < h.curves.length) (hik : i ≠ k) :
    Private (CH.reversed h i).1 k := by
  simp only [CH.reversed]
  split
  · rename_i c hc
    split
    · rename_i h1 is e
      obtain ⟨e1, e2, e3⟩ := reverseCps_eq e (fun p hp => live_lt I hc (List.mem_reverse.1 hp))
      have base : ∀ h2 : Heap, h2.cps = h1.cps → (h2.curves = h.curves ∨ ∃ d : CurveObj, d.cps = is ∧ h2.curves = h.curves ++ [d]) →
          Private h2 k := by
        intro h2 q1 q2 c2 hc2 p hp
        have hc0 : h.curves[k]? = some c2 := by
          rcases q2 with q2 | ⟨d, -, q2⟩
          · rwa [q2] at hc2
          · rwa [q2, List.getElem?_append_left hkl] at hc2
        have ep := e2 p (live_lt I hc0 hp)
        rw [← q1] at ep
        refine ⟨fun o ho => (hk c2 hc0 p hp).1 o (ep ▸ ho), ?_⟩
        intro l d hd q hq hqp
        have hd0 : (h.curves[l]? = some d) ∨ d.cps = is := by
          rcases q2 with q2 | ⟨d', q3, q2⟩
          · rw [q2] at hd; exact .inl hd
          · rw [q2] at hd
            by_cases hl : l < h.curves.length
            · rw [List.getElem?_append_left hl] at hd; exact .inl hd
            · rw [List.getElem?_append_right (by omega)] at hd
              have := List.mem_of_getElem? hd
              simp only [List.mem_singleton] at this
              subst this
              exact .inr q3
        rcases hd0 with hd0 | hd0
        · have eq := e2 q (live_lt I hd0 hq)
          rw [← q1] at eq
          intro o o' ho ho'
          exact (hk c2 hc0 p hp).2 l d hd0 q hq hqp o o' (ep ▸ ho) (eq ▸ ho')
        · rw [hd0] at hq
          obtain ⟨x, x1, u, x2, x3⟩ := e3 q hq
          rw [List.mem_reverse] at x1
          have hxp : x ≠ p := by
            rintro rfl
            exact I.disj i k c c2 hik hc hc0 x1 hp
          intro o o' ho ho'
          rw [q1, x3] at ho'
          cases ho'
          obtain ⟨a, b, c', d', e'⟩ := (hk c2 hc0 p hp).2 i c hc x x1 hxp o u (ep ▸ ho) x2
          exact ⟨a, c', b, e', d'⟩
      unfold newCurve
      split
      · exact base h1 rfl (.inl e1)
      · exact base _ rfl (.inr ⟨{ c with cps := is }, rfl, by simp [e1]⟩)
    · exact hk
  · exact hk

theorem step_private {h : Heap} {s : State} (I : Inv h s) (op : Op) {k : ℕ} (hk : Private h k) (hkl : k < h.curves.length)
    (hop : op ≠ .reversed k) : Private (CH.step h op).1 k := by
  by_cases hr : ∃ i, op = .reversed i
  · obtain ⟨i, rfl⟩ := hr
    exact reversed_private I hk hkl (fun e => hop (by rw [e]))
  · obtain ⟨W, F⟩ := step_fresh I op (fun i e => hr ⟨i, e⟩)
    exact F.private I (.inl hk)

end X7.MH
