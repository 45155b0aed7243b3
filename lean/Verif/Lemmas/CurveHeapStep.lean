import Verif.Lemmas.CurveHeap
import Verif.Lemmas.Morph
import Verif.Props.Bezier

/-!
Each call on curve objects does to their values what the specification says.
-/

noncomputable section

namespace X7.CH

theorem Inv.get {h : Heap} {s : State} (I : Inv h s) (i : ℕ) :
    (h.curves[i]? = none ∧ s.curves[i]? = none) ∨
    ∃ c vs m, h.curves[i]? = some c ∧ readCps h c.cps = some vs ∧ s.curves[i]? = some ⟨c.name, c.pb, c.closed, c.xf, vs⟩ ∧
      h.xfs[c.xf]? = some m ∧ s.xfs[c.xf]? = some m := by
  by_cases hi : i < h.curves.length
  · right
    have hc : h.curves[i]? = some h.curves[i] := List.getElem?_eq_getElem hi
    obtain ⟨vs, h1, h2⟩ := I.cur i _ hc
    have hx := I.xf i _ hc
    have hm : h.xfs[h.curves[i].xf]? = some (h.xfs[h.curves[i].xf]) := List.getElem?_eq_getElem hx
    refine ⟨_, vs, _, hc, h1, h2, hm, ?_⟩
    rw [← I.xfs]; exact hm
  · left
    have := I.len
    exact ⟨List.getElem?_eq_none (by omega), List.getElem?_eq_none (by omega)⟩

/-- A new curve with an existing transform. -/
theorem newCurve_inv {h h1 : Heap} {s : State} (I : Inv h s) {is : List ℕ} {vs : List (CP ℝ)} (M : Made h h1 is vs)
    (c : CurveObj) (hc : c.cps = is) (hx : c.xf < h.xfs.length) :
    (newCurve h1 c).2 = (s.add ⟨c.name, c.pb, c.closed, c.xf, vs⟩).2 ∧
    Inv (newCurve h1 c).1 (s.add ⟨c.name, c.pb, c.closed, c.xf, vs⟩).1 := by
  subst hc
  unfold newCurve State.add
  by_cases hb : (c.pb.filled && !c.closed) = true
  · simp only [hb, if_true]
    exact ⟨by first | rfl | trivial, I.garbage M.grow M.old M.xfs M.curves⟩
  · simp only [hb]
    refine ⟨by first | rfl | trivial, ?_⟩
    have := I.add (h' := { h1 with curves := h1.curves ++ [c] }) (X := []) (c := c) (vs := vs) ⟨M.grow.pts, M.grow.vecs⟩ M.old
      (by simp [M.xfs]) (by simp [M.curves]) (by simp [M.xfs, hx]) (readCps_grow (h := h1) ⟨List.prefix_rfl, List.prefix_rfl⟩
        (fun _ _ => rfl) M.read) M.nodup M.new
    simpa using this

/-- A new curve with a new transform. -/
theorem newCurveXf_inv {h h1 : Heap} {s : State} (I : Inv h s) {is : List ℕ} {vs : List (CP ℝ)} (M : Made h h1 is vs)
    (name : Str) (pb : PenBrush) (closed : Bool) (m : Mat3 ℝ) :
    (newCurveXf h1 name pb closed m is).2 = (s.addXf name pb closed m vs).2 ∧
    Inv (newCurveXf h1 name pb closed m is).1 (s.addXf name pb closed m vs).1 := by
  unfold newCurveXf State.addXf
  by_cases hb : (pb.filled && !closed) = true
  · simp only [hb, if_true]
    exact ⟨by first | rfl | trivial, I.garbage M.grow M.old M.xfs M.curves⟩
  · simp only [hb]
    refine ⟨by first | rfl | trivial, ?_⟩
    have e : h1.xfs.length = s.xfs.length := by rw [M.xfs, I.xfs]
    have := I.add (h' := { h1 with xfs := h1.xfs ++ [m], curves := h1.curves ++ [⟨name, pb, closed, h1.xfs.length, is⟩] }) (X := [m])
      (c := ⟨name, pb, closed, h1.xfs.length, is⟩) (vs := vs) ⟨M.grow.pts, M.grow.vecs⟩ M.old
      (by simp [M.xfs]) (by simp [M.curves]) (by simp) (readCps_grow (h := h1) ⟨List.prefix_rfl, List.prefix_rfl⟩
        (fun _ _ => rfl) M.read) M.nodup M.new
    simpa [newXf, e] using this

theorem make_inv {h : Heap} {s : State} (I : Inv h s) (n : Str) (pb : PenBrush) (c : Bool) (m : Mat3 ℝ) (vs : List (CP ℝ)) :
    (make h n pb c m vs).2 = (s.step (.make n pb c m vs)).2 ∧ Inv (make h n pb c m vs).1 (s.step (.make n pb c m vs)).1 :=
  newCurveXf_inv I (newCps_made h vs) n pb c m

theorem copy_inv {h : Heap} {s : State} (I : Inv h s) (i : ℕ) :
    (copy h i).2 = (s.step (.copy i)).2 ∧ Inv (copy h i).1 (s.step (.copy i)).1 := by
  rcases I.get i with ⟨h1, h2⟩ | ⟨c, vs, m, h1, h2, h3, h4, h5⟩
  · simp only [copy, State.step, h1, h2]
    exact ⟨by first | rfl | trivial, I⟩
  · simp only [copy, State.step, h1, h2, h3]
    exact newCurve_inv I (newCps_made h vs) { c with cps := (newCps h vs).2 } rfl (I.xf i c h1)

theorem transform_inv {h : Heap} {s : State} (I : Inv h s) (i : ℕ) (m : Mat3 ℝ) :
    (transform h i m).2 = (s.step (.transform i m)).2 ∧ Inv (transform h i m).1 (s.step (.transform i m)).1 := by
  rcases I.get i with ⟨h1, h2⟩ | ⟨c, vs, x, h1, h2, h3, h4, h5⟩
  · simp only [transform, State.step, h1, h2]
    exact ⟨by first | rfl | trivial, I⟩
  · simp only [transform, State.step, h1, h2, h3, h4, h5]
    exact newCurveXf_inv I (newCps_made h _) _ _ _ _

theorem offset_inv {h : Heap} {s : State} (I : Inv h s) (i : ℕ) (off : ℝ) :
    (offset h i off).2 = (s.step (.offset i off)).2 ∧ Inv (offset h i off).1 (s.step (.offset i off)).1 := by
  rcases I.get i with ⟨h1, h2⟩ | ⟨c, vs, x, h1, h2, h3, h4, h5⟩
  · simp only [offset, State.step, h1, h2]
    exact ⟨by first | rfl | trivial, I⟩
  · simp only [offset, State.step, h1, h2, h3, h4, h5]
    by_cases hb : (c.pb.filled && !c.closed) = true
    · simp only [hb, if_true]
      exact ⟨by first | rfl | trivial, I⟩
    · rw [if_neg hb, if_neg hb]
      cases Elem.offsetCps (vs.map fun v => v.transformLin (Mat3.one.mul x).apply) off with
      | error e => exact ⟨by first | rfl | trivial, I⟩
      | ok new => exact newCurveXf_inv I (newCps_made h _) _ _ _ _

theorem readCps_reverse {h : Heap} {is : List ℕ} {vs : List (CP ℝ)} (e : readCps h is = some vs) :
    readCps h is.reverse = some vs.reverse := by
  induction is generalizing vs with
  | nil => simp [readCps] at e; subst e; rfl
  | cons i is ih =>
    obtain ⟨v, ws, rfl, h1, h2⟩ := readCps_cons e
    rw [List.reverse_cons, List.reverse_cons]
    exact readCps_append (ih h2) (readCps_cons_of h1 rfl)

theorem reversed_inv {h : Heap} {s : State} (I : Inv h s) (i : ℕ) :
    (reversed h i).2 = (s.step (.reversed i)).2 ∧ Inv (reversed h i).1 (s.step (.reversed i)).1 := by
  rcases I.get i with ⟨h1, h2⟩ | ⟨c, vs, x, h1, h2, h3, h4, h5⟩
  · simp only [reversed, State.step, h1, h2]
    exact ⟨by first | rfl | trivial, I⟩
  · obtain ⟨h', js, e1, M⟩ := reverseCps_made (readCps_reverse h2)
    simp only [reversed, State.step, h1, h3, e1]
    exact newCurve_inv I M { c with cps := js } rfl (I.xf i c h1)

theorem turn_inv {h : Heap} {s : State} (I : Inv h s) (i k : ℕ) :
    (turn h i k).2 = (s.step (.turn i k)).2 ∧ Inv (turn h i k).1 (s.step (.turn i k)).1 := by
  rcases I.get i with ⟨h1, h2⟩ | ⟨c, vs, x, h1, h2, h3, h4, h5⟩
  · simp only [turn, State.step, h1, h2]
    exact ⟨by first | rfl | trivial, I⟩
  · simp only [turn, State.step, h1, h3]
    refine ⟨by first | rfl | trivial, ?_⟩
    have hp : (c.cps.drop k ++ c.cps.take k).Perm c.cps := by
      have := List.perm_append_comm (l₁ := c.cps.drop k) (l₂ := c.cps.take k)
      rwa [List.take_append_drop] at this
    have := I.upd (h' := { h with curves := h.curves.set i { c with cps := c.cps.drop k ++ c.cps.take k } }) (X := []) h1
      (c' := { c with cps := c.cps.drop k ++ c.cps.take k }) ⟨List.prefix_rfl, List.prefix_rfl⟩ (fun _ _ _ => rfl) (by simp) rfl
      (I.xf i c h1) (vs := vs.drop k ++ vs.take k)
      (readCps_grow (h := h) ⟨List.prefix_rfl, List.prefix_rfl⟩ (fun _ _ => rfl) (readCps_append (readCps_drop h2 k) (readCps_take h2 k)))
      (hp.nodup_iff.2 (I.nodup i c h1)) (fun a ha => .inl (hp.mem_iff.1 ha))
    simpa using this

theorem setXf_inv {h : Heap} {s : State} (I : Inv h s) (i : ℕ) (m : Mat3 ℝ) :
    (setXf h i m).2 = (s.step (.setXf i m)).2 ∧ Inv (setXf h i m).1 (s.step (.setXf i m)).1 := by
  rcases I.get i with ⟨h1, h2⟩ | ⟨c, vs, x, h1, h2, h3, h4, h5⟩
  · simp only [setXf, State.step, h1, h2]
    exact ⟨by first | rfl | trivial, I⟩
  · simp only [setXf, State.step, h1, h3]
    refine ⟨by first | rfl | trivial, by rw [I.xfs], I.len, ?_, ?_, I.nodup, I.disj⟩
    · intro k d hk
      obtain ⟨us, e1, e2⟩ := I.cur k d hk
      exact ⟨us, readCps_grow (h := h) ⟨List.prefix_rfl, List.prefix_rfl⟩ (fun _ _ => rfl) e1, e2⟩
    · intro k d hk
      simpa using I.xf k d hk

theorem restore_inv {h : Heap} {s : State} (I : Inv h s) (i j : ℕ) :
    (restore h i j).2 = (s.step (.restore i j)).2 ∧ Inv (restore h i j).1 (s.step (.restore i j)).1 := by
  rcases I.get i with ⟨h1, h2⟩ | ⟨c, vs, x, h1, h2, h3, h4, h5⟩
  · simp only [restore, State.step, h1, h2]
    exact ⟨by first | rfl | trivial, I⟩
  rcases I.get j with ⟨g1, g2⟩ | ⟨d, ws, y, g1, g2, g3, g4, g5⟩
  · simp only [restore, State.step, h1, h3, g1, g2]
    exact ⟨by first | rfl | trivial, I⟩
  have ex : h.xfs.length = s.xfs.length := by rw [I.xfs]
  simp only [restore, State.step, h1, h3, g1, g3, g4, g5, newXf]
  have el : (c.cps.length = d.cps.length) ↔ (vs.length = ws.length) := by rw [readCps_length h2, readCps_length g2]
  by_cases hl : c.cps.length = d.cps.length
  · rw [if_pos hl, if_pos (el.1 hl)]
    have hd : c.cps = d.cps ∨ c.cps.Disjoint d.cps := by
      by_cases hij : i = j
      · subst hij; rw [h1] at g1; cases g1; exact .inl rfl
      · exact .inr (I.disj i j c d hij h1 g1)
    obtain ⟨h', r1, r2, r3, r4, r5, r6, r7⟩ := restoreCps_ok
      (h := { h with xfs := h.xfs ++ [y], curves := h.curves.set i ⟨d.name, d.pb, d.closed, h.xfs.length, c.cps⟩ })
      (is := c.cps) (js := d.cps) (vs := ws) (I.nodup i c h1) hd hl (readCps_lt (h := h) h2)
      (readCps_grow (h := h) ⟨List.prefix_rfl, List.prefix_rfl⟩ (fun _ _ => rfl) g2)
    simp only [r1]
    refine ⟨trivial, ?_⟩
    have := I.upd (h' := h') (X := [y]) h1 (c' := ⟨d.name, d.pb, d.closed, h.xfs.length, c.cps⟩) ⟨r2.pts, r2.vecs⟩
      (fun k _ hk => r4 k hk) r6 r7 (by rw [r6]; simp) (vs := ws) r3 (I.nodup i c h1) (fun a ha => .inl ha)
    simpa [ex] using this
  · rw [if_neg hl, if_neg (fun e => hl (el.2 e))]
    refine ⟨by first | rfl | trivial, ?_⟩
    have := I.upd (h' := { h with xfs := h.xfs ++ [y], curves := h.curves.set i ⟨d.name, d.pb, d.closed, h.xfs.length, c.cps⟩ })
      (X := [y]) h1 (c' := ⟨d.name, d.pb, d.closed, h.xfs.length, c.cps⟩) ⟨List.prefix_rfl, List.prefix_rfl⟩
      (fun k _ hk => rfl) rfl rfl (by simp) (vs := vs)
      (readCps_grow (h := h) ⟨List.prefix_rfl, List.prefix_rfl⟩ (fun _ _ => rfl) h2) (I.nodup i c h1) (fun a ha => .inl ha)
    simpa [ex] using this

theorem splitCp_ok {h : Heap} {p q : ℕ} {v w : CP ℝ} (e1 : readCp h p = some v) (e2 : readCp h q = some w) :
    ∃ h1, splitCp h p q = some (h1, h.cps.length, h.cps.length + 1, h.cps.length + 2) ∧ Grow h h1 ∧
      (∀ k, k < h.cps.length → h1.cps[k]? = h.cps[k]?) ∧ h1.cps.length = h.cps.length + 3 ∧ h1.xfs = h.xfs ∧ h1.curves = h.curves ∧
      readCp h1 h.cps.length = some (bezSplit v w (1 / 2)).1 ∧ readCp h1 (h.cps.length + 1) = some (bezSplit v w (1 / 2)).2.1 ∧
      readCp h1 (h.cps.length + 2) = some (bezSplit v w (1 / 2)).2.2 := by
  obtain ⟨o, a0, a1, a2, a3, a4⟩ := readCp_some e1
  obtain ⟨o', b0, b1, b2, b3, b4⟩ := readCp_some e2
  refine ⟨{ h with
      pts := h.pts ++ [(bezSplit v w (1 / 2)).2.1.c]
      vecs := h.vecs ++ [(bezSplit v w (1 / 2)).1.dr, (bezSplit v w (1 / 2)).2.1.dl, (bezSplit v w (1 / 2)).2.1.dr,
        (bezSplit v w (1 / 2)).2.2.dl]
      cps := h.cps ++ [⟨o.c, o.dl, h.vecs.length, (bezSplit v w (1 / 2)).1.kind⟩,
        ⟨h.pts.length, h.vecs.length + 1, h.vecs.length + 2, (bezSplit v w (1 / 2)).2.1.kind⟩,
        ⟨o'.c, h.vecs.length + 3, o'.dr, (bezSplit v w (1 / 2)).2.2.kind⟩] },
    by unfold splitCp; rw [a0, b0, e1, e2], ⟨List.prefix_append _ _, List.prefix_append _ _⟩, ?_, by simp, rfl, rfl, ?_, ?_, ?_⟩
  · intro k hk
    exact List.getElem?_append_left hk
  · refine readCp_of (o := ⟨o.c, o.dl, h.vecs.length, (bezSplit v w (1 / 2)).1.kind⟩) (by simp) ?_ ?_ (by simp) rfl
    · exact pre_get (List.prefix_append _ _) a1
    · exact pre_get (List.prefix_append _ _) a2
  · exact readCp_of (o := ⟨h.pts.length, h.vecs.length + 1, h.vecs.length + 2, (bezSplit v w (1 / 2)).2.1.kind⟩) (by simp)
      (by simp) (by simp) (by simp) rfl
  · refine readCp_of (o := ⟨o'.c, h.vecs.length + 3, o'.dr, (bezSplit v w (1 / 2)).2.2.kind⟩) (by simp) ?_ (by simp) ?_ rfl
    · exact pre_get (List.prefix_append _ _) b1
    · exact pre_get (List.prefix_append _ _) b3

theorem addOne_inv {h : Heap} {s : State} (I : Inv h s) (i : ℕ) :
    (addOne h i).2 = (s.step (.addOne i)).2 ∧ Inv (addOne h i).1 (s.step (.addOne i)).1 := by
  rcases I.get i with ⟨h1, h2⟩ | ⟨c, vs, x, h1, h2, h3, h4, h5⟩
  · simp only [addOne, State.step, h1, h2]
    exact ⟨by first | rfl | trivial, I⟩
  simp only [addOne, State.step, h1, h2, h3, X7.addOne]
  have hl := readCps_length h2
  cases hm : lastMax ((iterRotate2 vs).map fun ab => (ab.1.c.sub ab.2.c).length) with
  | none => exact ⟨by first | rfl | trivial, I⟩
  | some idx =>
    simp only
    rw [hl]
    obtain ⟨L, hL⟩ : ∃ L, L = idx % c.cps.length := ⟨_, rfl⟩
    obtain ⟨R, hR⟩ : ∃ R, R = (L + 1) % c.cps.length := ⟨_, rfl⟩
    rw [← hL, ← hR]
    by_cases hn : c.cps = []
    · have hv : vs = [] := List.length_eq_zero_iff.1 (by rw [hl, hn]; rfl)
      rw [hn, hv]
      simp only [List.getElem?_nil]
      exact ⟨by first | rfl | trivial, I⟩
    have hpos : 0 < c.cps.length := List.length_pos_iff.2 hn
    have hLlt : L < c.cps.length := by rw [hL]; exact Nat.mod_lt _ hpos
    have hRlt : R < c.cps.length := by rw [hR]; exact Nat.mod_lt _ hpos
    have hp : c.cps[L]? = some c.cps[L] := List.getElem?_eq_getElem hLlt
    have hq : c.cps[R]? = some c.cps[R] := List.getElem?_eq_getElem hRlt
    obtain ⟨v, hv1, hv2⟩ := readCps_get h2 hp
    obtain ⟨w, hw1, hw2⟩ := readCps_get h2 hq
    obtain ⟨p, ep⟩ : ∃ p, p = c.cps[L] := ⟨_, rfl⟩
    obtain ⟨q, eq⟩ : ∃ q, q = c.cps[R] := ⟨_, rfl⟩
    rw [← ep] at hp hv2
    rw [← eq] at hq hw2
    rw [hp, hq, hv1, hw1]
    simp only
    obtain ⟨ha, a1, a2, a3, a4, a5, a6, a7, a8, a9⟩ := splitCp_ok hv2 hw2
    have hpl := readCp_lt hv2
    have hql := readCp_lt hw2
    obtain ⟨hb, b1, b2, b3, b4, b5, b6, b7⟩ := restoreCp_ok (h := ha) (i := p) (j := h.cps.length) (by omega) a7
    have r9 : readCp hb (h.cps.length + 2) = some (bezSplit v w (1 / 2)).2.2 := readCp_grow b2 (b4 _ (by omega)) a9
    obtain ⟨hc, c1, c2, c3, c4, c5, c6, c7⟩ := restoreCp_ok (h := hb) (i := q) (j := h.cps.length + 2) (by omega) r9
    rw [a1]
    simp only
    rw [b1]
    simp only
    rw [c1]
    simp only
    refine ⟨trivial, ?_⟩
    have hnd := I.nodup i c h1
    have lt := readCps_lt h2
    have s1 : readCps ha c.cps = some vs := readCps_grow a2 (fun k hk => a3 k (lt k hk)) h2
    have s2 : readCps hb c.cps = some (vs.set L (bezSplit v w (1 / 2)).1) := readCps_set b2 hnd hp (fun k _ hk => b4 k hk) s1 b3
    have s3 : readCps hc c.cps = some ((vs.set L (bezSplit v w (1 / 2)).1).set R (bezSplit v w (1 / 2)).2.2) :=
      readCps_set c2 hnd hq (fun k _ hk => c4 k hk) s2 c3
    have m8 : readCp hc (h.cps.length + 1) = some (bezSplit v w (1 / 2)).2.1 :=
      readCp_grow c2 (c4 _ (by omega)) (readCp_grow b2 (b4 _ (by omega)) a8)
    have hins : (c.cps.insertIdx R (h.cps.length + 1)).Perm ((h.cps.length + 1) :: c.cps) := List.perm_insertIdx _ _ (by omega)
    have := I.upd (h' := { hc with curves := hc.curves.set i { c with cps := c.cps.insertIdx R (h.cps.length + 1) } }) (X := []) h1
      (c' := { c with cps := c.cps.insertIdx R (h.cps.length + 1) })
      ⟨(a2.trans (b2.trans c2)).pts, (a2.trans (b2.trans c2)).vecs⟩
      (fun k hk hkc => by
        simp only
        rw [c4 k (by rintro rfl; exact hkc (List.mem_of_getElem? hq)), b4 k (by rintro rfl; exact hkc (List.mem_of_getElem? hp)), a3 k hk])
      (by simp [c6, b6, a5]) (by simp [c7, b7, a6]) (by simp only [c6, b6, a5]; exact I.xf i c h1)
      (readCps_grow (h := hc) ⟨List.prefix_rfl, List.prefix_rfl⟩ (fun _ _ => rfl) (readCps_insertIdx s3 m8 R))
      (hins.nodup_iff.2 (List.nodup_cons.2 ⟨fun hm => by have := lt _ hm; omega, hnd⟩))
      (fun a ha => by
        rcases List.mem_cons.1 (hins.mem_iff.1 ha) with rfl | hm
        · right; omega
        · exact .inl hm)
    simpa using this

theorem step_inv {h : Heap} {s : State} (I : Inv h s) (op : Op) :
    (step h op).2 = (s.step op).2 ∧ Inv (step h op).1 (s.step op).1 := by
  cases op with
  | make n pb c m vs => exact make_inv I n pb c m vs
  | copy i => exact copy_inv I i
  | addOne i => exact addOne_inv I i
  | restore i j => exact restore_inv I i j
  | transform i m => exact transform_inv I i m
  | reversed i => exact reversed_inv I i
  | offset i off => exact offset_inv I i off
  | turn i k => exact turn_inv I i k
  | setXf i m => exact setXf_inv I i m

theorem run_inv {h : Heap} {s : State} (I : Inv h s) (ops : List Op) :
    (run h ops).2 = (s.run ops).2 ∧ Inv (run h ops).1 (s.run ops).1 := by
  induction ops generalizing h s with
  | nil => exact ⟨by first | rfl | trivial, I⟩
  | cons op ops ih =>
    obtain ⟨e1, I1⟩ := step_inv I op
    obtain ⟨e2, I2⟩ := ih I1
    exact ⟨by simp only [run, State.run, e1, e2], I2⟩

end X7.CH
