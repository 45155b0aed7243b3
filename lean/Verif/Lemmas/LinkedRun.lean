import Verif.Lemmas.LinkedAll

namespace X7.LK
open PH

theorem restoreCp_err {w : World} (i j : ℕ) (hne : ¬ (i < w.cps.length ∧ j < w.cps.length)) : ∃ e, restoreCp w i j = .error e := by
  simp only [restoreCp]
  cases hj : w.cps[j]? with
  | none => exact ⟨_, rfl⟩
  | some o =>
    have hj' : j < w.cps.length := (List.getElem?_eq_some_iff.1 hj).1
    have hi : w.cps[i]? = none := List.getElem?_eq_none (by omega)
    exact ⟨.attribute, by simp only [restoreFrom, hi]⟩

/-- Every call keeps the references right; a call which is not on points only adds objects and changes only the control points it
touches; curves stay what they are unless they are restored or get another control point. -/
theorem step_all {w : World} (k : Ok w) (op : Op) :
    Ok (step w op).1 ∧ ((∀ o, op ≠ .pts o) → Ext w (step w op).1 (fun p => Touches w p op)) ∧
      ∀ j < w.curves.length, (∀ m, op ≠ .restore j m) → op ≠ .addOne j → (step w op).1.curves[j]? = w.curves[j]? := by
  cases op with
  | pts o =>
    refine ⟨⟨step_wf k.wf o, fun i c hc => ?_, k.curve⟩, fun h => absurd rfl (h o), fun _ _ _ _ => by first | rfl | trivial⟩
    obtain ⟨a, b, c⟩ := k.cp i c hc
    exact ⟨step_base o a, step_isVec o b, step_isVec o c⟩
  | mkCp c dl dr kind =>
    simp only [step]
    split
    · rename_i h
      exact ⟨k.push h, fun _ => ⟨⟨[], by simp⟩, by simp, fun p hp _ => List.getElem?_append_left hp⟩, fun _ _ _ _ => by first | rfl | trivial⟩
    · exact ⟨k, fun _ => Ext.refl w _, fun _ _ _ _ => by first | rfl | trivial⟩
  | mkCurve closed cps =>
    simp only [step]
    split
    · rename_i h
      exact ⟨k.addCurve h, fun _ => Ext.curves w _ _, fun j hj _ _ => List.getElem?_append_left hj⟩
    · exact ⟨k, fun _ => Ext.refl w _, fun _ _ _ _ => by first | rfl | trivial⟩
  | copyCp i =>
    simp only [step, copyCp]
    cases hi : w.cps[i]? with
    | none => exact ⟨k, fun _ => Ext.refl w _, fun _ _ _ _ => by first | rfl | trivial⟩
    | some o =>
      obtain ⟨l, o', e, hw, C⟩ := copyParts_ok k.wf (k.ref hi)
      simp only [e]
      exact ⟨(k.grow hw).push C.ok, fun _ => ⟨⟨l, rfl⟩, by simp, fun p hp _ => List.getElem?_append_left hp⟩, fun _ _ _ _ => by first | rfl | trivial⟩
  | restoreCp i j =>
    simp only [step]
    by_cases hij : i < w.cps.length ∧ j < w.cps.length
    · obtain ⟨o, ho⟩ : ∃ o, w.cps[j]? = some o := ⟨_, List.getElem?_eq_getElem hij.2⟩
      obtain ⟨w', l, o', e1, e2, C, k', E⟩ := restoreCp_ok k hij.1 ho
      simp only [e1]
      exact ⟨k', fun _ => E.mono fun p hp => hp.symm, fun j _ _ _ => by rw [e2]⟩
    · obtain ⟨e, he⟩ := restoreCp_err i j hij
      simp only [he]
      exact ⟨k, fun _ => Ext.refl w _, fun _ _ _ _ => by first | rfl | trivial⟩
  | copy i =>
    simp only [step, copy]
    cases hi : w.curves[i]? with
    | none => exact ⟨k, fun _ => Ext.refl w _, fun _ _ _ _ => by first | rfl | trivial⟩
    | some c =>
      cases hv : readCps w c.cps with
      | error e =>
        simp only [fixedCps_error k c.cps hv (k.curve i c hi)]
        exact ⟨k, fun _ => Ext.refl w _, fun _ _ _ _ => by first | rfl | trivial⟩
      | ok vs =>
        obtain ⟨w', js, e, M⟩ := fixedCps_made k c.cps hv (k.curve i c hi)
        simp only [e]
        refine ⟨M.ok.addCurve fun p hp => (M.lt p hp).2, fun _ => (M.ext _).trans (Ext.curves w' _ _) (fun _ h => h) (fun _ h => h), ?_⟩
        intro j hj _ _
        rw [M.curves, List.getElem?_append_left hj]
  | restore i j =>
    simp only [step, restore]
    cases hi : w.curves[i]? with
    | none => exact ⟨k, fun _ => Ext.refl w _, fun _ _ _ _ => by first | rfl | trivial⟩
    | some c =>
      cases hj : w.curves[j]? with
      | none => exact ⟨k, fun _ => Ext.refl w _, fun _ _ _ _ => by first | rfl | trivial⟩
      | some d =>
        simp only
        have k1 : Ok { w with curves := w.curves.set i ⟨d.closed, c.cps⟩ } := k.setCurve (k.curve i c hi)
        have hcur : ∀ m < w.curves.length, (∀ n, Op.restore i j ≠ .restore m n) → (w.curves.set i ⟨d.closed, c.cps⟩)[m]? = w.curves[m]? := by
          intro m _ hm
          exact List.getElem?_set_ne (by rintro rfl; exact hm j rfl)
        split
        · obtain ⟨-, b2, b3, b4, -⟩ := restoreCps_ok k1 c.cps d.cps (k.curve i c hi) (k.curve j d hj)
          refine ⟨b2, fun _ => ?_, fun m hm h1 _ => by rw [b4]; exact hcur m hm h1⟩
          exact (Ext.curves w _ _).trans b3 (fun _ h => h) (fun p hp => ⟨c, hi, hp⟩)
        · exact ⟨k1, fun _ => Ext.curves w _ _, fun m hm h1 _ => hcur m hm h1⟩
  | transform i m =>
    simp only [step, transform]
    cases hi : w.curves[i]? with
    | none => exact ⟨k, fun _ => Ext.refl w _, fun _ _ _ _ => by first | rfl | trivial⟩
    | some c =>
      simp only
      cases hv : readCps w c.cps with
      | error e => exact ⟨k, fun _ => Ext.refl w _, fun _ _ _ _ => by first | rfl | trivial⟩
      | ok vs =>
        have M := newCps_made k (vs.map fun v => v.transformLin m.apply)
        refine ⟨M.ok.addCurve fun p hp => (M.lt p hp).2, fun _ => (M.ext _).trans (Ext.curves _ _ _) (fun _ h => h) (fun _ h => h), ?_⟩
        intro j hj _ _
        show ((newCps w _).1.curves ++ _)[j]? = _
        rw [M.curves, List.getElem?_append_left hj]
  | reversed i =>
    simp only [step, reversed]
    cases hi : w.curves[i]? with
    | none => exact ⟨k, fun _ => Ext.refl w _, fun _ _ _ _ => by first | rfl | trivial⟩
    | some c =>
      obtain ⟨w', js, e, k', E, e2, -, -, hlt, -⟩ := reverseCps_ok k c.cps.reverse (fun p hp => k.curve i c hi p (List.mem_reverse.1 hp))
      simp only [e]
      refine ⟨k'.addCurve fun p hp => (hlt p hp).2, fun _ => (E _).trans (Ext.curves w' _ _) (fun _ h => h) (fun _ h => h), ?_⟩
      intro j hj _ _
      rw [e2, List.getElem?_append_left hj]
  | addOne i =>
    simp only [step]
    rcases addOne_shape k i with ⟨e, he⟩ | ⟨c, left, right, p, q, o1, o2, m, -, A, -⟩
    · rw [he]; exact ⟨k, fun _ => Ext.refl w _, fun _ _ _ _ => by first | rfl | trivial⟩
    · refine ⟨A.ok, fun _ => A.ext.mono ?_, fun j hj _ hne => ?_⟩
      · rintro a (rfl | rfl)
        · exact ⟨c, A.here, List.mem_of_getElem? A.lt⟩
        · exact ⟨c, A.here, List.mem_of_getElem? A.rt⟩
      · rw [A.curves]
        exact List.getElem?_set_ne (by rintro rfl; exact hne rfl)

theorem run_ok {w : World} (k : Ok w) (ops : List Op) : Ok (run w ops) := by
  induction ops generalizing w with
  | nil => exact k
  | cons o os ih => exact ih (step_all k o).1

theorem ok_run (ops : List Op) : Ok (run World.empty ops) := run_ok ok_empty ops

theorem run_cons (w : World) (op : Op) (ops : List Op) : run w (op :: ops) = run (step w op).1 ops := rfl

theorem run_append (w : World) (a b : List Op) : run w (a ++ b) = run (run w a) b := by simp [run]

/-- What a control point reads depends only on the objects it uses. -/
theorem step_readCp {w : World} (k : Ok w) (op : Op) {p : ℕ} (hp : p < w.cps.length) (ht : ¬ Touches w p op)
    (hs : ∀ j, CpUses w p j → ¬ Sets j op) : (step w op).1.cps[p]? = w.cps[p]? ∧ readCp (step w op).1 p = readCp w p := by
  by_cases hpt : ∃ o, op = .pts o
  · obtain ⟨o, rfl⟩ := hpt
    refine ⟨rfl, ?_⟩
    obtain ⟨c, hc⟩ : ∃ c, w.cps[p]? = some c := ⟨_, List.getElem?_eq_getElem hp⟩
    have r := k.ref hc
    rw [readCp_at (w := w) hc, readCp_at (w := (step w (.pts o)).1) hc]
    show readObj (PH.step w.pts o).1 c = _
    apply readObj_uses
    intro j hj
    have hlt : j < w.pts.length := by
      rcases hj with h | h | h
      · exact lt_of_le_of_lt (uses_lt k.wf h) (lt_of_isBasePoint r.1)
      · exact lt_of_le_of_lt (uses_lt k.wf h) (lt_of_isVec r.2.1)
      · exact lt_of_le_of_lt (uses_lt k.wf h) (lt_of_isVec r.2.2)
    exact (step_get hlt o (hs j ⟨c, hc, hj⟩)).1
  · have E := (step_all k op).2.1 (fun o e => hpt ⟨o, e⟩)
    exact ⟨E.cps p hp ht, E.readCp k hp ht⟩

/-! Moving a plain point. -/

theorem follow_pos {h : Heap ℝ} {b i : ℕ} (hd : Depends h i b) : follow h b i = 1 := if_pos hd

theorem follow_neg {h : Heap ℝ} {b i : ℕ} (hd : ¬ Depends h i b) : follow h b i = 0 := if_neg hd

theorem move_pt {h : Heap ℝ} (hw : WF h) {b : ℕ} {x y : ℝ} {n} (hb : h[b]? = some (.point x y n)) (dx dy : ℝ) {i : ℕ}
    (hi : isBasePoint h i) {p : Pt ℝ} (hp : xy h i = .ok p) :
    xy (h.set b (.point (x + dx) (y + dy) n)) i = .ok ⟨p.x + follow h b i * dx, p.y + follow h b i * dy⟩ := by
  have := move_aux hw hb dx dy i hi p hp
  by_cases hd : Depends h i b
  · rw [this.1 hd, follow_pos hd]; simp
  · rw [this.2 hd, follow_neg hd]; simp

theorem move_vec {h : Heap ℝ} (hw : WF h) {b : ℕ} {x y : ℝ} {n} (hb : h[b]? = some (.point x y n)) (dx dy : ℝ) {i : ℕ}
    (hi : isVec h i) {v : Vec ℝ} (hv : readVec h i = .ok v) :
    readVec (h.set b (.point (x + dx) (y + dy) n)) i = .ok ⟨v.x + swing h b i * dx, v.y + swing h b i * dy⟩ := by
  rw [readVec_ok] at hv ⊢
  rcases vec_cases hw hi with ⟨x', y', e⟩ | ⟨p, q, e, hp, hq, bp, bq⟩
  · have hne : b ≠ i := by rintro rfl; rw [hb] at e; cases e
    have e' : (h.set b (.point (x + dx) (y + dy) n))[i]? = some (.vec x' y') := by rw [List.getElem?_set_ne hne]; exact e
    rw [xy_vec e] at hv
    cases hv
    rw [xy_vec e']
    simp [swing, e]
  · have hne : b ≠ i := by rintro rfl; rw [hb] at e; cases e
    have e' : (h.set b (.point (x + dx) (y + dy) n))[i]? = some (.vecRel p q) := by rw [List.getElem?_set_ne hne]; exact e
    rw [xy_vecRel e hp hq] at hv
    cases h1 : xy h p with
    | error a => rw [h1] at hv; simp at hv
    | ok P =>
      rw [h1] at hv
      simp only at hv
      cases h2 : xy h q with
      | error a => rw [h2] at hv; simp at hv
      | ok Q =>
        rw [h2] at hv
        simp only [Except.ok.injEq, Pt.mk.injEq] at hv
        rw [xy_vecRel e' hp hq, move_pt hw hb dx dy bp h1, move_pt hw hb dx dy bq h2]
        simp only [swing, e, Except.ok.injEq, Pt.mk.injEq]
        rw [← hv.1, ← hv.2]
        constructor <;> ring

theorem move_obj {h : Heap ℝ} (hw : WF h) {b : ℕ} {x y : ℝ} {n} (hb : h[b]? = some (.point x y n)) (dx dy : ℝ) {o : Cp}
    (r : RefOk h o) {v : CP ℝ} (hv : readObj h o = .ok v) :
    readObj (h.set b (.point (x + dx) (y + dy) n)) o = .ok
      ⟨⟨v.c.x + follow h b o.c * dx, v.c.y + follow h b o.c * dy⟩, ⟨v.dl.x + swing h b o.dl * dx, v.dl.y + swing h b o.dl * dy⟩,
       ⟨v.dr.x + swing h b o.dr * dx, v.dr.y + swing h b o.dr * dy⟩, v.kind⟩ := by
  obtain ⟨h1, h2, h3, h4⟩ := readObj_ok.1 hv
  exact readObj_ok.2 ⟨move_pt hw hb dx dy r.1 h1, move_vec hw hb dx dy r.2.1 h2, move_vec hw hb dx dy r.2.2 h3, h4⟩

/-! Plain objects. -/

theorem uses_plain {h : Heap ℝ} {i j : ℕ} (hp : (∃ x y m, h[i]? = some (.point x y m)) ∨ ∃ x y, h[i]? = some (.vec x y))
    (hu : Uses h i j) : j = i := by
  rcases hp with ⟨x, y, m, e⟩ | ⟨x, y, e⟩ <;> cases hu <;> first | rfl | simp_all

theorem depends_plain {h : Heap ℝ} {i b : ℕ} (hp : ∃ x y m, h[i]? = some (.point x y m)) (hd : Depends h i b) : b = i := by
  obtain ⟨x, y, m, e⟩ := hp
  cases hd <;> first | rfl | simp_all

theorem swing_plain {h : Heap ℝ} {i b : ℕ} (hp : ∃ x y, h[i]? = some (.vec x y)) : swing h b i = 0 := by
  obtain ⟨x, y, e⟩ := hp
  simp only [swing, e]

theorem PlainAt.stays {w : World} {n b p : ℕ} {o : Cp} (ho : w.cps[p]? = some o) (P : PlainAt w.pts n o) (hb : b < n) : Stays w b p := by
  obtain ⟨a, -, -, d, e, f⟩ := P
  exact ⟨o, ho, fun hd => by have := depends_plain d hd; omega, swing_plain e, swing_plain f⟩

end X7.LK
