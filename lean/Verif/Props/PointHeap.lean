import Verif.Lemmas.PointHeap

/-!
C04, C05: relative points, fixed and copied points.
-/

namespace X7.PH
set_option linter.unusedSectionVars false
variable {K : Type*} [Field K]

theorem reads_iff {h : Heap K} (hw : WF h) (i : ℕ) (hi : isBasePoint h i) (p : Pt K) : xy h i = .ok p ↔ Reads h i p := by
  induction i using Nat.strong_induction_on generalizing p with
  | _ i ih =>
    rcases point_cases hw hi with ⟨x, y, n, ho⟩ | ⟨dx, dy, b, n, ho, hb, hbp⟩ |
      ⟨r, s, n, dx, dy, b, n', ho, hr, hrr, hb, hbp⟩ | ⟨r, s, n, b, s', n', ho, hr, hrr, hb, hbp⟩
    · rw [xy_point ho]
      constructor
      · intro e; cases e; exact .point ho
      · intro e
        cases e <;> simp_all
    · rw [xy_rel ho hb]
      constructor
      · intro e
        cases hx : xy h b with
        | error _ => rw [hx] at e; cases e
        | ok q =>
          rw [hx] at e
          cases e
          have := Reads.rel ho ((ih b hb hbp q).1 hx)
          simpa [add_comm] using this
      · intro e
        cases e with
        | point h1 => simp_all
        | pcalc h1 => simp_all
        | rel h1 h2 =>
          rw [ho] at h1
          cases h1
          rw [(ih b hb hbp _).2 h2]
          simp [add_comm]
    · rw [xy_calc_rel ho hr hrr hb]
      constructor
      · intro e
        cases hx : xy h b with
        | error _ => rw [hx] at e; cases e
        | ok q =>
          rw [hx] at e
          cases e
          have := Reads.pcalc ho hrr ((ih b hb hbp q).1 hx)
          simpa [add_comm] using this
      · intro e
        cases e with
        | point h1 => simp_all
        | rel h1 => simp_all
        | pcalc h1 h2 h3 =>
          rw [ho] at h1
          cases h1
          rw [hrr] at h2
          cases h2
          rw [(ih b hb hbp _).2 h3]
          simp [add_comm]
    · rw [xy_calc_calc ho hr hrr hb]
      constructor
      · intro e
        cases hx : xy h b <;> rw [hx] at e <;> cases e
      · intro e
        cases e <;> simp_all

/-- C04: after any history of creations and mutations, the position a point reports is exactly the one given by the rules:
base plus delta, grand-base plus scale times delta, through chains of any depth. -/
theorem C04_reads (ops : List (POp K)) (i : ℕ) (hi : isBasePoint (run [] ops) i) (p : Pt K) :
    xy (run [] ops) i = .ok p ↔ Reads (run [] ops) i p :=
  reads_iff (run_wf wf_nil ops) i hi p

/-- C04: every point of every history can be read, except those with a PointCalc built on a PointCalc in their chain,
which raise `AttributeError`. -/
theorem C04_readable (ops : List (POp K)) (i : ℕ) (hi : isBasePoint (run [] ops) i) :
    (¬ Broken (run [] ops) i → ∃ p, xy (run [] ops) i = .ok p) ∧
    (Broken (run [] ops) i → xy (run [] ops) i = .error .attribute) := by
  have hw : WF (run [] ops) := run_wf wf_nil ops
  generalize run [] ops = h at *
  induction i using Nat.strong_induction_on with
  | _ i ih =>
    rcases point_cases hw hi with ⟨x, y, n, ho⟩ | ⟨dx, dy, b, n, ho, hb, hbp⟩ |
      ⟨r, s, n, dx, dy, b, n', ho, hr, hrr, hb, hbp⟩ | ⟨r, s, n, b, s', n', ho, hr, hrr, hb, hbp⟩
    · refine ⟨fun _ => ⟨_, xy_point ho⟩, ?_⟩
      intro hbr
      cases hbr <;> simp_all
    · rw [xy_rel ho hb]
      obtain ⟨h1, h2⟩ := ih b hb hbp
      constructor
      · intro hn
        obtain ⟨p, hp⟩ := h1 (fun hbr => hn (.rel ho hbr))
        exact ⟨_, by rw [hp]⟩
      · intro hbr
        have : Broken h b := by
          cases hbr with
          | pcalc e => simp_all
          | pcalcRel e => simp_all
          | rel e e' => rw [ho] at e; cases e; exact e'
        rw [h2 this]
    · rw [xy_calc_rel ho hr hrr hb]
      obtain ⟨h1, h2⟩ := ih b hb hbp
      constructor
      · intro hn
        obtain ⟨p, hp⟩ := h1 (fun hbr => hn (.pcalcRel ho hrr hbr))
        exact ⟨_, by rw [hp]⟩
      · intro hbr
        have : Broken h b := by
          cases hbr with
          | pcalc e e' => rw [ho] at e; cases e; simp_all
          | pcalcRel e e' e'' => rw [ho] at e; cases e; rw [hrr] at e'; cases e'; exact e''
          | rel e e' => simp_all
        rw [h2 this]
    · rw [xy_calc_calc ho hr hrr hb]
      obtain ⟨h1, h2⟩ := ih b hb hbp
      refine ⟨fun hn => absurd (.pcalc ho hrr) hn, fun _ => ?_⟩
      by_cases hbr : Broken h b
      · rw [h2 hbr]
      · obtain ⟨p, hp⟩ := h1 hbr
        rw [hp]

/-- C04: a VectorRelative reads as the current difference of its two points. -/
theorem C04_vector_relative (ops : List (POp K)) (i p q : ℕ) (hi : (run [] ops)[i]? = some (.vecRel p q)) (a b : Pt K)
    (ha : Reads (run [] ops) p a) (hb : Reads (run [] ops) q b) :
    xy (run [] ops) i = .ok ⟨a.x - b.x, a.y - b.y⟩ := by
  have hw : WF (run [] ops) := run_wf wf_nil ops
  have w := hw i _ hi
  rw [xy_vecRel hi w.1 w.2.1, (reads_iff hw p w.2.2.1 a).2 ha, (reads_iff hw q w.2.2.2 b).2 hb]

theorem move_aux {h : Heap K} (hw : WF h) {i : ℕ} {x y : K} {n} (hi : h[i]? = some (.point x y n)) (dx dy : K) (j : ℕ)
    (hj : isBasePoint h j) (p : Pt K) (hp : xy h j = .ok p) :
    (Depends h j i → xy (h.set i (.point (x + dx) (y + dy) n)) j = .ok ⟨p.x + dx, p.y + dy⟩) ∧
    (¬ Depends h j i → xy (h.set i (.point (x + dx) (y + dy) n)) j = .ok p) := by
  have hlt : i < h.length := (List.getElem?_eq_some_iff.1 hi).1
  have other : ∀ k, k ≠ i → (h.set i (.point (x + dx) (y + dy) n))[k]? = h[k]? :=
    fun k hk => List.getElem?_set_ne (Ne.symm hk)
  induction j using Nat.strong_induction_on generalizing p with
  | _ j ih =>
    rcases point_cases hw hj with ⟨x', y', n', ho⟩ | ⟨ex, ey, b, n', ho, hb, hbp⟩ |
      ⟨r, s, n', ex, ey, b, n'', ho, hr, hrr, hb, hbp⟩ | ⟨r, s, n', b, s', n'', ho, hr, hrr, hb, hbp⟩
    · by_cases hji : j = i
      · subst hji
        rw [hi] at ho
        cases ho
        rw [xy_point hi] at hp
        cases hp
        refine ⟨fun _ => xy_point (n := n) (by rw [List.getElem?_set_self hlt]), fun hn => absurd (.point hi) hn⟩
      · have hnd : ¬ Depends h j i := by
          intro hd
          cases hd with
          | point => exact hji rfl
          | rel e => simp_all
          | pcalc e => simp_all
        refine ⟨fun hd => absurd hd hnd, fun _ => ?_⟩
        rw [xy_point (n := n') ((other j hji).trans ho), ← hp, xy_point ho]
    · have hji : j ≠ i := by rintro rfl; rw [hi] at ho; cases ho
      rw [xy_rel ho hb] at hp
      cases hx : xy h b with
      | error e => rw [hx] at hp; cases hp
      | ok q =>
        rw [hx] at hp
        cases hp
        obtain ⟨h1, h2⟩ := ih b hb hbp q hx
        rw [xy_rel ((other j hji).trans ho) hb]
        constructor
        · intro hd
          have : Depends h b i := by
            cases hd with
            | point e => exact absurd rfl hji
            | rel e e' => rw [ho] at e; cases e; exact e'
            | pcalc e => simp_all
          rw [h1 this]
          simp only [Except.ok.injEq, Pt.mk.injEq]
          constructor <;> ring
        · intro hd
          rw [h2 (fun hd' => hd (.rel ho hd'))]
    · have hji : j ≠ i := by rintro rfl; rw [hi] at ho; cases ho
      have hri : r ≠ i := by rintro rfl; rw [hi] at hrr; cases hrr
      rw [xy_calc_rel ho hr hrr hb] at hp
      cases hx : xy h b with
      | error e => rw [hx] at hp; cases hp
      | ok q =>
        rw [hx] at hp
        cases hp
        obtain ⟨h1, h2⟩ := ih b hb hbp q hx
        rw [xy_calc_rel ((other j hji).trans ho) hr ((other r hri).trans hrr) hb]
        constructor
        · intro hd
          have : Depends h b i := by
            cases hd with
            | point e => exact absurd rfl hji
            | rel e => simp_all
            | pcalc e e' e'' => rw [ho] at e; cases e; rw [hrr] at e'; cases e'; exact e''
          rw [h1 this]
          simp only [Except.ok.injEq, Pt.mk.injEq]
          constructor <;> ring
        · intro hd
          rw [h2 (fun hd' => hd (.pcalc ho hrr hd'))]
    · rw [xy_calc_calc ho hr hrr hb] at hp
      cases hx : xy h b <;> rw [hx] at hp <;> cases hp

/-- C04: moving a plain point by `(dx, dy)` with `setxy` moves every point chained on it by exactly `(dx, dy)` and leaves
every other point where it was. -/
theorem C04_move (ops : List (POp K)) (i j : ℕ) (x y dx dy : K) (n) (hi : (run [] ops)[i]? = some (.point x y n))
    (hj : isBasePoint (run [] ops) j) (p : Pt K) (hp : xy (run [] ops) j = .ok p) :
    let h' := (step (run [] ops) (.setXY i (x + dx) (y + dy))).1
    (Depends (run [] ops) j i → xy h' j = .ok ⟨p.x + dx, p.y + dy⟩) ∧
    (¬ Depends (run [] ops) j i → xy h' j = .ok p) := by
  have := move_aux (run_wf wf_nil ops) hi dx dy j hj p hp
  simpa only [step, hi] using this

/-- C04: `PointRelative.fromxy(x, y, base)` reads as `(x, y)` when created. -/
theorem C04_fromxy (ops : List (POp K)) (x y : K) (b : ℕ) (he : (step (run [] ops) (.fromXY x y b)).2 = none) :
    xy (step (run [] ops) (.fromXY x y b)).1 (run [] ops).length = .ok ⟨x, y⟩ := by
  simp only [step] at he ⊢
  split at he
  · rename_i hb
    split at he
    · rename_i p hp
      simp only [hb, if_true, hp]
      rw [xy_rel (b := b) (n := none) (dx := x - p.x) (dy := y - p.y) (by simp) (lt_of_isBasePoint hb),
        xy_append (lt_of_isBasePoint hb), hp]
      simp
    · simp at he
  · simp at he

/-- C04: the constructor check `hasattr(base, 'base')` lets a PointCalc be built on a PointCalc, which can never be read. -/
theorem C04_calc_over_calc_counterexample :
    ∃ ops : List (POp ℚ), isBasePoint (run [] ops) 3 ∧ xy (run [] ops) 3 = .error .attribute := by
  refine ⟨[.mkPoint 1 2 none, .mkRel 3 4 0 none, .mkCalc 1 2 none, .mkCalc 2 2 none], rfl, ?_⟩
  apply (C04_readable (K := ℚ) _ 3 rfl).2
  exact .pcalc (r := 2) (s := 2) (n := none) (b := 1) (s' := 2) (n' := none) rfl rfl

example : ∃ ops : List (POp ℚ), Depends (run [] ops) 3 0 ∧ xy (run [] ops) 3 = .ok ⟨17, 24⟩ := by
  refine ⟨[.mkPoint 1 2 none, .mkRel 10 20 0 none, .mkRel 3 1 1 none, .mkCalc 2 2 none, .setXY 0 1 2], ?_, ?_⟩
  · exact .pcalc (r := 2) (s := 2) (n := none) (dx := 3) (dy := 1) (b := 1) (n' := none) rfl rfl
      (.rel (dx := 10) (dy := 20) (b := 0) (n := none) rfl (.point (x := 1) (y := 2) (n := none) rfl))
  · rw [C04_reads _ _ rfl]
    have h0 : Reads (run [] [.mkPoint 1 2 none, .mkRel 10 20 0 none, .mkRel 3 1 1 none, .mkCalc 2 2 none, .setXY 0 (1 : ℚ) 2]) 0
        ⟨1, 2⟩ := .point (n := none) rfl
    have h1 := Reads.rel (i := 1) (dx := 10) (dy := 20) (n := none) rfl h0
    have h2 := Reads.pcalc (i := 3) (r := 2) (s := 2) (n := none) (dx := 3) (dy := 1) (n' := none) rfl rfl h1
    norm_num at h2
    exact h2

/-! ### C05 -/

theorem step_get {h : Heap K} {i : ℕ} (hi : i < h.length) (op : POp K) (hm : ¬ Mutates i op) :
    (step h op).1[i]? = h[i]? ∧ i < (step h op).1.length := by
  have app : ∀ l : Heap K, (h ++ l)[i]? = h[i]? ∧ i < (h ++ l).length := fun l =>
    ⟨List.getElem?_append_left hi, by simp; omega⟩
  have st : ∀ j o, j ≠ i → (h.set j o)[i]? = h[i]? ∧ i < (h.set j o).length := fun j o hj =>
    ⟨List.getElem?_set_ne hj, by simpa using hi⟩
  have same : h[i]? = h[i]? ∧ i < h.length := ⟨rfl, hi⟩
  cases op <;> simp only [step, Mutates, not_false_iff] at hm ⊢ <;> (repeat' split) <;>
    first | exact same | exact app _ | exact st _ _ hm

theorem run_get {h : Heap K} {i : ℕ} (hi : i < h.length) (ops : List (POp K)) (hm : ∀ op ∈ ops, ¬ Mutates i op) :
    (run h ops)[i]? = h[i]? := by
  induction ops generalizing h with
  | nil => rfl
  | cons o os ih =>
    have h1 := step_get hi o (hm o (by simp))
    show (run (step h o).1 os)[i]? = _
    rw [ih h1.2 (fun op hop => hm op (by simp [hop])), h1.1]

/-- C05: `fixed()` of a readable point creates a new plain point at its position, and whatever happens later to any other
object, that point stays there. -/
theorem C05_fixed (ops later : List (POp K)) (i : ℕ) (p : Pt K) (hi : isBasePoint (run [] ops) i)
    (hp : xy (run [] ops) i = .ok p) (hm : ∀ op ∈ later, ¬ Mutates (run [] ops).length op) :
    (step (run [] ops) (.fixed i)).2 = none ∧
    xy (run (step (run [] ops) (.fixed i)).1 later) (run [] ops).length = .ok p ∧
    ∀ k, k < (run [] ops).length → xy (step (run [] ops) (.fixed i)).1 k = xy (run [] ops) k := by
  generalize run [] ops = h at *
  have hlt := lt_of_isBasePoint hi
  obtain ⟨o, ho⟩ : ∃ o, h[i]? = some o := ⟨h[i], List.getElem?_eq_getElem hlt⟩
  have hs : step h (.fixed i) = (h ++ [.point p.x p.y (fixedName (nameOf o))], none) := by
    simp only [step, ho, hp, hi, if_true]
  rw [hs]
  refine ⟨rfl, ?_, fun k hk => xy_append hk⟩
  have := run_get (h := h ++ [.point p.x p.y (fixedName (nameOf o))]) (i := h.length) (by simp) later hm
  rw [xy_point (x := p.x) (y := p.y) (n := fixedName (nameOf o)) (by rw [this]; simp)]

/-- C05: `copy()` of an unnamed plain point is equal to it, and the two are independent: later calls that do not mutate the
copy leave it where it is, and calls that do not mutate the original leave that where it is. -/
theorem C05_copy (ops later : List (POp K)) (i : ℕ) (x y : K) (hi : (run [] ops)[i]? = some (.point x y none)) :
    let h' := (step (run [] ops) (.copy i)).1
    let c := (run [] ops).length
    (step (run [] ops) (.copy i)).2 = none ∧ c ≠ i ∧ eqObj h' c i ∧
    ((∀ op ∈ later, ¬ Mutates c op) → xy (run h' later) c = .ok ⟨x, y⟩) ∧
    ((∀ op ∈ later, ¬ Mutates i op) → xy (run h' later) i = .ok ⟨x, y⟩) := by
  generalize run [] ops = h at *
  have hlt : i < h.length := (List.getElem?_eq_some_iff.1 hi).1
  have hs : step h (.copy i) = (h ++ [.point x y none], none) := by
    simp only [step, hi, copyObj]
  intro h' c
  have hc : h'[c]? = some (.point x y none) := by simp [h', c, hs]
  have hi' : h'[i]? = some (.point x y none) := by
    simp only [h', hs]; rw [List.getElem?_append_left hlt, hi]
  refine ⟨by rw [hs], by simp only [c]; omega, ?_, ?_, ?_⟩
  · rw [eqObj, hc, hi']; simp
  · intro hm
    rw [xy_point (n := none)]
    rw [run_get (by simp [h', c, hs]) later hm, hc]
  · intro hm
    rw [xy_point (n := none)]
    rw [run_get (by simp [h', hs]; omega) later hm, hi']

theorem eqObj_refl {h : Heap K} (hw : WF h) (i : ℕ) (hi : i < h.length) : eqObj h i i := by
  induction i using Nat.strong_induction_on with
  | _ i ih =>
    obtain ⟨o, ho⟩ : ∃ o, h[i]? = some o := ⟨h[i], List.getElem?_eq_getElem hi⟩
    have w := hw i o ho
    rw [eqObj, ho]
    cases o with
    | point => simp
    | vec => simp
    | rel dx dy b n => simp only [true_and, w.1, dif_pos]; exact ih b w.1 (w.1.trans hi)
    | pcalc b s n => simp only [true_and, w.1, dif_pos]; exact ih b w.1 (w.1.trans hi)
    | vecRel p q =>
      simp only [w.1, w.2.1, dif_pos]; exact ⟨ih p w.1 (w.1.trans hi), ih q w.2.1 (w.2.1.trans hi)⟩

/-- C05: `copy()` of a PointRelative or PointCalc equals the original (it shares the base). -/
theorem C05_copy_relative (ops : List (POp K)) (i : ℕ) (hi : hasBase (run [] ops) i) :
    (step (run [] ops) (.copy i)).2 = none ∧ eqObj (step (run [] ops) (.copy i)).1 (run [] ops).length i := by
  have hw : WF (run [] ops) := run_wf wf_nil ops
  generalize run [] ops = h at *
  have hlt := lt_of_hasBase hi
  have hsw := step_wf hw (.copy i)
  obtain ⟨o, ho⟩ : ∃ o, h[i]? = some o := ⟨h[i], List.getElem?_eq_getElem hlt⟩
  have w := hw i o ho
  have hs : step h (.copy i) = (h ++ [o], none) := by
    cases o <;> simp_all [step, copyObj, hasBase]
  rw [hs] at hsw ⊢
  have hc : (h ++ [o])[h.length]? = some o := by simp
  have hi' : (h ++ [o])[i]? = some o := by rw [List.getElem?_append_left hlt, ho]
  refine ⟨rfl, ?_⟩
  rw [eqObj, hc, hi']
  cases o with
  | rel dx dy b n =>
    have hb : b < h.length := w.1.trans hlt
    simp only [true_and, hb, dif_pos]
    exact eqObj_refl hsw b (by simp; omega)
  | pcalc b s n =>
    have hb : b < h.length := w.1.trans hlt
    simp only [true_and, hb, dif_pos]
    exact eqObj_refl hsw b (by simp; omega)
  | _ => simp_all [hasBase]

/-- C05 (false for named points): the copy of a named plain point has no name and is not equal to the original. -/
theorem C05_copy_named_counterexample :
    ∃ ops : List (POp ℚ), ∃ i, ¬ eqObj (step (run [] ops) (.copy i)).1 (run [] ops).length i ∧
      (run [] ops)[i]? = some (.point 1 2 (some "p")) := by
  refine ⟨[.mkPoint 1 2 (some "p")], 0, ?_, rfl⟩
  have hs : (step (run [] [.mkPoint (1 : ℚ) 2 (some "p")]) (.copy 0)).1 = [.point 1 2 (some "p"), .point 1 2 none] := rfl
  rw [hs, eqObj]
  simp [run, step]

end X7.PH
