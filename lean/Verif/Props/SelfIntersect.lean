import Verif.Lemmas.SelfIntersect

/-!
C65: what `bez_self_intersect` returns.
-/

noncomputable section

namespace X7.Bzi

open Classical

theorem follow_zip {A Z : Pt ℝ} : ∀ {cs : List (CP ℝ × CP ℝ)} {ixs : List (List (ℝ × Pt ℝ))}, ixs.length = cs.length →
    Follow A Z (cs.map fun c => (c, [])) → Follow A Z (cs.zip ixs)
  | [], [], _, h => h
  | c :: cs, x :: ixs, hl, h => ⟨h.1, follow_zip (by simpa using hl) h.2⟩

theorem follow_append {A B Z : Pt ℝ} : ∀ {cs cs' : List ((CP ℝ × CP ℝ) × List (ℝ × Pt ℝ))}, Follow A B cs → Follow B Z cs' →
    Follow A Z (cs ++ cs')
  | [], _, h, h' => by obtain rfl : A = B := h; exact h'
  | _ :: _, _, h, h' => ⟨h.1, follow_append h.2 h'⟩

theorem follow_curves (hit : CP ℝ → CP ℝ → Bool) (z : CP ℝ) : ∀ (p : CP ℝ) (l : List (CP ℝ)),
    Follow p.c z.c ((((p :: l).zip (l ++ [z])).flatMap fun ab =>
      if hit ab.1 ab.2 then
        let s := bezSplit ab.1 ab.2 (1 / 2)
        [(s.1, s.2.1), (s.2.1, s.2.2)]
      else [ab]).map fun c => (c, []))
  | p, [] => by
    simp only [List.nil_append, List.zip_cons_cons, List.zip_nil_right, List.flatMap_cons, List.flatMap_nil, List.append_nil]
    split
    · exact ⟨rfl, rfl, rfl⟩
    · exact ⟨rfl, rfl⟩
  | p, q :: l => by
    rw [List.cons_append, List.zip_cons_cons, List.flatMap_cons, List.map_append]
    refine follow_append (B := q.c) ?_ (follow_curves hit z q l)
    split
    · exact ⟨rfl, rfl, rfl⟩
    · exact ⟨rfl, rfl⟩

theorem follow_all (hit : CP ℝ → CP ℝ → Bool) (p : CP ℝ) (l : List (CP ℝ)) (ixs : List (List (ℝ × Pt ℝ)))
    (h : ixs.length = (allCurves hit (p :: l)).length) : Follow p.c p.c ((allCurves hit (p :: l)).zip ixs) := by
  refine follow_zip h ?_
  have := follow_curves hit p p l
  simpa [allCurves, iterRotate2] using this

theorem passed_nil {curves : List ((CP ℝ × CP ℝ) × List (ℝ × Pt ℝ))} (h : passed curves = []) : ∀ c ∈ curves, c.2 = [] := by
  intro c hc
  have := List.flatMap_eq_nil_iff.1 h c hc
  rw [List.map_eq_nil_iff] at this
  have hp := sortIxs_perm c.2
  rw [this] at hp
  exact List.nil_perm.1 hp

/-- The intersections of every segment are used in the order of their parameters. -/
theorem sortIxs_sorted (ixs : List (ℝ × Pt ℝ)) : ((sortIxs ixs).map Prod.fst).Pairwise (· ≤ ·) := by
  rw [List.pairwise_map]
  refine List.Pairwise.imp (R := fun a b => ixLe a b = true) ?_ (List.pairwise_mergeSort ?_ ?_ ixs)
  · intro a b h
    simp only [ixLe, decide_eq_true_eq] at h
    rcases h with h | h
    · exact h.le
    · exact h.1.le
  · intro a b c h1 h2
    simp only [ixLe, decide_eq_true_eq] at h1 h2 ⊢
    rcases h1 with h1 | ⟨h1, h1'⟩
    · rcases h2 with h2 | ⟨h2, h2'⟩
      · exact .inl (h1.trans h2)
      · exact .inl (h2 ▸ h1)
    · rcases h2 with h2 | ⟨h2, h2'⟩
      · exact .inl (h1 ▸ h2)
      · refine .inr ⟨h1.trans h2, ?_⟩
        rcases h1' with h1' | ⟨h1', h3⟩
        · rcases h2' with h2' | ⟨h2', h4⟩
          · exact .inl (h1'.trans h2')
          · exact .inl (h2' ▸ h1')
        · rcases h2' with h2' | ⟨h2', h4⟩
          · exact .inl (h1' ▸ h2')
          · exact .inr ⟨h1'.trans h2', h3.trans h4⟩
  · intro a b
    simp only [ixLe, Bool.or_eq_true, decide_eq_true_eq]
    rcases lt_trichotomy a.1 b.1 with h | h | h
    · exact .inl (.inl h)
    · rcases lt_trichotomy a.2.x b.2.x with h' | h' | h'
      · exact .inl (.inr ⟨h, .inl h'⟩)
      · rcases le_total a.2.y b.2.y with h3 | h3
        · exact .inl (.inr ⟨h, .inr ⟨h', h3⟩⟩)
        · exact .inr (.inr ⟨h.symm, .inr ⟨h'.symm, h3⟩⟩)
      · exact .inr (.inr ⟨h.symm, .inl h'⟩)
    · exact .inr (.inl h)

theorem arcs_of {curves : List ((CP ℝ × CP ℝ) × List (ℝ × Pt ℝ))} {g : Graph (Pt ℝ) (List (CP ℝ))} {w : List (Pt ℝ)}
    {pieces : List (Poly4 ℝ)} (hw : g.Word w) (hft : ∀ e ∈ g.edges, FromTo e.cps e.left e.right)
    (hs : (g.edges.flatMap fun e => openSegs' e.cps) ~r pieces) : Arcs pieces w (g.edges.map fun e => openSegs' e.cps) := by
  refine ⟨by simpa [List.flatMap] using hs, by simpa using hw.len, ?_, ?_⟩
  · intro i hi
    obtain ⟨e, h1, h2, h3, _⟩ := hw.edge i hi
    obtain ⟨⟨S, k1, k2⟩, _⟩ := segs_ends (hft e (List.mem_of_getElem? h1))
    exact ⟨S, by simp [h1, k1], by rw [h2, k2]⟩
  · intro i hi
    obtain ⟨e, h1, h2, h3, _⟩ := hw.edge i hi
    obtain ⟨_, ⟨S, k1, k2⟩⟩ := segs_ends (hft e (List.mem_of_getElem? h1))
    exact ⟨S, by simp [h1, k1], by rw [h3, k2]⟩

theorem perm_map_reverse {loops : List (List ℕ)} : (loops.map List.reverse).flatten.Perm loops.flatten := by
  induction loops with
  | nil => rfl
  | cons l loops ih =>
    rw [List.map_cons, List.flatten_cons, List.flatten_cons]
    exact (List.reverse_perm l).append ih

theorem loops_of {curves : List ((CP ℝ × CP ℝ) × List (ℝ × Pt ℝ))} (ha : Apart curves) {g : Graph (Pt ℝ) (List (CP ℝ))}
    (hw : g.Word (passed curves)) (hft : ∀ e ∈ g.edges, FromTo e.cps e.left e.right) {loops : List (List ℕ)} {out : List (List (CP ℝ))}
    (h1 : loops.flatten.Perm (List.range g.edges.length)) (h2 : ∀ l ∈ loops, g.IsLoop l)
    (h3 : List.Forall₂ (fun l c => joinLoop (l.filterMap fun i => g.edges[i]?) = .ok c) loops out) :
    Loops (passed curves) (g.edges.map fun e => openSegs' e.cps) out := by
  refine ⟨loops.map List.reverse, ?_, ?_⟩
  · rw [List.length_map]
    exact perm_map_reverse.trans h1
  · rw [List.forall₂_map_left_iff]
    clear h1
    induction h3 with
    | nil => exact .nil
    | @cons l c loops cs h4 _ ih =>
      refine .cons ?_ (ih fun l hl => h2 l (by simp [hl]))
      have hl := h2 l (by simp)
      obtain ⟨r, k1, k2⟩ := loop_join ha hw hft hl
      rw [h4, Except.ok.injEq] at k1
      subst k1
      refine ⟨by simpa using hl.nonempty, ?_, ?_⟩
      · have hn := from_nodup hl
        have e : l.map g.from = l.map fun i => (passed curves)[i]? :=
          List.map_congr_left fun i hi => Word.from_eq hw (by rw [← hw.len]; exact hl.edges i hi)
        rw [e] at hn
        rw [List.map_reverse, List.nodup_reverse]
        exact hn
      · rw [← List.filterMap_reverse, flatMap_get] at k2
        exact k2

/-- C65: with the intersections found exactly and different ones at least 1e-11 apart, `bez_self_intersect` either fails with
AttributeError or returns closed curves which are made of the arcs of the original curve between its intersections: every arc is
used exactly once, in its original direction, and none of the returned curves passes an intersection twice. -/
theorem C65_result (hit : CP ℝ → CP ℝ → Bool) (ixs : List (List (ℝ × Pt ℝ))) (cps : List (CP ℝ))
    (hlen : ixs.length = (allCurves hit cps).length) (he : Exact ((allCurves hit cps).zip ixs))
    (ha : Apart ((allCurves hit cps).zip ixs)) (hne : ∃ l ∈ ixs, l ≠ []) :
    match selfIntersect hit ixs cps with
    | .error e => e = .attribute
    | .ok out => ∃ pieces arcs,
        List.Forall₂ (fun c ps => Pieces (seg c.1.1 c.1.2) ((sortIxs c.2).map Prod.fst) ps) ((allCurves hit cps).zip ixs) pieces ∧
        Arcs pieces.flatten (passed ((allCurves hit cps).zip ixs)) arcs ∧
        Loops (passed ((allCurves hit cps).zip ixs)) arcs out := by
  set curves := (allCurves hit cps).zip ixs with hcurves
  have hno : ¬∀ c ∈ curves, c.2 = [] := by
    obtain ⟨l, hl, hl'⟩ := hne
    intro h
    obtain ⟨i, hi, rfl⟩ := List.getElem_of_mem hl
    refine hl' (h ((allCurves hit cps)[i]'(by omega), ixs[i]) ?_)
    rw [hcurves, ← List.getElem_zip (h := by rw [List.length_zip]; omega)]
    exact List.getElem_mem _
  have hp : passed curves ≠ [] := fun h => hno (passed_nil h)
  cases cps with
  | nil =>
    exfalso
    apply hno
    simp [hcurves, allCurves, iterRotate2]
  | cons p l =>
    obtain ⟨g, pieces, h1, h2, h3, h4, h5⟩ := graphOf_ok he (follow_all hit p l ixs hlen) hp
    have hwalk := C65_walk g (Word.complete h2) joinLoop
    rw [selfIntersect]
    simp only [← hcurves]
    rw [if_neg hno, h1]
    simp only
    cases hr : g.walk joinLoop ∅ [] with
    | error e =>
      rw [hr] at hwalk
      rcases hwalk with h | ⟨l, hl, hj⟩
      · exact h
      · obtain ⟨r, k1, _⟩ := loop_join ha h2 h3 hl
        rw [hj] at k1
        simp at k1
    | ok out =>
      rw [hr] at hwalk
      obtain ⟨loops, k1, k2, k3⟩ := hwalk
      exact ⟨pieces, _, h5, arcs_of (curves := curves) h2 h3 h4, loops_of ha h2 h3 k1 k2 k3⟩

/-- C65: it does not fail when the curve passes every intersection exactly twice, once at an even and once at an odd place. (Gauss: this
holds for every closed plane curve all of whose self-intersections are crossings of two branches.) -/
theorem C65_result_ok (hit : CP ℝ → CP ℝ → Bool) (ixs : List (List (ℝ × Pt ℝ))) (cps : List (CP ℝ))
    (hlen : ixs.length = (allCurves hit cps).length) (he : Exact ((allCurves hit cps).zip ixs))
    (ha : Apart ((allCurves hit cps).zip ixs)) (hw : Alternating (passed ((allCurves hit cps).zip ixs))) :
    ∃ out, selfIntersect hit ixs cps = .ok out := by
  set curves := (allCurves hit cps).zip ixs with hcurves
  rw [selfIntersect]
  simp only [← hcurves]
  by_cases hno : ∀ c ∈ curves, c.2 = []
  · rw [if_pos hno]; exact ⟨_, rfl⟩
  · rw [if_neg hno]
    have hp : passed curves ≠ [] := fun h => hno (passed_nil h)
    cases cps with
    | nil =>
      exfalso
      apply hno
      simp [hcurves, allCurves, iterRotate2]
    | cons p l =>
      obtain ⟨g, pieces, h1, h2, h3, h4, h5⟩ := graphOf_ok he (follow_all hit p l ixs hlen) hp
      rw [h1]
      simp only
      exact C65_walk_alternating h2 hw joinLoop fun l hl => (loop_join ha h2 h3 hl).imp fun _ h => h.1

/-- C65: a curve without intersections gives no curves at all. -/
theorem C65_none (hit : CP ℝ → CP ℝ → Bool) (ixs : List (List (ℝ × Pt ℝ))) (cps : List (CP ℝ)) (h : ∀ l ∈ ixs, l = []) :
    selfIntersect hit ixs cps = .ok [] := by
  rw [selfIntersect, if_pos]
  intro c hc
  exact h c.2 (List.of_mem_zip hc).2

/-! ### The same points -/

theorem trace_congr {a b : List (Poly4 ℝ)} (h : ∀ S, S ∈ a ↔ S ∈ b) : Morph.trace a = Morph.trace b := by
  ext p
  simp only [Morph.trace, Set.mem_ofPred_eq, h]

theorem pieces_trace (S : Poly4 ℝ) : ∀ (ts : List ℝ) (t : ℝ) (pieces : List (Poly4 ℝ)), (t :: ts).Pairwise (· ≤ ·) →
    (∀ s ∈ t :: ts, s ≤ 1) →
    List.Forall₂ (fun (ab : ℝ × ℝ) P => ∀ u, P.at' u = S.at' (ab.1 + u * (ab.2 - ab.1))) ((t :: ts).zip (ts ++ [1])) pieces →
    ∀ p, (∃ P ∈ pieces, ∃ u, 0 ≤ u ∧ u ≤ 1 ∧ P.at' u = p) ↔ ∃ s, t ≤ s ∧ s ≤ 1 ∧ S.at' s = p
  | ts, t, pieces, hs, h1, hf, p => by
    have part : ∀ {a b : ℝ} {P : Poly4 ℝ}, a ≤ b → (∀ u, P.at' u = S.at' (a + u * (b - a))) →
        ((∃ u, 0 ≤ u ∧ u ≤ 1 ∧ P.at' u = p) ↔ ∃ s, a ≤ s ∧ s ≤ b ∧ S.at' s = p) := by
      intro a b P hab hP
      constructor
      · rintro ⟨u, h2, h3, h4⟩
        refine ⟨a + u * (b - a), ?_, ?_, by rw [← hP]; exact h4⟩ <;> nlinarith
      · rintro ⟨s, h2, h3, h4⟩
        rcases hab.eq_or_lt with rfl | hlt
        · refine ⟨0, le_rfl, by norm_num, ?_⟩
          rw [hP, ← h4]; congr 1; linarith
        · have hd : 0 < b - a := by linarith
          refine ⟨(s - a) / (b - a), div_nonneg (by linarith) hd.le, (div_le_one hd).2 (by linarith), ?_⟩
          rw [hP, ← h4]; congr 1; field_simp; ring
    cases ts with
    | nil =>
      cases hf with
      | cons h hn =>
        cases hn
        have := part (h1 t (by simp)) h
        simpa using this
    | cons t' ts =>
      have hs' := List.pairwise_cons.1 hs
      have hle : t ≤ t' := hs'.1 t' (by simp)
      cases hf with
      | @cons _ P _ ps h hn =>
        have ih := pieces_trace S ts t' ps hs'.2 (fun s hs => h1 s (List.mem_cons_of_mem _ hs)) hn p
        have h2 := part hle h
        constructor
        · rintro ⟨Q, hQ, hu⟩
          rcases List.mem_cons.1 hQ with rfl | hQ
          · obtain ⟨s, k1, k2, k3⟩ := h2.1 hu
            exact ⟨s, k1, k2.trans (h1 t' (by simp)), k3⟩
          · obtain ⟨s, k1, k2, k3⟩ := ih.1 ⟨Q, hQ, hu⟩
            exact ⟨s, hle.trans k1, k2, k3⟩
        · rintro ⟨s, k1, k2, k3⟩
          rcases le_total s t' with hst | hst
          · exact ⟨P, by simp, h2.2 ⟨s, k1, hst, k3⟩⟩
          · obtain ⟨Q, hQ, hu⟩ := ih.2 ⟨s, hst, k2, k3⟩
            exact ⟨Q, by simp [hQ], hu⟩

theorem pieces_trace_all {curves : List ((CP ℝ × CP ℝ) × List (ℝ × Pt ℝ))} {pieces : List (List (Poly4 ℝ))} (he : Exact curves)
    (h : List.Forall₂ (fun c ps => Pieces (seg c.1.1 c.1.2) ((sortIxs c.2).map Prod.fst) ps) curves pieces) :
    Morph.trace pieces.flatten = Morph.trace (curves.map fun c => seg c.1.1 c.1.2) := by
  ext p
  simp only [Morph.trace, Set.mem_ofPred_eq]
  induction h with
  | nil => simp
  | @cons c ps curves pieces h1 _ ih =>
    have hc := he c (by simp)
    have hs : ∀ s ∈ (sortIxs c.2).map Prod.fst, 0 ≤ s ∧ s ≤ 1 := by
      intro s hs
      obtain ⟨x, hx, rfl⟩ := List.mem_map.1 hs
      have := hc x ((sortIxs_perm c.2).mem_iff.1 hx)
      exact ⟨this.1, this.2.1.le⟩
    have k := pieces_trace (seg c.1.1 c.1.2) _ 0 ps (List.pairwise_cons.2 ⟨fun s h => (hs s h).1, sortIxs_sorted c.2⟩) (by
      intro s h
      rcases List.mem_cons.1 h with rfl | h
      · norm_num
      · exact (hs s h).2) h1 p
    have ih' := ih fun c hc => he c (by simp [hc])
    rw [List.flatten_cons, List.map_cons]
    simp only [List.mem_append, List.mem_cons, or_and_right, exists_or]
    refine or_congr ?_ ih'
    rw [k]
    simp

theorem trace_allCurves (hit : CP ℝ → CP ℝ → Bool) (cps : List (CP ℝ)) :
    Morph.trace ((allCurves hit cps).map fun c => seg c.1 c.2) = Morph.trace (closedSegs cps) := by
  have hcl : closedSegs cps = (iterRotate2 cps).map fun c => seg c.1 c.2 := by
    simp only [iterRotate2, closedSegs]
    rw [← List.map_uncurry_zip_eq_zipWith]
    rfl
  rw [hcl, allCurves]
  ext p
  simp only [Morph.trace, Set.mem_ofPred_eq, List.mem_map, List.mem_flatMap]
  constructor
  · rintro ⟨_, ⟨c, ⟨ab, h1, h2⟩, rfl⟩, hu⟩
    refine ⟨_, ⟨ab, h1, rfl⟩, ?_⟩
    split at h2
    · simp only [List.mem_cons, List.not_mem_nil, or_false] at h2
      obtain ⟨u, h3, h4, h5⟩ := hu
      rcases h2 with rfl | rfl
      · exact ⟨1 / 2 * u, by linarith, by linarith, ((C29_split_traces ab.1 ab.2 (1 / 2) u).1).symm.trans h5⟩
      · exact ⟨1 / 2 + (1 - 1 / 2) * u, by linarith, by linarith, ((C29_split_traces ab.1 ab.2 (1 / 2) u).2).symm.trans h5⟩
    · rw [List.mem_singleton] at h2
      rw [← h2]; exact hu
  · rintro ⟨_, ⟨ab, h1, rfl⟩, u, h3, h4, h5⟩
    by_cases hh : hit ab.1 ab.2
    · rcases le_total u (1 / 2) with hu | hu
      · refine ⟨_, ⟨_, ⟨ab, h1, by rw [if_pos hh]; exact List.mem_cons_self⟩, rfl⟩, 2 * u, by linarith, by linarith, ?_⟩
        refine ((C29_split_traces ab.1 ab.2 (1 / 2) (2 * u)).1).trans ?_
        rw [← h5]; ring_nf
      · refine ⟨_, ⟨_, ⟨ab, h1, by rw [if_pos hh]; exact List.mem_cons_of_mem _ List.mem_cons_self⟩, rfl⟩, 2 * u - 1, by linarith,
          by linarith, ?_⟩
        refine ((C29_split_traces ab.1 ab.2 (1 / 2) (2 * u - 1)).2).trans ?_
        rw [← h5]; ring_nf
    · exact ⟨_, ⟨ab, ⟨ab, h1, by rw [if_neg hh]; simp⟩, rfl⟩, u, h3, h4, h5⟩

/-- C65: the returned curves together cover exactly the points of the original curve. -/
theorem C65_same_points (hit : CP ℝ → CP ℝ → Bool) (ixs : List (List (ℝ × Pt ℝ))) (cps : List (CP ℝ))
    (hlen : ixs.length = (allCurves hit cps).length) (he : Exact ((allCurves hit cps).zip ixs))
    (ha : Apart ((allCurves hit cps).zip ixs)) (hne : ∃ l ∈ ixs, l ≠ []) (out : List (List (CP ℝ)))
    (ho : selfIntersect hit ixs cps = .ok out) : Morph.trace (out.flatMap closedSegs) = Morph.trace (closedSegs cps) := by
  have h := C65_result hit ixs cps hlen he ha hne
  rw [ho] at h
  obtain ⟨pieces, arcs, h1, h2, loops, h3, h4⟩ := h
  have e1 : Morph.trace (out.flatMap closedSegs) = Morph.trace arcs.flatten := by
    have hm : ∀ S, S ∈ out.flatMap closedSegs ↔ ∃ i ∈ loops.flatten, S ∈ (arcs[i]?).getD [] := by
      intro S
      clear ho h3
      induction h4 with
      | nil => simp
      | cons h _ ih =>
        rw [List.flatMap_cons, List.mem_append, List.flatten_cons, ih, h.2.2.mem_iff, List.mem_flatMap]
        simp only [List.mem_append, or_and_right, exists_or]
    refine trace_congr fun S => ?_
    rw [hm, List.mem_flatten]
    constructor
    · rintro ⟨i, _, hS⟩
      cases ha : arcs[i]? with
      | none => simp [ha] at hS
      | some a => exact ⟨a, List.mem_of_getElem? ha, by simpa [ha] using hS⟩
    · rintro ⟨a, hm, hS⟩
      obtain ⟨i, hi, rfl⟩ := List.getElem_of_mem hm
      exact ⟨i, h3.mem_iff.2 (List.mem_range.2 hi), by simpa [List.getElem?_eq_getElem hi] using hS⟩
  rw [e1, trace_congr fun S => h2.whole.mem_iff, pieces_trace_all he h1, ← trace_allCurves hit cps]
  have e2 := List.map_fst_zip (l₁ := allCurves hit cps) (l₂ := ixs) hlen.ge
  conv_rhs => rw [← e2, List.map_map]
  rfl

/-! ### A bow tie -/

def bow : List (CP ℝ) :=
  [⟨⟨0, 0⟩, ⟨0, 0⟩, ⟨0, 0⟩, "sharp"⟩, ⟨⟨2, 2⟩, ⟨0, 0⟩, ⟨0, 0⟩, "sharp"⟩, ⟨⟨2, 0⟩, ⟨0, 0⟩, ⟨0, 0⟩, "sharp"⟩,
    ⟨⟨0, 2⟩, ⟨0, 0⟩, ⟨0, 0⟩, "sharp"⟩]

def bowIxs : List (List (ℝ × Pt ℝ)) := [[(1 / 2, ⟨1, 1⟩)], [], [(1 / 2, ⟨1, 1⟩)], []]

/-- The hypotheses hold for a bow tie, whose diagonals cross in the middle. -/
theorem bow_ok : bowIxs.length = (allCurves (fun _ _ => false) bow).length ∧ Exact ((allCurves (fun _ _ => false) bow).zip bowIxs) ∧
    Apart ((allCurves (fun _ _ => false) bow).zip bowIxs) ∧ Alternating (passed ((allCurves (fun _ _ => false) bow).zip bowIxs)) := by
  refine ⟨rfl, ?_, ?_, ?_⟩
  · intro c hc p hp
    simp only [bow, bowIxs, allCurves, iterRotate2] at hc
    simp at hc
    rcases hc with rfl | rfl | rfl | rfl <;> simp at hp
    all_goals
      subst hp
      refine ⟨by norm_num, by norm_num, ?_⟩
      ext <;> simp [seg, Poly4.at', bern] <;> norm_num
  · intro c hc p hp c' hc' p' hp' hne
    exfalso
    have : ∀ c ∈ (allCurves (fun _ _ => false) bow).zip bowIxs, ∀ p ∈ c.2, p.2 = (⟨1, 1⟩ : Pt ℝ) := by
      intro c hc p hp
      simp only [bow, bowIxs, allCurves, iterRotate2] at hc
      simp at hc
      rcases hc with rfl | rfl | rfl | rfl <;> simp at hp
      all_goals rw [hp]
    exact hne ((this c hc p hp).trans (this c' hc' p' hp').symm)
  · have : passed ((allCurves (fun _ _ => false) bow).zip bowIxs) = [⟨1, 1⟩, ⟨1, 1⟩] := by
      simp [passed, allCurves, iterRotate2, bow, bowIxs, sortIxs]
    rw [this]
    refine ⟨rfl, fun i hi => ?_⟩
    have hi' : i = 0 ∨ i = 1 := by simp at hi; omega
    rcases hi' with rfl | rfl
    · refine ⟨1, by simp, by simp, fun k hk => ?_⟩
      have hk' : k = 0 ∨ k = 1 := by simp at hk; omega
      rcases hk' with rfl | rfl <;> simp
    · refine ⟨0, by simp, by simp, fun k hk => ?_⟩
      have hk' : k = 0 ∨ k = 1 := by simp at hk; omega
      rcases hk' with rfl | rfl <;> simp

end X7.Bzi
