import Verif.Spec.SelfCurve
import Verif.Lemmas.Elem
import Verif.Props.SelfIntersect
import Verif.Props.GroupNames

/-! C77: `bez_intersect`, and `self_intersect` of curves, given an intersection finder. -/

noncomputable section

namespace X7.Bzi

open Classical

theorem bzCurve_eq (p q : CP ℝ) : bzCurve p q = seg p q := rfl

/-- C77: `bez_intersect` returns what the library found, in its order, without `(1, 0)` and `(0, 1)` unless end points are asked for;
points are those of the first curve, and if the library is right, they lie on both curves. Giving up counts as nothing found. The two
forms of the result agree. -/
theorem C77_intersect (lib : Lib) (a1 a2 b1 b2 : CP ℝ) (endpoints : Bool) :
    (∀ p t s, (p, t, s) ∈ bezIntersectNew lib a1 a2 b1 b2 endpoints ↔
      p = (seg a1 a2).at' t ∧ (∃ l, lib (seg a1 a2) (seg b1 b2) = some l ∧ (t, s) ∈ l) ∧
        (endpoints = false → (t, s) ≠ (1, 0) ∧ (t, s) ≠ (0, 1))) ∧
    (lib (seg a1 a2) (seg b1 b2) = none → bezIntersectNew lib a1 a2 b1 b2 endpoints = []) ∧
    (lib.Sound → ∀ p t s, (p, t, s) ∈ bezIntersectNew lib a1 a2 b1 b2 endpoints → p = (seg b1 b2).at' s) ∧
    (∀ l, lib (seg a1 a2) (seg b1 b2) = some l → (bezIntersectNew lib a1 a2 b1 b2 true).map Prod.snd = l) ∧
    bezIntersectPts lib a1 a2 b1 b2 endpoints = (bezIntersectNew lib a1 a2 b1 b2 endpoints).map Prod.fst ∧
    (bezIntersectTs lib a1 a2 b1 b2 endpoints = [] ↔ bezIntersectPts lib a1 a2 b1 b2 endpoints = []) ∧
    (∀ ts ss, bezIntersectTs lib a1 a2 b1 b2 endpoints = [ts, ss] →
      ts.zip ss = (bezIntersectNew lib a1 a2 b1 b2 endpoints).map Prod.snd ∧
      bezIntersectPts lib a1 a2 b1 b2 endpoints = ts.map (seg a1 a2).at') := by
  have h1 : ∀ p t s, (p, t, s) ∈ bezIntersectNew lib a1 a2 b1 b2 endpoints ↔
      p = (seg a1 a2).at' t ∧ (∃ l, lib (seg a1 a2) (seg b1 b2) = some l ∧ (t, s) ∈ l) ∧
        (endpoints = false → (t, s) ≠ (1, 0) ∧ (t, s) ≠ (0, 1)) := by
    intro p t s
    simp only [bezIntersectNew, bzCurve_eq]
    cases lib (seg a1 a2) (seg b1 b2) with
    | none => simp
    | some l =>
      cases endpoints
      · simp only [Bool.not_false, if_true, List.mem_map, List.mem_filter, Prod.mk.injEq, Option.some.injEq]
        constructor
        · rintro ⟨⟨t', s'⟩, ⟨h1, h2⟩, rfl, rfl, rfl⟩
          have h2 : ¬((t', s') = ((1 : ℝ), (0 : ℝ)) ∨ (t', s') = ((0 : ℝ), (1 : ℝ))) := of_decide_eq_true h2
          exact ⟨rfl, ⟨l, rfl, h1⟩, fun _ => not_or.1 h2⟩
        · rintro ⟨rfl, ⟨l', rfl, h⟩, h2⟩
          have := h2 trivial
          exact ⟨(t, s), ⟨h, decide_eq_true (not_or.2 this)⟩, rfl, rfl, rfl⟩
      · simp only [Bool.not_true, Bool.false_eq_true, if_false, List.mem_map, Prod.mk.injEq, Option.some.injEq]
        constructor
        · rintro ⟨⟨t', s'⟩, h1, rfl, rfl, rfl⟩
          exact ⟨rfl, ⟨l, rfl, h1⟩, fun h => by simp at h⟩
        · rintro ⟨rfl, ⟨l', rfl, h⟩, -⟩
          exact ⟨(t, s), h, rfl, rfl, rfl⟩
  refine ⟨h1, ?_, ?_, ?_, rfl, ?_, ?_⟩
  · intro h
    simp [bezIntersectNew, bzCurve_eq, h]
  · intro hs p t s h
    obtain ⟨rfl, ⟨l, h2, h3⟩, -⟩ := (h1 _ _ _).1 h
    exact (hs _ _ _ h2 _ h3).2.2
  · intro l h
    simp only [bezIntersectNew, bzCurve_eq, h, Bool.not_true, Bool.false_eq_true, if_false, List.map_map]
    exact List.map_id _
  · simp only [bezIntersectTs, bezIntersectPts]
    cases bezIntersectNew lib a1 a2 b1 b2 endpoints <;> simp
  · intro ts ss
    have hp : ∀ x ∈ bezIntersectNew lib a1 a2 b1 b2 endpoints, x.1 = (seg a1 a2).at' x.2.1 := fun x hx => ((h1 x.1 x.2.1 x.2.2).1 hx).1
    simp only [bezIntersectTs, bezIntersectPts]
    revert hp
    generalize bezIntersectNew lib a1 a2 b1 b2 endpoints = r
    intro hp h
    cases r with
    | nil => simp at h
    | cons x r =>
      simp only [List.cons.injEq, and_true] at h
      obtain ⟨rfl, rfl⟩ := h
      refine ⟨?_, ?_⟩
      · rw [List.zip_map']
      · rw [List.map_map]
        exact List.map_congr_left hp

/-! ### The lists of intersections -/

theorem foldl_modify (recs : List (ℕ × (ℝ × Pt ℝ))) : ∀ (acc : List (List (ℝ × Pt ℝ))) (k : ℕ),
    (recs.foldl (fun acc r => acc.modify r.1 (· ++ [r.2])) acc)[k]? =
      acc[k]?.map (· ++ (recs.filter fun r => r.1 = k).map Prod.snd) := by
  induction recs with
  | nil => intro acc k; simp
  | cons r recs ih =>
    intro acc k
    rw [List.foldl_cons, ih, List.getElem?_modify]
    by_cases h : r.1 = k
    · simp [h, Function.comp_def]
    · simp [h]

/-- What is appended to which list, in order. -/
def records (lib : Lib) (cs : List (CP ℝ × CP ℝ)) : List (ℕ × (ℝ × Pt ℝ)) :=
  (combos cs.length).flatMap fun ij =>
    match cs[ij.1]?, cs[ij.2]? with
    | some a, some b => (bezIntersectNew lib a.1 a.2 b.1 b.2 false).flatMap fun x => [(ij.1, (x.2.1, x.1)), (ij.2, (x.2.2, x.1))]
    | _, _ => []

theorem findIxs_eq (lib : Lib) (cs : List (CP ℝ × CP ℝ)) :
    findIxs lib cs = (records lib cs).foldl (fun acc r => acc.modify r.1 (· ++ [r.2])) (List.replicate cs.length []) := by
  rw [records, List.foldl_flatMap, findIxs]
  congr 1
  funext acc ij
  cases cs[ij.1]? with
  | none => rfl
  | some a =>
    cases cs[ij.2]? with
    | none => rfl
    | some b =>
      simp only [List.foldl_flatMap]
      rfl

theorem findIxs_get (lib : Lib) (cs : List (CP ℝ × CP ℝ)) {k : ℕ} (hk : k < cs.length) :
    (findIxs lib cs)[k]? = some (((records lib cs).filter fun r => r.1 = k).map Prod.snd) := by
  rw [findIxs_eq, foldl_modify, List.getElem?_replicate, if_pos hk]
  simp

theorem findIxs_length (lib : Lib) (cs : List (CP ℝ × CP ℝ)) : (findIxs lib cs).length = cs.length := by
  rw [findIxs_eq]
  have : ∀ (recs : List (ℕ × (ℝ × Pt ℝ))) (acc : List (List (ℝ × Pt ℝ))),
      (recs.foldl (fun acc r => acc.modify r.1 (· ++ [r.2])) acc).length = acc.length := by
    intro recs
    induction recs with
    | nil => intro acc; rfl
    | cons r recs ih => intro acc; rw [List.foldl_cons, ih, List.length_modify]
  rw [this, List.length_replicate]

theorem mem_combos {n i j : ℕ} : (i, j) ∈ combos n ↔ i < j ∧ j < n := by
  simp only [combos, List.mem_flatMap, List.mem_range, List.mem_map, List.mem_range', Prod.mk.injEq]
  constructor
  · rintro ⟨a, ha, b, ⟨c, hc, rfl⟩, rfl, rfl⟩
    omega
  · rintro ⟨h1, h2⟩
    exact ⟨i, by omega, j, ⟨j - (i + 1), by omega, by omega⟩, rfl, rfl⟩

/-- The segments whose intersections are looked for. -/
def segList (lib : Lib) (cps : List (CP ℝ)) : List (Poly4 ℝ) := (allCurves (hitLib lib) cps).map fun ab => seg ab.1 ab.2

theorem mem_records (lib : Lib) (cs : List (CP ℝ × CP ℝ)) (k : ℕ) (t : ℝ) (p : Pt ℝ) :
    (k, (t, p)) ∈ records lib cs ↔ ∃ i j t' s A, Cross lib (cs.map fun ab => seg ab.1 ab.2) i j t' s ∧ cs[i]? = some A ∧
      p = (seg A.1 A.2).at' t' ∧ ((k = i ∧ t = t') ∨ (k = j ∧ t = s)) := by
  simp only [records, List.mem_flatMap]
  constructor
  · rintro ⟨⟨i, j⟩, hij, h⟩
    have hij := mem_combos.1 hij
    simp only at h
    cases ha : cs[i]? with
    | none => simp [ha] at h
    | some a =>
      cases hb : cs[j]? with
      | none => simp [ha, hb] at h
      | some b =>
        simp only [ha, hb, List.mem_flatMap] at h
        obtain ⟨⟨p', t', s'⟩, hx, h⟩ := h
        obtain ⟨rfl, ⟨l, h2, h3⟩, h4⟩ := ((C77_intersect lib a.1 a.2 b.1 b.2 false).1 _ _ _).1 hx
        refine ⟨i, j, t', s', a, ⟨_, _, hij.1, by simp [ha], by simp [hb], l, h2, h3, h4 rfl⟩, ha, ?_⟩
        simp only [List.mem_cons, List.not_mem_nil, or_false, Prod.mk.injEq] at h
        rcases h with ⟨rfl, rfl, rfl⟩ | ⟨rfl, rfl, rfl⟩
        · exact ⟨rfl, .inl ⟨rfl, rfl⟩⟩
        · exact ⟨rfl, .inr ⟨rfl, rfl⟩⟩
  · rintro ⟨i, j, t', s, A, ⟨A', B', hij, hA, hB, l, h2, h3, h4⟩, ha, rfl, h5⟩
    rw [List.getElem?_map] at hA hB
    cases hb : cs[j]? with
    | none => simp [hb] at hB
    | some b =>
      simp only [ha, hb, Option.map_some, Option.some.injEq] at hA hB
      subst hA hB
      have hj : j < cs.length := (List.getElem?_eq_some_iff.1 hb).1
      refine ⟨(i, j), mem_combos.2 ⟨hij, hj⟩, ?_⟩
      simp only [ha, hb, List.mem_flatMap]
      refine ⟨((seg A.1 A.2).at' t', t', s), ((C77_intersect lib A.1 A.2 b.1 b.2 false).1 _ _ _).2
        ⟨rfl, ⟨l, h2, h3⟩, fun _ => h4⟩, ?_⟩
      rcases h5 with ⟨rfl, rfl⟩ | ⟨rfl, rfl⟩ <;> simp

theorem mem_findIxs (lib : Lib) (cs : List (CP ℝ × CP ℝ)) {k : ℕ} {l : List (ℝ × Pt ℝ)} (hl : (findIxs lib cs)[k]? = some l)
    (x : ℝ × Pt ℝ) : x ∈ l ↔ (k, x) ∈ records lib cs := by
  have hk : k < cs.length := by
    rw [← findIxs_length lib]
    exact (List.getElem?_eq_some_iff.1 hl).1
  rw [findIxs_get lib cs hk, Option.some.injEq] at hl
  subst hl
  simp only [List.mem_map, List.mem_filter, decide_eq_true_eq]
  constructor
  · rintro ⟨⟨k', x'⟩, ⟨h1, rfl⟩, rfl⟩
    exact h1
  · exact fun h => ⟨(k, x), ⟨h, rfl⟩, rfl⟩

/-- C77: the intersections noted for a segment are those with the earlier and the later segments, each with its own parameter and the
point on the earlier one of the two segments. -/
theorem C77_found (lib : Lib) (cps : List (CP ℝ)) :
    let ss := segList lib cps
    (findIxs lib (allCurves (hitLib lib) cps)).length = ss.length ∧
    ∀ k l, (findIxs lib (allCurves (hitLib lib) cps))[k]? = some l → ∀ t p, (t, p) ∈ l ↔
      ∃ i j t' s A, Cross lib ss i j t' s ∧ ss[i]? = some A ∧ p = A.at' t' ∧ ((k = i ∧ t = t') ∨ (k = j ∧ t = s)) := by
  intro ss
  refine ⟨by simp [ss, segList, findIxs_length], fun k l hl t p => ?_⟩
  rw [mem_findIxs lib _ hl, mem_records]
  simp only [ss, segList, List.getElem?_map]
  constructor
  · rintro ⟨i, j, t', s, A, h1, h2, h3, h4⟩
    exact ⟨i, j, t', s, _, h1, by rw [h2]; rfl, h3, h4⟩
  · rintro ⟨i, j, t', s, A, h1, h2, h3, h4⟩
    cases ha : (allCurves (hitLib lib) cps)[i]? with
    | none => simp [ha] at h2
    | some a =>
      rw [ha, Option.map_some, Option.some.injEq] at h2
      subst h2
      exact ⟨i, j, t', s, a, h1, ha, h3, h4⟩

/-- C77: the segments looked at are those of the closed curve, in order, each replaced by its two halves if these meet elsewhere than
where they join. -/
theorem C77_segments (lib : Lib) (cps : List (CP ℝ)) :
    ∃ parts : List (List (Poly4 ℝ)), segList lib cps = parts.flatten ∧
      List.Forall₂ (fun S P => ∃ L R, halves S L R ∧ ((∃ t s, Meets lib L R t s) → P = [L, R]) ∧ ((¬ ∃ t s, Meets lib L R t s) → P = [S]))
        (closedSegs cps) parts := by
  refine ⟨(iterRotate2 cps).map fun ab => if hitLib lib ab.1 ab.2 then
      [seg (bezSplit ab.1 ab.2 (1 / 2)).1 (bezSplit ab.1 ab.2 (1 / 2)).2.1, seg (bezSplit ab.1 ab.2 (1 / 2)).2.1 (bezSplit ab.1 ab.2 (1 / 2)).2.2]
      else [seg ab.1 ab.2], ?_, ?_⟩
  · simp only [segList, allCurves, List.map_flatMap]
    rw [List.flatMap_def]
    congr 1
    refine List.map_congr_left fun ab _ => ?_
    split <;> rfl
  · have e : closedSegs cps = (iterRotate2 cps).map fun ab => seg ab.1 ab.2 := by
      simp only [closedSegs, iterRotate2, List.zip, List.map_zipWith]
    rw [e, List.forall₂_map_left_iff, List.forall₂_map_right_iff, List.forall₂_same]
    intro ab _
    refine ⟨seg (bezSplit ab.1 ab.2 (1 / 2)).1 (bezSplit ab.1 ab.2 (1 / 2)).2.1,
      seg (bezSplit ab.1 ab.2 (1 / 2)).2.1 (bezSplit ab.1 ab.2 (1 / 2)).2.2, ?_, ?_⟩
    · intro u
      obtain ⟨h1, h2⟩ := C29_split_traces ab.1 ab.2 (1 / 2 : ℝ) u
      refine ⟨h1.trans ?_, h2.trans ?_⟩ <;> congr 1 <;> ring
    · have key : hitLib lib ab.1 ab.2 = true ↔ ∃ t s, Meets lib (seg (bezSplit ab.1 ab.2 (1 / 2)).1 (bezSplit ab.1 ab.2 (1 / 2)).2.1)
          (seg (bezSplit ab.1 ab.2 (1 / 2)).2.1 (bezSplit ab.1 ab.2 (1 / 2)).2.2) t s := by
        have hi := (C77_intersect lib (bezSplit ab.1 ab.2 (1 / 2)).1 (bezSplit ab.1 ab.2 (1 / 2)).2.1 (bezSplit ab.1 ab.2 (1 / 2)).2.1
          (bezSplit ab.1 ab.2 (1 / 2)).2.2 false).1
        simp only [hitLib, decide_eq_true_eq]
        constructor
        · intro h
          obtain ⟨⟨p, t, s⟩, hx⟩ := List.exists_mem_of_ne_nil _ h
          obtain ⟨-, ⟨l, h2, h3⟩, h4⟩ := (hi p t s).1 hx
          exact ⟨t, s, l, h2, h3, h4 rfl⟩
        · rintro ⟨t, s, l, h2, h3, h4⟩
          exact List.ne_nil_of_mem ((hi _ t s).2 ⟨rfl, ⟨l, h2, h3⟩, fun _ => h4⟩)
      exact ⟨fun h => if_pos (key.2 h), fun h => if_neg (fun h' => h (key.1 h'))⟩

theorem exact_of (lib : Lib) (cps : List (CP ℝ)) (hs : lib.Sound) (hn : NoEnds lib (segList lib cps)) :
    Exact ((allCurves (hitLib lib) cps).zip (findIxs lib (allCurves (hitLib lib) cps))) := by
  rintro ⟨ab, l⟩ hc ⟨t, p⟩ hp
  obtain ⟨k, hk, he⟩ := List.getElem_of_mem hc
  have hk' := List.getElem?_eq_getElem hk
  rw [he, List.getElem?_zip_eq_some] at hk'
  obtain ⟨hab, hl⟩ := hk'
  obtain ⟨i, j, t', s, A, hx, hA, hpt, h⟩ := ((C77_found lib cps).2 k l hl t p).1 hp
  have hne := hn _ _ _ _ hx
  obtain ⟨A', B, hij, hA', hB, l', hl1, hl2, -⟩ := hx
  rw [hA] at hA'
  cases hA'
  obtain ⟨h1, h2, h3⟩ := hs _ _ _ hl1 _ hl2
  have hk2 : (segList lib cps)[k]? = some (seg ab.1 ab.2) := by
    rw [segList, List.getElem?_map, hab]; rfl
  simp only at hp ⊢
  rcases h with ⟨rfl, rfl⟩ | ⟨rfl, rfl⟩
  · rw [hk2, Option.some.injEq] at hA
    subst hA
    exact ⟨h1.1, lt_of_le_of_ne h1.2 hne.1, hpt.symm⟩
  · rw [hk2, Option.some.injEq] at hB
    subst hB
    exact ⟨h2.1, lt_of_le_of_ne h2.2 hne.2, by rw [hpt, ← h3]⟩

theorem apart_of (lib : Lib) (cps : List (CP ℝ)) (ha : CrossApart lib (segList lib cps)) :
    Apart ((allCurves (hitLib lib) cps).zip (findIxs lib (allCurves (hitLib lib) cps))) := by
  have key : ∀ c ∈ (allCurves (hitLib lib) cps).zip (findIxs lib (allCurves (hitLib lib) cps)), ∀ p ∈ c.2,
      ∃ i j t s A, Cross lib (segList lib cps) i j t s ∧ (segList lib cps)[i]? = some A ∧ p.2 = A.at' t := by
    rintro ⟨ab, l⟩ hc ⟨t, p⟩ hp
    obtain ⟨k, hk, he⟩ := List.getElem_of_mem hc
    have hk' := List.getElem?_eq_getElem hk
    rw [he, List.getElem?_zip_eq_some] at hk'
    obtain ⟨i, j, t', s, A, hx, hA, hpt, -⟩ := ((C77_found lib cps).2 k l hk'.2 t p).1 hp
    exact ⟨i, j, t', s, A, hx, hA, hpt⟩
  intro c hc p hp c' hc' p' hp' hne
  obtain ⟨i, j, t, s, A, h1, h2, h3⟩ := key c hc p hp
  obtain ⟨i', j', t', s', A', h1', h2', h3'⟩ := key c' hc' p' hp'
  rw [h3, h3'] at hne ⊢
  exact ha _ _ _ _ _ _ _ _ _ _ h1 h1' h2 h2' hne

theorem nonempty_iff (lib : Lib) (cps : List (CP ℝ)) :
    (∃ l ∈ findIxs lib (allCurves (hitLib lib) cps), l ≠ []) ↔ ∃ i j t s, Cross lib (segList lib cps) i j t s := by
  constructor
  · rintro ⟨l, hl, hne⟩
    obtain ⟨k, hk, he⟩ := List.getElem_of_mem hl
    obtain ⟨⟨t, p⟩, hx⟩ := List.exists_mem_of_ne_nil l hne
    obtain ⟨i, j, t', s, A, h, -⟩ := ((C77_found lib cps).2 k l (by rw [← he]; exact List.getElem?_eq_getElem hk) t p).1 hx
    exact ⟨i, j, t', s, h⟩
  · rintro ⟨i, j, t, s, h⟩
    obtain ⟨A, B, -, hA, -⟩ := id h
    have hi : i < (findIxs lib (allCurves (hitLib lib) cps)).length := by
      rw [(C77_found lib cps).1]
      exact (List.getElem?_eq_some_iff.1 hA).1
    have := ((C77_found lib cps).2 i _ (List.getElem?_eq_getElem hi) t (A.at' t)).2 ⟨i, j, t, s, A, h, hA, rfl, .inl ⟨rfl, rfl⟩⟩
    exact ⟨_, List.getElem_mem hi, List.ne_nil_of_mem this⟩

/-- C77: with a right intersection finder, intersections away from the ends of segments and different ones at least 1e-11 apart:
if nothing crosses, the result is empty; otherwise `bez_self_intersect` returns curves, at least one, that together cover exactly the
points of the closed curve, or raises `AttributeError`. -/
theorem C77_same_points (lib : Lib) (cps : List (CP ℝ)) (hs : lib.Sound) (hn : NoEnds lib (segList lib cps))
    (ha : CrossApart lib (segList lib cps)) :
    ((¬ ∃ i j t s, Cross lib (segList lib cps) i j t s) → selfIntersectLib lib cps = .ok []) ∧
    ((∃ i j t s, Cross lib (segList lib cps) i j t s) → selfIntersectLib lib cps = .error .attribute ∨
      ∃ out, selfIntersectLib lib cps = .ok out ∧ out ≠ [] ∧ Morph.trace (out.flatMap closedSegs) = Morph.trace (closedSegs cps)) := by
  have hlen : (findIxs lib (allCurves (hitLib lib) cps)).length = (allCurves (hitLib lib) cps).length := findIxs_length _ _
  have he := exact_of lib cps hs hn
  have hap := apart_of lib cps ha
  constructor
  · intro h
    rw [← nonempty_iff] at h
    push Not at h
    exact C65_none _ _ _ h
  · intro h
    rw [← nonempty_iff] at h
    have hr := C65_result _ _ _ hlen he hap h
    cases ho : selfIntersectLib lib cps with
    | error e =>
      rw [selfIntersectLib] at ho
      rw [ho] at hr
      exact .inl (by rw [hr])
    | ok out =>
      refine .inr ⟨out, rfl, ?_, C65_same_points _ _ _ hlen he hap h out ho⟩
      rw [selfIntersectLib] at ho
      rw [ho] at hr
      obtain ⟨pieces, arcs, -, h2, loops, h3, h4⟩ := hr
      rintro rfl
      cases h4
      have hz : arcs.length = 0 := by
        have := h3.length_eq
        simpa using this.symm
      rw [h2.len] at hz
      have hw : passed ((allCurves (hitLib lib) cps).zip (findIxs lib (allCurves (hitLib lib) cps))) = [] :=
        List.eq_nil_of_length_eq_zero hz
      obtain ⟨l, hl, hne⟩ := h
      obtain ⟨k, hk, hkl⟩ := List.getElem_of_mem hl
      have := passed_nil hw ((allCurves (hitLib lib) cps)[k]'(by omega), l) (by
        rw [← hkl]
        exact List.mem_iff_getElem.2 ⟨k, by simp; omega, by simp⟩)
      exact hne this

/-- C77: it does not raise when the curve passes every intersection exactly twice, once at an even and once at an odd place. -/
theorem C77_no_error (lib : Lib) (cps : List (CP ℝ)) (hs : lib.Sound) (hn : NoEnds lib (segList lib cps))
    (ha : CrossApart lib (segList lib cps))
    (hw : Alternating (passed ((allCurves (hitLib lib) cps).zip (findIxs lib (allCurves (hitLib lib) cps))))) :
    ∃ out, selfIntersectLib lib cps = .ok out :=
  C65_result_ok _ _ _ (findIxs_length _ _) (exact_of lib cps hs hn) (apart_of lib cps ha) hw

/-! ### The bow tie -/

/-- A finder that knows the two diagonals of the bow tie. -/
def bowLib : Lib := fun A B =>
  if A = ⟨⟨0, 0⟩, ⟨0, 0⟩, ⟨2, 2⟩, ⟨2, 2⟩⟩ ∧ B = ⟨⟨2, 0⟩, ⟨2, 0⟩, ⟨0, 2⟩, ⟨0, 2⟩⟩ then some [(1 / 2, 1 / 2)] else none

theorem bowLib_sound : bowLib.Sound := by
  intro A B l h ts hts
  unfold bowLib at h
  split at h
  · next hAB =>
    obtain ⟨rfl, rfl⟩ := hAB
    cases h
    simp only [List.mem_singleton] at hts
    subst hts
    refine ⟨by norm_num, by norm_num, ?_⟩
    ext <;> simp [Poly4.at', bern] <;> norm_num
  · cases h

theorem bow_hit : ∀ ab ∈ iterRotate2 bow, hitLib bowLib ab.1 ab.2 = false := by
  intro ab h
  simp only [bow, iterRotate2] at h
  simp at h
  rcases h with rfl | rfl | rfl | rfl <;>
    · simp only [hitLib, decide_eq_false_iff_not, not_not, bezIntersectNew]
      have : ∀ A B : Poly4 ℝ, A.d ≠ ⟨2, 2⟩ ∨ A.a ≠ ⟨0, 0⟩ → bowLib A B = none := by
        intro A B h
        unfold bowLib
        rw [if_neg]
        rintro ⟨rfl, -⟩
        simp at h
      rw [this]
      · simp
      · simp [bzCurve, bezSplit, lerp, CP.l, CP.r, Pt.addVector, Pt.sub, Vec.mul] <;> norm_num

theorem bow_curves : allCurves (hitLib bowLib) bow = iterRotate2 bow := by
  have : ∀ l : List (CP ℝ × CP ℝ), (∀ ab ∈ l, hitLib bowLib ab.1 ab.2 = false) →
      (l.flatMap fun ab => if hitLib bowLib ab.1 ab.2 then
        let s := bezSplit ab.1 ab.2 (1 / 2)
        [(s.1, s.2.1), (s.2.1, s.2.2)]
      else [ab]) = l := by
    intro l
    induction l with
    | nil => intro _; rfl
    | cons ab l ih =>
      intro h
      rw [List.flatMap_cons, ih fun x hx => h x (List.mem_cons_of_mem _ hx), h ab List.mem_cons_self]
      rfl
  exact this _ bow_hit

theorem bow_cross (i j : ℕ) (t s : ℝ) : Cross bowLib (segList bowLib bow) i j t s ↔ i = 0 ∧ j = 2 ∧ t = 1 / 2 ∧ s = 1 / 2 := by
  rw [segList, bow_curves]
  have e : (iterRotate2 bow).map (fun ab => seg ab.1 ab.2) = [⟨⟨0, 0⟩, ⟨0, 0⟩, ⟨2, 2⟩, ⟨2, 2⟩⟩, ⟨⟨2, 2⟩, ⟨2, 2⟩, ⟨2, 0⟩, ⟨2, 0⟩⟩,
      ⟨⟨2, 0⟩, ⟨2, 0⟩, ⟨0, 2⟩, ⟨0, 2⟩⟩, ⟨⟨0, 2⟩, ⟨0, 2⟩, ⟨0, 0⟩, ⟨0, 0⟩⟩] := by
    simp [iterRotate2, bow, seg, CP.l, CP.r, Pt.addVector]
  rw [e]
  constructor
  · rintro ⟨A, B, hij, hA, hB, l, hl, hts, -⟩
    unfold bowLib at hl
    split at hl
    · next hAB =>
      obtain ⟨rfl, rfl⟩ := hAB
      cases hl
      simp only [List.mem_singleton, Prod.mk.injEq] at hts
      have hi : i < 4 := by simpa using (List.getElem?_eq_some_iff.1 hA).1
      have hj : j < 4 := by simpa using (List.getElem?_eq_some_iff.1 hB).1
      refine ⟨?_, ?_, hts.1, hts.2⟩
      · interval_cases i <;> simp at hA ⊢
      · interval_cases j <;> simp at hB ⊢
    · cases hl
  · rintro ⟨rfl, rfl, rfl, rfl⟩
    exact ⟨_, _, by norm_num, rfl, rfl, [(1 / 2, 1 / 2)], by simp [bowLib], by simp, by simp, by simp⟩

/-- The hypotheses of the theorems hold for the bow tie, and there is something to find. -/
example : bowLib.Sound ∧ NoEnds bowLib (segList bowLib bow) ∧ CrossApart bowLib (segList bowLib bow) ∧
    (∃ i j t s, Cross bowLib (segList bowLib bow) i j t s) := by
  refine ⟨bowLib_sound, ?_, ?_, 0, 2, 1 / 2, 1 / 2, (bow_cross _ _ _ _).2 ⟨rfl, rfl, rfl, rfl⟩⟩
  · intro i j t s h
    obtain ⟨-, -, rfl, rfl⟩ := (bow_cross _ _ _ _).1 h
    norm_num
  · intro i j t s i' j' t' s' A A' h h' hA hA' hne
    obtain ⟨rfl, rfl, rfl, rfl⟩ := (bow_cross _ _ _ _).1 h
    obtain ⟨rfl, rfl, rfl, rfl⟩ := (bow_cross _ _ _ _).1 h'
    rw [hA] at hA'
    cases hA'
    exact absurd rfl hne

theorem bow_found : findIxs bowLib (allCurves (hitLib bowLib) bow) = bowIxs := by
  have h0 : ∀ A B : Poly4 ℝ, A.a ≠ ⟨0, 0⟩ ∨ B.a ≠ ⟨2, 0⟩ → bowLib A B = none := by
    intro A B h
    unfold bowLib
    rw [if_neg]
    rintro ⟨rfl, rfl⟩
    simp at h
  rw [bow_curves]
  have hc : combos (iterRotate2 bow).length = [(0, 1), (0, 2), (0, 3), (1, 2), (1, 3), (2, 3)] := rfl
  have h02 : bowLib ⟨⟨0, 0⟩, ⟨0, 0⟩, ⟨2, 2⟩, ⟨2, 2⟩⟩ ⟨⟨2, 0⟩, ⟨2, 0⟩, ⟨0, 2⟩, ⟨0, 2⟩⟩ = some [(1 / 2, 1 / 2)] := by simp [bowLib]
  rw [findIxs, hc]
  simp [iterRotate2, bow, bezIntersectNew, bzCurve, CP.l, CP.r, Pt.addVector, h0, h02, addIx, bowIxs, List.replicate, List.modify,
    List.modifyTailIdx, Poly4.at', bern]
  norm_num
  rfl

/-- And the search finds exactly the lists used in Props/SelfIntersect, for which the result exists. -/
theorem bow_result : ∃ out, selfIntersectLib bowLib bow = .ok out := by
  rw [selfIntersectLib, bow_found]
  have hl : bowIxs.length = (allCurves (hitLib bowLib) bow).length := by rw [bow_curves]; rfl
  have e : allCurves (hitLib bowLib) bow = allCurves (fun _ _ => false) bow := by
    rw [bow_curves]; simp [allCurves]
  refine C65_result_ok _ _ _ hl ?_ ?_ ?_ <;> rw [e]
  exacts [bow_ok.2.1, bow_ok.2.2.1, bow_ok.2.2.2]

end X7.Bzi

namespace X7.Elem

open Bzi

/-- C77: `self_intersect()` of a closed curve, under the assumptions of `C77_same_points` on the curve after its own transform: the new
curves have the names `<name>_i0`, `<name>_i1`, ..., all different, pen, brush and `closed` of the curve and no transform, and together
they cover exactly the points of the curve as it is drawn. -/
theorem C77_elem (lib : Lib) (h : Hdr) (cps : List (CP ℝ)) (hs : lib.Sound) (hc : h.closed = true)
    (hn : NoEnds lib (segList lib (cps.map (·.transformLin h.xf.apply))))
    (ha : CrossApart lib (segList lib (cps.map (·.transformLin h.xf.apply)))) (es : List Elem)
    (he : selfIntersect lib (.curve h cps) = .ok es) :
    (es = [] ↔ ¬ ∃ i j t s, Cross lib (segList lib (cps.map (·.transformLin h.xf.apply))) i j t s) ∧
    ∃ out : List (List (CP ℝ)), es = out.mapIdx (fun i c => .curve ⟨h.name ++ "_i".toList ++ fmtNat i, h.pb, h.closed, Mat3.one⟩ c) ∧
      (es.map fun e => e.hdr.name).Nodup ∧
      (es ≠ [] → Morph.trace (out.flatMap (segs h.closed)) = h.xf.apply '' Morph.trace (segs h.closed cps)) := by
  have hx := C77_same_points lib _ hs hn ha
  have hout : ∃ out, selfIntersectLib lib (cps.map (·.transformLin h.xf.apply)) = .ok out ∧
      es = out.mapIdx (fun i c => .curve ⟨h.name ++ "_i".toList ++ fmtNat i, h.pb, h.closed, Mat3.one⟩ c) := by
    simp only [selfIntersect] at he
    cases ho : selfIntersectLib lib (cps.map (·.transformLin h.xf.apply)) with
    | error e => simp [ho] at he
    | ok out =>
      rw [ho] at he
      refine ⟨out, rfl, ?_⟩
      cases out with
      | nil => simpa using he.symm
      | cons c rest =>
        simp only at he
        cases hk : checkClosed h.pb h.closed with
        | error e => simp [hk] at he
        | ok u =>
          rw [hk] at he
          simpa using he.symm
  obtain ⟨out, ho, rfl⟩ := hout
  have hnil : out.mapIdx (fun i c => Elem.curve ⟨h.name ++ "_i".toList ++ fmtNat i, h.pb, h.closed, Mat3.one⟩ c) = [] ↔ out = [] :=
    List.mapIdx_eq_nil_iff
  refine ⟨?_, out, rfl, ?_, ?_⟩
  · rw [hnil]
    constructor
    · rintro rfl hcr
      rcases hx.2 hcr with h1 | ⟨o, h1, h2, -⟩
      · rw [ho] at h1; cases h1
      · rw [ho] at h1; cases h1; exact h2 rfl
    · intro hcr
      have := hx.1 hcr
      rw [ho] at this
      cases this
      rfl
  · rw [List.nodup_iff_getElem?_ne_getElem?]
    intro i j hij hj
    simp only [List.length_map, List.length_mapIdx] at hj
    simp only [List.getElem?_map, List.getElem?_mapIdx, List.getElem?_eq_getElem hj, List.getElem?_eq_getElem (hij.trans hj), Option.map_some]
    intro heq
    simp only [hdr, Option.some.injEq, List.append_cancel_left_eq] at heq
    exact hij.ne (GroupNames.fmtNat_inj heq)
  · intro hne
    rw [ne_eq, hnil] at hne
    have htr : Morph.trace (out.flatMap closedSegs) = Morph.trace (closedSegs (cps.map (·.transformLin h.xf.apply))) := by
      by_cases hcr : ∃ i j t s, Cross lib (segList lib (cps.map (·.transformLin h.xf.apply))) i j t s
      · rcases hx.2 hcr with h1 | ⟨o, h1, -, h3⟩
        · rw [ho] at h1; cases h1
        · rw [ho] at h1; cases h1; exact h3
      · have := hx.1 hcr
        rw [ho] at this
        cases this
        exact absurd rfl hne
    have e := segs_transform h.xf.apply true cps
    simp only [segs, if_true] at e
    have e2 : segs (K := ℝ) true = closedSegs := by funext c; simp [segs]
    rw [hc, e2, htr, e]
    ext p
    simp only [Morph.trace, Set.mem_ofPred_eq, List.mem_map, Set.mem_image]
    constructor
    · rintro ⟨_, ⟨S, hS, rfl⟩, u, h0, h1, rfl⟩
      exact ⟨S.at' u, ⟨S, hS, u, h0, h1, rfl⟩, (at'_map _ _ _).symm⟩
    · rintro ⟨_, ⟨S, hS, u, h0, h1, rfl⟩, rfl⟩
      exact ⟨_, ⟨S, hS, rfl⟩, u, h0, h1, at'_map _ _ _⟩

/-! ### An open curve -/

/-- Three strokes that do not meet except where they join; the line from the last point to the first crosses the second. -/
def zed : List (CP ℝ) :=
  [⟨⟨2, 2⟩, ⟨0, 0⟩, ⟨0, 0⟩, "sharp"⟩, ⟨⟨2, 0⟩, ⟨0, 0⟩, ⟨0, 0⟩, "sharp"⟩, ⟨⟨0, 2⟩, ⟨0, 0⟩, ⟨0, 0⟩, "sharp"⟩,
    ⟨⟨0, 0⟩, ⟨0, 0⟩, ⟨0, 0⟩, "sharp"⟩]

open Classical in
def zedLib : Lib := fun A B =>
  if A = ⟨⟨2, 0⟩, ⟨2, 0⟩, ⟨0, 2⟩, ⟨0, 2⟩⟩ ∧ B = ⟨⟨0, 0⟩, ⟨0, 0⟩, ⟨2, 2⟩, ⟨2, 2⟩⟩ then some [(1 / 2, 1 / 2)] else none

theorem zedLib_sound : zedLib.Sound := by
  intro A B l h ts hts
  unfold zedLib at h
  split at h
  · next hAB =>
    obtain ⟨rfl, rfl⟩ := hAB
    cases h
    simp only [List.mem_singleton] at hts
    subst hts
    refine ⟨by norm_num, by norm_num, ?_⟩
    ext <;> simp [Poly4.at', bern] <;> norm_num
  · cases h

theorem zed_hit : ∀ ab ∈ iterRotate2 zed, hitLib zedLib ab.1 ab.2 = false := by
  intro ab h
  simp only [zed, iterRotate2] at h
  simp at h
  rcases h with rfl | rfl | rfl | rfl <;>
    · simp only [hitLib, decide_eq_false_iff_not, not_not, bezIntersectNew]
      have : ∀ A B : Poly4 ℝ, A.d ≠ ⟨0, 2⟩ ∨ A.a ≠ ⟨2, 0⟩ → zedLib A B = none := by
        intro A B h
        unfold zedLib
        rw [if_neg]
        rintro ⟨rfl, -⟩
        simp at h
      rw [this]
      · simp
      · simp [bzCurve, bezSplit, lerp, CP.l, CP.r, Pt.addVector, Pt.sub, Vec.mul] <;> norm_num

theorem zed_curves : allCurves (hitLib zedLib) zed = iterRotate2 zed := by
  have : ∀ l : List (CP ℝ × CP ℝ), (∀ ab ∈ l, hitLib zedLib ab.1 ab.2 = false) →
      (l.flatMap fun ab => if hitLib zedLib ab.1 ab.2 then
        let s := bezSplit ab.1 ab.2 (1 / 2)
        [(s.1, s.2.1), (s.2.1, s.2.2)]
      else [ab]) = l := by
    intro l
    induction l with
    | nil => intro _; rfl
    | cons ab l ih =>
      intro h
      rw [List.flatMap_cons, ih fun x hx => h x (List.mem_cons_of_mem _ hx), h ab List.mem_cons_self]
      rfl
  exact this _ zed_hit

def zedIxs : List (List (ℝ × Pt ℝ)) := [[], [(1 / 2, ⟨1, 1⟩)], [], [(1 / 2, ⟨1, 1⟩)]]

theorem zed_found : findIxs zedLib (allCurves (hitLib zedLib) zed) = zedIxs := by
  have h0 : ∀ A B : Poly4 ℝ, A.a ≠ ⟨2, 0⟩ ∨ B.a ≠ ⟨0, 0⟩ → zedLib A B = none := by
    intro A B h
    unfold zedLib
    rw [if_neg]
    rintro ⟨rfl, rfl⟩
    simp at h
  rw [zed_curves]
  have hc : combos (iterRotate2 zed).length = [(0, 1), (0, 2), (0, 3), (1, 2), (1, 3), (2, 3)] := rfl
  have h02 : zedLib ⟨⟨2, 0⟩, ⟨2, 0⟩, ⟨0, 2⟩, ⟨0, 2⟩⟩ ⟨⟨0, 0⟩, ⟨0, 0⟩, ⟨2, 2⟩, ⟨2, 2⟩⟩ = some [(1 / 2, 1 / 2)] := by simp [zedLib]
  rw [findIxs, hc]
  simp [iterRotate2, zed, bezIntersectNew, bzCurve, CP.l, CP.r, Pt.addVector, h0, h02, addIx, zedIxs, List.replicate, List.modify,
    List.modifyTailIdx, Poly4.at', bern]
  norm_num
  rfl

theorem zed_ok : zedIxs.length = (allCurves (hitLib zedLib) zed).length ∧ Exact ((allCurves (hitLib zedLib) zed).zip zedIxs) ∧
    Apart ((allCurves (hitLib zedLib) zed).zip zedIxs) ∧ Alternating (passed ((allCurves (hitLib zedLib) zed).zip zedIxs)) := by
  rw [zed_curves]
  refine ⟨rfl, ?_, ?_, ?_⟩
  · intro c hc p hp
    simp only [zed, zedIxs, iterRotate2] at hc
    simp at hc
    rcases hc with rfl | rfl | rfl | rfl <;> simp at hp
    all_goals
      subst hp
      refine ⟨by norm_num, by norm_num, ?_⟩
      ext <;> simp [seg, Poly4.at', bern] <;> norm_num
  · intro c hc p hp c' hc' p' hp' hne
    exfalso
    have : ∀ c ∈ (iterRotate2 zed).zip zedIxs, ∀ p ∈ c.2, p.2 = (⟨1, 1⟩ : Pt ℝ) := by
      intro c hc p hp
      simp only [zed, zedIxs, iterRotate2] at hc
      simp at hc
      rcases hc with rfl | rfl | rfl | rfl <;> simp at hp
      all_goals rw [hp]
    exact hne ((this c hc p hp).trans (this c' hc' p' hp').symm)
  · have : passed ((iterRotate2 zed).zip zedIxs) = [⟨1, 1⟩, ⟨1, 1⟩] := by
      simp [passed, iterRotate2, zed, zedIxs, sortIxs]
    rw [this]
    refine ⟨rfl, fun i hi => ?_⟩
    have hi' : i = 0 ∨ i = 1 := by simp at hi; omega
    rcases hi' with rfl | rfl
    · refine ⟨1, by simp, by simp, fun k hk => ?_⟩
      have hk' : k = 0 ∨ k = 1 := by simp at hk; omega
      rcases hk' with rfl | rfl <;> simp
    · refine ⟨0, by simp, by simp, fun k hk => ?_⟩
      have hk' : k = 0 ∨ k = 1 := by simp at hk; omega
      rcases hk' with rfl | rfl <;> simp

/-- C77 does not hold of open curves: the code takes every curve to be closed. This one consists of three strokes that meet only where
they join, yet it is taken apart. -/
theorem C77_open_counterexample : ∃ (lib : Lib) (h : Hdr) (cps : List (CP ℝ)) (es : List Elem), lib.Sound ∧ h.closed = false ∧
    h.xf = Mat3.one ∧
    (∀ (i j : ℕ) (A B : Poly4 ℝ) (t s : ℝ), i < j → (segs h.closed cps)[i]? = some A → (segs h.closed cps)[j]? = some B → 0 ≤ t → t ≤ 1 → 0 ≤ s → s ≤ 1 →
      A.at' t = B.at' s → j = i + 1 ∧ t = 1 ∧ s = 0) ∧
    selfIntersect lib (.curve h cps) = .ok es ∧ es ≠ [] := by
  obtain ⟨out, ho⟩ := C65_result_ok _ _ _ zed_ok.1 zed_ok.2.1 zed_ok.2.2.1 zed_ok.2.2.2
  have hl : selfIntersectLib zedLib zed = .ok out := by rw [selfIntersectLib, zed_found, ho]
  have hne : out ≠ [] := by
    rintro rfl
    have := C65_same_points _ _ _ zed_ok.1 zed_ok.2.1 zed_ok.2.2.1 ⟨[(1 / 2, ⟨1, 1⟩)], by simp [zedIxs], by simp⟩ _ ho
    have h2 : (seg zed[0] zed[1]).at' 0 ∈ Morph.trace (closedSegs zed) := by
      refine ⟨_, ?_, 0, le_rfl, zero_le_one, rfl⟩
      simp [closedSegs, zed]
    rw [← this] at h2
    simp [Morph.trace] at h2
  have hid : zed.map (·.transformLin (Mat3.one : Mat3 ℝ).apply) = zed := by
    simp [zed, CP.transformLin, Mat3.apply, Mat3.one, CP.l, CP.r, Pt.addVector, Pt.sub]
  refine ⟨zedLib, ⟨"z".toList, ⟨none, none⟩, false, Mat3.one⟩, zed,
    out.mapIdx (fun i c => .curve ⟨"z".toList ++ "_i".toList ++ fmtNat i, ⟨none, none⟩, false, Mat3.one⟩ c), zedLib_sound, rfl, rfl, ?_, ?_, ?_⟩
  · have e : segs false zed = [⟨⟨2, 2⟩, ⟨2, 2⟩, ⟨2, 0⟩, ⟨2, 0⟩⟩, ⟨⟨2, 0⟩, ⟨2, 0⟩, ⟨0, 2⟩, ⟨0, 2⟩⟩, ⟨⟨0, 2⟩, ⟨0, 2⟩, ⟨0, 0⟩, ⟨0, 0⟩⟩] := by
      simp [segs, openSegs, zed, seg, CP.l, CP.r, Pt.addVector]
    intro i j A B t s hij hA hB h0 h1 h2 h3 hm
    rw [e] at hA hB
    have hj : j < 3 := by simpa using (List.getElem?_eq_some_iff.1 hB).1
    have hz : s * s * (3 - 2 * s) = 0 → s = 0 := by
      intro h
      rcases mul_eq_zero.1 h with h | h
      · simpa using h
      · linarith
    have ho : (1 - t) * (1 - t) * (1 + 2 * t) = 0 → t = 1 := by
      intro h
      rcases mul_eq_zero.1 h with h | h
      · have : 1 - t = 0 := by simpa using h
        linarith
      · linarith
    have cases3 : (i = 0 ∧ j = 1) ∨ (i = 0 ∧ j = 2) ∨ (i = 1 ∧ j = 2) := by omega
    rcases cases3 with ⟨rfl, rfl⟩ | ⟨rfl, rfl⟩ | ⟨rfl, rfl⟩
    all_goals
      simp only [List.getElem?_cons_zero, List.getElem?_cons_succ, Option.some.injEq] at hA hB
      subst hA hB
      simp only [Poly4.at', bern, Pt.mk.injEq] at hm
      obtain ⟨hx, hy⟩ := hm
    · have hs : s = 0 := hz (by linear_combination hx / 2)
      subst hs
      exact ⟨rfl, ho (by linear_combination hy / 2), rfl⟩
    · exfalso
      have : (2 : ℝ) = 0 := by linear_combination hx
      norm_num at this
    · have ht : t = 1 := ho (by linear_combination hx / 2)
      subst ht
      exact ⟨rfl, rfl, hz (by linear_combination hy / 2)⟩
  · simp only [selfIntersect, hid, hl]
    cases out with
    | nil => exact absurd rfl hne
    | cons c rest => rfl
  · rw [ne_eq, List.mapIdx_eq_nil_iff]
    exact hne

end X7.Elem
