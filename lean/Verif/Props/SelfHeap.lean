import Verif.Lemmas.SelfHeap

/-!
C79: what a call of `bez_self_intersect` does to the control points it is given, and that its result does not depend on the fact that it
changes them.
-/

noncomputable section

open Classical

namespace X7.Bzi

theorem found_unit (lib : Lib) (hs : lib.Sound) (cs : List (CP ℝ × CP ℝ)) : ∀ l ∈ findIxs lib cs, ∀ p ∈ l, 0 ≤ p.1 ∧ p.1 ≤ 1 := by
  rintro l hl ⟨t, pt⟩ hp
  obtain ⟨k, hk, he⟩ := List.getElem_of_mem hl
  have hk' := List.getElem?_eq_getElem hk
  rw [he] at hk'
  rw [mem_findIxs lib cs hk', mem_records] at hp
  obtain ⟨i, j, t', s, A, hx, hA, -, h⟩ := hp
  obtain ⟨A', B, hij, hA', hB, l', hl1, hl2, -⟩ := hx
  obtain ⟨h1, h2, -⟩ := hs _ _ _ hl1 _ hl2
  rcases h with ⟨rfl, rfl⟩ | ⟨rfl, rfl⟩
  · exact h1
  · exact h2

theorem closeUp_sim (h : Heap) (x0 L : ℕ × Option (Pt ℝ)) (init : List (ℕ × Option (Pt ℝ))) (hn : ((x0 :: init).map Prod.fst).Nodup) :
    closeUpObj (x0 :: init ++ [L]) h = (h.set x0.1 { h.obj x0.1 with dl := (h.obj L.1).dl }, .ok (x0 :: init)) ∧
    closeUp (read h (x0 :: init ++ [L])) = .ok (read (h.set x0.1 { h.obj x0.1 with dl := (h.obj L.1).dl }) (x0 :: init)) := by
  have h1 : (x0 :: init ++ [L]).getLast? = some L := List.getLast?_concat
  have h2 : (x0 :: init ++ [L]).dropLast = x0 :: init := List.dropLast_concat
  constructor
  · simp only [closeUpObj, h1, h2]
    rfl
  · have r1 : (read h (x0 :: init ++ [L])).getLast? = some ⟨h.obj L.1, L.2⟩ := by
      rw [read_append]; exact List.getLast?_concat
    have r2 : (read h (x0 :: init ++ [L])).head? = some ⟨h.obj x0.1, x0.2⟩ := rfl
    have r3 : (read h (x0 :: init ++ [L])).tail = read h init ++ [⟨h.obj L.1, L.2⟩] := by
      show read h (init ++ [L]) = _
      rw [read_append]; rfl
    simp only [closeUp, r1, r2, r3]
    rw [← List.cons_append, List.dropLast_concat]
    obtain ⟨hn, -⟩ := List.nodup_cons.1 hn
    congr 1
    show _ = (⟨_, _⟩ : CpBool) :: _
    congr 1
    · simp [Heap.set]
    · refine (read_congr fun x hx => ?_).symm
      have : x.1 ≠ x0.1 := fun e => hn (e ▸ List.mem_map.2 ⟨x, hx, rfl⟩)
      simp [Heap.set, Function.update, this]

/-- All facts about one call. -/
theorem call_ok (lib : Lib) (c : ℕ) (cs : List ℕ) (h : Heap) (hd : (c :: cs).Nodup) (hb : ∀ x ∈ c :: cs, x < h.next) :
    (selfIntersectObj lib (c :: cs) h).2 = selfIntersectLib lib ((c :: cs).map h.obj) ∧
    ∀ x < h.next, ∃ dl dr, (selfIntersectObj lib (c :: cs) h).1.obj x = ⟨(h.obj x).c, dl, dr, (h.obj x).kind⟩ ∧
      (x ≠ c → dl = (h.obj x).dl) ∧ (x ∉ cs → dr = (h.obj x).dr) ∧
      (lib.Sound → Shorter dl (h.obj x).dl ∧ Shorter dr (h.obj x).dr) := by
  have hbc := hb c List.mem_cons_self
  have hbq : ∀ q ∈ cs ++ [c], q < h.next := fun q hq => hb q (by simpa [or_comm] using hq)
  have hP := path_ok (hitLib lib) (cs ++ [c]) c h hbc hbq
  obtain ⟨a1, a2, a3⟩ := allCurves_sim (hitLib lib) (path c (cs ++ [c])) h (path_lt hbc hbq)
  have hv : ((path c (cs ++ [c])).map fun ab => (h.obj ab.1, h.obj ab.2)) = iterRotate2 ((c :: cs).map h.obj) := by
    rw [← rotate_path, iterRotate2, iterRotate2, ← List.map_rotate, List.zip_map]
    rfl
  rw [hv] at a2
  have hcs : (c :: cs).map h.obj = (c :: cs).map h.obj := rfl
  obtain ⟨h1, S, hR⟩ : ∃ h1 S, allCurvesObj (hitLib lib) (path c (cs ++ [c])) h = (h1, S) := ⟨_, _, rfl⟩
  obtain ⟨P1, P2, P3, P4, P5, P6, P7, P8⟩ := hP
  rw [hR] at a1 a2 a3 P1 P2 P3 P4 P5 P6 P7 P8
  simp only at a1 a2 a3 P1 P2 P3 P4 P5 P6 P7 P8
  have a2 : (S.map fun ab => (h1.obj ab.1, h1.obj ab.2)) = allCurves (hitLib lib) ((c :: cs).map h.obj) := a2
  simp only [selfIntersectObj, rotate_path, hR, selfIntersectLib, selfIntersect, ← a2]
  set V := S.map fun ab => (h1.obj ab.1, h1.obj ab.2) with hV
  set X := findIxs lib V with hX
  have hlen : X.length = S.length := by rw [hX, findIxs_length, hV, List.length_map]
  have hfst : (S.zip X).map Prod.fst = S := List.map_fst_zip hlen.ge
  have hvals : vals h1 (S.zip X) = V.zip X := by
    rw [vals, hV]
    rw [List.zip_map_left]
    rfl
  have hcond : (∀ c ∈ S.zip X, c.2 = []) ↔ (∀ c ∈ V.zip X, c.2 = []) := by
    rw [← hvals, vals]
    simp only [List.mem_map]
    constructor
    · rintro hh _ ⟨c, hc, rfl⟩; exact hh c hc
    · intro hh c hc; exact hh _ ⟨c, hc, rfl⟩
  have hunch : ∀ x < h.next, ∃ dl dr, h1.obj x = ⟨(h.obj x).c, dl, dr, (h.obj x).kind⟩ ∧ (x ≠ c → dl = (h.obj x).dl) ∧
      (x ∉ cs → dr = (h.obj x).dr) ∧ (lib.Sound → Shorter dl (h.obj x).dl ∧ Shorter dr (h.obj x).dr) := by
    intro x hx
    exact ⟨_, _, a1.same x hx, fun _ => rfl, fun _ => rfl, fun _ => ⟨.refl _, .refl _⟩⟩
  by_cases hc0 : ∀ c ∈ S.zip X, c.2 = []
  · rw [if_pos hc0, if_pos (hcond.1 hc0)]
    exact ⟨rfl, hunch⟩
  · rw [if_neg hc0, if_neg (fun hh => hc0 (hcond.2 hh))]
    obtain ⟨⟨s, ixs⟩, rest, hcur⟩ : ∃ a l, S.zip X = a :: l := by
      cases hz : S.zip X with
      | nil => rw [hz] at hc0; simp at hc0
      | cons a l => exact ⟨a, l, rfl⟩
    have hS : S = s :: rest.map Prod.fst := by rw [← hfst, hcur]; rfl
    have hdl : (cs ++ [c]).dropLast = cs := List.dropLast_concat
    have hnd : (cs ++ [c]).Nodup := by
      have := List.nodup_cons.1 hd
      rw [List.nodup_append]
      refine ⟨this.2, by simp, ?_⟩
      rintro a ha b hb rfl
      rw [List.mem_singleton.1 hb] at ha
      exact this.1 ha
    have hhead := P3 s (by rw [hS]; rfl)
    have hsep : Sep [s.1] (s :: rest.map Prod.fst) := by
      rw [← hS]
      refine P4 hnd [s.1] ?_ ?_
      · intro a ha
        rw [List.mem_singleton.1 ha]
        rcases hhead.1 with e | ⟨e, -⟩
        · rw [e]; exact hbc.le
        · exact e.le
      · intro q hq hm
        rw [List.mem_singleton] at hm
        rw [hdl] at hq
        rcases hhead.1 with e | ⟨e, -⟩
        · rw [hm, e] at hq
          exact (List.nodup_cons.1 hd).1 hq
        · have := hb q (List.mem_cons_of_mem _ hq)
          omega
    have hne : rest ≠ [] → s.2 ≠ s.1 := by
      intro hr e
      rcases hhead.1 with e' | ⟨e1, e2⟩
      · have hs2 : s.2 ∈ (S.map Prod.snd).dropLast := by
          rw [hS, List.map_cons, List.dropLast_cons_of_ne_nil (by simpa using hr)]
          exact List.mem_cons_self
        have := P6 s.2 (by rw [e, e']; exact hbc) hs2
        rw [hdl, e, e'] at this
        exact (List.nodup_cons.1 hd).1 this
      · omega
    obtain ⟨e1, e2, e3, e4, e5, e6⟩ := expandObj_start (h := h1) (N := h1.next) (ixs := ixs) rfl hsep (fun s' hs' => a3 s' (hS ▸ hs')) hne
    have hbs : (s.2 :: rest.map fun c => c.1.2) = S.map Prod.snd := by
      rw [hS, List.map_cons, List.map_map]
      rfl
    rw [hbs] at e4
    rw [← hcur, hvals] at e2
    rw [← hcur] at e1 e3 e4 e5 e6
    obtain ⟨h2, o, hE⟩ : ∃ h2 o, expandObj [] (S.zip X) h1 = (h2, o) := ⟨_, _, rfl⟩
    rw [hE] at e1 e2 e3 e4 e5 e6
    simp only at e1 e2 e3 e4 e5 e6
    simp only [hE, graphOf]
    rw [← e2]
    have hsound : lib.Sound → ∀ c ∈ S.zip X, ∀ p ∈ c.2, 0 ≤ p.1 ∧ p.1 ≤ 1 := fun hs c hc =>
      found_unit lib hs V c.2 (by obtain ⟨a, b⟩ := c; exact (List.of_mem_zip hc).2)
    have hafter : ∀ x < h.next, ∃ dr, h2.obj x = ⟨(h.obj x).c, (h.obj x).dl, dr, (h.obj x).kind⟩ ∧
        (x ∉ cs → dr = (h.obj x).dr) ∧ (lib.Sound → Shorter dr (h.obj x).dr) := by
      intro x hx
      have hx1 := hx.trans_le a1.le
      obtain ⟨dr, hdr⟩ := e3 x hx1
      refine ⟨dr, by rw [hdr, a1.same x hx], ?_, ?_⟩
      · intro hxc
        have := e4 x hx1 (fun hm => hxc (hdl ▸ P6 x hx hm))
        rw [hdr, a1.same x hx] at this
        exact congrArg CP.dr this
      · intro hs
        have := (e6 (hsound hs) (hS ▸ P5)).1 x hx1
        rwa [hdr, a1.same x hx] at this
    have hafter' : ∀ x < h.next, ∃ dl dr, h2.obj x = ⟨(h.obj x).c, dl, dr, (h.obj x).kind⟩ ∧ (x ≠ c → dl = (h.obj x).dl) ∧
        (x ∉ cs → dr = (h.obj x).dr) ∧ (lib.Sound → Shorter dl (h.obj x).dl ∧ Shorter dr (h.obj x).dr) := by
      intro x hx
      obtain ⟨dr, q1, q2, q3⟩ := hafter x hx
      exact ⟨_, dr, q1, fun _ => rfl, q2, fun hs => ⟨.refl _, q3 hs⟩⟩
    cases o with
    | error e => exact ⟨rfl, hafter'⟩
    | ok out =>
      obtain ⟨x0, init, L, rfl, hnd', hx0⟩ := e5 out rfl
      obtain ⟨c1, c2⟩ := closeUp_sim h2 x0 L init hnd'
      simp only [Except.map, c1, c2]
      refine ⟨?_, ?_⟩
      · rw [loopsOf]
        cases rotateFirst (read (h2.set x0.1 { h2.obj x0.1 with dl := (h2.obj L.1).dl }) (x0 :: init)) with
        | error e => rfl
        | ok r =>
          simp only
          cases makeEdges [] none [] (r ++ r.take 1) with
          | error e => rfl
          | ok es =>
            simp only
            cases stitch es <;> rfl
      · intro x hx
        by_cases hxx : x = x0.1
        · have hxs : x = s.1 := by rw [hxx]; exact hx0 (hxx ▸ hx.trans_le a1.le)
          have hxc : x = c := by
            rcases hhead.1 with e | ⟨e, -⟩
            · rw [hxs, e]
            · omega
          obtain ⟨dr, q1, q2, q3⟩ := hafter x hx
          refine ⟨(h2.obj L.1).dl, dr, ?_, fun hn => absurd hxc hn, q2, fun hs => ⟨?_, q3 hs⟩⟩
          · rw [hxx] at q1 ⊢
            simp [Heap.set, q1]
          · obtain ⟨s', hs'⟩ : ∃ s', (S.zip X).getLast? = some s' := ⟨_, List.getLast?_eq_some_getLast (by rw [hcur]; simp)⟩
            have t1 := (e6 (hsound hs) (hS ▸ P5)).2 _ rfl L s' List.getLast?_concat hs'
            have hl : S.getLast? = some s'.1 := by rw [← hfst, List.getLast?_map, hs']; rfl
            have t2 := P7 s'.1 c hl List.getLast?_concat
            rw [hxc]
            exact t1.trans t2
        · obtain ⟨dl, dr, q⟩ := hafter' x hx
          refine ⟨dl, dr, ?_, q.2⟩
          rw [← q.1]
          simp [Heap.set, Function.update, hxx]

theorem call_nil (lib : Lib) (h : Heap) : selfIntersectObj lib [] h = (h, .ok []) := by
  simp [selfIntersectObj, iterRotate2, allCurvesObj]

theorem value_nil (lib : Lib) : selfIntersectLib lib [] = .ok [] := by
  simp [selfIntersectLib, selfIntersect, allCurves, iterRotate2]

/-- C79: although the call writes to control points it was given, its result is that of the model in which control points are values: no
control point is read after it was changed. -/
theorem C79_result (lib : Lib) (cps : List ℕ) (h : Heap) (hd : cps.Nodup) (hb : ∀ x ∈ cps, x < h.next) :
    (selfIntersectObj lib cps h).2 = selfIntersectLib lib (cps.map h.obj) := by
  cases cps with
  | nil => rw [call_nil, List.map_nil, value_nil]
  | cons c cs => exact (call_ok lib c cs h hd hb).1

/-- C79: what a call, whether it returns or raises, does to the control points that existed before. Those not in the argument are as
before. Centres and kinds are kept. Of the first control point of the argument only the left handle can change, of the others only the
right handle. -/
theorem C79_frame (lib : Lib) (cps : List ℕ) (h : Heap) (hd : cps.Nodup) (hb : ∀ x ∈ cps, x < h.next) (x : ℕ) (hx : x < h.next) :
    let before := h.obj x
    let after := (selfIntersectObj lib cps h).1.obj x
    (x ∉ cps → after = before) ∧ after.c = before.c ∧ after.kind = before.kind ∧
      (cps.head? ≠ some x → after.dl = before.dl) ∧ (x ∉ cps.tail → after.dr = before.dr) := by
  cases cps with
  | nil => simp [call_nil]
  | cons c cs =>
    obtain ⟨dl, dr, e, h1, h2, -⟩ := (call_ok lib c cs h hd hb).2 x hx
    rw [e]
    refine ⟨?_, rfl, rfl, ?_, h2⟩
    · intro hxc
      rw [List.mem_cons, not_or] at hxc
      show (⟨_, dl, dr, _⟩ : CP ℝ) = _
      rw [h1 hxc.1, h2 hxc.2]
    · intro hc
      exact h1 (fun hxc => hc (by rw [hxc]; rfl))

/-- C79: a handle that changes keeps its direction and does not get longer, if the library returns parameters between 0 and 1. -/
theorem C79_shorter (lib : Lib) (hs : lib.Sound) (cps : List ℕ) (h : Heap) (hd : cps.Nodup) (hb : ∀ x ∈ cps, x < h.next) (x : ℕ)
    (hx : x < h.next) :
    Shorter ((selfIntersectObj lib cps h).1.obj x).dl (h.obj x).dl ∧ Shorter ((selfIntersectObj lib cps h).1.obj x).dr (h.obj x).dr := by
  cases cps with
  | nil => rw [call_nil]; exact ⟨.refl _, .refl _⟩
  | cons c cs =>
    obtain ⟨dl, dr, e, -, -, h3⟩ := (call_ok lib c cs h hd hb).2 x hx
    simp only [e]
    exact h3 hs

theorem transformObj_ext (f : Pt ℝ → Pt ℝ) : ∀ (cps : List ℕ) (h : Heap), Ext h (transformObj f cps h) ∧
    (transformObj f cps h).next = h.next + cps.length := by
  intro cps
  induction cps with
  | nil => intro h; exact ⟨.refl h, rfl⟩
  | cons x rest ih =>
    intro h
    obtain ⟨i1, i2⟩ := ih (h.new ((h.obj x).transformLin f))
    refine ⟨(ext_new _ _).trans i1, ?_⟩
    rw [transformObj, i2, List.length_cons]
    simp only [Heap.new]
    omega

theorem transformObj_vals (f : Pt ℝ → Pt ℝ) : ∀ (cps : List ℕ) (h : Heap), (∀ x ∈ cps, x < h.next) →
    (List.range' h.next cps.length).map (transformObj f cps h).obj = cps.map fun x => (h.obj x).transformLin f := by
  intro cps
  induction cps with
  | nil => intro h _; rfl
  | cons x rest ih =>
    intro h hb
    have hx := ext_new h ((h.obj x).transformLin f)
    have hi := ih (h.new ((h.obj x).transformLin f)) (fun y hy => (hb y (List.mem_cons_of_mem _ hy)).trans_le hx.le)
    rw [List.length_cons, List.range'_succ, List.map_cons, List.map_cons, transformObj]
    have h0 := (transformObj_ext f rest (h.new ((h.obj x).transformLin f))).1.same h.next (Nat.lt_succ_self _)
    rw [h0]
    congr 1
    · simp [Heap.new]
    · rw [show h.next + 1 = (h.new ((h.obj x).transformLin f)).next from rfl, hi]
      refine List.map_congr_left fun y hy => ?_
      rw [hx.same y (hb y (List.mem_cons_of_mem _ hy))]

/-- C79: `ElemCurve.self_intersect` hands over new control points, so no control point of any shape is changed, even if a curve has the
same control point object twice, and the result is that for the transformed control points. -/
theorem C79_elem (lib : Lib) (f : Pt ℝ → Pt ℝ) (cps : List ℕ) (h : Heap) (hb : ∀ x ∈ cps, x < h.next) :
    (∀ x < h.next, (elemSelfIntersectObj lib f cps h).1.obj x = h.obj x) ∧
    (elemSelfIntersectObj lib f cps h).2 = selfIntersectLib lib (cps.map fun x => (h.obj x).transformLin f) := by
  obtain ⟨t1, t2⟩ := transformObj_ext f cps h
  have hlt : ∀ x ∈ List.range' h.next cps.length, x < (transformObj f cps h).next := by
    intro x hx
    rw [t2]
    exact (List.mem_range'_1.1 hx).2
  refine ⟨?_, ?_⟩
  · intro x hx
    have := (C79_frame lib (List.range' h.next cps.length) (transformObj f cps h) List.nodup_range' hlt x (hx.trans_le t1.le)).1
      (fun hm => absurd (List.mem_range'_1.1 hm).1 (by omega))
    rw [elemSelfIntersectObj, this, t1.same x hx]
  · rw [elemSelfIntersectObj, C79_result lib _ _ List.nodup_range' hlt, transformObj_vals f cps h hb]

/-! ### A bow tie whose second diagonal has handles -/

def bowArc : List (CP ℝ) :=
  [⟨⟨0, 0⟩, ⟨0, 0⟩, ⟨0, 0⟩, "sharp"⟩, ⟨⟨2, 2⟩, ⟨0, 0⟩, ⟨0, 0⟩, "sharp"⟩, ⟨⟨2, 0⟩, ⟨0, 0⟩, ⟨-1, 1⟩, "sharp"⟩,
    ⟨⟨0, 2⟩, ⟨1, -1⟩, ⟨0, 0⟩, "sharp"⟩]

def bowArcLib : Lib := fun A B =>
  if A = ⟨⟨0, 0⟩, ⟨0, 0⟩, ⟨2, 2⟩, ⟨2, 2⟩⟩ ∧ B = ⟨⟨2, 0⟩, ⟨1, 1⟩, ⟨1, 1⟩, ⟨0, 2⟩⟩ then some [(1 / 2, 1 / 2)] else none

theorem bowArcLib_sound : bowArcLib.Sound := by
  intro A B l h ts hts
  unfold bowArcLib at h
  split at h
  · next hAB =>
    obtain ⟨rfl, rfl⟩ := hAB
    cases h
    simp only [List.mem_singleton] at hts
    subst hts
    refine ⟨by norm_num, by norm_num, ?_⟩
    ext <;> simp [Poly4.at', bern] <;> norm_num
  · cases h

/-- The four control points as objects 0, 1, 2, 3. -/
def bowHeap : Heap := ⟨fun x => bowArc.getD x ⟨⟨0, 0⟩, ⟨0, 0⟩, ⟨0, 0⟩, "sharp"⟩, 4⟩

theorem bowArc_none (A B : Poly4 ℝ) (h : A.a ≠ ⟨0, 0⟩ ∨ B.a ≠ ⟨2, 0⟩) : bowArcLib A B = none := by
  unfold bowArcLib
  rw [if_neg]
  rintro ⟨rfl, rfl⟩
  simp at h

theorem bowArc_hit (a b : CP ℝ) (h : a.c ≠ ⟨0, 0⟩ ∨ (bezSplit a b (1 / 2)).2.1.c ≠ ⟨2, 0⟩) : hitLib bowArcLib a b = false := by
  have e := bowArc_none (bzCurve (bezSplit a b (1 / 2)).1 (bezSplit a b (1 / 2)).2.1) (bzCurve (bezSplit a b (1 / 2)).2.1
    (bezSplit a b (1 / 2)).2.2) h
  simp only [hitLib, bezIntersectNew, e]
  simp

theorem allCurves_plain {hit : CP ℝ → CP ℝ → Bool} : ∀ {l : List (ℕ × ℕ)} {h : Heap}, (∀ s ∈ l, s.1 < h.next ∧ s.2 < h.next) →
    (∀ s ∈ l, hit (h.obj s.1) (h.obj s.2) = false) → (allCurvesObj hit l h).2 = l := by
  intro l
  induction l with
  | nil => intro h _ _; rfl
  | cons s l ih =>
    obtain ⟨a, b⟩ := s
    intro h hb hh
    have hx := ext_split h a b (1 / 2)
    have hf := hh (a, b) List.mem_cons_self
    simp only at hf
    have := ih (h := splitObj h a b (1 / 2)) (fun s hs => ⟨(hb s (List.mem_cons_of_mem _ hs)).1.trans_le hx.le,
      (hb s (List.mem_cons_of_mem _ hs)).2.trans_le hx.le⟩) (fun s hs => by
        have b := hb s (List.mem_cons_of_mem _ hs)
        rw [hx.same _ b.1, hx.same _ b.2]
        exact hh s (List.mem_cons_of_mem _ hs))
    simp only [allCurvesObj, hf, Bool.false_eq_true, if_false, this]

theorem split_one {a b : ℕ} {h : Heap} {t : ℝ} {p : Pt ℝ} (hp : (bezSplit (h.obj a) (h.obj b) t).2.1.c = p) :
    splitAtObj a b 0 none (sortIxs [(t, p)]) h =
      (splitObj h a b t, .ok [(h.next, none), (h.next + 1, some p), (h.next + 2, none)]) := by
  have h1 : sortIxs [(t, p)] = [(t, p)] := by simp [sortIxs]
  have h2 : ((bezSplit (h.obj a) (h.obj b) t).2.1.c.sub p).length = 0 := by
    rw [hp]
    simp [Pt.sub, Vec.length, hypot]
  rw [h1]
  simp only [splitAtObj, pyDiv, sub_zero, one_ne_zero, if_false, div_one, split_m, h2]
  rw [if_neg (by norm_num)]

theorem extend_one {cpbs : List (ℕ × Option (Pt ℝ))} {L l0 : ℕ × Option (Pt ℝ)} {rest : List (ℕ × Option (Pt ℝ))} {h : Heap}
    (hl : cpbs.getLast? = some L) (hc : (h.obj L.1).c = (h.obj l0.1).c) :
    extendObj cpbs (l0 :: rest) h = (h.set L.1 { h.obj L.1 with dr := (h.obj l0.1).dr }, .ok (cpbs ++ rest)) := by
  simp only [extendObj, hl, if_pos hc]

theorem set_ne (h : Heap) (x : ℕ) (v : CP ℝ) {y : ℕ} (hy : y ≠ x) : (h.set x v).obj y = h.obj y := Function.update_of_ne hy _ _

theorem bowArc_found : findIxs bowArcLib (iterRotate2 bowArc) = bowIxs := by
  have hc : combos (iterRotate2 bowArc).length = [(0, 1), (0, 2), (0, 3), (1, 2), (1, 3), (2, 3)] := rfl
  have h02 : bowArcLib ⟨⟨0, 0⟩, ⟨0, 0⟩, ⟨2, 2⟩, ⟨2, 2⟩⟩ ⟨⟨2, 0⟩, ⟨2 + -1, 1⟩, ⟨1, 2 + -1⟩, ⟨0, 2⟩⟩ = some [(1 / 2, 1 / 2)] := by
    norm_num [bowArcLib]
  rw [findIxs, hc]
  simp [iterRotate2, bowArc, bezIntersectNew, bzCurve, CP.l, CP.r, Pt.addVector, bowArc_none, h02, addIx, bowIxs, List.replicate, List.modify,
    List.modifyTailIdx, Poly4.at', bern]
  norm_num
  rfl

/-- The hypotheses of the theorems hold for the four objects of the bow tie. -/
example : bowArcLib.Sound ∧ [0, 1, 2, 3].Nodup ∧ (∀ x ∈ [0, 1, 2, 3], x < bowHeap.next) ∧ [0, 1, 2, 3].map bowHeap.obj = bowArc :=
  ⟨bowArcLib_sound, by decide, by decide, rfl⟩

/-- C79: the control points given to `bez_self_intersect` can change, so their curve is not the same afterwards: of the bow tie, the right
handle of the third control point is halved. -/
theorem C79_argument_counterexample : ∃ (lib : Lib) (cps : List ℕ) (h : Heap), lib.Sound ∧ cps.Nodup ∧ (∀ x ∈ cps, x < h.next) ∧
    ∃ x ∈ cps, (h.obj x).dr = ⟨-1, 1⟩ ∧ ((selfIntersectObj lib cps h).1.obj x).dr = ⟨-1 / 2, 1 / 2⟩ := by
  refine ⟨bowArcLib, [0, 1, 2, 3], bowHeap, bowArcLib_sound, by decide, by simp [bowHeap], 2, by simp, rfl, ?_⟩
  have hl : iterRotate2 [0, 1, 2, 3] = [(0, 1), (1, 2), (2, 3), (3, 0)] := rfl
  have hb : ∀ s ∈ [(0, 1), (1, 2), (2, 3), (3, 0)], s.1 < bowHeap.next ∧ s.2 < bowHeap.next := by decide
  have hp := allCurves_plain (hit := hitLib bowArcLib) hb (fun s hs => by
    apply bowArc_hit
    simp at hs
    rcases hs with rfl | rfl | rfl | rfl <;>
      simp [bowHeap, bowArc, bezSplit, lerp, CP.l, CP.r, Pt.addVector, Pt.sub, Vec.mul] <;> norm_num)
  have hx := (allCurves_sim (hitLib bowArcLib) _ _ hb).1
  obtain ⟨h1, S, hR⟩ : ∃ h1 S, allCurvesObj (hitLib bowArcLib) [(0, 1), (1, 2), (2, 3), (3, 0)] bowHeap = (h1, S) := ⟨_, _, rfl⟩
  rw [hR] at hp hx
  simp only at hp hx
  subst hp
  have o0 : h1.obj 0 = ⟨⟨0, 0⟩, ⟨0, 0⟩, ⟨0, 0⟩, "sharp"⟩ := hx.same 0 (by decide)
  have o1 : h1.obj 1 = ⟨⟨2, 2⟩, ⟨0, 0⟩, ⟨0, 0⟩, "sharp"⟩ := hx.same 1 (by decide)
  have o2 : h1.obj 2 = ⟨⟨2, 0⟩, ⟨0, 0⟩, ⟨-1, 1⟩, "sharp"⟩ := hx.same 2 (by decide)
  have o3 : h1.obj 3 = ⟨⟨0, 2⟩, ⟨1, -1⟩, ⟨0, 0⟩, "sharp"⟩ := hx.same 3 (by decide)
  have hv : ([(0, 1), (1, 2), (2, 3), (3, 0)].map fun ab : ℕ × ℕ => (h1.obj ab.1, h1.obj ab.2)) = iterRotate2 bowArc := by
    simp only [List.map_cons, List.map_nil, o0, o1, o2, o3]
    rfl
  have hn : 4 ≤ h1.next := hx.le
  simp only [selfIntersectObj, hl, hR, hv, bowArc_found]
  rw [if_neg (by simp [bowIxs])]
  have hz : [(0, 1), (1, 2), (2, 3), (3, 0)].zip bowIxs = [((0, 1), [((1 : ℝ) / 2, (⟨1, 1⟩ : Pt ℝ))]), ((1, 2), []),
    ((2, 3), [((1 : ℝ) / 2, (⟨1, 1⟩ : Pt ℝ))]), ((3, 0), [])] := rfl
  have hs0 : sortIxs [] = [] := by simp [sortIxs]
  rw [hz]
  simp only [expandObj]
  rw [split_one (by rw [o0, o1]; simp [bezSplit, lerp, CP.l, CP.r, Pt.addVector, Pt.sub, Vec.mul]; norm_num)]
  simp only [show ∀ loc h, extendObj [] loc h = (h, .ok loc) from fun _ _ => rfl, hs0, splitAtObj]
  have x2 := ext_split h1 0 1 (1 / 2)
  have r2 := split_r h1 0 1 (1 / 2)
  have n2 := split_next h1 0 1 (1 / 2)
  generalize splitObj h1 0 1 (1 / 2) = h2 at x2 r2 n2 ⊢
  have p1 := (x2.same 1 (by omega)).trans o1
  have p2 := (x2.same 2 (by omega)).trans o2
  have p3 := (x2.same 3 (by omega)).trans o3
  rw [extend_one (h := h2) (L := (h1.next + 2, none)) rfl (by rw [r2, p1, o0, o1]; rfl)]
  simp only
  have e3 : ∀ x < 4, (h2.set (h1.next + 2) { h2.obj (h1.next + 2) with dr := (h2.obj 1).dr }).obj x = h2.obj x := fun x hx =>
    Function.update_of_ne (by omega) _ _
  have n3 : (h2.set (h1.next + 2) { h2.obj (h1.next + 2) with dr := (h2.obj 1).dr }).next = h1.next + 3 := n2
  generalize h2.set (h1.next + 2) { h2.obj (h1.next + 2) with dr := (h2.obj 1).dr } = h3 at e3 n3 ⊢
  have q2 := (e3 2 (by omega)).trans p2
  have q3 := (e3 3 (by omega)).trans p3
  rw [split_one (by rw [q2, q3]; simp [bezSplit, lerp, CP.l, CP.r, Pt.addVector, Pt.sub, Vec.mul]; norm_num)]
  simp only [n3]
  have x4 := ext_split h3 2 3 (1 / 2)
  have l4 := split_l h3 2 3 (1 / 2)
  have r4 := split_r h3 2 3 (1 / 2)
  rw [q2, q3, n3] at l4 r4
  generalize splitObj h3 2 3 (1 / 2) = h4 at x4 l4 r4 ⊢
  have s2 := (x4.same 2 (by omega)).trans q2
  have s3 := (x4.same 3 (by omega)).trans q3
  rw [extend_one (h := h4) (L := (2, none)) rfl (by rw [l4, s2]; rfl)]
  simp only
  have e5 : ∀ x, x ≠ 2 → (h4.set 2 { h4.obj 2 with dr := (h4.obj (h1.next + 3)).dr }).obj x = h4.obj x := fun x hx =>
    Function.update_of_ne hx _ _
  have f5 : ((h4.set 2 { h4.obj 2 with dr := (h4.obj (h1.next + 3)).dr }).obj 2).dr = ⟨-1 / 2, 1 / 2⟩ := by
    simp only [Heap.set, Function.update_self, l4]
    ext <;> simp [bezSplit, lerp, CP.r, Pt.addVector, Pt.sub, Vec.mul] <;> norm_num
  generalize h4.set 2 { h4.obj 2 with dr := (h4.obj (h1.next + 3)).dr } = h5 at e5 f5 ⊢
  rw [extend_one (h := h5) (L := (h1.next + 3 + 2, none)) rfl (by rw [e5 _ (by simp), e5 _ (by simp), r4, s3]; rfl)]
  simp only
  have f6 : ((h5.set (h1.next + 3 + 2) { h5.obj (h1.next + 3 + 2) with dr := (h5.obj 3).dr }).obj 2).dr = ⟨-1 / 2, 1 / 2⟩ := by
    rw [← f5, set_ne _ _ _ (by omega)]
  generalize h5.set (h1.next + 3 + 2) { h5.obj (h1.next + 3 + 2) with dr := (h5.obj 3).dr } = h6 at f6 ⊢
  rw [← f6]
  show ((h6.set h1.next _).obj 2).dr = _
  rw [set_ne _ _ _ (by omega)]

end X7.Bzi
