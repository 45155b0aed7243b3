import Verif.Lemmas.LinkedStep

namespace X7.LK
open PH

theorem readCp_at {w : World} {i : ℕ} {o : Cp} (ho : w.cps[i]? = some o) : readCp w i = readObj w.pts o := by
  simp only [readCp, ho]

theorem Ok.addCurve {w : World} (k : Ok w) {c : Curve} (hc : ∀ p ∈ c.cps, p < w.cps.length) :
    Ok { w with curves := w.curves ++ [c] } := by
  refine ⟨k.wf, k.cp, fun j d hd => ?_⟩
  rcases lt_or_ge j w.curves.length with hj | hj
  · rw [List.getElem?_append_left hj] at hd; exact k.curve j d hd
  · rw [List.getElem?_append_right hj] at hd
    rcases Nat.eq_zero_or_pos (j - w.curves.length) with hz | hz
    · rw [hz] at hd
      simp at hd
      subst hd; exact hc
    · rw [List.getElem?_eq_none (by simp; omega)] at hd; cases hd

theorem Ok.setCurve {w : World} (k : Ok w) {j : ℕ} {c : Curve} (hc : ∀ p ∈ c.cps, p < w.cps.length) :
    Ok { w with curves := w.curves.set j c } := by
  refine ⟨k.wf, k.cp, fun i d hd => ?_⟩
  simp only [List.getElem?_set] at hd
  split at hd
  · split at hd
    · cases hd; exact hc
    · simp at hd
  · exact k.curve i d hd

/-- The control point refers to three plain objects at or behind index `n`. -/
def PlainAt (h : Heap ℝ) (n : ℕ) (o : Cp) : Prop :=
  n ≤ o.c ∧ n ≤ o.dl ∧ n ≤ o.dr ∧ (∃ x y m, h[o.c]? = some (.point x y m)) ∧ (∃ x y, h[o.dl]? = some (.vec x y)) ∧
    ∃ x y, h[o.dr]? = some (.vec x y)

theorem PlainAt.append {h l : Heap ℝ} {n : ℕ} {o : Cp} (P : PlainAt h n o) : PlainAt (h ++ l) n o := by
  obtain ⟨a, b, c, ⟨x, y, m, e⟩, ⟨x', y', e'⟩, ⟨x'', y'', e''⟩⟩ := P
  have g : ∀ i a, h[i]? = some a → (h ++ l)[i]? = some a := fun i a h1 => by
    rw [List.getElem?_append_left (List.getElem?_eq_some_iff.1 h1).1]; exact h1
  exact ⟨a, b, c, ⟨x, y, m, g _ _ e⟩, ⟨x', y', g _ _ e'⟩, ⟨x'', y'', g _ _ e''⟩⟩

theorem wf_plain3 {h : Heap ℝ} (hw : WF h) (x y : ℝ) (m) (a b c d : ℝ) :
    WF (h ++ [.point x y m, .vec a b, .vec c d]) := by
  have h1 : WF (h ++ [.point x y m]) := wf_append1 hw trivial
  have h2 : WF (h ++ [.point x y m] ++ [.vec a b]) := wf_append1 h1 trivial
  have h3 : WF (h ++ [.point x y m] ++ [.vec a b] ++ [.vec c d]) := wf_append1 h2 trivial
  simpa using h3

/-- A new control point made of three new plain objects. -/
theorem push3 {w : World} (k : Ok w) (v : CP ℝ) (m) :
    let h := w.pts ++ [.point v.c.x v.c.y m, .vec v.dl.x v.dl.y, .vec v.dr.x v.dr.y]
    let o : Cp := ⟨w.pts.length, w.pts.length + 1, w.pts.length + 2, v.kind⟩
    let w' : World := { w with pts := h, cps := w.cps ++ [o] }
    Ok w' ∧ (∀ T, Ext w w' T) ∧ readCp w' w.cps.length = .ok v ∧ w'.cps[w.cps.length]? = some o ∧ PlainAt h w.pts.length o := by
  intro h o w'
  have hw : WF h := wf_plain3 k.wf v.c.x v.c.y m v.dl.x v.dl.y v.dr.x v.dr.y
  have g0 : h[w.pts.length]? = some (.point v.c.x v.c.y m) := by simp [h]
  have g1 : h[w.pts.length + 1]? = some (.vec v.dl.x v.dl.y) := by
    simp only [h]; rw [List.getElem?_append_right (by omega)]; simp
  have g2 : h[w.pts.length + 2]? = some (.vec v.dr.x v.dr.y) := by
    simp only [h]; rw [List.getElem?_append_right (by omega)]; simp
  have r : RefOk h o := ⟨by simp [isBasePoint, o, g0], by simp [isVec, o, g1], by simp [isVec, o, g2]⟩
  have hc : w'.cps[w.cps.length]? = some o := by simp [w']
  refine ⟨(k.grow hw).push r, fun T => ⟨⟨_, rfl⟩, by simp [w'], fun p hp _ => List.getElem?_append_left hp⟩, ?_, hc,
    le_rfl, by simp [o], by simp [o], ⟨_, _, _, g0⟩, ⟨_, _, g1⟩, ⟨_, _, g2⟩⟩
  rw [readCp_at hc, readObj_ok]
  refine ⟨xy_point g0, readVec_ok.2 (xy_vec g1), readVec_ok.2 (xy_vec g2), rfl⟩

/-- What the loops which make new control points with plain objects do. -/
structure Made (w w' : World) (is : List ℕ) (vs : List (CP ℝ)) : Prop where
  ok : Ok w'
  ext : ∀ T, Ext w w' T
  curves : w'.curves = w.curves
  len : is.length = vs.length
  lt : ∀ p ∈ is, w.cps.length ≤ p ∧ p < w'.cps.length
  nodup : is.Nodup
  get : ∀ (t p : ℕ), is[t]? = some p → ∃ v, vs[t]? = some v ∧ readCp w' p = .ok v
  plain : ∀ p ∈ is, ∃ o, w'.cps[p]? = some o ∧ PlainAt w'.pts w.pts.length o

theorem Made.nil {w : World} (k : Ok w) : Made w w [] [] :=
  ⟨k, fun T => Ext.refl w T, rfl, rfl, by simp, by simp, by simp, by simp⟩

theorem Made.cons {w w1 w2 : World} {v : CP ℝ} {o : Cp} {is : List ℕ} {vs : List (CP ℝ)} (k1 : Ok w1) (E : ∀ T, Ext w w1 T)
    (hcv : w1.curves = w.curves) (hc : w1.cps.length = w.cps.length + 1) (ho : w1.cps[w.cps.length]? = some o)
    (hr : readCp w1 w.cps.length = .ok v) (hp : PlainAt w1.pts w.pts.length o) (M : Made w1 w2 is vs) :
    Made w w2 (w.cps.length :: is) (v :: vs) := by
  obtain ⟨l, el⟩ := (M.ext (fun _ => False)).pts
  obtain ⟨l1, el1⟩ := (E (fun _ => False)).pts
  have hlt : w.cps.length < w2.cps.length := by have := (M.ext (fun _ => False)).len; omega
  refine ⟨M.ok, fun T => (E T).trans (M.ext T) (fun _ h => h) (fun _ h => h), by rw [M.curves, hcv], by simp [M.len], ?_, ?_, ?_, ?_⟩
  · intro p hp'
    rcases List.mem_cons.1 hp' with rfl | h
    · exact ⟨le_rfl, hlt⟩
    · have := M.lt p h; omega
  · rw [List.nodup_cons]
    exact ⟨fun h => by have := M.lt _ h; omega, M.nodup⟩
  · intro t p h
    cases t with
    | zero =>
      simp at h; subst h
      exact ⟨v, by simp, by rw [(M.ext (fun _ => False)).readCp k1 (by omega) (by simp)]; exact hr⟩
    | succ t => simp at h; simpa using M.get t p h
  · intro p hp'
    rcases List.mem_cons.1 hp' with rfl | h
    · refine ⟨o, ?_, by rw [el]; exact hp.append⟩
      rw [(M.ext (fun _ => False)).cps _ (by omega) (by simp)]; exact ho
    · obtain ⟨o2, e1, e2⟩ := M.plain p h
      refine ⟨o2, e1, ?_⟩
      obtain ⟨a, b, c, d⟩ := e2
      have : w.pts.length ≤ w1.pts.length := by rw [el1]; simp
      exact ⟨this.trans a, this.trans b, this.trans c, d⟩

theorem Made.read {w w' : World} {is : List ℕ} {vs : List (CP ℝ)} (M : Made w w' is vs) : readCps w' is = .ok vs :=
  readCps_of M.len.symm M.get

theorem newCps_made {w : World} (k : Ok w) (vs : List (CP ℝ)) : Made w (newCps w vs).1 (newCps w vs).2 vs := by
  induction vs generalizing w with
  | nil => exact Made.nil k
  | cons v vs ih =>
    obtain ⟨k1, E, hr, ho, hp⟩ := push3 k v none
    exact Made.cons k1 E rfl (by simp) ho hr hp (ih k1)

theorem fixedCps_made {w : World} (k : Ok w) (is : List ℕ) {vs : List (CP ℝ)} (hv : readCps w is = .ok vs)
    (hl : ∀ p ∈ is, p < w.cps.length) :
    ∃ w' js, fixedCps w is = .ok (w', js) ∧ Made w w' js vs := by
  induction is generalizing w vs with
  | nil => simp only [readCps, Except.ok.injEq] at hv; subst hv; exact ⟨w, [], rfl, Made.nil k⟩
  | cons i is ih =>
    have hi := hl i (by simp)
    obtain ⟨o, ho⟩ : ∃ o, w.cps[i]? = some o := ⟨_, List.getElem?_eq_getElem hi⟩
    obtain ⟨hlen, hget⟩ := readCps_get hv
    cases vs with
    | nil => simp at hlen
    | cons v vs =>
      obtain ⟨v', e1, e2⟩ := hget 0 i (by simp)
      simp at e1; subst e1
      rw [readCp_at ho] at e2
      obtain ⟨m, e3⟩ := fixedParts_ok (k.ref ho) e2
      obtain ⟨k1, E, hr, ho', hp⟩ := push3 k v m
      have hv' : readCps w is = .ok vs := readCps_of (by simpa using hlen) fun t p hp => by simpa using hget (t + 1) p (by simpa using hp)
      have hv2 := (readCps_congr (w := w) (is := is) fun p hp => (E (fun _ => False)).readCp k (hl p (by simp [hp])) (by simp)).trans hv'
      obtain ⟨w2, js, f1, f2⟩ := ih k1 hv2 (fun p hp => by have := hl p (by simp [hp]); simp; omega)
      refine ⟨w2, w.cps.length :: js, ?_, Made.cons k1 E rfl (by simp) ho' hr hp f2⟩
      simp only [fixedCps, fixedCp, ho, e3, f1]

theorem fixedCps_error {w : World} (k : Ok w) (is : List ℕ) {e : PyErr} (hv : readCps w is = .error e)
    (hl : ∀ p ∈ is, p < w.cps.length) : fixedCps w is = .error e := by
  induction is generalizing w with
  | nil => simp [readCps] at hv
  | cons i is ih =>
    have hi := hl i (by simp)
    obtain ⟨o, ho⟩ : ∃ o, w.cps[i]? = some o := ⟨_, List.getElem?_eq_getElem hi⟩
    simp only [readCps, readCp_at ho] at hv
    cases h1 : readObj w.pts o with
    | error e1 =>
      rw [h1] at hv
      simp only [Except.error.injEq] at hv
      simp only [fixedCps, fixedCp, ho, fixedParts_error (k.ref ho) h1, hv]
    | ok v =>
      rw [h1] at hv
      simp only at hv
      obtain ⟨m, e3⟩ := fixedParts_ok (k.ref ho) h1
      obtain ⟨k1, E, hr, ho', hp⟩ := push3 k v m
      have hc := readCps_congr (w := w) (is := is) fun p hp => (E (fun _ => False)).readCp k (hl p (by simp [hp])) (by simp)
      cases h2 : readCps w is with
      | ok us => rw [h2] at hv; simp at hv
      | error e2 =>
        rw [h2] at hv
        simp only [Except.error.injEq] at hv
        have := ih k1 (by rw [hc, h2, hv]) (fun p hp => by have := hl p (by simp [hp]); simp; omega)
        simp only [fixedCps, fixedCp, ho, e3, this]

/-! Reversed lists. -/

theorem reverseCps_ok {w : World} (k : Ok w) (is : List ℕ) (hl : ∀ p ∈ is, p < w.cps.length) :
    ∃ w' js, reverseCps w is = .ok (w', js) ∧ Ok w' ∧ (∀ T, Ext w w' T) ∧ w'.curves = w.curves ∧ w'.pts = w.pts ∧
      js.length = is.length ∧ (∀ p ∈ js, w.cps.length ≤ p ∧ p < w'.cps.length) ∧
      ∀ (t p : ℕ), is[t]? = some p → ∃ q o, js[t]? = some q ∧ w.cps[p]? = some o ∧ w'.cps[q]? = some ⟨o.c, o.dr, o.dl, o.kind⟩ := by
  induction is generalizing w with
  | nil => exact ⟨w, [], rfl, k, fun T => Ext.refl w T, rfl, rfl, rfl, by simp, by simp⟩
  | cons i is ih =>
    have hi := hl i (by simp)
    obtain ⟨o, ho⟩ : ∃ o, w.cps[i]? = some o := ⟨_, List.getElem?_eq_getElem hi⟩
    have r := k.ref ho
    have k1 : Ok { w with cps := w.cps ++ [⟨o.c, o.dr, o.dl, o.kind⟩] } := k.push ⟨r.1, r.2.2, r.2.1⟩
    have E : ∀ T, Ext w { w with cps := w.cps ++ [⟨o.c, o.dr, o.dl, o.kind⟩] } T :=
      fun T => ⟨⟨[], by simp⟩, by simp, fun p hp _ => List.getElem?_append_left hp⟩
    obtain ⟨w2, js, f1, f2, f3, f4, f5, f6, f7, f8⟩ := ih k1 (fun p hp => by have := hl p (by simp [hp]); simp; omega)
    have hlen := (f3 (fun _ => False)).len
    simp only [List.length_append, List.length_singleton] at hlen
    refine ⟨w2, w.cps.length :: js, ?_, f2, fun T => (E T).trans (f3 T) (fun _ h => h) (fun _ h => h), f4, f5, by simp [f6], ?_, ?_⟩
    · simp only [reverseCps, ho, f1]
    · intro p hp
      rcases List.mem_cons.1 hp with rfl | h
      · exact ⟨le_rfl, by omega⟩
      · have := f7 p h; simp at this; omega
    · intro t p hp
      cases t with
      | zero =>
        simp at hp; subst hp
        refine ⟨w.cps.length, o, by simp, ho, ?_⟩
        rw [(f3 (fun _ => False)).cps _ (by simp) (by simp)]; simp
      | succ t =>
        simp at hp
        obtain ⟨q, o2, g1, g2, g3⟩ := f8 t p hp
        refine ⟨q, o2, by simpa using g1, ?_, g3⟩
        have := hl p (by simp [List.mem_of_getElem? hp])
        simp only [List.getElem?_append_left this] at g2
        exact g2

/-! Adding a control point. -/

theorem readPair_ok {h : Heap ℝ} {o1 o2 : Cp} {a d : Pt ℝ} {dr dl : Vec ℝ} (h1 : xy h o1.c = .ok a) (h2 : readVec h o1.dr = .ok dr)
    (h3 : xy h o2.c = .ok d) (h4 : readVec h o2.dl = .ok dl) : readPair h o1 o2 = .ok (a, dr, dl, d) := by
  simp only [readPair, h1, h2, h3, h4]

/-- What `bez_split` makes. -/
structure Parts (h : Heap ℝ) (o1 o2 : Cp) (h' : Heap ℝ) (l m r : Cp) : Prop where
  pre : ∃ x, h' = h ++ x
  wf : WF h'
  lft : l.c = o1.c ∧ l.dl = o1.dl ∧ h.length ≤ l.dr ∧ ∃ x y, h'[l.dr]? = some (.vec x y)
  rgt : r.c = o2.c ∧ r.dr = o2.dr ∧ h.length ≤ r.dl ∧ ∃ x y, h'[r.dl]? = some (.vec x y)
  mid : PlainAt h' h.length m
  read : ∀ v1 v2, readObj h o1 = .ok v1 → readObj h o2 = .ok v2 → readObj h' l = .ok (bezSplit v1 v2 (1 / 2)).1 ∧
    readObj h' m = .ok (bezSplit v1 v2 (1 / 2)).2.1 ∧ readObj h' r = .ok (bezSplit v1 v2 (1 / 2)).2.2

theorem split_ok {h h' : Heap ℝ} {o1 o2 l m r : Cp} (hw : WF h) (r1 : RefOk h o1) (r2 : RefOk h o2)
    (e : split h o1 o2 = .ok (h', l, m, r)) : Parts h o1 o2 h' l m r := by
  simp only [split] at e
  cases hp : readPair h o1 o2 with
  | error e1 => rw [hp] at e; simp at e
  | ok x =>
    obtain ⟨a, dr, dl, d⟩ := x
    rw [hp] at e
    simp only [Except.ok.injEq, Prod.mk.injEq] at e
    obtain ⟨e0, e1, e2, e3⟩ := e
    obtain ⟨s, hs⟩ : ∃ s, s = bezSplit ⟨a, ⟨0, 0⟩, dr, o1.kind⟩ ⟨d, dl, ⟨0, 0⟩, o2.kind⟩ (1 / 2) := ⟨_, rfl⟩
    rw [← hs] at e0
    have g : ∀ j (o : PObj ℝ), [PObj.vec s.1.dr.x s.1.dr.y, .point s.2.1.c.x s.2.1.c.y none, .vec s.2.1.dl.x s.2.1.dl.y,
        .vec s.2.1.dr.x s.2.1.dr.y, .vec s.2.2.dl.x s.2.2.dl.y][j]? = some o → h'[h.length + j]? = some o := by
      intro j o hj
      rw [← e0, List.getElem?_append_right (by omega), Nat.add_sub_cancel_left]; exact hj
    have g0 := g 0 _ rfl
    have g1 := g 1 _ rfl
    have g2 := g 2 _ rfl
    have g3 := g 3 _ rfl
    have g4 := g 4 _ rfl
    rw [Nat.add_zero] at g0
    have hwf : WF h' := by
      rw [← e0]
      have a1 : WF (h ++ [.vec s.1.dr.x s.1.dr.y]) := wf_append1 hw trivial
      have a2 := wf_append1 (o := .point s.2.1.c.x s.2.1.c.y none) a1 trivial
      have a3 := wf_append1 (o := .vec s.2.1.dl.x s.2.1.dl.y) a2 trivial
      have a4 := wf_append1 (o := .vec s.2.1.dr.x s.2.1.dr.y) a3 trivial
      have a5 := wf_append1 (o := .vec s.2.2.dl.x s.2.2.dl.y) a4 trivial
      simpa using a5
    subst e1 e2 e3
    refine ⟨⟨_, e0.symm⟩, hwf, ⟨rfl, rfl, le_rfl, _, _, g0⟩, ⟨rfl, rfl, by simp, _, _, g4⟩,
      ⟨by simp, by simp, by simp, ⟨_, _, _, g1⟩, ⟨_, _, g2⟩, ⟨_, _, g3⟩⟩, ?_⟩
    intro v1 v2 hv1 hv2
    obtain ⟨a1, a2, a3, a4⟩ := readObj_ok.1 hv1
    obtain ⟨b1, b2, b3, b4⟩ := readObj_ok.1 hv2
    rw [readPair_ok a1 a3 b1 b2] at hp
    simp only [Except.ok.injEq, Prod.mk.injEq] at hp
    obtain ⟨rfl, rfl, rfl, rfl⟩ := hp
    have q1 : s.1.dr = (bezSplit v1 v2 (1 / 2)).1.dr := by rw [hs]; rfl
    have q2 : s.2.1 = (bezSplit v1 v2 (1 / 2)).2.1 := by rw [hs]; rfl
    have q3 : s.2.2.dl = (bezSplit v1 v2 (1 / 2)).2.2.dl := by rw [hs]; rfl
    rw [q1] at g0
    rw [q2] at g1 g2 g3
    rw [q3] at g4
    refine ⟨readObj_ok.2 ⟨?_, ?_, ?_, rfl⟩, readObj_ok.2 ⟨?_, ?_, ?_, rfl⟩, readObj_ok.2 ⟨?_, ?_, ?_, rfl⟩⟩
    · show xy h' o1.c = .ok v1.c
      rw [← e0, xy_append (lt_of_isBasePoint r1.1)]; exact a1
    · show readVec h' o1.dl = .ok v1.dl
      rw [← e0, readVec_append (lt_of_isVec r1.2.1)]; exact a2
    · exact readVec_ok.2 (xy_vec g0)
    · exact xy_point g1
    · exact readVec_ok.2 (xy_vec g2)
    · exact readVec_ok.2 (xy_vec g3)
    · show xy h' o2.c = .ok v2.c
      rw [← e0, xy_append (lt_of_isBasePoint r2.1)]; exact b1
    · exact readVec_ok.2 (xy_vec g4)
    · show readVec h' o2.dr = .ok v2.dr
      rw [← e0, readVec_append (lt_of_isVec r2.2.2)]; exact b3

/-- What a successful `add_one()` does to the objects: `p`, `q` are the control points between which the new one goes. -/
structure Added (w : World) (k : ℕ) (w' : World) (c : Curve) (left right p q : ℕ) (o1 o2 m : Cp) : Prop where
  here : w.curves[k]? = some c
  lt : c.cps[left]? = some p
  rt : c.cps[right]? = some q
  next : right = (left + 1) % c.cps.length
  fst : w.cps[p]? = some o1
  snd : w.cps[q]? = some o2
  curves : w'.curves = w.curves.set k { c with cps := c.cps.insertIdx right w.cps.length }
  ok : Ok w'
  ext : Ext w w' (fun i => i = p ∨ i = q)
  len : w'.cps.length = w.cps.length + 1
  mid : w'.cps[w.cps.length]? = some m ∧ PlainAt w'.pts w.pts.length m
  made : ∃ h1 l r h2 o1' o2', split w.pts o1 o2 = .ok (h1, l, m, r) ∧ Parts w.pts o1 o2 h1 l m r ∧
    CopyOf h1 l w'.pts o1' ∧ (p ≠ q → w'.cps[p]? = some o1') ∧ CopyOf h2 r w'.pts o2' ∧ w'.cps[q]? = some o2' ∧
    (∃ x, h2 = h1 ++ x) ∧ ∃ z, w'.pts = h1 ++ z

theorem plain_ref {h : Heap ℝ} {n : ℕ} {o : Cp} (P : PlainAt h n o) : RefOk h o := by
  obtain ⟨-, -, -, ⟨x, y, m, e⟩, ⟨x', y', e'⟩, ⟨x'', y'', e''⟩⟩ := P
  exact ⟨by simp [isBasePoint, e], by simp [isVec, e'], by simp [isVec, e'']⟩

theorem addOne_shape {w : World} (k : Ok w) (i : ℕ) :
    (∃ e, addOne w i = (w, some e)) ∨
    ∃ c left right p q o1 o2 m, (addOne w i).2 = none ∧ Added w i (addOne w i).1 c left right p q o1 o2 m ∧
      ∃ ps idx, readCs w c.cps = .ok ps ∧ lastMax ((iterRotate2 ps).map fun ab => (ab.1.sub ab.2).length) = some idx ∧
        left = idx % c.cps.length := by
  obtain ⟨R, hR⟩ : ∃ R, R = addOne w i := ⟨_, rfl⟩
  rw [← hR]
  simp only [addOne] at hR
  cases hc : w.curves[i]? with
  | none => rw [hc] at hR; exact .inl ⟨_, hR⟩
  | some c =>
    rw [hc] at hR
    simp only at hR
    cases hps : readCs w c.cps with
    | error e => rw [hps] at hR; exact .inl ⟨_, hR⟩
    | ok ps =>
      rw [hps] at hR
      simp only at hR
      cases hidx : lastMax ((iterRotate2 ps).map fun ab => (ab.1.sub ab.2).length) with
      | none => rw [hidx] at hR; exact .inl ⟨_, hR⟩
      | some idx =>
        rw [hidx] at hR
        simp only at hR
        obtain ⟨left, hleft⟩ : ∃ left, left = idx % c.cps.length := ⟨_, rfl⟩
        obtain ⟨right, hright⟩ : ∃ right, right = (left + 1) % c.cps.length := ⟨_, rfl⟩
        rw [← hleft, ← hright] at hR
        cases hp : c.cps[left]? with
        | none => rw [hp] at hR; exact .inl ⟨_, hR⟩
        | some p =>
          cases hq : c.cps[right]? with
          | none => rw [hp, hq] at hR; exact .inl ⟨_, hR⟩
          | some q =>
            rw [hp, hq] at hR
            simp only at hR
            have lp := k.curve i c hc p (List.mem_of_getElem? hp)
            have lq := k.curve i c hc q (List.mem_of_getElem? hq)
            obtain ⟨o1, ho1⟩ : ∃ o, w.cps[p]? = some o := ⟨_, List.getElem?_eq_getElem lp⟩
            obtain ⟨o2, ho2⟩ : ∃ o, w.cps[q]? = some o := ⟨_, List.getElem?_eq_getElem lq⟩
            rw [ho1, ho2] at hR
            simp only at hR
            cases hs : split w.pts o1 o2 with
            | error e => rw [hs] at hR; exact .inl ⟨_, hR⟩
            | ok x =>
              obtain ⟨h1, l, m, r⟩ := x
              rw [hs] at hR
              simp only at hR
              have P := split_ok k.wf (k.ref ho1) (k.ref ho2) hs
              obtain ⟨x, hx⟩ := P.pre
              have k1 : Ok { w with pts := h1, cps := w.cps ++ [m] } := by
                have a : Ok { w with pts := h1 } := by rw [hx]; exact k.grow (by rw [← hx]; exact P.wf)
                exact a.push (plain_ref P.mid)
              have E1 : Ext w { w with pts := h1, cps := w.cps ++ [m] } (fun _ => False) :=
                ⟨⟨x, hx⟩, by simp, fun j hj _ => List.getElem?_append_left hj⟩
              have rl : RefOk h1 l := by
                obtain ⟨a, b, -, x', y', d⟩ := P.lft
                refine ⟨?_, ?_, by simp [isVec, d]⟩
                · rw [a, hx]; exact isBasePoint_append (k.ref ho1).1
                · rw [b, hx]; exact isVec_append (k.ref ho1).2.1
              have rr : RefOk h1 r := by
                obtain ⟨a, b, -, x', y', d⟩ := P.rgt
                refine ⟨?_, by simp [isVec, d], ?_⟩
                · rw [a, hx]; exact isBasePoint_append (k.ref ho2).1
                · rw [b, hx]; exact isVec_append (k.ref ho2).2.2
              obtain ⟨w2, x2, o1', a1, a2, a3, a4, a5⟩ := restoreFrom_ok k1 (i := p) (by simp; omega) rl
              have hw2 : w2.pts = h1 ++ x2 := by rw [a2]
              obtain ⟨w3, x3, o2', b1, b2, b3, b4, b5⟩ := restoreFrom_ok a4 (i := q) (o := r) (by rw [a2]; simp; omega)
                (by rw [hw2]; exact rr.append)
              have hw3 : w3.pts = w2.pts ++ x3 := by rw [b2]
              rw [a1] at hR
              simp only at hR
              rw [b1] at hR
              simp only at hR
              subst hR
              have hlen3 : w3.cps.length = w.cps.length + 1 := by rw [b2, a2]; simp
              have hcv : w3.curves = w.curves := by rw [b2, a2]
              refine .inr ⟨c, left, right, p, q, o1, o2, m, rfl, ⟨hc, hp, hq, hright, ho1, ho2, ?_, ?_, ?_, ?_, ?_, ?_⟩,
                ps, idx, hps, hidx, hleft⟩
              · simp only [hcv]
              · apply b4.setCurve
                intro a ha
                rw [hlen3]
                rcases List.eq_or_mem_of_mem_insertIdx ha with rfl | hm
                · omega
                · have := k.curve i c hc a hm; omega
              · exact ((E1.trans a5 (V := fun j => j = p) (fun _ h => h.elim) (fun _ h => h)).trans b5
                  (V := fun j => j = p ∨ j = q) (fun _ h => .inl h) (fun _ h => .inr h)).trans (Ext.curves w3 _ (fun _ => False))
                  (fun _ h => h) (fun _ h => h.elim)
              · exact hlen3
              · refine ⟨?_, ?_⟩
                · show w3.cps[w.cps.length]? = some m
                  rw [b5.cps _ (by rw [a2]; simp) (by show ¬ w.cps.length = q; omega),
                    a5.cps _ (by simp) (by show ¬ w.cps.length = p; omega)]
                  simp
                · show PlainAt w3.pts _ m
                  rw [hw3, hw2]; exact P.mid.append.append
              · refine ⟨h1, l, r, h1 ++ x2, o1', o2', hs, P, ?_, ?_, ?_, ?_, ⟨x2, rfl⟩, ⟨x2 ++ x3, ?_⟩⟩
                · show CopyOf h1 l w3.pts o1'
                  rw [hw3, hw2]; exact a3.later (by rw [← hw2]; exact a4.wf)
                · intro hne
                  show w3.cps[p]? = some o1'
                  rw [b5.cps p (by rw [a2]; simp; omega) hne, a2]
                  exact List.getElem?_set_self (by simp; omega)
                · show CopyOf (h1 ++ x2) r w3.pts o2'
                  rw [hw3, ← hw2]; exact b3
                · show w3.cps[q]? = some o2'
                  rw [b2]
                  exact List.getElem?_set_self (by rw [a2]; simp; omega)
                · show w3.pts = _
                  rw [hw3, hw2]; simp

end X7.LK
