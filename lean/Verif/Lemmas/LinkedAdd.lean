import Verif.Lemmas.LinkedRun
import Verif.Props.CurveHeap

namespace X7.LK
open PH

theorem readCs_of {w : World} {is : List ℕ} {vs : List (CP ℝ)} (h : readCps w is = .ok vs) : readCs w is = .ok (vs.map (·.c)) := by
  induction is generalizing vs with
  | nil => simp only [readCps, Except.ok.injEq] at h; subst h; rfl
  | cons i is ih =>
    simp only [readCps] at h
    cases h1 : readCp w i with
    | error e => rw [h1] at h; simp at h
    | ok v =>
      rw [h1] at h
      simp only at h
      cases h2 : readCps w is with
      | error e => rw [h2] at h; simp at h
      | ok us =>
        rw [h2] at h
        simp only [Except.ok.injEq] at h
        subst h
        simp only [readCp] at h1
        cases h3 : w.cps[i]? with
        | none => rw [h3] at h1; simp at h1
        | some o =>
          rw [h3] at h1
          simp only [readCs, h3, (readObj_ok.1 h1).1, ih h2, List.map_cons]

theorem dists_map (vs : List (CP ℝ)) :
    (iterRotate2 (vs.map (·.c))).map (fun ab => (ab.1.sub ab.2).length) =
      (iterRotate2 vs).map fun ab => (ab.1.c.sub ab.2.c).length := by
  simp only [iterRotate2, ← List.map_rotate, List.zip_map, List.map_map]
  rfl

theorem readCps_insertIdx {w : World} {is : List ℕ} {vs : List (CP ℝ)} (e : readCps w is = .ok vs) {m : ℕ} {v : CP ℝ}
    (hm : readCp w m = .ok v) (k : ℕ) : readCps w (is.insertIdx k m) = .ok (vs.insertIdx k v) := by
  obtain ⟨hl, hg⟩ := readCps_get e
  induction k generalizing is vs with
  | zero => simp only [List.insertIdx_zero, readCps, hm, e]
  | succ k ih =>
    cases is with
    | nil => simp at hl; subst hl; simp [readCps]
    | cons i is =>
      cases vs with
      | nil => simp at hl
      | cons u us =>
        obtain ⟨u', e1, e2⟩ := hg 0 i (by simp)
        simp at e1; subst e1
        have hg' : ∀ (t p : ℕ), is[t]? = some p → ∃ v, us[t]? = some v ∧ readCp w p = .ok v := fun t p hp => by
          simpa using hg (t + 1) p (by simpa using hp)
        have h2 := readCps_of (w := w) (by simpa using hl) hg'
        have := ih h2 (by simpa using hl) hg'
        simp only [List.insertIdx_succ_cons, readCps, e2, this]

/-- What `add_one()` does to the values. -/
theorem addOne_value {w : World} (k : Ok w) {i : ℕ} {c : Curve} (hc : w.curves[i]? = some c) (hn : c.cps.Nodup)
    {vs : List (CP ℝ)} (hv : readCps w c.cps = .ok vs) (hne : vs ≠ []) :
    ∃ left right p q o1 o2 m base M, (addOne w i).2 = none ∧ Added w i (addOne w i).1 c left right p q o1 o2 m ∧
      X7.addOne vs = .ok (base.insertIdx right M) ∧ readCps (addOne w i).1 c.cps = .ok base ∧
      readCp (addOne w i).1 w.cps.length = .ok M ∧ right < c.cps.length := by
  obtain ⟨hl, hg⟩ := readCps_get hv
  have hpos : 0 < c.cps.length := by rw [← hl]; exact List.length_pos_iff.2 hne
  have hil : i < w.curves.length := (List.getElem?_eq_some_iff.1 hc).1
  obtain ⟨idx, hidx⟩ : ∃ idx, lastMax ((iterRotate2 vs).map fun ab => (ab.1.c.sub ab.2.c).length) = some idx := by
    cases h : (iterRotate2 vs).map fun ab => (ab.1.c.sub ab.2.c).length with
    | nil =>
      have := congrArg List.length h
      rw [List.length_map, iterRotate2, List.length_zip, List.length_rotate, List.length_nil, Nat.min_self] at this
      exact absurd (List.length_eq_zero_iff.1 this) hne
    | cons a as => exact ⟨_, rfl⟩
  have hLlt : idx % c.cps.length < c.cps.length := Nat.mod_lt _ hpos
  have hRlt : (idx % c.cps.length + 1) % c.cps.length < c.cps.length := Nat.mod_lt _ hpos
  rcases addOne_shape k i with ⟨e, he⟩ | ⟨c', left, right, p, q, o1, o2, m, e0, A, ps, idx', a1, a2, a3⟩
  · exfalso
    obtain ⟨v, g1, g2⟩ := hg _ _ (List.getElem?_eq_getElem hLlt)
    obtain ⟨v', g1', g2'⟩ := hg _ _ (List.getElem?_eq_getElem hRlt)
    have lp := k.curve i c hc _ (List.getElem_mem hLlt)
    have lq := k.curve i c hc _ (List.getElem_mem hRlt)
    have hep := List.getElem?_eq_getElem hLlt
    have heq := List.getElem?_eq_getElem hRlt
    generalize c.cps[idx % c.cps.length] = p at *
    generalize c.cps[(idx % c.cps.length + 1) % c.cps.length] = q at *
    obtain ⟨o1, ho1⟩ : ∃ o, w.cps[p]? = some o := ⟨_, List.getElem?_eq_getElem lp⟩
    obtain ⟨o2, ho2⟩ : ∃ o, w.cps[q]? = some o := ⟨_, List.getElem?_eq_getElem lq⟩
    rw [readCp_at ho1] at g2
    rw [readCp_at ho2] at g2'
    have rp := readPair_ok (readObj_ok.1 g2).1 (readObj_ok.1 g2).2.2.1 (readObj_ok.1 g2').1 (readObj_ok.1 g2').2.1
    obtain ⟨X, hX⟩ : ∃ X, split w.pts o1 o2 = .ok X := by simp only [split, rp]; exact ⟨_, rfl⟩
    obtain ⟨h1, l, m, r⟩ := X
    have P := split_ok k.wf (k.ref ho1) (k.ref ho2) hX
    obtain ⟨x, hx⟩ := P.pre
    have k1 : Ok { w with pts := h1, cps := w.cps ++ [m] } := by
      have a : Ok { w with pts := h1 } := by rw [hx]; exact k.grow (by rw [← hx]; exact P.wf)
      exact a.push (plain_ref P.mid)
    have rl : RefOk h1 l := by
      obtain ⟨a, b, -, x', y', d⟩ := P.lft
      refine ⟨?_, ?_, by simp [isVec, d]⟩
      · rw [a, hx]; exact isBasePoint_append (k.ref ho1).1
      · rw [b, hx]; exact isVec_append (k.ref ho1).2.1
    have rr : RefOk h1 r := by
      obtain ⟨a, b, -, x', y', d⟩ := P.rgt
      refine ⟨?_, by simp [isVec, d], ?_⟩
      · rw [a, hx]; exact isBasePoint_append (k.ref ho2).1
      · rw [b, hx]; exact isVec_append (k.ref ho2).2.2
    obtain ⟨w2, x2, o1', b1, b2, b3, b4, b5⟩ := restoreFrom_ok k1 (i := p) (by simp; omega) rl
    have hw2 : w2.pts = h1 ++ x2 := by rw [b2]
    obtain ⟨w3, x3, o2', c1, c2, c3, c4, c5⟩ := restoreFrom_ok b4 (i := q) (o := r)
      (by rw [b2]; simp; omega) (by rw [hw2]; exact rr.append)
    have : (addOne w i).2 = none := by
      simp only [addOne, hc, readCs_of hv, dists_map, hidx, hep, heq, ho1, ho2, hX,
        b1, c1]
    rw [he] at this
    simp at this
  · have hcc : c' = c := by have := A.here; rw [hc] at this; exact (Option.some.inj this).symm
    subst hcc
    rw [readCs_of hv] at a1
    cases a1
    rw [dists_map, hidx] at a2
    cases a2
    obtain ⟨v1, g1, g2⟩ := hg left p A.lt
    obtain ⟨v2, g1', g2'⟩ := hg right q A.rt
    have hright := A.next
    have hRlt' : right < c'.cps.length := by rw [hright, a3]; exact hRlt
    obtain ⟨h1, l, r, h2, o1', o2', hs, P, C1, hp', C2, hq', ⟨x, hx⟩, z, hz⟩ := A.made
    rw [readCp_at A.fst] at g2
    rw [readCp_at A.snd] at g2'
    obtain ⟨R1, R2, R3⟩ := P.read v1 v2 g2 g2'
    obtain ⟨w', hw'⟩ : ∃ w', w' = (addOne w i).1 := ⟨_, rfl⟩
    rw [← hw'] at A C1 C2 hp' hq' hz
    have inj : ∀ (s t a : ℕ), c'.cps[s]? = some a → c'.cps[t]? = some a → s = t := by
      intro s t a hs ht
      have hsl := (List.getElem?_eq_some_iff.1 hs).1
      exact (List.getElem?_inj hsl hn).1 (hs.trans ht.symm)
    have rq : readCp w' q = .ok (bezSplit v1 v2 (1 / 2)).2.2 := by
      rw [readCp_at hq', C2.read, hx]
      rw [readObj_append, R3]
      · obtain ⟨a, -⟩ := P.rgt
        have := lt_of_isBasePoint (k.ref A.snd).1
        obtain ⟨y, hy⟩ := P.pre
        rw [a, hy]; simp; omega
      · obtain ⟨-, -, -, x, y, e⟩ := P.rgt
        exact (List.getElem?_eq_some_iff.1 e).1
      · obtain ⟨-, a, -⟩ := P.rgt
        have := lt_of_isVec (k.ref A.snd).2.2
        obtain ⟨y, hy⟩ := P.pre
        rw [a, hy]; simp; omega
    have rp : p ≠ q → readCp w' p = .ok (bezSplit v1 v2 (1 / 2)).1 := by
      intro h
      rw [readCp_at (hp' h), C1.read, R1]
    have ra : readCps w' c'.cps = .ok ((vs.set left (bezSplit v1 v2 (1 / 2)).1).set right (bezSplit v1 v2 (1 / 2)).2.2) := by
      apply readCps_of (by simp [hl])
      intro t a ha
      have htl := (List.getElem?_eq_some_iff.1 ha).1
      by_cases htr : t = right
      · subst htr
        have : a = q := by have := A.rt; rw [ha] at this; exact Option.some.inj this
        subst this
        exact ⟨_, List.getElem?_set_self (by simp; omega), rq⟩
      · have haq : a ≠ q := by rintro rfl; exact htr (inj _ _ _ ha A.rt)
        by_cases htl' : t = left
        · subst htl'
          have : a = p := by have := A.lt; rw [ha] at this; exact Option.some.inj this
          subst this
          exact ⟨_, by rw [List.getElem?_set_ne (Ne.symm htr)]; exact List.getElem?_set_self (by omega), rp haq⟩
        · have hap : a ≠ p := by rintro rfl; exact htl' (inj _ _ _ ha A.lt)
          obtain ⟨u, hu1, hu2⟩ := hg t a ha
          refine ⟨u, by rw [List.getElem?_set_ne (Ne.symm htr), List.getElem?_set_ne (Ne.symm htl')]; exact hu1, ?_⟩
          rw [A.ext.readCp k (k.curve i c' hc a (List.mem_of_getElem? ha)) (by rintro (h | h); exacts [hap h, haq h])]
          exact hu2
    have rm : readCp w' w.cps.length = .ok (bezSplit v1 v2 (1 / 2)).2.1 := by
      rw [readCp_at A.mid.1]
      rw [hz, (plain_ref P.mid).read]; exact R2
    refine ⟨left, right, p, q, o1, o2, m, (vs.set left (bezSplit v1 v2 (1 / 2)).1).set right (bezSplit v1 v2 (1 / 2)).2.2,
      (bezSplit v1 v2 (1 / 2)).2.1, e0, hw' ▸ A, ?_, hw' ▸ ra, hw' ▸ rm, hRlt'⟩
    simp only [X7.addOne, hidx, hl, ← a3, ← hright, g1, g1']

end X7.LK
