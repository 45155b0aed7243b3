import Verif.Lemmas.Linked

namespace X7.LK
open PH

/-- The attributes are references to objects of the right kinds. -/
def RefOk (h : Heap ℝ) (o : Cp) : Prop := isBasePoint h o.c ∧ isVec h o.dl ∧ isVec h o.dr

theorem RefOk.append {h l : Heap ℝ} {o : Cp} (r : RefOk h o) : RefOk (h ++ l) o :=
  ⟨isBasePoint_append r.1, isVec_append r.2.1, isVec_append r.2.2⟩

theorem RefOk.read {h l : Heap ℝ} {o : Cp} (r : RefOk h o) : readObj (h ++ l) o = readObj h o :=
  readObj_append (lt_of_isBasePoint r.1) (lt_of_isVec r.2.1) (lt_of_isVec r.2.2)

/-- `o'` (among the objects `h'`) is made of copies of the three objects of `o` (among `h`). -/
structure CopyOf (h : Heap ℝ) (o : Cp) (h' : Heap ℝ) (o' : Cp) : Prop where
  ok : RefOk h' o'
  read : readObj h' o' = readObj h o
  kind : o'.kind = o.kind
  dep : ∀ b < h.length, (Depends h' o'.c b ↔ Depends h o.c b ∧ b ≠ o.c)
  dl : ∀ x y, h[o.dl]? = some (.vec x y) → h'[o'.dl]? = some (.vec x y)
  dr : ∀ x y, h[o.dr]? = some (.vec x y) → h'[o'.dr]? = some (.vec x y)
  c : ∀ x y m, h[o.c]? = some (.point x y m) → h'[o'.c]? = some (.point x y none)
  fresh : h.length ≤ o'.c ∧ h.length ≤ o'.dl ∧ h.length ≤ o'.dr

theorem CopyOf.later {h h' l : Heap ℝ} {o o' : Cp} (hw : WF h') (C : CopyOf h o h' o') : CopyOf h o (h' ++ l) o' := by
  have l1 := lt_of_isBasePoint C.ok.1
  have l2 := lt_of_isVec C.ok.2.1
  have l3 := lt_of_isVec C.ok.2.2
  refine ⟨C.ok.append, by rw [C.ok.read, C.read], C.kind, fun b hb => ?_, fun x y e => ?_, fun x y e => ?_, fun x y m e => ?_, C.fresh⟩
  · rw [depends_append hw l1]; exact C.dep b hb
  · rw [List.getElem?_append_left l2]; exact C.dl x y e
  · rw [List.getElem?_append_left l3]; exact C.dr x y e
  · rw [List.getElem?_append_left l1]; exact C.c x y m e

theorem CopyOf.earlier {h l h' : Heap ℝ} {o o' : Cp} (hw : WF h) (r : RefOk h o) (C : CopyOf (h ++ l) o h' o') : CopyOf h o h' o' := by
  have l1 := lt_of_isBasePoint r.1
  have l2 := lt_of_isVec r.2.1
  have l3 := lt_of_isVec r.2.2
  have hle : h.length ≤ (h ++ l).length := by simp
  refine ⟨C.ok, by rw [C.read, r.read], C.kind, fun b hb => ?_, fun x y e => ?_, fun x y e => ?_, fun x y m e => ?_,
    hle.trans C.fresh.1, hle.trans C.fresh.2.1, hle.trans C.fresh.2.2⟩
  · rw [C.dep b (by omega), depends_append hw l1]
  · exact C.dl x y (by rw [List.getElem?_append_left l2]; exact e)
  · exact C.dr x y (by rw [List.getElem?_append_left l3]; exact e)
  · exact C.c x y m (by rw [List.getElem?_append_left l1]; exact e)

theorem copyParts_ok {h : Heap ℝ} (hw : WF h) {o : Cp} (r : RefOk h o) :
    ∃ l o', copyParts h o = .ok (h ++ l, o') ∧ WF (h ++ l) ∧ CopyOf h o (h ++ l) o' := by
  have l1 := lt_of_isBasePoint r.1
  have l2 := lt_of_isVec r.2.1
  have l3 := lt_of_isVec r.2.2
  obtain ⟨a, n, a1, a2, a3, a4, a5, a6, -, a8, -, a10⟩ := copyPt_ok hw l1
  obtain ⟨b, m, b1, b2, b3, b4, b5, -, b7, -, b9, -⟩ := copyPt_ok a2 (i := o.dl) (by simp; omega)
  obtain ⟨c, k, c1, c2, c3, c4, c5, -, c7, -, c9, -⟩ := copyPt_ok b2 (i := o.dr) (by simp; omega)
  have e : h ++ a ++ b ++ c = h ++ (a ++ b ++ c) := by simp
  have e2 : h ++ a ++ b = h ++ (a ++ b) := by simp
  have e3 : h ++ a ++ b ++ c = h ++ a ++ (b ++ c) := by simp
  refine ⟨a ++ b ++ c, ⟨n, m, k, o.kind⟩, ?_, by rw [← e]; exact c2, ?_⟩
  · simp only [copyParts, a1, b1, c1, e]
  · rw [← e]
    have x1 : xy (h ++ a ++ b ++ c) n = xy h o.c := by rw [e3, xy_append a4, a5]
    have x2 : xy (h ++ a ++ b ++ c) m = xy h o.dl := by rw [xy_append b4, b5, xy_append l2]
    have x3 : xy (h ++ a ++ b ++ c) k = xy h o.dr := by rw [c5, e2, xy_append l3]
    have v2 : isVec (h ++ a) o.dl := isVec_append r.2.1
    have v3 : isVec (h ++ a ++ b) o.dr := isVec_append (isVec_append r.2.2)
    refine ⟨⟨?_, ?_, ?_⟩, ?_, rfl, ?_, ?_, ?_, ?_, a3, ?_, ?_⟩
    · show isBasePoint (h ++ a ++ b ++ c) n
      apply isBasePoint_append; apply isBasePoint_append; rw [a6]; exact r.1
    · show isVec (h ++ a ++ b ++ c) m
      apply isVec_append; rw [b7]; exact v2
    · show isVec (h ++ a ++ b ++ c) k
      rw [c7]; exact v3
    · simp only [readObj, readVec, x1, x2, x3]
    · intro d hd
      show Depends (h ++ a ++ b ++ c) n d ↔ _
      rw [e3, depends_append a2 a4]
      exact a8 r.1 d hd
    · intro x y hx
      show (h ++ a ++ b ++ c)[m]? = _
      rw [List.getElem?_append_left b4]
      exact b9 x y (by rw [List.getElem?_append_left l2]; exact hx)
    · intro x y hx
      show (h ++ a ++ b ++ c)[k]? = _
      exact c9 x y (by rw [e2, List.getElem?_append_left l3]; exact hx)
    · intro x y mm hx
      show (h ++ a ++ b ++ c)[n]? = _
      rw [e3, List.getElem?_append_left a4]
      exact a10 x y mm hx
    · show h.length ≤ m; simp at b3; omega
    · show h.length ≤ k; simp at c3; omega

theorem fixedParts_ok {h : Heap ℝ} {o : Cp} (r : RefOk h o) {v : CP ℝ} (hv : readObj h o = .ok v) :
    ∃ m, fixedParts h o = .ok (h ++ [.point v.c.x v.c.y m, .vec v.dl.x v.dl.y, .vec v.dr.x v.dr.y],
      ⟨h.length, h.length + 1, h.length + 2, v.kind⟩) := by
  obtain ⟨h1, h2, h3, h4⟩ := readObj_ok.1 hv
  rw [readVec_ok] at h2 h3
  obtain ⟨m, e1⟩ := (fixedPt_ok h1).1 r.1
  have e2 := (fixedPt_ok (h := h ++ [.point v.c.x v.c.y m]) (i := o.dl) (p := ⟨v.dl.x, v.dl.y⟩)
    (by rw [xy_append (lt_of_isVec r.2.1)]; exact h2)).2 (isVec_append r.2.1)
  have e3 := (fixedPt_ok (h := h ++ [.point v.c.x v.c.y m] ++ [.vec v.dl.x v.dl.y]) (i := o.dr) (p := ⟨v.dr.x, v.dr.y⟩)
    (by rw [List.append_assoc, xy_append (lt_of_isVec r.2.2)]; exact h3)).2 (isVec_append (isVec_append r.2.2))
  refine ⟨m, ?_⟩
  simp only [fixedParts, e1, e2, e3]
  simp [h4]

theorem fixedParts_error {h : Heap ℝ} {o : Cp} (r : RefOk h o) {e : PyErr} (hv : readObj h o = .error e) :
    fixedParts h o = .error e := by
  have l1 := lt_of_isBasePoint r.1
  have l2 := lt_of_isVec r.2.1
  have l3 := lt_of_isVec r.2.2
  simp only [readObj, readVec] at hv
  cases h1 : xy h o.c with
  | error e1 =>
    rw [h1] at hv
    simp only [Except.error.injEq] at hv
    simp only [fixedParts, fixedPt_error l1 h1, hv]
  | ok p =>
    obtain ⟨m, e1⟩ := (fixedPt_ok h1).1 r.1
    rw [h1] at hv
    simp only at hv
    cases h2 : xy h o.dl with
    | error e2 =>
      rw [h2] at hv
      simp only [Except.error.injEq] at hv
      have := fixedPt_error (h := h ++ [.point p.x p.y m]) (i := o.dl) (e := e2) (by simp; omega) (by rw [xy_append l2]; exact h2)
      simp only [fixedParts, e1, this, hv]
    | ok q =>
      rw [h2] at hv
      simp only at hv
      have e2 := (fixedPt_ok (h := h ++ [.point p.x p.y m]) (i := o.dl) (p := q)
        (by rw [xy_append l2]; exact h2)).2 (isVec_append r.2.1)
      cases h3 : xy h o.dr with
      | error e3 =>
        rw [h3] at hv
        simp only [Except.error.injEq] at hv
        have := fixedPt_error (h := h ++ [.point p.x p.y m] ++ [.vec q.x q.y]) (i := o.dr) (e := e3) (by simp; omega)
          (by rw [List.append_assoc, xy_append l3]; exact h3)
        simp only [fixedParts, e1, e2, this, hv]
      | ok z =>
        rw [h3] at hv
        simp at hv

/-- From `w` to `w'` objects are added, and no control point of `w` is changed except those in `T`. -/
structure Ext (w w' : World) (T : ℕ → Prop) : Prop where
  pts : ∃ l, w'.pts = w.pts ++ l
  len : w.cps.length ≤ w'.cps.length
  cps : ∀ p < w.cps.length, ¬ T p → w'.cps[p]? = w.cps[p]?

theorem Ext.refl (w : World) (T : ℕ → Prop) : Ext w w T := ⟨⟨[], by simp⟩, le_rfl, fun _ _ _ => rfl⟩

theorem Ext.trans {a b c : World} {T U V : ℕ → Prop} (h1 : Ext a b T) (h2 : Ext b c U) (hT : ∀ p, T p → V p)
    (hU : ∀ p, U p → V p) : Ext a c V := by
  obtain ⟨l, e⟩ := h1.pts
  obtain ⟨m, f⟩ := h2.pts
  refine ⟨⟨l ++ m, by rw [f, e]; simp⟩, h1.len.trans h2.len, fun p hp hn => ?_⟩
  rw [h2.cps p (lt_of_lt_of_le hp h1.len) (fun h => hn (hU p h)), h1.cps p hp (fun h => hn (hT p h))]

theorem Ext.mono {a b : World} {T U : ℕ → Prop} (h1 : Ext a b T) (hT : ∀ p, T p → U p) : Ext a b U :=
  ⟨h1.pts, h1.len, fun p hp hn => h1.cps p hp (fun h => hn (hT p h))⟩

/-- Same points and control points, other curves. -/
theorem Ext.curves (w : World) (cs : List Curve) (T : ℕ → Prop) : Ext w { w with curves := cs } T :=
  ⟨⟨[], by simp⟩, le_rfl, fun _ _ _ => rfl⟩

theorem Ok.ref {w : World} (k : Ok w) {i : ℕ} {o : Cp} (ho : w.cps[i]? = some o) : RefOk w.pts o := k.cp i o ho

theorem Ext.readCp {w w' : World} {T : ℕ → Prop} (E : Ext w w' T) (k : Ok w) {p : ℕ} (hp : p < w.cps.length) (hn : ¬ T p) :
    readCp w' p = readCp w p := by
  obtain ⟨l, e⟩ := E.pts
  simp only [LK.readCp, E.cps p hp hn, e]
  cases ho : w.cps[p]? with
  | none => rfl
  | some o => exact (k.ref ho).read

theorem readCps_congr {w w' : World} {is : List ℕ} (h : ∀ p ∈ is, readCp w' p = readCp w p) : readCps w' is = readCps w is := by
  induction is with
  | nil => rfl
  | cons i is ih =>
    simp only [readCps, h i (by simp), ih fun p hp => h p (by simp [hp])]

theorem readCps_get {w : World} {is : List ℕ} {vs : List (CP ℝ)} (h : readCps w is = .ok vs) :
    vs.length = is.length ∧ ∀ (t p : ℕ), is[t]? = some p → ∃ v, vs[t]? = some v ∧ readCp w p = .ok v := by
  induction is generalizing vs with
  | nil => simp only [readCps, Except.ok.injEq] at h; subst h; simp
  | cons i is ih =>
    simp only [readCps] at h
    cases h1 : readCp w i with
    | error e => rw [h1] at h; simp at h
    | ok v =>
      rw [h1] at h
      simp only at h
      cases h2 : readCps w is with
      | error e => rw [h2] at h; simp at h
      | ok us =>
        rw [h2] at h
        simp only [Except.ok.injEq] at h
        subst h
        obtain ⟨a, b⟩ := ih h2
        refine ⟨by simp [a], fun t p hp => ?_⟩
        cases t with
        | zero => simp at hp; subst hp; exact ⟨v, by simp, h1⟩
        | succ t => simp at hp; simpa using b t p hp

theorem readCps_of {w : World} {is : List ℕ} {vs : List (CP ℝ)} (hl : vs.length = is.length)
    (h : ∀ (t p : ℕ), is[t]? = some p → ∃ v, vs[t]? = some v ∧ readCp w p = .ok v) : readCps w is = .ok vs := by
  induction is generalizing vs with
  | nil => simp at hl; subst hl; rfl
  | cons i is ih =>
    cases vs with
    | nil => simp at hl
    | cons v vs =>
      obtain ⟨v', e1, e2⟩ := h 0 i (by simp)
      simp at e1
      subst e1
      have := ih (vs := vs) (by simpa using hl) (fun t p hp => by simpa using h (t + 1) p (by simpa using hp))
      simp only [readCps, e2, this]

/-! Restoring control points. -/

theorem Ok.grow {w : World} (k : Ok w) {l : Heap ℝ} (hw : WF (w.pts ++ l)) : Ok { w with pts := w.pts ++ l } :=
  ⟨hw, fun i o ho => (k.ref (i := i) ho).append, fun j c hc => k.curve j c hc⟩

theorem Ok.set {w : World} (k : Ok w) {i : ℕ} {o : Cp} (r : RefOk w.pts o) : Ok { w with cps := w.cps.set i o } := by
  refine ⟨k.wf, fun j o' ho => ?_, fun j c hc p hp => by simpa using k.curve j c hc p hp⟩
  simp only [List.getElem?_set] at ho
  split at ho
  · split at ho
    · cases ho; exact r
    · simp at ho
  · exact k.cp j o' ho

theorem Ok.push {w : World} (k : Ok w) {o : Cp} (r : RefOk w.pts o) : Ok { w with cps := w.cps ++ [o] } := by
  refine ⟨k.wf, fun j o' ho => ?_, fun j c hc p hp => ?_⟩
  · rcases lt_or_ge j w.cps.length with hj | hj
    · rw [List.getElem?_append_left hj] at ho; exact k.cp j o' ho
    · rw [List.getElem?_append_right hj] at ho
      have : o' = o := by
        rcases Nat.eq_zero_or_pos (j - w.cps.length) with hz | hz
        · rw [hz] at ho; simpa using ho.symm
        · rw [List.getElem?_eq_none (by simp; omega)] at ho; cases ho
      subst this; exact r
  · have := k.curve j c hc p hp; simp; omega

theorem restoreFrom_ok {w : World} (k : Ok w) {i : ℕ} {o : Cp} (hi : i < w.cps.length) (r : RefOk w.pts o) :
    ∃ w' l o', restoreFrom w i o = .ok w' ∧ w' = { w with pts := w.pts ++ l, cps := w.cps.set i o' } ∧
      CopyOf w.pts o (w.pts ++ l) o' ∧ Ok w' ∧ Ext w w' (· = i) := by
  obtain ⟨l, o', e, hw, C⟩ := copyParts_ok k.wf r
  obtain ⟨a, ha⟩ : ∃ a, w.cps[i]? = some a := ⟨_, List.getElem?_eq_getElem hi⟩
  refine ⟨_, l, o', ?_, rfl, C, (k.grow hw).set C.ok, ⟨l, rfl⟩, by simp, fun p hp hn => ?_⟩
  · simp only [restoreFrom, ha, e]
  · exact List.getElem?_set_ne (Ne.symm hn)

theorem restoreCp_ok {w : World} (k : Ok w) {i j : ℕ} {o : Cp} (hi : i < w.cps.length) (hj : w.cps[j]? = some o) :
    ∃ w' l o', restoreCp w i j = .ok w' ∧ w' = { w with pts := w.pts ++ l, cps := w.cps.set i o' } ∧
      CopyOf w.pts o (w.pts ++ l) o' ∧ Ok w' ∧ Ext w w' (· = i) := by
  simp only [restoreCp, hj]
  exact restoreFrom_ok k hi (k.ref hj)

/-- Every source is read before it is written. -/
def Clean : List ℕ → List ℕ → Prop
  | i :: is, _ :: js => i ∉ is ∧ i ∉ js ∧ Clean is js
  | _, _ => True

theorem clean_of {is js : List ℕ} (hn : is.Nodup) (hd : ∀ p ∈ is, p ∉ js) : Clean is js := by
  induction is generalizing js with
  | nil => trivial
  | cons i is ih =>
    cases js with
    | nil => trivial
    | cons j js =>
      rw [List.nodup_cons] at hn
      exact ⟨hn.1, fun h => hd i (by simp) (by simp [h]), ih hn.2 fun p hp h => hd p (by simp [hp]) (by simp [h])⟩

theorem clean_self {is : List ℕ} (hn : is.Nodup) : Clean is is := by
  induction is with
  | nil => trivial
  | cons i is ih =>
    rw [List.nodup_cons] at hn
    exact ⟨hn.1, hn.1, ih hn.2⟩

theorem restoreCps_ok {w : World} (k : Ok w) (is js : List ℕ) (hi : ∀ p ∈ is, p < w.cps.length) (hj : ∀ p ∈ js, p < w.cps.length) :
    (restoreCps w is js).2 = none ∧ Ok (restoreCps w is js).1 ∧ Ext w (restoreCps w is js).1 (· ∈ is) ∧
      (restoreCps w is js).1.curves = w.curves ∧ (restoreCps w is js).1.cps.length = w.cps.length ∧
      (Clean is js → ∀ (t p q : ℕ) (o : Cp), is[t]? = some p → js[t]? = some q → w.cps[q]? = some o →
        ∃ o', (restoreCps w is js).1.cps[p]? = some o' ∧ CopyOf w.pts o (restoreCps w is js).1.pts o') := by
  induction is generalizing w js with
  | nil => exact ⟨by simp [restoreCps], by simpa [restoreCps] using k, by simpa [restoreCps] using Ext.refl w _, by simp [restoreCps],
      by simp [restoreCps], fun _ t p q o h => by simp at h⟩
  | cons i is ih =>
    cases js with
    | nil => exact ⟨by simp [restoreCps], by simpa [restoreCps] using k, by simpa [restoreCps] using Ext.refl w _, by simp [restoreCps],
        by simp [restoreCps], fun _ t p q o _ h => by simp at h⟩
    | cons j js =>
      obtain ⟨a, ha⟩ : ∃ a, w.cps[j]? = some a := ⟨_, List.getElem?_eq_getElem (hj j (by simp))⟩
      obtain ⟨w', l, o', e1, e2, C, k', E⟩ := restoreCp_ok k (hi i (by simp)) ha
      have hlen : w'.cps.length = w.cps.length := by rw [e2]; simp
      obtain ⟨b1, b2, b3, b4, b5, b6⟩ := ih k' js (fun p hp => by rw [hlen]; exact hi p (by simp [hp]))
        (fun p hp => by rw [hlen]; exact hj p (by simp [hp]))
      simp only [restoreCps, e1]
      refine ⟨b1, b2, E.trans b3 (fun p hp => by simp [hp]) (fun p hp => by simp [hp]), by rw [b4, e2], by rw [b5, hlen], ?_⟩
      intro hc t p q o hp hq ho
      obtain ⟨c1, c2, c3⟩ := hc
      have hpt : w'.pts = w.pts ++ l := by rw [e2]
      cases t with
      | zero =>
        simp at hp hq
        subst hp; subst hq
        rw [ha] at ho
        cases ho
        refine ⟨o', ?_, ?_⟩
        · rw [b3.cps i (by rw [hlen]; exact hi i (by simp)) c1, e2]
          exact List.getElem?_set_self (hi i (by simp))
        · obtain ⟨l2, f⟩ := b3.pts
          rw [f, hpt]
          exact C.later (by rw [← hpt]; exact k'.wf)
      | succ t =>
        simp at hp hq
        have hqj : q ∈ js := List.mem_of_getElem? hq
        have hne : q ≠ i := by rintro rfl; exact c2 hqj
        have ho' : w'.cps[q]? = some o := by rw [E.cps q (hj q (by simp [hqj])) hne]; exact ho
        obtain ⟨o2, d1, d2⟩ := b6 c3 t p q o hp hq ho'
        rw [hpt] at d2
        exact ⟨o2, d1, d2.earlier k.wf (k.ref ho)⟩

end X7.LK
