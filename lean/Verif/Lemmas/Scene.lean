import Verif.Spec.Scene
import Verif.Lemmas.MultiHeap

/-! Two groups of objects that agree where an animation looks agree where it writes. -/

noncomputable section

namespace X7.Scene

open CH Anim

/-- The same objects, with the same positions at the places in `D`. -/
structure Agree (D : Place → Prop) (h h' : Heap) : Prop where
  xfs : h'.xfs = h.xfs
  cps : h'.cps = h.cps
  curves : h'.curves = h.curves
  pts : h'.pts.length = h.pts.length
  vecs : h'.vecs.length = h.vecs.length
  pt : ∀ i, D (.pt i) → h'.pts[i]? = h.pts[i]?
  vec : ∀ i, D (.vec i) → h'.vecs[i]? = h.vecs[i]?

theorem Agree.refl (D : Place → Prop) (h : Heap) : Agree D h h := ⟨rfl, rfl, rfl, rfl, rfl, fun _ _ => rfl, fun _ _ => rfl⟩

theorem Agree.symm {D : Place → Prop} {h h' : Heap} (A : Agree D h h') : Agree D h' h :=
  ⟨A.xfs.symm, A.cps.symm, A.curves.symm, A.pts.symm, A.vecs.symm, fun i hi => (A.pt i hi).symm, fun i hi => (A.vec i hi).symm⟩

theorem Agree.trans {D : Place → Prop} {h h' h'' : Heap} (A : Agree D h h') (B : Agree D h' h'') : Agree D h h'' :=
  ⟨B.xfs.trans A.xfs, B.cps.trans A.cps, B.curves.trans A.curves, B.pts.trans A.pts, B.vecs.trans A.vecs,
    fun i hi => (B.pt i hi).trans (A.pt i hi), fun i hi => (B.vec i hi).trans (A.vec i hi)⟩

theorem Agree.mono {D E : Place → Prop} {h h' : Heap} (A : Agree D h h') (s : ∀ l, E l → D l) : Agree E h h' :=
  ⟨A.xfs, A.cps, A.curves, A.pts, A.vecs, fun i hi => A.pt i (s _ hi), fun i hi => A.vec i (s _ hi)⟩

theorem Agree.eq {D : Place → Prop} {h h' : Heap} (A : Agree D h h') (s : ∀ l, D l) : h' = h := by
  have a := List.ext_getElem? fun i => A.pt i (s _)
  have b := List.ext_getElem? fun i => A.vec i (s _)
  obtain ⟨x, p, v, c, k⟩ := h
  obtain ⟨x', p', v', c', k'⟩ := h'
  have e1 := A.xfs
  have e2 := A.cps
  have e3 := A.curves
  simp only at a b e1 e2 e3
  subst a; subst b; subst e1; subst e2; subst e3
  rfl

theorem Agree.at' {D : Place → Prop} {h h' : Heap} (A : Agree D h h') {l : Place} (hl : D l) : at' h' l = at' h l := by
  cases l with
  | pt i => simp only [Scene.at']; rw [A.pt i hl]
  | vec i => simp only [Scene.at']; rw [A.vec i hl]

theorem cpPlaces_congr {h h' : Heap} (e : h'.cps = h.cps) (p : ℕ) : cpPlaces h' p = cpPlaces h p := by
  unfold cpPlaces; rw [e]

theorem places_congr {h h' : Heap} (e : h'.cps = h.cps) (ec : h'.curves = h.curves) (k : ℕ) : places h' k = places h k := by
  unfold places
  rw [ec]
  cases h.curves[k]? with
  | none => rfl
  | some c => simp only; congr 1; funext p; exact cpPlaces_congr e p

theorem writes_congr {h h' : Heap} (e : h'.cps = h.cps) (ec : h'.curves = h.curves) (x : Item) : writes h' x = writes h x := by
  cases x <;> simp only [writes, places_congr e ec]

theorem reads_congr {h h' : Heap} (e : h'.cps = h.cps) (ec : h'.curves = h.curves) (x : Item) : reads h' x = reads h x := by
  cases x with
  | generic pt o f => rfl
  | point a => cases a <;> rfl
  | morph m f => simp only [reads, places_congr e ec]
  | multi m f => simp only [reads, places_congr e ec]

theorem size_congr {h h' : Heap} (ec : h'.curves = h.curves) (k : ℕ) : MH.size h' k = MH.size h k := by
  unfold MH.size; rw [ec]

theorem matched_congr {h h' : Heap} (ec : h'.curves = h.curves) {x : Item} (m : Matched h x) : Matched h' x := by
  cases x <;> simp only [Matched, size_congr ec] at m ⊢ <;> assumption

/-! ### Writing one place -/

theorem set_agree {α : Type} {a b : List α} (l : b.length = a.length) {i j : ℕ} {v : α} (h : j ≠ i → b[j]? = a[j]?) :
    (b.set i v)[j]? = (a.set i v)[j]? := by
  by_cases e : j = i
  · subst e
    by_cases lt : j < a.length
    · rw [List.getElem?_set_self lt, List.getElem?_set_self (by omega)]
    · rw [List.getElem?_eq_none (by simp; omega), List.getElem?_eq_none (by simp; omega)]
  · rw [List.getElem?_set_ne (Ne.symm e), List.getElem?_set_ne (Ne.symm e)]; exact h e

theorem Agree.setPt {D : Place → Prop} {h h' : Heap} (A : Agree D h h') (i : ℕ) (p : Pt ℝ) :
    Agree (fun l => D l ∨ l = .pt i) { h with pts := h.pts.set i p } { h' with pts := h'.pts.set i p } := by
  refine ⟨A.xfs, A.cps, A.curves, by simp [A.pts], A.vecs, ?_, ?_⟩
  · intro j hj
    refine set_agree A.pts fun ne => A.pt j ?_
    rcases hj with hj | hj
    · exact hj
    · cases hj; exact absurd rfl ne
  · intro j hj
    rcases hj with hj | hj
    · exact A.vec j hj
    · cases hj

theorem Agree.setVec {D : Place → Prop} {h h' : Heap} (A : Agree D h h') (i : ℕ) (p : Vec ℝ) :
    Agree (fun l => D l ∨ l = .vec i) { h with vecs := h.vecs.set i p } { h' with vecs := h'.vecs.set i p } := by
  refine ⟨A.xfs, A.cps, A.curves, A.pts, by simp [A.vecs], ?_, ?_⟩
  · intro j hj
    rcases hj with hj | hj
    · exact A.pt j hj
    · cases hj
  · intro j hj
    refine set_agree A.vecs fun ne => A.vec j ?_
    rcases hj with hj | hj
    · exact hj
    · cases hj; exact absurd rfl ne

theorem only_setPt (h : Heap) (i : ℕ) (p : Pt ℝ) : Agree (fun l => l ≠ .pt i) h { h with pts := h.pts.set i p } :=
  ⟨rfl, rfl, rfl, by simp, rfl, fun j hj => List.getElem?_set_ne (by rintro rfl; exact hj rfl), fun _ _ => rfl⟩

theorem only_setVec (h : Heap) (i : ℕ) (p : Vec ℝ) : Agree (fun l => l ≠ .vec i) h { h with vecs := h.vecs.set i p } :=
  ⟨rfl, rfl, rfl, rfl, by simp, fun _ _ => rfl, fun j hj => List.getElem?_set_ne (by rintro rfl; exact hj rfl)⟩

/-! ### The loops of a morph -/

theorem mixPtAt_agree {D : Place → Prop} {h h' h1 : Heap} (A : Agree D h h') {t : ℝ} {m o g : ℕ} (ho : D (.pt o)) (hg : D (.pt g))
    (e : MH.mixPtAt h t m o g = some h1) :
    ∃ h1', MH.mixPtAt h' t m o g = some h1' ∧ Agree (fun l => D l ∨ l = .pt m) h1 h1' := by
  unfold MH.mixPtAt at e ⊢
  rw [A.pt o ho, A.pt g hg]
  cases x : h.pts[o]? with
  | none => rw [x] at e; simp at e
  | some a =>
    cases y : h.pts[g]? with
    | none => rw [x, y] at e; simp at e
    | some b =>
      rw [x, y] at e
      simp only [Option.some.injEq] at e
      subst e
      exact ⟨_, rfl, A.setPt m _⟩

theorem mixVecAt_agree {D : Place → Prop} {h h' h1 : Heap} (A : Agree D h h') {t : ℝ} {m o g : ℕ} (ho : D (.vec o)) (hg : D (.vec g))
    (e : MH.mixVecAt h t m o g = some h1) :
    ∃ h1', MH.mixVecAt h' t m o g = some h1' ∧ Agree (fun l => D l ∨ l = .vec m) h1 h1' := by
  unfold MH.mixVecAt at e ⊢
  rw [A.vec o ho, A.vec g hg]
  cases x : h.vecs[o]? with
  | none => rw [x] at e; simp at e
  | some a =>
    cases y : h.vecs[g]? with
    | none => rw [x, y] at e; simp at e
    | some b =>
      rw [x, y] at e
      simp only [Option.some.injEq] at e
      subst e
      exact ⟨_, rfl, A.setVec m _⟩

theorem mixPtAt_only {h h1 : Heap} {t : ℝ} {m o g : ℕ} (e : MH.mixPtAt h t m o g = some h1) : Agree (fun l => l ≠ .pt m) h h1 := by
  unfold MH.mixPtAt at e
  split at e
  · simp only [Option.some.injEq] at e
    subst e
    exact only_setPt h m _
  · simp at e

theorem mixVecAt_only {h h1 : Heap} {t : ℝ} {m o g : ℕ} (e : MH.mixVecAt h t m o g = some h1) : Agree (fun l => l ≠ .vec m) h h1 := by
  unfold MH.mixVecAt at e
  split at e
  · simp only [Option.some.injEq] at e
    subst e
    exact only_setVec h m _
  · simp at e

/-- What `mixCpAt` does when it does not fail. -/
theorem mixCpAt_some {h h3 : Heap} {t : ℝ} {m o g : ℕ} (e : MH.mixCpAt h t m o g = some h3) :
    ∃ (M O G : CpObj) (h1 h2 : Heap), h.cps[m]? = some M ∧ h.cps[o]? = some O ∧ h.cps[g]? = some G ∧
      MH.mixPtAt h t M.c O.c G.c = some h1 ∧ MH.mixVecAt h1 t M.dl O.dl G.dl = some h2 ∧ MH.mixVecAt h2 t M.dr O.dr G.dr = some h3 := by
  unfold MH.mixCpAt at e
  split at e
  · rename_i M O G a b c
    split at e
    · rename_i h1 d
      split at e
      · rename_i h2 f
        exact ⟨M, O, G, h1, h2, a, b, c, d, f, e⟩
      · simp at e
    · simp at e
  · simp at e

theorem mixCpAt_agree {D : Place → Prop} {h h' h3 : Heap} (A : Agree D h h') {t : ℝ} {m o g : ℕ} (ho : ∀ l ∈ cpPlaces h o, D l)
    (hg : ∀ l ∈ cpPlaces h g, D l) (e : MH.mixCpAt h t m o g = some h3) :
    ∃ h3', MH.mixCpAt h' t m o g = some h3' ∧ Agree (fun l => D l ∨ l ∈ cpPlaces h m) h3 h3' := by
  obtain ⟨M, O, G, h1, h2, a, b, c, e1, e2, e3⟩ := mixCpAt_some e
  simp only [cpPlaces, b] at ho
  simp only [cpPlaces, c] at hg
  obtain ⟨k1, f1, B1⟩ := mixPtAt_agree A (ho _ (by simp)) (hg _ (by simp)) e1
  obtain ⟨k2, f2, B2⟩ := mixVecAt_agree B1 (Or.inl (ho _ (by simp))) (Or.inl (hg _ (by simp))) e2
  obtain ⟨k3, f3, B3⟩ := mixVecAt_agree B2 (Or.inl (Or.inl (ho _ (by simp)))) (Or.inl (Or.inl (hg _ (by simp)))) e3
  refine ⟨k3, ?_, B3.mono ?_⟩
  · unfold MH.mixCpAt
    rw [A.cps]
    simp only [a, b, c, f1, f2, f3]
  · intro l hl
    simp only [cpPlaces, a] at hl
    simp only [List.mem_cons, List.not_mem_nil, or_false] at hl
    rcases hl with hl | hl | hl | hl
    · exact Or.inl (Or.inl (Or.inl hl))
    · exact Or.inl (Or.inl (Or.inr hl))
    · exact Or.inl (Or.inr hl)
    · exact Or.inr hl

theorem mixCpAt_only {h h3 : Heap} {t : ℝ} {m o g : ℕ} (e : MH.mixCpAt h t m o g = some h3) :
    Agree (fun l => l ∉ cpPlaces h m) h h3 := by
  obtain ⟨M, O, G, h1, h2, a, b, c, e1, e2, e3⟩ := mixCpAt_some e
  have s : ∀ l, l ∉ cpPlaces h m → l ≠ .pt M.c ∧ l ≠ .vec M.dl ∧ l ≠ .vec M.dr := by
    intro l hl
    simp only [cpPlaces, a] at hl
    simpa using hl
  exact ((mixPtAt_only e1).mono fun l hl => (s l hl).1).trans (((mixVecAt_only e2).mono fun l hl => (s l hl).2.1).trans
    ((mixVecAt_only e3).mono fun l hl => (s l hl).2.2))

theorem mixLoop_agree {D : Place → Prop} {h h' h1 : Heap} (A : Agree D h h') {t : ℝ} {ms os gs : List ℕ} (l1 : ms.length ≤ os.length)
    (l2 : ms.length ≤ gs.length) (ho : ∀ l ∈ os.flatMap (cpPlaces h), D l) (hg : ∀ l ∈ gs.flatMap (cpPlaces h), D l)
    (e : MH.mixLoop h t ms os gs = some h1) :
    ∃ h1', MH.mixLoop h' t ms os gs = some h1' ∧ Agree (fun l => D l ∨ l ∈ ms.flatMap (cpPlaces h)) h1 h1' := by
  induction ms generalizing os gs h h' D with
  | nil =>
    simp only [MH.mixLoop, Option.some.injEq] at e
    subst e
    exact ⟨h', by simp [MH.mixLoop], A.mono (by simp)⟩
  | cons m ms ih =>
    cases os with
    | nil => simp at l1
    | cons o os =>
      cases gs with
      | nil => simp at l2
      | cons g gs =>
        simp only [MH.mixLoop] at e
        split at e
        · rename_i h2 e2
          simp only [List.flatMap_cons, List.mem_append] at ho hg
          obtain ⟨k2, f2, B⟩ := mixCpAt_agree A (fun l hl => ho l (Or.inl hl)) (fun l hl => hg l (Or.inl hl)) e2
          have ec := (mixCpAt_only e2).cps
          have cc : cpPlaces h2 = cpPlaces h := funext fun p => cpPlaces_congr ec p
          obtain ⟨k1, f1, C⟩ := ih B (by simpa using l1) (by simpa using l2) (fun l hl => Or.inl (ho l (Or.inr (cc ▸ hl))))
            (fun l hl => Or.inl (hg l (Or.inr (cc ▸ hl)))) e
          refine ⟨k1, ?_, C.mono ?_⟩
          · simp only [MH.mixLoop, f2, f1]
          · intro l hl
            rw [cc]
            simp only [List.flatMap_cons, List.mem_append] at hl
            rcases hl with hl | hl | hl
            · exact Or.inl (Or.inl hl)
            · exact Or.inl (Or.inr hl)
            · exact Or.inr hl
        · simp at e

theorem mixLoop_only {h h1 : Heap} {t : ℝ} {ms os gs : List ℕ} (e : MH.mixLoop h t ms os gs = some h1) :
    Agree (fun l => l ∉ ms.flatMap (cpPlaces h)) h h1 := by
  induction ms generalizing os gs h with
  | nil =>
    simp only [MH.mixLoop, Option.some.injEq] at e
    subst e
    exact Agree.refl _ _
  | cons m ms ih =>
    cases os with
    | nil => simp only [MH.mixLoop, Option.some.injEq] at e; subst e; exact Agree.refl _ _
    | cons o os =>
      cases gs with
      | nil => simp only [MH.mixLoop, Option.some.injEq] at e; subst e; exact Agree.refl _ _
      | cons g gs =>
        simp only [MH.mixLoop] at e
        split at e
        · rename_i h2 e2
          have B := mixCpAt_only e2
          have cc : cpPlaces h2 = cpPlaces h := funext fun p => cpPlaces_congr B.cps p
          have C := ih e
          rw [cc] at C
          simp only [List.flatMap_cons, List.mem_append, not_or]
          exact (B.mono fun l hl => hl.1).trans (C.mono fun l hl => hl.2)
        · simp at e

theorem hideCpAt_agree {D : Place → Prop} {h h' h1 : Heap} (A : Agree D h h') {m : ℕ} (e : MH.hideCpAt h m = some h1) :
    ∃ h1', MH.hideCpAt h' m = some h1' ∧ Agree (fun l => D l ∨ l ∈ cpPlaces h m) h1 h1' := by
  unfold MH.hideCpAt at e ⊢
  cases a : h.cps[m]? with
  | none => rw [a] at e; simp at e
  | some M =>
    rw [a] at e
    simp only [Option.some.injEq] at e
    subst e
    have B := ((A.setPt M.c ⟨1000000, 1000000⟩).setVec M.dl ⟨0, 0⟩).setVec M.dr ⟨0, 0⟩
    have a' : h'.cps[m]? = some M := by rw [A.cps]; exact a
    rw [a']
    refine ⟨_, rfl, B.mono ?_⟩
    intro l hl
    simp only [cpPlaces, a] at hl
    simp only [List.mem_cons, List.not_mem_nil, or_false] at hl
    rcases hl with hl | hl | hl | hl
    · exact Or.inl (Or.inl (Or.inl hl))
    · exact Or.inl (Or.inl (Or.inr hl))
    · exact Or.inl (Or.inr hl)
    · exact Or.inr hl

theorem hideCpAt_only {h h1 : Heap} {m : ℕ} (e : MH.hideCpAt h m = some h1) : Agree (fun l => l ∉ cpPlaces h m) h h1 := by
  unfold MH.hideCpAt at e
  cases a : h.cps[m]? with
  | none => rw [a] at e; simp at e
  | some M =>
    rw [a] at e
    simp only [Option.some.injEq] at e
    subst e
    have s : ∀ l, l ∉ cpPlaces h m → l ≠ .pt M.c ∧ l ≠ .vec M.dl ∧ l ≠ .vec M.dr := by
      intro l hl
      simp only [cpPlaces, a] at hl
      simpa using hl
    exact ((only_setPt h M.c _).mono fun l hl => (s l hl).1).trans (((only_setVec _ M.dl _).mono fun l hl => (s l hl).2.1).trans
      ((only_setVec _ M.dr _).mono fun l hl => (s l hl).2.2))

theorem hideLoop_agree {D : Place → Prop} {h h' h1 : Heap} (A : Agree D h h') {ms : List ℕ} (e : MH.hideLoop h ms = some h1) :
    ∃ h1', MH.hideLoop h' ms = some h1' ∧ Agree (fun l => D l ∨ l ∈ ms.flatMap (cpPlaces h)) h1 h1' := by
  induction ms generalizing h h' D with
  | nil =>
    simp only [MH.hideLoop, Option.some.injEq] at e
    subst e
    exact ⟨h', rfl, A.mono (by simp)⟩
  | cons m ms ih =>
    simp only [MH.hideLoop] at e
    split at e
    · rename_i h2 e2
      obtain ⟨k2, f2, B⟩ := hideCpAt_agree A e2
      have cc : cpPlaces h2 = cpPlaces h := funext fun p => cpPlaces_congr (hideCpAt_only e2).cps p
      obtain ⟨k1, f1, C⟩ := ih B e
      refine ⟨k1, ?_, C.mono ?_⟩
      · simp only [MH.hideLoop, f2, f1]
      · intro l hl
        rw [cc]
        simp only [List.flatMap_cons, List.mem_append] at hl
        rcases hl with hl | hl | hl
        · exact Or.inl (Or.inl hl)
        · exact Or.inl (Or.inr hl)
        · exact Or.inr hl
    · simp at e

theorem hideLoop_only {h h1 : Heap} {ms : List ℕ} (e : MH.hideLoop h ms = some h1) :
    Agree (fun l => l ∉ ms.flatMap (cpPlaces h)) h h1 := by
  induction ms generalizing h with
  | nil =>
    simp only [MH.hideLoop, Option.some.injEq] at e
    subst e
    exact Agree.refl _ _
  | cons m ms ih =>
    simp only [MH.hideLoop] at e
    split at e
    · rename_i h2 e2
      have B := hideCpAt_only e2
      have cc : cpPlaces h2 = cpPlaces h := funext fun p => cpPlaces_congr B.cps p
      have C := ih e
      rw [cc] at C
      simp only [List.flatMap_cons, List.mem_append, not_or]
      exact (B.mono fun l hl => hl.1).trans (C.mono fun l hl => hl.2)
    · simp at e

/-! ### One animation -/

/-- The same exception, or none and agreement. -/
def Res (D : Place → Prop) (r r' : Heap × Option PyErr) : Prop := r'.2 = r.2 ∧ (r.2 = none → Agree D r.1 r'.1)

theorem morph_agree {D : Place → Prop} {h h' : Heap} (A : Agree D h h') (m : MH.MorphObj) (t : TVal)
    (l1 : t ≠ .none → MH.size h m.morph ≤ MH.size h m.orig) (l2 : t ≠ .none → MH.size h m.morph ≤ MH.size h m.target)
    (ho : t ≠ .none → ∀ l ∈ places h m.orig, D l) (hg : t ≠ .none → ∀ l ∈ places h m.target, D l) :
    Res (fun l => D l ∨ l ∈ places h m.morph) (MH.update h m t) (MH.update h' m t) := by
  unfold MH.update
  rw [A.curves]
  cases a : h.curves[m.morph]? with
  | none => exact ⟨rfl, by simp⟩
  | some cm =>
    cases b : h.curves[m.orig]? with
    | none => exact ⟨rfl, by simp⟩
    | some co =>
      cases c : h.curves[m.target]? with
      | none => exact ⟨rfl, by simp⟩
      | some ct =>
        simp only [MH.size, a, b, c] at l1 l2
        simp only [places, a, b, c] at ho hg ⊢
        cases t with
        | none =>
          simp only
          cases e : MH.hideLoop h cm.cps with
          | some h1 =>
            obtain ⟨k1, f1, B⟩ := hideLoop_agree A e
            rw [f1]
            exact ⟨rfl, fun _ => B⟩
          | none =>
            cases e' : MH.hideLoop h' cm.cps with
            | some h1 =>
              obtain ⟨k1, f1, B⟩ := hideLoop_agree A.symm e'
              rw [e] at f1
              simp at f1
            | none => exact ⟨rfl, by simp⟩
        | num s =>
          simp only
          have hl1 := l1 (by simp)
          have hl2 := l2 (by simp)
          have ho := ho (by simp)
          have hg := hg (by simp)
          cases e : MH.mixLoop h s cm.cps co.cps ct.cps with
          | some h1 =>
            obtain ⟨k1, f1, B⟩ := mixLoop_agree A hl1 hl2 ho hg e
            rw [f1]
            exact ⟨rfl, fun _ => B⟩
          | none =>
            cases e' : MH.mixLoop h' s cm.cps co.cps ct.cps with
            | some h1 =>
              have cc : cpPlaces h' = cpPlaces h := funext fun p => cpPlaces_congr A.cps p
              obtain ⟨k1, f1, B⟩ := mixLoop_agree A.symm hl1 hl2 (by rw [cc]; exact ho) (by rw [cc]; exact hg) e'
              rw [e] at f1
              simp at f1
            | none => exact ⟨rfl, by simp⟩
        | pair x y =>
          simp only
          have hl1 := l1 (by simp)
          have hl2 := l2 (by simp)
          by_cases q : cm.cps = [] ∨ co.cps = [] ∨ ct.cps = []
          · rw [if_pos q, if_pos q]
            refine ⟨rfl, fun _ => A.mono ?_⟩
            have hn : cm.cps = [] := by
              rcases q with q | q | q
              · exact q
              · rw [q] at hl1; simpa using hl1
              · rw [q] at hl2; simpa using hl2
            simp [hn]
          · rw [if_neg q, if_neg q]
            exact ⟨rfl, by simp⟩

theorem morph_only (h : Heap) (m : MH.MorphObj) (t : TVal) : Agree (fun l => l ∉ places h m.morph) h (MH.update h m t).1 := by
  unfold MH.update
  split
  · rename_i cm co ct a b c
    simp only [places, a]
    cases t with
    | none =>
      simp only
      cases e : MH.hideLoop h cm.cps with
      | some h1 => exact hideLoop_only e
      | none => exact Agree.refl _ _
    | num s =>
      simp only
      cases e : MH.mixLoop h s cm.cps co.cps ct.cps with
      | some h1 => exact mixLoop_only e
      | none => exact Agree.refl _ _
    | pair x y =>
      simp only
      split <;> exact Agree.refl _ _
  · exact Agree.refl _ _

theorem getD_mem {stops : List (ℝ × ℕ)} {i : ℕ} (hi : i < stops.length) : ∃ x ∈ stops, x.2 = (stops.map Prod.snd).getD i 0 := by
  refine ⟨stops[i], List.getElem_mem hi, ?_⟩
  rw [List.getD_eq_getElem?_getD, List.getElem?_map, List.getElem?_eq_getElem hi]
  rfl

theorem pickStop_mem {stops : List (ℝ × ℕ)} (hn : stops ≠ []) {t s : ℝ} {lo hi : ℕ} (e : Multi.pickStop stops t = .ok (lo, hi, s)) :
    (∃ x ∈ stops, x.2 = lo) ∧ ∃ x ∈ stops, x.2 = hi := by
  have hp : 0 < stops.length := List.length_pos_iff.2 hn
  unfold Multi.pickStop at e
  simp only [List.length_map] at e
  split at e
  · simp only [Except.ok.injEq, Prod.mk.injEq] at e
    obtain ⟨rfl, rfl, -⟩ := e
    exact ⟨getD_mem hp, getD_mem hp⟩
  · split at e
    · simp only [Except.ok.injEq, Prod.mk.injEq] at e
      obtain ⟨rfl, rfl, -⟩ := e
      exact ⟨getD_mem (by omega), getD_mem (by omega)⟩
    · split at e
      · simp at e
      · simp only [Except.ok.injEq, Prod.mk.injEq] at e
        obtain ⟨rfl, rfl, -⟩ := e
        exact ⟨getD_mem (by omega), getD_mem (by omega)⟩

theorem multi_agree {D : Place → Prop} {h h' : Heap} (A : Agree D h h') (m : Multi.MultiObj) (t : TVal) (hn : m.stops ≠ [])
    (hs : ∀ x ∈ m.stops, MH.size h m.morph ≤ MH.size h x.2) (hr : ∀ x ∈ m.stops, ∀ l ∈ places h x.2, D l) :
    Res (fun l => D l ∨ l ∈ places h m.morph) (Multi.update h m t) (Multi.update h' m t) := by
  unfold Multi.update
  cases t with
  | none => exact morph_agree A ⟨m.morph, m.morph, m.morph⟩ .none (by simp) (by simp) (by simp) (by simp)
  | pair x y => exact ⟨rfl, by simp⟩
  | num t =>
    simp only
    cases e : Multi.pickStop m.stops t with
    | error e => exact ⟨rfl, by simp⟩
    | ok r =>
      obtain ⟨lo, hi, s⟩ := r
      obtain ⟨⟨x, x1, x2⟩, y, y1, y2⟩ := pickStop_mem hn e
      subst x2; subst y2
      exact morph_agree A ⟨x.2, m.morph, y.2⟩ (.num s) (fun _ => hs x x1) (fun _ => hs y y1) (fun _ => hr x x1) (fun _ => hr y y1)

theorem multi_only (h : Heap) (m : Multi.MultiObj) (t : TVal) : Agree (fun l => l ∉ places h m.morph) h (Multi.update h m t).1 := by
  unfold Multi.update
  split
  · exact morph_only h ⟨m.morph, m.morph, m.morph⟩ .none
  · exact Agree.refl _ _
  · split
    · exact Agree.refl _ _
    · rename_i lo hi s _
      exact morph_only h ⟨lo, m.morph, hi⟩ (.num s)

theorem move_agree {D : Place → Prop} {h h' : Heap} (A : Agree D h h') (pt : ℕ) (r : Except PyErr (Pt ℝ)) :
    Res (fun l => D l ∨ l = .pt pt) (move h pt r) (move h' pt r) := by
  cases r with
  | ok p => exact ⟨rfl, fun _ => A.setPt pt p⟩
  | error e => exact ⟨rfl, by simp [move]⟩

theorem move_only (h : Heap) (pt : ℕ) (r : Except PyErr (Pt ℝ)) : Agree (fun l => l ≠ .pt pt) h (move h pt r).1 := by
  cases r with
  | ok p => exact only_setPt h pt p
  | error e => exact Agree.refl _ _

theorem update_only (h : Heap) (x : Item) (t : TVal) : Agree (fun l => l ∉ writes h x) h (update h x t).1 := by
  cases x with
  | generic pt o f =>
    simp only [update, writes, List.mem_singleton]
    split
    · exact move_only _ _ _
    · exact Agree.refl _ _
  | point a =>
    cases a <;> simp only [update, updPoint, writes, Anim.pt, List.mem_singleton] <;> repeat' split
    all_goals first | exact move_only _ _ _ | exact Agree.refl _ _
  | morph m f =>
    simp only [update, writes]
    split
    · exact morph_only _ _ _
    · exact Agree.refl _ _
  | multi m f =>
    simp only [update, writes]
    split
    · exact multi_only _ _ _
    · exact Agree.refl _ _

theorem Res.refl_error {D : Place → Prop} {h h' : Heap} {e : PyErr} : Res D (h, some e) (h', some e) := ⟨rfl, by simp⟩

theorem update_agree {D : Place → Prop} {h h' : Heap} (A : Agree D h h') (x : Item) (t : TVal) (hm : Matched h x)
    (hr : ∀ l ∈ reads h x, D l) : Res (fun l => D l ∨ l ∈ writes h x) (update h x t) (update h' x t) := by
  cases x with
  | generic pt o f =>
    simp only [update, writes, List.mem_singleton]
    cases a : h.pts[pt]? with
    | none =>
      rw [List.getElem?_eq_none (by rw [A.pts]; simpa using a)]
      exact Res.refl_error
    | some p =>
      have lt := (List.getElem?_eq_some_iff.1 a).1
      obtain ⟨q, hq⟩ : ∃ q, h'.pts[pt]? = some q := ⟨_, List.getElem?_eq_getElem (by rw [A.pts]; exact lt)⟩
      rw [hq]
      simp only
      have ef : f t o q = f t o p := by
        by_cases u : ∃ t o p q, f t o p ≠ f t o q
        · have := A.pt pt (hr _ (by simp only [reads]; rw [if_pos u]; simp))
          rw [hq, a] at this
          simp only [Option.some.injEq] at this
          rw [this]
        · push Not at u
          exact u _ _ _ _
      rw [ef]
      exact move_agree A pt _
  | point a =>
    cases a with
    | linear pt o g =>
      simp only [update, updPoint, writes, Anim.pt, List.mem_singleton]
      rw [A.pt g (hr _ (by simp [reads]))]
      cases h.pts[g]? with
      | none => exact Res.refl_error
      | some p => exact move_agree A pt _
    | linearFunc pt o g f =>
      simp only [update, updPoint, writes, Anim.pt, List.mem_singleton]
      rw [A.pt g (hr _ (by simp [reads]))]
      cases f t with
      | error e => exact Res.refl_error
      | ok s =>
        cases h.pts[g]? with
        | none => exact Res.refl_error
        | some p => exact move_agree A pt _
    | sinusoidal pt o g fr off =>
      simp only [update, updPoint, writes, Anim.pt, List.mem_singleton]
      rw [A.pt g (hr _ (by simp [reads]))]
      cases t with
      | none => exact Res.refl_error
      | pair x y => exact Res.refl_error
      | num s =>
        cases h.pts[g]? with
        | none => exact Res.refl_error
        | some p => exact move_agree A pt _
    | circular pt o r fr off =>
      simp only [update, updPoint, writes, Anim.pt, List.mem_singleton]
      cases t with
      | none => exact Res.refl_error
      | pair x y => exact Res.refl_error
      | num s => exact move_agree A pt _
  | morph m f =>
    simp only [update, writes]
    simp only [Matched] at hm
    simp only [reads, List.mem_append] at hr
    cases f t with
    | error e => exact Res.refl_error
    | ok s => exact morph_agree A m s (fun _ => hm.1) (fun _ => hm.2) (fun _ l hl => hr l (Or.inl hl)) (fun _ l hl => hr l (Or.inr hl))
  | multi m f =>
    simp only [update, writes]
    simp only [Matched] at hm
    simp only [reads, List.mem_flatMap] at hr
    cases f t with
    | error e => exact Res.refl_error
    | ok s => exact multi_agree A m s hm.1 hm.2 (fun x hx l hl => hr l ⟨x, hx, hl⟩)

/-! ### All animations -/

theorem updateAll_only (h : Heap) (xs : List Item) (t : TVal) : Agree (fun l => l ∉ xs.flatMap (writes h)) h (updateAll h xs t).1 := by
  induction xs generalizing h with
  | nil => exact Agree.refl _ _
  | cons x xs ih =>
    have A := update_only h x t
    have w : writes (update h x t).1 = writes h := funext fun y => writes_congr A.cps A.curves y
    have B := ih (update h x t).1
    rw [w] at B
    simp only [updateAll, List.flatMap_cons, List.mem_append, not_or]
    obtain ⟨r, hr⟩ : ∃ r, r = update h x t := ⟨_, rfl⟩
    rw [← hr] at A B ⊢
    obtain ⟨h1, e⟩ := r
    cases e with
    | none => exact (A.mono fun l hl => hl.1).trans (B.mono fun l hl => hl.2)
    | some e => exact A.mono fun l hl => hl.1

/-- Every animation looks only at places in `D` or written before. -/
def Known (h : Heap) : (Place → Prop) → List Item → Prop
  | _, [] => True
  | D, x :: xs => (∀ l ∈ reads h x, D l) ∧ Known h (fun l => D l ∨ l ∈ writes h x) xs

theorem known_congr {h h' : Heap} (e : h'.cps = h.cps) (ec : h'.curves = h.curves) {D : Place → Prop} {xs : List Item}
    (k : Known h D xs) : Known h' D xs := by
  induction xs generalizing D with
  | nil => trivial
  | cons x xs ih =>
    simp only [Known, reads_congr e ec, writes_congr e ec] at k ⊢
    exact ⟨k.1, ih k.2⟩

theorem known_of {h : Heap} {D : Place → Prop} {xs : List Item}
    (o : ∀ (pre : List Item) (x : Item) (post : List Item), xs = pre ++ x :: post → ∀ l ∈ reads h x, D l ∨ l ∈ pre.flatMap (writes h)) :
    Known h D xs := by
  induction xs generalizing D with
  | nil => trivial
  | cons x xs ih =>
    refine ⟨fun l hl => ?_, ih ?_⟩
    · simpa using o [] x xs rfl l hl
    · intro pre y post e l hl
      have := o (x :: pre) y post (by rw [e]; rfl) l hl
      simp only [List.flatMap_cons, List.mem_append] at this
      tauto

theorem known_ordered {h : Heap} {xs : List Item} (o : Ordered h xs) : Known h (fun l => l ∉ xs.flatMap (writes h)) xs := by
  refine known_of fun pre x post e l hl => ?_
  by_cases q : l ∈ pre.flatMap (writes h)
  · exact Or.inr q
  · refine Or.inl fun w => q ?_
    refine o pre x post e l hl ?_
    rw [e, List.flatMap_append, List.mem_append] at w
    exact w.resolve_left q

theorem updateAll_agree {D : Place → Prop} {h h' : Heap} (A : Agree D h h') (xs : List Item) (t : TVal) (hm : ∀ x ∈ xs, Matched h x)
    (k : Known h D xs) : Res (fun l => D l ∨ l ∈ xs.flatMap (writes h)) (updateAll h xs t) (updateAll h' xs t) := by
  induction xs generalizing h h' D with
  | nil => exact ⟨rfl, fun _ => A.mono (by simp)⟩
  | cons x xs ih =>
    obtain ⟨k1, k2⟩ := k
    have B := update_only h x t
    obtain ⟨r1, r2⟩ := update_agree A x t (hm x (by simp)) k1
    have w : writes (update h x t).1 = writes h := funext fun y => writes_congr B.cps B.curves y
    have ih' := fun C => ih (h := (update h x t).1) (h' := (update h' x t).1) C
      (fun y hy => matched_congr B.curves (hm y (by simp [hy]))) (known_congr B.cps B.curves k2)
    rw [w] at ih'
    simp only [updateAll]
    obtain ⟨r, hr⟩ : ∃ r, r = update h x t := ⟨_, rfl⟩
    obtain ⟨s, hs⟩ : ∃ s, s = update h' x t := ⟨_, rfl⟩
    rw [← hr, ← hs] at r1 r2 ih'
    rw [← hr, ← hs]
    obtain ⟨h1, e⟩ := r
    obtain ⟨h1', e'⟩ := s
    simp only at r1 r2 ih'
    subst r1
    cases e' with
    | some e => exact Res.refl_error
    | none =>
      obtain ⟨u1, u2⟩ := ih' (r2 rfl)
      refine ⟨u1, fun q => (u2 q).mono fun l hl => ?_⟩
      simp only [List.flatMap_cons, List.mem_append] at hl
      tauto

theorem updateAll_append {h h1 : Heap} {pre post : List Item} {t : TVal} (e : updateAll h pre t = (h1, none)) :
    updateAll h (pre ++ post) t = updateAll h1 post t := by
  induction pre generalizing h with
  | nil =>
    simp only [updateAll, Prod.mk.injEq, and_true] at e
    subst e
    rfl
  | cons x xs ih =>
    simp only [updateAll, List.cons_append] at e ⊢
    obtain ⟨r, hr⟩ : ∃ r, r = update h x t := ⟨_, rfl⟩
    rw [← hr] at e ⊢
    obtain ⟨h2, q⟩ := r
    cases q with
    | none => exact ih e
    | some q => simp at e

/-- A pass that does not raise, taken apart at one animation. -/
theorem updateAll_split {h h' : Heap} {pre post : List Item} {x : Item} {t : TVal} (e : updateAll h (pre ++ x :: post) t = (h', none)) :
    ∃ h1 h2, updateAll h pre t = (h1, none) ∧ update h1 x t = (h2, none) ∧ updateAll h2 post t = (h', none) ∧
      Agree (fun l => l ∉ pre.flatMap (writes h)) h h1 ∧ Agree (fun l => l ∉ post.flatMap (writes h)) h2 h' := by
  have A := updateAll_only h pre t
  obtain ⟨r, hr⟩ : ∃ r, r = updateAll h pre t := ⟨_, rfl⟩
  rw [← hr] at A
  obtain ⟨h1, q⟩ := r
  cases q with
  | some q =>
    exfalso
    have : ∀ (ys : List Item) (g : Heap), updateAll g ys t = (h1, some q) → updateAll g (ys ++ x :: post) t = (h1, some q) := by
      intro ys
      induction ys with
      | nil => intro g hg; simp [updateAll] at hg
      | cons y ys ih =>
        intro g hg
        simp only [updateAll, List.cons_append] at hg ⊢
        obtain ⟨r, hr⟩ : ∃ r, r = update g y t := ⟨_, rfl⟩
        rw [← hr] at hg ⊢
        obtain ⟨g2, q2⟩ := r
        cases q2 with
        | none => exact ih g2 hg
        | some q => exact hg
    rw [this pre h hr.symm] at e
    simp at e
  | none =>
    rw [updateAll_append hr.symm] at e
    have B := update_only h1 x t
    simp only [updateAll] at e
    obtain ⟨s, hs⟩ : ∃ s, s = update h1 x t := ⟨_, rfl⟩
    rw [← hs] at e B
    obtain ⟨h2, q⟩ := s
    cases q with
    | some q => simp at e
    | none =>
      simp only at e B A
      have C := updateAll_only h2 post t
      rw [e, show writes h2 = writes h from funext fun y => (writes_congr B.cps B.curves y).trans (writes_congr A.cps A.curves y)] at C
      exact ⟨h1, h2, hr.symm, hs.symm, e, A, C⟩

/-! ### Values -/

theorem readCp_agree {D : Place → Prop} {h h' : Heap} (A : Agree D h h') {p : ℕ} (hp : ∀ l ∈ cpPlaces h p, D l) :
    readCp h' p = readCp h p := by
  unfold readCp
  rw [A.cps]
  cases e : h.cps[p]? with
  | none => rfl
  | some o =>
    simp only [cpPlaces, e] at hp
    simp only
    rw [A.pt _ (hp _ (by simp)), A.vec _ (hp (.vec o.dl) (by simp)), A.vec _ (hp (.vec o.dr) (by simp))]

theorem readCp_exists {D : Place → Prop} {h h' : Heap} (A : Agree D h h') {p : ℕ} {c : CP ℝ} (e : readCp h p = some c) :
    ∃ c', readCp h' p = some c' := by
  obtain ⟨o, a, b, c1, d, -⟩ := readCp_some e
  have l1 := (List.getElem?_eq_some_iff.1 b).1
  have l2 := (List.getElem?_eq_some_iff.1 c1).1
  have l3 := (List.getElem?_eq_some_iff.1 d).1
  rw [← A.pts] at l1
  rw [← A.vecs] at l2 l3
  refine ⟨⟨h'.pts[o.c], h'.vecs[o.dl], h'.vecs[o.dr], o.kind⟩, ?_⟩
  unfold readCp
  rw [A.cps, a]
  simp only [List.getElem?_eq_getElem l1, List.getElem?_eq_getElem l2, List.getElem?_eq_getElem l3]

theorem readCps_exists {D : Place → Prop} {h h' : Heap} (A : Agree D h h') {ps : List ℕ} {vs : List (CP ℝ)}
    (e : readCps h ps = some vs) : ∃ vs', readCps h' ps = some vs' := by
  induction ps generalizing vs with
  | nil => exact ⟨[], rfl⟩
  | cons p ps ih =>
    obtain ⟨v, ws, -, a, b⟩ := readCps_cons e
    obtain ⟨v', hv⟩ := readCp_exists A a
    obtain ⟨ws', hw⟩ := ih b
    exact ⟨v' :: ws', readCps_cons_of hv hw⟩

theorem curveVals_exists {D : Place → Prop} {h h' : Heap} (A : Agree D h h') {cs : List CurveObj} {ws : List Curve}
    (e : curveVals h cs = some ws) : ∃ ws', curveVals h' cs = some ws' := by
  induction cs generalizing ws with
  | nil => exact ⟨[], rfl⟩
  | cons c cs ih =>
    unfold curveVals at e
    split at e
    · rename_i vs us a b
      obtain ⟨vs', hv⟩ := readCps_exists A a
      obtain ⟨us', hu⟩ := ih b
      exact ⟨_, by unfold curveVals; rw [hv, hu]⟩
    · simp at e

/-- Moving points and vectors keeps the objects sound. -/
theorem sound_agree {h h' : Heap} {ms : List MH.MorphObj} {ks : List Multi.MultiObj} (A : Agree (fun _ => False) h h')
    (hs : Multi.Sound ⟨h, ms, ks⟩) {s : State} (hv : vals h = some s) : ∃ s', vals h' = some s' ∧ Multi.Sound ⟨h', ms, ks⟩ := by
  have I := inv_iff.2 ⟨hv, hs.base.apart⟩
  obtain ⟨b1, b2⟩ := hs
  obtain ⟨a1, a2⟩ := b1
  have : ∃ s', vals h' = some s' := by
    unfold vals at hv ⊢
    split at hv
    · rename_i cs hcs
      obtain ⟨ws, hw⟩ := curveVals_exists A hcs
      rw [A.curves, hw]
      exact ⟨_, rfl⟩
    · simp at hv
  obtain ⟨s', hs'⟩ := this
  refine ⟨s', hs', ⟨⟨?_, ?_⟩, ?_⟩⟩
  · have a1' : CH.Apart h := a1
    show CH.Apart h'
    obtain ⟨z1, z2⟩ := a1'
    exact ⟨by rw [A.curves]; exact z1, by rw [A.curves, A.xfs]; exact z2⟩
  · intro m hm
    obtain ⟨c1, c2, c3, c4⟩ := a2 m hm
    simp only at c1 c2 c3 c4 ⊢
    exact ⟨c1, c2, by rw [A.curves]; exact c3, (MH.private_congr A.cps A.curves).2 c4⟩
  · intro m hm
    obtain ⟨c1, c2, c3, c4, c5⟩ := b2 m hm
    simp only at c1 c2 c3 c4 c5 ⊢
    exact ⟨c1, c2, c3, by rw [A.curves]; exact c4, (MH.private_congr A.cps A.curves).2 c5⟩

theorem values_heap {w : Multi.World} {v : Multi.Values} (hv : w.values = some v) : vals w.heap = some v.st := by
  unfold Multi.World.values at hv
  split at hv
  · rename_i s e
    simp only [Option.some.injEq] at hv
    rw [e, ← hv]
  · simp at hv

theorem vals_curves {h : Heap} {s : State} (hv : vals h = some s) : curveVals h h.curves = some s.curves := by
  unfold vals at hv
  split at hv
  · rename_i cs e
    simp only [Option.some.injEq] at hv
    rw [e, ← hv]
  · simp at hv

/-- A curve none of whose points and vectors is moved keeps its value. -/
theorem same_curve {D : Place → Prop} {h h' : Heap} (A : Agree D h h') {s s' : State} (hv : vals h = some s) (hv' : vals h' = some s')
    {k : ℕ} (hk : ∀ l ∈ places h k, D l) : s'.curves[k]? = s.curves[k]? := by
  obtain ⟨a1, a2⟩ := curveVals_iff.1 (vals_curves hv)
  obtain ⟨b1, b2⟩ := curveVals_iff.1 (vals_curves hv')
  rw [A.curves] at b1 b2
  cases e : h.curves[k]? with
  | none =>
    have := List.getElem?_eq_none_iff.1 e
    rw [List.getElem?_eq_none (by omega), List.getElem?_eq_none (by omega)]
  | some c =>
    obtain ⟨vs, v1, v2⟩ := a2 k c e
    obtain ⟨us, u1, u2⟩ := b2 k c e
    simp only [places, e, List.mem_flatMap] at hk
    rw [MH.readCps_congr fun i hi => readCp_agree A fun l hl => hk l ⟨i, hi, hl⟩, v1] at u1
    simp only [Option.some.injEq] at u1
    subst u1
    rw [u2, v2]

theorem size_vals {h : Heap} {s : State} (hv : vals h = some s) {k : ℕ} {c : Curve} (e : s.curves[k]? = some c) :
    MH.size h k = c.cps.length := by
  obtain ⟨a1, a2⟩ := curveVals_iff.1 (vals_curves hv)
  have lt := (List.getElem?_eq_some_iff.1 e).1
  have g := List.getElem?_eq_getElem (l := h.curves) (i := k) (by omega)
  obtain ⟨vs, v1, v2⟩ := a2 k _ g
  rw [e] at v2
  simp only [Option.some.injEq] at v2
  unfold MH.size
  rw [g, v2]
  exact (readCps_length v1).symm

end X7.Scene
