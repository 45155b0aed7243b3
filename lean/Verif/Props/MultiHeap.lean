import Verif.Lemmas.MultiHeap
import Verif.Props.MorphHeap
import Verif.Props.MorphMulti

/-!
C110: several multi-step morphs and morphs, whose curves may be shared and changed, through every history of calls.
-/

noncomputable section

namespace X7.Multi

open CH Anim

/-- C110: as long as no curve of a morph or multi-step morph is reversed, every history of calls on curves, morphs and multi-step morphs
does to the curves what it would do to independent values, and raises the same exceptions. -/
theorem C110_history {w : World} {v : Values} (hv : w.values = some v) (hs : Sound w) (as : List Call) (ha : v.Allowed as) :
    (run w as).1.values = some (v.run as).1 ∧ (run w as).2 = (v.run as).2 ∧ Sound (run w as).1 := by
  obtain ⟨e, J⟩ := run_jinv (jinv_iff.2 ⟨hv, hs⟩) as ha
  exact ⟨(jinv_iff.1 J).1, e, (jinv_iff.1 J).2⟩

/-- C110: in particular for every program that starts with nothing. -/
theorem C110_program (as : List Call) (ha : Values.Allowed ⟨⟨[], []⟩, [], []⟩ as) :
    (run ⟨Heap.empty, [], []⟩ as).1.values = some (Values.run ⟨⟨[], []⟩, [], []⟩ as).1 ∧
    (run ⟨Heap.empty, [], []⟩ as).2 = (Values.run ⟨⟨[], []⟩, [], []⟩ as).2 ∧ Sound (run ⟨Heap.empty, [], []⟩ as).1 :=
  C110_history rfl ⟨⟨⟨by simp [Heap.empty], by simp [Heap.empty]⟩, by simp⟩, by simp⟩ as ha

/-! ### Updates -/

theorem pickStop_ok {stops : List (ℝ × ℕ)} (hne : stops ≠ []) (t : ℝ) :
    ∃ lo hi u, pickStop stops t = .ok (lo, hi, u) ∧
      ∀ φ : ℕ → ℝ, PolyAt (stops.map fun x => (x.1, φ x.2)) t (φ lo + u * (φ hi - φ lo)) := by
  obtain ⟨b0, b1, b2⟩ := bisectRight_spec (stops.map Prod.fst) t
  have hpos : 0 < stops.length := List.length_pos_of_ne_nil hne
  unfold pickStop
  dsimp only
  generalize bisectRight (stops.map Prod.fst) t = j at b0 b1 b2
  simp only [List.length_map] at b0 b2 ⊢
  have get : ∀ i, i < stops.length → ∃ a c, (stops.map Prod.fst).getD i 0 = a ∧ (stops.map Prod.snd).getD i 0 = c ∧
      ∀ φ : ℕ → ℝ, (stops.map fun x => (x.1, φ x.2))[i]? = some (a, φ c) := by
    intro i hi
    refine ⟨stops[i].1, stops[i].2, ?_, ?_, ?_⟩
    · simp [List.getD, hi]
    · simp [List.getD, hi]
    · intro φ
      simp [hi]
  by_cases hj0 : j = 0
  · rw [if_pos hj0]
    subst hj0
    obtain ⟨a, c, g3, g4, g6⟩ := get 0 hpos
    rw [g4]
    refine ⟨c, c, t, rfl, fun φ => Or.inl ⟨(a, φ c), ?_, ?_, by ring⟩⟩
    · rw [List.head?_eq_getElem?]; exact g6 φ
    · rw [g3] at b2
      rcases b2 with b2 | b2
      · omega
      · exact b2
  · rw [if_neg hj0]
    have b1 := b1.resolve_left hj0
    by_cases hjn : stops.length ≤ j
    · rw [if_pos hjn]
      have : j = stops.length := by omega
      subst this
      obtain ⟨a, c, g3, g4, g6⟩ := get (stops.length - 1) (by omega)
      rw [g4]
      rw [g3] at b1
      refine ⟨c, c, t, rfl, fun φ => Or.inr (Or.inl ⟨(a, φ c), ?_, b1, by ring⟩)⟩
      rw [List.getLast?_eq_getElem?, List.length_map]
      exact g6 φ
    · rw [if_neg hjn]
      have b2 := b2.resolve_left (by omega)
      obtain ⟨a, c, g3, g4, g6⟩ := get (j - 1) (by omega)
      obtain ⟨a', c', g3', g4', g6'⟩ := get j (by omega)
      rw [g3] at b1 ⊢
      rw [g3'] at b2 ⊢
      rw [g4, g4']
      have hd : a' - a ≠ 0 := by linarith
      simp only [pyDiv, if_neg hd]
      refine ⟨c, c', _, rfl, fun φ => Or.inr (Or.inr ⟨j - 1, (a, φ c), (a', φ c'), g6 φ, ?_, b1, b2, rfl⟩)⟩
      rw [Nat.sub_add_cancel (by omega)]
      exact g6' φ

/-- C110: whatever has happened before, `update` on a multi-step morph whose function gives the number `s` raises nothing and changes no
curve but its own. If its curves have as many control points as its own, each number of each control point is then the height at `s` of the
polyline through the present numbers of its curves at their steps. -/
theorem C110_update {w : World} {v : Values} (hv : w.values = some v) (hs : Sound w) {k : ℕ} {m : MultiObj} (hm : v.multis[k]? = some m)
    (s : ℝ) :
    ∃ w' v' cm cm', step w (.update k (.num s)) = (w', none) ∧ w'.values = some v' ∧ v'.morphs = v.morphs ∧ v'.multis = v.multis ∧
      (∀ l, l ≠ m.morph → v'.st.curves[l]? = v.st.curves[l]?) ∧ v'.st.xfs = v.st.xfs ∧ v.st.curves[m.morph]? = some cm ∧
      v'.st.curves[m.morph]? = some cm' ∧ cm'.name = cm.name ∧ cm'.pb = cm.pb ∧ cm'.closed = cm.closed ∧ cm'.xf = cm.xf ∧
      cm'.cps.length = cm.cps.length ∧ ((∀ x ∈ m.stops, MH.sizeVal v.st x.2 = cm.cps.length) → ∀ i, i < cm.cps.length → ∀ c,
        PolyAt (m.stops.map fun x => (x.1, number v.st i c x.2)) s (number v'.st i c m.morph)) := by
  have J := jinv_iff.2 ⟨hv, hs⟩
  obtain ⟨e, J1⟩ := step_jinv J (.update k (.num s)) (by simp) (by simp)
  obtain ⟨a1, a2, a3, a4, -⟩ := J.okm m (by rw [J.multis]; exact List.mem_of_getElem? hm)
  rw [J.inv.len] at a4
  obtain ⟨lo, hi, u, p1, p2⟩ := pickStop_ok a2 s
  obtain ⟨q1, q2⟩ := pickStop_mem a2 p1
  have l1 : lo < m.morph := by
    obtain ⟨x, hx, rfl⟩ := List.mem_map.1 q1
    exact a3 x hx
  have l2 : hi < m.morph := by
    obtain ⟨x, hx, rfl⟩ := List.mem_map.1 q2
    exact a3 x hx
  have h1 := List.getElem?_eq_getElem (l := v.st.curves) (i := lo) (by omega)
  have h2 := List.getElem?_eq_getElem (l := v.st.curves) (i := hi) (by omega)
  have h3 := List.getElem?_eq_getElem (l := v.st.curves) (i := m.morph) a4
  simp only [Values.step, hm, updVal, p1, MH.updVal, h1, h2, h3] at e J1
  refine ⟨_, _, v.st.curves[m.morph], { v.st.curves[m.morph] with
    cps := Morph.mixAll u v.st.curves[m.morph].cps v.st.curves[lo].cps v.st.curves[hi].cps },
    Prod.ext rfl e, (jinv_iff.1 J1).1, rfl, rfl, ?_, rfl, h3, ?_, rfl, rfl, rfl, rfl, ?_, ?_⟩
  · intro l hl
    exact List.getElem?_set_ne (Ne.symm hl)
  · exact List.getElem?_set_self a4
  · exact Morph.mixAll_length _ _ _ _
  · intro hsz i hi' c
    have size : ∀ l, l ∈ m.stops.map Prod.snd → MH.sizeVal v.st l = v.st.curves[m.morph].cps.length := by
      intro l hl
      obtain ⟨x, hx, rfl⟩ := List.mem_map.1 hl
      exact hsz x hx
    have z1 := size lo q1
    have z2 := size hi q2
    simp only [MH.sizeVal, h1] at z1
    simp only [MH.sizeVal, h2] at z2
    have g := Morph.mixAll_get u v.st.curves[m.morph].cps v.st.curves[lo].cps v.st.curves[hi].cps i _ _ _
      (List.getElem?_eq_getElem hi') (List.getElem?_eq_getElem (by omega)) (List.getElem?_eq_getElem (by omega))
    have n1 : number v.st i c lo = Morph.coord c v.st.curves[lo].cps[i] := by
      simp only [number, h1]
      rw [List.getD, List.getElem?_eq_getElem (by omega)]
      rfl
    have n2 : number v.st i c hi = Morph.coord c v.st.curves[hi].cps[i] := by
      simp only [number, h2]
      rw [List.getD, List.getElem?_eq_getElem (by omega)]
      rfl
    have p := p2 (number v.st i c)
    rw [n1, n2] at p
    convert p using 1
    simp only [number]
    rw [List.getElem?_set_self a4]
    simp only [List.getD, g, Option.getD_some, Morph.coord_mix]

/-- C110: if the function gives `None`, the curve of the multi-step morph goes off-screen; if it gives a pair, there is a `TypeError` and
nothing changes. -/
theorem C110_hidden {w : World} {v : Values} (hv : w.values = some v) (hs : Sound w) {k : ℕ} {m : MultiObj} (hm : v.multis[k]? = some m) :
    (∃ w' v' cm cm', step w (.update k .none) = (w', none) ∧ w'.values = some v' ∧ v'.morphs = v.morphs ∧ v'.multis = v.multis ∧
      (∀ l, l ≠ m.morph → v'.st.curves[l]? = v.st.curves[l]?) ∧ v'.st.xfs = v.st.xfs ∧
      v.st.curves[m.morph]? = some cm ∧ v'.st.curves[m.morph]? = some cm' ∧ Morph.OffScreen cm.cps cm'.cps) ∧
    ∀ x y, ∃ w', step w (.update k (.pair x y)) = (w', some .type) ∧ w'.values = some v := by
  have J := jinv_iff.2 ⟨hv, hs⟩
  obtain ⟨a1, a2, a3, a4, -⟩ := J.okm m (by rw [J.multis]; exact List.mem_of_getElem? hm)
  rw [J.inv.len] at a4
  have h3 := List.getElem?_eq_getElem (l := v.st.curves) (i := m.morph) a4
  constructor
  · obtain ⟨e, J1⟩ := step_jinv J (.update k .none) (by simp) (by simp)
    simp only [Values.step, hm, updVal, MH.updVal, h3] at e J1
    refine ⟨_, _, v.st.curves[m.morph], _, Prod.ext rfl e, (jinv_iff.1 J1).1, rfl, rfl, ?_, rfl, h3, List.getElem?_set_self a4, ?_⟩
    · intro l hl
      exact List.getElem?_set_ne (Ne.symm hl)
    · refine ⟨by simp [Morph.hide], ?_⟩
      intro cp hcp
      simp only [Morph.hide, List.mem_map] at hcp
      obtain ⟨x, -, rfl⟩ := hcp
      exact ⟨rfl, rfl, rfl⟩
  · intro x y
    obtain ⟨e, J1⟩ := step_jinv J (.update k (.pair x y)) (by simp) (by simp)
    simp only [Values.step, hm, updVal] at e J1
    exact ⟨_, Prod.ext rfl e, (jinv_iff.1 J1).1⟩

/-! ### Preparing curves -/

theorem firstMinFrom_zero {best : ℝ} {bi i : ℕ} {vs : List ℝ} (h : ∀ x ∈ vs, best ≤ x) : Morph.firstMinFrom best bi i vs = bi := by
  induction vs generalizing i with
  | nil => rfl
  | cons v vs ih =>
    rw [Morph.firstMinFrom, if_neg (not_lt.2 (h v (by simp)))]
    exact ih fun x hx => h x (by simp [hx])

theorem lowest_ok (h : Hdr) (cps : List (CP ℝ)) (hne : cps ≠ []) :
    ∃ ll, lowest h cps = .ok ll ∧ lowest h (cps.drop ll ++ cps.take ll) = .ok 0 := by
  obtain ⟨xl, yl, xh, yh, hb⟩ := Morph.curve_bbox_box h cps hne
  obtain ⟨i, b, h1, h2, h3⟩ := Morph.firstMin_spec (vs := cps.map fun cp => ((⟨xl, yl⟩ : Pt ℝ).sub cp.c).length) (by simpa using hne)
  have hi : i < cps.length := by simpa using (List.getElem?_eq_some_iff.1 h2).1
  have hrot : cps.drop i ++ cps.take i = cps.rotate i := (List.rotate_eq_drop_append_take hi.le).symm
  refine ⟨i, ?_, ?_⟩
  · unfold lowest
    rw [hb]
    simp only [BBox.pll, h1]
  · unfold lowest
    have hb' : Elem.bbox (.curve h (cps.drop i ++ cps.take i)) = .ok (.box xl yl xh yh) := by rw [hrot, Morph.bbox_rotate]; exact hb
    rw [hb']
    simp only [BBox.pll]
    have e : cps.drop i ++ cps.take i = cps[i] :: (cps.drop (i + 1) ++ cps.take i) := by
      rw [List.drop_eq_getElem_cons hi]; rfl
    rw [e]
    simp only [List.map_cons, Morph.firstMin]
    rw [firstMinFrom_zero]
    intro x hx
    simp only [List.getElem?_map, Option.map_eq_some_iff] at h2
    obtain ⟨c, hc, rfl⟩ := h2
    have : c = cps[i] := by
      have := List.getElem?_eq_getElem hi
      rw [hc] at this; injection this
    subst this
    apply h3
    obtain ⟨cp, hcp, rfl⟩ := List.mem_map.1 hx
    refine List.mem_map_of_mem (f := fun cp : CP ℝ => ((⟨xl, yl⟩ : Pt ℝ).sub cp.c).length) ?_
    rcases List.mem_append.1 hcp with hcp | hcp
    · exact List.mem_of_mem_drop hcp
    · exact List.mem_of_mem_take hcp

/-- A curve that can be prepared. -/
def Fit (n : ℕ) (s : State) (i : ℕ) : Prop := ∃ c, s.curves[i]? = some c ∧ 2 ≤ c.cps.length ∧ c.cps.length ≤ n ∧ c.xf < s.xfs.length

/-- A curve with `n` control points, the first of which, if it has been turned, is a nearest one to the corner of the bounding box. -/
def Ready (force : Bool) (n : ℕ) (s : State) (i : ℕ) : Prop := ∃ c, s.curves[i]? = some c ∧ c.cps.length = n ∧
  ∃ m, s.xfs[c.xf]? = some m ∧ (force = true → lowest ⟨c.name, c.pb, c.closed, m⟩ c.cps = .ok 0)

theorem padVal_xfs (n : ℕ) (s : State) (i : ℕ) : (MH.padVal s i n).1.xfs = s.xfs := by
  induction n generalizing s with
  | zero => rfl
  | succ n ih =>
    have h1 : (s.step (.addOne i)).1.xfs = s.xfs := by
      simp only [State.step]
      split
      · split <;> rfl
      · rfl
    unfold MH.padVal
    split
    · rename_i s1 e
      rw [e] at h1
      exact (ih s1).trans h1
    · rename_i s1 x e
      rw [e] at h1
      exact h1

theorem turnVal_other (s : State) (i : ℕ) {l : ℕ} (hl : l ≠ i) : (turnVal s i).1.curves[l]? = s.curves[l]? := by
  unfold turnVal
  split
  · split
    · split
      · simp only [State.step]
        split
        · exact List.getElem?_set_ne (Ne.symm hl)
        · rfl
      · rfl
    · rfl
  · rfl

theorem prepVal_other (force : Bool) (n : ℕ) (is : List ℕ) (s : State) {l : ℕ} (hl : l ∉ is) :
    (prepVal force n is s).1.curves[l]? = s.curves[l]? := by
  induction is generalizing s with
  | nil => rfl
  | cons i is ih =>
    simp only [List.mem_cons, not_or] at hl
    unfold prepVal
    have h1 := MH.padVal_other (n - MH.sizeVal s i) s i hl.1
    refine thenDo_fst (fun s' : State => s'.curves[l]? = s.curves[l]?) h1 fun _ => ?_
    have h2 : (if force then turnVal (MH.padVal s i (n - MH.sizeVal s i)).1 i else ((MH.padVal s i (n - MH.sizeVal s i)).1, none)).1.curves[l]? =
        s.curves[l]? := by
      cases force with
      | false => exact h1
      | true => exact (turnVal_other _ i hl.1).trans h1
    exact thenDo_fst (fun s' : State => s'.curves[l]? = s.curves[l]?) h2 fun _ => (ih _ hl.2).trans h2

theorem turnVal_keeps (s : State) (i l : ℕ) : MH.Keeps s (turnVal s i).1 l := by
  unfold turnVal
  split
  · split
    · split
      · exact MH.Keeps.step s _ (by simp [Op.restores])
      · exact .refl s l
    · exact .refl s l
  · exact .refl s l

theorem prepVal_keeps (force : Bool) (n : ℕ) (is : List ℕ) (s : State) (l : ℕ) : MH.Keeps s (prepVal force n is s).1 l := by
  induction is generalizing s with
  | nil => exact .refl s l
  | cons i is ih =>
    unfold prepVal
    have h1 := MH.Keeps.pad (n - MH.sizeVal s i) s i l
    refine thenDo_fst (fun s' : State => MH.Keeps s s' l) h1 fun _ => ?_
    have h2 : MH.Keeps s (if force then turnVal (MH.padVal s i (n - MH.sizeVal s i)).1 i else
        ((MH.padVal s i (n - MH.sizeVal s i)).1, none)).1 l := by
      cases force with
      | false => exact h1
      | true => exact h1.trans (turnVal_keeps _ i l)
    exact thenDo_fst (fun s' : State => MH.Keeps s s' l) h2 fun _ => h2.trans (ih _)

theorem turnVal_ok {s : State} {i : ℕ} {c : Curve} (hc : s.curves[i]? = some c) (h0 : c.cps ≠ []) (hx : c.xf < s.xfs.length) :
    (turnVal s i).2 = none ∧ (turnVal s i).1.xfs = s.xfs ∧ Ready true c.cps.length (turnVal s i).1 i := by
  have hm := List.getElem?_eq_getElem hx
  obtain ⟨ll, l1, l2⟩ := lowest_ok ⟨c.name, c.pb, c.closed, s.xfs[c.xf]⟩ c.cps h0
  have hil : i < s.curves.length := (List.getElem?_eq_some_iff.1 hc).1
  unfold turnVal
  simp only [hc, hm, l1, State.step]
  refine ⟨by first | rfl | trivial, by first | rfl | trivial, { c with cps := c.cps.drop ll ++ c.cps.take ll }, List.getElem?_set_self hil, ?_, _, hm, fun _ => l2⟩
  simp only [List.length_append, List.length_drop, List.length_take]
  omega

theorem prepVal_ok (force : Bool) {n : ℕ} (h2 : 2 ≤ n) (is : List ℕ) (s : State) (hf : ∀ i ∈ is, Fit n s i) :
    (prepVal force n is s).2 = none ∧ (∀ i ∈ is, Ready force n (prepVal force n is s).1 i) ∧ (prepVal force n is s).1.xfs = s.xfs := by
  induction is generalizing s with
  | nil => exact ⟨rfl, by simp, rfl⟩
  | cons i is ih =>
    obtain ⟨c, c1, c2, c3, c4⟩ := hf i (by simp)
    have hsz : MH.sizeVal s i = c.cps.length := by simp only [MH.sizeVal, c1]
    obtain ⟨p1, p2⟩ := MH.padVal_ok (n - c.cps.length) s i c1 c2
    obtain ⟨d, d1, d2, d3, d4, d5, d6, d7⟩ := MH.Keeps.pad (n - c.cps.length) s i i c c1 c2
    have px := padVal_xfs (n - c.cps.length) s i
    have po := fun l (hl : l ≠ i) => MH.padVal_other (n - c.cps.length) s i hl
    unfold prepVal
    rw [hsz]
    obtain ⟨A, hA⟩ : ∃ A, A = MH.padVal s i (n - c.cps.length) := ⟨_, rfl⟩
    rw [← hA] at p1 p2 d1 px po ⊢
    obtain ⟨A1, A2⟩ := A
    simp only at p1 p2 d1 px po
    subst p1
    have hd : d.cps.length = n := by
      simp only [MH.sizeVal, d1] at p2
      omega
    have hdx : d.xf < A1.xfs.length := by rw [px, d7]; exact c4
    have T : ∃ B : State, (if force then turnVal A1 i else (A1, none)) = (B, none) ∧ B.xfs = s.xfs ∧ Ready force n B i ∧
        ∀ l, l ≠ i → B.curves[l]? = s.curves[l]? := by
      cases force with
      | false =>
        exact ⟨A1, rfl, px, ⟨d, d1, hd, _, List.getElem?_eq_getElem hdx, by simp⟩, po⟩
      | true =>
        obtain ⟨t1, t2, t3⟩ := turnVal_ok d1 (by intro h; rw [h] at hd; simp at hd; omega) hdx
        exact ⟨(turnVal A1 i).1, Prod.ext rfl t1, t2.trans px, hd ▸ t3, fun l hl => (turnVal_other A1 i hl).trans (po l hl)⟩
    obtain ⟨B, t1, t2, t3, t4⟩ := T
    simp only [thenDo, t1]
    have fit : ∀ l ∈ is, Fit n B l := by
      intro l hl
      by_cases hli : l = i
      · subst hli
        obtain ⟨x, x1, x2, m, x3, -⟩ := t3
        exact ⟨x, x1, by omega, by omega, (List.getElem?_eq_some_iff.1 x3).1⟩
      · obtain ⟨x, x1, x2, x3, x4⟩ := hf l (by simp [hl])
        exact ⟨x, by rw [t4 l hli]; exact x1, x2, x3, by rw [t2]; exact x4⟩
    obtain ⟨r1, r2, r3⟩ := ih B fit
    refine ⟨r1, ?_, r3.trans t2⟩
    intro l hl
    by_cases hli : l ∈ is
    · exact r2 l hli
    · have : l = i := by
        rcases List.mem_cons.1 hl with h | h
        · exact h
        · exact absurd h hli
      subst this
      obtain ⟨x, x1, x2, m, x3, x4⟩ := t3
      refine ⟨x, by rw [prepVal_other force n is B hli]; exact x1, x2, m, by rw [r3]; exact x3, x4⟩

theorem lowest_zero {h : Hdr} {cps : List (CP ℝ)} (e : lowest h cps = .ok 0) : StartsLow h cps := by
  by_cases hne : cps = []
  · subst hne
    unfold lowest at e
    split at e
    · cases e
    split at e
    · cases e
    simp [Morph.firstMin] at e
  obtain ⟨xl, yl, xh, yh, hb⟩ := Morph.curve_bbox_box h cps hne
  obtain ⟨i, b, h1, h2, h3⟩ := Morph.firstMin_spec (vs := cps.map fun cp => ((⟨xl, yl⟩ : Pt ℝ).sub cp.c).length) (by simpa using hne)
  unfold lowest at e
  rw [hb] at e
  simp only [BBox.pll, h1] at e
  cases e
  obtain ⟨first, rest, rfl⟩ := List.exists_cons_of_ne_nil hne
  refine ⟨xl, yl, xh, yh, first, rest, hb, rfl, fun q hq => ?_⟩
  simp only [List.map_cons, List.getElem?_cons_zero, Option.some.injEq] at h2
  rw [← h2] at h3
  exact h3 _ (List.mem_map_of_mem (f := fun cp : CP ℝ => ((⟨xl, yl⟩ : Pt ℝ).sub cp.c).length) (List.mem_cons_of_mem _ hq))

theorem foldl_max (l : List ℕ) (a : ℕ) :
    a ≤ l.foldl max a ∧ (∀ x ∈ l, x ≤ l.foldl max a) ∧ (l.foldl max a = a ∨ l.foldl max a ∈ l) := by
  induction l generalizing a with
  | nil => simp
  | cons y l ih =>
    obtain ⟨h1, h2, h3⟩ := ih (max a y)
    simp only [List.foldl_cons]
    refine ⟨by omega, ?_, ?_⟩
    · intro x hx
      rcases List.mem_cons.1 hx with rfl | hx
      · omega
      · exact h2 x hx
    · rcases h3 with h3 | h3
      · rcases le_total a y with h | h
        · right; rw [h3, max_eq_right h]; simp
        · left; rw [h3, max_eq_left h]
      · right; simp [h3]

theorem copy_ok {s : State} {i : ℕ} {c : Curve} (hc : s.curves[i]? = some c) (hf : c.pb.filled = true → c.closed = true) :
    s.step (.copy i) = (⟨s.xfs, s.curves ++ [c]⟩, none) := by
  have hb : ¬ ((c.pb.filled && !c.closed) = true) := by
    intro hb
    simp only [Bool.and_eq_true, Bool.not_eq_true'] at hb
    rw [hf hb.1] at hb
    exact absurd hb.2 (by simp)
  simp only [State.step, hc, State.add, if_neg hb]

theorem buildVal_ok {s : State} {i : ℕ} {c : Curve} {ts : List ℕ} (force : Bool) (hc : s.curves[i]? = some c) (h2 : 2 ≤ c.cps.length)
    (hf : c.pb.filled = true → c.closed = true) (hx : ∀ (l : ℕ) (d : Curve), s.curves[l]? = some d → d.xf < s.xfs.length)
    (ht : ∀ l ∈ ts, ∃ d : Curve, s.curves[l]? = some d ∧ 2 ≤ d.cps.length) :
    ∃ (n : ℕ) (s' : State) (first : Curve), buildVal s i ts force = (⟨s.xfs, s'.curves ++ [first]⟩, none) ∧ s'.xfs = s.xfs ∧
      s'.curves.length = s.curves.length + 1 ∧ s'.curves[s.curves.length]? = some first ∧
      (∀ l ∈ i :: ts, MH.sizeVal s l ≤ n) ∧ (∃ l ∈ i :: ts, MH.sizeVal s l = n) ∧ (∀ l ∈ s.curves.length :: ts, Ready force n s' l) ∧
      (∀ l, l < s.curves.length → l ∉ ts → s'.curves[l]? = s.curves[l]?) ∧ (∀ l, l < s.curves.length → MH.Keeps s s' l) ∧
      first.outline = c.outline ∧ first.name = c.name ∧ first.pb = c.pb ∧ first.closed = c.closed ∧ first.xf = c.xf := by
  obtain ⟨s1, hs1⟩ : ∃ s1 : State, s1 = ⟨s.xfs, s.curves ++ [c]⟩ := ⟨_, rfl⟩
  have e1 : s.step (.copy i) = (s1, none) := by rw [copy_ok hc hf, hs1]
  have old : ∀ l, l < s.curves.length → s1.curves[l]? = s.curves[l]? := fun l hl => by rw [hs1]; exact List.getElem?_append_left hl
  have new : s1.curves[s.curves.length]? = some c := by rw [hs1]; simp
  have lt : ∀ l ∈ ts, l < s.curves.length := fun l hl => (List.getElem?_eq_some_iff.1 (ht l hl).choose_spec.1).1
  obtain ⟨n, hn⟩ : ∃ n, n = ((s.curves.length :: ts).map (MH.sizeVal s1)).foldl max 0 := ⟨_, rfl⟩
  obtain ⟨-, m2, m3⟩ := foldl_max ((s.curves.length :: ts).map (MH.sizeVal s1)) 0
  rw [← hn] at m2 m3
  have sz0 : MH.sizeVal s1 s.curves.length = c.cps.length := by simp only [MH.sizeVal, new]
  have szi : MH.sizeVal s i = c.cps.length := by simp only [MH.sizeVal, hc]
  have szt : ∀ l ∈ ts, MH.sizeVal s1 l = MH.sizeVal s l := fun l hl => MH.size_of_get (old l (lt l hl))
  have le0 : c.cps.length ≤ n := by rw [← sz0]; exact m2 _ (by simp)
  have le1 : ∀ l ∈ ts, MH.sizeVal s l ≤ n := fun l hl => by
    rw [← szt l hl]; exact m2 _ (List.mem_map_of_mem (List.mem_cons_of_mem _ hl))
  have n2 : 2 ≤ n := by omega
  have fit : ∀ l ∈ s.curves.length :: ts, Fit n s1 l := by
    intro l hl
    rcases List.mem_cons.1 hl with rfl | hl
    · exact ⟨c, new, h2, le0, by rw [hs1]; exact hx i c hc⟩
    · obtain ⟨d, d1, d2⟩ := ht l hl
      refine ⟨d, by rw [old l (lt l hl)]; exact d1, d2, ?_, by rw [hs1]; exact hx l d d1⟩
      have := le1 l hl
      simpa only [MH.sizeVal, d1] using this
  obtain ⟨p1, p2, p3⟩ := prepVal_ok force n2 (s.curves.length :: ts) s1 fit
  have p4 := prepVal_len force n (s.curves.length :: ts) s1
  have p5 := fun l => prepVal_keeps force n (s.curves.length :: ts) s1 l
  have p6 := fun l (hl : l ∉ s.curves.length :: ts) => prepVal_other force n (s.curves.length :: ts) s1 hl
  obtain ⟨first, f1, f2, f3, f4, f5, f6, f7⟩ := p5 s.curves.length c new h2
  unfold buildVal
  simp only [e1, thenDo]
  rw [← hn]
  obtain ⟨A, hA⟩ : ∃ A, A = prepVal force n (s.curves.length :: ts) s1 := ⟨_, rfl⟩
  rw [← hA] at p1 p2 p3 p4 p5 p6 f1 ⊢
  obtain ⟨A1, A2⟩ := A
  simp only at p1 p2 p3 p4 p5 p6 f1
  subst p1
  have hx1 : s1.xfs = s.xfs := by rw [hs1]
  refine ⟨n, A1, first, ?_, p3.trans hx1, ?_, f1, ?_, ?_, p2, ?_, ?_, f2, f4, f5, f6, f7⟩
  · simp only
    rw [copy_ok f1 (by rw [f5, f6]; exact hf), p3, hx1]
  · rw [p4, hs1]; simp
  · intro l hl
    rcases List.mem_cons.1 hl with rfl | hl
    · rw [szi]; exact le0
    · exact le1 l hl
  · rcases m3 with m3 | m3
    · omega
    · rw [List.map_cons, List.mem_cons] at m3
      rcases m3 with m3 | m3
      · exact ⟨i, by simp, by rw [szi, m3, sz0]⟩
      · obtain ⟨l, hl, e⟩ := List.mem_map.1 m3
        exact ⟨l, by simp [hl], by rw [← szt l hl]; exact e⟩
  · intro l hl hn
    rw [p6 l (by simp only [List.mem_cons, not_or]; exact ⟨by omega, hn⟩), old l hl]
  · intro l hl d hd h
    exact p5 l d (by rw [old l hl]; exact hd) h

/-- C110: `MorphMultiStep` of curves with at least two control points each, the source being closed if it is filled: nothing is raised if
the source is in the model (`n + 1` times). There are two more curves: a copy of the source, which is the curve at step 0, and the curve
that is shown, which equals it. All curves at steps have as many control points as the largest of the given ones; with `force` they all
start at the control point nearest to the lower left corner of their bounding box. Every closed line through the control points of a curve
is what it was; curves that are not targets have not changed at all, so neither has the source, unless it is a target too. -/
theorem C110_made {w : World} {v : Values} (hv : w.values = some v) (hs : Sound w) {i : ℕ} {c : Curve} {targets : List (ℝ × ℕ)}
    (force : Bool) (hc : v.st.curves[i]? = some c) (h2 : 2 ≤ c.cps.length) (hf : c.pb.filled = true → c.closed = true)
    (ht : ∀ x ∈ targets, ∃ d : Curve, v.st.curves[x.2]? = some d ∧ 2 ≤ d.cps.length) (k : ℕ) :
    ∃ (w' : World) (v' : Values) (n : ℕ) (first : Curve), step w (.multi i targets force (.ok (k + 1))) = (w', none) ∧ w'.values = some v' ∧
      v'.morphs = v.morphs ∧
      v'.multis = v.multis ++ [⟨i, v.st.curves.length + 1, (0, v.st.curves.length) :: targets⟩] ∧
      v'.st.xfs = v.st.xfs ∧ v'.st.curves.length = v.st.curves.length + 2 ∧
      v'.st.curves[v.st.curves.length]? = some first ∧ v'.st.curves[v.st.curves.length + 1]? = some first ∧
      first.outline = c.outline ∧ first.name = c.name ∧ first.pb = c.pb ∧ first.closed = c.closed ∧ first.xf = c.xf ∧
      (∀ l ∈ i :: targets.map Prod.snd, MH.sizeVal v.st l ≤ n) ∧ (∃ l ∈ i :: targets.map Prod.snd, MH.sizeVal v.st l = n) ∧
      (∀ l ∈ v.st.curves.length :: targets.map Prod.snd, MH.sizeVal v'.st l = n) ∧
      (force = true → ∀ l ∈ v.st.curves.length :: targets.map Prod.snd, ∃ (d : Curve) (m : Mat3 ℝ), v'.st.curves[l]? = some d ∧
        v'.st.xfs[d.xf]? = some m ∧ StartsLow ⟨d.name, d.pb, d.closed, m⟩ d.cps) ∧
      (∀ (l : ℕ) (d : Curve), v.st.curves[l]? = some d → 2 ≤ d.cps.length → ∃ d', v'.st.curves[l]? = some d' ∧ d'.outline = d.outline ∧
        d'.name = d.name ∧ d'.pb = d.pb ∧ d'.closed = d.closed ∧ d'.xf = d.xf) ∧
      ∀ l, l < v.st.curves.length → l ∉ targets.map Prod.snd → v'.st.curves[l]? = v.st.curves[l]? := by
  have J := jinv_iff.2 ⟨hv, hs⟩
  obtain ⟨e, J1⟩ := step_jinv J (.multi i targets force (.ok (k + 1))) (by simp) (by simp)
  have hx : ∀ (l : ℕ) (d : Curve), v.st.curves[l]? = some d → d.xf < v.st.xfs.length := by
    intro l d hd
    have hl : l < w.heap.curves.length := by rw [J.inv.len]; exact (List.getElem?_eq_some_iff.1 hd).1
    have g := List.getElem?_eq_getElem hl
    obtain ⟨vs, -, e2⟩ := J.inv.cur l _ g
    have := J.inv.xf l _ g
    rw [hd] at e2
    cases e2
    rw [← J.inv.xfs]
    exact this
  obtain ⟨n, s', first, b1, b2, b3, b4, b5, b6, b7, b8, b9, b10, b11⟩ := buildVal_ok (ts := targets.map Prod.snd) force hc h2 hf hx
    (by intro l hl; obtain ⟨x, hx, rfl⟩ := List.mem_map.1 hl; exact ht x hx)
  have hil : i < v.st.curves.length := (List.getElem?_eq_some_iff.1 hc).1
  have htl : ∀ x ∈ targets, x.2 < v.st.curves.length := fun x hx => (List.getElem?_eq_some_iff.1 (ht x hx).choose_spec.1).1
  simp only [Values.step, if_pos (show i < v.st.curves.length ∧ ∀ x ∈ targets, x.2 < v.st.curves.length from ⟨hil, htl⟩), b1] at e J1
  have low : ∀ l, l < v.st.curves.length + 1 → (s'.curves ++ [first])[l]? = s'.curves[l]? := fun l hl =>
    List.getElem?_append_left (by omega)
  have stop : ∀ l ∈ v.st.curves.length :: targets.map Prod.snd, l < v.st.curves.length + 1 := by
    intro l hl
    rcases List.mem_cons.1 hl with rfl | hl
    · omega
    · obtain ⟨x, hx, rfl⟩ := List.mem_map.1 hl
      have := htl x hx
      omega
  refine ⟨_, _, n, first, Prod.ext rfl e, (jinv_iff.1 J1).1, rfl, rfl, rfl, ?_, ?_, ?_, b10, b11.1, b11.2.1, b11.2.2.1, b11.2.2.2,
    b5, b6, ?_, ?_, ?_, ?_⟩
  · simp [b3]
  · exact (low _ (by omega)).trans b4
  · simp only
    rw [← b3]; simp
  · intro l hl
    obtain ⟨d, d1, d2, -⟩ := b7 l hl
    simp only [MH.sizeVal]
    rw [low l (stop l hl), d1]
    exact d2
  · intro hfo l hl
    obtain ⟨d, d1, d2, m, d3, d4⟩ := b7 l hl
    exact ⟨d, m, (low l (stop l hl)).trans d1, by rw [← b2]; exact d3, lowest_zero (d4 hfo)⟩
  · intro l d hd h
    have hl : l < v.st.curves.length := (List.getElem?_eq_some_iff.1 hd).1
    obtain ⟨d', x1, x2, x3, x4⟩ := b9 l hl d hd h
    exact ⟨d', (low l (by omega)).trans x1, x2, x4⟩
  · intro l hl hn
    exact (low l (by omega)).trans (b8 l hl hn)

/-! ### After any history -/

theorem step_length (v : Values) (a : Call) : v.st.curves.length ≤ (v.step a).1.st.curves.length := by
  cases a with
  | base a => exact MH.step_length ⟨v.st, v.morphs⟩ a
  | multi i targets force found =>
    have h : v.st.curves.length ≤ (buildVal v.st i (targets.map Prod.snd) force).1.curves.length := by
      unfold buildVal
      have h1 := (copy_len_le v.st i).1
      refine thenDo_fst (fun s' : State => v.st.curves.length ≤ s'.curves.length) h1 fun _ => ?_
      have h2 := prepVal_len force (((v.st.curves.length :: targets.map Prod.snd).map (MH.sizeVal (v.st.step (.copy i)).1)).foldl max 0)
        (v.st.curves.length :: targets.map Prod.snd) (v.st.step (.copy i)).1
      refine thenDo_fst (fun s' : State => v.st.curves.length ≤ s'.curves.length) (by omega) fun _ => ?_
      exact le_trans (by omega) (copy_len_le _ _).1
    simp only [Values.step]
    split
    · split
      · rename_i s1 x e
        rw [e] at h
        exact h
      · rename_i s1 e
        rw [e] at h
        split <;> exact h
    · exact le_rfl
  | update k t =>
    simp only [Values.step]
    split
    · rename_i m hm
      have key : ∀ (o : MH.MorphObj) (t : TVal), v.st.curves.length ≤ (MH.updVal v.st o t).1.curves.length := fun o t => by
        have := MH.step_length ⟨v.st, [o]⟩ (.update 0 t)
        simpa [MH.Values.step] using this
      simp only [updVal]
      split
      · exact key _ _
      · exact le_rfl
      · split
        · exact le_rfl
        · exact key _ _
    · exact le_rfl

theorem build_other (s : State) (i : ℕ) (ts : List ℕ) (force : Bool) {l : ℕ} (hl : l < s.curves.length) (hn : l ∉ ts) :
    (buildVal s i ts force).1.curves[l]? = s.curves[l]? := by
  unfold buildVal
  have h1 := MH.copy_get s i hl
  refine thenDo_fst (fun s' : State => s'.curves[l]? = s.curves[l]?) h1 fun _ => ?_
  have h2 := prepVal_other force (((s.curves.length :: ts).map (MH.sizeVal (s.step (.copy i)).1)).foldl max 0)
    (s.curves.length :: ts) (s.step (.copy i)).1 (l := l) (by simp only [List.mem_cons, not_or]; exact ⟨by omega, hn⟩)
  have h3 := prepVal_len force (((s.curves.length :: ts).map (MH.sizeVal (s.step (.copy i)).1)).foldl max 0)
    (s.curves.length :: ts) (s.step (.copy i)).1
  have h4 := (copy_len_le s i).1
  refine thenDo_fst (fun s' : State => s'.curves[l]? = s.curves[l]?) (h2.trans h1) fun _ => ?_
  exact ((MH.copy_get _ _ (by omega)).trans h2).trans h1

theorem size_step (v : Values) (a : Call) {l : ℕ} (hl : l < v.st.curves.length) (hg : l ∉ a.mayGrow) :
    MH.sizeVal (v.step a).1.st l = MH.sizeVal v.st l := by
  cases a with
  | base a => exact MH.size_step ⟨v.st, v.morphs⟩ a hl hg
  | multi i targets force found =>
    have h := build_other v.st i (targets.map Prod.snd) force hl hg
    simp only [Values.step]
    split
    · split
      · rename_i s1 x e
        rw [e] at h
        exact MH.size_of_get h
      · rename_i s1 e
        rw [e] at h
        split <;> exact MH.size_of_get h
    · rfl
  | update k t =>
    simp only [Values.step]
    split
    · have key : ∀ (o : MH.MorphObj) (t : TVal), MH.sizeVal (MH.updVal v.st o t).1 l = MH.sizeVal v.st l := fun o t => by
        have := MH.size_step ⟨v.st, [o]⟩ (.update 0 t) (l := l) hl (by simp [MH.Call.mayGrow])
        simpa [MH.Values.step] using this
      simp only [updVal]
      split
      · exact key _ _
      · rfl
      · split
        · rfl
        · exact key _ _
    · rfl

theorem size_run (v : Values) (as : List Call) {l : ℕ} (hl : l < v.st.curves.length) (hg : ∀ a ∈ as, l ∉ a.mayGrow) :
    MH.sizeVal (v.run as).1.st l = MH.sizeVal v.st l := by
  induction as generalizing v with
  | nil => rfl
  | cons a as ih =>
    have h1 := step_length v a
    exact (ih (v.step a).1 (by omega) (fun b hb => hg b (by simp [hb]))).trans (size_step v a hl (hg a (by simp)))

theorem step_multis (v : Values) (a : Call) : v.multis <+: (v.step a).1.multis := by
  cases a with
  | base a => exact List.prefix_rfl
  | multi i targets force found =>
    simp only [Values.step]
    split
    · split
      · exact List.prefix_rfl
      · split
        · exact List.prefix_rfl
        · exact List.prefix_rfl
        · exact List.prefix_append _ _
    · exact List.prefix_rfl
  | update k t =>
    simp only [Values.step]
    split <;> exact List.prefix_rfl

theorem run_multis (v : Values) (as : List Call) : v.multis <+: (v.run as).1.multis := by
  induction as generalizing v with
  | nil => exact List.prefix_rfl
  | cons a as ih => exact (step_multis v a).trans (ih _)

/-- C110: a multi-step morph was made of curves with at least two control points each, and then followed any history of calls, among them
updates of it and of others, in which neither its targets nor its copy of the source nor its own curve may get control points. Then `update`
with the number `s` raises nothing; the curves at its steps and its own curve have equally many control points; each number of each control
point shown is the height at `s` of the polyline through the present numbers of the curves at the steps; and if the steps increase, the
first one being after 0, and `s` is one of them, the line shown is the one of the curve at that step. -/
theorem C110_multi {w w1 : World} {v : Values} (hv : w.values = some v) (hs : Sound w) {i : ℕ} {c : Curve} {targets : List (ℝ × ℕ)}
    {force : Bool} {k : ℕ} (hc : v.st.curves[i]? = some c) (h2 : 2 ≤ c.cps.length) (hf : c.pb.filled = true → c.closed = true)
    (ht : ∀ x ∈ targets, ∃ d : Curve, v.st.curves[x.2]? = some d ∧ 2 ≤ d.cps.length)
    (e : (step w (.multi i targets force (.ok (k + 1)))).1 = w1)
    (as : List Call) (ha : (v.step (.multi i targets force (.ok (k + 1)))).1.Allowed as)
    (hg : ∀ a ∈ as, v.st.curves.length ∉ a.mayGrow ∧ v.st.curves.length + 1 ∉ a.mayGrow ∧ ∀ x ∈ targets, x.2 ∉ a.mayGrow) (s : ℝ) :
    ∃ (w2 : World) (v2 : Values) (shown : Curve), step (run w1 as).1 (.update v.multis.length (.num s)) = (w2, none) ∧
      w2.values = some v2 ∧ v2.st.curves[v.st.curves.length + 1]? = some shown ∧
      (∀ x ∈ (0, v.st.curves.length) :: targets, MH.sizeVal v2.st x.2 = shown.cps.length) ∧
      (∀ p < shown.cps.length, ∀ q, PolyAt (((0, v.st.curves.length) :: targets).map fun x => (x.1, number v2.st p q x.2)) s
        (number v2.st p q (v.st.curves.length + 1))) ∧
      ((0 :: targets.map Prod.fst).Pairwise (· < ·) → ∀ x ∈ (0, v.st.curves.length) :: targets, x.1 = s →
        ∃ d : Curve, v2.st.curves[x.2]? = some d ∧ shown.outline = d.outline) := by
  have J := jinv_iff.2 ⟨hv, hs⟩
  obtain ⟨e1, J1⟩ := step_jinv J (.multi i targets force (.ok (k + 1))) (by simp) (by simp)
  obtain ⟨w1', v1', n, first, m1, m2, -, m4, -, m6, m7, m8, -, -, -, -, -, -, -, m16, -⟩ := C110_made hv hs force hc h2 hf ht k
  have hv1 : v1' = (v.step (.multi i targets force (.ok (k + 1)))).1 := by
    have := (jinv_iff.1 J1).1
    rw [m1] at this
    simp only at this
    rw [m2] at this
    injection this
  rw [e] at J1
  obtain ⟨v1, hv1'⟩ : ∃ v1, v1 = (v.step (.multi i targets force (.ok (k + 1)))).1 := ⟨_, rfl⟩
  rw [← hv1'] at hv1 ha J1
  subst hv1
  clear hv1' e1 m1 m2
  obtain ⟨-, J2⟩ := run_jinv J1 as ha
  obtain ⟨b1, b2⟩ := jinv_iff.1 J2
  have hm : (v1'.run as).1.multis[v.multis.length]? = some ⟨i, v.st.curves.length + 1, (0, v.st.curves.length) :: targets⟩ :=
    pre_get (run_multis v1' as) (by rw [m4]; simp)
  obtain ⟨w2, v2, cm, cm', c1, c2, -, -, c5, -, c7, c8, -, -, -, -, c13, c14⟩ := C110_update b1 b2 hm s
  simp only at c5 c7 c8 c14
  have htl : ∀ x ∈ targets, x.2 < v.st.curves.length := fun x hx => (List.getElem?_eq_some_iff.1 (ht x hx).choose_spec.1).1
  have hlt : ∀ x ∈ (0, v.st.curves.length) :: targets, x.2 < v.st.curves.length + 1 := by
    intro x hx
    rcases List.mem_cons.1 hx with rfl | hx
    · simp
    · have := htl x hx; omega
  have own : cm.cps.length = n := by
    have a := size_run v1' as (l := v.st.curves.length + 1) (by omega) (fun a h => (hg a h).2.1)
    simp only [MH.sizeVal, c7, m8] at a
    have b := m16 v.st.curves.length (by simp)
    simp only [MH.sizeVal, m7] at b
    omega
  have sizes : ∀ x ∈ (0, v.st.curves.length) :: targets, MH.sizeVal (v1'.run as).1.st x.2 = cm.cps.length := by
    intro x hx
    rw [own, size_run v1' as (l := x.2) (by have := hlt x hx; omega)]
    · apply m16
      rcases List.mem_cons.1 hx with rfl | hx
      · simp
      · exact List.mem_cons_of_mem _ (List.mem_map_of_mem hx)
    · intro a h
      rcases List.mem_cons.1 hx with rfl | hx
      · exact (hg a h).1
      · exact (hg a h).2.2 x hx
  have same : ∀ x ∈ (0, v.st.curves.length) :: targets, v2.st.curves[x.2]? = (v1'.run as).1.st.curves[x.2]? := fun x hx =>
    c5 x.2 (by have := hlt x hx; omega)
  have num : ∀ p q, ∀ x ∈ (0, v.st.curves.length) :: targets, number v2.st p q x.2 = number (v1'.run as).1.st p q x.2 := by
    intro p q x hx
    simp only [number]
    rw [same x hx]
  have sizes2 : ∀ x ∈ (0, v.st.curves.length) :: targets, MH.sizeVal v2.st x.2 = cm'.cps.length := by
    intro x hx
    rw [MH.size_of_get (same x hx), sizes x hx, c13]
  have poly : ∀ p < cm'.cps.length, ∀ q, PolyAt (((0, v.st.curves.length) :: targets).map fun x => (x.1, number v2.st p q x.2)) s
        (number v2.st p q (v.st.curves.length + 1)) := by
    intro p hp q
    rw [List.map_congr_left (g := fun x => (x.1, number (v1'.run as).1.st p q x.2)) fun x hx => by rw [num p q x hx]]
    exact c14 sizes p (by omega) q
  refine ⟨w2, v2, cm', c1, c2, c8, sizes2, poly, ?_⟩
  intro hp x hx hxs
  have z := sizes2 x hx
  have hx2 : ∃ d, v2.st.curves[x.2]? = some d := by
    cases g : v2.st.curves[x.2]? with
    | some d => exact ⟨d, rfl⟩
    | none =>
      exfalso
      rw [same x hx, List.getElem?_eq_none_iff] at g
      have l1 := hlt x hx
      have l2 : v.st.curves.length + 1 < (v1'.run as).1.st.curves.length := (List.getElem?_eq_some_iff.1 c7).1
      omega
  obtain ⟨d, hd⟩ := hx2
  refine ⟨d, hd, ?_⟩
  simp only [MH.sizeVal, hd] at z
  have key : cm'.cps.map MH.plain = d.cps.map MH.plain := by
    apply List.ext_getElem (by simp [z])
    intro p p1 p2
    simp only [List.length_map] at p1 p2
    simp only [List.getElem_map]
    have hq : ∀ q, Morph.coord q cm'.cps[p] = Morph.coord q d.cps[p] := by
      intro q
      have hpw : (((0, v.st.curves.length) :: targets).map fun x => (x.1, number v2.st p q x.2)).Pairwise fun a b => a.1 < b.1 := by
        rw [List.pairwise_map]
        rw [← List.map_cons (f := Prod.fst) (a := ((0 : ℝ), v.st.curves.length)), List.pairwise_map] at hp
        exact hp
      have hk := poly_knot hpw (k := (x.1, number v2.st p q x.2)) (List.mem_map_of_mem (f := fun x : ℝ × ℕ => (x.1, number v2.st p q x.2)) hx)
      have := poly_unique (hpw.imp fun h => h.le) (poly p p1 q) (hxs ▸ hk)
      simp only [number, c8, hd] at this
      simpa only [List.getD, List.getElem?_eq_getElem p1, List.getElem?_eq_getElem p2, Option.getD_some] using this
    obtain ⟨e1, e2, e3⟩ := Morph.cp_ext_coord hq
    simp only [MH.plain, e1, e2, e3]
  simp only [Curve.outline]
  rw [← MH.segs_plain cm'.cps, key, MH.segs_plain]

/-! ### Outlines -/

theorem Keeps.call (v : Values) (a : Call) {n : ℕ} (hr : a.redraws v ≠ some n) : MH.Keeps v.st (v.step a).1.st n := by
  cases a with
  | base a => exact MH.Keeps.call ⟨v.st, v.morphs⟩ a hr
  | multi i targets force found =>
    have h : MH.Keeps v.st (buildVal v.st i (targets.map Prod.snd) force).1 n := by
      unfold buildVal
      have h1 := MH.Keeps.step v.st (.copy i) (n := n) (by simp [Op.restores])
      refine thenDo_fst (fun s' : State => MH.Keeps v.st s' n) h1 fun _ => ?_
      have h2 := h1.trans (prepVal_keeps force (((v.st.curves.length :: targets.map Prod.snd).map (MH.sizeVal (v.st.step (.copy i)).1)).foldl max 0)
        (v.st.curves.length :: targets.map Prod.snd) (v.st.step (.copy i)).1 n)
      refine thenDo_fst (fun s' : State => MH.Keeps v.st s' n) h2 fun _ => ?_
      exact h2.trans (MH.Keeps.step _ _ (by simp [Op.restores]))
    simp only [Values.step]
    split
    · split
      · rename_i s1 x e
        rw [e] at h
        exact h
      · rename_i s1 e
        rw [e] at h
        split <;> exact h
    · exact .refl _ n
  | update k t =>
    simp only [Values.step]
    split
    · rename_i m hm
      have hne : m.morph ≠ n := fun h => hr (by simp [Call.redraws, hm, h])
      have key : ∀ (o : MH.MorphObj) (t : TVal), o.morph = m.morph → MH.Keeps v.st (MH.updVal v.st o t).1 n := fun o t ho => by
        have := MH.Keeps.call ⟨v.st, [o]⟩ (.update 0 t) (n := n) (by simp [MH.Call.redraws, ho, hne])
        simpa [MH.Values.step] using this
      simp only [updVal]
      split
      · exact key _ _ rfl
      · exact .refl _ n
      · split
        · exact .refl _ n
        · exact key _ _ rfl
    · exact .refl _ n

/-- C110: through every history of calls on curves, morphs and multi-step morphs, a curve of at least two control points keeps the closed
line through them, its name, pen and transform, as long as it is not restored and is not the curve of a morph that is updated. -/
theorem C110_outline {w : World} {v : Values} (hv : w.values = some v) (hs : Sound w) {n : ℕ} {c : Curve} (hc : v.st.curves[n]? = some c)
    (h2 : 2 ≤ c.cps.length) (as : List Call) (ha : v.Allowed as) (hu : v.Untouched n as) :
    ∃ v' c', (run w as).1.values = some v' ∧ v'.st.curves[n]? = some c' ∧ c'.outline = c.outline ∧ 2 ≤ c'.cps.length ∧
      c'.name = c.name ∧ c'.pb = c.pb ∧ c'.closed = c.closed ∧ c'.xf = c.xf := by
  have K : MH.Keeps v.st (v.run as).1.st n := by
    clear hv hs hc h2 ha
    induction as generalizing v with
    | nil => exact .refl _ n
    | cons a as ih => exact (Keeps.call v a hu.1).trans (ih hu.2)
  obtain ⟨c', hc'⟩ := K c hc h2
  exact ⟨_, c', (C110_history hv hs as ha).1, hc'⟩

/-! ### What goes wrong when curves are shared -/

/-- A line from below. -/
def up : List (CP ℝ) := [⟨⟨0, 0⟩, ⟨0, 0⟩, ⟨0, 0⟩, "smooth"⟩, ⟨⟨4, 4⟩, ⟨0, 0⟩, ⟨0, 0⟩, "smooth"⟩]

/-- The same line from above. -/
def down : List (CP ℝ) := [⟨⟨4, 4⟩, ⟨0, 0⟩, ⟨0, 0⟩, "smooth"⟩, ⟨⟨0, 0⟩, ⟨0, 0⟩, ⟨0, 0⟩, "smooth"⟩]

theorem lowest_up (pb : PenBrush) : lowest ⟨[], pb, true, Mat3.one⟩ up = .ok 0 := by
  have hb : Elem.bbox (.curve ⟨[], pb, true, Mat3.one⟩ up) = .ok (.box 0 0 4 4) := by
    norm_num [Elem.bbox, Elem.bboxInt, Elem.bboxFrom, bboxCps, CP.bbox, BBox.ofPts, BBox.mk', BBox.grow, BBox.add, CP.l, CP.r, Pt.addVector, Elem.hdr,
      Elem.bboxOf, Mat3.apply, Mat3.one, up]
  have h1 : ¬ hypot (0 - 4) (0 - 4) < hypot (0 - 0) (0 - 0) := by
    rw [not_lt]
    unfold hypot
    apply Real.sqrt_le_sqrt; norm_num
  unfold lowest
  rw [hb]
  simp only [BBox.pll, List.map_cons, List.map_nil, Pt.sub, Vec.length, Morph.firstMin, Morph.firstMinFrom, up]
  rw [if_neg h1]

theorem lowest_down (pb : PenBrush) : lowest ⟨[], pb, true, Mat3.one⟩ down = .ok 1 := by
  have hb : Elem.bbox (.curve ⟨[], pb, true, Mat3.one⟩ down) = .ok (.box 0 0 4 4) := by
    norm_num [Elem.bbox, Elem.bboxInt, Elem.bboxFrom, bboxCps, CP.bbox, BBox.ofPts, BBox.mk', BBox.grow, BBox.add, CP.l, CP.r, Pt.addVector, Elem.hdr,
      Elem.bboxOf, Mat3.apply, Mat3.one, down]
  have h1 : hypot (0 - 0) (0 - 0) < hypot (0 - 4) (0 - 4) := by
    unfold hypot
    apply Real.sqrt_lt_sqrt <;> norm_num
  unfold lowest
  rw [hb]
  simp only [BBox.pll, List.map_cons, List.map_nil, Pt.sub, Vec.length, Morph.firstMin, Morph.firstMinFrom, down]
  rw [if_pos h1]

/-- C110: a `Morph` from curve 0 to curve 1 is shown at 1/2. Then curve 1 is also made the target of a `MorphMultiStep`, which turns the
control points of curve 1 itself, so that another one is the first. Nothing is raised; but the first morph, although nobody has touched it, shows
something else at 1/2. -/
theorem C110_turn_counterexample (pb : PenBrush) :
    ∃ (as : List Call) (w w' : World) (v v' : Values) (c c' : Curve), as = [.base (.curve (.make [] pb true Mat3.one up)),
        .base (.curve (.make [] pb true Mat3.one down)), .base (.morph 0 1 true (.ok 1)), .base (.update 0 (.num (1 / 2)))] ∧
      run ⟨Heap.empty, [], []⟩ as = (w, [none, none, none, none]) ∧ w.values = some v ∧ v.morphs[0]? = some ⟨0, 2, 1⟩ ∧
      run w [.multi 0 [(1, 1)] true (.ok 1), .base (.update 0 (.num (1 / 2)))] = (w', [none, none]) ∧ w'.values = some v' ∧
      v'.morphs = v.morphs ∧ v.st.curves[2]? = some c ∧ v'.st.curves[2]? = some c' ∧
      c.cps.map CP.c = [⟨2, 2⟩, ⟨2, 2⟩] ∧ c'.cps.map CP.c = [⟨0, 0⟩, ⟨4, 4⟩] := by
  obtain ⟨as, has⟩ : ∃ as : List Call, as = [.base (.curve (.make [] pb true Mat3.one up)),
        .base (.curve (.make [] pb true Mat3.one down)), .base (.morph 0 1 true (.ok 1)), .base (.update 0 (.num (1 / 2)))] := ⟨_, rfl⟩
  have lu : up.length = 2 := rfl
  have ld : down.length = 2 := rfl
  obtain ⟨mid, hmid⟩ : ∃ mid : List (CP ℝ), mid = Morph.mixAll (1 / 2) up up down := ⟨_, rfl⟩
  have lm : mid.length = 2 := by rw [hmid, Morph.mixAll_length]; exact lu
  have key : Values.run ⟨⟨[], []⟩, [], []⟩ as = (⟨⟨[Mat3.one, Mat3.one], [⟨[], pb, true, 0, up⟩, ⟨[], pb, true, 1, down⟩,
      ⟨[], pb, true, 0, mid⟩]⟩, [⟨0, 2, 1⟩], []⟩, [none, none, none, none]) := by
    rw [has, hmid]
    simp [Values.run, Values.step, MH.Values.step, State.step, State.addXf, State.add, MH.padBothVal, MH.padVal, MH.sizeVal, lu, ld,
      MH.updVal]
  have ha : Values.Allowed ⟨⟨[], []⟩, [], []⟩ as := by
    rw [has]
    simp [Values.Allowed]
  obtain ⟨p1, p2, p3⟩ := C110_program as ha
  rw [key] at p1 p2
  have hd1 : down.tail ++ down.take 1 = up := by simp [down, up]
  have key2 : Values.run ⟨⟨[Mat3.one, Mat3.one], [⟨[], pb, true, 0, up⟩, ⟨[], pb, true, 1, down⟩, ⟨[], pb, true, 0, mid⟩]⟩, [⟨0, 2, 1⟩], []⟩
      [.multi 0 [(1, 1)] true (.ok 1), .base (.update 0 (.num (1 / 2)))] =
      (⟨⟨[Mat3.one, Mat3.one], [⟨[], pb, true, 0, up⟩, ⟨[], pb, true, 1, up⟩, ⟨[], pb, true, 0, Morph.mixAll (1 / 2) mid up up⟩,
        ⟨[], pb, true, 0, up⟩, ⟨[], pb, true, 0, up⟩]⟩, [⟨0, 2, 1⟩], [⟨0, 4, [(0, 3), (1, 1)]⟩]⟩, [none, none]) := by
    simp [Values.run, Values.step, MH.Values.step, State.step, State.add, buildVal, thenDo, prepVal, turnVal, MH.padVal, MH.sizeVal, lu, ld, lm,
      MH.updVal, lowest_up, lowest_down, hd1]
  obtain ⟨q1, q2, -⟩ := C110_history p1 p3 [.multi 0 [(1, 1)] true (.ok 1), .base (.update 0 (.num (1 / 2)))]
    (by simp [Values.Allowed])
  rw [key2] at q1 q2
  refine ⟨as, _, _, _, _, _, _, has, Prod.ext rfl p2, p1, rfl, Prod.ext rfl q2, q1, rfl, rfl, rfl, ?_, ?_⟩
  · simp only [hmid]
    norm_num [Morph.mixAll, up, down, Morph.mixCP, Morph.mixPt, Morph.mixVec, Pt.addVector, Pt.sub, Vec.mul, Vec.add, Vec.sub,
        Vec.subVector]
  · simp only [hmid]
    norm_num [Morph.mixAll, up, down, Morph.mixCP, Morph.mixPt, Morph.mixVec, Pt.addVector, Pt.sub, Vec.mul, Vec.add, Vec.sub,
        Vec.subVector]

/-! ### The hypotheses are met -/

/-- A multi-step morph through a curve of three control points, made after a morph of the same curves; then updates, a turn and a copy. -/
example (pb : PenBrush) : ∃ (w : World) (v : Values) (c : Curve) (as : List Call), w.values = some v ∧ Sound w ∧ v.morphs ≠ [] ∧
    v.st.curves[0]? = some c ∧ 2 ≤ c.cps.length ∧ (c.pb.filled = true → c.closed = true) ∧
    (∀ x ∈ [((1 / 2 : ℝ), 1), (1, 2)], ∃ d : Curve, v.st.curves[x.2]? = some d ∧ 2 ≤ d.cps.length) ∧
    (0 :: [((1 / 2 : ℝ), 1), (1, 2)].map Prod.fst).Pairwise (· < ·) ∧ v.st.curves.length = 4 ∧
    as = [.update 0 (.num (1 / 4)), .base (.curve (.turn 1 1)), .base (.curve (.addOne 0)), .base (.curve (.copy 2)), .update 0 .none] ∧
    (v.step (.multi 0 [(1 / 2, 1), (1, 2)] true (.ok 1))).1.Allowed as ∧
    (∀ a ∈ as, 4 ∉ a.mayGrow ∧ 5 ∉ a.mayGrow ∧ ∀ x ∈ [((1 / 2 : ℝ), 1), (1, 2)], x.2 ∉ a.mayGrow) := by
  obtain ⟨as, has⟩ : ∃ as : List Call, as = [.base (.curve (.make [] pb true Mat3.one up)),
        .base (.curve (.make [] pb true Mat3.one down)), .base (.curve (.make [] pb true Mat3.one MH.three)),
        .base (.morph 0 1 true (.ok 1))] := ⟨_, rfl⟩
  have lu : up.length = 2 := rfl
  have ld : down.length = 2 := rfl
  have lt : MH.three.length = 3 := rfl
  have key : (Values.run ⟨⟨[], []⟩, [], []⟩ as).1 = ⟨⟨[Mat3.one, Mat3.one, Mat3.one], [⟨[], pb, true, 0, up⟩,
      ⟨[], pb, true, 1, down⟩, ⟨[], pb, true, 2, MH.three⟩, ⟨[], pb, true, 0, up⟩]⟩, [⟨0, 3, 1⟩], []⟩ := by
    rw [has]
    simp [Values.run, Values.step, MH.Values.step, State.step, State.addXf, State.add, MH.padBothVal, MH.padVal, MH.sizeVal, lu, ld]
  obtain ⟨p1, -, p3⟩ := C110_program as (by rw [has]; simp [Values.Allowed])
  rw [key] at p1
  refine ⟨_, _, _, _, p1, p3, by simp, rfl, lu.ge, fun _ => rfl, ?_, ?_, rfl, rfl, ?_, ?_⟩
  · simp [ld, lt]
  · norm_num
  · simp [Values.Allowed]
  · simp [Call.mayGrow, MH.Call.mayGrow]

/-- An object to be updated: the multi-step morph of the counterexample. -/
example (pb : PenBrush) : ∃ (w : World) (v : Values) (m : MultiObj), w.values = some v ∧ Sound w ∧ v.multis[0]? = some m ∧ m.stops.length = 2 := by
  obtain ⟨as, has⟩ : ∃ as : List Call, as = [.base (.curve (.make [] pb true Mat3.one up)),
        .base (.curve (.make [] pb true Mat3.one down)), .multi 0 [(1, 1)] false (.ok 1)] := ⟨_, rfl⟩
  have lu : up.length = 2 := rfl
  have ld : down.length = 2 := rfl
  have key : (Values.run ⟨⟨[], []⟩, [], []⟩ as).1 = ⟨⟨[Mat3.one, Mat3.one], [⟨[], pb, true, 0, up⟩,
      ⟨[], pb, true, 1, down⟩, ⟨[], pb, true, 0, up⟩, ⟨[], pb, true, 0, up⟩]⟩, [], [⟨0, 3, [(0, 2), (1, 1)]⟩]⟩ := by
    rw [has]
    simp [Values.run, Values.step, MH.Values.step, State.step, State.addXf, State.add, buildVal, thenDo, prepVal, MH.padVal, MH.sizeVal, lu, ld]
  obtain ⟨p1, -, p3⟩ := C110_program as (by rw [has]; simp [Values.Allowed])
  rw [key] at p1
  exact ⟨_, _, _, p1, p3, rfl, rfl⟩

/-- The curve of another morph is not redrawn by these calls. -/
example (v : Values) : v.Untouched 0 [.base (.curve (.turn 0 1)), .multi 0 [(1, 0)] true (.ok 1), .base (.curve (.addOne 0))] := by
  simp [Values.Untouched, Call.redraws, MH.Call.redraws]

end X7.Multi
