import Mathlib.Data.List.InsertIdx
import Mathlib.Data.List.Nodup
import Verif.Spec.CurveHeap

/-! Lemmas about curves as objects. -/

noncomputable section

namespace X7.CH

/-- Points and vectors are only added. -/
structure Grow (h h' : Heap) : Prop where
  pts : h.pts <+: h'.pts
  vecs : h.vecs <+: h'.vecs

theorem Grow.refl (h : Heap) : Grow h h := ⟨List.prefix_rfl, List.prefix_rfl⟩

theorem Grow.trans {a b c : Heap} (h : Grow a b) (g : Grow b c) : Grow a c := ⟨h.pts.trans g.pts, h.vecs.trans g.vecs⟩

theorem pre_get {α : Type*} {l l' : List α} (h : l <+: l') {i : ℕ} {x : α} (hx : l[i]? = some x) : l'[i]? = some x := by
  obtain ⟨t, rfl⟩ := h
  rw [List.getElem?_append_left (List.getElem?_eq_some_iff.1 hx).1]
  exact hx

theorem readCp_some {h : Heap} {i : ℕ} {v : CP ℝ} (e : readCp h i = some v) :
    ∃ o, h.cps[i]? = some o ∧ h.pts[o.c]? = some v.c ∧ h.vecs[o.dl]? = some v.dl ∧ h.vecs[o.dr]? = some v.dr ∧ o.kind = v.kind := by
  unfold readCp at e
  split at e
  · rename_i o ho
    split at e
    · rename_i c dl dr h1 h2 h3
      cases e
      exact ⟨o, ho, h1, h2, h3, rfl⟩
    · cases e
  · cases e

theorem readCp_of {h : Heap} {i : ℕ} {o : CpObj} {v : CP ℝ} (h0 : h.cps[i]? = some o) (h1 : h.pts[o.c]? = some v.c)
    (h2 : h.vecs[o.dl]? = some v.dl) (h3 : h.vecs[o.dr]? = some v.dr) (h4 : o.kind = v.kind) : readCp h i = some v := by
  unfold readCp
  rw [h0]
  simp only
  rw [h1, h2, h3, h4]

theorem readCp_lt {h : Heap} {i : ℕ} {v : CP ℝ} (e : readCp h i = some v) : i < h.cps.length := by
  obtain ⟨o, ho, -⟩ := readCp_some e
  exact (List.getElem?_eq_some_iff.1 ho).1

theorem readCp_grow {h h' : Heap} {i : ℕ} {v : CP ℝ} (g : Grow h h') (ho : h'.cps[i]? = h.cps[i]?) (e : readCp h i = some v) :
    readCp h' i = some v := by
  obtain ⟨o, h0, h1, h2, h3, h4⟩ := readCp_some e
  exact readCp_of (ho.trans h0) (pre_get g.pts h1) (pre_get g.vecs h2) (pre_get g.vecs h3) h4

theorem readCps_cons {h : Heap} {i : ℕ} {is : List ℕ} {vs : List (CP ℝ)} (e : readCps h (i :: is) = some vs) :
    ∃ v ws, vs = v :: ws ∧ readCp h i = some v ∧ readCps h is = some ws := by
  unfold readCps at e
  split at e
  · rename_i v ws h1 h2
    cases e
    exact ⟨v, ws, rfl, h1, h2⟩
  · cases e

theorem readCps_cons_of {h : Heap} {i : ℕ} {is : List ℕ} {v : CP ℝ} {ws : List (CP ℝ)} (h1 : readCp h i = some v)
    (h2 : readCps h is = some ws) : readCps h (i :: is) = some (v :: ws) := by
  simp [readCps, h1, h2]

theorem readCps_length {h : Heap} {is : List ℕ} {vs : List (CP ℝ)} (e : readCps h is = some vs) : vs.length = is.length := by
  induction is generalizing vs with
  | nil => simp [readCps] at e; subst e; rfl
  | cons i is ih =>
    obtain ⟨v, ws, rfl, -, h2⟩ := readCps_cons e
    simp [ih h2]

theorem readCps_get {h : Heap} {is : List ℕ} {vs : List (CP ℝ)} (e : readCps h is = some vs) {k p : ℕ} (hk : is[k]? = some p) :
    ∃ v, vs[k]? = some v ∧ readCp h p = some v := by
  induction is generalizing vs k with
  | nil => simp at hk
  | cons i is ih =>
    obtain ⟨v, ws, rfl, h1, h2⟩ := readCps_cons e
    cases k with
    | zero => simp at hk; subst hk; exact ⟨v, rfl, h1⟩
    | succ k => simpa using ih h2 (by simpa using hk)

theorem readCps_lt {h : Heap} {is : List ℕ} {vs : List (CP ℝ)} (e : readCps h is = some vs) : ∀ i ∈ is, i < h.cps.length := by
  intro i hi
  obtain ⟨k, hk⟩ := List.getElem?_of_mem hi
  obtain ⟨v, -, h2⟩ := readCps_get e hk
  exact readCp_lt h2

theorem readCps_grow {h h' : Heap} {is : List ℕ} {vs : List (CP ℝ)} (g : Grow h h') (ho : ∀ i ∈ is, h'.cps[i]? = h.cps[i]?)
    (e : readCps h is = some vs) : readCps h' is = some vs := by
  induction is generalizing vs with
  | nil => simpa [readCps] using e
  | cons i is ih =>
    obtain ⟨v, ws, rfl, h1, h2⟩ := readCps_cons e
    exact readCps_cons_of (readCp_grow g (ho i (by simp)) h1) (ih (fun j hj => ho j (by simp [hj])) h2)

theorem readCps_append {h : Heap} {is js : List ℕ} {vs ws : List (CP ℝ)} (e1 : readCps h is = some vs)
    (e2 : readCps h js = some ws) : readCps h (is ++ js) = some (vs ++ ws) := by
  induction is generalizing vs with
  | nil => simp [readCps] at e1; subst e1; simpa using e2
  | cons i is ih =>
    obtain ⟨v, us, rfl, h1, h2⟩ := readCps_cons e1
    exact readCps_cons_of h1 (ih h2)

theorem readCps_drop {h : Heap} {is : List ℕ} {vs : List (CP ℝ)} (e : readCps h is = some vs) (k : ℕ) :
    readCps h (is.drop k) = some (vs.drop k) := by
  induction k generalizing is vs with
  | zero => simpa using e
  | succ k ih =>
    cases is with
    | nil => simp [readCps] at e; subst e; simp [readCps]
    | cons i is =>
      obtain ⟨v, ws, rfl, -, h2⟩ := readCps_cons e
      simpa using ih h2

theorem readCps_take {h : Heap} {is : List ℕ} {vs : List (CP ℝ)} (e : readCps h is = some vs) (k : ℕ) :
    readCps h (is.take k) = some (vs.take k) := by
  induction k generalizing is vs with
  | zero => simp [readCps]
  | succ k ih =>
    cases is with
    | nil => simp [readCps] at e; subst e; simp [readCps]
    | cons i is =>
      obtain ⟨v, ws, rfl, h1, h2⟩ := readCps_cons e
      simpa using readCps_cons_of h1 (ih h2)

theorem readCps_insertIdx {h : Heap} {is : List ℕ} {vs : List (CP ℝ)} (e : readCps h is = some vs) {m : ℕ} {v : CP ℝ}
    (hm : readCp h m = some v) (k : ℕ) : readCps h (is.insertIdx k m) = some (vs.insertIdx k v) := by
  induction k generalizing is vs with
  | zero => simpa using readCps_cons_of hm e
  | succ k ih =>
    cases is with
    | nil => simp [readCps] at e; subst e; simp [readCps]
    | cons i is =>
      obtain ⟨w, ws, rfl, h1, h2⟩ := readCps_cons e
      simpa using readCps_cons_of h1 (ih h2)

/-- One object, held once, gets another value. -/
theorem readCps_set {h h' : Heap} {is : List ℕ} {vs : List (CP ℝ)} (g : Grow h h') (hn : is.Nodup) {k p : ℕ}
    (hk : is[k]? = some p) (ho : ∀ i ∈ is, i ≠ p → h'.cps[i]? = h.cps[i]?) (e : readCps h is = some vs) {v : CP ℝ}
    (hv : readCp h' p = some v) : readCps h' is = some (vs.set k v) := by
  induction is generalizing vs k with
  | nil => simp at hk
  | cons i is ih =>
    obtain ⟨w, ws, rfl, h1, h2⟩ := readCps_cons e
    rw [List.nodup_cons] at hn
    cases k with
    | zero =>
      simp at hk; subst hk
      refine readCps_cons_of hv (readCps_grow g (fun j hj => ho j (by simp [hj]) ?_) h2)
      rintro rfl; exact hn.1 hj
    | succ k =>
      have hk' : is[k]? = some p := by simpa using hk
      refine readCps_cons_of (readCp_grow g (ho i (by simp) ?_) h1) (ih hn.2 hk' (fun j hj => ho j (by simp [hj])) h2)
      rintro rfl; exact hn.1 (List.mem_of_getElem? hk')

/-! ### New objects -/

theorem newCp_read (h : Heap) (v : CP ℝ) : readCp (newCp h v).1 (newCp h v).2 = some v := by
  refine readCp_of (o := ⟨h.pts.length, h.vecs.length, h.vecs.length + 1, v.kind⟩) ?_ ?_ ?_ ?_ rfl
  · simp [newCp]
  · simp [newCp]
  · simp [newCp]
  · simp [newCp]

theorem newCp_grow (h : Heap) (v : CP ℝ) : Grow h (newCp h v).1 := ⟨List.prefix_append _ _, List.prefix_append _ _⟩

/-- What `newCps` does. -/
structure Made (h h' : Heap) (is : List ℕ) (vs : List (CP ℝ)) : Prop where
  grow : Grow h h'
  old : ∀ k, k < h.cps.length → h'.cps[k]? = h.cps[k]?
  len : h.cps.length ≤ h'.cps.length
  new : ∀ i ∈ is, h.cps.length ≤ i
  nodup : is.Nodup
  read : readCps h' is = some vs
  xfs : h'.xfs = h.xfs
  curves : h'.curves = h.curves

theorem newCps_made (h : Heap) (vs : List (CP ℝ)) : Made h (newCps h vs).1 (newCps h vs).2 vs := by
  induction vs generalizing h with
  | nil => exact ⟨.refl h, fun _ _ => rfl, le_rfl, by simp [newCps], by simp [newCps], rfl, rfl, rfl⟩
  | cons v vs ih =>
    have M := ih (newCp h v).1
    have hl : (newCp h v).1.cps.length = h.cps.length + 1 := by simp [newCp]
    have e1 : (newCps h (v :: vs)).1 = (newCps (newCp h v).1 vs).1 := rfl
    have e2 : (newCps h (v :: vs)).2 = (newCp h v).2 :: (newCps (newCp h v).1 vs).2 := rfl
    have e3 : (newCp h v).2 = h.cps.length := rfl
    rw [e1, e2]
    refine ⟨(newCp_grow h v).trans M.grow, ?_, by have := M.len; omega, ?_, ?_, ?_, M.xfs, M.curves⟩
    · intro k hk
      rw [M.old k (by omega)]
      simp only [newCp]
      rw [List.getElem?_append_left hk]
    · intro i hi
      rcases List.mem_cons.1 hi with rfl | hi
      · omega
      · have := M.new i hi; omega
    · refine List.nodup_cons.2 ⟨fun hm => ?_, M.nodup⟩
      have := M.new _ hm; omega
    · exact readCps_cons_of (readCp_grow M.grow (M.old _ (by omega)) (newCp_read h v)) M.read

theorem reverseCps_made {h : Heap} {is : List ℕ} {vs : List (CP ℝ)} (e : readCps h is = some vs) :
    ∃ h' js, reverseCps h is = some (h', js) ∧ Made h h' js (vs.map CP.reversed) := by
  induction is generalizing h vs with
  | nil =>
    simp [readCps] at e; subst e
    exact ⟨h, [], rfl, .refl h, fun _ _ => rfl, le_rfl, by simp, by simp, rfl, rfl, rfl⟩
  | cons i is ih =>
    obtain ⟨v, ws, rfl, h1, h2⟩ := readCps_cons e
    obtain ⟨o, o0, o1, o2, o3, o4⟩ := readCp_some h1
    have hr : reverseCp h i = some ({ h with cps := h.cps ++ [⟨o.c, o.dr, o.dl, o.kind⟩] }, h.cps.length) := by
      unfold reverseCp; rw [o0]
    have g : Grow h { h with cps := h.cps ++ [⟨o.c, o.dr, o.dl, o.kind⟩] } := ⟨List.prefix_rfl, List.prefix_rfl⟩
    obtain ⟨h', js, e1, M⟩ := ih (h := { h with cps := h.cps ++ [⟨o.c, o.dr, o.dl, o.kind⟩] })
      (readCps_grow g (fun j hj => List.getElem?_append_left (readCps_lt h2 j hj)) h2)
    have hl : (h.cps ++ [(⟨o.c, o.dr, o.dl, o.kind⟩ : CpObj)]).length = h.cps.length + 1 := by simp
    have hnew := M.new
    have hlen := M.len
    have hold := M.old
    simp only [hl] at hnew hlen hold
    refine ⟨h', h.cps.length :: js, ?_, g.trans M.grow, ?_, by omega, ?_, ?_, ?_, M.xfs, M.curves⟩
    · simp only [reverseCps, hr, e1]
    · intro k hk
      rw [hold k (by omega), List.getElem?_append_left hk]
    · intro k hk
      rcases List.mem_cons.1 hk with rfl | hk
      · exact le_rfl
      · have := hnew k hk; omega
    · refine List.nodup_cons.2 ⟨fun hm => ?_, M.nodup⟩
      have := hnew _ hm; omega
    · refine readCps_cons_of (readCp_grow M.grow (hold _ (by omega)) ?_) M.read
      exact readCp_of (o := ⟨o.c, o.dr, o.dl, o.kind⟩) (by simp) o1 o3 o2 o4

/-! ### Restoring -/

theorem restoreCp_ok {h : Heap} {i j : ℕ} {v : CP ℝ} (hi : i < h.cps.length) (e : readCp h j = some v) :
    ∃ h', restoreCp h i j = some h' ∧ Grow h h' ∧ readCp h' i = some v ∧ (∀ k, k ≠ i → h'.cps[k]? = h.cps[k]?) ∧
      h'.cps.length = h.cps.length ∧ h'.xfs = h.xfs ∧ h'.curves = h.curves := by
  refine ⟨{ h with pts := h.pts ++ [v.c], vecs := h.vecs ++ [v.dl, v.dr],
                   cps := h.cps.set i ⟨h.pts.length, h.vecs.length, h.vecs.length + 1, v.kind⟩ }, ?_, ?_, ?_, ?_, ?_, rfl, rfl⟩
  · unfold restoreCp
    rw [List.getElem?_eq_getElem hi, e]
  · exact ⟨List.prefix_append _ _, List.prefix_append _ _⟩
  · exact readCp_of (o := ⟨h.pts.length, h.vecs.length, h.vecs.length + 1, v.kind⟩) (by simp [hi]) (by simp) (by simp) (by simp) rfl
  · intro k hk
    exact List.getElem?_set_ne (Ne.symm hk)
  · simp

theorem restoreCps_ok {h : Heap} {is js : List ℕ} {vs : List (CP ℝ)} (hn : is.Nodup) (hd : is = js ∨ is.Disjoint js)
    (hl : is.length = js.length) (hi : ∀ i ∈ is, i < h.cps.length) (e : readCps h js = some vs) :
    ∃ h', restoreCps h is js = some h' ∧ Grow h h' ∧ readCps h' is = some vs ∧ (∀ k, k ∉ is → h'.cps[k]? = h.cps[k]?) ∧
      h'.cps.length = h.cps.length ∧ h'.xfs = h.xfs ∧ h'.curves = h.curves := by
  induction is generalizing h js vs with
  | nil =>
    have : js = [] := List.length_eq_zero_iff.1 hl.symm
    subst this
    exact ⟨h, rfl, .refl h, e, fun _ _ => rfl, rfl, rfl, rfl⟩
  | cons i is ih =>
    cases js with
    | nil => simp at hl
    | cons j js =>
      obtain ⟨v, ws, rfl, h1, h2⟩ := readCps_cons e
      rw [List.nodup_cons] at hn
      obtain ⟨g, r1, r2, r3, r4, r5, r6, r7⟩ := restoreCp_ok (hi i (by simp)) h1
      have hij : i ∉ js := by
        rcases hd with hd | hd
        · cases hd; exact hn.1
        · intro hm
          exact hd (List.mem_cons_self) (List.mem_cons_of_mem _ hm)
      have hd' : is = js ∨ is.Disjoint js := by
        rcases hd with hd | hd
        · cases hd; exact .inl rfl
        · exact .inr fun a ha hb => hd (List.mem_cons_of_mem _ ha) (List.mem_cons_of_mem _ hb)
      obtain ⟨h', s1, s2, s3, s4, s5, s6, s7⟩ := ih hn.2 hd' (by simpa using hl)
        (fun k hk => by rw [r5]; exact hi k (by simp [hk]))
        (readCps_grow r2 (fun k hk => r4 k (by rintro rfl; exact hij hk)) h2)
      refine ⟨h', ?_, r2.trans s2, ?_, ?_, by omega, by rw [s6, r6], by rw [s7, r7]⟩
      · simp only [restoreCps, r1, s1]
      · exact readCps_cons_of (readCp_grow s2 (s4 i hn.1) r3) s3
      · intro k hk
        rw [s4 k (fun hm => hk (List.mem_cons_of_mem _ hm)), r4 k (by rintro rfl; exact hk List.mem_cons_self)]

/-! ### The invariant -/

/-- The objects hold the values of `s`, and no control point is held twice. -/
structure Inv (h : Heap) (s : State) : Prop where
  xfs : h.xfs = s.xfs
  len : h.curves.length = s.curves.length
  cur : ∀ (k : ℕ) (c : CurveObj), h.curves[k]? = some c → ∃ vs, readCps h c.cps = some vs ∧ s.curves[k]? = some ⟨c.name, c.pb, c.closed, c.xf, vs⟩
  xf : ∀ (k : ℕ) (c : CurveObj), h.curves[k]? = some c → c.xf < h.xfs.length
  nodup : ∀ (k : ℕ) (c : CurveObj), h.curves[k]? = some c → c.cps.Nodup
  disj : ∀ (k l : ℕ) (c d : CurveObj), k ≠ l → h.curves[k]? = some c → h.curves[l]? = some d → c.cps.Disjoint d.cps

theorem curveVals_iff {h : Heap} {cs : List CurveObj} {ws : List Curve} : curveVals h cs = some ws ↔
    cs.length = ws.length ∧ ∀ (k : ℕ) (c : CurveObj), cs[k]? = some c → ∃ vs, readCps h c.cps = some vs ∧
      ws[k]? = some ⟨c.name, c.pb, c.closed, c.xf, vs⟩ := by
  induction cs generalizing ws with
  | nil =>
    simp only [curveVals, Option.some.injEq, List.length_nil]
    constructor
    · rintro rfl; simp
    · rintro ⟨h1, -⟩; exact (List.length_eq_zero_iff.1 h1.symm).symm
  | cons c cs ih =>
    constructor
    · intro e
      unfold curveVals at e
      split at e
      · rename_i vs rest h1 h2
        cases e
        obtain ⟨i1, i2⟩ := ih.1 h2
        refine ⟨by simp [i1], ?_⟩
        intro k d hk
        cases k with
        | zero => simp at hk; subst hk; exact ⟨vs, h1, rfl⟩
        | succ k => simpa using i2 k d (by simpa using hk)
      · cases e
    · rintro ⟨h1, h2⟩
      cases ws with
      | nil => simp at h1
      | cons w ws =>
        obtain ⟨vs, g1, g2⟩ := h2 0 c rfl
        simp at g2
        subst g2
        have : curveVals h cs = some ws := ih.2 ⟨by simpa using h1, fun k d hk => by
          simpa using h2 (k + 1) d (by simpa using hk)⟩
        simp [curveVals, g1, this]

theorem inv_iff {h : Heap} {s : State} : Inv h s ↔ vals h = some s ∧ Apart h := by
  have hv : vals h = some s ↔ h.xfs = s.xfs ∧ curveVals h h.curves = some s.curves := by
    unfold vals
    split
    · rename_i cs hcs
      rw [hcs]
      cases s
      simp
    · rename_i hcs
      simp [hcs]
  rw [hv, curveVals_iff]
  constructor
  · rintro ⟨a, b, c, d, e, f⟩
    refine ⟨⟨a, b, c⟩, ?_, ?_⟩
    · rw [List.nodup_flatMap]
      constructor
      · intro x hx
        obtain ⟨k, hk⟩ := List.getElem?_of_mem hx
        exact e k x hk
      · rw [List.pairwise_iff_getElem]
        intro i j hi hj hij
        exact f i j _ _ (by omega) (List.getElem?_eq_getElem hi) (List.getElem?_eq_getElem hj)
    · intro x hx
      obtain ⟨k, hk⟩ := List.getElem?_of_mem hx
      exact d k x hk
  · rintro ⟨⟨a, b, c⟩, d, e⟩
    rw [List.nodup_flatMap] at d
    refine ⟨a, b, c, fun k x hk => e x (List.mem_of_getElem? hk), fun k x hk => d.1 x (List.mem_of_getElem? hk), ?_⟩
    have d2 := List.pairwise_iff_getElem.1 d.2
    intro k l x y hkl hk hl
    obtain ⟨k1, rfl⟩ := List.getElem?_eq_some_iff.1 hk
    obtain ⟨l1, rfl⟩ := List.getElem?_eq_some_iff.1 hl
    rcases Nat.lt_or_gt_of_ne hkl with hlt | hlt
    · exact d2 k l k1 l1 hlt
    · exact (d2 l k l1 k1 hlt).symm

/-- Objects that no curve holds were made. -/
theorem Inv.garbage {h h' : Heap} {s : State} (I : Inv h s) (g : Grow h h') (ho : ∀ k, k < h.cps.length → h'.cps[k]? = h.cps[k]?)
    (hx : h'.xfs = h.xfs) (hc : h'.curves = h.curves) : Inv h' s := by
  refine ⟨hx.trans I.xfs, by rw [hc]; exact I.len, ?_, ?_, ?_, ?_⟩
  · intro k c hk
    rw [hc] at hk
    obtain ⟨vs, h1, h2⟩ := I.cur k c hk
    exact ⟨vs, readCps_grow g (fun i hi => ho i (readCps_lt h1 i hi)) h1, h2⟩
  · intro k c hk; rw [hc] at hk; rw [hx]; exact I.xf k c hk
  · intro k c hk; rw [hc] at hk; exact I.nodup k c hk
  · intro k l c d hkl hk hl; rw [hc] at hk hl; exact I.disj k l c d hkl hk hl

/-- One more curve, of new control points. -/
theorem Inv.add {h h' : Heap} {s : State} (I : Inv h s) (g : Grow h h') (ho : ∀ k, k < h.cps.length → h'.cps[k]? = h.cps[k]?)
    {X : List (Mat3 ℝ)} (hx : h'.xfs = h.xfs ++ X) {c : CurveObj} (hc : h'.curves = h.curves ++ [c]) (hcx : c.xf < h'.xfs.length)
    {vs : List (CP ℝ)} (hr : readCps h' c.cps = some vs) (hn : c.cps.Nodup) (hnew : ∀ i ∈ c.cps, h.cps.length ≤ i) :
    Inv h' ⟨s.xfs ++ X, s.curves ++ [⟨c.name, c.pb, c.closed, c.xf, vs⟩]⟩ := by
  have hcase : ∀ (k : ℕ) (d : CurveObj), h'.curves[k]? = some d → (h.curves[k]? = some d ∧ k < h.curves.length) ∨ (k = h.curves.length ∧ d = c) := by
    intro k d hk
    rw [hc] at hk
    by_cases hlt : k < h.curves.length
    · rw [List.getElem?_append_left hlt] at hk; exact .inl ⟨hk, hlt⟩
    · rw [List.getElem?_append_right (by omega)] at hk
      have hk' := List.getElem?_eq_some_iff.1 hk
      obtain ⟨h1, h2⟩ := hk'
      simp at h1
      have : k = h.curves.length := by omega
      subst this
      simp at h2
      exact .inr ⟨rfl, h2.symm⟩
  have hlt : ∀ (k : ℕ) (d : CurveObj), h.curves[k]? = some d → ∀ i ∈ d.cps, i < h.cps.length := by
    intro k d hk
    obtain ⟨us, h1, -⟩ := I.cur k d hk
    exact readCps_lt h1
  refine ⟨by rw [hx, I.xfs], by rw [hc]; simp [I.len], ?_, ?_, ?_, ?_⟩
  · intro k d hk
    rcases hcase k d hk with ⟨h1, h2⟩ | ⟨rfl, rfl⟩
    · obtain ⟨us, e1, e2⟩ := I.cur k d h1
      refine ⟨us, readCps_grow g (fun i hi => ho i (readCps_lt e1 i hi)) e1, ?_⟩
      simp only
      rw [List.getElem?_append_left (by rw [← I.len]; exact h2)]
      exact e2
    · refine ⟨vs, hr, ?_⟩
      simp only
      rw [I.len]
      simp
  · intro k d hk
    rcases hcase k d hk with ⟨h1, h2⟩ | ⟨rfl, rfl⟩
    · have := I.xf k d h1
      rw [hx, List.length_append]; omega
    · exact hcx
  · intro k d hk
    rcases hcase k d hk with ⟨h1, h2⟩ | ⟨rfl, rfl⟩
    · exact I.nodup k d h1
    · exact hn
  · intro k l d e hkl hk hl
    rcases hcase k d hk with ⟨h1, h2⟩ | ⟨rfl, rfl⟩ <;> rcases hcase l e hl with ⟨g1, g2⟩ | ⟨rfl, rfl⟩
    · exact I.disj k l d e hkl h1 g1
    · intro a ha hb
      have := hlt k d h1 a ha
      have := hnew a hb
      omega
    · intro a ha hb
      have := hlt l e g1 a hb
      have := hnew a ha
      omega
    · exact absurd rfl hkl

/-- One curve is changed: its own control points may be written, and it may get new ones. -/
theorem Inv.upd {h h' : Heap} {s : State} (I : Inv h s) {i : ℕ} {c c' : CurveObj} (hi : h.curves[i]? = some c) (g : Grow h h')
    (ho : ∀ k, k < h.cps.length → k ∉ c.cps → h'.cps[k]? = h.cps[k]?)
    {X : List (Mat3 ℝ)} (hx : h'.xfs = h.xfs ++ X) (hc : h'.curves = h.curves.set i c') (hcx : c'.xf < h'.xfs.length)
    {vs : List (CP ℝ)} (hr : readCps h' c'.cps = some vs) (hn : c'.cps.Nodup)
    (hnew : ∀ k ∈ c'.cps, k ∈ c.cps ∨ h.cps.length ≤ k) :
    Inv h' ⟨s.xfs ++ X, s.curves.set i ⟨c'.name, c'.pb, c'.closed, c'.xf, vs⟩⟩ := by
  have hil : i < h.curves.length := (List.getElem?_eq_some_iff.1 hi).1
  have hcase : ∀ (k : ℕ) (d : CurveObj), h'.curves[k]? = some d → (h.curves[k]? = some d ∧ k ≠ i) ∨ (k = i ∧ d = c') := by
    intro k d hk
    rw [hc] at hk
    by_cases hki : k = i
    · subst hki
      rw [List.getElem?_set_self hil] at hk
      cases hk
      exact .inr ⟨rfl, rfl⟩
    · rw [List.getElem?_set_ne (Ne.symm hki)] at hk
      exact .inl ⟨hk, hki⟩
  have hlt : ∀ (k : ℕ) (d : CurveObj), h.curves[k]? = some d → ∀ i ∈ d.cps, i < h.cps.length := by
    intro k d hk
    obtain ⟨us, h1, -⟩ := I.cur k d hk
    exact readCps_lt h1
  refine ⟨by rw [hx, I.xfs], by rw [hc]; simp [I.len], ?_, ?_, ?_, ?_⟩
  · intro k d hk
    rcases hcase k d hk with ⟨h1, h2⟩ | ⟨rfl, rfl⟩
    · obtain ⟨us, e1, e2⟩ := I.cur k d h1
      refine ⟨us, readCps_grow g (fun j hj => ho j (readCps_lt e1 j hj) ?_) e1, ?_⟩
      · exact fun hm => I.disj k i d c h2 h1 hi hj hm
      · simp only
        rw [List.getElem?_set_ne (Ne.symm h2)]
        exact e2
    · refine ⟨vs, hr, ?_⟩
      simp only
      rw [List.getElem?_set_self (by rw [← I.len]; exact hil)]
  · intro k d hk
    rcases hcase k d hk with ⟨h1, h2⟩ | ⟨rfl, rfl⟩
    · have := I.xf k d h1
      rw [hx, List.length_append]; omega
    · exact hcx
  · intro k d hk
    rcases hcase k d hk with ⟨h1, h2⟩ | ⟨rfl, rfl⟩
    · exact I.nodup k d h1
    · exact hn
  · have key : ∀ (k : ℕ) (d : CurveObj), h.curves[k]? = some d → k ≠ i → d.cps.Disjoint c'.cps := by
      intro k d hk hki a ha hb
      rcases hnew a hb with hm | hm
      · exact I.disj k i d c hki hk hi ha hm
      · have := hlt k d hk a ha
        omega
    intro k l d e hkl hk hl
    rcases hcase k d hk with ⟨h1, h2⟩ | ⟨rfl, rfl⟩ <;> rcases hcase l e hl with ⟨g1, g2⟩ | ⟨rfl, rfl⟩
    · exact I.disj k l d e hkl h1 g1
    · exact key k d h1 h2
    · exact (key l e g1 g2).symm
    · exact absurd rfl hkl

end X7.CH
