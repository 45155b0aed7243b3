import Verif.Lemmas.HoleHeap

/-!
C124: shapes with holes which share their parts, lists and transforms, through every history of calls.
-/

noncomputable section

namespace X7.HH

/-- C124: after any history every object can be read, and drawing it draws the element read (so C40 and C46 hold), leaves the matrix and
the stack of the context as they were, and depends on the matrix only. -/
theorem C124_total (cfg : DCfg) (ops : List Op) (i : ℕ) (hi : i < (run .empty ops).items.length) :
    ∃ e, elem (run .empty ops) i = some e ∧ ∀ s, draw cfg (run .empty ops) i s = Elem.paths cfg e s ∧
      (draw cfg (run .empty ops) i s).1.mat = s.mat ∧ (draw cfg (run .empty ops) i s).1.stack = s.stack ∧
      (draw cfg (run .empty ops) i s).2 = pic cfg (run .empty ops) i s.mat := by
  obtain ⟨e, he⟩ := elem_total (ok_run ok_empty ops) hi
  refine ⟨e, he, fun s => ?_⟩
  simp only [pic, draw, he]
  exact ⟨trivial, (Elem.paths_keeps cfg e s).1, (Elem.paths_keeps cfg e s).2, Elem.paths_onlyMat cfg e _ _ rfl⟩

/-- C124: what is read is the outside object, the objects in the list and the transform object, as they are now. -/
theorem C124_read (w : World) (i : ℕ) (h : Hdr) (o : Elem) (is : List Elem) :
    elem w i = some (.holes h o is) ↔ ∃ x oi l ids, w.items[i]? = some ⟨h.name, h.pb, x, .holes h.closed oi l⟩ ∧ w.xfs[x]? = some h.xf ∧
      part w oi = some o ∧ w.lists[l]? = some ids ∧ List.Forall₂ (fun p e => part w p = some e) ids is := by
  constructor
  · intro he
    obtain ⟨x, oi, l, ids, h1, h2, h3, h4, h5⟩ := elem_some he
    exact ⟨x, oi, l, ids, h1, h2, h3, h4, parts_forall.1 h5⟩
  · rintro ⟨x, oi, l, ids, h1, h2, h3, h4, h5⟩
    exact elem_holes h1 h2 h3 h4 (parts_forall.2 h5)

/-- C124: a call changes what an object draws only if it writes the object, its list of holes, the points of a part, or a transform of it or
of a part. A pen given to a part never shows in the shape. -/
theorem C124_others (cfg : DCfg) (before : List Op) (op : Op) (i : ℕ) (hi : i < (run .empty before).items.length)
    (hc : ¬ Changes (run .empty before) i op) (m : Mat3 ℝ) :
    pic cfg (run .empty (before ++ [op])) i m = pic cfg (run .empty before) i m := by
  rw [run_append]
  exact pic_step (ok_run ok_empty before) op hi hc cfg m

/-- C124: so does a history. -/
theorem C124_history (cfg : DCfg) (before later : List Op) (i : ℕ) (hi : i < (run .empty before).items.length)
    (hs : Spared i (run .empty before) later) (m : Mat3 ℝ) :
    pic cfg (run .empty (before ++ later)) i m = pic cfg (run .empty before) i m := by
  rw [run_append]
  exact pic_run (ok_run ok_empty before) later hi hs cfg m

/-- C124: a history which moves nothing and names neither a shape with holes nor its parts nor its list leaves what it draws. -/
theorem C124_apart (cfg : DCfg) (before later : List Op) (i : ℕ) (h : Hdr) (o : Elem) (is : List Elem)
    (he : elem (run .empty before) i = some (.holes h o is)) (ha : ∀ op ∈ later, Avoids (run .empty before) i op) (m : Mat3 ℝ) :
    pic cfg (run .empty (before ++ later)) i m = pic cfg (run .empty before) i m := by
  have hok := ok_run ok_empty before
  obtain ⟨x, oi, l, ids, hi, -⟩ := elem_some he
  exact C124_history cfg before later i (lt_of_some hi) (spared_of_apart hok later ⟨h, o, is, he⟩ ha) m

/-- C124: the constructor. A filled pen and `closed=False` is an `AssertionError` which changes nothing; otherwise the new shape has the parts
given, all of which get its pen. Other objects draw as before. -/
theorem C124_made (cfg : DCfg) (before : List Op) (name : Str) (pb : PenBrush) (oi l : ℕ) (closed : Bool) (ids : List ℕ) (o : Elem)
    (is : List Elem) (ho : part (run .empty before) oi = some o) (hl : (run .empty before).lists[l]? = some ids)
    (hp : List.Forall₂ (fun p e => part (run .empty before) p = some e) ids is) :
    let w := run .empty before
    let w' := run .empty (before ++ [.mkHoles name pb oi l closed])
    (pb.filled = true ∧ closed = false → step w (.mkHoles name pb oi l closed) = (w, some .assertion)) ∧
    (¬ (pb.filled = true ∧ closed = false) → (step w (.mkHoles name pb oi l closed)).2 = none ∧
      w'.items.length = w.items.length + 1 ∧
      elem w' w.items.length = some (.holes ⟨name, pb, closed, Mat3.one⟩ (o.setPb pb) (is.map (·.setPb pb))) ∧
      HasList w' w.items.length l ∧ (∀ p, Part w' w.items.length p ↔ p = oi ∨ p ∈ ids) ∧
      (∀ p, p = oi ∨ p ∈ ids → part w' p = (part w p).map (·.setPb pb)) ∧
      (∀ k < w.items.length, ¬ (k = oi ∨ k ∈ ids) → ∀ m, pic cfg w' k m = pic cfg w k m)) := by
  intro w w'
  have hok : Ok w := ok_run ok_empty before
  have ew : w' = (step w (.mkHoles name pb oi l closed)).1 := run_append _ _ _
  have hlo : isLeaf w oi = true := by
    obtain ⟨n, q, x, lf, m, h1, -⟩ := part_some ho
    exact isLeaf_iff.2 ⟨_, _, _, _, h1⟩
  have hll : l < w.lists.length := lt_of_some hl
  have others : ∀ k < w.items.length, ¬ (k = oi ∨ k ∈ ids) → ∀ m, pic cfg w' k m = pic cfg w k m := by
    intro k hk hn m
    rw [ew]
    refine pic_step hok _ hk ?_ cfg m
    rintro ⟨-, rfl | ⟨is', h1, h2⟩⟩
    · exact hn (.inl rfl)
    · rw [hl, Option.some.injEq] at h1
      exact hn (.inr (h1 ▸ h2))
  clear_value w'
  change part w oi = some o at ho
  change w.lists[l]? = some ids at hl
  change List.Forall₂ (fun p e => part w p = some e) ids is at hp
  clear_value w
  have hce := construct_err (w := { w with xfs := w.xfs ++ [Mat3.one] }) (name := name) (pb := pb) (o := oi) (l := l) (c := closed) (x := w.xfs.length)
  have hs : step w (.mkHoles name pb oi l closed) = match construct { w with xfs := w.xfs ++ [Mat3.one] } name pb oi l closed w.xfs.length with
      | (_, some er) => (w, some er)
      | (w', none) => (w', none) := by
    simp only [step, hlo, hll, decide_true, Bool.and_self, if_true]
    cases construct { w with xfs := w.xfs ++ [Mat3.one] } name pb oi l closed w.xfs.length with
    | mk a b => cases b <;> rfl
  constructor
  · rintro ⟨h1, rfl⟩
    rw [h1] at hce
    rw [hs]
    generalize construct _ _ _ _ _ _ _ = r at hce
    obtain ⟨a, b⟩ := r
    obtain rfl : b = some .assertion := hce
    rfl
  · intro hf
    have hf' : (pb.filled && !closed) = false := by
      cases h1 : pb.filled <;> cases h2 : closed <;> simp_all
    rw [hf', if_neg (by simp)] at hce
    generalize hr : construct { w with xfs := w.xfs ++ [Mat3.one] } name pb oi l closed w.xfs.length = r at hce hs
    obtain ⟨a, b⟩ := r
    obtain rfl : b = none := hce
    obtain ⟨-, c2, c3, c4⟩ := construct_ok (w := { w with xfs := w.xfs ++ [Mat3.one] }) (is := ids) hl hr
    simp only at hs
    rw [hs] at ew ⊢
    simp only at ew c2 c3 c4
    subst ew
    have hlt : ∀ p, p = oi ∨ p ∈ ids → isLeaf w p = true := fun p h => h.elim (fun h => h ▸ hlo) (hok.list l ids hl p)
    have hget : w'.items[w.items.length]? = some ⟨name, pb, w.xfs.length, .holes closed oi l⟩ := by
      rw [c4]
      have : ¬ (w.items.length = oi ∨ w.items.length ∈ ids) := fun h => absurd (isLeaf_lt (hlt _ h)) (lt_irrefl _)
      simp [this]
    have hlen : w'.items.length = w.items.length + 1 := by
      have h1 := lt_of_some hget
      have h2 : w'.items[w.items.length + 1]? = none := by rw [c4]; simp
      rw [List.getElem?_eq_none_iff] at h2
      omega
    have hpt : ∀ p, p = oi ∨ p ∈ ids → part w' p = (part w p).map (·.setPb pb) := by
      intro p h
      obtain ⟨e, he⟩ := part_total hok (hlt p h)
      rw [he, part_rd, c3, c4, List.getElem?_append_left (isLeaf_lt (hlt p h))]
      rw [part_rd] at he
      obtain ⟨it, h1, h2⟩ := Option.bind_eq_some_iff.1 he
      simp only [h1, Option.map_some, h, if_true, Option.bind_some]
      exact rd_withPb pb (rd_append _ h2)
    refine ⟨rfl, hlen, ?_, ⟨_, _, _, _, _, hget⟩, ?_, hpt, others⟩
    · refine elem_holes (x := w.xfs.length) hget (by rw [c3]; simp) ?_ (by rw [c2]; exact hl) ?_
      · rw [hpt oi (.inl rfl), ho]; rfl
      · rw [parts_forall, List.forall₂_map_right_iff]
        refine forall₂_mem (fun p hp e hr => ?_) hp
        rw [hpt p (.inr hp), hr]; rfl
    · intro p
      constructor
      · rintro ⟨_, _, _, _, _, _, h1, h2⟩
        rw [hget] at h1
        simp only [Option.some.injEq, Item.mk.injEq, Body.holes.injEq] at h1
        obtain ⟨-, -, -, -, rfl, rfl⟩ := h1
        rw [c2, hl] at h2
        exact h2.imp id fun ⟨is, h1, h2⟩ => by rw [Option.some.inj h1]; exact h2
      · intro h
        exact ⟨_, _, _, _, _, _, hget, h.imp id fun h => ⟨ids, by rw [c2]; exact hl, h⟩⟩

/-- C124: the shape keeps the list it was given: whatever the program does to the list, later, are the holes of the shape. -/
theorem C124_list (before : List Op) (i l : ℕ) (h : Hdr) (o : Elem) (is : List Elem)
    (he : elem (run .empty before) i = some (.holes h o is)) (hl : HasList (run .empty before) i l) (ids : List ℕ) (is' : List Elem)
    (hp : List.Forall₂ (fun p e => part (run .empty before) p = some e) ids is') :
    elem (run .empty (before ++ [.setList l ids])) i = some (.holes h o is') := by
  rw [run_append]
  have hok : Ok (run .empty before) := ok_run ok_empty before
  generalize run World.empty before = w at *
  obtain ⟨x, oi, l', ids', hi, hx, ho, hl', -⟩ := elem_some he
  obtain ⟨_, _, _, _, _, h1⟩ := hl
  rw [hi] at h1
  simp only [Option.some.injEq, Item.mk.injEq, Body.holes.injEq] at h1
  obtain ⟨-, -, -, -, -, rfl⟩ := h1
  have hall : ids.all (isLeaf w) = true := by
    rw [List.all_eq_true]
    intro p hpm
    obtain ⟨e, -, hpe⟩ := mem_parts hp hpm
    obtain ⟨_, _, _, _, _, h1, -⟩ := part_some hpe
    exact isLeaf_iff.2 ⟨_, _, _, _, h1⟩
  have hlt := lt_of_some hl'
  change elem (step w (.setList l' ids)).1 i = _
  simp only [step, hall, hlt, decide_true, Bool.and_self, if_true]
  exact elem_holes (w := { w with lists := w.lists.set l' ids }) hi hx ho (List.getElem?_set_self hlt) (parts_forall.2 hp)

/-- C124: `copy()`. It works unless a part is an open curve with a filled pen (or the shape itself is filled and not closed), else it raises
an `AssertionError` and changes nothing. The copy has the same name, pen and transform and copies of the parts with the shape's pen, draws
the same, and has a transform, parts and a list of its own. -/
theorem C124_copy (cfg : DCfg) (before : List Op) (i : ℕ) (h : Hdr) (o : Elem) (is : List Elem)
    (he : elem (run .empty before) i = some (.holes h o is)) :
    let w := run .empty before
    let w' := run .empty (before ++ [.copyHoles i])
    let c := w.items.length + 1 + is.length
    let works := Copies o ∧ (∀ e ∈ is, Copies e) ∧ ¬ (h.pb.filled = true ∧ h.closed = false)
    (¬ works → step w (.copyHoles i) = (w, some .assertion)) ∧
    (works → (step w (.copyHoles i)).2 = none ∧ w'.items.length = c + 1 ∧
      elem w' c = some (.holes h (o.setPb h.pb) (is.map (·.setPb h.pb))) ∧ (∀ m, pic cfg w' c m = pic cfg w i m) ∧
      (∀ k < w.items.length, elem w' k = elem w k) ∧
      (∀ p, p = c ∨ Part w' c p → w.items.length ≤ p) ∧ (∀ l, HasList w' c l → w.lists.length ≤ l) ∧
      ∀ j < w'.items.length, SameXf w' c j → j = c) := by
  intro w w' c works
  have hok : Ok w := ok_run ok_empty before
  have ew : w' = (copyWith w i id).1 := run_append _ _ _
  have hw : works ↔ Fit o is ∧ (h.pb.filled && !h.closed) = false := by
    have : (h.pb.filled && !h.closed) = false ↔ ¬ (h.pb.filled = true ∧ h.closed = false) := by
      cases h.pb.filled <;> cases h.closed <;> simp
    rw [this]; simp only [works, Fit, and_assoc]
  clear_value works w'
  subst ew
  constructor
  · intro hn
    rcases copyWith_split hok he id with ⟨-, h1⟩ | ⟨h1, -⟩
    · exact absurd (hw.2 h1) hn
    · exact h1
  · intro hn
    rcases copyWith_split hok he id with ⟨h1, -⟩ | ⟨-, h1⟩
    · obtain ⟨g1, g2, g3, g4, g5, g6, -⟩ := copyWith_elem hok he (w' := (copyWith w i id).1) (f := id) (Prod.ext rfl h1)
      refine ⟨h1, g1, g2, fun m => ?_, g3, g4, fun l hl => (g5 l hl).ge, g6⟩
      rw [pic_of_elem g2, pic_of_elem he]
      exact drawn_setPb cfg he h.pb h m
    · exact absurd (hw.1 hn) h1

/-- C124: the part of the copy and the original go their own ways: calls which name only objects and lists made before the copy and move
nothing leave the copy, calls which name only objects and lists made by or after it and move nothing leave the original. -/
theorem C124_copy_apart (cfg : DCfg) (before later : List Op) (i : ℕ) (h : Hdr) (o : Elem) (is : List Elem)
    (he : elem (run .empty before) i = some (.holes h o is)) (hc : (step (run .empty before) (.copyHoles i)).2 = none) :
    let w := run .empty before
    let c := w.items.length + 1 + is.length
    ((∀ op ∈ later, OnlyNames (· < w.items.length) (· < w.lists.length) op) →
      ∀ m, pic cfg (run .empty (before ++ [.copyHoles i] ++ later)) c m = pic cfg w i m) ∧
    ((∀ op ∈ later, OnlyNames (w.items.length ≤ ·) (w.lists.length ≤ ·) op) →
      ∀ m, pic cfg (run .empty (before ++ [.copyHoles i] ++ later)) i m = pic cfg w i m) := by
  intro w c
  have hok : Ok w := ok_run ok_empty before
  obtain ⟨hbad, hgood⟩ := C124_copy cfg before i h o is he
  have hw : Copies o ∧ (∀ e ∈ is, Copies e) ∧ ¬ (h.pb.filled = true ∧ h.closed = false) := by
    by_contra hn
    rw [hbad hn] at hc
    exact absurd hc (by simp)
  obtain ⟨-, -, g2, g3, g4, g5, g6, -⟩ := hgood hw
  have hic : i < w.items.length := by
    obtain ⟨x, oi, l, ids, hi, -⟩ := elem_some he
    exact lt_of_some hi
  constructor
  · intro ha m
    refine (C124_apart cfg (before ++ [Op.copyHoles i]) later c _ _ _ g2 ?_ m).trans (g3 m)
    · intro op hop
      have h1 := ha op hop
      have hx : ∀ j < w.items.length, ¬ (j = c ∨ Part (run .empty (before ++ [.copyHoles i])) c j) := fun j hj hp => by
        have : w.items.length ≤ j := g5 j hp
        omega
      cases op with
      | setList l is => exact fun hl => absurd (show w.lists.length ≤ l from g6 l hl) (not_le.2 h1)
      | setXf => exact h1
      | setPen j => exact hx j h1
      | edit j => exact hx j h1
      | setOutside j => exact hx j h1
      | setInside j => exact hx j h1
      | restoreHoles j => exact hx j h1
      | _ => trivial
  · intro ha m
    have e0 := g4 i hic
    refine (C124_apart cfg (before ++ [Op.copyHoles i]) later i _ _ _ (e0.trans he) ?_ m).trans ?_
    swap
    · simp only [pic, draw, e0]; rfl
    · intro op hop
      have h1 := ha op hop
      obtain ⟨x, oi, l, ids, hi, -, -, hl, -⟩ := elem_some he
      have hlt : ∀ p, p = oi ∨ p ∈ ids → p < w.items.length := fun p h =>
        isLeaf_lt (h.elim (fun h => h ▸ (hok.body i _ _ _ _ _ _ hi).1) (hok.list l ids hl p))
      have e : run .empty (before ++ [.copyHoles i]) = (copyWith w i id).1 := run_append _ _ _
      obtain ⟨_, _, _, _, _, _, _, _, _, _, -, -, -, -, -, -, -, q1, -, q2⟩ := copyWith_ok hok (w' := (copyWith w i id).1) (i := i) (f := id) (Prod.ext rfl hc)
      have hi2 : (run .empty (before ++ [.copyHoles i])).items[i]? = some ⟨h.name, h.pb, x, .holes h.closed oi l⟩ := by
        rw [e, q2, List.getElem?_append_left hic]; exact hi
      have hl2 : (run .empty (before ++ [.copyHoles i])).lists[l]? = some ids := by
        rw [e, q1, List.getElem?_append_left (lt_of_some hl)]; exact hl
      have hx : ∀ j, w.items.length ≤ j → ¬ (j = i ∨ Part (run .empty (before ++ [.copyHoles i])) i j) := by
        rintro j hj (rfl | ⟨_, _, _, _, _, _, h1, h2⟩)
        · omega
        · rw [hi2] at h1
          simp only [Option.some.injEq, Item.mk.injEq, Body.holes.injEq] at h1
          obtain ⟨-, -, -, -, rfl, rfl⟩ := h1
          rw [hl2] at h2
          have := hlt j (h2.imp id fun ⟨is, h1, h2⟩ => by rw [Option.some.inj h1]; exact h2)
          omega
      cases op with
      | setList l' is =>
        rintro ⟨_, _, _, _, _, h2⟩
        rw [hi2] at h2
        simp only [Option.some.injEq, Item.mk.injEq, Body.holes.injEq] at h2
        have : w.lists.length ≤ l' := h1
        have : l < w.lists.length := lt_of_some hl
        omega
      | setXf => exact h1
      | setPen j => exact hx j h1
      | edit j => exact hx j h1
      | setOutside j => exact hx j h1
      | setInside j => exact hx j h1
      | restoreHoles j => exact hx j h1
      | _ => trivial

/-- C124 (finding): but the parts of the copy have the transform objects of the parts of the original. Whatever transform is given to a part of
the original, the part of the copy in the same place has it too. -/
theorem C124_copy_shares (before : List Op) (i : ℕ) (h : Hdr) (o : Elem) (is : List Elem)
    (he : elem (run .empty before) i = some (.holes h o is)) (hc : (step (run .empty before) (.copyHoles i)).2 = none) :
    let w' := run .empty (before ++ [.copyHoles i])
    let c := (run .empty before).items.length + 1 + is.length
    ∃ name pb x y closed o₁ o₂ l₁ l₂ ids₁ ids₂, w'.items[i]? = some ⟨name, pb, x, .holes closed o₁ l₁⟩ ∧ w'.lists[l₁]? = some ids₁ ∧
      w'.items[c]? = some ⟨name, pb, y, .holes closed o₂ l₂⟩ ∧ w'.lists[l₂]? = some ids₂ ∧
      SameXf w' o₁ o₂ ∧ List.Forall₂ (SameXf w') ids₁ ids₂ ∧
      ∀ p q, SameXf w' p q → ∀ y, SameXf (step w' (.setXf p y)).1 p q ∧ SameXf (step w' (.setXf q y)).1 p q := by
  intro w' c
  have hok : Ok (run .empty before) := ok_run ok_empty before
  have ew : w' = (copyWith (run .empty before) i id).1 := run_append _ _ _
  obtain ⟨-, -, -, -, -, -, x, oi, l, ids, h1, h2, h3, h4, h5, h6⟩ := copyWith_elem hok he (w' := w') (f := id) (Prod.ext ew.symm hc)
  obtain ⟨_, _, _, _, _, _, _, _, _, _, -, -, -, -, -, -, -, q1, -, q2⟩ := copyWith_ok hok (w' := w') (i := i) (f := id) (Prod.ext ew.symm hc)
  refine ⟨_, _, x, _, _, oi, _, l, _, ids, _, ?_, ?_, h3, h4, h5, h6, ?_⟩
  · rw [q2, List.getElem?_append_left (lt_of_some h1)]; exact h1
  · rw [q1, List.getElem?_append_left (lt_of_some h2)]; exact h2
  · rintro p q ⟨a, b, ha, hb, hab⟩ y
    constructor
    · exact ⟨a, b, by simp only [step, ha], by simp only [step, ha, hb], hab⟩
    · exact ⟨a, b, by simp only [step, hb, ha], by simp only [step, hb], hab⟩

/-- C124: `transform(t)` works when `copy()` does; the result draws what the original draws on a canvas moved by `t`. -/
theorem C124_transform (cfg : DCfg) (before : List Op) (i : ℕ) (t : TState) (h : Hdr) (o : Elem) (is : List Elem)
    (he : elem (run .empty before) i = some (.holes h o is)) :
    let w := run .empty before
    let w' := run .empty (before ++ [.transformHoles i t])
    let c := w.items.length + 1 + is.length
    let works := Copies o ∧ (∀ e ∈ is, Copies e) ∧ ¬ (h.pb.filled = true ∧ h.closed = false)
    (¬ works → step w (.transformHoles i t) = (w, some .assertion)) ∧
    (works → (step w (.transformHoles i t)).2 = none ∧ w'.items.length = c + 1 ∧
      elem w' c = some (.holes { h with xf := t.mat.mul h.xf } (o.setPb h.pb) (is.map (·.setPb h.pb))) ∧
      (∀ m, pic cfg w' c m = pic cfg w i (m.mul t.mat)) ∧ (∀ k < w.items.length, elem w' k = elem w k) ∧
      (∀ p, p = c ∨ Part w' c p → w.items.length ≤ p) ∧ (∀ l, HasList w' c l → w.lists.length ≤ l) ∧
      ∀ j < w'.items.length, SameXf w' c j → j = c) := by
  intro w w' c works
  have hok : Ok w := ok_run ok_empty before
  have ew : w' = (copyWith w i fun x => (t.copy.compose x).mat).1 := run_append _ _ _
  have hw : works ↔ Fit o is ∧ (h.pb.filled && !h.closed) = false := by
    have : (h.pb.filled && !h.closed) = false ↔ ¬ (h.pb.filled = true ∧ h.closed = false) := by
      cases h.pb.filled <;> cases h.closed <;> simp
    rw [this]; simp only [works, Fit, and_assoc]
  clear_value works w'
  subst ew
  constructor
  · intro hn
    rcases copyWith_split hok he fun x => (t.copy.compose x).mat with ⟨-, h1⟩ | ⟨h1, -⟩
    · exact absurd (hw.2 h1) hn
    · exact h1
  · intro hn
    rcases copyWith_split hok he fun x => (t.copy.compose x).mat with ⟨h1, -⟩ | ⟨-, h1⟩
    · obtain ⟨g1, g2, g3, g4, g5, g6, -⟩ := copyWith_elem hok he (w' := (copyWith w i fun x => (t.copy.compose x).mat).1)
        (f := fun x => (t.copy.compose x).mat) (Prod.ext rfl h1)
      have hx : (t.copy.compose h.xf).mat = t.mat.mul h.xf := rfl
      rw [hx] at g2
      refine ⟨h1, g1, g2, fun m => ?_, g3, g4, fun l hl => (g5 l hl).ge, g6⟩
      rw [pic_of_elem g2, pic_of_elem he, drawn_setPb cfg he h.pb, drawn_move]
    · exact absurd (hw.1 hn) h1

/-- C124: `restore(other)`. When the other's outside and all holes of its own can be copied, the shape has the name, pen, `closed` and
transform object of the other, a copy of the other's outside, and copies of its own holes. Otherwise an `AssertionError` comes when the
name, pen, `closed` and transform (and the outside, if that could be copied) are already taken over. No other object is touched. -/
theorem C124_restore (before : List Op) (i j : ℕ) (h h' : Hdr) (o o' : Elem) (is is' : List Elem)
    (he : elem (run .empty before) i = some (.holes h o is)) (he' : elem (run .empty before) j = some (.holes h' o' is')) :
    let w := run .empty before
    let w' := run .empty (before ++ [.restoreHoles i j])
    (Copies o' ∧ (∀ e ∈ is, Copies e) → (step w (.restoreHoles i j)).2 = none ∧ elem w' i = some (.holes h' o' is) ∧
      ∀ p, Part w' i p → w.items.length ≤ p) ∧
    (¬ Copies o' → (step w (.restoreHoles i j)).2 = some .assertion ∧ elem w' i = some (.holes h' o is)) ∧
    (Copies o' ∧ (¬ ∀ e ∈ is, Copies e) → (step w (.restoreHoles i j)).2 = some .assertion ∧ elem w' i = some (.holes h' o' is)) ∧
    SameXf w' i j ∧ ∀ k < w.items.length, k ≠ i → elem w' k = elem w k := by
  intro w w'
  have hok : Ok w := ok_run ok_empty before
  have ew : w' = (restoreHoles w i j).1 := run_append _ _ _
  obtain ⟨h1, ⟨a, b, h2, h3, h4⟩, h5, h6⟩ := restore_elem hok he he'
  rw [← ew] at h1 h2 h6
  have hs : step w (.restoreHoles i j) = restoreHoles w i j := rfl
  rw [hs]
  refine ⟨?_, ?_, ?_, ?_, h6⟩
  · rintro ⟨hc, hcs⟩
    rcases h1 with ⟨-, g⟩ | ⟨g, -⟩ | ⟨-, g, -⟩
    · exact g
    · exact absurd hc g
    · exact absurd hcs g
  · intro hc
    rcases h1 with ⟨g, -⟩ | ⟨-, g⟩ | ⟨g, -⟩
    · exact absurd g.1 hc
    · exact g
    · exact absurd g hc
  · rintro ⟨hc, hcs⟩
    rcases h1 with ⟨g, -⟩ | ⟨g, -⟩ | ⟨-, -, g⟩
    · exact absurd g.2 hcs
    · exact absurd hc g
    · exact g
  · by_cases hij : j = i
    · subst hij; exact ⟨a, a, h2, h2, rfl⟩
    · rcases step_item hok (.restoreHoles i j) h3 with hr | ⟨pb', hp, -⟩
      · exact absurd hr.symm hij
      · have hp' : w'.items[j]? = some (withPb pb' b) := by rw [ew]; exact hp
        exact ⟨a, _, h2, hp', h4⟩

/-- C124: undo. A copy taken before, spared by what happens since, and restored: the shape draws what it drew then, provided its holes are
the same but for their pens. -/
theorem C124_undo (cfg : DCfg) (before later : List Op) (i : ℕ) (h h₂ : Hdr) (o o₂ : Elem) (is is₂ : List Elem)
    (he : elem (run .empty before) i = some (.holes h o is)) (hc : (step (run .empty before) (.copyHoles i)).2 = none)
    (hs : Spared ((run .empty before).items.length + 1 + is.length) (run .empty (before ++ [.copyHoles i])) later)
    (hn : elem (run .empty (before ++ [.copyHoles i] ++ later)) i = some (.holes h₂ o₂ is₂))
    (hi : List.Forall₂ SameButPen is is₂) :
    let w := run .empty before
    let c := w.items.length + 1 + is.length
    let w₂ := run .empty (before ++ [.copyHoles i] ++ later)
    (step w₂ (.restoreHoles i c)).2 = none →
      ∀ m, pic cfg (run .empty (before ++ [.copyHoles i] ++ later ++ [.restoreHoles i c])) i m = pic cfg w i m := by
  intro w c w₂ hr m
  have hok : Ok w := ok_run ok_empty before
  obtain ⟨hbad, hgood⟩ := C124_copy cfg before i h o is he
  have hw : Copies o ∧ (∀ e ∈ is, Copies e) ∧ ¬ (h.pb.filled = true ∧ h.closed = false) := by
    by_contra hn
    rw [hbad hn] at hc
    exact absurd hc (by simp)
  obtain ⟨-, -, g2, g3, -⟩ := hgood hw
  obtain ⟨x, oi, l, ids, hi', hx, ho, hl, hp⟩ := elem_some he
  obtain ⟨oc, isc, k1, k2, k3⟩ := holes_run (ok_run ok_empty (before ++ [.copyHoles i])) later g2 hs
  rw [← run_append] at k1
  obtain ⟨r1, r2, r3, -⟩ := C124_restore (before ++ [.copyHoles i] ++ later) i c h₂ h o₂ oc is₂ isc hn k1
  have hco : Copies oc ∧ ∀ e ∈ is₂, Copies e := by
    by_contra hcon
    by_cases h1 : Copies oc
    · have := (r3 ⟨h1, fun h2 => hcon ⟨h1, h2⟩⟩).1
      rw [this] at hr; exact absurd hr (by simp)
    · have := (r2 h1).1
      rw [this] at hr; exact absurd hr (by simp)
  obtain ⟨-, s2, -⟩ := r1 hco
  rw [pic_of_elem s2, pic_of_elem he]
  have hl2 : List.Forall₂ Like is is₂ := by
    have hps := parts_forall.1 hp
    clear * - hi hps
    induction hi generalizing ids with
    | nil => exact .nil
    | cons h1 _ ih =>
      cases hps with
      | cons p1 p2 =>
        obtain ⟨pb, rfl⟩ := h1
        exact .cons (like_setPb p1 pb) (ih _ p2)
  simp only [Elem.drawn, holes_like cfg h ((like_setPb ho h.pb).trans k2) hl2]

/-- C124 (finding): a filled shape accepts an open curve as a part, and draws it; but since the curve gets the filled pen, the shape can
neither be copied nor transformed: an `AssertionError` each time. -/
theorem C124_open_part (cfg : DCfg) (before : List Op) (name : Str) (pb : PenBrush) (oi l : ℕ) (ids : List ℕ) (o : Elem)
    (is : List Elem) (ho : part (run .empty before) oi = some o) (hl : (run .empty before).lists[l]? = some ids)
    (hp : List.Forall₂ (fun p e => part (run .empty before) p = some e) ids is) (hf : pb.filled = true)
    (hopen : ∃ h cps, h.closed = false ∧ Elem.curve h cps ∈ o :: is) :
    let w := run .empty before
    let w' := run .empty (before ++ [.mkHoles name pb oi l true])
    (step w (.mkHoles name pb oi l true)).2 = none ∧ step w' (.copyHoles w.items.length) = (w', some .assertion) ∧
      ∀ t, step w' (.transformHoles w.items.length t) = (w', some .assertion) := by
  intro w w'
  obtain ⟨h1, -, h2, -⟩ := (C124_made cfg before name pb oi l true ids o is ho hl hp).2 (by simp)
  have hbad : ¬ (Copies (o.setPb pb) ∧ (∀ e ∈ is.map (·.setPb pb), Copies e) ∧ ¬ (pb.filled = true ∧ true = false)) := by
    rintro ⟨c1, c2, -⟩
    obtain ⟨h, cps, hc, hm⟩ := hopen
    have key : ¬ Copies ((Elem.curve h cps).setPb pb) := by
      simp [Elem.setPb, Copies, hf, hc]
    rcases List.mem_cons.1 hm with rfl | hm
    · exact key c1
    · exact key (c2 _ (List.mem_map.2 ⟨_, hm, rfl⟩))
  exact ⟨h1, (C124_copy cfg _ _ _ _ _ h2).1 hbad, fun t => (C124_transform cfg _ _ t _ _ _ h2).1 hbad⟩

/-! ### Concrete cases -/

/-- A rectangle, an ellipse, a list with the ellipse, and the rectangle with the ellipse as hole: object 2. -/
def demo (pb : PenBrush) (p q p' q' : Pt ℝ) : List Op :=
  [.mkLeaf ['o'] pb (.rect p q), .mkLeaf ['h'] pb (.ellipse p' q'), .mkList [1], .mkHoles ['s'] pb 0 0 true]

theorem demo_world (pb : PenBrush) (p q p' q' : Pt ℝ) : run .empty (demo pb p q p' q') =
    ⟨[⟨['o'], pb, 0, .leaf (.rect p q)⟩, ⟨['h'], pb, 1, .leaf (.ellipse p' q')⟩, ⟨['s'], pb, 2, .holes true 0 0⟩], [[1]],
      [Mat3.one, Mat3.one, Mat3.one]⟩ := by
  simp [demo, run, step, unfit, isLeaf, construct, setPen, World.empty]

theorem demo_elem (pb : PenBrush) (p q p' q' : Pt ℝ) : elem (run .empty (demo pb p q p' q')) 2 =
    some (.holes ⟨['s'], pb, true, Mat3.one⟩ (.rect ⟨['o'], pb, true, Mat3.one⟩ p q) [.ellipse ⟨['h'], pb, true, Mat3.one⟩ p' q']) := by
  rw [demo_world]; rfl

/-- The hypotheses of C124_copy, C124_transform and C124_undo are met by the demo, filled or not; later the original is edited and the list
emptied. -/
example (cfg : DCfg) (pb pb' : PenBrush) (p q p' q' r : Pt ℝ) :
    (step (run .empty (demo pb p q p' q')) (.copyHoles 2)).2 = none ∧
    (∀ op ∈ [Op.edit 0 ['x'] pb' (.rect r q) none, .setList 0 [], .setPen 1 pb', .copyLeaf 1],
      OnlyNames (· < (run .empty (demo pb p q p' q')).items.length) (· < (run .empty (demo pb p q p' q')).lists.length) op) := by
  refine ⟨((C124_copy cfg _ _ _ _ _ (demo_elem pb p q p' q')).2 (by simp [Copies])).1, ?_⟩
  rw [demo_world]
  intro op hop
  simp only [List.mem_cons, List.not_mem_nil, or_false] at hop
  rcases hop with rfl | rfl | rfl | rfl <;> simp [OnlyNames]

/-- Undo of a move of the shape and an edit of its outside. -/
example (cfg : DCfg) (pb pb' : PenBrush) (p q p' q' r : Pt ℝ) (y m : Mat3 ℝ) :
    pic cfg (run .empty (demo pb p q p' q' ++ [.copyHoles 2] ++ [.setXf 2 y, .edit 0 ['x'] pb' (.rect r q) none] ++ [.restoreHoles 2 5])) 2 m =
      pic cfg (run .empty (demo pb p q p' q')) 2 m := by
  have hw : run .empty (demo pb p q p' q' ++ [.copyHoles 2]) =
      ⟨[⟨['o'], pb, 0, .leaf (.rect p q)⟩, ⟨['h'], pb, 1, .leaf (.ellipse p' q')⟩, ⟨['s'], pb, 2, .holes true 0 0⟩,
        ⟨['o'], pb, 0, .leaf (.rect p q)⟩, ⟨['h'], pb, 1, .leaf (.ellipse p' q')⟩, ⟨['s'], pb, 3, .holes true 3 1⟩], [[1], [4]],
        [Mat3.one, Mat3.one, Mat3.one, Mat3.one]⟩ := by
    rw [run_append, demo_world]
    simp [run, step, copyWith, copyPart, copyParts, unfit, construct, setPen]
  have hs : (step (run .empty (demo pb p q p' q')) (.copyHoles 2)).2 = none :=
    ((C124_copy cfg _ _ _ _ _ (demo_elem pb p q p' q')).2 (by simp [Copies])).1
  have hl : (run .empty (demo pb p q p' q')).items.length + 1 + [Elem.ellipse ⟨['h'], pb, true, Mat3.one⟩ p' q'].length = 5 := by
    rw [demo_world]; rfl
  have hw2 : run .empty (demo pb p q p' q' ++ [.copyHoles 2] ++ [.setXf 2 y, .edit 0 ['x'] pb' (.rect r q) none]) =
      ⟨[⟨['x'], pb', 0, .leaf (.rect r q)⟩, ⟨['h'], pb, 1, .leaf (.ellipse p' q')⟩, ⟨['s'], pb, 2, .holes true 0 0⟩,
        ⟨['o'], pb, 0, .leaf (.rect p q)⟩, ⟨['h'], pb, 1, .leaf (.ellipse p' q')⟩, ⟨['s'], pb, 3, .holes true 3 1⟩], [[1], [4]],
        [Mat3.one, Mat3.one, y, Mat3.one]⟩ := by
    rw [run_append, hw]
    simp [run, step]
  have := C124_undo cfg (demo pb p q p' q') [.setXf 2 y, .edit 0 ['x'] pb' (.rect r q) none] 2 _ _ _ _ _ _
    (demo_elem pb p q p' q') hs ?_ (by rw [hw2]; rfl) (.cons ⟨pb, rfl⟩ .nil)
  · simp only at this
    rw [hl, hw2] at this
    exact this (by simp [step, restoreHoles, copyPart, copyParts, unfit]) m
  · rw [hl, hw]
    refine ⟨?_, ?_, trivial⟩
    · rintro (⟨a, b, h1, h2, h3⟩ | ⟨p, ⟨_, _, _, _, _, _, h1, h2⟩, ⟨a, b, h3, h4, h5⟩⟩)
      · simp at h1 h2; subst h1 h2; simp at h3
      · simp at h1
        obtain ⟨-, -, -, -, rfl, rfl⟩ := h1
        simp at h4
        subst h4
        rcases h2 with rfl | ⟨is, h2, h6⟩
        · simp at h3; subst h3; simp at h5
        · simp at h2; subst h2
          simp at h6; subst h6
          simp at h3; subst h3; simp at h5
    · rintro (h | ⟨_, _, _, _, _, _, h1, h2⟩)
      · exact absurd h (by decide)
      · simp [step] at h1
        obtain ⟨-, -, -, -, rfl, rfl⟩ := h1
        simp [step] at h2

/-- Finding: moving the outside of the original moves the outside of the copy. -/
theorem C124_copy_moves_counterexample (cfg : DCfg) (pen : Option Pen) :
    let ops : List Op := [.mkLeaf ['o'] ⟨pen, none⟩ (.rect ⟨0, 0⟩ ⟨1, 1⟩), .mkList [], .mkHoles ['s'] ⟨pen, none⟩ 0 0 true, .copyHoles 1]
    pic cfg (run .empty (ops ++ [.setXf 0 ⟨1, 0, 5, 0, 1, 0, 0, 0, 1⟩])) 3 Mat3.one ≠ pic cfg (run .empty ops) 3 Mat3.one := by
  intro ops
  have e1 : elem (run .empty ops) 3 = some (.holes ⟨['s'], ⟨pen, none⟩, true, Mat3.one⟩ (.rect ⟨['o'], ⟨pen, none⟩, true, Mat3.one⟩ ⟨0, 0⟩ ⟨1, 1⟩) []) :=
    rfl
  have e2 : elem (run .empty (ops ++ [.setXf 0 ⟨1, 0, 5, 0, 1, 0, 0, 0, 1⟩])) 3 = some (.holes ⟨['s'], ⟨pen, none⟩, true, Mat3.one⟩
      (.rect ⟨['o'], ⟨pen, none⟩, true, ⟨1, 0, 5, 0, 1, 0, 0, 0, 1⟩⟩ ⟨0, 0⟩ ⟨1, 1⟩) []) := rfl
  rw [pic_of_elem e1, pic_of_elem e2]
  have hp : ∀ h p q s, Elem.paths cfg (.rect h p q) s = (⟨s.mat, none, s.stack⟩, (Elem.rectPaths h p q (s.push.compose h.xf)).2) := by
    intro h p q s; rw [Elem.paths, Elem.drawSpace_eq (Elem.rectPaths_keeps _ _ _)]
  have key : ∀ y : Mat3 ℝ, Elem.drawn cfg (.holes ⟨['s'], ⟨pen, none⟩, true, Mat3.one⟩ (.rect ⟨['o'], ⟨pen, none⟩, true, y⟩ ⟨0, 0⟩ ⟨1, 1⟩) []) Mat3.one =
      match (⟨y, none, []⟩ : TState).transformPts (Elem.corners ⟨0, 0⟩ ⟨1, 1⟩) with
      | .ok path => .ok [⟨⟨pen, none⟩, true, path ++ path.take 1⟩]
      | .error e => .error e := by
    intro y
    rw [Elem.drawn, Elem.paths_holes, Elem.drawSpace_eq (Elem.holesBody_keeps _ _ _ _)]
    simp only [Elem.holesBody, hp, Elem.rectPaths]
    have : ((⟨Mat3.one, none, []⟩ : TState).push.compose Mat3.one).push.compose y = ⟨y, none, [Mat3.one, Mat3.one]⟩ := by
      simp only [TState.push, TState.compose, Mat3.one_mul']
    rw [this]
    have e : ∀ l, (⟨y, none, [Mat3.one, Mat3.one]⟩ : TState).transformPts l = (⟨y, none, []⟩ : TState).transformPts l := fun l => rfl
    rw [e]
    cases (⟨y, none, []⟩ : TState).transformPts (Elem.corners ⟨0, 0⟩ ⟨1, 1⟩) <;> rfl
  rw [key, key]
  intro h
  simp [TState.transformPts, Elem.corners, Mat3.apply3, Mat3.one] at h

/-- Finding: a `restore` which fails leaves the shape with the name, pen and transform of the other and its own outside. -/
theorem C124_restore_half_counterexample (c : Color) (p q : Pt ℝ) (cps : List (CP ℝ)) :
    let pb : PenBrush := ⟨none, some ⟨c⟩⟩
    let nb : PenBrush := ⟨none, none⟩
    let ops : List Op := [.mkLeaf ['o'] nb (.rect p q), .mkList [], .mkHoles ['s'] nb 0 0 true, .mkLeaf ['c'] nb (.curve false cps),
      .mkHoles ['t'] pb 2 0 true]
    (step (run .empty ops) (.restoreHoles 1 3)).2 = some .assertion ∧
    elem (run .empty ops) 1 = some (.holes ⟨['s'], nb, true, Mat3.one⟩ (.rect ⟨['o'], nb, true, Mat3.one⟩ p q) []) ∧
    elem (run .empty (ops ++ [.restoreHoles 1 3])) 1 = some (.holes ⟨['t'], pb, true, Mat3.one⟩ (.rect ⟨['o'], nb, true, Mat3.one⟩ p q) []) :=
  ⟨rfl, rfl, rfl⟩

/-- Finding: undo does not bring the holes back: a hole removed from the list stays removed. -/
theorem C124_undo_holes_counterexample (pb : PenBrush) (p q p' q' : Pt ℝ) :
    elem (run .empty (demo pb p q p' q' ++ [.copyHoles 2, .setList 0 [], .restoreHoles 2 5])) 2 =
      some (.holes ⟨['s'], pb, true, Mat3.one⟩ (.rect ⟨['o'], pb, true, Mat3.one⟩ p q) []) := by
  rw [run_append, demo_world]
  simp [run, step, copyWith, copyPart, copyParts, unfit, construct, setPen, restoreHoles, elem, part, parts, GH.leafElem]

end X7.HH
