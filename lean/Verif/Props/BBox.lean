import Mathlib.Data.List.Perm.Basic
import Verif.Lemmas.BBox

/-!
C08-C14: the order part of `BBox`, over any linear order. Regions are specified in `Spec/Region.lean`.
-/

namespace X7.BBox
variable {α : Type*} [LinearOrder α]

/-! ### C08 -/

/-- Boxes a program can obtain: the constructor in any of its forms, then any operations on boxes obtained so far
(`grow` and `sort` change a box in place: the reachable box is the changed one). -/
inductive Reach [Zero α] : BBox α → Prop
  | init (xl yl xh yh : Option (BArg α)) (b) : init xl yl xh yh = .ok b → Reach b
  | copy (b) : Reach b → Reach b.copy
  | grow (b p) : Reach b → Reach (b.grow p)
  | add (a b) : Reach a → Reach b → Reach (a.add b)
  | inter (a b) : Reach a → Reach b → Reach (a.inter b)
  | sort (a b) : Reach a → a.sort = .ok b → Reach b
  | round (a b) (f : α → α) : Reach a → a.round f = .ok b → Reach b
  | transformed (a b) (f : Pt α → Pt α) : Reach a → a.transformed f = .ok b → Reach b

/-- The result of a successful constructor call is normalised, and it is none exactly for `BBox(None, ...)`. -/
theorem C08_init_norm [Zero α] (xl yl xh yh : Option (BArg α)) (b : BBox α)
    (h : init xl yl xh yh = .ok b) : b.Norm ∧ (b = .none ↔ xl = Option.none) := by
  unfold init at h
  split at h
  · cases h; exact ⟨trivial, by simp⟩
  · have key : ∀ a b' c d : α, Except.ok (ε := PyErr) (mk' a b' c d) = .ok b → b.Norm ∧ b ≠ .none := by
      intro a b' c d e
      cases e
      exact ⟨norm_mk' _ _ _ _, by simp [mk']⟩
    have : b.Norm ∧ b ≠ .none := by
      repeat' split at h
      all_goals first | exact key _ _ _ _ h | cases h
    exact ⟨this.1, by simp [this.2]⟩

/-- C08: reading an item gives the coordinate with that index (negative indices count from the end), other indices raise `IndexError`. -/
theorem C08_getitem (xl yl xh yh : α) (i : ℤ) :
    getitem (.box xl yl xh yh) i =
      if -4 ≤ i ∧ i ≤ 3 then .ok ([xl, yl, xh, yh][(i % 4).toNat]?) else .error .index := by
  split
  · rename_i h
    obtain ⟨h1, h2⟩ := h
    have hi : i = -4 ∨ i = -3 ∨ i = -2 ∨ i = -1 ∨ i = 0 ∨ i = 1 ∨ i = 2 ∨ i = 3 := by omega
    rcases hi with rfl | rfl | rfl | rfl | rfl | rfl | rfl | rfl <;> rfl
  · rename_i h
    unfold getitem
    split <;> first | rfl | (rename_i hx; cases hx; done) | (rename_i hx _; cases hx; done) | (exfalso; omega)

/-- C08: assigning an item changes the coordinate with that index and no other. -/
theorem C08_setitem (xl yl xh yh v : α) (i j : Fin 4) :
    getitem (setitem (.box xl yl xh yh) i v) (j : ℕ) =
      if i = j then .ok (some v) else getitem (.box xl yl xh yh) (j : ℕ) := by
  rcases i with ⟨_ | _ | _ | _ | n, hi⟩ <;> rcases j with ⟨_ | _ | _ | _ | n, hj⟩ <;> first | rfl | (exfalso; omega)

/-- An argument that the constructor treats as absent: omitted, `None`, 0 or `()`. -/
def Blank [Zero α] (x : Option (BArg α)) : Prop := x = Option.none ∨ x = some (.num 0) ∨ x = some (.tup [])

/-- C08: the constructor accepts exactly the documented forms (`None`; a tuple of four numbers; two points; four numbers), with
nothing in the places after it, and builds the box of the two corners given. Every other call raises. -/
theorem C08_init_forms [Zero α] (xl yl xh yh : Option (BArg α)) (r : BBox α) :
    init xl yl xh yh = .ok r ↔ (xl = Option.none ∧ r = .none) ∨ ∃ a b c d : α,
      ((xl = some (.tup [a, b, c, d]) ∧ yl = Option.none ∧ Blank xh ∧ Blank yh) ∨
       (xl = some (.pt ⟨a, b⟩) ∧ yl = some (.pt ⟨c, d⟩) ∧ xh = Option.none ∧ Blank yh) ∨
       (xl = some (.num a) ∧ yl = some (.num b) ∧ xh = some (.num c) ∧ yh = some (.num d))) ∧
      r = .box (min a c) (min b d) (max a c) (max b d) := by
  have ht : ∀ x : Option (BArg α), truthy x = false ↔ Blank x := by
    intro x
    rcases x with _ | (x | x | x | _) <;> simp [truthy, Blank]
  constructor
  · intro h
    unfold init at h
    split at h
    · cases h; exact .inl ⟨rfl, rfl⟩
    · right
      split at h
      · split at h
        · cases h
        · rename_i hn
          simp only [Bool.or_eq_true, not_or, Bool.not_eq_true] at hn
          split at h
          · cases h
            exact ⟨_, _, _, _, .inl ⟨rfl, rfl, (ht _).1 hn.1, (ht _).1 hn.2⟩, rfl⟩
          all_goals cases h
      · split at h
        · split at h
          · cases h
          · rename_i hn
            simp only [Bool.not_eq_true] at hn
            split at h
            · cases h
              exact ⟨_, _, _, _, .inr (.inl ⟨rfl, rfl, rfl, (ht _).1 hn⟩), rfl⟩
            · cases h
        · split at h
          · cases h
            exact ⟨_, _, _, _, .inr (.inr ⟨rfl, rfl, rfl, rfl⟩), rfl⟩
          · cases h
  · rintro (⟨rfl, rfl⟩ | ⟨a, b, c, d, (⟨rfl, rfl, h1, h2⟩ | ⟨rfl, rfl, rfl, h2⟩ | ⟨rfl, rfl, rfl, rfl⟩), rfl⟩)
    · rfl
    · simp [init, (ht _).2 h1, (ht _).2 h2, mk']
    · simp [init, (ht _).2 h2, ofPts, mk']
    · rfl

theorem norm_transformed {a b : BBox α} {f : Pt α → Pt α} (h : a.transformed f = .ok b) : b.Norm := by
  cases a with
  | none => cases h
  | box xl yl xh yh =>
    cases h
    exact norm_add _ _

/-- C08: every reachable box is none or has its coordinates in order. (`expand` is in `C08_expand_norm`.) -/
theorem C08_reach_norm [Zero α] (b : BBox α) (h : Reach b) : b.Norm := by
  induction h with
  | init xl yl xh yh b h => exact (C08_init_norm xl yl xh yh b h).1
  | copy b _ _ => exact norm_copy _
  | grow b p _ ih => exact norm_grow ih p
  | add a b _ _ _ _ => exact norm_add _ _
  | inter a b _ _ _ _ => exact norm_inter _ _
  | sort a b _ h _ =>
    cases a <;> cases h
    exact norm_mk' _ _ _ _
  | round a b f _ h _ =>
    cases a <;> cases h
    exact norm_mk' _ _ _ _
  | transformed a b f _ h _ => exact norm_transformed h

/-- C08: item assignment can unsort a box; `sort()` repairs it, giving the box of the same two corner points. -/
theorem C08_sort_repairs (b : BBox α) (h : b ≠ .none) :
    ∃ b', b.sort = .ok b' ∧ b'.Norm ∧ (b.Norm → b' = b) := by
  cases b with
  | none => exact absurd rfl h
  | box xl yl xh yh => exact ⟨_, rfl, norm_mk' _ _ _ _, fun h => mk'_of_le h.1 h.2⟩

/-- The constructor gives the least box holding both corner points. -/
theorem C08_init_corners (p q : Pt α) (c : BBox α) :
    Region (ofPts p q) ⊆ Region c ↔ p ∈ Region c ∧ q ∈ Region c := by
  have : ofPts p q = growAll .none [p, q] := by
    simp [ofPts, mk', growAll, grow]
  rw [this, region_growAll norm_none]
  simp [Region]

example : init (some (.num 3)) (some (.num 5)) (some (.num 1)) (some (.num 2)) = .ok (.box (1 : ℤ) 2 3 5) := by
  decide
example : init (α := ℤ) (some (.pt ⟨3, 5⟩)) (some (.pt ⟨1, 6⟩)) Option.none Option.none = .ok (.box 1 5 3 6) := by
  decide
example : init (α := ℤ) (some (.tup [3, 5, 1])) Option.none Option.none Option.none = .error .value := by rfl
example : Reach (.box (1 : ℤ) 2 3 5) :=
  .init (some (.num 3)) (some (.num 5)) (some (.num 1)) (some (.num 2)) _ (by decide)
example : ¬ (setitem (.box (1 : ℤ) 2 3 5) 0 4).Norm := by simp [setitem, Norm]

/-! ### C09 -/

/-- C09: `a + b` contains both, and is contained in every region containing both. -/
theorem C09_add_lub (a b : BBox α) (ha : a.Norm) (hb : b.Norm) :
    Region a ⊆ Region (a.add b) ∧ Region b ⊆ Region (a.add b) ∧
    ∀ c : BBox α, Region a ⊆ Region c → Region b ⊆ Region c → Region (a.add b) ⊆ Region c := by
  have := (region_add_lub (c := a.add b) ha hb).1 subset_rfl
  exact ⟨this.1, this.2, fun c h1 h2 => (region_add_lub ha hb).2 ⟨h1, h2⟩⟩

theorem region_eq_of_forall {a b : BBox α} (ha : a.Norm) (hb : b.Norm)
    (h : ∀ c : BBox α, Region a ⊆ Region c ↔ Region b ⊆ Region c) : a = b :=
  region_inj ha hb (((h b).2 subset_rfl).antisymm ((h a).1 subset_rfl))

theorem C09_add_comm (a b : BBox α) (ha : a.Norm) (hb : b.Norm) : a.add b = b.add a :=
  region_eq_of_forall (norm_add _ _) (norm_add _ _) fun c => by
    rw [region_add_lub ha hb, region_add_lub hb ha, and_comm]

theorem C09_add_assoc (a b c : BBox α) (ha : a.Norm) (hb : b.Norm) (hc : c.Norm) :
    (a.add b).add c = a.add (b.add c) :=
  region_eq_of_forall (norm_add _ _) (norm_add _ _) fun d => by
    rw [region_add_lub (norm_add _ _) hc, region_add_lub ha hb, region_add_lub ha (norm_add _ _),
      region_add_lub hb hc, and_assoc]

theorem C09_add_idem (a : BBox α) (ha : a.Norm) : a.add a = a :=
  region_eq_of_forall (norm_add _ _) ha fun d => by rw [region_add_lub ha ha, and_self]

theorem C09_add_none (a : BBox α) (ha : a.Norm) : a.add .none = a ∧ BBox.add .none a = a := by
  constructor
  · simp [add, copy_of_norm ha]
  · cases a with
    | none => rfl
    | box xl yl xh yh => exact mk'_of_le ha.1 ha.2

theorem region_foldl_add {bs : List (BBox α)} (h : ∀ b ∈ bs, b.Norm) {a c : BBox α} (ha : a.Norm) :
    (bs.foldl add a).Norm ∧
    (Region (bs.foldl add a) ⊆ Region c ↔ Region a ⊆ Region c ∧ ∀ b ∈ bs, Region b ⊆ Region c) := by
  induction bs generalizing a with
  | nil => simp [ha]
  | cons b bs ih =>
    have := ih (fun x hx => h x (List.mem_cons_of_mem _ hx)) (norm_add a b)
    rw [region_add_lub ha (h b (by simp))] at this
    simpa [and_assoc] using this

/-- C09: a sum over any list of boxes is the least box containing all of them. -/
theorem C09_sum_lub (bs : List (BBox α)) (h : ∀ b ∈ bs, b.Norm) (c : BBox α) :
    Region (sumAll bs) ⊆ Region c ↔ ∀ b ∈ bs, Region b ⊆ Region c := by
  have := (region_foldl_add h (c := c) (a := .none) trivial).2
  simpa [sumAll, Region] using this

/-- C09: the sum does not depend on order or repetition. -/
theorem C09_sum_order (bs bs' : List (BBox α)) (h : ∀ b ∈ bs, b.Norm) (hs : ∀ b, b ∈ bs ↔ b ∈ bs') :
    sumAll bs = sumAll bs' := by
  have h' : ∀ b ∈ bs', b.Norm := fun b hb => h b ((hs b).2 hb)
  refine region_eq_of_forall (region_foldl_add h (c := .none) (a := .none) trivial).1
    (region_foldl_add h' (c := .none) (a := .none) trivial).1 fun c => ?_
  have e1 := C09_sum_lub bs h c
  have e2 := C09_sum_lub bs' h' c
  change Region (sumAll bs) ⊆ Region c ↔ Region (sumAll bs') ⊆ Region c
  rw [e1, e2]
  simp only [hs]

example : (BBox.box (0 : ℤ) 0 1 1).add (.box 3 (-2) 4 0) = .box 0 (-2) 4 1 := by decide
example : (BBox.box (0 : ℤ) 0 1 1).Norm ∧ (BBox.box (3 : ℤ) (-2) 4 0).Norm := by simp [Norm]

/-! ### C10 -/

/-- C10: growing from none by a list of points gives the least box holding all of them. -/
theorem C10_grow_least (ps : List (Pt α)) (c : BBox α) :
    Region (growAll .none ps) ⊆ Region c ↔ ∀ p ∈ ps, p ∈ Region c := by
  rw [region_growAll norm_none]; simp [Region]

/-- C10: in particular it holds all the points. -/
theorem C10_grow_holds (ps : List (Pt α)) : ∀ p ∈ ps, p ∈ Region (growAll .none ps) :=
  (C10_grow_least ps _).1 subset_rfl

/-- C10: the result is none exactly for the empty list, and normalised. -/
theorem C10_grow_none_iff (ps : List (Pt α)) : growAll .none ps = .none ↔ ps = [] := by
  constructor
  · intro h
    by_contra hne
    obtain ⟨p, hp⟩ := List.exists_mem_of_ne_nil _ hne
    have := C10_grow_holds ps p hp
    rw [h] at this
    exact this
  · rintro rfl; rfl

/-- C10: order and repetition of the points do not matter. -/
theorem C10_grow_order (ps qs : List (Pt α)) (h : ∀ p, p ∈ ps ↔ p ∈ qs) :
    growAll .none ps = growAll .none qs :=
  region_eq_of_forall (norm_growAll norm_none _) (norm_growAll norm_none _) fun c => by
    rw [C10_grow_least, C10_grow_least]; simp only [h]

/-- C10: growing keeps every point already inside and adds the new one, for any box. -/
theorem C10_grow_mono (b : BBox α) (hb : b.Norm) (p : Pt α) :
    Region b ⊆ Region (b.grow p) ∧ p ∈ Region (b.grow p) ∧
    (p ∈ Region b → b.grow p = b) := by
  have h := (region_growAll (c := b.grow p) hb [p]).1 subset_rfl
  refine ⟨h.1, h.2 p (by simp), fun hp => ?_⟩
  refine region_eq_of_forall (norm_grow hb p) hb fun c => ?_
  have := region_growAll (c := c) hb [p]
  simp only [growAll, List.foldl_cons, List.foldl_nil] at this
  rw [this]
  constructor
  · exact fun h => h.1
  · exact fun h => ⟨h, by simpa using h hp⟩

example : growAll .none [(⟨1, 5⟩ : Pt ℤ), ⟨-2, 3⟩, ⟨0, 7⟩] = .box (-2) 3 1 7 := by decide

/-! ### C11 -/

/-- C11: the closed region of the intersection is the intersection of the closed regions. -/
theorem C11_region_inter (a b : BBox α) (ha : a.Norm) (hb : b.Norm) :
    Region (a.inter b) = Region a ∩ Region b := region_inter a b ha hb

theorem region_eq_empty {a : BBox α} (ha : a.Norm) : Region a = ∅ ↔ a = .none := by
  constructor
  · intro h; exact region_inj ha trivial (by rw [h]; rfl)
  · rintro rfl; rfl

/-- C11: the intersection is none exactly if the closed regions are disjoint. -/
theorem C11_none_iff_disjoint (a b : BBox α) (ha : a.Norm) (hb : b.Norm) :
    a.inter b = .none ↔ Disjoint (Region a) (Region b) := by
  rw [Set.disjoint_iff_inter_eq_empty, ← region_inter a b ha hb, region_eq_empty (norm_inter _ _)]

theorem C11_inter_comm (a b : BBox α) (ha : a.Norm) (hb : b.Norm) : a.inter b = b.inter a :=
  region_inj (norm_inter _ _) (norm_inter _ _) (by
    rw [region_inter a b ha hb, region_inter b a hb ha, Set.inter_comm])

theorem C11_inter_assoc (a b c : BBox α) (ha : a.Norm) (hb : b.Norm) (hc : c.Norm) :
    (a.inter b).inter c = a.inter (b.inter c) :=
  region_inj (norm_inter _ _) (norm_inter _ _) (by
    rw [region_inter _ c (norm_inter _ _) hc, region_inter a b ha hb, region_inter a _ ha (norm_inter _ _),
      region_inter b c hb hc, Set.inter_assoc])

theorem C11_inter_idem (a : BBox α) (ha : a.Norm) : a.inter a = a :=
  region_inj (norm_inter _ _) ha (by rw [region_inter a a ha ha, Set.inter_self])

theorem C11_inter_none (a : BBox α) : a.inter .none = .none ∧ BBox.inter .none a = .none := by
  cases a <;> exact ⟨rfl, rfl⟩

/-- C11: absorption with `+`. -/
theorem C11_absorb (a b : BBox α) (ha : a.Norm) (hb : b.Norm) :
    a.inter (a.add b) = a ∧ a.add (a.inter b) = a := by
  constructor
  · refine region_inj (norm_inter _ _) ha ?_
    rw [region_inter a _ ha (norm_add _ _)]
    exact Set.inter_eq_left.2 (C09_add_lub a b ha hb).1
  · refine region_eq_of_forall (norm_add _ _) ha fun c => ?_
    rw [region_add_lub ha (norm_inter _ _), region_inter a b ha hb]
    exact ⟨fun h => h.1, fun h => ⟨h, Set.inter_subset_left.trans h⟩⟩

example : (BBox.box (0 : ℤ) 0 5 5).inter (.box 3 (-2) 8 2) = .box 3 0 5 2 := by decide
example : (BBox.box (0 : ℤ) 0 1 1).inter (.box 2 0 3 1) = .none := by decide

/-! ### C12 -/

/-- C12: `contains` answers region containment for boxes with coordinates and raises `ValueError` otherwise. -/
theorem C12_contains_iff (a b : BBox α) (hb : b.Norm) :
    (a = .none ∨ b = .none → a.contains b = .error .value) ∧
    (a ≠ .none → b ≠ .none → ∃ r, a.contains b = .ok r ∧ (r = true ↔ Region b ⊆ Region a)) := by
  constructor
  · rintro (rfl | rfl)
    · cases b <;> rfl
    · cases a <;> rfl
  · intro h1 h2
    cases a with
    | none => exact absurd rfl h1
    | box xl yl xh yh =>
      cases b with
      | none => exact absurd rfl h2
      | box xl' yl' xh' yh' =>
        refine ⟨_, rfl, ?_⟩
        rw [region_subset_box hb.1 hb.2]
        simp

/-- C12: for boxes with coordinates containment, `intersection == b` and `a + b == a` are equivalent. -/
theorem C12_contains_equiv (a b : BBox α) (ha : a.Norm) (hb : b.Norm) (h1 : a ≠ .none) (h2 : b ≠ .none) :
    (a.contains b = .ok true ↔ a.inter b = b) ∧ (a.contains b = .ok true ↔ a.add b = a) := by
  obtain ⟨r, hr, hiff⟩ := (C12_contains_iff a b hb).2 h1 h2
  have e : a.contains b = .ok true ↔ Region b ⊆ Region a := by
    rw [hr, ← hiff]; exact ⟨fun h => by injection h, fun h => by rw [h]⟩
  rw [e]
  constructor
  · constructor
    · intro h
      exact region_inj (norm_inter _ _) hb (by rw [region_inter a b ha hb]; exact Set.inter_eq_right.2 h)
    · intro h
      rw [← h, region_inter a b ha hb]
      exact Set.inter_subset_left
  · constructor
    · intro h
      exact region_eq_of_forall (norm_add _ _) ha fun c => by
        rw [region_add_lub ha hb]; exact ⟨fun x => x.1, fun x => ⟨x, h.trans x⟩⟩
    · intro h
      rw [← h]
      exact (C09_add_lub a b ha hb).2.1

/-- C12: containment is a partial order on boxes with coordinates. -/
theorem C12_partial_order (a b c : BBox α) (ha : a.Norm) (h1 : a ≠ .none) :
    a.contains a = .ok true ∧
    (a.contains b = .ok true → b.contains a = .ok true → a = b) ∧
    (a.contains b = .ok true → b.contains c = .ok true → a.contains c = .ok true) := by
  cases a with
  | none => exact absurd rfl h1
  | box xl yl xh yh =>
    refine ⟨by simp [contains], ?_, ?_⟩
    · cases b with
      | none => intro h; cases h
      | box xl' yl' xh' yh' =>
        intro h h'
        simp only [contains, Except.ok.injEq, decide_eq_true_eq] at h h'
        simp only [box.injEq]
        refine ⟨?_, ?_, ?_, ?_⟩ <;> order
    · cases b with
      | none => intro h; cases h
      | box xl' yl' xh' yh' =>
        cases c with
        | none => intro _ h; cases h
        | box xl'' yl'' xh'' yh'' =>
          intro h h'
          simp only [contains, Except.ok.injEq, decide_eq_true_eq] at h h' ⊢
          refine ⟨?_, ?_, ?_, ?_⟩ <;> order

example : (BBox.box (0 : ℤ) 0 5 5).contains (.box 0 1 5 2) = .ok true := by decide

/-! ### C13 -/

/-- The three relations are symmetric. -/
theorem C13_symm (a b : BBox α) :
    a.overlaps b = b.overlaps a ∧ a.touches b = b.touches a ∧ a.touchesSide b = b.touchesSide a := by
  cases a with
  | none => cases b <;> exact ⟨rfl, rfl, rfl⟩
  | box xl yl xh yh =>
    cases b with
    | none => exact ⟨rfl, rfl, rfl⟩
    | box xl' yl' xh' yh' =>
      refine ⟨?_, ?_, ?_⟩
      · simp only [overlaps, ge_iff_le]
        congr 1
        apply propext
        tauto
      · simp only [touches, decide_eq_decide, eq_comm (a := xl), eq_comm (a := xh), eq_comm (a := yl),
          eq_comm (a := yh)]
        tauto
      · simp only [touchesSide, decide_eq_decide, eq_comm (a := xl), eq_comm (a := xh), eq_comm (a := yl),
          eq_comm (a := yh)]
        tauto

/-- C13: `overlaps` on boxes of positive area means that the intersection has positive area. -/
theorem C13_overlaps_iff_fat (a b : BBox α) (ha : a.Fat) (hb : b.Fat) :
    ∃ r, a.overlaps b = .ok r ∧ (r = true ↔ (a.inter b).Fat) := by
  cases a with
  | none => exact ha.elim
  | box xl yl xh yh =>
    cases b with
    | none => exact hb.elim
    | box xl' yl' xh' yh' =>
      simp only [Fat] at ha hb
      simp only [overlaps, inter]
      split
      · rename_i h
        refine ⟨_, rfl, ?_⟩
        constructor
        · intro h; cases h
        · intro hf
          exfalso
          split at hf
          · exact hf
          · rename_i hn
            push Not at hn
            obtain ⟨n1, n2, n3, n4⟩ := hn
            rw [mk'_of_le (by order) (by order)] at hf
            obtain ⟨f1, f2⟩ := hf
            simp only [max_lt_iff, lt_min_iff] at f1 f2
            rcases h with h | h | h | h
            all_goals order
      · rename_i h
        push Not at h
        obtain ⟨h1, h2, h3, h4⟩ := h
        refine ⟨_, rfl, ?_⟩
        simp only [true_iff]
        have hn : ¬ (xl > xh' ∨ xh < xl' ∨ yl > yh' ∨ yh < yl') := by
          rintro (h | h | h | h)
          · exact absurd h1 (not_lt.2 h.le)
          · exact absurd h2 (not_lt.2 h.le)
          · exact absurd h3 (not_lt.2 h.le)
          · exact absurd h4 (not_lt.2 h.le)
        rw [if_neg hn, mk'_of_le (by order) (by order)]
        simp only [Fat, max_lt_iff, lt_min_iff]
        exact ⟨⟨⟨ha.1, h2⟩, h1, hb.1⟩, ⟨ha.2, h4⟩, h3, hb.2⟩

/-- C13: over a dense order (rationals, reals) `overlaps` on boxes of positive area holds exactly if some point is
strictly inside both. -/
theorem C13_overlaps_iff_common_interior [DenselyOrdered α] (a b : BBox α) (ha : a.Fat) (hb : b.Fat) :
    a.overlaps b = .ok true ↔ ∃ p, p ∈ Interior a ∧ p ∈ Interior b := by
  cases a with
  | none => exact ha.elim
  | box xl yl xh yh =>
    cases b with
    | none => exact hb.elim
    | box xl' yl' xh' yh' =>
      simp only [Fat] at ha hb
      simp only [overlaps]
      constructor
      · intro h
        split at h
        · cases h
        · rename_i hn
          push Not at hn
          obtain ⟨h1, h2, h3, h4⟩ := hn
          obtain ⟨x, hx1, hx2⟩ := exists_between
            (show max xl xl' < min xh xh' by simp only [max_lt_iff, lt_min_iff]; exact ⟨⟨ha.1, h2⟩, h1, hb.1⟩)
          obtain ⟨y, hy1, hy2⟩ := exists_between
            (show max yl yl' < min yh yh' by simp only [max_lt_iff, lt_min_iff]; exact ⟨⟨ha.2, h4⟩, h3, hb.2⟩)
          simp only [max_lt_iff, lt_min_iff] at hx1 hx2 hy1 hy2
          exact ⟨⟨x, y⟩, ⟨⟨hx1.1, hx2.1⟩, ⟨hy1.1, hy2.1⟩⟩, ⟨⟨hx1.2, hx2.2⟩, ⟨hy1.2, hy2.2⟩⟩⟩
      · rintro ⟨p, ⟨⟨p1, p2⟩, p3, p4⟩, ⟨q1, q2⟩, q3, q4⟩
        rw [if_neg]
        rintro (h | h | h | h) <;> order

/-- C13: for boxes of positive area exactly one of `overlaps`, `touches`, empty intersection holds. -/
theorem C13_trichotomy (a b : BBox α) (ha : a.Fat) (hb : b.Fat) :
    (a.overlaps b = .ok true ∧ a.touches b = false ∧ a.inter b ≠ .none) ∨
    (a.overlaps b = .ok false ∧ a.touches b = true ∧ a.inter b ≠ .none) ∨
    (a.overlaps b = .ok false ∧ a.touches b = false ∧ a.inter b = .none) := by
  cases a with
  | none => exact ha.elim
  | box xl yl xh yh =>
    cases b with
    | none => exact hb.elim
    | box xl' yl' xh' yh' =>
      obtain ⟨a1, a2⟩ := ha
      obtain ⟨b1, b2⟩ := hb
      have one : ∀ l h l' h' : α, l < h → l' < h' →
          (l < h' ∧ l' < h ∧ ¬ (h' = l ∨ l' = h)) ∨ ((h' = l ∨ l' = h) ∧ l ≤ h' ∧ l' ≤ h ∧ (h' ≤ l ∨ h ≤ l')) ∨
          ((h' < l ∨ h < l') ∧ ¬ (h' = l ∨ l' = h)) := by
        intro l h l' h' hl hl'
        rcases lt_trichotomy l h' with g1 | g1 | g1
        · rcases lt_trichotomy l' h with g2 | g2 | g2
          · left; exact ⟨g1, g2, by rintro (e | e) <;> order⟩
          · right; left; exact ⟨Or.inr g2, by order, by order, by right; order⟩
          · right; right; exact ⟨Or.inr g2, by rintro (e | e) <;> order⟩
        · right; left; exact ⟨Or.inl g1.symm, by order, by order, by left; order⟩
        · right; right; exact ⟨Or.inl g1, by rintro (e | e) <;> order⟩
      simp only [overlaps, touches, inter, decide_eq_true_eq, decide_eq_false_iff_not, ge_iff_le, gt_iff_lt]
      rcases one xl xh xl' xh' a1 b1 with ⟨x1, x2, x3⟩ | ⟨x1, x2, x3, x4⟩ | ⟨x1, x2⟩ <;>
      rcases one yl yh yl' yh' a2 b2 with ⟨y1, y2, y3⟩ | ⟨y1, y2, y3, y4⟩ | ⟨y1, y2⟩
      · left
        rw [if_neg (by rintro (h | h | h | h) <;> order), if_neg (by rintro (h | h | h | h) <;> order)]
        refine ⟨rfl, ?_, by simp [mk']⟩
        rintro (h | h)
        · exact x3 h.1
        · exact y3 h.1
      · right; left
        rw [if_pos (by tauto), if_neg (by rintro (h | h | h | h) <;> order)]
        exact ⟨rfl, Or.inr ⟨y1, x1.le, x2.le⟩, by simp [mk']⟩
      · right; right
        have : ¬ (yl ≤ yh' ∧ yl' ≤ yh) := by rintro ⟨h1, h2⟩; rcases y1 with h | h <;> order
        rw [if_pos (by rcases y1 with h | h; exact Or.inr (Or.inr (Or.inl h.le)); exact Or.inr (Or.inr (Or.inr h.le))),
          if_pos (by rcases y1 with h | h; exact Or.inr (Or.inr (Or.inl h)); exact Or.inr (Or.inr (Or.inr h)))]
        refine ⟨rfl, ?_, rfl⟩
        rintro (h | h)
        · exact this h.2
        · exact y2 h.1
      · right; left
        rw [if_pos (by tauto), if_neg (by rintro (h | h | h | h) <;> order)]
        exact ⟨rfl, Or.inl ⟨x1, y1.le, y2.le⟩, by simp [mk']⟩
      · right; left
        rw [if_pos (by tauto), if_neg (by rintro (h | h | h | h) <;> order)]
        exact ⟨rfl, Or.inl ⟨x1, y2, y3⟩, by simp [mk']⟩
      · right; right
        have : ¬ (yl ≤ yh' ∧ yl' ≤ yh) := by rintro ⟨h1, h2⟩; rcases y1 with h | h <;> order
        rw [if_pos (by tauto), if_pos (by rcases y1 with h | h; exact Or.inr (Or.inr (Or.inl h)); exact Or.inr (Or.inr (Or.inr h)))]
        refine ⟨rfl, ?_, rfl⟩
        rintro (h | h)
        · exact this h.2
        · exact y2 h.1
      all_goals
        right; right
        have : ¬ (xl ≤ xh' ∧ xl' ≤ xh) := by rintro ⟨h1, h2⟩; rcases x1 with h | h <;> order
        rw [if_pos (by rcases x1 with h | h; exact Or.inl h.le; exact Or.inr (Or.inl h.le)),
          if_pos (by rcases x1 with h | h; exact Or.inl h; exact Or.inr (Or.inl h))]
        refine ⟨rfl, ?_, rfl⟩
        rintro (h | h)
        · exact x2 h.1
        · exact this h.2

/-- C13: `touches_side` implies `touches`. -/
theorem C13_side_touches (a b : BBox α) (h : a.touchesSide b = true) : a.touches b = true := by
  cases a <;> cases b <;> simp [touchesSide, touches] at h ⊢
  rcases h with h | h
  · exact Or.inl ⟨h.1, h.2.1.le, h.2.2.le⟩
  · exact Or.inr ⟨h.1, h.2.1.le, h.2.2.le⟩

/-- C13: for all normalised boxes, `touches` excludes `overlaps`, and the intersection is a box with coordinates but
zero area (`is_empty`). -/
theorem C13_touches (a b : BBox α) (ha : a.Norm) (hb : b.Norm) (h : a.touches b = true) :
    a.overlaps b = .ok false ∧ a.inter b ≠ .none ∧ (a.inter b).isEmpty = true := by
  cases a with
  | none => cases b <;> simp [touches] at h
  | box xl yl xh yh =>
    cases b with
    | none => simp [touches] at h
    | box xl' yl' xh' yh' =>
      simp only [Norm] at ha hb
      obtain ⟨a1, a2⟩ := ha
      obtain ⟨b1, b2⟩ := hb
      simp only [touches, decide_eq_true_eq] at h
      have hi : xl ≤ xh' ∧ xl' ≤ xh ∧ yl ≤ yh' ∧ yl' ≤ yh := by
        rcases h with ⟨h | h, h1, h2⟩ | ⟨h | h, h1, h2⟩ <;> refine ⟨?_, ?_, ?_, ?_⟩ <;> order
      obtain ⟨i1, i2, i3, i4⟩ := hi
      simp only [overlaps, inter]
      rw [if_pos (by
        rcases h with ⟨h | h, h1, h2⟩ | ⟨h | h, h1, h2⟩
        · left; order
        · right; left; order
        · right; right; left; order
        · right; right; right; order), if_neg (by rintro (h | h | h | h) <;> order),
        mk'_of_le (by order) (by order)]
      refine ⟨rfl, by simp, ?_⟩
      simp only [isEmpty, Bool.or_eq_true, decide_eq_true_eq]
      rcases h with ⟨h | h, h1, h2⟩ | ⟨h | h, h1, h2⟩
      · left; order
      · left; order
      · right; order
      · right; order

example : (BBox.box (0 : ℤ) 0 1 1).Fat ∧ (BBox.box (1 : ℤ) (-1) 2 2).Fat := by simp [Fat]
example : (BBox.box (0 : ℤ) 0 1 1).touches (.box 1 (-1) 2 2) = true := by decide
example : (BBox.box (0 : ℤ) 0 2 2).overlaps (.box 1 (-1) 3 1) = .ok true := by decide

/-! ### C14: the claims of the class documentation -/

/-- C14 (claim false): "contains implies that all corners are contained": corners on the edge are not `contains_pt`. -/
theorem C14_contains_corners_counterexample :
    ∃ a b : BBox ℤ, a.Fat ∧ b.Fat ∧ a.contains b = .ok true ∧ ∀ p, b.pll = .ok p → a.containsPt p = false :=
  ⟨.box 0 0 2 2, .box 0 0 1 1, by simp [Fat], by simp [Fat], by decide, by
    intro p hp; cases hp; decide⟩

/-- C14 (repaired): `contains` implies that every corner lies in the closed region. -/
theorem C14_contains_corners_closed (a b : BBox α) (hb : b.Norm) (h : a.contains b = .ok true) :
    ∀ p, b.pll = .ok p ∨ b.plh = .ok p ∨ b.phl = .ok p ∨ b.phh = .ok p → p ∈ Region a := by
  cases a with
  | none => cases b <;> cases h
  | box xl yl xh yh =>
    cases b with
    | none => cases h
    | box xl' yl' xh' yh' =>
      simp only [contains, Except.ok.injEq, decide_eq_true_eq] at h
      simp only [Norm] at hb
      rintro p (hp | hp | hp | hp) <;> cases hp <;> refine ⟨⟨?_, ?_⟩, ?_, ?_⟩ <;> simp only [] <;> order

/-- C14 (claim false): "touches implies that any corner is touched (touches_pt)": no corner of `b` is touched. -/
theorem C14_touches_corners_counterexample :
    ∃ a b : BBox ℤ, a.Fat ∧ b.Fat ∧ a.touches b = true ∧
      ∀ p, b.pll = .ok p ∨ b.plh = .ok p ∨ b.phl = .ok p ∨ b.phh = .ok p → a.touchesPt p = false :=
  ⟨.box 0 0 1 1, .box 1 (-1) 2 2, by simp [Fat], by simp [Fat], by decide, by
    rintro p (hp | hp | hp | hp) <;> cases hp <;> decide⟩

/-- C14 (claim false): "touches: ... but does not contain it": both hold for a degenerate box on the edge. -/
theorem C14_touches_not_contains_counterexample :
    ∃ a b : BBox ℤ, a.Fat ∧ b.Norm ∧ a.touches b = true ∧ a.contains b = .ok true :=
  ⟨.box 0 0 2 2, .box 0 0 0 1, by simp [Fat], by simp [Norm], by decide, by decide⟩

/-- C14 (repaired): the claim holds when `b` has positive area. -/
theorem C14_touches_not_contains_fat (a b : BBox α) (hb : b.Fat) (h : a.touches b = true) :
    a.contains b = .ok false := by
  cases a with
  | none => cases b <;> simp [touches] at h
  | box xl yl xh yh =>
    cases b with
    | none => exact hb.elim
    | box xl' yl' xh' yh' =>
      simp only [Fat] at hb
      simp only [touches, decide_eq_true_eq] at h
      simp only [contains, Except.ok.injEq, decide_eq_false_iff_not]
      rintro ⟨c1, c2, c3, c4⟩
      rcases h with ⟨h | h, h1, h2⟩ | ⟨h | h, h1, h2⟩ <;> order

/-- C14 (claim false): "if the overlap is not other itself then some corner of other is contained": crossing bars. -/
theorem C14_overlaps_corner_counterexample :
    ∃ a b : BBox ℤ, a.Fat ∧ b.Fat ∧ a.overlaps b = .ok true ∧ a.inter b ≠ b ∧
      ∀ p, b.pll = .ok p ∨ b.plh = .ok p ∨ b.phl = .ok p ∨ b.phh = .ok p → p ∉ Region a := by
  refine ⟨.box 0 1 3 2, .box 1 0 2 3, by simp [Fat], by simp [Fat], by decide, by decide, ?_⟩
  rintro p (hp | hp | hp | hp) <;> cases hp <;> simp [Region]

/-- C14 (claim false): "overlaps implies a non-zero intersection": a degenerate box inside has zero-area intersection. -/
theorem C14_overlaps_degenerate_counterexample :
    ∃ a b : BBox ℤ, a.Fat ∧ b.Norm ∧ a.overlaps b = .ok true ∧ (a.inter b).isEmpty = true :=
  ⟨.box 0 0 2 2, .box 1 1 1 1, by simp [Fat], by simp [Norm], by decide, by decide⟩

/-- C14 (claim partly false): "none: contains/touches/overlaps is always False": `touches`, `touches_side`,
`contains_pt`, `touches_pt` answer `False`, intersection is none, but `contains` and `overlaps` raise `ValueError`. -/
theorem C14_none_behaviour (b : BBox α) (p : Pt α) :
    BBox.touches .none b = false ∧ BBox.touchesSide .none b = false ∧ BBox.containsPt .none p = false ∧
    BBox.touchesPt .none p = false ∧ BBox.inter .none b = .none ∧
    BBox.contains .none b = .error .value ∧ BBox.overlaps .none b = .error .value := by
  cases b <;> exact ⟨rfl, rfl, rfl, rfl, rfl, rfl, rfl⟩

/-- C14: what the point tests mean: `contains_pt` is the open region; the closed region is the disjoint union of
`contains_pt`, `touches_pt` and the corner coordinates, for boxes of positive area. -/
theorem C14_point_tests (b : BBox α) (hb : b.Fat) (p : Pt α) :
    (b.containsPt p = true ↔ p ∈ Interior b) ∧
    (p ∈ Region b ↔ (b.containsPt p = true ∨ b.touchesPt p = true ∨
      (.ok p = b.pll ∨ .ok p = b.plh ∨ .ok p = b.phl ∨ .ok p = b.phh))) ∧
    (b.containsPt p = true → b.touchesPt p = false) ∧
    ((.ok p = b.pll ∨ .ok p = b.plh ∨ .ok p = b.phl ∨ .ok p = b.phh) → b.touchesPt p = false ∧ b.containsPt p = false) := by
  cases b with
  | none => exact hb.elim
  | box xl yl xh yh =>
    obtain ⟨x, y⟩ := p
    obtain ⟨h1, h2⟩ := hb
    simp only [containsPt, touchesPt, Interior, Region, pll, plh, phl, phh, Set.mem_ofPred_eq, decide_eq_true_eq,
      decide_eq_false_iff_not, Except.ok.injEq, Pt.mk.injEq]
    refine ⟨by tauto, ?_, ?_, ?_⟩
    · constructor
      · rintro ⟨⟨x1, x2⟩, y1, y2⟩
        rcases x1.lt_or_eq with x1 | rfl <;> rcases x2.lt_or_eq with x2 | rfl <;>
        rcases y1.lt_or_eq with y1 | rfl <;> rcases y2.lt_or_eq with y2 | rfl <;> simp_all
      · rintro (h | h | h)
        · refine ⟨⟨?_, ?_⟩, ?_, ?_⟩ <;> order
        · rcases h with ⟨h | h, h3, h4⟩ | ⟨h | h, h3, h4⟩ <;> refine ⟨⟨?_, ?_⟩, ?_, ?_⟩ <;> order
        · rcases h with ⟨rfl, rfl⟩ | ⟨rfl, rfl⟩ | ⟨rfl, rfl⟩ | ⟨rfl, rfl⟩ <;> refine ⟨⟨?_, ?_⟩, ?_, ?_⟩ <;> order
    · rintro ⟨x1, x2, x3, x4⟩ (⟨h | h, h3, h4⟩ | ⟨h | h, h3, h4⟩) <;> order
    · rintro (⟨rfl, rfl⟩ | ⟨rfl, rfl⟩ | ⟨rfl, rfl⟩ | ⟨rfl, rfl⟩) <;> simp

end X7.BBox
