import Mathlib.Tactic.Ring
import Mathlib.Tactic.SplitIfs
import Mathlib.Tactic.Cases
import Mathlib.Tactic.IntervalCases
import Mathlib.Tactic.FinCases
import Mathlib.Data.Fintype.Basic
import Mathlib.Data.Rat.Defs
import Mathlib.Algebra.Order.Ring.Rat
import Mathlib.Tactic.NormNum
import Verif.Model.BoxObj

/-! C94: boxes as mutable objects, through every history of calls. -/

namespace X7
namespace BoxObj

/-- The object that stands for a box of Model/BBox.lean. -/
def ofBox {K : Type*} : BBox K → BoxObj K
  | .none => ⟨none, none, none, none⟩
  | .box xl yl xh yh => ⟨some xl, some yl, some xh, some yh⟩

/-- All four slots are filled, or none is. -/
def Whole {K : Type*} (b : BoxObj K) : Prop := b = ⟨none, none, none, none⟩ ∨ ∃ xl yl xh yh, b = ⟨some xl, some yl, some xh, some yh⟩

/-- No slot is filled, or all are, with the lower coordinates not above the higher ones. -/
def Proper {K : Type*} [LE K] (b : BoxObj K) : Prop :=
  b = ⟨none, none, none, none⟩ ∨ ∃ xl yl xh yh, b = ⟨some xl, some yl, some xh, some yh⟩ ∧ xl ≤ xh ∧ yl ≤ yh

theorem Proper.whole {K : Type*} [LE K] {b : BoxObj K} (h : b.Proper) : b.Whole := by
  rcases h with h | ⟨xl, yl, xh, yh, h, -⟩
  · exact .inl h
  · exact .inr ⟨xl, yl, xh, yh, h⟩

theorem whole_iff {K : Type*} (b : BoxObj K) : b.Whole ↔ ∃ c, b = ofBox c := by
  constructor
  · rintro (rfl | ⟨xl, yl, xh, yh, rfl⟩)
    · exact ⟨.none, rfl⟩
    · exact ⟨.box xl yl xh yh, rfl⟩
  · rintro ⟨c, rfl⟩
    cases c
    · exact .inl rfl
    · exact .inr ⟨_, _, _, _, rfl⟩

section Order
variable {K : Type*} [LinearOrder K]

theorem sorted_some (a b c d : K) : sorted (some a) (some b) (some c) (some d) = .ok ⟨some (min a c), some (min b d), some (max a c), some (max b d)⟩ := rfl

theorem ofSlots_some (a b c d : K) : ofSlots (some a) (some b) (some c) (some d) = .ok (ofBox (BBox.mk' a b c d)) := rfl

theorem pand_ok (p q : Prop) [Decidable p] [Decidable q] : pand (.ok (decide p)) (.ok (decide q)) = .ok (decide (p ∧ q)) := by
  by_cases hp : p <;> by_cases hq : q <;> simp [pand, hp, hq]

theorem por_ok (p q : Prop) [Decidable p] [Decidable q] : por (.ok (decide p)) (.ok (decide q)) = .ok (decide (p ∨ q)) := by
  by_cases hp : p <;> by_cases hq : q <;> simp [por, hp, hq]

theorem peq_some (a b : K) : peq (some a) (some b) = .ok (decide (a = b)) := by simp [peq]

theorem plt_some (a b : K) : plt (some a) (some b) = .ok (decide (a < b)) := rfl

theorem ple_some (a b : K) : ple (some a) (some b) = .ok (decide (a ≤ b)) := rfl

/-- C94: on boxes with no coordinates or all four the methods of the objects are those of the values (Model/BBox.lean), so that what
C11–C16 prove of boxes holds of the objects: queries. -/
theorem C94_queries (a b : BBox K) (p : Pt K) :
    (ofBox a).eq (ofBox b) = decide (a = b) ∧ (ofBox a).isNone = a.isNone ∧ (ofBox a).isEmpty = a.isEmpty ∧
    (ofBox a).containsPt p = .ok (a.containsPt p) ∧ (ofBox a).contains (ofBox b) = a.contains b ∧ (ofBox a).touchesPt p = .ok (a.touchesPt p) ∧
    (ofBox a).touchesSide (ofBox b) = .ok (a.touchesSide b) ∧ (ofBox a).touches (ofBox b) = .ok (a.touches b) ∧
    (ofBox a).overlaps (ofBox b) = a.overlaps b ∧ ∀ i, (ofBox a).getitem i = a.getitem i := by
  refine ⟨?_, ?_, ?_, ?_, ?_, ?_, ?_, ?_, ?_, ?_⟩
  · cases a <;> cases b <;> simp [ofBox, eq, Bool.decide_and]
  · cases a <;> simp [ofBox, isNone, BBox.isNone]
  · cases a <;> simp [ofBox, isEmpty, BBox.isEmpty]
  · cases a
    · rfl
    · simp only [ofBox, containsPt, BBox.containsPt, plt_some, pand_ok, and_assoc]
  · cases a <;> cases b <;> first | rfl | simp only [ofBox, contains, BBox.contains, ple_some, pand_ok]
  · cases a
    · rfl
    · simp only [ofBox, touchesPt, BBox.touchesPt, plt_some, peq_some, pand_ok, por_ok]
  · cases a <;> cases b <;> first | rfl | simp only [ofBox, touchesSide, BBox.touchesSide, plt_some, peq_some, pand_ok, por_ok]
  · cases a <;> cases b <;> first | rfl | simp only [ofBox, touches, BBox.touches, ple_some, peq_some, pand_ok, por_ok]
  · cases a <;> cases b <;> first | rfl | skip
    simp only [ofBox, overlaps, BBox.overlaps, ple_some, por_ok, ge_iff_le, Except.map]
    split_ifs with h <;> simp [h]
  · intro i
    unfold getitem slotIx BBox.getitem
    cases a <;> simp only [ofBox]
    · split_ifs <;> first | rfl | omega
    · split_ifs with h0 h1 h2 h3
      · rcases h0 with rfl | rfl <;> rfl
      · rcases h1 with rfl | rfl <;> rfl
      · rcases h2 with rfl | rfl <;> rfl
      · rcases h3 with rfl | rfl <;> rfl
      · split <;> first | rfl | omega | simp_all

/-- C94: the methods that make a box or change one. -/
theorem C94_methods (a b : BBox K) (p : Pt K) (f : K → K) (g : Pt K → Pt K) :
    (ofBox a).copy = .ok (ofBox a.copy) ∧ (ofBox a).round f = (a.round f).map ofBox ∧ (ofBox a).add (ofBox b) = .ok (ofBox (a.add b)) ∧
    (ofBox a).inter (ofBox b) = .ok (ofBox (a.inter b)) ∧ (ofBox a).transformed g = (a.transformed g).map ofBox ∧
    (ofBox a).grow p = (ofBox (a.grow p), .ok ()) ∧
    (ofBox a).sort = (match a.sort with
      | .ok c => (ofBox c, .ok ())
      | .error e => (ofBox a, .error e)) := by
  refine ⟨?_, ?_, ?_, ?_, ?_, ?_, ?_⟩
  · cases a <;> rfl
  · cases a <;> rfl
  · cases a <;> cases b <;> rfl
  · cases a <;> cases b <;> first | rfl | skip
    simp only [ofBox, inter, BBox.inter, plt_some, por_ok, gt_iff_lt]
    split_ifs with h
    · simp only [h, decide_true]; rfl
    · simp only [h, decide_false]; rfl
  · cases a <;> rfl
  · cases a <;> rfl
  · cases a <;> rfl

/-- C94: equality of boxes is equality of the four slots. -/
theorem C94_equality (a b : BoxObj K) : a.eq b = true ↔ a.asTuple = b.asTuple := by
  simp [eq, asTuple]

/-- C94: unpacking into the constructor, evaluating what `repr` writes and `copy` are the same for every box; for a box with no
coordinates or sorted ones the result equals the box; for one with unsorted coordinates it is sorted, hence different. Passing the tuple
itself works exactly for boxes that have all coordinates, and then gives the same. -/
theorem C94_rebuild (b : BoxObj K) :
    b.evalRepr = b.copy ∧ (∀ x y z w, b.asTuple = [x, y, z, w] → ofSlots x y z w = b.copy) ∧
    (b.Whole → (b.copy = .ok b ↔ b.Proper) ∧ ∃ c : BoxObj K, b.copy = .ok c ∧ c.Proper) ∧
    ((∃ c, ofTuple b.asTuple = .ok c) ↔ ∀ x ∈ b.asTuple, x ≠ none) ∧
    (∀ c, ofTuple b.asTuple = .ok c → b.copy = .ok c) ∧ (∀ e, ofTuple b.asTuple = .error e → e = .type) := by
  refine ⟨rfl, ?_, ?_, ?_, ?_, ?_⟩
  · rintro x y z w h
    simp only [asTuple, List.cons.injEq, and_true] at h
    obtain ⟨rfl, rfl, rfl, rfl⟩ := h
    rfl
  · rintro (rfl | ⟨xl, yl, xh, yh, rfl⟩)
    · exact ⟨⟨fun _ => .inl rfl, fun _ => rfl⟩, _, rfl, .inl rfl⟩
    · refine ⟨?_, _, rfl, .inr ⟨_, _, _, _, rfl, min_le_max, min_le_max⟩⟩
      simp only [copy, ofSlots_some, BBox.mk', ofBox, Except.ok.injEq, BoxObj.mk.injEq, Option.some.injEq, Proper, reduceCtorEq, false_and,
        false_or]
      constructor
      · rintro ⟨h1, h2, -, -⟩
        exact ⟨xl, yl, xh, yh, ⟨rfl, rfl, rfl, rfl⟩, min_eq_left_iff.1 h1, min_eq_left_iff.1 h2⟩
      · rintro ⟨_, _, _, _, ⟨rfl, rfl, rfl, rfl⟩, h1, h2⟩
        exact ⟨min_eq_left h1, min_eq_left h2, max_eq_right h1, max_eq_right h2⟩
  · obtain ⟨xl, yl, xh, yh⟩ := b
    cases xl <;> cases yl <;> cases xh <;> cases yh <;> simp [asTuple, ofTuple, sorted, pmin, pmax] <;>
      first | exact ⟨_, rfl⟩ | exact fun _ h => by cases h
  · obtain ⟨xl, yl, xh, yh⟩ := b
    rintro c h
    cases xl <;> cases yl <;> cases xh <;> cases yh <;> first | exact h | cases h
  · obtain ⟨xl, yl, xh, yh⟩ := b
    rintro e h
    cases xl <;> cases yl <;> cases xh <;> cases yh <;> cases h <;> rfl

/-- C94: the documented "tuple" form does not take back the tuple of the empty box, which `BBox(*t)` does. -/
theorem C94_tuple_counterexample : ofTuple (asTuple (ofBox (BBox.none : BBox K))) = .error .type ∧
    (ofBox (BBox.none : BBox K)).copy = .ok (ofBox .none) := ⟨rfl, rfl⟩

/-- C94: items are the entries of the tuple, counted from the front or from the back; others raise `IndexError`; an assigned item is read
back and the others stay. -/
theorem C94_items (b : BoxObj K) (v : Option K) (i : ℤ) :
    (∀ k : ℕ, k < 4 → b.getitem k = .ok (b.asTuple.getD k none) ∧ b.getitem (k - 4) = b.getitem k) ∧
    (¬ (-4 ≤ i ∧ i ≤ 3) → b.getitem i = .error .index ∧ b.setitem i v = (b, .error .index)) ∧
    (-4 ≤ i ∧ i ≤ 3 → (b.setitem i v).2 = .ok () ∧ (b.setitem i v).1.getitem i = .ok v ∧
      ∀ j, -4 ≤ j ∧ j ≤ 3 → j ≠ i → j ≠ i + 4 → j ≠ i - 4 → (b.setitem i v).1.getitem j = b.getitem j) := by
  have hix : ∀ i : ℤ, -4 ≤ i ∧ i ≤ 3 → ∃ j : Fin 4, slotIx i = .ok j ∧ (i = j ∨ i = j - 4) := by
    rintro i ⟨h1, h2⟩
    interval_cases i
    exacts [⟨0, rfl, by decide⟩, ⟨1, rfl, by decide⟩, ⟨2, rfl, by decide⟩, ⟨3, rfl, by decide⟩, ⟨0, rfl, by decide⟩, ⟨1, rfl, by decide⟩,
      ⟨2, rfl, by decide⟩, ⟨3, rfl, by decide⟩]
  refine ⟨?_, ?_, ?_⟩
  · intro k hk
    interval_cases k <;> exact ⟨rfl, rfl⟩
  · intro h
    have : slotIx i = .error .index := by
      unfold slotIx
      split_ifs <;> first | omega | rfl
    simp [getitem, setitem, this, Except.map]
  · intro h
    obtain ⟨k, hk, hk'⟩ := hix i h
    refine ⟨by simp [setitem, hk], ?_, ?_⟩
    · simp only [setitem, hk, getitem, Except.map]
      fin_cases k <;> rfl
    · intro j hj h1 h2 h3
      obtain ⟨l, hl, hl'⟩ := hix j hj
      simp only [setitem, hk, getitem, hl, Except.map, Except.ok.injEq]
      have hne : l ≠ k := by
        rintro rfl
        omega
      fin_cases k <;> fin_cases l <;> first | rfl | exact absurd rfl hne

end Order

section Arith
variable {K : Type*} [Field K] [LinearOrder K]

/-- C94: measures, and growing by a margin. -/
theorem C94_measures (a : BBox K) (x : K) (y : Option K) :
    (ofBox a).width = .ok a.width ∧ (ofBox a).height = .ok a.height ∧ (ofBox a).size = .ok (a.width, a.height) ∧ (ofBox a).area = .ok a.area ∧
    (ofBox a).center = a.center ∧ (ofBox a).expand x y = (a.expand x y).map ofBox := by
  cases a <;> cases y <;> exact ⟨rfl, rfl, rfl, rfl, rfl, rfl⟩

/-- The box a call changes: only item assignment, `sort` and `grow` change one, the one they are called on. -/
def Call.target : Call K → Option ℕ
  | .setitem a _ _ => some a
  | .sort a => some a
  | .grow a _ => some a
  | _ => none

theorem alloc_cases (h : List (BoxObj K)) (r : Except PyErr (BoxObj K)) :
    (∃ b, r = .ok b ∧ alloc h r = (h ++ [b], .ok ())) ∨ ∃ e, r = .error e ∧ alloc h r = (h, .error e) := by
  cases r with
  | ok b => exact .inl ⟨b, rfl, rfl⟩
  | error e => exact .inr ⟨e, rfl, rfl⟩

theorem method_cases (h : List (BoxObj K)) (a : ℕ) (f : BoxObj K → Except PyErr (BoxObj K)) :
    (∃ b c, h[a]? = some b ∧ f b = .ok c ∧ method h a f = (h ++ [c], .ok ())) ∨ ∃ e, method h a f = (h, .error e) := by
  unfold method
  cases ha : h[a]? with
  | none => exact .inr ⟨_, rfl⟩
  | some b =>
    rcases alloc_cases h (f b) with ⟨c, h1, h2⟩ | ⟨e, h1, h2⟩
    · exact .inl ⟨b, c, rfl, h1, h2⟩
    · exact .inr ⟨e, h2⟩

theorem update_cases (h : List (BoxObj K)) (a : ℕ) (f : BoxObj K → BoxObj K × Except PyErr Unit) :
    (∃ b, h[a]? = some b ∧ update h a f = (h.set a (f b).1, (f b).2)) ∨ (h[a]? = none ∧ update h a f = (h, .error .attribute)) := by
  unfold update
  cases ha : h[a]? with
  | none => exact .inr ⟨rfl, rfl⟩
  | some b => exact .inl ⟨b, rfl, rfl⟩

/-- C94: no call changes a box other than the one it is called on, and only item assignment, `sort` and `grow` change that; every other
successful call adds one new box, which is no box that existed before; a failing call adds none. -/
theorem C94_frame (h : List (BoxObj K)) (c : Call K) :
    (∀ a < h.length, c.target ≠ some a → (step h c).1[a]? = h[a]?) ∧
    (c.target = none → (∃ b, (step h c) = (h ++ [b], .ok ())) ∨ ∃ e, step h c = (h, .error e)) ∧
    (c.target ≠ none → (step h c).1.length = h.length) := by
  have hm : ∀ a f, (∃ b, method h a f = (h ++ [b], .ok ())) ∨ ∃ e, method h a f = (h, .error e) := by
    intro a f
    rcases method_cases h a f with ⟨_, c, _, _, e⟩ | ⟨e, he⟩
    · exact .inl ⟨c, e⟩
    · exact .inr ⟨e, he⟩
  have ha : ∀ r, (∃ b, alloc h r = (h ++ [b], .ok ())) ∨ ∃ e, alloc h r = (h, .error e) := by
    intro r
    rcases alloc_cases h r with ⟨c, _, e⟩ | ⟨e, _, he⟩
    · exact .inl ⟨c, e⟩
    · exact .inr ⟨e, he⟩
  have h2 : c.target = none → (∃ b, (step h c) = (h ++ [b], .ok ())) ∨ ∃ e, step h c = (h, .error e) := by
    intro ht
    cases c <;> first | exact ha _ | exact hm _ _ | exact ha (.ok _) | (simp [Call.target] at ht; done)
  have hu : ∀ a f, (update h a f).1.length = h.length ∧ ∀ j, j ≠ a → (update h a f).1[j]? = h[j]? := by
    intro a f
    rcases update_cases h a f with ⟨b, _, e⟩ | ⟨_, e⟩
    · rw [e]
      refine ⟨List.length_set .., fun j hj => ?_⟩
      simp [List.getElem?_set, Ne.symm hj]
    · rw [e]
      exact ⟨rfl, fun _ _ => rfl⟩
  refine ⟨?_, h2, ?_⟩
  · intro a hl ht
    cases hc : c.target with
    | none =>
      rcases h2 hc with ⟨b, e⟩ | ⟨e, he⟩
      · rw [e]; simp [List.getElem?_append, hl]
      · rw [he]
    | some t =>
      rw [hc] at ht
      have hne : a ≠ t := fun e => ht (by rw [e])
      cases c <;> simp only [Call.target, Option.some.injEq, reduceCtorEq] at hc <;> subst hc <;> exact (hu _ _).2 _ hne
  · intro ht
    cases c <;> first | exact (hu _ _).1 | exact absurd rfl ht

theorem ofSlots_proper {x y z w : Option K} {b : BoxObj K} (h : ofSlots x y z w = .ok b) : b.Proper := by
  cases x with
  | none => cases h; exact .inl rfl
  | some x =>
    cases y with
    | none => cases h
    | some y =>
      cases z with
      | none => cases h
      | some z =>
        cases w with
        | none => cases h
        | some w => cases h; exact .inr ⟨_, _, _, _, rfl, min_le_max, min_le_max⟩

theorem ofTuple_proper {t : List (Option K)} {b : BoxObj K} (h : ofTuple t = .ok b) : b.Proper := by
  unfold ofTuple at h
  split at h
  · rename_i x y z w
    cases x <;> cases y <;> cases z <;> cases w <;> first | cases h; exact .inr ⟨_, _, _, _, rfl, min_le_max, min_le_max⟩ | cases h
  · cases h

theorem add_proper {a b c : BoxObj K} (h : a.add b = .ok c) : c.Proper := by
  unfold add at h
  split at h
  · exact ofSlots_proper h
  · split at h
    · exact ofSlots_proper h
    · revert h
      cases pmin a.xl b.xl <;> cases pmin a.yl b.yl <;> cases pmax a.xh b.xh <;> cases pmax a.yh b.yh <;> intro h <;>
        first | exact ofSlots_proper (x := some _) (y := some _) (z := some _) (w := some _) h | (cases h; done)

theorem inter_proper {a b c : BoxObj K} (h : a.inter b = .ok c) : c.Proper := by
  unfold inter at h
  split at h
  · split at h
    · cases h
    · cases h; exact .inl rfl
    · revert h
      cases pmax a.xl b.xl <;> cases pmax a.yl b.yl <;> cases pmin a.xh b.xh <;> cases pmin a.yh b.yh <;> intro h <;>
        first | exact ofSlots_proper (x := some _) (y := some _) (z := some _) (w := some _) h | (cases h; done)
  · cases h; exact .inl rfl

theorem round_proper {a c : BoxObj K} {f : K → K} (h : a.round f = .ok c) : c.Proper := by
  unfold round at h
  split at h
  · exact ofSlots_proper h
  · cases h

theorem transformed_proper {a c : BoxObj K} {f : Pt K → Pt K} (h : a.transformed f = .ok c) : c.Proper := by
  unfold transformed at h
  revert h
  cases a.corner a.xl a.yl <;> cases a.corner a.xl a.yh <;> cases a.corner a.xh a.yh <;> cases a.corner a.xh a.yl <;> intro h <;>
    first | exact add_proper (a := ofPts _ _) (b := ofPts _ _) h | (cases h; done)

theorem expand_proper {a c : BoxObj K} {x : K} {y : Option K} (h : a.expand x y = .ok c) : c.Proper := by
  unfold expand at h
  revert h
  cases a.width <;> cases a.height <;> intro h <;> first | cases h; done | skip
  simp only [bind, Except.bind] at h
  split at h
  · exact ofSlots_proper h
  · cases h

/-- C94: whatever boxes exist, every box that a call makes has no coordinates or sorted ones. -/
theorem C94_new_box (h : List (BoxObj K)) (c : Call K) (b : BoxObj K) (hs : (step h c).1 = h ++ [b]) : b.Proper := by
  have hm : ∀ a f, (∀ x y, f x = .ok y → y.Proper) → (method h a f).1 = h ++ [b] → b.Proper := by
    intro a f hf he
    rcases method_cases h a f with ⟨x, c, _, hc, e⟩ | ⟨e, he'⟩
    · rw [e] at he
      have : c = b := by simpa using he
      exact this ▸ hf _ _ hc
    · rw [he'] at he; simp at he
  have ha : ∀ r, (∀ y, r = .ok y → y.Proper) → (alloc h r).1 = h ++ [b] → b.Proper := by
    intro r hr he
    rcases alloc_cases h r with ⟨c, hc, e⟩ | ⟨e, _, he'⟩
    · rw [e] at he
      have : c = b := by simpa using he
      exact this ▸ hr _ hc
    · rw [he'] at he; simp at he
  have hu : ∀ t : Call K, t.target ≠ none → (step h t).1 ≠ h ++ [b] := by
    intro t ht he
    have := (C94_frame h t).2.2 ht
    rw [he] at this
    simp at this
  cases c with
  | new x y z w => exact ha _ (fun _ => ofSlots_proper) hs
  | newTuple t => exact ha _ (fun _ => ofTuple_proper) hs
  | newPts p q => exact ha _ (fun y hy => by cases hy; exact .inr ⟨_, _, _, _, rfl, min_le_max, min_le_max⟩) hs
  | setitem a i v => exact absurd hs (hu _ (by simp [Call.target]))
  | sort a => exact absurd hs (hu _ (by simp [Call.target]))
  | grow a p => exact absurd hs (hu _ (by simp [Call.target]))
  | copy a => exact hm _ _ (fun _ _ => ofSlots_proper) hs
  | round a f => exact hm _ _ (fun _ _ => round_proper) hs
  | expand a x y => exact hm _ _ (fun _ _ => expand_proper) hs
  | transformed a f => exact hm _ _ (fun _ _ => transformed_proper) hs
  | add a b' =>
    refine hm _ _ (fun x y hy => ?_) hs
    split at hy
    · exact add_proper hy
    · cases hy
  | inter a b' =>
    refine hm _ _ (fun x y hy => ?_) hs
    split at hy
    · exact inter_proper hy
    · cases hy

theorem sort_whole {b : BoxObj K} (hb : b.Whole) : b.sort.1.Proper ∧ (∀ e, b.sort.2 = .error e → b.sort.1 = b) := by
  rcases hb with rfl | ⟨xl, yl, xh, yh, rfl⟩
  · exact ⟨.inl rfl, fun _ _ => rfl⟩
  · exact ⟨.inr ⟨_, _, _, _, rfl, min_le_max, min_le_max⟩, fun e he => by cases he⟩

theorem grow_whole {b : BoxObj K} (hb : b.Whole) (p : Pt K) : (b.grow p).1.Whole ∧ (b.grow p).2 = .ok () ∧ (b.Proper → (b.grow p).1.Proper) := by
  rcases hb with rfl | ⟨xl, yl, xh, yh, rfl⟩
  · exact ⟨.inr ⟨_, _, _, _, rfl⟩, rfl, fun _ => .inr ⟨_, _, _, _, rfl, le_rfl, le_rfl⟩⟩
  · refine ⟨.inr ⟨_, _, _, _, rfl⟩, rfl, ?_⟩
    rintro (h | ⟨_, _, _, _, h, h1, h2⟩)
    · simp at h
    · simp only [BoxObj.mk.injEq, Option.some.injEq] at h
      obtain ⟨rfl, rfl, rfl, rfl⟩ := h
      exact .inr ⟨_, _, _, _, rfl, (min_le_left _ _).trans (h1.trans (le_max_left _ _)), (min_le_left _ _).trans (h2.trans (le_max_left _ _))⟩

/-- A property of boxes that new boxes have and updates keep is kept by every call. -/
theorem step_all (P : BoxObj K → Prop) (hp : ∀ b : BoxObj K, b.Proper → P b) (h : List (BoxObj K)) (c : Call K) (hh : ∀ b ∈ h, P b)
    (hu : ∀ a b, c.target = some a → h[a]? = some b → ∀ b', (step h c).1[a]? = some b' → P b') : ∀ b ∈ (step h c).1, P b := by
  intro b hb
  obtain ⟨i, hi, rfl⟩ := List.mem_iff_getElem.1 hb
  have hi' : (step h c).1[i]? = some (step h c).1[i] := List.getElem?_eq_getElem hi
  cases ht : c.target with
  | none =>
    rcases (C94_frame h c).2.1 ht with ⟨b, e⟩ | ⟨e, he⟩
    · have hpb := C94_new_box h c b (by rw [e])
      have : (step h c).1[i] ∈ h ++ [b] := by
        have hm : ∀ x ∈ (step h c).1, x ∈ h ++ [b] := by rw [e]; exact fun _ h => h
        exact hm _ (List.getElem_mem hi)
      rcases List.mem_append.1 this with h1 | h1
      · exact hh _ h1
      · rw [List.mem_singleton.1 h1]; exact hp _ hpb
    · have : (step h c).1[i] ∈ h := by
        have hm : ∀ x ∈ (step h c).1, x ∈ h := by rw [he]; exact fun _ h => h
        exact hm _ (List.getElem_mem hi)
      exact hh _ this
  | some a =>
    have hl := (C94_frame h c).2.2 (by simp [ht])
    by_cases hia : i = a
    · subst hia
      exact hu i h[i] ht (List.getElem?_eq_getElem (hl ▸ hi)) _ hi'
    · have := (C94_frame h c).1 i (hl ▸ hi) (by rw [ht]; simpa using fun e => hia e.symm)
      rw [this] at hi'
      exact hh _ (List.mem_of_getElem? hi')

theorem step_update (h : List (BoxObj K)) (a : ℕ) (f : BoxObj K → BoxObj K × Except PyErr Unit) (b b' : BoxObj K) (hb : h[a]? = some b)
    (hb' : (update h a f).1[a]? = some b') : b' = (f b).1 := by
  rcases update_cases h a f with ⟨c, hc, e⟩ | ⟨hc, e⟩
  · rw [hb] at hc
    cases hc
    rw [e] at hb'
    rw [List.getElem?_set] at hb'
    split_ifs at hb' <;> simp_all
  · rw [hb] at hc; cases hc

/-- Is the call an item assignment? -/
def Call.isSet : Call K → Bool
  | .setitem .. => true
  | _ => false

/-- C94: as long as no item is assigned, every box that exists has no coordinates or sorted ones, through every history of calls,
failing ones included. -/
theorem C94_history (cs : List (Call K)) (hc : ∀ c ∈ cs, c.isSet = false) (h : List (BoxObj K)) (hh : ∀ b ∈ h, b.Proper) : ∀ b ∈ run h cs, b.Proper := by
  induction cs generalizing h with
  | nil => exact hh
  | cons c cs ih =>
    refine ih (fun c' h' => hc c' (List.mem_cons_of_mem _ h')) _ (step_all Proper (fun _ h => h) h c hh ?_)
    intro a b ht hb b' hb'
    have hbp := hh b (List.mem_of_getElem? hb)
    cases c <;> simp only [Call.target, Option.some.injEq, reduceCtorEq] at ht
    · exact absurd (hc _ List.mem_cons_self) (by simp [Call.isSet])
    · subst ht; rw [step_update h _ sort b b' hb hb']; exact (sort_whole hbp.whole).1
    · subst ht; rename_i p; rw [step_update h _ (fun b => b.grow p) b b' hb hb']; exact (grow_whole hbp.whole p).2.2 hbp

/-- Item assignments put numbers into boxes that have coordinates. -/
def Filling (h : List (BoxObj K)) : List (Call K) → Prop
  | [] => True
  | c :: cs => (∀ a i v, c = .setitem a i v → v ≠ none ∧ ∀ b, h[a]? = some b → b.xl ≠ none) ∧ Filling (step h c).1 cs

theorem setitem_whole {b : BoxObj K} (hb : b.Whole) (hn : b.xl ≠ none) (i : ℤ) (v : Option K) (hv : v ≠ none) : (b.setitem i v).1.Whole := by
  rcases hb with rfl | ⟨xl, yl, xh, yh, rfl⟩
  · exact absurd rfl hn
  · cases v with
    | none => exact absurd rfl hv
    | some v =>
      unfold setitem
      cases slotIx i with
      | error e => exact .inr ⟨_, _, _, _, rfl⟩
      | ok j => fin_cases j <;> exact .inr ⟨_, _, _, _, rfl⟩

/-- C94: as long as item assignments put numbers into boxes that have coordinates, no box is ever half filled. -/
theorem C94_whole (cs : List (Call K)) (h : List (BoxObj K)) (hc : Filling h cs) (hh : ∀ b ∈ h, b.Whole) : ∀ b ∈ run h cs, b.Whole := by
  induction cs generalizing h with
  | nil => exact hh
  | cons c cs ih =>
    refine ih _ hc.2 (step_all Whole (fun _ h => h.whole) h c hh ?_)
    intro a b ht hb b' hb'
    have hbw := hh b (List.mem_of_getElem? hb)
    cases c <;> simp only [Call.target, Option.some.injEq, reduceCtorEq] at ht <;> subst ht
    · rename_i i v
      rw [step_update h _ (fun b => b.setitem i v) b b' hb hb']
      have := hc.1 _ _ _ rfl
      exact setitem_whole hbw (this.2 b hb) i v this.1
    · rw [step_update h _ sort b b' hb hb']; exact (sort_whole hbw).1.whole
    · rename_i p; rw [step_update h _ (fun b => b.grow p) b b' hb hb']; exact (grow_whole hbw p).1

/-- C94: while no box is half filled, a failing call changes nothing at all. -/
theorem C94_atomic (h : List (BoxObj K)) (hh : ∀ b ∈ h, b.Whole) (c : Call K) (e : PyErr) (hs : (step h c).2 = .error e) : (step h c).1 = h := by
  have hu : ∀ a f, (∀ b : BoxObj K, b.Whole → ∀ e, (f b).2 = .error e → (f b).1 = b) → (update h a f).2 = .error e → (update h a f).1 = h := by
    intro a f hf he
    rcases update_cases h a f with ⟨b, hb, e'⟩ | ⟨_, e'⟩
    · rw [e'] at he ⊢
      show h.set a (f b).1 = h
      rw [hf b (hh b (List.mem_of_getElem? hb)) e he]
      apply List.ext_getElem?
      intro i
      rw [List.getElem?_set]
      split_ifs with h1 h2
      · subst h1; exact hb.symm
      · subst h1
        rw [List.getElem?_eq_none (by omega)]
      · rfl
    · rw [e']
  cases ht : c.target with
  | none =>
    rcases (C94_frame h c).2.1 ht with ⟨b, e'⟩ | ⟨e', he'⟩
    · rw [e'] at hs; cases hs
    · rw [he']
  | some a =>
    cases c <;> simp only [Call.target, Option.some.injEq, reduceCtorEq] at ht
    · rename_i i v
      refine hu _ _ (fun b hb e he => ?_) hs
      unfold setitem at he ⊢
      cases hs : slotIx i with
      | ok j => rw [hs] at he; cases he
      | error e' => rfl
    · exact hu _ _ (fun b hb e he => (sort_whole hb).2 e he) hs
    · rename_i p
      exact hu _ _ (fun b hb e he => by rw [(grow_whole hb p).2.1] at he; cases he) hs

/-- C94: item assignment on the empty box leaves a box whose `sort` fails half way (the x coordinates are swapped, the y coordinates
not), and whose `width` fails although it is not empty. -/
theorem C94_half_filled_counterexample :
    let h : List (BoxObj ℚ) := run [] [.new none none none none, .setitem 0 0 (some 5), .setitem 0 2 (some 3)]
    h = [⟨some 5, none, some 3, none⟩] ∧ (step h (.sort 0)).2 = .error .type ∧ (step h (.sort 0)).1 = [⟨some 3, none, some 5, none⟩] ∧
    (h[0]?.map isNone) = some false ∧ (h[0]?.map height) = some (.error .type) := by
  refine ⟨rfl, rfl, ?_, rfl, rfl⟩
  have h1 : min (5 : ℚ) 3 = 3 := by norm_num
  have h2 : max (5 : ℚ) 3 = 5 := by norm_num
  show [({ xl := some (min 5 3), yl := none, xh := some (max 5 3), yh := none } : BoxObj ℚ)] = _
  rw [h1, h2]

/-- C94: a copy of a half filled box without `xl` is the empty box, not equal to the original. -/
theorem C94_copy_counterexample :
    ∃ b c : BoxObj ℚ, (run [] [.new none none none none, .setitem 0 1 (some 5)]) = [b] ∧ b.copy = .ok c ∧ c.eq b = false :=
  ⟨⟨none, some 5, none, none⟩, ⟨none, none, none, none⟩, rfl, rfl, rfl⟩

/-- A history without item assignment that makes, grows, sums and fails. -/
example : ∀ c ∈ ([.new none none none none, .grow 0 ⟨1, 2⟩, .new (some 3) (some 4) none none, .newPts ⟨5, 5⟩ ⟨4, 7⟩, .add 0 1] : List (Call ℚ)), c.isSet = false := by
  decide

/-- A history with an item assignment that unsorts a box. -/
example : Filling (K := ℚ) [] [.newPts ⟨0, 0⟩ ⟨1, 1⟩, .setitem 0 0 (some 7), .copy 0] := by
  refine ⟨fun _ _ _ h => (by cases h), ⟨?_, ⟨fun _ _ _ h => (by cases h), trivial⟩⟩⟩
  intro a i v h
  cases h
  refine ⟨by simp, fun b hb => ?_⟩
  cases hb
  simp [ofPts]

end Arith

end BoxObj
end X7
