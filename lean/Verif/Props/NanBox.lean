import Mathlib.Order.Bounds.Basic
import Mathlib.Tactic.Tauto
import Mathlib.Tactic.Order
import Verif.Spec.NanBox

/-!
C97: boxes with NaN coordinates.
-/

namespace X7.NB
variable {α : Type*} [LinearOrder α]

theorem pmin_num (a b : α) : pmin (.num a) (.num b) = .num (min a b) := by
  simp only [pmin, lt, decide_eq_true_eq]
  split
  · rw [min_eq_right (by order)]
  · rw [min_eq_left (by order)]

theorem pmax_num (a b : α) : pmax (.num a) (.num b) = .num (max a b) := by
  simp only [pmax, lt, decide_eq_true_eq]
  split
  · rw [max_eq_right (by order)]
  · rw [max_eq_left (by order)]

@[simp] theorem pmin_nan_left (a : Num α) : pmin .nan a = .nan := by cases a <;> simp [pmin, lt]
@[simp] theorem pmin_nan_right (a : Num α) : pmin a .nan = a := by cases a <;> simp [pmin, lt]
@[simp] theorem pmax_nan_left (a : Num α) : pmax .nan a = .nan := by cases a <;> simp [pmax, lt]
@[simp] theorem pmax_nan_right (a : Num α) : pmax a .nan = a := by cases a <;> simp [pmax, lt]

theorem ends_new (a b : Num α) : Ends (pmin a b) (pmax a b) := by
  cases a <;> cases b <;> simp [Ends, pmin_num, pmax_num]

theorem paired_mk' (a b c d : Num α) : Paired (mk' a b c d) := ⟨ends_new a c, ends_new b d⟩

theorem ends_grow {l h : Num α} (e : Ends l h) (v : Num α) : Ends (pmin l v) (pmax h v) := by
  obtain ⟨rfl, rfl⟩ | ⟨a, b, rfl, rfl, hab⟩ := e
  · left; simp
  · cases v with
    | nan => right; exact ⟨a, b, by simp, by simp, hab⟩
    | num v => right; exact ⟨min a v, max b v, pmin_num _ _, pmax_num _ _, (min_le_left _ _).trans (hab.trans (le_max_left _ _))⟩

theorem paired_copy (b : BBox (Num α)) : Paired (copy b) := by
  cases b with
  | none => trivial
  | box => exact paired_mk' _ _ _ _

theorem paired_add (a b : BBox (Num α)) : Paired (add a b) := by
  cases b with
  | none => exact paired_copy a
  | box => cases a with
    | none => exact paired_mk' _ _ _ _
    | box => exact paired_mk' _ _ _ _

/-- C97: whatever coordinates it was made of, NaN among them, and whatever calls came after, along each axis a box has two numbers in
order or NaN twice. -/
theorem C97_paired {b : BBox (Num α)} (hb : Made b) : Paired b := by
  induction hb with
  | empty => trivial
  | new a b c d => exact paired_mk' a b c d
  | copied _ _ => rename_i b _ _; exact paired_copy b
  | sorted _ h ih =>
    rename_i b b' _
    cases b with
    | none => cases h
    | box => cases h; exact ⟨ends_new _ _, ends_new _ _⟩
  | sum _ _ _ _ => rename_i a b _ _ _ _; exact paired_add a b
  | grown p _ ih =>
    rename_i b _
    cases b with
    | none => cases hx : p.x <;> cases hy : p.y <;> simp [grow, Paired, Ends, hx, hy]
    | box => exact ⟨ends_grow ih.1 _, ends_grow ih.2 _⟩
  | common _ _ _ _ =>
    rename_i a b _ _ _ _
    cases a <;> cases b <;> simp only [inter]
    case box.box =>
      split
      · trivial
      · exact paired_mk' _ _ _ _
    all_goals trivial
  | image f _ h _ =>
    rename_i b b' _ _
    cases b with
    | none => cases h
    | box => cases h; exact paired_add _ _

/-- The hypothesis of `C97_paired` is met by a box of a NaN and three numbers that has been grown by a point with a NaN. -/
example : Made (grow (mk' (.num 1) .nan (.num 3) (.num (4 : ℤ))) ⟨.nan, .num 7⟩) := .grown _ (.new _ _ _ _)

/-- C97: with numbers other than NaN (infinities are allowed) every method is that of Model/BBox.lean, which C08 to C14 are about. -/
theorem C97_no_nan :
    (∀ a b c d : α, mk' (.num a) (.num b) (.num c) (.num d) = lift (BBox.mk' a b c d)) ∧
    (∀ p q : Pt α, ofPts (liftPt p) (liftPt q) = lift (BBox.ofPts p q)) ∧
    (∀ a b : BBox α, beq (lift a) (lift b) = decide (a = b)) ∧
    (∀ a : BBox α, sort (lift a) = (BBox.sort a).map lift) ∧
    (∀ a : BBox α, copy (lift a) = lift a.copy) ∧
    (∀ a : BBox α, isEmpty (lift a) = a.isEmpty) ∧
    (∀ a b : BBox α, add (lift a) (lift b) = lift (a.add b)) ∧
    (∀ (a : BBox α) (p : Pt α), grow (lift a) (liftPt p) = lift (a.grow p)) ∧
    (∀ (a : BBox α) (p : Pt α), containsPt (lift a) (liftPt p) = a.containsPt p) ∧
    (∀ a b : BBox α, contains (lift a) (lift b) = a.contains b) ∧
    (∀ (a : BBox α) (p : Pt α), touchesPt (lift a) (liftPt p) = a.touchesPt p) ∧
    (∀ a b : BBox α, touchesSide (lift a) (lift b) = a.touchesSide b) ∧
    (∀ a b : BBox α, touches (lift a) (lift b) = a.touches b) ∧
    (∀ a b : BBox α, overlaps (lift a) (lift b) = a.overlaps b) ∧
    (∀ a b : BBox α, inter (lift a) (lift b) = lift (a.inter b)) ∧
    (∀ (a : BBox α) (f : Pt α → Pt α) (g : Pt (Num α) → Pt (Num α)), (∀ p, g (liftPt p) = liftPt (f p)) →
      transformed (lift a) g = (a.transformed f).map lift) := by
  have hmk : ∀ a b c d : α, mk' (.num a) (.num b) (.num c) (.num d) = lift (BBox.mk' a b c d) := by
    intro a b c d; simp [mk', BBox.mk', lift, pmin_num, pmax_num]
  have hadd : ∀ a b : BBox α, add (lift a) (lift b) = lift (a.add b) := by
    intro a b
    cases a <;> cases b <;> simp [add, lift, BBox.add, BBox.copy, copy, hmk, pmin_num, pmax_num] <;> rfl
  refine ⟨hmk, fun p q => hmk _ _ _ _, ?_, ?_, ?_, ?_, hadd, ?_, ?_, ?_, ?_, ?_, ?_, ?_, ?_, ?_⟩
  · intro a b
    cases a <;> cases b <;> simp [beq, lift, eq, Bool.decide_and, Bool.and_assoc]
  · intro a
    cases a <;> simp [sort, lift, BBox.sort, Except.map, pmin_num, pmax_num]
  · intro a
    cases a <;> simp [copy, lift, BBox.copy, hmk] <;> rfl
  · intro a
    cases a <;> simp [isEmpty, lift, BBox.isEmpty, eq]
  · intro a p
    cases a <;> simp [grow, lift, BBox.grow, liftPt, pmin_num, pmax_num]
  · intro a p
    cases a <;> simp [containsPt, lift, BBox.containsPt, liftPt, lt, Bool.decide_and, Bool.and_assoc]
  · intro a b
    cases a <;> cases b <;> simp [contains, lift, BBox.contains, le, Bool.decide_and, Bool.and_assoc]
  · intro a p
    cases a <;> simp [touchesPt, lift, BBox.touchesPt, liftPt, lt, eq, Bool.decide_and, Bool.decide_or, Bool.and_assoc]
  · intro a b
    cases a <;> cases b <;> simp [touchesSide, lift, BBox.touchesSide, lt, eq, Bool.decide_and, Bool.decide_or, Bool.and_assoc]
  · intro a b
    cases a <;> cases b <;> simp [touches, lift, BBox.touches, le, eq, Bool.decide_and, Bool.decide_or, Bool.and_assoc]
  · intro a b
    cases a <;> cases b <;> simp [overlaps, lift, BBox.overlaps, le, or_assoc]
  · intro a b
    cases a <;> cases b <;> simp [inter, lift, BBox.inter, lt, or_assoc]
    split
    · rfl
    · rw [pmax_num, pmax_num, pmin_num, pmin_num, hmk]; rfl
  · intro a f g hg
    cases a with
    | none => rfl
    | box xl yl xh yh =>
      have h1 : ∀ x y, g ⟨.num x, .num y⟩ = liftPt (f ⟨x, y⟩) := fun x y => hg ⟨x, y⟩
      have h2 : ∀ p q : Pt α, ofPts (liftPt p) (liftPt q) = lift (BBox.ofPts p q) := fun p q => hmk _ _ _ _
      have h3 : transformed (lift (.box xl yl xh yh)) g = .ok (add (ofPts (g ⟨.num xl, .num yl⟩) (g ⟨.num xl, .num yh⟩))
        (ofPts (g ⟨.num xh, .num yh⟩) (g ⟨.num xh, .num yl⟩))) := rfl
      rw [h3, h1, h1, h1, h1, h2, h2, hadd]
      rfl

theorem ends_self {l h : Num α} (e : Ends l h) : pmin l h = l ∧ pmax l h = h := by
  obtain ⟨rfl, rfl⟩ | ⟨a, b, rfl, rfl, hab⟩ := e
  · simp
  · simp [pmin_num, pmax_num, hab]

theorem joined {l h l' h' : Num α} (e : Ends l h) (e' : Ends l' h') :
    Joined l h l' h' (pmin (pmin l l') (pmax h h')) (pmax (pmin l l') (pmax h h')) := by
  obtain ⟨rfl, rfl⟩ | ⟨a, b, rfl, rfl, hab⟩ := e
  · left; simp
  · right
    obtain ⟨rfl, rfl⟩ | ⟨a', b', rfl, rfl, hab'⟩ := e'
    · left; simp [pmin_num, pmax_num, hab]
    · right
      refine ⟨a, b, a', b', rfl, rfl, rfl, rfl, ?_, ?_⟩
      · simp only [pmin_num, pmax_num]; congr 1
        exact min_eq_left (by order [min_le_left a a', le_max_left b b'])
      · simp only [pmin_num, pmax_num]; congr 1
        exact max_eq_right (by order [min_le_left a a', le_max_left b b'])

theorem met {l h l' h' : Num α} (e : Ends l h) (e' : Ends l' h') (hn : ¬ Apart l h l' h') :
    Met l h l' h' (pmin (pmax l l') (pmin h h')) (pmax (pmax l l') (pmin h h')) := by
  obtain ⟨rfl, rfl⟩ | ⟨a, b, rfl, rfl, hab⟩ := e
  · left; simp
  · right
    obtain ⟨rfl, rfl⟩ | ⟨a', b', rfl, rfl, hab'⟩ := e'
    · left; simp [pmin_num, pmax_num, hab]
    · right
      have h2 : ¬ (b' < a ∨ b < a') := fun h => hn ⟨a, b, a', b', rfl, rfl, rfl, rfl, h⟩
      push Not at h2
      have h3 : max a a' ≤ min b b' := max_le (le_min hab h2.1) (le_min h2.2 hab')
      refine ⟨a, b, a', b', rfl, rfl, rfl, rfl, ?_, ?_⟩
      · simp only [pmin_num, pmax_num]; congr 1; exact min_eq_left h3
      · simp only [pmin_num, pmax_num]; congr 1; exact max_eq_right h3

/-- C97: the sum of two boxes along each axis: a NaN extent of the first box stays, one of the second is ignored. -/
theorem C97_add (xl yl xh yh xl' yl' xh' yh' : Num α) (ha : Paired (.box xl yl xh yh)) (hb : Paired (.box xl' yl' xh' yh')) :
    ∃ XL YL XH YH, add (.box xl yl xh yh) (.box xl' yl' xh' yh') = .box XL YL XH YH ∧
      Joined xl xh xl' xh' XL XH ∧ Joined yl yh yl' yh' YL YH :=
  ⟨_, _, _, _, rfl, joined ha.1 hb.1, joined ha.2 hb.2⟩

/-- C97: a box without coordinates adds nothing, on either side. -/
theorem C97_add_none (b : BBox (Num α)) (hb : Paired b) : add b .none = b ∧ add .none b = b ∧ copy b = b := by
  cases b with
  | none => exact ⟨rfl, rfl, rfl⟩
  | box xl yl xh yh =>
    obtain ⟨h1, h2⟩ := ends_self hb.1
    obtain ⟨h3, h4⟩ := ends_self hb.2
    have : mk' xl yl xh yh = .box xl yl xh yh := by simp [mk', h1, h2, h3, h4]
    exact ⟨this, this, this⟩

theorem apart_iff {l h l' h' : Num α} (e : Ends l h) (e' : Ends l' h') :
    Apart l h l' h' ↔ (lt h' l || lt h l') = true := by
  obtain ⟨rfl, rfl⟩ | ⟨a, b, rfl, rfl, hab⟩ := e <;> obtain ⟨rfl, rfl⟩ | ⟨a', b', rfl, rfl, hab'⟩ := e' <;>
    simp [Apart, lt]

theorem beside_iff {l h l' h' : Num α} (e : Ends l h) (e' : Ends l' h') :
    Beside l h l' h' ↔ (le h' l || le h l') = true := by
  obtain ⟨rfl, rfl⟩ | ⟨a, b, rfl, rfl, hab⟩ := e <;> obtain ⟨rfl, rfl⟩ | ⟨a', b', rfl, rfl, hab'⟩ := e' <;>
    simp [Beside, le]

/-- C97: the intersection is `BBox(None)` exactly if two extents without NaN are apart; else along each axis a NaN extent of the first
box stays, one of the second is ignored. -/
theorem C97_inter (xl yl xh yh xl' yl' xh' yh' : Num α) (ha : Paired (.box xl yl xh yh)) (hb : Paired (.box xl' yl' xh' yh')) :
    (Apart xl xh xl' xh' ∨ Apart yl yh yl' yh' → inter (.box xl yl xh yh) (.box xl' yl' xh' yh') = .none) ∧
    (¬ Apart xl xh xl' xh' → ¬ Apart yl yh yl' yh' →
      ∃ XL YL XH YH, inter (.box xl yl xh yh) (.box xl' yl' xh' yh') = .box XL YL XH YH ∧
        Met xl xh xl' xh' XL XH ∧ Met yl yh yl' yh' YL YH) := by
  have hx := apart_iff ha.1 hb.1
  have hy := apart_iff ha.2 hb.2
  constructor
  · intro h
    rw [hx, hy] at h
    simp only [inter, Bool.or_assoc]
    rw [if_pos (by simp only [Bool.or_eq_true] at h ⊢; tauto)]
  · intro h1 h2
    refine ⟨_, _, _, _, ?_, met ha.1 hb.1 h1, met ha.2 hb.2 h2⟩
    rw [hx] at h1; rw [hy] at h2
    simp only [inter, Bool.or_assoc]
    rw [if_neg (by simp only [Bool.or_eq_true] at h1 h2 ⊢; tauto)]
    rfl

/-- C97: `overlaps` looks at extents without NaN only: two boxes overlap unless along some axis without NaN one ends where the other
begins, or before. -/
theorem C97_overlaps (xl yl xh yh xl' yl' xh' yh' : Num α) (ha : Paired (.box xl yl xh yh)) (hb : Paired (.box xl' yl' xh' yh')) :
    (overlaps (.box xl yl xh yh) (.box xl' yl' xh' yh') = .ok false ↔ Beside xl xh xl' xh' ∨ Beside yl yh yl' yh') ∧
    (overlaps (.box xl yl xh yh) (.box xl' yl' xh' yh') = .ok true ↔ ¬ (Beside xl xh xl' xh' ∨ Beside yl yh yl' yh')) := by
  rw [beside_iff ha.1 hb.1, beside_iff ha.2 hb.2]
  simp only [overlaps, Bool.or_assoc]
  generalize le xh' xl = A, le xh xl' = B, le yh' yl = C, le yh yl' = D
  revert A B C D
  decide

/-- C97: a box with a NaN contains no box and no point, is in no box, touches none and no point, is not equal to any box, not even to
itself or its copy. -/
theorem C97_nan_box (b : BBox (Num α)) (hb : Paired b) (hn : HasNan b) :
    (∀ p, containsPt b p = false) ∧ (∀ p, touchesPt b p = false) ∧ (∀ c, contains b c ≠ .ok true) ∧ (∀ c, contains c b ≠ .ok true) ∧
    (∀ c, touches b c = false ∧ touches c b = false) ∧ (∀ c, touchesSide b c = false ∧ touchesSide c b = false) ∧
    (∀ c, beq b c = false ∧ beq c b = false) := by
  cases b with
  | none => exact hn.elim
  | box xl yl xh yh =>
    have h : xl = .nan ∧ xh = .nan ∨ yl = .nan ∧ yh = .nan := by
      obtain ⟨h1, h2⟩ := hb
      obtain ⟨rfl, rfl⟩ | ⟨a, b, rfl, rfl, hab⟩ := h1
      · left; exact ⟨rfl, rfl⟩
      · obtain ⟨rfl, rfl⟩ | ⟨a', b', rfl, rfl, hab'⟩ := h2
        · right; exact ⟨rfl, rfl⟩
        · simp [HasNan] at hn
    have l1 : ∀ a : Num α, lt .nan a = false := fun a => by cases a <;> rfl
    have l2 : ∀ a : Num α, lt a .nan = false := fun a => by cases a <;> rfl
    have l3 : ∀ a : Num α, le .nan a = false := fun a => by cases a <;> rfl
    have l4 : ∀ a : Num α, le a .nan = false := fun a => by cases a <;> rfl
    have l5 : ∀ a : Num α, eq .nan a = false := fun a => by cases a <;> rfl
    have l6 : ∀ a : Num α, eq a .nan = false := fun a => by cases a <;> rfl
    refine ⟨fun p => ?_, fun p => ?_, fun c => ?_, fun c => ?_, fun c => ?_, fun c => ?_, fun c => ?_⟩
    · obtain ⟨rfl, rfl⟩ | ⟨rfl, rfl⟩ := h <;> simp [containsPt, l1, l2]
    · obtain ⟨rfl, rfl⟩ | ⟨rfl, rfl⟩ := h <;> simp [touchesPt, l1, l2, l5, l6]
    · obtain ⟨rfl, rfl⟩ | ⟨rfl, rfl⟩ := h <;> cases c <;> simp [contains, l3, l4]
    · obtain ⟨rfl, rfl⟩ | ⟨rfl, rfl⟩ := h <;> cases c <;> simp [contains, l3, l4]
    · obtain ⟨rfl, rfl⟩ | ⟨rfl, rfl⟩ := h <;> cases c <;> simp [touches, l3, l4, l5, l6]
    · obtain ⟨rfl, rfl⟩ | ⟨rfl, rfl⟩ := h <;> cases c <;> simp [touchesSide, l1, l2, l5, l6]
    · obtain ⟨rfl, rfl⟩ | ⟨rfl, rfl⟩ := h <;> cases c <;> simp [beq, l5, l6]

/-- C97: a point with a NaN is inside of no box and on the border of none. -/
theorem C97_nan_point (b : BBox (Num α)) (p : Pt (Num α)) (hp : p.x = .nan ∨ p.y = .nan) :
    containsPt b p = false ∧ touchesPt b p = false := by
  have l1 : ∀ a : Num α, lt .nan a = false := fun a => by cases a <;> rfl
  have l2 : ∀ a : Num α, lt a .nan = false := fun a => by cases a <;> rfl
  have l5 : ∀ a : Num α, eq .nan a = false := fun a => by cases a <;> rfl
  cases b with
  | none => exact ⟨rfl, rfl⟩
  | box => obtain h | h := hp <;> simp [containsPt, touchesPt, h, l1, l2, l5]

/-- C97: a box is equal to itself exactly if it has no NaN. -/
theorem C97_eq_self (b : BBox (Num α)) : beq b b = true ↔ ¬ HasNan b := by
  cases b with
  | none => simp [beq, HasNan]
  | box xl yl xh yh => cases xl <;> cases yl <;> cases xh <;> cases yh <;> simp [beq, HasNan, eq]

theorem spans_step {vs : List (Num α)} {l h : Num α} (hs : Spans vs l h) (hne : vs ≠ []) (v : Num α) :
    Spans (vs ++ [v]) (pmin l v) (pmax h v) := by
  have hh : (vs ++ [v]).head? = vs.head? := by cases vs <;> simp at hne ⊢
  obtain ⟨h1, rfl, rfl⟩ | ⟨h1, a, b, rfl, rfl, ha, hb⟩ := hs
  · left; exact ⟨hh.trans h1, by simp, by simp⟩
  · right
    refine ⟨by rwa [hh], ?_⟩
    cases v with
    | nan => exact ⟨a, b, by simp, by simp, by simpa using ha, by simpa using hb⟩
    | num v =>
      refine ⟨min a v, max b v, pmin_num _ _, pmax_num _ _, ?_, ?_⟩
      · have : {w | Num.num w ∈ vs ++ [Num.num v]} = insert v {w | .num w ∈ vs} := by ext w; simp [or_comm]
        rw [this, min_comm]; exact ha.insert v
      · have : {w | Num.num w ∈ vs ++ [Num.num v]} = insert v {w | .num w ∈ vs} := by ext w; simp [or_comm]
        rw [this, max_comm]; exact hb.insert v

/-- C97: the box grown by points, starting from `BBox(None)`: along each axis, if the first point has a number there, it goes from the
least to the greatest number among the coordinates of the points, NaNs left out; if the first point has a NaN there, it stays NaN
whatever points follow. -/
theorem C97_grow (p : Pt (Num α)) (ps : List (Pt (Num α))) :
    ∃ xl yl xh yh, growAll .none (p :: ps) = .box xl yl xh yh ∧
      Spans ((p :: ps).map Pt.x) xl xh ∧ Spans ((p :: ps).map Pt.y) yl yh := by
  have hone : ∀ v : Num α, Spans [v] v v := by
    intro v
    cases v with
    | nan => left; simp
    | num v => right; exact ⟨by simp, v, v, rfl, rfl, by simp [IsLeast, lowerBounds], by simp [IsGreatest, upperBounds]⟩
  induction ps using List.reverseRecOn with
  | nil => exact ⟨_, _, _, _, rfl, hone _, hone _⟩
  | append_singleton ps q ih =>
    obtain ⟨xl, yl, xh, yh, e, hx, hy⟩ := ih
    refine ⟨pmin xl q.x, pmin yl q.y, pmax xh q.x, pmax yh q.y, ?_, ?_, ?_⟩
    · rw [show p :: (ps ++ [q]) = (p :: ps) ++ [q] from rfl]
      unfold growAll at e ⊢
      rw [List.foldl_append, e]; rfl
    · simpa using spans_step hx (by simp) q.x
    · simpa using spans_step hy (by simp) q.y

/-- C97: hence the order of the points matters (C10 is about numbers): grown by `(NaN, 0)` and `(5, 0)` the box has no extent in x,
grown by `(5, 0)` and `(NaN, 0)` it has, and this one is a good box. -/
theorem C97_order_counterexample : ∃ (p q : Pt (Num ℤ)), HasNan (growAll .none [p, q]) ∧ ¬ HasNan (growAll .none [q, p]) :=
  ⟨⟨.nan, .num 0⟩, ⟨.num 5, .num 0⟩, by decide, by decide⟩

/-- C97: for the same reason `+` is not commutative (C09 is about numbers), and `a + b` need not contain `b`. -/
theorem C97_add_counterexample : ∃ (a b : BBox (Num ℤ)), Made a ∧ Made b ∧ HasNan (add a b) ∧ ¬ HasNan (add b a) ∧
    contains (add b a) a = .ok false ∧ contains (add a b) b = .ok false :=
  ⟨mk' .nan (.num 0) (.num 1) (.num 1), mk' (.num 0) (.num 0) (.num 1) (.num 1), .new _ _ _ _, .new _ _ _ _, by decide, by decide,
    by decide, by decide⟩

/-- C97: `overlaps` and `intersection` take a NaN extent as overlapping everything: a box without any point in it "overlaps" another one,
and the intersection with it is the other box, whole. -/
theorem C97_overlaps_counterexample : ∃ (a b : BBox (Num ℤ)), Made a ∧ Made b ∧ overlaps a b = .ok true ∧ inter b a = b ∧
    touches a b = false ∧ (∀ p, containsPt a p = false) ∧ contains b a = .ok false :=
  ⟨mk' .nan (.num 0) (.num 7) (.num 1), mk' (.num 100) (.num 0) (.num 200) (.num 1), .new _ _ _ _, .new _ _ _ _, by decide, by decide,
    by decide, (C97_nan_box _ (paired_mk' _ _ _ _) (by decide)).1, by decide⟩

/-- C97: the constructor drops a NaN in its second corner and lets one in its first corner win: the box depends on the order of the
corners. -/
theorem C97_corner_counterexample : ∃ (p q : Pt (Num ℤ)), HasNan (ofPts p q) ∧ ¬ HasNan (ofPts q p) :=
  ⟨⟨.nan, .num 0⟩, ⟨.num 5, .num 0⟩, by decide, by decide⟩

end X7.NB
