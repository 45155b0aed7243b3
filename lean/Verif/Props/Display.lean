import Verif.Spec.Display

/-!
C100: what `display` prints.
-/

noncomputable section

namespace X7.Disp

open Dump
variable (T : Texts)

/-! Sorting by key -/

theorem byKey_perm {α : Type} (d : List (Str × α)) : (byKey d).Perm d := List.mergeSort_perm ..

theorem byKey_sorted {α : Type} (d : List (Str × α)) : (byKey d).Pairwise (fun x y => x.1 ≤ y.1) := by
  have h := List.pairwise_mergeSort (le := fun x y : Str × α => decide (x.1 ≤ y.1))
    (fun a b c h1 h2 => by simp only [decide_eq_true_eq] at *; exact le_trans h1 h2)
    (fun a b => by simp only [Bool.or_eq_true, decide_eq_true_eq]; exact le_total _ _) d
  exact h.imp fun h => by simpa using h

theorem sorted_unique {α : Type} : ∀ {l l' : List (Str × α)}, l.Perm l' → (l.map Prod.fst).Nodup → l.Pairwise (fun x y => x.1 ≤ y.1) →
    l'.Pairwise (fun x y => x.1 ≤ y.1) → l = l' := by
  intro l l' hp hn h1 h2
  refine hp.eq_of_pairwise (le := fun x y => x.1 ≤ y.1) ?_ h1 h2
  intro a b ha hb hab hba
  exact List.inj_on_of_nodup_map hn ha (hp.mem_iff.2 hb) (le_antisymm hab hba)

theorem byKey_congr {α : Type} {d d' : List (Str × α)} (hp : d.Perm d') (hn : (d.map Prod.fst).Nodup) : byKey d = byKey d' :=
  sorted_unique ((byKey_perm d).trans (hp.trans (byKey_perm d').symm))
    (((byKey_perm d).map Prod.fst).nodup_iff.2 hn) (byKey_sorted d) (byKey_sorted d')

theorem byKey_map {α β : Type} (g : α → β) (d : List (Str × α)) :
    byKey (d.map fun x => (x.1, g x.2)) = (byKey d).map fun x => (x.1, g x.2) := by
  unfold byKey
  rw [List.map_mergeSort]
  intro a _ b _; rfl

theorem displayAll_eq (detail : Bool) (pre : Str) : ∀ l : List (Str × DElem),
    displayAll T detail pre l = l.map fun x => (x.1, display T detail pre x.2)
  | [] => rfl
  | (k, e) :: rest => by rw [displayAll, displayAll_eq detail pre rest]; rfl

theorem displayIn_eq (detail : Bool) (pre : Str) : ∀ l : List DElem, displayIn T detail pre l = l.flatMap (display T detail pre)
  | [] => rfl
  | e :: rest => by rw [displayIn, displayIn_eq detail pre rest]; rfl

theorem group_lines (detail : Bool) (pre : Str) (l : List (Str × DElem)) :
    (byKey (displayAll T detail pre l)).flatMap Prod.snd = (byKey l).flatMap fun x => display T detail pre x.2 := by
  rw [displayAll_eq, byKey_map, List.flatMap_map]

theorem flatMap_sublist {α β : Type} {f g : α → List β} : ∀ {l : List α}, (∀ x ∈ l, (f x).Sublist (g x)) →
    (l.flatMap f).Sublist (l.flatMap g)
  | [], _ => by simp
  | x :: l, h => by
    simp only [List.flatMap_cons]
    exact (h x (by simp)).append (flatMap_sublist fun y hy => h y (by simp [hy]))

/-! Prefixes -/

theorem penLine_append (p q : Str) (h : DHdr) : penLine T (p ++ q) h = p ++ penLine T q h := by simp [penLine]

theorem xfLines_append (p q : Str) (h : DHdr) : xfLines T (p ++ q) h = (xfLines T q h).map (p ++ ·) := by
  unfold xfLines; split <;> simp

theorem pointLines_append (p q : Str) (l : List (Str × DPt)) : pointLines T (p ++ q) l = (pointLines T q l).map (p ++ ·) := by
  simp [pointLines]

mutual
theorem display_append (d : Bool) (p : Str) : ∀ (e : DElem) (q : Str), display T d (p ++ q) e = (display T d q e).map (p ++ ·)
  | .curve h cps, q => by cases d <;> simp [display, penLine_append]
  | .rect h _ _, q => by cases d <;> simp [display, penLine_append]
  | .rrect h _ _ _, q => by cases d <;> simp [display, penLine_append]
  | .ellipse h _ _, q => by cases d <;> simp [display, penLine_append]
  | .group h hid elems points, q => by
    rw [display, display, group_lines, group_lines]
    have e1 : p ++ q ++ "  ".toList = p ++ (q ++ "  ".toList) := List.append_assoc ..
    rw [e1, xfLines_append, pointLines_append]
    have e2 : ((byKey elems).flatMap fun x => display T d (p ++ (q ++ "  ".toList)) x.2) =
        ((byKey elems).flatMap fun x => display T d (q ++ "  ".toList) x.2).map (p ++ ·) := by
      rw [List.map_flatMap]
      refine List.flatMap_congr fun x hx => ?_
      exact displayAll_append d p elems _ x ((byKey_perm elems).mem_iff.1 hx)
    rw [e2]
    simp
  | .holes h o is, q => by
    rw [display, display]
    have e1 : p ++ q ++ "  ".toList = p ++ (q ++ "  ".toList) := List.append_assoc ..
    have e3 : p ++ (q ++ "  ".toList) ++ "  ".toList = p ++ (q ++ "  ".toList ++ "  ".toList) := List.append_assoc ..
    rw [e1, xfLines_append, e3, display_append d p o _, displayIn_append d p is _]
    simp
theorem displayAll_append (d : Bool) (p : Str) : ∀ (l : List (Str × DElem)) (q : Str), ∀ x ∈ l,
    display T d (p ++ q) x.2 = (display T d q x.2).map (p ++ ·)
  | [], _, _, hx => by simp at hx
  | (k, e) :: rest, q, x, hx => by
    rcases List.mem_cons.1 hx with rfl | hx
    · exact display_append d p e q
    · exact displayAll_append d p rest q x hx
theorem displayIn_append (d : Bool) (p : Str) : ∀ (l : List DElem) (q : Str),
    displayIn T d (p ++ q) l = (displayIn T d q l).map (p ++ ·)
  | [], _ => by simp [displayIn]
  | e :: rest, q => by rw [displayIn, displayIn, display_append d p e q, displayIn_append d p rest q, List.map_append]
end

/-- C100: the prefix is put in front of every line and changes nothing else. -/
theorem C100_prefix (detail : Bool) (pre : Str) (e : DElem) : display T detail pre e = (display T detail [] e).map (pre ++ ·) := by
  have h := display_append T detail pre e []
  rwa [List.append_nil] at h

/-- C100: a builder prints its own line and, two spaces further in, its group. -/
theorem C100_builder (detail : Bool) (pre name : Str) (g : DElem) :
    displayBuilder T detail pre name g =
      (pre ++ "GroupBuilder: ".toList ++ name) :: (display T detail [] g).map fun l => pre ++ (spaces 2 ++ l) := by
  rw [displayBuilder, C100_prefix]
  have : "  ".toList = spaces 2 := by simp [spaces, List.replicate]
  rw [this]
  simp

/-! Order -/

/-- C100: the text does not depend on the order in which elements and points were added, at any depth. -/
theorem C100_order (detail : Bool) {e e' : DElem} (h : Reordered e e') : ∀ pre, display T detail pre e = display T detail pre e' := by
  induction h with
  | refl => intro _; rfl
  | trans a b c _ _ h1 h2 => intro pre; rw [h1, h2]
  | dicts h hidden elems elems' points points' hp hn hq hm =>
    intro pre
    rw [display, display, group_lines, group_lines, byKey_congr hp hn, pointLines, pointLines, byKey_congr hq hm]
    rfl
  | entry h hidden l k e e' r points _ ih =>
    intro pre
    have : displayAll T detail (pre ++ "  ".toList) (l ++ (k, e) :: r) = displayAll T detail (pre ++ "  ".toList) (l ++ (k, e') :: r) := by
      rw [displayAll_eq, displayAll_eq]; simp [ih]
    rw [display, display, this]
    rfl
  | outside h e e' inside _ ih => intro pre; rw [display, display, ih]; rfl
  | inside h outside l e e' r _ ih =>
    intro pre
    have : displayIn T detail (pre ++ "  ".toList ++ "  ".toList) (l ++ e :: r) =
        displayIn T detail (pre ++ "  ".toList ++ "  ".toList) (l ++ e' :: r) := by
      rw [displayIn_eq, displayIn_eq]; simp [ih]
    rw [display, display, this]
    rfl

/-! Detail -/

mutual
theorem detail_sublist : ∀ (e : DElem) (p : Str), (display T false p e).Sublist (display T true p e)
  | .curve h cps, p => by simp [display]
  | .rect h _ _, p => by simp [display]
  | .rrect h _ _ _, p => by simp [display]
  | .ellipse h _ _, p => by simp [display]
  | .group h hid elems points, p => by
    rw [display, display, group_lines, group_lines]
    refine List.Sublist.cons_cons _ (List.Sublist.append (List.Sublist.refl _) (List.Sublist.append (List.Sublist.refl _) ?_))
    exact flatMap_sublist fun x hx => detail_all elems _ x ((byKey_perm elems).mem_iff.1 hx)
  | .holes h o is, p => by
    rw [display, display]
    refine List.Sublist.cons_cons _ (List.Sublist.append (List.Sublist.refl _) (List.Sublist.cons_cons _
      (List.Sublist.append (detail_sublist o _) (List.Sublist.cons_cons _ (detail_in is _)))))
theorem detail_all : ∀ (l : List (Str × DElem)) (p : Str), ∀ x ∈ l, (display T false p x.2).Sublist (display T true p x.2)
  | [], _, _, hx => by simp at hx
  | (k, e) :: rest, p, x, hx => by
    rcases List.mem_cons.1 hx with rfl | hx
    · exact detail_sublist e p
    · exact detail_all rest p x hx
theorem detail_in : ∀ (l : List DElem) (p : Str), (displayIn T false p l).Sublist (displayIn T true p l)
  | [], _ => by simp [displayIn]
  | e :: rest, p => by rw [displayIn, displayIn]; exact (detail_sublist e p).append (detail_in rest p)
end

/-- C100: `detail` only adds lines. -/
theorem C100_detail (pre : Str) (e : DElem) : (display T false pre e).Sublist (display T true pre e) := detail_sublist T e pre

/-! Outline -/

/-- An outline of `e` whose headings are among the lines, and the lines are counted by it. -/
def Good (d : Bool) (e : DElem) : Prop :=
  ∃ w, Outline e w ∧ (w.map fun x => spaces x.1 ++ heading T x.2).Sublist (display T d [] e) ∧
    (display T d [] e).length = (w.map fun x => 1 + extra d x.2).sum

theorem good_list (d : Bool) : ∀ l : List DElem, (∀ e ∈ l, Good T d e) →
    ∃ w, OutlineAll l w ∧ (w.map fun x => spaces x.1 ++ heading T x.2).Sublist (l.flatMap (display T d [])) ∧
      (l.flatMap (display T d [])).length = (w.map fun x => 1 + extra d x.2).sum
  | [], _ => ⟨[], .nil, by simp, by simp⟩
  | e :: l, h => by
    obtain ⟨w, h1, h2, h3⟩ := h e (by simp)
    obtain ⟨v, g1, g2, g3⟩ := good_list d l fun x hx => h x (by simp [hx])
    refine ⟨w ++ v, .cons e l w v h1 g1, ?_, ?_⟩
    · rw [List.map_append, List.flatMap_cons]; exact h2.append g2
    · rw [List.flatMap_cons, List.length_append, h3, g3, List.map_append, List.sum_append]

theorem indent_list (d : Bool) (n : ℕ) (p : Str) (hp : p = spaces n) (w : List (ℕ × DElem)) (l : List DElem)
    (h : (w.map fun x => spaces x.1 ++ heading T x.2).Sublist (l.flatMap (display T d []))) :
    ((w.map fun x => (x.1 + n, x.2)).map fun x => spaces x.1 ++ heading T x.2).Sublist (l.flatMap (display T d p)) := by
  have e1 : (w.map fun x => (x.1 + n, x.2)).map (fun x => spaces x.1 ++ heading T x.2) =
      (w.map fun x => spaces x.1 ++ heading T x.2).map (p ++ ·) := by
    rw [List.map_map, List.map_map]
    refine List.map_congr_left fun x _ => ?_
    simp only [Function.comp, hp, spaces]
    rw [Nat.add_comm, List.replicate_add, List.append_assoc]
  have e2 : l.flatMap (display T d p) = (l.flatMap (display T d [])).map (p ++ ·) := by
    rw [List.map_flatMap]; exact List.flatMap_congr fun x _ => C100_prefix T d p x
  rw [e1, e2]
  exact h.map _

theorem length_indent (d : Bool) (p : Str) (l : List DElem) :
    (l.flatMap (display T d p)).length = (l.flatMap (display T d [])).length := by
  have e2 : l.flatMap (display T d p) = (l.flatMap (display T d [])).map (p ++ ·) := by
    rw [List.map_flatMap]; exact List.flatMap_congr fun x _ => C100_prefix T d p x
  rw [e2, List.length_map]

theorem sum_indent (d : Bool) (n : ℕ) (w : List (ℕ × DElem)) :
    ((w.map fun x => (x.1 + n, x.2)).map fun x => 1 + extra d x.2).sum = (w.map fun x => 1 + extra d x.2).sum := by
  rw [List.map_map]; rfl

theorem xfLines_length (p : Str) (h : DHdr) :
    (xfLines T p h).length = (open scoped Classical in if h.xf = Mat3.one then 0 else 1) := by
  unfold xfLines
  by_cases hx : h.xf = Mat3.one <;> simp [hx]

mutual
theorem good_elem (d : Bool) : ∀ e : DElem, Good T d e
  | .curve h cps => ⟨_, .curve h cps, by simp [display, spaces], by cases d <;> simp [display, extra, Nat.add_comm]⟩
  | .rect h p q => ⟨_, .rect h p q, by simp [display, spaces], by cases d <;> simp [display, extra]⟩
  | .rrect h p q r => ⟨_, .rrect h p q r, by simp [display, spaces], by cases d <;> simp [display, extra]⟩
  | .ellipse h p q => ⟨_, .ellipse h p q, by simp [display, spaces], by cases d <;> simp [display, extra]⟩
  | .group h hid elems points => by
    obtain ⟨w, h1, h2, h3⟩ := good_list T d ((byKey elems).map Prod.snd) fun e he => by
      obtain ⟨x, hx, rfl⟩ := List.mem_map.1 he
      exact good_all d elems x ((byKey_perm elems).mem_iff.1 hx)
    have hs := indent_list T d 2 ([] ++ "  ".toList) (by simp [spaces, List.replicate]) w _ h2
    refine ⟨_, .group h hid elems points (byKey elems) w (byKey_perm _) (byKey_sorted _) h1, ?_, ?_⟩
    · rw [display, group_lines, List.map_cons]
      refine List.Sublist.cons_cons _ ?_
      rw [List.flatMap_map] at hs
      exact hs.trans ((List.sublist_append_right _ _).trans (List.sublist_append_right _ _))
    · have hl := length_indent T d ([] ++ "  ".toList) ((byKey elems).map Prod.snd)
      rw [h3, List.flatMap_map] at hl
      rw [display, group_lines, List.length_cons, List.length_append, List.length_append, hl, xfLines_length, List.map_cons,
        List.sum_cons, sum_indent]
      have hb : (pointLines T ([] ++ "  ".toList) points).length = points.length := by
        rw [pointLines, List.length_map, (byKey_perm points).length_eq]
      have hx : extra d (.group h hid elems points) =
        (open scoped Classical in if h.xf = Mat3.one then 0 else 1) + points.length := rfl
      rw [hb, hx]
      omega
  | .holes h o is => by
    obtain ⟨w, h1, h2, h3⟩ := good_list T d (o :: is) fun e he => by
      rcases List.mem_cons.1 he with ho | he
      · exact ho ▸ good_elem d o
      · exact good_in d is e he
    have hs := indent_list T d 4 ([] ++ "  ".toList ++ "  ".toList) (by simp [spaces, List.replicate]) w _ h2
    refine ⟨_, .holes h o is w h1, ?_, ?_⟩
    · rw [display, displayIn_eq, List.map_cons]
      refine List.Sublist.cons_cons _ (hs.trans (List.Sublist.trans ?_ (List.sublist_append_right _ _)))
      rw [List.flatMap_cons]
      exact List.Sublist.cons _ (List.Sublist.append (List.Sublist.refl _) (List.sublist_cons_self _ _))
    · have hl := length_indent T d ([] ++ "  ".toList ++ "  ".toList) (o :: is)
      rw [h3, List.flatMap_cons, List.length_append] at hl
      rw [display, displayIn_eq, List.length_cons, List.length_append, List.length_cons, List.length_append, List.length_cons,
        xfLines_length, List.map_cons, List.sum_cons, sum_indent]
      have hx : extra d (.holes h o is) = (open scoped Classical in if h.xf = Mat3.one then 0 else 1) + 2 := rfl
      rw [hx, ← hl]
      omega
theorem good_all (d : Bool) : ∀ (l : List (Str × DElem)), ∀ x ∈ l, Good T d x.2
  | [], _, hx => by simp at hx
  | (k, e) :: rest, x, hx => by
    rcases List.mem_cons.1 hx with rfl | hx
    · exact good_elem d e
    · exact good_all d rest x hx
theorem good_in (d : Bool) : ∀ (l : List DElem), ∀ x ∈ l, Good T d x
  | [], _, hx => by simp at hx
  | e :: rest, x, hx => by
    rcases List.mem_cons.1 hx with ho | hx
    · exact ho ▸ good_elem d e
    · exact good_in d rest x hx
end

/-- C100: every element of the tree, hidden or not, has its heading, in the order of the outline and indented by its depth; the number
of lines is that of the headings and of what belongs to each element, so no line is printed twice and none is missing. -/
theorem C100_outline (detail : Bool) (e : DElem) :
    ∃ w, Outline e w ∧ (w.map fun x => spaces x.1 ++ heading T x.2).Sublist (display T detail [] e) ∧
      (display T detail [] e).length = (w.map fun x => 1 + extra detail x.2).sum := good_elem T detail e

/-- C100: hiding a group changes only its heading. -/
theorem C100_hidden (detail : Bool) (pre : Str) (h : DHdr) (elems : List (Str × DElem)) (points : List (Str × DPt)) :
    (display T detail pre (.group h true elems points)).tail = (display T detail pre (.group h false elems points)).tail := by
  rw [display, display]; rfl

/-! Every line -/

/-- C100: the headings: class, name, and the number of control points, the corners (and radius) or whether the group is hidden. -/
theorem C100_headings (h : DHdr) (cps : List DCp) (p q : DPt) (r : ℝ) (elems : List (Str × DElem)) (points : List (Str × DPt)) (o : DElem)
    (is : List DElem) :
    heading T (.curve h cps) = "ElemCurve: ".toList ++ h.name ++ " ".toList ++ fmtNat cps.length ++ " points".toList ∧
    heading T (.rect h p q) = "ElemRectangle: ".toList ++ h.name ++ " ".toList ++ T.xy2 p ++ " ".toList ++ T.xy2 q ∧
    heading T (.rrect h p q r) =
      "ElemRectangleRounded: ".toList ++ h.name ++ " ".toList ++ T.xy2 p ++ " ".toList ++ T.xy2 q ++ " ".toList ++ T.num2 r ∧
    heading T (.ellipse h p q) = "ElemEllipse: ".toList ++ h.name ++ " ".toList ++ T.xy2 p ++ " ".toList ++ T.xy2 q ∧
    heading T (.group h true elems points) = "ElemGroup: ".toList ++ T.quote h.name ++ " ".toList ++ "hidden".toList ∧
    heading T (.group h false elems points) = "ElemGroup: ".toList ++ T.quote h.name ++ " ".toList ++ "visible".toList ∧
    heading T (.holes h o is) = "ElemWithHoles: ".toList ++ T.quote h.name := by
  exact ⟨rfl, rfl, rfl, rfl, rfl, rfl, rfl⟩

/-- C100: the lines of an element that holds no others: its heading and, if detail is asked for, whether it is closed and its pen, and
for a curve one line for each control point, in order, two spaces in. -/
theorem C100_lines (detail : Bool) (h : DHdr) (cps : List DCp) (p q : DPt) (r : ℝ) (e : DElem)
    (he : e = .rect h p q ∨ e = .rrect h p q r ∨ e = .ellipse h p q) :
    display T detail [] (.curve h cps) = heading T (.curve h cps) :: (if detail then
      (" closed=".toList ++ (if h.closed then "True".toList else "False".toList) ++ " pen=".toList ++ T.pb h.pb) ::
        cps.map fun cp => spaces 2 ++ T.cp cp else []) ∧
    display T detail [] e = heading T e :: (if detail then
      [" closed=".toList ++ (if h.closed then "True".toList else "False".toList) ++ " pen=".toList ++ T.pb h.pb] else []) := by
  have h2 : [] ++ "  ".toList = spaces 2 := by simp [spaces, List.replicate]
  have hp : penLine T [] h =
      " closed=".toList ++ (if h.closed then "True".toList else "False".toList) ++ " pen=".toList ++ T.pb h.pb := by
    rw [penLine, boolText, List.nil_append]
  rw [← hp]
  constructor
  · rw [display, h2, List.nil_append]
  · rcases he with rfl | rfl | rfl <;> rw [display, List.nil_append]

/-- C100: the lines of a group: its heading, its transform unless that is the identity, its points and its elements in the order of
their keys. -/
theorem C100_group_lines (detail : Bool) (h : DHdr) (hidden : Bool) (elems : List (Str × DElem)) (points : List (Str × DPt)) :
    ∃ (es : List (Str × DElem)) (ps : List (Str × DPt)), es.Perm elems ∧ es.Pairwise (fun x y => x.1 ≤ y.1) ∧ ps.Perm points ∧
      ps.Pairwise (fun x y => x.1 ≤ y.1) ∧
      display T detail [] (.group h hidden elems points) = heading T (.group h hidden elems points) ::
        ((open scoped Classical in if h.xf = Mat3.one then [] else [spaces 2 ++ "Transform: ".toList ++ T.xf h.xf]) ++
          ps.map (fun kv => spaces 2 ++ "Point: ".toList ++ kv.1 ++ " ".toList ++ T.pt kv.2) ++
          es.flatMap fun kv => (display T detail [] kv.2).map (spaces 2 ++ ·)) := by
  have h2 : [] ++ "  ".toList = spaces 2 := by simp [spaces, List.replicate]
  refine ⟨byKey elems, byKey points, byKey_perm _, byKey_sorted _, byKey_perm _, byKey_sorted _, ?_⟩
  rw [display, group_lines, h2]
  simp only [C100_prefix T detail (spaces 2), List.append_assoc, pointLines, xfLines, ite_not]
  rfl

/-- C100: the lines of a shape with holes: its heading, its transform unless that is the identity, and the outside and the inside, each
four spaces in and after a label. -/
theorem C100_holes_lines (detail : Bool) (h : DHdr) (o : DElem) (is : List DElem) :
    display T detail [] (.holes h o is) = heading T (.holes h o is) ::
      ((open scoped Classical in if h.xf = Mat3.one then [] else [spaces 2 ++ "Transform: ".toList ++ T.xf h.xf]) ++
        [spaces 2 ++ "Outside:".toList] ++ (display T detail [] o).map (spaces 4 ++ ·) ++
        [spaces 2 ++ "Outside:".toList] ++ is.flatMap fun e => (display T detail [] e).map (spaces 4 ++ ·)) := by
  have h2 : [] ++ "  ".toList = spaces 2 := by simp [spaces, List.replicate]
  have h4 : spaces 2 ++ "  ".toList = spaces 4 := by simp [spaces, List.replicate]
  rw [display, displayIn_eq, h2, h4]
  have hi : is.flatMap (display T detail (spaces 4)) = is.flatMap fun e => (display T detail [] e).map (spaces 4 ++ ·) :=
    List.flatMap_congr fun e _ => C100_prefix T detail (spaces 4) e
  rw [hi, C100_prefix T detail (spaces 4) o]
  simp only [List.append_assoc, xfLines, ite_not, List.singleton_append, List.nil_append, List.cons_append]

/-! A group of two, one of them with a hole -/

def demoHdr (n : String) : DHdr := ⟨n.toList, ⟨none, none⟩, true, Mat3.one⟩
def demoRect (n : String) : DElem := .rect (demoHdr n) (.point 0 0 none) (.point 4 2 none)
def demoHoles : DElem := .holes (demoHdr "h") (demoRect "o") [demoRect "i"]
def demoGroup : DElem := .group (demoHdr "g") true [(['z'], demoHoles), (['a'], demoRect "a")] []

/-- C100 fails for the label of the holes: the line before the inner shapes says `Outside:` like the line before the outer shape. -/
theorem C100_holes_counterexample :
    display T false [] demoHoles =
      [heading T demoHoles, spaces 2 ++ "Outside:".toList, spaces 4 ++ heading T (demoRect "o"),
        spaces 2 ++ "Outside:".toList, spaces 4 ++ heading T (demoRect "i")] := by
  have e2 : [] ++ "  ".toList = spaces 2 := by simp [spaces, List.replicate]
  have e4 : spaces 2 ++ "  ".toList = spaces 4 := by simp [spaces, List.replicate]
  have hx : xfLines T (spaces 2) (demoHdr "h") = [] := by unfold xfLines; exact if_neg (fun h => h rfl)
  have hr : ∀ n, display T false (spaces 4) (demoRect n) = [spaces 4 ++ heading T (demoRect n)] := fun n => by
    unfold demoRect; rw [display]; rfl
  rw [demoHoles, display, e2, e4, hx, hr, displayIn, hr, displayIn]
  rfl

/-- Reordering applies to the demo: the two elements of the group exchanged. -/
example (detail : Bool) (pre : Str) : display T detail pre demoGroup =
    display T detail pre (.group (demoHdr "g") true [(['a'], demoRect "a"), (['z'], demoHoles)] []) :=
  C100_order T detail (.dicts _ _ _ _ _ _ (List.Perm.swap ..) (by decide) (List.Perm.refl _) (by simp)) pre

/-- Its outline has four further lines at depths 2, 2, 6 and 6. -/
example : Outline demoGroup ((0, demoGroup) :: ([(0, demoRect "a"), (0, demoHoles), (4, demoRect "o"), (4, demoRect "i")].map
    fun x => (x.1 + 2, x.2))) :=
  .group _ _ _ _ [(['a'], demoRect "a"), (['z'], demoHoles)] _ (List.Perm.swap ..) (by simp; decide)
    (.cons _ _ [_] _ (.rect ..) (.cons _ _ [_, _, _] _ (.holes _ _ _ _ (.cons _ _ [_] _ (.rect ..) (.cons _ _ [_] _ (.rect ..) .nil))) .nil))

end X7.Disp
