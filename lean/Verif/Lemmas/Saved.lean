import Verif.Spec.Saved
import Verif.Props.Builder
import Verif.Props.Equal
import Verif.Props.Dump
import Verif.Props.ElemTransform

/-!
Lemmas for C107.
-/

noncomputable section

namespace X7.Build

open Dump GroupNames

mutual
/-- The element without the points of groups. -/
def bare : DElem → DElem
  | .group h hid es _ => .group h hid (bareAll es) []
  | d => d
def bareAll : List (Str × DElem) → List (Str × DElem)
  | [] => []
  | (k, e) :: rest => (k, bare e) :: bareAll rest
end

theorem bareAll_eq (es : List (Str × DElem)) : bareAll es = es.map fun x => (x.1, bare x.2) := by
  induction es with
  | nil => rfl
  | cons x es ih => obtain ⟨k, e⟩ := x; simp [bareAll, ih]

theorem sortAll_eq (es : List (Str × DElem)) : sortAll es = es.map fun x => (x.1, sortDicts x.2) := by
  induction es with
  | nil => rfl
  | cons x es ih => obtain ⟨k, e⟩ := x; simp [sortAll, ih]

theorem bareAll_sort (es : List (Str × DElem)) :
    bareAll (es.mergeSort fun x y => decide (x.1 ≤ y.1)) = (bareAll es).mergeSort fun x y => decide (x.1 ≤ y.1) := by
  rw [bareAll_eq, bareAll_eq]
  exact List.map_mergeSort fun a _ b _ => rfl

mutual
theorem sort_bare : (d : DElem) → sortDicts (bare d) = bare (sortDicts d)
  | .group h hid es ps => by simp only [bare, sortDicts, bareAll_sort, sortAll_bare es]
  | .curve _ _ => by simp only [bare, sortDicts]
  | .rect _ _ _ => by simp only [bare, sortDicts]
  | .rrect _ _ _ _ => by simp only [bare, sortDicts]
  | .ellipse _ _ _ => by simp only [bare, sortDicts]
  | .holes _ _ _ => by simp only [bare, sortDicts]
theorem sortAll_bare : (es : List (Str × DElem)) → sortAll (bareAll es) = bareAll (sortAll es)
  | [] => by simp only [bareAll, sortAll]
  | (k, e) :: rest => by simp only [bareAll, sortAll, sort_bare e, sortAll_bare rest]
end

mutual
theorem dumpS_bare : (d : DElem) → ∀ dc, dumpS dc (bare d) = dumpS dc d
  | .group h hid es ps, dc => by simp only [bare, dumpS, dumpAll_bare es]
  | .curve _ _, dc => by simp only [bare]
  | .rect _ _ _, dc => by simp only [bare]
  | .rrect _ _ _ _, dc => by simp only [bare]
  | .ellipse _ _ _, dc => by simp only [bare]
  | .holes _ _ _, dc => by simp only [bare]
theorem dumpAll_bare : (es : List (Str × DElem)) → ∀ dc, dumpAll dc (bareAll es) = dumpAll dc es
  | [], dc => by simp only [bareAll]
  | (k, e) :: rest, dc => by simp only [bareAll, dumpAll, dumpS_bare e, dumpAll_bare rest]
end

theorem dump_bare (d : DElem) (dc : DC) : dump dc (bare d) = dump dc d := by
  rw [dump, dump, sort_bare, dumpS_bare]

mutual
theorem bare_obj : (e : Elem) → bare (obj e) = obj e
  | .group h hid es => by simp only [obj, bare, bareAll_obj es]
  | .curve _ _ => by simp only [obj, bare]
  | .rect _ _ _ => by simp only [obj, bare]
  | .rrect _ _ _ _ => by simp only [obj, bare]
  | .ellipse _ _ _ => by simp only [obj, bare]
  | .holes _ _ _ => by simp only [obj, bare]
theorem bareAll_obj : (es : List (Str × Elem)) → bareAll (objAll es) = objAll es
  | [] => by simp only [objAll, bareAll]
  | (k, e) :: rest => by simp only [objAll, bareAll, bare_obj e, bareAll_obj rest]
end

theorem bare_objTree (st : BState) : ∀ n g, bare (objTree st n g) = obj (tree st n g) := by
  intro n
  induction n with
  | zero => intro g; simp only [objTree, bare, bareAll, tree, obj, objAll]
  | succ n ih =>
    intro g
    simp only [objTree, bare, tree, obj, bareAll_eq, objAll_eq, List.map_map]
    congr 1
    refine List.map_congr_left fun x _ => ?_
    obtain ⟨k, i⟩ := x
    cases i with
    | leaf e => simp [bare_obj]
    | grp g' => simp [ih]

mutual
theorem plain_obj : (e : Elem) → (obj e).plain = e
  | .group h hid es => by simp only [obj, DElem.plain, plainAll_obj es]
  | .curve h cps => by
    simp only [obj, DElem.plain, List.map_map]
    congr 1
    rw [List.map_congr_left (g := id), List.map_id]
    intro c _
    simp [DCp.plain, DPt.pos, DPt.xy, DVec.val]
  | .rect _ _ _ => by simp [obj, DElem.plain, DPt.pos, DPt.xy]
  | .rrect _ _ _ _ => by simp [obj, DElem.plain, DPt.pos, DPt.xy]
  | .ellipse _ _ _ => by simp [obj, DElem.plain, DPt.pos, DPt.xy]
  | .holes _ o is => by simp only [obj, DElem.plain, plain_obj o, plainIn_obj is]
theorem plainAll_obj : (es : List (Str × Elem)) → plainAll (objAll es) = es
  | [] => by simp only [objAll, plainAll]
  | (k, e) :: rest => by simp only [objAll, plainAll, plain_obj e, plainAll_obj rest]
theorem plainIn_obj : (es : List Elem) → plainIn (objIn es) = es
  | [] => by simp only [objIn, plainIn]
  | e :: rest => by simp only [objIn, plainIn, plain_obj e, plainIn_obj rest]
end

mutual
theorem bare_plain : (d : DElem) → (bare d).plain = d.plain
  | .group h hid es ps => by simp only [bare, DElem.plain, bareAll_plain es]
  | .curve _ _ => by simp only [bare]
  | .rect _ _ _ => by simp only [bare]
  | .rrect _ _ _ _ => by simp only [bare]
  | .ellipse _ _ _ => by simp only [bare]
  | .holes _ _ _ => by simp only [bare]
theorem bareAll_plain : (es : List (Str × DElem)) → plainAll (bareAll es) = plainAll es
  | [] => by simp only [bareAll]
  | (k, e) :: rest => by simp only [bareAll, plainAll, bare_plain e, bareAll_plain rest]
end

/-! ### What the builder makes can be written -/

theorem obj_hdr (e : Elem) : (obj e).hdr = ⟨e.hdr.name, e.hdr.pb, e.hdr.closed, e.hdr.xf⟩ := by
  cases e <;> simp [obj, DElem.hdr, Elem.hdr]

theorem ok_setName (e : Elem) (k : Str) (h : (obj e).Ok) : (obj (e.setName k)).Ok := by
  cases e <;> simpa [obj, Elem.setName, DElem.Ok, DHdr.Ok] using h

theorem objCps_ok (cps : List (CP ℝ)) : ∀ c ∈ cps.map (fun c : CP ℝ =>
    (⟨.point c.c.x c.c.y none, .vec c.dl.x c.dl.y, .vec c.dr.x c.dr.y, c.kind.toList⟩ : DCp)), c.Ok := by
  intro c hc
  obtain ⟨c', -, rfl⟩ := List.mem_map.1 hc
  simp [DCp.Ok, DPt.Ok, DVec.Ok]

theorem ok_curve (h : Hdr) (cps : List (CP ℝ)) (h1 : h.pb.filled = true → h.closed = true) (h2 : h.xf.Affine) :
    (obj (.curve h cps)).Ok := by
  simp only [obj, DElem.Ok]
  exact ⟨⟨h1, h2⟩, objCps_ok cps⟩

theorem ok_construct (name : Str) (pb : PenBrush) (closed : Bool) (shape : ShapeArg) (e : Elem)
    (h : construct name pb closed shape = .ok e) : (obj e).Ok := by
  rcases construct_spec name pb closed shape with ⟨ha, hc⟩ | ⟨-, hc⟩
  · rw [hc] at h
    injection h with h
    subst h
    cases shape with
    | curve cps =>
      simp only [Allowed] at ha
      refine ok_curve _ _ (fun hf => ha ?_) Mat3.affine_one
      simpa [PenBrush.filled, Option.isSome_iff_ne_none] using hf
    | _ =>
      simp only [Allowed] at ha
      subst ha
      simp [shaped, obj, DElem.Ok, DHdr.Ok, DPt.Plain, Mat3.affine_one]
  · rw [hc] at h; cases h

theorem filled_of_check {pb : PenBrush} {c : Bool} {u : Unit} (h : Elem.checkClosed pb c = .ok u) : pb.filled = true → c = true := by
  intro hf
  unfold Elem.checkClosed at h
  rw [hf] at h
  cases c <;> simp_all

theorem residual_affine (x : Mat3 ℝ) : (Elem.residual x).Affine :=
  (C26_simplify ⟨x, none, []⟩).2.1

theorem ok_transform (e : Elem) (m : TState) (hm : m.mat.Affine) (x : Elem) (ho : (obj e).Ok) (h : (Elem.transform e m).2 = .ok x) :
    (obj x).Ok := by
  cases e with
  | curve hd cps =>
    simp only [Elem.transform] at h
    rw [Elem.drawSpace_eq (by intro x; split <;> exact ⟨rfl, rfl⟩)] at h
    simp only at h
    cases hc : Elem.checkClosed hd.pb hd.closed with
    | error er => rw [hc] at h; cases h
    | ok u =>
      rw [hc] at h
      injection h with h
      subst h
      exact ok_curve _ _ (filled_of_check hc) Mat3.affine_one
  | rect hd p q =>
    obtain ⟨m', -, -, he⟩ := Elem.transformPtsP_eq hd.xf m [p, q] (by simp)
    simp only [Elem.transform, he] at h
    cases hi : (Elem.residual (m.mat.mul hd.xf)).inv with
    | error er => rw [hi] at h; cases h
    | ok i =>
      rw [hi] at h
      simp only [List.map_cons, List.map_nil] at h
      injection h with h
      subst h
      simp [obj, DElem.Ok, DHdr.Ok, DPt.Plain, residual_affine]
  | rrect hd p q r =>
    obtain ⟨m', -, -, he⟩ := Elem.transformPtsP_eq hd.xf m [p, q, p.addVector ⟨r, 0⟩] (by simp)
    simp only [Elem.transform, he] at h
    cases hi : (Elem.residual (m.mat.mul hd.xf)).inv with
    | error er => rw [hi] at h; cases h
    | ok i =>
      rw [hi] at h
      simp only [List.map_cons, List.map_nil] at h
      injection h with h
      subst h
      simp [obj, DElem.Ok, DHdr.Ok, DPt.Plain, residual_affine]
  | ellipse hd p q =>
    obtain ⟨m', -, -, he⟩ := Elem.transformPtsP_eq hd.xf m [p, q] (by simp)
    simp only [Elem.transform, he] at h
    cases hi : (Elem.residual (m.mat.mul hd.xf)).inv with
    | error er => rw [hi] at h; cases h
    | ok i =>
      rw [hi] at h
      simp only [List.map_cons, List.map_nil] at h
      injection h with h
      subst h
      simp [obj, DElem.Ok, DHdr.Ok, DPt.Plain, residual_affine]
  | group hd hid es =>
    simp only [obj, DElem.Ok] at ho
    obtain ⟨⟨h1, h2⟩, h3, h4, h5⟩ := ho
    simp only [Elem.transform] at h
    cases hc : Elem.checkClosed hd.pb false with
    | error er => rw [hc] at h; cases h
    | ok u =>
      rw [hc] at h
      injection h with h
      subst h
      simp only [obj, DElem.Ok]
      exact ⟨⟨filled_of_check hc, Mat3.affine_mul hm h2⟩, h3, h4, h5⟩
  | holes hd o is => simp [obj, DElem.Ok] at ho

theorem rotateAbout_affine (a : ℝ) (c : Pt ℝ) : (TState.new.rotateAbout a c).mat.Affine := by
  simp [TState.rotateAbout, TState.translate, TState.rotate, TState.new, Mat3.Affine, Mat3.mul, Mat3.translateMat, Mat3.rotateMat,
    Mat3.one]

/-- All elements in the groups can be written. -/
def Leaves (st : BState) : Prop := ∀ g k e, (k, Item.leaf e) ∈ (st.obj g).items → (obj e).Ok

theorem addElem_leaves {st : BState} (h : Leaves st) (b : GB) (name : Str) (e : Elem) (he : (obj e).Ok) :
    Leaves (addElem st b name e).1 := by
  unfold addElem
  split
  · exact h
  · rename_i k _
    intro g k' e' hm
    by_cases hg : g = b.group
    · subst hg
      simp only [Function.update_self, GObj.put, List.mem_append, List.mem_singleton, Prod.mk.injEq, Item.leaf.injEq] at hm
      rcases hm with hm | ⟨-, rfl⟩
      · exact h _ _ _ hm
      · exact ok_setName e k he
    · simp only [ne_eq, hg, not_false_eq_true, Function.update_of_ne] at hm
      exact h _ _ _ hm

theorem elemAny_leaves {st : BState} (h : Leaves st) (b : GB) (name : Str) (kind : KindArg) (closed : Option Bool) (shape : ShapeArg) :
    Leaves (elemAny st b name kind closed shape).1 := by
  unfold elemAny
  cases pickPen b kind with
  | error er => exact h
  | ok pb =>
    dsimp only
    cases hc : construct name pb (closed.getD pb.filled) shape with
    | error er => exact h
    | ok e => exact addElem_leaves h b name e (ok_construct _ _ _ _ _ hc)

theorem rotate_leaves {st : BState} (h : Leaves st) (b : GB) (e : Elem) (he : (obj e).Ok) (angle : ℝ) (sh : Bool) (extra : Str) :
    Leaves (rotateAboutCenter st b e angle sh extra).1 := by
  unfold rotateAboutCenter
  cases e.center with
  | error er => exact h
  | ok c =>
    dsimp only
    cases ht : (e.transform (TState.new.rotateAbout angle c)).2 with
    | error er => exact h
    | ok new =>
      dsimp only
      have h1 := addElem_leaves h b (e.hdr.name ++ "_r".toList ++ extra) new (ok_transform e _ (rotateAbout_affine _ _) new he ht)
      generalize addElem st b (e.hdr.name ++ "_r".toList ++ extra) new = r at h1
      obtain ⟨st, r⟩ := r
      cases r with
      | error er => exact h1
      | ok new =>
        dsimp only at h1 ⊢
        cases sh with
        | false => exact h1
        | true =>
          simp only [if_true]
          have h2 := elemAny_leaves h1 b (e.hdr.name ++ "_c".toList ++ extra) (.pb e.hdr.pb) (some true)
            (.ellipse (c.subVec ⟨1, 1⟩) (c.addVector ⟨1, 1⟩))
          unfold ellipse
          generalize elemAny st b (e.hdr.name ++ "_c".toList ++ extra) (.pb e.hdr.pb) (some true)
            (.ellipse (c.subVec ⟨1, 1⟩) (c.addVector ⟨1, 1⟩)) = r at h2
          obtain ⟨st', r⟩ := r
          cases r with
          | error er => exact h2
          | ok x => exact h2

theorem group_leaves {st : BState} (h : Leaves st) (b : GB) (name : Str) (pens : Option (ByShape PenBrush)) (kind : Option String) :
    Leaves (group st b name pens kind).1 := by
  unfold group
  dsimp only
  split
  · exact h
  · rename_i k _
    intro g k' e' hm
    by_cases hg : g = b.group
    · subst hg
      simp only [Function.update_self, GObj.put, List.mem_append, List.mem_singleton, Prod.mk.injEq, reduceCtorEq, and_false,
        or_false] at hm
      exact h _ _ _ hm
    · simp only [ne_eq, hg, not_false_eq_true, Function.update_of_ne] at hm
      by_cases hn : g = st.next
      · subst hn; simp at hm
      · simp only [ne_eq, hn, not_false_eq_true, Function.update_of_ne] at hm
        exact h _ _ _ hm

theorem addPt_leaves {st : BState} (h : Leaves st) (b : GB) (name : Str) (p : Pt ℝ) : Leaves (addPt st b name p).1 := by
  unfold addPt
  dsimp only
  split
  · exact h
  · split
    · exact h
    · intro g k' e' hm
      by_cases hg : g = b.group
      · subst hg
        simp only [Function.update_self] at hm
        exact h _ _ _ hm
      · simp only [ne_eq, hg, not_false_eq_true, Function.update_of_ne] at hm
        exact h _ _ _ hm

theorem step_leaves {s : BState × List GB} (h : Leaves s.1) (op : BOp) (ho : op.Writable) : Leaves (step s op).1 := by
  cases op with
  | elem i name kind closed shape =>
    simp only [step]; split
    · exact h
    · exact elemAny_leaves h _ _ _ _ _
  | add i name e =>
    simp only [step]; split
    · exact h
    · exact addElem_leaves h _ _ _ ho
  | group i name pens kind =>
    simp only [step]; split
    · exact h
    · rename_i b _
      have := group_leaves h b name pens kind
      generalize group s.1 b name pens kind = r at this
      obtain ⟨st, r⟩ := r
      cases r <;> exact this
  | point i name p =>
    simp only [step]; split
    · exact h
    · exact addPt_leaves h _ _ _
  | rotate i e angle sh extra =>
    simp only [step]; split
    · exact h
    · exact rotate_leaves h _ _ ho _ _ _
  | hide i =>
    simp only [step]; split <;> exact h

theorem run_leaves (n0 : Str) (pens : ByShape PenBrush) (kind0 : String) (ops : List BOp) (ho : ∀ op ∈ ops, op.Writable) :
    Leaves (run n0 pens kind0 ops).1 := by
  have key : ∀ (ops : List BOp) (s : BState × List GB), Leaves s.1 → (∀ op ∈ ops, op.Writable) → Leaves (ops.foldl step s).1 := by
    intro ops
    induction ops with
    | nil => exact fun s h _ => h
    | cons op rest ih =>
      intro s h ho
      exact ih _ (step_leaves h op (ho op (by simp))) fun o h' => ho o (by simp [h'])
  refine key ops _ ?_ ho
  intro g k e hm
  simp only [newBuilder] at hm
  by_cases hg : g = 0
  · subst hg; simp at hm
  · simp [hg] at hm

theorem tree_ok {s : BState × List GB} (h : WF s) (hl : Leaves s.1) : ∀ n g, g < s.1.next → (obj (tree s.1 n g)).Ok := by
  intro n
  induction n with
  | zero =>
    intro g hg
    obtain ⟨h1, h2, h3, h4⟩ := h.plain g hg
    simp only [tree, obj, objAll, DElem.Ok, DHdr.Ok, OkAll, h1, h2, h3, h4]
    simp [defaultPb, PenBrush.filled, Mat3.affine_one]
  | succ n ih =>
    intro g hg
    obtain ⟨h1, h2, h3, h4⟩ := h.plain g hg
    simp only [tree, obj, DElem.Ok, DHdr.Ok, h1, h2, h3, h4]
    refine ⟨⟨by simp [defaultPb, PenBrush.filled], Mat3.affine_one⟩, trivial, trivial, ?_, ?_⟩
    · rw [objAll_eq, List.map_map, List.map_map]
      exact (h.keys g hg).1
    · rw [okAll_iff]
      intro x hx
      rw [objAll_eq, List.map_map] at hx
      obtain ⟨⟨k, i⟩, hi, rfl⟩ := List.mem_map.1 hx
      have hk : '.' ∉ k := (h.keys g hg).2 k (List.mem_map.2 ⟨_, hi, rfl⟩)
      cases i with
      | leaf e => exact ⟨by simp [obj_hdr, h.leaf g hg k e hi], hk, hl _ _ _ hi⟩
      | grp g' =>
        obtain ⟨-, a, b⟩ := h.grp g hg k g' hi
        refine ⟨?_, hk, ih g' a⟩
        simp only [Function.comp, obj_hdr]
        cases n <;> simp [tree, Elem.hdr, b]

/-! ### The order of the entries -/

theorem inOrderAll_iff (es : List (Str × Elem)) : InOrderAll es ↔ ∀ x ∈ es, InOrder x.2 := by
  induction es with
  | nil => simp [InOrderAll]
  | cons x es ih => obtain ⟨k, e⟩ := x; simp [InOrderAll, ih]

theorem sort_pairwise {α : Type} (es : List (Str × α)) : ((es.mergeSort fun x y => decide (x.1 ≤ y.1)).map Prod.fst).Pairwise (· ≤ ·) := by
  rw [List.pairwise_map]
  refine (List.pairwise_mergeSort (le := fun x y : Str × α => decide (x.1 ≤ y.1)) ?_ ?_ es).imp ?_
  · intro a b c h1 h2
    simp only [decide_eq_true_eq] at *
    exact le_trans h1 h2
  · intro a b
    simpa using le_total a.1 b.1
  · intro a b h
    simpa using h

mutual
theorem sort_inOrder : (d : DElem) → InOrder (sortDicts d).plain
  | .group h hid es ps => by
    simp only [sortDicts, DElem.plain, InOrder]
    rw [plainAll_eq, List.map_map]
    refine ⟨sort_pairwise _, ?_⟩
    rw [inOrderAll_iff]
    intro x hx
    obtain ⟨y, hy, rfl⟩ := List.mem_map.1 hx
    exact sort_inOrderAll es y ((List.mergeSort_perm _ _).mem_iff.1 hy)
  | .curve _ _ => by simp only [sortDicts, DElem.plain, InOrder]
  | .rect _ _ _ => by simp only [sortDicts, DElem.plain, InOrder]
  | .rrect _ _ _ _ => by simp only [sortDicts, DElem.plain, InOrder]
  | .ellipse _ _ _ => by simp only [sortDicts, DElem.plain, InOrder]
  | .holes _ _ _ => by simp only [sortDicts, DElem.plain, InOrder]
theorem sort_inOrderAll : (es : List (Str × DElem)) → ∀ x ∈ sortAll es, InOrder x.2.plain
  | [] => by simp [sortAll]
  | (k, e) :: rest => by
    simp only [sortAll, List.mem_cons, forall_eq_or_imp]
    exact ⟨sort_inOrder e, sort_inOrderAll rest⟩
end

mutual
theorem sort_of_inOrder : (d : DElem) → d.Ok → InOrder d.plain → sortDicts d = d
  | .group h hid es ps, ho, hi => by
    simp only [DElem.Ok] at ho
    simp only [DElem.plain, InOrder, plainAll_eq, List.map_map] at hi
    simp only [sortDicts]
    rw [sortAll_of_inOrder es ho.2.2.2.2 (by rw [plainAll_eq]; exact hi.2), List.mergeSort_of_pairwise]
    have := hi.1
    rw [List.pairwise_map] at this
    exact this.imp fun h => by simpa using h
  | .curve _ _, _, _ => by simp only [sortDicts]
  | .rect _ _ _, _, _ => by simp only [sortDicts]
  | .rrect _ _ _ _, _, _ => by simp only [sortDicts]
  | .ellipse _ _ _, _, _ => by simp only [sortDicts]
  | .holes _ _ _, ho, _ => by simp [DElem.Ok] at ho
theorem sortAll_of_inOrder : (es : List (Str × DElem)) → OkAll es → InOrderAll (plainAll es) → sortAll es = es
  | [], _, _ => by simp only [sortAll]
  | (k, e) :: rest, ho, hi => by
    simp only [OkAll] at ho
    simp only [plainAll, InOrderAll] at hi
    simp only [sortAll, sort_of_inOrder e ho.1.2.2 hi.1, sortAll_of_inOrder rest ho.2 hi.2]
end

theorem ok_plainHoles : (d : DElem) → d.Ok → PlainHoles d
  | .group h hid es ps, ho => by
    simp only [DElem.Ok, okAll_iff] at ho
    simp only [PlainHoles, plainHolesAll_iff]
    exact fun x hx => ok_plainHoles x.2 (ho.2.2.2.2 x hx).2.2
  | .curve _ _, _ => by simp [PlainHoles]
  | .rect _ _ _, _ => by simp [PlainHoles]
  | .rrect _ _ _ _, _ => by simp [PlainHoles]
  | .ellipse _ _ _, _ => by simp [PlainHoles]
  | .holes _ _ _, ho => by simp [DElem.Ok] at ho
termination_by d => sizeOf d
decreasing_by
  have := List.sizeOf_lt_of_mem hx
  obtain ⟨k, e⟩ := x
  simp at this ⊢
  omega

end X7.Build
