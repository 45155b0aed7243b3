import Verif.Lemmas.Builder
import Verif.Props.Elem
import Verif.Props.TransformGeom

/-!
C72: `GroupBuilder`. A program makes one builder and then any sequence of calls on it and on the builders it got from `group`.
-/

noncomputable section

namespace X7.Build

open GroupNames Elem TSpec

variable (n0 : Str) (pens : ByShape PenBrush) (kind0 : String) (ops : List BOp)

/-- C72: after any program the keys of every builder's group are distinct and without dots, every element has its key as its name, and
the names of the points are distinct and without dots. The group is shown, has no transform and the pen `default`. -/
theorem C72_history (i : ℕ) (b : GB) (hb : (run n0 pens kind0 ops).2[i]? = some b) :
    let S := run n0 pens kind0 ops
    (keysOf (theGroup S.1 b)).Nodup ∧ (∀ k ∈ keysOf (theGroup S.1 b), '.' ∉ k) ∧
    (∀ x ∈ entries (theGroup S.1 b), x.2.hdr.name = x.1) ∧
    ((pointsOf S.1 b).map Prod.fst).Nodup ∧ (∀ k ∈ (pointsOf S.1 b).map Prod.fst, '.' ∉ k) ∧
    ∃ name es, theGroup S.1 b = .group ⟨name, defaultPb, false, Mat3.one⟩ false es := by
  intro S
  have h := run_wf n0 pens kind0 ops
  have hg : b.group < S.1.next := h.own i b hb ▸ h.lt hb
  have hk := keysOf_tree h hg
  refine ⟨?_, ?_, ?_, (h.pts _ hg).1, (h.pts _ hg).2, ?_⟩
  · rw [theGroup, hk]; exact (h.keys _ hg).1
  · rw [theGroup, hk]; exact (h.keys _ hg).2
  · rw [theGroup, tree_unfold h hg]
    intro x hx
    obtain ⟨⟨k, it⟩, h1, rfl⟩ := List.mem_map.1 hx
    cases it with
    | leaf e => exact h.leaf _ hg _ _ h1
    | grp g' =>
      obtain ⟨a, c, d⟩ := h.grp _ hg _ _ h1
      simp only
      rw [tree_unfold h c]; exact d
  · obtain ⟨h1, h2, h3, h4⟩ := h.plain _ hg
    rw [theGroup, tree_unfold h hg, h1]
    generalize (S.1.obj b.group).hdr = hd at h2 h3 h4
    obtain ⟨a, b, c, d⟩ := hd
    simp only at h2 h3 h4
    subst h2; subst h3; subst h4
    exact ⟨_, _, rfl⟩

/-- Adding an element, with the outcome in full. -/
theorem addElem_spec {S : BState × List GB} (h : WF S) (b : GB) (hg : b.group < S.1.next) (name : Str) (e : Elem) :
    ('.' ∈ name ∧ addElem S.1 b name e = (S.1, .error .value)) ∨
    ('.' ∉ name ∧ ∃ k st, addElem S.1 b name e = (st, .ok (e.setName k)) ∧ KeyFor (keysOf (theGroup S.1 b)) (word e) name k ∧
      theGroup st b = withEntry (theGroup S.1 b) k (e.setName k) ∧ (∀ g, g ≠ b.group → st.obj g = S.1.obj g) ∧
      st.next = S.1.next ∧ pointsOf st b = pointsOf S.1 b ∧ (k, Item.leaf (e.setName k)) ∈ (st.obj b.group).items) := by
  have hk := keysOf_tree h hg
  rcases addKey_spec (S.1.obj b.group) (clsOf e) name (clsOf_no_dot e) (h.keys _ hg).2 with ⟨h0, h1⟩ | ⟨h0, k, h1, h2, h3, h4⟩
  · exact .inl ⟨h0, by simp only [addElem, h1]⟩
  · refine .inr ⟨h0, k, ⟨Function.update S.1.obj b.group ((S.1.obj b.group).put k (.leaf (e.setName k))), S.1.next⟩,
      by simp only [addElem, h1], ?_, ?_, ?_, rfl, ?_, ?_⟩
    · rw [theGroup, hk, ← word_eq]; exact h4
    · exact tree_put h hg h2 h3 (setName_name e k)
    · intro g hne; simp [hne]
    · simp [pointsOf, GObj.put]
    · simp [GObj.put]

theorem shaped_setName (h : Hdr) (shape : ShapeArg) (k : Str) : (shaped h shape).setName k = shaped { h with name := k } shape := by
  cases shape <;> rfl

theorem shaped_word (h h' : Hdr) (shape : ShapeArg) : word (shaped h shape) = word (shaped h' shape) := by
  cases shape <;> rfl

/-- C72: a call that makes an element fails exactly when the kind of shape is unknown (`ValueError`), the shape may not be open
(`AssertionError`), or the name has a dot (`ValueError`); nothing is changed then. -/
theorem C72_fails (i : ℕ) (b : GB) (hb : (run n0 pens kind0 ops).2[i]? = some b) (name : Str) (kind : KindArg)
    (closed : Option Bool) (shape : ShapeArg) :
    let S := run n0 pens kind0 ops
    let r := elemAny S.1 b name kind closed shape
    ((¬ ∃ e, r.2 = .ok e) ↔ penFor b kind = none ∨
      (∃ pb, penFor b kind = some pb ∧ ¬ Allowed pb (closed.getD pb.brush.isSome) shape) ∨ '.' ∈ name) ∧
    ((¬ ∃ e, r.2 = .ok e) → r.1 = S.1 ∧
      ((penFor b kind = none ∧ r.2 = .error .value) ∨
       (∃ pb, penFor b kind = some pb ∧ ¬ Allowed pb (closed.getD pb.brush.isSome) shape ∧ r.2 = .error .assertion) ∨
       (∃ pb, penFor b kind = some pb ∧ Allowed pb (closed.getD pb.brush.isSome) shape ∧ '.' ∈ name ∧ r.2 = .error .value))) := by
  intro S r
  have h : WF S := run_wf n0 pens kind0 ops
  have hg : b.group < S.1.next := h.own i b hb ▸ h.lt hb
  have hr : r = elemAny S.1 b name kind closed shape := rfl
  clear_value r
  clear hb
  clear_value S
  unfold elemAny at hr
  rw [pickPen_spec] at hr
  cases hp : penFor b kind with
  | none => rw [hp] at hr; simp only at hr; rw [hr]; simp
  | some pb =>
    rw [hp] at hr; simp only at hr
    rcases construct_spec name pb (closed.getD pb.filled) shape with ⟨ha, hc⟩ | ⟨ha, hc⟩
    · rw [hc] at hr; simp only at hr
      rcases addElem_spec h b hg name (shaped ⟨name, pb, closed.getD pb.filled, Mat3.one⟩ shape) with ⟨h0, h1⟩ | ⟨h0, k, st, h1, -⟩
      · rw [h1] at hr
        have ha' : Allowed pb (closed.getD pb.brush.isSome) shape := ha
        rw [hr]; simp [h0, ha']
      · rw [h1] at hr
        have ha' : Allowed pb (closed.getD pb.brush.isSome) shape := ha
        rw [hr]; simp [h0, ha']
    · rw [hc] at hr; simp only at hr
      have ha' : ¬ Allowed pb (closed.getD pb.brush.isSome) shape := ha
      rw [hr]; simp [ha']

/-- C72: otherwise it returns the element asked for, with the pen of the kind of shape, closed as asked or else if filled, and without a
transform; that element is the new last entry of the builder's group, and no other group is changed. -/
theorem C72_elem (i : ℕ) (b : GB) (hb : (run n0 pens kind0 ops).2[i]? = some b) (name : Str) (kind : KindArg)
    (closed : Option Bool) (shape : ShapeArg) (st : BState) (e : Elem)
    (hr : elemAny (run n0 pens kind0 ops).1 b name kind closed shape = (st, .ok e)) :
    let S := run n0 pens kind0 ops
    ∃ pb k, penFor b kind = some pb ∧ e = shaped ⟨k, pb, closed.getD pb.brush.isSome, Mat3.one⟩ shape ∧
      KeyFor (keysOf (theGroup S.1 b)) (word e) name k ∧ theGroup st b = withEntry (theGroup S.1 b) k e ∧
      (∀ g, g ≠ b.group → st.obj g = S.1.obj g) ∧ st.next = S.1.next ∧ pointsOf st b = pointsOf S.1 b := by
  intro S
  have h := run_wf n0 pens kind0 ops
  have hg : b.group < S.1.next := h.own i b hb ▸ h.lt hb
  unfold elemAny at hr
  rw [pickPen_spec] at hr
  cases hp : penFor b kind with
  | none => rw [hp] at hr; simp at hr
  | some pb =>
    rw [hp] at hr; simp only at hr
    rcases construct_spec name pb (closed.getD pb.filled) shape with ⟨ha, hc⟩ | ⟨ha, hc⟩
    · rw [hc] at hr; simp only at hr
      rcases addElem_spec h b hg name (shaped ⟨name, pb, closed.getD pb.filled, Mat3.one⟩ shape) with
        ⟨h0, h1⟩ | ⟨h0, k, st', h1, h2, h3, h4, h5, h6, -⟩
      · rw [h1] at hr; simp at hr
      · rw [h1] at hr
        simp only [Prod.mk.injEq, Except.ok.injEq] at hr
        obtain ⟨rfl, rfl⟩ := hr
        rw [shaped_setName] at h3 ⊢
        exact ⟨pb, k, rfl, rfl, by rw [shaped_word _ ⟨name, pb, closed.getD pb.filled, Mat3.one⟩]; exact h2, h3, h4, h5, h6⟩
    · rw [hc] at hr; simp at hr

/-- C72: with the default for `closed`, a known kind and a name without a dot no call fails: rectangles and ellipses are closed, a curve is
closed if its pen fills. -/
theorem C72_defaults (i : ℕ) (b : GB) (hb : (run n0 pens kind0 ops).2[i]? = some b) (name : Str) (kind : KindArg)
    (pb : PenBrush) (hp : penFor b kind = some pb) (hn : '.' ∉ name) (p1 p2 : Pt ℝ) (radius : ℝ) (cps : List (CP ℝ)) :
    let S := run n0 pens kind0 ops
    (∃ k, (rect S.1 b name p1 p2 kind).2 = .ok (.rect ⟨k, pb, true, Mat3.one⟩ p1 p2)) ∧
    (∃ k, (rrect S.1 b name p1 p2 radius kind).2 = .ok (.rrect ⟨k, pb, true, Mat3.one⟩ p1 p2 radius)) ∧
    (∃ k, (ellipse S.1 b name p1 p2 kind).2 = .ok (.ellipse ⟨k, pb, true, Mat3.one⟩ p1 p2)) ∧
    (∃ k, (curve S.1 b name cps kind).2 = .ok (.curve ⟨k, pb, pb.brush.isSome, Mat3.one⟩ cps)) := by
  intro S
  have key : ∀ closed shape, Allowed pb (closed.getD pb.brush.isSome) shape →
      ∃ k, (elemAny S.1 b name kind closed shape).2 = .ok (shaped ⟨k, pb, closed.getD pb.brush.isSome, Mat3.one⟩ shape) := by
    intro closed shape ha
    obtain ⟨h1, -⟩ := C72_fails n0 pens kind0 ops i b hb name kind closed shape
    have hok : ∃ e, (elemAny S.1 b name kind closed shape).2 = .ok e := by
      by_contra hx
      rcases h1.1 hx with h | ⟨pb', h, h'⟩ | h
      · rw [hp] at h; simp at h
      · rw [hp] at h; injection h with h; subst h; exact h' ha
      · exact hn h
    obtain ⟨e, he⟩ := hok
    obtain ⟨pb', k, h2, h3, -⟩ := C72_elem n0 pens kind0 ops i b hb name kind closed shape _ e (Prod.ext rfl he)
    rw [hp] at h2; injection h2 with h2; subst h2
    exact ⟨k, by rw [he, h3]⟩
  refine ⟨key (some true) (.rect p1 p2) rfl, key (some true) (.rrect p1 p2 radius) rfl, key (some true) (.ellipse p1 p2) rfl,
    key none (.curve cps) ?_⟩
  simp only [Allowed, Option.getD_none]
  intro h
  cases hbr : pb.brush with
  | none => exact absurd hbr h
  | some x => rfl

/-- C72: `add(name, elem)` fails exactly when the name has a dot; otherwise the element becomes the last entry and is named by its key. -/
theorem C72_add (i : ℕ) (b : GB) (hb : (run n0 pens kind0 ops).2[i]? = some b) (name : Str) (e : Elem) :
    let S := run n0 pens kind0 ops
    ('.' ∈ name → addElem S.1 b name e = (S.1, .error .value)) ∧
    ('.' ∉ name → ∃ k st, addElem S.1 b name e = (st, .ok (e.setName k)) ∧ KeyFor (keysOf (theGroup S.1 b)) (word e) name k ∧
      theGroup st b = withEntry (theGroup S.1 b) k (e.setName k) ∧ (∀ g, g ≠ b.group → st.obj g = S.1.obj g)) := by
  intro S
  have h := run_wf n0 pens kind0 ops
  have hg : b.group < S.1.next := h.own i b hb ▸ h.lt hb
  rcases addElem_spec h b hg name e with ⟨h0, h1⟩ | ⟨h0, k, st, h1, h2, h3, h4, -⟩
  · exact ⟨fun _ => h1, fun x => absurd h0 x⟩
  · exact ⟨fun x => absurd x h0, fun _ => ⟨k, st, h1, h2, h3, h4⟩⟩

/-- C72: `group(name, pens, kind)` fails exactly when the name has a dot, and changes nothing then. Otherwise it returns a builder of a new
empty group, which is the last entry of this builder's group; pens and kind are those given, or else those of this builder. -/
theorem C72_group (i : ℕ) (b : GB) (hb : (run n0 pens kind0 ops).2[i]? = some b) (name : Str) (ps : Option (ByShape PenBrush))
    (kind : Option String) :
    let S := run n0 pens kind0 ops
    ('.' ∈ name → group S.1 b name ps kind = (S.1, .error .value)) ∧
    ('.' ∉ name → ∃ k st b', group S.1 b name ps kind = (st, .ok b') ∧ KeyFor (keysOf (theGroup S.1 b)) "group".toList name k ∧
      theGroup st b' = .group ⟨k, defaultPb, false, Mat3.one⟩ false [] ∧ pointsOf st b' = [] ∧
      theGroup st b = withEntry (theGroup S.1 b) k (theGroup st b') ∧
      (∀ b'' ∈ S.2, b''.group ≠ b'.group ∧ (b''.group ≠ b.group → st.obj b''.group = S.1.obj b''.group)) ∧
      b'.name = name ∧ (∀ p, ps = some p → b'.pens = p) ∧ (ps = none → b'.pens = b.pens) ∧
      (∀ c, kind = some c → c ≠ "" → b'.kind = c) ∧ (kind = none ∨ kind = some "" → b'.kind = b.kind)) := by
  intro S
  have h : WF S := run_wf n0 pens kind0 ops
  have hg : b.group < S.1.next := h.own i b hb ▸ h.lt hb
  clear hb
  clear_value S
  have hk := keysOf_tree h hg
  rcases group_spec h b hg name ps kind with ⟨h0, h1⟩ | ⟨h0, k, st, b', h1, h2, h3, h4, rfl, rfl⟩
  · exact ⟨fun _ => h1, fun x => absurd h0 x⟩
  · refine ⟨fun x => absurd x h0, fun _ => ⟨k, _, _, h1, by rw [theGroup, hk]; exact h2, ?_⟩⟩
    obtain ⟨t1, t2⟩ := tree_putGroup h hg h3 h4
    have hn : S.1.next ≠ b.group := by omega
    refine ⟨t1, ?_, ?_, ?_, rfl, ?_, ?_, ?_, ?_⟩
    · simp [pointsOf, hn]
    · unfold theGroup
      simp only at t1 t2 ⊢
      rw [t2, t1]
    · intro b'' hb''
      obtain ⟨j, hj⟩ := List.mem_iff_getElem?.1 hb''
      have hlt : b''.group < S.1.next := h.own j b'' hj ▸ h.lt hj
      refine ⟨by simp only; omega, fun hne => ?_⟩
      have : b''.group ≠ S.1.next := by omega
      simp only [Function.update_of_ne hne, Function.update_of_ne this]
    · rintro p rfl; rfl
    · rintro rfl; rfl
    · rintro c rfl hc; simp [hc]
    · rintro (rfl | rfl) <;> rfl

/-- C72: an element made by a call is found in the builder's group by its name, then and after any later calls. -/
theorem C72_found (i : ℕ) (b : GB) (hb : (run n0 pens kind0 ops).2[i]? = some b) (name : Str) (kind : KindArg)
    (closed : Option Bool) (shape : ShapeArg) (st : BState) (e : Elem)
    (hr : elemAny (run n0 pens kind0 ops).1 b name kind closed shape = (st, .ok e)) (more : List BOp) :
    let S' := run n0 pens kind0 (ops ++ .elem i name kind closed shape :: more)
    lookup (theGroup S'.1 b) e.hdr.name = .ok e ∧ (e.hdr.name, e) ∈ entries (theGroup S'.1 b) := by
  intro S'
  have h := run_wf n0 pens kind0 ops
  have hg : b.group < (run n0 pens kind0 ops).1.next := h.own i b hb ▸ h.lt hb
  have hS' : S' = more.foldl step (step (run n0 pens kind0 ops) (.elem i name kind closed shape)) := by
    simp only [S', run_append]; rfl
  have hstep : step (run n0 pens kind0 ops) (.elem i name kind closed shape) = (st, (run n0 pens kind0 ops).2) := by
    simp only [step, hb, hr]
  obtain ⟨w1, x1⟩ := step_wf h (.elem i name kind closed shape)
  rw [hstep] at w1 x1
  obtain ⟨w2, x2⟩ := foldl_wf more w1
  rw [← hstep, ← hS'] at w2 x2
  rw [hstep] at x2
  have hg1 : b.group < st.next := hg.trans_le x1.next
  have hm : (e.hdr.name, Item.leaf e) ∈ (st.obj b.group).items := by
    unfold elemAny at hr
    rw [pickPen_spec] at hr
    cases hp : penFor b kind with
    | none => rw [hp] at hr; simp at hr
    | some pb =>
      rw [hp] at hr; simp only at hr
      rcases construct_spec name pb (closed.getD pb.filled) shape with ⟨ha, hc⟩ | ⟨ha, hc⟩
      · rw [hc] at hr; simp only at hr
        rcases addElem_spec h b hg name (shaped ⟨name, pb, closed.getD pb.filled, Mat3.one⟩ shape) with
          ⟨h0, h1⟩ | ⟨h0, k, st', h1, h2, h3, h4, h5, h6, h7⟩
        · rw [h1] at hr; simp at hr
        · rw [h1] at hr
          simp only [Prod.mk.injEq, Except.ok.injEq] at hr
          obtain ⟨rfl, rfl⟩ := hr
          rw [setName_name]; exact h7
      · rw [hc] at hr; simp at hr
  have hm2 := x2.leaf_mem w2 hg1 hm
  exact ⟨(tree_lookup w2 (hg1.trans_le x2.next) hm2).1, hm2⟩

/-- C72: the group of a nested builder is, then and after any later calls, an entry of the outer builder's group, with everything added
through the nested builder in it: looking up `k.tag` in the outer group is looking up `tag` in the inner one. -/
theorem C72_nested (i : ℕ) (b : GB) (hb : (run n0 pens kind0 ops).2[i]? = some b) (name : Str) (ps : Option (ByShape PenBrush))
    (kind : Option String) (st : BState) (b' : GB) (hr : group (run n0 pens kind0 ops).1 b name ps kind = (st, .ok b'))
    (more : List BOp) :
    let S' := run n0 pens kind0 (ops ++ .group i name ps kind :: more)
    let k := (theGroup S'.1 b').hdr.name
    (k, theGroup S'.1 b') ∈ entries (theGroup S'.1 b) ∧ lookup (theGroup S'.1 b) k = .ok (theGroup S'.1 b') ∧
    ∀ tag, tag ≠ [] → lookup (theGroup S'.1 b) (k ++ '.' :: tag) = lookup (theGroup S'.1 b') tag := by
  intro S' k
  have h := run_wf n0 pens kind0 ops
  have hg : b.group < (run n0 pens kind0 ops).1.next := h.own i b hb ▸ h.lt hb
  have hS' : S' = more.foldl step (step (run n0 pens kind0 ops) (.group i name ps kind)) := by
    simp only [S', run_append]; rfl
  have hstep : step (run n0 pens kind0 ops) (.group i name ps kind) = (st, (run n0 pens kind0 ops).2 ++ [b']) := by
    simp only [step, hb, hr]
  obtain ⟨w1, x1⟩ := step_wf h (.group i name ps kind)
  rw [hstep] at w1 x1
  obtain ⟨w2, x2⟩ := foldl_wf more w1
  rw [← hstep, ← hS'] at w2 x2
  rw [hstep] at x2
  have hg1 : b.group < st.next := hg.trans_le x1.next
  rcases group_spec h b hg name ps kind with ⟨h0, h1⟩ | ⟨h0, k', st', b'', h1, h2, h3, h4, hst, hb'⟩
  · rw [h1] at hr; simp at hr
  · rw [h1] at hr
    simp only [Prod.mk.injEq, Except.ok.injEq] at hr
    obtain ⟨rfl, rfl⟩ := hr
    have hbg : b''.group = (run n0 pens kind0 ops).1.next := by rw [hb']
    have hm : (k', Item.grp b''.group) ∈ (st'.obj b.group).items := by
      rw [hst, hbg]; simp [GObj.put]
    have hlt : b''.group < st'.next := (w1.grp _ hg1 _ _ hm).2.1
    have hk : k = k' := by
      show (theGroup S'.1 b'').hdr.name = k'
      rw [theGroup, tree_unfold w2 (hlt.trans_le x2.next)]
      show (S'.1.obj b''.group).hdr.name = k'
      rw [x2.hdr _ hlt]
      exact (w1.grp _ hg1 _ _ hm).2.2
    have hm2 := x2.grp_mem w2 hg1 hm
    rw [hk]
    refine ⟨hm2, (tree_lookup w2 (hg1.trans_le x2.next) hm2).1, (tree_lookup w2 (hg1.trans_le x2.next) hm2).2 ?_⟩
    rw [tree_unfold w2 (hlt.trans_le x2.next)]; rfl

/-- C72: `point`/`add_pt` fails (`AssertionError`, nothing changed) exactly when the name is taken or has a dot; otherwise `lookup_pt` finds
the point by its name, then and after any later calls, and the elements are as before. -/
theorem C72_points (i : ℕ) (b : GB) (hb : (run n0 pens kind0 ops).2[i]? = some b) (name : Str) (p : Pt ℝ) (more : List BOp) :
    let S := run n0 pens kind0 ops
    let S' := run n0 pens kind0 (ops ++ .point i name p :: more)
    ((name ∈ (pointsOf S.1 b).map Prod.fst ∨ '.' ∈ name) → addPt S.1 b name p = (S.1, .error .assertion)) ∧
    (¬ (name ∈ (pointsOf S.1 b).map Prod.fst ∨ '.' ∈ name) → ∃ st, addPt S.1 b name p = (st, .ok ()) ∧
      theGroup st b = theGroup S.1 b ∧ (∀ g, g ≠ b.group → st.obj g = S.1.obj g) ∧ pointsOf st b = pointsOf S.1 b ++ [(name, p)] ∧
      lookupPt S'.1 b name = .ok p) := by
  intro S S'
  have h := run_wf n0 pens kind0 ops
  have hg : b.group < S.1.next := h.own i b hb ▸ h.lt hb
  constructor
  · rintro (h1 | h1)
    · simp only [addPt, pointsOf] at h1 ⊢; simp only [h1, if_true]
    · by_cases h2 : name ∈ (S.1.obj b.group).points.map Prod.fst
      · simp only [addPt, h2, if_true]
      · simp only [addPt, h2, if_false, (hasDot_iff name).2 h1, if_true]
  · intro h1
    push Not at h1
    obtain ⟨h1, h2⟩ := h1
    have hd : hasDot name = false := by
      cases hh : hasDot name with
      | false => rfl
      | true => exact absurd ((hasDot_iff name).1 hh) h2
    have hadd : addPt S.1 b name p = (⟨Function.update S.1.obj b.group
        { S.1.obj b.group with points := (S.1.obj b.group).points ++ [(name, p)] }, S.1.next⟩, .ok ()) := by
      simp only [pointsOf] at h1
      simp only [addPt, h1, if_false, hd]; simp
    refine ⟨_, hadd, ?_, ?_, ?_, ?_⟩
    · have hw := (addPt_wf h b hg name p).1
      rw [hadd] at hw
      unfold theGroup
      rw [tree_unfold h hg, tree_unfold hw hg]
      simp only [Function.update_self]
      congr 1
      refine List.map_congr_left fun x hx => ?_
      obtain ⟨k', it⟩ := x
      cases it with
      | leaf e => rfl
      | grp g' =>
        obtain ⟨h4, h5, -⟩ := h.grp _ hg k' g' hx
        simp only
        rw [tree_congr h _ b.group (fun g'' a _ => by simp [show g'' ≠ b.group by omega, S]) S.1.next g' h4 h5]
    · intro g hne; simp [hne]
    · simp [pointsOf]
    · have hS' : S' = more.foldl step (step S (.point i name p)) := by
        simp only [S', run_append]; rfl
      have hstep : step S (.point i name p) = ((addPt S.1 b name p).1, S.2) := by
        simp only [step, S, hb]
      obtain ⟨w1, x1⟩ := step_wf h (.point i name p)
      have hs2 : step (run n0 pens kind0 ops) (.point i name p) = step S (.point i name p) := rfl
      rw [hs2, hstep] at w1 x1
      obtain ⟨w2, x2⟩ := foldl_wf more w1
      rw [← hstep, ← hS'] at w2 x2
      rw [hstep] at x2
      have hg1 : b.group < (addPt S.1 b name p).1.next := hg.trans_le x1.next
      have hm : (name, p) ∈ ((addPt S.1 b name p).1.obj b.group).points := by rw [hadd]; simp
      have hm2 := (x2.pts _ hg1).subset hm
      have hnd := (w2.pts _ (hg1.trans_le x2.next)).1
      simp only [lookupPt, hd]
      have : (S'.1.obj b.group).points.find? (fun x => x.1 = name) = some (name, p) := by
        generalize (S'.1.obj b.group).points = l at hm2 hnd
        induction l with
        | nil => simp at hm2
        | cons y l ih =>
          simp only [List.map_cons, List.nodup_cons] at hnd
          rcases List.mem_cons.1 hm2 with rfl | hm2
          · simp
          · have : y.1 ≠ name := fun e => hnd.1 (e ▸ List.mem_map_of_mem (f := Prod.fst) hm2)
            rw [List.find?_cons_of_neg (by simpa using this)]
            exact ih hm2 hnd.2
      rw [this]; simp

/-- C72: `rotate_about_center` adds a copy of the element turned about the centre of its bounding box, named after it: drawn, a curve or a
group gives what it gave, turned by the angle about that centre. With `show` an ellipse of half-width 1 about the centre is added as well. -/
theorem C72_rotate (i : ℕ) (b : GB) (hb : (run n0 pens kind0 ops).2[i]? = some b) (elem : Elem) (angle : ℝ) (sh : Bool)
    (extra : Str) (st : BState) (e : Elem)
    (hr : rotateAboutCenter (run n0 pens kind0 ops).1 b elem angle sh extra = (st, .ok e)) :
    let S := run n0 pens kind0 ops
    ∃ bb c t k, elem.bbox = .ok bb ∧ bb.center = .ok c ∧ (elem.transform (TState.new.rotateAbout angle c)).2 = .ok t ∧ e = t.setName k ∧
      (∀ p, (TState.new.rotateAbout angle c).mat.apply p = turnAbout angle c p) ∧
      KeyFor (keysOf (theGroup S.1 b)) (word t) (elem.hdr.name ++ "_r".toList ++ extra) k ∧
      (sh = false → theGroup st b = withEntry (theGroup S.1 b) k e) ∧
      (sh = true → ∃ k', KeyFor (keysOf (theGroup S.1 b) ++ [k]) "ellipse".toList (elem.hdr.name ++ "_c".toList ++ extra) k' ∧
        theGroup st b = withEntry (withEntry (theGroup S.1 b) k e) k'
          (.ellipse ⟨k', elem.hdr.pb, true, Mat3.one⟩ ⟨c.x - 1, c.y - 1⟩ ⟨c.x + 1, c.y + 1⟩)) := by
  intro S
  have h := run_wf n0 pens kind0 ops
  have hg : b.group < S.1.next := h.own i b hb ▸ h.lt hb
  unfold rotateAboutCenter at hr
  cases hbb : elem.bbox with
  | error er => simp [center, hbb] at hr
  | ok bb =>
    have hcen : elem.center = bb.center := by simp [center, hbb]
    rw [hcen] at hr
    cases hc : bb.center with
    | error er => rw [hc] at hr; simp at hr
    | ok c =>
      rw [hc] at hr
      simp only at hr
      cases ht : (elem.transform (TState.new.rotateAbout angle c)).2 with
      | error er => rw [ht] at hr; simp at hr
      | ok t =>
        rw [ht] at hr
        simp only at hr
        have hap : ∀ p, (TState.new.rotateAbout angle c).mat.apply p = turnAbout angle c p := by
          intro p; exact congrFun (rotateAbout_new angle c) p
        rcases addElem_spec h b hg (elem.hdr.name ++ "_r".toList ++ extra) t with
          ⟨h0, h1⟩ | ⟨h0, k, st', h1, h2, h3, h4, h5, h6, h7⟩
        · rw [h1] at hr; simp at hr
        · rw [h1] at hr
          simp only at hr
          have hw := addElem_wf h b hg (elem.hdr.name ++ "_r".toList ++ extra) t
          rw [h1] at hw
          obtain ⟨w, -⟩ := hw
          have hg' : b.group < st'.next := by rw [h5]; exact hg
          cases sh with
          | false =>
            simp only [Bool.false_eq_true, if_false, Prod.mk.injEq, Except.ok.injEq] at hr
            obtain ⟨rfl, rfl⟩ := hr
            exact ⟨bb, c, t, k, rfl, hc, ht, rfl, hap, h2, fun _ => h3, by simp⟩
          | true =>
            simp only [if_true, ellipse, elemAny, pickPen, Option.getD_some, construct, if_true] at hr
            rcases addElem_spec w b hg' (elem.hdr.name ++ "_c".toList ++ extra)
                (.ellipse ⟨elem.hdr.name ++ "_c".toList ++ extra, elem.hdr.pb, true, Mat3.one⟩ (c.subVec ⟨1, 1⟩) (c.addVector ⟨1, 1⟩)) with
              ⟨j0, j1⟩ | ⟨j0, k', st'', j1, j2, j3, j4, -⟩
            · rw [j1] at hr; simp at hr
            · rw [j1] at hr
              simp only [Prod.mk.injEq, Except.ok.injEq] at hr
              obtain ⟨rfl, rfl⟩ := hr
              refine ⟨bb, c, t, k, rfl, hc, ht, rfl, hap, h2, by simp, fun _ => ⟨k', ?_, ?_⟩⟩
              · rw [h3] at j2
                have : keysOf (withEntry (theGroup S.1 b) k (t.setName k)) = keysOf (theGroup S.1 b) ++ [k] := by
                  rw [theGroup, tree_unfold h hg]; simp [keysOf, entries, withEntry]
                rw [this] at j2
                exact j2
              · rw [j3, h3]; rfl

/-- C72: what the turned copy of a curve or a group draws. -/
theorem C72_rotate_drawn (cfg : DCfg) (elem t : Elem) (c : Pt ℝ) (angle : ℝ) (s : TState)
    (hk : (∃ h cps, elem = .curve h cps ∧ h.xf.Affine) ∨ ∃ h hidden es, elem = .group h hidden es)
    (ht : (elem.transform (TState.new.rotateAbout angle c)).2 = .ok t) :
    (paths cfg t s).2 = drawn cfg elem (s.mat.mul (TState.new.rotateAbout angle c).mat) := by
  have ha : (TState.new.rotateAbout angle c).mat.Affine := by
    simp [TState.rotateAbout, TState.rotate, TState.translate, TState.new, Mat3.mul, Mat3.rotateMat, Mat3.translateMat, Mat3.one,
      Mat3.Affine]
  rcases hk with ⟨h, cps, rfl, hx⟩ | ⟨h, hidden, es, rfl⟩
  · exact C41_transform_curve cfg h cps _ _ s t hx ha (Prod.ext rfl ht)
  · exact C41_transform_group cfg h hidden es _ _ s t (Prod.ext rfl ht)

/-- C72: `hide` has no effect on what is drawn: only the builder's own attribute changes, which nothing reads. -/
theorem C72_hide_counterexample (i : ℕ) (b : GB) (hb : (run n0 pens kind0 ops).2[i]? = some b) :
    let S := run n0 pens kind0 ops
    let S' := run n0 pens kind0 (ops ++ [.hide i])
    ∃ b', S'.2[i]? = some b' ∧ b'.hidden = true ∧ theGroup S'.1 b' = theGroup S.1 b := by
  intro S S'
  have hS' : S' = step S (.hide i) := by simp only [S', run_append]; rfl
  have hl := (List.getElem?_eq_some_iff.1 hb).1
  refine ⟨hide b, ?_, rfl, ?_⟩
  · rw [hS']; simp only [step, S, hb]; simp [hl]
  · rw [hS']; simp only [step, S, hb]; rfl

/-- A program: a group within a group, a rectangle added twice under one name to the inner one, and a point. -/
def prog (p : PenBrush) : List BOp :=
  [.group 0 ['a'] none none, .elem 1 ['x'] (.pb p) (some true) (.rect ⟨0, 0⟩ ⟨4, 4⟩),
   .elem 1 ['x'] (.pb p) (some true) (.rect ⟨1, 1⟩ ⟨2, 2⟩), .point 1 ['p'] ⟨3, 3⟩]

/-- It has two builders; the second rectangle is found from the outer group under a name made up. -/
example (p : PenBrush) (pens : ByShape PenBrush) : ∃ b0 b1,
    let S := run ['t'] pens "edge" (prog p)
    S.2 = [b0, b1] ∧ keysOf (theGroup S.1 b1) = [['x'], "rectangle#0".toList] ∧
    lookup (theGroup S.1 b0) "a.rectangle#0".toList = .ok (.rect ⟨"rectangle#0".toList, p, true, Mat3.one⟩ ⟨1, 1⟩ ⟨2, 2⟩) ∧
    lookupPt S.1 b1 ['p'] = .ok ⟨3, 3⟩ := by
  refine ⟨⟨['t'], pens, "edge", false, 0⟩, ⟨['a'], pens, "edge", false, 1⟩, ?_⟩
  have hw : className ['E', 'l', 'e', 'm', 'R', 'e', 'c', 't', 'a', 'n', 'g', 'l', 'e'] = ['r', 'e', 'c', 't', 'a', 'n', 'g', 'l', 'e'] := by
    simp [className, strLower]
  have hw' : clsOf (.rect ⟨['x'], p, true, Mat3.one⟩ ⟨1, 1⟩ ⟨2, 2⟩) = "ElemRectangle".toList := rfl
  have h0 : fmtNat 0 = ['0'] := by simp [fmtNat]
  simp [run, prog, step, newBuilder, group, addKey, pickName, hasDot, GObj.put, elemAny, pickPen, construct, addElem,
    afterLastDot, hw', hw, freshName, h0, addPt, theGroup, tree, keysOf, entries, lookup, lookupAll, partitionDot,
    isGroup, Elem.setName, lookupPt]

end X7.Build
