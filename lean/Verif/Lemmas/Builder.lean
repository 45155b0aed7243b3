import Verif.Spec.Builder
import Verif.Lemmas.ElemNames
import Verif.Props.GroupNames

/-!
Lemmas about the builder model: shape of the heap, unfolding of groups.
-/

noncomputable section

namespace X7.Build

open GroupNames

theorem word_eq (e : Elem) : className (clsOf e) = word e := by
  match e with
  | .curve _ _ => show className "ElemCurve".toList = "curve".toList; simp [className, strLower]
  | .rect _ _ _ => show className "ElemRectangle".toList = "rectangle".toList; simp [className, strLower]
  | .rrect _ _ _ _ => show className "ElemRectangleRounded".toList = "rectanglerounded".toList; simp [className, strLower]
  | .ellipse _ _ _ => show className "ElemEllipse".toList = "ellipse".toList; simp [className, strLower]
  | .group _ _ _ => show className "Group".toList = "group".toList; simp [className, strLower]
  | .holes _ _ _ => show className "ElemWithHoles".toList = "withholes".toList; simp [className, strLower]

theorem clsOf_no_dot (e : Elem) : '.' ∉ clsOf e := by
  match e with
  | .curve _ _ => show '.' ∉ "ElemCurve".toList; simp
  | .rect _ _ _ => show '.' ∉ "ElemRectangle".toList; simp
  | .rrect _ _ _ _ => show '.' ∉ "ElemRectangleRounded".toList; simp
  | .ellipse _ _ _ => show '.' ∉ "ElemEllipse".toList; simp
  | .group _ _ _ => show '.' ∉ "Group".toList; simp
  | .holes _ _ _ => show '.' ∉ "ElemWithHoles".toList; simp

theorem afterLastDot_self {name : Str} (h : '.' ∉ name) : afterLastDot name = name := by
  unfold afterLastDot
  have : ∀ c ∈ name.reverse, (c != '.') = true := by
    intro c hc; simp only [bne_iff_ne, ne_eq]; rintro rfl; exact h (List.mem_reverse.1 hc)
  rw [List.takeWhile_eq_self_iff.2 this, List.reverse_reverse]

/-- The outcome of looking for a key. -/
theorem addKey_spec (o : GObj) (cls name : Str) (hc : '.' ∉ cls) (hk : ∀ k ∈ o.items.map Prod.fst, '.' ∉ k) :
    ('.' ∈ name ∧ addKey o cls name = .error .value) ∨
    ('.' ∉ name ∧ ∃ k, addKey o cls name = .ok k ∧ '.' ∉ k ∧ k ∉ o.items.map Prod.fst ∧
      KeyFor (o.items.map Prod.fst) (className cls) name k) := by
  obtain ⟨r, hr, h1, h2, h3⟩ := pickName_spec (keys := o.items.map Prod.fst) (name := name) (fixname := false) hc
  by_cases hd : '.' ∈ name
  · have hn : name ∉ o.items.map Prod.fst := fun x => hk _ x hd
    have := h2 ⟨hd, rfl, hn⟩
    subst this
    exact .inl ⟨hd, by simp [addKey, hr, hasDot_iff, hd]⟩
  · obtain ⟨a, b⟩ := h1 (.inl hd)
    refine .inr ⟨hd, r, ?_, a, b, fun hn => h3 hn hd, fun hn => ?_⟩
    · simp only [addKey, hr, hasDot_iff, a, if_neg b]; simp
    · simp only [pickName, hn, decide_true, Bool.or_true, if_true, afterLastDot_self hd] at hr
      obtain ⟨c, n, -, e1, e2⟩ := freshName_some hr
      exact ⟨n, e1, c, fun j hj => e2 j (Nat.zero_le _) hj⟩

/-- What is true of the heap and the builders of a program. -/
structure WF (s : BState × List GB) : Prop where
  len : s.2.length = s.1.next
  own : ∀ (i : ℕ) (b : GB), s.2[i]? = some b → b.group = i
  keys : ∀ g < s.1.next, ((s.1.obj g).items.map Prod.fst).Nodup ∧ ∀ k ∈ (s.1.obj g).items.map Prod.fst, '.' ∉ k
  leaf : ∀ g < s.1.next, ∀ k e, (k, Item.leaf e) ∈ (s.1.obj g).items → e.hdr.name = k
  grp : ∀ g < s.1.next, ∀ k g', (k, Item.grp g') ∈ (s.1.obj g).items → g < g' ∧ g' < s.1.next ∧ (s.1.obj g').hdr.name = k
  pts : ∀ g < s.1.next, ((s.1.obj g).points.map Prod.fst).Nodup ∧ ∀ k ∈ (s.1.obj g).points.map Prod.fst, '.' ∉ k
  plain : ∀ g < s.1.next, (s.1.obj g).hidden = false ∧ (s.1.obj g).hdr.pb = defaultPb ∧ (s.1.obj g).hdr.closed = false ∧
    (s.1.obj g).hdr.xf = Mat3.one

/-- What a program cannot undo. -/
structure Ext (s s' : BState × List GB) : Prop where
  next : s.1.next ≤ s'.1.next
  hdr : ∀ g < s.1.next, (s'.1.obj g).hdr = (s.1.obj g).hdr
  hidden : ∀ g < s.1.next, (s'.1.obj g).hidden = (s.1.obj g).hidden
  items : ∀ g < s.1.next, (s.1.obj g).items <+: (s'.1.obj g).items
  pts : ∀ g < s.1.next, (s.1.obj g).points <+: (s'.1.obj g).points
  gbs : ∀ (i : ℕ) (b : GB), s.2[i]? = some b → ∃ b' : GB, s'.2[i]? = some b' ∧ b'.name = b.name ∧ b'.pens = b.pens ∧ b'.kind = b.kind ∧ b'.group = b.group

theorem Ext.refl (s : BState × List GB) : Ext s s :=
  ⟨le_rfl, fun _ _ => rfl, fun _ _ => rfl, fun _ _ => List.prefix_rfl, fun _ _ => List.prefix_rfl,
    fun _ b h => ⟨b, h, rfl, rfl, rfl, rfl⟩⟩

theorem Ext.trans {a b c : BState × List GB} (h : Ext a b) (k : Ext b c) : Ext a c where
  next := h.next.trans k.next
  hdr g hg := (k.hdr g (hg.trans_le h.next)).trans (h.hdr g hg)
  hidden g hg := (k.hidden g (hg.trans_le h.next)).trans (h.hidden g hg)
  items g hg := (h.items g hg).trans (k.items g (hg.trans_le h.next))
  pts g hg := (h.pts g hg).trans (k.pts g (hg.trans_le h.next))
  gbs i x hx := by
    obtain ⟨y, h1, h2, h3, h4, h5⟩ := h.gbs i x hx
    obtain ⟨z, k1, k2, k3, k4, k5⟩ := k.gbs i y h1
    exact ⟨z, k1, k2.trans h2, k3.trans h3, k4.trans h4, k5.trans h5⟩

theorem WF.lt {s : BState × List GB} (h : WF s) {i : ℕ} {b : GB} (hb : s.2[i]? = some b) : i < s.1.next := by
  rw [← h.len]; exact (List.getElem?_eq_some_iff.1 hb).1

theorem setName_name (e : Elem) (n : Str) : (e.setName n).hdr.name = n := by
  cases e <;> rfl

/-- Adding one entry. -/
theorem WF.put {s : BState × List GB} (h : WF s) {g : ℕ} (hg : g < s.1.next) {k : Str} {e : Elem} (h1 : '.' ∉ k)
    (h2 : k ∉ (s.1.obj g).items.map Prod.fst) (h3 : e.hdr.name = k) :
    WF (⟨Function.update s.1.obj g ((s.1.obj g).put k (.leaf e)), s.1.next⟩, s.2) ∧
    Ext s (⟨Function.update s.1.obj g ((s.1.obj g).put k (.leaf e)), s.1.next⟩, s.2) := by
  have hh : ∀ g', ((Function.update s.1.obj g ((s.1.obj g).put k (.leaf e))) g').hdr = (s.1.obj g').hdr := by
    intro g'; by_cases hgg : g' = g
    · subst hgg; simp [GObj.put]
    · simp [hgg]
  constructor
  · refine ⟨h.len, h.own, ?_, ?_, ?_, ?_, ?_⟩
    · intro g' hg'
      by_cases hgg : g' = g
      · subst hgg
        simp only [Function.update_self, GObj.put, List.map_append, List.map_cons, List.map_nil]
        refine ⟨?_, ?_⟩
        · rw [List.nodup_append']
          refine ⟨(h.keys _ hg).1, by simp, ?_⟩
          intro x hx hy
          rw [List.mem_singleton] at hy; subst hy; exact h2 hx
        · intro x hx
          rcases List.mem_append.1 hx with hx | hx
          · exact (h.keys _ hg).2 x hx
          · rw [List.mem_singleton] at hx; subst hx; exact h1
      · simpa [hgg] using h.keys g' hg'
    · intro g' hg' k' e' hm
      by_cases hgg : g' = g
      · subst hgg
        simp only [Function.update_self, GObj.put, List.mem_append, List.mem_singleton, Prod.mk.injEq, Item.leaf.injEq] at hm
        rcases hm with hm | ⟨rfl, rfl⟩
        · exact h.leaf _ hg _ _ hm
        · exact h3
      · simp only [Function.update_of_ne hgg] at hm; exact h.leaf _ hg' _ _ hm
    · intro g' hg' k' g'' hm
      simp only [hh]
      by_cases hgg : g' = g
      · subst hgg
        simp only [Function.update_self, GObj.put, List.mem_append, List.mem_singleton, Prod.mk.injEq, reduceCtorEq, and_false,
          or_false] at hm
        exact h.grp _ hg _ _ hm
      · simp only [Function.update_of_ne hgg] at hm; exact h.grp _ hg' _ _ hm
    · intro g' hg'
      by_cases hgg : g' = g
      · subst hgg; simpa [GObj.put] using h.pts _ hg
      · simpa [hgg] using h.pts g' hg'
    · intro g' hg'
      by_cases hgg : g' = g
      · subst hgg; simpa [GObj.put] using h.plain _ hg
      · simpa [hgg] using h.plain g' hg'
  · refine ⟨le_rfl, fun g' _ => hh g', ?_, ?_, ?_, fun _ b hb => ⟨b, hb, rfl, rfl, rfl, rfl⟩⟩
    all_goals
      intro g' hg'
      by_cases hgg : g' = g
      · subst hgg; simp [GObj.put]
      · simp [hgg]

theorem addElem_wf {s : BState × List GB} (h : WF s) (b : GB) (hg : b.group < s.1.next) (name : Str) (e : Elem) :
    WF ((addElem s.1 b name e).1, s.2) ∧ Ext s ((addElem s.1 b name e).1, s.2) := by
  unfold addElem
  rcases addKey_spec (s.1.obj b.group) (clsOf e) name (clsOf_no_dot e) (h.keys _ hg).2 with ⟨_, h1⟩ | ⟨_, k, h1, h2, h3, _⟩
  · rw [h1]; exact ⟨h, Ext.refl s⟩
  · rw [h1]; exact h.put hg h2 h3 (setName_name e k)

theorem elemAny_wf {s : BState × List GB} (h : WF s) (b : GB) (hg : b.group < s.1.next) (name : Str) (kind : KindArg)
    (closed : Option Bool) (shape : ShapeArg) :
    WF ((elemAny s.1 b name kind closed shape).1, s.2) ∧ Ext s ((elemAny s.1 b name kind closed shape).1, s.2) := by
  unfold elemAny
  cases pickPen b kind with
  | error er => exact ⟨h, Ext.refl s⟩
  | ok pb =>
    dsimp only
    cases construct name pb (closed.getD pb.filled) shape with
    | error er => exact ⟨h, Ext.refl s⟩
    | ok e => exact addElem_wf h b hg name e

theorem rotate_wf {s : BState × List GB} (h : WF s) (b : GB) (hg : b.group < s.1.next) (e : Elem) (angle : ℝ) (sh : Bool)
    (extra : Str) :
    WF ((rotateAboutCenter s.1 b e angle sh extra).1, s.2) ∧ Ext s ((rotateAboutCenter s.1 b e angle sh extra).1, s.2) := by
  unfold rotateAboutCenter
  cases e.center with
  | error er => exact ⟨h, Ext.refl s⟩
  | ok c =>
    dsimp only
    cases (e.transform (TState.new.rotateAbout angle c)).2 with
    | error er => exact ⟨h, Ext.refl s⟩
    | ok new =>
      dsimp only
      have h1 := addElem_wf h b hg (e.hdr.name ++ "_r".toList ++ extra) new
      generalize addElem s.1 b (e.hdr.name ++ "_r".toList ++ extra) new = r at h1
      obtain ⟨st, r⟩ := r
      cases r with
      | error er => exact h1
      | ok new =>
        dsimp only at h1 ⊢
        cases sh with
        | false => exact h1
        | true =>
          simp only [if_true]
          have hg' : b.group < st.next := hg.trans_le h1.2.next
          have h2 := elemAny_wf h1.1 b hg' (e.hdr.name ++ "_c".toList ++ extra) (.pb e.hdr.pb) (some true)
            (.ellipse (c.subVec ⟨1, 1⟩) (c.addVector ⟨1, 1⟩))
          unfold ellipse
          dsimp only at h2
          generalize elemAny st b (e.hdr.name ++ "_c".toList ++ extra) (.pb e.hdr.pb) (some true)
            (.ellipse (c.subVec ⟨1, 1⟩) (c.addVector ⟨1, 1⟩)) = r at h2
          obtain ⟨st', r⟩ := r
          cases r with
          | error er => exact ⟨h2.1, h1.2.trans h2.2⟩
          | ok x => exact ⟨h2.1, h1.2.trans h2.2⟩

theorem addPt_wf {s : BState × List GB} (h : WF s) (b : GB) (hg : b.group < s.1.next) (name : Str) (p : Pt ℝ) :
    WF ((addPt s.1 b name p).1, s.2) ∧ Ext s ((addPt s.1 b name p).1, s.2) := by
  unfold addPt
  dsimp only
  split
  · exact ⟨h, Ext.refl s⟩
  · rename_i hn
    split
    · exact ⟨h, Ext.refl s⟩
    · rename_i hd
      rw [hasDot_iff] at hd
      have hi : ∀ g', (Function.update s.1.obj b.group
          { s.1.obj b.group with points := (s.1.obj b.group).points ++ [(name, p)] } g').items = (s.1.obj g').items := by
        intro g'; by_cases hgg : g' = b.group
        · subst hgg; simp
        · simp [hgg]
      have hh : ∀ g', (Function.update s.1.obj b.group
          { s.1.obj b.group with points := (s.1.obj b.group).points ++ [(name, p)] } g').hdr = (s.1.obj g').hdr := by
        intro g'; by_cases hgg : g' = b.group
        · subst hgg; simp
        · simp [hgg]
      constructor
      · refine ⟨h.len, h.own, ?_, ?_, ?_, ?_, ?_⟩
        · simpa only [hi] using h.keys
        · simpa only [hi] using h.leaf
        · simpa only [hi, hh] using h.grp
        · intro g' hg'
          by_cases hgg : g' = b.group
          · subst hgg
            simp only [Function.update_self, List.map_append, List.map_cons, List.map_nil]
            refine ⟨?_, ?_⟩
            · rw [List.nodup_append']
              refine ⟨(h.pts _ hg).1, by simp, ?_⟩
              intro x hx hy
              rw [List.mem_singleton] at hy; subst hy; exact hn hx
            · intro x hx
              rcases List.mem_append.1 hx with hx | hx
              · exact (h.pts _ hg).2 x hx
              · rw [List.mem_singleton] at hx; subst hx; exact hd
          · simpa [hgg] using h.pts g' hg'
        · intro g' hg'
          by_cases hgg : g' = b.group
          · subst hgg; simpa using h.plain _ hg
          · simpa [hgg] using h.plain g' hg'
      · refine ⟨le_rfl, fun g' _ => hh g', ?_, ?_, ?_, fun _ b hb => ⟨b, hb, rfl, rfl, rfl, rfl⟩⟩
        all_goals
          intro g' hg'
          by_cases hgg : g' = b.group
          · subst hgg; simp
          · simp [hgg]

/-- The outcome of `group`. -/
theorem group_spec {s : BState × List GB} (h : WF s) (b : GB) (hg : b.group < s.1.next) (name : Str)
    (pens : Option (ByShape PenBrush)) (kind : Option String) :
    ('.' ∈ name ∧ group s.1 b name pens kind = (s.1, .error .value)) ∨
    ('.' ∉ name ∧ ∃ k st b', group s.1 b name pens kind = (st, .ok b') ∧
      KeyFor ((s.1.obj b.group).items.map Prod.fst) "group".toList name k ∧ '.' ∉ k ∧
      k ∉ (s.1.obj b.group).items.map Prod.fst ∧
      st = ⟨Function.update (Function.update s.1.obj s.1.next ⟨⟨k, defaultPb, false, Mat3.one⟩, false, [], []⟩) b.group
        ((s.1.obj b.group).put k (.grp s.1.next)), s.1.next + 1⟩ ∧
      b' = ⟨name, pens.getD b.pens, (match kind with | none => b.kind | some s => if s = "" then b.kind else s), false, s.1.next⟩) := by
  have hw : className "Group".toList = "group".toList := by decide
  rcases addKey_spec (s.1.obj b.group) "Group".toList name (by simp) (h.keys _ hg).2 with ⟨h0, h1⟩ | ⟨h0, k, h1, h2, h3, h4⟩
  · exact .inl ⟨h0, by simp only [group, h1]⟩
  · exact .inr ⟨h0, k, _, _, by simp only [group, h1]; rfl, hw ▸ h4, h2, h3, rfl, rfl⟩

theorem WF.putGroup {s : BState × List GB} (h : WF s) {g : ℕ} (hg : g < s.1.next) {k : Str} (h1 : '.' ∉ k)
    (h2 : k ∉ (s.1.obj g).items.map Prod.fst) {b' : GB} (hb : b'.group = s.1.next) :
    let st : BState := ⟨Function.update (Function.update s.1.obj s.1.next ⟨⟨k, defaultPb, false, Mat3.one⟩, false, [], []⟩) g
        ((s.1.obj g).put k (.grp s.1.next)), s.1.next + 1⟩
    WF (st, s.2 ++ [b']) ∧ Ext s (st, s.2 ++ [b']) := by
  intro st
  have o1 : st.obj g = (s.1.obj g).put k (.grp s.1.next) := by simp [st]
  have o2 : st.obj s.1.next = ⟨⟨k, defaultPb, false, Mat3.one⟩, false, [], []⟩ := by
    have : s.1.next ≠ g := by omega
    simp [st, this]
  have o3 : ∀ g', g' < s.1.next → g' ≠ g → st.obj g' = s.1.obj g' := by
    intro g' a b
    have : g' ≠ s.1.next := by omega
    simp [st, this, b]
  have hh : ∀ g' < s.1.next, (st.obj g').hdr = (s.1.obj g').hdr := by
    intro g' hg'; by_cases hgg : g' = g
    · subst hgg; rw [o1]; rfl
    · rw [o3 _ hg' hgg]
  have hc : ∀ g', g' < st.next → g' = s.1.next ∨ g' = g ∨ (g' < s.1.next ∧ g' ≠ g) := by
    intro g' hg'
    have : g' < s.1.next + 1 := hg'
    omega
  constructor
  · refine ⟨?_, ?_, ?_, ?_, ?_, ?_, ?_⟩
    · simp [st, h.len]
    · intro i b hi
      simp only at hi
      by_cases hl : i < s.2.length
      · rw [List.getElem?_append_left hl] at hi; exact h.own i b hi
      · rw [List.getElem?_append_right (by omega)] at hi
        have : i - s.2.length = 0 := by
          by_contra hne
          rw [List.getElem?_eq_none (by simp; omega)] at hi; simp at hi
        rw [this] at hi
        simp only [List.getElem?_cons_zero, Option.some.injEq] at hi
        subst hi
        rw [hb, ← h.len]; omega
    · intro g' hg'
      rcases hc g' hg' with rfl | rfl | ⟨a, b⟩
      · simp only [o2]; simp
      · simp only [o1, GObj.put, List.map_append, List.map_cons, List.map_nil]
        refine ⟨?_, ?_⟩
        · rw [List.nodup_append']
          refine ⟨(h.keys _ hg).1, by simp, ?_⟩
          intro x hx hy
          rw [List.mem_singleton] at hy; subst hy; exact h2 hx
        · intro x hx
          rcases List.mem_append.1 hx with hx | hx
          · exact (h.keys _ hg).2 x hx
          · rw [List.mem_singleton] at hx; subst hx; exact h1
      · simp only [o3 _ a b]; exact h.keys _ a
    · intro g' hg' k' e' hm
      rcases hc g' hg' with rfl | rfl | ⟨a, b⟩
      · simp [o2] at hm
      · simp only [o1, GObj.put, List.mem_append, List.mem_singleton, Prod.mk.injEq, reduceCtorEq, and_false, or_false] at hm
        exact h.leaf _ hg _ _ hm
      · simp only [o3 _ a b] at hm; exact h.leaf _ a _ _ hm
    · intro g' hg' k' g'' hm
      have key : ∀ g₀ < s.1.next, (k', Item.grp g'') ∈ (s.1.obj g₀).items →
          g₀ < g'' ∧ g'' < st.next ∧ (st.obj g'').hdr.name = k' := by
        intro g₀ a hm
        obtain ⟨x, y, z⟩ := h.grp _ a _ _ hm
        exact ⟨x, Nat.lt_succ_of_lt y, by rw [hh _ y]; exact z⟩
      rcases hc g' hg' with rfl | rfl | ⟨a, b⟩
      · simp [o2] at hm
      · simp only [o1, GObj.put, List.mem_append, List.mem_singleton, Prod.mk.injEq, Item.grp.injEq] at hm
        rcases hm with hm | ⟨rfl, rfl⟩
        · exact key _ hg hm
        · exact ⟨hg, Nat.lt_succ_self _, by simp only [o2]⟩
      · simp only [o3 _ a b] at hm; exact key _ a hm
    · intro g' hg'
      rcases hc g' hg' with rfl | rfl | ⟨a, b⟩
      · simp only [o2]; simp
      · simp only [o1, GObj.put]; exact h.pts _ hg
      · simp only [o3 _ a b]; exact h.pts _ a
    · intro g' hg'
      rcases hc g' hg' with rfl | rfl | ⟨a, b⟩
      · simp only [o2]; simp
      · simp only [o1, GObj.put]; exact h.plain _ hg
      · simp only [o3 _ a b]; exact h.plain _ a
  · refine ⟨Nat.le_succ _, hh, ?_, ?_, ?_, ?_⟩
    · intro g' hg'; by_cases hgg : g' = g
      · subst hgg; simp only [o1, GObj.put]
      · simp only [o3 _ hg' hgg]
    · intro g' hg'; by_cases hgg : g' = g
      · subst hgg; simp only [o1, GObj.put]; exact List.prefix_append _ _
      · simp only [o3 _ hg' hgg]; exact List.prefix_rfl
    · intro g' hg'; by_cases hgg : g' = g
      · subst hgg; simp only [o1, GObj.put]; exact List.prefix_rfl
      · simp only [o3 _ hg' hgg]; exact List.prefix_rfl
    · intro i b hi
      refine ⟨b, ?_, rfl, rfl, rfl, rfl⟩
      simp only
      rw [List.getElem?_append_left (List.getElem?_eq_some_iff.1 hi).1]; exact hi

theorem step_wf {s : BState × List GB} (h : WF s) (op : BOp) : WF (step s op) ∧ Ext s (step s op) := by
  cases op with
  | elem i name kind closed shape =>
    simp only [step]
    cases hi : s.2[i]? with
    | none => exact ⟨h, Ext.refl s⟩
    | some b => exact elemAny_wf h b (h.own i b hi ▸ h.lt hi) name kind closed shape
  | add i name e =>
    simp only [step]
    cases hi : s.2[i]? with
    | none => exact ⟨h, Ext.refl s⟩
    | some b => exact addElem_wf h b (h.own i b hi ▸ h.lt hi) name e
  | group i name pens kind =>
    simp only [step]
    cases hi : s.2[i]? with
    | none => exact ⟨h, Ext.refl s⟩
    | some b =>
      have hg := h.own i b hi ▸ h.lt hi
      rcases group_spec h b hg name pens kind with ⟨_, h1⟩ | ⟨_, k, st, b', h1, -, h2, h3, rfl, rfl⟩
      · simp only [h1]; exact ⟨h, Ext.refl s⟩
      · simp only [h1]; exact h.putGroup hg h2 h3 rfl
  | point i name p =>
    simp only [step]
    cases hi : s.2[i]? with
    | none => exact ⟨h, Ext.refl s⟩
    | some b => exact addPt_wf h b (h.own i b hi ▸ h.lt hi) name p
  | rotate i e angle sh extra =>
    simp only [step]
    cases hi : s.2[i]? with
    | none => exact ⟨h, Ext.refl s⟩
    | some b => exact rotate_wf h b (h.own i b hi ▸ h.lt hi) e angle sh extra
  | hide i =>
    simp only [step]
    cases hi : s.2[i]? with
    | none => exact ⟨h, Ext.refl s⟩
    | some b =>
      have hl := (List.getElem?_eq_some_iff.1 hi).1
      constructor
      · refine ⟨by simpa using h.len, ?_, h.keys, h.leaf, h.grp, h.pts, h.plain⟩
        intro j c hj
        by_cases hij : i = j
        · subst hij
          simp only [List.getElem?_set_self hl, Option.some.injEq] at hj
          subst hj; exact h.own i b hi
        · simp only [List.getElem?_set_ne hij] at hj; exact h.own j c hj
      · refine ⟨le_rfl, fun _ _ => rfl, fun _ _ => rfl, fun _ _ => List.prefix_rfl, fun _ _ => List.prefix_rfl, ?_⟩
        intro j c hj
        by_cases hij : i = j
        · subst hij
          rw [hi] at hj; injection hj with hj; subst hj
          exact ⟨hide b, by simp [hl], rfl, rfl, rfl, rfl⟩
        · exact ⟨c, by simpa [hij] using hj, rfl, rfl, rfl, rfl⟩

theorem foldl_wf (ops : List BOp) : ∀ {s : BState × List GB}, WF s → WF (ops.foldl step s) ∧ Ext s (ops.foldl step s) := by
  induction ops with
  | nil => intro s h; exact ⟨h, Ext.refl s⟩
  | cons op rest ih =>
    intro s h
    obtain ⟨a, b⟩ := step_wf h op
    obtain ⟨c, d⟩ := ih a
    exact ⟨c, b.trans d⟩

theorem run_wf (name : Str) (pens : ByShape PenBrush) (kind : String) (ops : List BOp) : WF (run name pens kind ops) := by
  refine (foldl_wf ops ?_).1
  have h0 : ∀ g < 1, g = 0 := by omega
  refine ⟨rfl, ?_, ?_, ?_, ?_, ?_, ?_⟩
  · intro i b hi
    cases i with
    | zero => simp only [List.getElem?_cons_zero, Option.some.injEq] at hi; subst hi; rfl
    | succ n => simp at hi
  all_goals
    intro g hg
    obtain rfl := h0 g hg
    simp [newBuilder]

theorem run_append (name : Str) (pens : ByShape PenBrush) (kind : String) (ops more : List BOp) :
    run name pens kind (ops ++ more) = more.foldl step (run name pens kind ops) := by
  simp [run, List.foldl_append]

/-- Below the fuel needed nothing changes. -/
theorem tree_fuel {s : BState × List GB} (h : WF s) : ∀ (n m g : ℕ), g < s.1.next → s.1.next - g ≤ n → s.1.next - g ≤ m →
    tree s.1 n g = tree s.1 m g := by
  intro n
  induction n with
  | zero => intro m g hg hn; omega
  | succ n ih =>
    intro m g hg hn hm
    cases m with
    | zero => omega
    | succ m =>
      simp only [tree]
      congr 1
      refine List.map_congr_left fun x hx => ?_
      obtain ⟨k, i⟩ := x
      cases i with
      | leaf e => rfl
      | grp g' =>
        obtain ⟨h1, h2, -⟩ := h.grp g hg k g' hx
        simp only
        rw [ih m g' h2 (by omega) (by omega)]

/-- A builder's group as a value, entry by entry. -/
theorem tree_unfold {s : BState × List GB} (h : WF s) {g : ℕ} (hg : g < s.1.next) :
    tree s.1 s.1.next g = .group (s.1.obj g).hdr (s.1.obj g).hidden
      ((s.1.obj g).items.map fun x => (x.1, match x.2 with | .leaf e => e | .grp g' => tree s.1 s.1.next g')) := by
  rw [tree_fuel h s.1.next (s.1.next - g + 1) g hg (by omega) (by omega)]
  simp only [tree]
  congr 1
  refine List.map_congr_left fun x hx => ?_
  obtain ⟨k, i⟩ := x
  cases i with
  | leaf e => rfl
  | grp g' =>
    obtain ⟨h1, h2, -⟩ := h.grp g hg k g' hx
    simp only
    rw [tree_fuel h (s.1.next - g) s.1.next g' h2 (by omega) (by omega)]

end X7.Build

namespace X7.Build

open GroupNames Elem

/-- The unfolding of a group only depends on the objects from it on. -/
theorem tree_congr {s : BState × List GB} (h : WF s) (st : BState) (g₀ : ℕ) (ho : ∀ g, g₀ < g → g < s.1.next → st.obj g = s.1.obj g) :
    ∀ n g, g₀ < g → g < s.1.next → tree st n g = tree s.1 n g := by
  intro n
  induction n with
  | zero => intro g a b; simp only [tree, ho g a b]
  | succ n ih =>
    intro g a b
    simp only [tree, ho g a b]
    congr 1
    refine List.map_congr_left fun x hx => ?_
    obtain ⟨k, i⟩ := x
    cases i with
    | leaf e => rfl
    | grp g' =>
      obtain ⟨h1, h2, -⟩ := h.grp g b k g' hx
      simp only
      rw [ih g' (by omega) h2]

theorem keysOf_tree {s : BState × List GB} (h : WF s) {g : ℕ} (hg : g < s.1.next) :
    keysOf (tree s.1 s.1.next g) = (s.1.obj g).items.map Prod.fst := by
  rw [tree_unfold h hg]
  simp [keysOf, entries, Function.comp_def]

/-- Adding an element to a group, seen on the unfolded group. -/
theorem tree_put {s : BState × List GB} (h : WF s) {g : ℕ} (hg : g < s.1.next) {k : Str} {e : Elem} (h1 : '.' ∉ k)
    (h2 : k ∉ (s.1.obj g).items.map Prod.fst) (h3 : e.hdr.name = k) :
    tree ⟨Function.update s.1.obj g ((s.1.obj g).put k (.leaf e)), s.1.next⟩ s.1.next g =
      withEntry (tree s.1 s.1.next g) k e := by
  have hw := (h.put hg h1 h2 h3).1
  rw [tree_unfold hw hg, tree_unfold h hg]
  simp only [Function.update_self, GObj.put, withEntry, List.map_append, List.map_cons, List.map_nil]
  congr 2
  refine List.map_congr_left fun x hx => ?_
  obtain ⟨k', i⟩ := x
  cases i with
  | leaf e => rfl
  | grp g' =>
    obtain ⟨h4, h5, -⟩ := h.grp g hg k' g' hx
    simp only
    rw [tree_congr h _ g (fun g'' a _ => by simp [show g'' ≠ g by omega]) s.1.next g' h4 h5]

theorem tree_putGroup {s : BState × List GB} (h : WF s) {g : ℕ} (hg : g < s.1.next) {k : Str} (h1 : '.' ∉ k)
    (h2 : k ∉ (s.1.obj g).items.map Prod.fst) :
    let st : BState := ⟨Function.update (Function.update s.1.obj s.1.next ⟨⟨k, defaultPb, false, Mat3.one⟩, false, [], []⟩) g
        ((s.1.obj g).put k (.grp s.1.next)), s.1.next + 1⟩
    tree st st.next s.1.next = .group ⟨k, defaultPb, false, Mat3.one⟩ false [] ∧
    tree st st.next g = withEntry (tree s.1 s.1.next g) k (.group ⟨k, defaultPb, false, Mat3.one⟩ false []) := by
  intro st
  have hw := (h.putGroup hg h1 h2 (b' := ⟨[], ⟨defaultPb, defaultPb, defaultPb, defaultPb, defaultPb⟩, "", false, s.1.next⟩) rfl).1
  have hn : s.1.next ≠ g := by omega
  have a : tree st st.next s.1.next = .group ⟨k, defaultPb, false, Mat3.one⟩ false [] := by
    rw [tree_unfold hw (Nat.lt_succ_self _)]
    simp [hn]
  refine ⟨a, ?_⟩
  rw [tree_unfold hw (Nat.lt_succ_of_lt hg), tree_unfold h hg]
  simp only [Function.update_self, GObj.put, withEntry, List.map_append, List.map_cons, List.map_nil]
  congr 2
  · refine List.map_congr_left fun x hx => ?_
    obtain ⟨k', i⟩ := x
    cases i with
    | leaf e => rfl
    | grp g' =>
      obtain ⟨h4, h5, -⟩ := h.grp g hg k' g' hx
      simp only
      rw [tree_congr h _ g (fun g'' a b => by simp [show g'' ≠ g by omega, show g'' ≠ s.1.next by omega]) _ g' h4 h5,
        tree_fuel h _ s.1.next g' h5 (by omega) (by omega)]
  · simp only [List.cons.injEq, Prod.mk.injEq, true_and, and_true]
    exact a

/-- Looking up an entry of a group by its key. -/
theorem lookupAll_mem : ∀ {es : List (Str × Elem)} {k : Str} {e : Elem} (t : Str), (es.map Prod.fst).Nodup → (k, e) ∈ es →
    lookupAll es k t = if t ≠ [] then if isGroup e then lookup e t else .error .value else .ok e := by
  intro es
  induction es with
  | nil => intro k e t _ h; simp at h
  | cons x rest ih =>
    intro k e t hn h
    obtain ⟨k', e'⟩ := x
    simp only [List.map_cons, List.nodup_cons] at hn
    rcases List.mem_cons.1 h with h | h
    · injection h with h1 h2; subst h1; subst h2
      simp [lookupAll]
    · have : k' ≠ k := by rintro rfl; exact hn.1 (List.mem_map_of_mem (f := Prod.fst) h)
      simp only [lookupAll, if_neg this]
      exact ih t hn.2 h

theorem tree_lookup {s : BState × List GB} (h : WF s) {g : ℕ} (hg : g < s.1.next) {k : Str} {e : Elem}
    (hm : (k, e) ∈ entries (tree s.1 s.1.next g)) :
    lookup (tree s.1 s.1.next g) k = .ok e ∧
    (isGroup e = true → ∀ t, t ≠ [] → lookup (tree s.1 s.1.next g) (k ++ '.' :: t) = lookup e t) := by
  have hk := keysOf_tree h hg
  have h1 := h.keys g hg
  rw [← hk] at h1
  rw [tree_unfold h hg] at h1 hm ⊢
  simp only [entries, keysOf] at hm h1
  have hd : '.' ∉ k := h1.2 k (List.mem_map_of_mem (f := Prod.fst) hm)
  constructor
  · simp only [lookup, partitionDot_none hd]
    rw [lookupAll_mem [] h1.1 hm]; simp
  · intro hg' t ht
    simp only [lookup, partitionDot_cons hd]
    rw [lookupAll_mem t h1.1 hm]; simp [ht, hg']

/-- The entries of a group object stay where they are. -/
theorem Ext.leaf_mem {s s' : BState × List GB} (hx : Ext s s') (h' : WF s') {g : ℕ} (hg : g < s.1.next) {k : Str} {e : Elem}
    (hm : (k, Item.leaf e) ∈ (s.1.obj g).items) : (k, e) ∈ entries (tree s'.1 s'.1.next g) := by
  rw [tree_unfold h' (hg.trans_le hx.next)]
  have := (hx.items g hg).subset hm
  exact List.mem_map.2 ⟨_, this, rfl⟩

theorem Ext.grp_mem {s s' : BState × List GB} (hx : Ext s s') (h' : WF s') {g g' : ℕ} (hg : g < s.1.next) {k : Str}
    (hm : (k, Item.grp g') ∈ (s.1.obj g).items) : (k, tree s'.1 s'.1.next g') ∈ entries (tree s'.1 s'.1.next g) := by
  rw [tree_unfold h' (hg.trans_le hx.next)]
  have := (hx.items g hg).subset hm
  exact List.mem_map.2 ⟨_, this, rfl⟩

theorem pickPen_spec (b : GB) (kind : KindArg) : pickPen b kind = match penFor b kind with
    | none => .error .value
    | some pb => .ok pb := by
  have hget : ∀ (pens : ByShape PenBrush) (s : String), pens.get s = match penNamed pens s with
      | none => .error .value
      | some pb => .ok pb := by
    intro pens s
    unfold penNamed ByShape.get
    by_cases h1 : s = "edge"
    · subst h1; rfl
    by_cases h2 : s = "filled"
    · subst h2; rfl
    by_cases h3 : s = "clear"
    · subst h3; rfl
    by_cases h4 : s = "edge_filled"
    · subst h4; rfl
    by_cases h5 : s = "edge_clear"
    · subst h5; rfl
    have e : ∀ t, s ≠ t → (s == t) = false := fun t h => by simpa using h
    simp only [h1, h2, h3, h4, h5, if_false, List.lookup, e _ h1, e _ h2, e _ h3, e _ h4, e _ h5]
  cases kind with
  | pb p => rfl
  | none => exact hget _ _
  | kind s =>
    by_cases hs : s = ""
    · subst hs; exact hget _ _
    · simp only [pickPen, if_neg hs, penFor]
      exact hget _ _

theorem construct_spec (name : Str) (pb : PenBrush) (closed : Bool) (shape : ShapeArg) :
    (Allowed pb closed shape ∧ construct name pb closed shape = .ok (shaped ⟨name, pb, closed, Mat3.one⟩ shape)) ∨
    (¬ Allowed pb closed shape ∧ construct name pb closed shape = .error .assertion) := by
  cases shape <;> cases closed <;> simp [Allowed, construct, shaped, checkClosed, PenBrush.filled]
  all_goals
    cases pb.brush <;> simp

end X7.Build
