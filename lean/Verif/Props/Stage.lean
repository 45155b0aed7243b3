import Verif.Lemmas.Stage
import Verif.Model.Morph

/-!
C111: several morphs and multi-step morphs in one tree, through every history of calls.
-/

noncomputable section

namespace X7.Stage

open CH Anim

/-- C111: as long as no curve of a morph is reversed, every history of calls does to the curves and to the tree what it would do to
independent values, and raises the same exceptions. -/
theorem C111_history {w : World} {v : Values} (hv : w.values = some v) (hs : Multi.Sound w.objs) (as : List Call) (ha : v.Allowed as) :
    (run w as).1.values = some (v.run as).1 ∧ (run w as).2 = (v.run as).2 ∧ Multi.Sound (run w as).1.objs := by
  obtain ⟨e, J⟩ := run_tinv (tinv_iff.2 ⟨hv, hs⟩) as ha
  exact ⟨(tinv_iff.1 J).1, e, (tinv_iff.1 J).2⟩

/-! ### The tree as a tree of values -/

theorem toElems_map (s : State) (l : List (Str × Node)) : toElems s l = l.map fun x => (x.1, toElem s x.2) := by
  induction l with
  | nil => rfl
  | cons x l ih =>
    obtain ⟨k, e⟩ := x
    simp [toElems, ih]

theorem toElem_curve {s : State} (hx : ∀ c ∈ s.curves, c.xf < s.xfs.length) {k i : ℕ} (hk : k < s.curves.length) (hi : i < s.curves.length) :
    toElem s (.curve k) = toElem s (.curve i) ↔ lookVal s k = lookVal s i := by
  have h1 := hx _ (List.getElem_mem hk)
  have h2 := hx _ (List.getElem_mem hi)
  simp only [toElem, lookVal, List.getElem?_eq_getElem hk, List.getElem?_eq_getElem hi, List.getElem?_eq_getElem h1,
    List.getElem?_eq_getElem h2]
  simp [and_assoc]

theorem same_shape {h : Hdr} {cps : List (CP ℝ)} {e : Elem} (he : isShape e) : Morph.sameCurve h cps e = false := by
  cases e <;> simp_all [isShape, Morph.sameCurve]

mutual
theorem replace_elem {s : State} {h : Hdr} {cps : List (CP ℝ)} {i r : ℕ} (hx : ∀ c ∈ s.curves, c.xf < s.xfs.length)
    (hi : i < s.curves.length) (hr : r < s.curves.length) (hh : toElem s (.curve i) = .curve h cps) :
    (n : Node) → (∀ x ∈ slots n, x.2 < s.curves.length) → (∀ x ∈ others n, ∀ e, x.2 = .inl e → isShape e) →
    (toElem s (replace (equalVal s i) r (nameVal s r) n).1, (replace (equalVal s i) r (nameVal s r) n).2) =
      Elem.replace (Morph.sameCurve h cps) (toElem s (.curve r)) (toElem s n) ∧
    isSame (equalVal s i) n = Morph.sameCurve h cps (toElem s n)
  | .curve k, hv, _ => by
    have hk := hv ([], k) (by simp [slots])
    refine ⟨?_, ?_⟩
    · simp only [replace, toElem, List.getElem?_eq_getElem hk, Elem.replace, Elem.replaceOther]
    · unfold Morph.sameCurve
      rw [← hh]
      simp only [isSame, equalVal]
      exact decide_eq_decide.2 (toElem_curve hx hk hi).symm
  | .shape e, _, ho => by
    have he := ho ([], .inl e) (by simp [others]) e rfl
    refine ⟨?_, ?_⟩
    · cases e <;> simp_all [replace, toElem, Elem.replace, isShape]
    · simp only [isSame, toElem]
      exact (same_shape he).symm
  | .group hd hidden es, hv, ho => by
    refine ⟨?_, ?_⟩
    · have := replaceAll_elem hx hi hr hh es es hv (fun x hx => ho x (by simp [others, hx]))
      simp only [replace, toElem, Elem.replace]
      simp only [toElem] at this
      rw [← this]
    · simp [isSame, toElem, Morph.sameCurve]
theorem replaceAll_elem {s : State} {h : Hdr} {cps : List (CP ℝ)} {i r : ℕ} (hx : ∀ c ∈ s.curves, c.xf < s.xfs.length)
    (hi : i < s.curves.length) (hr : r < s.curves.length) (hh : toElem s (.curve i) = .curve h cps) :
    (todo cur : List (Str × Node)) → (∀ x ∈ slotsAll todo, x.2 < s.curves.length) → (∀ x ∈ othersAll todo, ∀ e, x.2 = .inl e → isShape e) →
    (toElems s (replaceAll (equalVal s i) r (nameVal s r) todo cur).1, (replaceAll (equalVal s i) r (nameVal s r) todo cur).2) =
      Elem.replaceAll (Morph.sameCurve h cps) (toElem s (.curve r)) (toElems s todo) (toElems s cur)
  | [], cur, _, _ => by simp [replaceAll, toElems, Elem.replaceAll]
  | (k, e) :: rest, cur, hv, ho => by
    obtain ⟨e1, e2⟩ := replace_elem hx hi hr hh e
      (fun x hx => hv (k :: x.1, x.2) (by
        simp only [slotsAll, List.mem_append, List.mem_map]
        exact Or.inl ⟨x, hx, rfl⟩))
      (fun x hx => ho (k :: x.1, x.2) (by
        simp only [othersAll, List.mem_append, List.mem_map]
        exact Or.inl ⟨x, hx, rfl⟩))
    have ih := fun cur => replaceAll_elem hx hi hr hh rest cur (fun x hx => hv x (by simp [slotsAll, hx]))
      (fun x hx => ho x (by simp [othersAll, hx]))
    have hname : (toElem s (.curve r)).hdr.name = nameVal s r := by
      simp only [toElem, nameVal, List.getElem?_eq_getElem hr, Elem.hdr]
    have hfil : (toElems s cur).filter (fun x => decide (x.1 ≠ k)) = toElems s (cur.filter fun x => decide (x.1 ≠ k)) := by
      rw [toElems_map, toElems_map, List.filter_map]
      rfl
    have hkeys : ∀ l, (toElems s l).map Prod.fst = l.map Prod.fst := by
      intro l
      rw [toElems_map, List.map_map]
      rfl
    have hupd : ∀ e' : Node, (toElems s cur).map (fun x => if x.1 = k then (k, toElem s e') else x) =
        toElems s (cur.map fun x => if x.1 = k then (k, e') else x) := by
      intro e'
      rw [toElems_map, toElems_map, List.map_map, List.map_map]
      apply List.map_congr_left
      intro x _
      simp only [Function.comp]
      split <;> rfl
    simp only [replaceAll, toElems, Elem.replaceAll, e2]
    by_cases hsame : Morph.sameCurve h cps (toElem s e) = true
    · rw [if_pos hsame, if_pos hsame, hfil, hkeys, hname]
      split
      · rfl
      · split
        · rfl
        · have := ih (cur.filter (fun x => decide (x.1 ≠ k)) ++ [(nameVal s r, .curve r)])
          have happ : toElems s (cur.filter (fun x => decide (x.1 ≠ k)) ++ [(nameVal s r, .curve r)]) =
              toElems s (cur.filter fun x => decide (x.1 ≠ k)) ++ [(nameVal s r, toElem s (.curve r))] := by
            simp [toElems_map]
          rw [happ] at this
          rw [← this]
          obtain ⟨A, hA⟩ : ∃ A, A = replaceAll (equalVal s i) r (nameVal s r) rest
            (cur.filter (fun x => decide (x.1 ≠ k)) ++ [(nameVal s r, .curve r)]) := ⟨_, rfl⟩
          rw [← hA]
          obtain ⟨A1, A2⟩ := A
          cases A2 <;> rfl
    · rw [if_neg hsame, if_neg hsame, ← e1]
      obtain ⟨A, hA⟩ : ∃ A, A = replace (equalVal s i) r (nameVal s r) e := ⟨_, rfl⟩
      rw [← hA]
      obtain ⟨A1, A2⟩ := A
      cases A2 with
      | error x => simp only [hupd]
      | ok n =>
        simp only [hupd]
        rw [← ih]
        obtain ⟨B, hB⟩ : ∃ B, B = replaceAll (equalVal s i) r (nameVal s r) rest (cur.map fun x => if x.1 = k then (k, A1) else x) := ⟨_, rfl⟩
        rw [← hB]
        obtain ⟨B1, B2⟩ := B
        cases B2 <;> rfl
end

/-- C111: seen as a tree of values, the tree is changed as by `replace` on values (C44), with the same count or exception. -/
theorem C111_elems {s : State} {h : Hdr} {cps : List (CP ℝ)} {i r : ℕ} (hx : ∀ c ∈ s.curves, c.xf < s.xfs.length)
    (hi : i < s.curves.length) (hr : r < s.curves.length) (hh : toElem s (.curve i) = .curve h cps) (n : Node)
    (hv : ∀ x ∈ slots n, x.2 < s.curves.length) (ho : ∀ x ∈ others n, ∀ e, x.2 = .inl e → isShape e) :
    (toElem s (replace (equalVal s i) r (nameVal s r) n).1, (replace (equalVal s i) r (nameVal s r) n).2) =
      Elem.replace (Morph.sameCurve h cps) (toElem s (.curve r)) (toElem s n) :=
  (replace_elem hx hi hr hh n hv ho).1

/-! ### What is seen -/

/-- C111: let the curves of a group have different names. Then, whatever morphs and multi-step morphs are made from these curves (also
several from the same curve, to any targets), updated and restored, in any order, the group holds in the place of each curve what `shownAfter`
says, and all else is where it was. In particular, in its place there is always the curve itself or the curve of a morph made from it. -/
theorem C111_tree {w : World} {v : Values} (hv : w.values = some v) (hs : Multi.Sound w.objs) (S : Start v) (as : List Call)
    (ha : v.Allowed as) (hi : ∀ a ∈ as, ∀ i, a.source = some i → i ∈ (slots v.root).map Prod.snd) (hr : ∀ a ∈ as, a.renames = none) :
    ∃ v', (run w as).1.values = some v' ∧ (run w as).1.root = v'.root ∧ Shows (v.shownAfter id as) w.root v'.root ∧
      ∀ x ∈ slots w.root, v.shownAfter id as x.2 = x.2 ∨
        (∃ m ∈ v'.objs.morphs, m.orig = x.2 ∧ m.morph = v.shownAfter id as x.2) ∨
        ∃ m ∈ v'.objs.multis, m.orig = x.2 ∧ m.morph = v.shownAfter id as x.2 := by
  have J := tinv_iff.2 ⟨hv, hs⟩
  obtain ⟨e, J'⟩ := run_tinv J as ha
  have G := good_run S (Good.start S) as hi hr
  rw [J.root]
  exact ⟨_, (tinv_iff.1 J').1, J'.root, G.shows_, G.from_⟩

theorem shownAfter_append (v : Values) (f : ℕ → ℕ) (as bs : List Call) :
    v.shownAfter f (as ++ bs) = (v.run as).1.shownAfter (v.shownAfter f as) bs := by
  induction as generalizing v f with
  | nil => rfl
  | cons a as ih => exact ih _ _

theorem run_append (v : Values) (as bs : List Call) : (v.run (as ++ bs)).1 = ((v.run as).1.run bs).1 := by
  induction as generalizing v with
  | nil => rfl
  | cons a as ih => exact ih _

/-- C111: in such a history, `restore` of a morph or multi-step morph whose curve is seen in the tree raises nothing and brings its source
back, at the same place; all else stays. -/
theorem C111_restore {w : World} {v : Values} (hv : w.values = some v) (hs : Multi.Sound w.objs) (S : Start v) (as : List Call)
    (ha : v.Allowed as) (hi : ∀ a ∈ as, ∀ i, a.source = some i → i ∈ (slots v.root).map Prod.snd) (hr : ∀ a ∈ as, a.renames = none) :
    (∀ k m, (run w as).1.objs.morphs[k]? = some m → v.shownAfter id as m.orig = m.morph → ∃ w', step (run w as).1 (.restore k) = (w', none) ∧
      w'.objs = (run w as).1.objs ∧ Shows (Function.update (v.shownAfter id as) m.orig m.orig) w.root w'.root) ∧
    (∀ k m, (run w as).1.objs.multis[k]? = some m → v.shownAfter id as m.orig = m.morph → ∃ w', step (run w as).1 (.restoreMulti k) = (w', none) ∧
      w'.objs = (run w as).1.objs ∧ Shows (Function.update (v.shownAfter id as) m.orig m.orig) w.root w'.root) := by
  have J := tinv_iff.2 ⟨hv, hs⟩
  obtain ⟨e, J'⟩ := run_tinv J as ha
  have G := good_run S (Good.start S) as hi hr
  rw [J.root]
  constructor
  · intro k m hm hf
    have hm' : (v.run as).1.objs.morphs[k]? = some m := by rw [← J'.objs.morphs]; exact hm
    obtain ⟨a, b, c⟩ := G.src m (List.mem_of_getElem? hm')
    obtain ⟨root, e1, e2⟩ := G.restored S a b c
    rw [hf, equalVal_self, if_pos rfl] at e1 e2
    refine ⟨⟨(run w as).1.objs, root⟩, ?_, rfl, e2.shows_⟩
    simp only [step, hm, equal_eq J'.objs.inv, name_eq J'.objs.inv, J'.root, e1, errIn]
  · intro k m hm hf
    have hm' : (v.run as).1.objs.multis[k]? = some m := by rw [← J'.objs.multis]; exact hm
    obtain ⟨a, b, c⟩ := G.srcM m (List.mem_of_getElem? hm')
    obtain ⟨root, e1, e2⟩ := G.restored S a b c
    rw [hf, equalVal_self, if_pos rfl] at e1 e2
    refine ⟨⟨(run w as).1.objs, root⟩, ?_, rfl, e2.shows_⟩
    simp only [step, hm, equal_eq J'.objs.inv, name_eq J'.objs.inv, J'.root, e1, errIn]

theorem objs_kept (v : Values) (a : Call) (h : a.source = none) : (v.step a).1.objs.morphs = v.objs.morphs ∧ (v.step a).1.objs.multis = v.objs.multis := by
  cases a with
  | curve op => exact ⟨rfl, rfl⟩
  | morph i j force => simp [Call.source] at h
  | multi i ts force => simp [Call.source] at h
  | update k t =>
    simp only [Values.step, Multi.Values.step, MH.Values.step]
    split <;> simp
  | updateMulti k t =>
    simp only [Values.step, Multi.Values.step]
    split <;> simp
  | restore k =>
    simp only [Values.step]
    split <;> simp
  | restoreMulti k =>
    simp only [Values.step]
    split <;> simp

/-- Calls that make no morph leave at each place what was there or bring the first curve back. -/
theorem shown_back (v : Values) (f : ℕ → ℕ) (a : Call) (h : a.source = none) (x : ℕ) : v.shown f a x = f x ∨ v.shown f a x = x := by
  have upd : ∀ y, Function.update f y y x = f x ∨ Function.update f y y x = x := by
    intro y
    by_cases hxy : x = y
    · subst hxy
      right
      rw [Function.update_self]
    · left
      rw [Function.update_of_ne hxy]
  cases a with
  | curve op => exact Or.inl rfl
  | morph i j force => simp [Call.source] at h
  | multi i ts force => simp [Call.source] at h
  | update k t => exact Or.inl rfl
  | updateMulti k t => exact Or.inl rfl
  | restore k =>
    simp only [Values.shown]
    cases v.objs.morphs[k]? with
    | none => exact Or.inl rfl
    | some m =>
      simp only
      by_cases hc : equalVal v.objs.st m.morph (f m.orig) = true
      · rw [if_pos hc]
        exact upd _
      · rw [if_neg hc]
        exact Or.inl rfl
  | restoreMulti k =>
    simp only [Values.shown]
    cases v.objs.multis[k]? with
    | none => exact Or.inl rfl
    | some m =>
      simp only
      by_cases hc : equalVal v.objs.st m.morph (f m.orig) = true
      · rw [if_pos hc]
        exact upd _
      · rw [if_neg hc]
        exact Or.inl rfl

theorem shownAfter_back (v : Values) (f : ℕ → ℕ) (bs : List Call) (h : ∀ b ∈ bs, b.source = none) (x : ℕ) (hx : f x = x) :
    v.shownAfter f bs x = x := by
  induction bs generalizing v f with
  | nil => exact hx
  | cons b bs ih =>
    refine ih _ _ (fun c hc => h c (by simp [hc])) ?_
    rcases shown_back v f b (h b (by simp)) x with e | e
    · rw [e, hx]
    · exact e

theorem shownAfter_all (v : Values) (f : ℕ → ℕ) (bs : List Call) (h : ∀ b ∈ bs, b.source = none) (x : ℕ)
    (hf : f x = x ∨ (∃ (k : ℕ) (m : MH.MorphObj), v.objs.morphs[k]? = some m ∧ m.orig = x ∧ m.morph = f x ∧ .restore k ∈ bs) ∨
      ∃ (k : ℕ) (m : Multi.MultiObj), v.objs.multis[k]? = some m ∧ m.orig = x ∧ m.morph = f x ∧ .restoreMulti k ∈ bs) :
    v.shownAfter f bs x = x := by
  induction bs generalizing v f with
  | nil =>
    rcases hf with e | ⟨_, _, _, _, _, h⟩ | ⟨_, _, _, _, _, h⟩
    · exact e
    · simp at h
    · simp at h
  | cons b bs ih =>
    have hb := h b (by simp)
    have hbs : ∀ c ∈ bs, c.source = none := fun c hc => h c (by simp [hc])
    obtain ⟨o1, o2⟩ := objs_kept v b hb
    show (v.step b).1.shownAfter (v.shown f b) bs x = x
    rcases shown_back v f b hb x with e | e
    · rcases hf with e' | ⟨k, m, h1, h2, h3, h4⟩ | ⟨k, m, h1, h2, h3, h4⟩
      · exact shownAfter_back _ _ _ hbs x (e.trans e')
      · rcases List.mem_cons.1 h4 with h5 | h5
        · subst h5
          refine shownAfter_back _ _ _ hbs x ?_
          simp only [Values.shown, h1]
          rw [h2, ← h3, equalVal_self, if_pos rfl, Function.update_self]
        · exact ih _ _ hbs (Or.inr (Or.inl ⟨k, m, by rw [o1]; exact h1, h2, by rw [e]; exact h3, h5⟩))
      · rcases List.mem_cons.1 h4 with h5 | h5
        · subst h5
          refine shownAfter_back _ _ _ hbs x ?_
          simp only [Values.shown, h1]
          rw [h2, ← h3, equalVal_self, if_pos rfl, Function.update_self]
        · exact ih _ _ hbs (Or.inr (Or.inr ⟨k, m, by rw [o2]; exact h1, h2, by rw [e]; exact h3, h5⟩))
    · exact shownAfter_back _ _ _ hbs x e

/-- C111: once every morph and multi-step morph has been restored, in any order, perhaps with updates and changes of curves between, the
group holds the same curve objects at the same places as before the first morph was made, and all else is where it was. Only the order of the
elements of a group may be another one. -/
theorem C111_undo {w : World} {v : Values} (hv : w.values = some v) (hs : Multi.Sound w.objs) (S : Start v) (as bs : List Call)
    (ha : v.Allowed (as ++ bs)) (hi : ∀ a ∈ as, ∀ i, a.source = some i → i ∈ (slots v.root).map Prod.snd)
    (hr : ∀ a ∈ as ++ bs, a.renames = none) (hb : ∀ b ∈ bs, b.source = none)
    (h1 : ∀ k, k < (v.run as).1.objs.morphs.length → .restore k ∈ bs) (h2 : ∀ k, k < (v.run as).1.objs.multis.length → .restoreMulti k ∈ bs) :
    (slots (run w (as ++ bs)).1.root).Perm (slots w.root) ∧ others (run w (as ++ bs)).1.root = others w.root := by
  have J := tinv_iff.2 ⟨hv, hs⟩
  obtain ⟨e, J'⟩ := run_tinv J (as ++ bs) ha
  have hi' : ∀ a ∈ as ++ bs, ∀ i, a.source = some i → i ∈ (slots v.root).map Prod.snd := by
    intro a ha i h
    rcases List.mem_append.1 ha with h' | h'
    · exact hi a h' i h
    · rw [hb a h'] at h
      cases h
  have G1 := good_run S (Good.start S) as hi (fun a h => hr a (by simp [h]))
  have G := good_run S (Good.start S) (as ++ bs) hi' hr
  have hid : ∀ x ∈ slots v.root, v.shownAfter id (as ++ bs) x.2 = x.2 := by
    intro x hx
    rw [shownAfter_append]
    refine shownAfter_all _ _ _ hb _ ?_
    rcases G1.from_ x hx with e | ⟨m, hm, e1, e2⟩ | ⟨m, hm, e1, e2⟩
    · exact Or.inl e
    · obtain ⟨k, hk⟩ := List.getElem?_of_mem hm
      exact Or.inr (Or.inl ⟨k, m, hk, e1, e2, h1 k (List.getElem?_eq_some_iff.1 hk).1⟩)
    · obtain ⟨k, hk⟩ := List.getElem?_of_mem hm
      exact Or.inr (Or.inr ⟨k, m, hk, e1, e2, h2 k (List.getElem?_eq_some_iff.1 hk).1⟩)
  obtain ⟨p, o⟩ := G.shows_
  rw [J.root, J'.root]
  refine ⟨p.trans ?_, o⟩
  apply List.Perm.of_eq
  rw [List.map_congr_left (g := id)]
  · simp
  · intro x hx
    rw [hid x hx]
    rfl

/-! ### What goes wrong otherwise -/

open Multi (up down)

/-- Three curves made one after the other. -/
theorem three_made (pb : PenBrush) (na nb nc : Str) (a b c : List (CP ℝ)) :
    ∃ objs, Multi.run ⟨Heap.empty, [], []⟩ [.base (.curve (.make na pb true Mat3.one a)), .base (.curve (.make nb pb true Mat3.one b)),
        .base (.curve (.make nc pb true Mat3.one c))] = (objs, [none, none, none]) ∧
      objs.values = some ⟨⟨[Mat3.one, Mat3.one, Mat3.one], [⟨na, pb, true, 0, a⟩, ⟨nb, pb, true, 1, b⟩, ⟨nc, pb, true, 2, c⟩]⟩, [], []⟩ ∧
      Multi.Sound objs := by
  have key : Multi.Values.run ⟨⟨[], []⟩, [], []⟩ [.base (.curve (.make na pb true Mat3.one a)), .base (.curve (.make nb pb true Mat3.one b)),
        .base (.curve (.make nc pb true Mat3.one c))] = (⟨⟨[Mat3.one, Mat3.one, Mat3.one], [⟨na, pb, true, 0, a⟩, ⟨nb, pb, true, 1, b⟩,
        ⟨nc, pb, true, 2, c⟩]⟩, [], []⟩, [none, none, none]) := by
    simp [Multi.Values.run, Multi.Values.step, MH.Values.step, State.step, State.addXf]
  obtain ⟨p1, p2, p3⟩ := Multi.C110_program [.base (.curve (.make na pb true Mat3.one a)), .base (.curve (.make nb pb true Mat3.one b)),
        .base (.curve (.make nc pb true Mat3.one c))] (by simp [Multi.Values.Allowed])
  rw [key] at p1 p2
  exact ⟨_, Prod.ext rfl p2, p1, p3⟩

theorem up_ne_down : up ≠ down := by
  simp [up, down]

/-- C111: two curves in one group. A morph of the first is made and restored at once; nothing is raised, but the group now draws the
second curve first. -/
theorem C111_order_counterexample (pb : PenBrush) (h : Hdr) :
    ∃ (objs : Multi.World) (w' : World), (∃ es, Multi.run ⟨Heap.empty, [], []⟩ es = (objs, [none, none, none])) ∧
      run ⟨objs, .group h false [(['a'], .curve 0), (['b'], .curve 1)]⟩ [.morph 0 2 true, .restore 0] = (w', [none, none]) ∧
      w'.root = .group h false [(['b'], .curve 1), (['a'], .curve 0)] := by
  obtain ⟨objs, e1, e2, e3⟩ := three_made pb ['a'] ['b'] ['c'] up down down
  have lu : up.length = 2 := rfl
  have ld : down.length = 2 := rfl
  obtain ⟨v, hv⟩ : ∃ v : Values, v = ⟨⟨⟨[Mat3.one, Mat3.one, Mat3.one], [⟨['a'], pb, true, 0, up⟩, ⟨['b'], pb, true, 1, down⟩,
    ⟨['c'], pb, true, 2, down⟩]⟩, [], []⟩, .group h false [(['a'], .curve 0), (['b'], .curve 1)]⟩ := ⟨_, rfl⟩
  have key : v.run [.morph 0 2 true, .restore 0] = (⟨⟨⟨[Mat3.one, Mat3.one, Mat3.one], [⟨['a'], pb, true, 0, up⟩, ⟨['b'], pb, true, 1, down⟩,
    ⟨['c'], pb, true, 2, down⟩, ⟨['a'], pb, true, 0, up⟩]⟩, [⟨0, 3, 2⟩], []⟩, .group h false [(['b'], .curve 1), (['a'], .curve 0)]⟩,
      [none, none]) := by
    rw [hv]
    simp [Values.run, Values.step, Multi.Values.step, MH.Values.step, State.step, State.add, MH.padBothVal, MH.padVal, MH.sizeVal, lu, ld,
      replace, replaceAll, isSame, equalVal, lookVal, nameVal, hasDot, errIn]
  obtain ⟨p1, p2, p3⟩ := C111_history (w := ⟨objs, .group h false [(['a'], .curve 0), (['b'], .curve 1)]⟩) (v := v)
    (by simp only [World.values, e2, hv]) e3 [.morph 0 2 true, .restore 0] (by simp [Values.Allowed])
  rw [key] at p1 p2
  refine ⟨objs, _, ⟨_, e1⟩, Prod.ext rfl p2, ?_⟩
  exact (tinv_iff.2 ⟨p1, p3⟩).root

/-- C111: two equal curves with the same name in two groups. A morph of the first is put in the place of both; when it is restored, the
first curve is in both places and the second is gone. -/
theorem C111_equal_counterexample (pb : PenBrush) (h h1 h2 : Hdr) :
    ∃ (objs : Multi.World) (w' : World), (∃ es, Multi.run ⟨Heap.empty, [], []⟩ es = (objs, [none, none, none])) ∧
      run ⟨objs, .group h false [(['g'], .group h1 false [(['a'], .curve 0)]), (['h'], .group h2 false [(['a'], .curve 1)])]⟩
        [.morph 0 2 true, .restore 0] = (w', [none, none]) ∧
      w'.root = .group h false [(['g'], .group h1 false [(['a'], .curve 0)]), (['h'], .group h2 false [(['a'], .curve 0)])] := by
  obtain ⟨objs, e1, e2, e3⟩ := three_made pb ['a'] ['a'] ['c'] up up down
  have lu : up.length = 2 := rfl
  have ld : down.length = 2 := rfl
  obtain ⟨root, hroot⟩ : ∃ root : Node, root =
    .group h false [(['g'], .group h1 false [(['a'], .curve 0)]), (['h'], .group h2 false [(['a'], .curve 1)])] := ⟨_, rfl⟩
  rw [← hroot]
  obtain ⟨v, hv⟩ : ∃ v : Values, v = ⟨⟨⟨[Mat3.one, Mat3.one, Mat3.one], [⟨['a'], pb, true, 0, up⟩, ⟨['a'], pb, true, 1, up⟩,
    ⟨['c'], pb, true, 2, down⟩]⟩, [], []⟩, root⟩ := ⟨_, rfl⟩
  have key : v.run [.morph 0 2 true, .restore 0] = (⟨⟨⟨[Mat3.one, Mat3.one, Mat3.one], [⟨['a'], pb, true, 0, up⟩, ⟨['a'], pb, true, 1, up⟩,
    ⟨['c'], pb, true, 2, down⟩, ⟨['a'], pb, true, 0, up⟩]⟩, [⟨0, 3, 2⟩], []⟩,
      .group h false [(['g'], .group h1 false [(['a'], .curve 0)]), (['h'], .group h2 false [(['a'], .curve 0)])]⟩, [none, none]) := by
    rw [hv, hroot]
    simp [Values.run, Values.step, Multi.Values.step, MH.Values.step, State.step, State.add, MH.padBothVal, MH.padVal, MH.sizeVal, lu, ld,
      replace, replaceAll, isSame, equalVal, lookVal, nameVal, hasDot, errIn]
  obtain ⟨p1, p2, p3⟩ := C111_history (w := ⟨objs, root⟩) (v := v)
    (by simp only [World.values, e2, hv]) e3 [.morph 0 2 true, .restore 0] (by simp [Values.Allowed])
  rw [key] at p1 p2
  exact ⟨objs, _, ⟨_, e1⟩, Prod.ext rfl p2, (tinv_iff.2 ⟨p1, p3⟩).root⟩

/-- Halfway between `up` and `down`. -/
def halfway : List (CP ℝ) := [⟨⟨2, 2⟩, ⟨0, 0⟩, ⟨0, 0⟩, "smooth"⟩, ⟨⟨2, 2⟩, ⟨0, 0⟩, ⟨0, 0⟩, "smooth"⟩]

theorem mix_half : Morph.mixAll (1 / 2) up up down = halfway := by
  norm_num [Morph.mixAll, up, down, halfway, Morph.mixCP, Morph.mixPt, Morph.mixVec, Pt.addVector, Pt.sub, Vec.mul, Vec.add, Vec.sub,
        Vec.subVector]

theorem mix_one : Morph.mixAll 1 halfway halfway down = down := by
  norm_num [Morph.mixAll, down, halfway, Morph.mixCP, Morph.mixPt, Morph.mixVec, Pt.addVector, Pt.sub, Vec.mul, Vec.add, Vec.sub,
        Vec.subVector]

/-- C111: the curve seen in the group, which is the one of a morph, is taken as the source of a second morph. If then the first morph
is restored before the second one, the curve of the first morph, at 1/2, stays in the group. In the other order all is well. -/
theorem C111_nested_counterexample (pb : PenBrush) (h : Hdr) :
    ∃ (objs : Multi.World) (as : List Call) (w w' : World), (∃ es, Multi.run ⟨Heap.empty, [], []⟩ es = (objs, [none, none, none])) ∧
      as = [.morph 0 2 true, .update 0 (.num (1 / 2)), .morph 3 2 true, .update 1 (.num 1)] ∧
      run ⟨objs, .group h false [(['a'], .curve 0)]⟩ (as ++ [.restore 0, .restore 1]) = (w, [none, none, none, none, none, none]) ∧
      w.root = .group h false [(['a'], .curve 3)] ∧ look w.objs.heap 3 = some ⟨['a'], pb, true, some Mat3.one, some halfway⟩ ∧
      run ⟨objs, .group h false [(['a'], .curve 0)]⟩ (as ++ [.restore 1, .restore 0]) = (w', [none, none, none, none, none, none]) ∧
      w'.root = .group h false [(['a'], .curve 0)] := by
  obtain ⟨objs, e1, e2, e3⟩ := three_made pb ['a'] ['b'] ['c'] up down down
  obtain ⟨as, has⟩ : ∃ as : List Call, as = [.morph 0 2 true, .update 0 (.num (1 / 2)), .morph 3 2 true, .update 1 (.num 1)] := ⟨_, rfl⟩
  have lu : up.length = 2 := rfl
  have ld : down.length = 2 := rfl
  have lh : halfway.length = 2 := rfl
  have n1 : down ≠ halfway := by simp [down, halfway]
  have mh := mix_half
  have mo := mix_one
  obtain ⟨v, hv⟩ : ∃ v : Values, v = ⟨⟨⟨[Mat3.one, Mat3.one, Mat3.one], [⟨['a'], pb, true, 0, up⟩, ⟨['b'], pb, true, 1, down⟩,
    ⟨['c'], pb, true, 2, down⟩]⟩, [], []⟩, .group h false [(['a'], .curve 0)]⟩ := ⟨_, rfl⟩
  obtain ⟨s, hs⟩ : ∃ s : State, s = ⟨[Mat3.one, Mat3.one, Mat3.one], [⟨['a'], pb, true, 0, up⟩, ⟨['b'], pb, true, 1, down⟩,
    ⟨['c'], pb, true, 2, down⟩, ⟨['a'], pb, true, 0, halfway⟩, ⟨['a'], pb, true, 0, down⟩]⟩ := ⟨_, rfl⟩
  rw [one_div] at mh
  have key1 : v.run (as ++ [.restore 0, .restore 1]) = (⟨⟨s, [⟨0, 3, 2⟩, ⟨3, 4, 2⟩], []⟩, .group h false [(['a'], .curve 3)]⟩,
      [none, none, none, none, none, none]) := by
    rw [hv, has, hs]
    simp [Values.run, Values.step, Multi.Values.step, MH.Values.step, State.step, State.add, MH.padBothVal, MH.padVal, MH.sizeVal, lu, ld, lh,
      replace, replaceAll, isSame, equalVal, lookVal, nameVal, hasDot, errIn, MH.updVal, mh, mo, n1]
  have key2 : v.run (as ++ [.restore 1, .restore 0]) = (⟨⟨s, [⟨0, 3, 2⟩, ⟨3, 4, 2⟩], []⟩, .group h false [(['a'], .curve 0)]⟩,
      [none, none, none, none, none, none]) := by
    rw [hv, has, hs]
    simp [Values.run, Values.step, Multi.Values.step, MH.Values.step, State.step, State.add, MH.padBothVal, MH.padVal, MH.sizeVal, lu, ld, lh,
      replace, replaceAll, isSame, equalVal, lookVal, nameVal, hasDot, errIn, MH.updVal, mh, mo, n1]
  have hval : (⟨objs, .group h false [(['a'], .curve 0)]⟩ : World).values = some v := by simp only [World.values, e2, hv]
  obtain ⟨p1, p2, p3⟩ := C111_history hval e3 (as ++ [.restore 0, .restore 1]) (by rw [has]; simp [Values.Allowed])
  obtain ⟨q1, q2, q3⟩ := C111_history hval e3 (as ++ [.restore 1, .restore 0]) (by rw [has]; simp [Values.Allowed])
  rw [key1] at p1 p2
  rw [key2] at q1 q2
  have J := tinv_iff.2 ⟨p1, p3⟩
  refine ⟨objs, as, _, _, ⟨_, e1⟩, has, Prod.ext rfl p2, J.root, ?_, Prod.ext rfl q2, (tinv_iff.2 ⟨q1, q3⟩).root⟩
  rw [look_eq J.objs.inv, hs]
  rfl

/-! ### The hypotheses are met -/

/-- A group with a curve and a group with another one. Two morphs of the first curve are made, the second one while the first is shown,
and a multi-step morph of the other curve; they are updated, and restored in another order. -/
example (pb : PenBrush) (h : Hdr) (hg : h.name = ['g']) : ∃ (w : World) (v : Values) (as bs : List Call), w.values = some v ∧ Multi.Sound w.objs ∧ Start v ∧
    as = [.morph 0 2 true, .morph 0 1 true, .multi 1 [(1, 2)] false, .update 0 (.num (1 / 2))] ∧
    bs = [.restore 0, .restoreMulti 0, .updateMulti 0 .none, .restore 1] ∧
    v.Allowed (as ++ bs) ∧ (∀ a ∈ as, ∀ i, a.source = some i → i ∈ (slots v.root).map Prod.snd) ∧ (∀ a ∈ as ++ bs, a.renames = none) ∧
    (∀ b ∈ bs, b.source = none) ∧ (v.run as).2 = [none, none, none, none] ∧
    (∀ k, k < (v.run as).1.objs.morphs.length → .restore k ∈ bs) ∧ (∀ k, k < (v.run as).1.objs.multis.length → .restoreMulti k ∈ bs) ∧
    v.shownAfter id as 0 = 4 ∧ v.shownAfter id as 1 = 6 := by
  obtain ⟨objs, e1, e2, e3⟩ := three_made pb ['a'] ['b'] ['c'] up down down
  obtain ⟨root, hroot⟩ : ∃ root : Node, root =
    .group h false [(['a'], .curve 0), (['g'], .group h false [(['b'], .curve 1)])] := ⟨_, rfl⟩
  obtain ⟨as, has⟩ : ∃ as : List Call, as = [.morph 0 2 true, .morph 0 1 true, .multi 1 [(1, 2)] false, .update 0 (.num (1 / 2))] := ⟨_, rfl⟩
  have lu : up.length = 2 := rfl
  have ld : down.length = 2 := rfl
  have mh := mix_half
  rw [one_div] at mh
  obtain ⟨v, hv⟩ : ∃ v : Values, v = ⟨⟨⟨[Mat3.one, Mat3.one, Mat3.one], [⟨['a'], pb, true, 0, up⟩, ⟨['b'], pb, true, 1, down⟩,
    ⟨['c'], pb, true, 2, down⟩]⟩, [], []⟩, root⟩ := ⟨_, rfl⟩
  have key : v.run as = (⟨⟨⟨[Mat3.one, Mat3.one, Mat3.one], [⟨['a'], pb, true, 0, up⟩, ⟨['b'], pb, true, 1, down⟩,
    ⟨['c'], pb, true, 2, down⟩, ⟨['a'], pb, true, 0, halfway⟩, ⟨['a'], pb, true, 0, up⟩, ⟨['b'], pb, true, 1, down⟩,
      ⟨['b'], pb, true, 1, down⟩]⟩, [⟨0, 3, 2⟩, ⟨0, 4, 1⟩], [⟨1, 6, [(0, 5), (1, 2)]⟩]⟩,
      .group h false [(['g'], .group h false [(['b'], .curve 6)]), (['a'], .curve 4)]⟩, [none, none, none, none]) := by
    rw [hv, has, hroot]
    simp [Values.run, Values.step, Multi.Values.step, MH.Values.step, State.step, State.add, MH.padBothVal, MH.padVal, MH.sizeVal, lu, ld,
      replace, replaceAll, isSame, equalVal, lookVal, nameVal, hasDot, MH.updVal, mh, Multi.buildVal, Multi.thenDo, Multi.prepVal]
  refine ⟨⟨objs, root⟩, v, as, _, by simp only [World.values, e2, hv], e3, ?_, has, rfl, ?_, ?_, ?_, ?_, by rw [key], ?_, ?_, ?_, ?_⟩
  · rw [hv, hroot]
    refine ⟨rfl, rfl, ⟨_, _, _, rfl⟩, ?_, ?_, ?_⟩
    · simp [Keyed, KeyedAll, nameOf, nameVal, hg]
    · simp [slots, slotsAll]
    · simp [slots, slotsAll, nameVal]
  · rw [has]
    simp [Values.Allowed]
  · rw [has, hv, hroot]
    simp [Call.source, slots, slotsAll]
  · rw [has]
    simp [Call.renames]
  · simp [Call.source]
  · rw [key]
    intro k hk
    simp only [List.length_cons, List.length_nil] at hk
    interval_cases k <;> simp
  · rw [key]
    intro k hk
    simp only [List.length_cons, List.length_nil] at hk
    interval_cases k
    simp
  · rw [has, hv, hroot]
    simp [Values.shownAfter, Values.shown, Values.step, Multi.Values.step, MH.Values.step, State.step, State.add, MH.padBothVal, MH.padVal, MH.sizeVal, lu, ld,
      replace, replaceAll, isSame, equalVal, lookVal, nameVal, hasDot, Multi.buildVal, Multi.thenDo, Multi.prepVal]
  · rw [has, hv, hroot]
    simp [Values.shownAfter, Values.shown, Values.step, Multi.Values.step, MH.Values.step, State.step, State.add, MH.padBothVal, MH.padVal, MH.sizeVal, lu, ld,
      replace, replaceAll, isSame, equalVal, lookVal, nameVal, hasDot, Multi.buildVal, Multi.thenDo, Multi.prepVal]

/-- A tree for `C111_elems`. -/
example (h : Hdr) (pb : PenBrush) : ∃ (s : State) (n : Node), (∀ c ∈ s.curves, c.xf < s.xfs.length) ∧ s.curves.length = 2 ∧
    (∀ x ∈ slots n, x.2 < s.curves.length) ∧ (∀ x ∈ others n, ∀ e, x.2 = .inl e → isShape e) ∧ slots n = [([['a']], 0)] ∧
    ∃ h' cps, toElem s (.curve 0) = .curve h' cps := by
  refine ⟨⟨[Mat3.one], [⟨['a'], pb, true, 0, up⟩, ⟨['a'], pb, true, 0, down⟩]⟩,
    .group h false [(['a'], .curve 0), (['r'], .shape (.rect h ⟨0, 0⟩ ⟨1, 1⟩))], ?_, rfl, ?_, ?_, ?_, _, _, rfl⟩
  · simp
  · simp [slots, slotsAll]
  · simp [others, othersAll, isShape]
  · simp [slots, slotsAll]

end X7.Stage
