import Verif.Lemmas.GroupHeap
import Verif.Props.ElemNames

/-!
C115: groups which share elements, through every history of calls.
-/

noncomputable section

namespace X7.GH
open Relation

/-- C115: drawing an object draws the tree which hangs on it: sharing makes no difference to one drawing (so C40, C41 and C46 hold). -/
theorem C115_draw (cfg : DCfg) (w : World) (n i : ℕ) (e : Elem) (h : tree w n i = some e) (s : TState) :
    draw cfg w n i s = Elem.paths cfg e s ∧ ∀ k, n ≤ k → tree w k i = some e := ⟨draw_tree cfg h s, fun _ hk => tree_le h hk⟩

/-- C115: the tree on a curve or shape is that curve or shape, of its class, with its own name, pen, points and matrix. -/
theorem C115_leaf (w : World) (n i : ℕ) (name : Str) (pb : PenBrush) (x : ℕ) (m : Mat3 ℝ) (hx : w.xfs[x]? = some m) :
    (∀ closed cps, w.items[i]? = some ⟨name, pb, x, .leaf (.curve closed cps)⟩ → tree w (n + 1) i = some (.curve ⟨name, pb, closed, m⟩ cps)) ∧
    (∀ p q, w.items[i]? = some ⟨name, pb, x, .leaf (.rect p q)⟩ → tree w (n + 1) i = some (.rect ⟨name, pb, true, m⟩ p q)) ∧
    (∀ p q r, w.items[i]? = some ⟨name, pb, x, .leaf (.rrect p q r)⟩ → tree w (n + 1) i = some (.rrect ⟨name, pb, true, m⟩ p q r)) ∧
    ∀ p q, w.items[i]? = some ⟨name, pb, x, .leaf (.ellipse p q)⟩ → tree w (n + 1) i = some (.ellipse ⟨name, pb, true, m⟩ p q) := by
  refine ⟨fun c cps h => ?_, fun p q h => ?_, fun p q r h => ?_, fun p q h => ?_⟩ <;> simp [tree, h, hx, leafElem]

/-- C115: drawing leaves the matrix and the stack of the context as they were, also when it fails or a group is in itself, and what it
gives depends on the matrix only. -/
theorem C115_context (cfg : DCfg) (w : World) (n i : ℕ) (s : TState) :
    (draw cfg w n i s).1.mat = s.mat ∧ (draw cfg w n i s).1.stack = s.stack ∧ (draw cfg w n i s).2 = pic cfg w n i s.mat :=
  ⟨(draw_keeps cfg w n i s).1, (draw_keeps cfg w n i s).2, pic_eq cfg w n i s⟩

/-- C115: a call changes the picture of an object only if it writes something which the object shows. -/
theorem C115_others (cfg : DCfg) (before : List Op) (op : Op) (i : ℕ) (hi : i < (run .empty before).items.length)
    (hw : ∀ j, InView (run .empty before) i j → ¬ Writes (run .empty before) j op) (n : ℕ) (m : Mat3 ℝ) :
    pic cfg (run .empty (before ++ [op])) n i m = pic cfg (run .empty before) n i m := by
  have hok := ok_run ok_empty before
  rw [run_append]
  generalize run World.empty before = w at *
  exact pic_congr cfg n i hi hok (fun j hj => alike_step hok op j (hw j hj)) m

/-- C115: so does a history. -/
theorem C115_history (cfg : DCfg) (before later : List Op) (i : ℕ) (hi : i < (run .empty before).items.length)
    (hw : SparedView i (run .empty before) later) (n : ℕ) (m : Mat3 ℝ) :
    pic cfg (run .empty (before ++ later)) n i m = pic cfg (run .empty before) n i m := by
  have hok := ok_run ok_empty before
  rw [run_append]
  generalize run World.empty before = w at *
  induction later generalizing w with
  | nil => rfl
  | cons op later ih =>
    rw [run_cons, ih _ (by have := length_step w op; omega) hw.2 (ok_step hok op)]
    exact pic_congr cfg n i hi hok (fun j hj => alike_step hok op j (hw.1 j hj)) m

/-- C115: adding an element to a visible group appends the picture of the element, under the transform of the group, unless the group is
in the element. The transform and the elements before stay. -/
theorem C115_add (cfg : DCfg) (before : List Op) (g e : ℕ) (name : Str) (fix : Bool) (es : List (Str × ℕ)) (x : Mat3 ℝ)
    (hg : Holds (run .empty before) g false es x) (hs : (step (run .empty before) (.add g name e fix)).2 = none)
    (he : ¬ InView (run .empty before) e g) (hc : ¬ TransGen (Shown (run .empty before)) g g) :
    let w' := run .empty (before ++ [.add g name e fix])
    (∃ key, key ∉ es.map Prod.fst ∧ '.' ∉ key ∧ (name ∉ es.map Prod.fst → '.' ∉ name → key = name) ∧
        Holds w' g false (es ++ [(key, e)]) x) ∧
      ∀ n m, pic cfg w' (n + 1) g m =
        match pic cfg (run .empty before) (n + 1) g m with
        | .error er => .error er
        | .ok ps =>
          match pic cfg (run .empty before) n e (m.mul x) with
          | .error er => .error er
          | .ok qs => .ok (ps ++ qs) := by
  have hok := ok_run ok_empty before
  intro w'
  have ew : w' = (step (run .empty before) (.add g name e fix)).1 := run_append _ _ _
  clear_value w'
  subst ew
  generalize run World.empty before = w at *
  have others : ∀ j, j < w.items.length → ¬ InView w j g → ∀ n m, pic cfg (step w (.add g name e fix)).1 n j m = pic cfg w n j m := by
    intro j hj hv n m
    refine pic_congr cfg n j hj hok (fun k hk => alike_step hok _ k fun hw => ?_) m
    have : k = g := hw
    exact hv (this ▸ hk)
  obtain ⟨it, g1, g2, g3⟩ := hg
  have hel : e < w.items.length ∧ ∃ key, key ∉ es.map Prod.fst ∧ '.' ∉ key ∧
      (name ∉ es.map Prod.fst → '.' ∉ name → key = name) ∧ Holds (step w (.add g name e fix)).1 g false (es ++ [(key, e)]) x := by
    simp only [step] at hs ⊢
    rcases add_cases w g name e fix with ⟨-, h1⟩ | ⟨gi, ei, hd, es0, key, hg, he, hb, hk1, hk2, hk3, h1⟩
    · exact absurd hs h1
    · rw [g1] at hg
      cases hg
      rw [g2] at hb
      simp only [Body.group.injEq] at hb
      obtain ⟨rfl, rfl⟩ := hb
      refine ⟨lt_of_some he, key, hk2, hk1, fun n1 n2 => ?_, ?_⟩
      · simpa [GroupNames.pickName, hasDot, n2, n1, eq_comm] using hk3
      rw [h1]
      have hlt : g < ((w.items.set g { it with body := .group false (es ++ [(key, e)]) }).modify e fun it => { it with name := key }).length := by
        simpa using lt_of_some g1
      obtain ⟨a, ha, b1, b2, -, -⟩ := modify_cases (List.getElem?_eq_getElem hlt)
      rw [List.getElem?_set_self (lt_of_some g1)] at ha
      cases ha
      exact ⟨_, List.getElem?_eq_getElem hlt, b2, by rw [b1]; exact g3⟩
  obtain ⟨hel, key, hk1, hk2, hk3, hh⟩ := hel
  refine ⟨⟨key, hk1, hk2, hk3, hh⟩, fun n m => ?_⟩
  obtain ⟨it', h1, h2, h3⟩ := hh
  rw [pic_group cfg h1 h3 h2, picAll_append, pic_group cfg g1 g3 g2, picAll_congr (w := w)]
  · simp only [picAll]
    rw [others e hel he]
    cases picAll cfg w n (m.mul x) es with
    | error er => rfl
    | ok ps =>
      simp only
      cases pic cfg w n e (m.mul x) with
      | error er => rfl
      | ok qs => simp
  · intro y hy
    exact others y.2 ((hok g it g1).2 false es g2 y hy) (fun hv => hc (.head' ⟨it, es, y.1, g1, g2, hy⟩ hv)) n _

/-- C115: `copy()` of a group gives a new group with the same element objects, not copies of them, and a transform of its own. It draws the
same, and all others draw as before. -/
theorem C115_copy (cfg : DCfg) (before : List Op) (g : ℕ) (hd : Bool) (es : List (Str × ℕ)) (x : Mat3 ℝ)
    (hg : Holds (run .empty before) g hd es x) :
    let w := run .empty before
    let w' := run .empty (before ++ [.copyGroup g])
    let c := w.items.length
    (step w (.copyGroup g)).2 = none ∧ Holds w' c hd es x ∧ Holds w' g hd es x ∧ (∀ j, j < c → ¬ SameXf w' c j) ∧
      (∀ j, Child w' c j ↔ Child w g j) ∧
      ∀ n m, pic cfg w' n c m = pic cfg w n g m ∧ ∀ i, i < c → pic cfg w' n i m = pic cfg w n i m := by
  have hok := ok_run ok_empty before
  intro w w'
  have ew : w' = (step w (.copyGroup g)).1 := run_append _ _ _
  clear_value w'
  subst ew
  intro c
  have hok : Ok w := hok
  have hg : Holds w g hd es x := hg
  have old : ∀ i, i < c → ∀ n m, pic cfg (step w (.copyGroup g)).1 n i m = pic cfg w n i m := fun i hi n m =>
    pic_congr cfg n i hi hok (fun j _ => alike_step hok _ j (by simp [Writes])) m
  have hg' : Holds (step w (.copyGroup g)).1 g hd es x := holds_alike hg (alike_step hok _ g (by simp [Writes]))
  obtain ⟨it, g1, g2, g3⟩ := hg
  have hst : step w (.copyGroup g) = (⟨w.items ++ [⟨it.name, it.pb, w.xfs.length, .group hd es⟩], w.xfs ++ [x]⟩, none) := by
    simp only [step, copyGroup, g1, g2, g3]
  have hc : Holds (step w (.copyGroup g)).1 c hd es x := by
    rw [hst]
    exact ⟨_, List.getElem?_concat_length, rfl, List.getElem?_concat_length⟩
  refine ⟨by rw [hst], hc, hg', ?_, ?_, ?_⟩
  · rintro j hj ⟨a, b, ha, hb, hab⟩
    rw [hst] at ha hb
    simp only at ha hb
    rw [List.getElem?_concat_length] at ha
    cases ha
    rw [List.getElem?_append_left hj] at hb
    have := (hok j b hb).1
    simp only at hab
    omega
  · intro j
    obtain ⟨ic, c1, c2, -⟩ := hc
    constructor
    · rintro ⟨t, hd', es', k, h1, h2, h3⟩
      rw [c1] at h1; cases h1; rw [c2] at h2; cases h2
      exact ⟨it, hd, es, k, g1, g2, h3⟩
    · rintro ⟨t, hd', es', k, h1, h2, h3⟩
      rw [g1] at h1; cases h1; rw [g2] at h2; cases h2
      exact ⟨ic, hd, es, k, c1, c2, h3⟩
  · intro n m
    refine ⟨?_, fun i hi => old i hi n m⟩
    rw [← old g (lt_of_some g1) n m]
    have := pic_twin cfg (M := Mat3.one) hg' (by rwa [Mat3.one_mul']) n m
    rwa [Mat3.mul_one'] at this

/-- C115: a group and its copy go on to draw the same through every history in which neither of the two groups is written itself: whatever
happens to the elements, also inside them, shows in both. -/
theorem C115_copy_live (cfg : DCfg) (before later : List Op) (g : ℕ) (hd : Bool) (es : List (Str × ℕ)) (x : Mat3 ℝ)
    (hg : Holds (run .empty before) g hd es x)
    (hs : Spared g (run .empty (before ++ [.copyGroup g])) later)
    (hs' : Spared (run .empty before).items.length (run .empty (before ++ [.copyGroup g])) later) (n : ℕ) (m : Mat3 ℝ) :
    let w := run .empty (before ++ [.copyGroup g] ++ later)
    pic cfg w n (run .empty before).items.length m = pic cfg w n g m := by
  obtain ⟨-, h1, h2, -⟩ := C115_copy cfg before g hd es x hg
  have hok := ok_run ok_empty (before ++ [.copyGroup g])
  simp only
  rw [run_append _ (before ++ [Op.copyGroup g]) later]
  have k1 := holds_alike h1 (alike_run hok later hs')
  have k2 := holds_alike h2 (alike_run hok later hs)
  have := pic_twin cfg (b := (run .empty before).items.length) (M := Mat3.one) k2 (by rwa [Mat3.one_mul']) n m
  rwa [Mat3.mul_one'] at this

/-- C115: `transform(matrix)` of a group gives a new group with the same element objects; it draws what the group draws under the matrix,
at once and through every history in which neither of the two groups is written itself. -/
theorem C115_transform (cfg : DCfg) (before later : List Op) (g : ℕ) (t : TState) (hd : Bool) (es : List (Str × ℕ)) (x : Mat3 ℝ)
    (hg : Holds (run .empty before) g hd es x)
    (hs : Spared g (run .empty (before ++ [.transformGroup g t])) later)
    (hs' : Spared (run .empty before).items.length (run .empty (before ++ [.transformGroup g t])) later) :
    let c := (run .empty before).items.length
    let w := run .empty (before ++ [.transformGroup g t] ++ later)
    Holds w c hd es (t.mat.mul x) ∧ Holds w g hd es x ∧ ∀ n m, pic cfg w n c m = pic cfg w n g (m.mul t.mat) := by
  have hok := ok_run ok_empty before
  have hok2 := ok_run ok_empty (before ++ [.transformGroup g t])
  simp only
  rw [run_append _ (before ++ [Op.transformGroup g t]) later]
  have e : run .empty (before ++ [.transformGroup g t]) = (step (run .empty before) (.transformGroup g t)).1 := run_append _ _ _
  rw [e] at hs hs' hok2 ⊢
  clear e
  generalize run World.empty before = w at *
  have hg' : Holds (step w (.transformGroup g t)).1 g hd es x := holds_alike hg (alike_step hok _ g (by simp [Writes]))
  obtain ⟨it, g1, g2, g3⟩ := hg
  have hst : step w (.transformGroup g t) =
      (⟨w.items ++ [⟨it.name, it.pb, w.xfs.length, .group hd es⟩], w.xfs ++ [t.mat.mul x]⟩, none) := by
    simp only [step, transformGroup, g1, g2, g3]
    simp [TState.copy, TState.compose, TState.setMatrix]
  have hc : Holds (step w (.transformGroup g t)).1 w.items.length hd es (t.mat.mul x) := by
    rw [hst]
    exact ⟨_, List.getElem?_concat_length, rfl, List.getElem?_concat_length⟩
  have k1 := holds_alike hc (alike_run hok2 later hs')
  have k2 := holds_alike hg' (alike_run hok2 later hs)
  exact ⟨k1, k2, fun n m => pic_twin cfg k2 k1 n m⟩

/-- C115: after `g.restore(h)` the group `g` has the elements, the attributes and the very transform object of `h`, so that changing the
transform of either afterwards changes both. -/
theorem C115_restore (cfg : DCfg) (before : List Op) (g h : ℕ) (hd hd' : Bool) (es es' : List (Str × ℕ)) (x x' : Mat3 ℝ)
    (hg : Holds (run .empty before) g hd es x) (hh : Holds (run .empty before) h hd' es' x') :
    let w := run .empty before
    let w' := run .empty (before ++ [.restoreGroup g h])
    (step w (.restoreGroup g h)).2 = none ∧ w'.items[g]? = w.items[h]? ∧ w'.items[h]? = w.items[h]? ∧ Holds w' g hd' es' x' ∧ SameXf w' g h ∧
      (∀ n m, pic cfg w' n g m = pic cfg w' n h m) ∧
      ∀ y n m, let w'' := run .empty (before ++ [.restoreGroup g h, .setXf h y])
        Holds w'' g hd' es' y ∧ Holds w'' h hd' es' y ∧ pic cfg w'' n g m = pic cfg w'' n h m := by
  have hok := ok_run ok_empty before
  intro w w'
  have ew : w' = (step w (.restoreGroup g h)).1 := run_append _ _ _
  have ew2 : ∀ y, run .empty (before ++ [.restoreGroup g h, .setXf h y]) = (step w' (.setXf h y)).1 := fun y => by
    rw [ew, run_append]; rfl
  have hg : Holds w g hd es x := hg
  have hh : Holds w h hd' es' x' := hh
  obtain ⟨ig, g1, g2, g3⟩ := hg
  obtain ⟨ih, h1, h2, h3⟩ := hh
  have hst : step w (.restoreGroup g h) = (⟨w.items.set g ih, w.xfs⟩, none) := by
    simp only [step, restoreGroup, g1, h1, g2, h2]
    rw [← h2]
  have e1 : w'.items[g]? = some ih := by
    rw [ew, hst]; exact List.getElem?_set_self (lt_of_some g1)
  have e2 : w'.items[h]? = some ih := by
    rw [ew, hst]
    by_cases hgh : g = h
    · subst hgh; exact List.getElem?_set_self (lt_of_some g1)
    · exact (List.getElem?_set_ne hgh).trans h1
  have e3 : w'.xfs = w.xfs := by rw [ew, hst]
  have twin : ∀ (v : World) z n m, Holds v g hd' es' z → Holds v h hd' es' z → pic cfg v n g m = pic cfg v n h m := by
    intro v z n m a b
    have := pic_twin cfg (a := h) (b := g) (M := Mat3.one) b (by rwa [Mat3.one_mul']) n m
    rwa [Mat3.mul_one'] at this
  have k1 : Holds w' g hd' es' x' := ⟨ih, e1, h2, by rw [e3]; exact h3⟩
  have k2 : Holds w' h hd' es' x' := ⟨ih, e2, h2, by rw [e3]; exact h3⟩
  refine ⟨by rw [hst], e1.trans h1.symm, e2.trans h1.symm, k1, ⟨ih, ih, e1, e2, rfl⟩, fun n m => twin _ _ n m k1 k2, ?_⟩
  intro y n m w''
  have e4 : w'' = ⟨w'.items, w'.xfs.set ih.xf y⟩ := by
    refine (ew2 y).trans ?_
    simp only [step, e2]
  have l1 : Holds w'' g hd' es' y := by
    rw [e4]; exact ⟨ih, e1, h2, List.getElem?_set_self (by rw [e3]; exact lt_of_some h3)⟩
  have l2 : Holds w'' h hd' es' y := by
    rw [e4]; exact ⟨ih, e2, h2, List.getElem?_set_self (by rw [e3]; exact lt_of_some h3)⟩
  exact ⟨l1, l2, twin _ _ n m l1 l2⟩

/-- C115: undo. After saving a copy, any history which does not write the copy itself, and restoring the group from the copy, the group has
the elements, visibility and matrix it had; and it draws as at the time of saving if nothing the copy showed was written meanwhile. -/
theorem C115_undo (cfg : DCfg) (before later : List Op) (g : ℕ) (hd : Bool) (es : List (Str × ℕ)) (x : Mat3 ℝ)
    (hg : Holds (run .empty before) g hd es x)
    (hs : Spared (run .empty before).items.length (run .empty (before ++ [.copyGroup g])) later)
    (hd' : Bool) (es' : List (Str × ℕ)) (x' : Mat3 ℝ) (hg' : Holds (run .empty (before ++ [.copyGroup g] ++ later)) g hd' es' x') :
    let c := (run .empty before).items.length
    let w' := run .empty (before ++ [.copyGroup g] ++ later ++ [.restoreGroup g c])
    Holds w' g hd es x ∧
      (SparedView c (run .empty (before ++ [.copyGroup g])) later → ¬ InView (run .empty (before ++ [.copyGroup g] ++ later)) c g →
        ∀ n m, pic cfg w' n g m = pic cfg (run .empty before) n g m) := by
  obtain ⟨-, h1, -, -, -, h3⟩ := C115_copy cfg before g hd es x hg
  have hok := ok_run ok_empty (before ++ [.copyGroup g])
  intro c w'
  have k1 : Holds (run .empty (before ++ [.copyGroup g] ++ later)) c hd es x := by
    rw [run_append _ (before ++ [Op.copyGroup g]) later]
    exact holds_alike h1 (alike_run hok later hs)
  obtain ⟨-, -, -, r1, -, r2, -⟩ := C115_restore cfg (before ++ [.copyGroup g] ++ later) g c hd' hd es' es x' x hg' k1
  refine ⟨r1, fun hv hn n m => ?_⟩
  rw [← (h3 n m).1]
  have hlt := holds_lt h1
  refine (r2 n m).trans ?_
  rw [C115_others cfg (before ++ [Op.copyGroup g] ++ later) (.restoreGroup g c) c (holds_lt k1)]
  · exact C115_history cfg (before ++ [.copyGroup g]) later c hlt hv n m
  · intro j hj hw
    have : j = g := hw
    exact hn (this ▸ hj)

/-- C115: drawing runs out of depth only through groups which are in themselves. Without one among what the object shows, the picture does
not depend on the depth allowed, once that is the number of objects; with one, no depth is enough. -/
theorem C115_recursion (cfg : DCfg) (before : List Op) (i : ℕ) (hi : i < (run .empty before).items.length) :
    let w := run .empty before
    ((∀ j, InView w i j → ¬ TransGen (Shown w) j j) → ∀ n, w.items.length ≤ n → draw cfg w n i = draw cfg w w.items.length i) ∧
    ((∃ j, InView w i j ∧ TransGen (Shown w) j j) → ∀ n m ps, pic cfg w n i m ≠ .ok ps) := by
  have hok := ok_run ok_empty before
  refine ⟨fun h n hn => draw_depth cfg hok hi h _ le_rfl n hn, ?_⟩
  rintro ⟨j, hv, hc⟩ n m ps hp
  rcases reflTransGen_iff_eq_or_transGen.1 hv with rfl | hv
  · exact pic_cycle cfg hc n m ps hp
  · obtain ⟨k, -, m', qs, hq⟩ := pic_trans hp hv
    exact pic_cycle cfg hc k m' qs hq

/-- C115: an object has a tree exactly if no group in it is in itself. -/
theorem C115_tree (before : List Op) (i : ℕ) (hi : i < (run .empty before).items.length) :
    let w := run .empty before
    (∃ n e, tree w n i = some e) ↔ ∀ j, Within w i j → ¬ TransGen (Child w) j j := by
  have hok := ok_run ok_empty before
  constructor
  · rintro ⟨n, e, he⟩ j hj hc
    rcases reflTransGen_iff_eq_or_transGen.1 hj with rfl | hj
    · rw [tree_cycle hc n] at he; cases he
    · obtain ⟨k, -, t, ht⟩ := tree_trans he hj
      rw [tree_cycle hc k] at ht; cases ht
  · intro h
    obtain ⟨e, he⟩ := tree_exists hok hi h
    exact ⟨_, e, he⟩

/-- C115: if no call puts a group into itself then no group ever is in itself, every object has a tree, and drawing with as much depth as
there are objects draws that tree. -/
theorem C115_acyclic (cfg : DCfg) (ops : List Op) (h : NoLoops .empty ops) :
    Acyclic (run .empty ops) ∧ ∀ i, i < (run .empty ops).items.length → ∃ e, ∀ n, (run .empty ops).items.length ≤ n →
      tree (run .empty ops) n i = some e ∧ ∀ s, draw cfg (run .empty ops) n i s = Elem.paths cfg e s := by
  have gen : ∀ (ops : List Op) (w : World), Ok w → Acyclic w → NoLoops w ops → Acyclic (run w ops) := by
    intro ops
    induction ops with
    | nil => intro w _ h _; exact h
    | cons op ops ih => intro w hok h hl; exact ih _ (ok_step hok op) (acyclic_step hok h op hl.1) hl.2
  have h0 : Acyclic World.empty := by
    intro i hi
    obtain ⟨c, ⟨it, hd, es, k, h1, -⟩, -⟩ := TransGen.head'_iff.1 hi
    simp [World.empty] at h1
  have ha := gen ops _ ok_empty h0 h
  refine ⟨ha, fun i hi => ?_⟩
  obtain ⟨e, he⟩ := tree_exists (ok_run ok_empty ops) hi fun j _ => ha j
  exact ⟨e, fun n hn => ⟨tree_le he hn, fun s => draw_tree cfg (tree_le he hn) s⟩⟩

/-- C115: if no call renames an element of a group and no element is added under an empty name, then in every group with a name the names
which `iter_elems` lists are pairwise distinct and `lookup` finds the element listed, however the groups share elements. -/
theorem C115_names (ops : List Op) (h : KeepAllNames .empty ops) (n g : ℕ) (hdr : Hdr) (hidden : Bool) (es : List (Str × Elem))
    (ht : tree (run .empty ops) n g = some (.group hdr hidden es)) (hr : hdr.name ≠ []) (m : TState) :
    let r := Elem.iterElems (.group hdr hidden es) none m
    (r.items.map Elem.Yield.name).Nodup ∧
      ∀ y ∈ r.items, ∃ tag, y.name = hdr.name ++ '.' :: tag ∧ Elem.lookup (.group hdr hidden es) tag = .ok y.elem := by
  have h0 : KeyedW World.empty := by
    rintro i es ⟨it, hd, h1, -⟩
    simp [World.empty] at h1
  exact Elem.C43_names hdr hidden es m (tree_keyed (keyed_run ok_empty h0 ops h) ht).1 hr

/-! ### Examples and findings -/

/-- Two groups and two curves; the first curve is in both groups, the second one in the second group. -/
def demo (pb : PenBrush) (l l' : Leaf) : List Op :=
  [.mkGroup ['g'] pb false, .mkGroup ['h'] pb false, .mkLeaf ['a'] pb l, .mkLeaf ['b'] pb l',
   .add 0 ['a'] 2 false, .add 1 ['b'] 3 false, .add 1 ['a'] 2 false]

theorem demo_world (pb : PenBrush) (l l' : Leaf) : run .empty (demo pb l l') =
    ⟨[⟨['g'], pb, 0, .group false [(['a'], 2)]⟩, ⟨['h'], pb, 1, .group false [(['b'], 3), (['a'], 2)]⟩,
      ⟨['a'], pb, 2, .leaf l⟩, ⟨['b'], pb, 3, .leaf l'⟩],
     [Mat3.one, Mat3.one, Mat3.one, Mat3.one]⟩ := by cases l <;> cases l' <;> rfl

/-- The hypotheses of the theorems are met: both groups hold the first element, `add` works, nothing is in itself, and the first group does
not show the second element. -/
example (pb : PenBrush) (l l' : Leaf) :
    Holds (run .empty (demo pb l l')) 0 false [(['a'], 2)] Mat3.one ∧
    Holds (run .empty (demo pb l l')) 1 false [(['b'], 3), (['a'], 2)] Mat3.one ∧
    (step (run .empty (demo pb l l')) (.add 0 ['h'] 1 false)).2 = none ∧
    ¬ InView (run .empty (demo pb l l')) 1 0 ∧ ¬ TransGen (Shown (run .empty (demo pb l l'))) 0 0 ∧
    ¬ InView (run .empty (demo pb l l')) 0 3 := by
  rw [demo_world]
  have shown : ∀ a b, Shown ⟨[⟨['g'], pb, 0, .group false [(['a'], 2)]⟩, ⟨['h'], pb, 1, .group false [(['b'], 3), (['a'], 2)]⟩,
      ⟨['a'], pb, 2, .leaf l⟩, ⟨['b'], pb, 3, .leaf l'⟩], [Mat3.one, Mat3.one, Mat3.one, Mat3.one]⟩ a b → (a = 0 ∧ b = 2) ∨ (a = 1 ∧ (b = 2 ∨ b = 3)) := by
    rintro a b ⟨it, es, k, h1, h2, h3⟩
    match a with
    | 0 => simp at h1; subst h1; simp at h2; subst h2; simp at h3; exact .inl ⟨rfl, h3.2⟩
    | 1 => simp at h1; subst h1; simp at h2; subst h2; simp at h3; exact .inr ⟨rfl, by tauto⟩
    | 2 => simp at h1; subst h1; simp at h2
    | 3 => simp at h1; subst h1; simp at h2
    | n + 4 => simp at h1
  refine ⟨⟨_, rfl, rfl, rfl⟩, ⟨_, rfl, rfl, rfl⟩, rfl, ?_, ?_, ?_⟩
  · intro h
    rcases ReflTransGen.cases_tail h with h | ⟨c, -, h⟩
    · cases h
    · have := shown _ _ h; omega
  · intro h
    obtain ⟨c, -, h⟩ := TransGen.tail'_iff.1 h
    have := shown _ _ h; omega
  · intro h
    rcases ReflTransGen.cases_tail h with h | ⟨c, h1, h⟩
    · cases h
    · have h2 := shown _ _ h
      rcases ReflTransGen.cases_tail h1 with h3 | ⟨d, -, h3⟩
      · omega
      · have := shown _ _ h3; omega

/-- Renaming nothing: `demo` keeps all names, and puts no group into itself. -/
example (pb : PenBrush) (l l' : Leaf) : NoLoops .empty (demo pb l l') := by
  have leafs : ∀ (w : World) (i g : ℕ), (∀ c, ¬ Child w i c) → i ≠ g → ¬ Within w i g := by
    intro w i g h hne hw
    rcases ReflTransGen.cases_head hw with h1 | ⟨c, h1, -⟩
    · exact hne h1
    · exact h c h1
  refine ⟨trivial, trivial, trivial, trivial, ?_, ?_, ?_, trivial⟩ <;>
  · refine leafs _ _ _ ?_ (by decide)
    rintro c ⟨it, hd, es, k, h1, h2, -⟩
    have : it.body = .leaf l ∨ it.body = .leaf l' := by
      cases l <;> cases l' <;> (have h1 := (Option.some.inj h1); subst h1; first | exact .inl rfl | exact .inr rfl)
    rcases this with h | h <;> rw [h] at h2 <;> cases h2

/-- A history which keeps all names: one element is put into two groups under the same name. -/
example (pb : PenBrush) (p q : Pt ℝ) :
    KeepAllNames .empty [.mkGroup ['g'] pb false, .mkGroup ['h'] pb false, .mkLeaf ['a'] pb (.rect p q), .add 0 ['a'] 2 false,
      .add 1 ['a'] 2 false] := by
  refine ⟨⟨?_, by simp⟩, ⟨?_, by simp⟩, ⟨?_, by simp⟩, ⟨?_, ?_⟩, ⟨?_, ?_⟩, trivial⟩
  · intro j it it' h; simp [World.empty] at h
  · intro j it it' h h'
    rcases j with _ | j
    · cases h; cases h'; exact fun _ => rfl
    · simp [step, World.empty] at h
  · intro j it it' h h'
    rcases j with _ | _ | j
    · cases h; cases h'; exact fun _ => rfl
    · cases h; cases h'; exact fun _ => rfl
    · simp [step, World.empty] at h
  · intro j it it' h h'
    rcases j with _ | _ | _ | j
    · cases h; cases h'; exact fun _ => rfl
    · cases h; cases h'; exact fun _ => rfl
    · cases h; cases h'; exact fun _ => rfl
    · simp [step, World.empty] at h
  · intro g name e fix it' he h
    cases he
    cases h
    simp
  · intro j it it' h h'
    rcases j with _ | _ | _ | j
    · cases h; cases h'; exact fun _ => rfl
    · cases h; cases h'; exact fun _ => rfl
    · cases h; cases h'; exact fun _ => rfl
    · exact absurd (lt_of_some h) (by show ¬ j + 3 < 3; omega)
  · intro g name e fix it' he h
    cases he
    cases h
    simp

/-- Finding: `g.add('g', g)` is accepted, and from then on drawing the group raises at every depth of the stack. -/
theorem C115_self_counterexample (cfg : DCfg) (pb : PenBrush) (l l' : Leaf) :
    (step (run .empty (demo pb l l')) (.add 0 ['g'] 0 false)).2 = none ∧
    ∀ n m ps, pic cfg (run .empty (demo pb l l' ++ [.add 0 ['g'] 0 false])) n 0 m ≠ .ok ps := by
  refine ⟨by rw [demo_world]; rfl, fun n m ps => ?_⟩
  refine pic_cycle cfg (.single ?_) n m ps
  rw [run_append, demo_world]
  exact ⟨_, _, ['g'], rfl, rfl, by simp⟩

/-- Finding: restoring a group from the group it is in puts it into itself. -/
theorem C115_restore_loop_counterexample (cfg : DCfg) (pb : PenBrush) (l l' : Leaf) :
    NoLoop (run .empty (demo pb l l')) (.add 1 ['g'] 0 false) ∧
    (step (run .empty (demo pb l l' ++ [.add 1 ['g'] 0 false])) (.restoreGroup 0 1)).2 = none ∧
    ∀ n m ps, pic cfg (run .empty (demo pb l l' ++ [.add 1 ['g'] 0 false, .restoreGroup 0 1])) n 0 m ≠ .ok ps := by
  refine ⟨?_, by rw [run_append, demo_world]; rfl, fun n m ps => ?_⟩
  · rw [demo_world]
    intro h
    rcases ReflTransGen.cases_tail h with h | ⟨c, -, it, hd, es, k, h1, h2, h3⟩
    · cases h
    · match c with
      | 0 => simp at h1; subst h1; simp at h2; obtain ⟨rfl, rfl⟩ := h2; simp at h3
      | 1 => simp at h1; subst h1; simp at h2; obtain ⟨rfl, rfl⟩ := h2; simp at h3
      | 2 => simp at h1; subst h1; simp at h2
      | 3 => simp at h1; subst h1; simp at h2
      | n + 4 => simp at h1
  · refine pic_cycle cfg (.single ?_) n m ps
    rw [run_append, demo_world]
    exact ⟨_, _, ['g'], rfl, rfl, by simp⟩

/-- Finding: an element in two groups has one name. When it is added to the second group under a name taken there it is renamed; the first
group keeps it under the old key but lists it under the new name, which it then does not find. -/
theorem C115_shared_name_counterexample (pb : PenBrush) (p q : Pt ℝ) (m : TState) :
    let ops : List Op := [.mkGroup ['g'] pb false, .mkGroup ['h'] pb false, .mkLeaf ['a'] pb (.ellipse p q), .mkLeaf ['a'] pb (.rect p q),
      .add 0 ['a'] 2 false, .add 1 ['a'] 3 false, .add 1 ['a'] 2 false]
    ∃ e, tree (run .empty ops) 2 0 = some e ∧
      (Elem.iterElems e none m).items.map Elem.Yield.name = ["g.ellipse#0".toList] ∧
      Elem.lookup e "ellipse#0".toList = .error .key ∧ ∃ x, Elem.lookup e ['a'] = .ok x := by
  refine ⟨_, rfl, rfl, rfl, _, rfl⟩

/-- Finding: `copy` and `restore` of a group do not bring back its elements: an element changed meanwhile stays changed. -/
theorem C115_undo_elements_counterexample (pb pb' : PenBrush) (l l' l'' : Leaf) :
    let ops := demo pb l l'
    let edited := ops ++ [.copyGroup 0, .edit 2 ['a'] pb' l'' none, .restoreGroup 0 4]
    tree (run .empty ops) 2 0 = some (.group ⟨['g'], pb, false, Mat3.one⟩ false [(['a'], leafElem ['a'] pb Mat3.one l)]) ∧
    tree (run .empty edited) 2 0 = some (.group ⟨['g'], pb, false, Mat3.one⟩ false [(['a'], leafElem ['a'] pb' Mat3.one l'')]) := by
  simp only
  rw [run_append, demo_world]
  exact ⟨rfl, rfl⟩

/-- Finding: after `restore` the group shares the transform with the copy it was restored from, so that the copy is no longer a safe copy:
moving the group moves the saved copy too, and restoring a second time does not undo it. -/
theorem C115_second_undo_counterexample (pb : PenBrush) (l l' : Leaf) (m : Mat3 ℝ) :
    let w := run .empty (demo pb l l' ++ [.copyGroup 0, .restoreGroup 0 4])
    let w' := run .empty (demo pb l l' ++ [.copyGroup 0, .restoreGroup 0 4, .setXf 0 m, .restoreGroup 0 4])
    Holds w 0 false [(['a'], 2)] Mat3.one ∧ Holds w' 0 false [(['a'], 2)] m := by
  simp only
  rw [run_append, run_append, demo_world]
  exact ⟨⟨_, rfl, rfl, rfl⟩, ⟨_, rfl, rfl, rfl⟩⟩

end X7.GH
