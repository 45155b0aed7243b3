import Verif.Lemmas.GroupSwap
import Verif.Props.GroupHeap
import Verif.Props.ElemBBox
import Verif.Lemmas.Equal

/-!
C118: looking through groups which share elements: `bbox`, `as_curves`, `iter_elems`, `lookup`, `replace`.
-/

noncomputable section

namespace X7.GL
open X7.GH Relation

/-! ### What is seen -/

/-- C118: `bbox()` and `as_curves()` of an object are those of the tree which hangs on it: sharing makes no difference. -/
theorem C118_look (w : World) (n i : ℕ) (e : Elem) (h : tree w n i = some e) : box w n i = e.bbox ∧ curves w n i = e.asCurves :=
  ⟨box_tree h, curves_tree h⟩

/-- C118: `iter_elems` gives the items of the tree, in order: the names, the matrices, and objects on which the elements of the tree hang. The
matrix object is afterwards as for the tree, and the exception, if any, is the same. An object in several groups is given once for each way to it. -/
theorem C118_iter (w : World) (n i : ℕ) (e : Elem) (h : tree w n i = some e) (root : Option Str) (m : TState) :
    values (tree w n) (iter w n i root m).items = some (e.iterElems root m).items ∧ (iter w n i root m).mat = (e.iterElems root m).mat ∧
      (iter w n i root m).err = (e.iterElems root m).err := iter_tree h root m

/-- C118: `lookup` finds the object on which the element of the tree hangs, and raises what it raises on the tree. -/
theorem C118_lookup_tree (w : World) (n i : ℕ) (e : Elem) (h : tree w n i = some e) (tag : Str) :
    (∀ j, lookup w n i tag = .ok j → ∃ t, e.lookup tag = .ok t ∧ tree w n j = some t) ∧
    (∀ t, e.lookup tag = .ok t → ∃ j, lookup w n i tag = .ok j ∧ tree w n j = some t) ∧
    ∀ er, lookup w n i tag = .error er ↔ e.lookup tag = .error er := by
  have hf := lookup_tree h tag
  revert hf
  generalize lookup w n i tag = a
  generalize e.lookup tag = b
  intro hf
  cases a <;> cases b <;> simp only [SameFound] at hf
  · subst hf; simp
  · simp [hf]

/-- C118: in every state the box of an object, if it has one, encloses whatever the object draws on an untransformed canvas, elements shared or
not, provided the transforms of what is in it are affine and corner radii are not negative. -/
theorem C118_encloses (cfg : DCfg) (before : List Op) (i n : ℕ) :
    let w := run .empty before
    i < w.items.length → (∀ j, Within w i j → ¬ TransGen (Child w) j j) →
    (∀ j it x, Within w i j → w.items[j]? = some it → w.xfs[it.xf]? = some x →
      x.Affine ∧ ∀ p q r, it.body = .leaf (.rrect p q r) → 0 ≤ r) →
    w.items.length ≤ n →
    ∀ b ps, box w n i = .ok b → pic cfg w n i Mat3.one = .ok ps → ∀ p ∈ ps, ∀ q ∈ p.pts, q ∈ b.Region := by
  intro w hi hc hs hn b ps hb hp
  obtain ⟨e, he⟩ := tree_exists (ok_run ok_empty before) hi hc
  have he' := tree_le he hn
  rw [box_tree he'] at hb
  rw [pic, draw_tree cfg he'] at hp
  exact Elem.C39_bbox_encloses cfg e (tree_sound he' hs) b hb _ rfl ps hp

/-- C118: if no call put a group into itself, every object has a tree, so all this applies to it, and no more depth is needed than there are
objects. -/
theorem C118_depth (ops : List Op) (h : NoLoops .empty ops) (i : ℕ) (hi : i < (run .empty ops).items.length) (n : ℕ)
    (hn : (run .empty ops).items.length ≤ n) :
    let w := run .empty ops
    ∃ e, tree w n i = some e ∧ box w n i = e.bbox ∧ curves w n i = e.asCurves := by
  intro w
  obtain ⟨e, he⟩ := tree_exists (ok_run ok_empty ops) hi fun j _ => acyclic_ops h j
  have he' := tree_le he hn
  exact ⟨e, he', box_tree he', curves_tree he'⟩

/-- C118: if a group in it is in itself, an object has no box, no curves, and going through it raises, whatever the depth. -/
theorem C118_loop (w : World) (i j : ℕ) (hj : Within w i j) (hc : TransGen (Child w) j j) (n : ℕ) :
    (∀ b, box w n i ≠ .ok b) ∧ (∀ cs, curves w n i ≠ .ok cs) ∧ ∀ root m, (iter w n i root m).err ≠ none :=
  ⟨fun b h => cycle_never (P := fun n a => ∃ c, box w n a = .ok c) box_down hj hc n ⟨b, h⟩,
    fun cs h => cycle_never (P := fun n a => ∃ c, curves w n a = .ok c) curves_down hj hc n ⟨cs, h⟩,
    fun root m h => cycle_never (P := fun n a => ∃ root m, (iter w n a root m).err = none) iter_down hj hc n ⟨root, m, h⟩⟩

/-- C118: looking up keys joined by dots goes down along the keys, in any state, also where groups are in themselves; it needs only as much
depth as there are keys, and where there is nothing it raises `KeyError` or `ValueError`. -/
theorem C118_lookup (w : World) (g : ℕ) (es : List (Str × ℕ)) (hg : elems w g = some es) (k : Str) (ks : List Str)
    (hc : ∀ c ∈ k :: ks, c ≠ [] ∧ '.' ∉ c) (n : ℕ) (hn : (k :: ks).length ≤ n) :
    (∀ j, lookup w n g (Elem.joinDots (k :: ks)) = .ok j ↔ follow w g (k :: ks) = some j) ∧
    ∀ er, lookup w n g (Elem.joinDots (k :: ks)) = .error er → er = .key ∨ er = .value :=
  lookup_follow ks k n g (by simp at hn; omega) ⟨es, hg⟩ hc

/-! ### `replace` -/

/-- C118: `g.replace(elem, replacement)`, the replacement being a curve or shape not equal to `elem`. If every group in `g` can take it, `elem` is
replaced in each of them, however many ways lead to the group, everything else stays, and the count is the number of groups in which something
was replaced. -/
theorem C118_replace (ops : List Op) (hl : NoLoops .empty ops) (g e r n : ℕ) (gs : List (Str × ℕ)) (ri : Item) (l : Leaf) :
    let w := run .empty ops
    elems w g = some gs → w.items[r]? = some ri → ri.body = .leaf l → same w r e = false → w.items.length ≤ n →
    (∀ i es, Within w g i → elems w i = some es → Fits w e ri.name es) →
    ∃ w', replace e r n w g = (w', .ok (Affected w e g).ncard) ∧ Replaced w g e r ri.name w' := by
  intro w hg hr hrl hd hn hf
  have hs : Setting w e r ri.name := ⟨keysW_run keysW_empty ops, acyclic_ops hl, ⟨ri, l, hr, hrl, rfl⟩, hd⟩
  rcases replace_result (ok_run ok_empty ops) hs ⟨gs, hg⟩ n hn with ⟨-, w', h1, h2⟩ | ⟨⟨i, h1, -, h2⟩, -⟩
  · rw [affected_eq] at h1
    exact ⟨w', h1, replaced_done h2⟩
  · exact absurd (fun es h => hf i es h1.1 h) h2

/-- C118: otherwise it raises `ValueError`. -/
theorem C118_refused (ops : List Op) (hl : NoLoops .empty ops) (g e r n : ℕ) (gs : List (Str × ℕ)) (ri : Item) (l : Leaf) :
    let w := run .empty ops
    elems w g = some gs → w.items[r]? = some ri → ri.body = .leaf l → same w r e = false → w.items.length ≤ n →
    (∃ i es, Within w g i ∧ elems w i = some es ∧ ¬ Fits w e ri.name es) →
    (replace e r n w g).2 = .error .value := by
  intro w hg hr hrl hd hn ⟨i, es, h1, h2, h3⟩
  have hs : Setting w e r ri.name := ⟨keysW_run keysW_empty ops, acyclic_ops hl, ⟨ri, l, hr, hrl, rfl⟩, hd⟩
  rcases replace_result (ok_run ok_empty ops) hs ⟨gs, hg⟩ n hn with ⟨h4, -⟩ | ⟨-, w', h4⟩
  · exact absurd (h4 i ⟨h1, es, h2⟩ (fun h => h.elim) es h2) h3
  · rw [h4]

/-- C118: afterwards no group in `g` has an element equal to `elem`, at any depth. -/
theorem C118_gone (w w' : World) (g e r : ℕ) (ri : Item) (l : Leaf) (hr : w.items[r]? = some ri) (hrl : ri.body = .leaf l)
    (hd : same w r e = false) (h : Replaced w g e r ri.name w') (i : ℕ) (es : List (Str × ℕ)) (hi : Within w' g i)
    (he : elems w' i = some es) : ∀ x ∈ es, same w' x.2 e = false := by
  intro x hx
  have hrn : elems w r = none := by simp [elems, hr, hrl]
  obtain ⟨es0, h1, h2, -⟩ := replaced_elems h he
  rw [same_like (replaced_like h)]
  rcases replaced_within h hrn hi with hw | rfl
  · rw [h2 hw] at hx
    by_cases hm : Match w e es0
    · simp only [after, if_pos hm, List.mem_append, List.mem_filter, List.mem_singleton] at hx
      rcases hx with ⟨-, h⟩ | rfl
      · simpa using h
      · exact hd
    · simp only [after, if_neg hm] at hx
      cases h : same w x.2 e with
      | false => rfl
      | true => exact absurd ⟨x, hx, h⟩ hm
  · rw [hrn] at h1; cases h1

/-! ### Findings and examples -/

/-- A row: `root` contains `a` and `b`, both contain the group `s`, which contains the curve or shape `x`; `y` is outside. -/
def shared (pb : PenBrush) (l l' : Leaf) : List Op :=
  [.mkGroup ['m'] pb false, .mkGroup ['a'] pb false, .mkGroup ['b'] pb false, .mkGroup ['s'] pb false, .mkLeaf ['x'] pb l, .mkLeaf ['y'] pb l',
    .add 0 ['a'] 1 false, .add 0 ['b'] 2 false, .add 1 ['s'] 3 false, .add 2 ['s'] 3 false, .add 3 ['x'] 4 false]

theorem shared_world (pb : PenBrush) (l l' : Leaf) : run .empty (shared pb l l') =
    ⟨[⟨['m'], pb, 0, .group false [(['a'], 1), (['b'], 2)]⟩, ⟨['a'], pb, 1, .group false [(['s'], 3)]⟩, ⟨['b'], pb, 2, .group false [(['s'], 3)]⟩,
      ⟨['s'], pb, 3, .group false [(['x'], 4)]⟩, ⟨['x'], pb, 4, .leaf l⟩, ⟨['y'], pb, 5, .leaf l'⟩],
      [Mat3.one, Mat3.one, Mat3.one, Mat3.one, Mat3.one, Mat3.one]⟩ := by
  simp [shared, run, step, World.empty, GH.add, GroupNames.pickName, hasDot]

theorem pbEqv_refl (pb : PenBrush) : Dump.pbEqv pb pb = true := (Dump.pbEqv_iff pb pb).2 rfl

theorem leafless_within {w : World} {e g : ℕ} (h : elems w e = none ∨ elems w e = some []) (hne : e ≠ g) : ¬ Within w e g := by
  intro hw
  rcases ReflTransGen.cases_head hw with h1 | ⟨c, ⟨it, hd, es, k, h3, h4, h5⟩, -⟩
  · exact hne h1
  · rw [elems_group h3 h4] at h
    rcases h with h | h
    · cases h
    · cases h; cases h5

theorem shared_noLoops (pb : PenBrush) (l l' : Leaf) : NoLoops .empty (shared pb l l') := by
  refine ⟨trivial, trivial, trivial, trivial, trivial, trivial, ?_, ?_, ?_, ?_, ?_, trivial⟩
  · exact leafless_within (.inr (by simp [step, World.empty, elems])) (by decide)
  · exact leafless_within (.inr (by simp [step, World.empty, elems, GH.add, GroupNames.pickName, hasDot])) (by decide)
  · exact leafless_within (.inr (by simp [step, World.empty, elems, GH.add, GroupNames.pickName, hasDot])) (by decide)
  · exact leafless_within (.inr (by simp [step, World.empty, elems, GH.add, GroupNames.pickName, hasDot])) (by decide)
  · exact leafless_within (.inl (by simp [step, World.empty, elems, GH.add, GroupNames.pickName, hasDot])) (by decide)

/-- The hypotheses of C118_replace are met: two ways lead to the group which has the element. -/
example (pb : PenBrush) (l l' : Leaf) :
    let w := run .empty (shared pb l l')
    NoLoops .empty (shared pb l l') ∧ elems w 0 = some [(['a'], 1), (['b'], 2)] ∧ w.items[5]? = some ⟨['y'], pb, 5, .leaf l'⟩ ∧
      same w 5 4 = false ∧ same w 4 4 = true ∧ Within w 0 3 ∧ elems w 3 = some [(['x'], 4)] ∧
      ∀ i es, Within w 0 i → elems w i = some es → Fits w 4 ['y'] es := by
  refine ⟨shared_noLoops pb l l', ?_⟩
  rw [shared_world]
  refine ⟨rfl, rfl, by simp [same], by simp [same, pbEqv_refl], ?_, rfl, ?_⟩
  · refine ReflTransGen.tail (b := 1) (ReflTransGen.tail (b := 0) .refl ?_) ?_
    · exact ⟨_, _, _, ['a'], rfl, rfl, by simp⟩
    · exact ⟨_, _, _, ['s'], rfl, rfl, by simp⟩
  · intro i es _ hes x hx hs
    match i with
    | 0 => cases hes; simp at hx; rcases hx with rfl | rfl <;> simp [same] at hs
    | 1 => cases hes; simp at hx; subst hx; simp [same] at hs
    | 2 => cases hes; simp at hx; subst hx; simp [same] at hs
    | 3 => cases hes; simp at hx; subst hx; exact ⟨by simp [hasDot], by simp⟩
    | 4 => cases hes
    | 5 => cases hes
    | n + 6 => simp [elems] at hes

/-- Finding: the count is that of groups, not of places: `iter_elems` lists the shared element twice before, and its replacement twice
afterwards, but the count is 1. -/
theorem C118_count_counterexample (pb : PenBrush) (l l' : Leaf) (m : TState) :
    let w := run .empty (shared pb l l')
    ∃ w', replace 4 5 6 w 0 = (w', .ok 1) ∧
      (iter w 6 0 none m).items.map Item'.obj = [4, 4] ∧ (iter w' 6 0 none m).items.map Item'.obj = [5, 5] := by
  rw [shared_world]
  simp [replace, replaceAll, elems, same, pbEqv_refl, swap, setElems, GH.add, GroupNames.pickName, hasDot, iter, iterAll, Elem.rootName,
    TState.push, TState.compose, TState.pop]

/-- Finding: when the name of the replacement is taken, the exception leaves the group without the element: it has been deleted. -/
theorem C118_lost_counterexample (pb : PenBrush) (l l' : Leaf) :
    let w := run .empty [.mkGroup ['m'] pb false, .mkLeaf ['x'] pb l, .mkLeaf ['y'] pb l, .mkLeaf ['y'] pb l', .add 0 ['x'] 1 false,
      .add 0 ['y'] 2 false]
    elems w 0 = some [(['x'], 1), (['y'], 2)] ∧
    ∃ w', replace 1 3 4 w 0 = (w', .error .value) ∧ elems w' 0 = some [(['y'], 2)] := by
  simp [run, step, World.empty, replace, replaceAll, elems, same, pbEqv_refl, swap, setElems, GH.add, GroupNames.pickName, hasDot]

/-- Finding: an element is replaced by a group which contains it, in a model where two ways lead to the group with the element: the second
time round the replacement is found, and put into itself. From then on the model cannot be drawn. -/
theorem C118_into_itself_counterexample (cfg : DCfg) (pb : PenBrush) (l : Leaf) :
    let w := run .empty (shared pb l l ++ [.mkGroup ['r'] pb false, .add 6 ['x'] 4 false])
    Acyclic w ∧ ∃ w', replace 4 6 7 w 0 = (w', .ok 2) ∧ elems w' 6 = some [(['r'], 6)] ∧ ∀ n mat ps, pic cfg w' n 0 mat ≠ .ok ps := by
  simp only
  have hw : run .empty (shared pb l l ++ [.mkGroup ['r'] pb false, .add 6 ['x'] 4 false]) =
    ⟨[⟨['m'], pb, 0, .group false [(['a'], 1), (['b'], 2)]⟩, ⟨['a'], pb, 1, .group false [(['s'], 3)]⟩, ⟨['b'], pb, 2, .group false [(['s'], 3)]⟩,
      ⟨['s'], pb, 3, .group false [(['x'], 4)]⟩, ⟨['x'], pb, 4, .leaf l⟩, ⟨['y'], pb, 5, .leaf l⟩, ⟨['r'], pb, 6, .group false [(['x'], 4)]⟩],
      [Mat3.one, Mat3.one, Mat3.one, Mat3.one, Mat3.one, Mat3.one, Mat3.one]⟩ := by
    rw [run_append, shared_world]
    simp [run, step, GH.add, GroupNames.pickName, hasDot]
  refine ⟨?_, ?_⟩
  · have : NoLoops .empty (shared pb l l ++ [.mkGroup ['r'] pb false, .add 6 ['x'] 4 false]) := by
      refine ⟨trivial, trivial, trivial, trivial, trivial, trivial, ?_, ?_, ?_, ?_, ?_, trivial, ?_, trivial⟩
      · exact leafless_within (.inr (by simp [step, World.empty, elems])) (by decide)
      · exact leafless_within (.inr (by simp [step, World.empty, elems, GH.add, GroupNames.pickName, hasDot])) (by decide)
      · exact leafless_within (.inr (by simp [step, World.empty, elems, GH.add, GroupNames.pickName, hasDot])) (by decide)
      · exact leafless_within (.inr (by simp [step, World.empty, elems, GH.add, GroupNames.pickName, hasDot])) (by decide)
      · exact leafless_within (.inl (by simp [step, World.empty, elems, GH.add, GroupNames.pickName, hasDot])) (by decide)
      · exact leafless_within (.inl (by simp [step, World.empty, elems, GH.add, GroupNames.pickName, hasDot])) (by decide)
    exact acyclic_ops this
  · rw [hw]
    refine ⟨⟨[⟨['m'], pb, 0, .group false [(['a'], 1), (['b'], 2)]⟩, ⟨['a'], pb, 1, .group false [(['s'], 3)]⟩,
      ⟨['b'], pb, 2, .group false [(['s'], 3)]⟩, ⟨['s'], pb, 3, .group false [(['r'], 6)]⟩, ⟨['x'], pb, 4, .leaf l⟩, ⟨['y'], pb, 5, .leaf l⟩,
      ⟨['r'], pb, 6, .group false [(['r'], 6)]⟩], [Mat3.one, Mat3.one, Mat3.one, Mat3.one, Mat3.one, Mat3.one, Mat3.one]⟩, ?_, rfl, ?_⟩
    · simp [replace, replaceAll, elems, same, pbEqv_refl, swap, setElems, GH.add, GroupNames.pickName, hasDot]
    · intro n mat ps h
      obtain ⟨k1, -, m1, q1, h⟩ := pic_down (b := 1) h ⟨_, _, ['a'], rfl, rfl, by simp⟩
      obtain ⟨k2, -, m2, q2, h⟩ := pic_down (b := 3) h ⟨_, _, ['s'], rfl, rfl, by simp⟩
      obtain ⟨k3, -, m3, q3, h⟩ := pic_down (b := 6) h ⟨_, _, ['r'], rfl, rfl, by simp⟩
      refine pic_cycle cfg (.single ?_) k3 m3 q3 h
      exact ⟨_, _, ['r'], rfl, rfl, by simp⟩

end X7.GL
