import Verif.Lemmas.Scene
import Verif.Props.MultiHeap

/-!
C112: a frame depends only on its time. Animations of points, morphs and multi-step morphs that work in place on the same curves are
updated again and again; if they are in a good order, what the frame at a time shows does not depend on what was built before.
-/

noncomputable section

namespace X7.Scene

open CH Anim

variable {I : Type} (draw : Heap → Except PyErr I)

theorem buildOne_heap (xs : List Item) (h : Heap) (t : TVal) : (buildOne draw xs h t).1 = (updateAll h xs t).1 := by
  unfold buildOne
  obtain ⟨r, hr⟩ : ∃ r, r = updateAll h xs t := ⟨_, rfl⟩
  rw [← hr]
  obtain ⟨h1, e⟩ := r
  cases e <;> rfl

theorem buildOne_only (h : Heap) (xs : List Item) (t : TVal) :
    Agree (fun l => l ∉ xs.flatMap (writes h)) h (buildOne draw xs h t).1 := by
  rw [buildOne_heap]
  exact updateAll_only h xs t

theorem buildList_only (h : Heap) (xs : List Item) (ts : List TVal) :
    Agree (fun l => l ∉ xs.flatMap (writes h)) h (buildList draw xs h ts).1 := by
  induction ts generalizing h with
  | nil => exact Agree.refl _ _
  | cons t ts ih =>
    have A := buildOne_only draw h xs t
    have B := ih (buildOne draw xs h t).1
    rw [show writes (buildOne draw xs h t).1 = writes h from funext fun y => writes_congr A.cps A.curves y] at B
    simp only [buildList]
    obtain ⟨r, hr⟩ : ∃ r, r = buildOne draw xs h t := ⟨_, rfl⟩
    rw [← hr] at A B ⊢
    obtain ⟨h1, e⟩ := r
    cases e with
    | error e => exact A
    | ok im =>
      simp only at B ⊢
      have C := A.trans B
      obtain ⟨s, hs⟩ : ∃ s, s = buildList draw xs h1 ts := ⟨_, rfl⟩
      rw [← hs] at C ⊢
      obtain ⟨h2, e⟩ := s
      cases e <;> exact C

theorem step_only (h : Heap) (xs : List Item) (a : Call) : Agree (fun l => l ∉ xs.flatMap (writes h)) h (step draw xs h a) := by
  cases a with
  | one k t =>
    simp only [step]
    cases e : xs[k]? with
    | none => exact Agree.refl _ _
    | some x => exact (update_only h x t).mono fun l hl hx => hl (List.mem_flatMap.2 ⟨x, List.mem_of_getElem? e, hx⟩)
  | all t => exact updateAll_only h xs t
  | frame t => exact buildOne_only draw h xs t
  | frames n => exact buildList_only draw h xs _

theorem run_only (h : Heap) (xs : List Item) (as : List Call) : Agree (fun l => l ∉ xs.flatMap (writes h)) h (run draw xs h as) := by
  induction as generalizing h with
  | nil => exact Agree.refl _ _
  | cons a as ih =>
    have A := step_only draw h xs a
    have B := ih (step draw xs h a)
    rw [show writes (step draw xs h a) = writes h from funext fun y => writes_congr A.cps A.curves y] at B
    exact A.trans B

/-- C112: whatever is updated and built, in any order, with or without exceptions: there are the same curves with the same control points
and transforms, and nothing is moved except the points and the curves of the animations. -/
theorem C112_others (h : Heap) (xs : List Item) (as : List Call) :
    (run draw xs h as).curves = h.curves ∧ (run draw xs h as).cps = h.cps ∧ (run draw xs h as).xfs = h.xfs ∧
      ∀ l, l ∉ xs.flatMap (writes h) → at' (run draw xs h as) l = at' h l :=
  have A := run_only draw h xs as
  ⟨A.curves, A.cps, A.xfs, fun _ hl => A.at' hl⟩

theorem all_of_agree {h h' : Heap} {xs : List Item} (A : Agree (fun l => l ∉ xs.flatMap (writes h)) h h') (o : Ordered h xs)
    (m : ∀ x ∈ xs, Matched h x) (t : TVal) : (updateAll h' xs t).2 = (updateAll h xs t).2 ∧
      ((updateAll h xs t).2 = none → (updateAll h' xs t).1 = (updateAll h xs t).1) := by
  obtain ⟨r1, r2⟩ := updateAll_agree A xs t m (known_ordered o)
  exact ⟨r1, fun q => (r2 q).eq fun l => (em _).symm⟩

/-- C112: an update depends only on its time. After any history of updates and frames, an update at a time raises what it would have
raised at the start, and if it does not raise then all objects are as if it had been the first. -/
theorem C112_time {h : Heap} {xs : List Item} (o : Ordered h xs) (m : ∀ x ∈ xs, Matched h x) (as : List Call) (t : TVal) :
    (updateAll (run draw xs h as) xs t).2 = (updateAll h xs t).2 ∧
      ((updateAll h xs t).2 = none → (updateAll (run draw xs h as) xs t).1 = (updateAll h xs t).1) :=
  all_of_agree (run_only draw h xs as) o m t

theorem one_of_agree {h h' : Heap} {xs : List Item} (A : Agree (fun l => l ∉ xs.flatMap (writes h)) h h') (o : Ordered h xs)
    (m : ∀ x ∈ xs, Matched h x) (t : TVal) : (buildOne draw xs h' t).2 = (buildOne draw xs h t).2 := by
  obtain ⟨r1, r2⟩ := all_of_agree A o m t
  unfold buildOne
  obtain ⟨r, hr⟩ : ∃ r, r = updateAll h xs t := ⟨_, rfl⟩
  obtain ⟨s, hs⟩ : ∃ s, s = updateAll h' xs t := ⟨_, rfl⟩
  rw [← hr, ← hs] at r1 r2
  rw [← hr, ← hs]
  obtain ⟨h1, e⟩ := r
  obtain ⟨h2, e'⟩ := s
  simp only at r1 r2
  subst r1
  cases e' with
  | some e => rfl
  | none => rw [r2 rfl]

/-- C112: a frame depends only on its time: `build_one(t)` gives the image, or the exception, that it would have given at the start. -/
theorem C112_frame {h : Heap} {xs : List Item} (o : Ordered h xs) (m : ∀ x ∈ xs, Matched h x) (as : List Call) (t : TVal) :
    (buildOne draw xs (run draw xs h as) t).2 = (buildOne draw xs h t).2 :=
  one_of_agree draw (run_only draw h xs as) o m t

theorem list_of_agree {h h' : Heap} {xs : List Item} (A : Agree (fun l => l ∉ xs.flatMap (writes h)) h h') (o : Ordered h xs)
    (m : ∀ x ∈ xs, Matched h x) (ts : List TVal) : (buildList draw xs h' ts).2 = ts.mapM fun t => (buildOne draw xs h t).2 := by
  induction ts generalizing h' with
  | nil => rfl
  | cons t ts ih =>
    have e := one_of_agree draw A o m t
    have B := buildOne_only draw h' xs t
    rw [show writes h' = writes h from funext fun y => writes_congr A.cps A.curves y] at B
    have ih' := ih (A.trans B)
    simp only [buildList, List.mapM_cons]
    rw [← e, ← ih']
    obtain ⟨r, hr⟩ : ∃ r, r = buildOne draw xs h' t := ⟨_, rfl⟩
    rw [← hr]
    obtain ⟨h1, e⟩ := r
    cases e with
    | error e => rfl
    | ok im =>
      simp only
      obtain ⟨s, hs⟩ : ∃ s, s = buildList draw xs h1 ts := ⟨_, rfl⟩
      rw [← hs]
      obtain ⟨h2, e⟩ := s
      cases e <;> rfl

/-- C112: `build_all(steps)`, whenever it is called, gives the frames at `0, 1/steps, ..` each as if it had been built alone and at the
start; the first exception among them is raised. -/
theorem C112_frames {h : Heap} {xs : List Item} (o : Ordered h xs) (m : ∀ x ∈ xs, Matched h x) (as : List Call) (steps : ℕ) :
    (buildAll draw xs (run draw xs h as) steps).2 =
      (List.range steps).mapM fun (i : ℕ) => (buildOne draw xs h (.num ((i : ℝ) / steps))).2 := by
  unfold buildAll
  rw [list_of_agree draw (run_only draw h xs as) o m, List.mapM_map]
  rfl

/-! ### Which orders are good -/

/-- C112: the order does not matter if no animation looks at anything that an animation moves. -/
theorem C112_apart {h : Heap} {xs : List Item} (d : ∀ x ∈ xs, ∀ y ∈ xs, ∀ l ∈ reads h x, l ∉ writes h y) : Ordered h xs := by
  intro pre x post e l hl hw
  obtain ⟨y, hy, hl'⟩ := List.mem_flatMap.1 hw
  refine absurd hl' (d x ?_ y ?_ l hl)
  · rw [e]; simp
  · rw [e]; exact List.mem_append_right _ hy

/-- C112: first the points, then the morphs. Animations `ps` that look at nothing that is moved, and then animations `ms` that do not look
at what these move, are in a good order; `ms` may look at what `ps` move. -/
theorem C112_points_first {h : Heap} {ps ms : List Item} (d1 : ∀ x ∈ ps, ∀ y ∈ ps ++ ms, ∀ l ∈ reads h x, l ∉ writes h y)
    (d2 : ∀ x ∈ ms, ∀ y ∈ ms, ∀ l ∈ reads h x, l ∉ writes h y) : Ordered h (ps ++ ms) := by
  intro pre x post e l hl hw
  obtain ⟨y, hy, hl'⟩ := List.mem_flatMap.1 hw
  rcases List.append_eq_append_iff.1 e with ⟨a, ha, hb⟩ | ⟨c, hc, hd⟩
  · -- the animation is one of `ms`
    exfalso
    have hx : x ∈ ms := by rw [hb]; simp
    have hy' : y ∈ ms := by rw [hb]; exact List.mem_append_right _ hy
    exact d2 x hx y hy' l hl hl'
  · cases c with
    | nil =>
      exfalso
      simp only [List.nil_append] at hd
      have hx : x ∈ ms := by rw [← hd]; simp
      have hy' : y ∈ ms := by rw [← hd]; exact hy
      exact d2 x hx y hy' l hl hl'
    | cons z c =>
      exfalso
      simp only [List.cons_append, List.cons.injEq] at hd
      have hx : x ∈ ps := by rw [hc, hd.1]; simp
      refine d1 x hx y ?_ l hl hl'
      rw [e]
      exact List.mem_append_right _ hy

/-! ### What a frame shows -/

/-- C112: a morph shows the present. In the objects after an update at time `t`, the curve of a morph is as far between source and target,
where they are now, as its function says, if nothing that comes after it moves one of the three curves. -/
theorem C112_morph {w : Multi.World} {v : Multi.Values} (hv : w.values = some v) (hs : Multi.Sound w) {m : MH.MorphObj} {f : TFunc}
    (hm : m ∈ w.morphs) (hl : MH.size w.heap m.morph = MH.size w.heap m.orig) {pre post : List Item}
    (ho : ∀ l ∈ places w.heap m.orig ++ places w.heap m.target ++ places w.heap m.morph, l ∉ post.flatMap (writes w.heap)) {t : TVal} {s : ℝ}
    (hf : f t = .ok (.num s)) {h' : Heap} (e : updateAll w.heap (pre ++ .morph m f :: post) t = (h', none)) :
    ∃ v' co ct cm, (⟨h', w.morphs, w.multis⟩ : Multi.World).values = some v' ∧ v'.st.curves[m.orig]? = some co ∧
      v'.st.curves[m.target]? = some ct ∧ v'.st.curves[m.morph]? = some cm ∧ MH.Mixed s co.cps ct.cps cm.cps := by
  obtain ⟨h1, h2, e1, e2, e3, A1, A2⟩ := updateAll_split e
  obtain ⟨s1, p1, q1⟩ := sound_agree (A1.mono (E := fun _ => False) (by simp)) hs (values_heap hv)
  obtain ⟨k, hk⟩ := List.getElem?_of_mem hm
  have V : (⟨h1, w.morphs⟩ : MH.World).values = some ⟨s1, w.morphs⟩ := by simp only [MH.World.values, p1]
  obtain ⟨w', v', co, ct, cm, cm', b1, b2, b3, b4, b5, b6, b7, b8, b9, -, -, -, -, b10, b11⟩ := MH.C108_update V q1.base hk s
  simp only [MH.step, hk] at b1
  simp only [update, hf] at e2
  rw [e2] at b1
  simp only [Prod.mk.injEq, and_true] at b1
  subst b1
  simp only [MH.World.values] at b2
  have U := morph_only h1 m (.num s)
  rw [e2] at U
  obtain ⟨s2, p2, -⟩ := sound_agree (U.mono (E := fun _ => False) (by simp)) q1 p1
  rw [p2] at b2
  simp only [Option.some.injEq] at b2
  subst b2
  obtain ⟨s3, p3, -⟩ := sound_agree (((A1.mono (E := fun _ => False) (by simp)).trans (U.mono (by simp))).trans (A2.mono (by simp))) hs (values_heap hv)
  have pl : ∀ k, places h2 k = places w.heap k := fun k => places_congr (U.cps.trans A1.cps) (U.curves.trans A1.curves) k
  have same : ∀ k, (∀ l ∈ places w.heap k, l ∉ post.flatMap (writes w.heap)) → s3.curves[k]? = s2.curves[k]? := fun k hk =>
    same_curve A2 p2 p3 (by rw [pl]; exact hk)
  simp only [List.mem_append] at ho
  simp only at b4 b6 b7 b8 b9
  obtain ⟨o1, o2, -, -⟩ := q1.base.morphs m hm
  refine ⟨⟨s3, w.morphs, w.multis⟩, co, ct, cm', by simp only [Multi.World.values, p3], ?_, ?_, ?_, ?_⟩
  · simp only
    rw [same m.orig fun l hl => ho l (Or.inl (Or.inl hl)), b4 _ (by omega)]; exact b6
  · simp only
    rw [same m.target fun l hl => ho l (Or.inl (Or.inr hl)), b4 _ (by omega)]; exact b7
  · simp only
    rw [same m.morph fun l hl => ho l (Or.inr hl)]; exact b9
  · refine b11 ?_
    have z1 := size_vals p1 b6
    have z2 := size_vals p1 b8
    rw [size_congr A1.curves] at z1 z2
    omega

/-- C112: so does a multi-step morph. -/
theorem C112_multi {w : Multi.World} {v : Multi.Values} (hv : w.values = some v) (hs : Multi.Sound w) {m : Multi.MultiObj} {f : TFunc}
    (hm : m ∈ w.multis) (hl : ∀ x ∈ m.stops, MH.size w.heap x.2 = MH.size w.heap m.morph) {pre post : List Item}
    (ho : ∀ l ∈ (m.stops.flatMap fun x => places w.heap x.2) ++ places w.heap m.morph, l ∉ post.flatMap (writes w.heap)) {t : TVal} {s : ℝ}
    (hf : f t = .ok (.num s)) {h' : Heap} (e : updateAll w.heap (pre ++ .multi m f :: post) t = (h', none)) :
    ∃ v', (⟨h', w.morphs, w.multis⟩ : Multi.World).values = some v' ∧ ∀ i, i < MH.size w.heap m.morph → ∀ c,
      PolyAt (m.stops.map fun x => (x.1, Multi.number v'.st i c x.2)) s (Multi.number v'.st i c m.morph) := by
  obtain ⟨h1, h2, e1, e2, e3, A1, A2⟩ := updateAll_split e
  obtain ⟨s1, p1, q1⟩ := sound_agree (A1.mono (E := fun _ => False) (by simp)) hs (values_heap hv)
  obtain ⟨k, hk⟩ := List.getElem?_of_mem hm
  have V : (⟨h1, w.morphs, w.multis⟩ : Multi.World).values = some ⟨s1, w.morphs, w.multis⟩ := by simp only [Multi.World.values, p1]
  obtain ⟨w', v', cm, cm', b1, b2, -, -, b4, -, b6, b7, -, -, -, -, b8, b9⟩ := Multi.C110_update V q1 hk s
  simp only [Multi.step, hk] at b1
  simp only [update, hf] at e2
  rw [e2] at b1
  simp only [Prod.mk.injEq, and_true] at b1
  subst b1
  simp only [Multi.World.values] at b2
  have U := multi_only h1 m (.num s)
  rw [e2] at U
  obtain ⟨s2, p2, -⟩ := sound_agree (U.mono (E := fun _ => False) (by simp)) q1 p1
  rw [p2] at b2
  simp only [Option.some.injEq] at b2
  subst b2
  obtain ⟨s3, p3, -⟩ := sound_agree (((A1.mono (E := fun _ => False) (by simp)).trans (U.mono (by simp))).trans (A2.mono (by simp))) hs (values_heap hv)
  have pl : ∀ k, places h2 k = places w.heap k := fun k => places_congr (U.cps.trans A1.cps) (U.curves.trans A1.curves) k
  have same : ∀ k, (∀ l ∈ places w.heap k, l ∉ post.flatMap (writes w.heap)) → s3.curves[k]? = s2.curves[k]? := fun k hk =>
    same_curve A2 p2 p3 (by rw [pl]; exact hk)
  have ho1 : ∀ l ∈ places w.heap m.morph, l ∉ post.flatMap (writes w.heap) := fun l hl => ho l (List.mem_append_right _ hl)
  have ho2 : ∀ x ∈ m.stops, ∀ l ∈ places w.heap x.2, l ∉ post.flatMap (writes w.heap) := fun x hx l hl =>
    ho l (List.mem_append_left _ (List.mem_flatMap.2 ⟨x, hx, hl⟩))
  simp only at b4 b6 b7 b8 b9
  obtain ⟨-, -, o3, o4, -⟩ := q1.multis m hm
  have z2 := size_vals p1 b6
  rw [size_congr A1.curves] at z2
  refine ⟨⟨s3, w.morphs, w.multis⟩, by simp only [Multi.World.values, p3], ?_⟩
  intro i hi c
  have key := b9 (fun x hx => by
    have lt : x.2 < s1.curves.length := by
      have := (List.getElem?_eq_some_iff.1 b6).1
      have := o3 x hx
      omega
    have z := size_vals p1 (List.getElem?_eq_getElem lt)
    rw [size_congr A1.curves, hl x hx, z2] at z
    simp only [MH.sizeVal, List.getElem?_eq_getElem lt]
    exact z.symm) i (by rw [← z2]; exact hi) c
  have n1 : ∀ k, s3.curves[k]? = s2.curves[k]? → Multi.number s3 i c k = Multi.number s2 i c k := by
    intro k hk
    unfold Multi.number
    rw [hk]
  have n2 : ∀ k, s2.curves[k]? = s1.curves[k]? → Multi.number s2 i c k = Multi.number s1 i c k := by
    intro k hk
    unfold Multi.number
    rw [hk]
  simp only
  rw [n1 m.morph (same _ ho1)]
  rw [List.map_congr_left (g := fun x => (x.1, Multi.number s1 i c x.2)) (fun x hx => by
    have := o3 x hx
    rw [n1 x.2 (same _ (ho2 x hx)), n2 x.2 (b4 _ (by omega))])]
  exact key

/-! ### Where the points are -/

theorem point_shown {h h1 h2 h' : Heap} {pre post : List Item} {p : ℕ} {q : Pt ℝ} (lt : p < h.pts.length)
    (hp : .pt p ∉ post.flatMap (writes h)) (A1 : Agree (fun l => l ∉ pre.flatMap (writes h)) h h1)
    (A2 : Agree (fun l => l ∉ post.flatMap (writes h)) h2 h') (e : move h1 p (.ok q) = (h2, none)) : at' h' (.pt p) = some (q.x, q.y) := by
  rw [A2.at' hp]
  simp only [move, Prod.mk.injEq, and_true] at e
  subst e
  simp only [at']
  rw [List.getElem?_set_self (by rw [A1.pts]; exact lt)]
  rfl

/-- C112: a point with a linear animation is as far between its position when the animation was made and the present position of its
target as the time says, or a pair of times for the two coordinates; if nothing that comes after moves one of them. -/
theorem C112_linear {h h' : Heap} {pre post : List Item} {x : Item} {p g : ℕ} {o : Pt ℝ} {t s : TVal} {sx sy : ℝ} (lt : p < h.pts.length)
    (hx : x = .point (.linear p o g) ∧ s = t ∨ ∃ f : TFunc, x = .point (.linearFunc p o g f) ∧ f t = .ok s)
    (hs : s = .num sx ∧ sy = sx ∨ s = .pair sx sy)
    (ne : g ≠ p) (hp : .pt p ∉ post.flatMap (writes h)) (hg : .pt g ∉ post.flatMap (writes h))
    (e : updateAll h (pre ++ x :: post) t = (h', none)) :
    ∃ x y, at' h' (.pt g) = some (x, y) ∧ at' h' (.pt p) = some (o.x + sx * (x - o.x), o.y + sy * (y - o.y)) := by
  obtain ⟨h1, h2, -, e2, -, A1, A2⟩ := updateAll_split e
  have key : ∃ targ : Pt ℝ, h1.pts[g]? = some targ ∧ move h1 p (linear o targ s) = (h2, none) := by
    rcases hx with ⟨rfl, rfl⟩ | ⟨f, rfl, hf⟩
    · simp only [update, updPoint] at e2
      split at e2
      · rename_i targ ht'
        exact ⟨targ, ht', e2⟩
      · simp at e2
    · simp only [update, updPoint, hf] at e2
      split at e2
      · rename_i targ ht'
        exact ⟨targ, ht', e2⟩
      · simp at e2
  obtain ⟨targ, k1, k3⟩ := key
  have B := move_only h1 p (linear o targ s)
  rw [k3] at B
  refine ⟨targ.x, targ.y, ?_, ?_⟩
  · rw [A2.at' hg, B.at' (l := .pt g) (by simpa using ne)]
    simp only [at', k1, Option.map_some]
  · rcases hs with ⟨rfl, rfl⟩ | rfl
    · rw [point_shown lt hp A1 A2 k3]
      simp only [Option.some.injEq, Prod.mk.injEq]
      constructor <;> ring
    · rw [point_shown lt hp A1 A2 k3]
      simp only [Option.some.injEq, Prod.mk.injEq]
      constructor <;> ring

/-- C112: a point with a sinusoidal animation. -/
theorem C112_sinusoidal {h h' : Heap} {pre post : List Item} {p g : ℕ} {o : Pt ℝ} {frequency offset t : ℝ} (lt : p < h.pts.length)
    (ne : g ≠ p) (hp : .pt p ∉ post.flatMap (writes h)) (hg : .pt g ∉ post.flatMap (writes h))
    (e : updateAll h (pre ++ .point (.sinusoidal p o g frequency offset) :: post) (.num t) = (h', none)) :
    ∃ x y s, at' h' (.pt g) = some (x, y) ∧ s = (1 - Real.cos (2 * Real.pi * (t * frequency + offset / 360))) / 2 ∧
      at' h' (.pt p) = some (o.x + s * (x - o.x), o.y + s * (y - o.y)) := by
  obtain ⟨h1, h2, -, e2, -, A1, A2⟩ := updateAll_split e
  simp only [update, updPoint] at e2
  split at e2
  · rename_i targ k1
    have B := move_only h1 p (linear o targ (.num ((1 - Real.cos (t * tau * frequency + offset * tau / 360)) * (1 / 2))))
    rw [e2] at B
    refine ⟨targ.x, targ.y, _, ?_, rfl, ?_⟩
    · rw [A2.at' hg, B.at' (l := .pt g) (by simpa using ne)]
      simp only [at', k1, Option.map_some]
    · rw [point_shown lt hp A1 A2 e2]
      have : t * tau * frequency + offset * tau / 360 = 2 * Real.pi * (t * frequency + offset / 360) := by simp only [tau]; ring
      rw [this]
      simp only [Option.some.injEq, Prod.mk.injEq]
      constructor <;> ring
  · simp at e2

/-- C112: a point with a circular animation. -/
theorem C112_circular {h h' : Heap} {pre post : List Item} {p : ℕ} {o : Pt ℝ} {radius frequency offset t : ℝ} (lt : p < h.pts.length)
    (hp : .pt p ∉ post.flatMap (writes h))
    (e : updateAll h (pre ++ .point (.circular p o radius frequency offset) :: post) (.num t) = (h', none)) :
    at' h' (.pt p) = some (o.x + radius * Real.sin (2 * Real.pi * frequency * t + offset),
      o.y + radius * Real.cos (2 * Real.pi * frequency * t + offset)) := by
  obtain ⟨h1, h2, -, e2, -, A1, A2⟩ := updateAll_split e
  simp only [update, updPoint] at e2
  rw [point_shown lt hp A1 A2 e2, show t * tau * frequency + offset = 2 * Real.pi * frequency * t + offset by simp only [tau]; ring]

/-- C112: a point with a generic animation: what the function says about the time, the position when the animation was made and any
position `q`, if the function does not care for the present position. -/
theorem C112_generic {h h' : Heap} {pre post : List Item} {p : ℕ} {o q : Pt ℝ} {f : TVal → Pt ℝ → Pt ℝ → Except PyErr (Pt ℝ)} {t : TVal}
    (lt : p < h.pts.length) (hp : .pt p ∉ post.flatMap (writes h)) (hf : ∀ a b, f t o a = f t o b)
    (e : updateAll h (pre ++ .generic p o f :: post) t = (h', none)) : ∃ r, f t o q = .ok r ∧ at' h' (.pt p) = some (r.x, r.y) := by
  obtain ⟨h1, h2, -, e2, -, A1, A2⟩ := updateAll_split e
  simp only [update] at e2
  split at e2
  · rename_i a ha
    cases k : f t o a with
    | error x => rw [k] at e2; simp [move] at e2
    | ok r =>
      rw [k] at e2
      exact ⟨r, (hf q a).trans k, point_shown lt hp A1 A2 e2⟩
  · simp at e2

/-- C112: times that are not numbers. `None` is a `TypeError` for every animation of a point, a pair for the sinusoidal and circular ones;
so is an exception of the function of an animation: the update stops there, and what comes after is not moved. -/
theorem C112_stops {h : Heap} {pre post : List Item} {x : Item} {t : TVal} {h1 : Heap} {er : PyErr} (e1 : updateAll h pre t = (h1, none))
    (hx : match x with
      | .generic p o f => (∃ a, h1.pts[p]? = some a ∧ f t o a = .error er)
      | .point (.linear _ _ g) => g < h.pts.length ∧ t = .none ∧ er = .type
      | .point (.linearFunc _ _ g f) => g < h.pts.length ∧ (f t = .error er ∨ f t = .ok .none ∧ er = .type)
      | .point (.sinusoidal _ _ _ _ _) => (∀ s, t ≠ .num s) ∧ er = .type
      | .point (.circular _ _ _ _ _) => (∀ s, t ≠ .num s) ∧ er = .type
      | .morph _ f => f t = .error er
      | .multi _ f => f t = .error er) :
    updateAll h (pre ++ x :: post) t = (h1, some er) := by
  have A := updateAll_only h pre t
  rw [e1] at A
  have el := A.pts
  simp only at el
  rw [updateAll_append e1]
  suffices e : update h1 x t = (h1, some er) by simp only [updateAll, e]
  cases x with
  | generic p o f =>
    obtain ⟨a, h1, h2⟩ := hx
    simp only [update, h1, h2, move]
  | point a =>
    cases a with
    | linear p o g =>
      obtain ⟨a, rfl, rfl⟩ := hx
      simp only [update, updPoint, List.getElem?_eq_getElem (el ▸ a), linear, move]
    | linearFunc p o g f =>
      obtain ⟨a, h1 | ⟨h1, rfl⟩⟩ := hx
      · simp only [update, updPoint, h1]
      · simp only [update, updPoint, h1, List.getElem?_eq_getElem (el ▸ a), linear, move]
    | sinusoidal p o g fr off =>
      obtain ⟨a, rfl⟩ := hx
      cases t with
      | num s => exact absurd rfl (a s)
      | none => rfl
      | pair x y => rfl
    | circular p o r fr off =>
      obtain ⟨a, rfl⟩ := hx
      cases t with
      | num s => exact absurd rfl (a s)
      | none => rfl
      | pair x y => rfl
  | morph m f => simp only [update]; simp only at hx; rw [hx]
  | multi m f => simp only [update]; simp only at hx; rw [hx]

/-! ### A bad order -/

/-- A source at (0, 0), a target at (8, 0), and the curve of a morph between them. -/
def stage (pb : PenBrush) : Heap :=
  ⟨[Mat3.one, Mat3.one], [⟨0, 0⟩, ⟨8, 0⟩, ⟨0, 0⟩], [⟨0, 0⟩, ⟨0, 0⟩, ⟨0, 0⟩, ⟨0, 0⟩, ⟨0, 0⟩, ⟨0, 0⟩],
    [⟨0, 0, 1, "smooth"⟩, ⟨1, 2, 3, "smooth"⟩, ⟨2, 4, 5, "smooth"⟩],
    [⟨[], pb, true, 0, [0]⟩, ⟨[], pb, true, 1, [1]⟩, ⟨[], pb, true, 0, [2]⟩]⟩

/-- The morph, which always shows its source. -/
def still : Item := .morph ⟨0, 2, 1⟩ fun _ => .ok (.num 0)

/-- The source is moved to the target. -/
def mover : Item := .point (.linear 0 ⟨0, 0⟩ 1)

/-- A picture of what the model shows: where the control point of the curve of the morph is. -/
def pic (h : Heap) : Except PyErr (Option (ℝ × ℝ)) := .ok (at' h (.pt 2))

/-- C112: the order matters. A source is moved and a morph shows it. If the morph is updated first, every frame shows where the source was
in the frame before: two frames show nothing moving, and building the same two frames again gives other pictures. If the source is
moved first, all is well. -/
theorem C112_order_counterexample (pb : PenBrush) :
    Multi.run ⟨Heap.empty, [], []⟩ [.base (.curve (.make [] pb true Mat3.one [⟨⟨0, 0⟩, ⟨0, 0⟩, ⟨0, 0⟩, "smooth"⟩])),
        .base (.curve (.make [] pb true Mat3.one [⟨⟨8, 0⟩, ⟨0, 0⟩, ⟨0, 0⟩, "smooth"⟩])), .base (.morph 0 1 true (.ok 1))] =
      (⟨stage pb, [⟨0, 2, 1⟩], []⟩, [none, none, none]) ∧
    (buildAll pic [still, mover] (stage pb) 2).2 = .ok [some (0, 0), some (0, 0)] ∧
    (buildAll pic [still, mover] (run pic [still, mover] (stage pb) [.frames 2]) 2).2 = .ok [some (4, 0), some (0, 0)] ∧
    (buildAll pic [mover, still] (stage pb) 2).2 = .ok [some (0, 0), some (4, 0)] ∧
    ¬ Ordered (stage pb) [still, mover] := by
  refine ⟨?_, ?_, ?_, ?_, ?_⟩
  · simp [Multi.run, Multi.step, MH.step, CH.step, make, newCps, newCp, newCurveXf, newXf, Heap.empty, MH.newMorph, MH.padBoth, MH.pad,
      MH.size, CH.copy, readCps, readCp, newCurve, stage]
  · simp [buildAll, List.range_succ, buildList, buildOne, updateAll, update, updPoint, move, linear, still, mover, stage, pic, at',
      MH.update, MH.mixLoop, MH.mixCpAt, MH.mixPtAt, MH.mixVecAt, Morph.mixPt, Morph.mixVec, Pt.addVector, Pt.sub, Vec.mul, Vec.add,
      Vec.sub, Vec.subVector]
  · simp [run, step, buildAll, List.range_succ, buildList, buildOne, updateAll, update, updPoint, move, linear, still, mover, stage, pic, at',
      MH.update, MH.mixLoop, MH.mixCpAt, MH.mixPtAt, MH.mixVecAt, Morph.mixPt, Morph.mixVec, Pt.addVector, Pt.sub, Vec.mul, Vec.add,
      Vec.sub, Vec.subVector]
    norm_num
  · simp [buildAll, List.range_succ, buildList, buildOne, updateAll, update, updPoint, move, linear, still, mover, stage, pic, at',
      MH.update, MH.mixLoop, MH.mixCpAt, MH.mixPtAt, MH.mixVecAt, Morph.mixPt, Morph.mixVec, Pt.addVector, Pt.sub, Vec.mul, Vec.add,
      Vec.sub, Vec.subVector]
    norm_num
  · intro o
    have := o [] still [mover] rfl (.pt 0) (by simp [reads, still, places, cpPlaces, stage]) (by simp [writes, mover, Anim.pt])
    simp at this

/-! ### The hypotheses are met -/

theorem stage_good (pb : PenBrush) : Ordered (stage pb) ([mover] ++ [still]) ∧ ∀ x ∈ [mover] ++ [still], Matched (stage pb) x := by
  refine ⟨C112_points_first ?_ ?_, ?_⟩
  · simp [reads, writes, mover, still, places, cpPlaces, stage, Anim.pt]
  · simp [reads, writes, still, places, cpPlaces, stage]
  · simp [Matched, mover, still, MH.size, stage]

/-- So the frames in the good order are always the same, whatever was built before. -/
example (pb : PenBrush) : (buildAll pic [mover, still] (run pic [mover, still] (stage pb) [.frames 7, .one 1 (.num 3), .all .none,
    .frame (.num (1 / 3))]) 2).2 = .ok [some (0, 0), some (4, 0)] := by
  have e := C112_frames pic (stage_good pb).1 (stage_good pb).2
  rw [show [mover, still] = [mover] ++ [still] from rfl, e, ← e []]
  exact (C112_order_counterexample pb).2.2.2.1

/-- Two morphs and a multi-step morph with one source and one target. -/
example (h : Heap) (a b c d e : ℕ) (f g k : TFunc) (d1 : ∀ x ∈ [a, b], ∀ y ∈ [c, d, e], ∀ l ∈ places h x, l ∉ places h y) :
    Ordered h [.morph ⟨a, c, b⟩ f, .morph ⟨b, d, a⟩ g, .multi ⟨a, e, [(0, a), (1, b)]⟩ k] := by
  refine C112_apart ?_
  simp [reads, writes]
  simp at d1
  aesop

/-- A source that runs on a circle, and a morph that follows it. -/
example (pb : PenBrush) (t : ℝ) : ∃ h', updateAll (stage pb) ([] ++ .point (.circular 0 ⟨0, 0⟩ 5 1 0) :: [still]) (.num t) = (h', none) ∧
    0 < (stage pb).pts.length ∧ Place.pt 0 ∉ [still].flatMap (writes (stage pb)) := by
  refine ⟨(updateAll (stage pb) ([] ++ .point (.circular 0 ⟨0, 0⟩ 5 1 0) :: [still]) (.num t)).1, Prod.ext rfl ?_, by simp [stage],
    by simp [writes, still, places, cpPlaces, stage]⟩
  simp [updateAll, update, updPoint, move, still, stage, MH.update, MH.mixLoop, MH.mixCpAt, MH.mixPtAt, MH.mixVecAt]

/-- After an update the morph shows where the source is now. -/
example (pb : PenBrush) : ∃ v co cm, (⟨(updateAll (stage pb) [mover, still] (.num (1 / 2))).1, [⟨0, 2, 1⟩], []⟩ : Multi.World).values = some v ∧
    v.st.curves[0]? = some co ∧ v.st.curves[2]? = some cm ∧ co.cps.map CP.c = [⟨4, 0⟩] ∧ cm.cps.map CP.c = [⟨4, 0⟩] := by
  refine ⟨_, _, _, by
    simp [Multi.World.values, updateAll, update, updPoint, move, linear, still, mover, stage,
      MH.update, MH.mixLoop, MH.mixCpAt, MH.mixPtAt, MH.mixVecAt, Morph.mixPt, Morph.mixVec, Pt.addVector, Pt.sub, Vec.mul, Vec.add,
      Vec.sub, Vec.subVector, vals, curveVals, readCps, readCp]
    rfl, rfl, rfl, ?_, ?_⟩ <;> norm_num

end X7.Scene
