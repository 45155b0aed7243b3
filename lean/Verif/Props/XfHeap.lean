import Verif.Lemmas.XfStep
import Verif.Props.Transform

/-!
C119: Transforms, Matrix objects and arrays as objects. Histories of calls on any number of Transforms, in any order, mixed with work on `Matrix`
objects and arrays; every state considered is one reached from nothing.
-/

noncomputable section

namespace X7.XH

open TSpec

/-- The objects after a history that starts with nothing. -/
abbrev reached (hist : List Op) : Heap := run Heap.empty hist

theorem own_reached (hist : List Op) : Own (reached hist) := run_own own_empty hist

/-- **C119** A call on a Transform does to it exactly what the value model says of the call with the matrices its arguments have at that moment (its own,
if it is its own argument) and raises what that raises; no other Transform, no Matrix of the program and no array the program holds changes. -/
theorem C119_call (hist : List Op) (op : Op) (i : ℕ) (o : TOp) (s : TState) (ha : asked (reached hist) op = some (i, o))
    (hs : state (reached hist) i = some s) :
    state (step (reached hist) op).1 i = some (s.step o).st ∧ (step (reached hist) op).2 = (s.step o).err ∧
    (∀ j, j ≠ i → state (step (reached hist) op).1 j = state (reached hist) j) ∧
    (∀ k, matrixOf (step (reached hist) op).1 k = matrixOf (reached hist) k) ∧
    ∀ x m, arrayOf (reached hist) x = some m → arrayOf (step (reached hist) op).1 x = some m := by
  obtain ⟨h1, h2⟩ := step_on (own_reached hist) ha hs
  exact ⟨h1.self, h2, h1.rest, h1.mats, h1.arrs⟩

/-- **C119** Everything else a program does — making Transforms, Matrix objects and arrays, multiplying Matrix objects, handing arrays from one to
another, overwriting arrays — leaves the matrix and the saved matrices of every Transform alone. It leaves the whole Transform alone unless it overwrites
the very array which the Transform handed out as its inverse. -/
theorem C119_alien (hist : List Op) (op : Op) (ha : asked (reached hist) op = none) (i : ℕ) (s : TState) (hs : state (reached hist) i = some s) :
    ∃ s', state (step (reached hist) op).1 i = some s' ∧ SameXf s s' ∧ (¬ Spoils (reached hist) i op → s' = s) :=
  step_other (own_reached hist) ha hs

theorem sameXf_scaleBBox {s s' : TState} (h : SameXf s s') (a b : BBox ℝ) (k : Bool) : SameXf (s.scaleBBox a b k).st (s'.scaleBBox a b k).st := by
  obtain ⟨h1, h2⟩ := h
  cases k <;> by_cases hz : a.width = 0 ∨ a.height = 0 <;> cases a <;> cases b <;>
    simp_all [TState.scaleBBox, SameXf, TState.translate, TState.scale]

theorem sameXf_inverse (s : TState) : SameXf s s.inverse.1 := by
  unfold TState.inverse
  cases s.inv with
  | some _ => exact ⟨rfl, rfl⟩
  | none => cases s.mat.inv <;> exact ⟨rfl, rfl⟩

theorem sameXf_step {s s' : TState} (h : SameXf s s') (o : TOp) : SameXf (s.step o).st (s'.step o).st := by
  have hh := h
  obtain ⟨h1, h2⟩ := hh
  have hu : SameXf s.inverse.1 s'.inverse.1 := by
    have ha := sameXf_inverse s
    have hb := sameXf_inverse s'
    exact ⟨ha.1.symm.trans (h1.trans hb.1), ha.2.symm.trans (h2.trans hb.2)⟩
  cases o with
  | scaleBBox a b k => exact sameXf_scaleBBox h a b k
  | pop =>
    simp only [TState.step, TState.pop, h2]
    cases s'.stack with
    | nil => exact h
    | cons m rest => exact ⟨rfl, rfl⟩
  | untransform p => simpa only [TState.step, untr_st] using hu
  | untransformPts ps =>
    have : ∀ s : TState, (s.untransformPts ps).1 = s.inverse.1 := by
      intro s
      unfold TState.untransformPts
      rcases hi : s.inverse with ⟨s', _ | _⟩ <;> cases ps <;> rfl
    simpa only [TState.step, this] using hu
  | transform p => exact h
  | translate => exact ⟨by simp [TState.step, TState.translate, h1], h2⟩
  | scale => exact ⟨by simp [TState.step, TState.scale, h1], h2⟩
  | rotate => exact ⟨by simp [TState.step, TState.rotate, h1], h2⟩
  | rotateCcw => exact ⟨by simp [TState.step, TState.rotateCcw, h1], h2⟩
  | rotateAbout => exact ⟨by simp [TState.step, TState.rotateAbout, h1], h2⟩
  | compose => exact ⟨by simp [TState.step, TState.compose, h1], h2⟩
  | composeOuter => exact ⟨by simp [TState.step, TState.composeOuter, h1], h2⟩
  | reset => exact ⟨rfl, h2⟩
  | setMatrix => exact ⟨rfl, h2⟩
  | push => exact ⟨h1, by simp [TState.step, TState.push, h1, h2]⟩

theorem history_aux (ops : List Op) : ∀ (h : Heap) (i : ℕ) (s s1 : TState), Own h → state h i = some s1 → SameXf s s1 →
    ∃ s', state (run h ops) i = some s' ∧ SameXf (s.run (calls i h ops)) s' ∧ (s = s1 → Unspoilt i h ops → s' = s.run (calls i h ops)) := by
  induction ops with
  | nil => exact fun h i s s1 _ hs hx => ⟨s1, hs, hx, fun h1 _ => h1.symm⟩
  | cons op ops ih =>
    intro h i s s1 H hs hx
    have hH := step_own H op
    have other : ∀ s2, state (step h op).1 i = some s2 → SameXf s1 s2 → (¬ Spoils h i op → s2 = s1) → calls i h (op :: ops) = calls i (step h op).1 ops →
        ∃ s', state (run h (op :: ops)) i = some s' ∧ SameXf (s.run (calls i h (op :: ops))) s' ∧
          (s = s1 → Unspoilt i h (op :: ops) → s' = s.run (calls i h (op :: ops))) := by
      intro s2 h1 h2 h3 h4
      obtain ⟨s', h5, h6, h7⟩ := ih _ i s s2 hH h1 ⟨hx.1.trans h2.1, hx.2.trans h2.2⟩
      rw [h4]
      exact ⟨s', h5, h6, fun he hu => h7 (he.trans (h3 hu.1).symm) hu.2⟩
    cases ha : asked h op with
    | none =>
      obtain ⟨s2, h1, h2, h3⟩ := step_other H ha hs
      exact other s2 h1 h2 h3 (by simp [calls, ha])
    | some p =>
      obtain ⟨j, o⟩ := p
      by_cases hj : j = i
      · subst hj
        obtain ⟨h1, -⟩ := step_on H ha hs
        obtain ⟨s', h5, h6, h7⟩ := ih _ j (s.step o).st (s1.step o).st hH h1.self (sameXf_step hx o)
        have hc : calls j h (op :: ops) = o :: calls j (step h op).1 ops := by simp [calls, ha]
        rw [hc]
        exact ⟨s', h5, h6, fun he hu => h7 (by rw [he]) hu.2⟩
      · have hc : calls i h (op :: ops) = calls i (step h op).1 ops := by simp [calls, ha, hj]
        have hi : state (step h op).1 i = some s1 := by
          cases hsj : state h j with
          | none => rw [step_missing ha hsj]; exact hs
          | some sj => rw [(step_on H ha hsj).1.rest i fun he => hj he.symm]; exact hs
        exact other s1 hi ⟨rfl, rfl⟩ (fun _ => rfl) hc

/-- **C119** So through every history the matrix and the saved matrices of a Transform are what the calls on it alone make them, whatever is done with
other objects in between. The whole Transform is, if nobody overwrites the array it handed out as its inverse. -/
theorem C119_history (hist ops : List Op) (i : ℕ) (s : TState) (hs : state (reached hist) i = some s) :
    ∃ s', state (run (reached hist) ops) i = some s' ∧ SameXf (s.run (calls i (reached hist) ops)) s' ∧
      (Unspoilt i (reached hist) ops → s' = s.run (calls i (reached hist) ops)) := by
  obtain ⟨s', h1, h2, h3⟩ := history_aux ops _ i s s (own_reached hist) hs ⟨rfl, rfl⟩
  exact ⟨s', h1, h2, h3 rfl⟩

/-- **C119** A new Transform is the identity (the six numbers) with nothing saved and no inverse kept, and nothing else changes. -/
theorem C119_new (hist : List Op) (m : Mat3 ℝ) (op : Op) (hop : (op = .new ∧ m = Mat3.one) ∨ ∃ a b c d e f, op = .new6 a b c d e f ∧ m = Mat3.of6 a b c d e f) :
    let h := reached hist
    let h' := (step h op).1
    (step h op).2 = none ∧ h'.ts.length = h.ts.length + 1 ∧ state h' h.ts.length = some ⟨m, none, []⟩ ∧
    (∀ j, j ≠ h.ts.length → state h' j = state h j) ∧ (∀ k, matrixOf h' k = matrixOf h k) ∧ ∀ x, arrayOf h' x = arrayOf h x := by
  have H := own_reached hist
  have main : step (reached hist) op = (newT (reached hist) m, none) := by
    rcases hop with ⟨rfl, rfl⟩ | ⟨a, b, c, d, e, f, rfl, rfl⟩ <;> rfl
  simp only [main]
  refine ⟨trivial, by simp [newT], ?_, fun j hj => ?_, newT_matrix H m, newT_array H m⟩
  · rw [newT_state H, if_pos rfl]
  · rw [newT_state H, if_neg hj]

/-- **C119** A copy of a Transform has its matrix, nothing saved and no inverse kept; nothing else changes, the original included. -/
theorem C119_copy (hist : List Op) (i : ℕ) (s : TState) (hs : state (reached hist) i = some s) :
    let h := reached hist
    let h' := (step h (.copy i)).1
    (step h (.copy i)).2 = none ∧ h'.ts.length = h.ts.length + 1 ∧ state h' h.ts.length = some s.copy ∧ s.copy = ⟨s.mat, none, []⟩ ∧
    (∀ j, j ≠ h.ts.length → state h' j = state h j) ∧ (∀ k, matrixOf h' k = matrixOf h k) ∧ ∀ x m, arrayOf h x = some m → arrayOf h' x = some m := by
  have H := own_reached hist
  obtain ⟨t, hi⟩ := t_of_state hs
  have hs' := state_of hi
  rw [hs] at hs'
  cases hs'
  have e := own_copy H hi
  have main : step (reached hist) (.copy i) = (copy (reached hist) t, none) := by simp [step, onT, hi]
  simp only [main]
  refine ⟨trivial, by rw [e.len]; simp [newT], e.self, rfl, fun j hj => ?_, fun k => ?_, fun x m hx => ?_⟩
  · rw [e.rest j hj, newT_state H, if_neg hj]
  · rw [e.mats k, newT_matrix H]
  · exact e.arrs x m ((newT_array H _ x).trans hx)

/-- **C119** What `transform` and `untransform` give is what they give for the value of the Transform. -/
theorem C119_results (hist : List Op) (i : ℕ) (t : TObj) (s : TState) (hi : (reached hist).ts[i]? = some t) (hs : state (reached hist) i = some s) (p : Pt ℝ) :
    transform (reached hist) t p = s.transform p ∧ (untransform (reached hist) i p).2 = (s.untransform p).2 := by
  obtain ⟨-, h2⟩ := eff_inverse (own_reached hist) hi
  obtain ⟨h3, h4⟩ := h2 s hs
  constructor
  · rw [state_of hi] at hs
    cases hs
    rfl
  · unfold untransform
    rcases hv : inverse (reached hist) i with ⟨h', er | a⟩ <;> rw [hv] at h3 h4
    · exact (untr_err ((h4 er).1 rfl) p).symm
    · exact (untr_ok (h3 a rfl).1 p).symm

theorem run_append (h : Heap) (a b : List Op) : run (run h a) b = run h (a ++ b) := by simp [run, List.foldl_append]

/-- **C119** A Transform that came into being as `Transform()` undoes what it does after every history in which `rotate_about` is not called on it
between asking for its inverse and its next change, and in which nobody overwrites the array it handed out — whatever happens to other Transforms,
Matrix objects and arrays. -/
theorem C119_roundtrip (hist ops : List Op) (p : Pt ℝ) :
    let h0 := (step (reached hist) .new).1
    let n := (reached hist).ts.length
    let h := run h0 ops
    (∀ o ∈ calls n h0 ops, OpAffine o) → NoStale false (calls n h0 ops) → Unspoilt n h0 ops →
    ∃ t, h.ts[n]? = some t ∧ ((h.mat t.mat).det ≠ 0 →
        (untransform h n (transform h t p)).2 = .ok p ∧ ∃ q, (untransform h n p).2 = .ok q ∧ transform h t q = p) ∧
      ((h.mat t.mat).det = 0 → (untransform h n p).2 = .error .linAlg) := by
  intro h0 n h ho hn hu
  have e0 : h0 = reached (hist ++ [.new]) := by simp [h0, reached, run, List.foldl_append]
  have hs0 : state h0 n = some TState.new := (C119_new hist Mat3.one .new (.inl ⟨rfl, rfl⟩)).2.2.1
  have e : h = reached (hist ++ [.new] ++ ops) := by
    show run h0 ops = run Heap.empty (hist ++ [.new] ++ ops)
    rw [← run_append, e0]
  obtain ⟨s', h1, -, h3⟩ := C119_history (hist ++ [.new]) ops n TState.new (by rw [← e0]; exact hs0)
  rw [← e0] at h1 h3
  have hs := h3 hu
  subst hs
  obtain ⟨t, ht⟩ := t_of_state h1
  have key := C22_roundtrip (calls n h0 ops) ho hn
  have hm : (TState.new.run (calls n h0 ops)).mat = h.mat t.mat := by
    have := state_of (h := h) ht
    rw [h1] at this
    rw [Option.some.inj this]
  have r1 : ∀ q, transform h t q = (TState.new.run (calls n h0 ops)).transform q := fun q => by rw [transform, TState.transform, hm]
  have r2 : ∀ q, (untransform h n q).2 = ((TState.new.run (calls n h0 ops)).untransform q).2 := fun q => by
    have ht' : (reached (hist ++ [.new] ++ ops)).ts[n]? = some t := by rw [← e]; exact ht
    have h1' : state (reached (hist ++ [.new] ++ ops)) n = some (TState.new.run (calls n h0 ops)) := by rw [← e]; exact h1
    have := (C119_results (hist ++ [.new] ++ ops) n t _ ht' h1' q).2
    rwa [← e] at this
  refine ⟨t, ht, ?_, ?_⟩
  · rw [← hm]
    intro hd
    obtain ⟨k1, q, k2, k3⟩ := (key p).1 hd
    refine ⟨by rw [r2, r1]; exact k1, q, by rw [r2]; exact k2, by rw [r1]; exact k3⟩
  · rw [← hm, r2]
    exact (key p).2

/-! A program with three Transforms, the second a copy of the first, and a Matrix: each is what the calls on it make it. -/

/-- `a = Transform(); a.translate(1, 2); b = a.copy(); a.compose(a); m = Matrix(..); b.compose(m); m.ndmat[..] = ..; c = Transform()`. -/
def mixed : List Op :=
  [.new, .translate 0 1 2, .copy 0, .composeT 0 0, .newM (Mat3.scaleMat 3 3), .composeM 1 0, .ndmat 0, .write 0 Mat3.one, .new]

example : calls 0 Heap.empty mixed = [.translate 1 2, .compose ((Mat3.translateMat 1 2).mul Mat3.one)] := by
  simp [mixed, calls, asked, step, onT, newT, translate, preDotT, preDot, rebind, clear, setT, copy, setMatrix, freshMat, newMat, compose, postDotT, postDot,
    state, Heap.mat, Heap.arr, matrixOf, Heap.empty]

example : calls 1 Heap.empty mixed = [.compose (Mat3.scaleMat 3 3)] := by
  simp [mixed, calls, asked, step, onT, newT, translate, preDotT, preDot, rebind, clear, setT, copy, setMatrix, freshMat, newMat, compose, postDotT, postDot,
    state, Heap.mat, Heap.arr, matrixOf, Heap.empty]

/-- The hypotheses of `C119_roundtrip` for the Transform made last but two. -/
example : let h0 := (step (reached []) .new).1
    let n := (reached []).ts.length
    (∀ o ∈ calls n h0 mixed.tail, OpAffine o) ∧ NoStale false (calls n h0 mixed.tail) := by
  have : calls 0 (step Heap.empty .new).1 mixed.tail = [.translate 1 2, .compose ((Mat3.translateMat 1 2).mul Mat3.one)] := by
    simp [mixed, calls, asked, step, onT, newT, translate, preDotT, preDot, rebind, clear, setT, copy, setMatrix, freshMat, newMat, compose, postDotT,
      postDot, state, Heap.mat, Heap.arr, matrixOf, Heap.empty]
  show (∀ o ∈ calls 0 (step Heap.empty .new).1 mixed.tail, OpAffine o) ∧ NoStale false (calls 0 (step Heap.empty .new).1 mixed.tail)
  rw [this]
  refine ⟨fun o ho => ?_, by simp [NoStale]⟩
  simp only [List.mem_cons, List.not_mem_nil, or_false] at ho
  rcases ho with rfl | rfl
  · trivial
  · simp [OpAffine, Mat3.Affine, Mat3.mul, Mat3.translateMat, Mat3.one]

/-- And no call of it writes into the inverse. -/
example : Unspoilt 0 (step Heap.empty .new).1 mixed.tail := by
  simp [mixed, Unspoilt, Spoils, step, onT, newT, translate, preDotT, preDot, rebind, clear, setT, copy, setMatrix, freshMat, newMat, compose, postDotT,
      postDot, Heap.empty]

/-! ### Matrix objects and arrays -/

theorem user_inj {h : Heap} (H : Own h) {k k' u : ℕ} (hk : h.user[k]? = some u) (hk' : h.user[k']? = some u) : k = k' :=
  (List.getElem?_inj (lt_of hk) H.user_nodup).1 (hk.trans hk'.symm)

theorem mat_set_ne {h : Heap} (H : Own h) {l : List (Mat3 ℝ)} {u v a : ℕ} (hne : u ≠ v) (hv : v < h.mats.length) (us hs : List ℕ) :
    (Heap.mk (h.arrs ++ l) (h.mats.set u a) h.ts us hs).mat v = h.mat v := by
  obtain ⟨b, hb⟩ := some_of_lt hv
  rw [mat_of hb, mat_of (a := b) ((List.getElem?_set_ne hne).trans hb)]
  simp [Heap.arr, List.getElem?_append_left (H.mats_lt v b hb)]

theorem arrs_more {h : Heap} (H : Own h) (l : List (Mat3 ℝ)) (ms us : List ℕ) (x : ℕ) :
    arrayOf ⟨h.arrs ++ l, ms, h.ts, us, h.held⟩ x = arrayOf h x := by
  simp only [arrayOf]
  cases hx : h.held[x]? with
  | none => rfl
  | some a => simp [Heap.arr, List.getElem?_append_left (H.held_lt a (List.mem_of_getElem? hx))]

theorem matrix_rebind {h : Heap} (H : Own h) {k u : ℕ} (hk : h.user[k]? = some u) (m : Mat3 ℝ) :
    matrixOf (rebind h u m) k = some m ∧ (∀ k', k' ≠ k → matrixOf (rebind h u m) k' = matrixOf h k') ∧ ∀ x, arrayOf (rebind h u m) x = arrayOf h x := by
  have hu := H.user_lt u (List.mem_of_getElem? hk)
  refine ⟨?_, fun k' hk' => ?_, arrs_more H _ _ _⟩
  · simp only [matrixOf, rebind, hk, Option.map_some, Option.some.injEq]
    rw [mat_of (a := h.arrs.length) (List.getElem?_set_self hu)]
    exact arr_append
  · simp only [matrixOf, rebind]
    cases hv : h.user[k']? with
    | none => rfl
    | some v =>
      simp only [Option.map_some, Option.some.injEq]
      exact mat_set_ne H (fun he => hk' (user_inj H (he ▸ hv) hk)) (H.user_lt v (List.mem_of_getElem? hv)) _ _

/-- **C119** `pre_dot_eq` and `post_dot_eq` with an array multiply that Matrix by what the array holds, and change no other Matrix of the program and no
array: not the array they multiply with, and not one taken from the Matrix before. -/
theorem C119_matrix_dot (hist : List Op) (k x : ℕ) (m a : Mat3 ℝ) (hm : matrixOf (reached hist) k = some m) (hx : arrayOf (reached hist) x = some a)
    (op : Op) (r : Mat3 ℝ) (hop : (op = .preM k x ∧ r = a.mul m) ∨ (op = .postM k x ∧ r = m.mul a)) :
    let h' := (step (reached hist) op).1
    (step (reached hist) op).2 = none ∧ matrixOf h' k = some r ∧ (∀ k', k' ≠ k → matrixOf h' k' = matrixOf (reached hist) k') ∧
    ∀ y, arrayOf h' y = arrayOf (reached hist) y := by
  have H := own_reached hist
  cases hk : (reached hist).user[k]? with
  | none => simp [matrixOf, hk] at hm
  | some u => cases hy : (reached hist).held[x]? with
    | none => simp [arrayOf, hy] at hx
    | some b =>
      simp only [matrixOf, hk, Option.map_some, Option.some.injEq] at hm
      simp only [arrayOf, hy, Option.map_some, Option.some.injEq] at hx
      have main : step (reached hist) op = (rebind (reached hist) u r, none) := by
        rcases hop with ⟨rfl, rfl⟩ | ⟨rfl, rfl⟩ <;> simp [step, hk, hy, preDot, postDot, hm, hx]
      simp only [main]
      exact ⟨trivial, matrix_rebind H hk r⟩

theorem matrix_newM {h : Heap} (H : Own h) (m : Mat3 ℝ) (k : ℕ) :
    matrixOf ⟨h.arrs ++ [m], h.mats ++ [h.arrs.length], h.ts, h.user ++ [h.mats.length], h.held⟩ k =
      if k = h.user.length then some m else matrixOf h k := by
  by_cases hk : k = h.user.length
  · subst hk
    rw [if_pos rfl]
    simp only [matrixOf]
    rw [List.getElem?_append_right (le_refl _)]
    simp only [Nat.sub_self, List.getElem?_cons_zero, Option.map_some, mat_append]
  · rw [if_neg hk]
    simp only [matrixOf]
    by_cases hlt : k < h.user.length
    · rw [List.getElem?_append_left hlt]
      obtain ⟨u, hu⟩ := some_of_lt hlt
      have hul := H.user_lt u (List.mem_of_getElem? hu)
      obtain ⟨b, hb⟩ := some_of_lt hul
      simp only [hu, Option.map_some, Option.some.injEq]
      rw [mat_of hb, mat_of (a := b) ((List.getElem?_append_left hul).trans hb)]
      simp [Heap.arr, List.getElem?_append_left (H.mats_lt u b hb)]
    · rw [List.getElem?_eq_none (by simp; omega), List.getElem?_eq_none (by omega)]
      rfl

/-- **C119** `Matrix(numbers)`, `copy()` and `inverse()` of a Matrix make a Matrix of its own: nothing that was there changes, and (by the other
theorems) nothing done to it later reaches what it was made from. -/
theorem C119_matrix_new (hist : List Op) (op : Op) (m : Mat3 ℝ)
    (hop : op = .newM m ∨ (∃ k, op = .copyM k ∧ matrixOf (reached hist) k = some m) ∨
      ∃ k m0, op = .inverseM k ∧ matrixOf (reached hist) k = some m0 ∧ m0.inv = .ok m) :
    let h := reached hist
    let h' := (step h op).1
    (step h op).2 = none ∧ (∀ k, matrixOf h' k = if k = h.user.length then some m else matrixOf h k) ∧
    (∀ x, arrayOf h' x = arrayOf h x) ∧ ∀ i, state h' i = state h i := by
  have H := own_reached hist
  have main : step (reached hist) op = (⟨(reached hist).arrs ++ [m], (reached hist).mats ++ [(reached hist).arrs.length], (reached hist).ts,
      (reached hist).user ++ [(reached hist).mats.length], (reached hist).held⟩, none) := by
    rcases hop with rfl | ⟨k, rfl, hk⟩ | ⟨k, m0, rfl, hk, hi⟩
    · rfl
    · cases hu : (reached hist).user[k]? with
      | none => simp [matrixOf, hu] at hk
      | some u =>
        simp only [matrixOf, hu, Option.map_some, Option.some.injEq] at hk
        simp [step, hu, hk]
    · cases hu : (reached hist).user[k]? with
      | none => simp [matrixOf, hu] at hk
      | some u =>
        simp only [matrixOf, hu, Option.map_some, Option.some.injEq] at hk
        simp [step, hu, hk, hi]
  simp only [main]
  refine ⟨trivial, matrix_newM H m, arrs_more H _ _ _, fun i => ?_⟩
  refine state_user_eq (h' := ⟨(reached hist).arrs ++ [m], (reached hist).mats ++ [(reached hist).arrs.length], (reached hist).ts,
      (reached hist).user ++ [(reached hist).mats.length], (reached hist).held⟩) H rfl ?_ (fun a ha => by simp only [Heap.arr]; rw [List.getElem?_append_left ha]) i
  rintro k ⟨i, t, hi, hk⟩
  exact List.getElem?_append_left (H.t_lt i t hi k hk)

/-- **C119** `m.ndmat` is the array of the Matrix itself: what is written into it then is the Matrix. `m.ndmat = array` makes the Matrix hold what the
array holds, now and after every write into it. -/
theorem C119_matrix_array (hist : List Op) (k : ℕ) (m : Mat3 ℝ) (hm : matrixOf (reached hist) k = some m) :
    let h := reached hist
    (let h' := (step h (.ndmat k)).1
     arrayOf h' h.held.length = some m ∧ (∀ k', matrixOf h' k' = matrixOf h k') ∧
     ∀ v, matrixOf (step h' (.write h.held.length v)).1 k = some v) ∧
    ∀ x a, arrayOf h x = some a →
      let h' := (step h (.assignM k x)).1
      matrixOf h' k = some a ∧ (∀ k', k' ≠ k → matrixOf h' k' = matrixOf h k') ∧ (∀ y, arrayOf h' y = arrayOf h y) ∧
      ∀ v, matrixOf (step h' (.write x v)).1 k = some v := by
  intro h
  have H : Own h := own_reached hist
  cases hk : h.user[k]? with
  | none => simp [matrixOf, h, hk] at hm
  | some u =>
    have hum := List.mem_of_getElem? hk
    have hul := H.user_lt u hum
    obtain ⟨b, hb⟩ := some_of_lt hul
    have hbl := H.mats_lt u b hb
    have hm' : h.arr b = m := by
      have : matrixOf h k = some m := hm
      simp only [matrixOf, hk, Option.map_some, Option.some.injEq, mat_of hb] at this
      exact this
    constructor
    · have e : (step h (.ndmat k)).1 = ⟨h.arrs, h.mats, h.ts, h.user, h.held ++ [b]⟩ := by simp [step, hk, hb]
      simp only [e]
      refine ⟨by simp [arrayOf]; exact hm', fun _ => rfl, fun v => ?_⟩
      simp only [step, matrixOf, List.getElem?_append_right (le_refl _), Nat.sub_self, List.getElem?_cons_zero, hk, Option.map_some, Option.some.injEq]
      rw [mat_of (h := ⟨h.arrs.set b v, h.mats, h.ts, h.user, h.held ++ [b]⟩) (a := b) hb]
      simp [Heap.arr, List.getElem?_set_self hbl]
    · intro x a ha
      cases hx : h.held[x]? with
      | none => simp [arrayOf, hx] at ha
      | some c =>
        simp only [arrayOf, hx, Option.map_some, Option.some.injEq] at ha
        have hcl := H.held_lt c (List.mem_of_getElem? hx)
        have e : (step h (.assignM k x)).1 = ⟨h.arrs, h.mats.set u c, h.ts, h.user, h.held⟩ := by simp [step, hk, hx]
        simp only [e]
        refine ⟨?_, fun k' hk' => ?_, fun _ => rfl, fun v => ?_⟩
        · simp only [matrixOf, hk, Option.map_some, Option.some.injEq]
          rw [mat_of (a := c) (List.getElem?_set_self hul)]
          exact ha
        · simp only [matrixOf]
          cases hv : h.user[k']? with
          | none => rfl
          | some v =>
            simp only [Option.map_some, Option.some.injEq]
            have := mat_set_ne H (l := []) (u := u) (a := c) (fun he => hk' (user_inj H (he ▸ hv) hk)) (H.user_lt v (List.mem_of_getElem? hv)) h.user h.held
            simpa using this
        · simp only [step, hx, matrixOf, hk, Option.map_some, Option.some.injEq]
          rw [mat_of (a := c) (List.getElem?_set_self hul)]
          simp [Heap.arr, List.getElem?_set_self hcl]

/-- **C119** Writing into an array changes it and what refers to the same array — other references of the program to it and Matrix objects it belongs
to — and nothing else that the program holds. -/
theorem C119_write (hist : List Op) (x : ℕ) (v m : Mat3 ℝ) (hx : arrayOf (reached hist) x = some m) :
    let h := reached hist
    let h' := (step h (.write x v)).1
    (step h (.write x v)).2 = none ∧ arrayOf h' x = some v ∧
    (∀ y, h.held[y]? = h.held[x]? → arrayOf h' y = some v) ∧ (∀ y, h.held[y]? ≠ h.held[x]? → arrayOf h' y = arrayOf h y) ∧
    (∀ k u, h.user[k]? = some u → h.mats[u]? = h.held[x]? → matrixOf h' k = some v) ∧
    ∀ k u, h.user[k]? = some u → h.mats[u]? ≠ h.held[x]? → matrixOf h' k = matrixOf h k := by
  intro h
  have H : Own h := own_reached hist
  cases hc : h.held[x]? with
  | none => simp [arrayOf, h, hc] at hx
  | some c =>
    have hcl := H.held_lt c (List.mem_of_getElem? hc)
    have e : step h (.write x v) = (⟨h.arrs.set c v, h.mats, h.ts, h.user, h.held⟩, none) := by simp [step, hc]
    have hv : (Heap.mk (h.arrs.set c v) h.mats h.ts h.user h.held).arr c = v := by simp [Heap.arr, List.getElem?_set_self hcl]
    have ho : ∀ b, c ≠ b → (Heap.mk (h.arrs.set c v) h.mats h.ts h.user h.held).arr b = h.arr b := fun b hb => by
      simp [Heap.arr, List.getElem?_set_ne hb]
    simp only [e]
    refine ⟨trivial, by simp only [arrayOf, hc, Option.map_some, hv], fun y hy => by simp only [arrayOf, hy, Option.map_some, hv], fun y hy => ?_,
      fun k u hk hu => ?_, fun k u hk hu => ?_⟩
    · simp only [arrayOf]
      cases hb : h.held[y]? with
      | none => rfl
      | some b => rw [Option.map_some, Option.map_some, ho b fun he => hy (by rw [hb, he])]
    · simp only [matrixOf, hk, Option.map_some, Option.some.injEq]
      rw [mat_of (h := ⟨h.arrs.set c v, h.mats, h.ts, h.user, h.held⟩) (a := c) hu, hv]
    · simp only [matrixOf, hk, Option.map_some, Option.some.injEq]
      obtain ⟨b, hb⟩ := some_of_lt (H.user_lt u (List.mem_of_getElem? hk))
      rw [mat_of (h := ⟨h.arrs.set c v, h.mats, h.ts, h.user, h.held⟩) (a := b) hb, mat_of hb, ho b fun he => hu (by rw [hb, he])]

/-- **C119** What a Transform hands out as its inverse is the array it goes on using: after `t.inverse` and a write of `v` into the array,
`untransform` applies `v`. Any change of the Transform by translating, scaling, rotating, composing, resetting or setting makes it independent again
(`C119_call`: the value model forgets the inverse there). -/
theorem C119_inverse_shared (hist : List Op) (i : ℕ) (s : TState) (hs : state (reached hist) i = some s) (m : Mat3 ℝ) (hm : s.inverse.2 = .ok m) :
    let h := reached hist
    let h' := (step h (.inverse i)).1
    (step h (.inverse i)).2 = none ∧ arrayOf h' h.held.length = some m ∧ state h' i = some s.inverse.1 ∧
    ∀ v p, state (step h' (.write h.held.length v)).1 i = some ⟨s.mat, some v, s.stack⟩ ∧
      (untransform (step h' (.write h.held.length v)).1 i p).2 = .ok (v.apply p) := by
  intro h h'
  have H : Own h := own_reached hist
  obtain ⟨t, hi⟩ := t_of_state hs
  obtain ⟨e1, e2⟩ := eff_inverse H hi
  obtain ⟨e3, e4⟩ := e2 s hs
  cases hv : inverse h i with
  | mk h1 r =>
    cases r with
    | error er =>
      have := (e4 er).1 (by rw [hv])
      rw [this] at hm
      cases hm
    | ok a =>
      rw [hv] at e1 e3
      obtain ⟨h2, t', h3, h4⟩ := e3 a rfl
      simp only at h2 h3 e1
      have hh' : step h (.inverse i) = (⟨h1.arrs, h1.mats, h1.ts, h1.user, h1.held ++ [a]⟩, none) := by simp [step, hv]
      have hl : h1.held = h.held := e1.refs.2
      have ha : h1.arr a = m := by rw [h2] at hm; exact Except.ok.inj hm
      have hal := e1.own.inv_lt i t' a h3 h4
      have hx : h'.held[h.held.length]? = some a := by
        show (step h (.inverse i)).1.held[_]? = _
        rw [hh']
        simp [hl]
      have hself : state h1 i = some s.inverse.1 := by rw [e1.self, show state h i = some s from hs]; rfl
      refine ⟨by rw [hh'], ?_, ?_, fun v p => ?_⟩
      · show arrayOf (step h (.inverse i)).1 _ = _
        rw [hh']
        simp only [arrayOf, hl]
        rw [List.getElem?_append_right (le_refl _)]
        simp only [Nat.sub_self, List.getElem?_cons_zero, Option.map_some, Option.some.injEq]
        exact ha
      · show state (step h (.inverse i)).1 i = _
        rw [hh']
        exact hself
      · have hw : (step h' (.write h.held.length v)).1 = ⟨h1.arrs.set a v, h1.mats, h1.ts, h1.user, h1.held ++ [a]⟩ := by
          have : h' = ⟨h1.arrs, h1.mats, h1.ts, h1.user, h1.held ++ [a]⟩ := by show (step h (.inverse i)).1 = _; rw [hh']
          simp only [step, hx]
          rw [this]
        have hst := state_user (h' := ⟨h1.arrs.set a v, h1.mats, h1.ts, h1.user, h1.held ++ [a]⟩) e1.own rfl (fun _ _ => rfl) (fun b hb => by
          have : a ≠ b := fun he => e1.own.inv_arr i t' a h3 h4 (he ▸ hb)
          simp [Heap.arr, List.getElem?_set_ne this]) i
        have hsx := sameXf_inverse s
        rw [state_of h3] at hself
        have hss := Option.some.inj hself
        have hfin : state (step h' (.write h.held.length v)).1 i = some ⟨s.mat, some v, s.stack⟩ := by
          rw [hw, hst, h3]
          simp only [Option.map_some, h4, Option.some.injEq, TState.mk.injEq]
          refine ⟨?_, by simp [Heap.arr, List.getElem?_set_self hal], ?_⟩
          · rw [hsx.1, ← hss]
          · rw [hsx.2, ← hss]
        refine ⟨hfin, ?_⟩
        have hr : (step h' (.write h.held.length v)).1 = reached (hist ++ [.inverse i, .write h.held.length v]) := by
          simp [reached, run, List.foldl_append, h', h]
        obtain ⟨t2, ht2⟩ := t_of_state hfin
        rw [hr] at ht2 hfin ⊢
        rw [(C119_results _ i t2 _ ht2 hfin p).2]
        rfl

/-- **C119** The property one would expect — what a Transform does can only change through calls on it — fails for its inverse: -/
theorem C119_spoilt_counterexample : ∃ (ops : List Op) (i : ℕ) (t : TObj) (p q : Pt ℝ), calls i Heap.empty ops = [.untransform ⟨0, 0⟩] ∧
    (reached ops).ts[i]? = some t ∧ transform (reached ops) t p = p ∧ (untransform (reached ops) i p).2 = .ok q ∧ p ≠ q := by
  have h0 := C119_new [] Mat3.one .new (.inl ⟨rfl, rfl⟩)
  have hs : state (reached [.new]) 0 = some ⟨Mat3.one, none, []⟩ := h0.2.2.1
  have hi : (⟨Mat3.one, none, []⟩ : TState).inverse.2 = .ok Mat3.one := by simp [TState.inverse, Mat3.inv, Mat3.one, Mat3.det]
  obtain ⟨h1, h2, h3, h4⟩ := C119_inverse_shared [.new] 0 _ hs _ hi
  have hl : (reached [.new]).held.length = 0 := rfl
  rw [hl] at h4
  obtain ⟨h5, h6⟩ := h4 (Mat3.of6 2 0 0 0 2 0) ⟨1, 0⟩
  obtain ⟨t, ht⟩ := t_of_state h5
  have hts := state_of ht
  rw [h5] at hts
  refine ⟨[.new, .inverse 0, .write 0 (Mat3.of6 2 0 0 0 2 0)], 0, t, ⟨1, 0⟩, ⟨2, 0⟩, ?_, ht, ?_, ?_, ?_⟩
  · simp [calls, asked]
  · have hm : (reached [.new, .inverse 0, .write 0 (Mat3.of6 2 0 0 0 2 0)]).mat t.mat = Mat3.one := (congrArg TState.mat (Option.some.inj hts)).symm
    simp [transform, hm, Mat3.apply, Mat3.one]
  · have : (untransform (reached [.new, .inverse 0, .write 0 (Mat3.of6 2 0 0 0 2 0)]) 0 ⟨1, 0⟩).2 = _ := h6
    rw [this]
    simp [Mat3.of6, Mat3.apply]
  · simp

end X7.XH
