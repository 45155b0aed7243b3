import Verif.Lemmas.Rebase

/-!
C117: points rehung on other points. `run lim [] ops` is the heap after any history of constructors, moves, copies and assignments of
`base`; `Reads h i p` says in one definition what the position of point `i` is.
-/

namespace X7.RB
open X7.PH Relation
variable {K : Type*} [Field K]

/-- C117: after any history, reading a point with at least as much depth as there are objects gives its position if it has one, raises
RecursionError exactly if one of the points it hangs on hangs on itself, and otherwise AttributeError, exactly if one of them is a PointCalc
whose base is no PointRelative. -/
theorem C117_reading (lim : ℕ) (ops : List (Op K)) (i n : ℕ) (hi : isBasePoint (run lim [] ops) i) (hn : (run lim [] ops).length ≤ n) :
    let h := run lim [] ops
    (∀ p, xyN h n i = .ok p ↔ Reads h i p) ∧ (xyN h n i = .error .recursion ↔ Looping h i) ∧
    (xyN h n i = .error .attribute ↔ ¬ Looping h i ∧ Misfit h i) ∧ ((∃ p, Reads h i p) ↔ ¬ Looping h i ∧ ¬ Misfit h i) := by
  have hok := (ok_run lim ok_nil ops : Ok (run lim ([] : Heap K) ops)).1
  generalize run lim [] ops = h at *
  intro h'
  by_cases hl : Looping h i
  · have hx : xyN h n i = .error .recursion := xyN_looping hl
    refine ⟨fun p => ⟨fun h1 => ?_, fun h1 => absurd hl (reads_not_looping h1)⟩, ⟨fun _ => hl, fun _ => hx⟩,
      ⟨fun h1 => ?_, fun h1 => absurd hl h1.1⟩, ⟨fun ⟨p, h1⟩ => absurd hl (reads_not_looping h1), fun h1 => absurd hl h1.1⟩⟩
    · rw [hx] at h1; cases h1
    · rw [hx] at h1; cases h1
  · rcases settled hok hi hl with ⟨p, h1, h2⟩ | ⟨h1, h2⟩
    · have hx := h2 n hn
      refine ⟨fun q => ⟨fun h3 => ?_, fun h3 => ?_⟩, ⟨fun h3 => ?_, fun h3 => absurd h3 hl⟩, ⟨fun h3 => ?_, fun h3 => absurd h3.2 (reads_not_misfit h1)⟩,
        ⟨fun _ => ⟨hl, reads_not_misfit h1⟩, fun _ => ⟨p, h1⟩⟩⟩
      · rw [hx] at h3; cases h3; exact h1
      · rw [hx, reads_unique' h1 h3]
      · rw [hx] at h3; cases h3
      · rw [hx] at h3; cases h3
    · have hx := h2 n hn
      refine ⟨fun q => ⟨fun h3 => ?_, fun h3 => absurd h1 (reads_not_misfit h3)⟩, ⟨fun h3 => ?_, fun h3 => absurd h3 hl⟩,
        ⟨fun _ => ⟨hl, h1⟩, fun _ => hx⟩, ⟨fun ⟨p, h3⟩ => absurd h1 (reads_not_misfit h3), fun h3 => absurd h1 h3.2⟩⟩
      · rw [hx] at h3; cases h3
      · rw [hx] at h3; cases h3

/-- C117: a position read at any depth is the position. -/
theorem C117_shallow (lim : ℕ) (ops : List (Op K)) (i n : ℕ) (p : Pt K) (hi : isBasePoint (run lim [] ops) i)
    (hx : xyN (run lim [] ops) n i = .ok p) : Reads (run lim [] ops) i p :=
  reads_of_xyN hi (ok_run lim ok_nil ops : Ok (run lim ([] : Heap K) ops)).1 hx

/-- C117: rehanging a point moves it and everything that hangs on it by one and the same vector, whatever the scales in between, and moves
nothing else. -/
theorem C117_moves (lim : ℕ) (h : Heap K) (i c : ℕ) (hs : (step lim h (.setBase i c)).2 = none) :
    let h' := (step lim h (.setBase i c)).1
    (∀ p q, Reads h i p → Reads h' i q → ∀ j r, Reads h j r → Hangs h j i → Reads h' j ⟨r.x + (q.x - p.x), r.y + (q.y - p.y)⟩) ∧
    ∀ j r, Reads h j r → ¬ Hangs h j i → Reads h' j r := by
  simp only [step] at hs ⊢
  split at hs
  · rename_i hc
    simp only [if_pos hc]
    split at hs
    · rename_i dx dy b n ho
      exact ⟨fun p q hp hq j r hr hj => reads_moves ho (set_self ho) (.inl ⟨dx, dy, b, c, n, rfl, rfl⟩) set_other hp hq hr hj,
        fun j r hr hj => reads_keep set_other hr hj⟩
    · rename_i b s n ho
      exact ⟨fun p q hp hq j r hr hj => reads_moves ho (set_self ho) (.inr ⟨s, b, c, n, rfl, rfl⟩) set_other hp hq hr hj,
        fun j r hr hj => reads_keep set_other hr hj⟩
    · cases hs
  · cases hs

/-- C117: a PointRelative hung on a point that has a position and does not hang on it is afterwards its offset away from there, even if it had
no position before. -/
theorem C117_place (lim : ℕ) (h : Heap K) (i c b : ℕ) (dx dy : K) (m : Option String) (q : Pt K) (hi : h[i]? = some (.rel dx dy b m))
    (hc : Reads h c q) (hn : ¬ Hangs h c i) :
    (step lim h (.setBase i c)).2 = none ∧ Reads (step lim h (.setBase i c)).1 i ⟨q.x + dx, q.y + dy⟩ := by
  simp only [step, if_pos (reads_isBasePoint hc), hi]
  exact ⟨trivial, .rel (set_self hi) (reads_keep set_other hc hn)⟩

/-- C117: the same for a PointCalc, which takes the offset of the PointRelative it is hung on, scaled. -/
theorem C117_place_calc (lim : ℕ) (h : Heap K) (i c b b' : ℕ) (s dx dy : K) (m m' : Option String) (q : Pt K) (hi : h[i]? = some (.pcalc b s m))
    (hc : h[c]? = some (.rel dx dy b' m')) (hb : Reads h b' q) (hn : ¬ Hangs h c i) :
    (step lim h (.setBase i c)).2 = none ∧ Reads (step lim h (.setBase i c)).1 i ⟨q.x + s * dx, q.y + s * dy⟩ := by
  have hcb : isBasePoint h c := by simp [isBasePoint, hc]
  simp only [step, if_pos hcb, hi]
  have hci : c ≠ i := fun he => hn (he ▸ .refl)
  exact ⟨trivial, .pcalc (set_self hi) (by rw [set_other c hci]; exact hc)
    (reads_keep set_other hb fun h1 => hn (.head (.inl ⟨_, _, _, hc⟩) h1))⟩

/-- C117: hung on a point that hangs on it, a point has no position any more, nor has anything that hangs on it: reading one, and comparing one
with itself, raises RecursionError at every depth. -/
theorem C117_loop [DecidableEq K] (lim : ℕ) (h : Heap K) (i c : ℕ) (hs : (step lim h (.setBase i c)).2 = none) (hc : Hangs h c i) (j n : ℕ) :
    let h' := (step lim h (.setBase i c)).1
    Hangs h' j i → xyN h' n j = .error .recursion ∧ eqN h' n j j = .error .recursion := by
  have key : ∀ x : PObj K, h[i]? ≠ none → baseOf x = some c → Hangs (h.set i x) j i → Looping (h.set i x) j := by
    intro x hi hx hj
    refine ⟨i, hj, ?_⟩
    obtain ⟨y, hy⟩ := Option.ne_none_iff_exists'.1 hi
    exact .head' (base_iff.2 ⟨x, set_self hy, hx⟩) (hangs_congr (fun a b ha => base_set_other ha) hc)
  simp only [step] at hs ⊢
  split at hs
  · rename_i hcb
    simp only [if_pos hcb]
    split at hs
    · rename_i ho
      intro hj
      have := key _ (by simp [ho]) rfl hj
      exact ⟨xyN_looping this, eqN_looping this⟩
    · rename_i ho
      intro hj
      have := key _ (by simp [ho]) rfl hj
      exact ⟨xyN_looping this, eqN_looping this⟩
    · cases hs
  · cases hs

/-- C117: if in a history no assignment hangs a point on one that hangs on it, then no point ever hangs on itself: every point has a position or
has a misfit PointCalc among what it hangs on, no depth beyond the number of objects is needed, and a point equals itself. -/
theorem C117_safe [DecidableEq K] (lim : ℕ) (ops : List (Op K)) (hs : AllSafe lim [] ops) (i n : ℕ) (hi : isBasePoint (run lim [] ops) i)
    (hn : (run lim [] ops).length ≤ n) :
    let h := run lim [] ops
    ¬ TransGen (Base h) i i ∧ ((∃ p, Reads h i p ∧ xyN h n i = .ok p) ∨ (Misfit h i ∧ xyN h n i = .error .attribute)) ∧
    eqN h n i i = .ok true := by
  have hok : Ok (run lim ([] : Heap K) ops) := ok_run lim ok_nil ops
  have hst := straight_run lim ok_nil straight_nil ops hs
  have hl : ¬ Looping (run lim [] ops) i := fun ⟨j, _, h2⟩ => hst j h2
  refine ⟨hst i, ?_, eqN_self hok.1 hi hl n hn⟩
  rcases settled hok.1 hi hl with ⟨p, h1, h2⟩ | ⟨h1, h2⟩
  · exact .inl ⟨p, h1, h2 n hn⟩
  · exact .inr ⟨h1, h2 n hn⟩

/-- C117: with depth for all objects, comparing a point with itself is true, or raises RecursionError exactly if it hangs on one that hangs on
itself. -/
theorem C117_self_equal [DecidableEq K] (lim : ℕ) (ops : List (Op K)) (i n : ℕ) (hi : isBasePoint (run lim [] ops) i)
    (hn : (run lim [] ops).length ≤ n) :
    let h := run lim [] ops
    eqN h n i i = (open Classical in if Looping h i then .error .recursion else .ok true) := by
  have hok : Ok (run lim ([] : Heap K) ops) := ok_run lim ok_nil ops
  intro h
  split
  · rename_i hl; exact eqN_looping hl
  · rename_i hl; exact eqN_self hok.1 hi hl n hn

/-- C117: rehanging a PointRelative on a point that does not hang on it and then setting its offset to what is left to where it was, leaves it and
everything else at its place, except where a PointCalc is built on it. -/
theorem C117_adjust (lim : ℕ) (h : Heap K) (i c b : ℕ) (dx dy : K) (m : Option String) (p q : Pt K) (hi : h[i]? = some (.rel dx dy b m))
    (hp : Reads h i p) (hc : Reads h c q) (hn : ¬ Hangs h c i) :
    let h' := run lim h [.setBase i c, .call (.setDelta i (p.x - q.x) (p.y - q.y))]
    Reads h' i p ∧ ∀ j r, Reads h j r → (∀ (k : ℕ) s n, Hangs h j k → h[k]? ≠ some (PObj.pcalc i s n)) → Reads h' j r := by
  have hr : run lim h [.setBase i c, .call (.setDelta i (p.x - q.x) (p.y - q.y))] = h.set i (.rel (p.x - q.x) (p.y - q.y) c m) := by
    simp only [run, List.foldl_cons, List.foldl_nil]
    simp only [step, if_pos (reads_isBasePoint hc), hi, PH.step, set_self hi, List.set_set]
  simp only [hr]
  have hc' : Reads (h.set i (.rel (p.x - q.x) (p.y - q.y) c m)) c q := reads_keep set_other hc hn
  constructor
  · have := Reads.rel (set_self hi) hc'
    convert this using 1
    ext <;> simp
  · intro j r hr hj
    exact reads_adjusted hi hp (set_self hi) set_other hc' hr hj

/-- C117: a call or assignment that raises an exception leaves every object as it was. -/
theorem C117_failed (lim : ℕ) (h : Heap K) (op : Op K) (e : PyErr) (he : (step lim h op).2 = some e) : (step lim h op).1 = h := by
  cases op with
  | setBase i c =>
    simp only [step] at he ⊢
    (repeat' split at he) <;> simp_all
  | call o =>
    cases o with
    | mkVecRel p q =>
      simp only [step, PH.step] at he ⊢
      split at he
      · cases he
      · rename_i hc; rw [if_neg hc]
    | _ => simp only [step, PH.step] at he ⊢ <;> (repeat' split at he) <;> simp_all

/-- C117: without assignments of `base`, and depth for all objects, histories and positions are those of C04. -/
theorem C117_agrees (lim : ℕ) (ops : List (POp K)) (hl : 3 * ops.length < lim) :
    run lim [] (ops.map .call) = PH.run [] ops ∧ ∀ i, xyN (PH.run [] ops) lim i = PH.xy (PH.run [] ops) i := by
  have gen : ∀ (ops : List (POp K)) (h : Heap K), WF h → h.length + 3 * ops.length < lim →
      run lim h (ops.map .call) = PH.run h ops ∧ WF (PH.run h ops) ∧ (PH.run h ops).length < lim := by
    intro ops
    induction ops with
    | nil => intro h hw hn; exact ⟨rfl, hw, hn⟩
    | cons o ops ih =>
      intro h hw hn
      simp only [List.length_cons] at hn
      have := length_step h o
      have h1 := step_eq hw (lim := lim) (by omega) (by omega) o
      obtain ⟨h2, h3, h4⟩ := ih (PH.step h o).1 (step_wf hw o) (by omega)
      refine ⟨?_, h3, h4⟩
      rw [List.map_cons, run_cons, h1, h2]
      rfl
  obtain ⟨h1, h2, h3⟩ := gen ops [] wf_nil (by simpa using hl)
  exact ⟨h1, fun i => xyN_eq' h2 (by omega) h3.le⟩

/-- C117: no depth is enough for all programs, even without any assignment: `k` PointRelatives in a row are read with depth `k + 1` and not with
less, so Python's limit is met by a long enough row. -/
theorem C117_depth_counterexample (lim k n : ℕ) :
    let h := run lim [] (chainOps K k)
    xyN h n k = (if k < n then .ok ⟨(k : K), 0⟩ else .error .recursion) ∧ AllSafe lim [] (chainOps K k) := by
  refine ⟨by simp only [run_chain]; exact xyN_chain n k le_rfl, ?_⟩
  have : ∀ (ops : List (Op K)) (h : Heap K), (∀ o ∈ ops, ∃ c, o = .call c) → AllSafe lim h ops := by
    intro ops
    induction ops with
    | nil => intro _ _; trivial
    | cons o ops ih =>
      intro h hc
      obtain ⟨c, rfl⟩ := hc o (by simp)
      exact ⟨trivial, ih _ fun x hx => hc x (by simp [hx])⟩
  refine this _ _ fun o ho => ?_
  simp only [chainOps, List.mem_cons, List.mem_map] at ho
  rcases ho with rfl | ⟨i, -, rfl⟩ <;> exact ⟨_, rfl⟩

/-! ### Programs -/

/-- C117: `p.base = p` is accepted; afterwards `p.xy()`, `p == p` and a new point over `p` have nothing to give but RecursionError, at every depth;
and `p.base = q` puts it right. -/
theorem C117_itself_counterexample (lim n : ℕ) :
    let h := run lim ([] : Heap ℚ) [.call (.mkPoint 1 2 none), .call (.mkRel 3 4 0 none), .setBase 1 1, .call (.mkRel 5 6 1 none)]
    (step lim (run lim ([] : Heap ℚ) [.call (.mkPoint 1 2 none), .call (.mkRel 3 4 0 none)]) (.setBase 1 1)).2 = none ∧
    xyN h n 1 = .error .recursion ∧ eqN h n 1 1 = .error .recursion ∧ xyN h n 2 = .error .recursion ∧
    xyN (step lim h (.setBase 1 0)).1 3 2 = .ok ⟨9, 12⟩ := by
  have h1 : Base (run lim ([] : Heap ℚ) [.call (.mkPoint 1 2 none), .call (.mkRel 3 4 0 none), .setBase 1 1, .call (.mkRel 5 6 1 none)]) 1 1 :=
    .inl ⟨_, _, _, rfl⟩
  have h2 : Base (run lim ([] : Heap ℚ) [.call (.mkPoint 1 2 none), .call (.mkRel 3 4 0 none), .setBase 1 1, .call (.mkRel 5 6 1 none)]) 2 1 :=
    .inl ⟨_, _, _, rfl⟩
  refine ⟨rfl, xyN_looping ⟨1, .refl, .single h1⟩, eqN_looping ⟨1, .refl, .single h1⟩, xyN_looping ⟨1, .single h2, .single h1⟩, ?_⟩
  show Except.ok _ = _
  norm_num

/-- C117: two points can be hung on each other, also by way of a PointCalc. -/
theorem C117_mutual_counterexample (lim n : ℕ) :
    let h := run lim ([] : Heap ℚ) [.call (.mkPoint 1 2 none), .call (.mkRel 3 4 0 none), .call (.mkCalc 1 2 none), .setBase 1 2]
    xyN h n 1 = .error .recursion ∧ xyN h n 2 = .error .recursion := by
  have h1 : Base (run lim ([] : Heap ℚ) [.call (.mkPoint 1 2 none), .call (.mkRel 3 4 0 none), .call (.mkCalc 1 2 none), .setBase 1 2]) 1 2 :=
    .inl ⟨_, _, _, rfl⟩
  have h2 : Base (run lim ([] : Heap ℚ) [.call (.mkPoint 1 2 none), .call (.mkRel 3 4 0 none), .call (.mkCalc 1 2 none), .setBase 1 2]) 2 1 :=
    .inr ⟨_, _, rfl⟩
  have hl := TransGen.head h1 (.single h2)
  exact ⟨xyN_looping ⟨1, .refl, hl⟩, xyN_looping ⟨1, .single h2, hl⟩⟩

/-- C117: the assertion of the constructor of PointCalc is not made on assignment: hung on a plain point it has no position, and copying it raises
AssertionError. -/
theorem C117_assertion_counterexample (lim n : ℕ) :
    let h := run lim ([] : Heap ℚ) [.call (.mkPoint 1 2 none), .call (.mkRel 3 4 0 none), .call (.mkCalc 1 2 none), .setBase 2 0]
    xyN h (n + 1) 2 = .error .attribute ∧ (step lim h (.call (.copy 2))).2 = some .assertion ∧ eqN h (n + 2) 2 2 = .ok true := by
  refine ⟨rfl, rfl, ?_⟩
  rfl

/-- C117: keeping a point in place while rehanging it does not keep a PointCalc over it in place. -/
theorem C117_adjust_counterexample :
    let h := run 9 ([] : Heap ℚ) [.call (.mkPoint 0 0 none), .call (.mkPoint 10 0 none), .call (.mkRel 4 0 0 none), .call (.mkCalc 2 (1/2) none)]
    let h' := run 9 h [.setBase 2 1, .call (.setDelta 2 (-6) 0)]
    xyN h 9 2 = .ok ⟨4, 0⟩ ∧ xyN h' 9 2 = .ok ⟨4, 0⟩ ∧ xyN h 9 3 = .ok ⟨2, 0⟩ ∧ xyN h' 9 3 = .ok ⟨7, 0⟩ := by
  refine ⟨?_, ?_, ?_, ?_⟩ <;> (show Except.ok _ = _) <;> norm_num

/-- Non-vacuity of `C117_moves`: a PointRelative, a PointCalc over it and a point over that, all moved by (10, 0) as the first is rehung. -/
example :
    let h := run 9 ([] : Heap ℚ) [.call (.mkPoint 0 0 none), .call (.mkPoint 10 0 none), .call (.mkRel 4 0 0 none),
      .call (.mkCalc 2 (1/2) none), .call (.mkRel 1 1 3 none)]
    let h' := (step 9 h (.setBase 2 1)).1
    (step 9 h (.setBase 2 1)).2 = none ∧ Hangs h 4 2 ∧ xyN h 9 4 = .ok ⟨3, 1⟩ ∧ xyN h' 9 4 = .ok ⟨13, 1⟩ ∧ xyN h 9 2 = .ok ⟨4, 0⟩ ∧
    xyN h' 9 2 = .ok ⟨14, 0⟩ := by
  refine ⟨rfl, .head (.inl ⟨_, _, _, rfl⟩) (.head (.inr ⟨_, _, rfl⟩) .refl), ?_, ?_, ?_, ?_⟩ <;> (show Except.ok _ = _) <;> norm_num

/-- Non-vacuity of `C117_safe`: a history with an assignment that is harmless at its time. -/
example : AllSafe 9 ([] : Heap ℚ) [.call (.mkPoint 0 0 none), .call (.mkPoint 10 0 none), .call (.mkRel 4 0 0 none), .setBase 2 1] := by
  refine ⟨trivial, trivial, trivial, ?_, trivial⟩
  intro h
  rcases ReflTransGen.cases_head h with h1 | ⟨c, ⟨_, _, _, h1⟩ | ⟨_, _, h1⟩, -⟩
  · cases h1
  · cases h1
  · cases h1

end X7.RB
