import Mathlib.Tactic.Linarith
import Mathlib.Tactic.Ring
import Mathlib.Tactic.FieldSimp
import Mathlib.Tactic.Positivity
import Mathlib.Algebra.Order.BigOperators.Group.List
import Verif.Spec.VecField
import Verif.Lemmas.VecReal

/-! C56, C57: vector fields. -/

noncomputable section

namespace X7.VF

/-! ### One direction -/

section one
variable {lo hi : ℝ} {n : ℕ}

theorem linspace_eq (hn : 2 ≤ n) (i : ℕ) : linspace lo hi n i = lo + i * ((hi - lo) / ((n : ℝ) - 1)) := by
  unfold linspace; rw [if_neg (by omega)]

theorem step_pos (hn : 2 ≤ n) (h : lo < hi) : 0 < (hi - lo) / ((n : ℝ) - 1) := by
  have : (2 : ℝ) ≤ n := by exact_mod_cast hn
  apply div_pos <;> linarith

theorem linspace_lt (hn : 2 ≤ n) (h : lo < hi) {i j : ℕ} : linspace lo hi n i < linspace lo hi n j ↔ i < j := by
  rw [linspace_eq hn, linspace_eq hn, add_lt_add_iff_left, mul_lt_mul_iff_left₀ (step_pos hn h)]
  exact_mod_cast Iff.rfl

theorem linspace_zero (hn : 2 ≤ n) : linspace lo hi n 0 = lo := by rw [linspace_eq hn]; simp

theorem linspace_last (hn : 2 ≤ n) : linspace lo hi n (n - 1) = hi := by
  have : (2 : ℝ) ≤ n := by exact_mod_cast hn
  have h1 : (n : ℝ) - 1 ≠ 0 := by linarith
  rw [linspace_eq hn, Nat.cast_sub (by omega)]
  push_cast
  field_simp
  ring

theorem filter_range_lt (n k : ℕ) (hk : k ≤ n) (p : ℕ → Bool) (h : ∀ i < n, p i = decide (i < k)) :
    ((List.range n).filter p).length = k := by
  have : (List.range n).filter p = List.range k := by
    have e : n = k + (n - k) := by omega
    rw [e, List.range_add, List.filter_append]
    have h1 : (List.range k).filter p = List.range k := by
      rw [List.filter_eq_self]
      intro a ha
      rw [List.mem_range] at ha
      rw [h a (by omega)]
      simpa using ha
    have h2 : ((List.range (n - k)).map (k + ·)).filter p = [] := by
      rw [List.filter_eq_nil_iff]
      intro a ha
      obtain ⟨b, hb, rfl⟩ := List.mem_map.1 ha
      rw [List.mem_range] at hb
      rw [h _ (by omega)]
      simp
    rw [h1, h2, List.append_nil]
  rw [this, List.length_range]

/-- The interval chosen holds `x` if `x` is inside the grid. -/
theorem cell_spec (hn : 2 ≤ n) (h : lo < hi) (x : ℝ) :
    cell (linspace lo hi n) n x + 1 < n ∧
    (lo ≤ x → x ≤ hi → linspace lo hi n (cell (linspace lo hi n) n x) ≤ x ∧
      x ≤ linspace lo hi n (cell (linspace lo hi n) n x + 1)) := by
  refine ⟨by unfold cell; omega, fun h1 h2 => ?_⟩
  have hex : ∃ k ≤ n, ∀ i < n, (linspace lo hi n i < x ↔ i < k) := by
    classical
    by_cases hall : ∀ i < n, linspace lo hi n i < x
    · exact ⟨n, le_rfl, fun i hi' => ⟨fun _ => hi', fun _ => hall i hi'⟩⟩
    · push Not at hall
      have hex : ∃ i, i < n ∧ x ≤ linspace lo hi n i := hall
      refine ⟨Nat.find hex, (Nat.find_spec hex).1.le, fun i hi' => ?_⟩
      constructor
      · intro hlt
        by_contra hge
        have hle := not_lt.1 hge
        have := (Nat.find_spec hex).2
        rcases hle.lt_or_eq with h3 | h3
        · have := (linspace_lt (lo := lo) (hi := hi) hn h).2 h3
          linarith
        · rw [h3] at this; linarith
      · intro hlt
        have := Nat.find_min hex hlt
        simp only [not_and, not_le] at this
        exact this hi'
  obtain ⟨k, hk, hk2⟩ := hex
  have hlen := filter_range_lt n k hk (fun i => decide (linspace lo hi n i < x)) fun i hi' => by
    simp [hk2 i hi']
  unfold cell
  rw [hlen]
  have hkn : k < n := by
    by_contra hge
    have : n - 1 < k := by omega
    have := (hk2 (n - 1) (by omega)).2 this
    rw [linspace_last hn] at this
    linarith
  constructor
  · rcases Nat.eq_zero_or_pos k with h0 | h0
    · subst h0
      simp [linspace_zero hn, h1]
    · rw [min_eq_left (by omega)]
      exact ((hk2 (k - 1) (by omega)).2 (by omega)).le
  · rcases Nat.eq_zero_or_pos k with h0 | h0
    · subst h0
      simp only [Nat.zero_sub, Nat.zero_min, zero_add]
      have := hk2 1 (by omega)
      have := this.not.2 (by omega)
      exact not_lt.1 this
    · rw [min_eq_left (by omega)]
      have : k - 1 + 1 = k := by omega
      rw [this]
      exact not_lt.1 ((hk2 k hkn).not.2 (lt_irrefl k))

theorem cell_node (hn : 2 ≤ n) (h : lo < hi) {k : ℕ} (hk : k < n) :
    cell (linspace lo hi n) n (linspace lo hi n k) = min (k - 1) (n - 2) := by
  unfold cell
  rw [filter_range_lt n k hk.le]
  intro i hi'
  simp [linspace_lt hn h]

theorem gap_pos (hn : 2 ≤ n) (h : lo < hi) (i : ℕ) : 0 < linspace lo hi n (i + 1) - linspace lo hi n i := by
  have := (linspace_lt (lo := lo) (hi := hi) hn h).2 (Nat.lt_succ_self i)
  linarith

theorem frac_node (hn : 2 ≤ n) (h : lo < hi) {k : ℕ} (hk : k < n) :
    let i := cell (linspace lo hi n) n (linspace lo hi n k)
    (i = k ∧ frac (linspace lo hi n) i (linspace lo hi n k) = 0) ∨
    (i + 1 = k ∧ frac (linspace lo hi n) i (linspace lo hi n k) = 1) := by
  intro i
  have hc : i = min (k - 1) (n - 2) := cell_node hn h hk
  rcases Nat.eq_zero_or_pos k with h0 | h0
  · left
    have : i = k := by rw [hc, h0]; simp
    refine ⟨this, ?_⟩
    rw [this]
    simp [frac]
  · right
    have : i + 1 = k := by rw [hc]; omega
    refine ⟨this, ?_⟩
    unfold frac
    rw [this]
    have := gap_pos (lo := lo) (hi := hi) hn h i
    rw [‹i + 1 = k›] at this
    exact div_self this.ne'

theorem frac_back (hn : 2 ≤ n) (h : lo < hi) (i : ℕ) (x : ℝ) :
    linspace lo hi n i * (1 - frac (linspace lo hi n) i x) + linspace lo hi n (i + 1) * frac (linspace lo hi n) i x = x := by
  unfold frac
  have := (gap_pos (lo := lo) (hi := hi) hn h i).ne'
  field_simp
  ring

theorem frac_mem (hn : 2 ≤ n) (h : lo < hi) (i : ℕ) (x : ℝ) (h1 : linspace lo hi n i ≤ x) (h2 : x ≤ linspace lo hi n (i + 1)) :
    0 ≤ frac (linspace lo hi n) i x ∧ frac (linspace lo hi n) i x ≤ 1 := by
  unfold frac
  have := gap_pos (lo := lo) (hi := hi) hn h i
  constructor
  · apply div_nonneg <;> linarith
  · rw [div_le_one this]; linarith

end one

theorem lookup_ok {f : Field} (h : f.mesh.Fat) (x y : ℝ) :
    f.lookup x y = .ok ⟨interp f.mesh.cx f.mesh.cy f.mesh.n f.vx x y, interp f.mesh.cx f.mesh.cy f.mesh.n f.vy x y⟩ := by
  unfold Field.lookup
  rw [if_neg]
  rintro (h1 | h1 | h1)
  · exact absurd h.n (by omega)
  · exact absurd h.x (not_lt.2 h1)
  · exact absurd h.y (not_lt.2 h1)

/-- **C56.** At a node of the mesh the stored vector is returned: `vx[i, j]` belongs to `(coord_x[i], coord_y[j])`. -/
theorem C56_node (f : Field) (h : f.mesh.Fat) (i j : ℕ) (hi : i < f.mesh.n) (hj : j < f.mesh.n) :
    f.lookup (f.mesh.cx i) (f.mesh.cy j) = .ok ⟨f.vx i j, f.vy i j⟩ := by
  rw [lookup_ok h]
  have key : ∀ a : ℕ → ℕ → ℝ, interp f.mesh.cx f.mesh.cy f.mesh.n a (f.mesh.cx i) (f.mesh.cy j) = a i j := by
    intro a
    unfold interp
    simp only
    have hx := frac_node h.n h.x hi
    have hy := frac_node h.n h.y hj
    simp only at hx hy
    change (cell f.mesh.cx f.mesh.n (f.mesh.cx i) = i ∧ frac f.mesh.cx (cell f.mesh.cx f.mesh.n (f.mesh.cx i)) (f.mesh.cx i) = 0) ∨
      (cell f.mesh.cx f.mesh.n (f.mesh.cx i) + 1 = i ∧ frac f.mesh.cx (cell f.mesh.cx f.mesh.n (f.mesh.cx i)) (f.mesh.cx i) = 1) at hx
    change (cell f.mesh.cy f.mesh.n (f.mesh.cy j) = j ∧ frac f.mesh.cy (cell f.mesh.cy f.mesh.n (f.mesh.cy j)) (f.mesh.cy j) = 0) ∨
      (cell f.mesh.cy f.mesh.n (f.mesh.cy j) + 1 = j ∧ frac f.mesh.cy (cell f.mesh.cy f.mesh.n (f.mesh.cy j)) (f.mesh.cy j) = 1) at hy
    rcases hx with ⟨e1, e2⟩ | ⟨e1, e2⟩ <;> rcases hy with ⟨e3, e4⟩ | ⟨e3, e4⟩ <;> rw [e2, e4]
    · rw [e1, e3]; ring
    · rw [e1, e3]; ring
    · rw [e1, e3]; ring
    · rw [e1, e3]; ring
  rw [key, key]

/-- Inside the mesh the result is the bilinear blend of the vectors at the corners of a cell that holds the point. -/
theorem C56_bilinear (f : Field) (h : f.mesh.Fat) (x y : ℝ) (hx1 : f.mesh.xl ≤ x) (hx2 : x ≤ f.mesh.xh)
    (hy1 : f.mesh.yl ≤ y) (hy2 : y ≤ f.mesh.yh) :
    ∃ i j s t, i + 1 < f.mesh.n ∧ j + 1 < f.mesh.n ∧ 0 ≤ s ∧ s ≤ 1 ∧ 0 ≤ t ∧ t ≤ 1 ∧
      x = (1 - s) * f.mesh.cx i + s * f.mesh.cx (i + 1) ∧ y = (1 - t) * f.mesh.cy j + t * f.mesh.cy (j + 1) ∧
      f.lookup x y = .ok ⟨blend (f.vx i j) (f.vx i (j + 1)) (f.vx (i + 1) j) (f.vx (i + 1) (j + 1)) s t,
        blend (f.vy i j) (f.vy i (j + 1)) (f.vy (i + 1) j) (f.vy (i + 1) (j + 1)) s t⟩ := by
  obtain ⟨a1, a2⟩ := cell_spec h.n h.x x
  obtain ⟨b1, b2⟩ := cell_spec h.n h.y y
  obtain ⟨a3, a4⟩ := a2 hx1 hx2
  obtain ⟨b3, b4⟩ := b2 hy1 hy2
  obtain ⟨s1, s2⟩ := frac_mem h.n h.x _ x a3 a4
  obtain ⟨t1, t2⟩ := frac_mem h.n h.y _ y b3 b4
  have s3 := frac_back h.n h.x (cell (linspace f.mesh.xl f.mesh.xh f.mesh.n) f.mesh.n x) x
  have t3 := frac_back h.n h.y (cell (linspace f.mesh.yl f.mesh.yh f.mesh.n) f.mesh.n y) y
  refine ⟨cell f.mesh.cx f.mesh.n x, cell f.mesh.cy f.mesh.n y, frac f.mesh.cx (cell f.mesh.cx f.mesh.n x) x,
    frac f.mesh.cy (cell f.mesh.cy f.mesh.n y) y, a1, b1, s1, s2, t1, t2, ?_, ?_, ?_⟩
  · unfold Mesh.cx; linarith
  · unfold Mesh.cy; linarith
  · rw [lookup_ok h]
    congr 1
    ext <;> simp only [interp, blend] <;> ring

theorem blend_mem {a b c d s t lo hi : ℝ} (hs : 0 ≤ s) (hs' : s ≤ 1) (ht : 0 ≤ t) (ht' : t ≤ 1)
    (ha : lo ≤ a ∧ a ≤ hi) (hb : lo ≤ b ∧ b ≤ hi) (hc : lo ≤ c ∧ c ≤ hi) (hd : lo ≤ d ∧ d ≤ hi) :
    lo ≤ blend a b c d s t ∧ blend a b c d s t ≤ hi := by
  have e : ∀ z, z = (1 - s) * ((1 - t) * z + t * z) + s * ((1 - t) * z + t * z) := fun z => by ring
  have w1 : 0 ≤ 1 - s := by linarith
  have w2 : 0 ≤ 1 - t := by linarith
  unfold blend
  constructor
  · rw [e lo]
    gcongr
    · exact ha.1
    · exact hb.1
    · exact hc.1
    · exact hd.1
  · rw [e hi]
    gcongr
    · exact ha.2
    · exact hb.2
    · exact hc.2
    · exact hd.2

/-- Inside the mesh both coordinates of the result stay between bounds on those of the stored vectors. -/
theorem C56_bounded (f : Field) (h : f.mesh.Fat) (x y : ℝ) (hx1 : f.mesh.xl ≤ x) (hx2 : x ≤ f.mesh.xh)
    (hy1 : f.mesh.yl ≤ y) (hy2 : y ≤ f.mesh.yh) (v : Vec ℝ) (hv : f.lookup x y = .ok v) (lo hi : ℝ) :
    ((∀ i j, i < f.mesh.n → j < f.mesh.n → lo ≤ f.vx i j ∧ f.vx i j ≤ hi) → lo ≤ v.x ∧ v.x ≤ hi) ∧
    ((∀ i j, i < f.mesh.n → j < f.mesh.n → lo ≤ f.vy i j ∧ f.vy i j ≤ hi) → lo ≤ v.y ∧ v.y ≤ hi) := by
  obtain ⟨i, j, s, t, hi', hj', s1, s2, t1, t2, -, -, hl⟩ := C56_bilinear f h x y hx1 hx2 hy1 hy2
  rw [hl] at hv
  injection hv with hv
  rw [← hv]
  exact ⟨fun hb => blend_mem s1 s2 t1 t2 (hb _ _ (by omega) (by omega)) (hb _ _ (by omega) hj') (hb _ _ hi' (by omega)) (hb _ _ hi' hj'),
    fun hb => blend_mem s1 s2 t1 t2 (hb _ _ (by omega) (by omega)) (hb _ _ (by omega) hj') (hb _ _ hi' (by omega)) (hb _ _ hi' hj')⟩

/-- Lookup is linear in the field. -/
theorem C56_linear (m : Mesh) (h : m.Fat) (ax ay bx by' : ℕ → ℕ → ℝ) (k l x y : ℝ) (u v : Vec ℝ)
    (hu : Field.lookup ⟨m, ax, ay⟩ x y = .ok u) (hv : Field.lookup ⟨m, bx, by'⟩ x y = .ok v) :
    Field.lookup ⟨m, fun i j => k * ax i j + l * bx i j, fun i j => k * ay i j + l * by' i j⟩ x y =
      .ok ⟨k * u.x + l * v.x, k * u.y + l * v.y⟩ := by
  rw [lookup_ok (f := ⟨m, ax, ay⟩) h] at hu
  rw [lookup_ok (f := ⟨m, bx, by'⟩) h] at hv
  injection hu with hu
  injection hv with hv
  rw [lookup_ok (f := ⟨m, _, _⟩) h, ← hu, ← hv]
  congr 1
  ext <;> simp only [interp] <;> ring

/-- A field that is affine on the nodes is reproduced exactly at every point, inside and outside the mesh. -/
theorem C56_affine (f : Field) (h : f.mesh.Fat) (a b c a' b' c' : ℝ)
    (hx : ∀ i j, i < f.mesh.n → j < f.mesh.n → f.vx i j = a + b * f.mesh.cx i + c * f.mesh.cy j)
    (hy : ∀ i j, i < f.mesh.n → j < f.mesh.n → f.vy i j = a' + b' * f.mesh.cx i + c' * f.mesh.cy j) (x y : ℝ) :
    f.lookup x y = .ok ⟨a + b * x + c * y, a' + b' * x + c' * y⟩ := by
  have hi := (cell_spec h.n h.x x).1
  have hj := (cell_spec h.n h.y y).1
  have s3 := frac_back h.n h.x (cell (linspace f.mesh.xl f.mesh.xh f.mesh.n) f.mesh.n x) x
  have t3 := frac_back h.n h.y (cell (linspace f.mesh.yl f.mesh.yh f.mesh.n) f.mesh.n y) y
  change f.mesh.cx (cell f.mesh.cx f.mesh.n x) * (1 - frac f.mesh.cx _ x) + f.mesh.cx _ * frac f.mesh.cx _ x = x at s3
  change f.mesh.cy (cell f.mesh.cy f.mesh.n y) * (1 - frac f.mesh.cy _ y) + f.mesh.cy _ * frac f.mesh.cy _ y = y at t3
  change cell f.mesh.cx f.mesh.n x + 1 < f.mesh.n at hi
  change cell f.mesh.cy f.mesh.n y + 1 < f.mesh.n at hj
  change f.mesh.cx (cell f.mesh.cx f.mesh.n x) * (1 - frac f.mesh.cx (cell f.mesh.cx f.mesh.n x) x) +
    f.mesh.cx (cell f.mesh.cx f.mesh.n x + 1) * frac f.mesh.cx (cell f.mesh.cx f.mesh.n x) x = x at s3
  change f.mesh.cy (cell f.mesh.cy f.mesh.n y) * (1 - frac f.mesh.cy (cell f.mesh.cy f.mesh.n y) y) +
    f.mesh.cy (cell f.mesh.cy f.mesh.n y + 1) * frac f.mesh.cy (cell f.mesh.cy f.mesh.n y) y = y at t3
  rw [lookup_ok h]
  congr 1
  ext
  · simp only [interp]
    rw [hx _ _ (by omega) (by omega), hx _ _ (by omega) hj, hx _ _ hi (by omega), hx _ _ hi hj]
    linear_combination b * s3 + c * t3
  · simp only [interp]
    rw [hy _ _ (by omega) (by omega), hy _ _ (by omega) hj, hy _ _ hi (by omega), hy _ _ hi hj]
    linear_combination b' * s3 + c' * t3

/-- Points are moved by the vector looked up; a zero field moves nothing and keeps widths. -/
theorem C56_transform (f : Field) (h : f.mesh.Fat) (p : Pt ℝ) :
    (∃ v, f.lookup p.x p.y = .ok v ∧ f.transform p = .ok ⟨p.x + v.x, p.y + v.y⟩) ∧
    f.mesh.zeros.transform p = .ok p ∧ ∀ w, f.mesh.zeros.transformWidth w = .ok |w| := by
  have hz : ∀ q : Pt ℝ, f.mesh.zeros.transform q = .ok q := by
    intro q
    have := C56_affine f.mesh.zeros h 0 0 0 0 0 0 (by simp [Mesh.zeros]) (by simp [Mesh.zeros]) q.x q.y
    unfold Field.transform
    rw [this]
    simp [Pt.addVector]
  refine ⟨⟨_, lookup_ok h _ _, ?_⟩, hz p, fun w => ?_⟩
  · unfold Field.transform
    rw [lookup_ok h]
    rfl
  · unfold Field.transformWidth
    simp only [hz]
    congr 1
    apply hypot_unique (abs_nonneg _)
    have h2 : (√2 : ℝ) ^ 2 = 2 := Real.sq_sqrt (by norm_num)
    rw [abs_mul_abs_self]
    linear_combination -(w ^ 2 / 2) * h2

/-- `transform_pts` never succeeds on a field, whatever the list: for no points it raises an `IndexError`, and on a field where lookup
works a `ValueError` for any points. -/
theorem C56_transform_pts_counterexample (f : Field) (pts : List (Pt ℝ)) :
    (∀ r, f.transformPts pts ≠ .ok r) ∧ f.transformPts [] = .error .index ∧
    (f.mesh.Fat → pts ≠ [] → f.transformPts pts = .error .value) := by
  refine ⟨?_, rfl, ?_⟩
  swap
  · intro h hne
    obtain ⟨p, ps, rfl⟩ := List.exists_cons_of_ne_nil hne
    unfold Field.transformPts
    simp only [lookup_ok h]
  intro r
  unfold Field.transformPts
  cases pts with
  | nil => simp
  | cons p ps =>
    simp only
    split <;> simp

/-- The plot shows the field transposed: the arrow drawn at a place is the vector that lookup gives for the mirrored index. -/
theorem C56_quiver_counterexample (f : Field) (h : f.mesh.Fat) (i j : ℕ) (hi : i < f.mesh.n) (hj : j < f.mesh.n) :
    f.lookup (f.arrow i j).1.x (f.arrow i j).1.y = .ok (f.arrow j i).2 := by
  exact C56_node f h j i hj hi

/-- A mesh that meets the hypotheses, and a field for which plot and lookup differ. -/
example : (⟨3, 0, 0, 2, 2⟩ : Mesh).Fat ∧
    (Field.arrow ⟨⟨3, 0, 0, 2, 2⟩, fun i _ => i, fun _ _ => 0⟩ 0 1).2 ≠ (Field.arrow ⟨⟨3, 0, 0, 2, 2⟩, fun i _ => i, fun _ _ => 0⟩ 1 0).2 := by
  refine ⟨⟨by norm_num, by norm_num, by norm_num⟩, ?_⟩
  simp [Field.arrow]

/-! ### C57 -/

theorem foldl_max_ge (l : List ℝ) (a : ℝ) : a ≤ l.foldl max a ∧ ∀ x ∈ l, x ≤ l.foldl max a := by
  induction l generalizing a with
  | nil => simp
  | cons b l ih =>
    obtain ⟨h1, h2⟩ := ih (max a b)
    simp only [List.foldl_cons, List.mem_cons, forall_eq_or_imp]
    exact ⟨(le_max_left a b).trans h1, (le_max_right a b).trans h1, h2⟩

theorem foldl_max_mem (l : List ℝ) (a : ℝ) : l.foldl max a = a ∨ l.foldl max a ∈ l := by
  induction l generalizing a with
  | nil => simp
  | cons b l ih =>
    simp only [List.foldl_cons, List.mem_cons]
    rcases ih (max a b) with h | h
    · rcases max_choice a b with h' | h' <;> rw [h, h'] <;> simp
    · exact Or.inr (Or.inr h)

theorem amax_ge {n : ℕ} {a : ℕ → ℕ → ℝ} {i j : ℕ} (hi : i < n) (hj : j < n) : a i j ≤ amax n a := by
  apply (foldl_max_ge _ _).2
  rw [List.mem_flatMap]
  exact ⟨i, List.mem_range.2 hi, List.mem_map.2 ⟨j, List.mem_range.2 hj, rfl⟩⟩

theorem amax_mem {n : ℕ} (hn : 0 < n) (a : ℕ → ℕ → ℝ) : ∃ i j, i < n ∧ j < n ∧ amax n a = a i j := by
  unfold amax
  rcases foldl_max_mem ((List.range n).flatMap fun i => (List.range n).map fun j => a i j) (a 0 0) with h | h
  · exact ⟨0, 0, hn, hn, h⟩
  · rw [List.mem_flatMap] at h
    obtain ⟨i, hi, h⟩ := h
    obtain ⟨j, hj, h⟩ := List.mem_map.1 h
    exact ⟨i, j, List.mem_range.1 hi, List.mem_range.1 hj, h.symm⟩

theorem mag_nonneg (f : Field) (i j : ℕ) : 0 ≤ f.mag i j := Real.sqrt_nonneg _

theorem mag_eq_zero (f : Field) (i j : ℕ) : f.mag i j = 0 ↔ f.vx i j = 0 ∧ f.vy i j = 0 := hypot_eq_zero

/-- **C57.** A field with a non-zero vector is scaled by one positive factor so that the largest magnitude is 1. -/
theorem C57_normalized (f : Field) (i₀ j₀ : ℕ) (hi : i₀ < f.mesh.n) (hj : j₀ < f.mesh.n)
    (h0 : f.vx i₀ j₀ ≠ 0 ∨ f.vy i₀ j₀ ≠ 0) :
    ∃ g, f.normalized = .ok (some g) ∧ g.mesh = f.mesh ∧
      (∃ k > 0, ∀ i j, g.vx i j = f.vx i j * k ∧ g.vy i j = f.vy i j * k) ∧
      (∀ i j, i < f.mesh.n → j < f.mesh.n → g.mag i j ≤ 1) ∧ ∃ i j, i < f.mesh.n ∧ j < f.mesh.n ∧ g.mag i j = 1 := by
  have hpos : 0 < amax f.mesh.n f.mag := by
    refine lt_of_lt_of_le (lt_of_le_of_ne (mag_nonneg f i₀ j₀) fun e => ?_) (amax_ge hi hj)
    have := (mag_eq_zero f i₀ j₀).1 e.symm
    rcases h0 with h | h
    · exact h this.1
    · exact h this.2
  have hk : 0 < 1 / amax f.mesh.n f.mag := by positivity
  let g : Field := ⟨f.mesh, fun i j => f.vx i j * (1 / amax f.mesh.n f.mag), fun i j => f.vy i j * (1 / amax f.mesh.n f.mag)⟩
  have hm : ∀ i j, g.mag i j = f.mag i j / amax f.mesh.n f.mag := by
    intro i j
    have := hypot_mul (f.vx i j) (f.vy i j) (1 / amax f.mesh.n f.mag)
    rw [abs_of_pos hk] at this
    rw [div_eq_mul_one_div]
    exact this
  refine ⟨g, ?_, rfl, ⟨_, hk, fun i j => ⟨rfl, rfl⟩⟩, ?_, ?_⟩
  · unfold Field.normalized
    rw [if_neg (by omega)]
    simp only
    rw [if_neg hpos.ne']
  · intro i j h1 h2
    rw [hm, div_le_one hpos]
    exact amax_ge h1 h2
  · obtain ⟨i, j, h1, h2, h3⟩ := amax_mem (by omega : 0 < f.mesh.n) f.mag
    refine ⟨i, j, h1, h2, ?_⟩
    rw [hm, ← h3, div_self hpos.ne']

/-- A zero field gives a field of `nan`s; an empty mesh raises. -/
theorem C57_normalized_zero (f : Field) :
    (f.mesh.n = 0 → f.normalized = .error .value) ∧
    (0 < f.mesh.n → (∀ i j, i < f.mesh.n → j < f.mesh.n → f.vx i j = 0 ∧ f.vy i j = 0) → f.normalized = .ok none) := by
  constructor
  · intro h
    unfold Field.normalized
    rw [if_pos h]
  · intro h hz
    unfold Field.normalized
    rw [if_neg (by omega)]
    simp only
    rw [if_pos]
    obtain ⟨i, j, h1, h2, h3⟩ := amax_mem h f.mag
    rw [h3, mag_eq_zero]
    exact hz i j h1 h2

/-- `scaled` multiplies the components; one factor serves for both. -/
theorem C57_scaled (f : Field) (sx sy : ℝ) (i j : ℕ) :
    (f.scaled sx (some sy)).mesh = f.mesh ∧
    (f.scaled sx (some sy)).vx i j = f.vx i j * sx ∧ (f.scaled sx (some sy)).vy i j = f.vy i j * sy ∧
    f.scaled sx none = f.scaled sx (some sx) ∧ (f.scaled sx none).mag i j = |sx| * f.mag i j := by
  refine ⟨rfl, rfl, rfl, rfl, ?_⟩
  have := hypot_mul (f.vx i j) (f.vy i j) sx
  rw [mul_comm |sx|]
  exact this

theorem scaled_lookup_eq (f : Field) (h : f.mesh.Fat) (sx sy x y : ℝ) (v : Vec ℝ) (hv : f.lookup x y = .ok v) :
    (f.scaled sx (some sy)).lookup x y = .ok ⟨v.x * sx, v.y * sy⟩ := by
  rw [lookup_ok h] at hv
  injection hv with hv
  rw [lookup_ok (f := f.scaled sx (some sy)) h, ← hv]
  congr 1
  ext <;> simp only [interp, Field.scaled] <;> ring

/-- Scaling commutes with lookup. -/
theorem C57_scaled_lookup (f : Field) (h : f.mesh.Fat) (sx sy x y : ℝ) (v : Vec ℝ) (hv : f.lookup x y = .ok v) :
    (f.scaled sx (some sy)).lookup x y = .ok ⟨v.x * sx, v.y * sy⟩ := scaled_lookup_eq f h sx sy x y v hv

/-! #### Smoothing -/

theorem mem_window {n i x : ℕ} : x ∈ window n i ↔ x < n ∧ Near i x := by
  simp [window, Near]

theorem self_mem_window {n i : ℕ} (h : i < n) : i ∈ window n i := by
  rw [mem_window]; exact ⟨h, by omega, by omega⟩

theorem window_length (n i : ℕ) : (window n i).length ≤ 4 := by
  have hnd : (window n i).Nodup := List.Nodup.filter _ List.nodup_range
  have hsub : window n i ⊆ [i - 2, i - 1, i, i + 1] := by
    intro x hx
    rw [mem_window] at hx
    obtain ⟨-, h1, h2⟩ := hx
    simp only [List.mem_cons, List.not_mem_nil, or_false]
    omega
  exact (hnd.subperm hsub).length_le

theorem sum_filter (l : List ℕ) (p : ℕ → Bool) (g : ℕ → ℝ) :
    ((l.filter p).map g).sum = (l.map fun x => if p x then g x else 0).sum := by
  induction l with
  | nil => simp
  | cons a l ih =>
    rw [List.filter_cons]
    split
    · rename_i h; simp [h, ih]
    · rename_i h; simp [h, ih]

theorem windowSum_eq (n : ℕ) (a : ℕ → ℕ → ℝ) (i j : ℕ) :
    windowSum n a i j = mean n (fun x y => if Near i x ∧ Near j y then 1 else 0) a := by
  unfold windowSum mean window
  rw [sum_filter]
  congr 1
  apply List.map_congr_left
  intro x _
  by_cases hx : Near i x
  · have : (decide (i ≤ x + 2) && decide (x < i + 2)) = true := by simpa [Near] using hx
    rw [if_pos this, sum_filter]
    congr 1
    apply List.map_congr_left
    intro y _
    beta_reduce
    by_cases hy : Near j y
    · have h2 : (decide (j ≤ y + 2) && decide (y < j + 2)) = true := by simpa [Near] using hy
      rw [if_pos h2, if_pos ⟨hx, hy⟩, one_mul]
    · have h2 : ¬ (decide (j ≤ y + 2) && decide (y < j + 2)) = true := by simpa [Near] using hy
      rw [if_neg h2, if_neg (fun h => hy h.2), zero_mul]
  · have : ¬ (decide (i ≤ x + 2) && decide (x < i + 2)) = true := by simpa [Near] using hx
    rw [if_neg this]
    symm
    apply List.sum_eq_zero
    intro z hz
    obtain ⟨y, -, rfl⟩ := List.mem_map.1 hz
    beta_reduce
    rw [if_neg (fun h => hx h.1), zero_mul]

theorem sum_single (n i : ℕ) (hi : i < n) (g : ℕ → ℝ) : ((List.range n).map fun x => if x = i then g x else 0).sum = g i := by
  induction n with
  | zero => omega
  | succ n ih =>
    rw [List.range_succ, List.map_append, List.sum_append]
    by_cases h : i = n
    · subst h
      have : ((List.range i).map fun x => if x = i then g x else 0).sum = 0 := by
        apply List.sum_eq_zero
        intro z hz
        obtain ⟨y, hy, rfl⟩ := List.mem_map.1 hz
        rw [List.mem_range] at hy
        rw [if_neg (by omega)]
      rw [this]
      simp
    · rw [ih (by omega)]
      simp [Ne.symm h]

theorem centre_eq (n : ℕ) (a : ℕ → ℕ → ℝ) (i j : ℕ) (hi : i < n) (hj : j < n) :
    mean n (fun x y => if x = i ∧ y = j then 19 else 0) a = 19 * a i j := by
  unfold mean
  have : ∀ x, ((List.range n).map fun y => (if x = i ∧ y = j then (19 : ℝ) else 0) * a x y).sum =
      if x = i then 19 * a x j else 0 := by
    intro x
    by_cases hx : x = i
    · rw [if_pos hx, ← sum_single n j hj (fun y => 19 * a x y)]
      congr 1
      apply List.map_congr_left
      intro y _
      by_cases hy : y = j <;> simp [hx, hy]
    · rw [if_neg hx]
      apply List.sum_eq_zero
      intro z hz
      obtain ⟨y, -, rfl⟩ := List.mem_map.1 hz
      rw [if_neg (fun h => hx h.1), zero_mul]
  simp only [this]
  exact sum_single n i hi (fun x => 19 * a x j)

theorem mean_add (n : ℕ) (w w' a : ℕ → ℕ → ℝ) : mean n (fun x y => w x y + w' x y) a = mean n w a + mean n w' a := by
  unfold mean
  rw [← List.sum_map_add]
  congr 1
  apply List.map_congr_left
  intro x _
  rw [← List.sum_map_add]
  congr 1
  apply List.map_congr_left
  intro y _
  ring

theorem mean_div (n : ℕ) (w a : ℕ → ℕ → ℝ) (k : ℝ) : mean n (fun x y => w x y / k) a = mean n w a / k := by
  unfold mean
  rw [div_eq_inv_mul, ← List.sum_map_mul_left]
  congr 1
  apply List.map_congr_left
  intro x _
  rw [← List.sum_map_mul_left]
  congr 1
  apply List.map_congr_left
  intro y _
  ring

theorem score_eq (i j : ℕ) : score i j = fun x y => (fun x y => (if Near i x ∧ Near j y then (1 : ℝ) else 0)) x y +
    (fun x y => if x = i ∧ y = j then (19 : ℝ) else 0) x y := by
  funext x y
  unfold score
  beta_reduce
  by_cases h : x = i ∧ y = j
  · have : Near i x ∧ Near j y := by
      obtain ⟨rfl, rfl⟩ := h
      exact ⟨⟨by omega, by omega⟩, by omega, by omega⟩
    rw [if_pos h, if_pos this, if_pos h]
    norm_num
  · rw [if_neg h, if_neg h, add_zero]

theorem windowSum_one (n i j : ℕ) : windowSum n (fun _ _ => 1) i j = windowCount n i j := by
  unfold windowSum windowCount
  simp

theorem score_sum (n : ℕ) (i j : ℕ) (hi : i < n) (hj : j < n) :
    mean n (score i j) (fun _ _ => 1) = (windowCount n i j : ℝ) + 19 := by
  rw [score_eq, mean_add, centre_eq n _ i j hi hj, ← windowSum_eq, windowSum_one, mul_one]

theorem smoothVal_mean (n : ℕ) (a : ℕ → ℕ → ℝ) (i j : ℕ) (hi : i < n) (hj : j < n) :
    smoothVal n a i j = mean n (weight n i j) a := by
  have hw : weight n i j = fun x y => score i j x y / mean n (score i j) fun _ _ => 1 := rfl
  rw [hw, mean_div, score_sum n i j hi hj, score_eq, mean_add, centre_eq n a i j hi hj, ← windowSum_eq]
  unfold smoothVal
  norm_num

theorem weight_nonneg (n i j x y : ℕ) (hi : i < n) (hj : j < n) : 0 ≤ weight n i j x y := by
  unfold weight
  rw [score_sum n i j hi hj]
  apply div_nonneg
  · unfold score
    split_ifs <;> norm_num
  · positivity

theorem weight_sum (n i j : ℕ) (hi : i < n) (hj : j < n) : mean n (weight n i j) (fun _ _ => 1) = 1 := by
  rw [← smoothVal_mean n _ i j hi hj]
  unfold smoothVal
  rw [windowSum_one]
  have : ((windowCount n i j : ℝ) + (20 - 1)) ≠ 0 := by positivity
  rw [mul_one, div_self this]

/-- Smoothing replaces each component by a weighted mean of the stored ones, with the same non-negative weights of sum 1 for both
components: 1 for nodes from two before to one after in each direction, 20 for the node itself. -/
theorem C57_smooth_mean (n : ℕ) (a : ℕ → ℕ → ℝ) (i j : ℕ) (hi : i < n) (hj : j < n) :
    smoothVal n a i j = mean n (weight n i j) a ∧ (∀ x y, 0 ≤ weight n i j x y) ∧ mean n (weight n i j) (fun _ _ => 1) = 1 ∧
    ∀ x y, 0 < weight n i j x y ↔ Near i x ∧ Near j y := by
  refine ⟨smoothVal_mean n a i j hi hj, fun x y => weight_nonneg n i j x y hi hj, weight_sum n i j hi hj, fun x y => ?_⟩
  have hpos : (0 : ℝ) < (windowCount n i j : ℝ) + 19 := by positivity
  unfold weight
  rw [score_sum n i j hi hj]
  unfold score
  have hself : x = i ∧ y = j → Near i x ∧ Near j y := by
    rintro ⟨rfl, rfl⟩
    exact ⟨⟨by omega, by omega⟩, by omega, by omega⟩
  by_cases hs : x = i ∧ y = j
  · rw [if_pos hs]
    exact ⟨fun _ => hself hs, fun _ => by positivity⟩
  · rw [if_neg hs]
    by_cases hn : Near i x ∧ Near j y
    · rw [if_pos hn]
      exact ⟨fun _ => hn, fun _ => by positivity⟩
    · rw [if_neg hn]
      simp [hn]

theorem mean_le (n : ℕ) (w a b : ℕ → ℕ → ℝ) (hw : ∀ x y, 0 ≤ w x y) (h : ∀ x y, x < n → y < n → a x y ≤ b x y) :
    mean n w a ≤ mean n w b := by
  unfold mean
  apply List.sum_le_sum
  intro x hx
  apply List.sum_le_sum
  intro y hy
  exact mul_le_mul_of_nonneg_left (h x y (List.mem_range.1 hx) (List.mem_range.1 hy)) (hw x y)

theorem mean_const (n : ℕ) (w : ℕ → ℕ → ℝ) (c : ℝ) : mean n w (fun _ _ => c) = c * mean n w (fun _ _ => 1) := by
  unfold mean
  rw [← List.sum_map_mul_left]
  congr 1
  apply List.map_congr_left
  intro x _
  rw [← List.sum_map_mul_left]
  congr 1
  apply List.map_congr_left
  intro y _
  ring

/-- Smoothed components stay between bounds on the stored ones. -/
theorem C57_smooth_bounded (n : ℕ) (a : ℕ → ℕ → ℝ) (lo hi : ℝ) (h : ∀ x y, x < n → y < n → lo ≤ a x y ∧ a x y ≤ hi)
    (i j : ℕ) (h1 : i < n) (h2 : j < n) : lo ≤ smoothVal n a i j ∧ smoothVal n a i j ≤ hi := by
  rw [smoothVal_mean n a i j h1 h2]
  have hs := weight_sum n i j h1 h2
  have e : ∀ c : ℝ, mean n (weight n i j) (fun _ _ => c) = c := fun c => by rw [mean_const, hs, mul_one]
  constructor
  · conv_lhs => rw [← e lo]
    exact mean_le _ _ _ _ (fun x y => weight_nonneg n i j x y h1 h2) fun x y hx hy => (h x y hx hy).1
  · conv_rhs => rw [← e hi]
    exact mean_le _ _ _ _ (fun x y => weight_nonneg n i j x y h1 h2) fun x y hx hy => (h x y hx hy).2

theorem list_sum_bound (l : List ℕ) (g : ℕ → ℝ) (M : ℝ) (h : ∀ x ∈ l, |g x| ≤ M) : |(l.map g).sum| ≤ l.length * M := by
  induction l with
  | nil => simp
  | cons a l ih =>
    simp only [List.map_cons, List.sum_cons, List.length_cons]
    have h1 := abs_add_le (g a) (l.map g).sum
    have h2 := ih fun x hx => h x (by simp [hx])
    have h3 := h a (by simp)
    push_cast
    linarith

theorem list_sum_mem (l : List ℕ) (hnd : l.Nodup) (g : ℕ → ℝ) {i : ℕ} (hi : i ∈ l) :
    ∃ l' : List ℕ, (l.map g).sum = g i + (l'.map g).sum ∧ l'.length + 1 = l.length ∧ ∀ x ∈ l', x ∈ l := by
  have := List.perm_cons_erase hi
  refine ⟨l.erase i, ?_, ?_, fun x hx => List.mem_of_mem_erase hx⟩
  · rw [(this.map g).sum_eq]; simp
  · rw [List.length_erase_of_mem hi]
    have := List.length_pos_of_mem hi
    omega

/-- Smoothing cannot wipe out a field: where a component is largest in size, it keeps its sign. -/
theorem smooth_ne_zero (n : ℕ) (a : ℕ → ℕ → ℝ) (i j : ℕ) (hi : i < n) (hj : j < n) (h0 : a i j ≠ 0)
    (hmax : ∀ x y, x < n → y < n → |a x y| ≤ |a i j|) : smoothVal n a i j ≠ 0 := by
  have hnd : ∀ k, (window n k).Nodup := fun k => List.Nodup.filter _ List.nodup_range
  obtain ⟨l1, e1, e2, e3⟩ := list_sum_mem (window n i) (hnd i) (fun x => ((window n j).map fun y => a x y).sum) (self_mem_window hi)
  obtain ⟨l2, e4, e5, e6⟩ := list_sum_mem (window n j) (hnd j) (fun y => a i y) (self_mem_window hj)
  have hM : 0 < |a i j| := abs_pos.2 h0
  have w1 := window_length n i
  have w2 := window_length n j
  have b2 : |(l2.map fun y => a i y).sum| ≤ 3 * |a i j| := by
    refine (list_sum_bound l2 _ |a i j| fun y hy => hmax i y hi (mem_window.1 (e6 y hy)).1).trans ?_
    have : (l2.length : ℝ) ≤ 3 := by exact_mod_cast (by omega : l2.length ≤ 3)
    exact mul_le_mul_of_nonneg_right this hM.le
  have b1 : |(l1.map fun x => ((window n j).map fun y => a x y).sum).sum| ≤ 12 * |a i j| := by
    refine (list_sum_bound l1 _ (4 * |a i j|) fun x hx => ?_).trans ?_
    · refine (list_sum_bound _ _ |a i j| fun y hy => hmax x y (mem_window.1 (e3 x hx)).1 (mem_window.1 hy).1).trans ?_
      have : ((window n j).length : ℝ) ≤ 4 := by exact_mod_cast w2
      exact mul_le_mul_of_nonneg_right this hM.le
    · have : (l1.length : ℝ) ≤ 3 := by exact_mod_cast (by omega : l1.length ≤ 3)
      nlinarith
  unfold smoothVal
  have hden : ((windowCount n i j : ℝ) + (20 - 1)) ≠ 0 := by positivity
  rw [div_ne_zero_iff]
  refine ⟨fun hz => ?_, hden⟩
  unfold windowSum at hz
  rw [e1, e4] at hz
  have : 20 * a i j = -((l2.map fun y => a i y).sum + (l1.map fun x => ((window n j).map fun y => a x y).sum).sum) := by linarith
  have h20 : 20 * |a i j| = |(l2.map fun y => a i y).sum + (l1.map fun x => ((window n j).map fun y => a x y).sum).sum| := by
    rw [← abs_neg ((l2.map fun y => a i y).sum + _), ← this, abs_mul]
    norm_num
  have := abs_add_le (l2.map fun y => a i y).sum (l1.map fun x => ((window n j).map fun y => a x y).sum).sum
  linarith

/-- Smoothing a field with a non-zero vector always succeeds: the result has largest magnitude 1 and is the smoothed mean up to one
positive factor. -/
theorem C57_smoothed (f : Field) (i₀ j₀ : ℕ) (hi : i₀ < f.mesh.n) (hj : j₀ < f.mesh.n) (h0 : f.vx i₀ j₀ ≠ 0 ∨ f.vy i₀ j₀ ≠ 0) :
    ∃ g, f.smoothed = .ok (some g) ∧ g.mesh = f.mesh ∧
      (∃ k > 0, ∀ i j, i < f.mesh.n → j < f.mesh.n →
        g.vx i j = mean f.mesh.n (weight f.mesh.n i j) f.vx * k ∧ g.vy i j = mean f.mesh.n (weight f.mesh.n i j) f.vy * k) ∧
      (∀ i j, i < f.mesh.n → j < f.mesh.n → g.mag i j ≤ 1) ∧ ∃ i j, i < f.mesh.n ∧ j < f.mesh.n ∧ g.mag i j = 1 := by
  have key : ∀ a : ℕ → ℕ → ℝ, a i₀ j₀ ≠ 0 → ∃ i j, i < f.mesh.n ∧ j < f.mesh.n ∧ smoothVal f.mesh.n a i j ≠ 0 := by
    intro a ha
    obtain ⟨i, j, h1, h2, h3⟩ := amax_mem (by omega : 0 < f.mesh.n) fun x y => |a x y|
    have hmax : ∀ x y, x < f.mesh.n → y < f.mesh.n → |a x y| ≤ |a i j| := by
      intro x y hx hy
      rw [← h3]
      exact amax_ge (a := fun x y => |a x y|) hx hy
    refine ⟨i, j, h1, h2, smooth_ne_zero _ _ _ _ h1 h2 (fun e => ?_) hmax⟩
    have := hmax i₀ j₀ hi hj
    rw [e, abs_zero] at this
    exact ha (abs_eq_zero.1 (le_antisymm this (abs_nonneg _)))
  obtain ⟨i, j, h1, h2, h3⟩ : ∃ i j, i < f.mesh.n ∧ j < f.mesh.n ∧
      (smoothVal f.mesh.n f.vx i j ≠ 0 ∨ smoothVal f.mesh.n f.vy i j ≠ 0) := by
    rcases h0 with h | h
    · obtain ⟨i, j, a, b, c⟩ := key _ h
      exact ⟨i, j, a, b, Or.inl c⟩
    · obtain ⟨i, j, a, b, c⟩ := key _ h
      exact ⟨i, j, a, b, Or.inr c⟩
  obtain ⟨g, g1, g2, ⟨k, g3, g4⟩, g5, g6⟩ := C57_normalized ⟨f.mesh, smoothVal f.mesh.n f.vx, smoothVal f.mesh.n f.vy⟩ i j h1 h2 h3
  refine ⟨g, g1, g2, ⟨k, g3, fun i j hi hj => ?_⟩, g5, g6⟩
  rw [← smoothVal_mean _ _ _ _ hi hj, ← smoothVal_mean _ _ _ _ hi hj]
  exact g4 i j

/-- The window is not centred: the vector two steps before counts, the one two steps after does not. -/
theorem C57_window_counterexample (n i j : ℕ) (hi : 2 ≤ i) (h : i + 2 < n) (hj : j < n) :
    0 < weight n i j (i - 2) j ∧ weight n i j (i + 2) j = 0 := by
  have hn : i < n := by omega
  obtain ⟨-, h2, -, h4⟩ := C57_smooth_mean n (fun _ _ => 0) i j hn hj
  refine ⟨(h4 _ _).2 ⟨⟨by omega, by omega⟩, by omega, by omega⟩, ?_⟩
  by_contra hne
  have := (h4 (i + 2) j).1 (lt_of_le_of_ne (h2 _ _) (Ne.symm hne))
  have := this.1.2
  omega

end X7.VF
