import Verif.Props.FillSide
import Verif.Lemmas.AreaCurve
import Mathlib.Algebra.BigOperators.Group.Finset.Basic

noncomputable section

namespace X7.Elem
open X7.Utils (distPt)
open Classical

theorem onSeg_half {a b y : Pt ℝ} {u v c : ℝ} (ha : u * a.x + v * a.y ≤ c) (hb : u * b.x + v * b.y ≤ c) (hy : OnSeg a b y) : u * y.x + v * y.y ≤ c := by
  obtain ⟨w, w0, w1, rfl⟩ := hy
  simp only
  nlinarith [mul_nonneg w0 (sub_nonneg.2 hb), mul_nonneg (sub_nonneg.2 w1) (sub_nonneg.2 ha)]

/-- The point of a line that is nearest to `p`. -/
theorem nearest (p a b : Pt ℝ) : ∃ q, OnSeg a b q ∧ (p.x - q.x) * a.x + (p.y - q.y) * a.y ≤ (p.x - q.x) * q.x + (p.y - q.y) * q.y ∧
    (p.x - q.x) * b.x + (p.y - q.y) * b.y ≤ (p.x - q.x) * q.x + (p.y - q.y) * q.y := by
  by_cases h1 : (p.x - a.x) * (b.x - a.x) + (p.y - a.y) * (b.y - a.y) ≤ 0
  · exact ⟨a, onSeg_start a b, le_rfl, by linarith⟩
  by_cases h2 : 0 ≤ (p.x - b.x) * (b.x - a.x) + (p.y - b.y) * (b.y - a.y)
  · exact ⟨b, onSeg_end a b, by linarith, le_rfl⟩
  push Not at h1 h2
  set d := (b.x - a.x) ^ 2 + (b.y - a.y) ^ 2 with hd
  have e : (p.x - a.x) * (b.x - a.x) + (p.y - a.y) * (b.y - a.y) = (p.x - b.x) * (b.x - a.x) + (p.y - b.y) * (b.y - a.y) + d := by rw [hd]; ring
  have d0 : 0 < d := by linarith
  set w := ((p.x - a.x) * (b.x - a.x) + (p.y - a.y) * (b.y - a.y)) / d with hw
  have hwd : w * d = (p.x - a.x) * (b.x - a.x) + (p.y - a.y) * (b.y - a.y) := div_mul_cancel₀ _ d0.ne'
  have w0 : 0 ≤ w := div_nonneg h1.le d0.le
  have w1 : w ≤ 1 := by rw [hw, div_le_one d0]; linarith
  clear_value w
  have hz : (p.x - (a.x + w * (b.x - a.x))) * (b.x - a.x) + (p.y - (a.y + w * (b.y - a.y))) * (b.y - a.y) = 0 := by
    rw [hd] at hwd
    linarith
  refine ⟨⟨a.x + w * (b.x - a.x), a.y + w * (b.y - a.y)⟩, ⟨w, w0, w1, rfl⟩, ?_, ?_⟩ <;> simp only
  · have := congrArg (w * ·) hz
    simp only [mul_zero] at this
    linarith
  · have := congrArg ((1 - w) * ·) hz
    simp only [mul_zero] at this
    linarith

/-- A straight line between `p` and all points that are close to the line from `a` to `b`. -/
theorem apart_line {p a b : Pt ℝ} {δ : ℝ} (h0 : 0 ≤ δ) (h : ∀ x, OnSeg a b x → δ < distPt p x) :
    ∃ u v c, (∀ x y, OnSeg a b y → distPt x y ≤ δ → u * x.x + v * x.y ≤ c) ∧ c < u * p.x + v * p.y := by
  obtain ⟨q, hq, qa, qb⟩ := nearest p a b
  set N := distPt p q with hN
  have hlt : δ < N := h q hq
  have hsq : N ^ 2 = (p.x - q.x) ^ 2 + (p.y - q.y) ^ 2 := Real.sq_sqrt (by positivity)
  refine ⟨p.x - q.x, p.y - q.y, (p.x - q.x) * q.x + (p.y - q.y) * q.y + N * δ, fun x y hy hx => ?_, ?_⟩
  · have h1 := onSeg_half qa qb hy
    have hd : distPt x y ^ 2 = (x.x - y.x) ^ 2 + (x.y - y.y) ^ 2 := Real.sq_sqrt (by positivity)
    have h2 : (p.x - q.x) * (x.x - y.x) + (p.y - q.y) * (x.y - y.y) ≤ N * distPt x y := by
      have hd0 : 0 ≤ distPt x y := Real.sqrt_nonneg _
      refine (abs_le_of_sq_le_sq' ?_ (mul_nonneg (h0.trans hlt.le) hd0)).2
      rw [mul_pow, hsq, hd]
      nlinarith [sq_nonneg ((p.x - q.x) * (x.y - y.y) - (p.y - q.y) * (x.x - y.x))]
    have h3 : N * distPt x y ≤ N * δ := mul_le_mul_of_nonneg_left hx (h0.trans hlt.le)
    linarith
  · nlinarith [mul_lt_mul_of_pos_left hlt (lt_of_le_of_lt h0 hlt)]

theorem not_covers {pts : List (Pt ℝ)} {p : Pt ℝ} (h : ¬ Covers pts p) : cyc (crossing p) pts = 0 := by
  rw [covers_iff] at h
  generalize cyc (crossing p) pts = z at h
  revert z
  decide

/-- Points near the line from the first to the last of them cross as that line does. -/
theorem run_near_line {p a b : Pt ℝ} {δ : ℝ} (h0 : 0 ≤ δ) (h : ∀ x, OnSeg a b x → δ < distPt p x) (l : List (Pt ℝ))
    (hl : ∀ x ∈ l, ∃ y, OnSeg a b y ∧ distPt x y ≤ δ) : run (crossing p) (a :: l ++ [b]) = crossing p a b := by
  obtain ⟨u, v, c, hc, hp⟩ := apart_line h0 h
  have hz : ∀ x : Pt ℝ, distPt x x = 0 := fun x => by simp [distPt]
  have hn : ¬ Covers (a :: (l ++ [b])) p := fun hcov => by
    have := C131_hull _ p u v c (fun x hx => by
      rw [List.mem_cons, List.mem_append, List.mem_singleton] at hx
      rcases hx with rfl | hx | rfl
      · exact hc x x (onSeg_start _ _) (by rw [hz]; exact h0)
      · obtain ⟨y, h1, h2⟩ := hl x hx
        exact hc x y h1 h2
      · exact hc x x (onSeg_end _ _) (by rw [hz]; exact h0)) hcov
    linarith
  have := not_covers hn
  rw [cyc_cons, show a :: (l ++ [b]) ++ [a] = (a :: l) ++ [b] ++ [a] by simp, run_glue] at this
  simp only [run, add_zero] at this
  rw [crossing_comm p b a] at this
  have h2 : ∀ y z : ZMod 2, y + z = 0 → y = z := by decide
  exact h2 _ _ this

/-- A side and the side it moves to. -/
theorem crossing_near {p a b a' b' : Pt ℝ} {δ : ℝ} (h : ∀ x, OnSeg a b x → δ < distPt p x) (ha : distPt a a' ≤ δ) (hb : distPt b b' ≤ δ) :
    crossing p a b = crossing p a' b' + (crossing p a a' + crossing p b b') := by
  have h0 : 0 ≤ δ := (Real.sqrt_nonneg _).trans ha
  have hcomm : ∀ x y : Pt ℝ, distPt x y = distPt y x := fun x y => by
    simp only [distPt]; rw [sub_sq_comm, sub_sq_comm (Pt.y _)]
  have := run_near_line h0 h [a', b'] (by
    intro x hx
    simp only [List.mem_cons, List.not_mem_nil, or_false] at hx
    rcases hx with rfl | rfl
    · exact ⟨a, onSeg_start _ _, by rw [hcomm]; exact ha⟩
    · exact ⟨b, onSeg_end _ _, by rw [hcomm]; exact hb⟩)
  simp only [List.cons_append, List.nil_append, run, add_zero] at this
  rw [← this, crossing_comm p b' b]
  abel

theorem run_near {p z z' : Pt ℝ} {δ : ℝ} (hz : distPt z z' ≤ δ) {l l' : List (Pt ℝ)} (hl : List.Forall₂ (fun a b => distPt a b ≤ δ) l l') :
    ∀ a a', distPt a a' ≤ δ → (∀ e ∈ (a :: l).zip (l ++ [z]), ∀ x, OnSeg e.1 e.2 x → δ < distPt p x) →
      run (crossing p) (a :: l ++ [z]) = run (crossing p) (a' :: l' ++ [z']) + (crossing p a a' + crossing p z z') := by
  induction hl with
  | nil =>
    intro a a' ha h
    simpa [run] using crossing_near (h (a, z) (by simp)) ha hz
  | cons hb hl ih =>
    rename_i b b' l l'
    intro a a' ha h
    have h1 := ih b b' hb fun e he => h e (by simp only [List.cons_append, List.zip_cons_cons, List.mem_cons]; exact .inr he)
    have h2 := crossing_near (h (a, b) (by simp)) ha hb
    simp only [List.cons_append, run] at h1 ⊢
    rw [h1, h2]
    have h3 : ∀ x : ZMod 2, x + x = 0 := by decide
    have := h3 (crossing p b b')
    linear_combination this

theorem covers_near {p : Pt ℝ} {δ : ℝ} {pts pts' : List (Pt ℝ)} (hl : List.Forall₂ (fun a b => distPt a b ≤ δ) pts pts')
    (h : ∀ x, OnSide pts x → δ < distPt p x) : Covers pts p ↔ Covers pts' p := by
  cases hl with
  | nil => rfl
  | cons ha hl =>
    rename_i a a' l l'
    have := run_near ha hl a a' ha fun e he x hx => h x ⟨e, by simpa using he, hx⟩
    have h3 : ∀ x : ZMod 2, x + x = 0 := by decide
    rw [covers_iff, covers_iff, cyc_cons, cyc_cons, this, h3, add_zero]

/-! ### Number of steps -/

theorem run_range {A : Type*} [AddCommGroup A] (Φ : Pt ℝ → Pt ℝ → A) (g : ℕ → Pt ℝ) (k : ℕ) :
    run Φ ((List.range (k + 1)).map g) = ∑ i ∈ Finset.range k, Φ (g i) (g (i + 1)) := by
  induction k generalizing g with
  | zero => simp [run]
  | succ k ih =>
    have := ih (fun i => g (i + 1))
    rw [List.range_succ_eq_map] at this
    rw [List.range_succ_eq_map (n := k + 1), List.range_succ_eq_map (n := k), Finset.sum_range_succ', add_comm]
    simp only [List.map_cons, List.map_map, Function.comp_def, Nat.succ_eq_add_one, run] at this ⊢
    rw [this]

theorem run_tails {A : Type*} [AddCommGroup A] (Φ : Pt ℝ → Pt ℝ → A) {n : ℕ} (hn : 1 ≤ n) : ∀ (ss : List (Poly4 ℝ)) (b : Pt ℝ), (∀ s, ss[0]? = some s → b = s.a) →
    (∀ k s s', ss[k]? = some s → ss[k + 1]? = some s' → s.d = s'.a) →
    run Φ (b :: ss.flatMap fun s => (Approx.samples n s).tail) = (ss.map fun s => run Φ (Approx.samples n s)).sum
  | [], b, _, _ => by simp [run]
  | s :: ss, b, h0, hj => by
    obtain ⟨⟨q, hq⟩, r, hr⟩ := Approx.samples_ends hn s
    have ih := run_tails Φ hn ss s.d (fun s' hs' => hj 0 s s' rfl hs') (fun k x y hx hy => hj (k + 1) x y hx hy)
    have e : b :: (s :: ss).flatMap (fun s => (Approx.samples n s).tail) = r ++ [s.d] ++ ss.flatMap fun s => (Approx.samples n s).tail := by
      rw [← hr, h0 s rfl, List.flatMap_cons, hq]; rfl
    rw [e, run_glue, ih, ← hr, List.map_cons, List.sum_cons]

/-- The crossings of a drawn path are those of its segments and of the line that closes it. -/
theorem cyc_pathOf {A : Type*} [AddCommGroup A] (Φ : Pt ℝ → Pt ℝ → A) {n : ℕ} (hn : 1 ≤ n) (s : Poly4 ℝ) (ss : List (Poly4 ℝ))
    (hj : ∀ k x y, (s :: ss)[k]? = some x → (s :: ss)[k + 1]? = some y → x.d = y.a) :
    cyc Φ (pathOf n (s :: ss)) = ((s :: ss).map fun s => run Φ (Approx.samples n s)).sum + Φ ((ss.getLast?.map Poly4.d).getD s.d) s.a := by
  rw [← run_tails Φ hn (s :: ss) s.a (fun s' h => by cases h; rfl) hj]
  obtain ⟨⟨q, hq⟩, r, hr⟩ := Approx.samples_ends hn s
  have hp' : pathOf n (s :: ss) = s.a :: (q ++ ss.flatMap fun s => (Approx.samples n s).tail) := by
    rw [← List.cons_append, ← hq]; rfl
  have hp : pathOf n (s :: ss) = r ++ [s.d] ++ ss.flatMap fun s => (Approx.samples n s).tail := by
    rw [← hr]; rfl
  obtain ⟨-, p', h2⟩ := Approx.chain_path hn ss r s.d (fun s' hs' => hj 0 s s' rfl hs') (fun k x y hx hy => hj (k + 1) x y hx hy)
  have e : s.a :: (s :: ss).flatMap (fun s => (Approx.samples n s).tail) = pathOf n (s :: ss) := by
    rw [hp', List.flatMap_cons, hq]; rfl
  rw [e, hp', cyc_cons, ← hp', hp, h2, run_glue]
  simp [run]

theorem samples_refined {p : Pt ℝ} {s : Poly4 ℝ} {n k : ℕ} (hn : 1 ≤ n) (hk : 1 ≤ k) {M : ℝ} (hM : Approx.bend s ≤ M)
    (hp : ∀ i : ℕ, i < n → ∀ x, OnSeg (s.at' ((i : ℝ) / n)) (s.at' (((i + 1 : ℕ) : ℝ) / n)) x → 3 / 4 * M / n ^ 2 < distPt p x) :
    run (crossing p) (Approx.samples (n * k) s) = run (crossing p) (Approx.samples n s) := by
  have hn0 : (0 : ℝ) < n := by exact_mod_cast hn
  have hk0 : (0 : ℝ) < k := by exact_mod_cast hk
  have hM0 : 0 ≤ M := (Approx.bend_nonneg s).trans hM
  rw [Approx.samples, Approx.samples, run_range, run_range]
  have grp : ∀ m : ℕ, m ≤ n → (∑ j ∈ Finset.range (m * k), crossing p (s.at' ((j : ℝ) / ((n * k : ℕ) : ℝ))) (s.at' (((j + 1 : ℕ) : ℝ) / ((n * k : ℕ) : ℝ)))) =
      ∑ i ∈ Finset.range m, crossing p (s.at' ((i : ℝ) / n)) (s.at' (((i + 1 : ℕ) : ℝ) / n)) := by
    intro m
    induction m with
    | zero => simp
    | succ m ih =>
      intro hm
      rw [Nat.succ_mul, Finset.sum_range_add, ih (by omega), Finset.sum_range_succ]
      congr 1
      obtain ⟨k', rfl⟩ : ∃ k', k = k' + 1 := ⟨k - 1, by omega⟩
      let g : ℕ → Pt ℝ := fun j => s.at' (((m * (k' + 1) + j : ℕ) : ℝ) / ((n * (k' + 1) : ℕ) : ℝ))
      have g0 : g 0 = s.at' ((m : ℝ) / n) := by
        simp only [g]; congr 1; push_cast; field_simp; ring
      have g1 : g (k' + 1) = s.at' (((m + 1 : ℕ) : ℝ) / n) := by
        simp only [g]; congr 1; push_cast; field_simp
      have hs : ∑ x ∈ Finset.range (k' + 1), crossing p (s.at' (((m * (k' + 1) + x : ℕ) : ℝ) / ((n * (k' + 1) : ℕ) : ℝ)))
          (s.at' (((m * (k' + 1) + x + 1 : ℕ) : ℝ) / ((n * (k' + 1) : ℕ) : ℝ))) = run (crossing p) ((List.range (k' + 1 + 1)).map g) := by
        rw [run_range]; rfl
      rw [hs, List.range_succ, List.range_succ_eq_map, List.map_append, List.map_cons, List.map_cons, List.map_nil, g0, g1]
      refine run_near_line (δ := 3 / 4 * M / n ^ 2) (by positivity) (hp m (by omega)) _ ?_
      intro x hx
      simp only [List.mem_map, List.mem_range] at hx
      obtain ⟨_, ⟨j, hj, rfl⟩, rfl⟩ := hx
      have hv1 : ((j.succ : ℕ) : ℝ) / ((k' + 1 : ℕ) : ℝ) ≤ 1 := by
        rw [div_le_one hk0]; exact_mod_cast (by omega : j + 1 ≤ k' + 1)
      have hc := Approx.chord_close s (a := (m : ℝ) / n) (h := 1 / n) (v := ((j.succ : ℕ) : ℝ) / ((k' + 1 : ℕ) : ℝ)) (M := M) (by positivity) (by positivity)
        (by rw [← add_div, div_le_one hn0]; exact_mod_cast hm) (by positivity) hv1 hM
      have ea : (m : ℝ) / n + 1 / n = ((m + 1 : ℕ) : ℝ) / n := by push_cast; rw [add_div]
      have eg : g j.succ = s.at' ((m : ℝ) / n + ((j.succ : ℕ) : ℝ) / ((k' + 1 : ℕ) : ℝ) * (1 / n)) := by
        simp only [g]; congr 1; push_cast; field_simp
      rw [← eg, ea] at hc
      refine ⟨_, ⟨_, by positivity, hv1, rfl⟩, hc.trans (le_of_eq ?_)⟩
      field_simp
  exact grp n le_rfl

end X7.Elem
