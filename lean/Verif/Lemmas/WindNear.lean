import Verif.Props.FillCorners

/-!
How often a drawn curve goes around a point does not depend on the number of points, away from the curve.
-/

open MeasureTheory Set
open X7.Utils (distPt)
open X7.Approx (bend)

noncomputable section

namespace X7.Elem

theorem sense_comm (p a b : Pt ℝ) : sense p b a = -sense p a b := by
  rcases lt_or_ge p.y a.y with ha | ha <;> rcases lt_or_ge p.y b.y with hb | hb
  · have h1 : ¬ Crosses p a b := fun h => by simp [Crosses, ha, hb] at h
    have h2 : ¬ Crosses p b a := fun h => by simp [Crosses, ha, hb] at h
    simp [sense, h1, h2]
  · have hne : b.y ≠ a.y := by intro h; linarith
    rw [sense_up ⟨hb, ha⟩, sense_down ⟨hb, ha⟩]
    have e : xAt b a p.y = xAt a b p.y := by
      unfold xAt
      have h1 : a.y - b.y ≠ 0 := sub_ne_zero.2 hne.symm
      have h2 : b.y - a.y ≠ 0 := sub_ne_zero.2 hne
      field_simp
      ring
    rw [e]
    split_ifs <;> simp
  · have hne : b.y ≠ a.y := by intro h; linarith
    rw [sense_up ⟨ha, hb⟩, sense_down ⟨ha, hb⟩]
    have e : xAt b a p.y = xAt a b p.y := by
      unfold xAt
      have h1 : a.y - b.y ≠ 0 := sub_ne_zero.2 hne.symm
      have h2 : b.y - a.y ≠ 0 := sub_ne_zero.2 hne
      field_simp
      ring
    rw [e]
    split_ifs <;> simp
  · have h1 : ¬ Crosses p a b := fun h => by simp [Crosses, not_lt.2 ha, not_lt.2 hb] at h
    have h2 : ¬ Crosses p b a := fun h => by simp [Crosses, not_lt.2 ha, not_lt.2 hb] at h
    simp [sense, h1, h2]

theorem xAt_half {p a b : Pt ℝ} {u v c : ℝ} (ha : u * a.x + v * a.y ≤ c) (hb : u * b.x + v * b.y ≤ c)
    (h : (a.y ≤ p.y ∧ p.y < b.y) ∨ (b.y ≤ p.y ∧ p.y < a.y)) : u * xAt a b p.y + v * p.y ≤ c := by
  have hne : b.y - a.y ≠ 0 := by rcases h with h | h <;> intro h' <;> linarith
  have hw : ∃ w, w = (p.y - a.y) / (b.y - a.y) := ⟨_, rfl⟩
  obtain ⟨w, hw⟩ := hw
  have hw' : w * (b.y - a.y) = p.y - a.y := by rw [hw, div_mul_cancel₀ _ hne]
  have w01 : 0 ≤ w ∧ w ≤ 1 := by
    rcases h with h | h
    · have : 0 < b.y - a.y := by linarith
      constructor <;> nlinarith
    · have : b.y - a.y < 0 := by linarith
      constructor <;> nlinarith
  have := onSeg_half (y := ⟨a.x + w * (b.x - a.x), a.y + w * (b.y - a.y)⟩) ha hb ⟨w, w01.1, w01.2, rfl⟩
  simp only at this
  rw [hw', show a.y + (p.y - a.y) = p.y by ring] at this
  rw [xAt, ← hw]
  exact this

open Classical in
/-- A polygon in a half plane goes around no point outside of it. -/
theorem winding_half (pts : List (Pt ℝ)) (p : Pt ℝ) (u v c : ℝ) (h : ∀ x ∈ pts, u * x.x + v * x.y ≤ c) (hp : c < u * p.x + v * p.y) : winding pts p = 0 := by
  have hm : ∀ e ∈ pts.zip (pts.rotate 1), u * e.1.x + v * e.1.y ≤ c ∧ u * e.2.x + v * e.2.y ≤ c := fun e he =>
    ⟨h _ (List.of_mem_zip he).1, h _ (by simpa using (List.of_mem_zip he).2)⟩
  have out : ∀ e ∈ pts.zip (pts.rotate 1), (e.1.y ≤ p.y ∧ p.y < e.2.y) ∨ (e.2.y ≤ p.y ∧ p.y < e.1.y) → u * xAt e.1 e.2 p.y < u * p.x := by
    intro e he hc
    have := xAt_half (hm e he).1 (hm e he).2 hc
    linarith
  rcases lt_or_ge u 0 with hu | hu
  · rw [winding, ← up_down_sum pts p.y]
    congr 1
    refine List.map_congr_left fun e he => ?_
    have ho := out e he
    rcases lt_or_ge p.y e.1.y with ha | ha <;> rcases lt_or_ge p.y e.2.y with hb | hb
    · have h1 : ¬ Crosses p e.1 e.2 := fun h => by simp [Crosses, ha, hb] at h
      simp [sense, h1, ha, hb]
    · have hx : p.x < xAt e.1 e.2 p.y := by have := ho (Or.inr ⟨hb, ha⟩); nlinarith
      rw [sense_down ⟨hb, ha⟩, if_pos hx]
      simp [ha, not_lt.2 hb]
    · have hx : p.x < xAt e.1 e.2 p.y := by have := ho (Or.inl ⟨ha, hb⟩); nlinarith
      rw [sense_up ⟨ha, hb⟩, if_pos hx]
      simp [not_lt.2 ha, hb]
    · have h1 : ¬ Crosses p e.1 e.2 := fun h => by simp [Crosses, not_lt.2 ha, not_lt.2 hb] at h
      simp [sense, h1, not_lt.2 ha, not_lt.2 hb]
  · rw [winding]
    refine List.sum_eq_zero fun z hz => ?_
    obtain ⟨e, he, rfl⟩ := List.mem_map.1 hz
    have ho := out e he
    rcases lt_or_ge p.y e.1.y with ha | ha <;> rcases lt_or_ge p.y e.2.y with hb | hb
    · have h1 : ¬ Crosses p e.1 e.2 := fun h => by simp [Crosses, ha, hb] at h
      simp [sense, h1]
    · have hx : ¬ p.x < xAt e.1 e.2 p.y := fun hh => by have := ho (Or.inr ⟨hb, ha⟩); nlinarith
      rw [sense_down ⟨hb, ha⟩, if_neg hx]
    · have hx : ¬ p.x < xAt e.1 e.2 p.y := fun hh => by have := ho (Or.inl ⟨ha, hb⟩); nlinarith
      rw [sense_up ⟨ha, hb⟩, if_neg hx]
    · have h1 : ¬ Crosses p e.1 e.2 := fun h => by simp [Crosses, not_lt.2 ha, not_lt.2 hb] at h
      simp [sense, h1]

/-- Points near the line from the first to the last of them go around as that line does. -/
theorem run_near_sense {p a b : Pt ℝ} {δ : ℝ} (h0 : 0 ≤ δ) (h : ∀ x, OnSeg a b x → δ < distPt p x) (l : List (Pt ℝ))
    (hl : ∀ x ∈ l, ∃ y, OnSeg a b y ∧ distPt x y ≤ δ) : run (sense p) (a :: l ++ [b]) = sense p a b := by
  obtain ⟨u, v, c, hc, hp⟩ := apart_line h0 h
  have hz : ∀ x : Pt ℝ, distPt x x = 0 := fun x => by simp [distPt]
  have := winding_half (a :: (l ++ [b])) p u v c (fun x hx => by
      rw [List.mem_cons, List.mem_append, List.mem_singleton] at hx
      rcases hx with rfl | hx | rfl
      · exact hc x x (onSeg_start _ _) (by rw [hz]; exact h0)
      · obtain ⟨y, h1, h2⟩ := hl x hx
        exact hc x y h1 h2
      · exact hc x x (onSeg_end _ _) (by rw [hz]; exact h0)) hp
  rw [winding_cyc, cyc_cons, show a :: (l ++ [b]) ++ [a] = (a :: l) ++ [b] ++ [a] by simp, run_glue] at this
  simp only [run, add_zero] at this
  rw [sense_comm p a b] at this
  linarith

theorem samples_sense {p : Pt ℝ} {s : Poly4 ℝ} {n k : ℕ} (hn : 1 ≤ n) (hk : 1 ≤ k) {M : ℝ} (hM : Approx.bend s ≤ M)
    (hp : ∀ i : ℕ, i < n → ∀ x, OnSeg (s.at' ((i : ℝ) / n)) (s.at' (((i + 1 : ℕ) : ℝ) / n)) x → 3 / 4 * M / n ^ 2 < distPt p x) :
    run (sense p) (Approx.samples (n * k) s) = run (sense p) (Approx.samples n s) := by
  have hn0 : (0 : ℝ) < n := by exact_mod_cast hn
  have hk0 : (0 : ℝ) < k := by exact_mod_cast hk
  have hM0 : 0 ≤ M := (Approx.bend_nonneg s).trans hM
  rw [Approx.samples, Approx.samples, run_range, run_range]
  have grp : ∀ m : ℕ, m ≤ n → (∑ j ∈ Finset.range (m * k), sense p (s.at' ((j : ℝ) / ((n * k : ℕ) : ℝ))) (s.at' (((j + 1 : ℕ) : ℝ) / ((n * k : ℕ) : ℝ)))) =
      ∑ i ∈ Finset.range m, sense p (s.at' ((i : ℝ) / n)) (s.at' (((i + 1 : ℕ) : ℝ) / n)) := by
    intro m
    induction m with
    | zero => simp
    | succ m ih =>
      intro hm
      rw [Nat.succ_mul, Finset.sum_range_add, ih (by omega), Finset.sum_range_succ]
      congr 1
      obtain ⟨k', rfl⟩ : ∃ k', k = k' + 1 := ⟨k - 1, by omega⟩
      let g : ℕ → Pt ℝ := fun j => s.at' (((m * (k' + 1) + j : ℕ) : ℝ) / ((n * (k' + 1) : ℕ) : ℝ))
      have g0 : g 0 = s.at' ((m : ℝ) / n) := by
        simp only [g]; congr 1; push_cast; field_simp; ring
      have g1 : g (k' + 1) = s.at' (((m + 1 : ℕ) : ℝ) / n) := by
        simp only [g]; congr 1; push_cast; field_simp
      have hs : ∑ x ∈ Finset.range (k' + 1), sense p (s.at' (((m * (k' + 1) + x : ℕ) : ℝ) / ((n * (k' + 1) : ℕ) : ℝ)))
          (s.at' (((m * (k' + 1) + x + 1 : ℕ) : ℝ) / ((n * (k' + 1) : ℕ) : ℝ))) = run (sense p) ((List.range (k' + 1 + 1)).map g) := by
        rw [run_range]; rfl
      rw [hs, List.range_succ, List.range_succ_eq_map, List.map_append, List.map_cons, List.map_cons, List.map_nil, g0, g1]
      refine run_near_sense (δ := 3 / 4 * M / n ^ 2) (by positivity) (hp m (by omega)) _ ?_
      intro x hx
      simp only [List.mem_map, List.mem_range] at hx
      obtain ⟨_, ⟨j, hj, rfl⟩, rfl⟩ := hx
      have hv1 : ((j.succ : ℕ) : ℝ) / ((k' + 1 : ℕ) : ℝ) ≤ 1 := by
        rw [div_le_one hk0]; exact_mod_cast (by omega : j + 1 ≤ k' + 1)
      have hc := Approx.chord_close s (a := (m : ℝ) / n) (h := 1 / n) (v := ((j.succ : ℕ) : ℝ) / ((k' + 1 : ℕ) : ℝ)) (M := M) (by positivity) (by positivity)
        (by rw [← add_div, div_le_one hn0]; exact_mod_cast hm) (by positivity) hv1 hM
      have ea : (m : ℝ) / n + 1 / n = ((m + 1 : ℕ) : ℝ) / n := by push_cast; rw [add_div]
      have eg : g j.succ = s.at' ((m : ℝ) / n + ((j.succ : ℕ) : ℝ) / ((k' + 1 : ℕ) : ℝ) * (1 / n)) := by
        simp only [g]; congr 1; push_cast; field_simp
      rw [← eg, ea] at hc
      refine ⟨_, ⟨_, by positivity, hv1, rfl⟩, hc.trans (le_of_eq ?_)⟩
      field_simp
  exact grp n le_rfl

theorem winding_refined {ss : List (Poly4 ℝ)} (hj : ∀ k s s', ss[k]? = some s → ss[k + 1]? = some s' → s.d = s'.a) {M : ℝ}
    (hM : ∀ s ∈ ss, bend s ≤ M) {n k : ℕ} (hn : 1 ≤ n) (hk : 1 ≤ k) {p : Pt ℝ} (hp : ∀ q ∈ Approx.traced ss, 3 / 2 * M / n ^ 2 < distPt p q) :
    winding (pathOf (n * k) ss) p = winding (pathOf n ss) p := by
  cases ss with
  | nil => rfl
  | cons s ss =>
    rw [winding_cyc, winding_cyc, cyc_pathOf _ (Nat.mul_pos hn hk) s ss hj, cyc_pathOf _ hn s ss hj]
    rw [List.map_congr_left fun s' hs' => samples_sense hn hk (hM s' hs') (far_chord hn (hM s' hs') fun t t0 t1 => hp _ ⟨s', hs', t, t0, t1, rfl⟩)]

theorem winding_steps {ss : List (Poly4 ℝ)} (hj : ∀ k s s', ss[k]? = some s → ss[k + 1]? = some s' → s.d = s'.a) {M : ℝ}
    (hM : ∀ s ∈ ss, bend s ≤ M) {n n' : ℕ} (hn : 1 ≤ n) (hn' : n ≤ n') {p : Pt ℝ} (hp : ∀ q ∈ Approx.traced ss, 3 / 2 * M / n ^ 2 < distPt p q) :
    winding (pathOf n ss) p = winding (pathOf n' ss) p := by
  have hn0 : (0 : ℝ) < n := by exact_mod_cast hn
  have hle : (n : ℝ) ≤ n' := by exact_mod_cast hn'
  rw [← winding_refined hj hM hn (hn.trans hn') hp, ← winding_refined hj hM (hn.trans hn') hn fun q hq => lt_of_le_of_lt ?_ (hp q hq), Nat.mul_comm]
  have hM0 : 0 ≤ M := by
    obtain ⟨s, hs, -⟩ := hq
    exact (Approx.bend_nonneg s).trans (hM s hs)
  gcongr

end X7.Elem
