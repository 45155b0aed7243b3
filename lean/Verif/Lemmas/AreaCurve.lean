import Verif.Spec.AreaCurve
import Verif.Lemmas.Area
import Verif.Lemmas.Approx
import Mathlib.MeasureTheory.Integral.IntervalIntegral.FundThmCalculus
import Mathlib.Analysis.Calculus.Deriv.Pow
import Mathlib.Analysis.Calculus.Deriv.Add
import Mathlib.Analysis.Calculus.Deriv.Mul

namespace X7.Approx

theorem at_x (s : Poly4 ℝ) (t : ℝ) :
    (s.at' t).x = s.a.x + (Poly4.c1 s).x * t + (Poly4.c2 s).x * t ^ 2 + (Poly4.c3 s).x * t ^ 3 := by
  simp only [Poly4.at', bern, Poly4.c1, Poly4.c2, Poly4.c3]; ring

theorem at_y (s : Poly4 ℝ) (t : ℝ) :
    (s.at' t).y = s.a.y + (Poly4.c1 s).y * t + (Poly4.c2 s).y * t ^ 2 + (Poly4.c3 s).y * t ^ 3 := by
  simp only [Poly4.at', bern, Poly4.c1, Poly4.c2, Poly4.c3]; ring

theorem cubic_deriv (a b c d t : ℝ) :
    HasDerivAt (fun u : ℝ => a + b * u + c * u ^ 2 + d * u ^ 3) (b + c * (2 * t) + d * (3 * t ^ 2)) t := by
  have h1 := (hasDerivAt_id t).const_mul b
  have h2 := (hasDerivAt_pow 2 t).const_mul c
  have h3 := (hasDerivAt_pow 3 t).const_mul d
  have := ((h1.const_add a).add h2).add h3
  refine this.congr_deriv ?_
  norm_num

theorem quintic_integral (p0 p1 p2 p3 p4 : ℝ) :
    (∫ t in (0 : ℝ)..1, (p0 + p1 * t + p2 * t ^ 2 + p3 * t ^ 3 + p4 * t ^ 4)) = p0 + p1 / 2 + p2 / 3 + p3 / 4 + p4 / 5 := by
  have hd : ∀ t ∈ Set.uIcc (0 : ℝ) 1, HasDerivAt
      (fun t : ℝ => p0 * t + p1 / 2 * t ^ 2 + p2 / 3 * t ^ 3 + p3 / 4 * t ^ 4 + p4 / 5 * t ^ 5)
      (p0 + p1 * t + p2 * t ^ 2 + p3 * t ^ 3 + p4 * t ^ 4) t := by
    intro t _
    have h := ((((hasDerivAt_id t).const_mul p0).add ((hasDerivAt_pow 2 t).const_mul (p1 / 2))).add
      ((hasDerivAt_pow 3 t).const_mul (p2 / 3))).add ((hasDerivAt_pow 4 t).const_mul (p3 / 4))
    refine (h.add ((hasDerivAt_pow 5 t).const_mul (p4 / 5))).congr_deriv ?_
    norm_num
    ring
  rw [intervalIntegral.integral_eq_sub_of_hasDerivAt hd]
  · norm_num
  · exact (by fun_prop : Continuous fun t : ℝ => p0 + p1 * t + p2 * t ^ 2 + p3 * t ^ 3 + p4 * t ^ 4).intervalIntegrable 0 1

theorem swept_eq (s : Poly4 ℝ) :
    swept s = (cr s.a (Poly4.c1 s) + cr s.a (Poly4.c2 s) + cr s.a (Poly4.c3 s) + cr (Poly4.c1 s) (Poly4.c2 s) / 3 +
      cr (Poly4.c1 s) (Poly4.c3 s) / 2 + cr (Poly4.c2 s) (Poly4.c3 s) / 5) / 2 := by
  have e : ∀ t : ℝ, (s.at' t).x * deriv (fun u => (s.at' u).y) t - (s.at' t).y * deriv (fun u => (s.at' u).x) t =
      cr s.a (Poly4.c1 s) + 2 * cr s.a (Poly4.c2 s) * t + (3 * cr s.a (Poly4.c3 s) + cr (Poly4.c1 s) (Poly4.c2 s)) * t ^ 2 +
        2 * cr (Poly4.c1 s) (Poly4.c3 s) * t ^ 3 + cr (Poly4.c2 s) (Poly4.c3 s) * t ^ 4 := by
    intro t
    simp only [at_x, at_y]
    rw [(cubic_deriv _ _ _ _ t).deriv, (cubic_deriv _ _ _ _ t).deriv]
    simp only [cr]
    ring
  simp only [swept, e]
  rw [quintic_integral]
  ring

/-- Cross products along a segment, summed over `k` steps of width `h`. -/
theorem steps_sum (s : Poly4 ℝ) (h : ℝ) (k : ℕ) :
    ((List.range k).map fun (i : ℕ) => crs (s.at' (i * h)) (s.at' ((i + 1 : ℕ) * h))).sum =
      cr s.a (Poly4.c1 s) * (k * h) + cr s.a (Poly4.c2 s) * (k * h) ^ 2 + cr s.a (Poly4.c3 s) * (k * h) ^ 3 +
      cr (Poly4.c1 s) (Poly4.c2 s) * ((k * h) ^ 3 - h ^ 2 * (k * h)) / 3 +
      cr (Poly4.c1 s) (Poly4.c3 s) * ((k * h) ^ 4 - h ^ 2 * (k * h) ^ 2) / 2 +
      cr (Poly4.c2 s) (Poly4.c3 s) * ((k * h) ^ 5 / 5 - h ^ 2 * (k * h) ^ 3 / 3 + 2 * h ^ 4 * (k * h) / 15) := by
  induction k with
  | zero => simp
  | succ k ih =>
    rw [List.range_succ, List.map_append, List.sum_append, ih]
    simp only [List.map_cons, List.map_nil, List.sum_cons, List.sum_nil, add_zero, crs, at_x, at_y, cr]
    push_cast
    ring

theorem chain_range (g : ℕ → Pt ℝ) (k : ℕ) :
    chain ((List.range (k + 1)).map g) = ((List.range k).map fun i => crs (g i) (g (i + 1))).sum := by
  induction k generalizing g with
  | zero => simp [chain]
  | succ k ih =>
    have := ih (fun i => g (i + 1))
    rw [List.range_succ_eq_map] at this
    rw [List.range_succ_eq_map (n := k + 1), List.range_succ_eq_map (n := k)]
    simp only [List.map_cons, List.map_map, Function.comp_def, Nat.succ_eq_add_one, List.sum_cons, chain] at this ⊢
    rw [this]

/-- Two paths that meet. -/
theorem chain_glue (p q : List (Pt ℝ)) (b : Pt ℝ) : chain (p ++ [b] ++ q) = chain (p ++ [b]) + chain (b :: q) := by
  cases p with
  | nil => simp [chain]
  | cons a p =>
    have := chain_append a b p q
    simpa using this

/-- The samples of a segment. -/
noncomputable def samples (n : ℕ) (s : Poly4 ℝ) : List (Pt ℝ) := (List.range (n + 1)).map fun (i : ℕ) => s.at' ((i : ℝ) / n)

theorem samples_ends {n : ℕ} (hn : 1 ≤ n) (s : Poly4 ℝ) :
    (∃ q, samples n s = s.a :: q) ∧ ∃ p, samples n s = p ++ [s.d] := by
  have hp : (n : ℝ) ≠ 0 := by exact_mod_cast (by omega : n ≠ 0)
  constructor
  · refine ⟨_, by rw [samples, List.range_succ_eq_map, List.map_cons]; congr 1; simp [Poly4.at', bern_zero]⟩
  · refine ⟨_, by rw [samples, List.range_succ, List.map_append]; congr 1; simp [Poly4.at', div_self hp, bern_one]⟩

theorem chain_samples {n : ℕ} (hn : 1 ≤ n) (s : Poly4 ℝ) :
    chain (samples n s) / 2 = swept s - err2 s / n ^ 2 + err4 s / n ^ 4 := by
  have hp : (n : ℝ) ≠ 0 := by exact_mod_cast (by omega : n ≠ 0)
  rw [samples, chain_range]
  have := steps_sum s (1 / n) n
  simp only [mul_one_div] at this
  rw [this, div_self hp, swept_eq, err2, err4]
  field_simp
  ring

theorem chain_path {n : ℕ} (hn : 1 ≤ n) : ∀ (ss : List (Poly4 ℝ)) (p : List (Pt ℝ)) (b : Pt ℝ),
    (∀ s, ss[0]? = some s → b = s.a) → (∀ k s s', ss[k]? = some s → ss[k + 1]? = some s' → s.d = s'.a) →
    chain (p ++ [b] ++ ss.flatMap fun s => (samples n s).tail) = chain (p ++ [b]) + (ss.map fun s => chain (samples n s)).sum ∧
      ∃ p', p ++ [b] ++ (ss.flatMap fun s => (samples n s).tail) = p' ++ [(ss.getLast?.map Poly4.d).getD b]
  | [], p, b, _, _ => by simp
  | s :: ss, p, b, h0, hj => by
    obtain ⟨⟨q, hq⟩, r, hr⟩ := samples_ends hn s
    have hb : b = s.a := h0 s rfl
    have hne : q ≠ [] := by
      intro hq0
      have : (samples n s).length = 1 := by rw [hq, hq0]; rfl
      simp [samples] at this
      omega
    have hqd : q = q.dropLast ++ [s.d] := by
      have h1 := List.dropLast_append_getLast hne
      have h2 : (samples n s).getLast? = some s.d := by rw [hr]; simp
      rw [hq, List.getLast?_cons, List.getLast?_eq_getLast_of_ne_nil hne] at h2
      simp only [Option.getD_some, Option.some.injEq] at h2
      rw [h2] at h1
      exact h1.symm
    obtain ⟨i1, p', i2⟩ := chain_path hn ss (p ++ [b] ++ q.dropLast) s.d (fun s' hs' => hj 0 s s' rfl hs')
      (fun k x y hx hy => hj (k + 1) x y hx hy)
    have e : p ++ [b] ++ ((s :: ss).flatMap fun s => (samples n s).tail) =
        p ++ [b] ++ q.dropLast ++ [s.d] ++ ss.flatMap fun s => (samples n s).tail := by
      rw [List.flatMap_cons, hq, List.tail_cons]
      conv_lhs => rw [hqd]
      simp only [List.append_assoc]
    have e2 : chain (p ++ [b] ++ q.dropLast ++ [s.d]) = chain (p ++ [b]) + chain (samples n s) := by
      rw [List.append_assoc, ← hqd, chain_glue, hq, hb]
    refine ⟨?_, p', ?_⟩
    · rw [e, i1, e2, List.map_cons, List.sum_cons]
      ring
    · rw [e, i2]
      cases ss with
      | nil => simp
      | cons x l => simp [List.getLast?_cons]

theorem chain_closed (p : List (Pt ℝ)) (a : Pt ℝ) (l : List (Pt ℝ)) (h : a :: l = p ++ [a]) :
    polygonArea (a :: l) = chain (a :: l) / 2 := by
  rw [polygonArea_cons, h, chain_glue]
  simp [chain, crs, mul_comm]

theorem pathOf_area {n : ℕ} (hn : 1 ≤ n) (s : Poly4 ℝ) (ss : List (Poly4 ℝ))
    (hj : ∀ k x y, (s :: ss)[k]? = some x → (s :: ss)[k + 1]? = some y → x.d = y.a)
    (hc : ((s :: ss).getLast (by simp)).d = s.a) :
    polygonArea (pathOf n (s :: ss)) =
      enclosed (s :: ss) - ((s :: ss).map err2).sum / n ^ 2 + ((s :: ss).map err4).sum / n ^ 4 := by
  obtain ⟨⟨q, hq⟩, r, hr⟩ := samples_ends hn s
  obtain ⟨h1, p', h2⟩ := chain_path hn ss r s.d (fun s' hs' => hj 0 s s' rfl hs') (fun k x y hx hy => hj (k + 1) x y hx hy)
  have hp : pathOf n (s :: ss) = r ++ [s.d] ++ ss.flatMap fun s => (samples n s).tail := by
    rw [← hr]; rfl
  have hp' : pathOf n (s :: ss) = s.a :: (q ++ ss.flatMap fun s => (samples n s).tail) := by
    rw [← List.cons_append, ← hq]; rfl
  have hlast : (ss.getLast?.map Poly4.d).getD s.d = s.a := by
    rw [← hc]
    cases ss with
    | nil => simp
    | cons x l => simp [List.getLast?_eq_getLast_of_ne_nil]
  have key : polygonArea (pathOf n (s :: ss)) = chain (pathOf n (s :: ss)) / 2 := by
    rw [hp']
    apply chain_closed p'
    rw [← hp', hp, h2, hlast]
  have tot : ∀ l : List (Poly4 ℝ), (l.map fun s => chain (samples n s)).sum / 2 =
      enclosed l - (l.map err2).sum / n ^ 2 + (l.map err4).sum / n ^ 4 := by
    intro l
    induction l with
    | nil => simp [enclosed]
    | cons x l ih =>
      simp only [enclosed, List.map_cons, List.sum_cons] at ih ⊢
      have := chain_samples hn x
      linear_combination ih + this
  rw [key, hp, h1, ← hr]
  exact tot (s :: ss)

end X7.Approx
