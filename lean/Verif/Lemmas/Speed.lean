import Verif.Spec.Speed
import Verif.Props.AnimTime
import Verif.Lemmas.CurveLength
import Mathlib.Analysis.SpecialFunctions.Trigonometric.Bounds

noncomputable section

namespace X7.Anim
open X7.Utils (distPt)
open X7.Approx (nrm distPt_nrm nrm_add nrm_smul nrm_nonneg nrm_dir dot_le)

theorem gentle_knots {L : ℝ} {curve : List (ℝ × ℝ)} (h : Gentle L curve) {i j : ℕ} {a b : ℝ × ℝ} (hij : i ≤ j)
    (ha : curve[i]? = some a) (hb : curve[j]? = some b) : a.1 ≤ b.1 ∧ |b.2 - a.2| ≤ L * (b.1 - a.1) := by
  induction j, hij using Nat.le_induction generalizing b with
  | base =>
    rw [ha] at hb; cases hb
    simp
  | succ j hij ih =>
    have hj : j < curve.length := by
      have := (List.getElem?_eq_some_iff.1 hb).1; omega
    obtain ⟨k1, k2⟩ := ih (List.getElem?_eq_getElem hj)
    obtain ⟨k3, k4⟩ := h j _ _ (List.getElem?_eq_getElem hj) hb
    refine ⟨by linarith, ?_⟩
    have := abs_add_le (b.2 - curve[j].2) (curve[j].2 - a.2)
    rw [show b.2 - curve[j].2 + (curve[j].2 - a.2) = b.2 - a.2 by ring] at this
    linarith

theorem gentle_ordered {L : ℝ} {curve : List (ℝ × ℝ)} (h : Gentle L curve) : Ordered curve := by
  rw [Ordered, List.pairwise_iff_getElem]
  intro i j hi hj hij
  exact (gentle_knots h hij.le (List.getElem?_eq_getElem hi) (List.getElem?_eq_getElem hj)).1

/-- One piece. -/
theorem piece {L t v : ℝ} {a b : ℝ × ℝ} (hab : a.1 < b.1) (hL : |b.2 - a.2| ≤ L * (b.1 - a.1)) (h1 : a.1 ≤ t) (h2 : t < b.1)
    (hv : v = a.2 + (t - a.1) / (b.1 - a.1) * (b.2 - a.2)) : |v - a.2| ≤ L * (t - a.1) ∧ |b.2 - v| ≤ L * (b.1 - t) := by
  have hd : 0 < b.1 - a.1 := by linarith
  have k : ∀ x, 0 ≤ x → |x / (b.1 - a.1) * (b.2 - a.2)| ≤ L * x := by
    intro x hx
    rw [abs_mul, abs_of_nonneg (div_nonneg hx hd.le), div_mul_eq_mul_div, div_le_iff₀ hd]
    calc x * |b.2 - a.2| ≤ x * (L * (b.1 - a.1)) := mul_le_mul_of_nonneg_left hL hx
      _ = _ := by ring
  constructor
  · rw [hv, add_sub_cancel_left]; exact k _ (by linarith)
  · have e : b.2 - v = (b.1 - t) / (b.1 - a.1) * (b.2 - a.2) := by
      rw [hv]; field_simp; ring
    rw [e]; exact k _ (by linarith)

theorem poly_slow {L : ℝ} (L0 : 0 ≤ L) {curve : List (ℝ × ℝ)} (h : Gentle L curve) {t t' v v' : ℝ} (htt : t ≤ t') (hv : PolyAt curve t v)
    (hv' : PolyAt curve t' v') : |v' - v| ≤ L * (t' - t) := by
  have tri : ∀ x y z : ℝ, |x - z| ≤ |x - y| + |y - z| := fun x y z => abs_sub_le x y z
  have mono : ∀ {x y : ℝ}, x ≤ y → L * x ≤ L * y := fun h => mul_le_mul_of_nonneg_left h L0
  have last : ∀ {k : ℝ × ℝ}, curve.getLast? = some k → curve[curve.length - 1]? = some k := fun h => by rwa [List.getLast?_eq_getElem?] at h
  have first : ∀ {k : ℝ × ℝ}, curve.head? = some k → curve[0]? = some k := fun h => by rwa [List.head?_eq_getElem?] at h
  have lt_len : ∀ {i : ℕ} {k : ℝ × ℝ}, curve[i]? = some k → i < curve.length := fun h => (List.getElem?_eq_some_iff.1 h).1
  rcases hv with ⟨k, hk, h1, rfl⟩ | ⟨k, hk, h1, rfl⟩ | ⟨i, a, b, ha, hb, h1, h2, e⟩
  · rcases hv' with ⟨k', hk', h1', rfl⟩ | ⟨k', hk', h1', rfl⟩ | ⟨i', a', b', ha', hb', h1', h2', e'⟩
    · rw [hk] at hk'; cases hk'
      simp only [sub_self, abs_zero]; exact mul_nonneg L0 (by linarith)
    · obtain ⟨q1, q2⟩ := gentle_knots h (Nat.zero_le _) (first hk) (last hk')
      exact q2.trans (mono (by linarith))
    · obtain ⟨q1, q2⟩ := gentle_knots h (Nat.zero_le _) (first hk) ha'
      obtain ⟨p1, p2⟩ := h _ _ _ ha' hb'
      have q3 := (piece p1 p2 h1' h2' e').1
      have := tri v' a'.2 k.2
      have := mono (show t' - k.1 ≤ t' - t by linarith)
      linarith
  · have hkl := last hk
    have lk := lt_len hkl
    rcases hv' with ⟨k', hk', h1', rfl⟩ | ⟨k', hk', h1', rfl⟩ | ⟨i', a', b', ha', hb', h1', h2', e'⟩
    · obtain ⟨q1, q2⟩ := gentle_knots h (Nat.zero_le _) (first hk') hkl
      linarith
    · rw [hk] at hk'; cases hk'
      simp only [sub_self, abs_zero]; exact mul_nonneg L0 (by linarith)
    · have := lt_len hb'
      obtain ⟨q1, q2⟩ := gentle_knots h (by omega) hb' hkl
      linarith
  · obtain ⟨p1, p2⟩ := h _ _ _ ha hb
    obtain ⟨q3, q4⟩ := piece p1 p2 h1 h2 e
    rcases hv' with ⟨k', hk', h1', rfl⟩ | ⟨k', hk', h1', rfl⟩ | ⟨i', a', b', ha', hb', h1', h2', e'⟩
    · obtain ⟨q1, q2⟩ := gentle_knots h (Nat.zero_le _) (first hk') ha
      linarith
    · have := lt_len hb
      obtain ⟨r1, r2⟩ := gentle_knots h (by omega) hb (last hk')
      have := tri k'.2 b.2 v
      have := mono (show k'.1 - t ≤ t' - t by linarith)
      linarith
    · obtain ⟨p1', p2'⟩ := h _ _ _ ha' hb'
      obtain ⟨q3', q4'⟩ := piece p1' p2' h1' h2' e'
      rcases lt_trichotomy i i' with hi | hi | hi
      · obtain ⟨r1, r2⟩ := gentle_knots h (by omega) hb ha'
        have := tri v' a'.2 v
        have := tri a'.2 b.2 v
        linarith
      · subst hi
        rw [ha] at ha'; rw [hb] at hb'
        cases ha'; cases hb'
        have hd : 0 < b.1 - a.1 := by linarith
        have e2 : v' - v = (t' - t) / (b.1 - a.1) * (b.2 - a.2) := by rw [e, e']; field_simp; ring
        rw [e2, abs_mul, abs_of_nonneg (div_nonneg (by linarith) hd.le), div_mul_eq_mul_div, div_le_iff₀ hd]
        calc (t' - t) * |b.2 - a.2| ≤ (t' - t) * (L * (b.1 - a.1)) := mul_le_mul_of_nonneg_left p2 (by linarith)
          _ = _ := by ring
      · obtain ⟨r1, r2⟩ := gentle_knots h (by omega) hb' ha
        linarith

theorem poly_slow' {L : ℝ} (L0 : 0 ≤ L) {curve : List (ℝ × ℝ)} (h : Gentle L curve) {t t' v v' : ℝ} (hv : PolyAt curve t v)
    (hv' : PolyAt curve t' v') : |v - v'| ≤ L * |t - t'| := by
  rcases le_total t t' with ht | ht
  · rw [abs_sub_comm v, abs_sub_comm t, abs_of_nonneg (by linarith : 0 ≤ t' - t)]; exact poly_slow L0 h ht hv hv'
  · rw [abs_of_nonneg (by linarith : 0 ≤ t - t')]; exact poly_slow L0 h ht hv' hv

theorem abs_sin_sub (x y : ℝ) : |Real.sin x - Real.sin y| ≤ |x - y| := by
  rw [Real.sin_sub_sin]
  have h1 := Real.abs_sin_le_abs (x := (x - y) / 2)
  have h2 := Real.abs_cos_le_one ((x + y) / 2)
  rw [abs_mul, abs_mul, abs_two]
  rw [abs_div, abs_two] at h1
  have := abs_nonneg (Real.sin ((x - y) / 2))
  nlinarith [abs_nonneg (Real.cos ((x + y) / 2)), abs_nonneg (x - y)]

theorem abs_cos_sub (x y : ℝ) : |Real.cos x - Real.cos y| ≤ |x - y| := by
  have := abs_sin_sub (Real.pi / 2 - x) (Real.pi / 2 - y)
  rw [Real.sin_pi_div_two_sub, Real.sin_pi_div_two_sub] at this
  rwa [show Real.pi / 2 - x - (Real.pi / 2 - y) = -(x - y) by ring, abs_neg] at this

theorem abs_sin_sq_sub (x y : ℝ) : |Real.sin x ^ 2 - Real.sin y ^ 2| ≤ |x - y| := by
  have h := abs_cos_sub (2 * x) (2 * y)
  have e : Real.sin x ^ 2 - Real.sin y ^ 2 = (Real.cos (2 * y) - Real.cos (2 * x)) / 2 := by
    rw [Real.cos_two_mul, Real.cos_two_mul]
    linear_combination Real.sin_sq_add_cos_sq x - Real.sin_sq_add_cos_sq y
  rw [e, abs_div, abs_two, abs_sub_comm]
  rw [show 2 * x - 2 * y = 2 * (x - y) by ring, abs_mul, abs_two] at h
  linarith

theorem reads_unique {h : PH.Heap ℝ} {g : ℕ} {q q' : Pt ℝ} (hq : PH.Reads h g q) (hq' : PH.Reads h g q') : q = q' := by
  have huniq : ∀ q', PH.Reads h g q' → q' = q := by
    intro q' h'
    clear hq'
    induction h' generalizing q with
    | point e => cases hq with
      | point e' => rw [e] at e'; injection e' with e'; injection e' with a b c; rw [a, b]
      | rel e' => rw [e] at e'; cases e'
      | pcalc e' => rw [e] at e'; cases e'
    | rel e _ ih => cases hq with
      | point e' => rw [e] at e'; cases e'
      | rel e' r' => rw [e] at e'; injection e' with e'; injection e' with a b c d; subst a b c; rw [ih r']
      | pcalc e' => rw [e] at e'; cases e'
    | pcalc e e2 _ ih => cases hq with
      | point e' => rw [e] at e'; cases e'
      | rel e' => rw [e] at e'; cases e'
      | pcalc e' e2' r' =>
        rw [e] at e'; injection e' with e'; injection e' with a b c; subst a b
        rw [e2] at e2'; injection e2' with e2'; injection e2' with a b c d; subst a b c; rw [ih r']
  exact (huniq _ hq').symm

theorem between_dist (o q : Pt ℝ) {sx sy sx' sy' K : ℝ} (hx : |sx - sx'| ≤ K) (hy : |sy - sy'| ≤ K) :
    distPt (between o q sx sy) (between o q sx' sy') ≤ K * distPt o q := by
  have K0 : 0 ≤ K := (abs_nonneg _).trans hx
  simp only [distPt, between]
  rw [show K * √((o.x - q.x) ^ 2 + (o.y - q.y) ^ 2) = √(K ^ 2 * ((o.x - q.x) ^ 2 + (o.y - q.y) ^ 2)) by
    rw [Real.sqrt_mul (sq_nonneg K), Real.sqrt_sq K0]]
  apply Real.sqrt_le_sqrt
  have h1 : (sx - sx') ^ 2 ≤ K ^ 2 := sq_le_sq' (by linarith [(abs_le.1 hx).1]) (abs_le.1 hx).2
  have h2 : (sy - sy') ^ 2 ≤ K ^ 2 := sq_le_sq' (by linarith [(abs_le.1 hy).1]) (abs_le.1 hy).2
  have e : (o.x + sx * (q.x - o.x) - (o.x + sx' * (q.x - o.x))) ^ 2 + (o.y + sy * (q.y - o.y) - (o.y + sy' * (q.y - o.y))) ^ 2 =
      (sx - sx') ^ 2 * (o.x - q.x) ^ 2 + (sy - sy') ^ 2 * (o.y - q.y) ^ 2 := by ring
  rw [e, mul_add]
  exact add_le_add (mul_le_mul_of_nonneg_right h1 (sq_nonneg _)) (mul_le_mul_of_nonneg_right h2 (sq_nonneg _))

theorem circle_dist (o : Pt ℝ) (r a b : ℝ) :
    distPt ⟨o.x + r * Real.sin a, o.y + r * Real.cos a⟩ ⟨o.x + r * Real.sin b, o.y + r * Real.cos b⟩ ≤ |r| * |a - b| := by
  simp only [distPt]
  apply Real.sqrt_le_iff.2
  refine ⟨by positivity, ?_⟩
  have e : (o.x + r * Real.sin a - (o.x + r * Real.sin b)) ^ 2 + (o.y + r * Real.cos a - (o.y + r * Real.cos b)) ^ 2 =
      r ^ 2 * (2 - 2 * Real.cos (a - b)) := by
    rw [Real.cos_sub]
    linear_combination r ^ 2 * (Real.sin_sq_add_cos_sq a + Real.sin_sq_add_cos_sq b)
  rw [e, mul_pow, sq_abs, sq_abs]
  have := Real.one_sub_sq_div_two_le_cos (x := a - b)
  exact mul_le_mul_of_nonneg_left (by linarith) (sq_nonneg r)

/-! ### Curves -/

theorem bern_dist {s s' : Poly4 ℝ} {K t : ℝ} (t0 : 0 ≤ t) (t1 : t ≤ 1) (ha : distPt s.a s'.a ≤ K) (hb : distPt s.b s'.b ≤ K)
    (hc : distPt s.c s'.c ≤ K) (hd : distPt s.d s'.d ≤ K) : distPt (s.at' t) (s'.at' t) ≤ K := by
  rw [distPt_nrm]
  obtain ⟨w, w1, w2⟩ := nrm_dir ⟨(s'.at' t).x - (s.at' t).x, (s'.at' t).y - (s.at' t).y⟩
  rw [w2]
  have k : ∀ p q : Pt ℝ, distPt p q ≤ K → w.x * (q.x - p.x) + w.y * (q.y - p.y) ≤ K := by
    intro p q h
    have := dot_le w ⟨q.x - p.x, q.y - p.y⟩
    rw [w1, one_mul, ← distPt_nrm] at this
    exact this.trans h
  have u0 : 0 ≤ 1 - t := by linarith
  have ka := mul_le_mul_of_nonneg_left (k _ _ ha) (pow_nonneg u0 3)
  have kb := mul_le_mul_of_nonneg_left (k _ _ hb) (by positivity : 0 ≤ 3 * (1 - t) ^ 2 * t)
  have kc := mul_le_mul_of_nonneg_left (k _ _ hc) (by positivity : 0 ≤ 3 * (1 - t) * t ^ 2)
  have kd := mul_le_mul_of_nonneg_left (k _ _ hd) (by positivity : 0 ≤ t ^ 3)
  simp only [Poly4.at', bern]
  nlinarith [ka, kb, kc, kd]

theorem segs_apart {K : ℝ} (closed : Bool) {cps cps' : List (CP ℝ)} (h : List.Forall₂ (Apart K) cps cps') :
    List.Forall₂ (fun s s' : Poly4 ℝ => ∀ t, 0 ≤ t → t ≤ 1 → distPt (s.at' t) (s'.at' t) ≤ K) (segs closed cps) (segs closed cps') := by
  have hz : ∀ {l1 l1' l2 l2' : List (CP ℝ)}, List.Forall₂ (Apart K) l1 l1' → List.Forall₂ (Apart K) l2 l2' →
      List.Forall₂ (fun s s' : Poly4 ℝ => ∀ t, 0 ≤ t → t ≤ 1 → distPt (s.at' t) (s'.at' t) ≤ K) (List.zipWith seg l1 l2)
        (List.zipWith seg l1' l2') := by
    intro l1 l1' l2 l2' h1
    induction h1 generalizing l2 l2' with
    | nil => intro _; simp
    | cons ha _ ih =>
      intro h2
      cases h2 with
      | nil => simp
      | cons hb hr => exact .cons (fun t t0 t1 => bern_dist t0 t1 ha.1 ha.2.2 hb.2.1 hb.1) (ih hr)
  cases closed
  · refine hz h ?_
    cases h with
    | nil => exact .nil
    | cons _ hr => exact hr
  · refine hz h ?_
    cases h with
    | nil => exact .nil
    | cons ha hr =>
      simp only [List.rotate_cons_succ, List.rotate_zero]
      exact List.rel_append hr (.cons ha .nil)

theorem pathOf_apart {K : ℝ} (n : ℕ) {ss ss' : List (Poly4 ℝ)}
    (h : List.Forall₂ (fun s s' : Poly4 ℝ => ∀ t, 0 ≤ t → t ≤ 1 → distPt (s.at' t) (s'.at' t) ≤ K) ss ss') :
    List.Forall₂ (fun p q => distPt p q ≤ K) (pathOf n ss) (pathOf n ss') := by
  have one : ∀ s s' : Poly4 ℝ, (∀ t, 0 ≤ t → t ≤ 1 → distPt (s.at' t) (s'.at' t) ≤ K) →
      List.Forall₂ (fun p q => distPt p q ≤ K) ((List.range (n + 1)).map fun (i : ℕ) => s.at' ((i : ℝ) / n))
        ((List.range (n + 1)).map fun (i : ℕ) => s'.at' ((i : ℝ) / n)) := by
    intro s s' hs
    rw [List.forall₂_map_left_iff, List.forall₂_map_right_iff, List.forall₂_same]
    intro i hi
    rw [List.mem_range] at hi
    refine hs _ (by positivity) (div_le_one_of_le₀ (by exact_mod_cast (by omega : i ≤ n)) (by positivity))
  cases h with
  | nil => exact .nil
  | cons ha hr =>
    refine List.rel_append (one _ _ ha) ?_
    rename_i l l'
    induction hr with
    | nil => exact .nil
    | cons hb _ ih =>
      simp only [List.flatMap_cons]
      refine List.rel_append ?_ ih
      have tl : ∀ {l l' : List (Pt ℝ)}, List.Forall₂ (fun p q => distPt p q ≤ K) l l' → List.Forall₂ (fun p q => distPt p q ≤ K) l.tail l'.tail := by
        intro l l' h
        cases h with
        | nil => exact .nil
        | cons _ h => exact h
      exact tl (one _ _ hb)

/-! ### Blends -/

theorem npInterp_lin {α : Type} (xp : List ℝ) (l : List α) (f : Fin 6 → α → ℝ) (c : Fin 6 → ℝ) (x : ℝ) :
    npInterp xp (l.map fun y => ∑ k, c k * f k y) x = ∑ k, c k * npInterp xp (l.map (f k)) x := by
  have e : ∀ i, (l.map fun y => ∑ k, c k * f k y).getD i 0 = ∑ k, c k * (l.map (f k)).getD i 0 := by
    intro i
    simp only [List.getD_eq_getElem?_getD, List.getElem?_map]
    cases l[i]? <;> simp
  simp only [npInterp, e]
  split_ifs
  · rfl
  · rfl
  · simp only [Fin.sum_univ_six]; ring

end X7.Anim
