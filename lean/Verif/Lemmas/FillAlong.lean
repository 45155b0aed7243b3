import Verif.Props.FillNear
import Verif.Props.CurveLength

/-!
The crossings of a ray with the points sampled on a part of a curve depend only on the ends of the part, for rays from points that are not near the curve.
-/

noncomputable section

namespace X7.Elem
open X7.Utils (distPt)
open X7.Approx (bend)
open Classical

theorem two_zmod (x : ZMod 2) : x + x = 0 := by revert x; decide

section
variable {p : Pt ℝ} {s : Poly4 ℝ} {M h : ℝ}

theorem cross_mid (h0 : 0 < h) (hM : bend s ≤ M) (hp : ∀ t, 0 ≤ t → t ≤ 1 → 6 * M * h ^ 2 < distPt p (s.at' t)) {x y z : ℝ} (x0 : 0 ≤ x) (xy : x ≤ y) (yz : y ≤ z)
    (z1 : z ≤ 1) (hz : z - x ≤ 2 * h) :
    crossing p (s.at' x) (s.at' y) + crossing p (s.at' y) (s.at' z) + crossing p (s.at' x) (s.at' z) = 0 := by
  have hM0 : 0 ≤ M := (Approx.bend_nonneg s).trans hM
  have hsq : 3 / 4 * M * (z - x) ^ 2 ≤ 3 * M * h ^ 2 := by
    have : (z - x) ^ 2 ≤ (2 * h) ^ 2 := pow_le_pow_left₀ (by linarith) hz 2
    nlinarith [mul_le_mul_of_nonneg_left this hM0]
  have close : ∀ v, 0 ≤ v → v ≤ 1 → distPt (s.at' (x + v * (z - x))) (Approx.between (s.at' x) (s.at' z) v) ≤ 3 * M * h ^ 2 := by
    intro v v0 v1
    have := Approx.chord_close s (a := x) (h := z - x) (v := v) (M := M) x0 (by linarith) (by linarith) v0 v1 hM
    rw [show x + (z - x) = z by ring] at this
    exact this.trans hsq
  have far : ∀ q, OnSeg (s.at' x) (s.at' z) q → 3 * M * h ^ 2 < distPt p q := by
    rintro q ⟨v, v0, v1, rfl⟩
    have w : v * (z - x) ≤ z - x := mul_le_of_le_one_left (by linarith) v1
    have w0 : 0 ≤ v * (z - x) := mul_nonneg v0 (by linarith)
    have hf := hp (x + v * (z - x)) (by linarith) (by linarith)
    have hc := close v v0 v1
    have ht := dist_tri p (Approx.between (s.at' x) (s.at' z) v) (s.at' (x + v * (z - x)))
    rw [Approx.distPt_comm] at hc
    simp only [Approx.between] at hc ht
    linarith
  have near : ∃ q, OnSeg (s.at' x) (s.at' z) q ∧ distPt (s.at' y) q ≤ 3 * M * h ^ 2 := by
    rcases eq_or_lt_of_le (xy.trans yz) with e | hlt
    · have : y = x := by linarith
      subst this
      exact ⟨_, onSeg_start _ _, by simp only [distPt, sub_self]; simp; positivity⟩
    · have hv1 : (y - x) / (z - x) ≤ 1 := by rw [div_le_one (by linarith)]; linarith
      have hv0 : 0 ≤ (y - x) / (z - x) := div_nonneg (by linarith) (by linarith)
      have := close _ hv0 hv1
      rw [div_mul_cancel₀ _ (by linarith : z - x ≠ 0), show x + (y - x) = y by ring] at this
      exact ⟨_, ⟨_, hv0, hv1, rfl⟩, this⟩
  have := run_near_line (l := [s.at' y]) (by positivity) far (by
    intro q hq
    rw [List.mem_singleton] at hq
    subst hq
    exact near)
  simp only [List.cons_append, List.nil_append, run, add_zero] at this
  rw [this, two_zmod]

theorem cross_three (h0 : 0 < h) (hM : bend s ≤ M) (hp : ∀ t, 0 ≤ t → t ≤ 1 → 6 * M * h ^ 2 < distPt p (s.at' t)) {x y z : ℝ} (hx : 0 ≤ x ∧ x ≤ 1) (hy : 0 ≤ y ∧ y ≤ 1)
    (hz : 0 ≤ z ∧ z ≤ 1) (xy : |x - y| ≤ 2 * h) (yz : |y - z| ≤ 2 * h) (xz : |x - z| ≤ 2 * h) :
    crossing p (s.at' x) (s.at' y) + crossing p (s.at' y) (s.at' z) + crossing p (s.at' x) (s.at' z) = 0 := by
  rw [abs_le] at xy yz xz
  have key := @cross_mid p s M h h0 hM hp
  have c := crossing_comm p
  rcases le_total x y with a | a <;> rcases le_total y z with b | b <;> rcases le_total x z with d | d
  · exact key hx.1 a b hz.2 (by linarith)
  · exact key hx.1 a b hz.2 (by linarith)
  · have := key hx.1 d b hy.2 (by linarith)
    rw [c (s.at' y) (s.at' z)]
    linear_combination this
  · have := key hz.1 d a hy.2 (by linarith)
    rw [c (s.at' y) (s.at' z), c (s.at' x) (s.at' z)]
    linear_combination this
  · have := key hy.1 a d hz.2 (by linarith)
    rw [c (s.at' x) (s.at' y)]
    linear_combination this
  · have := key hy.1 b d hx.2 (by linarith)
    rw [c (s.at' x) (s.at' y), c (s.at' x) (s.at' z)]
    linear_combination this
  · have := key hz.1 b a hx.2 (by linarith)
    rw [c (s.at' x) (s.at' y), c (s.at' x) (s.at' z), c (s.at' y) (s.at' z)]
    linear_combination this
  · have := key hz.1 b a hx.2 (by linarith)
    rw [c (s.at' x) (s.at' y), c (s.at' x) (s.at' z), c (s.at' y) (s.at' z)]
    linear_combination this

theorem potential (h0 : 0 < h) (hM : bend s ≤ M) (hp : ∀ t, 0 ≤ t → t ≤ 1 → 6 * M * h ^ 2 < distPt p (s.at' t)) :
    ∃ φ : ℝ → ZMod 2, ∀ u v, 0 ≤ u → u ≤ v → v ≤ 1 → v - u ≤ h → crossing p (s.at' u) (s.at' v) = φ u + φ v := by
  let F : ℝ → ℝ → ZMod 2 := fun u v => crossing p (s.at' u) (s.at' v)
  have three : ∀ {x y z : ℝ}, 0 ≤ x ∧ x ≤ 1 → 0 ≤ y ∧ y ≤ 1 → 0 ≤ z ∧ z ≤ 1 → |x - y| ≤ 2 * h → |y - z| ≤ 2 * h → |x - z| ≤ 2 * h → F x y + F y z + F x z = 0 :=
    fun a b c d e f => cross_three h0 hM hp a b c d e f
  refine ⟨fun u => (∑ i ∈ Finset.range ⌊u / h⌋₊, F (i * h) ((i + 1 : ℕ) * h)) + F (⌊u / h⌋₊ * h) u, fun u v u0 uv v1 hh => ?_⟩
  change F u v = _
  simp only
  have fl : ∀ w : ℝ, 0 ≤ w → (⌊w / h⌋₊ : ℝ) * h ≤ w ∧ w < (⌊w / h⌋₊ + 1 : ℝ) * h := by
    intro w w0
    have w1 : 0 ≤ w / h := by positivity
    constructor
    · have := Nat.floor_le w1
      rwa [le_div_iff₀ h0] at this
    · have := Nat.lt_floor_add_one (w / h)
      rwa [div_lt_iff₀ h0] at this
  obtain ⟨k1, k2⟩ := fl u u0
  obtain ⟨l1, l2⟩ := fl v (u0.trans uv)
  have hk : ⌊u / h⌋₊ ≤ ⌊v / h⌋₊ := Nat.floor_mono (by gcongr)
  have hk' : ⌊v / h⌋₊ ≤ ⌊u / h⌋₊ + 1 := by
    by_contra hc
    push Not at hc
    have : ((⌊u / h⌋₊ + 2 : ℕ) : ℝ) ≤ ⌊v / h⌋₊ := by exact_mod_cast hc
    push_cast at this
    have := mul_le_mul_of_nonneg_right this h0.le
    linarith
  generalize ⌊u / h⌋₊ = k at *
  generalize ⌊v / h⌋₊ = l at *
  have kn : (0 : ℝ) ≤ (k : ℝ) * h := by positivity
  obtain rfl | rfl : l = k ∨ l = k + 1 := by omega
  · have := three (x := l * h) (y := u) (z := v) ⟨kn, by linarith⟩ ⟨u0, by linarith⟩ ⟨by linarith, v1⟩ (by rw [abs_le]; constructor <;> linarith)
      (by rw [abs_le]; constructor <;> linarith) (by rw [abs_le]; constructor <;> linarith)
    linear_combination this - two_zmod (∑ i ∈ Finset.range l, F (i * h) ((i + 1 : ℕ) * h)) - two_zmod (F (l * h) u) - two_zmod (F (l * h) v)
  · rw [Finset.sum_range_succ]
    have e : (((k + 1 : ℕ) : ℝ)) * h = k * h + h := by push_cast; ring
    rw [e] at l1 ⊢
    have l3 : v < k * h + 2 * h := by push_cast at l2; linarith
    have k3 : u < k * h + h := by linarith
    have g : 0 ≤ (k : ℝ) * h + h := by linarith
    have t1 := three (x := k * h) (y := u) (z := k * h + h) ⟨kn, by linarith⟩ ⟨u0, by linarith⟩ ⟨g, by linarith⟩ (by rw [abs_le]; constructor <;> linarith)
      (by rw [abs_le]; constructor <;> linarith) (by rw [abs_le]; constructor <;> linarith)
    have t2 := three (x := u) (y := k * h + h) (z := v) ⟨u0, by linarith⟩ ⟨g, by linarith⟩ ⟨by linarith, v1⟩ (by rw [abs_le]; constructor <;> linarith)
      (by rw [abs_le]; constructor <;> linarith) (by rw [abs_le]; constructor <;> linarith)
    linear_combination t1 + t2 - two_zmod (∑ i ∈ Finset.range k, F (i * h) ((i + 1 : ℕ) * h)) - two_zmod (F u (k * h + h)) - two_zmod (F (k * h) u)
      - two_zmod (F (k * h) (k * h + h)) - two_zmod (F (k * h + h) v)

end

/-! ### Parts -/

/-- The part of `S` from the parameter `a` to the parameter `b`. -/
def Part (S : Poly4 ℝ) (a b : ℝ) (P : Poly4 ℝ) : Prop := ∀ u, P.at' u = S.at' (a + u * (b - a))

/-- The quantity of a part of `S` is a difference (modulo two) of values at the ends of the part. -/
def Pot (Q : Poly4 ℝ → ZMod 2) (S : Poly4 ℝ) : Prop := ∃ φ : ℝ → ZMod 2, ∀ P a b, 0 ≤ a → a ≤ b → b ≤ 1 → Part S a b P → Q P = φ a + φ b

theorem Pot.part {Q : Poly4 ℝ → ZMod 2} {S P : Poly4 ℝ} {a b : ℝ} (h : Pot Q S) (a0 : 0 ≤ a) (ab : a ≤ b) (b1 : b ≤ 1) (hP : Part S a b P) : Pot Q P := by
  obtain ⟨φ, hφ⟩ := h
  refine ⟨fun u => φ (a + u * (b - a)), fun P' a' b' a0' ab' b1' hP' => ?_⟩
  have w : 0 ≤ b - a := by linarith
  refine hφ P' _ _ (by positivity) (by nlinarith) (by nlinarith) fun u => ?_
  rw [hP' u, hP]
  congr 1
  ring

theorem Pot.two {Q : Poly4 ℝ → ZMod 2} {S L R : Poly4 ℝ} {t : ℝ} (h : Pot Q S) (t0 : 0 ≤ t) (t1 : t ≤ 1)
    (hh : ∀ u, L.at' u = S.at' (t * u) ∧ R.at' u = S.at' (t + (1 - t) * u)) : Q L + Q R = Q S ∧ Pot Q L ∧ Pot Q R := by
  have hL : Part S 0 t L := fun u => by rw [(hh u).1]; congr 1; ring
  have hR : Part S t 1 R := fun u => by rw [(hh u).2]; congr 1; ring
  refine ⟨?_, h.part le_rfl t0 t1 hL, h.part t0 t1 le_rfl hR⟩
  obtain ⟨φ, hφ⟩ := h
  rw [hφ L 0 t le_rfl t0 t1 hL, hφ R t 1 t0 t1 le_rfl hR, hφ S 0 1 le_rfl zero_le_one le_rfl fun u => by congr 1; ring]
  linear_combination two_zmod (φ t)

theorem Pot.pieces {Q : Poly4 ℝ → ZMod 2} {S : Poly4 ℝ} {φ : ℝ → ZMod 2} (hφ : ∀ P a b, 0 ≤ a → a ≤ b → b ≤ 1 → Part S a b P → Q P = φ a + φ b) :
    ∀ (ts : List ℝ) (t : ℝ) (pieces : List (Poly4 ℝ)), (t :: ts).Pairwise (· ≤ ·) → (∀ s ∈ t :: ts, 0 ≤ s ∧ s ≤ 1) →
    List.Forall₂ (fun (ab : ℝ × ℝ) P => ∀ u, P.at' u = S.at' (ab.1 + u * (ab.2 - ab.1))) ((t :: ts).zip (ts ++ [1])) pieces →
    (pieces.map Q).sum = φ t + φ 1
  | [], t, pieces, hs, h1, hf => by
    cases hf with
    | cons h hn =>
      cases hn
      simpa using hφ _ _ _ (h1 t (by simp)).1 (h1 t (by simp)).2 le_rfl h
  | t' :: ts, t, pieces, hs, h1, hf => by
    have hs' := List.pairwise_cons.1 hs
    cases hf with
    | @cons _ P _ ps h hn =>
      rw [List.map_cons, List.sum_cons, Pot.pieces hφ ts t' ps hs'.2 (fun s hs => h1 s (List.mem_cons_of_mem _ hs)) hn,
        hφ _ _ _ (h1 t (by simp)).1 (hs'.1 t' (by simp)) (h1 t' (by simp)).2 h]
      linear_combination two_zmod (φ t')

/-- The crossings of the points sampled on a segment that has been mapped. -/
def seen (p : Pt ℝ) (m : Mat3 ℝ) (n : ℕ) (s : Poly4 ℝ) : ZMod 2 := run (crossing p) (Approx.samples n (s.map m.apply))

theorem pot_seen {p : Pt ℝ} {m : Mat3 ℝ} {n : ℕ} (hn : 1 ≤ n) {S : Poly4 ℝ} {M : ℝ} (hM : bend (S.map m.apply) ≤ M)
    (hp : ∀ t, 0 ≤ t → t ≤ 1 → 6 * M / n ^ 2 < distPt p (m.apply (S.at' t))) : Pot (seen p m n) S := by
  have hn0 : (0 : ℝ) < n := by exact_mod_cast hn
  obtain ⟨φ, hφ⟩ := potential (p := p) (s := S.map m.apply) (M := M) (h := 1 / n) (by positivity) hM (by
    intro t t0 t1
    rw [at'_map, show 6 * M * (1 / (n : ℝ)) ^ 2 = 6 * M / n ^ 2 by field_simp]
    exact hp t t0 t1)
  refine ⟨φ, fun P a b a0 ab b1 hP => ?_⟩
  rw [seen, Approx.samples, run_range]
  have step : ∀ i, i < n → crossing p ((P.map m.apply).at' ((i : ℝ) / n)) ((P.map m.apply).at' (((i + 1 : ℕ) : ℝ) / n)) =
      φ (a + ((i : ℝ) / n) * (b - a)) + φ (a + (((i + 1 : ℕ) : ℝ) / n) * (b - a)) := by
    intro i hi
    rw [at'_map, at'_map, hP, hP, ← at'_map, ← at'_map]
    have w : 0 ≤ b - a := by linarith
    have i1 : ((i + 1 : ℕ) : ℝ) / n ≤ 1 := by rw [div_le_one hn0]; exact_mod_cast hi
    have i2 : (i : ℝ) / n + 1 / n = ((i + 1 : ℕ) : ℝ) / n := by push_cast; rw [add_div]
    have i3 : 0 < 1 / (n : ℝ) := by positivity
    have i4 : 0 ≤ (i : ℝ) / n := by positivity
    rw [← i2] at i1 ⊢
    refine hφ _ _ (by positivity) ?_ ?_ ?_
    · nlinarith
    · nlinarith
    · nlinarith
  rw [Finset.sum_congr rfl fun i hi => step i (Finset.mem_range.1 hi)]
  have tele : ∀ k : ℕ, (∑ i ∈ Finset.range k, (φ (a + ((i : ℝ) / n) * (b - a)) + φ (a + (((i + 1 : ℕ) : ℝ) / n) * (b - a)))) =
      φ a + φ (a + ((k : ℝ) / n) * (b - a)) := by
    intro k
    induction k with
    | zero => simp [two_zmod]
    | succ k ih =>
      rw [Finset.sum_range_succ, ih]
      linear_combination two_zmod (φ (a + ((k : ℝ) / n) * (b - a)))
  rw [tele, div_self hn0.ne']
  congr 2
  ring

end X7.Elem
