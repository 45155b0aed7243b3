import Mathlib.Tactic.IntervalCases
import Verif.Spec.RndAnim
import Verif.Spec.Rnd
import Verif.Lemmas.FlAnim

/-! C88: animations, morphs, time functions and frame times under rounding. -/

noncomputable section

namespace X7
variable {R : Rnd}
open Rnd

/-- Without rounding these are the functions of Model/Anim.lean and Model/Morph.lean. -/
theorem C88_exact_model :
    (∀ t m o g, Fl.mixAll .exact t m o g = Morph.mixAll t m o g) ∧ (∀ m t, Fl.morphUpdate .exact m t = m.update t) ∧
    (∀ s c t, Fl.pick .exact s c t = Morph.pick s c t) ∧ (∀ m t, Fl.multiUpdate .exact m t = m.update t) ∧
    (∀ xp fp x, Fl.npInterp .exact xp fp x = Anim.npInterp xp fp x) ∧
    (∀ o g tx ty, Fl.animLinear .exact o g tx ty = ⟨(1 - tx) * o.x + tx * g.x, (1 - ty) * o.y + ty * g.y⟩) ∧
    (∀ n i, Fl.buildTime .exact n i = (i : ℝ) / n) ∧
    (∀ lo hi n i, n ≠ 0 → Fl.frameTime .exact lo hi n i = .ok (lo + i * ((hi - lo) / n))) := by
  have hmix : ∀ t m o g, Fl.mixAll .exact t m o g = Morph.mixAll t m o g := by
    intro t m
    induction m with
    | nil => intro o g; simp [Fl.mixAll, Morph.mixAll]
    | cons m ms ih =>
      intro o g
      cases o with
      | nil => simp [Fl.mixAll, Morph.mixAll]
      | cons o os =>
        cases g with
        | nil => simp [Fl.mixAll, Morph.mixAll]
        | cons g gs =>
          simp only [Fl.mixAll, Morph.mixAll, ih]
          rfl
  have hpick : ∀ s c t, Fl.pick .exact s c t = Morph.pick s c t := by
    intro s c t
    rfl
  refine ⟨hmix, ?_, hpick, ?_, fun _ _ _ => rfl, fun _ _ _ _ => rfl, fun _ _ => rfl, ?_⟩
  · intro m t
    unfold Fl.morphUpdate Morph.M.update
    simp only [hmix]
    rcases m.tfunc t with e | (s | ⟨a, b⟩ | _) <;> rfl
  · intro m t
    unfold Fl.multiUpdate Morph.MM.update
    simp only [hmix, hpick]
    rcases m.tfunc t with e | (s | ⟨a, b⟩ | _)
    · rfl
    · simp only
      rcases Morph.pick m.steps m.curves s with e | ⟨a, b, c⟩ <;> rfl
    · rfl
    · rfl
  · intro lo hi n i hn
    have : (n : ℝ) ≠ 0 := by exact_mod_cast hn
    simp [Fl.frameTime, pyDiv, Rnd.exact, this]

/-! ### Linear animations -/

/-- C88: a linear animation shows exactly the starting point at time 0 and exactly the target at time 1; at other times
between it is off by at most three roundings. The two coordinates may have different times. -/
theorem C88_linear {o g : Pt ℝ} (ho : R.RepPt o) (hg : R.RepPt g) :
    Fl.animLinear R o g 0 0 = o ∧ Fl.animLinear R o g 1 1 = g ∧
    ∀ tx ty, 0 ≤ tx → tx ≤ 1 → 0 ≤ ty → ty ≤ 1 →
      Within (R.gam 3 * ((1 - tx) * |o.x| + tx * |g.x|)) (R.gam 3 * ((1 - ty) * |o.y| + ty * |g.y|))
        (Fl.animLinear R o g tx ty) ⟨(1 - tx) * o.x + tx * g.x, (1 - ty) * o.y + ty * g.y⟩ := by
  have key : ∀ a b t : ℝ, 0 ≤ t → t ≤ 1 →
      |R.fl (R.fl (R.fl (1 - t) * a) + R.fl (t * b)) - ((1 - t) * a + t * b)| ≤ R.gam 3 * ((1 - t) * |a| + t * |b|) := by
    intro a b t h0 h1
    have hs : R.Near 1 (R.fl (1 - t)) (1 - t) (1 - t) := by
      have := (Near.of_abs (R := R) (1 - t)).fl
      rwa [abs_of_nonneg (by linarith : (0 : ℝ) ≤ 1 - t)] at this
    have ht : R.Near 0 t t t := Near.of_le (by rw [abs_of_nonneg h0])
    exact ((hs.mul (Near.of_abs a)).add (ht.mul (Near.of_abs b))).2
  refine ⟨?_, ?_, fun tx ty a b c d => ⟨key _ _ _ a b, key _ _ _ c d⟩⟩
  · obtain ⟨h1, h2⟩ := ho
    unfold Rep at h1 h2
    simp [Fl.animLinear, R.fl_one, R.fl_zero, h1, h2]
  · obtain ⟨h1, h2⟩ := hg
    unfold Rep at h1 h2
    simp [Fl.animLinear, R.fl_one, R.fl_zero, h1, h2]

/-- C88: a point that is animated to where it already is need not stand still: at every precision from three digits on there is
a float that at time 3/8 is shown one unit away. -/
theorem C88_linear_counterexample (p : ℕ) (hp : 3 ≤ p) :
    let R := Rnd.binary p (by omega)
    let x : ℝ := 2 ^ p - 1
    R.Rep x ∧ R.Rep (3 / 8) ∧ Fl.animLinear R ⟨x, x⟩ ⟨x, x⟩ (3 / 8) (3 / 8) = ⟨x - 1, x - 1⟩ := by
  intro R x
  obtain ⟨q, rfl⟩ : ∃ q, p = q + 3 := ⟨p - 3, by omega⟩
  have hfl : R.fl = flBin (q + 3) := rfl
  have one : (1 : ℝ) ≤ 2 ^ q := one_le_pow₀ (by norm_num)
  have z3 : (2 : ℝ) ^ (q + 3) = 8 * 2 ^ q := by rw [pow_add]; ring
  have zq : (2 : ℝ) ^ ((q : ℤ)) = 2 ^ q := zpow_natCast 2 q
  have z1 : (2 : ℝ) ^ ((q : ℤ) + 1) = 2 * 2 ^ q := by rw [zpow_add₀ (by norm_num), zq]; ring
  have z2 : (2 : ℝ) ^ ((q : ℤ) + 2) = 4 * 2 ^ q := by rw [zpow_add₀ (by norm_num), zq]; norm_num; ring
  have z4 : (2 : ℝ) ^ ((q : ℤ) + 3) = 8 * 2 ^ q := by rw [zpow_add₀ (by norm_num), zq]; norm_num; ring
  have zi : (2 : ℤ) ^ (q + 3) = 8 * 2 ^ q := by rw [pow_add]; ring
  have onei : (1 : ℤ) ≤ 2 ^ q := one_le_pow₀ (by norm_num)
  have x1 : x = 8 * 2 ^ q - 1 := by simp only [x, z3]
  -- sums between 4 * 2^q and 8 * 2^q are rounded to integers
  have big : ∀ (y : ℝ) (n : ℤ), 4 * 2 ^ q ≤ y → y < 8 * 2 ^ q → IsRound y n → R.fl y = n := by
    intro y n h1 h2 h3
    have hy : 0 < y := by linarith
    have := Fl.flBin_eq (q + 3) y ((q : ℤ) + 2) n (by rw [abs_of_pos hy, z2]; exact h1)
      (by rw [abs_of_pos hy, add_assoc, show (2 : ℤ) + 1 = 3 by norm_num, z4]; exact h2)
      (by rw [show (q : ℤ) + 2 - ((q + 3 : ℕ) : ℤ) + 1 = 0 by push_cast; ring, zpow_zero, div_one]; exact h3)
    rw [hfl, this, show (q : ℤ) + 2 - ((q + 3 : ℕ) : ℤ) + 1 = 0 by push_cast; ring]; simp
  have rx : R.Rep x := by
    have := big x (8 * 2 ^ q - 1) (by rw [x1]; linarith) (by rw [x1]; linarith)
      (by
        rw [x1]
        constructor
        · push_cast; simp
        · intro h; push_cast at h; simp at h)
    unfold Rep
    rw [this, x1]; push_cast; ring
  have r38 : R.fl (3 / 8) = 3 / 8 := by
    have := flBin_rep (q + 3) (by omega) 3 (-3) (by rw [zi]; norm_num; linarith)
    norm_num at this
    rw [hfl]; norm_num; exact this
  have r58 : R.fl (5 / 8) = 5 / 8 := by
    have := flBin_rep (q + 3) (by omega) 5 (-3) (by rw [zi]; norm_num; linarith)
    norm_num at this
    rw [hfl]; norm_num; exact this
  have m1 : R.fl (5 / 8 * x) = 5 * 2 ^ q - 1 := by
    have := big (5 / 8 * x) (5 * 2 ^ q - 1) (by rw [x1]; linarith) (by rw [x1]; linarith)
      (by
        rw [x1]
        constructor
        · rw [abs_le]; push_cast; constructor <;> linarith
        · intro h
          push_cast at h
          rw [show 5 / 8 * (8 * 2 ^ q - 1) - (5 * (2 : ℝ) ^ q - 1) = 3 / 8 by ring] at h
          norm_num at h)
    rw [this]; push_cast; ring
  have m2 : R.fl (3 / 8 * x) = 3 * 2 ^ q - 1 / 2 := by
    have hy : 0 < 3 / 8 * x := by rw [x1]; linarith
    have := Fl.flBin_eq (q + 3) (3 / 8 * x) ((q : ℤ) + 1) (6 * 2 ^ q - 1) (by rw [abs_of_pos hy, z1, x1]; linarith)
      (by rw [abs_of_pos hy, add_assoc, show (1 : ℤ) + 1 = 2 by norm_num, z2, x1]; linarith)
      (by
        rw [show (q : ℤ) + 1 - ((q + 3 : ℕ) : ℤ) + 1 = -1 by push_cast; ring, x1]
        constructor
        · rw [abs_le]; push_cast; norm_num; constructor <;> linarith
        · intro h
          push_cast at h
          norm_num at h
          rw [show 3 / 8 * (8 * 2 ^ q - 1) / (1 / 2) - (6 * (2 : ℝ) ^ q - 1) = 1 / 4 by ring] at h
          norm_num at h)
    rw [hfl, this, show (q : ℤ) + 1 - ((q + 3 : ℕ) : ℤ) + 1 = -1 by push_cast; ring]
    push_cast; norm_num; ring
  have m3 : R.fl (5 * 2 ^ q - 1 + (3 * 2 ^ q - 1 / 2)) = x - 1 := by
    have := big (5 * 2 ^ q - 1 + (3 * 2 ^ q - 1 / 2)) (8 * 2 ^ q - 2) (by linarith) (by linarith)
      (by
        constructor
        · rw [abs_le]; push_cast; constructor <;> linarith
        · intro _
          exact ⟨4 * 2 ^ q - 1, by ring⟩)
    rw [this, x1]; push_cast; ring
  refine ⟨rx, r38, ?_⟩
  have e58 : (1 : ℝ) - 3 / 8 = 5 / 8 := by norm_num
  simp only [Fl.animLinear, e58, r58, m1, m2, m3]

/-- C88: the time of a sinusoidal animation stays between 0 and 1 as long as the computed cosine is between -1 and 1; the
point is exactly at its start when the cosine is 1 and exactly at the target when it is -1. -/
theorem C88_sinusoidal {o g : Pt ℝ} (ho : R.RepPt o) (hg : R.RepPt g) :
    (∀ c, -1 ≤ c → c ≤ 1 → 0 ≤ Fl.sinTime R c ∧ Fl.sinTime R c ≤ 1) ∧
    Fl.animSinusoidal R o g 1 = o ∧ Fl.animSinusoidal R o g (-1) = g ∧
    ∀ k c θ, -1 ≤ c → c ≤ 1 → |c - Real.cos θ| ≤ R.gam k →
      let B := fun a b : ℝ => R.gam (k + 5) * (2 * |a| + |b|)
      Within (B o.x g.x) (B o.y g.y) (Fl.animSinusoidal R o g c)
        ⟨o.x + (1 - Real.cos θ) / 2 * (g.x - o.x), o.y + (1 - Real.cos θ) / 2 * (g.y - o.y)⟩ := by
  have two : R.fl 2 = 2 := by have := R.dbl 1; rw [mul_one, R.fl_one] at this; simpa using this
  have t1 : Fl.sinTime R 1 = 0 := by simp [Fl.sinTime, R.fl_zero]
  have t2 : Fl.sinTime R (-1) = 1 := by
    rw [Fl.sinTime, show (1 : ℝ) - -1 = 2 by norm_num, two, show (2 : ℝ) * (1 / 2) = 1 by norm_num, R.fl_one]
  obtain ⟨e0, e1, -⟩ := C88_linear ho hg
  refine ⟨?_, ?_, ?_, ?_⟩
  · intro c h1 h2
    have a1 : 0 ≤ R.fl (1 - c) := R.fl_nonneg (by linarith)
    have a2 : R.fl (1 - c) ≤ 2 := R.fl_le_of_rep (by linarith) two
    exact ⟨R.fl_nonneg (by linarith), R.fl_le_of_rep (by linarith) R.rep_one⟩
  · rw [Fl.animSinusoidal, t1, e0]
  · rw [Fl.animSinusoidal, t2, e1]
  · intro k c θ h1 h2 hc
    have nc : R.Near k c (Real.cos θ) 1 := ⟨Real.abs_cos_le_one θ, by simpa using hc⟩
    have n1 : R.Near 0 1 1 1 := Near.of_le (by simp)
    have nt : R.Near (k + 2) (Fl.sinTime R c) ((1 - Real.cos θ) * (1 / 2)) 1 := by
      have := ((n1.sub nc).mul (Near.of_le (R := R) (x := 1 / 2) (A := 1 / 2) (by rw [abs_of_pos] <;> norm_num)))
      have h := this.mono (n := k + 2) (by simp) (B := 1) (by norm_num)
      exact h
    have ns : R.Near (k + 3) (R.fl (1 - Fl.sinTime R c)) (1 - (1 - Real.cos θ) * (1 / 2)) 2 :=
      (n1.sub nt).mono (by simp) (by norm_num)
    have key : ∀ a b : ℝ, |R.fl (R.fl (R.fl (1 - Fl.sinTime R c) * a) + R.fl (Fl.sinTime R c * b)) -
        (a + (1 - Real.cos θ) / 2 * (b - a))| ≤ R.gam (k + 5) * (2 * |a| + |b|) := by
      intro a b
      have h := ((ns.mul (Near.of_abs a)).add (nt.mul (Near.of_abs b))).mono (n := k + 5) (B := 2 * |a| + |b|) (by omega)
        (by linarith [abs_nonneg a, abs_nonneg b])
      rw [show (1 - (1 - Real.cos θ) * (1 / 2)) * a + (1 - Real.cos θ) * (1 / 2) * b = a + (1 - Real.cos θ) / 2 * (b - a) by ring] at h
      exact h.2
    exact ⟨key _ _, key _ _⟩

/-- C88: the position of a circular animation, for sine and cosine with an error of at most `k` roundings. -/
theorem C88_circular (k : ℕ) (θ s c : ℝ) (hs : |s - Real.sin θ| ≤ R.gam k) (hc : |c - Real.cos θ| ≤ R.gam k) (o : Pt ℝ) (radius : ℝ) :
    Within (R.gam (k + 2) * (|o.x| + |radius|)) (R.gam (k + 2) * (|o.y| + |radius|)) (Fl.animCircular R o radius s c)
      ⟨o.x + radius * Real.sin θ, o.y + radius * Real.cos θ⟩ := by
  have nc : R.Near k c (Real.cos θ) 1 := ⟨Real.abs_cos_le_one θ, by simpa using hc⟩
  have ns : R.Near k s (Real.sin θ) 1 := ⟨Real.abs_sin_le_one θ, by simpa using hs⟩
  have h1 := ((Near.of_abs (R := R) o.x).add ((Near.of_abs radius).mul ns)).mono (n := k + 2) (by omega) le_rfl
  have h2 := ((Near.of_abs (R := R) o.y).add ((Near.of_abs radius).mul nc)).mono (n := k + 2) (by omega) le_rfl
  rw [mul_one] at h1 h2
  exact ⟨h1.2, h2.2⟩

/-! ### Morphs -/

/-- C88: whatever the history, a morph updated at time 0 shows exactly the original, and a morph whose original and target are at the
same places stands still; at a time from 0 on, each number is off by at most three roundings. -/
theorem C88_morph (m : Morph.M) (hl : m.morph.length = m.orig.length) (hl2 : m.target.length = m.orig.length) (t : Anim.TVal) (s : ℝ)
    (hf : m.tfunc t = .ok (.num s)) :
    ∃ m', Fl.morphUpdate R m t = .ok m' ∧ m'.orig = m.orig ∧ m'.target = m.target ∧ m'.morph.map CP.kind = m.morph.map CP.kind ∧
      ((∀ cp ∈ m.orig, R.RepCP cp) → s = 0 ∨ SamePlaces m.orig m.target → SamePlaces m'.morph m.orig) ∧
      ∀ B, (∀ cp ∈ m.orig, cp.AtMost B) → (∀ cp ∈ m.target, cp.AtMost B) → 0 ≤ s →
        ∀ (i : ℕ) (a b c : CP ℝ), m.orig[i]? = some a → m.target[i]? = some b → m'.morph[i]? = some c → ∀ k,
          |Morph.coord k c - (Morph.coord k a + s * (Morph.coord k b - Morph.coord k a))| ≤ R.gam 3 * ((1 + 2 * s) * B) := by
  refine ⟨{ m with morph := Fl.mixAll R s m.morph m.orig m.target }, by simp [Fl.morphUpdate, hf], rfl, rfl, ?_, ?_, ?_⟩
  · exact Fl.mixAll_kinds _ _ _ _
  · intro hr hs
    apply List.ext_getElem
    · simp [Fl.mixAll_length, hl]
    · intro i h1 h2
      simp only [List.length_map, Fl.mixAll_length] at h1 h2
      have g := Fl.mixAll_get (R := R) s m.morph m.orig m.target i _ _ _ (List.getElem?_eq_getElem h1)
        (List.getElem?_eq_getElem h2) (List.getElem?_eq_getElem (hl2 ▸ h2))
      obtain ⟨hg1, hg2⟩ := List.getElem?_eq_some_iff.1 g
      simp only [List.getElem_map, hg2]
      have hrep := hr _ (List.getElem_mem h2)
      have key : ∀ k, Morph.coord k (Fl.mixCP R s m.morph[i] m.orig[i] (m.target[i]'(hl2 ▸ h2))) = Morph.coord k m.orig[i] := by
        intro k
        rw [Fl.coord_mixCP]
        rcases hs with rfl | hs
        · exact Fl.mix_zero (hrep k)
        · have e := congrArg (·[i]?) hs
          simp only [List.getElem?_map, List.getElem?_eq_getElem h2, List.getElem?_eq_getElem (hl2 ▸ h2 : i < m.target.length),
            Option.map_some, Option.some.injEq, Prod.mk.injEq] at e
          have : Morph.coord k (m.target[i]'(hl2 ▸ h2)) = Morph.coord k m.orig[i] := by
            fin_cases k <;> simp [Morph.coord, e.1, e.2.1, e.2.2]
          rw [this]
          exact Fl.mix_same (hrep k)
      obtain ⟨c1, c2, c3⟩ := Morph.cp_ext_coord key
      rw [c1, c2, c3]
  · intro B ho hg h0 i a b c ha hb hc k
    have hlt := (List.getElem?_eq_some_iff.1 ha).1
    have g := Fl.mixAll_get (R := R) s m.morph m.orig m.target i _ _ _ (List.getElem?_eq_getElem (hl ▸ hlt)) ha hb
    rw [show (_ : Option (CP ℝ)) = some c from hc] at g
    injection g with g
    rw [g, Fl.coord_mixCP]
    have := Fl.mix_near (R := R) (Near.of_le (x := s) (A := s) (by rw [abs_of_nonneg h0])) (ho a (List.mem_of_getElem? ha) k)
      (hg b (List.mem_of_getElem? hb) k)
    exact this.2

/-- C88: but at time 1 a morph need not show its target, at any precision: a coordinate on the way from `2 ^ p` to `1 / 4` ends at
`0`. -/
theorem C88_morph_end_counterexample (p : ℕ) (hp : 1 ≤ p) :
    ∃ (m m' : Morph.M) (a b c : CP ℝ), let R := Rnd.binary p hp
      m.orig = [a] ∧ m.target = [b] ∧ m.morph = m.orig ∧ R.RepCP a ∧ R.RepCP b ∧ m.tfunc (.num 1) = .ok (.num 1) ∧
      Fl.morphUpdate R m (.num 1) = .ok m' ∧ m'.morph = [c] ∧ b.c.x = 1 / 4 ∧ c.c.x = 0 := by
  let R := Rnd.binary p hp
  let a : CP ℝ := ⟨⟨2 ^ p, 0⟩, ⟨0, 0⟩, ⟨0, 0⟩, ""⟩
  let b : CP ℝ := ⟨⟨1 / 4, 0⟩, ⟨0, 0⟩, ⟨0, 0⟩, ""⟩
  let h : Hdr := ⟨['a'], ⟨none, none⟩, true, Mat3.one⟩
  let m : Morph.M := ⟨h, [a], [b], [a], fun l => .curve h l, fun t => .ok t⟩
  have r0 : R.fl 0 = 0 := R.fl_zero
  have rp : R.fl (2 ^ p) = 2 ^ p := by
    have := flBin_rep p hp 1 p (by simp; exact_mod_cast Nat.one_le_two_pow)
    rw [show R.fl = flBin p from rfl]
    simpa using this
  have rq : R.fl (1 / 4) = 1 / 4 := by
    have := flBin_rep p hp 1 (-2) (by simp; exact_mod_cast Nat.one_le_two_pow)
    norm_num at this
    have e : R.fl = flBin p := rfl
    rw [e]; norm_num; exact this
  have rs : R.fl (1 / 4 - 2 ^ p) = -2 ^ p := by
    rw [show (1 : ℝ) / 4 - 2 ^ p = -(2 ^ p - 1 / 4) by ring, R.neg]
    exact congrArg _ (Fl.flBin_sub_quarter p hp)
  have ra : R.RepCP a := by
    intro k
    fin_cases k
    · exact rp
    all_goals exact r0
  have rb : R.RepCP b := by
    intro k
    fin_cases k
    · exact rq
    all_goals exact r0
  refine ⟨m, { m with morph := Fl.mixAll R 1 [a] [a] [b] }, a, b, Fl.mixCP R 1 a a b, rfl, rfl, rfl, ra, rb, rfl, rfl, rfl, rfl, ?_⟩
  have := Fl.coord_mixCP (R := R) 1 a a b 0
  simp only [Morph.coord] at this
  rw [this]
  show R.fl (2 ^ p + R.fl (R.fl (1 / 4 - 2 ^ p) * 1)) = 0
  rw [rs, mul_one, R.neg, rp, add_neg_cancel, r0]

/-- C88: a morph over several steps raises nothing, is exact at every step (strictly increasing steps, floats), and in between is near
the polyline through the values at the steps; the fraction is in the unit interval whatever the rounding. -/
theorem C88_multi (m : Morph.MM) (hl : m.steps.length = m.curves.length) (hne : m.curves ≠ [])
    (hc : ∀ c ∈ m.curves, c.length = m.morph.length) (t : Anim.TVal) (s : ℝ) (hf : m.tfunc t = .ok (.num s)) :
    ∃ m', Fl.multiUpdate R m t = .ok m' ∧ m'.morph.length = m.morph.length ∧ m'.morph.map CP.kind = m.morph.map CP.kind ∧
      ((∀ c ∈ m.curves, ∀ cp ∈ c, R.RepCP cp) → m.steps.Pairwise (· < ·) → ∀ (j : ℕ) (c : List (CP ℝ)), m.steps[j]? = some s →
        m.curves[j]? = some c → SamePlaces m'.morph c) ∧
      ∀ B, (∀ c ∈ m.curves, ∀ cp ∈ c, cp.AtMost B) → (∀ c ∈ m.curves, ∀ cp ∈ c, R.RepCP cp) →
        ∀ (i : ℕ) (hi : i < m'.morph.length) (k : Fin 6), ∃ v,
          Anim.PolyAt (m.steps.zip (m.curves.map fun c => Morph.coord k (c.getD i ⟨⟨0, 0⟩, ⟨0, 0⟩, ⟨0, 0⟩, ""⟩))) s v ∧
          |Morph.coord k m'.morph[i] - v| ≤ R.gam 7 * (3 * B) := by
  obtain ⟨lo, hi, u, p1, p2, p3, p4⟩ := Fl.pick_fl (R := R) m.steps m.curves hl hne s
  have hlo := hc lo p2
  have hhi := hc hi p3
  -- the numbers shown
  have get : ∀ (i : ℕ) (h : i < m.morph.length) (k : Fin 6), ∃ h' : i < (Fl.mixAll R u m.morph lo hi).length,
      Morph.coord k (Fl.mixAll R u m.morph lo hi)[i] =
        R.fl (Morph.coord k (lo[i]'(hlo ▸ h)) + R.fl (R.fl (Morph.coord k (hi[i]'(hhi ▸ h)) - Morph.coord k (lo[i]'(hlo ▸ h))) * u)) := by
    intro i h k
    have g := Fl.mixAll_get (R := R) u m.morph lo hi i _ _ _ (List.getElem?_eq_getElem h)
      (List.getElem?_eq_getElem (hlo ▸ h)) (List.getElem?_eq_getElem (hhi ▸ h))
    obtain ⟨hg1, hg2⟩ := List.getElem?_eq_some_iff.1 g
    exact ⟨hg1, by rw [hg2, Fl.coord_mixCP]⟩
  have nth : ∀ (c : List (CP ℝ)) (i : ℕ) (h : i < c.length), c.getD i ⟨⟨0, 0⟩, ⟨0, 0⟩, ⟨0, 0⟩, ""⟩ = c[i] := by
    intro c i h; simp [List.getD, h]
  refine ⟨{ m with morph := Fl.mixAll R u m.morph lo hi }, by simp [Fl.multiUpdate, hf, p1], Fl.mixAll_length _ _ _ _,
    Fl.mixAll_kinds _ _ _ _, ?_, ?_⟩
  · intro hr hinc j c hj hcj
    have hjlt := (List.getElem?_eq_some_iff.1 hj).1
    have hcm := List.mem_of_getElem? hcj
    have hclen := hc c hcm
    -- the polyline has at the step the value of the curve
    have knot : ∀ (φ : List (CP ℝ) → ℝ) (v : ℝ), Anim.PolyAt (m.steps.zip (m.curves.map φ)) s v → v = φ c := by
      intro φ v hv
      have hpw : (m.steps.zip (m.curves.map φ)).Pairwise fun a b => a.1 < b.1 := by
        have e : (m.steps.zip (m.curves.map φ)).map Prod.fst = m.steps := by rw [List.map_fst_zip (by simp [hl])]
        have hinc' := hinc
        rw [← e, List.pairwise_map] at hinc'
        exact hinc'
      have hmem : (s, φ c) ∈ m.steps.zip (m.curves.map φ) := by
        apply List.mem_of_getElem? (i := j)
        rw [List.getElem?_zip_eq_some]
        exact ⟨hj, by simp [hcj]⟩
      exact Anim.poly_unique (hpw.imp fun h => h.le) hv (Anim.poly_knot hpw hmem)
    apply List.ext_getElem
    · simp [Fl.mixAll_length, hclen]
    · intro i h1' h2'
      have h1 : i < m.morph.length := by simpa [Fl.mixAll_length] using h1'
      have h2 : i < c.length := by simpa using h2'
      simp only [List.getElem_map]
      have hrl := hr lo p2 _ (List.getElem_mem (hlo ▸ h1 : i < lo.length))
      have key : ∀ k, Morph.coord k ((Fl.mixAll R u m.morph lo hi)[i]'(by rw [Fl.mixAll_length]; exact h1)) = Morph.coord k c[i] := by
        intro k
        obtain ⟨_, e⟩ := get i h1 k
        rw [e]
        have hkl : Morph.coord k (lo[i]'(hlo ▸ h1)) = Morph.coord k c[i] ∧
            R.fl (Morph.coord k (lo[i]'(hlo ▸ h1)) + R.fl (R.fl (Morph.coord k (hi[i]'(hhi ▸ h1)) - Morph.coord k (lo[i]'(hlo ▸ h1))) * u)) =
              Morph.coord k (lo[i]'(hlo ▸ h1)) := by
          have app := knot fun c => Morph.coord k (c.getD i ⟨⟨0, 0⟩, ⟨0, 0⟩, ⟨0, 0⟩, ""⟩)
          rcases p4 with ⟨e1, e2⟩ | ⟨i', a, b, τ, q1, q2, q3, q4, q5, q6, q7, q8, q9, q10, q11, q12, q13⟩
          · subst e1
            have := app _ (e2 _)
            rw [nth lo i (hlo ▸ h1), nth c i h2] at this
            exact ⟨this, Fl.mix_same (hrl k)⟩
          · -- the step is the lower end of its interval
            have hsa : s = a := by
              obtain ⟨l1, l2⟩ := List.getElem?_eq_some_iff.1 q1
              obtain ⟨l3, l4⟩ := List.getElem?_eq_some_iff.1 q2
              obtain ⟨l5, l6⟩ := List.getElem?_eq_some_iff.1 hj
              rw [List.pairwise_iff_getElem] at hinc
              rcases lt_trichotomy j i' with hlt | heq | hgt
              · have := hinc j i' l5 l1 hlt
                rw [l6, l2] at this; linarith
              · subst heq; rw [← l6, ← l2]
              · rcases Nat.lt_or_ge (i' + 1) j with h' | h'
                · have := hinc (i' + 1) j l3 l5 h'
                  rw [l4, l6] at this; linarith
                · have : j = i' + 1 := by omega
                  subst this
                  rw [l4] at l6; linarith
            have hu0 := q11 hsa
            have hτ : τ = 0 := by rw [q6, hsa]; simp
            have := app _ (q13 _)
            rw [hτ, zero_mul, add_zero, nth lo i (hlo ▸ h1), nth c i h2] at this
            rw [hu0]
            exact ⟨this, Fl.mix_zero (hrl k)⟩
        rw [hkl.2, hkl.1]
      obtain ⟨c1, c2, c3⟩ := Morph.cp_ext_coord key
      rw [c1, c2, c3]
  · intro B hB hr i hi'' k
    have hi' : i < m.morph.length := by simpa [Fl.mixAll_length] using hi''
    obtain ⟨_, e⟩ := get i hi' k
    have b1 := hB lo p2 _ (List.getElem_mem (hlo ▸ hi' : i < lo.length)) k
    have b2 := hB hi p3 _ (List.getElem_mem (hhi ▸ hi' : i < hi.length)) k
    have hB0 : 0 ≤ B := (abs_nonneg _).trans b1
    rcases p4 with ⟨e1, e2⟩ | ⟨i', a, b, τ, q1, q2, q3, q4, q5, q6, q7, q8, q9, q10, q11, q12, q13⟩
    · subst e1
      refine ⟨_, e2 _, ?_⟩
      rw [e, nth lo i (hlo ▸ hi'), Fl.mix_same (hr lo p2 _ (List.getElem_mem (hlo ▸ hi' : i < lo.length)) k), sub_self, abs_zero]
      exact mul_nonneg (R.gam_nonneg 7) (by linarith)
    · refine ⟨_, q13 _, ?_⟩
      rw [e, nth lo i (hlo ▸ hi'), nth hi i (hhi ▸ hi')]
      exact ((Fl.mix_near q12 b1 b2).mono le_rfl (by nlinarith)).2

/-! ### Time functions -/

/-- C88: an interpolation is exact at every knot, if the times increase, and elsewhere within seven roundings of the polyline; before
the first and after the last knot it is exact too. -/
theorem C88_interpolate (curve : List (ℝ × ℝ)) (hne : curve ≠ []) (t : ℝ) :
    let v := Fl.npInterp R (curve.map Prod.fst) (curve.map Prod.snd) t
    (curve.Pairwise (fun a b => a.1 < b.1) → (∀ k ∈ curve, R.Rep k.2) → ∀ k ∈ curve, k.1 = t → v = k.2) ∧
    (∀ k, curve.head? = some k → (∀ l ∈ curve, t < l.1) → v = k.2) ∧
    (∀ k, curve.getLast? = some k → (∀ l ∈ curve, l.1 ≤ t) → v = k.2) ∧
    ∀ B, (∀ k ∈ curve, |k.2| ≤ B) → ∃ w, Anim.PolyAt curve t w ∧ |v - w| ≤ R.gam 7 * (3 * B) := by
  intro v
  have hv : v = Fl.npInterp R (curve.map Prod.fst) (curve.map Prod.snd) t := rfl
  have hc := Fl.npInterp_cases (R := R) curve hne t
  rw [← hv] at hc
  refine ⟨?_, ?_, ?_, ?_⟩
  · intro hs hr k hk hkt
    rcases hc with ⟨k', h1, h2, h3⟩ | ⟨k', h1, h2, h3⟩ | ⟨i, a, b, h1, h2, h3, h4, h5⟩
    · exact h3.trans (Anim.poly_unique (hs.imp fun h => h.le) (Or.inl ⟨k', h1, h2, rfl⟩) (hkt ▸ Anim.poly_knot hs hk))
    · exact h3.trans (Anim.poly_unique (hs.imp fun h => h.le) (Or.inr (Or.inl ⟨k', h1, h2, rfl⟩)) (hkt ▸ Anim.poly_knot hs hk))
    · obtain ⟨l1, l2⟩ := List.getElem?_eq_some_iff.1 h1
      obtain ⟨l3, l4⟩ := List.getElem?_eq_some_iff.1 h2
      obtain ⟨j, l5, l6⟩ := List.getElem_of_mem hk
      rw [List.pairwise_iff_getElem] at hs
      have hka : k = a := by
        rcases lt_trichotomy j i with hlt | heq | hgt
        · have := hs j i l5 l1 hlt
          rw [l6, l2] at this; linarith
        · subst heq; rw [← l6, ← l2]
        · rcases Nat.lt_or_ge (i + 1) j with h' | h'
          · have := hs (i + 1) j l3 l5 h'
            rw [l4, l6] at this; linarith
          · have : j = i + 1 := by omega
            subst this
            rw [l4] at l6; rw [l6] at h4; linarith
      subst hka
      rw [h5, hkt, sub_self, R.fl_zero, mul_zero, R.fl_zero, zero_add]
      exact hr k hk
  · intro k hk hl
    rcases hc with ⟨k', h1, h2, h3⟩ | ⟨k', h1, h2, h3⟩ | ⟨i, a, b, h1, h2, h3, h4, h5⟩
    · rw [hk] at h1; injection h1 with h1; rw [h3, h1]
    · exact absurd h2 (not_le.2 (hl k' (List.mem_of_getLast? h1)))
    · exact absurd h3 (not_le.2 (hl a (List.mem_of_getElem? h1)))
  · intro k hk hl
    rcases hc with ⟨k', h1, h2, h3⟩ | ⟨k', h1, h2, h3⟩ | ⟨i, a, b, h1, h2, h3, h4, h5⟩
    · exact absurd h2 (not_lt.2 (hl k' (List.mem_of_mem_head? h1)))
    · rw [hk] at h1; injection h1 with h1; rw [h3, h1]
    · exact absurd h4 (not_lt.2 (hl b (List.mem_of_getElem? h2)))
  · intro B hB
    obtain ⟨k0, hk0⟩ := List.exists_mem_of_ne_nil curve hne
    have hB0 : 0 ≤ B := (abs_nonneg _).trans (hB k0 hk0)
    have triv : |(0 : ℝ)| ≤ R.gam 7 * (3 * B) := by rw [abs_zero]; exact mul_nonneg (R.gam_nonneg 7) (by linarith)
    rcases hc with ⟨k', h1, h2, h3⟩ | ⟨k', h1, h2, h3⟩ | ⟨i, a, b, h1, h2, h3, h4, h5⟩
    · exact ⟨k'.2, Or.inl ⟨k', h1, h2, rfl⟩, by rw [h3, sub_self]; exact triv⟩
    · exact ⟨k'.2, Or.inr (Or.inl ⟨k', h1, h2, rfl⟩), by rw [h3, sub_self]; exact triv⟩
    · refine ⟨_, Or.inr (Or.inr ⟨i, a, b, h1, h2, h3, h4, rfl⟩), ?_⟩
      have hab : 0 < b.1 - a.1 := by linarith
      have ba := hB a (List.mem_of_getElem? h1)
      have bb := hB b (List.mem_of_getElem? h2)
      have nf : R.Near 1 (R.fl (b.2 - a.2)) (b.2 - a.2) (2 * B) := by
        have := (Near.of_le (R := R) bb).sub (Near.of_le ba)
        exact this.mono (by simp) (by linarith)
      have nx : R.Near 1 (R.fl (t - a.1)) (t - a.1) (b.1 - a.1) :=
        (Near.of_le (R := R) (x := t - a.1) (A := b.1 - a.1) (by rw [abs_of_nonneg (by linarith)]; linarith)).fl
      have hq := (nf.div_fl hab).mul nx
      have hs := (hq.add (Near.of_le (R := R) ba)).mono (n := 7) (B := 3 * B) (by simp)
        (by rw [div_mul_cancel₀ _ hab.ne']; linarith)
      rw [h5]
      have e : a.2 + (t - a.1) / (b.1 - a.1) * (b.2 - a.2) = (b.2 - a.2) / (b.1 - a.1) * (t - a.1) + a.2 := by ring
      rw [e]
      exact hs.2

/-- C88: the ramps keep their promise under rounding to two or more binary digits: 0 up to `start`, 1 from `end` on, always between 0
and 1, never falling; and the other way round for `ramp_down`. -/
theorem C88_ramp (p : ℕ) (hp : 2 ≤ p) (start stop : ℝ) (h0 : 0 ≤ start) (h1 : start < stop) (h2 : stop ≤ 1) :
    let R := Rnd.binary p (by omega)
    let up := Fl.npInterp R [0, start, stop, 1] [0, 0, 1, 1]
    let down := Fl.npInterp R [0, start, stop, 1] [1, 1, 0, 0]
    ∀ t, (t ≤ start → up t = 0 ∧ down t = 1) ∧ (stop ≤ t → up t = 1 ∧ down t = 0) ∧
      (0 ≤ up t ∧ up t ≤ 1) ∧ (0 ≤ down t ∧ down t ≤ 1) ∧ ∀ t', t ≤ t' → up t ≤ up t' ∧ down t' ≤ down t := by
  intro R up down
  have hD : 0 < R.fl (stop - start) := R.fl_pos (by linarith)
  have flu : R.fl (1 + R.u) = 1 := Fl.flBin_one_add p hp
  have hu := R.u_nonneg
  set D := R.fl (stop - start) with hDd
  let pr : ℝ → ℝ := fun t => R.fl (R.fl (1 / D) * R.fl (t - start))
  have s0 : 0 ≤ R.fl (1 / D) := R.fl_nonneg (by positivity)
  have pr0 : ∀ t, start ≤ t → 0 ≤ pr t := fun t ht => R.fl_nonneg (mul_nonneg s0 (R.fl_nonneg (by linarith)))
  have pr1 : ∀ t, t ≤ stop → pr t ≤ 1 := by
    intro t ht
    have a1 : R.fl (t - start) ≤ D := R.mono _ _ (by linarith)
    have a2 : R.fl (1 / D) ≤ (1 + R.u) * (1 / D) := R.fl_le (by positivity)
    have a3 : R.fl (1 / D) * R.fl (t - start) ≤ 1 + R.u := by
      calc R.fl (1 / D) * R.fl (t - start) ≤ R.fl (1 / D) * D := mul_le_mul_of_nonneg_left a1 s0
        _ ≤ (1 + R.u) * (1 / D) * D := mul_le_mul_of_nonneg_right a2 hD.le
        _ = 1 + R.u := by field_simp
    have := R.mono _ _ a3
    rwa [flu] at this
  have prm : ∀ t t', t ≤ t' → pr t ≤ pr t' := fun t t' ht =>
    R.mono _ _ (mul_le_mul_of_nonneg_left (R.mono _ _ (by linarith)) s0)
  have prr : ∀ t, R.Rep (pr t) := fun t => R.rep_fl _
  -- the values
  have upv : ∀ t, (t < start → up t = 0) ∧ (start ≤ t → t < stop → up t = pr t) ∧ (stop ≤ t → up t = 1) := by
    intro t
    have hc := Fl.npInterp_cases (R := R) [(0, 0), (start, 0), (stop, 1), (1, 1)] (by simp) t
    simp only [List.map_cons, List.map_nil] at hc
    change _ ∨ _ ∨ _ at hc
    rcases hc with ⟨k, a1, a2, a3⟩ | ⟨k, a1, a2, a3⟩ | ⟨i, a, b, a1, a2, a3, a4, a5⟩
    · simp only [List.head?_cons, Option.some.injEq] at a1
      subst a1
      simp only at a2 a3
      exact ⟨fun _ => a3, fun _ _ => by linarith, fun _ => by linarith⟩
    · simp only [List.getLast?_cons_cons, List.getLast?_singleton, Option.some.injEq] at a1
      subst a1
      simp only at a2 a3
      exact ⟨fun _ => by linarith, fun _ _ => by linarith, fun _ => a3⟩
    · have hi : i < 3 := by
        have := (List.getElem?_eq_some_iff.1 a2).1
        simp at this; omega
      interval_cases i
      · simp only [List.getElem?_cons_zero, List.getElem?_cons_succ, Option.some.injEq, zero_add] at a1 a2
        subst a1 a2
        simp only [sub_self, R.fl_zero, zero_div, zero_mul, add_zero] at a3 a4 a5
        exact ⟨fun _ => a5, fun _ _ => by linarith, fun _ => by linarith⟩
      · simp only [List.getElem?_cons_zero, List.getElem?_cons_succ, Option.some.injEq, Nat.reduceAdd] at a1 a2
        subst a1 a2
        simp only [sub_zero, R.fl_one, add_zero] at a3 a4 a5
        refine ⟨fun _ => by linarith, fun _ _ => a5.trans (prr t), fun _ => by linarith⟩
      · simp only [List.getElem?_cons_zero, List.getElem?_cons_succ, Option.some.injEq, Nat.reduceAdd] at a1 a2
        subst a1 a2
        simp only [sub_self, R.fl_zero, zero_div, zero_mul, zero_add, R.fl_one] at a3 a4 a5
        exact ⟨fun _ => by linarith, fun _ _ => by linarith, fun _ => a5⟩
  have dnv : ∀ t, (t < start → down t = 1) ∧ (start ≤ t → t < stop → down t = R.fl (1 - pr t)) ∧ (stop ≤ t → down t = 0) := by
    intro t
    have hc := Fl.npInterp_cases (R := R) [(0, 1), (start, 1), (stop, 0), (1, 0)] (by simp) t
    simp only [List.map_cons, List.map_nil] at hc
    change _ ∨ _ ∨ _ at hc
    rcases hc with ⟨k, a1, a2, a3⟩ | ⟨k, a1, a2, a3⟩ | ⟨i, a, b, a1, a2, a3, a4, a5⟩
    · simp only [List.head?_cons, Option.some.injEq] at a1
      subst a1
      simp only at a2 a3
      exact ⟨fun _ => a3, fun _ _ => by linarith, fun _ => by linarith⟩
    · simp only [List.getLast?_cons_cons, List.getLast?_singleton, Option.some.injEq] at a1
      subst a1
      simp only at a2 a3
      exact ⟨fun _ => by linarith, fun _ _ => by linarith, fun _ => a3⟩
    · have hi : i < 3 := by
        have := (List.getElem?_eq_some_iff.1 a2).1
        simp at this; omega
      interval_cases i
      · simp only [List.getElem?_cons_zero, List.getElem?_cons_succ, Option.some.injEq, zero_add] at a1 a2
        subst a1 a2
        simp only [sub_self, R.fl_zero, zero_div, zero_mul, zero_add, R.fl_one] at a3 a4 a5
        exact ⟨fun _ => a5, fun _ _ => by linarith, fun _ => by linarith⟩
      · simp only [List.getElem?_cons_zero, List.getElem?_cons_succ, Option.some.injEq, Nat.reduceAdd] at a1 a2
        subst a1 a2
        simp only [zero_sub, R.neg, R.fl_one] at a3 a4 a5
        refine ⟨fun _ => by linarith, fun _ _ => ?_, fun _ => by linarith⟩
        refine a5.trans ?_
        rw [neg_div, R.neg, neg_mul, R.neg, neg_add_eq_sub]
      · simp only [List.getElem?_cons_zero, List.getElem?_cons_succ, Option.some.injEq, Nat.reduceAdd] at a1 a2
        subst a1 a2
        simp only [sub_self, R.fl_zero, zero_div, zero_mul, add_zero] at a3 a4 a5
        exact ⟨fun _ => by linarith, fun _ _ => by linarith, fun _ => a5⟩
  have pst : pr start = 0 := by simp [pr, R.fl_zero]
  have rng : ∀ t, (0 ≤ up t ∧ up t ≤ 1) ∧ 0 ≤ down t ∧ down t ≤ 1 := by
    intro t
    obtain ⟨u1, u2, u3⟩ := upv t
    obtain ⟨d1, d2, d3⟩ := dnv t
    rcases lt_or_ge t start with h | h
    · rw [u1 h, d1 h]; norm_num
    · rcases lt_or_ge t stop with h' | h'
      · rw [u2 h h', d2 h h']
        exact ⟨⟨pr0 t h, pr1 t h'.le⟩, R.fl_nonneg (by linarith [pr1 t h'.le]), R.fl_le_of_rep (by linarith [pr0 t h]) R.rep_one⟩
      · rw [u3 h', d3 h']; norm_num
  intro t
  refine ⟨?_, ?_, (rng t).1, (rng t).2, ?_⟩
  · intro ht
    rcases ht.lt_or_eq with h | rfl
    · exact ⟨(upv t).1 h, (dnv t).1 h⟩
    · rw [(upv t).2.1 le_rfl h1, (dnv t).2.1 le_rfl h1, pst, sub_zero, R.fl_one]
      exact ⟨rfl, rfl⟩
  · intro ht
    exact ⟨(upv t).2.2 ht, (dnv t).2.2 ht⟩
  · intro t' htt
    rcases lt_or_ge t start with h | h
    · rw [(upv t).1 h, (dnv t).1 h]; exact ⟨(rng t').1.1, (rng t').2.2⟩
    · rcases lt_or_ge t' stop with h' | h'
      · rw [(upv t).2.1 h (by linarith), (upv t').2.1 (by linarith) h', (dnv t).2.1 h (by linarith), (dnv t').2.1 (by linarith) h']
        exact ⟨prm t t' htt, R.mono _ _ (by linarith [prm t t' htt])⟩
      · rw [(upv t').2.2 h', (dnv t').2.2 h']; exact ⟨(rng t).1.2, (rng t).2.1⟩

/-! ### Times of frames -/

/-- C88: the times at which `Builder.build_all(steps)` builds: from exactly 0 on, never falling, in the unit interval, at most one
rounding off; if there are fewer steps than integers that are floats, all are before 1; if there are less than half as many, no two are
equal. -/
theorem C88_build_times (n : ℕ) (hn : 0 < n) :
    Fl.buildTime R n 0 = 0 ∧ (∀ i j, i ≤ j → Fl.buildTime R n i ≤ Fl.buildTime R n j) ∧
    (∀ i, i ≤ n → 0 ≤ Fl.buildTime R n i ∧ Fl.buildTime R n i ≤ 1 ∧ |Fl.buildTime R n i - (i : ℝ) / n| ≤ R.u * ((i : ℝ) / n)) ∧
    (n * R.u ≤ 1 → ∀ i, i < n → Fl.buildTime R n i < 1) ∧
    (2 * n * R.u ≤ 1 → ∀ i j, i < j → j < n → Fl.buildTime R n i < Fl.buildTime R n j) := by
  have hn' : (0 : ℝ) < n := by exact_mod_cast hn
  have hu := R.u_nonneg
  refine ⟨by simp [Fl.buildTime, R.fl_zero], ?_, ?_, ?_, ?_⟩
  · intro i j h
    apply R.mono
    have : (i : ℝ) ≤ j := by exact_mod_cast h
    gcongr
  · intro i h
    have hi : (i : ℝ) ≤ n := by exact_mod_cast h
    refine ⟨R.fl_nonneg (by positivity), R.fl_le_of_rep (div_le_one_of_le₀ hi hn'.le) R.rep_one, ?_⟩
    have := R.err ((i : ℝ) / n)
    rwa [abs_of_nonneg (a := (i : ℝ) / n) (by positivity)] at this
  · intro h i hi
    have hi' : (i : ℝ) + 1 ≤ n := by exact_mod_cast hi
    have h0 : (0 : ℝ) ≤ i := Nat.cast_nonneg i
    calc Fl.buildTime R n i ≤ (1 + R.u) * ((i : ℝ) / n) := R.fl_le (by positivity)
      _ < 1 := by
        rw [← mul_div_assoc, div_lt_one hn']
        nlinarith
  · intro h i j hij hj
    have hi0 : (0 : ℝ) ≤ i := Nat.cast_nonneg i
    have h1 : (i : ℝ) + 1 ≤ j := by exact_mod_cast hij
    have h2 : (j : ℝ) + 1 ≤ n := by exact_mod_cast hj
    calc Fl.buildTime R n i ≤ (1 + R.u) * ((i : ℝ) / n) := R.fl_le (by positivity)
      _ < (1 - R.u) * ((j : ℝ) / n) := by
        rw [← mul_div_assoc, ← mul_div_assoc, div_lt_div_iff_of_pos_right hn']
        nlinarith
      _ ≤ Fl.buildTime R n j := R.le_fl (by positivity)

/-- C88: the times at which `SimpleAnimation.animate()` draws: no steps are an error; otherwise the first time is exactly `t_low`, times
do not fall (rise) if `t_low ≤ t_high` (`t_high ≤ t_low`), and each is within seven roundings. -/
theorem C88_frame_times (lo hi : ℝ) (n : ℕ) :
    (n = 0 → ∀ i, Fl.frameTime R lo hi n i = .error .zeroDivision) ∧
    (0 < n → ∃ T : ℕ → ℝ, (∀ i, Fl.frameTime R lo hi n i = .ok (T i)) ∧ (R.Rep lo → T 0 = lo) ∧
      (lo ≤ hi → ∀ i j, i ≤ j → T i ≤ T j) ∧ (hi ≤ lo → ∀ i j, i ≤ j → T j ≤ T i) ∧
      ∀ i, |T i - (lo + (i : ℝ) / n * (hi - lo))| ≤ R.gam 7 * (|lo| + (i : ℝ) / n * |hi - lo|)) := by
  constructor
  · rintro rfl i
    simp [Fl.frameTime, pyDiv, R.fl_zero]
  · intro hn
    have hn' : (0 : ℝ) < n := by exact_mod_cast hn
    have hf : 0 < R.fl (n : ℝ) := R.fl_pos hn'
    refine ⟨fun i => R.fl (lo + R.fl (R.fl i * R.fl (R.fl (hi - lo) / R.fl n))), ?_, ?_, ?_, ?_, ?_⟩
    · intro i
      simp [Fl.frameTime, pyDiv, hf.ne']
    · intro h
      simp only [Nat.cast_zero, R.fl_zero, zero_mul, add_zero]
      exact h
    · intro h i j hij
      have : (i : ℝ) ≤ j := by exact_mod_cast hij
      have hs : 0 ≤ R.fl (R.fl (hi - lo) / R.fl n) := R.fl_nonneg (div_nonneg (R.fl_nonneg (by linarith)) hf.le)
      apply R.mono
      have := R.mono _ _ (mul_le_mul_of_nonneg_right (R.mono _ _ this) hs)
      linarith
    · intro h i j hij
      have : (i : ℝ) ≤ j := by exact_mod_cast hij
      have hs : R.fl (R.fl (hi - lo) / R.fl n) ≤ 0 := R.fl_nonpos (div_nonpos_of_nonpos_of_nonneg (R.fl_nonpos (by linarith)) hf.le)
      apply R.mono
      have := R.mono _ _ (mul_le_mul_of_nonpos_right (R.mono _ _ this) hs)
      linarith
    · intro i
      have n1 := ((Near.of_abs (R := R) (hi - lo)).fl).div_fl hn'
      have n2 := (Near.of_le (R := R) (x := (i : ℝ)) (A := i) (by rw [abs_of_nonneg (Nat.cast_nonneg i)])).fl
      have n3 := ((Near.of_abs (R := R) lo).add (n2.mul n1)).mono (n := 7) (by simp) le_rfl
      rw [show (i : ℝ) * ((hi - lo) / n) = (i : ℝ) / n * (hi - lo) by ring,
        show (i : ℝ) * (|hi - lo| / n) = (i : ℝ) / n * |hi - lo| by ring] at n3
      exact n3.2

/-- C88: the last time need not be `t_high`: with the 53 digits of Python's floats, the last of 49 steps from 0 to 1 is drawn at
`1 - 2 ^ (-53)`. -/
theorem C88_last_frame_counterexample :
    let R := Rnd.binary 53 (by norm_num)
    Fl.frameTime R 0 1 49 49 = .ok (1 - 2 ^ (-53 : ℤ)) := by
  intro R
  have hfl : R.fl = flBin 53 := rfl
  have h49 : R.fl ((49 : ℕ) : ℝ) = 49 := by
    have := R.int 49 (by show |((49 : ℤ) : ℝ)| * (2 : ℝ) ^ (-((53 : ℕ) : ℤ)) ≤ 1; norm_num)
    simpa using this
  have e1 : R.fl (1 / 49) = 5882252574524729 * 2 ^ (-58 : ℤ) := by
    rw [hfl]
    have := Fl.flBin_eq 53 (1 / 49) (-6) 5882252574524729 (by rw [abs_of_pos (by norm_num)]; norm_num)
      (by rw [abs_of_pos (by norm_num)]; norm_num)
      (by
        constructor
        · rw [abs_le]; norm_num
        · intro h; exfalso; norm_num [abs_of_pos] at h)
    rw [this]; norm_num
  have e2 : R.fl (49 * (5882252574524729 * 2 ^ (-58 : ℤ))) = 1 - 2 ^ (-53 : ℤ) := by
    rw [hfl]
    have := Fl.flBin_eq 53 (49 * (5882252574524729 * 2 ^ (-58 : ℤ))) (-1) (2 ^ 53 - 1) (by rw [abs_of_pos (by norm_num)]; norm_num)
      (by rw [abs_of_pos (by norm_num)]; norm_num)
      (by
        constructor
        · rw [abs_le]; norm_num
        · intro h; exfalso; norm_num [abs_of_neg, abs_of_pos] at h)
    rw [this]; norm_num
  have e3 : R.fl (1 - 2 ^ (-53 : ℤ)) = 1 - 2 ^ (-53 : ℤ) := by rw [← e2]; exact R.idem _
  simp only [Fl.frameTime, sub_zero, R.fl_one, h49, pyDiv, if_neg (by norm_num : (49 : ℝ) ≠ 0), e1, e2, zero_add, e3]

/-- A case that meets the hypotheses: Python's floats, a morph over two steps, and a curve of two knots. -/
example : ∃ (R : Rnd) (m : Morph.MM), R.u = 2 ^ (-53 : ℤ) ∧ m.steps = [0, 1 / 2] ∧ m.steps.length = m.curves.length ∧ m.curves ≠ [] ∧
    (∀ c ∈ m.curves, c.length = m.morph.length) ∧ m.tfunc (.num (1 / 3)) = .ok (.num (1 / 3)) ∧
    (∀ c ∈ m.curves, ∀ cp ∈ c, cp.AtMost 5) ∧ (∀ c ∈ m.curves, ∀ cp ∈ c, R.RepCP cp) ∧ 2 * ((1000000 : ℕ) : ℝ) * R.u ≤ 1 := by
  let R := Rnd.binary 53 (by norm_num)
  let a : CP ℝ := ⟨⟨0, 0⟩, ⟨0, 0⟩, ⟨0, 0⟩, ""⟩
  let b : CP ℝ := ⟨⟨4, 5⟩, ⟨1, 0⟩, ⟨-1, 0⟩, ""⟩
  let h : Hdr := ⟨['a'], ⟨none, none⟩, true, Mat3.one⟩
  have hu : R.u = 2 ^ (-53 : ℤ) := rfl
  have hint : ∀ n : ℤ, |n| ≤ 5 → R.Rep n := by
    intro n hn
    apply R.int
    have : |(n : ℝ)| ≤ 5 := by exact_mod_cast hn
    have : |(n : ℝ)| * R.u ≤ 5 * R.u := mul_le_mul_of_nonneg_right this R.u_nonneg
    rw [hu] at this ⊢
    norm_num at this ⊢
    linarith
  have r0 : R.Rep 0 := R.rep_zero
  have r1 : R.Rep 1 := R.rep_one
  have r2 : R.Rep (-1) := R.rep_neg r1
  have r4 : R.Rep 4 := by have := hint 4 (by norm_num); simpa using this
  have r5 : R.Rep 5 := by have := hint 5 (by norm_num); simpa using this
  refine ⟨R, ⟨h, [a], [0, 1 / 2], [[a], [b]], [a], fun l => .curve h l, fun t => .ok t⟩, hu, rfl, rfl, by simp, by simp, rfl, ?_, ?_, ?_⟩
  · intro c hc cp hcp k
    simp only [List.mem_cons, List.not_mem_nil, or_false] at hc
    rcases hc with rfl | rfl <;> simp only [List.mem_singleton] at hcp <;> subst hcp <;> fin_cases k <;>
      norm_num [Morph.coord, a, b]
  · intro c hc cp hcp k
    simp only [List.mem_cons, List.not_mem_nil, or_false] at hc
    rcases hc with rfl | rfl <;> simp only [List.mem_singleton] at hcp <;> subst hcp <;> fin_cases k <;>
      simp only [Morph.coord, a, b] <;> assumption
  · rw [hu]; norm_num

end X7
