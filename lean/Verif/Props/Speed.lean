import Verif.Lemmas.Speed
import Verif.Props.Morph
import Verif.Props.MorphMulti
import Verif.Props.Approx

/-!
C129: how far what is drawn moves from one frame to the next.
-/

noncomputable section

namespace X7.Anim
open X7.Utils (distPt)
open X7.Approx (nrm distPt_nrm nrm_add nrm_smul nrm_nonneg nrm_dir dot_le)

/-! ### Time functions -/

/-- C129: `interpolate(curve)` changes by at most the steepest slope between knots. -/
theorem C129_interpolate (curve : List (ℝ × ℝ)) (L : ℝ) (L0 : 0 ≤ L) (hc : Gentle L curve) (f : TFunc) (hf : interpolate curve = .ok f) :
    Slow L f := by
  have hne : curve ≠ [] := by rintro rfl; simp [interpolate] at hf
  obtain ⟨f', e1, e2, -⟩ := C61_interpolate curve hne
  rw [hf] at e1
  injection e1 with e1
  subst e1
  intro t t' v w sx sy sx' sy' hv hw tv tw
  obtain ⟨x, q1, q2, -⟩ := e2 t
  obtain ⟨x', q1', q2', -⟩ := e2 t'
  rw [q1] at hv; cases hv
  rw [q1'] at hw; cases hw
  cases tv; cases tw
  have := poly_slow' L0 hc q2 q2'
  exact ⟨this, this⟩

/-- C129: `ramp_up` and `ramp_down` change by at most one over the length of the ramp. -/
theorem C129_ramp (start stop : ℝ) (h0 : 0 ≤ start) (h1 : start < stop) (h2 : stop ≤ 1) :
    ∃ f g, rampUp start stop = .ok f ∧ rampDown start stop = .ok g ∧ Slow (1 / (stop - start)) f ∧ Slow (1 / (stop - start)) g := by
  obtain ⟨f, g, e1, e2, e3⟩ := C61_ramp start stop h0 h1 h2
  have hd : 0 < stop - start := by linarith
  have key : ∀ t t' : ℝ, |max 0 (min 1 ((t - start) / (stop - start))) - max 0 (min 1 ((t' - start) / (stop - start)))| ≤
      1 / (stop - start) * |t - t'| := by
    intro t t'
    have a1 := abs_max_sub_max_le_abs (min 1 ((t - start) / (stop - start))) (min 1 ((t' - start) / (stop - start))) 0
    have a2 := abs_min_sub_min_le_max 1 ((t - start) / (stop - start)) 1 ((t' - start) / (stop - start))
    rw [sub_self, abs_zero, max_eq_right (abs_nonneg _)] at a2
    rw [max_comm _ (0 : ℝ), max_comm _ (0 : ℝ)] at a1
    refine (a1.trans a2).trans (le_of_eq ?_)
    rw [← sub_div, abs_div, abs_of_pos hd, sub_sub_sub_cancel_right]
    ring
  refine ⟨f, g, e1, e2, ?_, ?_⟩
  · intro t t' v w sx sy sx' sy' hv hw tv tw
    rw [(e3 t).1] at hv; cases hv
    rw [(e3 t').1] at hw; cases hw
    cases tv; cases tw
    exact ⟨key t t', key t t'⟩
  · intro t t' v w sx sy sx' sy' hv hw tv tw
    rw [(e3 t).2] at hv; cases hv
    rw [(e3 t').2] at hw; cases hw
    cases tv; cases tw
    have := key t t'
    rw [abs_sub_comm] at this
    rw [sub_sub_sub_cancel_left]
    exact ⟨this, this⟩

/-- C129: `sin`, `cos` and `sin_cos`. -/
theorem C129_periodic (f offset scale shift : ℝ) :
    Slow (|scale| * |2 * Real.pi * f + radians offset|) (periodic Real.sin f offset scale shift) ∧
    Slow (|scale| * |2 * Real.pi * f + radians offset|) (periodic Real.cos f offset scale shift) ∧
    Slow (|scale| * |2 * Real.pi * f + radians offset|) (sinCos f offset scale shift) := by
  have key : ∀ (g : ℝ → ℝ), (∀ x y, |g x - g y| ≤ |x - y|) → ∀ t t' : ℝ,
      |g (t * (tau * f + radians offset)) * scale + shift - (g (t' * (tau * f + radians offset)) * scale + shift)| ≤
        |scale| * |2 * Real.pi * f + radians offset| * |t - t'| := by
    intro g hg t t'
    rw [add_sub_add_right_eq_sub, ← sub_mul, abs_mul, mul_comm, mul_assoc]
    refine mul_le_mul_of_nonneg_left ((hg _ _).trans (le_of_eq ?_)) (abs_nonneg _)
    rw [← sub_mul, abs_mul, mul_comm, tau]
  refine ⟨?_, ?_, ?_⟩
  · intro t t' v w sx sy sx' sy' hv hw tv tw
    cases hv; cases hw; cases tv; cases tw
    exact ⟨key _ abs_sin_sub t t', key _ abs_sin_sub t t'⟩
  · intro t t' v w sx sy sx' sy' hv hw tv tw
    cases hv; cases hw; cases tv; cases tw
    exact ⟨key _ abs_cos_sub t t', key _ abs_cos_sub t t'⟩
  · intro t t' v w sx sy sx' sy' hv hw tv tw
    cases hv; cases hw; cases tv; cases tw
    exact ⟨key _ abs_sin_sub t t', key _ abs_cos_sub t t'⟩

/-- Up to one and back within a unit of time: at most two per unit of time. -/
example : Gentle 2 [(0, 0), (1 / 2, 1), (1, 0)] := by
  intro i a b ha hb
  match i with
  | 0 => simp at ha hb; subst ha hb; norm_num
  | 1 => simp at ha hb; subst ha hb; norm_num
  | 2 => simp at hb
  | (n + 3) => simp at hb

/-! ### Points -/

/-- C129: the places of an animated point at two times are at most its speed times the difference of the times apart. -/
theorem C129_point {h : PH.Heap ℝ} {a : Anim} {K : ℝ} (hK : Speed h a K) {t t' : ℝ} {p p' : Pt ℝ} (hp : At h a t p) (hp' : At h a t' p') :
    distPt p p' ≤ K * |t - t'| := by
  cases hK with
  | linear hq =>
    cases hp with
    | linear q1 =>
    cases hp' with
    | linear q2 =>
      rw [reads_unique q1 hq, reads_unique q2 hq, mul_comm]
      exact between_dist _ _ le_rfl le_rfl
  | func hq hs =>
    cases hp with
    | func q1 e1 =>
      cases hp' with
      | func q2 e2 =>
        obtain ⟨k1, k2⟩ := hs t t' _ _ _ _ _ _ e1 e2 (.num _) (.num _)
        rw [reads_unique q1 hq, reads_unique q2 hq, mul_right_comm]
        exact between_dist _ _ k1 k2
      | funcPair q2 e2 =>
        obtain ⟨k1, k2⟩ := hs t t' _ _ _ _ _ _ e1 e2 (.num _) (.pair _ _)
        rw [reads_unique q1 hq, reads_unique q2 hq, mul_right_comm]
        exact between_dist _ _ k1 k2
    | funcPair q1 e1 =>
      cases hp' with
      | func q2 e2 =>
        obtain ⟨k1, k2⟩ := hs t t' _ _ _ _ _ _ e1 e2 (.pair _ _) (.num _)
        rw [reads_unique q1 hq, reads_unique q2 hq, mul_right_comm]
        exact between_dist _ _ k1 k2
      | funcPair q2 e2 =>
        obtain ⟨k1, k2⟩ := hs t t' _ _ _ _ _ _ e1 e2 (.pair _ _) (.pair _ _)
        rw [reads_unique q1 hq, reads_unique q2 hq, mul_right_comm]
        exact between_dist _ _ k1 k2
  | sinusoidal hq =>
    cases hp with
    | sinusoidal q1 =>
    cases hp' with
    | sinusoidal q2 =>
      rename_i f d q q'
      rw [reads_unique q1 hq, reads_unique q2 hq, mul_right_comm]
      have := abs_sin_sq_sub (Real.pi * (f * t + d / 360)) (Real.pi * (f * t' + d / 360))
      rw [show Real.pi * (f * t + d / 360) - Real.pi * (f * t' + d / 360) = Real.pi * f * (t - t') by ring, abs_mul, abs_mul,
        abs_of_pos Real.pi_pos] at this
      exact between_dist _ _ this this
  | circular =>
    cases hp with
    | circular =>
    cases hp' with
    | circular =>
      rename_i o r f d
      refine (circle_dist _ _ _ _).trans (le_of_eq ?_)
      rw [show 2 * Real.pi * f * t + d - (2 * Real.pi * f * t' + d) = 2 * Real.pi * f * (t - t') by ring, abs_mul, abs_mul,
        abs_of_pos (by positivity : (0 : ℝ) < 2 * Real.pi)]
      ring

/-- C129: the bound is reached: a linear animation moves with exactly its speed. -/
theorem C129_sharp (h : PH.Heap ℝ) (pt g : ℕ) (o q p p' : Pt ℝ) (hq : PH.Reads h g q) (t t' : ℝ) (hp : At h (.linear pt o g) t p)
    (hp' : At h (.linear pt o g) t' p') : distPt p p' = distPt o q * |t - t'| := by
  cases hp with
  | linear q1 =>
  cases hp' with
  | linear q2 =>
    rw [reads_unique q1 hq, reads_unique q2 hq]
    simp only [distPt, between]
    rw [← Real.sqrt_sq_eq_abs, ← Real.sqrt_mul (by positivity)]
    congr 1
    ring

/-- The places a point has in the frames of `build_all(steps)`. -/
theorem frame_places (ops : List (PH.POp ℝ)) (anims : List Anim) (hf : Fine (PH.run [] ops) anims) (hist : List (Anim × TVal))
    (hh : ∀ x ∈ hist, x.1 ∈ anims) (steps : ℕ) (hA : ∀ a ∈ anims, ∀ t, ∃ p, At (PH.run [] ops) a t p) (a : Anim) (ha : a ∈ anims) :
    ∃ places : List (Pt ℝ), (buildAll (fun h => .ok (PH.xy h a.pt)) anims steps (history (PH.run [] ops) hist)).2 = .ok (places.map .ok) ∧
      places.length = steps ∧ ∀ (i : ℕ) (p : Pt ℝ), places[i]? = some p → At (PH.run [] ops) a ((i : ℝ) / steps) p := by
  rw [C62_build_all _ ops anims hf hist hh steps hA]
  choose pos hpos using hA a ha
  have e : ∀ t, PH.xy (objectsAt (PH.run [] ops) anims t) a.pt = .ok (pos t) := by
    intro t
    obtain ⟨h2, e1, e2, -⟩ := C58_holder ops anims anims hf (List.Perm.refl _) [] (by simp) t (fun a ha => hA a ha t)
    obtain ⟨x, y, n, -, e3⟩ := e2 a ha (pos t) (hpos t)
    have e0 : history (PH.run [] ops) [] = PH.run [] ops := rfl
    rw [e0] at e1
    rw [objectsAt, e1, PH.xy, e3]
  refine ⟨(List.range steps).map fun (i : ℕ) => pos ((i : ℝ) / steps), ?_, by simp, ?_⟩
  · simp only [e, List.map_map]
    rfl
  · intro i p hp
    simp only [List.getElem?_map, Option.map_eq_some_iff] at hp
    obtain ⟨j, hj, rfl⟩ := hp
    obtain ⟨h1, h2⟩ := List.getElem?_eq_some_iff.1 hj
    rw [List.getElem_range] at h2
    subst h2
    exact hpos _

/-- C129: from one frame of `build_all(steps)` to the next an animated point moves by at most its speed divided by the number of steps. -/
theorem C129_frames (ops : List (PH.POp ℝ)) (anims : List Anim) (hf : Fine (PH.run [] ops) anims) (hist : List (Anim × TVal))
    (hh : ∀ x ∈ hist, x.1 ∈ anims) (steps : ℕ) (hA : ∀ a ∈ anims, ∀ t, ∃ p, At (PH.run [] ops) a t p) (a : Anim) (ha : a ∈ anims) (K : ℝ)
    (hK : Speed (PH.run [] ops) a K) :
    ∃ places : List (Pt ℝ), (buildAll (fun h => .ok (PH.xy h a.pt)) anims steps (history (PH.run [] ops) hist)).2 = .ok (places.map .ok) ∧
      places.length = steps ∧ ∀ (i : ℕ) (p p' : Pt ℝ), places[i]? = some p → places[i + 1]? = some p' → distPt p p' ≤ K / steps := by
  obtain ⟨places, e1, e2, e3⟩ := frame_places ops anims hf hist hh steps hA a ha
  refine ⟨places, e1, e2, fun i p p' hp hp' => ?_⟩
  have := C129_point hK (e3 _ _ hp) (e3 _ _ hp')
  have e : |(i : ℝ) / steps - ((i + 1 : ℕ) : ℝ) / steps| = 1 / steps := by
    rw [← sub_div, abs_div, Nat.abs_cast]
    push_cast
    rw [sub_add_cancel_left, abs_neg, abs_one]
  rwa [e, mul_one_div] at this

/-- A whole number of turns or swings. -/
def Whole (f : ℝ) : Prop := ∃ n : ℤ, f = n

/-- C129: an animation in a circle or to and fro with a whole number of turns runs on from the last frame to the first one: that step, too,
is at most the speed divided by the number of steps. -/
theorem C129_loop (ops : List (PH.POp ℝ)) (anims : List Anim) (hf : Fine (PH.run [] ops) anims) (hist : List (Anim × TVal))
    (hh : ∀ x ∈ hist, x.1 ∈ anims) (steps : ℕ) (hs : 0 < steps) (hA : ∀ a ∈ anims, ∀ t, ∃ p, At (PH.run [] ops) a t p) (a : Anim) (ha : a ∈ anims)
    (K : ℝ) (hK : Speed (PH.run [] ops) a K)
    (hw : (∃ pt o r f d, a = .circular pt o r f d ∧ Whole f) ∨ ∃ pt o g f d, a = .sinusoidal pt o g f d ∧ Whole f) :
    ∃ (places : List (Pt ℝ)) (p p' : Pt ℝ), (buildAll (fun h => .ok (PH.xy h a.pt)) anims steps (history (PH.run [] ops) hist)).2 = .ok (places.map .ok) ∧
      places.getLast? = some p ∧ places.head? = some p' ∧ distPt p p' ≤ K / steps := by
  obtain ⟨places, e1, e2, e3⟩ := frame_places ops anims hf hist hh steps hA a ha
  have h0 : 0 < places.length := by omega
  have hl : places.length - 1 < places.length := by omega
  refine ⟨places, places[places.length - 1], places[0], e1, by rw [List.getLast?_eq_getElem?, List.getElem?_eq_getElem hl],
    by rw [List.head?_eq_getElem?, List.getElem?_eq_getElem h0], ?_⟩
  have q0 := e3 0 _ (List.getElem?_eq_getElem h0)
  have ql := e3 _ _ (List.getElem?_eq_getElem hl)
  have q1 : At (PH.run [] ops) a 1 places[0] := by
    rw [Nat.cast_zero, zero_div] at q0
    generalize places[0] = p0 at q0
    rcases hw with ⟨pt, o, r, f, d, rfl, n, rfl⟩ | ⟨pt, o, g, f, d, rfl, n, rfl⟩
    · cases q0
      have : At (PH.run [] ops) (.circular pt o r n d) 1 _ := .circular
      rw [show 2 * Real.pi * (n : ℝ) * 1 + d = d + n * (2 * Real.pi) by ring, Real.sin_add_int_mul_two_pi, Real.cos_add_int_mul_two_pi] at this
      rwa [mul_zero, zero_add]
    · cases q0 with
      | sinusoidal hq =>
      have : At (PH.run [] ops) (.sinusoidal pt o g n d) 1 _ := .sinusoidal hq
      rw [show Real.pi * ((n : ℝ) * 1 + d / 360) = Real.pi * (n * 0 + d / 360) + n * Real.pi by ring, Real.sin_add_int_mul_pi, mul_pow,
        show ((-1 : ℝ) ^ n) ^ 2 = 1 by rcases Int.even_or_odd n with h | h <;> simp [h.neg_one_zpow], one_mul] at this
      exact this
  have := C129_point hK ql q1
  have sp : (0 : ℝ) < steps := by exact_mod_cast hs
  have e : |((places.length - 1 : ℕ) : ℝ) / steps - 1| = 1 / steps := by
    rw [e2, Nat.cast_sub (by omega), Nat.cast_one]
    rw [show ((steps : ℝ) - 1) / steps - 1 = -(1 / steps) by field_simp; ring, abs_neg, abs_of_pos (by positivity)]
  rwa [e, mul_one_div] at this

/-- Two points circling, built after another update: the assumptions of the last two theorems. -/
example : let ops : List (PH.POp ℝ) := [.mkPoint 0 0 none, .mkPoint 9 9 none]
    Fine (PH.run [] ops) [.circular 0 ⟨0, 0⟩ 2 1 0, .circular 1 ⟨9, 9⟩ 1 3 0] ∧
    (∀ a ∈ [Anim.circular 0 ⟨0, 0⟩ 2 1 0, .circular 1 ⟨9, 9⟩ 1 3 0], ∀ t, ∃ p, At (PH.run [] ops) a t p) ∧
    Speed (PH.run [] ops) (.circular 0 ⟨0, 0⟩ 2 1 0) (2 * Real.pi * |1| * |2|) ∧ Whole 1 := by
  intro ops
  have hr : PH.run [] ops = [.point 0 0 none, .point 9 9 none] := rfl
  rw [hr]
  refine ⟨⟨?_, ?_, ?_⟩, ?_, .circular, 1, by simp⟩
  · intro a ha
    simp only [List.mem_cons, List.not_mem_nil, or_false] at ha
    rcases ha with rfl | rfl
    · exact ⟨0, 0, none, rfl⟩
    · exact ⟨9, 9, none, rfl⟩
  · simp [Anim.pt]
  · intro a ha g hg
    simp only [List.mem_cons, List.not_mem_nil, or_false] at ha
    rcases ha with rfl | rfl <;> simp [Anim.target] at hg
  · intro a ha t
    simp only [List.mem_cons, List.not_mem_nil, or_false] at ha
    rcases ha with rfl | rfl <;> exact ⟨_, .circular⟩

/-- C129 (finding): a time function `sin` with an offset does not run on: with one turn and an offset of 90 degrees it is 0 at the start, grows to
the end and is 1 there. -/
theorem C129_offset_counterexample : periodic Real.sin 1 90 1 0 (.num 0) = .ok (.num 0) ∧ periodic Real.sin 1 90 1 0 (.num 1) = .ok (.num 1) := by
  have e : tau * 1 + radians 90 = Real.pi / 2 + 2 * Real.pi := by rw [tau, radians]; ring
  constructor
  · simp [periodic]
  · rw [mul_one] at e
    simp only [periodic, one_mul, mul_one, e, Real.sin_add_two_pi, Real.sin_pi_div_two, add_zero]

/-! ### Morphs -/

open Elem Morph in
/-- Curves whose control points are apart by at most `K` are drawn apart by at most `L * K`, point for point. -/
theorem drawn_apart (cfg : DCfg) (h : Hdr) (mat : Mat3 ℝ) {cps cps' : List (CP ℝ)} {K L : ℝ} (L0 : 0 ≤ L)
    (hL : ∀ p q, distPt ((mat.mul h.xf).apply p) ((mat.mul h.xf).apply q) ≤ L * distPt p q) (hK : List.Forall₂ (Apart K) cps cps') :
    ∃ pts pts', Elem.drawn cfg (.curve h cps) mat = .ok [⟨h.pb, h.closed, pts⟩] ∧
      Elem.drawn cfg (.curve h cps') mat = .ok [⟨h.pb, h.closed, pts'⟩] ∧ List.Forall₂ (fun p q => distPt p q ≤ L * K) pts pts' := by
  rw [Elem.drawn_basic cfg _ (by simp only [Elem.Basic]), Elem.drawn_basic cfg _ (by simp only [Elem.Basic])]
  refine ⟨_, _, rfl, rfl, ?_⟩
  rw [List.forall₂_map_left_iff, List.forall₂_map_right_iff]
  refine (pathOf_apart _ (segs_apart h.closed hK)).imp fun p q hpq => ?_
  exact (hL p q).trans (mul_le_mul_of_nonneg_left hpq L0)

theorem blend_apart {K s s' : ℝ} {o g r r' : List (CP ℝ)} (hl : o.length = g.length) (hK : List.Forall₂ (Apart K) o g)
    (h : Morph.Blended s o g r) (h' : Morph.Blended s' o g r') : List.Forall₂ (Apart (K * |s - s'|)) r r' := by
  obtain ⟨l1, b1⟩ := h
  obtain ⟨l2, b2⟩ := h'
  rw [List.forall₂_iff_get]
  refine ⟨by omega, fun i hi hi' => ?_⟩
  simp only [List.get_eq_getElem]
  have hio : i < o.length := by omega
  have hig : i < g.length := by omega
  have c1 := (b1 i _ _ _ (List.getElem?_eq_getElem hio) (List.getElem?_eq_getElem hig) (List.getElem?_eq_getElem hi)).2
  have c2 := (b2 i _ _ _ (List.getElem?_eq_getElem hio) (List.getElem?_eq_getElem hig) (List.getElem?_eq_getElem hi')).2
  obtain ⟨k1, k2, k3⟩ := hK.get hio hig
  simp only [List.get_eq_getElem] at k1 k2 k3
  have go : ∀ p q x y : Pt ℝ, distPt p q ≤ K → x = between p q s s → y = between p q s' s' → distPt x y ≤ K * |s - s'| := by
    rintro p q _ _ h rfl rfl
    refine (between_dist p q le_rfl le_rfl).trans ?_
    rw [mul_comm]
    exact mul_le_mul_of_nonneg_right h (abs_nonneg _)
  have a0 := c1 0; have a1 := c1 1; have a2 := c1 2; have a3 := c1 3; have a4 := c1 4; have a5 := c1 5
  have d0 := c2 0; have d1 := c2 1; have d2 := c2 2; have d3 := c2 3; have d4 := c2 4; have d5 := c2 5
  simp only [Morph.coord] at a0 a1 a2 a3 a4 a5 d0 d1 d2 d3 d4 d5
  refine ⟨go _ _ _ _ k1 ?_ ?_, go _ _ _ _ k2 ?_ ?_, go _ _ _ _ k3 ?_ ?_⟩ <;> ext <;> simp only [between] <;> linarith

/-- C129: whatever a morph was updated to before, what it draws at two times is apart, point for point, by at most the difference of the time
function's values times the largest distance between a control point or handle end of source and target, as enlarged by the transforms. -/
theorem C129_morph {model : List (CP ℝ) → Elem} {h : Hdr} {source target : List (CP ℝ)} {tfunc : TFunc} {force : Bool} {m : Morph.M}
    (hm : Morph.mk model h source target tfunc force = .ok m) (hk : Elem.Keyed (model m.orig)) (K : ℝ) (hK : List.Forall₂ (Apart K) m.orig m.target)
    (cfg : DCfg) (mat : Mat3 ℝ) (L : ℝ) (L0 : 0 ≤ L)
    (hL : ∀ p q, distPt ((mat.mul h.xf).apply p) ((mat.mul h.xf).apply q) ≤ L * distPt p q)
    (ts ts' : List TVal) (t t' : TVal) (s s' : ℝ) (hs : tfunc t = .ok (.num s)) (hs' : tfunc t' = .ok (.num s')) :
    ∃ m1 m2 pts pts', (m.after ts).update t = .ok m1 ∧ (m.after ts').update t' = .ok m2 ∧
      Elem.drawn cfg (.curve h m1.morph) mat = .ok [⟨h.pb, h.closed, pts⟩] ∧ Elem.drawn cfg (.curve h m2.morph) mat = .ok [⟨h.pb, h.closed, pts'⟩] ∧
      List.Forall₂ (fun p q => distPt p q ≤ L * (K * |s - s'|)) pts pts' := by
  obtain ⟨m1, u1, l1, b1, -⟩ := Morph.C59_update hm hk ts t s hs
  obtain ⟨m2, u2, l2, b2, -⟩ := Morph.C59_update hm hk ts' t' s' hs'
  obtain ⟨pts, pts', d1, d2, d3⟩ := drawn_apart cfg h mat L0 hL (blend_apart l1 hK b1 b2)
  exact ⟨m1, m2, pts, pts', u1, u2, d1, d2, d3⟩

/-- Two control points that move by five, with handles that turn. -/
example : List.Forall₂ (Apart 5) [⟨⟨0, 0⟩, ⟨-1, 0⟩, ⟨1, 0⟩, "smooth"⟩, ⟨⟨4, 0⟩, ⟨0, 0⟩, ⟨0, 0⟩, "sharp"⟩]
    [⟨⟨3, 2⟩, ⟨-1, 2⟩, ⟨1, 2⟩, "smooth"⟩, ⟨⟨4, 5⟩, ⟨0, 0⟩, ⟨0, 0⟩, "sharp"⟩] := by
  refine .cons ⟨?_, ?_, ?_⟩ (.cons ⟨?_, ?_, ?_⟩ .nil) <;> simp only [distPt] <;> apply Real.sqrt_le_iff.2 <;> norm_num

/-- C129: the same for a morph of several steps: if from each curve to the next one the control points and handle ends move with speed at most
`V`, what is drawn does, also across the steps. -/
theorem C129_multi {model : Elem} {h : Hdr} {source : List (CP ℝ)} {targets : List (ℝ × Hdr × List (CP ℝ))} {tfunc : TFunc} {force : Bool}
    (hs : 2 ≤ source.length) (ht : ∀ x ∈ targets, 2 ≤ x.2.2.length) (hk : Elem.Keyed model) (hfound : Morph.Below (.curve h source) model)
    {m : Morph.MM} (hm : Morph.mkMulti model h source targets tfunc force = .ok m) (V : ℝ) (V0 : 0 ≤ V)
    (hV : ∀ (j : ℕ) (a b : ℝ) (c c' : List (CP ℝ)), m.steps[j]? = some a → m.steps[j + 1]? = some b → m.curves[j]? = some c →
      m.curves[j + 1]? = some c' → a < b ∧ List.Forall₂ (Apart (V * (b - a))) c c')
    (cfg : DCfg) (mat : Mat3 ℝ) (L : ℝ) (L0 : 0 ≤ L)
    (hL : ∀ p q, distPt ((mat.mul h.xf).apply p) ((mat.mul h.xf).apply q) ≤ L * distPt p q)
    (ts ts' : List TVal) (t t' : TVal) (s s' : ℝ) (hf : tfunc t = .ok (.num s)) (hf' : tfunc t' = .ok (.num s')) :
    ∃ m1 m2 pts pts', (m.after ts).update t = .ok m1 ∧ (m.after ts').update t' = .ok m2 ∧
      Elem.drawn cfg (.curve h m1.morph) mat = .ok [⟨h.pb, h.closed, pts⟩] ∧ Elem.drawn cfg (.curve h m2.morph) mat = .ok [⟨h.pb, h.closed, pts'⟩] ∧
      List.Forall₂ (fun p q => distPt p q ≤ L * (V * |s - s'|)) pts pts' := by
  obtain ⟨m1, u1, l1, -, cl, b1⟩ := Morph.C60_update hs ht hk hfound hm ts t s hf
  obtain ⟨m2, u2, l2, -, -, b2⟩ := Morph.C60_update hs ht hk hfound hm ts' t' s' hf'
  have hlen : m.steps.length = m.curves.length := by
    obtain ⟨m0, n, e1, e2, -, -, e3, -⟩ := Morph.C60_prepare model h source targets tfunc force hs ht hk hfound
    rw [hm] at e1
    injection e1 with e1
    subst e1
    have := e3.length_eq
    rw [e2]
    simpa using this
  have hne : m.steps ≠ [] := by
    obtain ⟨m0, n, e1, e2, -⟩ := Morph.C60_prepare model h source targets tfunc force hs ht hk hfound
    rw [hm] at e1
    injection e1 with e1
    subst e1
    rw [e2]; simp
  -- a linear combination of the six numbers of control point `i`
  have lin : ∀ (i : ℕ) (hi1 : i < m1.morph.length) (hi2 : i < m2.morph.length) (α : Fin 6 → ℝ),
      (∀ (j : ℕ) (a b : ℝ) (c c' : List (CP ℝ)), m.steps[j]? = some a → m.steps[j + 1]? = some b → m.curves[j]? = some c →
        m.curves[j + 1]? = some c' → |∑ k, α k * Morph.coord k (c'.getD i ⟨⟨0, 0⟩, ⟨0, 0⟩, ⟨0, 0⟩, ""⟩) -
          ∑ k, α k * Morph.coord k (c.getD i ⟨⟨0, 0⟩, ⟨0, 0⟩, ⟨0, 0⟩, ""⟩)| ≤ V * (b - a)) →
      |∑ k, α k * Morph.coord k m1.morph[i] - ∑ k, α k * Morph.coord k m2.morph[i]| ≤ V * |s - s'| := by
    intro i hi1 hi2 α hα
    set F : Fin 6 → List (CP ℝ) → ℝ := fun k c => Morph.coord k (c.getD i ⟨⟨0, 0⟩, ⟨0, 0⟩, ⟨0, 0⟩, ""⟩) with hF
    have zl : ∀ g : List (CP ℝ) → ℝ, (m.steps.zip (m.curves.map g)).map Prod.fst = m.steps ∧
        (m.steps.zip (m.curves.map g)).map Prod.snd = m.curves.map g := fun g =>
      ⟨List.map_fst_zip (by simp [hlen]), List.map_snd_zip (by simp [hlen])⟩
    have zne : ∀ g : List (CP ℝ) → ℝ, m.steps.zip (m.curves.map g) ≠ [] := by
      intro g hz
      have := congrArg List.length hz
      simp [hlen] at this
      rw [this] at hlen
      exact hne (List.length_eq_zero_iff.1 (by simpa using hlen))
    have zget : ∀ (g : List (CP ℝ) → ℝ) (j : ℕ) (a : ℝ × ℝ), (m.steps.zip (m.curves.map g))[j]? = some a →
        ∃ c, m.steps[j]? = some a.1 ∧ m.curves[j]? = some c ∧ a.2 = g c := by
      intro g j a ha
      rw [List.getElem?_zip_eq_some] at ha
      obtain ⟨h1, h2⟩ := ha
      rw [List.getElem?_map, Option.map_eq_some_iff] at h2
      obtain ⟨c, h2, h3⟩ := h2
      exact ⟨c, h1, h2, h3.symm⟩
    have ord : ∀ g : List (CP ℝ) → ℝ, Ordered (m.steps.zip (m.curves.map g)) := by
      intro g
      have : Gentle 0 ((m.steps.zip (m.curves.map fun _ => (0 : ℝ)))) := by
        intro j a b ha hb
        obtain ⟨c, q1, q2, q3⟩ := zget _ j a ha
        obtain ⟨c', q1', q2', q3'⟩ := zget _ _ b hb
        refine ⟨(hV j _ _ _ _ q1 q1' q2 q2').1, by rw [q3, q3']; simp⟩
      have o := gentle_ordered this
      have o2 : m.steps.Pairwise (· ≤ ·) := by
        rw [← (zl fun _ => 0).1, List.pairwise_map]; exact o
      rw [← (zl g).1, List.pairwise_map] at o2
      exact o2
    have val : ∀ (x : ℝ) (k : Fin 6) (v : ℝ), PolyAt (m.steps.zip (m.curves.map (F k))) x v → v = npInterp m.steps (m.curves.map (F k)) x := by
      intro x k v hv
      have := npInterp_poly _ (zne (F k)) x
      rw [(zl (F k)).1, (zl (F k)).2] at this
      exact poly_unique (ord _) hv this
    have comb : ∀ (x : ℝ) (r : CP ℝ), (∀ k, PolyAt (m.steps.zip (m.curves.map (F k))) x (Morph.coord k r)) →
        PolyAt (m.steps.zip (m.curves.map fun c => ∑ k, α k * F k c)) x (∑ k, α k * Morph.coord k r) := by
      intro x r hr
      have := npInterp_poly _ (zne fun c => ∑ k, α k * F k c) x
      rw [(zl _).1, (zl _).2, npInterp_lin] at this
      convert this using 3 with k
      exact val x k _ (hr k)
    refine poly_slow' V0 ?_ (comb s _ (b1 i hi1)) (comb s' _ (b2 i hi2))
    intro j a b ha hb
    obtain ⟨c, q1, q2, q3⟩ := zget _ j a ha
    obtain ⟨c', q1', q2', q3'⟩ := zget _ _ b hb
    refine ⟨(hV j _ _ _ _ q1 q1' q2 q2').1, ?_⟩
    rw [q3, q3']
    exact hα j _ _ _ _ q1 q1' q2 q2'
  have ap : List.Forall₂ (Apart (V * |s - s'|)) m1.morph m2.morph := by
    rw [List.forall₂_iff_get]
    refine ⟨by omega, fun i hi1 hi2 => ?_⟩
    simp only [List.get_eq_getElem]
    have two : ∀ (j : ℕ) (a b : ℝ) (c c' : List (CP ℝ)), m.steps[j]? = some a → m.steps[j + 1]? = some b → m.curves[j]? = some c →
        m.curves[j + 1]? = some c' → Apart (V * (b - a)) (c.getD i ⟨⟨0, 0⟩, ⟨0, 0⟩, ⟨0, 0⟩, ""⟩) (c'.getD i ⟨⟨0, 0⟩, ⟨0, 0⟩, ⟨0, 0⟩, ""⟩) := by
      intro j a b c c' h1 h2 h3 h4
      have lc := cl c (List.mem_of_getElem? h3)
      have lc' := cl c' (List.mem_of_getElem? h4)
      have := (hV j a b c c' h1 h2 h3 h4).2.get (i := i) (by omega) (by omega)
      simp only [List.get_eq_getElem] at this
      rw [List.getD_eq_getElem?_getD, List.getD_eq_getElem?_getD, List.getElem?_eq_getElem (by omega), List.getElem?_eq_getElem (by omega)]
      exact this
    have go : ∀ (P : CP ℝ → Pt ℝ), (∀ w : Pt ℝ, ∃ α : Fin 6 → ℝ, ∀ c, w.x * (P c).x + w.y * (P c).y = ∑ k, α k * Morph.coord k c) →
        (∀ (K : ℝ) a b, Apart K a b → distPt (P a) (P b) ≤ K) → distPt (P m1.morph[i]) (P m2.morph[i]) ≤ V * |s - s'| := by
      intro P hα hP
      rw [distPt_nrm]
      obtain ⟨w, w1, w2⟩ := nrm_dir ⟨(P m2.morph[i]).x - (P m1.morph[i]).x, (P m2.morph[i]).y - (P m1.morph[i]).y⟩
      obtain ⟨α, hα⟩ := hα w
      have := lin i hi1 hi2 α fun j a b c c' h1 h2 h3 h4 => by
        have ap := hP _ _ _ (two j a b c c' h1 h2 h3 h4)
        rw [← hα, ← hα]
        generalize c.getD i ⟨⟨0, 0⟩, ⟨0, 0⟩, ⟨0, 0⟩, ""⟩ = x at *
        generalize c'.getD i ⟨⟨0, 0⟩, ⟨0, 0⟩, ⟨0, 0⟩, ""⟩ = y at *
        have d1 := dot_le w ⟨(P y).x - (P x).x, (P y).y - (P x).y⟩
        have d2 := dot_le w ⟨(P x).x - (P y).x, (P x).y - (P y).y⟩
        rw [w1, one_mul, ← distPt_nrm] at d1
        rw [w1, one_mul, ← distPt_nrm, show distPt (P y) (P x) = distPt (P x) (P y) by simp only [distPt]; congr 1; ring] at d2
        rw [abs_le]
        constructor <;> simp only at d1 d2 <;> linarith
      rw [← hα, ← hα] at this
      rw [w2]
      simp only
      have := (abs_le.1 this).1
      linarith
    refine ⟨go (fun c => c.c) ?_ (fun K a b h => h.1), go (fun c => ⟨c.c.x + c.dl.x, c.c.y + c.dl.y⟩) ?_ (fun K a b h => h.2.1),
      go (fun c => ⟨c.c.x + c.dr.x, c.c.y + c.dr.y⟩) ?_ (fun K a b h => h.2.2)⟩
    · exact fun w => ⟨![w.x, w.y, 0, 0, 0, 0], fun c => by simp [Fin.sum_univ_six, Morph.coord]⟩
    · exact fun w => ⟨![w.x, w.y, w.x, w.y, 0, 0], fun c => by simp [Fin.sum_univ_six, Morph.coord]; ring⟩
    · exact fun w => ⟨![w.x, w.y, 0, 0, w.x, w.y], fun c => by simp [Fin.sum_univ_six, Morph.coord]; ring⟩
  obtain ⟨pts, pts', d1, d2, d3⟩ := drawn_apart cfg h mat L0 hL ap
  exact ⟨m1, m2, pts, pts', u1, u2, d1, d2, d3⟩

end X7.Anim
