import Mathlib.Tactic.Linarith
import Mathlib.Tactic.Ring
import Mathlib.Tactic.FieldSimp
import Mathlib.Tactic.Positivity
import Mathlib.Tactic.LinearCombination
import Verif.Spec.Anim
import Verif.Props.PointHeap
import Verif.Lemmas.VecReal

/-! C58: animations of points. -/

noncomputable section

namespace X7.Anim

open PH

/-- The heaps differ in the coordinates of the points in `S` only. -/
structure Same (S : List ℕ) (h h1 : Heap ℝ) : Prop where
  len : h1.length = h.length
  off : ∀ i, i ∉ S → h1[i]? = h[i]?
  on : ∀ i ∈ S, ∃ x y x' y' n, h[i]? = some (.point x y n) ∧ h1[i]? = some (.point x' y' n)

theorem not_point {S : List ℕ} {h h1 : Heap ℝ} (hs : Same S h h1) {j : ℕ} {o : PObj ℝ} (ho : h[j]? = some o)
    (hn : ∀ x y n, o ≠ .point x y n) : h1[j]? = some o := by
  have : j ∉ S := by
    intro hm
    obtain ⟨x, y, _, _, n, h1, _⟩ := hs.on j hm
    rw [ho] at h1
    injection h1 with h1
    exact hn x y n h1
  rw [hs.off j this, ho]

theorem reads_same {S : List ℕ} {h h1 : Heap ℝ} (hs : Same S h h1) {j : ℕ} {q : Pt ℝ} (hr : Reads h j q)
    (hd : ∀ i ∈ S, ¬ Depends h j i) : Reads h1 j q := by
  induction hr with
  | @point i x y n ho =>
    have : i ∉ S := fun hm => hd i hm (.point ho)
    exact .point ((hs.off i this).trans ho)
  | rel ho _ ih =>
    exact .rel (not_point hs ho (by simp)) (ih fun i hi hdp => hd i hi (.rel ho hdp))
  | pcalc ho hrr _ ih =>
    exact .pcalc (not_point hs ho (by simp)) (not_point hs hrr (by simp)) (ih fun i hi hdp => hd i hi (.pcalc ho hrr hdp))

theorem reads_base {h : Heap ℝ} {j : ℕ} {q : Pt ℝ} (hr : Reads h j q) : isBasePoint h j := by
  cases hr with
  | point ho => simp [isBasePoint, ho]
  | rel ho _ => simp [isBasePoint, ho]
  | pcalc ho _ _ => simp [isBasePoint, ho]

/-- Objects of `h1` have the class they have in `h`. -/
theorem same_wf {S : List ℕ} {h h1 : Heap ℝ} (hs : Same S h h1) (hw : WF h) : WF h1 := by
  have hb : ∀ k, isBasePoint h1 k = isBasePoint h k ∧ hasBase h1 k = hasBase h k := by
    intro k
    by_cases hk : k ∈ S
    · obtain ⟨_, _, _, _, _, e1, e2⟩ := hs.on k hk
      simp [isBasePoint, hasBase, e1, e2]
    · simp [isBasePoint, hasBase, hs.off k hk]
  intro i o ho
  by_cases hi : i ∈ S
  · obtain ⟨_, _, _, _, _, e1, e2⟩ := hs.on i hi
    rw [ho] at e2
    injection e2 with e2
    subst e2
    trivial
  · rw [hs.off i hi] at ho
    have := hw i o ho
    cases o with
    | point => trivial
    | vec => trivial
    | rel => simpa [WFObj, hb] using this
    | pcalc => simpa [WFObj, hb] using this
    | vecRel => simpa [WFObj, hb] using this

theorem xy_same {S : List ℕ} {h h1 : Heap ℝ} (hw : WF h) (hs : Same S h h1) {j : ℕ} {q : Pt ℝ} (hr : Reads h j q)
    (hd : ∀ i ∈ S, ¬ Depends h j i) : xy h1 j = .ok q := by
  have := reads_same hs hr hd
  exact (reads_iff (same_wf hs hw) j (reads_base this) q).2 this

theorem same_refl {S : List ℕ} {h : Heap ℝ} (hp : ∀ i ∈ S, ∃ x y n, h[i]? = some (.point x y n)) : Same S h h :=
  ⟨rfl, fun _ _ => rfl, fun i hi => by
    obtain ⟨x, y, n, e⟩ := hp i hi
    exact ⟨x, y, x, y, n, e, e⟩⟩

theorem setxy_point {h1 : Heap ℝ} {i : ℕ} {x y x' y' : ℝ} {n} (ho : h1[i]? = some (.point x' y' n)) :
    setxy h1 i x y = .ok (h1.set i (.point x y n)) := by
  simp [setxy, step, ho]

theorem same_set {S : List ℕ} {h h1 : Heap ℝ} (hs : Same S h h1) {i : ℕ} (hi : i ∈ S) {x y x' y' : ℝ} {n}
    (ho : h1[i]? = some (.point x' y' n)) : Same S h (h1.set i (.point x y n)) := by
  have hlt : i < h1.length := (List.getElem?_eq_some_iff.1 ho).1
  refine ⟨by simp [hs.len], fun k hk => ?_, fun k hk => ?_⟩
  · rw [List.getElem?_set_ne (by rintro rfl; exact hk hi)]
    exact hs.off k hk
  · by_cases e : i = k
    · subst e
      obtain ⟨a, b, c, d, m, e1, e2⟩ := hs.on i hi
      rw [ho] at e2
      injection e2 with e2
      injection e2 with _ _ e2
      subst e2
      exact ⟨a, b, x, y, n, e1, by rw [List.getElem?_set_self hlt]⟩
    · rw [List.getElem?_set_ne e]
      exact hs.on k hk

/-- Whatever an update does, it moves its own point only. -/
theorem update_same {S : List ℕ} {h h1 h2 : Heap ℝ} (hs : Same S h h1) {a : Anim} (ha : a.pt ∈ S) {t : TVal}
    (hu : update h1 a t = .ok h2) : Same S h h2 := by
  obtain ⟨_, _, x', y', n, _, ho⟩ := hs.on a.pt ha
  have key : ∀ x y h2, setxy h1 a.pt x y = .ok h2 → Same S h h2 := by
    intro x y h2 e
    rw [setxy_point ho] at e
    injection e with e
    rw [← e]
    exact same_set hs ha ho
  have lin : ∀ o g t h2, updLinear h1 a.pt o g t = .ok h2 → Same S h h2 := by
    intro o g t h2 e
    unfold updLinear at e
    split at e
    · cases e
    · split at e
      · cases e
      · exact key _ _ _ e
      · exact key _ _ _ e
  cases a with
  | linear pt o g => exact lin _ _ _ _ hu
  | linearFunc pt o g f =>
    simp only [update] at hu
    split at hu
    · cases hu
    · exact lin _ _ _ _ hu
  | sinusoidal pt o g f d =>
    simp only [update] at hu
    split at hu
    · split at hu
      · cases hu
      · exact key _ _ _ hu
    · cases hu
  | circular pt o r f d =>
    simp only [update] at hu
    split at hu
    · exact key _ _ _ hu
    · cases hu

theorem history_same {S : List ℕ} {h : Heap ℝ} (hist : List (Anim × TVal)) (hh : ∀ x ∈ hist, x.1.pt ∈ S) :
    ∀ h1, Same S h h1 → Same S h (history h1 hist) := by
  induction hist with
  | nil => intro h1 hs; exact hs
  | cons x hist ih =>
    intro h1 hs
    simp only [history, List.foldl_cons]
    apply ih (fun y hy => hh y (by simp [hy]))
    split
    · rename_i h' e
      exact update_same hs (hh x (by simp)) e
    · exact hs

/-- The value `(1 - cos 2u) / 2` is `sin² u`. -/
theorem half_cos (u v : ℝ) (h : u = 2 * v) : (1 - Real.cos u) * (1 / 2) = Real.sin v ^ 2 := by
  rw [h, Real.cos_two_mul, Real.sin_sq]; ring

/-- One update puts the point where it belongs. -/
theorem update_at {S : List ℕ} {h h1 : Heap ℝ} (hw : WF h) (hs : Same S h h1) {a : Anim} (ha : a.pt ∈ S)
    (hd : ∀ g ∈ a.target, ∀ i ∈ S, ¬ Depends h g i) {t : ℝ} {p : Pt ℝ} (hp : At h a t p) :
    ∃ x y n, h[a.pt]? = some (.point x y n) ∧ update h1 a (.num t) = .ok (h1.set a.pt (.point p.x p.y n)) := by
  obtain ⟨x, y, x', y', n, ho, ho1⟩ := hs.on a.pt ha
  refine ⟨x, y, n, ho, ?_⟩
  have e : ∀ o g s : ℝ, (1 - s) * o + s * g = o + s * (g - o) := fun o g s => by ring
  cases hp with
  | linear hr =>
    simp only [update, updLinear, xy_same hw hs hr (hd _ rfl), between, e]
    exact setxy_point ho1
  | func hr hf =>
    simp only [update, hf, updLinear, xy_same hw hs hr (hd _ rfl), between, e]
    exact setxy_point ho1
  | funcPair hr hf =>
    simp only [update, hf, updLinear, xy_same hw hs hr (hd _ rfl), between, e]
    exact setxy_point ho1
  | @sinusoidal pt o g q _ f d hr =>
    have hc := half_cos (t * tau * f + d * tau / 360) (Real.pi * (f * t + d / 360)) (by unfold tau; ring)
    simp only [update, xy_same hw hs hr (hd _ rfl), between, hc, e]
    exact setxy_point ho1
  | @circular pt o r f d =>
    have hc : t * tau * f + d = 2 * Real.pi * f * t + d := by unfold tau; ring
    simp only [update, hc]
    exact setxy_point ho1

theorem updateAll_at {S : List ℕ} {h : Heap ℝ} (hw : WF h) {t : ℝ} :
    ∀ (l : List Anim) (h1 : Heap ℝ), Same S h h1 → (∀ a ∈ l, a.pt ∈ S) → (l.map Anim.pt).Nodup →
      (∀ a ∈ l, ∀ g ∈ a.target, ∀ i ∈ S, ¬ Depends h g i) → (∀ a ∈ l, ∃ p, At h a t p) →
      ∃ h2, updateAll h1 l (.num t) = (h2, none) ∧ Same S h h2 ∧
        (∀ i, i ∉ l.map Anim.pt → h2[i]? = h1[i]?) ∧
        ∀ a ∈ l, ∀ p, At h a t p → ∃ x y n, h[a.pt]? = some (.point x y n) ∧ h2[a.pt]? = some (.point p.x p.y n) := by
  intro l
  induction l with
  | nil => intro h1 hs _ _ _ _; exact ⟨h1, rfl, hs, fun _ _ => rfl, by simp⟩
  | cons a l ih =>
    intro h1 hs hS hn hd hA
    obtain ⟨p, hp⟩ := hA a (by simp)
    have haS := hS a (by simp)
    obtain ⟨_, _, x', y', n', _, ho1⟩ := hs.on a.pt haS
    have hlt : a.pt < h1.length := (List.getElem?_eq_some_iff.1 ho1).1
    obtain ⟨x, y, n, ho, hu⟩ := update_at hw hs haS (hd a (by simp)) hp
    have hs' := update_same hs haS hu
    simp only [List.map_cons, List.nodup_cons] at hn
    obtain ⟨h2, e1, e2, e3, e4⟩ := ih _ hs' (fun b hb => hS b (by simp [hb])) hn.2 (fun b hb => hd b (by simp [hb]))
      (fun b hb => hA b (by simp [hb]))
    refine ⟨h2, ?_, e2, ?_, ?_⟩
    · simp only [updateAll, hu, e1]
    · intro i hi
      simp only [List.map_cons, List.mem_cons, not_or] at hi
      rw [e3 i hi.2, List.getElem?_set_ne (Ne.symm hi.1)]
    · intro b hb p' hp'
      rcases List.mem_cons.1 hb with rfl | hb
      · obtain ⟨x2, y2, n2, o2, u2⟩ := update_at hw hs haS (hd b (by simp)) hp'
        rw [o2] at ho
        injection ho with ho
        injection ho with _ _ hn2
        rw [hu] at u2
        injection u2 with u2
        refine ⟨x2, y2, n2, o2, ?_⟩
        rw [e3 _ hn.1, u2, List.getElem?_set_self hlt]
      · exact e4 b hb p' hp'

/-- **C58.** After any history of updates of the animations of a holder, in any order and with failures caught, one update of the
holder at time `t`, in any order, puts every animated point where it belongs at `t` given the points as they were at the start, and
every other object is as it was at the start. -/
theorem C58_holder (ops : List (POp ℝ)) (anims anims' : List Anim) (hf : Fine (run [] ops) anims) (horder : anims'.Perm anims)
    (hist : List (Anim × TVal)) (hh : ∀ x ∈ hist, x.1 ∈ anims) (t : ℝ) (hA : ∀ a ∈ anims, ∃ p, At (run [] ops) a t p) :
    ∃ h2, updateAll (history (run [] ops) hist) anims' (.num t) = (h2, none) ∧
      (∀ a ∈ anims, ∀ p, At (run [] ops) a t p →
        ∃ x y n, (run [] ops)[a.pt]? = some (.point x y n) ∧ h2[a.pt]? = some (.point p.x p.y n)) ∧
      ∀ i, (∀ a ∈ anims, a.pt ≠ i) → h2[i]? = (run [] ops)[i]? := by
  have hw : WF (run [] ops) := run_wf wf_nil ops
  generalize run [] ops = h at *
  have hp : ∀ i ∈ anims.map Anim.pt, ∃ x y n, h[i]? = some (.point x y n) := by
    intro i hi
    obtain ⟨a, ha, rfl⟩ := List.mem_map.1 hi
    exact hf.points a ha
  have hs := history_same (S := anims.map Anim.pt) hist (fun x hx => List.mem_map.2 ⟨_, hh x hx, rfl⟩) h (same_refl hp)
  obtain ⟨h2, e1, e2, e3, e4⟩ := updateAll_at hw (t := t) anims' _ hs
    (fun a ha => List.mem_map.2 ⟨a, horder.mem_iff.1 ha, rfl⟩)
    ((horder.map _).nodup_iff.2 hf.distinct)
    (fun a ha g hg i hi => by
      obtain ⟨b, hb, rfl⟩ := List.mem_map.1 hi
      exact (hf.target a (horder.mem_iff.1 ha) g hg).2 b hb)
    (fun a ha => hA a (horder.mem_iff.1 ha))
  refine ⟨h2, e1, fun a ha => e4 a (horder.mem_iff.2 ha), fun i hi => e2.off i ?_⟩
  intro hm
  obtain ⟨a, ha, rfl⟩ := List.mem_map.1 hm
  exact hi a ha rfl

/-- So two different histories and two different orders give the same objects. -/
theorem C58_history (ops : List (POp ℝ)) (anims l1 l2 : List Anim) (hf : Fine (run [] ops) anims) (h1 : l1.Perm anims)
    (h2 : l2.Perm anims) (hist1 hist2 : List (Anim × TVal)) (hh1 : ∀ x ∈ hist1, x.1 ∈ anims) (hh2 : ∀ x ∈ hist2, x.1 ∈ anims)
    (t : ℝ) (hA : ∀ a ∈ anims, ∃ p, At (run [] ops) a t p) :
    updateAll (history (run [] ops) hist1) l1 (.num t) = updateAll (history (run [] ops) hist2) l2 (.num t) := by
  obtain ⟨a, a1, a2, a3⟩ := C58_holder ops anims l1 hf h1 hist1 hh1 t hA
  obtain ⟨b, b1, b2, b3⟩ := C58_holder ops anims l2 hf h2 hist2 hh2 t hA
  rw [a1, b1]
  congr 1
  apply List.ext_getElem?
  intro i
  by_cases hi : ∀ c ∈ anims, c.pt ≠ i
  · rw [a3 i hi, b3 i hi]
  · push Not at hi
    obtain ⟨c, hc, rfl⟩ := hi
    obtain ⟨p, hp⟩ := hA c hc
    obtain ⟨x, y, n, e1, e2⟩ := a2 c hc p hp
    obtain ⟨x', y', n', e3, e4⟩ := b2 c hc p hp
    rw [e1] at e3
    injection e3 with e3
    injection e3 with _ _ e3
    rw [e2, e4, e3]

/-- The linear animation is at the original at 0 and at the target at 1; on the line between at any time; the animations made by the
constructors start from where the point is. -/
theorem C58_linear (ops : List (POp ℝ)) (pt g : ℕ) (a : Anim) (ha : mkLinear (run [] ops) pt g = .ok a) (q : Pt ℝ)
    (hq : Reads (run [] ops) g q) :
    ∃ o, Reads (run [] ops) pt o ∧ At (run [] ops) a 0 o ∧ At (run [] ops) a 1 q ∧
      ∀ t, At (run [] ops) a t ⟨(1 - t) * o.x + t * q.x, (1 - t) * o.y + t * q.y⟩ := by
  unfold mkLinear at ha
  split at ha
  · rename_i x y n ho
    split at ha
    · injection ha with ha
      subst ha
      have key : ∀ t p, p = between ⟨x, y⟩ q t t → At (run [] ops) (.linear pt ⟨x, y⟩ g) t p := by
        intro t p hp
        rw [hp]
        exact .linear hq
      refine ⟨⟨x, y⟩, .point ho, key 0 _ ?_, key 1 _ ?_, fun t => key t _ ?_⟩
      · ext <;> simp [between]
      · ext <;> simp [between]
      · ext <;> simp only [between] <;> ring
    · cases ha
  · cases ha

/-- The sinusoidal animation stays on the segment from the original to the target; without offset it starts at the original, is at
the target after half a period and back after a period. -/
theorem C58_sinusoidal (h : Heap ℝ) (pt g : ℕ) (o q : Pt ℝ) (f d : ℝ) (hq : Reads h g q) :
    (∀ t p, At h (.sinusoidal pt o g f d) t p → ∃ s, 0 ≤ s ∧ s ≤ 1 ∧ p = between o q s s) ∧
    (f ≠ 0 → At h (.sinusoidal pt o g f 0) 0 o ∧ At h (.sinusoidal pt o g f 0) (1 / (2 * f)) q ∧
      At h (.sinusoidal pt o g f 0) (1 / f) o) := by
  have huniq : ∀ q', Reads h g q' → q' = q := by
    intro q' h'
    induction h' generalizing q with
    | point e => cases hq with
      | point e' => rw [e] at e'; injection e' with e'; injection e' with a b c; rw [a, b]
      | rel e' => rw [e] at e'; cases e'
      | pcalc e' => rw [e] at e'; cases e'
    | rel e _ ih => cases hq with
      | point e' => rw [e] at e'; cases e'
      | rel e' r' => rw [e] at e'; injection e' with e'; injection e' with a b c d; subst a b c; rw [ih _ r']
      | pcalc e' => rw [e] at e'; cases e'
    | pcalc e e2 _ ih => cases hq with
      | point e' => rw [e] at e'; cases e'
      | rel e' => rw [e] at e'; cases e'
      | pcalc e' e2' r' =>
        rw [e] at e'; injection e' with e'; injection e' with a b c; subst a b
        rw [e2] at e2'; injection e2' with e2'; injection e2' with a b c d; subst a b c; rw [ih _ r']
  refine ⟨fun t p hp => ?_, fun hf => ?_⟩
  · cases hp with
    | sinusoidal hr =>
      refine ⟨_, sq_nonneg _, ?_, by rw [huniq _ hr]⟩
      have := Real.sin_sq_add_cos_sq (Real.pi * (f * t + d / 360))
      have := sq_nonneg (Real.cos (Real.pi * (f * t + d / 360)))
      linarith
  · have key : ∀ t p s, Real.sin (Real.pi * (f * t + 0 / 360)) ^ 2 = s → p = between o q s s → At h (.sinusoidal pt o g f 0) t p := by
      intro t p s hs hp
      rw [hp, ← hs]
      exact .sinusoidal hq
    refine ⟨key 0 o 0 ?_ ?_, key _ q 1 ?_ ?_, key _ o 0 ?_ ?_⟩
    · simp
    · ext <;> simp [between]
    · have : Real.pi * (f * (1 / (2 * f)) + 0 / 360) = Real.pi / 2 := by field_simp; ring
      rw [this, Real.sin_pi_div_two]; norm_num
    · ext <;> simp [between]
    · have : Real.pi * (f * (1 / f) + 0 / 360) = Real.pi := by field_simp; ring
      rw [this, Real.sin_pi]; norm_num
    · ext <;> simp [between]

/-- The circular animation keeps its distance from the original, and repeats after a period. -/
theorem C58_circular (h : Heap ℝ) (pt : ℕ) (o : Pt ℝ) (r f d t : ℝ) (p : Pt ℝ) (hp : At h (.circular pt o r f d) t p) :
    hypot (p.x - o.x) (p.y - o.y) = |r| ∧ (f ≠ 0 → At h (.circular pt o r f d) (t + 1 / f) p) := by
  cases hp with
  | circular =>
    constructor
    · apply hypot_unique (abs_nonneg r)
      rw [abs_mul_abs_self]
      have := Real.sin_sq_add_cos_sq (2 * Real.pi * f * t + d)
      simp only
      linear_combination -(r ^ 2) * this
    · intro hf
      have key : ∀ p, p = (⟨o.x + r * Real.sin (2 * Real.pi * f * (t + 1 / f) + d), o.y + r * Real.cos (2 * Real.pi * f * (t + 1 / f) + d)⟩ : Pt ℝ) →
          At h (.circular pt o r f d) (t + 1 / f) p := by
        rintro _ rfl
        exact .circular
      apply key
      have : 2 * Real.pi * f * (t + 1 / f) + d = 2 * Real.pi * f * t + d + 2 * Real.pi := by field_simp; ring
      rw [this, Real.sin_add_two_pi, Real.cos_add_two_pi]

/-- With a target chained on the animated point the position depends on the history: each update to `t = 1` moves on. -/
theorem C58_chained_counterexample : ∃ (h h1 h2 : Heap ℝ) (a : Anim), mkLinear h 0 1 = .ok a ∧
    updateAll h [a] (.num 1) = (h1, none) ∧ updateAll h1 [a] (.num 1) = (h2, none) ∧ xy h1 0 = .ok ⟨1, 0⟩ ∧ xy h2 0 = .ok ⟨2, 0⟩ := by
  refine ⟨[.point 0 0 none, .rel 1 0 0 none], [.point 1 0 none, .rel 1 0 0 none], [.point 2 0 none, .rel 1 0 0 none],
    .linear 0 ⟨0, 0⟩ 1, ?_, ?_, ?_, ?_, ?_⟩
  · simp [mkLinear, isBasePoint]
  · simp [updateAll, update, updLinear, setxy, step, xy]
  · simp [updateAll, update, updLinear, setxy, step, xy]
    norm_num
  · simp [xy]
  · simp [xy]

/-- Two animated points and a target chained on a third point meet the hypotheses. -/
example : let h : Heap ℝ := run [] [.mkPoint 0 0 none, .mkPoint 5 5 none, .mkPoint 9 9 none, .mkRel 1 1 2 none]
    Fine h [.linear 0 ⟨0, 0⟩ 3, .circular 1 ⟨5, 5⟩ 2 1 0] ∧ ∃ p, At h (.linear 0 ⟨0, 0⟩ 3) (1 / 2) p := by
  intro h
  have h0 : h[0]? = some (.point 0 0 none) := by simp [h, run, step, isBasePoint]
  have h1 : h[1]? = some (.point 5 5 none) := by simp [h, run, step, isBasePoint]
  have h2 : h[2]? = some (.point 9 9 none) := by simp [h, run, step, isBasePoint]
  have h3 : h[3]? = some (.rel 1 1 2 none) := by simp [h, run, step, isBasePoint]
  refine ⟨⟨?_, ?_, ?_⟩, _, .linear (.rel h3 (.point h2))⟩
  · intro a ha
    simp only [List.mem_cons, List.not_mem_nil, or_false] at ha
    rcases ha with rfl | rfl
    · exact ⟨_, _, _, h0⟩
    · exact ⟨_, _, _, h1⟩
  · simp [Anim.pt]
  · intro a ha g hg
    simp only [List.mem_cons, List.not_mem_nil, or_false] at ha
    rcases ha with rfl | rfl
    · simp only [Anim.target, Option.mem_def, Option.some.injEq] at hg
      subst hg
      refine ⟨by simp [isBasePoint, h3], fun b hb hd => ?_⟩
      have hb2 : b.pt = 0 ∨ b.pt = 1 := by
        simp only [List.mem_cons, List.not_mem_nil, or_false] at hb
        rcases hb with rfl | rfl <;> simp [Anim.pt]
      generalize b.pt = k at hd hb2
      cases hd with
      | point e => rw [h3] at e; cases e
      | pcalc e => rw [h3] at e; cases e
      | rel e e' =>
        rw [h3] at e
        injection e with e
        injection e with _ _ e _
        subst e
        cases e' with
        | point => omega
        | rel e => rw [h2] at e; cases e
        | pcalc e => rw [h2] at e; cases e
    · simp [Anim.target] at hg

end X7.Anim
