import Verif.Model.TestMatch
import Verif.Props.Close

/-!
C93: the matchers and plot contexts of test cases.
-/

noncomputable section

open scoped Classical

namespace X7.TM

/-- C93: points or vectors are almost equal exactly if both coordinates are; else the text names the coordinates that differ, x first,
with what was said of each. -/
theorem C93_almost_equal (af : ℝ → ℝ → Verdict) (p q : ℝ × ℝ) (places : Option ℕ) (delta : Option ℝ) :
    (almostXY af p q places delta = .equal ↔ af p.1 q.1 = .equal ∧ af p.2 q.2 = .equal) ∧
      (∀ m, af p.1 q.1 = .differs m → af p.2 q.2 = .equal → almostXY af p q places delta = .differs ("x: ".toList ++ m)) ∧
      (∀ m, af p.1 q.1 = .equal → af p.2 q.2 = .differs m → almostXY af p q places delta = .differs ("y: ".toList ++ m)) ∧
      ∀ m m', af p.1 q.1 = .differs m → af p.2 q.2 = .differs m' →
        almostXY af p q places delta = .differs ("x: ".toList ++ m ++ ", ".toList ++ ("y: ".toList ++ m')) := by
  refine ⟨?_, ?_, ?_, ?_⟩
  · cases h1 : af p.1 q.1 <;> cases h2 : af p.2 q.2 <;> simp [almostXY, h1, h2]
  all_goals
    intros
    simp_all [almostXY, joinComma]

/-- C93 (false): `places` and `delta` make no difference to points and vectors: whatever tolerance is asked for, points are judged with the
default one. -/
theorem C93_tolerance_counterexample (af : ℝ → ℝ → Verdict) (p q : ℝ × ℝ) (places places' : Option ℕ) (delta delta' : Option ℝ) :
    almostXY af p q places delta = almostXY af p q places' delta' := rfl

/-- C93: a mismatch of points or vectors is explained away exactly if their distance is below 1e-11. -/
theorem C93_explain (p q : Pt ℝ) (v w : Vec ℝ) :
    (explainPoint p q = true ↔ √((p.x - q.x) ^ 2 + (p.y - q.y) ^ 2) < 1 / 10 ^ 11) ∧
      (explainVector v w = true ↔ √((v.x - w.x) ^ 2 + (v.y - w.y) ^ 2) < 1 / 10 ^ 11) := by
  constructor
  · rw [explainPoint, decide_eq_true_iff]
    exact (C76_points p q q _ 0 ⟨0, 0⟩).1
  · rw [explainVector, decide_eq_true_iff]
    exact (C76_vectors v w w _ 0).1

/-- C93 (false): a mismatch of control points is never explained away. If centre and handles are close, `AttributeError` is raised, even for
equal control points; otherwise the answer is False. -/
theorem C93_control_point_counterexample (a b : CP ℝ) :
    explainCP a b ≠ .ok true ∧
      (explainCP a b = .error .attribute ↔
        a.c.close b.c (1 / 10 ^ 11) ∧ a.dl.close b.dl (1 / 10 ^ 11) ∧ a.dr.close b.dr (1 / 10 ^ 11)) ∧
      (explainCP a b = .ok false ↔
        ¬ (a.c.close b.c (1 / 10 ^ 11) ∧ a.dl.close b.dl (1 / 10 ^ 11) ∧ a.dr.close b.dr (1 / 10 ^ 11))) ∧
      explainCP a a = .error .attribute := by
  have self : ∀ x : ℝ, hypot (x - x) (x - x) = 0 := fun x => by simp [hypot]
  have h1 : explainCP a a = .error .attribute := by
    have e1 : explainPoint a.c a.c = true := by rw [(C93_explain _ _ a.dl a.dl).1]; norm_num
    have e2 : ∀ v : Vec ℝ, explainVector v v = true := fun v => by rw [(C93_explain a.c a.c _ _).2]; norm_num
    simp [explainCP, attrs, allClose, attrClose, e1, e2]
  by_cases c1 : a.c.close b.c (1 / 10 ^ 11) <;> by_cases c2 : a.dl.close b.dl (1 / 10 ^ 11) <;>
    by_cases c3 : a.dr.close b.dr (1 / 10 ^ 11) <;>
    simp only [explainCP, attrs, allClose, attrClose, List.zip_cons_cons, List.zip_nil_right, explainPoint, explainVector, c1, c2, c3] <;>
    refine ⟨by simp, by simp, by simp, ?_⟩ <;> exact h1

/-! ### C93: plots -/

/-- Inside no `with` statement nothing sets the parameters, and no grabbing fails outside a body. -/
def Prog.OnlyPlots : Prog → Prop
  | .done => True
  | .set _ _ _ => False
  | .raise _ => True
  | .plot grab _ _ rest => grab = none ∧ rest.OnlyPlots

/-- C93: code made of `with self.assertMatchPlot()` blocks leaves the plot parameters as it found them, whatever the bodies do: set
parameters, raise, contain further blocks, fail to grab figures there, and whether or not the plots match. -/
theorem C93_plot_restores : ∀ (p : Prog) (_ : p.OnlyPlots) (s : Rc), (p.run s).1 = s
  | .done, _, _ => rfl
  | .set _ _ _, h, _ => h.elim
  | .raise _, _, _ => rfl
  | .plot grab m body rest, h, s => by
    obtain ⟨rfl, h⟩ := h
    have e : ∀ r, (plotExit none m s r).1 = s := fun r => by cases m <;> rfl
    simp only [Prog.run]
    have e := e (body.run ⟨1, -20⟩)
    generalize plotExit none m s (body.run ⟨1, -20⟩) = q at *
    obtain ⟨s', o⟩ := q
    cases e
    cases o with
    | some e => rfl
    | none => exact C93_plot_restores rest h _

/-- C93: what leaves a block: nothing, if the body ends normally and the plot matches; an exception of the body only if the plot matches;
otherwise the failure of the match, in place of any exception of the body. -/
theorem C93_plot_exception (m : MatchRes) (body : Prog) (s : Rc) :
    ((Prog.plot none m body .done).run s).2 = match m with
      | .ok => (body.run ⟨1, -20⟩).2
      | .exc e => some e
      | .msg => some .assertion := by
  simp only [Prog.run]
  cases m with
  | ok =>
    simp only [plotExit]
    cases (body.run ⟨1, -20⟩).2 <;> rfl
  | exc e => rfl
  | msg => rfl

/-- C93 (false): if the figure cannot be grabbed, the parameters stay changed. -/
theorem C93_plot_counterexample (e : PyErr) (m : MatchRes) (s : Rc) :
    (Prog.plot (some e) m .done .done).run s = (⟨1, -20⟩, some e) := rfl

/-- A block in a block, the inner one failing to match after its body set a parameter: the parameters are as before. -/
example : (Prog.plot none .ok (.plot none .msg (.set 5 5 .done) .done) .done).run ⟨3, 4⟩ = (⟨3, 4⟩, some .assertion) := rfl

/-- Non-vacuity: such code. -/
example : (Prog.plot none .ok (.plot (some .value) .msg (.set 5 5 .done) .done) (.plot none .msg (.raise .key) .done)).OnlyPlots :=
  ⟨rfl, rfl, trivial⟩

end X7.TM
