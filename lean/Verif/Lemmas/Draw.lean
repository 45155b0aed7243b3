import Verif.Spec.Draw
import Verif.Lemmas.Elem
import Verif.Lemmas.VecReal

namespace X7

theorem isRound_pyRound (x : ℝ) : IsRound x (pyRound x) := by
  have h1 := Int.floor_le x
  have h2 := Int.lt_floor_add_one x
  unfold pyRound IsRound
  split_ifs with a b c
  · rw [abs_of_nonneg (by linarith)]
    exact ⟨by linarith, fun h => by linarith⟩
  · push_cast
    rw [abs_of_nonpos (by linarith)]
    exact ⟨by linarith, fun h => by linarith⟩
  · rw [abs_of_nonneg (by linarith)]
    exact ⟨by linarith, fun _ => Int.even_iff.2 c⟩
  · push_cast
    rw [abs_of_nonpos (by linarith)]
    refine ⟨by linarith, fun _ => ?_⟩
    rw [Int.even_iff]; omega

theorem isRound_unique {x : ℝ} {m n : ℤ} (hm : IsRound x m) (hn : IsRound x n) : m = n := by
  have key : ∀ {m n : ℤ}, IsRound x m → IsRound x n → m < n → False := by
    intro m n hm hn h
    have hm1 := abs_le.1 hm.1
    have hn1 := abs_le.1 hn.1
    have h' : (m : ℝ) + 1 ≤ n := by exact_mod_cast h
    have e1 : x - m = 1 / 2 := by linarith [hm1.2, hn1.1]
    have e2 : x - n = -(1 / 2) := by linarith [hm1.2, hn1.1]
    have e3 := hm.2 (by rw [e1]; norm_num)
    have e4 := hn.2 (by rw [e2]; norm_num)
    have e5 : (n : ℝ) = m + 1 := by linarith
    have e6 : n = m + 1 := by exact_mod_cast e5
    rw [Int.even_iff] at e3 e4
    omega
  rcases lt_trichotomy m n with h | h | h
  · exact (key hm hn h).elim
  · exact h
  · exact (key hn hm h).elim

theorem isRound_iff {x : ℝ} {n : ℤ} : IsRound x n ↔ n = pyRound x :=
  ⟨fun h => isRound_unique h (isRound_pyRound x), fun h => h ▸ isRound_pyRound x⟩

namespace Elem

theorem strokeWidth_some (pb : PenBrush) (pen : Pen) (m : TState) (h : pb.pen = some pen) :
    pb.strokeWidth m = some (askedWidth m.mat pen) := by
  simp only [PenBrush.strokeWidth, h, askedWidth]
  split_ifs
  · rfl
  · simp only [TState.transformWidth, TState.scaleVals, hypot, abs_of_nonneg (Real.sqrt_nonneg _)]
    congr 1
    ring_nf

theorem drawPath_spec (cfg : DrawCfg) (hs : cfg.showall = false) (m : TState) (p : Path)
    (hne : p.pb.pen.isSome → p.pb.brush.isSome → p.pts ≠ []) :
    ∃ a d, drawPath cfg m p = (a ++ d, none) ∧ Paints cfg.prod cfg.shadowColor m.mat p a ∧ IsDots cfg.debug cfg.prod m.mat p d := by
  obtain ⟨⟨pen, brush⟩, closed, pts⟩ := p
  have hw : ∀ pen : Pen, IsRound (askedWidth m.mat pen) (pyRound (askedWidth m.mat pen)) := fun _ => isRound_pyRound _
  have hlw : ∀ (pen : Pen) (b : Option Brush), ∃ w, lineWidth cfg m ⟨some pen, b⟩ = .ok w ∧ IsWidth cfg.prod m.mat pen w := by
    intro pen b
    cases hp : cfg.prod with
    | false => exact ⟨1, by simp [lineWidth, hp], by simp [IsWidth]⟩
    | true =>
      refine ⟨max 1 (pyRound (askedWidth m.mat pen)), ?_, ?_⟩
      · simp only [lineWidth, hp, PenBrush.stroked, Option.isSome_some, Bool.and_true, if_true]
        rw [strokeWidth_some _ pen m rfl]
      · simp only [IsWidth, if_true]
        exact ⟨_, hw pen, rfl⟩
  have hdots : ∀ (pen : Pen) (b : Option Brush) (ops : List DrawOp), ∃ d,
      afterPath cfg m ⟨⟨some pen, b⟩, closed, pts⟩ ops = (ops ++ d, none) ∧
      IsDots cfg.debug cfg.prod m.mat ⟨⟨some pen, b⟩, closed, pts⟩ d := by
    intro pen b ops
    cases hd : cfg.debug with
    | false => exact ⟨[], by simp [afterPath, hd], by simp [IsDots]⟩
    | true =>
      refine ⟨_, ?_, _, hw pen, rfl⟩
      simp only [afterPath, hd, if_true, pathDebug, PenBrush.stroked, Option.isSome_some, Bool.not_true, Bool.false_eq_true,
        if_false]
      rw [strokeWidth_some _ pen m rfl]
      simp only
      have e : ((max 1 (pyRound (askedWidth m.mat pen)) : ℤ) : ℝ) / 2 > 2 ↔ 4 < pyRound (askedWidth m.mat pen) := by
        rw [gt_iff_lt, lt_div_iff₀ (by norm_num)]
        norm_num
        exact_mod_cast Iff.rfl
      by_cases h4 : 4 < pyRound (askedWidth m.mat pen)
      · rw [if_pos (e.2 h4), if_pos h4, max_eq_right (by omega)]
        congr 2
        apply List.map_congr_left
        intro q _
        split_ifs <;> simp [PenBrush.strokeColor]
      · rw [if_neg (fun h => h4 (e.1 h)), if_neg h4]
  have hfc : ∀ (pen : Option Pen) (b : Brush), fillColorOf cfg ⟨pen, some b⟩ = some (areaColor cfg.shadowColor b.color) := by
    intro pen b
    simp only [fillColorOf, areaColor, PenBrush.fillColor, Option.map_some, Color.transparent]
    cases cfg.shadowColor with
    | none => rfl
    | some c => simp only [Bool.and_eq_true, decide_eq_true_eq, ne_eq, Option.some.injEq]; split_ifs <;> rfl
  have hnp : ∀ (b : Option Brush) (ops : List DrawOp), afterPath cfg m ⟨⟨none, b⟩, closed, pts⟩ ops = (ops, none) := by
    intro b ops
    cases hd : cfg.debug <;> simp [afterPath, hd, pathDebug, PenBrush.stroked]
  have hnd : ∀ b : Option Brush, IsDots cfg.debug cfg.prod m.mat ⟨⟨none, b⟩, closed, pts⟩ [] := by
    intro b
    cases hd : cfg.debug <;> simp [IsDots]
  have hlw0 : ∀ b : Option Brush, lineWidth cfg m ⟨none, b⟩ = .ok 1 := by
    intro b; simp [lineWidth, PenBrush.stroked]
  cases pen with
  | none =>
    cases brush with
    | none =>
      refine ⟨_, [], ?_, .neither closed pts, hnd _⟩
      simp [drawPath, hlw0, PenBrush.filled, hnp, PenBrush.strokeColor]
    | some b =>
      refine ⟨_, [], ?_, .fill b closed pts, hnd _⟩
      simp [drawPath, hlw0, PenBrush.filled, PenBrush.stroked, hnp, hs, hfc]
  | some pen =>
    obtain ⟨w, hw1, hw2⟩ := hlw pen brush
    cases brush with
    | none =>
      obtain ⟨d, hd1, hd2⟩ := hdots pen none [.line pts (some pen.brush.color) w true]
      refine ⟨_, d, ?_, .stroke pen closed pts w hw2, hd2⟩
      simp [drawPath, hw1, PenBrush.filled, hd1, PenBrush.strokeColor]
    | some b =>
      cases pts with
      | nil => exact absurd rfl (hne rfl rfl)
      | cons q pts =>
        obtain ⟨d, hd1, hd2⟩ := hdots pen (some b) [.polygon (q :: pts) (some (areaColor cfg.shadowColor b.color)),
          .line (q :: pts ++ [q]) (some pen.brush.color) w true]
        refine ⟨_, d, ?_, .both pen b closed q pts w hw2, hd2⟩
        simp only [drawPath, hw1, PenBrush.filled, Option.isSome_some, if_true, PenBrush.stroked, List.head?_cons, hs,
          Bool.false_eq_true, if_false, hfc, PenBrush.strokeColor, Option.map_some, List.cons_append, List.nil_append]
        exact hd1

theorem drawPaths_spec (cfg : DrawCfg) (hs : cfg.showall = false) (m : TState) (ps : List Path)
    (hne : ∀ p ∈ ps, p.pb.pen.isSome → p.pb.brush.isSome → p.pts ≠ []) :
    ∃ opss, drawPaths cfg m ps = (opss.flatten, none) ∧ List.Forall₂ (fun p ops => ∃ a d, ops = a ++ d ∧
      Paints cfg.prod cfg.shadowColor m.mat p a ∧ IsDots cfg.debug cfg.prod m.mat p d) ps opss := by
  induction ps with
  | nil => exact ⟨[], rfl, .nil⟩
  | cons p ps ih =>
    obtain ⟨a, d, h1, h2, h3⟩ := drawPath_spec cfg hs m p (hne p (by simp))
    obtain ⟨opss, h4, h5⟩ := ih fun q hq => hne q (by simp [hq])
    exact ⟨(a ++ d) :: opss, by simp [drawPaths, h1, h4], .cons ⟨a, d, rfl, h2, h3⟩ h5⟩

end Elem
end X7
