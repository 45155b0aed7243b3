import Verif.Spec.Fill
import Verif.Lemmas.Area
import Verif.Lemmas.Elem
import Verif.Lemmas.AreaCurve
import Mathlib.Data.ZMod.Basic
import Mathlib.Algebra.Group.Nat.Even

noncomputable section

namespace X7.Elem

section
variable {A : Type*} [AddCommGroup A] (Φ : Pt ℝ → Pt ℝ → A)

/-- The sum over the lines that join each point to the next one. -/
def run : List (Pt ℝ) → A
  | a :: b :: l => Φ a b + run (b :: l)
  | _ => 0

/-- The sum over the sides of a polygon. -/
def cyc (l : List (Pt ℝ)) : A := (List.zipWith Φ l (l.rotate 1)).sum

theorem run_glue : ∀ (p q : List (Pt ℝ)) (b : Pt ℝ), run Φ (p ++ [b] ++ q) = run Φ (p ++ [b]) + run Φ (b :: q)
  | [], q, b => by simp [run]
  | [a], q, b => by simp [run]
  | a :: a' :: p, q, b => by
    have := run_glue (a' :: p) q b
    simp only [List.cons_append, run] at this ⊢
    rw [this, add_assoc]

theorem zipWith_run (a z : Pt ℝ) (l : List (Pt ℝ)) : (List.zipWith Φ (a :: l) (l ++ [z])).sum = run Φ (a :: l ++ [z]) := by
  induction l generalizing a with
  | nil => simp [run]
  | cons b l ih => simpa [run] using ih b

theorem cyc_cons (a : Pt ℝ) (l : List (Pt ℝ)) : cyc Φ (a :: l) = run Φ (a :: l ++ [a]) := by
  rw [cyc, ← zipWith_run]; simp

variable {Φ}

theorem run_holes (h0 : ∀ a, Φ a a = 0) (hs : ∀ a b, Φ a b + Φ b a = 0) (last : Pt ℝ) (r : List (Pt ℝ)) : ∀ qs : List Path,
    (∀ q ∈ qs, Returns q) → run Φ (last :: ((qs.flatMap fun q => q.pts ++ [last]) ++ r)) = (qs.map fun q => cyc Φ q.pts).sum + run Φ (last :: r)
  | [], _ => by simp
  | q :: qs, hq => by
    have ih := run_holes h0 hs last r qs fun q h => hq q (List.mem_cons_of_mem _ h)
    have hr : q.pts.head? = q.pts.getLast? := hq q (by simp)
    rw [List.flatMap_cons, List.map_cons, List.sum_cons]
    generalize q.pts = l at hr ⊢
    cases l with
    | nil => simp [run, h0, ih, cyc]
    | cons c l =>
      obtain ⟨l', e⟩ : ∃ l', c :: l = l' ++ [c] := by
        refine ⟨(c :: l).dropLast, ?_⟩
        have := List.dropLast_append_getLast (l := c :: l) (by simp)
        rw [List.head?_cons, List.getLast?_eq_getLast_of_ne_nil (by simp)] at hr
        rw [← Option.some.inj hr] at this
        exact this.symm
      have e1 : cyc Φ (c :: l) = run Φ (c :: l) := by
        rw [cyc_cons, e, run_glue]; simp [run, h0]
      have e2 : run Φ (last :: (((c :: l) ++ [last] ++ qs.flatMap fun q => q.pts ++ [last]) ++ r)) =
          Φ last c + run Φ (c :: l) + Φ c last + run Φ (last :: ((qs.flatMap fun q => q.pts ++ [last]) ++ r)) := by
        have : last :: (((c :: l) ++ [last] ++ qs.flatMap fun q => q.pts ++ [last]) ++ r) =
            (last :: l') ++ [c] ++ (last :: ((qs.flatMap fun q => q.pts ++ [last]) ++ r)) := by
          rw [e]; simp
        rw [this, run_glue]
        have e3 : run Φ (last :: l' ++ [c]) = Φ last c + run Φ (c :: l) := by
          rw [List.cons_append, ← e]; rfl
        rw [e3]
        simp only [run]
        abel
      rw [e2, ih, e1]
      have e4 : ∀ x y z : A, Φ last c + x + Φ c last + (y + z) = x + y + z + (Φ last c + Φ c last) := fun x y z => by abel
      rw [e4, hs last c, add_zero]

/-- Bridges cancel. -/
theorem cyc_fill (h0 : ∀ a, Φ a a = 0) (hs : ∀ a b, Φ a b + Φ b a = 0) {pts : List (Pt ℝ)} {last : Pt ℝ} (hl : pts.getLast? = some last)
    (qs : List Path) (hq : ∀ q ∈ qs, Returns q) :
    cyc Φ (pts ++ qs.flatMap fun q => q.pts ++ [last]) = cyc Φ pts + (qs.map fun q => cyc Φ q.pts).sum := by
  obtain ⟨p0, rfl⟩ : ∃ p0, pts = p0 ++ [last] := by
    have hne : pts ≠ [] := by rintro rfl; simp at hl
    refine ⟨pts.dropLast, ?_⟩
    rw [List.getLast?_eq_getLast_of_ne_nil hne] at hl
    rw [← Option.some.inj hl, List.dropLast_append_getLast]
  obtain ⟨a, l, e⟩ : ∃ a l, p0 ++ [last] = a :: l := by
    cases p0 with
    | nil => exact ⟨_, _, rfl⟩
    | cons a p => exact ⟨_, _, rfl⟩
  have e1 : cyc Φ (p0 ++ [last] ++ qs.flatMap fun q => q.pts ++ [last]) =
      run Φ (p0 ++ [last] ++ ((qs.flatMap fun q => q.pts ++ [last]) ++ [a])) := by
    rw [e, List.cons_append, cyc_cons, ← List.cons_append, List.append_assoc]
  have e2 : cyc Φ (p0 ++ [last]) = run Φ (p0 ++ [last] ++ [a]) := by rw [e, cyc_cons]
  rw [e1, e2, run_glue, run_glue, run_holes h0 hs last [a] qs hq]
  abel

end

/-! ### Covering -/

theorem crosses_symm {p a b : Pt ℝ} (h : Crosses p a b) : Crosses p b a := by
  obtain ⟨h1, h2⟩ := h
  refine ⟨fun h => h1 h.symm, ?_⟩
  have hne : b.y - a.y ≠ 0 := by
    intro h
    apply h1
    rw [show a.y = b.y by linarith]
  have hne' : a.y - b.y ≠ 0 := fun h => hne (by linarith)
  convert h2 using 1
  field_simp
  ring

open Classical in
/-- One if the line crosses the ray. -/
def crossing (p a b : Pt ℝ) : ZMod 2 := if Crosses p a b then 1 else 0

theorem crossing_self (p a : Pt ℝ) : crossing p a a = 0 := by simp [crossing, Crosses]

theorem crossing_symm (p a b : Pt ℝ) : crossing p a b + crossing p b a = 0 := by
  have : Crosses p a b ↔ Crosses p b a := ⟨crosses_symm, crosses_symm⟩
  by_cases h : Crosses p a b
  · rw [crossing, crossing, if_pos h, if_pos (this.1 h)]; decide
  · rw [crossing, crossing, if_neg h, if_neg fun h' => h (this.2 h')]; decide

theorem covers_iff (pts : List (Pt ℝ)) (p : Pt ℝ) : Covers pts p ↔ cyc (crossing p) pts = 1 := by
  classical
  rw [Covers, ← ZMod.natCast_eq_one_iff_odd]
  have : ∀ l : List (Pt ℝ × Pt ℝ), ((l.countP fun e => decide (Crosses p e.1 e.2) : ℕ) : ZMod 2) = (l.map fun e => crossing p e.1 e.2).sum := by
    intro l
    induction l with
    | nil => simp
    | cons e l ih =>
      rw [List.countP_cons, List.map_cons, List.sum_cons, ← ih, crossing]
      by_cases h : Crosses p e.1 e.2 <;> simp [h, add_comm]
  have h2 := this (pts.zip (pts.rotate 1))
  have e : cyc (crossing p) pts = ((pts.zip (pts.rotate 1)).map fun e => crossing p e.1 e.2).sum := by
    rw [cyc, ← List.map_uncurry_zip_eq_zipWith]; rfl
  rw [e, ← h2]

open Classical in
theorem sum_covers (p : Pt ℝ) (qs : List Path) :
    (qs.map fun q => cyc (crossing p) q.pts).sum = ((qs.countP fun q => decide (Covers q.pts p) : ℕ) : ZMod 2) := by
  induction qs with
  | nil => simp
  | cons q qs ih =>
    rw [List.countP_cons, List.map_cons, List.sum_cons, ih]
    have h2 : ∀ z : ZMod 2, z = 1 ∨ z = 0 := by decide
    rcases h2 (cyc (crossing p) q.pts) with h | h
    · have := (covers_iff q.pts p).2 h
      simp [h, this, add_comm]
    · have : ¬ Covers q.pts p := fun hc => by rw [(covers_iff q.pts p).1 hc] at h; exact absurd h (by decide)
      simp [h, this]

open Classical in
theorem covers_fill {pts : List (Pt ℝ)} {last : Pt ℝ} (hl : pts.getLast? = some last) (qs : List Path) (hq : ∀ q ∈ qs, Returns q) (p : Pt ℝ) :
    Covers (pts ++ qs.flatMap fun q => q.pts ++ [last]) p ↔
      Odd ((if Covers pts p then 1 else 0) + qs.countP fun q => decide (Covers q.pts p)) := by
  rw [covers_iff, cyc_fill (crossing_self p) (crossing_symm p) hl qs hq, sum_covers, ← ZMod.natCast_eq_one_iff_odd]
  push_cast
  have h2 : ∀ z : ZMod 2, z = 1 ∨ z = 0 := by decide
  rcases h2 (cyc (crossing p) pts) with h | h
  · rw [if_pos ((covers_iff pts p).2 h), h]
  · rw [if_neg (fun hc => by rw [(covers_iff pts p).1 hc] at h; exact absurd h (by decide)), h]

/-! ### Closed shapes -/

theorem pathOf_returns (n : ℕ) (hn : 1 ≤ n) (s : Poly4 ℝ) (ss : List (Poly4 ℝ))
    (hj : ∀ k x y, (s :: ss)[k]? = some x → (s :: ss)[k + 1]? = some y → x.d = y.a)
    (hc : ((s :: ss).getLast (by simp)).d = s.a) : (pathOf n (s :: ss)).head? = (pathOf n (s :: ss)).getLast? := by
  obtain ⟨⟨q, hq⟩, r, hr⟩ := Approx.samples_ends hn s
  obtain ⟨-, p', h2⟩ := Approx.chain_path hn ss r s.d (fun s' hs' => hj 0 s s' rfl hs') (fun k x y hx hy => hj (k + 1) x y hx hy)
  have hp : pathOf n (s :: ss) = r ++ [s.d] ++ ss.flatMap fun s => (Approx.samples n s).tail := by
    rw [← hr]; rfl
  have hp' : pathOf n (s :: ss) = s.a :: (q ++ ss.flatMap fun s => (Approx.samples n s).tail) := by
    rw [← List.cons_append, ← hq]; rfl
  have hlast : (ss.getLast?.map Poly4.d).getD s.d = s.a := by
    rw [← hc]
    cases ss with
    | nil => simp
    | cons x l => simp [List.getLast?_eq_getLast_of_ne_nil]
  conv_rhs => rw [hp, h2, hlast]
  rw [hp']; simp

end X7.Elem
