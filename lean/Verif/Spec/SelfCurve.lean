import Verif.Model.SelfCurve

/-! Assumptions on the intersection finder, and what it finds on a closed curve. -/

noncomputable section

namespace X7.Bzi

/-- What the library returns are intersections: parameters between 0 and 1 at which both curves are at the same point. -/
def Lib.Sound (lib : Lib) : Prop :=
  ∀ A B l, lib A B = some l → ∀ ts ∈ l, (0 ≤ ts.1 ∧ ts.1 ≤ 1) ∧ (0 ≤ ts.2 ∧ ts.2 ≤ 1) ∧ A.at' ts.1 = B.at' ts.2

/-- `(t, s)` is an intersection of `A` and `B` that the library has found, other than the end of one being the start of the other. -/
def Meets (lib : Lib) (A B : Poly4 ℝ) (t s : ℝ) : Prop :=
  ∃ l, lib A B = some l ∧ (t, s) ∈ l ∧ (t, s) ≠ (1, 0) ∧ (t, s) ≠ (0, 1)

/-- The halves of a segment. -/
def halves (S : Poly4 ℝ) (L R : Poly4 ℝ) : Prop := ∀ u, L.at' u = S.at' (u / 2) ∧ R.at' u = S.at' ((1 + u) / 2)

/-- Segments `i` and `j` of the list meet at parameters `t`, `s`. -/
def Cross (lib : Lib) (ss : List (Poly4 ℝ)) (i j : ℕ) (t s : ℝ) : Prop :=
  ∃ A B, i < j ∧ ss[i]? = some A ∧ ss[j]? = some B ∧ Meets lib A B t s

/-- No segment ends in an intersection. -/
def NoEnds (lib : Lib) (ss : List (Poly4 ℝ)) : Prop := ∀ i j t s, Cross lib ss i j t s → t ≠ 1 ∧ s ≠ 1

/-- Different intersections are at least 1e-11 apart. -/
def CrossApart (lib : Lib) (ss : List (Poly4 ℝ)) : Prop :=
  ∀ i j t s i' j' t' s' A A', Cross lib ss i j t s → Cross lib ss i' j' t' s' → ss[i]? = some A → ss[i']? = some A' →
    A.at' t ≠ A'.at' t' → 1 / 10 ^ 11 ≤ Real.sqrt (((A.at' t).x - (A'.at' t').x) ^ 2 + ((A.at' t).y - (A'.at' t').y) ^ 2)

end X7.Bzi
