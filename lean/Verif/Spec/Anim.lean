import Verif.Model.Anim
import Verif.Spec.PointHeap

/-! What C58 and C61 say about animations, apart from the code. -/

noncomputable section

namespace X7.Anim

/-- The place `tx` of the way from `o` to `g` across and `ty` of the way up. -/
def between (o g : Pt ℝ) (tx ty : ℝ) : Pt ℝ := ⟨o.x + tx * (g.x - o.x), o.y + ty * (g.y - o.y)⟩

/-- `At h a t p`: with the target where it is in `h`, animation `a` belongs at `p` at time `t`. -/
inductive At (h : PH.Heap ℝ) : Anim → ℝ → Pt ℝ → Prop
  | linear {pt o g q t} : PH.Reads h g q → At h (.linear pt o g) t (between o q t t)
  | func {pt o g q t s} {f : TFunc} : PH.Reads h g q → f (.num t) = .ok (.num s) → At h (.linearFunc pt o g f) t (between o q s s)
  | funcPair {pt o g q t sx sy} {f : TFunc} : PH.Reads h g q → f (.num t) = .ok (.pair sx sy) →
      At h (.linearFunc pt o g f) t (between o q sx sy)
  | sinusoidal {pt o g q t f d} : PH.Reads h g q →
      At h (.sinusoidal pt o g f d) t
        (between o q (Real.sin (Real.pi * (f * t + d / 360)) ^ 2) (Real.sin (Real.pi * (f * t + d / 360)) ^ 2))
  | circular {pt o r f d t} :
      At h (.circular pt o r f d) t ⟨o.x + r * Real.sin (2 * Real.pi * f * t + d), o.y + r * Real.cos (2 * Real.pi * f * t + d)⟩

/-- The point moved towards. -/
def Anim.target : Anim → Option ℕ
  | .linear _ _ g => some g
  | .linearFunc _ _ g _ => some g
  | .sinusoidal _ _ g _ _ => some g
  | .circular _ _ _ _ _ => none

/-- The animations move different plain points, and no target is chained on a point moved. -/
structure Fine (h : PH.Heap ℝ) (anims : List Anim) : Prop where
  points : ∀ a ∈ anims, ∃ x y n, h[a.pt]? = some (.point x y n)
  distinct : (anims.map Anim.pt).Nodup
  target : ∀ a ∈ anims, ∀ g ∈ a.target, PH.isBasePoint h g ∧ ∀ b ∈ anims, ¬ PH.Depends h g b.pt

/-- A history: single updates at any times in any order, failures being caught. -/
def history (h : PH.Heap ℝ) (hist : List (Anim × TVal)) : PH.Heap ℝ :=
  hist.foldl (fun h x => match update h x.1 x.2 with | .ok h' => h' | .error _ => h) h

/-- `v` is the height at `t` of the polyline through the knots, level before the first and from the last knot on. -/
def PolyAt (curve : List (ℝ × ℝ)) (t v : ℝ) : Prop :=
  (∃ k, curve.head? = some k ∧ t < k.1 ∧ v = k.2) ∨ (∃ k, curve.getLast? = some k ∧ k.1 ≤ t ∧ v = k.2) ∨
  ∃ (i : ℕ) (a b : ℝ × ℝ), curve[i]? = some a ∧ curve[i + 1]? = some b ∧ a.1 ≤ t ∧ t < b.1 ∧
    v = a.2 + (t - a.1) / (b.1 - a.1) * (b.2 - a.2)

end X7.Anim
