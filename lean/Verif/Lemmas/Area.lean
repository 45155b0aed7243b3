import Mathlib.Tactic.Ring
import Mathlib.Tactic.Linarith
import Mathlib.Tactic.NormNum
import Mathlib.Tactic.LinearCombination
import Mathlib.Algebra.BigOperators.Group.List.Basic
import Mathlib.Algebra.BigOperators.Ring.List
import Mathlib.Algebra.Order.BigOperators.Group.List
import Verif.Model.Vec

namespace X7
variable {K : Type*} [Field K]

/-- Cross product of position vectors. -/
def crs (a b : Pt K) : K := a.x * b.y - a.y * b.x

theorem polygonArea_eq (l : List (Pt K)) :
    polygonArea l = (List.zipWith crs l (l.rotate 1)).sum / 2 := by
  simp only [polygonArea, iterRotate2, List.map_zip_eq_zipWith]
  rfl

theorem sum_map_rotate {α : Type*} (f : α → K) (l : List α) (n : ℕ) :
    ((l.rotate n).map f).sum = (l.map f).sum :=
  ((List.rotate_perm l n).map f).sum_eq

theorem sum_rotate (l : List K) (n : ℕ) : (l.rotate n).sum = l.sum :=
  (List.rotate_perm l n).sum_eq

/-- Telescoping sums around a cycle: `f a b = g a b + h a - h b` for all pairs of the cycle. -/
theorem sum_zipWith_telescope {α : Type*} (f g : α → α → K) (h : α → K)
    (hf : ∀ a b, f a b = g a b + h a - h b) :
    ∀ l m : List α, l.length = m.length →
      (List.zipWith f l m).sum = (List.zipWith g l m).sum + (l.map h).sum - (m.map h).sum
  | [], [], _ => by simp
  | a :: l, b :: m, e => by
      have := sum_zipWith_telescope f g h hf l m (by simpa using e)
      simp only [List.zipWith_cons_cons, List.sum_cons, List.map_cons, this, hf]
      ring
  | [], _ :: _, e => by simp at e
  | _ :: _, [], e => by simp at e

theorem sum_zipWith_cyc (f g : Pt K → Pt K → K) (h : Pt K → K)
    (hf : ∀ a b, f a b = g a b + h a - h b) (l : List (Pt K)) :
    (List.zipWith f l (l.rotate 1)).sum = (List.zipWith g l (l.rotate 1)).sum := by
  rw [sum_zipWith_telescope f g h hf l _ (by simp), sum_map_rotate]
  ring

theorem sum_zipWith_mul (f : Pt K → Pt K → K) (c : K) : ∀ l m : List (Pt K),
    (List.zipWith (fun a b => c * f a b) l m).sum = c * (List.zipWith f l m).sum
  | [], _ => by simp
  | _ :: _, [] => by simp
  | a :: l, b :: m => by
      simp only [List.zipWith_cons_cons, List.sum_cons, sum_zipWith_mul f c l m]; ring

/-- `chain [a,b,c,..] = crs a b + crs b c + ..` (open chain). -/
def chain : List (Pt K) → K
  | a :: b :: l => crs a b + chain (b :: l)
  | _ => 0

theorem zipWith_chain (a z : Pt K) (l : List (Pt K)) :
    (List.zipWith crs (a :: l) (l ++ [z])).sum = chain (a :: l ++ [z]) := by
  induction l generalizing a with
  | nil => simp [chain]
  | cons b l ih => simpa [chain] using ih b

theorem polygonArea_cons (a : Pt K) (l : List (Pt K)) :
    polygonArea (a :: l) = chain (a :: l ++ [a]) / 2 := by
  rw [polygonArea_eq, ← zipWith_chain]; simp

theorem chain_append (a b : Pt K) (l m : List (Pt K)) :
    chain (a :: l ++ b :: m) = chain (a :: l ++ [b]) + chain (b :: m) := by
  induction l generalizing a with
  | nil => simp [chain]
  | cons c l ih =>
    have := ih c
    simp only [List.cons_append, chain] at this ⊢
    rw [this]; ring

end X7
