import Mathlib.Tactic.Ring
import Mathlib.Tactic.FieldSimp
import Mathlib.Tactic.LinearCombination
import Mathlib.Tactic.Linarith
import Mathlib.Tactic.NormNum
import Verif.Model.Mat3

namespace X7.Mat3
variable {K : Type*} [Field K]

theorem affine_one : (one : Mat3 K).Affine := ⟨rfl, rfl, rfl⟩
theorem affine_of6 (a b c d e f : K) : (of6 a b c d e f).Affine := ⟨rfl, rfl, rfl⟩

theorem affine_mul {m n : Mat3 K} (hm : m.Affine) (hn : n.Affine) : (m.mul n).Affine := by
  obtain ⟨h1, h2, h3⟩ := hm
  obtain ⟨k1, k2, k3⟩ := hn
  simp [Affine, mul, *]

theorem apply_mul {m n : Mat3 K} (hn : n.Affine) (p : Pt K) : (m.mul n).apply p = m.apply (n.apply p) := by
  obtain ⟨k1, k2, k3⟩ := hn
  ext <;> simp [apply, mul, *] <;> ring

theorem apply_one (p : Pt K) : (one : Mat3 K).apply p = p := by
  ext <;> simp [apply, one]

theorem mul_assoc' (l m n : Mat3 K) : (l.mul m).mul n = l.mul (m.mul n) := by
  ext <;> simp [mul] <;> ring

theorem one_mul' (m : Mat3 K) : one.mul m = m := by ext <;> simp [mul, one]
theorem mul_one' (m : Mat3 K) : m.mul one = m := by ext <;> simp [mul, one]

theorem det_mul (m n : Mat3 K) : (m.mul n).det = m.det * n.det := by
  simp [mul, det]; ring

theorem det_affine {m : Mat3 K} (hm : m.Affine) : m.det = m.a * m.e - m.b * m.d := by
  obtain ⟨h1, h2, h3⟩ := hm
  simp [det, *]

theorem inv_ok [DecidableEq K] {m n : Mat3 K} (h : m.inv = .ok n) :
    m.det ≠ 0 ∧ m.mul n = one ∧ n.mul m = one := by
  unfold inv at h
  split at h
  · cases h
  · rename_i hd
    cases h
    refine ⟨hd, ?_, ?_⟩
    · ext <;> simp only [mul, one] <;> field_simp <;> simp only [det] <;> ring
    · ext <;> simp only [mul, one] <;> field_simp <;> simp only [det] <;> ring

theorem inv_isOk [DecidableEq K] {m : Mat3 K} (h : m.det ≠ 0) : ∃ n, m.inv = .ok n := by
  simp [inv, h]

theorem inv_affine [DecidableEq K] {m n : Mat3 K} (hm : m.Affine) (h : m.inv = .ok n) : n.Affine := by
  obtain ⟨h1, h2, h3⟩ := hm
  have hd := (inv_ok h).1
  have hd' : m.det = m.a * m.e - m.b * m.d := by simp [det, *]
  unfold inv at h
  rw [if_neg hd] at h
  cases h
  refine ⟨by simp [*], by simp [*], ?_⟩
  simp only []
  rw [← hd', div_self hd]

/-- Affine matrices are determined by their action on points. -/
theorem ext_apply {m n : Mat3 K} (hm : m.Affine) (hn : n.Affine) (h : ∀ p, m.apply p = n.apply p) : m = n := by
  obtain ⟨h1, h2, h3⟩ := hm
  obtain ⟨k1, k2, k3⟩ := hn
  have e0 := h ⟨0, 0⟩
  have e1 := h ⟨1, 0⟩
  have e2 := h ⟨0, 1⟩
  simp only [apply, Pt.mk.injEq, mul_zero, mul_one, zero_add, add_zero] at e0 e1 e2
  ext
  · linear_combination e1.1 - e0.1
  · linear_combination e2.1 - e0.1
  · exact e0.1
  · linear_combination e1.2 - e0.2
  · linear_combination e2.2 - e0.2
  · exact e0.2
  · rw [h1, k1]
  · rw [h2, k2]
  · rw [h3, k3]

/-- The linear part acts on differences. -/
theorem apply_sub (m : Mat3 K) (p q : Pt K) : (m.apply p).sub (m.apply q) = m.applyVec (p.sub q) := by
  ext <;> simp [apply, Pt.sub, applyVec] <;> ring

theorem apply_addVector (m : Mat3 K) (p : Pt K) (v : Vec K) :
    m.apply (p.addVector v) = (m.apply p).addVector (m.applyVec v) := by
  ext <;> simp [apply, Pt.addVector, applyVec] <;> ring

end X7.Mat3
