import Mathlib.Tactic.Ring
import Mathlib.Tactic.NormNum
import Mathlib.Tactic.FieldSimp
import Mathlib.Tactic.LinearCombination
import Verif.Model.Vec

/-!
C01: points and vectors form an affine space. All statements are about Python's `a + b`, `a - b`
(`pyAdd`, `pySub`), including which exceptions are raised.
-/

namespace X7
variable {K : Type*} [Field K]

/-- C01: which operand kinds `+` accepts and the kind of the result. -/
theorem C01_add_kinds (a b : Val K) :
    (∃ r, pyAdd a b = .ok r) ↔
      (∃ v p, a = .vec v ∧ b = .pt p) ∨ (∃ p v, a = .pt p ∧ b = .vec v) ∨
      (∃ v w, a = .vec v ∧ b = .vec w) ∨ (∃ k l, a = .num k ∧ b = .num l) := by
  cases a <;> cases b <;> simp [pyAdd]

/-- C01: every rejected `+` is a `TypeError`; in particular `P + P`. -/
theorem C01_add_error (a b : Val K) (e : PyErr) (h : pyAdd a b = .error e) : e = .type := by
  cases a <;> cases b <;> simp_all [pyAdd]

theorem C01_point_plus_point (p q : Pt K) : pyAdd (.pt p) (.pt q) = .error .type := rfl

/-- C01: among points and vectors exactly `V - P` is rejected by `-`, with `TypeError`. -/
theorem C01_sub_kinds (a b : Val K) (ha : ∀ k, a ≠ .num k) (hb : ∀ k, b ≠ .num k) :
    (pySub a b = .error .type ↔ ∃ v p, a = .vec v ∧ b = .pt p) ∧
    ((∃ r, pySub a b = .ok r) ↔ ¬ ∃ v p, a = .vec v ∧ b = .pt p) := by
  cases a <;> cases b <;> simp_all [pySub]

/-- C01: result kinds and values of the accepted combinations. -/
theorem C01_values (p q : Pt K) (v w : Vec K) :
    pySub (.pt p) (.pt q) = .ok (.vec ⟨p.x - q.x, p.y - q.y⟩) ∧
    pyAdd (.pt p) (.vec v) = .ok (.pt ⟨p.x + v.x, p.y + v.y⟩) ∧
    pySub (.pt p) (.vec v) = .ok (.pt ⟨p.x - v.x, p.y - v.y⟩) ∧
    pyAdd (.vec v) (.vec w) = .ok (.vec ⟨v.x + w.x, v.y + w.y⟩) ∧
    pySub (.vec v) (.vec w) = .ok (.vec ⟨v.x - w.x, v.y - w.y⟩) := by
  simp [pySub, pyAdd, Pt.sub, Pt.addVector, Pt.subVec, Vec.add, Vec.subVector]

/-- C01: `-` with a number: numbers subtract, a point or Vector minus a number is an `AttributeError`, a number minus a point or
Vector a `TypeError`. -/
theorem C01_sub_numbers (k l : K) (p : Pt K) (v : Vec K) :
    pySub (.num k) (.num l) = .ok (.num (k - l)) ∧ pyAdd (.num k) (.num l) = .ok (.num (k + l)) ∧
    pySub (.vec v) (.num k) = .error .attribute ∧ pySub (.pt p) (.num k) = .error .attribute ∧
    pySub (.num k) (.pt p) = .error .type ∧ pySub (.num k) (.vec v) = .error .type :=
  ⟨rfl, rfl, rfl, rfl, rfl, rfl⟩

/-- C01: `+` of accepted operands is commutative. -/
theorem C01_add_comm (a b : Val K) : pyAdd a b = pyAdd b a := by
  cases a <;> cases b <;> simp [pyAdd, Vec.add, add_comm]

/-- C01: `q + (p - q) = p`. -/
theorem C01_add_sub_cancel (p q : Pt K) :
    (do let d ← pySub (.pt p) (.pt q); pyAdd (.pt q) d) = .ok (.pt p) := by
  simp [pySub, pyAdd, Pt.sub, Pt.addVector, bind, Except.bind]

/-- C01: `(p + v) - v = p` and `(p - v) + v = p`. -/
theorem C01_vec_cancel (p : Pt K) (v : Vec K) :
    (do let r ← pyAdd (.pt p) (.vec v); pySub r (.vec v)) = .ok (.pt p) ∧
    (do let r ← pySub (.pt p) (.vec v); pyAdd r (.vec v)) = .ok (.pt p) := by
  simp [pySub, pyAdd, Pt.subVec, Pt.addVector, bind, Except.bind]

/-- C01: `(p + v) - p = v`. -/
theorem C01_point_cancel (p : Pt K) (v : Vec K) :
    (do let r ← pyAdd (.pt p) (.vec v); pySub r (.pt p)) = .ok (.vec v) := by
  simp [pySub, pyAdd, Pt.sub, Pt.addVector, bind, Except.bind]

/-- C01 (Chasles): `(p - q) + (q - r) = p - r`. -/
theorem C01_chasles (p q r : Pt K) :
    (do let a ← pySub (.pt p) (.pt q); let b ← pySub (.pt q) (.pt r); pyAdd a b)
      = pySub (.pt p) (.pt r) := by
  simp [pySub, pyAdd, Pt.sub, Vec.add, bind, Except.bind]

/-- C01: adding is associative whenever one grouping is accepted: `(p + v) + w = p + (v + w)`,
and the same for three vectors. -/
theorem C01_add_assoc (a : Val K) (v w : Vec K) (ha : ∀ k, a ≠ .num k) :
    (do let r ← pyAdd a (.vec v); pyAdd r (.vec w)) =
    (do let r ← pyAdd (.vec v) (.vec w); pyAdd a r) := by
  cases a <;> simp_all [pyAdd, Pt.addVector, Vec.add, bind, Except.bind, add_assoc]

/-- C01: subtracting is adding the negated vector. -/
theorem C01_sub_eq_add_neg (a : Val K) (v : Vec K) (ha : ∀ k, a ≠ .num k) :
    pySub a (.vec v) = pyAdd a (.vec v.neg) := by
  cases a <;> simp_all [pySub, pyAdd, Pt.subVec, Pt.addVector, Vec.subVector, Vec.add, Vec.neg,
    sub_eq_add_neg]

/-- C01: vectors with `+`, unary minus and `*` form a vector space. -/
theorem C01_vector_space (u v w : Vec K) (k l : K) :
    (u.add v).add w = u.add (v.add w) ∧ u.add v = v.add u ∧
    u.add ⟨0, 0⟩ = u ∧ u.add u.neg = ⟨0, 0⟩ ∧ u.sub v = u.add v.neg ∧
    (u.add v).mul k = (u.mul k).add (v.mul k) ∧ u.mul (k + l) = (u.mul k).add (u.mul l) ∧
    u.mul (k * l) = (u.mul k).mul l ∧ u.mul 1 = u ∧ u.neg = u.mul (-1) := by
  refine ⟨?_, ?_, ?_, ?_, ?_, ?_, ?_, ?_, ?_, ?_⟩ <;>
    (ext <;> simp [Vec.add, Vec.neg, Vec.sub, Vec.subVector, Vec.mul] <;> ring)

/-- C01: `v / k` raises exactly for `k = 0`, otherwise it undoes `* k`. -/
theorem C01_truediv [DecidableEq K] (v : Vec K) (k : K) :
    (k = 0 → v.truediv k = .error .zeroDivision) ∧
    (k ≠ 0 → (v.mul k).truediv k = .ok v ∧ ∃ w, v.truediv k = .ok w ∧ w.mul k = v) := by
  constructor
  · rintro rfl; simp [Vec.truediv, pyDiv, bind, Except.bind]
  · intro h
    simp [Vec.truediv, pyDiv, h, bind, Except.bind, pure, Except.pure, Vec.mul]

/-- C01: `mid` is the point halfway: `p + (q - p) * ½`, symmetric, and `m - p = q - m`. -/
theorem C01_mid (h2 : (2 : K) ≠ 0) (p q : Pt K) :
    p.mid q = p.addVector ((q.sub p).mul (1 / 2)) ∧ p.mid q = q.mid p ∧
    (p.mid q).sub p = q.sub (p.mid q) := by
  refine ⟨?_, ?_, ?_⟩ <;>
    (ext <;> simp [Pt.mid, Pt.addVector, Pt.sub, Vec.mul] <;> field_simp <;> ring)

-- non-vacuity: the hypotheses above are met by concrete operands
example : (∀ k, (Val.pt ⟨1, 2⟩ : Val ℚ) ≠ .num k) ∧ (∀ k, (Val.vec ⟨3, 4⟩ : Val ℚ) ≠ .num k) := by simp
example : pySub (.vec ⟨1, 2⟩) (.pt ⟨3, 4⟩ : Val ℚ) = .error .type := rfl
example : pyAdd (.pt ⟨1, 2⟩) (.vec ⟨3, 4⟩ : Val ℚ) = .ok (.pt ⟨4, 6⟩) := by
  norm_num [pyAdd, Pt.addVector]
example : (2 : ℚ) ≠ 0 := by norm_num
example : (⟨1, 3⟩ : Vec ℚ).truediv 2 = .ok ⟨1/2, 3/2⟩ := by
  norm_num [Vec.truediv, pyDiv, bind, Except.bind, pure, Except.pure]

end X7
