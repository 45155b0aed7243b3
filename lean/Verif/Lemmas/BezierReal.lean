import Verif.Lemmas.Bezier
import Verif.Lemmas.VecReal

namespace X7

theorem lastMaxFrom_spec (vs : List ℝ) : ∀ (pre : List ℝ) (best : ℝ) (bi : ℕ),
    pre[bi]? = some best → (∀ (j : ℕ) (x : ℝ), pre[j]? = some x → x ≤ best ∧ (bi < j → x < best)) →
    ∃ b, (pre ++ vs)[lastMaxFrom best bi pre.length vs]? = some b ∧
      ∀ (j : ℕ) (x : ℝ), (pre ++ vs)[j]? = some x → x ≤ b ∧ (lastMaxFrom best bi pre.length vs < j → x < b) := by
  induction vs with
  | nil =>
    intro pre best bi hb hall
    exact ⟨best, by simpa [lastMaxFrom] using hb, by simpa [lastMaxFrom] using hall⟩
  | cons v vs ih =>
    intro pre best bi hb hall
    have hbi : bi < pre.length := (List.getElem?_eq_some_iff.1 hb).1
    have e : pre ++ v :: vs = (pre ++ [v]) ++ vs := by simp
    have el : pre.length + 1 = (pre ++ [v]).length := by simp
    simp only [lastMaxFrom]
    rw [e, el]
    split
    · rename_i h
      refine ih (pre ++ [v]) v pre.length (by simp) ?_
      intro j x hx
      by_cases hj : j < pre.length
      · rw [List.getElem?_append_left hj] at hx
        exact ⟨(hall j x hx).1.trans h, fun hh => by omega⟩
      · have hj2 : j < (pre ++ [v]).length := (List.getElem?_eq_some_iff.1 hx).1
        have : j = pre.length := by simp at hj2; omega
        subst this
        simp at hx
        exact ⟨hx.symm.le, fun hh => absurd hh (lt_irrefl _)⟩
    · rename_i h
      refine ih (pre ++ [v]) best bi (by rw [List.getElem?_append_left hbi]; exact hb) ?_
      intro j x hx
      by_cases hj : j < pre.length
      · rw [List.getElem?_append_left hj] at hx
        exact hall j x hx
      · have hj2 : j < (pre ++ [v]).length := (List.getElem?_eq_some_iff.1 hx).1
        have : j = pre.length := by simp at hj2; omega
        subst this
        simp at hx
        subst hx
        exact ⟨(not_le.1 h).le, fun _ => not_le.1 h⟩

theorem lastMax_spec {vs : List ℝ} {i : ℕ} (h : lastMax vs = some i) :
    ∃ b, vs[i]? = some b ∧ ∀ (j : ℕ) (x : ℝ), vs[j]? = some x → x ≤ b ∧ (i < j → x < b) := by
  cases vs with
  | nil => simp [lastMax] at h
  | cons v vs =>
    simp only [lastMax, Option.some.injEq] at h
    subst h
    have := lastMaxFrom_spec vs [v] v 0 (by simp) ?_
    · simpa using this
    · intro j x hx
      rcases j with _ | j
      · simp at hx; subst hx; simp
      · simp at hx

theorem lastMax_some {vs : List ℝ} (h : vs ≠ []) : ∃ i, lastMax vs = some i := by
  cases vs with
  | nil => exact absurd rfl h
  | cons v vs => exact ⟨_, rfl⟩

theorem insertIdx_append_len {α : Type*} (A B : List α) (k : ℕ) (x : α) :
    (A ++ B).insertIdx (A.length + k) x = A ++ B.insertIdx k x := by
  induction A with
  | nil => simp
  | cons a A ih =>
    rw [List.cons_append, List.length_cons, show A.length + 1 + k = (A.length + k) + 1 by omega, List.insertIdx_succ_cons, ih]
    rfl

variable {K : Type*} [Field K]

theorem closedSegs_rotate (cps : List (CP K)) (k : ℕ) : closedSegs (cps.rotate k) = (closedSegs cps).rotate k := by
  rw [closedSegs, closedSegs, List.zipWith_rotate_distrib _ _ _ _ (by simp), List.rotate_rotate, List.rotate_rotate, Nat.add_comm]

/-- Only the right side of the first and the left side of the last control point matter. -/
theorem openSegs'_congr {q r p l : CP K} (B : List (CP K)) (hqc : r.c = q.c) (hqr : r.dr = q.dr) (hpc : l.c = p.c)
    (hpl : l.dl = p.dl) : openSegs' (r :: (B ++ [l])) = openSegs' (q :: (B ++ [p])) := by
  have e1 : ∀ x, seg r x = seg q x := fun x => by simp [seg, hqc, hqr]
  have e2 : ∀ x, seg x l = seg x p := fun x => by simp [seg, hpc, hpl]
  have : ∀ (B : List (CP K)) (x : CP K), openSegs' (x :: (B ++ [l])) = openSegs' (x :: (B ++ [p])) := by
    intro B
    induction B with
    | nil => intro x; simp [openSegs', e2]
    | cons b B ih => intro x; simp only [List.cons_append, openSegs']; rw [ih]
  rw [this]
  cases B with
  | nil => simp [openSegs', e1]
  | cons b B => simp only [List.cons_append, openSegs', e1]

end X7
