import Verif.Lemmas.Area

/-!
C07: `polygon_area` is the signed shoelace area.
-/

namespace X7
variable {K : Type*} [Field K]

/-- C07: rotating the vertex list does not change the area. -/
theorem C07_rotate (l : List (Pt K)) (n : ℕ) : polygonArea (l.rotate n) = polygonArea l := by
  rw [polygonArea_eq, polygonArea_eq, List.rotate_rotate, Nat.add_comm n 1, ← List.rotate_rotate,
    ← List.zipWith_rotate_distrib _ _ _ _ (by simp), sum_rotate]

/-- C07: reversing the vertex list negates the area. -/
theorem C07_reverse (l : List (Pt K)) : polygonArea l.reverse = - polygonArea l := by
  have key : (List.zipWith crs l.reverse (l.reverse.rotate 1)).sum
      = - (List.zipWith crs l (l.rotate 1)).sum := by
    rcases Nat.lt_or_ge l.length 2 with h | h
    · match l, h with
      | [], _ => simp
      | [a], _ => simp [crs]; ring
    · have e : l.reverse.rotate 1 = (l.rotate (l.length - 1)).reverse := by
        rw [List.reverse_rotate]
        congr 1
        rw [Nat.mod_eq_of_lt (by omega)]
        omega
      rw [e, ← List.reverse_zipWith (by simp), List.sum_reverse,
        ← sum_rotate _ 1, List.zipWith_rotate_distrib _ _ _ _ (by simp), List.rotate_rotate,
        show l.length - 1 + 1 = l.length by omega, List.rotate_length, List.zipWith_comm]
      have := sum_zipWith_mul (K := K) crs (-1) l (l.rotate 1)
      rw [neg_one_mul] at this
      rw [← this]
      congr 2
      funext a b
      simp [crs]; ring
  rw [polygonArea_eq, polygonArea_eq, key]; ring

/-- C07: under an affine map `(x,y) ↦ (p x + q y + e, r x + s y + f)` the area is multiplied by
the determinant. Translation (`p = s = 1, q = r = 0`) leaves it unchanged. -/
theorem C07_affine (p q r s e f : K) (l : List (Pt K)) :
    polygonArea (l.map fun a => ⟨p * a.x + q * a.y + e, r * a.x + s * a.y + f⟩)
      = (p * s - q * r) * polygonArea l := by
  have h := sum_zipWith_cyc (K := K)
    (fun a b => crs ⟨p * a.x + q * a.y + e, r * a.x + s * a.y + f⟩
      ⟨p * b.x + q * b.y + e, r * b.x + s * b.y + f⟩)
    (fun a b => (p * s - q * r) * crs a b)
    (fun a => (p * a.x + q * a.y) * f - (r * a.x + s * a.y) * e)
    (by intro a b; simp only [crs]; ring) l
  rw [sum_zipWith_mul] at h
  rw [polygonArea_eq, polygonArea_eq, ← List.map_rotate, List.zipWith_map, h]
  ring

/-- C07: translating every vertex by the same vector keeps the area. -/
theorem C07_translate (v : Vec K) (l : List (Pt K)) :
    polygonArea (l.map fun a => a.addVector v) = polygonArea l := by
  have := C07_affine (K := K) 1 0 0 1 v.x v.y l
  simpa [Pt.addVector] using this

/-- C07: fewer than three vertices have area 0. -/
theorem C07_small (l : List (Pt K)) (h : l.length < 3) : polygonArea l = 0 := by
  match l, h with
  | [], _ => simp [polygonArea_eq]
  | [a], _ => simp [polygonArea_eq, crs]; left; ring
  | [a, b], _ => simp [polygonArea_cons, chain, crs]; left; ring

/-- C07: cutting along the diagonal from `a` to `b` splits the area. -/
theorem C07_diagonal (a b : Pt K) (P Q : List (Pt K)) :
    polygonArea (a :: P ++ b :: Q) = polygonArea (a :: P ++ [b]) + polygonArea (b :: Q ++ [a]) := by
  simp only [List.cons_append, polygonArea_cons]
  have h1 := chain_append a b P (Q ++ [a])
  have h2 := chain_append a b P [a]
  have h3 := chain_append b a Q [b]
  simp only [List.cons_append, List.append_assoc, List.nil_append, chain] at h1 h2 h3 ⊢
  rw [h1, h2, h3]
  simp only [crs]
  ring

/-- C07: triangle: half the cross product of two edges. -/
theorem C07_triangle (a b c : Pt K) :
    polygonArea [a, b, c] = (b.sub a).cross (c.sub a) / 2 := by
  simp only [polygonArea_cons, List.cons_append, List.nil_append, chain, crs, Vec.cross, Pt.sub]; ring

/-- C07: a counter-clockwise axis-parallel rectangle has area width * height. -/
theorem C07_rectangle [NeZero (2 : K)] (x1 y1 x2 y2 : K) :
    polygonArea [⟨x1, y1⟩, ⟨x2, y1⟩, ⟨x2, y2⟩, ⟨x1, y2⟩] = (x2 - x1) * (y2 - y1) := by
  have h2 : (2 : K) ≠ 0 := NeZero.ne 2
  simp only [polygonArea_cons, List.cons_append, List.nil_append, chain, crs]
  rw [div_eq_iff h2]
  ring

/-- C07 (sign): if all edges of a non-empty polygon turn counter-clockwise around some point `o`
then the area is positive, as documented (">0 means CCW"). -/
theorem C07_ccw_positive [LinearOrder K] [IsStrictOrderedRing K] (o : Pt K) (l : List (Pt K))
    (hne : l ≠ [])
    (h : ∀ ab ∈ iterRotate2 l, 0 < (ab.1.sub o).cross (ab.2.sub o)) :
    0 < polygonArea l := by
  have ht := C07_translate (⟨-o.x, -o.y⟩ : Vec K) l
  rw [← ht, polygonArea_eq, ← List.map_rotate, List.zipWith_map, ← List.map_uncurry_zip_eq_zipWith]
  apply div_pos _ two_pos
  apply List.sum_pos
  · intro x hx
    rw [List.mem_map] at hx
    obtain ⟨⟨a, b⟩, hab, rfl⟩ := hx
    have := h (a, b) hab
    simpa [crs, Vec.cross, Pt.sub, Pt.addVector, sub_eq_add_neg] using this
  · cases l with
    | nil => exact absurd rfl hne
    | cons a t => cases t <;> simp

-- non-vacuity
example : polygonArea [(⟨0, 0⟩ : Pt ℚ), ⟨2, 0⟩, ⟨2, 3⟩, ⟨0, 3⟩] = 6 := by
  rw [C07_rectangle]; norm_num
example : ∀ ab ∈ iterRotate2 [(⟨0, 0⟩ : Pt ℚ), ⟨2, 0⟩, ⟨2, 3⟩, ⟨0, 3⟩],
    0 < (ab.1.sub ⟨1, 1⟩).cross (ab.2.sub ⟨1, 1⟩) := by
  intro ab h
  simp [iterRotate2, List.rotate] at h
  rcases h with rfl | rfl | rfl | rfl <;> norm_num [Vec.cross, Pt.sub]

end X7
