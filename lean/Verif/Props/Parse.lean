import Mathlib.Data.List.Basic
import Verif.Spec.Parse

/-!
C06: `BasePoint.parse`.
-/

namespace X7.Parse
variable {N P X : Type*}

/-- C06: `parse` returns `out` exactly if the input is made of number pairs, points and tuples of allowed length and `out`
lists them in order. -/
theorem C06_parse_iff (allow : Bool) (pts out : List (Item N P X)) : parse allow pts = .ok out ↔ Good allow pts out := by
  constructor
  · intro h
    induction pts using parse.induct allow generalizing out with
    | case1 => cases h; exact .nil
    | case2 a => simp [parse] at h
    | case3 a y rest out' ho ih =>
      simp only [parse, ho] at h; cases h; exact .pair a y (ih _ ho)
    | case4 a y rest e ho ih => simp only [parse, ho] at h; cases h
    | case5 a x rest hx => cases x <;> simp_all [parse]
    | case6 p rest out' ho ih => simp only [parse, ho] at h; cases h; exact .point p (ih _ ho)
    | case7 p rest e ho ih => simp only [parse, ho] at h; cases h
    | case8 vs rest hl out' ho ih =>
      simp only [parse, hl, if_true, ho] at h
      cases h
      have := ih _ ho
      match vs, allow with
      | [v, w], _ => exact .tuple2 v w this
      | [u, v, w], true => exact .tuple3 u v w rfl this
      | [], true => simp at hl
      | [], false => simp at hl
      | [_], true => simp at hl
      | [_], false => simp at hl
      | [_, _, _], false => simp at hl
      | _ :: _ :: _ :: _ :: _, true => simp at hl
      | _ :: _ :: _ :: _ :: _, false => simp at hl
    | case9 vs rest hl e ho ih => simp only [parse, hl, if_true, ho] at h; cases h
    | case10 vs rest hl => simp only [parse, hl, if_false] at h; cases h
    | case11 x rest => simp [parse] at h
  · intro h
    induction h with
    | nil => rfl
    | pair a y _ ih => simp [parse, ih]
    | point p _ ih => simp [parse, ih]
    | tuple2 v w _ ih => cases allow <;> simp [parse, ih]
    | tuple3 u v w ha _ ih => subst ha; simp [parse, ih]

/-- C06: everything else raises `ValueError`; no other exception is possible. -/
theorem C06_otherwise_value_error (allow : Bool) (pts : List (Item N P X)) (h : ¬ ∃ out, Good allow pts out) :
    parse allow pts = .error .value := by
  have key : ∀ e, parse allow pts = .error e → e = .value := by
    clear h
    induction pts using parse.induct allow with
    | case1 => intro e h; cases h
    | case2 a => intro e h; simp [parse] at h; exact h.symm
    | case3 a y rest out' ho ih => intro e h; simp only [parse, ho] at h; cases h
    | case4 a y rest e' ho ih => intro e h; simp only [parse, ho] at h; cases h; exact ih _ ho
    | case5 a x rest hx => intro e h; cases x <;> simp_all [parse]
    | case6 p rest out' ho ih => intro e h; simp only [parse, ho] at h; cases h
    | case7 p rest e' ho ih => intro e h; simp only [parse, ho] at h; cases h; exact ih _ ho
    | case8 vs rest hl out' ho ih => intro e h; simp only [parse, hl, if_true, ho] at h; cases h
    | case9 vs rest hl e' ho ih => intro e h; simp only [parse, hl, if_true, ho] at h; cases h; exact ih _ ho
    | case10 vs rest hl => intro e h; simp only [parse, hl, if_false] at h; cases h; rfl
    | case11 x rest => intro e h; simp [parse] at h; exact h.symm
  cases hp : parse allow pts with
  | ok out => exact absurd ⟨out, (C06_parse_iff allow pts out).1 hp⟩ h
  | error e => rw [key e hp]

/-- C06: the output has the same values in the same order as the input. -/
theorem C06_same_values (allow : Bool) (pts out : List (Item N P X)) (h : parse allow pts = .ok out) : flat out = flat pts := by
  rw [C06_parse_iff] at h
  induction h with
  | nil => rfl
  | pair a y _ ih => simp [flat, ih]
  | point p _ ih => simp [flat, ih]
  | tuple2 v w _ ih => simp [flat, ih]
  | tuple3 u v w _ _ ih => simp [flat, ih]

/-- C06: `parse` is the identity on its own output (with the same flag, or with thruples allowed). -/
theorem C06_idempotent (allow : Bool) (pts out : List (Item N P X)) (h : parse allow pts = .ok out) :
    parse allow out = .ok out ∧ parse true out = .ok out := by
  rw [C06_parse_iff] at h
  rw [C06_parse_iff, C06_parse_iff]
  induction h with
  | nil => exact ⟨.nil, .nil⟩
  | pair a y _ ih => exact ⟨.tuple2 _ _ ih.1, .tuple2 _ _ ih.2⟩
  | point p _ ih => exact ⟨.point p ih.1, .point p ih.2⟩
  | tuple2 v w _ ih => exact ⟨.tuple2 _ _ ih.1, .tuple2 _ _ ih.2⟩
  | tuple3 u v w ha _ ih => exact ⟨.tuple3 _ _ _ ha ih.1, .tuple3 _ _ _ rfl ih.2⟩

/-- C06: concatenating two parsable inputs parses to the concatenation of the outputs. -/
theorem C06_append (allow : Bool) (p q o o' : List (Item N P X)) (h : parse allow p = .ok o) (h' : parse allow q = .ok o') :
    parse allow (p ++ q) = .ok (o ++ o') := by
  rw [C06_parse_iff] at h h' ⊢
  induction h with
  | nil => exact h'
  | pair a y _ ih => exact .pair a y ih
  | point p _ ih => exact .point p ih
  | tuple2 v w _ ih => exact .tuple2 v w ih
  | tuple3 u v w ha _ ih => exact .tuple3 u v w ha ih

example : Good (N := ℕ) (P := ℕ) (X := ℕ) true [.num 1, .num 2, .tup [.num 3, .num 4, .other 0], .pt 7]
    [.tup [.num 1, .num 2], .tup [.num 3, .num 4, .other 0], .pt 7] :=
  .pair _ _ (.tuple3 _ _ _ rfl (.point _ .nil))

end X7.Parse
