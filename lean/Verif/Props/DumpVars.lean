import Verif.Spec.Dump
import Verif.Props.GroupNames

/-! C47: the variables of a dump. -/

noncomputable section

namespace X7.Dump

theorem underscore_not_in_fmtNat (n : ℕ) : '_' ∉ fmtNat n := by
  intro h
  exact absurd (GroupNames.fmtNat_digit h) (by decide)

theorem append_sep_inj {c : Char} {a b d e : Str} (hd : c ∉ d) (he : c ∉ e) (h : a ++ c :: d = b ++ c :: e) :
    a = b ∧ d = e := by
  induction a generalizing b with
  | nil =>
    cases b with
    | nil => simpa using h
    | cons x b =>
      simp only [List.nil_append, List.cons_append, List.cons.injEq] at h
      exact absurd (by rw [h.2]; simp) hd
  | cons x a ih =>
    cases b with
    | nil =>
      simp only [List.nil_append, List.cons_append, List.cons.injEq] at h
      exact absurd (by rw [← h.2]; simp) he
    | cons y b =>
      simp only [List.cons_append, List.cons.injEq] at h
      obtain ⟨h1, h2⟩ := ih h.2
      exact ⟨by rw [h.1, h1], h2⟩

theorem varName_inj {p q : Str} {n m : ℕ} (h : varName p n = varName q m) : p = q ∧ n = m := by
  obtain ⟨h1, h2⟩ := append_sep_inj (underscore_not_in_fmtNat n) (underscore_not_in_fmtNat m) h
  exact ⟨h1, GroupNames.fmtNat_inj h2⟩

section dict
variable {α β : Type} [DecidableEq α]

theorem dget_cons (x : α × β) (d : List (α × β)) (k : α) : dget (x :: d) k = if x.1 = k then some x.2 else dget d k := by
  unfold dget
  by_cases h : x.1 = k <;> simp [h]

theorem dget_none {d : List (α × β)} {k : α} : dget d k = none ↔ k ∉ d.map Prod.fst := by
  induction d with
  | nil => simp [dget]
  | cons x d ih =>
    rw [dget_cons]
    by_cases h : x.1 = k
    · simp [h]
    · rw [if_neg h, ih]
      simp [Ne.symm h]

theorem dget_mem {d : List (α × β)} {k : α} {v : β} (h : dget d k = some v) : (k, v) ∈ d := by
  induction d with
  | nil => simp [dget] at h
  | cons x d ih =>
    rw [dget_cons] at h
    by_cases hx : x.1 = k
    · rw [if_pos hx] at h
      simp only [Option.some.injEq] at h
      rw [← hx, ← h]; simp
    · rw [if_neg hx] at h
      exact List.mem_cons_of_mem _ (ih h)

theorem dget_of_mem {d : List (α × β)} (hn : (d.map Prod.fst).Nodup) {k : α} {v : β} (h : (k, v) ∈ d) : dget d k = some v := by
  induction d with
  | nil => simp at h
  | cons x d ih =>
    rw [List.map_cons, List.nodup_cons] at hn
    rw [dget_cons]
    rcases List.mem_cons.1 h with rfl | h
    · simp
    · rw [if_neg, ih hn.2 h]
      intro e
      exact hn.1 (e ▸ List.mem_map.2 ⟨(k, v), h, rfl⟩)

theorem dget_append {d : List (α × β)} {k : α} {v : β} (h : dget d k = some v) (e : List (α × β)) : dget (d ++ e) k = some v := by
  induction d with
  | nil => simp [dget] at h
  | cons x d ih =>
    rw [List.cons_append, dget_cons]
    rw [dget_cons] at h
    split
    · rename_i hx; rw [if_pos hx] at h; exact h
    · rename_i hx; rw [if_neg hx] at h; exact ih h

theorem dget_append_none {d : List (α × β)} {k : α} (h : dget d k = none) (e : List (α × β)) : dget (d ++ e) k = dget e k := by
  induction d with
  | nil => rfl
  | cons x d ih =>
    rw [List.cons_append, dget_cons]
    rw [dget_cons] at h
    split
    · rename_i hx; rw [if_pos hx] at h; simp at h
    · rename_i hx; rw [if_neg hx] at h; exact ih h

theorem dget_dset (d : List (α × β)) (k k' : α) (v : β) :
    dget (dset d k v) k' = if k' = k then some v else dget d k' := by
  unfold dset
  split
  · rename_i hs
    induction d with
    | nil => simp [dget] at hs
    | cons x d ih =>
      rw [List.map_cons, dget_cons]
      rw [dget_cons] at hs
      by_cases hx : x.1 = k
      · simp only [hx, if_true]
        by_cases hk : k' = k
        · simp [hk]
        · rw [if_neg (Ne.symm hk), if_neg hk, dget_cons, hx, if_neg (Ne.symm hk)]
          by_cases hh : (dget d k).isSome
          · rw [ih hh, if_neg hk]
          · rw [Option.not_isSome_iff_eq_none, dget_none] at hh
            congr 1
            conv_rhs => rw [← List.map_id d]
            apply List.map_congr_left
            intro y hy
            rw [if_neg]; · rfl
            intro e
            exact hh (e ▸ List.mem_map.2 ⟨y, hy, rfl⟩)
      · rw [if_neg hx] at hs ⊢
        rw [dget_cons, ih hs]
        by_cases hk : k' = k
        · subst hk; simp [hx]
        · simp only [if_neg hk]
  · rename_i hs
    rw [Option.not_isSome_iff_eq_none] at hs
    by_cases hk : k' = k
    · subst hk
      rw [dget_append_none hs]
      simp [dget_cons]
    · rw [if_neg hk]
      cases h : dget d k' with
      | some w => rw [dget_append h]
      | none =>
        rw [dget_append_none h, dget_cons, if_neg (Ne.symm hk)]
        rfl

theorem dset_new {d : List (α × β)} {k : α} (h : dget d k = none) (v : β) : dset d k v = d ++ [(k, v)] := by
  unfold dset; simp [h]

end dict

/-- The contexts that occur: one variable for each value, one value for each variable, names numbered by prefix. -/
structure DC.Ok (dc : DC) : Prop where
  keys : (dc.vars.map Prod.fst).Nodup
  names : (dc.vars.map Prod.snd).Nodup
  num : ∀ x ∈ dc.vars, ∃ p n, x.2 = varName p n ∧ n ≤ (dget dc.prefixes p).getD 0

theorem DC.Ok.new (u : Bool) : (DC.new u).Ok := ⟨by simp [DC.new], by simp [DC.new], by simp [DC.new]⟩

theorem DC.Ok.congr {dc dc' : DC} (h : dc.Ok) (hv : dc'.vars = dc.vars) (hp : dc'.prefixes = dc.prefixes) : dc'.Ok := by
  obtain ⟨h1, h2, h3⟩ := h
  exact ⟨by rw [hv]; exact h1, by rw [hv]; exact h2, by rw [hv, hp]; exact h3⟩

/-- What one `set_var` does to a context that keeps variables. -/
theorem setVar_spec {dc : DC} (h : dc.Ok) (hu : dc.useVars = true) (v : List Tok) (p : Str) :
    ∃ nm, (dc.setVar v p).2 = [Tok.id nm] ∧ (dc.setVar v p).1.Ok ∧ dget (dc.setVar v p).1.vars v = some nm ∧
      (∀ w n, dget dc.vars w = some n → dget (dc.setVar v p).1.vars w = some n) ∧
      (dc.setVar v p).1.useVars = true ∧ (dc.setVar v p).1.lines = dc.lines ∧ (dc.setVar v p).1.depth = dc.depth ∧
      (∃ q n, nm = varName q n) := by
  unfold DC.setVar
  rw [if_pos hu]
  cases hv : dget dc.vars v with
  | some nm =>
    refine ⟨nm, rfl, h, hv, fun w n hw => hw, hu, by simp, by simp, ?_⟩
    obtain ⟨q, n, e, _⟩ := h.num _ (dget_mem hv)
    exact ⟨q, n, e⟩
  | none =>
    simp only
    refine ⟨_, rfl, ⟨?_, ?_, ?_⟩, ?_, ?_, hu, by trivial, by trivial, ⟨_, _, rfl⟩⟩
    · simp only [dset_new hv, List.map_append, List.map_cons, List.map_nil]
      rw [List.nodup_append']
      refine ⟨h.keys, by simp, ?_⟩
      intro x hx hy
      simp only [List.mem_singleton] at hy
      subst hy
      exact dget_none.1 hv hx
    · simp only [dset_new hv, List.map_append, List.map_cons, List.map_nil]
      rw [List.nodup_append']
      refine ⟨h.names, by simp, ?_⟩
      intro x hx hy
      simp only [List.mem_singleton] at hy
      subst hy
      obtain ⟨y, hy, e⟩ := List.mem_map.1 hx
      obtain ⟨q, n, e1, e2⟩ := h.num y hy
      rw [e] at e1
      obtain ⟨rfl, rfl⟩ := varName_inj e1
      omega
    · simp only [dset_new hv]
      intro x hx
      rcases List.mem_append.1 hx with hx | hx
      · obtain ⟨q, n, e1, e2⟩ := h.num x hx
        refine ⟨q, n, e1, ?_⟩
        rw [dget_dset]
        split
        · rename_i hq; subst hq; simp; omega
        · exact e2
      · simp only [List.mem_singleton] at hx
        subst hx
        exact ⟨p, _, rfl, by rw [dget_dset]; simp⟩
    · rw [dget_dset]; simp
    · intro w n hw
      rw [dget_dset, if_neg]
      · exact hw
      · rintro rfl; rw [hv] at hw; simp at hw

/-- A sequence of `set_var(value, prefix)` calls and what they return. -/
def setVars (dc : DC) : List (List Tok × Str) → DC × List (List Tok)
  | [] => (dc, [])
  | (v, p) :: rest =>
    let r := dc.setVar v p
    let s := setVars r.1 rest
    (s.1, r.2 :: s.2)

theorem setVars_spec {dc : DC} (h : dc.Ok) (hu : dc.useVars = true) (calls : List (List Tok × Str)) :
    (setVars dc calls).1.Ok ∧ (setVars dc calls).2.length = calls.length ∧
      (∀ w n, dget dc.vars w = some n → dget (setVars dc calls).1.vars w = some n) ∧
      ∀ (i : ℕ) v p, calls[i]? = some (v, p) →
        ∃ nm, (setVars dc calls).2[i]? = some [Tok.id nm] ∧ dget (setVars dc calls).1.vars v = some nm := by
  induction calls generalizing dc with
  | nil => exact ⟨h, rfl, fun w n hw => hw, by simp⟩
  | cons c calls ih =>
    obtain ⟨v, p⟩ := c
    obtain ⟨nm, e1, e2, e3, e4, e5, -⟩ := setVar_spec h hu v p
    obtain ⟨f1, f2, f3, f4⟩ := ih e2 e5
    refine ⟨f1, by simp [setVars, f2], fun w n hw => f3 w n (e4 w n hw), ?_⟩
    intro i w q hi
    cases i with
    | zero =>
      simp only [List.getElem?_cons_zero, Option.some.injEq, Prod.mk.injEq] at hi
      obtain ⟨rfl, rfl⟩ := hi
      exact ⟨nm, by simp [setVars, e1], f3 _ _ e3⟩
    | succ i =>
      simp only [List.getElem?_cons_succ] at hi
      obtain ⟨nm', g1, g2⟩ := f4 i w q hi
      exact ⟨nm', by simpa [setVars] using g1, g2⟩

/-- C47: over any sequence of `set_var` calls on a new context that keeps variables, whatever the prefixes, two calls return the
same variable exactly if the values have the same text; each call returns one name, and this is the name under which the value
is listed at the end, so a name once given never changes. -/
theorem C47_set_var (calls : List (List Tok × Str)) :
    let r := setVars (DC.new true) calls
    r.2.length = calls.length ∧
    (∀ (i j : ℕ) v w p q a b, calls[i]? = some (v, p) → calls[j]? = some (w, q) → r.2[i]? = some a → r.2[j]? = some b →
      (a = b ↔ v = w)) ∧
    (∀ (i : ℕ) v p, calls[i]? = some (v, p) → ∃ nm, r.2[i]? = some [Tok.id nm] ∧ dget r.1.vars v = some nm) ∧
    (r.1.vars.map Prod.fst).Nodup ∧ (r.1.vars.map Prod.snd).Nodup := by
  intro r
  obtain ⟨h1, h2, h3, h4⟩ := setVars_spec (DC.Ok.new true) rfl calls
  refine ⟨h2, ?_, h4, h1.keys, h1.names⟩
  intro i j v w p q a b hi hj ha hb
  obtain ⟨n1, e1, f1⟩ := h4 i v p hi
  obtain ⟨n2, e2, f2⟩ := h4 j w q hj
  rw [show r.2 = (setVars (DC.new true) calls).2 from rfl, e1] at ha
  rw [show r.2 = (setVars (DC.new true) calls).2 from rfl, e2] at hb
  simp only [Option.some.injEq] at ha hb
  subst ha hb
  constructor
  · intro e
    simp only [List.cons.injEq, Tok.id.injEq, and_true] at e
    subst e
    have hn := h1.names
    have m1 := dget_mem f1
    have m2 := dget_mem f2
    have : ((v, n1) : List Tok × Str) = (w, n1) := by
      exact List.inj_on_of_nodup_map hn m1 m2 rfl
    simpa using this
  · rintro rfl
    rw [f1] at f2
    simp only [Option.some.injEq] at f2
    rw [f2]

/-- C47 with `use_vars=False`: every call returns the text itself and nothing is recorded. -/
theorem C47_no_vars (dc : DC) (hu : dc.useVars = false) (v : List Tok) (p : Str) : dc.setVar v p = (dc, v) := by
  unfold DC.setVar; simp [hu]

/-- Prefixes that end in numbers do not clash: `a` numbered 1 twice over and `a_1` give different names. -/
example : ((setVars (DC.new true) [([.int 1], "a".toList), ([.int 2], "a_1".toList), ([.int 3], "a".toList),
    ([.int 1], "b".toList)]).2) =
    [[.id "a_1".toList], [.id "a_1_1".toList], [.id "a_2".toList], [.id "a_1".toList]] := by
  simp [setVars, DC.setVar, DC.new, dget, dset, varName, fmtNat, Nat.toDigits, Nat.toDigitsCore, Nat.digitChar]

end X7.Dump
