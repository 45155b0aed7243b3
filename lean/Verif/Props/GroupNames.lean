import Verif.Model.GroupNames
import Mathlib.Data.Finset.Card
import Mathlib.Data.Finset.Image
import Mathlib.Data.Fintype.Card
import Mathlib.Tactic.NormNum
import Mathlib.Tactic.Push
import Mathlib.Data.List.TakeWhile

/-!
C42: `Group.add`.
-/

namespace X7.GroupNames

theorem hasDot_iff (s : Str) : hasDot s = true ↔ '.' ∈ s := by simp [hasDot]

theorem afterLastDot_no_dot (s : Str) : '.' ∉ afterLastDot s := by
  unfold afterLastDot
  intro h
  have := List.all_eq_true.1 (List.all_takeWhile (p := (· != '.')) (l := s.reverse)) _ (List.mem_reverse.1 h)
  simp at this

theorem fmtNat_inj {a b : ℕ} (h : fmtNat a = fmtNat b) : a = b := by
  have := congrArg (fun l => Nat.ofDigitChars 10 l 0) h
  simpa [fmtNat, Nat.ofDigitChars_ten_toDigits] using this

theorem fmtNat_digit {n : ℕ} {c : Char} (h : c ∈ fmtNat n) : c.isDigit = true :=
  Nat.isDigit_of_mem_toDigits (by norm_num) (by norm_num) h

theorem fmtNat_no_dot (n : ℕ) : '.' ∉ fmtNat n := fun h => absurd (fmtNat_digit h) (by decide)

theorem toLower_dot {c : Char} (h : c.toLower = '.') : c = '.' := by
  unfold Char.toLower at h
  split at h
  · rename_i hc
    have h1 := congrArg Char.val h
    have h2 := hc.1
    have h3 := hc.2
    simp only [ge_iff_le, UInt32.le_iff_toNat_le] at h2 h3
    have h4 := congrArg UInt32.toNat h1
    simp only [UInt32.toNat_add] at h4
    simp at h2 h3 h4
    omega
  · exact h

theorem strLower_no_dot {s : Str} (h : '.' ∉ s) : '.' ∉ strLower s := by
  unfold strLower
  intro hm
  obtain ⟨c, hc, e⟩ := List.mem_map.1 hm
  rw [toLower_dot e] at hc
  exact h hc

theorem className_no_dot {cls : Str} (h : '.' ∉ cls) : '.' ∉ className cls := by
  unfold className
  apply strLower_no_dot
  split
  · exact fun hm => h (List.mem_of_mem_drop hm)
  · exact h

theorem freshName_some {keys : List Str} {name r : Str} : ∀ {fuel num : ℕ}, freshName keys name fuel num = some r →
    r ∉ keys ∧ ∃ k, num ≤ k ∧ r = name ++ '#' :: fmtNat k ∧ ∀ j, num ≤ j → j < k → name ++ '#' :: fmtNat j ∈ keys := by
  intro fuel
  induction fuel with
  | zero => intro num h; simp [freshName] at h
  | succ n ih =>
    intro num h
    simp only [freshName] at h
    split at h
    · rename_i hm
      obtain ⟨h1, k, h2, h3, h4⟩ := ih h
      refine ⟨h1, k, by omega, h3, fun j hj hk => ?_⟩
      rcases Nat.eq_or_lt_of_le hj with rfl | hlt
      · exact hm
      · exact h4 j hlt hk
    · rename_i hm
      injection h with h
      subst h
      exact ⟨hm, num, le_rfl, rfl, fun j a b => by omega⟩

theorem freshName_none {keys : List Str} {name : Str} : ∀ {fuel num : ℕ}, freshName keys name fuel num = none →
    ∀ j, num ≤ j → j < num + fuel → name ++ '#' :: fmtNat j ∈ keys := by
  intro fuel
  induction fuel with
  | zero => intro num h j a b; omega
  | succ n ih =>
    intro num h j a b
    simp only [freshName] at h
    split at h
    · rename_i hm
      rcases Nat.eq_or_lt_of_le a with rfl | hlt
      · exact hm
      · exact ih h j hlt (by omega)
    · simp at h

/-- C42: the search for a free name ends after at most one round more than there are keys. -/
theorem C42_search_ends (keys : List Str) (name : Str) : (freshName keys name (keys.length + 1) 0).isSome = true := by
  rw [Option.isSome_iff_ne_none]
  intro h
  have hj := freshName_none h
  have hsub : (Finset.range (keys.length + 1)).image (fun j => name ++ '#' :: fmtNat j) ⊆ keys.toFinset := by
    intro x hx
    obtain ⟨j, hj1, rfl⟩ := Finset.mem_image.1 hx
    exact List.mem_toFinset.2 (hj j (Nat.zero_le _) (by simpa using hj1))
  have hc := Finset.card_le_card hsub
  rw [Finset.card_image_of_injective, Finset.card_range] at hc
  · have := List.toFinset_card_le keys
    omega
  · intro a b hab
    have := List.append_cancel_left hab
    injection this with _ h2
    exact fmtNat_inj h2

theorem pickName_spec {keys : List Str} {cls name : Str} {fixname : Bool} (hc : '.' ∉ cls) :
    ∃ r, pickName keys cls name fixname = some r ∧
      (('.' ∉ name ∨ fixname = true ∨ name ∈ keys) → '.' ∉ r ∧ r ∉ keys) ∧
      (('.' ∈ name ∧ fixname = false ∧ name ∉ keys) → r = name) ∧
      (name ∉ keys → '.' ∉ name → r = name) := by
  have hd : (fixname && hasDot name || decide (name ∈ keys)) = true ↔ (fixname = true ∧ '.' ∈ name) ∨ name ∈ keys := by
    simp [hasDot_iff]
  unfold pickName
  by_cases h : (fixname = true ∧ '.' ∈ name) ∨ name ∈ keys
  · rw [if_pos (hd.2 h)]
    by_cases h2 : afterLastDot name ∈ keys
    · simp only [h2, if_true]
      obtain ⟨r, hr⟩ := Option.isSome_iff_exists.1 (C42_search_ends keys (className cls))
      refine ⟨r, hr, fun _ => ?_, ?_, ?_⟩
      · obtain ⟨h3, k, -, rfl, -⟩ := freshName_some hr
        refine ⟨?_, h3⟩
        simp only [List.mem_append, List.mem_cons, not_or]
        exact ⟨className_no_dot hc, by decide, fmtNat_no_dot k⟩
      · rintro ⟨_, a, b⟩; rcases h with ⟨c, _⟩ | c
        · rw [a] at c; simp at c
        · exact absurd c b
      · intro a b; rcases h with ⟨_, c⟩ | c
        · exact absurd c b
        · exact absurd c a
    · simp only [h2, if_false]
      refine ⟨_, rfl, fun _ => ⟨afterLastDot_no_dot _, h2⟩, ?_, ?_⟩
      · rintro ⟨_, a, b⟩; rcases h with ⟨c, _⟩ | c
        · rw [a] at c; simp at c
        · exact absurd c b
      · intro a b; rcases h with ⟨_, c⟩ | c
        · exact absurd c b
        · exact absurd c a
  · rw [if_neg (fun x => h (hd.1 x))]
    push Not at h
    refine ⟨name, rfl, fun a => ⟨?_, h.2⟩, fun _ => rfl, fun _ _ => rfl⟩
    rcases a with a | a | a
    · exact a
    · exact h.1 a
    · exact absurd a h.2

variable {cls : ℕ → Str}

/-- C42: `add` fails exactly when the name has a dot, `fixname` is off and the name is not yet taken; then it is a `ValueError`
and the group and all elements are as before. -/
theorem C42_add_fails (hc : ∀ e, '.' ∉ cls e) (s : GState) (name : Str) (e : ℕ) (fixname : Bool) :
    ((add cls s name e fixname).2 ≠ .ok () ↔ '.' ∈ name ∧ fixname = false ∧ name ∉ s.elems.map Prod.fst) ∧
    ((add cls s name e fixname).2 ≠ .ok () → add cls s name e fixname = (s, .error .value)) := by
  obtain ⟨r, hr, h1, h2, h3⟩ := pickName_spec (keys := s.keys) (name := name) (fixname := fixname) (hc e)
  have hk : s.elems.map Prod.fst = s.keys := rfl
  rw [hk]
  by_cases h : '.' ∈ name ∧ fixname = false ∧ name ∉ s.keys
  · have := h2 h
    subst this
    have : add cls s r e fixname = (s, .error .value) := by simp [add, hr, hasDot_iff, h.1]
    rw [this]; simp [h]
  · have h' : '.' ∉ name ∨ fixname = true ∨ name ∈ s.keys := by
      by_contra hx; push Not at hx; exact h ⟨hx.1, by simpa using hx.2.1, hx.2.2⟩
    obtain ⟨a, b⟩ := h1 h'
    have : (add cls s name e fixname).2 = .ok () := by simp [add, hr, hasDot_iff, a, b]
    rw [this]; simp [h]

/-- C42: a successful `add` appends one entry under a new key without a dot, keeps all earlier entries in their order, renames
the element to that key and no other element. If the name asked for was free and has no dot it is the key. -/
theorem C42_add_ok (hc : ∀ e, '.' ∉ cls e) (s s' : GState) (name : Str) (e : ℕ) (fixname : Bool)
    (h : add cls s name e fixname = (s', .ok ())) :
    ∃ key, s'.elems = s.elems ++ [(key, e)] ∧ key ∉ s.elems.map Prod.fst ∧ '.' ∉ key ∧ s'.name e = key ∧
      (∀ e', e' ≠ e → s'.name e' = s.name e') ∧ ('.' ∉ name → name ∉ s.elems.map Prod.fst → key = name) := by
  obtain ⟨r, hr, h1, h2, h3⟩ := pickName_spec (keys := s.keys) (name := name) (fixname := fixname) (hc e)
  simp only [add, hr] at h
  split at h
  · simp at h
  · rename_i hd
    split at h
    · simp at h
    · rename_i hm
      simp only [Prod.mk.injEq, and_true] at h
      subst h
      exact ⟨r, rfl, hm, fun x => hd ((hasDot_iff r).2 x), by simp, fun e' he => by simp [he], fun a b => h3 b a⟩

/-- C42: with `fixname` a dotted name is cut to the part after the last dot, if that is free. -/
theorem C42_fixname (hc : ∀ e, '.' ∉ cls e) (s : GState) (path last : Str) (e : ℕ) (hl : '.' ∉ last)
    (hf : last ∉ s.elems.map Prod.fst) :
    add cls s (path ++ '.' :: last) e true = (⟨s.elems ++ [(last, e)], Function.update s.name e last⟩, .ok ()) := by
  have hlast : afterLastDot (path ++ '.' :: last) = last := by
    unfold afterLastDot
    have : ∀ c ∈ last.reverse, (c != '.') = true := by
      intro c hc; simp only [bne_iff_ne, ne_eq]; rintro rfl; exact hl (List.mem_reverse.1 hc)
    rw [List.reverse_append, List.reverse_cons, List.append_assoc, List.takeWhile_append_of_pos this]
    simp
  have hk : s.elems.map Prod.fst = s.keys := rfl
  rw [hk] at hf
  simp [add, pickName, hasDot, hlast, hf, hl]

/-- A history of `add` calls: name, element, fixname; failing calls change nothing. -/
def run (cls : ℕ → Str) : GState → List (Str × ℕ × Bool) → GState
  | s, [] => s
  | s, (n, e, f) :: rest => run cls (add cls s n e f).1 rest

/-- C42: after any history of `add` calls on a group with distinct dot-free keys (such as an empty one) the keys are distinct and
dot-free, and the entries it had are still the first ones. -/
theorem C42_history (hc : ∀ e, '.' ∉ cls e) (s : GState) (ops : List (Str × ℕ × Bool))
    (hn : (s.elems.map Prod.fst).Nodup) (hd : ∀ k ∈ s.elems.map Prod.fst, '.' ∉ k) :
    let s' := run cls s ops
    (s'.elems.map Prod.fst).Nodup ∧ (∀ k ∈ s'.elems.map Prod.fst, '.' ∉ k) ∧ s.elems <+: s'.elems := by
  induction ops generalizing s with
  | nil => exact ⟨hn, hd, List.prefix_rfl⟩
  | cons op rest ih =>
    obtain ⟨n, e, f⟩ := op
    simp only [run]
    by_cases h : (add cls s n e f).2 = .ok ()
    · obtain ⟨key, h1, h2, h3, -⟩ := C42_add_ok hc s (add cls s n e f).1 n e f (Prod.ext rfl h)
      have h4 := ih (add cls s n e f).1 (by
        rw [h1, List.map_append, List.nodup_append']
        refine ⟨hn, by simp, ?_⟩
        intro x hx hy
        simp only [List.map_cons, List.map_nil, List.mem_singleton] at hy
        subst hy; exact h2 hx) (by
        rw [h1, List.map_append]
        intro k hk
        rcases List.mem_append.1 hk with hk | hk
        · exact hd k hk
        · simp only [List.map_cons, List.map_nil, List.mem_singleton] at hk
          subst hk; exact h3)
      exact ⟨h4.1, h4.2.1, (by rw [h1]; exact List.prefix_append _ _ : s.elems <+: _).trans h4.2.2⟩
    · have := (C42_add_fails hc s n e f).2 h
      rw [this]
      exact ih s hn hd

/-- C42: if no element object is added twice, every element is stored under its own name at the end. -/
theorem C42_own_names (hc : ∀ e, '.' ∉ cls e) (s : GState) (ops : List (Str × ℕ × Bool))
    (hs : ∀ x ∈ s.elems, s.name x.2 = x.1) (hone : (s.elems.map Prod.snd ++ ops.map fun o => o.2.1).Nodup) :
    ∀ x ∈ (run cls s ops).elems, (run cls s ops).name x.2 = x.1 := by
  induction ops generalizing s with
  | nil => exact hs
  | cons op rest ih =>
    obtain ⟨n, e, f⟩ := op
    simp only [run]
    have hne : ∀ x ∈ s.elems, x.2 ≠ e := by
      rintro x hx rfl
      rw [List.nodup_append'] at hone
      exact hone.2.2 (List.mem_map_of_mem (f := Prod.snd) hx) (by simp)
    by_cases h : (add cls s n e f).2 = .ok ()
    · obtain ⟨key, h1, h2, h3, h4, h5, -⟩ := C42_add_ok hc s (add cls s n e f).1 n e f (Prod.ext rfl h)
      apply ih
      · intro x hx
        rw [h1] at hx
        rcases List.mem_append.1 hx with hx | hx
        · rw [h5 _ (hne x hx)]; exact hs x hx
        · simp only [List.mem_singleton] at hx; subst hx; exact h4
      · rw [h1]
        simpa using hone
    · have := (C42_add_fails hc s n e f).2 h
      rw [this]
      apply ih s hs
      refine hone.sublist ?_
      exact (List.Sublist.refl _).append (by simp)

/-- C42: an element object added a second time under another name no longer has the name it is stored under first. -/
theorem C42_shared_counterexample (cls : ℕ → Str) : ∃ ops : List (Str × ℕ × Bool),
    let s := run cls ⟨[], fun _ => []⟩ ops
    ∃ x ∈ s.elems, s.name x.2 ≠ x.1 := by
  refine ⟨[(['a'], 0, false), (['b'], 0, false)], (['a'], 0), ?_, ?_⟩ <;>
    simp [run, add, pickName, GState.keys, hasDot]

/-- C42: the constructor given a list of elements with dot-free names succeeds and stores all of them in order. -/
theorem C42_constructor (hc : ∀ e, '.' ∉ cls e) (fix : Bool) (es : List ℕ) (s : GState) (hd : ∀ e ∈ es, '.' ∉ s.name e)
    (hs : (s.elems.map Prod.fst).Nodup) :
    ∃ s', addAll cls fix s es = (s', .ok ()) ∧ s'.elems.map Prod.snd = s.elems.map Prod.snd ++ es ∧
      (s'.elems.map Prod.fst).Nodup := by
  induction es generalizing s with
  | nil => exact ⟨s, rfl, by simp, hs⟩
  | cons e rest ih =>
    have h : (add cls s (s.name e) e fix).2 = .ok () := by
      by_contra h
      exact hd e (by simp) ((C42_add_fails hc s (s.name e) e fix).1.1 h).1
    obtain ⟨key, h1, h2, h3, h4, h5, -⟩ := C42_add_ok hc s (add cls s (s.name e) e fix).1 _ e fix (Prod.ext rfl h)
    obtain ⟨s', k1, k2, k3⟩ := ih (add cls s (s.name e) e fix).1 (by
      intro e' he'
      by_cases hee : e' = e
      · rw [hee, h4]; exact h3
      · rw [h5 _ hee]; exact hd e' (by simp [he'])) (by
      rw [h1, List.map_append, List.nodup_append']
      refine ⟨hs, by simp, ?_⟩
      intro x hx hy
      simp only [List.map_cons, List.map_nil, List.mem_singleton] at hy
      subst hy; exact h2 hx)
    refine ⟨s', ?_, by rw [k2, h1]; simp, k3⟩
    have e1 : add cls s (s.name e) e fix = ((add cls s (s.name e) e fix).1, .ok ()) := Prod.ext rfl h
    rw [addAll, e1]
    exact k1

/-- Concrete: adding under a taken name gives the generated name of the class. -/
example : (run (fun _ => "ElemCurve".toList) ⟨[], fun _ => []⟩ [("a".toList, 0, false), ("a".toList, 1, false),
    ("x.a".toList, 2, true), ("x.y".toList, 3, false)]).elems =
    [("a".toList, 0), ("curve#0".toList, 1), ("curve#1".toList, 2)] := by decide

end X7.GroupNames
