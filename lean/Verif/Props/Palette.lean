import Mathlib.Tactic.NormNum
import Verif.Spec.Drawing

/-!
C64: `image_fix_palette`.
-/

namespace X7.Drawing

theorem fixed_keep {e : ℕ × ℕ × ℕ × ℕ} (h : e.2.2.2 = 0 ∨ e.2.2.2 = 255) : fixed e = e := by
  obtain ⟨r, g, b, a⟩ := e
  exact if_pos h

theorem fixed_tint {e : ℕ × ℕ × ℕ × ℕ} (h : ¬(e.2.2.2 = 0 ∨ e.2.2.2 = 255)) :
    fixed e = (64 * e.2.2.2 / 255, 128 * e.2.2.2 / 255, e.2.2.2, 255) := by
  obtain ⟨r, g, b, a⟩ := e
  exact if_neg h

theorem getD_lt {l : List ℕ} {i : ℕ} (h : i < l.length) : l.getD i 0 = l[i] := by
  simp [List.getD_eq_getElem?_getD, h]

theorem fixEntry_ok {pal : List ℕ} {n : ℕ} (h : 4 * n + 3 < pal.length) :
    ∃ q, fixEntry pal n = .ok q ∧ q.length = pal.length ∧ entry q n = fixed (entry pal n) ∧
      ∀ i, (i < 4 * n ∨ 4 * n + 3 < i) → q.getD i 0 = pal.getD i 0 := by
  have h3 : pal[n * 4 + 3]? = some (pal.getD (4 * n + 3) 0) := by
    rw [mul_comm]
    simp [List.getD_eq_getElem?_getD, h]
  unfold fixEntry
  simp only [h3]
  split
  · rename_i hc
    refine ⟨_, rfl, by simp, ?_, ?_⟩
    · rw [fixed_tint (by simpa [entry, not_or] using hc)]
      simp only [entry, List.getD_eq_getElem?_getD, List.getElem?_set, List.length_set]
      have e0 : 4 * n < pal.length := by omega
      have e1 : 4 * n + 1 < pal.length := by omega
      have e2 : 4 * n + 2 < pal.length := by omega
      simp [mul_comm n 4, e0, e1, e2, h, fixColor]
    · intro i hi
      simp only [List.getD_eq_getElem?_getD, List.getElem?_set, List.length_set]
      rw [if_neg (by omega), if_neg (by omega), if_neg (by omega), if_neg (by omega)]
  · rename_i hc
    refine ⟨pal, rfl, rfl, ?_, fun _ _ => rfl⟩
    rw [fixed_keep]
    simp only [entry]
    omega

theorem entry_congr {p q : List ℕ} {m : ℕ} (h : ∀ i, 4 * m ≤ i → i ≤ 4 * m + 3 → p.getD i 0 = q.getD i 0) :
    entry p m = entry q m := by
  simp only [entry]
  rw [h _ (by omega) (by omega), h _ (by omega) (by omega), h _ (by omega) (by omega), h _ (by omega) (by omega)]

theorem fixLoop_ok : ∀ (k n : ℕ) (pal : List ℕ), 4 * (n + k) ≤ pal.length →
    (fixLoop k n pal).2 = none ∧ (fixLoop k n pal).1.length = pal.length ∧
      (∀ m, n ≤ m → m < n + k → entry (fixLoop k n pal).1 m = fixed (entry pal m)) ∧
      ∀ i, (i < 4 * n ∨ 4 * (n + k) ≤ i) → (fixLoop k n pal).1.getD i 0 = pal.getD i 0
  | 0, n, pal, _ => ⟨rfl, rfl, fun m h1 h2 => by omega, fun _ _ => rfl⟩
  | k + 1, n, pal, h => by
    obtain ⟨q, hq, hlen, hent, hrest⟩ := fixEntry_ok (pal := pal) (n := n) (by omega)
    obtain ⟨h1, h2, h3, h4⟩ := fixLoop_ok k (n + 1) q (by omega)
    have e : fixLoop (k + 1) n pal = fixLoop k (n + 1) q := by rw [fixLoop, hq]
    rw [e]
    refine ⟨h1, by rw [h2, hlen], ?_, ?_⟩
    · intro m hm1 hm2
      rcases Nat.eq_or_lt_of_le hm1 with rfl | hm
      · rw [← hent]
        exact entry_congr fun i _ hi2 => h4 i (.inl (by omega))
      · rw [h3 m (by omega) (by omega)]
        exact congrArg fixed (entry_congr fun i hi1 _ => hrest i (.inr (by omega)))
    · intro i hi
      rw [h4 i (by omega), hrest i (by omega)]

/-- C64: on an RGBA palette of at least 256 entries, `image_fix_palette` succeeds, keeps the length, turns entry `n` into
`fixed` of what it was, and leaves everything behind the 256 entries alone. -/
theorem C64_entries (pal : List ℕ) (h : 1024 ≤ pal.length) :
    (imageFixPalette true pal).2 = none ∧ (imageFixPalette true pal).1.length = pal.length ∧
      (∀ n < 256, entry (imageFixPalette true pal).1 n = fixed (entry pal n)) ∧
      ∀ i, 1024 ≤ i → (imageFixPalette true pal).1.getD i 0 = pal.getD i 0 := by
  obtain ⟨h1, h2, h3, h4⟩ := fixLoop_ok 256 0 pal (by omega)
  exact ⟨h1, h2, fun n hn => h3 n (by omega) (by omega), fun i hi => h4 i (by omega)⟩

/-- C64: afterwards every alpha is 0 or 255, and it is 0 exactly where it was; entries which were opaque or transparent are
unchanged. -/
theorem C64_alpha (pal : List ℕ) (h : 1024 ≤ pal.length) (n : ℕ) (hn : n < 256) :
    let a := (entry pal n).2.2.2
    let a' := (entry (imageFixPalette true pal).1 n).2.2.2
    (a' = 0 ∨ a' = 255) ∧ (a' = 0 ↔ a = 0) ∧
      (a = 0 ∨ a = 255 → entry (imageFixPalette true pal).1 n = entry pal n) := by
  simp only [(C64_entries pal h).2.2.1 n hn]
  by_cases ha : (entry pal n).2.2.2 = 0 ∨ (entry pal n).2.2.2 = 255
  · rw [fixed_keep ha]
    exact ⟨ha, Iff.rfl, fun _ => rfl⟩
  · rw [fixed_tint ha]
    refine ⟨.inr rfl, ⟨fun h => ?_, fun h => ?_⟩, fun h => absurd h ha⟩
    · simp only at h
      omega
    · exact absurd (.inl h) ha

/-- C64: applying it twice changes nothing more. -/
theorem C64_idempotent (pal : List ℕ) (h : 1024 ≤ pal.length) :
    imageFixPalette true (imageFixPalette true pal).1 = ((imageFixPalette true pal).1, none) := by
  have c1 := C64_entries pal h
  have c2 := C64_entries (imageFixPalette true pal).1 (by omega)
  refine Prod.ext ?_ c2.1
  apply List.ext_getElem (by rw [c2.2.1])
  intro i hi1 hi2
  have key : (imageFixPalette true (imageFixPalette true pal).1).1.getD i 0 = (imageFixPalette true pal).1.getD i 0 := by
    by_cases hi : 1024 ≤ i
    · exact c2.2.2.2 i hi
    · have hn : i / 4 < 256 := by omega
      have he := c2.2.2.1 (i / 4) hn
      have ha := (C64_alpha pal h (i / 4) hn).1
      have hf : fixed (entry (imageFixPalette true pal).1 (i / 4)) = entry (imageFixPalette true pal).1 (i / 4) := fixed_keep ha
      rw [hf] at he
      simp only [entry, Prod.mk.injEq] at he
      obtain ⟨e0, e1, e2, e3⟩ := he
      have hr : i = 4 * (i / 4) ∨ i = 4 * (i / 4) + 1 ∨ i = 4 * (i / 4) + 2 ∨ i = 4 * (i / 4) + 3 := by omega
      rcases hr with hr | hr | hr | hr <;> rw [hr] <;> assumption
  simpa [List.getD_eq_getElem?_getD, hi1, hi2] using key

/-- C64: bytes stay bytes. -/
theorem C64_bytes (pal : List ℕ) (h : 1024 ≤ pal.length) (hb : ∀ v ∈ pal, v < 256) :
    ∀ v ∈ (imageFixPalette true pal).1, v < 256 := by
  have c := C64_entries pal h
  have hd : ∀ i, pal.getD i 0 < 256 := by
    intro i
    by_cases hi : i < pal.length
    · rw [getD_lt hi]
      exact hb _ (List.getElem_mem hi)
    · simp [List.getD_eq_getElem?_getD, List.getElem?_eq_none (by omega : pal.length ≤ i)]
  intro v hv
  obtain ⟨i, hi, rfl⟩ := List.getElem_of_mem hv
  rw [← getD_lt hi]
  by_cases hi' : 1024 ≤ i
  · rw [c.2.2.2 i hi']
    exact hd i
  · have he := c.2.2.1 (i / 4) (by omega)
    have b0 := hd (4 * (i / 4)); have b1 := hd (4 * (i / 4) + 1); have b2 := hd (4 * (i / 4) + 2); have b3 := hd (4 * (i / 4) + 3)
    have hr : i = 4 * (i / 4) ∨ i = 4 * (i / 4) + 1 ∨ i = 4 * (i / 4) + 2 ∨ i = 4 * (i / 4) + 3 := by omega
    by_cases ha : (entry pal (i / 4)).2.2.2 = 0 ∨ (entry pal (i / 4)).2.2.2 = 255
    · rw [fixed_keep ha] at he
      simp only [entry, Prod.mk.injEq] at he
      obtain ⟨e0, e1, e2, e3⟩ := he
      rcases hr with hr | hr | hr | hr <;> rw [hr]
      · rw [e0]; exact b0
      · rw [e1]; exact b1
      · rw [e2]; exact b2
      · rw [e3]; exact b3
    · rw [fixed_tint ha] at he
      simp only [entry, Prod.mk.injEq] at he
      obtain ⟨e0, e1, e2, e3⟩ := he
      generalize pal.getD (4 * (i / 4) + 3) 0 = a at *
      rcases hr with hr | hr | hr | hr <;> rw [hr]
      · rw [e0]; omega
      · rw [e1]; omega
      · rw [e2]; omega
      · rw [e3]; omega

/-- C64: a palette with fewer than 256 entries is an `IndexError`, one of another mode an `AssertionError` (and then nothing is
changed). -/
theorem C64_errors (pal : List ℕ) :
    imageFixPalette false pal = (pal, some .assertion) ∧
    (pal.length < 1024 → (imageFixPalette true pal).2 = some .index) := by
  refine ⟨rfl, fun h => ?_⟩
  have key : ∀ (k n : ℕ) (pal : List ℕ), pal.length < 4 * (n + k) → 4 * n ≤ pal.length → (fixLoop k n pal).2 = some .index := by
    intro k
    induction k with
    | zero =>
      intro n pal h1 h2
      exact absurd h1 (by omega)
    | succ k ih =>
      intro n pal h1 h2
      by_cases hl : 4 * n + 3 < pal.length
      · obtain ⟨q, hq, hlen, _, _⟩ := fixEntry_ok hl
        rw [fixLoop, hq]
        exact ih (n + 1) q (by omega) (by omega)
      · have : pal[n * 4 + 3]? = none := List.getElem?_eq_none (by omega)
        simp [fixLoop, fixEntry, this]
  exact key 256 0 pal (by omega) (by omega)

/-- Non-vacuity: a palette with a half transparent first entry. -/
example : 1024 ≤ ([10, 20, 30, 128] ++ List.replicate 1020 0).length ∧
    ∀ l, fixed (entry (10 :: 20 :: 30 :: 128 :: l) 0) = (32, 64, 128, 255) := by
  constructor
  · rw [List.length_append, List.length_replicate]
    norm_num
  · intro l
    simp [entry, fixed]

end X7.Drawing
