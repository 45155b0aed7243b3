import Verif.Spec.ImageInfo
import Mathlib.Data.List.Basic
import Mathlib.Tactic.Linarith

namespace X7.Info
variable {V : Type}

theorem bytesLoop_eq : ∀ (bs : List ℕ) (idx : ℕ) (t : ℕ),
    bytesLoop (V := V) idx bs ((t : ℤ) - 10) =
      (((bs.zipIdx idx).filter fun p => p.1 ≠ 0).map fun p => Line.byte p.2 p.1).take (19 - t) ++
        if t ≤ 19 ∧ 19 < t + ((bs.zipIdx idx).filter fun p => p.1 ≠ 0).length then [.moreBytes] else []
  | [], idx, t => by simp [bytesLoop]
  | b :: bs, idx, t => by
    have ih := bytesLoop_eq bs (idx + 1) (t + 1)
    have ih0 := bytesLoop_eq bs (idx + 1) t
    have e : ((t + 1 : ℕ) : ℤ) - 10 = (t : ℤ) - 10 + 1 := by push_cast; omega
    rw [e] at ih
    rw [bytesLoop]
    by_cases hb : b = 0
    · rw [if_neg (by simp [hb]), ih0]
      simp [List.zipIdx_cons, hb]
    · rw [if_pos hb, List.zipIdx_cons, List.filter_cons_of_pos (by simpa using hb)]
      simp only [List.map_cons, List.length_cons]
      rcases lt_trichotomy t 19 with h | h | h
      · rw [if_neg (by omega), ih]
        obtain ⟨k, hk⟩ : ∃ k, 19 - t = k + 1 := ⟨18 - t, by omega⟩
        rw [hk, List.take_succ_cons, List.cons_append, show 19 - (t + 1) = k by omega]
        congr 2
        apply if_congr _ rfl rfl
        omega
      · subst h
        rw [if_pos (by norm_num), if_pos (by norm_num), ih]
        simp
      · rw [if_pos (by omega), if_neg (by omega), ih]
        rw [show 19 - t = 0 by omega, show 19 - (t + 1) = 0 by omega, if_neg (by omega), if_neg (by omega)]
        simp

theorem colourOf_ok {cols : List ℕ} {channels n : ℕ} {chan : ℕ → ℕ} (h : ∀ cn < channels, cols[n + cn * 256]? = some (chan cn)) :
    colourOf cols channels n = .ok ((List.range channels).map chan) := by
  unfold colourOf
  induction channels with
  | zero => rfl
  | succ k ih =>
    rw [List.range_succ, List.mapM_append, ih fun cn hc => h cn (by omega)]
    simp [h k (by omega), bind, Except.bind, pure, Except.pure]

theorem coloursLoop_eq (cols : List ℕ) (channels : ℕ) (chan : ℕ → ℕ → ℕ) : ∀ (ns : List ℕ) (t : ℕ),
    (∀ n ∈ ns, ∀ cn < channels, cols[n + cn * 256]? = some (chan n cn)) →
    coloursLoop (V := V) cols channels ns t =
      (((ns.filter fun n => ((List.range channels).map (chan n)).any (· ≠ 0)).map fun n =>
          Line.colour n ((List.range channels).map (chan n))).take (19 - t) ++
        (if t ≤ 19 ∧ 19 < t + (ns.filter fun n => ((List.range channels).map (chan n)).any (· ≠ 0)).length
          then [.moreColours] else []), none)
  | [], t, _ => by simp [coloursLoop]
  | n :: ns, t, h => by
    have hn := colourOf_ok (chan := chan n) (h n (by simp))
    have ih := coloursLoop_eq cols channels chan ns (t + 1) fun m hm => h m (by simp [hm])
    have ih0 := coloursLoop_eq cols channels chan ns t fun m hm => h m (by simp [hm])
    rw [coloursLoop, hn]
    simp only
    have e : ((t : ℕ) : ℤ) + 1 = ((t + 1 : ℕ) : ℤ) := by push_cast; omega
    rw [e, ih, ih0]
    by_cases hb : ((List.range channels).map (chan n)).any (· ≠ 0) = true
    · rw [if_pos hb, List.filter_cons_of_pos (p := fun n => ((List.range channels).map (chan n)).any (· ≠ 0)) hb]
      simp only [List.map_cons, List.length_cons]
      rcases lt_trichotomy t 19 with h | h | h
      · rw [if_neg (by push_cast; omega)]
        obtain ⟨k, hk⟩ : ∃ k, 19 - t = k + 1 := ⟨18 - t, by omega⟩
        rw [hk, List.take_succ_cons, List.cons_append, show 19 - (t + 1) = k by omega]
        congr 3
        apply if_congr _ rfl rfl
        omega
      · subst h
        rw [if_pos (by norm_num), if_pos (by norm_num)]
        simp
      · rw [if_pos (by push_cast; omega), if_neg (by push_cast; omega)]
        rw [show 19 - t = 0 by omega, show 19 - (t + 1) = 0 by omega, if_neg (by omega), if_neg (by omega)]
        simp
    · rw [if_neg hb, List.filter_cons_of_neg (p := fun n => ((List.range channels).map (chan n)).any (· ≠ 0)) hb]

variable [DecidableEq V]

/-- The three situations after some pixels. -/
theorem fold_shows (zero : V) : ∀ (l : List V) (data : List (Item V)),
    ((data.getLast? ≠ some (.pix zero) → data.getLast? ≠ some .dots →
      ∃ is, l.foldl (addPixel zero) data = data ++ is ∧ Shows zero l is) ∧
    (data.getLast? = some (.pix zero) →
      ∃ n rest is, l = List.replicate n zero ++ rest ∧ rest.head? ≠ some zero ∧ Shows zero rest is ∧
        l.foldl (addPixel zero) data = data ++ (if n = 0 then [] else [.dots]) ++ is)) ∧
    (data.getLast? = some .dots →
      ∃ n rest is, l = List.replicate n zero ++ rest ∧ rest.head? ≠ some zero ∧ Shows zero rest is ∧
        l.foldl (addPixel zero) data = data ++ is)
  | [], data => ⟨⟨fun _ _ => ⟨[], by simp, .nil⟩, fun _ => ⟨0, [], [], by simp, by simp, .nil, by simp⟩⟩,
      fun _ => ⟨0, [], [], by simp, by simp, .nil, by simp⟩⟩
  | v :: l, data => by
    have ih := fold_shows zero l
    have hlast : ∀ x : Item V, (data ++ [x]).getLast? = some x := fun x => by simp
    by_cases hv : v = zero
    · subst hv
      refine ⟨⟨fun h1 h2 => ?_, fun h1 => ?_⟩, fun h1 => ?_⟩
      · have e : addPixel v data v = data ++ [.pix v] := by
          unfold addPixel
          split
          · rfl
          · simp [h1, h2]
        obtain ⟨n, rest, is, hl, hr, hs, hf⟩ := (ih (data ++ [.pix v])).1.2 (hlast _)
        rw [List.foldl_cons, e, hf]
        cases n with
        | zero =>
          refine ⟨.pix v :: is, by simp, ?_⟩
          simp only [List.replicate_zero, List.nil_append] at hl
          subst hl
          exact .one hr hs
        | succ n =>
          refine ⟨.pix v :: .dots :: is, by simp, ?_⟩
          rw [hl, ← List.cons_append, ← List.replicate_succ]
          exact .many n hr hs
      · have hne : data ≠ [] := by rintro rfl; simp at h1
        have e : addPixel v data v = data ++ [.dots] := by simp [addPixel, hne, h1]
        obtain ⟨n, rest, is, hl, hr, hs, hf⟩ := (ih (data ++ [.dots])).2 (hlast _)
        refine ⟨n + 1, rest, is, by rw [hl, List.replicate_succ, List.cons_append], hr, hs, ?_⟩
        rw [List.foldl_cons, e, hf]
        simp
      · have hne : data ≠ [] := by rintro rfl; simp at h1
        have e : addPixel v data v = data := by simp [addPixel, hne, h1]
        obtain ⟨n, rest, is, hl, hr, hs, hf⟩ := (ih data).2 h1
        refine ⟨n + 1, rest, is, by rw [hl, List.replicate_succ, List.cons_append], hr, hs, ?_⟩
        rw [List.foldl_cons, e, hf]
    · have e : addPixel zero data v = data ++ [.pix v] := by
        unfold addPixel
        split
        · rfl
        · simp [hv]
      obtain ⟨is, hf, hs⟩ := (ih (data ++ [.pix v])).1.1 (by simp [hv]) (by simp)
      have hfold : (v :: l).foldl (addPixel zero) data = data ++ (.pix v :: is) := by
        rw [List.foldl_cons, e, hf]; simp
      refine ⟨⟨fun _ _ => ⟨_, hfold, .pix hv hs⟩, fun _ => ⟨0, v :: l, .pix v :: is, rfl, by simpa using hv, .pix hv hs, ?_⟩⟩,
        fun _ => ⟨0, v :: l, .pix v :: is, rfl, by simpa using hv, .pix hv hs, hfold⟩⟩
      simpa using hfold

end X7.Info
