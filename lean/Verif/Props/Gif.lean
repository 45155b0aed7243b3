import Verif.Spec.Gif
import Verif.Props.Drawing

/-!
C82: saving an animation: which colours go into the palette, and what frames are written.
-/

noncomputable section

namespace X7.Gif
open Drawing

section
variable {C : Type} [LinearOrder C]

/-! ### Lemmas: the histogram -/

theorem mem_bump (d : List (C × ℕ)) (hd : (d.map Prod.fst).Nodup) (c k : C) (n : ℕ) :
    (k, n) ∈ bump d c ↔ if k = c then (∃ m, (k, m) ∈ d ∧ n = m + 1) ∨ (k ∉ d.map Prod.fst ∧ n = 1) else (k, n) ∈ d := by
  induction d with
  | nil =>
    simp only [bump, List.mem_singleton, Prod.mk.injEq, List.not_mem_nil, false_and, exists_false, List.map_nil, not_false_eq_true,
      true_and, false_or]
    split_ifs with h <;> simp [h]
  | cons x rest ih =>
    obtain ⟨a, m⟩ := x
    simp only [List.map_cons, List.nodup_cons] at hd
    obtain ⟨h1, h2⟩ := hd
    simp only [bump]
    by_cases ha : a = c
    · subst ha
      rw [if_pos rfl]
      simp only [List.mem_cons, Prod.mk.injEq, List.map_cons]
      by_cases hk : k = a
      · subst hk
        simp only [true_and, if_true, not_true_eq_false, false_and, or_false, true_or]
        constructor
        · rintro (h | h)
          · exact ⟨m, .inl rfl, h⟩
          · exact absurd (List.mem_map_of_mem (f := Prod.fst) h) h1
        · rintro ⟨m', h | h, e⟩
          · left; omega
          · exact absurd (List.mem_map_of_mem (f := Prod.fst) h) h1
      · simp [hk]
    · rw [if_neg ha]
      simp only [List.mem_cons, Prod.mk.injEq, ih h2, List.map_cons]
      by_cases hk : k = c
      · subst hk
        have : ¬ k = a := fun e => ha e.symm
        simp [this]
      · simp [hk]

theorem keys_bump (d : List (C × ℕ)) (hd : (d.map Prod.fst).Nodup) (c : C) : ((bump d c).map Prod.fst).Nodup := by
  have key : ∀ d : List (C × ℕ), (bump d c).map Prod.fst = if c ∈ d.map Prod.fst then d.map Prod.fst else d.map Prod.fst ++ [c] := by
    intro d
    induction d with
    | nil => simp [bump]
    | cons x rest ih =>
      obtain ⟨a, m⟩ := x
      simp only [bump]
      by_cases ha : a = c
      · simp [ha]
      · rw [if_neg ha]
        simp only [List.map_cons, ih, List.mem_cons, Ne.symm ha, false_or]
        split_ifs <;> simp
  rw [key]
  split_ifs with h
  · exact hd
  · rw [List.nodup_append]
    refine ⟨hd, by simp, ?_⟩
    intro x hx y hy
    simp only [List.mem_singleton] at hy
    subst hy
    exact fun e => h (e ▸ hx)

/-- The histogram of the pixels seen so far. -/
def IsHist (d : List (C × ℕ)) (l : List C) : Prop :=
  (d.map Prod.fst).Nodup ∧ ∀ k n, (k, n) ∈ d ↔ k ∈ l ∧ n = l.count k

theorem isHist_bump {d : List (C × ℕ)} {l : List C} (h : IsHist d l) (c : C) : IsHist (bump d c) (l ++ [c]) := by
  obtain ⟨h1, h2⟩ := h
  refine ⟨keys_bump d h1 c, fun k n => ?_⟩
  rw [mem_bump d h1]
  have hk : k ∈ d.map Prod.fst ↔ k ∈ l := by
    simp only [List.mem_map, Prod.exists, exists_and_right, exists_eq_right]
    constructor
    · rintro ⟨m, hm⟩; exact ((h2 k m).1 hm).1
    · intro hm; exact ⟨_, (h2 k _).2 ⟨hm, rfl⟩⟩
  by_cases e : k = c
  · subst e
    rw [if_pos rfl, hk]
    simp only [List.mem_append, List.mem_singleton, or_true, true_and, List.count_append, List.count_singleton_self]
    constructor
    · rintro (⟨m, hm, rfl⟩ | ⟨hm, rfl⟩)
      · rw [((h2 k m).1 hm).2]
      · rw [List.count_eq_zero.2 hm]
    · intro hn
      by_cases hm : k ∈ l
      · exact .inl ⟨_, (h2 k _).2 ⟨hm, rfl⟩, hn⟩
      · rw [List.count_eq_zero.2 hm] at hn
        exact .inr ⟨hm, hn⟩
  · rw [if_neg e, h2]
    have e' : ¬ c = k := fun h => e h.symm
    simp [e, List.count_append, List.count_singleton, e']

theorem isHist_foldl (image : List C) : ∀ {d : List (C × ℕ)} {l : List C}, IsHist d l → IsHist (image.foldl bump d) (l ++ image) := by
  induction image with
  | nil => intro d l h; simpa using h
  | cons c rest ih =>
    intro d l h
    have := ih (isHist_bump h c)
    simpa using this

theorem isHist_histogram (images : List (List C)) : IsHist (histogram images) images.flatten := by
  have key : ∀ (images : List (List C)) {d : List (C × ℕ)} {l : List C}, IsHist d l →
      IsHist (images.foldl (fun colors image => image.foldl bump colors) d) (l ++ images.flatten) := by
    intro images
    induction images with
    | nil => intro d l h; simpa using h
    | cons im rest ih =>
      intro d l h
      have := ih (isHist_foldl im h)
      simpa using this
  have := key images (d := []) (l := []) ⟨by simp, by simp⟩
  simpa [histogram] using this

/-! ### Lemmas: sorting -/

theorem tupleLe_trans (a b c : ℕ × C) (h1 : tupleLe a b = true) (h2 : tupleLe b c = true) : tupleLe a c = true := by
  simp only [tupleLe, decide_eq_true_eq] at *
  rcases h1 with h1 | ⟨h1, h1'⟩ <;> rcases h2 with h2 | ⟨h2, h2'⟩
  · left; omega
  · left; omega
  · left; omega
  · right; exact ⟨by omega, h1'.trans h2'⟩

theorem tupleLe_total (a b : ℕ × C) : (tupleLe a b || tupleLe b a) = true := by
  simp only [tupleLe, Bool.or_eq_true, decide_eq_true_eq]
  rcases lt_trichotomy a.1 b.1 with h | h | h
  · exact .inl (.inl h)
  · rcases le_total a.2 b.2 with h' | h'
    · exact .inl (.inr ⟨h, h'⟩)
    · exact .inr (.inr ⟨h.symm, h'⟩)
  · exact .inr (.inl h)

theorem tupleLe_antisymm (a b : ℕ × C) (h1 : tupleLe a b = true) (h2 : tupleLe b a = true) : a = b := by
  simp only [tupleLe, decide_eq_true_eq] at *
  rcases h1 with h1 | ⟨h1, h1'⟩ <;> rcases h2 with h2 | ⟨h2, h2'⟩
  · omega
  · omega
  · omega
  · exact Prod.ext h1 (le_antisymm h1' h2')

/-- The pairs to be sorted. -/
def pairs (images : List (List C)) : List (ℕ × C) := (histogram images).map fun kv => (kv.2, kv.1)

theorem mem_pairs (images : List (List C)) (n : ℕ) (c : C) :
    (n, c) ∈ pairs images ↔ c ∈ images.flatten ∧ n = images.flatten.count c := by
  rw [← (isHist_histogram images).2]
  simp only [pairs, List.mem_map, Prod.mk.injEq, Prod.exists]
  constructor
  · rintro ⟨a, b, h, rfl, rfl⟩; exact h
  · intro h; exact ⟨c, n, h, rfl, rfl⟩

theorem nodup_keys (images : List (List C)) : ((pairs images).map Prod.snd).Nodup := by
  have := (isHist_histogram images).1
  simpa [pairs, Function.comp_def] using this

theorem nodup_pairs (images : List (List C)) : (pairs images).Nodup := List.Nodup.of_map _ (nodup_keys images)

theorem allColors_perm (images : List (List C)) : (allColors (histogram images)).Perm (pairs images) :=
  (List.reverse_perm _).trans (List.mergeSort_perm _ _)

theorem allColors_sorted (images : List (List C)) :
    (allColors (histogram images)).Pairwise fun a b => tupleLe b a = true := by
  rw [allColors, List.pairwise_reverse]
  exact List.pairwise_mergeSort tupleLe_trans tupleLe_total _

theorem getcolor_all (l : List (ℕ × C)) : ∀ (pal : List C), (pal ++ l.map Prod.snd).Nodup →
    l.foldl (fun pal vk => getcolor pal vk.2) pal = pal ++ l.map Prod.snd := by
  induction l with
  | nil => intro pal _; simp
  | cons x rest ih =>
    intro pal h
    have hx : x.2 ∉ pal := by
      intro hx
      rw [List.nodup_append] at h
      exact h.2.2 x.2 hx x.2 (by simp) rfl
    simp only [List.foldl_cons, List.map_cons]
    rw [getcolor, if_neg hx, ih (pal ++ [x.2]) (by simpa using h)]
    simp

theorem makePalette_eq (images : List (List C)) :
    makePalette images = ((allColors (histogram images)).take 256).map Prod.snd := by
  rw [makePalette, getcolor_all _ [] ?_]
  · simp
  · simp only [List.nil_append, List.map_take]
    have h1 : ((allColors (histogram images)).map Prod.snd).Nodup :=
      ((allColors_perm images).map Prod.snd).nodup_iff.2 (nodup_keys images)
    exact h1.sublist (List.take_sublist _ _)

/-- Sorted pairs, by colour. -/
theorem allColors_before (images : List (List C)) :
    ((allColors (histogram images)).map Prod.snd).Pairwise (Before images.flatten) := by
  rw [List.pairwise_map]
  have h1 := allColors_sorted images
  have h2 : (allColors (histogram images)).Nodup := (allColors_perm images).nodup_iff.2 (nodup_pairs images)
  refine List.Pairwise.imp_of_mem ?_ (h1.and h2)
  rintro ⟨n, c⟩ ⟨m, d⟩ ha hb ⟨hle, hne⟩
  have e1 := ((mem_pairs images n c).1 ((allColors_perm images).mem_iff.1 ha)).2
  have e2 := ((mem_pairs images m d).1 ((allColors_perm images).mem_iff.1 hb)).2
  subst e1; subst e2
  simp only [tupleLe, decide_eq_true_eq] at hle
  rcases hle with h | ⟨h, h'⟩
  · exact .inl h
  · refine .inr ⟨h, lt_of_le_of_ne h' ?_⟩
    rintro rfl
    exact hne rfl

theorem mem_allColors (images : List (List C)) (c : C) :
    c ∈ (allColors (histogram images)).map Prod.snd ↔ c ∈ images.flatten := by
  rw [((allColors_perm images).map Prod.snd).mem_iff]
  simp only [List.mem_map, Prod.exists]
  constructor
  · rintro ⟨n, d, h, rfl⟩; exact ((mem_pairs _ _ _).1 h).1
  · intro h; exact ⟨_, c, (mem_pairs _ _ _).2 ⟨h, rfl⟩, rfl⟩

/-! ### The palette -/

/-- C82: the palette has the colours of the images, each once, as many as there are up to 256; more frequent colours come first, of equally
frequent ones the greater; and every colour left out comes after all those in the palette. -/
theorem C82_palette (images : List (List C)) :
    (makePalette images).Nodup ∧ (makePalette images).length = min 256 images.flatten.toFinset.card ∧
      (∀ c ∈ makePalette images, ∃ im ∈ images, c ∈ im) ∧
      (makePalette images).Pairwise (Before images.flatten) ∧
      ∀ c ∈ makePalette images, ∀ im ∈ images, ∀ d ∈ im, d ∉ makePalette images → Before images.flatten c d := by
  have hk : ((allColors (histogram images)).map Prod.snd).Nodup :=
    ((allColors_perm images).map Prod.snd).nodup_iff.2 (nodup_keys images)
  rw [makePalette_eq, List.map_take]
  refine ⟨hk.sublist (List.take_sublist _ _), ?_, ?_, (allColors_before images).sublist (List.take_sublist _ _), ?_⟩
  · rw [List.length_take]
    congr 1
    rw [← List.toFinset_card_of_nodup hk]
    congr 1
    ext c
    rw [List.mem_toFinset, List.mem_toFinset, mem_allColors]
  · intro c hc
    have := (mem_allColors images c).1 (List.mem_of_mem_take hc)
    simpa [List.mem_flatten] using this
  · intro c hc im him d hd hnd
    have hd' : d ∈ (allColors (histogram images)).map Prod.snd :=
      (mem_allColors images d).2 (List.mem_flatten.2 ⟨im, him, hd⟩)
    have hb := allColors_before images
    rw [← List.take_append_drop 256 ((allColors (histogram images)).map Prod.snd)] at hb hd'
    rw [List.pairwise_append] at hb
    rcases List.mem_append.1 hd' with h | h
    · exact absurd h hnd
    · exact hb.2.2 c hc d h

/-- C82: with at most 256 different colours, no colour is lost. -/
theorem C82_palette_all (images : List (List C)) (h : images.flatten.toFinset.card ≤ 256) (im : List C) (him : im ∈ images) (c : C)
    (hc : c ∈ im) : c ∈ makePalette images := by
  have hk : ((allColors (histogram images)).map Prod.snd).Nodup :=
    ((allColors_perm images).map Prod.snd).nodup_iff.2 (nodup_keys images)
  have hl : ((allColors (histogram images)).map Prod.snd).length ≤ 256 := by
    rw [← List.toFinset_card_of_nodup hk]
    refine le_trans (le_of_eq ?_) h
    congr 1
    ext c
    rw [List.mem_toFinset, List.mem_toFinset, mem_allColors]
  rw [makePalette_eq, List.map_take, List.take_of_length_le hl]
  exact (mem_allColors images c).2 (List.mem_flatten.2 ⟨im, him, hc⟩)

/-- C82: the palette depends on how often each colour occurs only: not on the order of images and pixels, nor on which image a pixel
is in. -/
theorem C82_palette_order (images images' : List (List C)) (h : ∀ c, images.flatten.count c = images'.flatten.count c) :
    makePalette images = makePalette images' := by
  rw [makePalette_eq, makePalette_eq]
  congr 2
  have hp : (pairs images).Perm (pairs images') := by
    rw [List.perm_ext_iff_of_nodup (nodup_pairs _) (nodup_pairs _)]
    rintro ⟨n, c⟩
    rw [mem_pairs, mem_pairs, h c, ← List.count_pos_iff, ← List.count_pos_iff, h c]
  refine List.Perm.eq_of_pairwise ?_ (allColors_sorted images) (allColors_sorted images')
    ((allColors_perm images).trans (hp.trans (allColors_perm images').symm))
  intro a b _ _ h1 h2
  exact tupleLe_antisymm a b h2 h1

example : makePalette [[3, 1, 2], [2, 3, (5 : ℕ)], [2]] = [2, 3, 5, 1] := by
  simp [makePalette, histogram, allColors, bump, List.mergeSort, List.MergeSort.Internal.splitInTwo, List.splitAt, List.splitAt.go,
    List.merge, tupleLe, getcolor]

end

/-! ### Frames -/

variable {I C : Type} [LinearOrder C] (pil : PIL I C)

/-- C82: `resize_for_gif` of an RGBA image leaves alpha 0 or 255 only: 255 exactly where resizing gave full opacity. The size is the one
asked for. -/
theorem C82_alpha (hl : pil.Laws) (im : I) (x y : ℕ) (hx : 0 < x) (hy : 0 < y) :
    ∃ r, resizeForGif pil im x y = .ok r ∧ pil.width r = x ∧ pil.height r = y ∧ pil.mode r = pil.mode im ∧
      (pil.mode im = .rgba →
        (∀ a ∈ pil.alpha r, a = 0 ∨ a = 255) ∧
        ∀ k : ℕ, ∀ v, (pil.alpha (pil.resize im x y))[k]? = some v → v ≤ 255 →
          (pil.alpha r)[k]? = some (if v = 255 then 255 else 0)) := by
  have h0 : ¬ (x = 0 ∨ y = 0) := by omega
  rw [resizeForGif, if_neg h0]
  by_cases hm : pil.mode (pil.resize im x y) = .rgba
  · simp only [hm, if_true]
    have hal := hl.alpha_putalpha (pil.resize im x y) ((pil.alpha (pil.resize im x y)).map fun v => if v < 255 then 0 else 255) hm (by simp)
    refine ⟨_, rfl, ?_, ?_, ?_, ?_⟩
    · rw [(hl.putalpha_size _ _).1, (hl.resize_size _ _ _).1]
    · rw [(hl.putalpha_size _ _).2, (hl.resize_size _ _ _).2]
    · rw [hl.putalpha_mode _ _ hm, ← hm, hl.resize_mode]
    · intro _
      rw [hal]
      constructor
      · intro a ha
        simp only [List.mem_map] at ha
        obtain ⟨v, _, rfl⟩ := ha
        split_ifs <;> simp
      · intro k v hv hle
        rw [List.getElem?_map, hv]
        simp only [Option.map_some, Option.some.injEq]
        by_cases e : v = 255
        · simp [e]
        · rw [if_neg e, if_pos (by omega)]
  · simp only [hm, if_false]
    refine ⟨_, rfl, (hl.resize_size _ _ _).1, (hl.resize_size _ _ _).2, hl.resize_mode _ _ _, ?_⟩
    intro h
    rw [hl.resize_mode] at hm
    exact absurd h hm

/-- C82: an empty target size is an error. -/
theorem C82_empty (im : I) (x y : ℕ) (h : x = 0 ∨ y = 0) : resizeForGif pil im x y = .error .value := by
  rw [resizeForGif, if_pos h]

theorem resizeAll_ok (hl : pil.Laws) (x y : ℕ) (hx : 0 < x) (hy : 0 < y) (md : Mode) (images : List I) (hm : ∀ im ∈ images, pil.mode im = md) :
    ∃ rs, resizeAll pil x y images = .ok rs ∧ rs.length = images.length ∧
      ∀ r ∈ rs, pil.width r = x ∧ pil.height r = y ∧ pil.mode r = md := by
  induction images with
  | nil => exact ⟨[], rfl, rfl, by simp⟩
  | cons im rest ih =>
    obtain ⟨rs, h1, h2, h3⟩ := ih (fun i hi => hm i (by simp [hi]))
    obtain ⟨r, k1, k2, k3, k4, _⟩ := C82_alpha pil hl im x y hx hy
    refine ⟨r :: rs, ?_, by simp [h2], ?_⟩
    · rw [resizeAll, k1, h1]
    · intro q hq
      rcases List.mem_cons.1 hq with rfl | hq
      · exact ⟨k2, k3, by rw [k4, hm im (by simp)]⟩
      · exact h3 q hq

theorem toRgb_ok (hl : pil.Laws) (x y : ℕ) (images : List I)
    (hm : ∀ im ∈ images, pil.width im = x ∧ pil.height im = y ∧ pil.mode im = .rgba) :
    ∃ rs, toRgb pil images = .ok rs ∧ rs.length = images.length ∧
      ∀ r ∈ rs, pil.width r = x ∧ pil.height r = y ∧ pil.mode r = .rgb := by
  induction images with
  | nil => exact ⟨[], rfl, rfl, by simp⟩
  | cons im rest ih =>
    obtain ⟨rs, h1, h2, h3⟩ := ih (fun i hi => hm i (by simp [hi]))
    obtain ⟨m1, m2, m3⟩ := hm im (by simp)
    refine ⟨pil.onBlack im :: rs, ?_, by simp [h2], ?_⟩
    · rw [toRgb, if_pos m3, h1]
    · intro q hq
      rcases List.mem_cons.1 hq with rfl | hq
      · exact ⟨by rw [(hl.onBlack_size _).1, m1], by rw [(hl.onBlack_size _).2, m2], hl.onBlack_mode _⟩
      · exact h3 q hq

theorem transparentAll_ok (hl : pil.Laws) (x y : ℕ) (palette : List C) (images : List I)
    (hm : ∀ im ∈ images, pil.width im = x ∧ pil.height im = y ∧ pil.mode im = .rgb) :
    ∃ rs, transparentAll pil palette images = .ok rs ∧ rs.length = images.length ∧
      ∀ r ∈ rs, pil.width r = x ∧ pil.height r = y ∧ pil.transparency r = some (pil.corner r) := by
  induction images with
  | nil => exact ⟨[], rfl, rfl, by simp⟩
  | cons im rest ih =>
    obtain ⟨rs, h1, h2, h3⟩ := ih (fun i hi => hm i (by simp [hi]))
    obtain ⟨m1, m2, m3⟩ := hm im (by simp)
    refine ⟨pil.setTransparency (pil.quantize im palette) (pil.corner (pil.quantize im palette)) :: rs, ?_, by simp [h2], ?_⟩
    · rw [transparentAll, rgbToTransparent, if_pos m3, h1]
    · intro q hq
      rcases List.mem_cons.1 hq with rfl | hq
      · refine ⟨?_, ?_, ?_⟩
        · rw [(hl.set_size _ _).1, (hl.quantize_size _ _).1, m1]
        · rw [(hl.set_size _ _).2, (hl.quantize_size _ _).2, m2]
        · rw [hl.set_transparency, hl.set_corner]
      · exact h3 q hq

theorem frames_ok (hl : pil.Laws) (duration : ℝ) (w h : ℕ) (hw : 2 ≤ w) (hh : 2 ≤ h) (md : Mode) (hmd : md = .rgb ∨ md = .rgba)
    (images : List I) (hne : images ≠ []) (hs : ∀ im ∈ images, pil.width im = w ∧ pil.height im = h ∧ pil.mode im = md) :
    ∃ frames, saveAnimation pil duration false images = .ok (frames, pyInt (1000 * duration / images.length)) ∧
      frames.length = images.length ∧
      ∀ f ∈ frames, pil.width f = w / 2 ∧ pil.height f = h / 2 ∧ pil.transparency f = some (pil.corner f) := by
  match images, hne with
  | im :: rest, _ =>
    obtain ⟨i1, i2, i3⟩ := hs im (by simp)
    obtain ⟨rs, r1, r2, r3⟩ := resizeAll_ok pil hl (w / 2) (h / 2) (by omega) (by omega) md (im :: rest) (fun i hi => (hs i hi).2.2)
    have e1 : scaled pil 2 (im :: rest) = .ok rs := by
      rw [scaled]
      simp only [OfNat.ofNat_ne_one, if_false, OfNat.ofNat_ne_zero]
      rw [i1, i2, r1]
    match rs, r2 with
    | q :: qs, r2 =>
      obtain ⟨q1, q2, q3⟩ := r3 q (by simp)
      have e2 : ∃ ts, (if pil.mode q ≠ .rgb then toRgb pil (q :: qs) else .ok (q :: qs)) = .ok ts ∧ ts.length = (q :: qs).length ∧
          ∀ t ∈ ts, pil.width t = w / 2 ∧ pil.height t = h / 2 ∧ pil.mode t = .rgb := by
        rcases hmd with rfl | rfl
        · exact ⟨q :: qs, by rw [q3]; simp, rfl, r3⟩
        · obtain ⟨ts, t1, t2, t3⟩ := toRgb_ok pil hl (w / 2) (h / 2) (q :: qs) r3
          exact ⟨ts, by rw [q3]; simp [t1], t2, t3⟩
      obtain ⟨ts, t1, t2, t3⟩ := e2
      obtain ⟨fs, f1, f2, f3⟩ := transparentAll_ok pil hl (w / 2) (h / 2) (makePalette (ts.map pil.getdata)) ts t3
      refine ⟨fs, ?_, by rw [f2, t2, r2], f3⟩
      rw [saveAnimation]
      simp only [Bool.false_eq_true, if_false, e1, gifFrames, t1, f1, r2]

/-- C82, frames without cropping: for images of one size, at least 2 by 2, all RGB or all RGBA, there is a frame for every image, of half
the size, whose transparent colour is that of its upper left pixel. -/
theorem C82_frames (hl : pil.Laws) (duration : ℝ) (w h : ℕ) (hw : 2 ≤ w) (hh : 2 ≤ h) (md : Mode) (hmd : md = .rgb ∨ md = .rgba)
    (images : List I) (hne : images ≠ []) (hs : ∀ im ∈ images, pil.width im = w ∧ pil.height im = h ∧ pil.mode im = md) :
    ∃ frames ms, saveAnimation pil duration false images = .ok (frames, ms) ∧ frames.length = images.length ∧
      ∀ f ∈ frames, pil.width f = w / 2 ∧ pil.height f = h / 2 ∧ pil.transparency f = some (pil.corner f) := by
  obtain ⟨frames, h1, h2, h3⟩ := frames_ok pil hl duration w h hw hh md hmd images hne hs
  exact ⟨frames, _, h1, h2, h3⟩

/-- C82, frames with the automatic crop: if moreover something is visible in every image, `b` being the box around everything visible in
all of them, there is a frame for every image; all have the same size, half of that of `b` with a margin of 16 pixels (less at the border
of the image), so no frame is empty, whatever is visible. -/
theorem C82_frames_cropped (hl : pil.Laws) (duration : ℝ) (w h : ℕ) (hw : 2 ≤ w) (hh : 2 ≤ h) (md : Mode) (hmd : md = .rgb ∨ md = .rgba)
    (l : List (I × Set (ℤ × ℤ) × PBox)) (hne : l ≠ [])
    (hs : ∀ x ∈ l, pil.width x.1 = w ∧ pil.height x.1 = h ∧ pil.mode x.1 = md ∧ pil.getbbox x.1 = some x.2.2 ∧ GetBBox x.2.1 (some x.2.2) ∧
      ∀ p ∈ x.2.1, 0 ≤ p.1 ∧ p.1 < w ∧ 0 ≤ p.2 ∧ p.2 < h)
    (b : PBox) (hb : Tight {p | ∃ x ∈ l, p ∈ x.2.1} b) :
    ∃ frames ms, saveAnimation pil duration true (l.map Prod.fst) = .ok (frames, ms) ∧ frames.length = l.length ∧
      ∀ f ∈ frames, (pil.width f : ℤ) = (min (w : ℤ) (b.xh + 16) - max 0 (b.xl - 16)) / 2 ∧
        (pil.height f : ℤ) = (min (h : ℤ) (b.yh + 16) - max 0 (b.yl - 16)) / 2 ∧ 1 ≤ pil.width f ∧ 1 ≤ pil.height f ∧
        pil.transparency f = some (pil.corner f) := by
  match l, hne with
  | x :: rest, _ =>
    obtain ⟨x1, x2, x3, x4, x5, x6⟩ := hs x (by simp)
    -- the crop box
    obtain ⟨c, c1, c2⟩ := C63_max_bbox ((x :: rest).map Prod.snd) (by simp) (by
      intro y hy
      obtain ⟨z, hz, rfl⟩ := List.mem_map.1 hy
      exact (hs z hz).2.2.2.2.1)
    have hset : {p | ∃ y ∈ (x :: rest).map Prod.snd, p ∈ y.1} = {p | ∃ y ∈ x :: rest, p ∈ y.2.1} := by
      ext p
      simp only [Set.mem_setOf_eq, List.mem_map]
      constructor
      · rintro ⟨y, ⟨z, hz, rfl⟩, hp⟩; exact ⟨z, hz, hp⟩
      · rintro ⟨z, hz, hp⟩; exact ⟨_, ⟨z, hz, rfl⟩, hp⟩
    rw [hset] at c2
    obtain rfl := tight_unique c2 hb
    have hboxes : ((x :: rest).map Prod.fst).map pil.getbbox = ((x :: rest).map Prod.snd).map fun y => some y.2 := by
      rw [List.map_map, List.map_map]
      exact List.map_congr_left fun y hy => (hs y hy).2.2.2.1
    set cb : PBox := ⟨max 0 (c.xl - 16), max 0 (c.yl - 16), min w (c.xh + 16), min h (c.yh + 16)⟩ with hcb
    have hac : autocropped pil ((x :: rest).map Prod.fst) = .ok (((x :: rest).map Prod.fst).map (pil.crop · cb)) := by
      rw [List.map_cons] at hboxes ⊢
      simp only [autocropped]
      rw [hboxes, autocropBox, x1, x2]
      rw [c1]
    -- the box lies in the image
    obtain ⟨hmem, ⟨p1, q1, e1⟩, ⟨p2, q2, e2⟩, ⟨p3, q3, e3⟩, ⟨p4, q4, e4⟩⟩ := hb
    have hin : ∀ p ∈ {p | ∃ y ∈ x :: rest, p ∈ y.2.1}, 0 ≤ p.1 ∧ p.1 < w ∧ 0 ≤ p.2 ∧ p.2 < h := by
      rintro p ⟨y, hy, hp⟩; exact (hs y hy).2.2.2.2.2 p hp
    have a1 := hin p1 q1
    have a2 := hin p2 q2
    have a3 := hin p3 q3
    have a4 := hin p4 q4
    have m1 := hmem p1 q1
    have m3 := hmem p3 q3
    simp only [PBox.Mem] at m1 m3
    have hwx : 2 ≤ cb.xh - cb.xl ∧ cb.xh - cb.xl = min (w : ℤ) (c.xh + 16) - max 0 (c.xl - 16) := by
      refine ⟨?_, by rw [hcb]⟩
      simp only [hcb]
      omega
    have hwy : 2 ≤ cb.yh - cb.yl ∧ cb.yh - cb.yl = min (h : ℤ) (c.yh + 16) - max 0 (c.yl - 16) := by
      refine ⟨?_, by rw [hcb]⟩
      simp only [hcb]
      omega
    obtain ⟨frames, f1, f2, f3⟩ := frames_ok pil hl duration (cb.xh - cb.xl).toNat (cb.yh - cb.yl).toNat (by omega) (by omega) md hmd
      (((x :: rest).map Prod.fst).map (pil.crop · cb)) (by simp) (by
        intro im him
        simp only [List.mem_map] at him
        obtain ⟨i, ⟨y, hy, rfl⟩, rfl⟩ := him
        have := hl.crop_size y.1 cb (by omega) (by omega)
        refine ⟨by omega, by omega, ?_⟩
        rw [hl.crop_mode]
        exact (hs y hy).2.2.1)
    have e : saveAnimation pil duration true ((x :: rest).map Prod.fst) =
        saveAnimation pil duration false (((x :: rest).map Prod.fst).map (pil.crop · cb)) := by
      rw [saveAnimation, saveAnimation]
      simp only [if_true, hac, Bool.false_eq_true, if_false]
    refine ⟨frames, _, e.trans f1, by simpa using f2, ?_⟩
    intro f hf
    obtain ⟨g1, g2, g3⟩ := f3 f hf
    refine ⟨?_, ?_, ?_, ?_, g3⟩
    · rw [g1, ← hwx.2]; omega
    · rw [g2, ← hwy.2]; omega
    · rw [g1]; omega
    · rw [g2]; omega

theorem resizeAll_length (x y : ℕ) (l : List I) : ∀ rs, resizeAll pil x y l = .ok rs → rs.length = l.length := by
  induction l with
  | nil => intro rs h; simp [resizeAll] at h; simp [← h]
  | cons a rest ih =>
    intro rs h
    rw [resizeAll] at h
    split at h
    · simp at h
    · split at h
      · simp at h
      · rename_i b hb
        simp only [Except.ok.injEq] at h
        rw [← h]
        simp [ih b hb]

theorem toRgb_length (l : List I) : ∀ rs, toRgb pil l = .ok rs → rs.length = l.length := by
  induction l with
  | nil => intro rs h; simp [toRgb] at h; simp [← h]
  | cons a rest ih =>
    intro rs h
    rw [toRgb] at h
    split at h
    · split at h
      · simp at h
      · rename_i b hb
        simp only [Except.ok.injEq] at h
        rw [← h]
        simp [ih b hb]
    · simp at h

theorem transparentAll_length (pal : List C) (l : List I) : ∀ rs, transparentAll pil pal l = .ok rs → rs.length = l.length := by
  induction l with
  | nil => intro rs h; simp [transparentAll] at h; simp [← h]
  | cons a rest ih =>
    intro rs h
    rw [transparentAll] at h
    split at h
    · simp at h
    · split at h
      · simp at h
      · rename_i b hb
        simp only [Except.ok.injEq] at h
        rw [← h]
        simp [ih b hb]

theorem scaled_cons (im : I) (rest : List I) :
    scaled pil 2 (im :: rest) = resizeAll pil (pil.width im / 2) (pil.height im / 2) (im :: rest) := by
  simp [scaled]

theorem save_ok {duration : ℝ} {autocrop : Bool} {images frames : List I} {ms : ℤ}
    (h : saveAnimation pil duration autocrop images = .ok (frames, ms)) :
    images ≠ [] ∧ frames.length = images.length ∧ ms = pyInt (1000 * duration / images.length) := by
  have hsc : ∀ (l rs : List I), scaled pil 2 l = .ok rs → l ≠ [] ∧ rs.length = l.length := by
    intro l rs h
    cases l with
    | nil => simp [scaled] at h
    | cons a rest =>
      rw [scaled_cons] at h
      exact ⟨by simp, resizeAll_length pil _ _ _ _ h⟩
  have hac : ∀ (l rs : List I), autocropped pil l = .ok rs → rs.length = l.length := by
    intro l rs h
    cases l with
    | nil => simp [autocropped] at h
    | cons a rest =>
      simp only [autocropped] at h
      split at h
      · simp at h
      · simp only [Except.ok.injEq] at h
        rw [← h]
        simp
  have hgf : ∀ (l rs : List I), gifFrames pil l = .ok rs → rs.length = l.length := by
    intro l rs h
    cases l with
    | nil => simp [gifFrames] at h
    | cons a rest =>
      simp only [gifFrames] at h
      split at h
      · simp at h
      · rename_i b hb
        rw [transparentAll_length pil _ _ _ h]
        split_ifs at hb
        · exact toRgb_length pil _ _ hb
        · simp only [Except.ok.injEq] at hb; rw [← hb]
  rw [saveAnimation] at h
  split at h
  · simp at h
  · rename_i im1 h1
    split at h
    · simp at h
    · rename_i im2 h2
      split at h
      · simp at h
      · rename_i fr h3
        simp only [Except.ok.injEq, Prod.mk.injEq] at h
        obtain ⟨s1, s2⟩ := hsc _ _ h2
        have h0 : im1.length = images.length := by
          cases autocrop
          · simp at h1; rw [h1]
          · simp at h1; rw [hac _ _ h1]
        refine ⟨?_, ?_, ?_⟩
        · rintro rfl
          exact s1 (List.length_eq_zero_iff.1 h0)
        · rw [← h.1, hgf _ _ h3, s2, h0]
        · rw [← h.2, s2, h0]

/-- C82, the time: whenever an animation is saved, there are as many frames as images and the milliseconds per frame are whole; all frames
together last no longer than the duration, and less than a millisecond per frame shorter. -/
theorem C82_duration (duration : ℝ) (hd : 0 ≤ duration) (autocrop : Bool) (images frames : List I) (ms : ℤ)
    (h : saveAnimation pil duration autocrop images = .ok (frames, ms)) :
    frames.length = images.length ∧ (ms : ℝ) * frames.length ≤ 1000 * duration ∧
      1000 * duration < ms * frames.length + frames.length := by
  obtain ⟨hne, hlen, hms⟩ := save_ok pil h
  have hn : (0 : ℝ) < images.length := by
    have : 0 < images.length := List.length_pos_iff.2 hne
    exact_mod_cast this
  have hq : 0 ≤ 1000 * duration / images.length := by positivity
  rw [hlen, hms, pyInt, if_pos hq]
  have h1 := Int.floor_le (1000 * duration / images.length)
  have h2 := Int.lt_floor_add_one (1000 * duration / images.length)
  rw [le_div_iff₀ hn] at h1
  rw [div_lt_iff₀ hn] at h2
  exact ⟨rfl, h1, by linarith⟩

/-- C82, each frame comes from its image: for RGBA images of one size, frame `k` is image `k` resized to half the size, its alpha made
binary, put on black and reduced to a palette common to all frames. -/
theorem C82_frame_by_frame (hl : pil.Laws) (duration : ℝ) (w h : ℕ) (hw : 2 ≤ w) (hh : 2 ≤ h) (images : List I) (hne : images ≠ [])
    (hs : ∀ im ∈ images, pil.width im = w ∧ pil.height im = h ∧ pil.mode im = .rgba) :
    let small im := pil.resize im (w / 2) (h / 2)
    let rgb im := pil.onBlack (pil.putalpha (small im) ((pil.alpha (small im)).map fun v => if v < 255 then 0 else 255))
    let reduced im := pil.quantize (rgb im) (makePalette (images.map fun i => pil.getdata (rgb i)))
    ∃ ms, saveAnimation pil duration false images =
      .ok (images.map fun im => pil.setTransparency (reduced im) (pil.corner (reduced im)), ms) := by
  obtain ⟨im, rest, rfl⟩ := List.exists_cons_of_ne_nil hne
  intro small rgb reduced
  have h0 : ¬ (w / 2 = 0 ∨ h / 2 = 0) := by omega
  have hr : ∀ l : List I, (∀ im ∈ l, pil.mode im = .rgba) → resizeAll pil (w / 2) (h / 2) l =
      .ok (l.map fun im => pil.putalpha (small im) ((pil.alpha (small im)).map fun v => if v < 255 then 0 else 255)) := by
    intro l
    induction l with
    | nil => intro _; rfl
    | cons im rest ih =>
      intro hm
      have hm1 : pil.mode (pil.resize im (w / 2) (h / 2)) = .rgba := by rw [hl.resize_mode, hm im (by simp)]
      rw [resizeAll, resizeForGif, if_neg h0]
      simp only [hm1, if_true]
      rw [ih fun i hi => hm i (by simp [hi])]
      rfl
  have ht : ∀ l : List I, (∀ im ∈ l, pil.mode im = .rgba) → toRgb pil l = .ok (l.map pil.onBlack) := by
    intro l
    induction l with
    | nil => intro _; rfl
    | cons im rest ih =>
      intro hm
      rw [toRgb, if_pos (hm im (by simp)), ih fun i hi => hm i (by simp [hi])]
      rfl
  have hq : ∀ (pal : List C) (l : List I), (∀ im ∈ l, pil.mode im = .rgb) → transparentAll pil pal l =
      .ok (l.map fun im => pil.setTransparency (pil.quantize im pal) (pil.corner (pil.quantize im pal))) := by
    intro pal l
    induction l with
    | nil => intro _; rfl
    | cons im rest ih =>
      intro hm
      rw [transparentAll, rgbToTransparent, if_pos (hm im (by simp)), ih fun i hi => hm i (by simp [hi])]
      rfl
  obtain ⟨i1, i2, i3⟩ := hs im (by simp)
  have hmode : ∀ i ∈ im :: rest, pil.mode i = .rgba := fun i hi => (hs i hi).2.2
  have hput : ∀ i ∈ im :: rest, pil.mode (pil.putalpha (small i) ((pil.alpha (small i)).map fun v => if v < 255 then 0 else 255)) = .rgba := by
    intro i hi
    exact hl.putalpha_mode _ _ (by rw [hl.resize_mode, hmode i hi])
  have e1 : scaled pil 2 (im :: rest) = .ok ((im :: rest).map fun im =>
      pil.putalpha (small im) ((pil.alpha (small im)).map fun v => if v < 255 then 0 else 255)) := by
    rw [scaled_cons, i1, i2, hr _ hmode]
  have e2 : gifFrames pil ((im :: rest).map fun im =>
      pil.putalpha (small im) ((pil.alpha (small im)).map fun v => if v < 255 then 0 else 255)) =
      .ok ((im :: rest).map fun im => pil.setTransparency (reduced im) (pil.corner (reduced im))) := by
    have hne : pil.mode (pil.putalpha (small im) ((pil.alpha (small im)).map fun v => if v < 255 then 0 else 255)) ≠ .rgb := by
      rw [hput im (by simp)]; simp
    rw [List.map_cons, gifFrames, if_pos hne, ← List.map_cons (f := fun im =>
      pil.putalpha (small im) ((pil.alpha (small im)).map fun v => if v < 255 then 0 else 255))]
    rw [ht _ (by
      intro i hi
      obtain ⟨k, hk, rfl⟩ := List.mem_map.1 hi
      exact hput k hk)]
    simp only [List.map_map]
    rw [hq _ _ (by
      intro i hi
      obtain ⟨k, hk, rfl⟩ := List.mem_map.1 hi
      exact hl.onBlack_mode _)]
    rw [List.map_map]
    rfl
  refine ⟨pyInt (1000 * duration / ((im :: rest).map fun im =>
      pil.putalpha (small im) ((pil.alpha (small im)).map fun v => if v < 255 then 0 else 255)).length), ?_⟩
  rw [saveAnimation]
  simp only [Bool.false_eq_true, if_false, e1, e2]

/-- C82 (false without the sizes): images one pixel wide cannot be saved. -/
theorem C82_narrow_counterexample (duration : ℝ) (im : I) (rest : List I) (h : pil.width im < 2 ∨ pil.height im < 2) :
    saveAnimation pil duration false (im :: rest) = .error .value := by
  have h0 : pil.width im / 2 = 0 ∨ pil.height im / 2 = 0 := by omega
  have : scaled pil 2 (im :: rest) = .error .value := by
    rw [scaled_cons, resizeAll, C82_empty pil im _ _ h0]
  rw [saveAnimation]
  simp only [Bool.false_eq_true, if_false, this]

/-- C82 (false): the duration is not kept when there are more frames than milliseconds: the time per frame becomes 0. -/
theorem C82_fast_counterexample (duration : ℝ) (hd : 0 ≤ duration) (autocrop : Bool) (images frames : List I) (ms : ℤ)
    (h : saveAnimation pil duration autocrop images = .ok (frames, ms)) (hfast : 1000 * duration < images.length) : ms = 0 := by
  obtain ⟨hlen, h1, h2⟩ := C82_duration pil duration hd autocrop images frames ms h
  have hne := (save_ok pil h).1
  rw [hlen] at h1 h2
  have hn : (0 : ℝ) < images.length := by
    have : 0 < images.length := List.length_pos_iff.2 hne
    exact_mod_cast this
  have a1 : (ms : ℝ) * images.length < 1 * images.length := by linarith
  have a2 : (-1 : ℝ) * images.length < ms * images.length := by
    have : 0 ≤ 1000 * duration := by linarith
    linarith
  have b1 := lt_of_mul_lt_mul_right a1 hn.le
  have b2 := lt_of_mul_lt_mul_right a2 hn.le
  have c1 : ms < 1 := by exact_mod_cast b1
  have c2 : -1 < ms := by exact_mod_cast b2
  omega

/-! ### The library assumptions can be met -/

/-- Images without content but for size, mode, alpha and transparent index. -/
structure Toy where
  w : ℕ
  h : ℕ
  mode : Mode
  alpha : List ℕ
  tr : Option ℕ

def toy : PIL Toy ℕ where
  width im := im.w
  height im := im.h
  mode im := im.mode
  getdata im := im.alpha
  getbbox im := some ⟨0, 0, im.w, im.h⟩
  resize im w h := ⟨w, h, im.mode, List.replicate (w * h) 128, im.tr⟩
  crop im b := ⟨(b.xh - b.xl).toNat, (b.yh - b.yl).toNat, im.mode, im.alpha, im.tr⟩
  alpha im := im.alpha
  putalpha im a := { im with alpha := a }
  onBlack im := { im with mode := .rgb }
  quantize im _ := { im with mode := .p }
  corner _ := 0
  transparency im := im.tr
  setTransparency im n := { im with tr := some n }

theorem toy_laws : toy.Laws where
  resize_size _ _ _ := ⟨rfl, rfl⟩
  resize_mode _ _ _ := rfl
  crop_size _ b hx hy := by
    simp only [toy]
    omega
  crop_mode _ _ := rfl
  putalpha_size _ _ := ⟨rfl, rfl⟩
  putalpha_mode _ _ h := h
  alpha_putalpha _ _ _ _ := rfl
  onBlack_size _ := ⟨rfl, rfl⟩
  onBlack_mode _ := rfl
  quantize_size _ _ := ⟨rfl, rfl⟩
  set_size _ _ := ⟨rfl, rfl⟩
  set_corner _ _ := rfl
  set_transparency _ _ := rfl

example : ∃ frames ms, saveAnimation toy 2 false [⟨40, 30, .rgba, [], none⟩, ⟨40, 30, .rgba, [], none⟩] = .ok (frames, ms) ∧
    frames.length = 2 ∧ ∀ f ∈ frames, toy.width f = 20 ∧ toy.height f = 15 ∧ toy.transparency f = some (toy.corner f) := by
  refine C82_frames toy toy_laws 2 40 30 (by norm_num) (by norm_num) .rgba (.inr rfl) _ (by simp) ?_
  intro im him
  simp only [List.mem_cons, List.not_mem_nil, or_false, or_self] at him
  subst him
  exact ⟨rfl, rfl, rfl⟩

end X7.Gif
