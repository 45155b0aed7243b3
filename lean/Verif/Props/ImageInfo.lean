import Verif.Lemmas.ImageInfo
import Mathlib.Data.List.Perm.Subperm

/-!
C122: what `image_info` and `image_info_palette` print.
-/

namespace X7.Info
variable {V : Type} [DecidableEq V]

/-- **C122.** A row is shown pixel by pixel, except that two or more pixels in a row that equal the first pixel of the image are shown
as one and dots. -/
theorem C122_row (zero : V) (pixels : List V) : Shows zero pixels (rowItems zero pixels) := by
  obtain ⟨is, h, hs⟩ := (fold_shows zero pixels []).1.1 (by simp) (by simp)
  rw [rowItems, h]
  exact hs

/-- What is shown determines the row but for the lengths of the runs shown with dots: two rows that are shown alike have the same
pixels when each such run is shortened to two. -/
theorem C122_row_determines (zero : V) (a b : List V) (h : rowItems zero a = rowItems zero b) :
    a.filter (· ≠ zero) = b.filter (· ≠ zero) ∧ (.dots ∉ rowItems zero a → a = b) := by
  have key : ∀ {l : List V} {is : List (Item V)}, Shows zero l is →
      l.filter (· ≠ zero) = is.filterMap (fun x => match x with
        | .pix v => if v ≠ zero then some v else none
        | .dots => none) ∧ (.dots ∉ is → is = l.map .pix) := by
    intro l is hs
    induction hs with
    | nil => simp
    | pix hv _ ih =>
      obtain ⟨i1, i2⟩ := ih
      refine ⟨by simpa [hv] using i1, fun hd => ?_⟩
      rw [i2 fun hm => hd (by simp [hm])]; rfl
    | one _ _ ih =>
      obtain ⟨i1, i2⟩ := ih
      refine ⟨by simpa using i1, fun hd => ?_⟩
      rw [i2 fun hm => hd (by simp [hm])]; rfl
    | many n _ _ ih =>
      obtain ⟨i1, i2⟩ := ih
      refine ⟨by simpa [List.filter_append, List.filter_replicate] using i1, fun hd => absurd (by simp) hd⟩
  have ha := key (C122_row zero a)
  have hb := key (C122_row zero b)
  refine ⟨by rw [ha.1, hb.1, h], fun hd => ?_⟩
  have e := ha.2 hd
  rw [h] at hd e
  have e2 := hb.2 hd
  rw [e] at e2
  exact List.map_injective_iff.2 (fun x y hxy => by simpa using hxy) e2

/-- Which bytes of a palette are listed: the first nineteen that are not zero, each with its place, and a mark if there are more. -/
theorem C122_bytes (bytes : List ℕ) : bytesLoop (V := V) 0 bytes (-10) = cut (usedBytes bytes) .moreBytes := by
  have := bytesLoop_eq (V := V) bytes 0 0
  simp only [Nat.cast_zero, zero_sub, Nat.sub_zero, Nat.zero_le, true_and, Nat.zero_add] at this
  rw [this, cut, usedBytes, List.length_map]

/-- Which colours are listed when `getpalette()` has a number for every channel: the first nineteen that are not all zero, and a mark if
there are more. Channel `cn` of colour `n` is taken from place `n + 256 * cn`. -/
theorem C122_colours (cols : List ℕ) (channels len : ℕ) (chan : ℕ → ℕ → ℕ)
    (h : ∀ n < len, ∀ cn < channels, cols[n + cn * 256]? = some (chan n cn)) :
    coloursLoop (V := V) cols channels (List.range len) 0 = (cut (usedColours chan channels len) .moreColours, none) := by
  have := coloursLoop_eq (V := V) cols channels chan (List.range len) 0 fun n hn => h n (List.mem_range.1 hn)
  simp only [Nat.cast_zero, Nat.sub_zero, Nat.zero_le, true_and, Nat.zero_add] at this
  rw [this, cut, usedColours, List.length_map]

/-- `getpalette()` lists colour after colour, but channel after channel is what the function reads: the first colour of this palette is
(10, 20, 30) and is shown as (10, 0, 0). -/
theorem C122_interleaved_counterexample :
    let cols : List ℕ := 10 :: 20 :: 30 :: List.replicate 765 0
    (∀ cn < 3, cols[0 * 3 + cn]? = some (10 * (cn + 1))) ∧
      Line.colour 0 [10, 0, 0] ∈ (coloursLoop (V := ℕ) cols 3 (List.range 256) 0).1 ∧
      Line.colour 0 [10, 20, 30] ∉ (coloursLoop (V := ℕ) cols 3 (List.range 256) 0).1 := by
  intro cols
  have hlen : ∀ i < 768, cols[i]? = some (if i < 3 then 10 * (i + 1) else 0) := by
    intro i hi
    match i with
    | 0 => rfl
    | 1 => rfl
    | 2 => rfl
    | i + 3 =>
      simp only [cols, List.getElem?_cons_succ]
      rw [List.getElem?_replicate, if_pos (by omega), if_neg (by omega)]
  have h := C122_colours (V := ℕ) cols 3 256 (fun n cn => if n + cn * 256 < 3 then 10 * (n + cn * 256 + 1) else 0)
    (fun n hn cn hc => hlen _ (by omega))
  refine ⟨fun cn hc => by rw [Nat.zero_mul, Nat.zero_add, hlen _ (by omega), if_pos hc], ?_, ?_⟩
  · rw [h, cut]
    apply List.mem_append_left
    have hr : List.range 256 = 0 :: (List.range 255).map Nat.succ := List.range_succ_eq_map
    rw [usedColours, hr, List.filter_cons_of_pos (by simp [List.range_succ]), List.map_cons]
    rw [show (19 : ℕ) = 18 + 1 from rfl, List.take_succ_cons]
    exact List.mem_cons.2 (.inl rfl)
  · rw [h, cut]
    intro hm
    rcases List.mem_append.1 hm with hm | hm
    · obtain ⟨n, -, hn⟩ := List.mem_map.1 (List.mem_of_mem_take hm)
      simp only [Line.colour.injEq] at hn
      obtain ⟨rfl, hn⟩ := hn
      simp [List.range_succ] at hn
    · split at hm <;> simp at hm

/-- With a palette of four channels and the 768 numbers that `getpalette()` gives, the listing ends in IndexError at the first
colour, and no row of the image is shown. -/
theorem C122_four_channels (im : Im V) (pal : Pal) (hp : im.palette = some pal) (h4 : pal.mode.length = 4)
    (hb : 4 ≤ pal.bytes.length) (hc : im.colours.length ≤ 768) :
    imageInfo im = ([.image im.mode im.bbox, .info, .colours, .palette, .mode pal.mode 4, .raw pal.rawmode,
      .len (pal.bytes.length / 4)] ++ cut (usedBytes pal.bytes) .moreBytes, some .index) := by
  have hcol : colourOf im.colours 4 0 = .error .index := by
    have h3 : im.colours[0 + 3 * 256]? = none := List.getElem?_eq_none (by omega)
    unfold colourOf
    rw [show List.range 4 = [0, 1, 2, 3] from rfl]
    simp only [List.mapM_cons, List.mapM_nil, h3]
    cases im.colours[0 + 0 * 256]? <;> cases im.colours[0 + 1 * 256]? <;> cases im.colours[0 + 2 * 256]? <;> rfl
  obtain ⟨k, hk⟩ : ∃ k, pal.bytes.length / 4 = k + 1 := ⟨pal.bytes.length / 4 - 1, by omega⟩
  have hl : coloursLoop (V := V) im.colours 4 (List.range (k + 1)) 0 = ([], some .index) := by
    rw [List.range_succ_eq_map, coloursLoop, hcol]
  simp only [imageInfo, imageInfoPalette, hp, h4, hk, hl]
  rw [if_neg (by norm_num)]
  simp [C122_bytes]

/-- For an image without a palette (any mode but P) the listing ends in AttributeError, and no row is shown. -/
theorem C122_no_palette (im : Im V) (hp : im.palette = none) :
    imageInfo im = ([.image im.mode im.bbox, .info, .colours, .palette], some .attribute) := by
  simp [imageInfo, imageInfoPalette, hp]

/-- The listing of a palette image: the palette, the first pixel, and the rows from two above the top of the bounding box to three below
it, as far as the image has them, in order, each up to 256 pixels. -/
theorem C122_listing (im : Im V) (pal : Pal) (chan : ℕ → ℕ → ℕ) (hp : im.palette = some pal) (hm : pal.mode ≠ "")
    (hc : ∀ n < pal.bytes.length / pal.mode.length, ∀ cn < pal.mode.length, im.colours[n + cn * 256]? = some (chan n cn))
    (hx : 0 < im.xs) (hy : 0 < im.ys) (top : ℕ) (ht : top = match im.bbox with
      | some b => b.2.1
      | none => 0) :
    ∃ rows : List ℕ,
      imageInfo im = ([.image im.mode im.bbox, .info, .colours, .palette, .mode pal.mode pal.mode.length, .raw pal.rawmode,
          .len (pal.bytes.length / pal.mode.length)] ++ cut (usedBytes pal.bytes) .moreBytes ++
        cut (usedColours chan pal.mode.length (pal.bytes.length / pal.mode.length)) .moreColours ++
        .zero (im.px 0 0) :: rows.map (fun r => .row r (rowItems (im.px 0 0) ((List.range (min 256 im.xs)).map fun x => im.px x r))),
        none) ∧
      rows.Pairwise (· < ·) ∧ ∀ r, r ∈ rows ↔ r < im.ys ∧ top ≤ r + 2 ∧ r ≤ top + 3 := by
  have h0 : pal.mode.length ≠ 0 := by
    intro h
    exact hm (String.length_eq_zero_iff.1 h)
  have hcl := C122_colours (V := V) im.colours pal.mode.length (pal.bytes.length / pal.mode.length) chan hc
  refine ⟨List.range' (top - 2) (min im.ys (top + 4) - (top - 2)), ?_, List.pairwise_lt_range', ?_⟩
  · rw [ht]
    simp only [imageInfo, imageInfoPalette, hp, if_neg h0, hcl, C122_bytes]
    rw [if_neg (by omega)]
    cases im.bbox with
    | none => simp
    | some b => simp
  · intro r
    rw [List.mem_range'_1]
    omega

/-- So at most six rows are shown, and if the bounding box begins inside the image its first row is one of them. -/
theorem C122_rows (rows : List ℕ) (ys top : ℕ) (hs : rows.Pairwise (· < ·))
    (hr : ∀ r, r ∈ rows ↔ r < ys ∧ top ≤ r + 2 ∧ r ≤ top + 3) : rows.length ≤ 6 ∧ (top < ys → top ∈ rows) := by
  refine ⟨?_, fun h => (hr top).2 ⟨h, by omega, by omega⟩⟩
  have hnd : rows.Nodup := hs.imp fun h => by omega
  have hsub : rows ⊆ List.range' (top - 2) 6 := by
    intro r h
    rw [List.mem_range'_1]
    have := (hr r).1 h
    omega
  have := (List.subperm_of_subset hnd hsub).length_le
  simpa using this

/-! ### Cases -/

example : rowItems 0 [0, 0, 0, 5, 0, 7, 7, 0, 0] =
    [.pix 0, .dots, .pix 5, .pix 0, .pix 7, .pix 7, .pix 0, .dots] := by decide

/-- A palette image that meets the hypotheses of `C122_listing`. -/
example : (imageInfo (V := ℕ) ⟨"P", some (0, 1, 2, 2), 2, 2, fun x y => x * y, some ⟨"RGB", some "RGB", [1, 2, 3]⟩,
    List.replicate 768 9⟩).2 = none := by
  obtain ⟨rows, h, -⟩ := C122_listing (V := ℕ) ⟨"P", some (0, 1, 2, 2), 2, 2, fun x y => x * y, some ⟨"RGB", some "RGB", [1, 2, 3]⟩,
    List.replicate 768 9⟩ ⟨"RGB", some "RGB", [1, 2, 3]⟩ (fun _ _ => 9) rfl (by decide)
    (fun n hn cn hc => by
      have h3 : "RGB".length = 3 := by decide
      simp only [h3] at hn hc
      simp only [List.length_cons, List.length_nil] at hn
      rw [List.getElem?_replicate, if_pos (by omega)]) (by simp) (by simp) 1 rfl
  rw [h]

end X7.Info
