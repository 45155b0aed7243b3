import Verif.Model.ImageInfo

/-!
What the listing of an image should say.
-/

namespace X7.Info
variable {V : Type}

/-- How a row of pixels is shown: every pixel that is not `zero` by itself; a single `zero` by itself; two or more in a row as one and
dots. -/
inductive Shows (zero : V) : List V → List (Item V) → Prop
  | nil : Shows zero [] []
  | pix {v : V} {l : List V} {is : List (Item V)} (hv : v ≠ zero) (h : Shows zero l is) : Shows zero (v :: l) (.pix v :: is)
  | one {l : List V} {is : List (Item V)} (hl : l.head? ≠ some zero) (h : Shows zero l is) : Shows zero (zero :: l) (.pix zero :: is)
  | many {l : List V} {is : List (Item V)} (n : ℕ) (hl : l.head? ≠ some zero) (h : Shows zero l is) :
      Shows zero (List.replicate (n + 2) zero ++ l) (.pix zero :: .dots :: is)

/-- A list cut after nineteen entries, with a mark for the rest. -/
def cut {α : Type} (l : List α) (mark : α) : List α := l.take 19 ++ if 19 < l.length then [mark] else []

/-- The bytes that are not zero, with their places. -/
def usedBytes (bytes : List ℕ) : List (Line V) :=
  ((bytes.zipIdx).filter fun p => p.1 ≠ 0).map fun p => .byte p.2 p.1

/-- The colours that are not all zero, with their numbers, when channel `cn` of colour `n` is `chan n cn`. -/
def usedColours (chan : ℕ → ℕ → ℕ) (channels len : ℕ) : List (Line V) :=
  ((List.range len).filter fun n => ((List.range channels).map (chan n)).any (· ≠ 0)).map fun n =>
    .colour n ((List.range channels).map (chan n))

end X7.Info
