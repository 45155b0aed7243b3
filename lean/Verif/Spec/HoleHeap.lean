import Verif.Model.HoleHeap

noncomputable section

namespace X7.HH

/-- Object `p` is the outside or one of the holes of shape `i`. -/
def Part (w : World) (i p : ℕ) : Prop :=
  ∃ name pb x closed o l, w.items[i]? = some ⟨name, pb, x, .holes closed o l⟩ ∧ (p = o ∨ ∃ is, w.lists[l]? = some is ∧ p ∈ is)

/-- Shape `i` has the list object `l`. -/
def HasList (w : World) (i l : ℕ) : Prop := ∃ name pb x closed o, w.items[i]? = some ⟨name, pb, x, .holes closed o l⟩

/-- Objects `i` and `j` have the same transform object. -/
def SameXf (w : World) (i j : ℕ) : Prop := ∃ a b, w.items[i]? = some a ∧ w.items[j]? = some b ∧ a.xf = b.xf

/-- What `i` draws on a canvas with matrix `m`. -/
def pic (cfg : DCfg) (w : World) (i : ℕ) (m : Mat3 ℝ) : Except PyErr (List Path) := (draw cfg w i ⟨m, none, []⟩).2

/-- The call may change what object `i` draws: it writes the object, the list of its holes, the points of a part, or a transform object of
it or of a part. The pens of parts do not count. -/
def Changes (w : World) (i : ℕ) : Op → Prop
  | .mkHoles _ _ o l _ => isLeaf w i = true ∧ (i = o ∨ ∃ is, w.lists[l]? = some is ∧ i ∈ is)
  | .setList l _ => HasList w i l
  | .setPen j _ => j = i
  | .setXf j _ => SameXf w i j ∨ ∃ p, Part w i p ∧ SameXf w p j
  | .edit j _ _ _ _ => j = i ∨ Part w i j
  | .setOutside j _ => j = i
  | .setInside j _ => j = i
  | .restoreHoles j _ => j = i
  | _ => False

/-- No call of the history changes what object `i` draws. -/
def Spared (i : ℕ) : World → List Op → Prop
  | _, [] => True
  | w, op :: rest => ¬ Changes w i op ∧ Spared i (step w op).1 rest

/-- The call moves nothing, and writes neither shape `i` nor one of its parts nor its list of holes. -/
def Avoids (w : World) (i : ℕ) : Op → Prop
  | .setList l _ => ¬ HasList w i l
  | .setXf _ _ => False
  | .setPen j _ => ¬ (j = i ∨ Part w i j)
  | .edit j _ _ _ _ => ¬ (j = i ∨ Part w i j)
  | .setOutside j _ => ¬ (j = i ∨ Part w i j)
  | .setInside j _ => ¬ (j = i ∨ Part w i j)
  | .restoreHoles j _ => ¬ (j = i ∨ Part w i j)
  | _ => True

/-- The call moves nothing and writes only objects in `S` and lists in `L`; it may read any. -/
def OnlyNames (S L : ℕ → Prop) : Op → Prop
  | .setList l _ => L l
  | .setXf _ _ => False
  | .setPen j _ => S j
  | .edit j _ _ _ _ => S j
  | .setOutside j _ => S j
  | .setInside j _ => S j
  | .restoreHoles j _ => S j
  | _ => True

/-- The same but for the pen. -/
def SameButPen (e e' : Elem) : Prop := ∃ pb, e' = e.setPb pb

/-- `copy()` of a part works: it is not an open curve with a filled pen. -/
def Copies : Elem → Prop
  | .curve h _ => ¬ (h.pb.filled = true ∧ h.closed = false)
  | _ => True

end X7.HH
