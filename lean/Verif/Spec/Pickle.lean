import Verif.Model.Pickle
import Verif.Spec.Dump

/-! What pickled text means and how it is laid out. -/

noncomputable section

namespace X7.Dump

/-- The value a text stands for: one expression spread over lines. There are no variables. -/
def readValue (lines : List (ℕ × List Tok)) : Option Val :=
  match parseAll (lines.flatMap Prod.snd) with
  | some e => eval (fun _ => none) e
  | none => none

/-- A value equal to an item of a list: an equal element, or a tuple of the same text, an equal element and the same transform. -/
inductive SameItem : PItem → Val → Prop
  | elem {e e' : DElem} : Same e e' → SameItem (.elem e) (.elem e')
  | triple {s : Str} {e e' : DElem} {t : Mat3 ℝ} : Same e e' → SameItem (.triple s e t) (.tuple [.str s, .elem e', .xf t])

/-- A value equal to the data. -/
inductive SameData : PData → Val → Prop
  | elem {e e' : DElem} : Same e e' → SameData (.elem e) (.elem e')
  | list {l : List PItem} {vs : List Val} : List.Forall₂ SameItem l vs → SameData (.list l) (.list vs)

/-- Data `dump` can write: its elements are, and its transforms are affine. -/
def PItem.Ok : PItem → Prop
  | .elem e => e.Ok
  | .triple _ e t => e.Ok ∧ t.Affine
  | .other => True

def PData.Ok : PData → Prop
  | .elem e => e.Ok
  | .list l => ∀ d ∈ l, d.Ok
  | .other => True

/-- Data the pickler handles: an element, a list of elements or a list of tuples. -/
def PData.Handled : PData → Prop
  | .elem _ => True
  | .list l => (∀ d ∈ l, ∃ e, d = .elem e) ∨ (∀ d ∈ l, ∃ s e t, d = .triple s e t)
  | .other => False

/-- Neither relative points nor relative vectors. -/
def DPt.Abs : DPt → Prop
  | .point _ _ _ => True
  | _ => False

def DVec.Abs : DVec → Prop
  | .vec _ _ => True
  | _ => False

def DCp.Abs (c : DCp) : Prop := c.c.Abs ∧ c.dl.Abs ∧ c.dr.Abs

mutual
/-- No relative point or vector anywhere in the element. -/
def DElem.Abs : DElem → Prop
  | .curve _ cps => ∀ c ∈ cps, c.Abs
  | .rect _ p q => p.Abs ∧ q.Abs
  | .rrect _ p q _ => p.Abs ∧ q.Abs
  | .ellipse _ p q => p.Abs ∧ q.Abs
  | .group _ _ elems points => AbsAll elems ∧ ∀ x ∈ points, x.2.Abs
  | .holes _ o is => o.Abs ∧ AbsIn is
def AbsAll : List (Str × DElem) → Prop
  | [] => True
  | (_, e) :: rest => e.Abs ∧ AbsAll rest
def AbsIn : List DElem → Prop
  | [] => True
  | e :: rest => e.Abs ∧ AbsIn rest
end

def PItem.Abs : PItem → Prop
  | .elem e => e.Abs
  | .triple _ e _ => e.Abs
  | .other => True

def PData.Abs : PData → Prop
  | .elem e => e.Abs
  | .list l => ∀ d ∈ l, d.Abs
  | .other => True

/-- The words that are not names of classes: constants and the names of keyword arguments. -/
def plainWords : List Str :=
  ["None", "True", "False", "closed", "xform", "control_points", "elems", "p1", "p2", "radius", "outside", "inside"].map String.toList

/-- Every word of the text is a constant, the name of an argument, or listed in `table`. -/
def WordsIn (table : List Str) (lines : List (ℕ × List Tok)) : Prop :=
  ∀ l ∈ lines, ∀ s, Tok.id s ∈ l.2 → s ∈ plainWords ∨ s ∈ table

end X7.Dump
