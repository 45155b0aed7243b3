import Verif.Model.Stage
import Verif.Spec.MultiHeap
import Verif.Spec.ElemNames

/-!
What C111 says about a tree with morphs in it, apart from the code: which curve is seen at which place of the tree.
-/

noncomputable section

namespace X7.Stage

open CH Anim

mutual
/-- The curves of a tree with the keys that lead to them. -/
def slots : Node → List (List Str × ℕ)
  | .curve k => [([], k)]
  | .shape _ => []
  | .group _ _ es => slotsAll es
def slotsAll : List (Str × Node) → List (List Str × ℕ)
  | [] => []
  | (k, e) :: rest => (slots e).map (fun x => (k :: x.1, x.2)) ++ slotsAll rest
end

mutual
/-- All else in a tree, in order, with the keys that lead there: shapes, and groups with their headers. -/
def others : Node → List (List Str × (Elem ⊕ (Hdr × Bool)))
  | .curve _ => []
  | .shape e => [([], .inl e)]
  | .group h hidden es => ([], .inr (h, hidden)) :: othersAll es
def othersAll : List (Str × Node) → List (List Str × (Elem ⊕ (Hdr × Bool)))
  | [] => []
  | (k, e) :: rest => (others e).map (fun x => (k :: x.1, x.2)) ++ othersAll rest
end

/-- Shapes with holes cannot be searched by `replace`. -/
def plainShape : Elem → Prop
  | .holes _ _ _ => False
  | _ => True

/-- The name of an element, given the names of curves. -/
def nameOf (nm : ℕ → Str) : Node → Str
  | .curve k => nm k
  | .shape e => e.hdr.name
  | .group h _ _ => h.name

mutual
/-- What `Group.add` keeps up (C42): in every group the keys are distinct, dot-free and the names of the elements. There are no shapes
with holes. -/
def Keyed (nm : ℕ → Str) : Node → Prop
  | .curve _ => True
  | .shape e => plainShape e
  | .group _ _ es => (es.map Prod.fst).Nodup ∧ KeyedAll nm es
def KeyedAll (nm : ℕ → Str) : List (Str × Node) → Prop
  | [] => True
  | (k, e) :: rest => (k = nameOf nm e ∧ '.' ∉ k ∧ Keyed nm e) ∧ KeyedAll nm rest
end

/-- Curves as values, morphs, multi-step morphs, and the tree. -/
structure Values where
  objs : Multi.Values
  root : Node

/-- What a curve looks like. -/
def lookVal (s : State) (k : ℕ) : Option Looks :=
  match s.curves[k]? with
  | some c => some ⟨c.name, c.pb, c.closed, s.xfs[c.xf]?, some c.cps⟩
  | none => none

/-- Two curves look the same. -/
def equalVal (s : State) (a b : ℕ) : Bool := by
  classical exact decide (lookVal s b = lookVal s a)

/-- The name of a curve. -/
def nameVal (s : State) (k : ℕ) : Str :=
  match s.curves[k]? with
  | some c => c.name
  | none => []

/-- What each call does to the values. -/
def Values.step (v : Values) : Call → Values × Option PyErr
  | .curve op => (⟨(v.objs.step (.base (.curve op))).1, v.root⟩, (v.objs.step (.base (.curve op))).2)
  | .morph i j force =>
    match v.objs.step (.base (.morph i j force (.ok 1))) with
    | (v1, some e) => (⟨v1, v.root⟩, some e)
    | (v1, none) =>
      match replace (equalVal v1.st i) v.objs.st.curves.length (nameVal v1.st v.objs.st.curves.length) v.root with
      | (root, found) => (⟨(v.objs.step (.base (.morph i j force found))).1, root⟩, (v.objs.step (.base (.morph i j force found))).2)
  | .multi i ts force =>
    match v.objs.step (.multi i ts force (.ok 1)) with
    | (v1, some e) => (⟨v1, v.root⟩, some e)
    | (v1, none) =>
      match replace (equalVal v1.st i) (v.objs.st.curves.length + 1) (nameVal v1.st (v.objs.st.curves.length + 1)) v.root with
      | (root, found) => (⟨(v.objs.step (.multi i ts force found)).1, root⟩, (v.objs.step (.multi i ts force found)).2)
  | .update k t => (⟨(v.objs.step (.base (.update k t))).1, v.root⟩, (v.objs.step (.base (.update k t))).2)
  | .updateMulti k t => (⟨(v.objs.step (.update k t)).1, v.root⟩, (v.objs.step (.update k t)).2)
  | .restore k =>
    match v.objs.morphs[k]? with
    | some m =>
      match replace (equalVal v.objs.st m.morph) m.orig (nameVal v.objs.st m.orig) v.root with
      | (root, found) => (⟨v.objs, root⟩, errIn found)
    | none => (v, some .attribute)
  | .restoreMulti k =>
    match v.objs.multis[k]? with
    | some m =>
      match replace (equalVal v.objs.st m.morph) m.orig (nameVal v.objs.st m.orig) v.root with
      | (root, found) => (⟨v.objs, root⟩, errIn found)
    | none => (v, some .attribute)

/-- A history of calls. -/
def Values.run (v : Values) : List Call → Values × List (Option PyErr)
  | [] => (v, [])
  | a :: as => (((v.step a).1.run as).1, (v.step a).2 :: ((v.step a).1.run as).2)

/-- The present values of all objects. -/
def World.values (w : World) : Option Values :=
  match w.objs.values with
  | some v => some ⟨v, w.root⟩
  | none => none

/-- No curve of a morph or multi-step morph is reversed. -/
def Values.Allowed (v : Values) : List Call → Prop
  | [] => True
  | a :: as => (∀ m ∈ v.objs.morphs, a ≠ .curve (.reversed m.morph)) ∧ (∀ m ∈ v.objs.multis, a ≠ .curve (.reversed m.morph)) ∧
      (v.step a).1.Allowed as

/-- The source of a morph that is made. -/
def Call.source : Call → Option ℕ
  | .morph i _ _ => some i
  | .multi i _ _ => some i
  | _ => none

/-- The curve that is overwritten by another one, with its name. -/
def Call.renames : Call → Option ℕ
  | .curve op => op.restores
  | _ => none

/-- Which curve is seen in the place of each of the first ones: a morph that is made without an exception puts its own curve in the place of
its source; restoring it brings the source back, if the curve seen there is the one of the morph or looks the same. -/
def Values.shown (v : Values) (f : ℕ → ℕ) : Call → ℕ → ℕ
  | .morph i j force => if (v.step (.morph i j force)).2 = none then Function.update f i v.objs.st.curves.length else f
  | .multi i ts force => if (v.step (.multi i ts force)).2 = none then Function.update f i (v.objs.st.curves.length + 1) else f
  | .restore k =>
    match v.objs.morphs[k]? with
    | some m => if equalVal v.objs.st m.morph (f m.orig) then Function.update f m.orig m.orig else f
    | none => f
  | .restoreMulti k =>
    match v.objs.multis[k]? with
    | some m => if equalVal v.objs.st m.morph (f m.orig) then Function.update f m.orig m.orig else f
    | none => f
  | .curve _ => f
  | .update _ _ => f
  | .updateMulti _ _ => f

/-- The same through a history. -/
def Values.shownAfter (v : Values) (f : ℕ → ℕ) : List Call → ℕ → ℕ
  | [] => f
  | a :: as => (v.step a).1.shownAfter (v.shown f a) as

/-- A group whose curves have different names, before any morph is made. -/
structure Start (v : Values) : Prop where
  morphs : v.objs.morphs = []
  multis : v.objs.multis = []
  group : ∃ h hidden es, v.root = .group h hidden es
  keyed : Keyed (nameVal v.objs.st) v.root
  valid : ∀ x ∈ slots v.root, x.2 < v.objs.st.curves.length
  names : ((slots v.root).map fun x => nameVal v.objs.st x.2).Nodup

/-- The tree is the old one with `f k` in the place of curve `k`, except for the order in groups. -/
def Shows (f : ℕ → ℕ) (old now : Node) : Prop :=
  (slots now).Perm ((slots old).map fun x => (x.1, f x.2)) ∧ others now = others old

mutual
/-- The elements of the tree with their values. -/
def toElem (s : State) : Node → Elem
  | .curve k =>
    match s.curves[k]? with
    | some c => .curve ⟨c.name, c.pb, c.closed, (s.xfs[c.xf]?).getD Mat3.one⟩ c.cps
    | none => .curve ⟨[], ⟨none, none⟩, false, Mat3.one⟩ []
  | .shape e => e
  | .group h hidden es => .group h hidden (toElems s es)
def toElems (s : State) : List (Str × Node) → List (Str × Elem)
  | [] => []
  | (k, e) :: rest => (k, toElem s e) :: toElems s rest
end

/-- Neither a curve nor a group. -/
def isShape : Elem → Prop
  | .curve _ _ => False
  | .group _ _ _ => False
  | _ => True

end X7.Stage
