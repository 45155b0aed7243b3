import Verif.Model.MultiHeap
import Verif.Spec.MorphHeap

/-!
What C110 says about multi-step morphs among curves that change, apart from the code: curves are independent values, a multi-step
morph is a list of steps with the numbers of curves.
-/

noncomputable section

namespace X7.Multi

open CH Anim

/-- The curves as values; for each morph and multi-step morph the numbers of its curves. -/
structure Values where
  st : State
  morphs : List MH.MorphObj
  multis : List MultiObj

/-- Curve `i` is turned: the control point nearest to the corner of its bounding box becomes the first one. -/
def turnVal (s : State) (i : ℕ) : State × Option PyErr :=
  match s.curves[i]? with
  | some c =>
    match s.xfs[c.xf]? with
    | some m =>
      match lowest ⟨c.name, c.pb, c.closed, m⟩ c.cps with
      | .ok ll => s.step (.turn i ll)
      | .error e => (s, some e)
    | none => (s, some .attribute)
  | none => (s, some .attribute)

/-- Each of these curves gets `n` control points, if it has less, and is turned. -/
def prepVal (force : Bool) (n : ℕ) : List ℕ → State → State × Option PyErr
  | [], s => (s, none)
  | i :: is, s =>
    thenDo (MH.padVal s i (n - MH.sizeVal s i)) fun s1 =>
      thenDo (if force then turnVal s1 i else (s1, none)) fun s2 => prepVal force n is s2

/-- A copy of the source is made; it and the targets are prepared; then another copy is made. -/
def buildVal (s : State) (i : ℕ) (ts : List ℕ) (force : Bool) : State × Option PyErr :=
  thenDo (s.step (.copy i)) fun s1 =>
    thenDo (prepVal force (((s.curves.length :: ts).map (MH.sizeVal s1)).foldl max 0) (s.curves.length :: ts) s1) fun s2 =>
      s2.step (.copy s.curves.length)

/-- The curve of a multi-step morph is hidden or becomes the mixture of the present values of two of its curves. -/
def updVal (s : State) (m : MultiObj) (t : TVal) : State × Option PyErr :=
  match t with
  | .none => MH.updVal s ⟨m.morph, m.morph, m.morph⟩ .none
  | .pair _ _ => (s, some .type)
  | .num t =>
    match pickStop m.stops t with
    | .error e => (s, some e)
    | .ok (lo, hi, t) => MH.updVal s ⟨lo, m.morph, hi⟩ (.num t)

/-- What each call does to the values. -/
def Values.step (v : Values) : Call → Values × Option PyErr
  | .base a => (⟨(MH.Values.step ⟨v.st, v.morphs⟩ a).1.st, (MH.Values.step ⟨v.st, v.morphs⟩ a).1.morphs, v.multis⟩,
      (MH.Values.step ⟨v.st, v.morphs⟩ a).2)
  | .multi i targets force found =>
    if i < v.st.curves.length ∧ ∀ x ∈ targets, x.2 < v.st.curves.length then
      match buildVal v.st i (targets.map Prod.snd) force with
      | (s1, some e) => ({ v with st := s1 }, some e)
      | (s1, none) =>
        match found with
        | .error e => ({ v with st := s1 }, some e)
        | .ok 0 => ({ v with st := s1 }, some .morph)
        | .ok (_ + 1) =>
          (⟨s1, v.morphs, v.multis ++ [⟨i, v.st.curves.length + 1, (0, v.st.curves.length) :: targets⟩]⟩, none)
    else (v, some .attribute)
  | .update k t =>
    match v.multis[k]? with
    | some m => (⟨(updVal v.st m t).1, v.morphs, v.multis⟩, (updVal v.st m t).2)
    | none => (v, some .attribute)

/-- A history of calls. -/
def Values.run (v : Values) : List Call → Values × List (Option PyErr)
  | [] => (v, [])
  | a :: as => (((v.step a).1.run as).1, (v.step a).2 :: ((v.step a).1.run as).2)

/-- The present values of all objects. -/
def World.values (w : World) : Option Values :=
  match vals w.heap with
  | some s => some ⟨s, w.morphs, w.multis⟩
  | none => none

/-- What histories keep: as for morphs; the own curve of a multi-step morph is none of its curves, and its points and vectors are held
only once. -/
structure Sound (w : World) : Prop where
  base : MH.Sound ⟨w.heap, w.morphs⟩
  multis : ∀ m ∈ w.multis, m.orig < m.morph ∧ m.stops ≠ [] ∧ (∀ x ∈ m.stops, x.2 < m.morph) ∧ m.morph < w.heap.curves.length ∧
    MH.Private w.heap m.morph

/-- No curve of a morph or multi-step morph is reversed. -/
def Values.Allowed (v : Values) : List Call → Prop
  | [] => True
  | a :: as => (∀ m ∈ v.morphs, a ≠ .base (.curve (.reversed m.morph))) ∧ (∀ m ∈ v.multis, a ≠ .base (.curve (.reversed m.morph))) ∧
      (v.step a).1.Allowed as

/-- The curves that may get control points by a call. -/
def Call.mayGrow : Call → List ℕ
  | .base a => a.mayGrow
  | .multi _ targets _ _ => targets.map Prod.snd
  | .update _ _ => []

/-- The curves whose outline may be changed by a call. -/
def Call.redraws (v : Values) : Call → Option ℕ
  | .base a => a.redraws ⟨v.st, v.morphs⟩
  | .multi _ _ _ _ => none
  | .update k _ => v.multis[k]?.map MultiObj.morph

/-- Curve `k` is never redrawn in a history. -/
def Values.Untouched (v : Values) (k : ℕ) : List Call → Prop
  | [] => True
  | a :: as => a.redraws v ≠ some k ∧ (v.step a).1.Untouched k as

/-- Number `k` of control point `i` of curve `l`. -/
def number (s : State) (i : ℕ) (k : Fin 6) (l : ℕ) : ℝ :=
  match s.curves[l]? with
  | some c => Morph.coord k (c.cps.getD i ⟨⟨0, 0⟩, ⟨0, 0⟩, ⟨0, 0⟩, ""⟩)
  | none => 0

/-- No control point is nearer to the lower left corner of the bounding box than the first. -/
def StartsLow (h : Hdr) (cps : List (CP ℝ)) : Prop :=
  ∃ xl yl xh yh first rest, Elem.bbox (.curve h cps) = .ok (.box xl yl xh yh) ∧ cps = first :: rest ∧
    ∀ q ∈ rest, hypot (xl - first.c.x) (yl - first.c.y) ≤ hypot (xl - q.c.x) (yl - q.c.y)

end X7.Multi
