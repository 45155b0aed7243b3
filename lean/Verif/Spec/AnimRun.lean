import Verif.Model.AnimRun
import Verif.Spec.Anim

/-! What C96 says about animations in holders and about builders, apart from the code. -/

noncomputable section

namespace X7.AR

open Anim PH

/-- The point moved. -/
def AObj.pt : AObj → ℕ
  | .std a => a.pt
  | .plain p _ => p
  | .generic p _ _ => p

/-- The object read: the target, or the original position of a generic animation. -/
def AObj.reads : AObj → Option ℕ
  | .std a => a.target
  | .plain _ _ => none
  | .generic _ o _ => some o

/-- `AtO h a t p`: with the objects it reads as they are in `h`, animation `a` belongs at `p` at time `t`. A generic animation belongs
where its function says, if the function gives the same for the same time and original position, wherever the point is, and changes
nothing. -/
inductive AtO (h : Heap ℝ) : AObj → ℝ → Pt ℝ → Prop
  | std {a t p} : At h a t p → AtO h (.std a) t p
  | generic {pt orig o t q} {f : GFunc} : Reads h orig o →
      (∀ h2 p, xy h2 orig = .ok o → xy h2 pt = .ok p → f (.num t) orig pt h2 = (h2, .ok [q.x, q.y])) → AtO h (.generic pt orig f) t q

/-- A function that changes no object. -/
def Tame : AObj → Prop
  | .generic pt orig f => ∀ t h, (f t orig pt h).1 = h
  | _ => True

/-- The animations move plain points, what they read does not depend on a point moved, and their functions change nothing. Several
may move the same point. -/
structure Steady (h : Heap ℝ) (l : List AObj) : Prop where
  points : ∀ a ∈ l, ∃ x y n, h[a.pt]? = some (.point x y n)
  reads : ∀ a ∈ l, ∀ g ∈ a.reads, isBasePoint h g ∧ ∀ b ∈ l, ¬ Depends h g b.pt
  tame : ∀ a ∈ l, Tame a

/-- `h'` is `h` with every animated point where the animation of it that was added last belongs at time `t`, and nothing else changed. -/
structure Shown (h : Heap ℝ) (l : List AObj) (t : ℝ) (h' : Heap ℝ) : Prop where
  len : h'.length = h.length
  others : ∀ i, i ∉ l.map AObj.pt → h'[i]? = h[i]?
  last : ∀ pre a post p, l = pre ++ a :: post → a.pt ∉ post.map AObj.pt → AtO h a t p →
    ∃ x y n, h[a.pt]? = some (.point x y n) ∧ h'[a.pt]? = some (.point p.x p.y n)

/-- Before any call. -/
def emptySt {I : Type} : St I := ⟨[], [], [], [], fun _ => none⟩

/-- The animations of holder `k` are `l`, in this order. -/
def Holds {I : Type} (s : St I) (k : ℕ) (l : List AObj) : Prop :=
  ∃ ids, s.holders[k]? = some ids ∧ ids.map (s.anims[·]?) = l.map some

/-- Calls that move no other points than those of `l`: updates of holders and builders whose animations are among `l`, and saving. -/
def Moves {I : Type} (s : St I) (l : List AObj) : Op I → Prop
  | .update k _ => ∃ l', Holds s k l' ∧ l' ⊆ l
  | .buildAll b _ => ∃ bl l', s.builders[b]? = some bl ∧ Holds s bl.holder l' ∧ l' ⊆ l
  | .run b _ _ => ∃ bl l', s.builders[b]? = some bl ∧ Holds s bl.holder l' ∧ l' ⊆ l
  | .save _ _ _ _ => True
  | _ => False

/-- The animations given to `add` for holder `k`, in the order of the calls. -/
def addedTo {I : Type} (k : ℕ) (ops : List (Op I)) : List ℕ :=
  ops.filterMap fun o => match o with
    | .add k' a => if k' = k then some a else none
    | _ => none

end X7.AR
