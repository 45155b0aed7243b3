import Verif.Model.IterChange

/-! Words for C102: programs that change a group while they loop over it. -/

namespace X7.IterChange

/-- How often the generator is asked. -/
def asks (ops : List Step) : ℕ := ops.countP fun | .next => true | .change _ => false

/-- An item was given. -/
def Out.isItem : Out → Bool
  | .item _ _ => true
  | _ => false

/-- No change of the program adds an entry to dict `d` or takes one away; values of entries may be exchanged. -/
def Keeps (cls : ℕ → Str) (d : ℕ) : Heap → List Step → Prop
  | _, [] => True
  | h, .next :: r => Keeps cls d h r
  | h, .change c :: r => ((h.change cls c).dict d).keys = (h.dict d).keys ∧ Keeps cls d (h.change cls c) r

/-- The item for the `n`-th of the entries, or the end if there are no more. -/
def nth (h : Heap) (base : Str) (d n : ℕ) : Out :=
  match (h.dict d).items[n]? with
  | some (_, v) => .item (base ++ '.' :: h.name v) v
  | none => .stop

/-- A program with a generator of `iter_elems`: the results of `next`, and the heap at the end. At every moment dict `d` has a number of
entries other than `n`. -/
inductive Hist (cls : ℕ → Str) (d n : ℕ) : Heap → List Frame → List Out → Heap → List Frame → Prop
  | nil (h fs) : (h.dict d).len ≠ n → Hist cls d n h fs [] h fs
  | change (h fs c outs h' fs') : (h.dict d).len ≠ n → Hist cls d n (h.change cls c) fs outs h' fs' → Hist cls d n h fs outs h' fs'
  | next (h fs gs o outs h' fs') : (h.dict d).len ≠ n → Resume h fs gs o → Hist cls d n h gs outs h' fs' →
      Hist cls d n h fs (o :: outs) h' fs'

/-- The body of a loop that replaces, in group `g`, the element it has got: for each of the given keys and replacements it deletes the
entry and adds the replacement under its own name (model.py:994-998), and asks for the next item. -/
def replacing (names : ℕ → Str) (g : ℕ) : List (Str × ℕ) → List Step
  | [] => []
  | (k, r) :: rest => .change (.del g k) :: .change (.add g (names r) r false false) :: .next :: replacing names g rest

end X7.IterChange
