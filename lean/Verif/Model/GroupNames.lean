import Verif.Py.Basic

/-!
Model of `Group.add` (x7/geom/model.py 911-928) and of the list branch of `Group.__init__` (832-837). Element objects are
numbers; `name` is their mutable attribute `name`, `cls` the name of their class. A dict is the list of its items in insertion
order.
-/

namespace X7.GroupNames

/-- The dict `elems` of one group and the names of all element objects. -/
structure GState where
  elems : List (Str × ℕ)
  name : ℕ → Str

/-- The keys of the dict. -/
def GState.keys (s : GState) : List Str := s.elems.map Prod.fst

/-- model.py:920-922 the loop `while (name_try := '%s#%d' % (name, num)) in self.elems: num += 1`, at most `fuel` rounds. -/
def freshName (keys : List Str) (name : Str) : (fuel num : ℕ) → Option Str
  | 0, _ => none
  | fuel + 1, num =>
    let name_try := name ++ '#' :: fmtNat num
    if name_try ∈ keys then freshName keys name fuel (num + 1) else some name_try

/-- model.py:915-918 the class name without the prefix `Elem`, in lower case. -/
def className (cls : Str) : Str :=
  strLower (if ['E', 'l', 'e', 'm'].isPrefixOf cls then cls.drop 4 else cls)

/-- model.py:912-922 the name under which the element will be stored; `none`: the loop runs on (shown impossible). -/
def pickName (keys : List Str) (cls name : Str) (fixname : Bool) : Option Str :=
  if fixname && hasDot name || decide (name ∈ keys) then
    let name := afterLastDot name
    if name ∈ keys then freshName keys (className cls) (keys.length + 1) 0
    else some name
  else some name

/-- model.py:911-928 `add(name, elem, fixname)`. -/
def add (cls : ℕ → Str) (s : GState) (name : Str) (elem : ℕ) (fixname : Bool) : GState × Except PyErr Unit :=
  match pickName s.keys (cls elem) name fixname with
  | none => (s, .error .recursion)
  | some name =>
    if hasDot name then (s, .error .value)
    else if name ∈ s.keys then (s, .error .value)
    else (⟨s.elems ++ [(name, elem)], Function.update s.name elem name⟩, .ok ())

/-- model.py:832-837 the constructor given a list: `add(elem.name, elem, fix_names)` for each, until one fails. -/
def addAll (cls : ℕ → Str) (fix : Bool) : GState → List ℕ → GState × Except PyErr Unit
  | s, [] => (s, .ok ())
  | s, e :: rest =>
    match add cls s (s.name e) e fix with
    | (s, .ok _) => addAll cls fix s rest
    | (s, .error er) => (s, .error er)

end X7.GroupNames
