import Verif.Model.BziGraph
import Verif.Model.Dump

/-!
Model of `BziGraph` (x7/geom/bezier.py 205-328) as an object with a history: the edge lists of the nodes are stored, as in the code, and
change with every call. Model/BziGraph has the same graph with these lists derived from the edges.
-/

namespace X7.Bzi

variable {V D : Type} [DecidableEq V]

/-- bezier.py:208-211, 238-250, 273-275 a `BziGraph` with its nodes, in the order of the dict, each with its list of edges, the edges, their
names and the marks. Edges are named by their position in `graph.edges`. -/
structure GS (V D : Type) where
  nodes : List (V × List ℕ)
  edges : List (Edge V (List D))
  names : List Str
  removed : Finset ℕ

/-- bezier.py:273-275 `BziGraph()`. -/
def GS.empty : GS V D := ⟨[], [], [], ∅⟩

/-- The keys of `nodes`. -/
def GS.keys (s : GS V D) : List V := s.nodes.map Prod.fst

/-- The graph as it is seen by the walk, Model/BziGraph. -/
def GS.graph (s : GS V D) : Graph V (List D) := ⟨s.keys, s.edges⟩

/-- The calls and assignments of `bez_self_intersect`. -/
inductive GOp (V D : Type)
  | node (xy : V) (create : Bool)
  | addEdge (left_left : Option ℕ) (left : V) (cps : List D) (right : V) (right_right : Option ℕ)
  | remove (edge : ℕ)
  | unremove (edge : ℕ)
  | link (prev first : ℕ)

/-- bezier.py:220-222 `node.add_edge(edge)` for the node `v`; its assertion holds by the callers 249-250. -/
def addTo (nodes : List (V × List ℕ)) (v : V) (i : ℕ) : List (V × List ℕ) :=
  nodes.map fun n => if n.1 = v then (n.1, n.2 ++ [i]) else n

/-- bezier.py:295-296 `if left_left and left_left.right_right is None: left_left.right_right = edge`. -/
def setRight (edges : List (Edge V (List D))) (at' : Option ℕ) (i : ℕ) : List (Edge V (List D)) :=
  match at' with
  | none => edges
  | some a => edges.modify a fun e => if e.right_right = none then { e with right_right := some i } else e

/-- bezier.py:297-298 `if right_right and right_right.left_left is None: right_right.left_left = edge`. -/
def setLeft (edges : List (Edge V (List D))) (at' : Option ℕ) (i : ℕ) : List (Edge V (List D)) :=
  match at' with
  | none => edges
  | some a => edges.modify a fun e => if e.left_left = none then { e with left_left := some i } else e

/-- An edge of the graph, or `None`. -/
def GS.isEdge (s : GS V D) (e : Option ℕ) : Bool :=
  match e with
  | none => true
  | some i => decide (i < s.edges.length)

/-- One call. bezier.py:277-280 `node(xy, create)`; 289-299 `add_edge(left_left, graph.node(left), cps, graph.node(right), right_right)`;
263-267 `remove`, `unremove`; 440-441 `prev.right_right = first; first.left_left = prev`. A call that raises changes nothing. Naming an
edge that does not exist is no Python call; it is an `IndexError` here. -/
def GS.step (s : GS V D) : GOp V D → Except PyErr (GS V D)
  | .node v create =>
    if create && !decide (v ∈ s.keys) then .ok { s with nodes := s.nodes ++ [(v, [])] }
    else if v ∈ s.keys then .ok s
    else .error .key
  | .addEdge ll l cps r rr =>
    if ¬(s.isEdge ll ∧ s.isEdge rr) then .error .index
    else if l ∉ s.keys ∨ r ∉ s.keys then .error .key
    else if cps.length < 2 then .error .value
    else
      let i := s.edges.length
      let nodes := addTo (addTo s.nodes l i) r i
      let edges := s.edges ++ [⟨l, r, cps, ll, rr⟩]
      .ok { s with
        nodes := nodes
        edges := setLeft (setRight edges ll i) rr i
        names := s.names ++ ['e' :: fmtNat i] }
  | .remove i => if i < s.edges.length then .ok { s with removed := insert i s.removed } else .error .index
  | .unremove i => if i < s.edges.length then .ok { s with removed := s.removed.erase i } else .error .index
  | .link a b =>
    if a < s.edges.length ∧ b < s.edges.length then
      .ok { s with edges := (s.edges.modify a fun e => { e with right_right := some b }).modify b fun e => { e with left_left := some a } }
    else .error .index

/-- A history of calls; exceptions are caught. -/
def GS.run (s : GS V D) (ops : List (GOp V D)) : GS V D :=
  ops.foldl (fun s op => match s.step op with | .ok s' => s' | .error _ => s) s

/-- What `validate` prints. -/
inductive GMsg (V : Type)
  | count (node : V) (n : ℕ)
  | missing (node : V)
  | noLeft
  | noRight
  | valid
  deriving DecidableEq

/-- bezier.py:303-311 what is printed about one node: the count, then the edges of the node that are not among the edges of the node. -/
def nodeMsgs (n : V × List ℕ) : List (GMsg V) :=
  (if n.2.length % 2 ≠ 0 ∨ n.2.length < 4 then [.count n.1 n.2.length] else []) ++
    n.2.flatMap fun e => if e ∉ n.2 then [.missing n.1] else []

/-- bezier.py:312-318 what is printed about one edge. -/
def edgeMsgs (e : Edge V (List D)) : List (GMsg V) :=
  (if e.left_left = none then [.noLeft] else []) ++ (if e.right_right = none then [.noRight] else [])

/-- bezier.py:301-321 `validate()`: what is printed, and the result. -/
def GS.validate (s : GS V D) : List (GMsg V) × Bool :=
  let bad := s.nodes.flatMap nodeMsgs ++ s.edges.flatMap edgeMsgs
  if bad = [] then ([.valid], true) else (bad, false)

end X7.Bzi
