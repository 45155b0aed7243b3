import Mathlib.Data.List.Chain
import Verif.Model.BziGraph

/-!
What a loop of the graph is.
-/

namespace X7.Bzi

variable {V C : Type}

/-- Where edge `i` comes from. -/
def Graph.from (g : Graph V C) (i : ℕ) : Option V := (g.edges[i]?).map Edge.left

/-- Where edge `i` leads to. -/
def Graph.to (g : Graph V C) (i : ℕ) : Option V := (g.edges[i]?).map Edge.right

/-- `l` is a closed loop of edges, listed against their direction: each edge comes from where the next one leads to, the last one from
where the first one leads to, and no node is met twice. -/
structure Graph.IsLoop (g : Graph V C) (l : List ℕ) : Prop where
  nonempty : l ≠ []
  edges : ∀ i ∈ l, i < g.edges.length
  chain : l.IsChain fun a b => g.from a = g.to b
  closed : ∃ a b, l.head? = some a ∧ l.getLast? = some b ∧ g.from b = g.to a
  simple : (l.map g.to).Nodup

/-- All edges have a successor along the original curve, and lead to a node of the graph. -/
structure Graph.Complete (g : Graph V C) : Prop where
  next : ∀ e ∈ g.edges, e.right_right ≠ none
  ends : ∀ e ∈ g.edges, e.right ∈ g.nodes

/-- The graph of a closed curve which passes the nodes `w` one after the other: edge `i` comes from node number `i`, leads to the next one,
and edge `i + 1` continues it. -/
structure Graph.Word (g : Graph V C) (w : List V) : Prop where
  len : g.edges.length = w.length
  edge : ∀ i < w.length, ∃ e, g.edges[i]? = some e ∧ w[i]? = some e.left ∧ w[(i + 1) % w.length]? = some e.right ∧
    e.right_right = some ((i + 1) % w.length)
  nodes : ∀ v ∈ w, v ∈ g.nodes

/-- A closed curve passes every node exactly twice, once at an even and once at an odd place. (Gauss: this holds for every closed curve in
the plane all of whose self-intersections are crossings of two branches.) -/
def Alternating (w : List V) : Prop :=
  w.length % 2 = 0 ∧ ∀ i < w.length, ∃ j < w.length, i % 2 ≠ j % 2 ∧ ∀ k < w.length, w[k]? = w[i]? ↔ k = i ∨ k = j

end X7.Bzi
