import Mathlib.Data.Finset.Card
import Mathlib.Data.Finset.Range
import Verif.Model.Bezier

/-!
Model of the graph walked by x7/geom/bezier.py `bez_self_intersect`: `BziNode` (205-233), `BziEdge` (236-267), `BziGraph` (270-299)
and the inner loop of the walk (459-518). See Model/SelfIntersect for the rest.
-/

namespace X7.Bzi

/-! ### The graph and its walk, for any type of nodes and of edge contents -/

/-- bezier.py:236-250 the attributes of a `BziEdge`; edges are named by their position in `graph.edges`. -/
structure Edge (V C : Type) where
  left : V
  right : V
  cps : C
  left_left : Option ℕ
  right_right : Option ℕ

/-- bezier.py:270-275 a `BziGraph`: the keys of `nodes` in order, the edges in order. -/
structure Graph (V C : Type) where
  nodes : List V
  edges : List (Edge V C)

variable {V C D : Type} [DecidableEq V]

/-- bezier.py:211, 220-222, 249-250 `node.edges`: every edge adds itself to its left node, then to its right node. -/
def Graph.nodeEdges (g : Graph V C) (v : V) : List ℕ :=
  (List.range g.edges.length).flatMap fun i =>
    match g.edges[i]? with
    | none => []
    | some e => (if e.left = v then [i] else []) ++ (if e.right = v then [i] else [])

/-- bezier.py:227 the condition of `any_edge`. -/
def Graph.eligible (g : Graph V C) (removed : Finset ℕ) (v : V) (notThis : Option ℕ) (i : ℕ) : Bool :=
  match g.edges[i]? with
  | none => false
  | some e => decide (i ∉ removed) && decide (e.right = v) && decide (e.right_right ≠ notThis)

/-- bezier.py:224-229 `any_edge(not_this_one)`; `removed` are the edges marked so. -/
def Graph.anyEdge (g : Graph V C) (removed : Finset ℕ) (v : V) (notThis : Option ℕ) : Option ℕ :=
  (g.nodeEdges v).find? (g.eligible removed v notThis)

/-- bezier.py:282-287 `any_node()`. -/
def Graph.anyNode (g : Graph V C) (removed : Finset ℕ) : Option V :=
  g.nodes.find? fun v => (g.anyEdge removed v none).isSome

/-- The number of edges not marked. -/
def Graph.left (g : Graph V C) (removed : Finset ℕ) : ℕ := (Finset.range g.edges.length \ removed).card

theorem Graph.anyEdge_eligible {g : Graph V C} {removed : Finset ℕ} {v : V} {nt : Option ℕ} {i : ℕ}
    (h : g.anyEdge removed v nt = some i) : g.eligible removed v nt i = true := List.find?_some h

theorem Graph.eligible_iff {g : Graph V C} {removed : Finset ℕ} {v : V} {nt : Option ℕ} {i : ℕ} :
    g.eligible removed v nt i = true ↔ ∃ e, g.edges[i]? = some e ∧ i ∉ removed ∧ e.right = v ∧ e.right_right ≠ nt := by
  unfold Graph.eligible
  cases g.edges[i]? with
  | none => simp
  | some e => simp [and_assoc]

theorem Graph.anyEdge_mem {g : Graph V C} {removed : Finset ℕ} {v : V} {nt : Option ℕ} {i : ℕ}
    (h : g.anyEdge removed v nt = some i) : i < g.edges.length ∧ i ∉ removed := by
  obtain ⟨e, h1, h2, _⟩ := Graph.eligible_iff.1 (Graph.anyEdge_eligible h)
  refine ⟨?_, h2⟩
  by_contra hc
  rw [List.getElem?_eq_none (by omega)] at h1
  exact absurd h1 (by simp)

theorem Graph.left_insert {g : Graph V C} {removed : Finset ℕ} {i : ℕ} (h1 : i < g.edges.length) (h2 : i ∉ removed) :
    g.left (insert i removed) < g.left removed := by
  unfold Graph.left
  apply Finset.card_lt_card
  rw [Finset.ssubset_iff_of_subset (fun x hx => by simp at hx ⊢; exact ⟨hx.1, hx.2.2⟩)]
  exact ⟨i, by simp [h1, h2], by simp⟩

/-- bezier.py:461 `[idx for idx, e in enumerate(edges) if edge.left == e.right]`, its first element if any; `v` is `edge.left`. -/
def Graph.firstMatch (g : Graph V C) (v : V) (edges : List ℕ) : Option ℕ :=
  edges.findIdx? fun j => match g.edges[j]? with | none => false | some e => decide (v = e.right)

/-- bezier.py:459-471, 516-518 the inner loop: `edges` so far, the current `edge`, the marks. Result: the edges of the loop found and the
marks. If there is no next edge, `edge` is `None` and the next round raises `AttributeError`. -/
def Graph.inner (g : Graph V C) (removed : Finset ℕ) (edges : List ℕ) (edge : ℕ) : Except PyErr (List ℕ × Finset ℕ) :=
  match g.edges[edge]? with
  | none => .error .attribute
  | some e =>
    let edges := edges ++ [edge]
    let removed := insert edge removed
    match g.firstMatch e.left edges with
    | some m => .ok (edges.drop m, removed \ (edges.take m).toFinset)
    | none =>
      match h : g.anyEdge removed e.left (some edge) with
      | none => .error .attribute
      | some next => g.inner removed edges next
termination_by g.left (insert edge removed)
decreasing_by
  have h' := Graph.anyEdge_mem h
  exact Graph.left_insert h'.1 h'.2

end X7.Bzi
