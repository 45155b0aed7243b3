import Verif.Lemmas.BziGraph

/-!
Model of x7/geom/bezier.py `bez_self_intersect` (348-525). The intersections themselves come from a library
(`bezier.Curve.intersect`): they are a parameter. Control points are values here: the code also writes `dr` and `dl` of control
points it shares with its argument (399-409); Model/SelfHeap models this, and C79_result proves that the results are the same. Debugging output and `validate`, which only prints, are left out.
-/

namespace X7.Bzi

variable {V C D : Type} [DecidableEq V]

/-- bezier.py:451-519 the walk: `removed` are the marks, `curves` the result so far; `join` makes a curve of the edges of a loop. -/
def Graph.walk (g : Graph V C) (join : List (Edge V C) → Except PyErr D) (removed : Finset ℕ) (curves : List D) :
    Except PyErr (List D) :=
  match g.anyNode removed with
  | none => .ok curves
  | some v =>
    match he : g.anyEdge removed v none with
    | none => .error .attribute
    | some edge =>
      match hi : g.inner removed [] edge with
      | .error e => .error e
      | .ok (l, marks) =>
        match join (l.filterMap fun i => g.edges[i]?) with
        | .error e => .error e
        | .ok c => g.walk join marks (curves ++ [c])
termination_by g.left removed
decreasing_by exact inner_left (Graph.anyEdge_mem he).1 (Graph.anyEdge_mem he).2 hi

noncomputable section

open Classical

/-- geom.py:297-298 `p.close(q, max_delta=1e-11)`. -/
def close (p q : Pt ℝ) : Bool := decide ((p.sub q).length < 1 / 10 ^ 11)

/-- bezier.py:475-506 one round of the loop over `edges[1:]`: `cps` so far, `e` the control points of the edge. -/
def joinOne (cps e : List (CP ℝ)) : Except PyErr (List (CP ℝ)) :=
  match cps.head?, cps.getLast?, e.head?, e.getLast? with
  | some c0, some c1, some e0, some e1 =>
    if close c1.c e0.c then .ok (cps.dropLast ++ [{ c1 with dr := e0.dr, kind := "sharp" }] ++ e.tail)
    else if close c0.c e0.c then .error .value
    else if close c0.c e1.c then .ok (e.dropLast ++ [{ e1 with dr := c0.dr, kind := "sharp" }] ++ cps.tail)
    else if close c1.c e1.c then .error .value
    else .error .value
  | _, _, _, _ => .error .index

/-- bezier.py:475-506 the loop over `edges[1:]`. -/
def joinAll (cps : List (CP ℝ)) : List (List (CP ℝ)) → Except PyErr (List (CP ℝ))
  | [] => .ok cps
  | e :: rest =>
    match joinOne cps e with
    | .error err => .error err
    | .ok cps => joinAll cps rest

/-- bezier.py:471-513 the curve of a loop of edges. -/
def joinLoop (es : List (Edge V (List (CP ℝ)))) : Except PyErr (List (CP ℝ)) :=
  match es with
  | [] => .error .index
  | e :: rest =>
    match joinAll e.cps (rest.map Edge.cps) with
    | .error err => .error err
    | .ok cps =>
      match cps.head?, cps.getLast? with
      | some c0, some c1 => .ok (({ c0 with dl := c1.dl, kind := "sharp" } :: cps.tail).dropLast)
      | _, _ => .error .index

/-- bezier.py:330-333 `CpBool`; a node is named by its centre. -/
structure CpBool where
  cp : CP ℝ
  node : Option (Pt ℝ)

/-- bezier.py:351-360 `all_curves`: segments whose halves intersect (`hit`, from the library) are split. -/
def allCurves (hit : CP ℝ → CP ℝ → Bool) (cps : List (CP ℝ)) : List (CP ℝ × CP ℝ) :=
  (iterRotate2 cps).flatMap fun ab =>
    if hit ab.1 ab.2 then
      let s := bezSplit ab.1 ab.2 (1 / 2)
      [(s.1, s.2.1), (s.2.1, s.2.2)]
    else [ab]

/-- Python's order on `(t, (x, y))`. -/
def ixLe (p q : ℝ × Pt ℝ) : Bool :=
  decide (p.1 < q.1 ∨ p.1 = q.1 ∧ (p.2.x < q.2.x ∨ p.2.x = q.2.x ∧ p.2.y ≤ q.2.y))

/-- bezier.py:387 `sorted(intersections)`. -/
def sortIxs (ixs : List (ℝ × Pt ℝ)) : List (ℝ × Pt ℝ) := ixs.mergeSort ixLe

/-- bezier.py:384-398 the pieces of the segment from `a` to `b`, `t` being the parameter of `a` on the original segment. -/
def splitAt (a b : CP ℝ) (t : ℝ) (next_node : Option (Pt ℝ)) : List (ℝ × Pt ℝ) → Except PyErr (List CpBool)
  | [] => .ok [⟨a, next_node⟩, ⟨b, none⟩]
  | (t_ix, xy_ix) :: rest =>
    match pyDiv (t_ix - t) (1 - t) with
    | .error e => .error e
    | .ok u =>
      let s := bezSplit a b u
      if (s.2.1.c.sub xy_ix).length > 1 / 10 ^ 10 then .error .value
      else
        match splitAt s.2.1 s.2.2 t_ix (some xy_ix) rest with
        | .error e => .error e
        | .ok tl => .ok (⟨s.1, next_node⟩ :: tl)

/-- bezier.py:399-406 `cpbs` extended by the pieces of one more segment. -/
def extend (cpbs loc : List CpBool) : Except PyErr (List CpBool) :=
  match cpbs.getLast?, loc with
  | none, _ => .ok loc
  | some last, l0 :: rest =>
    if last.cp.c = l0.cp.c then .ok (cpbs.dropLast ++ [⟨{ last.cp with dr := l0.cp.dr }, last.node⟩] ++ rest)
    else .error .assertion
  | some _, [] => .error .index

/-- bezier.py:379-406 the loop over `all_curves` with their intersections. -/
def expand (cpbs : List CpBool) : List ((CP ℝ × CP ℝ) × List (ℝ × Pt ℝ)) → Except PyErr (List CpBool)
  | [] => .ok cpbs
  | (ab, ixs) :: rest =>
    match splitAt ab.1 ab.2 0 none (sortIxs ixs) with
    | .error e => .error e
    | .ok loc =>
      match extend cpbs loc with
      | .error e => .error e
      | .ok cpbs => expand cpbs rest

/-- bezier.py:407-409 the last control point is the first. -/
def closeUp (cpbs : List CpBool) : Except PyErr (List CpBool) :=
  match cpbs.head?, cpbs.getLast? with
  | some x0, some x1 => .ok ((⟨{ x0.cp with dl := x1.cp.dl }, x0.node⟩ :: cpbs.tail).dropLast)
  | _, _ => .error .index

/-- bezier.py:415-416 rotated so that an intersection is first. -/
def rotateFirst (cpbs : List CpBool) : Except PyErr (List CpBool) :=
  match cpbs.findIdx? fun x => x.node.isSome with
  | none => .error .index
  | some i => .ok (cpbs.drop i ++ cpbs.take i)

/-- bezier.py:289-299 `add_edge(prev_edge, prev_node, segment, node, None)`, `prev_edge` being the last edge if any. -/
def addEdge (edges : List (Edge (Pt ℝ) (List (CP ℝ)))) (left : Pt ℝ) (cps : List (CP ℝ)) (right : Pt ℝ) :
    List (Edge (Pt ℝ) (List (CP ℝ))) :=
  match edges.getLast? with
  | none => [⟨left, right, cps, none, none⟩]
  | some last =>
    edges.dropLast ++ [{ last with right_right := some (last.right_right.getD edges.length) }] ++
      [⟨left, right, cps, some (edges.length - 1), none⟩]

/-- bezier.py:421-436 the loop making edges: the current segment, the node where it started, the edges so far. -/
def makeEdges (segment : List (CP ℝ)) (prev_node : Option (Pt ℝ)) (edges : List (Edge (Pt ℝ) (List (CP ℝ)))) :
    List CpBool → Except PyErr (List (Edge (Pt ℝ) (List (CP ℝ))))
  | [] => .ok edges
  | x :: rest =>
    match x.node with
    | none => makeEdges (segment ++ [x.cp]) prev_node edges rest
    | some node =>
      if segment = [] then makeEdges [x.cp] (some node) edges rest
      else
        match prev_node with
        | none => .error .attribute
        | some left => makeEdges [x.cp] (some node) (addEdge edges left (segment ++ [x.cp]) node) rest

/-- bezier.py:437-441 the last and the first edge linked. -/
def stitch (edges : List (Edge (Pt ℝ) (List (CP ℝ)))) : Except PyErr (List (Edge (Pt ℝ) (List (CP ℝ)))) :=
  match edges.head?, edges.getLast? with
  | some first, some last =>
    if last.right_right ≠ none ∨ first.left_left ≠ none then .error .assertion
    else
      .ok ((edges.modify (edges.length - 1) fun e => { e with right_right := some 0 }).modify 0 fun e =>
        { e with left_left := some (edges.length - 1) })
  | _, _ => .error .attribute

/-- bezier.py:277-280, 388 the nodes in the order of their creation. -/
def nodesOf (curves : List ((CP ℝ × CP ℝ) × List (ℝ × Pt ℝ))) : List (Pt ℝ) :=
  (curves.flatMap fun c => (sortIxs c.2).map Prod.snd).foldl (fun ns v => if v ∈ ns then ns else ns ++ [v]) []

/-- bezier.py:377-441 the graph. -/
def graphOf (curves : List ((CP ℝ × CP ℝ) × List (ℝ × Pt ℝ))) : Except PyErr (Graph (Pt ℝ) (List (CP ℝ))) :=
  match expand [] curves with
  | .error e => .error e
  | .ok cpbs =>
    match closeUp cpbs with
    | .error e => .error e
    | .ok cpbs =>
      match rotateFirst cpbs with
      | .error e => .error e
      | .ok cpbs =>
        match makeEdges [] none [] (cpbs ++ cpbs.take 1) with
        | .error e => .error e
        | .ok edges =>
          match stitch edges with
          | .error e => .error e
          | .ok edges => .ok ⟨nodesOf curves, edges⟩

/-- bezier.py:348-525 `bez_self_intersect(orig_cps)`: `hit` tells which segments have intersecting halves, `ixs` the list of
`(t, (x, y))` for each of the segments. -/
def selfIntersect (hit : CP ℝ → CP ℝ → Bool) (ixs : List (List (ℝ × Pt ℝ))) (cps : List (CP ℝ)) : Except PyErr (List (List (CP ℝ))) :=
  let curves := (allCurves hit cps).zip ixs
  if ∀ c ∈ curves, c.2 = [] then .ok []
  else
    match graphOf curves with
    | .error e => .error e
    | .ok g => g.walk joinLoop ∅ []

end

end X7.Bzi
