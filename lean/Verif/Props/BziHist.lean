import Verif.Model.BziHist
import Verif.Props.GroupNames
import Verif.Props.SelfCurve

/-!
C90: the intersection graph, whatever calls were made on it, and what `validate` says.
-/

namespace X7.Bzi

variable {V D : Type} [DecidableEq V]

/-! ### Lemmas -/

theorem nodeEdges_congr {C C' : Type} (g : Graph V C) (g' : Graph V C') (h : (g.edges.map fun e => (e.left, e.right)) = g'.edges.map fun e => (e.left, e.right)) (v : V) :
    g.nodeEdges v = g'.nodeEdges v := by
  have hl : g.edges.length = g'.edges.length := by simpa using congrArg List.length h
  unfold Graph.nodeEdges
  rw [hl]
  apply List.flatMap_congr
  intro i _
  have hi := congrArg (fun l => l[i]?) h
  simp only [List.getElem?_map] at hi
  rcases h1 : g.edges[i]? with _ | e <;> rcases h2 : g'.edges[i]? with _ | e' <;> simp [h1, h2] at hi ⊢
  rw [hi.1, hi.2]

theorem nodeEdges_append {C : Type} (ns ns' : List V) (es : List (Edge V C)) (e : Edge V C) (v : V) :
    (⟨ns, es ++ [e]⟩ : Graph V C).nodeEdges v = (⟨ns', es⟩ : Graph V C).nodeEdges v ++
      ((if e.left = v then [es.length] else []) ++ (if e.right = v then [es.length] else [])) := by
  unfold Graph.nodeEdges
  simp only [List.length_append, List.length_singleton]
  rw [List.range_succ, List.flatMap_append]
  congr 1
  · apply List.flatMap_congr
    intro i hi
    rw [List.mem_range] at hi
    rw [List.getElem?_append_left hi]
  · simp

theorem nodeEdges_count {C : Type} (g : Graph V C) (v : V) (i : ℕ) :
    (g.nodeEdges v).count i = match g.edges[i]? with
      | none => 0
      | some e => (if e.left = v then 1 else 0) + (if e.right = v then 1 else 0) := by
  obtain ⟨ns, es⟩ := g
  induction es using List.reverseRecOn with
  | nil => simp [Graph.nodeEdges]
  | append_singleton es e ih =>
    rw [nodeEdges_append ns ns, List.count_append, ih]
    rcases lt_trichotomy i es.length with h | h | h
    · simp only
      rw [List.getElem?_append_left h]
      have hn : es.length ≠ i := by omega
      rw [List.count_append]
      have z : ∀ c : Prop, [Decidable c] → (if c then [es.length] else []).count i = 0 := by
        intro c _; split_ifs <;> simp [hn]
      rw [z, z]
      simp
    · subst h
      simp only [List.getElem?_append_right le_rfl, List.getElem?_eq_none le_rfl, Nat.sub_self, List.getElem?_cons_zero, List.count_append]
      split_ifs <;> simp
    · simp only
      rw [List.getElem?_eq_none (by omega), List.getElem?_eq_none (by simp; omega)]
      have hn : es.length ≠ i := by omega
      rw [List.count_append]
      have z : ∀ c : Prop, [Decidable c] → (if c then [es.length] else []).count i = 0 := by
        intro c _; split_ifs <;> simp [hn]
      rw [z, z]

theorem nodeEdges_length {C : Type} (g : Graph V C) (v : V) :
    (g.nodeEdges v).length = (g.edges.map Edge.left).count v + (g.edges.map Edge.right).count v := by
  obtain ⟨ns, es⟩ := g
  induction es using List.reverseRecOn with
  | nil => simp [Graph.nodeEdges]
  | append_singleton es e ih =>
    rw [nodeEdges_append ns ns, List.length_append, ih]
    simp only [List.map_append, List.count_append, List.map_cons, List.map_nil, List.length_append]
    have : ∀ a : V, (if a = v then [es.length] else []).length = List.count v [a] := by
      intro a; split_ifs with h <;> simp [h]
    rw [this, this]; omega

theorem nodeEdges_sorted {C : Type} (g : Graph V C) (v : V) : (g.nodeEdges v).Pairwise (· ≤ ·) := by
  obtain ⟨ns, es⟩ := g
  induction es using List.reverseRecOn with
  | nil => simp [Graph.nodeEdges]
  | append_singleton es e ih =>
    rw [nodeEdges_append ns ns, List.pairwise_append]
    refine ⟨ih, ?_, ?_⟩
    · split_ifs <;> simp
    · intro a ha b hb
      have hb' : b = es.length := by
        rw [List.mem_append] at hb
        rcases hb with h | h <;> split_ifs at h <;> simp at h <;> exact h
      have : a < es.length := by
        simp only [Graph.nodeEdges, List.mem_flatMap, List.mem_range] at ha
        obtain ⟨k, hk, hka⟩ := ha
        rw [List.getElem?_eq_getElem hk, List.mem_append] at hka
        rcases hka with h | h <;> split_ifs at h <;> simp at h <;> omega
      omega

theorem keys_addTo (nodes : List (V × List ℕ)) (v : V) (i : ℕ) : (addTo nodes v i).map Prod.fst = nodes.map Prod.fst := by
  unfold addTo
  rw [List.map_map]
  apply List.map_congr_left
  intro n _
  simp only [Function.comp_apply]
  split_ifs <;> rfl

theorem sum_addTo (v : V) (i : ℕ) : ∀ (nodes : List (V × List ℕ)), (nodes.map Prod.fst).Nodup → v ∈ nodes.map Prod.fst →
    ((addTo nodes v i).map fun n => n.2.length).sum = (nodes.map fun n => n.2.length).sum + 1
  | [], _, h => by simp at h
  | n :: nodes, hnd, h => by
    simp only [List.map_cons, List.nodup_cons, List.mem_cons] at hnd h
    by_cases hv : n.1 = v
    · have hrest : addTo nodes v i = nodes := by
        unfold addTo
        conv_rhs => rw [← List.map_id nodes]
        apply List.map_congr_left
        intro m hm
        rw [if_neg]; rfl
        rintro rfl
        exact hnd.1 (hv ▸ List.mem_map_of_mem hm)
      have : addTo (n :: nodes) v i = (n.1, n.2 ++ [i]) :: nodes := by
        conv_rhs => rw [← hrest]
        simp [addTo, hv]
      rw [this]; simp; omega
    · have : addTo (n :: nodes) v i = n :: addTo nodes v i := by simp [addTo, hv]
      rw [this]
      simp only [List.map_cons, List.sum_cons]
      rw [sum_addTo v i nodes hnd.2 (h.resolve_left fun e => hv e.symm)]
      omega

theorem map_modify_same {α β : Type} (f : α → β) (g : α → α) (hg : ∀ x, f (g x) = f x) (l : List α) (a : ℕ) :
    (l.modify a g).map f = l.map f := by
  apply List.ext_getElem?
  intro k
  simp only [List.getElem?_map, List.getElem?_modify]
  rcases l[k]? with _ | x
  · simp
  · by_cases h : a = k <;> simp [h, hg]

theorem ends_setRight (es : List (Edge V (List D))) (a : Option ℕ) (i : ℕ) :
    ((setRight es a i).map fun e => (e.left, e.right, e.cps)) = es.map fun e => (e.left, e.right, e.cps) := by
  cases a with
  | none => rfl
  | some a => exact map_modify_same _ _ (fun e => by split_ifs <;> rfl) _ _

theorem ends_setLeft (es : List (Edge V (List D))) (a : Option ℕ) (i : ℕ) :
    ((setLeft es a i).map fun e => (e.left, e.right, e.cps)) = es.map fun e => (e.left, e.right, e.cps) := by
  cases a with
  | none => rfl
  | some a => exact map_modify_same _ _ (fun e => by split_ifs <;> rfl) _ _

/-- What holds whatever calls were made. -/
structure GS.Inv (s : GS V D) : Prop where
  keys : s.keys.Nodup
  lists : ∀ n ∈ s.nodes, n.2 = s.graph.nodeEdges n.1
  ends : ∀ e ∈ s.edges, e.left ∈ s.keys ∧ e.right ∈ s.keys ∧ 2 ≤ e.cps.length
  sum : (s.nodes.map fun n => n.2.length).sum = 2 * s.edges.length
  names : s.names = (List.range s.edges.length).map fun i => 'e' :: fmtNat i
  links : ∀ e ∈ s.edges, s.isEdge e.left_left ∧ s.isEdge e.right_right
  removed : ∀ i ∈ s.removed, i < s.edges.length

theorem ends2_of {es es' : List (Edge V (List D))}
    (h : (es.map fun e => (e.left, e.right, e.cps)) = es'.map fun e => (e.left, e.right, e.cps)) :
    (es.map fun e => (e.left, e.right)) = es'.map fun e => (e.left, e.right) := by
  have := congrArg (List.map fun x : V × V × List D => (x.1, x.2.1)) h
  simpa [List.map_map, Function.comp_def] using this

theorem ends_all {es es' : List (Edge V (List D))}
    (h : (es.map fun e => (e.left, e.right, e.cps)) = es'.map fun e => (e.left, e.right, e.cps)) {P : V → V → List D → Prop}
    (hp : ∀ e ∈ es', P e.left e.right e.cps) : ∀ e ∈ es, P e.left e.right e.cps := by
  intro e he
  have : (e.left, e.right, e.cps) ∈ es'.map fun e => (e.left, e.right, e.cps) := h ▸ List.mem_map_of_mem he
  obtain ⟨e', h1, h2⟩ := List.mem_map.1 this
  simp only [Prod.mk.injEq] at h2
  rw [← h2.1, ← h2.2.1, ← h2.2.2]
  exact hp e' h1

theorem modify_all {α : Type} {P : α → Prop} {l : List α} {a : ℕ} {f : α → α} (hl : ∀ x ∈ l, P x) (hf : ∀ x, P x → P (f x)) :
    ∀ x ∈ l.modify a f, P x := by
  intro x hx
  obtain ⟨k, hk⟩ := List.mem_iff_getElem?.1 hx
  rw [List.getElem?_modify] at hk
  rcases h : l[k]? with _ | y
  · simp [h] at hk
  · have hy := hl y (List.mem_of_getElem? h)
    by_cases hak : a = k
    · simp [h, hak] at hk; rw [← hk]; exact hf y hy
    · simp [h, hak] at hk; rw [← hk]; exact hy

theorem GS.inv_empty : (GS.empty : GS V D).Inv := by
  constructor <;> simp [GS.empty, GS.keys]

theorem setRight_length (es : List (Edge V (List D))) (a : Option ℕ) (i : ℕ) : (setRight es a i).length = es.length := by
  cases a <;> simp [setRight]

theorem setLeft_length (es : List (Edge V (List D))) (a : Option ℕ) (i : ℕ) : (setLeft es a i).length = es.length := by
  cases a <;> simp [setLeft]

theorem GS.inv_step {s s' : GS V D} (hs : s.Inv) {op : GOp V D} (h : s.step op = .ok s') : s'.Inv := by
  cases op with
  | node v create =>
    simp only [GS.step] at h
    split_ifs at h with h1 h2
    · cases h
      simp only [Bool.and_eq_true, Bool.not_eq_true', decide_eq_false_iff_not] at h1
      have hg : ∀ w, (GS.graph { s with nodes := s.nodes ++ [(v, [])] }).nodeEdges w = s.graph.nodeEdges w := fun w =>
        nodeEdges_congr _ _ rfl w
      constructor
      · have := hs.keys
        simp only [GS.keys, List.map_append, List.map_cons, List.map_nil] at this ⊢
        rw [List.nodup_append]
        refine ⟨this, by simp, ?_⟩
        intro a ha b hb
        simp only [List.mem_singleton] at hb
        subst hb
        rintro rfl
        exact h1.2 ha
      · intro n hn
        rw [hg]
        rcases List.mem_append.1 hn with hn | hn
        · exact hs.lists n hn
        · simp only [List.mem_singleton] at hn
          subst hn
          symm
          apply List.eq_nil_of_length_eq_zero
          rw [nodeEdges_length]
          have hl : (s.graph.edges.map Edge.left).count v = 0 := by
            rw [List.count_eq_zero]
            intro hm
            obtain ⟨e, he, hev⟩ := List.mem_map.1 hm
            exact h1.2 (hev ▸ (hs.ends e he).1)
          have hr : (s.graph.edges.map Edge.right).count v = 0 := by
            rw [List.count_eq_zero]
            intro hm
            obtain ⟨e, he, hev⟩ := List.mem_map.1 hm
            exact h1.2 (hev ▸ (hs.ends e he).2.1)
          simp only [hl, hr]
      · intro e he
        obtain ⟨a, b, c⟩ := hs.ends e he
        simp only [GS.keys, List.map_append, List.mem_append]
        exact ⟨.inl a, .inl b, c⟩
      · have := hs.sum; simpa using this
      · exact hs.names
      · exact hs.links
      · exact hs.removed
    · cases h; exact hs
  | addEdge ll l cps r rr =>
    simp only [GS.step] at h
    split_ifs at h with h1 h2 h3
    cases h
    push Not at h2 h3
    obtain ⟨hll, hrr⟩ := h1
    set i := s.edges.length with hi
    set es := s.edges ++ [(⟨l, r, cps, ll, rr⟩ : Edge V (List D))] with hes
    have hends : ((setLeft (setRight es ll i) rr i).map fun e => (e.left, e.right, e.cps)) = es.map fun e => (e.left, e.right, e.cps) := by
      rw [ends_setLeft, ends_setRight]
    have hlen : (setLeft (setRight es ll i) rr i).length = i + 1 := by
      rw [setLeft_length, setRight_length, hes]; simp [hi]
    have hkeys : (addTo (addTo s.nodes l i) r i).map Prod.fst = s.keys := by rw [keys_addTo, keys_addTo]; rfl
    have hnd1 : ((addTo s.nodes l i).map Prod.fst).Nodup := by rw [keys_addTo]; exact hs.keys
    constructor
    · show ((addTo (addTo s.nodes l i) r i).map Prod.fst).Nodup
      rw [hkeys]; exact hs.keys
    · intro n hn
      have hn' : n ∈ addTo (addTo s.nodes l i) r i := hn
      have e0 : ∀ w, (⟨s.keys, es⟩ : Graph V (List D)).nodeEdges w = s.graph.nodeEdges w ++
          ((if l = w then [i] else []) ++ (if r = w then [i] else [])) := fun w => nodeEdges_append _ _ _ _ w
      have e1 := nodeEdges_congr (GS.graph { s with nodes := addTo (addTo s.nodes l i) r i, edges := setLeft (setRight es ll i) rr i, names := s.names ++ ['e' :: fmtNat i] })
        (⟨s.keys, es⟩ : Graph V (List D)) (ends2_of hends) n.1
      refine Eq.trans ?_ e1.symm
      rw [e0]
      simp only [addTo, List.mem_map] at hn'
      obtain ⟨m1, ⟨m, hm, rfl⟩, rfl⟩ := hn'
      have hml := hs.lists m hm
      by_cases c1 : m.1 = l <;> by_cases c2 : m.1 = r
      · subst c1; simp [← c2, hml]
      · subst c1; simp [c2, hml, Ne.symm c2]
      · subst c2; simp [c1, hml, Ne.symm c1]
      · simp [c1, c2, hml, Ne.symm c1, Ne.symm c2]
    · have hall : ∀ e ∈ es, e.left ∈ s.keys ∧ e.right ∈ s.keys ∧ 2 ≤ e.cps.length := by
        intro e he
        rcases List.mem_append.1 he with he | he
        · exact hs.ends e he
        · simp only [List.mem_singleton] at he
          subst he
          exact ⟨h2.1, h2.2, h3⟩
      have := ends_all hends (P := fun a b c => a ∈ s.keys ∧ b ∈ s.keys ∧ 2 ≤ c.length) hall
      intro e he
      have h0 := this e he
      simp only [GS.keys]
      rw [hkeys]
      exact h0
    · show ((addTo (addTo s.nodes l i) r i).map fun n => n.2.length).sum = 2 * (setLeft (setRight es ll i) rr i).length
      rw [sum_addTo r i _ hnd1 (by rw [keys_addTo]; exact h2.2), sum_addTo l i _ hs.keys h2.1, hs.sum, hlen]
      omega
    · show s.names ++ ['e' :: fmtNat i] = (List.range (setLeft (setRight es ll i) rr i).length).map fun i => 'e' :: fmtNat i
      rw [hlen, List.range_succ, List.map_append, hs.names]; rfl
    · have hle : ∀ o : Option ℕ, s.isEdge o = true → ∀ n, i + 1 = n → (match o with | none => true | some j => decide (j < n)) = true := by
        intro o ho n hn
        cases o with
        | none => rfl
        | some j => simp [GS.isEdge] at ho ⊢; omega
      have hall : ∀ e ∈ es, (match e.left_left with | none => true | some j => decide (j < i + 1)) = true ∧
          (match e.right_right with | none => true | some j => decide (j < i + 1)) = true := by
        intro e he
        rcases List.mem_append.1 he with he | he
        · exact ⟨hle _ (hs.links e he).1 _ rfl, hle _ (hs.links e he).2 _ rfl⟩
        · simp only [List.mem_singleton] at he
          subst he
          exact ⟨hle _ hll _ rfl, hle _ hrr _ rfl⟩
      have h1 : ∀ e ∈ setRight es ll i, (match e.left_left with | none => true | some j => decide (j < i + 1)) = true ∧
          (match e.right_right with | none => true | some j => decide (j < i + 1)) = true := by
        cases ll with
        | none => exact hall
        | some a =>
          refine modify_all hall fun x hx => ?_
          split_ifs
          · exact ⟨hx.1, by simp⟩
          · exact hx
      have h2 : ∀ e ∈ setLeft (setRight es ll i) rr i, (match e.left_left with | none => true | some j => decide (j < i + 1)) = true ∧
          (match e.right_right with | none => true | some j => decide (j < i + 1)) = true := by
        cases rr with
        | none => exact h1
        | some a =>
          refine modify_all h1 fun x hx => ?_
          split_ifs
          · exact ⟨by simp, hx.2⟩
          · exact hx
      intro e he
      have := h2 e he
      simp only [GS.isEdge, hlen]
      exact this
    · intro j hj
      have := hs.removed j hj
      show j < (setLeft (setRight es ll i) rr i).length
      rw [hlen]; omega
  | remove i =>
    simp only [GS.step] at h
    split_ifs at h with h1
    cases h
    exact ⟨hs.keys, hs.lists, hs.ends, hs.sum, hs.names, hs.links, fun j hj => by
      rcases Finset.mem_insert.1 hj with rfl | hj
      · exact h1
      · exact hs.removed j hj⟩
  | unremove i =>
    simp only [GS.step] at h
    split_ifs at h with h1
    cases h
    exact ⟨hs.keys, hs.lists, hs.ends, hs.sum, hs.names, hs.links, fun j hj => hs.removed j (Finset.mem_of_mem_erase hj)⟩
  | link a b =>
    simp only [GS.step] at h
    split_ifs at h with h1
    cases h
    set es := (s.edges.modify a fun e => { e with right_right := some b }).modify b fun e => { e with left_left := some a } with hes
    have hends : (es.map fun e => (e.left, e.right, e.cps)) = s.edges.map fun e => (e.left, e.right, e.cps) := by
      have a1 := map_modify_same (fun e : Edge V (List D) => (e.left, e.right, e.cps)) (fun e => { e with right_right := some b })
        (fun _ => rfl) s.edges a
      have a2 := map_modify_same (fun e : Edge V (List D) => (e.left, e.right, e.cps)) (fun e => { e with left_left := some a })
        (fun _ => rfl) (s.edges.modify a fun e => { e with right_right := some b }) b
      exact a2.trans a1
    have hlen : es.length = s.edges.length := by simp [hes]
    constructor
    · exact hs.keys
    · intro n hn
      rw [hs.lists n hn]
      exact (nodeEdges_congr (GS.graph { s with edges := es }) s.graph (ends2_of hends) n.1).symm
    · exact ends_all hends (P := fun a b c => a ∈ s.keys ∧ b ∈ s.keys ∧ 2 ≤ c.length) hs.ends
    · show _ = 2 * es.length
      rw [hlen]; exact hs.sum
    · show _ = (List.range es.length).map _
      rw [hlen]; exact hs.names
    · have hI : ∀ o, (GS.isEdge { s with edges := es } o) = s.isEdge o := by
        intro o; cases o <;> simp [GS.isEdge, hlen]
      simp only [hI]
      refine modify_all (modify_all hs.links fun x hx => ⟨hx.1, by simp [GS.isEdge, h1.2]⟩) fun x hx => ⟨by simp [GS.isEdge, h1.1], hx.2⟩
    · intro j hj
      show j < es.length
      rw [hlen]; exact hs.removed j hj

theorem GS.inv_run (ops : List (GOp V D)) : ∀ {s : GS V D}, s.Inv → (s.run ops).Inv := by
  induction ops with
  | nil => exact fun h => h
  | cons op ops ih =>
    intro s hs
    have : s.run (op :: ops) = GS.run (match s.step op with | .ok s' => s' | .error _ => s) ops := rfl
    rw [this]
    apply ih
    cases h : s.step op with
    | error e => exact hs
    | ok s' => exact GS.inv_step hs h

/-! ### Theorems -/

/-- C90: whatever calls were made on a graph: no two nodes have the same place; the list of edges kept by a node has each edge as often as
it ends there (twice for a loop) and in the order of creation, which is what the walk sees; all lists together are twice as long as there are
edges; every edge begins and ends at nodes of the graph, has at least two control points, and edges before and after it that are in the graph;
no two edges have the same name. -/
theorem C90_history (ops : List (GOp V D)) :
    let s := (GS.empty : GS V D).run ops
    s.keys.Nodup ∧
    (∀ v es, (v, es) ∈ s.nodes → es = s.graph.nodeEdges v ∧ es.Pairwise (· ≤ ·) ∧
      ∀ i, es.count i = match s.edges[i]? with
        | none => 0
        | some e => (if e.left = v then 1 else 0) + (if e.right = v then 1 else 0)) ∧
    (s.nodes.map fun n => n.2.length).sum = 2 * s.edges.length ∧
    (∀ e ∈ s.edges, (∃ es, (e.left, es) ∈ s.nodes) ∧ (∃ es, (e.right, es) ∈ s.nodes) ∧ 2 ≤ e.cps.length ∧
      (∀ j, e.left_left = some j ∨ e.right_right = some j → j < s.edges.length)) ∧
    s.names.length = s.edges.length ∧ s.names.Nodup := by
  intro s
  have hs : s.Inv := GS.inv_run ops GS.inv_empty
  have key : ∀ v ∈ s.keys, ∃ es, (v, es) ∈ s.nodes := by
    intro v hv
    obtain ⟨n, hn, rfl⟩ := List.mem_map.1 hv
    exact ⟨n.2, hn⟩
  refine ⟨hs.keys, ?_, hs.sum, ?_, by rw [hs.names]; simp, ?_⟩
  · intro v es h
    have h1 := hs.lists _ h
    simp only at h1
    rw [h1]
    exact ⟨rfl, nodeEdges_sorted _ _, fun i => by cases h : s.edges[i]? <;> simp [nodeEdges_count, GS.graph, h]⟩
  · intro e he
    obtain ⟨a, b, c⟩ := hs.ends e he
    obtain ⟨d, f⟩ := hs.links e he
    refine ⟨key _ a, key _ b, c, ?_⟩
    rintro j (h | h)
    · rw [h] at d; simpa [GS.isEdge] using d
    · rw [h] at f; simpa [GS.isEdge] using f
  · rw [hs.names]
    apply List.Nodup.map _ List.nodup_range
    intro a b h
    simp only [List.cons.injEq, true_and] at h
    exact GroupNames.fmtNat_inj h

/-- C90: which calls raise what. -/
theorem C90_exceptions (s : GS V D) :
    (∀ v, (∃ s', s.step (.node v true) = .ok s' ∧ v ∈ s'.keys) ∧ (s.step (.node v false) = if v ∈ s.keys then .ok s else .error .key)) ∧
    (∀ l cps r, l ∈ s.keys → r ∈ s.keys → cps.length < 2 → s.step (.addEdge none l cps r none) = .error .value) ∧
    (∀ l cps r, l ∉ s.keys ∨ r ∉ s.keys → s.step (.addEdge none l cps r none) = .error .key) ∧
    (∀ ll l cps r rr, s.isEdge ll → s.isEdge rr → l ∈ s.keys → r ∈ s.keys → 2 ≤ cps.length →
      ∃ s', s.step (.addEdge ll l cps r rr) = .ok s' ∧ s'.edges.length = s.edges.length + 1) := by
  refine ⟨?_, ?_, ?_, ?_⟩
  · intro v
    constructor
    · by_cases h : v ∈ s.keys
      · exact ⟨s, by simp [GS.step, h], h⟩
      · exact ⟨{ s with nodes := s.nodes ++ [(v, [])] }, by simp [GS.step, h], by simp [GS.keys]⟩
    · simp [GS.step]
  · intro l cps r hl hr hc
    simp [GS.step, GS.isEdge, hl, hr, hc]
  · intro l cps r h
    simp only [GS.step, GS.isEdge]
    simp [h]
  · intro ll l cps r rr h1 h2 h3 h4 h5
    simp only [GS.step, h1, h2, and_self, not_true_eq_false, if_false, h3, h4, or_self, not_lt.2 h5]
    exact ⟨_, rfl, by simp [setLeft_length, setRight_length]⟩

/-- C90: later calls lose nothing and rename nothing: the nodes, the edges with their ends and control points, and their names stay in their
places, and more may follow. -/
theorem C90_kept (s : GS V D) (ops : List (GOp V D)) :
    s.keys <+: (s.run ops).keys ∧ s.names <+: (s.run ops).names ∧
    (s.edges.map fun e => (e.left, e.right, e.cps)) <+: (s.run ops).edges.map fun e => (e.left, e.right, e.cps) := by
  have hstep : ∀ (s s' : GS V D) op, s.step op = .ok s' → s.keys <+: s'.keys ∧ s.names <+: s'.names ∧
      (s.edges.map fun e => (e.left, e.right, e.cps)) <+: s'.edges.map fun e => (e.left, e.right, e.cps) := by
    intro s s' op h
    cases op with
    | node v create =>
      simp only [GS.step] at h
      split_ifs at h <;> cases h
      · exact ⟨by simp [GS.keys], List.prefix_rfl, List.prefix_rfl⟩
      · exact ⟨List.prefix_rfl, List.prefix_rfl, List.prefix_rfl⟩
    | addEdge ll l cps r rr =>
      simp only [GS.step] at h
      split_ifs at h
      cases h
      refine ⟨?_, by simp, ?_⟩
      · simp only [GS.keys, keys_addTo]
        exact List.prefix_rfl
      · simp only [ends_setLeft, ends_setRight]
        simp
    | remove i =>
      simp only [GS.step] at h
      split_ifs at h
      cases h
      exact ⟨List.prefix_rfl, List.prefix_rfl, List.prefix_rfl⟩
    | unremove i =>
      simp only [GS.step] at h
      split_ifs at h
      cases h
      exact ⟨List.prefix_rfl, List.prefix_rfl, List.prefix_rfl⟩
    | link a b =>
      simp only [GS.step] at h
      split_ifs at h
      cases h
      refine ⟨List.prefix_rfl, List.prefix_rfl, ?_⟩
      rw [map_modify_same (fun e : Edge V (List D) => (e.left, e.right, e.cps)) (fun e => { e with left_left := some a }) (fun _ => rfl),
        map_modify_same (fun e : Edge V (List D) => (e.left, e.right, e.cps)) (fun e => { e with right_right := some b }) (fun _ => rfl)]
  induction ops generalizing s with
  | nil => exact ⟨List.prefix_rfl, List.prefix_rfl, List.prefix_rfl⟩
  | cons op ops ih =>
    have e : s.run (op :: ops) = (match s.step op with | .ok s' => s' | .error _ => s).run ops := rfl
    rw [e]
    cases h : s.step op with
    | error _ => exact ih s
    | ok s' =>
      obtain ⟨a1, a2, a3⟩ := hstep s s' op h
      obtain ⟨b1, b2, b3⟩ := ih s'
      exact ⟨a1.trans b1, a2.trans b2, a3.trans b3⟩

/-- C90: `add_edge` adds one edge, with the links given; of the edges there before, only the one given as the edge before gets the new one as
its next, if it had none, and only the one given as the edge after gets it as its previous, if it had none. -/
theorem C90_add_edge (s s' : GS V D) (ll rr : Option ℕ) (l r : V) (cps : List D) (h : s.step (.addEdge ll l cps r rr) = .ok s') :
    (∃ e, s'.edges[s.edges.length]? = some e ∧ e.left = l ∧ e.right = r ∧ e.cps = cps ∧ e.left_left = ll ∧ e.right_right = rr) ∧
    (∀ i e, s.edges[i]? = some e → ∃ e', s'.edges[i]? = some e' ∧ e'.left = e.left ∧ e'.right = e.right ∧ e'.cps = e.cps ∧
      e'.right_right = (if ll = some i ∧ e.right_right = none then some s.edges.length else e.right_right) ∧
      e'.left_left = (if rr = some i ∧ e.left_left = none then some s.edges.length else e.left_left)) ∧
    s'.removed = s.removed := by
  simp only [GS.step] at h
  split_ifs at h with h1 h2 h3
  cases h
  obtain ⟨hll, hrr⟩ := h1
  set n := s.edges.length with hn
  have gR : ∀ (es : List (Edge V (List D))) i, (setRight es ll n)[i]? =
      (es[i]?).map fun e => if ll = some i ∧ e.right_right = none then { e with right_right := some n } else e := by
    intro es i
    cases ll with
    | none => simp [setRight]
    | some a =>
      simp only [setRight, List.getElem?_modify, Option.some.injEq]
      rcases es[i]? with _ | e
      · simp
      · by_cases ha : a = i <;> simp [ha]
  have gL : ∀ (es : List (Edge V (List D))) i, (setLeft es rr n)[i]? =
      (es[i]?).map fun e => if rr = some i ∧ e.left_left = none then { e with left_left := some n } else e := by
    intro es i
    cases rr with
    | none => simp [setLeft]
    | some a =>
      simp only [setLeft, List.getElem?_modify, Option.some.injEq]
      rcases es[i]? with _ | e
      · simp
      · by_cases ha : a = i <;> simp [ha]
  have hlln : ll ≠ some n := by rintro rfl; simp [GS.isEdge, hn] at hll
  have hrrn : rr ≠ some n := by rintro rfl; simp [GS.isEdge, hn] at hrr
  refine ⟨?_, ?_, rfl⟩
  · refine ⟨⟨l, r, cps, ll, rr⟩, ?_, rfl, rfl, rfl, rfl, rfl⟩
    simp only [gL, gR]
    rw [List.getElem?_append_right (by omega)]
    simp [← hn, hlln, hrrn]
  · intro i e he
    have hi : i < s.edges.length := (List.getElem?_eq_some_iff.1 he).1
    simp only [gL, gR]
    rw [List.getElem?_append_left hi, he]
    refine ⟨_, rfl, ?_, ?_, ?_, ?_, ?_⟩ <;> beta_reduce <;> split_ifs <;> simp_all

/-- C90: `validate()` returns `True` exactly if every node has an even number of edge ends, at least four, and every edge has an edge before and
an edge after it. It prints `apparently valid` and nothing else if so, and otherwise a line for each fault, never `edge missing`. -/
theorem C90_validate (s : GS V D) :
    (s.validate.2 = true ↔ (∀ v es, (v, es) ∈ s.nodes → es.length % 2 = 0 ∧ 4 ≤ es.length) ∧
      ∀ e ∈ s.edges, e.left_left ≠ none ∧ e.right_right ≠ none) ∧
    (s.validate.2 = true ↔ s.validate.1 = [.valid]) ∧ (s.validate.2 = true ∨ .valid ∉ s.validate.1) ∧
    (∀ v, .missing v ∉ s.validate.1) ∧
    (∀ v n, .count v n ∈ s.validate.1 ↔ ∃ es, (v, es) ∈ s.nodes ∧ es.length = n ∧ (n % 2 ≠ 0 ∨ n < 4)) := by
  have hnode : ∀ n : V × List ℕ, nodeMsgs n = if n.2.length % 2 ≠ 0 ∨ n.2.length < 4 then [.count n.1 n.2.length] else [] := by
    intro n
    unfold nodeMsgs
    have : (n.2.flatMap fun e => if e ∉ n.2 then [GMsg.missing n.1] else []) = [] := by
      rw [List.flatMap_eq_nil_iff]
      intro e he
      simp [he]
    rw [this, List.append_nil]
  set bad := s.nodes.flatMap nodeMsgs ++ s.edges.flatMap edgeMsgs with hbad
  have hv : s.validate = if bad = [] then ([.valid], true) else (bad, false) := rfl
  have hb : bad = [] ↔ (∀ v es, (v, es) ∈ s.nodes → es.length % 2 = 0 ∧ 4 ≤ es.length) ∧
      ∀ e ∈ s.edges, e.left_left ≠ none ∧ e.right_right ≠ none := by
    rw [hbad, List.append_eq_nil_iff, List.flatMap_eq_nil_iff, List.flatMap_eq_nil_iff]
    constructor
    · rintro ⟨h1, h2⟩
      constructor
      · intro v es h
        have := h1 _ h
        rw [hnode] at this
        split_ifs at this with hc
        push Not at hc
        exact hc
      · intro e he
        have := h2 e he
        simp only [edgeMsgs, List.append_eq_nil_iff] at this
        constructor
        · intro hc; simp [hc] at this
        · intro hc; simp [hc] at this
    · rintro ⟨h1, h2⟩
      constructor
      · rintro ⟨v, es⟩ h
        rw [hnode, if_neg]
        have := h1 v es h
        push Not
        exact this
      · intro e he
        simp [edgeMsgs, h2 e he]
  have hm : ∀ m ∈ bad, (∃ v n es, m = .count v n ∧ (v, es) ∈ s.nodes ∧ es.length = n ∧ (n % 2 ≠ 0 ∨ n < 4)) ∨ m = .noLeft ∨ m = .noRight := by
    intro m hm
    rw [hbad, List.mem_append, List.mem_flatMap, List.mem_flatMap] at hm
    rcases hm with ⟨⟨v, es⟩, h1, h2⟩ | ⟨e, h1, h2⟩
    · rw [hnode] at h2
      split_ifs at h2 with hc
      · simp only [List.mem_singleton] at h2
        exact .inl ⟨v, es.length, es, h2, h1, rfl, hc⟩
      · cases h2
    · simp only [edgeMsgs, List.mem_append] at h2
      right
      rcases h2 with h2 | h2 <;> split_ifs at h2 <;> simp at h2
      · exact .inl h2
      · exact .inr h2
  by_cases h0 : bad = []
  · rw [hv, if_pos h0]
    have hb' := hb.1 h0
    refine ⟨by simpa using hb', by simp, by simp, by simp, ?_⟩
    intro v n
    simp only [List.mem_singleton, reduceCtorEq, false_iff]
    rintro ⟨es, h1, rfl, h2⟩
    have := hb'.1 v es h1
    omega
  · rw [hv, if_neg h0]
    refine ⟨?_, ?_, ?_, ?_, ?_⟩
    · simp only [Bool.false_eq_true, false_iff]
      exact fun hc => h0 (hb.2 hc)
    · simp only [Bool.false_eq_true, false_iff]
      intro hc
      rcases hm .valid (by rw [hc]; simp) with ⟨_, _, _, h, _⟩ | h | h <;> cases h
    · right
      intro hc
      rcases hm _ hc with ⟨_, _, _, h, _⟩ | h | h <;> cases h
    · intro v hc
      rcases hm _ hc with ⟨_, _, _, h, _⟩ | h | h <;> cases h
    · intro v n
      constructor
      · intro hc
        rcases hm _ hc with ⟨v', n', es, h, h1, h2⟩ | h | h
        · cases h; exact ⟨es, h1, h2⟩
        · cases h
        · cases h
      · rintro ⟨es, h1, rfl, h2⟩
        simp only [hbad, List.mem_append, List.mem_flatMap]
        refine .inl ⟨_, h1, ?_⟩
        rw [hnode, if_pos h2]
        simp

/-- C90: `node.any_edge(not_this_one)` returns the earliest edge that leads to the node, is not marked and does not continue in
`not_this_one`, and `None` exactly if there is none. -/
theorem C90_any_edge {C : Type} (g : Graph V C) (removed : Finset ℕ) (v : V) (notThis : Option ℕ) :
    (∀ i, g.anyEdge removed v notThis = some i →
      (∃ e, g.edges[i]? = some e ∧ i ∉ removed ∧ e.right = v ∧ e.right_right ≠ notThis) ∧
      ∀ j < i, ∀ e, g.edges[j]? = some e → j ∈ removed ∨ e.right ≠ v ∨ e.right_right = notThis) ∧
    (g.anyEdge removed v notThis = none ↔
      ∀ j e, g.edges[j]? = some e → j ∈ removed ∨ e.right ≠ v ∨ e.right_right = notThis) := by
  have hmem : ∀ j e, g.edges[j]? = some e → e.right = v → j ∈ g.nodeEdges v := by
    intro j e he hv
    rw [← List.count_pos_iff, nodeEdges_count, he]
    simp [hv]
  have hnot : ∀ j e, g.edges[j]? = some e → ¬ g.eligible removed v notThis j = true → j ∈ removed ∨ e.right ≠ v ∨ e.right_right = notThis := by
    intro j e he h
    rw [Graph.eligible_iff] at h
    by_contra hc
    push Not at hc
    exact h ⟨e, he, hc.1, hc.2.1, hc.2.2⟩
  constructor
  · intro i hi
    refine ⟨Graph.eligible_iff.1 (Graph.anyEdge_eligible hi), ?_⟩
    intro j hj e he
    by_contra hc
    have hc' := hc
    push Not at hc'
    have hjm := hmem j e he hc'.2.1
    unfold Graph.anyEdge at hi
    rw [List.find?_eq_some_iff_append] at hi
    obtain ⟨-, as, bs, hab, has⟩ := hi
    have hs := nodeEdges_sorted g v
    rw [hab, List.pairwise_append] at hs
    rw [hab, List.mem_append, List.mem_cons] at hjm
    rcases hjm with h | h | h
    · have := has j h
      simp only [Bool.not_eq_true'] at this
      exact hc (hnot j e he (by simp [this]))
    · omega
    · have := (List.pairwise_cons.1 hs.2.1).1 j h
      omega
  · unfold Graph.anyEdge
    rw [List.find?_eq_none]
    constructor
    · intro h j e he
      by_cases hv : e.right = v
      · exact hnot j e he (h j (hmem j e he hv))
      · exact .inr (.inl hv)
    · intro h j _ hc
      obtain ⟨e, he, h1, h2, h3⟩ := Graph.eligible_iff.1 hc
      rcases h j e he with h | h | h
      · exact h1 h
      · exact h h2
      · exact h3 h

/-- A state with the given graph whose nodes have the lists of edges that they have after every history (`C90_history`). -/
def Graph.state (g : Graph V (List D)) : GS V D :=
  ⟨g.nodes.map fun v => (v, g.nodeEdges v), g.edges, (List.range g.edges.length).map fun i => 'e' :: fmtNat i, ∅⟩

/-- C90: the check that every edge of a node is an edge of the graph is vacuous: it looks in the node's own list. With an edge taken out of the
list of the graph, two nodes still have it, but `validate` returns `True`. -/
theorem C90_missing_edge_counterexample :
    ∃ (s : GS ℕ ℕ) (ops : List (GOp ℕ ℕ)), s = GS.empty.run ops ∧ s.validate = ([.valid], true) ∧
      (GS.validate { s with edges := s.edges.dropLast } = ([.valid], true)) ∧
      ∃ v es i, (v, es) ∈ s.nodes ∧ i ∈ es ∧ s.edges.dropLast.length ≤ i := by
  refine ⟨_, [.node 0 true, .node 1 true, .addEdge none 0 [7, 8] 1 none, .addEdge (some 0) 1 [8, 9] 0 none,
    .addEdge (some 1) 0 [9, 8] 1 none, .addEdge (some 2) 1 [8, 7] 0 none, .link 3 0], rfl, by decide +kernel, by decide +kernel,
    0, [0, 1, 2, 3], 3, by decide +kernel, by decide, by decide +kernel⟩

/-! ### The graph of a self-intersecting curve -/

/-- C90: adding an edge after the last one, and linking the last and the first, as `bez_self_intersect` does, gives the edges of the model that
C65 is about. -/
theorem C90_same_graph (s s' : GS (Pt ℝ) (CP ℝ)) (l r : Pt ℝ) (cps : List (CP ℝ)) :
    (s.edges = [] → s.step (.addEdge none l cps r none) = .ok s' → s'.edges = addEdge s.edges l cps r) ∧
    (s.edges ≠ [] → s.step (.addEdge (some (s.edges.length - 1)) l cps r none) = .ok s' → s'.edges = addEdge s.edges l cps r) ∧
    (s.edges ≠ [] → ∀ es, stitch s.edges = .ok es → s.step (.link (s.edges.length - 1) 0) = .ok { s with edges := es }) := by
  refine ⟨?_, ?_, ?_⟩
  · intro h0 h
    simp only [GS.step] at h
    split_ifs at h
    cases h
    simp [h0, addEdge, setLeft, setRight]
  · intro h0 h
    simp only [GS.step] at h
    split_ifs at h
    cases h
    obtain ⟨init, last, hl⟩ := List.eq_nil_or_concat'  s.edges |>.resolve_left h0
    rw [hl]
    apply List.ext_getElem?
    intro i
    have e1 : (init ++ [last]).length - 1 = init.length := by simp
    simp only [addEdge, List.getLast?_append, List.getLast?_singleton, Option.some_or, setLeft, setRight, e1, List.dropLast_concat]
    rw [List.getElem?_modify, List.append_assoc init, List.append_assoc init]
    rcases lt_trichotomy i init.length with hi | hi | hi
    · rw [List.getElem?_append_left hi, List.getElem?_append_left hi]
      have : init.length ≠ i := by omega
      simp [this]
    · subst hi
      rw [List.getElem?_append_right le_rfl, List.getElem?_append_right le_rfl]
      cases hr : last.right_right
      · simp [hr]
      · simp only [Nat.sub_self, List.cons_append, List.getElem?_cons_zero, if_true, hr, Option.map_eq_map, Option.map_some]
        obtain ⟨_, _, _, _, _⟩ := last
        simp only at hr
        simp [hr]
    · rw [List.getElem?_append_right hi.le, List.getElem?_append_right hi.le]
      obtain ⟨k, hk⟩ : ∃ k, i - init.length = k + 1 := ⟨i - init.length - 1, by omega⟩
      have : init.length ≠ i := by omega
      simp [this, hk]
  · intro h0 es h
    unfold stitch at h
    cases hh : s.edges with
    | nil => exact absurd hh h0
    | cons a es' =>
      rw [hh] at h
      simp only [List.head?_cons] at h
      split at h
      · split_ifs at h
        cases h
        simp only [GS.step, hh]
        rw [if_pos (by simp)]
      · simp at h

/-- Every edge but the first has an edge before it. -/
def BackLinked (es : List (Edge (Pt ℝ) (List (CP ℝ)))) : Prop := ∀ i e, es[i]? = some e → i ≠ 0 → e.left_left ≠ none

theorem backLinked_addEdge {es : List (Edge (Pt ℝ) (List (CP ℝ)))} (h : BackLinked es) (l r : Pt ℝ) (cps : List (CP ℝ)) :
    BackLinked (addEdge es l cps r) := by
  unfold addEdge
  rcases List.eq_nil_or_concat' es with rfl | ⟨init, last, rfl⟩
  · intro i e he hi
    cases i with
    | zero => exact absurd rfl hi
    | succ i => simp at he
  · simp only [List.getLast?_append, List.getLast?_singleton, Option.some_or, List.dropLast_concat]
    intro i e he hi
    rcases lt_trichotomy i init.length with hlt | heq | hgt
    · rw [List.append_assoc, List.getElem?_append_left hlt] at he
      exact h i e (by rw [List.getElem?_append_left hlt, he]) hi
    · subst heq
      have h' := h init.length last (by simp) hi
      rw [List.append_assoc, List.getElem?_append_right (le_refl _)] at he
      simp at he
      subst he
      exact h'
    · rw [List.getElem?_append_right (by simp; omega)] at he
      have : i = init.length + 1 := by
        have := (List.getElem?_eq_some_iff.1 he).1
        simp at this
        omega
      subst this
      simp at he
      subst he
      simp

theorem backLinked_makeEdges : ∀ (xs : List CpBool) (segment : List (CP ℝ)) (prev : Option (Pt ℝ)) (es es' : List (Edge (Pt ℝ) (List (CP ℝ)))),
    BackLinked es → makeEdges segment prev es xs = .ok es' → BackLinked es'
  | [], _, _, _, _, h, he => by
    simp only [makeEdges, Except.ok.injEq] at he
    exact he ▸ h
  | x :: xs, segment, prev, es, es', h, he => by
    rw [makeEdges] at he
    cases hx : x.node with
    | none =>
      rw [hx] at he
      exact backLinked_makeEdges xs _ _ _ _ h he
    | some node =>
      rw [hx] at he
      simp only at he
      split_ifs at he
      · exact backLinked_makeEdges xs _ _ _ _ h he
      · cases prev with
        | none => simp at he
        | some left => exact backLinked_makeEdges xs _ _ _ _ (backLinked_addEdge h _ _ _) he

theorem graphOf_back {curves : List ((CP ℝ × CP ℝ) × List (ℝ × Pt ℝ))} {g : Graph (Pt ℝ) (List (CP ℝ))} (h : graphOf curves = .ok g) :
    g.nodes = nodesOf curves ∧ ∀ e ∈ g.edges, e.left_left ≠ none := by
  unfold graphOf at h
  cases h1 : expand [] curves with
  | error e => simp [h1] at h
  | ok c1 =>
    simp only [h1] at h
    cases h2 : closeUp c1 with
    | error e => simp [h2] at h
    | ok c2 =>
      simp only [h2] at h
      cases h3 : rotateFirst c2 with
      | error e => simp [h3] at h
      | ok c3 =>
        simp only [h3] at h
        cases h4 : makeEdges [] none [] (c3 ++ c3.take 1) with
        | error e => simp [h4] at h
        | ok es =>
          simp only [h4] at h
          have hb := backLinked_makeEdges _ _ _ _ _ (by intro i e he; simp at he) h4
          cases h5 : stitch es with
          | error e => simp [h5] at h
          | ok es' =>
            simp only [h5, Except.ok.injEq] at h
            subst h
            refine ⟨rfl, ?_⟩
            unfold stitch at h5
            split at h5
            · split_ifs at h5
              simp only [Except.ok.injEq] at h5
              subst h5
              intro e he
              obtain ⟨i, hi, rfl⟩ := List.getElem_of_mem he
              rw [List.getElem_modify]
              split_ifs with h0
              · simp
              · rw [List.getElem_modify]
                have hi' : i < es.length := by simpa using hi
                have := hb i es[i] (List.getElem?_eq_getElem hi') (by omega)
                split_ifs <;> exact this
            · simp at h5

theorem count_modify {A : Type} (v : A) (x : ℝ × A) [DecidableEq A] : ∀ (acc : List (List (ℝ × A))) (k : ℕ), k < acc.length →
    ((acc.modify k (· ++ [x])).flatten.map Prod.snd).count v = (acc.flatten.map Prod.snd).count v + if x.2 = v then 1 else 0
  | [], k, h => by simp at h
  | a :: acc, 0, _ => by
    simp [List.count_append, List.count_cons, beq_iff_eq]
    omega
  | a :: acc, k + 1, h => by
    have := count_modify v x acc k (by simpa using h)
    simp only [List.modify_succ_cons, List.flatten_cons, List.map_append, List.count_append]
    rw [this]
    omega

theorem passed_count (v : Pt ℝ) : ∀ (cs : List (CP ℝ × CP ℝ)) (ixs : List (List (ℝ × Pt ℝ))), ixs.length = cs.length →
    (passed (cs.zip ixs)).count v = (ixs.flatten.map Prod.snd).count v
  | [], ixs, h => by
    have : ixs = [] := by simpa using h
    subst this
    rfl
  | c :: cs, [], h => by simp at h
  | c :: cs, l :: ixs, h => by
    have := passed_count v cs ixs (by simpa using h)
    simp only [passed, List.zip_cons_cons, List.flatMap_cons, List.count_append, List.flatten_cons, List.map_append]
    rw [show (List.flatMap (fun c => (sortIxs c.2).map Prod.snd) (cs.zip ixs)) = passed (cs.zip ixs) from rfl, this]
    congr 1
    exact ((List.mergeSort_perm l ixLe).map _).count_eq v

theorem findIxs_even (lib : Lib) (cs : List (CP ℝ × CP ℝ)) (v : Pt ℝ) : ((findIxs lib cs).flatten.map Prod.snd).count v % 2 = 0 := by
  rw [findIxs_eq, records]
  have key : ∀ (ps : List (ℕ × ℕ)), (∀ ij ∈ ps, ij.1 < cs.length ∧ ij.2 < cs.length) → ∀ acc : List (List (ℝ × Pt ℝ)), acc.length = cs.length →
      (acc.flatten.map Prod.snd).count v % 2 = 0 →
      (((ps.flatMap fun ij => match cs[ij.1]?, cs[ij.2]? with
        | some a, some b => (bezIntersectNew lib a.1 a.2 b.1 b.2 false).flatMap fun x => [(ij.1, (x.2.1, x.1)), (ij.2, (x.2.2, x.1))]
        | _, _ => []).foldl (fun acc r => acc.modify r.1 (· ++ [r.2])) acc).flatten.map Prod.snd).count v % 2 = 0 := by
    intro ps
    induction ps with
    | nil => intro _ acc _ h; simpa using h
    | cons ij ps ih =>
      intro hp acc hl h
      rw [List.flatMap_cons, List.foldl_append]
      have hij := hp ij (by simp)
      have hin : ∀ (xs : List (Pt ℝ × ℝ × ℝ)) (acc : List (List (ℝ × Pt ℝ))), acc.length = cs.length →
          (acc.flatten.map Prod.snd).count v % 2 = 0 →
          ((xs.flatMap fun x => [(ij.1, (x.2.1, x.1)), (ij.2, (x.2.2, x.1))]).foldl (fun acc r => acc.modify r.1 (· ++ [r.2])) acc).length = cs.length ∧
          (((xs.flatMap fun x => [(ij.1, (x.2.1, x.1)), (ij.2, (x.2.2, x.1))]).foldl (fun acc r => acc.modify r.1 (· ++ [r.2])) acc).flatten.map Prod.snd).count v % 2 = 0 := by
        intro xs
        induction xs with
        | nil => intro acc h1 h2; exact ⟨h1, h2⟩
        | cons x xs ihx =>
          intro acc h1 h2
          rw [List.flatMap_cons, List.foldl_append]
          apply ihx
          · simp [h1]
          · simp only [List.foldl_cons, List.foldl_nil]
            rw [count_modify _ _ _ _ (by simp [h1, hij.2]), count_modify _ _ _ _ (by simp [h1, hij.1])]
            simp only
            split_ifs <;> omega
      cases ha : cs[ij.1]? with
      | none => exact ih (fun x hx => hp x (by simp [hx])) _ hl h
      | some a =>
        cases hb : cs[ij.2]? with
        | none => exact ih (fun x hx => hp x (by simp [hx])) _ hl h
        | some b =>
          obtain ⟨k1, k2⟩ := hin (bezIntersectNew lib a.1 a.2 b.1 b.2 false) acc hl h
          exact ih (fun x hx => hp x (by simp [hx])) _ k1 k2
  refine key _ ?_ _ (by simp) ?_
  · rintro ⟨i, j⟩ hij
    have := mem_combos.1 hij
    exact ⟨by simp only; omega, this.2⟩
  · have : (List.replicate cs.length ([] : List (ℝ × Pt ℝ))).flatten = [] := by simp
    rw [this]; rfl

theorem word_left {g : Graph (Pt ℝ) (List (CP ℝ))} {w : List (Pt ℝ)} (h : g.Word w) : g.edges.map Edge.left = w := by
  apply List.ext_getElem?
  intro i
  by_cases hi : i < w.length
  · obtain ⟨e, h1, h2, -⟩ := h.edge i hi
    rw [List.getElem?_map, h1, h2]; rfl
  · rw [List.getElem?_eq_none (by simp [h.len]; omega), List.getElem?_eq_none (by omega)]

theorem word_right {g : Graph (Pt ℝ) (List (CP ℝ))} {w : List (Pt ℝ)} (h : g.Word w) : g.edges.map Edge.right = w.rotate 1 := by
  apply List.ext_getElem?
  intro i
  by_cases hi : i < w.length
  · obtain ⟨e, h1, h2, h3, -⟩ := h.edge i hi
    rw [List.getElem?_map, h1, List.getElem?_rotate hi, h3]; rfl
  · rw [List.getElem?_eq_none (by simp [h.len]; omega), List.getElem?_eq_none (by simp; omega)]

/-- C90: the graph that `bez_self_intersect` builds from exactly found intersections is valid: every node has four edge ends for each pair of
branches found to cross there, and every edge has an edge before and one after it. `validate` prints `apparently valid` for it. -/
theorem C90_self_valid (lib : Lib) (cps : List (CP ℝ)) (hs : lib.Sound) (hn : NoEnds lib (segList lib cps))
    (hx : ∃ i j t s, Cross lib (segList lib cps) i j t s) :
    ∃ g, graphOf ((allCurves (hitLib lib) cps).zip (findIxs lib (allCurves (hitLib lib) cps))) = .ok g ∧
      g.state.validate = ([.valid], true) ∧ ∀ v ∈ g.nodes, (g.nodeEdges v).length % 4 = 0 ∧ (g.nodeEdges v).length ≠ 0 := by
  set curves := (allCurves (hitLib lib) cps).zip (findIxs lib (allCurves (hitLib lib) cps)) with hcurves
  have he := exact_of lib cps hs hn
  rw [← hcurves] at he
  have hlen : (findIxs lib (allCurves (hitLib lib) cps)).length = (allCurves (hitLib lib) cps).length := findIxs_length _ _
  have hp : passed curves ≠ [] := by
    obtain ⟨l, hl, hl'⟩ := (nonempty_iff lib cps).2 hx
    intro h
    have hno := passed_nil h
    obtain ⟨i, hi, rfl⟩ := List.getElem_of_mem hl
    refine hl' (hno ((allCurves (hitLib lib) cps)[i]'(by omega), (findIxs lib (allCurves (hitLib lib) cps))[i]) ?_)
    rw [hcurves, ← List.getElem_zip (h := by rw [List.length_zip]; omega)]
    exact List.getElem_mem _
  obtain ⟨A, hf⟩ : ∃ A, Follow A A curves := by
    cases cps with
    | nil =>
      exfalso
      apply hp
      simp [hcurves, allCurves, iterRotate2, passed]
    | cons p l => exact ⟨_, follow_all (hitLib lib) p l _ hlen⟩
  obtain ⟨g, pieces, h1, h2, -⟩ := graphOf_ok he hf hp
  obtain ⟨h3, h4⟩ := graphOf_back h1
  have h5 : ∀ v ∈ g.nodes, (g.nodeEdges v).length % 4 = 0 ∧ (g.nodeEdges v).length ≠ 0 := by
    intro v hv
    rw [h3, mem_nodesOf] at hv
    have hpos := List.count_pos_iff.2 hv
    rw [nodeEdges_length, word_left h2, word_right h2, ((List.rotate_perm _ 1).count_eq v)]
    have hev := findIxs_even lib (allCurves (hitLib lib) cps) v
    rw [← passed_count v _ _ hlen, ← hcurves] at hev
    omega
  refine ⟨g, h1, ?_, h5⟩
  have hv := C90_validate g.state
  have ht : g.state.validate.2 = true := by
    rw [hv.1]
    constructor
    · intro v es h
      simp only [Graph.state, List.mem_map, Prod.mk.injEq] at h
      obtain ⟨v', h, rfl, rfl⟩ := h
      have := h5 v' h
      omega
    · intro e he
      obtain ⟨i, hi, rfl⟩ := List.getElem_of_mem he
      refine ⟨h4 _ he, ?_⟩
      exact (Word.complete h2).next _ he
  exact Prod.ext (hv.2.1.1 ht) ht

/-- The hypotheses are met: the bow tie crosses itself, and its graph has one node with four edge ends. -/
example : bowLib.Sound ∧ NoEnds bowLib (segList bowLib bow) ∧ ∃ i j t s, Cross bowLib (segList bowLib bow) i j t s := by
  refine ⟨bowLib_sound, ?_, 0, 2, 1 / 2, 1 / 2, (bow_cross _ _ _ _).2 ⟨rfl, rfl, rfl, rfl⟩⟩
  intro i j t s h
  obtain ⟨-, -, rfl, rfl⟩ := (bow_cross _ _ _ _).1 h
  norm_num

end X7.Bzi
