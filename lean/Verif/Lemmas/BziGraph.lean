import Verif.Spec.BziGraph

/-!
The inner loop of the walk finds a loop.
-/

namespace X7.Bzi

variable {V C : Type} [DecidableEq V]

theorem lt_of_get {g : Graph V C} {i : ℕ} {e : Edge V C} (h : g.edges[i]? = some e) : i < g.edges.length := by
  by_contra hc
  rw [List.getElem?_eq_none (by omega)] at h
  exact absurd h (by simp)

theorem firstMatch_none {g : Graph V C} {v : V} {l : List ℕ} (h : g.firstMatch v l = none) : some v ∉ l.map g.to := by
  intro hc
  obtain ⟨j, hj, he⟩ := List.mem_map.1 hc
  have := List.findIdx?_eq_none_iff.1 h j hj
  unfold Graph.to at he
  cases hg : g.edges[j]? with
  | none => rw [hg] at he; exact absurd he (by simp)
  | some e =>
    rw [hg] at he this
    simp only [Option.map_some, Option.some.injEq] at he
    simp [he] at this

theorem firstMatch_some {g : Graph V C} {v : V} {l : List ℕ} {m : ℕ} (h : g.firstMatch v l = some m) :
    ∃ (hm : m < l.length), g.to l[m] = some v := by
  obtain ⟨hm, h1, _⟩ := List.findIdx?_eq_some_iff_getElem.1 h
  refine ⟨hm, ?_⟩
  unfold Graph.to
  cases hg : g.edges[l[m]]? with
  | none => rw [hg] at h1; exact absurd h1 (by simp)
  | some e =>
    rw [hg] at h1
    simp only [decide_eq_true_eq] at h1
    simp [h1]

/-- What holds during the inner loop, `base` being the marks at its start. -/
structure Inv (g : Graph V C) (base removed : Finset ℕ) (edges : List ℕ) (edge : ℕ) : Prop where
  marks : removed = base ∪ edges.toFinset
  fresh : ∀ i ∈ edges ++ [edge], i ∉ base ∧ i < g.edges.length
  nodup : ((edges ++ [edge]).map g.to).Nodup
  chain : (edges ++ [edge]).IsChain fun a b => g.from a = g.to b

theorem Inv.next {g : Graph V C} {base removed : Finset ℕ} {edges : List ℕ} {edge : ℕ} (hi : Inv g base removed edges edge)
    {e : Edge V C} (h0 : g.edges[edge]? = some e) (hm : g.firstMatch e.left (edges ++ [edge]) = none) {next : ℕ}
    (hn : g.anyEdge (insert edge removed) e.left (some edge) = some next) :
    Inv g base (insert edge removed) (edges ++ [edge]) next := by
  obtain ⟨e', he', hne, hr, _⟩ := Graph.eligible_iff.1 (Graph.anyEdge_eligible hn)
  have hto : g.to next = some e.left := by simp [Graph.to, he', hr]
  have hfr : g.from edge = some e.left := by simp [Graph.from, h0]
  refine ⟨?_, ?_, ?_, ?_⟩
  · rw [hi.marks]
    ext x
    simp
  · intro i hmem
    rcases List.mem_append.1 hmem with h1 | h1
    · exact hi.fresh i h1
    · rw [List.mem_singleton] at h1
      subst h1
      refine ⟨fun hc => hne ?_, lt_of_get he'⟩
      rw [hi.marks]
      simp [hc]
  · rw [List.map_append, List.nodup_append]
    refine ⟨hi.nodup, by simp, ?_⟩
    intro a ha b hb hab
    simp only [List.map_cons, List.map_nil, List.mem_singleton] at hb
    subst hab
    rw [hb, hto] at ha
    exact firstMatch_none hm ha
  · rw [List.isChain_append]
    refine ⟨hi.chain, by simp, ?_⟩
    intro x hx y hy
    simp at hx hy
    subst hx hy
    rw [hto, hfr]

/-- The inner loop, started on unmarked edges, ends with `AttributeError` or with a loop of unmarked edges, which are exactly the ones it
has marked. -/
theorem inner_spec {g : Graph V C} {base : Finset ℕ} (removed : Finset ℕ) (edges : List ℕ) (edge : ℕ)
    (hi : Inv g base removed edges edge) :
    g.inner removed edges edge = .error .attribute ∨
      ∃ l, g.inner removed edges edge = .ok (l, base ∪ l.toFinset) ∧ g.IsLoop l ∧ ∀ i ∈ l, i ∉ base := by
  induction removed, edges, edge using Graph.inner.induct g with
  | case1 removed edges edge h0 =>
    rw [Graph.inner, h0]
    exact .inl rfl
  | case2 removed edges edge e h0 edges' m hm =>
    right
    have hl := lt_of_get h0
    have e1 : g.inner removed edges edge =
        .ok ((edges ++ [edge]).drop m, insert edge removed \ ((edges ++ [edge]).take m).toFinset) := by
      rw [Graph.inner, h0]
      simp only
      rw [hm]
    obtain ⟨hml, hmv⟩ := firstMatch_some hm
    have hnd : (edges ++ [edge]).Nodup := List.Nodup.of_map _ hi.nodup
    refine ⟨(edges ++ [edge]).drop m, ?_, ⟨?_, ?_, ?_, ?_, ?_⟩, ?_⟩
    · rw [e1]
      congr 2
      rw [hi.marks]
      ext x
      have hx : x ∈ edges ++ [edge] ↔ x ∈ (edges ++ [edge]).take m ∨ x ∈ (edges ++ [edge]).drop m := by
        rw [← List.mem_append, List.take_append_drop]
      have hdis : x ∈ (edges ++ [edge]).take m → x ∉ (edges ++ [edge]).drop m := by
        intro h1 h2
        rw [← List.take_append_drop m (edges ++ [edge])] at hnd
        exact (List.nodup_append.1 hnd).2.2 x h1 x h2 rfl
      have hb : x ∈ base → x ∉ edges ++ [edge] := fun h1 h2 => (hi.fresh x h2).1 h1
      simp only [Finset.mem_sdiff, Finset.mem_insert, Finset.mem_union, List.mem_toFinset]
      have hx' : x ∈ edges ++ [edge] ↔ x = edge ∨ x ∈ edges := by simp [or_comm]
      constructor
      · rintro ⟨h1, h2⟩
        rcases h1 with h1 | h1 | h1
        · exact .inr ((hx.1 (hx'.2 (.inl h1))).resolve_left h2)
        · exact .inl h1
        · exact .inr ((hx.1 (hx'.2 (.inr h1))).resolve_left h2)
      · rintro (h1 | h1)
        · exact ⟨.inr (.inl h1), fun h2 => hb h1 (hx.2 (.inl h2))⟩
        · refine ⟨?_, fun h2 => hdis h2 h1⟩
          rcases hx'.1 (hx.2 (.inr h1)) with h3 | h3
          · exact .inl h3
          · exact .inr (.inr h3)
    · simp only [ne_eq, List.drop_eq_nil_iff, not_le]
      exact hml
    · intro i him
      exact (hi.fresh i (List.mem_of_mem_drop him)).2
    · exact hi.chain.drop m
    · refine ⟨(edges ++ [edge])[m], edge, ?_, ?_, ?_⟩
      · rw [List.head?_drop, List.getElem?_eq_getElem hml]
      · rw [List.getLast?_drop, if_neg (by have : m < (edges ++ [edge]).length := hml; omega)]
        simp
      · rw [hmv]
        simp [Graph.from, h0]
    · rw [List.map_drop]
      exact hi.nodup.sublist (List.drop_sublist _ _)
    · intro i him
      exact (hi.fresh i (List.mem_of_mem_drop him)).1
  | case3 removed edges edge e h0 edges' removed' hm hn =>
    left
    rw [Graph.inner, h0]
    simp only
    rw [hm]
    simp only
    split
    · rfl
    · rename_i hn'
      rw [hn] at hn'
      exact absurd hn' (by simp)
  | case4 removed edges edge e h0 edges' removed' hm next hn ih =>
    have e1 : g.inner removed edges edge = g.inner (insert edge removed) (edges ++ [edge]) next := by
      rw [Graph.inner, h0]
      simp only
      rw [hm]
      simp only
      split
      · rename_i hn'
        rw [hn] at hn'
        exact absurd hn' (by simp)
      · rename_i next' hn'
        rw [hn] at hn'
        obtain rfl := Option.some.inj hn'
        rfl
    rw [e1]
    exact ih (hi.next h0 hm hn)

theorem inv_start {g : Graph V C} {base : Finset ℕ} {edge : ℕ} (h1 : edge < g.edges.length) (h2 : edge ∉ base) :
    Inv g base base [] edge :=
  ⟨by simp, by simp [h1, h2], by simp, by simp⟩

/-- Finding a loop marks at least one more edge. -/
theorem inner_left {g : Graph V C} {base : Finset ℕ} {edge : ℕ} (h1 : edge < g.edges.length) (h2 : edge ∉ base) {l : List ℕ}
    {marks : Finset ℕ} (h : g.inner base [] edge = .ok (l, marks)) : g.left marks < g.left base := by
  rcases inner_spec base [] edge (inv_start h1 h2) with h3 | ⟨l', h3, hl, hf⟩
  · rw [h] at h3
    exact absurd h3 (by simp)
  · rw [h] at h3
    simp only [Except.ok.injEq, Prod.mk.injEq] at h3
    obtain ⟨rfl, rfl⟩ := h3
    obtain ⟨a, ha⟩ := List.exists_mem_of_ne_nil _ hl.nonempty
    unfold Graph.left
    apply Finset.card_lt_card
    rw [Finset.ssubset_iff_of_subset (fun x hx => by simp at hx ⊢; tauto)]
    exact ⟨a, by simp [hl.edges a ha, hf a ha], by simp [ha]⟩

end X7.Bzi
