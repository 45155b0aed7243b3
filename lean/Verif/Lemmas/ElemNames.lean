import Verif.Spec.ElemNames
import Verif.Lemmas.Elem

/-!
Lemmas on names in trees of elements.
-/

namespace X7.Elem

theorem joinDots_cons (c : Str) {rest : List Str} (h : rest ≠ []) : joinDots (c :: rest) = c ++ '.' :: joinDots rest := by
  cases rest with
  | nil => exact absurd rfl h
  | cons a b => rfl

mutual
theorem parts_ne : (e : Elem) → ∀ p ∈ parts e, p.1 ≠ []
  | .curve h x => by simp [parts]
  | .rect h x y => by simp [parts]
  | .rrect h x y z => by simp [parts]
  | .ellipse h x y => by simp [parts]
  | .group h hd es => by
    intro p hp
    simp only [parts, List.mem_map] at hp
    obtain ⟨q, -, rfl⟩ := hp
    simp
  | .holes h o i => by
    intro p hp
    simp only [parts, List.mem_append, List.mem_map] at hp
    rcases hp with ⟨q, -, rfl⟩ | ⟨q, -, rfl⟩ <;> simp
end

theorem partsAll_ne : (es : List (Str × Elem)) → ∀ p ∈ partsAll es, p.1 ≠ []
  | [] => by simp [partsAll]
  | (k, e) :: rest => by
    intro p hp
    simp only [partsAll, List.mem_append] at hp
    rcases hp with h | h
    · exact parts_ne e p h
    · exact partsAll_ne rest p h

theorem partsIn_ne : (es : List Elem) → ∀ p ∈ partsIn es, p.1 ≠ []
  | [] => by simp [partsIn]
  | e :: rest => by
    intro p hp
    simp only [partsIn, List.mem_append] at hp
    rcases hp with h | h
    · exact parts_ne e p h
    · exact partsIn_ne rest p h

/-- What a run of `iter_elems` under the root name `root` must give for the listed parts. -/
def GenOk (g : Gen) (ps : List (List Str × List (Mat3 ℝ) × Elem)) (root : Str) (m : TState) : Prop :=
  g.err = none ∧ g.mat.mat = m.mat ∧ g.mat.stack = m.stack ∧
    g.items.map (fun y => (y.name, y.elem, y.mat.mat)) =
      ps.map fun p => (root ++ '.' :: joinDots p.1, p.2.2, p.2.1.foldl Mat3.mul m.mat)

theorem push_compose_pop (m g : TState) (xf : Mat3 ℝ) (h1 : g.stack = (m.push.compose xf).stack) :
    g.pop.err = none ∧ g.pop.st.mat = m.mat ∧ g.pop.st.stack = m.stack := by
  simp only [TState.compose, TState.push] at h1
  simp [TState.pop, h1]

theorem rootName_some {root : Str} (h : root ≠ []) (name : Str) : rootName (some root) name = root ++ '.' :: name := by
  cases root with
  | nil => exact absurd rfl h
  | cons c r => rfl

theorem rootNameHoles_some {root : Str} (h : root ≠ []) (name : Str) :
    rootNameHoles (some root) name = root ++ '.' :: name ++ ['.'] := by
  cases root with
  | nil => exact absurd rfl h
  | cons c r => rfl

mutual
theorem iter_ok : (e : Elem) → (root : Str) → (m : TState) → Named e → root ≠ [] →
    GenOk (iterElems e (some root) m) (parts e) root m
  | .curve h x, root, m, _, _ => by simp [iterElems, iterLeaf, parts, GenOk, joinDots, hdr]
  | .rect h x y, root, m, _, _ => by simp [iterElems, iterLeaf, parts, GenOk, joinDots, hdr]
  | .rrect h x y z, root, m, _, _ => by simp [iterElems, iterLeaf, parts, GenOk, joinDots, hdr]
  | .ellipse h x y, root, m, _, _ => by simp [iterElems, iterLeaf, parts, GenOk, joinDots, hdr]
  | .group h hd es, root, m, hn, hr => by
    simp only [Named] at hn
    obtain ⟨h1, h2, h3, h4⟩ := iterAll_ok es (root ++ '.' :: h.name) (m.push.compose h.xf) hn.2 (by simp)
    simp only [iterElems, rootName_some hr, h1]
    obtain ⟨k1, k2, k3⟩ := push_compose_pop m _ h.xf h3
    refine ⟨k1, k2, k3, ?_⟩
    rw [h4]
    simp only [parts, List.map_map]
    refine List.map_congr_left fun p hp => ?_
    simp only [Function.comp, joinDots_cons _ (partsAll_ne es p hp), List.foldl_cons]
    simp [TState.compose, TState.push]
  | .holes h o i, root, m, hn, hr => by
    simp only [Named] at hn
    obtain ⟨h1, h2, h3, h4⟩ := iter_ok o (root ++ '.' :: h.name ++ ['.'] ++ ".outside".toList) (m.push.compose h.xf) hn.2.1 (by simp)
    simp only [iterElems, rootNameHoles_some hr]
    rw [if_neg (by simp [TState.compose, TState.push])]
    generalize hg1 : iterElems o _ _ = g1 at h1 h2 h3 h4
    obtain ⟨j1, j2, j3, j4⟩ := iterIn_ok i (root ++ '.' :: h.name ++ ['.'] ++ ".inside".toList) g1.mat hn.2.2 (by simp)
    simp only [h1]
    obtain ⟨k1, k2, k3⟩ := push_compose_pop m _ h.xf (j3.trans h3)
    refine ⟨by rw [k1]; exact j1, k2, k3, ?_⟩
    rw [List.map_append, h4, j4]
    simp only [parts, List.map_append, List.map_map]
    congr 1
    · refine List.map_congr_left fun p hp => ?_
      simp only [Function.comp, joinDots_cons _ (parts_ne o p hp), joinDots_cons _ (List.cons_ne_nil _ _), List.foldl_cons]
      simp [TState.compose, TState.push]
    · refine List.map_congr_left fun p hp => ?_
      simp only [Function.comp, joinDots_cons _ (partsIn_ne i p hp), joinDots_cons _ (List.cons_ne_nil _ _), List.foldl_cons, h2]
      simp [TState.compose, TState.push]
theorem iterAll_ok : (es : List (Str × Elem)) → (root : Str) → (m : TState) → NamedAll es → root ≠ [] →
    GenOk (iterAll es root m) (partsAll es) root m
  | [], root, m, _, _ => by simp [iterAll, partsAll, GenOk]
  | (k, e) :: rest, root, m, hn, hr => by
    simp only [NamedAll] at hn
    obtain ⟨h1, h2, h3, h4⟩ := iter_ok e root m hn.1 hr
    obtain ⟨j1, j2, j3, j4⟩ := iterAll_ok rest root (iterElems e (some root) m).mat hn.2 hr
    simp only [iterAll, h1]
    refine ⟨j1, j2.trans h2, j3.trans h3, ?_⟩
    rw [List.map_append, h4, j4, partsAll, List.map_append, h2]
theorem iterIn_ok : (es : List Elem) → (root : Str) → (m : TState) → NamedIn es → root ≠ [] →
    GenOk (iterIn es root m) (partsIn es) root m
  | [], root, m, _, _ => by simp [iterIn, partsIn, GenOk]
  | e :: rest, root, m, hn, hr => by
    simp only [NamedIn] at hn
    obtain ⟨h1, h2, h3, h4⟩ := iter_ok e root m hn.1 hr
    obtain ⟨j1, j2, j3, j4⟩ := iterIn_ok rest root (iterElems e (some root) m).mat hn.2 hr
    simp only [iterIn, h1]
    refine ⟨j1, j2.trans h2, j3.trans h3, ?_⟩
    rw [List.map_append, h4, j4, partsIn, List.map_append, h2]
end

/-! ### Components -/

theorem partitionDot_cons {k : Str} (hk : '.' ∉ k) (t : Str) : partitionDot (k ++ '.' :: t) = (k, t) := by
  have hp : ∀ c ∈ k, (c != '.') = true := by intro c hc; simp only [bne_iff_ne, ne_eq]; rintro rfl; exact hk hc
  simp [partitionDot, List.takeWhile_append_of_pos hp, List.dropWhile_append_of_pos hp]

theorem partitionDot_none {k : Str} (hk : '.' ∉ k) : partitionDot k = (k, []) := by
  have hp : ∀ c ∈ k, (c != '.') = true := by intro c hc; simp only [bne_iff_ne, ne_eq]; rintro rfl; exact hk hc
  have h1 : k.takeWhile (· != '.') = k := by
    have := List.takeWhile_append_of_pos (l₂ := []) hp
    simpa using this
  have h2 : k.dropWhile (· != '.') = [] := by
    have := List.dropWhile_append_of_pos (l₂ := []) hp
    simpa using this
  simp [partitionDot, h1, h2]

theorem joinDots_ne {cs : List Str} (h1 : cs ≠ []) (h2 : ∀ c ∈ cs, c ≠ []) : joinDots cs ≠ [] := by
  cases cs with
  | nil => exact absurd rfl h1
  | cons c rest =>
    cases rest with
    | nil => simpa [joinDots] using h2 c (by simp)
    | cons a b => simp [joinDots]

/-- Joining dot-free components is reversible. -/
theorem joinDots_inj : ∀ {a b : List Str}, a ≠ [] → b ≠ [] → (∀ c ∈ a, '.' ∉ c) → (∀ c ∈ b, '.' ∉ c) →
    joinDots a = joinDots b → a = b := by
  intro a
  induction a with
  | nil => intro b h; exact absurd rfl h
  | cons c rest ih =>
    intro b _ hb ha hb' he
    cases b with
    | nil => exact absurd rfl hb
    | cons d rest' =>
      have e := congrArg partitionDot he
      cases rest with
      | nil =>
        cases rest' with
        | nil => simpa [joinDots] using he
        | cons x y =>
          have hd : '.' ∈ joinDots [c] := by rw [he]; simp [joinDots]
          exact absurd hd (ha c (by simp))
      | cons p q =>
        cases rest' with
        | nil =>
          have hd : '.' ∈ joinDots [d] := by rw [← he]; simp [joinDots]
          exact absurd hd (hb' d (by simp))
        | cons x y =>
          rw [joinDots_cons _ (List.cons_ne_nil _ _), joinDots_cons _ (List.cons_ne_nil _ _), partitionDot_cons (ha c (by simp)),
            partitionDot_cons (hb' d (by simp))] at e
          simp only [Prod.mk.injEq] at e
          rw [e.1, ih (by simp) (by simp) (fun z hz => ha z (by simp [hz])) (fun z hz => hb' z (by simp [hz])) e.2]

/-! ### lookup -/

mutual
/-- Looking up joined components of a group is going down along them. -/
theorem lookup_find : (e : Elem) → isGroup e = true → (k : Str) → (ks : List Str) → (∀ c ∈ k :: ks, c ≠ [] ∧ '.' ∉ c) → ∀ r,
    (lookup e (joinDots (k :: ks)) = .ok r ↔ find e (k :: ks) = some r)
  | .group h hd es, _, k, ks, hc, r => by
    simp only [lookup, find]
    cases ks with
    | nil =>
      simp only [joinDots, partitionDot_none (hc k (by simp)).2]
      exact lookupAll_find es k [] hc r
    | cons a b =>
      rw [joinDots_cons _ (List.cons_ne_nil _ _), partitionDot_cons (hc k (by simp)).2]
      exact lookupAll_find es k (a :: b) hc r
theorem lookupAll_find : (es : List (Str × Elem)) → (k : Str) → (ks : List Str) → (∀ c ∈ k :: ks, c ≠ [] ∧ '.' ∉ c) → ∀ r,
    (lookupAll es k (joinDots ks) = .ok r ↔ findAll es k ks = some r)
  | [], k, ks, hc, r => by simp [lookupAll, findAll]
  | (k', e) :: rest, k, ks, hc, r => by
    simp only [lookupAll, findAll]
    by_cases hk : k' = k
    · simp only [hk, if_true]
      cases ks with
      | nil =>
        simp only [joinDots, ne_eq, not_true, if_false, Except.ok.injEq]
        cases e <;> simp [find]
      | cons a b =>
        have hne : joinDots (a :: b) ≠ [] := joinDots_ne (by simp) (fun c hc' => (hc c (by simp only [List.mem_cons] at hc' ⊢; tauto)).1)
        simp only [ne_eq, hne, not_false_eq_true, if_true]
        cases hg : isGroup e with
        | true =>
          simp only [if_true]
          exact lookup_find e hg a b (fun c hc' => hc c (by simp only [List.mem_cons] at hc' ⊢; tauto)) r
        | false =>
          cases e <;> simp_all [find, isGroup]
    · simp only [hk, if_false]
      exact lookupAll_find rest k ks hc r
end

theorem find_nil (e : Elem) : find e [] = some e := by cases e <;> rfl

theorem findAll_mem {es : List (Str × Elem)} (hn : (es.map Prod.fst).Nodup) {k : Str} {e : Elem} (h : (k, e) ∈ es) (ks : List Str) :
    findAll es k ks = find e ks := by
  induction es with
  | nil => simp at h
  | cons x rest ih =>
    obtain ⟨k', e'⟩ := x
    simp only [List.map_cons, List.nodup_cons] at hn
    simp only [findAll]
    rcases List.mem_cons.1 h with h | h
    · simp only [Prod.mk.injEq] at h
      rw [if_pos h.1.symm, h.2]
    · have : k' ≠ k := by rintro rfl; exact hn.1 (List.mem_map_of_mem (f := Prod.fst) h)
      rw [if_neg this]
      exact ih hn.2 h

theorem keyedAll_mem {es : List (Str × Elem)} (h : KeyedAll es) : ∀ x ∈ es, x.1 = x.2.hdr.name ∧ x.1 ≠ [] ∧ '.' ∉ x.1 ∧ Keyed x.2 := by
  induction es with
  | nil => simp
  | cons y rest ih =>
    obtain ⟨k, e⟩ := y
    simp only [KeyedAll] at h
    intro x hx
    rcases List.mem_cons.1 hx with rfl | hx
    · exact h.1
    · exact ih h.2 x hx

theorem partsAll_mem {es : List (Str × Elem)} {p : List Str × List (Mat3 ℝ) × Elem} : p ∈ partsAll es ↔ ∃ x ∈ es, p ∈ parts x.2 := by
  induction es with
  | nil => simp [partsAll]
  | cons x rest ih => obtain ⟨k, e⟩ := x; simp [partsAll, ih]

theorem leaf_parts {e : Elem} {n : Str} (h : parts e = [([n], [], e)]) (hn : e.hdr.name = n) :
    (∀ p ∈ parts e, ∃ cs, p.1 = e.hdr.name :: cs ∧ (∀ c ∈ cs, c ≠ [] ∧ '.' ∉ c) ∧
      find e cs = some p.2.2) ∧ (parts e).Pairwise (fun p q => p.1 ≠ q.1) := by
  rw [h]
  refine ⟨?_, List.pairwise_singleton ..⟩
  intro p hp
  rw [List.mem_singleton] at hp
  subst hp
  exact ⟨[], by rw [hn], by simp, find_nil e⟩

mutual
/-- The parts of a keyed tree: components, and going down along them. -/
theorem keyed_parts : (e : Elem) → Keyed e → (∀ p ∈ parts e, ∃ cs, p.1 = e.hdr.name :: cs ∧ (∀ c ∈ cs, c ≠ [] ∧ '.' ∉ c) ∧
      find e cs = some p.2.2) ∧ (parts e).Pairwise (fun p q => p.1 ≠ q.1)
  | .curve h x, _ => leaf_parts (by rw [parts]; rfl) rfl
  | .rect h x y, _ => leaf_parts (by rw [parts]; rfl) rfl
  | .rrect h x y z, _ => leaf_parts (by rw [parts]; rfl) rfl
  | .ellipse h x y, _ => leaf_parts (by rw [parts]; rfl) rfl
  | .group h hd es, hk => by
    simp only [Keyed] at hk
    have ih := keyedAll_parts es hk.2
    have hm := keyedAll_mem hk.2
    constructor
    · intro p hp
      simp only [parts, List.mem_map] at hp
      obtain ⟨q, hq, rfl⟩ := hp
      obtain ⟨x, hx, hq'⟩ := partsAll_mem.1 hq
      obtain ⟨cs, c1, c2, c3⟩ := (ih x hx).1 q hq'
      obtain ⟨n1, n2, n3, -⟩ := hm x hx
      refine ⟨q.1, by simp [hdr], ?_, ?_⟩
      · rw [c1, ← n1]
        intro c hc
        rcases List.mem_cons.1 hc with rfl | hc
        · exact ⟨n2, n3⟩
        · exact c2 c hc
      · rw [c1, ← n1]
        simp only [find]
        rw [findAll_mem hk.1 (show (x.1, x.2) ∈ es from hx), c3]
    · simp only [parts, List.pairwise_map]
      have : (partsAll es).Pairwise (fun p q => p.1 ≠ q.1) := by
        clear hm
        have hn := hk.1
        have hk2 := hk.2
        clear hk
        induction es with
        | nil => simp [partsAll]
        | cons x rest ihes =>
          obtain ⟨k, e⟩ := x
          simp only [partsAll, List.pairwise_append]
          simp only [List.map_cons, List.nodup_cons] at hn
          simp only [KeyedAll] at hk2
          refine ⟨(ih (k, e) (by simp)).2, ihes (fun x hx => ih x (by simp [hx])) hn.2 hk2.2, ?_⟩
          intro p hp q hq he
          obtain ⟨cs, c1, -, -⟩ := (ih (k, e) (by simp)).1 p hp
          obtain ⟨y, hy, hq'⟩ := partsAll_mem.1 hq
          obtain ⟨ds, d1, -, -⟩ := (ih y (by simp [hy])).1 q hq'
          have hy1 := (keyedAll_mem hk2.2 y hy).1
          rw [c1, d1] at he
          injection he with he _
          apply hn.1
          rw [hk2.1.1, he, ← hy1]
          exact List.mem_map_of_mem (f := Prod.fst) hy
      exact this.imp fun hne he => hne (by simpa using he)
theorem keyedAll_parts : (es : List (Str × Elem)) → KeyedAll es → ∀ x ∈ es, (∀ p ∈ parts x.2, ∃ cs, p.1 = x.2.hdr.name :: cs ∧
      (∀ c ∈ cs, c ≠ [] ∧ '.' ∉ c) ∧ find x.2 cs = some p.2.2) ∧ (parts x.2).Pairwise (fun p q => p.1 ≠ q.1)
  | [], _ => by simp
  | (k, e) :: rest, hk => by
    simp only [KeyedAll] at hk
    intro x hx
    rcases List.mem_cons.1 hx with hxe | hx
    · rw [hxe]; exact keyed_parts e hk.1.2.2.2
    · exact keyedAll_parts rest hk.2 x hx
end

end X7.Elem
