import Mathlib.Tactic.Linarith
import Mathlib.Tactic.FieldSimp
import Mathlib.Data.List.Rotate
import Verif.Spec.SelfIntersect
import Verif.Lemmas.Bezier
import Verif.Lemmas.Morph
import Verif.Props.Bezier
import Verif.Props.SelfIntersectWalk

/-!
Lemmas for `bez_self_intersect`: joining curves, cutting segments, making edges.
-/

noncomputable section

namespace X7.Bzi

open Classical

/-! ### Segments of joined lists -/

theorem segs_mid (l : List (CP ℝ)) (m : CP ℝ) (r : List (CP ℝ)) :
    openSegs' (l ++ m :: r) = openSegs' (l ++ [m]) ++ openSegs' (m :: r) := by
  induction l with
  | nil => simp [openSegs']
  | cons a l ih =>
    cases l with
    | nil =>
      simp [openSegs']
    | cons b l =>
      simp only [List.cons_append, openSegs'] at ih ⊢
      rw [ih]

theorem segs_last {l : List (CP ℝ)} {m p : CP ℝ} (hc : m.c = p.c) (hl : m.dl = p.dl) :
    openSegs' (l ++ [m]) = openSegs' (l ++ [p]) := by
  induction l with
  | nil => simp [openSegs']
  | cons a l ih =>
    cases l with
    | nil => simp [openSegs', seg, hc, hl]
    | cons b l =>
      simp only [List.cons_append, openSegs'] at ih ⊢
      rw [ih]

theorem segs_head {l : List (CP ℝ)} {m p : CP ℝ} (hc : m.c = p.c) (hr : m.dr = p.dr) :
    openSegs' (m :: l) = openSegs' (p :: l) := by
  cases l with
  | nil => simp [openSegs']
  | cons b l => simp [openSegs', seg, hc, hr]

theorem segs_join2 {l : List (CP ℝ)} {p q m : CP ℝ} {r : List (CP ℝ)} (h : p.c = q.c) (hc : m.c = p.c) (hl : m.dl = p.dl)
    (hr : m.dr = q.dr) : openSegs' (l ++ [m] ++ r) = openSegs' (l ++ [p]) ++ openSegs' (q :: r) := by
  rw [List.append_assoc, List.singleton_append, segs_mid, segs_last hc hl, segs_head (hc.trans h) hr]

/-! ### Joining the edges of a loop -/

theorem close_self (p : Pt ℝ) : close p p = true := by
  have : (p.sub p).length = 0 := by
    rw [Vec.length_eq_zero]
    simp [Pt.sub]
  simp [close, this]

/-- `cps` is a curve of at least one segment from `A` to `Z`. -/
structure FromTo (cps : List (CP ℝ)) (A Z : Pt ℝ) : Prop where
  ex : ∃ c0 mid c1, cps = c0 :: mid ++ [c1] ∧ c0.c = A ∧ c1.c = Z

theorem last_mid {α : Type} (a : α) (m : List α) (z : α) : (a :: m ++ [z]).getLast? = some z :=
  List.getLast?_concat ..

theorem init_mid {α : Type} (a : α) (m : List α) (z : α) : (a :: m ++ [z]).dropLast = a :: m :=
  List.dropLast_concat ..

theorem joinOne_end {cps e : List (CP ℝ)} {A Z : Pt ℝ} (h1 : FromTo cps A Z) (h2 : FromTo e Z A) :
    ∃ r, joinOne cps e = .ok r ∧ FromTo r A A ∧ openSegs' r = openSegs' cps ++ openSegs' e := by
  obtain ⟨c0, mid, c1, rfl, rfl, rfl⟩ := h1
  obtain ⟨e0, mid', e1, rfl, h3, h4⟩ := h2
  refine ⟨(c0 :: mid) ++ [{ c1 with dr := e0.dr, kind := "sharp" }] ++ (mid' ++ [e1]), ?_, ?_, ?_⟩
  · have hcl : close c1.c e0.c = true := by rw [h3]; exact close_self _
    rw [joinOne]
    simp only [last_mid, init_mid]
    simp [hcl]
  · exact ⟨c0, mid ++ [{ c1 with dr := e0.dr, kind := "sharp" }] ++ mid', e1, by simp, rfl, h4⟩
  · exact segs_join2 (m := { c1 with dr := e0.dr, kind := "sharp" }) h3.symm rfl rfl rfl

theorem joinOne_front {cps e : List (CP ℝ)} {A B Z : Pt ℝ} (h1 : FromTo cps A Z) (h2 : FromTo e B A)
    (n1 : close Z B = false) (n2 : close A B = false) :
    ∃ r, joinOne cps e = .ok r ∧ FromTo r B Z ∧ openSegs' r = openSegs' e ++ openSegs' cps := by
  obtain ⟨c0, mid, c1, rfl, rfl, rfl⟩ := h1
  obtain ⟨e0, mid', e1, rfl, rfl, h4⟩ := h2
  refine ⟨(e0 :: mid') ++ [{ e1 with dr := c0.dr, kind := "sharp" }] ++ (mid ++ [c1]), ?_, ?_, ?_⟩
  · have hcl : close c0.c e1.c = true := by rw [h4]; exact close_self _
    rw [joinOne]
    simp only [last_mid, init_mid]
    simp [n1, n2,hcl]
  · exact ⟨e0, mid' ++ [{ e1 with dr := c0.dr, kind := "sharp" }] ++ mid, c1, by simp, rfl, rfl⟩
  · exact segs_join2 (m := { e1 with dr := c0.dr, kind := "sharp" }) h4 rfl rfl rfl

/-- The remaining edges lead back from `A` to `Z`, where they first meet `Z`. -/
def Back (A Z : Pt ℝ) : List (Edge (Pt ℝ) (List (CP ℝ))) → Prop
  | [] => False
  | [x] => x.right = A ∧ x.left = Z
  | x :: rest => x.right = A ∧ close Z x.left = false ∧ close x.right x.left = false ∧ Back x.left Z rest

theorem joinAll_ok : ∀ (rest : List (Edge (Pt ℝ) (List (CP ℝ)))) {cps : List (CP ℝ)} {A Z : Pt ℝ}, FromTo cps A Z →
    (∀ e ∈ rest, FromTo e.cps e.left e.right) → Back A Z rest →
    ∃ r B, joinAll cps (rest.map Edge.cps) = .ok r ∧ FromTo r B B ∧
      openSegs' r ~r (rest.reverse.flatMap (fun e => openSegs' e.cps) ++ openSegs' cps)
  | [], _, _, _, _, _, hb => hb.elim
  | [x], cps, A, Z, h, he, hb => by
    obtain ⟨rfl, rfl⟩ := hb
    obtain ⟨r, h1, h2, h3⟩ := joinOne_end h (he x (by simp))
    refine ⟨r, _, by simp [joinAll, h1], h2, ?_⟩
    rw [h3]
    simpa using List.isRotated_append
  | x :: y :: rest, cps, A, Z, h, he, hb => by
    obtain ⟨rfl, hb1, hb2, hb3⟩ := hb
    obtain ⟨r, h1, h2, h3⟩ := joinOne_front h (he x (by simp)) hb1 hb2
    obtain ⟨r', B, h4, h5, h6⟩ := joinAll_ok (y :: rest) h2 (fun e hm => he e (by simp [hm])) hb3
    refine ⟨r', B, ?_, h5, ?_⟩
    · simp only [List.map_cons, joinAll, h1] at h4 ⊢
      exact h4
    · rw [h3] at h6
      simpa [List.append_assoc] using h6

theorem finish_ok {cps : List (CP ℝ)} {B : Pt ℝ} (h : FromTo cps B B) :
    ∃ c0 c1, cps.head? = some c0 ∧ cps.getLast? = some c1 ∧
      ∀ k, closedSegs (({ c0 with dl := c1.dl, kind := k } :: cps.tail).dropLast) = openSegs' cps := by
  obtain ⟨c0, mid, c1, rfl, h0, h1⟩ := h
  refine ⟨c0, c1, by simp, last_mid .., fun k => ?_⟩
  have e : (({ c0 with dl := c1.dl, kind := k } : CP ℝ) :: (c0 :: mid ++ [c1]).tail).dropLast =
      { c0 with dl := c1.dl, kind := k } :: mid := by
    simp only [List.cons_append, List.tail_cons]
    rw [← List.cons_append, List.dropLast_concat]
  rw [e, closedSegs_eq, segs_last (m := { c0 with dl := c1.dl, kind := k }) (p := c1)
    (h0.trans h1.symm) rfl]
  exact segs_head (l := mid ++ [c1]) rfl rfl

theorem joinLoop_ok {e : Edge (Pt ℝ) (List (CP ℝ))} {rest : List (Edge (Pt ℝ) (List (CP ℝ)))}
    (he : ∀ x ∈ e :: rest, FromTo x.cps x.left x.right)
    (hb : rest = [] ∧ e.left = e.right ∨ rest ≠ [] ∧ Back e.left e.right rest) :
    ∃ r, joinLoop (e :: rest) = .ok r ∧ closedSegs r ~r ((e :: rest).reverse.flatMap fun x => openSegs' x.cps) := by
  obtain ⟨r, B, h1, h2, h3⟩ : ∃ r B, joinAll e.cps (rest.map Edge.cps) = .ok r ∧ FromTo r B B ∧
      openSegs' r ~r ((e :: rest).reverse.flatMap fun x => openSegs' x.cps) := by
    rcases hb with ⟨rfl, h⟩ | ⟨_, h⟩
    · refine ⟨e.cps, e.right, rfl, ?_, by simpa using List.IsRotated.refl _⟩
      have := he e (by simp)
      rw [h] at this
      exact this
    · obtain ⟨r, B, h1, h2, h3⟩ := joinAll_ok rest (he e (by simp)) (fun x hx => he x (by simp [hx])) h
      exact ⟨r, B, h1, h2, by simpa using h3⟩
  obtain ⟨c0, c1, k0, k1, k2⟩ := finish_ok h2
  refine ⟨_, ?_, by rw [← k2 "sharp"] at h3; exact h3⟩
  rw [joinLoop, h1]
  simp only
  rw [k0, k1]

/-- A loop of edges, listed against their direction. -/
structure EdgeLoop (es : List (Edge (Pt ℝ) (List (CP ℝ)))) : Prop where
  chain : es.IsChain fun a b => a.left = b.right
  closed : ∃ a b, es.head? = some a ∧ es.getLast? = some b ∧ b.left = a.right
  simple : (es.map Edge.right).Nodup

theorem back_of : ∀ (rest : List (Edge (Pt ℝ) (List (CP ℝ)))) {A Z : Pt ℝ}, rest ≠ [] →
    rest.IsChain (fun a b => a.left = b.right) → (∀ x, rest.head? = some x → x.right = A) →
    (∀ x, rest.getLast? = some x → x.left = Z) → Z ∉ rest.map Edge.right → (rest.map Edge.right).Nodup →
    (∀ p ∈ Z :: rest.map Edge.right, ∀ q ∈ Z :: rest.map Edge.right, p ≠ q → close p q = false) → Back A Z rest
  | [], _, _, h, _, _, _, _, _, _ => (h rfl).elim
  | [x], _, _, _, _, h1, h2, _, _, _ => ⟨h1 x rfl, h2 x rfl⟩
  | x :: y :: rest, A, Z, _, hc, h1, h2, hz, hn, ha => by
    have hc' := List.isChain_cons_cons.1 hc
    have hn' := List.nodup_cons.1 hn
    refine ⟨h1 x rfl, ?_, ?_, back_of (y :: rest) (by simp) hc'.2 (fun z hz => ?_) (fun z hz => h2 z ?_) (fun h => hz ?_) hn'.2
      (fun p hp q hq => ha p ?_ q ?_)⟩
    · refine ha _ (by simp) _ (by rw [hc'.1]; simp) fun h => hz ?_
      rw [h, hc'.1]; simp
    · refine ha _ (by simp) _ (by rw [hc'.1]; simp) fun h => hn'.1 ?_
      rw [h, hc'.1]; simp
    · simp only [List.head?_cons, Option.some.injEq] at hz
      rw [← hz]; exact hc'.1.symm
    · rw [List.getLast?_cons_cons]; exact hz
    · rw [List.map_cons]; exact List.mem_cons_of_mem _ h
    · rcases List.mem_cons.1 hp with h | h
      · exact h ▸ List.mem_cons_self
      · exact List.mem_cons_of_mem _ (List.mem_cons_of_mem _ h)
    · rcases List.mem_cons.1 hq with h | h
      · exact h ▸ List.mem_cons_self
      · exact List.mem_cons_of_mem _ (List.mem_cons_of_mem _ h)

theorem joinLoop_edges {es : List (Edge (Pt ℝ) (List (CP ℝ)))} (hl : EdgeLoop es) (he : ∀ x ∈ es, FromTo x.cps x.left x.right)
    (ha : ∀ a ∈ es, ∀ b ∈ es, a.right ≠ b.right → close a.right b.right = false) :
    ∃ r, joinLoop es = .ok r ∧ closedSegs r ~r (es.reverse.flatMap fun x => openSegs' x.cps) := by
  obtain ⟨hc, ⟨a, b, h1, h2, h3⟩, hs⟩ := hl
  cases es with
  | nil => simp at h1
  | cons e rest =>
    simp only [List.head?_cons, Option.some.injEq] at h1
    subst h1
    refine joinLoop_ok he ?_
    cases rest with
    | nil =>
      simp only [List.getLast?_singleton, Option.some.injEq] at h2
      exact .inl ⟨rfl, by rw [h2, h3, h2]⟩
    | cons y rest =>
      have hc' := List.isChain_cons_cons.1 hc
      have hs' := List.nodup_cons.1 hs
      refine .inr ⟨by simp, back_of (y :: rest) (by simp) hc'.2 (fun z hz => ?_) (fun z hz => ?_) hs'.1 hs'.2 (fun p hp q hq => ?_)⟩
      · simp only [List.head?_cons, Option.some.injEq] at hz
        rw [← hz]; exact hc'.1.symm
      · rw [List.getLast?_cons_cons, hz, Option.some.injEq] at h2
        rw [h2, h3]
      · rw [← List.map_cons] at hp hq
        obtain ⟨x, hx, rfl⟩ := List.mem_map.1 hp
        obtain ⟨x', hx', rfl⟩ := List.mem_map.1 hq
        exact ha x hx x' hx'

theorem get_of_loop {V C : Type} {g : Graph V C} : ∀ {l : List ℕ}, (∀ i ∈ l, i < g.edges.length) →
    List.Forall₂ (fun i e => g.edges[i]? = some e) l (l.filterMap fun i => g.edges[i]?)
  | [], _ => .nil
  | i :: l, h => by
    have hi := h i (by simp)
    rw [List.filterMap_cons, List.getElem?_eq_getElem hi]
    exact .cons (by rw [List.getElem?_eq_getElem hi]) (get_of_loop fun j hj => h j (by simp [hj]))

theorem chain_of {V C : Type} {g : Graph V C} : ∀ {l : List ℕ} {es : List (Edge V C)},
    List.Forall₂ (fun i e => g.edges[i]? = some e) l es → l.IsChain (fun a b => g.from a = g.to b) →
    es.IsChain fun a b => a.left = b.right
  | _, _, .nil, _ => .nil
  | _, _, .cons _ .nil, _ => .singleton _
  | _, _, .cons h1 (.cons h2 hr), hc => by
    have hc' := List.isChain_cons_cons.1 hc
    refine List.isChain_cons_cons.2 ⟨?_, chain_of (.cons h2 hr) hc'.2⟩
    have := hc'.1
    simpa [Graph.from, Graph.to, h1, h2] using this

theorem rights_of {V C : Type} {g : Graph V C} {l : List ℕ} {es : List (Edge V C)}
    (h : List.Forall₂ (fun i e => g.edges[i]? = some e) l es) : l.map g.to = (es.map Edge.right).map some := by
  induction h with
  | nil => rfl
  | cons h _ ih => simp [Graph.to, h, ih]

theorem last_of {α β : Type} {R : α → β → Prop} {l : List α} {es : List β} (h : List.Forall₂ R l es) {b : α}
    (hb : l.getLast? = some b) : ∃ e, es.getLast? = some e ∧ R b e := by
  induction h with
  | nil => simp at hb
  | @cons x y l' es' h1 h2 ih =>
    cases h2 with
    | nil =>
      simp only [List.getLast?_singleton, Option.some.injEq] at hb
      exact ⟨y, rfl, hb ▸ h1⟩
    | cons h3 h4 =>
      rw [List.getLast?_cons_cons] at hb
      obtain ⟨e, h5, h6⟩ := ih hb
      exact ⟨e, by rw [List.getLast?_cons_cons]; exact h5, h6⟩

theorem edgeLoop_of {g : Graph (Pt ℝ) (List (CP ℝ))} {l : List ℕ} (h : g.IsLoop l) :
    EdgeLoop (l.filterMap fun i => g.edges[i]?) := by
  have hf := get_of_loop h.edges
  refine ⟨chain_of hf h.chain, ?_, ?_⟩
  · obtain ⟨a, b, h1, h2, h3⟩ := h.closed
    obtain ⟨eb, k1, k2⟩ := last_of hf h2
    cases l with
    | nil => simp at h1
    | cons i l =>
      simp only [List.head?_cons, Option.some.injEq] at h1
      subst h1
      have hi := h.edges i (by simp)
      refine ⟨g.edges[i], eb, ?_, k1, ?_⟩
      · rw [List.filterMap_cons, List.getElem?_eq_getElem hi]; rfl
      · simpa [Graph.from, Graph.to, k2, List.getElem?_eq_getElem hi] using h3
  · have := h.simple
    rw [rights_of hf] at this
    exact List.Nodup.of_map _ this

/-! ### The edges -/

/-- The parts of the curve between nodes. -/
def chunks (segment : List (CP ℝ)) (left : Pt ℝ) : List CpBool → List (Pt ℝ × List (CP ℝ) × Pt ℝ)
  | [] => []
  | x :: rest =>
    match x.node with
    | none => chunks (segment ++ [x.cp]) left rest
    | some n => (left, segment ++ [x.cp], n) :: chunks [x.cp] n rest

theorem makeEdges_chunks : ∀ (rest : List CpBool) (segment : List (CP ℝ)) (left : Pt ℝ)
    (edges : List (Edge (Pt ℝ) (List (CP ℝ)))), segment ≠ [] →
    makeEdges segment (some left) edges rest = .ok ((chunks segment left rest).foldl (fun es ch => addEdge es ch.1 ch.2.1 ch.2.2) edges)
  | [], _, _, _, _ => rfl
  | x :: rest, segment, left, edges, h => by
    rw [makeEdges, chunks]
    cases x.node with
    | none => exact makeEdges_chunks rest _ _ _ (by simp)
    | some n =>
      simp only [if_neg h, List.foldl_cons]
      exact makeEdges_chunks rest _ _ _ (by simp)

theorem chunks_ends : ∀ (rest : List CpBool) (segment : List (CP ℝ)) (left : Pt ℝ),
    (chunks segment left rest).map (fun ch => (ch.1, ch.2.2)) = (left :: rest.filterMap CpBool.node).zip (rest.filterMap CpBool.node)
  | [], _, _ => rfl
  | x :: rest, segment, left => by
    rw [chunks, List.filterMap_cons]
    cases x.node with
    | none => exact chunks_ends rest _ _
    | some n => simp only [List.map_cons, List.zip_cons_cons, chunks_ends rest]

theorem chunks_fromTo : ∀ (rest : List CpBool) (segment : List (CP ℝ)) (left : Pt ℝ),
    (∃ s0 st, segment = s0 :: st ∧ s0.c = left) → (∀ x ∈ rest, ∀ v, x.node = some v → x.cp.c = v) →
    ∀ ch ∈ chunks segment left rest, FromTo ch.2.1 ch.1 ch.2.2
  | [], _, _, _, _ => by simp [chunks]
  | x :: rest, segment, left, ⟨s0, st, hs, hl⟩, hx => by
    have hr : ∀ y ∈ rest, ∀ v, y.node = some v → y.cp.c = v := fun y hy => hx y (by simp [hy])
    rw [chunks]
    cases hn : x.node with
    | none => exact chunks_fromTo rest _ _ ⟨s0, st ++ [x.cp], by simp [hs], hl⟩ hr
    | some n =>
      have hc := hx x (by simp) n hn
      intro ch hch
      rcases List.mem_cons.1 hch with rfl | h
      · exact ⟨s0, st, x.cp, by simp [hs], hl, hc⟩
      · exact chunks_fromTo rest _ _ ⟨x.cp, [], rfl, hc⟩ hr ch h

theorem chunks_segs : ∀ (rest : List CpBool) (segment : List (CP ℝ)) (left : Pt ℝ) (z : CpBool), z.node.isSome →
    (chunks segment left (rest ++ [z])).flatMap (fun ch => openSegs' ch.2.1) = openSegs' (segment ++ (rest ++ [z]).map CpBool.cp)
  | [], segment, left, z, hz => by
    obtain ⟨n, hn⟩ := Option.isSome_iff_exists.1 hz
    simp [chunks, hn]
  | x :: rest, segment, left, z, hz => by
    rw [List.cons_append, chunks]
    cases hn : x.node with
    | none => simp only [chunks_segs rest _ _ z hz, List.map_cons, List.append_assoc, List.singleton_append]
    | some n =>
      simp only [List.flatMap_cons, chunks_segs rest _ _ z hz, List.map_cons, List.singleton_append]
      exact (segs_mid segment x.cp _).symm

/-- The edges of chunks, before the last and the first are linked. -/
def linked (chs : List (Pt ℝ × List (CP ℝ) × Pt ℝ)) : List (Edge (Pt ℝ) (List (CP ℝ))) :=
  chs.mapIdx fun i ch => ⟨ch.1, ch.2.2, ch.2.1, if i = 0 then none else some (i - 1), if i + 1 < chs.length then some (i + 1) else none⟩

theorem linked_addEdge (chs : List (Pt ℝ × List (CP ℝ) × Pt ℝ)) (ch : Pt ℝ × List (CP ℝ) × Pt ℝ) :
    addEdge (linked chs) ch.1 ch.2.1 ch.2.2 = linked (chs ++ [ch]) := by
  rcases List.eq_nil_or_concat chs with rfl | ⟨chs, c, rfl⟩
  · rfl
  · rw [addEdge, List.concat_eq_append]
    have hl : linked (chs ++ [c]) = (chs.mapIdx fun i ch => (⟨ch.1, ch.2.2, ch.2.1, if i = 0 then none else some (i - 1),
        if i + 1 < chs.length + 1 then some (i + 1) else none⟩ : Edge (Pt ℝ) (List (CP ℝ)))) ++
        [⟨c.1, c.2.2, c.2.1, if chs.length = 0 then none else some (chs.length - 1), none⟩] := by
      simp [linked]
    have hr : linked (chs ++ [c] ++ [ch]) = (chs.mapIdx fun i ch => (⟨ch.1, ch.2.2, ch.2.1, if i = 0 then none else some (i - 1),
        if i + 1 < chs.length + 1 then some (i + 1) else none⟩ : Edge (Pt ℝ) (List (CP ℝ)))) ++
        [⟨c.1, c.2.2, c.2.1, if chs.length = 0 then none else some (chs.length - 1), some (chs.length + 1)⟩] ++
        [⟨ch.1, ch.2.2, ch.2.1, some chs.length, none⟩] := by
      simp only [linked, List.mapIdx_append, List.length_append, List.length_singleton]
      congr 1
      · congr 1
        · apply List.ext_getElem? 
          intro i
          simp only [List.getElem?_mapIdx]
          by_cases hi : i < chs.length
          · rw [List.getElem?_eq_getElem hi]
            simp only [Option.map_some, Option.some.injEq, Edge.mk.injEq, true_and]
            rw [if_pos (by omega), if_pos (by omega)]
          · rw [List.getElem?_eq_none (by omega)]; rfl
        · simp
      · simp
    rw [hr, hl, List.getLast?_concat]
    simp only [List.dropLast_concat]
    simp [linked]

theorem linked_foldl (chs : List (Pt ℝ × List (CP ℝ) × Pt ℝ)) :
    chs.foldl (fun es ch => addEdge es ch.1 ch.2.1 ch.2.2) [] = linked chs := by
  induction chs using List.reverseRecOn with
  | nil => rfl
  | append_singleton chs ch ih => rw [List.foldl_append, ih, List.foldl_cons, List.foldl_nil, linked_addEdge]

theorem stitch_linked {chs : List (Pt ℝ × List (CP ℝ) × Pt ℝ)} (h : chs ≠ []) :
    ∃ es, stitch (linked chs) = .ok es ∧ es.length = chs.length ∧
      ∀ (i : ℕ) (hi : i < chs.length), ∃ e, es[i]? = some e ∧ e.left = chs[i].1 ∧ e.right = chs[i].2.2 ∧ e.cps = chs[i].2.1 ∧
        e.right_right = some ((i + 1) % chs.length) := by
  have hp : 0 < chs.length := List.length_pos_iff.2 h
  have hlen : (linked chs).length = chs.length := by simp [linked]
  have h0 : (linked chs).head? = some ⟨chs[0].1, chs[0].2.2, chs[0].2.1, none, if 0 + 1 < chs.length then some (0 + 1) else none⟩ := by
    rw [List.head?_eq_getElem?, linked, List.getElem?_mapIdx, List.getElem?_eq_getElem hp]; rfl
  have h1 : (linked chs).getLast? = some ⟨(chs[chs.length - 1]'(by omega)).1, (chs[chs.length - 1]'(by omega)).2.2,
      (chs[chs.length - 1]'(by omega)).2.1, if chs.length - 1 = 0 then none else some (chs.length - 1 - 1), none⟩ := by
    rw [List.getLast?_eq_getElem?, hlen, linked, List.getElem?_mapIdx, List.getElem?_eq_getElem (by omega)]
    simp only [Option.map_some]
    rw [if_neg (by omega : ¬chs.length - 1 + 1 < chs.length)]
  rw [stitch, h0, h1]
  simp only [ne_eq, not_true_eq_false, or_self, if_false]
  refine ⟨_, rfl, by simp [hlen], fun i hi => ?_⟩
  have hi' : (linked chs)[i]? = some ⟨chs[i].1, chs[i].2.2, chs[i].2.1, if i = 0 then none else some (i - 1),
      if i + 1 < chs.length then some (i + 1) else none⟩ := by
    rw [linked, List.getElem?_mapIdx, List.getElem?_eq_getElem hi]; rfl
  rw [List.getElem?_modify, List.getElem?_modify, hi', hlen]
  simp only [Option.map_eq_map, Option.map_some]
  refine ⟨_, rfl, ?_⟩
  by_cases hl : i + 1 < chs.length
  · rw [if_neg (by omega : ¬chs.length - 1 = i), if_pos hl, Nat.mod_eq_of_lt hl]
    split <;> simp
  · have : chs.length - 1 = i := by omega
    rw [if_pos this]
    have : i + 1 = chs.length := by omega
    rw [this, Nat.mod_self]
    split <;> simp

/-! ### Cutting the curve -/

/-- An open curve of at least one segment from `A` to `Z` with segments `S`, passing the nodes `w`, the last point being none. -/
structure Run (out : List CpBool) (nn : Option (Pt ℝ)) (A Z : Pt ℝ) (w : List (Pt ℝ)) (S : List (Poly4 ℝ)) : Prop where
  ex : ∃ x0 mid x1, out = x0 :: mid ++ [x1] ∧ x0.cp.c = A ∧ x0.node = nn ∧ x1.cp.c = Z ∧ x1.node = none
  nodes : out.filterMap CpBool.node = w
  place : ∀ x ∈ out, ∀ v, x.node = some v → x.cp.c = v
  segs : openSegs' (out.map CpBool.cp) = S

theorem splitAt_run : ∀ (xs : List (ℝ × Pt ℝ)) (S0 : Poly4 ℝ) (a b : CP ℝ) (t : ℝ) (nn : Option (Pt ℝ)), t < 1 →
    (∀ u, (seg a b).at' u = S0.at' (t + u * (1 - t))) → (∀ p ∈ xs, p.1 < 1 ∧ S0.at' p.1 = p.2) → (∀ v, nn = some v → a.c = v) →
    ∃ out pieces, splitAt a b t nn xs = .ok out ∧ Run out nn a.c b.c (nn.toList ++ xs.map Prod.snd) pieces ∧
      (∀ x0, out.head? = some x0 → x0.cp.dl = a.dl) ∧
      List.Forall₂ (fun (ab : ℝ × ℝ) P => ∀ u, P.at' u = S0.at' (ab.1 + u * (ab.2 - ab.1)))
        ((t :: xs.map Prod.fst).zip (xs.map Prod.fst ++ [1])) pieces
  | [], S0, a, b, t, nn, ht, hS, hx, hn => by
    refine ⟨_, [seg a b], rfl, ⟨⟨_, [], _, rfl, rfl, rfl, rfl, rfl⟩, ?_, ?_, rfl⟩, ?_, ?_⟩
    · cases nn <;> rfl
    · intro x hx v hv
      rcases List.mem_cons.1 hx with rfl | hx
      · exact hn v hv
      · simp only [List.mem_singleton] at hx
        subst hx
        simp at hv
    · rintro _ ⟨⟩; rfl
    · exact .cons hS .nil
  | (ti, xy) :: rest, S0, a, b, t, nn, ht, hS, hx, hn => by
    obtain ⟨h1, h2⟩ := hx (ti, xy) (by simp)
    simp only at h1 h2
    have hne : 1 - t ≠ 0 := by linarith
    have hd : pyDiv (ti - t) (1 - t) = .ok ((ti - t) / (1 - t)) := by simp [pyDiv, hne]
    set u0 := (ti - t) / (1 - t) with hu0
    have hu : u0 * (1 - t) = ti - t := by rw [hu0]; field_simp
    have hc : (bezSplit a b u0).2.1.c = xy := by
      rw [(C29_split_joint a b u0).1, hS, hu, ← h2]; ring_nf
    have hpiece : ∀ u, (seg (bezSplit a b u0).1 (bezSplit a b u0).2.1).at' u = S0.at' (t + u * (ti - t)) := by
      intro u
      refine ((C29_split_traces a b u0 u).1).trans ?_
      rw [hS, ← hu]; ring_nf
    have hrest : ∀ u, (seg (bezSplit a b u0).2.1 (bezSplit a b u0).2.2).at' u = S0.at' (ti + u * (1 - ti)) := by
      intro u
      refine ((C29_split_traces a b u0 u).2).trans ?_
      rw [hS]
      congr 1
      have : 1 - ti = (1 - t) - u0 * (1 - t) := by rw [hu]; ring
      rw [this, show ti = t + u0 * (1 - t) by rw [hu]; ring]; ring
    obtain ⟨out, pieces, k1, k2, k4, k3⟩ := splitAt_run rest S0 (bezSplit a b u0).2.1 (bezSplit a b u0).2.2 ti (some xy) h1 hrest
      (fun p hp => hx p (by simp [hp])) (fun v hv => by rw [hc]; exact Option.some.inj hv)
    refine ⟨⟨(bezSplit a b u0).1, nn⟩ :: out, seg (bezSplit a b u0).1 (bezSplit a b u0).2.1 :: pieces, ?_, ⟨?_, ?_, ?_, ?_⟩, ?_, ?_⟩
    · rw [splitAt, hd]
      simp only [k1]
      rw [if_neg]
      have : ((bezSplit a b u0).2.1.c.sub xy).length = 0 := by
        rw [Vec.length_eq_zero, hc]; simp [Pt.sub]
      rw [this]; norm_num
    · obtain ⟨x0, mid, x1, rfl, _, _, h5, h6⟩ := k2.ex
      exact ⟨_, x0 :: mid, x1, rfl, rfl, rfl, h5, h6⟩
    · rw [List.filterMap_cons]
      have := k2.nodes
      simp only [Option.toList_some, List.singleton_append] at this
      cases nn <;> simp [this]
    · intro x hx v hv
      rcases List.mem_cons.1 hx with rfl | hx
      · exact hn v hv
      · exact k2.place x hx v hv
    · have := k2.segs
      obtain ⟨x0, mid, x1, rfl, h3, _, _, _⟩ := k2.ex
      simp only [List.map_cons, List.cons_append] at this ⊢
      rw [openSegs', this]
      congr 1
      simp only [seg, h3, k4 x0 rfl]
    · rintro _ ⟨⟩; rfl
    · exact .cons hpiece k3

theorem extend_run {cpbs loc : List CpBool} {nn : Option (Pt ℝ)} {A B Z : Pt ℝ} {w w' : List (Pt ℝ)} {S S' : List (Poly4 ℝ)}
    (h : Run cpbs nn A B w S) (h' : Run loc none B Z w' S') :
    ∃ out, extend cpbs loc = .ok out ∧ Run out nn A Z (w ++ w') (S ++ S') := by
  obtain ⟨⟨x0, mid, x1, rfl, rfl, rfl, rfl, h1⟩, rfl, hp, rfl⟩ := h
  obtain ⟨⟨y0, mid', y1, rfl, h2, h3, rfl, h4⟩, rfl, hp', rfl⟩ := h'
  refine ⟨(x0 :: mid) ++ [⟨{ x1.cp with dr := y0.cp.dr }, x1.node⟩] ++ (mid' ++ [y1]), ?_,
    ⟨⟨x0, mid ++ [⟨{ x1.cp with dr := y0.cp.dr }, x1.node⟩] ++ mid', y1, by simp, rfl, rfl, rfl, h4⟩, ?_, ?_, ?_⟩⟩
  · unfold extend
    rw [last_mid]
    simp only [List.cons_append]
    rw [if_pos h2.symm, ← List.cons_append, ← List.cons_append, List.dropLast_concat, List.cons_append, List.cons_append]
  · simp only [List.filterMap_append, List.filterMap_cons, h1, h3, h4]
  · intro x hx v hv
    simp only [List.mem_append, List.mem_singleton] at hx
    rcases hx with (hx | rfl) | hx
    · exact hp x (by simp only [List.cons_append, List.mem_cons, List.mem_append] at hx ⊢; tauto) v hv
    · simp [h1] at hv
    · exact hp' x (by simp only [List.cons_append, List.mem_cons, List.mem_append, List.mem_singleton] at hx ⊢; tauto) v hv
  · simp only [List.map_append, List.map_cons, List.map_nil, List.cons_append]
    have := segs_join2 (l := x0.cp :: mid.map CpBool.cp) (p := x1.cp) (q := y0.cp) (m := { x1.cp with dr := y0.cp.dr })
      (r := mid'.map CpBool.cp ++ [y1.cp]) h2.symm rfl rfl rfl
    simpa using this

/-- Curves follow each other from `A` to `Z`. -/
def Follow (A Z : Pt ℝ) : List ((CP ℝ × CP ℝ) × List (ℝ × Pt ℝ)) → Prop
  | [] => A = Z
  | c :: rest => c.1.1.c = A ∧ Follow c.1.2.c Z rest

theorem sortIxs_perm (ixs : List (ℝ × Pt ℝ)) : (sortIxs ixs).Perm ixs := List.mergeSort_perm ..

theorem local_run {c : (CP ℝ × CP ℝ) × List (ℝ × Pt ℝ)} (hx : ∀ p ∈ c.2, 0 ≤ p.1 ∧ p.1 < 1 ∧ (seg c.1.1 c.1.2).at' p.1 = p.2) :
    ∃ out pieces, splitAt c.1.1 c.1.2 0 none (sortIxs c.2) = .ok out ∧
      Run out none c.1.1.c c.1.2.c ((sortIxs c.2).map Prod.snd) pieces ∧
      Pieces (seg c.1.1 c.1.2) ((sortIxs c.2).map Prod.fst) pieces := by
  obtain ⟨out, pieces, h1, h2, _, h3⟩ := splitAt_run (sortIxs c.2) (seg c.1.1 c.1.2) c.1.1 c.1.2 0 none (by norm_num)
    (fun u => by ring_nf) (fun p hp => (hx p ((sortIxs_perm c.2).mem_iff.1 hp)).2) (by simp)
  exact ⟨out, pieces, h1, by simpa using h2, h3⟩

theorem expand_run : ∀ (curves : List ((CP ℝ × CP ℝ) × List (ℝ × Pt ℝ))) {cpbs : List CpBool} {A B Z : Pt ℝ} {w : List (Pt ℝ)}
    {S : List (Poly4 ℝ)}, Exact curves → Run cpbs none A B w S → Follow B Z curves →
    ∃ out pieces, expand cpbs curves = .ok out ∧ Run out none A Z (w ++ passed curves) (S ++ pieces.flatten) ∧
      List.Forall₂ (fun c ps => Pieces (seg c.1.1 c.1.2) ((sortIxs c.2).map Prod.fst) ps) curves pieces
  | [], cpbs, A, B, Z, w, S, _, hr, hf => by
    obtain rfl : B = Z := hf
    exact ⟨cpbs, [], rfl, by simpa [passed] using hr, .nil⟩
  | c :: rest, cpbs, A, B, Z, w, S, he, hr, hf => by
    obtain ⟨rfl, hf⟩ := hf
    obtain ⟨loc, ps, h1, h2, h3⟩ := local_run (he c (by simp))
    obtain ⟨cpbs', h4, h5⟩ := extend_run hr h2
    obtain ⟨out, pieces, h6, h7, h8⟩ := expand_run rest (fun c hc => he c (by simp [hc])) h5 hf
    refine ⟨out, ps :: pieces, ?_, ?_, .cons h3 h8⟩
    · rw [expand, h1]; simp only [h4]; exact h6
    · simpa [passed, List.append_assoc] using h7

theorem expand_start {curves : List ((CP ℝ × CP ℝ) × List (ℝ × Pt ℝ))} {A : Pt ℝ} (hne : curves ≠ []) (he : Exact curves)
    (hf : Follow A A curves) :
    ∃ out pieces, expand [] curves = .ok out ∧ Run out none A A (passed curves) pieces.flatten ∧
      List.Forall₂ (fun c ps => Pieces (seg c.1.1 c.1.2) ((sortIxs c.2).map Prod.fst) ps) curves pieces := by
  cases curves with
  | nil => exact (hne rfl).elim
  | cons c rest =>
    obtain ⟨rfl, hf⟩ := hf
    obtain ⟨loc, ps, h1, h2, h3⟩ := local_run (he c (by simp))
    obtain ⟨out, pieces, h6, h7, h8⟩ := expand_run rest (fun c hc => he c (by simp [hc])) h2 hf
    refine ⟨out, ps :: pieces, ?_, ?_, .cons h3 h8⟩
    · rw [expand, h1]; simp only [extend, List.getLast?_nil]; exact h6
    · simpa [passed] using h7

/-- A closed curve with segments `S` passing the nodes `w`. -/
structure Closed (out : List CpBool) (w : List (Pt ℝ)) (S : List (Poly4 ℝ)) : Prop where
  nodes : out.filterMap CpBool.node = w
  place : ∀ x ∈ out, ∀ v, x.node = some v → x.cp.c = v
  segs : closedSegs (out.map CpBool.cp) ~r S

theorem closeUp_run {out : List CpBool} {nn : Option (Pt ℝ)} {A : Pt ℝ} {w : List (Pt ℝ)} {S : List (Poly4 ℝ)}
    (h : Run out nn A A w S) : ∃ out', closeUp out = .ok out' ∧ Closed out' w S := by
  obtain ⟨⟨x0, mid, x1, rfl, h1, h2, h3, h4⟩, rfl, hp, rfl⟩ := h
  have e : ((⟨{ x0.cp with dl := x1.cp.dl }, x0.node⟩ : CpBool) :: (x0 :: mid ++ [x1]).tail).dropLast =
      ⟨{ x0.cp with dl := x1.cp.dl }, x0.node⟩ :: mid := by
    simp only [List.cons_append, List.tail_cons]
    rw [← List.cons_append, List.dropLast_concat]
  refine ⟨_, by rw [closeUp, last_mid]; rfl, ?_⟩
  rw [e]
  refine ⟨?_, ?_, ?_⟩
  · simp [List.filterMap_append, List.filterMap_cons, h4]
  · intro x hx v hv
    rcases List.mem_cons.1 hx with rfl | hx
    · exact hp x0 (by simp) v hv
    · exact hp x (by simp [hx]) v hv
  · obtain ⟨c0, c1, k0, k1, k2⟩ := finish_ok (cps := x0.cp :: mid.map CpBool.cp ++ [x1.cp]) ⟨x0.cp, _, x1.cp, rfl, h1, h3⟩
    rw [last_mid] at k1
    simp only [List.cons_append, List.head?_cons, Option.some.injEq] at k0 k1
    subst k0 k1
    have := k2 x0.cp.kind
    have e' : (({ x0.cp with dl := x1.cp.dl, kind := x0.cp.kind } : CP ℝ) :: (x0.cp :: mid.map CpBool.cp ++ [x1.cp]).tail).dropLast =
        { x0.cp with dl := x1.cp.dl } :: mid.map CpBool.cp := by
      simp only [List.cons_append, List.tail_cons]
      rw [← List.cons_append, List.dropLast_concat]
    rw [e'] at this
    simp only [List.map_cons, List.map_append, List.map_nil]
    rw [this]

theorem closedSegs_swap (a b : List (CP ℝ)) : closedSegs (b ++ a) ~r closedSegs (a ++ b) := by
  cases a with
  | nil => simpa using List.IsRotated.refl _
  | cons p a =>
    cases b with
    | nil => simpa using List.IsRotated.refl _
    | cons q b =>
      have h1 := segs_mid (p :: a) q (b ++ [p])
      have h2 := segs_mid (q :: b) p (a ++ [q])
      simp only [List.cons_append, List.append_assoc, closedSegs_eq] at h1 h2 ⊢
      rw [h1, h2]
      exact List.isRotated_append

theorem rotateFirst_run {out : List CpBool} {w : List (Pt ℝ)} {S : List (Poly4 ℝ)} (h : Closed out w S) (hw : w ≠ []) :
    ∃ x rest v, rotateFirst out = .ok (x :: rest) ∧ x.node = some v ∧ Closed (x :: rest) w S := by
  obtain ⟨rfl, hp, hs⟩ := h
  cases hf : out.findIdx? fun x => x.node.isSome with
  | none =>
    exfalso
    rw [List.findIdx?_eq_none_iff] at hf
    apply hw
    rw [List.filterMap_eq_nil_iff]
    intro x hx
    simpa using hf x hx
  | some i =>
    obtain ⟨hi, h1, h2⟩ := List.findIdx?_eq_some_iff_getElem.1 hf
    obtain ⟨v, hv⟩ := Option.isSome_iff_exists.1 h1
    have e : out.drop i ++ out.take i = out[i] :: (out.drop (i + 1) ++ out.take i) := by
      rw [List.drop_eq_getElem_cons hi, List.cons_append]
    refine ⟨out[i], out.drop (i + 1) ++ out.take i, v, ?_, hv, ?_⟩
    · rw [rotateFirst, hf]; simp only [e]
    · rw [← e]
      refine ⟨?_, ?_, ?_⟩
      · have : (out.take i).filterMap CpBool.node = [] := by
          rw [List.filterMap_eq_nil_iff]
          intro x hx
          obtain ⟨j, hj, rfl⟩ := List.mem_take_iff_getElem.1 hx
          have := h2 j (by omega)
          simpa using this
        rw [List.filterMap_append, this, List.append_nil]
        conv_rhs => rw [← List.take_append_drop i out, List.filterMap_append, this, List.nil_append]
      · intro x hx
        refine hp x ?_
        rcases List.mem_append.1 hx with h | h
        · exact List.mem_of_mem_drop h
        · exact List.mem_of_mem_take h
      · refine List.IsRotated.trans ?_ hs
        rw [List.map_append]
        refine (closedSegs_swap ..).trans ?_
        rw [← List.map_append, List.take_append_drop]

/-! ### The graph -/

theorem nodes_foldl (l : List (Pt ℝ)) : ∀ (ns : List (Pt ℝ)) (v : Pt ℝ),
    v ∈ l.foldl (fun ns v => if v ∈ ns then ns else ns ++ [v]) ns ↔ v ∈ ns ∨ v ∈ l := by
  induction l with
  | nil => simp
  | cons a l ih =>
    intro ns v
    rw [List.foldl_cons, ih]
    by_cases h : a ∈ ns
    · rw [if_pos h, List.mem_cons]
      constructor
      · rintro (h1 | h1) <;> simp [h1]
      · rintro (h1 | rfl | h1) <;> simp [*]
    · rw [if_neg h, List.mem_append, List.mem_singleton, List.mem_cons, or_assoc]

theorem mem_nodesOf {curves : List ((CP ℝ × CP ℝ) × List (ℝ × Pt ℝ))} {v : Pt ℝ} : v ∈ nodesOf curves ↔ v ∈ passed curves := by
  rw [nodesOf, nodes_foldl]; simp [passed]

theorem graph_closed {out : List CpBool} {w : List (Pt ℝ)} {S : List (Poly4 ℝ)} {x : CpBool} {rest : List CpBool} {v : Pt ℝ}
    (ho : out = x :: rest) (hx : x.node = some v) (h : Closed out w S) :
    ∃ es0 es, makeEdges [] none [] (out ++ out.take 1) = .ok es0 ∧ stitch es0 = .ok es ∧
      (∀ nodes, (∀ v ∈ w, v ∈ nodes) → (⟨nodes, es⟩ : Graph (Pt ℝ) (List (CP ℝ))).Word w) ∧
      (∀ e ∈ es, FromTo e.cps e.left e.right) ∧ (es.flatMap fun e => openSegs' e.cps) ~r S := by
  subst ho
  obtain ⟨hw, hp, hs⟩ := h
  set chs := chunks [x.cp] v (rest ++ [x]) with hchs
  have hw' : w = v :: rest.filterMap CpBool.node := by rw [← hw, List.filterMap_cons, hx]
  have hm : makeEdges [] none [] (x :: rest ++ (x :: rest).take 1) = .ok (linked chs) := by
    rw [List.take_succ_cons, List.take_zero, List.cons_append, makeEdges, hx]
    simp only [if_true]
    rw [makeEdges_chunks _ _ _ _ (by simp), linked_foldl]
  have hends : chs.map (fun ch => (ch.1, ch.2.2)) = (w ++ [v]).zip (rest.filterMap CpBool.node ++ [v]) := by
    rw [hchs, chunks_ends, List.filterMap_append]
    simp [hx, hw', List.filterMap_cons]
  have hlen : chs.length = w.length := by
    have := congrArg List.length hends
    simpa [hw'] using this
  have hne : chs ≠ [] := by
    rw [← List.length_pos_iff, hlen, hw']; simp
  obtain ⟨es, h1, h2, h3⟩ := stitch_linked hne
  have hft := chunks_fromTo (rest ++ [x]) [x.cp] v ⟨x.cp, [], rfl, hp x (by simp) v hx⟩ (fun y hy => hp y (by
    simp only [List.mem_append, List.mem_singleton, List.mem_cons] at hy ⊢; tauto))
  have hcs := chunks_segs rest [x.cp] v x (by simp [hx])
  have hcps : es.map Edge.cps = chs.map fun ch => ch.2.1 := by
    apply List.ext_getElem?
    intro i
    by_cases hi : i < chs.length
    · obtain ⟨e, k1, _, _, k4, _⟩ := h3 i hi
      rw [List.getElem?_map, k1, List.getElem?_map, List.getElem?_eq_getElem hi, Option.map_some, Option.map_some, k4]
    · rw [List.getElem?_eq_none (by rw [List.length_map]; omega), List.getElem?_eq_none (by rw [List.length_map]; omega)]
  refine ⟨linked chs, es, hm, h1, fun nodes hn => ⟨?_, ?_, hn⟩, ?_, ?_⟩
  · exact h2.trans hlen
  · intro i hi
    obtain ⟨e, k1, k2, k3, _, k5⟩ := h3 i (by omega)
    have hz : ((w ++ [v]).zip (rest.filterMap CpBool.node ++ [v]))[i]? = some (e.left, e.right) := by
      rw [← hends, List.getElem?_map, List.getElem?_eq_getElem (by omega), Option.map_some, k2, k3]
    rw [List.getElem?_zip_eq_some] at hz
    obtain ⟨z1, z2⟩ := hz
    rw [List.getElem?_append_left hi] at z1
    refine ⟨e, k1, z1, ?_, by rw [k5, hlen]⟩
    have hl : w.length = (rest.filterMap CpBool.node).length + 1 := by rw [hw']; rfl
    by_cases hi' : i + 1 < w.length
    · rw [Nat.mod_eq_of_lt hi', hw', List.getElem?_cons_succ]
      rw [List.getElem?_append_left (by omega)] at z2
      exact z2
    · have : i = (rest.filterMap CpBool.node).length := by omega
      rw [this, List.getElem?_concat_length] at z2
      rw [show i + 1 = w.length by omega, Nat.mod_self, hw', List.getElem?_cons_zero]
      exact z2
  · intro e he
    obtain ⟨i, hi, rfl⟩ := List.getElem_of_mem he
    obtain ⟨e', k1, k2, k3, k4, _⟩ := h3 i (by omega)
    rw [List.getElem?_eq_getElem hi, Option.some.injEq] at k1
    rw [k1, k2, k3, k4]
    exact hft _ (List.getElem_mem _)
  · have e1 : (es.flatMap fun e => openSegs' e.cps) = chs.flatMap fun ch => openSegs' ch.2.1 := by
      have := congrArg (fun l => l.flatMap openSegs') hcps
      simpa [List.flatMap_map] using this
    rw [e1, hchs, hcs]
    rw [List.map_cons, closedSegs_eq] at hs
    simpa using hs

theorem graphOf_ok {curves : List ((CP ℝ × CP ℝ) × List (ℝ × Pt ℝ))} {A : Pt ℝ} (he : Exact curves) (hf : Follow A A curves)
    (hp : passed curves ≠ []) :
    ∃ g pieces, graphOf curves = .ok g ∧ g.Word (passed curves) ∧ (∀ e ∈ g.edges, FromTo e.cps e.left e.right) ∧
      (g.edges.flatMap fun e => openSegs' e.cps) ~r pieces.flatten ∧
      List.Forall₂ (fun c ps => Pieces (seg c.1.1 c.1.2) ((sortIxs c.2).map Prod.fst) ps) curves pieces := by
  have hne : curves ≠ [] := by rintro rfl; exact hp rfl
  obtain ⟨out, pieces, h1, h2, h3⟩ := expand_start hne he hf
  obtain ⟨out2, h4, h5⟩ := closeUp_run h2
  obtain ⟨x, rest, v, h6, h7, h8⟩ := rotateFirst_run h5 hp
  obtain ⟨es0, es, h9, h10, h11, h12, h13⟩ := graph_closed rfl h7 h8
  refine ⟨⟨nodesOf curves, es⟩, pieces, ?_, h11 _ fun v hv => mem_nodesOf.2 hv, h12, h13, h3⟩
  rw [graphOf, h1]; simp only
  rw [h4]; simp only
  rw [h6]; simp only
  rw [h9]; simp only
  rw [h10]

theorem word_right_mem {g : Graph (Pt ℝ) (List (CP ℝ))} {w : List (Pt ℝ)} (hw : g.Word w) {e : Edge (Pt ℝ) (List (CP ℝ))}
    (he : e ∈ g.edges) : e.right ∈ w := by
  obtain ⟨i, hi, rfl⟩ := List.getElem_of_mem he
  obtain ⟨e', h1, _, h3, _⟩ := hw.edge i (by rw [← hw.len]; exact hi)
  rw [List.getElem?_eq_getElem hi, Option.some.injEq] at h1
  rw [h1]
  exact List.mem_of_getElem? h3

theorem close_apart {curves : List ((CP ℝ × CP ℝ) × List (ℝ × Pt ℝ))} (ha : Apart curves) {p q : Pt ℝ} (hp : p ∈ passed curves)
    (hq : q ∈ passed curves) (h : p ≠ q) : close p q = false := by
  rw [passed, List.mem_flatMap] at hp hq
  obtain ⟨c, hc, hp⟩ := hp
  obtain ⟨c', hc', hq⟩ := hq
  obtain ⟨x, hx, rfl⟩ := List.mem_map.1 hp
  obtain ⟨y, hy, rfl⟩ := List.mem_map.1 hq
  have := ha c hc x ((sortIxs_perm _).mem_iff.1 hx) c' hc' y ((sortIxs_perm _).mem_iff.1 hy) h
  simp only [close, decide_eq_false_iff_not, not_lt]
  refine this.trans (le_of_eq ?_)
  simp [Vec.length, hypot, Pt.sub, sq]

theorem loop_join {curves : List ((CP ℝ × CP ℝ) × List (ℝ × Pt ℝ))} (ha : Apart curves) {g : Graph (Pt ℝ) (List (CP ℝ))}
    (hw : g.Word (passed curves)) (hft : ∀ e ∈ g.edges, FromTo e.cps e.left e.right) {l : List ℕ} (hl : g.IsLoop l) :
    ∃ r, joinLoop (l.filterMap fun i => g.edges[i]?) = .ok r ∧
      closedSegs r ~r ((l.filterMap fun i => g.edges[i]?).reverse.flatMap fun x => openSegs' x.cps) := by
  have hm : ∀ e ∈ l.filterMap (fun i => g.edges[i]?), e ∈ g.edges := by
    intro e he
    obtain ⟨i, _, hi⟩ := List.mem_filterMap.1 he
    exact List.mem_of_getElem? hi
  exact joinLoop_edges (edgeLoop_of hl) (fun e he => hft e (hm e he)) fun a h1 b h2 =>
    close_apart ha (word_right_mem hw (hm a h1)) (word_right_mem hw (hm b h2))

/-! ### Loops as runs of arcs -/

theorem from_rotate {V C : Type} {g : Graph V C} : ∀ {l : List ℕ} {a : ℕ}, l.IsChain (fun a b => g.from a = g.to b) →
    l.head? = some a → (l.map g.from).dropLast = (l.map g.to).tail
  | [x], _, _, _ => rfl
  | x :: y :: l, _, hc, _ => by
    have hc' := List.isChain_cons_cons.1 hc
    have := from_rotate hc'.2 (a := y) rfl
    simp only [List.map_cons, List.dropLast_cons_cons, List.tail_cons] at this ⊢
    rw [this, hc'.1]

theorem from_nodup {V C : Type} {g : Graph V C} {l : List ℕ} (h : g.IsLoop l) : (l.map g.from).Nodup := by
  obtain ⟨a, b, h1, h2, h3⟩ := h.closed
  have hr := from_rotate h.chain h1
  have hp : (l.map g.from).Perm (l.map g.to) := by
    obtain ⟨ys, rfl⟩ := List.getLast?_eq_some_iff.1 h2
    rw [List.map_append, List.map_singleton, List.dropLast_concat] at hr
    rw [List.map_append, List.map_singleton, h3, hr]
    have : ((ys ++ [b]).map g.to) = g.to a :: ((ys ++ [b]).map g.to).tail := by
      cases hy : ys ++ [b] with
      | nil => simp at hy
      | cons z zs =>
        rw [hy] at h1
        simp only [List.head?_cons, Option.some.injEq] at h1
        rw [h1]; rfl
    rw [this, List.tail_cons]
    exact List.perm_append_singleton _ _
  exact hp.nodup_iff.2 h.simple

theorem segs_ends {cps : List (CP ℝ)} {A Z : Pt ℝ} (h : FromTo cps A Z) :
    (∃ S, (openSegs' cps).head? = some S ∧ S.a = A) ∧ ∃ S, (openSegs' cps).getLast? = some S ∧ S.d = Z := by
  obtain ⟨c0, mid, c1, rfl, rfl, rfl⟩ := h
  constructor
  · cases mid with
    | nil => exact ⟨seg c0 c1, rfl, rfl⟩
    | cons m mid => exact ⟨seg c0 m, rfl, rfl⟩
  · rcases List.eq_nil_or_concat mid with rfl | ⟨mid, m, rfl⟩
    · exact ⟨seg c0 c1, rfl, rfl⟩
    · refine ⟨seg m c1, ?_, rfl⟩
      have := openSegs'_append2 (c0 :: mid) m c1
      rw [List.concat_eq_append, ← List.cons_append, this, List.getLast?_concat]

theorem flatMap_get {V C : Type} {g : Graph V C} {f : Edge V C → List (Poly4 ℝ)} (l : List ℕ) :
    ((l.filterMap fun i => g.edges[i]?).flatMap f) = l.flatMap fun i => ((g.edges.map f)[i]?).getD [] := by
  induction l with
  | nil => rfl
  | cons i l ih =>
    rw [List.filterMap_cons, List.flatMap_cons, List.getElem?_map, ← ih]
    cases g.edges[i]? <;> simp

end X7.Bzi
