import Verif.Spec.HoleHeap
import Verif.Lemmas.Elem

namespace X7.HH

/-! ### Pens of parts do not matter -/

/-- The paths with another pen. -/
def repen (pb : PenBrush) (ps : List Path) : List Path := ps.map fun q => { q with pb := pb }

theorem leaf_setPb (name : Str) (pb pb' : PenBrush) (m : Mat3 ℝ) (l : GH.Leaf) :
    (GH.leafElem name pb m l).setPb pb' = GH.leafElem name pb' m l := by
  cases l <;> rfl

theorem leaf_paths (cfg : DCfg) (name : Str) (pb pb' : PenBrush) (m : Mat3 ℝ) (l : GH.Leaf) (s : TState) :
    Elem.paths cfg (GH.leafElem name pb' m l) s =
      ((Elem.paths cfg (GH.leafElem name pb m l) s).1, (Elem.paths cfg (GH.leafElem name pb m l) s).2.map (repen pb')) := by
  cases l with
  | curve c cps =>
    simp only [GH.leafElem, Elem.paths, Elem.drawSpace_eq (Elem.curvePaths_keeps _ _ _), Elem.curvePaths]
    rfl
  | rect p q =>
    simp only [GH.leafElem, Elem.paths, Elem.drawSpace_eq (Elem.rectPaths_keeps _ _ _)]
    congr 1
  | rrect p q r =>
    simp only [GH.leafElem, Elem.paths, Elem.drawSpace_eq (Elem.shapePaths_keeps _ _)]
    congr 1
    simp only [Elem.shapePaths]
    split <;> rfl
  | ellipse p q =>
    simp only [GH.leafElem, Elem.paths, Elem.drawSpace_eq (Elem.shapePaths_keeps _ _)]
    congr 1

/-- The two are the same curve or simple shape but for the pen. -/
def Like (e e' : Elem) : Prop := ∃ name pb pb' m l, e = GH.leafElem name pb m l ∧ e' = GH.leafElem name pb' m l

theorem Like.paths {e e' : Elem} (h : Like e e') (cfg : DCfg) (s : TState) :
    ∃ pb', Elem.paths cfg e' s = ((Elem.paths cfg e s).1, (Elem.paths cfg e s).2.map (repen pb')) := by
  obtain ⟨name, pb, pb', m, l, rfl, rfl⟩ := h
  exact ⟨pb', leaf_paths cfg name pb pb' m l s⟩

theorem fillInside_repen (edge pb : PenBrush) (ps : List Path) : ∀ (todo : List Path) (acc : List Path × Path),
    Elem.fillInside edge (repen pb ps) (repen pb todo) acc = Elem.fillInside edge ps todo acc
  | [], acc => rfl
  | p :: todo, (edges, fill) => by
    have e : (repen pb ps).map (fun q => ({ q with pb := edge } : Path)) = ps.map fun q => { q with pb := edge } := by
      simp [repen]
    simp only [repen, List.map_cons, Elem.fillInside]
    cases fill.extend p.pts true with
    | error er => rfl
    | ok f =>
      have := fillInside_repen edge pb ps todo (edges ++ ps.map (fun q => { q with pb := edge }), f)
      simp only [repen] at e this
      simp only [e]
      exact this

theorem pathsFill_like (cfg : DCfg) (edge : PenBrush) {es es' : List Elem} (h : List.Forall₂ Like es es') :
    ∀ s acc, Elem.pathsFill cfg edge es' s acc = Elem.pathsFill cfg edge es s acc := by
  induction h with
  | nil => intro s acc; rfl
  | cons h1 _ ih =>
    intro s acc
    obtain ⟨pb', hp⟩ := h1.paths cfg s
    rw [Elem.pathsFill, Elem.pathsFill, hp]
    generalize Elem.paths cfg _ s = r
    obtain ⟨s', r⟩ := r
    cases r with
    | error er => rfl
    | ok ps =>
      simp only [Except.map, fillInside_repen]
      cases Elem.fillInside edge ps ps acc with
      | error er => rfl
      | ok acc => exact ih _ _

theorem pathsEdge_like (cfg : DCfg) (edge : PenBrush) {es es' : List Elem} (h : List.Forall₂ Like es es') :
    ∀ s acc, Elem.pathsEdge cfg edge es' s acc = Elem.pathsEdge cfg edge es s acc := by
  induction h with
  | nil => intro s acc; rfl
  | cons h1 _ ih =>
    intro s acc
    obtain ⟨pb', hp⟩ := h1.paths cfg s
    rw [Elem.pathsEdge, Elem.pathsEdge, hp]
    generalize Elem.paths cfg _ s = r
    obtain ⟨s', r⟩ := r
    cases r with
    | error er => rfl
    | ok ps =>
      simp only [Except.map, repen, List.map_map]
      exact ih _ _

theorem holes_like (cfg : DCfg) (h : Hdr) {o o' : Elem} {is is' : List Elem} (ho : Like o o') (hi : List.Forall₂ Like is is') (s : TState) :
    Elem.paths cfg (.holes h o' is') s = Elem.paths cfg (.holes h o is) s := by
  rw [Elem.paths_holes, Elem.paths_holes]
  congr 1
  funext s
  obtain ⟨pb', hp⟩ := ho.paths cfg s
  rw [Elem.holesBody, Elem.holesBody, hp]
  generalize Elem.paths cfg o s = r
  obtain ⟨s', r⟩ := r
  cases r with
  | error er => rfl
  | ok ps =>
    match ps with
    | [] => rfl
    | [p] =>
      simp only [Except.map, repen, List.map_cons, List.map_nil, pathsFill_like cfg _ hi, pathsEdge_like cfg _ hi]
    | p :: q :: r => rfl

/-! ### Reading -/

/-- `w` and `w'` agree on what drawing `i` reads, but for the pen. -/
theorem part_some {w : World} {i : ℕ} {e : Elem} (h : part w i = some e) :
    ∃ name pb x l m, w.items[i]? = some ⟨name, pb, x, .leaf l⟩ ∧ w.xfs[x]? = some m ∧ e = GH.leafElem name pb m l := by
  unfold part at h
  split at h
  · rename_i name pb x l hi
    obtain ⟨m, hm, rfl⟩ := Option.map_eq_some_iff.1 h
    exact ⟨name, pb, x, l, m, hi, hm, rfl⟩
  · exact absurd h (by simp)

theorem part_eq {w : World} {i : ℕ} {name : Str} {pb : PenBrush} {x : ℕ} {l : GH.Leaf} {m : Mat3 ℝ}
    (hi : w.items[i]? = some ⟨name, pb, x, .leaf l⟩) (hm : w.xfs[x]? = some m) : part w i = some (GH.leafElem name pb m l) := by
  simp [part, hi, hm]

theorem elem_leaf {w : World} {i : ℕ} {name : Str} {pb : PenBrush} {x : ℕ} {l : GH.Leaf}
    (hi : w.items[i]? = some ⟨name, pb, x, .leaf l⟩) : elem w i = part w i := by
  simp [elem, hi]

theorem elem_holes {w : World} {i : ℕ} {name : Str} {pb : PenBrush} {x : ℕ} {c : Bool} {o l : ℕ} {is : List ℕ} {m : Mat3 ℝ} {oe : Elem}
    {ies : List Elem} (hi : w.items[i]? = some ⟨name, pb, x, .holes c o l⟩) (hm : w.xfs[x]? = some m) (ho : part w o = some oe)
    (hl : w.lists[l]? = some is) (hp : parts w is = some ies) : elem w i = some (.holes ⟨name, pb, c, m⟩ oe ies) := by
  simp [elem, hi, hm, ho, hl, hp]

theorem leafElem_ne_holes {name : Str} {pb : PenBrush} {m : Mat3 ℝ} {l : GH.Leaf} {h : Hdr} {o : Elem} {is : List Elem} :
    GH.leafElem name pb m l ≠ .holes h o is := by
  cases l <;> simp [GH.leafElem]

theorem elem_some {w : World} {i : ℕ} {h : Hdr} {o : Elem} {is : List Elem} (he : elem w i = some (.holes h o is)) :
    ∃ x oi l ids, w.items[i]? = some ⟨h.name, h.pb, x, .holes h.closed oi l⟩ ∧ w.xfs[x]? = some h.xf ∧ part w oi = some o ∧
      w.lists[l]? = some ids ∧ parts w ids = some is := by
  unfold elem at he
  split at he
  · rename_i name pb x c oi l hi
    split at he
    · rename_i m oe ies h1 h2 h3
      obtain ⟨ids, h4, h5⟩ := Option.bind_eq_some_iff.1 h3
      simp only [Option.some.injEq, Elem.holes.injEq] at he
      obtain ⟨rfl, rfl, rfl⟩ := he
      exact ⟨x, oi, l, ids, hi, h1, h2, h4, h5⟩
    · exact absurd he (by simp)
  · obtain ⟨_, _, _, _, _, _, _, h3⟩ := part_some he
    exact absurd h3.symm leafElem_ne_holes

theorem parts_forall {w : World} : ∀ {ids : List ℕ} {is : List Elem}, parts w ids = some is ↔ List.Forall₂ (fun i e => part w i = some e) ids is
  | [], is => by
    simp only [parts]
    constructor
    · intro h; cases h; exact .nil
    · intro h; cases h; rfl
  | i :: ids, is => by
    constructor
    · intro h
      rw [parts] at h
      split at h
      · rename_i e es h1 h2
        cases h
        exact .cons h1 (parts_forall.1 h2)
      · exact absurd h (by simp)
    · intro h
      cases h with
      | cons h1 h2 => rw [parts, h1, parts_forall.2 h2]

theorem isLeaf_iff {w : World} {i : ℕ} : isLeaf w i = true ↔ ∃ name pb x l, w.items[i]? = some ⟨name, pb, x, .leaf l⟩ := by
  unfold isLeaf
  split
  · rename_i name pb x l h; simp only [h, true_iff]; exact ⟨_, _, _, _, rfl⟩
  · rename_i h
    simp only [Bool.false_eq_true, false_iff]
    rintro ⟨name, pb, x, l, h'⟩
    exact h _ _ _ _ h'

/-! ### What a call leaves as it was -/

theorem setPens_get (pb : PenBrush) : ∀ (is : List ℕ) (w : World) (j : ℕ),
    (is.foldl (fun w i => setPen w pb i) w).items[j]? = (w.items[j]?).map fun it => if j ∈ is then { it with pb := pb } else it
  | [], w, j => by simp
  | i :: is, w, j => by
    rw [List.foldl_cons, setPens_get pb is]
    simp only [setPen, List.getElem?_modify, List.mem_cons]
    by_cases hij : i = j
    · subst hij
      simp only [if_true, true_or]
      cases w.items[i]? with
      | none => rfl
      | some it => by_cases h : i ∈ is <;> simp [h]
    · simp only [hij, if_false]
      cases w.items[j]? with
      | none => rfl
      | some it =>
        have : ¬ j = i := fun h => hij h.symm
        simp [this]

theorem setPens_rest (pb : PenBrush) : ∀ (is : List ℕ) (w : World),
    (is.foldl (fun w i => setPen w pb i) w).lists = w.lists ∧ (is.foldl (fun w i => setPen w pb i) w).xfs = w.xfs ∧
    (is.foldl (fun w i => setPen w pb i) w).items.length = w.items.length
  | [], w => ⟨rfl, rfl, rfl⟩
  | i :: is, w => by
    rw [List.foldl_cons]
    obtain ⟨h1, h2, h3⟩ := setPens_rest pb is (setPen w pb i)
    refine ⟨h1, h2, ?_⟩
    rw [h3]; simp [setPen]

/-- What copying a part gives. -/
theorem copyPart_ok {w w' : World} {i j : ℕ} (h : copyPart w i = .ok (w', j)) :
    ∃ name pb x l, w.items[i]? = some ⟨name, pb, x, .leaf l⟩ ∧ unfit pb l = false ∧ j = w.items.length ∧
      w' = ⟨w.items ++ [⟨name, pb, x, .leaf l⟩], w.lists, w.xfs⟩ := by
  unfold copyPart at h
  split at h
  · rename_i name pb x l hi
    split at h
    · exact absurd h (by simp)
    · rename_i hu
      simp only [Except.ok.injEq, Prod.mk.injEq] at h
      exact ⟨name, pb, x, l, hi, by simpa using hu, h.2.symm, h.1.symm⟩
  · exact absurd h (by simp)

theorem copyPart_eq {w : World} {i : ℕ} {name : Str} {pb : PenBrush} {x : ℕ} {l : GH.Leaf}
    (hi : w.items[i]? = some ⟨name, pb, x, .leaf l⟩) (hu : unfit pb l = false) :
    copyPart w i = .ok (⟨w.items ++ [⟨name, pb, x, .leaf l⟩], w.lists, w.xfs⟩, w.items.length) := by
  simp [copyPart, hi, hu]

theorem copyPart_err {w : World} {i : ℕ} {er : PyErr} (hl : isLeaf w i = true) (h : copyPart w i = .error er) : er = .assertion := by
  obtain ⟨name, pb, x, l, hi⟩ := isLeaf_iff.1 hl
  simp only [copyPart, hi] at h
  split at h
  · cases h; rfl
  · exact absurd h (by simp)

theorem lt_of_some {α : Type*} {l : List α} {i : ℕ} {a : α} (h : l[i]? = some a) : i < l.length := (List.getElem?_eq_some_iff.1 h).1

theorem forall₂_mem {α β : Type*} {R S : α → β → Prop} : ∀ {l : List α} {l' : List β}, (∀ a ∈ l, ∀ b, R a b → S a b) → List.Forall₂ R l l' →
    List.Forall₂ S l l'
  | _, _, _, .nil => .nil
  | _, _, h, .cons h1 h2 => .cons (h _ (List.mem_cons_self ..) _ h1) (forall₂_mem (fun a ha => h a (List.mem_cons_of_mem _ ha)) h2)

/-- What copying the holes gives: new objects, one for each, with the same record. -/
theorem copyParts_ok : ∀ {is : List ℕ} {w w' : World} {js : List ℕ}, copyParts w is = .ok (w', js) →
    (∀ i ∈ is, i < w.items.length) →
    ∃ new, w' = ⟨w.items ++ new, w.lists, w.xfs⟩ ∧ js = List.range' w.items.length is.length ∧
      List.Forall₂ (fun i it => w.items[i]? = some it ∧ ∃ l, it.body = .leaf l ∧ unfit it.pb l = false) is new
  | [], w, w', js, h, _ => by
    simp only [copyParts, Except.ok.injEq, Prod.mk.injEq] at h
    obtain ⟨rfl, rfl⟩ := h
    exact ⟨[], by simp, rfl, .nil⟩
  | i :: is, w, w', js, h, hb => by
    rw [copyParts] at h
    split at h
    · exact absurd h (by simp)
    · rename_i w1 j h1
      split at h
      · exact absurd h (by simp)
      · rename_i w2 js' h2
        simp only [Except.ok.injEq, Prod.mk.injEq] at h
        obtain ⟨rfl, rfl⟩ := h
        obtain ⟨name, pb, x, l, hi, hu, rfl, rfl⟩ := copyPart_ok h1
        obtain ⟨new, rfl, rfl, hf⟩ := copyParts_ok h2 (fun k hk => by
          have := hb k (List.mem_cons_of_mem _ hk); simp; omega)
        refine ⟨⟨name, pb, x, .leaf l⟩ :: new, by simp, ?_, .cons ⟨hi, l, rfl, hu⟩ ?_⟩
        · simp [List.range'_succ]
        · refine forall₂_mem (fun k hk it hr => ?_) hf
          rwa [List.getElem?_append_left (hb k (List.mem_cons_of_mem _ hk))] at hr

theorem copyParts_err : ∀ {is : List ℕ} {w : World} {er : PyErr}, copyParts w is = .error er → (∀ i ∈ is, isLeaf w i = true) →
    er = .assertion ∧ ∃ k ∈ is, ∃ it b, w.items[k]? = some it ∧ it.body = .leaf b ∧ unfit it.pb b = true
  | [], w, er, h, _ => by simp [copyParts] at h
  | i :: is, w, er, h, hl => by
    obtain ⟨name, pb, x, l, hi⟩ := isLeaf_iff.1 (hl i (List.mem_cons_self ..))
    by_cases hu : unfit pb l = true
    · have : copyPart w i = .error .assertion := by simp [copyPart, hi, hu]
      rw [copyParts, this] at h
      simp only [Except.error.injEq] at h
      exact ⟨h.symm, i, List.mem_cons_self .., _, l, hi, rfl, hu⟩
    · rw [copyParts, copyPart_eq hi (by simpa using hu)] at h
      simp only at h
      split at h
      · rename_i er' h'
        simp only [Except.error.injEq] at h
        subst h
        have hlt : ∀ k ∈ is, (w.items ++ [(⟨name, pb, x, .leaf l⟩ : Item)])[k]? = w.items[k]? := by
          intro k hk
          obtain ⟨_, _, _, _, hk'⟩ := isLeaf_iff.1 (hl k (List.mem_cons_of_mem _ hk))
          exact List.getElem?_append_left (lt_of_some hk')
        obtain ⟨h1, k, hk, it, b, h2, h3⟩ := copyParts_err h' (fun k hk => by
          obtain ⟨a, b, c, d, h⟩ := isLeaf_iff.1 (hl k (List.mem_cons_of_mem _ hk))
          exact isLeaf_iff.2 ⟨a, b, c, d, by simp only [hlt k hk]; exact h⟩)
        simp only [hlt k hk] at h2
        exact ⟨h1, k, List.mem_cons_of_mem _ hk, it, b, h2, h3⟩
      · simp at h

/-- No dangling references. -/
structure Ok (w : World) : Prop where
  xf : ∀ (i : ℕ) (it : Item), w.items[i]? = some it → it.xf < w.xfs.length
  body : ∀ (i : ℕ) (name : Str) (pb : PenBrush) (x : ℕ) (c : Bool) (o l : ℕ), w.items[i]? = some ⟨name, pb, x, .holes c o l⟩ → isLeaf w o = true ∧ l < w.lists.length
  list : ∀ (l : ℕ) (is : List ℕ), w.lists[l]? = some is → ∀ j ∈ is, isLeaf w j = true

theorem isLeaf_lt {w : World} {i : ℕ} (h : isLeaf w i = true) : i < w.items.length := by
  obtain ⟨_, _, _, _, h⟩ := isLeaf_iff.1 h
  exact lt_of_some h

theorem construct_ok {w w' : World} {name : Str} {pb : PenBrush} {o l : ℕ} {c : Bool} {x : ℕ} {is : List ℕ} (hl : w.lists[l]? = some is)
    (h : construct w name pb o l c x = (w', none)) :
    (pb.filled && !c) = false ∧ w'.lists = w.lists ∧ w'.xfs = w.xfs ∧ ∀ j, w'.items[j]? =
      ((w.items ++ [⟨name, pb, x, .holes c o l⟩])[j]?).map fun it => if j = o ∨ j ∈ is then { it with pb := pb } else it := by
  unfold construct at h
  split at h
  · simp at h
  · rename_i hf
    simp only [hl, Option.getD_some, Prod.mk.injEq, and_true] at h
    obtain ⟨h1, h2, -⟩ := setPens_rest pb is (setPen ⟨w.items ++ [⟨name, pb, x, .holes c o l⟩], w.lists, w.xfs⟩ pb o)
    rw [h] at h1 h2
    refine ⟨by simpa using hf, h1, h2, fun j => ?_⟩
    have := setPens_get pb (o :: is) ⟨w.items ++ [⟨name, pb, x, .holes c o l⟩], w.lists, w.xfs⟩ j
    rw [List.foldl_cons, h] at this
    rw [this]
    simp only [List.mem_cons]

theorem construct_err {w : World} {name : Str} {pb : PenBrush} {o l : ℕ} {c : Bool} {x : ℕ} :
    (construct w name pb o l c x).2 = if pb.filled && !c then some .assertion else none := by
  unfold construct
  split <;> simp_all

/-- The items with another pen. -/
def withPb (pb : PenBrush) (it : Item) : Item := { it with pb := pb }

theorem pens_append (A new : List Item) (b z : Item) (pb : PenBrush) (j : ℕ) :
    ((A ++ (b :: new ++ [z]))[j]?).map (fun it => if j = A.length ∨ j ∈ List.range' (A.length + 1) new.length then withPb pb it else it) =
      (A ++ (withPb pb b :: new.map (withPb pb) ++ [z]))[j]? := by
  simp only [List.mem_range'_1]
  rcases lt_trichotomy j A.length with hj | rfl | hj
  · rw [List.getElem?_append_left hj, List.getElem?_append_left hj]
    have : ¬ (j = A.length ∨ A.length + 1 ≤ j ∧ j < A.length + 1 + new.length) := by omega
    simp only [this, if_false, Option.map_id']
  · rw [List.getElem?_append_right le_rfl, List.getElem?_append_right le_rfl]
    simp
  · obtain ⟨k, rfl⟩ : ∃ k, j = A.length + (k + 1) := ⟨j - A.length - 1, by omega⟩
    rw [List.getElem?_append_right (l₁ := A) (by omega), List.getElem?_append_right (l₁ := A) (by omega)]
    simp only [Nat.add_sub_cancel_left, List.cons_append, List.getElem?_cons_succ]
    rcases lt_or_ge k new.length with hk | hk
    · rw [List.getElem?_append_left hk, List.getElem?_append_left (by simpa using hk)]
      have : A.length + (k + 1) = A.length ∨ A.length + 1 ≤ A.length + (k + 1) ∧ A.length + (k + 1) < A.length + 1 + new.length := by
        omega
      simp only [this, if_true, List.getElem?_map]
    · rw [List.getElem?_append_right hk, List.getElem?_append_right (by simpa using hk)]
      have : ¬ (A.length + (k + 1) = A.length ∨ A.length + 1 ≤ A.length + (k + 1) ∧ A.length + (k + 1) < A.length + 1 + new.length) := by
        omega
      simp only [this, if_false, List.length_map, Option.map_id']

theorem copyWith_ok {w w' : World} {i : ℕ} {f : Mat3 ℝ → Mat3 ℝ} (hok : Ok w) (h : copyWith w i f = (w', none)) :
    ∃ name pb x c o l is m oit new, w.items[i]? = some ⟨name, pb, x, .holes c o l⟩ ∧ w.lists[l]? = some is ∧ w.xfs[x]? = some m ∧
      w.items[o]? = some oit ∧ (∃ b, oit.body = .leaf b ∧ unfit oit.pb b = false) ∧
      List.Forall₂ (fun i it => w.items[i]? = some it ∧ ∃ l, it.body = .leaf l ∧ unfit it.pb l = false) is new ∧
      (pb.filled && !c) = false ∧ w'.lists = w.lists ++ [List.range' (w.items.length + 1) is.length] ∧ w'.xfs = w.xfs ++ [f m] ∧
      w'.items = w.items ++ (withPb pb oit :: new.map (withPb pb) ++ [⟨name, pb, w.xfs.length, .holes c w.items.length w.lists.length⟩]) := by
  unfold copyWith at h
  split at h
  swap
  · simp at h
  rename_i name pb x c o l hi
  split at h
  swap
  · simp at h
  rename_i is m hl hx
  split at h
  · simp at h
  rename_i w1 o' h1
  split at h
  · simp at h
  rename_i w2 is' h2
  split at h
  · simp at h
  rename_i w3 h3
  simp only [Prod.mk.injEq, and_true] at h
  subst h
  obtain ⟨oname, opb, ox, ol, ho, hu, rfl, rfl⟩ := copyPart_ok h1
  have hlt : ∀ k ∈ is, k < w.items.length := fun k hk => isLeaf_lt (hok.list l is hl k hk)
  obtain ⟨new, rfl, rfl, hf⟩ := copyParts_ok h2 (fun k hk => by have := hlt k hk; simp; omega)
  have hf' := forall₂_mem (S := fun i it => w.items[i]? = some it ∧ ∃ l, it.body = .leaf l ∧ unfit it.pb l = false)
    (fun k hk it hr => by simpa only [List.getElem?_append_left (hlt k hk)] using hr) hf
  have hlen := hf'.length_eq
  obtain ⟨g1, g2, g3, g4⟩ := construct_ok (is := List.range' (w.items.length + 1) is.length) (by simp) h3
  refine ⟨name, pb, x, c, o, l, is, m, _, new, hi, hl, hx, ho, ⟨ol, rfl, hu⟩, hf', g1, by simpa using g2, by simpa using g3, ?_⟩
  apply List.ext_getElem?
  intro j
  rw [g4, ← pens_append]
  simp only [List.append_assoc, List.cons_append, List.nil_append, hlen]
  rfl

/-- The three ways `restore` can go: a failure at the outside, a failure at a hole, success. -/
theorem restore_cases {w : World} {i j : ℕ} (hok : Ok w) {n n' : Str} {p p' : PenBrush} {x x' : ℕ} {c c' : Bool} {o o' l l' : ℕ} {is : List ℕ}
    (hi : w.items[i]? = some ⟨n, p, x, .holes c o l⟩) (hj : w.items[j]? = some ⟨n', p', x', .holes c' o' l'⟩) (hl : w.lists[l]? = some is) :
    (restoreHoles w i j = (⟨w.items.set i ⟨n', p', x', .holes c' o l⟩, w.lists, w.xfs⟩, some .assertion) ∧
      ∃ oit b, w.items[o']? = some oit ∧ oit.body = .leaf b ∧ unfit oit.pb b = true) ∨
    ∃ oit b, w.items[o']? = some oit ∧ oit.body = .leaf b ∧ unfit oit.pb b = false ∧
      ((restoreHoles w i j = (⟨(w.items ++ [oit]).set i ⟨n', p', x', .holes c' w.items.length l⟩, w.lists, w.xfs⟩, some .assertion) ∧
        ∃ k ∈ is, ∃ it b, w.items[k]? = some it ∧ it.body = .leaf b ∧ unfit it.pb b = true) ∨
      ∃ new, List.Forall₂ (fun i it => w.items[i]? = some it ∧ ∃ l, it.body = .leaf l ∧ unfit it.pb l = false) is new ∧
        restoreHoles w i j = (⟨(w.items ++ (oit :: new)).set i ⟨n', p', x', .holes c' w.items.length w.lists.length⟩,
          w.lists ++ [List.range' (w.items.length + 1) is.length], w.xfs⟩, none)) := by
  have hio : ∀ k, isLeaf w k = true → k ≠ i := by
    rintro k hk rfl
    obtain ⟨_, _, _, _, h⟩ := isLeaf_iff.1 hk
    rw [hi] at h; simp at h
  obtain ⟨on, op, ox, ol, ho'⟩ := isLeaf_iff.1 (hok.body j _ _ _ _ _ _ hj).1
  have hne := hio o' (hok.body j _ _ _ _ _ _ hj).1
  have hiw := lt_of_some hi
  have how := lt_of_some ho'
  simp only [restoreHoles, hi, hj]
  by_cases hu : unfit op ol = true
  · refine .inl ⟨?_, _, ol, ho', rfl, hu⟩
    have : copyPart ⟨w.items.set i ⟨n', p', x', .holes c' o l⟩, w.lists, w.xfs⟩ o' = .error .assertion := by
      simp [copyPart, List.getElem?_set_ne hne.symm, ho', hu]
    rw [this]
  have hu' : unfit op ol = false := by simpa using hu
  refine .inr ⟨_, ol, ho', rfl, hu', ?_⟩
  rw [copyPart_eq (name := on) (pb := op) (x := ox) (l := ol) (by simp [List.getElem?_set_ne hne.symm, ho']) hu']
  simp only [hl, Option.getD_some, List.length_set]
  have hset : ∀ b : Item, ((w.items.set i ⟨n', p', x', .holes c' o l⟩) ++ [b]).set i ⟨n', p', x', .holes c' w.items.length l⟩ =
      (w.items ++ [b]).set i ⟨n', p', x', .holes c' w.items.length l⟩ := by
    intro b
    rw [List.set_append_left _ _ (by simpa using hiw), List.set_append_left _ _ hiw, List.set_set]
  rw [hset]
  have hget : ∀ k ∈ is, ∀ b : Item, ((w.items ++ [b]).set i ⟨n', p', x', .holes c' w.items.length l⟩)[k]? = w.items[k]? := by
    intro k hk b
    have hkl := hok.list l is hl k hk
    rw [List.getElem?_set_ne (hio k hkl).symm, List.getElem?_append_left (isLeaf_lt hkl)]
  cases hc : copyParts ⟨(w.items ++ [(⟨on, op, ox, .leaf ol⟩ : Item)]).set i ⟨n', p', x', .holes c' w.items.length l⟩, w.lists, w.xfs⟩ is with
  | error er =>
    obtain ⟨he, k, hk, hb⟩ := copyParts_err hc (fun k hk => by
      obtain ⟨a, b, c, d, h⟩ := isLeaf_iff.1 (hok.list l is hl k hk)
      exact isLeaf_iff.2 ⟨a, b, c, d, by simp only [hget k hk]; exact h⟩)
    obtain ⟨it, b, h1, h2, h3⟩ := hb
    rw [hget k hk] at h1
    subst he
    exact .inl ⟨rfl, k, hk, it, b, h1, h2, h3⟩
  | ok r =>
    obtain ⟨w4, js⟩ := r
    obtain ⟨new, rfl, rfl, hf⟩ := copyParts_ok hc (fun k hk => by
      have := isLeaf_lt (hok.list l is hl k hk); simp; omega)
    refine .inr ⟨new, forall₂_mem (fun k hk it hr => by simpa only [hget k hk] using hr) hf, ?_⟩
    simp only [List.length_set, List.length_append, List.length_cons, List.length_nil, Prod.mk.injEq, and_true, World.mk.injEq]
    have hi2 : i < (w.items ++ [(⟨on, op, ox, .leaf ol⟩ : Item)]).length := by simp; omega
    rw [List.set_append_left _ _ (by simpa using hi2), List.set_set, ← List.set_append_left _ _ hi2]
    simp

theorem restore_bad {w : World} {i k : ℕ}
    (h : ¬ ∃ n p x c o l n' p' x' c' o' l', w.items[i]? = some ⟨n, p, x, .holes c o l⟩ ∧ w.items[k]? = some ⟨n', p', x', .holes c' o' l'⟩) :
    restoreHoles w i k = (w, some .attribute) := by
  unfold restoreHoles
  split
  · rename_i h1 h2
    exact absurd ⟨_, _, _, _, _, _, _, _, _, _, _, _, h1, h2⟩ h
  · rfl

/-- The call writes the record of object `j`, other than its pen. -/
def Rewrites (j : ℕ) : Op → Prop
  | .edit i _ _ _ _ => i = j
  | .setOutside i _ => i = j
  | .setInside i _ => i = j
  | .restoreHoles i _ => i = j
  | _ => False

/-- The call gives object `j` the pen `pb`. -/
def Pens (w : World) (j : ℕ) (pb : PenBrush) : Op → Prop
  | .setPen i pb' => i = j ∧ pb' = pb
  | .mkHoles _ pb' o l _ => isLeaf w j = true ∧ pb' = pb ∧ (j = o ∨ ∃ is, w.lists[l]? = some is ∧ j ∈ is)
  | _ => False

theorem copyWith_err {w w' : World} {i : ℕ} {f : Mat3 ℝ → Mat3 ℝ} {er : PyErr} (h : copyWith w i f = (w', some er)) : w' = w := by
  unfold copyWith at h
  split at h
  · split at h
    · split at h
      · simp_all
      · split at h
        · simp_all
        · split at h
          · simp_all
          · simp at h
    · simp_all
  · simp_all

/-- The old objects after a call. -/
theorem step_item {w : World} (hok : Ok w) (op : Op) {j : ℕ} {it : Item} (hj : w.items[j]? = some it) :
    Rewrites j op ∨ ∃ pb', (step w op).1.items[j]? = some (withPb pb' it) ∧ (pb' = it.pb ∨ Pens w j pb' op) := by
  have same : ∀ {its : List Item}, its[j]? = some it → ∃ pb', its[j]? = some (withPb pb' it) ∧ (pb' = it.pb ∨ Pens w j pb' op) :=
    fun h => ⟨it.pb, h, .inl rfl⟩
  have app : ∀ {new : List Item}, (w.items ++ new)[j]? = some it := fun {new} => by
    rw [List.getElem?_append_left (lt_of_some hj)]; exact hj
  have cw : ∀ i f, (copyWith w i f).1.items[j]? = some it := by
    intro i f
    cases hc : (copyWith w i f).2 with
    | some er =>
      have e : (copyWith w i f).1 = w := copyWith_err (i := i) (f := f) (er := er) (Prod.ext rfl hc)
      rw [e]; exact hj
    | none =>
      obtain ⟨_, _, _, _, _, _, _, _, _, _, -, -, -, -, -, -, -, -, -, hit⟩ := copyWith_ok hok (w' := (copyWith w i f).1) (Prod.ext rfl hc)
      rw [hit]; exact app
  cases op with
  | mkLeaf name pb l =>
    right; simp only [step]; split
    · exact same hj
    · exact same app
  | mkList is =>
    right; simp only [step]; split <;> exact same hj
  | mkHoles name pb o l c =>
    right; simp only [step]; split
    · rename_i hc
      simp only [Bool.and_eq_true, decide_eq_true_eq] at hc
      cases hr : (construct { w with xfs := w.xfs ++ [Mat3.one] } name pb o l c w.xfs.length).2 with
      | some er =>
        have : construct { w with xfs := w.xfs ++ [Mat3.one] } name pb o l c w.xfs.length = (_, some er) := Prod.ext rfl hr
        rw [this]
        exact same hj
      | none =>
        have : construct { w with xfs := w.xfs ++ [Mat3.one] } name pb o l c w.xfs.length =
            ((construct { w with xfs := w.xfs ++ [Mat3.one] } name pb o l c w.xfs.length).1, none) := Prod.ext rfl hr
        rw [this]
        obtain ⟨-, -, -, h4⟩ := construct_ok (w := { w with xfs := w.xfs ++ [Mat3.one] }) (is := w.lists[l])
          (List.getElem?_eq_getElem hc.2) this
        simp only
        rw [h4 j]
        simp only [app, Option.map_some]
        by_cases hm : j = o ∨ j ∈ w.lists[l]
        · rw [if_pos hm]
          have hle : isLeaf w j = true := hm.elim (fun h => h ▸ hc.1) (hok.list l _ (List.getElem?_eq_getElem hc.2) j)
          exact ⟨pb, rfl, .inr ⟨hle, rfl, hm.imp id fun h => ⟨_, List.getElem?_eq_getElem hc.2, h⟩⟩⟩
        · rw [if_neg hm]
          exact ⟨it.pb, rfl, .inl rfl⟩
    · exact same hj
  | setList l is =>
    right; simp only [step]; split <;> exact same hj
  | setPen i pb =>
    right; simp only [step]; split
    · by_cases hij : i = j
      · subst hij
        exact ⟨pb, by simp [setPen, List.getElem?_modify, hj, withPb], .inr ⟨rfl, rfl⟩⟩
      · exact ⟨it.pb, by simp [setPen, List.getElem?_modify, hj, withPb, hij], .inl rfl⟩
    · exact same hj
  | setXf i m =>
    right; simp only [step]; split <;> exact same hj
  | edit i name pb l xf =>
    by_cases hij : i = j
    · exact .inl hij
    right; simp only [step]; split
    · split
      · exact same (by rw [List.getElem?_set_ne hij]; exact hj)
      · exact same (by rw [List.getElem?_set_ne hij]; exact hj)
    · exact same hj
  | setOutside i o =>
    by_cases hij : i = j
    · exact .inl hij
    right; simp only [step]; split
    · split
      · exact same (by rw [List.getElem?_set_ne hij]; exact hj)
      · exact same hj
    · exact same hj
  | setInside i o =>
    by_cases hij : i = j
    · exact .inl hij
    right; simp only [step]; split
    · split
      · exact same (by rw [List.getElem?_set_ne hij]; exact hj)
      · exact same hj
    · exact same hj
  | copyLeaf i =>
    right; simp only [step]
    cases hc : copyPart w i with
    | error er => exact same hj
    | ok r =>
      obtain ⟨w', k⟩ := r
      obtain ⟨_, _, _, _, -, -, -, rfl⟩ := copyPart_ok hc
      exact same app
  | copyHoles i => right; exact same (cw i id)
  | transformHoles i t => right; exact same (cw i _)
  | restoreHoles i k =>
    by_cases hij : i = j
    · exact .inl hij
    right
    apply same
    simp only [step]
    by_cases h : ∃ n p x c o l n' p' x' c' o' l', w.items[i]? = some ⟨n, p, x, .holes c o l⟩ ∧ w.items[k]? = some ⟨n', p', x', .holes c' o' l'⟩
    · obtain ⟨n, p, x, c, o, l, n', p', x', c', o', l', hi, hk⟩ := h
      rcases restore_cases hok hi hk (List.getElem?_eq_getElem (hok.body i _ _ _ _ _ _ hi).2) with ⟨h, -⟩ | ⟨oit, b, -, -, -, ⟨h, -⟩ | ⟨new, -, h⟩⟩ <;>
      · rw [h]
        simp only [List.getElem?_set_ne hij]
        first | exact hj | exact app
    · rw [restore_bad h]; exact hj

/-- The lists and transforms after a call which makes new ones at most. -/
theorem step_rest {w : World} (hok : Ok w) (op : Op) :
    ((∃ l is, op = .setList l is) ∨ ∃ new, (step w op).1.lists = w.lists ++ new) ∧
    ((∃ j m, op = .setXf j m) ∨ ∃ new, (step w op).1.xfs = w.xfs ++ new) := by
  have same : ∀ {α : Type} {a : List α}, ∃ new, a = a ++ new := ⟨[], by simp⟩
  have cw : ∀ i f, (∃ new, (copyWith w i f).1.lists = w.lists ++ new) ∧ ∃ new, (copyWith w i f).1.xfs = w.xfs ++ new := by
    intro i f
    cases hc : (copyWith w i f).2 with
    | some er =>
      have e : (copyWith w i f).1 = w := copyWith_err (i := i) (f := f) (er := er) (Prod.ext rfl hc)
      rw [e]; exact ⟨same, same⟩
    | none =>
      obtain ⟨_, _, _, _, _, _, _, _, _, _, -, -, -, -, -, -, -, h1, h2, -⟩ := copyWith_ok hok (w' := (copyWith w i f).1) (Prod.ext rfl hc)
      exact ⟨⟨_, h1⟩, ⟨_, h2⟩⟩
  cases op with
  | mkLeaf name pb l =>
    simp only [step]; split
    · exact ⟨.inr same, .inr same⟩
    · exact ⟨.inr same, .inr ⟨_, rfl⟩⟩
  | mkList is =>
    simp only [step]; split
    · exact ⟨.inr ⟨_, rfl⟩, .inr same⟩
    · exact ⟨.inr same, .inr same⟩
  | mkHoles name pb o l c =>
    simp only [step]; split
    · rename_i hc
      simp only [Bool.and_eq_true, decide_eq_true_eq] at hc
      cases hr : (construct { w with xfs := w.xfs ++ [Mat3.one] } name pb o l c w.xfs.length).2 with
      | some er =>
        have : construct { w with xfs := w.xfs ++ [Mat3.one] } name pb o l c w.xfs.length = (_, some er) := Prod.ext rfl hr
        rw [this]
        exact ⟨.inr same, .inr same⟩
      | none =>
        have : construct { w with xfs := w.xfs ++ [Mat3.one] } name pb o l c w.xfs.length =
            ((construct { w with xfs := w.xfs ++ [Mat3.one] } name pb o l c w.xfs.length).1, none) := Prod.ext rfl hr
        rw [this]
        obtain ⟨-, h2, h3, -⟩ := construct_ok (w := { w with xfs := w.xfs ++ [Mat3.one] }) (is := w.lists[l])
          (List.getElem?_eq_getElem hc.2) this
        exact ⟨.inr ⟨[], by simpa using h2⟩, .inr ⟨_, h3⟩⟩
    · exact ⟨.inr same, .inr same⟩
  | setList l is => exact ⟨.inl ⟨_, _, rfl⟩, .inr (by simp only [step]; split <;> exact same)⟩
  | setPen i pb =>
    simp only [step]; split <;> exact ⟨.inr same, .inr same⟩
  | setXf i m => exact ⟨.inr (by simp only [step]; split <;> exact same), .inl ⟨_, _, rfl⟩⟩
  | edit i name pb l xf =>
    simp only [step]; split
    · split
      · exact ⟨.inr same, .inr same⟩
      · exact ⟨.inr same, .inr ⟨_, rfl⟩⟩
    · exact ⟨.inr same, .inr same⟩
  | setOutside i o =>
    simp only [step]; split
    · split <;> exact ⟨.inr same, .inr same⟩
    · exact ⟨.inr same, .inr same⟩
  | setInside i o =>
    simp only [step]; split
    · split <;> exact ⟨.inr same, .inr same⟩
    · exact ⟨.inr same, .inr same⟩
  | copyLeaf i =>
    simp only [step]
    cases hc : copyPart w i with
    | error er => exact ⟨.inr same, .inr same⟩
    | ok r =>
      obtain ⟨w', k⟩ := r
      obtain ⟨_, _, _, _, -, -, -, rfl⟩ := copyPart_ok hc
      exact ⟨.inr same, .inr same⟩
  | copyHoles i => exact ⟨.inr (cw i id).1, .inr (cw i id).2⟩
  | transformHoles i t => exact ⟨.inr (cw i _).1, .inr (cw i _).2⟩
  | restoreHoles i k =>
    simp only [step]
    by_cases h : ∃ n p x c o l n' p' x' c' o' l', w.items[i]? = some ⟨n, p, x, .holes c o l⟩ ∧ w.items[k]? = some ⟨n', p', x', .holes c' o' l'⟩
    · obtain ⟨n, p, x, c, o, l, n', p', x', c', o', l', hi, hk⟩ := h
      rcases restore_cases hok hi hk (List.getElem?_eq_getElem (hok.body i _ _ _ _ _ _ hi).2) with ⟨h, -⟩ | ⟨oit, b, -, -, -, ⟨h, -⟩ | ⟨new, -, h⟩⟩
      · rw [h]; exact ⟨.inr same, .inr same⟩
      · rw [h]; exact ⟨.inr same, .inr same⟩
      · rw [h]; exact ⟨.inr ⟨_, rfl⟩, .inr same⟩
    · rw [restore_bad h]; exact ⟨.inr same, .inr same⟩

theorem step_list {w : World} (hok : Ok w) (op : Op) {l : ℕ} (hl : l < w.lists.length) :
    (∃ is, op = .setList l is) ∨ (step w op).1.lists[l]? = w.lists[l]? := by
  rcases (step_rest hok op).1 with ⟨l', is, rfl⟩ | ⟨new, h⟩
  · by_cases h : l' = l
    · exact .inl ⟨is, by rw [h]⟩
    · right
      simp only [step]
      split
      · exact List.getElem?_set_ne h
      · rfl
  · right; rw [h, List.getElem?_append_left hl]

theorem step_xf {w : World} (hok : Ok w) (op : Op) {x : ℕ} (hx : x < w.xfs.length) :
    (∃ j m it, op = .setXf j m ∧ w.items[j]? = some it ∧ it.xf = x) ∨ (step w op).1.xfs[x]? = w.xfs[x]? := by
  rcases (step_rest hok op).2 with ⟨j, m, rfl⟩ | ⟨new, h⟩
  · cases hj : w.items[j]? with
    | none => right; simp [step, hj]
    | some it =>
      by_cases h : it.xf = x
      · exact .inl ⟨j, m, it, rfl, hj, h⟩
      · right; simp [step, hj, List.getElem?_set_ne h]
  · right; rw [h, List.getElem?_append_left hx]

theorem leaf_step {w : World} (hok : Ok w) (op : Op) {j : ℕ} (hj : isLeaf w j = true) : isLeaf (step w op).1 j = true := by
  obtain ⟨name, pb, x, l, h⟩ := isLeaf_iff.1 hj
  rcases step_item hok op h with hr | ⟨pb', h', -⟩
  · cases op with
    | edit i name' pb' l' xf =>
      obtain rfl : i = j := hr
      have hlt := lt_of_some h
      apply isLeaf_iff.2
      simp only [step, h]
      cases xf <;> exact ⟨_, _, _, _, List.getElem?_set_self hlt⟩
    | setOutside i o =>
      obtain rfl : i = j := hr
      simp [step, h, hj]
    | setInside i o =>
      obtain rfl : i = j := hr
      simp [step, h, hj]
    | restoreHoles i k =>
      obtain rfl : i = j := hr
      simp only [step]
      rw [restore_bad]
      · exact hj
      · rintro ⟨_, _, _, _, _, _, _, _, _, _, _, _, h1, -⟩
        rw [h] at h1; simp at h1
    | _ => exact hr.elim
  · exact isLeaf_iff.2 ⟨_, _, _, _, h'⟩

/-- No dangling references in a record. -/
def ItemOk (w : World) (it : Item) : Prop :=
  it.xf < w.xfs.length ∧ ∀ c o l, it.body = .holes c o l → isLeaf w o = true ∧ l < w.lists.length

theorem Ok.item {w : World} (h : Ok w) {i : ℕ} {it : Item} (hi : w.items[i]? = some it) : ItemOk w it := by
  refine ⟨h.xf i it hi, fun c o l hb => ?_⟩
  obtain ⟨n, p, x, b⟩ := it
  cases hb
  exact h.body i n p x c o l hi

theorem Ok.mk' {w : World} (h : ∀ it ∈ w.items, ItemOk w it) (hl : ∀ is ∈ w.lists, ∀ j ∈ is, isLeaf w j = true) : Ok w :=
  ⟨fun _ it hi => (h it (List.mem_of_getElem? hi)).1, fun _ _ _ _ c o l hi => (h _ (List.mem_of_getElem? hi)).2 c o l rfl,
    fun _ is hi => hl is (List.mem_of_getElem? hi)⟩

theorem length_step {w : World} (hok : Ok w) (op : Op) : w.items.length ≤ (step w op).1.items.length ∧
    w.lists.length ≤ (step w op).1.lists.length ∧ w.xfs.length ≤ (step w op).1.xfs.length := by
  refine ⟨?_, ?_, ?_⟩
  · by_contra hlt
    push Not at hlt
    have h1 : w.items[(step w op).1.items.length]? = some _ := List.getElem?_eq_getElem hlt
    rcases step_item hok op h1 with hr | ⟨pb', h', -⟩
    · have : (step w op).1.items.length = w.items.length ∨ w.items.length ≤ (step w op).1.items.length := by
        cases op with
        | edit i name' pb' l' xf =>
          simp only [step]; split
          · split <;> simp
          · simp
        | setOutside i o =>
          simp only [step]; split
          · split <;> simp
          · simp
        | setInside i o =>
          simp only [step]; split
          · split <;> simp
          · simp
        | restoreHoles i k =>
          simp only [step]
          by_cases h : ∃ n p x c o l n' p' x' c' o' l', w.items[i]? = some ⟨n, p, x, .holes c o l⟩ ∧
              w.items[k]? = some ⟨n', p', x', .holes c' o' l'⟩
          · obtain ⟨n, p, x, c, o, l, n', p', x', c', o', l', hi, hk⟩ := h
            rcases restore_cases hok hi hk (List.getElem?_eq_getElem (hok.body i _ _ _ _ _ _ hi).2) with
              ⟨h, -⟩ | ⟨oit, b, -, -, -, ⟨h, -⟩ | ⟨new, -, h⟩⟩ <;> rw [h] <;> simp
          · rw [restore_bad h]; simp
        | _ => exact hr.elim
      omega
    · have := lt_of_some h'
      omega
  · rcases (step_rest hok op).1 with ⟨l', is, rfl⟩ | ⟨new, h⟩
    · simp only [step]; split <;> simp
    · rw [h]; simp
  · rcases (step_rest hok op).2 with ⟨l', is, rfl⟩ | ⟨new, h⟩
    · simp only [step]; split <;> simp
    · rw [h]; simp

theorem ok_step {w : World} (hok : Ok w) (op : Op) : Ok (step w op).1 := by
  obtain ⟨-, len2, len3⟩ := length_step hok op
  have leaf := fun {j} (hj : isLeaf w j = true) => leaf_step hok op hj
  -- records without dangling references stay so
  have keep : ∀ {it : Item}, ItemOk w it → ItemOk (step w op).1 it := fun h =>
    ⟨by have := h.1; omega, fun c o l hb => ⟨leaf (h.2 c o l hb).1, by have := (h.2 c o l hb).2; omega⟩⟩
  have keepM : ∀ {it : Item}, it ∈ w.items → ItemOk (step w op).1 it := fun h => by
    obtain ⟨i, hi⟩ := List.mem_iff_getElem?.1 h
    exact keep (hok.item hi)
  have keepL : ∀ is ∈ w.lists, ∀ j ∈ is, isLeaf (step w op).1 j = true := fun is h j hj => by
    obtain ⟨l, hl⟩ := List.mem_iff_getElem?.1 h
    exact leaf (hok.list l is hl j hj)
  have pen : ∀ {it : Item} (pb : PenBrush), ItemOk (step w op).1 it → ItemOk (step w op).1 (withPb pb it) := fun _ h => h
  have cw : ∀ i f, step w op = copyWith w i f → Ok (step w op).1 := by
    intro i f hs
    cases hc : (copyWith w i f).2 with
    | some er =>
      have e : (copyWith w i f).1 = w := copyWith_err (i := i) (f := f) (er := er) (Prod.ext rfl hc)
      rw [hs, e]; exact hok
    | none =>
      obtain ⟨name, pb, x, c, o, l, is, m, oit, new, h1, h2, h3, h4, ⟨ob, h5, -⟩, h6, -, h8, h9, h10⟩ :=
        copyWith_ok hok (w' := (copyWith w i f).1) (Prod.ext rfl hc)
      rw [← hs] at h8 h9 h10
      have hlen := h6.length_eq
      have leafO : isLeaf (step w op).1 w.items.length = true := by
        apply isLeaf_iff.2
        rw [h10, List.getElem?_append_right le_rfl]
        obtain ⟨a, b, c, d⟩ := oit
        cases h5
        exact ⟨a, pb, c, ob, by simp [withPb]⟩
      have leafN : ∀ k < new.length, isLeaf (step w op).1 (w.items.length + (k + 1)) = true := by
        intro k hk
        apply isLeaf_iff.2
        rw [h10, List.getElem?_append_right (by omega)]
        simp only [Nat.add_sub_cancel_left, List.cons_append, List.getElem?_cons_succ]
        rw [List.getElem?_append_left (by simpa using hk), List.getElem?_map, List.getElem?_eq_getElem hk]
        obtain ⟨-, ⟨l, hb, -⟩⟩ := h6.get (i := k) (by omega) hk
        generalize hn : new.get ⟨k, hk⟩ = it at hb
        simp only [List.get_eq_getElem] at hn
        rw [hn]
        obtain ⟨a, b, c, d⟩ := it
        cases hb
        exact ⟨_, _, _, _, rfl⟩
      refine Ok.mk' ?_ ?_
      · intro it hit
        rw [h10] at hit
        simp only [List.mem_append, List.cons_append, List.mem_cons, List.mem_map, List.not_mem_nil, or_false] at hit
        rcases hit with hit | rfl | ⟨it', hit', rfl⟩ | rfl
        · exact keepM hit
        · exact pen _ (keepM (List.mem_of_getElem? h4))
        · obtain ⟨k, hk⟩ := List.mem_iff_getElem?.1 hit'
          have hk' := lt_of_some hk
          obtain ⟨g, -⟩ := h6.get (i := k) (by omega) hk'
          apply pen
          apply keepM
          rw [List.getElem?_eq_getElem hk'] at hk
          simp only [List.get_eq_getElem] at g
          rw [Option.some.inj hk] at g
          exact List.mem_of_getElem? g
        · refine ⟨by rw [h9]; simp, fun c' o' l' hb => ?_⟩
          cases hb
          exact ⟨leafO, by rw [h8]; simp⟩
      · intro is' his' j hj
        rw [h8] at his'
        rcases List.mem_append.1 his' with h | h
        · exact keepL is' h j hj
        · obtain rfl := List.mem_singleton.1 h
          rw [List.mem_range'_1] at hj
          have := leafN (j - w.items.length - 1) (by omega)
          rwa [show w.items.length + (j - w.items.length - 1 + 1) = j by omega] at this
  cases op with
  | copyHoles i => exact cw i id rfl
  | transformHoles i t => exact cw i _ rfl
  | mkLeaf name pb l =>
    by_cases hu : unfit pb l = true
    · simpa [step, hu] using hok
    · have hs : (step w (.mkLeaf name pb l)).1 = ⟨w.items ++ [⟨name, pb, w.xfs.length, .leaf l⟩], w.lists, w.xfs ++ [Mat3.one]⟩ := by
        simp [step, hu]
      refine Ok.mk' ?_ ?_
      · intro it hit
        rw [hs] at hit
        rcases List.mem_append.1 hit with h | h
        · exact keepM h
        · obtain rfl := List.mem_singleton.1 h
          refine ⟨by rw [hs]; simp, fun _ _ _ hb => by cases hb⟩
      · rw [hs]; rw [hs] at keepL; exact keepL
  | mkList is =>
    by_cases hc : is.all (isLeaf w) = true
    · have hs : (step w (.mkList is)).1 = { w with lists := w.lists ++ [is] } := by simp only [step, hc, if_true]
      refine Ok.mk' ?_ ?_
      · intro it hit
        apply keepM; rwa [hs] at hit
      · intro is' his' j hj
        rw [hs] at his'
        rcases List.mem_append.1 his' with h | h
        · exact keepL is' h j hj
        · obtain rfl := List.mem_singleton.1 h
          exact leaf (List.all_eq_true.1 hc j hj)
    · simpa only [step, hc, if_false, Bool.false_eq_true] using hok
  | setList l is =>
    by_cases hc : (is.all (isLeaf w) && decide (l < w.lists.length)) = true
    · have hs : (step w (.setList l is)).1 = { w with lists := w.lists.set l is } := by simp only [step, hc, if_true]
      rw [Bool.and_eq_true] at hc
      refine Ok.mk' ?_ ?_
      · intro it hit
        apply keepM; rwa [hs] at hit
      · intro is' his' j hj
        rw [hs] at his'
        rcases List.mem_or_eq_of_mem_set his' with h | rfl
        · exact keepL is' h j hj
        · exact leaf (List.all_eq_true.1 hc.1 j hj)
    · simpa only [step, hc, if_false, Bool.false_eq_true] using hok
  | mkHoles name pb o l c =>
    by_cases hc : (isLeaf w o && decide (l < w.lists.length)) = true
    swap
    · simpa only [step, hc, if_false, Bool.false_eq_true] using hok
    have hc' := hc
    simp only [Bool.and_eq_true, decide_eq_true_eq] at hc'
    cases hr : (construct { w with xfs := w.xfs ++ [Mat3.one] } name pb o l c w.xfs.length).2 with
    | some er =>
      have : construct { w with xfs := w.xfs ++ [Mat3.one] } name pb o l c w.xfs.length = (_, some er) := Prod.ext rfl hr
      have hs : (step w (.mkHoles name pb o l c)).1 = w := by
        simp only [step, hc, if_true]
        rw [this]
      rw [hs]; exact hok
    | none =>
      have he : construct { w with xfs := w.xfs ++ [Mat3.one] } name pb o l c w.xfs.length =
          ((construct { w with xfs := w.xfs ++ [Mat3.one] } name pb o l c w.xfs.length).1, none) := Prod.ext rfl hr
      have hs : (step w (.mkHoles name pb o l c)).1 = (construct { w with xfs := w.xfs ++ [Mat3.one] } name pb o l c w.xfs.length).1 := by
        simp only [step, hc, if_true]
        rw [he]
      obtain ⟨-, h2, h3, h4⟩ := construct_ok (w := { w with xfs := w.xfs ++ [Mat3.one] }) (is := w.lists[l])
        (List.getElem?_eq_getElem hc'.2) he
      rw [← hs] at h2 h3 h4
      refine Ok.mk' ?_ ?_
      · intro it hit
        obtain ⟨k, hk⟩ := List.mem_iff_getElem?.1 hit
        rw [h4 k, Option.map_eq_some_iff] at hk
        obtain ⟨it', h', rfl⟩ := hk
        have : ItemOk (step w (.mkHoles name pb o l c)).1 it' := by
          rcases List.mem_append.1 (List.mem_of_getElem? h') with h | h
          · exact keepM h
          · obtain rfl := List.mem_singleton.1 h
            refine ⟨by rw [h3]; simp, fun _ _ _ hb => ?_⟩
            cases hb
            exact ⟨leaf hc'.1, by rw [h2]; exact hc'.2⟩
        split
        · exact pen _ this
        · exact this
      · rw [h2]; exact keepL
  | setPen i pb =>
    by_cases hc : i < w.items.length
    swap
    · simpa only [step, hc, if_false, Bool.false_eq_true] using hok
    have hs : (step w (.setPen i pb)).1 = setPen w pb i := by simp only [step, hc, if_true]
    refine Ok.mk' ?_ ?_
    · intro it hit
      rw [hs] at hit
      obtain ⟨k, hk⟩ := List.mem_iff_getElem?.1 hit
      simp only [setPen, List.getElem?_modify] at hk
      cases hw : w.items[k]? with
      | none => rw [hw] at hk; cases hk
      | some it' =>
        rw [hw] at hk
        simp only [Option.map_eq_map, Option.map_some, Option.some.injEq] at hk
        have := keepM (List.mem_of_getElem? hw)
        subst hk
        split
        · exact pen _ this
        · exact this
    · rw [hs]; rw [hs] at keepL; exact keepL
  | setXf i m =>
    cases hi : w.items[i]? with
    | none => simpa only [step, hi] using hok
    | some it0 =>
      have hs : (step w (.setXf i m)).1 = { w with xfs := w.xfs.set it0.xf m } := by simp only [step, hi]
      refine Ok.mk' ?_ ?_
      · intro it hit
        apply keepM; rwa [hs] at hit
      · rw [hs]; rw [hs] at keepL; exact keepL
  | edit i name pb l xf =>
    by_cases hi : isLeaf w i = true
    swap
    · have hs : (step w (.edit i name pb l xf)).1 = w := by
        simp only [step]
        split
        · rename_i h; exact absurd (isLeaf_iff.2 ⟨_, _, _, _, h⟩) hi
        · rfl
      rw [hs]; exact hok
    obtain ⟨n, p, x, l0, hi⟩ := isLeaf_iff.1 hi
    cases xf with
    | none =>
      have hs : (step w (.edit i name pb l none)).1 = { w with items := w.items.set i ⟨name, pb, x, .leaf l⟩ } := by simp only [step, hi]
      refine Ok.mk' ?_ ?_
      · intro it hit
        rw [hs] at hit
        rcases List.mem_or_eq_of_mem_set hit with h | rfl
        · exact keepM h
        · exact ⟨(keep (hok.item hi)).1, fun _ _ _ hb => by cases hb⟩
      · rw [hs]; rw [hs] at keepL; exact keepL
    | some m =>
      have hs : (step w (.edit i name pb l (some m))).1 =
          ⟨w.items.set i ⟨name, pb, w.xfs.length, .leaf l⟩, w.lists, w.xfs ++ [m]⟩ := by simp only [step, hi]
      refine Ok.mk' ?_ ?_
      · intro it hit
        rw [hs] at hit
        rcases List.mem_or_eq_of_mem_set hit with h | rfl
        · exact keepM h
        · exact ⟨by rw [hs]; simp, fun _ _ _ hb => by cases hb⟩
      · rw [hs]; rw [hs] at keepL; exact keepL
  | setOutside i o =>
    by_cases h : ∃ n p x c o' l, w.items[i]? = some ⟨n, p, x, .holes c o' l⟩ ∧ isLeaf w o = true
    · obtain ⟨n, p, x, c, o', l, hi, ho⟩ := h
      have hs : (step w (.setOutside i o)).1 = { w with items := w.items.set i ⟨n, p, x, .holes c o l⟩ } := by simp only [step, hi, ho, if_true]
      refine Ok.mk' ?_ ?_
      · intro it hit
        rw [hs] at hit
        rcases List.mem_or_eq_of_mem_set hit with h | rfl
        · exact keepM h
        · refine ⟨(keep (hok.item hi)).1, fun _ _ _ hb => ?_⟩
          cases hb
          exact ⟨leaf ho, ((keep (hok.item hi)).2 _ _ _ rfl).2⟩
      · rw [hs]; rw [hs] at keepL; exact keepL
    · have hs : (step w (.setOutside i o)).1 = w := by
        simp only [step]
        split
        · rename_i hi
          split
          · rename_i ho; exact absurd ⟨_, _, _, _, _, _, hi, ho⟩ h
          · rfl
        · rfl
      rw [hs]; exact hok
  | setInside i l' =>
    by_cases h : ∃ n p x c o l, w.items[i]? = some ⟨n, p, x, .holes c o l⟩ ∧ l' < w.lists.length
    · obtain ⟨n, p, x, c, o, l, hi, ho⟩ := h
      have hs : (step w (.setInside i l')).1 = { w with items := w.items.set i ⟨n, p, x, .holes c o l'⟩ } := by simp only [step, hi, ho, if_true]
      refine Ok.mk' ?_ ?_
      · intro it hit
        rw [hs] at hit
        rcases List.mem_or_eq_of_mem_set hit with h | rfl
        · exact keepM h
        · refine ⟨(keep (hok.item hi)).1, fun _ _ _ hb => ?_⟩
          cases hb
          exact ⟨((keep (hok.item hi)).2 _ _ _ rfl).1, by omega⟩
      · rw [hs]; rw [hs] at keepL; exact keepL
    · have hs : (step w (.setInside i l')).1 = w := by
        simp only [step]
        split
        · rename_i hi
          split
          · rename_i ho; exact absurd ⟨_, _, _, _, _, _, hi, ho⟩ h
          · rfl
        · rfl
      rw [hs]; exact hok
  | copyLeaf i =>
    cases hc : copyPart w i with
    | error er =>
      have hs : (step w (.copyLeaf i)).1 = w := by simp only [step, hc]
      rw [hs]; exact hok
    | ok r =>
      obtain ⟨w', k⟩ := r
      obtain ⟨n, p, x, l, hi, -, -, rfl⟩ := copyPart_ok hc
      have hs : (step w (.copyLeaf i)).1 = ⟨w.items ++ [⟨n, p, x, .leaf l⟩], w.lists, w.xfs⟩ := by simp only [step, hc]
      refine Ok.mk' ?_ ?_
      · intro it hit
        rw [hs] at hit
        rcases List.mem_append.1 hit with h | h
        · exact keepM h
        · obtain rfl := List.mem_singleton.1 h
          exact keepM (List.mem_of_getElem? hi)
      · rw [hs]; rw [hs] at keepL; exact keepL
  | restoreHoles i k =>
    by_cases h : ∃ n p x c o l n' p' x' c' o' l', w.items[i]? = some ⟨n, p, x, .holes c o l⟩ ∧
        w.items[k]? = some ⟨n', p', x', .holes c' o' l'⟩
    swap
    · have hs : (step w (.restoreHoles i k)).1 = w := by simp only [step, restore_bad h]
      rw [hs]; exact hok
    obtain ⟨n, p, x, c, o, l, n', p', x', c', o', l', hi, hk⟩ := h
    have hiw := lt_of_some hi
    rcases restore_cases hok hi hk (List.getElem?_eq_getElem (hok.body i _ _ _ _ _ _ hi).2) with
      ⟨h, -⟩ | ⟨oit, b, ho, hb, -, ⟨h, -⟩ | ⟨new, hf, h⟩⟩
    · have hs : (step w (.restoreHoles i k)).1 = _ := congrArg Prod.fst h
      refine Ok.mk' ?_ ?_
      · intro it hit
        rw [hs] at hit
        rcases List.mem_or_eq_of_mem_set hit with h | rfl
        · exact keepM h
        · refine ⟨(keep (hok.item hk)).1, fun _ _ _ hb => ?_⟩
          cases hb
          exact (keep (hok.item hi)).2 _ _ _ rfl
      · rw [hs]; rw [hs] at keepL; exact keepL
    · have hs : (step w (.restoreHoles i k)).1 = _ := congrArg Prod.fst h
      refine Ok.mk' ?_ ?_
      · intro it hit
        rw [hs] at hit
        rcases List.mem_or_eq_of_mem_set hit with h | rfl
        · rcases List.mem_append.1 h with h | h
          · exact keepM h
          · obtain rfl := List.mem_singleton.1 h
            exact keepM (List.mem_of_getElem? ho)
        · refine ⟨(keep (hok.item hk)).1, fun _ _ _ hb' => ?_⟩
          cases hb'
          refine ⟨?_, ((keep (hok.item hi)).2 _ _ _ rfl).2⟩
          apply isLeaf_iff.2
          obtain ⟨a1, a2, a3, a4⟩ := oit
          cases hb
          refine ⟨a1, a2, a3, b, ?_⟩
          rw [hs]
          simp only
          rw [List.getElem?_set_ne (by omega)]
          simp
      · rw [hs]; rw [hs] at keepL; exact keepL
    · have hs : (step w (.restoreHoles i k)).1 = _ := congrArg Prod.fst h
      have hlen := hf.length_eq
      have leafAt : ∀ d < new.length + 1, isLeaf (step w (.restoreHoles i k)).1 (w.items.length + d) = true := by
        intro d hd
        apply isLeaf_iff.2
        rw [hs]
        simp only
        rw [List.getElem?_set_ne (by omega), List.getElem?_append_right (by omega), Nat.add_sub_cancel_left]
        cases d with
        | zero =>
          obtain ⟨a1, a2, a3, a4⟩ := oit
          cases hb
          exact ⟨_, _, _, _, rfl⟩
        | succ d =>
          have hd' : d < new.length := by omega
          rw [List.getElem?_cons_succ, List.getElem?_eq_getElem hd']
          obtain ⟨-, ⟨l, hb, -⟩⟩ := hf.get (i := d) (by omega) hd'
          generalize hn : new.get ⟨d, hd'⟩ = it at hb
          simp only [List.get_eq_getElem] at hn
          rw [hn]
          obtain ⟨a, b, c, d⟩ := it
          cases hb
          exact ⟨_, _, _, _, rfl⟩
      refine Ok.mk' ?_ ?_
      · intro it hit
        rw [hs] at hit
        rcases List.mem_or_eq_of_mem_set hit with h | rfl
        · rcases List.mem_append.1 h with h | h
          · exact keepM h
          · rcases List.mem_cons.1 h with rfl | h
            · exact keepM (List.mem_of_getElem? ho)
            · obtain ⟨k', hk'⟩ := List.mem_iff_getElem?.1 h
              have hk'' := lt_of_some hk'
              obtain ⟨g, -⟩ := hf.get (i := k') (by omega) hk''
              rw [List.getElem?_eq_getElem hk''] at hk'
              simp only [List.get_eq_getElem] at g
              rw [Option.some.inj hk'] at g
              exact keepM (List.mem_of_getElem? g)
        · refine ⟨(keep (hok.item hk)).1, fun _ _ _ hb' => ?_⟩
          cases hb'
          exact ⟨leafAt 0 (by omega), by rw [hs]; simp⟩
      · intro is' his' j hj
        rw [hs] at his'
        rcases List.mem_append.1 his' with h | h
        · exact keepL is' h j hj
        · obtain rfl := List.mem_singleton.1 h
          rw [List.mem_range'_1] at hj
          have := leafAt (j - w.items.length) (by omega)
          rwa [show w.items.length + (j - w.items.length) = j by omega] at this

theorem ok_empty : Ok .empty := ⟨by simp [World.empty], by simp [World.empty], by simp [World.empty]⟩

theorem ok_run : ∀ {w : World}, Ok w → ∀ ops, Ok (run w ops)
  | _, h, [] => h
  | _, h, op :: ops => ok_run (ok_step h op) ops

theorem part_total {w : World} (hok : Ok w) {i : ℕ} (h : isLeaf w i = true) : ∃ e, part w i = some e := by
  obtain ⟨n, p, x, l, hi⟩ := isLeaf_iff.1 h
  exact ⟨_, part_eq hi (List.getElem?_eq_getElem (hok.xf i _ hi))⟩

theorem parts_total {w : World} (hok : Ok w) : ∀ {is : List ℕ}, (∀ i ∈ is, isLeaf w i = true) → ∃ es, parts w is = some es
  | [], _ => ⟨[], rfl⟩
  | i :: is, h => by
    obtain ⟨e, he⟩ := part_total hok (h i (List.mem_cons_self ..))
    obtain ⟨es, hes⟩ := parts_total hok fun k hk => h k (List.mem_cons_of_mem _ hk)
    exact ⟨e :: es, by rw [parts, he, hes]⟩

theorem elem_total {w : World} (hok : Ok w) {i : ℕ} (hi : i < w.items.length) : ∃ e, elem w i = some e := by
  obtain ⟨it, hit⟩ : ∃ it, w.items[i]? = some it := ⟨_, List.getElem?_eq_getElem hi⟩
  obtain ⟨n, p, x, b⟩ := it
  cases b with
  | leaf l => rw [elem_leaf hit]; exact part_total hok (isLeaf_iff.2 ⟨_, _, _, _, hit⟩)
  | holes c o l =>
    obtain ⟨h1, h2⟩ := hok.body i _ _ _ _ _ _ hit
    obtain ⟨oe, ho⟩ := part_total hok h1
    obtain ⟨ies, hi⟩ := parts_total hok (hok.list l _ (List.getElem?_eq_getElem h2))
    exact ⟨_, elem_holes hit (List.getElem?_eq_getElem (hok.xf i _ hit)) ho (List.getElem?_eq_getElem h2) hi⟩

/-- A part after a call which neither writes it nor its transform. -/
theorem part_step {w : World} (hok : Ok w) (op : Op) {p : ℕ} {e : Elem} (hp : part w p = some e) (hr : ¬ Rewrites p op)
    (hx : ∀ j m, op = .setXf j m → ¬ SameXf w p j) : ∃ e', part (step w op).1 p = some e' ∧ Like e e' := by
  obtain ⟨n, pb, x, l, m, hi, hm, rfl⟩ := part_some hp
  rcases step_item hok op hi with h | ⟨pb', h, -⟩
  · exact absurd h hr
  · have hx' : (step w op).1.xfs[x]? = some m := by
      rcases step_xf hok op (lt_of_some hm) with ⟨j, m', it, rfl, hj, rfl⟩ | h
      · exact absurd ⟨_, it, hi, hj, rfl⟩ (hx j m' rfl)
      · rw [h]; exact hm
    exact ⟨_, part_eq (name := n) (pb := pb') h hx', n, pb, pb', m, l, rfl, rfl⟩

/-- The same for a list of parts. -/
theorem parts_step {w : World} (hok : Ok w) (op : Op) : ∀ {ids : List ℕ} {is : List Elem}, parts w ids = some is →
    (∀ p ∈ ids, ¬ Rewrites p op) → (∀ p ∈ ids, ∀ j m, op = .setXf j m → ¬ SameXf w p j) →
    ∃ is', parts (step w op).1 ids = some is' ∧ List.Forall₂ Like is is'
  | [], is, h, _, _ => by cases h; exact ⟨[], rfl, .nil⟩
  | p :: ids, is, h, h1, h2 => by
    cases parts_forall.1 h with
    | cons ha hb =>
      obtain ⟨e', he, hl⟩ := part_step hok op ha (h1 p (List.mem_cons_self ..)) (h2 p (List.mem_cons_self ..))
      obtain ⟨es', hes, hls⟩ := parts_step hok op (parts_forall.2 hb) (fun k hk => h1 k (List.mem_cons_of_mem _ hk))
        (fun k hk => h2 k (List.mem_cons_of_mem _ hk))
      exact ⟨e' :: es', by rw [parts, he, hes], .cons hl hls⟩

theorem like_refl {w : World} {p : ℕ} {e : Elem} (hp : part w p = some e) : Like e e := by
  obtain ⟨n, pb, x, l, m, -, -, rfl⟩ := part_some hp
  exact ⟨n, pb, pb, m, l, rfl, rfl⟩

theorem likes_refl {w : World} {ids : List ℕ} {is : List Elem} (h : List.Forall₂ (fun i e => part w i = some e) ids is) :
    List.Forall₂ Like is is := by
  induction h with
  | nil => exact .nil
  | cons h1 _ ih => exact .cons (like_refl h1) ih

/-- A shape with holes after a call which does not change what it draws. -/
theorem holes_step {w : World} (hok : Ok w) (op : Op) {i : ℕ} {h : Hdr} {o : Elem} {is : List Elem}
    (he : elem w i = some (.holes h o is)) (hc : ¬ Changes w i op) :
    ∃ o' is', elem (step w op).1 i = some (.holes h o' is') ∧ Like o o' ∧ List.Forall₂ Like is is' := by
  obtain ⟨x, oi, l, ids, hi, hx, ho, hl, hp⟩ := elem_some he
  have hni : isLeaf w i ≠ true := by
    intro hl
    obtain ⟨_, _, _, _, h'⟩ := isLeaf_iff.1 hl
    rw [hi] at h'; simp at h'
  have hPart : ∀ p, p = oi ∨ p ∈ ids → Part w i p := fun p hp => ⟨_, _, _, _, _, _, hi, hp.imp id fun h => ⟨_, hl, h⟩⟩
  have hLeaf : ∀ p, p = oi ∨ p ∈ ids → isLeaf w p = true := fun p hp =>
    hp.elim (fun h => h ▸ (hok.body i _ _ _ _ _ _ hi).1) (hok.list l ids hl p)
  by_cases hsame : (step w op).1 = w
  · rw [hsame]
    exact ⟨o, is, he, like_refl ho, likes_refl (parts_forall.1 hp)⟩
  have hrw : ∀ p, p = oi ∨ p ∈ ids → ¬ Rewrites p op := by
    intro p hp hr
    obtain ⟨_, _, _, _, hpl⟩ := isLeaf_iff.1 (hLeaf p hp)
    cases op with
    | edit j a b c d =>
      obtain rfl : j = p := hr
      exact hc (.inr (hPart _ hp))
    | setOutside j o =>
      obtain rfl : j = p := hr
      exact hsame (by simp [step, hpl])
    | setInside j o =>
      obtain rfl : j = p := hr
      exact hsame (by simp [step, hpl])
    | restoreHoles j o =>
      obtain rfl : j = p := hr
      refine hsame ?_
      simp only [step]
      rw [restore_bad]
      rintro ⟨_, _, _, _, _, _, _, _, _, _, _, _, h1, -⟩
      rw [hpl] at h1; simp at h1
    | _ => exact hr.elim
  have hxs : ∀ p, p = oi ∨ p ∈ ids → ∀ j m, op = .setXf j m → ¬ SameXf w p j := by
    rintro p hp j m rfl hs
    exact hc (.inr ⟨p, hPart p hp, hs⟩)
  obtain ⟨o', ho', hlo⟩ := part_step hok op ho (hrw oi (.inl rfl)) (hxs oi (.inl rfl))
  obtain ⟨is', hp', hls⟩ := parts_step hok op hp (fun p h => hrw p (.inr h)) (fun p h => hxs p (.inr h))
  have hl' : (step w op).1.lists[l]? = some ids := by
    rcases step_list hok op (lt_of_some hl) with ⟨is, rfl⟩ | h
    · exact absurd ⟨_, _, _, _, _, hi⟩ hc
    · rw [h]; exact hl
  have hx' : (step w op).1.xfs[x]? = some h.xf := by
    rcases step_xf hok op (lt_of_some hx) with ⟨j, m, it, rfl, hj, rfl⟩ | h
    · exact absurd (.inl ⟨_, it, hi, hj, rfl⟩) hc
    · rw [h]; exact hx
  have hi' : (step w op).1.items[i]? = some ⟨h.name, h.pb, x, .holes h.closed oi l⟩ := by
    rcases step_item hok op hi with hr | ⟨pb', h', rfl | hpen⟩
    · cases op with
      | edit j a b c d => exact absurd (.inl hr) hc
      | setOutside j o => exact absurd hr hc
      | setInside j o => exact absurd hr hc
      | restoreHoles j o => exact absurd hr hc
      | _ => exact hr.elim
    · exact h'
    · cases op with
      | setPen j a => exact absurd hpen.1 hc
      | mkHoles a b c d e => exact absurd hpen.1 hni
      | _ => exact hpen.elim
  exact ⟨o', is', elem_holes hi' hx' ho' hl' hp', hlo, hls⟩

/-- A curve or simple shape after a call which does not change what it draws. -/
theorem leaf_step_eq {w : World} (hok : Ok w) (op : Op) {i : ℕ} (hl : isLeaf w i = true) (hc : ¬ Changes w i op) :
    elem (step w op).1 i = elem w i := by
  obtain ⟨n, pb, x, l, hi⟩ := isLeaf_iff.1 hl
  by_cases hsame : (step w op).1 = w
  · rw [hsame]
  have hx : w.xfs[x]? = some _ := List.getElem?_eq_getElem (hok.xf i _ hi)
  have hx' : (step w op).1.xfs[x]? = w.xfs[x]? := by
    rcases step_xf hok op (lt_of_some hx) with ⟨j, m, it, rfl, hj, rfl⟩ | h
    · exact absurd (.inl ⟨_, it, hi, hj, rfl⟩) hc
    · exact h
  have hi' : (step w op).1.items[i]? = some ⟨n, pb, x, .leaf l⟩ := by
    rcases step_item hok op hi with hr | ⟨pb', h', rfl | hpen⟩
    · cases op with
      | edit j a b c d => exact absurd (.inl hr) hc
      | setOutside j o => exact absurd hr hc
      | setInside j o => exact absurd hr hc
      | restoreHoles j o => exact absurd hr hc
      | _ => exact hr.elim
    · exact h'
    · cases op with
      | setPen j a => exact absurd hpen.1 hc
      | mkHoles a b c d e => exact absurd ⟨hpen.1, hpen.2.2⟩ hc
      | _ => exact hpen.elim
  rw [elem_leaf hi, elem_leaf hi', part_eq hi hx, part_eq hi' (hx'.trans hx)]

theorem elem_cases {w : World} (hok : Ok w) {i : ℕ} (hi : i < w.items.length) :
    isLeaf w i = true ∨ ∃ h o is, elem w i = some (.holes h o is) := by
  obtain ⟨it, hit⟩ : ∃ it, w.items[i]? = some it := ⟨_, List.getElem?_eq_getElem hi⟩
  obtain ⟨n, p, x, b⟩ := it
  cases b with
  | leaf l => exact .inl (isLeaf_iff.2 ⟨_, _, _, _, hit⟩)
  | holes c o l =>
    obtain ⟨h1, h2⟩ := hok.body i _ _ _ _ _ _ hit
    obtain ⟨oe, ho⟩ := part_total hok h1
    obtain ⟨ies, hi⟩ := parts_total hok (hok.list l _ (List.getElem?_eq_getElem h2))
    exact .inr ⟨_, _, _, elem_holes hit (List.getElem?_eq_getElem (hok.xf i _ hit)) ho (List.getElem?_eq_getElem h2) hi⟩

theorem pic_of_elem {w : World} {i : ℕ} {e : Elem} (h : elem w i = some e) (cfg : DCfg) (m : Mat3 ℝ) : pic cfg w i m = Elem.drawn cfg e m := by
  simp only [pic, draw, h, Elem.drawn]

theorem pic_step {w : World} (hok : Ok w) (op : Op) {i : ℕ} (hi : i < w.items.length) (hc : ¬ Changes w i op) (cfg : DCfg) (m : Mat3 ℝ) :
    pic cfg (step w op).1 i m = pic cfg w i m := by
  rcases elem_cases hok hi with hl | ⟨h, o, is, he⟩
  · simp only [pic, draw, leaf_step_eq hok op hl hc]
  · obtain ⟨o', is', he', h1, h2⟩ := holes_step hok op he hc
    rw [pic_of_elem he, pic_of_elem he']
    simp only [Elem.drawn, holes_like cfg h h1 h2]

theorem Like.trans {a b c : Elem} (h1 : Like a b) (h2 : Like b c) : Like a c := by
  obtain ⟨n, p, p', m, l, rfl, rfl⟩ := h1
  obtain ⟨n', q, q', m', l', h, rfl⟩ := h2
  cases l <;> cases l' <;> simp only [GH.leafElem, Elem.curve.injEq, Elem.rect.injEq, Elem.rrect.injEq, Elem.ellipse.injEq, Hdr.mk.injEq,
    reduceCtorEq] at h
  · obtain ⟨⟨rfl, rfl, rfl, rfl⟩, rfl⟩ := h; exact ⟨_, p, q', _, .curve _ _, rfl, rfl⟩
  · obtain ⟨⟨rfl, rfl, -, rfl⟩, rfl, rfl⟩ := h; exact ⟨_, p, q', _, .rect _ _, rfl, rfl⟩
  · obtain ⟨⟨rfl, rfl, -, rfl⟩, rfl, rfl, rfl⟩ := h; exact ⟨_, p, q', _, .rrect _ _ _, rfl, rfl⟩
  · obtain ⟨⟨rfl, rfl, -, rfl⟩, rfl, rfl⟩ := h; exact ⟨_, p, q', _, .ellipse _ _, rfl, rfl⟩

theorem likes_trans {a b c : List Elem} (h1 : List.Forall₂ Like a b) (h2 : List.Forall₂ Like b c) : List.Forall₂ Like a c := by
  induction h1 generalizing c with
  | nil => cases h2; exact .nil
  | cons h _ ih => cases h2 with | cons h' h'' => exact .cons (h.trans h') (ih h'')

theorem length_run : ∀ {w : World}, Ok w → ∀ ops, w.items.length ≤ (run w ops).items.length
  | _, _, [] => le_rfl
  | _, h, op :: ops => (length_step h op).1.trans (length_run (ok_step h op) ops)

theorem holes_run : ∀ {w : World}, Ok w → ∀ (ops : List Op) {i : ℕ} {h : Hdr} {o : Elem} {is : List Elem}, elem w i = some (.holes h o is) →
    Spared i w ops → ∃ o' is', elem (run w ops) i = some (.holes h o' is') ∧ Like o o' ∧ List.Forall₂ Like is is'
  | w, hok, [], i, h, o, is, he, _ => by
    obtain ⟨x, oi, l, ids, hi, hx, ho, hl, hp⟩ := elem_some he
    exact ⟨o, is, he, like_refl ho, likes_refl (parts_forall.1 hp)⟩
  | w, hok, op :: ops, i, h, o, is, he, hs => by
    obtain ⟨o1, is1, h1, h2, h3⟩ := holes_step hok op he hs.1
    obtain ⟨o2, is2, g1, g2, g3⟩ := holes_run (ok_step hok op) ops h1 hs.2
    exact ⟨o2, is2, g1, h2.trans g2, likes_trans h3 g3⟩

theorem pic_run : ∀ {w : World}, Ok w → ∀ (ops : List Op) {i : ℕ}, i < w.items.length → Spared i w ops → ∀ cfg m,
    pic cfg (run w ops) i m = pic cfg w i m
  | _, _, [], _, _, _, _, _ => rfl
  | w, hok, op :: ops, i, hi, hs, cfg, m => by
    have := pic_run (ok_step hok op) ops (lt_of_lt_of_le hi (length_step hok op).1) hs.2 cfg m
    exact this.trans (pic_step hok op hi hs.1 cfg m)

/-- A history which does not name a shape, its parts or its list, and moves nothing, spares the shape. -/
theorem spared_of_apart : ∀ {w : World}, Ok w → ∀ (ops : List Op) {i : ℕ}, (∃ h o is, elem w i = some (.holes h o is)) →
    (∀ op ∈ ops, Avoids w i op) → Spared i w ops
  | _, _, [], _, _, _ => trivial
  | w, hok, op :: ops, i, ⟨h, o, is, he⟩, ha => by
    have h0 := ha op (List.mem_cons_self ..)
    obtain ⟨x, oi, l, ids, hi, hx, ho, hl, hp⟩ := elem_some he
    have hni : isLeaf w i ≠ true := by
      intro hl
      obtain ⟨_, _, _, _, h'⟩ := isLeaf_iff.1 hl
      rw [hi] at h'; simp at h'
    have hc : ¬ Changes w i op := by
      intro hc
      cases op with
      | mkHoles => exact hni hc.1
      | setList l is => exact h0 hc
      | setPen j pb => exact h0 (.inl hc)
      | setXf j m => exact h0
      | edit j => exact h0 hc
      | setOutside j => exact h0 (.inl hc)
      | setInside j => exact h0 (.inl hc)
      | restoreHoles j => exact h0 (.inl hc)
      | _ => exact hc
    obtain ⟨o', is', he', -, -⟩ := holes_step hok op he hc
    obtain ⟨x', oi', l', ids', hi', hx', ho', hl', hp'⟩ := elem_some he'
    have hbody : oi' = oi ∧ l' = l := by
      rcases step_item hok op hi with hr | ⟨pb', h', -⟩
      · cases op with
        | edit j => exact absurd (.inl hr) h0
        | setOutside j => exact absurd (.inl hr) h0
        | setInside j => exact absurd (.inl hr) h0
        | restoreHoles j => exact absurd (.inl hr) h0
        | _ => exact hr.elim
      · rw [hi'] at h'
        simp only [withPb, Option.some.injEq, Item.mk.injEq, Body.holes.injEq] at h'
        exact ⟨h'.2.2.2.2.1, h'.2.2.2.2.2⟩
    obtain ⟨rfl, rfl⟩ := hbody
    have hids : ids' = ids := by
      rcases step_list hok op (lt_of_some hl) with ⟨is, rfl⟩ | h
      · exact absurd ⟨_, _, _, _, _, hi⟩ h0
      · rw [hl', hl] at h; exact Option.some.inj h
    subst hids
    refine ⟨hc, spared_of_apart (ok_step hok op) ops ⟨h, o', is', he'⟩ fun op' hop' => ?_⟩
    have hP : ∀ p, Part (step w op).1 i p → Part w i p := by
      rintro p ⟨n, pb, y, c, a, b, h1, h2⟩
      rw [hi'] at h1
      simp only [Option.some.injEq, Item.mk.injEq, Body.holes.injEq] at h1
      obtain ⟨-, -, -, -, rfl, rfl⟩ := h1
      rw [hl'] at h2
      exact ⟨_, _, _, _, _, _, hi, by rw [hl]; exact h2⟩
    have hL : ∀ l, HasList (step w op).1 i l → HasList w i l := by
      rintro p ⟨n, pb, y, c, a, h1⟩
      rw [hi'] at h1
      simp only [Option.some.injEq, Item.mk.injEq, Body.holes.injEq] at h1
      obtain ⟨-, -, -, -, rfl, rfl⟩ := h1
      exact ⟨_, _, _, _, _, hi⟩
    have h1 := ha op' (List.mem_cons_of_mem _ hop')
    cases op' with
    | setList l is => exact fun h => h1 (hL _ h)
    | setPen j pb => exact fun h => h1 (h.imp id (hP _))
    | edit j => exact fun h => h1 (h.imp id (hP _))
    | setOutside j => exact fun h => h1 (h.imp id (hP _))
    | setInside j => exact fun h => h1 (h.imp id (hP _))
    | restoreHoles j => exact fun h => h1 (h.imp id (hP _))
    | setXf => exact h1
    | _ => trivial

/-! ### Copies -/

/-- An element read from its record. -/
def rd (xfs : List (Mat3 ℝ)) (it : Item) : Option Elem :=
  match it.body with
  | .leaf l => (xfs[it.xf]?).map fun m => GH.leafElem it.name it.pb m l
  | _ => none

theorem part_rd (w : World) (i : ℕ) : part w i = (w.items[i]?).bind (rd w.xfs) := by
  unfold part rd
  split
  · rename_i h; simp [h]
  · rename_i h
    cases hi : w.items[i]? with
    | none => rfl
    | some it =>
      obtain ⟨a, b, c, d⟩ := it
      cases d with
      | leaf l => exact absurd hi (h _ _ _ _)
      | holes => rfl

theorem rd_append {xfs : List (Mat3 ℝ)} {it : Item} {e : Elem} (new : List (Mat3 ℝ)) (h : rd xfs it = some e) : rd (xfs ++ new) it = some e := by
  unfold rd at h ⊢
  split at h
  · obtain ⟨m, hm, rfl⟩ := Option.map_eq_some_iff.1 h
    rw [List.getElem?_append_left (lt_of_some hm), hm]
    rfl
  · exact absurd h (by simp)

theorem rd_withPb {xfs : List (Mat3 ℝ)} {it : Item} {e : Elem} (pb : PenBrush) (h : rd xfs it = some e) :
    rd xfs (withPb pb it) = some (e.setPb pb) := by
  unfold rd at h ⊢
  simp only [withPb]
  split at h
  · rename_i hb
    obtain ⟨m, hm, rfl⟩ := Option.map_eq_some_iff.1 h
    simp only [hm, Option.map_some, leaf_setPb]
  · exact absurd h (by simp)

theorem parts_range (w : World) : ∀ (start : ℕ) (new : List Item) (es : List Elem), (∀ (k : ℕ) it, new[k]? = some it → w.items[start + k]? = some it) →
    List.Forall₂ (fun it e => rd w.xfs it = some e) new es → parts w (List.range' start new.length) = some es
  | _, [], _, _, h => by cases h; rfl
  | start, it :: new, _, hn, h => by
    cases h with
    | cons h1 h2 =>
      have h0 := part_rd w start
      rw [show w.items[start]? = some it from hn 0 it rfl, Option.bind_some, h1] at h0
      have := parts_range w (start + 1) new _ (fun k it' hk => by
        have := hn (k + 1) it' (by simpa using hk)
        rwa [show start + (k + 1) = start + 1 + k by omega] at this) h2
      rw [List.length_cons, List.range'_succ, parts, h0, this]

/-- The records of the copies read like the parts. -/
theorem rd_new {w : World} {ids : List ℕ} {new : List Item} {is : List Elem} {P : Item → Prop}
    (h : List.Forall₂ (fun i it => w.items[i]? = some it ∧ P it) ids new) (hp : List.Forall₂ (fun i e => part w i = some e) ids is) :
    List.Forall₂ (fun it e => rd w.xfs it = some e) new is := by
  induction h generalizing is with
  | nil => cases hp; exact .nil
  | cons h1 _ ih =>
    cases hp with
    | cons g1 g2 =>
      refine .cons ?_ (ih g2)
      rw [part_rd, h1.1] at g1
      exact g1

theorem copies_leaf {name : Str} {pb : PenBrush} {m : Mat3 ℝ} {l : GH.Leaf} : Copies (GH.leafElem name pb m l) ↔ unfit pb l = false := by
  cases l <;> simp [GH.leafElem, Copies, unfit]

theorem copies_rd {xfs : List (Mat3 ℝ)} {it : Item} {e : Elem} {l : GH.Leaf} (h : rd xfs it = some e) (hb : it.body = .leaf l) :
    Copies e ↔ unfit it.pb l = false := by
  unfold rd at h
  rw [hb] at h
  obtain ⟨m, hm, rfl⟩ := Option.map_eq_some_iff.1 h
  exact copies_leaf

/-- Every part copies. -/
def Fit (o : Elem) (is : List Elem) : Prop := Copies o ∧ ∀ e ∈ is, Copies e

theorem mem_parts {w : World} {ids : List ℕ} {is : List Elem} (h : List.Forall₂ (fun i e => part w i = some e) ids is) {k : ℕ} (hk : k ∈ ids) :
    ∃ e ∈ is, part w k = some e := by
  induction h with
  | nil => exact absurd hk (by simp)
  | cons h1 _ ih =>
    rcases List.mem_cons.1 hk with rfl | hk
    · exact ⟨_, List.mem_cons_self .., h1⟩
    · obtain ⟨e, he, h⟩ := ih hk
      exact ⟨e, List.mem_cons_of_mem _ he, h⟩

theorem unfit_part {w : World} {ids : List ℕ} {is : List Elem} (h : List.Forall₂ (fun i e => part w i = some e) ids is) {k : ℕ} (hk : k ∈ ids)
    {it : Item} {b : GH.Leaf} (h1 : w.items[k]? = some it) (h2 : it.body = .leaf b) (h3 : unfit it.pb b = true) : ¬ ∀ e ∈ is, Copies e := by
  intro hall
  obtain ⟨e, he, hp⟩ := mem_parts h hk
  rw [part_rd, h1] at hp
  have := (copies_rd hp h2).1 (hall e he)
  rw [h3] at this
  exact absurd this (by simp)

theorem fit_new {w : World} {ids : List ℕ} {new : List Item} {is : List Elem}
    (h : List.Forall₂ (fun i it => w.items[i]? = some it ∧ ∃ l, it.body = .leaf l ∧ unfit it.pb l = false) ids new)
    (hp : List.Forall₂ (fun i e => part w i = some e) ids is) : ∀ e ∈ is, Copies e := by
  induction h generalizing is with
  | nil => cases hp; simp
  | cons h1 _ ih =>
    cases hp with
    | cons g1 g2 =>
      intro e he
      rcases List.mem_cons.1 he with rfl | he
      · obtain ⟨h1, l, h2, h3⟩ := h1
        rw [part_rd, h1] at g1
        exact (copies_rd g1 h2).2 h3
      · exact ih g2 e he

theorem copyWith_split {w : World} (hok : Ok w) {i : ℕ} {h : Hdr} {o : Elem} {is : List Elem} (he : elem w i = some (.holes h o is))
    (f : Mat3 ℝ → Mat3 ℝ) : ((copyWith w i f).2 = none ∧ Fit o is ∧ (h.pb.filled && !h.closed) = false) ∨
      (copyWith w i f = (w, some .assertion) ∧ ¬ (Fit o is ∧ (h.pb.filled && !h.closed) = false)) := by
  obtain ⟨x, oi, l, ids, hi, hx, ho, hl, hp⟩ := elem_some he
  obtain ⟨on, op, ox, ol, om, g1, g2, rfl⟩ := part_some ho
  have hcopy : Copies (GH.leafElem on op om ol) ↔ unfit op ol = false := copies_leaf
  by_cases hu : unfit op ol = true
  · right
    have hc : copyPart w oi = .error .assertion := by simp [copyPart, g1, hu]
    refine ⟨by simp only [copyWith, hi, hl, hx, hc], fun hf => ?_⟩
    rw [hcopy.1 hf.1.1] at hu; exact absurd hu (by simp)
  have hu' : unfit op ol = false := by simpa using hu
  have hc := copyPart_eq g1 hu'
  have hlt : ∀ k ∈ ids, (w.items ++ [(⟨on, op, ox, .leaf ol⟩ : Item)])[k]? = w.items[k]? := fun k hk =>
    List.getElem?_append_left (isLeaf_lt (hok.list l ids hl k hk))
  cases hcs : copyParts ⟨w.items ++ [⟨on, op, ox, .leaf ol⟩], w.lists, w.xfs⟩ ids with
  | error er =>
    right
    obtain ⟨rfl, k, hk, it, b, h1, h2, h3⟩ := copyParts_err hcs (fun k hk => by
      obtain ⟨a, b, c, d, h⟩ := isLeaf_iff.1 (hok.list l ids hl k hk)
      exact isLeaf_iff.2 ⟨a, b, c, d, by simp only [hlt k hk]; exact h⟩)
    refine ⟨by simp only [copyWith, hi, hl, hx, hc, hcs], fun hf => ?_⟩
    rw [hlt k hk] at h1
    exact unfit_part (parts_forall.1 hp) hk h1 h2 h3 hf.1.2
  | ok r =>
    obtain ⟨w2, is'⟩ := r
    have hce := construct_err (w := ⟨w2.items, w2.lists ++ [is'], w2.xfs ++ [f h.xf]⟩) (name := h.name) (pb := h.pb) (o := w.items.length)
      (l := w2.lists.length) (c := h.closed) (x := w2.xfs.length)
    obtain ⟨new, -, -, hf⟩ := copyParts_ok hcs (fun k hk => by have := isLeaf_lt (hok.list l ids hl k hk); simp; omega)
    have hfit : Fit (GH.leafElem on op om ol) is := ⟨hcopy.2 hu', fit_new (forall₂_mem (fun k hk it hr => by
      simpa only [hlt k hk] using hr) hf) (parts_forall.1 hp)⟩
    simp only [copyWith, hi, hl, hx, hc, hcs]
    generalize construct _ _ _ _ _ _ _ = r at hce
    obtain ⟨a, b⟩ := r
    by_cases hb : (h.pb.filled && !h.closed) = true
    · right
      rw [if_pos hb] at hce
      simp only at hce
      subst hce
      exact ⟨rfl, fun hf => by rw [hf.2] at hb; exact absurd hb (by simp)⟩
    · left
      rw [if_neg hb] at hce
      simp only at hce
      subst hce
      exact ⟨rfl, hfit, by simpa using hb⟩

/-- Objects other than `i` read as before when only `i` was written and new objects were made. -/
theorem elem_ext {w w' : World} (hok : Ok w) {i : ℕ} (hi : isLeaf w i ≠ true) (h1 : ∀ j < w.items.length, j ≠ i → w'.items[j]? = w.items[j]?)
    {ls : List (List ℕ)} {xs : List (Mat3 ℝ)} (h2 : w'.lists = w.lists ++ ls) (h3 : w'.xfs = w.xfs ++ xs) :
    (∀ p, isLeaf w p = true → part w' p = part w p) ∧ ∀ k < w.items.length, k ≠ i → elem w' k = elem w k := by
  have hp : ∀ p, isLeaf w p = true → part w' p = part w p := by
    intro p hl
    have hpi : p ≠ i := fun h => hi (h ▸ hl)
    obtain ⟨e, he⟩ := part_total hok hl
    rw [he, part_rd, h1 p (isLeaf_lt hl) hpi, h3]
    rw [part_rd] at he
    obtain ⟨it, hit, hr⟩ := Option.bind_eq_some_iff.1 he
    rw [hit]
    exact rd_append xs hr
  have hps : ∀ is : List ℕ, (∀ p ∈ is, isLeaf w p = true) → parts w' is = parts w is := by
    intro is
    induction is with
    | nil => intro _; rfl
    | cons p is ih => intro h; rw [parts, parts, hp p (h p (List.mem_cons_self ..)), ih fun q hq => h q (List.mem_cons_of_mem _ hq)]
  refine ⟨hp, fun k hk hki => ?_⟩
  rcases elem_cases hok hk with hl | ⟨h, o, is, he⟩
  · obtain ⟨_, _, _, _, hit⟩ := isLeaf_iff.1 hl
    rw [elem_leaf hit, elem_leaf ((h1 k hk hki).trans hit)]
    exact hp k hl
  · obtain ⟨x, oi, l, ids, hi, hx, ho, hl, hq⟩ := elem_some he
    rw [he]
    refine elem_holes ((h1 k hk hki).trans hi) (by rw [h3, List.getElem?_append_left (lt_of_some hx)]; exact hx) ?_
      (by rw [h2, List.getElem?_append_left (lt_of_some hl)]; exact hl) ?_
    · rw [hp oi (hok.body k _ _ _ _ _ _ hi).1]; exact ho
    · rw [hps ids (hok.list l ids hl)]; exact hq

/-- What `copy` and `transform` make. -/
theorem copyWith_elem {w w' : World} (hok : Ok w) {i : ℕ} {h : Hdr} {o : Elem} {is : List Elem} (he : elem w i = some (.holes h o is))
    {f : Mat3 ℝ → Mat3 ℝ} (hc : copyWith w i f = (w', none)) :
    let c := w.items.length + 1 + is.length
    w'.items.length = c + 1 ∧ elem w' c = some (.holes { h with xf := f h.xf } (o.setPb h.pb) (is.map (·.setPb h.pb))) ∧
      (∀ k < w.items.length, elem w' k = elem w k) ∧ (∀ p, (p = c ∨ Part w' c p) → w.items.length ≤ p) ∧
      (∀ l, HasList w' c l → l = w.lists.length) ∧ (∀ j < w'.items.length, SameXf w' c j → j = c) ∧
      (∃ x oi l ids, w.items[i]? = some ⟨h.name, h.pb, x, .holes h.closed oi l⟩ ∧ w.lists[l]? = some ids ∧
        w'.items[c]? = some ⟨h.name, h.pb, w.xfs.length, .holes h.closed w.items.length w.lists.length⟩ ∧
        w'.lists[w.lists.length]? = some (List.range' (w.items.length + 1) ids.length) ∧
        SameXf w' oi w.items.length ∧ List.Forall₂ (SameXf w') ids (List.range' (w.items.length + 1) ids.length)) := by
  obtain ⟨x, oi, l, ids, hi, hx, ho, hl, hp⟩ := elem_some he
  obtain ⟨name, pb, x', c', o', l', is', m, oit, new, a1, a2, a3, a4, ⟨ob, a5, -⟩, a6, -, a8, a9, a10⟩ := copyWith_ok hok hc
  rw [hi] at a1
  simp only [Option.some.injEq, Item.mk.injEq, Body.holes.injEq] at a1
  obtain ⟨rfl, rfl, rfl, rfl, rfl, rfl⟩ := a1
  rw [hl, Option.some.injEq] at a2
  subst a2
  rw [hx, Option.some.injEq] at a3
  subst a3
  have n1 := a6.length_eq
  have n2 := (parts_forall.1 hp).length_eq
  intro c
  have hcl : w'.items.length = c + 1 := by
    rw [a10]; simp only [List.length_append, List.length_cons, List.length_map, List.length_nil]; omega
  have get0 : w'.items[w.items.length]? = some (withPb h.pb oit) := by
    rw [a10, List.getElem?_append_right le_rfl]; simp
  have getk : ∀ (k : ℕ) it, (new.map (withPb h.pb))[k]? = some it → w'.items[w.items.length + 1 + k]? = some it := by
    intro k it hk
    have hk' := lt_of_some hk
    rw [a10, List.getElem?_append_right (by omega), show w.items.length + 1 + k - w.items.length = k + 1 by omega, List.cons_append,
      List.getElem?_cons_succ, List.getElem?_append_left hk']
    exact hk
  have getc : w'.items[c]? = some ⟨h.name, h.pb, w.xfs.length, .holes h.closed w.items.length w.lists.length⟩ := by
    rw [a10, List.getElem?_append_right (by omega), show c - w.items.length = is.length + 1 by omega, List.cons_append,
      List.getElem?_cons_succ, List.getElem?_append_right (by simp; omega)]
    simp [show is.length - new.length = 0 by omega]
  have getl : w'.lists[w.lists.length]? = some (List.range' (w.items.length + 1) ids.length) := by
    rw [a8]; simp
  have getx : w'.xfs[w.xfs.length]? = some (f h.xf) := by rw [a9]; simp
  have old : ∀ j < w.items.length, w'.items[j]? = w.items[j]? := fun j hj => by rw [a10, List.getElem?_append_left hj]
  have hni : isLeaf w w.items.length ≠ true := fun h => absurd (isLeaf_lt h) (lt_irrefl _)
  have rdo : rd w.xfs oit = some o := by rw [part_rd, a4] at ho; exact ho
  have hnew := rd_new a6 (parts_forall.1 hp)
  have hnew' : List.Forall₂ (fun it e => rd w'.xfs it = some e) (new.map (withPb h.pb)) (is.map (·.setPb h.pb)) := by
    rw [List.forall₂_map_left_iff, List.forall₂_map_right_iff]
    refine hnew.imp fun it e hr => ?_
    rw [a9]
    exact rd_withPb _ (rd_append _ hr)
  refine ⟨hcl, ?_, fun k hk => (elem_ext hok hni (fun j hj _ => old j hj) a8 a9).2 k hk (by omega), ?_, ?_, ?_, ?_⟩
  · refine elem_holes getc getx ?_ getl ?_
    · rw [part_rd, get0, a9]; exact rd_withPb _ (rd_append _ rdo)
    · have := parts_range w' (w.items.length + 1) (new.map (withPb h.pb)) _ getk hnew'
      rwa [List.length_map, ← n1] at this
  · rintro p (rfl | ⟨_, _, _, _, _, _, h1, h2⟩)
    · omega
    · rw [getc] at h1
      simp only [Option.some.injEq, Item.mk.injEq, Body.holes.injEq] at h1
      obtain ⟨-, -, -, -, rfl, rfl⟩ := h1
      rcases h2 with rfl | ⟨is, h2, h3⟩
      · exact le_rfl
      · rw [getl, Option.some.injEq] at h2
        subst h2
        have := (List.mem_range'_1.1 h3).1
        omega
  · rintro l ⟨_, _, _, _, _, h1⟩
    rw [getc] at h1
    simp only [Option.some.injEq, Item.mk.injEq, Body.holes.injEq] at h1
    exact h1.2.2.2.2.2.symm
  · rintro j hj ⟨a, b, h1, h2, h3⟩
    rw [getc, Option.some.injEq] at h1
    subst h1
    simp only at h3
    by_contra hne
    have hb : b.xf < w.xfs.length := by
      rcases Nat.lt_trichotomy j w.items.length with hlt | rfl | hgt
      · rw [old j hlt] at h2; exact hok.xf j b h2
      · rw [get0, Option.some.injEq] at h2
        subst h2
        exact hok.xf _ oit a4
      · obtain ⟨k, rfl⟩ : ∃ k, j = w.items.length + 1 + k := ⟨j - w.items.length - 1, by omega⟩
        have hk : k < new.length := by omega
        rw [getk k (withPb h.pb new[k]) (by simp [List.getElem?_eq_getElem hk]), Option.some.injEq] at h2
        subst h2
        obtain ⟨g, -⟩ := a6.get (i := k) (by omega) hk
        exact hok.xf _ new[k] g
    omega
  · refine ⟨x, oi, l, ids, hi, hl, getc, getl, ⟨oit, _, (old oi (lt_of_some a4)).trans a4, get0, rfl⟩, ?_⟩
    rw [List.forall₂_iff_get]
    refine ⟨by simp, fun k h1 h2 => ?_⟩
    have hk : k < new.length := by omega
    obtain ⟨g, -⟩ := a6.get h1 hk
    refine ⟨_, withPb h.pb new[k], (old _ (lt_of_some g)).trans g, ?_, rfl⟩
    simp only [List.get_eq_getElem, List.getElem_range', one_mul]
    exact getk k _ (by simp [List.getElem?_eq_getElem hk])

theorem holesBody_onlyMat (cfg : DCfg) (h : Hdr) (o : Elem) (i : List Elem) : Elem.OnlyMat (Elem.holesBody cfg h o i) := by
  intro s s' hs
  have h0 := Elem.paths_onlyMat cfg o s s' hs
  have h1 := (Elem.paths_keeps cfg o s).1
  have h1' := (Elem.paths_keeps cfg o s').1
  obtain ⟨a, r, ha⟩ := Elem.pair_cases (Elem.paths cfg o s)
  obtain ⟨a', r', ha'⟩ := Elem.pair_cases (Elem.paths cfg o s')
  simp only [Elem.holesBody]
  rw [ha] at h0 h1 ⊢
  rw [ha'] at h0 h1' ⊢
  simp only at h0 h1 h1'
  subst h0
  have haa : a.mat = a'.mat := by rw [h1, h1', hs]
  match r with
  | .error er => rfl
  | .ok [] => rfl
  | .ok (_ :: _ :: _) => rfl
  | .ok [edge] =>
    cases hb : h.pb.brush with
    | none => exact Elem.pathsEdge_onlyMat cfg _ i _ a a' haa
    | some b =>
      have h2 := Elem.pathsFill_onlyMat cfg ⟨h.pb.pen, none⟩ i ([{ edge with pb := ⟨h.pb.pen, none⟩ }], ⟨⟨none, some b⟩, edge.closed, edge.pts⟩) a a' haa
      obtain ⟨c, t, hc⟩ := Elem.pair_cases (Elem.pathsFill cfg ⟨h.pb.pen, none⟩ i a ([{ edge with pb := ⟨h.pb.pen, none⟩ }], ⟨⟨none, some b⟩, edge.closed, edge.pts⟩))
      obtain ⟨c', t', hc'⟩ := Elem.pair_cases (Elem.pathsFill cfg ⟨h.pb.pen, none⟩ i a' ([{ edge with pb := ⟨h.pb.pen, none⟩ }], ⟨⟨none, some b⟩, edge.closed, edge.pts⟩))
      simp only [hc, hc'] at h2 ⊢
      subst h2
      cases t <;> rfl

/-- Drawing with a transform put before. -/
theorem drawn_move (cfg : DCfg) (h : Hdr) (o : Elem) (is : List Elem) (t m : Mat3 ℝ) :
    Elem.drawn cfg (.holes { h with xf := t.mul h.xf } o is) m = Elem.drawn cfg (.holes h o is) (m.mul t) := by
  have hb : Elem.holesBody cfg { h with xf := t.mul h.xf } o is = Elem.holesBody cfg h o is := by
    funext s; rfl
  simp only [Elem.drawn, Elem.paths_holes, hb, Elem.drawSpace_eq (Elem.holesBody_keeps cfg h o is)]
  exact holesBody_onlyMat cfg h o is _ _ (by simp only [TState.push, TState.compose, Mat3.mul_assoc'])

/-- The parts as the shape gives them its own pen. -/
theorem like_setPb {w : World} {p : ℕ} {e : Elem} (hp : part w p = some e) (pb : PenBrush) : Like e (e.setPb pb) := by
  obtain ⟨n, q, x, l, m, -, -, rfl⟩ := part_some hp
  exact ⟨n, q, pb, m, l, rfl, leaf_setPb ..⟩

theorem likes_setPb {w : World} {ids : List ℕ} {is : List Elem} (h : List.Forall₂ (fun i e => part w i = some e) ids is) (pb : PenBrush) :
    List.Forall₂ Like is (is.map (·.setPb pb)) := by
  induction h with
  | nil => exact .nil
  | cons h1 _ ih => exact .cons (like_setPb h1 pb) ih

theorem drawn_setPb (cfg : DCfg) {w : World} {i : ℕ} {h : Hdr} {o : Elem} {is : List Elem} (he : elem w i = some (.holes h o is)) (pb : PenBrush)
    (h' : Hdr) (m : Mat3 ℝ) : Elem.drawn cfg (.holes h' (o.setPb pb) (is.map (·.setPb pb))) m = Elem.drawn cfg (.holes h' o is) m := by
  obtain ⟨x, oi, l, ids, hi, hx, ho, hl, hp⟩ := elem_some he
  simp only [Elem.drawn, holes_like cfg h' (like_setPb ho pb) (likes_setPb (parts_forall.1 hp) pb)]

/-- What `restore` makes. -/
theorem restore_elem {w : World} (hok : Ok w) {i j : ℕ} {h h' : Hdr} {o o' : Elem} {is is' : List Elem}
    (he : elem w i = some (.holes h o is)) (he' : elem w j = some (.holes h' o' is')) :
    let r := restoreHoles w i j
    ((Fit o' is ∧ r.2 = none ∧ elem r.1 i = some (.holes h' o' is) ∧ ∀ p, Part r.1 i p → w.items.length ≤ p) ∨
      (¬ Copies o' ∧ r.2 = some .assertion ∧ elem r.1 i = some (.holes h' o is)) ∨
      (Copies o' ∧ (¬ ∀ e ∈ is, Copies e) ∧ r.2 = some .assertion ∧ elem r.1 i = some (.holes h' o' is))) ∧
      (∃ a b, r.1.items[i]? = some a ∧ w.items[j]? = some b ∧ a.xf = b.xf) ∧ r.1.xfs = w.xfs ∧
      (∀ k < w.items.length, k ≠ i → elem r.1 k = elem w k) := by
  obtain ⟨x, oi, l, ids, hi, hx, ho, hl, hp⟩ := elem_some he
  obtain ⟨x', oi', l', ids', hi', hx', ho', hl', hp'⟩ := elem_some he'
  have hni : isLeaf w i ≠ true := by
    intro hl
    obtain ⟨_, _, _, _, h'⟩ := isLeaf_iff.1 hl
    rw [hi] at h'; simp at h'
  have hiw := lt_of_some hi
  have rdo : ∀ oit, w.items[oi']? = some oit → rd w.xfs oit = some o' := fun oit h => by rw [part_rd, h] at ho'; exact ho'
  have parts_same : ∀ {w' : World}, (∀ p, isLeaf w p = true → part w' p = part w p) → parts w' ids = some is := by
    intro w' h
    rw [parts_forall] at hp ⊢
    exact forall₂_mem (fun p hp e hr => by rw [h p (hok.list l ids hl p hp)]; exact hr) hp
  intro r
  rcases restore_cases hok hi hi' hl with ⟨hr, oit, b, g1, g2, g3⟩ | ⟨oit, b, g1, g2, g3, ⟨hr, k, hk, it, b', k1, k2, k3⟩ | ⟨new, hf, hr⟩⟩
  · have hr' : r = _ := hr
    rw [hr']
    obtain ⟨e1, e2⟩ := elem_ext (w' := ⟨w.items.set i ⟨h'.name, h'.pb, x', .holes h'.closed oi l⟩, w.lists, w.xfs⟩) (ls := []) (xs := []) hok hni
      (fun j _ hj => List.getElem?_set_ne hj.symm) (by simp) (by simp)
    refine ⟨.inr (.inl ⟨fun hc => ?_, rfl, ?_⟩), ⟨_, _, List.getElem?_set_self hiw, hi', rfl⟩, rfl, e2⟩
    · rw [(copies_rd (rdo oit g1) g2).1 hc] at g3; exact absurd g3 (by simp)
    · exact elem_holes (List.getElem?_set_self hiw) hx' ((e1 oi (hok.body i _ _ _ _ _ _ hi).1).trans ho) hl (parts_same e1)
  · have hr' : r = _ := hr
    rw [hr']
    have hiw' : i < (w.items ++ [oit]).length := by simp; omega
    obtain ⟨e1, e2⟩ := elem_ext (w' := ⟨(w.items ++ [oit]).set i ⟨h'.name, h'.pb, x', .holes h'.closed w.items.length l⟩, w.lists, w.xfs⟩)
      (ls := []) (xs := []) hok hni
      (fun j hjl hj => by simp only [List.getElem?_set_ne hj.symm, List.getElem?_append_left hjl]) (by simp) (by simp)
    refine ⟨.inr (.inr ⟨(copies_rd (rdo oit g1) g2).2 g3, unfit_part (parts_forall.1 hp) hk k1 k2 k3, rfl, ?_⟩),
      ⟨_, _, List.getElem?_set_self hiw', hi', rfl⟩, rfl, e2⟩
    refine elem_holes (List.getElem?_set_self hiw') hx' ?_ hl (parts_same e1)
    rw [part_rd]
    simp only [List.getElem?_set_ne (show i ≠ w.items.length by omega)]
    rw [List.getElem?_append_right le_rfl]
    simpa using rdo oit g1
  · have hr' : r = _ := hr
    rw [hr']
    have hiw' : i < (w.items ++ oit :: new).length := by simp; omega
    have n1 := hf.length_eq
    obtain ⟨e1, e2⟩ := elem_ext (w' := ⟨(w.items ++ oit :: new).set i ⟨h'.name, h'.pb, x', .holes h'.closed w.items.length w.lists.length⟩,
      w.lists ++ [List.range' (w.items.length + 1) ids.length], w.xfs⟩)
      (xs := []) hok hni
      (fun j hjl hj => by simp only [List.getElem?_set_ne hj.symm, List.getElem?_append_left hjl]) rfl (by simp)
    refine ⟨.inl ⟨⟨(copies_rd (rdo oit g1) g2).2 g3, fit_new hf (parts_forall.1 hp)⟩, rfl, ?_, ?_⟩,
      ⟨_, _, List.getElem?_set_self hiw', hi', rfl⟩, rfl, e2⟩
    · refine elem_holes (List.getElem?_set_self hiw') hx' ?_ (by simp) ?_ (is := List.range' (w.items.length + 1) ids.length)
      · rw [part_rd]
        simp only [List.getElem?_set_ne (show i ≠ w.items.length by omega)]
        rw [List.getElem?_append_right le_rfl]
        simpa using rdo oit g1
      · rw [n1]
        have hrd : List.Forall₂ (fun it e => rd w.xfs it = some e) new is := rd_new hf (parts_forall.1 hp)
        refine parts_range _ _ new is (fun k it hk => ?_) hrd
        simp only [List.getElem?_set_ne (show i ≠ w.items.length + 1 + k by omega)]
        rw [List.getElem?_append_right (by omega), show w.items.length + 1 + k - w.items.length = k + 1 by omega, List.getElem?_cons_succ]
        exact hk
    · rintro p ⟨_, _, _, _, _, _, h1, h2⟩
      simp only [List.getElem?_set_self hiw', Option.some.injEq, Item.mk.injEq, Body.holes.injEq] at h1
      obtain ⟨-, -, -, -, rfl, rfl⟩ := h1
      rcases h2 with rfl | ⟨is, h2, h3⟩
      · exact le_rfl
      · simp only [List.getElem?_append_right le_rfl, Nat.sub_self, List.getElem?_cons_zero, Option.some.injEq] at h2
        subst h2
        have := (List.mem_range'_1.1 h3).1
        omega

theorem run_append (w : World) (a b : List Op) : run w (a ++ b) = run (run w a) b := List.foldl_append

end X7.HH
