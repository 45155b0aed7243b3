import Verif.Lemmas.GroupLook

noncomputable section

namespace X7.GL
open X7.GH Relation

/-! ### Keys are unique -/

/-- No group has a key twice. -/
def KeysW (w : World) : Prop := ∀ i es, elems w i = some es → (es.map Prod.fst).Nodup

theorem elems_iff {w : World} {i : ℕ} {es : List (Str × ℕ)} : elems w i = some es ↔ Elems w i es :=
  ⟨elems_some, fun ⟨_, _, h1, h2⟩ => elems_group h1 h2⟩

theorem keysW_step {w : World} (h : KeysW w) (op : Op) : KeysW (step w op).1 := by
  intro i es hes
  cases src_step w op i es (elems_iff.1 hes) with
  | same h1 => exact h i es (elems_iff.2 h1)
  | none h1 => simp [h1]
  | grow name e fix es0 key h1 h2 h3 h4 h5 h6 =>
    subst h5
    have := h i es0 (elems_iff.2 h2)
    simp only [List.map_append, List.map_cons, List.map_nil]
    exact List.nodup_append.2 ⟨this, by simp, fun a ha b hb => by simp at hb; subst hb; exact fun hab => h3 (hab ▸ ha)⟩
  | dup g h1 h2 h3 => exact h g es (elems_iff.2 h3)
  | back g h1 h2 => exact h g es (elems_iff.2 h2)

theorem keysW_run {w : World} (h : KeysW w) (ops : List Op) : KeysW (run w ops) := by
  induction ops generalizing w with
  | nil => exact h
  | cons op ops ih => exact ih (keysW_step h op)

theorem keysW_empty : KeysW World.empty := fun i es h => by simp [elems, World.empty] at h

/-! ### Objects which differ in the elements of groups only -/

/-- The elements of a group object are now `es`. -/
def put (es : List (Str × ℕ)) (it : Item) : Item :=
  match it.body with
  | .group hd _ => { it with body := .group hd es }
  | .leaf _ => it

/-- All objects are the same but for the elements of groups. -/
def Like (w0 w : World) : Prop := w.xfs = w0.xfs ∧ ∀ i : ℕ, (w.items[i]?).map (put []) = (w0.items[i]?).map (put [])

theorem put_put (a b : List (Str × ℕ)) (it : Item) : put a (put b it) = put a it := by
  obtain ⟨nm, pb, xf, body⟩ := it
  cases body <;> rfl

theorem put_leaf {es : List (Str × ℕ)} {it it' : Item} {l : Leaf} (h : put es it = put es it') (hb : it.body = .leaf l) : it = it' := by
  obtain ⟨nm, pb, xf, body⟩ := it
  obtain ⟨nm', pb', xf', body'⟩ := it'
  cases hb
  cases body' <;> simp_all [put]

theorem put_group {es : List (Str × ℕ)} {it it' : Item} {hd : Bool} {es' : List (Str × ℕ)} (h : put es it = put es it')
    (hb : it.body = .group hd es') : ∃ es'', it'.body = .group hd es'' := by
  obtain ⟨nm, pb, xf, body⟩ := it
  obtain ⟨nm', pb', xf', body'⟩ := it'
  cases hb
  cases body' <;> simp_all [put]

theorem like_symm {w0 w : World} (h : Like w0 w) : Like w w0 := ⟨h.1.symm, fun i => (h.2 i).symm⟩

theorem like_leaf {w0 w : World} (h : Like w0 w) {i : ℕ} {a : Item} {l : Leaf} (hi : w0.items[i]? = some a) (hb : a.body = .leaf l) :
    w.items[i]? = some a := by
  have := h.2 i
  rw [hi] at this
  cases h1 : w.items[i]? with
  | none => rw [h1] at this; simp at this
  | some b =>
    rw [h1] at this
    simp only [Option.map_some, Option.some.injEq] at this
    rw [put_leaf this.symm hb]

theorem like_group {w0 w : World} (h : Like w0 w) {i : ℕ} {es : List (Str × ℕ)} (hi : elems w0 i = some es) : ∃ es', elems w i = some es' := by
  obtain ⟨it, hd, h1, h2⟩ := elems_some hi
  have := h.2 i
  rw [h1] at this
  cases h3 : w.items[i]? with
  | none => rw [h3] at this; simp at this
  | some b =>
    rw [h3] at this
    simp only [Option.map_some, Option.some.injEq] at this
    obtain ⟨es', h4⟩ := put_group this.symm h2
    exact ⟨es', elems_group h3 h4⟩

theorem like_none {w0 w : World} (h : Like w0 w) {i : ℕ} (hi : elems w0 i = none) : elems w i = none := by
  cases h1 : elems w i with
  | none => rfl
  | some es =>
    obtain ⟨es', h2⟩ := like_group (like_symm h) h1
    rw [hi] at h2
    cases h2

theorem same_like {w0 w : World} (h : Like w0 w) (i e : ℕ) : same w i e = same w0 i e := by
  have go : ∀ {w0 w : World}, Like w0 w → same w0 i e = true → same w i e = true := by
    intro w0 w h hs
    simp only [same, decide_eq_true_eq] at hs ⊢
    obtain ⟨a, b, la, lb, h1, h2, h3, h4, h5, h6, h7, h8⟩ := hs
    exact ⟨a, b, la, lb, like_leaf h h1 h3, like_leaf h h2 h4, h3, h4, h5, h6, by rw [h.1]; exact h7, h8⟩
  cases h1 : same w0 i e with
  | true => exact go h h1
  | false =>
    cases h2 : same w i e with
    | false => rfl
    | true => rw [go (like_symm h) h2] at h1; cases h1

theorem same_leaf {w : World} {i e : ℕ} (h : same w i e = true) : elems w i = none := by
  simp only [same, decide_eq_true_eq] at h
  obtain ⟨a, b, la, lb, h1, -, h3, -⟩ := h
  simp [elems, h1, h3]

/-! ### One swap -/

theorem swap_spec {w : World} {g r : ℕ} {k : Str} {es : List (Str × ℕ)} {ri : Item} {l : Leaf} (hg : elems w g = some es)
    (hr : w.items[r]? = some ri) (hl : ri.body = .leaf l) (hk : k ∈ es.map Prod.fst) :
    ((ri.name ∈ (es.filter fun x => x.1 ≠ k).map Prod.fst ∨ hasDot ri.name = true) ∧ (swap w g k r).2 = some .value) ∨
    (¬ (ri.name ∈ (es.filter fun x => x.1 ≠ k).map Prod.fst) ∧ hasDot ri.name = false ∧ (swap w g k r).2 = none ∧
      (swap w g k r).1.xfs = w.xfs ∧ (∀ i, i ≠ g → (swap w g k r).1.items[i]? = w.items[i]?) ∧
      (swap w g k r).1.items[g]? = (w.items[g]?).map (put ((es.filter fun x => x.1 ≠ k) ++ [(ri.name, r)]))) := by
  obtain ⟨gi, hd, h1, h2⟩ := elems_some hg
  have hgr : r ≠ g := by
    rintro rfl
    rw [hr] at h1
    cases h1
    rw [hl] at h2
    cases h2
  simp only [swap, hg, hr, if_pos hk]
  by_cases hn : ri.name ∈ (es.filter fun x => x.1 ≠ k).map Prod.fst
  · left
    rw [if_pos hn]
    exact ⟨.inl hn, rfl⟩
  · rw [if_neg hn]
    have hw : (setElems w g (es.filter fun x => x.1 ≠ k)).items[g]? = some { gi with body := .group hd (es.filter fun x => x.1 ≠ k) } := by
      simp only [setElems, List.getElem?_modify, h1, if_true, Option.map_eq_map, Option.map_some, h2]
    have hw' : (setElems w g (es.filter fun x => x.1 ≠ k)).items[r]? = some ri := by
      simp only [setElems, List.getElem?_modify, hgr.symm, if_false, hr, id_map']
    have hp : GroupNames.pickName ((es.filter fun x => x.1 ≠ k).map Prod.fst) (clsName ri.body) ri.name false = some ri.name := by
      simp only [GroupNames.pickName, Bool.false_and, Bool.false_or, decide_eq_true_eq, if_neg hn]
    simp only [GH.add, hw, hw', hp]
    by_cases hdot : hasDot ri.name = true
    · left
      exact ⟨.inr hdot, by simp [hdot]⟩
    · right
      have hf : hasDot ri.name = false := by simpa using hdot
      simp only [hf, Bool.false_eq_true, if_false, if_neg hn]
      refine ⟨hn, trivial, trivial, rfl, fun i hi => ?_, ?_⟩
      · rw [List.getElem?_modify, List.getElem?_set_ne hi.symm]
        by_cases hir : r = i
        · subst hir
          simp only [if_true, hw', Option.map_eq_map, Option.map_some, hr]
        · simp only [hir, if_false, setElems, List.getElem?_modify, hi.symm, id_map']
      · rw [List.getElem?_modify]
        have hlen : g < (setElems w g (es.filter fun x => x.1 ≠ k)).items.length := lt_of_some hw
        simp only [hgr, if_false, id_map', List.getElem?_set_self hlen, h1, Option.map_some, put, h2]

/-! ### The whole -/

/-- One run after another. -/
def andThen (o : World × Except PyErr ℕ) (k : World → World × Except PyErr ℕ) : World × Except PyErr ℕ :=
  match o with
  | (w1, .error er) => (w1, .error er)
  | (w1, .ok c) =>
    match k w1 with
    | (w2, .ok c') => (w2, .ok (c + c'))
    | (w2, .error er) => (w2, .error er)

theorem andThen_assoc (o : World × Except PyErr ℕ) (k k' : World → World × Except PyErr ℕ) :
    andThen (andThen o k) k' = andThen o fun w => andThen (k w) k' := by
  obtain ⟨w1, o⟩ := o
  cases o with
  | error er => rfl
  | ok c =>
    simp only [andThen]
    rcases k w1 with ⟨w2, er | c'⟩
    · rfl
    · simp only
      rcases k' w2 with ⟨w3, er | c''⟩
      · rfl
      · simp [Nat.add_assoc]

/-- The step of the loop for one element. -/
def headStep (f : World → ℕ → World × Except PyErr ℕ) (g e r : ℕ) (x : Str × ℕ) (w : World) : World × Except PyErr ℕ :=
  if same w x.2 e then
    match swap w g x.1 r with
    | (w1, some er) => (w1, .error er)
    | (w1, none) => (w1, .ok 1)
  else
    match elems w x.2 with
    | none => (w, .ok 0)
    | some _ => f w x.2

theorem replaceAll_cons (f : World → ℕ → World × Except PyErr ℕ) (g e r : ℕ) (x : Str × ℕ) (es : List (Str × ℕ)) (w : World) :
    replaceAll f g e r (x :: es) w = andThen (headStep f g e r x w) (replaceAll f g e r es) := by
  obtain ⟨k, j⟩ := x
  simp only [replaceAll, headStep]
  split
  · rcases swap w g k r with ⟨w1, _ | er⟩
    · simp only [andThen]
      rcases replaceAll f g e r es w1 with ⟨w2, er | c⟩
      · rfl
      · simp [Nat.add_comm]
    · rfl
  · cases h1 : elems w j with
    | none =>
      simp only [andThen]
      rcases replaceAll f g e r es w with ⟨w2, er | c⟩
      · rfl
      · simp
    | some es' =>
      simp only [andThen]
      rcases f w j with ⟨w1, er | c⟩
      · rfl
      · simp only
        rcases replaceAll f g e r es w1 with ⟨w2, er | c⟩ <;> rfl

theorem replaceAll_append (f : World → ℕ → World × Except PyErr ℕ) (g e r : ℕ) (a b : List (Str × ℕ)) (w : World) :
    replaceAll f g e r (a ++ b) w = andThen (replaceAll f g e r a w) (replaceAll f g e r b) := by
  induction a generalizing w with
  | nil =>
    simp only [List.nil_append, replaceAll, andThen]
    rcases replaceAll f g e r b w with ⟨w2, er | c⟩
    · rfl
    · simp
  | cons x a ih =>
    rw [List.cons_append, replaceAll_cons, replaceAll_cons, andThen_assoc]
    congr 1
    funext w1
    exact ih w1

section
variable (w0 : World) (e r : ℕ) (rn : Str)

/-- An object afterwards. -/
def upd (it : Item) : Item :=
  match it.body with
  | .group _ es => put (after w0 e r rn es) it
  | .leaf _ => it

/-- The groups in object `c`, at any depth. -/
def WG (c : ℕ) : Set ℕ := {i | Within w0 c i ∧ ∃ es, elems w0 i = some es}

/-- The groups in a list of elements, at any depth. -/
def KG (es : List (Str × ℕ)) : Set ℕ := {i | ∃ x ∈ es, i ∈ WG w0 x.2}

/-- The groups which have an element to be replaced. -/
def Aff : Set ℕ := {i | ∃ es, elems w0 i = some es ∧ Match w0 e es}

/-- The group can take the replacement. -/
def FitsAt (i : ℕ) : Prop := ∀ es, elems w0 i = some es → Fits w0 e rn es

/-- The objects in `S` have been updated, the others have not changed. -/
def Done (S : Set ℕ) (w w' : World) : Prop :=
  w'.xfs = w.xfs ∧ (∀ i ∈ S, w'.items[i]? = (w0.items[i]?).map (upd w0 e r rn)) ∧ ∀ i, i ∉ S → w'.items[i]? = w.items[i]?

/-- Of the groups in `T` exactly those in `D` have been updated. -/
def Pre (D T : Set ℕ) (w : World) : Prop :=
  Like w0 w ∧ ∀ i ∈ T, (i ∈ D → w.items[i]? = (w0.items[i]?).map (upd w0 e r rn)) ∧ (i ∉ D → w.items[i]? = w0.items[i]?)

/-- The outcome of a run over the groups in `S` when those in `D` have already been updated. -/
def Result (D S : Set ℕ) (w : World) (o : World × Except PyErr ℕ) : Prop :=
  ((∀ i ∈ S, i ∉ D → FitsAt w0 e rn i) ∧ ∃ w', o = (w', .ok (Set.ncard {i | i ∈ Aff w0 e ∧ i ∈ S ∧ i ∉ D})) ∧ Done w0 e r rn S w w') ∨
  ((∃ i ∈ S, i ∉ D ∧ ¬ FitsAt w0 e rn i) ∧ ∃ w', o = (w', .error .value))

end

section
variable {w0 : World} {e r : ℕ} {rn : Str}

theorem put_upd (it : Item) : put [] (upd w0 e r rn it) = put [] it := by
  simp only [upd]
  split
  · exact put_put _ _ _
  · rfl

theorem like_done {S : Set ℕ} {w w' : World} (h : Like w0 w) (hd : Done w0 e r rn S w w') : Like w0 w' := by
  refine ⟨hd.1.trans h.1, fun i => ?_⟩
  by_cases hi : i ∈ S
  · rw [hd.2.1 i hi, Option.map_map]
    congr 1
    funext it
    exact put_upd it
  · rw [hd.2.2 i hi]
    exact h.2 i

theorem pre_done {D T S : Set ℕ} {w w' : World} (h : Pre w0 e r rn D T w) (hd : Done w0 e r rn S w w') : Pre w0 e r rn (D ∪ S) T w' := by
  refine ⟨like_done h.1 hd, fun i hi => ⟨fun hD => ?_, fun hD => ?_⟩⟩
  · by_cases hS : i ∈ S
    · exact hd.2.1 i hS
    · rw [hd.2.2 i hS]
      exact (h.2 i hi).1 (hD.resolve_right hS)
  · rw [hd.2.2 i fun hS => hD (.inr hS)]
    exact (h.2 i hi).2 fun h' => hD (.inl h')

theorem pre_mono {D T T' : Set ℕ} {w : World} (h : Pre w0 e r rn D T w) (ht : T' ⊆ T) : Pre w0 e r rn D T' w :=
  ⟨h.1, fun i hi => h.2 i (ht hi)⟩

theorem aff_finite (S D : Set ℕ) : Set.Finite {i | i ∈ Aff w0 e ∧ i ∈ S ∧ i ∉ D} := by
  refine (Set.finite_lt_nat w0.items.length).subset ?_
  rintro i ⟨⟨es, hes, -⟩, -⟩
  obtain ⟨it, hd, h1, -⟩ := elems_some hes
  exact lt_of_some h1

theorem result_seq {D S1 S2 : Set ℕ} {w : World} {o : World × Except PyErr ℕ} {k : World → World × Except PyErr ℕ}
    (h1 : Result w0 e r rn D S1 w o) (h2 : ∀ w1, Done w0 e r rn S1 w w1 → Result w0 e r rn (D ∪ S1) S2 w1 (k w1)) :
    Result w0 e r rn D (S1 ∪ S2) w (andThen o k) := by
  rcases h1 with ⟨hf, w1, rfl, hd⟩ | ⟨⟨i, hi, hD, hf⟩, w1, rfl⟩
  · rcases h2 w1 hd with ⟨hf2, w2, ho2, hd2⟩ | ⟨⟨i, hi, hD, hf2⟩, w2, ho2⟩
    · refine .inl ⟨fun i hi hD => ?_, w2, ?_, hd2.1.trans hd.1, fun i hi => ?_, fun i hi => ?_⟩
      · by_cases h1 : i ∈ S1
        · exact hf i h1 hD
        · exact hf2 i (hi.resolve_left h1) fun h => h.elim hD h1
      · simp only [andThen, ho2]
        rw [← Set.ncard_union_eq _ (aff_finite _ _) (aff_finite _ _)]
        · congr 3
          ext i
          simp only [Set.mem_union, Set.mem_setOf_eq]
          tauto
        · rw [Set.disjoint_left]
          rintro i ⟨-, h3, -⟩ ⟨-, -, h4⟩
          exact h4 (.inr h3)
      · by_cases h2 : i ∈ S2
        · exact hd2.2.1 i h2
        · rw [hd2.2.2 i h2]
          exact hd.2.1 i (hi.resolve_right h2)
      · rw [hd2.2.2 i fun h => hi (.inr h), hd.2.2 i fun h => hi (.inl h)]
    · refine .inr ⟨⟨i, .inr hi, fun h => hD (.inl h), hf2⟩, w2, ?_⟩
      simp only [andThen, ho2]
  · exact .inr ⟨⟨i, .inl hi, hD, hf⟩, w1, rfl⟩

theorem done_refl (w : World) : Done w0 e r rn ∅ w w := ⟨rfl, fun i hi => hi.elim, fun i _ => rfl⟩

theorem kg_cons (x : Str × ℕ) (es : List (Str × ℕ)) : KG w0 (x :: es) = WG w0 x.2 ∪ KG w0 es := by
  ext i
  simp [KG]

theorem kg_append (a b : List (Str × ℕ)) : KG w0 (a ++ b) = KG w0 a ∪ KG w0 b := by
  ext i
  simp only [KG, List.mem_append, Set.mem_setOf_eq, Set.mem_union]
  constructor
  · rintro ⟨x, h1 | h1, h2⟩
    · exact .inl ⟨x, h1, h2⟩
    · exact .inr ⟨x, h1, h2⟩
  · rintro (⟨x, h1, h2⟩ | ⟨x, h1, h2⟩)
    · exact ⟨x, .inl h1, h2⟩
    · exact ⟨x, .inr h1, h2⟩

theorem wg_leaf {i : ℕ} (h : elems w0 i = none) : WG w0 i = ∅ := by
  ext j
  simp only [WG, Set.mem_setOf_eq, Set.mem_empty_iff_false, iff_false]
  rintro ⟨h1, es, h2⟩
  rcases ReflTransGen.cases_head h1 with rfl | ⟨c, ⟨it, hd, es', k, h3, h4, -⟩, -⟩
  · rw [h] at h2; cases h2
  · exact elems_none h it hd es' h3 h4

theorem wg_group {g : ℕ} {es : List (Str × ℕ)} (h : elems w0 g = some es) : WG w0 g = {g} ∪ KG w0 es := by
  ext j
  simp only [WG, KG, Set.mem_setOf_eq, Set.mem_union, Set.mem_singleton_iff]
  constructor
  · rintro ⟨h1, h2⟩
    rcases ReflTransGen.cases_head h1 with rfl | ⟨c, ⟨it, hd, es', k, h3, h4, h5⟩, h6⟩
    · exact .inl rfl
    · right
      rw [elems_group h3 h4] at h
      cases h
      exact ⟨_, h5, h6, h2⟩
  · rintro (rfl | ⟨x, h1, h2, h3⟩)
    · exact ⟨.refl, es, h⟩
    · obtain ⟨it, hd, h4, h5⟩ := elems_some h
      exact ⟨.head ⟨it, hd, es, x.1, h4, h5, h1⟩ h2, h3⟩

theorem not_kg {g : ℕ} {es : List (Str × ℕ)} (hc : Acyclic w0) (h : elems w0 g = some es) : g ∉ KG w0 es := by
  rintro ⟨x, h1, h2, -⟩
  obtain ⟨it, hd, h4, h5⟩ := elems_some h
  exact hc g (TransGen.head' ⟨it, hd, es, x.1, h4, h5, h1⟩ h2)

theorem result_none {D : Set ℕ} {w : World} : Result w0 e r rn D ∅ w (w, .ok 0) :=
  .inl ⟨fun i hi => hi.elim, w, by simp, done_refl w⟩

/-- What is claimed of `replace` at depth `n` and object `c`. -/
def Goal (w0 : World) (e r : ℕ) (rn : Str) (n c : ℕ) : Prop :=
  (∃ es, elems w0 c = some es) → ∀ w D, Pre w0 e r rn D (WG w0 c) w → Result w0 e r rn D (WG w0 c) w (replace e r n w c)

/-- The loop over elements none of which is to be replaced. -/
theorem loop_plain {n g : ℕ} (es : List (Str × ℕ)) (hP : ∀ x ∈ es, Goal w0 e r rn n x.2) (hm : ∀ x ∈ es, same w0 x.2 e = false) (D : Set ℕ) (w : World)
    (hp : Pre w0 e r rn D (KG w0 es) w) : Result w0 e r rn D (KG w0 es) w (replaceAll (replace e r n) g e r es w) := by
  induction es generalizing D w with
  | nil =>
    have : KG w0 [] = ∅ := by ext i; simp [KG]
    rw [this]
    exact result_none
  | cons x es ih =>
    rw [replaceAll_cons, kg_cons]
    rw [kg_cons] at hp
    have hs : same w x.2 e = false := by rw [same_like hp.1]; exact hm x (by simp)
    refine result_seq ?_ fun w1 hd => ih (fun y hy => hP y (by simp [hy])) (fun y hy => hm y (by simp [hy])) _ w1
      (pre_mono (pre_done hp hd) Set.subset_union_right)
    simp only [headStep, hs, Bool.false_eq_true, if_false]
    cases hx : elems w0 x.2 with
    | none =>
      rw [like_none hp.1 hx, wg_leaf hx]
      exact result_none
    | some es' =>
      obtain ⟨es'', h2⟩ := like_group hp.1 hx
      rw [h2]
      exact hP x (by simp) ⟨es', hx⟩ w D (pre_mono hp Set.subset_union_left)

theorem result_ok_or {D S : Set ℕ} {w : World} {o : World × Except PyErr ℕ} (h : Result w0 e r rn D S w o) :
    (∃ w' c, o = (w', .ok c) ∧ Done w0 e r rn S w w') ∨ ∃ w', o = (w', .error .value) := by
  rcases h with ⟨-, w', h1, h2⟩ | ⟨-, h⟩
  · exact .inl ⟨w', _, h1, h2⟩
  · exact .inr h

theorem first_match {es : List (Str × ℕ)} (h : Match w0 e es) :
    ∃ a x b, es = a ++ x :: b ∧ (∀ y ∈ a, same w0 y.2 e = false) ∧ same w0 x.2 e = true := by
  induction es with
  | nil => obtain ⟨x, hx, -⟩ := h; simp at hx
  | cons y es ih =>
    cases hy : same w0 y.2 e with
    | true => exact ⟨[], y, es, rfl, by simp, hy⟩
    | false =>
      obtain ⟨x, hx, hs⟩ := h
      rcases List.mem_cons.1 hx with rfl | hx
      · rw [hy] at hs; cases hs
      · obtain ⟨a, z, b, h1, h2, h3⟩ := ih ⟨x, hx, hs⟩
        refine ⟨y :: a, z, b, by rw [h1]; rfl, ?_, h3⟩
        intro u hu
        rcases List.mem_cons.1 hu with rfl | hu
        · exact hy
        · exact h2 u hu

theorem key_ne {es : List (Str × ℕ)} (hn : (es.map Prod.fst).Nodup) {x y : Str × ℕ} (hx : x ∈ es) (hy : y ∈ es) (h : y ≠ x) : y.1 ≠ x.1 :=
  fun h1 => h (List.inj_on_of_nodup_map hn hy hx h1)

theorem elems_put {w : World} {g : ℕ} {es es' : List (Str × ℕ)} {w' : World} (h : elems w g = some es)
    (h' : w'.items[g]? = (w.items[g]?).map (put es')) : elems w' g = some es' := by
  obtain ⟨it, hd, h1, h2⟩ := elems_some h
  rw [h1] at h'
  simp only [Option.map_some, put, h2] at h'
  exact elems_group h' rfl

/-- The hypotheses: keys are unique, no group is in itself, the replacement is a curve or shape and not equal to the element. -/
structure Setting (w0 : World) (e r : ℕ) (rn : Str) : Prop where
  keys : KeysW w0
  acyc : Acyclic w0
  rep : ∃ ri l, w0.items[r]? = some ri ∧ ri.body = .leaf l ∧ ri.name = rn
  diff : same w0 r e = false

theorem rep_leaf (hs : Setting w0 e r rn) : elems w0 r = none := by
  obtain ⟨ri, l, h1, h2, -⟩ := hs.rep
  simp [elems, h1, h2]

theorem kg_after (hs : Setting w0 e r rn) (es : List (Str × ℕ)) : KG w0 (after w0 e r rn es) = KG w0 es := by
  classical
  by_cases hm : Match w0 e es
  · simp only [after, if_pos hm, kg_append]
    have h1 : KG w0 [(rn, r)] = ∅ := by
      ext i
      simp [KG, wg_leaf (rep_leaf hs)]
    rw [h1, Set.union_empty]
    ext i
    simp only [KG, Set.mem_setOf_eq, List.mem_filter]
    constructor
    · rintro ⟨x, ⟨h2, -⟩, h3⟩
      exact ⟨x, h2, h3⟩
    · rintro ⟨x, h2, h3⟩
      refine ⟨x, ⟨h2, ?_⟩, h3⟩
      cases h4 : same w0 x.2 e with
      | false => rfl
      | true => rw [wg_leaf (same_leaf h4)] at h3; exact h3.elim
  · simp only [after, if_neg hm]

theorem after_plain (hs : Setting w0 e r rn) (es : List (Str × ℕ)) : ∀ x ∈ after w0 e r rn es, same w0 x.2 e = false := by
  classical
  intro x hx
  by_cases hm : Match w0 e es
  · simp only [after, if_pos hm, List.mem_append, List.mem_filter, List.mem_singleton] at hx
    rcases hx with ⟨-, h⟩ | rfl
    · simpa using h
    · exact hs.diff
  · simp only [after, if_neg hm] at hx
    cases h : same w0 x.2 e with
    | false => rfl
    | true => exact absurd ⟨x, hx, h⟩ hm

theorem fits_plain {es : List (Str × ℕ)} (h : ¬ Match w0 e es) : Fits w0 e rn es := fun x hx hs => absurd ⟨x, hx, hs⟩ h

theorem upd_plain {it : Item} {hd : Bool} {es : List (Str × ℕ)} (hb : it.body = .group hd es) (h : ¬ Match w0 e es) : upd w0 e r rn it = it := by
  classical
  obtain ⟨nm, pb, xf, body⟩ := it
  cases hb
  simp [upd, put, after, h]

theorem goal_leafless {n g : ℕ} (hs : Setting w0 e r rn) (hP : ∀ c, Child w0 g c → Goal w0 e r rn n c) : Goal w0 e r rn (n + 1) g := by
  classical
  rintro ⟨es, hes⟩ w D hp
  obtain ⟨it, hd, hi, hb⟩ := elems_some hes
  have hg : g ∈ WG w0 g := ⟨.refl, es, hes⟩
  have hnk : g ∉ KG w0 es := not_kg hs.acyc hes
  have hP' : ∀ x ∈ es, Goal w0 e r rn n x.2 := fun x hx => hP x.2 ⟨it, hd, es, x.1, hi, hb, hx⟩
  have hwg := wg_group hes
  have hsub : KG w0 es ⊆ WG w0 g := by rw [hwg]; exact Set.subset_union_right
  by_cases hD : g ∈ D
  · -- the group has been updated already
    have hitem := (hp.2 g hg).1 hD
    have hel : elems w g = some (after w0 e r rn es) := by
      rw [hi] at hitem
      simp only [Option.map_some, upd, hb, put] at hitem
      exact elems_group hitem rfl
    simp only [replace, hel]
    have hR := loop_plain (w0 := w0) (e := e) (r := r) (rn := rn) (n := n) (g := g) (after w0 e r rn es) (fun x hx => by
        by_cases hm : Match w0 e es
        · simp only [after, if_pos hm, List.mem_append, List.mem_filter, List.mem_singleton] at hx
          rcases hx with ⟨h, -⟩ | rfl
          · exact hP' x h
          · rintro ⟨es', h⟩
            rw [rep_leaf hs] at h
            cases h
        · simp only [after, if_neg hm] at hx
          exact hP' x hx) (after_plain hs es) D w (by rw [kg_after hs]; exact pre_mono hp hsub)
    rw [kg_after hs] at hR
    rcases hR with ⟨hf, w', ho, hd'⟩ | ⟨⟨i, h1, h2, h3⟩, w', ho⟩
    · refine .inl ⟨fun i h1 h2 => ?_, w', ?_, hd'.1, fun i h1 => ?_, fun i h1 => hd'.2.2 i fun h => h1 (hsub h)⟩
      · rw [hwg] at h1
        rcases h1 with h1 | h1
        · rw [h1] at h2; exact absurd hD h2
        · exact hf i h1 h2
      · rw [ho]
        congr 3
        ext i
        simp only [Set.mem_setOf_eq, hwg, Set.mem_union, Set.mem_singleton_iff]
        constructor
        · rintro ⟨h1, h2, h3⟩; exact ⟨h1, .inr h2, h3⟩
        · rintro ⟨h1, rfl | h2, h3⟩
          · exact absurd hD h3
          · exact ⟨h1, h2, h3⟩
      · by_cases hk : i ∈ KG w0 es
        · exact hd'.2.1 i hk
        · rw [hwg] at h1
          obtain rfl : i = g := h1.resolve_right hk
          rw [hd'.2.2 i hk]
          exact hitem
    · exact .inr ⟨⟨i, hsub h1, h2, h3⟩, w', ho⟩
  · have hitem : w.items[g]? = w0.items[g]? := (hp.2 g hg).2 hD
    have hel : elems w g = some es := by rw [hi] at hitem; exact elems_group hitem hb
    simp only [replace, hel]
    by_cases hm : Match w0 e es
    · obtain ⟨a, x, b, rfl, ha, hx⟩ := first_match hm
      obtain ⟨ri, l, hr1, hr2, hr3⟩ := hs.rep
      have hnd := hs.keys g _ hes
      have hxm : x ∈ a ++ x :: b := by simp
      rw [replaceAll_append]
      have hR1 := loop_plain (w0 := w0) (e := e) (r := r) (rn := rn) (n := n) (g := g) a (fun y hy => hP' y (by simp [hy])) ha D w
        (pre_mono hp ((show KG w0 a ⊆ KG w0 (a ++ x :: b) by rw [kg_append]; exact Set.subset_union_left).trans hsub))
      have hka : g ∉ KG w0 a := fun h => hnk (by rw [kg_append]; exact .inl h)
      have hkb : g ∉ KG w0 b := fun h => hnk (by rw [kg_append, kg_cons]; exact .inr (.inr h))
      have hbsub : KG w0 b ⊆ WG w0 g :=
        (show KG w0 b ⊆ KG w0 (a ++ x :: b) by rw [kg_append, kg_cons]; exact fun i h => .inr (.inr h)).trans hsub
      have hkeys : ∀ {z : Str}, z ∈ ((a ++ x :: b).filter fun y => y.1 ≠ x.1).map Prod.fst ↔ ∃ y ∈ a ++ x :: b, y ≠ x ∧ y.1 = z := by
        intro z
        simp only [List.mem_map, List.mem_filter, decide_eq_true_eq]
        constructor
        · rintro ⟨y, ⟨h1, h2⟩, h3⟩
          exact ⟨y, h1, fun h => h2 (by rw [h]), h3⟩
        · rintro ⟨y, h1, h2, h3⟩
          exact ⟨y, ⟨h1, key_ne hnd hxm h1 h2⟩, h3⟩
      by_cases hfit : Fits w0 e rn (a ++ x :: b)
      · obtain ⟨hdot, hoth⟩ := hfit x hxm hx
        have hfil : ((a ++ x :: b).filter fun y => y.1 ≠ x.1) = (a ++ x :: b).filter fun y => !same w0 y.2 e := by
          refine List.filter_congr fun y hy => ?_
          by_cases hyx : y = x
          · subst hyx; simp [hx]
          · simp [key_ne hnd hxm hy hyx, (hoth y hy hyx).1]
        have hbm : ∀ y ∈ b, same w0 y.2 e = false := by
          intro y hy
          refine (hoth y (by simp [hy]) ?_).1
          rintro rfl
          rw [List.map_append, List.map_cons, List.nodup_append] at hnd
          exact (List.nodup_cons.1 hnd.2.1).1 (List.mem_map_of_mem hy)
        have hset : WG w0 g = KG w0 a ∪ ({g} ∪ KG w0 b) := by
          rw [hwg, kg_append, kg_cons, wg_leaf (same_leaf hx), Set.empty_union]
          ext i
          simp only [Set.mem_union]
          tauto
        rw [hset]
        refine result_seq hR1 fun w1 hd1 => ?_
        rw [replaceAll_cons]
        have hp1 : Pre w0 e r rn (D ∪ KG w0 a) (WG w0 g) w1 := pre_done hp hd1
        have hg1 : g ∉ D ∪ KG w0 a := fun h => h.elim hD hka
        refine result_seq ?_ fun w2 hd2 => loop_plain b (fun y hy => hP' y (by simp [hy])) hbm _ w2 (pre_mono (pre_done hp1 hd2) hbsub)
        have hitem1 : w1.items[g]? = w0.items[g]? := (hp1.2 g hg).2 hg1
        have hel1 : elems w1 g = some (a ++ x :: b) := by rw [hi] at hitem1; exact elems_group hitem1 hb
        have hr1' := like_leaf hp1.1 hr1 hr2
        have hsx : same w1 x.2 e = true := by rw [same_like hp1.1]; exact hx
        simp only [headStep, hsx, if_true]
        have hnot : ri.name ∉ ((a ++ x :: b).filter fun y => y.1 ≠ x.1).map Prod.fst := by
          rw [hkeys]
          rintro ⟨y, h1, h2, h3⟩
          exact (hoth y h1 h2).2 (h3.trans hr3)
        rcases swap_spec hel1 hr1' hr2 (List.mem_map_of_mem hxm) with ⟨h1 | h1, -⟩ | ⟨-, -, h3, h4, h5, h6⟩
        · exact absurd h1 hnot
        · rw [hr3, hdot] at h1; cases h1
        · have hsw : swap w1 g x.1 r = ((swap w1 g x.1 r).1, none) := by rw [← h3]
          rw [hsw]
          refine .inl ⟨fun i h7 _ => ?_, (swap w1 g x.1 r).1, ?_, h4, fun i h7 => ?_, fun i h7 => h5 i h7⟩
          · rw [Set.mem_singleton_iff] at h7
            subst h7
            intro es' h8
            rw [hes] at h8
            cases h8
            exact hfit
          · have : {i | i ∈ Aff w0 e ∧ i ∈ ({g} : Set ℕ) ∧ i ∉ D ∪ KG w0 a} = {g} := by
              ext i
              simp only [Set.mem_setOf_eq, Set.mem_singleton_iff]
              constructor
              · exact fun h => h.2.1
              · rintro rfl
                exact ⟨⟨_, hes, hm⟩, rfl, hg1⟩
            rw [this, Set.ncard_singleton]
          · rw [Set.mem_singleton_iff] at h7
            subst h7
            rw [h6, hitem1, hi]
            simp only [Option.map_some, upd, hb, after, if_pos hm, hfil, hr3]
      · refine .inr ⟨⟨g, hg, hD, fun h => hfit (h _ hes)⟩, ?_⟩
        rcases result_ok_or hR1 with ⟨w1, c, ho, hd1⟩ | ⟨w1, ho⟩
        · rw [ho]
          simp only [andThen]
          rw [replaceAll_cons]
          have hp1 : Pre w0 e r rn (D ∪ KG w0 a) (WG w0 g) w1 := pre_done hp hd1
          have hg1 : g ∉ D ∪ KG w0 a := fun h => h.elim hD hka
          have hitem1 : w1.items[g]? = w0.items[g]? := (hp1.2 g hg).2 hg1
          have hel1 : elems w1 g = some (a ++ x :: b) := by rw [hi] at hitem1; exact elems_group hitem1 hb
          have hr1' := like_leaf hp1.1 hr1 hr2
          have hsx : same w1 x.2 e = true := by rw [same_like hp1.1]; exact hx
          simp only [headStep, hsx, if_true]
          rcases swap_spec hel1 hr1' hr2 (List.mem_map_of_mem hxm) with ⟨-, h3⟩ | ⟨h1, h2, h3, h4, h5, h6⟩
          · have hsw : swap w1 g x.1 r = ((swap w1 g x.1 r).1, some .value) := by rw [← h3]
            rw [hsw]
            exact ⟨_, rfl⟩
          · have hsw : swap w1 g x.1 r = ((swap w1 g x.1 r).1, none) := by rw [← h3]
            rw [hsw]
            generalize (swap w1 g x.1 r).1 = w2 at h4 h5 h6 ⊢
            rw [hkeys] at h1
            -- another element to be replaced comes later
            have hbm : Match w0 e b := by
              by_contra hno
              apply hfit
              intro y hy hys
              obtain rfl : y = x := by
                rcases List.mem_append.1 hy with h | h
                · rw [ha y h] at hys; cases hys
                · rcases List.mem_cons.1 h with h | h
                  · exact h
                  · exact absurd ⟨y, h, hys⟩ hno
              refine ⟨by rw [← hr3]; exact h2, fun z hz hzy => ⟨?_, fun h => h1 ⟨z, hz, hzy, h.trans hr3.symm⟩⟩⟩
              cases hzs : same w0 z.2 e with
              | false => rfl
              | true =>
                rcases List.mem_append.1 hz with h | h
                · rw [ha z h] at hzs; cases hzs
                · rcases List.mem_cons.1 h with h | h
                  · exact absurd h hzy
                  · exact absurd ⟨z, h, hzs⟩ hno
            obtain ⟨a', x', b', rfl, ha', hx'⟩ := first_match hbm
            have hlike2 : Like w0 w2 := by
              refine ⟨h4.trans hp1.1.1, fun i => ?_⟩
              by_cases hig : i = g
              · subst hig
                rw [h6, hitem1, hi]
                simp only [Option.map_some, put_put]
              · rw [h5 i hig]
                exact hp1.1.2 i
            have hka' : g ∉ KG w0 a' := fun h => hkb (by rw [kg_append]; exact .inl h)
            have hasub : KG w0 a' ⊆ WG w0 g := (show KG w0 a' ⊆ KG w0 (a' ++ x' :: b') by rw [kg_append]; exact Set.subset_union_left).trans hbsub
            have hp2 : Pre w0 e r rn (D ∪ KG w0 a) (KG w0 a') w2 :=
              ⟨hlike2, fun i hi' => by
                rw [h5 i fun h => hka' (h ▸ hi')]
                exact hp1.2 i (hasub hi')⟩
            simp only [andThen]
            rw [replaceAll_append]
            have hR2 := loop_plain (w0 := w0) (e := e) (r := r) (rn := rn) (n := n) (g := g) a' (fun y hy => hP' y (by simp [hy])) ha' _ w2 hp2
            rcases result_ok_or hR2 with ⟨w3, c', ho', hd3⟩ | ⟨w3, ho'⟩
            · rw [ho']
              simp only [andThen]
              rw [replaceAll_cons]
              have hlike3 := like_done hlike2 hd3
              have hel2 : elems w2 g = some (((a ++ x :: (a' ++ x' :: b')).filter fun y => y.1 ≠ x.1) ++ [(ri.name, r)]) := elems_put hel1 h6
              have hel3 : elems w3 g = some (((a ++ x :: (a' ++ x' :: b')).filter fun y => y.1 ≠ x.1) ++ [(ri.name, r)]) := by
                simp only [elems, hd3.2.2 g hka']
                exact hel2
              have hsx' : same w3 x'.2 e = true := by rw [same_like hlike3]; exact hx'
              have hx'm : x' ∈ a ++ x :: (a' ++ x' :: b') := by simp
              have hx'x : x' ≠ x := by
                rintro rfl
                rw [List.map_append, List.map_cons, List.nodup_append] at hnd
                exact (List.nodup_cons.1 hnd.2.1).1 (List.mem_map_of_mem (by simp))
              have hk' : x'.1 ∈ (((a ++ x :: (a' ++ x' :: b')).filter fun y => y.1 ≠ x.1) ++ [(ri.name, r)]).map Prod.fst := by
                rw [List.map_append, List.mem_append]
                exact .inl (hkeys.2 ⟨x', hx'm, hx'x, rfl⟩)
              simp only [headStep, hsx', if_true]
              rcases swap_spec hel3 (like_leaf hlike3 hr1 hr2) hr2 hk' with ⟨-, h7⟩ | ⟨h7, -⟩
              · have hsw' : swap w3 g x'.1 r = ((swap w3 g x'.1 r).1, some .value) := by rw [← h7]
                rw [hsw']
                exact ⟨_, rfl⟩
              · exfalso
                apply h7
                rw [List.filter_append, List.map_append, List.mem_append]
                right
                have : ri.name ≠ x'.1 := fun h => h1 ⟨x', hx'm, hx'x, h.symm⟩
                simp [this]
            · rw [ho']
              exact ⟨w3, rfl⟩
        · rw [ho]
          exact ⟨w1, rfl⟩
    · have hR := loop_plain (w0 := w0) (e := e) (r := r) (rn := rn) (n := n) (g := g) es hP' (fun x hx => by
        cases h : same w0 x.2 e with
        | false => rfl
        | true => exact absurd ⟨x, hx, h⟩ hm) D w (pre_mono hp hsub)
      rcases hR with ⟨hf, w', ho, hd'⟩ | ⟨⟨i, h1, h2, h3⟩, w', ho⟩
      · refine .inl ⟨fun i h1 h2 => ?_, w', ?_, hd'.1, fun i h1 => ?_, fun i h1 => hd'.2.2 i fun h => h1 (hsub h)⟩
        · rw [hwg] at h1
          rcases h1 with h1 | h1
          · rw [Set.mem_singleton_iff] at h1
            subst h1
            intro es' h8
            rw [hes] at h8
            cases h8
            exact fits_plain hm
          · exact hf i h1 h2
        · rw [ho]
          congr 3
          ext i
          simp only [Set.mem_setOf_eq, hwg, Set.mem_union, Set.mem_singleton_iff]
          constructor
          · rintro ⟨h1, h2, h3⟩; exact ⟨h1, .inr h2, h3⟩
          · rintro ⟨h1, rfl | h2, h3⟩
            · obtain ⟨es', h8, h9⟩ := h1
              rw [hes] at h8
              cases h8
              exact absurd h9 hm
            · exact ⟨h1, h2, h3⟩
        · by_cases hk : i ∈ KG w0 es
          · exact hd'.2.1 i hk
          · rw [hwg] at h1
            obtain rfl : i = g := h1.resolve_right hk
            rw [hd'.2.2 i hk, hitem, hi]
            simp only [Option.map_some, upd_plain hb hm]
      · exact .inr ⟨⟨i, hsub h1, h2, h3⟩, w', ho⟩

theorem replace_result (hok : Ok w0) (hs : Setting w0 e r rn) {g : ℕ} (hg : ∃ es, elems w0 g = some es) (n : ℕ) (hn : w0.items.length ≤ n) :
    Result w0 e r rn ∅ (WG w0 g) w0 (replace e r n w0 g) := by
  have hlt : g < w0.items.length := by
    obtain ⟨es, h⟩ := hg
    obtain ⟨it, hd, h1, -⟩ := elems_some h
    exact lt_of_some h1
  have := depth_induct (R := Child w0) (L := w0.items.length) (P := fun n i => Goal w0 e r rn n i) (fun a b h => child_lt hok h)
    (fun n i _ ih => goal_leafless hs ih) n g hlt (fun j _ => hs.acyc j) ((reach_card g).trans hn)
  exact this hg w0 ∅ ⟨⟨rfl, fun i => rfl⟩, fun i _ => ⟨fun h => h.elim, fun _ => rfl⟩⟩

end

theorem tree_sound {w : World} {n i : ℕ} {e : Elem} (h : tree w n i = some e)
    (hs : ∀ j it x, Within w i j → w.items[j]? = some it → w.xfs[it.xf]? = some x →
      x.Affine ∧ ∀ p q r, it.body = .leaf (.rrect p q r) → 0 ≤ r) : e.Sound := by
  induction n generalizing i e with
  | zero => simp [tree] at h
  | succ n ih =>
    obtain ⟨k, it, x, hn, hi, hx, ⟨l, hb, rfl⟩ | ⟨hd, es, ts, hb, hk, rfl⟩⟩ := tree_parts h
    · obtain ⟨h1, h2⟩ := hs i it x .refl hi hx
      cases l with
      | rrect p q r => exact ⟨h1, h2 p q r hb⟩
      | curve c cps => exact h1
      | rect p q => exact h1
      | ellipse p q => exact h1
    · obtain rfl : n = k := by omega
      obtain ⟨h1, -⟩ := hs i it x .refl hi hx
      have h3 : ∀ y ∈ es, ∀ t, tree w n y.2 = some t → t.Sound := fun y hy t ht =>
        ih ht fun j it' x' hj => hs j it' x' (.head ⟨it, hd, es, y.1, hi, hb, hy⟩ hj)
      refine ⟨h1, ?_⟩
      clear hb h
      induction es generalizing ts with
      | nil => cases hk; trivial
      | cons y es ih2 =>
        obtain ⟨key, j⟩ := y
        simp only [kids] at hk
        split at hk
        · rename_i t ts' h5 h6
          cases hk
          exact ⟨h3 (key, j) (by simp) t h5, ih2 ts' h6 fun y hy => h3 y (by simp [hy])⟩
        · cases hk

theorem acyclic_ops {ops : List Op} (h : NoLoops .empty ops) : Acyclic (run .empty ops) := by
  have : ∀ (ops : List Op) (w : World), Ok w → Acyclic w → NoLoops w ops → Acyclic (run w ops) := by
    intro ops
    induction ops with
    | nil => exact fun w _ h _ => h
    | cons op ops ih => exact fun w hok h hl => ih _ (ok_step hok op) (acyclic_step hok h op hl.1) hl.2
  exact this ops _ ok_empty (fun i h => by
    obtain ⟨c, ⟨it, hd, es, k, h1, -⟩, -⟩ := TransGen.head'_iff.1 h
    simp [World.empty] at h1) h

theorem affected_eq {w : World} {e g : ℕ} : {i | i ∈ Aff w e ∧ i ∈ WG w g ∧ i ∉ (∅ : Set ℕ)} = Affected w e g := by
  ext i
  simp only [Aff, WG, Affected, Set.mem_setOf_eq, Set.mem_empty_iff_false, not_false_eq_true, and_true]
  constructor
  · rintro ⟨⟨es, h1, h2⟩, h3, -⟩
    exact ⟨h3, es, h1, h2⟩
  · rintro ⟨h3, es, h1, h2⟩
    exact ⟨⟨es, h1, h2⟩, h3, es, h1⟩

theorem replaced_done {w w' : World} {g e r : ℕ} {rn : Str} (h : Done w e r rn (WG w g) w w') : Replaced w g e r rn w' := by
  classical
  have key : ∀ i : ℕ, w'.items[i]? = none ↔ w.items[i]? = none := by
    intro i
    by_cases hi : i ∈ WG w g
    · rw [h.2.1 i hi]; simp
    · rw [h.2.2 i hi]
  refine ⟨h.1, ?_, fun i it hi => ?_⟩
  · apply Nat.le_antisymm
    · have := (key w.items.length).2 (by simp)
      simpa using this
    · have := (key w'.items.length).1 (by simp)
      simpa using this
  · by_cases hw : i ∈ WG w g
    · refine ⟨upd w e r rn it, by rw [h.2.1 i hw, hi]; rfl, ?_⟩
      obtain ⟨hw1, es, hw2⟩ := hw
      obtain ⟨it', hd, h1, h2⟩ := elems_some hw2
      rw [hi] at h1
      cases h1
      refine ⟨by simp [upd, h2, put], by simp [upd, h2, put], by simp [upd, h2, put], fun l hl => (by rw [h2] at hl; cases hl), fun hd' es' hb => ?_⟩
      rw [h2] at hb
      cases hb
      simp [upd, h2, put, hw1]
    · refine ⟨it, by rw [h.2.2 i hw, hi], rfl, rfl, rfl, fun _ h => h, fun hd es hb => ?_⟩
      rw [if_neg, hb]
      intro hw1
      exact hw ⟨hw1, es, elems_group hi hb⟩

theorem replaced_elems {w w' : World} {g e r : ℕ} {rn : Str} (h : Replaced w g e r rn w') {i : ℕ} {es' : List (Str × ℕ)}
    (hi : elems w' i = some es') : ∃ es, elems w i = some es ∧ (Within w g i → es' = after w e r rn es) ∧ (¬ Within w g i → es' = es) := by
  classical
  obtain ⟨it', hd, h1, h2⟩ := elems_some hi
  have hlt : i < w.items.length := by rw [← h.2.1]; exact lt_of_some h1
  obtain ⟨it'', h3, -, -, -, h4, h5⟩ := h.2.2 i w.items[i] (List.getElem?_eq_getElem hlt)
  rw [h1] at h3
  cases h3
  cases hb : w.items[i].body with
  | leaf l => rw [h4 l hb] at h2; cases h2
  | group hd' es =>
    have := h5 hd' es hb
    rw [h2] at this
    simp only [Body.group.injEq] at this
    exact ⟨es, elems_group (List.getElem?_eq_getElem hlt) hb, fun hw => by rw [this.2, if_pos hw], fun hw => by rw [this.2, if_neg hw]⟩

theorem replaced_like {w w' : World} {g e r : ℕ} {rn : Str} (h : Replaced w g e r rn w') : Like w w' := by
  refine ⟨h.1, fun i => ?_⟩
  by_cases hlt : i < w.items.length
  · obtain ⟨it', h1, h2, h3, h4, h5, h6⟩ := h.2.2 i w.items[i] (List.getElem?_eq_getElem hlt)
    rw [h1, List.getElem?_eq_getElem hlt]
    generalize w.items[i] = it at *
    obtain ⟨nm, pb, xf, body⟩ := it
    obtain ⟨nm', pb', xf', body'⟩ := it'
    simp only at h2 h3 h4 h5 h6
    subst h2 h3 h4
    cases body with
    | leaf l => rw [h5 l rfl]
    | group hd es => rw [h6 hd es rfl]; rfl
  · rw [List.getElem?_eq_none (by rw [h.2.1]; omega), List.getElem?_eq_none (by omega)]

theorem replaced_within {w w' : World} {g e r : ℕ} {rn : Str} (h : Replaced w g e r rn w') (hr : elems w r = none) {i : ℕ}
    (hi : Within w' g i) : Within w g i ∨ i = r := by
  induction hi with
  | refl => exact .inl .refl
  | @tail b c _ h2 ih =>
    obtain ⟨it, hd, es', k, h3, h4, h5⟩ := h2
    obtain ⟨es, h6, h7, h8⟩ := replaced_elems h (elems_group h3 h4)
    rcases ih with ih | rfl
    · obtain ⟨it', hd', h9, h10⟩ := elems_some h6
      rw [h7 ih] at h5
      classical
      by_cases hm : Match w e es
      · simp only [after, if_pos hm, List.mem_append, List.mem_filter, List.mem_singleton, Prod.mk.injEq] at h5
        rcases h5 with ⟨h5, -⟩ | ⟨-, h5⟩
        · exact .inl (.tail ih ⟨it', hd', es, k, h9, h10, h5⟩)
        · exact .inr h5
      · simp only [after, if_neg hm] at h5
        exact .inl (.tail ih ⟨it', hd', es, k, h9, h10, h5⟩)
    · rw [hr] at h6; cases h6

end X7.GL
