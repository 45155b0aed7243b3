import Verif.Lemmas.Pickle

/-!
C84: text written for tests stands for the data it was written from.
-/

noncomputable section

namespace X7.Dump

theorem cols_toks (l : List (ℕ × List Tok)) : (cols l).flatMap Prod.snd = l.flatMap Prod.snd := by
  simp [cols, List.flatMap_map]

theorem lstrip_toks (l : List (ℕ × List Tok)) : (lstrip l).flatMap Prod.snd = l.flatMap Prod.snd := by
  cases l with
  | nil => rfl
  | cons a l => obtain ⟨c, t⟩ := a; simp [lstrip]

theorem clean_new (n : ℕ) : Clean { DC.new false with depth := n } := ⟨rfl, rfl⟩

theorem dumpOne_toks (np : ℕ) (e : DElem) :
    (dumpOne np e).flatMap Prod.snd = (dump { DC.new false with depth := np / 4 } e).lines.flatMap Prod.snd := by
  unfold dumpOne
  rw [lstrip_toks, cols_toks]

theorem dumpOne_reads (np : ℕ) (e : DElem) (ho : e.Ok) : ∃ f args e', (dumpOne np e).flatMap Prod.snd = toks (.call f args) ∧
    eval (fun _ => none) (.call f args) = some (.elem e') ∧ Same e e' := by
  obtain ⟨new, h1, -, f, args, e', h2, h3, h4⟩ := dump_clean e ho _ (clean_new (np / 4))
  refine ⟨f, args, e', ?_, h3, h4⟩
  rw [dumpOne_toks, h1]
  simpa [DC.new] using h2

theorem dumpOne_words (np : ℕ) (e : DElem) (h : e.Abs) : ∀ l ∈ dumpOne np e, W l.2 := by
  obtain ⟨⟨-, -, -, new, h1, h2⟩, -⟩ := adds_dump e { DC.new false with depth := np / 4 } rfl
  have h1' : (dump { DC.new false with depth := np / 4 } e).lines = new := by rw [h1]; simp [DC.new]
  unfold dumpOne
  rw [h1']
  intro l hl
  have h3 : ∀ x ∈ cols new, W x.2 := by
    intro x hx
    obtain ⟨y, hy, rfl⟩ := List.mem_map.1 hx
    exact (h2 y hy).2 h
  cases hc : cols new with
  | nil => rw [hc] at hl; simp [lstrip] at hl
  | cons a r =>
    obtain ⟨c, t⟩ := a
    rw [hc] at hl h3
    rcases List.mem_cons.1 hl with rfl | hl
    · exact h3 (c, t) (by simp)
    · exact h3 l (by simp [hl])

theorem W_flat {l : List (ℕ × List Tok)} (h : ∀ x ∈ l, W x.2) : W (l.flatMap Prod.snd) := by
  induction l with
  | nil => exact W_nil
  | cons a l ih =>
    rw [List.flatMap_cons, W_append]
    exact ⟨h a (by simp), ih fun x hx => h x (by simp [hx])⟩

theorem adds_listElem (dc : DC) (hu : dc.useVars = false) (d : PItem) : Adds d.Abs dc (listElem dc d) := by
  cases d with
  | elem e =>
    obtain ⟨h1, h2⟩ := adds_dump e dc hu
    exact h1.comma h2
  | _ => exact Adds.refl _ dc

theorem adds_listTriple (np : ℕ) (dc : DC) (hu : dc.useVars = false) (d : PItem) : Adds d.Abs dc (listTriple np dc d) := by
  cases d with
  | triple s e t =>
    simp only [listTriple]
    split
    · refine Adds.append dc fun ha => ?_
      simp only [W_append, W_cons (b := _ :: _), W_lp, W_str, W_comma, W_rp, W_xf, W_flat (dumpOne_words np e ha), and_self]
    · have h0 : Adds (PItem.triple s e t).Abs dc (dc.append [.lp, .str s, .comma]) :=
        Adds.append dc fun _ => by simp only [W_cons (b := _ :: _), W_lp, W_str, W_comma, and_self]
      refine h0.trans (Adds.block ?_)
      obtain ⟨h1, h2⟩ := adds_dump e { dc.append [.lp, .str s, .comma] with
        depth := (dc.append [.lp, .str s, .comma]).depth + 1 } hu
      refine (h1.comma h2).trans (Adds.append _ fun _ => ?_)
      simp only [W_append, W_cons (b := _ :: _), W_xf, W_rp, W_comma, and_self]
  | _ => exact Adds.refl _ dc

/-- What a step of a loop has to do: write one item and a comma. -/
def Writes (dc dc1 : DC) (d : PItem) : Prop :=
  ∃ new E v, dc1.lines = dc.lines ++ new ∧ new.flatMap Prod.snd = toks E ++ [.comma] ∧ E.NoKw ∧
    eval (fun _ => none) E = some v ∧ SameItem d v

theorem writes_listElem (dc : DC) (hc : Clean dc) (e : DElem) (ho : e.Ok) : Writes dc (listElem dc (.elem e)) (.elem e) := by
  obtain ⟨new, h1, h2, f, args, e', h3, h4, h5⟩ := dump_clean e ho dc hc
  obtain ⟨new', h6, h7⟩ := addComma_lines h1 h2
  exact ⟨new', .call f args, .elem e', h6, by rw [h7, h3], trivial, h4, .elem h5⟩

theorem eval_triple {s : Str} {f : Str} {args : List Expr} {t : Mat3 ℝ} {e : DElem} (ht : t.Affine)
    (he : eval (fun _ => none) (.call f args) = some (.elem e)) :
    eval (fun _ => none) (.tuple [.str s, .call f args, exprXf t]) = some (.tuple [.str s, .elem e, .xf t]) := by
  have hx : (exprXf t).NoKw := trivial
  rw [eval, evalArgs_ok (nk_str s) (eval_str _ _) (evalArgs_ok (noKw_call _ _) he (evalArgs_ok hx (eval_exprXf _ t ht) evalArgs_nil))]

theorem writes_listTriple (np : ℕ) (dc : DC) (hc : Clean dc) (s : Str) (e : DElem) (t : Mat3 ℝ) (ho : e.Ok) (ht : t.Affine) :
    Writes dc (listTriple np dc (.triple s e t)) (.triple s e t) := by
  simp only [listTriple]
  split
  · obtain ⟨f, args, e', h1, h2, h3⟩ := dumpOne_reads np e ho
    refine ⟨[(dc.depth, [.lp, .str s, .comma] ++ (dumpOne np e).flatMap Prod.snd ++ [.comma] ++ reprXf t ++ [.rp, .comma])],
      .tuple [.str s, .call f args, exprXf t], .tuple [.str s, .elem e', .xf t], rfl, ?_, trivial, eval_triple ht h2, .triple h3⟩
    rw [h1]
    simp [toks, tupToks, sepToks, toks_exprXf]
  · obtain ⟨new, h1, h2, f, args, e', h3, h4, h5⟩ := dump_clean e ho { dc.append [.lp, .str s, .comma] with
        depth := (dc.append [.lp, .str s, .comma]).depth + 1 } hc
    obtain ⟨new', h6, h7⟩ := addComma_lines h1 h2
    refine ⟨(dc.depth, [.lp, .str s, .comma]) :: new' ++ [((dump { dc.append [.lp, .str s, .comma] with
        depth := (dc.append [.lp, .str s, .comma]).depth + 1 } e).addComma.depth, reprXf t ++ [.rp, .comma])],
      .tuple [.str s, .call f args, exprXf t], .tuple [.str s, .elem e', .xf t], ?_, ?_, trivial, eval_triple ht h4, .triple h5⟩
    · show (dump _ e).addComma.lines ++ _ = _
      rw [h6]
      simp [DC.append]
    · rw [List.flatMap_append, List.flatMap_cons, h7, h3]
      simp [toks, tupToks, sepToks, toks_exprXf]

theorem fold_adds {step : DC → PItem → DC} (hs : ∀ dc d, dc.useVars = false → Adds d.Abs dc (step dc d)) (l : List PItem)
    (dc : DC) (hu : dc.useVars = false) : Adds (∀ d ∈ l, d.Abs) dc (l.foldl step dc) := by
  induction l generalizing dc with
  | nil => exact Adds.refl _ dc
  | cons a l ih =>
    have mono : ∀ {A B : Prop} {x y : DC}, (B → A) → Adds A x y → Adds B x y := by
      rintro A B x y hBA ⟨h1, h2, h3, n, h4, h5⟩
      exact ⟨h1, h2, h3, n, h4, fun z hz => ⟨(h5 z hz).1, fun b => (h5 z hz).2 (hBA b)⟩⟩
    have h1 := hs dc a hu
    rw [List.foldl_cons]
    exact (mono (fun h => h a (by simp)) h1).trans (mono (fun h d hd => h d (by simp [hd])) (ih (step dc a) (h1.2.1.trans hu)))

theorem fold_writes {step : DC → PItem → DC} {P : PItem → Prop}
    (ha : ∀ dc d, dc.useVars = false → Adds d.Abs dc (step dc d)) (hs : ∀ dc d, Clean dc → P d → Writes dc (step dc d) d)
    (l : List PItem) (hl : ∀ d ∈ l, P d) (dc : DC) (hc : Clean dc) :
    ∃ new Es vs, (l.foldl step dc).lines = dc.lines ++ new ∧ new.flatMap Prod.snd = endToks Es ∧
      evalArgs (fun _ => none) Es = some (vs, []) ∧ List.Forall₂ SameItem l vs := by
  induction l generalizing dc with
  | nil => exact ⟨[], [], [], by simp, by simp [endToks], evalArgs_nil, .nil⟩
  | cons a l ih =>
    obtain ⟨new, E, v, h1, h2, h3, h4, h5⟩ := hs dc a hc (hl a (by simp))
    obtain ⟨new', Es, vs, g1, g2, g3, g4⟩ := ih (fun d hd => hl d (by simp [hd])) (step dc a) ((ha dc a hc.1).clean hc)
    refine ⟨new ++ new', E :: Es, v :: vs, ?_, ?_, evalArgs_ok h3 h4 g3, .cons h5 g4⟩
    · rw [List.foldl_cons, g1, h1, List.append_assoc]
    · rw [List.flatMap_append, h2, g2]
      simp [endToks]

theorem list_reads {step : DC → PItem → DC} {P : PItem → Prop}
    (ha : ∀ dc d, dc.useVars = false → Adds d.Abs dc (step dc d)) (hs : ∀ dc d, Clean dc → P d → Writes dc (step dc d) d)
    (l : List PItem) (hl : ∀ d ∈ l, P d) (np : ℕ) :
    ∃ vs, readValue (endList np (l.foldl step (startList np))) = some (.list vs) ∧ List.Forall₂ SameItem l vs := by
  obtain ⟨new, Es, vs, h1, h2, h3, h4⟩ := fold_writes ha hs l hl (startList np) ⟨rfl, rfl⟩
  refine ⟨vs, ?_, h4⟩
  have ht : (endList np (l.foldl step (startList np))).flatMap Prod.snd = toks (.list Es) := by
    unfold endList
    rw [List.flatMap_append, cols_toks, h1, List.flatMap_append, h2]
    simp [startList, DC.append, DC.new, toks]
  unfold readValue
  rw [ht, parseAll_toks]
  simp only [eval]
  rw [h3]

theorem list_layout {step : DC → PItem → DC} (ha : ∀ dc d, dc.useVars = false → Adds d.Abs dc (step dc d)) (l : List PItem) (np : ℕ) :
    ∃ mid, endList np (l.foldl step (startList np)) = [(0, [.lb])] ++ mid ++ [(np, [.rb])] ∧
      ∀ x ∈ mid, 4 * (np / 4) + 4 ≤ x.1 ∧ ((∀ d ∈ l, d.Abs) → W x.2) := by
  obtain ⟨-, -, -, new, h1, h2⟩ := fold_adds ha l (startList np) rfl
  refine ⟨cols new, ?_, ?_⟩
  · unfold endList
    rw [h1]
    simp [cols, startList, DC.append, DC.new]
  · intro x hx
    obtain ⟨y, hy, rfl⟩ := List.mem_map.1 hx
    obtain ⟨h3, h4⟩ := h2 y hy
    refine ⟨?_, h4⟩
    have : np / 4 + 1 ≤ y.1 := h3
    show 4 * (np / 4) + 4 ≤ 4 * y.1
    omega

/-- Which of the two loops runs. -/
theorem doPickle_list (np : ℕ) (l : List PItem) :
    ((∀ d ∈ l, ∃ e, d = .elem e) ∧ doPickle np (.list l) = some (endList np (l.foldl listElem (startList np)))) ∨
    (¬ (∀ d ∈ l, ∃ e, d = .elem e) ∧ (∀ d ∈ l, ∃ s e t, d = .triple s e t) ∧
      doPickle np (.list l) = some (endList np (l.foldl (listTriple np) (startList np)))) ∨
    (¬ PData.Handled (.list l) ∧ doPickle np (.list l) = none) := by
  have he : l.all PItem.isElem = true ↔ ∀ d ∈ l, ∃ e, d = .elem e := by
    rw [List.all_eq_true]
    refine forall₂_congr fun d _ => ?_
    cases d <;> simp [PItem.isElem]
  have ht : l.all PItem.isTriple = true ↔ ∀ d ∈ l, ∃ s e t, d = .triple s e t := by
    rw [List.all_eq_true]
    refine forall₂_congr fun d _ => ?_
    cases d <;> simp [PItem.isTriple]
  simp only [doPickle, PData.Handled]
  by_cases h1 : l.all PItem.isElem = true
  · exact Or.inl ⟨he.1 h1, by rw [if_pos h1]⟩
  · by_cases h2 : l.all PItem.isTriple = true
    · exact Or.inr (Or.inl ⟨fun h => h1 (he.2 h), ht.1 h2, by rw [if_neg h1, if_pos h2]⟩)
    · refine Or.inr (Or.inr ⟨?_, by rw [if_neg h1, if_neg h2]⟩)
      rintro (h | h)
      · exact h1 (he.2 h)
      · exact h2 (ht.2 h)

/-- **C84.** For an element, a list of elements or a list of (text, element, transform), and whatever the prefix, `do_pickle`
returns text, and the text stands for data equal to the data given: the same number of items in the same order, with equal
elements, the same texts and the same transforms. -/
theorem C84_roundtrip (np : ℕ) (d : PData) (hh : d.Handled) (ho : d.Ok) :
    ∃ lines v, doPickle np d = some lines ∧ readValue lines = some v ∧ SameData d v := by
  cases d with
  | elem e =>
    obtain ⟨f, args, e', h1, h2, h3⟩ := dumpOne_reads np e ho
    refine ⟨_, .elem e', rfl, ?_, .elem h3⟩
    unfold readValue
    rw [h1, parseAll_toks]
    exact h2
  | list l =>
    rcases doPickle_list np l with ⟨h1, h2⟩ | ⟨-, h1, h2⟩ | ⟨h1, -⟩
    · obtain ⟨vs, h3, h4⟩ := list_reads (P := fun d => ∃ e : DElem, d = .elem e ∧ e.Ok) (fun dc d hu => adds_listElem dc hu d)
        (by rintro dc d hc ⟨e, rfl, he⟩; exact writes_listElem dc hc e he) l
        (fun d hd => by
          obtain ⟨e, rfl⟩ := h1 d hd
          exact ⟨e, rfl, ho _ hd⟩) np
      exact ⟨_, _, h2, h3, .list h4⟩
    · obtain ⟨vs, h3, h4⟩ := list_reads (P := fun d => ∃ (s : Str) (e : DElem) (t : Mat3 ℝ), d = .triple s e t ∧ e.Ok ∧ t.Affine)
        (fun dc d hu => adds_listTriple np dc hu d)
        (by rintro dc d hc ⟨s, e, t, rfl, he, ht⟩; exact writes_listTriple np dc hc s e t he ht) l
        (fun d hd => by
          obtain ⟨s, e, t, rfl⟩ := h1 d hd
          obtain ⟨h5, h6⟩ := ho _ hd
          exact ⟨s, e, t, rfl, h5, h6⟩) np
      exact ⟨_, _, h2, h3, .list h4⟩
    · exact absurd hh h1
  | other => exact absurd hh (by simp [PData.Handled])

/-- Anything else is left to other picklers: `do_pickle` returns None exactly for data that is not handled, in particular for
lists that mix elements and tuples. -/
theorem C84_none (np : ℕ) (d : PData) : doPickle np d = none ↔ ¬ d.Handled := by
  cases d with
  | elem e => simp [doPickle, PData.Handled]
  | list l =>
    rcases doPickle_list np l with ⟨h1, h2⟩ | ⟨-, h1, h2⟩ | ⟨h1, h2⟩
    · exact ⟨fun h => absurd (h2.symm.trans h) (by simp), fun h => absurd (Or.inl h1) h⟩
    · exact ⟨fun h => absurd (h2.symm.trans h) (by simp), fun h => absurd (Or.inr h1) h⟩
    · simp [h2, h1]
  | other => simp [doPickle, PData.Handled]

/-- Layout of a list: `[` without spaces, `]` behind the prefix, and every line between them further in than the prefix. -/
theorem C84_layout (np : ℕ) (l : List PItem) (lines : List (ℕ × List Tok)) (h : doPickle np (.list l) = some lines) :
    ∃ mid, lines = [(0, [.lb])] ++ mid ++ [(np, [.rb])] ∧ ∀ x ∈ mid, np < x.1 ∧ 4 * (np / 4) + 4 ≤ x.1 := by
  have key : ∀ {step : DC → PItem → DC}, (∀ dc d, dc.useVars = false → Adds d.Abs dc (step dc d)) →
      doPickle np (.list l) = some (endList np (l.foldl step (startList np))) →
      ∃ mid, lines = [(0, [.lb])] ++ mid ++ [(np, [.rb])] ∧ ∀ x ∈ mid, np < x.1 ∧ 4 * (np / 4) + 4 ≤ x.1 := by
    intro step ha h2
    obtain ⟨mid, h3, h4⟩ := list_layout ha l np
    rw [h2, Option.some.injEq] at h
    refine ⟨mid, by rw [← h, h3], fun x hx => ?_⟩
    have := (h4 x hx).1
    exact ⟨by omega, this⟩
  rcases doPickle_list np l with ⟨-, h2⟩ | ⟨-, -, h2⟩ | ⟨-, h2⟩
  · exact key (fun dc d hu => adds_listElem dc hu d) h2
  · exact key (fun dc d hu => adds_listTriple np dc hu d) h2
  · rw [h2] at h; exact absurd h (by simp)

/-- Layout of an element: the first line without spaces, the others at least as far in as the prefix. -/
theorem C84_layout_elem (np : ℕ) (e : DElem) : ∃ first rest, doPickle np (.elem e) = some ((0, first) :: rest) ∧
    ∀ x ∈ rest, 4 * (np / 4) ≤ x.1 := by
  obtain ⟨⟨-, -, -, new, h1, h2⟩, h3⟩ := adds_dump e { DC.new false with depth := np / 4 } rfl
  have h1' : (dump { DC.new false with depth := np / 4 } e).lines = new := by rw [h1]; simp [DC.new]
  have hne : new ≠ [] := by
    rintro rfl
    exact h3 h1'
  obtain ⟨⟨c, t⟩, r, rfl⟩ := List.exists_cons_of_ne_nil hne
  refine ⟨t, cols r, ?_, ?_⟩
  · simp only [doPickle, dumpOne, h1']
    rfl
  · intro x hx
    obtain ⟨y, hy, rfl⟩ := List.mem_map.1 hx
    have : np / 4 ≤ y.1 := (h2 y (by simp [hy])).1
    show 4 * (np / 4) ≤ 4 * y.1
    omega

/-- If the data has no relative points or vectors, every class the text names is in the table that `methods()` gives the reader. -/
theorem C84_methods (np : ℕ) (d : PData) (h : d.Abs) (lines : List (ℕ × List Tok)) (hp : doPickle np d = some lines) :
    WordsIn pickleMethods lines := by
  have key : ∀ {step : DC → PItem → DC} (l : List PItem), (∀ dc d, dc.useVars = false → Adds d.Abs dc (step dc d)) →
      (∀ d ∈ l, d.Abs) → ∀ x ∈ endList np (l.foldl step (startList np)), W x.2 := by
    intro step l ha hA x hx
    obtain ⟨mid, h3, h4⟩ := list_layout ha l np
    rw [h3] at hx
    simp only [List.mem_append, List.mem_singleton] at hx
    rcases hx with (rfl | hx) | rfl
    · exact W_lb
    · exact (h4 x hx).2 hA
    · exact W_rb
  intro x hx
  cases d with
  | elem e =>
    simp only [doPickle, Option.some.injEq] at hp
    exact dumpOne_words np e h x (by rw [hp]; exact hx)
  | list l =>
    rcases doPickle_list np l with ⟨-, h2⟩ | ⟨-, -, h2⟩ | ⟨-, h2⟩
    · rw [h2, Option.some.injEq] at hp
      exact key l (fun dc d hu => adds_listElem dc hu d) h x (by rw [hp]; exact hx)
    · rw [h2, Option.some.injEq] at hp
      exact key l (fun dc d hu => adds_listTriple np dc hu d) h x (by rw [hp]; exact hx)
    · rw [h2] at hp; exact absurd hp (by simp)
  | other => simp [doPickle] at hp

/-- With relative points it is not: the text of a curve through a relative point names `PointRelative`, which the table lacks. -/
theorem C84_methods_counterexample (np : ℕ) : ∃ e : DElem, e.Ok ∧
    ∀ lines, doPickle np (.elem e) = some lines → ¬ WordsIn pickleMethods lines := by
  refine ⟨.curve ⟨"c".toList, ⟨none, none⟩, false, Mat3.one⟩
    [⟨.rel 1 2 (.point 0 0 none) none, .vec 0 0, .vec 0 0, "smooth".toList⟩], ?_, ?_⟩
  · simp [DElem.Ok, DHdr.Ok, PenBrush.filled, Mat3.Affine, Mat3.one, DCp.Ok, DPt.Ok, DVec.Ok]
  · intro lines hl hw
    simp only [doPickle, Option.some.injEq] at hl
    have hm : (4 * (np / 4 + 1), reprCp ⟨.rel 1 2 (.point 0 0 none) none, .vec 0 0, .vec 0 0, "smooth".toList⟩ ++ [.comma]) ∈
        lines := by
      rw [← hl]
      simp only [dumpOne, dump, sortDicts, dumpS, List.foldl_cons, List.foldl_nil, DC.append, dumpElem]
      obtain ⟨b1, -⟩ := basic_novars { DC.new false with depth := np / 4 } rfl w_ElemCurve ⟨"c".toList, ⟨none, none⟩, false, Mat3.one⟩
      rw [b1]
      simp [cols, lstrip, DC.new]
    have := hw _ hm "PointRelative".toList (by simp [reprCp, reprPt, opens])
    revert this
    simp [plainWords, pickleMethods]

/-- The empty list. -/
theorem C84_empty (np : ℕ) : doPickle np (.list []) = some [(0, [.lb]), (np, [.rb])] := by
  simp [doPickle, endList, startList, cols, DC.append, DC.new]

/-- A list of two elements, one of several lines, and of tuples, meet the hypotheses. -/
example : (PData.list [.elem (.rect ⟨"r".toList, ⟨none, none⟩, true, Mat3.one⟩ (.point 0 0 none) (.point 1 2 none)),
    .elem (.curve ⟨"c".toList, ⟨none, none⟩, false, Mat3.one⟩ [⟨.point 0 0 none, .vec 0 0, .vec 1 0, "smooth".toList⟩])]).Handled ∧
    (PData.list [.triple "t".toList (.rect ⟨"r".toList, ⟨none, none⟩, true, Mat3.one⟩ (.point 0 0 none) (.point 1 2 none)) Mat3.one,
      .triple "u".toList (.curve ⟨"c".toList, ⟨none, none⟩, false, Mat3.one⟩ []) Mat3.one]).Handled ∧
    (PData.list [.triple "t".toList (.rect ⟨"r".toList, ⟨none, none⟩, true, Mat3.one⟩ (.point 0 0 none) (.point 1 2 none)) Mat3.one,
      .triple "u".toList (.curve ⟨"c".toList, ⟨none, none⟩, false, Mat3.one⟩ []) Mat3.one]).Ok ∧
    (PData.list [.triple "t".toList (.rect ⟨"r".toList, ⟨none, none⟩, true, Mat3.one⟩ (.point 0 0 none) (.point 1 2 none)) Mat3.one,
      .triple "u".toList (.curve ⟨"c".toList, ⟨none, none⟩, false, Mat3.one⟩ []) Mat3.one]).Abs ∧
    ¬ (PData.list [.elem (.curve ⟨"c".toList, ⟨none, none⟩, false, Mat3.one⟩ []), .other]).Handled := by
  simp [PData.Handled, PData.Ok, PItem.Ok, DElem.Ok, DHdr.Ok, PenBrush.filled, Mat3.Affine, Mat3.one, DPt.Plain, PData.Abs, PItem.Abs,
    DElem.Abs, DPt.Abs]

end X7.Dump
