import Verif.Lemmas.DumpHist

/-!
C116: a `DumpContext` through every history of its calls.
-/

noncomputable section

namespace X7.DH

open X7.Dump

/-- **C116.** Whatever was called, exceptions inside `with` blocks included, the context is at the depth it began with. -/
theorem C116_depth (use : Bool) (ops : List Op) : (run (Ctx.new use) ops).dc.depth = 0 := by
  have : ∀ (ops : List Op) (c : Ctx), (run c ops).dc.depth = c.dc.depth := by
    intro ops
    induction ops with
    | nil => exact fun c => rfl
    | cons op ops ih =>
      intro c
      show (run (step c op).1 ops).dc.depth = _
      rw [ih, step_depth]
  rw [this]; rfl

/-- Every line written inside a `with` block, however the block ends, is indented deeper than the block stands; no line is lost. -/
theorem C116_with (c : Ctx) (body : List Op) (h : NoOutputs body) :
    ∃ new, (step c (.within body)).1.dc.lines.map Prod.fst = c.dc.lines.map Prod.fst ++ new ∧ ∀ d ∈ new, c.dc.depth < d := by
  simp only [step]
  obtain ⟨new, h1, h2⟩ := block_deeper body h ⟨{ c.dc with depth := c.dc.depth + 1 }, c.imports⟩
  exact ⟨new, h1, h2⟩

/-- The imports begin with the four that the classes need and none is there twice, whatever was called; later calls keep those that are
there in their places. -/
theorem C116_imports (use : Bool) (before later : List Op) :
    (∃ new, (run (Ctx.new use) before).imports = defaultImports ++ new) ∧ (run (Ctx.new use) before).imports.Nodup ∧
      ∃ new, (run (Ctx.new use) (before ++ later)).imports = (run (Ctx.new use) before).imports ++ new := by
  have key : ∀ (ops : List Op) (c : Ctx), c.imports.Nodup → (run c ops).imports.Nodup ∧ ∃ new, (run c ops).imports = c.imports ++ new := by
    intro ops
    induction ops with
    | nil => exact fun c h => ⟨h, [], (List.append_nil _).symm⟩
    | cons op ops ih =>
      intro c h
      obtain ⟨h1, n1, h2⟩ := step_imports op c h
      obtain ⟨g1, n2, g2⟩ := ih (step c op).1 h1
      exact ⟨g1, n1 ++ n2, by rw [← List.append_assoc, ← h2]; exact g2⟩
  have h0 : (Ctx.new use).imports.Nodup := by
    show ([] ++ defaultImports).Nodup
    simp [defaultImports]
  obtain ⟨h1, h2⟩ := key before _ h0
  refine ⟨h2, h1, ?_⟩
  have : run (Ctx.new use) (before ++ later) = run (run (Ctx.new use) before) later := by simp [run, List.foldl_append]
  rw [this]
  exact (key later _ h1).2

/-- Without `with` blocks: exactly the needed imports and those added, in the order in which they were first given. -/
theorem C116_imports_order (use : Bool) (ops : List Op) (h : ∀ body, Op.within body ∉ ops) :
    (run (Ctx.new use) ops).imports = (defaultImports ++ added ops).eraseDups := by
  have hstep : ∀ (c : Ctx) (op : Op), (∀ body, op ≠ .within body) →
      (step c op).1.imports = c.imports ++ ((added [op]).removeAll c.imports).eraseDups := by
    intro c op hop
    have e : ∀ x : Ctx, x.imports = c.imports → x.imports = c.imports ++ (([] : List Str).removeAll c.imports).eraseDups := by
      intro x hx; rw [hx]; simp
    cases op with
    | addImports l =>
      simp only [step]
      rw [addImports_spec]
      simp [added]
    | within body => exact absurd rfl (hop body)
    | output =>
      simp only [step]
      rcases output_cases c with ⟨-, h⟩ | ⟨d, l, r, h1, h2, h3⟩
      · rw [h]; exact e _ rfl
      · generalize c.output = o at *
        obtain ⟨o1, o2⟩ := o
        simp only at h2 h3
        rw [h3, h2]; exact e _ rfl
    | addComma =>
      simp only [step, Ctx.addComma]
      split <;> exact e _ rfl
    | _ => exact e _ rfl
  have key : ∀ (ops : List Op) (c : Ctx) (l : List Str), (∀ body, Op.within body ∉ ops) → c.imports = l.eraseDups →
      (run c ops).imports = (l ++ added ops).eraseDups := by
    intro ops
    induction ops with
    | nil => intro c l _ hc; simpa [run, added] using hc
    | cons op ops ih =>
      intro c l hw hc
      have h1 := hstep c op fun body e => hw body (by simp [e])
      have h2 : (step c op).1.imports = (l ++ added [op]).eraseDups := by
        rw [h1, hc, List.eraseDups_append]
        congr 2
        simp only [List.removeAll]
        apply List.filter_congr
        intro x _
        rw [Bool.eq_iff_iff]
        simp
      have h3 := ih (step c op).1 (l ++ added [op]) (fun body hm => hw body (by simp [hm])) h2
      have e : added (op :: ops) = added [op] ++ added ops := by simp [added]
      rw [e, ← List.append_assoc]
      exact h3
  refine key ops _ defaultImports h ?_
  show [] ++ defaultImports = _
  simp [defaultImports, List.eraseDups_cons]

/-- The text of `output()`, whatever was called before: the imports, an empty line, one line for each variable in the order of their names,
an empty line, the lines written so far with `model = ` in front of the first. -/
theorem C116_text (c : Ctx) : (c.dc.lines = [] ∧ c.output = (c, .error .index)) ∨
    ∃ (d : ℕ) (l : List Tok) (r : List (ℕ × List Tok)) (vars : List (List Tok × Str)), c.dc.lines = (d, l) :: r ∧ vars.Perm c.dc.vars ∧ vars.Pairwise (fun x y => x.2 ≤ y.2) ∧
      c.output.2 = .ok (c.imports.map Line.imp ++ [.blank] ++ vars.map (fun x => .code 0 ([.id x.2, .eq] ++ x.1)) ++ [.blank] ++
        (.code 0 ([.id "model".toList, .eq] ++ l) :: r.map fun x => .code x.1 x.2)) ∧
      c.output.1 = ⟨{ c.dc with lines := (0, [.id "model".toList, .eq] ++ l) :: r }, c.imports⟩ := by
  rcases output_cases c with h | ⟨d, l, r, h1, h2, h3⟩
  · exact Or.inl h
  · refine Or.inr ⟨d, l, r,
      ((c.dc.vars.map fun x => (x.2, x.1)).mergeSort fun x y => decide (x.1 ≤ y.1)).map fun x => (x.2, x.1), h1, ?_, ?_, ?_, h2⟩
    · have := (List.mergeSort_perm (c.dc.vars.map fun x => (x.2, x.1)) fun x y => decide (x.1 ≤ y.1)).map fun x => (x.2, x.1)
      simpa [List.map_map, Function.comp_def] using this
    · have := List.pairwise_mergeSort (le := fun (x y : Str × List Tok) => decide (x.1 ≤ y.1))
        (fun a b c h g => by simp only [decide_eq_true_eq] at *; exact le_trans h g)
        (fun a b => by simp only [Bool.or_eq_true, decide_eq_true_eq]; exact le_total _ _)
        (c.dc.vars.map fun x => (x.2, x.1))
      rw [List.pairwise_map]
      exact this.imp fun h => by simpa using h
    · rw [h3]
      simp [List.map_map, Function.comp_def]

/-- **C116.** Elements dumped one after another into a context, with imports added, variables set and `output()` called in between, any
number of times: as long as nothing was dumped `output()` raises; afterwards the file it gives runs, its statements are those of the
variables followed by one for each element, each with a value equal to the element dumped, `model` is the first, and no other name stands
for an element. -/
theorem C116_file (use : Bool) (ops : List Op) (hc : ∀ op ∈ ops, op.Clean) :
    (dumped ops = [] ∧ (run (Ctx.new use) ops).output = (run (Ctx.new use) ops, .error .index)) ∨
    ∃ text vals es first env, (run (Ctx.new use) ops).output.2 = .ok text ∧
      runFile text = some (vals ++ es.map Val.elem, env) ∧
      vals.length = (run (Ctx.new use) ops).dc.vars.length ∧
      List.Forall₂ Same (dumped ops) es ∧ es.head? = some first ∧
      env "model".toList = some (.elem first) ∧
      ∀ s e, env s = some (.elem e) → s = "model".toList := by
  have hi := inv_run (Inv.new use) ops hc
  rw [List.nil_append] at hi
  generalize run (Ctx.new use) ops = c at *
  have hsame : ∀ es : List DElem, (∀ e ∈ es, e.Ok) → List.Forall₂ Same es (es.map sortDicts) := by
    intro es
    induction es with
    | nil => exact fun _ => .nil
    | cons e es ih => exact fun h => .cons (sort_elem e (h e (by simp))).2 (ih fun x hx => h x (by simp [hx]))
  have hok : ∀ e ∈ dumped ops, e.Ok := by
    intro e he
    obtain ⟨op, h1, h2⟩ := List.mem_filterMap.1 he
    cases op <;> simp at h2
    subst h2
    exact hc _ h1
  rcases output_cases c with ⟨h1, h2⟩ | ⟨d, l, r, h1, h2, h3⟩
  · left
    refine ⟨?_, h2⟩
    rcases hi.lines with ⟨h, -⟩ | ⟨k, b, bs, e, rest, -, h4, h5, -⟩
    · exact h
    · obtain ⟨l, r, rfl⟩ := h5.1.head
      rw [h1] at h4
      simp at h4
  · right
    have ho := hi.output
    rw [h2] at ho
    obtain ⟨new, hnew⟩ := hi.imports
    rcases hi.lines with ⟨-, h4⟩ | ⟨k, b, bs, e, rest, h4, h5, h6, h7⟩
    · rw [h1] at h4; simp at h4
    · obtain ⟨l', r', rfl⟩ := h6.1.head
      rw [h1, List.cons_append, List.cons.injEq] at h5
      obtain ⟨h5, rfl⟩ := h5
      obtain ⟨rfl, rfl⟩ := Prod.mk.injEq .. ▸ h5
      have hl : Later c.dc c.dc := ⟨hi.ok, rfl, fun _ _ hw => hw⟩
      have hm := h6.model hl
      obtain ⟨hst, E, g1, g2, g3⟩ := hm
      have hEv := g3 c.dc hl
      generalize hvs : ((c.dc.vars.map fun x => (x.2, x.1)).mergeSort fun x y => decide (x.1 ≤ y.1)) = vs at *
      have hperm : vs.Perm (c.dc.vars.map fun x => (x.2, x.1)) := by rw [← hvs]; exact List.mergeSort_perm _ _
      have hgood : ∀ x ∈ vs, ∃ E v, x.2 = toks E ∧ E.NoKw ∧ (∀ env, eval env E = some v) ∧ ∀ e, v ≠ Val.elem e := by
        intro x hx
        obtain ⟨y, hy, rfl⟩ := List.mem_map.1 (hperm.mem_iff.1 hx)
        exact hi.vars y hy
      have henv : envOf vs = envDC c.dc := by rw [← hvs]; exact envOf_sorted hi.ok
      have hnd : (vs.map Prod.fst).Nodup := by
        rw [(hperm.map Prod.fst).nodup_iff, List.map_map]
        exact hi.ok.names
      obtain ⟨vals, k1, k2⟩ := exec_vars (((0, .id mdl :: .eq :: l) :: r') :: bs |>.map fun b => (0, flat b)) vs []
        (by simpa using hnd) fun x hx => by obtain ⟨E, v, a, b, c, -⟩ := hgood x hx; exact ⟨E, v, a, b, c⟩
      have hnil : envOf [] = fun _ => none := by funext s; simp [envOf, dget]
      rw [hnil, List.nil_append, henv] at k2
      have hle : ∀ s v, envDC c.dc s = some v → assign (envDC c.dc) (List.replicate (k + 1) mdl) (.elem (sortDicts e)) s = some v := by
        intro s v hs
        obtain ⟨w, -, q, n, rfl⟩ := envDC_name hi.ok hs
        unfold assign
        rw [if_neg]
        · exact hs
        · intro hm
          exact mdl_ne q n (List.eq_of_mem_replicate hm).symm
      refine ⟨_, vals, (e :: rest).map sortDicts, sortDicts e,
        assign (envDC c.dc) (List.replicate (k + 1) mdl) (.elem (sortDicts e)), h3, ?_, ?_, ?_, rfl, ?_, ?_⟩
      · unfold runFile
        rw [if_pos]
        · rw [codeOf_text, logical_vars _ (fun x hx => by obtain ⟨E, v, a, -⟩ := hgood x hx; rw [a]; exact net_toks E)]
          have hbl := logical_blocks (bs := ((0, .id mdl :: .eq :: l) :: r') :: bs) (by
            intro b hb
            rcases List.mem_cons.1 hb with rfl | hb
            · exact hst
            · obtain ⟨i, hi', rfl⟩ := List.getElem_of_mem hb
              obtain ⟨hlen, hget⟩ := List.forall₂_iff_get.1 h7
              exact (hget i hi' (hlen ▸ hi')).1)
          rw [show ((0, .id "model".toList :: .eq :: l) :: (r' ++ bs.flatten)) =
            (((0, .id mdl :: .eq :: l) :: r') :: bs).flatten from rfl, hbl]
          simp only [Option.map_some, Option.bind_some]
          rw [k2, List.map_cons, exec, if_neg (by simp), g1, parseAll_toks]
          simp only
          rw [hEv]
          simp only
          rw [g2, exec_rest hi.ok hle h7]
          simp [List.map_map, Function.comp_def]
        · intro m hm
          rw [hnew]
          simp only [List.append_assoc, List.map_append, List.mem_append]
          left
          simp only [List.mem_cons, List.not_mem_nil, or_false] at hm
          rcases hm with rfl | rfl | rfl | rfl <;> simp [defaultImports]
      · rw [k1, hperm.length_eq, List.length_map]
      · rw [← h4]; exact hsame _ hok
      · unfold assign
        rw [if_pos]
        exact List.mem_replicate.2 ⟨by omega, rfl⟩
      · intro s e' hs
        unfold assign at hs
        split at hs
        · rename_i hm
          exact List.eq_of_mem_replicate hm
        · exfalso
          obtain ⟨w, hw, -⟩ := envDC_name hi.ok hs
          obtain ⟨E', v, a1, a2, a3, a4⟩ := hi.vars _ hw
          rw [envDC_get hi.ok (dget_of_mem hi.ok.keys hw) a1.symm, a3] at hs
          exact a4 e' (Option.some.inj hs)

/-- Only the first element has a name: after two elements are dumped the second one, unless equal to the first, cannot be had from the
file. -/
theorem C116_second_counterexample (use : Bool) (a b : DElem) (ha : a.Ok) (hb : b.Ok) (hn : a.hdr.name ≠ b.hdr.name) :
    ∃ text vals env, (run (Ctx.new use) [.dump a, .dump b]).output.2 = .ok text ∧ runFile text = some (vals, env) ∧
      ∀ s e, Same b e → env s ≠ some (.elem e) := by
  have hdr : ∀ x y : DElem, Same x y → x.hdr.name = y.hdr.name := by
    intro x y h; cases h <;> rfl
  rcases C116_file use [.dump a, .dump b] (by simp [Op.Clean, ha, hb]) with ⟨h, -⟩ | ⟨text, vals, es, first, env, h1, h2, -, h4, h5, h6, h7⟩
  · simp [dumped] at h
  · refine ⟨text, _, env, h1, h2, ?_⟩
    intro s e hs he
    rw [h7 s e he, h6] at he
    have he : first = e := by simpa using he
    subst he
    cases h4 with
    | cons g1 g2 =>
      simp only [List.head?_cons, Option.some.injEq] at h5
      subst h5
      exact hn ((hdr _ _ g1).trans (hdr _ _ hs).symm)

theorem exec_indented {l : List (ℕ × List Tok)} (h : ∃ x ∈ l, x.1 ≠ 0) (env : Str → Option Dump.Val) : exec env l = none := by
  induction l generalizing env with
  | nil => simp at h
  | cons x l ih =>
    obtain ⟨d, t⟩ := x
    rw [exec]
    by_cases hd : d = 0
    · rw [if_neg (by simpa using hd)]
      have hl : ∃ x ∈ l, x.1 ≠ 0 := by
        obtain ⟨x, hx, hx'⟩ := h
        rcases List.mem_cons.1 hx with rfl | hx
        · exact absurd hd hx'
        · exact ⟨x, hx, hx'⟩
      split
      · rfl
      · split
        · rfl
        · rw [ih hl]; rfl
    · rw [if_pos hd]

/-- An element dumped inside a `with` block of one's own, behind another element, makes a file that cannot be run: its statement is
indented. -/
theorem C116_with_counterexample (use : Bool) (a b : DElem) (ha : a.Ok) (hb : b.Ok) :
    ∃ text, (run (Ctx.new use) [.dump a, .within [.dump b]]).output.2 = .ok text ∧ runFile text = none := by
  have hi := (Inv.new use).dump a ha
  obtain ⟨hs, -⟩ := sort_elem b hb
  have hr : run (Ctx.new use) [.dump a, .within [.dump b]] =
      ⟨{ dumpS { Dump.dump (DC.new use) a with depth := (Dump.dump (DC.new use) a).depth + 1 } (sortDicts b) with
          depth := (dumpS { Dump.dump (DC.new use) a with depth := (Dump.dump (DC.new use) a).depth + 1 } (sortDicts b)).depth - 1 },
        (Ctx.new use).imports⟩ := by
    simp only [run, List.foldl_cons, List.foldl_nil, step, block]
    rfl
  rw [hr]
  change Inv ⟨Dump.dump (DC.new use) a, (Ctx.new use).imports⟩ _ at hi
  generalize Dump.dump (DC.new use) a = dc at *
  have hv := dumpS_vars (sortDicts b) hs { dc with depth := dc.depth + 1 } (hi.vars.of_eq rfl)
  obtain ⟨hd1, bl, hd2, hd3⟩ := dumpS_stmt (sortDicts b) hs { dc with depth := dc.depth + 1 }
  have hw := (wrote_elem (sortDicts b) { dc with depth := dc.depth + 1 } (hi.ok.congr rfl rfl) hs).1.ok
  generalize dumpS { dc with depth := dc.depth + 1 } (sortDicts b) = dc1 at *
  have hd0 : dc.depth = 0 := hi.depth
  rcases hi.lines with ⟨h, -⟩ | ⟨k, b0, bs, e, rest, h4, h5, h6, h7⟩
  · simp at h
  obtain ⟨rfl, rfl⟩ : a = e ∧ [] = rest := by simpa using h4
  cases h7
  rcases output_cases ⟨{ dc1 with depth := dc1.depth - 1 }, (Ctx.new use).imports⟩ with ⟨h1, -⟩ | ⟨d, l, r, h1, -, h3⟩
  · simp only at h1
    rw [h1] at hd2
    obtain ⟨l', r', rfl⟩ := hd3.head
    simp at hd2
  · refine ⟨_, h3, ?_⟩
    simp only at h1 hd2 h5
    rw [hd2, h5] at h1
    obtain ⟨l', r', rfl⟩ := h6.1.head
    simp only [List.flatten_nil, List.append_nil, List.cons_append, List.cons.injEq, Prod.mk.injEq] at h1
    obtain ⟨⟨rfl, rfl⟩, rfl⟩ := h1
    have hm := (h6.model ⟨hi.ok, rfl, fun _ _ hw => hw⟩).1
    unfold runFile
    split
    · rw [codeOf_text, logical_vars]
      · rw [show ((0, .id "model".toList :: .eq :: l') :: (r' ++ bl)) = ((0, .id mdl :: .eq :: l') :: r') ++ bl from rfl,
          logical_stmt hm, show bl = bl ++ [] from (List.append_nil _).symm, logical_stmt hd3]
        simp only [logical, Option.map_some, Option.bind_some]
        apply exec_indented
        exact ⟨(dc.depth + 1, flat bl), by simp, by simp⟩
      · intro x hx
        have hx := (List.mergeSort_perm _ _).mem_iff.1 hx
        obtain ⟨y, hy, rfl⟩ := List.mem_map.1 hx
        obtain ⟨E, v, g1, -⟩ := hv y hy
        simp only
        rw [g1]
        exact net_toks E
    · rfl

/-- `add_comma()` before anything was written raises and changes nothing, as `output()` does. -/
theorem C116_comma_empty (c : Ctx) : step c .addComma = (c, some .index) ↔ c.dc.lines = [] := by
  simp only [step, Ctx.addComma]
  split
  · rename_i h; simp [h]
  · rename_i h; simp [h]

/-- Looking at the lines alone changes nothing; `output()` puts `model = ` in front of the first line each time. -/
theorem C116_lines (c : Ctx) : (step c .outputLines).1 = c ∧ (step c .output).1.outputLines.length = c.outputLines.length ∧
    ∀ d l r, c.dc.lines = (d, l) :: r → (step (step c .output).1 .output).1.dc.lines =
      (0, [.id "model".toList, .eq, .id "model".toList, .eq] ++ l) :: r := by
  have key : ∀ c : Ctx, ∀ d l r, c.dc.lines = (d, l) :: r →
      (step c .output).1.dc.lines = (0, [.id "model".toList, .eq] ++ l) :: r := by
    intro c d l r h
    simp only [step]
    rcases output_cases c with ⟨h0, -⟩ | ⟨d', l', r', h1, h2, h3⟩
    · rw [h] at h0; simp at h0
    · rw [h, List.cons.injEq, Prod.mk.injEq] at h1
      obtain ⟨⟨rfl, rfl⟩, rfl⟩ := h1
      generalize c.output = o at *
      obtain ⟨o1, o2⟩ := o
      simp only at h2 h3
      rw [h3, h2]; rfl
  refine ⟨by simp only [step], ?_, ?_⟩
  · unfold Ctx.outputLines
    rw [List.length_map, List.length_map]
    cases hl : c.dc.lines with
    | nil =>
      simp only [step]
      rcases output_cases c with ⟨-, h0⟩ | ⟨d, l, r, h1, -⟩
      · rw [h0]; simp [hl]
      · rw [hl] at h1; simp at h1
    | cons x r => obtain ⟨d, l⟩ := x; rw [key c d l r hl]; simp
  · intro d l r h
    rw [key _ _ _ _ (key c d l r h)]
    simp

/-! ### The hypotheses can be met -/

/-- A curve and a group of an ellipse. -/
def demoA : DElem := .curve ⟨"a".toList, ⟨none, none⟩, true, Mat3.one⟩ [⟨.point 1 2 none, .vec 0 1, .vec 0 (-1), "s".toList⟩]
def demoB : DElem := .group ⟨"b".toList, ⟨some ⟨⟨.name "red"⟩, 2⟩, none⟩, false, ⟨1, 0, 5, 0, 1, 6, 0, 0, 1⟩⟩ false
  [("e".toList, .ellipse ⟨"e".toList, ⟨none, none⟩, true, Mat3.one⟩ (.point 0 0 none) (.point 2 1 none))] []

theorem demoA_ok : demoA.Ok := by
  simp [demoA, DElem.Ok, DHdr.Ok, PenBrush.filled, Mat3.Affine, Mat3.one, DCp.Ok, DPt.Ok, DVec.Ok]

theorem demoB_ok : demoB.Ok := by
  simp [demoB, DElem.Ok, OkAll, DHdr.Ok, PenBrush.filled, Mat3.Affine, Mat3.one, DPt.Plain, DElem.hdr]

/-- A history with both, imports, a variable, and `output()` before, between and after. -/
def demo : List Op :=
  [.output, .dump demoA, .addImports ["import math".toList, "import math".toList], .output, .setVar (.xf Mat3.one) "x".toList, .dump demoB,
    .outputLines, .output]

example : (∀ op ∈ demo, op.Clean) ∧ dumped demo = [demoA, demoB] ∧
    (run (Ctx.new true) demo).imports = defaultImports ++ ["import math".toList] := by
  refine ⟨by simp [demo, Op.Clean, demoA_ok, demoB_ok, DVal.Ok, Mat3.Affine, Mat3.one], rfl, ?_⟩
  rw [C116_imports_order true demo (by simp [demo])]
  simp [demo, added, defaultImports, List.eraseDups_cons]

example (use : Bool) : ∃ text vals env, (run (Ctx.new use) [.dump demoA, .dump demoB]).output.2 = .ok text ∧
    runFile text = some (vals, env) ∧ ∀ s e, Same demoB e → env s ≠ some (.elem e) :=
  C116_second_counterexample use _ _ demoA_ok demoB_ok (by simp [demoA, demoB, DElem.hdr])

example (use : Bool) : ∃ text, (run (Ctx.new use) [.dump demoA, .within [.dump demoB]]).output.2 = .ok text ∧ runFile text = none :=
  C116_with_counterexample use _ _ demoA_ok demoB_ok

/-- Blocks: one that raises, and one inside another. -/
example : (step (Ctx.new true) (.within [.addComma, .append [.lb]])).2 = some .index ∧
    (step (Ctx.new true) (.within [.addComma, .append [.lb]])).1.dc.lines = [] ∧
    (step (Ctx.new true) (.within [.append [.lb], .within [.append [.rb]]])).1.dc.lines = [(1, [.lb]), (2, [.rb])] := ⟨rfl, rfl, rfl⟩

end X7.DH
