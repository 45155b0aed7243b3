import Verif.Lemmas.DumpExpr

/-!
C48: the text written by `dump` denotes the dumped element.
-/

noncomputable section

namespace X7.Dump

/-- The variables of a context as they are written. -/
def envDC (dc : DC) : Str → Option Val := envOf (dc.vars.map fun x => (x.2, x.1))

/-- A later state of a context. -/
structure Later (dc dc' : DC) : Prop where
  ok : dc'.Ok
  use : dc'.useVars = dc.useVars
  keep : ∀ w n, dget dc.vars w = some n → dget dc'.vars w = some n

theorem Later.trans {a b c : DC} (h : Later a b) (g : Later b c) : Later a c :=
  ⟨g.ok, g.use.trans h.use, fun w n hw => g.keep w n (h.keep w n hw)⟩

theorem Later.of_eq {a b : DC} (h : a.Ok) (hv : b.vars = a.vars) (hp : b.prefixes = a.prefixes) (hu : b.useVars = a.useVars) :
    Later a b :=
  ⟨h.congr hv hp, hu, fun w n hw => by rw [hv]; exact hw⟩

theorem envDC_get {dc : DC} (h : dc.Ok) {v : List Tok} {nm : Str} (hv : dget dc.vars v = some nm) {E : Expr} (hE : toks E = v) :
    envDC dc nm = eval (fun _ => none) E := by
  have hd : dget (dc.vars.map fun x => (x.2, x.1)) nm = some v := by
    apply dget_of_mem
    · rw [List.map_map]; exact h.names
    · exact List.mem_map.2 ⟨(v, nm), dget_mem hv, rfl⟩
  unfold envDC envOf
  rw [hd]
  simp only
  rw [← hE, parseAll_toks]

theorem eval_var {env : Str → Option Val} {q : Str} {n : ℕ} : eval env (.name (varName q n)) = env (varName q n) := by
  have hu : '_' ∈ varName q n := by simp [varName]
  have h1 : varName q n ≠ "None".toList := by intro h; rw [h] at hu; simp at hu
  have h2 : varName q n ≠ "True".toList := by intro h; rw [h] at hu; simp at hu
  have h3 : varName q n ≠ "False".toList := by intro h; rw [h] at hu; simp at hu
  simp only [eval]
  rw [if_neg h1, if_neg h2, if_neg h3]

/-- What `set_var` returns stands for the value, now and later. -/
theorem setVar_ref {dc : DC} (h : dc.Ok) {E : Expr} {val : Val} (hk : E.NoKw) (hE : ∀ env, eval env E = some val) (p : Str) :
    Later dc (dc.setVar (toks E) p).1 ∧ (dc.setVar (toks E) p).1.lines = dc.lines ∧
      (dc.setVar (toks E) p).1.depth = dc.depth ∧
      ∃ F : Expr, F.NoKw ∧ toks F = (dc.setVar (toks E) p).2 ∧
        ∀ dc2, Later (dc.setVar (toks E) p).1 dc2 → eval (envDC dc2) F = some val := by
  cases hu : dc.useVars with
  | false =>
    rw [C47_no_vars dc hu]
    exact ⟨⟨h, rfl, fun w n hw => hw⟩, rfl, rfl, E, hk, rfl, fun dc2 _ => hE _⟩
  | true =>
    obtain ⟨nm, e1, e2, e3, e4, e5, e6, e7, q, n, rfl⟩ := setVar_spec h hu (toks E) p
    refine ⟨⟨e2, by rw [e5, hu], e4⟩, e6, e7, .name (varName q n), trivial, by rw [e1]; simp [toks], ?_⟩
    intro dc2 hl
    rw [eval_var, envDC_get hl.ok (hl.keep _ _ e3) rfl, hE]

theorem noKw_call (f : Str) (l : List Expr) : (Expr.call f l).NoKw := trivial

theorem eval_bool (env : Str → Option Val) (b : Bool) :
    eval env (.name (if b then "True" else "False").toList) = some (.bool b) := by
  cases b <;> simp [eval]

/-- The common arguments. -/
theorem basic_ref {dc : DC} (h : dc.Ok) (cls : String) {hd : DHdr} (hh : hd.Ok) :
    Later dc (basicToks dc cls hd).1 ∧ (basicToks dc cls hd).1.lines = dc.lines ∧
      (basicToks dc cls hd).1.depth = dc.depth ∧
      ∃ (P : Expr) (X : List Expr), P.NoKw ∧
        (∀ rest, rest ≠ [] → (basicToks dc cls hd).2 ++ (sepToks rest ++ [.rp]) = toks (.call cls.toList
          ([.str hd.name, P, .kw "closed".toList (.name (if hd.closed then "True" else "False").toList)] ++ X ++ rest))) ∧
        ∀ dc2, Later (basicToks dc cls hd).1 dc2 →
          eval (envDC dc2) P = some (.pb hd.pb) ∧
          ((X = [] ∧ hd.xf = Mat3.one) ∨ ∃ F, X = [.kw "xform".toList F] ∧ eval (envDC dc2) F = some (.xf hd.xf)) := by
  obtain ⟨a1, a2, a3, P, a4, a5, a6⟩ := setVar_ref h (noKw_call _ _) (fun env => eval_exprPB env hd.pb) "pen".toList
  change Later dc (dc.setVar (toks (exprPB hd.pb)) "pen".toList).1 at a1
  change (dc.setVar (toks (exprPB hd.pb)) "pen".toList).1.lines = dc.lines at a2
  change (dc.setVar (toks (exprPB hd.pb)) "pen".toList).1.depth = dc.depth at a3
  change toks P = (dc.setVar (toks (exprPB hd.pb)) "pen".toList).2 at a5
  change ∀ dc2, Later (dc.setVar (toks (exprPB hd.pb)) "pen".toList).1 dc2 → _ at a6
  rw [toks_exprPB] at a1 a2 a3 a5 a6
  unfold basicToks
  simp only
  split
  · obtain ⟨b1, b2, b3, F, b4, b5, b6⟩ := setVar_ref a1.ok (noKw_call _ _) (fun env => eval_exprXf env hd.xf hh.2) "xform".toList
    change Later _ ((dc.setVar (reprPB hd.pb) "pen".toList).1.setVar (toks (exprXf hd.xf)) "xform".toList).1 at b1
    change ((dc.setVar (reprPB hd.pb) "pen".toList).1.setVar (toks (exprXf hd.xf)) "xform".toList).1.lines = _ at b2
    change ((dc.setVar (reprPB hd.pb) "pen".toList).1.setVar (toks (exprXf hd.xf)) "xform".toList).1.depth = _ at b3
    change toks F = ((dc.setVar (reprPB hd.pb) "pen".toList).1.setVar (toks (exprXf hd.xf)) "xform".toList).2 at b5
    change ∀ dc2, Later ((dc.setVar (reprPB hd.pb) "pen".toList).1.setVar (toks (exprXf hd.xf)) "xform".toList).1 dc2 → _ at b6
    rw [toks_exprXf] at b1 b2 b3 b5 b6
    refine ⟨a1.trans b1, b2.trans a2, b3.trans a3, P, [.kw "xform".toList F], a4, ?_, ?_⟩
    · intro rest hr
      obtain ⟨r0, rest, rfl⟩ := List.exists_cons_of_ne_nil hr
      rw [← b5, ← a5]
      simp [toks, sepToks, opens, reprBool]
    · intro dc2 hl
      exact ⟨a6 _ (b1.trans hl), Or.inr ⟨F, rfl, b6 _ hl⟩⟩
  · rename_i hx
    refine ⟨a1, a2, a3, P, [], a4, ?_, ?_⟩
    · intro rest hr
      obtain ⟨r0, rest, rfl⟩ := List.exists_cons_of_ne_nil hr
      rw [← a5]
      simp [toks, sepToks, opens, reprBool]
    · intro dc2 hl
      exact ⟨a6 _ hl, Or.inl ⟨rfl, not_not.1 hx⟩⟩

/-- The value of the common arguments followed by keyword arguments. -/
theorem evalArgs_basic {env : Str → Option Val} {hd : DHdr} {P : Expr} {X rest : List Expr} {kws : List (Str × Val)} (hP : P.NoKw)
    (h1 : eval env P = some (.pb hd.pb))
    (h2 : (X = [] ∧ hd.xf = Mat3.one) ∨ ∃ F, X = [.kw "xform".toList F] ∧ eval env F = some (.xf hd.xf))
    (h3 : evalArgs env rest = some ([], kws)) :
    ∃ ks, evalArgs env ([.str hd.name, P, .kw "closed".toList (.name (if hd.closed then "True" else "False").toList)] ++ X ++ rest) =
      some ([.str hd.name, .pb hd.pb], ("closed".toList, .bool hd.closed) :: ks ++ kws) ∧
      ((ks = [] ∧ hd.xf = Mat3.one) ∨ ks = [("xform".toList, .xf hd.xf)]) := by
  rcases h2 with ⟨rfl, hx⟩ | ⟨F, rfl, hx⟩
  · refine ⟨[], ?_, Or.inl ⟨rfl, hx⟩⟩
    simp only [List.append_nil, List.cons_append, List.nil_append]
    exact evalArgs_ok (nk_str _) (eval_str _ _) (evalArgs_ok hP h1 (evalArgs_kw_ok (eval_bool _ _) h3))
  · refine ⟨[("xform".toList, .xf hd.xf)], ?_, Or.inr rfl⟩
    simp only [List.cons_append, List.nil_append]
    exact evalArgs_ok (nk_str _) (eval_str _ _) (evalArgs_ok hP h1 (evalArgs_kw_ok (eval_bool _ _) (evalArgs_kw_ok hx h3)))

theorem hdr_if {hd : DHdr} (hh : hd.Ok) {α : Type} (f : DHdr → Option α) :
    (Option.bind (if (hd.pb.filled && !hd.closed) = true then none else some ⟨hd.name, hd.pb, hd.closed, hd.xf⟩) f) = f hd := by
  rw [if_neg]
  · rfl
  · cases hf : hd.pb.filled with
    | false => simp
    | true => simp [hh.1 hf]

theorem plain_fixed {p : DPt} (h : p.Plain) : p.fixed = p := by
  cases p with
  | point x y n => simp only [DPt.Plain] at h; subst h; rfl
  | rel => exact absurd h (by simp [DPt.Plain])
  | pcalc => exact absurd h (by simp [DPt.Plain])

theorem plain_ok {p : DPt} (h : p.Plain) : p.Ok := by
  cases p with
  | point x y n => simp only [DPt.Plain] at h; subst h; simp [DPt.Ok]
  | rel => exact absurd h (by simp [DPt.Plain])
  | pcalc => exact absurd h (by simp [DPt.Plain])

theorem construct_curve {hd : DHdr} (hh : hd.Ok) {ks : List (Str × Val)} {v : Val} {cps : List DCp}
    (hk : (ks = [] ∧ hd.xf = Mat3.one) ∨ ks = [("xform".toList, .xf hd.xf)]) (hv : v.cps = some cps) :
    construct "ElemCurve".toList [.str hd.name, .pb hd.pb]
      (("closed".toList, .bool hd.closed) :: ks ++ [("control_points".toList, v)]) = some (.elem (.curve hd cps)) := by
  rcases hk with ⟨rfl, hx⟩ | rfl
  · have : construct "ElemCurve".toList [.str hd.name, .pb hd.pb]
        (("closed".toList, .bool hd.closed) :: [] ++ [("control_points".toList, v)]) =
        Option.bind (if (hd.pb.filled && !hd.closed) = true then none else some ⟨hd.name, hd.pb, hd.closed, Mat3.one⟩)
          fun h => v.cps.bind fun cps => some (.elem (.curve h cps)) := rfl
    rw [this, ← hx, hdr_if hh, hv]
    rfl
  · have : construct "ElemCurve".toList [.str hd.name, .pb hd.pb]
        (("closed".toList, .bool hd.closed) :: [("xform".toList, .xf hd.xf)] ++ [("control_points".toList, v)]) =
        Option.bind (if (hd.pb.filled && !hd.closed) = true then none else some ⟨hd.name, hd.pb, hd.closed, hd.xf⟩)
          fun h => v.cps.bind fun cps => some (.elem (.curve h cps)) := rfl
    rw [this, hdr_if hh, hv]
    rfl

theorem construct_rect {hd : DHdr} (hh : hd.Ok) {ks : List (Str × Val)} {p q : DPt} (hc : hd.closed = true)
    (hk : (ks = [] ∧ hd.xf = Mat3.one) ∨ ks = [("xform".toList, .xf hd.xf)]) :
    construct "ElemRectangle".toList [.str hd.name, .pb hd.pb]
      (("closed".toList, .bool hd.closed) :: ks ++ [("p1".toList, .pt p), ("p2".toList, .pt q)]) =
      some (.elem (.rect hd p.fixed q.fixed)) := by
  have aux : ∀ m, hd.xf = m → Option.bind (Option.bind (if (hd.pb.filled && !hd.closed) = true then none else
      some ⟨hd.name, hd.pb, hd.closed, m⟩) fun h => if h.closed then some (h, p.fixed, q.fixed) else none)
      (fun r => some (Val.elem (.rect r.1 r.2.1 r.2.2))) = some (.elem (.rect hd p.fixed q.fixed)) := by
    rintro m rfl
    rw [hdr_if hh, if_pos hc]
    rfl
  rcases hk with ⟨rfl, hx⟩ | rfl
  · exact aux _ hx
  · exact aux _ rfl

theorem construct_ellipse {hd : DHdr} (hh : hd.Ok) {ks : List (Str × Val)} {p q : DPt} (hc : hd.closed = true)
    (hk : (ks = [] ∧ hd.xf = Mat3.one) ∨ ks = [("xform".toList, .xf hd.xf)]) (hp : p.Plain) (hq : q.Plain) :
    construct "ElemEllipse".toList [.str hd.name, .pb hd.pb]
      (("closed".toList, .bool hd.closed) :: ks ++ [("p1".toList, .pt p), ("p2".toList, .pt q)]) =
      some (.elem (.ellipse hd p q)) := by
  have aux : ∀ m, hd.xf = m → Option.bind (Option.bind (if (hd.pb.filled && !hd.closed) = true then none else
      some ⟨hd.name, hd.pb, hd.closed, m⟩) fun h => if h.closed then some (h, p.fixed, q.fixed) else none)
      (fun r => some (Val.elem (.ellipse r.1 r.2.1 r.2.2))) = some (.elem (.ellipse hd p q)) := by
    rintro m rfl
    rw [hdr_if hh, plain_fixed hp, plain_fixed hq, if_pos hc]
    rfl
  rcases hk with ⟨rfl, hx⟩ | rfl
  · exact aux _ hx
  · exact aux _ rfl

theorem construct_rrect {hd : DHdr} (hh : hd.Ok) {ks : List (Str × Val)} {p q : DPt} {rad : ℝ} (hc : hd.closed = true)
    (hk : (ks = [] ∧ hd.xf = Mat3.one) ∨ ks = [("xform".toList, .xf hd.xf)]) (hp : p.Plain) (hq : q.Plain) :
    construct "ElemRectangleRounded".toList [.str hd.name, .pb hd.pb]
      (("closed".toList, .bool hd.closed) :: ks ++ [("p1".toList, .pt p), ("p2".toList, .pt q), ("radius".toList, .num rad)]) =
      some (.elem (.rrect hd p q rad)) := by
  have aux : ∀ m, hd.xf = m → Option.bind (Option.bind (if (hd.pb.filled && !hd.closed) = true then none else
      some ⟨hd.name, hd.pb, hd.closed, m⟩) fun h => if h.closed then some (h, p.fixed, q.fixed) else none)
      (fun r => some (Val.elem (.rrect r.1 r.2.1 r.2.2 rad))) = some (.elem (.rrect hd p q rad)) := by
    rintro m rfl
    rw [hdr_if hh, plain_fixed hp, plain_fixed hq, if_pos hc]
    rfl
  rcases hk with ⟨rfl, hx⟩ | rfl
  · exact aux _ hx
  · exact aux _ rfl

theorem construct_group {hd : DHdr} (hh : hd.Ok) {ks : List (Str × Val)} {vs : List Val} {d : List (Str × DElem)}
    (hk : (ks = [] ∧ hd.xf = Mat3.one) ∨ ks = [("xform".toList, .xf hd.xf)]) (hv : addAll vs [] = some d) :
    construct "Group".toList [.str hd.name, .pb hd.pb]
      (("closed".toList, .bool hd.closed) :: ks ++ [("elems".toList, .list vs)]) = some (.elem (.group hd false d [])) := by
  have aux : ∀ m, hd.xf = m → Option.bind (if (hd.pb.filled && !hd.closed) = true then none else
      some ⟨hd.name, hd.pb, hd.closed, m⟩) (fun h => (Val.list vs).elems.bind fun d => some (Val.elem (.group h false d []))) =
      some (.elem (.group hd false d [])) := by
    rintro m rfl
    rw [hdr_if hh, Val.elems, hv]
    rfl
  rcases hk with ⟨rfl, hx⟩ | rfl
  · exact aux _ hx
  · exact aux _ rfl

/-- The lines added between two states of a context, and what they denote in every later state. -/
def Wrote (dc dc1 : DC) (e : DElem) : Prop :=
  Later dc dc1 ∧ dc1.depth = dc.depth ∧ ∃ new, dc1.lines = dc.lines ++ new ∧ new ≠ [] ∧
    ∃ f args, new.flatMap Prod.snd = toks (.call f args) ∧
      ∀ dc2, Later dc1 dc2 → eval (envDC dc2) (.call f args) = some (.elem e)

/-- The same for a loop that writes elements followed by commas. -/
def WroteAll (dc dc1 : DC) (es : List DElem) : Prop :=
  Later dc dc1 ∧ dc1.depth = dc.depth ∧ ∃ new, dc1.lines = dc.lines ++ new ∧
    ∃ Es, new.flatMap Prod.snd = endToks Es ∧
      ∀ dc2, Later dc1 dc2 → evalArgs (envDC dc2) Es = some (es.map Val.elem, [])

/-- An element written by one line. -/
theorem wrote_line {dc : DC} (h : dc.Ok) (cls : String) {hd : DHdr} (hh : hd.Ok) {rest : List Expr} (hr : rest ≠ [])
    {args : List Tok} (ha : args = sepToks rest ++ [.rp]) {e : DElem} {kws : List (Str × Val)}
    (hk : ∀ env, evalArgs env rest = some ([], kws))
    (hc : ∀ ks, ((ks = [] ∧ hd.xf = Mat3.one) ∨ ks = [("xform".toList, .xf hd.xf)]) →
      construct cls.toList [.str hd.name, .pb hd.pb] (("closed".toList, .bool hd.closed) :: ks ++ kws) = some (.elem e)) :
    Wrote dc (dumpElem dc cls hd args) e := by
  obtain ⟨a1, a2, a3, P, X, a4, a5, a6⟩ := basic_ref h cls hh
  have hl : Later (basicToks dc cls hd).1 (dumpElem dc cls hd args) := by
    unfold dumpElem DC.append
    exact Later.of_eq a1.ok rfl rfl rfl
  refine ⟨a1.trans hl, ?_, [((basicToks dc cls hd).1.depth, (basicToks dc cls hd).2 ++ args)], ?_, by simp, cls.toList,
    [.str hd.name, P, .kw "closed".toList (.name (if hd.closed then "True" else "False").toList)] ++ X ++ rest, ?_, ?_⟩
  · show (basicToks dc cls hd).1.depth = dc.depth
    exact a3
  · show (basicToks dc cls hd).1.lines ++ _ = _
    rw [a2]
  · simp only [List.flatMap_cons, List.flatMap_nil, List.append_nil]
    rw [ha]
    exact a5 rest hr
  · intro dc2 hl2
    obtain ⟨b1, b2⟩ := a6 dc2 (hl.trans hl2)
    obtain ⟨ks, c1, c2⟩ := evalArgs_basic a4 b1 b2 (hk (envDC dc2))
    rw [eval_call c1]
    exact hc ks c2

/-- An element written by a first line, lines for the members of a list, and a last line. -/
theorem wrote_list {dc : DC} (h : dc.Ok) (cls key : String) {hd : DHdr} (hh : hd.Ok) {dcB : DC} {Es : List Expr} {vs : List Val}
    {new : List (ℕ × List Tok)} {e : DElem}
    (hl : Later (dumpElem dc cls hd [.id key.toList, .eq, .lb]) dcB)
    (hd1 : dcB.depth = dc.depth + 1)
    (hn : dcB.lines = (dumpElem dc cls hd [.id key.toList, .eq, .lb]).lines ++ new)
    (ht : new.flatMap Prod.snd = endToks Es)
    (he : ∀ dc2, Later dcB dc2 → evalArgs (envDC dc2) Es = some (vs, []))
    (hc : ∀ ks, ((ks = [] ∧ hd.xf = Mat3.one) ∨ ks = [("xform".toList, .xf hd.xf)]) →
      construct cls.toList [.str hd.name, .pb hd.pb] (("closed".toList, .bool hd.closed) :: ks ++ [(key.toList, .list vs)]) =
        some (.elem e)) :
    Wrote dc ({ dcB with depth := dcB.depth - 1 }.append [.rb, .rp]) e := by
  obtain ⟨a1, a2, a3, P, X, a4, a5, a6⟩ := basic_ref h cls hh
  have h1 : Later (basicToks dc cls hd).1 (dumpElem dc cls hd [.id key.toList, .eq, .lb]) := by
    unfold dumpElem DC.append
    exact Later.of_eq a1.ok rfl rfl rfl
  have h2 : Later dcB ({ dcB with depth := dcB.depth - 1 }.append [.rb, .rp]) := by
    unfold DC.append
    exact Later.of_eq hl.ok rfl rfl rfl
  refine ⟨a1.trans (h1.trans (hl.trans h2)), ?_,
    [((basicToks dc cls hd).1.depth, (basicToks dc cls hd).2 ++ [.id key.toList, .eq, .lb])] ++ new ++ [(dcB.depth - 1, [.rb, .rp])],
    ?_, by simp, cls.toList,
    [.str hd.name, P, .kw "closed".toList (.name (if hd.closed then "True" else "False").toList)] ++ X ++
      [.kw key.toList (.list Es)], ?_, ?_⟩
  · show dcB.depth - 1 = dc.depth
    omega
  · show dcB.lines ++ _ = _
    rw [hn]
    show ((basicToks dc cls hd).1.lines ++ _) ++ _ ++ _ = _
    rw [a2]
    simp
  · rw [← a5 _ (by simp)]
    simp only [List.flatMap_append, List.flatMap_cons, List.flatMap_nil, List.append_nil, ht, sepToks, toks]
    simp
  · intro dc2 hl2
    obtain ⟨b1, b2⟩ := a6 dc2 (h1.trans (hl.trans (h2.trans hl2)))
    have hlist : eval (envDC dc2) (.list Es) = some (.list vs) := by
      simp only [eval]
      rw [he dc2 (h2.trans hl2)]
    obtain ⟨ks, c1, c2⟩ := evalArgs_basic a4 b1 b2 (evalArgs_kw_ok (k := key.toList) hlist evalArgs_nil)
    rw [eval_call c1]
    exact hc ks c2

/-- The loop of `ElemCurve.dump`. -/
theorem dump_cps (cps : List DCp) (dc : DC) :
    let dc1 := cps.foldl (fun dc cp => dc.append (reprCp cp ++ [.comma])) dc
    dc1.vars = dc.vars ∧ dc1.prefixes = dc.prefixes ∧ dc1.useVars = dc.useVars ∧ dc1.depth = dc.depth ∧
      ∃ new, dc1.lines = dc.lines ++ new ∧ new.flatMap Prod.snd = endToks (cps.map exprCp) := by
  induction cps generalizing dc with
  | nil => exact ⟨rfl, rfl, rfl, rfl, [], by simp, by simp [endToks]⟩
  | cons c cps ih =>
    obtain ⟨h1, h2, h3, h4, new, h5, h6⟩ := ih (dc.append (reprCp c ++ [.comma]))
    simp only [List.foldl_cons]
    refine ⟨h1, h2, h3, h4, [(dc.depth, reprCp c ++ [.comma])] ++ new, ?_, ?_⟩
    · rw [h5]
      show dc.lines ++ _ ++ new = _
      simp
    · simp only [List.flatMap_append, List.flatMap_cons, List.flatMap_nil, List.append_nil, List.map_cons, endToks, h6,
        toks_exprCp]
      simp

theorem evalArgs_cps (env : Str → Option Val) (cps : List DCp) (h : ∀ c ∈ cps, c.Ok) :
    evalArgs env (cps.map exprCp) = some (cps.map Val.cp, []) := by
  induction cps with
  | nil => exact evalArgs_nil
  | cons c cps ih =>
    exact evalArgs_ok (noKw_call _ _) (eval_exprCp env c (h c (by simp))) (ih fun d hd => h d (by simp [hd]))

theorem mapM_cps (cps : List DCp) : (cps.map Val.cp).mapM Val.cp? = some cps := by
  induction cps with
  | nil => rfl
  | cons a l ih =>
    rw [List.map_cons, List.mapM_cons, ih]
    rfl

theorem addAll_ok (es : List (Str × DElem)) (d : List (Str × DElem)) (hn : ((d ++ es).map Prod.fst).Nodup)
    (ho : OkAll es) : addAll ((es.map Prod.snd).map Val.elem) d = some (d ++ es) := by
  induction es generalizing d with
  | nil => simp [addAll]
  | cons x es ih =>
    obtain ⟨k, e⟩ := x
    obtain ⟨⟨rfl, h2, h3⟩, h4⟩ := ho
    simp only [List.map_cons, addAll]
    rw [if_neg, ih]
    · simp
    · simpa using hn
    · exact h4
    · rintro (h | h)
      · exact h2 h
      · rw [List.map_append, List.nodup_append'] at hn
        exact hn.2.2 h (by simp)

theorem addComma_lines {dc : DC} {L new : List (ℕ × List Tok)} (h : dc.lines = L ++ new) (hn : new ≠ []) :
    ∃ new', dc.addComma.lines = L ++ new' ∧ new'.flatMap Prod.snd = new.flatMap Prod.snd ++ [.comma] := by
  obtain ⟨init, ⟨d, l⟩, rfl⟩ : ∃ init x, new = init ++ [x] := ⟨new.dropLast, new.getLast hn, (List.dropLast_append_getLast hn).symm⟩
  refine ⟨init ++ [(d, l ++ [.comma])], ?_, ?_⟩
  · unfold DC.addComma
    rw [h]
    simp only [List.getLast?_append, List.getLast?_singleton, Option.some_or]
    rw [← List.append_assoc, List.dropLast_concat]
    simp
  · simp

theorem addComma_rest (dc : DC) : dc.addComma.vars = dc.vars ∧ dc.addComma.prefixes = dc.prefixes ∧
    dc.addComma.useVars = dc.useVars ∧ dc.addComma.depth = dc.depth := by
  unfold DC.addComma
  split <;> simp

theorem wrote_rect {dc : DC} (h : dc.Ok) {hd : DHdr} (hh : hd.Ok) (hc : hd.closed = true) {p q : DPt} (hp : p.Ok) (hq : q.Ok) :
    Wrote dc (dumpS dc (.rect hd p q)) (.rect hd p.fixed q.fixed) := by
  simp only [dumpS]
  refine wrote_line h "ElemRectangle" hh (rest := [.kw "p1".toList (exprPt p), .kw "p2".toList (exprPt q)]) (by simp) ?_
    (kws := [("p1".toList, .pt p), ("p2".toList, .pt q)]) ?_ ?_
  · simp [sepToks, toks, kwPt, toks_exprPt]
  · intro env
    exact evalArgs_kw_ok (eval_exprPt env p hp) (evalArgs_kw_ok (eval_exprPt env q hq) evalArgs_nil)
  · intro ks hk
    exact construct_rect hh hc hk

mutual
theorem wrote_elem : (e : DElem) → ∀ dc : DC, dc.Ok → e.Ok → Wrote dc (dumpS dc e) e
  | .curve hd cps, dc, h, ho => by
    simp only [DElem.Ok] at ho
    have hb := (basic_ref h "ElemCurve" ho.1)
    obtain ⟨h1, h2, h3, h4, new, h5, h6⟩ := dump_cps cps
      { dumpElem dc "ElemCurve" hd [.id "control_points".toList, .eq, .lb] with
        depth := (dumpElem dc "ElemCurve" hd [.id "control_points".toList, .eq, .lb]).depth + 1 }
    have hok : (dumpElem dc "ElemCurve" hd [.id "control_points".toList, .eq, .lb]).Ok := hb.1.ok.congr rfl rfl
    simp only [dumpS]
    refine wrote_list h "ElemCurve" "control_points" ho.1 (Es := cps.map exprCp) (vs := cps.map Val.cp) (new := new)
      (Later.of_eq hok h1 h2 h3) ?_ h5 h6 (fun dc2 _ => evalArgs_cps _ _ ho.2) ?_
    · rw [h4]
      show (basicToks dc "ElemCurve" hd).1.depth + 1 = _
      rw [hb.2.2.1]
    · intro ks hk
      exact construct_curve ho.1 hk (mapM_cps cps)
  | .rect hd p q, dc, h, ho => by
    simp only [DElem.Ok] at ho
    have := wrote_rect h ho.1 ho.2.1 (plain_ok ho.2.2.1) (plain_ok ho.2.2.2)
    rwa [plain_fixed ho.2.2.1, plain_fixed ho.2.2.2] at this
  | .rrect hd p q rad, dc, h, ho => by
    simp only [DElem.Ok] at ho
    simp only [dumpS]
    refine wrote_line h "ElemRectangleRounded" ho.1
      (rest := [.kw "p1".toList (exprPt p), .kw "p2".toList (exprPt q), .kw "radius".toList (.num rad)]) (by simp) ?_
      (kws := [("p1".toList, .pt p), ("p2".toList, .pt q), ("radius".toList, .num rad)]) ?_ ?_
    · simp [sepToks, toks, kwPt, toks_exprPt]
    · intro env
      exact evalArgs_kw_ok (eval_exprPt env p (plain_ok ho.2.2.1))
        (evalArgs_kw_ok (eval_exprPt env q (plain_ok ho.2.2.2)) (evalArgs_kw_ok (eval_num _ _) evalArgs_nil))
    · intro ks hk
      exact construct_rrect ho.1 ho.2.1 hk ho.2.2.1 ho.2.2.2
  | .ellipse hd p q, dc, h, ho => by
    simp only [DElem.Ok] at ho
    simp only [dumpS]
    refine wrote_line h "ElemEllipse" ho.1 (rest := [.kw "p1".toList (exprPt p), .kw "p2".toList (exprPt q)]) (by simp) ?_
      (kws := [("p1".toList, .pt p), ("p2".toList, .pt q)]) ?_ ?_
    · simp [sepToks, toks, kwPt, toks_exprPt]
    · intro env
      exact evalArgs_kw_ok (eval_exprPt env p (plain_ok ho.2.2.1))
        (evalArgs_kw_ok (eval_exprPt env q (plain_ok ho.2.2.2)) evalArgs_nil)
    · intro ks hk
      exact construct_ellipse ho.1 ho.2.1 hk ho.2.2.1 ho.2.2.2
  | .group hd hidden elems points, dc, h, ho => by
    simp only [DElem.Ok] at ho
    obtain ⟨h0, rfl, rfl, hn, ho⟩ := ho
    have hb := basic_ref h "Group" h0
    have hok : (dumpElem dc "Group" hd [.id "elems".toList, .eq, .lb]).Ok := hb.1.ok.congr rfl rfl
    obtain ⟨h1, h2, new, h3, Es, h4, h5⟩ := wrote_all elems
      { dumpElem dc "Group" hd [.id "elems".toList, .eq, .lb] with
        depth := (dumpElem dc "Group" hd [.id "elems".toList, .eq, .lb]).depth + 1 } (hok.congr rfl rfl) ho
    simp only [dumpS]
    refine wrote_list h "Group" "elems" h0 (Es := Es) (vs := (elems.map Prod.snd).map Val.elem) (new := new)
      (Later.trans (b := { dumpElem dc "Group" hd [.id "elems".toList, .eq, .lb] with
        depth := (dumpElem dc "Group" hd [.id "elems".toList, .eq, .lb]).depth + 1 })
        (Later.of_eq hok rfl rfl rfl) h1) ?_ h3 h4 h5 ?_
    · rw [h2]
      show (basicToks dc "Group" hd).1.depth + 1 = _
      rw [hb.2.2.1]
    · intro ks hk
      have := addAll_ok elems [] (by simpa using hn) ho
      rw [List.nil_append] at this
      exact construct_group h0 hk this
  | .holes _ _ _, dc, h, ho => by simp [DElem.Ok] at ho
theorem wrote_all : (es : List (Str × DElem)) → ∀ dc : DC, dc.Ok → OkAll es → WroteAll dc (dumpAll dc es) (es.map Prod.snd)
  | [], dc, h, _ => by
    simp only [dumpAll]
    exact ⟨⟨h, rfl, fun w n hw => hw⟩, rfl, [], by simp, [], by simp [endToks], fun dc2 _ => evalArgs_nil⟩
  | (k, e) :: es, dc, h, ho => by
    simp only [OkAll] at ho
    obtain ⟨a1, a2, new, a3, a4, f, args, a5, a6⟩ := wrote_elem e dc h ho.1.2.2
    obtain ⟨new', b1, b2⟩ := addComma_lines a3 a4
    obtain ⟨c1, c2, c3, c4⟩ := addComma_rest (dumpS dc e)
    have hl : Later (dumpS dc e) (dumpS dc e).addComma := Later.of_eq a1.ok c1 c2 c3
    obtain ⟨d1, d2, new2, d3, Es, d4, d5⟩ := wrote_all es (dumpS dc e).addComma hl.ok ho.2
    simp only [dumpAll]
    refine ⟨a1.trans (hl.trans d1), d2.trans (c4.trans a2), new' ++ new2, ?_, .call f args :: Es, ?_, ?_⟩
    · rw [d3, b1, List.append_assoc]
    · rw [List.flatMap_append, b2, a5, d4]
      simp [endToks]
    · intro dc2 hl2
      exact evalArgs_ok (noKw_call _ _) (a6 dc2 (hl.trans (d1.trans hl2))) (d5 dc2 hl2)
end

/-! ### Sorting the dicts -/

theorem okAll_iff (d : List (Str × DElem)) : OkAll d ↔ ∀ x ∈ d, x.1 = x.2.hdr.name ∧ '.' ∉ x.1 ∧ x.2.Ok := by
  induction d with
  | nil => simp [OkAll]
  | cons x d ih => obtain ⟨k, e⟩ := x; simp [OkAll, ih]

theorem sortDicts_hdr (e : DElem) : (sortDicts e).hdr = e.hdr := by cases e <;> simp [sortDicts, DElem.hdr]

mutual
theorem sort_elem : (e : DElem) → e.Ok → (sortDicts e).Ok ∧ Same e (sortDicts e)
  | .curve _ _, h => by simp only [sortDicts]; exact ⟨h, .refl _⟩
  | .rect _ _ _, h => by simp only [sortDicts]; exact ⟨h, .refl _⟩
  | .rrect _ _ _ _, h => by simp only [sortDicts]; exact ⟨h, .refl _⟩
  | .ellipse _ _ _, h => by simp only [sortDicts]; exact ⟨h, .refl _⟩
  | .group hd hidden elems points, h => by
    simp only [DElem.Ok] at h
    obtain ⟨h0, rfl, rfl, hn, ho⟩ := h
    obtain ⟨a1, a2, a3⟩ := sort_all elems ho
    have hp := List.mergeSort_perm (sortAll elems) fun x y => decide (x.1 ≤ y.1)
    simp only [sortDicts]
    refine ⟨?_, .group hd false [] a2 hp.symm⟩
    simp only [DElem.Ok]
    refine ⟨h0, trivial, trivial, ?_, ?_⟩
    · rw [← a3] at hn
      exact (hp.map Prod.fst).nodup_iff.2 hn
    · rw [okAll_iff] at a1 ⊢
      exact fun x hx => a1 x (hp.mem_iff.1 hx)
  | .holes _ _ _, h => by simp [DElem.Ok] at h
theorem sort_all : (d : List (Str × DElem)) → OkAll d →
    OkAll (sortAll d) ∧ SameDict d (sortAll d) ∧ (sortAll d).map Prod.fst = d.map Prod.fst
  | [], h => by simp only [sortAll]; exact ⟨h, .nil, trivial⟩
  | (k, e) :: d, h => by
    simp only [OkAll] at h
    obtain ⟨a1, a2⟩ := sort_elem e h.1.2.2
    obtain ⟨b1, b2, b3⟩ := sort_all d h.2
    simp only [sortAll]
    refine ⟨?_, .cons a2 b2, by simp [b3]⟩
    simp only [OkAll]
    exact ⟨⟨by rw [sortDicts_hdr]; exact h.1.1, h.1.2.1, a1⟩, b1⟩
end

/-! ### Reading what `output` gives -/

theorem dget_perm {α β : Type} [DecidableEq α] {d d' : List (α × β)} (hn : (d.map Prod.fst).Nodup) (h : d.Perm d') (k : α) :
    dget d' k = dget d k := by
  have hn' : (d'.map Prod.fst).Nodup := (h.map Prod.fst).nodup_iff.1 hn
  cases hk : dget d k with
  | some v => exact dget_of_mem hn' (h.mem_iff.1 (dget_mem hk))
  | none =>
    rw [dget_none] at hk ⊢
    rwa [← (h.map Prod.fst).mem_iff]

theorem envOf_sorted {dc : DC} (h : dc.Ok) :
    envOf ((dc.vars.map fun x => (x.2, x.1)).mergeSort fun x y => decide (x.1 ≤ y.1)) = envDC dc := by
  funext s
  unfold envDC envOf
  rw [dget_perm _ (List.mergeSort_perm _ _).symm]
  rw [List.map_map]
  exact h.names

/-- The context after `n` calls of `output()`. -/
def outputs : ℕ → DC → DC
  | 0, dc => dc
  | n + 1, dc => outputs n dc.output.1

def asElem : Option Val → Option DElem
  | some (.elem e) => some e
  | _ => none

theorem output_call {dc : DC} (h : dc.Ok) (hl : dc.lines ≠ []) {E : Expr} (ht : dc.lines.flatMap Prod.snd = toks E) {o : Option Val}
    (he : eval (envDC dc) E = o) (n : ℕ) :
    ∃ vars lines, (outputs n dc).output.2 = .ok (vars, lines) ∧
      readElem vars lines = asElem o := by
  induction n generalizing dc E with
  | zero =>
    obtain ⟨⟨d, l⟩, rest, hr⟩ := List.exists_cons_of_ne_nil hl
    refine ⟨(dc.vars.map fun x => (x.2, x.1)).mergeSort fun x y => decide (x.1 ≤ y.1),
      (0, [.id "model".toList, .eq] ++ l) :: rest, ?_, ?_⟩
    · simp only [outputs, DC.output, hr]
    · unfold readElem
      have : ((0, [.id "model".toList, .eq] ++ l) :: rest).flatMap Prod.snd = toks (.kw "model".toList E) := by
        rw [hr] at ht
        simp only [List.flatMap_cons] at ht ⊢
        rw [List.append_assoc, ht]
        simp [toks]
      rw [this, parseAll_toks, envOf_sorted h]
      simp only [eval]
      rw [he]
      rcases o with _ | v
      · rfl
      · cases v <;> rfl
  | succ n ih =>
    obtain ⟨⟨d, l⟩, rest, hr⟩ := List.exists_cons_of_ne_nil hl
    have hd : dc.output.1 = { dc with lines := (0, [.id "model".toList, .eq] ++ l) :: rest } := by
      simp only [DC.output, hr]
    simp only [outputs]
    apply ih (dc := dc.output.1) (E := .kw "model".toList E)
    · rw [hd]; exact h.congr rfl rfl
    · rw [hd]; simp
    · rw [hd]
      rw [hr] at ht
      simp only [List.flatMap_cons] at ht ⊢
      rw [List.append_assoc, ht]
      simp [toks]
    · rw [hd]
      simp only [eval]
      exact he

theorem wrote_output {use : Bool} {dc1 : DC} {e : DElem} (h : Wrote (DC.new use) dc1 e) (n : ℕ) :
    ∃ vars lines, (outputs n dc1).output.2 = .ok (vars, lines) ∧ readElem vars lines = some e := by
  obtain ⟨h1, h2, new, h3, h4, f, args, h5, h6⟩ := h
  have hl : dc1.lines = new := by rw [h3]; rfl
  exact output_call h1.ok (by rw [hl]; exact h4) (by rw [hl]; exact h5) (h6 dc1 ⟨h1.ok, rfl, fun w n hw => hw⟩) n

/-- **C48.** An element dumped into a new context, with or without variables: every call of `output()`, the first or a later one,
gives a text that stands for an element equal to the one dumped. -/
theorem C48_roundtrip (e : DElem) (ho : e.Ok) (useVars : Bool) (n : ℕ) :
    ∃ vars lines e', (outputs n (dump (DC.new useVars) e)).output.2 = .ok (vars, lines) ∧
      readElem vars lines = some e' ∧ Same e e' := by
  obtain ⟨h1, h2⟩ := sort_elem e ho
  obtain ⟨vars, lines, h3, h4⟩ := wrote_output (wrote_elem (sortDicts e) (DC.new useVars) (DC.Ok.new useVars) h1) n
  exact ⟨vars, lines, _, h3, h4, h2⟩

/-- Without groups the element read back is identical. -/
theorem C48_roundtrip_exact (e : DElem) (ho : e.Ok) (hg : ∀ h b es ps, e ≠ .group h b es ps) (useVars : Bool) (n : ℕ) :
    ∃ vars lines, (outputs n (dump (DC.new useVars) e)).output.2 = .ok (vars, lines) ∧ readElem vars lines = some e := by
  obtain ⟨vars, lines, e', h1, h2, h3⟩ := C48_roundtrip e ho useVars n
  cases h3 with
  | refl => exact ⟨vars, lines, h1, h2⟩
  | group h b ps _ _ => exact absurd rfl (hg _ _ _ _)

/-- Dumping into a context in use, at any depth: lines are added behind those present, the depth is as before, no variable is
renamed. -/
theorem C48_dump_appends (e : DElem) (ho : e.Ok) (dc : DC) (h : dc.Ok) :
    (∃ new, new ≠ [] ∧ (dump dc e).lines = dc.lines ++ new) ∧ (dump dc e).depth = dc.depth ∧ (dump dc e).Ok ∧
      ∀ w n, dget dc.vars w = some n → dget (dump dc e).vars w = some n := by
  obtain ⟨h1, h2, new, h3, h4, -⟩ := wrote_elem (sortDicts e) dc h (sort_elem e ho).1
  exact ⟨⟨new, h4, h3⟩, h2, h1.ok, h1.keep⟩

/-- `output()` of a context nothing was dumped into raises. -/
theorem C48_output_empty (use : Bool) : (DC.new use).output.2 = .error .index := rfl

/-- The text for a group does not depend on its points and on whether it is hidden: both are lost. -/
theorem C48_group_forgets (h : DHdr) (hidden : Bool) (elems : List (Str × DElem)) (points : List (Str × DPt)) (dc : DC) :
    dump dc (.group h hidden elems points) = dump dc (.group h false elems []) := by
  simp only [dump, sortDicts, dumpS]

/-- A hidden group with a point is read back as a group that is neither. -/
theorem C48_group_counterexample : ∃ (e : DElem), ∀ (use : Bool), ∃ vars lines e',
    (dump (DC.new use) e).output.2 = .ok (vars, lines) ∧ readElem vars lines = some e' ∧ ¬ Same e e' := by
  refine ⟨.group ⟨"g".toList, ⟨none, none⟩, false, Mat3.one⟩ true [] [("p".toList, .point 1 2 none)], fun use => ?_⟩
  have ho : (DElem.group ⟨"g".toList, ⟨none, none⟩, false, Mat3.one⟩ false [] []).Ok := by
    simp [DElem.Ok, OkAll, DHdr.Ok, PenBrush.filled, Mat3.Affine, Mat3.one]
  obtain ⟨vars, lines, e', h1, h2, h3⟩ := C48_roundtrip _ ho use 0
  refine ⟨vars, lines, e', ?_, h2, ?_⟩
  · rw [C48_group_forgets]; exact h1
  · intro hs
    cases h3 with
    | refl => cases hs
    | group => cases hs

/-- Corners of rectangles lose their names: what is read back has `fixed_` put in front, so a rectangle with a named corner is not
equal to its dump. -/
theorem C48_corner_counterexample (hd : DHdr) (hh : hd.Ok) (hc : hd.closed = true) (x y : ℝ) (s : Str) (hs : s ≠ []) (q : DPt)
    (hq : q.Ok) (use : Bool) : ∃ vars lines e',
    (dump (DC.new use) (.rect hd (.point x y (some s)) q)).output.2 = .ok (vars, lines) ∧ readElem vars lines = some e' ∧
      ¬ Same (.rect hd (.point x y (some s)) q) e' := by
  obtain ⟨vars, lines, h3, h4⟩ := wrote_output (wrote_rect (DC.Ok.new use) hh hc (p := .point x y (some s)) (q := q)
    (by simpa [DPt.Ok] using hs) hq) 0
  refine ⟨vars, lines, _, ?_, h4, ?_⟩
  · simp only [dump, sortDicts]; exact h3
  · intro h
    generalize hr : DElem.rect hd (DPt.point x y (some s)).fixed q.fixed = r at h
    cases h with
    | refl =>
      injection hr with _ h1 _
      simp only [DPt.fixed, DPt.xy, DPt.name, if_pos hs] at h1
      injection h1 with _ _ h2
      injection h2 with h2
      have := congrArg List.length h2
      simp at this
      omega

/-! ### Shapes with holes -/

theorem evalArgs_none {env : Str → Option Val} {E : Expr} {k : Str} (hE : eval env E = none) (l r : List Expr) :
    evalArgs env (l ++ .kw k E :: r) = none := by
  induction l with
  | nil => rw [List.nil_append, evalArgs_kw, hE]
  | cons a l ih =>
    rw [List.cons_append]
    cases a <;> simp [evalArgs, ih]

theorem eval_call_none {env : Str → Option Val} {f : Str} {args : List Expr} (h : evalArgs env args = none) :
    eval env (.call f args) = none := by
  simp only [eval]; rw [h]

theorem wrote_in (is : List DElem) (dc : DC) (h : dc.Ok) (ho : ∀ e ∈ is, e.Ok) : WroteAll dc (dumpIn dc is) is := by
  induction is generalizing dc with
  | nil =>
    simp only [dumpIn]
    exact ⟨⟨h, rfl, fun w n hw => hw⟩, rfl, [], by simp, [], by simp [endToks], fun dc2 _ => evalArgs_nil⟩
  | cons e es ih =>
    obtain ⟨a1, a2, new, a3, a4, f, args, a5, a6⟩ := wrote_elem e dc h (ho e (by simp))
    obtain ⟨new', b1, b2⟩ := addComma_lines a3 a4
    obtain ⟨c1, c2, c3, c4⟩ := addComma_rest (dumpS dc e)
    have hl : Later (dumpS dc e) (dumpS dc e).addComma := Later.of_eq a1.ok c1 c2 c3
    obtain ⟨d1, d2, new2, d3, Es, d4, d5⟩ := ih (dumpS dc e).addComma hl.ok fun x hx => ho x (by simp [hx])
    simp only [dumpIn]
    refine ⟨a1.trans (hl.trans d1), d2.trans (c4.trans a2), new' ++ new2, ?_, .call f args :: Es, ?_, ?_⟩
    · rw [d3, b1, List.append_assoc]
    · rw [List.flatMap_append, b2, a5, d4]
      simp [endToks]
    · intro dc2 hl2
      exact evalArgs_ok (noKw_call _ _) (a6 dc2 (hl.trans (d1.trans hl2))) (d5 dc2 hl2)

/-- `repr` of a rectangle has no pen: calling `ElemRectangle(name, p1, p2)` is a `TypeError`. -/
theorem eval_repr_rect (env : Str → Option Val) (n : Str) (p q : DPt) (hp : p.Ok) (hq : q.Ok) :
    eval env (.call "ElemRectangle".toList [.str n, exprPt p, exprPt q]) = none := by
  rw [eval_call (evalArgs_ok (nk_str _) (eval_str _ _) (evalArgs_ok (noKw_exprPt p) (eval_exprPt _ _ hp)
    (evalArgs_ok (noKw_exprPt q) (eval_exprPt _ _ hq) evalArgs_nil)))]
  rfl

theorem sortIn_ok (is : List DElem) (ho : ∀ e ∈ is, e.Ok) : ∀ e ∈ sortIn is, e.Ok := by
  induction is with
  | nil => simp [sortIn]
  | cons a is ih =>
    simp only [sortIn, List.mem_cons, forall_eq_or_imp]
    exact ⟨(sort_elem a (ho a (by simp))).1, ih fun e he => ho e (by simp [he])⟩

/-- The dump of a rectangle with holes is text that raises when it is evaluated: the rectangle is written by `repr`, which leaves
out the pen. -/
theorem C48_holes_counterexample (hd : DHdr) (hh : hd.Ok) (ho : DHdr) (p q : DPt) (hp : p.Ok) (hq : q.Ok) (inside : List DElem)
    (hi : ∀ e ∈ inside, e.Ok) (use : Bool) : ∃ vars lines,
    (dump (DC.new use) (.holes hd (.rect ho p q) inside)).output.2 = .ok (vars, lines) ∧ readElem vars lines = none := by
  obtain ⟨a1, a2, a3, P, X, a4, a5, a6⟩ := basic_ref (DC.Ok.new use) "ElemWithHoles" hh
  let R : Expr := .call "ElemRectangle".toList [.str ho.name, exprPt p, exprPt q]
  let dc0 := dumpElem (DC.new use) "ElemWithHoles" hd
    ([.id "outside".toList, .eq] ++ reprElem (.rect ho p q) ++ [.comma, .id "inside".toList, .eq, .lb])
  have hok : dc0.Ok := a1.ok.congr rfl rfl
  obtain ⟨h1, h2, new, h3, Es, h4, h5⟩ := wrote_in (sortIn inside) { dc0 with depth := dc0.depth + 1 } (hok.congr rfl rfl)
    (sortIn_ok inside hi)
  have hd0 : dump (DC.new use) (.holes hd (.rect ho p q) inside) =
      { dumpIn { dc0 with depth := dc0.depth + 1 } (sortIn inside) with
        depth := (dumpIn { dc0 with depth := dc0.depth + 1 } (sortIn inside)).depth - 1 }.append [.rb, .rp] := by
    simp only [dump, sortDicts, dumpS, dc0]
  have hl : (dump (DC.new use) (.holes hd (.rect ho p q) inside)).lines =
      [((basicToks (DC.new use) "ElemWithHoles" hd).1.depth, (basicToks (DC.new use) "ElemWithHoles" hd).2 ++
        ([.id "outside".toList, .eq] ++ reprElem (.rect ho p q) ++ [.comma, .id "inside".toList, .eq, .lb]))] ++ new ++
      [((dumpIn { dc0 with depth := dc0.depth + 1 } (sortIn inside)).depth - 1, [.rb, .rp])] := by
    rw [hd0]
    show (dumpIn { dc0 with depth := dc0.depth + 1 } (sortIn inside)).lines ++ _ = _
    rw [h3]
    show (basicToks (DC.new use) "ElemWithHoles" hd).1.lines ++ _ ++ _ ++ _ = _
    rw [a2]
    rfl
  have := output_call (dc := dump (DC.new use) (.holes hd (.rect ho p q) inside))
    (E := .call "ElemWithHoles".toList ([.str hd.name, P, .kw "closed".toList (.name (if hd.closed then "True" else "False").toList)]
      ++ X ++ [.kw "outside".toList R, .kw "inside".toList (.list Es)])) (o := none) ?_ ?_ ?_ ?_ 0
  · exact this
  · rw [hd0]; exact h1.ok.congr rfl rfl
  · rw [hl]; simp
  · rw [hl, ← a5 _ (by simp)]
    simp only [List.flatMap_append, List.flatMap_cons, List.flatMap_nil, List.append_nil, h4]
    simp [sepToks, toks, R, reprElem, opens, toks_exprPt]
  · apply eval_call_none
    exact evalArgs_none (eval_repr_rect _ _ _ _ hp hq) _ _

/-- A drawing that meets the hypothesis: a group with a filled curve under a transform, with relative points, and a subgroup with
a rounded rectangle. -/
example : (DElem.group ⟨"g".toList, ⟨none, none⟩, false, Mat3.one⟩ false
    [("z".toList, .curve ⟨"z".toList, ⟨some ⟨⟨.name "red"⟩, 2⟩, some ⟨.tup [1, 2, 3]⟩⟩, true, ⟨2, 0, 5, 0, 2, 0, 0, 0, 1⟩⟩
      [⟨.rel 1 2 (.point 3 4 (some "base".toList)) none, .vec 1 0, .vec (-1) 0, "smooth".toList⟩]),
     ("sub".toList, .group ⟨"sub".toList, ⟨none, none⟩, false, Mat3.one⟩ false
      [("r".toList, .rrect ⟨"r".toList, ⟨none, some ⟨.num 7⟩⟩, true, Mat3.one⟩ (.point 0 0 none) (.point 4 3 none) 1)] [])] []).Ok := by
  simp [DElem.Ok, OkAll, DHdr.Ok, PenBrush.filled, Mat3.Affine, Mat3.one, DElem.hdr, DCp.Ok, DPt.Ok, DVec.Ok, DPt.Plain]

end X7.Dump
