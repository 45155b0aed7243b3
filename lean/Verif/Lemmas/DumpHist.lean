import Verif.Props.Dump
import Verif.Spec.DumpHist

/-!
Lemmas for C116: the shape of dumped lines, and running the file.
-/

noncomputable section

namespace X7.DH

open X7.Dump

/-! ### Brackets -/

theorem net_append (a b : List Tok) : net (a ++ b) = net a + net b := by simp [net]

theorem net_nil : net [] = 0 := rfl

theorem net_cons (t : Tok) (l : List Tok) : net (t :: l) = net [t] + net l := by simp [net]

theorem net_id (s : Str) : net [.id s] = 0 := rfl
theorem net_str (s : Str) : net [.str s] = 0 := rfl
theorem net_num (s : ℝ) : net [.num s] = 0 := rfl
theorem net_int (s : ℤ) : net [.int s] = 0 := rfl
theorem net_comma : net [.comma] = 0 := rfl
theorem net_eq : net [.eq] = 0 := rfl
theorem net_colon : net [.colon] = 0 := rfl
theorem net_lp : net [.lp] = 1 := rfl
theorem net_lb : net [.lb] = 1 := rfl
theorem net_lc : net [.lc] = 1 := rfl
theorem net_rp : net [.rp] = -1 := rfl
theorem net_rb : net [.rb] = -1 := rfl
theorem net_rc : net [.rc] = -1 := rfl

mutual
theorem net_toks : (e : Expr) → net (toks e) = 0
  | .name s => rfl
  | .str s => rfl
  | .num x => rfl
  | .int n => rfl
  | .call f args => by
    have := net_sep args
    rw [toks, net_cons, net_cons .lp, net_append, this, net_id, net_lp, net_rp]; rfl
  | .list l => by
    have := net_end l
    rw [toks, net_cons, net_append, this, net_lb, net_rb]; rfl
  | .tuple l => by
    have := net_tup l
    rw [toks, net_cons, net_append, this, net_lp, net_rp]; rfl
  | .kw k e => by
    have := net_toks e
    rw [toks, net_cons, net_cons .eq, this, net_id, net_eq]; rfl
  | .dict l => by
    have := net_sep l
    rw [toks, net_cons, net_append, this, net_lc, net_rc]; rfl
  | .item k e => by
    have := net_toks e
    rw [toks, net_cons, net_cons .colon, this, net_str, net_colon]; rfl
theorem net_sep : (l : List Expr) → net (sepToks l) = 0
  | [] => rfl
  | [e] => by rw [sepToks]; exact net_toks e
  | e :: f :: rest => by
    have h1 := net_toks e
    have h2 := net_sep (f :: rest)
    rw [sepToks, net_append, net_cons, h1, h2, net_comma]; · rfl
    · simp
theorem net_end : (l : List Expr) → net (endToks l) = 0
  | [] => rfl
  | e :: rest => by
    have h1 := net_toks e
    have h2 := net_end rest
    rw [endToks, net_append, net_cons, h1, h2, net_comma]; rfl
theorem net_tup : (l : List Expr) → net (tupToks l) = 0
  | [] => rfl
  | [e] => by rw [tupToks, net_append, net_toks e]; rfl
  | e :: f :: rest => by
    have h1 := net_toks e
    have h2 := net_sep (f :: rest)
    rw [tupToks, net_append, net_cons, h1, h2, net_comma]; · rfl
    · simp
end

theorem net_pt (p : DPt) : net (reprPt p) = 0 := by rw [← toks_exprPt]; exact net_toks _
theorem net_cp (p : DCp) : net (reprCp p) = 0 := by rw [← toks_exprCp]; exact net_toks _
theorem net_pb (p : PenBrush) : net (reprPB p) = 0 := by rw [← toks_exprPB]; exact net_toks _
theorem net_xf (p : Mat3 ℝ) : net (reprXf p) = 0 := by rw [← toks_exprXf]; exact net_toks _
theorem net_bool (b : Bool) : net (reprBool b) = 0 := rfl

theorem net_setVar (dc : DC) (v : List Tok) (hv : net v = 0) (p : Str) : net (dc.setVar v p).2 = 0 := by
  unfold DC.setVar
  split
  · split <;> rfl
  · exact hv

theorem net_basic (dc : DC) (cls : String) (h : DHdr) : net (basicToks dc cls h).2 = 1 := by
  have h1 := net_setVar dc _ (net_pb h.pb) "pen".toList
  have h0 : net (opens cls) = 1 := rfl
  unfold basicToks
  simp only
  split
  · have h2 := net_setVar (dc.setVar (reprPB h.pb) "pen".toList).1 _ (net_xf h.xf) "xform".toList
    simp only [net_append, h0, h1, h2, net_bool]
    rfl
  · simp only [net_append, h0, h1, net_bool]
    rfl

/-! ### The lines of an element are one statement -/

/-- The tokens of lines. -/
abbrev flat (b : List (ℕ × List Tok)) : List Tok := b.flatMap Prod.snd

theorem flat_append (a b : List (ℕ × List Tok)) : flat (a ++ b) = flat a ++ flat b := by simp [flat]

/-- One statement over several lines, with indentation `d`. -/
structure Stmt (d : ℕ) (b : List (ℕ × List Tok)) : Prop where
  head : ∃ l r, b = (d, l) :: r
  total : net (flat b) = 0
  pre : ∀ p s, b = p ++ s → p ≠ [] → s ≠ [] → 0 < net (flat p)

/-- Lines within brackets. -/
structure Body (b : List (ℕ × List Tok)) : Prop where
  total : net (flat b) = 0
  pre : ∀ p s, b = p ++ s → 0 ≤ net (flat p)

theorem Body.nil : Body [] := ⟨rfl, fun p s h => by
  have : p = [] := by simp_all
  rw [this]; exact le_refl _⟩

theorem Stmt.body {d : ℕ} {b : List (ℕ × List Tok)} (h : Stmt d b) : Body b := by
  refine ⟨h.total, fun p s e => ?_⟩
  by_cases hp : p = []
  · subst hp; exact le_refl _
  by_cases hs : s = []
  · subst hs; rw [List.append_nil] at e; rw [← e, h.total]
  · exact (h.pre p s e hp hs).le

theorem Body.append {a b : List (ℕ × List Tok)} (ha : Body a) (hb : Body b) : Body (a ++ b) := by
  refine ⟨by rw [flat_append, net_append, ha.total, hb.total]; rfl, fun p s e => ?_⟩
  rw [List.append_eq_append_iff] at e
  rcases e with ⟨q, rfl, h2⟩ | ⟨q, h1, h2⟩
  · rw [flat_append, net_append, ha.total, zero_add]
    exact hb.pre _ _ h2
  · exact ha.pre _ _ h1

/-- A prefix of `b ++ [x]` which leaves something out is a prefix of `b`. -/
theorem prefix_concat {α : Type} {b p s : List α} {x : α} (h : b ++ [x] = p ++ s) (hs : s ≠ []) : ∃ t, b = p ++ t := by
  rw [List.append_eq_append_iff] at h
  rcases h with ⟨q, h1, h2⟩ | ⟨q, h1, h2⟩
  · rcases List.append_eq_singleton_iff.1 h2.symm with ⟨rfl, -⟩ | ⟨-, rfl⟩
    · exact ⟨[], by simpa using h1.symm⟩
    · exact absurd rfl hs
  · exact ⟨q, h1⟩

theorem Body.single (d : ℕ) (l : List Tok) (h : net l = 0) : Body [(d, l)] := by
  refine ⟨by simpa [flat] using h, fun p s e => ?_⟩
  rcases List.append_eq_singleton_iff.1 e.symm with ⟨rfl, -⟩ | ⟨rfl, -⟩
  · exact le_refl _
  · simp [flat, h]

theorem Stmt.single (d : ℕ) (l : List Tok) (h : net l = 0) : Stmt d [(d, l)] := by
  refine ⟨⟨l, [], rfl⟩, by simpa [flat] using h, fun p s e hp hs => ?_⟩
  rcases List.append_eq_singleton_iff.1 e.symm with ⟨rfl, -⟩ | ⟨-, rfl⟩
  · exact absurd rfl hp
  · exact absurd rfl hs

/-- A first line with two open brackets, lines within them, the closing line. -/
theorem Stmt.wrap {d d' : ℕ} {l : List Tok} {b : List (ℕ × List Tok)} (hl : net l = 2) (hb : Body b) :
    Stmt d ((d, l) :: b ++ [(d', [.rb, .rp])]) := by
  refine ⟨⟨l, b ++ [(d', [.rb, .rp])], rfl⟩, ?_, fun p s e hp hs => ?_⟩
  · have h1 : flat ((d, l) :: b ++ [(d', [.rb, .rp])]) = l ++ flat b ++ [.rb, .rp] := by simp [flat]
    rw [h1, net_append, net_append, hl, hb.total]; rfl
  · obtain ⟨x, p, rfl⟩ := List.exists_cons_of_ne_nil hp
    rw [List.cons_append, List.cons_append, List.cons.injEq] at e
    obtain ⟨rfl, e⟩ := e
    obtain ⟨t, ht⟩ := prefix_concat e hs
    have := hb.pre _ _ ht
    have h1 : flat ((d, l) :: p) = l ++ flat p := by simp [flat]
    rw [h1, net_append, hl]
    omega

theorem Stmt.comma {dc : DC} {L b : List (ℕ × List Tok)} {d : ℕ} (h : dc.lines = L ++ b) (hb : Stmt d b) :
    ∃ b', dc.addComma.lines = L ++ b' ∧ Body b' := by
  have hne : b ≠ [] := by obtain ⟨l, r, rfl⟩ := hb.head; simp
  obtain ⟨init, ⟨d', l⟩, rfl⟩ : ∃ init x, b = init ++ [x] := ⟨b.dropLast, b.getLast hne, (List.dropLast_append_getLast hne).symm⟩
  refine ⟨init ++ [(d', l ++ [.comma])], ?_, ?_, ?_⟩
  · unfold DC.addComma
    rw [h]
    simp only [List.getLast?_append, List.getLast?_singleton, Option.some_or]
    rw [← List.append_assoc, List.dropLast_concat]
    simp
  · have := hb.total
    simp only [flat, List.flatMap_append, List.flatMap_cons, List.flatMap_nil, List.append_nil, net_append] at this ⊢
    rw [net_comma]
    omega
  · intro p s e
    by_cases hs : s = []
    · subst hs
      rw [List.append_nil] at e
      rw [← e]
      have := hb.total
      simp only [flat, List.flatMap_append, List.flatMap_cons, List.flatMap_nil, List.append_nil, net_append] at this ⊢
      rw [net_comma]
      omega
    · obtain ⟨t, ht⟩ := prefix_concat e hs
      exact hb.body.pre p (t ++ [(d', l)]) (by rw [ht]; simp)

theorem basic_lines (dc : DC) (cls : String) (h : DHdr) :
    (basicToks dc cls h).1.lines = dc.lines ∧ (basicToks dc cls h).1.depth = dc.depth := by
  have key : ∀ (dc : DC) v p, (dc.setVar v p).1.lines = dc.lines ∧ (dc.setVar v p).1.depth = dc.depth := by
    intro dc v p
    unfold DC.setVar
    split
    · split <;> exact ⟨rfl, rfl⟩
    · exact ⟨rfl, rfl⟩
  unfold basicToks
  simp only
  split
  · exact ⟨(key _ _ _).1.trans (key _ _ _).1, (key _ _ _).2.trans (key _ _ _).2⟩
  · exact key _ _ _

theorem dumpElem_lines (dc : DC) (cls : String) (h : DHdr) (args : List Tok) :
    (dumpElem dc cls h args).lines = dc.lines ++ [(dc.depth, (basicToks dc cls h).2 ++ args)] ∧
      (dumpElem dc cls h args).depth = dc.depth := by
  obtain ⟨h1, h2⟩ := basic_lines dc cls h
  refine ⟨?_, h2⟩
  show (basicToks dc cls h).1.lines ++ [((basicToks dc cls h).1.depth, _)] = _
  rw [h1, h2]

theorem cps_lines (cps : List DCp) (dc : DC) :
    ∃ b, (cps.foldl (fun dc cp => dc.append (reprCp cp ++ [.comma])) dc).lines = dc.lines ++ b ∧ Body b ∧
      (cps.foldl (fun dc cp => dc.append (reprCp cp ++ [.comma])) dc).depth = dc.depth := by
  induction cps generalizing dc with
  | nil => exact ⟨[], (List.append_nil _).symm, Body.nil, rfl⟩
  | cons c cps ih =>
    obtain ⟨b, h1, h2, h3⟩ := ih (dc.append (reprCp c ++ [.comma]))
    refine ⟨[(dc.depth, reprCp c ++ [.comma])] ++ b, ?_, Body.append (Body.single _ _ ?_) h2, h3⟩
    · rw [List.foldl_cons, h1]
      show dc.lines ++ _ ++ b = _
      rw [List.append_assoc]
    · rw [net_append, net_cp]; rfl

theorem net_kwPt (k : String) (p : DPt) : net (kwPt k p) = 0 := by
  unfold kwPt
  rw [net_append, net_pt]
  rfl

theorem wrap_lines {dc dcB : DC} {cls : String} {h : DHdr} {args : List Tok} (ha : net args = 1) {b : List (ℕ × List Tok)}
    (h1 : dcB.lines = (dumpElem dc cls h args).lines ++ b) (h2 : Body b) (h3 : dcB.depth = dc.depth + 1) :
    ({ dcB with depth := dcB.depth - 1 }.append [.rb, .rp]).depth = dc.depth ∧
      ∃ b, ({ dcB with depth := dcB.depth - 1 }.append [.rb, .rp]).lines = dc.lines ++ b ∧ Stmt dc.depth b := by
  refine ⟨by show dcB.depth - 1 = _; omega,
    (dc.depth, (basicToks dc cls h).2 ++ args) :: b ++ [(dcB.depth - 1, [.rb, .rp])], ?_, Stmt.wrap ?_ h2⟩
  · show dcB.lines ++ _ = _
    rw [h1, (dumpElem_lines dc cls h args).1]
    simp
  · rw [net_append, net_basic, ha]; rfl

mutual
theorem dumpS_stmt : (e : DElem) → e.Ok → ∀ dc : DC,
    (dumpS dc e).depth = dc.depth ∧ ∃ b, (dumpS dc e).lines = dc.lines ++ b ∧ Stmt dc.depth b
  | .curve hd cps, _, dc => by
    simp only [dumpS]
    obtain ⟨b, h1, h2, h3⟩ := cps_lines cps { dumpElem dc "ElemCurve" hd [.id "control_points".toList, .eq, .lb] with
      depth := (dumpElem dc "ElemCurve" hd [.id "control_points".toList, .eq, .lb]).depth + 1 }
    exact wrap_lines rfl h1 h2 (by rw [h3]; show (dumpElem dc _ _ _).depth + 1 = _; rw [(dumpElem_lines dc _ _ _).2])
  | .rect hd p q, _, dc => by
    simp only [dumpS]
    obtain ⟨h1, h2⟩ := dumpElem_lines dc "ElemRectangle" hd (kwPt "p1" p ++ [.comma] ++ kwPt "p2" q ++ [.rp])
    refine ⟨h2, _, h1, Stmt.single _ _ ?_⟩
    simp only [net_append, net_basic, net_kwPt]; rfl
  | .rrect hd p q r, _, dc => by
    simp only [dumpS]
    obtain ⟨h1, h2⟩ := dumpElem_lines dc "ElemRectangleRounded" hd
      (kwPt "p1" p ++ [.comma] ++ kwPt "p2" q ++ [.comma, .id "radius".toList, .eq, .num r, .rp])
    refine ⟨h2, _, h1, Stmt.single _ _ ?_⟩
    simp only [net_append, net_basic, net_kwPt]; rfl
  | .ellipse hd p q, _, dc => by
    simp only [dumpS]
    obtain ⟨h1, h2⟩ := dumpElem_lines dc "ElemEllipse" hd (kwPt "p1" p ++ [.comma] ++ kwPt "p2" q ++ [.rp])
    refine ⟨h2, _, h1, Stmt.single _ _ ?_⟩
    simp only [net_append, net_basic, net_kwPt]; rfl
  | .group hd hidden elems points, ho, dc => by
    simp only [DElem.Ok] at ho
    simp only [dumpS]
    obtain ⟨h3, b, h1, h2⟩ := dumpAll_body elems ho.2.2.2.2 { dumpElem dc "Group" hd [.id "elems".toList, .eq, .lb] with
      depth := (dumpElem dc "Group" hd [.id "elems".toList, .eq, .lb]).depth + 1 }
    exact wrap_lines rfl h1 h2 (by rw [h3]; show (dumpElem dc _ _ _).depth + 1 = _; rw [(dumpElem_lines dc _ _ _).2])
  | .holes _ _ _, ho, _ => by simp [DElem.Ok] at ho
theorem dumpAll_body : (es : List (Str × DElem)) → OkAll es → ∀ dc : DC,
    (dumpAll dc es).depth = dc.depth ∧ ∃ b, (dumpAll dc es).lines = dc.lines ++ b ∧ Body b
  | [], _, dc => ⟨rfl, [], (List.append_nil _).symm, Body.nil⟩
  | (k, e) :: es, ho, dc => by
    simp only [OkAll] at ho
    obtain ⟨h1, b, h2, h3⟩ := dumpS_stmt e ho.1.2.2 dc
    obtain ⟨b1, h4, h5⟩ := Stmt.comma h2 h3
    obtain ⟨g1, b2, g2, g3⟩ := dumpAll_body es ho.2 (dumpS dc e).addComma
    simp only [dumpAll]
    refine ⟨g1.trans ((addComma_rest _).2.2.2.trans h1), b1 ++ b2, ?_, h5.append g3⟩
    rw [g2, h4, List.append_assoc]
end

/-! ### The variables -/

/-- Every variable stands for a value, whatever the other variables, and for no element. -/
def VarsGood (dc : DC) : Prop :=
  ∀ x ∈ dc.vars, ∃ E v, x.1 = toks E ∧ E.NoKw ∧ (∀ env, eval env E = some v) ∧ ∀ e, v ≠ Val.elem e

theorem VarsGood.of_eq {dc dc' : DC} (h : VarsGood dc) (hv : dc'.vars = dc.vars) : VarsGood dc' := by
  unfold VarsGood; rw [hv]; exact h

theorem VarsGood.setVar {dc : DC} (h : VarsGood dc) {E : Expr} {v : Dump.Val} (hk : E.NoKw) (hE : ∀ env, eval env E = some v)
    (hv : ∀ e, v ≠ Val.elem e) (p : Str) : VarsGood (dc.setVar (toks E) p).1 := by
  unfold DC.setVar
  split
  · split
    · exact h
    · rename_i hd
      intro x hx
      simp only [dset_new hd, List.mem_append, List.mem_singleton] at hx
      rcases hx with hx | rfl
      · exact h x hx
      · exact ⟨E, v, rfl, hk, hE, hv⟩
  · exact h

theorem VarsGood.basic {dc : DC} (h : VarsGood dc) (cls : String) {hd : DHdr} (hh : hd.Ok) : VarsGood (basicToks dc cls hd).1 := by
  have h1 := h.setVar (noKw_call _ _) (fun env => eval_exprPB env hd.pb) (by simp) "pen".toList
  change VarsGood (dc.setVar (toks (exprPB hd.pb)) _).1 at h1
  rw [toks_exprPB] at h1
  unfold basicToks
  simp only
  split
  · have h2 := h1.setVar (noKw_call _ _) (fun env => eval_exprXf env hd.xf hh.2) (by simp) "xform".toList
    change VarsGood (((dc.setVar (reprPB hd.pb) "pen".toList).1).setVar (toks (exprXf hd.xf)) _).1 at h2
    rw [toks_exprXf] at h2
    exact h2
  · exact h1

theorem VarsGood.elem {dc : DC} (h : VarsGood dc) (cls : String) {hd : DHdr} (hh : hd.Ok) (args : List Tok) :
    VarsGood (dumpElem dc cls hd args) := (h.basic cls hh).of_eq rfl

mutual
theorem dumpS_vars : (e : DElem) → e.Ok → ∀ dc : DC, VarsGood dc → VarsGood (dumpS dc e)
  | .curve hd cps, ho, dc, h => by
    simp only [DElem.Ok] at ho
    simp only [dumpS]
    exact (h.elem "ElemCurve" ho.1 [.id "control_points".toList, .eq, .lb]).of_eq (dump_cps cps
      { dumpElem dc "ElemCurve" hd [.id "control_points".toList, .eq, .lb] with
        depth := (dumpElem dc "ElemCurve" hd [.id "control_points".toList, .eq, .lb]).depth + 1 }).1
  | .rect hd p q, ho, dc, h => by
    simp only [DElem.Ok] at ho; simp only [dumpS]; exact h.elem _ ho.1 _
  | .rrect hd p q r, ho, dc, h => by
    simp only [DElem.Ok] at ho; simp only [dumpS]; exact h.elem _ ho.1 _
  | .ellipse hd p q, ho, dc, h => by
    simp only [DElem.Ok] at ho; simp only [dumpS]; exact h.elem _ ho.1 _
  | .group hd hidden elems points, ho, dc, h => by
    simp only [DElem.Ok] at ho
    simp only [dumpS]
    have h1 := h.elem "Group" ho.1 [.id "elems".toList, .eq, .lb]
    generalize dumpElem dc "Group" hd [.id "elems".toList, .eq, .lb] = dc1 at *
    exact (dumpAll_vars elems ho.2.2.2.2 { dc1 with depth := dc1.depth + 1 } (h1.of_eq rfl)).of_eq rfl
  | .holes _ _ _, ho, _, _ => by simp [DElem.Ok] at ho
theorem dumpAll_vars : (es : List (Str × DElem)) → OkAll es → ∀ dc : DC, VarsGood dc → VarsGood (dumpAll dc es)
  | [], _, _, h => h
  | (k, e) :: es, ho, dc, h => by
    simp only [OkAll] at ho
    simp only [dumpAll]
    exact dumpAll_vars es ho.2 _ ((dumpS_vars e ho.1.2.2 dc h).of_eq (addComma_rest _).1)
end

/-! ### More variables change no value -/

mutual
theorem eval_mono {env env' : Str → Option Dump.Val} (h : ∀ s v, env s = some v → env' s = some v) :
    (e : Expr) → ∀ v, eval env e = some v → eval env' e = some v
  | .name s, v, he => by
    simp only [eval] at he ⊢
    split
    · rw [if_pos (by assumption)] at he; exact he
    · rw [if_neg (by assumption)] at he
      split
      · rw [if_pos (by assumption)] at he; exact he
      · rw [if_neg (by assumption)] at he
        split
        · rw [if_pos (by assumption)] at he; exact he
        · rw [if_neg (by assumption)] at he; exact h _ _ he
  | .str s, v, he => by simp only [eval] at he ⊢; exact he
  | .num s, v, he => by simp only [eval] at he ⊢; exact he
  | .int s, v, he => by simp only [eval] at he ⊢; exact he
  | .list l, v, he => by
    simp only [eval] at he ⊢
    cases ha : evalArgs env l with
    | none => rw [ha] at he; simp at he
    | some x => rw [evalArgs_mono h l x ha]; rw [ha] at he; exact he
  | .tuple l, v, he => by
    simp only [eval] at he ⊢
    cases ha : evalArgs env l with
    | none => rw [ha] at he; simp at he
    | some x => rw [evalArgs_mono h l x ha]; rw [ha] at he; exact he
  | .call f l, v, he => by
    simp only [eval] at he ⊢
    cases ha : evalArgs env l with
    | none => rw [ha] at he; simp at he
    | some x => rw [evalArgs_mono h l x ha]; rw [ha] at he; exact he
  | .kw k e, v, he => by
    simp only [eval] at he ⊢
    exact eval_mono h e v he
  | .dict l, v, he => by
    simp only [eval] at he ⊢
    cases ha : evalItems env l with
    | none => rw [ha] at he; simp at he
    | some x => rw [evalItems_mono h l x ha]; rw [ha] at he; exact he
  | .item k e, v, he => by simp only [eval] at he; exact absurd he (by simp)
theorem evalArgs_mono {env env' : Str → Option Dump.Val} (h : ∀ s v, env s = some v → env' s = some v) :
    (l : List Expr) → ∀ x, evalArgs env l = some x → evalArgs env' l = some x
  | [], x, he => by simp only [evalArgs] at he ⊢; exact he
  | e :: rest, x, he => by
    by_cases hk : e.NoKw
    · rw [evalArgs_cons hk] at he ⊢
      cases h1 : eval env e with
      | none => rw [h1] at he; simp at he
      | some v =>
        cases h2 : evalArgs env rest with
        | none => rw [h1, h2] at he; simp at he
        | some y => rw [eval_mono h e v h1, evalArgs_mono h rest y h2]; rw [h1, h2] at he; exact he
    · cases e with
      | kw k e =>
        rw [evalArgs_kw] at he ⊢
        cases h1 : eval env e with
        | none => rw [h1] at he; simp at he
        | some v =>
          cases h2 : evalArgs env rest with
          | none => rw [h1, h2] at he; simp at he
          | some y => rw [eval_mono h e v h1, evalArgs_mono h rest y h2]; rw [h1, h2] at he; exact he
      | _ => exact absurd trivial hk
theorem evalItems_mono {env env' : Str → Option Dump.Val} (h : ∀ s v, env s = some v → env' s = some v) :
    (l : List Expr) → ∀ x, evalItems env l = some x → evalItems env' l = some x
  | [], x, he => by simp only [evalItems] at he ⊢; exact he
  | .item k e :: rest, x, he => by
    simp only [evalItems] at he ⊢
    cases h1 : eval env e with
    | none => rw [h1] at he; simp at he
    | some v =>
      cases h2 : evalItems env rest with
      | none => rw [h1, h2] at he; simp at he
      | some y => rw [eval_mono h e v h1, evalItems_mono h rest y h2]; rw [h1, h2] at he; exact he
  | .name _ :: _, x, he => by simp [evalItems] at he
  | .str _ :: _, x, he => by simp [evalItems] at he
  | .num _ :: _, x, he => by simp [evalItems] at he
  | .int _ :: _, x, he => by simp [evalItems] at he
  | .call _ _ :: _, x, he => by simp [evalItems] at he
  | .list _ :: _, x, he => by simp [evalItems] at he
  | .tuple _ :: _, x, he => by simp [evalItems] at he
  | .kw _ _ :: _, x, he => by simp [evalItems] at he
  | .dict _ :: _, x, he => by simp [evalItems] at he
end

/-! ### Logical lines -/

theorem logical_acc (rest : List (ℕ × List Tok)) (d : ℕ) (b : List (ℕ × List Tok)) (l0 : List Tok) (hb : b ≠ [])
    (ht : net (l0 ++ flat b) = 0) (hp : ∀ p s, b = p ++ s → p ≠ [] → s ≠ [] → 0 < net (l0 ++ flat p)) :
    logical (b ++ rest) (some (d, l0)) = (logical rest none).map ((d, l0 ++ flat b) :: ·) := by
  induction b generalizing l0 with
  | nil => exact absurd rfl hb
  | cons x b ih =>
    obtain ⟨d', l⟩ := x
    rw [List.cons_append, logical]
    by_cases hb' : b = []
    · subst hb'
      have : flat [(d', l)] = l := by simp [flat]
      rw [this] at ht ⊢
      rw [if_pos ht]; rfl
    · have h1 := hp [(d', l)] b rfl (by simp) hb'
      have h2 : flat [(d', l)] = l := by simp [flat]
      rw [h2] at h1
      rw [if_neg (by omega), ih (l0 ++ l) hb']
      · simp [flat]
      · rw [← ht]; simp [flat]
      · intro p s e hp' hs
        have := hp ((d', l) :: p) s (by rw [e]; rfl) (by simp) hs
        simpa [flat] using this

theorem logical_stmt {d : ℕ} {b : List (ℕ × List Tok)} (h : Stmt d b) (rest : List (ℕ × List Tok)) :
    logical (b ++ rest) none = (logical rest none).map ((d, flat b) :: ·) := by
  obtain ⟨⟨l, r, rfl⟩, ht, hp⟩ := h
  rw [List.cons_append, logical]
  by_cases hr : r = []
  · subst hr
    have : flat [(d, l)] = l := by simp [flat]
    rw [this] at ht ⊢
    rw [if_pos ht]; rfl
  · have h1 := hp [(d, l)] r rfl (by simp) hr
    have h2 : flat [(d, l)] = l := by simp [flat]
    rw [h2] at h1
    rw [if_neg (by omega), logical_acc rest d r l hr]
    · simp [flat]
    · rw [← ht]; simp [flat]
    · intro p s e hp' hs
      have := hp ((d, l) :: p) s (by rw [e]; rfl) (by simp) hs
      simpa [flat] using this

theorem logical_blocks {bs : List (List (ℕ × List Tok))} (h : ∀ b ∈ bs, Stmt 0 b) :
    logical bs.flatten none = some (bs.map fun b => (0, flat b)) := by
  induction bs with
  | nil => rfl
  | cons b bs ih =>
    rw [List.flatten_cons, logical_stmt (h b (by simp)), ih fun c hc => h c (by simp [hc])]
    rfl

/-! ### Depth -/

theorem addImports_dc (c : Ctx) (l : List Str) : (c.addImports l).dc = c.dc := by
  unfold Ctx.addImports
  induction l generalizing c with
  | nil => rfl
  | cons i l ih =>
    rw [List.foldl_cons, ih]
    split <;> rfl

theorem setVar_depth (dc : DC) (v : List Tok) (p : Str) :
    (dc.setVar v p).1.depth = dc.depth ∧ (dc.setVar v p).1.lines = dc.lines := by
  unfold DC.setVar
  split
  · split <;> exact ⟨rfl, rfl⟩
  · exact ⟨rfl, rfl⟩

theorem addComma_fst (dc : DC) : dc.addComma.lines.map Prod.fst = dc.lines.map Prod.fst := by
  unfold DC.addComma
  split
  · rename_i d l h
    obtain ⟨init, hl⟩ := List.getLast?_eq_some_iff.1 h
    simp only [hl, List.dropLast_concat, List.map_append, List.map_cons, List.map_nil]
  · rfl

theorem wrap_depth {dc dc1 dcB : DC} {x l : List Tok} {new : List ℕ} (a1 : dc1.lines = dc.lines ++ [(dc.depth, x)])
    (a2 : dc1.depth = dc.depth) (h1 : dcB.depth = dc1.depth + 1) (h2 : dcB.lines.map Prod.fst = dc1.lines.map Prod.fst ++ new)
    (h3 : ∀ d ∈ new, dc1.depth + 1 ≤ d) :
    ({ dcB with depth := dcB.depth - 1 }.append l).depth = dc.depth ∧
      ∃ new, ({ dcB with depth := dcB.depth - 1 }.append l).lines.map Prod.fst = dc.lines.map Prod.fst ++ new ∧
        (new ≠ [] ∧ ∀ d ∈ new, dc.depth ≤ d) := by
  refine ⟨?_, [dc.depth] ++ new ++ [dc.depth], ?_, by simp, ?_⟩
  · show dcB.depth - 1 = _
    omega
  · show (dcB.lines ++ [(dcB.depth - 1, l)]).map Prod.fst = _
    rw [List.map_append, h2, a1, h1, a2]
    simp
  · intro d hd
    simp only [List.mem_append, List.mem_singleton] at hd
    rcases hd with (rfl | hd) | rfl
    · exact le_refl _
    · have := h3 d hd; omega
    · exact le_refl _

mutual
theorem dumpS_depth : (e : DElem) → ∀ dc : DC, (dumpS dc e).depth = dc.depth ∧
    ∃ new, (dumpS dc e).lines.map Prod.fst = dc.lines.map Prod.fst ++ new ∧ (new ≠ [] ∧ ∀ d ∈ new, dc.depth ≤ d)
  | .curve hd cps, dc => by
    simp only [dumpS]
    have key : ∀ (cps : List DCp) (dc : DC), let dc1 := cps.foldl (fun dc cp => dc.append (reprCp cp ++ [Tok.comma])) dc
        dc1.depth = dc.depth ∧ ∃ new, dc1.lines.map Prod.fst = dc.lines.map Prod.fst ++ new ∧ ∀ d ∈ new, dc.depth ≤ d := by
      intro cps
      induction cps with
      | nil => exact fun dc => ⟨rfl, [], (List.append_nil _).symm, by simp⟩
      | cons c cps ih =>
        intro dc
        obtain ⟨h1, new, h2, h3⟩ := ih (dc.append (reprCp c ++ [Tok.comma]))
        refine ⟨h1, dc.depth :: new, ?_, ?_⟩
        · simp only [List.foldl_cons]
          rw [h2]
          simp [DC.append]
        · intro d hd
          rcases List.mem_cons.1 hd with rfl | hd
          · exact le_refl _
          · exact h3 d hd
    obtain ⟨a1, a2⟩ := dumpElem_lines dc "ElemCurve" hd [.id "control_points".toList, .eq, .lb]
    generalize dumpElem dc "ElemCurve" hd [.id "control_points".toList, .eq, .lb] = dc1 at *
    obtain ⟨h1, new, h2, h3⟩ := key cps { dc1 with depth := dc1.depth + 1 }
    exact wrap_depth a1 a2 h1 h2 h3
  | .rect hd p q, dc => by
    simp only [dumpS]
    obtain ⟨a1, a2⟩ := dumpElem_lines dc "ElemRectangle" hd (kwPt "p1" p ++ [.comma] ++ kwPt "p2" q ++ [.rp])
    exact ⟨a2, [dc.depth], by rw [a1]; simp, by simp, by simp⟩
  | .rrect hd p q r, dc => by
    simp only [dumpS]
    obtain ⟨a1, a2⟩ := dumpElem_lines dc "ElemRectangleRounded" hd
      (kwPt "p1" p ++ [.comma] ++ kwPt "p2" q ++ [.comma, .id "radius".toList, .eq, .num r, .rp])
    exact ⟨a2, [dc.depth], by rw [a1]; simp, by simp, by simp⟩
  | .ellipse hd p q, dc => by
    simp only [dumpS]
    obtain ⟨a1, a2⟩ := dumpElem_lines dc "ElemEllipse" hd (kwPt "p1" p ++ [.comma] ++ kwPt "p2" q ++ [.rp])
    exact ⟨a2, [dc.depth], by rw [a1]; simp, by simp, by simp⟩
  | .group hd hidden elems points, dc => by
    simp only [dumpS]
    obtain ⟨a1, a2⟩ := dumpElem_lines dc "Group" hd [.id "elems".toList, .eq, .lb]
    generalize dumpElem dc "Group" hd [.id "elems".toList, .eq, .lb] = dc1 at *
    obtain ⟨h1, new, h2, h3⟩ := dumpAll_depth elems { dc1 with depth := dc1.depth + 1 }
    exact wrap_depth a1 a2 h1 h2 h3
  | .holes hd outside inside, dc => by
    simp only [dumpS]
    obtain ⟨a1, a2⟩ := dumpElem_lines dc "ElemWithHoles" hd
      ([.id "outside".toList, .eq] ++ reprElem outside ++ [.comma, .id "inside".toList, .eq, .lb])
    generalize dumpElem dc "ElemWithHoles" hd
      ([.id "outside".toList, .eq] ++ reprElem outside ++ [.comma, .id "inside".toList, .eq, .lb]) = dc1 at *
    obtain ⟨h1, new, h2, h3⟩ := dumpIn_depth inside { dc1 with depth := dc1.depth + 1 }
    exact wrap_depth a1 a2 h1 h2 h3
theorem dumpAll_depth : (es : List (Str × DElem)) → ∀ dc : DC, (dumpAll dc es).depth = dc.depth ∧
    ∃ new, (dumpAll dc es).lines.map Prod.fst = dc.lines.map Prod.fst ++ new ∧ ∀ d ∈ new, dc.depth ≤ d
  | [], dc => ⟨rfl, [], (List.append_nil _).symm, by simp⟩
  | (k, e) :: es, dc => by
    simp only [dumpAll]
    obtain ⟨h1, new, h2, -, h3⟩ := dumpS_depth e dc
    obtain ⟨g1, new', g2, g3⟩ := dumpAll_depth es (dumpS dc e).addComma
    rw [(addComma_rest _).2.2.2, h1] at g1 g3
    rw [addComma_fst, h2] at g2
    exact ⟨g1, new ++ new', by rw [g2, List.append_assoc], fun d hd => (List.mem_append.1 hd).elim (h3 d) (g3 d)⟩
theorem dumpIn_depth : (es : List DElem) → ∀ dc : DC, (dumpIn dc es).depth = dc.depth ∧
    ∃ new, (dumpIn dc es).lines.map Prod.fst = dc.lines.map Prod.fst ++ new ∧ ∀ d ∈ new, dc.depth ≤ d
  | [], dc => ⟨rfl, [], (List.append_nil _).symm, by simp⟩
  | e :: es, dc => by
    simp only [dumpIn]
    obtain ⟨h1, new, h2, -, h3⟩ := dumpS_depth e dc
    obtain ⟨g1, new', g2, g3⟩ := dumpIn_depth es (dumpS dc e).addComma
    rw [(addComma_rest _).2.2.2, h1] at g1 g3
    rw [addComma_fst, h2] at g2
    exact ⟨g1, new ++ new', by rw [g2, List.append_assoc], fun d hd => (List.mem_append.1 hd).elim (h3 d) (g3 d)⟩
end

theorem output_cases (c : Ctx) : (c.dc.lines = [] ∧ c.output = (c, .error .index)) ∨
    ∃ d l r, c.dc.lines = (d, l) :: r ∧ c.output.1 = ⟨{ c.dc with lines := (0, .id "model".toList :: .eq :: l) :: r }, c.imports⟩ ∧
      c.output.2 = .ok (c.imports.map Line.imp ++ [.blank] ++
        ((c.dc.vars.map fun x => (x.2, x.1)).mergeSort fun x y => decide (x.1 ≤ y.1)).map
          (fun x => .code 0 (.id x.1 :: .eq :: x.2)) ++ [.blank] ++
        ((0, .id "model".toList :: .eq :: l) :: r).map fun x => .code x.1 x.2) := by
  obtain ⟨⟨depth, lines, vars, prefixes, use⟩, imports⟩ := c
  cases lines with
  | nil => exact Or.inl ⟨rfl, rfl⟩
  | cons x r => obtain ⟨d, l⟩ := x; exact Or.inr ⟨d, l, r, rfl, rfl, rfl⟩

mutual
/-- The depth after a call is the depth before it. -/
theorem step_depth : (op : Op) → ∀ c : Ctx, (step c op).1.dc.depth = c.dc.depth
  | .dump e, c => by
    simp only [step, addImports_dc]
    exact (dumpS_depth _ _).1
  | .addImports l, c => by simp only [step, addImports_dc]
  | .setVar v p, c => by simp only [step]; exact (setVar_depth _ _ _).1
  | .output, c => by
    simp only [step]
    rcases output_cases c with ⟨-, h⟩ | ⟨d, l, r, h1, h2, h3⟩
    · rw [h]
    · generalize c.output = o at *
      obtain ⟨o1, o2⟩ := o
      simp only at h2 h3
      rw [h3, h2]
  | .outputLines, c => by simp only [step]
  | .append l, c => by simp only [step]; rfl
  | .extend ls, c => by simp only [step]; rfl
  | .addComma, c => by
    simp only [step, Ctx.addComma]
    split
    · rfl
    · exact (addComma_rest _).2.2.2
  | .within body, c => by
    simp only [step]
    rw [block_depth body]
    rfl
theorem block_depth : (ops : List Op) → ∀ c : Ctx, (block c ops).1.dc.depth = c.dc.depth
  | [], c => by simp only [block]
  | op :: rest, c => by
    have h1 := step_depth op c
    simp only [block]
    generalize step c op = s at *
    obtain ⟨c1, e⟩ := s
    cases e with
    | none => simp only at h1 ⊢; rw [block_depth rest c1, h1]
    | some e => exact h1
end

/-! ### Lines are only added, at the depth of the call or deeper -/

/-- The lines of `c1` are those of `c` with further lines behind them, none of them less indented than the depth of `c`. -/
def Deeper (c c1 : Ctx) : Prop :=
  ∃ new, c1.dc.lines.map Prod.fst = c.dc.lines.map Prod.fst ++ new ∧ ∀ d ∈ new, c.dc.depth ≤ d

theorem Deeper.refl (c : Ctx) : Deeper c c := ⟨[], (List.append_nil _).symm, by simp⟩

theorem Deeper.of_eq {c c1 : Ctx} (h : c1.dc.lines = c.dc.lines) : Deeper c c1 := ⟨[], by rw [h, List.append_nil], by simp⟩

theorem Deeper.trans {a b c : Ctx} (h : Deeper a b) (hd : b.dc.depth = a.dc.depth) (g : Deeper b c) : Deeper a c := by
  obtain ⟨n1, h1, h2⟩ := h
  obtain ⟨n2, g1, g2⟩ := g
  rw [hd] at g2
  exact ⟨n1 ++ n2, by rw [g1, h1, List.append_assoc], fun d hd => (List.mem_append.1 hd).elim (h2 d) (g2 d)⟩

mutual
theorem step_deeper : (op : Op) → op.NoOutput → ∀ c : Ctx, Deeper c (step c op).1
  | .dump e, _, c => by
    simp only [step]
    unfold Deeper
    rw [addImports_dc]
    obtain ⟨-, new, h1, -, h2⟩ := dumpS_depth (sortDicts e) c.dc
    exact ⟨new, h1, h2⟩
  | .addImports l, _, c => by
    simp only [step]
    exact Deeper.of_eq (by rw [addImports_dc])
  | .setVar v p, _, c => by
    simp only [step]
    exact Deeper.of_eq (setVar_depth _ _ _).2
  | .output, h, c => by simp [Op.NoOutput] at h
  | .outputLines, _, c => by
    simp only [step]
    exact Deeper.refl c
  | .append l, _, c => by
    simp only [step]
    exact ⟨[c.dc.depth], by simp [DC.append], by simp⟩
  | .extend ls, _, c => by
    simp only [step]
    refine ⟨ls.map fun _ => c.dc.depth, by simp [Ctx.extend, Function.comp_def], by simp⟩
  | .addComma, _, c => by
    simp only [step, Ctx.addComma]
    split
    · exact Deeper.refl c
    · exact ⟨[], by rw [List.append_nil]; exact addComma_fst _, by simp⟩
  | .within body, h, c => by
    simp only [Op.NoOutput] at h
    simp only [step]
    obtain ⟨new, h1, h2⟩ := block_deeper body h ⟨{ c.dc with depth := c.dc.depth + 1 }, c.imports⟩
    exact ⟨new, h1, fun d hd => by have := h2 d hd; simp only at this; omega⟩
theorem block_deeper : (ops : List Op) → NoOutputs ops → ∀ c : Ctx, Deeper c (block c ops).1
  | [], _, c => by simp only [block]; exact Deeper.refl c
  | op :: rest, h, c => by
    simp only [NoOutputs] at h
    have h1 := step_deeper op h.1 c
    have h2 := step_depth op c
    simp only [block]
    generalize step c op = s at *
    obtain ⟨c1, e⟩ := s
    cases e with
    | none => exact h1.trans h2 (block_deeper rest h.2 c1)
    | some e => exact h1
end

/-! ### Imports -/

theorem nodup_eraseDups : (n : ℕ) → (l : List Str) → l.length ≤ n → l.eraseDups.Nodup
  | _, [], _ => by simp
  | 0, _ :: _, h => by simp at h
  | n + 1, a :: l, h => by
    rw [List.eraseDups_cons, List.nodup_cons]
    refine ⟨?_, nodup_eraseDups n _ ((List.length_filter_le _ _).trans (by simpa using h))⟩
    rw [List.mem_eraseDups]
    simp

theorem addImports_spec (l : List Str) (c : Ctx) :
    (c.addImports l).imports = c.imports ++ (l.removeAll c.imports).eraseDups := by
  unfold Ctx.addImports
  induction l generalizing c with
  | nil => simp
  | cons i l ih =>
    rw [List.foldl_cons, ih]
    by_cases hi : i ∈ c.imports
    · rw [if_pos hi]
      congr 2
      rw [List.cons_removeAll]
      simp [hi]
    · rw [if_neg hi]
      rw [List.cons_removeAll, if_pos (by simpa using hi), List.eraseDups_cons, List.append_assoc]
      congr 2
      simp only [List.cons_append, List.nil_append, List.cons.injEq, true_and]
      congr 1
      simp only [List.removeAll, List.filter_filter]
      apply List.filter_congr
      intro x _
      by_cases hx : x = i <;> simp [hx, hi]

mutual
theorem step_imports : (op : Op) → ∀ c : Ctx, c.imports.Nodup →
    (step c op).1.imports.Nodup ∧ ∃ new, (step c op).1.imports = c.imports ++ new
  | .dump e, c, h => by
    simp only [step]
    exact ⟨h, [], (List.append_nil _).symm⟩
  | .addImports l, c, h => by
    simp only [step]
    rw [addImports_spec]
    refine ⟨?_, _, rfl⟩
    rw [List.nodup_append']
    refine ⟨h, nodup_eraseDups _ _ le_rfl, ?_⟩
    intro x hx hy
    simp [List.removeAll] at hy
    exact hy.2 hx
  | .setVar v p, c, h => by
    simp only [step]
    exact ⟨h, [], (List.append_nil _).symm⟩
  | .output, c, h => by
    simp only [step]
    rcases output_cases c with ⟨-, h0⟩ | ⟨d, l, r, h1, h2, h3⟩
    · rw [h0]; exact ⟨h, [], (List.append_nil _).symm⟩
    · generalize c.output = o at *
      obtain ⟨o1, o2⟩ := o
      simp only at h2 h3
      rw [h3, h2]
      exact ⟨h, [], (List.append_nil _).symm⟩
  | .outputLines, c, h => by simp only [step]; exact ⟨h, [], (List.append_nil _).symm⟩
  | .append l, c, h => by simp only [step]; exact ⟨h, [], (List.append_nil _).symm⟩
  | .extend ls, c, h => by simp only [step]; exact ⟨h, [], (List.append_nil _).symm⟩
  | .addComma, c, h => by
    simp only [step, Ctx.addComma]
    split <;> exact ⟨h, [], (List.append_nil _).symm⟩
  | .within body, c, h => by
    simp only [step]
    exact block_imports body ⟨{ c.dc with depth := c.dc.depth + 1 }, c.imports⟩ h
theorem block_imports : (ops : List Op) → ∀ c : Ctx, c.imports.Nodup →
    (block c ops).1.imports.Nodup ∧ ∃ new, (block c ops).1.imports = c.imports ++ new
  | [], c, h => by simp only [block]; exact ⟨h, [], (List.append_nil _).symm⟩
  | op :: rest, c, h => by
    obtain ⟨h1, n1, h2⟩ := step_imports op c h
    simp only [block]
    generalize step c op = s at *
    obtain ⟨c1, e⟩ := s
    cases e with
    | none =>
      obtain ⟨g1, n2, g2⟩ := block_imports rest c1 h1
      exact ⟨g1, n1 ++ n2, by simp only at h2 g2 ⊢; rw [g2, h2, List.append_assoc]⟩
    | some e => exact ⟨h1, n1, h2⟩
end

/-! ### What the lines say -/

/-- The name `model`. -/
abbrev mdl : Str := "model".toList

/-- Lines which are one statement and stand for an element now and later, with `k` assignments to `model` in front. -/
def Says (dc : DC) (k : ℕ) (b : List (ℕ × List Tok)) (e : DElem) : Prop :=
  Stmt 0 b ∧ ∃ E, flat b = toks E ∧ targets E = List.replicate k mdl ∧
    ∀ dc2, Later dc dc2 → eval (envDC dc2) E = some (.elem (sortDicts e))

theorem Says.later {dc dc1 : DC} {k : ℕ} {b : List (ℕ × List Tok)} {e : DElem} (h : Says dc k b e) (hl : Later dc dc1) :
    Says dc1 k b e := by
  obtain ⟨h1, E, h2, h3, h4⟩ := h
  exact ⟨h1, E, h2, h3, fun dc2 g => h4 dc2 (hl.trans g)⟩

/-- What is true of a context in which only elements were dumped. -/
structure Inv (c : Ctx) (es : List DElem) : Prop where
  ok : c.dc.Ok
  depth : c.dc.depth = 0
  vars : VarsGood c.dc
  imports : ∃ new, c.imports = defaultImports ++ new
  lines : (es = [] ∧ c.dc.lines = []) ∨ ∃ k b bs e rest, es = e :: rest ∧ c.dc.lines = b ++ bs.flatten ∧ Says c.dc k b e ∧
    List.Forall₂ (Says c.dc 0) bs rest

theorem Inv.new (use : Bool) : Inv (Ctx.new use) [] :=
  ⟨DC.Ok.new use, rfl, by simp [VarsGood, Ctx.new, DC.new], ⟨[], rfl⟩, Or.inl ⟨rfl, rfl⟩⟩

/-- A context with the same lines, later. -/
theorem Inv.keep {c c1 : Ctx} {es : List DElem} (h : Inv c es) (hl : Later c.dc c1.dc) (hd : c1.dc.depth = 0) (hv : VarsGood c1.dc)
    (hi : ∃ new, c1.imports = c.imports ++ new) (hs : c1.dc.lines = c.dc.lines) : Inv c1 es := by
  obtain ⟨new, hn⟩ := h.imports
  obtain ⟨n2, h2⟩ := hi
  refine ⟨hl.ok, hd, hv, ⟨new ++ n2, by rw [h2, hn, List.append_assoc]⟩, ?_⟩
  rw [hs]
  rcases h.lines with h | ⟨k, b, bs, e, rest, h1, h2, h3, h4⟩
  · exact Or.inl h
  · exact Or.inr ⟨k, b, bs, e, rest, h1, h2, h3.later hl, h4.imp fun _ _ g => g.later hl⟩

theorem Inv.dump {c : Ctx} {es : List DElem} (h : Inv c es) (e : DElem) (ho : e.Ok) :
    Inv ⟨Dump.dump c.dc e, c.imports⟩ (es ++ [e]) := by
  obtain ⟨hs, -⟩ := sort_elem e ho
  obtain ⟨h1, h2, new, h3, h4, f, args, h5, h6⟩ := wrote_elem (sortDicts e) c.dc h.ok hs
  obtain ⟨-, b, g1, g2⟩ := dumpS_stmt (sortDicts e) hs c.dc
  have hb : b = new := List.append_cancel_left (g1.symm.trans h3)
  subst hb
  rw [h.depth] at g2
  have hsay : Says (dumpS c.dc (sortDicts e)) 0 b e := ⟨g2, _, h5, rfl, h6⟩
  refine ⟨h1.ok, h2.trans h.depth, dumpS_vars _ hs _ h.vars, h.imports, ?_⟩
  rcases h.lines with ⟨rfl, hl⟩ | ⟨k, b0, bs, e0, rest, rfl, hl, h7, h8⟩
  · refine Or.inr ⟨0, b, [], e, [], rfl, ?_, hsay, .nil⟩
    show (dumpS c.dc (sortDicts e)).lines = _
    rw [h3, hl]
    simp
  · refine Or.inr ⟨k, b0, bs ++ [b], e0, rest ++ [e], rfl, ?_, h7.later h1, ?_⟩
    · show (dumpS c.dc (sortDicts e)).lines = _
      rw [h3, hl]
      simp
    · exact List.rel_append (h8.imp fun _ _ g => g.later h1) (.cons hsay .nil)

theorem Says.model {dc dc1 : DC} {k d : ℕ} {l : List Tok} {r : List (ℕ × List Tok)} {e : DElem} (h : Says dc k ((d, l) :: r) e)
    (hl : Later dc dc1) : Says dc1 (k + 1) ((0, .id mdl :: .eq :: l) :: r) e := by
  obtain ⟨⟨-, h2, h3⟩, E, h4, h5, h6⟩ := h
  have hf : ∀ r, flat ((0, .id mdl :: .eq :: l) :: r) = .id mdl :: .eq :: flat ((d, l) :: r) := by intro r; simp [flat]
  have hn : ∀ x, net (.id mdl :: .eq :: x) = net x := by
    intro x
    rw [net_cons, net_cons .eq]
    show 0 + (0 + net x) = _
    omega
  refine ⟨⟨⟨_, _, rfl⟩, by rw [hf, hn]; exact h2, ?_⟩, .kw mdl E, by rw [hf, h4]; simp [toks], ?_, ?_⟩
  · intro p s e hp hs
    obtain ⟨x, p, rfl⟩ := List.exists_cons_of_ne_nil hp
    rw [List.cons_append, List.cons.injEq] at e
    obtain ⟨rfl, e⟩ := e
    rw [hf, hn]
    exact h3 ((d, l) :: p) s (by rw [e]; rfl) (by simp) hs
  · rw [targets, h5]; rfl
  · intro dc2 g
    simp only [eval]
    exact h6 dc2 (hl.trans g)

theorem Inv.output {c : Ctx} {es : List DElem} (h : Inv c es) : Inv c.output.1 es := by
  rcases output_cases c with ⟨-, h0⟩ | ⟨d, l, r, h1, h2, h3⟩
  · rw [h0]; exact h
  · rw [h2]
    have hl : Later c.dc { c.dc with lines := (0, .id "model".toList :: .eq :: l) :: r } := Later.of_eq h.ok rfl rfl rfl
    refine ⟨hl.ok, h.depth, h.vars, h.imports, ?_⟩
    rcases h.lines with ⟨-, h4⟩ | ⟨k, b, bs, e, rest, h4, h5, h6, h7⟩
    · rw [h1] at h4; simp at h4
    · obtain ⟨l', r', rfl⟩ := h6.1.head
      rw [h1, List.cons_append, List.cons.injEq] at h5
      obtain ⟨h5, rfl⟩ := h5
      obtain ⟨rfl, rfl⟩ := Prod.mk.injEq .. ▸ h5
      exact Or.inr ⟨k + 1, _, bs, e, rest, h4, rfl, h6.model hl, h7.imp fun _ _ g => g.later hl⟩

theorem dval_expr (v : DVal) (h : v.Ok) : ∃ E x, v.repr = toks E ∧ E.NoKw ∧ (∀ env, eval env E = some x) ∧ ∀ e, x ≠ Val.elem e := by
  cases v with
  | pb b => exact ⟨_, _, (toks_exprPB b).symm, noKw_call _ _, fun env => eval_exprPB env b, by simp⟩
  | xf m => exact ⟨_, _, (toks_exprXf m).symm, noKw_call _ _, fun env => eval_exprXf env m h, by simp⟩
  | pt p => exact ⟨_, _, (toks_exprPt p).symm, noKw_exprPt p, fun env => eval_exprPt env p h, by simp⟩
  | vec p => exact ⟨_, _, (toks_exprVec p).symm, noKw_exprVec p, fun env => eval_exprVec env p h, by simp⟩
  | cp p => exact ⟨_, _, (toks_exprCp p).symm, noKw_call _ _, fun env => eval_exprCp env p h, by simp⟩

theorem Inv.step {c : Ctx} {es : List DElem} (h : Inv c es) (op : Op) (hc : op.Clean) :
    Inv (step c op).1 (es ++ dumped [op]) := by
  have same : dumped [op] = [] → Inv (DH.step c op).1 es → Inv (DH.step c op).1 (es ++ dumped [op]) := by
    intro h1 h2; rw [h1, List.append_nil]; exact h2
  cases op with
  | dump e => simp only [DH.step]; exact h.dump e hc
  | addImports l =>
    refine same rfl ?_
    simp only [DH.step]
    refine h.keep ?_ ?_ ?_ ⟨_, addImports_spec l c⟩ ?_
    · rw [addImports_dc]; exact ⟨h.ok, rfl, fun _ _ hw => hw⟩
    · rw [addImports_dc]; exact h.depth
    · rw [addImports_dc]; exact h.vars
    · rw [addImports_dc]
  | setVar v p =>
    refine same rfl ?_
    obtain ⟨E, x, h1, h2, h3, h4⟩ := dval_expr v hc
    simp only [DH.step]
    rw [h1]
    obtain ⟨g1, g2, g3, -⟩ := setVar_ref h.ok h2 h3 p
    exact h.keep g1 (g3.trans h.depth) (h.vars.setVar h2 h3 h4 p) ⟨[], (List.append_nil _).symm⟩ g2
  | output =>
    refine same rfl ?_
    have := h.output
    simp only [DH.step]
    generalize c.output = o at *
    obtain ⟨o1, o2⟩ := o
    cases o2 <;> exact this
  | outputLines => refine same rfl ?_; simp only [DH.step]; exact h
  | _ => exact absurd hc (by simp [Op.Clean])

theorem inv_run {c : Ctx} {es : List DElem} (h : Inv c es) (ops : List Op) (hc : ∀ op ∈ ops, op.Clean) :
    Inv (run c ops) (es ++ dumped ops) := by
  induction ops generalizing c es with
  | nil => simpa [dumped, run] using h
  | cons op ops ih =>
    have := ih (h.step op (hc op (by simp))) fun o ho => hc o (by simp [ho])
    have e : dumped (op :: ops) = dumped [op] ++ dumped ops := by
      simp only [dumped]; rw [← List.filterMap_append]; rfl
    rw [e, ← List.append_assoc]
    exact this

/-! ### Running the file -/

theorem targets_noKw {E : Expr} (h : E.NoKw) : targets E = [] := by
  cases E <;> first | rfl | exact absurd h (by simp [Expr.NoKw])

/-- The lines of the variables. -/
def varLines (vs : List (Str × List Tok)) : List (ℕ × List Tok) := vs.map fun x => (0, .id x.1 :: .eq :: x.2)

theorem exec_vars (rest : List (ℕ × List Tok)) (vs don : List (Str × List Tok)) (hn : ((don ++ vs).map Prod.fst).Nodup)
    (hg : ∀ x ∈ vs, ∃ E v, x.2 = toks E ∧ E.NoKw ∧ (∀ env, eval env E = some v)) :
    ∃ vals, vals.length = vs.length ∧
      exec (envOf don) (varLines vs ++ rest) = (exec (envOf (don ++ vs)) rest).map fun x => (vals ++ x.1, x.2) := by
  induction vs generalizing don with
  | nil => exact ⟨[], rfl, by simp [varLines]⟩
  | cons x vs ih =>
    obtain ⟨n, t⟩ := x
    obtain ⟨E, v, h1, h2, h3⟩ := hg (n, t) (by simp)
    simp only at h1
    subst h1
    have hne : dget don n = none := by
      rw [dget_none]
      rw [List.map_append, List.nodup_append'] at hn
      exact fun hm => hn.2.2 hm (by simp)
    have he : assign (envOf don) [n] v = envOf (don ++ [(n, toks E)]) := by
      funext s
      unfold assign envOf
      by_cases hs : s = n
      · subst hs
        rw [if_pos (by simp), dget_append_none hne, dget_cons, if_pos rfl]
        simp only
        rw [parseAll_toks]
        exact (h3 _).symm
      · rw [if_neg (by simpa using hs)]
        cases hd : dget don s with
        | some w => rw [dget_append hd]
        | none => rw [dget_append_none hd, dget_cons, if_neg (fun h => hs h.symm)]; rfl
    obtain ⟨vals, g1, g2⟩ := ih (don ++ [(n, toks E)]) (by rw [List.append_assoc]; exact hn) fun x hx => hg x (by simp [hx])
    refine ⟨v :: vals, by simp [g1], ?_⟩
    have hp : parseAll (.id n :: .eq :: toks E) = some (.kw n E) := by
      have := parseAll_toks (.kw n E)
      rwa [toks] at this
    have hev : eval (envOf don) (.kw n E) = some v := by simp only [eval]; exact h3 _
    show exec (envOf don) ((0, .id n :: .eq :: toks E) :: (varLines vs ++ rest)) = _
    rw [exec, if_neg (by simp), hp]
    simp only [hev]
    rw [targets, targets_noKw h2, he, g2, List.append_assoc, Option.map_map]
    rfl

theorem exec_rest {dc : DC} (h : dc.Ok) {env : Str → Option Dump.Val} (he : ∀ s v, envDC dc s = some v → env s = some v)
    {bs : List (List (ℕ × List Tok))} {es : List DElem} (hs : List.Forall₂ (Says dc 0) bs es) :
    exec env (bs.map fun b => (0, flat b)) = some (es.map fun e => .elem (sortDicts e), env) := by
  induction hs with
  | nil => rfl
  | cons hx _ ih =>
    obtain ⟨-, E, h2, h3, h4⟩ := hx
    rw [List.map_cons, exec, if_neg (by simp), h2, parseAll_toks]
    simp only
    rw [eval_mono he E _ (h4 dc ⟨h, rfl, fun _ _ hw => hw⟩)]
    simp only
    rw [h3, show assign env (List.replicate 0 mdl) _ = env from by funext s; simp [assign], ih]
    rfl

theorem envDC_name {dc : DC} (h : dc.Ok) {s : Str} {v : Dump.Val} (he : envDC dc s = some v) :
    ∃ w, (w, s) ∈ dc.vars ∧ ∃ q n, s = varName q n := by
  unfold envDC envOf at he
  cases hd : dget (dc.vars.map fun x => (x.2, x.1)) s with
  | none => rw [hd] at he; simp at he
  | some w =>
    have := dget_mem hd
    rw [List.mem_map] at this
    obtain ⟨⟨w', n'⟩, hm, e⟩ := this
    simp only [Prod.mk.injEq] at e
    obtain ⟨rfl, rfl⟩ := e
    obtain ⟨q, n, e, -⟩ := h.num _ hm
    exact ⟨w', hm, q, n, e⟩

theorem mdl_ne (q : Str) (n : ℕ) : mdl ≠ varName q n := by
  intro h
  have hu : '_' ∈ varName q n := by simp [varName]
  rw [← h] at hu
  simp [mdl] at hu

theorem codeOf_text (imps : List Str) (vs : List (Str × List Tok)) (ls : List (ℕ × List Tok)) :
    codeOf (imps.map Line.imp ++ [.blank] ++ vs.map (fun x => .code 0 (.id x.1 :: .eq :: x.2)) ++ [.blank] ++
      ls.map fun x => .code x.1 x.2) = varLines vs ++ ls := by
  have h1 : codeOf (imps.map Line.imp) = [] := by
    unfold codeOf; rw [List.filterMap_map]; simp [Function.comp_def]
  have h2 : codeOf (vs.map fun x => Line.code 0 (.id x.1 :: .eq :: x.2)) = varLines vs := by
    unfold codeOf varLines; rw [List.filterMap_map]; simp [Function.comp_def]
  have h3 : codeOf (ls.map fun x => Line.code x.1 x.2) = ls := by
    unfold codeOf; rw [List.filterMap_map]; simp [Function.comp_def]
  have ha : ∀ a b, codeOf (a ++ b) = codeOf a ++ codeOf b := fun a b => List.filterMap_append
  rw [ha, ha, ha, ha, h1, h2, h3]
  simp [codeOf]

theorem logical_vars (vs : List (Str × List Tok)) (hg : ∀ x ∈ vs, net x.2 = 0) (ls : List (ℕ × List Tok)) :
    logical (varLines vs ++ ls) none = (logical ls none).map (varLines vs ++ ·) := by
  induction vs with
  | nil => simp [varLines]
  | cons x vs ih =>
    have hx := hg x (by simp)
    show logical ((0, .id x.1 :: .eq :: x.2) :: (varLines vs ++ ls)) none = _
    rw [logical, if_pos, ih fun y hy => hg y (by simp [hy]), Option.map_map]
    · rfl
    · rw [net_cons, net_cons .eq, hx]; rfl

end X7.DH
