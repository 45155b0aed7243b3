import Verif.Spec.Printed
import Verif.Lemmas.DumpExpr
import Verif.Lemmas.Round

/-! Lemmas for Props/Printed: texts are prefix codes, and reading of groups. -/

noncomputable section

namespace X7.Dump

theorem toks_inj {e e' : Expr} {r r' : List Tok} (h : toks e ++ r = toks e' ++ r') (hr : Stop r) (hr' : Stop r') :
    e = e' ∧ r = r' := by
  have h1 := parse_toks e (max (toks e).length (toks e').length) r (le_max_left _ _) hr
  have h2 := parse_toks e' (max (toks e).length (toks e').length) r' (le_max_right _ _) hr'
  rw [h, h2] at h1
  simp only [Option.some.injEq, Prod.mk.injEq] at h1
  exact ⟨h1.1.symm, h1.2.symm⟩

theorem nameE_inj {n n' : Option Str} (h : nameE n = nameE n') : shownName n = shownName n' := by
  rcases n with _ | _ | ⟨a, l⟩ <;> rcases n' with _ | _ | ⟨b, l'⟩ <;> simp_all [nameE, shownName]

theorem nameE_shown (n : Option Str) : nameE (shownName n) = nameE n := by
  rcases n with _ | _ | ⟨a, l⟩ <;> simp [nameE, shownName]

theorem nameToks_shown (n : Option Str) : nameToks (shownName n) = nameToks n := by
  rcases n with _ | _ | ⟨a, l⟩ <;> simp [nameToks, shownName]

theorem reprPt_shown (p : DPt) : reprPt p.shown = reprPt p := by
  induction p with
  | point x y n => simp [DPt.shown, reprPt, nameToks_shown]
  | rel dx dy b n ih => simp [DPt.shown, reprPt, nameToks_shown, ih]
  | pcalc b s n ih => simp [DPt.shown, reprPt, nameToks_shown, ih]

theorem reprVec_shown (v : DVec) : reprVec v.shown = reprVec v := by
  cases v <;> simp [DVec.shown, reprVec, reprPt_shown]

theorem reprCp_shown (c : DCp) : reprCp c.shown = reprCp c := by
  simp [DCp.shown, reprCp, reprPt_shown, reprVec_shown]

theorem exprPt_inj {p q : DPt} (h : exprPt p = exprPt q) : p.shown = q.shown := by
  induction p generalizing q with
  | point x y n =>
    cases q with
    | point x' y' n' =>
      simp only [exprPt, Expr.call.injEq, true_and, List.cons_append, List.nil_append, List.cons.injEq, Expr.num.injEq] at h
      simp [DPt.shown, h.1, h.2.1, nameE_inj h.2.2]
    | rel => simp [exprPt] at h
    | pcalc => simp [exprPt] at h
  | rel dx dy b n ih =>
    cases q with
    | rel dx' dy' b' n' =>
      simp only [exprPt, Expr.call.injEq, true_and, List.cons_append, List.nil_append, List.cons.injEq, Expr.num.injEq] at h
      simp [DPt.shown, h.1, h.2.1, ih h.2.2.1, nameE_inj h.2.2.2]
    | point => simp [exprPt] at h
    | pcalc => simp [exprPt] at h
  | pcalc b s n ih =>
    cases q with
    | pcalc b' s' n' =>
      simp only [exprPt, Expr.call.injEq, true_and, List.cons_append, List.nil_append, List.cons.injEq, Expr.num.injEq] at h
      simp [DPt.shown, h.2.1, ih h.1, nameE_inj h.2.2]
    | point => simp [exprPt] at h
    | rel => simp [exprPt] at h

theorem exprVec_inj {p q : DVec} (h : exprVec p = exprVec q) : p.shown = q.shown := by
  cases p <;> cases q
  · simpa [exprVec, DVec.shown] using h
  · simp [exprVec] at h
  · simp [exprVec] at h
  · simp only [exprVec, Expr.call.injEq, true_and, List.cons.injEq, and_true] at h
    simp [DVec.shown, exprPt_inj h.1, exprPt_inj h.2]

theorem exprCp_inj {p q : DCp} (h : exprCp p = exprCp q) : p.shown = q.shown := by
  simp only [exprCp, Expr.call.injEq, true_and, List.cons.injEq, and_true, Expr.str.injEq] at h
  simp [DCp.shown, exprPt_inj h.1, exprVec_inj h.2.1, exprVec_inj h.2.2.1, h.2.2.2]

theorem exprPB_inj {p q : PenBrush} (h : exprPB p = exprPB q) : p = q := by
  have h1 := eval_exprPB (fun _ => none) p
  rw [h, eval_exprPB] at h1
  simpa using h1.symm

theorem exprXf_inj {m n : Mat3 ℝ} (h : exprXf m = exprXf n) : rows2 m = rows2 n := by
  simp only [exprXf, Expr.call.injEq, true_and, List.cons.injEq, and_true, Expr.num.injEq, Expr.tuple.injEq] at h
  obtain ⟨h1, h2, h3, h4, h5, h6⟩ := h
  simp [rows2, h1, h2, h3, h4, h5, h6]

theorem reprXf_rows (m : Mat3 ℝ) : reprXf (rows2 m) = reprXf m := rfl

theorem rows2_affine {m : Mat3 ℝ} (h : m.Affine) : rows2 m = m := by
  obtain ⟨h1, h2, h3⟩ := h
  ext <;> simp [rows2, Mat3.of6, h1, h2, h3]

theorem rows2_idem (m : Mat3 ℝ) : rows2 (rows2 m) = rows2 m := rfl

/-! ### Prefix codes -/

theorem pt_code {p q : DPt} {r r' : List Tok} (h : reprPt p ++ r = reprPt q ++ r') (hr : Stop r) (hr' : Stop r') :
    p.shown = q.shown ∧ r = r' := by
  rw [← toks_exprPt, ← toks_exprPt] at h
  exact (toks_inj h hr hr').imp_left exprPt_inj

theorem vec_code {p q : DVec} {r r' : List Tok} (h : reprVec p ++ r = reprVec q ++ r') (hr : Stop r) (hr' : Stop r') :
    p.shown = q.shown ∧ r = r' := by
  rw [← toks_exprVec, ← toks_exprVec] at h
  exact (toks_inj h hr hr').imp_left exprVec_inj

theorem cp_code {p q : DCp} {r r' : List Tok} (h : reprCp p ++ r = reprCp q ++ r') (hr : Stop r) (hr' : Stop r') :
    p.shown = q.shown ∧ r = r' := by
  rw [← toks_exprCp, ← toks_exprCp] at h
  exact (toks_inj h hr hr').imp_left exprCp_inj

theorem pb_code {p q : PenBrush} {r r' : List Tok} (h : reprPB p ++ r = reprPB q ++ r') (hr : Stop r) (hr' : Stop r') :
    p = q ∧ r = r' := by
  rw [← toks_exprPB, ← toks_exprPB] at h
  exact (toks_inj h hr hr').imp_left exprPB_inj

theorem xf_code {p q : Mat3 ℝ} {r r' : List Tok} (h : reprXf p ++ r = reprXf q ++ r') (hr : Stop r) (hr' : Stop r') :
    rows2 p = rows2 q ∧ r = r' := by
  rw [← toks_exprXf, ← toks_exprXf] at h
  exact (toks_inj h hr hr').imp_left exprXf_inj

theorem bool_code {p q : Bool} {r r' : List Tok} (h : reprBool p ++ r = reprBool q ++ r') : p = q ∧ r = r' := by
  cases p <;> cases q <;> simp_all [reprBool]

/-- What follows the first of several texts. -/
def sepTail : List (List Tok) → List Tok → List Tok
  | [], r => r
  | l, r => .comma :: (joinComma l ++ r)

theorem join_cons (x : List Tok) (l : List (List Tok)) (r : List Tok) : joinComma (x :: l) ++ r = x ++ sepTail l r := by
  cases l with
  | nil => simp [joinComma, sepTail]
  | cons y l => simp [joinComma, sepTail]

theorem sepTail_stop {close : Tok} (hc : close = .rp ∨ close = .rb ∨ close = .rc) (l : List (List Tok)) (r : List Tok) :
    Stop (sepTail l (close :: r)) := by
  cases l with
  | nil => exact stop_close hc r
  | cons y l => exact stop_comma _

theorem join_code {α β : Type*} (f : α → List Tok) (g : α → β) {close : Tok} (hc : close = .rp ∨ close = .rb ∨ close = .rc)
    (hh : ∀ a, ∃ t l, f a = t :: l ∧ t ≠ close) : ∀ l l' : List α,
    (∀ a ∈ l, ∀ b r r', f a ++ r = f b ++ r' → Stop r → Stop r' → g a = g b ∧ r = r') → ∀ r r',
    joinComma (l.map f) ++ close :: r = joinComma (l'.map f) ++ close :: r' → l.map g = l'.map g ∧ r = r'
  | [], [], _, r, r', h => by simpa [joinComma] using h
  | [], b :: l', _, r, r', h => by
    obtain ⟨t, k, hk, ht⟩ := hh b
    rw [List.map_cons, join_cons, hk] at h
    simp only [List.map_nil, joinComma, List.nil_append, List.cons_append, List.cons.injEq] at h
    exact absurd h.1.symm ht
  | a :: l, [], _, r, r', h => by
    obtain ⟨t, k, hk, ht⟩ := hh a
    rw [List.map_cons, join_cons, hk] at h
    simp only [List.map_nil, joinComma, List.nil_append, List.cons_append, List.cons.injEq] at h
    exact absurd h.1 ht
  | a :: l, b :: l', hcode, r, r', h => by
    rw [List.map_cons, List.map_cons, join_cons, join_cons] at h
    obtain ⟨h1, h2⟩ := hcode a (by simp) b _ _ h (sepTail_stop hc _ _) (sepTail_stop hc _ _)
    have hne : ∀ x : List Tok, close :: x ≠ .comma :: x := by rcases hc with rfl | rfl | rfl <;> simp
    cases l with
    | nil =>
      cases l' with
      | nil => simpa [sepTail, h1] using h2
      | cons c l' => rcases hc with rfl | rfl | rfl <;> simp [sepTail] at h2
    | cons c l =>
      cases l' with
      | nil => rcases hc with rfl | rfl | rfl <;> simp [sepTail] at h2
      | cons c' l' =>
        simp only [List.map_cons, sepTail, List.cons.injEq, true_and] at h2
        obtain ⟨h3, h4⟩ := join_code f g hc hh (c :: l) (c' :: l') (fun a ha => hcode a (List.mem_cons_of_mem _ ha)) r r'
          (by simpa using h2)
        refine ⟨?_, h4⟩
        exact List.cons_eq_cons.2 ⟨h1, h3⟩

theorem reprDict_map (es : List (Str × DElem)) : reprDict es = es.map fun x => [.str x.1, .colon] ++ reprElem x.2 := by
  induction es with
  | nil => simp [reprDict]
  | cons x es ih => obtain ⟨k, e⟩ := x; simp [reprDict, ih]

theorem reprIn_map (es : List DElem) : reprIn es = es.map reprElem := by
  induction es with
  | nil => simp [reprIn]
  | cons x es ih => simp [reprIn, ih]

theorem shownAll_map (es : List (Str × DElem)) : shownAll es = es.map fun x => (x.1, x.2.shown) := by
  induction es with
  | nil => simp [shownAll]
  | cons x es ih => obtain ⟨k, e⟩ := x; simp [shownAll, ih]

theorem shownIn_map (es : List DElem) : shownIn es = es.map DElem.shown := by
  induction es with
  | nil => simp [shownIn]
  | cons x es ih => simp [shownIn, ih]

/-- The text of an element begins with the class and the name. -/
theorem reprElem_head (e : DElem) : ∃ l, reprElem e = .id e.cls.toList :: .lp :: .str e.hdr.name :: .comma :: l := by
  cases e <;> simp [reprElem, opens, DElem.cls, DElem.hdr]

theorem heads {e e' : DElem} {r r' : List Tok} (h : reprElem e ++ r = reprElem e' ++ r') :
    e.cls = e'.cls ∧ e.hdr.name = e'.hdr.name := by
  obtain ⟨l, hl⟩ := reprElem_head e
  obtain ⟨l', hl'⟩ := reprElem_head e'
  rw [hl, hl'] at h
  simp only [List.cons_append, List.cons.injEq, Tok.id.injEq, Tok.str.injEq, true_and, String.toList_inj] at h
  exact ⟨h.1, h.2.1⟩

theorem cls_curve {e : DElem} (h : "ElemCurve" = e.cls) : ∃ hd cps, e = .curve hd cps := by
  cases e <;> first | exact ⟨_, _, rfl⟩ | (simp [DElem.cls] at h)

theorem cls_rect {e : DElem} (h : "ElemRectangle" = e.cls) : ∃ hd p q, e = .rect hd p q := by
  cases e <;> first | exact ⟨_, _, _, rfl⟩ | (simp [DElem.cls] at h)

theorem cls_rrect {e : DElem} (h : "ElemRectangleRounded" = e.cls) : ∃ hd p q rad, e = .rrect hd p q rad := by
  cases e <;> first | exact ⟨_, _, _, _, rfl⟩ | (simp [DElem.cls] at h)

theorem cls_ellipse {e : DElem} (h : "ElemEllipse" = e.cls) : ∃ hd p q, e = .ellipse hd p q := by
  cases e <;> first | exact ⟨_, _, _, rfl⟩ | (simp [DElem.cls] at h)

theorem cls_group {e : DElem} (h : "Group" = e.cls) : ∃ hd hid es ps, e = .group hd hid es ps := by
  cases e <;> first | exact ⟨_, _, _, _, rfl⟩ | (simp [DElem.cls] at h)

theorem cls_holes {e : DElem} (h : "ElemWithHoles" = e.cls) : ∃ hd o is, e = .holes hd o is := by
  cases e <;> first | exact ⟨_, _, _, rfl⟩ | (simp [DElem.cls] at h)

theorem ptItem_code {x y : Str × DPt} {r r' : List Tok} (h : ([.str x.1, .colon] ++ reprPt x.2) ++ r = ([.str y.1, .colon] ++ reprPt y.2) ++ r')
    (hr : Stop r) (hr' : Stop r') : (x.1, x.2.shown) = (y.1, y.2.shown) ∧ r = r' := by
  simp only [List.cons_append, List.nil_append, List.cons.injEq, Tok.str.injEq, true_and] at h
  obtain ⟨h1, h2⟩ := pt_code h.2 hr hr'
  exact ⟨by rw [h.1, h1], h2⟩

mutual
/-- The text of an element determines what is shown of it, and where it ends. -/
theorem elem_code : (e : DElem) → ∀ e' r r', reprElem e ++ r = reprElem e' ++ r' → e.shown = e'.shown ∧ r = r'
  | .curve hd cps, e', r, r', h => by
      obtain ⟨hcls, hname⟩ := heads h
      obtain ⟨hd', cps', rfl⟩ := cls_curve hcls
      simp only [DElem.hdr] at hname
      simp only [reprElem, hname, List.append_assoc, List.append_cancel_left_eq, List.cons_append, List.nil_append, List.cons.injEq, true_and] at h
      obtain ⟨h1, h2⟩ := join_code reprCp DCp.shown (.inl rfl) (fun a => ⟨.id "ControlPoint".toList, _, rfl, by simp⟩) _ _
        (fun a _ b r r' => cp_code) _ _ h
      exact ⟨by simp only [DElem.shown, hname, h1], h2⟩
  | .rect hd p q, e', r, r', h => by
      obtain ⟨hcls, hname⟩ := heads h
      obtain ⟨hd', p', q', rfl⟩ := cls_rect hcls
      simp only [DElem.hdr] at hname
      simp only [reprElem, hname, List.append_assoc, List.append_cancel_left_eq, List.cons_append, List.nil_append, List.cons.injEq, true_and] at h
      obtain ⟨h1, h2⟩ := pt_code h (stop_comma _) (stop_comma _)
      simp only [List.cons.injEq, true_and] at h2
      obtain ⟨h3, h4⟩ := pt_code h2 (stop_rp _) (stop_rp _)
      exact ⟨by simp only [DElem.shown, hname, h1, h3], by simpa using h4⟩
  | .rrect hd p q rad, e', r, r', h => by
      obtain ⟨hcls, hname⟩ := heads h
      obtain ⟨hd', p', q', rad', rfl⟩ := cls_rrect hcls
      simp only [DElem.hdr] at hname
      simp only [reprElem, hname, List.append_assoc, List.append_cancel_left_eq, List.cons_append, List.nil_append, List.cons.injEq, true_and] at h
      obtain ⟨h1, h2⟩ := pt_code h (stop_comma _) (stop_comma _)
      simp only [List.cons.injEq, true_and] at h2
      obtain ⟨h3, h4⟩ := pt_code h2 (stop_comma _) (stop_comma _)
      simp only [List.cons.injEq, true_and, Tok.num.injEq] at h4
      exact ⟨by simp only [DElem.shown, hname, h1, h3, h4.1], h4.2⟩
  | .ellipse hd p q, e', r, r', h => by
      obtain ⟨hcls, hname⟩ := heads h
      obtain ⟨hd', p', q', rfl⟩ := cls_ellipse hcls
      simp only [DElem.hdr] at hname
      simp only [reprElem, hname, List.append_assoc, List.append_cancel_left_eq, List.cons_append, List.nil_append, List.cons.injEq, true_and] at h
      obtain ⟨h1, h2⟩ := pt_code h (stop_comma _) (stop_comma _)
      simp only [List.cons.injEq, true_and] at h2
      obtain ⟨h3, h4⟩ := pt_code h2 (stop_rp _) (stop_rp _)
      exact ⟨by simp only [DElem.shown, hname, h1, h3], by simpa using h4⟩
  | .group hd hid es ps, e', r, r', h => by
      obtain ⟨hcls, hname⟩ := heads h
      obtain ⟨hd', hid', es', ps', rfl⟩ := cls_group hcls
      simp only [DElem.hdr] at hname
      simp only [reprElem, hname, List.append_assoc, List.append_cancel_left_eq, List.cons_append, List.nil_append, List.cons.injEq, true_and] at h
      obtain ⟨h1, h2⟩ := pb_code h (stop_comma _) (stop_comma _)
      simp only [List.cons.injEq, true_and] at h2
      obtain ⟨h3, h4⟩ := bool_code h2
      simp only [List.cons.injEq, true_and] at h4
      obtain ⟨h5, h6⟩ := xf_code h4 (stop_comma _) (stop_comma _)
      simp only [List.cons.injEq, true_and, reprDict_map] at h6
      obtain ⟨h7, h8⟩ := join_code (fun x : Str × DElem => [.str x.1, .colon] ++ reprElem x.2) (fun x : Str × DElem => (x.1, x.2.shown)) (.inr (.inr rfl))
        (fun a => ⟨.str a.1, _, rfl, by simp⟩) _ _ (fun a ha b r r' hab _ _ => by
          simp only [List.cons_append, List.nil_append, List.cons.injEq, Tok.str.injEq, true_and] at hab
          obtain ⟨h1, h2⟩ := dict_code es a ha b.2 r r' hab.2
          exact ⟨by rw [hab.1, h1], h2⟩) _ _ h6
      simp only [List.cons.injEq, true_and] at h8
      obtain ⟨h9, h10⟩ := join_code (fun x : Str × DPt => [.str x.1, .colon] ++ reprPt x.2) (fun x : Str × DPt => (x.1, x.2.shown))
        (.inr (.inr rfl)) (fun a => ⟨.str a.1, _, rfl, by simp⟩) _ _ (fun a _ b r r' => ptItem_code) _ _ h8
      refine ⟨?_, by simpa using h10⟩
      simp only [DElem.shown, hname, h1, h3, h5, shownAll_map, h7, h9]
  | .holes hd o is, e', r, r', h => by
      obtain ⟨hcls, hname⟩ := heads h
      obtain ⟨hd', o', is', rfl⟩ := cls_holes hcls
      simp only [DElem.hdr] at hname
      simp only [reprElem, hname, List.append_assoc, List.append_cancel_left_eq, List.cons_append, List.nil_append, List.cons.injEq, true_and] at h
      obtain ⟨h1, h2⟩ := pb_code h (stop_comma _) (stop_comma _)
      simp only [List.cons.injEq, true_and] at h2
      obtain ⟨h3, h4⟩ := elem_code o o' _ _ h2
      simp only [List.cons.injEq, true_and, reprIn_map] at h4
      obtain ⟨h5, h6⟩ := join_code reprElem DElem.shown (.inr (.inl rfl))
        (fun a => by obtain ⟨l, hl⟩ := reprElem_head a; exact ⟨_, _, hl, by simp⟩) _ _
        (fun a ha b r r' hab _ _ => in_code is a ha b r r' hab) _ _ h4
      simp only [List.cons.injEq, true_and] at h6
      obtain ⟨h7, h8⟩ := bool_code h6
      simp only [List.cons.injEq, true_and] at h8
      obtain ⟨h9, h10⟩ := xf_code h8 (stop_rp _) (stop_rp _)
      refine ⟨?_, by simpa using h10⟩
      simp only [DElem.shown, hname, h1, h3, h5, h7, h9, shownIn_map]
theorem dict_code : (es : List (Str × DElem)) → ∀ x ∈ es, ∀ e' r r', reprElem x.2 ++ r = reprElem e' ++ r' →
    x.2.shown = e'.shown ∧ r = r'
  | [], x, hx => by simp at hx
  | (k, e) :: es, x, hx => by
    rcases List.mem_cons.1 hx with h | h
    · subst h
      exact elem_code e
    · exact dict_code es x h
theorem in_code : (es : List DElem) → ∀ x ∈ es, ∀ e' r r', reprElem x ++ r = reprElem e' ++ r' → x.shown = e'.shown ∧ r = r'
  | [], x, hx => by simp at hx
  | e :: es, x, hx => by
    rcases List.mem_cons.1 hx with h | h
    · rw [h]
      exact elem_code e
    · exact in_code es x h
end

mutual
/-- The text does not show more. -/
theorem reprElem_shown : (e : DElem) → reprElem e.shown = reprElem e
  | .curve hd cps => by simp [DElem.shown, reprElem, List.map_map, Function.comp_def, reprCp_shown]
  | .rect hd p q => by simp [DElem.shown, reprElem, reprPt_shown]
  | .rrect hd p q r => by simp [DElem.shown, reprElem, reprPt_shown]
  | .ellipse hd p q => by simp [DElem.shown, reprElem, reprPt_shown]
  | .group hd hid es ps => by
    simp only [DElem.shown, reprElem, reprDict_shown es, reprXf_rows, List.map_map, Function.comp_def, reprPt_shown]
  | .holes hd o is => by
    simp only [DElem.shown, reprElem, reprIn_shown is, reprElem_shown o, reprXf_rows]
theorem reprDict_shown : (es : List (Str × DElem)) → reprDict (shownAll es) = reprDict es
  | [] => rfl
  | (k, e) :: es => by simp [shownAll, reprDict, reprElem_shown e, reprDict_shown es]
theorem reprIn_shown : (es : List DElem) → reprIn (shownIn es) = reprIn es
  | [] => rfl
  | e :: es => by simp [shownIn, reprIn, reprElem_shown e, reprIn_shown es]
end

/-! ### Reading -/

theorem shown_ok {p : DPt} (h : p.Made) : p.shown.Ok := by
  have hn : ∀ n, shownName n ≠ some [] := by
    rintro (_ | _ | ⟨a, l⟩) <;> simp [shownName]
  have hb : ∀ p : DPt, p.shown.hasBase = p.hasBase := by intro p; cases p <;> rfl
  induction p with
  | point x y n => exact hn n
  | rel dx dy b n ih => exact ⟨ih h, hn n⟩
  | pcalc b s n ih => exact ⟨ih h.1, (hb b).trans h.2, hn n⟩

theorem vecShown_ok {v : DVec} (h : v.Made) : v.shown.Ok := by
  cases v with
  | vec x y => trivial
  | rel p q => exact ⟨shown_ok h.1, shown_ok h.2⟩

theorem readVal_toks (e : Expr) : readVal (toks e) = eval (fun _ => none) e := by
  unfold readVal
  rw [parseAll_toks]

mutual
/-- The expression behind the text of a group of groups. -/
def exprG : DElem → Expr
  | .group h hid es ps => .call "Group".toList [.str h.name, exprPB h.pb, .name (if hid then "True" else "False").toList, exprXf h.xf,
      .dict (exprD es), .dict (ps.map fun x => .item x.1 (exprPt x.2))]
  | _ => .name []
def exprD : List (Str × DElem) → List Expr
  | [] => []
  | (k, e) :: rest => .item k (exprG e) :: exprD rest
end

theorem sep_cons (e : Expr) (l : List Expr) : sepToks (e :: l) = joinComma (toks e :: l.map toks) := by
  induction l generalizing e with
  | nil => simp [sepToks, joinComma]
  | cons a l ih => simp only [sepToks, ih, List.map_cons, joinComma]

theorem sep_join (l : List Expr) : sepToks l = joinComma (l.map toks) := by
  cases l with
  | nil => simp [sepToks, joinComma]
  | cons a l => exact sep_cons a l

mutual
theorem toks_exprG : (e : DElem) → e.Readable → toks (exprG e) = reprElem e
  | .group h hid es ps, hr => by
    simp only [DElem.Readable] at hr
    simp only [exprG, toks, sepToks, reprElem, toks_exprPB, toks_exprXf, opens, reprBool, sep_join, toks_exprD es hr.2.2.2.2.2, List.map_map,
      Function.comp_def, toks_exprPt]
    simp
  | .curve _ _, hr => by simp [DElem.Readable] at hr
  | .rect _ _ _, hr => by simp [DElem.Readable] at hr
  | .rrect _ _ _ _, hr => by simp [DElem.Readable] at hr
  | .ellipse _ _ _, hr => by simp [DElem.Readable] at hr
  | .holes _ _ _, hr => by simp [DElem.Readable] at hr
theorem toks_exprD : (es : List (Str × DElem)) → ReadableAll es → (exprD es).map toks = reprDict es
  | [], _ => by simp [exprD, reprDict]
  | (k, e) :: es, hr => by
    simp only [ReadableAll] at hr
    simp [exprD, reprDict, toks, toks_exprG e hr.1, toks_exprD es hr.2]
end

theorem evalItems_pts (env : Str → Option Val) (ps : List (Str × DPt)) (h : ∀ x ∈ ps, x.2.Made) :
    evalItems env (ps.map fun x => .item x.1 (exprPt x.2)) = some (ps.map fun x => (x.1, Val.pt x.2.shown)) := by
  induction ps with
  | nil => simp [evalItems]
  | cons x ps ih =>
    simp only [List.map_cons, evalItems]
    rw [ih fun y hy => h y (List.mem_cons_of_mem _ hy)]
    have h1 := eval_exprPt env x.2.shown (shown_ok (h x (by simp)))
    have h2 : exprPt x.2.shown = exprPt x.2 := by
      have : toks (exprPt x.2.shown) ++ [] = toks (exprPt x.2) ++ [] := by rw [toks_exprPt, toks_exprPt, reprPt_shown]
      exact (toks_inj this (by simp [Stop]) (by simp [Stop])).1
    rw [h2] at h1
    rw [h1]

theorem ptDict_map (ps : List (Str × DPt)) : ptDict (ps.map fun x => (x.1, Val.pt x.2.shown)) = some (ps.map fun x => (x.1, x.2.shown)) := by
  induction ps with
  | nil => rfl
  | cons x ps ih => simp [ptDict, ih]

theorem elemDict_map (es : List (Str × DElem)) : elemDict (es.map fun x => (x.1, Val.elem x.2.shown)) = some (es.map fun x => (x.1, x.2.shown)) := by
  induction es with
  | nil => rfl
  | cons x es ih => simp [elemDict, ih]

theorem construct_group_pos {name : Str} {pb : PenBrush} {hid : Bool} {m : Mat3 ℝ} {d : List (Str × Val)} {p : List (Str × Val)} :
    construct "Group".toList [.str name, .pb pb, .bool hid, .xf m, .dict d, .dict p] [] =
      if pb.filled then none else
        match elemDict d, ptDict p with
        | some d, some p => some (.elem (.group ⟨name, pb, false, m⟩ hid d p))
        | _, _ => none := by
  have : construct "Group".toList [.str name, .pb pb, .bool hid, .xf m, .dict d, .dict p] [] =
    Option.bind (if (pb.filled && !false) = true then none else some ⟨name, pb, false, m⟩)
      (fun h => (elemDict d).bind fun d => (ptDict p).bind fun p => some (Val.elem (.group h hid d p))) := rfl
  rw [this]
  cases hf : pb.filled
  · simp only [Bool.false_and, Bool.false_eq_true, if_false, Option.bind_some]
    cases elemDict d <;> cases ptDict p <;> rfl
  · simp

mutual
theorem eval_exprG : (e : DElem) → e.Readable → eval (fun _ => none) (exprG e) = some (.elem e.shown)
  | .group h hid es ps, hr => by
    simp only [DElem.Readable] at hr
    rw [exprG, eval_call (pos := [.str h.name, .pb h.pb, .bool hid, .xf h.xf, .dict (es.map fun x => (x.1, .elem x.2.shown)),
      .dict (ps.map fun x => (x.1, .pt x.2.shown))]) (kws := []), construct_group_pos, hr.1, elemDict_map, ptDict_map]
    · simp [DElem.shown, shownAll_map, rows2_affine hr.2.1]
    · refine evalArgs_ok (nk_str _) (eval_str _ _) (evalArgs_ok trivial (eval_exprPB _ _) (evalArgs_ok trivial (by cases hid <;> simp [eval])
        (evalArgs_ok trivial (eval_exprXf _ _ hr.2.1) (evalArgs_ok trivial ?_ (evalArgs_ok trivial ?_ evalArgs_nil)))))
      · simp only [eval]
        rw [eval_exprD es hr.2.2.2.2.2]
        simp [Function.comp_def, hr.2.2.1]
      · simp only [eval]
        rw [evalItems_pts _ ps hr.2.2.2.2.1]
        simp [Function.comp_def, hr.2.2.2.1]
  | .curve _ _, hr => by simp [DElem.Readable] at hr
  | .rect _ _ _, hr => by simp [DElem.Readable] at hr
  | .rrect _ _ _ _, hr => by simp [DElem.Readable] at hr
  | .ellipse _ _ _, hr => by simp [DElem.Readable] at hr
  | .holes _ _ _, hr => by simp [DElem.Readable] at hr
theorem eval_exprD : (es : List (Str × DElem)) → ReadableAll es →
    evalItems (fun _ => none) (exprD es) = some (es.map fun x => (x.1, .elem x.2.shown))
  | [], _ => by simp [exprD, evalItems]
  | (k, e) :: es, hr => by
    simp only [ReadableAll] at hr
    simp only [exprD, evalItems]
    rw [eval_exprG e hr.1, eval_exprD es hr.2]
    rfl
end

end X7.Dump
