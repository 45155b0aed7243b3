import Verif.Props.Dump
import Verif.Spec.Pickle

/-! Lemmas for Props/Pickle: dumping into contexts without variables. -/

noncomputable section

namespace X7.Dump

/-- No words but those allowed. -/
def W (l : List Tok) : Prop := ∀ s, Tok.id s ∈ l → s ∈ plainWords ∨ s ∈ pickleMethods

theorem W_nil : W [] := by simp [W]

theorem W_append {a b : List Tok} : W (a ++ b) ↔ W a ∧ W b := by
  simp only [W, List.mem_append]
  exact ⟨fun h => ⟨fun s hs => h s (Or.inl hs), fun s hs => h s (Or.inr hs)⟩, fun h s hs => hs.elim (h.1 s) (h.2 s)⟩

theorem W_cons {a : Tok} {b : List Tok} : W (a :: b) ↔ W [a] ∧ W b := W_append (a := [a])

theorem W_id (s : Str) : W [.id s] ↔ s ∈ plainWords ∨ s ∈ pickleMethods := by simp [W]

theorem W_str (s : Str) : W [.str s] := by simp [W]
theorem W_num (s : ℝ) : W [.num s] := by simp [W]
theorem W_int (s : ℤ) : W [.int s] := by simp [W]
theorem W_lp : W [.lp] := by simp [W]
theorem W_rp : W [.rp] := by simp [W]
theorem W_lb : W [.lb] := by simp [W]
theorem W_rb : W [.rb] := by simp [W]
theorem W_comma : W [.comma] := by simp [W]
theorem W_eq : W [.eq] := by simp [W]
theorem W_lc : W [.lc] := by simp [W]
theorem W_rc : W [.rc] := by simp [W]
theorem W_colon : W [.colon] := by simp [W]

/-- A literal word. -/
def word (s : String) : Prop := s.toList ∈ plainWords ∨ s.toList ∈ pickleMethods

theorem W_word {s : String} : W [.id s.toList] ↔ word s := W_id _

theorem W_opens {f : String} : W (opens f) ↔ word f := by
  unfold opens
  rw [W_cons, W_word]
  simp [W_lp]

theorem W_name (n : Option Str) : W (nameToks n) := by
  unfold nameToks
  split
  · split
    · rw [W_cons]; exact ⟨W_comma, W_str _⟩
    · exact W_nil
  · exact W_nil

theorem w_Point : word "Point" := by simp [word, plainWords, pickleMethods]
theorem w_Vector : word "Vector" := by simp [word, plainWords, pickleMethods]
theorem w_ControlPoint : word "ControlPoint" := by simp [word, plainWords, pickleMethods]
theorem w_Pen : word "Pen" := by simp [word, plainWords, pickleMethods]
theorem w_Brush : word "Brush" := by simp [word, plainWords, pickleMethods]
theorem w_PenBrush : word "PenBrush" := by simp [word, plainWords, pickleMethods]
theorem w_Transform : word "Transform" := by simp [word, plainWords, pickleMethods]
theorem w_ElemCurve : word "ElemCurve" := by simp [word, plainWords, pickleMethods]
theorem w_ElemRectangle : word "ElemRectangle" := by simp [word, plainWords, pickleMethods]
theorem w_ElemRectangleRounded : word "ElemRectangleRounded" := by simp [word, plainWords, pickleMethods]
theorem w_ElemEllipse : word "ElemEllipse" := by simp [word, plainWords, pickleMethods]
theorem w_Group : word "Group" := by simp [word, plainWords, pickleMethods]
theorem w_ElemWithHoles : word "ElemWithHoles" := by simp [word, plainWords, pickleMethods]
theorem w_None : word "None" := by simp [word, plainWords]
theorem w_True : word "True" := by simp [word, plainWords]
theorem w_False : word "False" := by simp [word, plainWords]
theorem w_closed : word "closed" := by simp [word, plainWords]
theorem w_xform : word "xform" := by simp [word, plainWords]
theorem w_cps : word "control_points" := by simp [word, plainWords]
theorem w_elems : word "elems" := by simp [word, plainWords]
theorem w_p1 : word "p1" := by simp [word, plainWords]
theorem w_p2 : word "p2" := by simp [word, plainWords]
theorem w_radius : word "radius" := by simp [word, plainWords]
theorem w_outside : word "outside" := by simp [word, plainWords]
theorem w_inside : word "inside" := by simp [word, plainWords]

theorem W_pt {p : DPt} (h : p.Abs) : W (reprPt p) := by
  cases p with
  | point x y n => simp only [reprPt, W_append, W_cons (b := _ :: _), W_opens, W_name, w_Point, W_num, W_comma, W_rp, and_self]
  | rel => exact h.elim
  | pcalc => exact h.elim

theorem W_vec {p : DVec} (h : p.Abs) : W (reprVec p) := by
  cases p with
  | vec x y => simp only [reprVec, W_append, W_cons (b := _ :: _), W_opens, w_Vector, W_num, W_comma, W_rp, and_self]
  | rel => exact h.elim

theorem W_cp {c : DCp} (h : c.Abs) : W (reprCp c) := by
  simp only [reprCp, W_append, W_cons (b := _ :: _), W_opens, w_ControlPoint, W_pt h.1, W_vec h.2.1, W_vec h.2.2, W_str, W_comma, W_rp, and_self]

theorem W_ints (l : List ℤ) : W (intToks l) := by
  induction l with
  | nil => exact W_nil
  | cons a l ih =>
    cases l with
    | nil => exact W_int _
    | cons b l =>
      simp only [intToks, W_cons (b := _ :: _), W_int, W_comma, true_and]
      rw [W_cons]
      exact ⟨W_comma, ih⟩

theorem W_color (c : Color) : W (reprColor c) := by
  cases c with
  | name s => exact W_str _
  | num n => exact W_int _
  | tup l =>
    unfold reprColor
    split
    all_goals try exact W_str _
    all_goals try exact W_int _
    · simp only [W_cons (b := _ :: _), W_lp, W_int, W_comma, W_rp, and_self]
    · rw [List.cons_append, W_cons, W_append]
      exact ⟨W_lp, W_ints _, W_rp⟩

theorem W_brush (b : Option Brush) : W (reprBrush b) := by
  cases b with
  | none => exact W_word.2 w_None
  | some b => simp only [reprBrush, W_append, W_opens, w_Brush, W_color, W_rp, and_self]

theorem W_pen (b : Option Pen) : W (reprPen b) := by
  cases b with
  | none => exact W_word.2 w_None
  | some b => simp only [reprPen, W_append, W_cons (b := _ :: _), W_opens, w_Pen, W_color, W_num, W_comma, W_rp, and_self]

theorem W_pb (pb : PenBrush) : W (reprPB pb) := by
  simp only [reprPB, W_append, W_opens, w_PenBrush, W_pen, W_brush, W_comma, W_rp, and_self]

theorem W_xf (m : Mat3 ℝ) : W (reprXf m) := by
  simp only [reprXf, W_append, W_cons (b := _ :: _), W_opens, w_Transform, W_num, W_comma, W_lp, W_rp, and_self]

theorem W_bool (b : Bool) : W (reprBool b) := by
  cases b
  · exact W_word.2 w_False
  · exact W_word.2 w_True

theorem W_kwPt {k : String} (hk : word k) {p : DPt} (h : p.Abs) : W (kwPt k p) := by
  simp only [kwPt, W_append, W_cons (b := _ :: _), W_word, hk, W_eq, W_pt h, and_self]

theorem W_join {l : List (List Tok)} (h : ∀ x ∈ l, W x) : W (joinComma l) := by
  induction l with
  | nil => exact W_nil
  | cons a l ih =>
    cases l with
    | nil => exact h a (by simp)
    | cons b l =>
      simp only [joinComma]
      rw [W_append, W_cons]
      exact ⟨h a (by simp), W_comma, ih fun x hx => h x (by simp [hx])⟩

theorem W_pts {l : List (Str × DPt)} (h : ∀ x ∈ l, x.2.Abs) :
    W (joinComma (l.map fun x => [.str x.1, .colon] ++ reprPt x.2)) := by
  refine W_join ?_
  simp only [List.mem_map, forall_exists_index, and_imp, forall_apply_eq_imp_iff₂]
  intro x hx
  rw [W_append, W_cons]
  exact ⟨⟨W_str _, W_colon⟩, W_pt (h x hx)⟩

mutual
theorem W_elem : (e : DElem) → e.Abs → W (reprElem e)
  | .curve hd cps, h => by
    simp only [DElem.Abs] at h
    simp only [reprElem, W_append, W_cons (b := _ :: _), W_opens, w_ElemCurve, W_str, W_comma, W_rp, true_and, and_true]
    exact W_join (by simpa using fun c hc => W_cp (h c hc))
  | .rect hd p q, h => by
    simp only [DElem.Abs] at h
    simp only [reprElem, W_append, W_cons (b := _ :: _), W_opens, w_ElemRectangle, W_str, W_comma, W_rp, W_pt h.1, W_pt h.2, and_self]
  | .rrect hd p q r, h => by
    simp only [DElem.Abs] at h
    simp only [reprElem, W_append, W_cons (b := _ :: _), W_opens, w_ElemRectangleRounded, W_str, W_comma, W_rp, W_num, W_pt h.1,
      W_pt h.2, and_self]
  | .ellipse hd p q, h => by
    simp only [DElem.Abs] at h
    simp only [reprElem, W_append, W_cons (b := _ :: _), W_opens, w_ElemEllipse, W_str, W_comma, W_rp, W_pt h.1, W_pt h.2, and_self]
  | .group hd hid es ps, h => by
    simp only [DElem.Abs] at h
    simp only [reprElem, W_append, W_cons (b := _ :: _), W_opens, w_Group, W_str, W_comma, W_rp, W_lc, W_rc, W_pb, W_bool, W_xf,
      W_pts h.2, W_join (W_dict es h.1), and_self]
  | .holes hd o is, h => by
    simp only [DElem.Abs] at h
    simp only [reprElem, W_append, W_cons (b := _ :: _), W_opens, w_ElemWithHoles, W_str, W_comma, W_rp, W_lb, W_rb, W_pb, W_bool, W_xf,
      W_elem o h.1, W_join (W_in is h.2), and_self]
theorem W_dict : (es : List (Str × DElem)) → AbsAll es → ∀ x ∈ reprDict es, W x
  | [], _ => by simp [reprDict]
  | (k, e) :: es, h => by
    simp only [AbsAll] at h
    simp only [reprDict, List.mem_cons]
    rintro x (rfl | hx)
    · rw [W_append, W_cons]
      exact ⟨⟨W_str _, W_colon⟩, W_elem e h.1⟩
    · exact W_dict es h.2 x hx
theorem W_in : (es : List DElem) → AbsIn es → ∀ x ∈ reprIn es, W x
  | [], _ => by simp [reprIn]
  | e :: es, h => by
    simp only [AbsIn] at h
    simp only [reprIn, List.mem_cons]
    rintro x (rfl | hx)
    · exact W_elem e h.1
    · exact W_in es h.2 x hx
end

/-- Lines added, none of them outside the depth, and their words if `A`. -/
def Adds (A : Prop) (dc dc1 : DC) : Prop :=
  dc1.depth = dc.depth ∧ dc1.useVars = dc.useVars ∧ dc1.vars = dc.vars ∧
    ∃ new, dc1.lines = dc.lines ++ new ∧ ∀ x ∈ new, dc.depth ≤ x.1 ∧ (A → W x.2)

theorem Adds.refl (A : Prop) (dc : DC) : Adds A dc dc := ⟨rfl, rfl, rfl, [], by simp, by simp⟩

theorem Adds.trans {A : Prop} {a b c : DC} (h : Adds A a b) (g : Adds A b c) : Adds A a c := by
  obtain ⟨h1, h2, h3, n, h4, h5⟩ := h
  obtain ⟨g1, g2, g3, m, g4, g5⟩ := g
  refine ⟨g1.trans h1, g2.trans h2, g3.trans h3, n ++ m, by rw [g4, h4, List.append_assoc], ?_⟩
  intro x hx
  rcases List.mem_append.1 hx with hx | hx
  · exact h5 x hx
  · rw [← h1]; exact g5 x hx

theorem Adds.append {A : Prop} (dc : DC) {l : List Tok} (h : A → W l) : Adds A dc (dc.append l) :=
  ⟨rfl, rfl, rfl, [(dc.depth, l)], rfl, by simpa using h⟩

/-- A block one level deeper. -/
theorem Adds.block {A : Prop} {dc dc1 : DC} (h : Adds A { dc with depth := dc.depth + 1 } dc1) :
    Adds A dc { dc1 with depth := dc1.depth - 1 } := by
  obtain ⟨h1, h2, h3, n, h4, h5⟩ := h
  refine ⟨?_, h2, h3, n, h4, ?_⟩
  · show dc1.depth - 1 = dc.depth
    rw [h1]; rfl
  · intro x hx
    have := h5 x hx
    exact ⟨le_trans (Nat.le_succ _) this.1, this.2⟩

theorem Adds.comma {A : Prop} {dc dc1 : DC} (h : Adds A dc dc1) (hn : dc1.lines ≠ dc.lines) : Adds A dc dc1.addComma := by
  obtain ⟨h1, h2, h3, n, h4, h5⟩ := h
  obtain ⟨c1, c2, c3, c4⟩ := addComma_rest dc1
  have hne : n ≠ [] := by rintro rfl; exact hn (by simpa using h4)
  obtain ⟨init, ⟨d, l⟩, rfl⟩ : ∃ init x, n = init ++ [x] := ⟨n.dropLast, n.getLast hne, (List.dropLast_append_getLast hne).symm⟩
  refine ⟨c4.trans h1, c3.trans h2, c1.trans h3, init ++ [(d, l ++ [.comma])], ?_, ?_⟩
  · unfold DC.addComma
    rw [h4]
    simp only [List.getLast?_append, List.getLast?_singleton, Option.some_or]
    rw [← List.append_assoc, List.dropLast_concat]
    simp
  · intro x hx
    rcases List.mem_append.1 hx with hx | hx
    · exact h5 x (by simp [hx])
    · obtain rfl := List.mem_singleton.1 hx
      have := h5 (d, l) (by simp)
      exact ⟨this.1, fun hA => W_append.2 ⟨this.2 hA, W_comma⟩⟩

theorem basic_novars (dc : DC) (hu : dc.useVars = false) {cls : String} (hc : word cls) (h : DHdr) :
    (basicToks dc cls h).1 = dc ∧ W (basicToks dc cls h).2 := by
  unfold basicToks
  rw [C47_no_vars dc hu]
  simp only
  have hb : W (opens cls ++ [.str h.name, .comma] ++ reprPB h.pb ++ [.comma, .id "closed".toList, .eq] ++ reprBool h.closed ++ [.comma]) := by
    simp only [W_append, W_cons (b := _ :: _), W_opens, hc, W_str, W_comma, W_pb, W_word, w_closed, W_eq, W_bool, and_self]
  split
  · rw [C47_no_vars dc hu]
    refine ⟨rfl, ?_⟩
    simp only
    rw [W_append, W_append, W_append]
    refine ⟨⟨⟨hb, ?_⟩, W_xf _⟩, W_comma⟩
    simp only [W_cons (b := _ :: _), W_word, w_xform, W_eq, and_self]
  · exact ⟨rfl, hb⟩

theorem adds_line (A : Prop) (dc : DC) (hu : dc.useVars = false) {cls : String} (hc : word cls) (h : DHdr) {args : List Tok}
    (ha : A → W args) : Adds A dc (dumpElem dc cls h args) ∧ (dumpElem dc cls h args).lines ≠ dc.lines ∧
      (dumpElem dc cls h args).useVars = false := by
  obtain ⟨h1, h2⟩ := basic_novars dc hu hc h
  unfold dumpElem
  simp only
  rw [h1]
  exact ⟨Adds.append dc fun hA => W_append.2 ⟨h2, ha hA⟩, by simp [DC.append], hu⟩

theorem Adds.lines_ne {A : Prop} {a b c : DC} (h : Adds A b c) (g : Adds A a b) (hn : b.lines ≠ a.lines) : c.lines ≠ a.lines := by
  obtain ⟨_, _, _, n, h4, _⟩ := h
  obtain ⟨_, _, _, m, g4, _⟩ := g
  rw [h4, g4]
  intro he
  have : m ++ n = [] := by simpa [List.append_assoc] using he
  exact hn (by rw [g4, (List.append_eq_nil_iff.1 this).1, List.append_nil])

/-- A first line, a block and a last line. -/
theorem adds_list (A : Prop) (dc : DC) (hu : dc.useVars = false) {cls : String} (hc : word cls) (h : DHdr) {args : List Tok}
    (ha : A → W args) {dcB : DC}
    (hB : Adds A { dumpElem dc cls h args with depth := (dumpElem dc cls h args).depth + 1 } dcB) :
    Adds A dc ({ dcB with depth := dcB.depth - 1 }.append [.rb, .rp]) ∧
      ({ dcB with depth := dcB.depth - 1 }.append [.rb, .rp]).lines ≠ dc.lines := by
  obtain ⟨h1, h2, h3⟩ := adds_line A dc hu hc h ha
  have h4 := (Adds.block hB).trans (Adds.append _ (l := [.rb, .rp]) fun _ => (W_cons.2 ⟨W_rb, W_rp⟩))
  exact ⟨h1.trans h4, h4.lines_ne h1 h2⟩

theorem adds_cps (A : Prop) (cps : List DCp) (h : A → ∀ c ∈ cps, c.Abs) (dc : DC) :
    Adds A dc (cps.foldl (fun dc cp => dc.append (reprCp cp ++ [.comma])) dc) := by
  induction cps generalizing dc with
  | nil => exact Adds.refl A dc
  | cons c cps ih =>
    simp only [List.foldl_cons]
    exact (Adds.append dc fun hA => W_append.2 ⟨W_cp (h hA c (by simp)), W_comma⟩).trans
      (ih (fun hA d hd => h hA d (by simp [hd])) _)

mutual
theorem adds_elem (A : Prop) : (e : DElem) → (A → e.Abs) → ∀ dc : DC, dc.useVars = false →
    Adds A dc (dumpS dc e) ∧ (dumpS dc e).lines ≠ dc.lines
  | .curve hd cps, hA, dc, hu => by
    simp only [DElem.Abs] at hA
    simp only [dumpS]
    exact adds_list A dc hu w_ElemCurve hd
      (fun _ => by simp only [W_cons (b := _ :: _), W_word, w_cps, W_eq, W_lb, and_self]) (adds_cps A cps hA _)
  | .rect hd p q, hA, dc, hu => by
    simp only [DElem.Abs] at hA
    simp only [dumpS]
    have := adds_line A dc hu w_ElemRectangle hd (args := kwPt "p1" p ++ [.comma] ++ kwPt "p2" q ++ [.rp])
      (fun a => by simp only [W_append, W_kwPt w_p1 (hA a).1, W_kwPt w_p2 (hA a).2, W_comma, W_rp, and_self])
    exact ⟨this.1, this.2.1⟩
  | .rrect hd p q r, hA, dc, hu => by
    simp only [DElem.Abs] at hA
    simp only [dumpS]
    have := adds_line A dc hu w_ElemRectangleRounded hd
      (args := kwPt "p1" p ++ [.comma] ++ kwPt "p2" q ++ [.comma, .id "radius".toList, .eq, .num r, .rp])
      (fun a => by simp only [W_append, W_cons (b := _ :: _), W_kwPt w_p1 (hA a).1, W_kwPt w_p2 (hA a).2, W_comma, W_rp, W_word,
        w_radius, W_eq, W_num, and_self])
    exact ⟨this.1, this.2.1⟩
  | .ellipse hd p q, hA, dc, hu => by
    simp only [DElem.Abs] at hA
    simp only [dumpS]
    have := adds_line A dc hu w_ElemEllipse hd (args := kwPt "p1" p ++ [.comma] ++ kwPt "p2" q ++ [.rp])
      (fun a => by simp only [W_append, W_kwPt w_p1 (hA a).1, W_kwPt w_p2 (hA a).2, W_comma, W_rp, and_self])
    exact ⟨this.1, this.2.1⟩
  | .group hd hidden elems points, hA, dc, hu => by
    simp only [DElem.Abs] at hA
    simp only [dumpS]
    exact adds_list A dc hu w_Group hd
      (fun _ => by simp only [W_cons (b := _ :: _), W_word, w_elems, W_eq, W_lb, and_self])
      (adds_all A elems (fun a => (hA a).1) _ (adds_line A dc hu w_Group hd (args := [.id "elems".toList, .eq, .lb])
        (fun _ => by simp only [W_cons (b := _ :: _), W_word, w_elems, W_eq, W_lb, and_self])).2.2)
  | .holes hd outside inside, hA, dc, hu => by
    simp only [DElem.Abs] at hA
    simp only [dumpS]
    have ha : A → W ([.id "outside".toList, .eq] ++ reprElem outside ++ [.comma, .id "inside".toList, .eq, .lb]) := fun a => by
      simp only [W_append, W_cons (b := _ :: _), W_word, w_outside, w_inside, W_eq, W_comma, W_lb, W_elem outside (hA a).1, and_self]
    exact adds_list A dc hu w_ElemWithHoles hd ha
      (adds_in A inside (fun a => (hA a).2) _ (adds_line A dc hu w_ElemWithHoles hd ha).2.2)
theorem adds_all (A : Prop) : (es : List (Str × DElem)) → (A → AbsAll es) → ∀ dc : DC, dc.useVars = false →
    Adds A dc (dumpAll dc es)
  | [], _, dc, _ => by simp only [dumpAll]; exact Adds.refl A dc
  | (k, e) :: es, hA, dc, hu => by
    simp only [AbsAll] at hA
    simp only [dumpAll]
    obtain ⟨h1, h2⟩ := adds_elem A e (fun a => (hA a).1) dc hu
    have h3 := h1.comma h2
    exact h3.trans (adds_all A es (fun a => (hA a).2) _ (h3.2.1.trans hu))
theorem adds_in (A : Prop) : (es : List DElem) → (A → AbsIn es) → ∀ dc : DC, dc.useVars = false →
    Adds A dc (dumpIn dc es)
  | [], _, dc, _ => by simp only [dumpIn]; exact Adds.refl A dc
  | e :: es, hA, dc, hu => by
    simp only [AbsIn] at hA
    simp only [dumpIn]
    obtain ⟨h1, h2⟩ := adds_elem A e (fun a => (hA a).1) dc hu
    have h3 := h1.comma h2
    exact h3.trans (adds_in A es (fun a => (hA a).2) _ (h3.2.1.trans hu))
end

theorem absAll_iff (d : List (Str × DElem)) : AbsAll d ↔ ∀ x ∈ d, x.2.Abs := by
  induction d with
  | nil => simp [AbsAll]
  | cons x d ih => obtain ⟨k, e⟩ := x; simp [AbsAll, ih]

mutual
theorem abs_sort : (e : DElem) → e.Abs → (sortDicts e).Abs
  | .curve _ _, h => by simp only [sortDicts]; exact h
  | .rect _ _ _, h => by simp only [sortDicts]; exact h
  | .rrect _ _ _ _, h => by simp only [sortDicts]; exact h
  | .ellipse _ _ _, h => by simp only [sortDicts]; exact h
  | .group hd hidden elems points, h => by
    simp only [DElem.Abs] at h
    have := abs_sortAll elems h.1
    simp only [sortDicts, DElem.Abs]
    rw [absAll_iff] at this ⊢
    exact ⟨fun x hx => this x ((List.mergeSort_perm _ _).mem_iff.1 hx), h.2⟩
  | .holes hd o is, h => by
    simp only [DElem.Abs] at h
    simp only [sortDicts, DElem.Abs]
    exact ⟨h.1, abs_sortIn is h.2⟩
theorem abs_sortAll : (d : List (Str × DElem)) → AbsAll d → AbsAll (sortAll d)
  | [], h => by simp only [sortAll]; exact h
  | (k, e) :: d, h => by
    simp only [AbsAll] at h
    simp only [sortAll, AbsAll]
    exact ⟨abs_sort e h.1, abs_sortAll d h.2⟩
theorem abs_sortIn : (d : List DElem) → AbsIn d → AbsIn (sortIn d)
  | [], h => by simp only [sortIn]; exact h
  | e :: d, h => by
    simp only [AbsIn] at h
    simp only [sortIn, AbsIn]
    exact ⟨abs_sort e h.1, abs_sortIn d h.2⟩
end

theorem adds_dump (e : DElem) (dc : DC) (hu : dc.useVars = false) :
    Adds e.Abs dc (dump dc e) ∧ (dump dc e).lines ≠ dc.lines := adds_elem e.Abs (sortDicts e) (abs_sort e) dc hu

/-- A context without variables. -/
def Clean (dc : DC) : Prop := dc.useVars = false ∧ dc.vars = []

theorem Clean.ok {dc : DC} (h : Clean dc) : dc.Ok := ⟨by simp [h.2], by simp [h.2], by simp [h.2]⟩

theorem Clean.env {dc : DC} (h : Clean dc) : envDC dc = fun _ => none := by
  funext s
  simp [envDC, envOf, h.2, dget]

theorem Adds.clean {A : Prop} {a b : DC} (h : Adds A a b) (g : Clean a) : Clean b := ⟨h.2.1.trans g.1, h.2.2.1.trans g.2⟩

/-- An element written into a context without variables. -/
theorem dump_clean (e : DElem) (ho : e.Ok) (dc : DC) (hc : Clean dc) :
    ∃ new, (dump dc e).lines = dc.lines ++ new ∧ new ≠ [] ∧ ∃ f args e', new.flatMap Prod.snd = toks (.call f args) ∧
      eval (fun _ => none) (.call f args) = some (.elem e') ∧ Same e e' := by
  obtain ⟨h1, h2⟩ := sort_elem e ho
  obtain ⟨h3, h4, new, h5, h6, f, args, h7, h8⟩ := wrote_elem (sortDicts e) dc hc.ok h1
  refine ⟨new, h5, h6, f, args, sortDicts e, h7, ?_, h2⟩
  have hcl := (adds_dump e dc hc.1).1.clean hc
  rw [← hcl.env]
  exact h8 _ ⟨h3.ok, rfl, fun w n hw => hw⟩

end X7.Dump
