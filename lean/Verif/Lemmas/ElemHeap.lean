import Verif.Spec.ElemHeap

/-! Lemmas for Props/ElemHeap. -/

noncomputable section

namespace X7.EH

theorem get_app {h : Heap} {i : ℕ} {o : Obj} (e : h[i]? = some o) (l : Heap) : (h ++ l)[i]? = some o := by
  have := (List.getElem?_eq_some_iff.1 e).1
  rw [List.getElem?_append_left this, e]

theorem get_lt {h : Heap} {i : ℕ} {o : Obj} (e : h[i]? = some o) : i < h.length := (List.getElem?_eq_some_iff.1 e).1

theorem get_new (h : Heap) (o : Obj) : (h ++ [o])[h.length]? = some o := by simp

/-- The two heaps agree on object `i`. -/
theorem ptVal_congr {h g : Heap} {i : ℕ} (e : g[i]? = h[i]?) : ptVal g i = ptVal h i := by
  unfold ptVal; rw [e]

theorem matVal_congr {h g : Heap} {i : ℕ} (e : g[i]? = h[i]?) : matVal g i = matVal h i := by
  unfold matVal; rw [e]

theorem cpVal_congr {h g : Heap} {i : ℕ} (e : ∀ k ∈ cpObjs h i, g[k]? = h[k]?) : cpVal g i = cpVal h i := by
  unfold cpObjs at e
  unfold cpVal
  split at e
  · rename_i c dl dr kind hi
    have e0 : g[i]? = h[i]? := e i (by simp)
    rw [e0, hi]
    simp only
    rw [ptVal_congr (e c (by simp)), ptVal_congr (e dl (by simp)), ptVal_congr (e dr (by simp))]
  · rename_i hn
    have e0 : g[i]? = h[i]? := e i (by simp)
    rw [e0]
    split
    · rename_i hi; exact absurd hi (hn _ _ _ _)
    · rfl

theorem cpVals_congr {h g : Heap} {l : List ℕ} (e : ∀ i ∈ l, ∀ k ∈ cpObjs h i, g[k]? = h[k]?) : cpVals g l = cpVals h l := by
  induction l with
  | nil => rfl
  | cons i l ih =>
    simp only [cpVals]
    rw [cpVal_congr (e i (by simp)), ih (fun j hj => e j (by simp [hj]))]

/-- The value of an element depends on its objects and its transform only. -/
theorem val_congr {h g : Heap} {i : ℕ} (e : ∀ k ∈ objs h i, g[k]? = h[k]?)
    (ex : ∀ x, xfOf h i = some x → g[x]? = h[x]?) : val g i = val h i := by
  unfold objs at e
  unfold xfOf at ex
  have e0 : g[i]? = h[i]? := e i (by split <;> simp)
  unfold val
  rw [e0]
  cases hi : h[i]? with
  | none => rfl
  | some o =>
    rw [hi] at e ex
    cases o with
    | curve a cps =>
      simp only at e ex ⊢
      rw [matVal_congr (ex _ rfl), cpVals_congr (fun j hj k hk => e k (by
        simp only [List.mem_cons, List.mem_flatMap]; exact Or.inr ⟨j, hj, hk⟩))]
    | shape a cls p1 p2 r =>
      simp only at e ex ⊢
      rw [matVal_congr (ex _ rfl), ptVal_congr (e p1 (by simp)), ptVal_congr (e p2 (by simp))]
    | _ => rfl

theorem ptVal_lt {h : Heap} {i : ℕ} {v : PtVal} (e : ptVal h i = some v) : i < h.length := by
  unfold ptVal at e
  cases hi : h[i]? with
  | none => simp [hi] at e
  | some o => exact get_lt hi

theorem matVal_get {h : Heap} {i : ℕ} {m : Mat3 ℝ} (e : matVal h i = some m) : h[i]? = some (.xform m) := by
  unfold matVal at e
  split at e
  · rename_i m' hi; simp only [Option.some.injEq] at e; rw [hi, e]
  · simp at e

theorem cpVal_some {h : Heap} {i : ℕ} {v : CpVal} (e : cpVal h i = some v) :
    ∃ c dl dr, h[i]? = some (.cp c dl dr v.2.2.2) ∧ ptVal h c = some v.1 ∧ ptVal h dl = some v.2.1 ∧
      ptVal h dr = some v.2.2.1 := by
  unfold cpVal at e
  split at e
  · rename_i c dl dr kind hi
    simp only [Option.bind_eq_bind, Option.bind_eq_some_iff, Option.some.injEq] at e
    obtain ⟨a, ha, b, hb, d, hd, rfl⟩ := e
    exact ⟨c, dl, dr, hi, ha, hb, hd⟩
  · simp at e

theorem cpVals_cons {h : Heap} {i : ℕ} {l : List ℕ} {vs : List CpVal} (e : cpVals h (i :: l) = some vs) :
    ∃ v ws, vs = v :: ws ∧ cpVal h i = some v ∧ cpVals h l = some ws := by
  simp only [cpVals, Option.bind_eq_bind, Option.bind_eq_some_iff, Option.some.injEq] at e
  obtain ⟨a, ha, b, hb, rfl⟩ := e
  exact ⟨a, b, rfl, ha, hb⟩

theorem cpVals_length {h : Heap} {l : List ℕ} {vs : List CpVal} (e : cpVals h l = some vs) : l.length = vs.length := by
  induction l generalizing vs with
  | nil => simp only [cpVals, Option.some.injEq] at e; subst e; rfl
  | cons i l ih =>
    obtain ⟨v, ws, rfl, _, h2⟩ := cpVals_cons e
    simp [ih h2]

theorem ptVal_app {h : Heap} {i : ℕ} {v : PtVal} (e : ptVal h i = some v) (l : Heap) : ptVal (h ++ l) i = some v := by
  rw [ptVal_congr (List.getElem?_append_left (ptVal_lt e)), e]

theorem matVal_app {h : Heap} {i : ℕ} {m : Mat3 ℝ} (e : matVal h i = some m) (l : Heap) : matVal (h ++ l) i = some m := by
  rw [matVal_congr (List.getElem?_append_left (get_lt (matVal_get e))), e]

theorem cpVal_app {h : Heap} {i : ℕ} {v : CpVal} (e : cpVal h i = some v) (l : Heap) : cpVal (h ++ l) i = some v := by
  obtain ⟨c, dl, dr, h1, h2, h3, h4⟩ := cpVal_some e
  unfold cpVal
  rw [get_app h1]
  simp only
  rw [ptVal_app h2, ptVal_app h3, ptVal_app h4]
  rfl

theorem cpVals_app {h : Heap} {is : List ℕ} {vs : List CpVal} (e : cpVals h is = some vs) (l : Heap) :
    cpVals (h ++ l) is = some vs := by
  induction is generalizing vs with
  | nil => exact e
  | cons i is ih =>
    obtain ⟨v, ws, rfl, h1, h2⟩ := cpVals_cons e
    simp only [cpVals]
    rw [cpVal_app h1, ih h2]
    rfl

/-- What the value of an element says about its objects. -/
theorem val_some {h : Heap} {i : ℕ} {v : EVal} (e : val h i = some v) :
    (∃ a cps m vs, h[i]? = some (.curve a cps) ∧ matVal h a.xf = some m ∧ cpVals h cps = some vs ∧
      v = .curve a.name a.pb a.closed m vs) ∨
    (∃ a cls p1 p2 r m v1 v2, h[i]? = some (.shape a cls p1 p2 r) ∧ matVal h a.xf = some m ∧ ptVal h p1 = some v1 ∧
      ptVal h p2 = some v2 ∧ v = .shape a.name a.pb a.closed m cls v1 v2 r) := by
  unfold val at e
  split at e
  · rename_i a cps hi
    simp only [Option.bind_eq_bind, Option.bind_eq_some_iff, Option.some.injEq] at e
    obtain ⟨m, hm, vs, hvs, rfl⟩ := e
    exact Or.inl ⟨a, cps, m, vs, hi, hm, hvs, rfl⟩
  · rename_i a cls p1 p2 r hi
    simp only [Option.bind_eq_bind, Option.bind_eq_some_iff, Option.some.injEq] at e
    obtain ⟨m, hm, v1, h1, v2, h2, rfl⟩ := e
    exact Or.inr ⟨a, cls, p1, p2, r, m, v1, v2, hi, hm, h1, h2, rfl⟩
  · simp at e

theorem val_curve {h : Heap} {i : ℕ} {a : Attr} {cps : List ℕ} {m : Mat3 ℝ} {vs : List CpVal}
    (e : h[i]? = some (.curve a cps)) (hm : matVal h a.xf = some m) (hv : cpVals h cps = some vs) :
    val h i = some (.curve a.name a.pb a.closed m vs) := by
  unfold val; rw [e]; simp only; rw [hm, hv]; rfl

theorem val_shape {h : Heap} {i : ℕ} {a : Attr} {cls : Cls} {p1 p2 : ℕ} {r : ℝ} {m : Mat3 ℝ} {v1 v2 : PtVal}
    (e : h[i]? = some (.shape a cls p1 p2 r)) (hm : matVal h a.xf = some m) (h1 : ptVal h p1 = some v1)
    (h2 : ptVal h p2 = some v2) : val h i = some (.shape a.name a.pb a.closed m cls v1 v2 r) := by
  unfold val; rw [e]; simp only; rw [hm, h1, h2]; rfl

theorem val_app {h : Heap} {i : ℕ} {v : EVal} (e : val h i = some v) (l : Heap) : val (h ++ l) i = some v := by
  rcases val_some e with ⟨a, cps, m, vs, h1, h2, h3, rfl⟩ | ⟨a, cls, p1, p2, r, m, v1, v2, h1, h2, h3, h4, rfl⟩
  · exact val_curve (get_app h1 l) (matVal_app h2 l) (cpVals_app h3 l)
  · exact val_shape (get_app h1 l) (matVal_app h2 l) (ptVal_app h3 l) (ptVal_app h4 l)

/-- `fixed()` of a point or vector: one new object, of the same value but for the name. -/
theorem derive_fixed {h : Heap} {i : ℕ} {v : PtVal} (e : ptVal h i = some v) :
    ∃ o, derive fixedObj h i = .ok (h ++ [o], h.length) ∧
      ptVal (h ++ [o]) h.length = some (v.1, v.2.1, fixName v.2.2.1, v.2.2.2) := by
  unfold ptVal at e
  split at e
  · rename_i x y n hi
    simp only [Option.some.injEq] at e
    subst e
    refine ⟨.pt x y (fixName n), ?_, ?_⟩
    · simp [derive, hi, fixedObj]
    · simp [ptVal]
  · rename_i x y hi
    simp only [Option.some.injEq] at e
    subst e
    refine ⟨.vec x y, ?_, ?_⟩
    · simp [derive, hi, fixedObj]
    · simp [ptVal, fixName]
  · simp at e

/-- `copy()` of a point or vector: one new object, of the same value but for the name. -/
theorem derive_copied {h : Heap} {i : ℕ} {v : PtVal} (e : ptVal h i = some v) :
    ∃ o, derive copiedObj h i = .ok (h ++ [o], h.length) ∧
      ptVal (h ++ [o]) h.length = some (v.1, v.2.1, none, v.2.2.2) := by
  unfold ptVal at e
  split at e
  · rename_i x y n hi
    simp only [Option.some.injEq] at e
    subst e
    refine ⟨.pt x y none, ?_, ?_⟩
    · simp [derive, hi, copiedObj]
    · simp [ptVal]
  · rename_i x y hi
    simp only [Option.some.injEq] at e
    subst e
    refine ⟨.vec x y, ?_, ?_⟩
    · simp [derive, hi, copiedObj]
    · simp [ptVal]
  · simp at e

/-- The value of a point after `fixed()`. -/
def fixPt (v : PtVal) : PtVal := (v.1, v.2.1, fixName v.2.2.1, v.2.2.2)

/-- The value of a control point after `fixed()`. -/
def fixCpVal (v : CpVal) : CpVal := (fixPt v.1, fixPt v.2.1, fixPt v.2.2.1, v.2.2.2)

theorem fixCp_ok {h : Heap} {i : ℕ} {v : CpVal} (e : cpVal h i = some v) :
    ∃ new j, fixCp h i = .ok (h ++ new, j) ∧ cpVal (h ++ new) j = some (fixCpVal v) ∧
      ∀ k ∈ cpObjs (h ++ new) j, h.length ≤ k := by
  obtain ⟨c, dl, dr, h1, h2, h3, h4⟩ := cpVal_some e
  obtain ⟨o1, d1, p1⟩ := derive_fixed h2
  obtain ⟨o2, d2, p2⟩ := derive_fixed (ptVal_app h3 [o1])
  obtain ⟨o3, d3, p3⟩ := derive_fixed (ptVal_app (ptVal_app h4 [o1]) [o2])
  refine ⟨[o1, o2, o3, .cp h.length (h ++ [o1]).length (h ++ [o1] ++ [o2]).length v.2.2.2], (h ++ [o1] ++ [o2] ++ [o3]).length,
    ?_, ?_, ?_⟩
  · unfold fixCp
    rw [h1]
    simp only [bind, Except.bind]
    rw [d1]; simp only
    rw [d2]; simp only
    rw [d3]; simp
  · have hg : (h ++ [o1, o2, o3, .cp h.length (h ++ [o1]).length (h ++ [o1] ++ [o2]).length v.2.2.2]) =
        (h ++ [o1] ++ [o2] ++ [o3]) ++ [.cp h.length (h ++ [o1]).length (h ++ [o1] ++ [o2]).length v.2.2.2] := by simp
    rw [hg]
    unfold cpVal
    rw [get_new]
    simp only
    rw [ptVal_app (ptVal_app (ptVal_app p1 _) _) _, ptVal_app (ptVal_app p2 _) _, ptVal_app p3 _]
    rfl
  · have hg : (h ++ [o1, o2, o3, .cp h.length (h ++ [o1]).length (h ++ [o1] ++ [o2]).length v.2.2.2]) =
        (h ++ [o1] ++ [o2] ++ [o3]) ++ [.cp h.length (h ++ [o1]).length (h ++ [o1] ++ [o2]).length v.2.2.2] := by simp
    rw [hg]
    unfold cpObjs
    rw [get_new]
    simp

/-- The objects of a control point that is in place are not changed by appending. -/
theorem cpObjs_app {h : Heap} {i : ℕ} {v : CpVal} (e : cpVal h i = some v) (l : Heap) :
    cpObjs (h ++ l) i = cpObjs h i := by
  obtain ⟨c, dl, dr, h1, _⟩ := cpVal_some e
  unfold cpObjs
  rw [get_app h1, h1]

theorem cpVals_objs_app {h : Heap} {is : List ℕ} {vs : List CpVal} (e : cpVals h is = some vs) (l : Heap) :
    is.flatMap (cpObjs (h ++ l)) = is.flatMap (cpObjs h) := by
  induction is generalizing vs with
  | nil => rfl
  | cons i is ih =>
    obtain ⟨v, ws, rfl, h1, h2⟩ := cpVals_cons e
    simp only [List.flatMap_cons]
    rw [cpObjs_app h1, ih h2]

theorem fixCps_ok {h : Heap} {is : List ℕ} {vs : List CpVal} (e : cpVals h is = some vs) :
    ∃ new js, fixCps h is = .ok (h ++ new, js) ∧ cpVals (h ++ new) js = some (vs.map fixCpVal) ∧
      ∀ k ∈ js.flatMap (cpObjs (h ++ new)), h.length ≤ k := by
  induction is generalizing h vs with
  | nil =>
    simp only [cpVals, Option.some.injEq] at e
    subst e
    exact ⟨[], [], by simp [fixCps], by simp [cpVals], by simp⟩
  | cons i is ih =>
    obtain ⟨v, ws, rfl, h1, h2⟩ := cpVals_cons e
    obtain ⟨n1, j, f1, c1, o1⟩ := fixCp_ok h1
    obtain ⟨n2, js, f2, c2, o2⟩ := ih (cpVals_app h2 n1)
    refine ⟨n1 ++ n2, j :: js, ?_, ?_, ?_⟩
    · simp only [fixCps, bind, Except.bind]
      rw [f1]; simp only
      rw [f2]; simp
    · rw [← List.append_assoc]
      simp only [cpVals]
      rw [cpVal_app c1, c2]
      rfl
    · rw [← List.append_assoc]
      intro k hk
      rw [List.flatMap_cons, List.mem_append, cpObjs_app c1] at hk
      rcases hk with hk | hk
      · exact o1 k hk
      · have := o2 k hk
        simp only [List.length_append] at this
        omega

theorem fixName_none : fixName none = none := rfl

theorem fixPt_id {v : PtVal} (e : v.2.2.1 = none) : fixPt v = v := by
  obtain ⟨x, y, n, b⟩ := v
  simp only at e
  subst e
  rfl

theorem fixCpVal_id {v : CpVal} (e : v.Unnamed) : fixCpVal v = v := by
  obtain ⟨c, dl, dr, k⟩ := v
  obtain ⟨h1, h2, h3⟩ := e
  simp only at h1 h2 h3
  simp only [fixCpVal, fixPt_id h1, fixPt_id h2, fixPt_id h3]

/-- The value of an element after `copy()`. -/
def copyVal : EVal → EVal
  | .curve n pb c m cps => .curve n pb c m (cps.map fixCpVal)
  | .shape n pb c m cls p1 p2 r => .shape n pb c m cls (p1.1, p1.2.1, none, p1.2.2.2) (p2.1, p2.2.1, none, p2.2.2.2) r

theorem copyVal_id {v : EVal} (e : v.Unnamed) : copyVal v = v := by
  cases v with
  | curve n pb c m cps =>
    simp only [copyVal, EVal.curve.injEq, true_and]
    simp only [EVal.Unnamed] at e
    conv_rhs => rw [← List.map_id cps]
    exact List.map_congr_left fun v hv => fixCpVal_id (e v hv)
  | shape n pb c m cls p1 p2 r =>
    obtain ⟨x, y, n1, b⟩ := p1
    obtain ⟨x', y', n2, b'⟩ := p2
    obtain ⟨e1, e2⟩ := e
    simp only at e1 e2
    subst e1 e2
    rfl

theorem copyBasic_ok {h : Heap} {i : ℕ} {v : EVal} (e : val h i = some v) (hm : v.Made) :
    ∃ new j, copyBasic h i = .ok (h ++ new, j) ∧ val (h ++ new) j = some (copyVal v) ∧
      xfOf (h ++ new) j = xfOf h i ∧ (∀ k ∈ objs (h ++ new) j, h.length ≤ k) ∧ j < (h ++ new).length := by
  rcases val_some e with ⟨a, cps, m, vs, h1, h2, h3, rfl⟩ | ⟨a, cls, p1, p2, r, m, v1, v2, h1, h2, h3, h4, rfl⟩
  · obtain ⟨n1, js, f1, c1, o1⟩ := fixCps_ok h3
    refine ⟨n1 ++ [.curve a js], (h ++ n1).length, ?_, ?_, ?_, ?_, ?_⟩
    · unfold copyBasic
      rw [h1]
      simp only [bind, Except.bind]
      rw [f1]; simp only
      have : checkClosed a.pb a.closed = .ok () := by
        unfold checkClosed
        simp only [EVal.Made] at hm
        rw [if_neg]
        cases hf : a.pb.filled with
        | false => simp
        | true => simp [hm hf]
      rw [this]; simp
    · rw [← List.append_assoc]
      exact val_curve (get_new _ _) (matVal_app (matVal_app h2 _) _) (cpVals_app c1 _)
    · rw [← List.append_assoc]
      unfold xfOf
      rw [get_new, h1]
    · rw [← List.append_assoc]
      unfold objs
      rw [get_new]
      simp only [List.mem_cons, cpVals_objs_app c1]
      rintro k (rfl | hk)
      · simp
      · exact o1 k hk
    · simp
  · obtain ⟨o1, d1, q1⟩ := derive_copied h3
    obtain ⟨o2, d2, q2⟩ := derive_copied (ptVal_app h4 [o1])
    obtain ⟨o3, d3, q3⟩ := derive_fixed (ptVal_app q1 [o2])
    obtain ⟨o4, d4, q4⟩ := derive_fixed (ptVal_app q2 [o3])
    have hg : h ++ [o1, o2, o3, o4, .shape a cls (h ++ [o1] ++ [o2]).length (h ++ [o1] ++ [o2] ++ [o3]).length r] =
      (h ++ [o1] ++ [o2] ++ [o3] ++ [o4]) ++
        [.shape a cls (h ++ [o1] ++ [o2]).length (h ++ [o1] ++ [o2] ++ [o3]).length r] := by simp
    refine ⟨[o1, o2, o3, o4, .shape a cls (h ++ [o1] ++ [o2]).length (h ++ [o1] ++ [o2] ++ [o3]).length r],
      (h ++ [o1] ++ [o2] ++ [o3] ++ [o4]).length, ?_, ?_, ?_, ?_, ?_⟩
    · unfold copyBasic
      rw [h1]
      simp only [bind, Except.bind]
      rw [d1]; simp only
      rw [d2]; simp only
      rw [if_neg (by simp [hm.1]), d3]; simp only
      rw [d4]; simp
    · rw [hg]
      refine val_shape (get_new _ _) ?_ (ptVal_app (ptVal_app q3 _) _) (ptVal_app q4 _)
      exact matVal_app (matVal_app (matVal_app (matVal_app (matVal_app h2 _) _) _) _) _
    · rw [hg]
      unfold xfOf
      rw [get_new, h1]
    · rw [hg]
      unfold objs
      rw [get_new]
      simp
    · simp

/-- A history that spares object `k` leaves it as it is. -/
theorem run_spares {h : Heap} {k : ℕ} {ops : List Op} (hk : k < h.length) (hs : ∀ op ∈ ops, op.Spares k) :
    (run h ops)[k]? = h[k]? := by
  unfold run
  induction ops generalizing h with
  | nil => rfl
  | cons op ops ih =>
    simp only [List.foldl_cons]
    have h1 : (Op.run h op)[k]? = h[k]? := by
      have := hs op (by simp)
      cases op with
      | write j o => simp only [Op.Spares] at this; simp only [Op.run]; rw [List.getElem?_set_ne this]
      | alloc o => simp only [Op.run]; rw [List.getElem?_append_left hk]
    have hl : k < (Op.run h op).length := by
      cases op with
      | write j o => simpa [Op.run] using hk
      | alloc o => simp [Op.run]; omega
    rw [ih hl (fun o ho => hs o (by simp [ho])), h1]

theorem objs_lt {h : Heap} {i : ℕ} {v : EVal} (e : val h i = some v) : ∀ k ∈ objs h i, k < h.length := by
  rcases val_some e with ⟨a, cps, m, vs, h1, h2, h3, rfl⟩ | ⟨a, cls, p1, p2, r, m, v1, v2, h1, h2, h3, h4, rfl⟩
  · unfold objs
    rw [h1]
    simp only [List.mem_cons]
    rintro k (rfl | hk)
    · exact get_lt h1
    · clear h1 h2 e
      induction cps generalizing vs with
      | nil => simp at hk
      | cons i is ih =>
        obtain ⟨v, ws, rfl, c1, c2⟩ := cpVals_cons h3
        rw [List.flatMap_cons, List.mem_append] at hk
        rcases hk with hk | hk
        · obtain ⟨c, dl, dr, g1, g2, g3, g4⟩ := cpVal_some c1
          unfold cpObjs at hk
          rw [g1] at hk
          simp only [List.mem_cons, List.not_mem_nil, or_false] at hk
          rcases hk with rfl | rfl | rfl | rfl
          · exact get_lt g1
          · exact ptVal_lt g2
          · exact ptVal_lt g3
          · exact ptVal_lt g4
        · exact ih ws c2 hk
  · unfold objs
    rw [h1]
    simp only [List.mem_cons, List.not_mem_nil, or_false]
    rintro k (rfl | rfl | rfl)
    · exact get_lt h1
    · exact ptVal_lt h3
    · exact ptVal_lt h4

theorem xfOf_lt {h : Heap} {i x : ℕ} {v : EVal} (e : val h i = some v) (ex : xfOf h i = some x) : x < h.length := by
  rcases val_some e with ⟨a, cps, m, vs, h1, h2, h3, rfl⟩ | ⟨a, cls, p1, p2, r, m, v1, v2, h1, h2, h3, h4, rfl⟩
  · unfold xfOf at ex
    rw [h1] at ex
    simp only [Option.some.injEq] at ex
    subst ex
    exact get_lt (matVal_get h2)
  · unfold xfOf at ex
    rw [h1] at ex
    simp only [Option.some.injEq] at ex
    subst ex
    exact get_lt (matVal_get h2)

/-- A history that spares the objects and the transform of an element leaves its value as it is. -/
theorem val_run {h : Heap} {i : ℕ} {v : EVal} {ops : List Op} (e : val h i = some v)
    (hs : ∀ op ∈ ops, ∀ k ∈ objs h i, op.Spares k) (hx : ∀ op ∈ ops, ∀ x, xfOf h i = some x → op.Spares x) :
    val (run h ops) i = some v := by
  rw [val_congr (h := h), e]
  · intro k hk
    exact run_spares (objs_lt e k hk) (fun op ho => hs op ho k hk)
  · intro x hxx
    exact run_spares (xfOf_lt e hxx) (fun op ho => hx op ho x hxx)

/-- The value of a control point after `restore`. -/
def plainCp (v : CpVal) : CpVal :=
  ((v.1.1, v.1.2.1, none, v.1.2.2.2), (v.2.1.1, v.2.1.2.1, none, v.2.1.2.2.2),
    (v.2.2.1.1, v.2.2.1.2.1, none, v.2.2.1.2.2.2), v.2.2.2)

theorem plainCp_id {v : CpVal} (e : v.Unnamed) : plainCp v = v := by
  obtain ⟨⟨a, b, c, d⟩, ⟨a', b', c', d'⟩, ⟨a2, b2, c2, d2⟩, k⟩ := v
  obtain ⟨h1, h2, h3⟩ := e
  simp only at h1 h2 h3
  subst h1 h2 h3
  rfl

theorem restoreCp_ok {h : Heap} {i j : ℕ} {v : CpVal} (hi : ∃ c dl dr k, h[i]? = some (.cp c dl dr k))
    (e : cpVal h j = some v) :
    ∃ h', restoreCp h i j = .ok h' ∧ cpVal h' i = some (plainCp v) ∧ (∀ k, k < h.length → k ≠ i → h'[k]? = h[k]?) ∧
      h.length ≤ h'.length ∧ (∀ k ∈ cpObjs h' i, k = i ∨ h.length ≤ k ∧ k < h'.length) := by
  obtain ⟨c0, dl0, dr0, k0, hi⟩ := hi
  obtain ⟨c, dl, dr, h1, h2, h3, h4⟩ := cpVal_some e
  obtain ⟨o1, d1, p1⟩ := derive_copied h2
  obtain ⟨o2, d2, p2⟩ := derive_copied (ptVal_app h3 [o1])
  obtain ⟨o3, d3, p3⟩ := derive_copied (ptVal_app (ptVal_app h4 [o1]) [o2])
  have hil := get_lt hi
  have hset : ((h ++ [o1] ++ [o2] ++ [o3]).set i
      (.cp h.length (h ++ [o1]).length (h ++ [o1] ++ [o2]).length v.2.2.2))[i]? =
      some (.cp h.length (h ++ [o1]).length (h ++ [o1] ++ [o2]).length v.2.2.2) := by
    rw [List.getElem?_set_self]; simp; omega
  refine ⟨(h ++ [o1] ++ [o2] ++ [o3]).set i (.cp h.length (h ++ [o1]).length (h ++ [o1] ++ [o2]).length v.2.2.2),
    ?_, ?_, ?_, ?_, ?_⟩
  · unfold restoreCp
    rw [hi, h1]
    simp only [bind, Except.bind]
    rw [d1]; simp only
    rw [d2]; simp only
    rw [d3]
  · unfold cpVal
    rw [hset]
    simp only
    rw [ptVal_congr (List.getElem?_set_ne (by omega)), ptVal_congr (List.getElem?_set_ne (by simp; omega)),
      ptVal_congr (List.getElem?_set_ne (by simp; omega)),
      ptVal_app (ptVal_app p1 _) _, ptVal_app p2 _, p3]
    rfl
  · intro k hk hne
    rw [List.getElem?_set_ne (Ne.symm hne), List.append_assoc, List.append_assoc, List.getElem?_append_left hk]
  · simp
  · unfold cpObjs
    rw [hset]
    simp

theorem restoreCps_ok {h : Heap} {is js : List ℕ} {vs : List CpVal} (hl : is.length = js.length) (hn : is.Nodup)
    (hi : ∀ i ∈ is, ∃ c dl dr k, h[i]? = some (.cp c dl dr k)) (e : cpVals h js = some vs)
    (hd : ∀ i ∈ is, ∀ j ∈ js, i ∉ cpObjs h j) :
    ∃ h', restoreCps h is js = .ok h' ∧ cpVals h' is = some (vs.map plainCp) ∧
      (∀ k, k < h.length → k ∉ is → h'[k]? = h[k]?) ∧ h.length ≤ h'.length := by
  induction is generalizing h js vs with
  | nil =>
    cases js with
    | cons => simp at hl
    | nil =>
      simp only [cpVals, Option.some.injEq] at e
      subst e
      exact ⟨h, by simp [restoreCps], by simp [cpVals], by simp, le_rfl⟩
  | cons i is ih =>
    cases js with
    | nil => simp at hl
    | cons j js =>
      obtain ⟨v, ws, rfl, c1, c2⟩ := cpVals_cons e
      obtain ⟨h1, r1, v1, s1, l1, o1⟩ := restoreCp_ok (hi i (by simp)) c1
      have hnd := List.nodup_cons.1 hn
      have hil : ∀ a ∈ is, a < h.length := fun a ha => by
        obtain ⟨c, dl, dr, k, hg⟩ := hi a (by simp [ha]); exact get_lt hg
      have hcl : ∀ (js : List ℕ) (ws : List CpVal), cpVals h js = some ws → ∀ a ∈ js, ∀ k ∈ cpObjs h a, k < h.length := by
        intro js ws hw
        induction js generalizing ws with
        | nil => simp
        | cons a js ih2 =>
          obtain ⟨v, ws', rfl, c1, c2⟩ := cpVals_cons hw
          intro b hb k hk
          rcases List.mem_cons.1 hb with rfl | hb
          · obtain ⟨c, dl, dr, g1, g2, g3, g4⟩ := cpVal_some c1
            unfold cpObjs at hk
            rw [g1] at hk
            simp only [List.mem_cons, List.not_mem_nil, or_false] at hk
            rcases hk with rfl | rfl | rfl | rfl
            · exact get_lt g1
            · exact ptVal_lt g2
            · exact ptVal_lt g3
            · exact ptVal_lt g4
          · exact ih2 _ c2 b hb k hk
      have hsame : ∀ a ∈ js, ∀ k ∈ cpObjs h a, h1[k]? = h[k]? := by
        intro a ha k hk
        refine s1 k (hcl js ws c2 a ha k hk) ?_
        rintro rfl
        exact hd k (by simp) a (by simp [ha]) hk
      have hobj : ∀ a ∈ js, cpObjs h1 a = cpObjs h a := by
        intro a ha
        have : h1[a]? = h[a]? := hsame a ha a (by unfold cpObjs; split <;> simp)
        unfold cpObjs
        rw [this]
      obtain ⟨h2, r2, v2, s2, l2⟩ := ih (h := h1) (js := js) (vs := ws) (by simpa using hl) hnd.2
        (fun a ha => by
          obtain ⟨c, dl, dr, k, hg⟩ := hi a (by simp [ha])
          refine ⟨c, dl, dr, k, ?_⟩
          rw [s1 a (hil a ha) (by rintro rfl; exact hnd.1 ha), hg])
        (by rw [cpVals_congr hsame, c2])
        (fun a ha b hb => by rw [hobj b hb]; exact hd a (by simp [ha]) b (by simp [hb]))
      refine ⟨h2, ?_, ?_, ?_, l1.trans l2⟩
      · simp only [restoreCps, bind, Except.bind]
        rw [r1]; simp only
        exact r2
      · simp only [cpVals, List.map_cons]
        have : cpVal h2 i = cpVal h1 i := by
          apply cpVal_congr
          intro k hk
          rcases o1 k hk with rfl | ⟨hk1, hk2⟩
          · refine s2 k ?_ hnd.1
            obtain ⟨c, dl, dr, kk, hg⟩ := hi k (by simp)
            exact lt_of_lt_of_le (get_lt hg) l1
          · refine s2 k hk2 ?_
            intro hmem
            exact absurd (hil k hmem) (by omega)
        rw [this, v1, v2]
        rfl
      · intro k hk hmem
        simp only [List.mem_cons, not_or] at hmem
        rw [s2 k (lt_of_lt_of_le hk l1) hmem.2, s1 k hk hmem.1]

end X7.EH
