import Verif.Spec.Linked
import Verif.Lemmas.PointHeap
import Verif.Props.PointHeap

namespace X7.LK
open PH

/-- The objects are of the right kinds and refer to existing ones. -/
structure Ok (w : World) : Prop where
  wf : WF w.pts
  cp : ∀ (i : ℕ) (o : Cp), w.cps[i]? = some o → isBasePoint w.pts o.c ∧ isVec w.pts o.dl ∧ isVec w.pts o.dr
  curve : ∀ (k : ℕ) (c : Curve), w.curves[k]? = some c → ∀ p ∈ c.cps, p < w.cps.length

theorem ok_empty : Ok World.empty :=
  ⟨wf_nil, fun i o h => by simp [World.empty] at h, fun k c h => by simp [World.empty] at h⟩

theorem lt_of_isVec {h : Heap ℝ} {i : ℕ} (hi : isVec h i) : i < h.length := by
  by_contra hc
  simp [isVec, List.getElem?_eq_none (not_lt.1 hc)] at hi

theorem isVec_append {h l : Heap ℝ} {i : ℕ} (hi : isVec h i) : isVec (h ++ l) i := by
  have := lt_of_isVec hi
  simpa [isVec, List.getElem?_append_left this] using hi

theorem isVec_set {h : Heap ℝ} {i : ℕ} {o o' : PObj ℝ} (ho : h[i]? = some o) (hc : sameClass o o') (k : ℕ) :
    isVec (h.set i o') k = isVec h k := by
  have hlt : i < h.length := (List.getElem?_eq_some_iff.1 ho).1
  by_cases hk : i = k
  · subst hk
    simp only [isVec, List.getElem?_set_self hlt, ho]
    cases o <;> cases o' <;> simp_all [sameClass]
  · simp [isVec, List.getElem?_set_ne hk]

/-- A call on points appends objects or sets one. -/
theorem step_shape (h : Heap ℝ) (op : POp ℝ) :
    (∃ l, (PH.step h op).1 = h ++ l) ∨
    ∃ i o o', h[i]? = some o ∧ sameClass o o' ∧ (PH.step h op).1 = h.set i o' ∧ Mutates i op := by
  have same : ∃ l, h = h ++ l := ⟨[], by simp⟩
  have st : ∀ (i : ℕ) (o o' : PObj ℝ), h[i]? = some o → sameClass o o' → Mutates i op →
      ∃ j a b, h[j]? = some a ∧ sameClass a b ∧ h.set i o' = h.set j b ∧ Mutates j op :=
    fun i o o' h1 h2 h3 => ⟨i, o, o', h1, h2, rfl, h3⟩
  cases op with
  | setXY i x y =>
    simp only [PH.step]
    split
    · rename_i hi; exact .inr (st _ _ _ hi trivial rfl)
    · rename_i hi; exact .inr (st _ _ _ hi trivial rfl)
    · exact .inl same
    · exact .inl same
  | setFrom i j =>
    simp only [PH.step]
    split
    · rename_i hi
      split
      · exact .inr (st _ _ _ hi trivial rfl)
      · exact .inl same
    · rename_i hi
      split
      · exact .inr (st _ _ _ hi trivial rfl)
      · exact .inl same
    · exact .inl same
    · exact .inl same
  | setDelta i dx dy =>
    simp only [PH.step]
    split
    · rename_i hi; exact .inr (st _ _ _ hi rfl rfl)
    · exact .inl same
  | setScale i s =>
    simp only [PH.step]
    split
    · rename_i hi; exact .inr (st _ _ _ hi rfl rfl)
    · exact .inl same
  | _ => left; simp only [PH.step]; (repeat' split) <;> first | exact same | exact ⟨_, rfl⟩

theorem step_base {h : Heap ℝ} (op : POp ℝ) {i : ℕ} (hi : isBasePoint h i) : isBasePoint (PH.step h op).1 i := by
  rcases step_shape h op with ⟨l, e⟩ | ⟨j, o, o', h1, h2, e, -⟩
  · rw [e]; exact isBasePoint_append hi
  · rw [e, (class_set h1 h2 i).1]; exact hi

theorem step_isVec {h : Heap ℝ} (op : POp ℝ) {i : ℕ} (hi : isVec h i) : isVec (PH.step h op).1 i := by
  rcases step_shape h op with ⟨l, e⟩ | ⟨j, o, o', h1, h2, e, -⟩
  · rw [e]; exact isVec_append hi
  · rw [e, isVec_set h1 h2 i]; exact hi

/-! Reading. -/

/-- Reading depends only on the objects used. -/
theorem xy_uses {h h' : Heap ℝ} (i : ℕ) (ha : ∀ k, Uses h i k → h'[k]? = h[k]?) : xy h' i = xy h i := by
  induction i using Nat.strong_induction_on with
  | _ i ih =>
    rw [xy, xy, ha i .self]
    cases hi : h[i]? with
    | none => rfl
    | some o =>
      cases o with
      | point => rfl
      | vec => rfl
      | rel dx dy b n =>
        by_cases hb : b < i
        · have := ih b hb (fun k hk => ha k (.rel hi hk))
          simp only [hb, dif_pos, this]
        · simp only [hb, dif_neg, not_false_iff]
      | pcalc r s n =>
        by_cases hr : r < i
        · simp only [hr, if_true, ha r (.pcalc hi .self)]
          cases hrr : h[r]? with
          | none => rfl
          | some o =>
            cases o with
            | rel dx dy b n =>
              by_cases hb : b < i
              · have := ih b hb (fun k hk => ha k (.pcalc hi (.rel hrr hk)))
                simp only [hb, dif_pos, this]
              · simp only [hb, dif_neg, not_false_iff]
            | pcalc b _ _ =>
              by_cases hb : b < i
              · have := ih b hb (fun k hk => ha k (.pcalc hi (.pcalc hrr hk)))
                simp only [hb, dif_pos, this]
              · simp only [hb, dif_neg, not_false_iff]
            | _ => rfl
        · simp only [hr, if_false]
      | vecRel p q =>
        by_cases hb : p < i ∧ q < i
        · have e1 := ih p hb.1 (fun k hk => ha k (.fst hi hk))
          have e2 := ih q hb.2 (fun k hk => ha k (.snd hi hk))
          simp only [hb, and_self, dif_pos, e1, e2]
        · simp only [hb, dif_neg, not_false_iff]

theorem uses_lt {h : Heap ℝ} (hw : WF h) {i j : ℕ} (hu : Uses h i j) : j ≤ i := by
  induction hu with
  | self => exact le_rfl
  | rel hi _ ih => exact ih.trans (hw _ _ hi).1.le
  | pcalc hi _ ih => exact ih.trans (hw _ _ hi).1.le
  | fst hi _ ih => exact ih.trans (hw _ _ hi).1.le
  | snd hi _ ih => exact ih.trans (hw _ _ hi).2.1.le

theorem depends_agree {h h' : Heap ℝ} (hw : WF h) (i b : ℕ) (ha : ∀ k ≤ i, h'[k]? = h[k]?) : Depends h' i b ↔ Depends h i b := by
  induction i using Nat.strong_induction_on with
  | _ i ih =>
    have ih' : ∀ k, k < i → (Depends h' k b ↔ Depends h k b) := fun k hk => ih k hk (fun m hm => ha m (hm.trans hk.le))
    constructor
    · intro hd
      cases hd with
      | point e => exact .point ((ha _ le_rfl) ▸ e)
      | rel e hd =>
        rw [ha _ le_rfl] at e
        exact .rel e ((ih' _ (hw _ _ e).1).1 hd)
      | pcalc e er hd =>
        rw [ha _ le_rfl] at e
        have hr := (hw _ _ e).1
        rw [ha _ hr.le] at er
        exact .pcalc e er ((ih' _ ((hw _ _ er).1.trans hr)).1 hd)
    · intro hd
      cases hd with
      | point e => exact .point (by rw [ha _ le_rfl]; exact e)
      | rel e hd => exact .rel (by rw [ha _ le_rfl]; exact e) ((ih' _ (hw _ _ e).1).2 hd)
      | pcalc e er hd =>
        have hr := (hw _ _ e).1
        exact .pcalc (by rw [ha _ le_rfl]; exact e) (by rw [ha _ hr.le]; exact er) ((ih' _ ((hw _ _ er).1.trans hr)).2 hd)

theorem depends_append {h l : Heap ℝ} (hw : WF h) {i b : ℕ} (hi : i < h.length) : Depends (h ++ l) i b ↔ Depends h i b :=
  depends_agree hw i b fun _ hk => List.getElem?_append_left (lt_of_le_of_lt hk hi)

theorem depends_le {h : Heap ℝ} (hw : WF h) {i b : ℕ} (hd : Depends h i b) : b ≤ i := by
  induction hd with
  | point => exact le_rfl
  | rel e _ ih => exact ih.trans (hw _ _ e).1.le
  | pcalc e er _ ih => exact ih.trans ((hw _ _ er).1.trans (hw _ _ e).1).le

theorem follow_append {h l : Heap ℝ} (hw : WF h) {i b : ℕ} (hi : i < h.length) : follow (h ++ l) b i = follow h b i := by
  simp only [follow]
  by_cases hd : Depends h i b
  · rw [if_pos hd, if_pos ((depends_append hw hi).2 hd)]
  · rw [if_neg hd, if_neg (fun hc => hd ((depends_append hw hi).1 hc))]

theorem swing_append {h l : Heap ℝ} (hw : WF h) {i b : ℕ} (hi : i < h.length) : swing (h ++ l) b i = swing h b i := by
  simp only [swing, List.getElem?_append_left hi]
  cases e : h[i]? with
  | none => rfl
  | some o =>
    cases o with
    | vecRel p q =>
      have w := hw _ _ e
      simp only [follow_append hw (w.1.trans hi), follow_append hw (w.2.1.trans hi)]
    | _ => rfl

theorem readVec_append {h l : Heap ℝ} {i : ℕ} (hi : i < h.length) : readVec (h ++ l) i = readVec h i := by
  simp only [readVec, xy_append hi]

theorem readObj_append {h l : Heap ℝ} {o : Cp} (h1 : o.c < h.length) (h2 : o.dl < h.length) (h3 : o.dr < h.length) :
    readObj (h ++ l) o = readObj h o := by
  simp only [readObj, xy_append h1, readVec_append h2, readVec_append h3]

theorem readObj_uses {h h' : Heap ℝ} {o : Cp}
    (ha : ∀ k, Uses h o.c k ∨ Uses h o.dl k ∨ Uses h o.dr k → h'[k]? = h[k]?) : readObj h' o = readObj h o := by
  have e1 := xy_uses o.c (fun k hk => ha k (.inl hk))
  have e2 := xy_uses o.dl (fun k hk => ha k (.inr (.inl hk)))
  have e3 := xy_uses o.dr (fun k hk => ha k (.inr (.inr hk)))
  simp only [readObj, readVec, e1, e2, e3]

theorem readObj_ok {h : Heap ℝ} {o : Cp} {v : CP ℝ} :
    readObj h o = .ok v ↔ xy h o.c = .ok v.c ∧ readVec h o.dl = .ok v.dl ∧ readVec h o.dr = .ok v.dr ∧ o.kind = v.kind := by
  simp only [readObj]
  cases xy h o.c <;> simp
  cases readVec h o.dl <;> simp
  cases readVec h o.dr <;> simp
  constructor
  · rintro rfl; exact ⟨rfl, rfl, rfl, rfl⟩
  · rintro ⟨rfl, rfl, rfl, e⟩; rw [e]

theorem readVec_ok {h : Heap ℝ} {i : ℕ} {v : Vec ℝ} : readVec h i = .ok v ↔ xy h i = .ok ⟨v.x, v.y⟩ := by
  simp only [readVec]
  cases xy h i with
  | error e => simp
  | ok p =>
    simp only [Except.ok.injEq]
    constructor
    · rintro rfl; rfl
    · rintro rfl; rfl

/-! Copies of points and vectors. -/

theorem vec_cases {h : Heap ℝ} (hw : WF h) {i : ℕ} (hi : isVec h i) :
    (∃ x y, h[i]? = some (.vec x y)) ∨
    ∃ p q, h[i]? = some (.vecRel p q) ∧ p < i ∧ q < i ∧ isBasePoint h p ∧ isBasePoint h q := by
  cases ho : h[i]? with
  | none => simp [isVec, ho] at hi
  | some o =>
    have w := hw i o ho
    cases o with
    | vec x y => exact .inl ⟨x, y, rfl⟩
    | vecRel p q => exact .inr ⟨p, q, rfl, w⟩
    | _ => simp [isVec, ho] at hi

theorem xy_vec {h : Heap ℝ} {i : ℕ} {x y : ℝ} (hi : h[i]? = some (.vec x y)) : xy h i = .ok ⟨x, y⟩ := by
  rw [xy, hi]

/-- A copied point or plain vector, put behind the objects, reads as the original. -/
theorem xy_copyObj {h l : Heap ℝ} (hw : WF h) {i n : ℕ} {o : PObj ℝ} (ho : h[i]? = some o) (hn : h.length ≤ n)
    (hl : (h ++ l)[n]? = some (copyObj o)) : xy (h ++ l) n = xy h i := by
  have hi : i < h.length := (List.getElem?_eq_some_iff.1 ho).1
  have w := hw i o ho
  rw [xy, xy, hl, ho]
  cases o with
  | point => rfl
  | vec => rfl
  | rel dx dy b m =>
    have hb : b < n := by have := w.1; omega
    simp only [copyObj, hb, w.1, dif_pos, xy_append (w.1.trans hi)]
  | pcalc r s m =>
    have hr : r < n := by have := w.1; omega
    simp only [copyObj, hr, w.1, if_true, List.getElem?_append_left (w.1.trans hi)]
    cases hrr : h[r]? with
    | none => rfl
    | some a =>
      have wr := hw r a hrr
      cases a with
      | rel dx dy b m' =>
        have hb : b < i := wr.1.trans w.1
        have hb' : b < n := by omega
        simp only [hb, hb', dif_pos, xy_append (hb.trans hi)]
      | pcalc b s' m' =>
        have hb : b < i := wr.1.trans w.1
        have hb' : b < n := by omega
        simp only [hb, hb', dif_pos, xy_append (hb.trans hi)]
      | _ => rfl
  | vecRel p q =>
    have hp : p < n := by have := w.1; omega
    have hq : q < n := by have := w.2.1; omega
    simp only [copyObj, hp, hq, w.1, w.2.1, and_self, dif_pos, xy_append (w.1.trans hi), xy_append (w.2.1.trans hi)]

/-- A copied point hangs on what the original hangs on, unless the original is plain: then it hangs on nothing older. -/
theorem depends_copyObj {h l : Heap ℝ} (hw : WF h) {i n b : ℕ} {o : PObj ℝ} (ho : h[i]? = some o) (hn : h.length ≤ n)
    (hl : (h ++ l)[n]? = some (copyObj o)) (hb : b < h.length) : Depends (h ++ l) n b ↔ Depends h i b ∧ b ≠ i := by
  have hi : i < h.length := (List.getElem?_eq_some_iff.1 ho).1
  have w := hw i o ho
  constructor
  · intro hd
    cases hd with
    | point e => omega
    | rel e hd =>
      rw [hl] at e
      cases o <;> simp only [copyObj, Option.some.injEq, reduceCtorEq] at e
      cases e
      have hd' := (depends_append hw (w.1.trans hi)).1 hd
      exact ⟨.rel ho hd', by have := depends_le hw hd'; have := w.1; omega⟩
    | pcalc e er hd =>
      rw [hl] at e
      cases o <;> simp only [copyObj, Option.some.injEq, reduceCtorEq] at e
      cases e
      rw [List.getElem?_append_left (w.1.trans hi)] at er
      have wr := hw _ _ er
      have hd' := (depends_append hw (wr.1.trans (w.1.trans hi))).1 hd
      exact ⟨.pcalc ho er hd', by have := depends_le hw hd'; have := w.1; have := wr.1; omega⟩
  · rintro ⟨hd, hne⟩
    cases hd with
    | point e => exact absurd rfl hne
    | rel e hd =>
      rw [ho] at e
      cases e
      exact .rel hl ((depends_append hw (w.1.trans hi)).2 hd)
    | pcalc e er hd =>
      rw [ho] at e
      cases e
      have wr := hw _ _ er
      exact .pcalc hl (by rw [List.getElem?_append_left (w.1.trans hi)]; exact er)
        ((depends_append hw (wr.1.trans (w.1.trans hi))).2 hd)

/-- `copy()` of an object: what the new object is. -/
theorem copyPt_ok {h : Heap ℝ} (hw : WF h) {i : ℕ} (hi : i < h.length) :
    ∃ l n, copyPt h i = .ok (h ++ l, n) ∧ WF (h ++ l) ∧ h.length ≤ n ∧ n < (h ++ l).length ∧ xy (h ++ l) n = xy h i ∧
      isBasePoint (h ++ l) n = isBasePoint h i ∧ isVec (h ++ l) n = isVec h i ∧
      (isBasePoint h i → ∀ b < h.length, (Depends (h ++ l) n b ↔ Depends h i b ∧ b ≠ i)) ∧
      (∀ x y, h[i]? = some (.vec x y) → (h ++ l)[n]? = some (.vec x y)) ∧
      (∀ x y m, h[i]? = some (.point x y m) → (h ++ l)[n]? = some (.point x y none)) := by
  obtain ⟨o, ho⟩ : ∃ o, h[i]? = some o := ⟨h[i], List.getElem?_eq_getElem hi⟩
  have w := hw i o ho
  have hs := step_wf hw (.copy i)
  by_cases hv : ∃ p q, o = .vecRel p q
  · obtain ⟨p, q, rfl⟩ := hv
    obtain ⟨a, ha⟩ : ∃ a, h[p]? = some a := ⟨h[p]'(w.1.trans hi), List.getElem?_eq_getElem (w.1.trans hi)⟩
    obtain ⟨b, hb⟩ : ∃ b, h[q]? = some b := ⟨h[q]'(w.2.1.trans hi), List.getElem?_eq_getElem (w.2.1.trans hi)⟩
    have e : PH.step h (.copy i) = (h ++ [copyObj a, copyObj b, .vecRel h.length (h.length + 1)], none) := by
      simp only [PH.step, ho, ha, hb]
    rw [e] at hs
    have g0 : (h ++ [copyObj a, copyObj b, .vecRel h.length (h.length + 1)])[h.length]? = some (copyObj a) := by simp
    have g1 : (h ++ [copyObj a, copyObj b, .vecRel h.length (h.length + 1)])[h.length + 1]? = some (copyObj b) := by
      rw [List.getElem?_append_right (by omega)]; simp
    have g2 : (h ++ [copyObj a, copyObj b, .vecRel h.length (h.length + 1)])[h.length + 2]? =
        some (.vecRel h.length (h.length + 1)) := by
      rw [List.getElem?_append_right (by omega)]; simp
    refine ⟨[copyObj a, copyObj b, .vecRel h.length (h.length + 1)], h.length + 2, by simp [copyPt, e], hs, by omega, by simp,
      ?_, ?_, ?_, ?_, ?_, ?_⟩
    · rw [xy_vecRel g2 (by omega) (by omega), xy_vecRel ho w.1 w.2.1, xy_copyObj hw ha le_rfl g0,
        xy_copyObj hw hb (by omega) g1]
    · simp only [isBasePoint, g2, ho]
    · simp only [isVec, g2, ho]
    · intro hbp; simp [isBasePoint, ho] at hbp
    · intro x y hx; rw [ho] at hx; cases hx
    · intro x y m hx; rw [ho] at hx; cases hx
  · have e : PH.step h (.copy i) = (h ++ [copyObj o], none) := by
      cases o with
      | vecRel p q => exact absurd ⟨p, q, rfl⟩ hv
      | _ => simp only [PH.step, ho]
    rw [e] at hs
    have g0 : (h ++ [copyObj o])[h.length]? = some (copyObj o) := by simp
    refine ⟨[copyObj o], h.length, by simp [copyPt, e], hs, le_rfl, by simp, xy_copyObj hw ho le_rfl g0, ?_, ?_, ?_, ?_, ?_⟩
    · simp only [isBasePoint, g0, ho]; cases o <;> rfl
    · simp only [isVec, g0, ho]; cases o <;> rfl
    · intro _ b hb; exact depends_copyObj hw ho le_rfl g0 hb
    · intro x y hx; rw [ho] at hx; cases hx; rw [g0]; rfl
    · intro x y m hx; rw [ho] at hx; cases hx; rw [g0]; rfl

/-- `fixed()` of an object which can be read. -/
theorem fixedPt_ok {h : Heap ℝ} {i : ℕ} {p : Pt ℝ} (hp : xy h i = .ok p) :
    (isBasePoint h i → ∃ m, fixedPt h i = .ok (h ++ [.point p.x p.y m], h.length)) ∧
    (isVec h i → fixedPt h i = .ok (h ++ [.vec p.x p.y], h.length)) := by
  constructor
  · intro hb
    obtain ⟨o, ho⟩ : ∃ o, h[i]? = some o := ⟨_, List.getElem?_eq_getElem (lt_of_isBasePoint hb)⟩
    refine ⟨fixedName (nameOf o), ?_⟩
    simp [fixedPt, PH.step, ho, hp, hb]
  · intro hv
    obtain ⟨o, ho⟩ : ∃ o, h[i]? = some o := ⟨_, List.getElem?_eq_getElem (lt_of_isVec hv)⟩
    have hb : isBasePoint h i = false := by
      simp only [isVec, isBasePoint, ho] at hv ⊢
      cases o <;> simp_all
    simp [fixedPt, PH.step, ho, hp, hb]

/-- `fixed()` of an object which cannot be read raises what reading it raises. -/
theorem fixedPt_error {h : Heap ℝ} {i : ℕ} {e : PyErr} (hi : i < h.length) (hp : xy h i = .error e) : fixedPt h i = .error e := by
  obtain ⟨o, ho⟩ : ∃ o, h[i]? = some o := ⟨_, List.getElem?_eq_getElem hi⟩
  simp [fixedPt, PH.step, ho, hp]

end X7.LK
