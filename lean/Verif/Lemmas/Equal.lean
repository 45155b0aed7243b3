import Verif.Model.Equal
import Verif.Spec.Equal
import Verif.Lemmas.Elem
import Verif.Props.Dump

noncomputable section

open scoped Classical

namespace X7.Dump

theorem DPt.eqv_iff : ∀ a b : DPt, a.eqv b = true ↔ a = b
  | .point x y n, .point x' y' n' => by simp [DPt.eqv]; tauto
  | .rel dx dy b n, .rel dx' dy' b' n' => by simp [DPt.eqv, DPt.eqv_iff b b']; tauto
  | .pcalc b s n, .pcalc b' s' n' => by simp [DPt.eqv, DPt.eqv_iff b b']; tauto
  | .point .., .rel .. => by simp [DPt.eqv]
  | .point .., .pcalc .. => by simp [DPt.eqv]
  | .rel .., .point .. => by simp [DPt.eqv]
  | .rel .., .pcalc .. => by simp [DPt.eqv]
  | .pcalc .., .point .. => by simp [DPt.eqv]
  | .pcalc .., .rel .. => by simp [DPt.eqv]

theorem DVec.eqv_iff (a b : DVec) : a.eqv b = true ↔ a = b := by
  cases a <;> cases b <;> simp [DVec.eqv, DPt.eqv_iff]

theorem DCp.eqv_iff (a b : DCp) : a.eqv b = true ↔ a = b := by
  cases a; cases b
  simp only [DCp.eqv, Bool.and_eq_true, DPt.eqv_iff, DVec.eqv_iff, decide_eq_true_eq, DCp.mk.injEq, and_assoc]

theorem listEqv_iff {α : Type} (f : α → α → Bool) (hf : ∀ a b, f a b = true ↔ a = b) : ∀ l m : List α, listEqv f l m = true ↔ l = m
  | [], [] => by simp [listEqv]
  | a :: l, b :: m => by simp [listEqv, hf, listEqv_iff f hf l m]
  | [], _ :: _ => by simp [listEqv]
  | _ :: _, [] => by simp [listEqv]

theorem optEqv_iff {α : Type} (f : α → α → Bool) (hf : ∀ a b, f a b = true ↔ a = b) (a b : Option α) : optEqv f a b = true ↔ a = b := by
  cases a <;> cases b <;> simp [optEqv, hf]

theorem brushEqv_iff (a b : Brush) : brushEqv a b = true ↔ a = b := by
  cases a; cases b; simp [brushEqv]

theorem penEqv_iff (a b : Pen) : penEqv a b = true ↔ a = b := by
  cases a; cases b; simp [penEqv, brushEqv_iff]

theorem pbEqv_iff (a b : PenBrush) : pbEqv a b = true ↔ a = b := by
  cases a; cases b; simp [pbEqv, optEqv_iff _ brushEqv_iff, optEqv_iff _ penEqv_iff]

theorem xfEqv_iff (a b : Mat3 ℝ) : xfEqv a b = true ↔ a = b := by
  cases a; cases b; simp [xfEqv, and_assoc]

theorem DHdr.eqv_iff (a b : DHdr) : a.eqv b = true ↔ a = b := by
  cases a; cases b; simp [DHdr.eqv, pbEqv_iff, xfEqv_iff, and_assoc]

/-! ### Dicts -/

theorem dget_nil {α : Type} (k : Str) : dget ([] : List (Str × α)) k = none := rfl

theorem dget_concat {α : Type} (a b : List (Str × α)) (k : Str) : dget (a ++ b) k = (dget a k).or (dget b k) := by
  induction a with
  | nil => simp [dget_nil]
  | cons x a ih => rw [List.cons_append, dget_cons, dget_cons]; split <;> simp [ih]

/-- The matching of the entries of two dicts. -/
theorem dict_match {α : Type} (R : α → α → Prop) (d : List (Str × α)) : ∀ (d' : List (Str × α)), (d.map Prod.fst).Nodup →
    d.length = d'.length → (∀ x ∈ d, ∃ y, dget d' x.1 = some y ∧ R x.2 y) →
    ∃ m, List.Forall₂ (fun x y => x.1 = y.1 ∧ R x.2 y.2) d m ∧ m.Perm d' := by
  induction d with
  | nil =>
    intro d' _ hl _
    cases d' with
    | nil => exact ⟨[], .nil, .nil⟩
    | cons _ _ => simp at hl
  | cons x d ih =>
    intro d' hn hl hx
    simp only [List.map_cons, List.nodup_cons] at hn
    obtain ⟨y, hy, hR⟩ := hx x (by simp)
    obtain ⟨s, t, rfl⟩ := List.append_of_mem (dget_mem hy)
    obtain ⟨m, hm, hp⟩ := ih (s ++ t) hn.2 (by simp at hl ⊢; omega) (by
      intro z hz
      obtain ⟨w, hw, hRw⟩ := hx z (by simp [hz])
      refine ⟨w, ?_, hRw⟩
      have hne : x.1 ≠ z.1 := fun e => hn.1 (e ▸ List.mem_map.2 ⟨z, hz, rfl⟩)
      rw [dget_concat, dget_cons, if_neg hne] at hw
      rw [dget_concat]; exact hw)
    exact ⟨(x.1, y) :: m, .cons ⟨rfl, hR⟩ hm, (List.Perm.cons _ hp).trans List.perm_middle.symm⟩

theorem dget_swap {α : Type} (a : List (Str × α)) (x y : Str × α) (b : List (Str × α)) (hn : ((a ++ x :: y :: b).map Prod.fst).Nodup) (k : Str) :
    dget (a ++ y :: x :: b) k = dget (a ++ x :: y :: b) k := by
  have hne : x.1 ≠ y.1 := by
    simp only [List.map_append, List.map_cons, List.nodup_append, List.nodup_cons, List.mem_cons] at hn
    intro e
    exact hn.2.1.1 (.inl e)
  rw [dget_concat, dget_concat, dget_cons, dget_cons, dget_cons, dget_cons]
  congr 1
  by_cases h1 : x.1 = k
  · rw [if_pos h1, if_pos h1, if_neg]
    intro h2; exact hne (h1.trans h2.symm)
  · rw [if_neg h1, if_neg h1]

theorem dictEqv_iff {α : Type} (f : α → α → Bool) (d d' : List (Str × α)) : dictEqv f d d' = true ↔
    d.length = d'.length ∧ ∀ x ∈ d, ∃ y, dget d' x.1 = some y ∧ f x.2 y = true := by
  simp only [dictEqv, Bool.and_eq_true, decide_eq_true_eq, List.all_eq_true]
  refine and_congr_right fun _ => forall₂_congr fun x _ => ?_
  cases dget d' x.1 <;> simp

theorem eqvAll_iff (es d : List (Str × DElem)) : eqvAll es d = true ↔ ∀ x ∈ es, ∃ y, dget d x.1 = some y ∧ x.2.eqv y = true := by
  induction es with
  | nil => simp [eqvAll]
  | cons x es ih =>
    obtain ⟨k, e⟩ := x
    simp only [eqvAll, Bool.and_eq_true, ih, List.forall_mem_cons]
    refine and_congr_left fun _ => ?_
    cases dget d k <;> simp

theorem eqvIn_iff : ∀ es d : List DElem, eqvIn es d = true ↔ List.Forall₂ (fun x y => x.eqv y = true) es d
  | [], [] => by simp [eqvIn]
  | e :: l, f :: m => by simp [eqvIn, eqvIn_iff l m]
  | [], _ :: _ => by simp [eqvIn]
  | _ :: _, [] => by simp [eqvIn]

theorem keysAll_iff (es : List (Str × DElem)) : KeysAll es ↔ ∀ x ∈ es, Keys x.2 := by
  induction es with
  | nil => simp [KeysAll]
  | cons x es ih => obtain ⟨k, e⟩ := x; simp [KeysAll, ih]

theorem keysIn_iff (es : List DElem) : KeysIn es ↔ ∀ x ∈ es, Keys x := by
  induction es with
  | nil => simp [KeysIn]
  | cons x es ih => simp [KeysIn, ih]

/-! ### From `==` to reordering -/

theorem reorder_perm {h : DHdr} {hid : Bool} {l m : List (Str × DElem)} (hp : l.Perm m) (ps : List (Str × DPt)) :
    ∀ a, Reorder (.group h hid (a ++ l) ps) (.group h hid (a ++ m) ps) := by
  induction hp with
  | nil => exact fun a => .refl _
  | @cons x l m _ ih =>
    intro a
    have := ih (a ++ [x])
    simpa using this
  | @swap x y l => exact fun a => .elems h hid a y x l ps
  | trans _ _ ih1 ih2 => exact fun a => .trans (ih1 a) (ih2 a)

theorem reorder_perm_pts {h : DHdr} {hid : Bool} {l m : List (Str × DPt)} (hp : l.Perm m) (es : List (Str × DElem)) :
    ∀ a, Reorder (.group h hid es (a ++ l)) (.group h hid es (a ++ m)) := by
  induction hp with
  | nil => exact fun a => .refl _
  | @cons x l m _ ih =>
    intro a
    have := ih (a ++ [x])
    simpa using this
  | @swap x y l => exact fun a => .points h hid es a y x l
  | trans _ _ ih1 ih2 => exact fun a => .trans (ih1 a) (ih2 a)

theorem reorder_members {h : DHdr} {hid : Bool} {ps : List (Str × DPt)} {l m : List (Str × DElem)}
    (hm : List.Forall₂ (fun x y => x.1 = y.1 ∧ Reorder x.2 y.2) l m) : ∀ a, Reorder (.group h hid (a ++ l) ps) (.group h hid (a ++ m) ps) := by
  induction hm with
  | nil => exact fun a => .refl _
  | @cons x y l m hxy _ ih =>
    intro a
    obtain ⟨k, d⟩ := x
    obtain ⟨k', d'⟩ := y
    obtain ⟨h1, h2⟩ := hxy
    simp only at h1 h2
    subst h1
    have := ih (a ++ [(k, d')])
    simp only [List.append_assoc, List.singleton_append] at this
    exact .trans (.member h hid a k l ps h2) this

theorem reorder_holes {h : DHdr} {o : DElem} {l m : List DElem} (hm : List.Forall₂ Reorder l m) :
    ∀ a, Reorder (.holes h o (a ++ l)) (.holes h o (a ++ m)) := by
  induction hm with
  | nil => exact fun a => .refl _
  | @cons x y l m hxy _ ih =>
    intro a
    have := ih (a ++ [y])
    simp only [List.append_assoc, List.singleton_append] at this
    exact .trans (.hole h o a l hxy) this

theorem points_perm {ps ps' : List (Str × DPt)} (hn : (ps.map Prod.fst).Nodup) (h : dictEqv DPt.eqv ps ps' = true) : ps.Perm ps' := by
  rw [dictEqv_iff] at h
  obtain ⟨m, hm, hp⟩ := dict_match (fun a b => a.eqv b = true) ps ps' hn h.1 h.2
  have : ps = m := by
    clear hp h hn
    induction hm with
    | nil => rfl
    | @cons x y l m hxy _ ih =>
      obtain ⟨k, d⟩ := x
      obtain ⟨k', d'⟩ := y
      obtain ⟨h1, h2⟩ := hxy
      simp only [DPt.eqv_iff] at h1 h2
      rw [h1, h2, ih]
  rw [this]; exact hp

mutual
theorem eqv_reorder : (d d' : DElem) → Keys d → d.eqv d' = true → Reorder d d'
  | .curve h cps, d', _, he => by
    cases d' with
    | curve h' cps' =>
      simp only [DElem.eqv, Bool.and_eq_true, DHdr.eqv_iff, listEqv_iff _ DCp.eqv_iff] at he
      rw [he.1, he.2]; exact .refl _
    | _ => simp [DElem.eqv] at he
  | .rect h p q, d', _, he => by
    cases d' with
    | rect h' p' q' =>
      simp only [DElem.eqv, Bool.and_eq_true, DHdr.eqv_iff, DPt.eqv_iff] at he
      rw [he.1.1, he.1.2, he.2]; exact .refl _
    | _ => simp [DElem.eqv] at he
  | .rrect h p q r, d', _, he => by
    cases d' with
    | rrect h' p' q' r' =>
      simp only [DElem.eqv, Bool.and_eq_true, DHdr.eqv_iff, DPt.eqv_iff, decide_eq_true_eq] at he
      rw [he.1.1.1, he.1.1.2, he.1.2, he.2]; exact .refl _
    | _ => simp [DElem.eqv] at he
  | .ellipse h p q, d', _, he => by
    cases d' with
    | ellipse h' p' q' =>
      simp only [DElem.eqv, Bool.and_eq_true, DHdr.eqv_iff, DPt.eqv_iff] at he
      rw [he.1.1, he.1.2, he.2]; exact .refl _
    | _ => simp [DElem.eqv] at he
  | .group h hid es ps, d', hk, he => by
    cases d' with
    | group h' hid' es' ps' =>
      simp only [DElem.eqv, Bool.and_eq_true, DHdr.eqv_iff, decide_eq_true_eq] at he
      obtain ⟨⟨⟨rfl, rfl⟩, hl, ha⟩, hps⟩ := he
      rw [Keys] at hk
      obtain ⟨k1, k2, k3⟩ := hk
      have hx := eqvAll_reorder es es' k3 ha
      obtain ⟨m, hm, hp⟩ := dict_match Reorder es es' k1 hl hx
      have r1 := reorder_members (h := h) (hid := hid) (ps := ps) hm []
      have r2 := reorder_perm (h := h) (hid := hid) hp ps []
      have r3 := reorder_perm_pts (h := h) (hid := hid) (points_perm k2 hps) es' []
      exact .trans (.trans r1 r2) r3
    | _ => simp [DElem.eqv] at he
  | .holes h o is, d', hk, he => by
    cases d' with
    | holes h' o' is' =>
      simp only [DElem.eqv, Bool.and_eq_true, DHdr.eqv_iff] at he
      obtain ⟨⟨rfl, ho⟩, hi⟩ := he
      rw [Keys] at hk
      have r1 := eqv_reorder o o' hk.1 ho
      have r2 := reorder_holes (h := h) (o := o') (eqvIn_reorder is is' hk.2 hi) []
      exact .trans (.outside h is r1) r2
    | _ => simp [DElem.eqv] at he
theorem eqvAll_reorder : (es es' : List (Str × DElem)) → KeysAll es → eqvAll es es' = true →
    ∀ x ∈ es, ∃ y, dget es' x.1 = some y ∧ Reorder x.2 y
  | [], _, _, _ => by simp
  | (k, e) :: rest, es', hk, ha => by
    rw [KeysAll] at hk
    simp only [eqvAll, Bool.and_eq_true] at ha
    intro x hx
    rcases List.mem_cons.1 hx with rfl | hx
    · cases hd : dget es' k with
      | none => simp [hd] at ha
      | some y =>
        simp only [hd] at ha
        exact ⟨y, rfl, eqv_reorder e y hk.1 ha.1⟩
    · exact eqvAll_reorder rest es' hk.2 ha.2 x hx
theorem eqvIn_reorder : (es es' : List DElem) → KeysIn es → eqvIn es es' = true → List.Forall₂ Reorder es es'
  | [], [], _, _ => .nil
  | [], _ :: _, _, h => by simp [eqvIn] at h
  | _ :: _, [], _, h => by simp [eqvIn] at h
  | e :: l, f :: m, hk, h => by
    simp only [eqvIn, Bool.and_eq_true] at h
    rw [KeysIn] at hk
    exact .cons (eqv_reorder e f hk.1 h.1) (eqvIn_reorder l m hk.2 h.2)
end

/-! ### From reordering to `==` -/

theorem Reorder.symm {d d' : DElem} (h : Reorder d d') : Reorder d' d := by
  induction h with
  | refl d => exact .refl d
  | trans _ _ ih1 ih2 => exact .trans ih2 ih1
  | elems h hid a x y b ps => exact .elems h hid a y x b ps
  | points h hid es a x y b => exact .points h hid es a y x b
  | member h hid a k b ps _ ih => exact .member h hid a k b ps ih
  | outside h is _ ih => exact .outside h is ih
  | hole h o a b _ ih => exact .hole h o a b ih

theorem Reorder.keys {d d' : DElem} (h : Reorder d d') : Keys d → Keys d' := by
  induction h with
  | refl d => exact id
  | trans _ _ ih1 ih2 => exact fun h => ih2 (ih1 h)
  | elems h hid a x y b ps =>
    simp only [Keys, keysAll_iff]
    rintro ⟨h1, h2, h3⟩
    have hp : (a ++ x :: y :: b).Perm (a ++ y :: x :: b) := .append_left a (.swap _ _ _)
    exact ⟨(hp.map _).nodup_iff.1 h1, h2, fun z hz => h3 z (hp.mem_iff.2 hz)⟩
  | points h hid es a x y b =>
    simp only [Keys]
    rintro ⟨h1, h2, h3⟩
    have hp : (a ++ x :: y :: b).Perm (a ++ y :: x :: b) := .append_left a (.swap _ _ _)
    exact ⟨h1, (hp.map _).nodup_iff.1 h2, h3⟩
  | member h hid a k b ps _ ih =>
    simp only [Keys, keysAll_iff]
    rintro ⟨h1, h2, h3⟩
    refine ⟨by simpa using h1, h2, ?_⟩
    simp only [List.mem_append, List.mem_cons] at h3 ⊢
    rintro z (hz | rfl | hz)
    · exact h3 z (.inl hz)
    · exact ih (h3 _ (.inr (.inl rfl)))
    · exact h3 z (.inr (.inr hz))
  | outside h is _ ih =>
    simp only [Keys]
    exact fun ⟨h1, h2⟩ => ⟨ih h1, h2⟩
  | hole h o a b _ ih =>
    simp only [Keys, keysIn_iff]
    rintro ⟨h1, h3⟩
    refine ⟨h1, ?_⟩
    simp only [List.mem_append, List.mem_cons] at h3 ⊢
    rintro z (hz | rfl | hz)
    · exact h3 z (.inl hz)
    · exact ih (h3 _ (.inr (.inl rfl)))
    · exact h3 z (.inr (.inr hz))

mutual
theorem eqv_refl : (d : DElem) → Keys d → d.eqv d = true
  | .curve h cps, _ => by simp [DElem.eqv, DHdr.eqv_iff, listEqv_iff _ DCp.eqv_iff]
  | .rect h p q, _ => by simp [DElem.eqv, DHdr.eqv_iff, DPt.eqv_iff]
  | .rrect h p q r, _ => by simp [DElem.eqv, DHdr.eqv_iff, DPt.eqv_iff]
  | .ellipse h p q, _ => by simp [DElem.eqv, DHdr.eqv_iff, DPt.eqv_iff]
  | .group h hid es ps, hk => by
    rw [Keys] at hk
    have h1 : eqvAll es es = true := by
      rw [eqvAll_iff]
      intro x hx
      exact ⟨x.2, dget_of_mem hk.1 hx, eqvAll_refl es hk.2.2 x hx⟩
    have h2 : dictEqv DPt.eqv ps ps = true := by
      rw [dictEqv_iff]
      exact ⟨rfl, fun x hx => ⟨x.2, dget_of_mem hk.2.1 hx, (DPt.eqv_iff _ _).2 rfl⟩⟩
    simp [DElem.eqv, DHdr.eqv_iff, h1, h2]
  | .holes h o is, hk => by
    rw [Keys] at hk
    simp [DElem.eqv, DHdr.eqv_iff, eqv_refl o hk.1, eqvIn_refl is hk.2]
theorem eqvAll_refl : (es : List (Str × DElem)) → KeysAll es → ∀ x ∈ es, x.2.eqv x.2 = true
  | [], _ => by simp
  | (k, e) :: rest, hk => by
    rw [KeysAll] at hk
    intro x hx
    rcases List.mem_cons.1 hx with rfl | hx
    · exact eqv_refl e hk.1
    · exact eqvAll_refl rest hk.2 x hx
theorem eqvIn_refl : (es : List DElem) → KeysIn es → eqvIn es es = true
  | [], _ => by simp [eqvIn]
  | e :: rest, hk => by
    rw [KeysIn] at hk
    simp [eqvIn, eqv_refl e hk.1, eqvIn_refl rest hk.2]
end

theorem Reorder.eqv_right {d d' : DElem} (h : Reorder d d') : Keys d → ∀ z : DElem, z.eqv d = true → z.eqv d' = true := by
  induction h with
  | refl d => exact fun _ _ h => h
  | trans h1 _ ih1 ih2 => exact fun hk z hz => ih2 (h1.keys hk) z (ih1 hk z hz)
  | elems h hid a x y b ps =>
    intro hk z hz
    cases z with
    | group h' hid' es' ps' =>
      rw [Keys] at hk
      simp only [DElem.eqv, Bool.and_eq_true, decide_eq_true_eq, eqvAll_iff, dget_swap a x y b hk.1] at hz ⊢
      refine ⟨⟨hz.1.1, ?_, hz.1.2.2⟩, hz.2⟩
      rw [hz.1.2.1]; simp
    | _ => simp [DElem.eqv] at hz
  | points h hid es a x y b =>
    intro hk z hz
    cases z with
    | group h' hid' es' ps' =>
      rw [Keys] at hk
      simp only [DElem.eqv, Bool.and_eq_true, decide_eq_true_eq, dictEqv_iff, dget_swap a x y b hk.2.1] at hz ⊢
      refine ⟨hz.1, ?_, hz.2.2⟩
      rw [hz.2.1]; simp
    | _ => simp [DElem.eqv] at hz
  | member h hid a k b ps _ ih =>
    rename_i d d' _
    intro hk z hz
    cases z with
    | group h' hid' es' ps' =>
      rw [Keys] at hk
      have hkd : Keys d := (keysAll_iff _).1 hk.2.2 (k, d) (by simp)
      simp only [DElem.eqv, Bool.and_eq_true, decide_eq_true_eq, eqvAll_iff] at hz ⊢
      refine ⟨⟨hz.1.1, ?_, ?_⟩, hz.2⟩
      · rw [hz.1.2.1]; simp
      · intro w hw
        obtain ⟨y, hy, hwy⟩ := hz.1.2.2 w hw
        rw [dget_concat, dget_cons] at hy ⊢
        cases hda : dget a w.1 with
        | some v =>
          rw [hda] at hy
          exact ⟨y, by simpa using hy, hwy⟩
        | none =>
          rw [hda] at hy
          simp only [Option.none_or] at hy ⊢
          split at hy
          · rename_i hkw
            simp only [Option.some.injEq] at hy
            subst hy
            rw [if_pos hkw]
            exact ⟨d', rfl, ih hkd _ hwy⟩
          · rename_i hkw
            rw [if_neg hkw]
            exact ⟨y, hy, hwy⟩
    | _ => simp [DElem.eqv] at hz
  | outside h is _ ih =>
    intro hk z hz
    cases z with
    | holes h' o' is' =>
      rw [Keys] at hk
      simp only [DElem.eqv, Bool.and_eq_true] at hz ⊢
      exact ⟨⟨hz.1.1, ih hk.1 _ hz.1.2⟩, hz.2⟩
    | _ => simp [DElem.eqv] at hz
  | hole h o a b _ ih =>
    rename_i d d' _
    intro hk z hz
    cases z with
    | holes h' o' is' =>
      rw [Keys] at hk
      have hkd : Keys d := (keysIn_iff _).1 hk.2 d (by simp)
      simp only [DElem.eqv, Bool.and_eq_true, eqvIn_iff] at hz ⊢
      refine ⟨hz.1, ?_⟩
      have h2 := hz.2
      clear hz hk
      induction a generalizing is' with
      | nil =>
        cases h2 with
        | cons h3 h4 => exact .cons (ih hkd _ h3) h4
      | cons c a iha =>
        cases h2 with
        | cons h3 h4 => exact .cons h3 (iha _ h4)
    | _ => simp [DElem.eqv] at hz

theorem eqv_iff_reorder {d d' : DElem} (hk : Keys d) : d.eqv d' = true ↔ Reorder d d' :=
  ⟨eqv_reorder d d' hk, fun h => h.eqv_right hk d (eqv_refl d hk)⟩

end X7.Dump
