import Mathlib.Tactic.NormNum
import Verif.Lemmas.Morph

/-! C59: `Morph`. -/

noncomputable section

namespace X7.Morph

open Anim Elem

mutual
theorem keyed_replaceable (h : Hdr) (cps cps' : List (CP ℝ)) : (e : Elem) → Keyed e → Replaceable (sameCurve h cps) (.curve h cps') e
  | .curve _ _, _ => trivial
  | .rect _ _ _, _ => trivial
  | .rrect _ _ _ _, _ => trivial
  | .ellipse _ _ _, _ => trivial
  | .group h' hd es, hk => by
    simp only [Keyed] at hk
    simp only [Replaceable]
    have hm := keyedAll_mem hk.2
    refine ⟨hk.1, C44_one_match es hk.1 hk.2 h.name (fun e he => by rw [sameCurve_iff.1 he]; rfl), ?_, keyed_replaceableAll h cps cps' es hk.2⟩
    rintro ⟨x, hx, hs⟩
    have hx1 : x.1 = h.name := by rw [(hm x hx).1, sameCurve_iff.1 hs]; rfl
    refine ⟨by change '.' ∉ h.name; rw [← hx1]; exact (hm x hx).2.2.1, fun y hy hy2 he => ?_⟩
    change y.1 = h.name at he
    have : y = x := List.inj_on_of_nodup_map hk.1 hy hx (he.trans hx1.symm)
    rw [this, hs] at hy2
    cases hy2
theorem keyed_replaceableAll (h : Hdr) (cps cps' : List (CP ℝ)) : (es : List (Str × Elem)) → KeyedAll es →
    ReplaceableAll (sameCurve h cps) (.curve h cps') es
  | [], _ => trivial
  | (k, e) :: rest, hk => by
    simp only [KeyedAll] at hk
    simp only [ReplaceableAll]
    exact ⟨fun _ => keyed_replaceable h cps cps' e hk.1.2.2.2, keyed_replaceableAll h cps cps' rest hk.2⟩
end

theorem hitsAll_pos {same : Elem → Bool} {k : Str} {e : Elem} {es : List (Str × Elem)} (hx : (k, e) ∈ es)
    (h : same e = true ∨ 0 < hits same e) : 0 < hitsAll same es := by
  induction es with
  | nil => simp at hx
  | cons y es ih =>
    obtain ⟨k', e'⟩ := y
    simp only [hitsAll]
    rcases List.mem_cons.1 hx with heq | hx
    · cases heq
      split
      · omega
      · rename_i hne
        rcases h with h | h
        · exact absurd h hne
        · omega
    · have := ih hx
      omega

/-- A curve in the tree is found. -/
theorem below_hits {h : Hdr} {cps : List (CP ℝ)} {e : Elem} (hb : Below (.curve h cps) e) : 0 < hits (sameCurve h cps) e := by
  induction hb with
  | here hx => simp only [hits]; exact hitsAll_pos hx (Or.inl (sameCurve_iff.2 rfl))
  | deep hx _ ih => simp only [hits]; exact hitsAll_pos hx (Or.inr ih)

mutual
theorem hits_zero {h : Hdr} {cps : List (CP ℝ)} : (e : Elem) → ¬ Below (.curve h cps) e → hits (sameCurve h cps) e = 0
  | .curve _ _, _ => rfl
  | .rect _ _ _, _ => rfl
  | .rrect _ _ _ _, _ => rfl
  | .ellipse _ _ _, _ => rfl
  | .holes _ _ _, _ => rfl
  | .group h' hd es, hb => by
    simp only [hits]
    exact hitsAll_zero es fun k x hx => ⟨by rintro rfl; exact hb (.here hx), fun hb' => hb (.deep hx hb')⟩
theorem hitsAll_zero {h : Hdr} {cps : List (CP ℝ)} : (es : List (Str × Elem)) →
    (∀ k x, (k, x) ∈ es → x ≠ .curve h cps ∧ ¬ Below (.curve h cps) x) → hitsAll (sameCurve h cps) es = 0
  | [], _ => rfl
  | (k, e) :: rest, hall => by
    obtain ⟨h1, h2⟩ := hall k e List.mem_cons_self
    simp only [hitsAll, sameCurve_false.2 h1, Bool.false_eq_true, if_false]
    rw [hitsAll_zero rest fun k x hx => hall k x (List.mem_cons_of_mem _ hx), hits_zero e h2]
end

/-- The successful outcome of the constructor. -/
theorem mk_inv {model : List (CP ℝ) → Elem} {h : Hdr} {source target : List (CP ℝ)} {tfunc : TFunc} {force : Bool} {m : M}
    (hm : mk model h source target tfunc force = .ok m) : m.hdr = h ∧ m.orig.length = m.target.length ∧ m.morph = m.orig ∧
      m.tfunc = tfunc ∧ m.tree = fun cps => (replace (sameCurve h m.orig) (.curve h cps) (model m.orig)).1 := by
  have key : ∀ s g : List (CP ℝ), finish model h s g tfunc = .ok m → m.hdr = h ∧ m.orig.length = m.target.length ∧
      m.morph = m.orig ∧ m.tfunc = tfunc ∧
      m.tree = fun cps => (replace (sameCurve h m.orig) (.curve h cps) (model m.orig)).1 := by
    intro s g hf
    unfold finish at hf
    split at hf
    · cases hf
    · rename_i hl
      split at hf
      · cases hf
      · split at hf
        · cases hf
        · injection hf with hf
          subst hf
          simp only [ne_eq, Decidable.not_not] at hl
          simp [hl]
  unfold mk at hm
  split at hm
  · split at hm
    · cases hm
    · split at hm
      · cases hm
      · exact key _ _ hm
  · exact key _ _ hm

/-- **C59.** Forcing: both curves are padded to the larger number of control points without a change of the closed lines; the model
then holds the morph, which is a copy of the (padded) source, in the place of the source. -/
theorem C59_force (model : List (CP ℝ) → Elem) (h : Hdr) (source target : List (CP ℝ)) (tfunc : TFunc)
    (hs : 2 ≤ source.length) (ht : 2 ≤ target.length) (hk : ∀ cps, Keyed (model cps))
    (hfound : ∀ cps, Below (.curve h cps) (model cps)) :
    ∃ m, mk model h source target tfunc true = .ok m ∧ m.hdr = h ∧
      m.orig.length = max source.length target.length ∧ m.target.length = max source.length target.length ∧
      SameLoop (segs true source) (segs true m.orig) ∧ SameLoop (segs true target) (segs true m.target) ∧
      trace (segs true m.orig) = trace (segs true source) ∧ trace (segs true m.target) = trace (segs true target) ∧
      m.morph = m.orig ∧ m.now = replaced (sameCurve h m.orig) (.curve h m.orig) (model m.orig) := by
  obtain ⟨s', a1, a2, a3⟩ := padTo_ok target.length source (Or.inl hs)
  obtain ⟨t', b1, b2, b3⟩ := padTo_ok s'.length target (Or.inl ht)
  have hl : s'.length = t'.length := by omega
  have hrep := C44_replace _ (keyed_replaceable h s' s' (model s') (hk s'))
  have hpos := below_hits (hfound s')
  refine ⟨⟨h, s', t', s', fun cps => (replace (sameCurve h s') (.curve h cps) (model s')).1, tfunc⟩, ?_, rfl, by simp only; omega,
    by simp only; omega, a3, b3, (sameLoop_trace a3).symm, (sameLoop_trace b3).symm, rfl, ?_⟩
  · unfold mk
    simp only [if_true, a1, b1]
    unfold finish
    rw [if_neg (by simp [hl]), hrep]
    simp only
    rw [if_neg hpos.ne']
  · simp only [M.now, hrep]

/-- Without forcing, different numbers of control points are an error; so is a source that is not in the model. -/
theorem C59_errors (model : List (CP ℝ) → Elem) (h : Hdr) (source target : List (CP ℝ)) (tfunc : TFunc) :
    (source.length ≠ target.length → mk model h source target tfunc false = .error .morph) ∧
    (source.length = target.length → Keyed (model source) → ¬ Below (.curve h source) (model source) →
      ∀ force, mk model h source target tfunc force = .error .morph) := by
  constructor
  · intro hne
    simp [mk, finish, hne]
  · intro he hk hno force
    have hrep := C44_replace _ (keyed_replaceable h source source (model source) hk)
    rw [hits_zero _ hno] at hrep
    have hp : ∀ l : List (CP ℝ), padTo l.length l = .ok l := fun l => by rw [padTo, if_neg (by omega)]
    have hf : finish model h source target tfunc = .error .morph := by
      unfold finish
      rw [if_neg (by simp [he]), hrep]
      rfl
    cases force with
    | false => simp [mk, hf]
    | true =>
      have p1 : padTo target.length source = .ok source := he ▸ hp source
      have p2 : padTo source.length target = .ok target := he ▸ hp target
      simp [mk, p1, p2, hf]

/-! ### Updates -/

/-- What updates keep. -/
def Kept (m m' : M) : Prop := m'.hdr = m.hdr ∧ m'.orig = m.orig ∧ m'.target = m.target ∧ m'.tree = m.tree ∧ m'.tfunc = m.tfunc ∧
  m'.morph.map CP.kind = m.morph.map CP.kind

theorem update_kept {m m' : M} {t : TVal} (h : m.update t = .ok m') : Kept m m' := by
  unfold M.update at h
  split at h
  · cases h
  · injection h with h; subst h; exact ⟨rfl, rfl, rfl, rfl, rfl, hide_kinds _⟩
  · injection h with h; subst h; exact ⟨rfl, rfl, rfl, rfl, rfl, mixAll_kinds _ _ _ _⟩
  · split at h
    · injection h with h; subst h; exact ⟨rfl, rfl, rfl, rfl, rfl, rfl⟩
    · cases h

theorem after_kept (ts : List TVal) : ∀ m : M, Kept m (m.after ts) := by
  induction ts with
  | nil => intro m; exact ⟨rfl, rfl, rfl, rfl, rfl, rfl⟩
  | cons t ts ih =>
    intro m
    have key : ∀ m1, Kept m m1 → Kept m (m1.after ts) := by
      rintro m1 ⟨a1, a2, a3, a4, a5, a6⟩
      obtain ⟨b1, b2, b3, b4, b5, b6⟩ := ih m1
      exact ⟨b1.trans a1, b2.trans a2, b3.trans a3, b4.trans a4, b5.trans a5, b6.trans a6⟩
    have : m.after (t :: ts) = (match m.update t with | .ok m' => m' | .error _ => m).after ts := by
      rfl
    rw [this]
    cases hu : m.update t with
    | ok m' => exact key m' (update_kept hu)
    | error e => exact key m ⟨rfl, rfl, rfl, rfl, rfl, rfl⟩

section
variable {model : List (CP ℝ) → Elem} {h : Hdr} {source target : List (CP ℝ)} {tfunc : TFunc} {force : Bool} {m : M}

/-- After any history of updates an update to `t` shows, in the place of the source, the blend of source and target at `t_func(t)`,
number by number. -/
theorem C59_update (hm : mk model h source target tfunc force = .ok m) (hk : Keyed (model m.orig)) (ts : List TVal) (t : TVal) (s : ℝ)
    (hs : tfunc t = .ok (.num s)) :
    ∃ m', (m.after ts).update t = .ok m' ∧ m.orig.length = m.target.length ∧ Blended s m.orig m.target m'.morph ∧
      m'.now = replaced (sameCurve h m.orig) (.curve h m'.morph) (model m.orig) := by
  obtain ⟨i1, i2, i3, i4, i5⟩ := mk_inv hm
  obtain ⟨k1, k2, k3, k4, k5, k6⟩ := after_kept ts m
  have hu : (m.after ts).update t = .ok { m.after ts with morph := mixAll s (m.after ts).morph m.orig m.target } := by
    have hf : (m.after ts).tfunc t = .ok (.num s) := by rw [k5, i4, hs]
    unfold M.update
    rw [hf]
    simp only [k2, k3]
  refine ⟨_, hu, i2, mixAll_blended s _ _ _ (by rw [k6, i3]), ?_⟩
  simp only [M.now, k4, i5]
  rw [C44_replace _ (keyed_replaceable h m.orig _ _ hk)]

/-- When `t_func` gives `None` the curve is far away and a point. -/
theorem C59_hidden (hm : mk model h source target tfunc force = .ok m) (hk : Keyed (model m.orig)) (ts : List TVal) (t : TVal)
    (hs : tfunc t = .ok .none) :
    ∃ m', (m.after ts).update t = .ok m' ∧ OffScreen m.orig m'.morph ∧
      m'.now = replaced (sameCurve h m.orig) (.curve h m'.morph) (model m.orig) := by
  obtain ⟨i1, i2, i3, i4, i5⟩ := mk_inv hm
  obtain ⟨k1, k2, k3, k4, k5, k6⟩ := after_kept ts m
  have hu : (m.after ts).update t = .ok { m.after ts with morph := hide (m.after ts).morph } := by
    have hf : (m.after ts).tfunc t = .ok .none := by rw [k5, i4, hs]
    unfold M.update
    rw [hf]
  refine ⟨_, hu, ⟨?_, ?_⟩, ?_⟩
  · have := congrArg List.length k6
    simpa [hide, i3] using this
  · intro cp hcp
    simp only [hide, List.mem_map] at hcp
    obtain ⟨x, -, rfl⟩ := hcp
    exact ⟨rfl, rfl, rfl⟩
  · simp only [M.now, k4, i5]
    rw [C44_replace _ (keyed_replaceable h m.orig _ _ hk)]

end

/-- A blend at 0 is the first curve. -/
theorem C59_start (o g r : List (CP ℝ)) (hl : o.length = g.length) (hb : Blended 0 o g r) : r = o := by
  obtain ⟨h1, h2⟩ := hb
  apply List.ext_getElem h1
  intro i hr ho
  obtain ⟨k, hc⟩ := h2 i o[i] (g[i]'(hl ▸ ho)) r[i] (by simp) (by simp) (by simp)
  obtain ⟨e1, e2, e3⟩ := cp_ext_coord (a := r[i]) (b := o[i]) fun k => by rw [hc k]; ring
  ext1
  · exact e1
  · exact e2
  · exact e3
  · exact k

/-- A blend at 1 is the second curve, except for the kinds. -/
theorem C59_end (o g r : List (CP ℝ)) (hl : o.length = g.length) (hb : Blended 1 o g r) :
    (r.map fun cp => (cp.c, cp.dl, cp.dr)) = g.map fun cp => (cp.c, cp.dl, cp.dr) := by
  obtain ⟨h1, h2⟩ := hb
  apply List.ext_getElem (by simp [h1, hl])
  intro i hr ho
  simp only [List.length_map] at hr ho
  obtain ⟨k, hc⟩ := h2 i (o[i]'(hl ▸ ho)) g[i] r[i] (by simp) (by simp) (by simp)
  obtain ⟨e1, e2, e3⟩ := cp_ext_coord (a := r[i]) (b := g[i]) fun k => by rw [hc k]; ring
  simp [e1, e2, e3]

/-- Whatever was shown last, `restore()` puts the source back; unless some other curve in the model equals the one shown last. -/
theorem C59_restore {model : List (CP ℝ) → Elem} {h : Hdr} {source target : List (CP ℝ)} {tfunc : TFunc} {force : Bool} {m : M}
    (hm : mk model h source target tfunc force = .ok m) (hk : Keyed (model m.orig)) (ts : List TVal)
    (hother : Below (.curve h (m.after ts).morph) (model m.orig) → (m.after ts).morph = m.orig) :
    ∃ m', (m.after ts).restore = .ok m' ∧ m'.now = replaced (sameCurve h m.orig) (.curve h m.orig) (model m.orig) := by
  obtain ⟨i1, i2, i3, i4, i5⟩ := mk_inv hm
  obtain ⟨k1, k2, k3, k4, k5, k6⟩ := after_kept ts m
  have hrep := keyed_replaceable h m.orig (m.after ts).morph (model m.orig) hk
  have hnow : (m.after ts).now = replaced (sameCurve h m.orig) (.curve h (m.after ts).morph) (model m.orig) := by
    simp only [M.now, k4, i5]
    rw [C44_replace _ hrep]
  obtain ⟨t1, t2, t3⟩ := replaced_twice (same2 := sameCurve h (m.after ts).morph) (r2 := .curve h m.orig)
    (fun _ _ _ => sameCurve_false.2 (by simp)) (sameCurve_iff.2 rfl) rfl (model m.orig) hrep (by
      intro x hx hx2
      rw [sameCurve_iff] at hx2 ⊢
      subst hx2
      rw [hother hx])
  refine ⟨{ m.after ts with tree := fun _ => replaced (sameCurve h m.orig) (.curve h m.orig) (model m.orig) }, ?_, rfl⟩
  have hh : (m.after ts).hdr = h := k1.trans i1
  have hr := C44_replace _ t1
  rw [t2, ← hnow] at hr
  unfold M.restore
  simp only [hh, k2]
  rw [hr]

/-- `restore()` looks for curves equal to the morph, not for the morph: here a second curve, equal to the target, is lost. -/
theorem C59_restore_counterexample : ∃ (model : List (CP ℝ) → Elem) (h : Hdr) (source target : List (CP ℝ)) (m m1 m2 : M),
    (∀ cps, Keyed (model cps)) ∧ mk model h source target (fun t => .ok t) true = .ok m ∧ m.update (.num 1) = .ok m1 ∧
    m1.restore = .ok m2 ∧ Below (.curve h target) (model source) ∧ ¬ Below (.curve h target) m2.now := by
  let h : Hdr := ⟨['a'], ⟨none, none⟩, true, Mat3.one⟩
  let hs : Hdr := { h with name := ['s'] }
  let hr : Hdr := { h with name := ['r'] }
  let a : CP ℝ := ⟨⟨0, 0⟩, ⟨0, 0⟩, ⟨0, 0⟩, "smooth"⟩
  let b : CP ℝ := ⟨⟨1, 0⟩, ⟨0, 0⟩, ⟨0, 0⟩, "smooth"⟩
  let model : List (CP ℝ) → Elem := fun cps =>
    .group hr false [(['a'], .curve h cps), (['s'], .group hs false [(['a'], .curve h [b])])]
  have hab : ¬ (a = b) := by simp [a, b]
  have hba : ¬ (b = a) := fun e => hab e.symm
  have hk : ∀ cps, Keyed (model cps) := by
    intro cps
    simp [model, Keyed, KeyedAll, hdr, h, hs]
  have hrep1 := C44_replace _ (keyed_replaceable h [a] [a] (model [a]) (hk [a]))
  have hmix : mixAll 1 [a] [a] [b] = [b] := by
    simp [mixAll, mixCP, mixPt, mixVec, a, b, Pt.addVector, Pt.sub, Vec.mul, Vec.add, Vec.sub, Vec.subVector]
  have hnow : (replace (sameCurve h [a]) (.curve h [b]) (model [a])).1 =
      .group hr false [(['s'], .group hs false [(['a'], .curve h [b])]), (['a'], .curve h [b])] := by
    rw [C44_replace _ (keyed_replaceable h [a] [b] (model [a]) (hk [a]))]
    simp [model, replaced, kept, sameCurve, hba, hdr, h]
  let t2 : Elem := .group hr false [(['s'], .group hs false [(['a'], .curve h [b])]), (['a'], .curve h [b])]
  have hk2 : Keyed t2 := by simp [t2, Keyed, KeyedAll, hdr, h, hs]
  have hres : replace (sameCurve h [b]) (.curve h [a]) t2 =
      (.group hr false [(['s'], .group hs false [(['a'], .curve h [a])]), (['a'], .curve h [a])], .ok 2) := by
    rw [C44_replace _ (keyed_replaceable h [b] [a] t2 hk2)]
    simp [t2, replaced, kept, sameCurve, hits, hitsAll, hdr, h]
  refine ⟨model, h, [a], [b], ⟨h, [a], [b], [a], fun cps => (replace (sameCurve h [a]) (.curve h cps) (model [a])).1, fun t => .ok t⟩,
    ⟨h, [a], [b], [b], fun cps => (replace (sameCurve h [a]) (.curve h cps) (model [a])).1, fun t => .ok t⟩,
    ⟨h, [a], [b], [b], fun _ => .group hr false [(['s'], .group hs false [(['a'], .curve h [a])]), (['a'], .curve h [a])], fun t => .ok t⟩,
    hk, ?_, ?_, ?_, ?_, ?_⟩
  · have hp : ∀ x : CP ℝ, padTo 1 [x] = .ok [x] := fun x => by rw [padTo, if_neg (by simp)]
    have hhits : hits (sameCurve h [a]) (model [a]) ≠ 0 := by simp [model, hits, hitsAll, sameCurve]
    simp only [mk, if_true, List.length_cons, List.length_nil, Nat.zero_add, hp, finish, hrep1, ne_eq, not_true, if_false, hhits]
  · simp only [M.update, hmix]
  · simp only [M.restore, M.now, hnow]
    rw [hres]
  · exact .deep (List.mem_cons_of_mem _ List.mem_cons_self) (.here List.mem_cons_self)
  · simp only [M.now]
    intro hb
    cases hb with
    | here hx => simp [hab, hba] at hx
    | deep hx hb' =>
      simp only [List.mem_cons, Prod.mk.injEq, List.not_mem_nil, or_false] at hx
      rcases hx with ⟨-, rfl⟩ | ⟨-, rfl⟩
      · cases hb' with
        | here hx => simp [hab, hba] at hx
        | deep hx hb'' =>
          simp only [List.mem_cons, Prod.mk.injEq, List.not_mem_nil, or_false] at hx
          obtain ⟨-, rfl⟩ := hx
          cases hb''
      · cases hb'

/-- A model with the source and another shape, and curves of two and three control points, meet the hypotheses of `C59_force`. -/
example (h h' hr : Hdr) (hn : h.name = ['a']) (hn' : h'.name = ['b']) :
    let model : List (CP ℝ) → Elem := fun cps => .group hr false [(['a'], .curve h cps), (['b'], .rect h' ⟨0, 0⟩ ⟨1, 1⟩)]
    (∀ cps, Keyed (model cps)) ∧ ∀ cps, Below (.curve h cps) (model cps) := by
  intro model
  exact ⟨fun cps => by simp [model, Keyed, KeyedAll, hdr, hn, hn'], fun cps => .here List.mem_cons_self⟩

end X7.Morph
