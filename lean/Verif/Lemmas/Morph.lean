import Mathlib.Tactic.Linarith
import Mathlib.Tactic.Ring
import Mathlib.Tactic.FinCases
import Verif.Spec.Morph
import Verif.Props.ElemNames
import Verif.Props.BezierReal

/-! Lemmas about morphs. -/

noncomputable section

namespace X7.Morph

open Anim Elem

theorem sameCurve_iff {h : Hdr} {cps : List (CP ℝ)} {e : Elem} : sameCurve h cps e = true ↔ e = .curve h cps := by
  simp [sameCurve]

theorem sameCurve_false {h : Hdr} {cps : List (CP ℝ)} {e : Elem} : sameCurve h cps e = false ↔ e ≠ .curve h cps := by
  simp [sameCurve]

/-! ### Padding -/

theorem padTo_ok (n : ℕ) (cps : List (CP ℝ)) (hn : 2 ≤ cps.length ∨ n ≤ cps.length) :
    ∃ new, padTo n cps = .ok new ∧ new.length = max n cps.length ∧ SameLoop (segs true cps) (segs true new) := by
  induction hk : n - cps.length generalizing cps with
  | zero =>
    have : ¬ cps.length < n := by omega
    refine ⟨cps, ?_, by omega, .refl _⟩
    rw [padTo, if_neg this]
  | succ k ih =>
    have hlt : cps.length < n := by omega
    obtain ⟨new, S, L, R, rest, i, j, e1, e2, e3, e4, e5, -⟩ := C36_add_one_closed cps (by omega)
    obtain ⟨new', f1, f2, f3⟩ := ih new (Or.inl (by omega)) (by omega)
    refine ⟨new', ?_, by omega, .trans (.step i j e3 e4 e5) f3⟩
    rw [padTo, if_pos hlt, e1]
    simp only
    rw [if_pos e2, f1]

theorem trace_rotate (a : List (Poly4 ℝ)) (i : ℕ) : trace (a.rotate i) = trace a := by
  simp [trace, List.mem_rotate]

theorem sameLoop_trace {a b : List (Poly4 ℝ)} (h : SameLoop a b) : trace a = trace b := by
  induction h with
  | refl => rfl
  | trans _ _ h1 h2 => exact h1.trans h2
  | turn i => exact (trace_rotate _ i).symm
  | @step a S L R rest b i j h1 h2 h3 =>
    rw [← trace_rotate a i, ← trace_rotate b j, h1, h2]
    ext p
    simp only [trace, List.mem_cons, Set.mem_ofPred_eq, exists_eq_or_imp]
    constructor
    · rintro (⟨u, hu0, hu1, rfl⟩ | hr)
      · rcases le_total u (1 / 2) with hu | hu
        · exact Or.inl ⟨2 * u, by linarith, by linarith, by rw [(h3 _).1]; congr 1; ring⟩
        · exact Or.inr (Or.inl ⟨2 * u - 1, by linarith, by linarith, by rw [(h3 _).2]; congr 1; ring⟩)
      · exact Or.inr (Or.inr hr)
    · rintro (⟨u, hu0, hu1, rfl⟩ | ⟨u, hu0, hu1, rfl⟩ | hr)
      · exact Or.inl ⟨u / 2, by linarith, by linarith, ((h3 u).1).symm⟩
      · exact Or.inl ⟨(1 + u) / 2, by linarith, by linarith, ((h3 u).2).symm⟩
      · exact Or.inr hr

/-! ### Mixing -/

theorem coord_mix (t : ℝ) (m o g : CP ℝ) (k : Fin 6) : coord k (mixCP t m o g) = coord k o + t * (coord k g - coord k o) := by
  fin_cases k <;> simp [coord, mixCP, mixPt, mixVec, Pt.addVector, Pt.sub, Vec.mul, Vec.add, Vec.sub, Vec.subVector] <;> ring

theorem cp_ext_coord {a b : CP ℝ} (h : ∀ k, coord k a = coord k b) : a.c = b.c ∧ a.dl = b.dl ∧ a.dr = b.dr := by
  have h0 := h 0
  have h1 := h 1
  have h2 := h 2
  have h3 := h 3
  have h4 := h 4
  have h5 := h 5
  simp only [coord] at h0 h1 h2 h3 h4 h5
  exact ⟨by ext <;> assumption, by ext <;> assumption, by ext <;> assumption⟩

theorem mixAll_length (t : ℝ) : ∀ m o g : List (CP ℝ), (mixAll t m o g).length = m.length
  | m :: ms, o :: os, g :: gs => by simp [mixAll, mixAll_length t ms os gs]
  | [], _, _ => by simp [mixAll]
  | m :: ms, [], _ => by simp [mixAll]
  | m :: ms, o :: os, [] => by simp [mixAll]

theorem mixAll_get (t : ℝ) : ∀ (m o g : List (CP ℝ)) (i : ℕ) (x a b : CP ℝ), m[i]? = some x → o[i]? = some a → g[i]? = some b →
    (mixAll t m o g)[i]? = some (mixCP t x a b)
  | m :: ms, o :: os, g :: gs, 0, x, a, b, h1, h2, h3 => by
    simp only [List.getElem?_cons_zero, Option.some.injEq] at h1 h2 h3
    simp [mixAll, h1, h2, h3]
  | m :: ms, o :: os, g :: gs, i + 1, x, a, b, h1, h2, h3 => by
    simp only [List.getElem?_cons_succ] at h1 h2 h3
    simp only [mixAll, List.getElem?_cons_succ]
    exact mixAll_get t ms os gs i x a b h1 h2 h3
  | [], _, _, _, _, _, _, h1, _, _ => by simp at h1
  | m :: ms, [], _, _, _, _, _, _, h2, _ => by simp at h2
  | m :: ms, o :: os, [], _, _, _, _, _, _, h3 => by simp at h3

theorem mixAll_kinds (t : ℝ) : ∀ m o g : List (CP ℝ), (mixAll t m o g).map CP.kind = m.map CP.kind
  | m :: ms, o :: os, g :: gs => by simp [mixAll, mixAll_kinds t ms os gs, mixCP]
  | [], _, _ => by simp [mixAll]
  | m :: ms, [], _ => by simp [mixAll]
  | m :: ms, o :: os, [] => by simp [mixAll]

theorem hide_kinds (m : List (CP ℝ)) : (hide m).map CP.kind = m.map CP.kind := by
  simp [hide]

theorem kinds_get {o r : List (CP ℝ)} (h : r.map CP.kind = o.map CP.kind) (i : ℕ) (a c : CP ℝ) (ha : o[i]? = some a)
    (hc : r[i]? = some c) : c.kind = a.kind := by
  have := congrArg (fun l => l[i]?) h
  simpa [ha, hc] using this

theorem mixAll_blended (t : ℝ) (m o g : List (CP ℝ)) (hk : m.map CP.kind = o.map CP.kind) :
    Blended t o g (mixAll t m o g) := by
  have hl : m.length = o.length := by simpa using congrArg List.length hk
  refine ⟨by rw [mixAll_length, hl], fun i a b c ha hb hc => ?_⟩
  have hi : i < m.length := by rw [hl]; exact (List.getElem?_eq_some_iff.1 ha).1
  have hx : m[i]? = some m[i] := by simp
  have := mixAll_get t m o g i _ a b hx ha hb
  rw [hc] at this
  injection this with this
  rw [this]
  exact ⟨(kinds_get hk i a m[i] ha hx : m[i].kind = a.kind), coord_mix t _ a b⟩

/-! ### Replacing twice -/

section
variable {same1 same2 : Elem → Bool} {r1 r2 : Elem}

theorem replaced_group {h hd es} : ∃ es', replaced same1 r1 (.group h hd es) = .group h hd es' := ⟨_, by rw [replaced]⟩

/-- What an element not replaced looks like afterwards to a predicate that no group meets. -/
theorem same2_replaced (hg : ∀ h hd es, same2 (.group h hd es) = false) (x : Elem) (hx : same2 x = true → same1 x = true)
    (h1 : same1 x = false) : same2 (replaced same1 r1 x) = false := by
  have hx' : same2 x = false := by
    cases h : same2 x with
    | false => rfl
    | true => rw [hx h] at h1; cases h1
  cases x with
  | group h hd es => rw [replaced]; exact hg _ _ _
  | curve => rw [replaced]; exact hx'
  | rect => rw [replaced]; exact hx'
  | rrect => rw [replaced]; exact hx'
  | ellipse => rw [replaced]; exact hx'
  | holes => rw [replaced]; exact hx'

theorem kept_append {same : Elem → Bool} {r : Elem} (a b : List (Str × Elem)) :
    kept same r (a ++ b) = kept same r a ++ kept same r b := by
  induction a with
  | nil => simp [kept]
  | cons x a ih =>
    obtain ⟨k, e⟩ := x
    simp only [List.cons_append, kept, ih]
    split <;> simp

theorem hitsAll_append {same : Elem → Bool} (a b : List (Str × Elem)) : hitsAll same (a ++ b) = hitsAll same a + hitsAll same b := by
  induction a with
  | nil => simp [hitsAll]
  | cons x a ih =>
    obtain ⟨k, e⟩ := x
    simp only [List.cons_append, hitsAll, ih]
    omega

theorem replaceableAll_append {same : Elem → Bool} {r : Elem} {a b : List (Str × Elem)} (ha : ReplaceableAll same r a)
    (hb : ReplaceableAll same r b) : ReplaceableAll same r (a ++ b) := by
  induction a with
  | nil => simpa using hb
  | cons x a ih =>
    obtain ⟨k, e⟩ := x
    simp only [List.cons_append, ReplaceableAll] at ha ⊢
    exact ⟨ha.1, ih ha.2⟩

theorem hits_none {same : Elem → Bool} {es : List (Str × Elem)} (h : es.any (fun x => same x.2) = false) :
    ((es.filter fun x => !same x.2).map fun x => hits same x.2).sum = hitsAll same es := by
  induction es with
  | nil => simp [hitsAll]
  | cons x es ih =>
    obtain ⟨k, e⟩ := x
    simp only [List.any_cons, Bool.or_eq_false_iff] at h
    simp [hitsAll, h.1, ih h.2]

theorem hits_one {same : Elem → Bool} {es : List (Str × Elem)} (h : (es.filter fun x => same x.2).length ≤ 1)
    (hex : ∃ x ∈ es, same x.2 = true) :
    hitsAll same es = 1 + ((es.filter fun x => !same x.2).map fun x => hits same x.2).sum := by
  induction es with
  | nil => simp at hex
  | cons x es ih =>
    obtain ⟨k, e⟩ := x
    cases hs : same e with
    | true =>
      have hnone : es.any (fun x => same x.2) = false := by
        simp only [List.filter_cons, hs, if_true, List.length_cons] at h
        have h0 : (es.filter fun x => same x.2).length = 0 := by omega
        rw [List.length_eq_zero_iff, List.filter_eq_nil_iff] at h0
        rw [List.any_eq_false]
        exact h0
      simp [hitsAll, hs, hits_none hnone]
    | false =>
      have := ih (by simpa [List.filter_cons, hs] using h) (by
        obtain ⟨x, hx, hx'⟩ := hex
        rcases List.mem_cons.1 hx with rfl | hx
        · rw [hs] at hx'; cases hx'
        · exact ⟨x, hx, hx'⟩)
      simp [hitsAll, hs, this]
      omega

mutual
theorem replaced_twice (hg : ∀ h hd es, same2 (.group h hd es) = false) (hr : same2 r1 = true) (hn : r1.hdr.name = r2.hdr.name) :
    (e : Elem) → Replaceable same1 r1 e → (∀ x, Below x e → same2 x = true → same1 x = true) →
    Replaceable same2 r2 (replaced same1 r1 e) ∧ replaced same2 r2 (replaced same1 r1 e) = replaced same1 r2 e ∧
      hits same2 (replaced same1 r1 e) = hits same1 e
  | .curve h x, _, _ => by simp [replaced, Replaceable, hits]
  | .rect h x y, _, _ => by simp [replaced, Replaceable, hits]
  | .rrect h x y z, _, _ => by simp [replaced, Replaceable, hits]
  | .ellipse h x y, _, _ => by simp [replaced, Replaceable, hits]
  | .holes h o i, hr, _ => by simp [Replaceable] at hr
  | .group h hd es, hrep, hb => by
    simp only [Replaceable] at hrep
    obtain ⟨k1, k2, k3, k4⟩ := hrep
    obtain ⟨p1, p2, p3, p4⟩ := kept_twice hg hr hn es k4 (fun k x hx => ⟨hb x (.here hx), fun y hy => hb y (.deep hx hy)⟩)
    have hkeys := kept_keys (same := same1) (r := r1) es
    have hsub : ((kept same1 r1 es).map Prod.fst).Nodup := by
      rw [hkeys]; exact k1.sublist (List.Sublist.map _ List.filter_sublist)
    by_cases hany : es.any (fun x => same1 x.2) = true
    · have hex : ∃ x ∈ es, same1 x.2 = true := by simpa using hany
      have hfree : ∀ x ∈ kept same1 r1 es, x.1 ≠ r1.hdr.name := by
        intro x hx he
        have : x.1 ∈ (es.filter fun x => !same1 x.2).map Prod.fst := by
          rw [← hkeys]; exact List.mem_map_of_mem hx
        obtain ⟨y, hy, he2⟩ := List.mem_map.1 this
        obtain ⟨hy1, hy2⟩ := List.mem_filter.1 hy
        exact (k3 hex).2 y hy1 (by simpa using hy2) (he2.trans he)
      have hone : hitsAll same1 es = 1 + hitsAll same2 (kept same1 r1 es) := by rw [p4]; exact hits_one k2 hex
      have hreplAll := replaceableAll_append (same := same2) (r := r2) (b := [(r1.hdr.name, r1)]) p1 (by
        simp only [ReplaceableAll, and_true]
        intro h; rw [hr] at h; cases h)
      refine ⟨?_, ?_, ?_⟩
      · simp only [replaced, hany, if_true, Replaceable]
        refine ⟨?_, ?_, ?_, hreplAll⟩
        · rw [List.map_append, List.nodup_append]
          refine ⟨hsub, by simp, ?_⟩
          intro a ha b hb' e
          obtain ⟨x, hx, rfl⟩ := List.mem_map.1 ha
          simp only [List.map_cons, List.map_nil, List.mem_singleton] at hb'
          exact hfree x hx (e.trans hb')
        · rw [List.filter_append]
          have : (kept same1 r1 es).filter (fun x => same2 x.2) = [] := by
            rw [List.filter_eq_nil_iff]
            intro x hx h
            rw [p3 x hx] at h; cases h
          rw [this]
          simp [hr]
        · intro _
          refine ⟨by rw [← hn]; exact (k3 hex).1, fun x hx hs => ?_⟩
          rcases List.mem_append.1 hx with hx | hx
          · rw [← hn]; exact hfree x hx
          · simp only [List.mem_singleton] at hx
            subst hx
            rw [hr] at hs; cases hs
      · simp only [replaced, hany, if_true, kept_append, p2]
        have : (kept same1 r1 es ++ [(r1.hdr.name, r1)]).any (fun x => same2 x.2) = true := by simp [hr]
        rw [if_pos this]
        simp [kept, hr]
      · simp only [replaced, hany, if_true, hits, hitsAll_append, hone]
        simp [hitsAll, hr]
        omega
    · have hany' : es.any (fun x => same1 x.2) = false := by simpa using hany
      have hno : ∀ x ∈ kept same1 r1 es, same2 x.2 = false := p3
      have hnone : (kept same1 r1 es).any (fun x => same2 x.2) = false := by
        rw [List.any_eq_false]
        intro x hx h
        rw [hno x hx] at h; cases h
      simp only [replaced, hany', Bool.false_eq_true, if_false, List.append_nil, Replaceable, hits, hnone, p2]
      refine ⟨⟨hsub, ?_, ?_, p1⟩, trivial, ?_⟩
      · have : (kept same1 r1 es).filter (fun x => same2 x.2) = [] := by
          rw [List.filter_eq_nil_iff]
          intro x hx h
          rw [hno x hx] at h; cases h
        rw [this]; simp
      · rintro ⟨x, hx, hs⟩
        rw [hno x hx] at hs; cases hs
      · rw [p4]
        exact hits_none hany'
theorem kept_twice (hg : ∀ h hd es, same2 (.group h hd es) = false) (hr : same2 r1 = true) (hn : r1.hdr.name = r2.hdr.name) :
    (es : List (Str × Elem)) → ReplaceableAll same1 r1 es →
    (∀ k x, (k, x) ∈ es → (same2 x = true → same1 x = true) ∧ ∀ y, Below y x → same2 y = true → same1 y = true) →
    ReplaceableAll same2 r2 (kept same1 r1 es) ∧ kept same2 r2 (kept same1 r1 es) = kept same1 r2 es ∧
      (∀ x ∈ kept same1 r1 es, same2 x.2 = false) ∧
      hitsAll same2 (kept same1 r1 es) = ((es.filter fun x => !same1 x.2).map fun x => hits same1 x.2).sum
  | [], _, _ => by simp [kept, ReplaceableAll, hitsAll]
  | (k, e) :: rest, hrep, hb => by
    simp only [ReplaceableAll] at hrep
    obtain ⟨q1, q2, q3, q4⟩ := kept_twice hg hr hn rest hrep.2 (fun k x hx => hb k x (List.mem_cons_of_mem _ hx))
    cases hs : same1 e with
    | true => simp only [kept, hs, if_true]; exact ⟨q1, q2, q3, by simpa [hs] using q4⟩
    | false =>
      obtain ⟨b1, b2⟩ := hb k e List.mem_cons_self
      obtain ⟨e1, e2, e3⟩ := replaced_twice hg hr hn e (hrep.1 hs) b2
      have e4 := same2_replaced (r1 := r1) hg e b1 hs
      simp only [kept, hs, Bool.false_eq_true, if_false, ReplaceableAll, e4, hitsAll]
      refine ⟨⟨fun _ => e1, q1⟩, by rw [e2, q2], ?_, ?_⟩
      · intro x hx
        rcases List.mem_cons.1 hx with rfl | hx
        · exact e4
        · exact q3 x hx
      · rw [q4, e3]
        simp [hs]
end

end

end X7.Morph
