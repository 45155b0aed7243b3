import Verif.Spec.SelfHeap
import Verif.Props.SelfCurve

/-! Lemmas about the object model of `bez_self_intersect`. -/

noncomputable section

open Classical

namespace X7.Bzi

theorem Shorter.refl (v : Vec ℝ) : Shorter v v := ⟨1, by norm_num, le_refl _, by ext <;> simp⟩

theorem Shorter.trans {a b c : Vec ℝ} (h : Shorter a b) (h' : Shorter b c) : Shorter a c := by
  obtain ⟨u, h0, h1, rfl⟩ := h
  obtain ⟨w, h0', h1', rfl⟩ := h'
  exact ⟨u * w, by positivity, by nlinarith, by ext <;> simp <;> ring⟩

/-- Objects that existed are as they were. -/
structure Ext (h h' : Heap) : Prop where
  le : h.next ≤ h'.next
  same : ∀ x < h.next, h'.obj x = h.obj x

theorem Ext.refl (h : Heap) : Ext h h := ⟨le_refl _, fun _ _ => rfl⟩

theorem Ext.trans {a b c : Heap} (h : Ext a b) (h' : Ext b c) : Ext a c :=
  ⟨h.le.trans h'.le, fun x hx => (h'.same x (hx.trans_le h.le)).trans (h.same x hx)⟩

theorem ext_new (h : Heap) (v : CP ℝ) : Ext h (h.new v) :=
  ⟨Nat.le_succ _, fun x hx => by simp [Heap.new, Function.update, hx.ne]⟩

theorem ext_split (h : Heap) (a b : ℕ) (t : ℝ) : Ext h (splitObj h a b t) :=
  ((ext_new _ _).trans (ext_new _ _)).trans (ext_new _ _)

theorem split_next (h : Heap) (a b : ℕ) (t : ℝ) : (splitObj h a b t).next = h.next + 3 := rfl

theorem split_l (h : Heap) (a b : ℕ) (t : ℝ) : (splitObj h a b t).obj h.next = (bezSplit (h.obj a) (h.obj b) t).1 := by
  simp [splitObj, Heap.new, Function.update]
  intro e; omega

theorem split_m (h : Heap) (a b : ℕ) (t : ℝ) : (splitObj h a b t).obj (h.next + 1) = (bezSplit (h.obj a) (h.obj b) t).2.1 := by
  simp [splitObj, Heap.new, Function.update]

theorem split_r (h : Heap) (a b : ℕ) (t : ℝ) : (splitObj h a b t).obj (h.next + 2) = (bezSplit (h.obj a) (h.obj b) t).2.2 := by
  simp [splitObj, Heap.new, Function.update]

theorem read_append (h : Heap) (a b : List (ℕ × Option (Pt ℝ))) : read h (a ++ b) = read h a ++ read h b := List.map_append

theorem read_congr {h h' : Heap} {l : List (ℕ × Option (Pt ℝ))} (e : ∀ x ∈ l, h'.obj x.1 = h.obj x.1) : read h' l = read h l :=
  List.map_congr_left fun x hx => by rw [e x hx]

/-- What the pieces of a segment look like as objects: a first one, new ones, a last one. -/
structure Loc (a b : ℕ) (ixs : List (ℝ × Pt ℝ)) (h h' : Heap) (x0 : ℕ × Option (Pt ℝ)) (mids : List (ℕ × Option (Pt ℝ)))
    (z : ℕ × Option (Pt ℝ)) : Prop where
  whole : ixs = [] → x0.1 = a ∧ mids = [] ∧ z.1 = b
  newz : ixs ≠ [] → h.next ≤ z.1 ∧ z.1 ∉ mids.map Prod.fst
  mid : ∀ x ∈ mids, h.next ≤ x.1 ∧ x.1 < h'.next
  nodup : (mids.map Prod.fst).Nodup
  z_lt : z.1 < h'.next
  x0_lt : x0.1 < h'.next
  x0_new : ixs ≠ [] → h.next ≤ x0.1 ∧ x0.1 ∉ mids.map Prod.fst ∧ x0.1 ≠ z.1

theorem splitAt_sim : ∀ (ixs : List (ℝ × Pt ℝ)) (a b : ℕ) (t : ℝ) (nn : Option (Pt ℝ)) (h : Heap), a < h.next → b < h.next →
    Ext h (splitAtObj a b t nn ixs h).1 ∧
    (splitAtObj a b t nn ixs h).2.map (read (splitAtObj a b t nn ixs h).1) = splitAt (h.obj a) (h.obj b) t nn ixs ∧
    ∀ loc, (splitAtObj a b t nn ixs h).2 = .ok loc → ∃ x0 mids z, loc = x0 :: mids ++ [z] ∧
      Loc a b ixs h (splitAtObj a b t nn ixs h).1 x0 mids z := by
  intro ixs
  induction ixs with
  | nil =>
    intro a b t nn h ha hb
    refine ⟨Ext.refl h, rfl, ?_⟩
    rintro loc hl
    cases hl
    exact ⟨(a, nn), [], (b, none), rfl, by simp, by simp, by simp, by simp, hb, ha, by simp⟩
  | cons p rest ih =>
    obtain ⟨t_ix, xy⟩ := p
    intro a b t nn h ha hb
    simp only [splitAtObj, splitAt]
    cases hu : pyDiv (t_ix - t) (1 - t) with
    | error e => exact ⟨Ext.refl h, rfl, fun loc hl => by cases hl⟩
    | ok u =>
      simp only
      have hx := ext_split h a b u
      rw [split_m]
      split
      · exact ⟨hx, rfl, fun loc hl => by cases hl⟩
      · obtain ⟨i1, i2, i3⟩ := ih (h.next + 1) (h.next + 2) t_ix (some xy) (splitObj h a b u) (by rw [split_next]; omega)
          (by rw [split_next]; omega)
        rw [split_m, split_r] at i2
        generalize splitAtObj (h.next + 1) (h.next + 2) t_ix (some xy) rest (splitObj h a b u) = R at i1 i2 i3
        obtain ⟨h', out⟩ := R
        refine ⟨hx.trans i1, ?_, ?_⟩
        · rw [← i2]
          cases out with
          | error e => rfl
          | ok tl =>
            simp only [Except.map, read, List.map_cons]
            rw [i1.same h.next (by rw [split_next]; omega), split_l]
        · intro loc hl
          cases out with
          | error e => cases hl
          | ok tl =>
            cases hl
            obtain ⟨x0, mids, z, rfl, L⟩ := i3 tl rfl
            have hn := split_next h a b u
            have hle := i1.le
            have hz : h.next + 2 ≤ z.1 := by
              by_cases hr : rest = []
              · rw [(L.whole hr).2.2]
              · have := (L.newz hr).1
                omega
            have h0 : h.next + 1 ≤ x0.1 := by
              by_cases hr : rest = []
              · rw [(L.whole hr).1]
              · have := (L.x0_new hr).1
                omega
            have hm : ∀ x ∈ mids, h.next + 3 ≤ x.1 := fun x hx => by have := (L.mid x hx).1; omega
            have h0m : x0.1 ∉ mids.map Prod.fst := by
              by_cases hr : rest = []
              · rw [(L.whole hr).2.1]; simp
              · exact (L.x0_new hr).2.1
            have hzm : z.1 ∉ mids.map Prod.fst := by
              by_cases hr : rest = []
              · rw [(L.whole hr).2.1]; simp
              · exact (L.newz hr).2
            have h0z : x0.1 ≠ z.1 := by
              by_cases hr : rest = []
              · rw [(L.whole hr).1, (L.whole hr).2.2]; omega
              · exact (L.x0_new hr).2.2
            have hlt : h.next < h'.next := lt_of_lt_of_le (by rw [hn]; omega) hle
            refine ⟨(h.next, nn), x0 :: mids, z, rfl, by simp, fun _ => ⟨by omega, ?_⟩, ?_, ?_, L.z_lt, hlt, fun _ => ⟨le_refl _, ?_, ?_⟩⟩
            · simp only [List.map_cons, List.mem_cons, not_or]
              exact ⟨h0z.symm, hzm⟩
            · intro x hx
              rcases List.mem_cons.1 hx with rfl | hx
              · exact ⟨by omega, L.x0_lt⟩
              · exact ⟨by have := hm x hx; omega, (L.mid x hx).2⟩
            · simpa using ⟨by simpa using h0m, L.nodup⟩
            · simp only [List.map_cons, List.mem_cons, not_or]
              refine ⟨by show h.next ≠ x0.1; omega, fun hx => ?_⟩
              obtain ⟨y, hy, e⟩ := List.mem_map.1 hx
              have := hm y hy
              change y.1 = h.next at e
              omega
            · show h.next ≠ z.1; omega

/-- The handles of the ends of the pieces. -/
theorem splitAt_short {a b : CP ℝ} {t : ℝ} {nn : Option (Pt ℝ)} : ∀ {ixs : List (ℝ × Pt ℝ)} {loc : List CpBool},
    splitAt a b t nn ixs = .ok loc → t ≤ 1 → (∀ p ∈ ixs, t ≤ p.1 ∧ p.1 ≤ 1) → ixs.Pairwise (fun p q => p.1 ≤ q.1) →
    (∀ x, loc.head? = some x → Shorter x.cp.dr a.dr) ∧ (∀ z, loc.getLast? = some z → Shorter z.cp.dl b.dl) := by
  intro ixs
  induction ixs generalizing a b t nn with
  | nil =>
    intro loc h _ _ _
    cases h
    exact ⟨fun x hx => by cases hx; exact .refl _, fun z hz => by cases hz; exact .refl _⟩
  | cons p rest ih =>
    obtain ⟨t_ix, xy⟩ := p
    intro loc h ht hp hs
    simp only [splitAt, pyDiv] at h
    by_cases h1 : (1 : ℝ) - t = 0
    · rw [if_pos h1] at h; cases h
    · rw [if_neg h1] at h
      simp only at h
      split at h
      · cases h
      · obtain ⟨p1, p2⟩ := hp _ List.mem_cons_self
        simp only at p1 p2
        have hpos : 0 < 1 - t := lt_of_le_of_ne (by linarith) (Ne.symm h1)
        obtain ⟨hs1, hs2⟩ := List.pairwise_cons.1 hs
        cases hr : splitAt (bezSplit a b ((t_ix - t) / (1 - t))).2.1 (bezSplit a b ((t_ix - t) / (1 - t))).2.2 t_ix (some xy) rest with
        | error e => rw [hr] at h; cases h
        | ok tl =>
          rw [hr] at h
          cases h
          obtain ⟨-, i2⟩ := ih hr p2 (fun q hq => ⟨hs1 q hq, (hp q (List.mem_cons_of_mem _ hq)).2⟩) hs2
          have u0 : 0 ≤ (t_ix - t) / (1 - t) := div_nonneg (by linarith) hpos.le
          have u1 : (t_ix - t) / (1 - t) ≤ 1 := (div_le_one hpos).2 (by linarith)
          have hne : tl ≠ [] := by
            intro e
            subst e
            cases rest with
            | nil => cases hr
            | cons q rest =>
              simp only [splitAt] at hr
              split at hr
              · cases hr
              · split at hr
                · cases hr
                · split at hr <;> cases hr
          refine ⟨?_, ?_⟩
          · intro x hx
            cases hx
            refine ⟨_, u0, u1, ?_⟩
            ext <;> simp [bezSplit, lerp, CP.r, Pt.addVector, Pt.sub, Vec.mul] <;> ring
          · intro z hz
            rw [List.getLast?_cons_of_ne_nil hne] at hz
            refine (i2 z hz).trans ⟨1 - (t_ix - t) / (1 - t), by linarith, by linarith, ?_⟩
            ext <;> simp [bezSplit, lerp, CP.l, Pt.addVector, Pt.sub, Vec.mul] <;> ring

/-- The last object of a segment is not in `A` and not in the segments after the next one, nor the end of the next one. -/
def Sep : List ℕ → List (ℕ × ℕ) → Prop
  | _, [] => True
  | _, [_] => True
  | A, s :: s2 :: rest => s.2 ∉ A ∧ s.2 ≠ s2.2 ∧ (∀ s' ∈ rest, s.2 ≠ s'.1 ∧ s.2 ≠ s'.2) ∧ Sep (s.2 :: A) (s2 :: rest)

/-- The invariant of the loop over the segments: `N` bounds the objects made before the loop. -/
structure HInv (N : ℕ) (A : List ℕ) (h : Heap) (init : List (ℕ × Option (Pt ℝ))) (L : ℕ × Option (Pt ℝ)) (segs : List (ℕ × ℕ)) : Prop where
  sep : Sep A segs
  segs_lt : ∀ s ∈ segs, s.1 < N ∧ s.2 < N
  le : N ≤ h.next
  lt : ∀ x ∈ init ++ [L], x.1 < h.next
  old : ∀ x ∈ init ++ [L], x.1 < N → x.1 ∈ A
  nodup : (init.map Prod.fst).Nodup
  fresh : segs ≠ [] → L.1 ∉ init.map Prod.fst
  last : ∀ s rest, segs = s :: rest → L.1 ≠ s.2 ∧ ∀ s' ∈ rest, L.1 ≠ s'.1 ∧ L.1 ≠ s'.2

/-- The invariant after one more segment. -/
theorem inv_step {N : ℕ} {A : List ℕ} {h h1 : Heap} {init : List (ℕ × Option (Pt ℝ))} {L : ℕ × Option (Pt ℝ)} {ab : ℕ × ℕ}
    {segs : List (ℕ × ℕ)} (I : HInv N A h init L (ab :: segs)) {ixs : List (ℝ × Pt ℝ)} {x0 z : ℕ × Option (Pt ℝ)}
    {mids : List (ℕ × Option (Pt ℝ))} (hx : Ext h h1) (l : Loc ab.1 ab.2 ixs h h1 x0 mids z) (v : CP ℝ) :
    HInv N (ab.2 :: A) (h1.set L.1 v) (init ++ [L] ++ mids) z segs := by
  have hab := I.segs_lt _ List.mem_cons_self
  have hle := I.le
  have hzz : z.1 < N → z.1 = ab.2 := by
    intro hz
    by_cases hi : ixs = []
    · exact (l.whole hi).2.2
    · have := (l.newz hi).1
      omega
  refine ⟨?_, fun s hs => I.segs_lt s (List.mem_cons_of_mem _ hs), hle.trans hx.le, ?_, ?_, ?_, ?_, ?_⟩
  · cases segs with
    | nil => trivial
    | cons s2 rest => exact I.sep.2.2.2
  · intro x hm
    change x.1 < h1.next
    rcases List.mem_append.1 hm with hm | hm
    · rcases List.mem_append.1 hm with hm | hm
      · exact (I.lt x hm).trans_le hx.le
      · exact (l.mid x hm).2
    · rw [List.mem_singleton.1 hm]
      exact l.z_lt
  · intro x hm hN
    rcases List.mem_append.1 hm with hm | hm
    · rcases List.mem_append.1 hm with hm | hm
      · exact List.mem_cons_of_mem _ (I.old x hm hN)
      · have := (l.mid x hm).1
        omega
    · rw [List.mem_singleton.1 hm] at hN ⊢
      rw [hzz hN]
      exact List.mem_cons_self
  · rw [List.map_append, List.nodup_append]
    refine ⟨?_, l.nodup, ?_⟩
    · rw [List.map_append, List.nodup_append]
      refine ⟨I.nodup, by simp, ?_⟩
      intro a ha b hb
      simp only [List.map_cons, List.map_nil, List.mem_singleton] at hb
      subst hb
      rintro rfl
      exact I.fresh (by simp) ha
    · intro a ha b hb
      obtain ⟨x, hxm, rfl⟩ := List.mem_map.1 ha
      obtain ⟨y, hy, rfl⟩ := List.mem_map.1 hb
      have h1' := I.lt x hxm
      have h2' := (l.mid y hy).1
      omega
  · intro hne
    rw [List.map_append, List.mem_append, not_or]
    by_cases hi : ixs = []
    · obtain ⟨-, rfl, hz⟩ := l.whole hi
      refine ⟨fun hm => ?_, by simp⟩
      obtain ⟨x, hxm, hxe⟩ := List.mem_map.1 hm
      cases segs with
      | nil => exact hne rfl
      | cons s2 rest =>
        apply I.sep.1
        rw [← hz, ← hxe]
        exact I.old x hxm (by rw [hxe, hz]; exact hab.2)
    · refine ⟨fun hm => ?_, (l.newz hi).2⟩
      obtain ⟨x, hxm, hxe⟩ := List.mem_map.1 hm
      have h1' := I.lt x hxm
      have h2' := (l.newz hi).1
      omega
  · intro s rest hs
    subst hs
    by_cases hi : ixs = []
    · rw [(l.whole hi).2.2]
      exact ⟨I.sep.2.1, I.sep.2.2.1⟩
    · have hz := (l.newz hi).1
      have b := I.segs_lt
      refine ⟨?_, ?_⟩
      · have := (b s (by simp)).2
        omega
      · intro s' hs'
        have := b s' (by simp [hs'])
        constructor <;> omega

/-- The segments read as values. -/
def vals (h : Heap) (curves : List ((ℕ × ℕ) × List (ℝ × Pt ℝ))) : List ((CP ℝ × CP ℝ) × List (ℝ × Pt ℝ)) :=
  curves.map fun c => ((h.obj c.1.1, h.obj c.1.2), c.2)

/-- The loop over the segments, for objects and for values. -/
theorem expand_sim (N : ℕ) : ∀ (curves : List ((ℕ × ℕ) × List (ℝ × Pt ℝ))) (A : List ℕ) (h : Heap) (init : List (ℕ × Option (Pt ℝ)))
    (L : ℕ × Option (Pt ℝ)), HInv N A h init L (curves.map Prod.fst) →
    h.next ≤ (expandObj (init ++ [L]) curves h).1.next ∧
    (expandObj (init ++ [L]) curves h).2.map (read (expandObj (init ++ [L]) curves h).1) = expand (read h (init ++ [L])) (vals h curves) ∧
    (∀ x < h.next, ∃ dr, (expandObj (init ++ [L]) curves h).1.obj x = { h.obj x with dr := dr }) ∧
    (∀ x < h.next, (curves ≠ [] → x ≠ L.1) → x ∉ (curves.map fun c => c.1.2).dropLast →
      (expandObj (init ++ [L]) curves h).1.obj x = h.obj x) ∧
    (∀ out, (expandObj (init ++ [L]) curves h).2 = .ok out → ∃ init' L', out = init' ++ [L'] ∧ (init'.map Prod.fst).Nodup ∧
      init <+: init' ∧ ∀ x ∈ out, x.1 < (expandObj (init ++ [L]) curves h).1.next) ∧
    ((∀ c ∈ curves, ∀ p ∈ c.2, 0 ≤ p.1 ∧ p.1 ≤ 1) → (curves.map Prod.fst).IsChain (fun s s' => Shorter (h.obj s'.1).dr (h.obj s.2).dr) →
      (L.1 < N → ∀ s rest, curves.map Prod.fst = s :: rest → Shorter (h.obj s.1).dr (h.obj L.1).dr) →
      (∀ x < N, Shorter ((expandObj (init ++ [L]) curves h).1.obj x).dr (h.obj x).dr) ∧
      ∀ out, (expandObj (init ++ [L]) curves h).2 = .ok out → ∀ z s, out.getLast? = some z → curves.getLast? = some s →
        Shorter ((expandObj (init ++ [L]) curves h).1.obj z.1).dl (h.obj s.1.2).dl) := by
  intro curves
  induction curves with
  | nil =>
    intro A h init L I
    refine ⟨le_refl _, rfl, fun x _ => ⟨_, rfl⟩, fun x _ _ _ => rfl, ?_, fun _ _ _ => ⟨fun x _ => .refl _, ?_⟩⟩
    · intro out ho
      cases ho
      exact ⟨init, L, rfl, I.nodup, List.prefix_refl _, I.lt⟩
    · intro out _ z s _ hs
      cases hs
  | cons c rest ih =>
    obtain ⟨ab, ixs⟩ := c
    intro A h init L I
    have hab := I.segs_lt ab (by simp)
    obtain ⟨s1, s2, s3⟩ := splitAt_sim (sortIxs ixs) ab.1 ab.2 0 none h (hab.1.trans_le I.le) (hab.2.trans_le I.le)
    obtain ⟨h1, o, hR⟩ : ∃ h1 o, splitAtObj ab.1 ab.2 0 none (sortIxs ixs) h = (h1, o) := ⟨_, _, rfl⟩
    rw [hR] at s1 s2 s3
    simp only [expandObj, hR, vals, List.map_cons, expand]
    simp only at s1 s2 s3
    rw [← s2]
    cases o with
    | error e =>
      refine ⟨s1.le, rfl, fun x hx => ⟨(h.obj x).dr, by rw [s1.same x hx]⟩, fun x hx _ _ => s1.same x hx, fun out ho => (by cases ho),
        fun _ _ _ => ⟨fun x hx => ?_, fun out ho => (by cases ho)⟩⟩
      rw [s1.same x (hx.trans_le I.le)]
      exact .refl _
    | ok loc =>
      obtain ⟨x0, mids, z, rfl, l⟩ := s3 loc rfl
      have hL : L.1 < h.next := I.lt L (by simp)
      have rL : read h (init ++ [L]) = read h init ++ [⟨h.obj L.1, L.2⟩] := by rw [read_append]; rfl
      have rl : read h1 (x0 :: mids ++ [z]) = ⟨h1.obj x0.1, x0.2⟩ :: read h1 (mids ++ [z]) := rfl
      simp only [Except.map, List.cons_append, extendObj, List.getLast?_append, List.getLast?_singleton, Option.some_or]
      rw [show read h1 (x0 :: (mids ++ [z])) = ⟨h1.obj x0.1, x0.2⟩ :: read h1 (mids ++ [z]) from rfl, rL]
      simp only [extend, List.getLast?_append, List.getLast?_singleton, Option.some_or, s1.same L.1 hL]
      by_cases hc : (h.obj L.1).c = (h1.obj x0.1).c
      · rw [if_pos hc, if_pos hc]
        simp only
        have I' := inv_step I s1 l { h.obj L.1 with dr := (h1.obj x0.1).dr }
        set h2 := h1.set L.1 { h.obj L.1 with dr := (h1.obj x0.1).dr } with hh2
        have e2 : ∀ x, x ≠ L.1 → h2.obj x = h1.obj x := fun x hx => by simp [hh2, Heap.set, Function.update, hx]
        have e2L : h2.obj L.1 = { h.obj L.1 with dr := (h1.obj x0.1).dr } := by simp [hh2, Heap.set]
        have hlast := I.last ab (rest.map Prod.fst) rfl
        have hzL : z.1 ≠ L.1 := by
          by_cases hi : sortIxs ixs = []
          · rw [(l.whole hi).2.2]; exact hlast.1.symm
          · have := (l.newz hi).1; omega
        have hmL : ∀ x ∈ mids, x.1 ≠ L.1 := fun x hx => by have := (l.mid x hx).1; omega
        have hiL : ∀ x ∈ init, x.1 ≠ L.1 := fun x hx e => I.fresh (by simp) (e ▸ List.mem_map.2 ⟨x, hx, rfl⟩)
        have hv : vals h2 rest = vals h rest := by
          refine List.map_congr_left fun c hc => ?_
          have b := I.segs_lt c.1 (List.mem_cons_of_mem _ (List.mem_map.2 ⟨c, hc, rfl⟩))
          have n := hlast.2 c.1 (List.mem_map.2 ⟨c, hc, rfl⟩)
          rw [e2 _ n.1.symm, e2 _ n.2.symm, s1.same _ (b.1.trans_le I.le), s1.same _ (b.2.trans_le I.le)]
        have hr : read h2 (init ++ [L] ++ mids ++ [z]) =
            (read h init ++ [(⟨h.obj L.1, L.2⟩ : CpBool)]).dropLast ++ [(⟨{ h.obj L.1 with dr := (h1.obj x0.1).dr }, L.2⟩ : CpBool)] ++ read h1 (mids ++ [z]) := by
          rw [List.dropLast_concat, List.append_assoc (init ++ [L]), read_append, read_append]
          congr 1
          · congr 1
            · refine read_congr fun x hx => ?_
              rw [e2 _ (hiL x hx), s1.same _ (I.lt x (by simp [hx]))]
            · simp [read, e2L]
          · refine read_congr fun x hx => e2 _ ?_
            rcases List.mem_append.1 hx with hx | hx
            · exact hmL x hx
            · rw [List.mem_singleton.1 hx]; exact hzL
        have hcat : init ++ [L] ++ (mids ++ [z]) = init ++ [L] ++ mids ++ [z] := by simp
        rw [← hr, hcat]
        obtain ⟨i1, i2, i3, i4, i5, i6⟩ := ih (ab.2 :: A) h2 (init ++ [L] ++ mids) z I'
        have hn2 : h2.next = h1.next := rfl
        rw [hv] at i2
        refine ⟨s1.le.trans i1, i2, ?_, ?_, ?_, ?_⟩
        · intro x hx
          obtain ⟨dr, hd⟩ := i3 x (hx.trans_le s1.le)
          by_cases hxL : x = L.1
          · subst hxL
            exact ⟨dr, by rw [hd, e2L]⟩
          · exact ⟨dr, by rw [hd, e2 x hxL, s1.same x hx]⟩
        · intro x hx hxL hxb
          have hxL := hxL (by simp)
          rw [i4 x (hx.trans_le s1.le) ?_ ?_, e2 x hxL, s1.same x hx]
          · intro hne e
            by_cases hi : sortIxs ixs = []
            · apply hxb
              rw [e, (l.whole hi).2.2, List.dropLast_cons_of_ne_nil (by simpa using hne)]
              exact List.mem_cons_self
            · have := (l.newz hi).1
              omega
          · intro hm
            apply hxb
            rw [List.dropLast_cons_of_ne_nil]
            · exact List.mem_cons_of_mem _ hm
            · rintro e
              rw [e] at hm
              simp at hm
        · intro out ho
          obtain ⟨init', L', e1, e2', e3, e4⟩ := i5 out ho
          exact ⟨init', L', e1, e2', (List.prefix_append _ _).trans ((List.append_assoc init [L] mids ▸ e3)), e4⟩
        · intro hp hch hl
          have hp0 := hp (ab, ixs) List.mem_cons_self
          have hsp : splitAt (h.obj ab.1) (h.obj ab.2) 0 none (sortIxs ixs) = .ok (read h1 (x0 :: mids ++ [z])) := s2.symm
          obtain ⟨q1, q2⟩ := splitAt_short hsp (by norm_num) (fun p hp' => hp0 p ((sortIxs_perm ixs).mem_iff.1 hp')) (List.pairwise_map.1 (sortIxs_sorted ixs))
          have q1 : Shorter (h1.obj x0.1).dr (h.obj ab.1).dr := q1 ⟨h1.obj x0.1, x0.2⟩ rfl
          have q2 : Shorter (h1.obj z.1).dl (h.obj ab.2).dl := q2 ⟨h1.obj z.1, z.2⟩ (by rw [read_append]; exact List.getLast?_concat)
          have hold : ∀ s ∈ rest.map Prod.fst, h2.obj s.1 = h.obj s.1 ∧ h2.obj s.2 = h.obj s.2 := by
            intro s hs
            have b := I.segs_lt s (List.mem_cons_of_mem _ hs)
            have n := hlast.2 s hs
            exact ⟨by rw [e2 _ n.1.symm, s1.same _ (b.1.trans_le I.le)], by rw [e2 _ n.2.symm, s1.same _ (b.2.trans_le I.le)]⟩
          have hbL : h2.obj ab.2 = h.obj ab.2 := by rw [e2 _ hlast.1.symm, s1.same _ (hab.2.trans_le I.le)]
          have k1 : (rest.map Prod.fst).IsChain (fun s s' => Shorter (h2.obj s'.1).dr (h2.obj s.2).dr) := by
            have := (List.isChain_cons.1 hch).2
            refine this.imp_of_mem_imp fun s s' hs hs' hc => ?_
            rw [(hold s hs).2, (hold s' hs').1]
            exact hc
          have k2 : z.1 < N → ∀ s rest', rest.map Prod.fst = s :: rest' → Shorter (h2.obj s.1).dr (h2.obj z.1).dr := by
            intro hzN s rest' hs
            have hz : z.1 = ab.2 := by
              by_cases hi : sortIxs ixs = []
              · exact (l.whole hi).2.2
              · have := (l.newz hi).1
                have := I.le
                omega
            rw [hz, hbL, (hold s (by rw [hs]; simp)).1]
            rw [hs] at hch
            exact (List.isChain_cons_cons.1 hch).1
          obtain ⟨j1, j2⟩ := i6 (fun c hc => hp c (List.mem_cons_of_mem _ hc)) k1 k2
          refine ⟨?_, ?_⟩
          · intro x hx
            refine (j1 x hx).trans ?_
            by_cases hxL : x = L.1
            · subst hxL
              rw [e2L]
              exact q1.trans (hl hx ab _ rfl)
            · rw [e2 x hxL, s1.same x (hx.trans_le I.le)]
              exact .refl _
          · intro out ho z' s hz' hs
            cases rest with
            | nil =>
              cases hs
              cases ho
              rw [List.getLast?_concat] at hz'
              cases hz'
              show Shorter (h2.obj z.1).dl _
              rw [e2 _ hzL]
              exact q2
            | cons c2 rest2 =>
              have := j2 out ho z' s hz' hs
              rwa [(hold s.1 (List.mem_map.2 ⟨s, List.mem_of_getLast? hs, rfl⟩)).2] at this
      · rw [if_neg hc, if_neg hc]
        refine ⟨s1.le, rfl, fun x hx => ⟨(h.obj x).dr, by rw [s1.same x hx]⟩, fun x hx _ _ => s1.same x hx, fun out ho => (by cases ho),
          fun _ _ _ => ⟨fun x hx => ?_, fun out ho => (by cases ho)⟩⟩
        rw [s1.same x (hx.trans_le I.le)]
        exact .refl _

/-- The loop over the segments from its start. -/
theorem expandObj_start {N : ℕ} {s : ℕ × ℕ} {ixs : List (ℝ × Pt ℝ)} {rest : List ((ℕ × ℕ) × List (ℝ × Pt ℝ))} {h : Heap} (hN : N = h.next)
    (hsep : Sep [s.1] (s :: rest.map Prod.fst)) (hlt : ∀ s' ∈ s :: rest.map Prod.fst, s'.1 < N ∧ s'.2 < N)
    (hne : rest ≠ [] → s.2 ≠ s.1) :
    h.next ≤ (expandObj [] ((s, ixs) :: rest) h).1.next ∧
    (expandObj [] ((s, ixs) :: rest) h).2.map (read (expandObj [] ((s, ixs) :: rest) h).1) = expand [] (vals h ((s, ixs) :: rest)) ∧
    (∀ x < h.next, ∃ dr, (expandObj [] ((s, ixs) :: rest) h).1.obj x = { h.obj x with dr := dr }) ∧
    (∀ x < h.next, x ∉ (s.2 :: rest.map fun c => c.1.2).dropLast → (expandObj [] ((s, ixs) :: rest) h).1.obj x = h.obj x) ∧
    (∀ out, (expandObj [] ((s, ixs) :: rest) h).2 = .ok out → ∃ x0 init' L', out = x0 :: init' ++ [L'] ∧
      ((x0 :: init').map Prod.fst).Nodup ∧ (x0.1 < h.next → x0.1 = s.1)) ∧
    ((∀ c ∈ (s, ixs) :: rest, ∀ p ∈ c.2, 0 ≤ p.1 ∧ p.1 ≤ 1) →
      (s :: rest.map Prod.fst).IsChain (fun s s' => Shorter (h.obj s'.1).dr (h.obj s.2).dr) →
      (∀ x < N, Shorter ((expandObj [] ((s, ixs) :: rest) h).1.obj x).dr (h.obj x).dr) ∧
      ∀ out, (expandObj [] ((s, ixs) :: rest) h).2 = .ok out → ∀ z s', out.getLast? = some z → ((s, ixs) :: rest).getLast? = some s' →
        Shorter ((expandObj [] ((s, ixs) :: rest) h).1.obj z.1).dl (h.obj s'.1.2).dl) := by
  have hs := hlt s List.mem_cons_self
  obtain ⟨s1, s2, s3⟩ := splitAt_sim (sortIxs ixs) s.1 s.2 0 none h (hN ▸ hs.1) (hN ▸ hs.2)
  obtain ⟨h1, o, hR⟩ : ∃ h1 o, splitAtObj s.1 s.2 0 none (sortIxs ixs) h = (h1, o) := ⟨_, _, rfl⟩
  rw [hR] at s1 s2 s3
  simp only [expandObj, hR, vals, List.map_cons, expand]
  simp only at s1 s2 s3
  rw [← s2]
  cases o with
  | error e =>
    refine ⟨s1.le, rfl, fun x hx => ⟨(h.obj x).dr, by rw [s1.same x hx]⟩, fun x hx _ => s1.same x hx, fun out ho => (by cases ho),
      fun _ _ => ⟨fun x hx => ?_, fun out ho => (by cases ho)⟩⟩
    rw [s1.same x (hN ▸ hx)]
    exact .refl _
  | ok loc =>
    obtain ⟨x0, mids, z, rfl, l⟩ := s3 loc rfl
    simp only [Except.map, extendObj, extend, List.getLast?_nil]
    have hzz : z.1 < N → z.1 = s.2 := by
      intro hz
      by_cases hi : sortIxs ixs = []
      · exact (l.whole hi).2.2
      · have := (l.newz hi).1
        omega
    have h00 : x0.1 < N → x0.1 = s.1 := by
      intro hz
      by_cases hi : sortIxs ixs = []
      · exact (l.whole hi).1
      · have := (l.x0_new hi).1
        omega
    have I : HInv N (s.2 :: [s.1]) h1 (x0 :: mids) z (rest.map Prod.fst) := by
      refine ⟨?_, fun s' hs' => hlt s' (List.mem_cons_of_mem _ hs'), hN ▸ s1.le, ?_, ?_, ?_, ?_, ?_⟩
      · cases rest with
        | nil => trivial
        | cons c rest => exact hsep.2.2.2
      · intro x hx
        rcases List.mem_append.1 hx with hx | hx
        · rcases List.mem_cons.1 hx with rfl | hx
          · exact l.x0_lt
          · exact (l.mid x hx).2
        · rw [List.mem_singleton.1 hx]; exact l.z_lt
      · intro x hx hxN
        rcases List.mem_append.1 hx with hx | hx
        · rcases List.mem_cons.1 hx with rfl | hx
          · rw [h00 hxN]; simp
          · have := (l.mid x hx).1
            omega
        · rw [List.mem_singleton.1 hx] at hxN ⊢
          rw [hzz hxN]; simp
      · rw [List.map_cons, List.nodup_cons]
        refine ⟨?_, l.nodup⟩
        by_cases hi : sortIxs ixs = []
        · rw [(l.whole hi).2.1]; simp
        · exact (l.x0_new hi).2.1
      · intro hr
        rw [List.map_cons, List.mem_cons, not_or]
        by_cases hi : sortIxs ixs = []
        · obtain ⟨e1, e2, e3⟩ := l.whole hi
          rw [e1, e2, e3]
          exact ⟨hne (by simpa using hr), by simp⟩
        · exact ⟨(l.x0_new hi).2.2.symm, (l.newz hi).2⟩
      · intro s' rest' hr
        rw [hr] at hsep hlt
        by_cases hi : sortIxs ixs = []
        · rw [(l.whole hi).2.2]
          exact ⟨hsep.2.1, hsep.2.2.1⟩
        · have hz := (l.newz hi).1
          refine ⟨?_, ?_⟩
          · have := (hlt s' (by simp)).2
            omega
          · intro s'' hs''
            have := hlt s'' (by simp [hs''])
            constructor <;> omega
    obtain ⟨i1, i2, i3, i4, i5, i6⟩ := expand_sim N rest _ h1 (x0 :: mids) z I
    have hold : ∀ s ∈ rest.map Prod.fst, h1.obj s.1 = h.obj s.1 ∧ h1.obj s.2 = h.obj s.2 := by
      intro s' hs'
      have b := hlt s' (List.mem_cons_of_mem _ hs')
      exact ⟨s1.same _ (hN ▸ b.1), s1.same _ (hN ▸ b.2)⟩
    have hv : vals h1 rest = vals h rest := by
      refine List.map_congr_left fun c hc => ?_
      have := hold c.1 (List.mem_map.2 ⟨c, hc, rfl⟩)
      rw [this.1, this.2]
    rw [hv] at i2
    refine ⟨s1.le.trans i1, i2, ?_, ?_, ?_, ?_⟩
    · intro x hx
      obtain ⟨dr, hd⟩ := i3 x (hx.trans_le s1.le)
      exact ⟨dr, by rw [hd, s1.same x hx]⟩
    · intro x hx hxb
      rw [i4 x (hx.trans_le s1.le) ?_ ?_, s1.same x hx]
      · intro hr e
        apply hxb
        rw [List.dropLast_cons_of_ne_nil (by simpa using hr), e, hzz (by omega)]
        exact List.mem_cons_self
      · intro hm
        apply hxb
        rw [List.dropLast_cons_of_ne_nil]
        · exact List.mem_cons_of_mem _ hm
        · rintro e
          rw [e] at hm
          simp at hm
    · intro out ho
      obtain ⟨init', L', e1, e2, e3, -⟩ := i5 out ho
      obtain ⟨t, rfl⟩ := e3
      exact ⟨x0, mids ++ t, L', e1, e2, fun hx => h00 (hN ▸ hx)⟩
    · intro hp hch
      have hp0 := hp (s, ixs) List.mem_cons_self
      have hsp : splitAt (h.obj s.1) (h.obj s.2) 0 none (sortIxs ixs) = .ok (read h1 (x0 :: mids ++ [z])) := s2.symm
      obtain ⟨-, q2⟩ := splitAt_short hsp (by norm_num) (fun p hp' => hp0 p ((sortIxs_perm ixs).mem_iff.1 hp'))
        (List.pairwise_map.1 (sortIxs_sorted ixs))
      have q2 : Shorter (h1.obj z.1).dl (h.obj s.2).dl := q2 ⟨h1.obj z.1, z.2⟩ (by rw [read_append]; exact List.getLast?_concat)
      have k1 : (rest.map Prod.fst).IsChain (fun s s' => Shorter (h1.obj s'.1).dr (h1.obj s.2).dr) := by
        have := (List.isChain_cons.1 hch).2
        refine this.imp_of_mem_imp fun s s' hs hs' hc => ?_
        rw [(hold s hs).2, (hold s' hs').1]
        exact hc
      have k2 : z.1 < N → ∀ s rest', rest.map Prod.fst = s :: rest' → Shorter (h1.obj s.1).dr (h1.obj z.1).dr := by
        intro hzN s' rest' hr
        rw [hzz hzN, s1.same s.2 (hN ▸ hs.2), (hold s' (by rw [hr]; simp)).1]
        rw [hr] at hch
        exact (List.isChain_cons_cons.1 hch).1
      obtain ⟨j1, j2⟩ := i6 (fun c hc => hp c (List.mem_cons_of_mem _ hc)) k1 k2
      refine ⟨?_, ?_⟩
      · intro x hx
        refine (j1 x hx).trans ?_
        rw [s1.same x (hN ▸ hx)]
        exact .refl _
      · intro out ho z' s' hz' hs'
        cases rest with
        | nil =>
          cases hs'
          cases ho
          rw [List.getLast?_concat] at hz'
          cases hz'
          exact q2
        | cons c2 rest2 =>
          have := j2 out ho z' s' hz' hs'
          rwa [(hold s'.1 (List.mem_map.2 ⟨s', List.mem_of_getLast? hs', rfl⟩)).2] at this

/-- `p, qs` as segments. -/
def path : ℕ → List ℕ → List (ℕ × ℕ)
  | _, [] => []
  | p, q :: rest => (p, q) :: path q rest

theorem zip_path : ∀ (cs : List ℕ) (p z : ℕ), (p :: cs).zip (cs ++ [z]) = path p (cs ++ [z]) := by
  intro cs
  induction cs with
  | nil => intro p z; rfl
  | cons c cs ih => intro p z; simp only [List.cons_append, List.zip_cons_cons, path, ih]

theorem rotate_path (c : ℕ) (cs : List ℕ) : iterRotate2 (c :: cs) = path c (cs ++ [c]) := by
  rw [iterRotate2, ← zip_path]
  simp

/-- The value of the list of segments. -/
theorem allCurves_sim (hit : CP ℝ → CP ℝ → Bool) : ∀ (l : List (ℕ × ℕ)) (h : Heap), (∀ s ∈ l, s.1 < h.next ∧ s.2 < h.next) →
    Ext h (allCurvesObj hit l h).1 ∧
    ((allCurvesObj hit l h).2.map fun ab => ((allCurvesObj hit l h).1.obj ab.1, (allCurvesObj hit l h).1.obj ab.2)) =
      ((l.map fun ab => (h.obj ab.1, h.obj ab.2)).flatMap fun ab =>
        if hit ab.1 ab.2 then
          let s := bezSplit ab.1 ab.2 (1 / 2)
          [(s.1, s.2.1), (s.2.1, s.2.2)]
        else [ab]) ∧
    ∀ s ∈ (allCurvesObj hit l h).2, s.1 < (allCurvesObj hit l h).1.next ∧ s.2 < (allCurvesObj hit l h).1.next := by
  intro l
  induction l with
  | nil => intro h _; exact ⟨.refl h, rfl, by simp [allCurvesObj]⟩
  | cons ab rest ih =>
    obtain ⟨a, b⟩ := ab
    intro h hl
    have hx := ext_split h a b (1 / 2)
    have hn := split_next h a b (1 / 2)
    obtain ⟨i1, i2, i3⟩ := ih (splitObj h a b (1 / 2)) (fun s hs => by
      have := hl s (List.mem_cons_of_mem _ hs)
      rw [hn]; omega)
    have hle := i1.le
    rw [hn] at hle
    have hm : (rest.map fun ab => ((splitObj h a b (1 / 2)).obj ab.1, (splitObj h a b (1 / 2)).obj ab.2)) =
        rest.map fun ab => (h.obj ab.1, h.obj ab.2) := by
      refine List.map_congr_left fun s hs => ?_
      have := hl s (List.mem_cons_of_mem _ hs)
      rw [hx.same _ this.1, hx.same _ this.2]
    rw [hm] at i2
    have hab := hl (a, b) List.mem_cons_self
    simp only [allCurvesObj, List.map_cons, List.flatMap_cons]
    rw [← i2]
    split
    · next hh =>
      refine ⟨hx.trans i1, ?_, ?_⟩
      · simp only [List.map_cons, List.cons_append, List.nil_append]
        rw [i1.same h.next (by rw [hn]; omega), i1.same (h.next + 1) (by rw [hn]; omega), i1.same (h.next + 2) (by rw [hn]; omega),
          split_l, split_m, split_r]
      · intro s hs
        rcases List.mem_cons.1 hs with rfl | hs
        · constructor <;> simp only <;> omega
        · rcases List.mem_cons.1 hs with rfl | hs
          · constructor <;> simp only <;> omega
          · exact i3 s hs
    · next hh =>
      refine ⟨hx.trans i1, ?_, ?_⟩
      · simp only [List.map_cons, List.cons_append, List.nil_append]
        rw [(hx.trans i1).same a hab.1, (hx.trans i1).same b hab.2]
      · intro s hs
        rcases List.mem_cons.1 hs with rfl | hs
        · simp only at hab
          constructor <;> simp only <;> omega
        · exact i3 s hs

/-- What the segments of a path become as objects. -/
structure PathOk (hit : CP ℝ → CP ℝ → Bool) (p : ℕ) (qs : List ℕ) (h : Heap) : Prop where
  snd : ∀ s ∈ (allCurvesObj hit (path p qs) h).2, s.2 ∈ qs ∨ h.next < s.2
  fst : ∀ s ∈ (allCurvesObj hit (path p qs) h).2.tail, s.1 ∈ qs ∨ h.next < s.1
  head : ∀ s, (allCurvesObj hit (path p qs) h).2.head? = some s →
    (s.1 = p ∨ s.1 = h.next ∧ s.2 = h.next + 1) ∧ Shorter ((allCurvesObj hit (path p qs) h).1.obj s.1).dr (h.obj p).dr
  sep : qs.Nodup → ∀ A, (∀ a ∈ A, a ≤ h.next) → (∀ q ∈ qs.dropLast, q ∉ A) → Sep A (allCurvesObj hit (path p qs) h).2
  chain : (allCurvesObj hit (path p qs) h).2.IsChain
    (fun s s' => Shorter ((allCurvesObj hit (path p qs) h).1.obj s'.1).dr ((allCurvesObj hit (path p qs) h).1.obj s.2).dr)
  old : ∀ x < h.next, x ∈ ((allCurvesObj hit (path p qs) h).2.map Prod.snd).dropLast → x ∈ qs.dropLast
  last : ∀ s q, (allCurvesObj hit (path p qs) h).2.getLast? = some s → qs.getLast? = some q →
    Shorter ((allCurvesObj hit (path p qs) h).1.obj s.2).dl (h.obj q).dl
  nil : (allCurvesObj hit (path p qs) h).2 = [] → qs = []

theorem half_dr (a b : CP ℝ) : Shorter (bezSplit a b (1 / 2)).1.dr a.dr :=
  ⟨1 / 2, by norm_num, by norm_num, by ext <;> simp [bezSplit, lerp, CP.r, Pt.addVector, Pt.sub, Vec.mul] <;> ring⟩

theorem half_dl (a b : CP ℝ) : Shorter (bezSplit a b (1 / 2)).2.2.dl b.dl :=
  ⟨1 / 2, by norm_num, by norm_num, by ext <;> simp [bezSplit, lerp, CP.l, Pt.addVector, Pt.sub, Vec.mul] <;> ring⟩

theorem path_lt {p : ℕ} {qs : List ℕ} {N : ℕ} (hp : p < N) (hq : ∀ q ∈ qs, q < N) : ∀ s ∈ path p qs, s.1 < N ∧ s.2 < N := by
  induction qs generalizing p with
  | nil => intro s hs; cases hs
  | cons q qs ih =>
    intro s hs
    rcases List.mem_cons.1 hs with rfl | hs
    · exact ⟨hp, hq q List.mem_cons_self⟩
    · exact ih (hq q List.mem_cons_self) (fun x hx => hq x (List.mem_cons_of_mem _ hx)) s hs

theorem path_ok (hit : CP ℝ → CP ℝ → Bool) : ∀ (qs : List ℕ) (p : ℕ) (h : Heap), p < h.next → (∀ q ∈ qs, q < h.next) → PathOk hit p qs h := by
  intro qs
  induction qs with
  | nil =>
    intro p h _ _
    exact ⟨by simp [path, allCurvesObj], by simp [path, allCurvesObj], by simp [path, allCurvesObj], fun _ _ _ _ => trivial,
      List.isChain_nil, by simp [path, allCurvesObj], by simp, fun _ => rfl⟩
  | cons q rest ih =>
    intro p h hp hq
    have hn := split_next h p q (1 / 2)
    have hq0 := hq q List.mem_cons_self
    have hx := ext_split h p q (1 / 2)
    have I := ih q (splitObj h p q (1 / 2)) (by rw [hn]; omega) (fun x hx => by
      have := hq x (List.mem_cons_of_mem _ hx)
      rw [hn]; omega)
    obtain ⟨e1, -, e3⟩ := allCurves_sim hit (path q rest) (splitObj h p q (1 / 2)) (path_lt (by rw [hn]; omega) (fun x hx => by
      have := hq x (List.mem_cons_of_mem _ hx)
      rw [hn]; omega))
    obtain ⟨h', S, hR⟩ : ∃ h' S, allCurvesObj hit (path q rest) (splitObj h p q (1 / 2)) = (h', S) := ⟨_, _, rfl⟩
    obtain ⟨I1, I2, I3, I4, I5, I6, I7, I8⟩ := I
    rw [hR] at I1 I2 I3 I4 I5 I6 I7 I8 e1 e3
    simp only [hn] at I1 I2 I3 I4 I5 I6 I7 I8 e1 e3
    have hqS : S ≠ [] → rest ≠ [] := by
      rintro hS rfl
      rw [path, allCurvesObj] at hR
      cases hR
      exact hS rfl
    have eo := hx.trans e1
    have el : h'.obj h.next = (bezSplit (h.obj p) (h.obj q) (1 / 2)).1 := by rw [e1.same _ (by rw [hn]; omega), split_l]
    have er : h'.obj (h.next + 2) = (bezSplit (h.obj p) (h.obj q) (1 / 2)).2.2 := by rw [e1.same _ (by rw [hn]; omega), split_r]
    have hlt : ∀ x ∈ q :: rest, x < h.next := hq
    have hS1 : ∀ s ∈ S, s.2 ∈ rest ∨ h.next + 3 < s.2 := I1
    have hS2 : ∀ s ∈ S, s.1 ∈ q :: rest ∨ h.next + 3 ≤ s.1 := by
      intro s hs
      cases S with
      | nil => cases hs
      | cons s0 S =>
        rcases List.mem_cons.1 hs with rfl | hs
        · rcases (I3 s rfl).1 with e | ⟨e, -⟩
          · exact Or.inl (e ▸ List.mem_cons_self)
          · exact Or.inr e.ge
        · rcases I2 s hs with e | e
          · exact Or.inl (List.mem_cons_of_mem _ e)
          · exact Or.inr e.le
    by_cases hh : hit (h.obj p) (h.obj q) = true
    · have hE : allCurvesObj hit (path p (q :: rest)) h = (h', (h.next, h.next + 1) :: (h.next + 1, h.next + 2) :: S) := by
        rw [path, allCurvesObj, if_pos hh, hR]
      refine ⟨?_, ?_, ?_, ?_, ?_, ?_, ?_, ?_⟩ <;> rw [hE] <;> simp only
      · intro s hs
        rcases List.mem_cons.1 hs with rfl | hs
        · right; simp
        · rcases List.mem_cons.1 hs with rfl | hs
          · right; simp
          · rcases hS1 s hs with e | e
            · exact Or.inl (List.mem_cons_of_mem _ e)
            · right; omega
      · intro s hs
        rcases List.mem_cons.1 hs with rfl | hs
        · right; simp
        · rcases hS2 s hs with e | e
          · exact Or.inl e
          · right; omega
      · intro s hs
        cases hs
        refine ⟨Or.inr ⟨rfl, rfl⟩, ?_⟩
        rw [el]
        exact half_dr _ _
      · intro hd A hA hqA
        obtain ⟨hd1, hd2⟩ := List.nodup_cons.1 hd
        refine ⟨?_, ?_, ?_, ?_⟩
        · intro hm
          have := hA _ hm
          simp only at this
          omega
        · simp
        · intro s hs
          have a1 := hS1 s hs
          have a2 := hS2 s hs
          simp only
          constructor
          · rcases a2 with a | a
            · have := hlt _ a; omega
            · omega
          · rcases a1 with a | a
            · have := hlt _ (List.mem_cons_of_mem _ a); omega
            · omega
        · have hrec := I4 hd2 ((h.next + 2) :: (h.next + 1) :: A) ?_ ?_
          · cases S with
            | nil => trivial
            | cons s0 S =>
              refine ⟨?_, ?_, ?_, hrec⟩
              · simp only [List.mem_cons, not_or]
                refine ⟨by omega, fun hm => ?_⟩
                have := hA _ hm
                omega
              · simp only
                rcases hS1 s0 List.mem_cons_self with a | a
                · have := hlt _ (List.mem_cons_of_mem _ a); omega
                · omega
              · intro s hs
                have a1 := hS1 s (List.mem_cons_of_mem _ hs)
                have a2 := hS2 s (List.mem_cons_of_mem _ hs)
                simp only
                constructor
                · rcases a2 with a | a
                  · have := hlt _ a; omega
                  · omega
                · rcases a1 with a | a
                  · have := hlt _ (List.mem_cons_of_mem _ a); omega
                  · omega
          · intro a ha
            simp only [List.mem_cons] at ha
            rcases ha with rfl | rfl | ha
            · omega
            · omega
            · have := hA a ha; omega
          · intro x hxr hm
            have hx1 := List.mem_of_mem_dropLast hxr
            have := hlt _ (List.mem_cons_of_mem _ hx1)
            simp only [List.mem_cons] at hm
            rcases hm with rfl | rfl | hm
            · omega
            · omega
            · refine hqA x ?_ hm
              rw [List.dropLast_cons_of_ne_nil (by rintro rfl; cases hx1)]
              exact List.mem_cons_of_mem _ hxr
      · refine List.isChain_cons_cons.2 ⟨.refl _, List.isChain_cons.2 ⟨?_, I5⟩⟩
        intro s hs
        have := (I3 s hs).2
        rw [hx.same _ hq0] at this
        rw [er]
        exact this
      · intro x hxn hm
        simp only [List.map_cons] at hm
        rw [List.dropLast_cons_of_ne_nil (by simp)] at hm
        rcases List.mem_cons.1 hm with rfl | hm
        · simp at hxn
        · by_cases hS : S = []
          · subst hS
            simp at hm
          · rw [List.dropLast_cons_of_ne_nil (by simpa using hS)] at hm
            rcases List.mem_cons.1 hm with rfl | hm
            · simp at hxn
            · rw [List.dropLast_cons_of_ne_nil (hqS hS)]
              exact List.mem_cons_of_mem _ (I6 x (by omega) hm)
      · intro s q' hs hq'
        by_cases hS : S = []
        · subst hS
          cases hs
          have : rest = [] := I8 rfl
          subst this
          cases hq'
          show Shorter (h'.obj (h.next + 2)).dl _
          rw [er]
          exact half_dl _ _
        · rw [List.getLast?_cons_of_ne_nil (by simp), List.getLast?_cons_of_ne_nil hS] at hs
          rw [List.getLast?_cons_of_ne_nil (hqS hS)] at hq'
          have := I7 s q' hs hq'
          rwa [hx.same q' (hlt q' (List.mem_cons_of_mem _ (List.mem_of_getLast? hq')))] at this
      · intro e; cases e
    · have hE : allCurvesObj hit (path p (q :: rest)) h = (h', (p, q) :: S) := by
        rw [path, allCurvesObj, if_neg hh, hR]
      refine ⟨?_, ?_, ?_, ?_, ?_, ?_, ?_, ?_⟩ <;> rw [hE] <;> simp only
      · intro s hs
        rcases List.mem_cons.1 hs with rfl | hs
        · left; simp
        · rcases hS1 s hs with e | e
          · exact Or.inl (List.mem_cons_of_mem _ e)
          · right; omega
      · intro s hs
        rcases hS2 s hs with e | e
        · exact Or.inl e
        · right; omega
      · intro s hs
        cases hs
        refine ⟨Or.inl rfl, ?_⟩
        rw [eo.same _ hp]
        exact .refl _
      · intro hd A hA hqA
        obtain ⟨hd1, hd2⟩ := List.nodup_cons.1 hd
        have hrec := I4 hd2 (q :: A)
        cases S with
        | nil => trivial
        | cons s0 S =>
          have hr := hqS (by simp)
          refine ⟨hqA q (by rw [List.dropLast_cons_of_ne_nil hr]; simp), ?_, ?_, ?_⟩
          · simp only
            rcases hS1 s0 List.mem_cons_self with a | a
            · rintro rfl; exact hd1 a
            · omega
          · intro s hs
            have a1 := hS1 s (List.mem_cons_of_mem _ hs)
            have a2 := I2 s hs
            simp only
            constructor
            · rcases a2 with a | a
              · rintro rfl; exact hd1 a
              · omega
            · rcases a1 with a | a
              · rintro rfl; exact hd1 a
              · omega
          · apply hrec
            · intro a ha
              rcases List.mem_cons.1 ha with rfl | ha
              · omega
              · have := hA a ha; omega
            · intro x hxr hm
              have hx1 := List.mem_of_mem_dropLast hxr
              rcases List.mem_cons.1 hm with rfl | hm
              · exact hd1 hx1
              · refine hqA x ?_ hm
                rw [List.dropLast_cons_of_ne_nil hr]
                exact List.mem_cons_of_mem _ hxr
      · refine List.isChain_cons.2 ⟨?_, I5⟩
        intro s hs
        have := (I3 s hs).2
        rw [hx.same _ hq0] at this
        rw [eo.same _ hq0]
        exact this
      · intro x hxn hm
        by_cases hS : S = []
        · subst hS
          simp at hm
        · rw [List.map_cons, List.dropLast_cons_of_ne_nil (by simpa using hS)] at hm
          rw [List.dropLast_cons_of_ne_nil (hqS hS)]
          rcases List.mem_cons.1 hm with rfl | hm
          · simp
          · exact List.mem_cons_of_mem _ (I6 x (by omega) hm)
      · intro s q' hs hq'
        by_cases hS : S = []
        · subst hS
          cases hs
          have : rest = [] := I8 rfl
          subst this
          cases hq'
          show Shorter (h'.obj q).dl _
          rw [eo.same _ hq0]
          exact .refl _
        · rw [List.getLast?_cons_of_ne_nil hS] at hs
          rw [List.getLast?_cons_of_ne_nil (hqS hS)] at hq'
          have := I7 s q' hs hq'
          rwa [hx.same q' (hlt q' (List.mem_cons_of_mem _ (List.mem_of_getLast? hq')))] at this
      · intro e; cases e

end X7.Bzi
