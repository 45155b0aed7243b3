import Mathlib.Tactic.Ring
import Mathlib.Tactic.FieldSimp
import Mathlib.Tactic.LinearCombination
import Mathlib.Tactic.Positivity
import Mathlib.Tactic.Linarith
import Verif.Lemmas.BBox
import Verif.Lemmas.Mat3
import Verif.Spec.Bezier

namespace X7
set_option linter.unusedSectionVars false
variable {K : Type*} [Field K]

theorem CP.l_eq (cp : CP K) : cp.l = ⟨cp.c.x + cp.dl.x, cp.c.y + cp.dl.y⟩ := rfl
theorem CP.r_eq (cp : CP K) : cp.r = ⟨cp.c.x + cp.dr.x, cp.c.y + cp.dr.y⟩ := rfl

theorem bezAt_eq (a b c d : Pt K) (t : K) : bezAt a b c d t = bern a b c d t := by
  ext <;> simp only [bezAt, bern] <;> ring

theorem bern_zero (a b c d : Pt K) : bern a b c d 0 = a := by ext <;> simp [bern]
theorem bern_one (a b c d : Pt K) : bern a b c d 1 = d := by ext <;> simp [bern]

theorem bezXY_eq [CharZero K] (a b c d : Pt K) (steps : ℕ) (h : 1 ≤ steps) :
    bezXY a b c d steps = (List.range (steps + 1)).map fun (i : ℕ) => bern a b c d ((i : K) / (steps : K)) := by
  obtain ⟨n, rfl⟩ : ∃ n, steps = n + 1 := ⟨steps - 1, by omega⟩
  have hn : ((n + 1 : ℕ) : K) ≠ 0 := by exact_mod_cast Nat.succ_ne_zero n
  rw [List.range_succ, List.map_append, List.range_eq_range', List.range'_succ]
  simp only [bezXY, List.map_cons, List.map_nil, Nat.cast_zero, zero_div, bern_zero, div_self hn, bern_one,
    Nat.add_sub_cancel, zero_add, bezAt_eq, List.cons_append, List.nil_append]

omit [Field K] in
theorem xyFlatten_length (ps : List (Pt K)) : (xyFlatten ps).length = 2 * ps.length := by
  induction ps with
  | nil => rfl
  | cons p ps ih => simp only [xyFlatten, List.flatMap_cons, List.length_append, List.length_cons] at *; simp [ih]; ring

omit [Field K] in
theorem xyFlatten_append (ps qs : List (Pt K)) : xyFlatten (ps ++ qs) = xyFlatten ps ++ xyFlatten qs := by
  simp [xyFlatten]

omit [Field K] in
theorem pairAt_flatten (ps : List (Pt K)) (i : ℕ) : pairAt (xyFlatten ps) i = ps[i]? := by
  induction ps generalizing i with
  | nil => simp [pairAt, xyFlatten]
  | cons p ps ih =>
    cases i with
    | zero => simp [pairAt, xyFlatten]
    | succ i =>
      have := ih i
      simp only [xyFlatten, List.flatMap_cons, pairAt, List.cons_append, List.nil_append] at this ⊢
      rw [show 2 * (i + 1) = 2 * i + 1 + 1 by ring]
      simpa using this

omit [Field K] in
theorem zip_extra (cps : List (CP K)) :
    cps.zip (cps.tail ++ cps) = cps.zip (cps.rotate 1) := by
  cases cps with
  | nil => rfl
  | cons p ps =>
    have h1 : (p :: ps).tail ++ (p :: ps) = (p :: ps).rotate 1 ++ ps := by
      simp [List.rotate_cons_succ]
    rw [h1]
    have := List.zip_append (l₁ := p :: ps) (r₁ := []) (l₂ := (p :: ps).rotate 1) (r₂ := ps) (by simp)
    simpa using this

/-- The segments visited by `bez_path`. -/
theorem zip_segs (closed : Bool) (cps : List (CP K)) :
    (cps.zip (cps.tail ++ if closed then cps else [])).map (fun pq => seg pq.1 pq.2) = segs closed cps := by
  cases closed with
  | true =>
    simp only [if_true, zip_extra, segs, closedSegs]
    exact List.map_uncurry_zip_eq_zipWith (f := seg) ..
  | false =>
    simp only [Bool.false_eq_true, if_false, List.append_nil, segs, openSegs]
    exact List.map_uncurry_zip_eq_zipWith (f := seg) ..

theorem drop2_flatten (p : Pt K) (ps : List (Pt K)) : (xyFlatten (p :: ps)).drop 2 = xyFlatten ps := by
  simp [xyFlatten]

omit [Field K] in
theorem xyFlatten_drop2 (ps : List (Pt K)) : (xyFlatten ps).drop 2 = xyFlatten ps.tail := by
  cases ps with
  | nil => rfl
  | cons p ps => simp [xyFlatten]

theorem bezPath_eq [CharZero K] (f : Pt K → Pt K) (cps : List (CP K)) (closed : Bool) (steps : ℕ) (h : 1 ≤ steps) :
    bezPath f cps closed steps = xyFlatten (pathOf steps ((segs closed cps).map (Poly4.map f))) := by
  unfold bezPath
  by_cases hc : cps = []
  · subst hc
    cases closed <;> simp [segs, openSegs, closedSegs, pathOf, xyFlatten]
  · rw [if_neg (by simpa using hc), ← zip_segs]
    simp only
    generalize cps.zip (cps.tail ++ if closed then cps else []) = prs
    have hb : ∀ pq : CP K × CP K, bez (f pq.1.c) (f pq.1.r) (f pq.2.l) (f pq.2.c) steps =
        xyFlatten ((List.range (steps + 1)).map fun (i : ℕ) => ((seg pq.1 pq.2).map f).at' ((i : K) / steps)) := by
      intro pq; rw [bez, bezXY_eq _ _ _ _ _ h]; rfl
    simp only [hb]
    have step : ∀ (prs : List (CP K × CP K)) (acc : List K), acc.length ≠ 0 →
        prs.foldl (fun pts pq =>
          if pts.length ≠ 0 then pts ++ (xyFlatten ((List.range (steps + 1)).map fun (i : ℕ) =>
            ((seg pq.1 pq.2).map f).at' ((i : K) / steps))).drop 2
          else pts ++ xyFlatten ((List.range (steps + 1)).map fun (i : ℕ) =>
            ((seg pq.1 pq.2).map f).at' ((i : K) / steps))) acc =
        acc ++ xyFlatten ((prs.map fun pq => (seg pq.1 pq.2).map f).flatMap fun s =>
          ((List.range (steps + 1)).map (fun (i : ℕ) => s.at' ((i : K) / steps))).tail) := by
      intro prs
      induction prs with
      | nil => intro acc _; simp [xyFlatten]
      | cons pq prs ih =>
        intro acc hacc
        rw [List.foldl_cons, if_pos hacc, ih _ (by simp only [List.length_append]; omega), xyFlatten_drop2, List.map_cons,
          List.flatMap_cons, xyFlatten_append, List.append_assoc]
    cases prs with
    | nil => simp [pathOf, xyFlatten]
    | cons pq prs =>
      rw [List.foldl_cons, step]
      · simp [pathOf, xyFlatten_append, Function.comp_def]
      · simp [xyFlatten_length]

theorem pathOf_length (steps : ℕ) (ss : List (Poly4 K)) (h : ss ≠ []) :
    (pathOf steps ss).length = ss.length * steps + 1 := by
  cases ss with
  | nil => exact absurd rfl h
  | cons s rest =>
    simp only [pathOf, List.length_append, List.length_map, List.length_range, List.length_flatMap, List.length_tail,
      List.length_cons, Nat.add_sub_cancel, List.map_const', List.sum_replicate, smul_eq_mul]
    ring

theorem pathOf_get [CharZero K] (steps : ℕ) (hst : 1 ≤ steps) (ss : List (Poly4 K))
    (hj : ∀ k s s', ss[k]? = some s → ss[k + 1]? = some s' → s.d = s'.a)
    (k i : ℕ) (hi : i ≤ steps) (s : Poly4 K) (hs : ss[k]? = some s) :
    (pathOf steps ss)[k * steps + i]? = some (s.at' ((i : K) / steps)) := by
  have hn : (steps : K) ≠ 0 := by exact_mod_cast (by omega : steps ≠ 0)
  -- index inside the tail part
  have tailget : ∀ (rest : List (Poly4 K)) (k i : ℕ) (s : Poly4 K), i < steps → rest[k]? = some s →
      (rest.flatMap fun s => ((List.range (steps + 1)).map (fun (i : ℕ) => s.at' ((i : K) / steps))).tail)[k * steps + i]? =
        some (s.at' (((i + 1 : ℕ) : K) / steps)) := by
    intro rest
    induction rest with
    | nil => intro k i s _ h; simp at h
    | cons s0 rest ih =>
      intro k i s hi h
      have hlen : (((List.range (steps + 1)).map (fun (i : ℕ) => s0.at' ((i : K) / steps))).tail).length = steps := by simp
      cases k with
      | zero =>
        simp only [List.length_cons, List.getElem?_cons_zero, Option.some.injEq] at h
        subst h
        rw [List.flatMap_cons, List.getElem?_append_left (by rw [hlen]; omega)]
        rw [List.getElem?_tail]
        simp only [zero_mul, zero_add, List.getElem?_map]
        rw [List.getElem?_range (by omega)]
        rfl
      | succ k =>
        rw [List.flatMap_cons, List.getElem?_append_right (by rw [hlen]; nlinarith), hlen]
        have := ih k i s hi (by simpa using h)
        rw [show (k + 1) * steps + i - steps = k * steps + i by
          rw [Nat.succ_mul]; omega]
        exact this
  cases ss with
  | nil => simp at hs
  | cons s0 rest =>
    have hlen : ((List.range (steps + 1)).map (fun (i : ℕ) => s0.at' ((i : K) / steps))).length = steps + 1 := by simp
    cases k with
    | zero =>
      simp only [List.getElem?_cons_zero, Option.some.injEq] at hs
      subst hs
      rw [pathOf, List.getElem?_append_left (by rw [hlen]; omega)]
      simp only [zero_mul, zero_add, List.getElem?_map]
      rw [List.getElem?_range (by omega)]
      rfl
    | succ k =>
      have hs' : rest[k]? = some s := by simpa using hs
      rcases Nat.eq_zero_or_pos i with rfl | hpos
      · -- the junction: it is the end of the previous segment
        obtain ⟨sp, hsp⟩ : ∃ sp, (s0 :: rest)[k]? = some sp := by
          have : k < (s0 :: rest).length := by
            have := (List.getElem?_eq_some_iff.1 hs').1
            simp; omega
          exact ⟨_, List.getElem?_eq_getElem this⟩
        have hda := hj k sp s hsp hs
        have hval : s.at' (((0 : ℕ) : K) / steps) = sp.at' ((steps : K) / steps) := by
          rw [Nat.cast_zero, zero_div, div_self hn]
          simp only [Poly4.at', bern_zero, bern_one, hda]
        rw [hval]
        cases k with
        | zero =>
          simp only [List.getElem?_cons_zero, Option.some.injEq] at hsp
          subst hsp
          rw [pathOf, List.getElem?_append_left (by rw [hlen]; omega)]
          simp only [zero_add, one_mul, add_zero, List.getElem?_map]
          rw [List.getElem?_range (by omega)]
          rfl
        | succ k =>
          have hsp' : rest[k]? = some sp := by simpa using hsp
          rw [pathOf, List.getElem?_append_right (by rw [hlen]; nlinarith), hlen]
          have := tailget rest k (steps - 1) sp (by omega) hsp'
          rw [show (k + 1 + 1) * steps + 0 - (steps + 1) = k * steps + (steps - 1) by
            rw [Nat.succ_mul, Nat.succ_mul]; omega, this]
          rw [show steps - 1 + 1 = steps by omega]
      · rw [pathOf, List.getElem?_append_right (by rw [hlen]; nlinarith), hlen]
        have := tailget rest k (i - 1) s (by omega) hs'
        rw [show (k + 1) * steps + i - (steps + 1) = k * steps + (i - 1) by
          rw [Nat.succ_mul]; omega, this]
        rw [show i - 1 + 1 = i by omega]

theorem segs_join (closed : Bool) (cps : List (CP K)) (k : ℕ) (s s' : Poly4 K)
    (h : (segs closed cps)[k]? = some s) (h' : (segs closed cps)[k + 1]? = some s') : s.d = s'.a := by
  have aux : ∀ l : List (CP K), (∀ k x, l[k]? = some x → k + 1 < cps.length → cps[k + 1]? = some x) →
      (List.zipWith seg cps l)[k]? = some s → (List.zipWith seg cps l)[k + 1]? = some s' → s.d = s'.a := by
    intro l hl h h'
    rw [List.getElem?_zipWith_eq_some] at h h'
    obtain ⟨x, y, hx, hy, rfl⟩ := h
    obtain ⟨x', y', hx', hy', rfl⟩ := h'
    have h1 := hl k y hy (List.getElem?_eq_some_iff.1 hx').1
    rw [hx'] at h1
    cases h1
    rfl
  cases closed with
  | true =>
    refine aux (cps.rotate 1) ?_ h h'
    intro k x hx hk
    rw [List.getElem?_rotate (by omega), Nat.mod_eq_of_lt hk] at hx
    exact hx
  | false =>
    refine aux cps.tail ?_ h h'
    intro k x hx _
    rwa [List.getElem?_tail] at hx

theorem segs_length (closed : Bool) (cps : List (CP K)) :
    (segs closed cps).length = if closed then cps.length else cps.length - 1 := by
  cases closed <;> simp [segs, openSegs, closedSegs]

section
variable [LinearOrder K] [IsStrictOrderedRing K]

theorem bern_mem_box {xl yl xh yh : K} {a b c d : Pt K} (ha : a ∈ (BBox.box xl yl xh yh).Region)
    (hb : b ∈ (BBox.box xl yl xh yh).Region) (hc : c ∈ (BBox.box xl yl xh yh).Region)
    (hd : d ∈ (BBox.box xl yl xh yh).Region) {t : K} (h0 : 0 ≤ t) (h1 : t ≤ 1) :
    bern a b c d t ∈ (BBox.box xl yl xh yh).Region := by
  have hs : 0 ≤ 1 - t := by linarith
  have w0 : 0 ≤ (1 - t) ^ 3 := by positivity
  have w1 : 0 ≤ 3 * (1 - t) ^ 2 * t := by positivity
  have w2 : 0 ≤ 3 * (1 - t) * t ^ 2 := by positivity
  have w3 : 0 ≤ t ^ 3 := by positivity
  have ws : (1 - t) ^ 3 + 3 * (1 - t) ^ 2 * t + 3 * (1 - t) * t ^ 2 + t ^ 3 = 1 := by ring
  have key : ∀ {lo p q r s : K}, lo ≤ p → lo ≤ q → lo ≤ r → lo ≤ s →
      lo ≤ (1 - t) ^ 3 * p + 3 * (1 - t) ^ 2 * t * q + 3 * (1 - t) * t ^ 2 * r + t ^ 3 * s := by
    intro lo p q r s hp hq hr hs
    have e := congrArg (lo * ·) ws
    simp only [mul_one] at e
    have := mul_le_mul_of_nonneg_left hp w0
    have := mul_le_mul_of_nonneg_left hq w1
    have := mul_le_mul_of_nonneg_left hr w2
    have := mul_le_mul_of_nonneg_left hs w3
    linarith
  have key' : ∀ {hi p q r s : K}, p ≤ hi → q ≤ hi → r ≤ hi → s ≤ hi →
      (1 - t) ^ 3 * p + 3 * (1 - t) ^ 2 * t * q + 3 * (1 - t) * t ^ 2 * r + t ^ 3 * s ≤ hi := by
    intro hi p q r s hp hq hr hs
    have := key (lo := -hi) (p := -p) (q := -q) (r := -r) (s := -s) (by linarith) (by linarith) (by linarith) (by linarith)
    linarith
  obtain ⟨⟨a1, a2⟩, a3, a4⟩ := ha
  obtain ⟨⟨b1, b2⟩, b3, b4⟩ := hb
  obtain ⟨⟨c1, c2⟩, c3, c4⟩ := hc
  obtain ⟨⟨d1, d2⟩, d3, d4⟩ := hd
  exact ⟨⟨key a1 b1 c1 d1, key' a2 b2 c2 d2⟩, key a3 b3 c3 d3, key' a4 b4 c4 d4⟩

/-- The box of one control point holds its centre and both handle ends. -/
theorem cp_bbox_mem (cp : CP K) : cp.c ∈ cp.bbox.Region ∧ cp.l ∈ cp.bbox.Region ∧ cp.r ∈ cp.bbox.Region := by
  simp only [CP.bbox, BBox.ofPts, BBox.mk', BBox.grow, BBox.Region, Set.mem_ofPred_eq]
  refine ⟨⟨⟨?_, ?_⟩, ?_, ?_⟩, ⟨⟨?_, ?_⟩, ?_, ?_⟩, ⟨?_, ?_⟩, ?_, ?_⟩ <;> order

theorem cp_bbox_norm (cp : CP K) : cp.bbox.Norm := BBox.norm_grow (BBox.norm_ofPts _ _) _

theorem region_sub_add {a b : BBox K} (ha : a.Norm) (hb : b.Norm) :
    a.Region ⊆ (a.add b).Region ∧ b.Region ⊆ (a.add b).Region := by
  exact (BBox.region_add_lub ha hb).1 subset_rfl

theorem fold_bbox_sub (p : CP K) (rest : List (CP K)) :
    ∀ cp ∈ p :: rest, cp.bbox.Region ⊆ (rest.foldl (fun bb cp => bb.add cp.bbox) p.bbox).Region := by
  have key : ∀ (l : List (CP K)) (b : BBox K), b.Norm →
      b.Region ⊆ (l.foldl (fun bb cp => bb.add cp.bbox) b).Region ∧
      ∀ cp ∈ l, cp.bbox.Region ⊆ (l.foldl (fun bb cp => bb.add cp.bbox) b).Region := by
    intro l
    induction l with
    | nil => exact fun b _ => ⟨subset_rfl, by simp⟩
    | cons c l ih =>
      intro b hb
      have hs := region_sub_add hb (cp_bbox_norm c)
      obtain ⟨h1, h2⟩ := ih (b.add c.bbox) (BBox.norm_add _ _)
      refine ⟨hs.1.trans h1, ?_⟩
      intro cp hcp
      rcases List.mem_cons.1 hcp with rfl | hcp
      · exact hs.2.trans h1
      · exact h2 cp hcp
  intro cp hcp
  obtain ⟨h1, h2⟩ := key rest p.bbox (cp_bbox_norm p)
  rcases List.mem_cons.1 hcp with rfl | hcp
  · exact h1
  · exact h2 cp hcp

end

theorem mem_segs (closed : Bool) (cps : List (CP K)) (s : Poly4 K) (hs : s ∈ segs closed cps) :
    ∃ p ∈ cps, ∃ q ∈ cps, s = seg p q := by
  have aux : ∀ (l1 l2 : List (CP K)), s ∈ List.zipWith seg l1 l2 → ∃ p ∈ l1, ∃ q ∈ l2, s = seg p q := by
    intro l1 l2 h
    rw [← List.map_uncurry_zip_eq_zipWith, List.mem_map] at h
    obtain ⟨⟨p, q⟩, hpq, rfl⟩ := h
    exact ⟨p, (List.of_mem_zip hpq).1, q, (List.of_mem_zip hpq).2, rfl⟩
  cases closed with
  | true =>
    obtain ⟨p, hp, q, hq, e⟩ := aux cps (cps.rotate 1) hs
    exact ⟨p, hp, q, by simpa using hq, e⟩
  | false =>
    obtain ⟨p, hp, q, hq, e⟩ := aux cps cps.tail hs
    exact ⟨p, hp, q, List.mem_of_mem_tail hq, e⟩

/-- Recursive form of `openSegs`. -/
def openSegs' : List (CP K) → List (Poly4 K)
  | p :: q :: rest => seg p q :: openSegs' (q :: rest)
  | _ => []

theorem openSegs_eq (cps : List (CP K)) : openSegs cps = openSegs' cps := by
  induction cps with
  | nil => rfl
  | cons p cps ih =>
    cases cps with
    | nil => rfl
    | cons q cps =>
      simp only [openSegs, openSegs', List.tail_cons, List.zipWith_cons_cons] at ih ⊢
      rw [ih]

theorem openSegs'_append2 (l : List (CP K)) (p q : CP K) :
    openSegs' (l ++ [p] ++ [q]) = openSegs' (l ++ [p]) ++ [seg p q] := by
  induction l with
  | nil => rfl
  | cons a l ih =>
    cases l with
    | nil => rfl
    | cons b l =>
      simp only [List.cons_append, openSegs'] at ih ⊢
      rw [ih]

theorem zipWith_tail_append (l : List (CP K)) (x : CP K) (h : l ≠ []) :
    List.zipWith seg l (l.tail ++ [x]) = openSegs' (l ++ [x]) := by
  induction l with
  | nil => exact absurd rfl h
  | cons p l ih =>
    cases l with
    | nil => rfl
    | cons q l =>
      have := ih (by simp)
      simp only [List.tail_cons, List.cons_append, List.zipWith_cons_cons, openSegs'] at this ⊢
      rw [this]

/-- A closed curve is the open curve that returns to the first control point. -/
theorem closedSegs_eq (p : CP K) (l : List (CP K)) : closedSegs (p :: l) = openSegs' (p :: l ++ [p]) := by
  rw [← zipWith_tail_append _ _ (by simp)]
  simp [closedSegs, List.rotate_cons_succ]

end X7
