import Verif.Lemmas.Fl
import Verif.Lemmas.Bezier

/-!
Lemmas on curves with rounded arithmetic.
-/

noncomputable section

namespace X7
open Rnd

/-! ### Joining sampled segments -/

/-- As `pathOf`, for any way to sample a segment. -/
def pathG {K : Type*} (g : Poly4 K → ℕ → Pt K) (steps : ℕ) : List (Poly4 K) → List (Pt K)
  | [] => []
  | s :: rest => (List.range (steps + 1)).map (g s) ++ rest.flatMap fun s => ((List.range (steps + 1)).map (g s)).tail

theorem pathG_length {K : Type*} (g : Poly4 K → ℕ → Pt K) (steps : ℕ) (ss : List (Poly4 K)) (h : ss ≠ []) :
    (pathG g steps ss).length = ss.length * steps + 1 := by
  cases ss with
  | nil => exact absurd rfl h
  | cons s rest =>
    simp only [pathG, List.length_append, List.length_map, List.length_range, List.length_flatMap, List.length_tail,
      List.length_cons, Nat.add_sub_cancel, List.map_const', List.sum_replicate, smul_eq_mul]
    ring

theorem pathG_get {K : Type*} (g : Poly4 K → ℕ → Pt K) (steps : ℕ) (hst : 1 ≤ steps) (ss : List (Poly4 K))
    (hj : ∀ k s s', ss[k]? = some s → ss[k + 1]? = some s' → g s steps = g s' 0)
    (k i : ℕ) (hi : i ≤ steps) (s : Poly4 K) (hs : ss[k]? = some s) :
    (pathG g steps ss)[k * steps + i]? = some (g s i) := by
  have tailget : ∀ (rest : List (Poly4 K)) (k i : ℕ) (s : Poly4 K), i < steps → rest[k]? = some s →
      (rest.flatMap fun s => ((List.range (steps + 1)).map (g s)).tail)[k * steps + i]? = some (g s (i + 1)) := by
    intro rest
    induction rest with
    | nil => intro k i s _ h; simp at h
    | cons s0 rest ih =>
      intro k i s hi h
      have hlen : (((List.range (steps + 1)).map (g s0)).tail).length = steps := by simp
      cases k with
      | zero =>
        simp only [List.getElem?_cons_zero, Option.some.injEq] at h
        subst h
        rw [List.flatMap_cons, List.getElem?_append_left (by rw [hlen]; omega)]
        simp only [zero_mul, zero_add, List.getElem?_tail, List.getElem?_map]
        rw [List.getElem?_range (by omega)]
        rfl
      | succ k =>
        rw [List.getElem?_cons_succ] at h
        rw [List.flatMap_cons, List.getElem?_append_right (by rw [hlen]; nlinarith), hlen]
        rw [show (k + 1) * steps + i - steps = k * steps + i by rw [Nat.succ_mul]; omega]
        exact ih k i s hi h
  cases ss with
  | nil => simp at hs
  | cons s0 rest =>
    have hlen : ((List.range (steps + 1)).map (g s0)).length = steps + 1 := by simp
    cases k with
    | zero =>
      simp only [List.getElem?_cons_zero, Option.some.injEq] at hs
      subst hs
      rw [pathG, List.getElem?_append_left (by rw [hlen]; omega)]
      simp only [zero_mul, zero_add, List.getElem?_map]
      rw [List.getElem?_range (by omega)]
      rfl
    | succ k =>
      have hs' : rest[k]? = some s := by simpa using hs
      rcases Nat.eq_zero_or_pos i with rfl | hpos
      · obtain ⟨sp, hsp⟩ : ∃ sp, (s0 :: rest)[k]? = some sp := by
          have : k < (s0 :: rest).length := by
            have := (List.getElem?_eq_some_iff.1 hs').1
            simp; omega
          exact ⟨_, List.getElem?_eq_getElem this⟩
        have hjoin := hj k sp s hsp hs
        rw [← hjoin]
        cases k with
        | zero =>
          simp only [List.getElem?_cons_zero, Option.some.injEq] at hsp
          subst hsp
          rw [pathG, List.getElem?_append_left (by rw [hlen]; omega)]
          simp only [zero_add, one_mul, add_zero, List.getElem?_map]
          rw [List.getElem?_range (by omega)]
          rfl
        | succ k =>
          have hsp' : rest[k]? = some sp := by simpa using hsp
          rw [pathG, List.getElem?_append_right (by rw [hlen]; nlinarith), hlen]
          have := tailget rest k (steps - 1) sp (by omega) hsp'
          rw [show (k + 1 + 1) * steps + 0 - (steps + 1) = k * steps + (steps - 1) by
            rw [Nat.succ_mul, Nat.succ_mul]; omega, this]
          rw [show steps - 1 + 1 = steps by omega]
      · rw [pathG, List.getElem?_append_right (by rw [hlen]; nlinarith), hlen]
        have := tailget rest k (i - 1) s (by omega) hs'
        rw [show (k + 1) * steps + i - (steps + 1) = k * steps + (i - 1) by
          rw [Nat.succ_mul]; omega, this]
        rw [show i - 1 + 1 = i by omega]

namespace Fl
variable {R : Rnd}

/-- The samples of `bez`. -/
def sampleAt (R : Rnd) (steps : ℕ) (s : Poly4 ℝ) (i : ℕ) : Pt ℝ :=
  if i = 0 then s.a else if i = steps then s.d else bezAt R s.a s.b s.c s.d (R.fl ((i : ℝ) / steps))

theorem bezXY_eq (s : Poly4 ℝ) (steps : ℕ) (h : 1 ≤ steps) :
    bezXY R s.a s.b s.c s.d steps = (List.range (steps + 1)).map (sampleAt R steps s) := by
  obtain ⟨n, rfl⟩ : ∃ n, steps = n + 1 := ⟨steps - 1, by omega⟩
  rw [List.range_succ, List.map_append, List.range_eq_range', List.range'_succ]
  simp only [bezXY, List.map_cons, List.map_nil, Nat.add_sub_cancel, List.cons_append, List.nil_append]
  have e0 : sampleAt R (n + 1) s 0 = s.a := by simp [sampleAt]
  have e1 : sampleAt R (n + 1) s (n + 1) = s.d := by simp [sampleAt]
  rw [e0, e1]
  congr 2
  apply List.map_congr_left
  intro i hi
  rw [List.mem_range'_1] at hi
  simp only [sampleAt]
  rw [if_neg (by omega), if_neg (by omega)]

/-- The control point with the computed ends of its handles. -/
def rcp (R : Rnd) (cp : CP ℝ) : CP ℝ := ⟨cp.c, (cpL R cp).sub cp.c, (cpR R cp).sub cp.c, cp.kind⟩

theorem rcp_l (cp : CP ℝ) : (rcp R cp).l = cpL R cp := by
  ext <;> simp [rcp, CP.l, Pt.addVector, Pt.sub]

theorem rcp_r (cp : CP ℝ) : (rcp R cp).r = cpR R cp := by
  ext <;> simp [rcp, CP.r, Pt.addVector, Pt.sub]

theorem rcp_bbox (cp : CP ℝ) : (rcp R cp).bbox = cpBBox R cp := by
  simp only [CP.bbox, cpBBox, rcp_l, rcp_r]; rfl

theorem curveBBox_eq (cps : List (CP ℝ)) : curveBBox R cps = bboxCps (cps.map (rcp R)) := by
  cases cps with
  | nil => rfl
  | cons cp rest =>
    simp only [curveBBox, bboxCps, List.map_cons, List.foldl_map, rcp_bbox]

/-- The computed control polygon between neighbours. -/
def fseg (R : Rnd) (f : Pt ℝ → Pt ℝ) (pq : CP ℝ × CP ℝ) : Poly4 ℝ := ⟨f pq.1.c, f (cpR R pq.1), f (cpL R pq.2), f pq.2.c⟩

theorem zip_neighbours {K : Type*} (closed : Bool) (cps : List (CP K)) :
    cps.zip (cps.tail ++ if closed then cps else []) = neighbours closed cps := by
  cases closed with
  | true => simp only [if_true, neighbours, zip_extra]
  | false => simp [neighbours]

theorem bezPath_eq (f : Pt ℝ → Pt ℝ) (cps : List (CP ℝ)) (closed : Bool) (steps : ℕ) (h : 1 ≤ steps) :
    bezPath R f cps closed steps =
      xyFlatten (pathG (sampleAt R steps) steps ((neighbours closed cps).map (fseg R f))) := by
  unfold bezPath
  by_cases hc : cps = []
  · subst hc
    cases closed <;> simp [neighbours, pathG, xyFlatten]
  · rw [if_neg (by simpa using hc), ← zip_neighbours]
    simp only
    generalize cps.zip (cps.tail ++ if closed then cps else []) = prs
    have hb : ∀ pq : CP ℝ × CP ℝ, bez R (f pq.1.c) (f (cpR R pq.1)) (f (cpL R pq.2)) (f pq.2.c) steps =
        xyFlatten ((List.range (steps + 1)).map (sampleAt R steps (fseg R f pq))) := by
      intro pq; rw [bez, ← bezXY_eq _ _ h]; rfl
    simp only [hb]
    have step : ∀ (prs : List (CP ℝ × CP ℝ)) (acc : List ℝ), acc.length ≠ 0 →
        prs.foldl (fun pts pq =>
          if pts.length ≠ 0 then pts ++ (xyFlatten ((List.range (steps + 1)).map (sampleAt R steps (fseg R f pq)))).drop 2
          else pts ++ xyFlatten ((List.range (steps + 1)).map (sampleAt R steps (fseg R f pq)))) acc =
        acc ++ xyFlatten ((prs.map (fseg R f)).flatMap fun s => ((List.range (steps + 1)).map (sampleAt R steps s)).tail) := by
      intro prs
      induction prs with
      | nil => intro acc _; simp [xyFlatten]
      | cons pq prs ih =>
        intro acc hacc
        rw [List.foldl_cons, if_pos hacc, ih]
        · rw [List.map_cons, List.flatMap_cons, xyFlatten_append, xyFlatten_drop2, List.append_assoc]
        · rw [List.length_append]; omega
    cases prs with
    | nil => simp [pathG, xyFlatten]
    | cons pq prs =>
      rw [List.foldl_cons, step]
      · simp [pathG, xyFlatten_append]
      · simp [xyFlatten_length]

theorem neighbours_join {K : Type*} (closed : Bool) (cps : List (CP K)) (k : ℕ) (x y : CP K × CP K)
    (hx : (neighbours closed cps)[k]? = some x) (hy : (neighbours closed cps)[k + 1]? = some y) : x.2 = y.1 := by
  unfold neighbours at hx hy
  rw [List.getElem?_zip_eq_some] at hx hy
  obtain ⟨-, h1⟩ := hx
  obtain ⟨h2, -⟩ := hy
  have hk := (List.getElem?_eq_some_iff.1 h2).1
  cases closed with
  | false =>
    simp only [Bool.false_eq_true, if_false, List.getElem?_tail] at h1
    rw [h2] at h1; exact (Option.some.inj h1).symm
  | true =>
    simp only [if_true] at h1
    rw [List.getElem?_rotate (by omega), Nat.mod_eq_of_lt hk, h2] at h1
    exact (Option.some.inj h1).symm

theorem mem_neighbours {K : Type*} {closed : Bool} {cps : List (CP K)} {x : CP K × CP K} (hx : x ∈ neighbours closed cps) :
    x.1 ∈ cps ∧ x.2 ∈ cps := by
  obtain ⟨a, b⟩ := x
  have h1 := (List.of_mem_zip hx).1
  have h2 := (List.of_mem_zip hx).2
  refine ⟨h1, ?_⟩
  cases closed with
  | false => exact List.mem_of_mem_tail h2
  | true => exact List.mem_rotate.1 h2

theorem path_get (f : Pt ℝ → Pt ℝ) (cps : List (CP ℝ)) (closed : Bool) (steps : ℕ) (h : 1 ≤ steps) (k i : ℕ) (hi : i ≤ steps)
    (pq : CP ℝ × CP ℝ) (hpq : (neighbours closed cps)[k]? = some pq) :
    pairAt (bezPath R f cps closed steps) (k * steps + i) = some (sampleAt R steps (fseg R f pq) i) := by
  rw [bezPath_eq _ _ _ _ h, pairAt_flatten]
  refine pathG_get _ steps h _ ?_ k i hi _ (by simp [hpq])
  intro k s s' h1 h2
  rw [List.getElem?_map, Option.map_eq_some_iff] at h1 h2
  obtain ⟨x, hx, rfl⟩ := h1
  obtain ⟨y, hy, rfl⟩ := h2
  have := neighbours_join closed cps k x y hx hy
  have hne : steps ≠ 0 := by omega
  simp [sampleAt, fseg, this, hne]

/-! ### Error of one sample -/

theorem bezSum_near {k : ℕ} {t a a' b b' c c' d d' M : ℝ} (h0 : 0 ≤ t) (h1 : t ≤ 1) (ha : R.Near k a' a M)
    (hb : R.Near k b' b M) (hc : R.Near k c' c M) (hd : R.Near k d' d M) :
    R.Near (k + 9)
      (bezSum R (R.fl (R.fl (1 - t) * R.fl (R.fl (1 - t) * R.fl (1 - t))))
        (R.fl (R.fl (R.fl (1 - t) * R.fl (1 - t)) * t)) (R.fl (R.fl (1 - t) * R.fl (t * t))) (R.fl (t * R.fl (t * t)))
        a' b' c' d')
      ((1 - t) ^ 3 * a + 3 * (1 - t) ^ 2 * t * b + 3 * (1 - t) * t ^ 2 * c + t ^ 3 * d) M := by
  have hM := ha.size_nonneg
  have ht : R.Near 0 t t t := Near.of_le (by rw [abs_of_nonneg h0])
  have hs : R.Near 1 (R.fl (1 - t)) (1 - t) (1 - t) :=
    (Near.of_le (by rw [abs_of_nonneg (by linarith)])).fl
  have h3 : R.Near 0 3 3 3 := Near.of_le (by norm_num)
  have s2 := hs.mul hs
  have s3 := hs.mul s2
  have s2t := s2.mul ht
  have t2 := ht.mul ht
  have st2 := hs.mul t2
  have t3 := ht.mul t2
  have e1 := s3.mul ha
  have e2 := (h3.mul s2t).mul hb
  have e3 := (h3.mul st2).mul hc
  have e4 := t3.mul hd
  have := (((e1.add e2).add e3).add e4).mono (n := k + 9) (by omega) le_rfl
  have hsum : (1 - t) * ((1 - t) * (1 - t)) * M + 3 * ((1 - t) * (1 - t) * t) * M + 3 * ((1 - t) * (t * t)) * M + t * (t * t) * M
      = M := by ring
  rw [hsum] at this
  convert this using 1; · rfl
  ring

theorem bezAt_near {k : ℕ} {t Mx My : ℝ} {a a' b b' c c' d d' : Pt ℝ} (h0 : 0 ≤ t) (h1 : t ≤ 1)
    (ha : R.Near k a'.x a.x Mx ∧ R.Near k a'.y a.y My) (hb : R.Near k b'.x b.x Mx ∧ R.Near k b'.y b.y My)
    (hc : R.Near k c'.x c.x Mx ∧ R.Near k c'.y c.y My) (hd : R.Near k d'.x d.x Mx ∧ R.Near k d'.y d.y My) :
    R.Near (k + 9) (bezAt R a' b' c' d' t).x (bern a b c d t).x Mx ∧
    R.Near (k + 9) (bezAt R a' b' c' d' t).y (bern a b c d t).y My :=
  ⟨bezSum_near h0 h1 ha.1 hb.1 hc.1 hd.1, bezSum_near h0 h1 ha.2 hb.2 hc.2 hd.2⟩

theorem quot_mem {i steps : ℕ} (h : 1 ≤ steps) (hi : i ≤ steps) :
    0 ≤ R.fl ((i : ℝ) / steps) ∧ R.fl ((i : ℝ) / steps) ≤ 1 := by
  have hs : (0 : ℝ) < steps := by exact_mod_cast h
  have h1 : (i : ℝ) / steps ≤ 1 := by rw [div_le_one hs]; exact_mod_cast hi
  exact ⟨R.fl_nonneg (by positivity), R.fl_le_of_rep h1 R.rep_one⟩

theorem sampleAt_near {k : ℕ} {Mx My : ℝ} {s s' : Poly4 ℝ} {steps i : ℕ} (h : 1 ≤ steps) (hi : i ≤ steps)
    (ha : R.Near k s'.a.x s.a.x Mx ∧ R.Near k s'.a.y s.a.y My) (hb : R.Near k s'.b.x s.b.x Mx ∧ R.Near k s'.b.y s.b.y My)
    (hc : R.Near k s'.c.x s.c.x Mx ∧ R.Near k s'.c.y s.c.y My) (hd : R.Near k s'.d.x s.d.x Mx ∧ R.Near k s'.d.y s.d.y My) :
    R.Near (k + 9) (sampleAt R steps s' i).x (bern s.a s.b s.c s.d (R.fl ((i : ℝ) / steps))).x Mx ∧
    R.Near (k + 9) (sampleAt R steps s' i).y (bern s.a s.b s.c s.d (R.fl ((i : ℝ) / steps))).y My := by
  obtain ⟨q0, q1⟩ := quot_mem (R := R) h hi
  have hs : (steps : ℝ) ≠ 0 := by exact_mod_cast (by omega : steps ≠ 0)
  unfold sampleAt
  split
  · rename_i h; subst h
    simp only [Nat.cast_zero, zero_div, R.fl_zero, bern_zero]
    exact ⟨ha.1.mono (by omega) le_rfl, ha.2.mono (by omega) le_rfl⟩
  · split
    · rename_i h; subst h
      rw [div_self hs, R.fl_one, bern_one]
      exact ⟨hd.1.mono (by omega) le_rfl, hd.2.mono (by omega) le_rfl⟩
    · exact bezAt_near q0 q1 ha hb hc hd

/-! ### Splitting -/

theorem lerp_between {p q t : ℝ} (hp : R.Rep p) (hq : R.Rep q) (h0 : 0 ≤ t) (h1 : t * (1 + R.u) ^ 2 ≤ 1) :
    min p q ≤ R.fl (p + R.fl (R.fl (q - p) * t)) ∧ R.fl (p + R.fl (R.fl (q - p) * t)) ≤ max p q := by
  have aux : ∀ {p q : ℝ}, R.Rep p → R.Rep q → p ≤ q →
      p ≤ R.fl (p + R.fl (R.fl (q - p) * t)) ∧ R.fl (p + R.fl (R.fl (q - p) * t)) ≤ q := by
    intro p q hp hq h
    have d0 := R.fl_nonneg (x := q - p) (by linarith)
    have d1 := R.fl_le (x := q - p) (by linarith)
    have e0 : 0 ≤ R.fl (q - p) * t := mul_nonneg d0 h0
    have e1 := R.fl_le e0
    have e2 := R.fl_nonneg e0
    have hu := R.u_nonneg
    have e3 : R.fl (R.fl (q - p) * t) ≤ q - p := by
      calc R.fl (R.fl (q - p) * t) ≤ (1 + R.u) * (R.fl (q - p) * t) := e1
        _ ≤ (1 + R.u) * (((1 + R.u) * (q - p)) * t) := by gcongr
        _ = (t * (1 + R.u) ^ 2) * (q - p) := by ring
        _ ≤ 1 * (q - p) := mul_le_mul_of_nonneg_right h1 (by linarith)
        _ = q - p := one_mul _
    exact ⟨R.le_fl_of_rep (by linarith) hp, R.fl_le_of_rep (by linarith) hq⟩
  rcases le_total p q with h | h
  · rw [min_eq_left h, max_eq_right h]; exact aux hp hq h
  · rw [min_eq_right h, max_eq_left h]
    have := aux (R.rep_neg hp) (R.rep_neg hq) (by linarith)
    have e : R.fl (-p + R.fl (R.fl (-q - -p) * t)) = -R.fl (p + R.fl (R.fl (q - p) * t)) := by
      rw [← R.neg]; congr 1
      rw [show -q - -p = -(q - p) by ring, R.neg, neg_mul, R.neg]; ring
    rw [e] at this
    constructor <;> linarith [this.1, this.2]

theorem lerp_mem {xl yl xh yh t : ℝ} {p q : Pt ℝ} (hp : p ∈ (BBox.box xl yl xh yh).Region)
    (hq : q ∈ (BBox.box xl yl xh yh).Region) (rp : R.RepPt p) (rq : R.RepPt q) (h0 : 0 ≤ t) (h1 : t * (1 + R.u) ^ 2 ≤ 1) :
    lerp R t p q ∈ (BBox.box xl yl xh yh).Region := by
  obtain ⟨⟨a1, a2⟩, a3, a4⟩ := hp
  obtain ⟨⟨b1, b2⟩, b3, b4⟩ := hq
  obtain ⟨c1, c2⟩ := lerp_between rp.1 rq.1 h0 h1
  obtain ⟨d1, d2⟩ := lerp_between rp.2 rq.2 h0 h1
  exact ⟨⟨(le_min a1 b1).trans c1, c2.trans (max_le a2 b2)⟩, (le_min a3 b3).trans d1, d2.trans (max_le a4 b4)⟩

theorem lerp_rep (t : ℝ) (p q : Pt ℝ) : R.RepPt (lerp R t p q) := ⟨R.rep_fl _, R.rep_fl _⟩

theorem lerp_near_1 {k : ℕ} {p p' q q' t S : ℝ} (h0 : 0 ≤ t) (hp : R.Near k p' p S) (hq : R.Near k q' q S) :
    R.Near (k + 3) (R.fl (p' + R.fl (R.fl (q' - p') * t))) (p + (q - p) * t) ((1 + 2 * t) * S) := by
  have ht : R.Near 0 t t t := Near.of_le (by rw [abs_of_nonneg h0])
  have := (hp.add ((hq.sub hp).mul ht)).mono (n := k + 3) (by omega) le_rfl
  rw [show S + (S + S) * t = (1 + 2 * t) * S by ring] at this
  exact this

/-- Both coordinates at once. -/
def NearPt (R : Rnd) (k : ℕ) (p' p : Pt ℝ) (Sx Sy : ℝ) : Prop := R.Near k p'.x p.x Sx ∧ R.Near k p'.y p.y Sy

theorem NearPt.mono {k l : ℕ} {p' p : Pt ℝ} {Sx Sy Tx Ty : ℝ} (h : NearPt R k p' p Sx Sy) (hk : k ≤ l) (hx : Sx ≤ Tx)
    (hy : Sy ≤ Ty) : NearPt R l p' p Tx Ty := ⟨h.1.mono hk hx, h.2.mono hk hy⟩

theorem lerp_near {k : ℕ} {p p' q q' : Pt ℝ} {t Sx Sy : ℝ} (h0 : 0 ≤ t) (hp : NearPt R k p' p Sx Sy)
    (hq : NearPt R k q' q Sx Sy) :
    NearPt R (k + 3) (lerp R t p' q') (X7.lerp t p q) ((1 + 2 * t) * Sx) ((1 + 2 * t) * Sy) :=
  ⟨lerp_near_1 h0 hp.1 hq.1, lerp_near_1 h0 hp.2 hq.2⟩

theorem sub_near {k : ℕ} {p p' q q' : Pt ℝ} {Sx Sy : ℝ} (hp : NearPt R k p' p Sx Sy) (hq : NearPt R k q' q Sx Sy) :
    R.Near (k + 1) (sub R p' q').x (p.sub q).x (2 * Sx) ∧ R.Near (k + 1) (sub R p' q').y (p.sub q).y (2 * Sy) := by
  constructor
  · have := (hp.1.sub hq.1).mono (n := k + 1) (by omega) (le_of_eq (two_mul Sx).symm); exact this
  · have := (hp.2.sub hq.2).mono (n := k + 1) (by omega) (le_of_eq (two_mul Sy).symm); exact this

theorem cp_near {cp : CP ℝ} {Bx By : ℝ} (h : cp.Bounded Bx By) :
    NearPt R 1 cp.c cp.c Bx By ∧ NearPt R 1 (cpL R cp) cp.l Bx By ∧ NearPt R 1 (cpR R cp) cp.r Bx By := by
  obtain ⟨⟨h1, h2⟩, h3, h4⟩ := h
  refine ⟨⟨?_, ?_⟩, ⟨?_, ?_⟩, ?_, ?_⟩
  · exact (Near.of_le (by linarith [abs_nonneg cp.dl.x])).mono (Nat.zero_le _) le_rfl
  · exact (Near.of_le (by linarith [abs_nonneg cp.dl.y])).mono (Nat.zero_le _) le_rfl
  · exact ((Near.of_abs cp.c.x).add (Near.of_abs cp.dl.x)).mono (by omega) h1
  · exact ((Near.of_abs cp.c.y).add (Near.of_abs cp.dl.y)).mono (by omega) h3
  · exact ((Near.of_abs cp.c.x).add (Near.of_abs cp.dr.x)).mono (by omega) h2
  · exact ((Near.of_abs cp.c.y).add (Near.of_abs cp.dr.y)).mono (by omega) h4

end Fl
end X7
