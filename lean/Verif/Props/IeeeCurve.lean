import Verif.Lemmas.IeeeCurve
import Verif.Props.IeeeBox

/-!
C105: curves with floats of finite range.
-/

noncomputable section

namespace X7.Fmt
open NB
variable {F : Fmt}

/-! ### The points of a path -/

/-- The samples of `bez`. -/
def sampleN (F : Fmt) (steps : ℕ) (s : Poly4 N) (i : ℕ) : Pt N :=
  if i = 0 then s.a else if i = steps then s.d else F.bezAt s.a s.b s.c s.d (F.toF ((i : ℝ) / steps))

theorem bezXY_eq (s : Poly4 N) (steps : ℕ) (h : 1 ≤ steps) :
    F.bezXY s.a s.b s.c s.d steps = (List.range (steps + 1)).map (F.sampleN steps s) := by
  obtain ⟨n, rfl⟩ : ∃ n, steps = n + 1 := ⟨steps - 1, by omega⟩
  rw [List.range_succ, List.map_append, List.range_eq_range', List.range'_succ]
  simp only [bezXY, List.map_cons, List.map_nil, Nat.add_sub_cancel, List.cons_append, List.nil_append]
  have e0 : F.sampleN (n + 1) s 0 = s.a := by simp [sampleN]
  have e1 : F.sampleN (n + 1) s (n + 1) = s.d := by simp [sampleN]
  rw [e0, e1]
  congr 2
  apply List.map_congr_left
  intro i hi
  rw [List.mem_range'_1] at hi
  simp only [sampleN]
  rw [if_neg (by omega), if_neg (by omega)]

/-- The computed control polygon between neighbours. -/
def segN (F : Fmt) (f : Pt N → Pt N) (pq : CP N × CP N) : Poly4 N := ⟨f pq.1.c, f (F.cpR pq.1), f (F.cpL pq.2), f pq.2.c⟩

theorem bezPath_eq (f : Pt N → Pt N) (cps : List (CP N)) (closed : Bool) (steps : ℕ) (h : 1 ≤ steps) :
    F.bezPath f cps closed steps = xyFlatten (pathG (F.sampleN steps) steps ((neighbours closed cps).map (F.segN f))) := by
  unfold bezPath
  by_cases hc : cps = []
  · subst hc
    cases closed <;> simp [neighbours, pathG, xyFlatten]
  · rw [if_neg (by simpa using hc), ← Fl.zip_neighbours]
    simp only
    generalize cps.zip (cps.tail ++ if closed then cps else []) = prs
    have hb : ∀ pq : CP N × CP N, F.bez (f pq.1.c) (f (F.cpR pq.1)) (f (F.cpL pq.2)) (f pq.2.c) steps =
        xyFlatten ((List.range (steps + 1)).map (F.sampleN steps (F.segN f pq))) := by
      intro pq; rw [bez, ← bezXY_eq _ _ h]; rfl
    simp only [hb]
    have step : ∀ (prs : List (CP N × CP N)) (acc : List N), acc.length ≠ 0 →
        prs.foldl (fun pts pq =>
          if pts.length ≠ 0 then pts ++ (xyFlatten ((List.range (steps + 1)).map (F.sampleN steps (F.segN f pq)))).drop 2
          else pts ++ xyFlatten ((List.range (steps + 1)).map (F.sampleN steps (F.segN f pq)))) acc =
        acc ++ xyFlatten ((prs.map (F.segN f)).flatMap fun s => ((List.range (steps + 1)).map (F.sampleN steps s)).tail) := by
      intro prs
      induction prs with
      | nil => intro acc _; simp [xyFlatten]
      | cons pq prs ih =>
        intro acc hacc
        rw [List.foldl_cons, if_pos hacc, ih]
        · rw [List.map_cons, List.flatMap_cons, xyFlatten_append, xyFlatten_drop2, List.append_assoc]
        · rw [List.length_append]; omega
    cases prs with
    | nil => simp [pathG, xyFlatten]
    | cons pq prs =>
      rw [List.foldl_cons, step]
      · simp [pathG, xyFlatten_append]
      · simp [xyFlatten_length]

theorem path_get (f : Pt N → Pt N) (cps : List (CP N)) (closed : Bool) (steps : ℕ) (h : 1 ≤ steps) (k i : ℕ) (hi : i ≤ steps)
    (pq : CP N × CP N) (hpq : (neighbours closed cps)[k]? = some pq) :
    pairAt (F.bezPath f cps closed steps) (k * steps + i) = some (F.sampleN steps (F.segN f pq) i) := by
  rw [bezPath_eq _ _ _ _ h, pairAt_flatten]
  refine pathG_get _ steps h _ ?_ k i hi _ (by simp [hpq])
  intro k s s' h1 h2
  rw [List.getElem?_map, Option.map_eq_some_iff] at h1 h2
  obtain ⟨x, hx, rfl⟩ := h1
  obtain ⟨y, hy, rfl⟩ := h2
  have := Fl.neighbours_join closed cps k x y hx hy
  have hne : steps ≠ 0 := by omega
  simp [sampleN, segN, this, hne]

/-- C105: whatever the coordinates, infinities and NaN among them, a path has `steps` points for each pair of neighbours and one
more (none without neighbours), and it passes through the transformed centres, unchanged by the sampling. -/
theorem C105_centres (f : Pt N → Pt N) (cps : List (CP N)) (closed : Bool) (steps : ℕ) (h : 1 ≤ steps) :
    (F.bezPath f cps closed steps).length =
      (if neighbours closed cps = [] then 0 else 2 * ((neighbours closed cps).length * steps + 1)) ∧
    ∀ (k : ℕ) (p q : CP N), (neighbours closed cps)[k]? = some (p, q) →
      pairAt (F.bezPath f cps closed steps) (k * steps) = some (f p.c) ∧
      pairAt (F.bezPath f cps closed steps) ((k + 1) * steps) = some (f q.c) := by
  constructor
  · rw [bezPath_eq _ _ _ _ h, xyFlatten_length]
    split
    · rename_i e; rw [e]; rfl
    · rename_i e
      rw [pathG_length _ _ _ (by simpa using e), List.length_map]
  · intro k p q hpq
    have hne : steps ≠ 0 := by omega
    constructor
    · have := path_get (F := F) f cps closed steps h k 0 (by omega) _ hpq
      simpa [sampleN, segN] using this
    · have := path_get (F := F) f cps closed steps h k steps le_rfl _ hpq
      rw [Nat.succ_mul]
      simpa [sampleN, segN, hne] using this

theorem quot_unit {i steps : ℕ} (h : 1 ≤ steps) (hi : i ≤ steps) : 0 ≤ (i : ℝ) / steps ∧ (i : ℝ) / steps ≤ 1 := by
  have hs : (0 : ℝ) < steps := by exact_mod_cast h
  exact ⟨by positivity, by rw [div_le_one hs]; exact_mod_cast hi⟩

/-- A sample, if the control points are finite. -/
theorem sample_near (h1 : F.HasOne) {k : ℕ} {s s' : Poly4 ℝ} {Sx Sy Vx Vy : ℝ} {steps i : ℕ} (h : 1 ≤ steps) (hi : i ≤ steps)
    (ha : F.NearW k s'.a.x s.a.x Sx Vx ∧ F.NearW k s'.a.y s.a.y Sy Vy) (hb : F.NearW k s'.b.x s.b.x Sx Vx ∧ F.NearW k s'.b.y s.b.y Sy Vy)
    (hc : F.NearW k s'.c.x s.c.x Sx Vx ∧ F.NearW k s'.c.y s.c.y Sy Vy) (hd : F.NearW k s'.d.x s.d.x Sx Vx ∧ F.NearW k s'.d.y s.d.y Sy Vy)
    (hx : F.curveTop k Vx ≤ F.maxf) (hy : F.curveTop k Vy ≤ F.maxf) :
    ∃ P t, F.sampleN steps ⟨finPt s'.a, finPt s'.b, finPt s'.c, finPt s'.d⟩ i = finPt P ∧ (0 ≤ t ∧ t ≤ 1) ∧
      |t - (i : ℝ) / steps| ≤ F.u * ((i : ℝ) / steps) + F.eta / 2 ∧
      Within (F.curveTop k Vx - Sx) (F.curveTop k Vy - Sy) P (s.at' t) := by
  obtain ⟨q0, q1⟩ := quot_unit h hi
  have ut := rnd_unit h1 ⟨q0, q1⟩
  have hs : (steps : ℝ) ≠ 0 := by exact_mod_cast (by omega : steps ≠ 0)
  have he := F.eta_pos'
  have hu := F.upos
  have up : ∀ {x' x S V : ℝ}, F.NearW k x' x S V → |x' - x| ≤ F.curveTop k V - S := by
    intro x' x S V hn
    have hV := hn.nonneg
    exact (hn.mono (m := k + 9) (V := (1 + 11 * F.eta) * V + 4 * F.eta) (by omega) (by nlinarith)).2
  unfold sampleN
  split
  · rename_i h0; subst h0
    refine ⟨s'.a, 0, rfl, by norm_num, by simp; positivity, ?_⟩
    have : s.at' 0 = s.a := by ext <;> simp [Poly4.at', bern]
    rw [this]
    exact ⟨up ha.1, up ha.2⟩
  · split
    · rename_i h0; subst h0
      refine ⟨s'.d, 1, rfl, by norm_num, by rw [div_self hs]; simp; positivity, ?_⟩
      have : s.at' 1 = s.d := by ext <;> simp [Poly4.at', bern]
      rw [this]
      exact ⟨up hd.1, up hd.2⟩
    · obtain ⟨x1, x2⟩ := bezR_near h1 ut.1 ut.2 ha.1 hb.1 hc.1 hd.1 hx
      obtain ⟨y1, y2⟩ := bezR_near h1 ut.1 ut.2 ha.2 hb.2 hc.2 hd.2 hy
      refine ⟨⟨F.bezR s'.a.x s'.b.x s'.c.x s'.d.x (F.rnd ((i : ℝ) / steps)), F.bezR s'.a.y s'.b.y s'.c.y s'.d.y (F.rnd ((i : ℝ) / steps))⟩,
        F.rnd ((i : ℝ) / steps), ?_, ut, ?_, x1.2, y1.2⟩
      · rw [F.toF_in (unit_fin h1 ⟨q0, q1⟩)]
        simp only [bezAt, finPt]
        rw [← x2, ← y2]
      · have := F.rnd_err ((i : ℝ) / steps)
        rw [abs_of_nonneg (a := (i : ℝ) / steps) q0] at this
        exact this

/-- C105: the points of a segment with finite control points that are not too large are finite, and within nine roundings, and a few
times the smallest float, of a point of the exact curve: of the one at the computed quotient `i/steps`. -/
theorem C105_samples (h1 : F.HasOne) (a b c d : Pt ℝ) (steps i : ℕ) (h : 1 ≤ steps) (hi : i ≤ steps) (Mx My : ℝ)
    (hx : |a.x| ≤ Mx ∧ |b.x| ≤ Mx ∧ |c.x| ≤ Mx ∧ |d.x| ≤ Mx) (hy : |a.y| ≤ My ∧ |b.y| ≤ My ∧ |c.y| ≤ My ∧ |d.y| ≤ My)
    (mx : F.curveTop 0 Mx ≤ F.maxf) (my : F.curveTop 0 My ≤ F.maxf) :
    ∃ P t, (F.bezXY (finPt a) (finPt b) (finPt c) (finPt d) steps)[i]? = some (finPt P) ∧ (0 ≤ t ∧ t ≤ 1) ∧
      |t - (i : ℝ) / steps| ≤ F.u * ((i : ℝ) / steps) + F.eta / 2 ∧
      Within (F.curveTop 0 Mx - Mx) (F.curveTop 0 My - My) P (bern a b c d t) := by
  obtain ⟨P, t, e, r⟩ := sample_near h1 (k := 0) (s := ⟨a, b, c, d⟩) (s' := ⟨a, b, c, d⟩) h hi
    ⟨.of_le hx.1, .of_le hy.1⟩ ⟨.of_le hx.2.1, .of_le hy.2.1⟩ ⟨.of_le hx.2.2.1, .of_le hy.2.2.1⟩ ⟨.of_le hx.2.2.2, .of_le hy.2.2.2⟩ mx my
  refine ⟨P, t, ?_, r⟩
  have := bezXY_eq (F := F) ⟨finPt a, finPt b, finPt c, finPt d⟩ steps h
  simp only at this
  rw [this, List.getElem?_map, List.getElem?_range (by omega)]
  exact congrArg some e

/-- C105: hence they lie in every box that the control points lie in, up to these errors. -/
theorem C105_in_box (h1 : F.HasOne) (a b c d : Pt ℝ) (steps i : ℕ) (h : 1 ≤ steps) (hi : i ≤ steps) (xl yl xh yh : ℝ)
    (hb : ∀ p ∈ [a, b, c, d], p ∈ (BBox.box xl yl xh yh).Region)
    (mx : F.curveTop 0 (max |xl| |xh|) ≤ F.maxf) (my : F.curveTop 0 (max |yl| |yh|) ≤ F.maxf) :
    ∃ P, (F.bezXY (finPt a) (finPt b) (finPt c) (finPt d) steps)[i]? = some (finPt P) ∧
      (xl - (F.curveTop 0 (max |xl| |xh|) - max |xl| |xh|) ≤ P.x ∧ P.x ≤ xh + (F.curveTop 0 (max |xl| |xh|) - max |xl| |xh|)) ∧
      (yl - (F.curveTop 0 (max |yl| |yh|) - max |yl| |yh|) ≤ P.y ∧ P.y ≤ yh + (F.curveTop 0 (max |yl| |yh|) - max |yl| |yh|)) := by
  simp only [List.forall_mem_cons, List.not_mem_nil, IsEmpty.forall_iff, implies_true, and_true] at hb
  obtain ⟨ha, hb, hc, hd⟩ := hb
  have bx : ∀ {p : Pt ℝ}, p ∈ (BBox.box xl yl xh yh).Region → |p.x| ≤ max |xl| |xh| := fun hp => abs_le_max_abs_abs hp.1.1 hp.1.2
  have by' : ∀ {p : Pt ℝ}, p ∈ (BBox.box xl yl xh yh).Region → |p.y| ≤ max |yl| |yh| := fun hp => abs_le_max_abs_abs hp.2.1 hp.2.2
  obtain ⟨P, t, e, ⟨t0, t1⟩, -, wx, wy⟩ := C105_samples h1 a b c d steps i h hi _ _ ⟨bx ha, bx hb, bx hc, bx hd⟩
    ⟨by' ha, by' hb, by' hc, by' hd⟩ mx my
  obtain ⟨⟨i1, i2⟩, i3, i4⟩ := bern_mem_box ha hb hc hd t0 t1
  rw [abs_le] at wx wy
  exact ⟨P, e, ⟨by linarith [wx.1], by linarith [wx.2]⟩, by linarith [wy.1], by linarith [wy.2]⟩

/-! ### From the control points through the transform to the path -/

theorem cp_near {c v B : ℝ} (h : |c| + |v| ≤ B) (hB : B ≤ F.maxf) :
    F.add (fin c) (fin v) = fin (F.rnd (c + v)) ∧ F.NearW 1 (F.rnd (c + v)) (c + v) B (B + F.eta / 2) ∧ F.NearW 1 c c B (B + F.eta / 2) := by
  have h2 : |c + v| ≤ B := (abs_add_le _ _).trans h
  have he := F.eta_pos'
  exact ⟨add_fin_ok (h2.trans hB), (NearW.of_le h2).rnd,
    (NearW.of_le (by linarith [abs_nonneg v])).mono (by omega) (by linarith)⟩

/-- One row of the transform. -/
theorem row_near (mode : DotMode) {a b c x' x y' y Bx By : ℝ} (hx : F.NearW 1 x' x Bx (Bx + F.eta / 2))
    (hy : F.NearW 1 y' y By (By + F.eta / 2)) (hm : (1 + F.u) ^ 4 * F.rowTop a b c Bx By ≤ F.maxf) :
    ∃ r, F.dot3 mode (fin a) (fin x') (fin b) (fin y') (fin c) (fin 1) = fin r ∧
      F.NearW 4 r (a * x + b * y + c) (|a| * Bx + |b| * By + |c|) (F.rowTop a b c Bx By) := by
  have he := F.eta_pos'
  have hBx : 0 ≤ Bx := (abs_nonneg _).trans hx.1
  have hBy : 0 ≤ By := (abs_nonneg _).trans hy.1
  have ha : F.NearW 0 a a |a| |a| := .of_le le_rfl
  have hb : F.NearW 0 b b |b| |b| := .of_le le_rfl
  have hc : F.NearW 0 (c * 1) c |c| |c| := by rw [mul_one]; exact .of_le le_rfl
  have below : ∀ {n : ℕ} {z' z S' W : ℝ}, F.NearW n z' z S' W → n ≤ 4 → W ≤ F.rowTop a b c Bx By → |z'| ≤ F.maxf :=
    fun hz hn hW => ((hz.mono hn hW).size).trans hm
  have top : F.rowTop a b c Bx By = |a| * Bx + |b| * By + |c| + |a| * F.eta + |b| * F.eta + 5 * F.eta := by unfold rowTop; ring
  have a0 : 0 ≤ |a| * F.eta := by positivity
  have b0 : 0 ≤ |b| * F.eta := by positivity
  have a1 : 0 ≤ |a| * Bx := by positivity
  have b1 : 0 ≤ |b| * By := by positivity
  have c1 := abs_nonneg c
  have ax := ha.mul hx
  have b_y := hb.mul hy
  cases mode with
  | left =>
    have s1 := ax.rnd.add b_y.rnd
    have s2 := s1.rnd.add hc.rnd
    refine ⟨_, ?_, s2.rnd.congr (by ring) (by ring) (by omega) (by rw [top]; linarith)⟩
    simp only [dot3]
    rw [mul_fin_ok (below ax (by omega) (by rw [top]; linarith)), mul_fin_ok (below b_y (by omega) (by rw [top]; linarith)),
      mul_fin_ok (below hc (by omega) (by rw [top]; linarith)), add_fin_ok (below s1 (by omega) (by rw [top]; linarith)),
      add_fin_ok (below s2 (by omega) (by rw [top]; linarith))]
  | right =>
    have s1 := b_y.rnd.add hc.rnd
    have s2 := ax.rnd.add s1.rnd
    refine ⟨_, ?_, s2.rnd.congr (by ring) (by ring) (by omega) (by rw [top]; linarith)⟩
    simp only [dot3]
    rw [mul_fin_ok (below ax (by omega) (by rw [top]; linarith)), mul_fin_ok (below b_y (by omega) (by rw [top]; linarith)),
      mul_fin_ok (below hc (by omega) (by rw [top]; linarith)), add_fin_ok (below s1 (by omega) (by rw [top]; linarith)),
      add_fin_ok (below s2 (by omega) (by rw [top]; linarith))]
  | fused =>
    have s1 := b_y.add ax.rnd
    have s2 := hc.add s1.rnd
    refine ⟨_, ?_, s2.rnd.congr (by ring) (by ring) (by omega) (by rw [top]; linarith)⟩
    simp only [dot3]
    rw [mul_fin_ok (below ax (by omega) (by rw [top]; linarith)), fma_fin, F.toF_in (below s1 (by omega) (by rw [top]; linarith)),
      fma_fin, F.toF_in (below s2 (by omega) (by rw [top]; linarith))]

/-- C105: the whole of `bez_path` with floats, computing the ends of handles, transforming and sampling: if the control points and the
terms of the transform are not too large, every point of the path is finite and within thirteen roundings, and a few times the smallest
float, of a point of the exact transformed curve, on the segment it belongs to. -/
theorem C105_path (h1 : F.HasOne) (mode : DotMode) (m : Mat3 ℝ) (cps : List (CP ℝ)) (closed : Bool) (steps : ℕ) (h : 1 ≤ steps)
    (Bx By : ℝ) (hb : ∀ cp ∈ cps, cp.Bounded Bx By) (bx : Bx ≤ F.maxf) (by' : By ≤ F.maxf)
    (mx : F.curveTop 4 (F.rowTop m.a m.b m.c Bx By) ≤ F.maxf) (my : F.curveTop 4 (F.rowTop m.d m.e m.f Bx By) ≤ F.maxf)
    (k i : ℕ) (hi : i ≤ steps) (p q : CP ℝ) (hpq : (neighbours closed cps)[k]? = some (p, q)) :
    ∃ P t, pairAt (F.bezPath (F.apply mode m) (cps.map finCP) closed steps) (k * steps + i) = some (finPt P) ∧ (0 ≤ t ∧ t ≤ 1) ∧
      |t - (i : ℝ) / steps| ≤ F.u * ((i : ℝ) / steps) + F.eta / 2 ∧
      Within (F.curveTop 4 (F.rowTop m.a m.b m.c Bx By) - (|m.a| * Bx + |m.b| * By + |m.c|))
        (F.curveTop 4 (F.rowTop m.d m.e m.f Bx By) - (|m.d| * Bx + |m.e| * By + |m.f|)) P (((seg p q).map m.apply).at' t) := by
  have he := F.eta_pos'
  have hu := F.upos
  obtain ⟨hp, hq⟩ := Fl.mem_neighbours (List.mem_of_getElem? hpq)
  have hpq' : (neighbours closed (cps.map finCP))[k]? = some (finCP p, finCP q) := by
    have e : neighbours closed (cps.map finCP) = (neighbours closed cps).map (Prod.map finCP finCP) := by
      unfold neighbours
      cases closed
      · simp only [Bool.false_eq_true, if_false]; rw [← List.map_tail, List.zip_map]
      · simp only [if_true]; rw [← List.map_rotate, List.zip_map]
    rw [e, List.getElem?_map, hpq]; rfl
  have Bx0 : 0 ≤ Bx := by have := (hb p hp).1.1; have := abs_nonneg p.c.x; have := abs_nonneg p.dl.x; linarith
  have By0 : 0 ≤ By := by have := (hb p hp).2.1; have := abs_nonneg p.c.y; have := abs_nonneg p.dl.y; linarith
  have low : ∀ {a b c : ℝ}, F.curveTop 4 (F.rowTop a b c Bx By) ≤ F.maxf → (1 + F.u) ^ 4 * F.rowTop a b c Bx By ≤ F.maxf := by
    intro a b c hm
    refine le_trans ?_ hm
    have V0 : 0 ≤ F.rowTop a b c Bx By := by unfold rowTop; positivity
    unfold curveTop
    have e1 : (1 + F.u) ^ 4 ≤ (1 + F.u) ^ (4 + 9) := pow_le_pow_right₀ F.one_le_u (by omega)
    have e2 : F.rowTop a b c Bx By ≤ (1 + 11 * F.eta) * F.rowTop a b c Bx By + 4 * F.eta := by nlinarith
    have e3 : (0 : ℝ) ≤ (1 + F.u) ^ (4 + 9) := by positivity
    exact mul_le_mul e1 e2 V0 e3
  have key : ∀ {x' x : Pt ℝ}, F.NearW 1 x'.x x.x Bx (Bx + F.eta / 2) → F.NearW 1 x'.y x.y By (By + F.eta / 2) →
      ∃ r : Pt ℝ, F.apply mode m (finPt x') = finPt r ∧
        F.NearW 4 r.x (m.apply x).x (|m.a| * Bx + |m.b| * By + |m.c|) (F.rowTop m.a m.b m.c Bx By) ∧
        F.NearW 4 r.y (m.apply x).y (|m.d| * Bx + |m.e| * By + |m.f|) (F.rowTop m.d m.e m.f Bx By) := by
    intro x' x hx hy
    obtain ⟨r1, e1, n1⟩ := row_near mode hx hy (low mx)
    obtain ⟨r2, e2, n2⟩ := row_near mode hx hy (low my)
    refine ⟨⟨r1, r2⟩, ?_, ?_, ?_⟩
    · simp only [apply, finPt]; rw [e1, e2]
    · simpa [Mat3.apply] using n1
    · simpa [Mat3.apply] using n2
  obtain ⟨p1, p2⟩ := hb p hp
  obtain ⟨q1, q2⟩ := hb q hq
  obtain ⟨er1, nr1, nc1⟩ := cp_near p1.2 bx
  obtain ⟨er2, nr2, nc2⟩ := cp_near p2.2 by'
  obtain ⟨el1, nl1, nd1⟩ := cp_near q1.1 bx
  obtain ⟨el2, nl2, nd2⟩ := cp_near q2.1 by'
  obtain ⟨ra, ea, na⟩ := key (x' := p.c) (x := p.c) nc1 nc2
  obtain ⟨rb, eb, nb⟩ := key (x' := ⟨F.rnd (p.c.x + p.dr.x), F.rnd (p.c.y + p.dr.y)⟩) (x := ⟨p.c.x + p.dr.x, p.c.y + p.dr.y⟩) nr1 nr2
  obtain ⟨rc, ec, nc⟩ := key (x' := ⟨F.rnd (q.c.x + q.dl.x), F.rnd (q.c.y + q.dl.y)⟩) (x := ⟨q.c.x + q.dl.x, q.c.y + q.dl.y⟩) nl1 nl2
  obtain ⟨rd, ed, nd⟩ := key (x' := q.c) (x := q.c) nd1 nd2
  obtain ⟨P, t, e, r⟩ := sample_near h1 (k := 4) (s := (seg p q).map m.apply) (s' := ⟨ra, rb, rc, rd⟩) h hi na nb nc nd mx my
  refine ⟨P, t, ?_, r⟩
  rw [path_get (F := F) _ _ closed steps h k i hi _ hpq', ← e]
  congr 2
  have h2 : F.cpR (finCP p) = finPt ⟨F.rnd (p.c.x + p.dr.x), F.rnd (p.c.y + p.dr.y)⟩ := by
    simp only [cpR, addVec, finCP, finPt, finV]; rw [er1, er2]
  have h3 : F.cpL (finCP q) = finPt ⟨F.rnd (q.c.x + q.dl.x), F.rnd (q.c.y + q.dl.y)⟩ := by
    simp only [cpL, addVec, finCP, finPt, finV]; rw [el1, el2]
  show (⟨F.apply mode m (finCP p).c, F.apply mode m (F.cpR (finCP p)), F.apply mode m (F.cpL (finCP q)), F.apply mode m (finCP q).c⟩ :
    Poly4 N) = _
  rw [h2, h3, eb, ec]
  show (⟨F.apply mode m (finPt p.c), _, _, F.apply mode m (finPt q.c)⟩ : Poly4 N) = _
  rw [ea, ed]

/-- C105: an infinite or NaN coordinate of one of the four control points of a segment spoils that coordinate of all points but the ends:
none of them is finite. -/
theorem C105_not_finite (a b c d : Pt N) (steps i : ℕ) (h0 : 0 < i) (hi : i < steps) :
    ∃ P, (F.bezXY a b c d steps)[i]? = some P ∧
      (Finite P.x → Finite a.x ∧ Finite b.x ∧ Finite c.x ∧ Finite d.x) ∧ (Finite P.y → Finite a.y ∧ Finite b.y ∧ Finite c.y ∧ Finite d.y) := by
  have := bezXY_eq (F := F) ⟨a, b, c, d⟩ steps (by omega)
  simp only at this
  refine ⟨_, by rw [this, List.getElem?_map, List.getElem?_range (by omega)]; rfl, ?_⟩
  have key : ∀ {s3 s2t st2 t3 a b c d : N}, Finite (F.bezSum s3 s2t st2 t3 a b c d) → Finite a ∧ Finite b ∧ Finite c ∧ Finite d := by
    rintro s3 s2t st2 t3 a b c d ⟨r, hr⟩
    unfold bezSum at hr
    obtain ⟨r1, r2, h1, h2⟩ := F.add_finite hr
    obtain ⟨r3, r4, h3, h4⟩ := F.add_finite h1
    obtain ⟨r5, r6, h5, h6⟩ := F.add_finite h3
    obtain ⟨-, x, -, e1⟩ := F.mul_finite h5
    obtain ⟨-, y, -, e2⟩ := F.mul_finite h6
    obtain ⟨-, z, -, e3⟩ := F.mul_finite h4
    obtain ⟨-, w, -, e4⟩ := F.mul_finite h2
    exact ⟨⟨x, e1⟩, ⟨y, e2⟩, ⟨z, e3⟩, w, e4⟩
  have e : F.sampleN steps ⟨a, b, c, d⟩ i = F.bezAt a b c d (F.toF ((i : ℝ) / steps)) := by
    unfold sampleN; rw [if_neg (by omega), if_neg (by omega)]
  rw [e]
  exact ⟨fun h => key h, fun h => key h⟩

/-- C105: where no operation has a result that is too small or too large, the points are those that C86 is about. -/
theorem C105_transfer (a b c d : Pt ℝ) (t : ℝ)
    (hx : ∀ r ∈ (bezEx a.x b.x c.x d.x t).results (.binary F.p (by have := F.hp; omega)), F.InRange r)
    (hy : ∀ r ∈ (bezEx a.y b.y c.y d.y t).results (.binary F.p (by have := F.hp; omega)), F.InRange r) :
    F.bezAt (finPt a) (finPt b) (finPt c) (finPt d) (fin t) =
      finPt (Fl.bezAt (.binary F.p (by have := F.hp; omega)) a b c d t) := by
  have ex := F.C98_transfer _ hx
  have ey := F.C98_transfer _ hy
  have e1 : ∀ a b c d t : ℝ, (bezEx a b c d t).ieee F =
      (F.bezAt ⟨fin a, fin 0⟩ ⟨fin b, fin 0⟩ ⟨fin c, fin 0⟩ ⟨fin d, fin 0⟩ (fin t)).x := fun _ _ _ _ _ => rfl
  show (⟨(bezEx a.x b.x c.x d.x t).ieee F, (bezEx a.y b.y c.y d.y t).ieee F⟩ : Pt N) = _
  rw [ex, ey]
  rfl

end X7.Fmt
