import Verif.Model.LineHeap
import Verif.Props.PointHeap
import Mathlib.Tactic.Ring
import Mathlib.Tactic.NormNum

/-! C95: lines refer to the objects they were made of: what a line is after any further calls. -/

namespace X7.LH
open PH
variable {K : Type*} [Field K]

/-- No points, no lines. -/
def init : St K := ⟨[], []⟩

/-- The call changes the coordinates, delta or scale of object `k`. -/
def Changes (k : ℕ) : LOp K → Prop
  | .pt op => Mutates k op
  | _ => False

/-- What reading a vector means: `ReadsVec h d v`, vector `d` is `v` now. -/
inductive ReadsVec (h : Heap K) : ℕ → Vec K → Prop
  | vec {d x y} : h[d]? = some (.vec x y) → ReadsVec h d ⟨x, y⟩
  | rel {d p q a b} : h[d]? = some (.vecRel p q) → Reads h p a → Reads h q b → ReadsVec h d ⟨a.x - b.x, a.y - b.y⟩

/-- References are to objects of the right class. -/
def Inv (s : St K) : Prop := WF s.h ∧ ∀ l ∈ s.ls, isBasePoint s.h l.1 ∧ isVector s.h l.2

theorem sameClass_refl (o : PObj K) : sameClass o o := by cases o <;> simp [sameClass]

theorem class_get {h : Heap K} {op : POp K} {i : ℕ} {o : PObj K} (hi : h[i]? = some o) : ∃ o', (PH.step h op).1[i]? = some o' ∧ sameClass o o' := by
  have hlt : i < h.length := (List.getElem?_eq_some_iff.1 hi).1
  have app : ∀ l : Heap K, ∃ o', (h ++ l)[i]? = some o' ∧ sameClass o o' := fun l =>
    ⟨o, by rw [List.getElem?_append_left hlt, hi], sameClass_refl o⟩
  have same : ∃ o', h[i]? = some o' ∧ sameClass o o' := ⟨o, hi, sameClass_refl o⟩
  have st : ∀ j x x', h[j]? = some x → sameClass x x' → ∃ o', (h.set j x')[i]? = some o' ∧ sameClass o o' := by
    intro j x x' hx hc
    by_cases hj : j = i
    · subst hj
      rw [hi] at hx
      cases hx
      exact ⟨x', List.getElem?_set_self hlt, hc⟩
    · rw [List.getElem?_set_ne hj]; exact same
  cases op <;> simp only [PH.step] <;> (repeat' split) <;>
    first | exact same | exact app _ | (refine st _ _ _ (by assumption) ?_; simp [sameClass])

theorem isVector_step {h : Heap K} {op : POp K} {i : ℕ} (hi : isVector h i) : isVector (PH.step h op).1 i := by
  unfold isVector at hi
  cases ho : h[i]? with
  | none => rw [ho] at hi; simp at hi
  | some o =>
    rw [ho] at hi
    obtain ⟨o', h1, h2⟩ := class_get (op := op) ho
    unfold isVector
    rw [h1]
    cases o <;> cases o' <;> simp_all [sameClass]

theorem isBasePoint_step {h : Heap K} {op : POp K} {i : ℕ} (hi : isBasePoint h i) : isBasePoint (PH.step h op).1 i := by
  unfold isBasePoint at hi
  cases ho : h[i]? with
  | none => rw [ho] at hi; simp at hi
  | some o =>
    rw [ho] at hi
    obtain ⟨o', h1, h2⟩ := class_get (op := op) ho
    unfold isBasePoint
    rw [h1]
    cases o <;> cases o' <;> simp_all [sameClass]

theorem lt_of_isVector {h : Heap K} {i : ℕ} (hi : isVector h i) : i < h.length := by
  by_contra hc
  rw [isVector, List.getElem?_eq_none (by omega)] at hi
  simp at hi

theorem isVector_append {h l : Heap K} {i : ℕ} (hi : isVector h i) : isVector (h ++ l) i := by
  have := lt_of_isVector hi
  unfold isVector at hi ⊢
  rwa [List.getElem?_append_left this]

/-- What a call does to the state: a call on points, or nothing, or one new object and one new line. -/
theorem step_cases (s : St K) (op : LOp K) :
    (∃ o, op = .pt o ∧ step s op = (⟨(PH.step s.h o).1, s.ls⟩, (PH.step s.h o).2)) ∨ (∃ e, step s op = (s, some e)) ∨
    (∃ o d, isBasePoint s.h o ∧ isVector s.h d ∧ step s op = (⟨s.h, s.ls ++ [(o, d)]⟩, none)) ∨
    (∃ o x y, isBasePoint s.h o ∧ step s op = (⟨s.h ++ [.vec x y], s.ls ++ [(o, s.h.length)]⟩, none)) ∨
    (∃ (l o d : ℕ) (x y : K), s.ls[l]? = some (o, d) ∧ step s op = (⟨s.h ++ [.point x y none], s.ls ++ [(s.h.length, d)]⟩, none)) := by
  have hd : ∀ o p q, isBasePoint s.h o → (∃ e, lineOfDiff s o p q = (s, some e)) ∨
      ∃ o' x y, isBasePoint s.h o' ∧ lineOfDiff s o p q = (⟨s.h ++ [.vec x y], s.ls ++ [(o', s.h.length)]⟩, none) := by
    intro o p q ho
    unfold lineOfDiff
    cases xy s.h q with
    | error e => exact .inl ⟨e, rfl⟩
    | ok b =>
      cases xy s.h p with
      | error e => exact .inl ⟨e, rfl⟩
      | ok a => exact .inr ⟨o, _, _, ho, rfl⟩
  have hs : ∀ f l v, (∃ e, shifted s f l v = (s, some e)) ∨
      ∃ (l' o d : ℕ) (x y : K), s.ls[l']? = some (o, d) ∧ shifted s f l v = (⟨s.h ++ [.point x y none], s.ls ++ [(s.h.length, d)]⟩, none) := by
    intro f l v
    unfold shifted
    cases hl : s.ls[l]? with
    | none => exact .inl ⟨_, rfl⟩
    | some od =>
      obtain ⟨o, d⟩ := od
      simp only
      split
      · cases xy s.h o with
        | error e => exact .inl ⟨e, rfl⟩
        | ok a =>
          cases xy s.h v with
          | error e => exact .inl ⟨e, rfl⟩
          | ok b => exact .inr ⟨l, o, d, _, _, hl, rfl⟩
      · exact .inl ⟨_, rfl⟩
  cases op with
  | pt o => exact .inl ⟨o, rfl, rfl⟩
  | mk o d =>
    right
    simp only [step]
    split
    · rename_i ho
      split
      · rename_i hv; exact .inr (.inl ⟨o, d, ho, hv, rfl⟩)
      · split
        · rcases hd o o d ho with h | h
          · exact .inl h
          · exact .inr (.inr (.inl h))
        · exact .inl ⟨_, rfl⟩
    · exact .inl ⟨_, rfl⟩
  | fromPts p q =>
    right
    simp only [step]
    split
    · rename_i ho
      rcases hd p p q ho.1 with h | h
      · exact .inl h
      · exact .inr (.inr (.inl h))
    · exact .inl ⟨_, rfl⟩
  | add l v =>
    right
    rcases hs (fun a b => ⟨a.x + b.x, a.y + b.y⟩) l v with h | h
    · exact .inl h
    · exact .inr (.inr (.inr h))
  | sub l v =>
    right
    rcases hs (fun a b => ⟨a.x - b.x, a.y - b.y⟩) l v with h | h
    · exact .inl h
    · exact .inr (.inr (.inr h))

theorem step_inv {s : St K} (hs : Inv s) (op : LOp K) : Inv (step s op).1 := by
  obtain ⟨hw, hl⟩ := hs
  rcases step_cases s op with ⟨o, -, e⟩ | ⟨e, e'⟩ | ⟨o, d, ho, hd, e⟩ | ⟨o, x, y, ho, e⟩ | ⟨l, o, d, x, y, hld, e⟩
  · rw [e]
    exact ⟨step_wf hw o, fun l h => ⟨isBasePoint_step (hl l h).1, isVector_step (hl l h).2⟩⟩
  · rw [e']; exact ⟨hw, hl⟩
  · rw [e]
    refine ⟨hw, fun l h => ?_⟩
    rcases List.mem_append.1 h with h | h
    · exact hl l h
    · rw [List.mem_singleton.1 h]; exact ⟨ho, hd⟩
  · rw [e]
    refine ⟨wf_append1 hw trivial, fun l h => ?_⟩
    rcases List.mem_append.1 h with h | h
    · exact ⟨isBasePoint_append (hl l h).1, isVector_append (hl l h).2⟩
    · rw [List.mem_singleton.1 h]; exact ⟨isBasePoint_append ho, by simp [isVector]⟩
  · rw [e]
    refine ⟨wf_append1 hw trivial, fun l' h => ?_⟩
    rcases List.mem_append.1 h with h | h
    · exact ⟨isBasePoint_append (hl l' h).1, isVector_append (hl l' h).2⟩
    · rw [List.mem_singleton.1 h]; exact ⟨by simp [isBasePoint], isVector_append (hl _ (List.mem_of_getElem? hld)).2⟩

theorem run_inv {s : St K} (hs : Inv s) (ops : List (LOp K)) : Inv (run s ops) := by
  induction ops generalizing s with
  | nil => exact hs
  | cons o os ih => exact ih (step_inv hs o)

theorem inv_init : Inv (init : St K) := ⟨wf_nil, by simp [init]⟩

/-- Lines are never changed or lost, and objects that no call changes stay. -/
theorem step_keeps (s : St K) (op : LOp K) :
    (∀ l < s.ls.length, (step s op).1.ls[l]? = s.ls[l]? ∧ l < (step s op).1.ls.length) ∧
    (∀ k < s.h.length, k < (step s op).1.h.length ∧ (¬ Changes k op → (step s op).1.h[k]? = s.h[k]?)) ∧
    (∀ (k : ℕ) (o : PObj K), s.h[k]? = some o → ∃ o', (step s op).1.h[k]? = some o' ∧ sameClass o o') := by
  have ha : ∀ (x : PObj K) k, k < s.h.length → k < (s.h ++ [x]).length ∧ (s.h ++ [x])[k]? = s.h[k]? :=
    fun x k hk => ⟨by simp; omega, List.getElem?_append_left hk⟩
  have hb : ∀ (x : ℕ × ℕ) l, l < s.ls.length → (s.ls ++ [x])[l]? = s.ls[l]? ∧ l < (s.ls ++ [x]).length :=
    fun x k hk => ⟨List.getElem?_append_left hk, by simp; omega⟩
  have hc : ∀ (x : PObj K) (k : ℕ) (o : PObj K), s.h[k]? = some o → ∃ o', (s.h ++ [x])[k]? = some o' ∧ sameClass o o' :=
    fun x k o hk => ⟨o, by rw [List.getElem?_append_left (List.getElem?_eq_some_iff.1 hk).1, hk], sameClass_refl o⟩
  rcases step_cases s op with ⟨o, rfl, e⟩ | ⟨e, e'⟩ | ⟨o, d, ho, hd, e⟩ | ⟨o, x, y, ho, e⟩ | ⟨l, o, d, x, y, hld, e⟩
  · rw [e]
    refine ⟨fun l hl => ⟨rfl, hl⟩, fun k hk => ⟨?_, fun hn => (step_get hk o hn).1⟩, fun k x hk => class_get hk⟩
    obtain ⟨o', h1, -⟩ := class_get (op := o) (List.getElem?_eq_getElem hk)
    exact (List.getElem?_eq_some_iff.1 h1).1
  · rw [e']; exact ⟨fun l hl => ⟨rfl, hl⟩, fun k hk => ⟨hk, fun _ => rfl⟩, fun k o hk => ⟨o, hk, sameClass_refl o⟩⟩
  · rw [e]; exact ⟨hb _, fun k hk => ⟨hk, fun _ => rfl⟩, fun k o hk => ⟨o, hk, sameClass_refl o⟩⟩
  · rw [e]; exact ⟨hb _, fun k hk => ⟨(ha _ k hk).1, fun _ => (ha _ k hk).2⟩, hc _⟩
  · rw [e]; exact ⟨hb _, fun k hk => ⟨(ha _ k hk).1, fun _ => (ha _ k hk).2⟩, hc _⟩

theorem run_line (s : St K) (ops : List (LOp K)) (l : ℕ) (hl : l < s.ls.length) : (run s ops).ls[l]? = s.ls[l]? := by
  induction ops generalizing s with
  | nil => rfl
  | cons o os ih =>
    have := (step_keeps s o).1 l hl
    show (run (step s o).1 os).ls[l]? = _
    rw [ih _ this.2, this.1]

theorem run_obj (s : St K) (ops : List (LOp K)) (k : ℕ) (hk : k < s.h.length) (hm : ∀ op ∈ ops, ¬ Changes k op) : (run s ops).h[k]? = s.h[k]? := by
  induction ops generalizing s with
  | nil => rfl
  | cons o os ih =>
    have := (step_keeps s o).2.1 k hk
    show (run (step s o).1 os).h[k]? = _
    rw [ih _ this.1 (fun op h => hm op (by simp [h])), this.2 (hm o (by simp))]

theorem run_vecRel (s : St K) (ops : List (LOp K)) (k p q : ℕ) (hk : s.h[k]? = some (.vecRel p q)) : (run s ops).h[k]? = some (.vecRel p q) := by
  induction ops generalizing s with
  | nil => exact hk
  | cons o os ih =>
    refine ih (step s o).1 ?_
    obtain ⟨o', h1, h2⟩ := (step_keeps s o).2.2 k _ hk
    cases o' <;> simp_all [sameClass]

theorem readsVec_iff {h : Heap K} (hw : WF h) (d : ℕ) (hd : isVector h d) (v : Vec K) : xy h d = .ok ⟨v.x, v.y⟩ ↔ ReadsVec h d v := by
  unfold isVector at hd
  cases ho : h[d]? with
  | none => rw [ho] at hd; simp at hd
  | some o =>
    rw [ho] at hd
    cases o <;> simp at hd
    case vec x y =>
      have : xy h d = .ok ⟨x, y⟩ := by rw [xy, ho]
      rw [this]
      constructor
      · intro e
        injection e with e
        injection e with e1 e2
        obtain ⟨vx, vy⟩ := v
        simp only at e1 e2
        subst e1 e2
        exact .vec ho
      · rintro (h1 | h1)
        · rw [ho] at h1; cases h1; rfl
        · rw [ho] at h1; cases h1
    case vecRel p q =>
      have w := hw d _ ho
      rw [xy_vecRel ho w.1 w.2.1]
      constructor
      · intro e
        cases hp : xy h p with
        | error e' => rw [hp] at e; simp at e
        | ok a =>
          cases hq : xy h q with
          | error e' => rw [hp, hq] at e; simp at e
          | ok b =>
            rw [hp, hq] at e
            have e : (Except.ok (⟨a.x - b.x, a.y - b.y⟩ : Pt K) : Except PyErr (Pt K)) = .ok ⟨v.x, v.y⟩ := e
            injection e with e
            injection e with e1 e2
            obtain ⟨vx, vy⟩ := v
            simp only at e1 e2
            subst e1 e2
            exact .rel ho ((reads_iff hw p w.2.2.1 a).1 hp) ((reads_iff hw q w.2.2.2 b).1 hq)
      · rintro (h1 | h1)
        · rw [ho] at h1; cases h1
        · rename_i p' q' a b ha hb
          rw [ho] at h1
          cases h1
          rw [(reads_iff hw p w.2.2.1 a).2 ha, (reads_iff hw q w.2.2.2 b).2 hb]

theorem value_iff {s : St K} (hs : Inv s) (l o d : ℕ) (hl : s.ls[l]? = some (o, d)) (L : Line K) :
    value s l = .ok L ↔ Reads s.h o L.origin ∧ ReadsVec s.h d L.direction := by
  have hi := hs.2 _ (List.mem_of_getElem? hl)
  rw [← reads_iff hs.1 o hi.1, ← readsVec_iff hs.1 d hi.2]
  simp only [value, hl]
  cases xy s.h o with
  | error e => simp
  | ok a =>
    cases xy s.h d with
    | error e => simp
    | ok b =>
      obtain ⟨a', ⟨b1, b2⟩⟩ := L
      obtain ⟨c1, c2⟩ := b
      simp

/-- C95: at every point of every history a line reads as its origin object and its direction object read at that time. -/
theorem C95_reads (ops : List (LOp K)) (l o d : ℕ) (hl : (run init ops).ls[l]? = some (o, d)) (L : Line K) :
    value (run init ops) l = .ok L ↔ Reads (run init ops).h o L.origin ∧ ReadsVec (run init ops).h d L.direction :=
  value_iff (run_inv inv_init ops) l o d hl L

/-- C95: a line made of two points, `Line(p, q)` or `Line.from_pts(p, q)`, keeps as its direction the difference at that time; its origin
is the point `p` itself. So after any further calls (none of which writes to that direction) it starts where `p` is then, and neither the
later moves of `q` nor those of `p` change its direction. -/
theorem C95_points (ops later : List (LOp K)) (p q : ℕ) (a b : Pt K) (op : LOp K) (hop : op = .mk p q ∨ op = .fromPts p q)
    (hp : isBasePoint (run init ops).h p) (hq : isBasePoint (run init ops).h q) (ha : Reads (run init ops).h p a) (hb : Reads (run init ops).h q b)
    (hm : ∀ x ∈ later, ¬ Changes (run init ops).h.length x) :
    (step (run init ops) op).2 = none ∧ p1 (step (run init ops) op).1 (run init ops).ls.length = some p ∧
    ∀ c, value (run (step (run init ops) op).1 later) (run init ops).ls.length = .ok ⟨c, b.sub a⟩ ↔
      Reads (run (step (run init ops) op).1 later).h p c := by
  have hi := run_inv (inv_init (K := K)) ops
  generalize run init ops = s at *
  have hv : isVector s.h q = false := by
    unfold isBasePoint at hq
    unfold isVector
    cases ho : s.h[q]? with
    | none => rfl
    | some o => rw [ho] at hq; cases o <;> simp_all
  have he : step s op = (⟨s.h ++ [.vec (b.x - a.x) (b.y - a.y)], s.ls ++ [(p, s.h.length)]⟩, none) := by
    have hd : lineOfDiff s p p q = (⟨s.h ++ [.vec (b.x - a.x) (b.y - a.y)], s.ls ++ [(p, s.h.length)]⟩, none) := by
      simp only [lineOfDiff, (reads_iff hi.1 p hp a).2 ha, (reads_iff hi.1 q hq b).2 hb]
    rcases hop with rfl | rfl
    · simp only [step, hp, hv, hq, if_true, Bool.false_eq_true, if_false, hd]
    · simp only [step, hp, hq, and_self, if_true, hd]
  have hi' := step_inv hi op
  rw [he] at hi' ⊢
  refine ⟨rfl, by simp [p1], fun c => ?_⟩
  have hl := run_line ⟨s.h ++ [.vec (b.x - a.x) (b.y - a.y)], s.ls ++ [(p, s.h.length)]⟩ later s.ls.length (by simp)
  have ho := run_obj ⟨s.h ++ [.vec (b.x - a.x) (b.y - a.y)], s.ls ++ [(p, s.h.length)]⟩ later s.h.length (by simp) hm
  simp only [List.getElem?_concat_length] at hl ho
  rw [value_iff (run_inv hi' later) _ _ _ hl]
  exact ⟨fun h => h.1, fun h => ⟨h, .vec ho⟩⟩

/-- C95: a line from `p` along a relative vector from `p` to `q` follows both points: after any further calls it starts where `p` is then
and ends where `q` is then. -/
theorem C95_follows (ops later : List (LOp K)) (p q v : ℕ) (hp : isBasePoint (run init ops).h p) (hv : (run init ops).h[v]? = some (.vecRel q p))
    (a b : Pt K) (ha : Reads (run (step (run init ops) (.mk p v)).1 later).h p a) (hb : Reads (run (step (run init ops) (.mk p v)).1 later).h q b) :
    ∃ L : Line K, value (run (step (run init ops) (.mk p v)).1 later) (run init ops).ls.length = .ok L ∧ L.origin = a ∧ L.p2 = b := by
  have hi := run_inv (inv_init (K := K)) ops
  generalize run init ops = s at *
  have he : step s (.mk p v) = (⟨s.h, s.ls ++ [(p, v)]⟩, none) := by
    simp only [step, hp, isVector, hv, if_true]
  have hi' := step_inv hi (.mk p v)
  rw [he] at hi' ha hb ⊢
  have hl := run_line ⟨s.h, s.ls ++ [(p, v)]⟩ later s.ls.length (by simp)
  simp only [List.getElem?_concat_length] at hl
  have ho := run_vecRel ⟨s.h, s.ls ++ [(p, v)]⟩ later v q p hv
  refine ⟨⟨a, ⟨b.x - a.x, b.y - a.y⟩⟩, (value_iff (run_inv hi' later) _ _ _ hl _).2 ⟨ha, .rel ho hb ha⟩, rfl, ?_⟩
  obtain ⟨b1, b2⟩ := b
  simp [Line.p2, Pt.addVector]

/-- C95: `l + v` and `l - v` are the shifted line: a new origin, so that no later change of the origin of `l` moves them; but the direction
is that of `l` at all times, also after it is changed. -/
theorem C95_shift (ops later : List (LOp K)) (l v : ℕ) (L : Line K) (V : Vec K) (hL : value (run init ops) l = .ok L)
    (hv : isVector (run init ops).h v) (hV : ReadsVec (run init ops).h v V) (hm : ∀ x ∈ later, ¬ Changes (run init ops).h.length x)
    (op : LOp K) (f : Line K → Vec K → Line K) (hop : (op = .add l v ∧ f = Line.add) ∨ (op = .sub l v ∧ f = Line.sub)) :
    (step (run init ops) op).2 = none ∧ value (step (run init ops) op).1 (run init ops).ls.length = .ok (f L V) ∧
    ∀ L', value (run (step (run init ops) op).1 later) l = .ok L' →
      value (run (step (run init ops) op).1 later) (run init ops).ls.length = .ok ⟨(f L V).origin, L'.direction⟩ := by
  have hi := run_inv (inv_init (K := K)) ops
  generalize run init ops = s at *
  cases hl : s.ls[l]? with
  | none => rw [value, hl] at hL; cases hL
  | some od =>
    obtain ⟨o, d⟩ := od
    have hll : l < s.ls.length := (List.getElem?_eq_some_iff.1 hl).1
    obtain ⟨hLo, hLd⟩ := (value_iff hi l o d hl L).1 hL
    have hlc := hi.2 _ (List.mem_of_getElem? hl)
    have hxo := (reads_iff hi.1 o hlc.1 _).2 hLo
    have hxv := (readsVec_iff hi.1 v hv V).2 hV
    have he : step s op = (⟨s.h ++ [.point (f L V).origin.x (f L V).origin.y none], s.ls ++ [(s.h.length, d)]⟩, none) := by
      rcases hop with ⟨rfl, rfl⟩ | ⟨rfl, rfl⟩
      · simp only [step, shifted, hl, hv, if_true, hxo, hxv]; rfl
      · simp only [step, shifted, hl, hv, if_true, hxo, hxv]; rfl
    have hdir : (f L V).direction = L.direction := by
      rcases hop with ⟨rfl, rfl⟩ | ⟨rfl, rfl⟩ <;> rfl
    have hi' := step_inv hi op
    rw [he] at hi' ⊢
    have key : ∀ later' : List (LOp K), (∀ x ∈ later', ¬ Changes s.h.length x) → ∀ L',
        value (run ⟨s.h ++ [.point (f L V).origin.x (f L V).origin.y none], s.ls ++ [(s.h.length, d)]⟩ later') l = .ok L' →
        value (run ⟨s.h ++ [.point (f L V).origin.x (f L V).origin.y none], s.ls ++ [(s.h.length, d)]⟩ later') s.ls.length =
          .ok ⟨(f L V).origin, L'.direction⟩ := by
      intro later' hm' L' hL'
      have hl1 := run_line ⟨s.h ++ [.point (f L V).origin.x (f L V).origin.y none], s.ls ++ [(s.h.length, d)]⟩ later' s.ls.length (by simp)
      have hl2 := run_line ⟨s.h ++ [.point (f L V).origin.x (f L V).origin.y none], s.ls ++ [(s.h.length, d)]⟩ later' l (by simp; omega)
      have ho := run_obj ⟨s.h ++ [.point (f L V).origin.x (f L V).origin.y none], s.ls ++ [(s.h.length, d)]⟩ later' s.h.length (by simp) hm'
      simp only [List.getElem?_concat_length] at hl1 ho
      simp only [List.getElem?_append_left hll, hl] at hl2
      rw [value_iff (run_inv hi' later') _ _ _ hl1]
      rw [value_iff (run_inv hi' later') _ _ _ hl2] at hL'
      exact ⟨.point ho, hL'.2⟩
    refine ⟨rfl, ?_, key later hm⟩
    have h0 := key [] (by simp) L ?_
    · rw [← hdir] at h0; exact h0
    · have hl2 : (s.ls ++ [(s.h.length, d)])[l]? = some (o, d) := by rw [List.getElem?_append_left hll, hl]
      show value ⟨s.h ++ [.point (f L V).origin.x (f L V).origin.y none], s.ls ++ [(s.h.length, d)]⟩ l = .ok L
      rw [← hL]
      simp only [value, hl2, hl, xy_append (lt_of_isBasePoint hlc.1), xy_append (lt_of_isVector hlc.2)]

/-- C95: making a line changes no point, vector or line. -/
theorem C95_frame (ops : List (LOp K)) (op : LOp K) (hop : ∀ o, op ≠ .pt o) :
    (∀ k < (run init ops).h.length, xy (step (run init ops) op).1.h k = xy (run init ops).h k) ∧
    ∀ l < (run init ops).ls.length, value (step (run init ops) op).1 l = value (run init ops) l := by
  have hi := run_inv (inv_init (K := K)) ops
  generalize run init ops = s at *
  have hx : ∀ k < s.h.length, xy (step s op).1.h k = xy s.h k := by
    intro k hk
    refine xy_agree k fun j hj => ?_
    refine ((step_keeps s op).2.1 j (lt_of_le_of_lt hj hk)).2 ?_
    cases op <;> first | exact absurd rfl (hop _) | exact id
  refine ⟨hx, fun l hl => ?_⟩
  obtain ⟨od, hod⟩ : ∃ od, s.ls[l]? = some od := ⟨_, List.getElem?_eq_getElem hl⟩
  obtain ⟨o, d⟩ := od
  have hlc := hi.2 _ (List.mem_of_getElem? hod)
  simp only [value, ((step_keeps s op).1 l hl).1, hod, hx _ (lt_of_isBasePoint hlc.1), hx _ (lt_of_isVector hlc.2)]

theorem eqObj_xy {h : Heap K} (hw : WF h) : ∀ i j, eqObj h i j → xy h i = xy h j := by
  intro i
  induction i using Nat.strong_induction_on with
  | _ i ih =>
    intro j he
    rw [eqObj] at he
    cases hi : h[i]? with
    | none => rw [hi] at he; simp at he
    | some o =>
      cases hj : h[j]? with
      | none => rw [hi, hj] at he; cases o <;> simp at he
      | some o' =>
        rw [hi, hj] at he
        have w := hw i o hi
        have w' := hw j o' hj
        cases o <;> cases o' <;> simp only at he <;> try exact he.elim
        case point =>
          obtain ⟨-, rfl, rfl⟩ := he
          rw [xy_point hi, xy_point hj]
        case vec =>
          obtain ⟨rfl, rfl⟩ := he
          rw [xy, hi, xy, hj]
        case rel =>
          obtain ⟨-, rfl, rfl, he⟩ := he
          rw [dif_pos w.1] at he
          rw [xy_rel hi w.1, xy_rel hj w'.1, ih _ w.1 _ he]
        case pcalc b s n b' s' n' =>
          obtain ⟨-, rfl, he⟩ := he
          rw [dif_pos w.1] at he
          rw [eqObj] at he
          have hb := w.2
          have hb' := w'.2
          unfold hasBase at hb hb'
          cases hbo : h[b]? with
          | none => rw [hbo] at hb; simp at hb
          | some r =>
            cases hbo' : h[b']? with
            | none => rw [hbo'] at hb'; simp at hb'
            | some r' =>
              rw [hbo, hbo'] at he
              have v := hw b r hbo
              have v' := hw b' r' hbo'
              rw [hbo] at hb
              rw [hbo'] at hb'
              cases r <;> simp only [Bool.false_eq_true] at hb <;> cases r' <;> simp only [Bool.false_eq_true] at hb' he
              · obtain ⟨-, rfl, rfl, he⟩ := he
                rw [dif_pos v.1] at he
                rw [xy_calc_rel hi w.1 hbo (v.1.trans w.1), xy_calc_rel hj w'.1 hbo' (v'.1.trans w'.1), ih _ (v.1.trans w.1) _ he]
              · obtain ⟨-, rfl, he⟩ := he
                rw [dif_pos v.1] at he
                rw [xy_calc_calc hi w.1 hbo (v.1.trans w.1), xy_calc_calc hj w'.1 hbo' (v'.1.trans w'.1), ih _ (v.1.trans w.1) _ he]
        case vecRel =>
          rw [dif_pos w.1, dif_pos w.2.1] at he
          rw [xy_vecRel hi w.1 w.2.1, xy_vecRel hj w'.1 w'.2.1, ih _ w.1 _ he.1, ih _ w.2.1 _ he.2]

/-- C95: a line equals itself, and equal lines read alike, at every point of every history. -/
theorem C95_equal (ops : List (LOp K)) (l m : ℕ) :
    (l < (run init ops).ls.length → eqLine (run init ops) l l) ∧
    (eqLine (run init ops) l m → value (run init ops) l = value (run init ops) m) := by
  have hi := run_inv (inv_init (K := K)) ops
  generalize run init ops = s at *
  constructor
  · intro hl
    obtain ⟨od, hod⟩ : ∃ od, s.ls[l]? = some od := ⟨_, List.getElem?_eq_getElem hl⟩
    have hlc := hi.2 _ (List.mem_of_getElem? hod)
    simp only [eqLine, hod]
    exact ⟨eqObj_refl hi.1 _ (lt_of_isBasePoint hlc.1), eqObj_refl hi.1 _ (lt_of_isVector hlc.2)⟩
  · intro he
    unfold eqLine at he
    cases hl : s.ls[l]? with
    | none => rw [hl] at he; simp at he
    | some a =>
      cases hm : s.ls[m]? with
      | none => rw [hl, hm] at he; simp at he
      | some b =>
        rw [hl, hm] at he
        obtain ⟨o, d⟩ := a
        obtain ⟨o', d'⟩ := b
        simp only [value, hl, hm, eqObj_xy hi.1 _ _ he.1, eqObj_xy hi.1 _ _ he.2]

/-- Two points and the line between them. -/
abbrev two : List (LOp ℚ) := [.pt (.mkPoint 0 0 none), .pt (.mkPoint 1 0 none), .mk 0 1]

theorem xy_vec {h : Heap K} {i : ℕ} {x y : K} (hi : h[i]? = some (.vec x y)) : xy h i = .ok ⟨x, y⟩ := by rw [xy, hi]

theorem run_two : run init two = ⟨[.point 0 0 none, .point 1 0 none, .vec 1 0], [(0, 2)]⟩ := by
  have h0 : xy ([.point 0 0 none, .point 1 0 none] : Heap ℚ) 0 = .ok ⟨0, 0⟩ := xy_point (n := none) rfl
  have h1 : xy ([.point 0 0 none, .point 1 0 none] : Heap ℚ) 1 = .ok ⟨1, 0⟩ := xy_point (n := none) rfl
  show (lineOfDiff (⟨[.point 0 0 none, .point 1 0 none], []⟩ : St ℚ) 0 0 1).1 = _
  simp [lineOfDiff, h0, h1]

theorem run_append (s : St K) (a b : List (LOp K)) : run s (a ++ b) = run (run s a) b := List.foldl_append

/-- C95: the end of the line between two points is not the second point any more once the first has moved. -/
theorem C95_end_counterexample :
    let s := run init (two ++ [.pt (.setXY 0 5 5)])
    Reads s.h 1 ⟨1, 0⟩ ∧ ∃ L, value s 0 = .ok L ∧ L.origin = ⟨5, 5⟩ ∧ L.p2 = ⟨6, 5⟩ := by
  have e : run init (two ++ [.pt (.setXY 0 5 5)]) = ⟨[.point 5 5 none, .point 1 0 none, .vec 1 0], [(0, 2)]⟩ := by
    rw [run_append, run_two]; rfl
  simp only [e]
  refine ⟨.point (n := none) rfl, ⟨⟨5, 5⟩, ⟨1, 0⟩⟩, ?_, rfl, ?_⟩
  · simp [value, xy_point (h := ([.point 5 5 none, .point 1 0 none, .vec 1 0] : Heap ℚ)) (i := 0) (n := none) rfl,
      xy_vec (h := ([.point 5 5 none, .point 1 0 none, .vec 1 0] : Heap ℚ)) (i := 2) rfl]
  · norm_num [Line.p2, Pt.addVector]

/-- C95: the shifted line is not independent of the line: writing to the direction of one turns the other. -/
theorem C95_alias_counterexample :
    let ops : List (LOp ℚ) := two ++ [.pt (.mkVec 0 7), .add 0 3]
    value (run init ops) 1 = .ok ⟨⟨0, 7⟩, ⟨1, 0⟩⟩ ∧ value (run init (ops ++ [.pt (.setXY 2 0 1)])) 1 = .ok ⟨⟨0, 7⟩, ⟨0, 1⟩⟩ := by
  have e : run init (two ++ [.pt (.mkVec 0 7), .add 0 3]) =
      ⟨[.point 0 0 none, .point 1 0 none, .vec 1 0, .vec 0 7, .point 0 7 none], [(0, 2), (4, 2)]⟩ := by
    rw [run_append, run_two]
    show (shifted (⟨[.point 0 0 none, .point 1 0 none, .vec 1 0, .vec 0 7], [(0, 2)]⟩ : St ℚ) (fun a b => ⟨a.x + b.x, a.y + b.y⟩) 0 3).1 = _
    have h0 : xy ([.point 0 0 none, .point 1 0 none, .vec 1 0, .vec 0 7] : Heap ℚ) 0 = .ok ⟨0, 0⟩ := xy_point (n := none) rfl
    have h3 : xy ([.point 0 0 none, .point 1 0 none, .vec 1 0, .vec 0 7] : Heap ℚ) 3 = .ok ⟨0, 7⟩ := xy_vec rfl
    simp [shifted, h0, h3, isVector]
  intro ops
  constructor
  · simp only [ops, e]
    simp [value, xy_point (h := ([.point 0 0 none, .point 1 0 none, .vec 1 0, .vec 0 7, .point 0 7 none] : Heap ℚ)) (i := 4) (n := none) rfl,
      xy_vec (h := ([.point 0 0 none, .point 1 0 none, .vec 1 0, .vec 0 7, .point 0 7 none] : Heap ℚ)) (i := 2) rfl]
  · rw [run_append]
    simp only [ops, e]
    show value (⟨[.point 0 0 none, .point 1 0 none, .vec 0 1, .vec 0 7, .point 0 7 none], [(0, 2), (4, 2)]⟩ : St ℚ) 1 = _
    simp [value, xy_point (h := ([.point 0 0 none, .point 1 0 none, .vec 0 1, .vec 0 7, .point 0 7 none] : Heap ℚ)) (i := 4) (n := none) rfl,
      xy_vec (h := ([.point 0 0 none, .point 1 0 none, .vec 0 1, .vec 0 7, .point 0 7 none] : Heap ℚ)) (i := 2) rfl]

/-- C95: lines that read alike need not be equal: a line along a relative vector is not equal to the line along the vector it reads as. -/
theorem C95_equal_counterexample :
    let s := run init (two ++ [.pt (.mkVecRel 1 0), .mk 0 3])
    value s 0 = value s 1 ∧ ¬ eqLine s 0 1 := by
  have e : run init (two ++ [.pt (.mkVecRel 1 0), .mk 0 3]) = ⟨[.point 0 0 none, .point 1 0 none, .vec 1 0, .vecRel 1 0], [(0, 2), (0, 3)]⟩ := by
    rw [run_append, run_two]; rfl
  simp only [e]
  have h0 : xy ([.point 0 0 none, .point 1 0 none, .vec 1 0, .vecRel 1 0] : Heap ℚ) 0 = .ok ⟨0, 0⟩ := xy_point (n := none) rfl
  have h1 : xy ([.point 0 0 none, .point 1 0 none, .vec 1 0, .vecRel 1 0] : Heap ℚ) 1 = .ok ⟨1, 0⟩ := xy_point (n := none) rfl
  have h2 : xy ([.point 0 0 none, .point 1 0 none, .vec 1 0, .vecRel 1 0] : Heap ℚ) 2 = .ok ⟨1, 0⟩ := xy_vec rfl
  have h3 : xy ([.point 0 0 none, .point 1 0 none, .vec 1 0, .vecRel 1 0] : Heap ℚ) 3 = .ok ⟨1, 0⟩ := by
    rw [xy_vecRel (p := 1) (q := 0) rfl (by norm_num) (by norm_num), h0, h1]; norm_num
  constructor
  · simp [value, h0, h2, h3]
  · simp [eqLine]
    intro _
    rw [eqObj]
    simp

/-- The hypotheses of `C95_points` and `C95_follows` are met. -/
example : isBasePoint (run init (two ++ [.pt (.mkVecRel 1 0)])).h 0 ∧ (run init (two ++ [.pt (.mkVecRel 1 0)])).h[3]? = some (.vecRel 1 0) ∧
    Reads (run init (two ++ [.pt (.mkVecRel 1 0)])).h 0 ⟨0, 0⟩ ∧ Reads (run init (two ++ [.pt (.mkVecRel 1 0)])).h 1 ⟨1, 0⟩ := by
  have e : run init (two ++ [.pt (.mkVecRel 1 0)]) = ⟨[.point 0 0 none, .point 1 0 none, .vec 1 0, .vecRel 1 0], [(0, 2)]⟩ := by
    rw [run_append, run_two]; rfl
  rw [e]
  exact ⟨rfl, rfl, .point (n := none) rfl, .point (n := none) rfl⟩

end X7.LH
