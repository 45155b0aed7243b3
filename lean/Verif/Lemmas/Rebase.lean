import Mathlib.Tactic.Ring
import Mathlib.Tactic.LinearCombination
import Verif.Spec.Rebase
import Verif.Lemmas.PointHeap
import Verif.Lemmas.GroupHeap

namespace X7.RB
open X7.PH Relation
set_option linter.unusedSectionVars false
variable {K : Type*} [Field K]

theorem base_unique {h : Heap K} {i b c : ℕ} (h1 : Base h i b) (h2 : Base h i c) : b = c := by
  rcases h1 with ⟨dx, dy, n, h1⟩ | ⟨s, n, h1⟩ <;> rcases h2 with ⟨dx', dy', n', h2⟩ | ⟨s', n', h2⟩ <;>
    rw [h1] at h2 <;> simp_all

theorem hangs_step {h : Heap K} {i b j : ℕ} (h1 : Base h i b) (h2 : Hangs h i j) (hne : i ≠ j) : Hangs h b j := by
  rcases ReflTransGen.cases_head h2 with h3 | ⟨c, h3, h4⟩
  · exact absurd h3 hne
  · rwa [base_unique h1 h3]

theorem hangs_iff {h : Heap K} {i b j : ℕ} (h1 : Base h i b) (hne : i ≠ j) : Hangs h i j ↔ Hangs h b j :=
  ⟨fun h2 => hangs_step h1 h2 hne, fun h2 => .head h1 h2⟩

theorem looping_base {h : Heap K} {i : ℕ} (hl : Looping h i) : ∃ b, Base h i b ∧ Looping h b := by
  obtain ⟨j, h1, h2⟩ := hl
  rcases ReflTransGen.cases_head h1 with rfl | ⟨b, h3, h4⟩
  · obtain ⟨b, h3, h4⟩ := TransGen.head'_iff.1 h2
    exact ⟨b, h3, i, h4, h2⟩
  · exact ⟨b, h3, j, h4, h2⟩

theorem looping_of_base {h : Heap K} {i b : ℕ} (h1 : Base h i b) (hl : Looping h b) : Looping h i := by
  obtain ⟨j, h2, h3⟩ := hl
  exact ⟨j, .head h1 h2, h3⟩

theorem xyN_looping {h : Heap K} {n i : ℕ} (hl : Looping h i) : xyN h n i = .error .recursion := by
  induction n generalizing i with
  | zero => rfl
  | succ n ih =>
    obtain ⟨b, hb, hlb⟩ := looping_base hl
    rcases hb with ⟨dx, dy, m, hb⟩ | ⟨s, m, hb⟩
    · simp [xyN, hb, ih hlb]
    · obtain ⟨c, hc, hlc⟩ := looping_base hlb
      rcases hc with ⟨dx, dy, m', hc⟩ | ⟨s', m', hc⟩
      · simp [xyN, hb, hc, ih hlc]
      · simp [xyN, hb, hc, ih hlc]

theorem reads_of_xyN {h : Heap K} {n i : ℕ} {p : Pt K} (hb : isBasePoint h i) (hok : ∀ i b, Base h i b → isBasePoint h b)
    (hx : xyN h n i = .ok p) : Reads h i p := by
  induction n generalizing i p with
  | zero => cases hx
  | succ n ih =>
    simp only [isBasePoint] at hb
    simp only [xyN] at hx
    split at hb
    · rename_i x y m h1
      simp only [h1] at hx
      cases hx
      exact .point h1
    · rename_i dx dy b m h1
      simp only [h1] at hx
      split at hx
      · rename_i q hq
        cases hx
        have := Reads.rel h1 (ih (hok i b (.inl ⟨_, _, _, h1⟩)) hq)
        rwa [add_comm, add_comm q.y] at this
      · cases hx
    · rename_i r s m h1
      simp only [h1] at hx
      split at hx
      · rename_i dx dy b m' h2
        split at hx
        · rename_i q hq
          cases hx
          have := Reads.pcalc h1 h2 (ih (hok r b (.inl ⟨_, _, _, h2⟩)) hq)
          rwa [add_comm, add_comm q.y] at this
        · cases hx
      · split at hx <;> cases hx
      · cases hx
    · cases hb

/-- What reading a point comes to, once the depth is at least `n`. -/
def Settled (h : Heap K) (n i : ℕ) : Prop :=
  (∃ p, Reads h i p ∧ ∀ m, n ≤ m → xyN h m i = .ok p) ∨ (Misfit h i ∧ ∀ m, n ≤ m → xyN h m i = .error .attribute)

theorem settled_mono {h : Heap K} {n i : ℕ} (hs : Settled h n i) : Settled h (n + 1) i := by
  rcases hs with ⟨p, h1, h2⟩ | ⟨h1, h2⟩
  · exact .inl ⟨p, h1, fun m hm => h2 m (by omega)⟩
  · exact .inr ⟨h1, fun m hm => h2 m (by omega)⟩

theorem misfit_of_base {h : Heap K} {i b : ℕ} (h1 : Base h i b) (hm : Misfit h b) : Misfit h i := by
  obtain ⟨j, r, s, n, h2, h3⟩ := hm
  exact ⟨j, r, s, n, .head h1 h2, h3⟩

theorem settled_step {h : Heap K} {n i : ℕ} (hi : isBasePoint h i) (hd : ∀ j, TransGen (Base h) i j → Settled h n j) :
    Settled h (n + 1) i := by
  simp only [isBasePoint] at hi
  split at hi
  · rename_i x y m h1
    exact .inl ⟨_, .point h1, fun m hm => by obtain ⟨m, rfl⟩ : ∃ k, m = k + 1 := ⟨m - 1, by omega⟩
                                             simp [xyN, h1]⟩
  · rename_i dx dy b m h1
    have hb : Base h i b := .inl ⟨_, _, _, h1⟩
    rcases hd b (.single hb) with ⟨p, h2, h3⟩ | ⟨h2, h3⟩
    · refine .inl ⟨_, .rel h1 h2, fun m hm => ?_⟩
      obtain ⟨m, rfl⟩ : ∃ k, m = k + 1 := ⟨m - 1, by omega⟩
      simp [xyN, h1, h3 m (by omega), add_comm]
    · refine .inr ⟨misfit_of_base hb h2, fun m hm => ?_⟩
      obtain ⟨m, rfl⟩ : ∃ k, m = k + 1 := ⟨m - 1, by omega⟩
      simp [xyN, h1, h3 m (by omega)]
  · rename_i r s m h1
    have hr : Base h i r := .inr ⟨_, _, h1⟩
    cases h2 : h[r]? with
    | none =>
      refine .inr ⟨⟨i, r, s, m, .refl, h1, by simp [h2]⟩, fun m hm => ?_⟩
      obtain ⟨m, rfl⟩ : ∃ k, m = k + 1 := ⟨m - 1, by omega⟩
      simp [xyN, h1, h2]
    | some o =>
      cases o with
      | rel dx dy b m' =>
        have hb : Base h r b := .inl ⟨_, _, _, h2⟩
        rcases hd b (.tail (.single hr) hb) with ⟨p, h4, h3⟩ | ⟨h4, h3⟩
        · refine .inl ⟨_, .pcalc h1 h2 h4, fun m hm => ?_⟩
          obtain ⟨m, rfl⟩ : ∃ k, m = k + 1 := ⟨m - 1, by omega⟩
          simp [xyN, h1, h2, h3 m (by omega), add_comm]
        · refine .inr ⟨misfit_of_base hr (misfit_of_base hb h4), fun m hm => ?_⟩
          obtain ⟨m, rfl⟩ : ∃ k, m = k + 1 := ⟨m - 1, by omega⟩
          simp [xyN, h1, h2, h3 m (by omega)]
      | pcalc b s' m' =>
        have hb : Base h r b := .inr ⟨_, _, h2⟩
        refine .inr ⟨⟨i, r, s, m, .refl, h1, by simp [h2]⟩, fun m hm => ?_⟩
        obtain ⟨m, rfl⟩ : ∃ k, m = k + 1 := ⟨m - 1, by omega⟩
        rcases hd b (.tail (.single hr) hb) with ⟨p, h4, h3⟩ | ⟨h4, h3⟩ <;>
          simp [xyN, h1, h2, h3 m (by omega)]
      | point x y m' =>
        refine .inr ⟨⟨i, r, s, m, .refl, h1, by simp [h2]⟩, fun m hm => ?_⟩
        obtain ⟨m, rfl⟩ : ∃ k, m = k + 1 := ⟨m - 1, by omega⟩
        simp [xyN, h1, h2]
      | vec x y =>
        refine .inr ⟨⟨i, r, s, m, .refl, h1, by simp [h2]⟩, fun m hm => ?_⟩
        obtain ⟨m, rfl⟩ : ∃ k, m = k + 1 := ⟨m - 1, by omega⟩
        simp [xyN, h1, h2]
      | vecRel p q =>
        refine .inr ⟨⟨i, r, s, m, .refl, h1, by simp [h2]⟩, fun m hm => ?_⟩
        obtain ⟨m, rfl⟩ : ∃ k, m = k + 1 := ⟨m - 1, by omega⟩
        simp [xyN, h1, h2]
  · cases hi

theorem settled {h : Heap K} (hok : ∀ i b, Base h i b → isBasePoint h b) {i : ℕ} (hi : isBasePoint h i) (hl : ¬ Looping h i) :
    Settled h h.length i := by
  have := GH.depth_induct (R := Base h) (L := h.length)
    (P := fun n i => isBasePoint h i → ∀ j, Hangs h i j → Settled h n j)
    (fun a b hab => lt_of_isBasePoint (hok a b hab))
    (fun n i _ hs hb j hj => by
      rcases ReflTransGen.cases_head hj with rfl | ⟨c, h1, h2⟩
      · refine settled_step hb fun j hj => ?_
        obtain ⟨c, h1, h2⟩ := TransGen.head'_iff.1 hj
        exact hs c h1 (hok _ _ h1) j h2
      · exact settled_mono (hs c h1 (hok _ _ h1) j h2))
    h.length i (lt_of_isBasePoint hi) (fun j hj hc => hl ⟨j, hj, hc⟩) (GH.reach_card _)
  exact this hi i .refl

theorem reads_not_looping {h : Heap K} {i : ℕ} {p : Pt K} (hr : Reads h i p) : ¬ Looping h i := by
  induction hr with
  | point h1 =>
    intro hl
    obtain ⟨b, ⟨_, _, _, hb⟩ | ⟨_, _, hb⟩, -⟩ := looping_base hl <;> rw [h1] at hb <;> cases hb
  | rel h1 _ ih =>
    intro hl
    obtain ⟨b, hb, hlb⟩ := looping_base hl
    exact ih (base_unique hb (.inl ⟨_, _, _, h1⟩) ▸ hlb)
  | pcalc h1 h2 _ ih =>
    intro hl
    obtain ⟨b, hb, hlb⟩ := looping_base hl
    obtain rfl := base_unique hb (.inr ⟨_, _, h1⟩)
    obtain ⟨c, hc, hlc⟩ := looping_base hlb
    exact ih (base_unique hc (.inl ⟨_, _, _, h2⟩) ▸ hlc)

theorem reads_unique' {h : Heap K} {i : ℕ} {p q : Pt K} (h1 : Reads h i p) (h2 : Reads h i q) : p = q := by
  induction h1 generalizing q with
  | point h3 => cases h2 <;> simp_all
  | rel h3 _ ih =>
    cases h2 with
    | point h4 => rw [h3] at h4; cases h4
    | rel h4 h5 => rw [h3] at h4; cases h4; rw [ih h5]
    | pcalc h4 _ _ => rw [h3] at h4; cases h4
  | pcalc h3 h6 _ ih =>
    cases h2 with
    | point h4 => rw [h3] at h4; cases h4
    | rel h4 h5 => rw [h3] at h4; cases h4
    | pcalc h4 h7 h5 => rw [h3] at h4; cases h4; rw [h6] at h7; cases h7; rw [ih h5]

theorem reads_not_misfit {h : Heap K} {i : ℕ} {p : Pt K} (hr : Reads h i p) : ¬ Misfit h i := by
  induction hr with
  | point h1 =>
    rintro ⟨j, r, s, n, h2, h3, -⟩
    rcases ReflTransGen.cases_head h2 with rfl | ⟨c, ⟨_, _, _, hb⟩ | ⟨_, _, hb⟩, -⟩
    · rw [h1] at h3; cases h3
    all_goals rw [h1] at hb; cases hb
  | rel h1 _ ih =>
    rintro ⟨j, r, s, n, h2, h3, h4⟩
    rcases ReflTransGen.cases_head h2 with rfl | ⟨c, hc, h5⟩
    · rw [h1] at h3; cases h3
    · exact ih ⟨j, r, s, n, base_unique hc (.inl ⟨_, _, _, h1⟩) ▸ h5, h3, h4⟩
  | pcalc h1 h6 _ ih =>
    rintro ⟨j, r, s, n, h2, h3, h4⟩
    rcases ReflTransGen.cases_head h2 with rfl | ⟨c, hc, h5⟩
    · rw [h1] at h3; cases h3; exact h4 _ _ _ _ h6
    · obtain rfl := base_unique hc (.inr ⟨_, _, h1⟩)
      rcases ReflTransGen.cases_head h5 with rfl | ⟨d, hd, h7⟩
      · rw [h6] at h3; cases h3
      · exact ih ⟨j, r, s, n, base_unique hd (.inl ⟨_, _, _, h6⟩) ▸ h7, h3, h4⟩

theorem reads_isBasePoint {h : Heap K} {i : ℕ} {p : Pt K} (hr : Reads h i p) : isBasePoint h i := by
  cases hr <;> simp_all [isBasePoint]

/-! ### The heap through a history -/

/-- Every reference is to a point. -/
def Ok (h : Heap K) : Prop :=
  (∀ i b, Base h i b → isBasePoint h b) ∧ ∀ (i p q : ℕ), h[i]? = some (PObj.vecRel p q) → isBasePoint h p ∧ isBasePoint h q

theorem ok_nil : Ok ([] : Heap K) := ⟨fun i b hb => by simp [Base] at hb, fun i p q hb => by simp at hb⟩

/-- The kind of an object. -/
def kind : PObj K → ℕ
  | .point .. => 0
  | .rel .. => 0
  | .pcalc .. => 0
  | .vec .. => 1
  | .vecRel .. => 1

theorem isBasePoint_kind {h : Heap K} {i : ℕ} : isBasePoint h i = true ↔ ∃ o, h[i]? = some o ∧ kind o = 0 := by
  cases ho : h[i]? with
  | none => simp [isBasePoint, ho]
  | some o => cases o <;> simp [isBasePoint, ho, kind]

theorem isBasePoint_set {h : Heap K} {i k : ℕ} {o o' : PObj K} (ho : h[k]? = some o) (hk : kind o' = kind o) :
    isBasePoint (h.set k o') i = isBasePoint h i := by
  rw [Bool.eq_iff_iff, isBasePoint_kind, isBasePoint_kind]
  by_cases hik : i = k
  · subst hik
    obtain ⟨hlt, rfl⟩ := List.getElem?_eq_some_iff.1 ho
    simp [List.getElem?_set, hlt, hk]
  · simp [List.getElem?_set, Ne.symm hik]

/-- The objects a single object refers to are points. -/
def RefsOk (h : Heap K) : PObj K → Prop
  | .rel _ _ b _ => isBasePoint h b
  | .pcalc b _ _ => isBasePoint h b
  | .vecRel p q => isBasePoint h p ∧ isBasePoint h q
  | _ => True

theorem ok_iff {h : Heap K} : Ok h ↔ ∀ (i : ℕ) (o : PObj K), h[i]? = some o → RefsOk h o := by
  constructor
  · intro ⟨h1, h2⟩ i o ho
    cases o with
    | point => trivial
    | vec => trivial
    | rel dx dy b n => exact h1 i b (.inl ⟨_, _, _, ho⟩)
    | pcalc b s n => exact h1 i b (.inr ⟨_, _, ho⟩)
    | vecRel p q => exact h2 i p q ho
  · intro h1
    refine ⟨?_, fun i p q ho => h1 i _ ho⟩
    rintro i b (⟨dx, dy, n, ho⟩ | ⟨s, n, ho⟩)
    · exact h1 i _ ho
    · exact h1 i _ ho

theorem refsOk_mono {h h' : Heap K} (hm : ∀ i, isBasePoint h i → isBasePoint h' i) {o : PObj K} (ho : RefsOk h o) : RefsOk h' o := by
  cases o with
  | point => trivial
  | vec => trivial
  | rel dx dy b n => exact hm _ ho
  | pcalc b s n => exact hm _ ho
  | vecRel p q => exact ⟨hm _ ho.1, hm _ ho.2⟩

theorem ok_append' {h l : Heap K} (hk : Ok h) (hl : ∀ o ∈ l, RefsOk (h ++ l) o) : Ok (h ++ l) := by
  rw [ok_iff] at hk ⊢
  intro i o ho
  by_cases hi : i < h.length
  · rw [List.getElem?_append_left hi] at ho
    exact refsOk_mono (fun i hi => isBasePoint_append hi) (hk i o ho)
  · rw [List.getElem?_append_right (not_lt.1 hi)] at ho
    exact hl o (List.mem_of_getElem? ho)

theorem ok_set' {h : Heap K} {k : ℕ} {o o' : PObj K} (hk : Ok h) (ho : h[k]? = some o) (hkind : kind o' = kind o) (hr : RefsOk h o') :
    Ok (h.set k o') := by
  rw [ok_iff] at hk ⊢
  intro i x hx
  have hm : ∀ i, isBasePoint h i → isBasePoint (h.set k o') i := fun i hi => by rw [isBasePoint_set ho hkind]; exact hi
  by_cases hik : i = k
  · subst hik
    obtain ⟨hlt, rfl⟩ := List.getElem?_eq_some_iff.1 ho
    simp [hlt] at hx
    subst hx
    exact refsOk_mono hm hr
  · rw [List.getElem?_set_ne (Ne.symm hik)] at hx
    exact refsOk_mono hm (hk i x hx)

/-- The base of an object. -/
def baseOf : PObj K → Option ℕ
  | .rel _ _ b _ => some b
  | .pcalc b _ _ => some b
  | _ => none

theorem base_iff {h : Heap K} {i b : ℕ} : Base h i b ↔ ∃ o, h[i]? = some o ∧ baseOf o = some b := by
  constructor
  · rintro (⟨dx, dy, n, ho⟩ | ⟨s, n, ho⟩)
    · exact ⟨_, ho, rfl⟩
    · exact ⟨_, ho, rfl⟩
  · rintro ⟨o, ho, hb⟩
    cases o <;> simp [baseOf] at hb <;> subst hb
    · exact .inl ⟨_, _, _, ho⟩
    · exact .inr ⟨_, _, ho⟩

/-- What one call does to the heap: nothing, new objects, or one object replaced by one of the same kind. -/
inductive Change (h : Heap K) : Op K → Heap K → Prop
  | same {op} : Change h op h
  | new {o l} : (∀ x ∈ l, RefsOk (h ++ l) x) → (∀ x ∈ l, ∀ b, baseOf x = some b → isBasePoint h b) → Change h (.call o) (h ++ l)
  | value {o k x x'} : h[k]? = some x → kind x' = kind x → baseOf x' = baseOf x → RefsOk h x' → Change h (.call o) (h.set k x')
  | base {i c x x'} : isBasePoint h c → h[i]? = some x → kind x' = kind x → baseOf x' = some c → RefsOk h x' →
      Change h (.setBase i c) (h.set i x')

theorem ok_change {h h' : Heap K} {op : Op K} (hk : Ok h) (hc : Change h op h') : Ok h' := by
  cases hc with
  | same => exact hk
  | new h1 _ => exact ok_append' hk h1
  | value h1 h2 _ h3 => exact ok_set' hk h1 h2 h3
  | base _ h1 h2 _ h3 => exact ok_set' hk h1 h2 h3

theorem refs_append {h l : Heap K} {o : PObj K} (ho : RefsOk h o) : RefsOk (h ++ l) o :=
  refsOk_mono (fun _ hi => isBasePoint_append hi) ho

theorem base_refs {h : Heap K} {o : PObj K} (ho : RefsOk h o) (b : ℕ) (hb : baseOf o = some b) : isBasePoint h b := by
  cases o <;> simp [baseOf] at hb <;> subst hb <;> exact ho

theorem change_one {h : Heap K} {o : POp K} {x : PObj K} (hx : RefsOk h x) : Change h (.call o) (h ++ [x]) :=
  .new (fun y hy => by obtain rfl := List.mem_singleton.1 hy; exact refs_append hx)
    (fun y hy b hb => by obtain rfl := List.mem_singleton.1 hy; exact base_refs hx b hb)

theorem copyPt_refs {h : Heap K} {o o' : PObj K} (ho : RefsOk h o) (hc : copyPt h o = .ok o') : RefsOk h o' ∧ kind o' = kind o := by
  cases o <;> simp only [copyPt] at hc
  case pcalc b s n =>
    split at hc
    · cases hc; exact ⟨ho, rfl⟩
    · cases hc
  all_goals cases hc; exact ⟨ho, rfl⟩

theorem change_step (lim : ℕ) {h : Heap K} (hk : Ok h) (op : Op K) : Change h op (step lim h op).1 := by
  have hr := ok_iff.1 hk
  cases op with
  | setBase i c =>
    simp only [step]
    split
    · rename_i hc
      split
      · rename_i ho; exact .base hc ho rfl rfl hc
      · rename_i ho; exact .base hc ho rfl rfl hc
      · exact .same
    · exact .same
  | call o =>
    cases o with
    | mkPoint x y n => exact change_one trivial
    | mkVec x y => exact change_one trivial
    | mkRel dx dy b n =>
      simp only [step, PH.step]
      split
      · rename_i hb; exact change_one hb
      · exact .same
    | fromXY x y b =>
      simp only [step]
      split
      · rename_i hb
        split
        · exact change_one hb
        · exact .same
      · exact .same
    | mkCalc b s n =>
      simp only [step, PH.step]
      split
      · rename_i hb
        refine change_one ?_
        simp only [hasBase] at hb
        simp only [RefsOk, isBasePoint]
        split at hb <;> simp_all
      · exact .same
    | mkVecRel p q =>
      simp only [step, PH.step]
      split
      · rename_i hb; exact change_one hb
      · exact .same
    | setXY i x y =>
      simp only [step, PH.step]
      split
      · rename_i ho; exact .value ho rfl rfl trivial
      · rename_i ho; exact .value ho rfl rfl trivial
      · exact .same
      · exact .same
    | setFrom i j =>
      simp only [step]
      split
      · rename_i ho
        split
        · exact .value ho rfl rfl trivial
        · exact .same
      · rename_i ho
        split
        · exact .value ho rfl rfl trivial
        · exact .same
      · exact .same
      · exact .same
    | setDelta i dx dy =>
      simp only [step, PH.step]
      split
      · rename_i ho; exact .value ho rfl rfl (show RefsOk h _ from (hr _ _ ho : isBasePoint h _ = true))
      · exact .same
    | setScale i s =>
      simp only [step, PH.step]
      split
      · rename_i ho; exact .value ho rfl rfl (show RefsOk h _ from (hr _ _ ho : isBasePoint h _ = true))
      · exact .same
    | fixed i =>
      simp only [step]
      split
      · split
        · refine change_one ?_
          split <;> trivial
        · exact .same
      · exact .same
    | copy i =>
      simp only [step]
      split
      · rename_i p q ho
        obtain ⟨hp, hq⟩ := hr _ _ ho
        split
        · rename_i a b ha hb
          split
          · rename_i a' ha'
            split
            · rename_i b' hb'
              obtain ⟨h1, h2⟩ := copyPt_refs (hr _ _ ha) ha'
              obtain ⟨h3, h4⟩ := copyPt_refs (hr _ _ hb) hb'
              rw [isBasePoint_kind] at hp hq
              have hka : kind a' = 0 := by
                obtain ⟨o, h5, h6⟩ := hp
                rw [ha] at h5; cases h5; rw [h2, h6]
              have hkb : kind b' = 0 := by
                obtain ⟨o, h5, h6⟩ := hq
                rw [hb] at h5; cases h5; rw [h4, h6]
              refine .new (fun x hx => ?_) (fun x hx c hc => ?_)
              · simp only [List.mem_cons, List.not_mem_nil, or_false] at hx
                rcases hx with rfl | rfl | rfl
                · exact refs_append h1
                · exact refs_append h3
                · constructor
                  · rw [isBasePoint_kind]; exact ⟨a', by simp, hka⟩
                  · rw [isBasePoint_kind]; exact ⟨b', by simp, hkb⟩
              · simp only [List.mem_cons, List.not_mem_nil, or_false] at hx
                rcases hx with rfl | rfl | rfl
                · exact base_refs h1 c hc
                · exact base_refs h3 c hc
                · cases hc
            · exact .same
          · exact .same
        · exact .same
      · rename_i o _ ho
        split
        · rename_i o' ho'
          exact change_one (copyPt_refs (hr _ _ ho) ho').1
        · exact .same
      · exact .same

theorem ok_step (lim : ℕ) {h : Heap K} (hk : Ok h) (op : Op K) : Ok (step lim h op).1 := ok_change hk (change_step lim hk op)

theorem run_cons (lim : ℕ) (h : Heap K) (op : Op K) (ops : List (Op K)) : run lim h (op :: ops) = run lim (step lim h op).1 ops := rfl

theorem ok_run (lim : ℕ) {h : Heap K} (hk : Ok h) (ops : List (Op K)) : Ok (run lim h ops) := by
  induction ops generalizing h with
  | nil => exact hk
  | cons op ops ih => exact ih (ok_step lim hk op)

/-- No point hangs on itself. -/
def Straight (h : Heap K) : Prop := ∀ i, ¬ TransGen (Base h) i i

theorem base_append {h l : Heap K} {i b : ℕ} (hb : Base (h ++ l) i b) :
    Base h i b ∨ h.length ≤ i ∧ ∃ x ∈ l, baseOf x = some b := by
  obtain ⟨o, ho, hb⟩ := base_iff.1 hb
  by_cases hi : i < h.length
  · rw [List.getElem?_append_left hi] at ho
    exact .inl (base_iff.2 ⟨o, ho, hb⟩)
  · rw [List.getElem?_append_right (not_lt.1 hi)] at ho
    exact .inr ⟨not_lt.1 hi, o, List.mem_of_getElem? ho, hb⟩

theorem base_set_other {h : Heap K} {k j b : ℕ} {x : PObj K} (hj : j ≠ k) : Base (h.set k x) j b ↔ Base h j b := by
  simp only [base_iff, List.getElem?_set_ne (Ne.symm hj)]

theorem base_set_value {h : Heap K} {k : ℕ} {x x' : PObj K} (hx : h[k]? = some x) (hb : baseOf x' = baseOf x) (j b : ℕ) :
    Base (h.set k x') j b ↔ Base h j b := by
  by_cases hj : j = k
  · subst hj
    obtain ⟨hlt, rfl⟩ := List.getElem?_eq_some_iff.1 hx
    simp [base_iff, List.getElem?_set, hlt, hb]
  · exact base_set_other hj

theorem straight_change {h h' : Heap K} {op : Op K} (hk : Ok h) (hs : Straight h) (hc : Change h op h') (hsafe : Safe h op) : Straight h' := by
  cases hc with
  | same => exact hs
  | new h1 h2 =>
    rename_i o l
    have old : ∀ i j, i < h.length → ReflTransGen (Base (h ++ l)) i j → j < h.length ∧ ReflTransGen (Base h) i j := by
      intro i j hi hij
      induction hij with
      | refl => exact ⟨hi, .refl⟩
      | tail _ h4 ih =>
        obtain ⟨h5, h6⟩ := ih
        rcases base_append h4 with h7 | ⟨h7, -⟩
        · exact ⟨lt_of_isBasePoint (hk.1 _ _ h7), h6.tail h7⟩
        · omega
    intro i hi
    obtain ⟨c, h3, h4⟩ := TransGen.head'_iff.1 hi
    rcases base_append h3 with h5 | ⟨h5, x, hx, hb⟩
    · exact hs i (.head' h5 (old c i (lt_of_isBasePoint (hk.1 _ _ h5)) h4).2)
    · have := (old c i (lt_of_isBasePoint (h2 x hx c hb)) h4).1
      omega
  | value h1 h2 h3 h4 =>
    rename_i o k x x'
    have : Base (h.set k x') = Base h := by
      funext j b
      exact propext (base_set_value h1 h3 j b)
    intro i
    rw [this]
    exact hs i
  | base h1 h2 h3 h4 h5 =>
    rename_i i c x x'
    refine GH.acyclic_more (R := Base h) (x := i) (S := fun b => b = c) (fun a b hab => ?_) (fun b hb => hb ▸ hsafe) hs
    by_cases ha : a = i
    · subst ha
      obtain ⟨hlt, rfl⟩ := List.getElem?_eq_some_iff.1 h2
      obtain ⟨o, ho, hb⟩ := base_iff.1 hab
      simp [List.getElem?_set, hlt] at ho
      subst ho
      rw [h4] at hb
      cases hb
      exact .inr ⟨rfl, rfl⟩
    · exact .inl ((base_set_other ha).1 hab)

theorem straight_run (lim : ℕ) {h : Heap K} (hk : Ok h) (hs : Straight h) (ops : List (Op K)) (hsafe : AllSafe lim h ops) :
    Straight (run lim h ops) := by
  induction ops generalizing h with
  | nil => exact hs
  | cons op ops ih => exact ih (ok_step lim hk op) (straight_change hk hs (change_step lim hk op) hsafe.1) hsafe.2

theorem straight_nil : Straight ([] : Heap K) := by
  intro i hi
  obtain ⟨c, h1, -⟩ := TransGen.head'_iff.1 hi
  simp [Base] at h1

/-! ### One point rehung -/

theorem hangs_congr {h h' : Heap K} {i : ℕ} (hb : ∀ a b, a ≠ i → (Base h' a b ↔ Base h a b)) {j : ℕ} (hj : Hangs h j i) : Hangs h' j i := by
  induction hj using ReflTransGen.head_induction_on with
  | refl => exact .refl
  | head h1 _ ih =>
    rename_i a c _
    by_cases ha : a = i
    · subst ha; exact .refl
    · exact .head ((hb a c ha).2 h1) ih

theorem reads_keep {h h' : Heap K} {i : ℕ} (hg : ∀ a : ℕ, a ≠ i → h'[a]? = h[a]?) {j : ℕ} {r : Pt K} (hr : Reads h j r) (hn : ¬ Hangs h j i) :
    Reads h' j r := by
  induction hr with
  | point h1 => exact .point (by rw [hg _ fun he => hn (he ▸ .refl)]; exact h1)
  | rel h1 _ ih =>
    refine .rel (by rw [hg _ fun he => hn (he ▸ .refl)]; exact h1) (ih fun h2 => hn (.head (.inl ⟨_, _, _, h1⟩) h2))
  | pcalc h1 h2 _ ih =>
    have hb1 : Base h _ _ := .inr ⟨_, _, h1⟩
    have hb2 : Base h _ _ := .inl ⟨_, _, _, h2⟩
    refine .pcalc (by rw [hg _ fun he => hn (he ▸ .refl)]; exact h1) (by rw [hg _ fun he => hn (.head hb1 (he ▸ .refl))]; exact h2)
      (ih fun h3 => hn (.head hb1 (.head hb2 h3)))

/-- Rehanging a point moves it and all that hangs on it alike. -/
theorem reads_moves {h h' : Heap K} {i : ℕ} {x x' : PObj K} (hx : h[i]? = some x) (hx' : h'[i]? = some x')
    (hxx : (∃ dx dy b b' n, x = .rel dx dy b n ∧ x' = .rel dx dy b' n) ∨ ∃ s b b' n, x = .pcalc b s n ∧ x' = .pcalc b' s n)
    (hg : ∀ a : ℕ, a ≠ i → h'[a]? = h[a]?) {p q : Pt K} (hp : Reads h i p) (hq : Reads h' i q) {j : ℕ} {r : Pt K} (hr : Reads h j r)
    (hj : Hangs h j i) : Reads h' j ⟨r.x + (q.x - p.x), r.y + (q.y - p.y)⟩ := by
  induction hr with
  | point h1 =>
    rcases ReflTransGen.cases_head hj with rfl | ⟨c, ⟨_, _, _, hb⟩ | ⟨_, _, hb⟩, -⟩
    · rw [h1] at hx
      rcases hxx with ⟨_, _, _, _, _, rfl, -⟩ | ⟨_, _, _, _, rfl, -⟩ <;> cases hx
    all_goals rw [h1] at hb; cases hb
  | rel h1 h2 ih =>
    rename_i k dx dy b n w
    by_cases hk : k = i
    · subst hk
      have := reads_unique' hp (.rel h1 h2)
      subst this
      convert hq using 1
      ext <;> simp
    · have := Reads.rel (by rw [hg _ hk]; exact h1) (ih (hangs_step (.inl ⟨_, _, _, h1⟩) hj hk))
      convert this using 1
      ext <;> simp <;> ring
  | pcalc h1 h3 h2 ih =>
    rename_i k r s n dx dy b n' w
    by_cases hk : k = i
    · subst hk
      have := reads_unique' hp (.pcalc h1 h3 h2)
      subst this
      convert hq using 1
      ext <;> simp
    · have hj' := hangs_step (.inr ⟨_, _, h1⟩) hj hk
      by_cases hr : r = i
      · subst hr
        rw [h3] at hx
        cases hx
        rcases hxx with ⟨_, _, _, b', _, h4, rfl⟩ | ⟨_, _, _, _, h4, -⟩
        · cases h4
          cases hq with
          | point h5 => rw [hx'] at h5; cases h5
          | pcalc h5 _ _ => rw [hx'] at h5; cases h5
          | rel h5 h6 =>
            rw [hx'] at h5
            cases h5
            have hp' := reads_unique' hp (.rel h3 h2)
            subst hp'
            have := Reads.pcalc (by rw [hg _ hk]; exact h1) hx' h6
            convert this using 1
            ext <;> simp <;> ring
        · cases h4
      · have := Reads.pcalc (by rw [hg _ hk]; exact h1) (by rw [hg _ hr]; exact h3) (ih (hangs_step (.inl ⟨_, _, _, h3⟩) hj' hr))
        convert this using 1
        ext <;> simp <;> ring

theorem set_other {h : Heap K} {i : ℕ} {x : PObj K} (a : ℕ) (ha : a ≠ i) : (h.set i x)[a]? = h[a]? := List.getElem?_set_ne (Ne.symm ha)

theorem set_self {h : Heap K} {i : ℕ} {x y : PObj K} (hx : h[i]? = some x) : (h.set i y)[i]? = some y := by
  obtain ⟨hlt, rfl⟩ := List.getElem?_eq_some_iff.1 hx
  simp [hlt]

/-- Rehanging a point and adjusting its offset leaves everything that is not a PointCalc over it. -/
theorem reads_adjusted {h h' : Heap K} {i c : ℕ} {dx dy : K} {b : ℕ} {m : Option String} {p q : Pt K} (hx : h[i]? = some (.rel dx dy b m))
    (hp : Reads h i p) (hx' : h'[i]? = some (.rel (p.x - q.x) (p.y - q.y) c m)) (hg : ∀ a : ℕ, a ≠ i → h'[a]? = h[a]?)
    (hc : Reads h' c q) {j : ℕ} {r : Pt K} (hr : Reads h j r)
    (hj : ∀ (k : ℕ) s n, Hangs h j k → h[k]? ≠ some (PObj.pcalc i s n)) : Reads h' j r := by
  induction hr with
  | point h1 =>
    rename_i k x y n
    exact .point (by rw [hg _ fun he => by subst he; rw [hx] at h1; cases h1]; exact h1)
  | rel h1 h2 ih =>
    rename_i k dx' dy' b' n w
    by_cases hk : k = i
    · subst hk
      have := reads_unique' hp (.rel h1 h2)
      have h3 := Reads.rel hx' hc
      rw [← this]
      convert h3 using 1
      ext <;> simp
    · exact .rel (by rw [hg _ hk]; exact h1) (ih fun k s n h3 => hj k s n (.head (.inl ⟨_, _, _, h1⟩) h3))
  | pcalc h1 h3 h2 ih =>
    rename_i k r s n dx' dy' b' n' w
    have hk : k ≠ i := fun he => by subst he; rw [hx] at h1; cases h1
    have hr : r ≠ i := fun he => by subst he; exact hj k s n .refl h1
    exact .pcalc (by rw [hg _ hk]; exact h1) (by rw [hg _ hr]; exact h3)
      (ih fun k s n h4 => hj k s n (.head (.inr ⟨_, _, h1⟩) (.head (.inl ⟨_, _, _, h3⟩) h4)))

/-! ### Comparing -/

theorem eqN_looping [DecidableEq K] {h : Heap K} {n i : ℕ} (hl : Looping h i) : eqN h n i i = .error .recursion := by
  induction n generalizing i with
  | zero => rfl
  | succ n ih =>
    obtain ⟨b, ⟨dx, dy, m, hb⟩ | ⟨s, m, hb⟩, hlb⟩ := looping_base hl
    · simp [eqN, hb, ih hlb]
    · simp [eqN, hb, ih hlb]

theorem eqN_self [DecidableEq K] {h : Heap K} (hok : ∀ i b, Base h i b → isBasePoint h b) {i : ℕ} (hi : isBasePoint h i)
    (hl : ¬ Looping h i) (n : ℕ) (hn : h.length ≤ n) : eqN h n i i = .ok true := by
  refine GH.depth_induct (R := Base h) (L := h.length)
    (P := fun n i => isBasePoint h i → eqN h n i i = .ok true)
    (fun a b hab => lt_of_isBasePoint (hok a b hab)) (fun n i _ hs hb => ?_)
    n i (lt_of_isBasePoint hi) (fun j hj hc => hl ⟨j, hj, hc⟩) ((GH.reach_card _).trans hn) hi
  obtain ⟨o, ho, hk⟩ := isBasePoint_kind.1 hb
  cases o with
  | point x y m => simp [eqN, ho]
  | rel dx dy b m =>
    have : Base h i b := .inl ⟨_, _, _, ho⟩
    simp [eqN, ho, hs b this (hok _ _ this)]
  | pcalc b s m =>
    have : Base h i b := .inr ⟨_, _, ho⟩
    simp [eqN, ho, hs b this (hok _ _ this)]
  | vec x y => cases hk
  | vecRel p q => cases hk

/-! ### Histories without assignments -/

theorem xyN_eq {h : Heap K} (hw : WF h) {n i : ℕ} (hi : i < n) : xyN h n i = PH.xy h i := by
  induction n generalizing i with
  | zero => omega
  | succ n ih =>
    rw [PH.xy]
    simp only [xyN]
    cases ho : h[i]? with
    | none => rfl
    | some o =>
      have hwo := hw i o ho
      cases o with
      | point x y m => rfl
      | vec x y => rfl
      | rel dx dy b m =>
        have hb : b < i := hwo.1
        simp [hb, ih (i := b) (by omega)]; rfl
      | pcalc r s m =>
        have hr : r < i := hwo.1
        simp only [hr, if_true]
        cases ho2 : h[r]? with
        | none => rfl
        | some o2 =>
          have hwr := hw r o2 ho2
          cases o2 with
          | rel dx dy b m' =>
            have hb : b < i := lt_trans hwr.1 hr
            simp [hb, ih (i := b) (by omega)]; rfl
          | pcalc b s' m' =>
            have hb : b < i := lt_trans hwr.1 hr
            simp [hb, ih (i := b) (by omega)]; rfl
          | point => rfl
          | vec => rfl
          | vecRel => rfl
      | vecRel p q =>
        have hp : p < i := hwo.1
        have hq : q < i := hwo.2.1
        simp [hp, hq, ih (i := p) (by omega), ih (i := q) (by omega)]; rfl

theorem copyPt_eq {h : Heap K} (hw : WF h) {i : ℕ} {o : PObj K} (ho : h[i]? = some o) : copyPt h o = .ok (copyObj o) := by
  have := hw i o ho
  cases o <;> simp [copyPt, copyObj]
  case pcalc b s n => exact this.2

theorem xyN_bad {h : Heap K} {n i : ℕ} (hn : 0 < n) (hi : h.length ≤ i) : xyN h n i = PH.xy h i := by
  obtain ⟨n, rfl⟩ : ∃ k, n = k + 1 := ⟨n - 1, by omega⟩
  rw [PH.xy]
  simp [xyN, List.getElem?_eq_none hi]

theorem xyN_eq' {h : Heap K} (hw : WF h) {n i : ℕ} (h0 : 0 < n) (hn : h.length ≤ n) : xyN h n i = PH.xy h i := by
  by_cases hi : i < h.length
  · exact xyN_eq hw (by omega)
  · exact xyN_bad h0 (not_lt.1 hi)

theorem step_eq {h : Heap K} (hw : WF h) {lim : ℕ} (h0 : 0 < lim) (hn : h.length ≤ lim) (o : POp K) : step lim h (.call o) = PH.step h o := by
  cases o with
  | fromXY x y b => simp [step, PH.step, xyN_eq' hw h0 hn]; rfl
  | setFrom i j => simp [step, PH.step, xyN_eq' hw h0 hn]; rfl
  | fixed i => simp [step, PH.step, xyN_eq' hw h0 hn]; rfl
  | copy i =>
    simp only [step, PH.step]
    cases ho : h[i]? with
    | none => rfl
    | some o =>
      cases o with
      | vecRel p q =>
        cases hp : h[p]? with
        | none => simp only [hp]
        | some a =>
          cases hq : h[q]? with
          | none => simp only [hp, hq]
          | some b => simp only [hp, hq, copyPt_eq hw hp, copyPt_eq hw hq]
      | _ => simp [copyPt_eq hw ho]
  | _ => rfl

theorem length_step (h : Heap K) (o : POp K) : (PH.step h o).1.length ≤ h.length + 3 := by
  cases o <;> simp only [PH.step] <;> (repeat' split) <;> simp

/-! ### A long chain -/

theorem run_append (lim : ℕ) (h : Heap K) (a b : List (Op K)) : run lim h (a ++ b) = run lim (run lim h a) b := by
  simp [run]

/-- The heap of `chainOps`. -/
def chainHeap (K : Type*) [Field K] (k : ℕ) : Heap K := .point 0 0 none :: (List.range k).map fun i => .rel 1 0 i none

theorem chainHeap_get {k i : ℕ} (hi : i < k) : (chainHeap K k)[i + 1]? = some (.rel 1 0 i none) := by
  simp [chainHeap, hi]

theorem chain_isBase {k i : ℕ} (hi : i ≤ k) : isBasePoint (chainHeap K k) i := by
  cases i with
  | zero => simp [isBasePoint, chainHeap]
  | succ i => simp [isBasePoint, chainHeap_get (K := K) (show i < k by omega)]

theorem run_chain (lim k : ℕ) : run lim ([] : Heap K) (chainOps K k) = chainHeap K k := by
  induction k with
  | zero => rfl
  | succ k ih =>
    have h1 : chainOps K (k + 1) = chainOps K k ++ [.call (.mkRel 1 0 k none)] := by simp [chainOps, List.range_succ]
    have h2 : chainHeap K (k + 1) = chainHeap K k ++ [.rel 1 0 k none] := by simp [chainHeap, List.range_succ]
    rw [h1, run_append, ih, h2]
    simp only [run, List.foldl_cons, List.foldl_nil, step, PH.step]
    rw [if_pos (chain_isBase le_rfl)]

theorem xyN_chain {k : ℕ} (n i : ℕ) (hi : i ≤ k) :
    xyN (chainHeap K k) n i = if i < n then .ok ⟨(i : K), 0⟩ else .error .recursion := by
  induction n generalizing i with
  | zero => simp [xyN]
  | succ n ih =>
    cases i with
    | zero => simp [xyN, chainHeap]
    | succ i =>
      have := ih i (by omega)
      simp only [xyN, chainHeap_get (K := K) (show i < k by omega), this]
      by_cases h : i < n
      · simp [h, add_comm]
      · simp [h]

end X7.RB
