import Verif.Spec.Iter
import Verif.Lemmas.ElemNames
import Verif.Props.Flatten

/-! C78: generators of elements under any schedule. -/

noncomputable section

namespace X7.Iter

open Elem

/-! ### A generator that is asked for all of its items at once -/

/-- The generator gave something and can go on. -/
def Out.more : Out → Bool
  | .item _ _ _ _ => true
  | .elem _ => true
  | .stop => false
  | .err _ => false

/-- All results of `next` up to the first exception, and the transform object then. -/
def drain : List Act → ℕ → TState → List Out × TState
  | [], _, s => ([.stop], s)
  | .enter xf g :: r, k, s => drain r (if g then k + 1 else k) (s.push.compose xf)
  | .item n e :: r, k, s => (.item n e s.mat s.stack :: (drain r k s).1, (drain r k s).2)
  | .xitem base e :: r, k, s =>
    match transform e s with
    | (s, .error er) => ([(fail k s er).2.2], (fail k s er).2.1)
    | (s, .ok x) => (.elem (x.setName (base ++ x.hdr.name)) :: (drain r k s).1, (drain r k s).2)
  | .leave g :: r, k, s =>
    match s.pop.err with
    | some er => ([(fail (if g then k - 1 else k) s.pop.st er).2.2], (fail (if g then k - 1 else k) s.pop.st er).2.1)
    | none => drain r (if g then k - 1 else k) s.pop.st
  | .raise er :: _, k, s => ([(fail k s er).2.2], (fail k s er).2.1)

theorem fail_done (k : ℕ) (s : TState) (er : PyErr) : (fail k s er).1 = ⟨[], 0⟩ ∧ (fail k s er).2.2.more = false := by
  simp only [fail]
  split <;> exact ⟨rfl, rfl⟩

theorem resume_drain (r : List Act) (k : ℕ) (s : TState) :
    ((resume r k s).2.2.more = true → drain r k s =
      ((resume r k s).2.2 :: (drain (resume r k s).1.acts (resume r k s).1.withs (resume r k s).2.1).1,
        (drain (resume r k s).1.acts (resume r k s).1.withs (resume r k s).2.1).2)) ∧
    ((resume r k s).2.2.more = false → drain r k s = ([(resume r k s).2.2], (resume r k s).2.1) ∧ (resume r k s).1 = ⟨[], 0⟩) := by
  induction r generalizing k s with
  | nil => simp [resume, drain, Out.more]
  | cons a r ih =>
    cases a with
    | enter xf g => exact ih _ _
    | item n e => simp [resume, drain, Out.more]
    | xitem base e =>
      simp only [resume, drain]
      obtain ⟨a, x, ha⟩ : ∃ a x, transform e s = (a, x) := ⟨_, _, rfl⟩
      rw [ha]
      cases x with
      | error er =>
        simp only
        rw [(fail_done k a er).1, (fail_done k a er).2]
        simp
      | ok x => simp [Out.more]
    | leave g =>
      simp only [resume, drain]
      cases s.pop.err with
      | some er =>
        simp only
        rw [(fail_done _ _ er).1, (fail_done _ _ er).2]
        simp
      | none => exact ih _ _
    | raise er =>
      simp only [resume, drain]
      rw [(fail_done k s er).1, (fail_done k s er).2]
      simp

/-! ### Cached inverses do not matter -/

theorem Same.refl (s : TState) : Same s s := ⟨rfl, rfl⟩

theorem Same.symm {s t : TState} (h : Same s t) : Same t s := ⟨h.1.symm, h.2.symm⟩

theorem Same.trans {s t u : TState} (h : Same s t) (h' : Same t u) : Same s u := ⟨h.1.trans h'.1, h.2.trans h'.2⟩

theorem pop_same {s t : TState} (h : Same s t) : s.pop.err = t.pop.err ∧ Same s.pop.st t.pop.st := by
  obtain ⟨h1, h2⟩ := h
  simp only [TState.pop, h2]
  cases t.stack with
  | nil => exact ⟨rfl, h1, h2⟩
  | cons a b => exact ⟨rfl, rfl, rfl⟩

theorem enter_same {s t : TState} (h : Same s t) (xf : Mat3 ℝ) : Same (s.push.compose xf) (t.push.compose xf) := by
  obtain ⟨h1, h2⟩ := h
  simp [Same, TState.push, TState.compose, h1, h2]

theorem unwind_same (k : ℕ) {s t : TState} (h : Same s t) (er : Option PyErr) :
    (unwind k s er).2 = (unwind k t er).2 ∧ Same (unwind k s er).1 (unwind k t er).1 := by
  induction k generalizing s t er with
  | zero => exact ⟨rfl, h⟩
  | succ k ih =>
    obtain ⟨h1, h2⟩ := pop_same h
    simp only [unwind, h1]
    cases t.pop.err <;> exact ih h2 _

theorem fail_same (k : ℕ) {s t : TState} (h : Same s t) (er : PyErr) :
    (fail k s er).2.2 = (fail k t er).2.2 ∧ Same (fail k s er).2.1 (fail k t er).2.1 := by
  obtain ⟨h1, h2⟩ := unwind_same k h (some er)
  obtain ⟨a, x, ha⟩ : ∃ a x, unwind k s (some er) = (a, x) := ⟨_, _, rfl⟩
  obtain ⟨b, y, hb⟩ : ∃ b y, unwind k t (some er) = (b, y) := ⟨_, _, rfl⟩
  rw [ha, hb] at h1 h2
  simp only at h1 h2
  subst h1
  simp only [fail, ha, hb]
  cases x <;> exact ⟨rfl, h2⟩

theorem transform_same (e : Elem) {s t : TState} (h : Same s t) :
    (transform e s).2 = (transform e t).2 ∧ Same (transform e s).1 (transform e t).1 :=
  ⟨(transform_keeps e).2 s t h.1,
    ((transform_keeps e).1 s).1.trans (h.1.trans ((transform_keeps e).1 t).1.symm),
    ((transform_keeps e).1 s).2.trans (h.2.trans ((transform_keeps e).1 t).2.symm)⟩

theorem drain_same (r : List Act) (k : ℕ) {s t : TState} (h : Same s t) :
    (drain r k s).1 = (drain r k t).1 ∧ Same (drain r k s).2 (drain r k t).2 := by
  induction r generalizing k s t with
  | nil => exact ⟨rfl, h⟩
  | cons a r ih =>
    cases a with
    | enter xf g => exact ih _ (enter_same h xf)
    | item n e =>
      obtain ⟨h1, h2⟩ := ih k h
      simp only [drain, h1, h.1, h.2]
      exact ⟨trivial, h2⟩
    | xitem base e =>
      obtain ⟨h1, h2⟩ := transform_same e h
      obtain ⟨a, x, ha⟩ : ∃ a x, transform e s = (a, x) := ⟨_, _, rfl⟩
      obtain ⟨b, y, hb⟩ : ∃ b y, transform e t = (b, y) := ⟨_, _, rfl⟩
      rw [ha, hb] at h1 h2
      simp only at h1 h2
      subst h1
      simp only [drain, ha, hb]
      cases x with
      | error er =>
        obtain ⟨h3, h4⟩ := fail_same k h2 er
        simp only [h3]
        exact ⟨trivial, h4⟩
      | ok x =>
        obtain ⟨h3, h4⟩ := ih k h2
        simp only [h3]
        exact ⟨trivial, h4⟩
    | leave g =>
      obtain ⟨h1, h2⟩ := pop_same h
      simp only [drain, h1]
      cases t.pop.err with
      | some er =>
        obtain ⟨h3, h4⟩ := fail_same (if g then k - 1 else k) h2 er
        simp only [h3]
        exact ⟨trivial, h4⟩
      | none => exact ih _ h2
    | raise er =>
      obtain ⟨h3, h4⟩ := fail_same k h er
      simp only [drain, h3]
      exact ⟨trivial, h4⟩

/-! ### Schedules -/

/-- One operation of a program, seen from generator `i` with its own transform object `j`. -/
theorem step_alone {sys : Sys} {i j : ℕ} {op : Op} {ops : List Op} (h : Alone sys i j (op :: ops)) :
    Alone (step sys op).1 i j ops ∧
    (op ≠ .next i → op ≠ .close i → nextsOf i (step sys op).2 = [] ∧ ((step sys op).1.gens i).1 = (sys.gens i).1 ∧
      Same ((step sys op).1.mats j) (sys.mats j)) := by
  obtain ⟨h1, h2, h3⟩ := h
  have h3' : ∀ j' f, Op.use j' f ∈ ops → Balanced f := fun j' f hm => h3 j' f (List.mem_cons_of_mem _ hm)
  cases op with
  | next i' =>
    refine ⟨⟨?_, ?_, h3'⟩, ?_⟩
    · simp only [step, Function.update_apply]
      split
      · next e => exact e ▸ h1
      · exact h1
    · intro a ha
      simp only [step, Function.update_apply]
      split
      · next e => exact h2 i' (e ▸ ha)
      · exact h2 a ha
    · intro hn _
      have hi : i ≠ i' := fun e => hn (by rw [e])
      have hj : j ≠ (sys.gens i').2 := fun e => h2 i' (Ne.symm hi) e.symm
      simp only [step, Function.update_apply, if_neg hi, if_neg hj]
      refine ⟨?_, trivial, Same.refl _⟩
      simp [nextsOf, Ne.symm hi]
  | close i' =>
    refine ⟨⟨?_, ?_, h3'⟩, ?_⟩
    · simp only [step, Function.update_apply]
      split
      · next e => exact e ▸ h1
      · exact h1
    · intro a ha
      simp only [step, Function.update_apply]
      split
      · next e => exact h2 i' (e ▸ ha)
      · exact h2 a ha
    · intro _ hn
      have hi : i ≠ i' := fun e => hn (by rw [e])
      have hj : j ≠ (sys.gens i').2 := fun e => h2 i' (Ne.symm hi) e.symm
      simp only [step, Function.update_apply, if_neg hi, if_neg hj]
      exact ⟨by simp [nextsOf], trivial, Same.refl _⟩
  | use j' f =>
    refine ⟨⟨h1, h2, h3'⟩, fun _ _ => ⟨by simp [step, nextsOf], rfl, ?_⟩⟩
    simp only [step, Function.update_apply]
    split
    · next e => subst e; exact h3 j f List.mem_cons_self _
    · exact Same.refl _

theorem nextsOf_append (i : ℕ) (a b : List Event) : nextsOf i (a ++ b) = nextsOf i a ++ nextsOf i b := by
  simp [nextsOf, List.filterMap_append]

theorem step_next {sys : Sys} {i j : ℕ} (h : (sys.gens i).2 = j) :
    nextsOf i (step sys (.next i)).2 = [(resume (sys.gens i).1.acts (sys.gens i).1.withs (sys.mats j)).2.2] ∧
    ((step sys (.next i)).1.gens i).1 = (resume (sys.gens i).1.acts (sys.gens i).1.withs (sys.mats j)).1 ∧
    (step sys (.next i)).1.mats j = (resume (sys.gens i).1.acts (sys.gens i).1.withs (sys.mats j)).2.1 := by
  subst h
  simp [step, nextsOf]

theorem step_close {sys : Sys} {i j : ℕ} (h : (sys.gens i).2 = j) :
    nextsOf i (step sys (.close i)).2 = [] ∧ ((step sys (.close i)).1.gens i).1 = ⟨[], 0⟩ ∧
    (step sys (.close i)).1.mats j = (unwind (sys.gens i).1.withs (sys.mats j) none).1 ∧
    (step sys (.close i)).2 = [.closed i (unwind (sys.gens i).1.withs (sys.mats j) none).2] := by
  subst h
  simp [step, nextsOf, close]

/-- A generator that has ended stays so and no longer touches its transform object. -/
theorem ended {i j : ℕ} (ops : List Op) : ∀ {sys : Sys}, Alone sys i j ops → (sys.gens i).1 = ⟨[], 0⟩ →
    (∀ o ∈ nextsOf i (run sys ops).2, o = .stop) ∧ Same ((run sys ops).1.mats j) (sys.mats j) := by
  induction ops with
  | nil => intro sys _ _; exact ⟨by simp [run, nextsOf], Same.refl _⟩
  | cons op ops ih =>
    intro sys h hc
    obtain ⟨ha, hs⟩ := step_alone h
    have key : ((step sys op).1.gens i).1 = ⟨[], 0⟩ ∧ Same ((step sys op).1.mats j) (sys.mats j) ∧
        ∀ o ∈ nextsOf i (step sys op).2, o = .stop := by
      by_cases h1 : op = .next i
      · subst h1
        obtain ⟨k1, k2, k3⟩ := step_next h.1
        rw [hc] at k1 k2 k3
        rw [k1, k2, k3]
        exact ⟨rfl, Same.refl _, by simp [resume]⟩
      · by_cases h2 : op = .close i
        · subst h2
          obtain ⟨k1, k2, k3, -⟩ := step_close h.1
          rw [hc] at k3
          rw [k1, k2, k3]
          exact ⟨rfl, Same.refl _, by simp⟩
        · obtain ⟨k1, k2, k3⟩ := hs h1 h2
          rw [k1, k2]
          exact ⟨hc, k3, by simp⟩
    obtain ⟨i1, i2⟩ := ih ha key.1
    refine ⟨?_, i2.trans key.2.1⟩
    intro o ho
    simp only [run] at ho
    rw [nextsOf_append, List.mem_append] at ho
    rcases ho with ho | ho
    · exact key.2.2 o ho
    · exact i1 o ho

/-- C78: whatever a program does with other generators and in between, the results of `next` on a generator whose transform object no
other generator uses are those of a loop that asks it for all items at once, and `StopIteration` ever after. When it has ended, its
transform object is as after that loop. -/
theorem C78_schedule {i j : ℕ} (ops : List Op) : ∀ {sys : Sys}, Alone sys i j ops → .close i ∉ ops →
    let d := drain (sys.gens i).1.acts (sys.gens i).1.withs (sys.mats j)
    (∀ n o, (nextsOf i (run sys ops).2)[n]? = some o → o = d.1.getD n .stop) ∧
    ((∃ o ∈ nextsOf i (run sys ops).2, o.more = false) → Same ((run sys ops).1.mats j) d.2) := by
  induction ops with
  | nil => intro sys _ _; simp [run, nextsOf]
  | cons op ops ih =>
    intro sys h hc
    obtain ⟨ha, hs⟩ := step_alone h
    have hc2 : Op.close i ∉ ops := fun hm => hc (List.mem_cons_of_mem _ hm)
    have hc1 : op ≠ .close i := fun e => hc (e ▸ List.mem_cons_self)
    obtain ⟨i1, i2⟩ := ih ha hc2
    intro d
    simp only [run]
    rw [nextsOf_append]
    by_cases h1 : op = .next i
    · subst h1
      obtain ⟨k1, k2, k3⟩ := step_next h.1
      obtain ⟨r1, r2⟩ := resume_drain (sys.gens i).1.acts (sys.gens i).1.withs (sys.mats j)
      rw [k2, k3] at i1 i2
      rw [k1]
      cases hm : (resume (sys.gens i).1.acts (sys.gens i).1.withs (sys.mats j)).2.2.more with
      | true =>
        have hd : d = _ := r1 hm
        rw [hd]
        refine ⟨?_, ?_⟩
        · intro n o ho
          cases n with
          | zero => simpa using ho.symm
          | succ n => exact i1 n o (by simpa using ho)
        · rintro ⟨o, ho, hf⟩
          rw [List.singleton_append, List.mem_cons] at ho
          rcases ho with rfl | ho
          · rw [hm] at hf; cases hf
          · exact i2 ⟨o, ho, hf⟩
      | false =>
        obtain ⟨hd, hf⟩ := r2 hm
        have hd : d = _ := hd
        rw [hd]
        obtain ⟨e1, e2⟩ := ended ops ha (by rw [k2, hf])
        rw [k3] at e2
        refine ⟨?_, fun _ => e2⟩
        intro n o ho
        cases n with
        | zero => simpa using ho.symm
        | succ n =>
          have : o ∈ nextsOf i (run (step sys (.next i)).1 ops).2 := List.mem_of_getElem? (by simpa using ho)
          simp [e1 o this]
    · obtain ⟨k1, k2, k3⟩ := hs h1 hc1
      obtain ⟨c1, c2⟩ := drain_same (sys.gens i).1.acts (sys.gens i).1.withs k3
      rw [k2, c1] at i1
      rw [k2] at i2
      rw [k1, List.nil_append]
      exact ⟨i1, fun hx => (i2 hx).trans c2⟩

theorem nextsOf_length (i : ℕ) (ops : List Op) (sys : Sys) : (nextsOf i (run sys ops).2).length = asks i ops := by
  induction ops generalizing sys with
  | nil => rfl
  | cons op ops ih =>
    simp only [run]
    rw [nextsOf_append, List.length_append, ih, asks, asks, List.countP_cons, Nat.add_comm]
    congr 1
    cases op with
    | next i' =>
      by_cases h : i' = i <;> simp [step, nextsOf, h]
    | close i' => simp [step, nextsOf]
    | use j f => simp [step, nextsOf]

/-! ### `iter_elems` -/

theorem inside_cons (m : TState) (x : Mat3 ℝ) (xs : List (Mat3 ℝ)) : inside m (x :: xs) = inside (m.push.compose x) xs := rfl

/-- The items for the listed parts. -/
def itemsOf (root : Str) (m : TState) (ps : List (List Str × List (Mat3 ℝ) × Elem)) : List Out :=
  ps.map fun p => .item (root ++ '.' :: joinDots p.1) p.2.2 (inside m p.2.1).mat (inside m p.2.1).stack

theorem leave_same (m : TState) (xf : Mat3 ℝ) :
    (m.push.compose xf).pop.err = none ∧ Same (m.push.compose xf).pop.st m := by
  simp [TState.push, TState.compose, TState.pop, Same]

theorem pair_same {a b c : List Out × TState} {l : List Out} (h : a.1 = l ++ b.1 ∧ Same a.2 b.2) (h' : b.1 = c.1 ∧ Same b.2 c.2) :
    a.1 = l ++ c.1 ∧ Same a.2 c.2 := ⟨by rw [h.1, h'.1], h.2.trans h'.2⟩

mutual
theorem drain_acts : (e : Elem) → (root : Str) → (m : TState) → (k : ℕ) → (r : List Act) → Named e → root ≠ [] →
    (drain (acts e (some root) ++ r) k m).1 = itemsOf root m (parts e) ++ (drain r k m).1 ∧
      Same (drain (acts e (some root) ++ r) k m).2 (drain r k m).2
  | .curve h x, root, m, k, r, _, _ => by simp [acts, actsLeaf, drain, parts, itemsOf, joinDots, hdr, inside, Same.refl]
  | .rect h x y, root, m, k, r, _, _ => by simp [acts, actsLeaf, drain, parts, itemsOf, joinDots, hdr, inside, Same.refl]
  | .rrect h x y z, root, m, k, r, _, _ => by simp [acts, actsLeaf, drain, parts, itemsOf, joinDots, hdr, inside, Same.refl]
  | .ellipse h x y, root, m, k, r, _, _ => by simp [acts, actsLeaf, drain, parts, itemsOf, joinDots, hdr, inside, Same.refl]
  | .group h hd es, root, m, k, r, hn, hr => by
    simp only [Named] at hn
    have h1 := drain_actsAll es (root ++ '.' :: h.name) (m.push.compose h.xf) k ([.leave false] ++ r) hn.2 (by simp)
    obtain ⟨e1, e2⟩ := leave_same m h.xf
    have h2 := drain_same r k e2
    have h3 : drain ([.leave false] ++ r) k (m.push.compose h.xf) = drain r k (m.push.compose h.xf).pop.st := by
      simp [drain, e1]
    rw [h3] at h1
    have h4 := pair_same h1 h2
    have e : acts (.group h hd es) (some root) ++ r = .enter h.xf false :: (actsAll es (root ++ '.' :: h.name) ++ ([.leave false] ++ r)) := by
      simp [acts, rootName_some hr]
    rw [e]
    simp only [drain, Bool.false_eq_true, if_false]
    refine ⟨?_, h4.2⟩
    rw [h4.1]
    congr 1
    simp only [itemsOf, parts, List.map_map]
    refine List.map_congr_left fun p hp => ?_
    simp [joinDots_cons _ (partsAll_ne es p hp), inside_cons]
  | .holes h o i, root, m, k, r, hn, hr => by
    simp only [Named] at hn
    have h0 := drain_acts o (root ++ '.' :: h.name ++ ['.'] ++ ".outside".toList) (m.push.compose h.xf) (k + 1)
      (actsIn i (root ++ '.' :: h.name ++ ['.'] ++ ".inside".toList) ++ ([.leave true] ++ r)) hn.2.1 (by simp)
    have h1 := drain_actsIn i (root ++ '.' :: h.name ++ ['.'] ++ ".inside".toList) (m.push.compose h.xf) (k + 1) ([.leave true] ++ r)
      hn.2.2 (by simp)
    obtain ⟨e1, e2⟩ := leave_same m h.xf
    have h2 := drain_same r k e2
    have h3 : drain ([.leave true] ++ r) (k + 1) (m.push.compose h.xf) = drain r k (m.push.compose h.xf).pop.st := by
      simp [drain, e1]
    rw [h3] at h1
    have h4 := pair_same h1 h2
    have e : acts (.holes h o i) (some root) ++ r = .enter h.xf true ::
        (acts o (some (root ++ '.' :: h.name ++ ['.'] ++ ".outside".toList)) ++
          (actsIn i (root ++ '.' :: h.name ++ ['.'] ++ ".inside".toList) ++ ([.leave true] ++ r))) := by
      simp [acts, rootNameHoles_some hr]
    rw [e]
    simp only [drain, if_true]
    refine ⟨?_, h0.2.trans h4.2⟩
    rw [h0.1, h4.1, ← List.append_assoc]
    congr 1
    simp only [itemsOf, parts, List.map_map, List.map_append]
    congr 1
    · refine List.map_congr_left fun p hp => ?_
      simp [joinDots_cons _ (parts_ne o p hp), joinDots_cons _ (List.cons_ne_nil _ _), inside_cons]
    · refine List.map_congr_left fun p hp => ?_
      simp [joinDots_cons _ (partsIn_ne i p hp), joinDots_cons _ (List.cons_ne_nil _ _), inside_cons]
theorem drain_actsAll : (es : List (Str × Elem)) → (root : Str) → (m : TState) → (k : ℕ) → (r : List Act) → NamedAll es → root ≠ [] →
    (drain (actsAll es root ++ r) k m).1 = itemsOf root m (partsAll es) ++ (drain r k m).1 ∧
      Same (drain (actsAll es root ++ r) k m).2 (drain r k m).2
  | [], root, m, k, r, _, _ => by simp [actsAll, partsAll, itemsOf, Same.refl]
  | (_, e) :: rest, root, m, k, r, hn, hr => by
    simp only [NamedAll] at hn
    have h1 := drain_acts e root m k (actsAll rest root ++ r) hn.1 hr
    have h2 := drain_actsAll rest root m k r hn.2 hr
    simp only [actsAll, List.append_assoc]
    refine ⟨?_, h1.2.trans h2.2⟩
    rw [h1.1, h2.1, partsAll, itemsOf, itemsOf, itemsOf, List.map_append, List.append_assoc]
theorem drain_actsIn : (es : List Elem) → (root : Str) → (m : TState) → (k : ℕ) → (r : List Act) → NamedIn es → root ≠ [] →
    (drain (actsIn es root ++ r) k m).1 = itemsOf root m (partsIn es) ++ (drain r k m).1 ∧
      Same (drain (actsIn es root ++ r) k m).2 (drain r k m).2
  | [], root, m, k, r, _, _ => by simp [actsIn, partsIn, itemsOf, Same.refl]
  | e :: rest, root, m, k, r, hn, hr => by
    simp only [NamedIn] at hn
    have h1 := drain_acts e root m k (actsIn rest root ++ r) hn.1 hr
    have h2 := drain_actsIn rest root m k r hn.2 hr
    simp only [actsIn, List.append_assoc]
    refine ⟨?_, h1.2.trans h2.2⟩
    rw [h1.1, h2.1, partsIn, itemsOf, itemsOf, itemsOf, List.map_append, List.append_assoc]
end

theorem drain_group (h : Hdr) (hidden : Bool) (es : List (Str × Elem)) (m : TState) (hn : Named (.group h hidden es)) :
    (drain (acts (.group h hidden es) none) 0 m).1 = ((parts (.group h hidden es)).map fun p =>
      .item (joinDots p.1) p.2.2 (inside m p.2.1).mat (inside m p.2.1).stack) ++ [.stop] ∧
      Same (drain (acts (.group h hidden es) none) 0 m).2 m := by
  simp only [Named] at hn
  have h1 := drain_actsAll es h.name (m.push.compose h.xf) 0 [.leave false] hn.2 hn.1
  obtain ⟨e1, e2⟩ := leave_same m h.xf
  have h3 : drain [.leave false] 0 (m.push.compose h.xf) = ([.stop], (m.push.compose h.xf).pop.st) := by
    simp [drain, e1]
  rw [h3] at h1
  simp only [acts, rootName, drain, Bool.false_eq_true, if_false]
  refine ⟨?_, h1.2.trans e2⟩
  rw [h1.1]
  congr 1
  simp only [itemsOf, parts, List.map_map]
  refine List.map_congr_left fun p hp => ?_
  simp [joinDots_cons _ (partsAll_ne es p hp), inside_cons]

/-- C78: `iter_elems` of a group under any schedule. If no other generator works on the same transform object, and the program leaves
this object as it was each time it uses it, then the `n`-th `next` gives the `n`-th part of the tree with its full name and the
product of the transforms around it, and after the last part `StopIteration`; then the transform object is as at the beginning. -/
theorem C78_iter (sys : Sys) (i j : ℕ) (ops : List Op) (h : Hdr) (hidden : Bool) (es : List (Str × Elem))
    (hg : sys.gens i = (⟨acts (.group h hidden es) none, 0⟩, j)) (hn : Named (.group h hidden es)) (ha : Alone sys i j ops)
    (hc : .close i ∉ ops) :
    (nextsOf i (run sys ops).2).length = asks i ops ∧
    (∀ (n : ℕ) (o : Out), (nextsOf i (run sys ops).2)[n]? = some o →
      (∀ p, (parts (.group h hidden es))[n]? = some p →
        ∃ st, o = .item (joinDots p.1) p.2.2 (p.2.1.foldl Mat3.mul (sys.mats j).mat) st) ∧
      ((parts (.group h hidden es))[n]? = none → o = .stop)) ∧
    ((parts (.group h hidden es)).length < asks i ops → Same ((run sys ops).1.mats j) (sys.mats j)) := by
  obtain ⟨d1, d2⟩ := drain_group h hidden es (sys.mats j) hn
  have hs := C78_schedule ops ha hc
  rw [hg] at hs
  simp only at hs
  rw [d1] at hs
  refine ⟨nextsOf_length i ops sys, ?_, ?_⟩
  · intro n o ho
    have := hs.1 n o ho
    have hmat : ∀ (xs : List (Mat3 ℝ)) (s : TState), (inside s xs).mat = xs.foldl Mat3.mul s.mat := by
      intro xs
      induction xs with
      | nil => intro s; rfl
      | cons x xs ih => intro s; rw [inside_cons, ih]; rfl
    constructor
    · intro p hp
      refine ⟨(inside (sys.mats j) p.2.1).stack, ?_⟩
      rw [this, List.getD_eq_getElem?_getD, List.getElem?_append_left (by simpa using (List.getElem?_eq_some_iff.1 hp).1),
        List.getElem?_map, hp, ← hmat]
      rfl
    · intro hp
      rw [this, List.getD_eq_getElem?_getD, List.getElem?_append_right (by simpa using hp)]
      cases n - _ <;> simp
  · intro hl
    refine (hs.2 ?_).trans d2
    rw [← nextsOf_length i ops sys] at hl
    refine ⟨_, List.getElem_mem hl, ?_⟩
    have := hs.1 _ _ (List.getElem?_eq_getElem hl)
    rw [this, List.getD_eq_getElem?_getD, List.getElem?_append_right (by simp)]
    simp [Out.more]

/-! ### `iter_elems_transformed` -/

theorem fail_one {m s : TState} (hs : s.stack = m.mat :: m.stack) (er : PyErr) :
    fail 1 s er = (⟨[], 0⟩, ⟨m.mat, none, m.stack⟩, .err er) := by
  simp [fail, unwind, TState.pop, hs]

theorem drain_xitems (base : Str) (es : List Elem) (r : List Act) (m : TState) : ∀ (s : TState), s.stack = m.mat :: m.stack →
    (drain (es.map (Act.xitem base) ++ r) 1 s) =
      match (yieldAll base es s).2.err with
      | none => ((yieldAll base es s).2.items.map Out.elem ++ (drain r 1 (yieldAll base es s).1).1, (drain r 1 (yieldAll base es s).1).2)
      | some er => ((yieldAll base es s).2.items.map Out.elem ++ [.err er], ⟨m.mat, none, m.stack⟩) := by
  induction es with
  | nil => intro s _; simp [yieldAll]
  | cons e es ih =>
    intro s hs
    have hk := (transform_keeps e).1 s
    obtain ⟨a, x, ha⟩ : ∃ a x, transform e s = (a, x) := ⟨_, _, rfl⟩
    rw [ha] at hk
    simp only at hk
    have hsa := hk.2.trans hs
    simp only [List.map_cons, List.cons_append, drain, yieldAll, ha]
    cases x with
    | error er => simp [fail_one hsa]
    | ok x =>
      simp only
      rw [ih a hsa]
      obtain ⟨b, y, hb⟩ : ∃ b y, yieldAll base es a = (b, y) := ⟨_, _, rfl⟩
      rw [hb]
      cases hy : y.err <;> simp [hy]

theorem yieldAll_stack (base : Str) (es : List Elem) (s : TState) : (yieldAll base es s).1.stack = s.stack :=
  (yieldAll_spec base es s).2.1

theorem drain_leave {m s : TState} (hs : s.stack = m.mat :: m.stack) : drain [.leave true] 1 s = ([.stop], ⟨m.mat, none, m.stack⟩) := by
  simp [drain, TState.pop, hs]

/-- The last result. -/
def endOf : Option PyErr → Out
  | none => .stop
  | some er => .err er

theorem drain_xf (e : Elem) (root : Option Str) (m : TState) (he : (∃ h hd es, e = .group h hd es) ∨ ∃ h o i, e = .holes h o i) :
    drain (actsXf e root) 0 m =
      ((iterXf root e m).2.items.map Out.elem ++ [endOf (iterXf root e m).2.err], ⟨m.mat, none, m.stack⟩) := by
  have hs : ∀ xf, (m.push.compose xf).stack = m.mat :: m.stack := fun _ => rfl
  rcases he with ⟨h, hd, es, rfl⟩ | ⟨h, o, i, rfl⟩
  · have e1 : es.map (fun x => Act.xitem (rootName root h.name ++ ['.']) x.2) = (es.map Prod.snd).map (Act.xitem (rootName root h.name ++ ['.'])) := by
      rw [List.map_map]; rfl
    have hst := yieldAll_stack (rootName root h.name ++ ['.']) (es.map Prod.snd) (m.push.compose h.xf)
    simp only [actsXf, drain, if_true, e1, iterXf, iterXfBody, hdr]
    rw [drain_xitems _ _ _ m _ (hs _)]
    obtain ⟨b, y, hb⟩ : ∃ b y, yieldAll (rootName root h.name ++ ['.']) (es.map Prod.snd) (m.push.compose h.xf) = (b, y) := ⟨_, _, rfl⟩
    rw [hb] at hst ⊢
    simp only at hst ⊢
    rw [hs] at hst
    cases hy : y.err <;> simp [drain_leave hst, TState.pop, hst, endOf, hy]
  · have hst := yieldAll_stack (rootName root h.name ++ ".outside.".toList) [o] (m.push.compose h.xf)
    have e1 : drain (actsXf (.holes h o i) root) 0 m = drain ([o].map (Act.xitem (rootName root h.name ++ ".outside.".toList)) ++
          (i.map (Act.xitem (rootName root h.name ++ ".inside.".toList)) ++ [.leave true])) 1 (m.push.compose h.xf) := rfl
    rw [e1, drain_xitems _ _ _ m _ (hs _)]
    simp only [iterXf, iterXfBody, hdr]
    obtain ⟨b, y, hb⟩ : ∃ b y, yieldAll (rootName root h.name ++ ".outside.".toList) [o] (m.push.compose h.xf) = (b, y) := ⟨_, _, rfl⟩
    rw [hb] at hst ⊢
    simp only at hst ⊢
    rw [hs] at hst
    cases hy : y.err with
    | some er => simp [TState.pop, hst, endOf, hy]
    | none =>
      simp only
      have hst2 := yieldAll_stack (rootName root h.name ++ ".inside.".toList) i b
      rw [drain_xitems _ _ _ m _ hst]
      obtain ⟨c, z, hc⟩ : ∃ c z, yieldAll (rootName root h.name ++ ".inside.".toList) i b = (c, z) := ⟨_, _, rfl⟩
      rw [hc] at hst2 ⊢
      simp only at hst2 ⊢
      rw [hst] at hst2
      cases hz : z.err <;> simp [drain_leave hst2, TState.pop, hst2, endOf, hz]

/-- C78: `iter_elems_transformed` of a group or a shape with holes under any schedule, under the same conditions: the `n`-th `next` gives
the `n`-th element that a loop over the whole generator gives (C71), and then it ends as the loop does; the transform object is as at
the beginning. -/
theorem C78_transformed (sys : Sys) (i j : ℕ) (ops : List Op) (e : Elem) (root : Option Str)
    (hg : sys.gens i = (⟨actsXf e root, 0⟩, j)) (he : (∃ h hd es, e = .group h hd es) ∨ ∃ h o ins, e = .holes h o ins)
    (ha : Alone sys i j ops) (hc : .close i ∉ ops) :
    let r := (iterXf root e (sys.mats j)).2
    (nextsOf i (run sys ops).2).length = asks i ops ∧
    (∀ (n : ℕ) (o : Out), (nextsOf i (run sys ops).2)[n]? = some o →
      (∀ x, r.items[n]? = some x → o = .elem x) ∧
      (n = r.items.length → o = match r.err with | none => .stop | some er => .err er) ∧
      (r.items.length < n → o = .stop)) ∧
    (r.items.length < asks i ops → Same ((run sys ops).1.mats j) (sys.mats j)) := by
  intro r
  have hd := drain_xf e root (sys.mats j) he
  have hs := C78_schedule ops ha hc
  rw [hg] at hs
  simp only at hs
  rw [hd] at hs
  refine ⟨nextsOf_length i ops sys, ?_, ?_⟩
  · intro n o ho
    have := hs.1 n o ho
    refine ⟨?_, ?_, ?_⟩
    · intro x hx
      rw [this, List.getD_eq_getElem?_getD, List.getElem?_append_left (by simpa using (List.getElem?_eq_some_iff.1 hx).1),
        List.getElem?_map, hx]
      rfl
    · rintro rfl
      rw [this, List.getD_eq_getElem?_getD, List.getElem?_append_right (by simp [r])]
      simp only [List.length_map, r, Nat.sub_self, List.getElem?_cons_zero, Option.getD_some]
      cases (iterXf root e (sys.mats j)).2.err <;> rfl
    · intro hn
      rw [this, List.getD_eq_getElem?_getD, List.getElem?_eq_none (by simp [r] at hn ⊢; omega)]
      rfl
  · intro hl
    refine (hs.2 ?_).trans ⟨rfl, rfl⟩
    rw [← nextsOf_length i ops sys] at hl
    refine ⟨_, List.getElem_mem hl, ?_⟩
    have := hs.1 _ _ (List.getElem?_eq_getElem hl)
    rw [this, List.getD_eq_getElem?_getD, List.getElem?_append_right (by simp [r])]
    simp only [List.length_map, r, Nat.sub_self, List.getElem?_cons_zero, Option.getD_some]
    cases (iterXf root e (sys.mats j)).2.err <;> rfl

/-! ### Dropping a generator -/

/-- Actions that do nothing to the stack. -/
def Act.plain : Act → Prop
  | .item _ _ => True
  | .xitem _ _ => True
  | _ => False

/-- Not started, or suspended in its only `with`, or ended. -/
def Guarded (m : TState) (full : List Act) (c : Coro) (s : TState) : Prop :=
  (c = ⟨full, 0⟩ ∧ Same s m) ∨
  (∃ b, (∀ a ∈ b, a.plain) ∧ c = ⟨b ++ [.leave true], 1⟩ ∧ s.stack = m.mat :: m.stack) ∨ (c = ⟨[], 0⟩ ∧ Same s m)

theorem guarded_body {m : TState} {full : List Act} (b : List Act) (hb : ∀ a ∈ b, a.plain) {s : TState} (hs : s.stack = m.mat :: m.stack) :
    Guarded m full (resume (b ++ [.leave true]) 1 s).1 (resume (b ++ [.leave true]) 1 s).2.1 := by
  cases b with
  | nil =>
    refine .inr (.inr ?_)
    simp [resume, TState.pop, hs, Same]
  | cons a b =>
    have hb' : ∀ a ∈ b, a.plain := fun x hx => hb x (List.mem_cons_of_mem _ hx)
    cases a with
    | item n e => exact .inr (.inl ⟨b, hb', rfl, hs⟩)
    | xitem base e =>
      have hk := (transform_keeps e).1 s
      obtain ⟨a, x, ha⟩ : ∃ a x, transform e s = (a, x) := ⟨_, _, rfl⟩
      rw [ha] at hk
      simp only at hk
      simp only [List.cons_append, resume, ha]
      cases x with
      | error er =>
        simp only
        rw [fail_one (hk.2.trans hs)]
        exact .inr (.inr ⟨rfl, rfl, rfl⟩)
      | ok x => exact .inr (.inl ⟨b, hb', rfl, hk.2.trans hs⟩)
    | enter xf g => exact absurd (hb _ List.mem_cons_self) (by simp [Act.plain])
    | leave g => exact absurd (hb _ List.mem_cons_self) (by simp [Act.plain])
    | raise er => exact absurd (hb _ List.mem_cons_self) (by simp [Act.plain])

theorem guarded_resume {m : TState} {xf : Mat3 ℝ} {body : List Act} (hb : ∀ a ∈ body, a.plain) {c : Coro} {s : TState}
    (h : Guarded m (.enter xf true :: (body ++ [.leave true])) c s) :
    Guarded m (.enter xf true :: (body ++ [.leave true])) (resume c.acts c.withs s).1 (resume c.acts c.withs s).2.1 := by
  rcases h with ⟨rfl, hs⟩ | ⟨b, hb', rfl, hs⟩ | ⟨rfl, hs⟩
  · simp only [resume, if_true]
    refine guarded_body body hb ?_
    simp [TState.push, TState.compose, hs.1, hs.2]
  · exact guarded_body b hb' hs
  · exact .inr (.inr ⟨rfl, hs⟩)

theorem guarded_close {m : TState} {full : List Act} {c : Coro} {s : TState} (h : Guarded m full c s) :
    (unwind c.withs s none).2 = none ∧ Same (unwind c.withs s none).1 m := by
  rcases h with ⟨rfl, hs⟩ | ⟨b, hb', rfl, hs⟩ | ⟨rfl, hs⟩
  · exact ⟨rfl, hs⟩
  · simp [unwind, TState.pop, hs, Same]
  · exact ⟨rfl, hs⟩

theorem guarded_run {i j : ℕ} {m : TState} {xf : Mat3 ℝ} {body : List Act} (hb : ∀ a ∈ body, a.plain) (ops : List Op) :
    ∀ {sys : Sys}, Alone sys i j ops → Guarded m (.enter xf true :: (body ++ [.leave true])) (sys.gens i).1 (sys.mats j) →
      Guarded m (.enter xf true :: (body ++ [.leave true])) ((run sys ops).1.gens i).1 ((run sys ops).1.mats j) ∧
        ((run sys ops).1.gens i).2 = j := by
  induction ops with
  | nil => intro sys ha h; exact ⟨h, ha.1⟩
  | cons op ops ih =>
    intro sys ha h
    obtain ⟨ha', hs⟩ := step_alone ha
    simp only [run]
    refine ih ha' ?_
    by_cases h1 : op = .next i
    · subst h1
      obtain ⟨-, k2, k3⟩ := step_next ha.1
      rw [k2, k3]
      exact guarded_resume hb h
    · by_cases h2 : op = .close i
      · subst h2
        obtain ⟨-, k2, k3, -⟩ := step_close ha.1
        rw [k2, k3]
        exact .inr (.inr ⟨rfl, (guarded_close h).2⟩)
      · obtain ⟨-, k2, k3⟩ := hs h1 h2
        rw [k2]
        rcases h with ⟨e, hs'⟩ | ⟨b, hb', e, hs'⟩ | ⟨e, hs'⟩
        · exact .inl ⟨e, k3.trans hs'⟩
        · exact .inr (.inl ⟨b, hb', e, k3.2.trans hs'⟩)
        · exact .inr (.inr ⟨e, k3.trans hs'⟩)

theorem run_append (sys : Sys) (a b : List Op) : run sys (a ++ b) = ((run (run sys a).1 b).1, (run sys a).2 ++ (run (run sys a).1 b).2) := by
  induction a generalizing sys with
  | nil => simp [run]
  | cons op a ih => simp only [List.cons_append, run, ih, List.append_assoc]

theorem guarded_drop {i j : ℕ} {m : TState} {xf : Mat3 ℝ} {body : List Act} (hb : ∀ a ∈ body, a.plain) (ops : List Op)
    {sys : Sys} (ha : Alone sys i j ops) (hg : sys.gens i = (⟨.enter xf true :: (body ++ [.leave true]), 0⟩, j)) (hm : sys.mats j = m) :
    Same ((run sys (ops ++ [.close i])).1.mats j) m ∧ (run sys (ops ++ [.close i])).2 = (run sys ops).2 ++ [.closed i none] := by
  obtain ⟨h1, h2⟩ := guarded_run (m := m) (xf := xf) hb ops ha (.inl ⟨by rw [hg], by rw [hm]; exact Same.refl _⟩)
  obtain ⟨h3, h4⟩ := guarded_close h1
  obtain ⟨-, -, k3, k4⟩ := step_close h2
  rw [run_append]
  simp only [run, List.append_nil]
  rw [k3, k4, h3]
  exact ⟨h4, rfl⟩

/-- C78: dropping `iter_elems_transformed` at any point of any schedule, or closing it, gives back the transform object as it was at the
beginning, and raises nothing. -/
theorem C78_transformed_drop (sys : Sys) (i j : ℕ) (ops : List Op) (e : Elem) (root : Option Str)
    (hg : sys.gens i = (⟨actsXf e root, 0⟩, j)) (he : (∃ h hd es, e = .group h hd es) ∨ ∃ h o ins, e = .holes h o ins)
    (ha : Alone sys i j ops) :
    Same ((run sys (ops ++ [.close i])).1.mats j) (sys.mats j) ∧
      (run sys (ops ++ [.close i])).2 = (run sys ops).2 ++ [.closed i none] := by
  rcases he with ⟨h, hd, es, rfl⟩ | ⟨h, o, ins, rfl⟩
  · refine guarded_drop (xf := h.xf) (body := es.map (fun x : Str × Elem => .xitem (rootName root h.name ++ ['.']) x.2)) ?_ ops ha hg rfl
    intro a ha
    obtain ⟨x, -, rfl⟩ := List.mem_map.1 ha
    trivial
  · refine guarded_drop (xf := h.xf) (body := .xitem (rootName root h.name ++ ".outside.".toList) o ::
      ins.map (fun x => .xitem (rootName root h.name ++ ".inside.".toList) x)) ?_ ops ha hg rfl
    intro a ha
    rcases List.mem_cons.1 ha with rfl | ha
    · trivial
    · obtain ⟨x, -, rfl⟩ := List.mem_map.1 ha
      trivial

/-- A basic shape. -/
def Basic : Elem → Prop
  | .group _ _ _ => False
  | .holes _ _ _ => False
  | _ => True

/-- C78: the same for `iter_elems` of a shape with holes made of basic shapes. -/
theorem C78_holes_drop (sys : Sys) (i j : ℕ) (ops : List Op) (h : Hdr) (o : Elem) (ins : List Elem) (root : Option Str)
    (hg : sys.gens i = (⟨acts (.holes h o ins) root, 0⟩, j)) (ho : Basic o) (hi : ∀ e ∈ ins, Basic e) (ha : Alone sys i j ops) :
    Same ((run sys (ops ++ [.close i])).1.mats j) (sys.mats j) ∧
      (run sys (ops ++ [.close i])).2 = (run sys ops).2 ++ [.closed i none] := by
  have hleaf : ∀ (e : Elem) (r : Str), Basic e → ∀ a ∈ acts e (some r), a.plain := by
    intro e r he a ha
    cases e <;> simp only [Basic] at he
    all_goals
      simp only [acts, actsLeaf, List.mem_singleton] at ha
      subst ha
      trivial
  refine guarded_drop (xf := h.xf) (body := acts o (some (rootNameHoles root h.name ++ ".outside".toList)) ++
    actsIn ins (rootNameHoles root h.name ++ ".inside".toList)) ?_ ops ha (by rw [hg]; simp [acts]) rfl
  intro a ha
  rcases List.mem_append.1 ha with ha | ha
  · exact hleaf _ _ ho a ha
  · have : ∀ (es : List Elem) (r : Str), (∀ e ∈ es, Basic e) → ∀ a ∈ actsIn es r, a.plain := by
      intro es r
      induction es with
      | nil => intro _ a ha; simp [actsIn] at ha
      | cons e es ih =>
        intro he a ha
        rw [actsIn, List.mem_append] at ha
        rcases ha with ha | ha
        · exact hleaf e r (he e List.mem_cons_self) a ha
        · exact ih (fun e' h' => he e' (List.mem_cons_of_mem _ h')) a ha
    exact this _ _ hi a ha

/-! ### Dropping `iter_elems` of a group -/

/-- No action belongs to a `with`. -/
def Act.unguarded : Act → Prop
  | .enter _ g => g = false
  | .leave g => g = false
  | _ => True

mutual
theorem acts_unguarded : (e : Elem) → (root : Option Str) → NoHoles e → ∀ a ∈ acts e root, a.unguarded
  | .curve h x, root, _ => by cases root <;> simp [acts, actsLeaf, Act.unguarded]
  | .rect h x y, root, _ => by cases root <;> simp [acts, actsLeaf, Act.unguarded]
  | .rrect h x y z, root, _ => by cases root <;> simp [acts, actsLeaf, Act.unguarded]
  | .ellipse h x y, root, _ => by cases root <;> simp [acts, actsLeaf, Act.unguarded]
  | .group h hd es, root, hn => by
    have := actsAll_unguarded es (rootName root h.name) (by simpa only [NoHoles] using hn)
    intro a ha
    simp only [acts, List.mem_cons, List.mem_append, List.not_mem_nil, or_false] at ha
    rcases ha with rfl | ha | rfl
    · rfl
    · exact this a ha
    · rfl
  | .holes h o i, root, hn => by simp [NoHoles] at hn
theorem actsAll_unguarded : (es : List (Str × Elem)) → (root : Str) → NoHolesAll es → ∀ a ∈ actsAll es root, a.unguarded
  | [], root, _ => by simp [actsAll]
  | (_, e) :: rest, root, hn => by
    simp only [NoHolesAll] at hn
    intro a ha
    simp only [actsAll, List.mem_append] at ha
    rcases ha with ha | ha
    · exact acts_unguarded e (some root) hn.1 a ha
    · exact actsAll_unguarded rest root hn.2 a ha
end

theorem resume_unguarded (r : List Act) (s : TState) (h : ∀ a ∈ r, a.unguarded) :
    (resume r 0 s).1.withs = 0 ∧ ∀ a ∈ (resume r 0 s).1.acts, a.unguarded := by
  induction r generalizing s with
  | nil => simp [resume]
  | cons a r ih =>
    have h' : ∀ a ∈ r, a.unguarded := fun x hx => h x (List.mem_cons_of_mem _ hx)
    have ha := h a List.mem_cons_self
    cases a with
    | enter xf g =>
      have hg : g = false := ha
      subst hg
      exact ih _ h'
    | item n e => exact ⟨rfl, h'⟩
    | xitem base e =>
      simp only [resume]
      obtain ⟨b, x, hb⟩ : ∃ b x, transform e s = (b, x) := ⟨_, _, rfl⟩
      rw [hb]
      cases x with
      | error er => simp only; rw [(fail_done 0 b er).1]; simp
      | ok x => exact ⟨rfl, h'⟩
    | leave g =>
      have hg : g = false := ha
      subst hg
      simp only [resume]
      cases s.pop.err with
      | some er => simp only; rw [(fail_done _ _ er).1]; simp
      | none => exact ih _ h'
    | raise er =>
      simp only [resume]
      rw [(fail_done 0 s er).1]
      simp

theorem alone_run {i j : ℕ} (a b : List Op) : ∀ {sys : Sys}, Alone sys i j (a ++ b) → Alone (run sys a).1 i j b := by
  induction a with
  | nil => intro sys h; exact h
  | cons op a ih => intro sys h; exact ih (step_alone h).1

theorem unguarded_run {i j : ℕ} (ops : List Op) : ∀ {sys : Sys}, Alone sys i j ops → (sys.gens i).1.withs = 0 →
    (∀ a ∈ (sys.gens i).1.acts, a.unguarded) → ((run sys ops).1.gens i).1.withs = 0 := by
  induction ops with
  | nil => intro sys _ h _; exact h
  | cons op ops ih =>
    intro sys ha h hu
    obtain ⟨ha', hs⟩ := step_alone ha
    simp only [run]
    by_cases h1 : op = .next i
    · subst h1
      obtain ⟨-, k2, -⟩ := step_next ha.1
      obtain ⟨u1, u2⟩ := resume_unguarded (sys.gens i).1.acts (sys.mats j) hu
      rw [h] at k2
      exact ih ha' (by rw [k2]; exact u1) (by rw [k2]; exact u2)
    · by_cases h2 : op = .close i
      · subst h2
        obtain ⟨-, k2, -⟩ := step_close ha.1
        exact ih ha' (by rw [k2]) (by rw [k2]; simp)
      · obtain ⟨-, k2, -⟩ := hs h1 h2
        exact ih ha' (by rw [k2]; exact h) (by rw [k2]; exact hu)

theorem resume_item (r : List Act) (k : ℕ) (s : TState) {n : Str} {e : Elem} {mt : Mat3 ℝ} {st : List (Mat3 ℝ)}
    (h : (resume r k s).2.2 = .item n e mt st) : Same (resume r k s).2.1 ⟨mt, none, st⟩ := by
  have hf : ∀ k s er, (fail k s er).2.2 ≠ .item n e mt st := by
    intro k s er he
    have := (fail_done k s er).2
    rw [he] at this
    simp [Out.more] at this
  induction r generalizing k s with
  | nil => simp [resume] at h
  | cons a r ih =>
    cases a with
    | enter xf g => exact ih _ _ h
    | item n e =>
      simp only [resume, Out.item.injEq] at h
      exact ⟨h.2.2.1, h.2.2.2⟩
    | xitem base e =>
      simp only [resume] at h
      obtain ⟨b, x, hb⟩ : ∃ b x, transform e s = (b, x) := ⟨_, _, rfl⟩
      rw [hb] at h
      cases x with
      | error er => exact absurd h (hf _ _ _)
      | ok x => simp at h
    | leave g =>
      simp only [resume] at h ⊢
      cases hp : s.pop.err with
      | some er => rw [hp] at h; exact absurd h (hf _ _ _)
      | none => rw [hp] at h; exact ih _ _ h
    | raise er => exact absurd h (hf _ _ _)

theorem last_item {i j : ℕ} {n : Str} {e : Elem} {mt : Mat3 ℝ} {st : List (Mat3 ℝ)} {sys : Sys} (ops : List Op) :
    Alone sys i j ops → .close i ∉ ops → (nextsOf i (run sys ops).2).getLast? = some (.item n e mt st) →
    Same ((run sys ops).1.mats j) ⟨mt, none, st⟩ := by
  induction ops using List.reverseRecOn with
  | nil => intro _ _ h; simp [run, nextsOf] at h
  | append_singleton ops op ih =>
    intro ha hc h
    have hb := alone_run ops [op] ha
    have ha' : Alone sys i j ops := ⟨ha.1, ha.2.1, fun j' f hm => ha.2.2 j' f (List.mem_append_left _ hm)⟩
    have hc' : Op.close i ∉ ops := fun hm => hc (List.mem_append_left _ hm)
    have hc1 : op ≠ .close i := by rintro rfl; exact hc (by simp)
    rw [run_append] at h ⊢
    simp only [run, List.append_nil] at h ⊢
    rw [nextsOf_append] at h
    by_cases h1 : op = .next i
    · subst h1
      obtain ⟨k1, k2, k3⟩ := step_next hb.1
      rw [k1] at h
      rw [k3]
      exact resume_item _ _ _ (by simpa using h)
    · obtain ⟨k1, k2, k3⟩ := (step_alone hb).2 h1 hc1
      rw [k1, List.append_nil] at h
      exact k3.trans (ih ha' hc' h)

theorem pops_inside (xs : List (Mat3 ℝ)) : ∀ {m s : TState}, Same s (inside m xs) → Same ((fun t : TState => t.pop.st)^[xs.length] s) m := by
  induction xs with
  | nil => intro m s h; exact h
  | cons x xs ih =>
    intro m s h
    rw [inside_cons] at h
    rw [List.length_cons, Function.iterate_succ_apply']
    exact (pop_same (ih h)).2.trans (leave_same m x).2

/-- C78: dropping `iter_elems` of a group (made of groups and basic shapes) after its `n`-th item restores nothing: the transform object
stays as it is inside of all the groups around this item, with one matrix more on the stack for each of them; that many calls of `pop`
give it back as it was. -/
theorem C78_group_drop (sys : Sys) (i j : ℕ) (ops : List Op) (h : Hdr) (hidden : Bool) (es : List (Str × Elem))
    (hg : sys.gens i = (⟨acts (.group h hidden es) none, 0⟩, j)) (hn : Named (.group h hidden es)) (hh : NoHoles (.group h hidden es))
    (ha : Alone sys i j ops) (hc : .close i ∉ ops) (n : ℕ) (hk : asks i ops = n + 1) (p : List Str × List (Mat3 ℝ) × Elem)
    (hp : (parts (.group h hidden es))[n]? = some p) :
    let s := (run sys (ops ++ [.close i])).1.mats j
    (run sys (ops ++ [.close i])).2 = (run sys ops).2 ++ [.closed i none] ∧
    Same s (inside (sys.mats j) p.2.1) ∧ s.mat = p.2.1.foldl Mat3.mul (sys.mats j).mat ∧
    s.stack.length = (sys.mats j).stack.length + p.2.1.length ∧
    Same ((fun t : TState => t.pop.st)^[p.2.1.length] s) (sys.mats j) := by
  intro s
  have hw := unguarded_run ops ha (by rw [hg]) (by rw [hg]; exact acts_unguarded _ none hh)
  have hj : ((run sys ops).1.gens i).2 = j := (alone_run ops [] (by simpa using ha)).1
  obtain ⟨-, -, k3, k4⟩ := step_close hj
  rw [hw] at k3 k4
  have hlen := nextsOf_length i ops sys
  rw [hk] at hlen
  have hlt : n < (nextsOf i (run sys ops).2).length := by omega
  have hget := List.getElem?_eq_getElem hlt
  have hs := C78_schedule ops ha hc
  rw [hg] at hs
  simp only at hs
  rw [(drain_group h hidden es (sys.mats j) hn).1] at hs
  have hval := hs.1 n _ hget
  rw [List.getD_eq_getElem?_getD, List.getElem?_append_left (by simpa using (List.getElem?_eq_some_iff.1 hp).1),
    List.getElem?_map, hp] at hval
  have hlast : (nextsOf i (run sys ops).2).getLast? = some (.item (joinDots p.1) p.2.2 (inside (sys.mats j) p.2.1).mat
      (inside (sys.mats j) p.2.1).stack) := by
    rw [List.getLast?_eq_getElem?, hlen, Nat.add_sub_cancel, hget, hval]
    rfl
  have hsame := last_item ops ha hc hlast
  have hss : s = (run sys ops).1.mats j := by
    simp only [s]
    rw [run_append]
    simp only [run]
    rw [k3]
    rfl
  have hS : Same s (inside (sys.mats j) p.2.1) := by rw [hss]; exact hsame
  have hmat : ∀ (xs : List (Mat3 ℝ)) (s : TState), (inside s xs).mat = xs.foldl Mat3.mul s.mat ∧
      (inside s xs).stack.length = s.stack.length + xs.length := by
    intro xs
    induction xs with
    | nil => intro s; exact ⟨rfl, rfl⟩
    | cons x xs ih =>
      intro s
      rw [inside_cons, (ih _).1, (ih _).2]
      refine ⟨rfl, ?_⟩
      simp [TState.push, TState.compose]
      omega
  refine ⟨?_, hS, by rw [hS.1, (hmat _ _).1], by rw [hS.2, (hmat _ _).2], pops_inside _ hS⟩
  rw [run_append]
  simp only [run, List.append_nil]
  rw [k4]
  rfl

/-- C78: after `close`, a generator only raises `StopIteration` and leaves its transform object alone. -/
theorem C78_closed (sys : Sys) (i j : ℕ) (ops : List Op) (ha : Alone sys i j (.close i :: ops)) :
    (∀ o ∈ nextsOf i (run sys (.close i :: ops)).2, o = .stop) ∧
      Same ((run sys (.close i :: ops)).1.mats j) ((run sys [.close i]).1.mats j) := by
  obtain ⟨k1, k2, -⟩ := step_close ha.1
  obtain ⟨e1, e2⟩ := ended ops (step_alone ha).1 k2
  simp only [run]
  rw [nextsOf_append, k1, List.nil_append]
  exact ⟨e1, e2⟩

/-- C78: a loop over a whole generator is balanced: it may stand in the body of a loop over another one, on the same transform object. -/
theorem C78_nested (h : Hdr) (hidden : Bool) (es : List (Str × Elem)) (hn : Named (.group h hidden es)) (e : Elem) (root : Option Str)
    (he : (∃ h hd es, e = .group h hd es) ∨ ∃ h o ins, e = .holes h o ins) :
    Balanced (fun s => (drain (acts (.group h hidden es) none) 0 s).2) ∧ Balanced (fun s => (drain (actsXf e root) 0 s).2) := by
  refine ⟨fun s => (drain_group h hidden es s hn).2, fun s => ?_⟩
  simp only [drain_xf e root s he]
  exact ⟨rfl, rfl⟩

/-! ### Examples -/

def shift : Mat3 ℝ := Mat3.of6 1 0 1 0 1 0

def dot : Elem := .curve ⟨['d'], ⟨none, none⟩, false, Mat3.one⟩ []

def one : Elem := .group ⟨['g'], ⟨none, none⟩, false, shift⟩ false [(['d'], dot)]

/-- Two generators on the transform objects `0` and `j`. -/
def two (j : ℕ) : Sys := ⟨fun _ => TState.new, fun i => (⟨acts one none, 0⟩, if i = 0 then 0 else i + j)⟩

/-- The hypotheses hold of two generators with a transform object each, asked in turn. -/
example : Alone (two 0) 0 0 [.next 0, .next 1, .use 0 (fun s => (s.push.compose shift).pop.st), .next 0, .next 1, .close 1] ∧
    Named one ∧ NoHoles one := by
  refine ⟨⟨rfl, ?_, ?_⟩, ?_, ?_⟩
  · intro i hi
    simp [two, hi]
  · intro j f hf
    simp at hf
    obtain ⟨rfl, rfl⟩ := hf
    intro s
    exact (leave_same s shift).2
  · simp [Named, one, NamedAll, dot]
  · simp [NoHoles, one, NoHolesAll, dot]

/-- C78 does not hold of two generators on one transform object: the second one sees what the first one has done to it. -/
theorem C78_shared_counterexample : ∃ (sys : Sys) (h : Hdr) (es : List (Str × Elem)), Named (.group h false es) ∧
    (∀ i, sys.gens i = (⟨acts (.group h false es) none, 0⟩, 0)) ∧
    ∃ p n e mt st, (parts (.group h false es))[0]? = some p ∧ nextsOf 1 (run sys [.next 0, .next 1]).2 = [.item n e mt st] ∧
      mt ≠ p.2.1.foldl Mat3.mul (sys.mats 0).mat := by
  refine ⟨⟨fun _ => TState.new, fun _ => (⟨acts one none, 0⟩, 0)⟩, ⟨['g'], ⟨none, none⟩, false, shift⟩, [(['d'], dot)], ?_, fun _ => rfl,
    (["g".toList, "d".toList], [shift], dot), "g.d".toList, dot, (Mat3.one.mul shift).mul shift, [Mat3.one.mul shift, Mat3.one], ?_, ?_, ?_⟩
  · simp [Named, NamedAll, dot]
  · simp [parts, partsAll, dot]
  · simp [run, step, resume, acts, actsAll, actsLeaf, one, dot, nextsOf, rootName, TState.new, TState.push, TState.compose, hdr]
  · intro h
    have := congrArg Mat3.c h
    simp [shift, Mat3.mul, Mat3.of6, Mat3.one, TState.new] at this

/-- C78: a loop over `iter_elems` of a group that is left early (`break`, or an exception in its body) leaves the transform object changed. -/
theorem C78_break_counterexample : ∃ (sys : Sys) (h : Hdr) (es : List (Str × Elem)), Named (.group h false es) ∧
    sys.gens 0 = (⟨acts (.group h false es) none, 0⟩, 0) ∧ (run sys [.next 0, .close 0]).1.mats 0 ≠ sys.mats 0 ∧
    (run sys [.next 0, .close 0]).1.mats 0 ≠ (run sys [.next 0, .next 0]).1.mats 0 := by
  refine ⟨⟨fun _ => TState.new, fun _ => (⟨acts one none, 0⟩, 0)⟩, ⟨['g'], ⟨none, none⟩, false, shift⟩, [(['d'], dot)], ?_, rfl, ?_, ?_⟩
  · simp [Named, NamedAll, dot]
  · simp [run, step, resume, close, unwind, acts, actsAll, actsLeaf, one, dot, rootName, TState.new, TState.push, TState.compose]
  · simp [run, step, resume, close, unwind, acts, actsAll, actsLeaf, one, dot, rootName, TState.new, TState.push, TState.compose, TState.pop]

end X7.Iter
