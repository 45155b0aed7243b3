import Verif.Lemmas.XfHeap

noncomputable section

namespace X7.XH

/-- What a call on Transform `i` leaves alone. -/
structure On (h h' : Heap) (i : ℕ) (s : TState) : Prop where
  own : Own h'
  self : state h' i = some s
  rest : ∀ j, j ≠ i → state h' j = state h j
  mats : ∀ k, matrixOf h' k = matrixOf h k
  arrs : ∀ x m, arrayOf h x = some m → arrayOf h' x = some m
  len : h'.ts.length = h.ts.length

theorem on_of_eff {h h' : Heap} {i : ℕ} {f : TState → TState} {s : TState} (e : Eff h h' i f) (hs : state h i = some s) : On h h' i (f s) :=
  ⟨e.own, by rw [e.self, hs]; rfl, e.rest, e.mats, fun x m hx => (e.arrs x).trans hx, e.len⟩

theorem t_of_state {h : Heap} {i : ℕ} {s : TState} (hs : state h i = some s) : ∃ t, h.ts[i]? = some t := by
  cases hi : h.ts[i]? with
  | none => simp [state, hi] at hs
  | some t => exact ⟨t, rfl⟩

theorem untr_ok {s : TState} {m : Mat3 ℝ} (h : s.inverse.2 = .ok m) (p : Pt ℝ) : (s.untransform p).2 = .ok (m.apply p) := by
  unfold TState.untransform
  rcases hi : s.inverse with ⟨s', _ | _⟩ <;> rw [hi] at h <;> cases h
  rfl

theorem untr_err {s : TState} {e : PyErr} (h : s.inverse.2 = .error e) (p : Pt ℝ) : (s.untransform p).2 = .error e := by
  unfold TState.untransform
  rcases hi : s.inverse with ⟨s', _ | _⟩ <;> rw [hi] at h <;> cases h
  rfl

theorem untr_st (s : TState) (p : Pt ℝ) : (s.untransform p).1 = s.inverse.1 := by
  unfold TState.untransform
  rcases hi : s.inverse with ⟨s', _ | _⟩ <;> rfl

theorem held_more {h : Heap} (H : Own h) {a : ℕ} (ha : a < h.arrs.length) (hn : ¬ OwnArr h a) :
    Own ⟨h.arrs, h.mats, h.ts, h.user, h.held ++ [a]⟩ := by
  refine own_user (h' := ⟨h.arrs, h.mats, h.ts, h.user, h.held ++ [a]⟩) H rfl (le_refl _) (le_refl _) (fun _ _ => rfl) H.mats_lt H.user_nodup
    (fun u hu => ⟨H.user_lt u hu, H.user_apart u hu, H.user_arr u hu⟩) fun b hb => ?_
  rcases List.mem_append.1 hb with hb | hb
  · exact ⟨H.held_lt b hb, H.held_arr b hb⟩
  · obtain rfl : b = a := by simpa using hb
    exact ⟨ha, hn⟩

theorem arrayOf_more {h : Heap} {x : ℕ} {m : Mat3 ℝ} (l : List ℕ) (hx : arrayOf h x = some m) :
    arrayOf ⟨h.arrs, h.mats, h.ts, h.user, h.held ++ l⟩ x = some m := by
  simp only [arrayOf] at hx ⊢
  cases ha : h.held[x]? with
  | none => simp [ha] at hx
  | some a =>
    rw [ha] at hx
    rw [List.getElem?_append_left (lt_of ha), ha]
    exact hx

/-- A call on a Transform does to it what the call does to its value, raises what that raises, and does nothing else. -/
theorem step_on {h : Heap} (H : Own h) {op : Op} {i : ℕ} {o : TOp} {s : TState} (ha : asked h op = some (i, o)) (hs : state h i = some s) :
    On h (step h op).1 i (s.step o).st ∧ (step h op).2 = (s.step o).err := by
  obtain ⟨t, hi⟩ := t_of_state hs
  have hs' := state_of (h := h) hi
  cases op with
  | new => cases ha
  | new6 => cases ha
  | copy => cases ha
  | newM => cases ha
  | copyM => cases ha
  | inverseM => cases ha
  | preM => cases ha
  | postM => cases ha
  | ndmat => cases ha
  | assignM => cases ha
  | array => cases ha
  | write => cases ha
  | translate j dx dy =>
    cases ha
    simp only [step, onT, hi]
    exact ⟨on_of_eff (eff_translate H hi dx dy) hs, rfl⟩
  | scale j sx sy =>
    cases ha
    simp only [step, onT, hi]
    exact ⟨on_of_eff (eff_scale H hi sx sy) hs, rfl⟩
  | rotate j d =>
    cases ha
    simp only [step, onT, hi]
    exact ⟨on_of_eff (eff_pre_clear H hi _) hs, rfl⟩
  | rotateCcw j d =>
    cases ha
    simp only [step, onT, hi]
    exact ⟨on_of_eff (eff_pre_clear H hi _) hs, rfl⟩
  | rotateAbout j d c =>
    cases ha
    simp only [step, onT, hi]
    exact ⟨on_of_eff (eff_preDot H hi _) hs, rfl⟩
  | scaleBBox j a b k =>
    cases ha
    simp only [step, onT, hi]
    have e := eff_scaleBBox H hi a b k
    exact ⟨on_of_eff e.1 hs, e.2 s⟩
  | composeT j k =>
    cases hk : h.ts[k]? with
    | none => simp [asked, state, hk] at ha
    | some u =>
      rw [asked, state_of hk] at ha
      cases ha
      simp only [step, onT, hi, hk]
      have e := eff_trans (eff_postDot H hi (h.mat u.mat)) (eff_clear (eff_postDot H hi (h.mat u.mat)).own i)
      exact ⟨on_of_eff e hs, rfl⟩
  | composeM j k =>
    cases hk : h.user[k]? with
    | none => simp [asked, matrixOf, hk] at ha
    | some u =>
      simp only [asked, matrixOf, hk, Option.map_some] at ha
      cases ha
      simp only [step, onT, hi, hk]
      have e := eff_trans (eff_postDot H hi (h.mat u)) (eff_clear (eff_postDot H hi (h.mat u)).own i)
      exact ⟨on_of_eff e hs, rfl⟩
  | outerT j k =>
    cases hk : h.ts[k]? with
    | none => simp [asked, state, hk] at ha
    | some u =>
      rw [asked, state_of hk] at ha
      cases ha
      simp only [step, onT, hi, hk]
      exact ⟨on_of_eff (eff_pre_clear H hi (h.mat u.mat)) hs, rfl⟩
  | outerM j k =>
    cases hk : h.user[k]? with
    | none => simp [asked, matrixOf, hk] at ha
    | some u =>
      simp only [asked, matrixOf, hk, Option.map_some] at ha
      cases ha
      simp only [step, onT, hi, hk]
      exact ⟨on_of_eff (eff_pre_clear H hi (h.mat u)) hs, rfl⟩
  | reset j =>
    cases ha
    simp only [step, onT, hi]
    exact ⟨on_of_eff (eff_reset H hi) hs, rfl⟩
  | setMatrix j k =>
    cases hk : h.ts[k]? with
    | none => simp [asked, state, hk] at ha
    | some u =>
      rw [asked, state_of hk] at ha
      cases ha
      simp only [step, onT, hi, hk]
      exact ⟨on_of_eff (eff_setMatrix H hi u.mat) hs, rfl⟩
  | push j =>
    cases ha
    simp only [step, onT, hi]
    exact ⟨on_of_eff (eff_push H hi) hs, rfl⟩
  | pop j =>
    cases ha
    have e := eff_pop H hi
    exact ⟨on_of_eff e.1 hs, e.2 s hs⟩
  | untransform j p =>
    cases ha
    obtain ⟨e1, e2⟩ := eff_inverse H hi
    have e := on_of_eff e1 hs
    obtain ⟨e3, e4⟩ := e2 s hs
    simp only [step, TState.step, untransform, untr_st]
    rcases hv : inverse h i with ⟨h', er | a⟩ <;> rw [hv] at e e3 e4
    · exact ⟨e, by rw [untr_err ((e4 er).1 rfl)]⟩
    · exact ⟨e, by rw [untr_ok (e3 a rfl).1]⟩
  | inverse j =>
    cases ha
    obtain ⟨e1, e2⟩ := eff_inverse H hi
    have e := on_of_eff e1 hs
    obtain ⟨e3, e4⟩ := e2 s hs
    simp only [step, TState.step, untr_st]
    rcases hv : inverse h i with ⟨h', er | a⟩ <;> rw [hv] at e e3 e4
    · exact ⟨e, by rw [untr_err ((e4 er).1 rfl)]⟩
    · obtain ⟨h1, t', h2, h3⟩ := e3 a rfl
      refine ⟨⟨held_more e.own (e.own.inv_lt i t' a h2 h3) (e.own.inv_arr i t' a h2 h3), e.self, e.rest, e.mats,
        fun x m hx => arrayOf_more _ (e.arrs x m hx), e.len⟩, by rw [untr_ok h1]⟩

/-- A call on a Transform that is not there changes nothing. -/
theorem step_missing {h : Heap} {op : Op} {i : ℕ} {o : TOp} (ha : asked h op = some (i, o)) (hs : state h i = none) : (step h op) = (h, some .attribute) := by
  have hi : h.ts[i]? = none := by
    cases hi : h.ts[i]? with
    | none => rfl
    | some t => simp [state, hi] at hs
  cases op with
  | composeT j k =>
    cases hk : h.ts[k]? with
    | none => simp [asked, state, hk] at ha
    | some u => rw [asked, state_of hk] at ha; cases ha; simp [step, onT, hi]
  | composeM j k =>
    cases hk : h.user[k]? with
    | none => simp [asked, matrixOf, hk] at ha
    | some u => simp only [asked, matrixOf, hk, Option.map_some] at ha; cases ha; simp [step, onT, hi]
  | outerT j k =>
    cases hk : h.ts[k]? with
    | none => simp [asked, state, hk] at ha
    | some u => rw [asked, state_of hk] at ha; cases ha; simp [step, onT, hi]
  | outerM j k =>
    cases hk : h.user[k]? with
    | none => simp [asked, matrixOf, hk] at ha
    | some u => simp only [asked, matrixOf, hk, Option.map_some] at ha; cases ha; simp [step, onT, hi]
  | setMatrix j k =>
    cases hk : h.ts[k]? with
    | none => simp [asked, state, hk] at ha
    | some u => rw [asked, state_of hk] at ha; cases ha; simp [step, onT, hi]
  | _ => first
    | (cases ha; done)
    | (cases ha; simp [step, onT, pop, inverse, untransform, hi])

/-! ### The other operations -/

/-- A new Matrix of the program. -/
theorem own_newM {h : Heap} (H : Own h) (m : Mat3 ℝ) : Own ⟨h.arrs ++ [m], h.mats ++ [h.arrs.length], h.ts, h.user ++ [h.mats.length], h.held⟩ := by
  refine own_user (h' := ⟨h.arrs ++ [m], h.mats ++ [h.arrs.length], h.ts, h.user ++ [h.mats.length], h.held⟩) H rfl (by simp) (by simp) ?_ ?_ ?_ ?_ ?_
  · rintro k ⟨i, t, hi, hk⟩
    exact List.getElem?_append_left (H.t_lt i t hi k hk)
  · intro k a hk
    simp only [List.length_append, List.length_singleton]
    rcases append_cases' hk with h1 | ⟨-, h1⟩
    · have := H.mats_lt k a h1; omega
    · omega
  · refine List.nodup_append.2 ⟨H.user_nodup, by simp, fun a ha b hb => ?_⟩
    have := H.user_lt a ha
    simp at hb
    omega
  · intro u hu
    simp only [List.length_append, List.length_singleton]
    rcases List.mem_append.1 hu with hu | hu
    · have hlt := H.user_lt u hu
      refine ⟨by omega, H.user_apart u hu, fun a ha => ?_⟩
      rw [List.getElem?_append_left hlt] at ha
      exact H.user_arr u hu a ha
    · obtain rfl : u = h.mats.length := by simpa using hu
      refine ⟨by omega, ?_, fun a ha => ?_⟩
      · rintro ⟨i, t, hi, hk⟩
        have := H.t_lt i t hi _ hk
        omega
      · simp at ha
        subst ha
        exact fun ho => absurd (ownArr_lt H ho) (lt_irrefl _)
  · intro a ha
    have := H.held_lt a ha
    exact ⟨by simp; omega, H.held_arr a ha⟩

/-- A Matrix of the program is made to refer to another array. -/
theorem own_assign {h : Heap} (H : Own h) {l : List (Mat3 ℝ)} {u a : ℕ} (hu : u ∈ h.user) (ha : a < (h.arrs ++ l).length) (hn : ¬ OwnArr h a) :
    Own ⟨h.arrs ++ l, h.mats.set u a, h.ts, h.user, h.held⟩ := by
  have hne : ∀ k, Owner h k → u ≠ k := fun k hk he => H.user_apart u hu (he ▸ hk)
  refine own_user (h' := ⟨h.arrs ++ l, h.mats.set u a, h.ts, h.user, h.held⟩) H rfl (by simp) (by simp) (fun k hk => List.getElem?_set_ne (hne k hk)) ?_ H.user_nodup ?_ ?_
  · intro k b hk
    simp only at hk ⊢
    by_cases hku : u = k
    · subst hku
      rw [List.getElem?_set_self (H.user_lt u hu)] at hk
      cases hk
      exact ha
    · rw [List.getElem?_set_ne hku] at hk
      have := H.mats_lt k b hk
      simp; omega
  · intro k hk
    refine ⟨by simpa using H.user_lt k hk, H.user_apart k hk, fun b hb => ?_⟩
    simp only at hb
    by_cases hku : u = k
    · subst hku
      rw [List.getElem?_set_self (H.user_lt u hu)] at hb
      cases hb
      exact hn
    · rw [List.getElem?_set_ne hku] at hb
      exact H.user_arr k hk b hb
  · intro b hb
    have := H.held_lt b hb
    exact ⟨by simp; omega, H.held_arr b hb⟩

theorem own_array {h : Heap} (H : Own h) (m : Mat3 ℝ) : Own ⟨h.arrs ++ [m], h.mats, h.ts, h.user, h.held ++ [h.arrs.length]⟩ := by
  refine own_user (h' := ⟨h.arrs ++ [m], h.mats, h.ts, h.user, h.held ++ [h.arrs.length]⟩) H rfl (by simp) (le_refl _) (fun _ _ => rfl) ?_ H.user_nodup
    (fun u hu => ⟨H.user_lt u hu, H.user_apart u hu, H.user_arr u hu⟩) ?_
  · intro k a hk
    have := H.mats_lt k a hk
    simp; omega
  · intro a ha
    rcases List.mem_append.1 ha with ha | ha
    · have := H.held_lt a ha
      exact ⟨by simp; omega, H.held_arr a ha⟩
    · obtain rfl : a = h.arrs.length := by simpa using ha
      exact ⟨by simp, fun ho => absurd (ownArr_lt H ho) (lt_irrefl _)⟩

theorem own_write {h : Heap} (H : Own h) (a : ℕ) (m : Mat3 ℝ) : Own ⟨h.arrs.set a m, h.mats, h.ts, h.user, h.held⟩ :=
  own_user (h' := ⟨h.arrs.set a m, h.mats, h.ts, h.user, h.held⟩) H rfl (by simp) (le_refl _) (fun _ _ => rfl)
    (fun k b hk => by simpa using H.mats_lt k b hk) H.user_nodup
    (fun u hu => ⟨H.user_lt u hu, H.user_apart u hu, H.user_arr u hu⟩) fun b hb => ⟨by simpa using H.held_lt b hb, H.held_arr b hb⟩

theorem not_own_new {h : Heap} (H : Own h) : ¬ OwnArr h h.arrs.length := fun ho => absurd (ownArr_lt H ho) (lt_irrefl _)

theorem own_copy {h : Heap} (H : Own h) {i : ℕ} {t : TObj} (hi : h.ts[i]? = some t) :
    On (newT h (Mat3.of6 (h.mat t.mat).a (h.mat t.mat).b (h.mat t.mat).c (h.mat t.mat).d (h.mat t.mat).e (h.mat t.mat).f)) (copy h t) h.ts.length ⟨h.mat t.mat, none, []⟩ := by
  have hs := newT_state H (Mat3.of6 (h.mat t.mat).a (h.mat t.mat).b (h.mat t.mat).c (h.mat t.mat).d (h.mat t.mat).e (h.mat t.mat).f) h.ts.length
  rw [if_pos rfl] at hs
  obtain ⟨t', ht'⟩ := t_of_state hs
  have e := on_of_eff (eff_setMatrix (own_newT H _) ht' t.mat) hs
  rw [newT_mat H (H.t_lt i t hi _ (by simp))] at e
  exact e

theorem step_own {h : Heap} (H : Own h) (op : Op) : Own (step h op).1 := by
  cases ha : asked h op with
  | some p =>
    obtain ⟨i, o⟩ := p
    cases hs : state h i with
    | some s => exact (step_on H ha hs).1.own
    | none => rw [step_missing ha hs]; exact H
  | none =>
    cases op with
    | new => exact own_newT H _
    | new6 => exact own_newT H _
    | copy i =>
      simp only [step, onT]
      cases hi : h.ts[i]? with
      | none => exact H
      | some t => exact (own_copy H hi).own
    | translate => cases ha
    | scale => cases ha
    | rotate => cases ha
    | rotateCcw => cases ha
    | rotateAbout => cases ha
    | scaleBBox => cases ha
    | reset => cases ha
    | push => cases ha
    | pop => cases ha
    | untransform => cases ha
    | inverse => cases ha
    | composeT i j =>
      simp only [step, onT]
      cases hi : h.ts[i]? with
      | none => exact H
      | some t => cases hj : h.ts[j]? with
        | none => exact H
        | some u => simp [asked, state, hj] at ha
    | outerT i j =>
      simp only [step, onT]
      cases hi : h.ts[i]? with
      | none => exact H
      | some t => cases hj : h.ts[j]? with
        | none => exact H
        | some u => simp [asked, state, hj] at ha
    | setMatrix i j =>
      simp only [step, onT]
      cases hi : h.ts[i]? with
      | none => exact H
      | some t => cases hj : h.ts[j]? with
        | none => exact H
        | some u => simp [asked, state, hj] at ha
    | composeM i k =>
      simp only [step, onT]
      cases hi : h.ts[i]? with
      | none => exact H
      | some t => cases hk : h.user[k]? with
        | none => exact H
        | some u => simp [asked, matrixOf, hk] at ha
    | outerM i k =>
      simp only [step, onT]
      cases hi : h.ts[i]? with
      | none => exact H
      | some t => cases hk : h.user[k]? with
        | none => exact H
        | some u => simp [asked, matrixOf, hk] at ha
    | newM m => exact own_newM H m
    | copyM k =>
      simp only [step]
      cases hk : h.user[k]? with
      | none => exact H
      | some u => exact own_newM H _
    | inverseM k =>
      simp only [step]
      cases hk : h.user[k]? with
      | none => exact H
      | some u => cases hm : (h.mat u).inv with
        | error e => simpa only [hm] using H
        | ok m => simpa only [hm] using own_newM H m
    | preM k x =>
      simp only [step]
      cases hk : h.user[k]? with
      | none => exact H
      | some u => cases hx : h.held[x]? with
        | none => exact H
        | some a => exact own_assign H (l := [_]) (List.mem_of_getElem? hk) (by simp) (not_own_new H)
    | postM k x =>
      simp only [step]
      cases hk : h.user[k]? with
      | none => exact H
      | some u => cases hx : h.held[x]? with
        | none => exact H
        | some a => exact own_assign H (l := [_]) (List.mem_of_getElem? hk) (by simp) (not_own_new H)
    | ndmat k =>
      simp only [step]
      cases hk : h.user[k]? with
      | none => exact H
      | some u =>
        have hu := List.mem_of_getElem? hk
        obtain ⟨a, hau⟩ := some_of_lt (H.user_lt u hu)
        simp only [hau, Option.getD_some]
        exact held_more H (H.mats_lt u a hau) (H.user_arr u hu a hau)
    | assignM k x =>
      simp only [step]
      cases hk : h.user[k]? with
      | none => exact H
      | some u => cases hx : h.held[x]? with
        | none => exact H
        | some a =>
          have hx' := List.mem_of_getElem? hx
          have := own_assign H (l := []) (List.mem_of_getElem? hk) (by simpa using H.held_lt a hx') (H.held_arr a hx')
          simpa using this
    | array m => exact own_array H m
    | write x m =>
      simp only [step]
      cases hx : h.held[x]? with
      | none => exact H
      | some a => exact own_write H a m

theorem run_own {h : Heap} (H : Own h) (ops : List Op) : Own (run h ops) := by
  induction ops generalizing h with
  | nil => exact H
  | cons op ops ih => exact ih (step_own H op)

/-- An operation which is no call on an existing Transform, and what it does to existing Transforms. -/
theorem step_other {h : Heap} (H : Own h) {op : Op} (ha : asked h op = none) {j : ℕ} {s : TState} (hs : state h j = some s) :
    ∃ s', state (step h op).1 j = some s' ∧ SameXf s s' ∧ (¬ Spoils h j op → s' = s) := by
  have same : ∀ h' : Heap, state h' j = state h j → ∃ s', state h' j = some s' ∧ SameXf s s' ∧ (¬ Spoils h j op → s' = s) :=
    fun h' he => ⟨s, he.trans hs, ⟨rfl, rfl⟩, fun _ => rfl⟩
  obtain ⟨t, ht⟩ := t_of_state hs
  have hjl : j ≠ h.ts.length := by have := lt_of ht; omega
  have more : ∀ (l : List (Mat3 ℝ)) (ms : List ℕ) (us hs : List ℕ), (∀ k, Owner h k → ms[k]? = h.mats[k]?) →
      state ⟨h.arrs ++ l, ms, h.ts, us, hs⟩ j = state h j := fun l ms us hs hk =>
    state_user_eq (h' := ⟨h.arrs ++ l, ms, h.ts, us, hs⟩) H rfl hk (fun a ha => by simp [Heap.arr, List.getElem?_append_left ha]) j
  have hmore : ∀ k, Owner h k → (h.mats ++ [h.arrs.length])[k]? = h.mats[k]? := by
    rintro k ⟨i, t, hi, hk⟩
    exact List.getElem?_append_left (H.t_lt i t hi k hk)
  have hset : ∀ u a, u ∈ h.user → ∀ k, Owner h k → (h.mats.set u a)[k]? = h.mats[k]? := by
    intro u a hu k hk
    have : u ≠ k := fun he => H.user_apart u hu (he ▸ hk)
    exact List.getElem?_set_ne this
  cases op with
  | new => exact same _ ((newT_state H _ j).trans (if_neg hjl))
  | new6 => exact same _ ((newT_state H _ j).trans (if_neg hjl))
  | copy i =>
    simp only [step, onT]
    cases hi : h.ts[i]? with
    | none => exact same _ rfl
    | some t => exact same _ (((own_copy H hi).rest j hjl).trans ((newT_state H _ j).trans (if_neg hjl)))
  | translate => cases ha
  | scale => cases ha
  | rotate => cases ha
  | rotateCcw => cases ha
  | rotateAbout => cases ha
  | scaleBBox => cases ha
  | reset => cases ha
  | push => cases ha
  | pop => cases ha
  | untransform => cases ha
  | inverse => cases ha
  | composeT i j =>
    simp only [step, onT]
    cases hi : h.ts[i]? with
    | none => exact same _ rfl
    | some t => cases hj : h.ts[j]? with
      | none => exact same _ rfl
      | some u => simp [asked, state, hj] at ha
  | outerT i j =>
    simp only [step, onT]
    cases hi : h.ts[i]? with
    | none => exact same _ rfl
    | some t => cases hj : h.ts[j]? with
      | none => exact same _ rfl
      | some u => simp [asked, state, hj] at ha
  | setMatrix i j =>
    simp only [step, onT]
    cases hi : h.ts[i]? with
    | none => exact same _ rfl
    | some t => cases hj : h.ts[j]? with
      | none => exact same _ rfl
      | some u => simp [asked, state, hj] at ha
  | composeM i k =>
    simp only [step, onT]
    cases hi : h.ts[i]? with
    | none => exact same _ rfl
    | some t => cases hk : h.user[k]? with
      | none => exact same _ rfl
      | some u => simp [asked, matrixOf, hk] at ha
  | outerM i k =>
    simp only [step, onT]
    cases hi : h.ts[i]? with
    | none => exact same _ rfl
    | some t => cases hk : h.user[k]? with
      | none => exact same _ rfl
      | some u => simp [asked, matrixOf, hk] at ha
  | newM m => exact same _ (more _ _ _ _ hmore)
  | copyM k =>
    simp only [step]
    cases hk : h.user[k]? with
    | none => exact same _ rfl
    | some u => exact same _ (more _ _ _ _ hmore)
  | inverseM k =>
    simp only [step]
    cases hk : h.user[k]? with
    | none => exact same _ rfl
    | some u => cases hm : (h.mat u).inv with
      | error e => simp only [hm]; exact same _ rfl
      | ok m => simp only [hm]; exact same _ (more _ _ _ _ hmore)
  | preM k x =>
    simp only [step]
    cases hk : h.user[k]? with
    | none => exact same _ rfl
    | some u => cases hx : h.held[x]? with
      | none => exact same _ rfl
      | some a => exact same _ (more _ _ _ _ (hset u _ (List.mem_of_getElem? hk)))
  | postM k x =>
    simp only [step]
    cases hk : h.user[k]? with
    | none => exact same _ rfl
    | some u => cases hx : h.held[x]? with
      | none => exact same _ rfl
      | some a => exact same _ (more _ _ _ _ (hset u _ (List.mem_of_getElem? hk)))
  | ndmat k =>
    simp only [step]
    cases hk : h.user[k]? with
    | none => exact same _ rfl
    | some u => exact same _ rfl
  | assignM k x =>
    simp only [step]
    cases hk : h.user[k]? with
    | none => exact same _ rfl
    | some u => cases hx : h.held[x]? with
      | none => exact same _ rfl
      | some a =>
        have := more [] _ h.user h.held (hset u a (List.mem_of_getElem? hk))
        rw [List.append_nil] at this
        exact same _ this
  | array m => exact same _ (more _ _ _ _ fun _ _ => rfl)
  | write x m =>
    simp only [step]
    cases hx : h.held[x]? with
    | none => exact same _ rfl
    | some a =>
      have hw := state_user (h' := ⟨h.arrs.set a m, h.mats, h.ts, h.user, h.held⟩) H rfl (fun _ _ => rfl) (fun b hb => by
        have : a ≠ b := fun he => H.held_arr a (List.mem_of_getElem? hx) (he ▸ hb)
        simp [Heap.arr, List.getElem?_set_ne this]) j
      rw [ht, Option.map_some] at hw
      rw [state_of ht] at hs
      cases hs
      refine ⟨_, hw, ⟨rfl, rfl⟩, fun hsp => ?_⟩
      simp only [TState.mk.injEq, true_and, and_true]
      cases hv : t.inv with
      | none => rfl
      | some b =>
        have : a ≠ b := fun he => hsp ⟨x, m, t, b, rfl, ht, hv, by rw [hx, he]⟩
        simp [Heap.arr, List.getElem?_set_ne this]

end X7.XH
