import Verif.Spec.XfHeap

noncomputable section

namespace X7.XH

/-- `k` is a Matrix of some Transform: the current one or a saved one. -/
def Owner (h : Heap) (k : ℕ) : Prop := ∃ (i : ℕ) (t : TObj), h.ts[i]? = some t ∧ k ∈ t.mat :: t.stack

/-- `a` is the array of such a Matrix. -/
def OwnArr (h : Heap) (a : ℕ) : Prop := ∃ k, Owner h k ∧ h.mats[k]? = some a

/-- References refer to something; no Matrix belongs to two Transforms, or twice to one, or to a Transform and the program; the arrays of those Matrix
objects are not in the hands of the program and not the inverse of a Transform; no two Transforms keep the same array as inverse. -/
structure Own (h : Heap) : Prop where
  mats_lt : ∀ (k a : ℕ), h.mats[k]? = some a → a < h.arrs.length
  t_lt : ∀ (i : ℕ) (t : TObj), h.ts[i]? = some t → ∀ k ∈ t.mat :: t.stack, k < h.mats.length
  inv_lt : ∀ (i : ℕ) (t : TObj) (a : ℕ), h.ts[i]? = some t → t.inv = some a → a < h.arrs.length
  user_lt : ∀ u ∈ h.user, u < h.mats.length
  held_lt : ∀ a ∈ h.held, a < h.arrs.length
  user_nodup : h.user.Nodup
  nodup : ∀ (i : ℕ) (t : TObj), h.ts[i]? = some t → (t.mat :: t.stack).Nodup
  apart : ∀ (i j : ℕ) (t u : TObj), i ≠ j → h.ts[i]? = some t → h.ts[j]? = some u → ∀ k ∈ t.mat :: t.stack, k ∉ u.mat :: u.stack
  user_apart : ∀ u ∈ h.user, ¬ Owner h u
  user_arr : ∀ u ∈ h.user, ∀ a, h.mats[u]? = some a → ¬ OwnArr h a
  held_arr : ∀ a ∈ h.held, ¬ OwnArr h a
  inv_arr : ∀ (i : ℕ) (t : TObj) (a : ℕ), h.ts[i]? = some t → t.inv = some a → ¬ OwnArr h a
  inv_apart : ∀ (i j : ℕ) (t u : TObj) (a : ℕ), i ≠ j → h.ts[i]? = some t → h.ts[j]? = some u → t.inv = some a → u.inv ≠ some a

theorem own_empty : Own Heap.empty := by
  constructor <;> simp [Heap.empty, Owner, OwnArr]

theorem lt_of {α : Type} {l : List α} {i : ℕ} {a : α} (h : l[i]? = some a) : i < l.length := (List.getElem?_eq_some_iff.1 h).1

theorem ownArr_lt {h : Heap} (H : Own h) {a : ℕ} (ha : OwnArr h a) : a < h.arrs.length := by
  obtain ⟨k, -, h1⟩ := ha
  exact H.mats_lt k a h1

theorem mat_of {h : Heap} {k a : ℕ} (hk : h.mats[k]? = some a) : h.mat k = h.arr a := by simp [Heap.mat, hk]

theorem some_of_lt {α : Type} {l : List α} {i : ℕ} (h : i < l.length) : ∃ a, l[i]? = some a := ⟨l[i], List.getElem?_eq_getElem h⟩

theorem set_cases' {l : List TObj} {a b : TObj} {k i : ℕ} (h : (l.set k a)[i]? = some b) : (i = k ∧ b = a) ∨ (i ≠ k ∧ l[i]? = some b) := by
  by_cases hi : k = i
  · subst hi
    have hk : k < l.length := by simpa using lt_of h
    rw [List.getElem?_set_self hk] at h
    exact .inl ⟨rfl, by simpa using h.symm⟩
  · rw [List.getElem?_set_ne hi] at h
    exact .inr ⟨fun h => hi h.symm, h⟩

/-! ### A change of one Transform -/

/-- What a change of Transform `i` from `t` to `t'` may do to the other objects. -/
structure Change (h h' : Heap) (i : ℕ) (t t' : TObj) : Prop where
  hi : h.ts[i]? = some t
  ts : h'.ts = h.ts.set i t'
  user : h'.user = h.user
  held : h'.held = h.held
  arrs : ∃ l, h'.arrs = h.arrs ++ l
  len : h.mats.length ≤ h'.mats.length
  keep : ∀ k, k < h.mats.length → k ≠ t.mat → h'.mats[k]? = h.mats[k]?
  fresh : ∀ (k a : ℕ), h'.mats[k]? = some a → h.mats[k]? = some a ∨ (h.arrs.length ≤ a ∧ a < h'.arrs.length ∧ (k = t.mat ∨ h.mats.length ≤ k))
  refs : ∀ k ∈ t'.mat :: t'.stack, k < h'.mats.length ∧ (k ∈ t.mat :: t.stack ∨ h.mats.length ≤ k)
  nd : (t'.mat :: t'.stack).Nodup
  inv : ∀ a, t'.inv = some a → t.inv = some a ∨ (h.arrs.length ≤ a ∧ a < h'.arrs.length ∧ ∀ k : ℕ, h'.mats[k]? ≠ some a)

section
variable {h h' : Heap} {i : ℕ} {t t' : TObj}

theorem change_arr (c : Change h h' i t t') {a : ℕ} (ha : a < h.arrs.length) : h'.arr a = h.arr a := by
  obtain ⟨l, hl⟩ := c.arrs
  simp [Heap.arr, hl, List.getElem?_append_left ha]

theorem change_mat (H : Own h) (c : Change h h' i t t') {k : ℕ} (hk : k < h.mats.length) (hne : k ≠ t.mat) : h'.mat k = h.mat k := by
  obtain ⟨a, ha⟩ := some_of_lt hk
  rw [mat_of ha, mat_of ((c.keep k hk hne).trans ha), change_arr c (H.mats_lt k a ha)]

theorem change_owner (c : Change h h' i t t') {k : ℕ} (hk : Owner h' k) : Owner h k ∨ h.mats.length ≤ k := by
  obtain ⟨j, v, hv, hkv⟩ := hk
  rw [c.ts] at hv
  rcases set_cases' hv with ⟨rfl, rfl⟩ | ⟨-, hv⟩
  · rcases (c.refs k hkv).2 with h1 | h1
    · exact .inl ⟨_, t, c.hi, h1⟩
    · exact .inr h1
  · exact .inl ⟨j, v, hv, hkv⟩

theorem change_len (c : Change h h' i t t') : h.arrs.length ≤ h'.arrs.length := by
  obtain ⟨l, hl⟩ := c.arrs
  simp [hl]

theorem change_ownArr (H : Own h) (c : Change h h' i t t') {a : ℕ} (ha : OwnArr h' a) : OwnArr h a ∨ h.arrs.length ≤ a := by
  obtain ⟨k, hk, h1⟩ := ha
  rcases c.fresh k a h1 with h2 | ⟨h2, -⟩
  · rcases change_owner c hk with h3 | h3
    · exact .inl ⟨k, h3, h2⟩
    · have := lt_of h2; omega
  · exact .inr h2

theorem own_change (H : Own h) (c : Change h h' i t t') : Own h' := by
  have hlt := change_len c
  have hti : ∀ (j : ℕ) (v : TObj), h'.ts[j]? = some v → (j = i ∧ v = t') ∨ (j ≠ i ∧ h.ts[j]? = some v) := by
    intro j v hv
    rw [c.ts] at hv
    exact set_cases' hv
  have huf : ∀ u ∈ h.user, h'.mats[u]? = h.mats[u]? := fun u hu =>
    c.keep u (H.user_lt u hu) fun he => H.user_apart u hu ⟨i, t, c.hi, by simp [he]⟩
  constructor
  · intro k a hk
    rcases c.fresh k a hk with h1 | ⟨-, h1, -⟩
    · have := H.mats_lt k a h1; omega
    · exact h1
  · intro j v hv k hk
    rcases hti j v hv with ⟨rfl, rfl⟩ | ⟨-, hv⟩
    · exact (c.refs k hk).1
    · have := H.t_lt j v hv k hk
      have := c.len
      omega
  · intro j v a hv ha
    rcases hti j v hv with ⟨rfl, rfl⟩ | ⟨-, hv⟩
    · rcases c.inv a ha with h1 | ⟨-, h1, -⟩
      · have := H.inv_lt _ t a c.hi h1; omega
      · exact h1
    · have := H.inv_lt j v a hv ha; omega
  · intro u hu
    rw [c.user] at hu
    have := H.user_lt u hu
    have := c.len
    omega
  · intro a ha
    rw [c.held] at ha
    have := H.held_lt a ha
    omega
  · rw [c.user]
    exact H.user_nodup
  · intro j v hv
    rcases hti j v hv with ⟨rfl, rfl⟩ | ⟨-, hv⟩
    · exact c.nd
    · exact H.nodup j v hv
  · intro j l v u hjl hv hu k hk hku
    rcases hti j v hv with ⟨rfl, rfl⟩ | ⟨hj, hv⟩ <;> rcases hti l u hu with ⟨rfl, rfl⟩ | ⟨hl, hu⟩
    · exact hjl rfl
    · rcases (c.refs k hk).2 with h1 | h1
      · exact H.apart _ l t u hjl c.hi hu k h1 hku
      · have := H.t_lt l u hu k hku; omega
    · rcases (c.refs k hku).2 with h1 | h1
      · exact H.apart j _ v t hjl hv c.hi k hk h1
      · have := H.t_lt j v hv k hk; omega
    · exact H.apart j l v u hjl hv hu k hk hku
  · intro u hu ho
    rw [c.user] at hu
    rcases change_owner c ho with h1 | h1
    · exact H.user_apart u hu h1
    · have := H.user_lt u hu; omega
  · intro u hu a ha ho
    rw [c.user] at hu
    rw [huf u hu] at ha
    rcases change_ownArr H c ho with h1 | h1
    · exact H.user_arr u hu a ha h1
    · have := H.mats_lt u a ha; omega
  · intro a ha ho
    rw [c.held] at ha
    rcases change_ownArr H c ho with h1 | h1
    · exact H.held_arr a ha h1
    · have := H.held_lt a ha; omega
  · intro j v a hv ha ho
    rcases hti j v hv with ⟨rfl, rfl⟩ | ⟨-, hv⟩
    · rcases c.inv a ha with h1 | ⟨-, -, h1⟩
      · rcases change_ownArr H c ho with h2 | h2
        · exact H.inv_arr _ t a c.hi h1 h2
        · have := H.inv_lt _ t a c.hi h1; omega
      · obtain ⟨k, -, h2⟩ := ho
        exact h1 k h2
    · rcases change_ownArr H c ho with h2 | h2
      · exact H.inv_arr j v a hv ha h2
      · have := H.inv_lt j v a hv ha; omega
  · intro j l v u a hjl hv hu ha ha'
    rcases hti j v hv with ⟨rfl, rfl⟩ | ⟨hj, hv⟩ <;> rcases hti l u hu with ⟨rfl, rfl⟩ | ⟨hl, hu⟩
    · exact hjl rfl
    · rcases c.inv a ha with h1 | ⟨h1, -⟩
      · exact H.inv_apart _ l t u a hjl c.hi hu h1 ha'
      · have := H.inv_lt l u a hu ha'; omega
    · rcases c.inv a ha' with h1 | ⟨h1, -⟩
      · exact H.inv_apart j _ v t a hjl hv c.hi ha h1
      · have := H.inv_lt j v a hv ha; omega
    · exact H.inv_apart j l v u a hjl hv hu ha ha'

/-- Nothing but Transform `i` has changed, and it has changed by `f`. -/
structure Eff (h h' : Heap) (i : ℕ) (f : TState → TState) : Prop where
  own : Own h'
  len : h'.ts.length = h.ts.length
  self : state h' i = (state h i).map f
  rest : ∀ j, j ≠ i → state h' j = state h j
  mats : ∀ k, matrixOf h' k = matrixOf h k
  arrs : ∀ x, arrayOf h' x = arrayOf h x
  refs : h'.user = h.user ∧ h'.held = h.held
  invs : ∀ j, j ≠ i → h'.ts[j]? = h.ts[j]?

theorem eff_change (H : Own h) (c : Change h h' i t t') {f : TState → TState}
    (hf : (⟨h'.mat t'.mat, t'.inv.map h'.arr, t'.stack.map h'.mat⟩ : TState) = f ⟨h.mat t.mat, t.inv.map h.arr, t.stack.map h.mat⟩) :
    Eff h h' i f := by
  have hlt : i < h.ts.length := lt_of c.hi
  refine ⟨own_change H c, by simp [c.ts], ?_, ?_, ?_, ?_, ⟨c.user, c.held⟩, ?_⟩
  · simp only [state, c.ts, List.getElem?_set_self hlt, c.hi, Option.map_some, hf]
  · intro j hj
    simp only [state, c.ts, List.getElem?_set_ne hj.symm]
    cases hv : h.ts[j]? with
    | none => rfl
    | some v =>
      have hm : ∀ k ∈ v.mat :: v.stack, h'.mat k = h.mat k := fun k hk =>
        change_mat H c (H.t_lt j v hv k hk) fun he => H.apart j i v t hj hv c.hi k hk (by simp [he])
      simp only [Option.map_some, Option.some.injEq, TState.mk.injEq]
      refine ⟨hm _ (by simp), ?_, List.map_congr_left fun k hk => hm k (by simp [hk])⟩
      cases ha : v.inv with
      | none => rfl
      | some a => simp [change_arr c (H.inv_lt j v a hv ha)]
  · intro k
    simp only [matrixOf, c.user]
    cases hu : h.user[k]? with
    | none => rfl
    | some u =>
      have hm : u ∈ h.user := List.mem_of_getElem? hu
      simp only [Option.map_some]
      rw [change_mat H c (H.user_lt u hm) fun he => H.user_apart u hm ⟨i, t, c.hi, by simp [he]⟩]
  · intro x
    simp only [arrayOf, c.held]
    cases ha : h.held[x]? with
    | none => rfl
    | some a => simp [change_arr c (H.held_lt a (List.mem_of_getElem? ha))]
  · intro j hj
    rw [c.ts, List.getElem?_set_ne hj.symm]

theorem eff_trans {f g : TState → TState} {h'' : Heap} (a : Eff h h' i f) (b : Eff h' h'' i g) : Eff h h'' i fun s => g (f s) :=
  ⟨b.own, b.len.trans a.len, by rw [b.self, a.self, Option.map_map]; rfl, fun j hj => (b.rest j hj).trans (a.rest j hj),
    fun k => (b.mats k).trans (a.mats k), fun x => (b.arrs x).trans (a.arrs x), ⟨b.refs.1.trans a.refs.1, b.refs.2.trans a.refs.2⟩,
    fun j hj => (b.invs j hj).trans (a.invs j hj)⟩

theorem eff_id (H : Own h) (i : ℕ) : Eff h h i id := ⟨H, rfl, by simp, fun _ _ => rfl, fun _ => rfl, fun _ => rfl, ⟨rfl, rfl⟩, fun _ _ => rfl⟩

theorem set_self {l : List TObj} {i : ℕ} {t : TObj} (h : l[i]? = some t) : l.set i t = l := by
  apply List.ext_getElem?
  intro j
  by_cases hj : i = j
  · subst hj; rw [List.getElem?_set_self (lt_of h), h]
  · rw [List.getElem?_set_ne hj]

theorem modify_set {l : List TObj} {i : ℕ} {t : TObj} (h : l[i]? = some t) (f : TObj → TObj) : l.modify i f = l.set i (f t) := by
  apply List.ext_getElem?
  intro j
  rw [List.getElem?_modify]
  by_cases hj : i = j
  · subst hj; rw [List.getElem?_set_self (lt_of h), h]; simp
  · rw [List.getElem?_set_ne hj]; simp [hj]

theorem arr_append {l : List (Mat3 ℝ)} {m : Mat3 ℝ} {ms : List ℕ} {ts : List TObj} {u a : List ℕ} :
    (Heap.mk (l ++ [m]) ms ts u a).arr l.length = m := by simp [Heap.arr]

theorem eff_rebind (H : Own h) (hi : h.ts[i]? = some t) (m : Mat3 ℝ) : Eff h (rebind h t.mat m) i fun s => ⟨m, s.inv, s.stack⟩ := by
  have hk : t.mat < h.mats.length := H.t_lt i t hi _ (by simp)
  have c : Change h (rebind h t.mat m) i t t := by
    refine ⟨hi, (set_self hi).symm, rfl, rfl, ⟨[m], rfl⟩, by simp [rebind], ?_, ?_, ?_, H.nodup i t hi, fun a ha => .inl ha⟩
    · intro k _ hne
      simp only [rebind]
      rw [List.getElem?_set_ne hne.symm]
    · intro k a ha
      simp only [rebind] at ha ⊢
      by_cases hkt : t.mat = k
      · subst hkt
        rw [List.getElem?_set_self hk] at ha
        cases ha
        exact .inr ⟨le_refl _, by simp, .inl rfl⟩
      · rw [List.getElem?_set_ne hkt] at ha
        exact .inl ha
    · intro k hk'
      exact ⟨by simpa [rebind] using H.t_lt i t hi k hk', .inl hk'⟩
  refine eff_change H c ?_
  simp only [TState.mk.injEq]
  refine ⟨?_, ?_, List.map_congr_left fun k hk' => ?_⟩
  · rw [mat_of (a := h.arrs.length) (by simp only [rebind]; rw [List.getElem?_set_self hk])]
    exact arr_append
  · cases ha : t.inv with
    | none => rfl
    | some a => simp [change_arr c (H.inv_lt i t a hi ha)]
  · refine change_mat H c (H.t_lt i t hi k (by simp [hk'])) fun he => ?_
    have := H.nodup i t hi
    rw [List.nodup_cons] at this
    exact this.1 (he ▸ hk')

theorem eff_clear (H : Own h) (i : ℕ) : Eff h (clear h i) i fun s => ⟨s.mat, none, s.stack⟩ := by
  cases hi : h.ts[i]? with
  | none =>
    have hc : clear h i = h := by
      have : h.ts.modify i (fun t => ⟨t.mat, none, t.stack⟩) = h.ts := by
        apply List.ext_getElem?
        intro j
        rw [List.getElem?_modify]
        by_cases hj : i = j
        · subst hj; simp [hi]
        · simp [hj]
      simp only [clear, setT, this]
    rw [hc]
    exact ⟨H, rfl, by simp [state, hi], fun _ _ => rfl, fun _ => rfl, fun _ => rfl, ⟨rfl, rfl⟩, fun _ _ => rfl⟩
  | some t =>
    have c : Change h (clear h i) i t ⟨t.mat, none, t.stack⟩ :=
      ⟨hi, modify_set hi _, rfl, rfl, ⟨[], by simp [clear, setT]⟩, le_refl _, fun _ _ _ => rfl, fun _ _ ha => .inl ha,
        fun k hk => ⟨H.t_lt i t hi k hk, .inl hk⟩, H.nodup i t hi, fun a ha => by cases ha⟩
    exact eff_change H c rfl

theorem mat_append {l : List (Mat3 ℝ)} {m : Mat3 ℝ} {ms : List ℕ} {ts : List TObj} {u a : List ℕ} :
    (Heap.mk (l ++ [m]) (ms ++ [l.length]) ts u a).mat ms.length = m := by simp [Heap.mat, Heap.arr]

/-- A new Matrix for Transform `i`. -/
theorem change_new (H : Own h) (hi : h.ts[i]? = some t) (m : Mat3 ℝ) (f : TObj → TObj) (hinv : (f t).inv = t.inv)
    (hrefs : ∀ k ∈ (f t).mat :: (f t).stack, k ∈ t.mat :: t.stack ∨ k = h.mats.length) (hnd : ((f t).mat :: (f t).stack).Nodup) :
    Change h (setT (newMat h m) i f) i t (f t) := by
  refine ⟨hi, by simp only [setT, newMat]; exact modify_set hi f, rfl, rfl, ⟨[m], rfl⟩, by simp [setT, newMat], ?_, ?_, ?_, hnd, fun a ha => .inl (hinv ▸ ha)⟩
  · intro k hk _
    simp only [setT, newMat]
    rw [List.getElem?_append_left hk]
  · intro k a ha
    simp only [setT, newMat] at ha ⊢
    by_cases hk : k < h.mats.length
    · rw [List.getElem?_append_left hk] at ha
      exact .inl ha
    · have h1 : k < h.mats.length + 1 := by simpa using lt_of ha
      obtain rfl : k = h.mats.length := by omega
      simp at ha
      subst ha
      exact .inr ⟨le_refl _, by simp, .inr (le_refl _)⟩
  · intro k hk
    simp only [setT, newMat, List.length_append, List.length_singleton]
    rcases hrefs k hk with h1 | h1
    · exact ⟨by have := H.t_lt i t hi k h1; omega, .inl h1⟩
    · exact ⟨by omega, .inr (by omega)⟩

theorem change_inv (H : Own h) (c : Change h h' i t t') : t.inv.map h'.arr = t.inv.map h.arr := by
  cases ha : t.inv with
  | none => rfl
  | some a => simp [change_arr c (H.inv_lt i t a c.hi ha)]

theorem eff_fresh (H : Own h) (hi : h.ts[i]? = some t) (m : Mat3 ℝ) : Eff h (freshMat h i m) i fun s => ⟨m, s.inv, s.stack⟩ := by
  have hnd := List.nodup_cons.1 (H.nodup i t hi)
  have c := change_new H hi m (fun t => ⟨h.mats.length, t.inv, t.stack⟩) rfl (fun k hk => by
      rcases List.mem_cons.1 hk with rfl | hk
      · exact .inr rfl
      · exact .inl (List.mem_cons_of_mem _ hk))
    (List.nodup_cons.2 ⟨fun hk => absurd (H.t_lt i t hi _ (List.mem_cons_of_mem _ hk)) (lt_irrefl _), hnd.2⟩)
  refine eff_change H c ?_
  simp only [TState.mk.injEq]
  refine ⟨mat_append, change_inv H c, List.map_congr_left fun k hk' => ?_⟩
  exact change_mat H c (H.t_lt i t hi k (by simp [hk'])) fun he => hnd.1 (he ▸ hk')

theorem eff_push (H : Own h) (hi : h.ts[i]? = some t) : Eff h (push h i) i TState.push := by
  have hnd := H.nodup i t hi
  have hlt : ∀ k ∈ t.mat :: t.stack, k < h.mats.length := H.t_lt i t hi
  simp only [push, hi]
  have c := change_new H hi (h.mat t.mat) (fun t => ⟨t.mat, t.inv, h.mats.length :: t.stack⟩) rfl (fun k hk => by
      simp only [List.mem_cons] at hk ⊢
      tauto)
    (by
      simp only [List.nodup_cons, List.mem_cons, not_or] at hnd ⊢
      have h1 := hlt t.mat (by simp)
      exact ⟨⟨by omega, hnd.1⟩, fun hk => by have := hlt _ (List.mem_cons_of_mem _ hk); omega, hnd.2⟩)
  have hm : ∀ k ∈ t.mat :: t.stack, (setT (newMat h (h.mat t.mat)) i fun t => ⟨t.mat, t.inv, h.mats.length :: t.stack⟩).mat k = h.mat k := by
    intro k hk
    obtain ⟨a, ha⟩ := some_of_lt (hlt k hk)
    rw [mat_of ha, mat_of (a := a) (by simp only [setT, newMat]; rw [List.getElem?_append_left (hlt k hk), ha]), change_arr c (H.mats_lt k a ha)]
  refine eff_change H c ?_
  simp only [TState.push, TState.mk.injEq, List.map_cons, List.cons.injEq]
  exact ⟨hm _ (by simp), change_inv H c, mat_append, List.map_congr_left fun k hk' => hm k (by simp [hk'])⟩

theorem eff_popTop (H : Own h) {k : ℕ} {rest : List ℕ} (hi : h.ts[i]? = some t) (hs : t.stack = k :: rest) :
    Eff h (setT h i fun t => ⟨k, t.inv, rest⟩) i fun s => ⟨h.mat k, s.inv, rest.map h.mat⟩ := by
  have c : Change h (setT h i fun t => ⟨k, t.inv, rest⟩) i t ⟨k, t.inv, rest⟩ :=
    ⟨hi, modify_set hi _, rfl, rfl, ⟨[], by simp [setT]⟩, le_refl _, fun _ _ _ => rfl, fun _ _ ha => .inl ha,
      fun l hl => ⟨H.t_lt i t hi l (by rw [hs]; exact List.mem_cons_of_mem _ hl), .inl (by rw [hs]; exact List.mem_cons_of_mem _ hl)⟩,
      by have := H.nodup i t hi; rw [hs] at this; exact (List.nodup_cons.1 this).2, fun a ha => .inl ha⟩
  exact eff_change H c rfl

theorem eff_inv (H : Own h) (hi : h.ts[i]? = some t) (m : Mat3 ℝ) :
    Eff h ⟨h.arrs ++ [m], h.mats, h.ts.modify i fun t => ⟨t.mat, some h.arrs.length, t.stack⟩, h.user, h.held⟩ i
      fun s => ⟨s.mat, some m, s.stack⟩ := by
  have c : Change h ⟨h.arrs ++ [m], h.mats, h.ts.modify i fun t => ⟨t.mat, some h.arrs.length, t.stack⟩, h.user, h.held⟩ i t
      ⟨t.mat, some h.arrs.length, t.stack⟩ := by
    refine ⟨hi, modify_set hi _, rfl, rfl, ⟨[m], rfl⟩, le_refl _, fun _ _ _ => rfl, fun _ _ ha => .inl ha,
      fun k hk => ⟨H.t_lt i t hi k hk, .inl hk⟩, H.nodup i t hi, fun a ha => .inr ?_⟩
    cases ha
    exact ⟨le_refl _, by simp, fun k hk => by have := H.mats_lt k _ hk; omega⟩
  have hm : ∀ k ∈ t.mat :: t.stack, (Heap.mk (h.arrs ++ [m]) h.mats (h.ts.modify i fun t => ⟨t.mat, some h.arrs.length, t.stack⟩) h.user h.held).mat k = h.mat k := by
    intro k hk
    obtain ⟨a, ha⟩ := some_of_lt (H.t_lt i t hi k hk)
    rw [mat_of (h := h) ha, mat_of (a := a) (by exact ha), change_arr c (H.mats_lt k a ha)]
  refine eff_change H c ?_
  simp only [TState.mk.injEq, Option.map_some, Option.some.injEq]
  exact ⟨hm _ (by simp), arr_append, List.map_congr_left fun k hk' => hm k (by simp [hk'])⟩

/-! ### The calls on a Transform -/

theorem eff_congr {f g : TState → TState} (e : Eff h h' i f) (hg : ∀ s, state h i = some s → f s = g s) : Eff h h' i g := by
  refine ⟨e.own, e.len, ?_, e.rest, e.mats, e.arrs, e.refs, e.invs⟩
  rw [e.self]
  cases hs : state h i with
  | none => rfl
  | some s => simp [hg s hs]

theorem state_of (hi : h.ts[i]? = some t) : state h i = some ⟨h.mat t.mat, t.inv.map h.arr, t.stack.map h.mat⟩ := by simp [state, hi]

theorem eff_preDot (H : Own h) (hi : h.ts[i]? = some t) (m : Mat3 ℝ) : Eff h (preDotT h i m) i fun s => ⟨m.mul s.mat, s.inv, s.stack⟩ := by
  simp only [preDotT, hi, preDot]
  refine eff_congr (eff_rebind H hi _) fun s hs => ?_
  rw [state_of hi] at hs
  cases hs
  rfl

theorem eff_postDot (H : Own h) (hi : h.ts[i]? = some t) (m : Mat3 ℝ) : Eff h (postDotT h i m) i fun s => ⟨s.mat.mul m, s.inv, s.stack⟩ := by
  simp only [postDotT, hi, postDot]
  refine eff_congr (eff_rebind H hi _) fun s hs => ?_
  rw [state_of hi] at hs
  cases hs
  rfl

theorem eff_pre_clear (H : Own h) (hi : h.ts[i]? = some t) (m : Mat3 ℝ) :
    Eff h (clear (preDotT h i m) i) i fun s => ⟨m.mul s.mat, none, s.stack⟩ :=
  eff_trans (eff_preDot H hi m) (eff_clear (eff_preDot H hi m).own i)

theorem eff_ex {f : TState → TState} (e : Eff h h' i f) (hi : h.ts[i]? = some t) : ∃ t', h'.ts[i]? = some t' :=
  some_of_lt (by rw [e.len]; exact lt_of hi)

theorem eff_translate (H : Own h) (hi : h.ts[i]? = some t) (dx dy : ℝ) : Eff h (translate h i dx dy) i fun s => s.translate dx dy :=
  eff_pre_clear H hi _

theorem eff_scale (H : Own h) (hi : h.ts[i]? = some t) (sx sy : ℝ) : Eff h (scale h i sx sy) i fun s => s.scale sx sy := eff_pre_clear H hi _

theorem eff_setMatrix (H : Own h) (hi : h.ts[i]? = some t) (k : ℕ) : Eff h (setMatrix h i k) i fun s => s.setMatrix (h.mat k) :=
  eff_trans (eff_fresh H hi _) (eff_clear (eff_fresh H hi _).own i)

theorem eff_reset (H : Own h) (hi : h.ts[i]? = some t) : Eff h (reset h i) i fun s => s.reset := by
  have e := eff_trans (eff_fresh H hi Mat3.one) (eff_clear (eff_fresh H hi Mat3.one).own i)
  exact eff_congr e fun s _ => rfl

theorem eff_scaleBBox (H : Own h) (hi : h.ts[i]? = some t) (a b : BBox ℝ) (keep : Bool) :
    Eff h (scaleBBox h i a b keep).1 i (fun s => (s.scaleBBox a b keep).st) ∧ ∀ s : TState, (scaleBBox h i a b keep).2 = (s.scaleBBox a b keep).err := by
  have tr := fun (dx dy : ℝ) => eff_translate H hi dx dy
  cases keep with
  | true =>
    by_cases hz : a.width = 0 ∨ a.height = 0
    · simp only [scaleBBox, TState.scaleBBox, if_true, if_pos hz]
      exact ⟨eff_id H i, fun _ => trivial⟩
    · cases a with
      | none => simp only [scaleBBox, TState.scaleBBox, if_true, if_neg hz]; exact ⟨eff_id H i, fun _ => trivial⟩
      | box xl yl xh yh =>
        have e1 := tr (-xl) (-yl)
        obtain ⟨t1, h1⟩ := eff_ex e1 hi
        have e2 := fun sx sy => eff_trans e1 (eff_scale e1.own h1 sx sy)
        cases b with
        | none => simp only [scaleBBox, TState.scaleBBox, if_true, if_neg hz]; exact ⟨e2 _ _, fun _ => trivial⟩
        | box txl tyl txh tyh =>
          simp only [scaleBBox, TState.scaleBBox, if_true, if_neg hz]
          refine ⟨?_, fun _ => trivial⟩
          obtain ⟨t2, h2⟩ := eff_ex (e2 _ _) hi
          exact eff_trans (e2 _ _) (eff_translate (e2 _ _).own h2 _ _)
  | false =>
    cases a with
    | none => simp only [scaleBBox, TState.scaleBBox, Bool.false_eq_true, if_false]; exact ⟨eff_id H i, fun _ => trivial⟩
    | box xl yl xh yh =>
      have e1 := tr (-xl) (-yl)
      by_cases hz : (BBox.box xl yl xh yh).width = 0 ∨ (BBox.box xl yl xh yh).height = 0
      · simp only [scaleBBox, TState.scaleBBox, Bool.false_eq_true, if_false, if_pos hz]
        exact ⟨e1, fun _ => trivial⟩
      · obtain ⟨t1, h1⟩ := eff_ex e1 hi
        have e2 := fun sx sy => eff_trans e1 (eff_scale e1.own h1 sx sy)
        cases b with
        | none => simp only [scaleBBox, TState.scaleBBox, Bool.false_eq_true, if_false, if_neg hz]; exact ⟨e2 _ _, fun _ => trivial⟩
        | box txl tyl txh tyh =>
          simp only [scaleBBox, TState.scaleBBox, Bool.false_eq_true, if_false, if_neg hz]
          refine ⟨?_, fun _ => trivial⟩
          obtain ⟨t2, h2⟩ := eff_ex (e2 _ _) hi
          exact eff_trans (e2 _ _) (eff_translate (e2 _ _).own h2 _ _)

theorem eff_pop (H : Own h) (hi : h.ts[i]? = some t) :
    Eff h (pop h i).1 i (fun s => s.pop.st) ∧ ∀ s, state h i = some s → (pop h i).2 = s.pop.err := by
  simp only [pop, hi]
  cases hs : t.stack with
  | nil =>
    refine ⟨eff_congr (eff_id H i) fun s h1 => ?_, fun s h1 => ?_⟩ <;> rw [state_of hi] at h1 <;> cases h1 <;> simp [TState.pop, hs]
  | cons k rest =>
    have e := eff_popTop H hi hs
    refine ⟨eff_congr (eff_trans e (eff_clear e.own i)) fun s h1 => ?_, fun s h1 => ?_⟩ <;> rw [state_of hi] at h1 <;> cases h1 <;>
      simp [TState.pop, hs]

/-- What reading `inverse` does and gives. -/
theorem eff_inverse (H : Own h) (hi : h.ts[i]? = some t) :
    Eff h (inverse h i).1 i (fun s => s.inverse.1) ∧ ∀ s, state h i = some s →
      (∀ a, (inverse h i).2 = .ok a → s.inverse.2 = .ok ((inverse h i).1.arr a) ∧ (∃ t', (inverse h i).1.ts[i]? = some t' ∧ t'.inv = some a)) ∧
      ∀ e, (inverse h i).2 = .error e ↔ s.inverse.2 = .error e := by
  simp only [inverse, hi]
  cases hv : t.inv with
  | some a =>
    simp only
    refine ⟨eff_congr (eff_id H i) fun s h1 => ?_, fun s h1 => ?_⟩ <;> rw [state_of hi] at h1 <;> cases h1
    · simp [TState.inverse, hv]
    · refine ⟨fun b hb => ?_, fun e => ?_⟩
      · cases hb
        exact ⟨by simp [TState.inverse, hv], t, hi, hv⟩
      · simp [TState.inverse, hv]
  | none =>
    cases hm : (h.mat t.mat).inv with
    | error e =>
      simp only
      refine ⟨eff_congr (eff_id H i) fun s h1 => ?_, fun s h1 => ?_⟩ <;> rw [state_of hi] at h1 <;> cases h1
      · simp [TState.inverse, hv, hm]
      · exact ⟨fun b hb => (by cases hb), fun e' => (by simp [TState.inverse, hv, hm])⟩
    | ok m =>
      simp only
      refine ⟨eff_congr (eff_inv H hi m) fun s h1 => ?_, fun s h1 => ?_⟩ <;> rw [state_of hi] at h1 <;> cases h1
      · simp [TState.inverse, hv, hm]
      · refine ⟨fun b hb => ?_, fun e => ?_⟩
        · cases hb
          refine ⟨by rw [arr_append]; simp [TState.inverse, hv, hm], ⟨t.mat, some h.arrs.length, t.stack⟩, ?_, rfl⟩
          simp only [List.getElem?_modify, hi]
          simp
        · simp [TState.inverse, hv, hm]

end

/-! ### New Transforms -/

theorem append_cases' {α : Type} {l : List α} {a b : α} {i : ℕ} (h : (l ++ [a])[i]? = some b) : l[i]? = some b ∨ (i = l.length ∧ b = a) := by
  by_cases hi : i < l.length
  · rw [List.getElem?_append_left hi] at h
    exact .inl h
  · have h1 : i < l.length + 1 := by simpa using lt_of h
    obtain rfl : i = l.length := by omega
    simp at h
    exact .inr ⟨rfl, h.symm⟩

theorem newT_mat {h : Heap} (H : Own h) {m : Mat3 ℝ} {k : ℕ} (hk : k < h.mats.length) : (newT h m).mat k = h.mat k := by
  obtain ⟨a, ha⟩ := some_of_lt hk
  rw [mat_of ha, mat_of (a := a) (by simp only [newT]; rw [List.getElem?_append_left hk, ha])]
  simp only [Heap.arr, newT]
  rw [List.getElem?_append_left (H.mats_lt k a ha)]

theorem newT_arr {h : Heap} {m : Mat3 ℝ} {a : ℕ} (ha : a < h.arrs.length) : (newT h m).arr a = h.arr a := by
  simp only [Heap.arr, newT]
  rw [List.getElem?_append_left ha]

theorem own_newT {h : Heap} (H : Own h) (m : Mat3 ℝ) : Own (newT h m) := by
  have hts : ∀ (j : ℕ) (v : TObj), (newT h m).ts[j]? = some v → h.ts[j]? = some v ∨ (j = h.ts.length ∧ v = ⟨h.mats.length, none, []⟩) :=
    fun j v hv => append_cases' hv
  have hms : ∀ (k a : ℕ), (newT h m).mats[k]? = some a → h.mats[k]? = some a ∨ (k = h.mats.length ∧ a = h.arrs.length) :=
    fun k a hk => append_cases' hk
  have hml : (newT h m).mats.length = h.mats.length + 1 := by simp [newT]
  have hal : (newT h m).arrs.length = h.arrs.length + 1 := by simp [newT]
  have how : ∀ k, Owner (newT h m) k → Owner h k ∨ k = h.mats.length := by
    rintro k ⟨j, v, hv, hk⟩
    rcases hts j v hv with hv | ⟨-, rfl⟩
    · exact .inl ⟨j, v, hv, hk⟩
    · exact .inr (by simpa using hk)
  have hoa : ∀ a, OwnArr (newT h m) a → OwnArr h a ∨ a = h.arrs.length := by
    rintro a ⟨k, hk, ha⟩
    rcases hms k a ha with h1 | ⟨-, h1⟩
    · rcases how k hk with h2 | h2
      · exact .inl ⟨k, h2, h1⟩
      · have := lt_of h1; omega
    · exact .inr h1
  constructor
  · intro k a hk
    rcases hms k a hk with h1 | ⟨-, h1⟩
    · have := H.mats_lt k a h1; omega
    · omega
  · intro j v hv k hk
    rcases hts j v hv with hv | ⟨-, rfl⟩
    · have := H.t_lt j v hv k hk; omega
    · simp at hk; omega
  · intro j v a hv ha
    rcases hts j v hv with hv | ⟨-, rfl⟩
    · have := H.inv_lt j v a hv ha; omega
    · cases ha
  · intro u hu
    have := H.user_lt u hu
    omega
  · intro a ha
    have := H.held_lt a ha
    omega
  · exact H.user_nodup
  · intro j v hv
    rcases hts j v hv with hv | ⟨-, rfl⟩
    · exact H.nodup j v hv
    · simp
  · intro i j v u hij hv hu k hk hku
    rcases hts i v hv with hv | ⟨hi, rfl⟩ <;> rcases hts j u hu with hu | ⟨hj, rfl⟩
    · exact H.apart i j v u hij hv hu k hk hku
    · have := H.t_lt i v hv k hk
      simp at hku; omega
    · have := H.t_lt j u hu k hku
      simp at hk; omega
    · exact hij (hi.trans hj.symm)
  · intro u hu ho
    rcases how u ho with h1 | h1
    · exact H.user_apart u hu h1
    · have := H.user_lt u hu; omega
  · intro u hu a ha ho
    rcases hms u a ha with h1 | ⟨h1, -⟩
    · rcases hoa a ho with h2 | h2
      · exact H.user_arr u hu a h1 h2
      · have := H.mats_lt u a h1; omega
    · have := H.user_lt u hu; omega
  · intro a ha ho
    rcases hoa a ho with h2 | h2
    · exact H.held_arr a ha h2
    · have := H.held_lt a ha; omega
  · intro j v a hv ha ho
    rcases hts j v hv with hv | ⟨-, rfl⟩
    · rcases hoa a ho with h2 | h2
      · exact H.inv_arr j v a hv ha h2
      · have := H.inv_lt j v a hv ha; omega
    · cases ha
  · intro i j v u a hij hv hu ha ha'
    rcases hts i v hv with hv | ⟨hi, rfl⟩
    · rcases hts j u hu with hu | ⟨hj, rfl⟩
      · exact H.inv_apart i j v u a hij hv hu ha ha'
      · cases ha'
    · cases ha

theorem newT_state {h : Heap} (H : Own h) (m : Mat3 ℝ) (j : ℕ) :
    state (newT h m) j = if j = h.ts.length then some ⟨m, none, []⟩ else state h j := by
  by_cases hj : j = h.ts.length
  · subst hj
    simp only [state, newT, if_true]
    rw [List.getElem?_append_right (le_refl _)]
    simp only [Nat.sub_self, List.getElem?_cons_zero, Option.map_some, Option.map_none, List.map_nil, mat_append]
  · rw [if_neg hj]
    have h1 : (newT h m).ts[j]? = h.ts[j]? := by
      simp only [newT]
      by_cases hlt : j < h.ts.length
      · rw [List.getElem?_append_left hlt]
      · rw [List.getElem?_eq_none (by simp; omega), List.getElem?_eq_none (by omega)]
    simp only [state, h1]
    cases hv : h.ts[j]? with
    | none => rfl
    | some v =>
      have hm : ∀ k ∈ v.mat :: v.stack, (newT h m).mat k = h.mat k := fun k hk => newT_mat H (H.t_lt j v hv k hk)
      simp only [Option.map_some, Option.some.injEq, TState.mk.injEq]
      refine ⟨hm _ (by simp), ?_, List.map_congr_left fun k hk => hm k (by simp [hk])⟩
      cases ha : v.inv with
      | none => rfl
      | some a => simp [newT_arr (H.inv_lt j v a hv ha)]

theorem newT_matrix {h : Heap} (H : Own h) (m : Mat3 ℝ) (k : ℕ) : matrixOf (newT h m) k = matrixOf h k := by
  simp only [matrixOf]
  have h1 : (newT h m).user = h.user := rfl
  rw [h1]
  cases hu : h.user[k]? with
  | none => rfl
  | some u => simp [newT_mat H (H.user_lt u (List.mem_of_getElem? hu))]

theorem newT_array {h : Heap} (H : Own h) (m : Mat3 ℝ) (x : ℕ) : arrayOf (newT h m) x = arrayOf h x := by
  simp only [arrayOf]
  have h1 : (newT h m).held = h.held := rfl
  rw [h1]
  cases ha : h.held[x]? with
  | none => rfl
  | some a => simp [newT_arr (H.held_lt a (List.mem_of_getElem? ha))]

/-! ### What the program does with Matrix objects and arrays -/

/-- Operations that leave the Transforms' Matrix objects and their arrays alone. -/
theorem own_user {h h' : Heap} (H : Own h) (hts : h'.ts = h.ts) (hal : h.arrs.length ≤ h'.arrs.length) (hml : h.mats.length ≤ h'.mats.length)
    (hk : ∀ k, Owner h k → h'.mats[k]? = h.mats[k]?) (hm : ∀ (k a : ℕ), h'.mats[k]? = some a → a < h'.arrs.length)
    (hn : h'.user.Nodup)
    (hu : ∀ u ∈ h'.user, u < h'.mats.length ∧ ¬ Owner h u ∧ ∀ a, h'.mats[u]? = some a → ¬ OwnArr h a)
    (hh : ∀ a ∈ h'.held, a < h'.arrs.length ∧ ¬ OwnArr h a) : Own h' := by
  have ho : ∀ k, Owner h' k ↔ Owner h k := fun k => by simp only [Owner, hts]
  have hoa : ∀ a, OwnArr h' a → OwnArr h a := by
    rintro a ⟨k, h1, h2⟩
    rw [ho] at h1
    exact ⟨k, h1, (hk k h1) ▸ h2⟩
  refine ⟨hm, ?_, ?_, fun u h1 => (hu u h1).1, fun a h1 => (hh a h1).1, hn, ?_, ?_, fun u h1 h2 => (hu u h1).2.1 ((ho u).1 h2),
    fun u h1 a h2 h3 => (hu u h1).2.2 a h2 (hoa a h3), fun a h1 h2 => (hh a h1).2 (hoa a h2), ?_, ?_⟩ <;> rw [hts]
  · intro i t hi k hkt
    have := H.t_lt i t hi k hkt
    omega
  · intro i t a hi ha
    have := H.inv_lt i t a hi ha
    omega
  · exact H.nodup
  · exact H.apart
  · exact fun i t a hi ha h1 => H.inv_arr i t a hi ha (hoa a h1)
  · exact H.inv_apart

/-- And what that means for the values. -/
theorem state_user {h h' : Heap} (H : Own h) (hts : h'.ts = h.ts) (hk : ∀ k, Owner h k → h'.mats[k]? = h.mats[k]?)
    (ha : ∀ a, OwnArr h a → h'.arr a = h.arr a) (j : ℕ) :
    state h' j = (h.ts[j]?).map fun t => ⟨h.mat t.mat, t.inv.map h'.arr, t.stack.map h.mat⟩ := by
  simp only [state, hts]
  cases hv : h.ts[j]? with
  | none => rfl
  | some v =>
    have hm : ∀ k ∈ v.mat :: v.stack, h'.mat k = h.mat k := by
      intro k hkv
      have ho : Owner h k := ⟨j, v, hv, hkv⟩
      obtain ⟨a, h1⟩ := some_of_lt (H.t_lt j v hv k hkv)
      rw [mat_of h1, mat_of ((hk k ho).trans h1), ha a ⟨k, ho, h1⟩]
    simp only [Option.map_some, Option.some.injEq, TState.mk.injEq, true_and]
    exact ⟨hm _ (by simp), List.map_congr_left fun k hk => hm k (by simp [hk])⟩

theorem state_user_eq {h h' : Heap} (H : Own h) (hts : h'.ts = h.ts) (hk : ∀ k, Owner h k → h'.mats[k]? = h.mats[k]?)
    (ha : ∀ a, a < h.arrs.length → h'.arr a = h.arr a) (j : ℕ) : state h' j = state h j := by
  rw [state_user H hts hk fun a h1 => ha a (ownArr_lt H h1)]
  simp only [state]
  cases hv : h.ts[j]? with
  | none => rfl
  | some v =>
    simp only [Option.map_some, Option.some.injEq, TState.mk.injEq, true_and, and_true]
    cases h1 : v.inv with
    | none => rfl
    | some a => simp [ha a (H.inv_lt j v a hv h1)]

end X7.XH
