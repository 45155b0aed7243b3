import Verif.Spec.IterChange

/-!
C102: loops over a group that is changed meanwhile.
-/

namespace X7.IterChange

/-! Dicts -/

/-- The number of entries before a place of the table. -/
def before (l : List (Option (Str × ℕ))) (p : ℕ) : ℕ := ((l.take p).filterMap id).length

theorem before_zero (l) : before l 0 = 0 := by simp [before]

theorem before_cons (s) (l) (p) : before (s :: l) (p + 1) = (if s.isSome then 1 else 0) + before l p := by
  cases s <;> simp [before, Nat.add_comm]

theorem before_le (l : List (Option (Str × ℕ))) (p : ℕ) : before l p ≤ (l.filterMap id).length :=
  ((List.take_sublist p l).filterMap id).length_le

theorem scan_spec : ∀ (l : List (Option (Str × ℕ))) (p : ℕ),
    (scan l p = none → (l.filterMap id)[before l p]? = none) ∧
    ∀ q v, scan l p = some (q, v) → ∃ k, (l.filterMap id)[before l p]? = some (k, v) ∧ before l (q + 1) = before l p + 1 ∧ p ≤ q
  | [], p => by simp [scan, before]
  | s :: l, p + 1 => by
    obtain ⟨h1, h2⟩ := scan_spec l p
    constructor
    · intro h
      have := h1 (by simpa [scan] using h)
      rw [before_cons]
      cases s <;> simp [this, Nat.add_comm] <;> simpa using this
    · intro q v h
      simp only [scan, Option.map_eq_some_iff] at h
      obtain ⟨⟨q', v'⟩, hs, he⟩ := h
      obtain ⟨rfl, rfl⟩ := Prod.mk.inj he
      obtain ⟨k, h3, h4, h5⟩ := h2 _ _ hs
      refine ⟨k, ?_, ?_, by omega⟩
      · rw [before_cons]
        cases s with
        | none => simpa using h3
        | some x => rw [show (if (some x).isSome then 1 else 0) + before l p = before l p + 1 by simp [Nat.add_comm]]; simpa using h3
      · rw [before_cons, before_cons, h4]; omega
  | none :: l, 0 => by
    obtain ⟨h1, h2⟩ := scan_spec l 0
    rw [before_zero] at *
    constructor
    · intro h
      have := h1 (by simpa [scan] using h)
      simpa using this
    · intro q v h
      simp only [scan, Option.map_eq_some_iff] at h
      obtain ⟨⟨q', v'⟩, hs, he⟩ := h
      obtain ⟨rfl, rfl⟩ := Prod.mk.inj he
      obtain ⟨k, h3, h4, h5⟩ := h2 _ _ hs
      refine ⟨k, by simpa using h3, by rw [before_cons, h4]; simp, by omega⟩
  | some kv :: l, 0 => by
    rw [before_zero]
    constructor
    · intro h; simp [scan] at h
    · intro q v h
      simp only [scan, Option.some.injEq, Prod.mk.injEq] at h
      obtain ⟨rfl, rfl⟩ := h
      exact ⟨kv.1, by simp, by simp [before], le_refl _⟩

/-- The table without the values. -/
def shape (d : Dict) : List (Option Str) := d.slots.map (Option.map Prod.fst)

theorem keys_shape (d : Dict) : d.keys = (shape d).filterMap id := by
  simp only [Dict.keys, Dict.items, shape, List.filterMap_map, List.map_filterMap]; rfl

theorem len_keys (d : Dict) : d.len = d.keys.length := by simp [Dict.len, Dict.keys]

theorem before_shape (d : Dict) (p : ℕ) : before d.slots p = (((shape d).take p).filterMap id).length := by
  simp only [before, shape, ← List.map_take, List.filterMap_map]
  rw [← List.length_map (f := Prod.fst), List.map_filterMap]; rfl

theorem set_shape (d : Dict) (b k v) (h : (d.set b k v).keys = d.keys) : shape (d.set b k v) = shape d := by
  unfold Dict.set at *
  split at h
  · rename_i hk
    rw [if_pos hk]
    simp only [shape, List.map_map]
    refine List.map_congr_left fun s _ => ?_
    cases s with
    | none => rfl
    | some kv => simp only [Function.comp, Option.map_some]; split <;> simp_all
  · have := congrArg List.length h
    rw [← len_keys, ← len_keys] at this
    cases b <;> simp [Dict.len, Dict.items, List.filterMap_map] at this

theorem len_filterMap_lt (k : Str) : ∀ l : List (Option (Str × ℕ)), k ∈ (l.filterMap id).map Prod.fst →
    ((l.map fun s => if s.map Prod.fst = some k then none else s).filterMap id).length < (l.filterMap id).length
  | [], h => by simp at h
  | none :: l, h => by simpa using len_filterMap_lt k l (by simpa using h)
  | some kv :: l, h => by
    have hle : ((l.map fun s => if s.map Prod.fst = some k then none else s).filterMap id).length ≤ (l.filterMap id).length := by
      by_cases hk : k ∈ (l.filterMap id).map Prod.fst
      · exact (len_filterMap_lt k l hk).le
      · refine le_of_eq (congrArg _ (congrArg _ ?_))
        conv_rhs => rw [← List.map_id l]
        refine List.map_congr_left fun s hs => ?_
        refine if_neg fun he => hk ?_
        cases s with
        | none => simp at he
        | some x => simp at he; exact List.mem_map.2 ⟨x, List.mem_filterMap.2 ⟨_, hs, rfl⟩, he⟩
    by_cases he : kv.1 = k
    · simp [he]; simpa using hle
    · have := len_filterMap_lt k l (by simpa [Ne.symm he] using h)
      simpa [he] using this

theorem del_shape (d : Dict) (k) (h : (d.del k).keys = d.keys) : d.del k = d := by
  have hk : k ∉ d.keys := fun hk => by
    have h1 := len_filterMap_lt k d.slots (by simpa [Dict.keys, Dict.items] using hk)
    have := congrArg List.length h
    rw [← len_keys, ← len_keys] at this
    simp only [Dict.len, Dict.items, Dict.del] at this
    omega
  unfold Dict.del
  have : (d.slots.map fun s => if s.map Prod.fst = some k then none else s) = d.slots := by
    conv_rhs => rw [← List.map_id d.slots]
    refine List.map_congr_left fun s hs => ?_
    refine if_neg fun he => hk ?_
    cases s with
    | none => simp at he
    | some x => simp at he; exact List.mem_map.2 ⟨x, List.mem_filterMap.2 ⟨_, hs, rfl⟩, he⟩
  rw [this]

/-! One change -/

theorem change_fresh (cls) (h : Heap) (c : Chg) : h.fresh ≤ (h.change cls c).fresh := by
  cases c <;> simp only [Heap.change] <;> (repeat' split) <;> simp

theorem change_cases (cls) (h : Heap) (c : Chg) (d : ℕ) (hd : d < h.fresh) :
    (h.change cls c).dict d = h.dict d ∨ (∃ b k v, (h.change cls c).dict d = (h.dict d).set b k v) ∨
      ∃ k, (h.change cls c).dict d = (h.dict d).del k := by
  have up : ∀ d' x, (Function.update h.dict d' x) d = h.dict d ∨ (d' = d ∧ (Function.update h.dict d' x) d = x) := fun d' x => by
    by_cases hdd : d = d'
    · subst hdd; right; simp
    · left; rw [Function.update_of_ne hdd]
  cases c with
  | add g name e fix b =>
    simp only [Heap.change]
    cases he : h.elems g with
    | none => exact .inl rfl
    | some d' =>
      cases hn : GroupNames.pickName (h.dict d').keys (cls e) name fix with
      | none => exact .inl (by simp [hn])
      | some n =>
        simp only [hn]
        by_cases h1 : hasDot n
        · left; rw [if_pos h1]
        · by_cases h2 : n ∈ (h.dict d').keys
          · left; rw [if_neg h1, if_pos h2]
          · rw [if_neg h1, if_neg h2]
            rcases up d' ((h.dict d').set b n e) with hu | ⟨rfl, hu⟩
            · exact .inl hu
            · exact .inr (.inl ⟨_, _, _, hu⟩)
  | set g k e b =>
    simp only [Heap.change]
    cases he : h.elems g with
    | none => exact .inl rfl
    | some d' =>
      rcases up d' ((h.dict d').set b k e) with hu | ⟨rfl, hu⟩
      · exact .inl hu
      · exact .inr (.inl ⟨_, _, _, hu⟩)
  | del g k =>
    simp only [Heap.change]
    cases he : h.elems g with
    | none => exact .inl rfl
    | some d' =>
      rcases up d' ((h.dict d').del k) with hu | ⟨rfl, hu⟩
      · exact .inl hu
      · exact .inr (.inr ⟨_, hu⟩)
  | rename e n => exact .inl rfl
  | restore g g' =>
    simp only [Heap.change]
    split
    · left; simp only [Function.update_of_ne hd.ne]
    · exact .inl rfl

theorem change_shape (cls) (h : Heap) (c : Chg) (d : ℕ) (hd : d < h.fresh)
    (hk : ((h.change cls c).dict d).keys = (h.dict d).keys) : shape ((h.change cls c).dict d) = shape (h.dict d) := by
  rcases change_cases cls h c d hd with he | ⟨b, k, v, he⟩ | ⟨k, he⟩
  · rw [he]
  · rw [he] at hk ⊢; exact set_shape _ _ _ _ hk
  · rw [he] at hk ⊢; rw [del_shape _ _ hk]

/-! Programs -/

/-- Generator over dict `d` that has given `n` of `L` entries. -/
def Inv (h : Heap) (g : Flat) (base : Str) (d n L : ℕ) : Prop :=
  (h.dict d).len = L ∧ ((∃ it : It, g = .running base d it ∧ it.used = L ∧ before (h.dict d).slots it.pos = n ∧ it.left = L - n ∧ n ≤ L) ∨
    (g = .ended ∧ L ≤ n))

theorem Inv.next {h g base d n L} (hi : Inv h g base d n L) :
    (h.nextFlat g).2 = nth h base d n ∧ Inv h (h.nextFlat g).1 base d (n + 1) L := by
  obtain ⟨hl, ⟨it, rfl, hu, hb, hleft, hn⟩ | ⟨rfl, hn⟩⟩ := hi
  · simp only [Heap.nextFlat, Heap.loop, Dict.next]
    rw [if_neg (by simp [hl, hu])]
    obtain ⟨h1, h2⟩ := scan_spec (h.dict d).slots it.pos
    cases hs : scan (h.dict d).slots it.pos with
    | none =>
      have h3 := h1 hs
      rw [hb] at h3
      have h3' : (h.dict d).items[n]? = none := h3
      refine ⟨by simp [nth, h3'], hl, .inr ⟨rfl, ?_⟩⟩
      have := List.getElem?_eq_none_iff.1 h3'
      have : (h.dict d).items.length = L := hl
      omega
    | some x =>
      obtain ⟨p, v⟩ := x
      obtain ⟨k, h3, h4, h5⟩ := h2 _ _ hs
      rw [hb] at h3 h4
      have h3' : (h.dict d).items[n]? = some (k, v) := h3
      have hlt := (List.getElem?_eq_some_iff.1 h3').1
      have hL : (h.dict d).items.length = L := hl
      simp only
      rw [if_neg (by omega)]
      exact ⟨by simp [nth, h3'], hl, .inl ⟨_, rfl, hu, h4, by simp only; omega, by omega⟩⟩
  · have : (h.dict d).items[n]? = none := List.getElem?_eq_none_iff.2 (by have : (h.dict d).items.length = L := hl; omega)
    exact ⟨by simp [Heap.nextFlat, nth, this], hl, .inr ⟨rfl, by omega⟩⟩

theorem Inv.change {h g base d n L} (hi : Inv h g base d n L) (cls c) (hd : d < h.fresh)
    (hk : ((h.change cls c).dict d).keys = (h.dict d).keys) : Inv (h.change cls c) g base d n L := by
  have hs := change_shape cls h c d hd hk
  obtain ⟨hl, hr⟩ := hi
  refine ⟨by rw [len_keys, hk, ← len_keys, hl], ?_⟩
  rcases hr with ⟨it, rfl, hu, hb, hleft, hn⟩ | hr
  · exact .inl ⟨it, rfl, hu, by rw [before_shape, hs, ← before_shape, hb], hleft, hn⟩
  · exact .inr hr

theorem Inv.run (cls) : ∀ (ops : List Step) {h g base d n L}, Inv h g base d n L → d < h.fresh → Keeps cls d h ops →
    Inv (run cls h g ops).1 (run cls h g ops).2.1 base d (n + asks ops) L
  | [], _, _, _, _, _, _, hi, _, _ => by simpa [IterChange.run, asks] using hi
  | .next :: r, h, g, base, d, n, L, hi, hd, hk => by
    have := Inv.run cls r hi.next.2 hd hk
    simpa [IterChange.run, asks, Nat.add_assoc, Nat.add_comm 1] using this
  | .change c :: r, h, g, base, d, n, L, hi, hd, hk => by
    have := Inv.run cls r (hi.change cls c hd hk.1) (lt_of_lt_of_le hd (change_fresh cls h c)) hk.2
    simpa [IterChange.run, asks] using this

theorem inv_start (h : Heap) (g d root) (hg : h.elems g = some d) :
    Inv h (.running (Elem.rootName root (h.name g)) d (h.dict d).iter) (Elem.rootName root (h.name g)) d 0 (h.dict d).len :=
  ⟨rfl, .inl ⟨_, rfl, rfl, before_zero _, rfl, Nat.zero_le _⟩⟩

theorem next_start (h : Heap) (g d root) (hg : h.elems g = some d) : h.nextFlat (.new g root) =
    h.nextFlat (.running (Elem.rootName root (h.name g)) d (h.dict d).iter) := by
  simp [Heap.nextFlat, hg]

/-- C102: as long as no entries are added or taken away, `next` gives the entries one after the other, each as it is at that moment. -/
theorem C102_kept (cls : ℕ → Str) (h : Heap) (g d : ℕ) (root : Option Str) (hg : h.elems g = some d) (hd : d < h.fresh) (ops : List Step)
    (hk : Keeps cls d h ops) :
    let r := run cls h (.new g root) (.next :: ops)
    (h.nextFlat (.new g root)).2 = nth h (Elem.rootName root (h.name g)) d 0 ∧
    (r.1.nextFlat r.2.1).2 = nth r.1 (Elem.rootName root (h.name g)) d (1 + asks ops) ∧
    (r.1.dict d).keys = (h.dict d).keys := by
  have h1 := (inv_start h g d root hg).next
  rw [← next_start h g d root hg] at h1
  have h2 := Inv.run cls ops h1.2 hd hk
  refine ⟨h1.1, ?_, ?_⟩
  · have := h2.next.1
    rw [Nat.zero_add] at this
    exact this
  · have : ∀ (ops : List Step) (h : Heap) (g : Flat), Keeps cls d h ops → ((run cls h g ops).1.dict d).keys = (h.dict d).keys := by
      intro ops
      induction ops with
      | nil => intro h g _; rfl
      | cons s r ih =>
        intro h g hk
        cases s with
        | next => exact ih h _ hk
        | change c => exact (ih _ g hk.2).trans hk.1
    exact this ops h _ hk

/-- What a generator can do, whatever was changed: give a value of the dict and count down, or end. -/
theorem loop_spec (h : Heap) (base d it) :
    (∃ it' v, h.loop base d it = (.running base d it', .item (base ++ '.' :: h.name v) v) ∧ it'.used = it.used ∧ it.left = it'.left + 1 ∧
      v ∈ (h.dict d).items.map Prod.snd ∧ (h.dict d).len = it.used) ∨
    (h.loop base d it = (.ended, .stop) ∧ (h.dict d).len = it.used) ∨ h.loop base d it = (.ended, .runtime) := by
  unfold Heap.loop Dict.next
  by_cases hl : (h.dict d).len ≠ it.used
  · rw [if_pos hl]; exact .inr (.inr rfl)
  · rw [if_neg hl]
    push Not at hl
    obtain ⟨_, h2⟩ := scan_spec (h.dict d).slots it.pos
    cases hs : scan (h.dict d).slots it.pos with
    | none => exact .inr (.inl ⟨rfl, hl⟩)
    | some x =>
      obtain ⟨p, v⟩ := x
      by_cases h0 : it.left = 0
      · simp [h0]
      · simp only [h0, if_false]
        obtain ⟨k, h3, -, -⟩ := h2 _ _ hs
        exact .inl ⟨_, v, rfl, rfl, by simp only; omega, List.mem_map.2 ⟨(k, v), List.mem_of_getElem? h3, rfl⟩, hl⟩

theorem ended_run (cls) : ∀ (ops : List Step) (h : Heap), (∀ o ∈ (run cls h .ended ops).2.2, o = .stop) ∧ (run cls h .ended ops).2.1 = .ended
  | [], h => by simp [run]
  | .next :: r, h => by
    have := ended_run cls r h
    simpa [run, Heap.nextFlat] using this
  | .change c :: r, h => by
    have := ended_run cls r (h.change cls c)
    simpa [run] using this

theorem running_run (cls base d) : ∀ (ops : List Step) (h : Heap) (it : It),
    ((run cls h (.running base d it) ops).2.2.countP Out.isItem) ≤ it.left ∧
    ((run cls h (.running base d it) ops).2.1 = .ended ∨
      ((∀ o ∈ (run cls h (.running base d it) ops).2.2, ∃ n e, o = .item n e) ∧
        ∃ it', (run cls h (.running base d it) ops).2.1 = .running base d it' ∧ it'.used = it.used))
  | [], h, it => by simp [run]
  | .next :: r, h, it => by
    simp only [run, Heap.nextFlat]
    rcases loop_spec h base d it with ⟨it', v, hl, hu, hc, -, -⟩ | ⟨hl, -⟩ | hl
    · obtain ⟨h1, h2⟩ := running_run cls base d r h it'
      rw [hl]
      refine ⟨by simp only [List.countP_cons, Out.isItem, if_true]; omega, ?_⟩
      rcases h2 with h2 | ⟨h2, it2, h3, h4⟩
      · exact .inl h2
      · refine .inr ⟨?_, it2, h3, h4.trans hu⟩
        intro o ho
        rcases List.mem_cons.1 ho with rfl | ho
        · exact ⟨_, _, rfl⟩
        · exact h2 o ho
    · obtain ⟨h1, h2⟩ := ended_run cls r h
      rw [hl]
      refine ⟨?_, .inl h2⟩
      have : (run cls h .ended r).2.2.countP Out.isItem = 0 := List.countP_eq_zero.2 fun o ho => by rw [h1 o ho]; simp [Out.isItem]
      simp [Out.isItem, this]
    · obtain ⟨h1, h2⟩ := ended_run cls r h
      rw [hl]
      refine ⟨?_, .inl h2⟩
      have : (run cls h .ended r).2.2.countP Out.isItem = 0 := List.countP_eq_zero.2 fun o ho => by rw [h1 o ho]; simp [Out.isItem]
      simp [Out.isItem, this]
  | .change c :: r, h, it => by
    simpa [run] using running_run cls base d r (h.change cls c) it

theorem not_ended (cls base d) : ∀ (ops : List Step) (h : Heap) (it : It),
    (∀ o ∈ (run cls h (.running base d it) ops).2.2, ∃ n e, o = .item n e) → (run cls h (.running base d it) ops).2.1 ≠ .ended
  | [], h, it => by simp [run]
  | .next :: r, h, it => by
    simp only [run, Heap.nextFlat]
    intro hn
    rcases loop_spec h base d it with ⟨it', v, hl, hu, hc, -, -⟩ | ⟨hl, -⟩ | hl
    · rw [hl] at hn ⊢
      exact not_ended cls base d r h it' fun o ho => hn o (List.mem_cons_of_mem _ ho)
    · rw [hl] at hn
      obtain ⟨n, e, he⟩ := hn .stop (by simp)
      simp at he
    · rw [hl] at hn
      obtain ⟨n, e, he⟩ := hn .runtime (by simp)
      simp at he
  | .change c :: r, h, it => by
    simpa [run] using not_ended cls base d r (h.change cls c) it

theorem run_start (cls) (h : Heap) (g d root) (hg : h.elems g = some d) (ops) :
    run cls h (.new g root) (.next :: ops) = run cls h (.running (Elem.rootName root (h.name g)) d (h.dict d).iter) (.next :: ops) := by
  simp only [run, next_start h g d root hg]

/-- C102: `g.elems[k] = e` for a key that is there puts `e` in the place of the entry and leaves the others, and what `name` says; `del g.elems[k]`
takes away that entry and no other. -/
theorem C102_exchanged (cls : ℕ → Str) (h : Heap) (g d : ℕ) (hg : h.elems g = some d) (k : Str) (e : ℕ) (rebuild : Bool) :
    (k ∈ (h.dict d).keys → ((h.change cls (.set g k e rebuild)).dict d).items = (h.dict d).items.map (fun kv => if kv.1 = k then (k, e) else kv)) ∧
    (k ∉ (h.dict d).keys → ((h.change cls (.set g k e rebuild)).dict d).items = (h.dict d).items ++ [(k, e)]) ∧
    ((h.change cls (.del g k)).dict d).items = (h.dict d).items.filter (fun kv => kv.1 ≠ k) ∧
    (h.change cls (.set g k e rebuild)).name = h.name := by
  refine ⟨fun hk => ?_, fun hk => ?_, ?_, ?_⟩
  · simp only [Heap.change, hg, Function.update_self, Dict.set, hk, if_true, Dict.items, List.filterMap_map, List.map_filterMap]
    rfl
  · simp only [Heap.change, hg, Function.update_self, Dict.set, hk, if_false, Dict.items, List.filterMap_append]
    cases rebuild <;> simp [List.filterMap_map]
  · simp only [Heap.change, hg, Function.update_self, Dict.del, Dict.items, List.filterMap_map]
    induction (h.dict d).slots with
    | nil => rfl
    | cons x l ih =>
      cases x with
      | none => simpa using ih
      | some kv =>
        by_cases hkv : kv.1 = k
        · simp [hkv]
          simpa using ih
        · simp [hkv]
          simpa using ih
  · simp [Heap.change, hg]

/-- C102: whatever the program does, a generator gives at most as many items as the group had entries when it was first asked; each item
is made of an element that the dict holds at that moment, and has that element's name at that moment. -/
theorem C102_bound (cls : ℕ → Str) (h : Heap) (g d : ℕ) (root : Option Str) (hg : h.elems g = some d) (ops : List Step) :
    let r := run cls h (.new g root) (.next :: ops)
    r.2.2.countP Out.isItem ≤ (h.dict d).len ∧
    ∀ n e, (r.1.nextFlat r.2.1).2 = .item n e → e ∈ (r.1.dict d).items.map Prod.snd ∧
      n = Elem.rootName root (h.name g) ++ '.' :: r.1.name e := by
  intro r
  have hr : r = run cls h (.running (Elem.rootName root (h.name g)) d (h.dict d).iter) (.next :: ops) := run_start cls h g d root hg ops
  obtain ⟨h1, h2⟩ := running_run cls (Elem.rootName root (h.name g)) d (.next :: ops) h (h.dict d).iter
  rw [← hr] at h1 h2
  refine ⟨h1, fun n e he => ?_⟩
  rcases h2 with h2 | ⟨-, it, h2, -⟩
  · rw [h2] at he; simp [Heap.nextFlat] at he
  · rw [h2] at he
    simp only [Heap.nextFlat] at he
    rcases loop_spec r.1 (Elem.rootName root (h.name g)) d it with ⟨it', v, hl, -, -, hv, -⟩ | ⟨hl, -⟩ | hl
    · rw [hl] at he
      obtain ⟨rfl, rfl⟩ := Out.item.inj he
      exact ⟨hv, rfl⟩
    · rw [hl] at he; simp at he
    · rw [hl] at he; simp at he

/-- C102: if the number of entries differs from what it was at the first `next` when the generator is asked again before it has ended,
`RuntimeError` is raised, and from then on `StopIteration`. -/
theorem C102_size (cls : ℕ → Str) (h : Heap) (g d : ℕ) (root : Option Str) (hg : h.elems g = some d) (ops later : List Step)
    (hn : ∀ o ∈ (run cls h (.new g root) (.next :: ops)).2.2, ∃ n e, o = .item n e)
    (hl : ((run cls h (.new g root) (.next :: ops)).1.dict d).len ≠ (h.dict d).len) :
    let r := run cls h (.new g root) (.next :: ops)
    r.1.nextFlat r.2.1 = (.ended, .runtime) ∧ ∀ o ∈ (run cls r.1 .ended later).2.2, o = .stop := by
  intro r
  have hr : r = run cls h (.running (Elem.rootName root (h.name g)) d (h.dict d).iter) (.next :: ops) := run_start cls h g d root hg ops
  refine ⟨?_, (ended_run cls later r.1).1⟩
  obtain ⟨-, h2⟩ := running_run cls (Elem.rootName root (h.name g)) d (.next :: ops) h (h.dict d).iter
  rw [← hr] at h2
  have hrun : ∃ it, r.2.1 = .running (Elem.rootName root (h.name g)) d it ∧ it.used = (h.dict d).len := by
    rcases h2 with h2 | ⟨-, it, h2, hu⟩
    · exfalso
      exact not_ended cls _ d (.next :: ops) h (h.dict d).iter (by rw [← hr]; exact hn) (by rw [← hr]; exact h2)
    · exact ⟨it, h2, hu⟩
  obtain ⟨it, h3, hu⟩ := hrun
  rw [h3]
  simp only [Heap.nextFlat, Heap.loop, Dict.next]
  rw [if_pos (by rw [hu]; exact hl)]

/-! A dict that no group uses any more -/

theorem unused_change (cls) (h : Heap) (c : Chg) (d : ℕ) (hd : d < h.fresh) (hu : ∀ g, h.elems g ≠ some d) :
    (h.change cls c).dict d = h.dict d ∧ ∀ g, (h.change cls c).elems g ≠ some d := by
  have up : ∀ g d' x, h.elems g = some d' → (Function.update h.dict d' x) d = h.dict d := fun g d' x he =>
    Function.update_of_ne (fun hdd => hu g (by rw [he, hdd])) _ _
  cases c with
  | add g name e fix b =>
    simp only [Heap.change]
    cases he : h.elems g with
    | none => exact ⟨rfl, hu⟩
    | some d' =>
      cases hn : GroupNames.pickName (h.dict d').keys (cls e) name fix with
      | none => simp only [hn]; exact ⟨trivial, hu⟩
      | some n =>
        simp only [hn]
        by_cases h1 : hasDot n
        · rw [if_pos h1]; exact ⟨rfl, hu⟩
        · by_cases h2 : n ∈ (h.dict d').keys
          · rw [if_neg h1, if_pos h2]; exact ⟨rfl, hu⟩
          · rw [if_neg h1, if_neg h2]; exact ⟨up g d' _ he, hu⟩
  | set g k e b =>
    simp only [Heap.change]
    cases he : h.elems g with
    | none => exact ⟨rfl, hu⟩
    | some d' => exact ⟨up g d' _ he, hu⟩
  | del g k =>
    simp only [Heap.change]
    cases he : h.elems g with
    | none => exact ⟨rfl, hu⟩
    | some d' => exact ⟨up g d' _ he, hu⟩
  | rename e n => exact ⟨rfl, hu⟩
  | restore g g' =>
    simp only [Heap.change]
    split
    · refine ⟨by simp only [Function.update_of_ne hd.ne], fun g'' => ?_⟩
      by_cases hgg : g'' = g
      · subst hgg; simp [hd.ne']
      · simp only [Function.update_of_ne hgg]; exact hu g''
    · exact ⟨rfl, hu⟩

theorem unused_run (cls d) : ∀ (ops : List Step) (h : Heap) (g : Flat), d < h.fresh → (∀ g, h.elems g ≠ some d) →
    Keeps cls d h ops ∧ (run cls h g ops).1.dict d = h.dict d
  | [], _, _, _, _ => ⟨trivial, rfl⟩
  | .next :: r, h, g, hd, hu => unused_run cls d r h _ hd hu
  | .change c :: r, h, g, hd, hu => by
    obtain ⟨h1, h2⟩ := unused_change cls h c d hd hu
    obtain ⟨h3, h4⟩ := unused_run cls d r (h.change cls c) g (lt_of_lt_of_le hd (change_fresh cls h c)) h2
    exact ⟨⟨by rw [h1], h3⟩, h4.trans h1⟩

/-- C102: `g.restore(g')` in the middle of a loop over `g` does not disturb the loop: it goes on over the elements that `g` had, whatever
the program does to the group afterwards. -/
theorem C102_restore (cls : ℕ → Str) (h : Heap) (g g' d d' : ℕ) (root : Option Str) (hg : h.elems g = some d) (hg' : h.elems g' = some d')
    (hd : d < h.fresh) (own : ∀ x, h.elems x = some d → x = g) (ops : List Step) :
    let r := run cls h (.new g root) (.next :: .change (.restore g g') :: ops)
    (r.1.nextFlat r.2.1).2 = match (h.dict d).items[1 + asks ops]? with
      | some (_, v) => .item (Elem.rootName root (h.name g) ++ '.' :: r.1.name v) v
      | none => .stop := by
  intro r
  have hc : (h.change cls (.restore g g')).dict d = h.dict d ∧ ∀ x, (h.change cls (.restore g g')).elems x ≠ some d := by
    simp only [Heap.change, hg, hg', Function.update_of_ne hd.ne, true_and]
    intro x
    by_cases hx : x = g
    · subst hx; simp [hd.ne']
    · simp only [Function.update_of_ne hx]; exact fun he => hx (own x he)
  have hd' : d < (h.change cls (.restore g g')).fresh := lt_of_lt_of_le hd (change_fresh cls h _)
  have hk : Keeps cls d h (.change (.restore g g') :: ops) := ⟨by rw [hc.1], (unused_run cls d ops _ .ended hd' hc.2).1⟩
  have h1 := (C102_kept cls h g d root hg hd _ hk).2.1
  have hdict : r.1.dict d = h.dict d := (unused_run cls d ops _ _ hd' hc.2).2.trans hc.1
  have ha : asks (.change (.restore g g') :: ops) = asks ops := by simp [asks]
  rw [ha] at h1
  refine h1.trans ?_
  unfold nth
  rw [show ((run cls h (.new g root) (.next :: .change (.restore g g') :: ops)).1.dict d) = h.dict d from hdict]
  cases (h.dict d).items[1 + asks ops]? <;> rfl

/-! Nested groups -/

theorem next_len {d : Dict} {it : It} (h : d.next it ≠ .changed) : d.len = it.used := by
  by_contra hl
  exact h (if_pos hl)

theorem resume_changed (h : Heap) {fs gs o} (hr : Resume h fs gs o) : ∀ f ∈ fs, (h.dict f.d).len ≠ f.it.used →
    (o = .runtime ∧ gs = []) ∨ ((∃ n e, o = .item n e) ∧ ∃ f' ∈ gs, f'.d = f.d ∧ f'.it.used = f.it.used) := by
  induction hr with
  | ended => intro f hf; simp at hf
  | leave f' fs gs o hs _ ih =>
    intro f hf hl
    rcases List.mem_cons.1 hf with rfl | hf
    · exact absurd (next_len (by rw [hs]; simp)) hl
    · exact ih f hf hl
  | changed f' fs hs => intro f _ _; exact .inl ⟨rfl, rfl⟩
  | shape f' fs v it hs hv =>
    intro f hf hl
    rcases List.mem_cons.1 hf with rfl | hf
    · exact absurd (next_len (by rw [hs]; simp)) hl
    · exact .inr ⟨⟨_, _, rfl⟩, f, List.mem_cons_of_mem _ hf, rfl, rfl⟩
  | enter f' fs gs v d it o hs hv _ ih =>
    intro f hf hl
    rcases List.mem_cons.1 hf with rfl | hf
    · exact absurd (next_len (by rw [hs]; simp)) hl
    · exact ih f (by simp [hf]) hl

/-- C102: a generator of `iter_elems` that is in the loop over a group whose number of entries has changed raises `RuntimeError` at once
if this is the innermost loop. -/
theorem C102_deep_inner (h : Heap) (f : Frame) (fs gs : List Frame) (o : Out) (hl : (h.dict f.d).len ≠ f.it.used) :
    Resume h (f :: fs) gs o ↔ gs = [] ∧ o = .runtime := by
  have hc : (h.dict f.d).next f.it = .changed := if_pos hl
  constructor
  · intro hr
    cases hr <;> simp_all
  · rintro ⟨rfl, rfl⟩; exact .changed f fs hc

/-- C102: if it is one of the loops around, the items of the loops inside may still come, but the loop as a whole cannot end with
`StopIteration`: as long as the number stays different, the first result that is not an item is `RuntimeError`. -/
theorem C102_deep_outer (cls : ℕ → Str) (d n : ℕ) {h : Heap} {fs : List Frame} {outs : List Out} {h' : Heap} {fs' : List Frame}
    (hh : Hist cls d n h fs outs h' fs') : ∀ f ∈ fs, f.d = d → f.it.used = n →
    (∀ o ∈ outs, ∃ m e, o = .item m e) ∨ ∃ items rest, outs = items ++ .runtime :: rest ∧ ∀ o ∈ items, ∃ m e, o = Out.item m e := by
  induction hh with
  | nil => intro f _ _ _; simp
  | change h fs c outs h' fs' _ _ ih => exact ih
  | next h fs gs o outs h' fs' hl hr _ ih =>
    intro f hf hd hn
    rcases resume_changed h hr f hf (by rw [hd, hn]; exact hl) with ⟨rfl, rfl⟩ | ⟨⟨m, e, rfl⟩, f', hf', hd', hn'⟩
    · exact .inr ⟨[], outs, rfl, by simp⟩
    · rcases ih f' hf' (hd'.trans hd) (hn'.trans hn) with h1 | ⟨items, rest, rfl, h1⟩
      · refine .inl fun o ho => ?_
        rcases List.mem_cons.1 ho with rfl | ho
        · exact ⟨_, _, rfl⟩
        · exact h1 o ho
      · refine .inr ⟨.item m e :: items, rest, rfl, fun o ho => ?_⟩
        rcases List.mem_cons.1 ho with rfl | ho
        · exact ⟨_, _, rfl⟩
        · exact h1 o ho

/-! Replacing in a loop -/

theorem scan_nones (l : List (Option (Str × ℕ))) : ∀ i, scan (List.replicate i none ++ l) i = (scan l 0).map fun x => (x.1 + i, x.2)
  | 0 => by simp
  | i + 1 => by
    rw [List.replicate_succ, List.cons_append, scan, scan_nones l i, Option.map_map]
    congr 1

/-- After `i` replacements. -/
def table (i : ℕ) (rest : List (Str × ℕ)) (new : List (Str × ℕ)) : Dict :=
  ⟨List.replicate i none ++ (rest.map some ++ new.map some)⟩

theorem table_items (i rest new) : (table i rest new).items = rest ++ new := by
  simp [table, Dict.items, List.filterMap_map]

theorem table_del (i k e rest new) (hk : k ∉ (rest ++ new).map Prod.fst) :
    (table i ((k, e) :: rest) new).del k = table (i + 1) rest new := by
  have h1 : ∀ l : List (Str × ℕ), k ∉ l.map Prod.fst → (l.map some).map (fun s => if s.map Prod.fst = some k then none else s) = l.map some := by
    intro l hl
    rw [List.map_map]
    refine List.map_congr_left fun x hx => if_neg fun he => hl ?_
    simp at he
    exact List.mem_map.2 ⟨x, hx, he⟩
  simp only [List.map_append, List.mem_append, not_or] at hk
  unfold Dict.del table
  congr 1
  rw [List.map_append, List.map_append, h1 new hk.2, List.map_cons, List.map_cons, h1 rest hk.1, List.replicate_succ']
  simp

theorem replace_one (cls g d) (names : ℕ → Str) (h : Heap) (k : Str) (e r i : ℕ) (rest new : List (Str × ℕ)) (hname : h.name = names)
    (hg : h.elems g = some d) (hd : h.dict d = table i ((k, e) :: rest) new) (hk : k ∉ (rest ++ new).map Prod.fst)
    (hr : names r ∉ (rest ++ new).map Prod.fst) (hdot : hasDot (names r) = false) :
    ∃ h2, (h.change cls (.del g k)).change cls (.add g (names r) r false false) = h2 ∧ h2.name = names ∧ h2.elems g = some d ∧
      h2.dict d = table (i + 1) rest (new ++ [(names r, r)]) := by
  refine ⟨_, rfl, ?_⟩
  have h1 : h.change cls (.del g k) = { h with dict := Function.update h.dict d (table (i + 1) rest new) } := by
    simp only [Heap.change, hg, hd, table_del i k e rest new hk]
  have hkeys : (table (i + 1) rest new).keys = (rest ++ new).map Prod.fst := by rw [Dict.keys, table_items]
  have hp : GroupNames.pickName (table (i + 1) rest new).keys (cls r) (names r) false = some (names r) := by
    unfold GroupNames.pickName
    rw [hkeys]
    exact if_neg (by simpa using hr)
  have h2 : (h.change cls (.del g k)).change cls (.add g (names r) r false false) =
      { h with dict := Function.update (Function.update h.dict d (table (i + 1) rest new)) d
                ((table (i + 1) rest new).set false (names r) r), name := Function.update h.name r (names r) } := by
    rw [h1]
    simp only [Heap.change, hg, Function.update_self, hp]
    rw [if_neg (by simp [hdot]), if_neg (by rw [hkeys]; exact hr)]
  rw [h2]
  refine ⟨?_, hg, ?_⟩
  · simp only [hname, Function.update_eq_self]
  · simp only [Function.update_self]
    unfold Dict.set
    rw [if_neg (by rw [hkeys]; exact hr)]
    simp [table]

theorem loop_replacing (cls base g d) (names : ℕ → Str) : ∀ (rest : List (Str × ℕ)) (rs : List ℕ) (k : Str) (e r i : ℕ) (new : List (Str × ℕ))
    (h : Heap) (L : ℕ), h.name = names → h.elems g = some d → h.dict d = table i ((k, e) :: rest) new → L = 1 + rest.length + new.length →
    rs.length = rest.length → (k :: (rest.map Prod.fst ++ (new.map Prod.fst ++ (r :: rs).map names))).Nodup →
    (∀ x ∈ r :: rs, hasDot (names x) = false) →
    let q := run cls h (.running base d ⟨L, i + 1, rest.length⟩) (replacing names g ((k :: rest.map Prod.fst).zip (r :: rs)))
    q.2.2 = rest.map (fun kv => .item (base ++ '.' :: names kv.2) kv.2) ++ [.runtime] ∧
    (q.1.dict d).items = new ++ (r :: rs).map fun x => (names x, x) := by
  intro rest
  induction rest with
  | nil =>
    intro rs k e r i new h L hname hg hd hL hrs hn hdot
    obtain rfl : rs = [] := List.length_eq_zero_iff.1 hrs
    have hk : k ∉ ([] ++ new).map Prod.fst := fun hk => by
      simp only [List.nil_append] at hk
      exact (List.nodup_cons.1 hn).1 (by simp only [List.mem_append]; tauto)
    have hr : names r ∉ ([] ++ new).map Prod.fst := fun hr => by
      simp only [List.nil_append] at hr
      have := (List.nodup_cons.1 hn).2
      simp only [List.map_nil, List.nil_append, List.map_cons] at this
      exact (List.nodup_append.1 this).2.2 _ hr _ (by simp) rfl
    obtain ⟨h2, e2, n2, g2, d2⟩ := replace_one cls g d names h k e r i [] new hname hg hd hk hr (hdot r (by simp))
    intro q
    have hq : q = (h2, .ended, [.runtime]) := by
      simp only [q, List.map_nil, List.zip_cons_cons, List.zip_nil_right, replacing, run, e2, Heap.nextFlat, Heap.loop, Dict.next, d2]
      have hlen : (table (i + 1) [] (new ++ [(names r, r)])).len = L := by
        rw [Dict.len, table_items]; simp [hL, Nat.add_comm]
      have hsc : ∃ x, scan (table (i + 1) [] (new ++ [(names r, r)])).slots (i + 1) = some x := by
        unfold table
        rw [scan_nones]
        cases new <;> simp [scan]
      obtain ⟨x, hx⟩ := hsc
      rw [if_neg (by simp [hlen]), hx]
      simp
    rw [hq]
    refine ⟨by simp, ?_⟩
    simp only [d2, table_items]
    simp
  | cons x rest ih =>
    intro rs k e r i new h L hname hg hd hL hrs hn hdot
    obtain ⟨k', e'⟩ := x
    cases rs with
    | nil => simp at hrs
    | cons r' rs =>
      have hn1 := List.nodup_cons.1 hn
      have hk : k ∉ ((k', e') :: rest ++ new).map Prod.fst := fun hk => hn1.1 (by
        simp only [List.map_append, List.map_cons, List.cons_append] at hk ⊢
        simp only [List.mem_cons, List.mem_append] at hk ⊢
        tauto)
      have hr : names r ∉ ((k', e') :: rest ++ new).map Prod.fst := fun hr => by
        have h3 := hn1.2
        rw [← List.append_assoc, ← List.map_append] at h3
        exact (List.nodup_append.1 h3).2.2 _ hr _ (by simp) rfl
      obtain ⟨h2, e2, n2, g2, d2⟩ := replace_one cls g d names h k e r i ((k', e') :: rest) new hname hg hd hk hr (hdot r (by simp))
      have hlen : (h2.dict d).len = L := by
        rw [d2, Dict.len, table_items]; simp [hL]; omega
      have hsc : scan (h2.dict d).slots (i + 1) = some (i + 1, e') := by
        rw [d2]; unfold table
        rw [scan_nones]
        simp [scan]
      have hnx : h2.nextFlat (.running base d ⟨L, i + 1, rest.length + 1⟩) =
          (.running base d ⟨L, i + 1 + 1, rest.length⟩, .item (base ++ '.' :: names e') e') := by
        simp only [Heap.nextFlat, Heap.loop, Dict.next]
        rw [if_neg (by simp [hlen]), hsc]
        simp [n2]
      have := ih rs k' e' r' (i + 1) (new ++ [(names r, r)]) h2 L n2 g2 d2 (by simp [hL] at *; omega) (by simpa using hrs) ?_
        (fun x hx => hdot x (by simp at hx ⊢; tauto))
      · intro q
        have hq : q = (let w := run cls h2 (.running base d ⟨L, i + 1 + 1, rest.length⟩) (replacing names g ((k' :: rest.map Prod.fst).zip (r' :: rs)))
            (w.1, w.2.1, .item (base ++ '.' :: names e') e' :: w.2.2)) := by
          simp only [q, List.map_cons, List.length_cons]
          rw [List.zip_cons_cons, replacing, run, run, run, e2, hnx]
        rw [hq]
        refine ⟨?_, ?_⟩
        · simp only [List.map_cons, List.cons_append]
          rw [this.1]
        · rw [this.2]; simp
      · have h3 := hn1.2
        simpa using h3

/-- C102: a loop over a group of which each element is replaced as it comes gives every element once and then ends with `RuntimeError`,
not normally; by then everything is replaced. (Here the table is not rebuilt meanwhile; see `C102_skip_counterexample`.) -/
theorem C102_replacing (cls : ℕ → Str) (h : Heap) (g d : ℕ) (root : Option Str) (es : List (Str × ℕ)) (rs : List ℕ)
    (hg : h.elems g = some d) (hs : h.dict d = ⟨es.map some⟩) (hne : es ≠ []) (hl : rs.length = es.length)
    (hn : (es.map Prod.fst ++ rs.map h.name).Nodup) (hdot : ∀ r ∈ rs, hasDot (h.name r) = false) :
    let q := run cls h (.new g root) (.next :: replacing h.name g ((es.map Prod.fst).zip rs))
    q.2.2 = es.map (fun kv => .item (Elem.rootName root (h.name g) ++ '.' :: h.name kv.2) kv.2) ++ [.runtime] ∧
    (q.1.dict d).items = rs.map fun r => (h.name r, r) := by
  cases es with
  | nil => exact absurd rfl hne
  | cons x rest =>
    obtain ⟨k, e⟩ := x
    cases rs with
    | nil => simp at hl
    | cons r rs =>
      have ht : h.dict d = table 0 ((k, e) :: rest) [] := by rw [hs]; simp [table]
      have hlen : (h.dict d).len = rest.length + 1 := by rw [ht, Dict.len, table_items]; simp
      have hnx : h.nextFlat (.new g root) = (.running (Elem.rootName root (h.name g)) d ⟨rest.length + 1, 0 + 1, rest.length⟩,
          .item (Elem.rootName root (h.name g) ++ '.' :: h.name e) e) := by
        simp only [Heap.nextFlat, hg, Heap.loop, Dict.next, Dict.iter]
        have hsc : scan (h.dict d).slots 0 = some (0, e) := by rw [ht]; simp [table, scan]
        simp [hsc, hlen]
      have := loop_replacing cls (Elem.rootName root (h.name g)) g d h.name rest rs k e r 0 [] h (rest.length + 1) rfl hg ht (by simp; omega)
        (by simpa using hl) (by simpa using hn) hdot
      intro q
      have hq : q = (let w := run cls h (.running (Elem.rootName root (h.name g)) d ⟨rest.length + 1, 0 + 1, rest.length⟩) (replacing h.name g ((k :: rest.map Prod.fst).zip (r :: rs)))
          (w.1, w.2.1, .item (Elem.rootName root (h.name g) ++ '.' :: h.name e) e :: w.2.2)) := by
        simp only [q, List.map_cons]
        rw [run, hnx]
      rw [hq]
      refine ⟨?_, ?_⟩
      · simp only [List.map_cons, List.cons_append]; rw [this.1]
      · rw [this.2]; simp

/-! A group of five -/

/-- Group 0 with five shapes 1 to 5 of names `a` to `e`; 6 has the name `x`, 7 is another group with nothing in it. -/
def demo : Heap where
  name := fun n => [['g'], ['a'], ['b'], ['c'], ['d'], ['e'], ['x'], ['k']].getD n []
  elems := fun n => if n = 0 then some 0 else if n = 7 then some 1 else none
  dict := fun n => if n = 0 then ⟨[some (['a'], 1), some (['b'], 2), some (['c'], 3), some (['d'], 4), some (['e'], 5)]⟩ else ⟨[]⟩
  fresh := 2

/-- C102 fails for elements that stay: if the first element of a group of five is replaced when it comes, and Python rebuilds the table at
that moment (as CPython does with five entries), the loop leaves out the second one, which is in the group all the time, gives the
replacement as well, and ends normally. -/
theorem C102_skip_counterexample (cls : ℕ → Str) :
    let q := run cls demo (.new 0 none) (.next :: .change (.del 0 ['a']) :: .change (.add 0 ['x'] 6 false true) ::
      [.next, .next, .next, .next, .next])
    q.2.2 = [.item ['g', '.', 'a'] 1, .item ['g', '.', 'c'] 3, .item ['g', '.', 'd'] 4, .item ['g', '.', 'e'] 5, .item ['g', '.', 'x'] 6, .stop] ∧
    (q.1.dict 0).items = [(['b'], 2), (['c'], 3), (['d'], 4), (['e'], 5), (['x'], 6)] := by
  constructor <;> rfl

/-- The other theorems apply to it: all elements are given if only a name changes and another element is put in for one of them. -/
example (cls : ℕ → Str) : Keeps cls 0 demo [.change (.rename 2 ['z']), .next, .change (.set 0 ['c'] 6 false), .next] :=
  ⟨rfl, rfl, trivial⟩

example (cls : ℕ → Str) : (run cls demo (.new 0 none) (.next :: [.change (.rename 2 ['z']), .next, .change (.set 0 ['c'] 6 false), .next])).2.2 =
    [.item ['g', '.', 'a'] 1, .item ['g', '.', 'z'] 2, .item ['g', '.', 'x'] 6] := rfl

/-- A sixth element is added after the first item. -/
example (cls : ℕ → Str) : (∀ o ∈ (run cls demo (.new 0 none) (.next :: [.change (.add 0 ['x'] 6 false true)])).2.2, ∃ n e, o = .item n e) ∧
    ((run cls demo (.new 0 none) (.next :: [.change (.add 0 ['x'] 6 false true)])).1.dict 0).len ≠ (demo.dict 0).len :=
  ⟨fun o ho => ⟨['g', '.', 'a'], 1, by simpa [run, demo, Heap.nextFlat, Heap.loop, Dict.next, Dict.iter, Dict.len, Dict.items, scan, Elem.rootName] using ho⟩, by
    have : ((run cls demo (.new 0 none) (.next :: [.change (.add 0 ['x'] 6 false true)])).1.dict 0).len = 6 := rfl
    rw [this]; decide⟩

/-- Each of the five replaced as it comes. -/
example : (([(['a'], 1), (['b'], 2), (['c'], 3), (['d'], 4), (['e'], 5)] : List (Str × ℕ)).map Prod.fst ++
    [6, 7, 8, 9, 10].map fun n => List.replicate n 'r').Nodup := by decide

/-- A group 7 that holds group 0, to which a shape is added while the loop is inside of group 0: the next item still comes from there. -/
def demo2 : Heap := { demo with dict := fun n => if n = 1 then ⟨[some (['g'], 0)]⟩ else demo.dict n }

example (cls : ℕ → Str) : ∃ outs h' fs', outs ≠ [] ∧
    Hist cls 1 1 (demo2.change cls (.add 7 ['x'] 6 false false)) [⟨0, 0, some ['k'], ⟨5, 1, 4⟩⟩, ⟨7, 1, none, ⟨1, 1, 0⟩⟩] outs h' fs' := by
  have hl : ((demo2.change cls (.add 7 ['x'] 6 false false)).dict 1).len ≠ 1 := by
    have : ((demo2.change cls (.add 7 ['x'] 6 false false)).dict 1).len = 2 := rfl
    rw [this]; decide
  exact ⟨_, _, _, by simp, .next _ _ _ _ _ _ _ hl (.shape _ _ 2 ⟨5, 2, 3⟩ rfl rfl) (.nil _ _ hl)⟩

end X7.IterChange
