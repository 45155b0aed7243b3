import Verif.Spec.Stage
import Verif.Lemmas.MultiHeap
import Verif.Props.MultiHeap

/-! Lemmas for C111. -/

noncomputable section

namespace X7.Stage

open CH Anim

/-! ### The tree -/

/-- What is seen at a place after `replace`. -/
def swap (same : ℕ → Bool) (r : ℕ) (x : List Str × ℕ) : List Str × ℕ := (x.1, if same x.2 then r else x.2)

/-- How many curves are equal. -/
def hits (same : ℕ → Bool) (l : List (List Str × ℕ)) : ℕ := l.countP fun x => same x.2

theorem slotsAll_append (a b : List (Str × Node)) : slotsAll (a ++ b) = slotsAll a ++ slotsAll b := by
  induction a with
  | nil => simp [slotsAll]
  | cons x a ih =>
    obtain ⟨k, e⟩ := x
    simp [slotsAll, ih]

theorem othersAll_append (a b : List (Str × Node)) : othersAll (a ++ b) = othersAll a ++ othersAll b := by
  induction a with
  | nil => simp [othersAll]
  | cons x a ih =>
    obtain ⟨k, e⟩ := x
    simp [othersAll, ih]

theorem keyedAll_append {nm : ℕ → Str} {a b : List (Str × Node)} : KeyedAll nm (a ++ b) ↔ KeyedAll nm a ∧ KeyedAll nm b := by
  induction a with
  | nil => simp [KeyedAll]
  | cons x a ih =>
    obtain ⟨k, e⟩ := x
    simp [KeyedAll, ih, and_assoc]

theorem upd_at {α : Type} {pre rest post : List (Str × α)} {k : Str} {e e' : α}
    (hn : ((pre ++ (k, e) :: rest ++ post).map Prod.fst).Nodup) :
    (pre ++ (k, e) :: rest ++ post).map (fun x => if x.1 = k then (k, e') else x) = pre ++ [(k, e')] ++ rest ++ post := by
  simp only [List.map_append, List.map_cons, List.nodup_append, List.nodup_cons, List.mem_append, List.mem_cons] at hn
  obtain ⟨⟨h1, ⟨h2, h3⟩, h4⟩, h5, h6⟩ := hn
  have idem : ∀ l : List (Str × α), k ∉ l.map Prod.fst → l.map (fun x => if x.1 = k then (k, e') else x) = l := by
    intro l hl
    rw [List.map_congr_left (g := id)]
    · simp
    · intro x hx
      have : x.1 ≠ k := fun h => hl (h ▸ List.mem_map_of_mem (f := Prod.fst) hx)
      rw [if_neg this]; rfl
  have a1 := idem pre (fun h => h4 k h k (Or.inl rfl) rfl)
  have a2 := idem rest h2
  have a3 := idem post (fun h => h6 k (Or.inr (Or.inl rfl)) k h rfl)
  simp only [List.map_append, List.map_cons, a1, a2, a3]
  simp

theorem del_at {α : Type} {pre rest post : List (Str × α)} {k : Str} {e : α}
    (hn : ((pre ++ (k, e) :: rest ++ post).map Prod.fst).Nodup) :
    (pre ++ (k, e) :: rest ++ post).filter (fun x => decide (x.1 ≠ k)) = pre ++ rest ++ post ∧
      k ∉ (pre ++ rest ++ post).map Prod.fst := by
  simp only [List.map_append, List.map_cons, List.nodup_append, List.nodup_cons, List.mem_append, List.mem_cons] at hn
  obtain ⟨⟨h1, ⟨h2, h3⟩, h4⟩, h5, h6⟩ := hn
  have b1 : k ∉ pre.map Prod.fst := fun h => h4 k h k (Or.inl rfl) rfl
  have b3 : k ∉ post.map Prod.fst := fun h => h6 k (Or.inr (Or.inl rfl)) k h rfl
  have idem : ∀ l : List (Str × α), k ∉ l.map Prod.fst → l.filter (fun x => decide (x.1 ≠ k)) = l := by
    intro l hl
    rw [List.filter_eq_self]
    intro x hx
    have : x.1 ≠ k := fun h => hl (h ▸ List.mem_map_of_mem (f := Prod.fst) hx)
    simpa using this
  refine ⟨?_, ?_⟩
  · simp only [List.filter_append, List.filter_cons, idem pre b1, idem rest h2, idem post b3]
    simp
  · simp only [List.map_append, List.mem_append, not_or]
    exact ⟨⟨b1, h2⟩, b3⟩

theorem swap_none {same : ℕ → Bool} {r : ℕ} {l : List (List Str × ℕ)} (h : ∀ x ∈ l, same x.2 = false) : l.map (swap same r) = l := by
  rw [List.map_congr_left (g := id)]
  · simp
  · intro x hx
    simp [swap, h x hx]

theorem swap_prefix (same : ℕ → Bool) (r : ℕ) (k : Str) (l : List (List Str × ℕ)) :
    (l.map fun x => (k :: x.1, x.2)).map (swap same r) = (l.map (swap same r)).map fun x => (k :: x.1, x.2) := by
  simp [swap]

theorem hits_prefix (same : ℕ → Bool) (k : Str) (l : List (List Str × ℕ)) :
    hits same (l.map fun x => (k :: x.1, x.2)) = hits same l := by
  simp [hits, List.countP_map, Function.comp_def]

theorem hits_append (same : ℕ → Bool) (a b : List (List Str × ℕ)) : hits same (a ++ b) = hits same a + hits same b := by
  simp [hits]

mutual
theorem replace_ok {nm : ℕ → Str} {same : ℕ → Bool} {r : ℕ} (hs : ∀ k, same k = true → nm k = nm r) : (n : Node) → Keyed nm n →
    isSame same n = false → ∃ n', replace same r (nm r) n = (n', .ok (hits same (slots n))) ∧
      (slots n').Perm ((slots n).map (swap same r)) ∧ others n' = others n ∧ Keyed nm n' ∧ nameOf nm n' = nameOf nm n
  | .curve k, _, hk => by
    have hk' : same k = false := hk
    exact ⟨.curve k, by simp [replace, slots, hits, hk'], by simp [slots, swap, hk'], rfl, trivial, rfl⟩
  | .shape e, hp, _ => by
    refine ⟨.shape e, ?_, by simp [slots], rfl, hp, rfl⟩
    have he : plainShape e := hp
    have : Elem.replaceOther e = .ok 0 := by
      cases e <;> simp_all [plainShape, Elem.replaceOther]
    simp [replace, this, slots, hits]
  | .group h hidden es, hp, _ => by
    obtain ⟨new, extra, e1, e2, e3, e4, e5⟩ := loop_ok hs es [] [] (by simpa using hp.1) hp.2
    simp only [List.nil_append, List.append_nil] at e1
    refine ⟨.group h hidden (new ++ extra), ?_, by simpa [slots] using e2, by simp [others, e3], ⟨?_, e4⟩, rfl⟩
    · simp only [replace, e1, slots]
    · exact e5.nodup_iff.2 hp.1
theorem loop_ok {nm : ℕ → Str} {same : ℕ → Bool} {r : ℕ} (hs : ∀ k, same k = true → nm k = nm r) : (todo pre post : List (Str × Node)) →
    ((pre ++ todo ++ post).map Prod.fst).Nodup → KeyedAll nm todo → ∃ new extra,
      replaceAll same r (nm r) todo (pre ++ todo ++ post) = (pre ++ new ++ post ++ extra, .ok (hits same (slotsAll todo))) ∧
      (slotsAll (new ++ extra)).Perm ((slotsAll todo).map (swap same r)) ∧ othersAll (new ++ extra) = othersAll todo ∧
      KeyedAll nm (new ++ extra) ∧ ((new ++ extra).map Prod.fst).Perm (todo.map Prod.fst)
  | [], pre, post, _, _ => ⟨[], [], by simp [replaceAll, slotsAll, hits], by simp [slotsAll], rfl, trivial, by simp⟩
  | (k, e) :: rest, pre, post, hn, hk => by
    obtain ⟨⟨hk1, hk2, hk3⟩, hk4⟩ := hk
    by_cases hsame : isSame same e = true
    · obtain ⟨c, rfl⟩ : ∃ c, e = .curve c := by
        cases e with
        | curve c => exact ⟨c, rfl⟩
        | shape _ => simp [isSame] at hsame
        | group _ _ _ => simp [isSame] at hsame
      have hc : same c = true := hsame
      have hkr : k = nm r := by rw [hk1]; exact hs c hc
      obtain ⟨d1, d2⟩ := del_at hn
      have hn' : ((pre ++ rest ++ (post ++ [(nm r, Node.curve r)])).map Prod.fst).Nodup := by
        have : ((pre ++ rest ++ (post ++ [(nm r, Node.curve r)])).map Prod.fst).Perm ((pre ++ (k, Node.curve c) :: rest ++ post).map Prod.fst) := by
          rw [hkr]
          simp only [List.map_append, List.map_cons, List.map_nil, ← List.append_assoc]
          refine List.perm_append_singleton _ _ |>.trans ?_
          simp only [List.append_assoc, List.cons_append]
          exact List.perm_middle.symm
        exact this.nodup_iff.2 hn
      obtain ⟨new, extra, e1, e2, e3, e4, e5⟩ := loop_ok hs rest pre (post ++ [(nm r, .curve r)]) hn' hk4
      have e1' : replaceAll same r (nm r) rest (pre ++ rest ++ post ++ [(nm r, .curve r)]) =
          (pre ++ new ++ (post ++ [(nm r, .curve r)]) ++ extra, .ok (hits same (slotsAll rest))) := by
        rw [← e1]; simp
      have hperm : (new ++ (nm r, Node.curve r) :: extra).Perm ((nm r, Node.curve r) :: (new ++ extra)) := List.perm_middle
      refine ⟨new, (nm r, .curve r) :: extra, ?_, ?_, ?_, ?_, ?_⟩
      · have hdot : hasDot (nm r) = false := by
          rw [← hkr]; simpa [hasDot] using hk2
        have d2' : nm r ∉ (pre ++ rest ++ post).map Prod.fst := hkr ▸ d2
        rw [replaceAll, if_pos hsame]
        dsimp only
        rw [d1, if_neg d2', hdot, if_neg (by simp), e1']
        simp only [slotsAll, slots, hits_append, Prod.mk.injEq, Except.ok.injEq]
        refine ⟨by simp, ?_⟩
        simp [hits, hc, add_comm]
      · simp only [slotsAll_append, slotsAll, slots, List.map_cons, List.map_nil, List.map_append]
        rw [slotsAll_append] at e2
        have : swap same r ([k], c) = ([nm r], r) := by simp [swap, hc, hkr]
        rw [this]
        refine List.perm_middle.trans ?_
        exact List.Perm.cons _ e2
      · rw [othersAll_append] at e3
        simp [othersAll_append, othersAll, others, e3]
      · rw [keyedAll_append] at e4 ⊢
        exact ⟨e4.1, ⟨rfl, hkr ▸ hk2, trivial⟩, e4.2⟩
      · refine (hperm.map Prod.fst).trans ?_
        simp only [List.map_cons, ← hkr]
        exact List.Perm.cons _ e5
    · have hsame' : isSame same e = false := by simpa using hsame
      obtain ⟨e', f1, f2, f3, f4, f5⟩ := replace_ok hs e hk3 hsame'
      have hu := upd_at (e' := e') hn
      have hn' : ((pre ++ [(k, e')] ++ rest ++ post).map Prod.fst).Nodup := by
        have : (pre ++ [(k, e')] ++ rest ++ post).map Prod.fst = (pre ++ (k, e) :: rest ++ post).map Prod.fst := by simp
        rw [this]; exact hn
      obtain ⟨new, extra, e1, e2, e3, e4, e5⟩ := loop_ok hs rest (pre ++ [(k, e')]) post hn' hk4
      refine ⟨(k, e') :: new, extra, ?_, ?_, ?_, ?_, ?_⟩
      · rw [replaceAll, if_neg hsame, f1]
        dsimp only
        rw [hu, e1]
        simp only [slotsAll, hits_append, hits_prefix]
        simp
      · simp only [List.cons_append, slotsAll, List.map_append, swap_prefix]
        exact (f2.map _).append e2
      · simp [othersAll, f3, e3]
      · exact ⟨⟨by rw [f5]; exact hk1, hk2, f4⟩, e4⟩
      · simp only [List.cons_append, List.map_cons]
        exact List.Perm.cons _ e5
end

mutual
theorem keyed_congr {nm nm' : ℕ → Str} : (n : Node) → (∀ x ∈ slots n, nm' x.2 = nm x.2) → Keyed nm n →
    Keyed nm' n ∧ nameOf nm' n = nameOf nm n
  | .curve k, h, _ => ⟨trivial, h ([], k) (by simp [slots])⟩
  | .shape _, _, hk => ⟨hk, rfl⟩
  | .group _ _ es, h, hk => ⟨⟨hk.1, keyedAll_congr es h hk.2⟩, rfl⟩
theorem keyedAll_congr {nm nm' : ℕ → Str} : (es : List (Str × Node)) → (∀ x ∈ slotsAll es, nm' x.2 = nm x.2) → KeyedAll nm es → KeyedAll nm' es
  | [], _, _ => trivial
  | (k, e) :: rest, h, hk => by
    obtain ⟨⟨a, b, c⟩, d⟩ := hk
    obtain ⟨e1, e2⟩ := keyed_congr e (fun x hx => h (k :: x.1, x.2) (by
      simp only [slotsAll, List.mem_append, List.mem_map]
      exact Or.inl ⟨x, hx, rfl⟩)) c
    exact ⟨⟨a.trans e2.symm, b, e1⟩, keyedAll_congr rest (fun x hx => h x (by simp [slotsAll, hx])) d⟩
end

theorem replace_group (same : ℕ → Bool) (r : ℕ) (name : Str) {n : Node} (h : ∃ h hidden es, n = .group h hidden es) :
    ∃ h hidden es, (replace same r name n).1 = .group h hidden es := by
  obtain ⟨a, b, c, rfl⟩ := h
  exact ⟨a, b, _, rfl⟩

/-- The tree after one `replace` whose elem is seen at one place only. -/
theorem tree_step {nm nm0 : ℕ → Str} {same : ℕ → Bool} {r a : ℕ} {f : ℕ → ℕ} {old now : Node} (hg : ∃ h hidden es, now = .group h hidden es)
    (hk : Keyed nm now) (hsh : Shows f old now) (hd : ((slots old).map fun x => nm0 x.2).Nodup) (ha : a ∈ (slots old).map Prod.snd)
    (hf : ∀ x ∈ slots old, nm (f x.2) = nm0 x.2) (hr : nm r = nm0 a) (hs : ∀ k, same k = true → nm k = nm r) :
    ∃ now', replace same r (nm r) now = (now', .ok (if same (f a) then 1 else 0)) ∧ (∃ h hidden es, now' = .group h hidden es) ∧
      Keyed nm now' ∧ Shows (if same (f a) then Function.update f a r else f) old now' := by
  have hns : isSame same now = false := by
    obtain ⟨_, _, _, rfl⟩ := hg
    rfl
  obtain ⟨now', e1, e2, e3, e4, -⟩ := replace_ok hs now hk hns
  have hinj : ∀ x ∈ slots old, same (f x.2) = true → x.2 = a := by
    intro x hx h
    obtain ⟨y, hy, rfl⟩ := List.mem_map.1 ha
    have h1 : nm0 x.2 = nm0 y.2 := by rw [← hf x hx, hs _ h, hr]
    have := List.inj_on_of_nodup_map hd hx hy h1
    rw [this]
  have hnd : ((slots old).map Prod.snd).Nodup := by
    have : ((slots old).map fun x => nm0 x.2) = ((slots old).map Prod.snd).map nm0 := by simp
    rw [this] at hd
    exact List.Nodup.of_map _ hd
  have hhits : hits same (slots now) = if same (f a) then 1 else 0 := by
    have h1 : hits same (slots now) = (slots old).countP fun x => same (f x.2) := by
      unfold hits
      rw [hsh.1.countP_eq, List.countP_map]
      rfl
    rw [h1]
    by_cases hsa : same (f a) = true
    · rw [if_pos hsa]
      have h2 : ((slots old).countP fun x => same (f x.2)) = (slots old).countP fun x => x.2 == a := by
        apply List.countP_congr
        intro x hx
        constructor
        · intro h
          simpa using hinj x hx h
        · intro h
          have : x.2 = a := by simpa using h
          rw [this]
          exact hsa
      rw [h2]
      have h3 : ((slots old).countP fun x => x.2 == a) = ((slots old).map Prod.snd).count a := by
        rw [List.count, List.countP_map]
        rfl
      rw [h3]
      exact List.count_eq_one_of_mem hnd ha
    · rw [if_neg hsa, List.countP_eq_zero]
      intro x hx h
      exact hsa (hinj x hx h ▸ h)
  refine ⟨now', by rw [e1, hhits], ?_, e4, ?_, e3.trans hsh.2⟩
  · have := replace_group same r (nm r) hg
    rw [e1] at this
    exact this
  · refine e2.trans ((hsh.1.map _).trans ?_)
    rw [List.map_map]
    apply List.Perm.of_eq
    apply List.map_congr_left
    intro x hx
    by_cases hsx : same (f x.2) = true
    · have := hinj x hx hsx
      have hsa : same (f a) = true := this ▸ hsx
      simp only [Function.comp, swap, hsx, hsa, this, if_true, Function.update_self]
    · simp only [Function.comp, swap]
      rw [if_neg hsx]
      by_cases hsa : same (f a) = true
      · have hne : x.2 ≠ a := fun h => hsx (h ▸ hsa)
        simp only [hsa, if_true]
        rw [Function.update_of_ne hne]
      · simp only [hsa]
        rfl

/-! ### Names -/

/-- No curve goes away, none is renamed. -/
def Kept (s s' : State) : Prop := s.curves.length ≤ s'.curves.length ∧ ∀ k, k < s.curves.length → nameVal s' k = nameVal s k

theorem Kept.refl (s : State) : Kept s s := ⟨le_refl _, fun _ _ => rfl⟩

theorem Kept.trans {a b c : State} (h : Kept a b) (h' : Kept b c) : Kept a c :=
  ⟨h.1.trans h'.1, fun k hk => (h'.2 k (lt_of_lt_of_le hk h.1)).trans (h.2 k hk)⟩

theorem kept_set {s : State} {X : List (Mat3 ℝ)} {i : ℕ} {c c' : Curve} (hc : s.curves[i]? = some c) (hn : c'.name = c.name) :
    Kept s ⟨X, s.curves.set i c'⟩ := by
  refine ⟨by simp, fun k hk => ?_⟩
  by_cases hki : k = i
  · subst hki
    simp only [nameVal, hc]
    rw [List.getElem?_set_self hk]
    exact hn
  · simp only [nameVal]
    rw [List.getElem?_set_ne (Ne.symm hki)]

theorem kept_append (s : State) (X : List (Mat3 ℝ)) (cs : List Curve) : Kept s ⟨X, s.curves ++ cs⟩ := by
  refine ⟨by simp, fun k hk => ?_⟩
  simp only [nameVal]
  rw [List.getElem?_append_left hk]

theorem kept_xfs (s : State) (X : List (Mat3 ℝ)) : Kept s ⟨X, s.curves⟩ := ⟨le_refl _, fun _ _ => rfl⟩

theorem kept_step (s : State) (op : Op) (h : op.restores = none) : Kept s (s.step op).1 := by
  cases op with
  | restore i j => simp [Op.restores] at h
  | _ =>
    simp only [State.step, State.add, State.addXf]
    repeat' split
    all_goals first
      | exact Kept.refl _
      | exact kept_append _ _ _
      | exact kept_xfs _ _
      | (apply kept_set <;> first | assumption | rfl)

theorem kept_pad (n : ℕ) (s : State) (i : ℕ) : Kept s (MH.padVal s i n).1 := by
  induction n generalizing s with
  | zero => exact Kept.refl _
  | succ n ih =>
    have h := kept_step s (.addOne i) rfl
    simp only [MH.padVal]
    split
    · rename_i s1 e
      rw [e] at h
      exact h.trans (ih s1)
    · rename_i s1 x e
      rw [e] at h
      exact h

theorem kept_padBoth (s : State) (i j : ℕ) (force : Bool) : Kept s (MH.padBothVal s i j force).1 := by
  unfold MH.padBothVal
  split
  · have h := kept_pad (MH.sizeVal s j - MH.sizeVal s i) s i
    split
    · rename_i s1 x e
      rw [e] at h
      exact h
    · rename_i s1 e
      rw [e] at h
      exact h.trans (kept_pad _ _ _)
  · exact Kept.refl _

theorem kept_turn (s : State) (i : ℕ) : Kept s (Multi.turnVal s i).1 := by
  unfold Multi.turnVal
  repeat' split
  all_goals first
    | exact Kept.refl _
    | exact kept_step _ _ rfl

theorem kept_then {s : State} {r : State × Option PyErr} {f : State → State × Option PyErr} (h : Kept s r.1) (h' : Kept r.1 (f r.1).1) :
    Kept s (Multi.thenDo r f).1 := by
  unfold Multi.thenDo
  split
  · exact h.trans h'
  · exact h

theorem kept_prep (force : Bool) (n : ℕ) (is : List ℕ) (s : State) : Kept s (Multi.prepVal force n is s).1 := by
  induction is generalizing s with
  | nil => exact Kept.refl _
  | cons i is ih =>
    unfold Multi.prepVal
    refine kept_then (kept_pad _ _ _) (kept_then ?_ (ih _))
    split
    · exact kept_turn _ _
    · exact Kept.refl _

theorem kept_build (s : State) (i : ℕ) (ts : List ℕ) (force : Bool) : Kept s (Multi.buildVal s i ts force).1 := by
  unfold Multi.buildVal
  exact kept_then (kept_step _ _ rfl) (kept_then (kept_prep _ _ _ _) (kept_step _ _ rfl))

theorem kept_updMH (s : State) (m : MH.MorphObj) (t : TVal) : Kept s (MH.updVal s m t).1 := by
  unfold MH.updVal
  repeat' split
  all_goals first
    | exact Kept.refl _
    | (apply kept_set <;> first | assumption | rfl)

theorem kept_upd (s : State) (m : Multi.MultiObj) (t : TVal) : Kept s (Multi.updVal s m t).1 := by
  unfold Multi.updVal
  repeat' split
  all_goals first
    | exact Kept.refl _
    | exact kept_updMH _ _ _

/-! ### The constructors -/

theorem morph_found {v v1 : Multi.Values} {i j : ℕ} {force : Bool} (h : v.step (.base (.morph i j force (.ok 1))) = (v1, none)) :
    i < v.st.curves.length ∧ Kept v.st v1.st ∧ v.st.curves.length < v1.st.curves.length ∧ nameVal v1.st v.st.curves.length = nameVal v1.st i ∧
      v1.morphs = v.morphs ++ [⟨i, v.st.curves.length, j⟩] ∧ v1.multis = v.multis ∧
      v.step (.base (.morph i j force (.ok 0))) = (⟨v1.st, v.morphs, v.multis⟩, some .morph) := by
  obtain ⟨a, b⟩ := Prod.mk.inj h
  have hm : MH.Values.step ⟨v.st, v.morphs⟩ (.morph i j force (.ok 1)) = (⟨v1.st, v1.morphs⟩, none) := by
    rw [← a]
    exact Prod.ext rfl b
  obtain ⟨m1, m2, m3, m4, m5, m6⟩ := MH.morph_made hm
  have hmul : v1.multis = v.multis := by rw [← a]
  refine ⟨m1, ?_, by simp only [] at m4; omega, ?_, m3, hmul, ?_⟩
  · have K := kept_padBoth v.st i j force
    simp only [MH.Values.step] at hm
    split at hm
    · split at hm
      · simp at hm
      · rename_i s1 e1
        rw [e1] at K
        have K2 := kept_step s1 (.copy i) rfl
        split at hm
        · simp at hm
        · rename_i s2 e2
          rw [e2] at K2
          split at hm
          · simp at hm
          · simp only [Prod.mk.injEq, MH.Values.mk.injEq] at hm
            rw [← hm.1.1]
            exact K.trans K2
    · simp at hm
  · simp only [nameVal]
    simp only at m6
    rw [m6]
  · have : MH.Values.step ⟨v.st, v.morphs⟩ (.morph i j force (.ok 0)) = (⟨v1.st, v.morphs⟩, some .morph) := by
      simp only [MH.Values.step] at hm ⊢
      split at hm
      · rename_i hij
        rw [if_pos hij]
        split at hm
        · simp at hm
        · split at hm
          · simp at hm
          · split at hm
            · simp at hm
            · rename_i hsz
              simp only [Prod.mk.injEq, MH.Values.mk.injEq] at hm
              rw [if_neg hsz, hm.1.1]
      · simp at hm
    simp only [Multi.Values.step, this]

theorem multi_found {v v1 : Multi.Values} {i : ℕ} {ts : List (ℝ × ℕ)} {force : Bool} (h : v.step (.multi i ts force (.ok 1)) = (v1, none)) :
    i < v.st.curves.length ∧ Kept v.st v1.st ∧ v.st.curves.length + 1 < v1.st.curves.length ∧
      nameVal v1.st (v.st.curves.length + 1) = nameVal v1.st i ∧ v1.morphs = v.morphs ∧
      v1.multis = v.multis ++ [⟨i, v.st.curves.length + 1, (0, v.st.curves.length) :: ts⟩] ∧
      v.step (.multi i ts force (.ok 0)) = (⟨v1.st, v.morphs, v.multis⟩, some .morph) := by
  simp only [Multi.Values.step] at h ⊢
  split at h
  · rename_i hij
    rw [if_pos hij]
    have K := kept_build v.st i (ts.map Prod.snd) force
    obtain ⟨B, hB⟩ : ∃ B, B = Multi.buildVal v.st i (ts.map Prod.snd) force := ⟨_, rfl⟩
    rw [← hB] at h K ⊢
    obtain ⟨s1, e1⟩ := B
    cases e1 with
    | some e => simp at h
    | none =>
      simp only [Prod.mk.injEq, and_true] at h
      subst h
      have L := Multi.buildVal_len (s := v.st) (i := i) (ts := ts.map Prod.snd) (force := force) (by rw [← hB])
      rw [← hB] at L
      simp only at L
      refine ⟨hij.1, K, by simp only; omega, ?_, rfl, rfl, rfl⟩
      simp only
      have K1 := kept_step v.st (.copy i) rfl
      unfold Multi.buildVal at hB
      have hc := List.getElem?_eq_getElem hij.1
      obtain ⟨C, hC⟩ : ∃ C, C = v.st.step (.copy i) := ⟨_, rfl⟩
      rw [← hC] at hB K1
      obtain ⟨s2, e2⟩ := C
      cases e2 with
      | some e => simp [Multi.thenDo] at hB
      | none =>
        have l2 := Multi.copy_len (s := v.st) (i := i) (by rw [← hC])
        rw [← hC] at l2
        have n2 : nameVal s2 v.st.curves.length = nameVal v.st i := by
          simp only [State.step, hc, State.add] at hC
          split at hC
          · simp at hC
          · simp only [Prod.mk.injEq, and_true] at hC
            rw [hC]
            simp [nameVal, hc]
        simp only [Multi.thenDo] at hB
        have K2 := kept_prep force (((v.st.curves.length :: ts.map Prod.snd).map (MH.sizeVal s2)).foldl max 0)
          (v.st.curves.length :: ts.map Prod.snd) s2
        have l3 := Multi.prepVal_len force (((v.st.curves.length :: ts.map Prod.snd).map (MH.sizeVal s2)).foldl max 0)
          (v.st.curves.length :: ts.map Prod.snd) s2
        obtain ⟨D, hD⟩ : ∃ D, D = Multi.prepVal force (((v.st.curves.length :: ts.map Prod.snd).map (MH.sizeVal s2)).foldl max 0)
          (v.st.curves.length :: ts.map Prod.snd) s2 := ⟨_, rfl⟩
        rw [← hD] at hB K2 l3
        obtain ⟨s3, e3⟩ := D
        cases e3 with
        | some e => simp at hB
        | none =>
          simp only at hB l2 l3 K2
          have n3 : nameVal s3 v.st.curves.length = nameVal v.st i := (K2.2 _ (by omega)).trans n2
          have hc3 := List.getElem?_eq_getElem (l := s3.curves) (i := v.st.curves.length) (by omega)
          simp only [State.step, hc3, State.add] at hB
          split at hB
          · simp at hB
          · simp only [Prod.mk.injEq, and_true] at hB
            rw [K.2 i hij.1, ← n3, hB]
            simp only [nameVal, hc3]
            rw [List.getElem?_append_right (by omega)]
            have : v.st.curves.length + 1 - s3.curves.length = 0 := by omega
            simp [this]
  · simp at h

/-! ### Objects and values -/

structure TInv (w : World) (v : Values) : Prop where
  objs : Multi.JInv w.objs v.objs
  root : w.root = v.root

theorem look_eq {h : Heap} {s : State} (I : Inv h s) (k : ℕ) : look h k = lookVal s k := by
  unfold look lookVal
  cases hk : h.curves[k]? with
  | none =>
    have : s.curves[k]? = none := by
      rw [List.getElem?_eq_none_iff] at hk ⊢
      rw [← I.len]
      exact hk
    rw [this]
  | some c =>
    obtain ⟨vs, e1, e2⟩ := I.cur k c hk
    simp only [e1, e2, I.xfs]

theorem equal_eq {h : Heap} {s : State} (I : Inv h s) (a : ℕ) : equal h a = equalVal s a := by
  funext b
  unfold equal equalVal
  rw [look_eq I, look_eq I]

theorem name_eq {h : Heap} {s : State} (I : Inv h s) (k : ℕ) : nameIn h k = nameVal s k := by
  unfold nameIn nameVal
  cases hk : h.curves[k]? with
  | none =>
    have : s.curves[k]? = none := by
      rw [List.getElem?_eq_none_iff] at hk ⊢
      rw [← I.len]
      exact hk
    rw [this]
  | some c =>
    obtain ⟨vs, e1, e2⟩ := I.cur k c hk
    simp only [e2]

theorem step_tinv {w : World} {v : Values} (J : TInv w v) (a : Call) (h1 : ∀ m ∈ v.objs.morphs, a ≠ .curve (.reversed m.morph))
    (h2 : ∀ m ∈ v.objs.multis, a ≠ .curve (.reversed m.morph)) :
    (step w a).2 = (v.step a).2 ∧ TInv (step w a).1 (v.step a).1 := by
  cases a with
  | curve op =>
    obtain ⟨e, K⟩ := Multi.step_jinv J.objs (.base (.curve op)) (fun m hm h => h1 m hm (by simpa using h)) (fun m hm h => h2 m hm (by simpa using h))
    exact ⟨e, K, J.root⟩
  | morph i j force =>
    obtain ⟨e, K⟩ := Multi.step_jinv J.objs (.base (.morph i j force (.ok 1))) (by simp) (by simp)
    simp only [step, Values.step]
    obtain ⟨A, hA⟩ : ∃ A, A = Multi.step w.objs (.base (.morph i j force (.ok 1))) := ⟨_, rfl⟩
    obtain ⟨B, hB⟩ : ∃ B, B = v.objs.step (.base (.morph i j force (.ok 1))) := ⟨_, rfl⟩
    rw [← hA, ← hB] at e K ⊢
    obtain ⟨A1, A2⟩ := A
    obtain ⟨B1, B2⟩ := B
    simp only at e K
    subst e
    cases A2 with
    | some x => exact ⟨rfl, K, J.root⟩
    | none =>
      simp only [equal_eq K.inv, name_eq K.inv, J.objs.inv.len, J.root]
      obtain ⟨e', K'⟩ := Multi.step_jinv J.objs (.base (.morph i j force (replace (equalVal B1.st i) v.objs.st.curves.length
        (nameVal B1.st v.objs.st.curves.length) v.root).2)) (by simp) (by simp)
      exact ⟨e', K', rfl⟩
  | multi i ts force =>
    obtain ⟨e, K⟩ := Multi.step_jinv J.objs (.multi i ts force (.ok 1)) (by simp) (by simp)
    simp only [step, Values.step]
    obtain ⟨A, hA⟩ : ∃ A, A = Multi.step w.objs (.multi i ts force (.ok 1)) := ⟨_, rfl⟩
    obtain ⟨B, hB⟩ : ∃ B, B = v.objs.step (.multi i ts force (.ok 1)) := ⟨_, rfl⟩
    rw [← hA, ← hB] at e K ⊢
    obtain ⟨A1, A2⟩ := A
    obtain ⟨B1, B2⟩ := B
    simp only at e K
    subst e
    cases A2 with
    | some x => exact ⟨rfl, K, J.root⟩
    | none =>
      simp only [equal_eq K.inv, name_eq K.inv, J.objs.inv.len, J.root]
      obtain ⟨e', K'⟩ := Multi.step_jinv J.objs (.multi i ts force (replace (equalVal B1.st i) (v.objs.st.curves.length + 1)
        (nameVal B1.st (v.objs.st.curves.length + 1)) v.root).2) (by simp) (by simp)
      exact ⟨e', K', rfl⟩
  | update k t =>
    obtain ⟨e, K⟩ := Multi.step_jinv J.objs (.base (.update k t)) (by simp) (by simp)
    exact ⟨e, K, J.root⟩
  | updateMulti k t =>
    obtain ⟨e, K⟩ := Multi.step_jinv J.objs (.update k t) (by simp) (by simp)
    exact ⟨e, K, J.root⟩
  | restore k =>
    simp only [step, Values.step]
    rw [J.objs.morphs]
    cases hm : v.objs.morphs[k]? with
    | none => exact ⟨by first | rfl | trivial, J⟩
    | some m =>
      simp only [equal_eq J.objs.inv, name_eq J.objs.inv, J.root]
      exact ⟨by first | rfl | trivial, J.objs, rfl⟩
  | restoreMulti k =>
    simp only [step, Values.step]
    rw [J.objs.multis]
    cases hm : v.objs.multis[k]? with
    | none => exact ⟨by first | rfl | trivial, J⟩
    | some m =>
      simp only [equal_eq J.objs.inv, name_eq J.objs.inv, J.root]
      exact ⟨by first | rfl | trivial, J.objs, rfl⟩

theorem run_tinv {w : World} {v : Values} (J : TInv w v) (as : List Call) (ha : v.Allowed as) :
    (run w as).2 = (v.run as).2 ∧ TInv (run w as).1 (v.run as).1 := by
  induction as generalizing w v with
  | nil => exact ⟨rfl, J⟩
  | cons a as ih =>
    obtain ⟨e1, J1⟩ := step_tinv J a ha.1 ha.2.1
    obtain ⟨e2, J2⟩ := ih J1 ha.2.2
    exact ⟨by simp only [run, Values.run, e1, e2], J2⟩

theorem tinv_iff {w : World} {v : Values} : TInv w v ↔ w.values = some v ∧ Multi.Sound w.objs := by
  have hv : w.values = some v ↔ w.objs.values = some v.objs ∧ w.root = v.root := by
    unfold World.values
    split
    · rename_i s hs
      rw [hs]
      cases v
      simp
    · rename_i hs
      simp [hs]
  rw [hv]
  constructor
  · intro J
    exact ⟨⟨(Multi.jinv_iff.1 J.objs).1, J.root⟩, (Multi.jinv_iff.1 J.objs).2⟩
  · rintro ⟨⟨a, b⟩, c⟩
    exact ⟨Multi.jinv_iff.2 ⟨a, c⟩, b⟩

/-! ### What is seen in the tree -/

structure Good (v0 : Values) (f : ℕ → ℕ) (v : Values) : Prop where
  kept : Kept v0.objs.st v.objs.st
  group : ∃ h hidden es, v.root = .group h hidden es
  keyed : Keyed (nameVal v.objs.st) v.root
  shows_ : Shows f v0.root v.root
  own : ∀ x ∈ slots v0.root, f x.2 < v.objs.st.curves.length ∧ nameVal v.objs.st (f x.2) = nameVal v0.objs.st x.2
  src : ∀ m ∈ v.objs.morphs, m.orig ∈ (slots v0.root).map Prod.snd ∧ m.morph < v.objs.st.curves.length ∧
    nameVal v.objs.st m.morph = nameVal v0.objs.st m.orig
  srcM : ∀ m ∈ v.objs.multis, m.orig ∈ (slots v0.root).map Prod.snd ∧ m.morph < v.objs.st.curves.length ∧
    nameVal v.objs.st m.morph = nameVal v0.objs.st m.orig
  from_ : ∀ x ∈ slots v0.root, f x.2 = x.2 ∨ (∃ m ∈ v.objs.morphs, m.orig = x.2 ∧ m.morph = f x.2) ∨
    ∃ m ∈ v.objs.multis, m.orig = x.2 ∧ m.morph = f x.2

theorem Good.start {v : Values} (S : Start v) : Good v id v := by
  refine ⟨Kept.refl _, S.group, S.keyed, ⟨?_, rfl⟩, ?_, ?_, ?_, ?_⟩
  · simp
  · intro x hx
    exact ⟨S.valid x hx, rfl⟩
  · simp [S.morphs]
  · simp [S.multis]
  · intro x _
    exact Or.inl rfl

/-- The curves are changed, the tree is not. -/
theorem Good.keep {v0 v : Values} {f : ℕ → ℕ} (G : Good v0 f v) {s : State} (K : Kept v.objs.st s) :
    Good v0 f ⟨⟨s, v.objs.morphs, v.objs.multis⟩, v.root⟩ := by
  refine ⟨G.kept.trans K, G.group, ?_, G.shows_, ?_, ?_, ?_, G.from_⟩
  · refine (keyed_congr v.root ?_ G.keyed).1
    intro x hx
    obtain ⟨y, hy, rfl⟩ := List.mem_map.1 (G.shows_.1.mem_iff.1 hx)
    exact K.2 _ (G.own y hy).1
  · intro x hx
    obtain ⟨a, b⟩ := G.own x hx
    exact ⟨lt_of_lt_of_le a K.1, (K.2 _ a).trans b⟩
  · intro m hm
    obtain ⟨a, b, c⟩ := G.src m hm
    exact ⟨a, lt_of_lt_of_le b K.1, (K.2 _ b).trans c⟩
  · intro m hm
    obtain ⟨a, b, c⟩ := G.srcM m hm
    exact ⟨a, lt_of_lt_of_le b K.1, (K.2 _ b).trans c⟩

theorem equalVal_name {s : State} {i : ℕ} (hi : i < s.curves.length) (k : ℕ) (h : equalVal s i k = true) : nameVal s k = nameVal s i := by
  unfold equalVal at h
  have h : lookVal s k = lookVal s i := by simpa using h
  unfold lookVal at h
  rw [List.getElem?_eq_getElem hi] at h
  unfold nameVal
  rw [List.getElem?_eq_getElem hi]
  split at h
  · simp only [Option.some.injEq, Looks.mk.injEq] at h
    exact h.1
  · simp at h

theorem equalVal_self (s : State) (i : ℕ) : equalVal s i i = true := by simp [equalVal]

/-- A morph is made: the tree. -/
theorem Good.made {v0 v : Values} {f : ℕ → ℕ} (S : Start v0) (G : Good v0 f v) {i n : ℕ} {s : State} (hi : i ∈ (slots v0.root).map Prod.snd)
    (K : Kept v.objs.st s) (hn : n < s.curves.length) (hname : nameVal s n = nameVal s i) :
    ∃ root, replace (equalVal s i) n (nameVal s n) v.root = (root, .ok (if equalVal s i (f i) then 1 else 0)) ∧
      (∃ h hidden es, root = .group h hidden es) ∧ Keyed (nameVal s) root ∧
      Shows (if equalVal s i (f i) then Function.update f i n else f) v0.root root := by
  have G' := G.keep K
  have hiv : i < v0.objs.st.curves.length := by
    obtain ⟨x, hx, rfl⟩ := List.mem_map.1 hi
    exact S.valid x hx
  have his : nameVal s i = nameVal v0.objs.st i := G'.kept.2 i hiv
  refine tree_step (nm := nameVal s) G.group G'.keyed G.shows_ S.names hi (fun x hx => (G'.own x hx).2) (hname.trans his) ?_
  intro k hk
  rw [hname]
  exact equalVal_name (lt_of_lt_of_le hiv G'.kept.1) k hk

/-- Restoring: the tree. -/
theorem Good.restored {v0 v : Values} {f : ℕ → ℕ} (S : Start v0) (G : Good v0 f v) {a m : ℕ} (ha : a ∈ (slots v0.root).map Prod.snd)
    (hm : m < v.objs.st.curves.length) (hname : nameVal v.objs.st m = nameVal v0.objs.st a) :
    ∃ root, replace (equalVal v.objs.st m) a (nameVal v.objs.st a) v.root = (root, .ok (if equalVal v.objs.st m (f a) then 1 else 0)) ∧
      Good v0 (if equalVal v.objs.st m (f a) then Function.update f a a else f) ⟨v.objs, root⟩ := by
  have hav : a < v0.objs.st.curves.length := by
    obtain ⟨x, hx, rfl⟩ := List.mem_map.1 ha
    exact S.valid x hx
  have has : nameVal v.objs.st a = nameVal v0.objs.st a := G.kept.2 a hav
  obtain ⟨root, e1, e2, e3, e4⟩ := tree_step (nm := nameVal v.objs.st) (same := equalVal v.objs.st m) (r := a) G.group G.keyed G.shows_ S.names ha
    (fun x hx => (G.own x hx).2) has (by
      intro k hk
      rw [has, ← hname]
      exact equalVal_name hm k hk)
  refine ⟨root, e1, G.kept, e2, e3, e4, ?_, G.src, G.srcM, ?_⟩
  · intro x hx
    by_cases h : equalVal v.objs.st m (f a) = true
    · rw [if_pos h]
      by_cases hxa : x.2 = a
      · rw [hxa, Function.update_self]
        exact ⟨lt_of_lt_of_le hav G.kept.1, has⟩
      · rw [Function.update_of_ne hxa]
        exact G.own x hx
    · rw [if_neg h]
      exact G.own x hx
  · intro x hx
    by_cases h : equalVal v.objs.st m (f a) = true
    · rw [if_pos h]
      by_cases hxa : x.2 = a
      · rw [hxa, Function.update_self]
        exact Or.inl rfl
      · rw [Function.update_of_ne hxa]
        exact G.from_ x hx
    · rw [if_neg h]
      exact G.from_ x hx

theorem good_morph {v0 v : Values} {f : ℕ → ℕ} (S : Start v0) (G : Good v0 f v) {i j : ℕ} {force : Bool}
    (hi : i ∈ (slots v0.root).map Prod.snd) :
    Good v0 (v.shown f (.morph i j force)) (v.step (.morph i j force)).1 := by
  obtain ⟨B, hB⟩ : ∃ B, B = v.objs.step (.base (.morph i j force (.ok 1))) := ⟨_, rfl⟩
  obtain ⟨v1, e⟩ := B
  cases e with
  | some x =>
    have hst : v.step (.morph i j force) = (⟨v1, v.root⟩, some x) := by simp only [Values.step, ← hB]
    have hsh : v.shown f (.morph i j force) = f := if_neg (by rw [hst]; simp)
    rw [hsh, hst]
    have : ⟨v1, v.root⟩ = (⟨⟨v1.st, v.objs.morphs, v.objs.multis⟩, v.root⟩ : Values) ∧ Kept v.objs.st v1.st := by
      have K := kept_padBoth v.objs.st i j force
      simp only [Multi.Values.step, MH.Values.step] at hB
      split at hB
      · split at hB
        · rename_i s1 x' e1
          rw [e1] at K
          simp only [Prod.mk.injEq] at hB
          rw [hB.1]
          exact ⟨rfl, K⟩
        · rename_i s1 e1
          rw [e1] at K
          have K2 := kept_step s1 (.copy i) rfl
          split at hB
          · rename_i s2 x' e2
            rw [e2] at K2
            simp only [Prod.mk.injEq] at hB
            rw [hB.1]
            exact ⟨rfl, K.trans K2⟩
          · rename_i s2 e2
            rw [e2] at K2
            split at hB
            · simp only [Prod.mk.injEq] at hB
              rw [hB.1]
              exact ⟨rfl, K.trans K2⟩
            · simp at hB
      · simp only [Prod.mk.injEq] at hB
        rw [hB.1]
        exact ⟨rfl, Kept.refl _⟩
    simp only
    rw [this.1]
    exact G.keep this.2
  | none =>
    obtain ⟨m1, m2, m3, m4, m5, m6, m7⟩ := morph_found hB.symm
    obtain ⟨root, e1, e2, e3, e4⟩ := G.made S hi m2 m3 m4
    have hst : v.step (.morph i j force) = (⟨(v.objs.step (.base (.morph i j force (.ok (if equalVal v1.st i (f i) then 1 else 0))))).1, root⟩, (v.objs.step (.base (.morph i j force (.ok (if equalVal v1.st i (f i) then 1 else 0))))).2) := by
      simp only [Values.step, ← hB, e1]
    have G' := G.keep m2
    by_cases h : equalVal v1.st i (f i) = true
    · simp only [h, if_true, ← hB] at e4 hst
      have hsh : v.shown f (.morph i j force) = Function.update f i v.objs.st.curves.length := if_pos (by rw [hst])
      rw [hsh, hst]
      refine ⟨G'.kept, e2, e3, e4, ?_, ?_, ?_, ?_⟩
      · intro x hx
        by_cases hxi : x.2 = i
        · rw [hxi]
          rw [Function.update_self]
          refine ⟨m3, m4.trans ?_⟩
          have := S.valid x hx
          exact G'.kept.2 i (by omega)
        · rw [Function.update_of_ne hxi]
          exact G'.own x hx
      · intro m hm
        simp only [m5, List.mem_append, List.mem_singleton] at hm
        rcases hm with hm | rfl
        · exact G'.src m hm
        · refine ⟨hi, m3, m4.trans ?_⟩
          obtain ⟨x, hx, rfl⟩ := List.mem_map.1 hi
          exact G'.kept.2 _ (S.valid x hx)
      · intro m hm
        simp only [m6] at hm
        exact G'.srcM m hm
      · intro x hx
        by_cases hxi : x.2 = i
        · rw [hxi]
          rw [Function.update_self]
          exact Or.inr (Or.inl ⟨⟨i, v.objs.st.curves.length, j⟩, by simp [m5], rfl, rfl⟩)
        · rw [Function.update_of_ne hxi]
          simp only [m5, m6]
          rcases G'.from_ x hx with h' | ⟨m, hm, h'⟩ | h'
          · exact Or.inl h'
          · exact Or.inr (Or.inl ⟨m, List.mem_append_left _ hm, h'⟩)
          · exact Or.inr (Or.inr h')
    · simp only [Bool.not_eq_true] at h
      simp only [h, Bool.false_eq_true, if_false, m7] at e4 hst
      have hsh : v.shown f (.morph i j force) = f := if_neg (by rw [hst]; simp)
      rw [hsh, hst]
      exact ⟨G'.kept, e2, e3, e4, G'.own, G'.src, G'.srcM, G'.from_⟩

theorem good_multi {v0 v : Values} {f : ℕ → ℕ} (S : Start v0) (G : Good v0 f v) {i : ℕ} {ts : List (ℝ × ℕ)} {force : Bool}
    (hi : i ∈ (slots v0.root).map Prod.snd) :
    Good v0 (v.shown f (.multi i ts force)) (v.step (.multi i ts force)).1 := by
  obtain ⟨B, hB⟩ : ∃ B, B = v.objs.step (.multi i ts force (.ok 1)) := ⟨_, rfl⟩
  obtain ⟨v1, e⟩ := B
  cases e with
  | some x =>
    have hst : v.step (.multi i ts force) = (⟨v1, v.root⟩, some x) := by simp only [Values.step, ← hB]
    have hsh : v.shown f (.multi i ts force) = f := if_neg (by rw [hst]; simp)
    rw [hsh, hst]
    have : ⟨v1, v.root⟩ = (⟨⟨v1.st, v.objs.morphs, v.objs.multis⟩, v.root⟩ : Values) ∧ Kept v.objs.st v1.st := by
      have K := kept_build v.objs.st i (ts.map Prod.snd) force
      simp only [Multi.Values.step] at hB
      split at hB
      · split at hB
        · rename_i s1 x' e1
          rw [e1] at K
          simp only [Prod.mk.injEq] at hB
          rw [hB.1]
          exact ⟨rfl, K⟩
        · simp at hB
      · simp only [Prod.mk.injEq] at hB
        rw [hB.1]
        exact ⟨rfl, Kept.refl _⟩
    simp only
    rw [this.1]
    exact G.keep this.2
  | none =>
    obtain ⟨m1, m2, m3, m4, m5, m6, m7⟩ := multi_found hB.symm
    obtain ⟨root, e1, e2, e3, e4⟩ := G.made S hi m2 m3 m4
    have hst : v.step (.multi i ts force) = (⟨(v.objs.step (.multi i ts force (.ok (if equalVal v1.st i (f i) then 1 else 0)))).1, root⟩, (v.objs.step (.multi i ts force (.ok (if equalVal v1.st i (f i) then 1 else 0)))).2) := by
      simp only [Values.step, ← hB, e1]
    have G' := G.keep m2
    by_cases h : equalVal v1.st i (f i) = true
    · simp only [h, if_true, ← hB] at e4 hst
      have hsh : v.shown f (.multi i ts force) = Function.update f i (v.objs.st.curves.length + 1) := if_pos (by rw [hst])
      rw [hsh, hst]
      refine ⟨G'.kept, e2, e3, e4, ?_, ?_, ?_, ?_⟩
      · intro x hx
        by_cases hxi : x.2 = i
        · rw [hxi]
          rw [Function.update_self]
          refine ⟨m3, m4.trans ?_⟩
          have := S.valid x hx
          exact G'.kept.2 i (by omega)
        · rw [Function.update_of_ne hxi]
          exact G'.own x hx
      · intro m hm
        simp only [m5] at hm
        exact G'.src m hm
      · intro m hm
        simp only [m6, List.mem_append, List.mem_singleton] at hm
        rcases hm with hm | rfl
        · exact G'.srcM m hm
        · refine ⟨hi, m3, m4.trans ?_⟩
          obtain ⟨x, hx, rfl⟩ := List.mem_map.1 hi
          exact G'.kept.2 _ (S.valid x hx)
      · intro x hx
        by_cases hxi : x.2 = i
        · rw [hxi]
          rw [Function.update_self]
          exact Or.inr (Or.inr ⟨⟨i, v.objs.st.curves.length + 1, (0, v.objs.st.curves.length) :: ts⟩, by simp [m6], rfl, rfl⟩)
        · rw [Function.update_of_ne hxi]
          simp only [m5, m6]
          rcases G'.from_ x hx with h' | h' | ⟨m, hm, h'⟩
          · exact Or.inl h'
          · exact Or.inr (Or.inl h')
          · exact Or.inr (Or.inr ⟨m, List.mem_append_left _ hm, h'⟩)
    · simp only [Bool.not_eq_true] at h
      simp only [h, Bool.false_eq_true, if_false, m7] at e4 hst
      have hsh : v.shown f (.multi i ts force) = f := if_neg (by rw [hst]; simp)
      rw [hsh, hst]
      exact ⟨G'.kept, e2, e3, e4, G'.own, G'.src, G'.srcM, G'.from_⟩

theorem good_step {v0 v : Values} {f : ℕ → ℕ} (S : Start v0) (G : Good v0 f v) (a : Call)
    (hi : ∀ i, a.source = some i → i ∈ (slots v0.root).map Prod.snd) (hr : a.renames = none) :
    Good v0 (v.shown f a) (v.step a).1 := by
  cases a with
  | curve op => exact G.keep (kept_step _ _ hr)
  | morph i j force => exact good_morph S G (hi i rfl)
  | multi i ts force => exact good_multi S G (hi i rfl)
  | update k t =>
    simp only [Values.step, Values.shown, Multi.Values.step, MH.Values.step]
    split
    · exact G.keep (kept_updMH _ _ _)
    · exact G
  | updateMulti k t =>
    simp only [Values.step, Values.shown, Multi.Values.step]
    split
    · exact G.keep (kept_upd _ _ _)
    · exact G
  | restore k =>
    simp only [Values.step, Values.shown]
    split
    · rename_i m hm
      obtain ⟨a, b, c⟩ := G.src m (List.mem_of_getElem? hm)
      obtain ⟨root, e1, e2⟩ := G.restored S a b c
      simp only [e1]
      exact e2
    · exact G
  | restoreMulti k =>
    simp only [Values.step, Values.shown]
    split
    · rename_i m hm
      obtain ⟨a, b, c⟩ := G.srcM m (List.mem_of_getElem? hm)
      obtain ⟨root, e1, e2⟩ := G.restored S a b c
      simp only [e1]
      exact e2
    · exact G

theorem good_run {v0 v : Values} {f : ℕ → ℕ} (S : Start v0) (G : Good v0 f v) (as : List Call)
    (hi : ∀ a ∈ as, ∀ i, a.source = some i → i ∈ (slots v0.root).map Prod.snd) (hr : ∀ a ∈ as, a.renames = none) :
    Good v0 (v.shownAfter f as) (v.run as).1 := by
  induction as generalizing v f with
  | nil => exact G
  | cons a as ih =>
    exact ih (good_step S G a (hi a (by simp)) (hr a (by simp))) (fun b hb => hi b (by simp [hb])) (fun b hb => hr b (by simp [hb]))

end X7.Stage
