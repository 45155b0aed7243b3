import Verif.Lemmas.MorphHeapStep
import Verif.Spec.MultiHeap

/-! Lemmas for C110: each call on objects does what its description on values says. -/

noncomputable section

namespace X7.Multi

open CH Anim

/-- A statement on objects and its description on values: the same exception, the same values, and curves with points of their own keep
them. -/
structure Sim (h0 : Heap) (r : Heap × Option PyErr) (t : State × Option PyErr) : Prop where
  err : r.2 = t.2
  inv : Inv r.1 t.1
  priv : ∀ k, k < h0.curves.length → MH.Private h0 k → MH.Private r.1 k
  len : h0.curves.length ≤ r.1.curves.length

theorem Sim.refl {h : Heap} {s : State} (I : Inv h s) (e : Option PyErr) : Sim h (h, e) (s, e) :=
  ⟨rfl, I, fun _ _ p => p, le_rfl⟩

theorem Sim.bind {h0 : Heap} {r : Heap × Option PyErr} {t : State × Option PyErr} (S : Sim h0 r t) {f : Heap → Heap × Option PyErr}
    {g : State → State × Option PyErr} (F : r.2 = none → Sim r.1 (f r.1) (g t.1)) : Sim h0 (thenDo r f) (thenDo t g) := by
  obtain ⟨r1, r2⟩ := r
  obtain ⟨t1, t2⟩ := t
  obtain ⟨a, b, c, d⟩ := S
  simp only at a b c d
  subst a
  cases r2 with
  | none =>
    obtain ⟨x, y, z, u⟩ := F rfl
    exact ⟨x, y, fun k hk p => z k (lt_of_lt_of_le hk d) (c k hk p), d.trans u⟩
  | some e => exact ⟨rfl, b, c, d⟩

theorem sim_step {h : Heap} {s : State} (I : Inv h s) (op : Op) (hop : ∀ i, op ≠ .reversed i) : Sim h (CH.step h op) (s.step op) := by
  obtain ⟨e, J⟩ := step_inv I op
  refine ⟨e, J, fun k hk p => MH.step_private I op p hk (hop k), ?_⟩
  rw [I.len, J.len]
  exact MH.step_len s op

theorem sim_pad {h : Heap} {s : State} (I : Inv h s) (i n : ℕ) : Sim h (MH.pad h i n) (MH.padVal s i n) := by
  obtain ⟨a, b, c⟩ := MH.pad_inv I i n
  refine ⟨a, b, c, ?_⟩
  rw [I.len, b.len, MH.padVal_len]

theorem sim_turn {h : Heap} {s : State} (I : Inv h s) (i : ℕ) : Sim h (turnLow h i) (turnVal s i) := by
  rcases I.get i with ⟨a1, a2⟩ | ⟨c, vs, m, a1, a2, a3, a4, a5⟩
  · simp only [turnLow, turnVal, a1, a2]
    exact .refl I _
  · simp only [turnLow, turnVal, a1, a2, a3]
    rw [I.xfs]
    rw [I.xfs] at a4
    rw [a4]
    simp only
    cases lowest ⟨c.name, c.pb, c.closed, m⟩ vs with
    | error e => exact .refl I _
    | ok ll => exact sim_step I (.turn i ll) (by simp)

theorem sim_prep (force : Bool) (n : ℕ) (is : List ℕ) {h : Heap} {s : State} (I : Inv h s) :
    Sim h (prep force n is h) (prepVal force n is s) := by
  induction is generalizing h s with
  | nil => exact .refl I _
  | cons i is ih =>
    unfold prep prepVal
    rw [MH.size_eq I]
    refine (sim_pad I i _).bind fun _ => ?_
    have S := sim_pad I i (n - MH.sizeVal s i)
    refine Sim.bind (h0 := (MH.pad h i (n - MH.sizeVal s i)).1) ?_ fun _ => ih ?_
    · cases force with
      | false => exact .refl S.inv _
      | true => exact sim_turn S.inv i
    · cases force with
      | false => exact S.inv
      | true => exact (sim_turn S.inv i).inv

theorem sim_build {h : Heap} {s : State} (I : Inv h s) (i : ℕ) (ts : List ℕ) (force : Bool) :
    Sim h (build h i ts force) (buildVal s i ts force) := by
  unfold build buildVal
  have S : Sim h (CH.copy h i) (s.step (.copy i)) := sim_step I (.copy i) (by simp)
  refine S.bind fun _ => ?_
  have e : ((h.curves.length :: ts).map (MH.size (CH.copy h i).1)) = (s.curves.length :: ts).map (MH.sizeVal (s.step (.copy i)).1) := by
    rw [I.len]
    exact List.map_congr_left fun l _ => MH.size_eq S.inv l
  rw [e, I.len]
  have S2 := sim_prep force (((s.curves.length :: ts).map (MH.sizeVal (s.step (.copy i)).1)).foldl max 0) (s.curves.length :: ts) S.inv
  exact S2.bind fun _ => sim_step S2.inv (.copy _) (by simp)

/-- The curve that is shown has points of its own. -/
theorem build_private {h : Heap} {s : State} (I : Inv h s) (i : ℕ) (ts : List ℕ) (force : Bool) (k : ℕ) (hk : h.curves.length + 1 ≤ k)
    (e : (build h i ts force).2 = none)
    (hl : (thenDo (CH.copy h i) fun h1 => prep force (((h.curves.length :: ts).map (MH.size h1)).foldl max 0) (h.curves.length :: ts) h1).1.curves.length
      ≤ k) : MH.Private (build h i ts force).1 k := by
  have S : Sim h (CH.copy h i) (s.step (.copy i)) := sim_step I (.copy i) (by simp)
  unfold build at e ⊢
  obtain ⟨A, hA⟩ : ∃ A, A = CH.copy h i := ⟨_, rfl⟩
  rw [← hA] at e hl S ⊢
  obtain ⟨A1, A2⟩ := A
  cases A2 with
  | some x => simp [thenDo] at e
  | none =>
    simp only [thenDo] at e hl ⊢
    have S2 := sim_prep force (((h.curves.length :: ts).map (MH.size A1)).foldl max 0) (h.curves.length :: ts) S.inv
    simp only at S2
    obtain ⟨B, hB⟩ : ∃ B, B = prep force (((h.curves.length :: ts).map (MH.size A1)).foldl max 0) (h.curves.length :: ts) A1 := ⟨_, rfl⟩
    rw [← hB] at e hl S2 ⊢
    obtain ⟨B1, B2⟩ := B
    cases B2 with
    | some x => simp at e
    | none =>
      simp only at hl ⊢
      obtain ⟨W, F⟩ := MH.step_fresh S2.inv (.copy h.curves.length) (by simp)
      exact F.private S2.inv (.inr hl)

theorem turnVal_len (s : State) (i : ℕ) : (turnVal s i).1.curves.length = s.curves.length := by
  unfold turnVal
  split
  · split
    · split
      · simp only [State.step]
        split <;> simp
      · rfl
    · rfl
  · rfl

theorem thenDo_fst {S : Type} (P : S → Prop) {r : S × Option PyErr} {f : S → S × Option PyErr} (h : P r.1)
    (hf : r.2 = none → P (f r.1).1) : P (thenDo r f).1 := by
  obtain ⟨r1, r2⟩ := r
  cases r2 with
  | none => exact hf rfl
  | some e => exact h

theorem prepVal_len (force : Bool) (n : ℕ) (is : List ℕ) (s : State) : (prepVal force n is s).1.curves.length = s.curves.length := by
  induction is generalizing s with
  | nil => rfl
  | cons i is ih =>
    unfold prepVal
    have h1 := MH.padVal_len (n - MH.sizeVal s i) s i
    refine thenDo_fst (fun s' : State => s'.curves.length = s.curves.length) h1 fun _ => ?_
    have h2 : (if force then turnVal (MH.padVal s i (n - MH.sizeVal s i)).1 i else ((MH.padVal s i (n - MH.sizeVal s i)).1, none)).1.curves.length =
        s.curves.length := by
      cases force with
      | false => exact h1
      | true => exact (turnVal_len _ i).trans h1
    exact thenDo_fst (fun s' : State => s'.curves.length = s.curves.length) h2 fun _ => (ih _).trans h2

theorem copy_len {s : State} {i : ℕ} (h : (s.step (.copy i)).2 = none) : (s.step (.copy i)).1.curves.length = s.curves.length + 1 := by
  revert h
  simp only [State.step, State.add]
  split
  · split <;> simp
  · simp

theorem copy_len_le (s : State) (i : ℕ) : s.curves.length ≤ (s.step (.copy i)).1.curves.length ∧
    (s.step (.copy i)).1.curves.length ≤ s.curves.length + 1 := by
  simp only [State.step, State.add]
  split
  · split <;> simp
  · simp

theorem buildVal_len {s : State} {i : ℕ} {ts : List ℕ} {force : Bool} (h : (buildVal s i ts force).2 = none) :
    (buildVal s i ts force).1.curves.length = s.curves.length + 2 := by
  unfold buildVal at h ⊢
  have h1 := copy_len (s := s) (i := i)
  obtain ⟨A, hA⟩ : ∃ A, A = s.step (.copy i) := ⟨_, rfl⟩
  rw [← hA] at h1 h ⊢
  obtain ⟨A1, A2⟩ := A
  cases A2 with
  | some x => simp [thenDo] at h
  | none =>
    simp only [thenDo] at h h1 ⊢
    have h2 := prepVal_len force (((s.curves.length :: ts).map (MH.sizeVal A1)).foldl max 0) (s.curves.length :: ts) A1
    obtain ⟨B, hB⟩ : ∃ B, B = prepVal force (((s.curves.length :: ts).map (MH.sizeVal A1)).foldl max 0) (s.curves.length :: ts) A1 := ⟨_, rfl⟩
    rw [← hB] at h2 h ⊢
    obtain ⟨B1, B2⟩ := B
    cases B2 with
    | some x => simp at h
    | none =>
      simp only at h h2 ⊢
      rw [copy_len h, h2, h1 (by first | rfl | trivial)]

/-! ### The invariant -/

structure JInv (w : World) (v : Values) : Prop where
  inv : Inv w.heap v.st
  morphs : w.morphs = v.morphs
  multis : w.multis = v.multis
  ok : ∀ m ∈ w.morphs, m.orig < m.morph ∧ m.target < m.morph ∧ m.morph < w.heap.curves.length ∧ MH.Private w.heap m.morph
  okm : ∀ m ∈ w.multis, m.orig < m.morph ∧ m.stops ≠ [] ∧ (∀ x ∈ m.stops, x.2 < m.morph) ∧ m.morph < w.heap.curves.length ∧
    MH.Private w.heap m.morph

theorem JInv.keep {w : World} {v : Values} (J : JInv w v) {r : Heap × Option PyErr} {t : State × Option PyErr} (S : Sim w.heap r t) :
    JInv ⟨r.1, w.morphs, w.multis⟩ ⟨t.1, v.morphs, v.multis⟩ := by
  refine ⟨S.inv, J.morphs, J.multis, ?_, ?_⟩
  · intro m hm
    obtain ⟨a, b, c, d⟩ := J.ok m hm
    exact ⟨a, b, lt_of_lt_of_le c S.len, S.priv _ c d⟩
  · intro m hm
    obtain ⟨a, b, c, d, e⟩ := J.okm m hm
    exact ⟨a, b, c, lt_of_lt_of_le d S.len, S.priv _ d e⟩

/-- Morphs put before the others. -/
def shift (n : ℕ) : MH.Call → MH.Call
  | .update k t => .update (n + k) t
  | a => a

theorem step_shift (h : Heap) (pre ms : List MH.MorphObj) (a : MH.Call) :
    MH.step ⟨h, pre ++ ms⟩ (shift pre.length a) =
      (⟨(MH.step ⟨h, ms⟩ a).1.heap, pre ++ (MH.step ⟨h, ms⟩ a).1.morphs⟩, (MH.step ⟨h, ms⟩ a).2) := by
  cases a with
  | curve op => rfl
  | morph i j force found =>
    simp only [shift, MH.step, MH.newMorph]
    repeat' split
    all_goals simp
  | update k t =>
    simp only [shift, MH.step]
    rw [List.getElem?_append_right (by omega), Nat.add_sub_cancel_left]
    cases ms[k]? <;> rfl

theorem stepVal_shift (s : State) (pre ms : List MH.MorphObj) (a : MH.Call) :
    MH.Values.step ⟨s, pre ++ ms⟩ (shift pre.length a) =
      (⟨(MH.Values.step ⟨s, ms⟩ a).1.st, pre ++ (MH.Values.step ⟨s, ms⟩ a).1.morphs⟩, (MH.Values.step ⟨s, ms⟩ a).2) := by
  cases a with
  | curve op => rfl
  | morph i j force found =>
    simp only [shift, MH.Values.step]
    repeat' split
    all_goals simp
  | update k t =>
    simp only [shift, MH.Values.step]
    rw [List.getElem?_append_right (by omega), Nat.add_sub_cancel_left]
    cases ms[k]? <;> rfl

theorem base_jinv {w : World} {v : Values} (J : JInv w v) (a : MH.Call)
    (h1 : ∀ m ∈ v.morphs, (.base a : Call) ≠ .base (.curve (.reversed m.morph)))
    (h2 : ∀ m ∈ v.multis, (.base a : Call) ≠ .base (.curve (.reversed m.morph))) :
    (step w (.base a)).2 = (v.step (.base a)).2 ∧ JInv (step w (.base a)).1 (v.step (.base a)).1 := by
  obtain ⟨pre, hpre⟩ : ∃ pre : List MH.MorphObj, pre = w.multis.map fun m => ⟨m.orig, m.morph, m.orig⟩ := ⟨_, rfl⟩
  have W : MH.WInv ⟨w.heap, pre ++ w.morphs⟩ ⟨v.st, pre ++ v.morphs⟩ := by
    refine ⟨J.inv, by rw [J.morphs], ?_⟩
    intro m hm
    simp only [hpre, List.mem_append, List.mem_map] at hm
    rcases hm with ⟨x, hx, rfl⟩ | hm
    · obtain ⟨a, -, -, d, e⟩ := J.okm x hx
      exact ⟨a, a, d, e⟩
    · exact J.ok m hm
  obtain ⟨e, W'⟩ := MH.step_winv W (shift pre.length a) (by
    intro m hm hc
    have hc : a = .curve (.reversed m.morph) := by
      cases a <;> simp_all [shift]
    simp only [hpre, List.mem_append, List.mem_map] at hm
    rcases hm with ⟨x, hx, rfl⟩ | hm
    · exact h2 x (J.multis ▸ hx) (by rw [hc])
    · exact h1 m hm (by rw [hc]))
  rw [step_shift, stepVal_shift] at e W'
  simp only at e W'
  refine ⟨e, W'.inv, List.append_cancel_left W'.morphs, J.multis, ?_, ?_⟩
  · intro m hm
    exact W'.ok m (by simp only [List.mem_append]; exact .inr hm)
  · intro m hm
    obtain ⟨a, b, c, d, e⟩ := J.okm m hm
    obtain ⟨-, -, x, y⟩ := W'.ok ⟨m.orig, m.morph, m.orig⟩ (by
      simp only [List.mem_append, hpre, List.mem_map]
      exact .inl ⟨m, hm, rfl⟩)
    exact ⟨a, b, c, x, y⟩

theorem newMulti_jinv {w : World} {v : Values} (J : JInv w v) (i : ℕ) (targets : List (ℝ × ℕ)) (force : Bool) (found : Except PyErr ℕ) :
    (newMulti w i targets force found).2 = (v.step (.multi i targets force found)).2 ∧
      JInv (newMulti w i targets force found).1 (v.step (.multi i targets force found)).1 := by
  simp only [newMulti, Values.step]
  rw [J.inv.len]
  by_cases hi : i < v.st.curves.length ∧ ∀ x ∈ targets, x.2 < v.st.curves.length
  swap
  · rw [if_neg hi, if_neg hi]
    exact ⟨rfl, J⟩
  rw [if_pos hi, if_pos hi]
  have S := sim_build J.inv i (targets.map Prod.snd) force
  have K := J.keep S
  have L := buildVal_len (s := v.st) (i := i) (ts := targets.map Prod.snd) (force := force)
  have P : (build w.heap i (targets.map Prod.snd) force).2 = none → MH.Private (build w.heap i (targets.map Prod.snd) force).1 (w.heap.curves.length + 1) := by
    intro e
    refine build_private J.inv i _ force _ le_rfl e ?_
    have S1 : Sim w.heap (CH.copy w.heap i) (v.st.step (.copy i)) := sim_step J.inv (.copy i) (by simp)
    have := copy_len_le v.st i
    have l1 : (CH.copy w.heap i).1.curves.length ≤ w.heap.curves.length + 1 := by
      rw [S1.inv.len, J.inv.len]; omega
    refine thenDo_fst (fun h : Heap => h.curves.length ≤ w.heap.curves.length + 1) l1 fun _ => ?_
    rw [(sim_prep force _ _ S1.inv).inv.len, prepVal_len, ← S1.inv.len]
    exact l1
  obtain ⟨A, hA⟩ : ∃ A, A = build w.heap i (targets.map Prod.snd) force := ⟨_, rfl⟩
  obtain ⟨B, hB⟩ : ∃ B, B = buildVal v.st i (targets.map Prod.snd) force := ⟨_, rfl⟩
  rw [← hA] at S K P ⊢
  rw [← hB] at S K L ⊢
  obtain ⟨h1, A2⟩ := A
  obtain ⟨s1, B2⟩ := B
  have e := S.err
  simp only at e K L P
  subst e
  cases A2 with
  | some e => exact ⟨rfl, K⟩
  | none =>
    simp only
    cases found with
    | error e => exact ⟨rfl, K⟩
    | ok n =>
      cases n with
      | zero => exact ⟨rfl, K⟩
      | succ n =>
        refine ⟨rfl, K.inv, K.morphs, ?_, K.ok, ?_⟩
        · simp only [J.multis]
        · intro m hm
          simp only [List.mem_append, List.mem_singleton] at hm
          rcases hm with hm | rfl
          · exact K.okm m hm
          · have hl := L rfl
            have hs := S.inv.len
            have h0 := J.inv.len
            simp only at hs
            rw [h0] at P
            refine ⟨by simp only; omega, by simp, ?_, by simp only; omega, P rfl⟩
            intro x hx
            simp only [List.mem_cons] at hx
            rcases hx with rfl | hx
            · simp only; omega
            · have := hi.2 x hx
              simp only; omega

theorem pickStop_mem {stops : List (ℝ × ℕ)} (hne : stops ≠ []) {t u : ℝ} {lo hi : ℕ} (e : pickStop stops t = .ok (lo, hi, u)) :
    lo ∈ stops.map Prod.snd ∧ hi ∈ stops.map Prod.snd := by
  have hpos : 0 < (stops.map Prod.snd).length := by simpa using List.length_pos_of_ne_nil hne
  have get : ∀ i, i < (stops.map Prod.snd).length → (stops.map Prod.snd).getD i 0 ∈ stops.map Prod.snd := by
    intro i hi
    have : (stops.map Prod.snd).getD i 0 = (stops.map Prod.snd)[i] := by
      rw [List.getD, List.getElem?_eq_getElem hi]
      rfl
    rw [this]
    exact List.getElem_mem hi
  unfold pickStop at e
  dsimp only at e
  split at e
  · cases e
    exact ⟨get _ hpos, get _ hpos⟩
  · rename_i h0
    split at e
    · cases e
      exact ⟨get _ (by omega), get _ (by omega)⟩
    · split at e
      · cases e
      · cases e
        exact ⟨get _ (by omega), get _ (by omega)⟩

theorem sim_mhupdate {h : Heap} {s : State} (I : Inv h s) {m : MH.MorphObj} (ho : m.orig ≠ m.morph) (ht : m.target ≠ m.morph)
    (P : MH.Private h m.morph) (t : TVal) : Sim h (MH.update h m t) (MH.updVal s m t) := by
  obtain ⟨a, b, c, d⟩ := MH.update_inv I m ho ht P t
  exact ⟨a, b, fun k _ p => (MH.private_congr c d).2 p, by rw [d]⟩

theorem hide_any {h : Heap} {a b k : ℕ} (ha : a < h.curves.length) (hb : b < h.curves.length) (hk : k < h.curves.length) :
    MH.update h ⟨a, k, b⟩ .none = MH.update h ⟨k, k, k⟩ .none := by
  simp only [MH.update, List.getElem?_eq_getElem ha, List.getElem?_eq_getElem hb, List.getElem?_eq_getElem hk]

theorem hideVal_any {s : State} {a b k : ℕ} (ha : a < s.curves.length) (hb : b < s.curves.length) (hk : k < s.curves.length) :
    MH.updVal s ⟨a, k, b⟩ .none = MH.updVal s ⟨k, k, k⟩ .none := by
  simp only [MH.updVal, List.getElem?_eq_getElem ha, List.getElem?_eq_getElem hb, List.getElem?_eq_getElem hk]

theorem sim_update {h : Heap} {s : State} (I : Inv h s) {m : MultiObj} (h1 : m.orig < m.morph) (h2 : m.stops ≠ [])
    (h3 : ∀ x ∈ m.stops, x.2 < m.morph) (h4 : m.morph < h.curves.length) (P : MH.Private h m.morph) (t : TVal) :
    Sim h (update h m t) (updVal s m t) := by
  cases t with
  | none =>
    have S := sim_mhupdate (m := ⟨m.orig, m.morph, m.orig⟩) I (by simp only; omega) (by simp only; omega) P .none
    rw [hide_any (by omega) (by omega) h4, hideVal_any (by rw [← I.len]; omega) (by rw [← I.len]; omega) (by rw [← I.len]; omega)] at S
    exact S
  | pair x y => exact .refl I _
  | num t =>
    simp only [update, updVal]
    cases e : pickStop m.stops t with
    | error x => exact .refl I _
    | ok r =>
      obtain ⟨lo, hi, u⟩ := r
      obtain ⟨a, b⟩ := pickStop_mem h2 e
      simp only [List.mem_map] at a b
      obtain ⟨x, hx, rfl⟩ := a
      obtain ⟨y, hy, rfl⟩ := b
      exact sim_mhupdate (m := ⟨x.2, m.morph, y.2⟩) I (h3 x hx).ne (h3 y hy).ne P _

theorem step_jinv {w : World} {v : Values} (J : JInv w v) (a : Call) (h1 : ∀ m ∈ v.morphs, a ≠ .base (.curve (.reversed m.morph)))
    (h2 : ∀ m ∈ v.multis, a ≠ .base (.curve (.reversed m.morph))) :
    (step w a).2 = (v.step a).2 ∧ JInv (step w a).1 (v.step a).1 := by
  cases a with
  | base a => exact base_jinv J a h1 h2
  | multi i targets force found => exact newMulti_jinv J i targets force found
  | update k t =>
    simp only [step, Values.step]
    rw [J.multis]
    cases hm : v.multis[k]? with
    | none => exact ⟨by first | rfl | trivial, J⟩
    | some m =>
      obtain ⟨a, b, c, d, e⟩ := J.okm m (by rw [J.multis]; exact List.mem_of_getElem? hm)
      have S := sim_update J.inv a b c d e t
      have K := J.keep S
      rw [J.multis] at K
      exact ⟨S.err, K⟩

theorem run_jinv {w : World} {v : Values} (J : JInv w v) (as : List Call) (ha : v.Allowed as) :
    (run w as).2 = (v.run as).2 ∧ JInv (run w as).1 (v.run as).1 := by
  induction as generalizing w v with
  | nil => exact ⟨rfl, J⟩
  | cons a as ih =>
    obtain ⟨e1, J1⟩ := step_jinv J a ha.1 ha.2.1
    obtain ⟨e2, J2⟩ := ih J1 ha.2.2
    exact ⟨by simp only [run, Values.run, e1, e2], J2⟩

theorem jinv_iff {w : World} {v : Values} : JInv w v ↔ w.values = some v ∧ Sound w := by
  have hv : w.values = some v ↔ vals w.heap = some v.st ∧ w.morphs = v.morphs ∧ w.multis = v.multis := by
    unfold World.values
    split
    · rename_i s hs
      rw [hs]
      cases v
      simp
    · rename_i hs
      simp [hs]
  rw [hv]
  constructor
  · intro J
    obtain ⟨a, b⟩ := inv_iff.1 J.inv
    exact ⟨⟨a, J.morphs, J.multis⟩, ⟨⟨b, J.ok⟩, J.okm⟩⟩
  · rintro ⟨⟨a, b, c⟩, ⟨d, e⟩, f⟩
    exact ⟨inv_iff.2 ⟨a, d⟩, b, c, e, f⟩

end X7.Multi
