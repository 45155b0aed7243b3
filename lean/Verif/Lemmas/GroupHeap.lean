import Verif.Spec.GroupHeap
import Verif.Lemmas.Elem
import Mathlib.Data.Finset.Card
import Mathlib.Data.Finset.Basic

noncomputable section

namespace X7.GH
open Relation

/-- References exist. -/
def Ok (w : World) : Prop :=
  ∀ (i : ℕ) (it : Item), w.items[i]? = some it → it.xf < w.xfs.length ∧
    ∀ (hd : Bool) (es : List (Str × ℕ)), it.body = .group hd es → ∀ x ∈ es, x.2 < w.items.length

theorem ok_empty : Ok World.empty := fun i it h => by simp [World.empty] at h

theorem lt_of_some {α : Type} {l : List α} {i : ℕ} {a : α} (h : l[i]? = some a) : i < l.length := (List.getElem?_eq_some_iff.1 h).1

theorem append_cases {α : Type} {l : List α} {a b : α} {i : ℕ} (h : (l ++ [a])[i]? = some b) :
    (i < l.length ∧ l[i]? = some b) ∨ (i = l.length ∧ b = a) := by
  by_cases hi : i < l.length
  · exact .inl ⟨hi, by rwa [List.getElem?_append_left hi] at h⟩
  · have h2 := lt_of_some h
    simp only [List.length_append, List.length_singleton] at h2
    have e : i = l.length := by omega
    subst e
    simp at h
    exact .inr ⟨rfl, h.symm⟩

theorem set_cases {α : Type} {l : List α} {a b : α} {k i : ℕ} (h : (l.set k a)[i]? = some b) :
    (i = k ∧ b = a) ∨ (i ≠ k ∧ l[i]? = some b) := by
  by_cases hi : k = i
  · subst hi
    have hk : k < l.length := by simpa using lt_of_some h
    rw [List.getElem?_set_self hk] at h
    exact .inl ⟨rfl, (Option.some.inj h).symm⟩
  · rw [List.getElem?_set_ne hi] at h
    exact .inr ⟨fun e => hi e.symm, h⟩

theorem ok_append {w : World} (h : Ok w) (it : Item) (l : List (Mat3 ℝ)) (hx : it.xf < w.xfs.length + l.length)
    (hb : ∀ (hd : Bool) (es : List (Str × ℕ)), it.body = .group hd es → ∀ x ∈ es, x.2 < w.items.length) :
    Ok ⟨w.items ++ [it], w.xfs ++ l⟩ := by
  intro i t ht
  rcases append_cases ht with ⟨-, h1⟩ | ⟨-, rfl⟩
  · have := h i t h1
    refine ⟨by simp; omega, fun hd es he x hx => ?_⟩
    have := this.2 hd es he x hx
    simp; omega
  · refine ⟨by simp; omega, fun hd es he x hx => ?_⟩
    have := hb hd es he x hx
    simp; omega

theorem ok_set {w : World} (h : Ok w) (k : ℕ) (it : Item) (l : List (Mat3 ℝ)) (hx : it.xf < w.xfs.length + l.length)
    (hb : ∀ (hd : Bool) (es : List (Str × ℕ)), it.body = .group hd es → ∀ x ∈ es, x.2 < w.items.length) :
    Ok ⟨w.items.set k it, w.xfs ++ l⟩ := by
  intro i t ht
  rcases set_cases ht with ⟨-, rfl⟩ | ⟨-, h1⟩
  · refine ⟨by simp; omega, fun hd es he x hx => ?_⟩
    have := hb hd es he x hx
    simpa using this
  · have := h i t h1
    refine ⟨by simp; omega, fun hd es he x hx => ?_⟩
    have := this.2 hd es he x hx
    simpa using this

theorem ok_set0 {w : World} (h : Ok w) (k : ℕ) (it : Item) (hx : it.xf < w.xfs.length)
    (hb : ∀ (hd : Bool) (es : List (Str × ℕ)), it.body = .group hd es → ∀ x ∈ es, x.2 < w.items.length) :
    Ok ⟨w.items.set k it, w.xfs⟩ := by
  have := ok_set h k it [] (by simpa using hx) hb
  rwa [List.append_nil] at this

theorem modify_cases {l : List Item} {k i : ℕ} {b : Item} {nm : Str} (h : (l.modify k fun it => { it with name := nm })[i]? = some b) :
    ∃ a, l[i]? = some a ∧ b.xf = a.xf ∧ b.body = a.body ∧ b.pb = a.pb ∧ b.name = (if k = i then nm else a.name) := by
  rw [List.getElem?_modify] at h
  cases ha : l[i]? with
  | none => rw [ha] at h; simp at h
  | some a =>
    rw [ha] at h
    replace h := Option.some.inj h
    subst h
    refine ⟨a, rfl, ?_⟩
    simp only
    split <;> simp

/-- The form of a successful `add`. -/
theorem add_cases (w : World) (g : ℕ) (name : Str) (e : ℕ) (fix : Bool) :
    ((add w g name e fix).1 = w ∧ (add w g name e fix).2 ≠ none) ∨
    ∃ (gi ei : Item) (hd : Bool) (es : List (Str × ℕ)) (key : Str), w.items[g]? = some gi ∧ w.items[e]? = some ei ∧ gi.body = .group hd es ∧
      '.' ∉ key ∧ key ∉ es.map Prod.fst ∧ GroupNames.pickName (es.map Prod.fst) (clsName ei.body) name fix = some key ∧
      add w g name e fix = (⟨(w.items.set g { gi with body := .group hd (es ++ [(key, e)]) }).modify e fun it => { it with name := key }, w.xfs⟩, none) := by
  simp only [add]
  split
  · rename_i gi ei hg he
    split
    · rename_i hd es hb
      split
      · exact .inl ⟨rfl, by simp⟩
      · rename_i key hp
        split
        · exact .inl ⟨rfl, by simp⟩
        · rename_i hdot
          split
          · exact .inl ⟨rfl, by simp⟩
          · rename_i hk
            refine .inr ⟨gi, ei, hd, es, key, hg, he, hb, ?_, hk, hp, rfl⟩
            simpa [hasDot] using hdot
    · exact .inl ⟨rfl, by simp⟩
  · exact .inl ⟨rfl, by simp⟩

theorem ok_step {w : World} (h : Ok w) (op : Op) : Ok (step w op).1 := by
  cases op with
  | mkLeaf name pb l => exact ok_append h _ [_] (by simp) (fun _ _ he => by simp at he)
  | mkGroup name pb hd => exact ok_append h _ [_] (by simp) (fun _ es he x hx => by simp at he; rw [he.2] at hx; simp at hx)
  | add g name e fix =>
    simp only [step]
    rcases add_cases w g name e fix with ⟨h1, -⟩ | ⟨gi, ei, hd, es, key, hg, he, hb, -, -, -, h1⟩
    · rw [h1]; exact h
    · rw [h1]
      intro i t ht
      obtain ⟨a, ha, e1, e2, -, -⟩ := modify_cases ht
      have h2 := ok_set0 h g { gi with body := .group hd (es ++ [(key, e)]) } (h g gi hg).1 (fun hd' es' hb' x hx => by
        simp only [Body.group.injEq] at hb'
        rw [← hb'.2] at hx
        rcases List.mem_append.1 hx with hx | hx
        · exact (h g gi hg).2 hd es hb x hx
        · simp at hx; subst hx; exact lt_of_some he) i a ha
      rw [e1, e2]
      exact ⟨h2.1, fun hd' es' hb' x hx => by simpa using h2.2 hd' es' hb' x hx⟩
  | setXf i m =>
    simp only [step]
    split
    · intro j t ht
      have := h j t ht
      exact ⟨by simpa using this.1, this.2⟩
    · exact h
  | setHidden g hd =>
    simp only [step]
    split
    · rename_i gi hg
      split
      · rename_i hd' es hb
        exact ok_set0 h g _ (h g gi hg).1 (fun _ es' he x hx => (h g gi hg).2 hd' es hb x (by simp at he; rw [he.2]; exact hx))
      · exact h
    · exact h
  | edit i name pb l xf =>
    simp only [step]
    split
    · rename_i it hit
      split
      · split
        · exact ok_set0 h i _ (h i it hit).1 (fun _ _ he => by simp at he)
        · exact ok_set h i _ [_] (by simp) (fun _ _ he => by simp at he)
      · exact h
    · exact h
  | copyLeaf i =>
    simp only [step]
    split
    · rename_i it hit
      split
      · rename_i l hl
        have := ok_append h ⟨it.name, it.pb, it.xf, .leaf l⟩ [] (by simpa using (h i it hit).1) (fun _ _ he => by simp at he)
        rwa [List.append_nil] at this
      · exact h
    · exact h
  | copyGroup g =>
    simp only [step, copyGroup]
    split
    · rename_i gi hg
      split
      · rename_i hd es m hb hm
        exact ok_append h _ [_] (by simp) (fun _ es' he x hx => (h g gi hg).2 hd es hb x (by simp at he; rw [he.2]; exact hx))
      · exact h
    · exact h
  | restoreGroup g k =>
    simp only [step, restoreGroup]
    split
    · rename_i gi ki hg hk
      split
      · rename_i hd0 es0 hd es hb0 hb
        exact ok_set0 h g _ (h k ki hk).1 (fun _ es' he x hx => (h k ki hk).2 hd es hb x (by simp at he; rw [he.2]; exact hx))
      · exact h
    · exact h
  | transformGroup g m =>
    simp only [step, transformGroup]
    split
    · rename_i gi hg
      split
      · rename_i hd es x hb hm
        exact ok_append h _ [_] (by simp) (fun _ es' he x hx => (h g gi hg).2 hd es hb x (by simp at he; rw [he.2]; exact hx))
      · exact h
    · exact h

theorem run_cons (w : World) (op : Op) (ops : List Op) : run w (op :: ops) = run (step w op).1 ops := rfl

theorem run_append (w : World) (a b : List Op) : run w (a ++ b) = run (run w a) b := by
  simp [run, List.foldl_append]

theorem ok_run {w : World} (h : Ok w) (ops : List Op) : Ok (run w ops) := by
  induction ops generalizing w with
  | nil => exact h
  | cons op ops ih => exact ih (ok_step h op)

/-- Object `j` is drawn alike in both worlds: it has the same body and pen, and its transform has the same matrix. -/
def Alike (w w' : World) (j : ℕ) : Prop :=
  ∀ it, w.items[j]? = some it → ∃ it', w'.items[j]? = some it' ∧ it'.body = it.body ∧ it'.pb = it.pb ∧ it'.xf = it.xf ∧
    w'.xfs[it.xf]? = w.xfs[it.xf]?

theorem alike_append {w : World} (h : Ok w) (it : Item) (l : List (Mat3 ℝ)) (j : ℕ) : Alike w ⟨w.items ++ [it], w.xfs ++ l⟩ j := by
  intro t ht
  exact ⟨t, by simp only; rw [List.getElem?_append_left (lt_of_some ht)]; exact ht, rfl, rfl, rfl,
    by simp only; rw [List.getElem?_append_left (h j t ht).1]⟩

theorem alike_refl (w : World) (j : ℕ) : Alike w w j := fun it h => ⟨it, h, rfl, rfl, rfl, rfl⟩

theorem alike_set {w : World} (h : Ok w) (k : ℕ) (it : Item) (l : List (Mat3 ℝ)) (j : ℕ) (hj : j ≠ k) :
    Alike w ⟨w.items.set k it, w.xfs ++ l⟩ j := by
  intro t ht
  exact ⟨t, by simp only; rw [List.getElem?_set_ne hj.symm]; exact ht, rfl, rfl, rfl,
    by simp only; rw [List.getElem?_append_left (h j t ht).1]⟩

theorem alike_set0 {w : World} (h : Ok w) (k : ℕ) (it : Item) (j : ℕ) (hj : j ≠ k) : Alike w ⟨w.items.set k it, w.xfs⟩ j := by
  have := alike_set h k it [] j hj
  rwa [List.append_nil] at this

/-- A call leaves alike what it does not write. -/
theorem alike_step {w : World} (h : Ok w) (op : Op) (j : ℕ) (hw : ¬ Writes w j op) : Alike w (step w op).1 j := by
  cases op with
  | mkLeaf name pb l => exact alike_append h _ _ j
  | mkGroup name pb hd => exact alike_append h _ _ j
  | add g name e fix =>
    simp only [step]
    rcases add_cases w g name e fix with ⟨h1, -⟩ | ⟨gi, ei, hd, es, key, hg, he, hb, -, -, -, h1⟩
    · rw [h1]; exact alike_refl w j
    · rw [h1]
      intro t ht
      have hj : g ≠ j := fun e => hw e.symm
      simp only [List.getElem?_modify, List.getElem?_set_ne hj, ht, Option.map_some]
      refine ⟨_, rfl, ?_⟩
      split <;> simp
  | setXf i m =>
    simp only [step]
    split
    · rename_i it hit
      intro t ht
      refine ⟨t, ht, rfl, rfl, rfl, ?_⟩
      exact List.getElem?_set_ne fun e => hw ⟨t, it, ht, hit, e.symm⟩
    · exact alike_refl w j
  | setHidden g hd =>
    simp only [step]
    split
    · split
      · exact alike_set0 h g _ j hw
      · exact alike_refl w j
    · exact alike_refl w j
  | edit i name pb l xf =>
    simp only [step]
    split
    · split
      · split
        · exact alike_set0 h i _ j hw
        · exact alike_set h i _ _ j hw
      · exact alike_refl w j
    · exact alike_refl w j
  | copyLeaf i =>
    simp only [step]
    split
    · rename_i it hit
      split
      · rename_i l hl
        have := alike_append h ⟨it.name, it.pb, it.xf, .leaf l⟩ [] j
        rwa [List.append_nil] at this
      · exact alike_refl w j
    · exact alike_refl w j
  | copyGroup g =>
    simp only [step, copyGroup]
    split
    · split
      · exact alike_append h _ _ j
      · exact alike_refl w j
    · exact alike_refl w j
  | restoreGroup g k =>
    simp only [step, restoreGroup]
    split
    · split
      · exact alike_set0 h g _ j hw
      · exact alike_refl w j
    · exact alike_refl w j
  | transformGroup g m =>
    simp only [step, transformGroup]
    split
    · split
      · exact alike_append h _ _ j
      · exact alike_refl w j
    · exact alike_refl w j

theorem paths_name (cfg : DCfg) (a b : Str) (pb : PenBrush) (m : Mat3 ℝ) (l : Leaf) (s : TState) :
    Elem.paths cfg (leafElem a pb m l) s = Elem.paths cfg (leafElem b pb m l) s := by
  cases l <;> simp only [leafElem, Elem.paths] <;> rfl

theorem drawAll_congr {f f' : ℕ → TState → TState × Except PyErr (List Path)} (es : List (Str × ℕ))
    (h : ∀ x ∈ es, f x.2 = f' x.2) : drawAll f es = drawAll f' es := by
  induction es with
  | nil => rfl
  | cons x es ih =>
    funext s
    obtain ⟨k, i⟩ := x
    simp only [drawAll]
    rw [h (k, i) (by simp), ih (fun y hy => h y (by simp [hy]))]

/-- Drawing reads only what is in view. -/
theorem draw_congr (cfg : DCfg) {w w' : World} (n i : ℕ) (hi : i < w.items.length) (hok : Ok w) (h : ∀ j, InView w i j → Alike w w' j) :
    draw cfg w' n i = draw cfg w n i := by
  induction n generalizing i with
  | zero => rfl
  | succ n ih =>
    funext s
    obtain ⟨it', h1, h2, h3, h4, h5⟩ := h i .refl _ (List.getElem?_eq_getElem hi)
    have hit := List.getElem?_eq_getElem hi
    obtain ⟨it, hit2⟩ : ∃ it, it = w.items[i] := ⟨_, rfl⟩
    rw [← hit2] at h2 h3 h4 h5 hit
    simp only [draw, h1, hit, h4, h5]
    cases hm : w.xfs[it.xf]? with
    | none => rfl
    | some m =>
      simp only [h2, h3]
      cases hb : it.body with
      | leaf l => simp only; exact paths_name cfg _ _ _ _ _ _
      | group hd es =>
        simp only
        cases hd with
        | true => rfl
        | false =>
          simp only [Bool.false_eq_true, if_false]
          rw [drawAll_congr es fun x hx => ?_]
          have hsh : Shown w i x.2 := ⟨it, es, x.1, hit, hb, hx⟩
          exact ih x.2 ((hok i it hit).2 false es hb x hx) fun j hj => h j (.head hsh hj)

theorem inView_lt {w : World} (hok : Ok w) {i j : ℕ} (hi : i < w.items.length) (h : InView w i j) : j < w.items.length := by
  induction h with
  | refl => exact hi
  | tail _ h2 _ =>
    obtain ⟨it, es, k, h3, h4, h5⟩ := h2
    exact (hok _ it h3).2 _ es h4 _ h5

theorem length_step (w : World) (op : Op) : w.items.length ≤ (step w op).1.items.length := by
  cases op with
  | add g name e fix =>
    simp only [step]
    rcases add_cases w g name e fix with ⟨h1, -⟩ | ⟨gi, ei, hd, es, key, hg, he, hb, -, -, -, h1⟩
    · rw [h1]
    · rw [h1]; simp
  | _ =>
    simp only [step, copyGroup, restoreGroup, transformGroup]
    (repeat' split) <;> simp

/-! ### Pictures -/

theorem drawAll_keeps {f : ℕ → TState → TState × Except PyErr (List Path)} (hf : ∀ i, Elem.Keeps (f i)) (es : List (Str × ℕ)) :
    Elem.Keeps (drawAll f es) := by
  induction es with
  | nil => exact fun s => ⟨rfl, rfl⟩
  | cons x es ih =>
    intro s
    obtain ⟨k, i⟩ := x
    obtain ⟨h1, h2⟩ := hf i s
    simp only [drawAll]
    split
    · rename_i s' er he
      rw [he] at h1 h2
      exact ⟨h1, h2⟩
    · rename_i s' ps he
      rw [he] at h1 h2
      obtain ⟨h3, h4⟩ := ih s'
      split
      · rename_i s'' er he2
        rw [he2] at h3 h4
        exact ⟨h3.trans h1, h4.trans h2⟩
      · rename_i s'' qs he2
        rw [he2] at h3 h4
        exact ⟨h3.trans h1, h4.trans h2⟩

theorem draw_keeps (cfg : DCfg) (w : World) (n i : ℕ) : Elem.Keeps (draw cfg w n i) := by
  induction n generalizing i with
  | zero => exact fun s => ⟨rfl, rfl⟩
  | succ n ih =>
    intro s
    simp only [draw]
    split
    · exact ⟨rfl, rfl⟩
    · split
      · exact ⟨rfl, rfl⟩
      · split
        · exact Elem.paths_keeps cfg _ s
        · split
          · exact ⟨rfl, rfl⟩
          · exact Elem.drawSpace_keeps (drawAll_keeps ih _) _ s

/-- The result depends on the matrix only. -/
def MatOnly (f : TState → TState × Except PyErr (List Path)) : Prop := ∀ s s', s.mat = s'.mat → (f s).2 = (f s').2

theorem drawAll_mat {f : ℕ → TState → TState × Except PyErr (List Path)} (hk : ∀ i, Elem.Keeps (f i)) (hf : ∀ i, MatOnly (f i))
    (es : List (Str × ℕ)) : MatOnly (drawAll f es) := by
  induction es with
  | nil => exact fun s s' _ => rfl
  | cons x es ih =>
    intro s s' hs
    obtain ⟨k, i⟩ := x
    have h1 := hf i s s' hs
    have h2 := (hk i s).1
    have h3 := (hk i s').1
    simp only [drawAll]
    generalize f i s = fa at h1 h2 ⊢
    generalize f i s' = fb at h1 h3 ⊢
    obtain ⟨a, ra⟩ := fa
    obtain ⟨b, rb⟩ := fb
    change ra = rb at h1
    subst h1
    cases ra with
    | error er => rfl
    | ok ps =>
      simp only
      have h4 := ih a b (by rw [h2, h3, hs])
      generalize drawAll f es a = fc at h4 ⊢
      generalize drawAll f es b = fd at h4 ⊢
      obtain ⟨c, rc⟩ := fc
      obtain ⟨d, rd⟩ := fd
      change rc = rd at h4
      subst h4
      cases rc <;> rfl

theorem draw_mat (cfg : DCfg) (w : World) (n i : ℕ) : MatOnly (draw cfg w n i) := by
  induction n generalizing i with
  | zero => exact fun s s' _ => rfl
  | succ n ih =>
    intro s s' hs
    simp only [draw]
    split
    · rfl
    · split
      · rfl
      · split
        · rw [Elem.drawn_push, Elem.drawn_push, hs]
        · split
          · rfl
          · rw [Elem.drawSpace_eq (drawAll_keeps (draw_keeps cfg w n) _), Elem.drawSpace_eq (drawAll_keeps (draw_keeps cfg w n) _)]
            exact drawAll_mat (draw_keeps cfg w n) ih _ _ _ (by simp [TState.push, TState.compose, hs])

theorem pic_eq (cfg : DCfg) (w : World) (n i : ℕ) (s : TState) : (draw cfg w n i s).2 = pic cfg w n i s.mat :=
  draw_mat cfg w n i s _ rfl

theorem pic_congr (cfg : DCfg) {w w' : World} (n i : ℕ) (hi : i < w.items.length) (hok : Ok w) (h : ∀ j, InView w i j → Alike w w' j)
    (m : Mat3 ℝ) : pic cfg w' n i m = pic cfg w n i m := by
  simp only [pic, draw_congr cfg n i hi hok h]

/-- The pictures of a list of elements, one after the other. -/
def picAll (cfg : DCfg) (w : World) (n : ℕ) (m : Mat3 ℝ) : List (Str × ℕ) → Except PyErr (List Path)
  | [] => .ok []
  | x :: rest =>
    match pic cfg w n x.2 m with
    | .error e => .error e
    | .ok ps =>
      match picAll cfg w n m rest with
      | .error e => .error e
      | .ok qs => .ok (ps ++ qs)

theorem drawAll_pic (cfg : DCfg) (w : World) (n : ℕ) (es : List (Str × ℕ)) (s : TState) :
    (drawAll (draw cfg w n) es s).2 = picAll cfg w n s.mat es := by
  induction es generalizing s with
  | nil => rfl
  | cons x es ih =>
    obtain ⟨k, i⟩ := x
    have h1 := pic_eq cfg w n i s
    have h2 := (draw_keeps cfg w n i s).1
    simp only [drawAll, picAll]
    rw [← h1]
    generalize draw cfg w n i s = fa at h2 ⊢
    obtain ⟨a, ra⟩ := fa
    change a.mat = s.mat at h2
    cases ra with
    | error er => rfl
    | ok ps =>
      have h3 := ih a
      rw [h2] at h3
      simp only
      rw [← h3]
      obtain ⟨c, rc⟩ := drawAll (draw cfg w n) es a
      cases rc <;> rfl

theorem picAll_congr (cfg : DCfg) {w w' : World} (n : ℕ) (m : Mat3 ℝ) (es : List (Str × ℕ))
    (h : ∀ x ∈ es, pic cfg w' n x.2 m = pic cfg w n x.2 m) : picAll cfg w' n m es = picAll cfg w n m es := by
  induction es with
  | nil => rfl
  | cons x es ih =>
    simp only [picAll]
    rw [h x (by simp), ih (fun y hy => h y (by simp [hy]))]

theorem picAll_append (cfg : DCfg) (w : World) (n : ℕ) (m : Mat3 ℝ) (es fs : List (Str × ℕ)) :
    picAll cfg w n m (es ++ fs) =
      match picAll cfg w n m es with
      | .error e => .error e
      | .ok ps =>
        match picAll cfg w n m fs with
        | .error e => .error e
        | .ok qs => .ok (ps ++ qs) := by
  induction es with
  | nil => simp only [List.nil_append, picAll]; cases picAll cfg w n m fs <;> rfl
  | cons x es ih =>
    simp only [List.cons_append, picAll, ih]
    cases pic cfg w n x.2 m with
    | error e => rfl
    | ok ps =>
      simp only
      cases picAll cfg w n m es with
      | error e => rfl
      | ok qs =>
        simp only
        cases picAll cfg w n m fs with
        | error e => rfl
        | ok rs => simp

theorem pic_leaf (cfg : DCfg) {w : World} {i : ℕ} {it : Item} {l : Leaf} {x : Mat3 ℝ} (hi : w.items[i]? = some it) (hx : w.xfs[it.xf]? = some x)
    (hb : it.body = .leaf l) (n : ℕ) (m : Mat3 ℝ) : pic cfg w (n + 1) i m = Elem.drawn cfg (leafElem it.name it.pb x l) m := by
  simp only [pic, draw, hi, hx, hb, Elem.drawn]

theorem pic_group (cfg : DCfg) {w : World} {i : ℕ} {it : Item} {es : List (Str × ℕ)} {x : Mat3 ℝ} (hi : w.items[i]? = some it)
    (hx : w.xfs[it.xf]? = some x) (hb : it.body = .group false es) (n : ℕ) (m : Mat3 ℝ) :
    pic cfg w (n + 1) i m = picAll cfg w n (m.mul x) es := by
  simp only [pic, draw, hi, hx, hb, Bool.false_eq_true, if_false]
  rw [Elem.drawSpace_eq (drawAll_keeps (draw_keeps cfg w n) es)]
  simp only
  rw [drawAll_pic]
  rfl

theorem pic_hidden (cfg : DCfg) {w : World} {i : ℕ} {it : Item} {es : List (Str × ℕ)} {x : Mat3 ℝ} (hi : w.items[i]? = some it)
    (hx : w.xfs[it.xf]? = some x) (hb : it.body = .group true es) (n : ℕ) (m : Mat3 ℝ) : pic cfg w (n + 1) i m = .ok [] := by
  simp only [pic, draw, hi, hx, hb, if_true]

/-! ### Trees -/

theorem tree_leaf {w : World} {i : ℕ} {it : Item} {l : Leaf} {x : Mat3 ℝ} (hi : w.items[i]? = some it) (hx : w.xfs[it.xf]? = some x)
    (hb : it.body = .leaf l) (n : ℕ) : tree w (n + 1) i = some (leafElem it.name it.pb x l) := by
  simp only [tree, hi, hx, hb]

theorem tree_group {w : World} {i : ℕ} {it : Item} {hd : Bool} {es : List (Str × ℕ)} {x : Mat3 ℝ} (hi : w.items[i]? = some it)
    (hx : w.xfs[it.xf]? = some x) (hb : it.body = .group hd es) (n : ℕ) :
    tree w (n + 1) i = (kids (tree w n) es).map (Elem.group ⟨it.name, it.pb, false, x⟩ hd) := by
  simp only [tree, hi, hx, hb]

theorem kids_some {f : ℕ → Option Elem} {es : List (Str × ℕ)} {ts : List (Str × Elem)} (h : kids f es = some ts) :
    ∀ x ∈ es, ∃ t, f x.2 = some t ∧ (x.1, t) ∈ ts := by
  induction es generalizing ts with
  | nil => simp
  | cons y es ih =>
    obtain ⟨k, i⟩ := y
    simp only [kids] at h
    split at h
    · rename_i e es' h1 h2
      cases h
      intro x hx
      rcases List.mem_cons.1 hx with rfl | hx
      · exact ⟨e, h1, by simp⟩
      · obtain ⟨t, ht, hm⟩ := ih h2 x hx
        exact ⟨t, ht, by simp [hm]⟩
    · cases h

theorem kids_all {f : ℕ → Option Elem} {es : List (Str × ℕ)} (h : ∀ x ∈ es, ∃ t, f x.2 = some t) : ∃ ts, kids f es = some ts := by
  induction es with
  | nil => exact ⟨[], rfl⟩
  | cons y es ih =>
    obtain ⟨k, i⟩ := y
    obtain ⟨t, ht⟩ := h (k, i) (by simp)
    obtain ⟨ts, hts⟩ := ih fun x hx => h x (by simp [hx])
    exact ⟨(k, t) :: ts, by simp only at ht; simp [kids, ht, hts]⟩

theorem kids_congr {f f' : ℕ → Option Elem} {es : List (Str × ℕ)} (h : ∀ x ∈ es, f x.2 = f' x.2) : kids f es = kids f' es := by
  induction es with
  | nil => rfl
  | cons y es ih =>
    obtain ⟨k, i⟩ := y
    have h1 := h (k, i) (by simp)
    simp only at h1
    simp only [kids, h1, ih fun x hx => h x (by simp [hx])]

theorem tree_parts {w : World} {n i : ℕ} {e : Elem} (h : tree w n i = some e) :
    ∃ k it x, n = k + 1 ∧ w.items[i]? = some it ∧ w.xfs[it.xf]? = some x ∧
      ((∃ l, it.body = .leaf l ∧ e = leafElem it.name it.pb x l) ∨
       ∃ hd es ts, it.body = .group hd es ∧ kids (tree w k) es = some ts ∧ e = .group ⟨it.name, it.pb, false, x⟩ hd ts) := by
  cases n with
  | zero => simp [tree] at h
  | succ k =>
    simp only [tree] at h
    split at h
    · cases h
    · rename_i it hi
      split at h
      · cases h
      · rename_i x hx
        refine ⟨k, it, x, rfl, hi, hx, ?_⟩
        split at h
        · rename_i l hb
          cases h
          exact .inl ⟨l, hb, rfl⟩
        · rename_i hd es hb
          cases hk : kids (tree w k) es with
          | none => rw [hk] at h; cases h
          | some ts =>
            rw [hk] at h
            simp only [Option.map_some, Option.some.injEq] at h
            exact .inr ⟨hd, es, ts, hb, hk, h.symm⟩

/-- More depth gives the same tree. -/
theorem tree_mono {w : World} {n i : ℕ} {e : Elem} (h : tree w n i = some e) : tree w (n + 1) i = some e := by
  induction n generalizing i e with
  | zero => simp [tree] at h
  | succ n ih =>
    obtain ⟨k, it, x, hn, hi, hx, ⟨l, hb, rfl⟩ | ⟨hd, es, ts, hb, hk, rfl⟩⟩ := tree_parts h
    · exact tree_leaf hi hx hb _
    · obtain rfl : n = k := by omega
      rw [tree_group hi hx hb (n + 1), kids_congr (f' := tree w n), hk]
      · rfl
      · intro y hy
        obtain ⟨t, ht, -⟩ := kids_some hk y hy
        rw [ht, ih ht]

theorem tree_le {w : World} {n k i : ℕ} {e : Elem} (h : tree w n i = some e) (hk : n ≤ k) : tree w k i = some e := by
  induction k, hk using Nat.le_induction with
  | base => exact h
  | succ k _ ih => exact tree_mono ih

/-- Drawing on objects is drawing the tree. -/
theorem draw_tree (cfg : DCfg) {w : World} {n i : ℕ} {e : Elem} (h : tree w n i = some e) (s : TState) :
    draw cfg w n i s = Elem.paths cfg e s := by
  induction n generalizing i e s with
  | zero => simp [tree] at h
  | succ n ih =>
    obtain ⟨k, it, x, hn, hi, hx, ⟨l, hb, rfl⟩ | ⟨hd, es, ts, hb, hk, rfl⟩⟩ := tree_parts h
    · simp only [draw, hi, hx, hb]
    · obtain rfl : n = k := by omega
      simp only [draw, hi, hx, hb, Elem.paths]
      have : ∀ (es : List (Str × ℕ)) (ts : List (Str × Elem)), kids (tree w n) es = some ts →
          drawAll (draw cfg w n) es = Elem.pathsAll cfg ts := by
        intro es
        induction es with
        | nil => intro ts h; cases h; funext s; simp [drawAll, Elem.pathsAll]
        | cons y es ih2 =>
          obtain ⟨k, j⟩ := y
          intro ts h
          simp only [kids] at h
          split at h
          · rename_i t ts' h1 h2
            cases h
            funext s
            simp only [drawAll, Elem.pathsAll, ih h1, ih2 ts' h2]
            rfl
          · cases h
      rw [this es ts hk]

/-! ### Groups in themselves -/

section rel
variable {R : ℕ → ℕ → Prop} {L : ℕ}

open Classical in
/-- What can be reached from `i`. -/
def reach (R : ℕ → ℕ → Prop) (L i : ℕ) : Finset ℕ := (Finset.range L).filter fun j => ReflTransGen R i j

theorem mem_reach {i j : ℕ} : j ∈ reach R L i ↔ j < L ∧ ReflTransGen R i j := by
  classical
  simp [reach]

/-- Induction along a relation without cycles below `i`: the depth is at most the number of objects. -/
theorem depth_induct {P : ℕ → ℕ → Prop} (hR : ∀ a b, R a b → b < L)
    (hs : ∀ n i, i < L → (∀ c, R i c → P n c) → P (n + 1) i) (n i : ℕ) (hi : i < L)
    (hc : ∀ j, ReflTransGen R i j → ¬ TransGen R j j) (hn : (reach R L i).card ≤ n) : P n i := by
  induction n generalizing i with
  | zero =>
    have : i ∈ reach R L i := mem_reach.2 ⟨hi, .refl⟩
    have := Finset.card_pos.2 ⟨i, this⟩
    omega
  | succ n ih =>
    refine hs n i hi fun c hic => ih c (hR i c hic) (fun j hj => hc j (.head hic hj)) ?_
    have : (reach R L c).card < (reach R L i).card := by
      refine Finset.card_lt_card (Finset.ssubset_iff_subset_ne.2 ⟨fun j hj => ?_, fun he => ?_⟩)
      · rw [mem_reach] at hj ⊢
        exact ⟨hj.1, .head hic hj.2⟩
      · have : i ∈ reach R L c := he ▸ mem_reach.2 ⟨hi, .refl⟩
        exact hc i .refl (.head' hic (mem_reach.1 this).2)
    omega

theorem reach_card (i : ℕ) : (reach R L i).card ≤ L := by
  classical
  have := Finset.card_filter_le (Finset.range L) fun j => ReflTransGen R i j
  simpa [reach] using this

end rel

theorem shown_child {w : World} {a b : ℕ} (h : Shown w a b) : Child w a b := by
  obtain ⟨it, es, k, h1, h2, h3⟩ := h
  exact ⟨it, false, es, k, h1, h2, h3⟩

theorem child_lt {w : World} (hok : Ok w) {a b : ℕ} (h : Child w a b) : b < w.items.length := by
  obtain ⟨it, hd, es, k, h1, h2, h3⟩ := h
  exact (hok a it h1).2 hd es h2 _ h3

theorem within_lt {w : World} (hok : Ok w) {a b : ℕ} (ha : a < w.items.length) (h : Within w a b) : b < w.items.length := by
  induction h with
  | refl => exact ha
  | tail _ h2 _ => exact child_lt hok h2

/-- Without a visible cycle the picture does not depend on the depth left. -/
theorem draw_depth (cfg : DCfg) {w : World} (hok : Ok w) {i : ℕ} (hi : i < w.items.length)
    (hc : ∀ j, InView w i j → ¬ TransGen (Shown w) j j) (n : ℕ) (hn : w.items.length ≤ n) :
    ∀ k, n ≤ k → draw cfg w k i = draw cfg w n i := by
  refine depth_induct (R := Shown w) (L := w.items.length) (P := fun n i => ∀ k, n ≤ k → draw cfg w k i = draw cfg w n i)
    (fun a b h => child_lt hok (shown_child h)) ?_ n i hi hc ((reach_card i).trans hn)
  intro n i hi ih k hk
  obtain ⟨k, rfl⟩ : ∃ k', k = k' + 1 := ⟨k - 1, by omega⟩
  funext s
  have e := List.getElem?_eq_getElem hi
  generalize w.items[i] = it at e
  simp only [draw, e]
  split
  · rfl
  · split
    · rfl
    · rename_i hd es hb
      cases hd with
      | true => rfl
      | false =>
        simp only [Bool.false_eq_true, if_false]
        rw [drawAll_congr es fun x hx => ih x.2 ⟨it, es, x.1, e, hb, hx⟩ k (by omega)]

/-- Nor does drawing run out of depth. -/
theorem tree_exists {w : World} (hok : Ok w) {i : ℕ} (hi : i < w.items.length)
    (hc : ∀ j, Within w i j → ¬ TransGen (Child w) j j) : ∃ e, tree w w.items.length i = some e := by
  refine depth_induct (R := Child w) (L := w.items.length) (P := fun n i => ∃ e, tree w n i = some e)
    (fun a b h => child_lt hok h) ?_ _ i hi hc (reach_card i)
  intro n i hi ih
  have e := List.getElem?_eq_getElem hi
  generalize w.items[i] = it at e
  have hx := List.getElem?_eq_getElem (hok i it e).1
  cases hb : it.body with
  | leaf l => exact ⟨_, tree_leaf e hx hb n⟩
  | group hd es =>
    obtain ⟨ts, hts⟩ := kids_all (f := tree w n) (es := es) fun x hx => ih x.2 ⟨it, hd, es, x.1, e, hb, hx⟩
    exact ⟨_, by rw [tree_group e hx hb n, hts]; rfl⟩

theorem tree_down {w : World} {n a b : ℕ} {e : Elem} (h : tree w n a = some e) (hab : Child w a b) :
    ∃ k, k < n ∧ ∃ t, tree w k b = some t := by
  obtain ⟨it', hd', es', key, h1, h2, h3⟩ := hab
  obtain ⟨k, it, x, hn, hi, hx, ⟨l, hb, rfl⟩ | ⟨hd, es, ts, hb, hk, rfl⟩⟩ := tree_parts h
  · rw [h1] at hi; cases hi; rw [h2] at hb; cases hb
  · rw [h1] at hi; cases hi; rw [h2] at hb; cases hb
    obtain ⟨t, ht, -⟩ := kids_some hk _ h3
    exact ⟨k, by omega, t, ht⟩

theorem tree_trans {w : World} {n a b : ℕ} {e : Elem} (h : tree w n a = some e) (hab : TransGen (Child w) a b) :
    ∃ k, k < n ∧ ∃ t, tree w k b = some t := by
  induction hab with
  | single h1 => exact tree_down h h1
  | tail _ h2 ih =>
    obtain ⟨k, hk, t, ht⟩ := ih
    obtain ⟨k', hk', r⟩ := tree_down ht h2
    exact ⟨k', by omega, r⟩

theorem tree_cycle {w : World} {a : ℕ} (hc : TransGen (Child w) a a) (n : ℕ) : tree w n a = none := by
  induction n using Nat.strong_induction_on with
  | _ n ih =>
    cases h : tree w n a with
    | none => rfl
    | some e =>
      obtain ⟨k, hk, t, ht⟩ := tree_trans h hc
      rw [ih k hk] at ht
      cases ht

theorem picAll_ok {cfg : DCfg} {w : World} {n : ℕ} {m : Mat3 ℝ} {es : List (Str × ℕ)} {ps : List Path}
    (h : picAll cfg w n m es = .ok ps) : ∀ x ∈ es, ∃ qs, pic cfg w n x.2 m = .ok qs := by
  induction es generalizing ps with
  | nil => simp
  | cons y es ih =>
    simp only [picAll] at h
    intro x hx
    cases hp : pic cfg w n y.2 m with
    | error e => rw [hp] at h; cases h
    | ok qs =>
      rw [hp] at h
      simp only at h
      cases hq : picAll cfg w n m es with
      | error e => rw [hq] at h; cases h
      | ok rs =>
        rcases List.mem_cons.1 hx with rfl | hx
        · exact ⟨qs, hp⟩
        · exact ih hq x hx

theorem pic_down {cfg : DCfg} {w : World} {n a b : ℕ} {m : Mat3 ℝ} {ps : List Path} (h : pic cfg w n a m = .ok ps) (hab : Shown w a b) :
    ∃ k, k < n ∧ ∃ m' qs, pic cfg w k b m' = .ok qs := by
  obtain ⟨it, es, key, h1, h2, h3⟩ := hab
  cases n with
  | zero => simp [pic, draw] at h
  | succ n =>
    cases hx : w.xfs[it.xf]? with
    | none => simp [pic, draw, h1, hx] at h
    | some x =>
      rw [pic_group cfg h1 hx h2] at h
      obtain ⟨qs, hq⟩ := picAll_ok h _ h3
      exact ⟨n, by omega, _, qs, hq⟩

theorem pic_trans {cfg : DCfg} {w : World} {n a b : ℕ} {m : Mat3 ℝ} {ps : List Path} (h : pic cfg w n a m = .ok ps)
    (hab : TransGen (Shown w) a b) : ∃ k, k < n ∧ ∃ m' qs, pic cfg w k b m' = .ok qs := by
  induction hab with
  | single h1 => exact pic_down h h1
  | tail _ h2 ih =>
    obtain ⟨k, hk, m', qs, hq⟩ := ih
    obtain ⟨k', hk', r⟩ := pic_down hq h2
    exact ⟨k', by omega, r⟩

theorem pic_cycle (cfg : DCfg) {w : World} {a : ℕ} (hc : TransGen (Shown w) a a) (n : ℕ) (m : Mat3 ℝ) (ps : List Path) :
    pic cfg w n a m ≠ .ok ps := by
  induction n using Nat.strong_induction_on generalizing m ps with
  | _ n ih =>
    intro h
    obtain ⟨k, hk, m', qs, hq⟩ := pic_trans h hc
    exact ih k hk m' qs hq

/-! ### Where the elements of a group come from -/

/-- Object `i` is a group with elements `es`. -/
def Elems (w : World) (i : ℕ) (es : List (Str × ℕ)) : Prop := ∃ it hd, w.items[i]? = some it ∧ it.body = .group hd es

/-- Where the elements of group `i` after a call come from. -/
inductive Src (w w' : World) (op : Op) (i : ℕ) (es' : List (Str × ℕ)) : Prop
  | same (h : Elems w i es')
  | none (h : es' = [])
  | grow (name : Str) (e : ℕ) (fix : Bool) (es : List (Str × ℕ)) (key : Str) (h1 : op = .add i name e fix) (h2 : Elems w i es)
      (h3 : key ∉ es.map Prod.fst) (h4 : '.' ∉ key) (h5 : es' = es ++ [(key, e)]) (h6 : ∃ c, w'.items[e]? = some c ∧ c.name = key)
  | dup (g : ℕ) (h1 : i = w.items.length) (h2 : op = .copyGroup g ∨ ∃ m, op = .transformGroup g m) (h3 : Elems w g es')
  | back (h : ℕ) (h1 : op = .restoreGroup i h) (h2 : Elems w h es')

theorem src_append {w : World} {op : Op} {it : Item} {l : List (Mat3 ℝ)} {i : ℕ} {es' : List (Str × ℕ)}
    (h : Elems ⟨w.items ++ [it], w.xfs ++ l⟩ i es')
    (hn : ∀ hd, it.body = .group hd es' → i = w.items.length → Src w ⟨w.items ++ [it], w.xfs ++ l⟩ op i es') :
    Src w ⟨w.items ++ [it], w.xfs ++ l⟩ op i es' := by
  obtain ⟨t, hd, h1, h2⟩ := h
  rcases append_cases h1 with ⟨-, h3⟩ | ⟨h3, rfl⟩
  · exact .same ⟨t, hd, h3, h2⟩
  · exact hn hd h2 h3

theorem src_set {w : World} {op : Op} {it : Item} {xs : List (Mat3 ℝ)} {k i : ℕ} {es' : List (Str × ℕ)}
    (h : Elems ⟨w.items.set k it, xs⟩ i es')
    (hn : ∀ hd, it.body = .group hd es' → i = k → Src w ⟨w.items.set k it, xs⟩ op i es') :
    Src w ⟨w.items.set k it, xs⟩ op i es' := by
  obtain ⟨t, hd, h1, h2⟩ := h
  rcases set_cases h1 with ⟨h3, rfl⟩ | ⟨-, h3⟩
  · exact hn hd h2 h3
  · exact .same ⟨t, hd, h3, h2⟩

theorem src_step (w : World) (op : Op) (i : ℕ) (es' : List (Str × ℕ)) (h : Elems (step w op).1 i es') :
    Src w (step w op).1 op i es' := by
  cases op with
  | mkLeaf name pb l => exact src_append h fun hd he => by simp at he
  | mkGroup name pb hd =>
    exact src_append h fun hd' he _ => by
      simp only [Body.group.injEq] at he
      exact .none he.2.symm
  | add g name e fix =>
    simp only [step] at h ⊢
    rcases add_cases w g name e fix with ⟨h1, -⟩ | ⟨gi, ei, hd, es, key, hg, he, hb, hk1, hk2, -, h1⟩
    · rw [h1] at h; exact .same h
    · rw [h1] at h ⊢
      obtain ⟨t, hd', ht, hb'⟩ := h
      obtain ⟨a, ha, -, hab, -, -⟩ := modify_cases ht
      have hc : ∃ c, ((w.items.set g { gi with body := .group hd (es ++ [(key, e)]) }).modify e fun it => { it with name := key })[e]? = some c ∧
          c.name = key := by
        have hlt : e < ((w.items.set g { gi with body := .group hd (es ++ [(key, e)]) }).modify e fun it => { it with name := key }).length := by
          simpa using lt_of_some he
        refine ⟨_, List.getElem?_eq_getElem hlt, ?_⟩
        obtain ⟨a', -, -, -, -, hn⟩ := modify_cases (List.getElem?_eq_getElem hlt)
        rw [hn, if_pos rfl]
      rcases set_cases ha with ⟨rfl, rfl⟩ | ⟨-, ha⟩
      · rw [hb'] at hab
        simp only [Body.group.injEq] at hab
        exact .grow name e fix es key rfl ⟨gi, hd, hg, hb⟩ hk2 hk1 hab.2 hc
      · exact .same ⟨a, hd', ha, by rw [← hab]; exact hb'⟩
  | setXf j m =>
    simp only [step] at h ⊢
    split at h
    · rename_i it hi
      simp only [hi]
      exact .same h
    · exact .same h
  | setHidden g hd =>
    simp only [step] at h ⊢
    split at h
    · rename_i gi hg
      split at h
      · rename_i hd0 es hb
        simp only [hg, hb]
        exact src_set h fun hd' he hi => by
          simp only [Body.group.injEq] at he
          exact .same ⟨gi, hd0, hi ▸ hg, he.2 ▸ hb⟩
      · exact .same h
    · exact .same h
  | edit j name pb l xf =>
    simp only [step] at h ⊢
    split at h
    · rename_i it hi
      split at h
      · rename_i l0 hb
        cases xf with
        | none => simp only [hi, hb] at h ⊢; exact src_set h fun hd' he => by simp at he
        | some m => simp only [hi, hb] at h ⊢; exact src_set h fun hd' he => by simp at he
      · exact .same h
    · exact .same h
  | copyLeaf j =>
    simp only [step] at h ⊢
    split at h
    · rename_i it hi
      split at h
      · rename_i l hb
        simp only [hi, hb]
        have := src_append (w := w) (op := .copyLeaf j) (l := []) (i := i) (es' := es') (it := ⟨it.name, it.pb, it.xf, .leaf l⟩)
          (by simpa using h) (fun hd he => by simp at he)
        simpa using this
      · exact .same h
    · exact .same h
  | copyGroup g =>
    simp only [step, copyGroup] at h ⊢
    split at h
    · rename_i gi hg
      split at h
      · rename_i hd0 es m hb hx
        simp only [hg, hb, hx]
        exact src_append h fun hd' he hi => by
          simp only [Body.group.injEq] at he
          exact .dup g hi (.inl rfl) ⟨gi, hd0, hg, he.2 ▸ hb⟩
      · exact .same h
    · exact .same h
  | restoreGroup g k =>
    simp only [step, restoreGroup] at h ⊢
    split at h
    · rename_i gi hi hg hh
      split at h
      · rename_i a b hd0 es hb hb2
        simp only [hg, hh, hb, hb2]
        exact src_set h fun hd' he hi => by
          simp only [Body.group.injEq] at he
          subst hi
          exact .back k rfl ⟨_, hd0, hh, he.2 ▸ hb2⟩
      · exact .same h
    · exact .same h
  | transformGroup g m =>
    simp only [step, transformGroup] at h ⊢
    split at h
    · rename_i gi hg
      split at h
      · rename_i hd0 es x hb hx
        simp only [hg, hb, hx]
        exact src_append h fun hd' he hi => by
          simp only [Body.group.injEq] at he
          exact .dup g hi (.inr ⟨m, rfl⟩) ⟨gi, hd0, hg, he.2 ▸ hb⟩
      · exact .same h
    · exact .same h

theorem elems_of_child {w : World} {a b : ℕ} (h : Child w a b) : ∃ es k, Elems w a es ∧ (k, b) ∈ es := by
  obtain ⟨it, hd, es, k, h1, h2, h3⟩ := h
  exact ⟨es, k, ⟨it, hd, h1, h2⟩, h3⟩

theorem child_of_elems {w : World} {a b : ℕ} {es : List (Str × ℕ)} {k : Str} (h : Elems w a es) (hk : (k, b) ∈ es) : Child w a b := by
  obtain ⟨it, hd, h1, h2⟩ := h
  exact ⟨it, hd, es, k, h1, h2, hk⟩

/-- Edges out of one object which do not lead back to it close no cycle. -/
theorem acyclic_more {R R' : ℕ → ℕ → Prop} {x : ℕ} {S : ℕ → Prop} (hR : ∀ a b, R' a b → R a b ∨ (a = x ∧ S b))
    (hS : ∀ b, S b → ¬ ReflTransGen R b x) (hc : ∀ i, ¬ TransGen R i i) (i : ℕ) : ¬ TransGen R' i i := by
  have key : ∀ a c, ReflTransGen R' a c → ReflTransGen R a c ∨ ∃ b, S b ∧ ReflTransGen R a x ∧ ReflTransGen R b c := by
    intro a c h
    induction h with
    | refl => exact .inl .refl
    | tail _ h2 ih =>
      rcases hR _ _ h2 with h3 | ⟨rfl, h3⟩
      · rcases ih with ih | ⟨b, h4, h5, h6⟩
        · exact .inl (ih.tail h3)
        · exact .inr ⟨b, h4, h5, h6.tail h3⟩
      · rcases ih with ih | ⟨b, h4, h5, h6⟩
        · exact .inr ⟨_, h3, ih, .refl⟩
        · exact absurd h6 (hS b h4)
  intro h
  obtain ⟨c, h1, h2⟩ := TransGen.head'_iff.1 h
  rcases hR _ _ h1 with h3 | ⟨rfl, h3⟩
  · rcases key _ _ h2 with h4 | ⟨b, h5, h6, h7⟩
    · exact hc i (.head' h3 h4)
    · exact hS b h5 (h7.trans (.head h3 h6))
  · rcases key _ _ h2 with h4 | ⟨b, h5, h6, h7⟩
    · exact hS c h3 h4
    · exact hS b h5 h7

theorem acyclic_step {w : World} (hok : Ok w) (hc : Acyclic w) (op : Op) (hl : NoLoop w op) : Acyclic (step w op).1 := by
  have src : ∀ a b, Child (step w op).1 a b → ∃ es k, Src w (step w op).1 op a es ∧ (k, b) ∈ es := by
    intro a b h
    obtain ⟨es, k, h1, h2⟩ := elems_of_child h
    exact ⟨es, k, src_step w op a es h1, h2⟩
  have plain : (∀ a b, Child (step w op).1 a b → Child w a b) → Acyclic (step w op).1 :=
    fun h i hi => hc i (TransGen.mono h i i hi)
  have dup : ∀ g, (∀ a b, Child (step w op).1 a b → Child w a b ∨ (a = w.items.length ∧ Child w g b)) → Acyclic (step w op).1 := by
    intro g h
    refine acyclic_more h (fun b hb hw => ?_) hc
    exact absurd (within_lt hok (child_lt hok hb) hw) (by omega)
  cases op with
  | add g name e fix =>
    refine acyclic_more (x := g) (S := fun b => b = e) (fun a b h => ?_) (fun b hb => hb ▸ hl) hc
    obtain ⟨es, k, hs, hk⟩ := src a b h
    cases hs with
    | same h1 => exact .inl (child_of_elems h1 hk)
    | none h1 => subst h1; simp at hk
    | grow nm e' fx es0 key h1 h2 h3 h4 h5 h6 =>
      cases h1
      subst h5
      rcases List.mem_append.1 hk with hk | hk
      · exact .inl (child_of_elems h2 hk)
      · simp at hk
        exact .inr ⟨rfl, hk.2⟩
    | dup g' h1 h2 h3 => simp at h2
    | back h' h1 h2 => cases h1
  | restoreGroup g k =>
    refine acyclic_more (x := g) (S := fun b => Child w k b) (fun a b h => ?_) (fun b hb => hl b hb) hc
    obtain ⟨es, k, hs, hk⟩ := src a b h
    cases hs with
    | same h1 => exact .inl (child_of_elems h1 hk)
    | none h1 => subst h1; simp at hk
    | grow nm e' fx es0 key h1 h2 h3 h4 h5 h6 => cases h1
    | dup g' h1 h2 h3 => simp at h2
    | back h' h1 h2 => cases h1; exact .inr ⟨rfl, child_of_elems h2 hk⟩
  | copyGroup g =>
    refine dup g fun a b h => ?_
    obtain ⟨es, k, hs, hk⟩ := src a b h
    cases hs with
    | same h1 => exact .inl (child_of_elems h1 hk)
    | none h1 => subst h1; simp at hk
    | grow nm e' fx es0 key h1 h2 h3 h4 h5 h6 => cases h1
    | dup g' h1 h2 h3 =>
      rcases h2 with h2 | ⟨m, h2⟩
      · cases h2; exact .inr ⟨h1, child_of_elems h3 hk⟩
      · cases h2
    | back h' h1 h2 => cases h1
  | transformGroup g m =>
    refine dup g fun a b h => ?_
    obtain ⟨es, k, hs, hk⟩ := src a b h
    cases hs with
    | same h1 => exact .inl (child_of_elems h1 hk)
    | none h1 => subst h1; simp at hk
    | grow nm e' fx es0 key h1 h2 h3 h4 h5 h6 => cases h1
    | dup g' h1 h2 h3 =>
      rcases h2 with h2 | ⟨m, h2⟩
      · cases h2
      · cases h2; exact .inr ⟨h1, child_of_elems h3 hk⟩
    | back h' h1 h2 => cases h1
  | _ =>
    refine plain fun a b h => ?_
    obtain ⟨es, k, hs, hk⟩ := src a b h
    cases hs with
    | same h1 => exact child_of_elems h1 hk
    | none h1 => subst h1; simp at hk
    | grow nm e' fx es0 key h1 h2 h3 h4 h5 h6 => cases h1
    | dup g' h1 h2 h3 => simp at h2
    | back h' h1 h2 => cases h1

/-! ### Names -/

/-- The keys of every group are distinct, not empty, without dots, and the names of the elements. -/
def KeyedW (w : World) : Prop :=
  ∀ i es, Elems w i es → (es.map Prod.fst).Nodup ∧
    ∀ x ∈ es, x.1 ≠ [] ∧ '.' ∉ x.1 ∧ ∃ c, w.items[x.2]? = some c ∧ c.name = x.1

theorem keyed_step {w : World} (hok : Ok w) (h : KeyedW w) (op : Op) (hn : KeepsNames w op) : KeyedW (step w op).1 := by
  have old : ∀ j es, Elems w j es → (es.map Prod.fst).Nodup ∧
      ∀ x ∈ es, x.1 ≠ [] ∧ '.' ∉ x.1 ∧ ∃ c, (step w op).1.items[x.2]? = some c ∧ c.name = x.1 := by
    intro j es hj
    obtain ⟨h1, h2⟩ := h j es hj
    refine ⟨h1, fun x hx => ?_⟩
    obtain ⟨h3, h4, c, h5, h6⟩ := h2 x hx
    have hlt : x.2 < (step w op).1.items.length := by
      have := lt_of_some h5
      have := length_step w op
      omega
    refine ⟨h3, h4, _, List.getElem?_eq_getElem hlt, ?_⟩
    rw [hn.1 x.2 c _ h5 (List.getElem?_eq_getElem hlt) ⟨j, child_of_elems hj hx⟩, h6]
  intro i es' he
  cases src_step w op i es' he with
  | same h1 => exact old i es' h1
  | none h1 => subst h1; simp
  | grow name e fix es key h1 h2 h3 h4 h5 h6 =>
    obtain ⟨o1, o2⟩ := old i es h2
    subst h5
    obtain ⟨c, hc, hck⟩ := h6
    refine ⟨?_, fun x hx => ?_⟩
    · rw [List.map_append, List.nodup_append]
      refine ⟨o1, by simp, ?_⟩
      intro a ha b hb
      simp at hb
      subst hb
      exact fun e => h3 (e ▸ ha)
    · rcases List.mem_append.1 hx with hx | hx
      · exact o2 x hx
      · simp at hx
        subst hx
        exact ⟨hck ▸ hn.2 i name e fix c h1 hc, h4, c, hc, hck⟩
  | dup g h1 h2 h3 => exact old g es' h3
  | back k h1 h2 => exact old k es' h2

theorem keyed_run {w : World} (hok : Ok w) (h : KeyedW w) (ops : List Op) (hn : KeepAllNames w ops) : KeyedW (run w ops) := by
  induction ops generalizing w with
  | nil => exact h
  | cons op ops ih => exact ih (ok_step hok op) (keyed_step hok h op hn.1) hn.2

theorem leafElem_name (name : Str) (pb : PenBrush) (m : Mat3 ℝ) (l : Leaf) : (leafElem name pb m l).hdr.name = name := by
  cases l <;> rfl

theorem leafElem_keyed (name : Str) (pb : PenBrush) (m : Mat3 ℝ) (l : Leaf) : Elem.Keyed (leafElem name pb m l) := by
  cases l <;> simp [leafElem, Elem.Keyed]

theorem tree_keyed {w : World} (h : KeyedW w) {n i : ℕ} {e : Elem} (he : tree w n i = some e) :
    Elem.Keyed e ∧ ∃ it, w.items[i]? = some it ∧ e.hdr.name = it.name := by
  induction n generalizing i e with
  | zero => simp [tree] at he
  | succ n ih =>
    obtain ⟨k, it, x, hn, hi, hx, ⟨l, hb, rfl⟩ | ⟨hd, es, ts, hb, hk, rfl⟩⟩ := tree_parts he
    · exact ⟨leafElem_keyed _ _ _ _, it, hi, leafElem_name _ _ _ _⟩
    · obtain rfl : n = k := by omega
      obtain ⟨h1, h2⟩ := h i es ⟨it, hd, hi, hb⟩
      refine ⟨?_, it, hi, rfl⟩
      have : ∀ (es : List (Str × ℕ)) (ts : List (Str × Elem)), kids (tree w n) es = some ts →
          (∀ x ∈ es, x.1 ≠ [] ∧ '.' ∉ x.1 ∧ ∃ c, w.items[x.2]? = some c ∧ c.name = x.1) →
          ts.map Prod.fst = es.map Prod.fst ∧ Elem.KeyedAll ts := by
        intro es
        induction es with
        | nil => intro ts h _; cases h; exact ⟨rfl, trivial⟩
        | cons y es ih2 =>
          obtain ⟨k, j⟩ := y
          intro ts h hy
          simp only [kids] at h
          split at h
          · rename_i t ts' h3 h4
            cases h
            obtain ⟨i1, i2⟩ := ih2 ts' h4 fun x hx => hy x (by simp [hx])
            obtain ⟨q1, q2, c, q3, q4⟩ := hy (k, j) (by simp)
            obtain ⟨r1, it', r2, r3⟩ := ih h3
            simp only at q3
            rw [q3] at r2
            cases r2
            refine ⟨by simp [i1], ?_⟩
            simp only [Elem.KeyedAll]
            exact ⟨⟨by rw [r3, q4], q1, q2, r1⟩, i2⟩
          · cases h
      obtain ⟨t1, t2⟩ := this es ts hk h2
      simp only [Elem.Keyed]
      exact ⟨t1 ▸ h1, t2⟩

/-! ### Histories -/

theorem alike_trans {w w' w'' : World} {j : ℕ} (h : Alike w w' j) (h' : Alike w' w'' j) : Alike w w'' j := by
  intro it hi
  obtain ⟨a, a1, a2, a3, a4, a5⟩ := h it hi
  obtain ⟨b, b1, b2, b3, b4, b5⟩ := h' a a1
  exact ⟨b, b1, b2.trans a2, b3.trans a3, b4.trans a4, by rw [← a5, ← a4]; exact b5⟩

theorem alike_run {w : World} (h : Ok w) {j : ℕ} (ops : List Op) (hs : Spared j w ops) : Alike w (run w ops) j := by
  induction ops generalizing w with
  | nil => exact alike_refl w j
  | cons op ops ih => exact alike_trans (alike_step h op j hs.1) (ih (ok_step h op) hs.2)

theorem holds_alike {w w' : World} {g : ℕ} {hd : Bool} {es : List (Str × ℕ)} {x : Mat3 ℝ} (h : Holds w g hd es x) (ha : Alike w w' g) :
    Holds w' g hd es x := by
  obtain ⟨it, h1, h2, h3⟩ := h
  obtain ⟨b, b1, b2, b3, b4, b5⟩ := ha it h1
  exact ⟨b, b1, b2.trans h2, by rw [b4, b5, h3]⟩

theorem holds_lt {w : World} {g : ℕ} {hd : Bool} {es : List (Str × ℕ)} {x : Mat3 ℝ} (h : Holds w g hd es x) : g < w.items.length := by
  obtain ⟨it, h1, -⟩ := h
  exact lt_of_some h1

theorem pic_zero (cfg : DCfg) (w : World) (i : ℕ) (m : Mat3 ℝ) : pic cfg w 0 i m = .error .recursion := rfl

/-- Two groups with the same elements, the matrix of the second one being `M` times that of the first. -/
theorem pic_twin (cfg : DCfg) {w : World} {a b : ℕ} {hd : Bool} {es : List (Str × ℕ)} {x M : Mat3 ℝ} (ha : Holds w a hd es x)
    (hb : Holds w b hd es (M.mul x)) (n : ℕ) (m : Mat3 ℝ) : pic cfg w n b m = pic cfg w n a (m.mul M) := by
  obtain ⟨ia, a1, a2, a3⟩ := ha
  obtain ⟨ib, b1, b2, b3⟩ := hb
  cases n with
  | zero => rfl
  | succ n =>
    cases hd with
    | true => rw [pic_hidden cfg a1 a3 a2, pic_hidden cfg b1 b3 b2]
    | false => rw [pic_group cfg a1 a3 a2, pic_group cfg b1 b3 b2, Mat3.mul_assoc']

end X7.GH
