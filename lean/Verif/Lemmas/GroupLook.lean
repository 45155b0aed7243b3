import Verif.Spec.GroupLook
import Verif.Lemmas.GroupHeap
import Verif.Lemmas.ElemNames
import Mathlib.Data.Set.Card

noncomputable section

namespace X7.GL
open X7.GH Relation

/-! ### Trees -/

theorem boxAll_kids {f : ℕ → Except PyErr (BBox ℝ)} {t : ℕ → Option Elem} (h : ∀ i e, t i = some e → f i = e.bbox) (es : List (Str × ℕ))
    (ts : List (Str × Elem)) (hk : kids t es = some ts) (acc : BBox ℝ) : boxAll f es acc = Elem.bboxAll ts acc := by
  induction es generalizing ts acc with
  | nil => cases hk; simp [boxAll, Elem.bboxAll]
  | cons y es ih =>
    obtain ⟨k, j⟩ := y
    simp only [kids] at hk
    split at hk
    · rename_i e es' h1 h2
      cases hk
      simp only [boxAll, Elem.bboxAll, h j e h1, Elem.bbox]
      split
      · rename_i h3; simp [h3]
      · rename_i h3; simp [h3, ih _ h2]
    · cases hk

theorem kids_isEmpty {t : ℕ → Option Elem} {es : List (Str × ℕ)} {ts : List (Str × Elem)} (hk : kids t es = some ts) : ts.isEmpty = es.isEmpty := by
  cases es with
  | nil => cases hk; rfl
  | cons y es =>
    simp only [kids] at hk
    split at hk
    · cases hk; rfl
    · cases hk

theorem box_tree {w : World} {n i : ℕ} {e : Elem} (h : tree w n i = some e) : box w n i = e.bbox := by
  induction n generalizing i e with
  | zero => simp [tree] at h
  | succ n ih =>
    obtain ⟨k, it, x, hn, hi, hx, ⟨l, hb, rfl⟩ | ⟨hd, es, ts, hb, hk, rfl⟩⟩ := tree_parts h
    · simp only [box, hi, hx, hb]
    · obtain rfl : n = k := by omega
      simp only [box, hi, hx, hb, Elem.bbox, Elem.bboxInt, Elem.hdr, kids_isEmpty hk]
      rw [boxAll_kids (fun i e => ih) es ts hk]

theorem curvesAll_kids {f : ℕ → Except PyErr (List (Hdr × List (CP ℝ)))} {t : ℕ → Option Elem} (h : ∀ i e, t i = some e → f i = e.asCurves)
    (es : List (Str × ℕ)) (ts : List (Str × Elem)) (hk : kids t es = some ts) : curvesAll f es = Elem.asCurvesAll ts := by
  induction es generalizing ts with
  | nil => cases hk; simp [curvesAll, Elem.asCurvesAll]
  | cons y es ih =>
    obtain ⟨k, j⟩ := y
    simp only [kids] at hk
    split at hk
    · rename_i e es' h1 h2
      cases hk
      simp only [curvesAll, Elem.asCurvesAll, h j e h1, ih _ h2]
      rfl
    · cases hk

theorem curves_tree {w : World} {n i : ℕ} {e : Elem} (h : tree w n i = some e) : curves w n i = e.asCurves := by
  induction n generalizing i e with
  | zero => simp [tree] at h
  | succ n ih =>
    obtain ⟨k, it, x, hn, hi, hx, ⟨l, hb, rfl⟩ | ⟨hd, es, ts, hb, hk, rfl⟩⟩ := tree_parts h
    · simp only [curves, hi, hx, hb]
    · obtain rfl : n = k := by omega
      simp only [curves, hi, hx, hb, Elem.asCurves]
      rw [curvesAll_kids (fun i e => ih) es ts hk]
      rfl

theorem values_append {f : ℕ → Option Elem} {a b : List Item'} {ta tb : List Elem.Yield} (ha : values f a = some ta) (hb : values f b = some tb) :
    values f (a ++ b) = some (ta ++ tb) := by
  induction a generalizing ta with
  | nil => cases ha; exact hb
  | cons y ys ih =>
    simp only [values] at ha
    split at ha
    · rename_i t ts h1 h2
      cases ha
      simp [values, h1, ih h2]
    · cases ha

theorem values_mono {f f' : ℕ → Option Elem} (h : ∀ i t, f i = some t → f' i = some t) {a : List Item'} {ta : List Elem.Yield}
    (ha : values f a = some ta) : values f' a = some ta := by
  induction a generalizing ta with
  | nil => exact ha
  | cons y ys ih =>
    simp only [values] at ha
    split at ha
    · rename_i t ts h1 h2
      cases ha
      simp [values, h _ _ h1, ih h2]
    · cases ha

/-- The runs of two generators, one on objects, one on values, are the same. -/
def SameRun (f : ℕ → Option Elem) (a : Gen) (b : Elem.Gen) : Prop := values f a.items = some b.items ∧ a.mat = b.mat ∧ a.err = b.err

theorem iterAll_kids {f : ℕ → Option Str → TState → Gen} {t v : ℕ → Option Elem}
    (h : ∀ i e, t i = some e → ∀ root m, SameRun v (f i root m) (e.iterElems root m)) (es : List (Str × ℕ)) (ts : List (Str × Elem))
    (hk : kids t es = some ts) (root : Str) (m : TState) : SameRun v (iterAll f es root m) (Elem.iterAll ts root m) := by
  induction es generalizing ts m with
  | nil => cases hk; exact ⟨rfl, by simp [iterAll, Elem.iterAll], by simp [iterAll, Elem.iterAll]⟩
  | cons y es ih =>
    obtain ⟨k, j⟩ := y
    simp only [kids] at hk
    split at hk
    · rename_i e es' h1 h2
      cases hk
      obtain ⟨a1, a2, a3⟩ := h j e h1 (some root) m
      simp only [iterAll, Elem.iterAll]
      rw [a3]
      cases he : (e.iterElems (some root) m).err with
      | some er => exact ⟨a1, a2, rfl⟩
      | none =>
        obtain ⟨b1, b2, b3⟩ := ih _ h2 (f j (some root) m).mat
        rw [a2] at b1 b2 b3
        simp only [a2]
        exact ⟨values_append a1 b1, b2, b3⟩
    · cases hk

theorem iter_leafElem {it : Item} {x : Mat3 ℝ} {l : Leaf} (root : Option Str) (m : TState) :
    (leafElem it.name it.pb x l).iterElems root m = Elem.iterLeaf (leafElem it.name it.pb x l) root m := by
  cases l <;> simp [leafElem, Elem.iterElems]

theorem iter_tree {w : World} {n i : ℕ} {e : Elem} (h : tree w n i = some e) (root : Option Str) (m : TState) :
    SameRun (tree w n) (iter w n i root m) (e.iterElems root m) := by
  induction n generalizing i e root m with
  | zero => simp [tree] at h
  | succ n ih =>
    have hh := h
    obtain ⟨k, it, x, hn, hi, hx, ⟨l, hb, rfl⟩ | ⟨hd, es, ts, hb, hk, rfl⟩⟩ := tree_parts h
    · rw [iter_leafElem]
      simp only [iter, hi, hx, hb]
      cases root with
      | none => exact ⟨rfl, rfl, rfl⟩
      | some r => exact ⟨by simp [values, hh, Elem.iterLeaf, leafElem_name], rfl, rfl⟩
    · obtain rfl : n = k := by omega
      obtain ⟨a1, a2, a3⟩ := iterAll_kids (f := iter w n) (t := tree w n) (v := tree w (n + 1)) (fun i e he root m => by
        obtain ⟨b1, b2, b3⟩ := ih he root m
        exact ⟨values_mono (fun i t => tree_mono) b1, b2, b3⟩) es ts hk (Elem.rootName root it.name) (m.push.compose x)
      simp only [iter, hi, hx, hb, Elem.iterElems]
      rw [a3]
      cases (Elem.iterAll ts (Elem.rootName root it.name) (m.push.compose x)).err with
      | some er => exact ⟨a1, a2, rfl⟩
      | none =>
        simp only [a2]
        exact ⟨a1, rfl, rfl⟩

theorem isGroup_leafElem {it : Item} {x : Mat3 ℝ} {l : Leaf} : Elem.isGroup (leafElem it.name it.pb x l) = false := by
  cases l <;> rfl

theorem lookup_leafElem {it : Item} {x : Mat3 ℝ} {l : Leaf} (tag : Str) : (leafElem it.name it.pb x l).lookup tag = .error .attribute := by
  cases l <;> simp [leafElem, Elem.lookup]

/-- What was found on objects and on values is the same. -/
def SameFound (f : ℕ → Option Elem) : Except PyErr ℕ → Except PyErr Elem → Prop
  | .ok j, .ok t => f j = some t
  | .error a, .error b => a = b
  | _, _ => False

theorem lookup_tree {w : World} {n i : ℕ} {e : Elem} (h : tree w n i = some e) (tag : Str) : SameFound (tree w n) (lookup w n i tag) (e.lookup tag) := by
  induction n generalizing i e tag with
  | zero => simp [tree] at h
  | succ n ih =>
    obtain ⟨k, it, x, hn, hi, hx, ⟨l, hb, rfl⟩ | ⟨hd, es, ts, hb, hk, rfl⟩⟩ := tree_parts h
    · simp only [lookup, hi, hb, lookup_leafElem]
      rfl
    · obtain rfl : n = k := by omega
      simp only [lookup, hi, hb, Elem.lookup]
      generalize (partitionDot tag).1 = head
      generalize (partitionDot tag).2 = tail
      clear h hb
      induction es generalizing ts with
      | nil => cases hk; simp only [List.find?_nil, Elem.lookupAll]; rfl
      | cons y es ih2 =>
        obtain ⟨k, j⟩ := y
        simp only [kids] at hk
        split at hk
        · rename_i t es' h1 h2
          cases hk
          simp only [Elem.lookupAll]
          by_cases hkh : k = head
          · simp only [List.find?_cons, hkh, decide_true, if_true]
            by_cases ht : tail = []
            · simp only [ht, ne_eq, not_true, if_false]
              exact tree_mono h1
            · simp only [ht, ne_eq, not_false_eq_true, if_true]
              obtain ⟨k', it', x', hn', hi', hx', ⟨l', hb', rfl⟩ | ⟨hd', es'', ts', hb', hk', rfl⟩⟩ := tree_parts h1
              · simp only [hi', Option.map_some, hb', isGroup_leafElem]
                rfl
              · simp only [hi', Option.map_some, hb', Elem.isGroup, if_true]
                have := ih h1 tail
                revert this
                generalize lookup w n j tail = r1
                generalize Elem.lookup _ tail = r2
                intro this
                cases r1 <;> cases r2 <;> simp only [SameFound] at this ⊢
                · exact this
                · exact tree_mono this
          · simp only [List.find?_cons, hkh, decide_false, if_false]
            exact ih2 _ h2
        · cases hk

/-! ### Groups in themselves -/

theorem cycle_never {w : World} {P : ℕ → ℕ → Prop} (hd : ∀ n a b, P n a → Child w a b → ∃ k, k < n ∧ P k b) {a j : ℕ} (hj : Within w a j)
    (hc : TransGen (Child w) j j) (n : ℕ) : ¬ P n a := by
  have trans : ∀ n a b, P n a → TransGen (Child w) a b → ∃ k, k < n ∧ P k b := by
    intro n a b h hab
    induction hab with
    | single h1 => exact hd n a _ h h1
    | tail _ h2 ih =>
      obtain ⟨k, hk, h3⟩ := ih
      obtain ⟨k', hk', h4⟩ := hd k _ _ h3 h2
      exact ⟨k', by omega, h4⟩
  have cyc : ∀ n, ¬ P n j := by
    intro n
    induction n using Nat.strong_induction_on with
    | _ n ih =>
      intro h
      obtain ⟨k, hk, h2⟩ := trans n j j h hc
      exact ih k hk h2
  intro h
  rcases reflTransGen_iff_eq_or_transGen.1 hj with rfl | hj
  · exact cyc n h
  · obtain ⟨k, -, h2⟩ := trans n a j h hj
    exact cyc k h2

theorem boxAll_ok {f : ℕ → Except PyErr (BBox ℝ)} {es : List (Str × ℕ)} {acc b : BBox ℝ} (h : boxAll f es acc = .ok b) :
    ∀ x ∈ es, ∃ c, f x.2 = .ok c := by
  induction es generalizing acc with
  | nil => simp
  | cons y es ih =>
    simp only [boxAll] at h
    split at h
    · cases h
    · rename_i bb hb
      intro x hx
      rcases List.mem_cons.1 hx with rfl | hx
      · exact ⟨bb, hb⟩
      · exact ih h x hx

theorem box_down {w : World} (n a b : ℕ) (h : ∃ c, box w n a = .ok c) (hab : Child w a b) : ∃ k, k < n ∧ ∃ c, box w k b = .ok c := by
  obtain ⟨it, hd, es, key, h1, h2, h3⟩ := hab
  obtain ⟨c, h⟩ := h
  cases n with
  | zero => cases h
  | succ n =>
    simp only [box, h1, h2] at h
    split at h
    · cases h
    · have he : es.isEmpty = false := by cases es <;> simp_all
      simp only [he, Bool.false_eq_true, if_false] at h
      cases hb : boxAll (box w n) es .none with
      | error er => rw [hb] at h; cases h
      | ok bb => exact ⟨n, by omega, boxAll_ok hb _ h3⟩

theorem curvesAll_ok {f : ℕ → Except PyErr (List (Hdr × List (CP ℝ)))} {es : List (Str × ℕ)} {cs : List (Hdr × List (CP ℝ))}
    (h : curvesAll f es = .ok cs) : ∀ x ∈ es, ∃ c, f x.2 = .ok c := by
  induction es generalizing cs with
  | nil => simp
  | cons y es ih =>
    simp only [curvesAll] at h
    split at h
    · cases h
    · rename_i bb hb
      split at h
      · cases h
      · rename_i ds hds
        intro x hx
        rcases List.mem_cons.1 hx with rfl | hx
        · exact ⟨bb, hb⟩
        · exact ih hds x hx

theorem curves_down {w : World} (n a b : ℕ) (h : ∃ c, curves w n a = .ok c) (hab : Child w a b) : ∃ k, k < n ∧ ∃ c, curves w k b = .ok c := by
  obtain ⟨it, hd, es, key, h1, h2, h3⟩ := hab
  obtain ⟨c, h⟩ := h
  cases n with
  | zero => cases h
  | succ n =>
    simp only [curves, h1, h2] at h
    split at h
    · cases h
    · split at h
      · cases h
      · rename_i cs hc
        exact ⟨n, by omega, curvesAll_ok hc _ h3⟩

theorem iterAll_ok' {f : ℕ → Option Str → TState → Gen} {es : List (Str × ℕ)} {root : Str} {m : TState} (h : (iterAll f es root m).err = none) :
    ∀ x ∈ es, ∃ root m, (f x.2 root m).err = none := by
  induction es generalizing m with
  | nil => simp
  | cons y es ih =>
    simp only [iterAll] at h
    split at h
    · cases h
    · rename_i hb
      intro x hx
      rcases List.mem_cons.1 hx with rfl | hx
      · exact ⟨_, _, hb⟩
      · exact ih h x hx

theorem iter_down {w : World} (n a b : ℕ) (h : ∃ root m, (iter w n a root m).err = none) (hab : Child w a b) :
    ∃ k, k < n ∧ ∃ root m, (iter w k b root m).err = none := by
  obtain ⟨it, hd, es, key, h1, h2, h3⟩ := hab
  obtain ⟨root, m, h⟩ := h
  cases n with
  | zero => cases h
  | succ n =>
    simp only [iter, h1, h2] at h
    split at h
    · cases h
    · split at h
      · cases h
      · rename_i hc
        exact ⟨n, by omega, iterAll_ok' hc _ h3⟩

/-! ### Lookup -/

theorem elems_some {w : World} {i : ℕ} {es : List (Str × ℕ)} (h : elems w i = some es) : ∃ it hd, w.items[i]? = some it ∧ it.body = .group hd es := by
  simp only [elems] at h
  split at h
  · rename_i it hi
    split at h
    · rename_i hd es' hb
      cases h
      exact ⟨it, hd, hi, hb⟩
    · cases h
  · cases h

theorem elems_none {w : World} {i : ℕ} (h : elems w i = none) : ∀ it hd es, w.items[i]? = some it → it.body ≠ .group hd es := by
  intro it hd es hi hb
  simp [elems, hi, hb] at h

theorem elems_group {w : World} {i : ℕ} {it : Item} {hd : Bool} {es : List (Str × ℕ)} (hi : w.items[i]? = some it) (hb : it.body = .group hd es) :
    elems w i = some es := by
  simp [elems, hi, hb]

theorem joinDots_cons_cons (k k' : Str) (ks : List Str) : Elem.joinDots (k :: k' :: ks) = k ++ '.' :: Elem.joinDots (k' :: ks) := rfl

theorem joinDots_ne {k : Str} {ks : List Str} (hk : k ≠ []) : Elem.joinDots (k :: ks) ≠ [] := by
  cases ks with
  | nil => exact hk
  | cons k' ks => simp [joinDots_cons_cons]

theorem lookup_follow {w : World} (ks : List Str) (k : Str) (n g : ℕ) (hn : ks.length < n) (hg : ∃ es, elems w g = some es)
    (hc : ∀ c ∈ k :: ks, c ≠ [] ∧ '.' ∉ c) :
    (∀ j, lookup w n g (Elem.joinDots (k :: ks)) = .ok j ↔ follow w g (k :: ks) = some j) ∧
    ∀ er, lookup w n g (Elem.joinDots (k :: ks)) = .error er → er = .key ∨ er = .value := by
  induction ks generalizing k n g with
  | nil =>
    obtain ⟨n, rfl⟩ : ∃ m, n = m + 1 := ⟨n - 1, by omega⟩
    obtain ⟨es, hes⟩ := hg
    obtain ⟨it, hd, hi, hb⟩ := elems_some hes
    have hk : '.' ∉ k := (hc k (by simp)).2
    simp only [lookup, hi, hb, Elem.joinDots, follow, hes, Elem.partitionDot_none hk]
    cases hf : es.find? fun x => decide (x.1 = k) with
    | none => simp
    | some y => simp
  | cons k' ks ih =>
    obtain ⟨n, rfl⟩ : ∃ m, n = m + 1 := ⟨n - 1, by omega⟩
    obtain ⟨es, hes⟩ := hg
    obtain ⟨it, hd, hi, hb⟩ := elems_some hes
    have hk : '.' ∉ k := (hc k (by simp)).2
    have hne : Elem.joinDots (k' :: ks) ≠ [] := joinDots_ne (hc k' (by simp)).1
    rw [joinDots_cons_cons, follow]
    simp only [lookup, hi, hb, hes, Elem.partitionDot_cons hk]
    cases hf : es.find? fun x => decide (x.1 = k) with
    | none => simp
    | some y =>
      obtain ⟨ky, j'⟩ := y
      simp only [hne, ne_eq, not_false_eq_true, if_true]
      cases hj : elems w j' with
      | none =>
        simp only [follow, hj]
        cases hi' : w.items[j']? with
        | none => simp
        | some it' =>
          cases hb' : it'.body with
          | leaf l => simp [hb']
          | group hd' es' => exact absurd hb' (elems_none hj it' hd' es' hi')
      | some es' =>
        obtain ⟨it', hd', hi', hb'⟩ := elems_some hj
        simp only [hi', Option.map_some, hb']
        exact ih k' n j' (by simp at hn; omega) ⟨es', hj⟩ fun c hc' => hc c (List.mem_cons_of_mem _ hc')

end X7.GL
