import Verif.Lemmas.ElemNames
import Verif.Props.Elem

/-!
C43 (`iter_elems`, `lookup`) and C44 (`replace`).
-/

namespace X7.Elem

/-! ### C43 -/

/-- C43: `iter_elems` on a group runs to its end without an exception, gives back the matrix as it found it, and lists every part
of the tree in order, each under its components joined by dots and with the product of the transforms around it. -/
theorem C43_iter (h : Hdr) (hidden : Bool) (es : List (Str × Elem)) (m : TState) (hn : Named (.group h hidden es)) :
    let g := iterElems (.group h hidden es) none m
    g.err = none ∧ g.mat.mat = m.mat ∧ g.mat.stack = m.stack ∧
      g.items.map (fun y => (y.name, y.elem, y.mat.mat)) =
        (parts (.group h hidden es)).map fun p => (joinDots p.1, p.2.2, p.2.1.foldl Mat3.mul m.mat) := by
  simp only [Named] at hn
  obtain ⟨h1, h2, h3, h4⟩ := iterAll_ok es h.name (m.push.compose h.xf) hn.2 hn.1
  obtain ⟨k1, k2, k3⟩ := push_compose_pop m _ h.xf h3
  simp only [iterElems, rootName, h1]
  refine ⟨k1, k2, k3, ?_⟩
  rw [h4]
  simp only [parts, List.map_map]
  refine List.map_congr_left fun p hp => ?_
  simp only [Function.comp, joinDots_cons _ (partsAll_ne es p hp), List.foldl_cons]
  simp [TState.compose, TState.push]

mutual
theorem keyed_named : (e : Elem) → Keyed e → e.hdr.name ≠ [] → Named e
  | .curve h x, _, _ => trivial
  | .rect h x y, _, _ => trivial
  | .rrect h x y z, _, _ => trivial
  | .ellipse h x y, _, _ => trivial
  | .group h hd es, hk, hn => by
    simp only [Keyed] at hk
    simp only [Named]
    exact ⟨hn, keyed_namedAll es hk.2⟩
theorem keyed_namedAll : (es : List (Str × Elem)) → KeyedAll es → NamedAll es
  | [], _ => trivial
  | (k, e) :: rest, hk => by
    simp only [KeyedAll] at hk
    simp only [NamedAll]
    exact ⟨keyed_named e hk.1.2.2.2 (hk.1.1 ▸ hk.1.2.1), keyed_namedAll rest hk.2⟩
end

/-- C43: in a tree as `Group.add` builds it, the names listed by `iter_elems` are pairwise distinct, and looking up each one, less
the name of the group itself, gives the element listed with it. -/
theorem C43_names (h : Hdr) (hidden : Bool) (es : List (Str × Elem)) (m : TState) (hk : Keyed (.group h hidden es))
    (hr : h.name ≠ []) :
    let g := iterElems (.group h hidden es) none m
    (g.items.map Yield.name).Nodup ∧
      ∀ y ∈ g.items, ∃ tag, y.name = h.name ++ '.' :: tag ∧ lookup (.group h hidden es) tag = .ok y.elem := by
  intro g
  obtain ⟨-, -, -, hg⟩ := C43_iter h hidden es m (keyed_named _ hk hr)
  obtain ⟨hp, hd⟩ := keyed_parts _ hk
  have hcomp : ∀ p ∈ parts (.group h hidden es), ∃ k ks, p.1 = h.name :: k :: ks ∧ (∀ c ∈ k :: ks, c ≠ [] ∧ '.' ∉ c) ∧
      find (.group h hidden es) (k :: ks) = some p.2.2 := by
    intro p hpm
    obtain ⟨cs, c1, c2, c3⟩ := hp p hpm
    have hne : cs ≠ [] := by
      simp only [parts, List.mem_map] at hpm
      obtain ⟨q, hq, rfl⟩ := hpm
      have := partsAll_ne es q hq
      simp only [hdr, List.cons.injEq, true_and] at c1
      rwa [← c1]
    obtain ⟨k, ks, rfl⟩ := List.exists_cons_of_ne_nil hne
    exact ⟨k, ks, c1, c2, c3⟩
  constructor
  · have hnames : g.items.map Yield.name = (parts (.group h hidden es)).map fun p => joinDots p.1 := by
      have := congrArg (List.map Prod.fst) hg
      rw [List.map_map, List.map_map] at this
      exact this
    rw [hnames, List.Nodup, List.pairwise_map]
    refine hd.imp_of_mem ?_
    intro p q hpm hqm hne he
    obtain ⟨k, ks, c1, c2, -⟩ := hcomp p hpm
    obtain ⟨l, ls, d1, d2, -⟩ := hcomp q hqm
    apply hne
    rw [c1, d1] at he ⊢
    rw [joinDots_cons _ (List.cons_ne_nil _ _), joinDots_cons _ (List.cons_ne_nil _ _)] at he
    have := List.append_cancel_left he
    injection this with _ h2
    rw [joinDots_inj (by simp) (by simp) (fun c hc => (c2 c hc).2) (fun c hc => (d2 c hc).2) h2]
  · intro y hy
    have hm : (y.name, y.elem, y.mat.mat) ∈ g.items.map (fun y => (y.name, y.elem, y.mat.mat)) :=
      List.mem_map_of_mem (f := fun y : Yield => (y.name, y.elem, y.mat.mat)) hy
    rw [hg] at hm
    obtain ⟨p, hpm, he⟩ := List.mem_map.1 hm
    simp only [Prod.mk.injEq] at he
    obtain ⟨k, ks, c1, c2, c3⟩ := hcomp p hpm
    refine ⟨joinDots (k :: ks), ?_, ?_⟩
    · rw [← he.1, c1, joinDots_cons _ (List.cons_ne_nil _ _)]
    · rw [← he.2.1]
      exact (lookup_find _ rfl k ks c2 _).2 c3

/-- C43: looking up non-empty dot-free components joined by dots finds exactly the element reached by going down along them. -/
theorem C43_lookup (e : Elem) (hg : isGroup e = true) (k : Str) (ks : List Str) (hc : ∀ c ∈ k :: ks, c ≠ [] ∧ '.' ∉ c) (r : Elem) :
    lookup e (joinDots (k :: ks)) = .ok r ↔ find e (k :: ks) = some r :=
  lookup_find e hg k ks hc r

mutual
theorem lookup_error : (e : Elem) → isGroup e = true → (tag : Str) → ∀ er, lookup e tag = .error er → er = .key ∨ er = .value
  | .group h hd es, _, tag, er, he => lookupAll_error es _ _ er (by simpa only [lookup] using he)
theorem lookupAll_error : (es : List (Str × Elem)) → (k t : Str) → ∀ er, lookupAll es k t = .error er → er = .key ∨ er = .value
  | [], k, t, er, he => by simp only [lookupAll] at he; injection he with he; exact .inl he.symm
  | (k', e) :: rest, k, t, er, he => by
    simp only [lookupAll] at he
    split at he
    · split at he
      · split at he
        · rename_i hg; exact lookup_error e hg t er he
        · injection he with he; exact .inr he.symm
      · simp at he
    · exact lookupAll_error rest k t er he
end

/-- C43: a name that is not there raises `KeyError`, or `ValueError` when it goes on below an element that is not a group. -/
theorem C43_unknown (e : Elem) (hg : isGroup e = true) (k : Str) (ks : List Str) (hc : ∀ c ∈ k :: ks, c ≠ [] ∧ '.' ∉ c)
    (hf : find e (k :: ks) = none) :
    lookup e (joinDots (k :: ks)) = .error .key ∨ lookup e (joinDots (k :: ks)) = .error .value := by
  cases hl : lookup e (joinDots (k :: ks)) with
  | ok r => rw [(lookup_find e hg k ks hc r).1 hl] at hf; simp at hf
  | error er => rcases lookup_error e hg _ er hl with rfl | rfl <;> simp

/-- C43: a dot at the end of a name is ignored: the name of a child with a dot appended finds the child. -/
theorem C43_trailing_dot (h : Hdr) (hidden : Bool) (es : List (Str × Elem)) (k : Str) (hk : '.' ∉ k) :
    lookup (.group h hidden es) (k ++ ['.']) = lookup (.group h hidden es) k := by
  simp only [lookup, partitionDot_none hk, partitionDot_cons hk]

/-- C43: `lookup` on a shape with holes itself: `outside.<name of the outside>` finds the outside, `inside.<name>` the first hole of
that name (with an empty name the dot may be left out), and every other tag raises `KeyError`. -/
theorem C43_holes_lookup (h : Hdr) (o : Elem) (i : List Elem) (tag : Str) (r : Elem) :
    (lookup (.holes h o i) tag = .ok r ↔
      (r = o ∧ (tag = "outside.".toList ++ o.hdr.name ∨ tag = "outside".toList ∧ o.hdr.name = [])) ∨
      ((∃ l l', i = l ++ r :: l' ∧ ∀ e ∈ l, e.hdr.name ≠ r.hdr.name) ∧
        (tag = "inside.".toList ++ r.hdr.name ∨ tag = "inside".toList ∧ r.hdr.name = []))) ∧
    (∀ er, lookup (.holes h o i) tag = .error er → er = .key) := by
  have ho : '.' ∉ "outside".toList := by decide
  have hi : '.' ∉ "inside".toList := by decide
  have key : ∀ (w : Str), '.' ∉ w → ∀ nm : Str,
      ((partitionDot tag).1 = w ∧ (partitionDot tag).2 = nm) ↔ (tag = w ++ '.' :: nm ∨ tag = w ∧ nm = []) := by
    intro w hw nm
    constructor
    · rintro ⟨h1, h2⟩
      by_cases hd : '.' ∈ tag
      · obtain ⟨a, b, hab, hna⟩ := List.eq_append_cons_of_mem hd
        subst hab
        rw [partitionDot_cons hna] at h1 h2
        subst h1 h2
        exact .inl rfl
      · rw [partitionDot_none hd] at h1 h2
        exact .inr ⟨h1, h2.symm⟩
    · rintro (rfl | ⟨rfl, rfl⟩)
      · rw [partitionDot_cons hw]; exact ⟨rfl, rfl⟩
      · rw [partitionDot_none hw]; exact ⟨rfl, rfl⟩
  have ko := key _ ho o.hdr.name
  have ki := key _ hi r.hdr.name
  have e1 : "outside.".toList ++ o.hdr.name = "outside".toList ++ '.' :: o.hdr.name := rfl
  have e2 : "inside.".toList ++ r.hdr.name = "inside".toList ++ '.' :: r.hdr.name := rfl
  rw [e1, e2, ← ko, ← ki]
  have hne : "outside".toList ≠ "inside".toList := by decide
  simp only [lookup, lookupHoles]
  generalize (partitionDot tag).1 = a at *
  generalize (partitionDot tag).2 = b at *
  generalize "outside".toList = out at *
  generalize "inside".toList = ins at *
  by_cases ha : a = out
  · subst ha
    rw [if_pos rfl]
    by_cases hb : b = o.hdr.name
    · subst hb
      simp [hne, eq_comm]
    · simp [hb, hne]
  · rw [if_neg ha]
    by_cases hb : a = ins
    · subst hb
      rw [if_pos rfl]
      cases hf : i.find? fun e => b = e.hdr.name with
      | none =>
        rw [List.find?_eq_none] at hf
        refine ⟨⟨fun he => (by simp at he), ?_⟩, fun er he => by simpa using he.symm⟩
        rintro (⟨-, h1, -⟩ | ⟨⟨l, l', rfl, -⟩, -, h2⟩)
        · exact absurd h1 ha
        · exact absurd (hf r (by simp)) (by simp [h2])
      | some e =>
        have hf' := hf
        rw [List.find?_eq_some_iff_append] at hf
        obtain ⟨h1, l, l', h2, h3⟩ := hf
        simp only [decide_eq_true_eq] at h1
        refine ⟨⟨?_, ?_⟩, fun er he => by simp at he⟩
        · intro he
          have he : e = r := by simpa using he
          subst he
          refine .inr ⟨⟨l, l', h2, fun x hx hn => ?_⟩, rfl, h1⟩
          have := h3 x hx
          simp [h1, hn] at this
        · rintro (⟨-, h4, -⟩ | ⟨⟨m, m', h4, h5⟩, -, h6⟩)
          · exact absurd h4 ha
          · have : i.find? (fun e => b = e.hdr.name) = some r := by
              rw [List.find?_eq_some_iff_append]
              refine ⟨by simp [h6], m, m', h4, fun x hx => ?_⟩
              have := h5 x hx
              simp [h6, this.symm]
            rw [hf'] at this
            simpa using this
    · rw [if_neg hb]
      simp [ha, hb]

/-- A shape with a hole: its parts by name. -/
example : lookup (.holes (hdr0 none) (.rect ⟨['o'], ⟨none, none⟩, true, Mat3.one⟩ ⟨0, 0⟩ ⟨4, 4⟩)
      [.ellipse ⟨['h'], ⟨none, none⟩, true, Mat3.one⟩ ⟨1, 1⟩ ⟨2, 2⟩]) "inside.h".toList =
    .ok (.ellipse ⟨['h'], ⟨none, none⟩, true, Mat3.one⟩ ⟨1, 1⟩ ⟨2, 2⟩) :=
  (C43_holes_lookup _ _ _ _ _).1.2 (.inr ⟨⟨[], [], rfl, by simp⟩, .inl rfl⟩)

/-- C43: parts of a shape with holes are listed with an empty component in the name, and looking them up raises. -/
theorem C43_holes_counterexample (m : TState) : ∃ (h : Hdr) (es : List (Str × Elem)) (y : Yield),
    Named (.group h false es) ∧ y ∈ (iterElems (.group h false es) none m).items ∧ y.name = "g.s..outside.x".toList ∧
      lookup (.group h false es) "s..outside.x".toList = .error .value ∧
      lookup (.group h false es) "s.outside.x".toList = .error .value := by
  let s : Elem := .holes ⟨['s'], ⟨none, none⟩, true, Mat3.one⟩ (.rect (hdr0 none) ⟨0, 0⟩ ⟨4, 4⟩) []
  have hn : Named (.group ⟨['g'], ⟨none, none⟩, false, Mat3.one⟩ false [(['s'], s)]) := by
    simp [Named, NamedAll, NamedIn, s]
  have hg := (C43_iter _ false _ m hn).2.2.2
  have hm : ("g.s..outside.x".toList, Elem.rect (hdr0 none) ⟨0, 0⟩ ⟨4, 4⟩,
      [Mat3.one, Mat3.one].foldl Mat3.mul m.mat) ∈ (iterElems (.group ⟨['g'], ⟨none, none⟩, false, Mat3.one⟩ false [(['s'], s)])
        none m).items.map (fun y => (y.name, y.elem, y.mat.mat)) := by
    rw [hg]
    simp [parts, partsAll, partsIn, s, joinDots, hdr0]
  obtain ⟨y, hy, he⟩ := List.mem_map.1 hm
  simp only [Prod.mk.injEq] at he
  refine ⟨_, _, y, hn, hy, he.1, ?_, ?_⟩ <;> simp [lookup, lookupAll, partitionDot, isGroup, s]

/-- C43: the matrix object reported is one shared object: read after the iteration has ended (as from `list(g.iter_elems())`) it no
longer is the transform of the element; and a caller who stops after the first item is left with a longer stack. -/
theorem C43_shared_matrix_counterexample : ∃ (e : Elem) (y : Yield), let g := iterElems e none TState.new
    g.items = [y] ∧ y.mat.mat ≠ g.mat.mat ∧ y.mat.stack ≠ TState.new.stack := by
  refine ⟨.group ⟨['g'], ⟨none, none⟩, false, Mat3.of6 2 0 0 0 2 0⟩ false [(['x'], .rect (hdr0 none) ⟨0, 0⟩ ⟨4, 4⟩)], _, rfl, ?_, ?_⟩
  · simp [iterElems, iterAll, iterLeaf, TState.new, TState.push, TState.compose, TState.pop, Mat3.mul, Mat3.of6, Mat3.one]
  · simp [TState.new, TState.push, TState.compose]

/-- A tree of two levels meets the hypotheses of `C43_names`; one of its names. -/
example : Keyed (.group ⟨['g'], ⟨none, none⟩, false, Mat3.one⟩ false [(['a'], .group ⟨['a'], ⟨none, none⟩, false, Mat3.one⟩ false
      [(['x'], .rect (hdr0 none) ⟨0, 0⟩ ⟨4, 4⟩)]), (['x'], .rect (hdr0 none) ⟨0, 0⟩ ⟨1, 1⟩)]) ∧
    (parts (.group ⟨['g'], ⟨none, none⟩, false, Mat3.one⟩ false [(['a'], .group ⟨['a'], ⟨none, none⟩, false, Mat3.one⟩ false
      [(['x'], .rect (hdr0 none) ⟨0, 0⟩ ⟨4, 4⟩)]), (['x'], .rect (hdr0 none) ⟨0, 0⟩ ⟨1, 1⟩)])).map (fun p => joinDots p.1) =
      ["g.a.x".toList, "g.x".toList] := by
  simp [Keyed, KeyedAll, hdr, hdr0, parts, partsAll, joinDots]

/-! ### C44 -/

section Replace

theorem prod_cases {α β : Type} (x : α × β) : ∃ a b, x = (a, b) := ⟨x.1, x.2, rfl⟩

variable {same : Elem → Bool} {r : Elem}

theorem kept_keys (es : List (Str × Elem)) : (kept same r es).map Prod.fst = (es.filter fun x => !same x.2).map Prod.fst := by
  induction es with
  | nil => rfl
  | cons x rest ih =>
    obtain ⟨k, e⟩ := x
    cases hs : same e <;> simp [kept, hs, ih]

theorem kept_none {es : List (Str × Elem)} (h : es.any (fun x => same x.2) = false) : (kept same r es).map Prod.fst = es.map Prod.fst := by
  rw [kept_keys, List.filter_eq_self.2]
  intro x hx
  have := List.any_eq_false.1 h x hx
  simpa using this

theorem upd_eq {pre rest : List (Str × Elem)} {k : Str} {e e' : Elem} (hn : ((pre ++ (k, e) :: rest).map Prod.fst).Nodup) :
    (pre ++ (k, e) :: rest).map (fun x => if x.1 = k then (k, e') else x) = pre ++ (k, e') :: rest := by
  simp only [List.map_append, List.map_cons, List.nodup_append', List.nodup_cons] at hn
  obtain ⟨-, ⟨h2, -⟩, h3⟩ := hn
  have fix : ∀ l : List (Str × Elem), k ∉ l.map Prod.fst → l.map (fun x => if x.1 = k then (k, e') else x) = l := by
    intro l hl
    conv_rhs => rw [← List.map_id l]
    refine List.map_congr_left fun x hx => ?_
    have : x.1 ≠ k := by rintro rfl; exact hl (List.mem_map_of_mem (f := Prod.fst) hx)
    simp [this]
  rw [List.map_append, List.map_cons, fix pre (fun hk => h3 hk (by simp)), fix rest h2]
  simp

theorem del_eq {pre rest : List (Str × Elem)} {k : Str} {e : Elem} (hn : ((pre ++ (k, e) :: rest).map Prod.fst).Nodup) :
    (pre ++ (k, e) :: rest).filter (fun x => x.1 ≠ k) = pre ++ rest := by
  simp only [List.map_append, List.map_cons, List.nodup_append', List.nodup_cons] at hn
  obtain ⟨-, ⟨h2, -⟩, h3⟩ := hn
  have fix : ∀ l : List (Str × Elem), k ∉ l.map Prod.fst → l.filter (fun x => x.1 ≠ k) = l := by
    intro l hl
    rw [List.filter_eq_self]
    intro x hx
    have : x.1 ≠ k := by rintro rfl; exact hl (List.mem_map_of_mem (f := Prod.fst) hx)
    simp [this]
  rw [List.filter_append, List.filter_cons, fix pre (fun hk => h3 hk (by simp)), fix rest h2]
  simp

mutual
theorem replace_ok : (e : Elem) → Replaceable same r e → replace same r e = (replaced same r e, .ok (hits same e))
  | .curve h x, _ => by simp [replace, replaced, replaceOther, hits]
  | .rect h x y, _ => by simp [replace, replaced, replaceOther, hits]
  | .rrect h x y z, _ => by simp [replace, replaced, replaceOther, hits]
  | .ellipse h x y, _ => by simp [replace, replaced, replaceOther, hits]
  | .group h hd es, hr => by
    simp only [Replaceable] at hr
    obtain ⟨h1, h2, h3, h4⟩ := hr
    have := replaceAll_ok es [] [] (by simpa using h1) h2 (fun hx => ⟨(h3 hx).1, (h3 hx).2, by simp⟩) h4
    simp only [List.nil_append, List.append_nil] at this
    simp only [replace, this, replaced, hits]
theorem replaceAll_ok : (todo pre post : List (Str × Elem)) → ((pre ++ todo ++ post).map Prod.fst).Nodup →
    (todo.filter fun x => same x.2).length ≤ 1 →
    ((∃ x ∈ todo, same x.2 = true) → '.' ∉ r.hdr.name ∧ (∀ x ∈ todo, same x.2 = false → x.1 ≠ r.hdr.name) ∧
      ∀ x ∈ pre ++ post, x.1 ≠ r.hdr.name) → ReplaceableAll same r todo →
    replaceAll same r todo (pre ++ todo ++ post) = (pre ++ kept same r todo ++ post ++
      (if todo.any (fun x => same x.2) then [(r.hdr.name, r)] else []), .ok (hitsAll same todo))
  | [], pre, post, _, _, _, _ => by simp [replaceAll, kept, hitsAll]
  | (k, e) :: rest, pre, post, hn, h1, hx, hr => by
    simp only [ReplaceableAll] at hr
    have hn' : ((pre ++ (k, e) :: (rest ++ post)).map Prod.fst).Nodup := by simpa using hn
    have hasc : pre ++ (k, e) :: rest ++ post = pre ++ (k, e) :: (rest ++ post) := by simp
    cases hs : same e with
    | true =>
      obtain ⟨g1, g2, g3⟩ := hx ⟨(k, e), by simp, hs⟩
      have hnone : rest.any (fun x => same x.2) = false := by
        simp only [List.filter_cons, hs, if_true, List.length_cons] at h1
        have h0 : (rest.filter fun x => same x.2) = [] := List.eq_nil_of_length_eq_zero (by omega)
        rw [List.filter_eq_nil_iff] at h0
        rw [List.any_eq_false]
        exact h0
      have hfree : r.hdr.name ∉ (pre ++ (rest ++ post)).map Prod.fst := by
        intro hm
        obtain ⟨x, hxm, hxe⟩ := List.mem_map.1 hm
        rcases List.mem_append.1 hxm with hh | hh
        · exact g3 x (by simp [hh]) hxe
        · rcases List.mem_append.1 hh with hh | hh
          · exact g2 x (by simp [hh]) (by simpa using List.any_eq_false.1 hnone x hh) hxe
          · exact g3 x (by simp [hh]) hxe
      simp only [replaceAll, hs, if_true, hasc, del_eq hn', hfree, if_false]
      have hdot : hasDot r.hdr.name = false := by
        cases hh : hasDot r.hdr.name with
        | false => rfl
        | true => simp [hasDot] at hh; exact absurd hh g1
      have ih := replaceAll_ok rest pre (post ++ [(r.hdr.name, r)]) (by
          rw [show pre ++ rest ++ (post ++ [(r.hdr.name, r)]) = (pre ++ (rest ++ post)) ++ [(r.hdr.name, r)] by simp,
            List.map_append, List.nodup_append']
          refine ⟨?_, by simp, ?_⟩
          · rw [← del_eq hn']
            exact hn'.sublist (List.Sublist.map _ List.filter_sublist)
          · intro a ha hb
            simp only [List.map_cons, List.map_nil, List.mem_singleton] at hb
            subst hb; exact hfree ha)
        (by
          simp only [List.filter_cons, hs, if_true, List.length_cons] at h1
          omega)
        (by
          rintro ⟨x, hxm, hxs⟩
          have := List.any_eq_false.1 hnone x hxm
          exact absurd hxs this)
        hr.2
      rw [show pre ++ rest ++ (post ++ [(r.hdr.name, r)]) = pre ++ (rest ++ post) ++ [(r.hdr.name, r)] by simp] at ih
      simp only [hdot, Bool.false_eq_true, if_false, ih, kept, hs, if_true, hitsAll, hnone, List.any_cons, Bool.true_or]
      simp [Nat.add_comm]
    | false =>
      have ihe := replace_ok e (hr.1 hs)
      simp only [replaceAll, hs, Bool.false_eq_true, if_false, ihe, hasc, upd_eq hn']
      have ih := replaceAll_ok rest (pre ++ [(k, replaced same r e)]) post (by
          have : (pre ++ [(k, replaced same r e)] ++ rest ++ post).map Prod.fst = (pre ++ (k, e) :: (rest ++ post)).map Prod.fst := by
            simp
          rw [this]; exact hn')
        (by simpa [List.filter_cons, hs] using h1)
        (by
          rintro ⟨x, hxm, hxs⟩
          obtain ⟨g1, g2, g3⟩ := hx ⟨x, by simp [hxm], hxs⟩
          refine ⟨g1, fun y hy => g2 y (by simp [hy]), ?_⟩
          intro y hy
          simp only [List.mem_append, List.mem_singleton] at hy
          rcases hy with (hy | hy) | hy
          · exact g3 y (by simp [hy])
          · rw [hy]; exact g2 (k, e) (by simp) hs
          · exact g3 y (by simp [hy]))
        hr.2
      rw [show pre ++ [(k, replaced same r e)] ++ rest ++ post = pre ++ (k, replaced same r e) :: (rest ++ post) by simp] at ih
      simp only [ih, kept, hs, Bool.false_eq_true, if_false, hitsAll, List.any_cons, Bool.false_or]
      simp
end

/-- C44: if no group has two elements to replace, the name of the replacement is free and dot-free there, and no shape with holes
has to be searched, `replace` returns the number of elements replaced; each of them is gone, the replacement stands at the end of
its group under its own name, and all else is as before. -/
theorem C44_replace (e : Elem) (h : Replaceable same r e) : replace same r e = (replaced same r e, .ok (hits same e)) :=
  replace_ok e h

mutual
theorem replaced_id : (e : Elem) → hits same e = 0 → replaced same r e = e
  | .curve h x, _ => rfl
  | .rect h x y, _ => rfl
  | .rrect h x y z, _ => rfl
  | .ellipse h x y, _ => rfl
  | .holes h o i, _ => rfl
  | .group h hd es, h0 => by
    simp only [hits] at h0
    obtain ⟨h1, h2⟩ := kept_id es h0
    simp [replaced, h1, h2]
theorem kept_id : (es : List (Str × Elem)) → hitsAll same es = 0 → kept same r es = es ∧ es.any (fun x => same x.2) = false
  | [], _ => by simp [kept]
  | (k, e) :: rest, h0 => by
    simp only [hitsAll] at h0
    cases hs : same e with
    | true => simp [hs] at h0
    | false =>
      simp only [hs, Bool.false_eq_true, if_false] at h0
      obtain ⟨h1, h2⟩ := kept_id rest (by omega)
      have h3 := replaced_id e (by omega)
      simp [kept, hs, h1, h3, h2]
end

/-- C44: in particular a tree without an element to replace, and without shapes with holes, is left as it is, and the count
is 0. -/
theorem C44_no_match (e : Elem) (hr : Replaceable same r e) (hno : hits same e = 0) : replace same r e = (e, .ok 0) := by
  rw [C44_replace _ hr, hno, replaced_id e hno]

/-- C44: in a group as `Group.add` builds it, at most one element can be equal to a given one (equal elements have equal names). -/
theorem C44_one_match (es : List (Str × Elem)) (hn : (es.map Prod.fst).Nodup) (hk : KeyedAll es) (name : Str)
    (hsame : ∀ e, same e = true → e.hdr.name = name) : (es.filter fun x => same x.2).length ≤ 1 := by
  have hm := keyedAll_mem hk
  have hsub : ((es.filter fun x => same x.2).map Prod.fst).Nodup := hn.sublist (List.Sublist.map _ List.filter_sublist)
  have hall : ∀ a ∈ (es.filter fun x => same x.2).map Prod.fst, a = name := by
    intro a ha
    obtain ⟨x, hx, rfl⟩ := List.mem_map.1 ha
    obtain ⟨h1, h2⟩ := List.mem_filter.1 hx
    rw [(hm x h1).1]; exact hsame _ h2
  rw [← List.length_map (f := Prod.fst)]
  generalize (es.filter fun x => same x.2).map Prod.fst = l at hsub hall
  match l, hsub, hall with
  | [], _, _ => simp
  | [_], _, _ => simp
  | a :: b :: _, hsub, hall =>
    have e1 := hall a (by simp)
    have e2 := hall b (by simp)
    subst e1
    subst e2
    simp at hsub

theorem replaceAll_taken : ∀ (todo cur : List (Str × Elem)), r.hdr.name ∈ cur.map Prod.fst → r.hdr.name ∉ todo.map Prod.fst →
    (∃ x ∈ todo, same x.2 = true) → ∀ n, (replaceAll same r todo cur).2 ≠ .ok n := by
  intro todo
  induction todo with
  | nil => rintro cur - - ⟨x, hx, -⟩; simp at hx
  | cons y rest ih =>
    obtain ⟨k, e⟩ := y
    intro cur hc ht hx n
    simp only [List.map_cons, List.mem_cons, not_or] at ht
    simp only [replaceAll]
    split
    · have : r.hdr.name ∈ (cur.filter fun x => x.1 ≠ k).map Prod.fst := by
        obtain ⟨x, hxm, hxe⟩ := List.mem_map.1 hc
        exact List.mem_map.2 ⟨x, List.mem_filter.2 ⟨hxm, by simp [hxe, ht.1]⟩, hxe⟩
      simp only [this, if_true]
      simp
    · rename_i hs
      have hx' : ∃ x ∈ rest, same x.2 = true := by
        obtain ⟨x, hxm, hxs⟩ := hx
        rcases List.mem_cons.1 hxm with rfl | hxm
        · exact absurd hxs hs
        · exact ⟨x, hxm, hxs⟩
      obtain ⟨e', res, he'⟩ := prod_cases (replace same r e)
      rw [he']
      cases res with
      | error er => simp
      | ok n1 =>
        simp only
        have hc' : r.hdr.name ∈ (cur.map fun x => if x.1 = k then (k, e') else x).map Prod.fst := by
          obtain ⟨x, hxm, hxe⟩ := List.mem_map.1 hc
          rw [List.map_map]
          refine List.mem_map.2 ⟨x, hxm, ?_⟩
          simp only [Function.comp]
          split
          · rename_i hk; simp [← hk, hxe]
          · exact hxe
        have := ih _ hc' ht.2 hx'
        obtain ⟨c, res2, h2⟩ := prod_cases (replaceAll same r rest (cur.map fun x : Str × Elem => if x.1 = k then (k, e') else x))
        rw [h2] at this ⊢
        cases res2 with
        | error er => simp
        | ok n2 => exact absurd rfl (this n2)

/-- C44: two elements to replace directly in one group always end in an exception. -/
theorem C44_two_matches_counterexample (h : Hdr) (hidden : Bool) (es : List (Str × Elem)) (hn : (es.map Prod.fst).Nodup)
    (h2 : 2 ≤ (es.filter fun x => same x.2).length) : ∀ n, (replace same r (.group h hidden es)).2 ≠ .ok n := by
  have key : ∀ (todo cur : List (Str × Elem)), (todo.map Prod.fst).Nodup → (∀ k ∈ todo.map Prod.fst, k ∈ cur.map Prod.fst) →
      2 ≤ (todo.filter fun x => same x.2).length → ∀ n, (replaceAll same r todo cur).2 ≠ .ok n := by
    intro todo
    induction todo with
    | nil => intro cur _ _ h; simp at h
    | cons y rest ih =>
      obtain ⟨k, e⟩ := y
      intro cur hn hsub h2 n
      simp only [List.map_cons, List.nodup_cons] at hn
      simp only [replaceAll]
      split
      · rename_i hs
        split
        · simp
        · rename_i hfree
          split
          · simp
          · have hrest : ∀ k' ∈ rest.map Prod.fst, k' ∈ (cur.filter fun x => x.1 ≠ k).map Prod.fst := by
              intro k' hk'
              obtain ⟨x, hxm, hxe⟩ := List.mem_map.1 (hsub k' (by simp only [List.map_cons, List.mem_cons]; exact .inr hk'))
              refine List.mem_map.2 ⟨x, List.mem_filter.2 ⟨hxm, ?_⟩, hxe⟩
              have : x.1 ≠ k := by rintro rfl; rw [hxe] at hn; exact hn.1 hk'
              simp [this]
            have := replaceAll_taken (same := same) (r := r) rest
              ((cur.filter fun x => x.1 ≠ k) ++ [(r.hdr.name, r)]) (by simp) (fun hm => hfree (hrest _ hm)) (by
                simp only [List.filter_cons, hs, if_true, List.length_cons] at h2
                have h0 : (rest.filter fun x => same x.2) ≠ [] := by intro h0; rw [h0] at h2; simp at h2
                obtain ⟨x, hx⟩ := List.exists_mem_of_ne_nil _ h0
                exact ⟨x, (List.mem_filter.1 hx).1, (List.mem_filter.1 hx).2⟩)
            obtain ⟨c, res2, h3⟩ := prod_cases (replaceAll same r rest ((cur.filter fun x => x.1 ≠ k) ++ [(r.hdr.name, r)]))
            rw [h3] at this ⊢
            cases res2 with
            | error er => simp
            | ok n2 => exact absurd rfl (this n2)
      · rename_i hs
        obtain ⟨e', res, he'⟩ := prod_cases (replace same r e)
        rw [he']
        cases res with
        | error er => simp
        | ok n1 =>
          simp only
          have := ih (cur.map fun x => if x.1 = k then (k, e') else x) hn.2 (by
            intro k' hk'
            have hm := hsub k' (by simp only [List.map_cons, List.mem_cons]; exact .inr hk')
            obtain ⟨x, hxm, hxe⟩ := List.mem_map.1 hm
            rw [List.map_map]
            refine List.mem_map.2 ⟨x, hxm, ?_⟩
            simp only [Function.comp]
            split
            · rename_i hk; simp [← hk, hxe]
            · exact hxe) (by simpa [List.filter_cons, hs] using h2)
          obtain ⟨c, res2, h3⟩ := prod_cases (replaceAll same r rest (cur.map fun x : Str × Elem => if x.1 = k then (k, e') else x))
          rw [h3] at this ⊢
          cases res2 with
          | error er => simp
          | ok n2 => exact absurd rfl (this n2)
  exact key es es hn (fun _ h => h) h2

end Replace

/-- C44: `replace` is not atomic: it can raise having taken an element out. Here the name of the replacement is taken. -/
theorem C44_atomic_counterexample : ∃ (same : Elem → Bool) (r : Elem) (h : Hdr) (es : List (Str × Elem)) (es' : List (Str × Elem)),
    Keyed (.group h false es) ∧ replace same r (.group h false es) = (.group h false es', .error .value) ∧
      es'.length < es.length := by
  refine ⟨fun e => e.hdr.name == ['a'], .rect ⟨['b'], ⟨none, none⟩, true, Mat3.one⟩ ⟨0, 0⟩ ⟨1, 1⟩,
    hdr0 none, [(['a'], .rect ⟨['a'], ⟨none, none⟩, true, Mat3.one⟩ ⟨0, 0⟩ ⟨1, 1⟩),
      (['b'], .rect ⟨['b'], ⟨none, none⟩, true, Mat3.one⟩ ⟨0, 0⟩ ⟨2, 2⟩)],
    [(['b'], .rect ⟨['b'], ⟨none, none⟩, true, Mat3.one⟩ ⟨0, 0⟩ ⟨2, 2⟩)], ?_, ?_, by simp⟩
  · simp [Keyed, KeyedAll, hdr]
  · simp [replace, replaceAll, hdr]

/-- C44: the replacement does not take the place of the old element: it goes to the end, so what is drawn on top changes. -/
theorem C44_order_counterexample : ∃ (same : Elem → Bool) (r : Elem) (h : Hdr) (a b : Elem),
    replace same r (.group h false [(['a'], a), (['b'], b)]) = (.group h false [(['b'], b), (['a'], r)], .ok 1) ∧
      same a = true ∧ same b = false := by
  refine ⟨fun e => e.hdr.name == ['a'], .rect ⟨['a'], ⟨none, none⟩, true, Mat3.one⟩ ⟨0, 0⟩ ⟨9, 9⟩,
    hdr0 none, .rect ⟨['a'], ⟨none, none⟩, true, Mat3.one⟩ ⟨0, 0⟩ ⟨1, 1⟩,
      .rect ⟨['b'], ⟨none, none⟩, true, Mat3.one⟩ ⟨0, 0⟩ ⟨2, 2⟩, ?_, rfl, rfl⟩
  simp [replace, replaceAll, hdr, hasDot, replaceOther]

/-- C44: a shape with holes anywhere on the way raises `NotImplementedError`, even if nothing is to be replaced. -/
theorem C44_holes_counterexample (r : Elem) (h h' : Hdr) (o : Elem) (i : List Elem) (k : Str) :
    (replace (fun _ => false) r (.group h false [(k, .holes h' o i)])).2 = .error .notImplemented := by
  simp [replace, replaceAll, replaceOther]

/-- A nested group with one element to replace meets the hypothesis of `C44_replace`. -/
example : Replaceable (fun e => e.hdr.name == ['x']) (.rect ⟨['y'], ⟨none, none⟩, true, Mat3.one⟩ ⟨0, 0⟩ ⟨9, 9⟩)
    (.group (hdr0 none) false [(['a'], .group ⟨['a'], ⟨none, none⟩, false, Mat3.one⟩ false
      [(['x'], .rect (hdr0 none) ⟨0, 0⟩ ⟨4, 4⟩), (['z'], .ellipse ⟨['z'], ⟨none, none⟩, true, Mat3.one⟩ ⟨0, 0⟩ ⟨4, 4⟩)])]) ∧
    hits (fun e => e.hdr.name == ['x'])
    (.group (hdr0 none) false [(['a'], .group ⟨['a'], ⟨none, none⟩, false, Mat3.one⟩ false
      [(['x'], .rect (hdr0 none) ⟨0, 0⟩ ⟨4, 4⟩), (['z'], .ellipse ⟨['z'], ⟨none, none⟩, true, Mat3.one⟩ ⟨0, 0⟩ ⟨4, 4⟩)])]) = 1 := by
  simp [Replaceable, ReplaceableAll, hits, hitsAll, hdr, hdr0]

end X7.Elem
