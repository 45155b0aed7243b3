import Mathlib.Tactic.Linarith
import Verif.Spec.AnimRun
import Verif.Props.Anim
import Verif.Props.AnimTime
import Verif.Props.Gif

/-! C96: animations in holders, builders, and the files written. -/

noncomputable section

namespace X7.AR

open Anim PH Gif

variable {I C : Type} [LinearOrder C] (pil : PIL I C) (pf : Platform)

/-! ### Updates -/

/-- `AnimationHolder.update` over the animations themselves. -/
def updList : Heap ℝ → List AObj → TVal → Heap ℝ × Option PyErr
  | h, [], _ => (h, none)
  | h, a :: rest, t =>
    match upd h a t with
    | (h', none) => updList h' rest t
    | (h', some e) => (h', some e)

theorem updIds_eq (anims : List AObj) (t : TVal) : ∀ (ids : List ℕ) (l : List AObj) (h : Heap ℝ),
    ids.map (anims[·]?) = l.map some → updIds anims h ids t = updList h l t := by
  intro ids
  induction ids with
  | nil => intro l h hl; cases l with
    | nil => rfl
    | cons a l => simp at hl
  | cons i ids ih =>
    intro l h hl
    cases l with
    | nil => simp at hl
    | cons a l =>
      simp only [List.map_cons, List.cons.injEq] at hl
      simp only [updIds, updList, hl.1]
      obtain ⟨h', e⟩ := upd h a t
      cases e with
      | none => exact ih l _ hl.2
      | some e => rfl

theorem upd_same {S : List ℕ} {h h1 : Heap ℝ} (hs : Same S h h1) {a : AObj} (ha : a.pt ∈ S) (ht : Tame a) (t : TVal) :
    Same S h (upd h1 a t).1 := by
  cases a with
  | std a =>
    simp only [upd]
    cases hu : Anim.update h1 a t with
    | ok h2 => exact update_same hs ha hu
    | error e => exact hs
  | plain p o => exact hs
  | generic p o f =>
    have hf := ht t h1
    simp only [upd]
    split
    · rename_i h2 e he
      rw [he] at hf
      rw [show h2 = h1 from hf]; exact hs
    · rename_i h2 x y he
      rw [he] at hf
      rw [show h2 = h1 from hf]
      obtain ⟨_, _, x', y', n, _, ho⟩ := hs.on p ha
      rw [setxy_point ho]
      exact same_set hs ha ho
    · rename_i h2 l _ he
      rw [he] at hf
      rw [show h2 = h1 from hf]; exact hs

theorem updList_same {S : List ℕ} {h : Heap ℝ} (t : TVal) : ∀ (l : List AObj) (h1 : Heap ℝ), Same S h h1 → (∀ a ∈ l, a.pt ∈ S) →
    (∀ a ∈ l, Tame a) → Same S h (updList h1 l t).1 := by
  intro l
  induction l with
  | nil => intro h1 hs _ _; exact hs
  | cons a l ih =>
    intro h1 hs hS hT
    have := upd_same hs (hS a (by simp)) (hT a (by simp)) t
    simp only [updList]
    split
    · rename_i h' e
      rw [e] at this
      exact ih _ this (fun b hb => hS b (by simp [hb])) (fun b hb => hT b (by simp [hb]))
    · rename_i h' e' e
      rw [e] at this
      exact this

theorem upd_at {S : List ℕ} {h h1 : Heap ℝ} (hw : WF h) (hs : Same S h h1) {a : AObj} (ha : a.pt ∈ S)
    (hd : ∀ g ∈ a.reads, ∀ i ∈ S, ¬ Depends h g i) {t : ℝ} {p : Pt ℝ} (hp : AtO h a t p) :
    ∃ x y n, h[a.pt]? = some (.point x y n) ∧ upd h1 a (.num t) = (h1.set a.pt (.point p.x p.y n), none) := by
  cases hp with
  | @std a t p hp =>
    obtain ⟨x, y, n, e1, e2⟩ := update_at hw hs ha hd hp
    exact ⟨x, y, n, e1, by simp [upd, e2, AObj.pt]⟩
  | @generic pt orig o t q f hr hf =>
    obtain ⟨x, y, x', y', n, ho, ho1⟩ := hs.on pt ha
    refine ⟨x, y, n, ho, ?_⟩
    have hx : xy h1 pt = .ok ⟨x', y'⟩ := by rw [PH.xy, ho1]
    simp only [upd, hf h1 _ (xy_same hw hs hr (hd _ rfl)) hx, setxy_point ho1, AObj.pt]

theorem updList_at {S : List ℕ} {h : Heap ℝ} (hw : WF h) {t : ℝ} :
    ∀ (l : List AObj) (h1 : Heap ℝ), Same S h h1 → (∀ a ∈ l, a.pt ∈ S) →
      (∀ a ∈ l, ∀ g ∈ a.reads, ∀ i ∈ S, ¬ Depends h g i) → (∀ a ∈ l, ∃ p, AtO h a t p) →
      ∃ h2, updList h1 l (.num t) = (h2, none) ∧ Same S h h2 ∧ (∀ i, i ∉ l.map AObj.pt → h2[i]? = h1[i]?) ∧
        ∀ pre a post p, l = pre ++ a :: post → a.pt ∉ post.map AObj.pt → AtO h a t p →
          ∃ x y n, h[a.pt]? = some (.point x y n) ∧ h2[a.pt]? = some (.point p.x p.y n) := by
  intro l
  induction l with
  | nil => intro h1 hs _ _ _; exact ⟨h1, rfl, hs, fun _ _ => rfl, by simp⟩
  | cons a l ih =>
    intro h1 hs hS hd hA
    obtain ⟨p, hp⟩ := hA a (by simp)
    have haS := hS a (by simp)
    obtain ⟨_, _, _, _, _, _, ho1⟩ := hs.on a.pt haS
    have hlt : a.pt < h1.length := (List.getElem?_eq_some_iff.1 ho1).1
    obtain ⟨x, y, n, ho, hu⟩ := upd_at hw hs haS (hd a (by simp)) hp
    have hs' : Same S h (h1.set a.pt (.point p.x p.y n)) := by
      obtain ⟨_, _, _, _, n', e1, e2⟩ := hs.on a.pt haS
      rw [ho] at e1
      injection e1 with e1
      injection e1 with _ _ e1
      subst e1
      exact same_set hs haS e2
    obtain ⟨h2, e1, e2, e3, e4⟩ := ih _ hs' (fun b hb => hS b (by simp [hb])) (fun b hb => hd b (by simp [hb]))
      (fun b hb => hA b (by simp [hb]))
    refine ⟨h2, by simp only [updList, hu, e1], e2, ?_, ?_⟩
    · intro i hi
      simp only [List.map_cons, List.mem_cons, not_or] at hi
      rw [e3 i hi.2, List.getElem?_set_ne (Ne.symm hi.1)]
    · intro pre b post q hl hb hq
      cases pre with
      | nil =>
        simp only [List.nil_append, List.cons.injEq] at hl
        obtain ⟨rfl, rfl⟩ := hl
        obtain ⟨x2, y2, n2, o2, u2⟩ := upd_at hw hs haS (hd a (by simp)) hq
        rw [hu] at u2
        injection u2 with u2
        exact ⟨x2, y2, n2, o2, by rw [e3 _ hb, u2, List.getElem?_set_self hlt]⟩
      | cons c pre =>
        simp only [List.cons_append, List.cons.injEq] at hl
        exact e4 pre b post q hl.2 hb hq

/-- The points of `l`. -/
abbrev ptsOf (l : List AObj) : List ℕ := l.map AObj.pt

theorem steady_reads {h : Heap ℝ} {l l' : List AObj} (hst : Steady h l) (hsub : l' ⊆ l) :
    ∀ a ∈ l', ∀ g ∈ a.reads, ∀ i ∈ ptsOf l, ¬ Depends h g i := by
  intro a ha g hg i hi
  obtain ⟨b, hb, rfl⟩ := List.mem_map.1 hi
  exact (hst.reads a (hsub ha) g hg).2 b hb

theorem updList_shown {h h1 : Heap ℝ} (hw : WF h) {l l' : List AObj} (hst : Steady h l) (hsub : l' ⊆ l) (hs : Same (ptsOf l) h h1)
    {t : ℝ} (hA : ∀ a ∈ l', ∃ p, AtO h a t p) (hoff : ∀ i, i ∉ ptsOf l' → h1[i]? = h[i]?) :
    ∃ h2, updList h1 l' (.num t) = (h2, none) ∧ Same (ptsOf l) h h2 ∧ Shown h l' t h2 := by
  obtain ⟨h2, e1, e2, e3, e4⟩ := updList_at hw l' h1 hs (fun a ha => List.mem_map_of_mem (hsub ha)) (steady_reads hst hsub) hA
  exact ⟨h2, e1, e2, e2.len, fun i hi => (e3 i hi).trans (hoff i hi), e4⟩

theorem frames_same {S : List ℕ} {h : Heap ℝ} (anims : List AObj) (ids : List ℕ) (l : List AObj)
    (hl : ids.map (anims[·]?) = l.map some) (hS : ∀ a ∈ l, a.pt ∈ S) (hT : ∀ a ∈ l, Tame a) (draw : Heap ℝ → Except PyErr I) (steps : ℤ) :
    ∀ (k i : ℕ) (h1 : Heap ℝ), Same S h h1 → Same S h (frames anims ids draw steps k i h1).1 := by
  intro k
  induction k with
  | zero => intro i h1 hs; exact hs
  | succ k ih =>
    intro i h1 hs
    have h2 := updList_same (.num ((i : ℝ) / (steps : ℝ))) l h1 hs hS hT
    rw [← updIds_eq anims _ ids l h1 hl] at h2
    simp only [frames]
    split
    · rename_i e; rw [e] at h2; exact h2
    · rename_i e
      rw [e] at h2
      split
      · exact h2
      · have := ih (i + 1) _ h2
        split
        · rename_i e2; rw [e2] at this; exact this
        · rename_i e2; rw [e2] at this; exact this

/-! ### What the calls leave alone -/

theorem buildAllOn_rest (s : St I) (b : ℕ) (steps : ℤ) :
    (buildAllOn s b steps).1.holders = s.holders ∧ (buildAllOn s b steps).1.anims = s.anims ∧
    (buildAllOn s b steps).1.files = s.files ∧ (buildAllOn s b steps).1.builders.length = s.builders.length ∧
    ∀ b' bl, s.builders[b']? = some bl → ∃ ims, (buildAllOn s b steps).1.builders[b']? = some { bl with images := ims } ∧
      (b' ≠ b → ims = bl.images) ∧ ((buildAllOn s b steps).2 ≠ none → ims = bl.images) := by
  unfold buildAllOn
  split
  · exact ⟨rfl, rfl, rfl, rfl, fun b' bl h => ⟨bl.images, h, fun _ => rfl, fun _ => rfl⟩⟩
  · rename_i bl0 hb
    split
    · exact ⟨rfl, rfl, rfl, rfl, fun b' bl h => ⟨bl.images, h, fun _ => rfl, fun _ => rfl⟩⟩
    · split
      · exact ⟨rfl, rfl, rfl, rfl, fun b' bl h => ⟨bl.images, h, fun _ => rfl, fun _ => rfl⟩⟩
      · rename_i ims _
        refine ⟨rfl, rfl, rfl, by simp, fun b' bl h => ?_⟩
        by_cases e : b = b'
        · subst e
          rw [hb] at h
          injection h with h
          subst h
          refine ⟨ims, ?_, by simp, by simp⟩
          simp only
          rw [List.getElem?_set_self (List.getElem?_eq_some_iff.1 hb).1]
        · refine ⟨bl.images, ?_, fun _ => rfl, fun _ => rfl⟩
          simp only
          rw [List.getElem?_set_ne e, h]

theorem saveOn_rest (s : St I) (b : ℕ) (output : Option Str) (images : List I) (ac : Bool) :
    (saveOn pil pf s b output images ac).1.holders = s.holders ∧ (saveOn pil pf s b output images ac).1.anims = s.anims ∧
    (saveOn pil pf s b output images ac).1.heap = s.heap ∧ (saveOn pil pf s b output images ac).1.builders = s.builders := by
  unfold saveOn
  split
  · exact ⟨rfl, rfl, rfl, rfl⟩
  · simp only
    split
    · exact ⟨rfl, rfl, rfl, rfl⟩
    · exact ⟨rfl, rfl, rfl, rfl⟩

theorem buildAllOn_same {S : List ℕ} {h : Heap ℝ} (s : St I) (hs : Same S h s.heap) (b : ℕ) (steps : ℤ) (bl : Bld I) (l : List AObj)
    (hb : s.builders[b]? = some bl) (hh : Holds s bl.holder l) (hS : ∀ a ∈ l, a.pt ∈ S) (hT : ∀ a ∈ l, Tame a) :
    Same S h (buildAllOn s b steps).1.heap := by
  obtain ⟨ids, h1, h2⟩ := hh
  have := frames_same s.anims ids l h2 hS hT bl.draw steps steps.toNat 0 s.heap hs
  simp only [buildAllOn, hb, h1]
  split
  · rename_i e; rw [e] at this; exact this
  · rename_i e; rw [e] at this; exact this

/-- What calls in `Moves` keep. -/
structure Kept (l : List AObj) (s s' : St I) : Prop where
  same : Same (ptsOf l) s.heap s'.heap
  holders : s'.holders = s.holders
  anims : s'.anims = s.anims
  builders : ∀ (b : ℕ) (bl : Bld I), s.builders[b]? = some bl → ∃ ims : List I, s'.builders[b]? = some { bl with images := ims }

theorem kept_step {s s' : St I} {l : List AObj} (hst : Steady s.heap l) (hk : Kept l s s') (c : Op I) (hc : Moves s l c) :
    Kept l s (step pil pf s' c).1 := by
  have holds : ∀ k l', Holds s k l' → Holds s' k l' := by
    rintro k l' ⟨ids, h1, h2⟩
    exact ⟨ids, by rw [hk.holders]; exact h1, by rw [hk.anims]; exact h2⟩
  have bld : ∀ b steps, (∃ (bl : Bld I) (l' : List AObj), s.builders[b]? = some bl ∧ Holds s bl.holder l' ∧ l' ⊆ l) →
      Kept l s (buildAllOn s' b steps).1 := by
    rintro b steps ⟨bl, l', hb, hh, hsub⟩
    obtain ⟨ims, hb'⟩ := hk.builders b bl hb
    have hsm := buildAllOn_same s' hk.same b steps { bl with images := ims } l' hb' (holds _ _ hh)
      (fun a ha => List.mem_map_of_mem (hsub ha)) (fun a ha => hst.tame a (hsub ha))
    obtain ⟨r1, r2, -, -, r5⟩ := buildAllOn_rest s' b steps
    refine ⟨hsm, r1.trans hk.holders, r2.trans hk.anims, fun b2 bl2 hb2 => ?_⟩
    obtain ⟨ims2, h2⟩ := hk.builders b2 bl2 hb2
    obtain ⟨ims3, h3, -⟩ := r5 b2 _ h2
    exact ⟨ims3, h3⟩
  have sav : ∀ s2 b output images ac, Kept l s s2 → Kept l s (saveOn pil pf s2 b output images ac).1 := by
    intro s2 b output images ac hk2
    obtain ⟨r1, r2, r3, r4⟩ := saveOn_rest pil pf s2 b output images ac
    exact ⟨by rw [r3]; exact hk2.same, r1.trans hk2.holders, r2.trans hk2.anims, by rw [r4]; exact hk2.builders⟩
  cases c with
  | update k t =>
    obtain ⟨l', hh, hsub⟩ := hc
    obtain ⟨ids, h1, h2⟩ := holds _ _ hh
    simp only [step, h1]
    have := updList_same t l' s'.heap hk.same (fun a ha => List.mem_map_of_mem (hsub ha)) (fun a ha => hst.tame a (hsub ha))
    rw [← updIds_eq s'.anims t ids l' s'.heap h2] at this
    exact ⟨this, hk.holders, hk.anims, hk.builders⟩
  | buildAll b steps => exact bld b steps hc
  | save b output images ac => exact sav s' b output images ac hk
  | run b steps output =>
    have h1 := bld b steps hc
    simp only [step]
    split
    · rename_i e; rw [e] at h1; exact h1
    · rename_i e; rw [e] at h1; exact sav _ _ _ _ _ h1
  | _ => exact absurd hc (by simp [Moves])

theorem kept_run {s : St I} {l : List AObj} (hst : Steady s.heap l) (calls : List (Op I)) :
    ∀ s', Kept l s s' → (∀ c ∈ calls, Moves s l c) → Kept l s (runOps pil pf s' calls) := by
  induction calls with
  | nil => intro s' hk _; exact hk
  | cons c calls ih =>
    intro s' hk hc
    simp only [runOps, List.foldl_cons]
    exact ih _ (kept_step pil pf hst hk c (hc c (by simp))) (fun d hd => hc d (by simp [hd]))

theorem kept_refl {s : St I} {l : List AObj} (hst : Steady s.heap l) : Kept l s s := by
  refine ⟨same_refl fun i hi => ?_, rfl, rfl, fun b bl h => ⟨bl.images, h⟩⟩
  obtain ⟨a, ha, rfl⟩ := List.mem_map.1 hi
  exact hst.points a ha

/-! ### The claims -/

/-- **C96, holders.** After any updates, builds and saves, an update of a holder puts every point where the animation of it that was
added last belongs at that time, and changes nothing else: earlier animations of the same point have no effect, nor has what was done
before. Generic animations included, if their functions give the same for the same time and original position. -/
theorem C96_update (s : St I) (pops : List (POp ℝ)) (hs : s.heap = PH.run [] pops) (k : ℕ) (l : List AObj) (hh : Holds s k l)
    (hst : Steady s.heap l) (calls : List (Op I)) (hc : ∀ c ∈ calls, Moves s l c) (t : ℝ) (hA : ∀ a ∈ l, ∃ p, AtO s.heap a t p) :
    ∃ s', step pil pf (runOps pil pf s calls) (.update k (.num t)) = (s', none) ∧ Shown s.heap l t s'.heap := by
  have hk := kept_run pil pf hst calls s (kept_refl hst) hc
  obtain ⟨ids, h1, h2⟩ := hh
  have hw : WF s.heap := by rw [hs]; exact run_wf wf_nil pops
  obtain ⟨h3, e1, -, e3⟩ := updList_shown hw hst (List.Subset.refl l) hk.same hA (fun i hi => hk.same.off i hi)
  refine ⟨{ runOps pil pf s calls with heap := h3 }, ?_, e3⟩
  have : updIds (runOps pil pf s calls).anims (runOps pil pf s calls).heap ids (.num t) = (h3, none) := by
    rw [hk.anims, updIds_eq s.anims (.num t) ids l _ h2, e1]
  simp only [step, hk.holders, h1, this]

/-- There is only one way of showing animations, if every one of them belongs somewhere. -/
theorem C96_shown_unique (h : Heap ℝ) (l : List AObj) (t : ℝ) (hA : ∀ a ∈ l, ∃ p, AtO h a t p) (h1 h2 : Heap ℝ)
    (e1 : Shown h l t h1) (e2 : Shown h l t h2) : h1 = h2 := by
  apply List.ext_getElem?
  intro i
  by_cases hi : i ∈ l.map AObj.pt
  · have : ∃ pre a post, l = pre ++ a :: post ∧ a.pt = i ∧ a.pt ∉ post.map AObj.pt := by
      clear hA e1 e2
      induction l with
      | nil => simp at hi
      | cons a l ih =>
        by_cases h : i ∈ l.map AObj.pt
        · obtain ⟨pre, b, post, q1, q2, q3⟩ := ih h
          exact ⟨a :: pre, b, post, by rw [q1]; rfl, q2, q3⟩
        · refine ⟨[], a, l, rfl, ?_, ?_⟩
          · rcases List.mem_cons.1 hi with e | e
            · exact e.symm
            · exact absurd e h
          · rcases List.mem_cons.1 hi with e | e
            · rw [← show i = a.pt from e]; exact h
            · exact absurd e h
    obtain ⟨pre, a, post, q1, q2, q3⟩ := this
    obtain ⟨p, hp⟩ := hA a (by rw [q1]; simp)
    obtain ⟨x, y, n, m1, m2⟩ := e1.last pre a post p q1 q3 hp
    obtain ⟨x', y', n', m3, m4⟩ := e2.last pre a post p q1 q3 hp
    rw [m1] at m3
    injection m3 with m3
    injection m3 with _ _ m3
    rw [← q2, m2, m4, m3]
  · rw [e1.others i hi, e2.others i hi]

/-- **C96, builders.** `build_all(steps)` after any updates, builds and saves gives `steps` images, image `i` the drawing of the points
at time `i / steps`, as though no image had been built before. -/
theorem C96_build (s : St I) (pops : List (POp ℝ)) (hs : s.heap = PH.run [] pops) (b : ℕ) (bl : Bld I) (hb : s.builders[b]? = some bl)
    (l : List AObj) (hh : Holds s bl.holder l) (hst : Steady s.heap l) (calls : List (Op I)) (hc : ∀ c ∈ calls, Moves s l c)
    (steps : ℕ) (hA : ∀ i < steps, ∀ a ∈ l, ∃ p, AtO s.heap a ((i : ℝ) / steps) p) (pic : ℕ → I)
    (hp : ∀ i < steps, ∀ h', Shown s.heap l ((i : ℝ) / steps) h' → bl.draw h' = .ok (pic i)) :
    ∃ s', step pil pf (runOps pil pf s calls) (.buildAll b steps) = (s', none) ∧
      s'.builders[b]? = some { bl with images := (List.range steps).map pic } := by
  have hk := kept_run pil pf hst calls s (kept_refl hst) hc
  obtain ⟨ids, h1, h2⟩ := hh
  have hw : WF s.heap := by rw [hs]; exact run_wf wf_nil pops
  have key : ∀ (k i : ℕ) (h1 : Heap ℝ), i + k ≤ steps → Same (ptsOf l) s.heap h1 →
      (frames s.anims ids bl.draw (steps : ℤ) k i h1).2 = .ok ((List.range k).map fun m => pic (i + m)) := by
    intro k
    induction k with
    | zero => intro i h1 _ _; rfl
    | succ k ih =>
      intro i h1 hik hsm
      obtain ⟨h3, e1, e2, e3⟩ := updList_shown (t := (i : ℝ) / steps) hw hst (List.Subset.refl l) hsm (hA i (by omega))
        (fun i hi => hsm.off i hi)
      have hd := hp i (by omega) h3 e3
      have hr := ih (i + 1) h3 (by omega) e2
      rw [← updIds_eq s.anims _ ids l h1 h2] at e1
      simp only [frames, Int.cast_natCast, e1, hd]
      generalize frames s.anims ids bl.draw (steps : ℤ) k (i + 1) h3 = r at hr ⊢
      obtain ⟨h4, r⟩ := r
      simp only at hr
      subst hr
      simp only [List.range_succ_eq_map, List.map_cons, List.map_map, Nat.add_zero, Function.comp_def]
      congr 3
      funext m
      congr 1
      omega
  obtain ⟨ims, hb'⟩ := hk.builders b bl hb
  have hf := key steps 0 _ (by omega) hk.same
  simp only [step, buildAllOn, hb', hk.holders, h1, hk.anims, Int.toNat_natCast]
  generalize frames s.anims ids bl.draw (steps : ℤ) steps 0 (runOps pil pf s calls).heap = r at hf
  obtain ⟨h4, r⟩ := r
  simp only at hf
  subst hf
  refine ⟨_, rfl, ?_⟩
  simp only [Nat.zero_add]
  rw [List.getElem?_set_self (List.getElem?_eq_some_iff.1 hb').1]

/-- **C96, failures.** If an update of a holder raises an exception, some animation of it raised it: those added before have been
updated, those added later have not. -/
theorem C96_failure (s s' : St I) (k : ℕ) (l : List AObj) (hh : Holds s k l) (t : TVal) (e : PyErr)
    (h : step pil pf s (.update k t) = (s', some e)) :
    ∃ pre a post h1, l = pre ++ a :: post ∧ updList s.heap pre t = (h1, none) ∧ upd h1 a t = (s'.heap, some e) := by
  obtain ⟨ids, h1, h2⟩ := hh
  simp only [step, h1, updIds_eq s.anims t ids l s.heap h2, Prod.mk.injEq] at h
  obtain ⟨rfl, h⟩ := h
  simp only
  generalize s.heap = h0 at h ⊢
  clear h1 h2
  induction l generalizing h0 with
  | nil => simp [updList] at h
  | cons a l ih =>
    cases hu : upd h0 a t with
    | mk h1 e1 =>
      cases e1 with
      | none =>
        simp only [updList, hu] at h ⊢
        obtain ⟨pre, b, post, h3, q1, q2, q3⟩ := ih h1 h
        exact ⟨a :: pre, b, post, h3, by rw [q1]; rfl, by simp only [updList, hu, q2], q3⟩
      | some e1 =>
        simp only [updList, hu, Option.some.injEq] at h ⊢
        subst h
        exact ⟨[], a, l, h0, rfl, rfl, hu⟩

/-- **C96, adding.** After any calls a holder holds what it held before and then the animations added to it, in the order of the calls;
calls on other holders change nothing. -/
theorem C96_added (ops : List (Op I)) : ∀ (s : St I) (k : ℕ) (ids : List ℕ), s.holders[k]? = some ids →
    (runOps pil pf s ops).holders[k]? = some (ids ++ addedTo k ops) := by
  induction ops with
  | nil => intro s k ids h; simpa [runOps, addedTo] using h
  | cons o ops ih =>
    intro s k ids h
    have hlt : k < s.holders.length := (List.getElem?_eq_some_iff.1 h).1
    have keep : (step pil pf s o).1.holders[k]? = some ids → (∀ a, o ≠ .add k a) →
        (runOps pil pf s (o :: ops)).holders[k]? = some (ids ++ addedTo k (o :: ops)) := by
      intro h1 h2
      have := ih _ k ids h1
      simp only [runOps, List.foldl_cons] at this ⊢
      rw [this]
      cases o with
      | add k' a =>
        have : k' ≠ k := fun e => h2 a (by rw [e])
        simp [addedTo, this]
      | _ => simp [addedTo]
    cases o with
    | pt o => exact keep h (by simp)
    | mk a =>
      refine keep ?_ (by simp)
      simp only [step]
      split <;> exact h
    | newHolder =>
      refine keep ?_ (by simp)
      simp only [step]
      rw [List.getElem?_append_left hlt, h]
    | add k' a =>
      by_cases e : k' = k
      · subst e
        have h1 : (step pil pf s (.add k' a)).1.holders[k']? = some (ids ++ [a]) := by
          simp only [step, h]
          rw [List.getElem?_set_self hlt]
        have := ih _ k' _ h1
        simp only [runOps, List.foldl_cons] at this ⊢
        rw [this]
        simp [addedTo]
      · refine keep ?_ (by simp [e])
        simp only [step]
        split
        · simp only
          rw [List.getElem?_set_ne e, h]
        · exact h
    | update k' t =>
      refine keep ?_ (by simp)
      simp only [step]
      split <;> exact h
    | newBuilder an d dr =>
      refine keep ?_ (by simp)
      cases an with
      | none =>
        simp only [step]
        rw [List.getElem?_append_left hlt, h]
      | some k' =>
        simp only [step]
        split <;> exact h
    | buildAll b st =>
      refine keep ?_ (by simp)
      simp only [step]
      rw [(buildAllOn_rest s b st).1, h]
    | save b out ims ac =>
      refine keep ?_ (by simp)
      simp only [step]
      rw [(saveOn_rest pil pf s b out ims ac).1, h]
    | run b st out =>
      refine keep ?_ (by simp)
      have := (buildAllOn_rest s b st).1
      simp only [step]
      split
      · rename_i e; rw [e] at this; simp only at this ⊢; rw [this, h]
      · rename_i e; rw [e] at this; simp only at this ⊢; rw [(saveOn_rest pil pf _ b out [] true).1, this, h]

/-- **C96, the objects.** Histories of calls in which the functions of generic animations change nothing make only objects that calls on
points make: the hypothesis of `C96_update` and `C96_build` about `s` is met. -/
theorem C96_reachable (ops : List (Op I)) (hops : ∀ o ∈ ops, ∀ pt f, o = .mk (.generic pt f) → ∀ t i j h, (f t i j h).1 = h) :
    ∃ pops, (runOps pil pf emptySt ops).heap = PH.run [] pops := by
  have happ : ∀ (p q : List (POp ℝ)) (h : Heap ℝ), PH.run (PH.run h p) q = PH.run h (p ++ q) := by
    intro p q h; simp [PH.run]
  have hupd : ∀ (a : AObj) (h : Heap ℝ) (t : TVal), Tame a → ∃ pops, (upd h a t).1 = PH.run h pops := by
    intro a h t ha
    have set : ∀ (i : ℕ) (x y : ℝ) h2, setxy h i x y = .ok h2 → ∃ pops, h2 = PH.run h pops := by
      intro i x y h2 e
      refine ⟨[.setXY i x y], ?_⟩
      unfold setxy at e
      simp only [PH.run, List.foldl_cons, List.foldl_nil]
      split at e
      · rename_i e2; injection e with e; rw [e2, e]
      · cases e
    have lin : ∀ i o g t h2, updLinear h i o g t = .ok h2 → ∃ pops, h2 = PH.run h pops := by
      intro i o g t h2 e
      unfold updLinear at e
      split at e
      · cases e
      · split at e
        · cases e
        · exact set _ _ _ _ e
        · exact set _ _ _ _ e
    cases a with
    | plain p o => exact ⟨[], rfl⟩
    | generic p o f =>
      have hf := ha t h
      simp only [upd]
      split
      · rename_i e; rw [e] at hf; exact ⟨[], hf⟩
      · rename_i e
        rw [e] at hf
        simp only at hf
        subst hf
        split
        · rename_i e2; exact set _ _ _ _ e2
        · exact ⟨[], rfl⟩
      · rename_i e; rw [e] at hf; exact ⟨[], hf⟩
    | std a =>
      simp only [upd]
      cases hu : Anim.update h a t with
      | error e => exact ⟨[], rfl⟩
      | ok h2 =>
        simp only
        cases a with
        | linear p o g => exact lin _ _ _ _ _ hu
        | linearFunc p o g f =>
          simp only [Anim.update] at hu
          split at hu
          · cases hu
          · exact lin _ _ _ _ _ hu
        | sinusoidal p o g f d =>
          simp only [Anim.update] at hu
          split at hu
          · split at hu
            · cases hu
            · exact set _ _ _ _ hu
          · cases hu
        | circular p o r f d =>
          simp only [Anim.update] at hu
          split at hu
          · exact set _ _ _ _ hu
          · cases hu
  have hids : ∀ (anims : List AObj), (∀ a ∈ anims, Tame a) → ∀ (t : TVal) (ids : List ℕ) (h : Heap ℝ),
      ∃ pops, (updIds anims h ids t).1 = PH.run h pops := by
    intro anims hT t ids
    induction ids with
    | nil => intro h; exact ⟨[], rfl⟩
    | cons i ids ih =>
      intro h
      simp only [updIds]
      split
      · exact ⟨[], rfl⟩
      · rename_i a ha
        obtain ⟨p1, e1⟩ := hupd a h t (hT a (List.mem_of_getElem? ha))
        split
        · rename_i e
          rw [e] at e1
          simp only at e1
          subst e1
          obtain ⟨p2, e2⟩ := ih (PH.run h p1)
          exact ⟨p1 ++ p2, by rw [e2, happ]⟩
        · rename_i e
          rw [e] at e1
          exact ⟨p1, e1⟩
  have hfr : ∀ (anims : List AObj), (∀ a ∈ anims, Tame a) → ∀ (ids : List ℕ) (draw : Heap ℝ → Except PyErr I) (steps : ℤ) (k i : ℕ)
      (h : Heap ℝ), ∃ pops, (frames anims ids draw steps k i h).1 = PH.run h pops := by
    intro anims hT ids draw steps k
    induction k with
    | zero => intro i h; exact ⟨[], rfl⟩
    | succ k ih =>
      intro i h
      obtain ⟨p1, e1⟩ := hids anims hT (.num ((i : ℝ) / (steps : ℝ))) ids h
      simp only [frames]
      split
      · rename_i e; rw [e] at e1; exact ⟨p1, e1⟩
      · rename_i h2 e
        rw [e] at e1
        simp only at e1
        subst e1
        split
        · exact ⟨p1, rfl⟩
        · obtain ⟨p2, e2⟩ := ih (i + 1) (PH.run h p1)
          rw [happ] at e2
          split
          · rename_i e3; rw [e3] at e2; exact ⟨_, e2⟩
          · rename_i e3; rw [e3] at e2; exact ⟨_, e2⟩
  have hbld : ∀ (s : St I) (b : ℕ) (steps : ℤ), (∀ a ∈ s.anims, Tame a) → ∃ pops, (buildAllOn s b steps).1.heap = PH.run s.heap pops := by
    intro s b steps hT
    unfold buildAllOn
    split
    · exact ⟨[], rfl⟩
    · rename_i bl _
      split
      · exact ⟨[], rfl⟩
      · rename_i ids _
        obtain ⟨p1, e1⟩ := hfr s.anims hT ids bl.draw steps steps.toNat 0 s.heap
        split
        · rename_i e; rw [e] at e1; exact ⟨p1, e1⟩
        · rename_i e; rw [e] at e1; exact ⟨p1, e1⟩
  have hstep : ∀ (s : St I) (o : Op I), (∀ pt f, o = .mk (.generic pt f) → ∀ t i j h, (f t i j h).1 = h) → (∀ a ∈ s.anims, Tame a) →
      (∀ a ∈ (step pil pf s o).1.anims, Tame a) ∧ ∃ pops, (step pil pf s o).1.heap = PH.run s.heap pops := by
    intro s o ho hT
    have lift : ∀ (h : Heap ℝ) (r : Except PyErr Anim.Anim) h2 a, liftStd h r = (h2, .ok a) → Tame a ∧ h2 = h := by
      intro h r h2 a e
      cases r with
      | ok b => simp only [liftStd, Prod.mk.injEq, Except.ok.injEq] at e; rw [← e.2]; exact ⟨trivial, e.1.symm⟩
      | error b => simp [liftStd] at e
    cases o with
    | pt o => exact ⟨hT, [o], rfl⟩
    | mk a =>
      cases hm : mk s.heap a with
      | mk h2 r =>
        have hh : (∀ b, r = .ok b → Tame b) ∧ ∃ pops, h2 = PH.run s.heap pops := by
          have lft : ∀ r', liftStd s.heap r' = (h2, r) → (∀ b, r = .ok b → Tame b) ∧ ∃ pops, h2 = PH.run s.heap pops := by
            intro r' e
            cases r' with
            | ok c =>
              simp only [liftStd, Prod.mk.injEq] at e
              refine ⟨?_, [], e.1.symm⟩
              rintro b rfl
              obtain ⟨_, e⟩ := e
              injection e with e
              rw [← e]; trivial
            | error c =>
              simp only [liftStd, Prod.mk.injEq] at e
              refine ⟨?_, [], e.1.symm⟩
              rintro b rfl
              cases e.2
          cases a with
          | linear p g => exact lft _ hm
          | linearFunc p g f => exact lft _ hm
          | sinusoidal p g f d => exact lft _ hm
          | circular p r f d => exact lft _ hm
          | plain p =>
            simp only [mk] at hm
            split at hm
            · simp only [Prod.mk.injEq] at hm
              refine ⟨?_, [], hm.1.symm⟩
              rintro b rfl
              obtain ⟨_, e⟩ := hm
              injection e with e
              rw [← e]; trivial
            · simp only [Prod.mk.injEq] at hm
              refine ⟨?_, [], hm.1.symm⟩
              rintro b rfl
              cases hm.2
          | generic p f =>
            simp only [mk] at hm
            split at hm
            · rename_i x y n _
              simp only [Prod.mk.injEq] at hm
              refine ⟨?_, [.mkPoint x y none], hm.1.symm⟩
              rintro b rfl
              obtain ⟨_, e⟩ := hm
              injection e with e
              rw [← e]
              exact fun t h => ho p f rfl t _ _ h
            · simp only [Prod.mk.injEq] at hm
              refine ⟨?_, [], hm.1.symm⟩
              rintro b rfl
              cases hm.2
        obtain ⟨q1, q2⟩ := hh
        cases r with
        | ok b =>
          simp only [step, hm]
          refine ⟨fun c hc => ?_, q2⟩
          rcases List.mem_append.1 hc with hc | hc
          · exact hT c hc
          · rw [List.mem_singleton.1 hc]; exact q1 b rfl
        | error e => simp only [step, hm]; exact ⟨hT, q2⟩
    | newHolder => exact ⟨hT, [], rfl⟩
    | add k a => simp only [step]; split <;> exact ⟨hT, [], rfl⟩
    | update k t =>
      simp only [step]
      split
      · rename_i ids _
        exact ⟨hT, hids s.anims hT t ids s.heap⟩
      · exact ⟨hT, [], rfl⟩
    | newBuilder an d dr =>
      cases an with
      | none => exact ⟨hT, [], rfl⟩
      | some k => simp only [step]; split <;> exact ⟨hT, [], rfl⟩
    | buildAll b st =>
      simp only [step]
      exact ⟨by rw [(buildAllOn_rest s b st).2.1]; exact hT, hbld s b st hT⟩
    | save b out ims ac =>
      obtain ⟨-, r2, r3, -⟩ := saveOn_rest pil pf s b out ims ac
      simp only [step]
      exact ⟨by rw [r2]; exact hT, [], by rw [r3]; rfl⟩
    | run b st out =>
      have h1 := (buildAllOn_rest s b st).2.1
      have h2 := hbld s b st hT
      simp only [step]
      split
      · rename_i e; rw [e] at h1 h2; exact ⟨by rw [show _ = s.anims from h1]; exact hT, h2⟩
      · rename_i s2 e
        rw [e] at h1 h2
        obtain ⟨-, r2, r3, -⟩ := saveOn_rest pil pf s2 b out [] true
        exact ⟨by rw [r2, show _ = s.anims from h1]; exact hT, by rw [r3]; exact h2⟩
  have main : ∀ (ops : List (Op I)) (s : St I), (∀ o ∈ ops, ∀ pt f, o = .mk (.generic pt f) → ∀ t i j h, (f t i j h).1 = h) →
      (∀ a ∈ s.anims, Tame a) → ∃ pops, (runOps pil pf s ops).heap = PH.run s.heap pops := by
    intro ops
    induction ops with
    | nil => intro s _ _; exact ⟨[], rfl⟩
    | cons o ops ih =>
      intro s ho hT
      obtain ⟨a1, p1, a2⟩ := hstep s o (ho o (by simp)) hT
      obtain ⟨p2, a3⟩ := ih (step pil pf s o).1 (fun o' h' => ho o' (by simp [h'])) a1
      exact ⟨p1 ++ p2, by simp only [runOps, List.foldl_cons] at a3 ⊢; rw [a3, a2, happ]⟩
  exact main ops emptySt hops (by simp [emptySt])

/-- **C96, own holders.** A builder made without animations gets a new, empty holder that no builder made before has; one made with a
holder has that very holder, empty or not. New builders have no images. -/
theorem C96_new_builder (ops : List (Op I)) (an : Option ℕ) (d : ℝ) (draw : Heap ℝ → Except PyErr I) (s' : St I)
    (h : step pil pf (runOps pil pf emptySt ops) (.newBuilder an d draw) = (s', none)) :
    ∃ k, s'.builders = (runOps pil pf emptySt ops).builders ++ [⟨k, d, draw, []⟩] ∧ (∀ k', an = some k' → k = k') ∧
      (an = none → s'.holders[k]? = some [] ∧ ∀ bl ∈ (runOps pil pf emptySt ops).builders, bl.holder ≠ k) := by
  have inv : ∀ bl ∈ (runOps pil pf emptySt ops).builders, bl.holder < (runOps pil pf emptySt ops).holders.length := by
    have main : ∀ (ops : List (Op I)) (s : St I), (∀ bl ∈ s.builders, bl.holder < s.holders.length) →
        ∀ bl ∈ (runOps pil pf s ops).builders, bl.holder < (runOps pil pf s ops).holders.length := by
      intro ops
      induction ops with
      | nil => intro s h; exact h
      | cons o ops ih =>
        intro s h
        simp only [runOps, List.foldl_cons]
        apply ih
        have bld : ∀ b st, ∀ bl ∈ (buildAllOn s b st).1.builders, bl.holder < (buildAllOn s b st).1.holders.length := by
          intro b st bl hbl
          obtain ⟨r1, -, -, r4, r5⟩ := buildAllOn_rest s b st
          obtain ⟨i, hi⟩ := List.getElem?_of_mem hbl
          have hlt : i < s.builders.length := by rw [← r4]; exact (List.getElem?_eq_some_iff.1 hi).1
          obtain ⟨ims, e, -⟩ := r5 i s.builders[i] (List.getElem?_eq_getElem hlt)
          rw [e] at hi
          injection hi with hi
          rw [r1, ← hi]
          exact h s.builders[i] (List.getElem_mem hlt)
        cases o with
        | pt o => exact h
        | mk a => simp only [step]; split <;> exact h
        | newHolder =>
          intro bl hbl
          have := h bl hbl
          simp only [step, List.length_append, List.length_singleton]
          omega
        | add k a =>
          simp only [step]
          split
          · intro bl hbl; simpa using h bl hbl
          · exact h
        | update k t => simp only [step]; split <;> exact h
        | newBuilder an d dr =>
          cases an with
          | none =>
            intro bl hbl
            simp only [step, List.mem_append, List.mem_singleton, List.length_append, List.length_singleton] at hbl ⊢
            rcases hbl with hbl | rfl
            · have := h bl hbl; omega
            · simp
          | some k =>
            simp only [step]
            split
            · rename_i ids hk
              intro bl hbl
              simp only [List.mem_append, List.mem_singleton] at hbl ⊢
              rcases hbl with hbl | rfl
              · exact h bl hbl
              · exact (List.getElem?_eq_some_iff.1 hk).1
            · exact h
        | buildAll b st => exact bld b st
        | save b out ims ac =>
          obtain ⟨r1, -, -, r4⟩ := saveOn_rest pil pf s b out ims ac
          simp only [step]
          rw [r1, r4]
          exact h
        | run b st out =>
          have h2 := bld b st
          simp only [step]
          split
          · rename_i e; rw [e] at h2; exact h2
          · rename_i s2 e
            rw [e] at h2
            obtain ⟨r1, -, -, r4⟩ := saveOn_rest pil pf s2 b out [] true
            rw [r1, r4]
            exact h2
    exact main ops emptySt (by simp [emptySt])
  generalize runOps pil pf emptySt ops = s at h inv ⊢
  cases an with
  | none =>
    simp only [step, Prod.mk.injEq, and_true] at h
    subst h
    refine ⟨s.holders.length, rfl, by simp, fun _ => ⟨by simp, fun bl hbl => (inv bl hbl).ne⟩⟩
  | some k =>
    simp only [step] at h
    split at h
    · simp only [Prod.mk.injEq, and_true] at h
      subst h
      exact ⟨k, rfl, by simp, by simp⟩
    · simp at h

/-- **C96, images.** The images of a builder change by a successful `build_all` of this builder only (also within `run`). -/
theorem C96_images (s : St I) (o : Op I) (b : ℕ) (bl : Bld I) (hb : s.builders[b]? = some bl) :
    ∃ ims, (step pil pf s o).1.builders[b]? = some { bl with images := ims } ∧
      (ims = bl.images ∨ ∃ steps, ((∃ out, o = .run b steps out) ∨ o = .buildAll b steps) ∧ (buildAllOn s b steps).2 = none) := by
  have hlt : b < s.builders.length := (List.getElem?_eq_some_iff.1 hb).1
  have bld : ∀ b' st, ∃ ims, (buildAllOn s b' st).1.builders[b]? = some { bl with images := ims } ∧
      (ims = bl.images ∨ (b' = b ∧ (buildAllOn s b' st).2 = none)) := by
    intro b' st
    obtain ⟨-, -, -, -, r⟩ := buildAllOn_rest s b' st
    obtain ⟨ims, e1, e2, e3⟩ := r b bl hb
    refine ⟨ims, e1, ?_⟩
    by_cases h1 : b' = b
    · by_cases h2 : (buildAllOn s b' st).2 = none
      · exact .inr ⟨h1, h2⟩
      · exact .inl (e3 h2)
    · exact .inl (e2 (Ne.symm h1))
  cases o with
  | pt o => exact ⟨_, hb, .inl rfl⟩
  | mk a => simp only [step]; split <;> exact ⟨_, hb, .inl rfl⟩
  | newHolder => exact ⟨_, hb, .inl rfl⟩
  | add k a => simp only [step]; split <;> exact ⟨_, hb, .inl rfl⟩
  | update k t => simp only [step]; split <;> exact ⟨_, hb, .inl rfl⟩
  | newBuilder an d dr =>
    cases an with
    | none => exact ⟨bl.images, by simp only [step]; rw [List.getElem?_append_left hlt, hb], .inl rfl⟩
    | some k =>
      simp only [step]
      split
      · exact ⟨bl.images, by rw [List.getElem?_append_left hlt, hb], .inl rfl⟩
      · exact ⟨_, hb, .inl rfl⟩
  | buildAll b' st =>
    obtain ⟨ims, e1, e2⟩ := bld b' st
    refine ⟨ims, e1, e2.imp_right ?_⟩
    rintro ⟨rfl, e⟩
    exact ⟨st, .inr rfl, e⟩
  | save b' out ims ac =>
    exact ⟨_, by simp only [step]; rw [(saveOn_rest pil pf s b' out ims ac).2.2.2]; exact hb, .inl rfl⟩
  | run b' st out =>
    obtain ⟨ims, e1, e2⟩ := bld b' st
    refine ⟨ims, ?_, e2.imp_right ?_⟩
    · simp only [step]
      split
      · rename_i e; rw [e] at e1; exact e1
      · rename_i s2 e
        rw [e] at e1
        rw [(saveOn_rest pil pf s2 b' out [] true).2.2.2]
        exact e1
    · rintro ⟨rfl, e⟩
      exact ⟨st, .inl ⟨out, rfl⟩, e⟩

end X7.AR
