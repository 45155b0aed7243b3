import Mathlib.Tactic.Linarith
import Mathlib.Tactic.NormNum
import Verif.Props.AnimRun

/-! C96: generic animations, and the files written by builders and simple animations. -/

noncomputable section

namespace X7.AR

open Anim PH Gif

variable {I C : Type} [LinearOrder C] (pil : PIL I C) (pf : Platform)

/-! ### Generic animations -/

/-- A function of the time, the original and the present position, as a function given to a generic animation. -/
def pureFunc (f : ℝ → Pt ℝ → Pt ℝ → Pt ℝ) : GFunc := fun t orig pt h =>
  match t with
  | .num t =>
    match xy h orig, xy h pt with
    | .ok o, .ok p => (h, .ok [(f t o p).x, (f t o p).y])
    | .error e, _ => (h, .error e)
    | _, .error e => (h, .error e)
  | _ => (h, .error .type)

/-- **C96, generic animations.** A generic animation with a function of time, original and present position moves its point by that
function at every update, the original position being the one at creation whatever happens since; nothing else changes, the name of the
point stays. -/
theorem C96_generic (h : Heap ℝ) (pt : ℕ) (x y : ℝ) (n : Option String) (hp : h[pt]? = some (.point x y n))
    (f : ℝ → Pt ℝ → Pt ℝ → Pt ℝ) :
    ∃ h1 a, mk h (.generic pt (pureFunc f)) = (h1, .ok a) ∧ (∀ i < h.length, h1[i]? = h[i]?) ∧
      ∀ ts : List ℝ, ∃ h2, ts.foldl (fun s t => (upd s.1 a (.num t))) (h1, none) = (h2, none) ∧ h2.length = h1.length ∧
        (∀ i, i ≠ pt → h2[i]? = h1[i]?) ∧
        let p := ts.foldl (fun p t => f t ⟨x, y⟩ p) ⟨x, y⟩
        h2[pt]? = some (.point p.x p.y n) := by
  have hlt : pt < h.length := (List.getElem?_eq_some_iff.1 hp).1
  refine ⟨h ++ [.point x y none], .generic pt h.length (pureFunc f), by simp [mk, hp], fun i hi => ?_, ?_⟩
  · rw [List.getElem?_append_left hi]
  · have hp1 : (h ++ [PObj.point x y none])[pt]? = some (.point x y n) := by rw [List.getElem?_append_left hlt, hp]
    have ho1 : (h ++ [PObj.point x y none])[h.length]? = some (.point x y none) := by simp
    generalize h ++ [PObj.point x y none] = h1 at hp1 ho1
    have main : ∀ (ts : List ℝ) (h2 : Heap ℝ) (q : Pt ℝ), h2[pt]? = some (.point q.x q.y n) → h2.length = h1.length →
        (∀ i, i ≠ pt → h2[i]? = h1[i]?) →
        ∃ h3, ts.foldl (fun s t => (upd s.1 (.generic pt h.length (pureFunc f)) (.num t))) (h2, none) = (h3, none) ∧
          h3.length = h1.length ∧ (∀ i, i ≠ pt → h3[i]? = h1[i]?) ∧
          h3[pt]? = some (.point (ts.foldl (fun p t => f t ⟨x, y⟩ p) q).x (ts.foldl (fun p t => f t ⟨x, y⟩ p) q).y n) := by
      intro ts
      induction ts with
      | nil => intro h2 q e1 e2 e3; exact ⟨h2, rfl, e2, e3, e1⟩
      | cons t ts ih =>
        intro h2 q e1 e2 e3
        have ho2 : h2[h.length]? = some (.point x y none) := by rw [e3 _ (by omega), ho1]
        have x1 : xy h2 h.length = .ok ⟨x, y⟩ := by rw [PH.xy, ho2]
        have x2 : xy h2 pt = .ok q := by rw [PH.xy, e1]
        have hlt2 : pt < h2.length := (List.getElem?_eq_some_iff.1 e1).1
        have hu : upd h2 (.generic pt h.length (pureFunc f)) (.num t) =
            (h2.set pt (.point (f t ⟨x, y⟩ q).x (f t ⟨x, y⟩ q).y n), none) := by
          simp only [upd, pureFunc, x1, x2, setxy_point e1]
        obtain ⟨h3, q1, q2, q3, q4⟩ := ih (h2.set pt (.point (f t ⟨x, y⟩ q).x (f t ⟨x, y⟩ q).y n)) (f t ⟨x, y⟩ q)
          (by rw [List.getElem?_set_self hlt2]) (by simp [e2])
          (fun i hi => by rw [List.getElem?_set_ne (Ne.symm hi), e3 i hi])
        exact ⟨h3, by simp only [List.foldl_cons, hu, q1], q2, q3, q4⟩
    intro ts
    exact main ts h1 ⟨x, y⟩ hp1 rfl (fun _ _ => rfl)

/-- **C96, errors of one animation.** An animation of the base class never moves anything: every update raises `NotImplementedError`. A
generic animation whose function raises passes the exception on, one whose function returns another number of values than two raises
`TypeError`; then its point is as the function left it. -/
theorem C96_base_generic_errors (h h1 : Heap ℝ) (a : AObj) (pt : ℕ) :
    (mk h (.plain pt) = (h1, .ok a) → h1 = h ∧ ∀ h2 t, upd h2 a t = (h2, some .notImplemented)) ∧
      ∀ f, mk h (.generic pt f) = (h1, .ok a) → ∃ orig, ∀ h2 t h3,
        (∀ e, f t orig pt h2 = (h3, .error e) → upd h2 a t = (h3, some e)) ∧
        (∀ l, f t orig pt h2 = (h3, .ok l) → l.length ≠ 2 → upd h2 a t = (h3, some .type)) := by
  constructor
  · intro hm
    simp only [mk] at hm
    split at hm
    · obtain ⟨rfl, h2⟩ := Prod.mk.inj hm
      cases h2
      exact ⟨rfl, fun _ _ => rfl⟩
    · exact absurd (Prod.mk.inj hm).2 (by simp)
  · intro f hm
    simp only [mk] at hm
    split at hm
    · obtain ⟨-, h2⟩ := Prod.mk.inj hm
      cases h2
      refine ⟨h.length, fun h2 t h3 => ⟨fun e he => by simp only [upd, he], fun l hl hn => ?_⟩⟩
      simp only [upd, hl]
      match l, hn with
      | [], _ => rfl
      | [_], _ => rfl
      | [_, _], hn => simp at hn
      | _ :: _ :: _ :: _, _ => rfl
    · exact absurd (Prod.mk.inj hm).2 (by simp)

/-- Both kinds can be made. -/
example : mk [.point 0 0 none] (.plain 0) = ([.point 0 0 none], .ok (.plain 0 ⟨0, 0⟩)) ∧
    mk [.point 0 0 none] (.generic 0 fun _ _ _ h => (h, .ok [1, 2, 3])) =
      ([.point 0 0 none, .point 0 0 none], .ok (.generic 0 1 fun _ _ _ h => (h, .ok [1, 2, 3]))) := by
  have x0 : xy ([.point 0 0 none] : Heap ℝ) 0 = .ok ⟨0, 0⟩ := by rw [PH.xy]; rfl
  exact ⟨by simp [mk, x0], rfl⟩

/-- **C96 (false).** An animation shows the same at the same time: one whose function uses the present position does not, two updates at
time 0 move the point twice. -/
theorem C96_generic_counterexample : ∃ (h h1 h2 h3 : Heap ℝ) (a : AObj),
    mk h (.generic 0 (pureFunc fun _ _ p => ⟨p.x + 1, p.y⟩)) = (h1, .ok a) ∧ upd h1 a (.num 0) = (h2, none) ∧
      upd h2 a (.num 0) = (h3, none) ∧ xy h2 0 = .ok ⟨1, 0⟩ ∧ xy h3 0 = .ok ⟨2, 0⟩ := by
  refine ⟨[.point 0 0 none], [.point 0 0 none, .point 0 0 none], [.point 1 0 none, .point 0 0 none],
    [.point 2 0 none, .point 0 0 none], .generic 0 1 (pureFunc fun _ _ p => ⟨p.x + 1, p.y⟩), by simp [mk], ?_, ?_, ?_, ?_⟩
  · have x0 : xy ([.point 0 0 none, .point 0 0 none] : Heap ℝ) 0 = .ok ⟨0, 0⟩ := by rw [PH.xy]; rfl
    have x1 : xy ([.point 0 0 none, .point 0 0 none] : Heap ℝ) 1 = .ok ⟨0, 0⟩ := by rw [PH.xy]; rfl
    simp [upd, pureFunc, x0, x1, setxy, PH.step]
  · have x0 : xy ([.point 1 0 none, .point 0 0 none] : Heap ℝ) 0 = .ok ⟨1, 0⟩ := by rw [PH.xy]; rfl
    have x1 : xy ([.point 1 0 none, .point 0 0 none] : Heap ℝ) 1 = .ok ⟨0, 0⟩ := by rw [PH.xy]; rfl
    simp only [upd, pureFunc, x0, x1, setxy, PH.step]
    norm_num
  · rw [PH.xy]; rfl
  · rw [PH.xy]; rfl

/-- **C96 (false).** The original position is safe: it is handed to the function, which can move it. Here the function returns the
original position and then shifts it. -/
theorem C96_orig_counterexample : ∃ (f : GFunc) (h h1 h2 h3 : Heap ℝ) (a : AObj),
    mk h (.generic 0 f) = (h1, .ok a) ∧ upd h1 a (.num 0) = (h2, none) ∧
      upd h2 a (.num 0) = (h3, none) ∧ xy h2 0 = .ok ⟨0, 0⟩ ∧ xy h3 0 = .ok ⟨5, 0⟩ := by
  let f : GFunc := fun _ orig _ h =>
    match h[orig]? with
    | some (.point x y n) => (h.set orig (.point (x + 5) y n), .ok [x, y])
    | _ => (h, .error .attribute)
  refine ⟨f, [.point 0 0 none], [.point 0 0 none, .point 0 0 none], [.point 0 0 none, .point (0 + 5) 0 none],
    [.point (0 + 5) 0 none, .point (0 + 5 + 5) 0 none], .generic 0 1 f, by simp [mk], ?_, ?_, ?_, ?_⟩
  · simp [upd, f, setxy, PH.step]
  · simp [upd, f, setxy, PH.step]
  · rw [PH.xy]; rfl
  · rw [PH.xy]
    simp

/-! ### Files -/

/-- **C96 (finding).** Other than on macOS no call on a builder ever writes a file, whatever path is given and although no exception is
raised. -/
theorem C96_no_file_counterexample (hpf : pf ≠ .darwin) (s : St I) (ops : List (Op I)) : (runOps pil pf s ops).files = s.files := by
  have wr : ∀ f path fr ms, (writing (I := I) pf f path fr ms).1 = f := by
    intro f path fr ms
    cases pf with
    | darwin => exact absurd rfl hpf
    | linux => rfl
    | other => rfl
  have sv : ∀ (s : St I) b out ims ac, (saveOn pil pf s b out ims ac).1.files = s.files := by
    intro s b out ims ac
    unfold saveOn
    split
    · rfl
    · simp only
      split
      · rfl
      · exact wr _ _ _ _
  have st : ∀ (s : St I) o, (step pil pf s o).1.files = s.files := by
    intro s o
    cases o with
    | pt o => rfl
    | mk a => simp only [step]; split <;> rfl
    | newHolder => rfl
    | add k a => simp only [step]; split <;> rfl
    | update k t => simp only [step]; split <;> rfl
    | newBuilder an d dr =>
      cases an with
      | none => rfl
      | some k => simp only [step]; split <;> rfl
    | buildAll b n => exact (buildAllOn_rest s b n).2.2.1
    | save b out ims ac => exact sv s b out ims ac
    | run b n out =>
      have := (buildAllOn_rest s b n).2.2.1
      simp only [step]
      split
      · rename_i e; rw [e] at this; exact this
      · rename_i e; rw [e] at this; rw [sv]; exact this
  induction ops generalizing s with
  | nil => rfl
  | cons o ops ih =>
    simp only [runOps, List.foldl_cons] at ih ⊢
    rw [ih, st]

/-- The path on which an animation is written. -/
def target (pf : Platform) (output : Option Str) : Str :=
  match output with
  | some (c :: cs) => c :: cs
  | _ => if pf = .darwin then "/tmp/anim.gif".toList else "anim.gif".toList

theorem outPath_eq (output : Option Str) : outPath pf output = target pf output := by
  cases output with
  | none => cases pf <;> rfl
  | some s =>
    cases s with
    | nil => cases pf <;> rfl
    | cons c cs => simp [outPath, target]

theorem write_self (f : Files I) (p : Str) (c : FileC I) : f.write p c p = some c := if_pos rfl

theorem write_ne (f : Files I) {p q : Str} (c : FileC I) (h : p ≠ q) : f.write q c p = f p := if_neg h

theorem optimize_some (f : Files I) {p q : Str} {c : FileC I} (h : f p = some c) : optimize f p q = (f.write q (.optimized c), none) := by
  unfold optimize; rw [h]

theorem optimize_none (f : Files I) {p q : Str} (h : f p = none) : optimize f p q = (f, some .value) := by
  unfold optimize; rw [h]

/-- **C96, saving on macOS.** Whether or not an exception is raised in the end, if frames could be made of the images, the file at the
path given (`/tmp/anim.gif` if none is given) holds an animation of them; besides it, only two images for debugging and
`/tmp/anim_opt.gif` are written. The last is made of `/tmp/anim.gif`: if there is no such file, a `ValueError` is raised. -/
theorem C96_save (s s' : St I) (b : ℕ) (bl : Bld I) (hb : s.builders[b]? = some bl) (output : Option Str) (images : List I) (ac : Bool)
    (e : Option PyErr) (h : step pil .darwin s (.save b output images ac) = (s', e)) :
    let shown := if images = [] then bl.images else images
    (∀ err, saveAnimation pil bl.duration ac shown = .error err → s' = s ∧ e = some err) ∧
    ∀ fr ms, saveAnimation pil bl.duration ac shown = .ok (fr, ms) →
      (target .darwin output ≠ "/tmp/anim_opt.gif".toList → s'.files (target .darwin output) = some (.gif fr ms)) ∧
      (∀ p, p ≠ target .darwin output → p ≠ "/tmp/images_rgba.png".toList → p ≠ "/tmp/images.png".toList → p ≠ "/tmp/anim_opt.gif".toList →
        s'.files p = s.files p) ∧
      (target .darwin output = "/tmp/anim.gif".toList →
        e = none ∧ s'.files "/tmp/anim_opt.gif".toList = some (.optimized (.gif fr ms))) ∧
      (target .darwin output ≠ "/tmp/anim.gif".toList →
        (s.files "/tmp/anim.gif".toList = none → e = some .value) ∧
        ∀ old, s.files "/tmp/anim.gif".toList = some old → e = none ∧ s'.files "/tmp/anim_opt.gif".toList = some (.optimized old)) := by
  intro shown
  simp only [step, saveOn, hb] at h
  have q1 : ("/tmp/anim.gif".toList : Str) ≠ "/tmp/images_rgba.png".toList := by decide
  have q2 : ("/tmp/anim.gif".toList : Str) ≠ "/tmp/images.png".toList := by decide
  have q3 : ("/tmp/anim.gif".toList : Str) ≠ "/tmp/anim_opt.gif".toList := by decide
  constructor
  · intro err he
    simp only [shown] at he
    simp only [he, Prod.mk.injEq] at h
    exact ⟨h.1.symm, h.2.symm⟩
  · intro fr ms he
    have hfr : fr ≠ [] := by
      obtain ⟨h1, h2, -⟩ := save_ok pil he
      intro e0
      rw [e0] at h2
      exact h1 (List.length_eq_zero_iff.1 h2.symm)
    simp only [shown] at he
    simp only [he, outPath_eq] at h
    generalize target .darwin output = path at h ⊢
    cases fr with
    | nil => exact absurd rfl hfr
    | cons im rest =>
      have hwr : ∀ f : Files I, writing .darwin f path (im :: rest) ms =
          optimize (((f.write "/tmp/images_rgba.png".toList .debugImage).write "/tmp/images.png".toList (.image im)).write path
            (.gif (im :: rest) ms)) "/tmp/anim.gif".toList "/tmp/anim_opt.gif".toList := fun _ => rfl
      rw [hwr] at h
      clear hwr
      generalize "/tmp/anim.gif".toList = A at *
      generalize "/tmp/images_rgba.png".toList = R at *
      generalize "/tmp/images.png".toList = P at *
      generalize "/tmp/anim_opt.gif".toList = O at *
      by_cases hp : path = A
      · subst hp
        rw [optimize_some _ (write_self _ _ _)] at h
        simp only [Prod.mk.injEq] at h
        obtain ⟨rfl, rfl⟩ := h
        refine ⟨fun _ => ?_, fun p a1 a2 a3 a4 => ?_, fun _ => ⟨rfl, write_self _ _ _⟩, fun a => absurd rfl a⟩
        · simp only
          rw [write_ne _ _ q3, write_self]
        · simp only
          rw [write_ne _ _ a4, write_ne _ _ a1, write_ne _ _ a3, write_ne _ _ a2]
      · have hw : (((s.files.write R .debugImage).write P (.image im)).write path (.gif (im :: rest) ms)) A = s.files A := by
          rw [write_ne _ _ (Ne.symm hp), write_ne _ _ q2, write_ne _ _ q1]
        cases hold : s.files A with
        | none =>
          rw [optimize_none _ (hw.trans hold)] at h
          simp only [Prod.mk.injEq] at h
          obtain ⟨rfl, rfl⟩ := h
          refine ⟨fun _ => write_self _ _ _, fun p a1 a2 a3 a4 => ?_, fun a => absurd a hp, fun _ => ⟨fun _ => rfl, by simp⟩⟩
          simp only
          rw [write_ne _ _ a1, write_ne _ _ a3, write_ne _ _ a2]
        | some old =>
          rw [optimize_some _ (hw.trans hold)] at h
          simp only [Prod.mk.injEq] at h
          obtain ⟨rfl, rfl⟩ := h
          refine ⟨fun a => ?_, fun p a1 a2 a3 a4 => ?_, fun a => absurd a hp, fun _ => ⟨by simp, ?_⟩⟩
          · simp only
            rw [write_ne _ _ a, write_self]
          · simp only
            rw [write_ne _ _ a4, write_ne _ _ a1, write_ne _ _ a3, write_ne _ _ a2]
          · rintro o ho
            injection ho with ho
            subst ho
            exact ⟨rfl, write_self _ _ _⟩

theorem frames_length (anims : List AObj) (ids : List ℕ) (draw : Heap ℝ → Except PyErr I) (steps : ℤ) : ∀ (k i : ℕ) (h h' : Heap ℝ)
    (ims : List I), frames anims ids draw steps k i h = (h', .ok ims) → ims.length = k := by
  intro k
  induction k with
  | zero => intro i h h' ims e; simp only [frames, Prod.mk.injEq, Except.ok.injEq] at e; rw [← e.2]; rfl
  | succ k ih =>
    intro i h h' ims e
    simp only [frames] at e
    split at e
    · simp at e
    · split at e
      · simp at e
      · split at e
        · rename_i e2
          simp only [Prod.mk.injEq, Except.ok.injEq] at e
          rw [← e.2, List.length_cons, ih _ _ _ _ e2]
        · simp at e

/-- **C96, run on macOS.** If `run(steps, output)` ends without exception, there was at least one step, and the file at the path given
holds an animation of `steps` frames, all together lasting at most the duration and less than a millisecond per frame less. -/
theorem C96_run (s s' : St I) (b : ℕ) (bl : Bld I) (hb : s.builders[b]? = some bl) (hd : 0 ≤ bl.duration) (steps : ℤ) (output : Option Str)
    (h : step pil .darwin s (.run b steps output) = (s', none)) :
    0 < steps ∧ (∃ ims, s'.builders[b]? = some { bl with images := ims } ∧ (ims.length : ℤ) = steps) ∧
    (target .darwin output ≠ "/tmp/anim_opt.gif".toList → ∃ fr ms, s'.files (target .darwin output) = some (.gif fr ms) ∧
      (fr.length : ℤ) = steps ∧ (ms : ℝ) * steps ≤ 1000 * bl.duration ∧ 1000 * bl.duration < ms * steps + steps) := by
  simp only [step] at h
  split at h
  · simp at h
  · rename_i s1 e1
    have hims : ∃ ims, s1.builders[b]? = some { bl with images := ims } ∧ ims.length = steps.toNat := by
      unfold buildAllOn at e1
      simp only [hb] at e1
      split at e1
      · simp at e1
      · split at e1
        · simp at e1
        · rename_i ims e2
          simp only [Prod.mk.injEq, and_true] at e1
          subst e1
          exact ⟨ims, by simp only; rw [List.getElem?_set_self (List.getElem?_eq_some_iff.1 hb).1], frames_length _ _ _ _ _ _ _ _ _ e2⟩
    obtain ⟨ims, hi1, hi2⟩ := hims
    have hs := C96_save pil s1 s' b _ hi1 output [] true none (by simpa only [step] using h)
    simp only [if_true] at hs
    obtain ⟨hs1, hs2⟩ := hs
    cases hsv : saveAnimation pil bl.duration true ims with
    | error err => have := (hs1 err hsv).2; simp at this
    | ok r =>
      obtain ⟨fr, ms⟩ := r
      obtain ⟨a1, -, -, -⟩ := hs2 fr ms hsv
      obtain ⟨c1, c2, c3⟩ := C82_duration pil bl.duration hd true ims fr ms hsv
      have hne := (save_ok pil hsv).1
      have hpos : 0 < ims.length := List.length_pos_iff.2 hne
      have hst : (ims.length : ℤ) = steps := by omega
      refine ⟨by omega, ⟨ims, ?_, hst⟩, fun hp => ⟨fr, ms, a1 hp, by omega, ?_, ?_⟩⟩
      · have := (saveOn_rest pil .darwin s1 b output [] true).2.2.2
        rw [h] at this
        rw [show s'.builders = s1.builders from this, hi1]
      · have : (fr.length : ℝ) = steps := by rw [c1]; exact_mod_cast hst
        rw [← this]; exact c2
      · have : (fr.length : ℝ) = steps := by rw [c1]; exact_mod_cast hst
        rw [← this]; exact c3

/-- **C96, no steps.** `run` of a builder with no steps is an `IndexError`: nothing is written and nothing moves, the images of earlier
builds are gone. -/
theorem C96_no_steps (s : St I) (b : ℕ) (bl : Bld I) (hb : s.builders[b]? = some bl) (ids : List ℕ)
    (hh : s.holders[bl.holder]? = some ids) (steps : ℤ) (hs : steps ≤ 0) (output : Option Str) :
    ∃ s', step pil pf s (.run b steps output) = (s', some .index) ∧ s'.files = s.files ∧ s'.heap = s.heap ∧
      s'.builders[b]? = some { bl with images := [] } := by
  have e : steps.toNat = 0 := by omega
  have hlt := (List.getElem?_eq_some_iff.1 hb).1
  have hb2 : (s.builders.set b { bl with images := [] })[b]? = some { bl with images := [] } := List.getElem?_set_self hlt
  refine ⟨{ s with builders := s.builders.set b { bl with images := [] } }, ?_, rfl, rfl, hb2⟩
  simp only [step, buildAllOn, hb, hh, e, frames, saveOn, hb2, if_true]
  simp [saveAnimation, autocropped]

/-- **C96, simple animations.** `SimpleAnimation.save_animation` writes all images in order to the path given (`/tmp/sa.gif` if none),
each shown for the whole milliseconds of the display time; without images it is an `IndexError`; on platforms other than macOS and Linux
a `NotImplementedError`; then nothing is written. -/
theorem C96_simple (f : Files I) (images : List I) (dt : ℝ) (output : Option Str) (path : Str)
    (hp : path = match output with | some (c :: cs) => c :: cs | _ => "/tmp/sa.gif".toList) :
    (pf = .other → simpleSave pf f images dt output = (f, some .notImplemented)) ∧
    (pf ≠ .other → images = [] → simpleSave pf f images dt output = (f, some .index)) ∧
    (pf ≠ .other → images ≠ [] → 0 ≤ dt → ∃ f', simpleSave pf f images dt output = (f', none) ∧
      (path ≠ "/tmp/anim_opt.gif".toList → f' path = some (.gif images ⌊dt * 1000⌋)) ∧
      (pf = .darwin → f' "/tmp/anim_opt.gif".toList = some (.optimized (.gif images ⌊dt * 1000⌋))) ∧
      ∀ p, p ≠ path → p ≠ "/tmp/images.png".toList → p ≠ "/tmp/anim_opt.gif".toList → f' p = f p) := by
  have hp2 : simplePath output = path := by
    rw [hp]
    cases output with
    | none => rfl
    | some s =>
      cases s with
      | nil => rfl
      | cons c cs => unfold simplePath; exact if_neg (List.cons_ne_nil c cs)
  refine ⟨?_, ?_, ?_⟩
  · rintro rfl; rfl
  · rintro h1 rfl
    cases pf with
    | darwin => rfl
    | linux => rfl
    | other => exact absurd rfl h1
  · intro h1 h2 h3
    have hms : Drawing.pyInt (dt * 1000) = ⌊dt * 1000⌋ := by rw [Drawing.pyInt, if_pos (by positivity)]
    cases images with
    | nil => exact absurd rfl h2
    | cons im rest =>
      have hl : simpleSave .linux f (im :: rest) dt output = ((f.write "/tmp/images.png".toList (.image im)).write (simplePath output)
          (.gif (im :: rest) (Drawing.pyInt (dt * 1000))), none) := rfl
      have hd : simpleSave .darwin f (im :: rest) dt output = optimize ((f.write "/tmp/images.png".toList (.image im)).write
          (simplePath output) (.gif (im :: rest) (Drawing.pyInt (dt * 1000)))) (simplePath output) "/tmp/anim_opt.gif".toList := rfl
      rw [hp2, hms] at hl hd
      clear hp hp2
      generalize "/tmp/images.png".toList = P at *
      generalize "/tmp/anim_opt.gif".toList = O at *
      cases pf with
      | other => exact absurd rfl h1
      | linux =>
        rw [hl]
        refine ⟨_, rfl, fun _ => write_self _ _ _, fun a => (by cases a), fun p a1 a2 a3 => ?_⟩
        rw [write_ne _ _ a1, write_ne _ _ a2]
      | darwin =>
        rw [hd, optimize_some _ (write_self _ _ _)]
        refine ⟨_, rfl, fun a => ?_, fun _ => write_self _ _ _, fun p a1 a2 a3 => ?_⟩
        · rw [write_ne _ _ a, write_self]
        · rw [write_ne _ _ a3, write_ne _ _ a1, write_ne _ _ a2]

/-- **C96 (false).** A simple animation of `steps` steps plays each step once: the file has every one of the `steps + 1` images twice. -/
theorem C96_simple_counterexample (draw part : ℝ → I) (t_low t_high : ℝ) (steps : ℕ) (hs : 0 < steps) (f : Files I) (dt : ℝ) (hdt : 0 ≤ dt) :
    ∃ images f', animate (fun t => some (draw t)) part t_low t_high steps [] = .ok (images, true) ∧
      simpleSave .linux f images dt none = (f', none) ∧ f' "/tmp/sa.gif".toList = some (.gif images ⌊dt * 1000⌋) ∧
      images.length = 2 * (steps + 1) ∧
      ∀ k ≤ steps, images[2 * k]? = some (draw (t_low + (k : ℝ) / steps * (t_high - t_low))) ∧ images[2 * k + 1]? = images[2 * k]? := by
  obtain ⟨images, h1, h2, h3⟩ := C62_simple_counterexample draw part t_low t_high steps hs []
  have hne : images ≠ [] := by
    intro e; rw [e] at h3; simp at h3
  obtain ⟨f', e1, e2, -, -⟩ := (C96_simple .linux f images dt none _ rfl).2.2 (by simp) hne hdt
  refine ⟨images, f', h1, e1, e2 (by decide), by simpa using h3, ?_⟩
  have key : ∀ (g : ℕ → I) (n k : ℕ), k < n → ((List.range n).flatMap fun i => [g i, g i])[2 * k]? = some (g k) ∧
      ((List.range n).flatMap fun i => [g i, g i])[2 * k + 1]? = some (g k) := by
    intro g n
    induction n generalizing g with
    | zero => intro k hk; omega
    | succ n ih =>
      intro k hk
      rw [List.range_succ_eq_map, List.flatMap_cons, List.flatMap_map]
      cases k with
      | zero => simp
      | succ k =>
        have := ih (fun i => g (i + 1)) k (by omega)
        simp only [List.cons_append, List.nil_append, Nat.succ_eq_add_one]
        rw [show 2 * (k + 1) = 2 * k + 1 + 1 by ring]
        simp only [List.getElem?_cons_succ]
        exact this
  intro k hk
  have := key (fun i => draw (t_low + (i : ℝ) / steps * (t_high - t_low))) (steps + 1) k (by omega)
  rw [h2, List.nil_append]
  exact ⟨this.1, by rw [this.1, this.2]⟩

/-! ### The hypotheses can be met -/

/-- A point with two circular animations and a generic one on another point, in one holder, a builder with that holder. -/
def demo (draw : Heap ℝ → Except PyErr I) : List (Op I) :=
  [.pt (.mkPoint 0 0 none), .pt (.mkPoint 9 9 none), .mk (.circular 0 2 1 0), .mk (.circular 0 5 1 0),
    .mk (.generic 1 (pureFunc fun t o _ => ⟨o.x + t, o.y⟩)), .newHolder, .add 0 0, .add 0 2, .add 0 1, .newBuilder (some 0) 2 draw]

def demoAnims : List AObj :=
  [.std (.circular 0 ⟨0, 0⟩ 2 1 0), .generic 1 2 (pureFunc fun t o _ => ⟨o.x + t, o.y⟩), .std (.circular 0 ⟨0, 0⟩ 5 1 0)]

theorem demo_state (draw : Heap ℝ → Except PyErr I) : runOps pil pf emptySt (demo draw) =
    ⟨[.point 0 0 none, .point 9 9 none, .point 9 9 none],
      [.std (.circular 0 ⟨0, 0⟩ 2 1 0), .std (.circular 0 ⟨0, 0⟩ 5 1 0), .generic 1 2 (pureFunc fun t o _ => ⟨o.x + t, o.y⟩)],
      [[0, 2, 1]], [⟨0, 2, draw, []⟩], fun _ => none⟩ := by
  simp [runOps, demo, step, emptySt, PH.step, mk, liftStd, mkCircular]

example (draw : Heap ℝ → Except PyErr I) : let s := runOps pil pf emptySt (demo draw)
    (∃ pops, s.heap = PH.run [] pops) ∧ Holds s 0 demoAnims ∧ Steady s.heap demoAnims ∧
    (∀ c ∈ [Op.update 0 (.num 3), .buildAll 0 5, .run 0 0 none, .save 0 none [] false], Moves s demoAnims c) ∧
    ∀ t a, a ∈ demoAnims → ∃ p, AtO s.heap a t p := by
  intro s
  have hs : s = _ := demo_state pil pf draw
  have hh : Holds s 0 demoAnims := by rw [hs]; exact ⟨[0, 2, 1], rfl, rfl⟩
  have h2 : s.heap[2]? = some (.point 9 9 none) := by rw [hs]; rfl
  have r2 : Reads s.heap 2 ⟨9, 9⟩ := .point h2
  have hb : s.builders[0]? = some ⟨0, 2, draw, []⟩ := by rw [hs]; rfl
  have hg : ∀ (t : ℝ) (h2 : Heap ℝ), (pureFunc (fun t o _ => ⟨o.x + t, o.y⟩) (.num t) 2 1 h2).1 = h2 := by
    intro t h2; simp only [pureFunc]; split <;> rfl
  refine ⟨⟨[.mkPoint 0 0 none, .mkPoint 9 9 none, .mkPoint 9 9 none], by rw [hs]; simp [PH.run, PH.step]⟩, hh, ⟨?_, ?_, ?_⟩, ?_, ?_⟩
  · intro a ha
    rw [hs]
    simp only [demoAnims, List.mem_cons, List.not_mem_nil, or_false] at ha
    rcases ha with rfl | rfl | rfl
    · exact ⟨0, 0, none, rfl⟩
    · exact ⟨9, 9, none, rfl⟩
    · exact ⟨0, 0, none, rfl⟩
  · intro a ha g hgm
    simp only [demoAnims, List.mem_cons, List.not_mem_nil, or_false] at ha
    rcases ha with rfl | rfl | rfl
    · simp [AObj.reads, Anim.target] at hgm
    · simp only [AObj.reads, Option.mem_def, Option.some.injEq] at hgm
      subst hgm
      refine ⟨by simp [isBasePoint, h2], fun b hb hd => ?_⟩
      have : b.pt = 2 := by
        generalize b.pt = j at hd
        cases hd with
        | point _ => rfl
        | rel e _ => rw [h2] at e; cases e
        | pcalc e _ _ => rw [h2] at e; cases e
      simp only [demoAnims, List.mem_cons, List.not_mem_nil, or_false] at hb
      rcases hb with rfl | rfl | rfl <;> simp [AObj.pt, Anim.pt] at this
    · simp [AObj.reads, Anim.target] at hgm
  · intro a ha
    simp only [demoAnims, List.mem_cons, List.not_mem_nil, or_false] at ha
    rcases ha with rfl | rfl | rfl
    · trivial
    · intro t h
      cases t with
      | num t => exact hg t h
      | pair x y => rfl
      | none => rfl
    · trivial
  · intro c hc
    simp only [List.mem_cons, List.not_mem_nil, or_false] at hc
    rcases hc with rfl | rfl | rfl | rfl
    · exact ⟨_, hh, List.Subset.refl _⟩
    · exact ⟨_, _, hb, hh, List.Subset.refl _⟩
    · exact ⟨_, _, hb, hh, List.Subset.refl _⟩
    · trivial
  · intro t a ha
    simp only [demoAnims, List.mem_cons, List.not_mem_nil, or_false] at ha
    rcases ha with rfl | rfl | rfl
    · exact ⟨_, .std .circular⟩
    · refine ⟨⟨9 + t, 9⟩, .generic r2 fun h3 p e1 e2 => ?_⟩
      simp only [pureFunc, e1, e2]
    · exact ⟨_, .std .circular⟩

/-- A run of two steps on macOS ends without exception. -/
example : ∃ s', step toy .darwin (runOps toy .darwin emptySt [.newBuilder none 2 fun _ => .ok ⟨2, 2, .rgba, [], none⟩]) (.run 0 2 none) =
    (s', none) := by
  have hsv : ∃ r, saveAnimation toy 2 true [⟨2, 2, .rgba, [], none⟩, ⟨2, 2, .rgba, [], none⟩] = .ok r := by
    simp [saveAnimation, autocropped, Drawing.autocropBox, Drawing.maxBBox, Drawing.maxBBoxGo, Drawing.bboxMax, scaled, toy, resizeAll,
      resizeForGif, gifFrames, toRgb, transparentAll, rgbToTransparent]
  obtain ⟨⟨fr, ms⟩, hsv⟩ := hsv
  have hb : buildAllOn (runOps toy .darwin emptySt [.newBuilder none 2 fun _ => .ok ⟨2, 2, .rgba, [], none⟩]) 0 2 =
      (⟨[], [], [[]], [⟨0, 2, fun _ => .ok ⟨2, 2, .rgba, [], none⟩,
            [⟨2, 2, .rgba, [], none⟩, ⟨2, 2, .rgba, [], none⟩]⟩], fun _ => none⟩, none) := by
    simp [runOps, step, emptySt, buildAllOn, frames, updIds]
  simp only [step, hb]
  generalize hr : saveOn toy .darwin _ 0 none [] true = r
  obtain ⟨s', e⟩ := r
  have := C96_save toy ⟨[], [], [[]], [⟨0, 2, fun _ => .ok ⟨2, 2, .rgba, [], none⟩, [⟨2, 2, .rgba, [], none⟩, ⟨2, 2, .rgba, [], none⟩]⟩],
    fun _ => none⟩ s' 0 ⟨0, 2, fun _ => .ok ⟨2, 2, .rgba, [], none⟩, [⟨2, 2, .rgba, [], none⟩, ⟨2, 2, .rgba, [], none⟩]⟩ rfl none [] true e hr
  obtain ⟨-, h2⟩ := this
  obtain ⟨-, -, h3, -⟩ := h2 fr ms hsv
  rw [(h3 rfl).1]
  exact ⟨s', rfl⟩

end X7.AR
