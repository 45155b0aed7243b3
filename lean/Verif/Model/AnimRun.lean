import Verif.Model.Anim
import Verif.Model.Gif

/-!
Model of animations, holders and builders as objects that a program goes on changing (x7/geom/anim.py): `Animation` (56-62),
`AnimationGeneric` (198-206), `AnimationHolder` (277-285), `Builder.__init__` (444-450), `build_one`/`build_all` (452-464), the writing end
of `save_animation` (542-573) and `run` (575-577); and of `SimpleAnimation.save_animation` (x7/geom/anim_simple.py:92-117).

Animations, holders and builders are numbered in the order of their creation; points are on the heap of `PH`. The functions given to
generic animations may do anything to points, nothing to animations, holders and builders. Files are a map from paths to contents.
Simplifications: paths given end in `.gif` (PIL chooses the format by the ending); the platform is not iOS; the programs started to show
a file change no file.
-/

noncomputable section

namespace X7.AR

open Anim Gif

/-- The function of a generic animation: of the time, the object `orig`, the object `point` and the objects as they are; afterwards the
objects, and the numbers it returns. -/
abbrev GFunc := TVal → ℕ → ℕ → PH.Heap ℝ → PH.Heap ℝ × Except PyErr (List ℝ)

/-- An animation: one of the four kinds of `Anim`, the base class, or a generic one, whose `orig` is handed to its function. -/
inductive AObj
  | std (a : Anim.Anim)
  | plain (pt : ℕ) (orig : Pt ℝ)
  | generic (pt orig : ℕ) (func : GFunc)

/-- The arguments of the constructors of animations. -/
inductive MkArg
  | linear (pt target : ℕ)
  | linearFunc (pt target : ℕ) (func : TFunc)
  | sinusoidal (pt target : ℕ) (frequency offset : ℝ)
  | circular (pt : ℕ) (radius frequency offset : ℝ)
  | plain (pt : ℕ)
  | generic (pt : ℕ) (func : GFunc)

def liftStd (h : PH.Heap ℝ) : Except PyErr Anim.Anim → PH.Heap ℝ × Except PyErr AObj
  | .ok a => (h, .ok (.std a))
  | .error e => (h, .error e)

/-- anim.py:56-58, 198-202, 212-217, 230-232, 241-247, 260-266 the constructors. `orig` of a generic animation is a new point object. -/
def mk (h : PH.Heap ℝ) : MkArg → PH.Heap ℝ × Except PyErr AObj
  | .linear pt target => liftStd h (mkLinear h pt target)
  | .linearFunc pt target func => liftStd h (mkLinearFunc h pt target func)
  | .sinusoidal pt target frequency offset => liftStd h (mkSinusoidal h pt target frequency offset)
  | .circular pt radius frequency offset => liftStd h (mkCircular h pt radius frequency offset)
  | .plain pt =>
    match PH.xy h pt with
    | .ok p => (h, .ok (.plain pt p))
    | .error e => (h, .error e)
  | .generic pt func =>
    match h[pt]? with
    | some (.point x y _) => (h ++ [.point x y none], .ok (.generic pt h.length func))
    | _ => (h, .error .value)

/-- anim.py:60-62, 204-206 and `Anim.update`: `update(t)`. `setxy` takes two numbers, any other count is a `TypeError`. -/
def upd (h : PH.Heap ℝ) (a : AObj) (t : TVal) : PH.Heap ℝ × Option PyErr :=
  match a with
  | .std a =>
    match Anim.update h a t with
    | .ok h' => (h', none)
    | .error e => (h, some e)
  | .plain _ _ => (h, some .notImplemented)
  | .generic pt orig func =>
    match func t orig pt h with
    | (h1, .error e) => (h1, some e)
    | (h1, .ok [x, y]) =>
      match setxy h1 pt x y with
      | .ok h2 => (h2, none)
      | .error e => (h1, some e)
    | (h1, .ok _) => (h1, some .type)

/-- anim.py:283-285 the loop of `AnimationHolder.update(t)`. -/
def updIds (anims : List AObj) : PH.Heap ℝ → List ℕ → TVal → PH.Heap ℝ × Option PyErr
  | h, [], _ => (h, none)
  | h, i :: rest, t =>
    match anims[i]? with
    | none => (h, some .attribute)
    | some a =>
      match upd h a t with
      | (h', none) => updIds anims h' rest t
      | (h', some e) => (h', some e)

/-- What a file holds: a single image, an animation with its milliseconds per frame, or another file optimised by gifsicle. -/
inductive FileC (I : Type)
  | image (im : I)
  | debugImage
  | gif (frames : List I) (ms : ℤ)
  | optimized (c : FileC I)

abbrev Files (I : Type) := Str → Option (FileC I)

def Files.write {I : Type} (f : Files I) (path : Str) (c : FileC I) : Files I := fun p => if p = path then some c else f p

/-- Library assumption: `pygifsicle.optimize(source, destination)` is a `ValueError` if there is no file `source`. -/
def optimize {I : Type} (f : Files I) (source destination : Str) : Files I × Option PyErr :=
  match f source with
  | some c => (f.write destination (.optimized c), none)
  | none => (f, some .value)

/-- `sys.platform`. -/
inductive Platform
  | darwin | linux | other
  deriving DecidableEq

/-- anim.py:27 `TMP_ANIM`. -/
def tmpAnim : Platform → Str
  | .darwin => "/tmp/anim.gif".toList
  | _ => "anim.gif".toList

/-- anim.py:543-545 the argument `output`: None and the empty string mean `TMP_ANIM`. -/
def outPath (pf : Platform) : Option Str → Str
  | none => tmpAnim pf
  | some s => if s = [] then tmpAnim pf else s

/-- anim.py:442-450 a `Builder`; `draw` is what `model.draw` into a new context gives when the points are as they are. -/
structure Bld (I : Type) where
  holder : ℕ
  duration : ℝ
  draw : PH.Heap ℝ → Except PyErr I
  images : List I

structure St (I : Type) where
  heap : PH.Heap ℝ
  anims : List AObj
  holders : List (List ℕ)
  builders : List (Bld I)
  files : Files I

/-- anim.py:452-464 the frames from `i` on, `k` of them. -/
def frames {I : Type} (anims : List AObj) (ids : List ℕ) (draw : PH.Heap ℝ → Except PyErr I) (steps : ℤ) :
    (k i : ℕ) → PH.Heap ℝ → PH.Heap ℝ × Except PyErr (List I)
  | 0, _, h => (h, .ok [])
  | k + 1, i, h =>
    match updIds anims h ids (.num ((i : ℝ) / (steps : ℝ))) with
    | (h, some e) => (h, .error e)
    | (h, none) =>
      match draw h with
      | .error e => (h, .error e)
      | .ok im =>
        match frames anims ids draw steps k (i + 1) h with
        | (h, .ok ims) => (h, .ok (im :: ims))
        | (h, .error e) => (h, .error e)

variable {I C : Type} [LinearOrder C]

/-- anim.py:462-464 `build_all(steps)`: `self.images` is assigned when all frames are there; `range` of a negative number is empty. -/
def buildAllOn (s : St I) (b : ℕ) (steps : ℤ) : St I × Option PyErr :=
  match s.builders[b]? with
  | none => (s, some .attribute)
  | some bl =>
    match s.holders[bl.holder]? with
    | none => (s, some .attribute)
    | some ids =>
      match frames s.anims ids bl.draw steps steps.toNat 0 s.heap with
      | (h, .error e) => ({ s with heap := h }, some e)
      | (h, .ok ims) => ({ s with heap := h, builders := s.builders.set b { bl with images := ims } }, none)

/-- anim.py:542-573 `save_animation(output, images, autocrop)`: the frames are those of `Gif.saveAnimation`; on macOS two images for
debugging, the animation and `/tmp/anim_opt.gif` are written, elsewhere nothing. `writing` is the part from line 560 on. -/
def writing (pf : Platform) (f : Files I) (path : Str) (frames : List I) (ms : ℤ) : Files I × Option PyErr :=
  match pf with
  | .darwin =>
    let f := f.write "/tmp/images_rgba.png".toList .debugImage
    match frames with
    | [] => (f, some .index)
    | im :: _ =>
      let f := f.write "/tmp/images.png".toList (.image im)
      let f := f.write path (.gif frames ms)
      optimize f "/tmp/anim.gif".toList "/tmp/anim_opt.gif".toList
  | _ => (f, none)

/-- anim.py:542-573 `save_animation(output, images, autocrop)`; no images given (None or an empty list) means `self.images`. -/
def saveOn (pil : PIL I C) (pf : Platform) (s : St I) (b : ℕ) (output : Option Str) (images : List I) (autocrop : Bool) :
    St I × Option PyErr :=
  match s.builders[b]? with
  | none => (s, some .attribute)
  | some bl =>
    let images := if images = [] then bl.images else images
    match saveAnimation pil bl.duration autocrop images with
    | .error e => (s, some e)
    | .ok (fr, ms) =>
      match writing pf s.files (outPath pf output) fr ms with
      | (f, e) => ({ s with files := f }, e)

/-- The calls of a program. -/
inductive Op (I : Type)
  | pt (o : PH.POp ℝ)
  | mk (a : MkArg)
  | newHolder
  | add (holder anim : ℕ)
  | update (holder : ℕ) (t : TVal)
  | newBuilder (animations : Option ℕ) (duration : ℝ) (draw : PH.Heap ℝ → Except PyErr I)
  | buildAll (builder : ℕ) (steps : ℤ)
  | save (builder : ℕ) (output : Option Str) (images : List I) (autocrop : Bool)
  | run (builder : ℕ) (steps : ℤ) (output : Option Str)

/-- anim.py:277-285, 444-450, 462-464, 542-577: one call. `animations or AnimationHolder()` (447): a holder is true whatever it holds. -/
def step (pil : PIL I C) (pf : Platform) (s : St I) : Op I → St I × Option PyErr
  | .pt o =>
    match PH.step s.heap o with
    | (h, e) => ({ s with heap := h }, e)
  | .mk a =>
    match mk s.heap a with
    | (h, .ok o) => ({ s with heap := h, anims := s.anims ++ [o] }, none)
    | (h, .error e) => ({ s with heap := h }, some e)
  | .newHolder => ({ s with holders := s.holders ++ [[]] }, none)
  | .add k a =>
    match s.holders[k]? with
    | some ids => ({ s with holders := s.holders.set k (ids ++ [a]) }, none)
    | none => (s, some .attribute)
  | .update k t =>
    match s.holders[k]? with
    | some ids =>
      match updIds s.anims s.heap ids t with
      | (h, e) => ({ s with heap := h }, e)
    | none => (s, some .attribute)
  | .newBuilder (some k) duration draw =>
    match s.holders[k]? with
    | some _ => ({ s with builders := s.builders ++ [⟨k, duration, draw, []⟩] }, none)
    | none => (s, some .attribute)
  | .newBuilder none duration draw =>
    ({ s with holders := s.holders ++ [[]], builders := s.builders ++ [⟨s.holders.length, duration, draw, []⟩] }, none)
  | .buildAll b steps => buildAllOn s b steps
  | .save b output images autocrop => saveOn pil pf s b output images autocrop
  | .run b steps output =>
    match buildAllOn s b steps with
    | (s, some e) => (s, some e)
    | (s, none) => saveOn pil pf s b output [] true

/-- A history of calls; exceptions are caught by the caller. -/
def runOps (pil : PIL I C) (pf : Platform) (s : St I) (ops : List (Op I)) : St I := ops.foldl (fun s o => (step pil pf s o).1) s

/-- anim_simple.py:14-17, 93-95: None and the empty string mean `/tmp/sa.gif`. -/
def simplePath : Option Str → Str
  | none => "/tmp/sa.gif".toList
  | some s => if s = [] then "/tmp/sa.gif".toList else s

/-- anim_simple.py:92-117 `SimpleAnimation.save_animation(output)`: the files afterwards. -/
def simpleSave (pf : Platform) (f : Files I) (images : List I) (frame_display_time : ℝ) (output : Option Str) :
    Files I × Option PyErr :=
  let output := simplePath output
  let ms_per_frame := Drawing.pyInt (frame_display_time * 1000)
  match pf with
  | .darwin =>
    match images with
    | [] => (f, some .index)
    | im :: rest =>
      let f := f.write "/tmp/images.png".toList (.image im)
      let f := f.write output (.gif (im :: rest) ms_per_frame)
      optimize f output "/tmp/anim_opt.gif".toList
  | .linux =>
    match images with
    | [] => (f, some .index)
    | im :: rest =>
      let f := f.write "/tmp/images.png".toList (.image im)
      (f.write output (.gif (im :: rest) ms_per_frame), none)
  | .other => (f, some .notImplemented)

end X7.AR
