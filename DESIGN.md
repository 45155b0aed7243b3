# Formal model of x7-geom in Lean 4

Sources: `/repo/x7/geom/*.py` (pinned, read as text, never run).
Lean project: `/verif/lean` (Lean 4.33.0, Mathlib modules imported one by one).

## 1. Layout

* `Verif/Py/*.lean` – the small pieces of Python/library behaviour the code leans on
  (exceptions as values, `iter_rotate`, `t_range`, `str.partition`, ordered dict, `%`, `bisect_right`).
* `Verif/Model/*.lean` – the model, one Lean definition per Python function, each with a comment citing file and lines.
* `Verif/Spec/*.lean` – small independent specifications (regions of boxes, Bernstein polynomial, affine maps, ...).
* `Verif/Lemmas/*.lean` – helper lemmas.
* `Verif/Props/*.lean` – the property theorems (named `Cnn_...`) and, beside each, `example`s showing that its
  hypotheses are met by a concrete non-trivial case. Counterexamples to documented claims are theorems named
  `Cnn_..._counterexample`.

## 2. Modelling conventions

* Python exceptions: functions that can raise return `Except PyErr α`; the constructors of `PyErr` are the
  exception classes that occur. State-changing functions that can raise part-way return the state reached as well.
* Numbers. Code that only compares and takes min/max (most of `BBox`) is modelled over any linear order, so the theorems
  hold for Python ints and for IEEE doubles other than NaN. Code with + - * / is modelled over an arbitrary linearly
  ordered field `K` (ℚ and ℝ are instances), i.e. exact arithmetic. Code with sqrt/hypot/sin/cos/atan2/tan is modelled over ℝ.
  Unless it says otherwise a property about arithmetic is a statement about exact arithmetic. C85 and later properties
  "under rounding" are about the same functions with every operation rounded, with `C85_exact_model` as the link.
  NaN coordinates of boxes are the subject of C97; overflow, subnormal numbers and infinities that of C98, for boxes, midpoints
  and transformations. **Elsewhere overflow, subnormal numbers, NaN and infinities are not modelled.**
* Mutable objects: where aliasing or history matters (points with bases, `Transform` with its stack and cached inverse,
  `Group` dictionaries, animations, copies sharing a transform) the model has an explicit heap or state and the theorems
  quantify over operation lists. Elsewhere objects are values.
* Division by zero is an explicit error branch (`PyErr.zeroDivision`), never Lean's `x/0 = 0`.

## 3. Trusted base

* Lean's kernel, and the standard axioms `propext`, `Classical.choice`, `Quot.sound` (listed per theorem by
  `#print axioms`; see section 6). No own axioms, no `sorry`, no `native_decide`/`bv_decide`.
* The reading of the Python source recorded in the model (the code is never run).
* Assumed behaviour of code outside the repository:
  * `x7.lib.iters.iter_rotate(xs, count=2, offset=0)`: for `i` in `range(len(xs))` the tuple
    `xs[(i+offset+k) % len(xs)]`, `k < count`. (Not in the sandbox; inferred from its uses and from expected test data:
    e.g. rectangle and rounded-rectangle control points in `tests/x7/geom/test_model.td`.)
  * `x7.lib.iters.t_range(steps, low, high)`: the `steps+1` values `low + i*(high-low)/steps`, `steps >= 1`.
  * `x7.lib.iters.xy_flatten`: concatenation of coordinate pairs.
  * numpy: `np.dot`, `np.linalg.inv` (fails exactly on singular matrices), `np.hypot`, `np.interp`
    (piecewise linear, clamped), `np.linspace`.
  * scipy `RegularGridInterpolator` (bilinear on `ij`-indexed grid, linear extrapolation).
  * `bisect.bisect_right`, `sorted` (stable ascending sort), `dict` (insertion ordered; a loop over a dict that
    is changed meanwhile follows the rules documented for Python 3.8, see `Model/IterChange.lean`).
  * Floats (C85 on): each operation `+ - * /` gives the exact result rounded by a function with the properties of the
    structure `Rnd` (Model/Rnd.lean): monotone, odd, relative error at most `u`, compatible with doubling, idempotent, exact
    on integers up to `1/u`. True of IEEE 754 round-to-nearest unless a result overflows or is subnormal; `Rnd.binary`
    proves it for rounding to p digits with unbounded exponent. `C98_transfer` shows it of the floats of finite range of
    Model/Ieee.lean, unless a result is out of range. There NaN is one value and the two zeros are one value; that `x*y+z` may be
    fused (one rounding) in `np.dot` is covered (`DotMode`). That the processor rounds to nearest, ties to even, is assumed.
    `sum` of floats adds from the left (up to Python 3.11) or with Neumaier's compensation (from 3.12); C87 covers both.
    In C87 `math.hypot` has a bounded relative error and cosine and sine a bounded error; both bounds are hypotheses.
    In C104 `math.hypot` is within one unit of the last digit and treats infinities and NaN as IEEE 754 says; Python's `/` raises for
    a zero divisor, numpy's gives an infinity.
    In C88 `np.interp` rounds each operation of `slope*(x - xp[j]) + fp[j]`, and cosine and sine have a bounded error.
  * `math.hypot/sqrt/sin/cos/tan/atan2/radians/degrees` are the exact real functions (except where C87, C88 and C89 say otherwise).
  * PIL path/image objects are plain lists of points; rasterisation is not modelled. For saved animations (C82) PIL's image operations are parameters; what is assumed of sizes, modes and alpha is `PIL.Laws` in `Spec/Gif.lean`, and `palette.getcolor` is assumed to give a new colour the next entry.
    For C91 `alpha_composite` is PIL's integer formula, `ImageChops.offset` wraps around, `ImageChops.lighter` is the larger byte; the blur
    filter depends on pixels at most two away and copies the two outermost rows and columns, dimming keeps zero (`Laws` in `Spec/Pixel.lean`).
    For C92 the choice of an adaptive palette is any function; `remap_palette` and `getcolor` are those of Pillow up to 8.

## 4. Per-property plan

| id | model | proof |
|----|-------|-------|
| C01 | tagged value `Val = pt | vec` with Python's dispatch of `__add__/__sub__/add_vector/sub_vector` | ring identities; case split on tags for the errors |
| C02 | `Vector` ops over K; length/unit over ℝ | ring, sqrt lemmas |
| C03 | rotate/angle over ℝ, atan2 = `Complex.arg` | trig identities, polar form |
| C04 | heap of point cells (plain/relative/calc), `xy` by recursion along bases with explicit failure on bad chains, mutation ops | induction over chain depth and op list |
| C05 | same heap, `fixed`/`copy` allocate new cells | frame lemma over op lists; counterexample for named copy |
| C06 | items as inductive type, parse as the Python loop | grammar as inductive predicate; soundness/completeness by induction |
| C07 | sum over `iter_rotate` | induction over lists; rotation/reversal lemmas |
| C08–C15 | `BBox` as `none | box xl yl xh yh` with unsorted states representable; order part generic over linear orders | lattice reasoning, op-list induction |
| C14 | documentation claims | counterexamples over ℤ/ℚ + the true versions |
| C16 | `transformed` via affine matrix | affine image of a box: coordinatewise monotonicity |
| C17–C20 | `Line` over K/ℝ | cross/dot algebra, interval reasoning |
| C21–C23 | `TState` = matrix, cached inverse, stack; ops as inductive type | refinement to function composition by induction over op lists; stack discipline by induction over a nested program syntax with exceptions |
| C24–C28 | derived transform operations | algebra |
| C29–C34 | `ControlPoint`, `bez_split`, `bez`, `bez_path`, `transform` | polynomial identities, list induction, convexity |
| C35 | non-linear transformer as arbitrary function | case split on kind |
| C36 | `add_one` on lists, with `sorted` argmax | list surgery lemma: cyclic segment list changes by splitting one segment |
| C37 | `offset_pt` over ℝ | vector algebra; counterexample for sign at limit |
| C38 | `transform_pts`/`simplify` | matrix algebra |
| C39–C41, C46 | element trees as an inductive type; drawing in a state monad over the context transform with exceptions | structural induction |
| C42–C44 | group as ordered dict of trees | invariants over add sequences; structural induction for lookup/iter; counterexamples for replace |
| C45 | heap of transforms shared by elements | counterexamples + partial theorems |
| C47–C48 | `DumpContext` state; expression AST for dumped text and an evaluator | injectivity of `prefix_n`; round trip |
| C49–C50 | control point generators over ℝ | algebra with kappa = 4/3·tan(π/8) |
| C51–C54 | angle helpers over ℝ / K | floor-mod lemmas, trig |
| C55 | pens and brushes as sums | case analysis |
| C56–C57 | grid functions, bilinear interpolation | finite sums, convexity |
| C58–C62 | animation state machines | op-list induction |
| C63–C64 | pixel boxes, palettes | order lemmas, byte case split |
| C65 | graph walk with fuel-free termination measure | well-founded recursion, list invariants |
| C66–C68 | colours, rounded rectangles under transforms, markers | case analysis, list lemmas |
| C69 | `draw` as a list of canvas operations; what a path becomes is an inductive relation in `Spec/Draw.lean` | induction over paths, determinism of the relation |
| C70–C71 | `as_curves`, `iter_elems_transformed` on element trees; outlines as point sets | structural induction, intermediate values for straight sides |
| C72 | `GroupBuilder`: group objects on a heap, builders, programs of calls | invariant of the heap (children have larger addresses, keys distinct), prefix order of histories, unfolding with fuel |
| C73 | `ElemCurve.offset` over ℝ: orientation by area, `offset_pt` of each control polygon vertex with its neighbours | indices modulo the length of the control polygon, C37 at each corner, equivariance under rotations |
| C74 | `==` of points, pens, transforms and elements (with names, relative points, dicts as lists of entries) | `==` is generated by swapping neighbouring dict entries; induction on such swaps for boxes, paths, copies, transforms and text |
| C75 | `round` of points, vectors, relative vectors (in the heap of C04), boxes and control points; the built-in `round` as the nearest multiple of `10^-n`, ties to even | uniqueness of the nearest multiple; monotone and odd; heap of C04 |
| C76 | `close` of points, vectors and control points over ℝ | triangle inequality; Bernstein weights are non-negative with sum 1 |
| C77 | `bez_intersect`, the search of `bez_self_intersect` over all pairs of segments, `ElemCurve.self_intersect`; the finder of the package `bezier` is a parameter with a soundness assumption | lists of appended records by index; then C65 with its hypotheses derived from the finder; names by C43 |
| C78 | `iter_elems` and `iter_elems_transformed` as generators: programs that interleave `next`, `close` and other use of transform objects, with any number of generators | a generator is the list of its remaining actions; the results of a full run as an invariant of all schedules; stack discipline of `with` |
| C79 | `bez_self_intersect` with control points as objects on a heap, including its writes to the control points of its argument; the call made by `ElemCurve.self_intersect` | refinement: a separation invariant of the loop over the segments relates the heap to the value model; frame of every object that existed before |
| C80 | fields and arrays as objects, with sharing and the interpolators kept after the first lookup; `==`, `uniform` | invariant of the kept interpolators over all programs; frame of every operation; fresh arrays of copies |
| C81 | `Model/BoxUpdate.lean`: the update on element values and on the heap of objects of C45, and `as_digi_points` | cases on the class; the stretch by ring on control points, permutations of corners by cases on the order of the points; the heap by lookups in the two writes, undo from C45_restore |
| C82 | `Model/Gif.lean`: histogram as dict in insertion order, sorted tuples, palette as list of entries; frames through a structure of PIL's operations | invariant of the histogram, sorted lists without repetition are determined by their elements, induction over the images; an instance of the library assumptions is given |
| C83 | `Model/SimpleAnim.lean`: contexts as matrix and list of shapes drawn, drawing functions as lists of calls, `next_step` and `animate` | induction over the calls and steps, with C24, C27, C28; refinement to the loop of C62 |
| C84 | `do_pickle` with both loops and the choice between one and many lines, on the model of `dump`; lines with their spaces; the table of `methods()` | loop invariant: the lines added stand for the items so far, each followed by a comma; induction over elements for depth and words |
| C85 | the same functions with a rounding after each operation; the order of summation of `np.dot` as a parameter; rounding to p binary digits as an instance | monotonicity of rounding, floats as its fixed points; corners by sign of the coefficient |
| C86 | the rounded functions of C85 for handles, sampling, paths, boxes and splitting | error calculus: a value with k roundings relative to a size; the path as a list of samples per pair of neighbours; monotonicity of rounding for the tolerance-free part |
| C87 | rounded versions of these functions; Python's `sum` plain and compensated; the matrix of a transform as a product from left and right | error calculus of C86; induction over sums and histories; whole numbers up to 1/u are floats; the error of an addition is a float and the compensation finds it |
| C88 | rounded versions of these functions; `np.interp` with each operation rounded | error calculus of C86 with division; monotonicity of rounding for all statements without tolerance |
| C89 | rounded versions of these methods; `math.hypot` a parameter with an assumed relative error | the computed denominator is exactly minus the computed cross product; monotonicity of rounding for the boxes; error calculus of C86 for the bounds; evaluation of the rounding for the counterexamples |
| C90 | the graph as a state with nodes and their lists, edges with links, marks; calls as steps that may raise; what validate prints as a list | an invariant of the state by induction over the history; parity of the number of records by induction over the pairs of segments; link invariant of the loop making edges |
| C91 | Model/Pixel.lean: RGBA images as functions from columns and rows to bytes; PIL's alpha_composite transcribed with its integer arithmetic, ImageChops.offset with wrapping; make_shadow line by line; contexts as in Model/Drawing.lean with these images. | Integer arithmetic for one pixel over another; induction over the rounds of make_shadow on the box that holds everything non-transparent; C63_image lifts it to every history of a context. |
| C92 | Model/Transparent.lean: palette images as entries, colours and the transparent entry; PIL's adaptive conversion and quantize as parameters; remap_palette and getcolor as in Pillow up to 8. | Case analysis on the entries; induction over the 256 rounds of palette_image for the stripes and for the colours. |
| C93 | the matchers branch by branch, with the comparison of floats a parameter; code with plot blocks as a tree of statements run on the two plot parameters | case analysis; induction over the tree of statements |
| C94 | four slots, each a number or None; comparisons with None fail; heap of boxes and calls on them | refinement to the boxes as values on whole boxes (so that C11–C16 hold of the objects); induction over histories |
| C95 | lines as pairs of references into the heap of points and vectors of C04, C05 | invariant of references; induction over histories |
| C96 | animations, holders, builders and files as numbered objects over the heap of points; functions of generic animations are arbitrary maps of that heap; frames as in C82 | frame invariant (only animated points move) over histories; induction over the animations of a holder and the frames |
| C97 | boxes over a linear order with one element NaN added; Python's `min`, `max` and comparisons as they are for NaN | case analysis along each axis; induction over the calls that made a box and over the list of points |
| C98 | numbers are NaN or an extended real; an operation rounds the exact result to the nearest multiple of the last place, which is bounded below, and gives infinities beyond the largest float | rounding is shown to be the nearest float; monotonicity carries containment through; error terms for underflow added to those of C85 |
| C99 | rounded versions of these functions over any rounding (Rnd); the computed cosine, sine, hypot, square root, t_range and the factor of the handles are parameters with error bounds | exact remainder for fmod, monotone rounding for containment, error calculus (Near) for bounds; the removal of duplicates is shown to keep the set of places |
| C100 | the list of strings given to print, by recursion over element trees; how leaf values are written is a parameter | mutual structural induction; uniqueness of sorted permutations for the order |
| C101 | texts as tokens, with the grammar and the constructors of Spec/Dump | texts are prefix codes: mutual induction over elements with reading as inverse for the values they are made of; reading of groups by induction |
| C102 | Model/IterChange.lean: dicts as tables with gaps and their iterators (number of entries at the start, place, values still to give), a heap of names, groups and dicts, changes of it, generators of iter_elems_transformed as a state machine and of iter_elems as stacks of loops. | Invariant: entries before the iterator's place are those given; preserved by changes that keep the keys. Any change: the count of values left only decreases. Induction over the stack of loops for nested groups; induction over the remaining elements for the replacing loop. |
| C103 | Model/RndField.lean: rounded versions of these functions over any rounding (Rnd), in the order in which the code adds; the inverse is any matrix, judged by its residual | two-sided relative bounds closed under sums of one sign, products, square roots and maxima; induction over the running sum; error calculus (Near) for the fits; monotone rounding for the order |
| C104 | Model/IeeeLine.lean: these methods over the floats of Model/Ieee.lean, with Python's division (which raises for zero) and numpy's (which does not); math.hypot a parameter | sign symmetry of the arithmetic makes the denominator minus the cross product for all values; gradual underflow makes a difference zero only for equal floats; case analysis of infinities and NaN; error bounds of rounding with underflow for normalized |
| C105 | Model/IeeeCurve.lean: these functions over the floats of Model/Ieee.lean | error terms with a relative part and a part for underflow, carried through sums and products; rounding is monotone and a product of a float with the largest float is never rounded up; boxes by lifting to the extended reals, where C08 applies |
| C106 | `Model/CurveHeap.lean`: transforms, points, vectors, control points and curves as objects, and which objects each method makes, reads and writes. Points and vectors are plain; names of points are left out. | `Spec/CurveHeap.lean` says what each call does to curves as values. Refinement: an invariant (the values of all objects, no control point held twice) is kept by every call, with the same result; induction over the history. Outlines by C33, C34 and C36. |
| C107 | the heap of group objects of C72 with their points, the text of C47-C48, equality and drawing of C74 | invariant of the program: every element stored can be written; the text does not depend on points; sorting the entries; C48 for reading back, C74 for drawing |
| C108 | `Model/MorphHeap.lean`: morphs as objects with references to curves of `Model/CurveHeap.lean`; the constructor's loops, and `update` as writes in place to points and vectors. What `model.replace` answers is a parameter of the constructor; what it does to the tree is left to C59. | `Spec/MorphHeap.lean` says what each call does to the values. Refinement as in C106, with a further invariant: the points and vectors of the curve of a morph are held once, because every call but `reversed` gives new points and vectors to the control points it makes or writes. Numbers of control points and outlines by induction over the history. |
| C109 | No new model: the step functions of C29 (`Model/Transform.lean`), C72 (`Model/Builder.lean`), C94 (`Model/BoxObj.lean`), C106, C108 and those of the point and line heaps, which return the state also when they raise. | `Spec/Failed.lean`: `good` leaves out the calls that would raise. A lemma for all step functions, by induction over the program: if failing calls change nothing under an invariant, they may be left out. Then case analysis of each step function. For transforms a relation (same matrix and stack, a cached inverse only if there is one) instead of equality, because failing calls may fill the cache. |
| C110 | `Model/MultiHeap.lean`: multi-step morphs as objects with references to curves, among the morphs and curves of `Model/MorphHeap.lean`; the constructor's loop over the curves, `bisect_right`, and `update` as writes in place. `model.replace` is left to C60. | `Spec/MultiHeap.lean` says what each call does to the values. Refinement as in C108, statement by statement through the loop; the curve shown is a fresh copy, so its points and vectors are held once. Readiness of the curves by induction over the list of curves, which may repeat; numbers of control points and outlines by induction over the history. |
| C111 | `Model/Stage.lean`: a tree of groups whose leaves are references to the curve objects of `Model/CurveHeap.lean`; `replace` on this tree; the constructors and `restore` of morphs and multi-step morphs with it. | `Spec/Stage.lean`: curves with their paths, the table of what is shown, calls on values. Refinement of object histories by value histories as in C110; `replace` on the tree by a loop invariant over the dict (it also agrees with `replace` on values, C44); the table by induction over the history, names telling the places apart. |
| C112 | Model/Scene (all animations on the curve objects of Model/CurveHeap, holder, builder), Spec/Scene (what each animation reads and writes, good orders) | two groups of objects that agree where an animation looks agree where it writes (induction over the loops of a morph); induction over the animations, the frames and the history |
| C113 | Model/Linked (control points and curves as objects over the point objects of Model/PointHeap, every call), Spec/Linked (what hangs on what, how far it goes along, what a call touches) | invariant (references go to older objects of the right class) by induction over histories; a copy reads the same and hangs on the same older points except itself; a frame theorem for every call |
| C114 | Model/ShapeHeap (shapes which refer to point and transform objects, every call, the lists of points given out), Spec/ShapeHeap (whose corner a point is, who shares a transform, what a call writes) | invariant (references exist, no two shapes have a common point) by induction over histories; existing points keep their owners; a frame theorem for every call |
| C115 | Model/GroupHeap (elements and groups that refer to element and transform objects, drawing with a bound on the depth of calls, every call), Spec/GroupHeap (what is in what, what is in view, the tree that hangs on an object, what a call writes) | drawing on objects agrees with drawing the tree, by induction on the depth; frame theorem for every call; induction over histories; the depth of an acyclic object is bounded by the number of objects (induction on the finite set of objects reachable) |
| C116 | Model/DumpHist.lean: a context with its imports over the context of Model/Dump.lean, one operation for each call, with-blocks nested, exceptions going out of a block. Spec/DumpHist.lean: running a file: logical lines by counting brackets, statements, assignments, indentation errors. | The lines of a dumped element are one logical line (brackets open after every proper prefix: mutual induction over elements). An invariant along the history says the lines split into such blocks, each of which denotes its element under the variables of every later state; then the file is run statement by statement, values being kept by further names (monotonicity of evaluation). Depth, indentation and imports by mutual induction over nested calls. |
| C117 | Model/Rebase.lean over the objects of Model/PointHeap.lean: xy and == bounded by a depth of calls, every call of C04 once more with that, and the assignment of base. Spec/Rebase.lean: base, hangs on, hangs on itself, misfit; positions are Reads of Spec/PointHeap.lean. | Without a loop below a point, induction on the number of objects reachable from it; on a loop every depth fails by induction on the depth. Moves by induction on the derivation of a position. Histories: one description of what a call can change, with the invariants that references are to points and, for harmless assignments, that there is no loop. |
| C118 | Model/GroupLook.lean over the objects of Model/GroupHeap.lean, each method bounded by a depth of calls. Spec/GroupLook.lean: following keys, a group that can take the replacement, what it then holds, what has changed in all. | Against the tree of an object by induction on the depth. On a loop every depth fails. replace: invariant that of the groups inside exactly those in a set are already done and the others untouched; a group done before is gone through again without effect, and a group in progress is never met again because nothing is in itself. |
| C119 | Model/XfHeap.lean: arrays, Matrix objects referring to arrays, Transforms referring to Matrix objects and to the array kept as inverse, and what the program holds; every call of transform.py as it allocates, rebinds or overwrites. Spec/XfHeap.lean: the value of a Transform, the calls of a history on it, writing into its inverse. This proves the assumption made by Model/Transform.lean that values suffice there. | Invariant: no Matrix belongs to two Transforms, twice to one, or to a Transform and the program; the array of such a Matrix is not in the hands of the program and not an inverse; no two Transforms keep the same inverse array. Each call is composed of a few changes shown to respect it, and is then equal to the value model's call; histories by induction. |
| C120 | Uses the definitions of Model/Bezier.lean, Model/Elem.lean, Model/Shapes.lean and Model/Utils.lean. Spec/Approx.lean: the lines that join a list of points, being within a distance seen from both sides, the second differences of a segment. | The curve minus its chord over a step of width h is 3 v (1 - v) h^2 times a mean of the two second differences; mean and factor are bounded. Each line of the path belongs to one step of one segment and each parameter to one step. For ellipses the unit quarter is compared with its chord; for arcs the chord's distance from the centre is computed. |
| C121 | Uses the definitions of Model/Vec.lean, Model/Bezier.lean, Model/Elem.lean, Model/Shapes.lean, Model/Utils.lean. Spec/AreaCurve.lean: the enclosed area as an integral over the curve (Mathlib's interval integral and derivative), the coefficients of the two error terms. | The cross products along a segment sum to a closed form in the step (induction over the steps); the integral is computed by the fundamental theorem. The path of a closed curve is the chain of its segments, which returns to its start. Limits: uniqueness gives the rule for transforms. |
| C122 | Model/ImageInfo.lean: both functions as lists of printed lines (kept as their parts) and the exception that ends them; what PIL says of the image is the input. Spec/ImageInfo.lean: how a row is shown as an inductive relation, a list cut after nineteen. | Induction over the pixels with the last entry shown (nothing or another pixel, one zero pixel, dots); induction over the bytes and colours with the counter. |
| C123 | Uses the rounded definitions of Model/Rnd.lean (C86) and the specification Spec/Approx.lean (C120). | The computed parameters start at 0, end at 1 and do not decrease, so every parameter lies between two neighbouring ones, which are at most 1/steps + 2u apart. The line between two computed points is as close to the chord between the two exact points as its ends are; the chord is as close to the curve as in C120. |
| C124 | Model/HoleHeap.lean (elements, lists and transforms as objects; shapes with holes refer to an outside, a list and a transform; every call). Spec/HoleHeap.lean: parts, lists, shared transforms, which calls may change what an object draws. | Invariant: no dangling references. What each call leaves of records, lists and transforms; pens of parts do not matter to drawing; closed forms of what copying, transforming and restoring make; induction over histories. |
| C125 | bboxCps, addOne, bezSplit of Model/Bezier.lean. Spec/Refine.lean: control polygon as a set, box with a margin, pieces got by n splits, n calls of add_one; Spec/Approx.lean: bend, closeness. | On each third of the parameter the curve minus the polygon is a combination of the two second differences with non-negative weights of sum at most 1/3; second differences of the parts are such combinations too; the box is the least one holding the control points (C32_bbox_least); add_one replaces one segment by its halves (C36), induction over the calls. |
| C126 | Field.smoothed, Field.normalized, Field.transform of Model/VecField.lean. Spec/SmoothMany.lean: the same call repeated, nearly uniform fields, fields that point to one side. | One smoothing is a mean with weights of at least 1/35 for neighbours: a low node spreads by one node per step, so n steps shrink the distance of the largest and the smallest value by a fixed factor; nested intervals give one limit for all nodes; the factors of normalisation converge because the limit is on the positive side of the line. |
| C127 | bezPath, bezSplit, addOne, reverseList, selfIntersectLib, Elem.drawn, Elem.selfIntersect as before. Spec/CurveLength.lean: length as the integral of the speed, length of a polyline. Areas as in Spec/AreaCurve.lean. | Length and area are integrals along the curve that do not depend on the parameter; parts of a segment are affine reparametrisations, so the integrals over the parts add up; C65 says each arc is used exactly once in its direction. The velocity changes by at most six bends per unit of parameter, which bounds arc minus chord. |
| C128 | Elem.drawn as before. Spec/Fill.lean: when a line crosses the ray to the right of a point, the even-odd rule, paths that end where they start. | Count crossings modulo two around the cycle of points: a hole spliced in behind the last point adds its own cycle and a line there and back, which cancels. The signed area goes the same way. |
| C129 | Animations, morphs and build_all as before. Spec/Speed.lean: bounded change of a time function, bounded slopes of knots, the speed of each kind of animation, distance of control points. | A polyline with bounded slopes is Lipschitz, by chaining knots; sin, cos and the square of sin are Lipschitz; points of a curve are averages of control polygon points; for multi-step morphs every linear combination of the six numbers of a control point is a polyline in time. |
| C130 | Elem.drawn and Elem.paths as before, Spec/Fill.lean for the even-odd rule. Spec/FillMove.lean: points on a side, transforms that do not flatten, mapped paths, affine own transforms. | Paths: induction over nested elements. Region: every such transform is a product of stretched shears, mirrors and one exchange of axes; each changes the crossings of a side by a term for each of its two ends, and these cancel modulo two around the polygon. |
| C131 | Elem.drawn and the ellipse constructor as before, Spec/Fill.lean for the even-odd rule. Spec/FillSide.lean: lines and rays that meet the sides of a polygon. | A transform takes any line to a horizontal one, where the two counts are compared directly; the parity is locally constant off the outlines, hence constant on connected sets. For the ellipse: the drawn 80-gon has its sides between the two ellipses (bounds on the quarter curves and on their bend between neighbouring points), the inner disc is connected, and the count at the centre is done once. |
| C132 | bezPath, Fl.bezPath, Elem.drawn, Morph.update as before; Spec/Fill.lean for the even-odd rule, OnSide from Spec/FillMove.lean. | A side and the side it moves to, or the part of the curve it stands for, lie beyond a straight line as seen from the point, so together they cross an even number of times (C131_hull); the sums over all sides differ by terms at the corners that cancel. For steps both counts are compared with their product. |
| C133 | Elem.outline, Elem.drawn, makeRoundedRect and bezPath as before; Spec/Fill.lean for the even-odd rule; Spec/RoundedFill.lean for the rectangle without its rim. | The outline is a closed run of four nearly circular quarters and straight sides. Points beyond it are separated from all samples by a line; the points within form a convex set that no side meets, so all are covered like the middle (C131), for which the crossings are counted. |
| C134 | addOne, Refine.addMany, selfIntersectLib, Elem.selfIntersect, CP.reverseList, bezPath and Elem.drawn as before; Spec/Fill.lean for the even-odd rule. | For a point away from a segment the parity of crossings of short chords is a difference of a function of the parameter (it is additive for three nearby parameters, and is summed over a grid); so the crossings of the samples of a part depend on its ends only, and add up over the parts of a segment. The parts are those of C36, C65 and C77. |
| C135 | draw, drawn and paths as before (Model/Draw.lean, Model/Elem.lean); Spec/Picture.lean: the colour of a point after a list of canvas operations, and the segments of all drawn curves placed by the transforms around them. | The operations are those of C69; each path becomes one polygon, and the colour is a fold over the paths. For two numbers of points per curve the paths are related by induction over the tree: same pen, brush, first and last point and the same number of crossings (mod 2) of rays along the path, which survives joining the paths of a shape with holes; for a curve it is the bound of C132 for each segment. |
| C136 | polygonArea (Model/Vec.lean), drawn (Model/Elem.lean) as before; Spec/Fill.lean for the even-odd rule, Spec/FillArea.lean for area (Lebesgue measure) and the winding number. | Left of all vertices the crossings up and down cancel. Right of such a line the contribution of a side is the indicator of the region between the line and the side; its integral is the area of a trapezoid (volume_regionBetween_eq_integral), and these add up to the shoelace sum. Parity of crossings is parity of the winding number. For convex polygons the side that goes down is left of the one that goes up. |
| C137 | drawn (Model/Elem.lean), Mat3.apply; Spec/Fill.lean for the even-odd rule, Spec/FillArea.lean for area. | The measure of a preimage under a linear map (addHaar_preimage_linearMap) and C130 away from the outline; the outline itself has measure zero (each side lies in a line). A flattened polygon has winding number zero everywhere. For ellipses the bounds of C131 and the area of a disc. For rounded rectangles the bounds of C133; the area of what is near a rectangle by drawing the rectangle together to a point, once in each direction. |
| C138 | drawn (Model/Elem.lean), bezPath, Fl.bezPath (rounded), Morph as before; Spec/FillArea.lean for area, Spec/FillChange.lean for the length of the outline. | By C132 what is filled can change only near the outline. What is within d of a side is, after a rotation, what is within d of a line on the x axis, whose area is that of a rectangle and a disc (drawn together as in C137). For curves the lines are the chords; their lengths add up to at most the length of the curve (C127), and what is near the curve is near a chord. Turns around a point: points near a chord go around as the chord does (a polygon in a half plane goes around nothing outside of it), and near the curve there are at most as many turns as sides, which the area near it, of the order 1/n^2, outweighs. |

## 5. Disagreements between the code and what its documentation or names promise

Each entry is proved as the theorem named, unless it says "observed" (read in the code, not stated as a theorem).

**Points, boxes, lines**
* `Point.copy()` drops the name: `C05_copy_named_counterexample`.
* A `PointCalc` based on a `PointCalc` reads the first base with the wrong value: `C04_calc_over_calc_counterexample`.
* `BBox` documentation about corners: a box may contain all four corners without `contains` and so on: `C14_*_counterexample`.
  For none boxes `contains` raises `ValueError` where the text says `False`: `C14_none_behaviour`.
* Two expansions add up only if no limit is hit: `C15_expand_add_counterexample`.
* `segment_intersection` misses touching and collinear segments: `C20_touching_counterexample`, `C20_collinear_counterexample`.

**Transforms**
* `rotate_about` leaves a stale cached inverse: `C22_rotate_about_counterexample`; what is answered instead: `C22_exact`, `C22_roundtrip_iff`.
* `rotate` turns clockwise, its text says counterclockwise: `C25_rotate_doc_counterexample`.
* An exception in the header of a `with` block leaves the pushed matrix: `C23_with_header_counterexample`.
* `scale_bbox` changes the matrix before it raises: `C24_zero_size`. `transform_pts([])` raises: `C28_transform_pts`.

**Curves and shapes**
* `add_one` on open curves subdivides the closing segment, on one-point curves it fails: `C36_open_counterexample`,
  `C36_one_point_counterexample`.
* `ControlPoint.transform` of a smooth point by a non-linear map can raise `ZeroDivisionError`: `C35_smooth_zero_division`.
* `offset_pt` at its limit loses the side: `C37_limit_sign_counterexample`.
* Negative radius of a rounded rectangle: `C50_negative_radius_counterexample`. Unequal scales: `C67_rounded_counterexample`.
* `arc` cannot make a full turn with a direction: `C52_full_turn`. `arc2p` with `side=0`: `C53_errors`.
* Defaults that are tuples are rejected by the path helpers: `C54_tuples_rejected`.
* `bez_self_intersect` raises `AttributeError` when crossing places have equal parity: `C65_walk_counterexample`.
  Observed: it writes `dr`/`dl` of control points of its argument; a crossing exactly at a control point is dropped.

**Elements**
* `bbox` of a shape with holes ignores the transform of its outside and fails without holes:
  `C39_outside_transform_counterexample`, `C39_no_holes_counterexample`.
* The same element object added twice: `C42_shared_counterexample`. Observed: the duplicate-name `ValueError` in `Group.add` is dead code.
* Parts of shapes with holes cannot be looked up; the matrix object given out by `iter_elems` is shared:
  `C43_holes_counterexample`, `C43_shared_matrix_counterexample`.
* `replace`: two matches in one group fail, a failure is not undone, the replacement moves to the end, shapes with holes raise:
  `C44_*_counterexample`.
* `copy` shares the transform object, drops names of points; groups lose `closed`; `Group.restore` shares the transform;
  `ElemWithHoles.restore` keeps its own holes: `C45_*_counterexample`.
* Path lists of multi-path parts repeat outlines: `C46_duplicates_counterexample`.
* `as_curves` and `iter_elems_transformed` ignore `hidden`, `as_curves` fills the holes of filled shapes: `C70_hidden_counterexample`,
  `C70_holes_counterexample`, `C71_hidden_counterexample`.
* Equal groups may draw in a different order: `C74_order_counterexample`.
* Equal shapes with holes may be dumped as different text when the outside is a group: dump sorts the entries of groups, `repr`, which
  writes the outside, does not: `C74_dump_counterexample`.
* Rounding in two steps differs from rounding at once: `C75_twice_counterexample`. Rounding a vector between two points is not rounding its value: `C75_vector_relative_counterexample`. Handle ends of rounded control points are not the rounded handle ends, and handles of smooth points may leave their line: `C75_control_point_counterexample`.
* `close` is not transitive: `C76_transitive_counterexample`.
* `self_intersect` of an open curve treats it as closed, and takes apart curves that do not cross themselves: `C77_open_counterexample`.
* `bez_self_intersect` shortens handles of the control points it is given (not those of elements, which pass copies): `C79_argument_counterexample`.
* A loop over `Group.iter_elems` that is left early leaves the transform object given to it changed (`push`/`pop` without `with`), and two such loops
  in turn on one object see each other: `C78_break_counterexample`, `C78_shared_counterexample`.
* `ElemCurve.offset` does not move points without handles, so polygons of corner points stay as they are: `C73_corners_counterexample`.
* `GroupBuilder.hide` sets an attribute that nothing reads: `C72_hide_counterexample`.
* `dump` loses `hidden` and `points` of groups, names of corners grow, a rectangle with holes cannot be read back:
  `C48_*_counterexample`. Output of an empty context: `C48_output_empty`.

**Colours, fields, animation, drawing**
* Pen widths in drawing units follow the context matrix but not the transforms of groups and elements: `C69_group_width_counterexample`.
* Shapes with holes that have a brush but no pen issue lines with no colour (Pillow then uses its default ink):
  `C69_holes_lines_counterexample`. A closed filled and stroked curve with no points raises `IndexError` after its polygon:
  `C69_empty_counterexample`. Square markers pass the high corner first, which Pillow 9.5 and later rejects:
  `C69_marker_corners_counterexample`.
* `'NoColor'` is handled by `Colors` only, not by pens: `C66_nocolor_counterexample`.
* `VectorField.transform_pts` never succeeds; `quiver` plots transposed: `C56_*_counterexample`. Smoothing windows are lopsided:
  `C57_window_counterexample`. A zero field normalises to nan: `C57_normalized_zero`.
* Animations whose target depends on the animated point depend on history: `C58_chained_counterexample`.
* `Morph.restore` also replaces other equal curves: `C59_restore_counterexample`. `MorphMultiStep` compares an external box with internal
  points, and rotates open curves: `C60_*_counterexample`.
* `offset` of periodic functions is not a phase: `C61_offset_counterexample`.
* `SimpleAnimation` stores every image twice: `C62_simple_counterexample`; `build_all` never reaches t = 1: `C62_times`.
* Empty frames make autocrop fail, `crop_to_pixels` truncates toward zero, nested `shadow_draw` loses the colour, a second one blurs
  the first again: `C63_*_counterexample`, `C63_shadow_again`.
* `VectorField` keeps the interpolators of its first lookup: vectors assigned to `vx` or `vy` later are ignored, and `==` does not see it (`C80_stale_counterexample`, `C80_eq_counterexample`).
* C81: an update of a rectangle with its own `bbox_int()` is not without effect: if the first point is not the low corner, the two points are replaced by the low and high corner and the element is no longer equal to a copy taken before (`C81_own_rectangle_counterexample`); the set of corners is the same (`C81_rectangle`).
* C82: `save_animation` without automatic crop raises `ValueError` for images less than two pixels wide or high, because it always halves the size (`C82_narrow_counterexample`).
* C82: with more frames than milliseconds of duration the time per frame is 0 (`C82_fast_counterexample`).
* C83: `SimpleAnimation.next_step` flips y about the x axis before it fits `draw_bbox` to the image, so the image shows the mirror image of the box, not the box: only boxes symmetric about the x axis (like the default) come out right; a box above the axis, like (0, 10, 100, 110), is entirely off the image (`C83_space_counterexample`).
* C83: `grid` ignores `spacing` and `center` (`C83_grid_counterexample`).
* `PicklerExtensionGeom.methods()` (C84): the table lacks `PointRelative`, `PointCalc` and `VectorRelative`, which the text of a curve may name. Such text cannot be evaluated with the table alone (`C84_methods_counterexample`).
* **C86 (two findings).** Without a tolerance the path may leave the box of the curve: `C86_in_box_counterexample`, two binary digits, all control points at (3, 3) and a sample at (2, 2). Splitting at t = 1 may put the new centre outside the box of the control points, at every precision: `C86_split_inside_counterexample`, from 2^p to 1/4, split at 0.
* **C87 (finding).** A relative point is not found where it was put, at any precision: `C87_relative_counterexample`, 1/4 relative to the base 2^p is found at 0. In exact arithmetic it is.
* **C88 (finding).** The two ways of blending fail at opposite ends. `AnimationLinear` hits start and target exactly but a point animated to its own place moves (`C88_linear_counterexample`, every precision from three digits on); `Morph` stands still when it should but at time 1 may miss its target (`C88_morph_end_counterexample`, every precision: from 2^p to 1/4 it ends at 0). `MorphMultiStep` is exact at all its steps.
* **C88 (finding).** `SimpleAnimation.animate` does not always draw at `t_high`: with 49 steps from 0 to 1 the last time is 1 - 2^-53 (`C88_last_frame_counterexample`).
* **C89 (finding).** The internal assertion of `segment_intersection` (two points computed along the two segments are within `1e-7`) is absolute and fails for large coordinates: for the segments from (0, 0) to (2^31, 2^31) and from (2^31, 0) to (0, 2^30), which cross properly, `AssertionError` is raised (`C89_assertion_counterexample`). Up to 2^24 this cannot happen for whole coordinates (`C89_whole_crossing`).
* **C89 (finding).** Lines that are not parallel can be reported as parallel (`C89_parallel_counterexample`, every precision from three digits on), and a proper crossing can be missed because a box has no width after rounding (`C89_crossing_missed_counterexample`, every precision). `Line.from_pts(p, q).p2` may differ from `q` (`C89_from_pts_counterexample`).
* **C90 (finding).** The check `edge missing from graph.edges` of `BziGraph.validate` looks the edge up in `node.edges` instead of `self.edges`, so it never reports anything: with an edge of two nodes removed from the graph's list, `validate()` still returns `True` (`C90_missing_edge_counterexample`).
* **C91 (finding).** A shadow wraps around: `make_shadow` moves the alpha channel with `ImageChops.offset`, which lets what leaves the image on the right or below come in on the left or above. A shape near the right side shades the left side (C91_shadow_wraps, C91_shadow_counterexample).
* **C91 (finding).** `run_model` draws a grid on a context it throws away: `DrawingContext(base_image, matrix).grid()` paints on that context's layer, `base_image` stays white and no frame shows the grid (C91_background).
* **C92 (finding).** `imagehelp.rgba_to_transparent` ignores alpha: it makes the colour of the upper left pixel transparent wherever it occurs (`cheap_hack = True`), so an opaque image of one colour becomes invisible (C92_alpha_ignored, C92_alpha_counterexample).
* **C92 (finding).** `palette_image` says it has 16 places; it has 255 colours, and because of `c > len(pal.colors)` entry 255 gets none, so the last stripe is black like the first (C92_palette_image, C92_palette_counterexample).
* **C93 (finding).** `ExtendedMatcherControlPoint.explain_mismatch` calls `.close` on the `kind` strings as well, so it can only answer False or raise `AttributeError`: a recorded control point that differs by rounding is never accepted (`C93_control_point_counterexample`).
* **C93 (finding).** `ExtendedMatcherGeomXY.almost_equal` does not pass `places` and `delta` on (`C93_tolerance_counterexample`).
* **C93 (finding).** `PlotMatchContextManager.__exit__` restores the plot parameters only after `fig_to_image` succeeded (`C93_plot_counterexample`), and replaces an exception of the body by the failure of the match (`C93_plot_exception`).
* **C94 (finding).** The documented form `BBox((x, y, x2, y2))` does not take back the tuple of the empty box: `BBox(BBox(None).as_tuple())` raises `TypeError`, while `BBox(*BBox(None))` works (`C94_tuple_counterexample`).
* **C94 (finding).** Item assignment on `BBox(None)` leaves a half filled box: `sort` fails after swapping x, `height` raises `TypeError` (`C94_half_filled_counterexample`), `copy` may be the empty box (`C94_copy_counterexample`).
* **C95 (finding).** Lines share objects: `Line(p, q).p2` leaves `q` once `p` moves (`C95_end_counterexample`), writing to the direction of `l` also turns `l + v` (`C95_alias_counterexample`), and lines that read alike may be unequal (`C95_equal_counterexample`).
* **C96 (finding).** `Builder.save_animation` writes files on macOS and iOS only: on Linux and Windows `run(steps, output)` builds everything, raises nothing and leaves no file (`C96_no_file_counterexample`). On macOS the optimised file is made of `/tmp/anim.gif` whatever the output: a stale file, or a `ValueError` if there is none (`C96_save`). `SimpleAnimation` files contain every image twice (`C96_simple_counterexample`). A generic animation hands out its original position, which the function can move (`C96_orig_counterexample`).
* **C97 (finding).** A NaN in the first of two arguments of `min`/`max` wins, one in the second is dropped. So `BBox(p, q)` and `BBox(q, p)`, `a + b` and `b + a`, and `grow` by the same points in another order differ when there is a NaN (`C97_corner_counterexample`, `C97_add_counterexample`, `C97_order_counterexample`). One NaN point at the start makes the box of a whole curve NaN; the same point later is ignored.
* **C97 (finding).** A box with a NaN extent contains and touches nothing, yet `overlaps` says `True` for it and any box not beside it along the other axis, and `intersection` gives the other box whole (`C97_overlaps_counterexample`). The tests of `overlaps` are negative (`not (a <= b ...)`), so NaN passes them.
* **C98 (finding).** `BBox.center` and `mid` add before halving: above half of the largest float the sum overflows and the centre of a box, even of a single point, is infinite (`C98_center_counterexample`). `0.5*a + 0.5*b` would not.
* **C98 (finding).** `BBox.area` of a box of finite numbers is NaN for a horizontal or vertical line longer than the largest float (`C98_area_nan_counterexample`), and 0 for a box that `is_empty` calls not empty (`C98_area_zero_counterexample`).
* **C98 (finding).** `expand(-inf)` of a box whose width overflows gives the infinite box instead of its centre (`C98_expand_counterexample`).
* **C98 (finding).** A finite point can be transformed to NaN by a finite matrix although its image is 0 (`C98_transform_counterexample`). The identity maps `(inf, 0)` to `(inf, nan)` (`C98_identity_counterexample`).
* **C99 (finding).** `min_rotation` can return 180.0 although in exact arithmetic the result is less than 180 (C51): for a target just below -180 degrees `%` rounds up to 360.0, and the sense of the rotation flips (`C99_min_rotation_counterexample`).
* **C99 (finding).** `make_rounded_rect_cps` removes duplicate control points by exact comparison of `b + side/2` with `c - side/2`; under rounding these differ, and a rectangle with a clipped radius keeps nearly coincident control points, 8 instead of 4 (`C99_rounded_rect_counterexample`).
* **C99 (finding).** `make_ellipse_p1p2_cps` can put a control point outside of the box by a rounding (`C99_ellipse_counterexample`).
* **C100 (finding).** `ElemWithHoles.display` (model.py:1131-1132) prints `Outside:` before the holes where `Inside:` is meant (`C100_holes_counterexample`).
* **C55 (finding).** `PenBrush((grey, alpha))`: a colour that is a tuple of two numbers, given as pen, is taken for a colour and a width (colors.py:77-78); given as brush it is a colour (`C55_pair_counterexample`).
* **C101 (finding).** `repr` of `ElemCurve` and of P1P2 shapes (model.py:371-372, 564-565, 739-740) leaves out the pen, so evaluating it is an error (`C101_basic_counterexample`). The same holds of `Matrix.__repr__` (transform.py:30-31), which names the class `Transform` (`C101_matrix_counterexample`), and of filled groups, as `Group.__repr__` leaves out `closed` (`C101_group_filled_counterexample`). `PenBrush.__str__` (colors.py:112-119) abbreviates pens of width 1, while the constructor reads a bare colour as width 0 (`C101_str_pen_counterexample`).
* **C102 (finding).** A loop over `iter_elems_transformed` of a group that replaces each element as it comes gives every element and then raises `RuntimeError` (`C102_replacing`, for every size of group); if the dict is rebuilt meanwhile, as CPython does when the first of five elements is replaced, the element after it is left out silently (`C102_skip_counterexample`).
* **C103 (finding).** After `normalized` the longest vector need not have length 1: with 53-bit floats a field of vectors (49, 0) becomes (1 - 2⁻⁵³, 0), because the reciprocal is rounded before it is used as a factor (`C103_longest_counterexample`).
* **C104 (finding).** Perpendicular lines can be `parallel`: the products of the cross product underflow, and `intersection` raises `ParallelLineError` (`C104_perpendicular`, `C104_perpendicular_counterexample`).
* **C104 (finding).** Two lines of the same direction need not be `parallel`: if the product of the coordinates overflows (coordinates of about 10¹⁵⁵), the cross product is NaN and `intersection` returns a point of NaNs without an exception (`C104_nan_counterexample`).
* **C104 (finding).** `unit` of the vector of two smallest floats is (1, 1) or (1/2, 1/2) (`C104_unit_counterexample`).
* **C104 (finding).** `normalized` squares the components: a field whose components are below about 10⁻¹⁶² becomes infinities and NaN, and one vector above about 10¹⁵⁴ makes the whole field zero (`C104_normalized_underflow`, `C104_normalized_overflow`).
* **C105 (finding).** The weights of `bez` add up to a little more than 1, so a curve of finite control points can have infinite points: all control points at the largest float, `steps=3` (`C105_overflow_counterexample`).
* **C105 (finding).** `bez_split` and morphs compute differences of coordinates: with points further apart than the largest float the results are NaN and infinite (`C105_split_counterexample`, `C105_morph_far`). `AnimationLinear`, which computes weighted sums, has no such problem with finite points (`C105_linear_finite`) but is NaN at time 0 if the target is infinite (`C105_linear_counterexample`).
* **C106 (finding).** `restore` cannot undo `add_one`: it compares the numbers of control points only after it has overwritten name, pen, closed and transform, and raises `GeomInternalError` (`C106_undo_counterexample`). A curve made from the `control_points` of another curve gets a new list of the same `ControlPoint` objects; `add_one` on one of the two writes to them and changes the outline of the other (`C106_shared_counterexample`).
* **C107 (finding).** A drawing that is dumped and read back is == to the original but may look different: `Group.dump` writes the entries sorted by name, and drawing follows the order of the entries. Two rectangles in the same place, first `b`, then `a`: `a` is on top before, `b` afterwards (`C107_on_top_counterexample`). Points of groups are lost (`C107_point_counterexample`).
* **C108 (finding).** `Morph` compares and equalises the numbers of control points only when it is made. In a chain A→B, B→C, where C has more control points, making the second morph adds control points to B; the first morph still raises nothing, but `zip` leaves out what is too much, and at 1 it does not show B (`C108_chain_counterexample`). Making the morphs from the longest curve on avoids this; the repaired claim is `C108_morph`. `ControlPoint.reversed` hands on the point and vector objects, so reversing the curve of a morph gives a curve that moves with it (`C108_reversed_counterexample`).
* **C109 (finding).** Four calls are not atomic. `scale_bbox` with a first box without width or height raises `ZeroDivisionError` after it has moved the transform (`C109_scale_bbox_counterexample`); with `keep_aspect` it divides first. `untransform_pts([])` raises `ValueError` but has cached the inverse, and `rotate_about` does not clear the cache, so a later `untransform` is wrong (`C109_transforms_counterexample`). `ElemCurve.restore` takes over name, pen and transform before it compares the numbers of control points (`C109_restore_counterexample`). `Morph(..., force=True)` adds control points to source and target before it looks for the source in the model (`C109_morph_counterexample`). See also C44 (`replace` loses an element) and C94 (half-filled boxes).
* **C110 (finding).** `MorphMultiStep` copies its source, but turns the control points of its targets in place. A `Morph` to the same target, made before, pairs control points by position and shows something else afterwards (`C110_turn_counterexample`: a blend at 1/2 that was one point becomes the whole line). Making the `MorphMultiStep` first, or of copies of the targets, avoids this.
* **C111 (finding).** `restore()` finds the curve to replace by `==` and puts the source at the end of its group: after making and restoring one morph a group draws in another order (`C111_order_counterexample`). Two equal curves with the same name in different subgroups are both replaced, and afterwards both places hold the first one (`C111_equal_counterexample`). If the shown curve of a morph is used as the source of a second one, restoring the first morph first leaves its half-done curve in the group without an exception (`C111_nested_counterexample`); in the other order all is well.
* **C112 (finding).** The order in an `AnimationHolder` matters when animations work on the same curves: a `Morph` added before the animation of a point of its source shows the source of the frame before (anim.py:283-285), so the first frame of `build_all` depends on what was built before. `C112_order_counterexample` gives the pictures; `C112_time`, `C112_frames` and `C112_points_first` say which orders are good.
* **C113 (finding).** `ElemCurve.copy()` is `fixed()` (model.py:377-385) and `restore` puts copies of those plain points into the curve, so undo cuts a curve off from the points it hung on: the coordinates are back but moving the base no longer moves the curve (`C113_undo`, `C113_undo_counterexample`).
* **C113 (finding).** `add_one` (model.py:487-504) inserts a plain control point into a curve of relative ones. When the base is moved later the new point stays behind and the shape is torn (`C113_addOne_torn`, `C113_addOne_torn_counterexample`). `cp.restore` also replaces the centres of the two neighbours by copies, so a plain `Point` that the caller or an animation holds no longer moves them (`C113_addOne_orphans`, `C113_addOne_orphans_counterexample`).
* **C113 (finding).** `VectorRelative.copy()` copies both of its points (geom.py:236-237); the copy of a plain point is a new plain point and the copy of a relative one still hangs on its base. So `cp.restore(cp.copy())` can turn a handle that kept still into one that swings when the base is moved (`C113_handle_copy_counterexample`).
* **C114 (finding).** `points()` (model.py:603-610) returns the corner objects `p1`, `p2` themselves and copies of the other two corners. Dragging the first or third drags the shape, dragging the second or fourth silently does nothing (`C114_handles`), and after a resize the list is not a rectangle (`C114_handles_stale_counterexample`). `as_digi_points()` of a rectangle has the same mixture.
* **C114 (finding).** `ElemRectangleRounded.restore` (model.py:751-756) reads `other.radius` last, so restoring from a plain rectangle raises an AttributeError after name, pen, transform and points have been overwritten (`C114_restore_class`, `C114_restore_class_counterexample`).
* **C114 (finding).** `copy()` passes its transform object on (model.py:583, 749), so a change of the transform changes the copy as well and cannot be undone from it (`C114_copy_transform_counterexample`).
* **C115 (finding).** `Group.add` (model.py:911-928) accepts the group itself or a group it is in, after which drawing raises RecursionError (`C115_self_counterexample`); `restore` from an enclosing group does the same (`C115_restore_loop_counterexample`).
* **C115 (finding).** `Group.add` renames the element (model.py:928). If the element is also in another group, that group keeps the old key but lists the element under the new name, and looking up the listed name fails (`C115_shared_name_counterexample`).
* **C115 (finding).** `Group.copy` (model.py:894-897) is shallow: restoring from it does not undo changes of elements (`C115_undo_elements_counterexample`). `Group.restore` (model.py:903) takes over the transform object, so a copy is good for one undo only (`C115_second_undo_counterexample`).
* **C116 (finding).** Only the first element dumped into a context is bound to a name (`model`); a second one is an expression statement of the file whose value is lost. `C116_second_counterexample`.
* **C116 (finding).** An element dumped inside a `with context:` block of the caller, behind another element, gives a file which raises IndentationError. `C116_with_counterexample`.
* **C117 (finding).** `base` may be assigned so that points hang on themselves; then `xy()` and `==` raise RecursionError at every depth. `C117_itself_counterexample`, `C117_mutual_counterexample`.
* **C117 (finding).** The assertion in `PointCalc.__init__` (geom.py:512) does not guard later assignments, and accepts a PointCalc, which then has no position. `C117_assertion_counterexample`.
* **C117 (finding).** Reading is recursive, so a row of PointRelatives as long as Python's recursion limit cannot be read. `C117_depth_counterexample`.
* **C118 (finding).** `replace` deletes the element before it looks whether the name of the replacement is free, so that after the ValueError the element is gone. `C118_lost_counterexample`.
* **C118 (finding).** `replace` returns the number of groups changed, not of places where the element was seen. `C118_count_counterexample`.
* **C118 (finding).** Replacing an element by a group that contains it puts the group into itself if two ways lead to the place. `C118_into_itself_counterexample`.
* **C119 (finding).** `Transform.inverse` returns the array that the Transform keeps and uses. A caller who changes that array in place changes what `untransform` does from then on. `C119_spoilt_counterexample`, exactly: `C119_inverse_shared`.
* **C122 (finding).** `image_info` calls `image_info_palette` for every image, which reads `im.palette.mode`: for any image that is not of mode P it ends in AttributeError before a row is shown (`C122_no_palette`). It reads channel `cn` of colour `n` at `n + 256 * cn`, but `getpalette()` lists colour after colour: `C122_interleaved_counterexample` has a palette whose first colour is (10, 20, 30) and is shown as (10, 0, 0). With four channels and 768 numbers it ends in IndexError (`C122_four_channels`). `C122_colours` says what it shows for a list channel after channel.
* **C124 (finding).** `copy` and `transform` of a shape with holes copy the parts, but a copied part has the transform object of the original part (model.py:385, 583, 749): moving a part of the original moves the part of the copy (`C124_copy_shares`, `C124_copy_moves_counterexample`).
* **C124 (finding).** A filled shape accepts an open curve as a part and draws it, but it gives the curve its filled pen (model.py:1022-1024), after which the shape can neither be copied nor transformed: AssertionError (`C124_open_part`).
* **C124 (finding).** `ElemWithHoles.restore` (model.py:1111-1117) assigns before it copies: when a copy raises, the shape has the name, pen and transform of the other and its own outside (`C124_restore_half_counterexample`). It copies its own holes instead of the other's, so that undo does not bring back holes (`C124_undo_holes_counterexample`; see C45).
* **C125 (finding).** The box of an open curve also holds the left handle of its first and the right handle of its last point, which no segment uses (bezier.py:63-67, model.py:472-477): it can be larger than the curve by any amount (`C125_box_open_counterexample`).
* **C125 (finding).** `add_one` (model.py:487-504) splits the segment with the most distant ends, so a segment which returns to where it started is never split while another one does not, however often it is called (`C125_loop_never_split`), and the box need not come closer to the curve (`C125_add_one_box_counterexample`).
* **C128 (finding).** A hole that is itself a filled shape with holes cuts nothing: it draws its fill path and then each of its outlines, and all of them are spliced in, so that every point is counted twice (C128_nested_counterexample).
* **C128 (finding).** Where two holes overlap (C128_overlap_counterexample) and where a hole sticks out of the outside (C128_outside_counterexample) the shape is filled.
* **C128 (finding).** An open curve as a hole also takes away the triangle between its ends and the last point of the outside, because `extend` returns to that point without closing the hole (C128_open_counterexample).
* **C129 (finding).** A time function `sin` or `cos` with an offset does not run on from the end of the loop to its start, because the offset is multiplied by the time: one turn with an offset of 90 degrees starts at 0 and ends at 1 (C129_offset_counterexample; same cause as the finding of C61).
* **C130 (note).** For points on an outline the statement fails: the left side of a square counts as covered and the right side does not, so after mirroring the other one does (C130_side_counterexample).
* **C136 (limit).** `polygon_area` is not the area of what is filled if the outline goes around points twice: for a unit square gone around twice it is 2 and nothing is filled (`C136_twice_counterexample`).

Observed only: `VectorRelative.p` and `vector - number` raise `AttributeError`; `repr` of numpy numbers (numpy 2) breaks dumped transforms;
`make_rounded_rect_cps` always removes repeated points; interpolators of a `VectorField` are cached and go stale when arrays are changed;
`AnimationCircular` takes its offset in radians, `AnimationSinusoidal` in degrees; `MorphError` leaves the source padded.

## 6. Status

* `MANIFEST.json` lists for every property its theorems and status; `AXIOMS.txt` (written by `tools/axioms.py` from `#print axioms`) the
  axioms of every property theorem: none beyond `propext`, `Classical.choice`, `Quot.sound`.
* `seeded/LOG.jsonl`: wrong versions of the model and which theorems fail on them.

### 6.1 What is modelled

| file | modelled | not modelled |
|------|----------|--------------|
| geom.py | `Vector`, `VectorRelative`, `Point`, `PointRelative`, `PointCalc`, `parse`, `BBox`, `round`, `close`, `Line`, `segment_intersection`, `polygon_area` | formatting for display, plotting helpers |
| transform.py | `Transform` (matrix, cached inverse, stack, `with`), batch transforms, `simplify`, `canvas_fit` | numpy views and dtypes |
| bezier.py | `ControlPoint`, `bez`, `bez_split`, `bez_path`, `bez_intersect`, `bez_self_intersect` (search, graph, walk, joins, writes to control points) | the intersection finder (library, a parameter), plots, debugging output |
| model.py | all element classes: `bbox`, `transform`, paths, control paths, `copy`, `restore`, `iter_elems`, `lookup`, `replace`, `add`, `dump`, `==`, `offset`, `offset_pt`, `add_one`, `bbox_int_update`, shapes, `draw` as a list of canvas operations, `as_curves`, `iter_elems_transformed`, `self_intersect`, `GroupBuilder`, `display` | rasterisation, user interface hooks |
| colors.py | all | |
| utils.py | 15-139 | plotting (140-232) |
| vec_field.py | `Mesh`, `VectorField` | plots |
| anim.py, anim_simple.py | time functions, animations of points, `Morph`, `MorphMultiStep`, builders, autocrop, palettes and frames of saved animations | demos, writing files, PIL |
| drawing.py | `bbox_max`, scaling, crop, shadow bookkeeping, `line`, `polygon`, `grid` | rasterisation, text |
| imagehelp.py | `image_fix_palette`, conversion to palettes with transparency, `palette_image`, what `image_info` prints | test code, PIL |
| testing.py | `do_pickle`, `methods`, the matchers and plot contexts | images, plots |
| plot_*.py, platform.py, shell_tools.py, needs_test.py | | test and display tools |
