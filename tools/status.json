{
 "C01": {
  "note": "exact arithmetic over any field; Python dispatch modelled with operand tags",
  "status": "proved"
 },
 "C02": {
  "note": "exact arithmetic; length/unit over the reals",
  "status": "proved"
 },
 "C03": {
  "note": "over the reals with exact trigonometric functions",
  "status": "proved"
 },
 "C04": {
  "note": "mutable points as a heap; reads of a cyclic relative chain are recursion errors",
  "status": "proved"
 },
 "C05": {
  "note": "copy of a named point loses the name: counterexample",
  "status": "proved"
 },
 "C06": {
  "note": "",
  "status": "proved"
 },
 "C07": {
  "note": "exact arithmetic over any field",
  "status": "proved"
 },
 "C08": {
  "note": "order part over any linear order; expand over ordered fields; item assignment on BBox(None) not represented",
  "status": "proved"
 },
 "C09": {
  "note": "any linear order",
  "status": "proved"
 },
 "C10": {
  "note": "any linear order",
  "status": "proved"
 },
 "C100": {
  "note": "C100_holes_counterexample proves the part marked False in the statement to be false.",
  "status": "proved"
 },
 "C101": {
  "note": "The counterexample theorems prove the parts marked False in the statement to be false.",
  "status": "proved"
 },
 "C102": {
  "note": "Python's documented rules for changing a dict while iterating over it are an assumption (3.8 and later).",
  "status": "proved"
 },
 "C103": {
  "note": "Overflow and underflow are left out, as in all rounded claims (C98 has infinities). What np.linalg.inv computes enters through the residual of its result only.",
  "status": "proved"
 },
 "C104": {
  "note": "The two zeros are one number. math.hypot: infinite if an argument is, otherwise not a number below infinity if an argument is NaN; for finite arguments off by less than one unit of the last digit.",
  "status": "proved"
 },
 "C105": {
  "note": "The two zeros are one number. The class of animation is modelled by the update of one point (or control point).",
  "status": "proved"
 },
 "C106": {
  "note": "Refinement of object histories by value histories; points never move; outline kept through histories; undo; counterexamples for restore after add_one and for shared control points.",
  "status": "proved"
 },
 "C107": {
  "note": "",
  "status": "proved"
 },
 "C108": {
  "note": "Refinement of object histories with in-place updates by value histories; constructor, update and blend theorems; outlines kept; counterexamples for chains of morphs and for reversed curves.",
  "status": "proved"
 },
 "C109": {
  "note": "Failing calls can be left out of programs on points, lines, boxes, builders, curves and transforms, with exact exceptions and counterexamples; what failing updates, morph constructors, replace and scale_bbox leave.",
  "status": "proved"
 },
 "C11": {
  "note": "any linear order",
  "status": "proved"
 },
 "C110": {
  "note": "Refinement of object histories with in-place updates by value histories; constructor, update and polyline theorems; outlines kept; counterexample for a shared target.",
  "status": "proved"
 },
 "C111": {
  "note": "Refinement with references in the tree; exact table of what is shown after every history; undo theorem for all orders; three counterexamples.",
  "status": "proved"
 },
 "C112": {
  "note": "Drawing is any function of the objects that changes no point or vector; relative points are in C62 and C96.",
  "status": "proved"
 },
 "C113": {
  "note": "Curves without name, pen and own transform; those are in C106.",
  "status": "proved"
 },
 "C114": {
  "note": "closed is always True and left out; names of points and relative points are in Model/ElemHeap and Model/PointHeap.",
  "status": "proved"
 },
 "C115": {
  "note": "closed groups, named points and shapes with holes are left out; the insides of curves and shapes as objects are in C106, C113 and C114.",
  "status": "proved"
 },
 "C116": {
  "note": "Text is tokens per line as in C48; prefixes of variables are taken to be identifiers. The file theorem is for histories that write no lines by hand and dump outside with-blocks; depth, indentation, imports and the layout of the text are for all histories (indentation: blocks in which output() is not called).",
  "status": "proved"
 },
 "C117": {
  "note": "Depth counts nested calls of xy (or ==) only. Assigning base on a plain Point or to something that is no point is not represented.",
  "status": "proved"
 },
 "C118": {
  "note": "replace is stated for elem a curve or shape; == on points with names or bases is C74's. The objects have no holes. Depth counts nested calls of the method only.",
  "status": "proved"
 },
 "C119": {
  "note": "Each Transform is what the calls on it make it; other Transforms, Matrix objects and arrays stay as they are; Matrix operations; the shared inverse is a finding.",
  "status": "proved"
 },
 "C12": {
  "note": "any linear order; documentation says False for none boxes, code raises ValueError",
  "status": "proved"
 },
 "C120": {
  "note": "Exact arithmetic; rounding of the listed points is the subject of C86 and C99. The constant 3/4 is shown to be attained (C120_sharp).",
  "status": "proved"
 },
 "C121": {
  "note": "That half the integral of x dy - y dx is the area inside is Green's theorem, taken as the definition here. Exact arithmetic.",
  "status": "proved"
 },
 "C122": {
  "note": "What PIL reports of an image is an input; the text of a line is kept as its parts.",
  "status": "proved"
 },
 "C123": {
  "note": "Rounding without overflow and underflow, as in C86.",
  "status": "proved"
 },
 "C124": {
  "note": "Parts are curves, rectangles, rounded rectangles and ellipses.",
  "status": "proved"
 },
 "C125": {
  "note": "Exact arithmetic.",
  "status": "proved"
 },
 "C126": {
  "note": "Exact arithmetic; one rounding per operation for single smoothings is in C103.",
  "status": "proved"
 },
 "C127": {
  "note": "Exact arithmetic. For self_intersect the assumptions of C77 on the intersection finder.",
  "status": "proved"
 },
 "C128": {
  "note": "That the image library fills polygons by the even-odd rule is an assumption on the library, written as Spec/Fill.lean; pixels are not modelled.",
  "status": "proved"
 },
 "C129": {
  "note": "Exact arithmetic; speeds are upper bounds, reached by linear animations (C129_sharp).",
  "status": "proved"
 },
 "C13": {
  "note": "any linear order; common interior point needs a dense order",
  "status": "proved"
 },
 "C130": {
  "note": "That the image library fills polygons by the even-odd rule is an assumption on the library, written as Spec/Fill.lean; pixels are not modelled.",
  "status": "proved"
 },
 "C131": {
  "note": "That the image library fills polygons by the even-odd rule is an assumption on the library, written as Spec/Fill.lean; pixels are not modelled.",
  "status": "proved"
 },
 "C132": {
  "note": "That the image library fills polygons by the even-odd rule is an assumption on the library, written as Spec/Fill.lean; pixels are not modelled.",
  "status": "proved"
 },
 "C133": {
  "note": "That the image library fills polygons by the even-odd rule is an assumption on the library, written as Spec/Fill.lean; pixels are not modelled.",
  "status": "proved"
 },
 "C134": {
  "note": "That the image library fills polygons by the even-odd rule is an assumption on the library, written as Spec/Fill.lean; pixels are not modelled. The intersection finder is a parameter with the law Lib.Sound, as in C77.",
  "status": "proved"
 },
 "C135": {
  "note": "That the image library fills polygons by the even-odd rule and overwrites what was there is an assumption on the library, written as Spec/Fill.lean and areaAt in Spec/Picture.lean. Points touched by lines and dots are left out.",
  "status": "proved"
 },
 "C136": {
  "note": "That the image library fills polygons by the even-odd rule is an assumption on the library, written as Spec/Fill.lean; pixels are not modelled. C136_curve has the condition on the winding number of the drawn polygon as a hypothesis (that a curve is simple is not decided by its control points).",
  "status": "proved"
 },
 "C137": {
  "note": "That the image library fills polygons by the even-odd rule is an assumption on the library, written as Spec/Fill.lean; pixels are not modelled. The transforms of C137_element are affine, as everywhere in the drawing (see C130).",
  "status": "proved"
 },
 "C138": {
  "note": "The even-odd rule of the image library is an assumption (Spec/Fill.lean); pixels are not modelled.",
  "status": "proved"
 },
 "C14": {
  "note": "each documented claim decided: counterexamples for the false ones, repaired versions proved",
  "status": "proved"
 },
 "C15": {
  "note": "exact arithmetic over ordered fields",
  "status": "proved"
 },
 "C16": {
  "note": "exact arithmetic over ordered fields",
  "status": "proved"
 },
 "C17": {
  "note": "exact arithmetic; over ordered fields, distances over the reals",
  "status": "proved"
 },
 "C18": {
  "note": "exact arithmetic over any field",
  "status": "proved"
 },
 "C19": {
  "note": "exact arithmetic over ordered fields",
  "status": "proved"
 },
 "C20": {
  "note": "proper crossings; touching and collinear cases refuted by counterexample theorems",
  "status": "proved"
 },
 "C21": {
  "note": "all histories of calls; matrices passed in from other transforms are assumed affine, which the same theorem establishes for them",
  "status": "proved"
 },
 "C22": {
  "note": "C22_exact and C22_roundtrip_iff: all histories. C22_rotate_about_counterexample: the plain claim is false.",
  "status": "proved"
 },
 "C23": {
  "note": "programs with nested with-blocks, exceptions and try; header calls that raise leak the pushed matrix (refuted by counterexample)",
  "status": "proved"
 },
 "C24": {
  "note": "exact arithmetic over the reals",
  "status": "proved"
 },
 "C25": {
  "note": "exact trigonometric functions; doc claim of rotate refuted",
  "status": "proved"
 },
 "C26": {
  "note": "exact arithmetic; threshold 1e-16 as a real number",
  "status": "proved"
 },
 "C27": {
  "note": "exact arithmetic",
  "status": "proved"
 },
 "C28": {
  "note": "exact arithmetic",
  "status": "proved"
 },
 "C29": {
  "note": "exact arithmetic",
  "status": "proved"
 },
 "C30": {
  "note": "exact arithmetic",
  "status": "proved"
 },
 "C31": {
  "note": "exact arithmetic; transform given as a point map",
  "status": "proved"
 },
 "C32": {
  "note": "exact arithmetic",
  "status": "proved"
 },
 "C33": {
  "note": "",
  "status": "proved"
 },
 "C34": {
  "note": "exact arithmetic",
  "status": "proved"
 },
 "C35": {
  "note": "exact real arithmetic; an arbitrary point map stands for the transformer",
  "status": "proved"
 },
 "C36": {
  "note": "exact real arithmetic; refuted for open curves and one-point curves",
  "status": "proved"
 },
 "C37": {
  "note": "exact real arithmetic; thresholds 1e-10 and 100 as real numbers",
  "status": "proved"
 },
 "C38": {
  "note": "entries of the composed matrix are zero or at least 1e-16 (the thresholds of the code); when the axes are exchanged the corners come in the opposite order",
  "status": "proved"
 },
 "C39": {
  "note": "outside elements of shapes with holes without own transform, holes present (counterexamples proved otherwise)",
  "status": "proved"
 },
 "C40": {
  "note": "",
  "status": "proved"
 },
 "C41": {
  "note": "",
  "status": "proved"
 },
 "C42": {
  "note": "own name only while no element object is added twice (counterexample proved)",
  "status": "proved"
 },
 "C43": {
  "note": "names and lookup for trees of groups and simple shapes with non-empty keys; parts of shapes with holes cannot be looked up (counterexample proved)",
  "status": "proved"
 },
 "C44": {
  "note": "for trees meeting Replaceable; otherwise counterexamples proved (two matches, name taken, order, holes)",
  "status": "proved"
 },
 "C45": {
  "note": "false cases are proved as counterexamples and named in the statement",
  "status": "proved"
 },
 "C46": {
  "note": "the number of outlines of multi-path parts is k*k (counterexample proved)",
  "status": "proved"
 },
 "C47": {
  "note": "",
  "status": "proved"
 },
 "C48": {
  "note": "numbers and strings are tokens: repr of float and str is assumed to read back",
  "status": "proved"
 },
 "C49": {
  "note": "Box, containment, symmetry, 45 degree points and error bound; exact real arithmetic.",
  "status": "proved"
 },
 "C50": {
  "note": "radius >= 0; a negative radius leaves the rectangle (C50_negative_radius_counterexample).",
  "status": "proved"
 },
 "C51": {
  "note": "",
  "status": "proved"
 },
 "C52": {
  "note": "steps=0 is outside the assumption on t_range",
  "status": "proved"
 },
 "C53": {
  "note": "",
  "status": "proved"
 },
 "C54": {
  "note": "",
  "status": "proved"
 },
 "C55": {
  "note": "exact arithmetic; printed form as constructor arguments, not characters; a tuple of two numbers given as pen is a colour and a width, shown as a counterexample",
  "status": "proved"
 },
 "C56": {
  "note": "lookup at nodes, bilinear inside, bounds, linear, exact on affine fields, transform; transform_pts and plot orientation disproved",
  "status": "proved"
 },
 "C57": {
  "note": "normalized, scaled, smoothed as weighted mean; smoothing never wipes out a field",
  "status": "proved"
 },
 "C58": {
  "note": "Holder and history theorems need targets that are not chained on a moved point; C58_chained_counterexample shows why.",
  "status": "proved"
 },
 "C59": {
  "note": "Trees as Group.add builds them, without shapes with holes; curves of at least two control points for forcing. restore() loses another curve equal to the morph: C59_restore_counterexample.",
  "status": "proved"
 },
 "C60": {
  "note": "Curves of at least two control points. Rotation to the lower left is wrong for curves with a transform and changes open curves: C60_xform_counterexample, C60_open_counterexample.",
  "status": "proved"
 },
 "C61": {
  "note": "The documented phase offset of periodic is false: C61_offset_counterexample.",
  "status": "proved"
 },
 "C62": {
  "note": "'One image per step' is false for SimpleAnimation: every image is appended twice (C62_simple_counterexample). Drawing is a parameter.",
  "status": "proved"
 },
 "C63": {
  "note": "Text corrected to what the code does; the false parts are counterexample theorems.",
  "status": "proved"
 },
 "C64": {
  "note": "Palette as a list of bytes.",
  "status": "proved"
 },
 "C65": {
  "note": "Intersections are an input of the model (external library). The walk is proved for every graph; the AttributeError on equal parity is shown by a counterexample. Writes to control points shared with the argument are not modelled.",
  "status": "proved"
 },
 "C66": {
  "note": "",
  "status": "proved"
 },
 "C67": {
  "note": "C67_rounded (same order), C67_rounded_exchange (axes exchanged), C67_rounded_counterexample (different scales). Entries of the linear part below 1e-16 other than 0 are excluded (Clean): simplify snaps them to zero.",
  "status": "proved"
 },
 "C68": {
  "note": "",
  "status": "proved"
 },
 "C69": {
  "note": "The canvas is the list of operations issued (polygon, line, ellipse, rectangle); rasterisation is not modelled. C69_ops gives the operations, C69_determined that there is one answer; the false parts are counterexample theorems.",
  "status": "proved"
 },
 "C70": {
  "note": "Outlines are sets of points (Spec/Flatten). Hidden groups and filled holes: counterexample theorems.",
  "status": "proved"
 },
 "C71": {
  "note": "The generator is run to its end by a consumer that does not touch the matrix. Yielded elements are those of transform (C38, C41, C67 say how they draw); C71_drawn for groups of curves and groups.",
  "status": "proved"
 },
 "C72": {
  "note": "For every program from the model of one builder and nested ones. hide() has no effect on drawing: C72_hide_counterexample. The element objects passed to add() are new ones; adding one object twice is C42_shared_counterexample.",
  "status": "proved"
 },
 "C73": {
  "note": "On control polygons: C73_ring says what each vertex becomes, C73_parallel that sides between good corners are parallel at the offset. C73_corners_counterexample: points without handles do not move.",
  "status": "proved"
 },
 "C74": {
  "note": "C74_drawn needs that holes are not groups; C74_order_counterexample shows that the order of paths may differ; C74_dump needs that outsides are not groups, C74_dump_counterexample shows why.",
  "status": "proved"
 },
 "C75": {
  "note": "Exact numbers; the built-in round is assumed to be round-half-even to n decimals (C75_number says what that means). Where a stronger claim fails there are counterexamples.",
  "status": "proved"
 },
 "C76": {
  "note": "Over the reals; the curves are those of C31.",
  "status": "proved"
 },
 "C77": {
  "note": "The intersection finder of the package bezier is a parameter; its correctness is assumed. The claim for open curves is refuted by C77_open_counterexample.",
  "status": "proved"
 },
 "C78": {
  "note": "The tree itself is not changed while generators run. The two false claims are refuted by counterexamples.",
  "status": "proved"
 },
 "C79": {
  "note": "Heap model of the writes; C79_result is a refinement of the value model of C65 and C77; C79_argument_counterexample: the argument changes.",
  "status": "proved"
 },
 "C80": {
  "note": "The false parts are counterexample theorems. Whether scipy copies the values is a parameter of the model.",
  "status": "proved"
 },
 "C81": {
  "note": "counterexample: own box exchanges the points of a mirrored rectangle",
  "status": "proved"
 },
 "C82": {
  "note": "PIL's operations are parameters with stated laws; counterexamples for narrow images and fast animations",
  "status": "proved"
 },
 "C83": {
  "note": "counterexamples: draw_bbox not symmetric about the x axis; grid arguments",
  "status": "proved"
 },
 "C84": {
  "note": "Round trip under the same conditions on elements as C48. How x7-testing uses the table is not in the repository.",
  "status": "proved"
 },
 "C85": {
  "note": "C85_exact_model links the rounded functions to the exact models. The exact image needs a tolerance: C85_transformed_exact_counterexample.",
  "status": "proved"
 },
 "C86": {
  "note": "The tolerance of C86_in_box cannot be dropped (C86_in_box_counterexample), nor the bound on t of C86_split_inside (C86_split_inside_counterexample, for every precision).",
  "status": "proved"
 },
 "C87": {
  "note": "C87_exact_model links the rounded functions to the exact models. math.hypot, cosine and sine enter with an assumed error bound (hypothesis of C87_unit and C87_rotate). The tolerance of C87_relative cannot be dropped: C87_relative_counterexample.",
  "status": "proved"
 },
 "C88": {
  "note": "C88_exact_model links the rounded functions to the models of C59-C62. Sine and cosine enter with an assumed error bound. That tolerances cannot be dropped: C88_linear_counterexample, C88_morph_end_counterexample, C88_last_frame_counterexample.",
  "status": "proved"
 },
 "C89": {
  "note": "C89_exact_model links the rounded methods to the models of C17-C20. Tolerances cannot be dropped: C89_parallel_counterexample, C89_from_pts_counterexample, C89_crossing_missed_counterexample, C89_assertion_counterexample.",
  "status": "proved"
 },
 "C90": {
  "note": "C90_same_graph links the steps to the edges of the C65 model; C90_missing_edge_counterexample records the vacuous check.",
  "status": "proved"
 },
 "C91": {
  "note": "PIL's BLUR and Brightness are parameters with stated laws; PIL's own kernel is shown to satisfy them.",
  "status": "proved"
 },
 "C92": {
  "note": "PIL's choice of palette is a parameter.",
  "status": "proved"
 },
 "C93": {
  "note": "x7.testing and matplotlib are parameters; the _counterexample theorems record what does not hold.",
  "status": "proved"
 },
 "C94": {
  "note": "Model/BBox.lean leaves half filled boxes out; C94_queries, C94_methods and C94_measures show that the two models agree on all others. The _counterexample theorems record what does not hold.",
  "status": "proved"
 },
 "C95": {
  "note": "Assigning the attributes origin and direction of a line is not represented. The _counterexample theorems record what does not hold.",
  "status": "proved"
 },
 "C96": {
  "note": "Functions of generic animations act on points only. Output paths end in .gif; iOS is not modelled; pygifsicle.optimize is assumed to raise ValueError for a missing source. The _counterexample theorems record what does not hold.",
  "status": "proved"
 },
 "C97": {
  "note": "The counterexample theorems prove the parts marked False in the statement to be false.",
  "status": "proved"
 },
 "C98": {
  "note": "The counterexample theorems prove the parts marked False in the statement to be false. Formats are parameters; Python's is Fmt.double. Signed zeros are not distinguished: no function modelled here does.",
  "status": "proved"
 },
 "C99": {
  "note": "The counterexample theorems prove the parts marked False in the statement to be false, at every precision. scale_bbox with keep_aspect is not included.",
  "status": "proved"
 }
}