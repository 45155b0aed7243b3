{"id": "C01", "title": "Points and vectors form an affine space", "statement": "In exact arithmetic P-P gives a Vector, P+V, V+P and P-V give a Point, V+V and V-V give a Vector, and the affine laws hold: q+(p-q)=p, (p+v)-v=p, p+v=v+p, (p-q)+(q-r)=p-r, (p+v)+w=p+(v+w), vector addition is a commutative group and scaling distributes. P+P and V-P are rejected with TypeError; no other combination of Point and Vector is.", "quantifier": "all points, vectors and scalars, and all combinations of operand kinds", "why_tests_cant": "an algebraic law over an infinite set of operands; tests check a handful of literal pairs", "anchors": ["x7/geom/geom.py:Vector.__add__", "x7/geom/geom.py:Vector.__sub__", "x7/geom/geom.py:Vector.sub_vector", "x7/geom/geom.py:BasePoint.add_vector", "x7/geom/geom.py:BasePoint.__add__", "x7/geom/geom.py:BasePoint.__sub__"]}
{"id": "C02", "title": "Vector metric operations obey their geometric laws", "statement": "dot is symmetric and bilinear, cross is antisymmetric and bilinear, dot^2+cross^2=|a|^2|b|^2, length()^2=dot(self), unit() is the positive multiple of length 1 and raises ZeroDivisionError exactly for the zero vector, normal() has the same length, is perpendicular, and is the 90-degree clockwise turn, cross==0 exactly for linearly dependent vectors.", "quantifier": "all vectors", "why_tests_cant": "universally quantified identities over reals", "anchors": ["x7/geom/geom.py:Vector.dot", "x7/geom/geom.py:Vector.cross", "x7/geom/geom.py:Vector.normal", "x7/geom/geom.py:Vector.unit", "x7/geom/geom.py:Vector.length"]}
{"id": "C03", "title": "Vector.rotate and Vector.angle are polar-coordinate inverses", "statement": "rotate(d) preserves length, dot and cross, rotate(a).rotate(b)=rotate(a+b), rotate(360k)=identity, rotate(-90) equals normal(), and for every vector Vector(length,0).rotate(angle()) gives the vector back.", "quantifier": "all vectors and all angles", "why_tests_cant": "identity over all reals; a test samples a few angles", "anchors": ["x7/geom/geom.py:Vector.rotate", "x7/geom/geom.py:Vector.angle"]}
{"id": "C04", "title": "Relative and calculated points track their base through any mutation history", "statement": "After any sequence of point creations and setxy/set/restore calls on plain points, a PointRelative reads as base position plus its delta, a PointCalc reads as the grand-base position plus scale times the delta, a VectorRelative reads as the current difference, through chains of any depth. Moving a plain point by d moves every PointRelative chained on it by exactly d and leaves points not depending on it where they were.", "quantifier": "all heaps of points, all chain depths, all mutation histories", "why_tests_cant": "needs induction over unbounded chains and histories of aliasing mutations", "anchors": ["x7/geom/geom.py:PointRelative.xy", "x7/geom/geom.py:PointCalc.xy", "x7/geom/geom.py:VectorRelative.xy", "x7/geom/geom.py:Point.setxy", "x7/geom/geom.py:Point.set", "x7/geom/geom.py:Point.restore"]}
{"id": "C05", "title": "fixed() is a snapshot and copy() of a plain point is equal and independent", "statement": "The point returned by fixed() has the position of the original at that moment and never changes when any other point is mutated later. copy() of a plain Point is equal to the original and independent of it.", "quantifier": "all heaps, all later mutation histories", "why_tests_cant": "requires all later histories; aliasing effects are invisible to value-level tests", "anchors": ["x7/geom/geom.py:BasePoint.fixed", "x7/geom/geom.py:Point.copy", "x7/geom/geom.py:PointRelative.copy", "x7/geom/geom.py:Point.__eq__"]}
{"id": "C06", "title": "BasePoint.parse accepts exactly its grammar and loses nothing", "statement": "parse succeeds exactly on sequences made of number pairs, points and 2-tuples (also 3-tuples when allow_thruples), returns one entry per pair/point/tuple in input order with the same coordinates, is the identity on its own output, and raises ValueError on everything else (never another exception, never a partial result).", "quantifier": "all input sequences over numbers, points, tuples of any length and foreign objects, both flag values", "why_tests_cant": "grammar acceptance over unbounded sequences", "anchors": ["x7/geom/geom.py:BasePoint.parse"]}
{"id": "C07", "title": "polygon_area is the signed shoelace area", "statement": "polygon_area is invariant under rotating the list and translating all points, is negated by reversing the list, scales by the determinant under an affine map, is 0 for fewer than three points, and equals width*height for a counter-clockwise axis-parallel rectangle; it adds over cutting a polygon along a diagonal.", "quantifier": "all point lists of any length", "why_tests_cant": "induction over list length; rotation and cut position arbitrary", "anchors": ["x7/geom/geom.py:polygon_area"]}
{"id": "C08", "title": "A BBox is always none or normalised", "statement": "Every BBox obtained from the constructor and any later sequence of copy, grow, +, intersection, expand, sort and transformed is either none (all four coordinates None) or has xl<=xh and yl<=yh. (Direct item assignment is outside: it can break the order and sort() repairs it.)", "quantifier": "all coordinates (any order), all operation sequences", "why_tests_cant": "invariant over unbounded operation histories", "anchors": ["x7/geom/geom.py:BBox.__init__", "x7/geom/geom.py:BBox.grow", "x7/geom/geom.py:BBox.__add__", "x7/geom/geom.py:BBox.intersection", "x7/geom/geom.py:BBox.expand", "x7/geom/geom.py:BBox.sort", "x7/geom/geom.py:BBox.__setitem__"]}
{"id": "C09", "title": "BBox + BBox is the least box containing both", "statement": "a+b contains a and b, is contained in every box containing both, is commutative, associative, idempotent, and BBox(None) is its identity; a sum over any list of boxes does not depend on the order.", "quantifier": "all boxes including none and degenerate ones, all lists of boxes", "why_tests_cant": "lattice laws quantify over all boxes", "anchors": ["x7/geom/geom.py:BBox.__add__"]}
{"id": "C10", "title": "Growing by points gives the least box of the points in any order", "statement": "Starting from BBox(None) and growing by each point of a non-empty list gives the smallest box whose closed region holds all the points, whatever the order and repetitions; growing never loses a point already inside.", "quantifier": "all lists of points, all orders", "why_tests_cant": "permutation invariance over unbounded lists", "anchors": ["x7/geom/geom.py:BBox.grow"]}
{"id": "C11", "title": "BBox.intersection is set intersection of closed boxes", "statement": "A point lies in the closed region of a.intersection(b) exactly if it lies in both closed regions; the result is none exactly if the closed regions are disjoint; intersection is commutative, associative, idempotent, absorbs with +, and none is absorbing.", "quantifier": "all boxes, all points", "why_tests_cant": "set equality over infinitely many points", "anchors": ["x7/geom/geom.py:BBox.intersection"]}
{"id": "C12", "title": "BBox.contains is containment of regions", "statement": "For boxes with coordinates a.contains(b) holds exactly if the closed region of b is a subset of that of a; it is a partial order; it implies a.intersection(b)==b and a+b==a and conversely. With a none box it raises ValueError (the class documentation says False).", "quantifier": "all boxes", "why_tests_cant": "order laws over all boxes", "anchors": ["x7/geom/geom.py:BBox.contains"]}
{"id": "C13", "title": "overlaps / touches / disjoint classify every pair of boxes", "statement": "For boxes with positive area exactly one of overlaps, touches and empty intersection holds; overlaps means the intersection has positive area and equivalently some point is strictly inside both; touches_side implies touches; touches implies intersection area 0 and not overlaps, for all normalised boxes; all three relations are symmetric. For boxes with positive area touches holds exactly if the boxes share a point but do not overlap, touches_side exactly if they share two points but do not overlap.", "quantifier": "all pairs of boxes", "why_tests_cant": "case split on all relative positions of two boxes with real coordinates; the unit test samples a 6x6 grid", "anchors": ["x7/geom/geom.py:BBox.overlaps", "x7/geom/geom.py:BBox.touches", "x7/geom/geom.py:BBox.touches_side", "x7/geom/geom.py:BBox.intersection"]}
{"id": "C14", "title": "Documented corner-point claims of the BBox algebra", "statement": "The class documentation claims: contains implies every corner is contained (contains_pt); touches implies some corner of other is touched (touches_pt); overlaps implies other==intersection or some corner of other is contained; touches excludes contains; none boxes answer False. Each claim either holds for all boxes or has a counterexample.", "quantifier": "all pairs of boxes", "why_tests_cant": "a universally quantified documentation claim; only a proof or a counterexample settles it", "anchors": ["x7/geom/geom.py:BBox", "x7/geom/geom.py:BBox.contains_pt", "x7/geom/geom.py:BBox.touches_pt"]}
{"id": "C15", "title": "expand never inverts a box", "statement": "expand(dx,dy) keeps the centre, changes width to max(0, width+2dx) and height likewise, contains the original for non-negative amounts and is contained in it for non-positive ones, and expanding by a then b>=0 adds up.", "quantifier": "all boxes with coordinates, all amounts of any sign", "why_tests_cant": "all real amounts including over-shrinking", "anchors": ["x7/geom/geom.py:BBox.expand"]}
{"id": "C16", "title": "BBox.transformed is the tight box of the image", "statement": "For an affine transform the result contains the image of every point of the box and is the least such box; for none it raises ValueError.", "quantifier": "all boxes, all affine transforms, all points of the box", "why_tests_cant": "quantifies over every point of the region and every matrix", "anchors": ["x7/geom/geom.py:BBox.transformed", "x7/geom/transform.py:Transformer.transform_pts"]}
{"id": "C17", "title": "Line.closest is the nearest point of the line", "statement": "For a non-zero direction closest(p) lies on the line, p-closest(p) is perpendicular to the direction and no point of the line is nearer to p; for a zero direction ZeroDivisionError is raised; a point of the line is its own closest point.", "quantifier": "all lines, all points", "why_tests_cant": "minimality over infinitely many points of the line", "anchors": ["x7/geom/geom.py:Line.closest"]}
{"id": "C18", "title": "Line.intersection is the unique common point", "statement": "If the directions are not parallel the result lies on both infinite lines and is the only such point, and is symmetric in the operands; ParallelLineError is raised exactly when the cross product of the directions is zero; the internal division never divides by zero.", "quantifier": "all pairs of lines", "why_tests_cant": "universal over reals incl. absence of ZeroDivisionError", "anchors": ["x7/geom/geom.py:Line.intersection", "x7/geom/geom.py:Line.parallel"]}
{"id": "C19", "title": "segment_intersection is sound", "statement": "If it returns (p,t_self,t_other) then both parameters are in [0,1] and p is the point of both segments at those parameters; the internal assertion never fires and no division by zero happens in exact arithmetic; ParallelLineError is raised only for parallel segments whose boxes overlap.", "quantifier": "all pairs of segments", "why_tests_cant": "absence of assertion failures over all inputs", "anchors": ["x7/geom/geom.py:Line.segment_intersection"]}
{"id": "C20", "title": "segment_intersection finds every proper crossing", "statement": "If two non-parallel segments cross at a point interior to both, segment_intersection returns that point. The stronger claim, that every common point of non-parallel segments is found, is decided either way.", "quantifier": "all pairs of segments", "why_tests_cant": "completeness claim over all inputs", "anchors": ["x7/geom/geom.py:Line.segment_intersection", "x7/geom/geom.py:Line.segment_bbox", "x7/geom/geom.py:BBox.overlaps"]}
{"id": "C21", "title": "A Transform denotes the composition of the operations applied to it", "statement": "After any sequence of translate, scale, rotate, rotate_ccw, rotate_about, scale_bbox, compose, compose_outer, reset, set_matrix, push and pop, transform(x,y) equals the composition of the elementary maps: later translate/scale/rotate/compose_outer act after, compose acts before; the matrix stays affine (last row 0,0,1); copies are independent.", "quantifier": "all operation histories, all points", "why_tests_cant": "refinement over unbounded histories", "anchors": ["x7/geom/transform.py:Transform.translate", "x7/geom/transform.py:Transform.scale", "x7/geom/transform.py:Transform.rotate", "x7/geom/transform.py:Transform.compose", "x7/geom/transform.py:Transform.compose_outer", "x7/geom/transform.py:Transform.transform_np_pts", "x7/geom/transform.py:Transform.copy"]}
{"id": "C22", "title": "untransform undoes transform after any history", "statement": "After every history of calls: for a singular matrix untransform fails instead of answering; otherwise untransform(p) is the point q with transform(q) = S(p), S being the composition of those rotate_about calls made since the first request for an inverse after the last call that clears the cache (identity if there are none). So untransform(transform(p)) = p exactly when S leaves transform(p) fixed, and always (both ways round) when rotate_about is not called while an inverse is cached. (The plain claim, for every history, is false of the code.)", "quantifier": "all operation histories including earlier untransform calls, all points", "why_tests_cant": "cache staleness depends on the whole history", "anchors": ["x7/geom/transform.py:Transform.untransform", "x7/geom/transform.py:Transform.inverse", "x7/geom/transform.py:Transform.rotate_about"]}
{"id": "C23", "title": "push/pop and with-blocks restore the matrix", "statement": "pop restores exactly the matrix at the matching push for any well-nested sequence of operations between; a with-block restores it also when the body raises; pop on an empty stack raises EmptyStackError and changes nothing; the depth after any history is pushes minus pops.", "quantifier": "all nestings and operation sequences, all exception points", "why_tests_cant": "unbounded nesting, exceptions at any point", "anchors": ["x7/geom/transform.py:Transform.push", "x7/geom/transform.py:Transform.pop", "x7/geom/transform.py:Transform.__enter__", "x7/geom/transform.py:Transform.__exit__"]}
{"id": "C24", "title": "scale_bbox maps the start box onto the target box", "statement": "Without keep_aspect the added map sends every corner of start to the corresponding corner of target; with keep_aspect it is a uniform positive scale for boxes of positive size, sends centre to centre, keeps start inside target and touches the target in at least one dimension; a start box of zero width or height raises ZeroDivisionError.", "quantifier": "all boxes, all prior matrices", "why_tests_cant": "universal over boxes and matrices", "anchors": ["x7/geom/transform.py:Transform.scale_bbox"]}
{"id": "C25", "title": "Rotations are isometries with the stated centre and sense", "statement": "rotate, rotate_ccw and rotate_about preserve distances, compose additively in the angle, rotate_about fixes its centre, rotate_ccw agrees with Vector.rotate, rotate and rotate_ccw are inverse; rotate turns clockwise in (right,up) space although documented counter-clockwise.", "quantifier": "all angles, centres and points", "why_tests_cant": "universal over reals", "anchors": ["x7/geom/transform.py:Transform.rotate_mat", "x7/geom/transform.py:Transform.rotate_mat_ccw", "x7/geom/transform.py:Transform.rotate", "x7/geom/transform.py:Transform.rotate_ccw", "x7/geom/transform.py:Transform.rotate_about"]}
{"id": "C26", "title": "simplify decomposes a transform", "statement": "For every affine matrix the two transforms returned by simplify compose (first after second) to the original up to snapping entries below 1e-16 to 0, exactly if no entry is in (0,1e-16); the second has no translation; is_simple holds exactly if the axes map to axes up to that threshold.", "quantifier": "all matrices", "why_tests_cant": "threshold case split over all reals", "anchors": ["x7/geom/transform.py:Transform.simplify", "x7/geom/transform.py:Transform.is_simple", "x7/geom/transform.py:near_zero"]}
{"id": "C27", "title": "canvas_fit, scale_vals and transform_width", "statement": "canvas_fit maps (x,y) to (zoom*x+zx, height-(zoom*y+zy)); scale_vals returns the lengths of the images of the unit axes; transform_width is linear in the width, is never negative for a non-negative width, and equals width*|k| for a similarity of ratio k. transform_width is the width times the mean of the two axis lengths.", "quantifier": "all matrices, sizes, widths", "why_tests_cant": "universal over reals", "anchors": ["x7/geom/transform.py:Transform.canvas_fit", "x7/geom/transform.py:Transform.scale_vals", "x7/geom/transform.py:Transform.transform_width"]}
{"id": "C28", "title": "Batch transforms agree with pointwise transforms", "statement": "transform_pts and untransform_pts return, in order, exactly the pointwise results for any non-empty list; the flatten form is the concatenation of the coordinate pairs; output kind follows the first element; an empty list is an error.", "quantifier": "all lists, all matrices", "why_tests_cant": "unbounded list length", "anchors": ["x7/geom/transform.py:Transformer.transform_pts", "x7/geom/transform.py:Transformer.transform_pt", "x7/geom/transform.py:Transform.untransform_pts"]}
{"id": "C29", "title": "bez_split subdivides without changing the curve", "statement": "For every parameter the left half reparametrised and the right half reparametrised trace exactly the original cubic, the halves join at the curve point with equal tangent direction, and the outer handles of the two ends are unchanged.", "quantifier": "all cubics, all split parameters, all curve parameters", "why_tests_cant": "polynomial identity over reals", "anchors": ["x7/geom/bezier.py:bez_split"]}
{"id": "C30", "title": "bez samples lie on the cubic, endpoints exact", "statement": "bez(points,steps) returns 2*(steps+1) numbers for steps>=1, pair i is the Bernstein cubic at i/steps, the first and last pairs are exactly the given end points.", "quantifier": "all control points, all step counts", "why_tests_cant": "unbounded step counts, all reals", "anchors": ["x7/geom/bezier.py:bez"]}
{"id": "C31", "title": "bez_path samples the whole path once", "statement": "bez_path of n control points returns 2*(n*steps+1) numbers if closed (n at least 1) and 2*((n-1)*steps+1) if open (n at least 2), consecutive segments share their junction exactly once, a closed path ends where it starts, and each point lies on the matching cubic; no control point, or one control point of an open curve, gives an empty list.", "quantifier": "all control point lists, both flags, all step counts", "why_tests_cant": "unbounded list length", "anchors": ["x7/geom/bezier.py:bez_path"]}
{"id": "C32", "title": "Curves stay inside the control point box", "statement": "Every point of every segment of a curve lies in the sum of the bounding boxes of the control points (centre and both handle ends). No smaller box contains the control points and handle ends: every side is reached.", "quantifier": "all curves, all parameters in [0,1]", "why_tests_cant": "convex hull property over all parameters", "anchors": ["x7/geom/bezier.py:ControlPoint.bbox", "x7/geom/model.py:ElemCurve.bbox_int"]}
{"id": "C33", "title": "Reversing control points reverses the traced curve", "statement": "reverse_list is an involution and the reversed list traces the same segments backwards (B_rev(t)=B(1-t)).", "quantifier": "all lists, all parameters", "why_tests_cant": "unbounded list length", "anchors": ["x7/geom/bezier.py:ControlPoint.reversed", "x7/geom/bezier.py:ControlPoint.reverse_list"]}
{"id": "C34", "title": "Transforming control points transforms the curve", "statement": "For an affine transform the curve of the transformed control points is the transformed curve at every parameter, transforming by A then B equals transforming by B composed with A, identity transform gives an equal control point, and the kind is kept.", "quantifier": "all control points, all affine transforms, all parameters", "why_tests_cant": "universal over reals", "anchors": ["x7/geom/bezier.py:ControlPoint.transform"]}
{"id": "C35", "title": "Non-linear transforms respect the control point kind", "statement": "After ControlPoint.transform with a non-linear transformer, a very-smooth point has dl=-dr, a smooth point has opposite collinear handles with the lengths of the transformed handles, a sharp point keeps the transformed handles; handles that become equal and non-zero raise ZeroDivisionError.", "quantifier": "all control points, all non-linear transformers", "why_tests_cant": "arbitrary transformer function", "anchors": ["x7/geom/bezier.py:ControlPoint.transform"]}
{"id": "C36", "title": "add_one adds one control point without changing the curve", "statement": "add_one increases the number of control points by exactly one and the traced closed curve is the same set of points in the same order. (False for open curves when the wrap-around gap is longest and for one-point curves; the kind of the split neighbours is lost.)", "quantifier": "all closed curves with at least two control points", "why_tests_cant": "unbounded number of points, arbitrary longest segment", "anchors": ["x7/geom/model.py:ElemCurve.add_one", "x7/geom/bezier.py:bez_split"]}
{"id": "C37", "title": "offset_pt moves a corner to the offset lines", "statement": "When neither handle is zero and the joint is not straight there is exactly one point at signed distance offset from both adjacent edge lines, and it is returned if it is within the limit of 100; for straight joints the point moves exactly offset along the normal; with a zero handle it does not move; the displacement never exceeds the larger of |offset| and 100. (The side is lost when the limit is hit in the negative direction.)", "quantifier": "all handle directions and offsets", "why_tests_cant": "universal over reals, threshold cases", "anchors": ["x7/geom/model.py:ElemCurve.offset_pt"]}
{"id": "C38", "title": "ElemP1P2.transform keeps drawn rectangles and ellipses", "statement": "Transforming a rectangle by a matrix and drawing it gives the same four corners as drawing the original under the matrix, for axis-preserving and for general invertible matrices; an ellipse gives the same set of vertices; the matrix passed by the caller is unchanged afterwards.", "quantifier": "all rectangles, own transforms and matrices", "why_tests_cant": "universal over matrices, case split on simplify", "anchors": ["x7/geom/model.py:ElemP1P2.transform", "x7/geom/model.py:ElemP1P2.transform_pts", "x7/geom/model.py:ElemRectangle.paths"]}
{"id": "C39", "title": "bbox() encloses everything drawn", "statement": "For every element tree (curves, rectangles, ellipses, nested groups with transforms) every vertex of every path drawn with an identity drawing context lies in the closed region of bbox(). The box is the least one: it is the smallest box around the transformed inner box, and the inner box of a group is the smallest around the boxes of its members.", "quantifier": "all element trees of any depth, all transforms", "why_tests_cant": "structural induction over trees plus convexity", "anchors": ["x7/geom/model.py:Elem.bbox", "x7/geom/model.py:Group.bbox_int", "x7/geom/model.py:ElemCurve.bbox_int", "x7/geom/model.py:ElemP1P2.bbox_int", "x7/geom/model.py:Group.paths", "x7/geom/model.py:ElemCurve.paths"]}
{"id": "C40", "title": "Drawing leaves the drawing context matrix and stack as found", "statement": "paths and control_paths of any element tree leave the matrix and the stack of the drawing context exactly as before, whether the call returns or an element fails part-way.", "quantifier": "all element trees, all failure points", "why_tests_cant": "unbounded nesting, exceptional exits", "anchors": ["x7/geom/model.py:Elem.draw_space", "x7/geom/model.py:Group.paths", "x7/geom/model.py:ElemCurve.paths", "x7/geom/transform.py:Transform.push"]}
{"id": "C41", "title": "Nested transforms compose when drawing", "statement": "The paths of a tree under context matrix D are the paths of each leaf under D composed with the transforms of its ancestors in order and its own; drawing the tree transformed by M under D equals drawing it under D composed with M (curves, groups and shapes with holes). The copy of a tree, as the constructors leave it, draws what the tree draws.", "quantifier": "all trees, all matrices", "why_tests_cant": "structural induction", "anchors": ["x7/geom/model.py:Group.paths", "x7/geom/model.py:Group.transform", "x7/geom/model.py:ElemCurve.transform", "x7/geom/model.py:Elem.draw_space"]}
{"id": "C42", "title": "Group.add keeps names unique and dot-free", "statement": "After any sequence of add calls all keys are distinct and dot-free, each element is stored under its own name, earlier entries and their order are kept, the fresh-name search always terminates, and add raises exactly when the name has a dot and fixname is off (and the name is not taken), leaving the group unchanged.", "quantifier": "all groups, names and add sequences", "why_tests_cant": "termination and uniqueness for unbounded histories", "anchors": ["x7/geom/model.py:Group.add", "x7/geom/model.py:Group.__init__"]}
{"id": "C43", "title": "iter_elems and lookup agree", "statement": "For every group tree the dotted names produced by iter_elems are pairwise distinct and looking up each (without the root part) returns that element; unknown names raise; the transform reported for an element is the product of its ancestors transforms at the time it is yielded, and the caller transform is restored at exhaustion.", "quantifier": "all trees of any depth", "why_tests_cant": "structural induction; generator state", "anchors": ["x7/geom/model.py:Group.iter_elems", "x7/geom/model.py:Group.lookup"]}
{"id": "C44", "title": "Group.replace replaces every match", "statement": "replace returns the number of matches, removes every element equal to the old one and puts the replacement there, others untouched. (False: two matches in one group raise after deleting, draw order changes, any element with holes raises.)", "quantifier": "all group trees and elements", "why_tests_cant": "arbitrary number and position of matches", "anchors": ["x7/geom/model.py:Group.replace", "x7/geom/model.py:Group.add", "x7/geom/model.py:ElemWithHoles.replace"]}
{"id": "C45", "title": "copy gives an equal independent element and restore undoes changes", "statement": "copy() equals the original, mutating either leaves the other unchanged, and e.restore(saved) after any in-place changes makes e equal to saved. (False in places: the transform object is shared, point names, Group.closed and the holes list.)", "quantifier": "all elements, all later mutations", "why_tests_cant": "aliasing over all later histories", "anchors": ["x7/geom/model.py:ElemCurve.copy", "x7/geom/model.py:ElemP1P2.copy", "x7/geom/model.py:Group.copy", "x7/geom/model.py:Elem.restore", "x7/geom/model.py:ElemWithHoles.restore"]}
{"id": "C46", "title": "Path lists of groups and shapes with holes", "statement": "A hidden group draws nothing; a visible group draws its children paths in insertion order; a shape with holes with one-path parts draws one filled path covering outside then every hole, then one outline per part; number of paths is as documented.", "quantifier": "all trees", "why_tests_cant": "unbounded number of children", "anchors": ["x7/geom/model.py:Group.paths", "x7/geom/model.py:ElemWithHoles.paths", "x7/geom/model.py:Path.extend"]}
{"id": "C47", "title": "Dump variables are named consistently", "statement": "Over any sequence of set_var calls, equal representations get the same variable, different representations get different variables whatever prefixes are used, and a name once given never changes.", "quantifier": "all sequences of values and prefixes", "why_tests_cant": "injectivity over unbounded histories", "anchors": ["x7/geom/model.py:DumpContext.set_var"]}
{"id": "C48", "title": "Dumped text denotes the dumped element", "statement": "The text written by dump into a new context and given by output(), read as a Python constructor expression, denotes an element equal to the dumped one, for curves, rectangles, rounded rectangles, ellipses and groups of them at any depth; it does so each time output() is called, with or without variables. Dumping leaves the indentation depth, the earlier lines and the variable names unchanged. Not so: hidden and points of groups are lost, named corners of rectangles get a further 'fixed_', and the text of a rectangle with holes raises when evaluated.", "quantifier": "all elements without holes whose group keys are the names of the members, all contexts, any number of output() calls", "why_tests_cant": "round trip over all values", "anchors": ["x7/geom/model.py:Elem.dump_elem", "x7/geom/model.py:ElemCurve.dump", "x7/geom/model.py:Group.dump", "x7/geom/model.py:DumpContext.output"]}
{"id": "C49", "title": "make_ellipse_cps approximates the ellipse of the box", "statement": "The four control points and handle ends lie exactly on or in the box with the box as their bounding box, the curve is symmetric under both axes, passes through the ellipse at all multiples of 45 degrees (parametrically) and deviates from the true ellipse by less than 0.03 percent.", "quantifier": "all centres, radii and parameters", "why_tests_cant": "error bound over all parameters", "anchors": ["x7/geom/model.py:make_ellipse_cps", "x7/geom/model.py:make_ellipse_p1p2_cps"]}
{"id": "C50", "title": "make_rounded_rect_cps stays inside the rectangle", "statement": "For a radius that is not negative the call succeeds, all control points, handle ends and the whole curve lie in the rectangle spanned by p1, p2. If both sides and the radius are positive, every segment either runs along an edge or is a corner arc of radius min(radius, w/2, h/2) accurate to 0.03 percent, and there are 8 control points less two for each direction in which the arcs meet. Radius 0 gives the four corners.", "quantifier": "all rectangles and radii", "why_tests_cant": "case split over clipping", "anchors": ["x7/geom/model.py:make_rounded_rect_cps"]}
{"id": "C51", "title": "min_rotation is the shortest rotation", "statement": "The result is in [-180,180), differs from target-source by a multiple of 360, and no other congruent angle has smaller absolute value.", "quantifier": "all angles", "why_tests_cant": "universal over reals", "anchors": ["x7/geom/utils.py:min_rotation"]}
{"id": "C52", "title": "arc and circle lie on the circle", "statement": "Every point is at distance |r| from the centre; the first and last points are at the requested angles; ccw arcs sweep [0,360) counter-clockwise and cw arcs clockwise; default step count gives at most one degree per step; circle returns 361 points and closes.", "quantifier": "all radii, angles, centres, step counts", "why_tests_cant": "universal over reals, unbounded steps", "anchors": ["x7/geom/utils.py:arc", "x7/geom/utils.py:circle"]}
{"id": "C53", "title": "arc2p finds the centre on the requested side", "statement": "For 0<|e-s|<=2r and non-zero side the centre is at distance r from both points, right of the line from s to e for positive side and left for negative; the arc goes counter-clockwise from s to e about it, the long way round for positive side; too far or equal points raise ValueError, a zero side ZeroDivisionError.", "quantifier": "all points, radii, sides", "why_tests_cant": "universal over reals", "anchors": ["x7/geom/utils.py:arc2p"]}
{"id": "C54", "title": "Path helpers are pointwise maps with inverses", "statement": "path_rotate/ccw, path_translate, path_to_xy/from_xy keep the length and order, translate by d then -d and rotate by a then -a are identity, from_xy(to_xy(p)) has the same coordinates; check_point_list raises exactly if some entry is not a point, and on lists it accepts none of the helpers raise. The tuples returned by default are not accepted by the helpers.", "quantifier": "all lists", "why_tests_cant": "unbounded lists", "anchors": ["x7/geom/utils.py:path_rotate", "x7/geom/utils.py:path_translate", "x7/geom/utils.py:path_to_xy", "x7/geom/utils.py:path_from_xy", "x7/geom/utils.py:check_point_list"]}
{"id": "C55", "title": "Pen and brush decision rules", "statement": "stroke_width is the pen width if positive, else its magnitude scaled by the transform, None without pen; replace changes exactly the requested part and rejects pen and width together; replace_width changes exactly the pens that exist; PensByShape.make follows its table; repr evaluates back to an equal object. A bare colour given as pen means that colour with width 0 (false for a colour that is a tuple of two numbers, which is taken for colour and width), a pair means colour and width; an empty colour given to replace changes nothing.", "quantifier": "all pens, brushes, transforms", "why_tests_cant": "decision tables over infinite domains", "anchors": ["x7/geom/colors.py:PenBrush.stroke_width", "x7/geom/colors.py:PenBrush.replace", "x7/geom/colors.py:PensByShape.replace_width", "x7/geom/colors.py:PensByShape.make"]}
{"id": "C56", "title": "VectorField lookup interpolates the grid", "statement": "lookup at a grid coordinate returns the stored vector, between nodes it is the bilinear interpolation, so bounded by the surrounding values; lookup is linear in the field. transform_pts of a non-empty list never succeeds on a VectorField.", "quantifier": "all grids, fields and coordinates", "why_tests_cant": "universal over reals", "anchors": ["x7/geom/vec_field.py:VectorField.lookup", "x7/geom/vec_field.py:VectorField.transform_np_pts"]}
{"id": "C57", "title": "normalized, smoothed, scaled fields", "statement": "scaled(k) multiplies every vector; normalized scales the field so that the largest magnitude is 1 (fails on a zero field); smoothing averages existing vectors only: every smoothed vector is a convex combination before renormalisation; operands are not modified.", "quantifier": "all fields", "why_tests_cant": "unbounded grid sizes", "anchors": ["x7/geom/vec_field.py:VectorField.normalized", "x7/geom/vec_field.py:VectorField.smoothed", "x7/geom/vec_field.py:VectorField.scaled"]}
{"id": "C58", "title": "Linear-type animations depend only on t", "statement": "For Linear, LinearFunc, Sinusoidal and Circular animations on distinct points, the position after update(t) depends only on t, the original position and the target, not on earlier updates; Linear gives the original at 0 and the target at 1; Sinusoidal stays on the segment; Circular stays at the radius; a holder with animations of distinct points is order independent.", "quantifier": "all update histories, all t", "why_tests_cant": "history independence over unbounded histories", "anchors": ["x7/geom/anim.py:AnimationLinear.update", "x7/geom/anim.py:AnimationSinusoidal.update", "x7/geom/anim.py:AnimationCircular.update", "x7/geom/anim.py:AnimationHolder.update"]}
{"id": "C59", "title": "Morph interpolates control points", "statement": "With force both curves end with the same number of control points (the larger), update at t_func=0 shows the source, at 1 the target, between the linear blend, None hides; updates are history independent; restore puts the source back.", "quantifier": "all curves, all t, all histories", "why_tests_cant": "unbounded lengths and histories", "anchors": ["x7/geom/anim.py:Morph.__init__", "x7/geom/anim.py:Morph.update", "x7/geom/anim.py:Morph.restore"]}
{"id": "C60", "title": "MorphMultiStep picks the right step", "statement": "For increasing steps, t below 0 shows the first curve, t at a step shows that curve, between two steps the linear blend of the neighbours, beyond the last step the last curve; no division by zero happens.", "quantifier": "all step lists, all t", "why_tests_cant": "bisection over unbounded lists", "anchors": ["x7/geom/anim.py:MorphMultiStep.update", "x7/geom/anim.py:MorphMultiStep.__init__"]}
{"id": "C61", "title": "Time functions", "statement": "interpolate clamps outside the knots, hits every knot and stays between neighbouring values; ramp_up is monotone from 0 to 1; ramp_down is 1-ramp_up; hide_if hides exactly below the threshold; periodic has period 1/frequency for zero offset and range shift\u00b1scale. identity_xy moves as no function at all, and xy(f, g) moves x by f and y by g. (periodic applies the offset as a frequency, not as the documented phase.) sin, cos and sin_cos are sine and cosine of as many turns as the frequency says per unit of time, within the scale of the shift.", "quantifier": "all knots, parameters, t", "why_tests_cant": "universal over reals", "anchors": ["x7/geom/anim.py:Animation.interpolate", "x7/geom/anim.py:Animation.ramp_up", "x7/geom/anim.py:Animation.ramp_down", "x7/geom/anim.py:Animation.periodic", "x7/geom/anim.py:Animation.hide_if"]}
{"id": "C62", "title": "Animation builders produce the stated frames", "statement": "build_all draws steps frames at t=i/steps; SimpleAnimation.animate yields one image per step. (False: every image is appended twice.)", "quantifier": "all step counts", "why_tests_cant": "unbounded step counts", "anchors": ["x7/geom/anim.py:Builder.build_all", "x7/geom/anim_simple.py:SimpleAnimation.animate"]}
{"id": "C63", "title": "DrawingContext helpers", "statement": "bbox_max of the smallest boxes around two sets of pixels is the smallest box around both, and is commutative, associative and idempotent; max_bbox of non-empty frames is the smallest box around all their pixels, and the automatic crop of save_animation lies within the image and keeps all of them; unscale_pt inverts scale_pt for an invertible matrix; crop_to_pixels returns an ordered box, independent of the order of the corners, each side within a pixel of the mapped corners; shadow_draw draws only on the shadow, in the shadow colour, and restores the drawing target even if drawing fails. the image of a context is the background, under the shadow, under everything drawn. (None for an empty frame is not neutral; the crop box need not enclose the corners; a nested shadow_draw loses the outer colour: counterexamples.)", "quantifier": "all pixel sets and boxes, frame lists, matrices, crops, drawing steps and failures", "why_tests_cant": "universal", "anchors": ["x7/geom/drawing.py:bbox_max", "x7/geom/drawing.py:DrawingContext.crop_to_pixels", "x7/geom/drawing.py:DrawingContext.scale_pt", "x7/geom/drawing.py:DrawingContext.unscale_pt", "x7/geom/drawing.py:DrawingContext.shadow_draw", "x7/geom/anim.py:Builder.max_bbox", "x7/geom/anim.py:Builder.save_animation"]}
{"id": "C64", "title": "Palette fixing yields binary alpha", "statement": "image_fix_palette on an RGBA palette of at least 256 entries: every alpha is 0 or 255 afterwards and 0 exactly where it was 0; opaque and transparent entries are unchanged; applying it twice changes nothing more; bytes stay bytes; shorter palettes are an IndexError, other modes an AssertionError.", "quantifier": "all palettes", "why_tests_cant": "all byte values", "anchors": ["x7/geom/imagehelp.py:image_fix_palette"]}
{"id": "C65", "title": "bez_self_intersect splits a curve into loops", "statement": "Given the self-intersections of a closed curve, found exactly and different ones at least 1e-11 apart, bez_self_intersect terminates. If it returns, the returned closed curves consist of the arcs of the original curve between intersections, each arc used exactly once and in its original direction, none of the curves passes an intersection point twice, and together they cover exactly the points of the original curve. It returns whenever every intersection is passed exactly twice, once at an even and once at an odd place (as for all plane curves with only double crossings); otherwise it may only fail with AttributeError. Without intersections it returns the empty list.", "quantifier": "all closed curves, all sets of exactly found intersections, all intersection graphs", "why_tests_cant": "termination and partition into loops over all intersection graphs", "anchors": ["x7/geom/bezier.py:bez_self_intersect", "x7/geom/bezier.py:BziGraph", "x7/geom/bezier.py:BziNode", "x7/geom/bezier.py:BziEdge"]}
{"id": "C66", "title": "Colour and pen tables agree", "statement": "For every draft flag and every shape kind, ColorsByShape.make and PensByShape.make agree on whether the kind is filled, whether it is outlined, and on both colours, provided the colours are not empty and not 'NoColor'. (With 'NoColor' they disagree.)", "quantifier": "all draft flags, colours, widths, shape kinds", "why_tests_cant": "unbounded colours and widths; tests sample a few", "anchors": ["x7/geom/colors.py:ColorsByShape.make", "x7/geom/colors.py:PensByShape.make"]}
{"id": "C67", "title": "Transforming a rounded rectangle keeps the drawn outline", "statement": "Transforming a rounded rectangle by an invertible matrix that is not axis preserving, or that scales both axes by the same amount, and drawing it gives the vertices of the original drawn under the matrix: in the same order, except that matrices which exchange the axes walk the outline the other way round. (False for axis-preserving matrices with different scales: the corners keep circular arcs.)", "quantifier": "all rounded rectangles, own transforms and matrices", "why_tests_cant": "universal over matrices, radii and clipping cases", "anchors": ["x7/geom/model.py:ElemRectangleRounded.transform", "x7/geom/model.py:ElemP1P2.transform_pts", "x7/geom/model.py:make_rounded_rect_cps"]}
{"id": "C68", "title": "Markers have the given radius", "statement": "plus and cross return five points: both ends of a stroke, the centre, both ends of a second stroke; ends are at distance |r| from the centre, opposite each other, and the strokes are at right angles, along the axes for plus and along the diagonals for cross.", "quantifier": "all radii and centres", "why_tests_cant": "universal over reals", "anchors": ["x7/geom/utils.py:cross", "x7/geom/utils.py:plus"]}
{"id": "C69", "title": "draw puts the paths on the canvas in order with their pens and brushes", "statement": "Elem.draw issues, for the paths of the element in order, the area in the brush colour and then the line in the pen colour with the pen width rounded half to even (at least one pixel; one pixel in draft mode), nothing for a hidden group, and nothing if producing the paths fails. The transform of the drawing context is left as found, also on failure. Every area and line stays inside the image of the bounding box. Drawing a group is drawing its parts one after the other if the pens have widths in pixels. Control points, if shown, come first. (False: pens with widths in drawing units are not scaled by transforms of groups and elements; elements without pen and brush still issue lines; a closed filled stroked curve without control points raises after drawing; square markers pass their corners reversed.)", "quantifier": "all element trees, pens, brushes, context transforms and drawing options", "why_tests_cant": "universal over element trees and matrices; pixel comparisons cannot see the order of operations", "anchors": ["x7/geom/model.py:Elem.draw", "x7/geom/model.py:DrawingContext", "x7/geom/colors.py:PenBrush.stroke_width"]}
{"id": "C70", "title": "as_curves keeps every outline where it is drawn", "statement": "as_curves of any element tree returns one curve for every part that is not a group or a shape with holes, in order, with the name, pen, brush and closedness of the part and no transform of its own; the points of the curve are exactly the outline of the part carried by all transforms that apply to it. Trees of curves and visible groups draw the same paths as their curves. It fails only where a part has no outline. (False: hidden groups are drawn empty but give curves; holes become filled curves.)", "quantifier": "all element trees with affine transforms", "why_tests_cant": "universal over trees, transforms and all points of the outlines", "anchors": ["x7/geom/model.py:Elem.as_curves", "x7/geom/model.py:Group.as_curves", "x7/geom/model.py:ElemWithHoles.as_curves", "x7/geom/model.py:ElemRectangle.make_control_points"]}
{"id": "C71", "title": "iter_elems_transformed lists the elements where they are", "statement": "iter_elems_transformed run to its end leaves the matrix object passed in as it was, also when an element cannot be transformed, and yields the elements of the group (for a shape with holes the outside and the holes) in order, each transformed by the matrix composed with the transform of the group, named by the path to it; drawing the items of a group of curves and groups gives the drawing of the group. (Hidden groups are listed although they draw nothing.)", "quantifier": "all groups, matrices, stacks, failure points", "why_tests_cant": "universal over trees, matrices and failure points", "anchors": ["x7/geom/model.py:Group.iter_elems_transformed", "x7/geom/model.py:ElemWithHoles.iter_elems_transformed"]}
{"id": "C72", "title": "GroupBuilder builds the tree of elements asked for", "statement": "Every successful call on a GroupBuilder (rect, rrect, ellipse, curve, group, add, rotate_about_center) appends exactly the element asked for, with the pen of its kind of shape, to that builder's group; a call that fails changes nothing; keys stay distinct, dot-free and equal to element names; what was added is found by its dotted path from every enclosing group after any further calls; nested builders inherit pens and kind. (False: hide() has no effect on drawing.)", "quantifier": "all programs: any sequence of calls on a builder and the builders nested in it, with any arguments", "why_tests_cant": "any number of nested builders and calls in any order, colliding names", "anchors": ["x7/geom/model.py:GroupBuilder", "x7/geom/model.py:Group.add", "x7/geom/model.py:Group.add_pt", "x7/geom/model.py:Group.lookup_pt", "x7/geom/model.py:Group.lookup"]}
{"id": "C73", "title": "Offsetting a curve moves every side of its control polygon by the offset", "statement": "ElemCurve.offset(d) fails only for a filled curve that is not closed. Otherwise it returns a curve named <name>_o with the same pen and closed flag, no transform, as many control points and the same kinds, made from the curve with its transform applied and traced so that its area is not negative. Each vertex of the new control polygon (left handle end, point, right handle end, ...) is offset_pt of the old vertex and its two neighbours; a side between two corners whose moved sides cross within 100 lies on the parallel line at signed distance d, to the left of travel. Offset 0 changes nothing, the direction and the starting point of the curve do not matter (area not 0), and rotating and moving the curve rotates and moves the result. Points without handles are not moved at all, whatever d is (so a polygon of corner points is returned unchanged).", "quantifier": "all curves with any number of control points, all transforms, all offsets, all starting points, all rotations and moves", "why_tests_cant": "The result of every vertex depends on its neighbours around the curve and on the sign of the area; tests can only look at a few shapes.", "anchors": ["x7/geom/model.py:ElemCurve.offset", "x7/geom/model.py:ElemCurve.offset_pt", "x7/geom/geom.py:polygon_area"]}
{"id": "C74", "title": "== on elements is an equivalence and equal elements behave the same", "statement": "Points, vectors, control points, pens and transforms are == exactly if they are of the same class with equal attributes (names included). Two elements are == exactly if they are the same up to the order of the entries of group dicts, at any depth; == is reflexive, symmetric and transitive. Equal elements have the same bounding box, draw the same paths up to their order, have equal copies and equal transforms, and, unless a shape with holes has a group as its outside, are dumped as the same text; for elements that dump can write, equal text means equal elements. (False: equal groups may draw in a different order, so what lies on top differs; equal shapes with holes whose outside is a group may be dumped as different text, as repr keeps the order of dicts.)", "quantifier": "all elements, nested to any depth, all matrices, all drawing settings", "why_tests_cant": "Elements are trees of any depth and size, and dicts compare without order: no set of examples covers all pairs of trees.", "anchors": ["x7/geom/model.py:Elem.__eq__", "x7/geom/model.py:ElemCurve.__eq__", "x7/geom/model.py:ElemP1P2.__eq__", "x7/geom/model.py:ElemRectangleRounded.__eq__", "x7/geom/model.py:Group.__eq__", "x7/geom/model.py:ElemWithHoles.__eq__", "x7/geom/geom.py:Point.__eq__", "x7/geom/geom.py:PointRelative.__eq__", "x7/geom/bezier.py:ControlPoint.__eq__", "x7/geom/transform.py:Transform.__eq__"]}
{"id": "C75", "title": "Rounding is to the nearest grid point and respects boxes", "statement": "round(n) of a point, vector, box or control point rounds every coordinate to the nearest number with n decimals (ties to even): it moves a coordinate by at most half a unit of the last place, is idempotent, keeps order and is symmetric around 0. round of a relative or calculated point returns a plain point that no later change of its base moves. Rounding a box never swaps its sides, the rounded box holds the rounded points of the box, and it commutes with unions and with boxes around points; BBox(None) raises TypeError. A rounded control point has its centre and both handle ends on the grid, within half a unit and one unit of where they were; opposite handles stay opposite. (False: rounding twice equals rounding once; handles of smooth points stay on one line; a relative vector rounds to its rounded value.)", "quantifier": "all numbers, numbers of digits, histories of point calls, boxes and control points", "why_tests_cant": "Ties and nearly-ties are a thin set of inputs; monotonicity and commutation with unions are about all pairs of numbers; the independence of a rounded point is about all later histories.", "anchors": ["x7/geom/geom.py:Vector.__round__", "x7/geom/geom.py:VectorRelative.__round__", "x7/geom/geom.py:BasePoint.__round__", "x7/geom/geom.py:Point.__round__", "x7/geom/geom.py:BBox.__round__", "x7/geom/bezier.py:ControlPoint.round"]}
{"id": "C76", "title": "close is nearness, and close control points give close curves", "statement": "p.close(q, d) is true exactly if the distance is below d. It is symmetric, reflexive for d > 0, moving both points alike changes nothing, and tolerances add: close within d and then within e is close within d + e; the same for vectors and for control points, which must also have the same kind. A rounded point or control point is close to the original within one unit of the last place. If the control points of two curves are pairwise close within d, the curves are within 2 d of each other at every parameter. (False: close is transitive.) Control points are close exactly if the kinds agree and the centres and both handle vectors are close.", "quantifier": "all points, vectors, control points, tolerances, and curves of any length", "why_tests_cant": "The bound on the curves is about all parameters and all pairs of curves.", "anchors": ["x7/geom/geom.py:Vector.close", "x7/geom/geom.py:BasePoint.close", "x7/geom/bezier.py:ControlPoint.close"]}
{"id": "C77", "title": "self_intersect of curves, given a right intersection finder", "statement": "bez_intersect returns exactly what the finder found, in its order, leaving out the ends (1, 0) and (0, 1) unless asked for; each point lies on both curves. bez_self_intersect compares each pair of segments of the closed curve once, where a segment whose halves meet counts as two. If the finder is right, no segment ends in an intersection and different intersections are 1e-11 apart: the result is empty exactly if nothing crosses, and otherwise the curves returned cover together exactly the points of the given closed curve, or AttributeError is raised; it is not raised if every intersection is passed twice, at an even and an odd place. The curves of ElemCurve.self_intersect have different names <name>_i<k>, the pen and brush of the element and no transform, and cover exactly the element as drawn. (False: the same for open curves, which are treated as closed.)", "quantifier": "all closed curves with any number of control points, transforms, and finders", "why_tests_cant": "The number of segments and intersections is unbounded, and the result must be right for every answer of the finder.", "anchors": ["x7/geom/bezier.py:bez_intersect", "x7/geom/bezier.py:bez_intersect_new", "x7/geom/bezier.py:bez_self_intersect", "x7/geom/model.py:ElemCurve.self_intersect"]}
{"id": "C78", "title": "Generators of elements give the same items under every schedule", "statement": "iter_elems and iter_elems_transformed are generators that work on a transform object. If no other generator works on the same object and the program leaves the object as it was each time it uses it in between, the n-th next gives the n-th item of a loop over the whole generator (all parts of the tree with their names and the product of the transforms around them, or the transformed elements), then StopIteration or the exception the loop ends with; then the object is as at the beginning. A whole loop over one generator in the body of a loop over another is such a use. Closing or dropping iter_elems_transformed, or iter_elems of a shape with holes made of basic shapes, at any point gives back the object; after close only StopIteration follows. Dropping iter_elems of a group restores nothing: the object stays as it is inside of the groups around the last item, and as many pops as there are groups repair it. (False: the object is restored when a loop over iter_elems is left early; two generators can share a transform object.)", "quantifier": "all trees, any number of generators and transform objects, all interleavings of next, close and balanced uses of any length", "why_tests_cant": "The claim is about every interleaving and every point at which a generator is dropped.", "anchors": ["x7/geom/model.py:Elem.iter_elems", "x7/geom/model.py:Group.iter_elems", "x7/geom/model.py:Group.iter_elems_transformed", "x7/geom/model.py:ElemWithHoles.iter_elems", "x7/geom/model.py:ElemWithHoles.iter_elems_transformed", "x7/geom/transform.py:Transform.push", "x7/geom/transform.py:Transform.pop"]}
{"id": "C79", "title": "What bez_self_intersect does to the control points it is given", "statement": "bez_self_intersect keeps and returns some of the ControlPoint objects it is given, and writes to them while it works. For a list of distinct objects the result is nevertheless that for the values the objects had at the start: nothing is read after it was changed. A call, whether it returns or raises, leaves all control points outside of the list as they were, keeps centres and kinds, and can change only the left handle of the first control point of the list and the right handles of the others; a changed handle keeps its direction and does not get longer. ElemCurve.self_intersect changes no control point of any shape, even if a curve holds one object twice. (False: the list given to bez_self_intersect is unchanged.)", "quantifier": "all heaps of control points, all lists of distinct control points of any length, all intersection finders (for the claim on lengths: finders that return parameters between 0 and 1)", "why_tests_cant": "Aliasing between the argument, the list under construction and the pieces of split segments depends on which of arbitrarily many segments are split.", "anchors": ["x7/geom/bezier.py:bez_self_intersect", "x7/geom/bezier.py:bez_split", "x7/geom/model.py:ElemCurve.self_intersect"]}
{"id": "C80", "title": "Vector fields under change: lookups, copies, equality", "statement": "Looking up changes no vectors. If vx and vy of a field are not assigned to after a lookup in it (and, if the interpolation library copies the values, its arrays are not changed after one), then in every history a lookup interpolates the vectors the field has now. A copy has the current vectors in arrays of its own: later changes to one do not show in the other, and lookups in the copy see the current vectors. Two fields are == exactly if mesh and vectors at the nodes agree; == is an equivalence, and equal fields look up the same the first time. A random field of magnitude m has no component above m anywhere in its box. (Vectors assigned after a lookup are ignored by later lookups, so that equal fields can look up different vectors: counterexamples.)", "quantifier": "all programs that create, copy, derive, change, assign to and look up in fields that may share arrays; all points; both behaviours of the library; all random numbers", "why_tests_cant": "unbounded histories with aliasing and a hidden cache", "anchors": ["x7/geom/vec_field.py:VectorField.interp_coords", "x7/geom/vec_field.py:VectorField.copy", "x7/geom/vec_field.py:VectorField.__eq__", "x7/geom/vec_field.py:Mesh.__eq__", "x7/geom/vec_field.py:Mesh.uniform"]}
{"id": "C81", "title": "Resizing an element by its box gives it exactly that box and stretches its outline", "statement": "After `e.bbox_int_update(box)` of a rectangle, rounded rectangle or ellipse, `e.bbox_int()` is `box`, and the class, name, pen and brush, `closed`, transform and radius are as before; only the last of several updates matters. The control points of an ellipse and the corners of a rectangle are the images of the old ones under the stretch along the axes that takes the old box to the new one (corners up to order; an ellipse updated with its own box is unchanged). As objects, only the coordinates of the element's two points are written: their names, the transform and every other object stay, a copy taken before is unaffected, and restoring from it undoes the update. Curves, groups, shapes with holes, and any element with `BBox(None)` give ValueError with nothing written. Not true: updating a rectangle with its own box leaves it equal to what it was (the first point becomes the low corner).", "quantifier": "every element of every class, every box, every heap of objects with every aliasing of transforms", "why_tests_cant": "Stretching is about all boxes and all shapes, and that nothing else changes is about every other object; tests compare a few boxes", "anchors": ["x7/geom/model.py:ElemP1P2.bbox_int_update", "x7/geom/model.py:ElemCurve.bbox_int_update", "x7/geom/model.py:Group.bbox_int_update", "x7/geom/model.py:ElemWithHoles.bbox_int_update", "x7/geom/model.py:ElemP1P2.as_digi_points", "x7/geom/geom.py:BBox.p1", "x7/geom/geom.py:Point.restore"]}
{"id": "C82", "title": "Saving an animation: the palette and the frames", "statement": "make_palette gives the colours of the images, each once, as many as there are up to 256; more frequent colours first, of equally frequent ones the greater; every colour left out is less frequent, or as frequent and smaller, than all kept; it depends only on how often each colour occurs, not on the order of images or pixels; with at most 256 different colours none is lost. save_animation writes one frame per image, frame k made from image k with a palette common to all, all of the same size: half the size of the (cropped) images, at least one pixel whatever is visible provided the images are at least 2 by 2; the transparent colour of a frame is that of its upper left pixel; resize_for_gif leaves alpha 0 or 255, 255 exactly where resizing gave full opacity. Milliseconds per frame are whole, the frames together last at most the duration and less than a millisecond per frame less. Not true: images one pixel wide can be saved (ValueError); the duration is kept (with more frames than milliseconds the time per frame is 0).", "quantifier": "every list of images of every size and content, every duration, every implementation of the image library that meets the stated assumptions", "why_tests_cant": "The order of a palette is about all images with any number of colours and ties; frame sizes about all visible boxes; tests save one animation", "anchors": ["x7/geom/anim.py:Builder.make_palette", "x7/geom/anim.py:Builder.scaled", "x7/geom/anim.py:Builder.resize_for_gif", "x7/geom/anim.py:Builder.save_animation", "x7/geom/anim.py:rgb_to_transparent", "x7/geom/anim.py:composed", "x7/geom/anim.py:getalpha"]}
{"id": "C83", "title": "Drawing calls and the drawing space of simple animations", "statement": "dc.line, dc.polygon and dc.grid draw their shapes in order through the matrix of the context and leave it unchanged (a polygon without points is a ValueError, the arguments of grid are ignored). SimpleAnimation gives every step a new context with the same map and an empty image, so the images are what drawing each time on its own gives, whatever the drawing function does to its context: animate appends for each of the steps+1 times from t_low to t_high twice the image of what is drawn then. If draw_bbox is symmetric about the x axis, exactly the points of draw_bbox are on the image, low y at the bottom. Not true: draw_bbox is what the image shows: for every other box some point of the box is off the image, and if the box lies above or below the x axis, nothing of it is on the image.", "quantifier": "every list of drawing calls, every matrix, every box and image size, every drawing function including ones that change the matrix or raise", "why_tests_cant": "The tests use one symmetric box; the map is wrong for all boxes that are not, which no example with the default box shows", "anchors": ["x7/geom/drawing.py:DrawingContext.line", "x7/geom/drawing.py:DrawingContext.polygon", "x7/geom/drawing.py:DrawingContext.grid", "x7/geom/drawing.py:DrawingContext.set_matrix", "x7/geom/anim_simple.py:SimpleAnimation", "x7/geom/anim_simple.py:StepContext", "x7/geom/transform.py:Transform.canvas_fit"]}
{"id": "C84", "title": "Test data written as text is read back equal", "statement": "For an element, a list of elements, or a list of (text, element, transform) tuples, and for every prefix of spaces, the pickler extension returns text, and evaluating the text gives equal data: as many items, in the same order, with equal elements, texts and transforms. For all other data, in particular lists that mix the two kinds, it returns None. In the text of a list the opening bracket is not indented, the closing one stands behind the prefix and all lines between are further in; in the text of an element the lines after the first are at least as far in as the prefix. If the data has no relative points or vectors, every class named in the text is in the table of names the extension offers for reading; with relative points that is not so.", "quantifier": "all data (elements of any nesting, lists of any length), all prefixes", "why_tests_cant": "Elements nest without bound and lists have any length; the one-line and the many-line form of a tuple are chosen by the text of the element.", "anchors": ["x7/geom/testing.py: PicklerExtensionGeom.do_pickle, PicklerExtensionGeom.methods, all_subclasses", "x7/geom/model.py: DumpContext.output, DumpContext.append, DumpContext.add_comma"]}
{"id": "C85", "title": "Boxes stay boxes under floating-point rounding", "statement": "With every arithmetic operation rounded as Python floats are, and whatever order or fused operations numpy uses to add up the three products of a row: the midpoint of two points lies in the box they span; the centre of a box lies in the box; a transformed box contains the computed image of every point of the box, without tolerance, and the exact image up to three roundings; expanding by a non-negative amount gives a box that contains the old one and moves each side by the amount up to one rounding; shrinking by any amount gives a proper box inside the old one; widths, heights and areas are never negative, are zero exactly if the box has no extent, and grow with the box.", "quantifier": "all roundings with the recorded properties (IEEE round-to-nearest without overflow and underflow among them), all boxes, points, matrices, amounts and orders of summation", "why_tests_cant": "A sampled coordinate shows one rounding; the claim is over all floats and all orders of summation numpy may choose.", "anchors": ["x7/geom/geom.py: BasePoint.mid, BBox.center, BBox.width, BBox.height, BBox.area, BBox.expand, BBox.transformed", "x7/geom/transform.py: Transform.transform_np_pts, Transformer.transform"]}
{"id": "C86", "title": "Curves under floating-point rounding", "statement": "With every arithmetic operation rounded as Python floats are: a drawn path has as many points as in exact arithmetic, passes exactly through the transformed centres of the control points, and a closed path ends exactly where it starts; every other point is within thirteen roundings of a point of the exact transformed curve, on the segment it belongs to and with the parameter i/steps up to one rounding; all points of the path lie in the transformed bounding box of the curve grown by nine roundings of its largest coordinates; splitting keeps the two end points and the outer handles exactly, gives the new centre and the inner handles of exact arithmetic up to eleven roundings, and the new centre lies in the box of the computed control points without tolerance if t is below 1 by two roundings.", "quantifier": "all roundings with the recorded properties, all control points, open and closed curves, matrices, orders of summation, step counts of at least one and split positions t of at least zero", "why_tests_cant": "Tests compare a few curves with a tolerance that was chosen by trial; the bound must hold for all curves, step counts and sizes of coordinates.", "anchors": ["x7/geom/bezier.py: bez_split, bez_xy, bez, bez_path, ControlPoint.l, ControlPoint.r, ControlPoint.bbox", "x7/geom/model.py: ElemCurve.bbox_int"]}
{"id": "C87", "title": "Points, vectors, areas and transforms under floating-point rounding", "statement": "With every arithmetic operation rounded as Python floats are: the difference of two points has the right signs and is zero exactly if they are equal; a point stored relative to a base is found again up to two roundings; the dot product commutes, the cross product changes sign, a vector has cross product zero with itself and dot product zero with its normal, all without tolerance, and both products are exact up to two roundings; turning a vector is exact up to the error of cosine and sine and two roundings; unit() raises exactly for the zero vector and otherwise keeps signs and gives length one up to one rounding and the error of hypot; the area of a polygon of n points is exact up to n+2 roundings (with the compensated sum of newer Pythons up to 4 roundings for Python floats and up to a million points, and in general up to 3 roundings and terms of second order) and exact for whole coordinates below 2^53; a point transformed after any history of n calls is right up to 3n+3 roundings, the last row of the matrix stays exactly 0, 0, 1, the first call gives exactly its matrix, and no rounding happens for a new transform and for half and quarter turns.", "quantifier": "all roundings with the recorded properties, all points, vectors, polygons, histories of calls, orders of summation of numpy and both versions of Python's sum", "why_tests_cant": "Sampled values show single errors; the bounds must hold for every length of polygon, every history of calls and all sizes of coordinates.", "anchors": ["x7/geom/geom.py: Vector.dot, Vector.cross, Vector.unit, Vector.rotate, Vector.normal, BasePoint.__sub__, PointRelative.fromxy, polygon_area", "x7/geom/transform.py: Transform.translate, Transform.scale, Transform.rotate, Transform.compose, Transform.compose_outer, Transform.transform"]}
{"id": "C88", "title": "Animations, morphs, time functions and frame times under floating-point rounding", "statement": "With every arithmetic operation rounded as Python floats are: a linear animation is exactly at its start at time 0 and exactly at its target at time 1, and up to three roundings in between; a sinusoidal one keeps its time in the unit interval and reaches both ends exactly; a circular one is right up to two roundings and the errors of sine and cosine. A morph is exactly its original at time 0 and stands still if original and target agree; a morph over several steps never raises, shows exactly the curve of each step at its time, and is within seven roundings of the polyline in between. Interpolated time functions are exact at, before and after their knots and within seven roundings elsewhere; ramps are exactly 0 and 1 outside, never leave the unit interval and never turn back. The frame times of a builder begin with exactly 0, never fall, and are below 1 and different for up to 2^52 steps; those of a simple animation begin exactly at t_low, never turn back, and are within seven roundings.", "quantifier": "all roundings with the recorded properties (ramps: all binary precisions from two digits on), all points, curves, steps, knots, numbers of frames and times", "why_tests_cant": "Whether an animation hits its ends exactly depends on rounding of every coordinate and every number of steps; tests see a few.", "anchors": ["x7/geom/anim.py: AnimationLinear.update, AnimationSinusoidal.update, AnimationCircular.update, Morph.update, MorphMultiStep.update, Animation.interpolate, Animation.ramp_up, Animation.ramp_down, Builder.build_all", "x7/geom/anim_simple.py: SimpleAnimation.animate"]}
{"id": "C89", "title": "Lines and segments under floating-point rounding", "statement": "With every arithmetic operation rounded as Python floats are: neither intersection nor segment_intersection divides by zero; intersection raises ParallelLineError exactly if parallel is true, and parallel is symmetric, reflexive and true for all exactly parallel lines; the computed cross product never has the wrong sign. Every point origin + direction*t with t between 0 and 1, the midpoint and both ends lie in segment_bbox without tolerance. A result of segment_intersection has both parameters in the unit interval, a point in the box of the other segment, and the two segments' points at the parameters within the tolerance; the other way round the same parameters are found. For whole coordinates up to 2^24 every proper crossing is found, with the parameters correctly rounded. intersection and closest are right up to stated errors, the first depending on how near to parallel the lines are.", "quantifier": "all roundings with the recorded properties, all lines, points and parameters; the counterexamples for all binary precisions, or for Python's 53 digits", "why_tests_cant": "Whether a quotient of rounded products is zero, in the unit interval or within a tolerance depends on the rounding of every input; tests see a few.", "anchors": ["x7/geom/geom.py: Line.p2, Line.midpoint, Line.__add__, Line.__sub__, Line.from_pts, Line.closest, Line.intersection, Line.segment_bbox, Line.parallel, Line.segment_intersection"]}
{"id": "C90", "title": "The intersection graph through every history of calls, and its validity check", "statement": "After any sequence of calls that create nodes, add edges, mark, unmark and link edges, failing calls included: every node lists, in order of creation, exactly the edges that start or end at it (an edge from a node to itself twice), edges and nodes are never lost or renamed, the number of list entries is twice the number of edges, and names of edges are distinct. A call fails only for the stated reasons and then changes nothing. Adding an edge links its neighbours only where they were not linked. any_edge returns the earliest unmarked edge into the node that does not continue in the given one, None exactly if there is none. validate() returns True exactly if every node has an even number of at least four edge ends and every edge has both neighbours. The graph built by bez_self_intersect from exactly found intersections always passes.", "quantifier": "all histories of calls, all graphs, all closed curves with exactly found intersections", "why_tests_cant": "The graph is built by mutation of lists and links shared by nodes and edges; its invariants concern all histories, and the counts depend on all pairs of segments of a curve.", "anchors": ["x7/geom/bezier.py: BziNode.add_edge, BziNode.any_edge, BziEdge.__init__, BziEdge.remove, BziEdge.unremove, BziGraph.node, BziGraph.add_edge, BziGraph.validate, bez_self_intersect"]}
{"id": "C91", "title": "The pixels of a drawing: layer over shadow over background, and where a shadow falls", "statement": "After any sequence of drawings and shadow drawings on a drawing context, dc.image() shows, pixel by pixel: the layer where it is opaque, whatever the shadow; the background where layer and shadow are transparent; the shadow over the background where only the layer is transparent; and it is opaque where the background is. The image given as background is never changed, so what is drawn on one context is not seen in another on the same image. make_shadow gives an image of one colour (the largest red, green and blue on its argument; the colour drawn with if there is only one) that is nowhere more transparent than its argument, is empty for an empty one, and reaches at most 38 columns further right, 32 rows further down, one row up and no column left, if what casts it is at least 37 columns and 31 rows away from the right and lower side. (Otherwise it comes in again on the opposite side.) composed(im, color) with an opaque colour is opaque, has that colour where im is transparent and shows im where im is opaque.", "quantifier": "All image sizes, images, histories of drawing and shadow calls including failing ones, and all blur and brightness filters with the stated local behaviour.", "why_tests_cant": "Tests compare a few rendered images; that a shadow never falls outside its reach, and never hides or changes what is drawn, concerns every image, position and order of calls.", "anchors": ["x7/geom/drawing.py: make_shadow, DrawingContext.__init__, DrawingContext.image, DrawingContext.shadow_draw, DrawingContext.alloc_shadow", "x7/geom/anim.py: single, composed, run_model"]}
{"id": "C92", "title": "Converting images to palettes with transparency", "statement": "rgba_to_transparent(im, colors) of an RGBA image (else AssertionError) makes transparent exactly the pixels that got the palette entry of the upper left pixel; the others show the colour of their entry. The alpha of the image makes no difference. (So an opaque image of one colour becomes invisible, and transparent pixels of another colour are seen.) rgb_to_transparent of an RGB image (else AssertionError) does the same with the palette given; without one, it leaves two kinds of pixels, white for PIL's first entry and black for all others, and makes the kind of the upper left pixel transparent. palette_image() is 256 stripes of four columns, stripe c of entry c, with a palette of 255 different colours beginning with black and white (the last entry stays black); palette_image(True) is all of entry 0 with a palette of black and white.", "quantifier": "All images, numbers of colours, palettes, and ways of PIL to choose an adaptive palette.", "why_tests_cant": "Tests use a few images on which the upper left pixel happens to be background; the rule concerns every image and every choice of palette.", "anchors": ["x7/geom/imagehelp.py: rgba_to_transparent, rgb_to_transparent, palette_image"]}
{"id": "C93", "title": "The matchers and plot contexts of test cases", "statement": "For test cases derived from TestCaseGeomExtended: points or vectors are almost equal exactly if both coordinates are, and otherwise the text names the coordinates that differ, x before y. (The tolerances places and delta asked for make no difference.) A mismatch with recorded data is explained away for points and vectors exactly if their distance is below 1e-11. (For control points never: AttributeError if centre and handles are close, even for equal ones, else False.) Code made of with self.assertMatchPlot() blocks leaves the plot parameters as it found them, whatever the bodies do, raise or contain; an exception of a body leaves the block only if the plot matches. (If the figure cannot be grabbed, the parameters stay changed.)", "quantifier": "All points, vectors, control points, tolerances, comparisons of floats, and all nestings of plot blocks with exceptions.", "why_tests_cant": "A matcher that accepts too much or too little is not noticed by the tests that use it; restoring parameters concerns every way a body can end.", "anchors": ["x7/geom/testing.py: ExtendedMatcherGeomXY.almost_equal, ExtendedMatcherGeomXY.explain_mismatch, ExtendedMatcherControlPoint.explain_mismatch, PlotMatchContextManager.__enter__, PlotMatchContextManager.__exit__"]}
{"id": "C94", "title": "Boxes as objects that change: equality, rebuilding, items and every history of calls", "statement": "Boxes are equal exactly if their four coordinates are. BBox(*b), eval(repr(b)) and b.copy() are the same; they equal b exactly if b is empty or its coordinates are sorted. BBox(b.as_tuple()) does so exactly for boxes with coordinates and raises TypeError for the empty one. b[i] reads entry i of the tuple, also counted from the back, IndexError otherwise; an assigned item is read back, the others stay. Every call that returns a box returns a new one, always empty or sorted; only item assignment, sort and grow change a box, and only the one they are called on. Through every history of calls without item assignment every box is empty or sorted; with item assignments of numbers into boxes with coordinates no box is half filled; and while no box is half filled a failing call changes nothing. (False with item assignment on the empty box: sort then fails half way, and copies differ from the original.)", "quantifier": "All boxes, also half filled ones, all coordinates of any ordered field, all indices, all histories of calls, failing ones included.", "why_tests_cant": "The state of a box depends on all calls made before; that no call changes another box or leaves one half changed concerns every history.", "anchors": ["x7/geom/geom.py: BBox.__init__, BBox.__repr__, BBox.__eq__, BBox.__getitem__, BBox.__setitem__, BBox.sort, BBox.copy, BBox.grow, BBox.__add__, BBox.intersection, BBox.transformed, BBox.expand, BBox.as_tuple, BBox.__iter__, BBox.size"]}
{"id": "C95", "title": "Lines refer to the points and vectors they were made of", "statement": "At every time a line reads as its origin and direction objects read at that time. Line(p, q) and Line.from_pts(p, q) of two points start where p is, now and later, and keep the direction they had when made, wherever p and q go. Line(p, VectorRelative(q, p)) starts where p is and ends where q is, at every later time. l + v and l - v are the shifted line with an origin of their own but always with the current direction of l. Making a line changes no point, vector or line. A line equals itself, and equal lines read alike. (False: p2 of Line(p, q) stays q; l + v is independent of l; lines that read alike are equal.)", "quantifier": "All histories of calls on points, relative points, vectors, relative vectors and lines, failing calls included, before and after the line is made.", "why_tests_cant": "Which later changes of a point reach a line depends on which objects are shared, over histories of any length.", "anchors": ["x7/geom/geom.py: Line.__init__, Line.__eq__, Line.p1, Line.p2, Line.__add__, Line.__sub__, Line.from_pts, VectorRelative.xy, BasePoint.__sub__, BasePoint.__add__"]}
{"id": "C96", "title": "Animation holders, builders and the files they write", "statement": "A holder holds the animations added to it in the order of the calls. update(t) of a holder puts every point where the animation of it that was added last belongs at t and changes nothing else, whatever was updated, built or saved before; a generic animation moves its point to what its function says of the time, the position at creation and the present position. If an animation raises an exception, those added before have been updated, those after have not. A builder made without animations has a holder of its own, one made with a holder shares it, empty or not. build_all(steps) gives one image per step, the drawing at i/steps, independent of earlier builds; only a successful build changes the images of a builder. If run(steps, output) ends without exception on macOS, the file at output holds steps frames that last at most the duration. run without steps is an IndexError and writes nothing. SimpleAnimation.save_animation writes all images in order on macOS and Linux and raises NotImplementedError elsewhere. (False: a builder writes a file on every platform: other than on macOS and iOS nothing is written and no exception is raised; the optimised file is made of the animation just written; a generic animation shows the same at the same time; the original position is safe; a simple animation plays each step once.)", "quantifier": "All histories of creating points and animations, adding, updating, building, saving and running, failing calls included; all functions of generic animations; all paths, numbers of steps and contents of the file system.", "why_tests_cant": "Which animation wins, what a failed update leaves and which files exist afterwards depends on histories of any length over shared points and holders, and on the platform the tests do not run on.", "anchors": ["x7/geom/anim.py: Animation, AnimationGeneric, AnimationHolder, Builder.__init__, Builder.build_one, Builder.build_all, Builder.save_animation, Builder.run", "x7/geom/anim_simple.py: SimpleAnimation.save_animation"]}
{"id": "C97", "title": "Boxes with NaN coordinates", "statement": "Whatever coordinates boxes were made of, NaN among them, and whatever methods were called after, along each axis a box has two numbers in order or NaN twice. Without NaN (infinities allowed) every method does what C08 to C14 say. A box with a NaN contains no point and no box, is in no box, touches none, and is equal to no box, not even itself or its copy. A point with a NaN is in no box and on the border of none. A box grown from BBox(None) by points spans, along each axis, the numbers among their coordinates if the first point has a number there, and stays NaN if the first point has a NaN there. A sum or an intersection keeps a NaN extent of the first box and ignores one of the second. (False: the order of the points a box is grown by, of two corners, or of two summands does not matter; a + b contains b; boxes that overlap share a point.)", "quantifier": "All linear orders of numbers with NaN added, all boxes reachable by constructors and methods, all points and lists of points.", "why_tests_cant": "NaN makes every comparison false, so each method takes branches no test with numbers takes, and which NaN wins depends on the order of any number of points.", "anchors": ["x7/geom/geom.py: BBox.__init__, BBox.__eq__, BBox.__add__, BBox.grow, BBox.sort, BBox.copy, BBox.is_empty, BBox.contains, BBox.touches_pt, BBox.touches_side, BBox.touches, BBox.overlaps, BBox.intersection, BBox.transformed"]}
{"id": "C98", "title": "Floats of finite range: overflow, gradual underflow, infinities", "statement": "With floats of finite range (p digits, smallest and largest exponent; Python's are 53, -1074, 971): an operation gives the nearest float, or an infinity exactly if the exact result is too large, and is monotone. Where no operation has a result that is too small or too large, everything is as C85 to C89 say. The width of a box of finite floats is never NaN or negative, is 0 exactly if the box has no width, and infinite exactly if the difference is too large. The area is NaN exactly if one side overflows and the other is zero, else not negative. The centre of a box is in the box, and the midpoint of two points in the box of the two, exactly if no sum of two coordinates overflows. Expanding by amounts that are not negative, infinities among them, gives a box without NaN that contains the old one; shrinking by finite amounts gives one without NaN inside of the old one. Transforming a point whose products are below a quarter of the largest float gives finite floats within three relative roundings plus four of the smallest float of the exact image, and the transformed box of such corners is finite and contains the computed image of every point of the box. A point with one infinite coordinate is transformed to infinities of the right sign where the entry of the matrix is not zero, else to NaN; a point with a NaN coordinate to NaN in both. (False: the identity leaves points with an infinite coordinate unchanged; a box with width and height has positive area; the area of finite boxes is a number; the centre is always in the box; shrinking by -inf gives a box inside; the image of a finite point under a finite matrix is a number.)", "quantifier": "All formats with at least two digits, all finite floats of the format, all boxes, matrices and points of them, all orders of summation of the matrix product, fused or not, all amounts to expand by.", "why_tests_cant": "Overflow and underflow happen at the edges of the range; there are 2^64 doubles, and tests use small whole numbers.", "anchors": ["x7/geom/geom.py: BBox.width, BBox.height, BBox.area, BBox.center, BBox.expand, BBox.transformed, BasePoint.mid", "x7/geom/transform.py: Transform.transform, Transform.transform_pt"]}
{"id": "C99", "title": "Angles, arcs, ellipses, rounded rectangles and fits under rounding", "statement": "With floats: the smallest rotation from one angle to another lies between -180 and 180 degrees, both included, turns the source into the target up to three roundings, and is exactly the exact one for whole degrees. The points of an arc lie on its circle up to a few roundings, at angles between two that are the ones asked for up to full turns and roundings; a counter-clockwise arc never goes back and a clockwise one never forward, neither goes through more than a full turn and a rounding, and by default there is more than one step per degree and hardly more than one more. An arc through two points is computed exactly if the points differ and half of their computed distance is not more than the radius; rounding never leads to the square root of a negative number. The control points of an ellipse in a box are within two roundings of the exact ones. A rounded rectangle of floats has all control points exactly in the rectangle and the ends of the handles in it up to three roundings; every control point is within two roundings of an exact one and the other way round. After scale_bbox every point is within seven roundings of where the exact map puts it, so corners go to corners up to these; boxes without width or height raise ZeroDivisionError. The width of a pen is scaled right up to two roundings more than np.hypot makes. (False: the smallest rotation is less than 180; the control points of an ellipse are in its box; a rounded rectangle whose radius is clipped has no duplicate control points.)", "quantifier": "All roundings to nearest of any precision (Python's floats among them), all angles, radii, points, boxes of floats, all directions and numbers of steps, all orders of summation of the matrix product.", "why_tests_cant": "The examples that fail depend on the last binary digit; bounds on errors and containment are about all floats.", "anchors": ["x7/geom/utils.py: min_rotation, arc, arc2p", "x7/geom/model.py: make_ellipse_cps, make_ellipse_p1p2_cps, make_rounded_rect_cps", "x7/geom/transform.py: Transform.scale_bbox, Transform.transform_width"]}
{"id": "C100", "title": "Printed outlines of elements", "statement": "display(detail, prefix) prints every element of a tree exactly once, hidden or not: an element comes before what it holds, the elements of a group are in the order of their keys and two spaces further in, the outside of a shape with holes comes before its holes, both four spaces further in. The heading gives the class, the name, and the number of control points, the corners (and radius) or whether a group is hidden; after it come, each two spaces in, the transform and the points of a group sorted by key, or, if detail is asked for, the pen and the control points in order. The number of lines is the number of elements plus the lines that belong to each: transform (if not the identity), points, pen and control points (if detail is asked for), two labels for a shape with holes. The prefix is put in front of every line and changes nothing else; without detail a part of the lines is printed, in the same order; the text does not depend on the order in which elements and points were added, at any depth; hiding a group changes only its heading. A builder prints its own line and its group two spaces further in. (False: the label before the holes differs from the label before the outside; both say Outside.)", "quantifier": "All trees of elements of any depth and width, all prefixes, both levels of detail, all ways in which numbers, points, pens and transforms are written.", "why_tests_cant": "Trees are unbounded in depth and width and the order of insertion has factorially many possibilities.", "anchors": ["x7/geom/model.py: display of ElemCurve, ElemRectangle, ElemRectangleRounded, ElemEllipse, Group, ElemWithHoles, GroupBuilder"]}
{"id": "C101", "title": "Printed forms", "statement": "Evaluating repr(x) gives back x for points, vectors, control points, brushes, pens, lines and PensByShape (empty names become None), for affine transforms, for boxes (with the coordinates put in order), and for groups that hold only groups and points, to any depth (closed groups come back open). Two such values have the same repr exactly if they are the same; two elements of any kind have the same repr exactly if they are the same up to what repr leaves out: pen, closed and transform of curves and P1P2 shapes, closed of groups, and empty names. str of lines, transforms and curves determines coordinates up to hundredths, str of a group its name and its sizes only. (False: repr of curves and P1P2 shapes, of matrices and of filled groups can be evaluated; an empty name survives repr; str of a PenBrush can be read as a PenBrush: a pen of width 1 is shown as a bare colour, which means width 0; different lines, transforms and curves have different str.)", "quantifier": "All points and vectors with bases to any depth, all names, pens, colours, transforms, boxes, all trees of elements of any depth and width.", "why_tests_cant": "Texts of nested values are unbounded; that no two different values share a text is a statement about all pairs.", "anchors": ["x7/geom/geom.py: __str__ and __repr__ of Vector, VectorRelative, BasePoint, PointRelative, PointCalc, BBox, Line", "x7/geom/bezier.py: ControlPoint.__str__, ControlPoint.__repr__", "x7/geom/colors.py: __str__ and __repr__ of Brush, Pen, PenBrush, PensByShape", "x7/geom/transform.py: __str__ and __repr__ of Matrix, Transform", "x7/geom/model.py: __str__ and __repr__ of ElemCurve, ElemP1P2, ElemRectangleRounded, Group, ElemWithHoles"]}
{"id": "C102", "title": "Changing a group while looping over it", "statement": "A loop over g.iter_elems_transformed() (or g.iter_elems()) may change the group meanwhile. As long as entries are neither added nor taken away (elements renamed, exchanged under their key, other groups changed), the n-th next gives the n-th entry as it is at that moment, with its name at that moment, and then StopIteration. If the number of entries differs from that at the first next, the next call raises RuntimeError and later ones StopIteration; inside nested groups items of the inner loops may still come, but the whole loop cannot end normally while the number stays different. Whatever is done, at most as many items come as there were entries at the first next, each of them an element the group holds at that moment. restore during a loop does not disturb it: the loop goes on over the old elements. (False: a loop that replaces each element as it comes ends normally - it gives every element and then raises RuntimeError, or, if Python rebuilds the table of the dict, may silently leave out an element that was in the group all the time.)", "quantifier": "All groups of any size and nesting, all programs of next, add, item assignment, deletion, renaming and restore of any length, all moments at which Python rebuilds its tables.", "why_tests_cant": "The histories of changes between two items are unbounded, and when a dict is rebuilt depends on its past.", "anchors": ["x7/geom/model.py: Group.iter_elems, Group.iter_elems_transformed, Group.add, Group.restore, Group.replace"]}
{"id": "C103", "title": "Vector fields, inverse transforms and fits to a canvas under rounding", "statement": "With floats: scaled rounds each component of a field once, keeps zeros, and is exact for the factors 1, -1 and 2. normalized gives every component of the exact result up to a factor made by two roundings up and two down, keeps all signs and zeros, makes no vector longer than 1 and one as long as 1 up to that factor, and gives NaNs exactly when all vectors are 0. (False: the longest vector has length 1: vectors (49, 0) become (1 - 2^-53, 0).) smoothed normalises weighted means that are right up to 18 roundings relative to the means of the absolute values; when no signs are mixed the final result is right up to a factor made by 20 roundings up and 20 down. transform followed by untransform (or the other way round) gives back the point up to the residual of the inverse numpy computed and six roundings. scale_bbox with keep_aspect scales both axes by the same float and puts points where the exact centred map puts them up to eleven roundings; boxes without width or height raise ZeroDivisionError. canvas_fit has an exact matrix but for one rounding, maps points right up to two roundings, and never swaps left and right or above and below.", "quantifier": "All fields of any size, all factors, all affine matrices and all matrices that may have been computed as inverse, all boxes and points, all orders of summation in np.dot, all roundings that are monotone, odd and have a relative error bound.", "why_tests_cant": "Errors of rounding depend on the values; tests compare with a tolerance at a few points.", "anchors": ["x7/geom/vec_field.py: VectorField.scaled, VectorField.normalized, VectorField.smoothed", "x7/geom/transform.py: Transform.untransform, Transform.scale_bbox, Transform.canvas_fit"]}
{"id": "C104", "title": "Lines, unit vectors and normalised fields with overflow, underflow, infinities and NaN", "statement": "With floats of finite range and whatever coordinates, infinities and NaN among them: intersection raises ParallelLineError exactly if parallel is true and no other exception; parallel is symmetric; segment_intersection raises only ParallelLineError or AssertionError, and a crossing it returns has a finite point and finite parameters from 0 to 1. For finite coordinates parallel is true exactly if the two products of the cross product do not overflow and round to the same float; so a line is parallel to itself exactly if the product of the coordinates of its direction does not overflow. (False: only lines of one direction are parallel: lines along the axes whose lengths have a product of at most half the smallest float are parallel.) (False: lines of one direction raise ParallelLineError: if the product overflows, intersection returns a point of NaNs.) unit raises ZeroDivisionError exactly for the zero vector, and closest exactly if unit of the direction does. (False: unit has length about 1: the vector of two smallest floats gives (1, 1) or (1/2, 1/2).) Where nothing is too large or too small, intersection is as C89 says. normalized gives only NaN if a component is NaN; zeros for finite and NaN for infinite components if the square of one overflows; infinities for nonzero and NaN for zero components if all squares underflow; and otherwise finite components of at most 2 of which one is at least 1/3.", "quantifier": "All lines, points and fields of any size, with any floats, infinities and NaN as coordinates where not said otherwise; all binary formats with at least two digits (for the last statement: with room for squares and reciprocals, as binary64 has).", "why_tests_cant": "Overflow and underflow occur at the ends of the range, where tests do not go, and NaN passes through every comparison silently.", "anchors": ["x7/geom/geom.py: Line.parallel, Line.intersection, Line.segment_intersection, Line.closest, Vector.unit, Vector.cross, Vector.dot", "x7/geom/vec_field.py: VectorField.normalized"]}
{"id": "C105", "title": "Curves, splits, linear animations and morphs with overflow, underflow, infinities and NaN", "statement": "With floats of finite range: whatever the coordinates, infinities and NaN among them, bez_path gives the usual number of points and passes exactly through the transformed centres. If the control points are finite and the terms of the transform stay below a bound (for Python's floats, 1 - 2^-49 times the largest float), all points are finite, and within thirteen roundings and a few times the smallest float of a point of the exact transformed segment they belong to; hence bez's points are in every box around the control points, up to these errors. (False without the bound: a curve whose control points are all the same point, at the largest float, has a finite box and visits infinity.) An infinite or NaN coordinate of one of the four control points spoils that coordinate of all inner points of the segment. Where nothing is too large or small the points are those of C86. The box of a curve is the smallest one around the centres and the computed ends of handles, infinite ones included, without NaN. bez_split keeps the outer centres and handles, and its new centre is in every box around the control points narrower than the largest float, for parameters up to a little below 1, and it and the new handles are those of the exact split up to eleven roundings. (False for wider ones: splitting the segment from minus the largest to the largest float in the middle gives NaN.) A linear animation between finite points is never infinite, at any time from 0 to 1, however large they are, is exact at both ends and within three roundings in between. (False for infinite targets: the animation starts at NaN.) A morph starts at the original and each coordinate stays between the original's and the target's, within three roundings of where it should be, if these are less than the largest float apart; if not, the coordinate is NaN at the start and infinite afterwards. The box of a curve fails to exist only if it has no control points, and then asking for it raises IndexError, also with NaN and the infinities.", "quantifier": "All control points, step counts, transforms (in any order of summation, with or without fused operations) and times; all binary formats in which 1 is a float (for the animations: with a smallest float below 2 to the minus number of digits).", "why_tests_cant": "Overflow occurs at the end of the range only, where tests do not go; the claim that animations never overflow depends on how products with the largest float are rounded.", "anchors": ["x7/geom/bezier.py: bez, bez_path, bez_split, ControlPoint.bbox", "x7/geom/model.py: ElemCurve.bbox_int", "x7/geom/anim.py: AnimationLinear.update, AnimationMorph.update"]}
{"id": "C106", "title": "Curves as objects: add_one, copy, restore, transform, reverse and offset through every history", "statement": "As long as no ControlPoint object is held twice, by one curve or by two, every history of making curves, copy, add_one, restore, transform, reversing, offset, starting the control points elsewhere and changing transforms does to the curves what it would do to independent values, with the same exceptions, and no ControlPoint is held twice afterwards; only transform objects are shared, by a curve and its copies and reversals. So calls on other curves never change a curve, no call ever moves an existing point or changes an existing vector, and a closed curve of at least two control points keeps its outline, name, pen and transform until it is restored, with one control point more for each add_one. Copies and reversed curves have the outline of the original, transformed ones its image. Restoring from a copy after any history that does not write to the copy gives back all values if the numbers of control points are equal. (False: restore undoes add_one: it raises GeomInternalError after taking over name, pen, closed and transform. False: curves made from the control_points of another curve are independent: add_one on one changes the outline of the other.)", "quantifier": "all histories of calls of any length on any number of curves with any number of control points, starting from nothing or from any objects without shared control points", "why_tests_cant": "Which objects are shared depends on the whole history: copies, splits and reversals hand on points, vectors and transforms, and in-place writes could reach any of them.", "anchors": ["x7/geom/model.py:ElemCurve.add_one", "x7/geom/model.py:ElemCurve.copy", "x7/geom/model.py:ElemCurve.restore", "x7/geom/model.py:ElemCurve.transform", "x7/geom/model.py:ElemCurve.offset", "x7/geom/bezier.py:ControlPoint.restore", "x7/geom/bezier.py:ControlPoint.reversed", "x7/geom/bezier.py:bez_split"]}
{"id": "C107", "title": "What a GroupBuilder program makes can be dumped and read back", "statement": "Whatever sequence of calls is made on a GroupBuilder and on the builders it gave out with group (handing over to add and rotate_about_center only elements that dump can write), the group of each builder, dumped into a new DumpContext, with or without variables, gives a text at every call of output() that reads back as a group equal to the one built, except for the points, which are lost. The group read back can be dumped again, has the same bounding box and draws the same paths. If names were given in ascending order in every group, it is drawn exactly as before. (False: it always looks as before: entries are written in the order of their names, so of two overlapping shapes the other one may be on top, although == holds.)", "quantifier": "all programs of calls on any number of nested builders, all names, pens, shapes and points, every builder made, with and without variables, every number of calls of output(), all drawing settings", "why_tests_cant": "The round trip has to hold for every history of calls, with names that collide, nested builders used in any order, failing calls in between and rotated copies; a test dumps one fixed drawing and compares it with ==, which does not see the order of drawing.", "anchors": ["x7/geom/model.py: GroupBuilder", "x7/geom/model.py: Group.dump", "x7/geom/model.py: DumpContext.output", "x7/geom/model.py: Elem.dump_elem"]}
{"id": "C108", "title": "Several morphs whose sources and targets are shared and change, through every history", "statement": "As long as the curve of a morph is not reversed, every history of calls on curves (as in C106), of making Morphs and of updating them does to the curves what it would do to independent values, with the same exceptions. So an update changes no curve but the one of its morph, and puts each control point which has partners in source and target the given part of the way from where the source is now to where the target is now; with None it goes off-screen, with a pair there is a TypeError. A Morph with force of two curves of at least two control points, with the source in the model, raises nothing, gives both the larger number of control points without changing their outlines, and touches no other curve. As long as nothing adds control points to source, target or its own curve, a morph blends all control points, and shows the line of the source at 0 and of the target at 1, whatever other calls happen. Sources and targets keep their outlines through all morphs and updates. (False: a later Morph from or to the target of an earlier one leaves the earlier one intact: it may add control points to the target, and then the earlier morph at 1 does not show its target. False: a reversed copy of the curve of a morph is independent of it.)", "quantifier": "all histories of calls of any length, with any number of curves, control points and morphs, shared sources and targets, and all numbers as results of the t_func", "why_tests_cant": "Which morphs break depends on the order in which morphs with common curves are made; whether an in-place write reaches another curve depends on the whole history.", "anchors": ["x7/geom/anim.py:Morph.__init__", "x7/geom/anim.py:Morph.update", "x7/geom/anim.py:Morph.validate", "x7/geom/model.py:ElemCurve.add_one", "x7/geom/model.py:ElemCurve.fixed", "x7/geom/bezier.py:ControlPoint.reversed"]}
{"id": "C109", "title": "What a call that raises an exception leaves behind", "statement": "A program that catches all exceptions leaves the objects as it would without the calls that raise them. This holds for programs on points, vectors and lines; on boxes with coordinates; on GroupBuilders, also where one call adds two elements; on curves, if restore is not used; and on transforms, if scale_bbox is not used: matrix and stack are the same, and if rotate_about is not used either, untransform answers the same. An update of a Morph that raises changes nothing. The constructor of Morph that raises makes no morph and without force changes no curve; with force it may have given control points to source and target, but no outline changes. replace that finds nothing to replace leaves the tree as it is, also if it raises. scale_bbox that raises has changed nothing, or moved the transform by the corner of the first box, or moved it and scaled it by 0. (False: scale_bbox that raises leaves the transform as it was. False: untransform_pts that raises has no effect on later answers. False: restore that raises leaves the curve as it was. False: Morph with force that raises leaves the curves as they were.)", "quantifier": "all programs of any length, any interleaving of failing and succeeding calls, any start state that such programs reach", "why_tests_cant": "Unit tests check that an exception is raised, at best the state right after one call; that failing calls may be left out anywhere in a program is a claim about all histories.", "anchors": ["x7/geom/geom.py:BasePoint", "x7/geom/geom.py:Line", "x7/geom/geom.py:BBox", "x7/geom/transform.py:Transform.scale_bbox", "x7/geom/transform.py:Transform.untransform_pts", "x7/geom/model.py:GroupBuilder.rotate_about_center", "x7/geom/model.py:ElemCurve.restore", "x7/geom/model.py:Group.replace", "x7/geom/anim.py:Morph.__init__", "x7/geom/anim.py:Morph.update"]}
{"id": "C110", "title": "Several multi-step morphs and morphs whose curves are shared and change, through every history", "statement": "As long as no curve of a morph or multi-step morph is reversed, every history of calls on curves and Morphs (as in C108), of making MorphMultiSteps and of updating them does to the curves what it would do to independent values, with the same exceptions. Making a MorphMultiStep of curves with at least two control points raises nothing if the source is in the model; it brings all targets and a copy of the source to the largest number of control points, with force makes each start at its lowest left control point, changes no closed line through the control points of a curve, and changes no curve but the targets. An update changes no curve but the one shown, and as long as nothing adds control points to the curves at the steps, each number it shows is the height at the given time of the polyline through the present numbers of the curves at the steps, whatever other calls happen; at an increasing step it shows the line of the curve there. With None it goes off-screen, with a pair there is a TypeError. (False: making a MorphMultiStep leaves earlier morphs to the same target as they are: it turns the control points of the target itself, and the earlier morph shows something else.)", "quantifier": "all histories of calls of any length, with any number of curves, control points, morphs, multi-step morphs and steps, shared and repeated sources and targets, and all numbers as results of the t_func", "why_tests_cant": "Whether one animation disturbs another depends on which curves they share and on the order in which they are made and updated.", "anchors": ["x7/geom/anim.py:MorphMultiStep.__init__", "x7/geom/anim.py:MorphMultiStep.update", "x7/geom/anim.py:Morph.update", "x7/geom/model.py:ElemCurve.add_one", "x7/geom/model.py:ElemCurve.copy", "x7/geom/model.py:ElemCurve.fixed"]}
{"id": "C111", "title": "Several morphs in one group, made, updated and restored in any order, leave the group as it was", "statement": "Let the curves of a group and its subgroups have different names. Whatever Morphs and MorphMultiSteps are made from these curves (also several from one curve, to any targets), updated and restored, in any order and between other calls on curves, in the place of each curve the group holds the curve itself or the curve of a morph made from it, as a small table says, and shapes and groups are where they were. Restoring a morph whose curve is shown raises nothing and brings its source back to its place. Once all have been restored, in any order, every place holds the same curve object as before the first was made. (False: the order of drawing is as before; two equal curves with the same name are kept apart; morphs of the curve of another morph may be restored in any order.)", "quantifier": "all trees of groups, all histories of calls of any length with any number of curves, morphs and multi-step morphs made from the curves of the tree, all orders of restoring", "why_tests_cant": "restore() looks for a curve that equals the one shown, in a tree which other morphs have changed since; whether it finds the right one depends on the whole history.", "anchors": ["x7/geom/anim.py:Morph.__init__", "x7/geom/anim.py:Morph.restore", "x7/geom/anim.py:MorphMultiStep.__init__", "x7/geom/anim.py:MorphMultiStep.restore", "x7/geom/model.py:Group.replace", "x7/geom/model.py:Elem.__eq__"]}
{"id": "C112", "title": "A frame depends only on its time", "statement": "Let an AnimationHolder hold animations of points (generic, linear, with a time function, sinusoidal, circular), morphs and multi-step morphs which work in place on the same curves. Whatever is updated or built, with or without exceptions, the curves keep their control points and transforms and nothing moves except the animated points and the curves of the morphs. If nothing that an animation looks at is moved by itself or a later animation unless an earlier one moves it first, and the curves of each morph have at least as many control points as the curve shown, then after any history of update, build_one and build_all calls an update at time t leaves exactly the objects (or raises the exception) that it would have as the first call; so build_one(t) gives the same image, and build_all(steps) gives the frames each as if built alone. It is enough that no animation looks at what another moves, or that the animations of points come first. After an update every morph is between its source and target as they are now, if nothing later moves them. Every animated point is where its formula puts it. A time that is not a number where one is needed, or an exception of a time function, ends the update there. In another order this is false: a morph placed before the animation of its source shows the frame before, and building the same frames twice gives different pictures.", "quantifier": "all groups of curve objects, all lists of animations with all time functions, all times (numbers, pairs, None), all drawing functions, all histories of calls", "why_tests_cant": "The result of a frame depends on the whole history of earlier updates through shared points; tests build one history.", "anchors": ["x7/geom/anim.py: AnimationHolder.update", "x7/geom/anim.py: Builder.build_one", "x7/geom/anim.py: Builder.build_all", "x7/geom/anim.py: Morph.update", "x7/geom/anim.py: MorphMultiStep.update", "x7/geom/anim.py: AnimationGeneric.update", "x7/geom/anim.py: AnimationLinear.update"]}
{"id": "C113", "title": "Curves whose control points hang on other points", "statement": "Let curves have control points whose centres are any points (plain, PointRelative, PointCalc) and whose handles are any vectors (plain or VectorRelative). After any history of calls, moving a plain point moves exactly the centres that hang on it, and changes a handle by as much as its end goes along more than its start; a curve that hangs on the point as a whole is moved as a whole, outline included, and a curve that does not is left where it was. copy() is a snapshot: it has the same control points and no later call on other objects changes it. restore(other) takes over the control points that other has now. transform gives new plain control points, reverse_list shares the points and so keeps the links. add_one gives the control points it gives for plain points, so a closed outline is kept. But links are lost: after copy and restore (undo) no existing point moves the curve any more; add_one leaves its new control point behind when the base is moved, and replaces the centres of the two neighbours by copies, so that points held by the caller (or by an animation) no longer move the curve; a copied handle may turn when the original kept still.", "quantifier": "all histories of calls on points, vectors, control points and curves; all values and all ways in which points hang on each other", "why_tests_cant": "Whether an edit keeps the links shows only when a point is moved later; tests compare coordinates right after the call, and those are right.", "anchors": ["x7/geom/bezier.py: ControlPoint.copy", "x7/geom/bezier.py: ControlPoint.restore", "x7/geom/bezier.py: ControlPoint.fixed", "x7/geom/bezier.py: ControlPoint.reverse_list", "x7/geom/bezier.py: bez_split", "x7/geom/model.py: ElemCurve.copy", "x7/geom/model.py: ElemCurve.restore", "x7/geom/model.py: ElemCurve.transform", "x7/geom/model.py: ElemCurve.add_one", "x7/geom/geom.py: PointRelative", "x7/geom/geom.py: VectorRelative"]}
{"id": "C114", "title": "Rectangles and ellipses as objects, and the corner points they give out", "statement": "Consider any history of calls that make, copy, restore, resize, transform rectangles, rounded rectangles and ellipses, move points and change transforms. A point object is a corner of at most one shape and stays that for ever; points a program makes itself and passes to a constructor are never corners, so moving them changes no shape. Moving a corner moves that corner of that shape only; every call changes only the shape it is meant for, except that shapes which share a transform object (a copy and its original) change transform together. A copy has the value of the original, restore from the same class takes over the value of the other, a resize puts the corners at those of the box, transform makes a new independent shape. points() (and as_digi_points() of a rectangle) gives out two points that are the live corners through every later history, and two that never have an effect on any shape; the points as_digi_points() of an ellipse or rounded rectangle gives out have no effect. Copy, edit, restore brings a shape back if the copy's transform is not changed. But: after a resize the four points given out earlier are no longer the corners of a rectangle; a rounded rectangle restored from a shape of another class raises after everything but the radius has been overwritten; and a copy does not save the transform.", "quantifier": "all histories of calls on points and shapes; all coordinates, radii and transforms", "why_tests_cant": "Which objects are shared shows only in what a later call changes; tests look at values right after one call.", "anchors": ["x7/geom/model.py: ElemP1P2.__init__", "x7/geom/model.py: ElemP1P2.bbox_int_update", "x7/geom/model.py: ElemP1P2.copy", "x7/geom/model.py: ElemP1P2.restore", "x7/geom/model.py: ElemP1P2.transform", "x7/geom/model.py: ElemP1P2.points", "x7/geom/model.py: ElemP1P2.as_digi_points", "x7/geom/model.py: ElemRectangle.make_control_points", "x7/geom/model.py: ElemRectangleRounded.restore", "x7/geom/model.py: Elem.restore"]}
{"id": "C115", "title": "Groups that share elements", "statement": "Let elements be objects: an element may be in several groups, and groups in groups. After any history of calls (make, add, change a transform, hide, edit or copy an element, copy, restore, transform a group), drawing an object draws the tree that hangs on it, keeps the drawing context, and a call changes what an object draws only if it changes something the object shows. Adding an element to a visible group appends its picture. A copy of a group is a new group with the same element objects and its own transform: it draws the same, and keeps drawing the same as the original through every later history that touches neither group itself, whatever happens to the elements; a transformed group draws what the group draws under the matrix, likewise for ever. Restoring takes over the elements and the very transform object of the other group. Copy, edit, restore brings back the elements, visibility and matrix of a group. Drawing needs no more depth than there are objects unless a visible group is in itself, and then it raises at every depth; if no call puts a group into itself, none ever is. If no element of a group is renamed, the names iter_elems lists are distinct and lookup finds what is listed, however elements are shared. But: g.add(name, g) is accepted and makes g undrawable, and so does restoring a group from the group it is in; adding a shared element to a group where its name is taken renames it in the other group too, which then does not find the name it lists; undo does not bring back elements; and after one undo the saved copy shares its transform with the group, so a second undo fails.", "quantifier": "all histories of calls on elements and groups; all sharing structures, also cyclic ones; all depths of nesting", "why_tests_cant": "Sharing shows only in what a later call changes, and nesting has no bound; tests build small trees without sharing.", "anchors": ["x7/geom/model.py: Group.__init__", "x7/geom/model.py: Group.paths", "x7/geom/model.py: Group.add", "x7/geom/model.py: Group.copy", "x7/geom/model.py: Group.restore", "x7/geom/model.py: Group.transform", "x7/geom/model.py: Group.iter_elems", "x7/geom/model.py: Group.lookup"]}
{"id": "C116", "title": "A DumpContext through every history", "statement": "Elements are dumped one after another into a DumpContext, with imports added, variables set and output() called in between, any number of times. As long as nothing was dumped, output() raises IndexError and changes nothing. Afterwards the text it gives, run as a Python file (imports, logical lines, assignments), runs: its statements are one for each variable followed by one for each dumped element, in order, each with a value equal to the element dumped; the name model stands for the first element. The text is the imports, an empty line, the variables in the order of their names, an empty line, the lines. The imports begin with the four that the classes need, none is there twice, and they are exactly those and the added ones in the order in which they were first given. After any calls at all, with-blocks that raise included, the depth is what it was, and lines written inside a with-block are indented deeper than the block stands. But: only the first element has a name, so a second element cannot be had from the file; and an element dumped inside a with-block behind another element makes a file that does not run.", "quantifier": "every list of dump, add_imports, set_var, output, append, extend, add_comma and with-block calls, nested to any depth; all elements, values, prefixes, imports", "why_tests_cant": "A test dumps one element into a new context and looks at one output; whether later dumps, repeated outputs and shared variables leave the earlier statements valid, and whether every statement of the file denotes its element, depends on the whole history.", "anchors": ["x7/geom/model.py: DumpContext.__init__, add_imports, output, prefix, __enter__, __exit__, set_var, append, extend, add_comma", "x7/geom/model.py: Elem.dump_elem, ElemCurve.dump, Group.dump"]}
{"id": "C117", "title": "Points hung on other points", "statement": "The public attribute base of a PointRelative or PointCalc can be assigned. After any history of constructors, moves, copies and such assignments, reading a point gives its position, or raises RecursionError exactly if it hangs on a point that hangs on itself, or else AttributeError, exactly if it hangs on a PointCalc whose base is no PointRelative; no more depth of calls is needed than there are objects. Rehanging a point moves it and everything that hangs on it, through any scales, by one and the same vector and moves nothing else; a PointRelative is afterwards its offset away from its new base, even if it had no position before. If no assignment ever hangs a point on one that hangs on it, no point ever hangs on itself, so none raises RecursionError and every point equals itself. Rehanging and then adjusting the offset leaves everything in place but the PointCalcs over the point. A call that raises changes nothing. But: p.base = p and longer loops are accepted, and then reading or comparing raises RecursionError at every depth; a PointCalc hung on a plain point has no position and cannot be copied; a row of k PointRelatives needs depth k + 1.", "quantifier": "every history of constructor calls, setters, copies, assignments of dx, dy, scale and base on any number of points; all positions in any field; every depth limit", "why_tests_cant": "A test builds a few points; whether a point has a position depends on the whole graph of references made by the history, and the depth needed on its longest row.", "anchors": ["x7/geom/geom.py: PointRelative.__init__, xy, fromxy, copy, __eq__", "x7/geom/geom.py: PointCalc.__init__, xy, copy, __eq__", "x7/geom/geom.py: Point.set, restore; BasePoint.fixed; VectorRelative.xy, copy, set, setxy"]}
{"id": "C118", "title": "Looking through groups that share elements", "statement": "When groups share elements, bbox, as_curves, iter_elems and lookup give what they would give for separate copies, and the objects found are those in the groups; a shared element is listed once for each way to it. The box of an object encloses all it draws. If no group is in itself the depth of calls needed is at most the number of objects; if a group is in itself, bbox, as_curves and iter_elems of anything around it raise at every depth, while lookup still works and needs only one call per key. replace(elem, replacement), for curves and shapes: if every group inside has at most one element equal to elem and can take the name, then each such group, however often it is shared, loses that element and gets the replacement at its end; nothing else changes, nothing equal to elem is left, and the number returned is the number of such groups. Otherwise ValueError. But: after a ValueError the element is gone; the number is not the number of places where the element was visible; replacing an element by a group that contains it can put that group into itself.", "quantifier": "every state of any number of objects (for replace and the box: every history of constructors, add, setters, copy, restore and transform that puts no group into itself), every object, every list of keys, every depth", "why_tests_cant": "Sharing makes an exponential number of ways through a model, and replace changes the groups while it goes through them; a test sees a few models.", "anchors": ["x7/geom/model.py: Elem.bbox, Group.bbox_int, as_curves, iter_elems, lookup, replace, add", "x7/geom/model.py: ElemCurve.iter_elems, replace, __eq__"]}
{"id": "C119", "title": "Transforms, Matrix objects and arrays as objects", "statement": "Through every history of a program with any number of Transforms, Matrix objects and arrays, the matrix and the saved matrices of a Transform are what the calls on it alone make them: no call on another Transform, no work on a Matrix it was composed with, on a copy of it, or on an array reaches it, and no call on it changes another Transform, a Matrix of the program or an array the program holds. A copy has the matrix, nothing saved and no inverse; composing a Transform with itself uses its matrix of that moment. transform and untransform give what they give for this value, so a Transform undoes what it does under the conditions of C22. pre_dot_eq and post_dot_eq change that Matrix only, not arrays taken from it; Matrix(..), copy() and inverse() make independent ones; m.ndmat is the array of the Matrix itself. One exception: t.inverse hands out the array the Transform goes on using, so writing into it changes what untransform does until the Transform next changes.", "quantifier": "every history of constructors, copies, translate, scale, rotate, rotate_ccw, rotate_about, scale_bbox, compose, compose_outer, reset, set_matrix, push, pop, untransform, reading of inverse and ndmat, Matrix operations, assignment to ndmat and writes into arrays, on any number of objects, including calls that raise; all points", "why_tests_cant": "Whether two objects share an array shows only after a particular sequence of copies, compositions, pushes and writes; a test follows a few.", "anchors": ["x7/geom/transform.py: Matrix.__init__, copy, pre_dot_eq, post_dot_eq, inverse", "x7/geom/transform.py: Transform.__init__, copy, set_matrix, inverse, reset, translate, scale, scale_bbox, rotate, rotate_ccw, rotate_about, compose, compose_outer, transform, untransform, push, pop"]}
{"id": "C120", "title": "What is drawn is as close to the curve as the number of steps promises", "statement": "The points that bez_path returns, joined by straight lines, and the curve through the control points, transformed, are nowhere further apart than 3/4 * L * M / steps^2, seen from the curve and seen from the lines. M is the largest second difference of the control polygon of a segment, L the factor by which the transform lengthens distances at most. So with enough steps any curve is approximated as well as one likes, and the constant cannot be improved. The same holds for what a drawing context draws for a curve element with its points per curve (ten when control points are shown) and for a rounded rectangle with twenty steps. What is drawn for an ellipse is, in its own coordinates, at most 0.1 percent inside it and at most 0.03 percent outside. The lines that join the points of an arc or a circle with the default number of steps stay inside the circle, at most 0.004 percent of the radius away from it.", "quantifier": "all lists of control points, open and closed; all transforms; all numbers of steps from one; all corner points and radii; all arcs; every point on the curve and every point on the lines between the listed points", "why_tests_cant": "A test compares listed points. How far the curve is from the lines between them, anywhere, for any control points and steps, is a statement about a continuum.", "anchors": ["x7/geom/bezier.py: bez, bez_path", "x7/geom/model.py: ElemCurve.paths, ElemRectangleRounded.paths, ElemEllipse.paths", "x7/geom/drawing.py: DrawingContext.points_per_curve", "x7/geom/utils.py: arc, circle"]}
{"id": "C121", "title": "The area of what is drawn against the area of the curve", "statement": "polygon_area of the points that bez_path returns for a closed curve is the signed area that the curve encloses (half the integral of x dy - y dx along it), less a term E2/steps^2 plus a term E4/steps^4 that depend on the control points alone, all multiplied by the determinant of the transform. So the area tends to that of the curve, and a transform multiplies the enclosed area by its determinant. The same holds for what is drawn for a closed curve element. The curve used for an ellipse encloses pi*rx*ry to 0.03 percent, and what is drawn for it has that area to 0.1 percent, clockwise. The points of an arc, closed by the chord, have area r^2/2 (n sin(w/n) - sin w); those of a circle 180 r^2 sin(1 degree), at most 0.006 percent less than pi r^2.", "quantifier": "all lists of control points, all transforms, all numbers of steps from one, all ellipses, all arcs and circles", "why_tests_cant": "The claim compares a sum over the listed points with an integral over the curve, for every number of steps and all control points.", "anchors": ["x7/geom/geom.py: polygon_area", "x7/geom/bezier.py: bez, bez_path", "x7/geom/model.py: ElemCurve.paths, ElemEllipse.paths, make_ellipse_cps", "x7/geom/utils.py: arc, circle"]}
{"id": "C122", "title": "What image_info prints", "statement": "image_info of a palette image prints the palette's bytes and colours that are not zero, each the first nineteen and a mark for more, then the first pixel, then in order exactly the rows from two above the top of the bounding box to three below it that the image has (at most six; the top row of the box is among them), each up to 256 pixels. A row shows every pixel, except that two or more pixels in a row that equal the first pixel of the image appear as one and dots; so what is shown determines the other pixels and their order, and the whole row if no dots appear. For an image without a palette the listing ends in AttributeError before any row, for a four-channel palette with 768 numbers in IndexError at the first colour. Colours are read channel after channel, so for the list colour after colour that getpalette() gives, wrong colours are shown.", "quantifier": "all images: any pixels, size, bounding box and palette", "why_tests_cant": "Runs of any length at any place, any number of used palette entries, any position of the bounding box; a test shows a few listings.", "anchors": ["x7/geom/imagehelp.py: image_info_palette, image_info"]}
{"id": "C123", "title": "What is drawn is close to the curve when every operation is rounded", "statement": "When every arithmetic operation of bez_path (handles, transform, weights, sums) is rounded, the points it returns, joined by straight lines, and the exact curve through the control points, transformed exactly, are nowhere further apart than 3/4 * L * M * (1/steps + 2u)^2 plus thirteen roundings of the size of the coordinates, seen from the curve and seen from the lines: no piece of the curve is left out and no line strays. For Python's floats and up to a million steps this is the bound without rounding (C120) enlarged by a billionth, plus 2^-47 of the size of the coordinates.", "quantifier": "all rounding modes of the arithmetic, all lists of control points, open and closed, all transforms, all numbers of steps from one; every point on the curve and every point on the lines between the computed points", "why_tests_cant": "Each test compares some computed points with some points of the curve. That the computed parameters leave no gap, and that nothing between the points strays, for any control points, transform and number of steps, is a statement about a continuum and all roundings.", "anchors": ["x7/geom/bezier.py: bez, bez_path", "x7/geom/transform.py: Transform.transform_pt"]}
{"id": "C124", "title": "Shapes with holes that share their parts", "statement": "After any history of calls every shape with holes can be drawn, and draws what its outside, its list of holes and its transform are at that moment. A call changes what a shape draws only if it writes the shape, its list, the points of a part, or a transform of the shape or a part; a pen given to a part never shows. The constructor gives the parts the pen, keeps the list it was given and touches nothing else. copy() makes new parts, a new list and a new transform and draws the same; transform(t) draws what the original draws on a canvas moved by t; both raise AssertionError and change nothing if a part is an open curve with a filled pen. Calls which move nothing and name only one of the original and the copy leave the other. restore(other) takes over name, pen, closed, the transform object and a copy of the outside, and copies of its own holes, so that restoring a copy which was left alone brings back what was drawn if the holes are as they were.", "quantifier": "all histories of calls making, changing, copying, transforming and restoring curves, simple shapes, lists and shapes with holes, with any sharing; all pens, points and matrices", "why_tests_cant": "Tests build one shape and use it. What is shared after copies, restores and changes of lists, and so what a later call changes besides its object, depends on the whole history.", "anchors": ["x7/geom/model.py: ElemWithHoles.__init__, ElemWithHoles.paths, ElemWithHoles.copy, ElemWithHoles.restore, ElemWithHoles.transform"]}
{"id": "C125", "title": "How close control points and box are to the curve, and what splitting does", "statement": "The ends of the handles of a segment lie within a third of its bend (the larger second difference of its control points) of the points one third and two thirds along the curve; the control polygon and the curve are within a third of the largest bend of each other; and the box of a closed curve is larger than the curve by at most that on each side, which cannot be improved. For an open curve this needs the two unused handles to be zero. Splitting at t leaves at most t^2 and (1-t)^2 of the bend, so that after n splits in the middle every piece and its control polygon are within bend/(3*4^n), and the pieces cover the curve. add_one() called any number of times on a closed curve leaves the curve where it is, never increases a bend and never enlarges the box.", "quantifier": "all segments, all closed and open curves of any number of control points, all split parameters in [0, 1], any number of splits and of add_one() calls", "why_tests_cant": "The distance is a supremum over a continuum of points of the curve and over all control points; the rate must hold for every depth of splitting. Tests compare a few boxes and a few split points.", "anchors": ["x7/geom/model.py: ElemCurve.bbox_int, ElemCurve.add_one", "x7/geom/bezier.py: bez_split, ControlPoint.bbox"]}
{"id": "C126", "title": "Smoothing a vector field again and again", "statement": "A field with a vector other than zero can be smoothed any number of times without an exception or a nan; the mesh stays and the largest magnitude is exactly 1 each time. Vectors never leave a half plane that held all of them. If all vectors point strictly to one side of some line, the field becomes uniform: there is one vector of length 1 to which all its vectors come, and stay, as close as one likes, and moving points with the field becomes a plain shift by that vector everywhere on the mesh. A uniform field of length 1 stays what it is. A field of two rows of opposite vectors stays opposite for ever.", "quantifier": "all fields on meshes of any size with any number of nodes, all numbers of smoothings, all points of the mesh, all tolerances", "why_tests_cant": "The claim is about a limit over unboundedly many smoothings of fields of any size; tests smooth one small field once or twice.", "anchors": ["x7/geom/vec_field.py: VectorField.smoothed, VectorField.normalized, VectorField.lookup, animate"]}
{"id": "C127", "title": "Length of a curve, and length and area under editing", "statement": "A segment is at least as long as the line between its ends and at most as long as the lines along its handles. The path bez_path returns, and the one a curve draws, is never longer than the curve and falls short of it by at most six times the sum of the bends divided by the number of steps, so its length tends to the curve's. A transform that multiplies all distances by k multiplies lengths by k. Reversing leaves the length and turns the sign of the enclosed area. bez_split leaves length and swept area, add_one called any number of times leaves length and area of a closed curve. The curves self_intersect makes of a closed curve that crosses itself are together as long as the curve, and their signed areas add up to its signed area.", "quantifier": "all curves of any number of control points, all transforms, all numbers of steps and of add_one calls, all parameters in 0..1, all sound intersection finders", "why_tests_cant": "Lengths are integrals over all points of a curve; tests can compare a few sampled paths only.", "anchors": ["x7/geom/bezier.py: bez_path, bez_split, bez_self_intersect, ControlPoint.reverse_list", "x7/geom/model.py: ElemCurve.add_one, ElemCurve.paths, ElemCurve.self_intersect"]}
{"id": "C128", "title": "What a filled shape with holes covers", "statement": "A shape with holes that has a brush draws one filled path and otherwise only outlines. If a polygon is filled by the even-odd rule, the filled path covers exactly the points that an odd number of the outside and the hole outlines cover, whenever the hole outlines end where they start. So for closed holes that lie inside the outside and do not overlap it covers the points of the outside that are in no hole, and its polygon area is the sum of the signed areas. A rectangle covers the points between its sides.", "quantifier": "all outsides and hole lists of any length, all transforms, all points of the plane, all point counts per curve", "why_tests_cant": "The lines there and back between the outside and each hole must cancel for every point and every list of holes; a picture shows a few pixels of one shape.", "anchors": ["x7/geom/model.py: ElemWithHoles.paths, Path.extend, ElemRectangle.paths, ElemCurve.paths"]}
{"id": "C129", "title": "How far what is drawn moves from one frame to the next", "statement": "interpolate changes by at most its steepest slope, ramps by one over their length, sin and cos by scale times angular speed. So an animated point moves with a bounded speed K: the distance to the target (linear), times the speed of the time function (linear with function), times pi times the frequency (sinusoidal), or 2 pi times frequency times radius (circular). From one frame of build_all(steps) to the next it moves at most K/steps, and with a whole number of turns also from the last frame to the first. What a morph draws at two times is apart, point for point, by at most the difference of the time values times the largest distance between control points and handle ends of source and target, enlarged by the transforms; a multi-step morph moves with at most the largest speed between consecutive curves, also across the steps.", "quantifier": "all times, all knots, frequencies, offsets and radii, all numbers of frames, all histories of updates before, all curves and step lists, all transforms", "why_tests_cant": "Smoothness between any two times cannot be sampled; jumps hide between frames, at step boundaries and at the seam of the loop.", "anchors": ["x7/geom/anim.py: Animation.interpolate, Animation.ramp_up, Animation.periodic, Animation.sin_cos, AnimationLinear.update, AnimationLinearFunc.update, AnimationSinusoidal.update, AnimationCircular.update, Morph.update, MorphMultiStep.update, Builder.build_all"]}
{"id": "C130", "title": "What is filled follows the transforms and stays in the bounding box", "statement": "Drawing any element under a further transform draws the same paths with the same pens and brushes, each point mapped, and fails exactly if it failed before. If the transform does not flatten the plane (it may rotate, skew, mirror), each path then fills, by the even-odd rule, exactly the image of what it filled before, points on an outline aside. No element fills a point outside its bbox(), also seen through the transform of the context. The direction in which an outline runs and the point at which it starts do not matter.", "quantifier": "all elements, groups and shapes with holes of any depth, all transforms, all points of the plane, all point counts per curve", "why_tests_cant": "The region is a set of infinitely many points and is decided by counting crossings of arbitrary outlines; tests render a few pixels under a few transforms.", "anchors": ["x7/geom/model.py: Elem.paths, Elem.bbox, ElemCurve.paths, ElemRectangle.paths, ElemGroup.paths, ElemWithHoles.paths, Path.extend", "x7/geom/transform.py: Transform.compose, Transform.transform"]}
{"id": "C131", "title": "What is filled changes only at outlines, whichever way one looks", "statement": "Two points off the outlines are both filled or both unfilled exactly if the straight line between them crosses an even number of sides, so a point is filled exactly if a ray from it in any direction (through no corner) meets an odd number of sides. In a connected part of the plane that no outline enters all points are filled or none is. Nothing is filled beyond a straight line that has all drawn points on one side. A filled ellipse element, drawn under any transform that does not flatten the plane, covers every point of the true ellipse between its corners shrunk by 0.1 percent and no point outside the ellipse enlarged by 0.03 percent.", "quantifier": "all drawn polygons, all points, all lines and directions, all connected regions, all ellipses with corners that differ in both coordinates, all contexts and transforms", "why_tests_cant": "The regions have infinitely many points and the directions are a continuum; tests render a few pixels of a few shapes.", "anchors": ["x7/geom/model.py: Elem.paths, ElemEllipse, ElemEllipse.paths, Path.extend", "x7/geom/bezier.py: bez_path, bez", "x7/geom/model.py: make_ellipse_cps, make_ellipse_p1p2_cps"]}
{"id": "C132", "title": "What is filled, away from the outline, does not depend on small changes", "statement": "If every point of a drawn polygon moves by at most d, a point of the plane farther than d from its sides is filled afterwards exactly if it was before, and at the distance d itself this may fail. Consequently: drawing a curve with more points per curve (bez_path steps, the points_per_curve of a context) fills the same points, except some within 3/2*L*M/steps^2 of the true curve, and every point off the curve is from some number of steps on always filled or never; what a morph fills at two times differs only within the distance its points move; and computing bez_path with rounded arithmetic changes what is covered only within some roundings of the outline.", "quantifier": "all polygons, all points of the plane, all curves open or closed, all transforms, all numbers of steps, all morphs and histories of updates, all rounding modes of the arithmetic", "why_tests_cant": "The points near an outline are infinitely many and the numbers of steps are unbounded; a test compares two pictures at one resolution.", "anchors": ["x7/geom/bezier.py: bez_path, bez", "x7/geom/model.py: ElemCurve.paths", "x7/geom/drawing.py: DrawingContext.points_per_curve", "x7/geom/anim.py: Morph.update", "x7/geom/transform.py: Transform.transform"]}
{"id": "C133", "title": "A filled rounded rectangle covers a rectangle with round corners", "statement": "Let r be the smallest of the given radius and half of the width and height. A drawn rounded rectangle covers every point nearer than 0.999 r to the rectangle without a rim of width r, and no point farther than 1.0003 r from it, whichever corners are given and under every transform that is invertible. In particular the given radius is reduced when it does not fit. With the radius zero it covers, away from the sides, what the plain rectangle covers.", "quantifier": "all rectangles with distinct corners in both coordinates, given by any two opposite corners, all radii above zero (and zero), all element and drawing transforms, all points of the plane", "why_tests_cant": "Rectangles, radii, transforms and points are continuous; a test draws a few and looks at some pixels.", "anchors": ["x7/geom/model.py: ElemRectangleRounded.paths, make_rounded_rect_cps", "x7/geom/bezier.py: bez_path, bez_intersect, bez"]}
{"id": "C134", "title": "What a curve fills does not depend on how it is divided or on its direction", "statement": "add_one, called any number of times, does not change which points a drawn closed curve covers, except some within 6*L*M/steps^2 of the curve (M bounds how much a segment bends, L how much the transform magnifies). With a right intersection finder and intersections that are kept apart, a point farther than that from a curve that crosses itself is covered by the curve exactly if an odd number of the curves self_intersect returns cover it; these have its pen and brush. A curve, open or closed, covers exactly the same points as the same curve reversed.", "quantifier": "all closed curves and numbers of calls of add_one, all curves that cross themselves, all right intersection finders, all transforms, numbers of points per curve and points of the plane; all curves for the reversal", "why_tests_cant": "Curves, points and crossings are continuous and unbounded in number; a test draws a few curves before and after and compares pixels.", "anchors": ["x7/geom/model.py: ElemCurve.add_one, ElemCurve.self_intersect, ElemCurve.paths", "x7/geom/bezier.py: bez_self_intersect, bez_split, bez_path, ControlPoint.reverse_list"]}
{"id": "C135", "title": "The picture that the filled areas of an element make", "statement": "After draw, a point that no line or dot touches has the colour of the last path with a brush that covers it (the shadow colour if there is one and the brush is not transparent), and the colour it had before if there is none; in particular every point outside of the image of the bounding box keeps its colour. A group makes the picture its entries make one after the other, each on top of those before. With a shadow colour and no transparent brush the areas make a silhouette that does not depend on their order. Under a further transform that does not flatten the plane the picture is the same, mapped, except maybe on the sides of outlines. For any tree of elements, also with holes and open inner curves, another number of points per curve gives as many paths with the same pens and brushes, fails in the same way if it fails, and changes the picture only within 3/2*M/n^2 of a drawn curve (M bounds how much the placed segments bend, n is the smaller number); so at each point not on a curve the picture settles as the number of points grows.", "quantifier": "all elements (curves, rectangles, rounded rectangles, ellipses, groups, shapes with holes, nested to any depth), transforms, numbers of points per curve, shadow colours, backgrounds and points of the plane", "why_tests_cant": "Trees, transforms, point numbers and points of the plane are unbounded; a test compares a few images pixel by pixel for a few settings.", "anchors": ["x7/geom/model.py: Elem.draw, ElemCurve.paths, ElemRectangle.paths, Group.paths, ElemWithHoles.paths", "x7/geom/drawing.py: DrawingContext (points_per_curve, shadow_color)", "x7/geom/colors.py: PenBrush"]}
{"id": "C136", "title": "The area of what is filled", "statement": "polygon_area is the integral over the plane of how often the polygon goes around each point (counter-clockwise positive), for every polygon; what the polygon fills by the even-odd rule is where this number is odd. So if the polygon goes around no point more than once and always in one sense (in particular if it is convex), the absolute value of polygon_area is the area of what it fills, and its sign tells the sense; if it goes around no point more than once, in whatever sense, the value is at most that area. What a drawn rectangle fills has the area of the rectangle times the factor of the transforms. What a shape with holes fills has the area of its outside less those of its holes, if these are inside and apart. What a closed curve fills has the area the curve encloses times the determinant of the transforms, but for an error of the order 1/n^2 (n points per segment). For a polygon that goes around twice the value is not the filled area.", "quantifier": "all lists of points, all transforms (also those that flatten the plane), all rectangles, closed curves, shapes with any number of holes and numbers of points per curve", "why_tests_cant": "Polygons have any number of vertices in continuous positions and the area is an integral over the plane; a test compares the formula with the known area of a few shapes.", "anchors": ["x7/geom/geom.py: polygon_area", "x7/geom/model.py: ElemRectangle.paths, ElemCurve.paths, ElemWithHoles.paths"]}
{"id": "C137", "title": "The area of what is filled, under transforms", "statement": "Any polygon mapped by a transform fills an area that is the area it filled before times the absolute value of the determinant of the transform, whatever the polygon (also one that crosses itself). A transform that flattens the plane leaves nothing filled. So any element drawn under a further transform fills, path by path, areas multiplied by this factor. What an ellipse fills, drawn under any transforms that do not flatten the plane, has the area pi * rx * ry times the factor of the transforms, up to 0.2 percent below and 0.1 percent above. What a rounded rectangle fills has the area width * height - (4 - pi) * r^2 times the factor, with the same precision, where r is the given radius or what fits if this is less; with the radius zero the area is exactly width * height times the factor.", "quantifier": "all lists of points, all elements (groups, holes, curves, nested to any depth), all affine transforms, all ellipses and rounded rectangles with corners that differ in both coordinates, all radii", "why_tests_cant": "Transforms and outlines range over the reals, and the area is a Lebesgue measure; a test compares a few areas of simple shapes.", "anchors": ["x7/geom/model.py: Elem.paths, ElemEllipse.paths, ElemRectangleRounded.paths", "x7/geom/transform.py: Transform.transform_pts", "x7/geom/geom.py: polygon_area"]}
{"id": "C138", "title": "How much the area of what is filled can change", "statement": "If every point of a polygon is moved by at most d, the area it fills changes by at most 2*d times the length of its outline plus pi*d^2 for each point, also if it crosses itself. So rounding changes the area a curve fills by no more than this with the d of C132, and in a morph the area changes at most so fast with the value of the time function. Drawn with n or more points per segment, any two drawings of a curve (open or closed, also crossing itself) fill areas that differ by at most (9/2*M*length + 16*k*M^2)/n^2 (k segments, M bounds how much they bend as placed); so the area filled tends, with this error, to the area of the set of points that are filled with enough points per segment. If the drawn polygons go around no point more than once and always in one sense, that area is exactly the area the curve encloses times the determinant of the transforms. Away from the curve (3/2*M/n^2) the number of times the drawing goes around a point does not depend on the number of points per segment, and for the exact area it is enough that each point off the curve is gone around not at all or once in one sense, drawn with enough points. A closed curve without handles goes around each point as often as the polygon of its corners and fills the same, whatever the number of points per segment.", "quantifier": "all polygons, all displacements, all curves, transforms and numbers of points per segment, all roundings (C132), all morphs and sequences of update calls", "why_tests_cant": "Polygons, displacements and roundings are unbounded families of reals and the area is a Lebesgue measure; a test compares some areas.", "anchors": ["x7/geom/model.py: ElemCurve.paths", "x7/geom/bezier.py: bez_path, bez", "x7/geom/transform.py: Transform.transform_pts", "x7/geom/anim.py: Morph.update"]}
