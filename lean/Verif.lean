import Verif.Py.Basic
import Verif.Model.Vec
import Verif.Model.VecReal
import Verif.Props.VecAlgebra
import Verif.Lemmas.VecReal
import Verif.Props.VecMetric
import Verif.Lemmas.Area
import Verif.Props.Area
import Verif.Model.BBox
import Verif.Spec.Region
import Verif.Lemmas.BBox
import Verif.Props.BBox
import Verif.Model.Mat3
import Verif.Lemmas.Mat3
import Verif.Props.BBoxArith
import Verif.Model.Line
import Verif.Spec.Line
import Verif.Props.Line
import Verif.Model.Transform
import Verif.Spec.Transform
import Verif.Props.Transform
import Verif.Props.TransformGeom
import Verif.Model.PointHeap
import Verif.Spec.PointHeap
import Verif.Lemmas.PointHeap
import Verif.Props.PointHeap
import Verif.Model.Parse
import Verif.Spec.Parse
import Verif.Props.Parse
import Verif.Model.Bezier
import Verif.Spec.Bezier
import Verif.Props.Bezier
import Verif.Lemmas.BezierReal
import Verif.Props.BezierReal
import Verif.Lemmas.Bezier
import Verif.Model.Colors
import Verif.Props.Colors
import Verif.Model.Shapes
import Verif.Lemmas.Shapes
import Verif.Spec.Shapes
import Verif.Props.Shapes
import Verif.Model.Elem
import Verif.Spec.Elem
import Verif.Lemmas.Elem
import Verif.Lemmas.ElemBBox
import Verif.Props.Elem
import Verif.Props.ElemBBox
import Verif.Lemmas.RoundedSwap
import Verif.Props.ElemTransform
import Verif.Model.GroupNames
import Verif.Props.GroupNames
import Verif.Model.ElemNames
import Verif.Spec.ElemNames
import Verif.Lemmas.ElemNames
import Verif.Props.ElemNames
import Verif.Model.ElemHeap
import Verif.Spec.ElemHeap
import Verif.Lemmas.ElemHeap
import Verif.Props.ElemHeap
import Verif.Model.Dump
import Verif.Spec.Dump
import Verif.Lemmas.Dump
import Verif.Lemmas.DumpExpr
import Verif.Props.DumpVars
import Verif.Props.Dump
import Verif.Model.Utils
import Verif.Spec.Utils
import Verif.Props.Utils
import Verif.Model.VecField
import Verif.Spec.VecField
import Verif.Props.VecField
import Verif.Spec.Anim
import Verif.Props.Anim
import Verif.Props.AnimTime
import Verif.Model.Anim
import Verif.Model.Morph
import Verif.Spec.Morph
import Verif.Lemmas.Morph
import Verif.Props.Morph
import Verif.Props.MorphMulti
import Verif.Model.Drawing
import Verif.Spec.Drawing
import Verif.Props.Drawing
import Verif.Props.Palette
import Verif.Model.BziGraph
import Verif.Spec.BziGraph
import Verif.Lemmas.BziGraph
import Verif.Model.SelfIntersect
import Verif.Spec.SelfIntersect
import Verif.Lemmas.SelfIntersect
import Verif.Props.SelfIntersectWalk
import Verif.Props.SelfIntersect
import Verif.Model.Draw
import Verif.Spec.Draw
import Verif.Lemmas.Draw
import Verif.Props.Draw
import Verif.Model.Flatten
import Verif.Spec.Flatten
import Verif.Props.Flatten
import Verif.Model.Builder
import Verif.Model.Offset
import Verif.Spec.Offset
import Verif.Spec.Builder
import Verif.Lemmas.Builder
import Verif.Props.Builder
import Verif.Props.Offset
import Verif.Model.Equal
import Verif.Spec.Equal
import Verif.Lemmas.Equal
import Verif.Props.Equal
import Verif.Model.Round
import Verif.Spec.Round
import Verif.Lemmas.Round
import Verif.Props.Round
import Verif.Props.Close
import Verif.Model.SelfCurve
import Verif.Spec.SelfCurve
import Verif.Props.SelfCurve
import Verif.Model.Iter
import Verif.Spec.Iter
import Verif.Props.Iter
import Verif.Model.SelfHeap
import Verif.Spec.SelfHeap
import Verif.Lemmas.SelfHeap
import Verif.Props.SelfHeap
import Verif.Model.FieldHeap
import Verif.Spec.FieldHeap
import Verif.Props.FieldHeap
import Verif.Model.BoxUpdate
import Verif.Spec.BoxUpdate
import Verif.Props.BoxUpdate
import Verif.Model.Gif
import Verif.Spec.Gif
import Verif.Props.Gif
import Verif.Model.SimpleAnim
import Verif.Spec.SimpleAnim
import Verif.Props.SimpleAnim
import Verif.Model.Pickle
import Verif.Spec.Pickle
import Verif.Lemmas.Pickle
import Verif.Props.Pickle
import Verif.Model.Rnd
import Verif.Spec.Rnd
import Verif.Lemmas.Rnd
import Verif.Lemmas.Fl
import Verif.Props.RndBox
import Verif.Lemmas.FlBezier
import Verif.Props.RndCurve
import Verif.Model.RndVec
import Verif.Spec.RndVec
import Verif.Lemmas.FlVec
import Verif.Props.RndVec
import Verif.Lemmas.FlSum
import Verif.Props.RndSum
import Verif.Model.RndAnim
import Verif.Spec.RndAnim
import Verif.Lemmas.FlAnim
import Verif.Props.RndAnim
import Verif.Model.RndLine
import Verif.Spec.RndLine
import Verif.Lemmas.FlLine
import Verif.Props.RndLine
import Verif.Model.BziHist
import Verif.Props.BziHist
import Verif.Model.Pixel
import Verif.Spec.Pixel
import Verif.Props.Pixel
import Verif.Model.Transparent
import Verif.Spec.Transparent
import Verif.Props.Transparent
import Verif.Model.TestMatch
import Verif.Props.TestMatch
import Verif.Model.AnimTrig
import Verif.Props.Sharp
import Verif.Model.BoxObj
import Verif.Props.BoxObj
import Verif.Model.LineHeap
import Verif.Props.LineHeap
import Verif.Model.AnimRun
import Verif.Spec.AnimRun
import Verif.Props.AnimRun
import Verif.Props.AnimFiles
import Verif.Model.NanBox
import Verif.Spec.NanBox
import Verif.Props.NanBox
import Verif.Model.Ieee
import Verif.Spec.Ieee
import Verif.Lemmas.Ieee
import Verif.Props.Ieee
import Verif.Props.IeeeBox
import Verif.Model.RndShapes
import Verif.Lemmas.RndShapes
import Verif.Props.RndArc
import Verif.Props.RndShapes
import Verif.Props.RndFit
import Verif.Model.Display
import Verif.Spec.Display
import Verif.Props.Display
import Verif.Model.Printed
import Verif.Spec.Printed
import Verif.Lemmas.Printed
import Verif.Props.Printed
import Verif.Model.IterChange
import Verif.Spec.IterChange
import Verif.Props.IterChange
import Verif.Model.RndField
import Verif.Spec.RndField
import Verif.Lemmas.FlField
import Verif.Props.RndField
import Verif.Model.IeeeLine
import Verif.Spec.IeeeLine
import Verif.Props.IeeeLine
import Verif.Props.IeeeField
import Verif.Model.IeeeCurve
import Verif.Spec.IeeeCurve
import Verif.Lemmas.IeeeCurve
import Verif.Props.IeeeCurve
import Verif.Props.IeeeCurve2
import Verif.Props.CurveHeap
import Verif.Spec.Saved
import Verif.Lemmas.Saved
import Verif.Props.Saved
import Verif.Props.MorphHeap
import Verif.Props.Failed
import Verif.Props.MultiHeap
import Verif.Props.Stage
import Verif.Model.Scene
import Verif.Spec.Scene
import Verif.Lemmas.Scene
import Verif.Props.Scene
import Verif.Model.Linked
import Verif.Spec.Linked
import Verif.Lemmas.Linked
import Verif.Lemmas.LinkedStep
import Verif.Lemmas.LinkedAll
import Verif.Lemmas.LinkedRun
import Verif.Lemmas.LinkedAdd
import Verif.Props.Linked
import Verif.Model.ShapeHeap
import Verif.Spec.ShapeHeap
import Verif.Lemmas.ShapeHeap
import Verif.Props.ShapeHeap
import Verif.Model.GroupHeap
import Verif.Spec.GroupHeap
import Verif.Lemmas.GroupHeap
import Verif.Props.GroupHeap
import Verif.Model.DumpHist
import Verif.Spec.DumpHist
import Verif.Lemmas.DumpHist
import Verif.Props.DumpHist
import Verif.Model.Rebase
import Verif.Spec.Rebase
import Verif.Lemmas.Rebase
import Verif.Props.Rebase
import Verif.Model.GroupLook
import Verif.Spec.GroupLook
import Verif.Lemmas.GroupLook
import Verif.Lemmas.GroupSwap
import Verif.Props.GroupLook
import Verif.Model.XfHeap
import Verif.Spec.XfHeap
import Verif.Lemmas.XfHeap
import Verif.Lemmas.XfStep
import Verif.Props.XfHeap
import Verif.Props.Approx
import Verif.Props.AreaCurve
import Verif.Props.ImageInfo
import Verif.Props.ApproxRnd
import Verif.Props.HoleHeap
import Verif.Props.Refine
import Verif.Props.SmoothMany
import Verif.Props.CurveLength
import Verif.Props.Fill
import Verif.Props.Speed
import Verif.Props.FillMove
import Verif.Props.FillSide
import Verif.Props.FillNear
import Verif.Spec.RoundedFill
import Verif.Lemmas.RoundedFill
import Verif.Props.RoundedFill
import Verif.Lemmas.FillAlong
import Verif.Props.FillAlong
import Verif.Spec.Picture
import Verif.Lemmas.Picture
import Verif.Props.Picture
import Verif.Spec.FillArea
import Verif.Lemmas.FillArea
import Verif.Props.FillArea
import Verif.Props.FillAreaMove
import Verif.Lemmas.RoundedArea
import Verif.Props.RoundedArea
import Verif.Spec.FillChange
import Verif.Lemmas.FillChange
import Verif.Props.FillChange
import Verif.Props.FillCorners
import Verif.Lemmas.WindNear
import Verif.Props.FillSimple
import Verif.Props.IeeeEmpty
