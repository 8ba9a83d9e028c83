import Verif.TreeVec.Props
import Verif.Curve.Props
import Verif.Cache.Props
import Verif.BinOp.Props
import Verif.Segs.Props
import Verif.Segs.Origin
import Verif.Range.AtX
import Verif.Topo.Props
import Verif.Contours.Props
import Verif.Merge.Props
import Verif.Scan.Props
import Verif.Scan.Close
import Verif.TreeVec.Mono
import Verif.Sweep.Instances
import Verif.Sweep.OrderInstances
import Verif.Geom.Props
import Verif.Geom.Pieces
import Verif.Geom.EstMono
import Verif.Geom.IProps
import Verif.Pos.Props
import Verif.Pos.Accuracy
import Verif.Pos.Weight
import Verif.Pos.Groups
import Verif.Pos.Shift
import Verif.Pos.Example
import Verif.Path.Model
import Verif.Path.Runs
import Verif.Path.Merged
import Verif.Path.Props
import Verif.Path.Join
import Verif.Path.Example
import Verif.Sweep.Across
import Verif.Sweep.Planar
import Verif.Sweep.Apart
import Verif.Merge.Count
import Verif.BinOp.Group
import Verif.Full.Props
import Verif.Full.Polygon
import Verif.Sweep.Total
import Verif.Sweep.TotalInt
import Verif.Sweep.TotalLive
import Verif.Sweep.TotalChg
import Verif.Sweep.TotalLine
import Verif.Sweep.TotalRange
import Verif.Sweep.TotalSweep
import Verif.Sweep.TotalCount
import Verif.Sweep.TotalPlanar
import Verif.Sweep.TotalMono
import Verif.Full.Total
import Verif.Full.TotalExample
import Verif.Sweep.GenericMain
import Verif.Full.Loose
import Verif.Full.LooseExample
import Verif.Segs.Stable
import Verif.Full.Accept
import Verif.Full.Outline
import Verif.Full.OutlineExample
import Verif.Sweep.Accurate
import Verif.Full.Accurate
import Verif.Full.Paths
import Verif.Full.Layout
import Verif.Full.Draw
import Verif.Full.Returned
import Verif.Full.FanExample
import Verif.Full.Laws
import Verif.Geom.Rough
import Verif.Full.Curves
import Verif.Full.CurveExample
import Verif.Full.CurveAccuracy
import Verif.Pos.Deviation
import Verif.Pos.DeviationExample
import Verif.Geom.Symmetric
import Verif.Full.Symmetric
import Verif.Full.Bundle
import Verif.Full.Beside
import Verif.Full.Curved
import Verif.Full.CurvedExample
import Verif.Full.CurveLaws
import Verif.Full.CurveLawsExample
import Verif.Geom.Solver
import Verif.Geom.SolverBounds
import Verif.Geom.Inexact
import Verif.Geom.LineFree
import Verif.Full.LineFree
import Verif.Full.Box
import Verif.Full.Generic
import Verif.Full.Many
import Verif.Full.ManyCurves
import Verif.Sweep.Events
import Verif.Sweep.EventOrder
import Verif.Full.Events
import Verif.Full.Complement
import Verif.Full.Redraw
import Verif.Full.Translate
import Verif.Full.Mirror
import Verif.Full.Upside
