import Verif.Tri.Basic
import Verif.Tri.Partition
import Verif.Tri.Inv
import Verif.Tri.Insert
import Verif.Tri.Cycle
import Verif.Tri.Remove
import Verif.Tri.Link
import Verif.Tri.LocalGlobal
import Verif.Tri.Near
import Verif.Tri.Gap
import Verif.Tri.Unique
import Verif.Tri.Count
import Verif.Incr.Model
import Verif.Incr.Lists
import Verif.Incr.Slots
import Verif.Incr.PMap
import Verif.Incr.Geom
import Verif.Incr.Insert
import Verif.Incr.Ears
import Verif.Incr.AreaBox
import Verif.Incr.Remove
import Verif.Spec.Plane
import Verif.Incr.History
import Verif.Incr.Facts
import Verif.Incr.Observe
import Verif.Float.Round
import Verif.Float.Sqrt
import Verif.Incr.Grid
import Verif.Incr.GridOK
import Verif.Incr.GridMain
import Verif.Incr.GridIEEE
import Verif.Incr.GridLarge
import Verif.Incr.GridRows
import Verif.Incr.GridLarge2
import Verif.Incr.Score
import Verif.Incr.Extra
import Verif.Incr.Det
import Verif.Incr.Weak
import Verif.Props.Delaunay
import Verif.Props.Grid
import Verif.Props.Ieee
import Verif.Raster.Model
import Verif.Raster.Count
import Verif.Raster.Edges
import Verif.Raster.Cut
import Verif.Raster.Tile
import Verif.Raster.Exact
import Verif.Raster.Bounds
import Verif.Props.Raster
import Verif.Raster.Width
import Verif.Fit.Model
import Verif.Fit.Sums
import Verif.Tri.Area
import Verif.Props.Fitness
import Verif.Props.FitnessBound
import Verif.Raster.Amount
import Verif.Props.FitnessPos
import Verif.Props.Complete
import Verif.Alg.Model
import Verif.Alg.Cache
import Verif.Alg.Calls
import Verif.Alg.Laws
import Verif.Alg.TriFun
import Verif.Alg.Phase
import Verif.Alg.PhaseEnd
import Verif.Alg.Race
import Verif.Alg.Algo
import Verif.Alg.Gen
import Verif.Alg.Inv
import Verif.Alg.Simple
import Verif.Alg.Sim
import Verif.Alg.PolyFun
import Verif.Alg.Book
import Verif.Props.Cache
import Verif.Alg.Exec
import Verif.Props.Simple
import Verif.Alg.Modified
import Verif.Alg.Ben
import Verif.Alg.Combine
import Verif.Alg.ModInv
import Verif.Alg.ModExec
import Verif.Alg.Play
import Verif.Props.Modified
import Verif.Props.ModTri
import Verif.Small.Model
import Verif.Small.Lemmas
import Verif.Props.Small
import Verif.Tri.Local
import Verif.Spec.Voronoi
import Verif.Vor.Model
import Verif.Vor.Corner
import Verif.Vor.Cells
import Verif.Vor.Maps
import Verif.Vor.Sort
import Verif.Vor.Inv
import Verif.Vor.Exec
import Verif.Vor.Batch
import Verif.Vor.Geom
import Verif.Vor.Bounds
import Verif.Vor.Inside
import Verif.Vor.Cell
import Verif.Props.Voronoi
import Verif.Props.VorGeom
import Verif.Props.VorCell
import Verif.Vor.Set
import Verif.Props.VorSet
import Verif.Spec.Around
import Verif.Vor.Around
import Verif.Props.VorOrder
import Verif.Vor.Clip
import Verif.Props.VorTile
import Verif.Alg.Opt
import Verif.Alg.BookValid
import Verif.Alg.VorFun
import Verif.Alg.Default
import Verif.Props.VorAlg
import Verif.Props.Default
import Verif.Small.Polygonate
import Verif.Props.Polygonate
import Verif.Small.Export
import Verif.Props.Export
import Verif.Small.Normal
import Verif.Small.Ziggurat
import Verif.Small.Density
import Verif.Small.PassLaw
import Verif.Small.Mills
import Verif.Small.TailLaw
import Verif.Props.Normal
import Verif.Alg.Evaluators
import Verif.Props.Evaluators
import Verif.Spec.Polygon
import Verif.Raster.Polygon
import Verif.Props.Polygon
import Verif.Alg.Driver
import Verif.Props.Driver
import Verif.Props.Picture
import Verif.Props.Law
import Verif.Props.Spaced
import Verif.Props.Cover
import Verif.Props.Hash
import Verif.Props.PolyPicture
import Verif.Props.Recolour
import Verif.Props.Order
import Verif.Props.Exported
import Verif.Spec.Measure
import Verif.Spec.Hull
import Verif.Props.ExportMesh
import Verif.Props.ExportHull
import Verif.Props.PolyExport
import Verif.Props.Surround
import Verif.Props.Generation
import Verif.Props.Approx
import Verif.Props.Dense
import Verif.Props.Tiling
import Verif.Props.Fill
import Verif.Props.Sketch
import Verif.Props.Exists
import Verif.Props.Rounding
import Verif.Props.Range
import Verif.Props.RasterRange
import Verif.Props.FitnessRange
import Verif.Props.PointsRange
