import Verif.Basic.Loop
import Verif.Basic.Image
import Verif.UnionFind.Props
import Verif.Regions.Props
import Verif.Drawing.RectProps
import Verif.Integral.Props
import Verif.Stats.Props
import Verif.Contrast.Threshold
import Verif.Contrast.Machine
import Verif.Contrast.Otsu
import Verif.Contrast.Kapur
import Verif.Contrast.Equalize
import Verif.Compose.Props
import Verif.Compose.Machine
import Verif.Definitions.Clamp
import Verif.Geom.WarpProps
import Verif.Map.Props
import Verif.Noise.Props
import Verif.Noise.Double
import Verif.Utils.Diffs
import Verif.Suppress.Props
import Verif.Suppress.Machine
import Verif.Filter.Machine
import Verif.Contours.Cast
import Verif.Float.EllipseM
import Verif.Suppress.LocalMaxima
import Verif.Distance.Sweeps
import Verif.Distance.Euclid
import Verif.Morphology.Binary
import Verif.Morphology.Masks
import Verif.Morphology.Grayscale
import Verif.Filter.Props
import Verif.Filter.Separable
import Verif.Filter.Wide
import Verif.Filter.Tall
import Verif.Filter.Median
import Verif.Filter.Box
import Verif.Filter.Bilateral
import Verif.Drawing.LineProps
import Verif.Drawing.CircleProps
import Verif.Drawing.EllipseProps
import Verif.Drawing.OutlineProps
import Verif.Drawing.PolygonProps
import Verif.Drawing.FillProps
import Verif.Drawing.FillMachine
import Verif.Edges.Direction
import Verif.Edges.Full
import Verif.Edges.Machine
import Verif.Edges.Props
import Verif.Geometry.HullProps
import Verif.Geometry.Area
import Verif.Geometry.Simplify
import Verif.Gradients.Props
import Verif.Gradients.Map
import Verif.Seam.Remove
import Verif.Seam.Machine
import Verif.Lbp.Props
import Verif.ImageHash.Phash
import Verif.Template.Props
import Verif.Template.Extremes
import Verif.Brief.Props
import Verif.Hog.Model
import Verif.Hog.Layout
import Verif.Hog.Descriptor
import Verif.Hog.Histogram
import Verif.Hog.Props
import Verif.Haar.Model
import Verif.Haar.Evaluate
import Verif.Haar.Enumerate
import Verif.Haar.Release
import Verif.Haar.Count
import Verif.Haar.Wide
import Verif.Corners.Model
import Verif.Corners.Span
import Verif.Corners.Fast
import Verif.Hough.Model
import Verif.Hough.Votes
import Verif.Hough.Clip
import Verif.Contours.Model
import Verif.Contours.Walk
import Verif.Contours.Crack
import Verif.Contours.Trace
import Verif.Contours.Reach
import Verif.Contours.Traced
import Verif.Contours.Scan
import Verif.Contours.Props
import Verif.Contours.Wind
import Verif.Contours.Tree
import Verif.Contours.Objects
import Verif.PixelOps.Props
import Verif.Filter.Sharpen
import Verif.Math.Norms
import Verif.Geometry.Arc
import Verif.Stats.Psnr
import Verif.Stats.Machine
import Verif.Corners.OrientedModel
import Verif.Corners.Oriented
import Verif.Geometry.MinRectModel
import Verif.Geometry.MinRect
import Verif.Drawing.TextModel
import Verif.Drawing.Text
import Verif.Drawing.LineReal
import Verif.Hough.Draw
import Verif.Utils.Summary
import Verif.Hog.Render
import Verif.Float.Basic
import Verif.Float.Gradient
import Verif.Float.PixelOps
import Verif.Float.Line
import Verif.Float.F32
import Verif.Float.Blur
import Verif.Float.Contrast
import Verif.Float.MatchLevels
import Verif.Float.Sum
import Verif.Float.Template
import Verif.Float.Distance
import Verif.Float.Bilateral
import Verif.Float.Stats
import Verif.Float.Area
import Verif.Float.Hough
import Verif.Float.Polygon
import Verif.Float.Otsu
import Verif.Float.Hog
import Verif.Float.HogImage
import Verif.Float.HogNorm
import Verif.Float.Oriented
import Verif.Float.Canny
import Verif.Float.WarpModel
import Verif.Float.WarpSafe
import Verif.Float.WarpShift
import Verif.Float.WarpAccuracy
import Verif.Float.Rotate
import Verif.Float.AntiLine
import Verif.Float.Sharpen
import Verif.Float.Bezier
import Verif.Float.Window
import Verif.Utils.Describe
import Verif.Float.Ellipse
import Verif.Utils.Display
import Verif.Float.Simplify
import Verif.Float.Arc
import Verif.Float.Scale
import Verif.Float.Projective
import Verif.Float.FromMatrix
import Verif.Float.Phash
import Verif.Float.Kapur
import Verif.Float.Clip
import Verif.Float.MinRect
import Verif.Float.Hull
import Verif.Float.Rect
import Verif.Float.Circle
import Verif.Float.Cross
import Verif.Float.Translate
import Verif.Float.LineM
import Verif.Float.TextM
import Verif.Relations.Morph
import Verif.Relations.Motion
import Verif.Relations.Levels
import Verif.Geometry.HullUnique
import Verif.Relations.Filters
import Verif.Relations.Gradients
import Verif.Relations.Lbp
import Verif.Relations.Radii
import Verif.Relations.Corners
import Verif.Relations.Offsets
import Verif.Relations.Drawing
import Verif.Relations.Moves
import Verif.Relations.Stricter
import Verif.Relations.Steps
import Verif.Relations.Pieces
import Verif.Relations.Channels
import Verif.Relations.Again
import Verif.Contrast.OtsuMachine
import Verif.Float.OtsuLarge
import Verif.Float.PolarDraw
import Verif.Float.AreaM
