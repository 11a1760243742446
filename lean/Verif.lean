import Verif.Props.Index
import Verif.Props.ZernPol
import Verif.Props.Radial
import Verif.Props.Evaluate
import Verif.Props.Sums
import Verif.Props.Polar
import Verif.Props.Crop
import Verif.Props.Images
import Verif.Props.Fit
import Verif.Props.Psf
import Verif.Props.PsfAccelerated
import Verif.Props.PsfObj
import Verif.Props.PsfCalc
import Verif.Props.Convolve
import Verif.Props.Sample
import Verif.Props.Dispenser
import Verif.Props.Json
import Verif.Props.Surface
import Verif.Props.PsfExact
import Verif.Props.Parallel
import Verif.Props.Optics
import Verif.Props.PsfSymmetry
import Verif.Props.RoundTrip
import Verif.Props.Conserve
import Verif.Props.Float
import Verif.Props.NonFinite
import Verif.Props.Alias
import Verif.Props.Lifecycle
import Verif.Props.Plot
import Verif.Props.Units
import Verif.Props.UnitsParallel
import Verif.Props.KernelSize
import Verif.Props.FloatNodes
import Verif.Props.FloatRadii
import Verif.Props.FloatPsf
import Verif.Props.RadialSlope
import Verif.Props.PsfRate
import Verif.Props.Resources
import Verif.Props.Compile
import Verif.Props.Warn
import Verif.Props.Threads
import Verif.Props.JsonText
import Verif.Props.FloatRepro
import Verif.Props.FloatSums
import Verif.Props.Cost
import Verif.Props.Sensitivity
import Verif.Props.ConvolveGeometry
import Verif.Props.FloatConvolve
import Verif.Props.JsonFile
import Verif.Props.World
import Verif.Props.EndToEnd
import Verif.Props.FitResponse
import Verif.Props.Sampling
import Verif.Props.SamplingImage
import Verif.Props.ThreadsFloat
import Verif.Props.Complete
import Verif.Props.Approximation
import Verif.Props.SharedFile
import Verif.Props.FloatNumba
import Verif.Props.FloatFit
import Verif.Props.FloatAngles
import Verif.Props.FloatMesh
import Verif.Props.FloatSurface
import Verif.Props.FloatParallel
import Verif.Props.FloatImages
import Verif.Props.FloatCrop
import Verif.Props.FloatRoundTrip
import Verif.Props.FloatKernelSize
import Verif.Props.ReadWhileSaving
import Verif.Props.FloatSample
import Verif.Props.FloatSymmetry
import Verif.Props.Energy
import Verif.Props.Ordering
import Verif.Props.Generate
import Verif.Props.SumsShapes
import Verif.Props.StrictWarn
import Verif.Props.PolyWarn
import Verif.Props.FloatPsfSum
import Verif.Props.Workflow
import Verif.Props.FloatWorkflow
import Verif.Props.ImageWorkflow
import Verif.Props.DispenserLists
import Verif.Props.Check
import Verif.Props.Turned
import Verif.Props.SelfCheck
import Verif.Props.TestTables
import Verif.Props.Performance
import Verif.Props.JsonGrammar
import Verif.Props.JsonEdited
import Verif.Props.Conformity
