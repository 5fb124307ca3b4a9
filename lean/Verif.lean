import Verif.Model.Elementwise
import Verif.Model.Enclosure
import Verif.Model.Primitive
import Verif.Proofs.Bridge
import Verif.Proofs.EncArith
import Verif.Proofs.EncBilinear
import Verif.Proofs.EncCompose
import Verif.Proofs.EncOps
import Verif.Proofs.EvalConv
import Verif.Proofs.EvalElem
import Verif.Proofs.Functions
import Verif.Proofs.PolyAlg
import Verif.Proofs.Pow
import Verif.Proofs.Quadratic
import Verif.Proofs.Scalar
import Verif.Proofs.Select
import Verif.Proofs.Taylor
import Verif.Props.Builtin
import Verif.Props.Encl
import Verif.Props.Encl2
import Verif.Props.Encl3
import Verif.Props.Encl4
import Verif.Props.Functions
import Verif.Props.Interval
import Verif.Props.Interval2
import Verif.Props.Poly
import Verif.Props.Pow
import Verif.Props.Range
import Verif.Props.Scalar
import Verif.Spec.Contains
import Verif.Spec.Decide
import Verif.Spec.Enclosure
import Verif.Spec.Functions
import Verif.Spec.Scalar
import Verif.Props.Builtin2
import Verif.Spec.Guard
import Verif.Props.Lift
import Verif.Model.Graph
import Verif.Spec.Program
import Verif.Proofs.Graph
import Verif.Props.Graph
import Verif.Props.Replace
import Verif.Props.ReplaceEx
import Verif.Props.Exact
import Verif.Props.PassThru
import Verif.Model.Lax
import Verif.Model.JaxBound
import Verif.Props.SoundEncl
import Verif.Proofs.Lax
import Verif.Props.Contracts
import Verif.Props.Dot
import Verif.Proofs.BilinMono
import Verif.Spec.JaxSem
import Verif.Proofs.JaxBound
import Verif.Props.TaylorBounds
import Verif.Props.TaylorMain
import Verif.Proofs.ArrBelow
import Verif.Props.TaylorMain2
import Verif.Props.TaylorMain3
import Verif.Model.RealLib
import Verif.Spec.RealLib
import Verif.Proofs.LibLe
import Verif.Props.RealLib
import Verif.Spec.TaylorCoef
import Verif.Props.TaylorCoef
import Verif.Model.Jaxpr
import Verif.Spec.Jaxpr
import Verif.Proofs.Jaxpr
import Verif.Props.Jaxpr
import Verif.Props.JaxprGraph
import Verif.Props.JaxprReplace
import Verif.Props.JaxprEx
import Verif.Spec.Static
import Verif.Props.Static
import Verif.Props.Form
import Verif.Props.PolyEx
import Verif.Proofs.Total
import Verif.Spec.Total
import Verif.Proofs.Total2
import Verif.Proofs.Total3
import Verif.Props.Total
import Verif.Spec.TotalStatic
import Verif.Proofs.Live
import Verif.Props.TotalStatic
import Verif.Props.TotalEx
import Verif.Props.Register
import Verif.Props.RegisterEx
import Verif.Model.Pipeline
import Verif.Spec.Pipeline
import Verif.Proofs.Pipeline
import Verif.Props.Pipeline
import Verif.Props.PipelineEx
import Verif.Props.EnclTotal
import Verif.Props.EnclTotalEx
import Verif.Spec.Approx
import Verif.Proofs.Approx
import Verif.Proofs.ExpBounds
import Verif.Proofs.ApproxTables
import Verif.Props.Approx
import Verif.Props.Builtin3
import Verif.Proofs.Cap
import Verif.Props.Cap
import Verif.Props.Isotone
import Verif.Spec.Isotone
import Verif.Proofs.Iso
import Verif.Proofs.Iso2
import Verif.Proofs.Iso3
import Verif.Proofs.Iso4
import Verif.Proofs.Iso5
import Verif.Spec.TableLib
import Verif.Proofs.IsoLib
import Verif.Props.Shrink
import Verif.Spec.Poly
import Verif.Proofs.PolyExact
import Verif.Props.Gap
import Verif.Props.Descent
import Verif.Props.PolyExact
import Verif.Props.Malformed
import Verif.Model.Notebooks
import Verif.Spec.Notebooks
import Verif.Proofs.Notebooks
import Verif.Props.Integral
import Verif.Props.SafeRate
import Verif.Proofs.AtRef
import Verif.Props.AtRef
import Verif.Props.NotebookEx
import Verif.Spec.MLP
import Verif.Proofs.MLP
import Verif.Props.MLP
import Verif.Spec.Length
import Verif.Proofs.Length
import Verif.Props.Length
import Verif.Props.SafeTotal
import Verif.Props.MLPEx
import Verif.Props.Degree0
import Verif.Model.Conv
import Verif.Props.Conv
import Verif.Proofs.Counts
import Verif.Spec.LaxSpec
import Verif.Props.LaxSpec
import Verif.Spec.Converge
import Verif.Spec.SmoothLib
import Verif.Proofs.Thin
import Verif.Proofs.Thin2
import Verif.Proofs.Thin3
import Verif.Proofs.Thin4
import Verif.Proofs.Thin5
import Verif.Proofs.Thin6
import Verif.Proofs.Smooth
import Verif.Props.Converge
import Verif.Spec.Dataflow
import Verif.Props.Dataflow
import Verif.Spec.Rounding
import Verif.Props.Rounding
import Verif.Spec.JitBody
import Verif.Props.JitBody
import Verif.Spec.Fat
import Verif.Spec.Net
import Verif.Proofs.Fat
import Verif.Props.Fat
import Verif.Proofs.Net
import Verif.Props.Net
import Verif.Props.NetEx
import Verif.Proofs.ExpBounds2
import Verif.Proofs.Approx2
import Verif.Proofs.ApproxTables2
import Verif.Props.Approx2
import Verif.Model.PowFloat
import Verif.Spec.PowFloat
import Verif.Props.PowFloat
import Verif.Model.EnclFloat
import Verif.Spec.EnclFloat
import Verif.Proofs.EnclFloat
import Verif.Proofs.EnclFloat2
import Verif.Proofs.Sim
import Verif.Props.EnclFloat
import Verif.Props.EnclFinite
import Verif.Props.PowNan
import Verif.Spec.Lead
import Verif.Proofs.Lead
import Verif.Proofs.Lead2
import Verif.Props.Lead
import Verif.Spec.SmoothArgs
import Verif.Proofs.LocalLib
import Verif.Proofs.Local2
import Verif.Proofs.Local3
import Verif.Props.LocalCoef
import Verif.Spec.Sharp
import Verif.Props.Sharp
import Verif.Proofs.Propagate
import Verif.Props.Propagate
import Verif.Spec.Trace
import Verif.Proofs.Trace
import Verif.Proofs.Trace2
import Verif.Props.Trace
import Verif.Spec.Rewrite
import Verif.Props.Rewrite
import Verif.Props.RewriteEx
import Verif.Model.Registry
import Verif.Spec.Registry
import Verif.Props.Registry
import Verif.Props.RegistryEx
import Verif.Spec.FltLimits
import Verif.Props.FltLimits
import Verif.Spec.Near
import Verif.Proofs.Near
import Verif.Proofs.Near2
import Verif.Proofs.Near3
import Verif.Spec.NearLib
import Verif.Proofs.Near4
import Verif.Props.Near
import Verif.Spec.FloatRef
import Verif.Proofs.FloatRef
import Verif.Proofs.FloatRef2
import Verif.Proofs.FloatRef3
import Verif.Props.FloatRef
import Verif.Spec.Float0
import Verif.Proofs.Float0
import Verif.Proofs.Float02
import Verif.Proofs.Float03
import Verif.Props.Float0
import Verif.Spec.Calls
import Verif.Props.Calls
import Verif.Props.CallsEx
import Verif.Props.Convert
import Verif.Proofs.Float04
import Verif.Props.NotebookBuiltin
import Verif.Spec.Affine
import Verif.Proofs.Affine
import Verif.Props.Affine
import Verif.Props.Degrees
import Verif.Spec.Shift
import Verif.Props.Shift
import Verif.Props.ShiftProp
import Verif.Spec.SumEqn
import Verif.Proofs.SumPrograms
import Verif.Props.SumPrograms
import Verif.Spec.PassThruEqn
import Verif.Proofs.PassThruPrograms
import Verif.Props.PassThruPrograms
