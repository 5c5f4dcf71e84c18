import Verif.Options.Props
import Verif.Surrogate.Props
import Verif.Caching.Props
import Verif.Printer.Props
import Verif.Index.Props
import Verif.Sampling.Props
import Verif.Ese.Props
import Verif.MixedInt.Props
import Verif.MixedInt.Wrapper
import Verif.MixedInt.WrapperProps
import Verif.MixedInt.WrapperProps2
import Verif.Ego.Props
import Verif.Ego.Life
import Verif.Ego.LifeProps
import Verif.Ego.LifeProps2
import Verif.Ego.LifeProps3
import Verif.Ego.LifeProps4
import Verif.Ego.LifeProps5
import Verif.Ego.LifeProps6
import Verif.BSpline.Props
import Verif.Rmtb.Props
import Verif.Rmtc.Props
import Verif.Rmts.Props
import Verif.Rmts.Extrap
import Verif.Rmts.Instances
import Verif.Rmts.Energy
import Verif.Idw.Props
import Verif.Common.Gauss
import Verif.Common.Tri
import Verif.Rbf.Props
import Verif.Qp.Props
import Verif.Kriging.Kernels
import Verif.Kriging.KernelProps
import Verif.Kriging.Prep
import Verif.Kriging.PrepProps
import Verif.Kriging.Core
import Verif.Kriging.CoreProps
import Verif.Kriging.DerivProps
import Verif.Common.MatDeriv
import Verif.Kriging.Likelihood
import Verif.Kriging.LikelihoodProps
import Verif.LineSearch.Model
import Verif.LineSearch.Props
import Verif.Solvers.Model
import Verif.Solvers.Props
import Verif.Moe.Model
import Verif.Moe.Props
import Verif.Moe.Train
import Verif.Moe.TrainProps
import Verif.Moe.TrainProps2
import Verif.Moe.TrainProps3
import Verif.Moe.TrainProps4
import Verif.Moe.TrainProps5
import Verif.Vfm.Model
import Verif.Vfm.Props
import Verif.Vfm.Nested
import Verif.Problems.Model
import Verif.Problems.Props
import Verif.Problems.Call
import Verif.Problems.CallProps
import Verif.Problems.CallProps2
import Verif.Nn.Model
import Verif.Nn.Props
import Verif.Nn.Train
import Verif.Nn.TrainProps
import Verif.Nn.Life
import Verif.Nn.LifeProps
import Verif.Nn.LifeProps2
import Verif.Nn.LifeProps3
import Verif.Nn.LifeProps4
import Verif.Nn.LifeProps5
import Verif.Nn.LifeProps6
import Verif.Common.Psd
import Verif.Kriging.Oracles
import Verif.Kriging.Definite
import Verif.Mfk.Model
import Verif.Mfk.Props
import Verif.Mfk.DerivProps
import Verif.Mfk.VarProps
import Verif.Kriging.Optim
import Verif.Kriging.OptimProps
import Verif.Kriging.OptimData
import Verif.Params.Model
import Verif.Params.Props
import Verif.Params.MfkProps
import Verif.Mgp.Model
import Verif.Mgp.GradProps
import Verif.Mgp.EmbedProps
import Verif.Mgp.VarProps
import Verif.Mgp.MargProps
import Verif.Mgp.RotProps
import Verif.Mgp.Examples
import Verif.CStep.Model
import Verif.CStep.Props
import Verif.CStep.Problems
import Verif.Ge.Model
import Verif.Ge.Props
import Verif.Ge.Trained
import Verif.Het.Model
import Verif.Het.Props
import Verif.Misc.Model
import Verif.Misc.Props
import Verif.Kriging.Units
import Verif.Kriging.UnitsProps
import Verif.Kriging.TrendProps
import Verif.Kriging.Multi
import Verif.Kriging.MultiProps
import Verif.Kriging.MultiProps2
import Verif.Fit.Lsq
import Verif.Fit.QpModel
import Verif.Fit.QpProps
import Verif.Fit.RbfProps
import Verif.Fit.KrgProps
import Verif.Silence.Model
import Verif.Silence.Props
import Verif.Rmts.Train
import Verif.Rmts.TrainProps
import Verif.Rmts.TrainProps2
import Verif.Rmts.Order
import Verif.Rmts.Order2
import Verif.Rmts.Converge
import Verif.Tables.Model
import Verif.Tables.Props
import Verif.Tables.Docs
import Verif.Tables.DocsProps
import Verif.Printing.Model
import Verif.Printing.Props
import Verif.Printing.Props2
import Verif.Solvers.Converge
import Verif.Mfk.Units
import Verif.Mfk.UnitsProps
import Verif.Mfk.Reproduce
import Verif.Nn.FiniteDiff
import Verif.Nn.FiniteDiffProps
import Verif.Nn.FiniteDiffProps2
import Verif.Native.C
import Verif.Native.Fill
import Verif.Native.Idw
import Verif.Native.IdwProps
import Verif.Native.IdwProps2
import Verif.Native.IdwProps3
import Verif.Native.Rbf
import Verif.Native.RbfProps
import Verif.Native.RbfProps2
import Verif.Native.Rmt
import Verif.Native.RmtProps
import Verif.Native.Rmtb
import Verif.Native.RmtbProps
import Verif.Native.RmtbProps2
import Verif.Native.RmtbPy
import Verif.Native.RmtbPyProps
import Verif.Native.Rmtc
import Verif.Native.RmtcProps
import Verif.Native.RmtcProps2
import Verif.Native.RmtcProps3
import Verif.Native.RmtcPy
import Verif.Native.RmtcPyProps
import Verif.Fp.Core
import Verif.Fp.Sampling
import Verif.Fp.SamplingProps
import Verif.Fp.Rel
import Verif.Fp.SamplingProps2
import Verif.Fp.Spline
import Verif.Fp.SplineProps
import Verif.Fp.SplineProps2
import Verif.Fp.Ieee
import Verif.Fp.Idw
import Verif.Fp.IdwProps
import Verif.Fp.IdwProps2
import Verif.Fp.IdwProps3
import Verif.Fp.IdwProps4
import Verif.Fp.Standard
import Verif.Fp.StandardProps
import Verif.Fp.StandardProps2
import Verif.Nn.Persist
import Verif.Nn.PersistProps
import Verif.Nn.PersistProps2
import Verif.Fp.Ese
import Verif.Fp.EseProps
import Verif.Fp.EseProps2
import Verif.Fp.EseProps3
import Verif.Fp.EseProps4
import Verif.Fp.EseProps5
import Verif.Fp.LineSearch
import Verif.Fp.LineSearchProps
import Verif.Fp.LineSearchProps2
import Verif.Fp.LineSearchProps3
import Verif.Sampling.Levels
import Verif.Fp.SamplingProps3
import Verif.Kriging.LinearVariance
import Verif.Mfk.DataProps3
import Verif.BSpline.Smooth
import Verif.Rmtb.Knots
import Verif.Rmts.Knots
import Verif.Fp.EgoProps2
import Verif.MixedInt.Coverage
import Verif.Kriging.CondThm
import Verif.Fp.LineSearchProps4
import Verif.Mfk.DataProps4
import Verif.Rmts.LinearThm3
import Verif.Fp.MoeProps3
import Verif.Fp.MixedIntProps3
import Verif.Fp.CorrProps4
import Verif.Fp.RbfProps
import Verif.Fp.ErrProps2
import Verif.Fp.VarProps
import Verif.Fp.AccurProps
import Verif.Fp.OptimProps3
import Verif.Fp.NetXProps3
import Verif.Fp.NetGradXProps2
import Verif.Fp.BenchProps4
import Verif.Fp.LpNormProps
import Verif.Fp.TensorXProps
