import Verif.Base
import Verif.Model.Numpy
import Verif.Model.Tools
import Verif.Model.Filter
import Verif.Spec.Filter
import Verif.Lemmas.FirEstimate
import Verif.Lemmas.FirCov
import Verif.Lemmas.FirDiag
import Verif.Lemmas.CovProd
import Verif.Lemmas.Psd
import Verif.Lemmas.FirCall
import Verif.Spec.FirArgs
import Verif.Lemmas.FirTable
import Verif.Props.Filter
import Verif.Lemmas.Exists
import Verif.Props.Filter2
import Verif.Model.Convolution
import Verif.Spec.Convolution
import Verif.Lemmas.Convolution
import Verif.Props.Convolution
import Verif.Model.DFT
import Verif.Spec.DFT
import Verif.Lemmas.LinCov
import Verif.Lemmas.DFT
import Verif.Lemmas.IDFT
import Verif.Lemmas.BinJac
import Verif.Props.DFT
import Verif.Props.DFT2
import Verif.Lemmas.AmpPhase
import Verif.Lemmas.AmpTime
import Verif.Lemmas.DFTProd
import Verif.Props.DFT3
import Verif.Props.DFT4
import Verif.Props.DFT5
import Verif.Model.Interp
import Verif.Spec.Interp
import Verif.Lemmas.Interp
import Verif.Props.Interp
import Verif.Props.Interp2
import Verif.Props.InterpExamples
import Verif.Model.Noise
import Verif.Spec.Noise
import Verif.Props.Noise
import Verif.Lemmas.MinEig
import Verif.Spec.Tools
import Verif.Props.Tools
import Verif.Model.FilterStuff
import Verif.Spec.FilterStuff
import Verif.Props.FilterStuff
import Verif.Props.FilterStuff2
import Verif.Model.MonteCarlo
import Verif.Spec.MonteCarlo
import Verif.Lemmas.IIR
import Verif.Lemmas.Blocks
import Verif.Props.MonteCarlo
import Verif.Props.MonteCarlo2
import Verif.Props.MonteCarlo3
import Verif.Model.SecondOrder
import Verif.Props.SecondOrder
import Verif.Spec.SecondOrder
import Verif.Spec.LeastSquares
import Verif.Lemmas.LeastSquares
import Verif.Spec.FitFilter
import Verif.Model.FitFilter
import Verif.Props.FitFilter
import Verif.Props.FitFilter2
import Verif.Props.FitFilter3
import Verif.Props.FitFilter4
import Verif.Model.Signals
import Verif.Props.Signals
import Verif.Spec.Impinvar
import Verif.Model.Impinvar
import Verif.Props.Impinvar
import Verif.Lemmas.White
import Verif.Model.TestSignals
import Verif.Props.TestSignals
import Verif.Spec.Circular
import Verif.Model.DFT2
import Verif.Props.DFT6
import Verif.Props.DFT7
import Verif.Model.Psd
import Verif.Props.Psd
import Verif.Model.UMC
import Verif.Props.UMC
import Verif.Lemmas.Unbiased
import Verif.Props.Unbiased
import Verif.Props.FirLaws
import Verif.Props.DFT8
import Verif.Props.Interp3
import Verif.Props.DFT9
import Verif.Props.ConvLaws
import Verif.Model.Deprecated
import Verif.Props.Deprecated
import Verif.Props.FitSomUnits
import Verif.Props.FitFilterUnits
import Verif.Props.FitFilterOrder
import Verif.Props.FitFilterGain
import Verif.Model.Ints
import Verif.Props.Ints
import Verif.Props.FilterShapes
import Verif.Spec.Monotone
import Verif.Lemmas.Monotone
import Verif.Props.Monotone
import Verif.Props.DFTUnits
import Verif.Model.DFTShapes
import Verif.Props.DFTShapes
import Verif.Props.DFTShapes2
import Verif.Props.DFTWork
import Verif.Props.Ints2
import Verif.Props.Normal
import Verif.Props.GroupDelay
import Verif.Props.Lowpass
import Verif.Model.SingleRun
import Verif.Props.SingleRun
import Verif.Props.InterpTwice
import Verif.Props.DFTProducts
import Verif.Props.MonteCarloUnits
import Verif.Props.InterpLocal
import Verif.Props.PolarProducts
import Verif.Props.MonteCarloFir
import Verif.Props.SavGolLaws
import Verif.Props.ImpinvarLaws
import Verif.Props.FitFilterTwins
import Verif.Props.PhaseAngles
import Verif.Props.TimeReversal
import Verif.Props.StaticGain
import Verif.Model.Pad
import Verif.Props.Pad
import Verif.Props.SosUnbiased
import Verif.Props.ConvReversal
import Verif.Props.FitSomTwins
import Verif.Props.NoiseLaws
import Verif.Props.MonteCarloCausal
import Verif.Props.InterpReversal
import Verif.Props.UMCComponents
import Verif.Props.InterpShape
import Verif.Props.SavGolReversal
import Verif.Props.SavGolOrder
import Verif.Props.SavGolNoise
import Verif.Props.SavGolLocal
