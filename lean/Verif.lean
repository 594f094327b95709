import Verif.Props.Ranks
import Verif.Props.RanksCex
import Verif.Props.Hash
import Verif.Props.Rng
import Verif.Props.Tensor
import Verif.Props.SumHeap
import Verif.Props.DRM
import Verif.Props.Sketch
import Verif.Props.Recover
import Verif.Props.Orth
import Verif.Props.SketchT
import Verif.Props.Blocked
import Verif.Props.Norm
import Verif.Props.Lossless
import Verif.Props.Round
import Verif.Props.TTSvd
import Verif.Props.MPO
import Verif.Props.MPOHeap
import Verif.Props.Precond
import Verif.Props.LinMapSum
import Verif.Props.RoundSum
import Verif.Props.Gmres
import Verif.Props.GmresRes
import Verif.Props.GmresConv
import Verif.Props.GmresEx
import Verif.Props.OrthErr
import Verif.Props.OrthAll
import Verif.Props.OrthTucker
import Verif.Props.SvdVals
import Verif.Model.Random
import Verif.Spec.Random
import Verif.Props.Random
import Verif.Props.Random2
import Verif.Spec.Prob
import Verif.Spec.Bond
import Verif.Props.Prob
import Verif.Props.ProbMore
import Verif.Props.Moments
import Verif.Props.MomentsRandom
import Verif.Spec.Nystrom
import Verif.Proofs.Nystrom
import Verif.Proofs.NystromChain
import Verif.Props.Nystrom
import Verif.Spec.NystromAll
import Verif.Proofs.NystromCols
import Verif.Props.NystromAll
import Verif.Props.MPORandom
import Verif.Spec.GaussErr
import Verif.Proofs.GaussLaw
import Verif.Proofs.GaussInv
import Verif.Proofs.GaussRange
import Verif.Proofs.GaussDRM
import Verif.Props.GaussErr
import Verif.Proofs.GaussNystrom
import Verif.Proofs.GaussOrth
import Verif.Props.GaussOrthErr
import Verif.Model.Utils
import Verif.Props.Utils
import Verif.Props.TestTensors
import Verif.Model.Mem
import Verif.Spec.Mem
import Verif.Proofs.Mem
import Verif.Props.Mem
import Verif.Props.MemShare
import Verif.Props.MemCache
import Verif.Model.Experiment
import Verif.Spec.Experiment
import Verif.Props.Experiment
import Verif.Model.Objects
import Verif.Spec.Objects
import Verif.Props.Objects
import Verif.Props.ObjSketch
import Verif.Model.Coroutine
import Verif.Spec.Coroutine
import Verif.Props.Coroutine
import Verif.Model.Cookie
import Verif.Spec.Cookie
import Verif.Props.Cookie
import Verif.Proofs.OpChain
import Verif.Proofs.GaussOblique
import Verif.Proofs.StreamMean
import Verif.Proofs.StreamMeanDRM
import Verif.Props.StreamErr
import Verif.Props.Tail
import Verif.Props.Float
import Verif.Props.FloatSketch
import Verif.Spec.FloatSketchAll
import Verif.Proofs.FloatTucker
import Verif.Props.FloatSketchAll
import Verif.Model.FloatLin
import Verif.Spec.FloatLin
import Verif.Proofs.FloatLin
import Verif.Props.FloatLin
import Verif.Props.FloatLinSketch
import Verif.Model.FloatOrth
import Verif.Proofs.FloatOrth
import Verif.Props.FloatOrth
import Verif.Model.FloatRound
import Verif.Proofs.FloatRound
import Verif.Props.FloatRound
import Verif.Model.FloatSvd
import Verif.Proofs.FloatSvd
import Verif.Props.FloatSvd
import Verif.Model.FloatSvdVals
import Verif.Proofs.FloatSvdVals
import Verif.Props.FloatSvdVals
import Verif.Model.FloatHmt
import Verif.Spec.FloatHmt
import Verif.Proofs.FloatHmt
import Verif.Props.FloatHmt
import Verif.Proofs.FloatOrthSketch
import Verif.Props.FloatOrthSketch
import Verif.Props.FloatApriori
import Verif.Props.FloatRecovery
import Verif.Spec.TuckerSketch
import Verif.Proofs.TuckerSketch
import Verif.Proofs.TuckerFull
import Verif.Props.TuckerSketch
import Verif.Model.Crash
import Verif.Spec.Crash
import Verif.Props.Crash
import Verif.Model.ExperimentFns
import Verif.Spec.ExperimentFns
import Verif.Props.ExperimentFns
import Verif.Model.GatherInt
import Verif.Spec.GatherInt
import Verif.Props.GatherInt
import Verif.Model.Scripts
import Verif.Props.Scripts
import Verif.Model.Mismatch
import Verif.Spec.Mismatch
import Verif.Props.Mismatch
import Verif.Spec.ApproxSvd
import Verif.Proofs.ApproxSvd
import Verif.Props.ApproxSvd
import Verif.Spec.ApproxQr
import Verif.Proofs.ApproxOrth
import Verif.Props.ApproxOrth
import Verif.Proofs.ApproxRound
import Verif.Props.ApproxRound
import Verif.Spec.ApproxHmt
import Verif.Proofs.ApproxHmt
import Verif.Props.ApproxHmt
import Verif.Spec.ApproxStream
import Verif.Proofs.ApproxStream
import Verif.Props.ApproxStream
import Verif.Spec.ApproxOrthSketch
import Verif.Proofs.ApproxOrthSketch
import Verif.Props.ApproxOrthSketch
import Verif.Spec.ApproxGmres
import Verif.Proofs.ApproxRoundSum
import Verif.Props.ApproxRoundSum
import Verif.Proofs.ApproxGmres
import Verif.Props.ApproxGmres
import Verif.Spec.ApproxPrecond
import Verif.Proofs.ApproxPrecond
import Verif.Props.ApproxPrecond
import Verif.Spec.ApproxPrecGmres
import Verif.Props.ApproxPrecGmres
import Verif.Proofs.Weyl
import Verif.Proofs.ApproxSvdVals
import Verif.Props.ApproxSvdVals
import Verif.Props.DenseSum
import Verif.Spec.RightCols
import Verif.Proofs.RightCols
import Verif.Props.OrthErrAll
import Verif.Model.FloatErr
import Verif.Spec.FloatErr
import Verif.Props.FloatErr
