import Verif.Fl
import Verif.Tensor
import Verif.Prob
import Verif.Layers
import Verif.LayerFwd
import Verif.LayerSample
import Verif.LayerCond
import Verif.LayerLaw
import Verif.LayerDraw
import Verif.TypeChecks
import Verif.PropsConfig
import Verif.Chain
import Verif.Leaf
import Verif.Einet
import Verif.LeafFwd
import Verif.EinetFwd
import Verif.EinetLaw
import Verif.Density
import Verif.Dists
import Verif.Path
import Verif.LeafSample
import Verif.SampleLaw
import Verif.SampleEnd
import Verif.SampleBuild
import Verif.LawExt
import Verif.Build
import Verif.BuildWF
import Verif.BuildSpec
import Verif.PropsBuild
import Verif.NanProp
import Verif.BuildFwd
import Verif.PropsDensity
import Verif.PropsForward
import Verif.PropsLayers
import Verif.PropsSample
import Verif.Witness
import Verif.Raise
import Verif.PropsSampleNeg
import Verif.PropsRegions
import Verif.Mpe
import Verif.Gen
import Verif.PropsMpe
import Verif.Modes
import Verif.PropsMax
import Verif.Temper
import Verif.PropsTemper
import Verif.State
import Verif.StateFacts
import Verif.PropsState
import Verif.Sampler
import Verif.PropsSampler
import Verif.Histogram
import Verif.PropsHistogram
import Verif.PropsRat
import Verif.Quantise
import Verif.PropsQuantise
import Verif.Piecewise
import Verif.PiecewiseFacts
import Verif.PropsPiecewise
import Verif.Dropout
import Verif.PropsDropout
import Verif.Diff
import Verif.DiffFacts
import Verif.DiffModel
import Verif.PropsDiff
import Verif.Mixture
import Verif.MixtureFacts
import Verif.MixtureLaw
import Verif.PropsMixture
import Verif.PropsMixtureInit
import Verif.PropsBins
import Verif.Gumbel
import Verif.DiffLaw
import Verif.DiffMass
import Verif.PropsDiffLaw
import Verif.PropsDiffBinomial
import Verif.PropsMixtureMpe
import Verif.Multi
import Verif.MultiFacts
import Verif.PropsMulti
import Verif.LeafParams
import Verif.ParamsFacts
import Verif.PropsParams
import Verif.PropsMultiMore
import Verif.Conv
import Verif.ConvFacts
import Verif.ConvLaw
import Verif.ConvEnd
import Verif.ConvDraw
import Verif.ConvBuild
import Verif.PropsConv
import Verif.ConvState
import Verif.PropsConvState
import Verif.SumConv
import Verif.PropsSumConv
import Verif.MvnMath
import Verif.Mvn
import Verif.MvnFacts
import Verif.MvnFwd
import Verif.MvnSample
import Verif.MvnLaw
import Verif.PropsMvn
import Verif.PropsMvnSample
import Verif.MvnWitness
import Verif.MultiEinet
import Verif.MultiEinetFacts
import Verif.MultiEinetFwd
import Verif.MultiEinetSample
import Verif.MultiEinetLaw
import Verif.MultiEinetEnd
import Verif.PropsMultiEinet
import Verif.Train
import Verif.TrainFacts
import Verif.PropsTrain
import Verif.CondBinomial
import Verif.CondFacts
import Verif.CondFwd
import Verif.CondEnd
import Verif.CondBuild
import Verif.PropsCond
import Verif.CondSample
import Verif.PropsCondSample
import Verif.PropsRegionsExact
import Verif.PropsFullDepth
import Verif.EvidenceRank
import Verif.PropsEvidenceRank
import Verif.Heap
import Verif.HeapFacts
import Verif.PropsHeap
import Verif.Accept
import Verif.AcceptMulti
import Verif.PropsAccept
import Verif.PropsAcceptConv
import Verif.Lit
import Verif.LitFacts
import Verif.PropsLit
import Verif.LeafInit
import Verif.LeafInitFacts
import Verif.PropsLeafInit
import Verif.Pwl
import Verif.PwlFacts
import Verif.PwlFacts2
import Verif.PropsPwl
import Verif.Data
import Verif.DataFacts
import Verif.PropsLoader
import Verif.PropsData
import Verif.Evaluate
import Verif.PropsEvaluate
import Verif.Reconstruct
import Verif.PropsReconstruct
import Verif.PropsExactLaw
import Verif.MvnEvidence
import Verif.PropsMvnMpe
import Verif.MvnGiven
import Verif.PropsMvnEvidence
import Verif.Schedule
import Verif.PropsSchedule
import Verif.PropsReconstructLaw
import Verif.PropsMultiExact
import Verif.PropsCondExact
import Verif.StateDict
import Verif.StateDictFacts
import Verif.StateDictBuild
import Verif.PropsStateDict
import Verif.PropsMonotone
import Verif.ParamCount
import Verif.PropsParamCount
import Verif.Results
import Verif.PropsResults
import Verif.MixState
import Verif.PropsMixState
import Verif.PropsAcceptMix
import Verif.Shift
import Verif.PropsShift
import Verif.PropsShallow
import Verif.Gibbs
import Verif.PropsProper
import Verif.Smooth
import Verif.PropsSmooth
import Verif.TrainLoop
import Verif.PropsTrainLoop
import Verif.PropsClassPrior
import Verif.PropsMixGrad
import Verif.PropsUntouched
import Verif.PropsLeafGrad
import Verif.PropsInputGrad
import Verif.ConvLit
import Verif.PropsConvLit
import Verif.ConvMixture
import Verif.PropsConvMixture
import Verif.PropsConvMixLaw
import Verif.PropsConvSmooth
import Verif.PropsMixSmooth
import Verif.PropsConvShift
import Verif.ConvShiftSample
import Verif.PropsConvShiftLaw
import Verif.PropsMixShift
