import Verif.Model.Boundary2Cmd
import Verif.Model.BoundaryCmd
import Verif.Model.Caches
import Verif.Model.Commands
import Verif.Model.Create
import Verif.Model.Dataset
import Verif.Model.Decode
import Verif.Model.DecodeCmd
import Verif.Model.DecodeText
import Verif.Model.Detached
import Verif.Model.Dists
import Verif.Model.DistsReal
import Verif.Model.Eval
import Verif.Model.EvalInfo
import Verif.Model.Fbank
import Verif.Model.Features
import Verif.Model.GSM
import Verif.Model.GammaModel
import Verif.Model.Graph
import Verif.Model.HInit
import Verif.Model.HMM
import Verif.Model.HierGSM
import Verif.Model.Inference
import Verif.Model.Jacobian
import Verif.Model.Labelled
import Verif.Model.Likelihood
import Verif.Model.LogDomain
import Verif.Model.LoopTrain
import Verif.Model.LoopVB
import Verif.Model.LoopWeights
import Verif.Model.MiniBatch
import Verif.Model.Mixture
import Verif.Model.MkLoop
import Verif.Model.ModelSet
import Verif.Model.NetConf
import Verif.Model.Nnet
import Verif.Model.NormalDist
import Verif.Model.NormalFit
import Verif.Model.NormalWishart
import Verif.Model.PathTrain
import Verif.Model.PhoneLoop
import Verif.Model.Pipeline
import Verif.Model.PostCmd
import Verif.Model.ProbLayers
import Verif.Model.Py
import Verif.Model.Recipes
import Verif.Model.SBHyper
import Verif.Model.SBTrain
import Verif.Model.SPhoneLoop
import Verif.Model.Scoring
import Verif.Model.Scripts
import Verif.Model.SetPrior
import Verif.Model.Spectrum
import Verif.Model.StickBreaking
import Verif.Model.SymPosDef
import Verif.Model.TimitUnits
import Verif.Model.TrainOpts
import Verif.Model.Transcripts
import Verif.Model.Utils
import Verif.Model.VAE
import Verif.Model.VBTrain
import Verif.Model.Views
import Verif.Model.WishartExp
import Verif.Spec.AcousticScale
import Verif.Spec.BoundaryCmd
import Verif.Spec.Caches
import Verif.Spec.ClassSet
import Verif.Spec.Create
import Verif.Spec.DecodeCmd
import Verif.Spec.Detached
import Verif.Spec.Dists
import Verif.Spec.Duration
import Verif.Spec.Eval
import Verif.Spec.EvalInfo
import Verif.Spec.Evidence
import Verif.Spec.Expect
import Verif.Spec.Fbank
import Verif.Spec.GSM
import Verif.Spec.Graph
import Verif.Spec.GraphLang
import Verif.Spec.GraphSupport
import Verif.Spec.HMM
import Verif.Spec.HierGSM
import Verif.Spec.Inference
import Verif.Spec.Jacobian
import Verif.Spec.KL
import Verif.Spec.Labelled
import Verif.Spec.Likelihood
import Verif.Spec.LoopVB
import Verif.Spec.LoopWeights
import Verif.Spec.MiniBatch
import Verif.Spec.Mixture
import Verif.Spec.ModelSet
import Verif.Spec.NetConf
import Verif.Spec.NormalDist
import Verif.Spec.NormalFit
import Verif.Spec.NormalWishart
import Verif.Spec.PathTrain
import Verif.Spec.PhoneLoop
import Verif.Spec.PostCmd
import Verif.Spec.ProbLayers
import Verif.Spec.Rescale
import Verif.Spec.SBHyper
import Verif.Spec.SBTrain
import Verif.Spec.SPhoneLoop
import Verif.Spec.Scoring
import Verif.Spec.Scripts
import Verif.Spec.Spectrum
import Verif.Spec.Stable
import Verif.Spec.Stall
import Verif.Spec.StickBreaking
import Verif.Spec.SymPosDef
import Verif.Spec.TimitUnits
import Verif.Spec.VAE
import Verif.Spec.VBTrain
import Verif.Spec.Views
import Verif.Spec.WeightedFit
import Verif.Spec.Wishart
import Verif.Lemmas.AliGraph
import Verif.Lemmas.Beta
import Verif.Lemmas.BoundaryCmd
import Verif.Lemmas.Caches
import Verif.Lemmas.CompiledLang
import Verif.Lemmas.Dataset
import Verif.Lemmas.DecodeCmd
import Verif.Lemmas.Digamma
import Verif.Lemmas.DigammaStep
import Verif.Lemmas.DirichletMean
import Verif.Lemmas.DirichletMoment
import Verif.Lemmas.Dists
import Verif.Lemmas.Duration
import Verif.Lemmas.Eval
import Verif.Lemmas.EvalInfo
import Verif.Lemmas.EvalTables
import Verif.Lemmas.EvidenceFam
import Verif.Lemmas.EvidenceModels
import Verif.Lemmas.EvidenceSets
import Verif.Lemmas.EvidenceTrain
import Verif.Lemmas.EvidenceWishart
import Verif.Lemmas.ExceptList
import Verif.Lemmas.Fbank
import Verif.Lemmas.Flow
import Verif.Lemmas.GSM
import Verif.Lemmas.GammaExpect
import Verif.Lemmas.GammaModel
import Verif.Lemmas.GammaSum
import Verif.Lemmas.Graph
import Verif.Lemmas.GraphCompile
import Verif.Lemmas.GraphDirect
import Verif.Lemmas.GraphLang
import Verif.Lemmas.GraphReplace
import Verif.Lemmas.GraphSupport
import Verif.Lemmas.HInit
import Verif.Lemmas.HMM
import Verif.Lemmas.HierGSM
import Verif.Lemmas.Inference
import Verif.Lemmas.Jacobian
import Verif.Lemmas.KL
import Verif.Lemmas.Labelled
import Verif.Lemmas.LogDomain
import Verif.Lemmas.LoopGraph
import Verif.Lemmas.LoopLaws
import Verif.Lemmas.LoopTrain
import Verif.Lemmas.LoopVB
import Verif.Lemmas.LoopWeights
import Verif.Lemmas.MiniBatch
import Verif.Lemmas.NetConf
import Verif.Lemmas.NormalFit
import Verif.Lemmas.NormalGammaMarginal
import Verif.Lemmas.NormalWishart
import Verif.Lemmas.PathTrain
import Verif.Lemmas.Pipeline
import Verif.Lemmas.PostCmd
import Verif.Lemmas.ProbLayers
import Verif.Lemmas.Recipes
import Verif.Lemmas.Rescale
import Verif.Lemmas.RescaleFam
import Verif.Lemmas.RescaleMix
import Verif.Lemmas.RescaleRun
import Verif.Lemmas.RescaleTrain
import Verif.Lemmas.RescaleUnits
import Verif.Lemmas.SBTrain
import Verif.Lemmas.SPhoneLoop
import Verif.Lemmas.Scoring
import Verif.Lemmas.Scripts
import Verif.Lemmas.ScriptsStats
import Verif.Lemmas.ScriptsText
import Verif.Lemmas.Spectrum
import Verif.Lemmas.Stall
import Verif.Lemmas.StickBreaking
import Verif.Lemmas.StickFit
import Verif.Lemmas.TimitUnits
import Verif.Lemmas.Units
import Verif.Lemmas.VBHmm
import Verif.Lemmas.VBSets
import Verif.Lemmas.VBTrain
import Verif.Lemmas.Views
import Verif.Lemmas.WeightedFit
import Verif.Lemmas.WishartExpect
import Verif.Lemmas.WishartKL
import Verif.Lemmas.WishartMarginal
import Verif.Props.AcousticScale
import Verif.Props.AliGraph
import Verif.Props.BigramFit
import Verif.Props.Boundary2Cmd
import Verif.Props.BoundaryCmd
import Verif.Props.Caches
import Verif.Props.ClassSet
import Verif.Props.CompiledLang
import Verif.Props.Create
import Verif.Props.Dataset
import Verif.Props.Decode
import Verif.Props.DecodeCmd
import Verif.Props.DecodeMain
import Verif.Props.DecodeText
import Verif.Props.Deltas
import Verif.Props.Detached
import Verif.Props.DistsRoundTrip
import Verif.Props.DistsUpdate
import Verif.Props.DistsValid
import Verif.Props.Duration
import Verif.Props.Eval
import Verif.Props.EvalInfo
import Verif.Props.EvalTables
import Verif.Props.Evidence
import Verif.Props.EvidenceWishart
import Verif.Props.Expect
import Verif.Props.ExpectWishart
import Verif.Props.Fbank
import Verif.Props.Features
import Verif.Props.Flow
import Verif.Props.GSM
import Verif.Props.GSMExpect
import Verif.Props.GSMParam
import Verif.Props.GammaModel
import Verif.Props.GraphCompile
import Verif.Props.GraphEdit
import Verif.Props.GraphReplace
import Verif.Props.GraphSupport
import Verif.Props.HInit
import Verif.Props.HMM
import Verif.Props.HierGSM
import Verif.Props.Inference
import Verif.Props.Jacobian
import Verif.Props.KL
import Verif.Props.Labelled
import Verif.Props.Likelihood
import Verif.Props.LoopGraph
import Verif.Props.LoopTrain
import Verif.Props.LoopVB
import Verif.Props.LoopWeights
import Verif.Props.MiniBatch
import Verif.Props.Mixture
import Verif.Props.MixtureSetSlice
import Verif.Props.MkLoop
import Verif.Props.ModelSet
import Verif.Props.NetConf
import Verif.Props.Nnet
import Verif.Props.NormalDist
import Verif.Props.NormalFit
import Verif.Props.NormalWishart
import Verif.Props.Offset
import Verif.Props.PathStops
import Verif.Props.PathTrain
import Verif.Props.PhoneLoop
import Verif.Props.Pipeline
import Verif.Props.PostCmd
import Verif.Props.ProbLayers
import Verif.Props.Recipes
import Verif.Props.RepeatedSet
import Verif.Props.Rescale
import Verif.Props.SBHyper
import Verif.Props.SBTrain
import Verif.Props.SPhoneLoop
import Verif.Props.Scoring
import Verif.Props.Scripts
import Verif.Props.SetPrior
import Verif.Props.Spectrum
import Verif.Props.Stable
import Verif.Props.Stacking
import Verif.Props.Stall
import Verif.Props.StatePath
import Verif.Props.StickBreaking
import Verif.Props.StickFit
import Verif.Props.Subspace
import Verif.Props.SymPosDef
import Verif.Props.TimitMaps
import Verif.Props.TimitUnits
import Verif.Props.TrainOpts
import Verif.Props.Transcripts
import Verif.Props.Units
import Verif.Props.Utils
import Verif.Props.VAE
import Verif.Props.VBTrain
import Verif.Props.Views
import Verif.Props.WeightFit
import Verif.Props.WeightedFit
import Verif.Props.WishartKL
