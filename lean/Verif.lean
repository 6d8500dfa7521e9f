import Verif.Lemmas.CacgmmMix
import Verif.Lemmas.Cubic
import Verif.Lemmas.Dct
import Verif.Lemmas.Equivariance
import Verif.Lemmas.FastScale
import Verif.Lemmas.Floored
import Verif.Lemmas.Frames
import Verif.Lemmas.Ilrma
import Verif.Lemmas.IlrmaStep
import Verif.Lemmas.IlrmaStrict
import Verif.Lemmas.Io
import Verif.Lemmas.Ipa
import Verif.Lemmas.Ipsdta
import Verif.Lemmas.IpsdtaGain
import Verif.Lemmas.IpsdtaStrict
import Verif.Lemmas.Level
import Verif.Lemmas.Limit
import Verif.Lemmas.Lqpqm
import Verif.Lemmas.Majorise
import Verif.Lemmas.MatDeriv
import Verif.Lemmas.MatStrict
import Verif.Lemmas.MatrixIneq
import Verif.Lemmas.MnmfMix
import Verif.Lemmas.Mult
import Verif.Lemmas.NormFree
import Verif.Lemmas.Numpy
import Verif.Lemmas.Pair
import Verif.Lemmas.PairScale
import Verif.Lemmas.PermNat
import Verif.Lemmas.Permutation
import Verif.Lemmas.Phase
import Verif.Lemmas.Quad
import Verif.Lemmas.Rescale
import Verif.Lemmas.Run
import Verif.Lemmas.SourceLimit
import Verif.Lemmas.Strict
import Verif.Lemmas.Trace
import Verif.Lemmas.TwoSources
import Verif.Lemmas.VcdStrict
import Verif.Model.Base
import Verif.Model.Blocks
import Verif.Model.Cacgmm
import Verif.Model.CacgmmCall
import Verif.Model.Config
import Verif.Model.Dataset
import Verif.Model.Fast
import Verif.Model.Fdica
import Verif.Model.FdicaCall
import Verif.Model.Flooring
import Verif.Model.FnConfig
import Verif.Model.Grad
import Verif.Model.GradCall
import Verif.Model.Hva
import Verif.Model.Ilrma
import Verif.Model.IlrmaCall
import Verif.Model.Io
import Verif.Model.Ipa
import Verif.Model.Ipsdta
import Verif.Model.IpsdtaCall
import Verif.Model.Iva
import Verif.Model.IvaCall
import Verif.Model.Lifecycle
import Verif.Model.Linalg
import Verif.Model.Lqpqm
import Verif.Model.Mnmf
import Verif.Model.MnmfCall
import Verif.Model.MnmfPart
import Verif.Model.Numpy
import Verif.Model.Overwrite
import Verif.Model.Permutation
import Verif.Model.ProxBss
import Verif.Model.ProxCall
import Verif.Model.ProxConfig
import Verif.Model.PyErr
import Verif.Model.RecordLoss
import Verif.Model.Run
import Verif.Model.Scale
import Verif.Model.SelectPair
import Verif.Model.Spatial
import Verif.Model.Special
import Verif.Model.SpectralNorm
import Verif.Model.Transform
import Verif.Props.AuxFdica
import Verif.Props.AuxGauss
import Verif.Props.AuxIva
import Verif.Props.Base
import Verif.Props.BinByBin
import Verif.Props.Blocks
import Verif.Props.Cacgmm
import Verif.Props.CacgmmCall
import Verif.Props.CacgmmMix
import Verif.Props.CacgmmOrder
import Verif.Props.Config
import Verif.Props.Dataset
import Verif.Props.Direction
import Verif.Props.EigFree
import Verif.Props.EigPhase
import Verif.Props.EigPhase2
import Verif.Props.EigPhaseEx
import Verif.Props.Equivariance
import Verif.Props.EquivarianceIpsdta
import Verif.Props.Fast
import Verif.Props.FastFixed
import Verif.Props.FastMix
import Verif.Props.FastMnmf
import Verif.Props.FastMnmfIlrma
import Verif.Props.FastScale
import Verif.Props.FasterIva
import Verif.Props.FdicaCall
import Verif.Props.FlooredCall
import Verif.Props.Flooring
import Verif.Props.FnConfig
import Verif.Props.Frames
import Verif.Props.FramesFull
import Verif.Props.FramesSignal
import Verif.Props.GaussLimit
import Verif.Props.Grad
import Verif.Props.GradCall
import Verif.Props.GradGauss
import Verif.Props.HardMnmf
import Verif.Props.HardPartition
import Verif.Props.Hva
import Verif.Props.Ilrma
import Verif.Props.IlrmaCall
import Verif.Props.IlrmaEx
import Verif.Props.IlrmaFloor
import Verif.Props.IlrmaGain
import Verif.Props.IlrmaIpa
import Verif.Props.IlrmaMeIss
import Verif.Props.IlrmaNorm
import Verif.Props.Io
import Verif.Props.Ip2
import Verif.Props.Ipa
import Verif.Props.IpaMany
import Verif.Props.Ipsdta
import Verif.Props.IpsdtaCall
import Verif.Props.IpsdtaFloor
import Verif.Props.IpsdtaGain
import Verif.Props.IpsdtaIlrma
import Verif.Props.Iss
import Verif.Props.IvaCall
import Verif.Props.Level
import Verif.Props.LevelAligned
import Verif.Props.LevelCall
import Verif.Props.Lifecycle
import Verif.Props.Limit
import Verif.Props.LimitCacgmm
import Verif.Props.LimitFastMnmf
import Verif.Props.LimitIlrma
import Verif.Props.LimitMnmf
import Verif.Props.Linalg
import Verif.Props.Lqpqm
import Verif.Props.Microphones
import Verif.Props.MicrophonesAll
import Verif.Props.MicrophonesGrad
import Verif.Props.MicrophonesMnmf
import Verif.Props.MicrophonesNorm
import Verif.Props.MicrophonesPart
import Verif.Props.MnmfCall
import Verif.Props.MnmfFloor
import Verif.Props.MnmfFull
import Verif.Props.MnmfJoint
import Verif.Props.MnmfMix
import Verif.Props.MnmfPart
import Verif.Props.MnmfWiener
import Verif.Props.NormFree
import Verif.Props.Overwrite
import Verif.Props.Partitioned
import Verif.Props.PartitionedFinding
import Verif.Props.PermScore
import Verif.Props.Permutation
import Verif.Props.Phase
import Verif.Props.Phase2
import Verif.Props.Phase3
import Verif.Props.Prox
import Verif.Props.ProxBss
import Verif.Props.ProxCall
import Verif.Props.ProxConfig
import Verif.Props.ProxRotation
import Verif.Props.RecordLoss
import Verif.Props.Relabel
import Verif.Props.RelabelIpsdta
import Verif.Props.RelabelMix
import Verif.Props.Rotation
import Verif.Props.Scale
import Verif.Props.SelectPair
import Verif.Props.SourceOrder
import Verif.Props.Spatial
import Verif.Props.Special
import Verif.Props.SpectralNorm
import Verif.Props.Stationary
import Verif.Props.StationaryCacgmm
import Verif.Props.StationaryFastMnmf
import Verif.Props.StationaryIlrma
import Verif.Props.StationaryIpa
import Verif.Props.StationaryIpsdta
import Verif.Props.StationaryMnmf
import Verif.Props.Transform
import Verif.Props.TwoSources
import Verif.Props.Vcd
import Verif.Props.WhitenPhase
import Verif.Props.WhitenPhaseEx
import Verif.Spec.Prox
import Verif.Spec.Spatial
import Verif.Spec.Wav
