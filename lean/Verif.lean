import Verif.Model.GaussianParams
import Verif.Model.RnsGaussian
import Verif.Model.SignedEncoder
import Verif.Model.Context
import Verif.Props.Montgomery
import Verif.Props.Promotion
import Verif.Props.Bits
import Verif.Props.Transcription
import Verif.Props.Int256
import Verif.Props.Ntt
import Verif.Props.Polynomial
import Verif.Props.LazyPolynomial
import Verif.Props.Symmetric
import Verif.Props.Relin
import Verif.Props.Convert
import Verif.Props.AuxKey
import Verif.Props.PublicKey
import Verif.Props.Expand
import Verif.Props.Prng
import Verif.Props.PrngThreads
import Verif.Props.Random
import Verif.Props.ErrorSample
import Verif.Props.Ternary
import Verif.Props.Gaussian
import Verif.Props.Word
import Verif.Props.Serialize
import Verif.Props.RnsPolynomial
import Verif.Props.RnsReduce
import Verif.Props.RnsBasis
import Verif.Props.RnsContext
import Verif.Props.Crt
import Verif.Props.RnsContextKinds
import Verif.Props.RnsEncoder
import Verif.Props.RnsBfvEncoder
import Verif.Props.FiniteField
import Verif.Props.RnsScheme
import Verif.Props.RnsLevels
import Verif.Props.RnsEncrypt
import Verif.Props.RnsCircuit
import Verif.Props.RnsSchemeExample
import Verif.Props.RnsBfvMul
import Verif.Props.RnsBfvExample
import Verif.Props.RnsGadget
import Verif.Props.RnsKeySwitch
import Verif.Props.RnsRelin
import Verif.Props.LazyRns
import Verif.Props.Simd
import Verif.Props.RnsSerialize
import Verif.Props.Context
import Verif.Props.SignedEncoder
import Verif.Props.RnsGaussian
import Verif.Props.GaussianParams
import Verif.Props.GaussianTable
import Verif.Props.GaussianLaw
import Verif.Spec.Canonical
import Verif.Lemmas.Canonical
import Verif.Lemmas.PrimeCert
import Verif.Model.ErrorTrack
import Verif.Props.ErrorTrack
import Verif.Props.ErrorTrackAux
import Verif.Model.RnsErrorTrack
import Verif.Props.RnsErrorTrack
import Verif.Model.InPlace
import Verif.Spec.InPlace
import Verif.Lemmas.InPlace
import Verif.Lemmas.InPlaceClean
import Verif.Lemmas.InPlaceCalls
import Verif.Props.InPlace
import Verif.Props.Constants
import Verif.Props.Print
import Verif.Model.WordCt
import Verif.Spec.WordCt
import Verif.Lemmas.WordCt
import Verif.Lemmas.WordCtFail
import Verif.Props.WordCt
import Verif.Model.WordSwitch
import Verif.Spec.WordSwitch
import Verif.Lemmas.WordSwitch
import Verif.Props.WordSwitch
import Verif.Spec.RnsLevelled
import Verif.Spec.RnsSession
import Verif.Props.RnsLevelled
import Verif.Props.RnsSession
import Verif.Props.RnsSessionExample
import Verif.Spec.RnsBfvLevelled
import Verif.Props.RnsBfvLevelled
import Verif.Props.RnsBfvSession
import Verif.Props.RnsBfvSessionExample
import Verif.Model.Alias
import Verif.Spec.Alias
import Verif.Lemmas.Alias
import Verif.Props.Alias
import Verif.Spec.RnsPolySession
import Verif.Props.RnsKeyCalls
import Verif.Props.RnsPolyLevelled
import Verif.Props.RnsPolySession
import Verif.Props.RnsPolySessionExample
import Verif.Spec.RnsBfvPolySession
import Verif.Props.RnsBfvPolyLevelled
import Verif.Props.RnsBfvPolySession
import Verif.Props.RnsBfvPolySessionExample
import Verif.Model.Double
import Verif.Spec.Double
import Verif.Lemmas.Double
import Verif.Props.Double
import Verif.Model.WordPublic
import Verif.Spec.WordPublic
import Verif.Props.WordPublic
import Verif.Model.WordAux
import Verif.Spec.WordAux
import Verif.Spec.Tape
import Verif.Lemmas.WordAux
import Verif.Lemmas.Tape
import Verif.Lemmas.ErrorTail
import Verif.Props.WordAux
import Verif.Props.ErrorTail
import Verif.Props.Capacity
import Verif.Props.RnsCapacity
import Verif.Spec.Available
import Verif.Lemmas.Available
import Verif.Props.Available
import Verif.Spec.RnsWire
import Verif.Props.RnsWire
import Verif.Spec.Law
import Verif.Lemmas.Law
import Verif.Props.Law
import Verif.Props.RnsLaw
import Verif.Props.RnsBfvErrorTrack
import Verif.Props.RnsErrorTail
import Verif.Model.RnsStore
import Verif.Spec.RnsStore
import Verif.Lemmas.RnsStore
import Verif.Lemmas.RnsStoreCt
import Verif.Props.RnsStore
import Verif.Props.Store
import Verif.Spec.RnsProgram
import Verif.Lemmas.RnsProgram
import Verif.Props.RnsProgram
import Verif.Lemmas.TernaryLaw
import Verif.Props.TernaryLaw
import Verif.Model.WordExpand
import Verif.Spec.WordExpand
import Verif.Lemmas.WordExpand
import Verif.Props.WordExpand
import Verif.Props.Select
import Verif.Model.StoreKeys
import Verif.Spec.StoreKeys
import Verif.Lemmas.StoreKeys
import Verif.Props.StoreKeys
import Verif.Spec.StoreSafe
import Verif.Lemmas.StoreSafe
import Verif.Props.StoreSafe
import Verif.Model.DoubleError
import Verif.Spec.DoubleError
import Verif.Lemmas.DoubleError
import Verif.Props.DoubleError
import Verif.Model.RnsCtStore
import Verif.Spec.RnsCtStore
import Verif.Lemmas.RnsCtStore
import Verif.Props.RnsCtStore
import Verif.Props.RnsCtStoreExample
import Verif.Model.RnsBfvStore
import Verif.Spec.RnsBfvStore
import Verif.Lemmas.RnsBfvStore
import Verif.Props.RnsBfvStore
import Verif.Props.RnsBfvStoreExample
import Verif.Model.RnsSlotStore
import Verif.Spec.RnsSlotStore
import Verif.Lemmas.RnsSlotStore
import Verif.Props.RnsSlotStore
import Verif.Props.RnsSlotStoreExample
import Verif.Model.RnsBfvSlotStore
import Verif.Spec.RnsBfvSlotStore
import Verif.Lemmas.RnsBfvSlotStore
import Verif.Props.RnsBfvSlotStore
import Verif.Props.RnsBfvSlotStoreExample
import Verif.Model.RnsDisk
import Verif.Spec.RnsDisk
import Verif.Lemmas.RnsDisk
import Verif.Props.RnsDisk
import Verif.Props.RnsDiskExample
import Verif.Model.StoreDisk
import Verif.Spec.StoreDisk
import Verif.Lemmas.StoreDisk
import Verif.Props.StoreDisk
import Verif.Props.RnsEstimate
import Verif.Model.Ieee
import Verif.Spec.Ieee
import Verif.Lemmas.Ieee
import Verif.Lemmas.IeeeRound
import Verif.Props.Ieee
import Verif.Spec.KeyNoise
import Verif.Lemmas.KeyTail
import Verif.Props.KeyNoise
import Verif.Props.KeyNoiseExample
import Verif.Spec.BfvKeyNoise
import Verif.Props.BfvKeyNoise
import Verif.Props.BfvKeyNoiseExample
import Verif.Lemmas.WordKeyTail
import Verif.Spec.WordKeyNoise
import Verif.Props.WordKeyNoise
import Verif.Props.WordKeyNoiseExample
import Verif.Model.WordKeyMod
import Verif.Spec.ModulusNoise
import Verif.Props.ModulusNoise
import Verif.Props.ModulusNoiseExample
import Verif.Props.ModulusNoiseWitness
import Verif.Spec.LevelNoise
import Verif.Props.LevelNoise
import Verif.Props.LevelNoiseExample
import Verif.Props.BfvLevelNoise
import Verif.Props.BfvLevelNoiseExample
import Verif.Spec.LevelProgram
import Verif.Props.LevelProgram
import Verif.Props.LevelProgramExample
import Verif.Spec.BfvLevelProgram
import Verif.Props.BfvLevelProgram
import Verif.Props.BfvLevelProgramExample
