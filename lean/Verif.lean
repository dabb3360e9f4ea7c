import Verif.Model.BCH
import Verif.Model.BinaryPolynomial
import Verif.Model.BitOps
import Verif.Model.BlockCode
import Verif.Model.BlockFamilies
import Verif.Model.Blockwise
import Verif.Model.Catastrophic
import Verif.Model.CodeObject
import Verif.Model.ConstellationArrays
import Verif.Model.Constellations
import Verif.Model.Convolutional
import Verif.Model.CyclicCode
import Verif.Model.Double
import Verif.Model.DoubleBcjr
import Verif.Model.DoubleChannels
import Verif.Model.DoubleDecisions
import Verif.Model.DoubleDecoders
import Verif.Model.DoubleDemapper
import Verif.Model.DoubleDraws
import Verif.Model.DoubleInfo
import Verif.Model.DoubleLog
import Verif.Model.DoubleLossless
import Verif.Model.DoublePam
import Verif.Model.DoubleRates
import Verif.Model.DoubleViterbi
import Verif.Model.FanoShannon
import Verif.Model.FiniteBifield
import Verif.Model.FiniteStateMachine
import Verif.Model.FreeDistance
import Verif.Model.GaussianChannel
import Verif.Model.Huffman
import Verif.Model.Information
import Verif.Model.IntegerCoding
import Verif.Model.IntegerDomain
import Verif.Model.Labelings
import Verif.Model.LempelZiv
import Verif.Model.Lexicode
import Verif.Model.LosslessCodes
import Verif.Model.LosslessConstructors
import Verif.Model.LosslessRates
import Verif.Model.LosslessUtil
import Verif.Model.Marginalize
import Verif.Model.MarkovChain
import Verif.Model.MarkovReal
import Verif.Model.Matrices
import Verif.Model.NDArray
import Verif.Model.Polar
import Verif.Model.Pulses
import Verif.Model.PulsesIsclose
import Verif.Model.PyObjects
import Verif.Model.Quantization
import Verif.Model.QuantizerError
import Verif.Model.Random
import Verif.Model.ReedMuller
import Verif.Model.Resampling
import Verif.Model.Ring
import Verif.Model.SCDecoder
import Verif.Model.Sequences
import Verif.Model.Session
import Verif.Model.SignalProcessing
import Verif.Model.SpecialFunctions
import Verif.Model.StreamDecoder
import Verif.Model.Terminated
import Verif.Model.Tolerance
import Verif.Model.TrellisDecoders
import Verif.Model.Tunstall
import Verif.Model.ZadoffChu
import Verif.Spec.BlockCode
import Verif.Spec.Catastrophic
import Verif.Spec.Codes
import Verif.Spec.Convolutional
import Verif.Spec.CyclicCode
import Verif.Spec.FiniteStateMachine
import Verif.Spec.Fraction
import Verif.Spec.Labelings
import Verif.Spec.Matrices
import Verif.Spec.Poly
import Verif.Spec.Primitive
import Verif.Spec.Pulses
import Verif.Spec.Sequences
import Verif.Lemmas.BCH
import Verif.Lemmas.BCH2
import Verif.Lemmas.BCH3
import Verif.Lemmas.BCH4
import Verif.Lemmas.BCJR
import Verif.Lemmas.BandPulses
import Verif.Lemmas.Bayes
import Verif.Lemmas.Bifield
import Verif.Lemmas.Bifield2
import Verif.Lemmas.BitOps
import Verif.Lemmas.BlockCode
import Verif.Lemmas.BlockDistance
import Verif.Lemmas.BlockFamilies
import Verif.Lemmas.Blockwise
import Verif.Lemmas.Canonical
import Verif.Lemmas.Catastrophic
import Verif.Lemmas.ChannelCoding
import Verif.Lemmas.CodeCounting
import Verif.Lemmas.CodeObject
import Verif.Lemmas.Constellations
import Verif.Lemmas.ConvHighRate
import Verif.Lemmas.ConvSeries
import Verif.Lemmas.Convolutional
import Verif.Lemmas.CosetLeaders
import Verif.Lemmas.CyclicCode
import Verif.Lemmas.Double
import Verif.Lemmas.DoubleBcjr
import Verif.Lemmas.DoubleViterbi
import Verif.Lemmas.EndlessDraws
import Verif.Lemmas.Fano
import Verif.Lemmas.FiniteStateMachine
import Verif.Lemmas.ForwardBackward
import Verif.Lemmas.Fraction
import Verif.Lemmas.FreeDistance
import Verif.Lemmas.FreeDistanceLinear
import Verif.Lemmas.GaussianLinear
import Verif.Lemmas.Hamming
import Verif.Lemmas.Huffman
import Verif.Lemmas.HuffmanCode
import Verif.Lemmas.HuffmanOpt
import Verif.Lemmas.Information
import Verif.Lemmas.IntegerCoding
import Verif.Lemmas.InvariantFactors
import Verif.Lemmas.Kraft
import Verif.Lemmas.LFSR
import Verif.Lemmas.Labelings
import Verif.Lemmas.LempelZiv
import Verif.Lemmas.LempelZiv2
import Verif.Lemmas.Lexicode
import Verif.Lemmas.LosslessCodes
import Verif.Lemmas.LosslessUtil
import Verif.Lemmas.Marcum
import Verif.Lemmas.MarkovChain
import Verif.Lemmas.MarkovPeriod
import Verif.Lemmas.Matrices
import Verif.Lemmas.Matrices2
import Verif.Lemmas.MinorsGcd
import Verif.Lemmas.NDArray
import Verif.Lemmas.Plancherel
import Verif.Lemmas.Polar
import Verif.Lemmas.Poly
import Verif.Lemmas.PolyMisc
import Verif.Lemmas.Primes
import Verif.Lemmas.Primitive
import Verif.Lemmas.PseudoInverse
import Verif.Lemmas.PulseConsistency
import Verif.Lemmas.PulseIntegrals
import Verif.Lemmas.Rabin
import Verif.Lemmas.Random
import Verif.Lemmas.ReedMuller
import Verif.Lemmas.ReedMuller2
import Verif.Lemmas.Ring
import Verif.Lemmas.SCDecoder
import Verif.Lemmas.Sequences
import Verif.Lemmas.Shannon
import Verif.Lemmas.ShiftRegister
import Verif.Lemmas.SourceCoding
import Verif.Lemmas.SpanCheck
import Verif.Lemmas.StreamDecoder
import Verif.Lemmas.Streaming
import Verif.Lemmas.Terminated
import Verif.Lemmas.Trapezoid
import Verif.Lemmas.TrellisDecoders
import Verif.Lemmas.Tunstall
import Verif.Lemmas.TunstallOptimal
import Verif.Lemmas.Walks
import Verif.Lemmas.Walsh
import Verif.Lemmas.WordTrees
import Verif.Lemmas.Ziv
import Verif.Lemmas.ZivParse
import Verif.Props.C01_BitOps
import Verif.Props.C02_C05_Poly
import Verif.Props.C06_C08_Irreducible
import Verif.Props.C09_C12_Bifield
import Verif.Props.C100_Rates
import Verif.Props.C102_MeanSquaredError
import Verif.Props.C103_GaussianChannel
import Verif.Props.C104_GaussianQ
import Verif.Props.C105_MarcumQ
import Verif.Props.C106_Convolve
import Verif.Props.C107_FourierTransform
import Verif.Props.C108_ArrayBlocks
import Verif.Props.C109_ConstellationArrays
import Verif.Props.C110_ErrorRates
import Verif.Props.C110_PSK
import Verif.Props.C110_QAM
import Verif.Props.C111_BlockError
import Verif.Props.C112_C113_CodeBounds
import Verif.Props.C114_LempelZivRate
import Verif.Props.C115_StreamDecoder
import Verif.Props.C116_MinorsGcd
import Verif.Props.C117_Constructors
import Verif.Props.C118_Integers
import Verif.Props.C119_Modem
import Verif.Props.C120_ChannelCoding
import Verif.Props.C121_Trajectories
import Verif.Props.C123_UnionBound
import Verif.Props.C124_AlmostSureRates
import Verif.Props.C125_SimulatedChains
import Verif.Props.C126_MonteCarlo
import Verif.Props.C127_SoftOptimal
import Verif.Props.C128_FanoRate
import Verif.Props.C129_Sessions
import Verif.Props.C130_Experiments
import Verif.Props.C131_Tolerance
import Verif.Props.C132_CodeObjects
import Verif.Props.C133_GrayBER
import Verif.Props.C134_DoubleViterbi
import Verif.Props.C135_DoublePam
import Verif.Props.C136_FloatLogs
import Verif.Props.C137_DoubleHuffman
import Verif.Props.C138_DoubleDecoders
import Verif.Props.C139_DoubleDecisions
import Verif.Props.C13_Fraction
import Verif.Props.C140_PyObjects
import Verif.Props.C141_DoubleBcjr
import Verif.Props.C142_DoubleDemapper
import Verif.Props.C143_DoubleInfo
import Verif.Props.C144_Isclose
import Verif.Props.C145_DoubleChannels
import Verif.Props.C146_DoubleMutual
import Verif.Props.C147_DoubleLossless
import Verif.Props.C148_DoubleRates
import Verif.Props.C149_DoubleDraws
import Verif.Props.C14_C16_Misc
import Verif.Props.C150_SoftRadius
import Verif.Props.C151_Transmission
import Verif.Props.C152_SoftTransmission
import Verif.Props.C153_Sources
import Verif.Props.C154_GrayTransmission
import Verif.Props.C155_PSKFading
import Verif.Props.C155_Viterbi
import Verif.Props.C156_Similarities
import Verif.Props.C157_InformationLaws
import Verif.Props.C158_EquivalentCodes
import Verif.Props.C159_ReorderedEncoders
import Verif.Props.C160_RateLaws
import Verif.Props.C161_TunstallLaws
import Verif.Props.C162_ShannonLaws
import Verif.Props.C163_WrongCode
import Verif.Props.C164_Renumber
import Verif.Props.C165_RenumberAbsorbing
import Verif.Props.C17_C19_Matrices
import Verif.Props.C20_C25_Lossless
import Verif.Props.C26_C27_Huffman
import Verif.Props.C28_C30_Lossless
import Verif.Props.C31_C34_LempelZiv
import Verif.Props.C35_C36_IntegerCoding
import Verif.Props.C37_C40_Labelings
import Verif.Props.C41_C48_BlockCodes
import Verif.Props.C43_C46_Cyclic
import Verif.Props.C49_SimpleFamilies
import Verif.Props.C50_Hamming
import Verif.Props.C51_Golay
import Verif.Props.C52_C53_ReedMuller
import Verif.Props.C54_Lexicode
import Verif.Props.C55_Polar
import Verif.Props.C56_Wagner
import Verif.Props.C57_BCH
import Verif.Props.C59_Process
import Verif.Props.C60_Convolutional
import Verif.Props.C61_Realisation
import Verif.Props.C62_Terminated
import Verif.Props.C63_Viterbi
import Verif.Props.C65_ForwardBackward
import Verif.Props.C66_FreeDistance
import Verif.Props.C67_LFSR
import Verif.Props.C68_Walsh
import Verif.Props.C69_C70_Autocorrelation
import Verif.Props.C71_Quantizers
import Verif.Props.C72_MarkovChain
import Verif.Props.C74_Resampling
import Verif.Props.C75_Decisions
import Verif.Props.C75_Noiseless
import Verif.Props.C75_PSK
import Verif.Props.C76_CrossQAM
import Verif.Props.C76_Formulas
import Verif.Props.C77_Channels
import Verif.Props.C78_Information
import Verif.Props.C79_Rate
import Verif.Props.C81_LloydMax
import Verif.Props.C82_Absorption
import Verif.Props.C83_Stationary
import Verif.Props.C84_Draws
import Verif.Props.C85_ArimotoBlahut
import Verif.Props.C88_Posteriors
import Verif.Props.C89_Corrects
import Verif.Props.C89_ViterbiDecoder
import Verif.Props.C90_BCJR
import Verif.Props.C91_Boxplus
import Verif.Props.C92_SCDecoder
import Verif.Props.C93_ZadoffChu
import Verif.Props.C94_Marginalize
import Verif.Props.C95_TimePulses
import Verif.Props.C96_RaisedCosine
import Verif.Props.C97_Beaulieu
import Verif.Props.C98_PulseTaps
import Verif.Props.C99_Catastrophic
