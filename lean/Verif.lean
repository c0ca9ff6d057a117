import Verif.Props.C01_FreshReads
import Verif.Props.C02_RealTables
import Verif.Props.C03_Synchronised
import Verif.Props.C04_Lazy
import Verif.Props.C05_RejectedWrite
import Verif.Props.C51_Views
import Verif.Props.C06_Framing
import Verif.Props.C07_Sound
import Verif.Props.C07_ForceReply
import Verif.Props.C08_Extras
import Verif.Props.C52_InitString
import Verif.Props.C53_Headers
import Verif.Props.C09_NoLoss
import Verif.Props.C10_ThreadedTimeout
import Verif.Props.C11_OneJob
import Verif.Props.C12_Matching
import Verif.Props.C54_MalformedReply
import Verif.Props.C55_StallingClient
import Verif.Props.C13_DriverStates
import Verif.Props.C14_MpiPacking
import Verif.Props.C15_MpiAssign
import Verif.Props.C16_MpiPool
import Verif.Props.C17_ActiveAtoms
import Verif.Props.C56_BatchAnnounce
import Verif.Props.C57_DriverEnds
import Verif.Props.C18_Offset
import Verif.Props.C19_DirectBatch
import Verif.Props.C20_Requests
import Verif.Props.C21_Committee
import Verif.Props.C22_Softexit
import Verif.Props.C58_Rotations
import Verif.Props.C59_CommitteeWeights
import Verif.Props.C61_RotationAverage
import Verif.Props.C23_KillRestart
import Verif.Props.C24_OutputRows
import Verif.Props.C25_Backup
import Verif.Props.C48_ExitCheckpoint
import Verif.Props.C26_Values
import Verif.Props.C26_Floats
import Verif.Props.C27_Xml
import Verif.Props.C28_Defaults
import Verif.Props.C29_Json
import Verif.Props.C49_Extras
import Verif.Props.C50_Keys
import Verif.Props.C30_Units
import Verif.Props.C31_Xyz
import Verif.Props.C32_Pdb
import Verif.Props.C63_TrajUnits
import Verif.Props.C64_Binary
import Verif.Props.C33_Prng
import Verif.Props.C34_MtsForces
import Verif.Props.C36_Fft
import Verif.Props.C35_Contract
import Verif.Props.C37_Exchange
import Verif.Props.C38_ExchangeForces
import Verif.Props.C65_ExchangeEstimators
import Verif.Props.C39_Mts
import Verif.Props.C66_Ensembles
import Verif.Phys.Propagator
import Verif.Props.C42_Propagator
import Verif.Props.C67_RingEnergy
import Verif.Depend.Frozen
import Verif.Phys.Hweights
import Verif.Props.C41_Hweights
import Verif.Phys.Remd
import Verif.Props.C40_Remd
import Verif.Phys.Constraints
import Verif.Props.C43_Constraints
import Verif.Phys.Cell
import Verif.Props.C44_Cell
import Verif.FF.Extras
import Verif.Props.C45_Extras
import Verif.FF.Bead
import Verif.Props.C46_QueuedMoved
import Verif.Phys.Thermostat
import Verif.Props.C47_Heat
import Verif.Phys.Gauss
import Verif.Props.C47_Canonical
import Verif.Props.C47_Rescaling
import Verif.Props.C47_FastForward
import Verif.Props.C71_WrongDof
import Verif.Phys.ThermoDof
import Verif.Props.C71_Dof
import Verif.Phys.RootHerm
import Verif.Props.C47_Gle
import Verif.Props.C47_Gamma
import Verif.Phys.Baro
import Verif.Props.C72_IsoBarostat
import Verif.Props.C72_IsoMeasure
import Verif.Props.C73_IsoEnergy
import Verif.Props.C74_AniBarostat
import Verif.Props.C75_AniEnergy
import Verif.Props.C76_FixedCell
import Verif.Phys.Swap
import Verif.Props.C77_Exchanges
import Verif.Phys.Ramp
import Verif.Props.C79_Ramp
import Verif.Run.Replay
import Verif.Props.C80_Replay
import Verif.Phys.Metad
import Verif.Props.C81_Metad
import Verif.Io.Options
import Verif.Props.C82_Options
import Verif.Phys.Pes
import Verif.Props.C84_Pes
import Verif.Phys.LineMin
import Verif.Phys.QuasiNewton
import Verif.Phys.Phonons
import Verif.Props.C85_LineMin
import Verif.Props.C86_Bfgs
import Verif.Props.C87_Lbfgs
import Verif.Props.C88_Trust
import Verif.Props.C89_Saddle
import Verif.Props.C90_GeopEnd
import Verif.Props.C91_Phonons
import Verif.Props.C92_SumRules
import Verif.Props.C93_CleanHessian
import Verif.Props.C94_HessianRestart
import Verif.Io.MotionInput
import Verif.Props.C98_Motions
import Verif.Phys.Estim
import Verif.Props.C99_Temperature
import Verif.Props.C100_CentroidVirial
import Verif.Props.C101_Isotopes
import Verif.Props.C101_Fourth
import Verif.Props.C102_Displaced
import Verif.Props.C103_Param
import Verif.Props.C103_Smooth
import Verif.Props.C103_Heat
import Verif.Phys.SuzukiChin
import Verif.Props.C104_SuzukiChin
import Verif.Props.C105_ScContraction
import Verif.Phys.EstimSC
import Verif.Props.C106_Derivatives
import Verif.Props.C106_SuzukiChin
import Verif.Props.C107_ScScaled
import Verif.Phys.PropState
import Verif.Props.C108_PropState
import Verif.Run.Init
import Verif.Props.C109_InitPath
import Verif.Props.C110_InitQueue
import Verif.Props.C111_InitTags
import Verif.Props.C112_InitThermal
import Verif.Run.Readback
import Verif.Props.C113_Readback
import Verif.Phys.CellAngles
import Verif.Props.C114_CellAngles
import Verif.Phys.GleInit
import Verif.Props.C115_GleInit
import Verif.Phys.MatrixExp
import Verif.Props.C116_MatrixExp
import Verif.Phys.Driven
import Verif.Props.C117_Driven
import Verif.Props.C118_DrivenPrint
import Verif.Phys.Stress
import Verif.Props.C119_Stress
import Verif.Phys.NmMass
import Verif.Props.C120_NmMass
import Verif.Tools.Remdsort
import Verif.Props.C121_Remdsort
import Verif.Tools.Trimsim
import Verif.Props.C122_Trimsim
import Verif.Tools.Acf
import Verif.Props.C123_Acf
import Verif.Tools.GleAcf
import Verif.Props.C124_GleAcf
import Verif.Wire.Shm
import Verif.Props.C125_Shm
import Verif.Phys.Neb
import Verif.Props.C126_Neb
import Verif.Run.Interactive
import Verif.Props.C127_Interactive
import Verif.Run.Structures
import Verif.Props.C128_Structures
import Verif.Io.Scripting
import Verif.Props.C129_Scripting
import Verif.Phys.Rattle
import Verif.Props.C130_Rattle
import Verif.Io.Template
import Verif.Props.C131_Template
import Verif.Phys.Instanton
import Verif.Props.C132_Instanton
import Verif.Phys.InstFix
import Verif.Props.C133_InstFix
import Verif.Phys.StringMep
import Verif.Props.C134_StringMep
import Verif.Io.Sparse
import Verif.Props.C135_Sparse
import Verif.Phys.Planetary
import Verif.Props.C136_Planetary
import Verif.Run.Dmd
import Verif.Props.C137_Dmd
import Verif.Run.Multi
import Verif.Props.C138_Multi
import Verif.Phys.Rotations
import Verif.Props.C139_Rotations
import Verif.Depend.Transfer
import Verif.Props.C140_Transfer
import Verif.Run.Kmc
import Verif.Props.C141_Kmc
import Verif.Run.KmcCache
import Verif.Props.C142_KmcCache
import Verif.Phys.ScBaro
import Verif.Props.C143_ScBarostat
import Verif.Props.C144_ScEnergy
import Verif.Phys.ScPhonons
import Verif.Props.C145_ScpSamples
import Verif.Props.C146_ScpAverages
import Verif.Props.C147_ScpMoves
import Verif.Props.C148_ScpRestart
import Verif.Phys.Vscf
import Verif.Props.C149_ImfTable
import Verif.Props.C150_ImfEnergy
import Verif.Props.C151_VscfMaps
import Verif.Props.C152_VscfScf
import Verif.Tools.Reweight
import Verif.Props.C153_CommitteeReweight
import Verif.Tools.Beads
import Verif.Props.C154_MuxBeads
import Verif.Props.C155_KineticTools
import Verif.Phys.InstSteps
import Verif.Props.C156_InstSteps
import Verif.Phys.InstPost
import Verif.Props.C157_InstRate
import Verif.Props.C158_InstSplitting
import Verif.Phys.InstInterp
import Verif.Props.C159_InstInterp
import Verif.Phys.EstimMore
import Verif.Props.C160_MoreEstimators
import Verif.Tools.Ppi
import Verif.Props.C161_PpiEnergies
import Verif.Props.C162_PpiHeader
import Verif.Tools.Getproperty
import Verif.Props.C163_Getproperty
import Verif.Tools.ContractTraj
import Verif.Props.C164_ContractTraj
import Verif.FF.CavPh
import Verif.Props.C165_CavPh
import Verif.Tools.A2b
import Verif.Props.C166_A2b
import Verif.Phys.Bosons
import Verif.Props.C167_Bosons
import Verif.Props.C168_Bab
import Verif.FF.BatchRes
import Verif.Props.C169_BatchRes
import Verif.Phys.Components
import Verif.Props.C170_Components
import Verif.Io.DriverOpts
import Verif.Props.C171_DriverOpts
import Verif.Io.XmlEdit
import Verif.Props.C172_XmlEdit
import Verif.FF.Ase
import Verif.Props.C173_Ase
import Verif.Tools.EffTemp
import Verif.Props.C174_EffTemp
import Verif.FF.Fortran
import Verif.Props.C175_FortranLists
import Verif.Props.C176_FortranForces
import Verif.Props.C178_FortranPes
import Verif.Props.C179_FortranPolymer
import Verif.Props.C180_FortranCommittee
import Verif.Props.C181_FortranOpts
import Verif.FF.PesRegistry
import Verif.Props.C182_PesRegistry
import Verif.FF.DriverDipole
import Verif.Props.C183_DriverDipole
import Verif.Tools.PpiFortran
import Verif.Props.C184_PpiFortran
import Verif.Tools.RdfPpi
import Verif.Props.C185_RdfPpi
import Verif.Run.Verbosity
import Verif.Props.C186_Verbosity
import Verif.FF.BathDrivers
import Verif.Props.C187_BathDrivers
import Verif.FF.GasDriver
import Verif.Props.C188_GasDriver
