import Verif.Lemmas.Coordinates
import Verif.Lemmas.FDCoeff
import Verif.Lemmas.FDCoeffNumpy
import Verif.Lemmas.FDMatrices
import Verif.Lemmas.Grid
import Verif.Lemmas.GroundState
import Verif.Lemmas.Hartree
import Verif.Lemmas.Inverter
import Verif.Lemmas.KohnSham
import Verif.Lemmas.KsEnergy
import Verif.Lemmas.KsScf
import Verif.Lemmas.KsScfOk
import Verif.Lemmas.KyFan
import Verif.Lemmas.Legendre
import Verif.Lemmas.Lstsq
import Verif.Lemmas.LstsqCut
import Verif.Lemmas.Mirror
import Verif.Lemmas.NCComposite
import Verif.Lemmas.NCExact
import Verif.Lemmas.NCSign
import Verif.Lemmas.Operators
import Verif.Lemmas.Options
import Verif.Lemmas.Partition
import Verif.Lemmas.PartitionDerivative
import Verif.Lemmas.PartitionEnergy
import Verif.Lemmas.PartitionPotential
import Verif.Lemmas.PartitionScf
import Verif.Lemmas.PartitionScfSample
import Verif.Lemmas.Parts
import Verif.Lemmas.PyRel
import Verif.Lemmas.Quadrature
import Verif.Lemmas.QuadratureError
import Verif.Lemmas.Rounded
import Verif.Lemmas.RoundedDensity
import Verif.Lemmas.RoundedExact
import Verif.Lemmas.SampleReal
import Verif.Lemmas.Sharing
import Verif.Lemmas.Solver
import Verif.Lemmas.Spheroid
import Verif.Lemmas.ThreeCycle
import Verif.Lemmas.ThreePoint
import Verif.Lemmas.Variational
import Verif.Lemmas.Weights
import Verif.Model.Construct
import Verif.Model.Coordinates
import Verif.Model.EigenStart
import Verif.Model.EnergyDensity
import Verif.Model.Enhance
import Verif.Model.Examples
import Verif.Model.FDCoeff
import Verif.Model.FDCoeffNumpy
import Verif.Model.FDMatrices
import Verif.Model.Grid
import Verif.Model.GridLife
import Verif.Model.Hartree
import Verif.Model.InitialGuess
import Verif.Model.Install
import Verif.Model.InvertMolecule
import Verif.Model.Inverter
import Verif.Model.InverterApi
import Verif.Model.KohnSham
import Verif.Model.KsScf
import Verif.Model.Libxc
import Verif.Model.Lstsq
import Verif.Model.Mirror
import Verif.Model.NC
import Verif.Model.NDArray
import Verif.Model.Operators
import Verif.Model.Options
import Verif.Model.Orbitals
import Verif.Model.Partition
import Verif.Model.PartitionScf
import Verif.Model.Plot
import Verif.Model.Rounded
import Verif.Model.RoundedKs
import Verif.Model.RoundedPartition
import Verif.Model.Sharing
import Verif.Model.SharingCode
import Verif.Model.Simple
import Verif.Model.Solver
import Verif.Model.Surprise
import Verif.Model.TwoOrbital
import Verif.Model.Version
import Verif.Model.Weights
import Verif.Props.C01_C02
import Verif.Props.C03_C05
import Verif.Props.C06_C07
import Verif.Props.C08_C09
import Verif.Props.C10
import Verif.Props.C100
import Verif.Props.C101
import Verif.Props.C102
import Verif.Props.C103
import Verif.Props.C103Wide
import Verif.Props.C104
import Verif.Props.C105
import Verif.Props.C106
import Verif.Props.C107
import Verif.Props.C108
import Verif.Props.C109
import Verif.Props.C110
import Verif.Props.C110Two
import Verif.Props.C111
import Verif.Props.C112
import Verif.Props.C113
import Verif.Props.C114
import Verif.Props.C115
import Verif.Props.C116
import Verif.Props.C117
import Verif.Props.C118
import Verif.Props.C119
import Verif.Props.C11_C13
import Verif.Props.C120
import Verif.Props.C121
import Verif.Props.C122
import Verif.Props.C123
import Verif.Props.C124
import Verif.Props.C125
import Verif.Props.C126
import Verif.Props.C127
import Verif.Props.C128
import Verif.Props.C129
import Verif.Props.C130
import Verif.Props.C131
import Verif.Props.C132
import Verif.Props.C133
import Verif.Props.C134
import Verif.Props.C135
import Verif.Props.C14
import Verif.Props.C15
import Verif.Props.C16_C17
import Verif.Props.C18_C22
import Verif.Props.C23_C24
import Verif.Props.C25_C27
import Verif.Props.C28_C30
import Verif.Props.C31
import Verif.Props.C32_C33
import Verif.Props.C34_C36
import Verif.Props.C37_C39
import Verif.Props.C40
import Verif.Props.C41_C42
import Verif.Props.C43
import Verif.Props.C44
import Verif.Props.C45
import Verif.Props.C46
import Verif.Props.C47
import Verif.Props.C48
import Verif.Props.C49_C50
import Verif.Props.C51
import Verif.Props.C52
import Verif.Props.C53_C54
import Verif.Props.C55
import Verif.Props.C56_C57
import Verif.Props.C58
import Verif.Props.C59_C61
import Verif.Props.C60_C61
import Verif.Props.C62
import Verif.Props.C63_C64
import Verif.Props.C67
import Verif.Props.C69
import Verif.Props.C71
import Verif.Props.C72_C73
import Verif.Props.C74
import Verif.Props.C75
import Verif.Props.C76
import Verif.Props.C77
import Verif.Props.C78
import Verif.Props.C79
import Verif.Props.C80_C81
import Verif.Props.C82
import Verif.Props.C83
import Verif.Props.C84
import Verif.Props.C85
import Verif.Props.C86
import Verif.Props.C87
import Verif.Props.C88
import Verif.Props.C89
import Verif.Props.C90
import Verif.Props.C91
import Verif.Props.C92
import Verif.Props.C93
import Verif.Props.C94
import Verif.Props.C95
import Verif.Props.C96
import Verif.Props.C97
import Verif.Props.C98
import Verif.Props.C99
import Verif.Py.Basic
import Verif.Py.Fl
import Verif.Spec.Geometry
import Verif.Spec.Grid
import Verif.Spec.Occupation
import Verif.Spec.Quadrature
import Verif.Spec.Stencil
