import Verif.Model.History
import Verif.Props.History
import Verif.Props.HistoryHeap
import Verif.Props.HistoryMore
import Verif.Props.HistoryDeriv
import Verif.Model.Poly
import Verif.Model.Interpolate
import Verif.Props.Poly
import Verif.Props.InterpTable
import Verif.Props.Interpolate
import Verif.Props.InterpDeriv
import Verif.Model.Newton
import Verif.Props.Newton
import Verif.Model.Substep
import Verif.Props.Substep
import Verif.Model.SmallStrain
import Verif.Props.SmallStrain
import Verif.Props.SmallStrainTangent
import Verif.Props.SubstepTangent
import Verif.Model.Mandel
import Verif.Props.Mandel
import Verif.Model.LargeDef
import Verif.Props.LargeDef
import Verif.Props.LargeDefTangent
import Verif.Props.CreepPlastic
import Verif.Model.Layout
import Verif.Props.Layout
import Verif.Model.Block
import Verif.Props.Block
import Verif.Model.Damage
import Verif.Props.Damage
import Verif.Props.DamageTangent
import Verif.Props.DamageDeriv
import Verif.Model.Elastic
import Verif.Props.Elastic
import Verif.Model.Surface
import Verif.Model.FlowRule
import Verif.Model.Hardening
import Verif.Props.Diff
import Verif.Props.Surface
import Verif.Props.FlowRule
import Verif.Props.Hardening
import Verif.Model.Creep
import Verif.Props.Creep
import Verif.Props.Isotropy
import Verif.Model.Objects
import Verif.Props.Objects
import Verif.Model.Text
import Verif.Props.Text
import Verif.Model.Xml
import Verif.Props.Xml
import Verif.Model.Rotation
import Verif.Props.Rotation
import Verif.Props.RotationAngles
import Verif.Props.RotationSpin
import Verif.Model.Crystal
import Verif.Props.Crystal
import Verif.Props.CrystalSteps
import Verif.Model.Symmetry
import Verif.Props.Symmetry
import Verif.Props.Misorientation
import Verif.Model.Lattice
import Verif.Props.Lattice
import Verif.Props.LatticeSystems
import Verif.Props.LatticeExact
import Verif.Props.LatticeCache
import Verif.Model.Slip
import Verif.Props.Slip
import Verif.Props.SlipDeriv
import Verif.Props.SlipTangent
import Verif.Props.SlipRates
import Verif.Model.Kinematics
import Verif.Props.Kinematics
import Verif.Props.KinematicsInel
import Verif.Props.KinematicsWork
import Verif.Props.KinematicsFrame
import Verif.Model.Polycrystal
import Verif.Props.Polycrystal
import Verif.Props.Batch
import Verif.Props.Twin
import Verif.Model.CrystalDamage
import Verif.Props.CrystalDamage
import Verif.Props.CrystalDamageMap
import Verif.Props.CrystalDamageOrder
import Verif.Props.CrystalDamageTangent
import Verif.Props.CrystalDamageJacobian
import Verif.Props.CrystalDamageFrame
import Verif.Model.PySolve
import Verif.Model.Uniaxial
import Verif.Model.Driver
import Verif.Model.BarNetwork
import Verif.Model.Walker
import Verif.Props.PySolve
import Verif.Props.Uniaxial
import Verif.Props.Driver
import Verif.Props.DriverJacobian
import Verif.Props.DriverHold
import Verif.Props.BarNetwork
import Verif.Props.BarNetworkStep
import Verif.Props.BarNetworkLaws
import Verif.Props.DiffComp
import Verif.Props.WalkerSwitch
import Verif.Props.WalkerSoft
import Verif.Props.WalkerVars
import Verif.Props.WalkerFlow
import Verif.Props.WalkerBounds
import Verif.Model.DriverTests
import Verif.Props.DriverElastic
import Verif.Props.DriverTests
import Verif.Props.TensionTest
import Verif.Props.StressTests
import Verif.Props.CreepTest
import Verif.Props.Isochronous
import Verif.Props.Relaxation
import Verif.Model.LargeDriver
import Verif.Props.ThermoTest
import Verif.Props.RateJump
import Verif.Props.Classify
import Verif.Props.LargeDriver
import Verif.Model.Vessel
import Verif.Model.Bree
import Verif.Props.VesselCycle
import Verif.Props.VesselTimes
import Verif.Props.VesselLayers
import Verif.Props.VesselMesh
import Verif.Props.Bree
import Verif.Model.Axisym
import Verif.Props.AxisymResidual
import Verif.Props.AxisymSolve
import Verif.Props.AxisymStep
import Verif.Props.AxisymElastic
import Verif.Model.Yaguchi
import Verif.Props.YaguchiFlow
import Verif.Props.YaguchiPar
import Verif.Props.YaguchiHist
import Verif.Model.HuCocks
import Verif.Props.HuCocksChem
import Verif.Props.HuCocksDeriv
import Verif.Props.HuCocksSlip
import Verif.Props.HuCocksHard
import Verif.Model.GenHuCocks
import Verif.Props.GenHuCocksChem
import Verif.Props.GenHuCocksDeriv
import Verif.Props.GenHuCocksHard
import Verif.Props.PoleProjections
import Verif.Props.PoleFigures
import Verif.Props.InversePole
import Verif.Props.Interface
import Verif.Props.LatticeScale
import Verif.Props.SquareMatrix
import Verif.Props.YieldStress
import Verif.Props.FollowUp
import Verif.Props.Extrapolated
import Verif.Props.Tensors
import Verif.Props.TensorParts
import Verif.Props.TensorStore
import Verif.Props.TensorValues
import Verif.Props.Blas
import Verif.Props.PyCreate
import Verif.Props.MaxPrincipal
import Verif.Model.Names
import Verif.Props.Names
import Verif.Model.NumJac
import Verif.Props.NumJac
import Verif.Model.Wrapped
import Verif.Props.Wrapped
import Verif.Model.ShearModulus
import Verif.Props.ShearModulus
import Verif.Model.CombinedInel
import Verif.Props.CombinedInel
import Verif.Model.ElasticSwitch
import Verif.Props.ElasticSwitch
import Verif.Model.CreepTime
import Verif.Props.CreepTime
import Verif.Model.PyArrays
import Verif.Props.PyArrays
import Verif.Model.SolveStep
import Verif.Props.RadialReturn
import Verif.Props.PlasticWork
import Verif.Props.LinearReturn
import Verif.Props.BarNetworkStart
import Verif.Props.AxisymGuess
import Verif.Props.YaguchiJumps
import Verif.Props.NewtonChain
import Verif.Props.IsoReturn
import Verif.Props.ConcaveReturn
import Verif.Props.ViscoReturn
import Verif.Props.ViscoUnique
import Verif.Props.ViscoConverge
import Verif.Props.Contract
import Verif.Props.KinContract
import Verif.Props.XmlFile
import Verif.Props.NortonBailey
import Verif.Model.CreepSeries
import Verif.Props.CreepRelax
import Verif.Model.DamageStep
import Verif.Props.DamageHold
import Verif.Props.IterLimit
import Verif.Props.ChabocheBound
import Verif.Props.SlowLimit
import Verif.Props.NetworkContract
import Verif.Props.NetworkWork
import Verif.Props.Shakedown
import Verif.Props.Proportional
import Verif.Props.NetworkSolution
import Verif.Props.BreeDiagram
import Verif.Props.FrontEnds
import Verif.Props.Settle
import Verif.Props.SettleVisco
import Verif.Props.StepRefinement
import Verif.Props.StepRefinementVisco
import Verif.Model.ReportedStrains
import Verif.Props.ReportedStrains
import Verif.Model.Trajectory
import Verif.Props.Trajectory
import Verif.Model.SmallFace
import Verif.Props.SmallFace
