import Verif.Model.PyErr
import Verif.Model.PyDict
import Verif.Model.Circuit
import Verif.Spec.Layout
import Verif.Lemmas.Circuit
import Verif.Props.CircuitProps
import Verif.Spec.Space
import Verif.Lemmas.Space
import Verif.Model.Gate
import Verif.Spec.GateSpec
import Verif.Lemmas.Gate
import Verif.Props.GateProps
import Verif.Model.NArr
import Verif.Model.MatrixFactory
import Verif.Spec.Radix
import Verif.Lemmas.Radix
import Verif.Lemmas.Embed
import Verif.Lemmas.ToMatrix
import Verif.Spec.Register
import Verif.Lemmas.Register
import Verif.Lemmas.RegisterEmbed
import Verif.Lemmas.Dirac
import Verif.Props.EmbedProps
import Verif.Model.Angles
import Verif.Lemmas.Angles
import Verif.Model.GateArrays
import Verif.Spec.TwoLevel
import Verif.Lemmas.TwoLevel
import Verif.Lemmas.GateArrays
import Verif.Lemmas.TwoLevelGates
import Verif.Lemmas.TwoLine
import Verif.Props.GateArrayProps
import Verif.Props.GateLawProps
import Verif.Props.TwoLineProps
import Verif.Model.Noise
import Verif.Spec.NoiseSpec
import Verif.Lemmas.Noise
import Verif.Props.NoiseProps
import Verif.Model.Backend
import Verif.Props.BackendProps
import Verif.Model.Lanes
import Verif.Spec.CircuitOp
import Verif.Lemmas.Trace
import Verif.Lemmas.Lanes
import Verif.Lemmas.Resynth
import Verif.Props.LanesProps
import Verif.Props.ResynthProps
import Verif.Model.PhasePasses
import Verif.Spec.PhaseSpec
import Verif.Lemmas.PhasePasses
import Verif.Lemmas.PhaseRemoval
import Verif.Lemmas.Apply
import Verif.Props.PhaseProps
import Verif.Props.PhaseCircuitProps
import Verif.Model.Tnsim
import Verif.Spec.SimSpec
import Verif.Lemmas.Tnsim
import Verif.Props.TnsimProps
import Verif.Model.DD
import Verif.Spec.DDSpec
import Verif.Lemmas.DDBasic
import Verif.Lemmas.DDNode
import Verif.Lemmas.DDOps
import Verif.Lemmas.DDMul
import Verif.Lemmas.DDRead
import Verif.Lemmas.DDGate
import Verif.Lemmas.DDReg
import Verif.Props.DDProps
import Verif.Model.Misim
import Verif.Spec.MisimSpec
import Verif.Lemmas.CppGates
import Verif.Lemmas.Misim
import Verif.Props.MisimProps
import Verif.Props.NoiseContentProps
import Verif.Model.UniqueTable
import Verif.Spec.UniqueSpec
import Verif.Lemmas.UniqueTable
import Verif.Props.TableProps
import Verif.Model.LevelGraph
import Verif.Spec.GraphSpec
import Verif.Lemmas.LevelGraph
import Verif.Props.GraphProps
import Verif.Model.LocalQR
import Verif.Spec.QrSpec
import Verif.Lemmas.QRAlg
import Verif.Lemmas.Routing
import Verif.Lemmas.Device
import Verif.Lemmas.Route
import Verif.Lemmas.Block
import Verif.Lemmas.QrLoop
import Verif.Lemmas.QrExec
import Verif.Lemmas.QrPass
import Verif.Props.QrProps
import Verif.Model.DfsTree
import Verif.Spec.TreeSpec
import Verif.Lemmas.DfsTree
import Verif.Props.TreeProps
import Verif.Model.MicroDD
import Verif.Model.StatePrep
import Verif.Spec.PrepSpec
import Verif.Lemmas.MicroDD
import Verif.Lemmas.PrepSeq
import Verif.Lemmas.PrepTree
import Verif.Lemmas.PrepState
import Verif.Lemmas.PrepMain
import Verif.Lemmas.PrepSem
import Verif.Lemmas.PrepFinal
import Verif.Lemmas.PrepCompile
import Verif.Props.StatePrepProps
import Verif.Props.StatePrepViolations
import Verif.Model.RetrieveState
import Verif.Lemmas.RetrieveState
import Verif.Props.RetrieveProps
import Verif.Model.Approx
import Verif.Spec.ApproxSpec
import Verif.Lemmas.Approx
import Verif.Lemmas.ApproxCut
import Verif.Lemmas.ApproxTree
import Verif.Props.ApproxProps
import Verif.Model.Variational
import Verif.Spec.VariationalSpec
import Verif.Lemmas.VarSplit
import Verif.Lemmas.Sud
import Verif.Lemmas.Expand
import Verif.Lemmas.Ansatz
import Verif.Lemmas.Fidelity
import Verif.Props.VarSearchProps
import Verif.Props.VarAnsatzProps
import Verif.Props.FidelityProps
import Verif.Props.VarCompileProps
import Verif.Model.Visual
import Verif.Spec.VisualSpec
import Verif.Lemmas.PartialTrace
import Verif.Lemmas.Remap
import Verif.Lemmas.Counts
import Verif.Props.VisualProps
import Verif.Model.Regex
import Verif.Model.Qasm
import Verif.Spec.QasmText
import Verif.Lemmas.Regex
import Verif.Lemmas.QasmText
import Verif.Lemmas.QasmGate
import Verif.Lemmas.QasmLines
import Verif.Lemmas.QasmProgram
import Verif.Lemmas.QasmControl
import Verif.Lemmas.QasmRead
import Verif.Lemmas.QasmBuild
import Verif.Lemmas.QasmCircuit
import Verif.Props.QasmProps
import Verif.Model.EntQR
import Verif.Spec.EntSpec
import Verif.Lemmas.PairOps
import Verif.Lemmas.EntGates
import Verif.Lemmas.EntCrot
import Verif.Lemmas.EntPerm
import Verif.Lemmas.EntPswap
import Verif.Lemmas.EntLoop
import Verif.Lemmas.EntPhases
import Verif.Lemmas.EntSingle
import Verif.Lemmas.EntPass
import Verif.Props.EntProps
import Verif.Model.Adaptive
import Verif.Spec.AdaSpec
import Verif.Lemmas.AdaSearch
import Verif.Lemmas.AdaRoute
import Verif.Lemmas.AdaChain
import Verif.Lemmas.AdaPhy
import Verif.Lemmas.AdaFinal
import Verif.Lemmas.AdaMain
import Verif.Lemmas.AdaLeads
import Verif.Lemmas.AdaPass
import Verif.Lemmas.AdaGate
import Verif.Lemmas.AdaOut
import Verif.Props.AdaProps
import Verif.Props.AdaViolations
import Verif.Spec.UnitaryArr
import Verif.Model.Compiler
import Verif.Spec.CompilerSpec
import Verif.Lemmas.AdaFuel
import Verif.Lemmas.SameGraph
import Verif.Lemmas.QrLine
import Verif.Lemmas.OpNorm
import Verif.Lemmas.NextLocal
import Verif.Lemmas.CompilerGates
import Verif.Lemmas.CompilerRun
import Verif.Props.CompilerProps
import Verif.Props.CompilerViolations
import Verif.Lemmas.Below
import Verif.Lemmas.SmallLine
import Verif.Model.Devices
import Verif.Props.DeviceProps
import Verif.Props.SmallDevices
import Verif.Props.SmallLineProps
import Verif.Spec.SmallSpec
import Verif.Props.RoomyProps
import Verif.Model.RunCompiled
import Verif.Spec.RunSpec
import Verif.Lemmas.RunCompiled
import Verif.Props.EndToEnd
import Verif.Model.ComplexTable
import Verif.Spec.ComplexSpec
import Verif.Lemmas.ComplexTable
import Verif.Lemmas.ComplexSweep
import Verif.Props.ComplexTableProps
import Verif.Model.ComplexNumbers
import Verif.Spec.ComplexNumSpec
import Verif.Props.ComplexNumProps
import Verif.Spec.PassSpec
import Verif.Props.PassProps
import Verif.Model.Verifier
import Verif.Spec.VerifierSpec
import Verif.Lemmas.Verifier
import Verif.Props.VerifierProps
import Verif.Props.ApproxViolations
import Verif.Props.AdaPhaseViolation
import Verif.Model.MisimNoise
import Verif.Spec.MisimNoiseSpec
import Verif.Lemmas.MisimNoise
import Verif.Props.MisimNoiseProps
import Verif.Model.NumberText
import Verif.Spec.NumberTextSpec
import Verif.Lemmas.NumberText
import Verif.Props.NumberTextProps
import Verif.Model.CustomGates
import Verif.Spec.CustomSpec
import Verif.Lemmas.CustomGates
import Verif.Props.CustomProps
import Verif.Model.Shots
import Verif.Spec.ShotsSpec
import Verif.Lemmas.Shots
import Verif.Lemmas.NoisyTn
import Verif.Lemmas.ShotsNorm
import Verif.Lemmas.ShotsMisim
import Verif.Props.ShotsProps
import Verif.Model.Spread
import Verif.Spec.SpreadSpec
import Verif.Lemmas.Spread
import Verif.Props.SpreadProps
import Verif.Model.FakeBackends
import Verif.Spec.FakeSpec
import Verif.Props.FakeProps
import Verif.Model.NoisyDraws
import Verif.Lemmas.NoisyDraws
import Verif.Spec.LawSpec
import Verif.Lemmas.LawMean
import Verif.Lemmas.LawChannels
import Verif.Lemmas.Law
import Verif.Props.LawProps
import Verif.Lemmas.EmbedErr
import Verif.Spec.MisimLawSpec
import Verif.Lemmas.MisimLaw
import Verif.Props.MisimLawProps
import Verif.Model.InitialState
import Verif.Spec.InitialStateSpec
import Verif.Spec.SharedSpec
import Verif.Lemmas.InitialState
import Verif.Lemmas.SharedNodes
import Verif.Props.InitialStateProps
import Verif.Props.InitialStateShared
import Verif.Props.InitialStateViolations
import Verif.Props.PhaseRunProps
import Verif.Model.QasmFile
import Verif.Spec.QasmFile
import Verif.Lemmas.QasmPath
import Verif.Lemmas.QasmFileRead
import Verif.Lemmas.QasmFileWrite
import Verif.Props.QasmFileProps
import Verif.Model.Registers
import Verif.Spec.Bits
import Verif.Lemmas.Bits
import Verif.Props.RegisterProps
import Verif.Model.DensityFidelity
import Verif.Props.DensityFidelityProps
import Verif.Model.CompileByName
import Verif.Spec.TrapSpec
import Verif.Props.CompileByName
import Verif.Model.LocalApprox
import Verif.Lemmas.LocalApprox
import Verif.Props.LocalApproxProps
import Verif.Spec.PreparedSpec
import Verif.Lemmas.PrepExact
import Verif.Props.PrepExactProps
import Verif.Props.InitialStateExact
import Verif.Spec.MeasureSpec
import Verif.Lemmas.GraphMeasures
import Verif.Props.GraphMeasureProps
import Verif.Spec.PhaseRunSpec
import Verif.Props.PhaseRunsProps
import Verif.Model.DDReadAll
import Verif.Spec.DDReadSpec
import Verif.Lemmas.DDReadAll
import Verif.Lemmas.DDNodeBound
import Verif.Props.DDReadProps
import Verif.Model.LaneReplace
import Verif.Lemmas.LaneReplace
import Verif.Props.LaneReplaceProps
import Verif.Model.DDKron
import Verif.Spec.KronSpec
import Verif.Lemmas.DDKron
import Verif.Props.DDKronProps
import Verif.Model.PassTranspile
import Verif.Props.PassTranspileProps
import Verif.Model.Drawing
import Verif.Spec.DrawSpec
import Verif.Props.DrawProps
import Verif.Model.DDPrint
import Verif.Spec.PrintSpec
import Verif.Props.DDPrintProps
import Verif.Model.GateLib
import Verif.Spec.GateLibSpec
import Verif.Props.GateLibProps
import Verif.Model.VarTimer
import Verif.Spec.VarTimerSpec
import Verif.Props.VarTimerProps
import Verif.Props.RotCostProps
import Verif.Spec.PriceSpec
import Verif.Lemmas.RoutePrice
import Verif.Props.PriceProps
import Verif.Spec.BillSpec
import Verif.Lemmas.QrBill
import Verif.Props.BillProps
import Verif.Lemmas.AdaBill
import Verif.Props.AdaBillProps
import Verif.Model.JobText
import Verif.Spec.JobSpec
import Verif.Props.JobTextProps
import Verif.Model.UniqueWeights
import Verif.Spec.WeightSpec
import Verif.Props.WeightProps
import Verif.Model.TargetLines
import Verif.Spec.LineSpec
import Verif.Props.LineProps
import Verif.Model.NodeOrder
import Verif.Props.NodeOrderProps
