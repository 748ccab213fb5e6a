import Verif.Common
import Verif.Lemmas.BBCheck108
import Verif.Lemmas.BBCheck144
import Verif.Lemmas.BBCheck288
import Verif.Lemmas.BBCheck72
import Verif.Lemmas.BBCheck90
import Verif.Lemmas.BBCodes
import Verif.Lemmas.BBTables
import Verif.Lemmas.BruteLeader
import Verif.Lemmas.CSS
import Verif.Lemmas.CodeFiles
import Verif.Lemmas.ColorLattice
import Verif.Lemmas.Contraction
import Verif.Lemmas.EccBlock
import Verif.Lemmas.EccClassical
import Verif.Lemmas.EccCodes
import Verif.Lemmas.EccExample
import Verif.Lemmas.EccFrame
import Verif.Lemmas.EccLogical
import Verif.Lemmas.EccLogical2
import Verif.Lemmas.EccMachine
import Verif.Lemmas.EccPass
import Verif.Lemmas.EccPauli
import Verif.Lemmas.EccRename
import Verif.Lemmas.EccResults
import Verif.Lemmas.EccResults2
import Verif.Lemmas.EccResults3
import Verif.Lemmas.EccResults4
import Verif.Lemmas.EccTableau
import Verif.Lemmas.EccTrack
import Verif.Lemmas.Encoding
import Verif.Lemmas.FaceWeight
import Verif.Lemmas.GadgetFaults
import Verif.Lemmas.GadgetGood
import Verif.Lemmas.GadgetList
import Verif.Lemmas.GadgetSeq
import Verif.Lemmas.Gadgets
import Verif.Lemmas.Gauss
import Verif.Lemmas.Heuristic
import Verif.Lemmas.HexDistance
import Verif.Lemmas.Kunneth
import Verif.Lemmas.ManyFaults
import Verif.Lemmas.ManyFaults2
import Verif.Lemmas.MaskCodes
import Verif.Lemmas.NamedCerts
import Verif.Lemmas.NamedChecks
import Verif.Lemmas.PauliFrame
import Verif.Lemmas.Plots
import Verif.Lemmas.Plots2
import Verif.Lemmas.Plu
import Verif.Lemmas.Prep
import Verif.Lemmas.PrepFaults
import Verif.Lemmas.PrepFull
import Verif.Lemmas.PrepFull2
import Verif.Lemmas.PrepFull3
import Verif.Lemmas.PrepFull4
import Verif.Lemmas.PrepFull5
import Verif.Lemmas.PrepFull6
import Verif.Lemmas.PrepFull7
import Verif.Lemmas.PrepState
import Verif.Lemmas.PrepVerified
import Verif.Lemmas.ProductDistance
import Verif.Lemmas.ProductRank
import Verif.Lemmas.ProductSys
import Verif.Lemmas.Qss
import Verif.Lemmas.Rref
import Verif.Lemmas.SODistance
import Verif.Lemmas.SingleShotObjects
import Verif.Lemmas.SparseDistance
import Verif.Lemmas.SparseSearch
import Verif.Lemmas.Stabilizer
import Verif.Lemmas.Symbolic
import Verif.Lemmas.VerifFaults
import Verif.Linalg
import Verif.LinalgLemmas
import Verif.Model.Alist
import Verif.Model.Analog
import Verif.Model.AnalogTanner
import Verif.Model.BB
import Verif.Model.CSS
import Verif.Model.CcFiles
import Verif.Model.CodeFiles
import Verif.Model.CodeObjects
import Verif.Model.ColorEq
import Verif.Model.ColorLattice
import Verif.Model.DataUtils
import Verif.Model.DecSim
import Verif.Model.Ecc
import Verif.Model.EvalScript
import Verif.Model.Faults
import Verif.Model.Gadgets
import Verif.Model.Gf2
import Verif.Model.LiftedProduct
import Verif.Model.LightsOut
import Verif.Model.LightsOutSim
import Verif.Model.LoadData
import Verif.Model.Lut
import Verif.Model.MergeFiles
import Verif.Model.NamedCodes
import Verif.Model.Names
import Verif.Model.NumPlots
import Verif.Model.Plots
import Verif.Model.PlotsComp
import Verif.Model.Product
import Verif.Model.QssObjects
import Verif.Model.Results
import Verif.Model.Scripts
import Verif.Model.Search
import Verif.Model.Seeds
import Verif.Model.SingleShot
import Verif.Model.SingleShotObjects
import Verif.Model.Stabilizer
import Verif.Model.StimSim
import Verif.Model.Symbolic
import Verif.Model.Synthesis
import Verif.Model.UFDecoder
import Verif.Model.UFHeuristic
import Verif.Model.UnionFind
import Verif.Model.VerifCircuit
import Verif.Model.VerifPipeline
import Verif.Model.Verification
import Verif.Model.VerifiedPrep
import Verif.Model.Wrapper
import Verif.Props.Alist
import Verif.Props.Analog
import Verif.Props.Analog2
import Verif.Props.Analog3
import Verif.Props.AnalogTanner
import Verif.Props.BB
import Verif.Props.BB2
import Verif.Props.CSS
import Verif.Props.CSS2
import Verif.Props.CcFiles
import Verif.Props.CodeFiles
import Verif.Props.CodeObjects
import Verif.Props.ColorDecoder
import Verif.Props.ColorDistance
import Verif.Props.ColorDistance2
import Verif.Props.ColorEq
import Verif.Props.ColorLattice
import Verif.Props.ColorLattice2
import Verif.Props.Corrected
import Verif.Props.Corrected2
import Verif.Props.Corrected3
import Verif.Props.DataFiles
import Verif.Props.DataMerge
import Verif.Props.DataRates
import Verif.Props.DecSim
import Verif.Props.DecodeHalf
import Verif.Props.EccCorrect
import Verif.Props.EccLaflamme
import Verif.Props.EccLogical
import Verif.Props.EccLogical2
import Verif.Props.EccLogical3
import Verif.Props.EccLogical4
import Verif.Props.EccLogical5
import Verif.Props.EccMeasure
import Verif.Props.EccRange
import Verif.Props.EccResults
import Verif.Props.EccShor3
import Verif.Props.EccShor9
import Verif.Props.EccSizes
import Verif.Props.EccSteane
import Verif.Props.EccSurface18
import Verif.Props.EccToffoli
import Verif.Props.EvalScript
import Verif.Props.Faults
import Verif.Props.Faults2
import Verif.Props.Faults3
import Verif.Props.Faults4
import Verif.Props.FewErrors
import Verif.Props.GadgetFaults
import Verif.Props.Gadgets
import Verif.Props.Gf2
import Verif.Props.LiftedProduct
import Verif.Props.LightsOut
import Verif.Props.LoadData
import Verif.Props.Lut
import Verif.Props.ManyFaults
import Verif.Props.ManyFaults2
import Verif.Props.MergeFiles
import Verif.Props.MetaRepair
import Verif.Props.NamedCodes
import Verif.Props.Names
import Verif.Props.NumPlots
import Verif.Props.Plots
import Verif.Props.PlotsComp
import Verif.Props.PlusState
import Verif.Props.PrepFaultTolerance
import Verif.Props.PrepFaultTolerance2
import Verif.Props.PrepFaultTolerance3
import Verif.Props.PrepFaultTolerance4
import Verif.Props.PrepFaultTolerance5
import Verif.Props.PrepFaultTolerance6
import Verif.Props.PrintResults
import Verif.Props.Product
import Verif.Props.ProductDistance
import Verif.Props.ProductK
import Verif.Props.ProductMeta
import Verif.Props.Qss
import Verif.Props.QssWeights
import Verif.Props.QssWindow
import Verif.Props.QssWindow2
import Verif.Props.QssWindow3
import Verif.Props.QssWindow4
import Verif.Props.Results
import Verif.Props.Scripts
import Verif.Props.Search
import Verif.Props.Seeds
import Verif.Props.SingleShot
import Verif.Props.SingleShotObjects
import Verif.Props.Stabilizer
import Verif.Props.Stabilizer2
import Verif.Props.Stabilizer3
import Verif.Props.Stabilizer4
import Verif.Props.Stabilizer5
import Verif.Props.StimCirc
import Verif.Props.StimCirc2
import Verif.Props.StimRecords
import Verif.Props.StimStats
import Verif.Props.Synthesis
import Verif.Props.UFDecoder
import Verif.Props.UFHeuristic
import Verif.Props.UnionFind
import Verif.Props.VerifCircuit
import Verif.Props.Verification
import Verif.Props.Verification2
import Verif.Props.Verification3
import Verif.Props.Wrapper
import Verif.Spec.Corrected
import Verif.Spec.EccCode
import Verif.Spec.EccLogical
import Verif.Spec.EccNoise
import Verif.Spec.EccRange
import Verif.Spec.EccState
import Verif.Spec.FaultTolerance
import Verif.Spec.FaultToleranceFull
import Verif.Spec.Faults
import Verif.Spec.Gauss
import Verif.Spec.ManyFaults
import Verif.Spec.Pauli
import Verif.Spec.PauliFaults
import Verif.Spec.PauliGroup
import Verif.Spec.Prep
import Verif.Spec.Qss
import Verif.Spec.Quantum
