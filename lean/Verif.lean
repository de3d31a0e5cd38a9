import Verif.Coef
import Verif.Spec.Fock
import Verif.Proofs.Pauli
import Verif.Proofs.Operator
import Verif.Proofs.Reduce
import Verif.Props.Operators
import Verif.Proofs.Fermi
import Verif.Props.Fermi
import Verif.Props.Transforms
import Verif.Props.Histories
import Verif.Props.InverseJW
import Verif.Props.Taper
import Verif.Props.DMatrix
import Verif.Props.Matrix
import Verif.Props.PTrace
import Verif.Props.Gates
import Verif.Props.Grouping
import Verif.Props.Gadget
import Verif.Props.Measure
import Verif.Props.Permute
import Verif.Props.RDMFill
import Verif.Props.RDMUnique
import Verif.Props.RDMExact
import Verif.Proofs.TransformExact
import Verif.Props.Tomography
import Verif.Props.RDMAlg
import Verif.Props.Wedge
import Verif.Props.Stabilizer
import Verif.Props.Ansatz
import Verif.Props.SpinOps
import Verif.Props.UCC
import Verif.Props.BFGS
import Verif.Props.LineSearch
import Verif.Props.Newton
import Verif.Props.Optim
import Verif.Props.NelderMead
import Verif.Props.ACSE
import Verif.Props.VQE
import Verif.Props.Objectives
import Verif.Model.Hamiltonian
import Verif.Props.Hamiltonian
import Verif.Model.Integrals
import Verif.Props.Integrals
import Verif.Model.Residual
import Verif.Props.Residual
import Verif.Model.Instructions
import Verif.Props.Instructions
import Verif.Props.QResidual
import Verif.Model.Prepare
import Verif.Props.Prepare
import Verif.Model.Clifford
import Verif.Props.Clifford
import Verif.Model.GenericCircuit
import Verif.Props.GenericCircuit
import Verif.Model.ExactUnitary
import Verif.Props.ExactUnitary
import Verif.Model.SpinRDM
import Verif.Model.SpinBlocks
import Verif.Props.SpinRDM
import Verif.Props.SpinBlocks
import Verif.Props.GradDescent
import Verif.Props.OpExtra
import Verif.Props.Euler
import Verif.Model.CG
import Verif.Props.CG
import Verif.Model.StabProcess
import Verif.Props.StabProcess
import Verif.Model.DensMat
import Verif.Props.DensMat
import Verif.Model.QubitParticle
import Verif.Props.QubitParticle
import Verif.Model.ParityFree
import Verif.Props.ParityFree
import Verif.Props.TaperPrepare
import Verif.Model.ParityQP
import Verif.Props.ParityQP
import Verif.Model.ParaFermion
import Verif.Props.ParaFermion
import Verif.Model.QubitTomo
import Verif.Props.QubitTomo
import Verif.Model.StateTomo
import Verif.Props.StateTomo
import Verif.Model.Resources
import Verif.Props.Resources
import Verif.Model.Build2
import Verif.Proofs.Build2
import Verif.Props.Build2
import Verif.Model.Spatial
import Verif.Props.Spatial
import Verif.Model.QubitHam
import Verif.Props.QubitHam
import Verif.Model.SymProj
import Verif.Spec.Count
import Verif.Proofs.SymExpand
import Verif.Proofs.SymSpec
import Verif.Proofs.SymCount
import Verif.Proofs.SymMain
import Verif.Proofs.SymRank
import Verif.Proofs.SymTotal
import Verif.Proofs.SymProject
import Verif.Props.SymProj
import Verif.Proofs.Letters
import Verif.Model.ReducedTomo
import Verif.Props.ReducedTomo
import Verif.Proofs.ExpSum
import Verif.Props.AnsatzCircuit
import Verif.Model.VQEObjective
import Verif.Props.VQEObjective
import Verif.Props.EncTomo
import Verif.Model.HFStorage
import Verif.Props.HFStorage
import Verif.Model.ACSEEnergy
import Verif.Model.ACSERun
import Verif.Props.ACSEEnergy
import Verif.Props.ACSERun
import Verif.Props.ACSELayers
import Verif.Props.PairLayer
import Verif.Props.OneEach
import Verif.Props.Homomorphism
import Verif.Model.Collect
import Verif.Props.Collect
import Verif.Model.Cholesky
import Verif.Props.Cholesky
import Verif.Model.RunMultiple
import Verif.Props.RunMultiple
import Verif.Model.Resample
import Verif.Props.Resample
import Verif.Model.StabCircuit
import Verif.Proofs.StabConj
import Verif.Proofs.StabRun
import Verif.Props.StabCircuit
import Verif.Model.EulerRun
import Verif.Props.EulerRun
import Verif.Props.EulerMin
import Verif.Model.ActiveSpace
import Verif.Props.FrozenCore
import Verif.Props.ActiveSpace
import Verif.Props.NMAffine
import Verif.Model.BFGSRun
import Verif.Props.BFGSRun
import Verif.Model.VQERun
import Verif.Props.VQERun
import Verif.Model.GraphColour
import Verif.Props.GraphColour
import Verif.Model.Analysis
import Verif.Proofs.Fock
import Verif.Proofs.Gram
import Verif.Props.Analysis
import Verif.Model.ExactInst
import Verif.Props.ExactInst
import Verif.Props.StabEncoded
import Verif.Props.LineLayer
import Verif.Model.ProjK2
import Verif.Props.ProjK2
import Verif.Model.Compare
import Verif.Props.Compare
import Verif.Model.CNBasis
import Verif.Props.CNBasis
import Verif.Model.RhoTomo
import Verif.Props.RhoTomo
import Verif.Model.Variance
import Verif.Props.Variance
import Verif.Model.MeasFilter
import Verif.Props.MeasFilter
import Verif.Model.Reorder
import Verif.Props.Reorder
import Verif.Model.PauliTomo
import Verif.Props.PauliTomo
import Verif.Model.IntegralsPyscf
import Verif.Props.IntegralsPyscf
import Verif.Model.Mixed
import Verif.Props.Mixed
import Verif.Props.RhoMixed
import Verif.Model.SaveRDM
import Verif.Props.SaveRDM
import Verif.Model.NMCrit
import Verif.Props.NMCrit
import Verif.Model.TomoFile
import Verif.Props.TomoFile
import Verif.Model.Separable
import Verif.Props.Separable
import Verif.Model.QubitOrder
import Verif.Props.QubitOrder
import Verif.Model.Report
import Verif.Props.Report
import Verif.Model.EncEnergy
import Verif.Props.EncEnergy
import Verif.Props.EncVQE
import Verif.Props.EncVQERun
import Verif.Props.ShotTomo
import Verif.Props.MeasResid
import Verif.Props.IntegralsLR
import Verif.Props.Gpc
import Verif.Props.Symplectic
import Verif.Props.Restart
import Verif.Props.ClassResid
import Verif.Props.EulerRun3
import Verif.Props.AnsatzCut
import Verif.Props.LineSlope
import Verif.Props.NewtonRun
import Verif.Props.EulerQ
import Verif.Props.DescentQ
import Verif.Props.DescentTrunc
import Verif.Model.RDMAdd
import Verif.Props.RDMAdd
import Verif.Model.OpRemove
import Verif.Props.OpRemove
import Verif.Model.Settings
import Verif.Props.Settings
