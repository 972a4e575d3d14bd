import Verif.Props.Node
import Verif.Props.Thiele
import Verif.Props.RunStats
import Verif.Props.TimeLoop
import Verif.Props.TimeLoopMore
import Verif.Props.Krylov
import Verif.Props.SparseMat
import Verif.Props.SparseConc
import Verif.Props.Mesh
import Verif.Props.Assembly
import Verif.Props.MeshCheck
import Verif.Props.Tetra
import Verif.Props.Charge
import Verif.Props.MeshElem
import Verif.Props.LlgElem
import Verif.Props.Aniso
import Verif.Props.SortNodes
import Verif.Props.BoundingBox
import Verif.Props.MaxAngle
import Verif.Props.ExtField
import Verif.Props.Fmm
import Verif.Props.Metadata
import Verif.Props.SolFile
import Verif.Props.Rates
import Verif.Props.BadSettings
import Verif.Props.Defaults
import Verif.Props.NoPolarization
import Verif.Props.Recenter
import Verif.Props.Run
import Verif.Props.SpinAccSolve
import Verif.Props.SpinStart
import Verif.Props.SpinSource
import Verif.Props.SpinTorque
import Verif.Props.LogStats
import Verif.Props.Parser
import Verif.Props.Options
import Verif.Props.Evol
import Verif.Props.Settings
import Verif.Props.Dump
import Verif.Props.DumpTree
import Verif.Props.Potential
import Verif.Props.WeakForm
import Verif.Props.Energy
import Verif.Props.Invariance
import Verif.Props.MeshRead
import Verif.Props.DemagEnergy
import Verif.Props.Reproducible
import Verif.Props.Suppress
import Verif.Props.Equilibrium
import Verif.Props.Motion
import Verif.Props.Restart
import Verif.Props.RestartStep
import Verif.Props.Converge
import Verif.Props.EnergyTable
import Verif.Props.JsMath
import Verif.Props.SecondOrder
import Verif.Props.Main
import Verif.Props.Rounded
import Verif.Props.RoundedAvg
import Verif.Props.Relax
import Verif.Props.Similar
import Verif.Props.SimilarRun
import Verif.Props.Continuum
import Verif.Props.ContinuumLlg
import Verif.Props.ContinuumPot
import Verif.Props.NonFinite
import Verif.Props.Regions
import Verif.Props.RegionsMesh
import Verif.Props.Balance
import Verif.Props.Barrier
import Verif.Props.Settle
import Verif.Props.Surroundings
import Verif.Props.SurroundingsMesh
import Verif.Props.RecenterRun
import Verif.Props.RecenterAir
import Verif.Props.Progress
import Verif.Props.Axes
import Verif.Props.Maximum
import Verif.Props.Rescale
import Verif.Props.FieldKind
import Verif.Props.TimeShift
import Verif.Props.Apart
import Verif.Props.Ohm
import Verif.Props.SpinOhm
import Verif.Props.SpinTurn
import Verif.Props.SpinSize
import Verif.Props.Collinear
import Verif.Props.Onsager
import Verif.Props.Separate
import Verif.Props.Renumber
