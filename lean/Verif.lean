import Verif.Sublat.Props
import Verif.Hopping.Props
import Verif.Lattice.Props
import Verif.Lattice.PropsOrder
import Verif.Foundation.Props
import Verif.Foundation.Props2
import Verif.Symmetry.Props2
import Verif.Hamiltonian.Props
import Verif.Hamiltonian.Props2
import Verif.Hamiltonian.PropsWitness
import Verif.Hamiltonian.Props3
import Verif.Pipeline.Props2
import Verif.Pipeline.PropsReciprocal
import Verif.Pipeline.PropsZone
import Verif.Pipeline.Crystal
import Verif.Pipeline.PropsCrystal
import Verif.Pipeline.PropsFolding
import Verif.Pipeline.PropsSupercell
import Verif.Pipeline.Represent
import Verif.Pipeline.PropsRewrite
import Verif.Pipeline.PropsRewriteOrder
import Verif.Pipeline.PropsPrimitive
import Verif.Pipeline.Repository
import Verif.Pipeline.RepositoryRun
import Verif.Pipeline.PropsRepository
import Verif.Pipeline.PropsRepository2
import Verif.Pipeline.PropsRepository3
import Verif.Pipeline.Field
import Verif.Pipeline.FieldLemmas
import Verif.Pipeline.PropsField
import Verif.Pipeline.PropsField2
import Verif.Pipeline.PropsField3
import Verif.Numeric.Props
import Verif.Kpm.Props
import Verif.Kpm.PropsReorder
import Verif.Kpm.PropsConfig
import Verif.Kpm.PropsKernel
import Verif.Thread.PropsPool
import Verif.Thread.OneWorker
import Verif.Kpm.PropsBatch
import Verif.Thread.PropsParallel
import Verif.Thread.Sweep
import Verif.Thread.PropsSweep
import Verif.Thread.PropsJobs
import Verif.Thread.JobRefs
import Verif.Thread.PropsJobRefs
import Verif.Model.Props
import Verif.Shape.Props
import Verif.Shape.PropsPython
import Verif.Shape.PropsHexagon
import Verif.Pipeline.PropsGraphene
import Verif.Lattice.PropsGrapheneLattice
import Verif.Lattice.PropsPhosphorene
import Verif.Solver.Props
import Verif.Kpm.PropsCache
import Verif.Leads.Props
import Verif.Leads.Pair
import Verif.Leads.PropsPair
import Verif.Leads.PropsPair2
import Verif.Leads.PropsKwant
import Verif.Binding.PropsReport
import Verif.Binding.PropsColors
import Verif.Binding.PropsSiteRadius
import Verif.Binding.PropsImages
import Verif.Binding.PropsConvolve
import Verif.Binding.PropsSweepResult
import Verif.Kpm.PropsGreens
import Verif.Kpm.PropsStochastic
import Verif.Kpm.PropsConductivity
import Verif.Kpm.PropsLdos
import Verif.Lanczos.PropsTridiag
import Verif.Lanczos.PropsLanczos
import Verif.Lanczos.PropsMissed
import Verif.Model.PropsParams
import Verif.Hamiltonian.PropsNnz
import Verif.Lattice.PropsLookup
import Verif.Lattice.PropsExact
import Verif.Lattice.PropsOnsite
import Verif.Solver.PropsDos
import Verif.Numeric.PropsSimd
import Verif.Kpm.PropsStats
import Verif.Solver.PropsFeast
import Verif.Solver.PropsBands
import Verif.Binding.PropsArrayRef
import Verif.Binding.PropsModifier
import Verif.Binding.PropsPickle
import Verif.Binding.PropsLifetime
import Verif.Machine.Props
import Verif.Binding.PropsNames
import Verif.Binding.PropsSlicing
import Verif.Solver.PropsPaths
import Verif.Solver.PropsProbability
import Verif.Kpm.PropsConvergence
import Verif.Kpm.Resolvent
import Verif.Kpm.PropsResolvent
import Verif.Kpm.PropsPythonKpm
import Verif.Pipeline.PropsEndToEnd
import Verif.Pipeline.PropsGenerators2
import Verif.Kpm.RowKernel
import Verif.Kpm.Stability
import Verif.Kpm.Float
import Verif.Kpm.FloatKernels
import Verif.Kpm.FloatContracts
import Verif.Kpm.PropsFloat
import Verif.Hamiltonian.Rounded
import Verif.Hamiltonian.RoundedNumbers
import Verif.Hamiltonian.RoundedTerms
import Verif.Hamiltonian.RoundedMake
import Verif.Hamiltonian.Weyl
import Verif.Hamiltonian.PropsRounded
import Verif.Kpm.ScaleRelated
import Verif.Kpm.ScaleRounded
import Verif.Kpm.PropsScaleRounded
import Verif.Kpm.FloatDiag
import Verif.Kpm.FloatDiagRun
import Verif.Kpm.PropsFloatDiag
import Verif.Kpm.PropsScaleSystem
import Verif.Kpm.BatchRounded
import Verif.Kpm.PropsBatchRounded
import Verif.Kpm.PropsBatchLdos
import Verif.Kpm.PropsLdosSystem
import Verif.Kpm.PropsTrace
import Verif.Kpm.PropsTraceConductivity
import Verif.Kpm.PropsTraceRun
import Verif.Kpm.Progress
import Verif.Kpm.PropsProgress
import Verif.Kpm.PropsProgressBar
import Verif.Kpm.PropsProgressOutput
