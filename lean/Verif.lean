import Verif.Props.Operators
import Verif.Props.Symmetry
import Verif.Props.States
import Verif.Props.Fermions
import Verif.Props.Spins
import Verif.Props.Thermal
import Verif.Props.Dynamics
import Verif.Props.Response
import Verif.Props.Correlators
import Verif.Props.FermiGas
import Verif.Props.FermiDensity
import Verif.Props.FermiResponse
import Verif.Props.Greens
import Verif.Props.GreensTransforms
import Verif.Props.Files
import Verif.Props.Nlce
import Verif.Model.Isometry
import Verif.Model.Symmetry
import Verif.Spec.Decomposition
import Verif.Lemmas.GroupAlg
import Verif.Lemmas.PointGroups
import Verif.Props.Isometries
import Verif.Props.PointGroups
import Verif.Lemmas.Heptagon
import Verif.Lemmas.TorusData
import Verif.Lemmas.Torus
import Verif.Lemmas.TorusRep
import Verif.Props.SpaceGroup
import Verif.Model.Lattice
import Verif.Model.Geometry
import Verif.Spec.Lattice
import Verif.Spec.LatticeCell
import Verif.Spec.Geometry
import Verif.Lemmas.Reduce
import Verif.Lemmas.UniqueSites
import Verif.Lemmas.Geometry
import Verif.Lemmas.Sorting
import Verif.Props.Lattice
import Verif.Props.LatticeSites
import Verif.Props.Geometry
import Verif.Props.Sorting
import Verif.Props.GeometryEq
import Verif.Lemmas.Periodic
import Verif.Lemmas.LatticeInit
import Verif.Props.Periodic
import Verif.Props.Constructors
import Verif.Props.Polygon
import Verif.Props.SiteCycles
import Verif.Props.Zn
import Verif.Model.Clusters
import Verif.Spec.Clusters
import Verif.Lemmas.SortSites
import Verif.Lemmas.ClusterGeom
import Verif.Lemmas.ClusterSymm
import Verif.Lemmas.ClusterGraph
import Verif.Lemmas.ClusterEnum
import Verif.Lemmas.ClusterAll
import Verif.Props.Clusters
import Verif.Lemmas.SubEnum
import Verif.Lemmas.SubAll
import Verif.Lemmas.GroupClusters
import Verif.Props.Subclusters
import Verif.Props.Grouping
import Verif.Lemmas.ReducedSub
import Verif.Lemmas.ClusterMatrix
import Verif.Lemmas.ClusterFill
import Verif.Props.ReducedClusters
import Verif.Model.FermionInit
import Verif.Lemmas.FermionInit
import Verif.Props.FermionInit
import Verif.Props.Pauli
import Verif.Props.Current
import Verif.Props.Diag
import Verif.Props.Translation
import Verif.Spec.Svd
import Verif.Spec.Reduced
import Verif.Model.Reduce
import Verif.Lemmas.SvdRank
import Verif.Lemmas.ReduceApprox
import Verif.Lemmas.ReduceSvd
import Verif.Lemmas.ReduceLine
import Verif.Lemmas.ReduceGroup
import Verif.Lemmas.SvdExists
import Verif.Props.Reduce
import Verif.Spec.Sectors
import Verif.Lemmas.XformGroup
import Verif.Props.Sectors
import Verif.Spec.ClusterSum
import Verif.Lemmas.ClusterSum
import Verif.Props.ClusterSum
import Verif.Model.Pipeline
import Verif.Spec.Pipeline
import Verif.Lemmas.Pipeline
import Verif.Props.Pipeline
import Verif.Spec.Gibbs
import Verif.Lemmas.Gibbs
import Verif.Model.Thermo
import Verif.Props.Thermo
import Verif.Spec.SpinCluster
import Verif.Lemmas.SpinCluster
import Verif.Lemmas.SpinGeom
import Verif.Props.SpinNlce
import Verif.Spec.SectorThermo
import Verif.Props.SectorThermo
import Verif.Props.FreeFermions
import Verif.Props.GasModel
import Verif.Props.GasTwoSites
import Verif.Props.FreeGround
import Verif.Props.GasGround
import Verif.Props.NumberSectors
import Verif.Lemmas.Weyl
import Verif.Props.SectorEnergies
import Verif.Props.HubbardSectors
import Verif.Lemmas.SquareShift
import Verif.Lemmas.ApproxSectors
import Verif.Lemmas.NearSectors
import Verif.Lemmas.NearZn
import Verif.Lemmas.SelectNear
import Verif.Lemmas.MomentumSectors
import Verif.Spec.NearSectors
import Verif.Model.HeisenbergScript
import Verif.Lemmas.Cells
import Verif.Lemmas.SectorTree
import Verif.Lemmas.SectorTotal
import Verif.Spec.Chain
import Verif.Props.Heisenberg
import Verif.Lemmas.Ring
import Verif.Lemmas.OpNorm
import Verif.Lemmas.SpinRotation
import Verif.Props.Directions
import Verif.Spec.JordanWigner
import Verif.Model.FermionEnergies
import Verif.Lemmas.JordanWigner
import Verif.Props.SiteOrder
import Verif.Props.JordanWigner
import Verif.Spec.Atomic
import Verif.Lemmas.Atomic
import Verif.Props.Atomic
import Verif.Lemmas.TwoSitesData
import Verif.Lemmas.TwoSites
import Verif.Props.TwoSites
import Verif.Spec.ParticleHole
import Verif.Lemmas.ParticleHole
import Verif.Props.ParticleHole
import Verif.Spec.Multiplets
import Verif.Lemmas.Multiplets
import Verif.Props.Multiplets
import Verif.Spec.Larmor
import Verif.Props.Larmor
import Verif.Model.SumRule
import Verif.Spec.SumRule
import Verif.Props.SumRule
import Verif.Model.FourSpins
import Verif.Spec.Nested
import Verif.Props.Nested
import Verif.Spec.Modes
import Verif.Props.Modes
import Verif.Lemmas.GibbsIneq
import Verif.Props.Stability
import Verif.Lemmas.Laws
import Verif.Lemmas.ParamDeriv
import Verif.Props.Laws
import Verif.Props.FreeEnergy
import Verif.Props.Robust
import Verif.Lemmas.NearAverage
import Verif.Props.SectorAverages
import Verif.Model.RingScript
import Verif.Lemmas.CyclicSectors
import Verif.Lemmas.RingSectors
import Verif.Lemmas.CyclicFourier
import Verif.Props.RingScript
import Verif.Props.OneSpecies
import Verif.Props.FermiGround
import Verif.Props.SiteValues
import Verif.Model.SpinlessScript
import Verif.Lemmas.EquivalentSites
import Verif.Props.EquivalentSites
import Verif.Lemmas.Signs
import Verif.Props.Signs
import Verif.Lemmas.Independent
import Verif.Props.Independent
import Verif.Lemmas.Snapshots
import Verif.Props.Snapshots
import Verif.Lemmas.Kramers
import Verif.Props.Kramers
import Verif.Lemmas.Moments
import Verif.Lemmas.FermiMoments
import Verif.Props.Moments
import Verif.Lemmas.Perron
import Verif.Lemmas.ChainConnected
import Verif.Props.UniqueGround
import Verif.Model.LevelStats
import Verif.Lemmas.LevelStats
import Verif.Props.LevelStats
import Verif.Lemmas.PositiveAverage
import Verif.Props.FieldAlignment
import Verif.Lemmas.Sublattice
import Verif.Props.Sublattice
import Verif.Props.Flow
import Verif.Props.FreeEvolution
import Verif.Props.Repulsion
import Verif.Props.SpinReversal
import Verif.Props.SectorEvolution
import Verif.Props.Covariance
import Verif.Props.Conserved
import Verif.Props.ChemicalPotential
