import Verif.Parallel.Model
import Verif.Parallel.Lemmas
import Verif.Parallel.Props
import Verif.Dyson.Model
import Verif.Dyson.Props
import Verif.Nda.Model
import Verif.Nda.Lemmas
import Verif.Rpa.Model
import Verif.Rpa.Lemmas
import Verif.Rpa.Props
import Verif.Bse.Model
import Verif.Bse.Lemmas
import Verif.Bse.Props
import Verif.FreqConv.Model
import Verif.FreqConv.Props
import Verif.Fourier.Model
import Verif.Fourier.Lemmas
import Verif.Fourier.Props
import Verif.Bubble.Model
import Verif.Bubble.Props
import Verif.Bubble.Routes
import Verif.Lindhard.Model
import Verif.Lindhard.Lemmas
import Verif.Lindhard.Props
import Verif.Util.Model
import Verif.Util.Props
import Verif.Wannier.Model
import Verif.Wannier.Props
import Verif.Wannier.Text
import Verif.Wannier.TextProps
import Verif.TightBinding.Model
import Verif.TightBinding.Props
import Verif.Operators.Library
import Verif.Operators.LibraryLemmas
import Verif.Operators.Model
import Verif.Operators.Lemmas
import Verif.Operators.SubstLemmas
import Verif.Operators.Props
import Verif.RpaTensor.Model
import Verif.RpaTensor.Lemmas
import Verif.RpaTensor.Props
import Verif.RpaTensor.Kanamori
import Verif.Symmetries.Model
import Verif.Symmetries.Lemmas
import Verif.Symmetries.Props
import Verif.FitDlr.Model
import Verif.FitDlr.Lemmas
import Verif.FitDlr.Props
import Verif.FitDlr.Moment
import Verif.FitDlr.Thermal
import Verif.FitDlr.ThermalMatrix
import Verif.FitDlr.Fit
import Verif.FitDlr.FitProps
import Verif.FitDlr.FitThermal
import Verif.HartreeFock.Model
import Verif.HartreeFock.Props
import Verif.HartreeFock.Solver
import Verif.HartreeFock.SolverProps
import Verif.HartreeFock.SolverState
import Verif.Params.Model
import Verif.Params.Props
import Verif.Timing.Model
import Verif.Timing.Props
import Verif.Gw.Model
import Verif.Gw.Props
import Verif.Gw.G0w
import Verif.Gw.Tensor
import Verif.Gw.TensorProps
import Verif.Gw.Solver
import Verif.Gw.SolverProps
import Verif.Gw.SolverAtom
import Verif.Gw.SolverFixed
import Verif.Gw.Spin
import Verif.Gw.Screening
import Verif.Eliashberg.Model
import Verif.Eliashberg.Props
import Verif.Eliashberg.Fft
import Verif.Eliashberg.Plain
import Verif.Eliashberg.Vertex
import Verif.Eliashberg.Start
import Verif.Eliashberg.StartProps
import Verif.Eliashberg.Power
import Verif.Eliashberg.Allclose
import Verif.HubbardAtom.Model
import Verif.HubbardAtom.Sums
import Verif.HubbardAtom.Lemmas
import Verif.HubbardAtom.Rewrite
import Verif.HubbardAtom.Product
import Verif.HubbardAtom.Spec
import Verif.HubbardAtom.Defect
import Verif.HubbardAtom.Props
import Verif.HfResponse.Model
import Verif.HfResponse.Lemmas
import Verif.HfResponse.Props
import Verif.HfResponse.Hartree
import Verif.HfResponse.Violations
import Verif.HfResponse.Examples
import Verif.HfResponse.DFermi
import Verif.HfResponse.Modes
import Verif.HfResponse.ModesProps
import Verif.HfResponse.Variational
import Verif.HfResponse.ModesStability
import Verif.HfResponse.ModesExamples
import Verif.KMesh.Model
import Verif.KMesh.Props
import Verif.GfMesh.Model
import Verif.GfMesh.Props
import Verif.Vasp.Model
import Verif.Vasp.Props
import Verif.Vasp.Violations
import Verif.Bse.Specific
import Verif.Bse.SpecificProps
import Verif.Bse.Tail
import Verif.Fourier.Fit
import Verif.Fourier.FitProps
import Verif.Fourier.FitConv
import Verif.Fourier.FitRate
import Verif.Basis.Spec
import Verif.Basis.Lemmas
import Verif.Basis.Props
import Verif.Basis.Interactions
import Verif.Basis.Gw
import Verif.Basis.Response
import Verif.Basis.Hf
import Verif.Basis.Pairing
import Verif.Basis.Operators
import Verif.Basis.Violations
import Verif.Causal.Props
import Verif.Causal.SumRule
import Verif.Stoner.Algebra
import Verif.Stoner.Props
import Verif.Stoner.Examples
import Verif.Storage.Model
import Verif.Storage.Props
import Verif.Dlr.Model
import Verif.Dlr.Lemmas
import Verif.Dlr.Nodes
import Verif.Dlr.Props
import Verif.Dlr.EliashbergProps
import Verif.Eliashberg.Reality
import Verif.Herm.Lemmas
import Verif.Herm.Props
import Verif.Herm.Fourier
import Verif.Herm.Gw
import Verif.HartreeFock.Hartree
import Verif.Fourier.Inverse
import Verif.Fourier.InverseRate
import Verif.Fourier.Stable
import Verif.Fourier.Chain
import Verif.Bse.Converge
import Verif.Gw.Converge
import Verif.Eliashberg.Converge
import Verif.Bse.Density
import Verif.Lindhard.Conserved
import Verif.Lindhard.Screening
import Verif.Bse.Conserved
import Verif.PointGroup.Lemmas
import Verif.PointGroup.Gw
import Verif.PointGroup.Hf
import Verif.PointGroup.Pairing
import Verif.PointGroup.Props
import Verif.PointGroup.Violations
import Verif.Names.Model
import Verif.Names.Check
import Verif.Names.Fate
import Verif.Names.Package
import Verif.Names.Props
import Verif.Names.Calls
import Verif.Names.CallProps
import Verif.Window.Model
import Verif.Window.Props
import Verif.Fock.Free
import Verif.Fock.Bogoliubov
import Verif.Fock.Lattice
import Verif.Fock.Props
import Verif.Fock.Thermo
import Verif.Fock.Examples
import Verif.Fock.Number
import Verif.Operators.Fundamental
import Verif.HubbardAtom.Exact
import Verif.HubbardAtom.ExactInt
import Verif.HubbardAtom.ExactOuter
import Verif.HubbardAtom.ExactProps
import Verif.HartreeFock.Start
import Verif.FitDlr.Real
import Verif.Units.Lemmas
import Verif.Units.Props
import Verif.Units.Lindhard
import Verif.Units.Hf
import Verif.Units.HfMu
import Verif.Units.Gw
import Verif.Units.GwViolated
import Verif.Subsystem.Lemmas
import Verif.Subsystem.Props
import Verif.Subsystem.Vertex
import Verif.Subsystem.Lindhard
import Verif.Subsystem.Hf
import Verif.Subsystem.Gw
import Verif.Subsystem.Examples
import Verif.Supercell.Lemmas
import Verif.Supercell.Pairs
import Verif.Supercell.Props
import Verif.Supercell.Vertex
import Verif.Supercell.Lindhard
import Verif.Supercell.Hf
import Verif.Supercell.Gw
import Verif.Supercell.Eliashberg
import Verif.Supercell.Ring
import Verif.Supercell.Examples
import Verif.Mirror.Props
import Verif.Mirror.Hf
import Verif.Mirror.Gw
import Verif.Mirror.Window
import Verif.Mirror.Examples
import Verif.Agree.Bse
import Verif.Agree.Window
import Verif.Agree.Response
import Verif.Agree.Gw
import Verif.Agree.Examples
import Verif.Reversal.Props
import Verif.Reversal.Hf
import Verif.Reversal.Gw
import Verif.Reversal.Examples
import Verif.Unique.Props
import Verif.Unique.Exists
import Verif.Unique.Iter
import Verif.Unique.Examples
import Verif.Stable.Props
import Verif.Stable.Lindhard
import Verif.Stable.Bands
import Verif.Stable.Examples
import Verif.Compare.Props
import Verif.Compare.Examples
import Verif.NumpyCompat.Model
import Verif.NumpyCompat.Props
import Verif.NumpyCompat.Numbers
import Verif.Steps.Props
import Verif.Blocks.Model
import Verif.Blocks.Props
import Verif.PairBound.Props
import Verif.RpaBound.Props
import Verif.Bubble.Inverse
