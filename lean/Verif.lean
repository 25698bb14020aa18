import Verif.Lemmas.Axes
import Verif.Lemmas.Branches
import Verif.Lemmas.Cli
import Verif.Lemmas.CliSound
import Verif.Lemmas.CliStray
import Verif.Lemmas.Collinear
import Verif.Lemmas.Colpa
import Verif.Lemmas.ColpaOracle
import Verif.Lemmas.Cone
import Verif.Lemmas.Coupling
import Verif.Lemmas.Courant
import Verif.Lemmas.Describe
import Verif.Lemmas.DescribeSetup
import Verif.Lemmas.DispersionText
import Verif.Lemmas.EnergyConeRounding
import Verif.Lemmas.EnergyInit
import Verif.Lemmas.EnergyRounding
import Verif.Lemmas.FileEnergy
import Verif.Lemmas.Folding
import Verif.Lemmas.Fourier
import Verif.Lemmas.Frame
import Verif.Lemmas.FreeNotation
import Verif.Lemmas.Goldstone
import Verif.Lemmas.GradQRounding
import Verif.Lemmas.Ham
import Verif.Lemmas.HamCons
import Verif.Lemmas.HamCopy
import Verif.Lemmas.HamDC
import Verif.Lemmas.HamDel
import Verif.Lemmas.HamHist
import Verif.Lemmas.HamInv
import Verif.Lemmas.HamKept
import Verif.Lemmas.HamNotation
import Verif.Lemmas.HamNotationDC
import Verif.Lemmas.HamRenote
import Verif.Lemmas.Hdf5
import Verif.Lemmas.Hessian
import Verif.Lemmas.HistorySample
import Verif.Lemmas.HistoryTable
import Verif.Lemmas.HistoryText
import Verif.Lemmas.Iter
import Verif.Lemmas.Jet
import Verif.Lemmas.Linear
import Verif.Lemmas.Logo
import Verif.Lemmas.Lowest
import Verif.Lemmas.Magnon
import Verif.Lemmas.MagnonInit
import Verif.Lemmas.MagnonRounding
import Verif.Lemmas.MagnonTilt
import Verif.Lemmas.Minimize
import Verif.Lemmas.MinimizeHistory
import Verif.Lemmas.MinimizeSummary
import Verif.Lemmas.MinimizeText
import Verif.Lemmas.Minimum
import Verif.Lemmas.Motion
import Verif.Lemmas.Near
import Verif.Lemmas.Off
import Verif.Lemmas.Omega
import Verif.Lemmas.OnSiteFactor
import Verif.Lemmas.OneAtom
import Verif.Lemmas.OneMode
import Verif.Lemmas.OptStart
import Verif.Lemmas.Optimize
import Verif.Lemmas.ParamRounding
import Verif.Lemmas.Reader
import Verif.Lemmas.Reversal
import Verif.Lemmas.Rounding
import Verif.Lemmas.RoundingExact
import Verif.Lemmas.Scalar
import Verif.Lemmas.Similar
import Verif.Lemmas.Stiffer
import Verif.Lemmas.Strict
import Verif.Lemmas.Supercell
import Verif.Lemmas.SupercellWaves
import Verif.Lemmas.Tb2j
import Verif.Lemmas.Torque
import Verif.Lemmas.TorqueConeRounding
import Verif.Lemmas.TorqueEnergy
import Verif.Lemmas.TorqueRounding
import Verif.Lemmas.TxtDump
import Verif.Lemmas.TxtDumpAtoms
import Verif.Lemmas.TxtDumpBond
import Verif.Lemmas.TxtDumpClose
import Verif.Lemmas.TxtDumpFile
import Verif.Lemmas.TxtDumpNotation
import Verif.Lemmas.TxtDumpSample
import Verif.Lemmas.TxtDumpSections
import Verif.Lemmas.TxtDumpVectors
import Verif.Lemmas.TxtLoad
import Verif.Lemmas.TxtLoadAtoms
import Verif.Lemmas.TxtLoadParams
import Verif.Lemmas.TxtLog
import Verif.Lemmas.TxtLogAtoms
import Verif.Lemmas.TxtLogBonds
import Verif.Lemmas.TxtLogFile
import Verif.Lemmas.TxtSections
import Verif.Lemmas.TxtWords
import Verif.Lemmas.Vampire
import Verif.Lemmas.VampireFiles
import Verif.Lemmas.VampireText
import Verif.Lemmas.View
import Verif.Lemmas.Wave
import Verif.Lemmas.WaveMatrix
import Verif.Model.Angles
import Verif.Model.Basic
import Verif.Model.Cli
import Verif.Model.Convert
import Verif.Model.Copy
import Verif.Model.DispersionScript
import Verif.Model.DispersionText
import Verif.Model.Energy
import Verif.Model.EnergyConeFloat
import Verif.Model.EnergyFloat
import Verif.Model.Ground
import Verif.Model.Ham
import Verif.Model.HamFloat
import Verif.Model.Hdf5
import Verif.Model.HistoryText
import Verif.Model.Iter
import Verif.Model.Logo
import Verif.Model.Magnon
import Verif.Model.MagnonFloat
import Verif.Model.Minimize
import Verif.Model.MinimizeText
import Verif.Model.Optimize
import Verif.Model.OptimizeFloat
import Verif.Model.Param
import Verif.Model.ParamFloat
import Verif.Model.ParamHeap
import Verif.Model.ParamMore
import Verif.Model.PyDict
import Verif.Model.Tb2j
import Verif.Model.Text
import Verif.Model.TxtDump
import Verif.Model.TxtFile
import Verif.Model.TxtFilter
import Verif.Model.TxtLog
import Verif.Model.TxtRead
import Verif.Model.TxtSections
import Verif.Model.TxtVerify
import Verif.Model.UpdateFloat
import Verif.Model.Vampire
import Verif.Model.VampireFiles
import Verif.Model.VampireText
import Verif.Props.Angles
import Verif.Props.Cli
import Verif.Props.Colpa
import Verif.Props.ConeRun
import Verif.Props.Convert
import Verif.Props.Describe
import Verif.Props.Dispersion
import Verif.Props.DispersionScript
import Verif.Props.DispersionText
import Verif.Props.EnergyCone
import Verif.Props.EnergyConeRounding
import Verif.Props.EnergyFerro
import Verif.Props.EnergyRounding
import Verif.Props.FileEnergy
import Verif.Props.FileText
import Verif.Props.Firm
import Verif.Props.Frame
import Verif.Props.Goldstone
import Verif.Props.GradQRounding
import Verif.Props.Ground
import Verif.Props.HamCopy
import Verif.Props.HamDict
import Verif.Props.HamHistory
import Verif.Props.HamIter
import Verif.Props.HamNotation
import Verif.Props.Hdf5
import Verif.Props.HistoryAppend
import Verif.Props.HistoryText
import Verif.Props.Linear
import Verif.Props.Logo
import Verif.Props.Magnon
import Verif.Props.MagnonRounding
import Verif.Props.MagnonTilt
import Verif.Props.Minimize
import Verif.Props.MinimizeText
import Verif.Props.Minimum
import Verif.Props.Motion
import Verif.Props.Omega
import Verif.Props.OptCone
import Verif.Props.OptDirection
import Verif.Props.OptExample
import Verif.Props.Optimize
import Verif.Props.Param
import Verif.Props.ParamHeap
import Verif.Props.ParamParts
import Verif.Props.ParamRounding
import Verif.Props.Reader
import Verif.Props.Reversal
import Verif.Props.Rounding
import Verif.Props.Spectrum
import Verif.Props.Stiffer
import Verif.Props.StopEnergy
import Verif.Props.StopRounding
import Verif.Props.Supercell
import Verif.Props.Tb2j
import Verif.Props.Torque
import Verif.Props.TorqueConeRounding
import Verif.Props.TorqueRounding
import Verif.Props.TxtBond
import Verif.Props.TxtCell
import Verif.Props.TxtDump
import Verif.Props.TxtFile
import Verif.Props.TxtFilter
import Verif.Props.TxtLoad
import Verif.Props.TxtLog
import Verif.Props.TxtSections
import Verif.Props.TxtUnits
import Verif.Props.UpdateRounding
import Verif.Props.Vampire
import Verif.Props.VampireFiles
import Verif.Props.VampireText
import Verif.Props.Wave
import Verif.Spec.Angles
import Verif.Spec.Avoid
import Verif.Spec.Cli
import Verif.Spec.Colpa
import Verif.Spec.Compare
import Verif.Spec.Cone
import Verif.Spec.ConeRun
import Verif.Spec.Describe
import Verif.Spec.DispersionScript
import Verif.Spec.DispersionText
import Verif.Spec.Energy
import Verif.Spec.EnergyConeRounding
import Verif.Spec.EnergyRounding
import Verif.Spec.Fourier
import Verif.Spec.Frame
import Verif.Spec.Goldstone
import Verif.Spec.GradQRounding
import Verif.Spec.Ground
import Verif.Spec.Hdf5
import Verif.Spec.History
import Verif.Spec.HistoryText
import Verif.Spec.Invariants
import Verif.Spec.Linear
import Verif.Spec.Logo
import Verif.Spec.Magnon
import Verif.Spec.MagnonRounding
import Verif.Spec.MagnonTilt
import Verif.Spec.Minimize
import Verif.Spec.MinimizeText
import Verif.Spec.Minimum
import Verif.Spec.Motion
import Verif.Spec.Notation
import Verif.Spec.Omega
import Verif.Spec.Optimize
import Verif.Spec.ParamHeap
import Verif.Spec.ParamRounding
import Verif.Spec.Reader
import Verif.Spec.Reversal
import Verif.Spec.Rotation
import Verif.Spec.Rounding
import Verif.Spec.Supercell
import Verif.Spec.Tb2j
import Verif.Spec.Tensor
import Verif.Spec.Torque
import Verif.Spec.Txt
import Verif.Spec.TxtBond
import Verif.Spec.TxtDump
import Verif.Spec.TxtLoad
import Verif.Spec.TxtLog
import Verif.Spec.TxtUnits
import Verif.Spec.UpdateRounding
import Verif.Spec.Vampire
import Verif.Spec.VampireFiles
import Verif.Spec.VampireText
import Verif.Spec.Wave
import Verif.Spec.WellFormed
import Verif.Axioms
