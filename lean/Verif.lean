import Verif.Props.Grids
import Verif.Props.PulseState
import Verif.Props.PulsePhase
import Verif.Props.PulseSpectrum
import Verif.Props.DerivedPulses
import Verif.Props.Fiber
import Verif.Props.FiberTable
import Verif.Props.SsfmCtrl
import Verif.Props.SelfPhase
import Verif.Props.Ssfm
import Verif.Props.SsfmProp
import Verif.Props.Raman
import Verif.Props.Coherence
import Verif.Props.OdeOutput
import Verif.Props.OdeStep
import Verif.Props.OdeInt
import Verif.Props.OdeGrid
import Verif.Props.OdeRuns
import Verif.Props.OdeTableau
import Verif.Props.Crystal
import Verif.Props.CrystalDisp
import Verif.Model.CrystalAgGaS
import Verif.Props.CrystalUniaxial
import Verif.Props.CrystalStencil
import Verif.Props.CrystalGvd
import Verif.Props.CrystalInvert
import Verif.Props.Beam
import Verif.Props.BeamPower
import Verif.Props.Resume
import Verif.Props.Treacy
import Verif.Props.TreacyDelay
import Verif.Lemmas.Interp
import Verif.Props.TreacyHod
import Verif.Lemmas.Savgol
import Verif.Props.TreacySavgol
import Verif.Props.DfgFft
import Verif.Props.DfgMix
import Verif.Props.DfgPoling
import Verif.Props.DfgSetup
import Verif.Props.DfgOut
import Verif.Props.MultiRun
import Verif.Props.FieldClasses
import Verif.Props.DfgSymm
import Verif.Props.OdeSubspace
import Verif.Props.OdeConverge
import Verif.Props.OdeCount
import Verif.Props.OdeDenseOrder
import Verif.Props.OdeDenseConverge
import Verif.Props.OdeDenseBad
import Verif.Props.OdeJump
import Verif.Props.DfgConverge
import Verif.Props.OdeDense
import Verif.Props.OdeOrder
import Verif.Model.PulseMore
import Verif.Props.PulseDechirp
import Verif.Props.LeastSquares
import Verif.Props.CrystalTuningDeng
import Verif.Props.CrystalTuning
import Verif.Props.TemperatureTuning
import Verif.Props.DfgVg
import Verif.Props.Ffts2
import Verif.Props.Spectrogram
import Verif.Props.Interpolate
import Verif.Props.SsfmOrder
import Verif.Props.SsfmConverge
import Verif.Lemmas.Taper
import Verif.Props.Taper
import Verif.Props.RamanKernel
import Verif.Lemmas.SsfmSteep
import Verif.Props.SsfmSteep
import Verif.Props.Symmetry
import Verif.Lemmas.Extrapolate
import Verif.Lemmas.SplitStep
import Verif.Props.SplitStep
import Verif.Lemmas.SsfmLog
import Verif.Props.SsfmSteps
import Verif.Props.Modulation
import Verif.Props.FourWave
import Verif.Props.Hamiltonian
import Verif.Props.Rounding
import Verif.Lemmas.Recentre
import Verif.Props.Recentre
import Verif.Props.PhotonNumber
import Verif.Lemmas.Wiener
import Verif.Lemmas.WienerSmooth
import Verif.Lemmas.WienerSolution
import Verif.Lemmas.WienerNlse
import Verif.Lemmas.WienerGlobal
import Verif.Lemmas.WienerEnergy
import Verif.Lemmas.WienerTame
import Verif.Lemmas.WienerRaman
import Verif.Lemmas.WienerRamanBound
import Verif.Lemmas.WienerQuartic
import Verif.Lemmas.WienerNormal
import Verif.Lemmas.WienerResonance
import Verif.Lemmas.WienerRamanExist
import Verif.Lemmas.NlseFlat
import Verif.Lemmas.WienerAll
import Verif.Props.Existence
import Verif.Props.Limit
import Verif.Lemmas.SsfmSym
import Verif.Lemmas.FourierSeries
import Verif.Spec.Nlse
import Verif.Lemmas.Aliasing
import Verif.Lemmas.NlseStable
import Verif.Props.Nlse
import Verif.Props.NlseExamples
import Verif.Lemmas.RamanGrid
import Verif.Props.NlseRaman
import Verif.Model.SsfmGlobals
import Verif.Props.Globals
import Verif.Props.RamanFreq
import Verif.Spec.RedShift
import Verif.Lemmas.Momentum
import Verif.Lemmas.Drag
import Verif.Lemmas.Centroid
import Verif.Props.RedShift
import Verif.Props.PulseFrame
import Verif.Model.PulseFiles
import Verif.Props.PulseFiles
import Verif.Props.DfgLines
import Verif.Props.DfgQpm
import Verif.Model.DfgPpln
import Verif.Props.DfgPeriod
import Verif.Props.DfgWorkflow
import Verif.Model.CrystalObj
import Verif.Props.CrystalObj
import Verif.Props.DfgParametric
import Verif.Props.DfgDetuned
import Verif.Spec.Sobolev
import Verif.Lemmas.NlseSobolev
import Verif.Props.NlseRobust
import Verif.Spec.Soliton
import Verif.Lemmas.SolitonShape
import Verif.Props.Soliton
import Verif.Props.Line
import Verif.Props.SecondSoliton
import Verif.Props.GaussianSpread
import Verif.Py.Single
import Verif.Lemmas.Single
import Verif.Model.SsfmSingle
import Verif.Lemmas.SingleCoherence
import Verif.Props.SinglePrecision
import Verif.Py.Double
import Verif.Lemmas.Double
import Verif.Model.SsfmCtrlFloat
import Verif.Props.SsfmDouble
import Verif.Model.DfgPolingFloat
import Verif.Model.OdeFloat
import Verif.Props.OdeDouble
import Verif.Props.OdeDoubleRuns
import Verif.Props.FiberChirp
import Verif.Props.DfgPolingDouble
import Verif.Props.PulseWidth
import Verif.Props.DfgPoledGain
import Verif.Props.DfgBorn
import Verif.Lemmas.DragSpectrum
import Verif.Lemmas.RamanSine
import Verif.Props.RedShiftSign
import Verif.Props.RamanLines
import Verif.Spec.Broadening
import Verif.Props.Broadening
import Verif.Spec.Steepening
import Verif.Props.Steepening
import Verif.Spec.PowerFlow
import Verif.Props.PowerFlow
import Verif.Props.DfgConvert
import Verif.Props.Galilei
import Verif.Props.StepRule
import Verif.Props.StepRuleDouble
import Verif.Lemmas.SsfmScale
import Verif.Props.Similarity
import Verif.Lemmas.OdeScale
import Verif.Props.OdeUnits
