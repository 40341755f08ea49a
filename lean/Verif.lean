import Verif.Basic.Heap
import Verif.Basic.DivMod
import Verif.Model.Field
import Verif.Model.Folder
import Verif.Spec.Layout
import Verif.Lemmas.Folder
import Verif.Props.Folder
import Verif.Props.Slices
import Verif.Model.Index
import Verif.Props.Index
import Verif.Model.Tiles
import Verif.Props.Tiles
import Verif.Model.Passes
import Verif.Props.Passes
import Verif.Model.Comms
import Verif.Lemmas.Comms
import Verif.Props.Comms
import Verif.Props.Ghosts
import Verif.Model.Cluster
import Verif.Spec.Lattice
import Verif.Lemmas.Cluster
import Verif.Props.Ranks
import Verif.Model.Integrator
import Verif.Props.Integrator
import Verif.Model.Step
import Verif.Props.Reversible
import Verif.Model.Simd
import Verif.Model.Stencil
import Verif.Spec.Laplacian
import Verif.Lemmas.Stencil
import Verif.Props.Stencil
import Verif.Model.Weights
import Verif.Props.Weights
import Verif.Model.FieldType
import Verif.Props.SetField
import Verif.Model.MemAlloc
import Verif.Props.MemAlloc
import Verif.Model.Lifetime
import Verif.Props.Lifetime
import Verif.Model.Tunable
import Verif.Props.Tunable
import Verif.Model.Tuner
import Verif.Props.Tuner
import Verif.Model.Cosmos
import Verif.Props.Mass
import Verif.Props.TimeStep
import Verif.Model.Binner
import Verif.Model.Peaks
import Verif.Props.Binner
import Verif.Props.Peaks
import Verif.Model.Winding
import Verif.Spec.Winding
import Verif.Props.Winding
import Verif.Props.StringFlux
import Verif.Model.StringMap
import Verif.Lemmas.StringMap
import Verif.Props.StringMap
import Verif.Basic.Fold
import Verif.Basic.Cells
import Verif.Model.Mend
import Verif.Spec.Mend
import Verif.Lemmas.Mend
import Verif.Lemmas.MendLine
import Verif.Lemmas.MendSlice
import Verif.Lemmas.MendRow
import Verif.Props.Mend
import Verif.Model.Spectrum
import Verif.Spec.Spectrum
import Verif.Lemmas.Spectrum
import Verif.Props.Spectrum
import Verif.Model.Pad
import Verif.Spec.Pad
import Verif.Lemmas.Pad
import Verif.Props.Pad
import Verif.Model.Reduce
import Verif.Spec.Reduce
import Verif.Lemmas.Reduce
import Verif.Props.Reduce
import Verif.Model.MaskBall
import Verif.Spec.MaskBall
import Verif.Lemmas.MaskBall
import Verif.Props.MaskBall
import Verif.Model.Smooth
import Verif.Spec.Smooth
import Verif.Lemmas.Smooth
import Verif.Props.Smooth
import Verif.Model.Plans
import Verif.Spec.Plans
import Verif.Lemmas.Plans
import Verif.Props.Plans
import Verif.Model.Log
import Verif.Spec.Log
import Verif.Lemmas.Log
import Verif.Props.Log
import Verif.Model.PropChoice
import Verif.Spec.PropChoice
import Verif.Lemmas.PropChoice
import Verif.Props.PropChoice
import Verif.Model.ConfIO
import Verif.Spec.ConfIO
import Verif.Lemmas.ConfIO
import Verif.Props.ConfIO
import Verif.Model.Header
import Verif.Spec.Header
import Verif.Lemmas.Header
import Verif.Props.Header
import Verif.Model.CheckTime
import Verif.Spec.CheckTime
import Verif.Lemmas.CheckTime
import Verif.Lemmas.CheckTimeFiles
import Verif.Props.CheckTime
import Verif.Model.MeasList
import Verif.Spec.MeasList
import Verif.Lemmas.MeasList
import Verif.Props.MeasList
import Verif.Model.TimeLoop
import Verif.Lemmas.TimeLoop
import Verif.Props.TimeLoop
import Verif.Model.Save
import Verif.Spec.Save
import Verif.Lemmas.Save
import Verif.Props.Save
import Verif.Model.Spectral
import Verif.Spec.Spectral
import Verif.Lemmas.Spectral
import Verif.Props.Spectral
import Verif.Model.Fourier
import Verif.Spec.Fourier
import Verif.Lemmas.Fourier
import Verif.Props.Fourier
import Verif.Model.Tracker
import Verif.Spec.Tracker
import Verif.Lemmas.Tracker
import Verif.Props.Tracker
import Verif.Model.Projector
import Verif.Spec.Projector
import Verif.Lemmas.Projector
import Verif.Props.Projector
import Verif.Model.SaxKernel
import Verif.Spec.SaxKernel
import Verif.Lemmas.SaxKernel
import Verif.Lemmas.Force
import Verif.Props.SaxKernel
import Verif.Props.Force
import Verif.Model.EnergyLoop
import Verif.Model.EnergyTheta
import Verif.Lemmas.EnergyLoop
import Verif.Lemmas.EnergyTheta
import Verif.Spec.Energy
import Verif.Props.EnergyTheta
import Verif.Model.EnergySax
import Verif.Lemmas.EnergySax
import Verif.Spec.EnergySax
import Verif.Props.EnergySax
import Verif.Model.EnergyCall
import Verif.Spec.EnergyCall
import Verif.Props.EnergyCall
import Verif.Model.Derived
import Verif.Spec.Derived
import Verif.Props.Derived
import Verif.Model.ToTheta
import Verif.Spec.ToTheta
import Verif.Lemmas.ToTheta
import Verif.Props.ToTheta
import Verif.Model.Shift
import Verif.Lemmas.Shift
import Verif.Props.Shift
import Verif.Model.Norm
import Verif.Spec.Norm
import Verif.Props.Norm
import Verif.Model.Expand
import Verif.Spec.Expand
import Verif.Lemmas.Expand
import Verif.Props.Expand
import Verif.Model.ThetaKernel
import Verif.Spec.ThetaKernel
import Verif.Props.ThetaKernel
import Verif.Model.Run
import Verif.Spec.Run
import Verif.Lemmas.Run
import Verif.Props.Run
import Verif.Model.Gravity
import Verif.Spec.Gravity
import Verif.Lemmas.Gravity
import Verif.Props.Gravity
import Verif.Model.GravityHybrid
import Verif.Props.GravityHybrid
import Verif.Model.WKB
import Verif.Model.WKBField
import Verif.Spec.WKB
import Verif.Lemmas.WKB
import Verif.Lemmas.WKBPhase
import Verif.Lemmas.WKBField
import Verif.Props.WKB
import Verif.Props.WKBMode
import Verif.Props.WKBRun
import Verif.Props.WKBField
import Verif.Props.WKBDemo
import Verif.Model.MassRate
import Verif.Lemmas.MassRate
import Verif.Props.MassRate
import Verif.Props.MassIntegral
import Verif.Props.MassIntegral2
import Verif.Model.Paxion
import Verif.Spec.Paxion
import Verif.Lemmas.Paxion
import Verif.Props.Paxion
import Verif.Props.PaxionLaw
import Verif.Model.Nonrel
import Verif.Props.Nonrel
import Verif.Props.NonrelLaw
import Verif.Basic.Writes
import Verif.Model.EnergyPax
import Verif.Spec.EnergyPax
import Verif.Lemmas.EnergyPax
import Verif.Props.EnergyPax
import Verif.Model.MomConf
import Verif.Spec.MomConf
import Verif.Lemmas.MomConf
import Verif.Props.MomConf
import Verif.Basic.Tickets
import Verif.Model.RandConf
import Verif.Spec.RandConf
import Verif.Lemmas.RandConf
import Verif.Props.RandConf
import Verif.Model.AnyString
import Verif.Spec.AnyString
import Verif.Lemmas.AnyString
import Verif.Props.AnyString
import Verif.Model.StartField
import Verif.Spec.StartField
import Verif.Lemmas.StartField
import Verif.Props.StartField
import Verif.Model.GadgetVoid
import Verif.Spec.GadgetVoid
import Verif.Lemmas.GadgetVoid
import Verif.Props.GadgetVoid
import Verif.Props.GadgetParts
import Verif.Model.GadgetHalo
import Verif.Spec.GadgetHalo
import Verif.Lemmas.GadgetHalo
import Verif.Lemmas.GadgetRanks
import Verif.Props.GadgetHalo
import Verif.Props.GadgetBalance
import Verif.Props.PaxionStages
import Verif.Props.MomString
import Verif.Props.RandWave
import Verif.Model.AxionSpectrum
import Verif.Spec.AxionSpectrum
import Verif.Lemmas.AxionSpectrum
import Verif.Lemmas.AxionSweep
import Verif.Props.AxionTable
import Verif.Props.AxionSpectrum
import Verif.Props.AxionPotential
import Verif.Props.AxionSymbols
import Verif.Props.AxionStored
import Verif.Props.SpectrumTotal
import Verif.Model.SaxionSpectrum
import Verif.Props.SaxionSpectrum
import Verif.Props.Masker
import Verif.Props.MaskerDiffuse
import Verif.Props.MaskerDiff
import Verif.Props.MaskerShape
import Verif.Props.MaskerFinal
import Verif.Model.StringLength
import Verif.Lemmas.StringCross
import Verif.Props.StringCross
import Verif.Spec.StringLength
import Verif.Lemmas.StringLength
import Verif.Props.StringLength
import Verif.Props.StringLengthMore
import Verif.Props.StringSpeed
import Verif.Model.StringEnergy
import Verif.Spec.StringEnergy
import Verif.Lemmas.StringEnergy
import Verif.Props.StringEnergy
import Verif.Props.StringEnergyMore
import Verif.Model.Spline
import Verif.Spec.Spline
import Verif.Lemmas.SplineBand
import Verif.Lemmas.Spline
import Verif.Lemmas.SplinePieces
import Verif.Lemmas.SplineReal
import Verif.Props.Spline
import Verif.Model.CosTable
import Verif.Spec.CosTable
import Verif.Lemmas.CosTable
import Verif.Props.CosTable
import Verif.Model.StringFile
import Verif.Spec.StringFile
import Verif.Lemmas.StringFile
import Verif.Props.StringFile
import Verif.Model.MeasRun
import Verif.Spec.MeasRun
import Verif.Lemmas.MeasRunTrace
import Verif.Lemmas.MeasRunEnergy
import Verif.Lemmas.MeasRunNames
import Verif.Lemmas.MeasRunItems
import Verif.Lemmas.MeasRunAsked
import Verif.Lemmas.MeasRunEnds
import Verif.Lemmas.MeasRunSax
import Verif.Lemmas.MeasRunAx
import Verif.Lemmas.MeasRunFile
import Verif.Props.MeasRun
import Verif.Model.Groups
import Verif.Spec.Groups
import Verif.Lemmas.GroupsRun
import Verif.Lemmas.GroupsSeeds
import Verif.Lemmas.GroupsSites
import Verif.Lemmas.GroupsLinked
import Verif.Props.Groups
import Verif.Model.SpecLap
import Verif.Spec.SpecLap
import Verif.Lemmas.SpecLapModes
import Verif.Lemmas.SpecLapWaves
import Verif.Lemmas.SpecLapStage
import Verif.Props.SpecLap
import Verif.Model.FullSpec
import Verif.Spec.FullSpec
import Verif.Lemmas.FullSpecWave
import Verif.Lemmas.FullSpec
import Verif.Lemmas.FullSpecStage
import Verif.Lemmas.FullSpecRun
import Verif.Lemmas.FullSpecSax
import Verif.Props.FullSpec
import Verif.Props.FullSpecMass
import Verif.Model.FieldSpectrum
import Verif.Spec.FieldSpectrum
import Verif.Lemmas.FieldSpectrum
import Verif.Props.FieldSpectrum
import Verif.Props.FieldSpectrumAxit
import Verif.Model.SmoothFourier
import Verif.Spec.SmoothFourier
import Verif.Lemmas.SmoothFourier
import Verif.Lemmas.SmoothFourierRun
import Verif.Props.SmoothFourier
import Verif.Props.SmoothFourierWindow
import Verif.Model.MeasLog
import Verif.Spec.MeasLog
import Verif.Lemmas.MeasLog
import Verif.Props.MeasLog
import Verif.Model.SaxSweep
import Verif.Spec.SaxSweep
import Verif.Lemmas.SaxSweep
import Verif.Props.SaxRun
import Verif.Spec.AxionRun
import Verif.Props.AxionRun
import Verif.Spec.RunSymmetry
import Verif.Props.RunSymmetry
import Verif.Model.Relax
import Verif.Spec.Relax
import Verif.Props.Relax
import Verif.Spec.Reach
import Verif.Props.Reach
import Verif.Spec.Stable
import Verif.Props.Stable
import Verif.Model.DensMap
import Verif.Spec.DensMap
import Verif.Props.DensMap
import Verif.Model.Contrast
import Verif.Spec.Contrast
import Verif.Props.Contrast
import Verif.Spec.KeepsSymmetry
import Verif.Props.KeepsSymmetry
import Verif.Model.StringLut
import Verif.Spec.StringLut
import Verif.Props.StringLut
import Verif.Model.TuneHybrid
import Verif.Spec.TuneHybrid
import Verif.Props.TuneHybrid
import Verif.Model.SpecFilter
import Verif.Spec.SpecFilter
import Verif.Props.SpecFilter
import Verif.Model.MaskMatrix
import Verif.Spec.MaskMatrix
import Verif.Props.MaskMatrix
import Verif.Model.Moore
import Verif.Spec.Moore
import Verif.Props.Moore
import Verif.Model.DensByte
import Verif.Props.DensByte
