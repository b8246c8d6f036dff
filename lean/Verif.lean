import Verif.Model.Params
import Verif.Model.TriggerOrder
import Verif.Spec.Graph
import Verif.Lemmas.TriggerOrder
import Verif.Props.TriggerOrder
import Verif.Model.Protocol
import Verif.Spec.Protocol
import Verif.Lemmas.Protocol
import Verif.Model.Loop
import Verif.Spec.Dataflow
import Verif.Lemmas.Loop
import Verif.Props.Loop
import Verif.Model.LoopControl
import Verif.Model.Inputs
import Verif.Spec.Rate
import Verif.Props.LoopControl
import Verif.Props.Inputs
import Verif.Props.Protocol
import Verif.Model.SplitOutput
import Verif.Props.SplitOutput
import Verif.Model.Raw
import Verif.Lemmas.Dict
import Verif.Model.BuildOrder
import Verif.Spec.Refs
import Verif.Props.BuildOrder
import Verif.Model.Combine
import Verif.Spec.Combine
import Verif.Props.Combine
import Verif.Props.Overrides
import Verif.Model.Replay
import Verif.Spec.Replay
import Verif.Lemmas.Replay
import Verif.Props.Replay
import Verif.Props.TargetedReplay
import Verif.Model.Ranks
import Verif.Spec.Ranks
import Verif.Props.Ranks
import Verif.Model.Mpi
import Verif.Spec.Mpi
import Verif.Lemmas.Mpi
import Verif.Lemmas.MpiRun
import Verif.Props.Mpi
import Verif.Model.Wire
import Verif.Props.Wire
import Verif.Model.Tag
import Verif.Props.Tag
import Verif.Model.Integration
import Verif.Props.Integration
import Verif.Model.Buffer
import Verif.Props.Buffer
import Verif.Model.Store
import Verif.Props.Store
import Verif.Model.Float
import Verif.Props.Float
import Verif.Model.Playback
import Verif.Props.Playback
import Verif.Model.Filter
import Verif.Props.Filter
import Verif.Model.PushPull
import Verif.Props.PushPull
import Verif.Model.Reconstruct
import Verif.Props.Reconstruct
import Verif.Model.GainOpt
import Verif.Props.GainOpt
import Verif.Model.Resample
import Verif.Spec.Resample
import Verif.Props.Resample
import Verif.Model.PyrSlopes
import Verif.Props.PyrSlopes
import Verif.Model.ShSlopes
import Verif.Props.ShSlopes
import Verif.Model.Select
import Verif.Props.Select
import Verif.Model.SlopeVec
import Verif.Props.SlopeVec
import Verif.Model.SlopeRotate
import Verif.Props.SlopeRotate
import Verif.Model.Dm
import Verif.Props.Dm
import Verif.Model.EField
import Verif.Props.EField
import Verif.Model.Interp
import Verif.Props.Interp
import Verif.Model.Atmo
import Verif.Props.Atmo
import Verif.Model.Zernike
import Verif.Props.Zernike
import Verif.Model.Radial
import Verif.Props.Radial
import Verif.Model.Psf
import Verif.Props.Psf
import Verif.Model.PsfGeom
import Verif.Props.PsfGeom
import Verif.Model.DarkCal
import Verif.Props.DarkCal
import Verif.Model.Fits
import Verif.Props.Fits
import Verif.Model.Names
import Verif.Props.Names
import Verif.Model.Stability
import Verif.Props.Stability
import Verif.Model.Multirate
import Verif.Props.Multirate
import Verif.Model.Operation
import Verif.Props.Operation
import Verif.Props.Assembly
import Verif.Model.Generators
import Verif.Props.Generators
import Verif.Model.Demod
import Verif.Props.Demod
import Verif.Model.Infinite
import Verif.Props.Infinite
import Verif.Model.Unwrap
import Verif.Props.Unwrap
import Verif.Model.Modal
import Verif.Props.Modal
import Verif.Model.Mmse
import Verif.Props.Mmse
import Verif.Model.MultiCal
import Verif.Props.MultiCal
import Verif.Model.Extrap
import Verif.Props.Extrap
import Verif.Model.Ccd
import Verif.Props.Ccd
import Verif.Model.SubapCal
import Verif.Props.SubapCal
import Verif.Model.PupCal
import Verif.Props.PupCal
import Verif.Model.Sh
import Verif.Props.Sh
import Verif.Props.ShSpots
import Verif.Model.ModPyr
import Verif.Props.ModPyr
import Verif.Model.FieldAna
import Verif.Props.FieldAna
import Verif.Model.Masks
import Verif.Props.Masks
import Verif.Props.Spider
import Verif.Props.Petals
import Verif.Model.PixSlopes
import Verif.Props.PixSlopes
import Verif.Model.Cube
import Verif.Props.Cube
import Verif.Model.PolyChrom
import Verif.Props.PolyChrom
import Verif.Model.Photometry
import Verif.Props.Photometry
import Verif.Model.Refraction
import Verif.Props.Refraction
import Verif.Model.Fresnel
import Verif.Props.Fresnel
import Verif.Model.Vibration
import Verif.Props.Vibration
import Verif.Model.Coronagraph
import Verif.Props.Coronagraph
import Verif.Model.PerfectCoro
import Verif.Props.PerfectCoro
import Verif.Model.ExtSource
import Verif.Props.ExtSource
import Verif.Model.LgsKernel
import Verif.Props.LgsKernel
import Verif.Model.IdealDer
import Verif.Props.IdealDer
import Verif.Model.Sprint
import Verif.Props.Sprint
import Verif.Model.Lift
import Verif.Props.Lift
import Verif.Model.Ciao
import Verif.Props.Ciao
import Verif.Model.Curvature
import Verif.Props.Curvature
import Verif.Model.PyrProp
import Verif.Props.PyrProp
import Verif.Model.RoofSpot
import Verif.Props.RoofSpot
import Verif.Model.DynFilter
import Verif.Props.DynFilter
import Verif.Model.LowPass
import Verif.Props.LowPass
import Verif.Model.Slaving
import Verif.Props.Slaving
import Verif.Model.PhaseScreen
import Verif.Props.PhaseScreen
import Verif.Model.RandomPhase
import Verif.Props.RandomPhase
import Verif.Model.LocalMean
import Verif.Props.LocalMean
import Verif.Model.Elong
import Verif.Props.Elong
import Verif.Model.ModalBase
import Verif.Props.ModalBase
import Verif.Model.Fsoc
import Verif.Props.Fsoc
import Verif.Model.PlateScale
import Verif.Props.PlateScale
import Verif.Model.History
import Verif.Props.History
import Verif.Model.DispServer
import Verif.Props.DispServer
import Verif.Model.SpotMon
import Verif.Props.SpotMon
import Verif.Model.ZernIfunc
import Verif.Props.ZernIfunc
import Verif.Model.DynPup
import Verif.Props.DynPup
import Verif.Model.EltM1
import Verif.Props.EltM1
import Verif.Model.CalFiles
import Verif.Props.CalFiles
import Verif.Model.LiveIn
import Verif.Props.LiveIn
import Verif.Model.SprintPyr
import Verif.Props.SprintPyr
import Verif.Model.Device
import Verif.Props.Device
import Verif.Model.DevLink
import Verif.Props.DevLink
import Verif.Model.ImGen
import Verif.Props.ImGen
import Verif.Model.ImageView
import Verif.Props.ImageView
import Verif.Model.LoopTf
import Verif.Props.LoopTf
import Verif.Model.Poles
import Verif.Props.Poles
import Verif.Model.CtrlTf
import Verif.Props.CtrlTf
import Verif.Model.MmseGen
import Verif.Props.MmseGen
import Verif.Model.ModesView
import Verif.Props.ModesView
