import Verif.Graph.OrderProps
import Verif.Graph.SystemProps
import Verif.Graph.QuantumProps
import Verif.Graph.ConnProps
import Verif.Mix.Props
import Verif.Mix.Layouts
import Verif.Cow.Props
import Verif.Thread.Props
import Verif.Thread.OfflineProps
import Verif.Control.SendProps
import Verif.Control.StateProps
import Verif.Control.SinkProps
import Verif.Events.Props
import Verif.Param.AccurateProps
import Verif.Param.OutputProps
import Verif.Param.PanicProps
import Verif.Param.StartProps
import Verif.Param.CancelProps
import Verif.Param.ExpProps
import Verif.Param.CurveProps
import Verif.Source.ConstProps
import Verif.Source.BufferFault
import Verif.Source.BufferPosition
import Verif.Source.BufferAsked
import Verif.Delay.Props
import Verif.Analyser.Props
import Verif.Script.Props
import Verif.Node.MergeSplit
import Verif.Node.Gain
import Verif.Node.StereoPanner
import Verif.Node.WaveShaper
import Verif.Filter.IirProps
import Verif.Filter.BiquadProps
import Verif.Source.PeriodicWave
import Verif.Source.OscTune
import Verif.Buffer.Share
import Verif.Buffer.StreamProps
import Verif.Buffer.Track
import Verif.Buffer.TrackRace
import Verif.Valid.Props
import Verif.Stats.Concurrent
import Verif.Stats.Exposed
import Verif.Compressor.Model
import Verif.Compressor.Props
import Verif.Compressor.Gain
import Verif.Compressor.GainProps
import Verif.Convolver.Model
import Verif.Convolver.Props
import Verif.Convolver.Normalize
import Verif.Panner.Geometry
import Verif.Panner.Gain
import Verif.Panner.Process
import Verif.Panner.Props
import Verif.Panner.Tail
import Verif.Analyser.Freq
import Verif.Analyser.FreqProps
import Verif.Worklet.Model
import Verif.Worklet.Props
import Verif.Media.Recorder
import Verif.Media.RecorderProps
import Verif.Media.Destination
import Verif.Media.Element
import Verif.Capacity.Model
import Verif.Capacity.Props
import Verif.Decode.Model
import Verif.Decode.Props
import Verif.Io.NoneBackend
import Verif.Io.Microphone
import Verif.Io.Devices
import Verif.Io.Config
import Verif.Events.Queue
import Verif.Events.QueueProps
import Verif.Events.Offline
import Verif.Events.Suspend
import Verif.Filter.Response
import Verif.Graph.Wiring
import Verif.Graph.WiringProps
import Verif.Events.Late
import Verif.Thread.Garbage
import Verif.Param.TargetProps
import Verif.Param.PlayCurve
import Verif.Param.ValueProps
import Verif.Param.OverflowProps
import Verif.Create.Model
import Verif.Create.Props
import Verif.Create.FirstProps
import Verif.Attr.Model
import Verif.Attr.Props
import Verif.Node.Oversample
import Verif.Nan.Model
import Verif.Nan.Props
import Verif.Nan.Compressor
import Verif.Attr.Shared
import Verif.Attr.SharedProps
import Verif.Param.Envelope
import Verif.Param.Live
import Verif.Param.HoldTarget
import Verif.Graph.AnyOrder
import Verif.Graph.Isolated
import Verif.Thread.Same
import Verif.Graph.Hom
import Verif.Engine.Model
import Verif.Engine.Scale
import Verif.Graph.HomOn
import Verif.Graph.Trio
import Verif.Engine.Frames
import Verif.Engine.Linear
import Verif.Engine.Superpose
import Verif.Thread.Pause
import Verif.Graph.Release
import Verif.Tail.Ends
import Verif.Delay.Echo
import Verif.Graph.ParamFlow
import Verif.Engine.Modulation
import Verif.Param.Later
import Verif.Param.NewProps
import Verif.Engine.More
import Verif.Engine.MoreLinear
import Verif.Engine.MoreSum
import Verif.Whole.Device
import Verif.Source.Later
import Verif.Whole.Shift
import Verif.Whole.Studio
import Verif.Graph.Equations
import Verif.Whole.Stage
import Verif.Whole.Score
import Verif.Whole.Tones
import Verif.Whole.Band
import Verif.Whole.Tuning
import Verif.Whole.Program
import Verif.Whole.EnsembleProps
import Verif.Param.RateProps
import Verif.Source.BufferLive
import Verif.Whole.EnsembleClips
import Verif.Float.Error
import Verif.Source.OscDrift
import Verif.Source.Clock
import Verif.Mix.Rounding
import Verif.Graph.Shared
import Verif.Engine.Delays
import Verif.Graph.SharedProofs
import Verif.Engine.DelayInGraph
import Verif.Graph.SharedTrio
import Verif.Engine.DelaySum
import Verif.Engine.Spatial
import Verif.Mix.Scaling
import Verif.Filter.Scaling
