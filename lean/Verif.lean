import Verif.Basic
import Verif.Model.Time
import Verif.Model.Events
import Verif.Model.Graph
import Verif.Model.Order
import Verif.Model.Alloc
import Verif.Lemmas.Events
import Verif.Lemmas.Graph
import Verif.Lemmas.GraphWF
import Verif.Lemmas.GraphOps
import Verif.Lemmas.GraphPath
import Verif.Lemmas.Order
import Verif.Lemmas.Alloc
import Verif.Lemmas.Schedule
import Verif.Props.Time
import Verif.Props.Events
import Verif.Props.GraphEdits
import Verif.Props.GraphSignals
import Verif.Props.Order
import Verif.Props.Dataflow
import Verif.Props.Silence
import Verif.Props.Commit
import Verif.Model.Tasks
import Verif.Lemmas.Tasks
import Verif.Props.Tasks
import Verif.Model.Feedback
import Verif.Props.Feedback
import Verif.Model.Wrappers
import Verif.Props.Wrappers
import Verif.Model.Smooth
import Verif.Props.Smooth
import Verif.Model.Done
import Verif.Props.Done
import Verif.Model.Envelope
import Verif.Props.Envelope
import Verif.Props.Segments
import Verif.Model.Delay
import Verif.Lemmas.Delay
import Verif.Props.Delay
import Verif.Props.StaticDelay
import Verif.Props.Allpass
import Verif.Model.Osc
import Verif.Props.Wavetable
import Verif.Props.Phase
import Verif.Model.Noise
import Verif.Lemmas.Xorshift
import Verif.Props.Rng
import Verif.Props.Noise
import Verif.Model.Buffer
import Verif.Props.Buffer
import Verif.Props.Playback
import Verif.Model.Params
import Verif.Props.ParamNames
import Verif.Props.ParamKinds
import Verif.Model.Block
import Verif.Props.Block
import Verif.Model.Arith
import Verif.Props.Arith
import Verif.Model.Log
import Verif.Props.Log
import Verif.Model.Backend
import Verif.Props.Backend
import Verif.Model.Filter
import Verif.Props.OnePole
import Verif.Props.Svf
import Verif.Props.SvfResponse
import Verif.Model.PolyBlep
import Verif.Lemmas.Blep
import Verif.Props.PolyBlep
import Verif.Model.Galactic
import Verif.Lemmas.Galactic
import Verif.Props.Galactic
import Verif.Props.GalacticStable
import Verif.Model.Handles
import Verif.Model.Link
import Verif.Model.SetMany
import Verif.Model.NodeHandles
import Verif.Model.DotPorts
import Verif.Model.Seeds
import Verif.Lemmas.Handles
import Verif.Props.Handles
import Verif.Model.Tables
import Verif.Lemmas.Tables
import Verif.Props.Tables
import Verif.Props.Windows
import Verif.Model.Units
import Verif.Props.Units
import Verif.Model.System
import Verif.Lemmas.System
import Verif.Props.System
import Verif.Props.SystemWiring
import Verif.Model.Inspect
import Verif.Lemmas.Inspect
import Verif.Props.Inspect
import Verif.Model.Edit
import Verif.Props.Edit
import Verif.Props.SystemNew
import Verif.Model.Lifetime
import Verif.Model.RealTime
import Verif.Lemmas.Lifetime
import Verif.Props.Lifetime
import Verif.Lemmas.OrderExact
import Verif.Props.OrderExact
import Verif.Model.Nested
import Verif.Lemmas.Nested
import Verif.Props.Nested
import Verif.Model.Ieee
import Verif.Lemmas.Ieee
import Verif.Props.Ieee
import Verif.Model.FloatUnits
import Verif.Props.FloatUnits
import Verif.Props.SvfModulated
import Verif.Model.Engine
import Verif.Lemmas.Engine
import Verif.Props.Engine
import Verif.Model.Races
import Verif.Lemmas.Races
import Verif.Props.Races
import Verif.Model.Macro
import Verif.Lemmas.Macro
import Verif.Props.Macro
import Verif.Lemmas.IeeeSigned
import Verif.Model.FloatNoise
import Verif.Model.FloatSmooth
import Verif.Model.FloatFilter
import Verif.Model.BufferFile
import Verif.Props.FloatNoise
import Verif.Props.FloatSmooth
import Verif.Props.FloatFilter
import Verif.Props.BufferFile
import Verif.Props.BufferDc
import Verif.Model.FloatWt
import Verif.Props.FloatWt
import Verif.Model.FloatReader
import Verif.Props.FloatReader
import Verif.Model.ParamHandle
import Verif.Props.ParamHandle
import Verif.Model.Names
import Verif.Props.Names
import Verif.Model.NonFinite
import Verif.Props.NonFinite
import Verif.Model.Hints
import Verif.Props.Hints
import Verif.Model.FloatSvf
import Verif.Lemmas.FloatSvf
import Verif.Props.FloatSvf
import Verif.Model.Errors
import Verif.Props.Errors
import Verif.Model.LogSys
import Verif.Props.LogSys
import Verif.Model.FloatBlep
import Verif.Props.FloatBlep
import Verif.Model.FloatDelay
import Verif.Props.FloatDelay
import Verif.Model.FloatEnv
import Verif.Props.FloatEnv
import Verif.Props.FloatMod
import Verif.Model.Chain
import Verif.Props.Chain
import Verif.Props.Memory
import Verif.Props.RealTime
import Verif.Props.Frames
import Verif.Props.Mixing
import Verif.Props.ParamLinks
import Verif.Props.Renaming
import Verif.Props.OwnNodes
import Verif.Props.Links
import Verif.Props.SetMany
import Verif.Props.NodeHandles
import Verif.Props.DotPorts
import Verif.Props.Seeds
import Verif.Props.TimeMul
import Verif.Props.BlepSettings
import Verif.Props.TimeWrap
import Verif.Props.OwnFeedback
import Verif.Audit
