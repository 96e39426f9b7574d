import Verif.Props.Cache
import Verif.Props.ExactTime
import Verif.Props.Epsilon
import Verif.Props.Approx
import Verif.Props.Aligner
import Verif.Props.Sequencer
import Verif.Props.Signal
import Verif.Props.Latest
import Verif.Props.Network
import Verif.Props.Pipeline
import Verif.Props.Chain
import Verif.Props.Subscriber
import Verif.Props.PolicyCopy
import Verif.Props.Mutex
import Verif.Props.Deadlock
import Verif.Props.SequencerConc
import Verif.Props.CacheConc
import Verif.Props.Throw
import Verif.Props.ThrowApprox
import Verif.Props.Time64
import Verif.Props.Warnings
import Verif.Props.PyNet
import Verif.Props.PySubscriber
import Verif.Props.PySync
import Verif.Props.PyCache
import Verif.Props.PyCacheConc
import Verif.Props.PyFilter
import Verif.Props.PyConstruct
import Verif.Props.NullSlots
import Verif.Props.EventVars
import Verif.Props.PolicyAssign
import Verif.Props.LatestClock
import Verif.Props.ClockMix
import Verif.Props.Lifetime
import Verif.Props.PyConc
import Verif.Props.PyConcFilter
import Verif.Props.PyWindow
import Verif.Props.Restart
import Verif.Props.Rounds
import Verif.Props.ApproxEarly
import Verif.Props.ApproxLive
import Verif.Props.ExactRoom
import Verif.Props.PyRoom
import Verif.Props.EpsilonRoom
import Verif.Props.ApproxMaximal
import Verif.Props.ApproxRoom
import Verif.Props.ZeroTolerance
import Verif.Props.PyApproxRoom
import Verif.Props.AlignerMerge
import Verif.Props.SequencerRoom
import Verif.Props.Rates
import Verif.Props.PipelineMerge
import Verif.Props.PyReach
import Verif.Props.EpsilonReach
import Verif.Props.Apart
import Verif.Props.ApproxChoice
import Verif.Props.ApproxDecided
import Verif.Props.ApartRates
import Verif.Props.ApproxBounds
import Verif.Props.Pairing
import Verif.Props.Recover
import Verif.Props.TimeOrder
import Verif.Model.Traits
import Verif.Spec.Headerless
import Verif.Proofs.Headerless
import Verif.Proofs.HeaderlessAligner
import Verif.Props.Headerless
import Verif.Spec.FanOut
import Verif.Proofs.FanOut
import Verif.Props.FanOut
import Verif.Spec.LateStart
import Verif.Proofs.LateStart
import Verif.Proofs.LateStartApprox
import Verif.Proofs.LateStartExact
import Verif.Proofs.LateStartPy
import Verif.Props.LateStart
import Verif.Spec.LatestOutage
import Verif.Proofs.LatestOutage
import Verif.Props.LatestOutage
import Verif.Proofs.AlignerDelay
import Verif.Props.AlignerDelay
import Verif.Proofs.CacheFinal
import Verif.Props.CacheFinal
import Verif.Proofs.SequencersApprox
import Verif.Props.SequencersApprox
import Verif.Spec.ChainSource
import Verif.Proofs.ChainSource
import Verif.Props.ChainSource
import Verif.Spec.Shift
import Verif.Proofs.Shift
import Verif.Proofs.ShiftMore
import Verif.Proofs.ShiftPy
import Verif.Props.Shift
import Verif.Spec.Renumber
import Verif.Proofs.Renumber
import Verif.Props.Renumber
import Verif.Spec.Replay
import Verif.Proofs.Replay
import Verif.Props.Replay
import Verif.Spec.Narrow
import Verif.Proofs.Narrow
import Verif.Props.Narrow
import Verif.Spec.Lossy
import Verif.Proofs.Lossy
import Verif.Props.Lossy
import Verif.Props.Repeated
import Verif.Proofs.PyCacheFinal
import Verif.Props.PyCacheFinal
import Verif.Props.RepeatedAligned
import Verif.Props.Tolerance
import Verif.Proofs.LargerSequencer
import Verif.Props.LargerQueue
import Verif.Spec.CacheAgree
import Verif.Props.CacheAgree
import Verif.Spec.TimerCalls
import Verif.Proofs.TimerCalls
import Verif.Props.TimerCalls
import Verif.Proofs.AgePenalty
import Verif.Props.AgePenalty
import Verif.Props.PolicyCopyDrops
import Verif.Props.ApproxNoGap
import Verif.Props.ApproxEarlier
import Verif.Props.LossyGain
import Verif.Spec.Ahead
import Verif.Proofs.Ahead
import Verif.Props.Ahead
