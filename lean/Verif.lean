import Verif.Props.Timestamp
import Verif.Props.TimestampArith
import Verif.Props.HistBuffer
import Verif.Props.MultiBuffer
import Verif.Props.Horizon
import Verif.Props.Handler
import Verif.Props.Lifecycle
import Verif.Props.Convergence
import Verif.Props.ConvergenceInst
import Verif.Props.HandlerExamples
import Verif.Props.StandaloneKF
import Verif.Props.KalmanMath
import Verif.Props.NIS
import Verif.Props.CovInt
import Verif.Props.CrossCov
import Verif.Props.FactorStore
import Verif.Props.Isolated
import Verif.Props.Progress
import Verif.Props.IsolatedExamples
import Verif.Props.Corr
import Verif.Props.CorrExamples
import Verif.Props.Lock
import Verif.Props.Names
import Verif.Props.Registry
import Verif.Props.MultiAgent
import Verif.Props.MathUtils
import Verif.Props.MatUtils
import Verif.Props.MeasData
import Verif.Props.Csv
import Verif.Props.Schmidt
import Verif.Props.SchmidtJoint
import Verif.Props.SchmidtExamples
import Verif.Props.StdFilters
import Verif.Props.StdJoint
import Verif.Props.StdExamples
import Verif.Props.Iterated
import Verif.Props.IteratedExamples
import Verif.Props.Decoupled
import Verif.Props.DecoupledIter
import Verif.Props.Collab
import Verif.Props.CollabProgress
import Verif.Props.CollabLinks
import Verif.Props.CollabExamples
import Verif.Lemmas.CollabH
import Verif.Spec.CollabH
import Verif.Props.CollabNonlinear
import Verif.Props.CollabNonlinearExamples
import Verif.Model.DciHandler
import Verif.Spec.Dci
import Verif.Lemmas.Dci
import Verif.Props.Dci
import Verif.Props.DciProgress
import Verif.Props.DciExamples
import Verif.Model.CollabRedo
import Verif.Lemmas.Relaxed
import Verif.Props.CollabRedo
import Verif.Props.CollabRedoExamples
import Verif.Lemmas.ChiSquare
import Verif.Lemmas.ChiSquareLaw
import Verif.Props.NISTable
import Verif.Model.Access
import Verif.Props.Access
import Verif.Model.Heap
import Verif.Lemmas.Heap
import Verif.Props.Heap
import Verif.Props.HeapExamples
import Verif.Spec.GaussNewton
import Verif.Lemmas.GaussNewton
import Verif.Props.GaussNewton
import Verif.Props.GaussNewtonExamples
import Verif.Props.Prior
import Verif.Props.PriorExamples
import Verif.Model.UserFilter
import Verif.Spec.EndToEnd
import Verif.Lemmas.ConvergenceRel
import Verif.Lemmas.Off
import Verif.Lemmas.EndToEnd
import Verif.Props.EndToEnd
import Verif.Props.EndToEndExamples
import Verif.Props.History
import Verif.Props.Linear1D
import Verif.Props.Answers
import Verif.Props.DelayDemo
import Verif.Props.CyclicThread
import Verif.Props.Rate
import Verif.Props.Normal
import Verif.Props.NoiseGen
import Verif.Props.Quat
import Verif.Props.PathStr
import Verif.Props.FileSys
import Verif.Model.StandaloneMath
import Verif.Spec.StandaloneMath
import Verif.Props.StandaloneMath
import Verif.Props.StandaloneDelay
import Verif.Props.StandaloneKalman
import Verif.Spec.Covariance
import Verif.Lemmas.Covariance
import Verif.Lemmas.CovarianceNet
import Verif.Props.Covariance
import Verif.Props.CovarianceNet
import Verif.Model.Concurrent
import Verif.Spec.Concurrent
import Verif.Lemmas.Concurrent
import Verif.Props.Concurrent
import Verif.Props.ConcurrentHandler
import Verif.Spec.Team
import Verif.Lemmas.Team
import Verif.Spec.TeamStd
import Verif.Lemmas.TeamSlack
import Verif.Props.Team
import Verif.Props.TeamExamples
import Verif.Props.TeamStd
import Verif.Props.TeamPairs
import Verif.Props.StdProgress
import Verif.Model.SimpleCmd
import Verif.Spec.SimpleCmd
import Verif.Lemmas.SimpleCmdScript
import Verif.Props.SimpleCmd
import Verif.Props.SimpleCmdClock
import Verif.Props.SimpleCmdStep
import Verif.Props.SimpleCmdPair
import Verif.Props.ProgressBar
import Verif.Props.Walk
import Verif.Props.Stamped
import Verif.Props.Restart
import Verif.Props.Correlated
import Verif.Props.Convert
import Verif.Props.SampleStats
import Verif.Props.Honest
import Verif.Props.HonestTeam
import Verif.Props.HonestLoop
import Verif.Props.HonestChain
import Verif.Props.TeamChain
import Verif.Props.Certainty
import Verif.Props.CertaintyReg
import Verif.Props.Bounded
import Verif.Props.Simultaneous
import Verif.Props.SimultaneousReg
import Verif.Props.Units
import Verif.Props.UnitsReg
import Verif.Props.Solo
import Verif.Props.Log
import Verif.Props.Stats
import Verif.Props.Listing
import Verif.Props.NearOptimal
import Verif.Props.PreCheck
import Verif.Props.Forget
import Verif.Props.Rename
import Verif.Props.Linear
import Verif.Props.Groups
import Verif.Props.Retime
import Verif.Model.TimeAcc
import Verif.Props.TimeAcc
import Verif.Model.VertCat
import Verif.Props.VertCat
import Verif.Model.Ldlt
import Verif.Props.Ldlt
import Verif.Props.LdltUse
import Verif.Model.FixPsd
import Verif.Props.LdltRepair
import Verif.Spec.Commute
import Verif.Props.Commute
import Verif.Spec.Saved
import Verif.Props.Saved
import Verif.Model.Members
import Verif.Spec.Members
import Verif.Props.Members
import Verif.Spec.Information
import Verif.Props.Information
import Verif.Spec.Innovation
import Verif.Props.Innovation
import Verif.Props.InnovationGauss
import Verif.Props.InnovationTeam
import Verif.Spec.Region
import Verif.Props.Region
import Verif.Props.RegionTeam
import Verif.Spec.Compromise
import Verif.Props.Compromise
import Verif.Props.CompromiseTeam
