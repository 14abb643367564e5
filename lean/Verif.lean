import Verif.SegmentTree.Props
import Verif.SegmentTree.Lookup
import Verif.SegmentTree.LookupProps
import Verif.SegmentTree.RoundedProps
import Verif.Replay.SimpleProps
import Verif.Replay.PrioritizedProps
import Verif.RewardTracing.NStepProps
import Verif.RewardTracing.MonteCarloProps
import Verif.RewardTracing.BatchProps
import Verif.ConnectFour.StateId
import Verif.Utils.ChunksProps
import Verif.Utils.StepwiseProps
import Verif.Utils.RollingProps
import Verif.Utils.SyncProps
import Verif.Utils.EnvAttrProps
import Verif.Utils.ActionNoiseProps
import Verif.Wrappers.FrameStackingProps
import Verif.Wrappers.TrainMonitorProps
import Verif.Wrappers.PeriodProps
import Verif.Wrappers.CountersProps
import Verif.Wrappers.StreamingSampleProps
import Verif.Wrappers.BoxSpacesProps
import Verif.Values.TransformProps
import Verif.Values.LossesProps
import Verif.Core.QTypesProps
import Verif.Core.SoftUpdateProps
import Verif.TD.TargetsProps
import Verif.TD.UpdateProps
import Verif.TD.LossProps
import Verif.TD.RegTargetProps
import Verif.TD.RegIntervalProps
import Verif.TD.ExpectedType1Props
import Verif.Dists.CategoricalProps
import Verif.Dists.IntervalProps
import Verif.Dists.NormalProps
import Verif.Dists.SquashedProps
import Verif.Dists.GumbelProps
import Verif.Core.ValuePolicyProps
import Verif.Core.WorkerProps
import Verif.Policy.ObjectivesProps
import Verif.Policy.RegularizersProps
import Verif.TD.StochasticProps
import Verif.Core.StochasticCallsProps
import Verif.Dists.CompositeProps
import Verif.TD.DistLossProps
import Verif.Dists.CompositeVariatesProps
import Verif.Dists.CompositeSample
import Verif.Dists.CompositeSampleLemmas
import Verif.Dists.CompositeSampleProps
import Verif.Dists.CompositeAffine
import Verif.Dists.CompositeAffineProps
import Verif.Core.SuccessorProps
import Verif.Dyn.Updater
import Verif.Dyn.UpdaterProps
import Verif.Utils.DiffTransform
import Verif.Utils.DiffTransformProps
import Verif.Utils.Quantiles
import Verif.Utils.QuantilesProps
import Verif.Utils.Preprocess
import Verif.Utils.PreprocessProps
import Verif.Utils.ArgMax
import Verif.Utils.ArgMaxProps
import Verif.TD.ContractionProps
import Verif.TD.SoftProps
import Verif.Policy.GradientProps
import Verif.Replay.ImportanceProps
import Verif.Replay.Seeded
import Verif.Replay.SeededProps
import Verif.Loop.DqnProps
import Verif.Loop.PerProps
import Verif.Loop.OnPolicyProps
import Verif.RewardTracing.PropensityProps
import Verif.RewardTracing.PropensityCompositeProps
import Verif.Core.RandomPolicyProps
import Verif.Core.TransitionModelProps
import Verif.Wrappers.MetaPolicyProps
import Verif.Utils.DmcProps
import Verif.Utils.TensorProps
import Verif.Utils.DiagnosticsProps
import Verif.Core.ConstructProps
import Verif.Core.KeysProps
import Verif.Loop.OnlineProps
import Verif.Loop.ConvergeProps
import Verif.Loop.ExploreProps
import Verif.Loop.OptimalProps
import Verif.Core.Agent
import Verif.Core.AgentProps
import Verif.Core.AgentLoopsProps
import Verif.Core.DistributedLearnProps
import Verif.Utils.JitObjectsProps
import Verif.Utils.RenderProps
import Verif.Utils.ReloadProps
import Verif.Utils.Pickle
import Verif.Utils.PickleProps
import Verif.Core.KindsProps
import Verif.Core.KeyFlowProps
import Verif.Utils.ChecksProps
import Verif.Utils.GetBatchProps
import Verif.Wrappers.OrigInfoProps
import Verif.Core.OutputsProps
import Verif.Core.StochasticSampleProps
import Verif.Policy.NestedRegularizersProps
import Verif.Core.AgentKeysProps
import Verif.Dists.CramerProps
import Verif.Dists.CramerLogProps
import Verif.Loop.DistributionalProps
import Verif.ConnectFour.RenderProps
import Verif.RewardTracing.BatchEqProps
import Verif.Core.WorkerCallsProps
import Verif.Loop.QuantileProps
import Verif.Loop.EvaluateProps
import Verif.Loop.OnlineTargetProps
import Verif.Loop.TabularVProps
import Verif.Loop.HuberProps
import Verif.Loop.ReplayLemmas
import Verif.Loop.Replay
import Verif.Loop.ReplayProps
import Verif.Loop.ReplayEndProps
import Verif.Loop.Closed
import Verif.Loop.ClosedLemmas
import Verif.Loop.ClosedProps
import Verif.Loop.Clipped
import Verif.Loop.DuelLemmas
import Verif.Loop.ClippedLemmas
import Verif.Loop.ClippedProps
import Verif.Loop.ChainLemmas
import Verif.Loop.LookaheadLemmas
import Verif.Loop.LookaheadProps
import Verif.Loop.SarsaLemmas
import Verif.Loop.SarsaProps
import Verif.Loop.Expected
import Verif.Loop.ExpectedLemmas
import Verif.Loop.ExpectedProps
import Verif.Loop.Reinforce
import Verif.Loop.AscentLemmas
import Verif.Loop.ReinforceLemmas
import Verif.Loop.ClimbLemmas
import Verif.Loop.ReinforceProps
import Verif.Loop.Acting
import Verif.Loop.ActingLemmas
import Verif.Loop.ActingProps
import Verif.Loop.Planner
import Verif.Loop.PlannerLemmas
import Verif.Loop.PlannerProps
import Verif.Loop.DqnActing
import Verif.Loop.DqnActingLemmas
import Verif.Loop.DqnActingProps
import Verif.Loop.Regularized
import Verif.Loop.RegularizedLemmas
import Verif.Loop.RegularizedProps
import Verif.Core.ExampleProps
import Verif.Loop.RegularizedStepsProps
import Verif.Loop.LinearProps
import Verif.Loop.LinearDataProps
import Verif.Loop.LinearBatchProps
import Verif.Loop.LinearDrawProps
import Verif.Loop.LinearQProps
import Verif.Loop.LinearQDataProps
import Verif.Loop.LinearEmpiricalProps
import Verif.Loop.LinearTargetProps
import Verif.Loop.LinearHuberProps
import Verif.Loop.LinearExpectedProps
import Verif.Loop.LinearEmptyProps
import Verif.Wrappers.MonitorActionsProps
import Verif.Core.ExampleArgsProps
import Verif.Loop.LinearExpectedDataProps
import Verif.Utils.DmcEnvProps
import Verif.Loop.LinearExpectedErrorProps
import Verif.Values.LossesEmptyProps
import Verif.Loop.LinearExpectedBatchProps
import Verif.Utils.EnvAttrStackProps
import Verif.Dyn.UpdaterBroadcastProps
import Verif.Policy.BroadcastProps
