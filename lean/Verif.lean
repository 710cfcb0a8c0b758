import Verif.Sharder.Props
import Verif.Sharder.RankProps
import Verif.Sample.Props
import Verif.Wrap.SimpleProps
import Verif.Wrap.ShuffleProps
import Verif.Wrap.LengthProps
import Verif.Wrap.BlendProps
import Verif.Wrap.BatchProps
import Verif.Wrap.GroupProps
import Verif.Wrap.GroupOrder
import Verif.Wrap.PackProps
import Verif.Wrap.MapGenProps
import Verif.Wrap.IterMapProps
import Verif.Worker.Props
import Verif.Worker.Log
import Verif.Loader.TorchProps
import Verif.Loader.WorkerProps
import Verif.Loader.Draws
import Verif.Loader.WorkerExamples
import Verif.Loader.PlainProps
import Verif.Wds.LoaderProps
import Verif.Wds.NameProps
import Verif.Wds.JoinProps
import Verif.Float.Mono
import Verif.Io.IndexProps
import Verif.Io.SubFileProps
import Verif.Io.RetryProps
import Verif.Meta.Props
import Verif.Prep.Props
import Verif.Task.StatelessProps
import Verif.Task.CookProps
import Verif.Task.PadProps
import Verif.Path.Model
import Verif.Path.Props
import Verif.Path.Collect
import Verif.Transform.Model
import Verif.Transform.Spec
import Verif.Transform.Props
import Verif.Pipeline.Endless
import Verif.Pipeline.Model
import Verif.Pipeline.Guard
import Verif.Pipeline.Spec
import Verif.Pipeline.Slices
import Verif.Pipeline.Train
import Verif.Pipeline.Restore
import Verif.Pipeline.Example
import Verif.Pipeline.Val
import Verif.Pipeline.ValProps
import Verif.Pipeline.Content
import Verif.Stream.Demand
import Verif.Pipeline.Stages
import Verif.Stream.History
import Verif.Wrap.BatchItems
import Verif.Pipeline.TrainContent
import Verif.Stream.Flow
import Verif.Pipeline.Progress
import Verif.Pipeline.Loader
import Verif.Pipeline.TrainEpochs
import Verif.Pipeline.Len
import Verif.Config.FieldModel
import Verif.Config.FieldProps
import Verif.Config.TypedModel
import Verif.Config.TypedSpec
import Verif.Config.TypedProps
import Verif.Config.LoadProps
import Verif.Loader.TorchEpoch
import Verif.Pipeline.ValLoader
import Verif.Pipeline.ValContents
import Verif.Leave.Spec
import Verif.Leave.Lemmas
import Verif.Leave.Model
import Verif.Leave.Classes
import Verif.Leave.Runs
import Verif.Leave.Pipeline
import Verif.Leave.Example
import Verif.Leave.Workers
import Verif.Ranks.Model
import Verif.Ranks.Props
import Verif.Ranks.Training
import Verif.Pipeline.Refuse
import Verif.Mix.Model
import Verif.Mix.Props
import Verif.Wrap.BatchGenModel
import Verif.Wrap.BatchGenProps
import Verif.Lint.Model
import Verif.Lint.Props
import Verif.Loader.CommandModel
import Verif.Loader.CommandProps
import Verif.Wrap.HasSamples
import Verif.Wrap.Reset
import Verif.Pipeline.Reset
import Verif.Again.Model
import Verif.Again.Props
import Verif.Again.Rewind
import Verif.Again.RewindMore
import Verif.Meta.PrepareModel
import Verif.Meta.PrepareProps
import Verif.Wds.FilterModel
import Verif.Wds.FilterProps
import Verif.Code.Model
import Verif.Code.Props
import Verif.Debug.Model
import Verif.Debug.Heat
import Verif.Debug.Props
import Verif.Debug.Keys
import Verif.Prep.InfoModel
import Verif.Prep.InfoProps
import Verif.Config.DialogModel
import Verif.Config.DialogProps
import Verif.Wds.ScanModel
import Verif.Wds.ScanProps
import Verif.Wds.JoinResume
import Verif.Pipeline.JoinModel
import Verif.Pipeline.Join
import Verif.Pipeline.JoinShuffle
import Verif.Pipeline.Scaling
import Verif.Config.OverrideModel
import Verif.Config.OverrideSpec
import Verif.Config.OverrideProps
import Verif.Config.OverrideValue
import Verif.Config.OverrideClaims
import Verif.Path.RemoteModel
import Verif.Path.Remote
import Verif.Worker.Seed
import Verif.Prep.CrashModel
import Verif.Prep.Crash
import Verif.Prep.CrashProps
import Verif.Sample.Pin
import Verif.Describe.Model
import Verif.Describe.Spec
import Verif.Describe.Props
import Verif.Loader.FailModel
import Verif.Loader.FailProps
import Verif.Loader.FailResume
import Verif.Loader.FailLoader
import Verif.Loader.EpochResume
import Verif.Pipeline.EpochResume
import Verif.Loader.EpochLoader
import Verif.Loader.PassResume
import Verif.Loader.PassLoader
import Verif.Pipeline.EpochTraining
import Verif.Wrap.BatchDrop
import Verif.Pipeline.LimitResume
import Verif.Pipeline.ValResume
import Verif.Pipeline.ValLeft
import Verif.Pipeline.ValEach
import Verif.Preview.Model
import Verif.Preview.Props
import Verif.Message.Model
import Verif.Message.Props
import Verif.Gc.Model
import Verif.Gc.Props
import Verif.Decode.Model
import Verif.Decode.Props
import Verif.Identity.Model
import Verif.Identity.Props
