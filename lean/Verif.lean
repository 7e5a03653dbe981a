import Verif.Filter.Props
import Verif.LCM.Props
import Verif.LCM.FileProps
import Verif.MinSupp.Props
import Verif.Border.Props
import Verif.Slim.Props
import Verif.Slim.SizeProps
import Verif.Slim.GainProps
import Verif.Ubiq.Props
import Verif.Slim.Support
import Verif.Slim.CodeLength
import Verif.Slim.Vectorizer
import Verif.Classify.Props
import Verif.Clique.Props
import Verif.Intersect.Props
import Verif.Mdlp.Props
import Verif.Mdlp.EntropyFit
import Verif.Mdlp.Shuffle
import Verif.Hooks.Props
import Verif.Hooks.CheckProps
import Verif.Datasets.Props
import Verif.TimeScale.Props
import Verif.Periodic.Keys
import Verif.Periodic.MergePids
import Verif.DataSeq.Props
import Verif.CandPool.Props
import Verif.Cycles.Props
import Verif.PTree.Props
import Verif.PTree.Local
import Verif.Concat.Props
import Verif.Nest.Props
import Verif.Fold.Props
import Verif.Nest.FoldProps
import Verif.PattKey.Props
import Verif.Display.Model
import Verif.Display.Spec
import Verif.Display.Lemmas
import Verif.Display.Props
import Verif.Draw.Model
import Verif.Draw.Spec
import Verif.Draw.Lemmas
import Verif.Draw.Run
import Verif.Draw.Read
import Verif.Draw.Props
import Verif.Session.Props
import Verif.Graph.ShowProps
import Verif.Fetch.Props
import Verif.LCM.SessProps
import Verif.Slim.SessProps
import Verif.Slim.OptProps
import Verif.Slim.OwnProps
import Verif.Slim.OrderLemmas
import Verif.Slim.OrderProps
import Verif.Classify.OrderProps
import Verif.Mine.ShiftLemmas
import Verif.Mine.ShiftProps
import Verif.Mdlp.UnitLemmas
import Verif.Mdlp.UnitProps
import Verif.Border.OrderProps
import Verif.LCM.MetaProps
import Verif.Slim.CodesProps
import Verif.Graph.FileProps
import Verif.Slim.HashProps
import Verif.Mine.UnitProps
import Verif.Select.Block
import Verif.Mine.EventLemmas
import Verif.Mine.EventProps
import Verif.Complex.MoveCand
import Verif.Complex.MoveNest
import Verif.CandPool.MapLemmas
import Verif.Complex.MoveComb
import Verif.Complex.MoveProps
import Verif.LCM.GrowProps
import Verif.MinSupp.FloatModel
import Verif.MinSupp.FloatProps
import Verif.Draw.FloatModel
import Verif.Draw.FloatProps
import Verif.Complex.NameProps
import Verif.Float.Model
import Verif.Float.Props
import Verif.Mdlp.FloatModel
import Verif.Mdlp.FloatProps
import Verif.MinSupp.DefaultProps
import Verif.Border.FloatModel
import Verif.Border.FloatProps
import Verif.Slim.NameLemmas
import Verif.Slim.NameProps
import Verif.Graph.RatLength
import Verif.Graph.RaiseProps
import Verif.Graph.StepProps
import Verif.Graph.JoinModel
import Verif.Graph.JoinProps
import Verif.Graph.VertexSpec
import Verif.Graph.VertexLemmas
import Verif.Graph.VertexGen
import Verif.Graph.VertexProps
import Verif.Graph.ClockModel
import Verif.Graph.ClockProps
import Verif.Graph.ClockEnds
import Verif.Cycles.RoundModel
import Verif.Cycles.RoundProps
import Verif.Border.NameProps
import Verif.Classify.NameProps
import Verif.Select.RoundModel
import Verif.Select.RoundProps
import Verif.Mine.FloatModel
import Verif.Mine.FloatProps
import Verif.Complex.JoinProps
import Verif.Complex.UnitProps
import Verif.Miner.GroupModel
import Verif.Mine.RowProps
import Verif.Export.NumpyModel
import Verif.Export.NumpySpec
import Verif.Export.NumpyProps
import Verif.Mine.CompressLemmas
import Verif.Mine.CompressProps
import Verif.Export.RepeatModel
import Verif.Export.RepeatProps
import Verif.Complex.ExactProps
import Verif.Complex.PriceLemmas
import Verif.Complex.CompressProps
import Verif.Graph.RelabelSpec
import Verif.Graph.RelabelCover
import Verif.Graph.RelabelDesc
import Verif.Graph.RelabelGen
import Verif.Graph.RelabelSearch
import Verif.Graph.RelabelProps
import Verif.Graph.SingleModel
import Verif.Graph.SingleProps
import Verif.Graph.InfoModel
import Verif.Graph.InfoLemmas
import Verif.Graph.InfoProps
import Verif.Graph.BareSpec
import Verif.Graph.BareProps
import Verif.Outline.Model
import Verif.Outline.Spec
import Verif.Outline.Props
import Verif.Outline.BrProps
import Verif.Mdlp.FrameModel
import Verif.Mdlp.FrameProps
import Verif.Slim.TableModel
import Verif.Slim.TableProps
import Verif.Checks.Model
import Verif.Checks.Props
import Verif.Slim.CopyModel
import Verif.Slim.CopyProps
import Verif.Classify.ArrayModel
import Verif.Classify.ArrayProps
import Verif.Report.Model
import Verif.Report.Props
import Verif.Classify.FrameModel
import Verif.Classify.FrameProps
import Verif.Logs.Model
import Verif.Logs.Props
import Verif.DataSeq.InfoModel
import Verif.DataSeq.InfoProps
import Verif.Graph.AtModel
import Verif.Graph.AtProps
import Verif.Slim.StopModel
import Verif.Slim.StopProps
import Verif.Slim.BatchProps
import Verif.Describe.Model
import Verif.Describe.Props
import Verif.Window.Model
import Verif.Window.Props
import Verif.TopP.Model
import Verif.TopP.Props
import Verif.Slim.PrintModel
import Verif.Slim.PrintProps
import Verif.Datasets.FileModel
import Verif.Datasets.FileProps
import Verif.Graph.FrameModel
import Verif.Graph.FrameProps
import Verif.LCM.SplitProps
import Verif.Filter.BorderProps
import Verif.Mdlp.CodesProps
import Verif.LCM.InterProps
import Verif.Clique.AgreeProps
import Verif.Select.Props
import Verif.Nodes.Model
import Verif.Nodes.Spec
import Verif.Nodes.BuildModel
import Verif.Nodes.BuildProps
import Verif.Nodes.BuildEvents
import Verif.Nodes.Mined
import Verif.Nodes.MapEvents
import Verif.Miner.Props
import Verif.Miner.Simple
import Verif.Export.Props
import Verif.Graph.NumProps
import Verif.Graph.LabelProps
import Verif.Graph.CoverProps
import Verif.Graph.CoverHistory
import Verif.Graph.SearchProps
import Verif.Graph.MergeProps
import Verif.Graph.MatchProps
import Verif.Graph.OccSpec
import Verif.Graph.OccLemmas
import Verif.Graph.OccPieces
import Verif.Graph.CoverUsed
import Verif.Graph.OccMeet
import Verif.Graph.OccProps
import Verif.Graph.OccWitness
import Verif.Graph.EndModel
import Verif.Graph.EndSearch
import Verif.Graph.EndMerge
import Verif.Graph.EndPieces
import Verif.Graph.EndFinite
import Verif.Graph.EndLength
import Verif.Graph.EndKeys
import Verif.Graph.EndProps
import Verif.Graph.RewriteProps
import Verif.Graph.PreqProps
import Verif.Graph.DescProps
import Verif.Graph.CodeProps
import Verif.Graph.EncodeProps
import Verif.Graph.TableProps
import Verif.Graph.GenProps
import Verif.Graph.GenUsage
import Verif.Graph.GenWitness
import Verif.Mine.Period
import Verif.Mine.Merge
import Verif.Mine.TopK
import Verif.Mine.Alpha
import Verif.Mine.Simple
import Verif.Mine.Fit
import Verif.Cost.Props
import Verif.Cost.Collection
import Verif.Kinds.Props
import Verif.Kinds.Events
import Verif.Complex.Fact
import Verif.Complex.Rounds
import Verif.Complex.Init
import Verif.Complex.FactReps
import Verif.Complex.InData
import Verif.Complex.Term
import Verif.Complex.Size
import Verif.Complex.Props
