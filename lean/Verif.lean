import Verif.Agg.AccBufProps
import Verif.Agg.AccDenseProps
import Verif.Agg.AccModel
import Verif.Agg.AccProps
import Verif.Agg.AccRankProps
import Verif.Agg.AccSpec
import Verif.Arr.ArrayLemmas
import Verif.Arr.ArrayModel
import Verif.Arr.ArrayProps
import Verif.Arr.ArraySpec
import Verif.Arr.BuildLemmas
import Verif.Arr.FilterLemmas
import Verif.Arr.FilterModel
import Verif.Arr.PointwiseLemmas
import Verif.Arr.PointwiseModel
import Verif.Arr.PointwiseProps
import Verif.Arr.PointwiseSpec
import Verif.Arr.SparseLemmas
import Verif.Arr.ViewLemmas
import Verif.ArrEdge.ArrEdgeLemmas
import Verif.ArrEdge.ArrEdgeModel
import Verif.ArrEdge.ArrEdgeProps
import Verif.ArrEdge.ArrEdgeSpec
import Verif.BackendOp.BackendOpModel
import Verif.BackendOp.BackendOpProps
import Verif.BackendOp.BackendOpSpec
import Verif.Batched.BatchedLemmas
import Verif.Batched.BatchedModel
import Verif.Batched.BatchedProps
import Verif.Batched.BatchedSpec
import Verif.Batched.RunLemmas
import Verif.Batched.SumLemmas
import Verif.Cast.CastModel
import Verif.Cast.CastProps
import Verif.Casts.CastOpModel
import Verif.Casts.CastOpProps
import Verif.Casts.CastsModel
import Verif.Casts.CastsProps
import Verif.Casts.CastsSpec
import Verif.Casts.WeakModel
import Verif.Casts.WeakProps
import Verif.Cfg.CfgLemmas
import Verif.Cfg.CfgModel
import Verif.Cfg.CfgProps
import Verif.Cfg.CfgSpec
import Verif.Circular.CircularModel
import Verif.Circular.CircularProps
import Verif.Circular.CircularSpec
import Verif.ClassInfo.ClassInfoModel
import Verif.ClassInfo.ClassInfoProps
import Verif.Codec.ArrayCodecLemmas
import Verif.Codec.ArrayCodecModel
import Verif.Codec.ArrayCodecProps
import Verif.Codec.ArrayCodecSpec
import Verif.Codec.CodecSpec
import Verif.Codec.DenseCodecLemmas
import Verif.Codec.DenseCodecModel
import Verif.Codec.DenseCodecProps
import Verif.Codec.EdgeCodecLemmas
import Verif.Codec.StringCodecLemmas
import Verif.Conc.CancelLemmas
import Verif.Conc.CancelModel
import Verif.Conc.CancelProps
import Verif.Conc.ExecModel
import Verif.Conc.ExecProps
import Verif.Conc.ScopeModel
import Verif.Conc.ScopeProps
import Verif.ConstShape.ConstShapeModel
import Verif.ConstShape.ConstShapeProps
import Verif.CoreMap.CoreMapLemmas
import Verif.CoreMap.CoreMapModel
import Verif.CoreMap.CoreMapProps
import Verif.CoreMap.CoreMapSpec
import Verif.CoreMap.MapPrepProps
import Verif.Curve.CurveLemmas
import Verif.Curve.CurveModel
import Verif.Curve.CurveProps
import Verif.Curve.CurveSpec
import Verif.Curve.ParseModel
import Verif.Curve.ParseProps
import Verif.Curve.ParseSpec
import Verif.DOps.ArrLemmas
import Verif.DOps.DOpsModel
import Verif.DOps.DOpsProps
import Verif.DOps.DOpsSpec
import Verif.DOps.FactLemmas
import Verif.DOps.InsLemmas
import Verif.DebugText.DebugTextLemmas
import Verif.DebugText.DebugTextModel
import Verif.DebugText.DebugTextProps
import Verif.Dense.BitmapLemmas
import Verif.Dense.BitmapModel
import Verif.Dense.BitmapProps
import Verif.Dense.BuilderLemmas
import Verif.Dense.DenseLemmas
import Verif.Dense.DenseModel
import Verif.Dense.DenseProps
import Verif.Dense.DenseSpec
import Verif.Dense.LogicLemmas
import Verif.Dense.OpsLemmas
import Verif.Dense.OpsModel
import Verif.Dense.OpsProps
import Verif.Dense.OpsSpec
import Verif.Derived.DerivedModel
import Verif.Derived.DerivedProps
import Verif.Derived.LabelProps
import Verif.Dict.DictLemmas
import Verif.Dict.DictModel
import Verif.Dict.DictProps
import Verif.Edge.CompLemmas
import Verif.Edge.ConvLemmas
import Verif.Edge.EdgeLemmas
import Verif.Edge.EdgeModel
import Verif.Edge.EdgeProps
import Verif.Edge.EdgeSpec
import Verif.EdgeOps.EdgeOpsModel
import Verif.EdgeOps.EdgeOpsProps
import Verif.EdgeOps.EdgeOpsSpec
import Verif.EdgeOps.ExpandLemmas
import Verif.EdgeOps.OpsLemmas
import Verif.EdgeOps.PairLemmas
import Verif.EdgeOps.ResizeLemmas
import Verif.EdgeOps.SizesLemmas
import Verif.EdgeOps.SumLemmas
import Verif.Eval.RunModel
import Verif.Eval.RunProps
import Verif.Eval.WhileModel
import Verif.Eval.WhileProps
import Verif.Expr.DeepLemmas
import Verif.Expr.DeepModel
import Verif.Expr.DeepProps
import Verif.Expr.DeepSpec
import Verif.Expr.ExprModel
import Verif.Expr.ExprSpec
import Verif.Expr.PostOrderProps
import Verif.Expr.ScanLemmas
import Verif.Expr.TransformProps
import Verif.Expr.TraverseLemmas
import Verif.Expr.VisitorProps
import Verif.ExprOverload.ExprOverloadModel
import Verif.ExprOverload.ExprOverloadProps
import Verif.FCodec.FCodecLemmas
import Verif.FCodec.FCodecModel
import Verif.FCodec.FCodecProps
import Verif.FCodec.FCodecSpec
import Verif.FCodec.ModelCodecModel
import Verif.FCodec.ModelCodecProps
import Verif.FModel.CreateProps
import Verif.FModel.FModelLemmas
import Verif.FModel.FModelModel
import Verif.FModel.FModelProps
import Verif.FModel.FModelSpec
import Verif.FModel.PlainLemmas
import Verif.FModel.PlanLemmas
import Verif.FModel.ValueLemmas
import Verif.Forest.BitmaskBuildLemmas
import Verif.Forest.BitmaskEvalLemmas
import Verif.Forest.BitmaskLemmas
import Verif.Forest.BitmaskModel
import Verif.Forest.BitmaskProps
import Verif.Forest.CondModel
import Verif.Forest.CoreEvalLemmas
import Verif.Forest.CoreLemmas
import Verif.Forest.EvaluatorModel
import Verif.Forest.EvaluatorProps
import Verif.Forest.EvaluatorSpec
import Verif.Forest.FloatLemmas
import Verif.Forest.ForestLemmas
import Verif.Forest.ForestModel
import Verif.Forest.ForestProps
import Verif.Forest.ForestSpec
import Verif.Forest.InnerLemmas
import Verif.Forest.ObliviousLemmas
import Verif.Forest.ObliviousModel
import Verif.Forest.ObliviousProps
import Verif.Forest.PartsLemmas
import Verif.Forest.ProperLemmas
import Verif.Forest.RegularLemmas
import Verif.Forest.RegularModel
import Verif.Forest.RegularProps
import Verif.Forest.SingleEvalLemmas
import Verif.Forest.SingleLemmas
import Verif.Forest.SingleModel
import Verif.Frames.BarrierLemmas
import Verif.Frames.BarrierModel
import Verif.Frames.CopyLemmas
import Verif.Frames.IterLemmas
import Verif.Frames.IterModel
import Verif.Frames.IterProps
import Verif.Frames.IterSpec
import Verif.Frames.ParallelLemmas
import Verif.Frames.ParallelModel
import Verif.Frames.ParallelProps
import Verif.Generic.DispatchLemmas
import Verif.Generic.DispatchModel
import Verif.Generic.DispatchProps
import Verif.Generic.DispatchSpec
import Verif.Generic.SnapshotLemmas
import Verif.Generic.SnapshotModel
import Verif.Generic.SnapshotProps
import Verif.Generic.SnapshotSpec
import Verif.Group.CanonLemmas
import Verif.Group.GroupExamples
import Verif.Group.GroupInst
import Verif.Group.GroupLemmas
import Verif.Group.GroupModel
import Verif.Group.GroupProps
import Verif.Group.GroupSpec
import Verif.Group.IterLemmas
import Verif.Group.IterModel
import Verif.Group.IterProps
import Verif.Group.IterSpec
import Verif.Group.LoopLemmas
import Verif.Group.MapLemmas
import Verif.Group.MappingLemmas
import Verif.Group.OutLemmas
import Verif.Group.SplitLemmas
import Verif.Group.UtilLemmas
import Verif.Group.VeryLemmas
import Verif.HigherOrder.HigherOrderModel
import Verif.HigherOrder.HigherOrderProps
import Verif.InfixRepr.InfixReprModel
import Verif.InfixRepr.InfixReprProps
import Verif.InfixRepr.InfixReprSpec
import Verif.Interleave.InterleaveModel
import Verif.Interleave.InterleaveProps
import Verif.Io.ListenerModel
import Verif.Io.ListenerProps
import Verif.Io.ListenerSpec
import Verif.Io.LoaderLemmas
import Verif.Io.LoaderModel
import Verif.Io.LoaderProps
import Verif.Io.LoaderSpec
import Verif.Io.StructModel
import Verif.Io.StructProps
import Verif.Io.StructSpec
import Verif.Jagged.ConcatArrLemmas
import Verif.Jagged.ConcatLemmas
import Verif.Jagged.ConcatModel
import Verif.Jagged.ConcatProps
import Verif.Jagged.ConcatSpec
import Verif.Jagged.InterLemmas
import Verif.Jagged.ShapeLemmas
import Verif.Jagged.ShapeModel
import Verif.Jagged.ShapeProps
import Verif.Jagged.ShapeSpec
import Verif.Lambda.LambdaLemmas
import Verif.Lambda.LambdaModel
import Verif.Lambda.LambdaProps
import Verif.Lambda.LambdaSpec
import Verif.LoopSig.LoopSigModel
import Verif.LoopSig.LoopSigProps
import Verif.Mem.ArenaLemmas
import Verif.Mem.ArenaModel
import Verif.Mem.ArenaProps
import Verif.Mem.ArenaSpec
import Verif.Mem.FrameModel
import Verif.Mem.FrameProps
import Verif.MultiEdge.MultiEdgeModel
import Verif.MultiEdge.MultiEdgeProps
import Verif.Naming.NamingLemmas
import Verif.Naming.NamingModel
import Verif.Naming.NamingProps
import Verif.Naming.NamingSpec
import Verif.Objects.ObjectsLemmas
import Verif.Objects.ObjectsModel
import Verif.Objects.ObjectsProps
import Verif.Objects.ObjectsSpec
import Verif.Ops.ArithModel
import Verif.Ops.ArithProps
import Verif.Opt.MatchLemmas
import Verif.Opt.PatternLemmas
import Verif.Opt.PatternModel
import Verif.Opt.PatternProps
import Verif.Opt.PatternSpec
import Verif.Opt.PeepholeModel
import Verif.Opt.PeepholeProps
import Verif.Opt.SubstLemmas
import Verif.Overload.OverloadLemmas
import Verif.Overload.OverloadModel
import Verif.Overload.OverloadProps
import Verif.Overload.OverloadSpec
import Verif.ParamFormat.ParamFormatModel
import Verif.ParamFormat.ParamFormatProps
import Verif.Prep.ExtractProps
import Verif.Prep.PrepExamples
import Verif.Prep.PrepLemmas
import Verif.Prep.PrepModel
import Verif.Prep.PrepProps
import Verif.Prep.PrepSpec
import Verif.Proto.PathModel
import Verif.Proto.PathProps
import Verif.Proto.ProtoLemmas
import Verif.Proto.ProtoModel
import Verif.Proto.ProtoProps
import Verif.Proto.ProtoSpec
import Verif.QType.CommonModel
import Verif.QType.CommonProps
import Verif.Refs.RefsModel
import Verif.Refs.RefsProps
import Verif.Reg.RegLemmas
import Verif.Reg.RegModel
import Verif.Reg.RegProps
import Verif.Reg.RegRun
import Verif.Reg.RegSpec
import Verif.Rules.LawLemmas
import Verif.Rules.PacksModel
import Verif.Rules.RowLemmas
import Verif.Rules.RulesLemmas
import Verif.Rules.RulesModel
import Verif.Rules.RulesProps
import Verif.Rules.RulesSpec
import Verif.Rules.StepLemmas
import Verif.Rules.StepProps
import Verif.Seq.SeqLemmas
import Verif.Seq.SeqModel
import Verif.Seq.SeqProps
import Verif.Seq.SeqSpec
import Verif.Serial.DecLemmas
import Verif.Serial.DecProps
import Verif.Serial.EncLemmas
import Verif.Serial.EncProps
import Verif.Serial.HintLemmas
import Verif.Serial.OnceLemmas
import Verif.Serial.SafeLemmas
import Verif.Serial.SerialExample
import Verif.Serial.SerialModel
import Verif.Serial.SerialSpec
import Verif.Serial.TotalLemmas
import Verif.Series.EwmaLemmas
import Verif.Series.MaLemmas
import Verif.Series.SeriesModel
import Verif.Series.SeriesProps
import Verif.Series.SeriesSpec
import Verif.SideOut.SideOutModel
import Verif.SideOut.SideOutProps
import Verif.Sig.BindLemmas
import Verif.Sig.BindProps
import Verif.Sig.SigLemmas
import Verif.Sig.SigModel
import Verif.Sig.SigSpec
import Verif.Sig.TextProps
import Verif.Slots.ExprProps
import Verif.Slots.LoopLemmas
import Verif.Slots.SlotLemmas
import Verif.Slots.SlotModel
import Verif.Slots.SlotProps
import Verif.Slots.SlotSpec
import Verif.Slots.StepLemmas
import Verif.Slots.SuccProps
import Verif.Startup.ExecLemmas
import Verif.Startup.OrderProps
import Verif.Startup.StartupLemmas
import Verif.Startup.StartupModel
import Verif.Startup.StartupProps
import Verif.Startup.StartupSpec
import Verif.Status.FirstErrorProps
import Verif.Status.StatusLemmas
import Verif.Status.StatusModel
import Verif.Status.StatusProps
import Verif.Status.StatusSpec
import Verif.StmtNames.StmtNamesModel
import Verif.StmtNames.StmtNamesProps
import Verif.StrBuf.StrBufLemmas
import Verif.StrBuf.StrBufModel
import Verif.StrBuf.StrBufProps
import Verif.StrBuf.StrBufSpec
import Verif.Tasks.TasksModel
import Verif.Tasks.TasksProps
import Verif.Text.DecodeModel
import Verif.Text.DecodeProps
import Verif.Text.DecodeSpec
import Verif.Text.FindLemmas
import Verif.Text.FindModel
import Verif.Text.FindProps
import Verif.Text.FindSpec
import Verif.Text.FormatModel
import Verif.Text.FormatProps
import Verif.Text.FormatSpec
import Verif.Text.IcuLemmas
import Verif.Text.IcuModel
import Verif.Text.ReplaceModel
import Verif.Text.ReplaceProps
import Verif.Text.ReplaceSpec
import Verif.Text.SplitModel
import Verif.Text.SplitProps
import Verif.Text.SplitSpec
import Verif.Text.StripModel
import Verif.Text.StripProps
import Verif.Text.StripSpec
import Verif.Text.TypoModel
import Verif.Text.TypoProps
import Verif.Text.Utf8Lemmas
import Verif.Text.Utf8Spec
import Verif.Trace.TraceModel
import Verif.Trace.TraceProps
import Verif.Tuple.NamedProps
import Verif.Tuple.TupleLemmas
import Verif.Tuple.TupleModel
import Verif.Tuple.TupleOpProps
import Verif.Tuple.TupleProps
import Verif.Tuple.TupleSpec
import Verif.Util.BitsAlgoLemmas
import Verif.Util.BitsLemmas
import Verif.Util.BitsModel
import Verif.Util.BitsProps
import Verif.Util.BitsSpec
import Verif.Util.LruLemmas
import Verif.Util.LruModel
import Verif.Util.LruProps
import Verif.Util.SearchLemmas
import Verif.Util.SearchModel
import Verif.Util.SearchProps
import Verif.Util.StringModel
import Verif.Util.StringProps
import Verif.Where.ExtractLemmas
import Verif.Where.ExtractModel
import Verif.Where.ExtractProps
import Verif.Where.ExtractSpec
import Verif.Where.TakenProps
import Verif.Where.TreeLemmas
import Verif.Where.WhereLemmas
import Verif.Where.WhereModel
import Verif.Where.WhereProps
import Verif.Where.WhereSpec
import Verif.While.LoopLemmas
import Verif.While.WhileLemmas
import Verif.While.WhileModel
import Verif.While.WhileProps
import Verif.While.WhileSpec
