import Verif.Py
import Verif.Grammar.Ty
import Verif.Grammar.TyProps
import Verif.Grammar.Diagram
import Verif.Grammar.DiagramProps
import Verif.Grammar.Box
import Verif.Grammar.BoxProps
import Verif.Grammar.Perm
import Verif.Grammar.PermSemantics
import Verif.Grammar.Structural
import Verif.Grammar.StructuralProps
import Verif.Grammar.SwapProps
import Verif.Grammar.SpiderProps
import Verif.Grammar.ConstructProps
import Verif.Grammar.Functor
import Verif.Grammar.FunctorProps
import Verif.Grammar.FunctorDagger
import Verif.Grammar.FunctorCache
import Verif.Grammar.Built
import Verif.Grammar.Frame
import Verif.Grammar.Json
import Verif.Grammar.JsonProps
import Verif.Grammar.JsonFrame
import Verif.Grammar.PregroupWiring
import Verif.Grammar.Normal
import Verif.Grammar.Semantics
import Verif.Grammar.InterchangeProps
import Verif.Grammar.SnakeProps
import Verif.Grammar.NormalProps
import Verif.Ccg.Cat
import Verif.Ccg.CatProps
import Verif.Ccg.CatTy
import Verif.Ccg.Rule
import Verif.Ccg.RuleProps
import Verif.Ccg.Tree
import Verif.Ccg.TreeProps
import Verif.Ccg.TreePlanar
import Verif.Text.Readers
import Verif.Text.ReadersProps
import Verif.Rewrite.Rewriter
import Verif.Rewrite.RewriterProps
import Verif.Rewrite.RulesProps
import Verif.Rewrite.RewriterObject
import Verif.Grammar.SemanticsCalc
import Verif.Rewrite.DiagramRewriter
import Verif.Rewrite.RemoveCupsProps
import Verif.Rewrite.CompressProps
import Verif.Rewrite.RemoveCupsTotal
import Verif.Rewrite.DiagramRewriterProps
import Verif.Rewrite.RemoveSwapsProps
import Verif.Training.DatasetProps
import Verif.Training.CheckpointProps
import Verif.Training.EarlyStopProps
import Verif.Training.TrainerProps
import Verif.Training.TrainerEval
import Verif.Training.ResumeProps
import Verif.Training.SpsaProps
import Verif.Training.NelderMeadProps
import Verif.Training.Rotosolve
import Verif.Backend.Numerical
import Verif.Bobcat.CellProps
import Verif.Bobcat.RulesTotal
import Verif.Bobcat.HeadsProps
import Verif.Bobcat.LimitProps
import Verif.Bobcat.ParserProps
import Verif.Bobcat.Spans
import Verif.Bobcat.Tagger
import Verif.Text.Batch
import Verif.Tensor.NdArray
import Verif.Tensor.Network
import Verif.Tensor.NetworkProps
import Verif.Tensor.Category
import Verif.Tensor.CategoryProps
import Verif.Tensor.EvalProps
import Verif.Tensor.Adjoint
import Verif.Tensor.Lambdify
import Verif.Quantum.Box
import Verif.Quantum.Bits
import Verif.Quantum.Controlled
import Verif.Quantum.Eval
import Verif.Quantum.Apply
import Verif.Quantum.Functorial
import Verif.Quantum.Adjoint
import Verif.Quantum.Structural
import Verif.Quantum.Mixed
import Verif.Quantum.MixedNet
import Verif.Quantum.MixedProps
import Verif.Quantum.MixedStep
import Verif.Quantum.MixedEval
import Verif.Quantum.MixedTheorems
import Verif.Ansatz.Circuit
import Verif.Ansatz.CircuitProps
import Verif.Ansatz.CircuitAr
import Verif.Rewrite.Substitution
import Verif.Ansatz.Split
import Verif.Ansatz.SplitProps
import Verif.Ansatz.SplitTheorems
import Verif.Ansatz.Label
import Verif.Quantum.Conjugate
import Verif.Ansatz.Functor
import Verif.Ansatz.SwapTypes
import Verif.Ansatz.HermInterp
import Verif.Ansatz.CircuitFunctor
import Verif.Quantum.Export
import Verif.Quantum.ExportGates
import Verif.Quantum.ExportRun
import Verif.Quantum.ExportTail
import Verif.Quantum.ExportCounts
import Verif.Quantum.ExportMain
import Verif.Quantum.ExportTheorems
import Verif.Quantum.ExportRefuted
import Verif.Training.ModelSymbols
import Verif.Training.FastSubs
import Verif.Training.Predict
import Verif.Training.Loss
import Verif.Training.PathOpt
import Verif.Training.PathCache
import Verif.Tensor.Compound
import Verif.Ansatz.TensorFunctor
import Verif.Ccg.TreeChange
import Verif.Bobcat.ToCcg
import Verif.Quantum.Unitary
import Verif.Quantum.UnitaryTheorems
import Verif.Ansatz.Unitary
import Verif.Quantum.Circuital
import Verif.Quantum.CircuitalPull
import Verif.Quantum.CircuitalStep
import Verif.Quantum.CircuitalLoop
import Verif.Quantum.CircuitalSort
import Verif.Quantum.CircuitalInv
import Verif.Quantum.CircuitalTheorems
import Verif.Quantum.CircuitalRefuted
import Verif.Ccg.JsonTree
import Verif.Ccg.JsonTreeProps
import Verif.Ccg.JsonTreeTheorems
import Verif.Text.PregroupTree
import Verif.Text.PregroupTreeSpec
import Verif.Text.PregroupTreeBfs
import Verif.Text.PregroupTreeCups
import Verif.Text.PregroupTreePos
import Verif.Text.PregroupTreeOrder
import Verif.Text.PregroupTreeNest
import Verif.Text.PregroupTreeMain
import Verif.Text.PregroupTreeTheorems
import Verif.Text.TreeNodes
import Verif.Text.TreeNodesSpec
import Verif.Text.TreeGenerate
import Verif.Text.TreeRoundTrip
import Verif.Text.TreeNodesTheorems
import Verif.Discocirc.Circuit
import Verif.Discocirc.Combin
import Verif.Discocirc.MatcherSemantics
import Verif.Discocirc.TextSemantics
import Verif.Discocirc.Theorems
import Verif.Discocirc.Frames
import Verif.Discocirc.FramesProps
import Verif.Discocirc.SandwichSemantics
import Verif.Discocirc.FramesTheorems
import Verif.Discocirc.Rewriter
import Verif.Discocirc.RewriterProps
import Verif.Discocirc.RewriterTheorems
import Verif.Discocirc.Coref
import Verif.Discocirc.CorefProps
import Verif.Discocirc.CorefTheorems
import Verif.Store.Download
import Verif.Store.DownloadTheorems
import Verif.Bobcat.Lexicon
import Verif.Bobcat.LexiconTheorems
import Verif.Ccg.Bank
import Verif.Ccg.BankTheorems
import Verif.Ccg.BankDiagrams
import Verif.Quantum.Pennylane
import Verif.Quantum.PennylaneRun
import Verif.Quantum.PennylaneTheorems
import Verif.Quantum.PennylaneMixed
import Verif.Drawing.Layout
import Verif.Drawing.LayoutTheorems
import Verif.Drawing.LayoutFinal
import Verif.Drawing.LayoutWires
import Verif.Drawing.LayoutProps
import Verif.Drawing.TextPrinter
import Verif.Drawing.TextPlace
import Verif.Drawing.TextRows
import Verif.Drawing.TextCells
import Verif.Drawing.TextHead
import Verif.Drawing.TextProps
import Verif.Drawing.TextTheorems
import Verif.Training.PennylaneModel
import Verif.Training.PennylaneForward
import Verif.Quantum.Import
import Verif.Quantum.ImportGates
import Verif.Quantum.ImportRun
import Verif.Quantum.ImportTheorems
import Verif.Quantum.ImportRefuted
import Verif.Training.TketModel
import Verif.Training.TketPredict
import Verif.Training.TketRefuted
import Verif.Text.Duration
import Verif.Text.DiagramTree
import Verif.Text.DiagramTreeTrace
import Verif.Text.DiagramTreeEdges
import Verif.Text.DiagramTreeTheorems
import Verif.Text.DiagramTreeInverse
import Verif.Text.DiagramTreeRound
import Verif.Text.DiagramTreeExamples
import Verif.Text.RemoveCycles
import Verif.Text.RemoveCyclesGrow
import Verif.Text.RemoveCyclesTree
import Verif.Text.RemoveCyclesTheorems
import Verif.Text.RemoveCyclesExamples
import Verif.Text.OncillaPredict
import Verif.Text.OncillaTheorems
import Verif.Text.WebParser
import Verif.Drawing.PregroupLayout
import Verif.Drawing.PregroupStep
import Verif.Drawing.PregroupRun
import Verif.Drawing.PregroupWords
import Verif.Drawing.PregroupFinal
import Verif.Drawing.PregroupTheorems
import Verif.Drawing.PregroupExamples
import Verif.Convert.Discopy
import Verif.Convert.DiscopyProps
import Verif.Convert.DiscopyTheorems
import Verif.Convert.DiscopyTensor
import Verif.Convert.DiscopyQuantum
import Verif.Convert.DiscopyQuantumProps
import Verif.Convert.DiscopyQuantumTheorems
import Verif.Cli.Cli
import Verif.Cli.CliProps
import Verif.Cli.CliTheorems
import Verif.Cli.CliPipeline
import Verif.Cli.CliExamples
import Verif.Ccg.Deriv
import Verif.Ccg.DerivProps
import Verif.Ccg.DerivTheorems
import Verif.Ccg.DerivMore
import Verif.Convert.DiscopyMore
import Verif.Cli.CliMore
import Verif.Ccg.Depccg
import Verif.Ccg.DepccgTheorems
import Verif.Bobcat.Deps
import Verif.Bobcat.DepsTheorems
import Verif.Bobcat.DepsMore
import Verif.Bobcat.Network
import Verif.Bobcat.NetworkTheorems
import Verif.Text.TreePrint
import Verif.Text.TreePrintTheorems
import Verif.Tensor.Equality
import Verif.Tensor.EqualityTheorems
import Verif.Grammar.JsonCategory
import Verif.Grammar.JsonCategoryTheorems
import Verif.Drawing.Tikz
import Verif.Drawing.TikzTheorems
import Verif.Drawing.TikzStyles
import Verif.Drawing.Picture
import Verif.Drawing.PictureTheorems
import Verif.Drawing.PictureLevels
