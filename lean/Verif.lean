import Verif.Model.Chars
import Verif.Model.Parser
import Verif.Model.Node
import Verif.Spec.MicroXml
import Verif.Lemmas.Chars
import Verif.Lemmas.Exec
import Verif.Lemmas.Chunk
import Verif.Lemmas.Dict
import Verif.Lemmas.Valid
import Verif.Spec.Nesting
import Verif.Lemmas.Inv
import Verif.Spec.Cut
import Verif.Lemmas.Scan
import Verif.Lemmas.Live
import Verif.Spec.Context
import Verif.Lemmas.Context
import Verif.Lemmas.Final
import Verif.Lemmas.Outcome
import Verif.Props.Parser
import Verif.Model.Tree
import Verif.Spec.Tree
import Verif.Lemmas.Escape
import Verif.Lemmas.Encode
import Verif.Lemmas.Control
import Verif.Model.Heap
import Verif.Spec.Heap
import Verif.Lemmas.Builder
import Verif.Props.Tree
import Verif.Spec.Mutate
import Verif.Props.Mutate
import Verif.Model.Writer
import Verif.Spec.Writer
import Verif.Props.Writer
import Verif.Model.Expat
import Verif.Spec.Expat
import Verif.Props.Expat
import Verif.Model.Pattern
import Verif.Spec.Pattern
import Verif.Lemmas.Pattern
import Verif.Model.TreeUtil
import Verif.Spec.Path
import Verif.Spec.Pretty
import Verif.Props.TreeUtil
import Verif.Props.TreeIter
import Verif.Model.XPath
import Verif.Spec.XPath
import Verif.Lemmas.XPath
import Verif.Props.XPath
import Verif.Props.PredNumber
import Verif.Props.XPathOps
import Verif.Model.Serialize
import Verif.Props.XPathMore
import Verif.Model.RootCache
import Verif.Props.RootCache
import Verif.Model.IsXml
import Verif.Spec.IsXml
import Verif.Lemmas.IsXml
import Verif.Props.IsXml
import Verif.Model.Html5
import Verif.Spec.Html5
import Verif.Props.Html5
import Verif.Lemmas.Html5
import Verif.Props.Html5Tree
import Verif.Spec.Reject
import Verif.Props.Reject
import Verif.Model.Microx
import Verif.Spec.Microx
import Verif.Props.Microx
import Verif.Model.XTables
import Verif.Model.XLex
import Verif.Model.XParse
import Verif.Spec.XGrammar
import Verif.Spec.XTokens
import Verif.Lemmas.XTables
import Verif.Lemmas.XPaths
import Verif.Lemmas.XComplete
import Verif.Lemmas.XSound
import Verif.Lemmas.XLocal
import Verif.Lemmas.XDrive
import Verif.Lemmas.XLex
import Verif.Props.XParse
import Verif.Spec.XSerial
import Verif.Lemmas.XSerial
import Verif.Props.XSerial
import Verif.Model.Query
import Verif.Spec.Query
import Verif.Props.Query
import Verif.Spec.XPathFns
import Verif.Props.XPathFns
import Verif.Model.MicroxRun
import Verif.Spec.MicroxRun
import Verif.Props.MicroxRun
import Verif.Model.Threads
import Verif.Spec.Threads
import Verif.Lemmas.Threads
import Verif.Props.Threads
import Verif.Model.Lex
import Verif.Spec.Lex
import Verif.Lemmas.Lex
import Verif.Lemmas.LexDoc
import Verif.Props.Lex
import Verif.Model.Gen
import Verif.Spec.Gen
import Verif.Props.Gen
import Verif.Model.XThreads
import Verif.Spec.XThreads
import Verif.Lemmas.XThreads
import Verif.Props.XThreads
import Verif.Model.IsXmlC
import Verif.Props.IsXmlC
import Verif.Model.SenderMem
import Verif.Spec.SenderMem
import Verif.Lemmas.SenderMem
import Verif.Props.SenderMem
import Verif.Spec.Prompt
import Verif.Lemmas.Prompt
import Verif.Props.Prompt
import Verif.Model.AttrDict
import Verif.Spec.AttrDict
import Verif.Lemmas.AttrDict
import Verif.Props.AttrDict
import Verif.Model.DocOrder
import Verif.Spec.DocOrder
import Verif.Lemmas.DocOrder
import Verif.Props.DocOrder
import Verif.Props.DocOrderFrames
import Verif.Model.XLive
import Verif.Spec.XLive
import Verif.Lemmas.XLive
import Verif.Props.XLive
import Verif.Model.DocOrderThreads
import Verif.Spec.DocOrderThreads
import Verif.Lemmas.DocOrderThreads
import Verif.Props.DocOrderThreads
import Verif.Spec.RootCache
import Verif.Model.RootObjects
import Verif.Spec.RootObjects
import Verif.Props.RootObjects
import Verif.Model.WriterHandler
import Verif.Spec.WriterHandler
import Verif.Props.WriterHandler
import Verif.Spec.XPathItems
import Verif.Props.XPathItems
import Verif.Model.Frames
import Verif.Spec.Frames
import Verif.Props.Frames
import Verif.Spec.XPathErrors
import Verif.Props.XPathErrors
import Verif.Spec.ParserErrors
import Verif.Props.ParserErrors
import Verif.Spec.SenderCut
import Verif.Props.SenderCut
import Verif.Spec.QueryAttr
import Verif.Props.QueryAttr
import Verif.Model.SenderSinks
import Verif.Spec.SenderSinks
import Verif.Props.SenderSinks
import Verif.Model.MicroxHtml
import Verif.Spec.MicroxHtml
import Verif.Props.MicroxHtml
import Verif.Model.XSender
import Verif.Spec.XSender
import Verif.Lemmas.XSender
import Verif.Props.XSender
import Verif.Spec.IndentBack
import Verif.Props.IndentBack
import Verif.Model.Handlers
import Verif.Spec.Handlers
import Verif.Props.Handlers
import Verif.Model.Edit
import Verif.Spec.Edit
import Verif.Lemmas.Edit
import Verif.Lemmas.EditOps
import Verif.Lemmas.EditParse
import Verif.Props.Edit
import Verif.Spec.Routes
import Verif.Props.Routes
import Verif.Spec.Rewrite
import Verif.Props.Rewrite
import Verif.Model.XLivePath
import Verif.Spec.XLivePath
import Verif.Lemmas.XLivePath
import Verif.Props.XLivePath
import Verif.Spec.Prune
import Verif.Props.Prune
import Verif.Spec.Pipe
import Verif.Props.Pipe
import Verif.Spec.Pieces
import Verif.Props.Pieces
import Verif.Model.Printing
import Verif.Spec.Printing
import Verif.Props.Printing
import Verif.Model.FramesWrite
import Verif.Props.FramesWrite
import Verif.Spec.Bones
import Verif.Lemmas.Bones
import Verif.Props.Bones
import Verif.Spec.Readers
import Verif.Props.Readers
import Verif.Lemmas.CutValue
import Verif.Props.CutValue
import Verif.Props.RepoTests
import Verif.Model.UserFns
import Verif.Spec.UserFns
import Verif.Lemmas.UserFns
import Verif.Props.UserFns
import Verif.Spec.Down
import Verif.Lemmas.Down
import Verif.Props.Down
import Verif.Model.XHeap
import Verif.Spec.XHeap
import Verif.Lemmas.XHeap
import Verif.Lemmas.XHeapEval
import Verif.Lemmas.XHeapRun
import Verif.Props.XHeap
import Verif.Spec.XApart
import Verif.Lemmas.XApart
import Verif.Props.XApart
import Verif.Model.Window
import Verif.Spec.Window
import Verif.Lemmas.Window
import Verif.Props.Window
import Verif.Spec.Meaning
import Verif.Lemmas.Meaning
import Verif.Props.Meaning
import Verif.Spec.MeaningMem
import Verif.Props.MeaningMem
import Verif.Spec.MeaningList
import Verif.Props.MeaningList
import Verif.Spec.MicroxMeaning
import Verif.Props.MicroxMeaning
import Verif.Spec.MeaningValues
import Verif.Props.MeaningValues
import Verif.Spec.MeaningTests
import Verif.Props.MeaningTests
import Verif.Spec.QueryText
import Verif.Props.QueryText
import Verif.Spec.MicroxTests
import Verif.Props.MicroxTests
import Verif.Spec.VarValues
import Verif.Props.VarValues
import Verif.Spec.SameElems
import Verif.Lemmas.SameElems
import Verif.Props.SameElems
import Verif.Spec.StreamTests
import Verif.Props.StreamTests
import Verif.Spec.Selectors
import Verif.Props.Selectors
import Verif.Spec.Filter
import Verif.Props.Filter
import Verif.Spec.Purge
import Verif.Props.Purge
import Verif.Spec.StarStream
import Verif.Props.StarStream
import Verif.Spec.Mark
import Verif.Props.Mark
import Verif.Spec.Move
import Verif.Props.Move
import Verif.Spec.MoveSaved
import Verif.Props.MoveSaved
import Verif.Spec.Grow
import Verif.Props.Grow
import Verif.Spec.White
import Verif.Props.White
import Verif.Spec.Copy
import Verif.Props.Copy
import Verif.Spec.XLiveAxes
import Verif.Lemmas.XLiveAxes
import Verif.Props.XLiveAxes
import Verif.Model.XFrames
import Verif.Spec.XFrames
import Verif.Lemmas.XFrames
import Verif.Lemmas.XFramesRoom
import Verif.Lemmas.XFramesMore
import Verif.Lemmas.XFramesEv
import Verif.Props.XFrames
import Verif.Props.XFramesCore
import Verif.Model.XMarks
import Verif.Spec.XMarks
import Verif.Lemmas.XMarks
import Verif.Lemmas.XMarksRoot
import Verif.Lemmas.XMarksEval
import Verif.Props.XMarks
import Verif.Spec.Stream
import Verif.Props.Stream
import Verif.Model.SendersMem
import Verif.Spec.SendersMem
import Verif.Lemmas.SendersMem
import Verif.Props.SendersMem
