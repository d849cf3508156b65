import Verif.Model.Basic
import Verif.Model.SetSymbol
import Verif.Proofs.SetSymbol
import Verif.Props.SetSymbol
import Verif.Model.Helpers
import Verif.Props.Helpers
import Verif.Spec.CFG
import Verif.Spec.LeftStep
import Verif.Proofs.CFG
import Verif.Model.Packrat
import Verif.Spec.Settled
import Verif.Proofs.Packrat.Basic
import Verif.Proofs.Packrat.Settle
import Verif.Proofs.Packrat.Sound
import Verif.Proofs.Packrat.Engine
import Verif.Proofs.Packrat.Loop
import Verif.Proofs.Packrat.Tree
import Verif.Proofs.Packrat.Lift
import Verif.Proofs.Packrat.Fuel
import Verif.Proofs.Packrat.LiftBest
import Verif.Props.Packrat
import Verif.Props.PackratBest
import Verif.Spec.OrderedChoice
import Verif.Model.Topdown
import Verif.Proofs.Topdown
import Verif.Proofs.TopdownSpec
import Verif.Proofs.LeftRec
import Verif.Props.Topdown
import Verif.Spec.GrammarDef
import Verif.Model.Grammar
import Verif.Proofs.Grammar
import Verif.Proofs.GrammarText
import Verif.Proofs.GrammarRound
import Verif.Props.Grammar
import Verif.Spec.Tree
import Verif.Model.Tree
import Verif.Proofs.Tree
import Verif.Props.Tree
import Verif.Model.TreeText
import Verif.Proofs.TreeText
import Verif.Props.TreeText
import Verif.Model.ReducerDSL
import Verif.Props.ReducerDSL
import Verif.Spec.Lexer
import Verif.Spec.Utf8
import Verif.Spec.Regex
import Verif.Model.SimpleLexer
import Verif.Proofs.SimpleLexer
import Verif.Proofs.SimpleLexerHist
import Verif.Props.SimpleLexer
import Verif.Spec.StackLexer
import Verif.Model.StackLexer
import Verif.Model.StackLexerNew
import Verif.Proofs.StackLexer
import Verif.Proofs.StackLexerSafe
import Verif.Props.StackLexer
import Verif.Spec.Inherit
import Verif.Proofs.StackLexerNew
import Verif.Props.StackLexerNew
import Verif.Spec.RegexGram
import Verif.Model.RegexGram
import Verif.Proofs.RegexGram
import Verif.Proofs.RegexGramLang
import Verif.Proofs.RegexGramReduce
import Verif.Proofs.RegexGramNames
import Verif.Props.RegexGram
import Verif.Spec.Numeral
import Verif.Proofs.Numeral
import Verif.Spec.First
import Verif.Model.Analyze
import Verif.Proofs.First
import Verif.Proofs.Analyze
import Verif.Proofs.AnalyzeLift
import Verif.Props.Analyze
import Verif.Model.LeftRecursion
import Verif.Spec.RemoveLR
import Verif.Proofs.RemoveLR
import Verif.Proofs.RemoveLRLoop
import Verif.Proofs.RemoveLRMain
import Verif.Proofs.RemoveLRLang
import Verif.Proofs.RemoveLRTerm
import Verif.Props.RemoveLR
import Verif.Model.Json
import Verif.Spec.Json
import Verif.Props.Json
import Verif.Proofs.JsonParse
import Verif.Props.JsonFormat
import Verif.Model.TreeHeap
import Verif.Spec.TreeHeap
import Verif.Proofs.TreeHeap
import Verif.Proofs.TreeHeapOps
import Verif.Proofs.TreeHeapBuild
import Verif.Proofs.TreeHeapNew
import Verif.Props.TreeHeap
import Verif.Proofs.Lit
import Verif.Model.RegexGramNew
import Verif.Spec.RegexGramText
import Verif.Proofs.RegexGramRead
import Verif.Proofs.RegexGramSpell
import Verif.Props.RegexGramNew
import Verif.Spec.Regexp
import Verif.Spec.Cut
import Verif.Spec.RegexGramLayout
import Verif.Model.Regexp
import Verif.Model.SimpleLexerText
import Verif.Model.Run
import Verif.Model.RegexGramText
import Verif.Model.JsonText
import Verif.Proofs.Regexp
import Verif.Proofs.LexText
import Verif.Proofs.RegexGramLex
import Verif.Proofs.RegexGramScan
import Verif.Props.RegexGramText
import Verif.Spec.TextTokens
import Verif.Spec.ReducerText
import Verif.Model.ReducerText
import Verif.Proofs.ReducerGram
import Verif.Proofs.ReducerRead
import Verif.Proofs.ReducerValid
import Verif.Proofs.ReducerSpell
import Verif.Proofs.RegexpMore
import Verif.Proofs.ReducerLex
import Verif.Proofs.ReducerScan
import Verif.Props.ReducerText
import Verif.Spec.JsonText
import Verif.Proofs.JsonLex
import Verif.Proofs.JsonPretty
import Verif.Props.JsonText
import Verif.Spec.Math
import Verif.Model.MathText
import Verif.Proofs.MathGeom
import Verif.Proofs.MathStep
import Verif.Proofs.MathDer
import Verif.Proofs.MathInv
import Verif.Proofs.MathKeep
import Verif.Proofs.MathVal
import Verif.Proofs.MathTree
import Verif.Proofs.MathValue
import Verif.Proofs.MathParse
import Verif.Proofs.MathLex
import Verif.Props.MathText
import Verif.Spec.Scalc
import Verif.Model.Scalc
import Verif.Proofs.ScalcVal
import Verif.Proofs.ScalcRed
import Verif.Proofs.ScalcLang
import Verif.Proofs.LexErr
import Verif.Proofs.ScalcLex
import Verif.Props.ScalcText
import Verif.Proofs.ScalcRun
import Verif.Proofs.ScalcForms
import Verif.Proofs.ScalcSeg
import Verif.Proofs.ScalcKnown
import Verif.Proofs.ScalcChoice
import Verif.Props.ScalcRun
import Verif.Spec.LexerDef
import Verif.Spec.RegexpMarks
import Verif.Model.StackLexerText
import Verif.Model.StackLexerRex
import Verif.Proofs.LexerDefRx
import Verif.Proofs.LexerDefLine
import Verif.Proofs.LexerDefHead
import Verif.Proofs.RegexpMarks
import Verif.Props.LexerDef
import Verif.Props.StackLexerRex
import Verif.Model.SimpleLexerString
import Verif.Props.SimpleLexerString
import Verif.Model.ScalcMain
import Verif.Spec.ScalcSession
import Verif.Props.ScalcMain
import Verif.Spec.TreeDef
import Verif.Model.TreeRex
import Verif.Proofs.TreeLine
import Verif.Proofs.TreeDef
import Verif.Props.TreeDef
import Verif.Spec.LL1
import Verif.Proofs.LL1
import Verif.Proofs.LL1Check
import Verif.Props.LL1
import Verif.Model.Lexeme
import Verif.Proofs.Lexeme
import Verif.Props.Lexeme
import Verif.Model.LexError
import Verif.Props.LexError
import Verif.Model.StringSymbol
import Verif.Props.StringSymbol
import Verif.Model.Mains
import Verif.Props.Mains
import Verif.Model.SetSymbolHeap
import Verif.Props.SetSymbolHeap
import Verif.Model.TopdownCount
import Verif.Props.TopdownCount
import Verif.Props.TopdownLeast
import Verif.Model.PackratCount
import Verif.Props.PackratCount
import Verif.Props.PackratOrder
import Verif.Props.PackratShape
import Verif.Props.TopdownShape
import Verif.Spec.Calls
import Verif.Props.TopdownLoop
import Verif.Model.TopdownHeap
import Verif.Props.TopdownHeap
import Verif.Spec.DirectLL1
import Verif.Proofs.DirectLL1
import Verif.Props.DirectLL1
import Verif.Spec.LexerHistory
import Verif.Proofs.SimpleLexerTrace
import Verif.Props.SimpleLexerTrace
import Verif.Props.StackLexerInsert
import Verif.Spec.Searches
import Verif.Model.SimpleLexerSearch
import Verif.Model.StackLexerSearch
import Verif.Proofs.SimpleLexerSearch
import Verif.Proofs.StackLexerSearch
import Verif.Props.SimpleLexerSearch
import Verif.Props.SimpleLexerLeast
import Verif.Props.StackLexerSearch
import Verif.Props.StackLexerLeast
import Verif.Props.StackLexerFlat
import Verif.Spec.StackCrash
import Verif.Proofs.StackLexerPanic
import Verif.Props.StackLexerPanic
import Verif.Props.RemoveLRSize
import Verif.Spec.GrammarSize
import Verif.Props.RegexGramSize
import Verif.Model.SetSymbolString
import Verif.Props.SetSymbolString
import Verif.Props.JsonSize
import Verif.Model.Int64
import Verif.Model.PackratWork
import Verif.Props.PackratWork
import Verif.Props.PackratWorkLeast
import Verif.Props.TopdownSize
import Verif.Props.PackratKinds
import Verif.Spec.Asked
import Verif.Props.PackratAsked
import Verif.Model.PackratTotal
import Verif.Proofs.PackratTotal
import Verif.Props.PackratTotal
import Verif.Props.PackratLeast
import Verif.Model.Must
import Verif.Props.Must
import Verif.Spec.Concurrent
import Verif.Model.Concurrent
import Verif.Proofs.Concurrent
import Verif.Props.Concurrent
import Verif.Model.ConcurrentParse
import Verif.Proofs.ConcurrentParse
import Verif.Props.ConcurrentParse
import Verif.Model.ConcurrentRun
import Verif.Proofs.ConcurrentRun
import Verif.Props.ConcurrentRun
import Verif.Spec.StackExact
import Verif.Proofs.StackLexerExact
import Verif.Props.StackLexerExact
