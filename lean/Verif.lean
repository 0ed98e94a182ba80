import Verif.Model.Basic
import Verif.Model.Unicode
import Verif.Model.Grapheme
import Verif.Model.Token
import Verif.Model.Lexer
import Verif.Model.Ast
import Verif.Model.Fixity
import Verif.Spec.Grouping
import Verif.Lemmas.Grouping
import Verif.Lemmas.Table
import Verif.Lemmas.GroupingMore
import Verif.Props.Grouping
import Verif.Spec.Resolve
import Verif.Lemmas.Visit
import Verif.Lemmas.Resolver
import Verif.Lemmas.ResolverMain
import Verif.Lemmas.ResolverMore
import Verif.Props.Ast
import Verif.Props.Resolver
import Verif.Props.Table
import Verif.Model.Lexicon
import Verif.Lemmas.Text
import Verif.Lemmas.Lexicon
import Verif.Props.Interner
import Verif.Model.Color
import Verif.Props.Color
import Verif.Model.Style
import Verif.Spec.Terminal
import Verif.Props.Style
import Verif.Props.Paint
import Verif.Props.Text
import Verif.Lemmas.LexReach
import Verif.Spec.Lex
import Verif.Spec.LexRun
import Verif.Lemmas.LexPos
import Verif.Lemmas.LexText
import Verif.Lemmas.LexFacts
import Verif.Lemmas.LexLits
import Verif.Props.LexerPos
import Verif.Lemmas.LexTok
import Verif.Props.LexerTokens
import Verif.Model.Parser
import Verif.Spec.Grammar
import Verif.Spec.ParseRun
import Verif.Spec.Parsed
import Verif.Lemmas.ParseRun
import Verif.Lemmas.ParseSound
import Verif.Lemmas.ParsePats
import Verif.Lemmas.ParseExprs
import Verif.Lemmas.ParseProg
import Verif.Lemmas.ParseFuel
import Verif.Lemmas.ParseShape
import Verif.Lemmas.LexMore
import Verif.Props.Parser
import Verif.Model.Printer
import Verif.Spec.Print
import Verif.Spec.LexKinds
import Verif.Lemmas.Printer
import Verif.Lemmas.LexKinds
import Verif.Lemmas.PrintBalance
import Verif.Lemmas.PrintList
import Verif.Lemmas.ResolverNames
import Verif.Props.Printer
import Verif.Model.Session
import Verif.Spec.Session
import Verif.Lemmas.Session
import Verif.Lemmas.SessionStep
import Verif.Lemmas.SessionText
import Verif.Lemmas.SessionReads
import Verif.Props.Session
import Verif.Props.SessionFix
import Verif.Props.SessionCmds
import Verif.Props.SessionMore
import Verif.Spec.Layout
import Verif.Spec.Line
import Verif.Spec.Shapes
import Verif.Lemmas.ParseStream
import Verif.Lemmas.ParseFullPats
import Verif.Lemmas.ParseFull
import Verif.Lemmas.ParseExact
import Verif.Lemmas.ParseTop
import Verif.Lemmas.ParseLine
import Verif.Lemmas.LexCols
import Verif.Lemmas.ParseShapes
import Verif.Props.ParserFull
import Verif.Props.ParserShapes
import Verif.Spec.Reprint
import Verif.Lemmas.ReprintLex
import Verif.Lemmas.ReprintShape
import Verif.Lemmas.Reprint
import Verif.Lemmas.ReprintSource
import Verif.Props.Reprint
import Verif.Spec.Chains
import Verif.Lemmas.Chains
import Verif.Props.Chains
import Verif.Spec.Echo
import Verif.Lemmas.Echo
import Verif.Props.Echo
import Verif.Model.Compose
import Verif.Model.Symbol
import Verif.Spec.Compose
import Verif.Spec.RustFloat
import Verif.Props.Compose
import Verif.Props.Symbol
import Verif.Props.Floats
import Verif.Spec.LexGrammar
import Verif.Lemmas.LexGrammar
import Verif.Lemmas.GrammarSound
import Verif.Props.LexGrammar
import Verif.Spec.Expressible
import Verif.Lemmas.Expressible
import Verif.Props.Expressible
import Verif.Spec.Clashes
import Verif.Lemmas.Clashes
import Verif.Props.Clashes
import Verif.Spec.Spellings
import Verif.Lemmas.Spellings
import Verif.Props.Spellings
import Verif.Props.Memory
import Verif.Props.AstMore
import Verif.Props.InternerCell
import Verif.Spec.Placed
import Verif.Lemmas.Placed
import Verif.Lemmas.Join
import Verif.Props.Join
import Verif.Props.Listing
import Verif.Spec.Errors
import Verif.Lemmas.Local
import Verif.Lemmas.Viable
import Verif.Lemmas.Prefix
import Verif.Props.Errors
import Verif.Lemmas.Laid
import Verif.Props.LexerStop
import Verif.Props.Spans
import Verif.Props.ColorText
import Verif.Props.Api
import Verif.Model.Setup
import Verif.Props.Setup
import Verif.Props.ErrorText
import Verif.Props.Brackets
import Verif.Props.Names
import Verif.Spec.Wording
import Verif.Props.Commands
import Verif.Props.Messages
import Verif.Spec.Rename
import Verif.Spec.Quoted
import Verif.Lemmas.Rename
import Verif.Props.Chars
import Verif.Props.Rename
import Verif.Props.Quoted
import Verif.Spec.Alike
import Verif.Lemmas.Alike
import Verif.Props.Alike
import Verif.Model.Words
import Verif.Props.Words
import Verif.Props.RepoTests
import Verif.Spec.Readme
import Verif.Props.Readme
import Verif.Props.Escapes
import Verif.Spec.ReadmeLex
import Verif.Props.ReadmeLex
import Verif.Lemmas.Leaks
import Verif.Props.Leaks
import Verif.Props.Match
import Verif.Props.Visitors
import Verif.Props.PrinterState
import Verif.Props.Format
import Verif.Props.ColorOrder
import Verif.Props.LineEnds
import Verif.Spec.Spans
import Verif.Lemmas.Again
import Verif.Lemmas.StringSpan
import Verif.Props.StringSpans
import Verif.Props.TokenText
import Verif.Spec.Drawn
import Verif.Lemmas.Drawn
import Verif.Props.Drawn
import Verif.Props.Becomes
import Verif.Props.Threads
import Verif.Props.AnySource
import Verif.Lemmas.Crash
import Verif.Lemmas.CrashText
import Verif.Props.Crash
import Verif.Spec.BadWord
import Verif.Lemmas.SessionCrash
import Verif.Props.CrashSession
import Verif.Props.IterMut
import Verif.Spec.Ledger
import Verif.Lemmas.Ledger
import Verif.Props.Ledger
import Verif.Spec.Desk
import Verif.Lemmas.Desk
import Verif.Props.Desk
import Verif.Model.Trace
import Verif.Spec.Trace
import Verif.Lemmas.Trace
import Verif.Props.Trace
import Verif.Spec.ExprErrors
import Verif.Lemmas.ExprPrefix
import Verif.Props.ExprPrefix
import Verif.Spec.Swap
import Verif.Lemmas.Swap
import Verif.Lemmas.SwapLayout
import Verif.Props.Swap
import Verif.Spec.School
import Verif.Lemmas.School
import Verif.Props.School
import Verif.Spec.Haskell
import Verif.Lemmas.Haskell
import Verif.Props.Haskell
import Verif.Spec.Confined
import Verif.Props.Confined
import Verif.Spec.Harmless
import Verif.Lemmas.Harmless
import Verif.Lemmas.HarmlessText
import Verif.Lemmas.HarmlessParse
import Verif.Props.Harmless
import Verif.Model.Cost
import Verif.Spec.Cost
import Verif.Lemmas.Cost
import Verif.Props.Cost
import Verif.Props.Storage
import Verif.Lemmas.ListingUnique
import Verif.Props.ListingUnique
import Verif.Lemmas.Lines
import Verif.Props.Lines
import Verif.Lemmas.Retyped
import Verif.Props.Retyped
import Verif.Spec.Bulk
import Verif.Lemmas.Bulk
import Verif.Lemmas.Message
import Verif.Props.Bulk
import Verif.Props.BulkAll
import Verif.Props.OpText
import Verif.Spec.Between
import Verif.Lemmas.Between
import Verif.Props.Between
import Verif.Spec.Looking
import Verif.Props.Looking
import Verif.Spec.Declarable
import Verif.Lemmas.Declarable
import Verif.Props.Declarable
import Verif.Props.Pairs
import Verif.Spec.Repeat
import Verif.Props.Repeat
import Verif.Spec.Renumber
import Verif.Lemmas.Renumber
import Verif.Props.Renumber
import Verif.Model.StyleMap
import Verif.Props.StyleMap
import Verif.Spec.Redundant
import Verif.Lemmas.Redundant
import Verif.Props.Redundant
import Verif.Spec.Replace
import Verif.Lemmas.Replace
import Verif.Props.Replace
import Verif.Lemmas.Synonyms
import Verif.Props.Synonyms
import Verif.Lemmas.Apart
import Verif.Props.Apart
import Verif.Spec.Apart
import Verif.Lemmas.Loading
import Verif.Props.Loading
import Verif.Lemmas.Relet
import Verif.Props.Relet
import Verif.Spec.Unrelated
import Verif.Props.Unrelated
import Verif.Props.LetFirst
import Verif.Props.Elements
import Verif.Spec.Numbers
import Verif.Props.Numbers
import Verif.Spec.Naming
import Verif.Props.Naming
import Verif.Spec.Backwards
import Verif.Props.Backwards
import Verif.Spec.Stretch
import Verif.Props.Stretch
import Verif.Spec.OneSided
import Verif.Props.OneSided
