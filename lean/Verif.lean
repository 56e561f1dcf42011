import Verif.Accept
import Verif.Action
import Verif.ActionProps
import Verif.Argv
import Verif.ArgvProps
import Verif.AsciiSwarProps
import Verif.Brackets
import Verif.BracketsProps
import Verif.Buffer
import Verif.BufferOwn
import Verif.BufferOwnProps
import Verif.BufferProps
import Verif.Bytes
import Verif.BytesProps
import Verif.CalcEval
import Verif.CalcEvalProps
import Verif.CalcParse
import Verif.CalcParseProps
import Verif.CalcTextProps
import Verif.Callback
import Verif.CallbackProps
import Verif.CaseFold
import Verif.CaseFoldProps
import Verif.CaseFoldThms
import Verif.CharClass
import Verif.CharClassProps
import Verif.ChoiceProps
import Verif.CodePoint
import Verif.CodePointLemmas
import Verif.CodePointProps
import Verif.CodePointRule
import Verif.CodePointRuleProps
import Verif.CombProps
import Verif.Config
import Verif.ConfigProps
import Verif.CtxProps
import Verif.CtxVars
import Verif.DecodeProps
import Verif.DelimRule
import Verif.Delimited
import Verif.DelimitedProps
import Verif.DepthProps
import Verif.Digit
import Verif.DigitProps
import Verif.Email
import Verif.EmailProps
import Verif.EofProps
import Verif.ExprBnf
import Verif.ExprBnfEx
import Verif.ExprComplete
import Verif.ExprEx
import Verif.ExprGroups
import Verif.ExprKeep
import Verif.ExprOps
import Verif.ExprProps
import Verif.ExprSound
import Verif.ExprSpec
import Verif.ExprValue
import Verif.ExprValueEx
import Verif.ExprValueProps
import Verif.ExprWitness
import Verif.Follow
import Verif.FollowProps
import Verif.Grammar
import Verif.GrammarEats
import Verif.GrammarErr
import Verif.GrammarEx
import Verif.GrammarLemmas
import Verif.GrammarMono
import Verif.GrammarQuiet
import Verif.GrammarState
import Verif.GrammarTotal
import Verif.GrammarTrace
import Verif.GrammarWf
import Verif.GrammarWfExpr
import Verif.GrammarWfList
import Verif.GrammarWfProps
import Verif.GrammarWs
import Verif.Identifier
import Verif.IdentifierProps
import Verif.Inputs
import Verif.InputsProps
import Verif.Integer
import Verif.IntegerProps
import Verif.IpAddress
import Verif.IpAddressLemmas
import Verif.IpAddressProps
import Verif.Iter
import Verif.IterProps
import Verif.Json
import Verif.JsonComplete
import Verif.JsonPrint
import Verif.JsonPrintOrder
import Verif.JsonPrintProps
import Verif.JsonPrintSorted
import Verif.JsonProps
import Verif.JsonSound
import Verif.JsonSpec
import Verif.JsonTreeProps
import Verif.JsonUnique
import Verif.JsonValueProps
import Verif.JsonValueSound
import Verif.JsonValueSpec
import Verif.JsonValues
import Verif.Lang
import Verif.LangInv
import Verif.LangProps
import Verif.LazyInit
import Verif.LazyInitProps
import Verif.ListAccept
import Verif.ListProps
import Verif.LitTrie
import Verif.LitTrieProps
import Verif.Literal
import Verif.LiteralLemmas
import Verif.LiteralProps
import Verif.Location
import Verif.LocationProps
import Verif.LoopProps
import Verif.Meta
import Verif.MetaProps
import Verif.ParseTree
import Verif.ParseTreeAction
import Verif.ParseTreeAgree
import Verif.ParseTreeBlocks
import Verif.ParseTreeChains
import Verif.ParseTreeCover
import Verif.ParseTreeInv
import Verif.ParseTreeProps
import Verif.ParseTreeQuiet
import Verif.ParseTreeRead
import Verif.ParseTreeSim
import Verif.Protobuf
import Verif.ProtobufProps
import Verif.PunctProps
import Verif.Reject
import Verif.ReportError
import Verif.ReportErrorProps
import Verif.Runs
import Verif.Scan
import Verif.ScanProps
import Verif.Segment
import Verif.Shell
import Verif.ShellProps
import Verif.StrView
import Verif.StrViewProps
import Verif.Stream
import Verif.StreamProps
import Verif.Subgrammar
import Verif.Swar
import Verif.SwarLemmas
import Verif.SwarProps
import Verif.Symbol
import Verif.SymbolProps
import Verif.TermListProps
import Verif.TerminationProps
import Verif.TimesProps
import Verif.TokenKind
import Verif.TokenKindProps
import Verif.Tokens
import Verif.TokensId
import Verif.TokensProps
import Verif.Trace
import Verif.TraceAction
import Verif.TraceProps
import Verif.TreeDesc
import Verif.TreeDescProps
import Verif.TreeInput
import Verif.TreeInputProps
import Verif.Turing
import Verif.TuringProps
import Verif.TuringTextProps
import Verif.TypeId
import Verif.UnicodeClass
import Verif.UnicodeClassProps
import Verif.UnicodeDb
import Verif.UnicodeDbProps
import Verif.UnicodeFold
import Verif.Until
import Verif.UntilProps
import Verif.Values
import Verif.ValuesCalls
import Verif.ValuesEnds
import Verif.ValuesErase
import Verif.ValuesEx
import Verif.ValuesEx2
import Verif.ValuesLang
import Verif.ValuesLangInv
import Verif.ValuesLangProps
import Verif.ValuesObs
import Verif.ValuesObsProps
import Verif.ValuesParseProps
import Verif.ValuesPrimProps
import Verif.ValuesPrims
import Verif.ValuesProps
import Verif.ValuesSpec
import Verif.Visualize
import Verif.VisualizeColor
import Verif.VisualizeProps
import Verif.WhileProps
import Verif.WsProps
import Verif.Xml
import Verif.XmlComplete
import Verif.XmlEnds
import Verif.XmlProps
import Verif.XmlSound
import Verif.XmlSpec
import Verif.XmlTok
import Verif.XmlTreeProps
