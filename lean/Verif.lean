import Verif.Basic
import Verif.Chars
import Verif.Prog
import Verif.Utf
import Verif.Scanner
import Verif.Reader
import Verif.Parser
import Verif.Document
import Verif.Emitter
import Verif.Dumper
import Verif.Lib.Wp
import Verif.Spec.Position
import Verif.Lib.Input
import Verif.Lib.Lex
import Verif.Lib.Lex2
import Verif.Lib.Lex3
import Verif.Lib.Fetch
import Verif.Lib.Fetch2
import Verif.Lib.Scan
import Verif.Spec.Tokens
import Verif.Lib.History
import Verif.Lib.History2
import Verif.Lib.Source
import Verif.Lib.Sim
import Verif.Spec.Documents
import Verif.Props.DocumentApi
import Verif.Props.Errors
import Verif.Api
import Verif.Lib.Run
import Verif.Lib.Utf
import Verif.Lib.Clean
import Verif.Lib.Clean2
import Verif.Lib.Read8
import Verif.Props.Reader
import Verif.Props.Scanner
import Verif.Lib.TokRun
import Verif.Spec.Events
import Verif.Lib.Grammar
import Verif.Spec.Content
import Verif.Lib.Pars
import Verif.Lib.Pars2
import Verif.Lib.Pars3
import Verif.Lib.Pars4
import Verif.Lib.ParsRun
import Verif.Props.Parser
import Verif.Lib.Same
import Verif.Lib.Aliases
import Verif.Spec.Compose
import Verif.Lib.Load
import Verif.Lib.WpO
import Verif.Lib.Load2
import Verif.Props.Loader
import Verif.Lib.Sync
import Verif.Props.Same
import Verif.Spec.Output
import Verif.Spec.Emit
import Verif.Lib.Sink
import Verif.Lib.Emit
import Verif.Lib.Emit2
import Verif.Lib.Emit3
import Verif.Lib.Emit4
import Verif.Lib.Emit5
import Verif.EmitApi
import Verif.Spec.Unbuffered
import Verif.Lib.EmitRun
import Verif.Props.Emitter
import Verif.Spec.Scalars
import Verif.Lib.TextScan
import Verif.Lib.Quoted
import Verif.Lib.BadEscape
import Verif.Lib.EmitText
import Verif.Lib.Analyze
import Verif.Lib.EmitQuoted
import Verif.Props.Quoted
import Verif.Spec.Plain
import Verif.Lib.Plain
import Verif.Lib.EmitPlain
import Verif.Props.Plain
import Verif.Spec.Block
import Verif.Lib.Block
import Verif.Lib.EmitBlock
import Verif.Lib.EmitFolded
import Verif.Props.Block
import Verif.Spec.Tags
import Verif.Lib.Tags
import Verif.Props.Names
import Verif.Spec.Directives
import Verif.Lib.Directive
import Verif.Props.Directives
import Verif.Spec.Dump
import Verif.Lib.Dump
import Verif.Lib.Dump2
import Verif.Lib.Unfold
import Verif.Props.Dump
import Verif.Lifecycle
import Verif.Props.Reset
import Verif.Spec.TokenGrammar
import Verif.Lib.ParseTree
import Verif.Lib.ParseTree2
import Verif.Lib.ParseTree3
import Verif.Props.ParserGrammar
import Verif.Lib.Lexeme3
import Verif.Lib.Lexeme5
import Verif.Lib.Lexeme6
import Verif.Lib.Round
import Verif.Lib.Round2
import Verif.Lib.Round3
import Verif.Spec.RoundTrip
import Verif.Lib.Round4
import Verif.Lib.Round5
import Verif.Lib.Round6
import Verif.Lib.Round7
import Verif.Lib.Round8
import Verif.Lib.Round9
import Verif.Lib.Round10
import Verif.Lib.Round11
import Verif.Lib.Round12
import Verif.Lib.Round13
import Verif.Lib.Round14
import Verif.Lib.Round15
import Verif.Lib.Round16
import Verif.Lib.Round17
import Verif.Lib.Round18
import Verif.Lib.Round19
import Verif.Lib.Round20
import Verif.Lib.Round21
import Verif.Lib.Round22
import Verif.Props.RoundTrip
import Verif.Props.LoadComplete
import Verif.Spec.DumpLoad
import Verif.Lib.DumpLoad
import Verif.Props.DumpLoad
import Verif.Spec.TokenContent
import Verif.Props.Reemit
import Verif.Lib.Reload
import Verif.Props.Reload
import Verif.Spec.Lexemes
import Verif.Lib.Part
import Verif.Lib.Snd
import Verif.Lib.Snd2
import Verif.Lib.Snd3
import Verif.Lib.Snd4
import Verif.Lib.Tile
import Verif.Lib.Tile2
import Verif.Lib.Tile3
import Verif.Lib.Tile4
import Verif.Lib.Tight
import Verif.Lib.Tile5
import Verif.Props.Tiling
import Verif.Lib.ParsBoth
import Verif.Lib.Trans
import Verif.Lib.Trans2
import Verif.Lib.Trans3
import Verif.Lib.Trans4
import Verif.Lib.Trans5
import Verif.Props.ParserSound
import Verif.Spec.Json
import Verif.Lib.JsonLex
import Verif.Lib.JsonRead
import Verif.Lib.JsonRead2
import Verif.Lib.JsonLoad
import Verif.Props.Json
import Verif.Spec.Yaml
import Verif.Lib.YamlLex
import Verif.Lib.YamlKey
import Verif.Lib.YamlFlow
import Verif.Lib.YamlBlock
import Verif.Lib.YamlDocs
import Verif.Props.Yaml
import Verif.Spec.EventMarks
import Verif.Lib.Spans
import Verif.Lib.Spans2
import Verif.Lib.Spans3
import Verif.Props.EventMarks
import Verif.Spec.LineBreaks
import Verif.Lib.Twin
import Verif.Lib.Twin2
import Verif.Lib.Twin3
import Verif.Lib.Twin4
import Verif.Lib.Twin5
import Verif.Lib.Twin6
import Verif.Lib.Twin7
import Verif.Lib.Twin8
import Verif.Props.LineBreaks
import Verif.Lib.Docs
import Verif.Lib.Docs2
import Verif.Lib.Docs3
import Verif.Lib.Docs4
import Verif.Lib.DocsDepth
import Verif.Lib.Docs5
import Verif.Lib.Docs6
import Verif.Spec.Behind
import Verif.Props.Behind
import Verif.Lib.Need
import Verif.Lib.Ahead
import Verif.Lib.Ahead2
import Verif.Lib.Ahead3
import Verif.Spec.OnTime
import Verif.Props.OnTime
import Verif.Lib.EmitBreak
import Verif.Lib.EmitBreak2
import Verif.Spec.WithBreak
import Verif.Props.SetBreak
import Verif.Spec.Settings
import Verif.Lib.Settings
import Verif.Props.Settings
import Verif.Lib.EmitEnc
import Verif.Lib.EmitEnc2
import Verif.Props.Encodings
import Verif.Spec.Culprit
import Verif.Lib.Culprit
import Verif.Lib.Culprit2
import Verif.Lib.Honest
import Verif.Lib.Honest2
import Verif.Props.Culprit
import Verif.Lib.Half
import Verif.Lib.Half2
import Verif.Spec.BreaksOff
import Verif.Lib.Half3
import Verif.Lib.Half4
import Verif.Props.BreaksOff
import Verif.Spec.Iterate
import Verif.Props.Iterate
import Verif.Props.Folds
import Verif.Props.Unicode
import Verif.Props.UnicodeDump
