import Verif.Model.Result
import Verif.Model.Stream
import Verif.Model.Parser
import Verif.Model.Token
import Verif.Model.Combinator
import Verif.Model.Sequence
import Verif.Model.Choice
import Verif.Model.Repeat
import Verif.Model.ErrorP
import Verif.Model.Range
import Verif.Model.Errors
import Verif.Model.Slice
import Verif.Model.Str
import Verif.Model.Wrap
import Verif.Model.Position
import Verif.Model.Buffered
import Verif.Model.Decoder
import Verif.Model.Byte
import Verif.Model.Async
import Verif.Model.Report
import Verif.Model.Classes
import Verif.Model.Json
import Verif.Model.LanguageServer
import Verif.Model.Http
import Verif.Model.Date
import Verif.Model.Ini
import Verif.Model.EasyParse
import Verif.Model.Mp4
import Verif.Model.Examples
import Verif.Model.Count
import Verif.Model.Buffers
import Verif.Model.Position32
import Verif.Model.StructParser
import Verif.Spec.Accepts
import Verif.Spec.Alike
import Verif.Spec.Answer
import Verif.Spec.Arrays
import Verif.Spec.Ascii
import Verif.Spec.Async
import Verif.Spec.Behaved
import Verif.Spec.Blame
import Verif.Spec.Built
import Verif.Spec.Bytes
import Verif.Spec.Calls
import Verif.Spec.Classes
import Verif.Spec.Commitment
import Verif.Spec.Date
import Verif.Spec.Decoding
import Verif.Spec.Errors
import Verif.Spec.Examples
import Verif.Spec.Fragment
import Verif.Spec.Framed
import Verif.Spec.Grammar
import Verif.Spec.Hints
import Verif.Spec.History
import Verif.Spec.Http
import Verif.Spec.Ini
import Verif.Spec.IterFeed
import Verif.Spec.Json
import Verif.Spec.JsonLoose
import Verif.Spec.LanguageServer
import Verif.Spec.Laws
import Verif.Spec.Lockstep
import Verif.Spec.Mp4
import Verif.Spec.Peg
import Verif.Spec.Places
import Verif.Spec.Play
import Verif.Spec.Ranges
import Verif.Spec.Recording
import Verif.Spec.Recover
import Verif.Spec.Recursion
import Verif.Spec.RegexSpec
import Verif.Spec.Repeat
import Verif.Spec.Report
import Verif.Spec.Resume
import Verif.Spec.RightChain
import Verif.Spec.Says
import Verif.Spec.Seek
import Verif.Spec.Sequence
import Verif.Spec.Straight
import Verif.Spec.StructParser
import Verif.Spec.Tape
import Verif.Spec.Termination
import Verif.Spec.TokenChoice
import Verif.Spec.Twin
import Verif.Proof.Alike
import Verif.Proof.Blame
import Verif.Proof.BlameErrors
import Verif.Proof.Buffered
import Verif.Proof.BuiltMoves
import Verif.Proof.Calm
import Verif.Proof.Coherent
import Verif.Proof.Commitment
import Verif.Proof.Consume
import Verif.Proof.Date
import Verif.Proof.ErrorLemmas
import Verif.Proof.Examples
import Verif.Proof.Feed
import Verif.Proof.FeedInst
import Verif.Proof.Fragment
import Verif.Proof.Grammar
import Verif.Proof.Grows
import Verif.Proof.Hints
import Verif.Proof.HistoryLemmas
import Verif.Proof.Honest
import Verif.Proof.HonestRange
import Verif.Proof.HonestRep
import Verif.Proof.HonestSeq
import Verif.Proof.Http
import Verif.Proof.HttpTotal
import Verif.Proof.Ini
import Verif.Proof.IterLemmas
import Verif.Proof.Json
import Verif.Proof.JsonOnly
import Verif.Proof.JsonTotal
import Verif.Proof.Known
import Verif.Proof.KnownChars
import Verif.Proof.LanguageServer
import Verif.Proof.Lockstep
import Verif.Proof.Moves
import Verif.Proof.Mp4
import Verif.Proof.Near
import Verif.Proof.Peg
import Verif.Proof.Places
import Verif.Proof.PlacesRange
import Verif.Proof.PlacesRep
import Verif.Proof.PlacesSeq
import Verif.Proof.RangeLemmas
import Verif.Proof.Reach
import Verif.Proof.Recording
import Verif.Proof.Recover
import Verif.Proof.Repeatable
import Verif.Proof.ResumeBase
import Verif.Proof.ResumeBytes
import Verif.Proof.ResumeChain
import Verif.Proof.ResumeCore
import Verif.Proof.ResumeFlat
import Verif.Proof.ResumeIterate
import Verif.Proof.ResumeLazy
import Verif.Proof.ResumeLoop
import Verif.Proof.ResumeRange
import Verif.Proof.ResumeRecognize
import Verif.Proof.ResumeRepeat
import Verif.Proof.ResumeSep
import Verif.Proof.ResumeSeq
import Verif.Proof.ResumeSlice
import Verif.Proof.ResumeThen
import Verif.Proof.ResumeTuple
import Verif.Proof.Reuse
import Verif.Proof.RunLemmas
import Verif.Proof.Safe
import Verif.Proof.SliceLaws
import Verif.Proof.StrLaws
import Verif.Proof.Tether
import Verif.Proof.Twin
import Verif.Proof.TwinAll
import Verif.Proof.TwinRange
import Verif.Proof.TwinRepeat
import Verif.Proof.TwinRules
import Verif.Proof.TwinSeq
import Verif.Proof.WrapLaws
import Verif.Props.Accepts
import Verif.Props.Alike
import Verif.Props.AlikeMore
import Verif.Props.Arrays
import Verif.Props.Ascii
import Verif.Props.Async
import Verif.Props.Blame
import Verif.Props.BlameCount
import Verif.Props.BlameMore
import Verif.Props.BlameSepEnd
import Verif.Props.Buffered
import Verif.Props.Buffers
import Verif.Props.Chain
import Verif.Props.Chunks
import Verif.Props.Classes
import Verif.Props.Commitment
import Verif.Props.Control
import Verif.Props.Count
import Verif.Props.Date
import Verif.Props.Debug
import Verif.Props.Decode
import Verif.Props.DecoderBytes
import Verif.Props.ErrorMerge
import Verif.Props.Escaped
import Verif.Props.Exact
import Verif.Props.ExactChain
import Verif.Props.ExactEscaped
import Verif.Props.ExactIterate
import Verif.Props.ExactLook
import Verif.Props.ExactMore
import Verif.Props.ExactRanges
import Verif.Props.Examples
import Verif.Props.FailingChoice
import Verif.Props.Framed
import Verif.Props.Grammar
import Verif.Props.GrammarMore
import Verif.Props.Hints
import Verif.Props.HintsMore
import Verif.Props.HintsSilent
import Verif.Props.Http
import Verif.Props.Ini
import Verif.Props.Integers
import Verif.Props.Iterate
import Verif.Props.Json
import Verif.Props.JsonOnly
import Verif.Props.Label
import Verif.Props.LanguageServer
import Verif.Props.LengthPrefix
import Verif.Props.Monad
import Verif.Props.Mp4
import Verif.Props.Observed
import Verif.Props.OneToken
import Verif.Props.OneTokenJson
import Verif.Props.PartialCodec
import Verif.Props.PartialIter
import Verif.Props.Peg
import Verif.Props.PegMore
import Verif.Props.PegRight
import Verif.Props.Places
import Verif.Props.Position32
import Verif.Props.Positions
import Verif.Props.Prefix
import Verif.Props.RangeTokens
import Verif.Props.Recognize
import Verif.Props.Recording
import Verif.Props.Recover
import Verif.Props.Recursion
import Verif.Props.RecursionMore
import Verif.Props.RegexFind
import Verif.Props.Repeat
import Verif.Props.RepeatUntilChunks
import Verif.Props.Report
import Verif.Props.ReportMap
import Verif.Props.Results
import Verif.Props.RightChain
import Verif.Props.Says
import Verif.Props.Sequence
import Verif.Props.SkipUntilChunks
import Verif.Props.StrRanges
import Verif.Props.StructChunks
import Verif.Props.StructParser
import Verif.Props.TakeUntilRange
import Verif.Props.TakeUntilText
import Verif.Props.TakeWhile
import Verif.Props.Termination
import Verif.Props.Tokens
import Verif.Props.Transparent
import Verif.Props.Twin
import Verif.Props.TwinDate
import Verif.Props.TwinIni
import Verif.Props.Until
import Verif.Props.UntilChunks
import Verif.Props.WholeParse
import Verif.Props.Wrappers
