import Verif.Checks.UnitTests
import Verif.Go.Basic
import Verif.Go.Float
import Verif.Go.Float64
import Verif.Go.FloatMore
import Verif.Go.Round64
import Verif.Go.Slice
import Verif.Go.Unicode
import Verif.Model.AlignSteps
import Verif.Model.Ansi
import Verif.Model.AnsiSteps
import Verif.Model.AttrWriter
import Verif.Model.Attributes
import Verif.Model.BuildTables
import Verif.Model.Cache
import Verif.Model.Dictionary
import Verif.Model.Embedded
import Verif.Model.Fields
import Verif.Model.HyphDE
import Verif.Model.HyphES
import Verif.Model.HyphFR
import Verif.Model.HyphGB
import Verif.Model.HyphSteps
import Verif.Model.HyphUS
import Verif.Model.Hyphenator
import Verif.Model.Languages
import Verif.Model.Linebreak
import Verif.Model.Once
import Verif.Model.Packed
import Verif.Model.Panics
import Verif.Model.PrintTables
import Verif.Model.Punctuator
import Verif.Model.RenderSteps
import Verif.Model.Scanner
import Verif.Model.Shared
import Verif.Model.SliceReader
import Verif.Model.Steps
import Verif.Model.Strings
import Verif.Model.StripComments
import Verif.Model.Tables
import Verif.Model.TablesFile
import Verif.Model.Trie
import Verif.Model.Utf8
import Verif.Model.Width
import Verif.Model.Width64
import Verif.Model.Windows
import Verif.Model.Writer
import Verif.Proofs.AlignSteps
import Verif.Proofs.AnsiChunk
import Verif.Proofs.AnsiClean
import Verif.Proofs.AnsiCut
import Verif.Proofs.AnsiLinear
import Verif.Proofs.AnsiNoLess
import Verif.Proofs.AnsiReading
import Verif.Proofs.AnsiRun
import Verif.Proofs.AnsiScan
import Verif.Proofs.AnsiSeq
import Verif.Proofs.AnsiSize
import Verif.Proofs.AnsiSteps
import Verif.Proofs.AnsiStrip
import Verif.Proofs.AnsiToken
import Verif.Proofs.Attributes
import Verif.Proofs.BuildTables
import Verif.Proofs.CheckDE
import Verif.Proofs.CheckES
import Verif.Proofs.CheckFR
import Verif.Proofs.CheckGB
import Verif.Proofs.CheckUS
import Verif.Proofs.Dictionary
import Verif.Proofs.Fields
import Verif.Proofs.FieldsRanges
import Verif.Proofs.HyphMerge
import Verif.Proofs.HyphSplit
import Verif.Proofs.HyphSteps
import Verif.Proofs.Hyphenator
import Verif.Proofs.Kept
import Verif.Proofs.LBAny
import Verif.Proofs.LBAnyPenalty
import Verif.Proofs.LBBlank
import Verif.Proofs.LBChain
import Verif.Proofs.LBChoice
import Verif.Proofs.LBDisplay
import Verif.Proofs.LBExact
import Verif.Proofs.LBFacts
import Verif.Proofs.LBFills
import Verif.Proofs.LBFit
import Verif.Proofs.LBHistory
import Verif.Proofs.LBIndent
import Verif.Proofs.LBLast
import Verif.Proofs.LBLines
import Verif.Proofs.LBMain
import Verif.Proofs.LBMeasure
import Verif.Proofs.LBNodes
import Verif.Proofs.LBNum
import Verif.Proofs.LBPanics
import Verif.Proofs.LBPenalty
import Verif.Proofs.LBPieces
import Verif.Proofs.LBPlain
import Verif.Proofs.LBRagged
import Verif.Proofs.LBReach
import Verif.Proofs.LBReady
import Verif.Proofs.LBRender
import Verif.Proofs.LBReuse
import Verif.Proofs.LBSafe
import Verif.Proofs.LBSettable
import Verif.Proofs.LBSpecial
import Verif.Proofs.LBSteps
import Verif.Proofs.LBStruct
import Verif.Proofs.LBStyled
import Verif.Proofs.LBTally
import Verif.Proofs.LBText
import Verif.Proofs.LBTwo
import Verif.Proofs.LBUnique
import Verif.Proofs.LBUsual
import Verif.Proofs.LBWalk
import Verif.Proofs.LBWords
import Verif.Proofs.LBWritten
import Verif.Proofs.Levels
import Verif.Proofs.Lookup
import Verif.Proofs.Patterns
import Verif.Proofs.PrintTables
import Verif.Proofs.Punctuator
import Verif.Proofs.RenderSteps
import Verif.Proofs.Scanner
import Verif.Proofs.Shipped
import Verif.Proofs.ShippedWords
import Verif.Proofs.Steps
import Verif.Proofs.StripComments
import Verif.Proofs.Trie
import Verif.Proofs.Utf8
import Verif.Proofs.Width
import Verif.Proofs.Windows
import Verif.Props.Again
import Verif.Props.AlignLower
import Verif.Props.AlignSteps
import Verif.Props.Ansi
import Verif.Props.AnsiSteps
import Verif.Props.AnsiWindows
import Verif.Props.AnyBreaks
import Verif.Props.AnyColumns
import Verif.Props.AnyFit
import Verif.Props.AnyLimit
import Verif.Props.AnyPenalty
import Verif.Props.AnyReach
import Verif.Props.AnyReflow
import Verif.Props.AnySafe
import Verif.Props.AnyScale
import Verif.Props.AnySpace
import Verif.Props.AnySteps
import Verif.Props.AnyStrings
import Verif.Props.AnyText
import Verif.Props.AnyWidth
import Verif.Props.AnyWords
import Verif.Props.AttrWriter
import Verif.Props.Attributes
import Verif.Props.AttributesExact
import Verif.Props.Blank
import Verif.Props.BuildTables
import Verif.Props.ByteRange
import Verif.Props.Cache
import Verif.Props.Choice
import Verif.Props.Comments
import Verif.Props.Display
import Verif.Props.Dropped
import Verif.Props.EmptyAny
import Verif.Props.EmptyWords
import Verif.Props.Fills
import Verif.Props.Fit
import Verif.Props.Float64Cases
import Verif.Props.History
import Verif.Props.HyphSteps
import Verif.Props.HyphenEnds
import Verif.Props.Hyphenation
import Verif.Props.Indented
import Verif.Props.Kept
import Verif.Props.Languages
import Verif.Props.Limit
import Verif.Props.LimitCases
import Verif.Props.LimitExact
import Verif.Props.Linebreak
import Verif.Props.LinebreakCases
import Verif.Props.LinebreakDefault
import Verif.Props.Once
import Verif.Props.OutputSize
import Verif.Props.Panics
import Verif.Props.Pieces
import Verif.Props.PrintTables
import Verif.Props.Ragged
import Verif.Props.Reading
import Verif.Props.ReadyMade
import Verif.Props.RunesIO
import Verif.Props.Scale
import Verif.Props.Shared
import Verif.Props.Shipped
import Verif.Props.Steps
import Verif.Props.Styled
import Verif.Props.StyledCases
import Verif.Props.StyledWidth
import Verif.Props.Text
import Verif.Props.Tries
import Verif.Props.Width64
import Verif.Props.Widths
import Verif.Props.Windows
import Verif.Props.Words
import Verif.Props.Written
import Verif.Spec.Ansi
import Verif.Spec.AnyCall
import Verif.Spec.Attributes
import Verif.Spec.ByteRange
import Verif.Spec.Choice
import Verif.Spec.Comments
import Verif.Spec.Dict
import Verif.Spec.Display
import Verif.Spec.EmptyWords
import Verif.Spec.Fills
import Verif.Spec.GoTables
import Verif.Spec.Layout
import Verif.Spec.Levels
import Verif.Spec.Liang
import Verif.Spec.Limit
import Verif.Spec.Linebreak
import Verif.Spec.Lines
import Verif.Spec.Memory
import Verif.Spec.Pieces
import Verif.Spec.Reader
import Verif.Spec.Reading
import Verif.Spec.Runs
import Verif.Spec.Split
import Verif.Spec.Steps
import Verif.Spec.Styled
import Verif.Spec.StyledCall
import Verif.Spec.Survived
import Verif.Spec.Ucd
import Verif.Spec.Utf8
import Verif.Spec.Width
import Verif.Spec.Written
