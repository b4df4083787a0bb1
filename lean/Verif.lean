import Verif.Model.Chars
import Verif.Model.Utilities
import Verif.Model.AdmittedSet
import Verif.Model.Tokenizer
import Verif.Model.Ast
import Verif.Model.Optimize
import Verif.Model.TreeBuilder
import Verif.Model.Match
import Verif.Model.Result
import Verif.Model.TokenIter
import Verif.Conformance
import Verif.Spec.Front
import Verif.Spec.Lang
import Verif.Spec.Denote
import Verif.Proofs.Tokenizer
import Verif.Proofs.Utilities
import Verif.Proofs.TreeBuilder
import Verif.Proofs.AdmittedSet
import Verif.Proofs.Optimize
import Verif.Proofs.Groups
import Verif.Proofs.GroupOrder
import Verif.Proofs.Param
import Verif.Props.Front
import Verif.Props.Parse
import Verif.Props.Groups
import Verif.Props.Sets
import Verif.Proofs.Single
import Verif.Proofs.Safety
import Verif.Proofs.Steps
import Verif.Proofs.Memory
import Verif.Proofs.Search
import Verif.Proofs.Forward
import Verif.Props.Search
import Verif.Spec.Repeat
import Verif.Proofs.Repeat
import Verif.Proofs.Total
import Verif.Proofs.Clean
import Verif.Proofs.Denote
import Verif.Props.Repeat
import Verif.Proofs.Sound
import Verif.Proofs.SoundSearch
import Verif.Proofs.Decide
import Verif.Props.Sound
import Verif.Spec.Tokens
import Verif.Proofs.TokenIter
import Verif.Proofs.Anchor
import Verif.Proofs.AnchorParse
import Verif.Props.Anchors
import Verif.Props.Tokens
import Verif.Proofs.ParseInv
import Verif.Proofs.Size
import Verif.Props.Iterate
import Verif.Proofs.Admission
import Verif.Props.Independent
import Verif.Spec.First
import Verif.Spec.Commit
import Verif.Spec.Opens
import Verif.Spec.Printable
import Verif.Proofs.FirstChars
import Verif.Proofs.Opens
import Verif.Props.Verdict
import Verif.Spec.Syntax
import Verif.Proofs.Syntax
import Verif.Props.Syntax
import Verif.Proofs.First
import Verif.Proofs.Complete
import Verif.Proofs.Leftmost
import Verif.Props.Leftmost
import Verif.Props.Heuristics
import Verif.Proofs.Class
import Verif.Props.Classes
import Verif.Proofs.Print
import Verif.Proofs.Printable
import Verif.Props.Print
import Verif.Spec.Prefer
import Verif.Proofs.Prefer
import Verif.Proofs.PreferBuild
import Verif.Proofs.PreferRun
import Verif.Proofs.PreferSearch
import Verif.Props.Prefer
import Verif.Props.Same
import Verif.Spec.Backtrack
import Verif.Proofs.Ways
import Verif.Proofs.Spans
import Verif.Proofs.CaptureRep
import Verif.Proofs.CaptureBuild
import Verif.Proofs.CaptureLoop
import Verif.Proofs.CaptureRun
import Verif.Proofs.CaptureDo
import Verif.Proofs.CaptureSearch
import Verif.Proofs.CaptureAlts
import Verif.Props.Capture
import Verif.Proofs.CommitWays
import Verif.Proofs.CommitGo
import Verif.Proofs.CommitRun
import Verif.Proofs.CommitFit
import Verif.Proofs.CommitActs
import Verif.Proofs.CommitSearch
import Verif.Proofs.CommitHard
import Verif.Proofs.WaysGroups
import Verif.Props.Nested
import Verif.Props.NestedMore
import Verif.Spec.FindAll
import Verif.Spec.Walk
import Verif.Spec.Longest
import Verif.Proofs.Longest
import Verif.Props.FindAll
import Verif.Props.FindGroups
import Verif.Props.Validate
import Verif.Props.Surroundings
import Verif.Props.Lexer
import Verif.Spec.Texts
import Verif.Proofs.Texts
import Verif.Proofs.WaysDen
import Verif.Props.Texts
import Verif.Spec.Tame
import Verif.Spec.Sure
import Verif.Proofs.Plant
import Verif.Proofs.Tame
import Verif.Proofs.Sure
import Verif.Proofs.Written
import Verif.Props.Written
import Verif.Props.Numbering
import Verif.Props.Bindings
import Verif.Props.Symmetric
import Verif.Props.Exhausted
import Verif.Props.Final
import Verif.Props.TokensWritten
import Verif.Spec.Malformed
import Verif.Proofs.Malformed
import Verif.Proofs.WellFormed
import Verif.Props.Malformed
import Verif.Spec.Hatless
import Verif.Proofs.Shift
import Verif.Proofs.Unbound
import Verif.Props.Place
import Verif.Spec.Lone
import Verif.Proofs.Lone
import Verif.Props.Endless
import Verif.Props.Longest
import Verif.Props.Between
import Verif.Props.NestedWalk
import Verif.Props.NestedLexer
import Verif.Props.Arguments
import Verif.Props.Records
import Verif.Props.Address
import Verif.Props.Documented
import Verif.Props.LeftmostWritten
import Verif.Props.Everyday
import Verif.Spec.Suite
import Verif.Props.Suite
import Verif.Proofs.CommitTwice
import Verif.Proofs.Suite
import Verif.Proofs.SuiteWord
import Verif.Spec.Format
import Verif.Props.Format
import Verif.Spec.Lists
import Verif.Props.Lists
import Verif.Props.Joined
import Verif.Props.Counted
import Verif.Props.RecordList
import Verif.Props.Padded
import Verif.Props.Seek
import Verif.Props.Choice
import Verif.Props.Form
import Verif.Props.FormSeek
