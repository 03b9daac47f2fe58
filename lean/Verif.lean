import Verif.Model.Basic
import Verif.Model.Errors
import Verif.Model.Peekables
import Verif.Model.ParseFuncs
import Verif.Model.ParserData
import Verif.Model.First
import Verif.Model.Graph
import Verif.Model.Follow
import Verif.Model.Steuer
import Verif.Model.Tree
import Verif.Model.Script
import Verif.Model.RuleParsing
import Verif.Model.VMs
import Verif.Proofs.Cfg
import Verif.Proofs.Basic
import Verif.Proofs.First
import Verif.Proofs.FirstTerm
import Verif.Proofs.Graph
import Verif.Proofs.FollowSpec
import Verif.Proofs.NamedGraph
import Verif.Proofs.Follow
import Verif.Proofs.FollowMark
import Verif.Proofs.FollowFinal
import Verif.Proofs.FollowPanic
import Verif.Props.Samples
import Verif.Props.First
import Verif.Props.Follow
import Verif.Proofs.SetsNodup
import Verif.Spec.Control
import Verif.Proofs.Steuer
import Verif.Spec.LL1
import Verif.Proofs.Predict
import Verif.Props.Steuer
import Verif.Spec.Tree
import Verif.Proofs.Tree
import Verif.Proofs.TreeRem
import Verif.Proofs.TreeRemove
import Verif.Spec.Parse
import Verif.Proofs.Forest
import Verif.Proofs.Shows
import Verif.Proofs.Script
import Verif.Proofs.ScriptTerm
import Verif.Proofs.ParseTop
import Verif.Proofs.ScriptPos
import Verif.Spec.Same
import Verif.Proofs.Determinism
import Verif.Proofs.VmIndep
import Verif.Props.Parse
import Verif.Spec.TreeObs
import Verif.Props.Tree
import Verif.Spec.Graph
import Verif.Props.Graph
import Verif.Spec.Text
import Verif.Proofs.Reader
import Verif.Props.Text
import Verif.Proofs.Intern
import Verif.Props.ParserData
import Verif.Proofs.Derivative
import Verif.Proofs.Edit
import Verif.Props.Edit
import Verif.Spec.RuleText
import Verif.Proofs.RuleBase
import Verif.Proofs.RuleElem
import Verif.Proofs.RuleComplete
import Verif.Proofs.RuleMerge
import Verif.Spec.Reading
import Verif.Proofs.RuleSound
import Verif.Spec.StackText
import Verif.Proofs.SectionSim
import Verif.Proofs.StackParse
import Verif.Proofs.Sections
import Verif.Props.Sections
import Verif.Props.StackText
import Verif.Spec.Woven
import Verif.Proofs.Woven
import Verif.Proofs.EditErr
import Verif.Props.RuleText
import Verif.Props.TextParser
import Verif.Proofs.VmPanic
import Verif.Props.StackMachine
import Verif.Spec.Calc
import Verif.Proofs.Calc
import Verif.Proofs.CalcShape
import Verif.Proofs.CalcSimple
import Verif.Model.Examples
import Verif.Proofs.CalcStack
import Verif.Proofs.CalcData
import Verif.Props.Calculator
import Verif.Props.Reader
import Verif.Proofs.Locality
import Verif.Props.Locality
import Verif.Spec.Renaming
import Verif.Proofs.Renaming
import Verif.Props.Renaming
import Verif.Props.Lookup
import Verif.Proofs.VmSim
import Verif.Spec.Ideal
import Verif.Proofs.Ideal
import Verif.Props.Ideal
import Verif.Spec.TopDown
import Verif.Proofs.Depth
import Verif.Proofs.TopDown
import Verif.Props.TopDown
import Verif.Model.Display
import Verif.Model.Main
import Verif.Props.Display
import Verif.Props.Main
import Verif.Spec.GrammarErr
import Verif.Proofs.GrammarErr
import Verif.Props.GrammarErr
import Verif.Props.Layout
import Verif.Model.RuleParserApi
import Verif.Proofs.RuleParserApi
import Verif.Props.RuleParser
import Verif.Props.OneMeaning
import Verif.Spec.Printing
import Verif.Proofs.Printing
import Verif.Props.Printing
import Verif.Spec.Prepared
import Verif.Proofs.Prepared
import Verif.Props.Prepared
import Verif.Proofs.TreeSafe
import Verif.Props.TreeSafe
import Verif.Props.TreeFail
import Verif.Spec.Parts
import Verif.Props.Parts
import Verif.Spec.Walk
import Verif.Proofs.Walk
import Verif.Proofs.AnyVm
import Verif.Props.AnyVm
import Verif.Spec.Cost
import Verif.Proofs.Cost
import Verif.Props.Cost
import Verif.Proofs.Rounds
import Verif.Props.Rounds
import Verif.Spec.Unused
import Verif.Proofs.Unused
import Verif.Proofs.UnusedText
import Verif.Proofs.Fuel
import Verif.Props.Unused
import Verif.Props.Limits
import Verif.Spec.SameMeaning
import Verif.Proofs.SameMeaning
import Verif.Props.SameMeaning
import Verif.Spec.Extend
import Verif.Proofs.Extend
import Verif.Props.Extend
import Verif.Spec.Ignoring
import Verif.Proofs.Ignoring
import Verif.Props.Ignoring
import Verif.Spec.Simple
import Verif.Props.Simple
import Verif.Spec.Element
import Verif.Props.Element
import Verif.Spec.Failing
import Verif.Proofs.Failing
import Verif.Props.Failing
import Verif.Spec.TextTree
import Verif.Proofs.TextTree
import Verif.Props.TextTree
import Verif.Props.LL1
import Verif.Spec.Counting
import Verif.Props.Counting
import Verif.Spec.SectionReading
import Verif.Props.SectionReading
import Verif.Props.TreeReuse
import Verif.Model.TestHelpers
import Verif.Props.TestHelpers
import Verif.Spec.CalcTotal
import Verif.Proofs.CalcTotal
import Verif.Props.CalcTotal
import Verif.Spec.Whole
import Verif.Props.Whole
import Verif.Proofs.RuleExact
import Verif.Props.PartsExact
import Verif.Spec.Earliest
import Verif.Proofs.Earliest
import Verif.Proofs.EarliestRule
import Verif.Props.Earliest
import Verif.Model.PeekMut
import Verif.Model.GraphError
import Verif.Spec.Writing
import Verif.Props.Writing
import Verif.Props.GraphError
import Verif.Props.Between
import Verif.Spec.Postfix
import Verif.Props.Postfix
import Verif.Spec.Keywords
import Verif.Props.SimpleRead
import Verif.Model.ExampleMains
import Verif.Props.ExampleMains
import Verif.Props.NewMachine
import Verif.Spec.Executing
import Verif.Props.Executing
import Verif.Props.Cases.Parsing
import Verif.Props.Cases.Calculators
import Verif.Props.ReadErrors
import Verif.Props.Printed
import Verif.Props.Productive
import Verif.Props.Expected
import Verif.Spec.CalcNext
import Verif.Proofs.Fits
import Verif.Proofs.CalcNext
import Verif.Props.CalcErrors
import Verif.Spec.AnySection
import Verif.Props.AnySection
import Verif.Spec.Wording
import Verif.Props.Wording
import Verif.Props.Cases.Grammars
import Verif.Props.Cases.Trees
import Verif.Props.Cases.Texts
import Verif.Props.Breaking
import Verif.Props.ExpectedText
import Verif.Proofs.StackFails
import Verif.Props.StackEarliest
import Verif.RepoTests.Sets
import Verif.RepoTests.Basics
import Verif.RepoTests.Scripts
import Verif.RepoTests.Rules
import Verif.Props.SectionEnds
import Verif.Props.SameCalc
import Verif.Spec.Effects
import Verif.Proofs.Effects
import Verif.Props.Effects
import Verif.Spec.Words
import Verif.Proofs.Words
import Verif.Props.Words
import Verif.Spec.Pieces
import Verif.Props.Pieces
import Verif.Spec.EndMark
import Verif.Proofs.EndMark
import Verif.Proofs.EndMarkText
import Verif.Props.EndMark
import Verif.Spec.Factor
import Verif.Proofs.Factor
import Verif.Proofs.FactorWalk
import Verif.Props.Factor
import Verif.Proofs.FactorText
import Verif.Props.FactorText
import Verif.Spec.Repeats
import Verif.Props.Repeats
