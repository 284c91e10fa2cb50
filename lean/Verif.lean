import Verif.Model.Type
import Verif.Lemmas.Strings
import Verif.Lemmas.TypeDecode
import Verif.Lemmas.TypeText
import Verif.Lemmas.TypeSplit
import Verif.Prop.TypeDecode
import Verif.Lemmas.TypeMatch
import Verif.Spec.TypeMatch
import Verif.Prop.TypeMatch
import Verif.Model.Function
import Verif.Spec.Function
import Verif.Lemmas.Function
import Verif.Prop.Function
import Verif.Prop.Decimal
import Verif.Prop.Strings
import Verif.Prop.Io
import Verif.Prop.SymbolTable
import Verif.Prop.Normalizer
import Verif.Prop.StringLiteral
import Verif.Prop.TypeProto
import Verif.Prop.Literal
import Verif.Prop.Enum
import Verif.Prop.Filter
import Verif.Prop.Extension
import Verif.Prop.Compound
import Verif.Prop.Pipeline
import Verif.Prop.PipelineTree
import Verif.Prop.Schema
import Verif.Prop.SchemaTree
import Verif.Prop.Expression
import Verif.Prop.ExpressionLoss
import Verif.Model.Relation
import Verif.Spec.Relation
import Verif.Lemmas.RelationText
import Verif.Lemmas.RelationValue
import Verif.Lemmas.RelationRead
import Verif.Prop.Relation
import Verif.Prop.RelationLoss
import Verif.Prop.RelationFaults
import Verif.Model.Sections
import Verif.Spec.Sections
import Verif.Lemmas.SectionsText
import Verif.Lemmas.SectionsSchema
import Verif.Lemmas.SectionsSource
import Verif.Lemmas.SectionsFile
import Verif.Lemmas.SectionsPlan
import Verif.Lemmas.SectionsTables
import Verif.Lemmas.SectionsRead
import Verif.Prop.Sections
import Verif.Prop.SectionsNames
import Verif.Prop.SectionsDefs
import Verif.Prop.SectionsSources
import Verif.Model.Whole
import Verif.Spec.Whole
import Verif.Lemmas.WholeNames
import Verif.Lemmas.WholeBlind
import Verif.Lemmas.WholeExpr
import Verif.Lemmas.WholeCols
import Verif.Lemmas.WholeData
import Verif.Lemmas.WholeLabels
import Verif.Lemmas.WholeRel
import Verif.Lemmas.WholePrint
import Verif.Lemmas.WholeItems
import Verif.Lemmas.WholeFuns
import Verif.Lemmas.WholeTables
import Verif.Lemmas.WholeText
import Verif.Lemmas.WholeGraph
import Verif.Lemmas.WholePasses
import Verif.Lemmas.WholeAttach
import Verif.Lemmas.WholeNaming
import Verif.Prop.Whole
import Verif.Prop.WholeLoss
import Verif.Lemmas.ExpressionPrint
import Verif.Spec.Results
import Verif.Lemmas.Results
import Verif.Prop.Results
import Verif.Prop.ResultsLoss
import Verif.Prop.WholeFresh
import Verif.Model.Traverse
import Verif.Spec.Traverse
import Verif.Lemmas.Traverse
import Verif.Lemmas.TraverseWay
import Verif.Lemmas.TraverseLink
import Verif.Prop.Traverse
import Verif.Prop.WholeAgainLoss
import Verif.Prop.ResultsAgain
import Verif.Prop.Layout
import Verif.Prop.Order
import Verif.Prop.Tools
import Verif.Prop.LetterCase
import Verif.Prop.Unused
import Verif.Prop.Rename
import Verif.Prop.Renumber
import Verif.Prop.Declared
import Verif.Prop.Settles
import Verif.Prop.Placed
import Verif.Prop.Exceptions
import Verif.Prop.SameText
import Verif.Prop.Within
import Verif.Prop.FormedTypes
import Verif.Prop.Reads
import Verif.Prop.Debug
import Verif.Prop.CommandLine
import Verif.Prop.Braces
import Verif.Prop.CutText
import Verif.Prop.Scopes
import Verif.Prop.Marks
