import Verif.Occurs
import Verif.Util.Decimal
import Verif.Naming.Ident
import Verif.Naming.Builder
import Verif.Code.IdentPath
import Verif.Code.Usings
import Verif.Code.Files
import Verif.Runtime.Events
import Verif.Runtime.Namespaces
import Verif.Runtime.Driver
import Verif.Runtime.ErrorPath
import Verif.Runtime.Text
import Verif.Runtime.Lists
import Verif.Runtime.Binary
import Verif.Runtime.Maps
import Verif.Runtime.Facets
import Verif.Runtime.Attributes
import Verif.Runtime.SerHelper
import Verif.Runtime.Serializer
import Verif.Runtime.Element
import Verif.Runtime.Stepwise
import Verif.Runtime.Wrappers
import Verif.Gen.Interface
import Verif.Gen.Sequence
import Verif.Gen.SequenceComplete
import Verif.Gen.SequenceSound
import Verif.Gen.Leaf
import Verif.Gen.Choice
import Verif.Gen.ChoiceSound
import Verif.Gen.Content
import Verif.Gen.ChoiceExamples
import Verif.Gen.All
import Verif.Gen.AllSound
import Verif.Gen.Simple
import Verif.Gen.Wrapped
import Verif.Util.Assoc
import Verif.Util.Dfs
import Verif.Models.IdentCache
import Verif.Models.SchemaSearch
import Verif.Parser.Loading
import Verif.Parser.Finish
import Verif.Parser.Prefixes
import Verif.Meta.Types
import Verif.Meta.TypeEq
import Verif.Meta.Valid
import Verif.Opt.Typedefs
import Verif.Opt.Duplicates
import Verif.Meta.Step
import Verif.Util.Rank
import Verif.Opt.Common
import Verif.Opt.Unions
import Verif.Opt.UnionMembers
import Verif.Opt.Empty
import Verif.Opt.Content
import Verif.Opt.ChoiceCard
import Verif.Opt.Flatten
import Verif.Opt.Dynamic
import Verif.Opt.EnumUnions
import Verif.Opt.Unrestricted
import Verif.Opt.Mixed
import Verif.Gen.Defaultable
import Verif.Gen.SimpleContent
import Verif.Gen.Serialize
import Verif.Gen.RoundTrip
import Verif.Gen.Tables
import Verif.Gen.TablesExamples
import Verif.Gen.Ends
import Verif.Gen.Empty
import Verif.Gen.Open
import Verif.Gen.OpenChoice
import Verif.Gen.Modes
import Verif.Gen.Nested
import Verif.Gen.NestedChoice
import Verif.Gen.NestedExamples
import Verif.Gen.ModesExamples
import Verif.Generate.Worklist
import Verif.Generate.Boxing
import Verif.Generate.Traits
import Verif.Generate.Namespaces
import Verif.Interp.NodeList
import Verif.Interp.Members
import Verif.Interp.Groups
import Verif.Interp.Derivation
import Verif.Interp.Attributes
import Verif.Interp.AttributesExamples
import Verif.Interp.Substitution
import Verif.Interp.SubstitutionResult
import Verif.Gen.Dispatch
import Verif.Interp.ElementNames
import Verif.Opt.Session
import Verif.Opt.Pipeline
import Verif.Opt.PipelineExact
import Verif.Runtime.BuiltIn
import Verif.Gen.GroupTables
import Verif.Gen.Documents
import Verif.Gen.DocumentsExamples
import Verif.Generate.Data
import Verif.Generate.Compile
import Verif.Generate.Documents
import Verif.Generate.EndToEnd
import Verif.Generate.EmptyChoice
import Verif.Generate.Checks
import Verif.Generate.DocumentsExamples
import Verif.Generate.NestedExamples
import Verif.Gen.Written
import Verif.Gen.NestedModes
import Verif.Gen.NestedModesExamples
import Verif.Interp.SchemaTypes
import Verif.Interp.WellFormed
import Verif.Interp.SchemaTypesExamples
import Verif.Generate.FromSchema
import Verif.Generate.FromSchemaExamples
import Verif.Runtime.Async
import Verif.Runtime.AsyncExamples
import Verif.Runtime.Async
import Verif.Runtime.AsyncExamples
import Verif.Runtime.Scope
import Verif.Runtime.ScopeExamples
import Verif.Parser.Resolvers
import Verif.Generate.WrittenValid
import Verif.Generate.WrittenValidExamples
import Verif.Generate.WrittenSchema
import Verif.Generate.WrittenSchemaExamples
import Verif.Config.Steps
import Verif.Config.StepsProofs
import Verif.Gen.ContentHelpers
import Verif.Generate.SerdeNames
import Verif.Naming.TypeNames
import Verif.Generate.Constants
import Verif.Meta.Printer
import Verif.Interp.NodeCache
import Verif.Interp.Redefine
import Verif.Interp.RedefineReached
import Verif.Interp.RedefineExamples
import Verif.Interp.Inline
import Verif.Runtime.AnySimple
import Verif.Runtime.RawBytes
import Verif.Code.PathData
import Verif.Runtime.Shared
import Verif.Code.Crates
import Verif.Generate.Defaults
import Verif.Generate.EnumConst
import Verif.Generate.SerdeEnums
import Verif.Generate.QNames
import Verif.Naming.Cases
import Verif.Generate.FieldNames
import Verif.Generate.HelperNames
import Verif.Naming.Numbers
import Verif.Parser.Config
import Verif.Parser.ConfigIdents
import Verif.Parser.Selected
import Verif.Runtime.StreamBuffer
import Verif.Generate.CustomDefaults
import Verif.Generate.ProvidedTypes
