import Verif.Json
import Verif.Text
import Verif.Encoding
import Verif.Pointer
import Verif.Schema
import Verif.SerOrder
import Verif.Props.Encoding
import Verif.Props.SchemaApi
import Verif.Props.Definitions
import Verif.Props.SerOrder
import Verif.Props.Traversal
import Verif.Props.Transforms
import Verif.Props.Nullable
import Verif.Props.Uneval
import Verif.Props.UnevalValid
import Verif.Props.Formats
import Verif.Props.Pipelines
import Verif.Props.Preserve
import Verif.Props.ConstExact
import Verif.Props.Generator
import Verif.Props.GeneratorRoot
import Verif.Props.Termination
import Verif.Props.TransformedDefs
import Verif.Private
import Verif.Lemmas.SemEval
import Verif.Props.AllowNull
import Verif.Props.AllowNullExact
import Verif.Serde
import Verif.Infer
import Verif.Props.PipelineValid
import Verif.Props.Infer
import Verif.Impls
import Verif.Props.Impls
import Verif.Props.Maps
import Verif.Spec.Regex
import Verif.Rustdoc
import Verif.RenameFormat
import Verif.DeriveAttrs
import Verif.ValidationAttrs
import Verif.Props.Contains
import Verif.Props.Rustdoc
import Verif.Props.RenameFormat
import Verif.Props.DeriveAttrs
import Verif.Props.Validation
import Verif.Derive
import Verif.Lemmas.Derive
import Verif.Lemmas.Flatten
import Verif.Props.Flatten
import Verif.Props.FlattenInner
import Verif.Props.Struct
import Verif.Props.Enum
import Verif.Spec.Annotations
import Verif.Props.Annotations
import Verif.Props.EnumInternal
import Verif.Lemmas.World
import Verif.Spec.Serde
import Verif.Spec.Obeys
import Verif.Props.AcceptsStd
import Verif.Props.AcceptsDerive
import Verif.Props.AcceptsEnum
import Verif.Props.AcceptsFlatten
import Verif.Props.AcceptsMap
import Verif.Props.NullReady
import Verif.Lemmas.Serde
import Verif.Lemmas.Obeys
import Verif.Spec.Refs
import Verif.Lemmas.Resolve
import Verif.Props.Accepts
import Verif.Props.AcceptsRoot
import Verif.Lemmas.Tidy
import Verif.Lemmas.TidyFlatten
import Verif.Lemmas.TidyDerive
import Verif.Props.AcceptsPipelines
import Verif.Props.AcceptsWide
import Verif.TypeIds
import Verif.Props.TypeIds
import Verif.Bound
import Verif.Props.Bound
import Verif.Spec.MetaSchema
import Verif.Lemmas.MetaValid
import Verif.Lemmas.MetaValidDerive
import Verif.Lemmas.MetaValidTransforms
import Verif.Props.MetaValid
import Verif.Props.Further
import Verif.AttrMeta
import Verif.Spec.AttrMeta
import Verif.Lemmas.AttrMeta
import Verif.Props.AttrMeta
import Verif.Spec.Deser
import Verif.Lemmas.Deser
import Verif.Props.ReadsStd
import Verif.Props.ReadsDerive
import Verif.Props.ReadsWide
import Verif.Props.ReadsMap
import Verif.Props.ReadsEnum
import Verif.Props.Reads
import Verif.Props.ReadsRoot
import Verif.Props.ReadsPipelines
import Verif.Props.ReadsFlatten
import Verif.Props.Delegate
import Verif.Props.DelegateAccepts
import Verif.Item
import Verif.Spec.Item
import Verif.Props.ItemLoop
import Verif.Props.Item
import Verif.Spec.Source
import Verif.Lemmas.Strip
import Verif.Props.Source
import Verif.Props.SourceAccepts
import Verif.Props.SourceReads
import Verif.Spec.Settled
import Verif.Props.Settled
import Verif.Spec.ItemAttrs
import Verif.Props.ItemAttrs
import Verif.Props.OutcomeEx
import Verif.Props.RoundTripEx
import Verif.Props.RoundTripPipelines
import Verif.Props.RoundTripSource
import Verif.Props.WhereClause
import Verif.Spec.Pattern
import Verif.Props.Patterns
import Verif.Spec.Accepted
import Verif.Props.Accepted
import Verif.Settings
import Verif.Spec.Preset
import Verif.Props.RootDocument
import Verif.Props.IsOption
import Verif.Repr
import Verif.Spec.Repr
import Verif.Props.Repr
import Verif.Props.Versions
import Verif.Props.VersionsWrapped
import Verif.SchemaType
import Verif.Props.SchemaType
import Verif.Spec.OpenApi
import Verif.Lemmas.OasPlan
import Verif.Props.OpenApi
import Verif.Props.OpenApiTypes
import Verif.Lemmas.GeneratorCongr
import Verif.Props.CrateTypes
import Verif.Props.CrateTypesMore
import Verif.Props.CrateVersions
import Verif.Props.CrateResolves
import Verif.Props.Programs
import Verif.Props.AcceptsNever
import Verif.Number
import Verif.Props.Number
import Verif.Panics
import Verif.Props.Panics
