import Verif.Audit
import Verif.Base.DocDec
import Verif.Base.Greedy
import Verif.Base.Json
import Verif.Base.PermRel
import Verif.Base.Str
import Verif.Model.AddValue
import Verif.Model.Canonical
import Verif.Model.Compact
import Verif.Model.CompactIri
import Verif.Model.Compare
import Verif.Model.Container
import Verif.Model.Ctx
import Verif.Model.CtxCache
import Verif.Model.CtxJson
import Verif.Model.CtxTraverse
import Verif.Model.Doc
import Verif.Model.DocEq
import Verif.Model.DocHash
import Verif.Model.DocJson
import Verif.Model.Entries
import Verif.Model.ErrorCode
import Verif.Model.Expand
import Verif.Model.ExpandIri
import Verif.Model.ExpandValue
import Verif.Model.Flatten
import Verif.Model.FsLoader
import Verif.Model.Header
import Verif.Model.IntoSyntax
import Verif.Model.Inverse
import Verif.Model.Iter
import Verif.Model.Keyword
import Verif.Model.LangString
import Verif.Model.LangTag
import Verif.Model.LdSerialize
import Verif.Model.LinkedData
import Verif.Model.Loader
import Verif.Model.MapIds
import Verif.Model.MappedEq
import Verif.Model.Multiset
import Verif.Model.NodeMapApi
import Verif.Model.Print
import Verif.Model.PrintCtx
import Verif.Model.Process
import Verif.Model.Processor
import Verif.Model.PropMap
import Verif.Model.Quads
import Verif.Model.Rdf
import Verif.Model.Relabel
import Verif.Model.Ser
import Verif.Model.SimpleEq
import Verif.Model.Traverse
import Verif.Model.Warn
import Verif.Model.WarnMap
import Verif.Model.WarnNode
import Verif.Proofs.AddValue
import Verif.Proofs.Arrays
import Verif.Proofs.Canonical
import Verif.Proofs.Choice
import Verif.Proofs.CompactInv
import Verif.Proofs.CompactIri
import Verif.Proofs.CompactRec
import Verif.Proofs.CompactSafe
import Verif.Proofs.CompactSafeNode
import Verif.Proofs.Compare
import Verif.Proofs.CtxEq
import Verif.Proofs.CtxJson
import Verif.Proofs.CtxJsonRead
import Verif.Proofs.Cyclic
import Verif.Proofs.CyclicError
import Verif.Proofs.DocEq
import Verif.Proofs.DocHash
import Verif.Proofs.DocJson
import Verif.Proofs.DocJsonRead
import Verif.Proofs.ExpandEntries
import Verif.Proofs.ExpandGood
import Verif.Proofs.ExpandInv
import Verif.Proofs.ExpandMaps
import Verif.Proofs.ExpandRel
import Verif.Proofs.ExpandTerms
import Verif.Proofs.ExpandValue
import Verif.Proofs.Faults
import Verif.Proofs.Flatten
import Verif.Proofs.FlattenAgain
import Verif.Proofs.FlattenEvents
import Verif.Proofs.FlattenInv
import Verif.Proofs.FlattenJson
import Verif.Proofs.FlattenOut
import Verif.Proofs.FlattenRdf
import Verif.Proofs.FlattenRename
import Verif.Proofs.FlattenSpec
import Verif.Proofs.FlattenWalk
import Verif.Proofs.Header
import Verif.Proofs.Identify
import Verif.Proofs.Idle
import Verif.Proofs.InsideShape
import Verif.Proofs.IntoSyntax
import Verif.Proofs.IntoSyntaxAll
import Verif.Proofs.Inverse
import Verif.Proofs.Items
import Verif.Proofs.LdContent
import Verif.Proofs.LdSerialize
import Verif.Proofs.LdWf
import Verif.Proofs.LinkedData
import Verif.Proofs.LinkedDataBack
import Verif.Proofs.LinkedDataDoc
import Verif.Proofs.MapIds
import Verif.Proofs.MapIdsAll
import Verif.Proofs.MappedEq
import Verif.Proofs.MapsAdd
import Verif.Proofs.MapsAll
import Verif.Proofs.MapsDoc
import Verif.Proofs.MapsEntry
import Verif.Proofs.MapsGraph
import Verif.Proofs.MapsItem
import Verif.Proofs.MapsKey
import Verif.Proofs.MapsNode
import Verif.Proofs.MapsProp
import Verif.Proofs.MapsShow
import Verif.Proofs.MapsWhole
import Verif.Proofs.Mentioned
import Verif.Proofs.Mode
import Verif.Proofs.ModeRefuse
import Verif.Proofs.NodeMapGraph
import Verif.Proofs.NodeMapMerge
import Verif.Proofs.NodeMapQuads
import Verif.Proofs.OrderDoc
import Verif.Proofs.OrderNode
import Verif.Proofs.OrderObj
import Verif.Proofs.OrderPerm
import Verif.Proofs.OrderStep
import Verif.Proofs.OrderValue
import Verif.Proofs.PlainKeys
import Verif.Proofs.Print
import Verif.Proofs.PrintCtx
import Verif.Proofs.PrintRead
import Verif.Proofs.Process
import Verif.Proofs.ProcessEnd
import Verif.Proofs.ProcessFrame
import Verif.Proofs.ProcessGood
import Verif.Proofs.ProcessMono
import Verif.Proofs.PropMap
import Verif.Proofs.PropOrder
import Verif.Proofs.Quads
import Verif.Proofs.Rdf
import Verif.Proofs.RdfList
import Verif.Proofs.Reexpand
import Verif.Proofs.Refused
import Verif.Proofs.Relabel
import Verif.Proofs.Renamed
import Verif.Proofs.RoundAdd
import Verif.Proofs.RoundDoc
import Verif.Proofs.RoundNode
import Verif.Proofs.RoundProp
import Verif.Proofs.RoundTrip
import Verif.Proofs.RoundWhole
import Verif.Proofs.SameStatements
import Verif.Proofs.Says
import Verif.Proofs.SaysIgnored
import Verif.Proofs.SaysInv
import Verif.Proofs.SaysReach
import Verif.Proofs.SaysStable
import Verif.Proofs.SaysTerm
import Verif.Proofs.SaysUnique
import Verif.Proofs.ScopedBack
import Verif.Proofs.ScopedNode
import Verif.Proofs.ScopedProp
import Verif.Proofs.ScopedTop
import Verif.Proofs.ScopedWhole
import Verif.Proofs.Ser
import Verif.Proofs.SerDoc
import Verif.Proofs.SerInv
import Verif.Proofs.SerTerm
import Verif.Proofs.SimpleEq
import Verif.Proofs.ToRdf
import Verif.Proofs.Traverse
import Verif.Proofs.ValueBack
import Verif.Props.AddValue
import Verif.Props.Arrays
import Verif.Props.Basic
import Verif.Props.Canonical
import Verif.Props.Choice
import Verif.Props.ChoicePlain
import Verif.Props.Compact
import Verif.Props.CompactAgain
import Verif.Props.CompactGraphs
import Verif.Props.CompactIri
import Verif.Props.CompactMaps
import Verif.Props.CompactSafe
import Verif.Props.Compare
import Verif.Props.CtxBack
import Verif.Props.CtxBackProcess
import Verif.Props.CtxCache
import Verif.Props.CtxEqual
import Verif.Props.CtxFragment
import Verif.Props.CtxJson
import Verif.Props.CtxKeys
import Verif.Props.CtxMoved
import Verif.Props.CtxTraverse
import Verif.Props.Cyclic
import Verif.Props.DocEq
import Verif.Props.DocJson
import Verif.Props.Entries
import Verif.Props.ErrorCode
import Verif.Props.Expand
import Verif.Props.ExpandEntries
import Verif.Props.ExpandGood
import Verif.Props.ExpandKeys
import Verif.Props.ExpandMaps
import Verif.Props.ExpandPolicy
import Verif.Props.ExpandTerms
import Verif.Props.ExpandValue
import Verif.Props.Faults
import Verif.Props.Flatten
import Verif.Props.FlattenAgain
import Verif.Props.FlattenJson
import Verif.Props.FlattenRdf
import Verif.Props.FsLoader
import Verif.Props.GivenContext
import Verif.Props.Idle
import Verif.Props.ImportTerms
import Verif.Props.IntoSyntax
import Verif.Props.Inverse
import Verif.Props.Iri
import Verif.Props.KeyOrder
import Verif.Props.KeywordForm
import Verif.Props.LinkedData
import Verif.Props.MapIds
import Verif.Props.MappedEq
import Verif.Props.Mentioned
import Verif.Props.Mode
import Verif.Props.MoreTerms
import Verif.Props.NodeMap
import Verif.Props.NodeMapGraph
import Verif.Props.NodeMapMerge
import Verif.Props.Print
import Verif.Props.PrintCtx
import Verif.Props.ProcessBase
import Verif.Props.ProcessEnd
import Verif.Props.ProcessWf
import Verif.Props.Processor
import Verif.Props.ProcessorOptions
import Verif.Props.PropMap
import Verif.Props.Protected
import Verif.Props.Rdf
import Verif.Props.Reexpand
import Verif.Props.Refused
import Verif.Props.Relabel
import Verif.Props.Renamed
import Verif.Props.RoundTrip
import Verif.Props.SameStatements
import Verif.Props.Says
import Verif.Props.SaysOrder
import Verif.Props.ScopedDoc
import Verif.Props.Sequence
import Verif.Props.Ser
import Verif.Props.Settings
import Verif.Props.SimpleEq
import Verif.Props.Syntax
import Verif.Props.ToRdf
import Verif.Props.Traverse
import Verif.Props.Union
import Verif.Props.ValueBack
import Verif.Props.Warn
import Verif.Props.WarnMap
import Verif.Props.WarnNode
import Verif.Spec.AddValue
import Verif.Spec.Arrays
import Verif.Spec.Canonical
import Verif.Spec.Choice
import Verif.Spec.Compact
import Verif.Spec.CompactDoc
import Verif.Spec.CompactMaps
import Verif.Spec.CompactSafe
import Verif.Spec.CtxCache
import Verif.Spec.CtxJson
import Verif.Spec.CtxTraverse
import Verif.Spec.Cyclic
import Verif.Spec.Doc
import Verif.Spec.DocJson
import Verif.Spec.Entries
import Verif.Spec.ErrorCode
import Verif.Spec.Expand
import Verif.Spec.ExpandDoc
import Verif.Spec.ExpandMaps
import Verif.Spec.Faults
import Verif.Spec.Flat
import Verif.Spec.Header
import Verif.Spec.Idle
import Verif.Spec.Inside
import Verif.Spec.IntoSyntax
import Verif.Spec.Inverse
import Verif.Spec.Iri
import Verif.Spec.KeyOrder
import Verif.Spec.LdEquiv
import Verif.Spec.LdSerialize
import Verif.Spec.LinkedData
import Verif.Spec.MapIds
import Verif.Spec.Mentioned
import Verif.Spec.Mode
import Verif.Spec.NodeMap
import Verif.Spec.NodeMapGraph
import Verif.Spec.Path
import Verif.Spec.Plainly
import Verif.Spec.Print
import Verif.Spec.Process
import Verif.Spec.PropMap
import Verif.Spec.PropOrder
import Verif.Spec.Rdf
import Verif.Spec.Reference
import Verif.Spec.Refused
import Verif.Spec.Renamed
import Verif.Spec.SameJson
import Verif.Spec.Says
import Verif.Spec.ScopedDoc
import Verif.Spec.Ser
import Verif.Spec.Syntax
import Verif.Spec.Warn
import Verif.Spec.WarnMap
import Verif.Spec.WarnNode
