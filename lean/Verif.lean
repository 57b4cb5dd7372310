import Verif.Lemmas.Archive
import Verif.Lemmas.ArchiveDirectory
import Verif.Lemmas.ArchiveNames
import Verif.Lemmas.Arena
import Verif.Lemmas.Arity
import Verif.Lemmas.Bytes
import Verif.Lemmas.CacheFs
import Verif.Lemmas.CacheLimits
import Verif.Lemmas.ClassFile
import Verif.Lemmas.ClassFileAttrs
import Verif.Lemmas.ClassFileClass
import Verif.Lemmas.ClassFileParts
import Verif.Lemmas.Common
import Verif.Lemmas.ControlFlow
import Verif.Lemmas.Dfs
import Verif.Lemmas.Erb
import Verif.Lemmas.FlowFine
import Verif.Lemmas.FlowLoop
import Verif.Lemmas.FlowReads
import Verif.Lemmas.FlowRun
import Verif.Lemmas.FlowShapes
import Verif.Lemmas.FlowShapesAgree
import Verif.Lemmas.FlowShapesHeap
import Verif.Lemmas.FlowShapesRun
import Verif.Lemmas.FlowShapesStates
import Verif.Lemmas.FlowShapesTypes
import Verif.Lemmas.FlowSound
import Verif.Lemmas.FlowStatic
import Verif.Lemmas.FlowTypes
import Verif.Lemmas.Governor
import Verif.Lemmas.GraphStore
import Verif.Lemmas.HigherOrder
import Verif.Lemmas.HigherOrderCall
import Verif.Lemmas.JrubySignatures
import Verif.Lemmas.Lens
import Verif.Lemmas.Lowering
import Verif.Lemmas.MethodLookup
import Verif.Lemmas.MethodReference
import Verif.Lemmas.MethodReferenceCache
import Verif.Lemmas.MethodStore
import Verif.Lemmas.NamespaceTree
import Verif.Lemmas.NavDemand
import Verif.Lemmas.Positions
import Verif.Lemmas.RbsAncestors
import Verif.Lemmas.RbsTemplates
import Verif.Lemmas.RbsTypes
import Verif.Lemmas.Scheduler
import Verif.Lemmas.SingleFlight
import Verif.Lemmas.Snapshot
import Verif.Lemmas.SnapshotBody
import Verif.Lemmas.SnapshotBodyBack
import Verif.Lemmas.SnapshotFacts
import Verif.Lemmas.SnapshotWhole
import Verif.Lemmas.Solver
import Verif.Lemmas.Sort
import Verif.Lemmas.Sources
import Verif.Lemmas.Status
import Verif.Lemmas.Suggest
import Verif.Lemmas.SymbolStore
import Verif.Lemmas.Tarjan
import Verif.Lemmas.TypeStore
import Verif.Lemmas.Types
import Verif.Lemmas.Utf8
import Verif.Lemmas.Visibility
import Verif.Lemmas.YardAt
import Verif.Lemmas.YardConvert
import Verif.Lemmas.YardDoc
import Verif.Lemmas.YardExact
import Verif.Lemmas.YardTags
import Verif.Lemmas.YardTypes
import Verif.Model.Archive
import Verif.Model.Arena
import Verif.Model.Arity
import Verif.Model.Bytes
import Verif.Model.CacheFs
import Verif.Model.CacheLimits
import Verif.Model.CacheLocks
import Verif.Model.CallableBody
import Verif.Model.CheckReport
import Verif.Model.ClassFile
import Verif.Model.Common
import Verif.Model.Constants
import Verif.Model.ControlFlow
import Verif.Model.Dependency
import Verif.Model.DocSync
import Verif.Model.Edits
import Verif.Model.EngineGraph
import Verif.Model.Envelope
import Verif.Model.Erb
import Verif.Model.FlowShapes
import Verif.Model.FlowTypes
import Verif.Model.Governor
import Verif.Model.GraphStore
import Verif.Model.Hierarchy
import Verif.Model.HigherOrder
import Verif.Model.Implementors
import Verif.Model.JavaCatalog
import Verif.Model.JavaSource
import Verif.Model.JrubySignatures
import Verif.Model.Jvm
import Verif.Model.Lens
import Verif.Model.Lowering
import Verif.Model.MethodLookup
import Verif.Model.MethodReference
import Verif.Model.MethodReturn
import Verif.Model.MethodStore
import Verif.Model.Mro
import Verif.Model.NamespaceTree
import Verif.Model.NavDemand
import Verif.Model.NavKey
import Verif.Model.Outline
import Verif.Model.Owners
import Verif.Model.Positions
import Verif.Model.ProjectFiles
import Verif.Model.ProjectRoots
import Verif.Model.RbsAncestors
import Verif.Model.RbsTemplates
import Verif.Model.RbsTypes
import Verif.Model.ReferenceStore
import Verif.Model.Rename
import Verif.Model.RequirePaths
import Verif.Model.RubyVersions
import Verif.Model.RuntimeConfig
import Verif.Model.Runtimes
import Verif.Model.Scheduler
import Verif.Model.Selection
import Verif.Model.SemanticTokens
import Verif.Model.ShapeReads
import Verif.Model.SignatureHelp
import Verif.Model.SingleFlight
import Verif.Model.Snapshot
import Verif.Model.Solver
import Verif.Model.Sort
import Verif.Model.Sources
import Verif.Model.Status
import Verif.Model.Subtype
import Verif.Model.Suggest
import Verif.Model.SymbolSearch
import Verif.Model.SymbolStore
import Verif.Model.Tarjan
import Verif.Model.Telemetry
import Verif.Model.TypeStore
import Verif.Model.Types
import Verif.Model.Utf8
import Verif.Model.VarScopes
import Verif.Model.Visibility
import Verif.Model.Workspace
import Verif.Model.YardDoc
import Verif.Model.YardTypes
import Verif.Props.Archive
import Verif.Props.Arity
import Verif.Props.CacheFs
import Verif.Props.CacheLimits
import Verif.Props.CacheLocks
import Verif.Props.CallableBody
import Verif.Props.CheckReport
import Verif.Props.ClassFile
import Verif.Props.Constants
import Verif.Props.ControlFlow
import Verif.Props.Dependency
import Verif.Props.DocSync
import Verif.Props.Edits
import Verif.Props.EngineGraph
import Verif.Props.Envelope
import Verif.Props.Erb
import Verif.Props.FlowShapes
import Verif.Props.FlowShapesAlias
import Verif.Props.FlowShapesHeap
import Verif.Props.FlowTypes
import Verif.Props.Governor
import Verif.Props.GraphStore
import Verif.Props.Hierarchy
import Verif.Props.HigherOrder
import Verif.Props.Implementors
import Verif.Props.JavaCatalog
import Verif.Props.JavaSource
import Verif.Props.JavaSourceKinds
import Verif.Props.JrubySignatures
import Verif.Props.JrubyVisibility
import Verif.Props.Jvm
import Verif.Props.Lens
import Verif.Props.Lowering
import Verif.Props.MethodLookup
import Verif.Props.MethodReference
import Verif.Props.MethodReturn
import Verif.Props.MethodStore
import Verif.Props.Mro
import Verif.Props.NamespaceTree
import Verif.Props.NavDemand
import Verif.Props.NavKey
import Verif.Props.Outline
import Verif.Props.Owners
import Verif.Props.Positions
import Verif.Props.ProjectFiles
import Verif.Props.ProjectRoots
import Verif.Props.RbsAncestors
import Verif.Props.RbsTemplates
import Verif.Props.RbsTypes
import Verif.Props.ReferenceStore
import Verif.Props.Rename
import Verif.Props.RequirePaths
import Verif.Props.RubyVersions
import Verif.Props.RuntimeConfig
import Verif.Props.Runtimes
import Verif.Props.Scheduler
import Verif.Props.Selection
import Verif.Props.SemanticTokens
import Verif.Props.Shape
import Verif.Props.ShapeReads
import Verif.Props.SignatureHelp
import Verif.Props.SingleFlight
import Verif.Props.Snapshot
import Verif.Props.Solver
import Verif.Props.Sources
import Verif.Props.Status
import Verif.Props.Subtype
import Verif.Props.Suggest
import Verif.Props.SymbolSearch
import Verif.Props.SymbolStore
import Verif.Props.Telemetry
import Verif.Props.TypeStore
import Verif.Props.TypeUnion
import Verif.Props.VarScopes
import Verif.Props.Visibility
import Verif.Props.Widen
import Verif.Props.Workspace
import Verif.Props.YardDoc
import Verif.Props.YardTypes
import Verif.Spec.Archive
import Verif.Spec.Arity
import Verif.Spec.CacheLimits
import Verif.Spec.CallableBody
import Verif.Spec.CheckReport
import Verif.Spec.ClassFile
import Verif.Spec.ControlFlow
import Verif.Spec.DocSync
import Verif.Spec.Edits
import Verif.Spec.EngineGraph
import Verif.Spec.Erb
import Verif.Spec.FlowShapes
import Verif.Spec.FlowShapesHeap
import Verif.Spec.FlowTypes
import Verif.Spec.GraphStore
import Verif.Spec.Hierarchy
import Verif.Spec.HigherOrder
import Verif.Spec.JavaCatalog
import Verif.Spec.JavaSource
import Verif.Spec.JrubySignatures
import Verif.Spec.Lens
import Verif.Spec.Lowering
import Verif.Spec.MethodReference
import Verif.Spec.MethodReturn
import Verif.Spec.MethodStore
import Verif.Spec.Mro
import Verif.Spec.Outline
import Verif.Spec.ProjectFiles
import Verif.Spec.ProjectRoots
import Verif.Spec.RbsAncestors
import Verif.Spec.RbsTemplates
import Verif.Spec.RbsTypes
import Verif.Spec.ReferenceStore
import Verif.Spec.Rename
import Verif.Spec.RequirePaths
import Verif.Spec.RubyVersions
import Verif.Spec.RuntimeConfig
import Verif.Spec.Runtimes
import Verif.Spec.SemanticTokens
import Verif.Spec.ShapeReads
import Verif.Spec.SignatureHelp
import Verif.Spec.Snapshot
import Verif.Spec.Solver
import Verif.Spec.Sources
import Verif.Spec.Subtype
import Verif.Spec.Suggest
import Verif.Spec.SymbolStore
import Verif.Spec.Tarjan
import Verif.Spec.Telemetry
import Verif.Spec.TypeStore
import Verif.Spec.Types
import Verif.Spec.VarScopes
import Verif.Spec.Visibility
import Verif.Spec.YardDoc
import Verif.Spec.YardTypes
