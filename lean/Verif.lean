import Verif.Basic
import Verif.NameModel
import Verif.NameLemmas
import Verif.NameValid
import Verif.NameSound
import Verif.NameProps
import Verif.Layout
import Verif.LayoutTree
import Verif.LayoutFlat
import Verif.LayoutInit
import Verif.LayoutSpec
import Verif.LayoutProps
import Verif.Value
import Verif.ValueSpec
import Verif.ValueWalk
import Verif.ValueBlock
import Verif.ValueInit
import Verif.ValueResize
import Verif.ValueOps
import Verif.ValueDump
import Verif.ValueCodec
import Verif.ValueLoad
import Verif.ValueCompare
import Verif.ValueProps
import Verif.ValueExamples
import Verif.Vector
import Verif.Endian
import Verif.EndianOps
import Verif.EndianSem
import Verif.EndianProps
import Verif.TypeGraph
import Verif.Registry
import Verif.RegistryMap
import Verif.RegistryNames
import Verif.RegistryInv
import Verif.RegistryAlias
import Verif.RegistryRev
import Verif.RegistryHist
import Verif.RegistryProps
import Verif.RegistryMore
import Verif.RegistryOrder
import Verif.RegistryExamples
import Verif.TypeCompare
import Verif.TypeCompareProps
import Verif.TypeCompareExamples
import Verif.StdMap
import Verif.MetaData
import Verif.EnumModel
import Verif.CompoundModel
import Verif.Resize
import Verif.ResizeProps
import Verif.ResizeExamples
import Verif.Exporter
import Verif.TypeBuilder
import Verif.TypeBuilderParse
import Verif.TypeBuilderProps
import Verif.Singleton
import Verif.SingletonProps
import Verif.ConfigSet
import Verif.Assoc
import Verif.RubyMemory
import Verif.RubyMemoryInv
import Verif.RubyMemoryProps
import Verif.RubyMemoryReach
import Verif.CxxNames
import Verif.CxxNamesProps
import Verif.Idl
import Verif.IdlProps
import Verif.IdlNames
import Verif.IdlExamples
import Verif.Visitor
import Verif.VisitorProps
import Verif.Csv
import Verif.Merge
import Verif.MergeInv
import Verif.MergeSpec
import Verif.MergeProps
import Verif.MergeMinimal
import Verif.MergeExamples
import Verif.Xml
import Verif.Tlb
import Verif.TlbText
import Verif.TlbDoc
import Verif.TlbParts
import Verif.TlbWorld
import Verif.TlbBuild
import Verif.TlbImport
import Verif.TlbLoad
import Verif.TlbRound
import Verif.TlbExamples
import Verif.NameScan
import Verif.RegistryEntry
import Verif.IdlTypes
import Verif.ValueCast
import Verif.StdTypes
import Verif.StdTypesProps
import Verif.MergeSources
import Verif.RubyConvert
import Verif.RubyStrings
import Verif.RubyArray
import Verif.RubyCache
import Verif.Plugins
import Verif.LayoutGraph
import Verif.LayoutValidate
import Verif.MergeConflict
import Verif.MergeConflictExamples
import Verif.RegistryIter
import Verif.RubyRegistry
import Verif.RubyNames
import Verif.RubyNamesProps
import Verif.RubyNamesThms
import Verif.RubyNamesExamples
import Verif.RubyBuilder
import Verif.RubyOptions
import Verif.RubyAccessor
import Verif.RubyDeps
import Verif.RubyBytes
import Verif.RubyBytesExamples
import Verif.ClangExample
import Verif.RubyConverted
import Verif.RubyConvertedProps
import Verif.RubyConvertedCex
import Verif.RegistryWitness
import Verif.RubyCustomThms
import Verif.RubySimpleCex
import Verif.RubyExportCex
import Verif.Gccxml
import Verif.GccxmlSpec
import Verif.GccxmlWorld
import Verif.GccxmlProps
import Verif.GccxmlRecord
import Verif.GccxmlTheorems
import Verif.GccxmlNames
import Verif.GccxmlExample
import Verif.GccxmlCex
import Verif.GccxmlEnds
import Verif.RubySimpleMore
import Verif.RubyCastCex
import Verif.RubyContainer
import Verif.RubyContainerProps
import Verif.RubyContainerOwn
import Verif.RubyContainerEach
import Verif.RubyContainerObjs
import Verif.RubyContainerCex
import Verif.ParallelLoad
import Verif.ParallelLoadInv
import Verif.ParallelLoadClean
import Verif.ParallelLoadProps
import Verif.ParallelLoadCex

import Verif.Streams
import Verif.StreamsCex
import Verif.Docs
import Verif.DocsProps
import Verif.DocsCex
import Verif.LoadFilter
import Verif.LoadFilterProps
import Verif.LoadFilterCex
import Verif.MergeMeta
import Verif.MergeMetaProps
import Verif.MergeMetaCex
import Verif.RubyMeta
import Verif.Display
import Verif.DisplayProps
import Verif.DisplayDump
import Verif.DisplayExamples
import Verif.CxxLoad
import Verif.CxxLoadProps
import Verif.CxxLoadExamples
import Verif.RubyLayout
import Verif.RubyLayoutProps
import Verif.RubyHash
import Verif.RubyHashProps
import Verif.ClangMeta
import Verif.ClangMetaProps
import Verif.ClangMetaLines
import Verif.RubyEnum
import Verif.RubyMethods
import Verif.ValuePack
import Verif.RubyMarshal
import Verif.RubyMarshalExamples
import Verif.CxxLoadMore
import Verif.RubyFullName
import Verif.RubyTypeEq
import Verif.RubyPlugins
import Verif.RubyResize
import Verif.RegistryAdd
