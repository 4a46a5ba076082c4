import Verif.Py.Dict
import Verif.Model.CIDict
import Verif.Props.CIDict
import Verif.Props.CIDictAll
import Verif.Model.ValidList
import Verif.Props.ValidList
import Verif.Model.Bounds
import Verif.Props.Bounds
import Verif.Props.BoundsMore
import Verif.Model.Dist
import Verif.Props.Dist
import Verif.Model.Strings
import Verif.Props.Strings
import Verif.Model.Level
import Verif.Props.Level
import Verif.Model.Attribute
import Verif.Props.Attribute
import Verif.Props.VListInv
import Verif.Model.Template
import Verif.Props.Template
import Verif.Model.Cache
import Verif.Props.Cache
import Verif.Model.Mangle
import Verif.Props.Mangle
import Verif.Props.Blocks
import Verif.Model.Heap
import Verif.Props.Links
import Verif.Props.Names
import Verif.Model.Traverse
import Verif.Props.Traverse
import Verif.Model.Value
import Verif.Props.Visit
import Verif.Model.Link
import Verif.Props.Link
import Verif.Model.Equal
import Verif.Props.Equal
import Verif.Props.LinkValues
import Verif.Props.Greedy
import Verif.Props.EqualRefl
import Verif.Props.EqualIso
import Verif.Props.EqualMono
import Verif.Props.EqualEx
import Verif.Model.Schema
import Verif.Model.Json
import Verif.Props.JsonBase
import Verif.Props.JsonConv
import Verif.Props.Json
import Verif.Props.Load
import Verif.Model.Substitute
import Verif.Props.Sim
import Verif.Props.BackLinks
import Verif.Props.Registry
import Verif.Props.Dependencies
import Verif.Props.Instance
import Verif.Props.MakeValue
import Verif.Props.Builders
import Verif.Props.BuildersMore
import Verif.Props.Copies
import Verif.Props.ReadCopy
import Verif.Props.RawCopy
import Verif.Props.Resolve
import Verif.Props.ResolveIndex
import Verif.Props.Inverse
import Verif.Model.History
import Verif.Props.History
import Verif.Props.EqualCong
import Verif.Props.CopyEqual
import Verif.Props.Thin
import Verif.Model.Inplace
import Verif.Props.Inplace
import Verif.Props.InplaceObjects
import Verif.Props.InplaceEx
import Verif.Props.InplaceConv
import Verif.Props.InplaceLinks
import Verif.Props.InplaceLinksEx
import Verif.Props.InplaceNeeds
import Verif.Model.InplaceState
import Verif.Props.InplaceState
import Verif.Props.InplaceNested
import Verif.Props.InplaceInverse
import Verif.Props.InplaceTidy
import Verif.Model.SetAlias
import Verif.Props.SetAlias
import Verif.Props.Raises
import Verif.Model.Regex
import Verif.Model.SciNotation
import Verif.Props.Regex
import Verif.Props.SciRegex
import Verif.Props.SciScan
import Verif.Props.SciNumeral
import Verif.Props.SciTokens
import Verif.Props.SciRewrite
import Verif.Props.SciExpr
import Verif.Props.SciNotation
import Verif.Model.Scaling
import Verif.Props.Scaling
import Verif.Props.MangleRegex
import Verif.Model.Repr
import Verif.Props.Repr
import Verif.Model.Assign
import Verif.Props.Edited
import Verif.Props.EditedEx
import Verif.Props.StrSets
import Verif.Props.Declared
import Verif.Props.DeclaredHist
import Verif.Model.Checked
import Verif.Props.Checked
import Verif.Props.CheckedTrip
import Verif.Props.CheckedMirror
import Verif.Props.CheckedRead
import Verif.Props.CheckedDump
import Verif.Props.CheckedSpec
import Verif.Props.CheckedThm
import Verif.Props.CheckedEx
import Verif.Model.Markup
import Verif.Props.Markup
import Verif.Model.Tables
import Verif.Props.Tables
import Verif.Props.MarkupRegex
import Verif.Model.Migrate
import Verif.Props.Migrate
import Verif.Model.Version
import Verif.Props.Version
import Verif.Model.JsonText
import Verif.Props.JsonText
import Verif.Props.JsonTextSamples
import Verif.Props.JsonTextMore
import Verif.Props.JsonTextTrip
import Verif.Props.JsonTextRaises
import Verif.Model.Strehlow
import Verif.Props.Strehlow
import Verif.Model.Ingest
import Verif.Props.Ingest
import Verif.Model.Cake
import Verif.Props.Cake
import Verif.Model.CakeAttributes
import Verif.Props.CakeAttributes
import Verif.Props.JsonGrammar
import Verif.Model.TraverseState
import Verif.Props.VisitState
import Verif.Props.DeclaredOrder
import Verif.Props.EqualValues
import Verif.Model.DumpsState
import Verif.Props.DumpsState
import Verif.Model.LoadsState
import Verif.Props.LoadsState
import Verif.Model.FlattenState
import Verif.Props.FlattenState
import Verif.Model.AssignState
import Verif.Props.Refused
