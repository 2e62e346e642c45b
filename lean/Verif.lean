import Verif.IntervalTree.Props
import Verif.Context.Props
import Verif.Dmm.ReadWF
import Verif.Dmm.ReadLayout
import Verif.Indents.Props2
import Verif.Lexer.Props
import Verif.Preproc.DefineMap
import Verif.Preproc.Depth
import Verif.Preproc.Chain
import Verif.Preproc.History
import Verif.Preproc.MacroProps
import Verif.Langserver.DocumentProps
import Verif.Langserver.JrpcProps
import Verif.Editor.HistoryProps
import Verif.Editor.MapProps
import Verif.Editor.EditorProps
import Verif.Dmi.Dir
import Verif.Dmi.Metadata
import Verif.Dmi.MetadataProps
import Verif.Dmi.MetadataText
import Verif.Dmi.RectProps
import Verif.Dmi.Composite
import Verif.Dmi.Render
import Verif.Objtree.Props
import Verif.Const.F32
import Verif.Const.Model
import Verif.Const.Spec
import Verif.Const.Eval
import Verif.Const.Complete
import Verif.Const.Props
import Verif.Const.Arith
import Verif.Const.EqHash
import Verif.Const.Fold
import Verif.Parse.Model
import Verif.Parse.Spec
import Verif.Parse.Total
import Verif.Parse.Mono
import Verif.Parse.Sound
import Verif.Parse.Complete
import Verif.Parse.Props
import Verif.Check.SwitchRandModel
import Verif.Check.SwitchRand
import Verif.Docs.Model
import Verif.Docs.Props
import Verif.Langserver.SearchModel
import Verif.Langserver.Search
import Verif.Langserver.ColorModel
import Verif.Langserver.Color
import Verif.CallTree.Props
import Verif.Flow.Props
import Verif.Decl.Model
import Verif.Decl.Spec
import Verif.Decl.Fuel
import Verif.Decl.Parts
import Verif.Decl.Place
import Verif.Decl.Read
import Verif.Decl.World
import Verif.Decl.Props
import Verif.Decl.Body
import Verif.Decl.Cases
import Verif.Stmt.Model
import Verif.Stmt.Spec
import Verif.Stmt.Fuel
import Verif.Stmt.Parts
import Verif.Stmt.Read
import Verif.Stmt.Props
import Verif.Stmt.Cases
import Verif.Minimap.LayerOrder
import Verif.Minimap.Examples
import Verif.Minimap.Passes
import Verif.Minimap.PassChoice
import Verif.Minimap.Smooth
import Verif.Minimap.SmoothCases
import Verif.Minimap.Cables
import Verif.Minimap.Loot
import Verif.Typing.Tree
import Verif.Typing.Model
import Verif.Typing.Spec
import Verif.Typing.Lookup
import Verif.Typing.Calls
import Verif.Typing.Types
import Verif.Typing.Sites
import Verif.Typing.Effects
import Verif.Typing.Props
import Verif.Typing.Examples
import Verif.Typing.Tables
import Verif.Typing.StmtModel
import Verif.Typing.StmtSpec
import Verif.Typing.StmtLemmas
import Verif.Typing.StmtProps
import Verif.Typing.StmtOverride
import Verif.Typing.StmtExamples
import Verif.Typing.KwModel
import Verif.Typing.KwProps
import Verif.Typing.VarDefs
import Verif.Typing.SoundSpec
import Verif.Typing.SoundProps
import Verif.Typing.SoundExamples
import Verif.Typing.AnnModel
import Verif.Typing.AnnSpec
import Verif.Typing.AnnWords
import Verif.Typing.AnnProps
import Verif.Typing.AnnExamples
import Verif.Refs.Examples
import Verif.Lookup.Examples
import Verif.Server.RpcExamples
import Verif.Server.DiagExamples
import Verif.Server.Fold
import Verif.Server.OutlineMain
import Verif.Debug.DbExamples
import Verif.Debug.BreaksExamples
import Verif.Debug.FramesExamples
import Verif.Debug.SessionExamples
import Verif.Debug.LinkExamples
import Verif.Cli.Examples
import Verif.Dmdoc.IndexExamples
import Verif.Dmdoc.LinkExamples
import Verif.Dmdoc.ModuleExamples
import Verif.Dmdoc.MarkdownExamples
import Verif.Dmdoc.AsProps
import Verif.Server.ExplorerMembers
import Verif.Server.SessionRefs
import Verif.Editor.DeskModel
import Verif.Editor.DeskProps
import Verif.Editor.DeskSaved
import Verif.Editor.DeskClean
import Verif.Editor.DeskMore
import Verif.Editor.PrefabModel
import Verif.Editor.PrefabProps
import Verif.Editor.PlaceModel
import Verif.Editor.PlaceProps
import Verif.Minimap.IconCache
import Verif.Editor.PlaceMap
import Verif.Editor.ViewModel
import Verif.Editor.ViewProps
import Verif.Term.Model
import Verif.Term.Spec
import Verif.Term.Read
import Verif.Term.Props
import Verif.Term.Cases
import Verif.Editor.RecentModel
import Verif.Editor.RecentProps
