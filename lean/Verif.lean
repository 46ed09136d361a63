import Verif.Geometry.Props
import Verif.Grid.Props
import Verif.Grid.Tracks
import Verif.RemoveDup.Props
import Verif.Drc.Props
import Verif.Pex.Props
import Verif.GridCons.Props
import Verif.Hier.Grid
import Verif.Hier.HpwlProps
import Verif.Overlap.Props
import Verif.Cons.Floor
import Verif.SeqPair.Variants
import Verif.Schema.DbProps
import Verif.Schema.Number
import Verif.Schema.Library
import Verif.Pnr.Subset
import Verif.Pnr.SameTemplate
import Verif.Pnr.Names
import Verif.Cells.Interleave
import Verif.Canvas.RectToGrid
import Verif.Canvas.Join
import Verif.Canvas.DropVia
import Verif.Gds.Translate
import Verif.Pdk.ViaTable
import Verif.Pdk.Load
import Verif.Lef.Model
import Verif.Schema.Currents
import Verif.Net.NewHier
import Verif.Pre.Parallel
import Verif.Pre.Series
import Verif.Pre.Dummy
import Verif.Pre.Params
import Verif.Pre.Power
import Verif.Pnr.PgPins
import Verif.Net.Match
import Verif.Lef.Read
import Verif.Spice.Model
import Verif.Spice.Lex
import Verif.Spice.Words
import Verif.Spice.Lines
import Verif.Spice.Props
import Verif.Spice.Examples
import Verif.Sym.Model
import Verif.Sym.Search
import Verif.Sym.Alike
import Verif.Sym.Gen
import Verif.Sym.Blocks
import Verif.Sym.Nets
import Verif.Sym.User
import Verif.Sd.Model
import Verif.Sd.Bfs
import Verif.Sd.Spec
import Verif.Sd.Props
import Verif.Sd.Correct
import Verif.Pre.Off
import Verif.Pre.Template
import Verif.Arr.Search
import Verif.Arr.Props
import Verif.Arr.Correct
import Verif.Arr.Examples
import Verif.Arr.Keep
import Verif.Arr.Hier
import Verif.Arr.HierProps
import Verif.Arr.HierExamples
import Verif.Arr.Align
import Verif.Arr.Apart
import Verif.Group.Model
import Verif.Group.Props
import Verif.Group.Share
import Verif.Group.Examples
import Verif.Gds.Bin
import Verif.Gds.BinProps
import Verif.Gds.BinExamples
import Verif.Pnr.Charge
import Verif.Pnr.ChargeProps
import Verif.Pnr.ChargeMain
import Verif.Pre.Steady
import Verif.Pnr.Netlist
import Verif.Pnr.Route
import Verif.Pnr.RouteDown
import Verif.Pre.Settings
import Verif.Pre.UserCons
import Verif.Pnr.PlaceCheck
import Verif.Canvas.Post
import Verif.Pnr.Assemble
import Verif.Pre.PrimLib
import Verif.Cells.MosArray
import Verif.Pnr.ConstDb
import Verif.Pnr.Moves
import Verif.Pnr.SymGroups
import Verif.Pnr.CheckSeq
import Verif.Pnr.KeepOrder
import Verif.Pnr.OrderCons
import Verif.Pnr.Ilp
import Verif.Pnr.Enum
import Verif.Pnr.Turn
import Verif.Pnr.WriteBack
import Verif.Pnr.HierTree
import Verif.Pnr.Checkin
import Verif.Pnr.Load
import Verif.Pnr.LeafVar
import Verif.Pnr.PowerPins
import Verif.Pnr.AStar
import Verif.Pnr.Wires
import Verif.Pnr.RouteGrid
import Verif.Pnr.SeqCache
import Verif.Pnr.Anneal
import Verif.Pnr.Exhaust
import Verif.Pnr.Tiles
import Verif.Pnr.Candidates
import Verif.Pnr.SymNets
import Verif.Pnr.Choose
import Verif.Pnr.GuardRing
import Verif.Pnr.CapArray
import Verif.Gds.Pretty
import Verif.Pnr.Pdk
import Verif.Schema.Visitor
import Verif.Pnr.ReadLef
import Verif.Pnr.WriteJson
import Verif.Gds.BlackBox
import Verif.Pre.Output
import Verif.Pnr.PowerGrid
import Verif.Pnr.PowerMetal
import Verif.Pnr.PowerTarget
import Verif.Pnr.PowerWindow
import Verif.Pnr.PowerCollect
