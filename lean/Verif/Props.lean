import Verif.Props.Graph
import Verif.Props.Ults
import Verif.Props.Curve
import Verif.Props.Link
import Verif.Props.MLink
import Verif.Props.MNet
import Verif.Props.MRoute
import Verif.Props.Node
import Verif.Props.Net
import Verif.Props.ShortestPath
import Verif.Props.Path
import Verif.Props.Route
import Verif.Props.Io
import Verif.Props.IoRows
import Verif.Props.Config
import Verif.Props.Gridlock
import Verif.Props.Emission
import Verif.Props.Due
import Verif.Props.Stats
import Verif.Props.Tables
import Verif.Props.Loading
import Verif.Props.TravelTime
import Verif.Props.Query
import Verif.Props.Marginal
import Verif.Props.History
import Verif.Props.MHistory
import Verif.Props.MQuery
import Verif.Props.Ltg
import Verif.Props.LtgMatrix
import Verif.Props.Trees
import Verif.Props.MTrees
import Verif.Props.Transit
import Verif.Props.TransitWalk
import Verif.Props.TransitImplicit
import Verif.Props.Charge
import Verif.Props.Record
import Verif.Props.Cover
import Verif.Props.EvRoute
import Verif.Props.Tour
import Verif.Props.MmCost
import Verif.Props.MmDue
import Verif.Props.Logit
import Verif.Props.MmDemand
import Verif.Props.Register
import Verif.Props.Tdsp
import Verif.Props.TdspTurn
import Verif.Props.PreRoute
import Verif.Props.PreRouteGo
import Verif.Props.Spill
import Verif.Props.MmQuery
import Verif.Props.MEmission
import Verif.Props.MmLink
import Verif.Props.MmLink2
import Verif.Props.MmFleet
import Verif.Props.MmTrip
import Verif.Props.Realtime
import Verif.Props.Realtime2
import Verif.Props.MmDar
import Verif.Props.TreeHeap
import Verif.Props.BusPath
import Verif.Props.BusWait
import Verif.Props.MmCover
import Verif.Props.MmConn
import Verif.Props.MmConnIo
import Verif.Props.Readers
import Verif.Props.Readers2
import Verif.Props.MStats
import Verif.Props.RtFiles
import Verif.Props.MmBest
import Verif.Props.MmStats
import Verif.Props.MmPaths
import Verif.Props.MmRoutes
import Verif.Props.EvFiles
import Verif.Props.TourFiles
import Verif.Props.PlaceFiles
import Verif.Props.FlowFiles
import Verif.Props.EvRecords
import Verif.Props.Check
import Verif.Props.HookUp
import Verif.Props.CostFiles
import Verif.Props.MmCheck
import Verif.Props.NumFiles
import Verif.Props.RandomOd
import Verif.Props.CurveDump
