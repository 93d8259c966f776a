# Formal model of maccmu/macposts in Lean 4 — design

The source in `/repo` was only read; nothing was built or run.  Every definition in the
model cites the file and lines it models.  `lean/Verif/Model/*` holds the model,
`lean/Verif/Spec/*` the small independent specifications, `lean/Verif/Lemmas/*` helper
lemmas, `lean/Verif/Props/*` the property theorems (each with a non-vacuity `example`).

## Trusted base

* Lean 4.33.0's kernel, and the three standard axioms `propext`, `Classical.choice`,
  `Quot.sound`.  No axiom of our own, no `sorry`, no `native_decide`, no `bv_decide`.
  `lean/Verif/Axioms.lean` prints the axioms of every theorem named in MANIFEST.json.
* The reading of the C++ text.  The model is hand written.
* Modelling conventions below.

## Modelling conventions

* `TInt` (`int`) is `Int`/`Nat` (no overflow); `TFlt` (`double`) is exact `ℚ`
  (`WithTop ℚ` where the code uses `infinity()`).  Floating-point rounding error, NaN and
  overflow are not modelled.  Theorems that do not involve arithmetic (vehicle
  conservation, FIFO, routing) quantify over *arbitrary* numbers produced by the arithmetic
  part, so they do not depend on this idealisation.
* `rand()` and `std::shuffle` are oracles: the draw, or the permutation, is an argument and
  theorems hold for all its values.
* `std::unordered_map` iteration order is a list in arbitrary order.
* A C++ exception is the outcome `Res.throw`, undefined behaviour (null dereference,
  out-of-range index, division by zero of ints) is `Res.ub`, a loop that does not end is
  `Res.diverge` (fuel exhausted; theorems then say for which inputs no fuel suffices).
  `assert`/`IAssert` are compiled out in release builds and are modelled as no check unless
  the comment says otherwise.
* Pointers to nodes/links/vehicles are identifiers into a store.  `delete` is modelled as
  removal from the store.
* Printing and files written for inspection are not modelled unless a property is about
  them.

## Plan per property

| Id | Modelled | How proved |
|----|----------|-----------|
| C01, C05 | pointer-level adjacency-list graph (`graph.h`): node and link stores, `next` pointers, `add_node`, `add_link` with its exceptions | invariant by induction over operation lists; refinement to a list of successful calls |
| C02, C03, C04 | iterators as pointer-chasing loops with fuel | refinement: the walk from `next[dir]` is the filtered history; loop ends within fuel |
| C06 | `reverse_graph` as a fold over nodes and links | induction over the lists |
| C07, C08 | `MNM_Ults` rounding over `ℚ` | arithmetic |
| C09–C12, C14 | `MNM_Cumulative_Curve` record list, `add_increment`, lower-bound search with tolerance, `shrink` | induction over records; negation by witness where the code violates the claim |
| C13 | `get_travel_time_from_cc` over arbitrary curves | case analysis |
| C15, C16 | point-queue link | induction over histories; permutation/FIFO |
| C17, C18 | CTM link: cell list, draws as oracle | induction over cells and histories |
| C19, C20 | LQ and LTM links | induction over histories |
| C21 | CTM travel time formula | arithmetic over `ℚ` |
| C22–C25 | FWJ flow matrix, rounding loop, vehicle movement, curve recording | list sums, loop invariants |
| C26, C27 | origin and destination nodes | queue invariants |
| C28, C31 | vehicle factory | invariant over operation lists |
| C29, C30 | whole `load_once` over a network state with a heap of vehicles | invariant by induction over intervals |
| C32, C33 | `normalize_p`, path draw | list sums |
| C34 | fixed routing: remaining-path queue against the vehicle's trajectory | invariant |
| C35 | `eliminate_cycles` | induction |
| C36–C41 | shortest-path routines over arbitrary graphs, trees, TDSP recursion | label invariants, optimality by induction on paths |
| C42 | path-set insertion loop | invariant |
| C43–C46 | DUE updates and merit functions on flow tables | list sums |
| C47 | rolling statistics | induction over intervals |
| C48 | DAR records | index arithmetic |
| C49 | config parser on character lists | induction |
| C50 | row-reader loop over a line stream | fuel/termination argument; negation |
| C51 | forward fill | induction |
| C52 | multiclass links | as C15–C20 with a class tag |
| C53 | release | list reasoning |
| C54 | `has_cycle` | negation by witness |
| C55 | emission update | arithmetic |
| C56 | textual round trip of path table | list reasoning |
| C57 | `get_link_flow` of the four link types | exact value after any history; witness for CTM |
| C58–C60 | node step against link supplies and demands | list sums; witnesses for GRJ and for origin nodes |
| C61, C62 | `release_one_interval` with the adaptive ratio and the shuffle | per-destination invariant; witness runs |
| C63 | Dijkstra with turn costs | equality with C38 when turn costs vanish; witness |
| C64–C67 | node, graph, link and demand readers on character lists | induction over rows, printed files parsed back |
| C68 | `get_best_route`, `get_disutility` | first minimum; witness |
| C69–C72 | two-class links (`multiclass.cpp`), see C52 | induction over histories; regime analysis of perceived densities; totality |
| C73 | `generate_label` in the release of an origin (`od.cpp`) | induction over the ratios, as C33 |
| C74 | adaptive and hybrid `update_routing` (`routing.cpp`) on reachable states, with the trees of C37 | each vehicle is in one place (C29), so its step is the only one that changes its next link |
| C75 | the loop of `loading` and `finished_loading` (`dta.cpp`) | induction over intervals |
| C76 | `is_FIFO` (`shortest_path.cpp`) | induction over the distance of the two intervals |
| C77, C78, C81 | loading of a two-class network: release, routing, nodes, links, receiving, attribute changes (`multiclass.cpp`, `dta.cpp`) | the single-class invariant of C29 holds of a view of the state; the counters and curves per class are added to it |
| C79, C80 | `MNM_Dnode_Inout_Multiclass` with the FWJ flow | the loop over a queue takes the shortest prefix that reaches the share; sums of shares; witness for C80 |
| C82, C83 | two-class release | induction over destinations; witness for C83 |
| C84, C85 | two-class origin and destination nodes | induction over links |
| C86 | `MNM_Routing_Biclass_Hybrid` | as C74; the negation by an invariant over all intervals |
| C87 | `Ctm.mk'`, `Ctm.modify`, `Lq.mk'`, `Lq.modify` of `Verif.Model.MLink` | direct, with the diagrams in `Verif.Spec.MLink` |
| C88 | the two-class routing and nodes of `Verif.Model.MNet` | as C34, with the paths of each vehicle depending on its class |
| C89 | `getTravelTime` of `Verif.Model.Curve` on the curves of two histories (`Verif.Spec.TravelTime`) | curves as counts of the histories, `get_time` as least interval, case split on departure groups |
| C90 | `build`, `pathTime`, `pathCost`, `pathTimeCc`, `getPathTt` of `Verif.Model.Query` | induction over the links with the trip as specification (`Verif.Spec.Query`); tables from C89 |
| C91 | `getLinkTt`, `getLinkInflow` of `Verif.Model.Query` | induction over the nested loops, remembered last valid times as invariant |
| C92 | `tdspTree`, `lowestCostPath`, `pathCost` of `Verif.Model.Query` | C40 and C41 with the costs of C90 |
| C93 | `getTravelTime`, `pathTime` | monotonicity of the specification of C89 in the entry interval, induction over links |
| C94, C95 | `dissipated`, `marginal` of `Verif.Model.Marginal` | scans as least elements (`Verif.Spec.Marginal`); loop invariant that the overwritten entries are not read again |
| C96 | `getLinkTtRobust` of `Verif.Model.Query` | as C91, induction over the samples |
| C97 | `loadMany` of `Verif.Model.Net`, `Verif.Model.Curve` | invariant over all phases of all intervals: the curve of a link is the fold of `addIncrement` over the entries in the log of moves; then the curve lemmas of C89 |
| C98 | `Verif.Model.Trees` (trees during the loading) with `darMatrix` of `Verif.Model.Tables` | invariant: each tree is the record of the moves in the log, keyed by path and assignment interval, which do not change once a vehicle has left the origin queue; then C48 and summation over classes |
| C99 | `loadMany` of `Verif.Model.MNet`, `Verif.Model.Curve` | as C97, with histories per class read from the log and the class of each vehicle |
| C100 | `Verif.Model.MQuery` | states that queries about a set of classes cannot tell apart are an equivalence kept by every call (last valid times are remembered consistently); values by induction over the nested loops, reusing C93 and C97 |
| C101 | `Verif.Model.Ltg` | the tables of both classes are built link by link (fold invariant: links done so far have their tables, other links are untouched); rows as for C94, with capacities of the class |
| C102 | `Verif.Model.Ltg` | refinement: the loop over links of a path equals the recursive `Data.visits`; FIFO and dissipation facts show that no read is outside the tables and the internal consistency checks never fail for cars; false for trucks (last valid time of cars) with a witness |
| C103 | `ltgMatrix` of `Verif.Model.Ltg` | the loops of C102 are generic in the innermost one; invariant of the counting loop: what is stored plus what is counted is the sum so far; positions decode uniquely |
| C104 | `Verif.Model.MTrees` (trees of both classes during the loading, records, saved and complete matrices) | invariant as in C98 with the class as a further key; the movements of one class are the movements of a single-class state, to which the sums of C98 apply; inserting cells succeeds because their places differ |
| C105 | `Verif.Model.Transit` | refinement: every part of an interval is a sequence of elementary passenger moves (`Micro`); that containers partition the passengers is an invariant of each move |
| C106 | `Verif.Model.Transit` | invariant of elementary moves: where a passenger is, what it has entered, what is left of its path and which link is next fit together, per container |
| C107 | `Verif.Model.Transit` | invariant: the curves are those of the history of movements; then the theory of curves of C89 and C97 |
| C108 | `holdBus`, `boardAlight`, `releaseBus` of `Verif.Model.Transit` | induction over the loops for alighting and boarding; capacity is an invariant of elementary moves |
| C109 | `holdBus`, `receiveBus`, `releaseBus` of `Verif.Model.Transit` | invariant: the counter is the number of buses that left modulo k, or k while a bus is served, and at most one bus is served |
| C110 | `holdBus` of `Verif.Model.Transit` | case analysis of a call with the invariant of C109 |
| C111 | `lotRelease`, `cruiseTime` of `Verif.Model.Transit` | induction over intervals: the record is a list with one entry per interval |
| C112 | `Verif.Model.Transit` | invariants of elementary moves; finish times and records by induction over intervals |
| C113 | `Verif.Model.Transit` | invariant relating the counter of a walking passenger to its last recorded movement, by induction over the phases of an interval |
| C114 | `Verif.Model.Transit` | induction over the two loops, with the passengers served as a prefix of the line |
| C115 | `Model/Charge.lean`: `join`, `serve`, `evolve`, `run` | per-slot invariant: what left is the schedule of what joined (`Spec/Charge.lean` `schedule`), induction over vehicles, links, slots and intervals |
| C116 | the same, `moveOut`, `estimate` | curves are replays of the log; record invariant over intervals |
| C117 | `Ev.charge`, `evolve` | relation of vehicles before and after serving all slots; progress from the curve invariant; witness for flow scalars below one |
| C118 | `Model/Record.lean`: `recordQueue`, `loadOnceR`, `enrouteStats`, `queueEach` on top of `Model/MNet.lean` | the loading with records refines the loading without; invariant over intervals: every entry is what the states before and after the interval say |
| C119 | `waitingTime`, `waitingTimeOf`; `addWait` of `Model/MLnk` | invariant: waiting = recorded queues + departures + vehicles at the end of the link; curves as in C99 |
| C120 | `coverage`, `coverLoop` | induction over paths with the flags as accumulator |
| C121 | `Model/Cover.lean`: `trees`, `pick`, `findPath`, `coverOne`, `coverRegistered` on top of `Model/ShortestPath.lean`, `Model/Path.lean`, `Model/Graph.lean` | walks of the reversed graph are reversed walks; the tree theorems of C36/C37 on both graphs; invariant over links; undefined case by evaluation of the loop up to the first uncovered link |
| C122 | the same, `coverAgain`, `coverMany`, `coverLinks` | nested invariants over links and tries; witness for links that are not the registered ones |
| C123 | `Model/Charge.lean` `Ev.make`, `drive`, `charge`, `needCharging` | induction over the history of uses, split at the last charging |
| C124 | `Model/EvRoute.lean`: `linkCost`, `linkCosts`, `destTree`, `poiTree`, `wayCost`, `tryPoi`, `bestPoi`, `updateBest`, `update`, `checkPair` | termination and optimality of the trees from C36, extracted paths are cheapest ways, least sum over the candidates by induction |
| C125 | `Model/EvRoute.lean`: `routeOrigin`, `treeAt`, `nextAt`, `checkAt`, `routeLink` | case analysis with the trees of C124 as hypothesis; witnesses for the two findings |
| C126 | `Model/Tour.lean`: `receiveVeh`, `receive`, `Veh.advance`, `loadMany` with ghost logs of trips and of destinations | invariant over all steps of a loading, with an arbitrary environment between origins and destinations; witness for tours that come by their last destination before |
| C127 | `Model/Tour.lean`: `State`, `State.make`, `State.finish` | same invariant |
| C128 | `Model/Tour.lean`: `releaseOne`, `single`, `touring`, `adjust` | induction over destinations, tours and vehicles |
| C129 | `Model/Tour.lean`: `letIn`, `Pq.run` with a log of entries | induction over intervals; witness for the clock that stops |
| C130 | `Model/MmCost.lean`: `driveTime`, `busTime`, `pnrTime` over tables | induction over the links; the specification is the sum of the parts; monotonicity for first in, first out |
| C131 | `Model/MmCost.lean`: costs with given travel times | algebra; witness for park-and-ride without tolls |
| C132 | `Model/MmDue.lean`: `initFlow`, `bestExisting` | sums over modes; least element of a fold |
| C133 | `Model/MmDue.lean`: `fixedAll`, `fixedExisting` | invariant over intervals: flow kept, not negative, paths grow; exact change of the total disutility |
| C134 | `Model/MmDue.lean`: `dtcAll` | sums over paths and intervals, both branches |
| C135 | `Model/MmDue.lean`: `gpAll` | deviations from the mean cancel; the change of the total is minus a sum of squares |
| C136 | `Model/MmDue.lean`: `merit`, `meritFixed` | a sum of non-negative terms is zero iff all are; witness for unused paths |
| C137 | `Model/Logit.lean` over the real numbers | algebra of `exp` and `log` |
| C138 | `Model/MmDue.lean`: `spread`, `releaseMode` | induction over intervals, blocks of a list; overflow as `ub` |
| C139 | `Model/MmDue.lean`: `logitPair` with the leftover variable | case analysis per mode; witness |
| C140 | `Model/MmDue.lean`: `put`, `drivingTable`, `pnrTable`, `transitTable` | induction over the paths; witness |
| C141 | `Model/Register.lean` registerLinks | loop over the given list with the registered prefix as invariant |
| C142 | `Model/Register.lean` registerPaths, registerMc | the same, and induction over the history of calls |
| C143 | `Model/Register.lean` registerMm, registerAll | the same; counting argument for the comparison of sizes |
| C144 | `Model/Register.lean` mapping | offsets; counting argument for the check of the total |
| C145 | `Model/Register.lean` linksToNodes, nodesToLinks | induction over the sequence; partial, see findings |
| C146 | `Model/Tdsp.lean` readLinks, readTurns, readText | fold over the rows against "last row that names it" |
| C147 | `Model/Tdsp.lean` readPy, build, extract | composition of C146 with C40/C41 |
| C148 | `Model/Tdsp.lean` updateTurn, getTurn | invariant "next link attains the label" per interval; partial, see findings |
| C149 | `Model/PreRoute.lean` construct, reassign | fold over pairs; sums over the paths of a pair; induction over changes |
| C150 | `Model/PreRoute.lean` originStep, endOne, update | invariant "links entered so far ++ links still to follow = first path" over all histories; partial, see findings |
| C151 | `Model/PreRoute.lean` advance, assignOne, originStep | induction over the queue with the remaining share as state; partial, see findings |
| C152 | `Model/Spill.lean`, `Model/MLink.lean` spillCount, Ctm.evolve, Lq.evolve | per link: what one evolve does to the flag, in terms of the vehicles on the link; lifted to one interval and by induction to a loading; witness for fractional factors |
| C153 | `MmQ.waiting`, `MmQ.ride`, `MmQ.busTt`, `MmQ.busTtRobust`, `MmQ.answer` | curves hold the histories of arrivals and departures; the scan finds the next arrival; refuted for a standing last bus and for bunches |
| C154 | same | monotonicity of waiting and riding in the specification `Rides`; refuted for buses in parts |
| C155 | same, `MmQ.session` | every query is blind for what earlier ones remembered |
| C156 | `MmQ.walkTt`, `MmQ.along` | lower bounds by induction over the driving links |
| C157 | `MEmis.loadMany` (`MNet.loadMany` with the report), `Net.Event` log | invariant over intervals: hours against entrances and exits of the log, trip sets against the vehicles entered; current link of a vehicle as function of the log |
| C158 | `MEmis.addLink`, `MEmis.update` | exact gain per link and interval; bounds on speed and rates; parameters stay positive through attribute changes |
| C159 | `MmLnk.Ctm`, `MmLnk.Pq`, `MmLnk.Link.run` | invariant of positions by kind, stops and log, kept by admitting, intervals (cells entrance first, exit loop by induction over the draws) and ends |
| C160 | `MmLnk.visit`, `goOn`, `comeTo`, `comeIn` | same invariant: story of a bus = complete trips and the trip so far; queue of a stop = buses of its route at its position; counter and dwelling bus |
| C161 | `MmLnk.hold`, `release`, `lastLoop`, `Ctm.evolve`, `Pq.evolve` | invariant excludes every check at the stops; exit loop: measure (vehicles left, small draws left); bounds of C72 for the flows between cells |
| C162 | `MmLnk.Pq.evolve`, `scan`, `letIn`, `hold`, `release` | ghost log of the stops: position + intervals held = start + intervals, invariant over all operations; log only mentions buses of the stop's route |
| C163 | `MmLnk.Ctm.evolve`, `moveCell`, `moveFrom`, `moveLast` | cars: cell-wise description of the move loop on reachable states; trucks: false, witness |
| C164 | `MmLnk.Ctm.evolve/clear`, `MmLnk.Pq.evolve/clear` against `MLnk.Ctm`, `MLnk.Pq` | simulation with equal draws, loop by loop |
| C165 | `MmLnk.cellOf`, `timeOf`, `placeStops`, `readStops` | arithmetic of the rounded quotient; induction over the rows |
| C166 | `MmLnk.Pq.clear`, `flowCar`, `flowTruck` | false, witness; what is counted on reachable states |
| C167 | `MmF.release`, `Fleet.make` | invariant of the loops over destinations and routes; false for park-and-ride shares, witness |
| C168 | `MmF.readRow`, `minuteRow`, `spreadRow` | the minutes of an interval as a block of the row; arithmetic of floors; false, witnesses |
| C169 | `Fleet.make`, `Fleet.remove`, `travelStats` | induction over histories of the fleet; false for hours of trucks under way, witness |
| C170 | `MmF.Router.handles`, `updateRouting`, `step` | stages of a trip as invariant; induction over histories |
| C171 | `MmF.findMid`, `nextPnr`, `drivePnr` | false, witness for any length; induction along the tree for one lot |
| C172 | `Rt.makeShot` over `Lnk.Link` | links copied one by one with the number of vehicles made so far; `Forall₂` relation of places; negations for other links, paths, volumes |
| C173 | `Rt.updateSet`, `normalizeTable`, `predictP` | closed form of one update, invariant over all calls of a session |
| C174 | `Rt.updateRatio`, `thinSign` | invariant over calls; `max (min x 0) 1 = 1` |
| C175 | `Rt.mkSign`, `hookPath`, `makeDetour`, `demandByNode` | folds over maps in closed form, argmax with prefix invariant |
| C176 | `Rt.average` | splitting the loop into blocks of one sample |
| C177 | `Rt.LinkTt.run` | tracker holds the last meetings of the history; induction over meetings |
| C178 | `Rt.optGrad`, `estGrad`, `optimizeSet` | lower bound of gradients; updates with one sign are the identity |
| C179 | `Rt.Mem` | ownership of the path table by copies, all numbers of rounds |
| C180 | `Rt.releases`, `nextInterval` | induction over loading intervals with the position in the list |
| C181 | `Rt.messages` | decision table, floor of minutes |
| C182 | `Rt.close`, `closeAll` | induction over closed links with the invariant `Hooked` |
| C183 | `Tr.loadManyT`, `Tr.darRecords` over the passenger simulation of `Model.Transit` | passengers that have moved keep path and interval (invariant over elementary steps); trees record the movements of all parts of an interval but one |
| C184 | `TH.install`, `TH.flow`, `TH.destroy` on a heap with addresses | invariant: memory holds exactly the trees pointed to, each once |
| C185 | `Model/BusPath.lean`: `portions`, `linkTt`, `overlapRows` | part of each link by its index in the list; sum by splitting first, middle, last link; negation for every bus link that comes back |
| C186 | `Model/BusPath.lean`: `checkPath`, `checkTable` | exact result: test of a stop against `Passes`, merged links against Mathlib's `destutter`; pieces with shared ends put together give the route |
| C187 | `Model/BusPath.lean`: `snapshotWait` | induction along the stops upstream and over minutes; negations: read behind the demand, endless loop on a ring |
| C188 | `Model/MmCover.lean`: `checkDriving`, `check` | exact flags by induction over the paths; negation for every link whose number a driving link of a park-and-ride path has |
| C189 | `Model/MmCover.lean`: `generate` | invariant of both loops over links (table, paths, flags); general negations: `out_of_range` for every first link on no path without driving link of its number; witnesses: new path not connected, freed park-and-ride path |
| C190 | `Model/MmConn.lean`: `findLots`, `checkTransit` | reachability from the shortest path trees (C37), fuel removed; exact lists of car parks; negations: no destination in the transit graph (general), link number 0 and car park out of reach (witnesses) |
| C191 | `Model/MmConn.lean`: `connectivity` | invariant over destinations and origins: the map is that of the pairs seen so far, all of which can be served; otherwise the exception |
| C192 | `Model/MmConn.lean`: `save`, `load`, `checkConn` | text lemmas of the readers; round trip for all three modes; negations for missing modes, fewer pairs and files of other networks (general) |
| C193 | `Model/MmConn.lean`: `table` | exact contents of the array for every map; negation for every origin with two destinations and for too few rows |
| C194 | `Model/MmConn.lean`: `demandFile` | induction over the rows; exact text |
| C195 | `Model/Readers.lean`: `buildToll`, `buildToll2` | loop over the rows = fold over the lines; last row of each link; general negation for files without first line |
| C196 | `Model/Readers.lean`: `readLabels` | the same; general negations for short rows and for reading on after the end |
| C197 | `Model/Readers.lean`: `readTracking` | the same, for the loop until the end of the file |
| C198 | `Model/Readers.lean`: `buildRatios`, `buildRatios2` | the same; entry of every minute; negation for short intervals |
| C199 | `Model/Readers.lean`: `buildAttrs`, `buildAttrs2` | the same; last row of interval and link |
| C200 | `Model/Readers.lean`: `buildPlaces` | two loops on one stream; fold of the rows; general negations |
| C201 | `Model/Readers.lean`: `buildNodes2`, `buildLinks2` | fold of insertions, first row of each number |
| C202 | `Model/Readers.lean`: `buildDemand2` (minutes: `Model/MmFleet.lean`) | fold of insertions; the minutes are those of C168; general negations for other lengths of the interval |
| C203 | two-class records: three series of volumes and times | three series kept together equal three kept apart, then C47 |
| C204 | both readings of the place file | loop equals fold over rows |
| C205 | reader of message signs | loop equals fold over rows |
| C206 | `Model/MmBest`: the search for the best new passenger path (all intervals, single interval, by mode), objects made and deleted with what their destructors delete | invariant over the departures: first cheapest so far, living objects are the old ones and the best path's two; comparison of the modes; park and ride: six objects, any deletion is undefined |
| C207 | `Model/MmStats.lean` on top of `Model/Transit.lean`: the aggregate query; the queries about each link over memory of 32-bit integers read as 64-bit numbers | invariant over the steps of an interval: only the recording step changes the record of queues; bounds of the last read |
| C208 | `Model/MmPaths.lean`: writers and readers of transit and park-and-ride path tables over texts; the reader keeps the word index and the last link from row to row | induction over rows: each written row is read back and pushed; numbering lemma shared by both tables |
| C209 | `Model/MmRoutes.lean`: `load_bus_path_table` over the two texts, reading a row of each in step; table of routes by ends and number; what virtual stops are told | induction over the rows of both files; walk lemma of C25 for the links between the nodes; rounding lemma for the number of buses |
| C210 | `Model/EvFiles.lean`: `add_charging_station_node` and `make_charging_station` over the text of the file; nodes in iteration order | induction over rows with the numbers used so far; floor lemma for the times; for errors, no later row can succeed |
| C211 | `Model/EvFiles.lean`: `load_candidate_poi_table`, `save_candidate_poi_table`, `construct_full_od_candidate_poi_table`; null pointers are `none` | fold over rows: merging equals order of first mention; written lines are rows of words; nested folds for the full table |
| C212 | `Model/TourFiles.lean`: `build_demand_multi_OD_seq` over the two texts, a line of each at a time | lemma that two files read in step are folded line by line; induction over rows; converse by induction over the lines read |
| C213 | `Model/PlaceFiles.lean`: `build_od_factory_ev` and `build_od_factory_delivery` over the text, random rounding as draws | lemma that a counted loop consumes its lines and leaves the rest; induction over rows with distinct numbers; refutations by every over-long row and by two draws |
| C214 | `Model/FlowFiles.lean`: `std::to_string (double)` as digits of the nearest multiple of a millionth, `stod` of `Model/Text` | lemma on fixed numbers of digits by induction; evaluation of the reader on sign, digits, point, digits; rounding bound |
| C215 | `Model/FlowFiles.lean`: `buffer_to_string`, `save_path_table` and `load_path_table` with buffers, the second file as a second stream | C56's fold over rows, and a second induction that keeps the stream of flows in step with the path counter |
| C216 | `Model/EvRecords.lean`: the texts of `save_waiting_time_record`, `save_cc` and `MNM_Cumulative_Curve::to_string`; the station of `Model/Charge.lean` | sorted lists with the same elements are equal; lines joined by newlines are read back; C116 for the record after a loading |
| C217 | `Model/Check.lean`: `is_ok` and `check_origin_destination_connectivity` of `dta.cpp`, on the graph of `Model/Graph.lean` and the shortest paths of `Model/ShortestPath.lean` | C02 for the links at a node; C37 for each destination, whatever tree is handed on; induction over origins and destinations |
| C218 | `Model/HookUp.lean`: `hook_up_node_and_link` with `add_out_link` and `add_in_link` of every class of node, on the graph of `Model/Graph.lean` | induction over the nodes (which are distinct, C01) and the links; C02 for the links at a node |
| C219 | `Model/CostFiles.lean`: `time_vec_to_string`, `disutility_vec_to_string` and `save_path_table` with costs | induction over the paths; C214 for the numbers; lines of a text made of rows |
| C220 | `Model/MmCheck.lean`: `is_ok` of `multimodal.cpp`; the driving check, the connectivity and the bus paths are arguments | C02 for the links at a node; a fold of tests answers whether all are passed |
| C221 | `Model/NumFiles.lean`: `read_int_float`, `read_int`, `read_float`, `build_workzone_list`; `stof` is read as `stod` | induction over the rows; the count in the first line is read back |
| C222 | `Model/RandomOd.lean`: `get_random_od_pair`; the random numbers are an arbitrary sequence | induction over the draws |
| C223 | `Model/CurveDump.lean`: `dump_cumulative_curve` with `to_string` of C216 | induction over the links; a list sorted by time is determined by its records |

Where a property turned out to be false of the code, the negation is proved with a concrete
witness, the part that holds is proved under a name ending in `_partial`, and the claim is
`partial` in MANIFEST.json.

## What is modelled

| Source | Model | Not modelled |
|---|---|---|
| `graph.h` | `Model/Graph` whole class | copy/move, generic data payloads |
| `ults.{h,cpp}` | `Model/Ults` rounding, `divide`, `mod`, approximate comparison | file helpers, `round_time` logging |
| `dlink.cpp` | `Model/Link` point queue, CTM, LQ, LTM: construction, `clear_incoming_array`, `evolve`, supply, flow, travel times; `Model/Curve` cumulative curves | printing, `MNM_Cumulative_Curve::to_string` beyond `Model/Tables`, trees of curves by path |
| `dnode.cpp`, `cc_tree.cpp` | `Model/Net` origin, destination, FWJ and GRJ nodes; `Model/Trees` trees of curves by path | printing |
| `factory.cpp`, `vehicle.cpp`, `od.cpp` | `Model/Net` vehicle factory, statistics, release, receive; `Model/Io` link and demand building | trees of labels outside release |
| `routing.cpp` | `Model/Net` fixed, adaptive, hybrid and bi-class fixed routing | printing |
| `shortest_path.cpp` | `Model/ShortestPath` FIFO, Dijkstra, LIFO, turn costs, TDSP tree, path extraction | `all_to_one_*` overload duplicates |
| `path.cpp`, `pre_routing.cpp` | `Model/Path` paths, path sets, `eliminate_cycles`, `build_pathset`; `Model/Tables` path table text | pre-routing files |
| `io.cpp`, `config.cpp` | `Model/Text`, `Model/Io`, `Model/Config` readers of nodes, links, graph, demand, path table; configuration files; `Model/Readers.lean` origins and destinations, labels, tracking, adaptive ratios, time-dependent attributes, tolls | work zone reader (never called) |
| `dta.cpp` | `Model/Net.loadOnce`, `loadMany`; `Model/Gridlock` the cycle check | interactive messages |
| `dta_gradient_utls.cpp` | `Model/Curve` travel times, `Model/Stats` DAR records | |
| `due.cpp` | `Model/Due` MSA and GP updates, merit functions | file output |
| `emission.cpp`, `statistics.cpp` | `Model/Emission`, `Model/Stats` | file output |
| `_ext/dta.cpp` queries after a loading | `Model/Query` tables of travel times and costs, path, link and inflow queries, cheapest path | argument conversion |
| `_ext/dta.cpp` `get_link_queue_dissipated_time`, `dso.cpp`, `dta_gradient_utls.cpp` slopes | `Model/Marginal` congestion marks, dissipation times, marginal travel times | the DSO iteration around them |
| `python/.../dta bindings` | `Model/Tables`, `Model/Stats` tables built for the user | argument conversion by pybind11 |
| `multiclass.cpp` 1–2247 | `Model/MLink` two-class CTM, LQ and PQ links | positions for drawing |
| `multiclass.cpp` 2258–3521 | `Model/MNet` nodes, release, vehicle factory, attribute changes; loading loop and bi-class routing with them | miles travelled, trees of curves by path |
| `mcdta.cpp` `get_travel_stats` | `Model/MNet.travelStats` | |
| `_ext/mcdta.cpp` queries after a loading | `Model/MQuery` tables, link, path and inflow queries of both classes | argument conversion |
| `multiclass.cpp` trees of curves, `_ext/mcdta.cpp` assignment ratios | `Model/MTrees` | the text form of numbers in the saved file |
| `_ext/mcdta.cpp` `get_link_queue_dissipated_time`, `get_car_ltg_matrix`, `get_truck_ltg_matrix`, `get_complete_car_ltg_matrix`, `get_complete_truck_ltg_matrix` | `Model/Ltg` | memory reserved in advance |
| `multiclass.cpp` 4492–4518, 4688–4753, `dta.cpp` 732–764, `_ext/mcdta.cpp` queries for vehicles under way, queues, waiting times and coverage of links | `Model/Record` | argument conversion |
| `_ext/mcdta.cpp` 2467–2934, `_ext/dta.cpp` 1363–1605: paths for uncovered links | `Model/Cover` | saving the table, buffers of paths |
| `multiclass.cpp` 3521–4300 (readers) | `Model/Readers.lean` | – |
| `multiclass.cpp` 6205–6811 (`MNM_Statistics_Lrn_Multiclass`) | `Model/MStats.lean` | failures to open files, decimals |
| `io.cpp` 265–408, 963–1003 (files of real-time loadings) | `Model/RtFiles.lean` | – |
| rest of `multiclass.cpp` 4300–5945 | – | path sets |
| `multimodal.cpp` passengers: 75–316, 367–810, 907–1294, 1400–1627, 1803–2148, 2305–2605, 3075–3137, 3617–3740, 5903–6306, 6520–6933, 7349–7367, 10414–10795 | `Model/Transit` passengers, factory, origins, destinations, walking and bus links, physical and virtual stops, boarding and alighting, parking lots, fixed and adaptive passenger routing, the passenger part of the loading loop | cars, trucks and bus movements on driving links (an arbitrary list of calls at stops and arrivals at parking lots), shortest path trees (arbitrary), readers, path sets, travel time queries |
| `src/ev_traffic.cpp` 1-116, 405-718: electrified vehicles, charging stations | `Model/Charge.lean` | the rest of the network is an arbitrary environment: vehicles with arbitrary attributes reach the ends of the links that lead to the station before every interval; curves by path (695-716) left out |
| `src/ev_traffic.cpp` 848-1460: routing with charging stations | `Model/EvRoute.lean` | trees of fixed routing; the loops over origins and links (each vehicle is routed on its own) |
| `src/delivery_traffic.cpp` 1-428, `src/ev_traffic.cpp` 118-371, 2128-2257: delivery vehicles, electrified vehicles at origins and destinations, point queues with delay | `Model/Tour.lean` | links and junctions are an arbitrary environment; the volume counter of the point queue; what routing tables forget when a vehicle is received |
| `src/multimodal.cpp` 11515-12288: travel times and costs of passenger paths | `Model/MmCost.lean` | the overloads that read tables; departures at whole intervals |
| `src/multimodal.cpp` 12475-12572, 15745-16427, 17617-18155, 18703-18826, 19192-19545, 20497-21460: the multimodal equilibrium | `Model/MmDue.lean`, `Model/Logit.lean` | one pair at a time (the pairs do not interact); what the searches for new paths return is arbitrary; finite disutilities; the square root of the iteration is an arbitrary number of at least one |
| `_ext/dta.cpp` 1205–1298, `_ext/mcdta.cpp` 2330–2370, `_ext/mmdta.cpp` 1860–2145 and 3465–3623 (registration, sequences), `multimodal.cpp` 14800–14968 (path numbers) | `Model/Register.lean` | conversion of arrays |
| `_ext/tdsp.cpp`, `io.cpp` 1258–1400 (time-dependent tables), `shortest_path.cpp` 681–880 (trees with turns) | `Model/Tdsp.lean` | building of the graph; array elements are rationals |
| `pre_routing.cpp`, `so_routing.cpp` | `Model/PreRoute.lean` | the order in which the queue was shuffled (any queue is covered) |
| `mcdta.cpp` 1482-1495, `multiclass.cpp` 4755-4771 | `Model/Spill.lean` | null links |
| `multimodal.cpp` `get_bus_waiting_time`, `get_travel_time_bus(_robust)`, `get_travel_time_walking`; `dta_gradient_utls.cpp` `get_last_valid_time_bus`; `mmdta.cpp` `get_bus_link_tt(_robust)`, `get_passenger_walking_link_tt` | `Model/MmQuery.lean` | null pointers and missing curves; numpy arrays and their dimensions (tables are lists of columns) |
| `multiclass.cpp` 4464–4485, 5946–6207 (`MNM_Cumulative_Emission_Multiclass`), its place in `dta.cpp` 645–676 | `Model/MEmission.lean` | the text printed; addresses of vehicle objects are an arbitrary function of the vehicle |
| `multimodal.cpp:367-796, 3754-4735` driving links with stops, `7765-7988` placing the stops | `Model/MmLink.lean` | passengers (oracle here; see `Model/Transit.lean`), cumulative curves of the stops, the check for passengers in the wrong bus |
| `multimodal.cpp:2156-2284, 2608-3072, 5330-5810, 6949-7412, 8497-8836` vehicles: factory, release, demand per minute, fixed routing, park-and-ride; `routing.cpp:789-952`; `_ext/mmdta.cpp:1684-1862` | `Model/MmFleet.lean` | labels, parsing of demand lines, trees of adaptive routing (given), parameters of dwelling |
| `realtime_dta.cpp`, `realtime_dta.h`, `vms.cpp`, `workzone.cpp`, `MNM_Link_Tt` and `MNM_Link_Cost` of `marginal_cost.cpp` | `Model/Realtime.lean` (copies, portions, signs, averages, gradients, ownership, schedule, texts, closed links) | reading of files, console output, the loading loops themselves (travel times are arguments) |
| `multimodal.cpp` trees of passengers, `add_dar_records_passenger`; `mmdta.cpp` `get_passenger_dar_matrix_*` | `Model/MmDar` | the number of the park-and-ride path of a passenger is given; trees of buses |
| `install_cumulative_curve_tree*`, destructors of links | `Model/TreeHeap` | what a tree makes of the flows (that is `Model/Tables`) |
| `multimodal.cpp` 812-906, 3458-3613, 9898-10258; `mmdta.cpp` 1290-1340 | `Model/BusPath` | printing |
| `mmdta.cpp` 2144–3425 (bus, walking, coverage of driving links), `multimodal.cpp` 5284–5289 | `Model/MmCover.lean` | printing, saving of the tables, buffers; what happens to a park-and-ride path after its halves are freed (undefined) |
| `multimodal.cpp` 9782–9896, 14369–14513, 15284–15620, `mmdta.cpp` 4867–4914 (connectivity by mode) | `Model/MmConn.lean` | printing; failures to open files; the order of maps is an argument |
| `multimodal.cpp` `get_best_path`, `get_best_driving_path`, `get_best_bus_path`, `get_best_pnr_path` and their single-interval versions (18826-19190, 19548-19949), destructors of passenger paths | `Model/MmBest` | printing; travel cost and demand are arguments (`MmCost`, `Logit`) |
| `mmdta.cpp` `get_enroute_and_queue_passenger_stats_agg`, `get_queue_veh_each_link`, `get_queue_passenger_each_link` | `Model/MmStats.lean` | what two integers mean as a floating point number (any function); numbers that are not finite |
| `multimodal.cpp` `save_bustransit_path_table`, `save_pnr_path_table`, `load_bustransit_path_table`, `load_pnr_path_table` | `Model/MmPaths.lean` | buffers; `save_passenger_path_table` |
| `multimodal.cpp` `load_bus_path_table` | `Model/MmRoutes.lean` | buffers |
| `ev_traffic.cpp` `add_charging_station_node`, `make_charging_station`, `load_candidate_poi_table`, `save_candidate_poi_table`, `get_POIs`, `construct_full_od_candidate_poi_table` | `Model/EvFiles.lean` | single precision; `build_od_factory_ev`, `save_charging_station_record` |
| `delivery_traffic.cpp` `build_demand_multi_OD_seq`, `add_multi_OD_seq_demand` | `Model/TourFiles.lean` | memory of the sequences |
| `ev_traffic.cpp` `build_od_factory_ev`, `delivery_traffic.cpp` `build_od_factory_delivery` (with nodes) | `Model/PlaceFiles.lean` | `flow_scalar`, `max_interval`, `assign_frq` and `ev_label` of the objects |
| `path.cpp` `buffer_to_string`, `save_path_table` and `io.cpp` `load_path_table` with buffers; `std::to_string (double)` | `Model/FlowFiles.lean` | rounding to single precision when reading |
| `ev_traffic.cpp` `save_waiting_time_record`, `save_cc`; `dlink.cpp` `MNM_Cumulative_Curve::to_string` | `Model/EvRecords.lean` | failures to open files |
| `dta.cpp` `is_ok`, `check_origin_destination_connectivity` | `Model/Check.lean` | printing |
| `dta.cpp`, `realtime_dta.cpp` `hook_up_node_and_link`; `add_out_link`, `add_in_link` | `Model/HookUp.lean` | messages of exceptions |
| `path.cpp` `time_vec_to_string`, `disutility_vec_to_string`, `save_path_table` with costs | `Model/CostFiles.lean` | failures to open files |
| `multimodal.cpp` `MNM_Dta_Multimodal::is_ok` | `Model/MmCheck.lean` | printing; `check_bus_path_table` |
| `io.cpp` `read_int_float`, `read_int`, `read_float`, `build_workzone_list` | `Model/NumFiles.lean` | printing; rounding to single precision |
| `get_random_od_pair` of `factory.cpp` and its variants in `multiclass.cpp`, `multimodal.cpp` | `Model/RandomOd.lean` | the range of `rand` |
| `io.cpp` `dump_cumulative_curve` | `Model/CurveDump.lean` | failure to open the file |
| rest of `multimodal.cpp`, readers of `ev_traffic.cpp` and `delivery_traffic.cpp` | – | not modelled |

## Findings

Behaviour of the code that contradicts what a user would expect.  Those marked (proved) have a
witness theorem in `Verif/Props`.

* `neighbors()` yields one neighbour only (C04, proved).
* Curve queries are wrong from time 10000 on because the tolerance is relative (C10, proved); the
  same tolerance turns `round_up_time` into floor for large times (C08, proved).
* `get_time (.., true)` reads past the last record when the count was never reached (C11, proved).
* The robust travel time is NaN for windows below one interval (C13, proved).
* Travel times read from curves are too short for all but the last of the vehicles that leave in the
  same interval (C89, proved).
* Tables of link costs are kept when they are built again after a longer loading, and then written past
  their end (C90, proved); departures before interval 0 are not checked (C90, proved).
* `update_tdsp_tree` covers fewer intervals than the tables when the loading goes on after the last
  assignment interval; the path it finds then need not be the cheapest (C92, proved).
* Dissipation times and marginal travel times compare flows per interval with the capacity of a cell
  times the unit time, but the capacity of a cell is already per interval: with unit times above one
  second capacity is never reached and room always assumed (C94, C95, proved).
* Origin nodes do not record into the trees of curves (`dnode.cpp:36-108` against `421-436`): a link fed by an
  origin node has no assignment ratios although vehicles enter it (C98, proved).
* The complete matrices of gradients do not check the number of assignment intervals: too few are undefined behaviour
  (`C103_too_few_intervals`).
- C104: the matrices of assignment ratios of cars and trucks use the number of a path as its column
  (`C104_false_for_other_numbers`), ask for the number of the path of a vehicle without path
  (`C104_false_without_path`), and say nothing of links fed by origin nodes (`C104_false_for_first_links`).
* `remove_finished_passenger` reads `m_pnr` of a passenger it has deleted (C112, proved).
* `m_waiting_time` of a passenger is never initialised but decides how long it waits before it walks (C106, proved).
* With a flow scalar below 1 every bus is held forever at its first stop (C110, proved); the same happens if the
  boarding or alighting rate is zero and somebody wants to get on or off.
* A bus that is not the k-th one at a stop ends the loading with an exception if somebody on board is to get off
  there, which happens when buses change order (C108, proved).
* A full parking lot reports a shorter search time than one with few places left (C111, proved); occupancy ignores
  the flow scalar, never decreases and may exceed the capacity.
* Without simulated buses a passenger who cannot get off because of the alighting limit keeps those behind from
  riding on, and boarding passengers do not spend the historical waiting time.
* `hold_bus` computes the room as capacity times the integer part of the flow scalar, `board_and_alight` as the
  integer part of the product; they differ for scalars that are not integers.
* The free-flow times in intervals that two-class link queues report are in seconds (`C101_link_queue_seconds`).
* Travel time gradients of trucks use the last valid travel times of cars and can end with "invalid state"
  (C102, proved).
* `shrink` drops the newest records (C14, proved).
* A CTM link of length zero is accepted and undefined on first use (C17, proved).
* Travel time at jam density is one hour, possibly below free flow (C21, proved).
* CTM links count vehicles waiting at the exit twice (C57, C69, proved).
* A link-queue link can report negative supply; the rounding loop of the node then never ends (C23,
  proved).
* GRJ nodes can ask an entrance for more vehicles than wait there, and then throw (C58, proved);
  they leave demand unserved in free flow (C59, proved).
* Origin nodes may round the supply up, after which a CTM link throws (C60, proved).
* The adaptive ratio of one destination leaks to the destinations after it (C61, proved); the
  multiclass release does the same from cars to trucks (C83, proved).
* Vehicles overtake at origins because each release reshuffles the queue (C62, proved).
* Dijkstra leaves stale entries in a reused output map (C38, proved); `all_to_one_LIFO` is not a
  shortest path algorithm (C39, proved); with turn costs the result is not optimal (C63, proved).
* `build_pathset` duplicates paths, or is undefined, when nodes are shared (C42, proved).
* A path of portion zero is drawn when the draw is exactly zero (C33, part of the statement).
* Readers loop for ever, or repeat the last row, on short files; a missing graph file hangs (C50,
  proved).
* `load_path_table` changes parallel links and accepts unconnected nodes (C56, proved); its buffer
  loop tests the wrong stream; one-node paths are dropped.
* Configuration lookups with a default never fall back to it; keys with `/` collide (C49, proved).
* `has_cycle` is false on every cyclic graph (C54, proved).
* DUE: negative flows for new paths (C44, proved); GP creates demand with tolls or steps above one
  (C45, proved); the fixed-departure merit function ignores unused paths and is 0/0 without flow
  (C46, proved); `get_best_route` takes tree costs for travel times (C68, proved).
* Registering a path twice makes DAR columns collide; a short path-flow vector is read out of bounds
  (C48, proved).
* Two-class links: space fractions become negative above jam density (C71, proved); an LQ link is
  asked for its supply before its perceived densities are initialised (C71, proved).
* Two-class junctions overfill exits, by up to one vehicle per entrance (C80, proved); two-class
  origin nodes count a truck as one vehicle against a supply in car equivalents, and origin and
  destination nodes dereference a null pointer next to a link that is not a point queue (C84, proved).
* Two-class networks with ratios per destination but configured ratios of 0 never route their
  adaptive vehicles: these stay at the origin for ever (C86, proved).
* Read, not proved: `update_record (-1)` on an empty network writes an extra row; the docs give the
  curve table one row less than it has; registering links twice raises "link does not exist";
  `generate_paths_to_cover_registered_links` dereferences `end ()` for links at an origin or
  destination node; `record_cumulative_curve` tests `m_N_out` but writes `m_N_in` and vice versa;
  `MNM_TDSP_Tree` frees `new[]` memory with `delete`; `is_link_in` uses a stale set after
  `eliminate_cycles`; duplicate demand, node and link rows: the first wins and the later objects
  leak; two-class LQ travel times compare a per-lane density with whole-road densities; two-class
  point queues use the car speed for trucks and keep their free-flow time after
  `modify_property`; two-class `modify_property` does not check for negative lanes.
- C117: a charging station has `num_slots * int (flow_scalar)` queues, so with a flow scalar below
  one it has none: `get_current_estimated_waiting_time` then reads through the end iterator of an
  empty vector in the first interval, even if no vehicle comes (`C117_stations_fail_below_one`).
- C116: a slot is blocked for one interval after a vehicle left, but the recorded waiting time
  counts only the charging time per vehicle in the queue, so that it can be less than the time a
  vehicle waits (`C116_recorded_times_are_too_short`).
- C116: the curves count a vehicle on the link that leads to the station until it leaves the
  station, so that travel times of that link include waiting and charging.
- C118: `get_queue_veh_each_link` does not check for negative intervals and reads outside of its
  record (`C118_negative_intervals`).
- C119: a vehicle is charged one interval of waiting even if it leaves its link as soon as it gets to
  the end, so that links without any queue report about one interval of waiting per vehicle
  (`C119_waiting_without_queue`).
- C121: `generate_paths_to_cover_registered_links` leaves the tree of a link empty if the link leaves
  an origin node (or leads to a destination node), to use a path of one node instead; but the check
  of origins and destinations that follows still looks into the empty tree and dereferences its end
  iterator (`C121_link_of_an_origin_is_undefined`).
- C122: `generate_paths_to_cover_links` takes the endpoints of `m_link_vec[i]`, the registered link at
  the position, instead of the link `i` of its argument: the new paths are not connected
  (`C122_other_links_break_paths`), or the vector is read beyond its end
  (`C122_fewer_registered_links_are_undefined`).
- C124: a candidate station that is out of reach (the check is only made once, for stations read from the table of
  candidates) makes `update_best_POI` dereference a null pointer (`C124_candidates_out_of_reach_are_undefined`).
- C125: at the end of a link to its own station a vehicle that still needs charging is checked against the tree of the
  station: if from the node after the station there is no way back to it, as with a station right before a destination,
  routing throws "Something wrong for the future node" (`C125_at_own_stations_partial`).
- C125: a single-trip vehicle for roadside charging "needs charging" as long as it has driven no mile.  If its range is
  enough after the first link, it is sent towards its station from the origin but to its destination from the end of
  the first link, and keeps the station (`C125_new_vehicles_turn_away`; an `Assert` fails there in debug builds).
- C123: miles are only counted when a vehicle is moved by a junction, not on links into stations and destinations.
- C126: `MNM_Destination_Delivery::receive` compares the destination of the current trip with the last destination of the
  sequence, not the position in the sequence.  A tour that comes by its last destination earlier (e.g. 1-7, 2-8, 3-7) ends
  there, and the remaining trips are never made (`C126_tours_are_cut_short`).
- C129: in `MNM_Dlink_Pq_Delay::clear_incoming_array` waiting times are only counted down as long as supply is left, so a
  vehicle behind others can wait longer than its pick-up time although there is supply once its time is up
  (`C129_clock_stops`).
- C131: `MNM_Passenger_Path_PnR::get_travel_cost_with_tt` adds neither a parking fee nor the tolls of the links driven, so
  the equilibrium sees park-and-ride as free of both (`C131_park_and_ride_pays_no_tolls`); a driving path without a
  parking lot pays a fixed fee of 8.
- C136: both gap functions take the lowest disutility over the paths in use only, so a table in which everybody uses a
  bad path has gap zero (`C136_unused_path_ignored`).
- C138: `update_origin_demand_from_passenger_path_table` allocates `T * (mm / T)` entries and clears `mm`; if `T` does not
  divide `mm`, this writes behind the array (`C138_new_array_overflows`).
- C139: in `update_origin_demand_logit_model` the branch for pairs without transit writes the variable `_demand` instead of
  zero into the array of transit: passengers appear who are not in the demand, or an uninitialised variable is read
  (`C139_transit_off_makes_demand`).
- C140: `passenger_path_table_to_multimodal_path_table` copies the whole buffer of a fixed truck path, including its car
  half, and only visits pairs with driving passengers, so trucks of other pairs are lost
  (`C140_trucks_bring_cars_and_get_lost`).
- C141–C143: a registration that raises an error loses the previous registration and leaves the good prefix registered.  The single-class and two-class objects accept repeated paths; the multimodal one does not.
- C144: numbering all paths fails if a path's origin-destination pair is not in the passenger path table.
- C145: sequences of links that do not connect are converted without complaint, an empty list is undefined behaviour, and where two nodes have no link the result holds uninitialised memory.
- C146: reading a text file sets links that are not in the file to zero, reading an array keeps their old values; a text file with too few rows is accepted silently if it does not end with a newline (the last row is read again) and rejected otherwise.
- C148: trees with turn costs keep one label per node, so the reported cost need not be least; with delays at turns the reported cost adds link time and delay before rounding to intervals while the extracted path rounds each, so the two can charge different intervals.
- C150: predetermined routing takes a link off the route of *every* vehicle in the queue of an origin at every release, also of those that wait since an earlier release: such a vehicle skips links of its path, and when its path is used up memory outside a queue is read (`C150_waiting_vehicle_skips_a_link`).  An update at a release time after the horizon, or an origin without any demand, reads outside the demand (`C150_after_horizon`).
- C151: the shares of the table are followed only for one destination with shares of at least one vehicle: a path with share zero gets a vehicle (`C151_zero_share`), and at a new destination the share is looked up under the index of the last path of the old one (`C151_next_destination`).
- C152: with a vehicle conversion factor that is not a whole number, cell transmission links cut the count of car equivalents to an integer after every cell, so a link can be over its jam density without `get_link_spillback` saying so (`C152_fractional_factor`).
- **C153** The last valid time of a stop is the interval in which the last departing bus *arrived*; from that interval on
  `get_bus_waiting_time` answers "no bus", although this bus may stand at the stop for many intervals
  (`C153_last_bus_standing`).  If the buses of a bunch (arrivals in one interval) do not all leave during the
  loading, the whole bunch is ignored (`C153_bunched_buses`).
- **C153, C154** With a flow scalar above one, a bus that stands at the stop is no longer offered once a part of the next
  bus has arrived (`C153_buses_in_parts`).  If parts of two buses arrive in one interval, who comes later can
  be at the next stop earlier (`C154_buses_in_parts`).
- **C157** Trips of the emission report are a set of pointers to vehicles, but vehicles are deleted when they arrive; a
  later vehicle whose object gets the same address is not counted (`C157_trips_false_address_reused`).  Vehicles waiting
  at the entrance of a registered point queue are not counted in the hours (`C157_hours`).
- C161: the loop `move_veh_queue_in_last_cell` of cell transmission links with stops waits for a random draw: when the trucks at the exit are all held buses and a car may still leave, passes that pick a truck do nothing, so the loop ends only with probability one (`C161_loop_waits_for_draw`: no number of draws above the share of cars ends it).
- A bus at a stop of a cell transmission link is visited only in intervals in which the flow out of its cell lets at least one truck move; in other intervals (congestion ahead, or rounding) nobody boards or alights and the dwelling is not counted.
- **C163** On cell transmission links with stops, buses that are held do not count against the number of trucks to be moved out of a cell, so a truck that just entered the cell behind them is moved on in the same interval and crosses several cells at once (`C163_false_truck_jumps`).
- **C166** Point queues of multimodal networks keep their vehicles in a deque, but compute the volumes from the pool of the two-class link, which is never filled: the reported flow has only the vehicles waiting at the exit (`C166_false_travelling_not_counted`).
- **C167** In both release functions of multimodal origins the share of adaptive drivers is overwritten by the one of a destination and never restored: destinations that follow without their own share, and all park-and-ride cars, get the share of another destination, even of another kind of vehicle (`C167_false_share_of_trucks`).
- **C168** With `init_demand_split` 1, demand for less than one (scaled) vehicle per interval is dropped altogether, for cars, trucks, buses and park-and-ride cars, instead of being released by chance; of more than 15 buses per interval up to 14 are lost to rounding down in every minute; and the demand arrays are copied with 15 minutes per interval, whatever `assign_frq` says (`C168_false_below_one`, `C168_false_buses_lost`, `C168_fifteen`).
- **C169** `Mmdta::get_travel_stats` adds the time of trucks that are still under way to the hours of buses (`C169_false_trucks_as_buses`).
- **C170** A bus route (or path) that passes the node of the destination before its end makes routing throw, and one that does not end there reads the front of an empty queue (`C170_false_through_destination`).
- **C171** Adaptive park-and-ride cars draw a parking lot anew at every node, so that they can turn around for any length of time (`C171_false_turns_around`); the travel times computed for the lots are not used.
- **C172** Copies of the network lose the vehicles on the way on link-queue and link-transmission links and those waiting at nodes; every copied vehicle loses its path and interval, and the volumes of the copy are zero, so its cells stand still in the first interval.
- **C174** The measured compliance ratio is bounded by `max (min (x, 0), 1)`, which is always one; signs never influence the prediction. The flows it would use are assigned instead of added, and a detour over link 0 does not count as one.
- **C175** The alternatives of a sign leave the node where its link starts, so the link itself is among them; since optimisation never changes portions (C178), the detour is always the first entry of the map.
- **C176** Averaged travel times are never reset (the loops clear copies of the entries); numbers of sample points that do not divide the length give wrong weights, and more points than intervals divide by zero.
- **C177** A vehicle that stays at the entrance of a point queue for a second interval makes `update_tt` raise "invalid state".
- **C178** All gradients of the optimisation are positive, every portion is divided by the same number and normalised again: nothing ever moves.
- **C179** Every copy's routing deletes the shared path table in its destructor; any session with an estimation round, two optimisation rounds or two iterations uses deleted memory.
- **C182** The graph keeps closed links as edges, and closing a link before the links are hooked to nodes erases the end of an array.
- **C183** `MNM_Destination_Multimodal::evolve` updates the cumulative curve of a link out of the parking lot, but not its tree: passengers that walk on through a destination are missing from the assignment ratios (`C183_false_through_destinations`).
- **C184** `MNM_Bus_Link::install_cumulative_curve_tree` tests the bus tree but deletes the passenger tree it has just made: after a second installation the pointer dangles, recording a passenger or destroying the link is undefined, and the old bus tree leaks (`C184_false_bus_links_twice`).
- **C185** `get_overlapped_driving_link_length_portion` compares link IDs, so on a bus link whose ride comes back to its first driving link the last link gets the portion behind the first stop (`C185_false_return`); the travel time and the DAR rows of that bus link are then wrong.
- **C186** `check_bus_path_table` does not see a stop of the route that is passed on a second visit to the link of the first stop (`C186_false_return`); and the links of a path before its first and behind its last stop are dropped from the table (`C186_cut_off`).
- **C187** `get_waiting_time_snapshot` reads `_demand[i]` up to `timestamp / 12` without looking at the length of the array (`C187_false_after_demand`), and its loop upstream has no end on a circular route (`C187_false_ring`).
- **C188** `MNM_PnR_Path::is_link_in` looks for the number among the driving links as well, so a registered bus or walking link with the number of a driving link on a park-and-ride path is reported as covered (`C188_false_same_number`).
- **C189** `generate_paths_to_cover_registered_links_bus_walking` looks up the ends of bus and walking links in `m_graph`, the driving network: it throws `std::out_of_range` whenever the first uncovered link has no driving link of its number (`C189_false_bus_links`, `C189_false_walking_links`), and otherwise makes paths that need not be connected (`C189_false_links_do_not_follow`); the halves of a new park-and-ride path are deleted although the path keeps pointers to them (`C189_false_park_and_ride`).
- **C190** `check_bus_transit_connectivity` skips (`continue`) destinations that are not in the transit graph, so it reports success for bus and park-and-ride demand to them (`C190_false_outside`); for park-and-ride it does not ask whether a car park can be reached by car (`C190_false_pnr`); `> 0` on link IDs takes a first link with ID 0 for no way (`C190_false_number_zero`).
- **C192** `save_od_mode_connectivity` reads the flags of all three modes without looking whether they are there: with fewer modes configured the first run always dereferences an end iterator (`C192_false_fewer_modes`). An existing file is used whatever the network and the demand are (`C192_false_stale_file`), and `OD_pair_passenger` lines of it are read, so that pairs are lost if that is too small (`C192_false_fewer_pairs`).
- **C193** `get_od_mode_connectivity` writes the origin into the first row of each origin only; the first column of the other rows is uninitialised memory (`C193_false_origin`); with more pairs than `OD_pair_passenger` it writes behind the end of the array (`C193_false_too_few_rows`).
- **C195** `build_link_toll` throws the first line away without looking at it; if it holds a toll and the file has no final newline, the failing `getline` leaves the last line in place, it is read twice and the toll of the first line is lost without an error (`C195_false_no_first_line`).
- **C196** rows of label ratios with the wrong number of words are ignored (`C196_false_short_row`); past the end of a file without final newline the last row is read again, which gives origins labels that do not exist (`C196_false_beyond_end`).
- **C197** the tracking files lose their first row if there is no first line (`C197_false_no_first_line`); a blank line is an error.
- **C198**, **C202** `add_dest_adaptive_ratio_multiclass` and `add_dest_demand_multiclass` copy fifteen entries per interval: with shorter intervals they read behind the array (`C198_false_short_interval`, `C202_false_short_interval`), with longer ones the end of the demand is cut off (`C202_false_long_interval`).
- **C199** time-dependent tolls are read with `stoi`: the fraction is dropped (`C199_false_fraction`); both classes get the same toll; the table for one class needs thirteen words of which nine are used, and nothing uses it.
- **C200** rows of origins and destinations that have not two words are skipped but counted (`C200_false_skipped`); a number used twice leaves a node that belongs to an object no demand can reach (`C200_false_twice`); a node that is not an origin is dereferenced as null (`C200_false_kind`).
- **C203** The recorded travel time of cars is computed from the number of cars alone (and that of trucks from trucks alone): a link full of trucks is recorded as free for cars (`C203_false_car_times_ignore_trucks`).
- **C204** `hook_up_od_node` splits the rows of origins before it trims them: a row that ends with a blank and a carriage return has three words and is passed over silently, so the origin that the first reading made has no node (`C204_false_trailing_blank`).
- **C206** `~MNM_Passenger_Path_PnR` deletes `m_driving_part` and `m_bus_part`, whose base destructor deletes the driving and transit path; then the base destructor deletes the `MNM_PnR_Path`, which deletes both again. Any deletion of a park-and-ride passenger path is a double free: the search for a new path is undefined as soon as two park-and-ride paths are offered, or one that loses (`C206_false_park_and_ride`, `C206_false_losing_park_and_ride`).
- **C207** `Mmdta::get_queue_veh_each_link` and `get_queue_passenger_each_link` take arrays of `int` and read their memory through `double *`: the last read is always outside of the array, so no call that asks for an interval is defined (`C207_false_queue_each_link`). The second test of `get_enroute_and_queue_passenger_stats_agg` repeats the first, so the length of the record of queues is never tested; it is right all the same.
- **C208** `load_pnr_path_table` ends the driving part of a row at the first occurrence of the destination in the middle: a drive that passes through it earlier comes back as another path (`C208_false_drive_through_destination`). Rows with fewer than seven words are left out without an error, among them the path that starts where it parks (`C208_false_short_row`). As in C56, parallel driving links are not told apart.
- **C209** The rows of the file of bus paths and of the file of bus stops are matched by position only; the numbers in the file of stops are never looked at, so files in different orders give routes the stops of other routes (`C209_numbers_of_stop_rows_ignored` and the example beside it). A row of the path file without nodes reads outside of a vector (`C209_false_no_nodes`). Later rows of the same route are ignored (`C209_first_row_counts`).
- **C211** A row of the file of candidate stations that names a node which is not a charging station is accepted: the null pointer becomes a candidate of the pair (`C211_false_not_a_station`), and the check of connectivity that follows dereferences it.
- **C212** A row of the file of tours with an odd number of words reads outside of a vector, because the check is an `Assert` that is compiled out (`C212_false_odd`).
- **C213** Rows of origins with too many words are dropped without an error: the `throw` for them is inside of the condition that they are not too long (`C213_false_too_many`).
- **C213** The waiting time at an origin is rounded at random while the file is read, so the same files define different scenarios (`C213_false_random`).
- **C215** When a path table is loaded with flows, the loop that should skip blank lines and comments in the file of flows tests the line of the file of paths (`io.cpp:870-879`); blank lines become empty flows and comments raise an exception (`C215_false_comments`).  A missing file of flows is not noticed (`C215_false_missing_file`).
- **C217** A node is in the graph only if some link uses it. If the node of an origin or destination has no links, the check of the input files ends with `out_of_range` instead of answering false (`C217_false_isolated`).  If an origin and a destination are at one node, `check_origin_destination_connectivity` dereferences the end iterator of the tree (`C217_false_shared`).
- **C219** `time_vec_to_string` and `disutility_vec_to_string` call `pop_back` on an empty string if the costs of a path were never computed, which is undefined (`C219_false_no_costs`); `buffer_to_string` tests for this case.
- **C220** The multimodal check tests with `is_node` whether an origin or destination is in the transit graph, but then calls `get_node` in any case, so that it throws `out_of_range` where it should answer false (`C220_false_absent`).
- **C221** The readers of files of numbers, speeds and work zones end without an error when the file is missing, as if it were empty (`C221_false_missing`).
- **C222** `get_random_od_pair` never returns if no origin has demand, and takes a remainder by zero if there is no origin (`C222_false_no_demand`).
