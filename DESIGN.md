# Formal model of PACMAN

Model and proofs are in `lean/Verif/`. Layout, per component `X`:

* `Verif/Model/X.lean`: the model, function by function, each definition citing file and lines in `/repo`.
* `Verif/Spec/X.lean` (or the top of `Props`): the small specification used to state properties, independent of the model's helpers.
* `Verif/Proofs/X.lean`: helper lemmas and invariants.
* `Verif/Props/X.lean`: the property theorems, each followed by an `example` showing a concrete non-trivial case meeting its hypotheses.

Paths below are relative to `/repo/pacman`.

## Trusted base

* Lean 4 kernel. Each theorem depends on at most `propext`, `Classical.choice`, `Quot.sound`. There are no further axioms, no `sorry`, no `native_decide`, no `bv_decide`.
* The model is a hand-made reading of the Python text. The code was not run. The tie between the two is the citation on every definition.
* Python semantics assumed: `dict` and `OrderedSet` iterate in insertion order; `sorted`/`list.sort` are stable; `int` is unbounded; exceptions abandon the rest of the call. Iteration order of `set` is not assumed (where it matters it is a parameter or theorem holds for any order).
* External libraries are modelled by their contract, and only where used:
  * `spinn_machine.MulticastRoutingEntry`: constructor rejects `key & mask != key`; `spinnaker_route`, `processor_ids`, `link_ids` are determined by the route; `merge` unions the routes and is defaultable only if both are.
  * `spinn_machine.Machine`/`Chip`: finite set of chips, link relation, per-chip SDRAM and list of placable cores, Ethernet chip of each chip, are parameters of the model.
  * `numpy` integer arrays are lists of integers; the float arrays used for indices are modelled by exact integers (differences would appear only above 2^53).
  * `math.ceil(math.log2(n))` is modelled by `Nat.clog 2 n` (float rounding above 2^48 is not modelled); `math.ceil(a / b)` by exact ceiling division.
* Not modelled anywhere: progress bars, logging, report writing, file reading and writing, configuration parsing, type checks by `isinstance` other than those stated, timing.

## Per property: what is modelled, how it is proved

Where the code does not have the property, the negation is a theorem with a concrete witness, and what does hold is proved
under a name ending in `_partial`. `MANIFEST.json` lists the theorems of each property. Each depends on no axioms but
`propext`, `Classical.choice` and `Quot.sound`; witnesses by `decide +kernel` on `propext` and `Quot.sound` or fewer.

| id | modelled (`lean/Verif/Model/...`) | proof |
|----|----------|------------|
| C01, C02 | KeyMask: `base_key_and_mask.py`, `utility_calls.py`, 32-bit vectors | deposit of the bits of an index into the zero positions of the mask is a monotone bijection; induction over bit positions |
| C03, C04, C05 | PairCompressor: all of `pair_compressor.py`, both sorts | invariant over the loop over routes and the merge loops: a merged entry of a route meets no entry of another route that follows (ordered) or any other (unordered) |
| C06, C07, C58 | RangeCompressor: `ranged_compressor.py`, loops with fuel | induction over the runs with the last point covered; termination for masks that are blocks. C07, C58 false in general |
| C08, C09 | OrderedCovering: `ordered_covering.py`, the clock is an arbitrary oracle | invariant: sorted by generality, alias sets partition the originals, an earlier entry that meets an aliased original stands, for the keys met, for an original that came first (so tables with nested entries in order of generality are covered); decreasing measures for every loop |
| C10 | OrderedCovering: `utils.py: remove_default_routes` | induction on the reversed table |
| C11, C12 | CompressionChecker: `routing_compression_checker.py` | the remainder of a key/mask after taking out another is exact; induction on the codes. C11 false for repeated key/masks |
| C13 | CompressorDriver: `abstract_compressor.py` | induction on the tables, then joined with C03, C06, C08, C10 |
| C14, C15, C16, C54 | RoutingTables, Json: `model/routing_tables/*`, `json_utils.py` | invariants of sequences of calls; round trips. C15 false, C54 false for `==` of placements |
| C17-C20 | Allocator: `zoned_routing_info_allocator.py`, both modes | zones as ranges of naturals, induction over partitions. C18, C20 false in cases with fixed keys; `Clear` says in which mode and for which sizes blocks keep clear of fixed keys |
| C21 | RoutingInfo: `routing_info.py` | refinement to a finite map. False after queries, which insert empty dictionaries |
| C22, C23, C24, C60 | Generators: `app_vertex_routing_info.py`, both table generators | loop invariant on index and run length; joined with C17-C19. False in the cases named in the manifest |
| C25 | TableByPartition: `multicast_routing_table_by_partition.py` | invariant of sequences of calls |
| C26-C29 | Tags: `tags.py`, `basic_tag_allocator.py` | invariants of sequences of calls. C28, C29 false |
| C30, C59 | Placements: `placements.py` | invariant of sequences of calls. C59 false after queries |
| C31-C35, C80-C82 | Placer: all of `application_placer.py` (the report in C132); SDRAM costs by what collections of them come to (`Costs`), which `costsOn` gives for the classes of model/resources, shared blocks included (`C32_costs`, `C32_costs_alone`, `C32_costs_left`: the three ways in which the placer adds). Costs that cannot be added up are left out | invariant of the fields of the placer (which chips are still on offer, what is prepared, what the current chip still has) over the three nested searches; number of chips on offer as measure; a chip with room stays on offer until tried, and once taken as the start all groups go there (`attempts_fits`). C32, C35, C81, C82 false in general |
| C36, C66 | FixedRoute: `fixed_route_router.py` | rank of a chip = round in which it was found; order of sets arbitrary |
| C37-C39, C56, C67-C69, C71-C73 | RouterPath, RouterTree: path search, repair, loop removal and joining of `application_router.py`, `routing_algorithm_utilities.py`, `routing_tree.py` on a heap of nodes | invariants of the breadth-first searches; forest invariant of the heap. Loop removal breaks C38 and what rests on it |
| C40, C70 | Targets: `_Targets` of `application_router.py`, with shared list objects on a heap | invariant of sequences of calls. C40 false |
| C57, C74-C77 | Router: `_convert_a_route`, `_route_application_partition` | delivery by following the forest and the table of targets. C74, C75, C77 false in the cases named in the manifest |
| C78, C79 | RouterGraph: `get_app_partitions`, `route_application_graph` | induction over the partitions, which do not touch the entries of each other |
| C41, C42 | Validation: `valid_routes_checker.py` | invariant of the trace: what has been visited is what the packets visit; number of chips not visited as measure. C41 false for default routes and odd masks, C42 false |
| C83 | Pipeline: the partitions for which keys are allocated (`ZonedRoutingInfoAllocator.allocate` up to the allocation), both generators over all routers, `routeGraph`, `allocate` | composition of C79, C17-C20, C23, C60 by the keys each entry owns; ways of packets under the tables and under the routing state are the same. The allocator may use either mode as long as blocks keep clear of fixed keys (`Allocated`, C18); this goes for all theorems on whole mappings. Several machine vertices of one application vertex may have fixed keys with holes in the masks or in line (`Alone`). False for internal senders without keys and for machine keys wider than that of the application vertex |
| C84 | as C83, with default routing of packets that no entry matches (`Spec/Trips`) | invariant of the routing: each chip has one way in for the packets of a source, none into their own chip (`RouterInto`, `RouterFlow`, `RouterOnce`); ways under the tables are ways under the routing state (`Proofs/Trips`). False with chips of the source where nothing sends |
| C85 | as C84 | the same invariant gives that a defaultable entry sends straight on; false for the merged generator |
| C86 | as C85, with the compressor driver and the three compressors | C85 with C13, C03, C08, C06; false for ordered covering after the merged generator |
| C87 | as C83 | the calls on the `_Targets` of each chip are followed (`RouterWanted.Ran`), C40_exact gives the lists, and the bits of entries come from these (`wanted_partition`); false where targets on a chip ask in different ways |
| C88, C89, C91 | Splitters: `partitioner_splitters/*`, `splitter_partitioner.py`, the parts of `application_vertex.py` and `machine_vertex.py` they call | invariant (`Sound`) of all sequences of calls, including those that raise; `linked_*`, `indexed_*` where none does. False in the cases named in the manifest |
| C90 | as C88 | the partitioner's loop over distinct vertices (`partitionLoop_at`), slices and their number by C43 and C44 for graphs that are `Anew`: splitters have been set and nothing else (`anew_set`), or the graph has been reset (`anew_reset`). C94, C97 to C101, C108, C110, C111, C118 and C124 ask this too |
| C92, C93 | as C88, with the devices of `application_fpga_vertex.py`, `application_spinnaker_link_vertex.py` | history of each machine vertex (`OfJob`, `Match`); division. C93 holds exactly where `ceil(n/k)*(k-1) < n` |
| C94 | as C88, with ChipCounter (C53) | the calls of `add_core` are followed; C53 gives the packing |
| C95 | VertexLocation: `abstract_vertex.py`, `machine_vertex.py`, `application_vertex.py`, `chip_and_core.py` | invariant of sequences of calls |
| C96 | as C88 | case analysis; slices by C43 |
| C97 | as C88 | from the state after the partition of a graph that is `Anew` (C90) |
| C98 | as C88 joined with C83: `netOf` gives the router, the key allocator and the table generators what the splitters give (`abstract_splitter_common.py`, `application_router.py: _get_outgoing_mapping` and others), `routeFor` the router with errors of splitters first. Places of machine vertices are any function (`Ground`) | all that C83 and C87 ask of a graph follows from the invariants of C88 and C89; then C83 and C87; atoms by C90 |
| C99 | `machineFor`, `appsOf`, `placeFor` give the placer what the splitters give; `located`, `lookUp`, `routePlaced` the router what the placer gives (`vertex_xy_and_route`). Splitters are asked for groups before placement starts, places are looked up before routing starts | each machine vertex is in the placements once by C31; the grounds C98 asks for follow (`ground_after`), then C98 |
| C100 | as C99 | groups hold one machine vertex with its SDRAM, so the groups cover what is needed; then C32 |
| C101 | as C99, with the counter of C94 | placed vertices are fewer than cores, so some chip has a free core (`core_left`), its load is at most the share of its cores in use; then C81, one vertex at a time; `C101_shared_partial`: vertices whose cores are left on linked chips however those before lie (`AllFind`) are placed by C128; `C101_remote_partial`: the same with devices, which the placer passes by (`place_virtual`); `allFind_few` (some chip has `a` cores left), `finds_connected` and `finds_tough` (the machine stays connected without the chips that may be full) say where this is so; `C101_beside_partial`: with monitors and fixed locations, by C131 |
| C102 | as C31 | induction over groups, attempts and vertices; fixed ones by the lemmas of C33 |
| C103 | DataView: `pacman_data_view.py`, `pacman_data_writer.py` | each field by one lemma on sequences of calls (`field_last`): what each call sets, forgets, or keeps |
| C104 | as C103 | as C103 with the first call instead of the last (`field_first`) |
| C105 | as C103, with the costs of C49 | the sums over sublists of monitors (`addAll_sub`), merged blocks shared by name counted once |
| C106 | as C103, graph of C47 | invariant from the last `endRun`: each call keeps the graph or sets the flag |
| C107 | as C103 | invariant: machine vertices of vertices in the graph were remembered since the last reset |
| C108 | as C94 and C104 | the counter opens a chip with its first vertex and never closes one |
| C109 | as C39 and C68. Machines: `Intact`, all chips of a torus, or of a board with edges in the directions of the links; vectors are asked to be shortest (`ShortVector`), which is what `get_vector` of spinn_machine is for | no shortest vector has two components of one sign, so it goes one way in x, in y and in x - y, so it stays on the board; a chip passed twice could be cut out |
| C110 | as C74, C79 and C99. `Routable`: the source and each target are `Together`, on chips that can be reached from each other without leaving them; targets within the source are of it; there is a target. `Settled`: no device and not fixed, or on one chip | every call succeeds by an invariant on what it looks up: routes from a chip of the source do not enter it again, each chip is asked for whole sources or for machine vertices and not both, entries go to tables that have none of the other kind; breadth-first search finds all that is together; chips of a placed vertex are together by C80 and since links work both ways |
| C111 | as C99, C101 and C110. `KeysFit`: vertices with fixed keys send from one machine vertex, or from several with fixed keys that have holes in their masks or lie in line (`Alone`), and share no key; there are blocks of keys, large enough for each vertex without, for all pairs besides those with fixed keys; `Passable`: no faults and shortest vectors, or chips that all reach each other over links that work both ways with ways that do not return; `KeysClear`: the flexible mode, or no fixed keys, or one vertex without fixed keys needs most of everything | C101 gives placements, C110 routes, C126 keys (no internal partitions, so the pairs are those of the graph and the extra ones), C83 tables; delivery by C99, keys of different vertices apart by C83; `C111_graph_partial`: C112 gives the partition, C90 the numbers of machine vertices; keys may be fixed for vertices that send from one machine vertex (`Modest`); `C111_devices_partial`: also for graphs with devices, whose machine vertices are counted by `sendersFor` (`senders_eq`) and sit on their links, and with vertices of `SplitterOneAppOneMachine`; `C111_beside_partial`: beside monitors, which no packet reaches, and with vertices whose machine vertices are fixed to one chip (`fixed_sits`, by C82) |
| C112 | as C88; `CanSplit` says what is needed of a vertex and its splitter | `create` returns iff what it needs is there (slices: C44 in both directions); others are not touched by it, so by induction over the vertices. That `SplitterOneAppOneMachine` governs only vertices with one machine vertex is an invariant of all calls |
| C113 | `Model/Text.lean`: `str` of integers, `int` of a string (spaces, sign, underscores, `0x`), `split`, `join`, on ASCII characters, without the limit of 4300 digits; `Model/SliceText.lean`: fields, `__str__` and `from_string` of both classes | reading gives back what writing wrote: digits by induction, then the characters that separate are in no number, so `split` finds the parts. For slices of vertices with C43 and C44 |
| C114 | as C113, with `==` asking the subclass first | by cases on the classes |
| C115 | `Model/Csv.lean`: the loop over the rows that `csv.reader` gives, `int(_, 16)` of `Model/Text.lean`, adding as C14. Opening files and the text of the warning are left out; the constructor of entries is by contract (refuses keys outside of their mask with no ValueError) | cells with numbers are read as the numbers, cells with other characters are not; then by induction over the rows with the invariant of C14 |
| C116 | `Model/Csv.lean`: `format_route` with `08X` and `<7` (a bool is formatted as an integer) | the digits by strong induction give the number back; no blank is in a word, so `split` finds them; C55 for the route |
| C117 | `Model/Sdram.lean`: `fixed` and `per_timestep` beside the totals of C49 | every cost is a list of parts that are rounded up each; induction over the nesting, then over the list |
| C118 | all of the above: `generate`, the compressor driver, the hardware as in C84 | C86 with C87 and C99; all masks are ones followed by zeros by induction over the allocator and the generators (`Proofs/Blocks.lean`), so the range compressor may be used where those of fixed keys are; for the other compressors nothing is asked of masks; `C118_graph_partial` and `C118_devices_partial` start from the graph as C111 does |
| C119 | the generators, the compressor driver and the compressors | no loop of the generators yields more entries than it takes sources (`Proofs/TableSize.lean`); each source stands for a machine vertex of its own as C79 keeps them unmixed; then C05, C06, C09, C13; `C119_graph_partial` and `C119_devices_partial` count the machine vertices that send from the graph |
| C120 | RoutingTree: `routing_tree.py` (all but labels, `remove_child` and `__repr__`) | nodes are named by the way to them; `traverse` gives the ways in level order, by an invariant of the queue; its rounds are at most `len`. Trees are values, so a tree below itself is left out |
| C121, C122 | AtomKeys: `utility_calls.py` `get_keys`, `compress_bits_from_bit_array`, `is_single`; `vertex_routing_info.py` `get_keys` | by C01 the keys of an info are the matching keys, by C19 those of a machine vertex are an interval; C17 keeps them apart |
| C123 | Hashing: `__eq__` and `__hash__` of nine classes, sets of Python as lists searched by hash and equality | for any hash of tuples, by induction over the objects put in. Objects are not changed while in a set; the order of probing is left out (no comparison raises where it matters) |
| C124 | Validation (C41) on the output of the routing, the allocator and the generators (C79-C87) | the vertices, placements and infos that the check reads are those of the mapped graph (`Pipe.checked`); C41 accepts tables whose ways carry one entry for all keys of a vertex, which C84, C87 and the orthogonality of the entries give; for whole mappings by C99, C111, with devices that send by `devSlice_few` (their atoms). False in the cases named in the manifest |
| C125 | Allocator | each info of a partition is one of those its turn of the loop adds (`Shape.position`, `infosOf`), at the position of the vertex in the order of the slices; with all keys fixed each info is that of one fixed key (`allocFixed_from`). False in the cases named in the manifest |
| C126 | Allocator, as C17-C20 | what `findOne` raises on (`findOne_of_agreed`), the least widths that the zones are (`zones_least`), the number of blocks hit does not grow with the width (`hits_le`), so the check of the zones passes iff some width will do (`checkZones_iff`); then C19 |
| C127 | `round_n_atoms`: integers, floats by their exact value, NaN and infinities; `round` to the nearest, halves to even; the difference of a float and the nearest integer is exact in floating point | the integer less than one half away is the one rounded to (`roundEven_eq`); the bound is the exact value of the float 0.001. Not modelled: numbers of numpy |
| C128 | as C31-C34 and C80 | a loop over the neighbours goes on until all chips that can be reached are full (`nextNeighbour_wide`); each start chip that was tried and left is kept (`Spread`, `NotLost`), and the one from which there is a way to the free cores is among them; what was placed gives the chips in the other direction (C80) |
| C129 | `_IteratorWithNext` over an iterator given by its `next`, which returns an item, stops or raises; the merged generator once more as it uses the iterator (`createMergedIt`) | the object stands before the items left (`Holds`); each loop over the iterator follows the one over the list (`Follows`), so all that is proved of `createMerged` is true of the code with its iterator |
| C130 | the splitter for devices, `Device2D` (slices and keys of sub-rectangles) and the chain of C111; `withPixels` is what a subclass is to return for `get_fixed_key_and_mask` and `get_machine_fixed_key_and_mask` (nothing in the repository calls `_get_key_and_mask`) | the machine vertices of a 2D device are its sub-rectangles in order (`grid_after`), their keys have holes in the masks or are in line (`pixels_fit`), so C111, C118 and C119 go through for them (`C111_pixels_partial`, ...); C48 and C64 say which pixel is where. False in the cases named in the manifest |
| C131 | as C81 and C128, with the placements of monitors in the store from the start. `Leaves`: what is there leaves at most `k` cores on each chip, and filling them with vertices of `b` bytes stays below the cap and within the SDRAM; `taken`: cores of the `k` not free | the vertices with fixed locations are placed first (`fixedAll_filter`) and passed by later (`placeVertex_idle`), the others are placed by C128 one at a time, `Leaves` and `taken` kept (`Leaves.append`, `taken_append`, `settle_all`). False where monitors need more than the cap: no start chip is found (`startLoop_heavy`) |
| C132 | PlacerReport: the report of `_place_error` by what its lines say, the colours of chips in `draw_placements.py`; the text, the file and the rest of the drawing are not modelled | when a vertex is not placed each vertex is placed wholly or not at all (`reportAll_spec`, `AllOrNone`), so the loop over the groups finds the vertices that lack something and counts nothing (`reportGroups_spec`); the lines for chips by the invariant of the placements. False as the same object is compared with itself |
| C133 | the compressor driver twice; the datastore in between (`set_precompressed`, `get_precompressed`) as the argument passed on | the range compressor makes no two entries that share keys unless one is for a single even key, and says defaultable of an entry only if it was in the table (`C13_range_apart`, from an invariant over the runs); then C03 applies to what it makes; C08 always does (C134). The generators make an entry for a single key only for a source that has no more (`Served.single`), so none if all ask for two. False in general |
| C134 | RangeCompressor and OrderedCovering | invariant of the runs: where a new block meets an earlier one it is wider; sorting by generality then changes no first match, and the invariant of C08 applies |
| C135 | OrderedCovering, called with aliases | the invariant of C08 is about any table and aliases, so it goes on from the last call; a returned table is itself in order of generality |
| C136 | OrderedCovering, a round of `_refine_downcheck` | what the fold over the hidden key/masks collects is stated as `Way`; the first way tried is always carried out, so the merge left has the other value at its bit. False with several ways |
| C137 | OrderedCovering, `_get_best_merge` | the candidates are the sets of all entries with a route (`mem_allMerges`); refining with a bound gives the same merge as without or one that is not better (`refine_thr`), by induction over each loop |
| C138 | OrderedCovering, the main loop | induction over the rounds; `Spent` says by C137 that no merge is left |
| C139 | PairCompressor, all of it | a refused merge stays refused when one side grows (`blocked_gen`), invariant between routes (`FullInv`); the unordered compressor does nothing on a table where every merge is refused |
| C140 | PairCompressor, all of it | the histogram counts, both sorts put the routes in order (for the quicksort: the three parts of the partition), then C139 for the last route |
| C141 | RangeCompressor, all of it | the starting power is that of the block exactly under the condition (`startPower_block`, `startPower_short`), then nothing shrinks (`mergeRange_block`); each run adds its own entries behind those before (`ranges_run`). False in general |
| C142 | Generators: `merge_machine_entries` and both generators | each round takes an entry at least; the power of two that divides the number grows in every round, then the binary digits of the rest (`mergeLoop_few`); for the basic generator each source adds a new key, as sources with one key are refused |
| C143 | the compressors and their driver | counting through the outer loop of the pair compressor (`Proofs/PairCounts.lean`), then C140, C05, C13; the least number of entries comes from a key for each route |
| C144 | `basic_tag_allocator` and `Tags` as for C26 to C29 | the tags recorded are distinct pairs of a board and one of seven numbers, so they can be counted; at the request that fails all pairs wanted are in use (C27_fails_only); with reverse IP tags, that all tags are on the boards of their vertices is an invariant as long as each board has enough |
| C145 | `ChipCounter` and `splitter_partitioner` as for C53 and C94 | chips left for want of cores are full, and a chip left for want of SDRAM and the one after it together need more than a chip has: the two kinds are counted by an invariant (`Load`); the bound is met by big and small cores in turn, for which the counter is followed step by step |
| C146 | `ChipCounter` as for C53 | the two counters are followed side by side: the one for less has fewer chips, or as many and as much room on the open one |
| C147 | `allocate` as for C17 | from C126: the number of bits of `n` is that of less than `2n`, and three of them are less than `33` together |
| C148 | `allocate` as for C17 | from C126, whose condition holds of less; the exception for fixed keys by a witness |
| C149 | `remove_default_routes` as for C10 | a table is returned as it is exactly if nothing is to be removed (`keep_full`), so calls go on making it shorter; entries that are not defaultable stay, so one call is enough if only they are met |
| C150 | the compressors as for C03 and C08 | what the unordered compressor makes again keeps routes apart (C04) and has no key and mask twice, by C139, so C03 applies, and C08 to the sorted table. False of the others, by witnesses |
| C151 | the tag allocator as for C28 | both runs side by side: what is free with all requests is free with some of them, and a tag or port taken with some of them is the one taken with all, or was taken before. A port of the pool that is used in the smaller run and still in its pool is still in the pool of the larger one |
| C152 | the tag allocator as for C28 | as C151, with the boards of the smaller machine compared; a board that is added takes what would spill to a later one (`Boards`, `chosen_same`) |
| C153 | as C128 and C131 | the condition of C131 (`AllFind`) holds of parts; for single machine vertices it is a count, which a placed graph meets as its cores are distinct (C31). False in general by a machine of seven chips |
| C154 | as C153; a machine is bigger if it has the chips and links of the other and the same cores, SDRAM and costs on each chip | ways over free chips are ways on the bigger machine, so the condition of C131 carries over; for single machine vertices the count does. False in general by the machine of C153 with and without its corner |
| C155 | slices as for C43 and C44, the partitioner as for C90; a way of sharing out is a list of blocks with every atom once | blocks of at most `m` hold all atoms, so their number is at least that of the slices, of which all but one are full |
| C156 | `build` as for C36, `findPath` as for C37 | ways over the links of one machine are ways on the other, and routes are shortest (C66, C67) |
| C157 | `orderedCovering`, `compressTable` as for C08 and C10 | what is done up to a target is the beginning of what is done up to a lower one (induction over the rounds); above its target ordered covering stops only when no merge is left (C138) |
| C158 | `total` as for C49 and C117 | the total is the sum of the parts rounded up each (C117); rounding up is monotone and subadditive |
| C159 | `compareTables` as for C11 and C12 | keys of entries that are not defaultable have an entry that is not defaultable (induction on the codes), then C11 twice and C12. False of defaultable entries left out in the first step |
| C160 | `compareTables` as for C11, the compressors as for C03, C06, C08, C10 | a condition on first matches only, weaker than that of C12, is enough for the checker; it follows from the invariants of ordered covering and the range compressor. For the unordered compressor an entry with all keys of the original stops the search. Equality of entries (spinn_machine) is a parameter; for the unordered compressor only: equal entries have the same key and mask |
| C43-C46 | Slices: `slice.py`, `mdslice.py`, `partition_algorithm_utilities.py`, `application_vertex.py` | mixed radix arithmetic, induction over the dimensions |
| C47, C62, C63 | AppGraph: `application_graph.py` | invariant of sequences of calls. C47, C63 false in general |
| C48, C64, C65 | Device2D: `abstract_2d_device_vertex.py`, `application_2d_*`, `application_fpga_vertex.py` | bit fields of keys; division of ranges. C48, C64, C65 false in general |
| C49, C50 | Sdram, MultiRegion: `model/resources/*` | structural induction; heap of region objects, with shared blocks as sets of keys. False in the cases named in the manifest |
| C51, C52, C61 | Partitions: the SDRAM and single-source edge partitions | invariants of sequences of calls. C52 false for single-source partitions |
| C53 | ChipCounter: `chip_counter.py` | invariant of sequences of calls |
| C55 | RouteWord: `routes_format.py`, route words | bits of sums of distinct powers |

Loops that Python runs without bound take a number of rounds and give `PyErr.outOfFuel` when it is used up. That this
never happens is a theorem for each (C09, C34, C36, C41, C76, C79, ...), or it is proved that it does (C58).

## How to read seeded/LOG.jsonl

Each line is one edit of a definition of the model in a scratch copy. `failed` names what no longer
compiled, in the order of the build; what depends on a failed file is not built, so the property
theorems behind it are listed as `blocked_property_theorems`. A helper lemma that fails shows that
its proof no longer fits the edited definition; this alone does not show that the property has become
false. In the lines marked "operator mutant" the edits were made by a script and `claim_broken` was filled in from
the theorems that failed. Edits under which everything still proved say why in `survived_because`, or
what was added in `tightened`.

## Not modelled

Splitters outside this repository (the placer, the router and the allocator get what splitters return as arbitrary
input; the built-in ones are modelled for C88-C101); in the algorithms what is read from the view is a parameter, the view itself is modelled for
C103-C108 without its superclasses (of `SpiNNMachine` and `SpiNNUtilities`: taken to set `requires_mapping` on set-up, hard
reset and `set_requires_mapping`, and to clear it at the end of a run; a call they refuse does nothing), and without
`add_monitor_core`;
reports (but what that of the placer says, C132), drawing (but its colours of chips), configuration, the classes of exceptions beyond their kind, labels in messages.

## Where the code differs from what is claimed

Each has a theorem with a witness; places are in `/repo/pacman`.

* `ranged_compressor.py`: `low_cut < pre_point` lets blocks overlap if an entry is for a single even key (C07), so packets of a graph are lost when the pair compressor comes next (C133_false); masks with holes make it loop forever (C58); an empty table raises IndexError (C06).
* `ranged_compressor.py`: `_merge_range` compares the last key, which belongs to the run, by `<` with the end of the block, which does not, and puts the power up once only; runs that would fit one entry become two or more, such as any two neighbouring keys (C141).
* `merged_routing_table_generator.py`: takes the sources in the order of the dictionary, so that machine vertices the router came to in another order are not merged (C142_order_matters).
* `pair_compressor.py`: more distinct routes than router entries raise IndexError (C05), also where tables that are too long are accepted (C143).
* `ordered_covering.py`: an empty table without target length raises IndexError (C09).
* `routing_compression_checker.py`: wrong answers in both directions if a key/mask is repeated (C11, C12).
* `abstract_multicast_routing_table` equality: `x != x' and y != y'` makes tables of chips in one row or column equal (C15).
* `base_key_and_mask.py`: `get_keys` ignores its limit for a full mask (C01).
* `zoned_routing_info_allocator.py`: global mode checks fixed keys against the old block size, so keys clash (C18); partitions that ask for no keys clash (C17); a fixed key of a partition without outgoing vertices goes to the vertex of the round before, or raises UnboundLocalError (C20).
* `routing_info.py`, `placements.py`: queries insert empty dictionaries that change later results (C21, C59).
* `merged_routing_table_generator.py`: fixed machine keys are merged as if consecutive (C22, C23); the defaultable flag is not compared (C24); keys of merged sources are not noted (C60).
* `basic_tag_allocator.py`: a reverse tag found on another board is recorded on the home board, which always fails (C28); a requested port stays in the pool (C29).
* `application_placer.py`: SDRAM is not looked at for fixed locations (C32); `p not in next_cores` uses up the iterator, so requests fail depending on their order (C35); chips with SDRAM above a cap are given up even if there is room (C81); only the first fixed chip of a group is used (C82); the report raises IndexError for an empty group (C34).
* `application_router.py`: loop removal keeps places of removed chips (C38, C68, and by it C72-C75, C77); chips of the source that only hold vertices that do not send are lost (C74, C79); replacing an application vertex shares list objects (C40).
* `routing_algorithm_utilities.py`: `get_app_partitions` raises for a vertex without splitter that it means to skip (C78).
* `valid_routes_checker.py`: stops at a chip without a table though packets go straight on; does not check odd masks at the source (C41); refuses the block that starts right after the keys (C42).
* `zoned_routing_info_allocator.py` with the generators: a vertex that sends only within its application vertex gets entries but no key unless the splitter lists it as outgoing, both generators then raise `KeyError`; a fixed machine key is only compared by key, not by mask, with that of its application vertex (C83).
* `application_router.py`: the chips of a source count as reached from one another also where nothing sends; a way to a target may then lead back to one of them, and packets go round for ever without any error (C84).
* `merged_routing_table_generator.py`: a merged entry keeps the defaultable flag of its first part; a compressor that leaves out defaultable entries then loses the packets of another vertex that start on this chip (C85, C86).
* `application_router.py`: if on a chip one target asks for a whole source and a later one for one machine vertex of it, the lists are shared (C40) and the later target gets the packets of all machine vertices of the source (C87_stray).
* `application_graph.py`: a generated label may replace a vertex that was given it (C47); edges are checked by label only (C63).
* `abstract_2d_device_vertex.py`: a spanned dimension leaves pixels without key (C48); slices on the edge claim too many atoms (C64). `application_fpga_vertex.py`: the remainder of the atoms is lost (C65).
* `variable_sdram.py`: rounding up makes totals not add; `==` is one-way (C49). `multi_region_sdram.py`: merged objects are shared, and a shared block in two regions is once in the total and twice in the regions (C50). `shared_sdram.py`: a key used in the shared part and again in the cost per core counts twice (C49).
* `abstract_edge_partition.py`: an edge that is refused has been added (C52).
* `placement.py`, `json_utils.py`: a placement read back is never equal (C54).
* `application_vertex.py`, `abstract_splitter_common.py`: a call that raises leaves the vertex with a splitter that refused it, or a splitter governing a vertex with another splitter (C88); a vertex that is no device then keeps a `SplitterExternalDevice` and is partitioned without machine vertices (C92).
* `splitter_one_to_one_legacy.py`: after a reset the machine vertex is counted and routed but no longer placed (C89, C94); setting the vertex directly makes two machine vertices (C90).
* `splitter_fixed_legacy.py`, `splitter_partitioner.py`: a second run without a reset doubles the atoms, slices found before a new maximum are used after it (C90); devices get wrong indices (C91); too few chips are counted (C94).
* `application_spinnaker_link_vertex.py`: five atoms on four machine vertices raise, as the last slice would be empty (C93).
* `splitter_external_device.py`: virtual machine vertices are counted as if they needed cores (C94).
* `machine_vertex.py`: a machine vertex at the fixed location of its application vertex can be given another location (C95).
* `application_vertex.py`: `set_max_atoms_per_dimension_per_core(None)` always raises TypeError; 0 is accepted and raises ZeroDivisionError later; refused values are kept (C96).
* `application_router.py` with `splitter_external_device.py`: a device whose packets leave the machine from another chip than they come in is routed as if that chip sent too; targets beyond it lose packets, or a KeyError is raised (C98).
* `application_placer.py` with `chip_counter.py`: vertices with fixed locations may need more SDRAM than the chip has (C100); a graph may not be placed on as many chips as the partitioner counted, as chips with little SDRAM left are taken to be full, and as the order of vertices may leave free chips apart (C101).
* `application_placer.py`: cores are counted for the vertices of a group that are not virtual, but taken for all (C102).
* `pacman_data_view.py`: `_clear` makes a new graph before it resets the vertices of the graph, so that those of the old graph keep their machine vertices (C107); `get_ethernet_monitor_sdram` is used nowhere, so that Ethernet chips are taken to have more SDRAM left than they have (C105).
* `pacman_data_writer.py`: the 0 chips that the partitioner returns for an empty graph are refused (C108).
* `application_router.py`: an edge to a vertex without target vertices raises UnboundLocalError in `_find_target_xy`, a partition without edges or targets raises KeyError; a vertex whose chips are not next to each other cannot be routed, such as a device that sends from two chips far apart (C110).
* `mdslice.py`: the string of an MDSlice with one dimension cannot be read, as `(5,)` is split at the comma; a number of atoms that is not the product of the sizes is accepted and lost in the string (C113). `end` is the last index, in `slice.py` the one after (C114).
* `uncompressed_multicast_routing_table.py`: `_from_csv_file` logs and passes over rows that raise ValueError, but a key outside of its mask and a contradicting row raise other exceptions, and the file is not read (C115).
* `shared_sdram.py`: shared blocks are rounded up one by one, so that the total may be more than `fixed + per_timestep * n` rounded up (C117).
* `basic_tag_allocator.py`: an automatic tag may be the one that a later request asks for, so the order of the vertices decides whether the allocation succeeds (C144).
* `chip_counter.py`: the class says that it hopes to give a worst case; the same cores in another order may need more chips (C145).
* `zoned_routing_info_allocator.py`: all partitions get blocks of one size, the largest needed. A device with half of all keys and two partitions with an eighth each get keys if that of the device is fixed, and do not if it is not (C148_unfixed_false). In general up to three quarters of all keys may be lost to rounding (C147_tight).
* `ordered_covering_router_compressor/utils.py`: `remove_default_routes` compares an entry with those behind it in the table given, not with those that are kept, so of two defaultable entries that share keys the first stays (C149_false). Ordered covering makes such entries: a table of eight entries that may all be left to default routing is compressed to two, and refused by a router with one (C149_refused).
* `pair_compressor.py`: a table that was compressed must not be compressed by it again. The most frequent route becomes one entry, behind all others; next time it is the least frequent, is put first, and takes the keys of others (C150_pair_twice; after ordered covering C150_covering_pair).
* `application_placer.py`: a graph that is placed may no longer be if an application vertex is left out, as the next one then starts on its chip and cuts the free chips in two (C153).
* `application_placer.py`: a graph that is placed on a machine may not be on one with a chip more (C154).
* `ordered_covering.py`: compressed as far as possible a table may be longer than with a target that it meets already, as merged entries are no longer left to default routing (C157_default_false).
* `routing_compression_checker.py`: not transitive. A defaultable entry may be left out in one step, and its keys given to another route in the next; both steps are accepted (C159_false).
* `vertex_routing_info.py`: `get_keys(0)` of an info with one key raises IndexError (C121).
* `utility_calls.py`: `compress_bits_from_bit_array` without positions assigns to `[-0:]`, all 32 bits, and raises ValueError; `is_single` takes an item that is None for the end (C122).
* `uncompressed_multicast_routing_table.py`, `compressed_multicast_routing_table.py`: `__hash__` is the identity while `__eq__` compares entries, and `__eq__` is not transitive; `constant_sdram.py` and the other SDRAM classes define `__eq__` without `__hash__`; `iptag_resource.py`: `__eq__` does not look at the class of the other (C123).
* `valid_routes_checker.py:419`: the last atom of the "partially covered" check is one too high (`key + n_atoms`), so that good tables are refused with PacmanConfigurationException when a vertex with `2^n` atoms and keys meets the entry of the next block (C124).
* `valid_routes_checker.py:91`: the placement of each target is asked for, though devices are not placed: a graph with an edge to a device cannot be checked, PacmanNotPlacedError (C124).
* `zoned_routing_info_allocator.py`: if all partitions have fixed keys, the index of a machine vertex is its index among all machine vertices; otherwise its position by lo_atom among those that send. So adding a partition without a fixed key renumbers the vertices of the others. `machine_mask` and `n_bits_atoms` of an application vertex with fixed keys come from the number of keys asked for, not from the masks that are fixed (C125).
* `zoned_routing_info_allocator.py`: `__check_zones` counts a block for each partition with fixed keys besides the blocks in which its keys are, so allocation raises although the keys would fit (C126_wasted).
* `application_vertex.py:185`: `round_n_atoms` raises ValueError for NaN and OverflowError for infinities, not the PacmanInvalidParameterException of other numbers that are not whole (C127).
* `application_2d_fpga_vertex.py:62-66`: `__init__` divides by `sub_width` and `sub_height` before `_verify_sub_size` looks at them, so that 0 raises ZeroDivisionError and not PacmanConfigurationException.
* `merged_routing_table_generator.py`: `_IteratorWithNext` is generic, but an item `None` is never passed (`pop` asserts that there is none, `has_next` stays true); if the iterable raises, the item before is given twice (C129). The only use of it has no such items.
* `abstract_2d_device_vertex.py`: with sub-rectangles one pixel high the masks have no holes, so the merged generator merges the entries as if the keys of sub-rectangles were one after another; for a device of 5 x 3 pixels in sub-rectangles of one the row at the bottom has no route (C130_false).
* `application_2d_fpga_vertex.py`: a device with several incoming links has a machine vertex for each link and sub-rectangle. The key of a sub-rectangle does not depend on the link, so two machine vertices have the same keys (C130_two_links), and the table generators raise KeyError for a chip that packets of both come through (C130_two_links_raise).
* `application_placer.py`: the SDRAM of monitors is taken off the limit for chips (`__max_sdram`, and the cap) and is counted again among what is used on a chip (`_space_on_chip`), so with monitors that need more than the cap nothing is placed although there is room (C131_counted_twice, C131_false).
* `application_placer.py`: `place_application_graph` passes `system_placements` to the placer, which adds to it, and again to `do_placements`; so the report and the drawing compare the placements with themselves: nothing is listed as placed and all chips as unused (C132_same_object, C132_drawing). `Could not place x of y in the last app vertex` always says 0 of 0 (C132_counts_nothing). A vertex whose first group is virtual is not listed as not placed (C132_hidden).
* `ordered_covering.py:741`: the merge is replaced inside the loop over the bits that might be set, not after the smallest set of entries to remove is known, so more entries are given up than the comment above it says: a table of seven entries stays at six where one merge of five entries, which hides nothing, would leave three (C136_false, C136_longer).
