{"id": "C01", "title": "Key enumeration of a key/mask is exact", "statement": "BaseKeyAndMask.get_keys() returns exactly the 32-bit keys k with k & mask == key, each exactly once, in increasing order, and n_keys is the number of them; with a limit l and a given array a (mask not full) it writes the first min(l, n_keys, len(a)) of them into a from the given offset on and changes nothing else, or raises if they would run past the end.", "quantifier": "every 32-bit key/mask pair with key & mask == key, every offset and every requested count", "why_tests_cant": "there are about 3^32 valid key/mask pairs and up to 2^32 keys per pair", "anchors": ["pacman/model/routing_info/base_key_and_mask.py: BaseKeyAndMask.__init__, n_keys, get_keys"]}
{"id": "C02", "title": "Key ranges of a key/mask partition its keys", "statement": "get_key_ranges(key, mask) yields (base, n) pairs whose intervals [base, base+n) are pairwise disjoint and whose union is exactly the set of keys matched by key/mask.", "quantifier": "every 32-bit key/mask pair with key & mask == key", "why_tests_cant": "about 3^32 pairs, including masks with arbitrarily many holes", "anchors": ["pacman/utilities/utility_calls.py: get_key_ranges, expand_to_bit_array, compress_from_bit_array"]}
{"id": "C03", "title": "Pair compression preserves routing", "statement": "For a table whose entries with different routes do not intersect, the table returned by the pair compressor gives, by first match, the same route as the original for every key the original matches.", "quantifier": "every finite table of 32-bit entries (any order, any masks, any routes) in which entries with different routes do not intersect, and every 32-bit key", "why_tests_cant": "the space of tables is infinite and the merge decisions depend on the whole table", "anchors": ["pacman/operations/router_compressors/pair_compressor.py: _PairCompressor.compress_table, _find_merge, _compress_by_route, merge, intersect"]}
{"id": "C04", "title": "Unordered pair compression is order independent", "statement": "The table produced by the unordered pair compressor from a table without cross-route intersections again has no two intersecting entries with different routes, so it routes the same in whatever order a later step loads or rearranges it.", "quantifier": "every finite table without cross-route intersections", "why_tests_cant": "needs every table and every permutation of the result", "anchors": ["pacman/operations/router_compressors/pair_compressor.py: _PairCompressor.__init__ (ordered=False), _find_merge"]}
{"id": "C05", "title": "Pair compression never grows a table and needs no more memory", "statement": "The pair compressor never returns more entries than it was given and terminates on every table.", "quantifier": "every finite table", "why_tests_cant": "all sizes and all merge patterns", "anchors": ["pacman/operations/router_compressors/pair_compressor.py: _PairCompressor.compress_table, _compress_by_route"]}
{"id": "C06", "title": "Range compression preserves routing", "statement": "For a table of entries with contiguous masks, the table returned by the range compressor gives, by first match, the same route as the original for every key the original matches; if the ranges overlap the table is returned unchanged.", "quantifier": "every finite table of contiguous-mask 32-bit entries and every 32-bit key", "why_tests_cant": "the choice of merged block depends on all previous blocks; the key space and table space are unbounded", "anchors": ["pacman/operations/router_compressors/ranged_compressor.py: range_compressor, RangeCompressor.compress_table, _merge_range, _validate"]}
{"id": "C07", "title": "Range compression output can be fed to the pair compressor", "statement": "The output of the range compressor has no two intersecting entries with different routes, so range compression followed by pair compression routes every original key correctly.", "quantifier": "every finite table of disjoint contiguous ranges", "why_tests_cant": "depends on the alignment of every neighbouring pair of ranges", "anchors": ["pacman/operations/router_compressors/ranged_compressor.py: RangeCompressor._merge_range", "pacman/operations/router_compressors/pair_compressor.py"]}
{"id": "C08", "title": "Ordered covering preserves routing", "statement": "For a table in which entries that intersect are in order of generality and no key/mask is repeated (so for every table of pairwise non-intersecting entries), ordered covering (with any target length, or none) returns a table which by first match gives the same route as the original for every key the original matches.", "quantifier": "every finite table of 32-bit entries like that, every target length and every key", "why_tests_cant": "the algorithm refines merges with up- and down-checks over the whole table at every step; only an invariant over all steps settles it", "anchors": ["pacman/operations/router_compressors/ordered_covering_router_compressor/ordered_covering.py: ordered_covering, _get_best_merge, _get_all_merges, _refine_merge, _refine_upcheck, _refine_downcheck, _Merge.apply"]}
{"id": "C09", "title": "Ordered covering terminates and never grows a table", "statement": "ordered_covering terminates on every table and returns at most as many entries as it was given; whenever no_raise is false and a target length is given, it either returns a table within the target or raises MinimisationFailedError.", "quantifier": "every finite table and every target length", "why_tests_cant": "termination on all inputs cannot be tested", "anchors": ["pacman/operations/router_compressors/ordered_covering_router_compressor/ordered_covering.py: ordered_covering, _refine_downcheck"]}
{"id": "C10", "title": "Removing default routes is safe", "statement": "Dropping entries with remove_default_routes never changes what happens to a packet: a key whose first match was kept has the same first match, and a key whose first match was dropped is matched by nothing, so it is default routed, and its entry was declared defaultable.", "quantifier": "every finite table and every key, for both the checked and the unchecked mode (the unchecked mode for orthogonal tables)", "why_tests_cant": "every table order and overlap pattern", "anchors": ["pacman/operations/router_compressors/ordered_covering_router_compressor/utils.py: remove_default_routes"]}
{"id": "C11", "title": "The compression checker accepts only equivalent tables", "statement": "If compare_tables(original, compressed) does not raise, then for every key matched by the original (whose entries do not overlap) the compressed table's first match has the same processors and links, or there is no match and the original entry was defaultable.", "quantifier": "every pair of finite tables and every key", "why_tests_cant": "soundness of a checker quantifies over all bad tables it must reject", "anchors": ["pacman/operations/router_compressors/routing_compression_checker.py: compare_tables, compare_route, calc_remainders, covers, codify_table"]}
{"id": "C12", "title": "The compression checker accepts correct tables", "statement": "If the compressed table routes every key of every original entry correctly, in the strong sense that no key is left unmatched unless the original was defaultable, and no entry marked defaultable matches a key of a non-defaultable original, then compare_tables does not raise.", "quantifier": "every pair of finite tables with distinct key/masks", "why_tests_cant": "completeness quantifies over all correct compressions", "anchors": ["pacman/operations/router_compressors/routing_compression_checker.py: compare_tables, compare_route"]}
{"id": "C13", "title": "Compressor driver keeps, replaces or rejects each table", "statement": "A compressor run over all chips either fails, or yields for every chip with a table exactly one table for that chip, which is the untouched original when it already fitted and was not forced, and otherwise the compressed one; an oversized result is reported and raised exactly when overflow is not accepted.", "quantifier": "every collection of chip tables and every compressor setting", "why_tests_cant": "all combinations of sizes, targets and flags", "anchors": ["pacman/operations/router_compressors/abstract_compressor.py: AbstractCompressor._run, compress_tables"]}
{"id": "C14", "title": "An uncompressed table never holds two different entries for one key/mask", "statement": "After any sequence of add_multicast_routing_entry calls on an uncompressed table (with failed calls caught), the table holds at most one entry per (key, mask), every accepted entry can be read back, a repeated identical entry changes nothing, and a conflicting entry is rejected leaving the table unchanged; number_of_defaultable_entries equals the count of defaultable entries.", "quantifier": "every finite sequence of additions", "why_tests_cant": "all histories including caught exceptions", "anchors": ["pacman/model/routing_tables/uncompressed_multicast_routing_table.py: UnCompressedMulticastRoutingTable.add_multicast_routing_entry"]}
{"id": "C15", "title": "Routing table equality distinguishes chips", "statement": "Two routing tables for different chips are never equal.", "quantifier": "every pair of chips and entries", "why_tests_cant": "all pairs of coordinates", "anchors": ["pacman/model/routing_tables/uncompressed_multicast_routing_table.py: __eq__", "pacman/model/routing_tables/compressed_multicast_routing_table.py: __eq__"]}
{"id": "C16", "title": "A table collection holds one table per chip", "statement": "After any sequence of add_routing_table calls on MulticastRoutingTables there is at most one table per chip, lookup by chip returns the table that was accepted for it, and max and total entry counts equal those of the stored tables.", "quantifier": "every finite sequence of additions", "why_tests_cant": "all histories", "anchors": ["pacman/model/routing_tables/multicast_routing_tables.py: MulticastRoutingTables"]}
{"id": "C17", "title": "Allocated keys never clash (flexible mode)", "statement": "With flexible allocation, the key/mask blocks given to distinct (source vertex, partition) pairs without fixed keys are pairwise disjoint, and disjoint from every fixed key/mask.", "quantifier": "every list of partitions, sizes and fixed keys", "why_tests_cant": "bit-zone arithmetic over all combinations of sizes and fixed blocks", "anchors": ["pacman/operations/routing_info_allocator_algorithms/zoned_routing_info_allocator.py: ZonedRoutingInfoAllocator.__allocate, __set_fixed_used, __check_zones, __calculate_zones"]}
{"id": "C18", "title": "Allocated keys never clash (global mode)", "statement": "With the default (global) allocation, the key/mask blocks given to distinct (source vertex, partition) pairs are pairwise disjoint, and disjoint from every fixed key/mask.", "quantifier": "every list of partitions, sizes and fixed keys", "why_tests_cant": "the global mask shape depends on every partition together", "anchors": ["pacman/operations/routing_info_allocator_algorithms/zoned_routing_info_allocator.py: ZonedRoutingInfoAllocator.__check_zones, __set_fixed_used, __allocate"]}
{"id": "C19", "title": "Every allocated key block is large enough and fits in 32 bits", "statement": "Every machine vertex without a fixed key is given a block with at least the number of keys it asked for, whose keys all fit in 32 bits and lie inside the block of its application vertex; otherwise allocation fails with an exception.", "quantifier": "every list of partitions and sizes", "why_tests_cant": "all combinations of sizes around powers of two", "anchors": ["pacman/operations/routing_info_allocator_algorithms/zoned_routing_info_allocator.py: __calculate_zones, __check_zones, __allocate, __mask", "pacman/utilities/utility_calls.py: allocator_bits_needed"]}
{"id": "C20", "title": "Fixed keys are honoured", "statement": "Every machine vertex for which a fixed key/mask was given is allocated exactly that key/mask.", "quantifier": "every list of partitions and fixed keys", "why_tests_cant": "interleaving of fixed and dynamic allocations", "anchors": ["pacman/operations/routing_info_allocator_algorithms/zoned_routing_info_allocator.py: __find_fixed, __allocate_all_fixed, __allocate"]}
{"id": "C21", "title": "The routing-info store is a faithful map", "statement": "After any sequence of add_routing_info calls, looking up a vertex and partition returns exactly the information accepted for that pair, a second addition for the same pair is rejected and changes nothing, and read-only queries never change what later queries return.", "quantifier": "every finite sequence of additions and queries", "why_tests_cant": "all interleavings of reads and writes", "anchors": ["pacman/model/routing_info/routing_info.py: RoutingInfo"]}
{"id": "C22", "title": "Merging machine entries of one application vertex preserves routing", "statement": "merge_machine_entries returns entries which send every key of every given machine vertex to that vertex's route, and match no key outside the block of the application vertex.", "quantifier": "every list of (machine routing info, entry) pairs produced by the zoned allocator for one application vertex", "why_tests_cant": "all run lengths, alignments and last-block cases", "anchors": ["pacman/model/routing_info/app_vertex_routing_info.py: AppVertexRoutingInfo.merge_machine_entries, __n_sequential_entries, __group_mask"]}
{"id": "C23", "title": "Merged table generation agrees with basic generation", "statement": "For routing information with distinct blocks, the merged generator and the basic generator build tables which route every allocated key the same way.", "quantifier": "every routing table by partition on a chip and every key", "why_tests_cant": "depends on the order and adjacency of all entries of a chip", "anchors": ["pacman/operations/routing_table_generators/merged_routing_table_generator.py: merged_routing_table_generator, __create_routing_table, __match", "pacman/operations/routing_table_generators/basic_routing_table_generator.py"]}
{"id": "C24", "title": "Merged table generation keeps non-defaultable entries", "statement": "A key whose entry is not defaultable never ends up matched by a defaultable entry in the table built by the merged generator.", "quantifier": "every routing table by partition on a chip", "why_tests_cant": "depends on neighbours in the sorted order", "anchors": ["pacman/operations/routing_table_generators/merged_routing_table_generator.py: __match, __create_routing_table"]}
{"id": "C25", "title": "Per-partition routing entries are merged, never lost or mixed", "statement": "After any sequence of add_path_entry calls, the entry stored for (chip, source, partition) is the union of the processors and links of all accepted entries for it, and a chip never holds both an application vertex and one of its own machine vertices as sources of the same partition.", "quantifier": "every finite sequence of additions", "why_tests_cant": "all histories", "anchors": ["pacman/model/routing_table_by_partition/multicast_routing_table_by_partition.py: MulticastRoutingTableByPartition.add_path_entry"]}
{"id": "C26", "title": "Tags are never double booked", "statement": "After any sequence of add_ip_tag and add_reverse_ip_tag calls, a (board, tag) pair is used by at most one IP tag or one reverse IP tag but not both, no two reverse tags of a board share a port, and vertices share an IP tag only if it has the same address and strip flag and compatible ports.", "quantifier": "every finite sequence of additions with failures caught", "why_tests_cant": "all histories", "anchors": ["pacman/model/tags/tags.py: Tags.add_ip_tag, add_reverse_ip_tag"]}
{"id": "C27", "title": "Tag allocation gives each tag once and within range", "statement": "The tags handed out by the tag allocator on one board are distinct for resources that may not share, lie within the tag IDs of the board, and requested tags are granted as requested or the allocation fails.", "quantifier": "every list of placed vertices with tag resources", "why_tests_cant": "all orders of requests over all boards", "anchors": ["pacman/operations/tag_allocator_algorithms/basic_tag_allocator.py: basic_tag_allocator, __allocate_tag, __find_free_tag"]}
{"id": "C28", "title": "Reverse tags are created on the board that reserved them", "statement": "If the tag allocator reserves a tag on some board for a reverse IP tag, the tag is recorded on that board; in particular allocation succeeds whenever a free tag was found.", "quantifier": "every list of placed vertices with reverse tag resources", "why_tests_cant": "needs a full board plus a spare one", "anchors": ["pacman/operations/tag_allocator_algorithms/basic_tag_allocator.py: __create_reverse_tag, basic_tag_allocator"]}
{"id": "C29", "title": "Automatically chosen ports do not clash with requested ports", "statement": "A port chosen automatically for a reverse IP tag differs from every port requested explicitly on the same board.", "quantifier": "every list of placed vertices with reverse tag resources", "why_tests_cant": "depends on order and port values", "anchors": ["pacman/operations/tag_allocator_algorithms/basic_tag_allocator.py: __get_port"]}
{"id": "C30", "title": "Placements is a bijection between placed vertices and used cores", "statement": "After any sequence of add_placement calls (failures caught), no core holds two vertices, no vertex is on two cores, both lookups agree, and n_placements counts them; a failed add changes nothing.", "quantifier": "every finite sequence of additions", "why_tests_cant": "all histories", "anchors": ["pacman/model/placements/placements.py: Placements"]}
{"id": "C31", "title": "The placer never puts two vertices on one core", "statement": "Whenever place_application_graph succeeds, every core holds at most one vertex (counting system placements), every vertex is on a core the chip offers for placement, and every vertex that needs placing is placed.", "quantifier": "every machine, every application graph and every initial system placement", "why_tests_cant": "all machines and graphs, all backtracking histories", "anchors": ["pacman/operations/placer_algorithms/application_placer.py: ApplicationPlacer.do_placements, _prepare_placements, _space_on_chip, _get_next_chip_with_space"]}
{"id": "C32", "title": "The placer never over-commits SDRAM", "statement": "Whenever placement succeeds, on each chip the SDRAM of the vertices placed there is at most the SDRAM of the chip.", "quantifier": "every machine and application graph", "why_tests_cant": "all backtracking histories", "anchors": ["pacman/operations/placer_algorithms/application_placer.py: ApplicationPlacer._space_on_chip, _place_fixed_vertex, _do_fixed_location"]}
{"id": "C33", "title": "Same-chip groups are placed together", "statement": "If no machine vertex is in two same-chip groups and none is placed before, then whenever placement succeeds all vertices of a group that are not virtual are on one chip.", "quantifier": "every machine and application graph", "why_tests_cant": "all backtracking histories", "anchors": ["pacman/operations/placer_algorithms/application_placer.py: ApplicationPlacer._prepare_placements"]}
{"id": "C34", "title": "The placer always terminates", "statement": "Placing an application graph always ends. If no group is empty, mixes virtual vertices with others, shares a vertex with another or holds a vertex placed before, it ends in success, PacmanPlaceException or PacmanTooBigToPlace (the latter only for a group larger than any chip) or, only if vertices have fixed locations, PacmanConfigurationException or NotImplementedError.", "quantifier": "every machine and application graph", "why_tests_cant": "non-termination cannot be tested", "anchors": ["pacman/operations/placer_algorithms/application_placer.py: ApplicationPlacer._place_vertex, _prepare_placements, _get_next_start"]}
{"id": "C35", "title": "Fixed core requests on a chip succeed in any order", "statement": "Machine vertices of one application vertex fixed to distinct free cores of one chip are all placed on the requested cores, whatever order they are listed in.", "quantifier": "every chip and every order of requests", "why_tests_cant": "depends on the order of requested cores", "anchors": ["pacman/operations/placer_algorithms/application_placer.py: ApplicationPlacer._do_fixed_location"]}
{"id": "C36", "title": "Fixed routes always reach the Ethernet chip", "statement": "Whenever fixed_route_router succeeds, following the fixed route from any chip of any board goes only over existing links and reaches, in finitely many hops, the Ethernet chip of that board, where it is delivered to the destination core; the construction terminates and fails only when some chip has no path.", "quantifier": "every machine", "why_tests_cant": "all shapes of machines with missing chips and links", "anchors": ["pacman/operations/fixed_route_router/fixed_route_router.py: _FixedRouteRouter._route_board"]}
{"id": "C37", "title": "Path search finds real paths", "statement": "_find_path returns a list of hops that starts at the source, uses only working links, and ends at the target; it fails only if no path exists.", "quantifier": "every machine and pair of chips", "why_tests_cant": "all machine topologies", "anchors": ["pacman/operations/router_algorithms/application_router.py: _find_path"]}
{"id": "C38", "title": "Loop removal keeps a path a path", "statement": "_path_without_loops turns every hop list that is a walk from the start into a walk from the start with the same end that visits no chip twice.", "quantifier": "every hop list that forms a walk", "why_tests_cant": "all walks, including nested and overlapping loops", "anchors": ["pacman/operations/router_algorithms/application_router.py: _path_without_loops"]}
{"id": "C39", "title": "Longest-dimension-first vectors lead to the target", "statement": "The hop list built by vector_to_nodes from any vector and start moves one chip per hop along the named link and ends at the start displaced by the vector.", "quantifier": "every vector (x, y, z) and start chip on a wrapped or unwrapped grid", "why_tests_cant": "all vectors and grid sizes", "anchors": ["pacman/utilities/algorithm_utilities/routing_algorithm_utilities.py: longest_dimension_first, vector_to_nodes"]}
{"id": "C40", "title": "Route target bookkeeping keeps machine vertices separate", "statement": "In the per-chip target table of the application router, adding a core or link for one machine vertex never adds it for another machine vertex.", "quantifier": "every sequence of additions for application and machine sources", "why_tests_cant": "depends on the order of mixed application and machine sources", "anchors": ["pacman/operations/router_algorithms/application_router.py: _Targets"]}
{"id": "C41", "title": "Accepted routes deliver to exactly the expected destinations", "statement": "If validate_routes accepts a source, then following first-match routing from the source chip for its key reaches exactly the expected destination cores, visits no router twice, and terminates.", "quantifier": "every machine, set of routing tables and source", "why_tests_cant": "soundness of a checker quantifies over all routings", "anchors": ["pacman/operations/multi_cast_router_check_functionality/valid_routes_checker.py: validate_routes, _search_route, _recursive_trace_to_destinations, _start_trace_via_routing_tables"]}
{"id": "C42", "title": "Route validation does not reject neighbouring key blocks", "statement": "Route validation of a source is not affected by an entry for keys outside the key block of the source.", "quantifier": "every table and key block", "why_tests_cant": "boundary coincidence of key blocks", "anchors": ["pacman/operations/multi_cast_router_check_functionality/valid_routes_checker.py: _locate_routing_entry"]}
{"id": "C43", "title": "One-dimensional slices tile the atoms", "statement": "get_single_dimension_slices returns contiguous, non-empty slices covering atoms 0..n-1 exactly once, in order, each with at most the maximum atoms per core.", "quantifier": "every atom count and maximum", "why_tests_cant": "all sizes", "anchors": ["pacman/utilities/algorithm_utilities/partition_algorithm_utilities.py: get_single_dimension_slices"]}
{"id": "C44", "title": "Multi-dimensional slices tile the atoms", "statement": "get_multidimensional_slices returns slices such that every atom (by raster ID) is in exactly one slice, the slices' atom ranges are contiguous, and no slice exceeds the per-dimension limit.", "quantifier": "every number of dimensions, every shape and every divisible per-core shape", "why_tests_cant": "all dimensions and shapes", "anchors": ["pacman/utilities/algorithm_utilities/partition_algorithm_utilities.py: get_multidimensional_slices", "pacman/model/graphs/common/mdslice.py: MDSlice"]}
{"id": "C45", "title": "Slice-relative and raster indices are inverse", "statement": "For an MDSlice, get_relative_indices and get_raster_indices are mutually inverse on the atoms of the slice, and get_raster_ids lists the atoms in relative-index order.", "quantifier": "every slice of every shape", "why_tests_cant": "all dimensions and shapes", "anchors": ["pacman/model/graphs/common/mdslice.py: MDSlice.get_relative_indices, get_raster_indices, get_raster_ids"]}
{"id": "C46", "title": "Key order and raster order are inverse permutations", "statement": "get_key_ordered_indices and get_raster_ordered_indices of an application vertex are mutually inverse permutations of 0..n_atoms-1, and atom i in key order is the atom with that position in the vertex's slices.", "quantifier": "every number of dimensions, every shape and divisible per-core shape", "why_tests_cant": "all dimensions and shapes", "anchors": ["pacman/model/graphs/application/application_vertex.py: get_key_ordered_indices, get_raster_ordered_indices"]}
{"id": "C47", "title": "The application graph never loses a vertex", "statement": "After any sequence of successful add_vertex calls, every added vertex is in the graph under its own label and labels are unique.", "quantifier": "every sequence of vertices and labels", "why_tests_cant": "depends on coincidences between given and generated labels", "anchors": ["pacman/model/graphs/application/application_graph.py: ApplicationGraph.add_vertex, _label_postfix"]}
{"id": "C48", "title": "2D device keys separate the sub-rectangles", "statement": "For a 2D device, the key/masks of distinct sub-rectangles match disjoint key sets, and the key of every pixel is matched by the key/mask of the sub-rectangle containing it.", "quantifier": "every width, height, power-of-two sub-width and sub-height, and base key", "why_tests_cant": "all sizes, in particular when one sub-rectangle spans the device", "anchors": ["pacman/model/graphs/application/abstract/abstract_2d_device_vertex.py: Abstract2DDeviceVertex._get_key_and_mask, _mask, _sub_x_bits"]}
{"id": "C49", "title": "SDRAM costs add up", "statement": "The total SDRAM of a sum of SDRAM costs does not depend on the order of addition and equals the sum of the totals, counting a shared block once per key.", "quantifier": "every combination of constant, variable, shared and multi-region costs and every number of timesteps", "why_tests_cant": "all expression trees", "anchors": ["pacman/model/resources/constant_sdram.py, variable_sdram.py, shared_sdram.py, multi_region_sdram.py: __add__, get_total_sdram"]}
{"id": "C50", "title": "Region costs add up to the total", "statement": "The total of a MultiRegionSDRAM equals the sum of the costs of its regions after any sequence of add_cost, nest and merge calls.", "quantifier": "every sequence of operations on any number of objects", "why_tests_cant": "all histories including shared sub-objects", "anchors": ["pacman/model/resources/multi_region_sdram.py: add_cost, nest, merge"]}
{"id": "C51", "title": "Segmented SDRAM partitions give disjoint segments", "statement": "Setting the base address of a segmented SDRAM partition assigns to its edges consecutive, non-overlapping segments starting at the base and ending at base + total_sdram_requirements, and each vertex reads back the segment of its edge.", "quantifier": "every list of edges and sizes", "why_tests_cant": "all sizes and counts", "anchors": ["pacman/model/graphs/machine/source_segmented_sdram_machine_partition.py", "pacman/model/graphs/machine/destination_segmented_sdram_machine_partition.py"]}
{"id": "C52", "title": "A rejected edge does not change the partition", "statement": "When add_edge on an edge partition raises, the partition's edges are unchanged.", "quantifier": "every partition and edge", "why_tests_cant": "all failure paths", "anchors": ["pacman/model/graphs/abstract_single_source_partition.py: add_edge", "pacman/model/graphs/abstract_edge_partition.py: add_edge", "pacman/model/graphs/abstract_multiple_partition.py: add_edge"]}
{"id": "C53", "title": "The chip counter is a feasible packing", "statement": "The number of chips counted is enough to hold the added cores in the order added: consecutive runs of the cores, one run per chip, each with at most the cores per chip and, when each core fits on an empty chip, at most the SDRAM per chip; and it never exceeds the number of cores added.", "quantifier": "every sequence of cores and SDRAM costs", "why_tests_cant": "all sequences", "anchors": ["pacman/utilities/utility_objs/chip_counter.py: ChipCounter.add_core"]}
{"id": "C54", "title": "JSON conversions round trip", "statement": "Converting tag resources, placements and routing tables to JSON and back gives equal objects.", "quantifier": "every object", "why_tests_cant": "all field combinations including absent fields", "anchors": ["pacman/utilities/json_utils.py", "pacman/model/routing_tables/multicast_routing_tables.py: to_json, from_json"]}
{"id": "C55", "title": "Route words identify routes", "statement": "The route word printed for an entry determines its set of links and processors.", "quantifier": "every set of links 0..5 and processors", "why_tests_cant": "all subsets", "anchors": ["pacman/utilities/algorithm_utilities/routes_format.py: _reduce_route_value"]}
{"id": "C56", "title": "The multi-target search connects every target", "statement": "_route_to_xys connects every requested target to the routes already built or to the first chip: afterwards each target can be reached by following the built routes over working links, or the call fails because a target is unreachable.", "quantifier": "every machine, set of targets and previously built routes", "why_tests_cant": "all topologies", "anchors": ["pacman/operations/router_algorithms/application_router.py: _route_to_xys"]}
{"id": "C57", "title": "Generated routing entries follow the routing tree", "statement": "For every tree route, the entries stored per chip by _convert_a_route deliver a packet of the source exactly to the processors and links named in the tree, and an entry is marked defaultable only if the packet goes straight through the chip.", "quantifier": "every finite routing tree visiting each chip once", "why_tests_cant": "all trees", "anchors": ["pacman/operations/router_algorithms/application_router.py: _convert_a_route", "pacman/utilities/algorithm_utilities/routing_tree.py"]}
{"id": "C58", "title": "Range compression terminates", "statement": "The range compressor terminates on every non-empty table it is asked to compress.", "quantifier": "every finite table of 32-bit entries, whatever the masks", "why_tests_cant": "a loop that fails to end shows only for particular combinations of neighbouring keys and masks", "anchors": ["pacman/operations/router_compressors/ranged_compressor.py: RangeCompressor._merge_range"]}
{"id": "C59", "title": "Chips with placements", "statement": "Placements.chips_with_placements lists exactly the chips that hold a placement, whatever has been asked of the store before.", "quantifier": "every finite sequence of additions and queries", "why_tests_cant": "the effect of a query shows only in a later, different query", "anchors": ["pacman/model/placements/placements.py: Placements.chips_with_placements, placements_on_chip"]}
{"id": "C60", "title": "Table generators refuse two sources with one key", "statement": "If two different (source vertex, partition) pairs that reach a chip have the same key and mask, generating the routing table of the chip raises KeyError, in the basic and in the merged generator; no table is returned in which the packets of one follow the route of the other.", "quantifier": "for all routing infos, all chips, all dictionaries of sources to entries in any order", "why_tests_cant": "The clash depends on which sources happen to be merged on the chip; a test shows the exception for one pair in one order.", "anchors": ["pacman/operations/routing_table_generators/basic_routing_table_generator.py:48-83", "pacman/operations/routing_table_generators/merged_routing_table_generator.py:52-122"]}
{"id": "C61", "title": "Constant SDRAM partitions use one block", "statement": "After any sequence of add_edge calls and base address settings, every edge in a ConstantSDRAMMachinePartition has the size the partition reports; once the base address is set, every edge and vertex reads back that address, and no further edge is accepted.", "quantifier": "every sequence of calls, failures caught, every edge", "why_tests_cant": "depends on the interplay of the size check, the base address and refused edges in any order", "anchors": ["pacman/model/graphs/machine/constant_sdram_machine_partition.py"]}
{"id": "C62", "title": "The application graph has just the edges it accepted", "statement": "After any calls of add_vertex, add_edge, set_label and the lookups (exceptions caught), the partition of a source and a name exists just if an edge was accepted for them and holds those edges in order; edges is what was accepted; no two partitions share source and name; n_outgoing_edge_partitions is right; an edge is refused just if its type, its vertices' labels or an earlier addition forbid it.", "quantifier": "every sequence of calls", "why_tests_cant": "unbounded histories, with lookups that insert into a defaultdict in between", "anchors": ["pacman/model/graphs/application/application_graph.py: ApplicationGraph.add_edge, edges, outgoing_edge_partitions, get_outgoing_edge_partition_starting_at_vertex"]}
{"id": "C63", "title": "Edges of the application graph join vertices of the graph", "statement": "If add_edge accepts an edge, both its vertices were added to the graph.", "quantifier": "every graph, vertices inside and outside, and edges", "why_tests_cant": "the check is on labels, so it depends on coincidences between labels", "anchors": ["pacman/model/graphs/application/application_graph.py: ApplicationGraph._check_edge"]}
{"id": "C64", "title": "The slices of a 2D device have every pixel once", "statement": "The slices of all sub-rectangles of a 2D device together contain every pixel exactly once, the slice of a sub-rectangle contains its pixels, and says how many it contains.", "quantifier": "every width, height and power-of-two sub-rectangle size the constructor accepts", "why_tests_cant": "all sizes, in particular those that the sub-rectangles do not divide", "anchors": ["pacman/model/graphs/application/abstract/abstract_2d_device_vertex.py: Abstract2DDeviceVertex._get_slice, _sub_square_from_index, _n_sub_rectangles"]}
{"id": "C65", "title": "The slices of an FPGA device have every atom once", "statement": "The incoming slices of the machine vertices of a link of an ApplicationFPGAVertex together contain every atom exactly once, in order.", "quantifier": "every number of atoms and of machine vertices per link", "why_tests_cant": "depends on the remainder of the division", "anchors": ["pacman/model/graphs/application/application_fpga_vertex.py: ApplicationFPGAVertex.get_incoming_slice_for_link"]}
{"id": "C66", "title": "Fixed routes are shortest and do not depend on set order", "statement": "The fixed route of a chip has as few hops as any way over links of its board to the Ethernet chip; the entry is the first link of 4, 3, 5, 2, 0, 1 that leads one hop nearer; the order in which Python iterates over its sets makes no difference.", "quantifier": "every machine and every iteration order", "why_tests_cant": "set order differs between runs and interpreters; shortest among all ways", "anchors": ["pacman/operations/fixed_route_router/fixed_route_router.py: _FixedRouteRouter._route_board"]}
{"id": "C67", "title": "Path search returns shortest simple paths", "statement": "_find_path returns a path with as few hops as any, which passes no chip twice.", "quantifier": "every machine and pair of chips", "why_tests_cant": "minimality is over all paths", "anchors": ["pacman/operations/router_algorithms/application_router.py: _find_path"]}
{"id": "C68", "title": "Routes around faults are routes", "statement": "For every hop list that follows the grid from the source, _path_without_errors returns hops over working links and existing chips from the source to the same end, passing no chip twice, or fails because a part of the way cannot be replaced.", "quantifier": "every machine with missing chips and links, and every direct route", "why_tests_cant": "all patterns of faults; interplay of several detours", "anchors": ["pacman/operations/router_algorithms/application_router.py: _path_without_errors, _is_ok, _find_path, _path_without_loops"]}
{"id": "C69", "title": "Reachability search is exact", "statement": "_find_reachable terminates and returns exactly the chips that can be reached from the source over working links through chips that are allowed and not disallowed.", "quantifier": "every machine, source and sets", "why_tests_cant": "all topologies", "anchors": ["pacman/operations/router_algorithms/application_router.py: _find_reachable, _is_open_chip"]}
{"id": "C70", "title": "Route target bookkeeping loses nothing", "statement": "After any sequence of additions to the per-chip target table, a machine vertex reaches every core and link that was added for it or for the application vertex that sends with it; an application vertex and one of its machine vertices never have entries side by side; additions fail only where a splitter is missing.", "quantifier": "every sequence of additions for application and machine sources", "why_tests_cant": "depends on the order of mixed application and machine sources", "anchors": ["pacman/operations/router_algorithms/application_router.py: _Targets"]}
{"id": "C71", "title": "The routes of a partition stay trees", "statement": "Starting from routes in which no chip has two parents and nothing leads back to itself, _route_to_xys and _route_pre_to_post keep it so; in particular following the routes always ends.", "quantifier": "every machine, set of targets and previously built routes", "why_tests_cant": "all topologies and histories of earlier routes", "anchors": ["pacman/operations/router_algorithms/application_router.py: _route_to_xys, _route_pre_to_post"]}
{"id": "C72", "title": "Joining a source to a target crosses nothing", "statement": "_route_pre_to_post adds exactly one walk over working links to the routes; it leaves from the source or from a chip already routed, crosses neither afterwards, and ends at the first chip of the target.", "quantifier": "every machine, pair of chips and previously built routes", "why_tests_cant": "all topologies, interplay with earlier routes", "anchors": ["pacman/operations/router_algorithms/application_router.py: _route_pre_to_post"]}
{"id": "C73", "title": "Way to a target vertex and on to its chips hangs together", "statement": "After _route_pre_to_post and _route_to_xys from the chip returned, every target chip is reached by following the routes from the chip where the way leaves the source or from a chip routed before.", "quantifier": "every machine, source, target and previously built routes", "why_tests_cant": "all topologies, interplay of the two searches", "anchors": ["pacman/operations/router_algorithms/application_router.py: _route_pre_to_post, _route_to_xys, _route_single_source_to_target"]}
{"id": "C74", "title": "Packets of a partition are delivered", "statement": "If the routes of an application partition are made without error, then under the resulting entries the packets of every machine vertex that sends come, over working links, to the chip of every machine vertex they should go to, and are sent there to its core or link; also along internal partitions, and whatever is routed for other partitions.", "quantifier": "every machine with missing chips and links, graph, placement and splitter choice of sources and targets", "why_tests_cant": "interplay of four searches, target bookkeeping and entry merging over all topologies; only the checker run after routing compares whole routes", "anchors": ["pacman/operations/router_algorithms/application_router.py: _ApplicationRouter._route_application_partition, _route_single_source_to_target, _convert_a_route"]}
{"id": "C75", "title": "Routing a partition sends packets only to its targets", "statement": "Routing an application partition adds a core to an entry only if a target of the partition is on that core, adds a link only if it works or a target is on it, leaves the entries of other partitions and of vertices that do not send as they are, and takes nothing away.", "quantifier": "every machine, graph, placement and tables made before", "why_tests_cant": "absence of effects over all entries", "anchors": ["pacman/operations/router_algorithms/application_router.py: _ApplicationRouter._route_application_partition, _convert_a_route"]}
{"id": "C76", "title": "Routing a partition ends", "statement": "The routing of an application partition always ends, with entries or an error, whatever the machine, the vertices and the tables made before.", "quantifier": "every machine, graph and placement", "why_tests_cant": "non-termination cannot be observed by a test", "anchors": ["pacman/operations/router_algorithms/application_router.py: _ApplicationRouter._route_application_partition, _convert_a_route, _find_path, _find_reachable"]}
{"id": "C77", "title": "Packets meet an entry on every chip they come to", "statement": "On every chip that the packets of a sending machine vertex come to under the entries made by routing its partition, there is an entry for them.", "quantifier": "every machine, graph and placement", "why_tests_cant": "over all chips reached, including those passed through; a missing entry is default-routed silently", "anchors": ["pacman/operations/router_algorithms/application_router.py: _ApplicationRouter._route_application_partition, _convert_a_route"]}
{"id": "C78", "title": "The partitions to route are found, each once", "statement": "get_app_partitions returns the partitions of the graph in order and then, for each vertex and identifier that has only internal partitions, exactly one partition without edges; vertices without a splitter are left out.", "quantifier": "every graph and choice of internal partitions", "why_tests_cant": "all interleavings of internal and graph partitions", "anchors": ["pacman/utilities/algorithm_utilities/routing_algorithm_utilities.py: get_app_partitions"]}
{"id": "C79", "title": "Packets of a whole graph are delivered", "statement": "If route_application_graph returns, then under its tables the packets of every machine vertex come over working links to every machine vertex they should go to, for every edge and internal partition of the graph; every core in the tables is that of a target; no router holds both an application vertex and one of its machine vertices; and it always ends.", "quantifier": "every machine, graph, placement and splitter choice", "why_tests_cant": "end to end over all partitions, whose entries share tables", "anchors": ["pacman/operations/router_algorithms/application_router.py: route_application_graph"]}
{"id": "C80", "title": "The chips of an application vertex are linked", "statement": "If no machine vertex is in two same-chip groups and none is placed before, then after placement the chips that hold the machine vertices of an application vertex without a fixed location can all be reached over links from one of them without leaving these chips.", "quantifier": "every machine, application graph and initial system placement", "why_tests_cant": "depends on the shape of the machine, what was placed before and all backtracking histories", "anchors": ["pacman/operations/placer_algorithms/application_placer.py: ApplicationPlacer._get_next_chip_with_space, _get_next_neighbour, _add_neighbours, _prepare_placements"]}
{"id": "C81", "title": "A vertex is placed if a chip has room for it", "statement": "If a graph can be placed and afterwards a chip has enough free cores and free SDRAM for a group, then the graph can also be placed with one more application vertex that consists of this group.", "quantifier": "every machine, application graph, group and initial system placement", "why_tests_cant": "requires that no free chip is ever lost by the search, over all histories", "anchors": ["pacman/operations/placer_algorithms/application_placer.py: ApplicationPlacer._get_next_start, _space_on_chip, _place_vertex"]}
{"id": "C82", "title": "Fixed locations are honoured", "statement": "Whenever placement succeeds, every machine vertex of an application vertex with a fixed location is on the chip, and core if one is given, to which it is fixed.", "quantifier": "every machine, application graph and initial system placement", "why_tests_cant": "over all combinations of fixed locations and placements made before", "anchors": ["pacman/operations/placer_algorithms/application_placer.py: ApplicationPlacer._place_fixed_vertex, _do_fixed_location"]}
{"id": "C83", "title": "From a graph to tables that deliver its packets", "statement": "If route_application_graph and the allocation of keys both return, then either table generator makes tables, and with these in the routers every packet sent by a machine vertex with one of its keys comes to the chip, core or device link of every machine vertex it should go to, and to no core that is not that of a target.", "quantifier": "every machine, graph, placement, splitter choice and request for keys", "why_tests_cant": "the parts are tested one by one; that keys, entries and tables of all chips fit together is a statement about all of them at once", "anchors": ["pacman/operations/router_algorithms/application_router.py: route_application_graph", "pacman/operations/routing_info_allocator_algorithms/zoned_routing_info_allocator.py: ZonedRoutingInfoAllocator.allocate", "pacman/operations/routing_table_generators/basic_routing_table_generator.py: basic_routing_table_generator", "pacman/operations/routing_table_generators/merged_routing_table_generator.py: merged_routing_table_generator"]}
{"id": "C84", "title": "Packets take one way and do not run in circles", "statement": "If routing, the allocation of keys and either table generator return, then with the generated tables in the routers a packet sent by a machine vertex with one of its keys gets to each chip by one way only; it makes fewer hops than the machine has chips and gets to each machine vertex it should go to exactly once.", "quantifier": "every machine, graph, placement, splitter choice and request for keys", "why_tests_cant": "about the entries of all chips together and ways of any length; the tests follow routes on a few fixed graphs", "anchors": ["pacman/operations/router_algorithms/application_router.py: route_application_graph, _route_source_to_target, _route_to_xys, _find_target_xy"]}
{"id": "C85", "title": "Entries marked defaultable may be left out", "statement": "If the generated tables are replaced by tables that treat every key in the same way, except that keys of entries marked defaultable may go unmatched, then every packet sent by a machine vertex with one of its keys travels over the same links and is delivered to the same cores.", "quantifier": "every machine, graph, placement, request for keys, generator and choice of entries left out", "why_tests_cant": "requires knowing from where packets come to each entry, over all graphs", "anchors": ["pacman/operations/router_algorithms/application_router.py: _convert_a_route", "pacman/operations/router_compressors/ordered_covering_router_compressor/utils.py: remove_default_routes", "pacman/operations/routing_table_generators/merged_routing_table_generator.py: __create_routing_table"]}
{"id": "C86", "title": "Compressed tables still deliver the packets of a graph", "statement": "If routing, the allocation of keys, either table generator and then one of the compressors return, then with the compressed tables in the routers every packet of the graph gets to every machine vertex it should go to.", "quantifier": "every machine, graph, placement, request for keys, generator, compressor and its options", "why_tests_cant": "spans all steps from the graph to the compressed tables of all chips", "anchors": ["pacman/operations/router_compressors/abstract_compressor.py: AbstractCompressor.compress_tables", "pacman/operations/router_compressors/ordered_covering_router_compressor/utils.py: remove_default_routes", "pacman/operations/routing_table_generators/merged_routing_table_generator.py: __create_routing_table"]}
{"id": "C87", "title": "Packets reach only vertices that asked for them", "statement": "If routing, the allocation of keys and either table generator return, then with the generated tables in the routers a packet sent by a machine vertex with one of its keys is delivered to a core only if that core runs a machine vertex for which an edge (through the answer of the target's splitter) or an internal partition asks for packets of this sending machine vertex; likewise for the links of devices.", "quantifier": "every machine, graph, placement, splitter choice and request for keys", "why_tests_cant": "several targets on one chip asking in different ways interact through shared objects; about all graphs and all orders of edges", "anchors": ["pacman/operations/router_algorithms/application_router.py: _Targets, route_application_graph, _route_source_to_target"]}
{"id": "C88", "title": "A splitter governs the vertex whose splitter it is", "statement": "In every state, a splitter s is the splitter of an application vertex v if and only if v is the vertex governed by s. A splitter once set is never replaced, and setting another one raises and changes nothing.", "quantifier": "every sequence of calls of the setters, of resets and of the partitioner, on any number of vertices and splitters of the built-in classes", "why_tests_cant": "the two setters call each other and may raise half way; about all sequences of calls", "anchors": ["pacman/model/graphs/application/application_vertex.py: ApplicationVertex.splitter", "pacman/model/partitioner_splitters/abstract_splitter_common.py: AbstractSplitterCommon.set_governed_app_vertex"]}
{"id": "C89", "title": "Machine vertices that send or receive are known to their application vertex", "statement": "After the partitioner has run without an exception, every machine vertex that the splitter of a vertex gives as sending or receiving is one of the machine vertices of the application vertex, so it is in one of the groups to be placed.", "quantifier": "every sequence of calls before (including resets between runs), every mix of the built-in splitters", "why_tests_cant": "splitters make machine vertices at different times (when set, or when the partitioner runs), and reset forgets them", "anchors": ["pacman/model/partitioner_splitters/splitter_one_to_one_legacy.py: SplitterOneToOneLegacy", "pacman/model/partitioner_splitters/splitter_external_device.py: SplitterExternalDevice.create_machine_vertices", "pacman/model/graphs/application/application_vertex.py: ApplicationVertex.reset", "pacman/operations/partition_algorithms/splitter_partitioner.py: splitter_partitioner"]}
{"id": "C90", "title": "The partitioner puts each atom into one machine vertex", "statement": "After the partitioner, each atom of a vertex with SplitterFixedLegacy is in exactly one of its machine vertices, none of which has more atoms than the maximum set, and each of which needs the SDRAM the vertex states for its slice. A SplitterOneToOneLegacy has one machine vertex with all atoms.", "quantifier": "every shape and maximum, every sequence of calls before, every graph", "why_tests_cant": "slices are cached and machine vertices remembered between runs; about all sequences of calls", "anchors": ["pacman/model/partitioner_splitters/splitter_fixed_legacy.py: SplitterFixedLegacy.create_machine_vertices, SplitterFixedLegacy.reset_called", "pacman/operations/partition_algorithms/splitter_partitioner.py: splitter_partitioner"]}
{"id": "C91", "title": "Machine vertices of an application vertex are distinct and indexed in their order", "statement": "No machine vertex is remembered by two application vertices or twice by one, each knows its application vertex, and its index is its place among the machine vertices of its application vertex.", "quantifier": "every sequence of calls of setters, resets and the partitioner", "why_tests_cant": "an invariant over all sequences of calls; the index is set by a different object than the one that keeps the list", "anchors": ["pacman/model/graphs/application/application_vertex.py: ApplicationVertex.remember_machine_vertex", "pacman/model/graphs/machine/machine_vertex.py: MachineVertex.index"]}
{"id": "C92", "title": "A device has the machine vertices its links need", "statement": "A SplitterExternalDevice gives, for each link of an FPGA device, the wanted number of sending machine vertices with the slices of the link in order, and as many as wanted on the link of a SpiNNaker-link device that sends; one receiving machine vertex with all atoms if the device can receive; and raises if there is none.", "quantifier": "every device, number of links and machine vertices, every sequence of calls before", "why_tests_cant": "about all numbers of links, machine vertices and atoms, and all orders of calls", "anchors": ["pacman/model/partitioner_splitters/splitter_external_device.py: SplitterExternalDevice.set_governed_app_vertex, SplitterExternalDevice.get_in_coming_vertices, SplitterExternalDevice.get_out_going_vertices"]}
{"id": "C93", "title": "The slices of a device on a SpiNNaker link share out its atoms", "statement": "For every positive number of machine vertices up to the number of atoms, the slices of the machine vertices of a device on a SpiNNaker link have each atom in exactly one of them.", "quantifier": "every number of atoms and of machine vertices", "why_tests_cant": "arithmetic claim over all pairs of numbers", "anchors": ["pacman/model/graphs/application/application_spinnaker_link_vertex.py: ApplicationSpiNNakerLinkVertex.get_incoming_slice"]}
{"id": "C94", "title": "The partitioner's number of chips is that of a packing of the machine vertices", "statement": "The number of chips the partitioner returns is the number of chips used by placing all machine vertices of the graph in their order, each chip filled until its cores or its SDRAM do not suffice, and no packing in this order needs fewer.", "quantifier": "every graph, every mix of the built-in splitters, every limit of cores and SDRAM", "why_tests_cant": "about all graphs and all sequences of calls before", "anchors": ["pacman/operations/partition_algorithms/splitter_partitioner.py: splitter_partitioner", "pacman/utilities/utility_objs/chip_counter.py: ChipCounter.add_core"]}
{"id": "C95", "title": "Fixed locations and labels do not change", "statement": "Once get_fixed_location of a vertex gives a location, it gives the same one for ever; setting a different one raises and changes nothing. The label of a vertex added to a graph does not change.", "quantifier": "every sequence of calls on application and machine vertices", "why_tests_cant": "an invariant over all sequences of calls on vertices that refer to each other", "anchors": ["pacman/model/graphs/abstract_vertex.py: AbstractVertex.set_fixed_location, AbstractVertex.set_label", "pacman/model/graphs/machine/machine_vertex.py: MachineVertex.get_fixed_location", "pacman/model/graphs/application/application_vertex.py: ApplicationVertex.has_fixed_location"]}
{"id": "C96", "title": "A maximum number of atoms that is accepted can be used, and one that is refused is not set", "statement": "If set_max_atoms_per_dimension_per_core returns, the atoms of the vertex can be split with slices within the maximum; None makes the shape the maximum; if it raises, the maximum is as before.", "quantifier": "every shape with atoms and every value", "why_tests_cant": "about all shapes and values", "anchors": ["pacman/model/graphs/application/application_vertex.py: ApplicationVertex.set_max_atoms_per_dimension_per_core, ApplicationVertex.get_max_atoms_per_core"]}
{"id": "C97", "title": "The slices a splitter gives are those of the machine vertices it gives", "statement": "After a reset and partitioning, get_out_going_slices and get_in_coming_slices give, in order, the slices of the machine vertices that get_out_going_vertices and get_in_coming_vertices give.", "quantifier": "every application vertex with a SplitterFixedLegacy, every sequence of calls before", "why_tests_cant": "slices and machine vertices are kept apart and filled at different times; the claim is over all sequences of calls", "anchors": ["pacman/model/partitioner_splitters/splitter_fixed_legacy.py: SplitterFixedLegacy.get_out_going_slices, SplitterFixedLegacy.get_in_coming_slices, SplitterFixedLegacy.create_machine_vertices"]}
{"id": "C98", "title": "Packets of an application vertex get to the machine vertices that receive for its targets and nowhere else", "statement": "After reset, partitioning, routing, key allocation and table generation with the built-in splitters, each machine vertex that sends for the source of an application edge has a key, and its packets get to every machine vertex that receives for a target of an edge of that partition, devices included, and to no core of others; so each atom of the source reaches each atom of the target.", "quantifier": "every application graph, every mix of built-in splitters, every machine and placement", "why_tests_cant": "joins all steps from splitting to tables, for all graphs and machines", "anchors": ["pacman/model/partitioner_splitters/abstract_splitter_common.py: AbstractSplitterCommon.get_source_specific_in_coming_vertices", "pacman/model/partitioner_splitters/splitter_external_device.py: SplitterExternalDevice.get_in_coming_vertices", "pacman/operations/router_algorithms/application_router.py: route_application_graph"]}
{"id": "C99", "title": "After the whole of mapping, packets get from placed vertices to placed vertices that are to receive them, and to no others", "statement": "After reset, partitioning, placement, routing, key allocation and table generation, every machine vertex that sends or receives is in one place, no two on one core; a packet sent from the place of a machine vertex gets to a placed vertex if and only if that receives for a target of an edge of the partition, and to the links of devices that receive.", "quantifier": "every application graph with the built-in splitters, every machine, every set of system vertices placed before", "why_tests_cant": "joins all steps of mapping, for all graphs and machines", "anchors": ["pacman/operations/placer_algorithms/application_placer.py: place_application_graph", "pacman/operations/partition_algorithms/splitter_partitioner.py: splitter_partitioner", "pacman/operations/router_algorithms/application_router.py: route_application_graph"]}
{"id": "C100", "title": "After partitioning and placement the machine vertices on each chip fit into its SDRAM", "statement": "After reset, partitioning and placement, the SDRAM of the machine vertices placed on a chip, added up, is at most the SDRAM of the chip, if that holds for the system vertices placed before.", "quantifier": "every application graph with the built-in splitters, every machine, every chip", "why_tests_cant": "a sum over all vertices on each chip for all graphs", "anchors": ["pacman/operations/placer_algorithms/application_placer.py: place_application_graph", "pacman/model/partitioner_splitters/abstract_splitter_common.py: AbstractSplitterCommon.get_same_chip_groups"]}
{"id": "C101", "title": "A machine with as many chips as the partitioner counted has room for the graph", "statement": "If each machine vertex fits on a chip, then the graph is placed on a machine whose chips all have the cores and the SDRAM the partitioner reckons with, if there are as many chips as the partitioner counted.", "quantifier": "every application graph without fixed locations and devices, every such machine", "why_tests_cant": "compares two algorithms, the counter and the placer, on all graphs and machines", "anchors": ["pacman/utilities/utility_objs/chip_counter.py: ChipCounter.add_core", "pacman/operations/partition_algorithms/splitter_partitioner.py: splitter_partitioner", "pacman/operations/placer_algorithms/application_placer.py: place_application_graph"]}
{"id": "C102", "title": "Vertices of external devices take no cores", "statement": "The placer gives no core of a chip to a virtual machine vertex.", "quantifier": "every graph, every grouping of machine vertices by splitters, every machine, every set of placements made before", "why_tests_cant": "a claim on every placement of every run", "anchors": ["pacman/operations/placer_algorithms/application_placer.py: ApplicationPlacer._prepare_placements, ApplicationPlacer._filter_vertices"]}
{"id": "C103", "title": "The view returns what was last set", "statement": "A getter of the data view for placements, routing infos, tags, tables, or routes by partition returns the object last given to the writer's setter, or raises if none was set since the last set-up or hard reset. A setter given an object of another class raises TypeError and changes nothing. The planned timesteps outlive a hard reset. Queries on placements are answered by the placements last set.", "quantifier": "every sequence of calls of the view and the writer, exceptions caught", "why_tests_cant": "an invariant over all sequences of calls", "anchors": ["pacman/data/pacman_data_view.py: PacmanDataView.get_routing_infos, PacmanDataView.get_tags, PacmanDataView.get_uncompressed, PacmanDataView.get_precompressed, PacmanDataView.iterate_placemements, PacmanDataView.get_plan_n_timestep", "pacman/data/pacman_data_writer.py: PacmanDataWriter.set_placements, PacmanDataWriter.set_tags, PacmanDataWriter.set_plan_n_timesteps"]}
{"id": "C104", "title": "The size of machine asked for is the first that was asked for", "statement": "The number of boards, or of chips, that the view has as asked for is that of the first valid request since set-up; later requests raise and change nothing; a reset does not forget it. get_n_chips_needed is the number of chips asked for, else the last number given for the graph since a reset, else it raises; it is positive; has_n_chips_needed tells whether it raises.", "quantifier": "every sequence of calls of the view and the writer, exceptions caught", "why_tests_cant": "an invariant over all sequences of calls", "anchors": ["pacman/data/pacman_data_writer.py: PacmanDataWriter.set_n_required, PacmanDataWriter.set_n_chips_in_graph", "pacman/data/pacman_data_view.py: PacmanDataView.get_n_chips_needed, PacmanDataView.has_n_chips_needed, PacmanDataView.get_n_boards_required, PacmanDataView.get_chips_boards_required_str"]}
{"id": "C105", "title": "The SDRAM of monitors is that of the monitors added", "statement": "The SDRAM reported for monitors is the sum of that of the monitors added since set-up or reset: of all for an Ethernet chip, of those on all chips for any chip. The first is never less than the second, so the SDRAM that the partitioner and the placer take to be left on a chip is never less than what an Ethernet chip has left.", "quantifier": "every sequence of calls, all kinds of SDRAM costs, every planned time", "why_tests_cant": "sums over all sequences of monitors and costs", "anchors": ["pacman/data/pacman_data_writer.py: PacmanDataWriter.add_sample_monitor_vertex", "pacman/data/pacman_data_view.py: PacmanDataView.get_all_monitor_sdram, PacmanDataView.get_ethernet_monitor_sdram"]}
{"id": "C106", "title": "No change of the graph goes unnoticed", "statement": "If the view says that no mapping is required, then the graph it shows is that of the end of the last run. Adding through the view makes mapping required; adding through the writer raises and changes nothing unless it is.", "quantifier": "every sequence of calls of the view and the writer, exceptions caught", "why_tests_cant": "an invariant over all sequences of calls", "anchors": ["pacman/data/pacman_data_view.py: PacmanDataView.add_vertex, PacmanDataView.add_edge", "pacman/data/pacman_data_writer.py: PacmanDataWriter.add_vertex, PacmanDataWriter.add_edge"]}
{"id": "C107", "title": "The view shows only machine vertices made since the last reset", "statement": "Each machine vertex the view iterates over was remembered by a vertex of the graph after the last set-up or hard reset, and get_n_machine_vertices is the number of them.", "quantifier": "every sequence of calls of the view and the writer, exceptions caught", "why_tests_cant": "an invariant over all sequences of calls", "anchors": ["pacman/data/pacman_data_view.py: PacmanDataView.iterate_machine_vertices, PacmanDataView.get_n_machine_vertices", "pacman/data/pacman_data_view.py: _PacmanDataModel._clear, _PacmanDataModel._hard_reset"]}
{"id": "C108", "title": "The partitioner's number of chips can be given to the view", "statement": "set_n_chips_in_graph takes the number that splitter_partitioner returns, and get_n_chips_needed then returns it if the user asked for no number of chips.", "quantifier": "every graph with the built-in splitters, every sequence of calls before", "why_tests_cant": "joins partitioner and view, for all graphs", "anchors": ["pacman/operations/partition_algorithms/splitter_partitioner.py: splitter_partitioner", "pacman/data/pacman_data_writer.py: PacmanDataWriter.set_n_chips_in_graph", "pacman/data/pacman_data_view.py: PacmanDataView.get_n_chips_needed"]}
{"id": "C109", "title": "Without faults in the machine, ways are shortest and pass no chip twice", "statement": "On a machine all of whose chips and links work, a board without wrap-arounds or one that wraps round in both directions, the way that the router makes between two chips from a shortest vector is the longest-dimension-first one, unchanged: each hop is over a working link to a chip, it ends at the target, it passes no chip twice, and no way over working links has fewer hops.", "quantifier": "every such machine of any size, all pairs of chips, all shortest vectors", "why_tests_cant": "all pairs of chips on machines of all sizes; that nothing is shorter is over all ways", "anchors": ["pacman/utilities/algorithm_utilities/routing_algorithm_utilities.py: longest_dimension_first, vector_to_nodes", "pacman/operations/router_algorithms/application_router.py: _path_without_errors, _path_without_loops"]}
{"id": "C110", "title": "A placed graph can be routed", "statement": "If a graph has been partitioned with the built-in splitters and placed, all chips of the machine can reach each other, and something sends and something receives for each edge, then route_application_graph returns tables; it raises nothing and ends.", "quantifier": "every graph, machine, placement and order of sets; every number of vertices and partitions", "why_tests_cant": "no exception over all machines, graphs and placements; each loop has to find what it looks for", "anchors": ["pacman/operations/router_algorithms/application_router.py: route_application_graph, _route_source_to_target, _route_to_xys, _find_target_xy, _convert_a_route", "pacman/operations/placer_algorithms/application_placer.py: place_application_graph"]}
{"id": "C111", "title": "Mapping a graph that fits ends in tables that deliver", "statement": "If a graph has been partitioned, the machine has room for it and either no faults or faults around which ways are found, and the keys asked for fit into 32 bits, then placing, routing, allocating keys and making tables all return; each vertex that sends has keys that no other has, and its packets get to exactly the machine vertices of the targets.", "quantifier": "every graph that the built-in splitters have partitioned, every machine without faults or with such faults, both generators", "why_tests_cant": "joins all steps of the mapping: none of them may raise for what the steps before give, over all graphs and machines", "anchors": ["pacman/operations/placer_algorithms/application_placer.py: place_application_graph", "pacman/operations/router_algorithms/application_router.py: route_application_graph", "pacman/operations/routing_info_allocator_algorithms/zoned_routing_info_allocator.py: allocate", "pacman/operations/routing_table_generators/basic_routing_table_generator.py: basic_routing_table_generator", "pacman/operations/routing_table_generators/merged_routing_table_generator.py: merged_routing_table_generator"]}
{"id": "C112", "title": "The partitioner returns for exactly the graphs that can be split", "statement": "After a reset, splitter_partitioner returns if and only if each vertex has a splitter, those with SplitterFixedLegacy have atoms and numbers of atoms per core that fit the shape and are no AbstractOneAppOneMachineVertex, each SplitterOneToOneLegacy has made its machine vertex, and those of a device that is an AbstractOneAppOneMachineVertex are its own; the limits of the chips do not matter.", "quantifier": "every graph with the built-in splitters, every sequence of calls before (also ones that raise, as long as vertices and splitters agree)", "why_tests_cant": "both directions for all graphs and all histories; tests show some graphs that work and some that raise", "anchors": ["pacman/operations/partition_algorithms/splitter_partitioner.py: splitter_partitioner", "pacman/model/partitioner_splitters/splitter_fixed_legacy.py: create_machine_vertices", "pacman/model/partitioner_splitters/splitter_external_device.py: create_machine_vertices", "pacman/utilities/algorithm_utilities/partition_algorithm_utilities.py: get_multidimensional_slices"]}
{"id": "C113", "title": "Slices are read back from their strings", "statement": "from_string of the string of a Slice or MDSlice gives an equal slice; so different slices have different strings.", "quantifier": "every slice that can be made, of any number of dimensions and any size; every slice that the slicing of a vertex makes", "why_tests_cant": "all numbers and all numbers of dimensions; tests read back four strings", "anchors": ["pacman/model/graphs/common/slice.py: __str__, from_string", "pacman/model/graphs/common/mdslice.py: __str__, from_string", "pacman/utilities/algorithm_utilities/partition_algorithm_utilities.py: get_multidimensional_slices"]}
{"id": "C114", "title": "Slices are equal exactly if all that they say is equal", "statement": "== on slices of both classes is an equivalence that holds exactly if class, first atom, number of atoms, shape, start and shape of the vertex are equal; equal slices have equal hashes; and the ends mean the same in both classes.", "quantifier": "all pairs of slices of both classes", "why_tests_cant": "all pairs, in both directions; Python asks the subclass first, which a test of one class does not see", "anchors": ["pacman/model/graphs/common/slice.py: __eq__, __hash__, end", "pacman/model/graphs/common/mdslice.py: __eq__, __hash__, end"]}
{"id": "C115", "title": "Reading a file of routing entries gives the entries of its rows", "statement": "from_csv gives a table with exactly the entries that rows of three or six columns hold, each once and none defaultable; rows that hold no entry do not matter.", "quantifier": "every list of rows, in any order and mixture, with numbers of any form (case, 0x, spaces)", "why_tests_cant": "all files; what happens with rows that cannot be read depends on which exception is caught", "anchors": ["pacman/model/routing_tables/uncompressed_multicast_routing_table.py: from_csv, _from_csv_file"]}
{"id": "C116", "title": "The line of a routing entry says all of the entry", "statement": "format_route writes key, mask and route as its first three words, as hexadecimal numbers of fixed width that are read back as they were, then 1 or 0 for defaultable; so different entries have different lines. It raises only for links that do not exist.", "quantifier": "every key and mask, every set of processors and links", "why_tests_cant": "all words of 32 bits; padding and case of digits", "anchors": ["pacman/utilities/algorithm_utilities/routes_format.py: format_route, _expand_route_value, _reduce_route_value"]}
{"id": "C117", "title": "The total SDRAM is the fixed cost and that of the timesteps", "statement": "get_total_sdram(n) of any SDRAM resource is fixed + per_timestep * n, rounded up; without a number of timesteps it is fixed if per_timestep is 0, and raises else.", "quantifier": "every nesting of constant, variable, multi-region and shared SDRAM; every number of timesteps", "why_tests_cant": "all nestings and numbers, with costs per timestep that are fractions", "anchors": ["pacman/model/resources/variable_sdram.py: get_total_sdram, fixed, per_timestep", "pacman/model/resources/multi_region_sdram.py", "pacman/model/resources/shared_sdram.py: get_total_sdram, fixed, per_timestep", "pacman/model/resources/constant_sdram.py"]}
{"id": "C118", "title": "Compressed tables of a mapped graph deliver its packets", "statement": "After a graph is partitioned, placed, routed, given keys, its tables made and compressed by any of the compressors, the packets of each machine vertex that sends get to exactly the cores of the machine vertices that should receive them, by one way, in fewer hops than there are chips; where the compressor dropped an entry, default routing does the same.", "quantifier": "every graph, machine, placement, routing, both generators, every compressor in every mode, every key", "why_tests_cant": "the whole chain of algorithms over all graphs and machines, with default routing by the hardware", "anchors": ["pacman/operations/router_compressors/abstract_compressor.py: compress_tables", "pacman/operations/router_compressors/ranged_compressor.py: range_compressor", "pacman/operations/router_compressors/pair_compressor.py: pair_compressor", "pacman/operations/router_compressors/ordered_covering_router_compressor/ordered_covering.py", "pacman/operations/routing_table_generators/merged_routing_table_generator.py", "pacman/operations/routing_info_allocator_algorithms/zoned_routing_info_allocator.py"]}
{"id": "C119", "title": "Compressors do not fail on tables that fit already", "statement": "If no table has more entries than the router of its chip takes, then each compressor, in each mode, returns tables that fit. No table made for a graph has more entries than there are machine vertices that send (one for each identifier), so graphs with no more of them than a router has entries can always be compressed.", "quantifier": "every collection of tables; every graph, both generators, every compressor and mode", "why_tests_cant": "all tables and graphs; no compressor makes a table bigger or raises on one", "anchors": ["pacman/operations/router_compressors/abstract_compressor.py: compress_tables", "pacman/operations/router_compressors/pair_compressor.py: verify_lengths, compress_table", "pacman/operations/router_compressors/ranged_compressor.py: compress_table", "pacman/operations/router_compressors/ordered_covering_router_compressor/ordered_covering.py: compress_table", "pacman/operations/routing_table_generators/basic_routing_table_generator.py", "pacman/operations/routing_table_generators/merged_routing_table_generator.py"]}
{"id": "C120", "title": "Going through a routing tree meets each node once", "statement": "Iterating over a RoutingTree gives each tree and vertex in it once, each tree before what is below it, and len counts them. traverse yields each tree once, level by level, with the direction by which it is reached, its chip and the set of directions of its children; it raises an AssertionError exactly if a tree has been put below another without a direction, after yielding all that come before.", "quantifier": "every routing tree, of any depth and number of children", "why_tests_cant": "trees of every shape; the queue of traverse over all of them", "anchors": ["pacman/utilities/algorithm_utilities/routing_tree.py: __iter__, __len__, traverse, append_child, is_leaf"]}
{"id": "C121", "title": "The keys of the atoms of a vertex are its own", "statement": "A routing info gives the keys of its key and mask in increasing order, the first n if n are asked for, and refuses if there are not so many. The keys that get_keys computes for the atoms of a slice (with or without extra bits below) are different keys of the routing info that was allocated to the machine vertex, as long as it asked for enough keys, and are the first keys that the info gives. No key of an atom is a key of an atom of another machine vertex.", "quantifier": "every key and mask, every graph accepted by the allocator, every machine vertex without a fixed key, every number of atoms and of extra bits within what the vertex asked for", "why_tests_cant": "all allocations; a key that belongs to two vertices shows only for particular sizes", "anchors": ["pacman/utilities/utility_calls.py: get_keys", "pacman/model/routing_info/vertex_routing_info.py: get_keys", "pacman/operations/routing_info_allocator_algorithms/zoned_routing_info_allocator.py: allocate"]}
{"id": "C122", "title": "Bits can be taken out of words and single items told", "statement": "expand_to_bit_array and compress_from_bit_array undo each other. compress_bits_from_bit_array gives the number spelled by the bits at the given positions, for any number of positions up to 32. is_single says whether an iterable has exactly one item.", "quantifier": "every word, every list of 32 bits, every list of positions, every iterable", "why_tests_cant": "2^32 words and all lists of positions", "anchors": ["pacman/utilities/utility_calls.py: expand_to_bit_array, compress_from_bit_array, compress_bits_from_bit_array, is_single"]}
{"id": "C123", "title": "An object is found in a set exactly if an equal one was put in", "statement": "Equality of objects that can be put into sets and used as keys (chips and cores, keys and masks, placements, slices, tags, routing tables, SDRAM costs) is an equivalence that compares all fields, never raises, and goes with the hash: an object is found in a set exactly if one that is equal to it was put in, and the set holds no two equal objects.", "quantifier": "every sequence of objects put in, every object looked for, every hash function of tuples (collisions included)", "why_tests_cant": "all sequences of objects and all collisions of hashes", "anchors": ["pacman/model/graphs/common/chip_and_core.py: __eq__, __hash__", "pacman/model/routing_info/base_key_and_mask.py: __eq__, __hash__", "pacman/model/placements/placement.py: __eq__, __hash__", "pacman/model/resources/iptag_resource.py: __eq__, __hash__", "pacman/model/resources/reverse_iptag_resource.py: __eq__, __hash__", "pacman/model/graphs/common/slice.py: __eq__, __hash__", "pacman/model/routing_tables/uncompressed_multicast_routing_table.py: __eq__, __hash__", "pacman/model/routing_tables/compressed_multicast_routing_table.py: __eq__, __hash__", "pacman/model/resources/constant_sdram.py: __eq__"]}
{"id": "C124", "title": "The check of the routes accepts what the mapping makes", "statement": "If a graph has been routed, given keys for each atom of each machine vertex, and tables have been made, with either generator, then validate_routes on these tables does not raise.", "quantifier": "every machine, every graph that is mapped, every number of atoms that have keys, both generators", "why_tests_cant": "all graphs, all machines and all allocations of keys; whether the check refuses good tables depends on which keys are next to each other on some chip", "anchors": ["pacman/operations/multi_cast_router_check_functionality/valid_routes_checker.py: validate_routes, _search_route, _locate_routing_entry", "pacman/operations/router_algorithms/application_router.py: route_application_graph", "pacman/operations/routing_info_allocator_algorithms/zoned_routing_info_allocator.py: allocate", "pacman/operations/routing_table_generators/basic_routing_table_generator.py: basic_routing_table_generator", "pacman/operations/routing_table_generators/merged_routing_table_generator.py: merged_routing_table_generator"]}
{"id": "C125", "title": "The information of an application vertex describes that of its machine vertices", "statement": "In the routing information that is allocated, the indices of the machine vertices that send in a partition number them from 0 in the order of their slices; max_machine_index is the last of them; machine_mask and n_bits_atoms are the mask of each of them and the number of its zero bits; and the key of the machine vertex of index i is the key of the application vertex plus i times 2^n_bits_atoms.", "quantifier": "every list of partitions, every number of keys, with and without fixed keys, both modes of the allocator", "why_tests_cant": "all partitions and all sizes; the merging of table entries computes keys from these numbers and is wrong where they are", "anchors": ["pacman/operations/routing_info_allocator_algorithms/zoned_routing_info_allocator.py: __find_fixed, __set_fixed_used, __allocate_all_fixed, __allocate", "pacman/model/routing_info/app_vertex_routing_info.py: machine_mask, n_bits_atoms, merge_machine_entries", "pacman/model/routing_info/machine_vertex_routing_info.py: index"]}
{"id": "C126", "title": "Exactly when keys can be allocated", "statement": "Allocation of keys succeeds if and only if the fixed keys of each partition agree and there is a width w of at most 32 bits such that a block of 2^w keys is enough for each partition without fixed keys, and there are as many blocks of that size free of fixed keys as there are partitions that send. Both modes succeed for the same partitions.", "quantifier": "every list of partitions, every number of keys, with and without fixed keys, both modes of the allocator", "why_tests_cant": "the allocator computes its widths and moves past fixed keys step by step; that it gives up only if no width would do is a statement about all widths and all placements of fixed keys", "anchors": ["pacman/operations/routing_info_allocator_algorithms/zoned_routing_info_allocator.py: __find_fixed, __calculate_zones, __check_zones, __set_fixed_used, __allocate"]}
{"id": "C127", "title": "A number of atoms that is given is rounded to the one meant or refused", "statement": "round_n_atoms returns an integer exactly if what is given is nearer than 0.001 to it, which is at most one integer, and warns exactly if it is not the number given; anything else that is a number is refused with PacmanInvalidParameterException.", "quantifier": "every integer, every float with NaN and infinities", "why_tests_cant": "2^64 floats and all integers; halves and the bound itself are rare values", "anchors": ["pacman/model/graphs/application/application_vertex.py: round_n_atoms"]}
{"id": "C128", "title": "A vertex is spread over linked chips exactly if they have its cores", "statement": "Of an application vertex each machine vertex may go to any core and SDRAM is not the limit: on each chip with free cores the cap is not passed and for every free core there is room for any of its machine vertices. Then the placer places it exactly if there are as many free cores as machine vertices on chips that can be reached from one another over chips with free cores.", "quantifier": "every machine, all vertices and system placements that came before, every vertex without a fixed location that is not virtual and not placed before", "why_tests_cant": "the placer tries start chips one after the other, walks to neighbours board by board, puts back what it has tried and gives up; that no order of trying misses room is a statement about all machines and all earlier placements", "anchors": ["pacman/operations/placer_algorithms/application_placer.py: _place_vertex, _prepare_placements, _get_next_chip_with_space, _get_next_start, _get_next_neighbour, _pop_start_chip, _add_neighbours, _pop_neighbour"]}
{"id": "C129", "title": "The merged generator's iterator with peek reads its iterable", "statement": "Over any iterable, peek returns the item that the next pop returns (None if there is none), has_next says if there is one, pop takes the items in order and then raises StopIteration, in whatever order these are called; the iterable is asked for one item more than have been taken and never again once it has stopped. So the merged generator makes of its items what a loop over the list of them makes.", "quantifier": "every iterable, finite or not, every sequence of calls; every dictionary of entries on a chip", "why_tests_cant": "about all interleavings of calls and all iterables, infinite ones and those that misbehave once they have ended", "anchors": ["pacman/operations/routing_table_generators/merged_routing_table_generator.py: _IteratorWithNext, __create_routing_table, __match"]}
{"id": "C130", "title": "A packet with the key of a pixel of a 2D device gets to exactly the vertices that receive from the device", "statement": "When a graph with 2D devices that hand out a key for each sub-rectangle of their pixels is partitioned, placed, routed, given keys and tables: each pixel is of just one machine vertex of the device; that is the only machine vertex in the graph that has the key which the device sends for the pixel; packets with this key get from the chip of the device to exactly the cores of the machine vertices that receive from the device, and to the links of the devices that do, with both table generators.", "quantifier": "every graph with vertices that are split, vertices with one machine vertex and devices; every size of devices and sub-rectangles, every base key, every machine on which there is room", "why_tests_cant": "about the keys that bit fields of a device make, the slices that the splitter makes, the numbering of machine vertices, merging of entries and routing together, for all sizes and graphs", "anchors": ["pacman/model/graphs/application/abstract/abstract_2d_device_vertex.py: _get_slice, _get_key_and_mask, _mask", "pacman/model/partitioner_splitters/splitter_external_device.py: create_machine_vertices", "pacman/operations/routing_info_allocator_algorithms/zoned_routing_info_allocator.py: allocate", "pacman/operations/routing_table_generators/merged_routing_table_generator.py: merged_routing_table_generator", "pacman/operations/router_algorithms/application_router.py: route_application_graph"]}
{"id": "C131", "title": "Vertices are placed beside monitors and vertices with fixed locations", "statement": "Given the placements of monitors, a vertex is placed if beside them there are cores for its machine vertices and the SDRAM that is left on the chips is enough for them; vertices with fixed locations that are placed beside the monitors, and devices, do not keep other vertices from being placed on what is left.", "quantifier": "every machine, all placements of monitors, every list of vertices with and without fixed locations, every amount of SDRAM", "why_tests_cant": "unit tests place on machines with few monitors that need little; the placer takes the SDRAM of monitors off its limit and counts it again as used, which shows only where they need much", "anchors": ["pacman/operations/placer_algorithms/application_placer.py: __init__, do_placements, _place_fixed_vertex, _place_vertex, _space_on_chip"]}
{"id": "C132", "title": "The report of a graph that cannot be placed says what was placed and what not", "statement": "When PacmanPlaceException is raised a report has been written. It lists exactly the application vertices that have machine vertices which are not placed, says how many of the last one are not, lists where the machine vertices are that the placer has put on chips, and which chips it has put nothing on, with the number of their free cores. The drawing of placements has the colour of unused chips for exactly these chips.", "quantifier": "every machine, all placements of monitors, every list of vertices at any of which the placer may fail", "why_tests_cant": "the existing tests only ask that the exception is raised; whether the report is true depends on where in the graph the placer fails and on what is shared between the objects compared", "anchors": ["pacman/operations/placer_algorithms/application_placer.py: place_application_graph, do_placements, _place_error", "pacman/operations/placer_algorithms/draw_placements.py: draw_placements"]}
{"id": "C133", "title": "Tables that are precompressed and then compressed deliver the packets of the graph", "statement": "If the tables made for a graph are precompressed by the range compressor, and what it returns is compressed by the pair compressor or by ordered covering without failing, the packets of the graph take the same ways and get to the same cores and links as with the tables first made.", "quantifier": "every graph, machine and list of keys with masks that are ones followed by zeros; all targets and modes of both compressors, both generators for the pair compressor", "why_tests_cant": "the compressors are tested one at a time on tables that a generator made; what the range compressor makes has wider entries, and whether the next compressor may reorder them depends on keys and routes of all vertices", "anchors": ["pacman/operations/router_compressors/ranged_compressor.py: range_compressor, compress_table, _merge_range", "pacman/operations/router_compressors/abstract_compressor.py: compress_all_tables, compress_tables", "pacman/operations/router_compressors/pair_compressor.py: pair_compressor", "pacman/operations/router_compressors/ordered_covering_router_compressor/ordered_covering.py: ordered_covering_compressor", "pacman/data/pacman_data_view.py: get_precompressed", "pacman/data/pacman_data_writer.py: set_precompressed"]}
{"id": "C134", "title": "Range compression output can be fed to ordered covering", "statement": "Where a key is matched by two entries of what the range compressor returns the later one is at least as general, so range compression followed by ordered covering handles every key of every entry of the original table as the entry says, or leaves it unmatched where the entry is defaultable.", "quantifier": "every finite table of disjoint contiguous ranges, every pair of target lengths and every key", "why_tests_cant": "the range compressor lets entries overlap and relies on their order, ordered covering sorts and merges what it is given; whether their orders agree depends on all neighbouring ranges and all merges", "anchors": ["pacman/operations/router_compressors/ranged_compressor.py: RangeCompressor.compress_table, _merge_range", "pacman/operations/router_compressors/ordered_covering_router_compressor/ordered_covering.py: ordered_covering, _refine_upcheck, _refine_downcheck, _Merge.apply"]}
{"id": "C135", "title": "Ordered covering may be continued from what it returned", "statement": "If ordered_covering is called again and again, each time with the table and the aliases it last returned (and any target), the last table gives by first match the same route as the first for every key the first one matches, and the aliases list key/masks of the first table, each for the entry that now routes its keys. The routes are also kept if the aliases are forgotten in between.", "quantifier": "every finite table whose intersecting entries are in order of generality, every number of calls, all targets, time limits and keys", "why_tests_cant": "what is returned has entries wider than those given and relies on their order; only an invariant over all calls settles that a further call keeps it", "anchors": ["pacman/operations/router_compressors/ordered_covering_router_compressor/ordered_covering.py: ordered_covering (aliases), _get_covered_keys_and_masks, _Merge.apply"]}
{"id": "C136", "title": "Refining a merge gives up no more entries than it takes", "statement": "If the merge of some entries would hide keys of entries below it, a round of _refine_downcheck looks at the hidden key/masks with the fewest bits that could be set in the merge, and gives up the smallest of the sets of entries whose removal sets one of these bits to the other value; what is left, unless nothing is, no longer hides these key/masks.", "quantifier": "every table, all aliases and every merge of its entries that hides some key/mask, each of them with a bit to set", "why_tests_cant": "a test sees which entries were merged in one table; whether more of them could have been depends on all the ways to set a bit and the order in which they are tried", "anchors": ["pacman/operations/router_compressors/ordered_covering_router_compressor/ordered_covering.py: _refine_downcheck"]}
{"id": "C137", "title": "The best merge is applied", "statement": "In each round ordered covering applies the merge that, of all routes, gets rid of the most entries: what _refine_merge leaves of the set of all entries with the route when there is nothing yet to be better than. It does not matter in which order the routes are looked at or that refining is broken off as soon as a merge is not better than the best so far; there is a merge if there is one for any route.", "quantifier": "every table in order of generality that is not empty, and all aliases", "why_tests_cant": "the bound passed to the refinement changes which checks are made; that the outcome is that of the full refinement for every route needs a proof over all tables", "anchors": ["pacman/operations/router_compressors/ordered_covering_router_compressor/ordered_covering.py: _get_best_merge, _get_all_merges, _refine_merge, _refine_upcheck, _refine_downcheck"]}
{"id": "C138", "title": "Ordered covering stops only at its target or when no merge is left", "statement": "When ordered_covering returns, either the table is no longer than the target or no route has a merge of two entries or more. What it returns without a target is left as it is by another call with the same aliases. If it was stopped at a target, a call without one on what it returned gives what the first call would have given without a target.", "quantifier": "every table that is not empty, all aliases, targets and time limits", "why_tests_cant": "that a second call finds nothing, or continues exactly, is about the end state of every run", "anchors": ["pacman/operations/router_compressors/ordered_covering_router_compressor/ordered_covering.py: ordered_covering"]}
{"id": "C139", "title": "The pair compressor leaves no two entries that can be merged", "statement": "In the list returned by the pair compressor, ordered or not, there are no two entries of one route that one entry could replace: each entry that matches all keys of the two matches a key of an entry with another route, which in an ordered result stands behind them. The unordered compressor given its own result returns the same entries.", "quantifier": "every table, both sorts, both kinds of result, all routers with room for the routes", "why_tests_cant": "an entry is passed over when it is compared, and the entries it was compared with are merged with others afterwards; that a later merge never opens an earlier one is a fact about all tables", "anchors": ["pacman/operations/router_compressors/pair_compressor.py: _find_merge, _compress_by_route, compress_table"]}
{"id": "C140", "title": "The most frequent route becomes a single entry", "statement": "With an ordered result, the pair compressor turns all entries of a most frequent route of the table into one entry, the last. The routes stand in the result in the order of how often they are used in the given table, rare ones first, and the entries of a route stand together. Both hold for the built-in sort and for the sort of the C code.", "quantifier": "every table that is not empty, both sorts", "why_tests_cant": "relies on the counts, the sort by them, the hand-written three-way quicksort and the in-place merging together, for every table", "anchors": ["pacman/operations/router_compressors/pair_compressor.py: compress_table, _update_frequency, _compare_routes, _three_way_partition_table, _quicksort_table, _three_way_partition_routes, _quicksort_routes, _compress_by_route"]}
{"id": "C141", "title": "A run of entries that has a block of keys for itself becomes one entry", "statement": "When the range compressor compresses a table, entries of one route that are neighbours in the order of their keys, and whose keys lie in an aligned block of a power of two keys where no other entry has a key, are replaced by one entry. The entries before and behind them become at most as many as they were.", "quantifier": "every table of entries with contiguous masks that do not overlap, every run and block", "why_tests_cant": "the power used depends on the distance of the first and last key and on the keys around the run; single tables show one alignment each", "anchors": ["pacman/operations/router_compressors/ranged_compressor.py: compress_table, _merge_range"]}
{"id": "C142", "title": "Merging machine entries never makes a table longer", "statement": "merge_machine_entries yields no more entries than it is given, at most 2 * log2(n + 1) for n machine vertices that follow one another, and just one for all machine vertices of an application vertex. Where the basic and the merged generator both make a table for a chip, that of the merged generator is not longer; the basic one has one entry for each source.", "quantifier": "every list of machine vertices and every application vertex; every set of sources on a chip", "why_tests_cant": "a bound for all run lengths, starting numbers and numbers of machine vertices", "anchors": ["pacman/model/routing_info/app_vertex_routing_info.py: AppVertexRoutingInfo.merge_machine_entries, __n_sequential_entries", "pacman/operations/routing_table_generators/merged_routing_table_generator.py: __create_routing_table, __match, __merged_keys_and_masks", "pacman/operations/routing_table_generators/basic_routing_table_generator.py: __create_routing_table"]}
{"id": "C143", "title": "How much room compressed tables need", "statement": "The result of the pair compressor has each route of the given table, with at least one and at most as many entries as before. With ordered results the pair compressor makes tables that fit if for each table there is a route such that the router has room for one entry and all entries of the other routes, whatever the keys are. No table that sends the keys of the given one where they went has fewer entries than that has routes, so with more routes than entries in the router each compressor fails.", "quantifier": "every collection of tables, every size of the routers, both sorts, with and without overflow accepted", "why_tests_cant": "a bound from the routes alone for all keys; and that no table at all can do with fewer entries is about all tables", "anchors": ["pacman/operations/router_compressors/pair_compressor.py: pair_compressor, compress_table, _compress_by_route, _update_frequency", "pacman/operations/router_compressors/abstract_compressor.py: AbstractCompressor._run, compress_tables", "pacman/operations/router_compressors/ranged_compressor.py: range_compressor", "pacman/operations/router_compressors/ordered_covering_router_compressor/ordered_covering.py: ordered_covering_compressor"]}
{"id": "C144", "title": "Tags can be allocated exactly if there are enough of them", "statement": "The tag allocator returns if and only if there are no more requests than seven for each Ethernet chip, and each tag is asked for by no more requests than there are Ethernet chips (by none if it is not one of 1 to 7); otherwise it raises PacmanNotFoundError. In particular the order of the vertices does not decide whether it returns.", "quantifier": "every machine, every list of placed vertices with IP tags, in every order", "why_tests_cant": "depends on how tags taken on other boards, automatic tags and requested tags work together over all boards and orders", "anchors": ["pacman/operations/tag_allocator_algorithms/basic_tag_allocator.py: basic_tag_allocator, __get_chip_and_tag, __find_tag_chip, __find_free_tag"]}
{"id": "C145", "title": "The chip counter is at most 3 - 2/k times off", "statement": "With k cores to use on each chip, the number of chips a ChipCounter reports is at most 3 - 2/k times the number of chips of any way at all of sharing the cores out within the cores and SDRAM of a chip, in whatever order; so is the number of chips that splitter_partitioner returns. It is the least possible when k is 1 or when all cores need the same SDRAM. For every k >= 2 there are arbitrarily large graphs for which it is off by that factor (but for one chip). It is no worst case: the same cores added in another order may need more chips.", "quantifier": "every number of cores and SDRAM on a chip, every list of SDRAM requirements in every order, every arrangement of them on chips; every graph for the partitioner", "why_tests_cant": "a comparison with all arrangements of the cores; the worst order grows with the number of chips", "anchors": ["pacman/utilities/utility_objs/chip_counter.py: ChipCounter.add_core, ChipCounter.n_chips", "pacman/operations/partition_algorithms/splitter_partitioner.py: splitter_partitioner"]}
{"id": "C146", "title": "Needing less never takes more chips", "statement": "If cores are left out, or need less SDRAM, or chips have more cores or SDRAM to use, a ChipCounter to which the cores are added in the same order does not report more chips. Two lists of cores together take no more chips than the sum, and no fewer than either.", "quantifier": "every number of cores and SDRAM on a chip, every list of SDRAM requirements, every way of leaving out and lowering them", "why_tests_cant": "rules that fill chips one after the other are known for anomalies where less takes more; none is found or excluded by examples", "anchors": ["pacman/utilities/utility_objs/chip_counter.py: ChipCounter.add_core, ChipCounter.n_chips"]}
{"id": "C147", "title": "A graph that needs at most a quarter of the keys gets them", "statement": "Without fixed keys, the allocator in either mode returns if for each partition the number of sending partitions, times the number of its machine vertices, times the keys of any one of them, is at most 2^30. If all partitions have n machine vertices with k keys, x partitions get their keys exactly if x, n and k fit into numbers of bits that are at most 32 together. With little more than 2^30 it may raise.", "quantifier": "every graph without fixed keys, every number of partitions, machine vertices and keys", "why_tests_cant": "graphs of that size are not built in tests, and which numbers are rounded up before which check cannot be seen on small ones", "anchors": ["pacman/operations/routing_info_allocator_algorithms/zoned_routing_info_allocator.py: allocate, __calculate_zones, __check_zones", "pacman/utilities/utility_calls.py: allocator_bits_needed"]}
{"id": "C148", "title": "A graph with less in it gets its keys too", "statement": "If the allocator returns for a graph, then also, in either mode, for one with partitions or machine vertices left out, with fewer keys asked for, or in another order; whether it returns does not depend on the order of partitions. Not so for fixed keys: a key that need no longer be the fixed one may make it raise.", "quantifier": "every graph with fixed keys or without, every way of leaving out and lowering, both modes", "why_tests_cant": "there are too many ways to take something away; an anomaly would need one particular size", "anchors": ["pacman/operations/routing_info_allocator_algorithms/zoned_routing_info_allocator.py: allocate, __find_fixed, __calculate_zones, __check_zones, __set_fixed_used"]}
{"id": "C149", "title": "All entries that may be left to default routing are removed", "statement": "After remove_default_routes no defaultable entry is left that shares no key with an entry behind it; another call returns the same table. Called on a table with such an entry it removes one at least.", "quantifier": "every table of valid entries, overlapping ones included", "why_tests_cant": "the check looks at entries behind in the table given, some of which are removed too; tests have no overlapping defaultable entries", "anchors": ["pacman/operations/router_compressors/ordered_covering_router_compressor/utils.py: remove_default_routes", "pacman/operations/router_compressors/ordered_covering_router_compressor/ordered_covering.py: compress_table"]}
{"id": "C150", "title": "A compressed table may be compressed again", "statement": "What a compressor returns for a table in which entries with different routes share no keys may be given to a compressor again, the same or another one, and each key of the first table still goes where it went. (The documentation promises this of the unordered pair compressor, as a precompressor for one that makes use of order.)", "quantifier": "every table of valid entries in which entries with different routes share no keys, each pair of the pair compressors and ordered covering", "why_tests_cant": "tests compress tables once; whether the output meets what the next compressor takes for granted about its input cannot be seen from either alone", "anchors": ["pacman/operations/router_compressors/pair_compressor.py: compress_table", "pacman/operations/router_compressors/ordered_covering_router_compressor/ordered_covering.py: compress_table"]}
{"id": "C151", "title": "Leaving out tag requests never makes tag allocation fail", "statement": "If tags can be allocated for the placed vertices of a graph, then they can be allocated when vertices are left out, or some of the IP tags or reverse IP tags they request, the rest being in the same order. When those left out come last, the others are given the same tags as before.", "quantifier": "every machine with different addresses of boards, every placed graph with tags requested, automatic and fixed, with any ports, every part of its requests", "why_tests_cant": "which tag and port a request is given depends on all requests before it, so leaving one out changes what the others are given, and a tag or port they are now given could be one that a later request insists on; tests allocate for a graph, not for its parts", "anchors": ["pacman/operations/tag_allocator_algorithms/basic_tag_allocator.py: basic_tag_allocator, __get_chip_and_tag, __find_free_tag, __find_tag_chip, __get_port"]}
{"id": "C152", "title": "More boards never make tag allocation fail", "statement": "If tags can be allocated for a placed graph on a machine, then they can be allocated on a machine with more boards, as long as the Ethernet chips of the first come in the same order.", "quantifier": "every two machines with different addresses of boards, the Ethernet chips of the one being part of those of the other in the same order, every placed graph with its vertices on the first", "why_tests_cant": "with another board, tags that spill over from a full board are taken elsewhere, which changes what is left for all later requests; tests use one machine", "anchors": ["pacman/operations/tag_allocator_algorithms/basic_tag_allocator.py: basic_tag_allocator, __get_chip_and_tag, __find_free_tag, __find_tag_chip"]}
{"id": "C153", "title": "Leaving out vertices never makes placement fail", "statement": "If a graph without fixed locations can be placed, then it can be placed when application vertices are left out, the others being in the same order.", "quantifier": "every machine, every placed graph without fixed locations, every part of its application vertices", "why_tests_cant": "where a vertex is put depends on all vertices before it, and the chips left need to be linked for the next one; tests place a graph, not its parts", "anchors": ["pacman/operations/placer_algorithms/application_placer.py: ApplicationPlacer.do_placements, _place_vertex, _get_next_chip_with_space, _get_next_start, _get_next_neighbour"]}
{"id": "C154", "title": "A machine with more chips and links never makes placement fail", "statement": "If a graph without fixed locations can be placed on a machine, then it can be placed on a machine which has these chips and links and more.", "quantifier": "every machine, every placed graph without fixed locations, every machine with further chips or links", "why_tests_cant": "with a chip more the vertices start elsewhere, and the chips left need to be linked for the next one; tests use one machine per graph", "anchors": ["pacman/operations/placer_algorithms/application_placer.py: ApplicationPlacer.do_placements, _place_vertex, _get_next_chip_with_space, _get_next_start, _get_next_neighbour"]}
{"id": "C155", "title": "No more machine vertices than the atoms need", "statement": "The slices of an application vertex, and the machine vertices the partitioner makes of it with SplitterFixedLegacy, are as few as any way of sharing out its atoms takes with the maximum number of atoms per core; allowing more atoms per core or having fewer atoms never takes more.", "quantifier": "every number of atoms, every shape, every maximum that is accepted, every way of sharing out the atoms", "why_tests_cant": "it compares with every way of sharing out the atoms; tests look at the slices of a few vertices", "anchors": ["pacman/model/partitioner_splitters/splitter_fixed_legacy.py: SplitterFixedLegacy.create_machine_vertices, __fixed_slices", "pacman/utilities/algorithm_utilities/partition_algorithm_utilities.py: get_single_dimension_slices, get_multidimensional_slices"]}
{"id": "C156", "title": "More links never make a way longer", "statement": "If fixed routes can be built on a machine then they can be where there are further links, and no chip needs more hops to its Ethernet chip; likewise of the path that the application router searches around faults, with further chips too.", "quantifier": "every machine for which routes are found, every further link or chip, every order in which Python goes through sets", "why_tests_cant": "it compares the routes of two machines of any shape; tests look at one at a time", "anchors": ["pacman/operations/fixed_route_router/fixed_route_router.py: build_fixed_routes, _route_board", "pacman/operations/router_algorithms/application_router.py: _find_path"]}
{"id": "C157", "title": "A table gets into its target exactly if it does when compressed as far as possible", "statement": "Without a time limit, ordered covering gets a table into n entries exactly if it does when called without a target, and so does its compressor, which removes default routes as well; and ordered covering called with a lower target never returns a longer table.", "quantifier": "every table that is not empty, every n that is not 0, every set of aliases", "why_tests_cant": "it compares the calls with all targets on any table; tests call it with one", "anchors": ["pacman/operations/router_compressors/ordered_covering_router_compressor/ordered_covering.py: ordered_covering", "pacman/operations/router_compressors/ordered_covering_router_compressor/ordered_covering.py: compress_table", "pacman/operations/router_compressors/ordered_covering_router_compressor/utils.py: remove_default_routes"]}
{"id": "C158", "title": "A longer run never needs less SDRAM, nor more than its parts", "statement": "If no cost goes down with the timesteps, the total SDRAM for more timesteps is never less. Of any costs, the SDRAM for a run beyond the fixed cost is at most that of two runs that are together as long, and at most k times that of a k-th of the run.", "quantifier": "every cost, with shared blocks and regions, every number of timesteps", "why_tests_cant": "rounding up happens for each part of a cost; tests add up a few costs for a few numbers of timesteps", "anchors": ["pacman/model/resources/variable_sdram.py: VariableSDRAM.get_total_sdram", "pacman/model/resources/shared_sdram.py: SharedSDRAM.get_total_sdram, fixed", "pacman/model/resources/multi_region_sdram.py: MultiRegionSDRAM.get_total_sdram"]}
{"id": "C159", "title": "The compression checker may be used step by step", "statement": "If the checker accepts B for A and C for B, then C handles every key of every entry of A as the entry says, and the checker accepts C for A. It accepts a table without overlapping entries for itself, in any order; and a compressed table for an original exactly if it does so for each entry of the original.", "quantifier": "every three tables of valid entries, every key; compressed tables without repeated key/masks", "why_tests_cant": "tests check one compressed table against one original; what two accepted steps mean together depends on every entry and key", "anchors": ["pacman/operations/router_compressors/routing_compression_checker.py: compare_tables", "pacman/operations/router_compressors/routing_compression_checker.py: compare_route"]}
{"id": "C160", "title": "The compression checker accepts what the compressors return", "statement": "Whatever ordered covering (alone, or with the removal of default routes) or the range compressor returns for a table without overlapping entries is accepted by the compression checker for that table, and so is what the unordered compressor returns for a table in which entries of different routes do not overlap, whichever entries are defaultable.", "quantifier": "every table of valid entries (for the range compressor with contiguous masks), every target", "why_tests_cant": "the checker goes over the compressed entries in order and looks at their defaultable flags; tests run both on a few tables", "anchors": ["pacman/operations/router_compressors/routing_compression_checker.py: compare_tables", "pacman/operations/router_compressors/ordered_covering_router_compressor/ordered_covering.py: compress_table", "pacman/operations/router_compressors/ranged_compressor.py: RangeCompressor.compress_table", "pacman/operations/router_compressors/pair_compressor.py: _PairCompressor.compress_table"]}
