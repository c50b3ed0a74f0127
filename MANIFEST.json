{"claims": [
{"property": "C01", "status": "proved", "theorems": ["Pacman.KeyMask.C01_get_keys_exact", "Pacman.KeyMask.C01_get_keys_array", "Pacman.KeyMask.C01_get_keys_limit", "Pacman.KeyMask.C01_full_mask_ignores_limit", "Pacman.KeyMask.C01_constructor"], "note": "negative offsets and limits are not modelled; with a full mask the limit is ignored by the code (stated as its own theorem)"},
{"property": "C02", "status": "proved", "theorems": ["Pacman.KeyMask.C02_key_ranges_partition"], "note": ""},
{"property": "C03", "status": "proved", "theorems": ["Pacman.Pair.C03_pair_preserves_routing", "Pacman.Pair.C03_pair_entries"], "note": "ordered and unordered, Python sort and C-like sort"},
{"property": "C04", "status": "proved", "theorems": ["Pacman.Pair.C04_unordered_order_independent", "Pacman.Pair.C04_ordered_needs_order"], "note": "the second theorem shows the ordered compressor does not have the property"},
{"property": "C05", "status": "proved", "theorems": ["Pacman.Pair.C05_pair_never_grows", "Pacman.Pair.C05_pair_succeeds", "Pacman.Pair.C05_pair_too_many_routes"], "note": "success needs no more distinct routes than router entries; otherwise IndexError"},
{"property": "C06", "status": "proved", "theorems": ["Pacman.Range.C06_range_preserves_routing", "Pacman.Range.C06_overlap_unchanged", "Pacman.Range.C06_short_unchanged", "Pacman.Range.C06_empty_table_fails"], "note": "non-empty tables with contiguous masks; an empty table that must be compressed raises IndexError"},
{"property": "C07", "status": "partial", "theorems": ["Pacman.Range.C07_range_then_pair_misroutes", "Pacman.Range.C07_range_output_disjoint_partial", "Pacman.Range.C07_range_then_pair_partial"], "note": "false of the code (witness: low_cut < pre_point should be <=); proved when no entry is for a single even key"},
{"property": "C08", "status": "proved", "theorems": ["Pacman.OC.C08_oc_preserves_routing", "Pacman.OC.C08_oc_orthogonal", "Pacman.OC.C08_oc_aliases", "Pacman.OC.C08_compressor_preserves_routing", "Pacman.OC.C08_compressor_orthogonal", "Pacman.OC.C08_order_needed"], "note": "with any target, with or without raising, whenever the time limit strikes; the compressor theorems add the removal of default routes; C08_order_needed shows a table that is not ordered"},
{"property": "C09", "status": "proved", "theorems": ["Pacman.OC.C09_oc_terminates", "Pacman.OC.C09_oc_returns", "Pacman.OC.C09_empty_table_fails"], "note": "an empty table without a target raises IndexError (own theorem)"},
{"property": "C10", "status": "proved", "theorems": ["Pacman.OC.C10_remove_default_safe", "Pacman.OC.C10_remove_default_unchecked", "Pacman.OC.C10_unchecked_needs_orthogonal", "Pacman.OC.C10_remove_default_fails"], "note": ""},
{"property": "C11", "status": "partial", "theorems": ["Pacman.Checker.C11_checker_sound_partial", "Pacman.Checker.C11_checker_sound_table_partial", "Pacman.Checker.C11_repeated_key_mask_accepted"], "note": "false of the code when the compressed table repeats a key/mask (witness); proved for all other tables"},
{"property": "C12", "status": "proved", "theorems": ["Pacman.Checker.C12_checker_complete", "Pacman.Checker.C12_defaultable_entry_rejected", "Pacman.Checker.C12_repeated_key_mask_rejected"], "note": "the last two theorems show that both side conditions are needed"},
{"property": "C13", "status": "proved", "theorems": ["Pacman.Driver.C13_compress_tables", "Pacman.Driver.C13_pair_all_chips", "Pacman.Driver.C13_pair_verified_fits", "Pacman.Driver.C13_ordered_covering_narrow", "Pacman.Driver.C13_ordered_covering_all_chips", "Pacman.Driver.C13_range_all_chips", "Pacman.Driver.C13_range_overflow", "Pacman.Driver.C13_range_as_far"], "note": "a fresh compressor object; the theorems after the first combine the driver with C03, C08/C10 and C06"},
{"property": "C14", "status": "proved", "theorems": ["Pacman.Tables.C14_uncompressed_is_map", "Pacman.Tables.C14_repeat_unchanged"], "note": ""},
{"property": "C15", "status": "partial", "theorems": ["Pacman.Tables.C15_different_chips_equal", "Pacman.Tables.C15_equal_tables_partial", "Pacman.Tables.C15_equal_compressed_partial"], "note": "false of the code (witness: chips in the same row or column); proved that equal tables share a coordinate and their contents"},
{"property": "C16", "status": "proved", "theorems": ["Pacman.Tables.C16_one_table_per_chip"], "note": ""},
{"property": "C17", "status": "proved", "theorems": ["Pacman.Alloc.C17_flexible_disjoint", "Pacman.Alloc.C17_flexible_app_disjoint", "Pacman.Alloc.C17_zero_keys_clash"], "note": "Under three stated conditions on the input: distinct vertices and valid fixed keys, no fixed key on a partition without outgoing vertices (C20_idle_fixed_key_given_away), and at most one vertex in a partition whose vertices ask for no keys (C17_zero_keys_clash shows the clash otherwise)."},
{"property": "C18", "status": "partial", "theorems": ["Pacman.Alloc.C18_global_clash", "Pacman.Alloc.C18_global_unfixed_disjoint_partial", "Pacman.Alloc.C18_global_same_size_partial", "Pacman.Alloc.C18_clear_disjoint_partial", "Pacman.Alloc.C18_clear_app_disjoint_partial"], "note": "False with fixed keys: witness. Proved between unfixed blocks, and against fixed keys where some vertex without a fixed key needs as large blocks, and as many of them, as any, for instance when all need the same number of key bits."},
{"property": "C19", "status": "proved", "theorems": ["Pacman.Alloc.C19_block_fits", "Pacman.Alloc.C19_fails_only_with_allocation_error", "Pacman.Alloc.C19_flexible_succeeds"], "note": "Both modes, same conditions as C17."},
{"property": "C20", "status": "partial", "theorems": ["Pacman.Alloc.C20_fixed_honoured_partial", "Pacman.Alloc.C20_idle_fixed_key_moves", "Pacman.Alloc.C20_idle_fixed_key_given_away", "Pacman.Alloc.C20_idle_fixed_key_unbound"], "note": "False when a partition with a fixed key has no outgoing vertices (a stale local variable): witnesses. Proved otherwise."},
{"property": "C21", "status": "partial", "theorems": ["Pacman.RInfo.C21_lookup", "Pacman.RInfo.C21_iteration", "Pacman.RInfo.C21_add", "Pacman.RInfo.C21_single_partial", "Pacman.RInfo.C21_queries_change_results"], "note": "Lookups, iteration and adding are proved in full. get_single_info_from and len are proved only for stores that no query has touched: queries insert empty dictionaries, C21_queries_change_results is the witness."},
{"property": "C22", "status": "partial", "theorems": ["Pacman.Gen.C22_merge_preserves", "Pacman.Gen.C22_allocated_partial", "Pacman.Gen.C22_fixed_keys_lost"], "note": "Proved for all keys the allocator chooses itself, in both modes (C22_allocated_partial) and for any consecutive zoned machine vertices (C22_merge_preserves). False for fixed keys: C22_fixed_keys_lost is the witness."},
{"property": "C23", "status": "partial", "theorems": ["Pacman.Gen.C23_generators_agree", "Pacman.Gen.C23_allocated_partial", "Pacman.Gen.C23_fixed_keys_differ"], "note": "Proved for zoned keys, and end to end for everything the allocator returns in a mode in which blocks keep clear of fixed keys (C18), where the fixed keys of an application vertex belong to one machine vertex, or to several with masks that have holes (as for 2D devices) or with blocks in line. False where several fixed machine keys lie otherwise: C23_fixed_keys_differ."},
{"property": "C24", "status": "partial", "theorems": ["Pacman.Gen.C24_uniform_partial", "Pacman.Gen.C24_basic", "Pacman.Gen.C24_defaultable_neighbour"], "note": "False as stated (C24_defaultable_neighbour); proved when entries with equal routes agree on being defaultable, and for the basic generator without condition."},
{"property": "C25", "status": "proved", "theorems": ["Pacman.ByPart.C25_union", "Pacman.ByPart.C25_never_mixed", "Pacman.ByPart.C25_failure_changes_nothing"], "note": "RoutingEntry.merge is a parameter with the contract that it unites routes."},
{"property": "C26", "status": "proved", "theorems": ["Pacman.TagAlloc.C26_history", "Pacman.TagAlloc.C26_accepts_exactly", "Pacman.TagAlloc.C26_never_double_booked"], "note": ""},
{"property": "C27", "status": "proved", "theorems": ["Pacman.TagAlloc.C27_granted", "Pacman.TagAlloc.C27_in_order", "Pacman.TagAlloc.C27_fails_only", "Pacman.TagAlloc.C27_succeeds"], "note": "Every board has its own address and every vertex is on a board of the machine."},
{"property": "C28", "status": "partial", "theorems": ["Pacman.TagAlloc.C28_spill_fails", "Pacman.TagAlloc.C28_spill_always_fails", "Pacman.TagAlloc.C28_success_partial", "Pacman.TagAlloc.C27_succeeds"], "note": "False: a reverse tag found on another board always makes the allocation fail (witness and general theorem). Proved that in every successful allocation tags are recorded where reserved."},
{"property": "C29", "status": "partial", "theorems": ["Pacman.TagAlloc.C29_ports_clash", "Pacman.TagAlloc.C29_success_distinct", "Pacman.TagAlloc.C29_outside_partial", "Pacman.TagAlloc.C27_succeeds"], "note": "False for requested ports in the automatic range (witness). Proved for requested ports outside of it, and that a successful allocation never shares a port."},
{"property": "C30", "status": "proved", "theorems": ["Pacman.Plc.C30_bijection", "Pacman.Plc.C30_of_type", "Pacman.Plc.C30_accepts_exactly", "Pacman.Plc.C30_constructor"], "note": ""},
{"property": "C31", "status": "proved", "theorems": ["Pacman.Placer.C31_unique"], "note": "for all machines, graphs and system placements; set iteration order is an arbitrary permutation"},
{"property": "C32", "status": "partial", "theorems": ["Pacman.Placer.C32_false", "Pacman.Placer.C32_free_partial", "Pacman.Placer.C32_no_fixed_partial", "Pacman.Placer.C32_costs", "Pacman.Placer.C32_costs_alone", "Pacman.Placer.C32_costs_left", "Pacman.Placer.C32_objects_partial"], "note": "false as stated: SDRAM is not checked for fixed locations (C32_false). Proved for every chip on which the placer was free to put a vertex, and for graphs without fixed locations; also for SDRAM objects whose totals do not add up, such as those with shared blocks (C32_objects_partial)"},
{"property": "C33", "status": "proved", "theorems": ["Pacman.Placer.C33_together", "Pacman.Placer.C33_shared"], "note": "that groups share no vertex is needed (C33_shared)"},
{"property": "C34", "status": "proved", "theorems": ["Pacman.Placer.C34_ends", "Pacman.Placer.C34_outcome", "Pacman.Placer.C34_too_big", "Pacman.Placer.C34_empty_group"], "note": "termination for all inputs; outcome on machines whose links lead to chips; an empty group can give an IndexError (C34_empty_group)"},
{"property": "C35", "status": "partial", "theorems": ["Pacman.Placer.C35_false", "Pacman.Placer.C35_ordered_partial", "Pacman.Placer.C35_increasing_partial"], "note": "false: looking for a core uses up the cores before it (C35_false). Proved for requests in the order in which the set of free cores is gone through"},
{"property": "C36", "status": "proved", "theorems": ["Pacman.FixedRoute.C36_delivered", "Pacman.FixedRoute.C36_chips", "Pacman.FixedRoute.C36_fails", "Pacman.FixedRoute.C36_succeeds"], "note": "the machine (links, boards, wrap-around) is a parameter; order of set iteration arbitrary"},
{"property": "C37", "status": "proved", "theorems": ["Pacman.RPath.C37_walk", "Pacman.RPath.C37_fails"], "note": "the machine is a parameter: chips, working links, xy_over_link"},
{"property": "C38", "status": "partial", "theorems": ["Pacman.RPath.C38_loops_partial", "Pacman.RPath.C38_ends", "Pacman.RPath.C38_simple", "Pacman.RPath.C38_false", "Pacman.RPath.C38_end_lost"], "note": "false: the places of removed chips stay in seen_nodes (witnesses); proved for walks that do not return to a removed loop"},
{"property": "C39", "status": "proved", "theorems": ["Pacman.RPath.C39_end", "Pacman.RPath.C39_longest_first"], "note": "xy_over_link of spinn_machine by contract: sum, wrapped where the machine wraps"},
{"property": "C40", "status": "partial", "theorems": ["Pacman.Targets.C40_false", "Pacman.Targets.C40_family_partial", "Pacman.Targets.C40_exact_partial"], "note": "false: replacing an application vertex gives all its machine vertices the same list objects, so a core added for one is added for all (witness). Proved: nothing crosses between application vertices; exact if no application vertex is named both as a whole and by machine vertices"},
{"property": "C41", "status": "partial", "theorems": ["Pacman.Valid.C41_sound_partial", "Pacman.Valid.C41_once_partial", "Pacman.Valid.C41_met_partial", "Pacman.Valid.C41_ends", "Pacman.Valid.C41_accepts", "Pacman.Valid.C41_known", "Pacman.Valid.C41_graph_partial", "Pacman.Valid.C41_graph_ends", "Pacman.Valid.C41_false_default", "Pacman.Valid.C41_false_masks"], "note": "The claim (C41_full) is refuted twice: the trace stops at a chip without a table where the packet is default-routed, and entries whose mask is not a block are not checked on the source chip. Proved for every key of the source under the two missing conditions, for one source and for a whole graph; termination and acceptance of good routes are proved."},
{"property": "C42", "status": "partial", "theorems": ["Pacman.Valid.C42_false", "Pacman.Valid.C42_beside", "Pacman.Valid.C42_partial"], "note": "The claim is false: the block right after the keys is always found fault with (C42_beside, C42_false). Proved for entries that also leave the key after the last one free."},
{"property": "C43", "status": "proved", "theorems": ["Pacman.Slices.C43_slices_tile", "Pacman.Slices.C43_no_maximum", "Pacman.Slices.C43_fails"], "note": ""},
{"property": "C44", "status": "proved", "theorems": ["Pacman.Slices.C44_slices_tile", "Pacman.Slices.C44_only_valid"], "note": "Valid vertices: positive sizes, and atoms per core that divide them (the code checks this); the second theorem shows that slicing succeeds for no others."},
{"property": "C45", "status": "proved", "theorems": ["Pacman.Slices.C45_inverse"], "note": ""},
{"property": "C46", "status": "proved", "theorems": ["Pacman.Slices.C46_inverse"], "note": "For any number of dimensions, with the link to the slices."},
{"property": "C47", "status": "partial", "theorems": ["Pacman.AppGraph.C47_vertices_partial", "Pacman.AppGraph.C47_accepts_partial", "Pacman.AppGraph.C47_label_stays_partial", "Pacman.AppGraph.C47_given_like_generated", "Pacman.AppGraph.C47_unlabelled"], "note": "false in general: a generated label may be one given before, and the vertex that had it is lost (witnesses). Proved for all calls when no given label ends in a digit."},
{"property": "C48", "status": "partial", "theorems": ["Pacman.Device.C48_exists", "Pacman.Device.C48_disjoint", "Pacman.Device.C48_index", "Pacman.Device.C48_pixels_partial", "Pacman.Device.C48_spanned"], "note": "disjointness proved for all; a pixel matched by its sub-rectangle proved unless one sub-rectangle spans a dimension of at least two pixels, for which C48_spanned proves that half of the pixels are never matched."},
{"property": "C49", "status": "partial", "theorems": ["Pacman.Sdram.C49_sum", "Pacman.Sdram.C49_order", "Pacman.Sdram.C49_whole_numbers", "Pacman.Sdram.C49_plain_total", "Pacman.Sdram.C49_unknown_runtime", "Pacman.Sdram.C49_fractions", "Pacman.Sdram.C49_equality_one_way", "Pacman.Sdram.C49_levels"], "note": "Proved: order never matters, own parts add, shared blocks count once per key (on each level, where costs per core have shared blocks themselves: C49_levels), for blocks that agree under ==. False that totals add when costs per timestep are fractions (rounding up), and == is one-way between constant and variable costs: witnesses."},
{"property": "C50", "status": "partial", "theorems": ["Pacman.Regions.C50_totals_partial", "Pacman.Regions.C50_shared_object", "Pacman.Regions.C50_added_later", "Pacman.Regions.C50_argument_changed", "Pacman.Regions.C50_bytes_partial", "Pacman.Regions.C50_shared_block"], "note": "Proved for histories in which an object passed to another one is not used by itself afterwards, for it and everything within it, with the total equal to what was given. False otherwise: three witnesses. In bytes (get_total_sdram) proved if no shared block is in two regions of an object, otherwise false (C50_shared_block)."},
{"property": "C51", "status": "proved", "theorems": ["Pacman.Parts.C51_destination", "Pacman.Parts.C51_source", "Pacman.Parts.C51_source_without_edge", "Pacman.Parts.C51_fixed_destination", "Pacman.Parts.C51_fixed_source", "Pacman.Parts.C51_two_edges_one_vertex"], "note": "Any history of calls. A destination with two edges in a destination-segmented partition reads back the first only (last theorem); the read-back claim is for vertices with one edge."},
{"property": "C52", "status": "partial", "theorems": ["Pacman.Parts.C52_refused_edge_kept", "Pacman.Parts.C52_single_partial", "Pacman.Parts.C52_destination", "Pacman.Parts.C52_source", "Pacman.Parts.C52_refused_edge_sets_size", "Pacman.Parts.C52_constant_partial"], "note": "False for single-source partitions (multicast, application, constant): witnesses. Proved for both segmented partitions, and for the others for edges from the right source."},
{"property": "C53", "status": "proved", "theorems": ["Pacman.Counter.C53_feasible", "Pacman.Counter.C53_at_most_cores", "Pacman.Counter.C53_least", "Pacman.Counter.C53_no_cores"], "note": ""},
{"property": "C54", "status": "partial", "theorems": ["Pacman.Json.C54_iptag", "Pacman.Json.C54_iptags", "Pacman.Json.C54_reverse_iptag", "Pacman.Json.C54_reverse_iptags", "Pacman.Json.C54_missing", "Pacman.Json.C54_placement_partial", "Pacman.Json.C54_placement_never_equal", "Pacman.Tables.C54_tables_round_trip", "Pacman.Tables.C54_tables_reachable"], "note": "False for placements as compared by ==, as the vertex read back is a new object; label and coordinates come back."},
{"property": "C55", "status": "proved", "theorems": ["Pacman.RouteWord.C55_bits", "Pacman.RouteWord.C55_word_determines"], "note": ""},
{"property": "C56", "status": "proved", "theorems": ["Pacman.RPath.C56_connected", "Pacman.RPath.C56_working", "Pacman.RPath.C56_inside", "Pacman.RPath.C56_fails"], "note": "the machine is a parameter: chips, working links, xy_over_link"},
{"property": "C57", "status": "proved", "theorems": ["Pacman.Router.C57_bits", "Pacman.Router.C57_entries", "Pacman.Router.C57_defaultable"], "note": "exact entries for every forest of routes, target table and tables made before"},
{"property": "C58", "status": "partial", "theorems": ["Pacman.Range.C06_hole_never_ends", "Pacman.Range.C06_range_preserves_routing"], "note": "false of the code for masks with holes (witness never ends for any number of rounds); proved for contiguous masks"},
{"property": "C59", "status": "partial", "theorems": ["Pacman.Plc.C59_query_adds_chip", "Pacman.Plc.C59_chips_partial"], "note": "False after queries for empty chips (witness); proved for additions only, and one inclusion always."},
{"property": "C60", "status": "partial", "theorems": ["Pacman.Gen.C60_basic_rejects", "Pacman.Gen.C60_merged_rejects_partial", "Pacman.Gen.C60_merged_accepts"], "note": "Proved for the basic generator. False for the merged one, which does not note the keys of merged sources: witness; proved there for sources that are never merged."},
{"property": "C61", "status": "proved", "theorems": ["Pacman.Parts.C61_constant", "Pacman.Parts.C61_not_set"], "note": ""},
{"property": "C62", "status": "proved", "theorems": ["Pacman.AppGraph.C62_edges", "Pacman.AppGraph.C62_accepts"], "note": "for every sequence of calls, exceptions caught"},
{"property": "C63", "status": "partial", "theorems": ["Pacman.AppGraph.C63_edges_inside_partial", "Pacman.AppGraph.C63_inside_accepted_partial", "Pacman.AppGraph.C63_same_label"], "note": "false in general: only labels are compared, so a vertex outside the graph with the label of one inside is accepted (witness). Proved when no vertex outside has such a label."},
{"property": "C64", "status": "partial", "theorems": ["Pacman.Device.C64_pixels", "Pacman.Device.C64_count_partial", "Pacman.Device.C64_too_many"], "note": "every pixel once: proved for all; the number a slice says is false where the sub-rectangles do not divide the device (witness)"},
{"property": "C65", "status": "partial", "theorems": ["Pacman.Device.C65_atoms", "Pacman.Device.C65_all_atoms_partial", "Pacman.Device.C65_atoms_lost", "Pacman.Device.C65_no_slices"], "note": "false in general: the remainder of the division is left out (witness); proved exactly which atoms are in"},
{"property": "C66", "status": "proved", "theorems": ["Pacman.FixedRoute.C66_shortest", "Pacman.FixedRoute.C66_entry", "Pacman.FixedRoute.C66_order"], "note": ""},
{"property": "C67", "status": "proved", "theorems": ["Pacman.RPath.C67_shortest", "Pacman.RPath.C67_simple"], "note": ""},
{"property": "C68", "status": "partial", "theorems": ["Pacman.RPath.C68_repaired", "Pacman.RPath.C68_walk_partial", "Pacman.RPath.C68_intact", "Pacman.RPath.C68_false"], "note": "proved up to loop removal for all; false after it: C68_false has a connected machine and a route along the longest dimensions that becomes no walk"},
{"property": "C69", "status": "proved", "theorems": ["Pacman.RPath.C69_reachable"], "note": ""},
{"property": "C70", "status": "proved", "theorems": ["Pacman.Targets.C70_cores", "Pacman.Targets.C70_links", "Pacman.Targets.C70_apart", "Pacman.Targets.C70_succeeds", "Pacman.Targets.C70_ensure", "Pacman.Targets.C70_items"], "note": "one partition, as the router uses it"},
{"property": "C71", "status": "proved", "theorems": ["Pacman.RPath.C71_forest", "Pacman.RPath.C71_joined_forest", "Pacman.RPath.C71_listed_twice"], "note": "for all machines and ways; a child may be listed twice by the same parent (C71_listed_twice)"},
{"property": "C72", "status": "partial", "theorems": ["Pacman.RPath.C72_joins_partial"], "note": "proved whenever the detours do not return to a removed loop; otherwise the hops are no walk (C68_false)"},
{"property": "C73", "status": "partial", "theorems": ["Pacman.RPath.C73_reaches_partial"], "note": "as C72"},
{"property": "C74", "status": "partial", "theorems": ["Pacman.Router.C74_delivered_partial", "Pacman.Router.C74_false", "Pacman.Router.C74_false_loops"], "note": "false as stated: chips of the source from which nothing is sent (C74_false), routes broken by loop removal (C74_false_loops); proved for all other cases"},
{"property": "C75", "status": "partial", "theorems": ["Pacman.Router.C75_cores", "Pacman.Router.C75_links_partial", "Pacman.Router.C75_false_links", "Pacman.Router.C75_others", "Pacman.Router.C75_kept", "Pacman.Router.C75_sent"], "note": "cores, other entries and growth for all inputs; links false where a repaired way returns to a removed loop (C75_false_links), proved otherwise"},
{"property": "C76", "status": "proved", "theorems": ["Pacman.Router.C76_ends"], "note": ""},
{"property": "C77", "status": "partial", "theorems": ["Pacman.Router.C77_met_partial", "Pacman.Router.C77_false"], "note": "false where a repaired way returns to a removed loop (C77_false), proved otherwise"},
{"property": "C78", "status": "partial", "theorems": ["Pacman.Router.C78_partitions", "Pacman.Router.C78_fails"], "note": "a vertex without splitter is not left out, it raises (C78_fails); everything else proved"},
{"property": "C79", "status": "partial", "theorems": ["Pacman.Router.C79_delivered_partial", "Pacman.Router.C79_false", "Pacman.Router.C79_cores", "Pacman.Router.C79_unmixed", "Pacman.Router.C79_met_partial", "Pacman.Router.C79_ends"], "note": "delivery false as C74 (C79_false), proved for the other cases; cores, no mixing and termination for all inputs"},
{"property": "C80", "status": "proved", "theorems": ["Pacman.Placer.C80_linked"], "note": ""},
{"property": "C81", "status": "partial", "theorems": ["Pacman.Placer.C81_false", "Pacman.Placer.C81_room_partial", "Pacman.Placer.C81_groups_partial"], "note": "false: a chip is given up once all but a core's share of the SDRAM is used (C81_false). Proved for chips below this cap, also for vertices with several groups that fit together on one chip"},
{"property": "C82", "status": "partial", "theorems": ["Pacman.Placer.C82_false", "Pacman.Placer.C82_honoured_partial"], "note": "false: the chip of the first vertex is used for the whole group (C82_false). Proved where the fixed chips of a group agree"},
{"property": "C83", "status": "partial", "theorems": ["Pacman.Pipe.C83_false", "Pacman.Pipe.C83_internal_keyError", "Pacman.Pipe.C83_wide_machine_key", "Pacman.Pipe.C83_tables_made_partial", "Pacman.Pipe.C83_keys", "Pacman.Pipe.C83_keys_apart_partial", "Pacman.Pipe.C83_delivered_partial", "Pacman.Pipe.C83_only_partial"], "note": "false for internal senders that are not outgoing (C83_internal_keyError) and for machine keys wider than the key of the application vertex (C83_wide_machine_key); otherwise proved under the conditions of C79 and of the allocator and generator properties"},
{"property": "C84", "status": "partial", "theorems": ["Pacman.Pipe.C84_circle", "Pacman.Pipe.C84_false", "Pacman.Pipe.C84_one_way_partial", "Pacman.Pipe.C84_ends_partial", "Pacman.Pipe.C84_once_partial"], "note": "false: with a chip of the source where nothing sends packets may go round for ever (C84_circle). Proved where every chip of a source has a sender, under the conditions of C83"},
{"property": "C85", "status": "partial", "theorems": ["Pacman.Pipe.C85_merged", "Pacman.Pipe.C85_false", "Pacman.Pipe.C85_basic_partial", "Pacman.Pipe.C85_straight_partial"], "note": "false for the merged generator, which takes the flag of the first merged entry (C85_merged). Proved for the basic one under the conditions of C84"},
{"property": "C86", "status": "partial", "theorems": ["Pacman.Pipe.C86_false", "Pacman.Pipe.C86_pair_partial", "Pacman.Pipe.C86_ordered_covering_partial", "Pacman.Pipe.C86_range_partial", "Pacman.Pipe.C86_gets"], "note": "false for ordered covering after the merged generator (C86_false). Proved for the pair compressor after both, for ordered covering after the basic generator, for the range compressor with contiguous masks (which C118 shows them to be), under the conditions of C84"},
{"property": "C87", "status": "partial", "theorems": ["Pacman.Pipe.C87_false", "Pacman.Pipe.C87_stray", "Pacman.Pipe.C87_cores_partial", "Pacman.Pipe.C87_links_partial", "Pacman.Pipe.C87_exact_partial"], "note": "false: where one target on a chip asks for a source as a whole and then another for single machine vertices, the second gets the packets of all (C87_false). Proved where the targets on each chip without a sender ask all in one way, under the conditions of C83"},
{"property": "C88", "status": "partial", "theorems": ["Pacman.Split.C88_linked_partial", "Pacman.Split.C88_nobody", "Pacman.Split.C88_forever", "Pacman.Split.C88_refused", "Pacman.Split.C88_depth", "Pacman.Split.C88_left_tied", "Pacman.Split.C88_left_ruled"], "note": "false after a call that raised: a vertex keeps a splitter that refused it (C88_left_tied), a splitter governs a vertex that has another (C88_left_ruled). Proved where no call raised; that nothing is ever replaced is proved for all runs"},
{"property": "C89", "status": "partial", "theorems": ["Pacman.Split.C89_known_partial", "Pacman.Split.C89_answers", "Pacman.Split.C89_forgotten"], "note": "false for SplitterOneToOneLegacy after a reset: its machine vertex is lost to the placer (C89_forgotten). Proved for all others, and for it without a reset"},
{"property": "C90", "status": "partial", "theorems": ["Pacman.Split.C90_atoms_partial", "Pacman.Split.C90_count", "Pacman.Split.C90_one_to_one", "Pacman.Split.C90_whole", "Pacman.Split.C90_doubled", "Pacman.Split.C90_stale", "Pacman.Split.C90_governed_twice"], "note": "false without a reset between runs (C90_doubled, C90_stale) and for SplitterOneToOneLegacy.set_governed_app_vertex (C90_governed_twice). Proved for runs after splitters have been set, or after a reset of the graph, whatever was called before; for SplitterOneToOneLegacy for the former only (C90_whole)"},
{"property": "C91", "status": "partial", "theorems": ["Pacman.Split.C91_distinct", "Pacman.Split.C91_index_partial", "Pacman.Split.C91_wrong"], "note": "distinctness proved for all runs; the index is false for devices partitioned twice without a reset (C91_wrong), proved otherwise"},
{"property": "C92", "status": "partial", "theorems": ["Pacman.Split.C92_fpga_partial", "Pacman.Split.C92_fpga_atoms_partial", "Pacman.Split.C92_link_partial", "Pacman.Split.C92_receives_partial", "Pacman.Split.C92_no_device", "Pacman.Split.C92_replaced"], "note": "proved for all runs in which no call raised; false after one that did (C92_no_device)"},
{"property": "C93", "status": "partial", "theorems": ["Pacman.Split.C93_link_slices", "Pacman.Split.C93_divides", "Pacman.Split.C93_too_few"], "note": "false, e.g. five atoms in four machine vertices raise (C93_too_few); exactly the numbers for which it holds are given (C93_link_slices)"},
{"property": "C94", "status": "partial", "theorems": ["Pacman.Split.C94_chips_partial", "Pacman.Split.C94_not_there", "Pacman.Split.C94_devices_counted"], "note": "false for SplitterOneToOneLegacy after a reset, and without a reset between runs (C94_not_there). Proved for all other graphs that have been reset, and for all graphs whose splitters have just been set; virtual vertices of devices are counted as cores (C94_devices_counted)"},
{"property": "C95", "status": "partial", "theorems": ["Pacman.VLoc.C95_app_stays", "Pacman.VLoc.C95_set", "Pacman.VLoc.C95_machine_stays_partial", "Pacman.VLoc.C95_machine_moves", "Pacman.VLoc.C95_has_stays", "Pacman.VLoc.C95_label_stays"], "note": "false for a machine vertex given a location after its application vertex (C95_machine_moves); the rest proved for all runs"},
{"property": "C96", "status": "partial", "theorems": ["Pacman.Split.C96_accepted_partial", "Pacman.Split.C96_zero", "Pacman.Split.C96_none", "Pacman.Split.C96_refused_kept"], "note": "false: 0 is accepted (C96_zero), None always raises TypeError (C96_none), refused values are set (C96_refused_kept). Proved that other accepted values can be used"},
{"property": "C97", "status": "partial", "theorems": ["Pacman.Split.C97_slices_partial", "Pacman.Split.C97_doubled", "Pacman.Split.C97_reset_only"], "note": "false if partitioned twice without a reset (C97_doubled) or reset by splitter_reset only (C97_reset_only). Proved for all graphs that have been partitioned after a reset or after splitters have been set"},
{"property": "C98", "status": "partial", "theorems": ["Pacman.Split.C98_keys", "Pacman.Split.C98_exact_partial", "Pacman.Split.C98_atoms_partial", "Pacman.Split.C98_refused", "Pacman.Split.C98_device_fails", "Pacman.Split.C98_device_lost", "Pacman.Split.C98_device_same"], "note": "false for devices whose packets leave the machine from another chip than they come in (C98_device_fails, C98_device_lost). Proved for all other graphs with the built-in splitters, where ways do not return, partitioned after splitters were set or after a reset; the latter not for SplitterOneToOneLegacy, for which it is false (C89_forgotten)"},
{"property": "C99", "status": "partial", "theorems": ["Pacman.Split.C99_placed_partial", "Pacman.Split.C99_exact_partial", "Pacman.Split.C99_intact_partial", "Pacman.Split.C99_unplaced"], "note": "as C98, with places from the placer; that each vertex is in one place and that routing finds all places is proved. Missing: as in C98"},
{"property": "C100", "status": "partial", "theorems": ["Pacman.Split.C100_fits_partial", "Pacman.Split.C100_fixed"], "note": "false for vertices with a fixed location, whose SDRAM is not looked at (C100_fixed); proved for graphs without"},
{"property": "C101", "status": "partial", "theorems": ["Pacman.Split.C101_room_partial", "Pacman.Split.C101_shared_partial", "Pacman.Split.C101_remote_partial", "Pacman.Split.C101_counted_partial", "Pacman.Split.C101_beside_partial", "Pacman.Split.C101_false", "Pacman.Split.C101_apart"], "note": "false: the placer takes chips with little SDRAM left to be full (C101_false), and does not spread a vertex over chips that are not linked (C101_apart). Proved where each machine vertex needs at most the share of a core, and one after the other the vertices find their cores on linked chips however those before lie (AllFind), devices needing none (C101_remote_partial): so if each has one machine vertex, or at most a and a - 1 cores of each chip are not needed, or the first is as large as a connected machine"},
{"property": "C102", "status": "partial", "theorems": ["Pacman.Placer.C102_real_partial", "Pacman.Placer.C102_false", "Pacman.Placer.C102_index", "Pacman.Split.C102_devices"], "note": "false for groups with virtual and other vertices: all get cores, or an IndexError is raised (C102_false, C102_index). Proved for all other groups, so for the built-in splitters (C102_devices)"},
{"property": "C103", "status": "proved", "theorems": ["Pacman.View.C103_last", "Pacman.View.C103_refused", "Pacman.View.C103_placements", "Pacman.View.C103_plan", "Pacman.View.C103_plan_refused"], "note": "for all sequences of calls"},
{"property": "C104", "status": "proved", "theorems": ["Pacman.View.C104_first", "Pacman.View.C104_accepts", "Pacman.View.C104_needed", "Pacman.View.C104_text"], "note": "for all sequences of calls"},
{"property": "C105", "status": "proved", "theorems": ["Pacman.View.C105_sum", "Pacman.View.C105_ethernet", "Pacman.View.C105_left", "Pacman.View.C105_less"], "note": "for all sequences of calls; that the Ethernet chip has no more left needs costs that can be added and are not negative. C105_less shows that it may have strictly less than is reckoned with"},
{"property": "C106", "status": "proved", "theorems": ["Pacman.View.C106_noticed", "Pacman.View.C106_add", "Pacman.View.C106_counts"], "note": "for all sequences of calls, given when the superclass sets its flag"},
{"property": "C107", "status": "partial", "theorems": ["Pacman.View.C107_machine_partial", "Pacman.View.C107_false", "Pacman.View.C107_count"], "note": "false: a set-up resets the vertices of the new graph, not of the old (C107_false). Proved where no vertex is added after it got machine vertices; the number is proved without condition"},
{"property": "C108", "status": "partial", "theorems": ["Pacman.View.C108_partial", "Pacman.View.C108_zero"], "note": "false for graphs without machine vertices (C108_zero). Proved for all others that are split after splitters have been set, or after a reset; the latter not for SplitterOneToOneLegacy (C94_not_there)"},
{"property": "C109", "status": "proved", "theorems": ["Pacman.RPath.C109_way", "Pacman.Split.C109_noReturns"], "note": "for tori and for boards with edges along the links, as are the boards with 4 and 48 chips. C109_noReturns gives the hypothesis that C74, C77, C79, C83, C87, C98 and C99 make on ways"},
{"property": "C110", "status": "partial", "theorems": ["Pacman.Router.C110_partition_partial", "Pacman.Router.C110_graph_partial", "Pacman.Router.C110_intact_partial", "Pacman.Router.C110_false", "Pacman.Router.C110_target_apart", "Pacman.Router.C110_source_apart", "Pacman.Router.C110_no_target", "Pacman.Router.C110_no_edges", "Pacman.Split.C110_placed_partial", "Pacman.Split.C110_whole_partial", "Pacman.Split.C110_device_apart"], "note": "false: vertices whose chips are not together raise (C110_false, C110_source_apart, C110_device_apart). Proved for every partition and every graph whose sources and targets are each together; so for all placed graphs whose vertices have no fixed location, or are on one chip; on machines with faults where ways do not return, on machines without faults with no condition on ways"},
{"property": "C111", "status": "partial", "theorems": ["Pacman.Split.C111_placed_partial", "Pacman.Split.C111_whole_partial", "Pacman.Split.C111_shared_partial", "Pacman.Split.C111_graph_partial", "Pacman.Split.C111_devices_partial", "Pacman.Split.C111_pixels_partial", "Pacman.Split.C111_beside_partial"], "note": "proved for all graphs that have been placed, with vertices that have no fixed location or are on one chip; with placing for graphs whose machine vertices need at most the share of a core, whose vertices find their cores on linked chips one after the other (AllFind, as in C101); from the graph alone, with partitioning, for SplitterFixedLegacy, and with SplitterOneAppOneMachine and devices (C111_devices_partial), 2D devices with keys for their sub-rectangles among them (C111_pixels_partial). Missing: SplitterOneToOneLegacy after a reset (false, C89_forgotten), ways that return on machines with faults (C68), several fixed keys of a vertex whose masks have no holes and do not lie in line (from the graph alone: of vertices on several cores), and where C101 and C110 are false"},
{"property": "C112", "status": "proved", "theorems": ["Pacman.Split.C112_returns_iff", "Pacman.Split.C112_returns_usual"], "note": "both directions, for all histories of calls after which vertices and splitters agree on each other"},
{"property": "C113", "status": "partial", "theorems": ["Pacman.SliceText.C113_partial", "Pacman.SliceText.C113_plain", "Pacman.SliceText.C113_md_iff", "Pacman.SliceText.C113_raises", "Pacman.SliceText.C113_vertices", "Pacman.SliceText.C113_strings_differ", "Pacman.SliceText.C113_one_dimension_false", "Pacman.SliceText.C113_size_false"], "note": "false for an MDSlice of a vertex with one dimension and for one whose number of atoms is not the product of its sizes (C113_one_dimension_false, C113_size_false). Proved exactly for the others, so for all slices that the slicing of a vertex makes"},
{"property": "C114", "status": "partial", "theorems": ["Pacman.SliceText.C114_eq_iff", "Pacman.SliceText.C114_hash", "Pacman.SliceText.C114_string", "Pacman.SliceText.C114_end", "Pacman.SliceText.C114_end_false"], "note": "equality and hash proved for all pairs; the ends do not mean the same (C114_end_false), what they mean is C114_end"},
{"property": "C115", "status": "partial", "theorems": ["Pacman.Csv.C115_partial", "Pacman.Csv.C115_read_iff", "Pacman.Csv.C115_entries", "Pacman.Csv.C115_false"], "note": "false: a row whose key has a bit outside of its mask, or that contradicts another, raises and nothing is read (C115_false). Proved exactly for the other files, given what csv.reader returns"},
{"property": "C116", "status": "proved", "theorems": ["Pacman.Csv.C116_words", "Pacman.Csv.C116_raises", "Pacman.Csv.C116_injective"], "note": "for all keys, masks, processors and links"},
{"property": "C117", "status": "partial", "theorems": ["Pacman.Sdram.C117_partial", "Pacman.Sdram.C117_zero", "Pacman.Sdram.C117_bounds", "Pacman.Sdram.C117_whole_numbers", "Pacman.Sdram.C117_unknown", "Pacman.Sdram.C117_for_ever", "Pacman.Sdram.C117_false"], "note": "false: shared blocks are rounded up one by one (C117_false). Proved for costs without shared blocks and for whole costs per timestep; for all others with a bound of one byte for each part"},
{"property": "C118", "status": "partial", "theorems": ["Pacman.Pipe.C118_masks", "Pacman.Pipe.C118_same_partial", "Pacman.Pipe.C118_leads_partial", "Pacman.Pipe.C118_exact_partial", "Pacman.Split.C118_mapped_partial", "Pacman.Split.C118_graph_partial", "Pacman.Split.C118_devices_partial", "Pacman.Split.C118_pixels_partial"], "note": "false for ordered covering after the merged generator (C86_false). Proved for the others, for all graphs that have been mapped, and from the graph alone as in C111; fixed keys with masks that are not ones followed by zeros are left out for the range compressor only, without them all masks in tables are such (C118_masks)"},
{"property": "C119", "status": "partial", "theorems": ["Pacman.Driver.C119_pair", "Pacman.Driver.C119_ordered_covering", "Pacman.Driver.C119_range", "Pacman.Driver.C119_empty_false", "Pacman.Pipe.C119_sources", "Pacman.Pipe.C119_bound", "Pacman.Pipe.C119_after_range", "Pacman.Pipe.C119_return_partial", "Pacman.Pipe.C119_few_partial", "Pacman.Split.C119_graph_partial", "Pacman.Split.C119_devices_partial", "Pacman.Split.C119_pixels_partial"], "note": "false for empty tables (C119_empty_false) and, with the range compressor, for masks with holes (C06_hole_never_ends). Proved for all others, and tables made for a graph are never empty; partial as fixed keys with other masks are left out for the range compressor"},
{"property": "C120", "status": "proved", "theorems": ["Pacman.RTree.C120_iter", "Pacman.RTree.C120_len", "Pacman.RTree.C120_traverse", "Pacman.RTree.C120_all", "Pacman.RTree.C120_append"], "note": "for all finite trees; trees that contain themselves are not modelled"},
{"property": "C121", "status": "partial", "theorems": ["Pacman.AtomKeys.C121_info", "Pacman.AtomKeys.C121_atoms", "Pacman.AtomKeys.C121_apart", "Pacman.AtomKeys.C121_no_keys_of_one"], "note": "false: an info with a single key raises an IndexError when asked for no keys (C121_no_keys_of_one). All else is proved"},
{"property": "C122", "status": "partial", "theorems": ["Pacman.AtomKeys.C122_inverse", "Pacman.AtomKeys.C122_extract_partial", "Pacman.AtomKeys.C122_extract_refuses", "Pacman.AtomKeys.C122_single_partial", "Pacman.AtomKeys.C122_none_is_no_item"], "note": "false: no positions are refused with a ValueError (C122_extract_refuses) and None counts as the end of an iterable (C122_none_is_no_item). All else is proved"},
{"property": "C123", "status": "partial", "theorems": ["Pacman.Hashing.C123_eq", "Pacman.Hashing.C123_hash", "Pacman.Hashing.C123_found_partial", "Pacman.Hashing.C123_tables", "Pacman.Hashing.C123_tables_not_transitive", "Pacman.Hashing.C123_sdram", "Pacman.Hashing.C123_tag_and_other"], "note": "false of routing tables (equal tables have different hashes, and equality is not transitive), of SDRAM costs (not hashable) and of IP tags among other objects (AttributeError); proved for all others, for all hash functions"},
{"property": "C124", "status": "partial", "theorems": ["Pacman.Pipe.C124_exact_partial", "Pacman.Pipe.C124_spare_partial", "Pacman.Pipe.C124_asked_partial", "Pacman.Pipe.C124_beside", "Pacman.Pipe.C124_false_beside", "Pacman.Pipe.C124_device", "Pacman.Split.C124_mapped_partial", "Pacman.Split.C124_mapped_device", "Pacman.Split.C124_graph_partial", "Pacman.Split.C124_devices_partial", "Pacman.Split.C124_graph_beside"], "note": "false: graphs are refused if the atoms of a vertex fill its block of keys and the next block is used on its way (C124_beside, C124_false_beside), and always if a target is a device (C124_device). C124_exact_partial says exactly when it accepts; C124_spare_partial and C124_asked_partial that it does if all targets are on cores and each vertex has a spare key, asked for or fixed; C124_mapped_partial and C124_graph_partial say so of whole mappings, the latter from the graph alone, as does C124_devices_partial for graphs with devices that send"},
{"property": "C125", "status": "partial", "theorems": ["Pacman.Alloc.C125_index_partial", "Pacman.Alloc.C125_described_partial", "Pacman.Alloc.C125_all_fixed_partial", "Pacman.Alloc.C125_all_fixed_bits_partial", "Pacman.Alloc.C125_natural_partial", "Pacman.Alloc.C125_fixed_not_described", "Pacman.Alloc.C125_index_moves"], "note": "false with fixed keys: the mask of a machine vertex is the one fixed, its application vertex says another (C125_fixed_not_described); if all partitions have fixed keys, index and max_machine_index count the vertices that do not send too, so the same partition gets other numbers depending on the other partitions (C125_index_moves). Proved: the order of the indices if some partition has no fixed key or all machine vertices send in the order of slices, keys and masks where the partition has no fixed key, and what the numbers are if all are fixed"},
{"property": "C126", "status": "proved", "theorems": ["Pacman.Alloc.C126_iff", "Pacman.Alloc.C126_modes", "Pacman.Alloc.C126_wasted"], "note": "both directions, both modes, under the conditions of C17 on the input. The statement counts a block for each partition that sends, with fixed keys too: C126_wasted shows that more is asked for than is needed"},
{"property": "C127", "status": "partial", "theorems": ["Pacman.Round.C127_returns_partial", "Pacman.Round.C127_unique", "Pacman.Round.C127_refused_partial", "Pacman.Round.C127_false", "Pacman.Round.C127_infinity"], "note": "false of NaN (ValueError) and of infinities (OverflowError), which round raises; proved for all other numbers, with the exact value of the float 0.001 as the bound"},
{"property": "C128", "status": "proved", "theorems": ["Pacman.Placer.C128_spread"], "note": "both directions"},
{"property": "C129", "status": "partial", "theorems": ["Pacman.Iter.C129_calls_partial", "Pacman.Iter.C129_ahead", "Pacman.Iter.C129_prefix_partial", "Pacman.Iter.C129_none", "Pacman.Iter.C129_raise", "Pacman.Iter.C129_merged"], "note": "false of iterables with None, at which pop raises an AssertionError for ever while has_next is true (C129_none), and of those that raise: the item before is returned again (C129_raise). Proved for all others; the merged generator's items are never None (C129_merged)"},
{"property": "C130", "status": "partial", "theorems": ["Pacman.Split.C130_pixels_partial", "Pacman.Split.C130_compressed_partial", "Pacman.Split.C130_false", "Pacman.Split.C130_two_links", "Pacman.Split.C130_two_links_raise"], "note": "false of sub-rectangles one pixel high with rows that do not go on from one another, which the merged generator merges as if they did (C130_false), of devices on several links, where two machine vertices share the keys (C130_two_links), and of sub-rectangles that span the device (C48_spanned); proved for all others, under the conditions of C111_devices_partial on the graph and the machine, also for compressed tables as in C118"},
{"property": "C131", "status": "partial", "theorems": ["Pacman.Placer.C131_beside_partial", "Pacman.Placer.C131_false", "Pacman.Placer.C131_counted_twice"], "note": "False of the code: __max_sdram, and so the cap, is what the monitors leave, but _space_on_chip also counts the SDRAM of their placements as used. Where they need more than the cap on each chip, nothing is placed (C131_counted_twice); with monitors of 60 of 100 bytes a vertex of 10 bytes is not placed (C131_false). Proved for chips on which monitors, fixed vertices and the machine vertices that fill the free cores stay below the cap (Leaves): all vertices are placed if those with fixed locations alone are, and the others find cores however those before lie. SplitterExternalDevice vertices are passed by. Missing: groups of several machine vertices on one chip."},
{"property": "C132", "status": "partial", "theorems": ["Pacman.Placer.C132_written", "Pacman.Placer.C132_not_placed_partial", "Pacman.Placer.C132_counts_nothing", "Pacman.Placer.C132_same_object", "Pacman.Placer.C132_two_objects_partial", "Pacman.Placer.C132_drawing", "Pacman.Placer.C132_drawing_two_partial", "Pacman.Placer.C132_false", "Pacman.Placer.C132_hidden"], "note": "False of the code: place_application_graph gives the same object to the placer and as the system's placements, so no report says where a vertex was placed, and each lists all chips as unused (C132_same_object), as the drawing does (C132_drawing); the number of machine vertices of the last vertex that are not placed is always 0 of 0 (C132_counts_nothing). Proved: a report is written exactly if PacmanPlaceException is raised (C132_written), the vertices that it lists are those not placed (C132_not_placed_partial) if no vertex mixes virtual machine vertices with others (C132_hidden), and the other parts are right where two objects are given (C132_two_objects_partial, C132_drawing_two_partial)."},
{"property": "C133", "status": "partial", "theorems": ["Pacman.Pipe.C133_pair_partial", "Pacman.Pipe.C133_covering_partial", "Pacman.Pipe.C133_spread", "Pacman.Pipe.C133_false", "Pacman.Pipe.C118_same_partial", "Pacman.Driver.C13_range_apart"], "note": "False of the code: where each vertex asks for one key the range compressor makes an entry that takes in the key of an entry before it, the pair compressor sorts it to the front, and packets do not get to their target (C133_false, a graph on two chips). Proved for the pair compressor for all graphs whose tables have no entry for a single even key; that is so if whatever sends packets asks for at least two keys (C133_spread). Proved for ordered covering for all graphs with the basic generator (with the other one it fails by itself, C86_false). By C118_same_partial the theorems of C118 and C119 for whole graphs are about tables compressed twice, too."},
{"property": "C134", "status": "proved", "theorems": ["Pacman.Range.C134_range_narrow_first", "Pacman.Driver.C134_range_then_covering"], "note": "entries with masks of ones followed by zeros, as in C06; C13_ordered_covering_narrow and C133_covering_partial use it for all chips and for graphs"},
{"property": "C135", "status": "proved", "theorems": ["Pacman.OC.C135_continued_routes", "Pacman.OC.C135_continued_aliases", "Pacman.OC.C135_forgotten_routes", "Pacman.OC.C135_removed_not_protected"], "note": "the last theorem shows why the code warns that entries for default routing must still be in the table: with them removed in between a key they matched is taken by a merged entry"},
{"property": "C136", "status": "partial", "theorems": ["Pacman.OC.C136_round_partial", "Pacman.OC.C136_false", "Pacman.OC.C136_longer"], "note": "false where there is more than one way (C136_false): the merge is replaced within the loop over the ways, so what several of them take is given up; C136_longer is a table of seven entries left at six where the documented choice makes three. Proved: what is left does not hide what the first way is for, and with one way nothing else is given up"},
{"property": "C137", "status": "proved", "theorems": ["Pacman.OC.C137_best_merge"], "note": "Sorted is what ordered_covering starts with and keeps"},
{"property": "C138", "status": "proved", "theorems": ["Pacman.OC.C138_spent", "Pacman.OC.C138_again", "Pacman.OC.C138_resumed"], "note": ""},
{"property": "C139", "status": "proved", "theorems": ["Pacman.Pair.C139_no_merge_left", "Pacman.Pair.C139_ordered", "Pacman.Pair.C139_again"], "note": ""},
{"property": "C140", "status": "proved", "theorems": ["Pacman.Pair.C140_rare_first", "Pacman.Pair.C140_most_frequent"], "note": ""},
{"property": "C141", "status": "partial", "theorems": ["Pacman.Range.C141_run_partial", "Pacman.Range.C141_otherwise_two", "Pacman.Range.C141_false"], "note": "False of the code (C141_false: keys 4 and 5 of one route stay two entries): the inclusive last key is compared with the exclusive end of the block by <, and the power is put up only once. Proved: a run with keys before and after the middle of the block, more than a quarter of it from each other, becomes the entry of just this block (C141_run_partial); otherwise, in the smallest block that holds it, it becomes two entries or more (C141_otherwise_two). So the condition is exact"},
{"property": "C142", "status": "proved", "theorems": ["Pacman.Gen.C142_no_more", "Pacman.Gen.C142_few", "Pacman.Gen.C142_whole", "Pacman.Gen.C142_generators", "Pacman.Gen.C142_order_matters"], "note": "C142_order_matters: what is merged depends on the order in which the router came to the sources, as the generator follows the order of the dictionary"},
{"property": "C143", "status": "proved", "theorems": ["Pacman.Pair.C143_each_route", "Pacman.Pair.C143_ordered", "Pacman.Pair.C143_least", "Pacman.Driver.C143_fits", "Pacman.Driver.C143_too_many", "Pacman.Driver.C143_covering_too_many", "Pacman.Driver.C143_range_too_many"], "note": "for ordered covering, which leaves out defaultable entries, the routes of the others count; the pair compressors fail even where overflow is accepted"},
{"property": "C144", "status": "partial", "theorems": ["Pacman.TagAlloc.C144_needed", "Pacman.TagAlloc.C144_enough_partial", "Pacman.TagAlloc.C144_order_false", "Pacman.TagAlloc.C144_home", "Pacman.TagAlloc.C144_home_exact"], "note": "False of the code (C144_order_false): an automatic tag is the highest free one, so a request for tag 7 that comes after it fails where the other order succeeds. Proved: enough tags are needed whatever the requests (reverse IP tags, too); if the IP tags with a requested number come before the automatic ones it is exact; with reverse IP tags it succeeds, each tag on the board of its vertex, if each board has enough tags for the vertices on it, which is exact for one board and for reverse IP tags only. Other reverse IP tags that do not fit their own board fail by C28"},
{"property": "C145", "status": "proved", "theorems": ["Pacman.Counter.C145_near", "Pacman.Counter.C145_three", "Pacman.Counter.C145_one_core", "Pacman.Counter.C145_same", "Pacman.Counter.C145_tight", "Pacman.Counter.C145_worst_case_false", "Pacman.Split.C145_partitioner"], "note": "SDRAM requirements may not be negative; the partitioner under the conditions of C94_chips_partial"},
{"property": "C146", "status": "proved", "theorems": ["Pacman.Counter.C146_less", "Pacman.Counter.C146_together"], "note": "SDRAM requirements may not be negative; the sum for cores that fit on a chip"},
{"property": "C147", "status": "proved", "theorems": ["Pacman.Alloc.C147_quarter", "Pacman.Alloc.C147_even", "Pacman.Alloc.C147_tight"], "note": "for partitions as the allocator collects them; a partition whose machine vertices all ask for no keys has one of them only"},
{"property": "C148", "status": "proved", "theorems": ["Pacman.Alloc.C148_less", "Pacman.Alloc.C148_order", "Pacman.Alloc.C148_unfixed_false"], "note": "both graphs well-formed as for C126; C148_unfixed_false is the last sentence"},
{"property": "C149", "status": "partial", "theorems": ["Pacman.OC.C149_progress", "Pacman.OC.C149_apart_partial", "Pacman.OC.C149_again", "Pacman.OC.C149_false", "Pacman.OC.C149_compressed", "Pacman.OC.C149_refused"], "note": "False of the code: an entry is kept if it meets one behind it that is itself removed (C149_false); so the compressor keeps entries, and may refuse a table, of which nothing need be left (C149_compressed, C149_refused). Proved for tables whose defaultable entries share no keys; for all tables that something is removed if possible, and that as many calls as there are entries remove all"},
{"property": "C150", "status": "partial", "theorems": ["Pacman.Pair.C150_unordered_partial", "Pacman.Pair.C150_unordered_covering_partial", "Pacman.Pair.C150_unordered_default_partial", "Pacman.Pair.C150_pair_twice", "Pacman.Pair.C150_covering_pair", "Pacman.Pair.C150_pair_covering", "Pacman.Pair.C150_false"], "note": "False of what the ordered pair compressor and ordered covering return, whose order matters: the pair compressor puts the entries into another order (C150_pair_twice, C150_covering_pair), and so does ordered covering after it (C150_pair_covering). Proved of what the unordered compressor returns, for both pair compressors and ordered covering; ordered covering after itself is C135"},
{"property": "C151", "status": "proved", "theorems": ["Pacman.TagAlloc.C151_requests", "Pacman.TagAlloc.C151_vertices", "Pacman.TagAlloc.C151_first", "Pacman.TagAlloc.C151_same_false"], "note": "For requests with any ports. C151_same_false: unless they come last, leaving vertices out may give the others other tags"},
{"property": "C152", "status": "proved", "theorems": ["Pacman.TagAlloc.C152_boards", "Pacman.TagAlloc.C152_order_false"], "note": "C152_order_false: the condition on the order is needed, the same boards in another order may fail"},
{"property": "C153", "status": "partial", "theorems": ["Pacman.Placer.C153_ones_partial", "Pacman.Placer.C153_ample_partial", "Pacman.Placer.C153_false"], "note": "False in general: without the first vertex the next one starts in the corner of an L and cuts the free chips in two (C153_false). Proved for application vertices of one machine vertex each, and for graphs whose vertices find their cores however those before lie, SDRAM not being the limit"},
{"property": "C154", "status": "partial", "theorems": ["Pacman.Placer.C154_ones_partial", "Pacman.Placer.C154_ample_partial", "Pacman.Placer.C154_false"], "note": "False in general: with the corner of an L between two arms the first vertex starts there and cuts the free chips in two (C154_false). Proved for application vertices of one machine vertex each, and for graphs whose vertices find their cores however those before lie, the chips added being free, SDRAM not being the limit"},
{"property": "C155", "status": "proved", "theorems": ["Pacman.Slices.C155_single", "Pacman.Slices.C155_multi", "Pacman.Slices.C155_more", "Pacman.Slices.C155_more_multi", "Pacman.Split.C155_partitioned"], "note": "the partitioner under the conditions of C90: splitters just set, or after a reset of the graph"},
{"property": "C156", "status": "proved", "theorems": ["Pacman.FixedRoute.C156_fixed", "Pacman.RPath.C156_path"], "note": "the boards and their monitors are the same on both machines for the fixed routes"},
{"property": "C157", "status": "proved", "theorems": ["Pacman.OC.C157_met", "Pacman.OC.C157_table", "Pacman.OC.C157_lower", "Pacman.OC.C157_default_false"], "note": "C157_default_false: the last sentence would be false of the compressor that removes default routes"},
{"property": "C158", "status": "proved", "theorems": ["Pacman.Sdram.C158_longer", "Pacman.Sdram.C158_apart", "Pacman.Sdram.C158_times", "Pacman.Sdram.C158_negative"], "note": "costs per timestep are rational numbers, as for C49; C158_negative: the condition of the first sentence is needed"},
{"property": "C159", "status": "partial", "theorems": ["Pacman.Checker.C159_steps_partial", "Pacman.Checker.C159_accepted_partial", "Pacman.Checker.C159_false", "Pacman.Checker.C159_itself", "Pacman.Checker.C159_entries"], "note": "False of defaultable entries left out in the first step, whose keys any entry of the second may take (C159_false). Proved for entries that are not defaultable and for keys the middle table matches; C159_accepted_partial needs the first and last table to have no defaultable entries"},
{"property": "C160", "status": "proved", "theorems": ["Pacman.Checker.C160_enough", "Pacman.Checker.C160_covering", "Pacman.Checker.C160_compressor", "Pacman.Checker.C160_range", "Pacman.Checker.C160_unordered"], "note": "C160_unordered takes from spinn_machine that equal entries have the same key and mask; the other theorems hold for any equality. The ordered pair compressor is not claimed"}
]}
