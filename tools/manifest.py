#!/usr/bin/env python3
"""Writes ../MANIFEST.json.  M(property, status, theorems, note)."""
import json, os
OUT = os.path.join(os.path.dirname(__file__), "..", "MANIFEST.json")
L = []
def M(prop, status, theorems, note=""):
    L.append(dict(property=prop, status=status, theorems=theorems.split(), note=note))

def ns(prefix, names):
    return " ".join(prefix + "." + n for n in names.split())

M("C01", "proved", ns("Pacman.KeyMask", "C01_get_keys_exact C01_get_keys_array C01_get_keys_limit C01_full_mask_ignores_limit C01_constructor"),
  "negative offsets and limits are not modelled; with a full mask the limit is ignored by the code (stated as its own theorem)")
M("C02", "proved", ns("Pacman.KeyMask", "C02_key_ranges_partition"))
M("C03", "proved", ns("Pacman.Pair", "C03_pair_preserves_routing C03_pair_entries"),
  "ordered and unordered, Python sort and C-like sort")
M("C04", "proved", ns("Pacman.Pair", "C04_unordered_order_independent C04_ordered_needs_order"),
  "the second theorem shows the ordered compressor does not have the property")
M("C05", "proved", ns("Pacman.Pair", "C05_pair_never_grows C05_pair_succeeds C05_pair_too_many_routes"),
  "success needs no more distinct routes than router entries; otherwise IndexError")
M("C06", "proved", ns("Pacman.Range", "C06_range_preserves_routing C06_overlap_unchanged C06_short_unchanged C06_empty_table_fails"),
  "non-empty tables with contiguous masks; an empty table that must be compressed raises IndexError")
M("C07", "partial", ns("Pacman.Range", "C07_range_then_pair_misroutes C07_range_output_disjoint_partial C07_range_then_pair_partial"),
  "false of the code (witness: low_cut < pre_point should be <=); proved when no entry is for a single even key")
M("C58", "partial", ns("Pacman.Range", "C06_hole_never_ends C06_range_preserves_routing"),
  "false of the code for masks with holes (witness never ends for any number of rounds); proved for contiguous masks")
M("C11", "partial", ns("Pacman.Checker", "C11_checker_sound_partial C11_checker_sound_table_partial C11_repeated_key_mask_accepted"),
  "false of the code when the compressed table repeats a key/mask (witness); proved for all other tables")
M("C12", "proved", ns("Pacman.Checker", "C12_checker_complete C12_defaultable_entry_rejected C12_repeated_key_mask_rejected"),
  "the last two theorems show that both side conditions are needed")

M("C08", "proved", ns("Pacman.OC", "C08_oc_preserves_routing C08_oc_orthogonal C08_oc_aliases C08_compressor_preserves_routing C08_compressor_orthogonal C08_order_needed"),
  "with any target, with or without raising, whenever the time limit strikes; the compressor theorems add the removal of default routes; C08_order_needed shows a table that is not ordered")
M("C09", "proved", ns("Pacman.OC", "C09_oc_terminates C09_oc_returns C09_empty_table_fails"),
  "an empty table without a target raises IndexError (own theorem)")
M("C10", "proved", ns("Pacman.OC", "C10_remove_default_safe C10_remove_default_unchecked C10_unchecked_needs_orthogonal C10_remove_default_fails"))

M("C13", "proved", ns("Pacman.Driver", "C13_compress_tables C13_pair_all_chips C13_pair_verified_fits C13_ordered_covering_narrow C13_ordered_covering_all_chips C13_range_all_chips C13_range_overflow C13_range_as_far"),
  "a fresh compressor object; the theorems after the first combine the driver with C03, C08/C10 and C06")
M("C14", "proved", ns("Pacman.Tables", "C14_uncompressed_is_map C14_repeat_unchanged"))
M("C15", "partial", ns("Pacman.Tables", "C15_different_chips_equal C15_equal_tables_partial C15_equal_compressed_partial"),
  "false of the code (witness: chips in the same row or column); proved that equal tables share a coordinate and their contents")
M("C16", "proved", ns("Pacman.Tables", "C16_one_table_per_chip"))

M("C17", "proved", ns("Pacman.Alloc", "C17_flexible_disjoint C17_flexible_app_disjoint C17_zero_keys_clash"),
  "Under three stated conditions on the input: distinct vertices and valid fixed keys, no fixed key on a partition without outgoing vertices (C20_idle_fixed_key_given_away), and at most one vertex in a partition whose vertices ask for no keys (C17_zero_keys_clash shows the clash otherwise).")
M("C18", "partial", ns("Pacman.Alloc", "C18_global_clash C18_global_unfixed_disjoint_partial C18_global_same_size_partial C18_clear_disjoint_partial C18_clear_app_disjoint_partial"),
  "False with fixed keys: witness. Proved between unfixed blocks, and against fixed keys where some vertex without a fixed key needs as large blocks, and as many of them, as any, for instance when all need the same number of key bits.")
M("C19", "proved", ns("Pacman.Alloc", "C19_block_fits C19_fails_only_with_allocation_error C19_flexible_succeeds"),
  "Both modes, same conditions as C17.")
M("C20", "partial", ns("Pacman.Alloc", "C20_fixed_honoured_partial C20_idle_fixed_key_moves C20_idle_fixed_key_given_away C20_idle_fixed_key_unbound"),
  "False when a partition with a fixed key has no outgoing vertices (a stale local variable): witnesses. Proved otherwise.")

M("C21", "partial", ns("Pacman.RInfo", "C21_lookup C21_iteration C21_add C21_single_partial C21_queries_change_results"),
  "Lookups, iteration and adding are proved in full. get_single_info_from and len are proved only for stores that no query has touched: queries insert empty dictionaries, C21_queries_change_results is the witness.")
M("C25", "proved", ns("Pacman.ByPart", "C25_union C25_never_mixed C25_failure_changes_nothing"),
  "RoutingEntry.merge is a parameter with the contract that it unites routes.")

M("C22", "partial", ns("Pacman.Gen", "C22_merge_preserves C22_allocated_partial C22_fixed_keys_lost"),
  "Proved for all keys the allocator chooses itself, in both modes (C22_allocated_partial) and for any consecutive zoned machine vertices (C22_merge_preserves). False for fixed keys: C22_fixed_keys_lost is the witness.")

M("C23", "partial", ns("Pacman.Gen", "C23_generators_agree C23_allocated_partial C23_fixed_keys_differ"),
  "Proved for zoned keys, and end to end for everything the allocator returns in a mode in which blocks keep clear of fixed keys (C18), where the fixed keys of an application vertex belong to one machine vertex, or to several with masks that have holes (as for 2D devices) or with blocks in line. False where several fixed machine keys lie otherwise: C23_fixed_keys_differ.")
M("C24", "partial", ns("Pacman.Gen", "C24_uniform_partial C24_basic C24_defaultable_neighbour"),
  "False as stated (C24_defaultable_neighbour); proved when entries with equal routes agree on being defaultable, and for the basic generator without condition.")

M("C26", "proved", ns("Pacman.TagAlloc", "C26_history C26_accepts_exactly C26_never_double_booked"))
M("C27", "proved", ns("Pacman.TagAlloc", "C27_granted C27_in_order C27_fails_only C27_succeeds"),
  "Every board has its own address and every vertex is on a board of the machine.")
M("C28", "partial", ns("Pacman.TagAlloc", "C28_spill_fails C28_spill_always_fails C28_success_partial C27_succeeds"),
  "False: a reverse tag found on another board always makes the allocation fail (witness and general theorem). Proved that in every successful allocation tags are recorded where reserved.")
M("C29", "partial", ns("Pacman.TagAlloc", "C29_ports_clash C29_success_distinct C29_outside_partial C27_succeeds"),
  "False for requested ports in the automatic range (witness). Proved for requested ports outside of it, and that a successful allocation never shares a port.")
M("C30", "proved", ns("Pacman.Plc", "C30_bijection C30_of_type C30_accepts_exactly C30_constructor"))
M("C59", "partial", ns("Pacman.Plc", "C59_query_adds_chip C59_chips_partial"),
  "False after queries for empty chips (witness); proved for additions only, and one inclusion always.")
M("C43", "proved", ns("Pacman.Slices", "C43_slices_tile C43_no_maximum C43_fails"))
M("C44", "proved", ns("Pacman.Slices", "C44_slices_tile C44_only_valid"),
  "Valid vertices: positive sizes, and atoms per core that divide them (the code checks this); the second theorem shows that slicing succeeds for no others.")
M("C45", "proved", ns("Pacman.Slices", "C45_inverse"))
M("C46", "proved", ns("Pacman.Slices", "C46_inverse"),
  "For any number of dimensions, with the link to the slices.")

M("C49", "partial", ns("Pacman.Sdram", "C49_sum C49_order C49_whole_numbers C49_plain_total C49_unknown_runtime C49_fractions C49_equality_one_way C49_levels"),
  "Proved: order never matters, own parts add, shared blocks count once per key (on each level, where costs per core have shared blocks themselves: C49_levels), for blocks that agree under ==. False that totals add when costs per timestep are fractions (rounding up), and == is one-way between constant and variable costs: witnesses.")
M("C53", "proved", ns("Pacman.Counter", "C53_feasible C53_at_most_cores C53_least C53_no_cores"))
M("C54", "partial", ns("Pacman.Json", "C54_iptag C54_iptags C54_reverse_iptag C54_reverse_iptags C54_missing C54_placement_partial C54_placement_never_equal") + " " + ns("Pacman.Tables", "C54_tables_round_trip C54_tables_reachable"),
  "False for placements as compared by ==, as the vertex read back is a new object; label and coordinates come back.")
M("C55", "proved", ns("Pacman.RouteWord", "C55_bits C55_word_determines"))

M("C60", "partial", ns("Pacman.Gen", "C60_basic_rejects C60_merged_rejects_partial C60_merged_accepts"),
  "Proved for the basic generator. False for the merged one, which does not note the keys of merged sources: witness; proved there for sources that are never merged.")

M("C50", "partial", ns("Pacman.Regions", "C50_totals_partial C50_shared_object C50_added_later C50_argument_changed C50_bytes_partial C50_shared_block"),
  "Proved for histories in which an object passed to another one is not used by itself afterwards, for it and everything within it, with the total equal to what was given. False otherwise: three witnesses. In bytes (get_total_sdram) proved if no shared block is in two regions of an object, otherwise false (C50_shared_block).")

M("C51", "proved", ns("Pacman.Parts", "C51_destination C51_source C51_source_without_edge C51_fixed_destination C51_fixed_source C51_two_edges_one_vertex"),
  "Any history of calls. A destination with two edges in a destination-segmented partition reads back the first only (last theorem); the read-back claim is for vertices with one edge.")
M("C52", "partial", ns("Pacman.Parts", "C52_refused_edge_kept C52_single_partial C52_destination C52_source C52_refused_edge_sets_size C52_constant_partial"),
  "False for single-source partitions (multicast, application, constant): witnesses. Proved for both segmented partitions, and for the others for edges from the right source.")
M("C61", "proved", ns("Pacman.Parts", "C61_constant C61_not_set"))

M("C47", "partial", ns("Pacman.AppGraph", "C47_vertices_partial C47_accepts_partial C47_label_stays_partial C47_given_like_generated C47_unlabelled"),
  "false in general: a generated label may be one given before, and the vertex that had it is lost (witnesses). Proved for all calls when no given label ends in a digit.")
M("C62", "proved", ns("Pacman.AppGraph", "C62_edges C62_accepts"), "for every sequence of calls, exceptions caught")
M("C63", "partial", ns("Pacman.AppGraph", "C63_edges_inside_partial C63_inside_accepted_partial C63_same_label"),
  "false in general: only labels are compared, so a vertex outside the graph with the label of one inside is accepted (witness). Proved when no vertex outside has such a label.")

M("C48", "partial", ns("Pacman.Device", "C48_exists C48_disjoint C48_index C48_pixels_partial C48_spanned"),
  "disjointness proved for all; a pixel matched by its sub-rectangle proved unless one sub-rectangle spans a dimension of at least two pixels, for which C48_spanned proves that half of the pixels are never matched.")
M("C64", "partial", ns("Pacman.Device", "C64_pixels C64_count_partial C64_too_many"),
  "every pixel once: proved for all; the number a slice says is false where the sub-rectangles do not divide the device (witness)")
M("C65", "partial", ns("Pacman.Device", "C65_atoms C65_all_atoms_partial C65_atoms_lost C65_no_slices"),
  "false in general: the remainder of the division is left out (witness); proved exactly which atoms are in")

M("C36", "proved", ns("Pacman.FixedRoute", "C36_delivered C36_chips C36_fails C36_succeeds"),
  "the machine (links, boards, wrap-around) is a parameter; order of set iteration arbitrary")
M("C66", "proved", ns("Pacman.FixedRoute", "C66_shortest C66_entry C66_order"), "")

M("C37", "proved", ns("Pacman.RPath", "C37_walk C37_fails"), "the machine is a parameter: chips, working links, xy_over_link")
M("C38", "partial", ns("Pacman.RPath", "C38_loops_partial C38_ends C38_simple C38_false C38_end_lost"),
  "false: the places of removed chips stay in seen_nodes (witnesses); proved for walks that do not return to a removed loop")
M("C39", "proved", ns("Pacman.RPath", "C39_end C39_longest_first"), "xy_over_link of spinn_machine by contract: sum, wrapped where the machine wraps")
M("C67", "proved", ns("Pacman.RPath", "C67_shortest C67_simple"), "")
M("C68", "partial", ns("Pacman.RPath", "C68_repaired C68_walk_partial C68_intact C68_false"),
  "proved up to loop removal for all; false after it: C68_false has a connected machine and a route along the longest dimensions that becomes no walk")
M("C69", "proved", ns("Pacman.RPath", "C69_reachable"), "")

M("C40", "partial", ns("Pacman.Targets", "C40_false C40_family_partial C40_exact_partial"),
  "false: replacing an application vertex gives all its machine vertices the same list objects, so a core added for one is added for all (witness). Proved: nothing crosses between application vertices; exact if no application vertex is named both as a whole and by machine vertices")
M("C70", "proved", ns("Pacman.Targets", "C70_cores C70_links C70_apart C70_succeeds C70_ensure C70_items"), "one partition, as the router uses it")
M("C56", "proved", ns("Pacman.RPath", "C56_connected C56_working C56_inside C56_fails"), "the machine is a parameter: chips, working links, xy_over_link")
M("C71", "proved", ns("Pacman.RPath", "C71_forest C71_joined_forest C71_listed_twice"),
  "for all machines and ways; a child may be listed twice by the same parent (C71_listed_twice)")
M("C72", "partial", ns("Pacman.RPath", "C72_joins_partial"), "proved whenever the detours do not return to a removed loop; otherwise the hops are no walk (C68_false)")
M("C73", "partial", ns("Pacman.RPath", "C73_reaches_partial"), "as C72")

R = "Pacman.Router"
M("C57", "proved", ns(R, "C57_bits C57_entries C57_defaultable"),
  "exact entries for every forest of routes, target table and tables made before")
M("C74", "partial", ns(R, "C74_delivered_partial C74_false C74_false_loops"),
  "false as stated: chips of the source from which nothing is sent (C74_false), routes broken by loop removal (C74_false_loops); proved for all other cases")
M("C75", "partial", ns(R, "C75_cores C75_links_partial C75_false_links C75_others C75_kept C75_sent"),
  "cores, other entries and growth for all inputs; links false where a repaired way returns to a removed loop (C75_false_links), proved otherwise")
M("C76", "proved", ns(R, "C76_ends"), "")
M("C77", "partial", ns(R, "C77_met_partial C77_false"),
  "false where a repaired way returns to a removed loop (C77_false), proved otherwise")

M("C78", "partial", ns(R, "C78_partitions C78_fails"),
  "a vertex without splitter is not left out, it raises (C78_fails); everything else proved")
M("C79", "partial", ns(R, "C79_delivered_partial C79_false C79_cores C79_unmixed C79_met_partial C79_ends"),
  "delivery false as C74 (C79_false), proved for the other cases; cores, no mixing and termination for all inputs")

M("C41", "partial", ns("Pacman.Valid", "C41_sound_partial C41_once_partial C41_met_partial C41_ends C41_accepts C41_known C41_graph_partial C41_graph_ends C41_false_default C41_false_masks"),
  "The claim (C41_full) is refuted twice: the trace stops at a chip without a table where the packet is default-routed, and entries whose mask is not a block are not checked on the source chip. Proved for every key of the source under the two missing conditions, for one source and for a whole graph; termination and acceptance of good routes are proved.")
M("C42", "partial", ns("Pacman.Valid", "C42_false C42_beside C42_partial"),
  "The claim is false: the block right after the keys is always found fault with (C42_beside, C42_false). Proved for entries that also leave the key after the last one free.")

PL = "Pacman.Placer"
M("C31", "proved", ns(PL, "C31_unique"), "for all machines, graphs and system placements; set iteration order is an arbitrary permutation")
M("C32", "partial", ns(PL, "C32_false C32_free_partial C32_no_fixed_partial C32_costs C32_costs_alone C32_costs_left C32_objects_partial"),
  "false as stated: SDRAM is not checked for fixed locations (C32_false). Proved for every chip on which the placer was free to put a vertex, and for graphs without fixed locations; also for SDRAM objects whose totals do not add up, such as those with shared blocks (C32_objects_partial)")
M("C33", "proved", ns(PL, "C33_together C33_shared"), "that groups share no vertex is needed (C33_shared)")
M("C34", "proved", ns(PL, "C34_ends C34_outcome C34_too_big C34_empty_group"),
  "termination for all inputs; outcome on machines whose links lead to chips; an empty group can give an IndexError (C34_empty_group)")
M("C35", "partial", ns(PL, "C35_false C35_ordered_partial C35_increasing_partial"),
  "false: looking for a core uses up the cores before it (C35_false). Proved for requests in the order in which the set of free cores is gone through")
M("C80", "proved", ns(PL, "C80_linked"), "")
M("C81", "partial", ns(PL, "C81_false C81_room_partial C81_groups_partial"),
  "false: a chip is given up once all but a core's share of the SDRAM is used (C81_false). Proved for chips below this cap, also for vertices with several groups that fit together on one chip")
M("C82", "partial", ns(PL, "C82_false C82_honoured_partial"),
  "false: the chip of the first vertex is used for the whole group (C82_false). Proved where the fixed chips of a group agree")
M("C83", "partial", ns("Pacman.Pipe", "C83_false C83_internal_keyError C83_wide_machine_key C83_tables_made_partial C83_keys C83_keys_apart_partial C83_delivered_partial C83_only_partial"),
  "false for internal senders that are not outgoing (C83_internal_keyError) and for machine keys wider than the key of the application vertex (C83_wide_machine_key); otherwise proved under the conditions of C79 and of the allocator and generator properties")
M("C84", "partial", ns("Pacman.Pipe", "C84_circle C84_false C84_one_way_partial C84_ends_partial C84_once_partial"),
  "false: with a chip of the source where nothing sends packets may go round for ever (C84_circle). Proved where every chip of a source has a sender, under the conditions of C83")
M("C85", "partial", ns("Pacman.Pipe", "C85_merged C85_false C85_basic_partial C85_straight_partial"),
  "false for the merged generator, which takes the flag of the first merged entry (C85_merged). Proved for the basic one under the conditions of C84")
M("C86", "partial", ns("Pacman.Pipe", "C86_false C86_pair_partial C86_ordered_covering_partial C86_range_partial C86_gets"),
  "false for ordered covering after the merged generator (C86_false). Proved for the pair compressor after both, for ordered covering after the basic generator, for the range compressor with contiguous masks (which C118 shows them to be), under the conditions of C84")
M("C87", "partial", ns("Pacman.Pipe", "C87_false C87_stray C87_cores_partial C87_links_partial C87_exact_partial"),
  "false: where one target on a chip asks for a source as a whole and then another for single machine vertices, the second gets the packets of all (C87_false). Proved where the targets on each chip without a sender ask all in one way, under the conditions of C83")
SP = "Pacman.Split"
M("C88", "partial", ns(SP, "C88_linked_partial C88_nobody C88_forever C88_refused C88_depth C88_left_tied C88_left_ruled"),
  "false after a call that raised: a vertex keeps a splitter that refused it (C88_left_tied), a splitter governs a vertex that has another (C88_left_ruled). Proved where no call raised; that nothing is ever replaced is proved for all runs")
M("C89", "partial", ns(SP, "C89_known_partial C89_answers C89_forgotten"),
  "false for SplitterOneToOneLegacy after a reset: its machine vertex is lost to the placer (C89_forgotten). Proved for all others, and for it without a reset")
M("C90", "partial", ns(SP, "C90_atoms_partial C90_count C90_one_to_one C90_whole C90_doubled C90_stale C90_governed_twice"),
  "false without a reset between runs (C90_doubled, C90_stale) and for SplitterOneToOneLegacy.set_governed_app_vertex (C90_governed_twice). Proved for runs after splitters have been set, or after a reset of the graph, whatever was called before; for SplitterOneToOneLegacy for the former only (C90_whole)")
M("C91", "partial", ns(SP, "C91_distinct C91_index_partial C91_wrong"),
  "distinctness proved for all runs; the index is false for devices partitioned twice without a reset (C91_wrong), proved otherwise")
M("C92", "partial", ns(SP, "C92_fpga_partial C92_fpga_atoms_partial C92_link_partial C92_receives_partial C92_no_device C92_replaced"),
  "proved for all runs in which no call raised; false after one that did (C92_no_device)")
M("C93", "partial", ns(SP, "C93_link_slices C93_divides C93_too_few"),
  "false, e.g. five atoms in four machine vertices raise (C93_too_few); exactly the numbers for which it holds are given (C93_link_slices)")
M("C94", "partial", ns(SP, "C94_chips_partial C94_not_there C94_devices_counted"),
  "false for SplitterOneToOneLegacy after a reset, and without a reset between runs (C94_not_there). Proved for all other graphs that have been reset, and for all graphs whose splitters have just been set; virtual vertices of devices are counted as cores (C94_devices_counted)")
M("C95", "partial", ns("Pacman.VLoc", "C95_app_stays C95_set C95_machine_stays_partial C95_machine_moves C95_has_stays C95_label_stays"),
  "false for a machine vertex given a location after its application vertex (C95_machine_moves); the rest proved for all runs")
M("C96", "partial", ns(SP, "C96_accepted_partial C96_zero C96_none C96_refused_kept"),
  "false: 0 is accepted (C96_zero), None always raises TypeError (C96_none), refused values are set (C96_refused_kept). Proved that other accepted values can be used")
M("C97", "partial", ns(SP, "C97_slices_partial C97_doubled C97_reset_only"),
  "false if partitioned twice without a reset (C97_doubled) or reset by splitter_reset only (C97_reset_only). Proved for all graphs that have been partitioned after a reset or after splitters have been set")
M("C98", "partial", ns(SP, "C98_keys C98_exact_partial C98_atoms_partial C98_refused C98_device_fails C98_device_lost C98_device_same"),
  "false for devices whose packets leave the machine from another chip than they come in (C98_device_fails, C98_device_lost). Proved for all other graphs with the built-in splitters, where ways do not return, partitioned after splitters were set or after a reset; the latter not for SplitterOneToOneLegacy, for which it is false (C89_forgotten)")
M("C99", "partial", ns(SP, "C99_placed_partial C99_exact_partial C99_intact_partial C99_unplaced"),
  "as C98, with places from the placer; that each vertex is in one place and that routing finds all places is proved. Missing: as in C98")
M("C100", "partial", ns(SP, "C100_fits_partial C100_fixed"),
  "false for vertices with a fixed location, whose SDRAM is not looked at (C100_fixed); proved for graphs without")
M("C101", "partial", ns(SP, "C101_room_partial C101_shared_partial C101_remote_partial C101_counted_partial C101_beside_partial C101_false C101_apart"),
  "false: the placer takes chips with little SDRAM left to be full (C101_false), and does not spread a vertex over chips that are not linked (C101_apart). Proved where each machine vertex needs at most the share of a core, and one after the other the vertices find their cores on linked chips however those before lie (AllFind), devices needing none (C101_remote_partial): so if each has one machine vertex, or at most a and a - 1 cores of each chip are not needed, or the first is as large as a connected machine")
M("C102", "partial", ns("Pacman.Placer", "C102_real_partial C102_false C102_index") + " " + ns(SP, "C102_devices"),
  "false for groups with virtual and other vertices: all get cores, or an IndexError is raised (C102_false, C102_index). Proved for all other groups, so for the built-in splitters (C102_devices)")
VW = "Pacman.View"
M("C103", "proved", ns(VW, "C103_last C103_refused C103_placements C103_plan C103_plan_refused"),
  "for all sequences of calls")
M("C104", "proved", ns(VW, "C104_first C104_accepts C104_needed C104_text"),
  "for all sequences of calls")
M("C105", "proved", ns(VW, "C105_sum C105_ethernet C105_left C105_less"),
  "for all sequences of calls; that the Ethernet chip has no more left needs costs that can be added and are not negative. C105_less shows that it may have strictly less than is reckoned with")
M("C106", "proved", ns(VW, "C106_noticed C106_add C106_counts"),
  "for all sequences of calls, given when the superclass sets its flag")
M("C107", "partial", ns(VW, "C107_machine_partial C107_false C107_count"),
  "false: a set-up resets the vertices of the new graph, not of the old (C107_false). Proved where no vertex is added after it got machine vertices; the number is proved without condition")
M("C108", "partial", ns(VW, "C108_partial C108_zero"),
  "false for graphs without machine vertices (C108_zero). Proved for all others that are split after splitters have been set, or after a reset; the latter not for SplitterOneToOneLegacy (C94_not_there)")
M("C109", "proved", ns("Pacman.RPath", "C109_way") + " " + ns(SP, "C109_noReturns"),
  "for tori and for boards with edges along the links, as are the boards with 4 and 48 chips. C109_noReturns gives the hypothesis that C74, C77, C79, C83, C87, C98 and C99 make on ways")
M("C110", "partial", ns("Pacman.Router", "C110_partition_partial C110_graph_partial C110_intact_partial C110_false C110_target_apart C110_source_apart C110_no_target C110_no_edges") + " " + ns(SP, "C110_placed_partial C110_whole_partial C110_device_apart"),
  "false: vertices whose chips are not together raise (C110_false, C110_source_apart, C110_device_apart). Proved for every partition and every graph whose sources and targets are each together; so for all placed graphs whose vertices have no fixed location, or are on one chip; on machines with faults where ways do not return, on machines without faults with no condition on ways")
M("C111", "partial", ns(SP, "C111_placed_partial C111_whole_partial C111_shared_partial C111_graph_partial C111_devices_partial C111_pixels_partial C111_beside_partial"),
  "proved for all graphs that have been placed, with vertices that have no fixed location or are on one chip; with placing for graphs whose machine vertices need at most the share of a core, whose vertices find their cores on linked chips one after the other (AllFind, as in C101); from the graph alone, with partitioning, for SplitterFixedLegacy, and with SplitterOneAppOneMachine and devices (C111_devices_partial), 2D devices with keys for their sub-rectangles among them (C111_pixels_partial). Missing: SplitterOneToOneLegacy after a reset (false, C89_forgotten), ways that return on machines with faults (C68), several fixed keys of a vertex whose masks have no holes and do not lie in line (from the graph alone: of vertices on several cores), and where C101 and C110 are false")
M("C112", "proved", ns(SP, "C112_returns_iff C112_returns_usual"),
  "both directions, for all histories of calls after which vertices and splitters agree on each other")
M("C113", "partial", ns("Pacman.SliceText", "C113_partial C113_plain C113_md_iff C113_raises C113_vertices C113_strings_differ C113_one_dimension_false C113_size_false"),
  "false for an MDSlice of a vertex with one dimension and for one whose number of atoms is not the product of its sizes (C113_one_dimension_false, C113_size_false). Proved exactly for the others, so for all slices that the slicing of a vertex makes")
M("C114", "partial", ns("Pacman.SliceText", "C114_eq_iff C114_hash C114_string C114_end C114_end_false"),
  "equality and hash proved for all pairs; the ends do not mean the same (C114_end_false), what they mean is C114_end")
M("C115", "partial", ns("Pacman.Csv", "C115_partial C115_read_iff C115_entries C115_false"),
  "false: a row whose key has a bit outside of its mask, or that contradicts another, raises and nothing is read (C115_false). Proved exactly for the other files, given what csv.reader returns")
M("C116", "proved", ns("Pacman.Csv", "C116_words C116_raises C116_injective"),
  "for all keys, masks, processors and links")
M("C117", "partial", ns("Pacman.Sdram", "C117_partial C117_zero C117_bounds C117_whole_numbers C117_unknown C117_for_ever C117_false"),
  "false: shared blocks are rounded up one by one (C117_false). Proved for costs without shared blocks and for whole costs per timestep; for all others with a bound of one byte for each part")
M("C118", "partial", ns("Pacman.Pipe", "C118_masks C118_same_partial C118_leads_partial C118_exact_partial") + " " + ns(SP, "C118_mapped_partial C118_graph_partial C118_devices_partial C118_pixels_partial"),
  "false for ordered covering after the merged generator (C86_false). Proved for the others, for all graphs that have been mapped, and from the graph alone as in C111; fixed keys with masks that are not ones followed by zeros are left out for the range compressor only, without them all masks in tables are such (C118_masks)")
M("C119", "partial", ns("Pacman.Driver", "C119_pair C119_ordered_covering C119_range C119_empty_false") + " " + ns("Pacman.Pipe", "C119_sources C119_bound C119_after_range C119_return_partial C119_few_partial") + " " + ns(SP, "C119_graph_partial C119_devices_partial C119_pixels_partial"),
  "false for empty tables (C119_empty_false) and, with the range compressor, for masks with holes (C06_hole_never_ends). Proved for all others, and tables made for a graph are never empty; partial as fixed keys with other masks are left out for the range compressor")
M("C120", "proved", ns("Pacman.RTree", "C120_iter C120_len C120_traverse C120_all C120_append"),
  "for all finite trees; trees that contain themselves are not modelled")
M("C121", "partial", ns("Pacman.AtomKeys", "C121_info C121_atoms C121_apart C121_no_keys_of_one"),
  "false: an info with a single key raises an IndexError when asked for no keys (C121_no_keys_of_one). All else is proved")
M("C122", "partial", ns("Pacman.AtomKeys", "C122_inverse C122_extract_partial C122_extract_refuses C122_single_partial C122_none_is_no_item"),
  "false: no positions are refused with a ValueError (C122_extract_refuses) and None counts as the end of an iterable (C122_none_is_no_item). All else is proved")
M("C123", "partial", ns("Pacman.Hashing", "C123_eq C123_hash C123_found_partial C123_tables C123_tables_not_transitive C123_sdram C123_tag_and_other"),
  "false of routing tables (equal tables have different hashes, and equality is not transitive), of SDRAM costs (not hashable) and of IP tags among other objects (AttributeError); proved for all others, for all hash functions")
M("C124", "partial", ns("Pacman.Pipe", "C124_exact_partial C124_spare_partial C124_asked_partial C124_beside C124_false_beside C124_device") + " " + ns(SP, "C124_mapped_partial C124_mapped_device C124_graph_partial C124_devices_partial C124_graph_beside"),
  "false: graphs are refused if the atoms of a vertex fill its block of keys and the next block is used on its way (C124_beside, C124_false_beside), and always if a target is a device (C124_device). C124_exact_partial says exactly when it accepts; C124_spare_partial and C124_asked_partial that it does if all targets are on cores and each vertex has a spare key, asked for or fixed; C124_mapped_partial and C124_graph_partial say so of whole mappings, the latter from the graph alone, as does C124_devices_partial for graphs with devices that send")
M("C125", "partial", ns("Pacman.Alloc", "C125_index_partial C125_described_partial C125_all_fixed_partial C125_all_fixed_bits_partial C125_natural_partial C125_fixed_not_described C125_index_moves"),
  "false with fixed keys: the mask of a machine vertex is the one fixed, its application vertex says another (C125_fixed_not_described); if all partitions have fixed keys, index and max_machine_index count the vertices that do not send too, so the same partition gets other numbers depending on the other partitions (C125_index_moves). Proved: the order of the indices if some partition has no fixed key or all machine vertices send in the order of slices, keys and masks where the partition has no fixed key, and what the numbers are if all are fixed")
M("C126", "proved", ns("Pacman.Alloc", "C126_iff C126_modes C126_wasted"),
  "both directions, both modes, under the conditions of C17 on the input. The statement counts a block for each partition that sends, with fixed keys too: C126_wasted shows that more is asked for than is needed")
M("C127", "partial", ns("Pacman.Round", "C127_returns_partial C127_unique C127_refused_partial C127_false C127_infinity"),
  "false of NaN (ValueError) and of infinities (OverflowError), which round raises; proved for all other numbers, with the exact value of the float 0.001 as the bound")
M("C128", "proved", ns("Pacman.Placer", "C128_spread"),
  "both directions")
M("C129", "partial", ns("Pacman.Iter", "C129_calls_partial C129_ahead C129_prefix_partial C129_none C129_raise C129_merged"),
  "false of iterables with None, at which pop raises an AssertionError for ever while has_next is true (C129_none), and of those that raise: the item before is returned again (C129_raise). Proved for all others; the merged generator's items are never None (C129_merged)")
M("C130", "partial", ns("Pacman.Split", "C130_pixels_partial C130_compressed_partial C130_false C130_two_links C130_two_links_raise"),
  "false of sub-rectangles one pixel high with rows that do not go on from one another, which the merged generator merges as if they did (C130_false), of devices on several links, where two machine vertices share the keys (C130_two_links), and of sub-rectangles that span the device (C48_spanned); proved for all others, under the conditions of C111_devices_partial on the graph and the machine, also for compressed tables as in C118")

M("C131", "partial", ns("Pacman.Placer", "C131_beside_partial C131_false C131_counted_twice"),
  "False of the code: __max_sdram, and so the cap, is what the monitors leave, but _space_on_chip also counts the SDRAM of their placements as used. Where they need more than the cap on each chip, nothing is placed (C131_counted_twice); with monitors of 60 of 100 bytes a vertex of 10 bytes is not placed (C131_false). Proved for chips on which monitors, fixed vertices and the machine vertices that fill the free cores stay below the cap (Leaves): all vertices are placed if those with fixed locations alone are, and the others find cores however those before lie. SplitterExternalDevice vertices are passed by. Missing: groups of several machine vertices on one chip.")
M("C132", "partial", ns("Pacman.Placer", "C132_written C132_not_placed_partial C132_counts_nothing C132_same_object C132_two_objects_partial C132_drawing C132_drawing_two_partial C132_false C132_hidden"),
  "False of the code: place_application_graph gives the same object to the placer and as the system's placements, so no report says where a vertex was placed, and each lists all chips as unused (C132_same_object), as the drawing does (C132_drawing); the number of machine vertices of the last vertex that are not placed is always 0 of 0 (C132_counts_nothing). Proved: a report is written exactly if PacmanPlaceException is raised (C132_written), the vertices that it lists are those not placed (C132_not_placed_partial) if no vertex mixes virtual machine vertices with others (C132_hidden), and the other parts are right where two objects are given (C132_two_objects_partial, C132_drawing_two_partial).")
M("C133", "partial", ns("Pacman.Pipe", "C133_pair_partial C133_covering_partial C133_spread C133_false C118_same_partial") + " " + ns("Pacman.Driver", "C13_range_apart"),
  "False of the code: where each vertex asks for one key the range compressor makes an entry that takes in the key of an entry before it, the pair compressor sorts it to the front, and packets do not get to their target (C133_false, a graph on two chips). Proved for the pair compressor for all graphs whose tables have no entry for a single even key; that is so if whatever sends packets asks for at least two keys (C133_spread). Proved for ordered covering for all graphs with the basic generator (with the other one it fails by itself, C86_false). By C118_same_partial the theorems of C118 and C119 for whole graphs are about tables compressed twice, too.")
M("C134", "proved", ns("Pacman.Range", "C134_range_narrow_first") + " " + ns("Pacman.Driver", "C134_range_then_covering"),
  "entries with masks of ones followed by zeros, as in C06; C13_ordered_covering_narrow and C133_covering_partial use it for all chips and for graphs")
M("C135", "proved", ns("Pacman.OC", "C135_continued_routes C135_continued_aliases C135_forgotten_routes C135_removed_not_protected"),
  "the last theorem shows why the code warns that entries for default routing must still be in the table: with them removed in between a key they matched is taken by a merged entry")
M("C136", "partial", ns("Pacman.OC", "C136_round_partial C136_false C136_longer"),
  "false where there is more than one way (C136_false): the merge is replaced within the loop over the ways, so what several of them take is given up; C136_longer is a table of seven entries left at six where the documented choice makes three. Proved: what is left does not hide what the first way is for, and with one way nothing else is given up")
M("C137", "proved", ns("Pacman.OC", "C137_best_merge"),
  "Sorted is what ordered_covering starts with and keeps")
M("C138", "proved", ns("Pacman.OC", "C138_spent C138_again C138_resumed"), "")
M("C139", "proved", ns("Pacman.Pair", "C139_no_merge_left C139_ordered C139_again"), "")
M("C140", "proved", ns("Pacman.Pair", "C140_rare_first C140_most_frequent"), "")
M("C141", "partial", ns("Pacman.Range", "C141_run_partial C141_otherwise_two C141_false"), "False of the code (C141_false: keys 4 and 5 of one route stay two entries): the inclusive last key is compared with the exclusive end of the block by <, and the power is put up only once. Proved: a run with keys before and after the middle of the block, more than a quarter of it from each other, becomes the entry of just this block (C141_run_partial); otherwise, in the smallest block that holds it, it becomes two entries or more (C141_otherwise_two). So the condition is exact")
M("C142", "proved", ns("Pacman.Gen", "C142_no_more C142_few C142_whole C142_generators C142_order_matters"), "C142_order_matters: what is merged depends on the order in which the router came to the sources, as the generator follows the order of the dictionary")
M("C143", "proved", ns("Pacman.Pair", "C143_each_route C143_ordered C143_least") + " " + ns("Pacman.Driver", "C143_fits C143_too_many C143_covering_too_many C143_range_too_many"), "for ordered covering, which leaves out defaultable entries, the routes of the others count; the pair compressors fail even where overflow is accepted")
M("C144", "partial", ns("Pacman.TagAlloc", "C144_needed C144_enough_partial C144_order_false C144_home C144_home_exact"), "False of the code (C144_order_false): an automatic tag is the highest free one, so a request for tag 7 that comes after it fails where the other order succeeds. Proved: enough tags are needed whatever the requests (reverse IP tags, too); if the IP tags with a requested number come before the automatic ones it is exact; with reverse IP tags it succeeds, each tag on the board of its vertex, if each board has enough tags for the vertices on it, which is exact for one board and for reverse IP tags only. Other reverse IP tags that do not fit their own board fail by C28")
M("C145", "proved", ns("Pacman.Counter", "C145_near C145_three C145_one_core C145_same C145_tight C145_worst_case_false") + " " + ns("Pacman.Split", "C145_partitioner"), "SDRAM requirements may not be negative; the partitioner under the conditions of C94_chips_partial")
M("C146", "proved", ns("Pacman.Counter", "C146_less C146_together"), "SDRAM requirements may not be negative; the sum for cores that fit on a chip")
M("C147", "proved", ns("Pacman.Alloc", "C147_quarter C147_even C147_tight"), "for partitions as the allocator collects them; a partition whose machine vertices all ask for no keys has one of them only")
M("C148", "proved", ns("Pacman.Alloc", "C148_less C148_order C148_unfixed_false"), "both graphs well-formed as for C126; C148_unfixed_false is the last sentence")
M("C149", "partial", ns("Pacman.OC", "C149_progress C149_apart_partial C149_again C149_false C149_compressed C149_refused"), "False of the code: an entry is kept if it meets one behind it that is itself removed (C149_false); so the compressor keeps entries, and may refuse a table, of which nothing need be left (C149_compressed, C149_refused). Proved for tables whose defaultable entries share no keys; for all tables that something is removed if possible, and that as many calls as there are entries remove all")
M("C150", "partial", ns("Pacman.Pair", "C150_unordered_partial C150_unordered_covering_partial C150_unordered_default_partial C150_pair_twice C150_covering_pair C150_pair_covering C150_false"), "False of what the ordered pair compressor and ordered covering return, whose order matters: the pair compressor puts the entries into another order (C150_pair_twice, C150_covering_pair), and so does ordered covering after it (C150_pair_covering). Proved of what the unordered compressor returns, for both pair compressors and ordered covering; ordered covering after itself is C135")
M("C151", "proved", ns("Pacman.TagAlloc", "C151_requests C151_vertices C151_first C151_same_false"), "For requests with any ports. C151_same_false: unless they come last, leaving vertices out may give the others other tags")
M("C152", "proved", ns("Pacman.TagAlloc", "C152_boards C152_order_false"), "C152_order_false: the condition on the order is needed, the same boards in another order may fail")
M("C153", "partial", ns("Pacman.Placer", "C153_ones_partial C153_ample_partial C153_false"), "False in general: without the first vertex the next one starts in the corner of an L and cuts the free chips in two (C153_false). Proved for application vertices of one machine vertex each, and for graphs whose vertices find their cores however those before lie, SDRAM not being the limit")
M("C154", "partial", ns("Pacman.Placer", "C154_ones_partial C154_ample_partial C154_false"), "False in general: with the corner of an L between two arms the first vertex starts there and cuts the free chips in two (C154_false). Proved for application vertices of one machine vertex each, and for graphs whose vertices find their cores however those before lie, the chips added being free, SDRAM not being the limit")
M("C155", "proved", ns("Pacman.Slices", "C155_single C155_multi C155_more C155_more_multi") + " " + ns("Pacman.Split", "C155_partitioned"), "the partitioner under the conditions of C90: splitters just set, or after a reset of the graph")
M("C156", "proved", ns("Pacman.FixedRoute", "C156_fixed") + " " + ns("Pacman.RPath", "C156_path"), "the boards and their monitors are the same on both machines for the fixed routes")
M("C157", "proved", ns("Pacman.OC", "C157_met C157_table C157_lower C157_default_false"), "C157_default_false: the last sentence would be false of the compressor that removes default routes")
M("C158", "proved", ns("Pacman.Sdram", "C158_longer C158_apart C158_times C158_negative"), "costs per timestep are rational numbers, as for C49; C158_negative: the condition of the first sentence is needed")
M("C159", "partial", ns("Pacman.Checker", "C159_steps_partial C159_accepted_partial C159_false C159_itself C159_entries"), "False of defaultable entries left out in the first step, whose keys any entry of the second may take (C159_false). Proved for entries that are not defaultable and for keys the middle table matches; C159_accepted_partial needs the first and last table to have no defaultable entries")
M("C160", "proved", ns("Pacman.Checker", "C160_enough C160_covering C160_compressor C160_range C160_unordered"), "C160_unordered takes from spinn_machine that equal entries have the same key and mask; the other theorems hold for any equality. The ordered pair compressor is not claimed")
L.sort(key=lambda c: int(c["property"][1:]))
with open(OUT, "w") as f:
    f.write('{"claims": [\n' + ",\n".join(json.dumps(d) for d in L) + "\n]}\n")
