{
 "claims": [
  {
   "property": "C01",
   "status": "proved",
   "theorems": [
    "Verif.Geometry.C01_mult_is_sequential",
    "Verif.Geometry.C01_preMult",
    "Verif.Geometry.C01_postMult",
    "Verif.Geometry.C01_mult_assoc",
    "Verif.Geometry.C01_unit",
    "Verif.Geometry.C01_chain",
    "Verif.Geometry.C01_hit_faithful"
   ],
   "note": ""
  },
  {
   "property": "C02",
   "status": "proved",
   "theorems": [
    "Verif.Geometry.C02_inv_left",
    "Verif.Geometry.C02_inv_right",
    "Verif.Geometry.C02_inv_mult",
    "Verif.Geometry.C02_inv_inv"
   ],
   "note": ""
  },
  {
   "property": "C03",
   "status": "proved",
   "theorems": [
    "Verif.Geometry.C03_tags",
    "Verif.Geometry.C03_genTr",
    "Verif.Geometry.C03_footprint_points"
   ],
   "note": ""
  },
  {
   "property": "C04",
   "status": "proved",
   "theorems": [
    "Verif.Geometry.C04_canonical_ordered",
    "Verif.Geometry.C04_canonical_of_ordered",
    "Verif.Geometry.C04_image",
    "Verif.Geometry.C04_same_size"
   ],
   "note": ""
  },
  {
   "property": "C05",
   "status": "proved",
   "theorems": [
    "Verif.Geometry.C05_scoped",
    "Verif.Geometry.C05_block_restores",
    "Verif.Geometry.C05_pop_initial",
    "Verif.Geometry.C05_never_empty"
   ],
   "note": ""
  },
  {
   "property": "C06",
   "status": "proved",
   "theorems": [
    "Verif.Grid.C06_value",
    "Verif.Grid.C06_value_checked",
    "Verif.Grid.C06_tuple"
   ],
   "note": ""
  },
  {
   "property": "C07",
   "status": "proved",
   "theorems": [
    "Verif.Grid.C07_inverseBounds",
    "Verif.Grid.C07_adjacent"
   ],
   "note": ""
  },
  {
   "property": "C08",
   "status": "proved",
   "theorems": [
    "Verif.Grid.C08_snap_down",
    "Verif.Grid.C08_snap_up",
    "Verif.Grid.C08_rejects"
   ],
   "note": "Hypothesis EndsAgree (first and last line of the pattern are both legal or both not) is needed; an example beside the theorem shows why."
  },
  {
   "property": "C09",
   "status": "proved",
   "theorems": [
    "Verif.Grid.C09_uncolored",
    "Verif.Grid.C09_colored",
    "Verif.Grid.C09_colors_cyclic",
    "Verif.Grid.C09_colors_violated",
    "Verif.Grid.C09_wire"
   ],
   "note": "C09_colors_violated shows that the condition on the repeat count is needed."
  },
  {
   "property": "C10",
   "status": "proved",
   "theorems": [
    "Verif.RemoveDup.C10_same_geometry",
    "Verif.RemoveDup.C10_no_abutting"
   ],
   "note": ""
  },
  {
   "property": "C100",
   "status": "partial",
   "theorems": [
    "Verif.CheckSeq.C100_keep_partial",
    "Verif.CheckSeq.C100_rows",
    "Verif.CheckSeq.C100_groups_partial",
    "Verif.CheckSeq.C100_aligned",
    "Verif.CheckSeq.C100_two_rows",
    "Verif.CheckSeq.C100_violated_lost",
    "Verif.CheckSeq.C100_violated_wrong"
   ],
   "note": "The code violates the claim for horizontal axes: two pairs above each other, one between the blocks of the other, are discarded (the signs of four comparisons are the wrong way round), although this is the order the placer starts with; and a single block above both blocks of a pair is kept, as only the other side is looked at. Proved: nothing that has a legal placement is discarded if groups with a horizontal axis have at most one pair; what is kept has none of the listed contradictions, except the one named."
  },
  {
   "property": "C101",
   "status": "partial",
   "theorems": [
    "Verif.KeepOrder.C101_true_partial",
    "Verif.KeepOrder.C101_first",
    "Verif.KeepOrder.C101_second",
    "Verif.KeepOrder.C101_repair",
    "Verif.KeepOrder.C101_violated_lost",
    "Verif.KeepOrder.C101_violated_align",
    "Verif.KeepOrder.C101_violated_fix",
    "Verif.KeepOrder.C101_violated_nested"
   ],
   "note": "The code violates the claim: if the repaired first sequence leaves no room for the symmetry, blocks of the second are overwritten and the answer may still be yes; an alignment with a block on an axis sorts blocks that have no place reserved, so that blocks are lost or a vector is read outside; a repair of the second sequence after sorting is always refused, as it is looked up after having been put into the set of sequences seen; of nested pairs only those named from outside to inside are kept. Proved: with orders alone the claim holds in full; the first sequence is repaired for all designs without such an alignment and without neighbours in a column; the second is repaired whenever there is one that goes with the first; and a yes with all ordered blocks present means that the orders hold."
  },
  {
   "property": "C102",
   "status": "partial",
   "theorems": [
    "Verif.OrderCons.C102_implied_partial",
    "Verif.OrderCons.C102_complete",
    "Verif.OrderCons.C102_some",
    "Verif.OrderCons.C102_images",
    "Verif.OrderCons.C102_rows",
    "Verif.OrderCons.C102_violated_axis",
    "Verif.OrderCons.C102_violated_variant"
   ],
   "note": "The code violates the claim: mirror images get the order whatever the axis, so that a block above the single block of a group with a horizontal axis makes the constraints contradictory; and heights are compared for the first variants, which excludes placements with other ones. Proved: all additions follow if images in vertical orders have a vertical axis and the chosen variants compare as the first ones; nothing of the lists is lost."
  },
  {
   "property": "C103",
   "status": "partial",
   "theorems": [
    "Verif.Ilp.C103_apart",
    "Verif.Ilp.C103_solution_partial",
    "Verif.Ilp.C103_within",
    "Verif.Ilp.C103_snapped",
    "Verif.Ilp.C103_nets",
    "Verif.Ilp.C103_complete_partial",
    "Verif.Ilp.C103_accepted_partial",
    "Verif.Ilp.C103_violated_centre",
    "Verif.Ilp.C103_violated_abut",
    "Verif.Ilp.C103_violated_bias",
    "Verif.Ilp.C103_violated_axis",
    "Verif.Ilp.C103_violated_round",
    "Verif.Ilp.C103_violated_halo",
    "Verif.Ilp.C103_violated_right"
   ],
   "note": "The code violates the claim: the row of a vertical order does not know that blocks abut, so that abutted blocks with a distance asked for elsewhere have no solution; vertical orders use the horizontal distance; sizes are divided by four in whole numbers in rows of symmetry; pairs above each other are moved to the grid in opposite directions; the second solution forgets the halo; the style right is checked for neither box nor ratio; the style center does what left does. Proved: no overlaps for every solution, all constraints if sizes of symmetric blocks are multiples of four, and every placement that meets the constraints is a solution if no blocks abut vertically, distances are multiples of the pitch and the vertical one is not the smaller. The objective and the tolerances of the solvers are not modelled."
  },
  {
   "property": "C104",
   "status": "partial",
   "theorems": [
    "Verif.Enum.C104_sequences",
    "Verif.Enum.C104_all",
    "Verif.Enum.C104_contradiction",
    "Verif.Enum.C104_kept",
    "Verif.Enum.C104_ordered_partial",
    "Verif.Enum.C104_violated_missed",
    "Verif.Enum.C104_violated_repeat",
    "Verif.Enum.C104_violated_budget"
   ],
   "note": "The code violates the claim: the number of first sequences is used for the second ones too, so that with orders in both directions combinations are missed or placed twice although the log says that all were exhausted; and the limit is compared with the number of first sequences times the choices, without the square. Proved: the two lists hold each possible sequence once, without orders all combinations are placed exactly once and within the limit, with orders of one direction exactly once, with any orders nothing else is placed, and orders are ignored only if they contradict each other. _maxSize is not initialised in the code; the result does not depend on it."
  },
  {
   "property": "C105",
   "status": "partial",
   "theorems": [
    "Verif.Turn.C105_point",
    "Verif.Turn.C105_unique",
    "Verif.Turn.C105_box",
    "Verif.Turn.C105_back",
    "Verif.Turn.C105_python",
    "Verif.Turn.C105_orient",
    "Verif.Turn.C105_compose",
    "Verif.Turn.C105_relative",
    "Verif.Turn.C105_hierarchy",
    "Verif.Turn.C105_node_back",
    "Verif.Turn.C105_node_partial",
    "Verif.Turn.C105_node_box",
    "Verif.Turn.C105_terminals_partial",
    "Verif.Turn.C105_rings_partial",
    "Verif.Turn.C105_child_partial",
    "Verif.Turn.C105_violated_terminals",
    "Verif.Turn.C105_violated_rings",
    "Verif.Turn.C105_violated_turned"
   ],
   "note": "The code violates the claim: a terminal with k contacts is moved k times, since the loop over its contacts moves all of them each time; the corners of a guard ring are moved as points and not put in order again, so that in a mirrored node its left side is right of its right side; and the shapes of a child turned by 90 degrees are copied with width and height exchanged (the placer makes no such turns). Everything else is proved for all eight orientations."
  },
  {
   "property": "C106",
   "status": "partial",
   "theorems": [
    "Verif.WriteBack.C106_variant",
    "Verif.WriteBack.C106_flips",
    "Verif.WriteBack.C106_blocks",
    "Verif.WriteBack.C106_sizes",
    "Verif.WriteBack.C106_terminals_partial",
    "Verif.WriteBack.C106_axis_partial",
    "Verif.WriteBack.C106_axis_nets",
    "Verif.WriteBack.C106_axes_partial",
    "Verif.WriteBack.C106_done",
    "Verif.WriteBack.C106_violated_axis",
    "Verif.WriteBack.C106_violated_enumerated",
    "Verif.WriteBack.C106_violated_metal",
    "Verif.WriteBack.C106_violated_terminals",
    "Verif.WriteBack.C106_violated_analytic"
   ],
   "note": "The code violates the claim: positions and sizes are halved and quartered before they are added, so that the axis of a symmetric pair may be two units off; enumerated placements give symmetric nets no axis; the pins of the node are all said to be on the first metal; of two terminals on one net the second gets the contacts of net 0; the analytical placer reads the direction of the axis from the group with the number of the pair of nets. Blocks, sizes, wire lengths and the other terminals are proved; placements are written whenever all indices exist."
  },
  {
   "property": "C107",
   "status": "proved",
   "theorems": [
    "Verif.HierTree.C107_links",
    "Verif.HierTree.C107_top",
    "Verif.HierTree.C107_order"
   ],
   "note": "Links, top module and order are proved for all databases; termination is part of the theorem: the recursion never goes deeper than the number of modules."
  },
  {
   "property": "C108",
   "status": "partial",
   "theorems": [
    "Verif.Checkin.C108_variants",
    "Verif.Checkin.C108_others",
    "Verif.Checkin.C108_flow",
    "Verif.Checkin.C108_hierarchy",
    "Verif.Checkin.C108_power",
    "Verif.Checkin.C108_supply",
    "Verif.Checkin.C108_done",
    "Verif.Checkin.C108_checkout_partial",
    "Verif.Checkin.C108_pins_last",
    "Verif.Checkin.C108_violated_pins",
    "Verif.Checkin.C108_violated_axis"
   ],
   "note": "The code violates the claim: a module is checked out with the pins, wires and vias of the placement that was checked in last, whichever variant is asked for; and the directions of the axes of symmetric nets are not brought up to date in the module, only the coordinates. All else is proved: the variants of the instances, the frame, the power pins, the whole flow along the hierarchy of C107, and that check-ins succeed when the placements have the shapes of the module."
  },
  {
   "property": "C109",
   "status": "partial",
   "theorems": [
    "Verif.Load.C109_loaded",
    "Verif.Load.C109_shared",
    "Verif.Load.C109_symmetric",
    "Verif.Load.C109_loads",
    "Verif.Load.C109_violated_symmetric",
    "Verif.Load.C109_violated_twice"
   ],
   "note": "The code violates the last sentence: a pair of symmetric nets that names a supply or a net that does not exist makes it write Nets[-1]; and a net that is in two pairs overwrites its counterpart. All else is proved for all netlists."
  },
  {
   "property": "C11",
   "status": "partial",
   "theorems": [
    "Verif.RemoveDup.C11_no_short_partial",
    "Verif.RemoveDup.C11_scan_shorts_real",
    "Verif.RemoveDup.C11_vias_partial",
    "Verif.RemoveDup.C11_violated_blockage",
    "Verif.RemoveDup.C11_violated_terminal",
    "Verif.RemoveDup.C11_violated_via",
    "Verif.RemoveDup.C11_touching_exact"
   ],
   "note": "The code misses shorts hidden behind a blockage, a terminal shape, or a via without metal below (proved witnesses). Proved for lines of plain wires, and for vias whose metal is found. Not modelled: check_shorts_induced_by_terminals."
  },
  {
   "property": "C110",
   "status": "partial",
   "theorems": [
    "Verif.Load.C110_stem",
    "Verif.Load.C110_variants_partial",
    "Verif.Load.C110_unknown",
    "Verif.Load.C110_violated_unknown"
   ],
   "note": "The code violates the last sentence: for a template that is neither a module nor in the map the block is left without any variant and the database is built, or back() of an empty vector is read if a pin is on a supply. The rest is proved for all databases that are built; C109_loads says when that is."
  },
  {
   "property": "C111",
   "status": "partial",
   "theorems": [
    "Verif.PowerPins.C111_added",
    "Verif.PowerPins.C111_returned_partial",
    "Verif.PowerPins.C111_metals_partial",
    "Verif.PowerPins.C111_adds",
    "Verif.PowerPins.C111_extracts",
    "Verif.PowerPins.C111_violated_metals",
    "Verif.PowerPins.C111_violated_terminal"
   ],
   "note": "The code violates the claim in two points: only the shapes of the first pin that was lent become inner metal, as the loop ends there; and a power net that is connected to a terminal makes it read block -1. The rest is proved, also that lending and taking back succeed."
  },
  {
   "property": "C112",
   "status": "proved",
   "theorems": [
    "Verif.AStar.C112_path",
    "Verif.AStar.C112_no_fault",
    "Verif.AStar.C112_ends"
   ],
   "note": "For the search with no parallel neighbours (left = right = 0), as the detailed router calls it for single routes."
  },
  {
   "property": "C113",
   "status": "proved",
   "theorems": [
    "Verif.Wires.C113_wires",
    "Verif.Wires.C113_drawn"
   ],
   "note": "For one path; widths and rectangles are left out."
  },
  {
   "property": "C114",
   "status": "partial",
   "theorems": [
    "Verif.Wires.C114_length_partial",
    "Verif.Wires.C114_free",
    "Verif.Wires.C114_violated"
   ],
   "note": "The code violates the first part: a wire that lacks an odd length is grown by half of it at each end, rounded down, and stays one unit short. Proved: it is never short by more, and not at all if all lengths and coordinates are even. The second part is proved for grids whose tracks are at least as long as the shortest wire."
  },
  {
   "property": "C115",
   "status": "partial",
   "theorems": [
    "Verif.RouteGrid.C115_sound",
    "Verif.RouteGrid.C115_good",
    "Verif.RouteGrid.C115_up",
    "Verif.RouteGrid.C115_down_partial",
    "Verif.RouteGrid.C115_all_partial",
    "Verif.RouteGrid.C115_builds",
    "Verif.RouteGrid.C115_violated",
    "Verif.RouteGrid.C115_violated_all"
   ],
   "note": "The code violates two parts. A track on the border of two tiles is laid twice, and its second copy has no vias downwards. On a layer between two others a crossing is recognised by the rest of a division, which fails for tracks that begin at or above one distance from zero and for negative coordinates. The rest is proved, and these parts for nodes that are alone at their point and for tracks that begin below one distance."
  },
  {
   "property": "C116",
   "status": "proved",
   "theorems": [
    "Verif.SeqCache.C116_cache"
   ],
   "note": "Both sequences must be orders of the same distinct blocks throughout, which C98 and its like show of the moves; an example shows that the cache mixes up orders of different sets of blocks."
  },
  {
   "property": "C117",
   "status": "partial",
   "theorems": [
    "Verif.Anneal.C117_few",
    "Verif.Anneal.C117_valid_partial",
    "Verif.Anneal.C117_best_partial",
    "Verif.Anneal.C117_violated"
   ],
   "note": "Violated: if the search for a first solution finds none, the last sequence pair tried and the failed solver of the one before are kept as if a solution of cost DBL_MAX and are returned if fewer solutions than asked for are found later. Proved if that search finds one. That the cheapest are kept is proved for costs that depend only on what the cache distinguishes: with other costs a pair solved a second time is not filed again."
  },
  {
   "property": "C118",
   "status": "partial",
   "theorems": [
    "Verif.Exhaust.C118_all",
    "Verif.Exhaust.C118_done_partial",
    "Verif.Exhaust.C118_ordered_partial",
    "Verif.Exhaust.C118_kept",
    "Verif.Exhaust.C118_violated_iterations"
   ],
   "note": "Violated: the enumeration is chosen for up to ten thousand combinations, but stops after the iterations asked for; with fewer iterations than combinations the assertion behind it fails. Also violated with orders of both directions, see C104. Proved: without orders whenever the loop ends as exhausted, which it does with no fewer iterations than those under which the enumeration was chosen; with orders of one direction whenever it ends as exhausted; with any orders everything returned is a solution of an allowed pair."
  },
  {
   "property": "C119",
   "status": "proved",
   "theorems": [
    "Verif.Tiles.C119_cover",
    "Verif.Tiles.C119_size",
    "Verif.Tiles.C119_links",
    "Verif.Tiles.C119_up"
   ],
   "note": "Under positive pitches, scale and number of metals per layer, and with a metal above the lowest one; otherwise the code divides by zero, does not end, or reads beyond the list of metals."
  },
  {
   "property": "C12",
   "status": "proved",
   "theorems": [
    "Verif.RemoveDup.C12_root_iff_linked",
    "Verif.RemoveDup.C12_compression_invisible",
    "Verif.RemoveDup.C12_root_is_member"
   ],
   "note": ""
  },
  {
   "property": "C120",
   "status": "partial",
   "theorems": [
    "Verif.Candidates.C120_joined_partial",
    "Verif.Candidates.C120_found_partial",
    "Verif.Candidates.C120_violated_lowest"
   ],
   "note": "Proved for nets whose tiles come first in the list (all layers up to some layer). For a net that may not use the lowest layer the claim fails: skipped tiles shift the places in the graph but not the numbers on the edges; C120_violated_lowest has two neighbours that are not joined because an empty map is read. A first pin without tiles leads to the same fault."
  },
  {
   "property": "C121",
   "status": "partial",
   "theorems": [
    "Verif.Candidates.C121_shortest_partial",
    "Verif.Candidates.C121_first_partial",
    "Verif.Candidates.C121_length_partial",
    "Verif.Candidates.C121_violated"
   ],
   "note": "A connection is shortest from the tiles of the pins reached and of the connection made last. The tiles inside earlier connections are forgotten, so the full claim fails (C121_violated: third connection of length 11 instead of 9). For later candidates the lengths are those with doubled weights."
  },
  {
   "property": "C122",
   "status": "proved",
   "theorems": [
    "Verif.Wires.C122_room"
   ],
   "note": "The check made when a node is reached is shown to hold on the final path. The check made again on the final path passes if the vias are too close, so that only the former ensures this."
  },
  {
   "property": "C123",
   "status": "partial",
   "theorems": [
    "Verif.Choose.C123_one_partial",
    "Verif.Choose.C123_sym_partial",
    "Verif.Choose.C123_violated"
   ],
   "note": "One candidate per net and equal numbers for symmetric nets are proved for every solution. The capacities are not respected: the first candidate over a link is not noted for it, and the later ones are noted under the number of the next candidate, so that C123_violated sends two nets over a link with room for one, with a congestion of 0."
  },
  {
   "property": "C124",
   "status": "partial",
   "theorems": [
    "Verif.SymNets.C124_pins_partial",
    "Verif.SymNets.C124_image_partial",
    "Verif.SymNets.C124_violated_off_axis",
    "Verif.SymNets.C124_violated"
   ],
   "note": "If nets are found to match, their pins are left with tiles that are mirror images of each other. But tiles are compared by number too, so that a tile off the axis never has an image (for all inputs), and nets in mirrored tiles are not found to match."
  },
  {
   "property": "C125",
   "status": "partial",
   "theorems": [
    "Verif.SymNets.C125_pairs_partial",
    "Verif.SymNets.C125_violated"
   ],
   "note": "The numbers are equal, and the pairs made from candidates of the first net are mirror images, but at an axis whose place is the number of the other net. In the pairs made from the second net a candidate of the first net is stored for the second; C125_violated has two nets whose candidates are exchanged."
  },
  {
   "property": "C126",
   "status": "proved",
   "theorems": [
    "Verif.GuardRing.C126_ring"
   ],
   "note": "The quotient of doubles that is rounded up is taken to be exact."
  },
  {
   "property": "C127",
   "status": "partial",
   "theorems": [
    "Verif.GuardRing.C127_space_partial",
    "Verif.GuardRing.C127_near_partial",
    "Verif.GuardRing.C127_outline_partial",
    "Verif.GuardRing.C127_violated",
    "Verif.GuardRing.C127_violated_outline"
   ],
   "note": "The block is moved down to the grid by up to a step less one, of which the ring makes up for half a step, so up to half a step of the space is lost at the left and lower side (C127_violated). Proved: the space is kept if nothing is lost at the grid, and never less than by half a step. The outline is too small by 1 if the surplus of the ring is odd (C127_violated_outline)."
  },
  {
   "property": "C128",
   "status": "proved",
   "theorems": [
    "Verif.CapArray.C128_units",
    "Verif.CapArray.C128_auto"
   ],
   "note": "The distance from the middle is compared by its square. An array of the user with fewer units than needed is not refused; the code reads beyond its pairs then (an example beside the theorem)."
  },
  {
   "property": "C129",
   "status": "proved",
   "theorems": [
    "Verif.CapArray.C129_even",
    "Verif.CapArray.C129_odd"
   ],
   "note": ""
  },
  {
   "property": "C13",
   "status": "proved",
   "theorems": [
    "Verif.RemoveDup.C13_net_open_iff",
    "Verif.RemoveDup.C13_terminal_open_iff"
   ],
   "note": ""
  },
  {
   "property": "C130",
   "status": "proved",
   "theorems": [
    "Verif.CapArray.C130_shapes",
    "Verif.CapArray.C130_units"
   ],
   "note": "Roots and quotients that are rounded up are taken to be exact."
  },
  {
   "property": "C131",
   "status": "proved",
   "theorems": [
    "Verif.Pretty.C131_json"
   ],
   "note": "Text is a list of tokens; the indentation is left out. Values are written by a parameter."
  },
  {
   "property": "C132",
   "status": "partial",
   "theorems": [
    "Verif.Pretty.C132_text_partial",
    "Verif.Pretty.C132_violated"
   ],
   "note": "Holds for texts without quotes, backslashes and control characters. The code escapes nothing (it has a note to do so)."
  },
  {
   "property": "C133",
   "status": "partial",
   "theorems": [
    "Verif.PdkCpp.C133_stack_partial",
    "Verif.PdkCpp.C133_via_of_metal",
    "Verif.PdkCpp.C133_aligned",
    "Verif.PdkCpp.C133_reads_partial",
    "Verif.PdkCpp.C133_violated",
    "Verif.PdkCpp.C133_violated_refused"
   ],
   "note": "Two parts are false of the code: an unknown metal is taken to be the first (Metalmap[s] inserts 0), and a via is refused if its GDS number is the place of an earlier via (the assert looks for the GDS number among the places 2, 4, ...). Proved for files whose stacks name metals of the file, and for GDS numbers that are not such places."
  },
  {
   "property": "C134",
   "status": "proved",
   "theorems": [
    "Verif.PdkCpp.C134_encloses"
   ],
   "note": "With scale factor 1."
  },
  {
   "property": "C135",
   "status": "proved",
   "theorems": [
    "Verif.Visitor.C135_transform",
    "Verif.Visitor.C135_same"
   ],
   "note": "The constructor of a model is taken to keep the values it is given."
  },
  {
   "property": "C136",
   "status": "proved",
   "theorems": [
    "Verif.Visitor.C136_shared"
   ],
   "note": "Plain list and dict objects are not in the cache and are copied each time; an example beside the theorem shows this."
  },
  {
   "property": "C137",
   "status": "proved",
   "theorems": [
    "Verif.Visitor.C137_collect"
   ],
   "note": ""
  },
  {
   "property": "C138",
   "status": "partial",
   "theorems": [
    "Verif.ReadLef.C138_read_partial",
    "Verif.ReadLef.C138_scaled",
    "Verif.ReadLef.C138_words",
    "Verif.ReadLef.C138_violated",
    "Verif.ReadLef.C138_violated_flags"
   ],
   "note": "Proved for names of cells without SIZE, UNITS, PIN, OBS and names of pins without SIZE, UNITS, USE, DIRECTION, PORT, for pins with a rectangle on a metal (else the code stops on purpose), with the flags false at the start. False in general: a cell PING is lost, a pin SIZE stops the reader, a pin REUSE has no end; the flags for metals and vias are not initialised, so a first pin that starts with a via is read by chance."
  },
  {
   "property": "C139",
   "status": "partial",
   "theorems": [
    "Verif.WriteJson.C139_nets",
    "Verif.WriteJson.C139_only",
    "Verif.WriteJson.C139_pins_partial",
    "Verif.WriteJson.C139_violated"
   ],
   "note": "Proved for wires and vias for every unit, and for pins if the unit is a whole number. False for pins with the usual unit of 1/2: the function for pins takes an int, so the unit becomes 0 and each pin is drawn as a point at the origin."
  },
  {
   "property": "C14",
   "status": "partial",
   "theorems": [
    "Verif.RemoveDup.C14_names_survive_partial",
    "Verif.RemoveDup.C14_violated_blockage"
   ],
   "note": "The code loses a name behind two unnamed shapes of which one is a blockage (witness). Proved when the centre line has no terminal shapes and all its blockages are named."
  },
  {
   "property": "C140",
   "status": "partial",
   "theorems": [
    "Verif.WriteJson.C140_place_partial",
    "Verif.WriteJson.C140_written",
    "Verif.WriteJson.C140_violated"
   ],
   "note": "Proved if the last element of the layout of the block has its lower left corner at the origin; the layouts the router itself writes for blocks below the top are like that. False otherwise: the corner is that of the last element only, and turned blocks are moved by it."
  },
  {
   "property": "C141",
   "status": "partial",
   "theorems": [
    "Verif.WriteJson.C141_names",
    "Verif.WriteJson.C141_inside",
    "Verif.WriteJson.C141_block_partial",
    "Verif.WriteJson.C141_violated"
   ],
   "note": "Proved if every file exists and has a cell. False otherwise: for a missing file the block is drawn as that of the file before it."
  },
  {
   "property": "C142",
   "status": "partial",
   "theorems": [
    "Verif.BlackBox.C142_pins_partial",
    "Verif.BlackBox.C143_violated"
   ],
   "note": "Proved if names, numbers and label numbers of the layers and the types in each layer are different. False otherwise: of two layers with one number and different types (as metals and vias of some processes) the shapes of the first are lost."
  },
  {
   "property": "C143",
   "status": "partial",
   "theorems": [
    "Verif.BlackBox.C143_all_partial",
    "Verif.BlackBox.C143_obs_partial",
    "Verif.BlackBox.C143_violated",
    "Verif.BlackBox.C143_violated_part"
   ],
   "note": "Proved if names, numbers and label numbers of the layers and the types in each layer are different, and for types that are not named with a part of the word label. False otherwise: shapes of one of two layers with the same number are lost, and so are those of a type named L."
  },
  {
   "property": "C144",
   "status": "proved",
   "theorems": [
    "Verif.Output.C144_order",
    "Verif.Output.C144_ties",
    "Verif.Output.C144_stops"
   ],
   "note": "For a subcircuit without nets the code stops with a division by zero (C144_stops)."
  },
  {
   "property": "C145",
   "status": "proved",
   "theorems": [
    "Verif.Output.C145_modules",
    "Verif.Output.C145_grid"
   ],
   "note": ""
  },
  {
   "property": "C146",
   "status": "proved",
   "theorems": [
    "Verif.Output.C146_name",
    "Verif.Output.C146_caps",
    "Verif.Output.C146_ends"
   ],
   "note": "For files that end with _AspectRatio_ and numbers without an underscore, as the placer writes, and instances with different names in each module."
  },
  {
   "property": "C147",
   "status": "partial",
   "theorems": [
    "Verif.PowerGrid.C147_connected",
    "Verif.PowerGrid.C147_single_partial",
    "Verif.PowerGrid.C147_largest_partial",
    "Verif.PowerGrid.C147_violated"
   ],
   "note": "All proved except that the part kept is the largest, which is false: a vertex that two neighbours collect before it is visited is visited and counted twice, so a ring of four counts as five and a line of five after it is dropped (C147_violated). Proved: a net in one piece is kept as a whole (C147_largest_partial), and a single vertex is not kept if there are two linked ones (C147_single_partial)."
  },
  {
   "property": "C148",
   "status": "partial",
   "theorems": [
    "Verif.PowerMetal.C148_metals",
    "Verif.PowerMetal.C148_all_partial",
    "Verif.PowerMetal.C148_violated"
   ],
   "note": "False in general: the order compares the lower end of a metal with itself, so of two metals that differ only in the lower y the second is lost (C148_violated). Proved: it holds if no two metals differ only there (C148_all_partial), and what is kept in general (C148_metals)."
  },
  {
   "property": "C149",
   "status": "partial",
   "theorems": [
    "Verif.PowerMetal.C149_merged_partial",
    "Verif.PowerMetal.C149_violated"
   ],
   "note": "Proved for lists with at least one metal. Without metals the result has one metal that was never set (C149_violated)."
  },
  {
   "property": "C15",
   "status": "proved",
   "theorems": [
    "Verif.Drc.C15_min_spacing_iff",
    "Verif.Drc.C15_reports_real",
    "Verif.Drc.C15_after_removeDuplicates",
    "Verif.Drc.C15_nested_missed",
    "Verif.Drc.C15_via_spacing_iff",
    "Verif.Drc.C15_attacker_exact"
   ],
   "note": "For lines of separated shapes (what removeDuplicates leaves for plain wires); C15_nested_missed shows that the hypothesis is needed."
  },
  {
   "property": "C150",
   "status": "partial",
   "theorems": [
    "Verif.PowerTarget.C150_targets_partial",
    "Verif.PowerTarget.C150_violated"
   ],
   "note": "Of several metals at the same distance only one is a target, even if there are fewer than seven (C150_violated), as distances are keys of a map. Proved: the targets lie on the lowest layer and have growing distances, and for each metal of that layer there is a target at its distance unless seven targets are nearer; so one of the nearest is always a target."
  },
  {
   "property": "C151",
   "status": "partial",
   "theorems": [
    "Verif.PowerTarget.C151_contacts_partial",
    "Verif.PowerTarget.C151_wanted_partial",
    "Verif.PowerTarget.C151_violated"
   ],
   "note": "The code compares lower pads with the power grid and upper pads with the ground grid, whichever net is routed (C151_violated). Proved: what the contacts are in general (C151_contacts_partial), and the claim if the pads on the side that is compared with the other grid lie in both grids or in none (C151_wanted_partial)."
  },
  {
   "property": "C152",
   "status": "proved",
   "theorems": [
    "Verif.PowerWindow.C152_window",
    "Verif.PowerWindow.C152_inside"
   ],
   "note": ""
  },
  {
   "property": "C153",
   "status": "partial",
   "theorems": [
    "Verif.PowerWindow.C153_middle_partial",
    "Verif.PowerWindow.C153_violated"
   ],
   "note": "Proved for nets with a metal on the top layer. Without one the first metal is taken whatever its layer, and without metals one is read that does not exist (C153_violated)."
  },
  {
   "property": "C154",
   "status": "partial",
   "theorems": [
    "Verif.PowerCollect.C154_metals",
    "Verif.PowerCollect.C154_vias_partial",
    "Verif.PowerCollect.C154_violated"
   ],
   "note": "Metals are proved in full, vias except for the metal on both layers: the code asks only for an active neighbour, which may belong to the other net (C154_violated)."
  },
  {
   "property": "C16",
   "status": "proved",
   "theorems": [
    "Verif.Drc.C16_min_length_exact"
   ],
   "note": ""
  },
  {
   "property": "C17",
   "status": "proved",
   "theorems": [
    "Verif.Drc.C17_lookup_exact",
    "Verif.Drc.C17_enclosure_exact",
    "Verif.Drc.C17_overlap_missed"
   ],
   "note": "For lines of separated wires; C17_overlap_missed shows that the hypothesis is needed."
  },
  {
   "property": "C18",
   "status": "partial",
   "theorems": [
    "Verif.Drc.C18_reports_real",
    "Verif.Drc.C18_long_runs_reported_partial",
    "Verif.Drc.C18_uniform_grid_partial",
    "Verif.Drc.C18_violated_later_run",
    "Verif.Drc.C18_violated_period"
   ],
   "note": "The counter restarts at 0 after a gap, and uses the period number, not the track number (proved witnesses). Proved: reports are real; runs of k+2, and first runs of k+1, are reported."
  },
  {
   "property": "C19",
   "status": "partial",
   "theorems": [
    "Verif.Pex.C19_segments_tile_partial",
    "Verif.Pex.C19_wire_partial",
    "Verif.Pex.C19_violated_far_port"
   ],
   "note": "Proved when the first via after the start of the wire on its track lies on the wire; violated otherwise (witness)."
  },
  {
   "property": "C20",
   "status": "partial",
   "theorems": [
    "Verif.Pex.C20_conserved_partial",
    "Verif.Pex.C20_pi_tee_agree",
    "Verif.Pex.C20_violated_far_port",
    "Verif.Pex.C20_violated_same_names"
   ],
   "note": "Conservation proved for drawings that meet the condition of C19 and whose wires on one track are apart; violated otherwise (witnesses). Agreement of pi and tee holds always."
  },
  {
   "property": "C21",
   "status": "proved",
   "theorems": [
    "Verif.Hier.C21_flatten",
    "Verif.Hier.C21_total"
   ],
   "note": ""
  },
  {
   "property": "C22",
   "status": "proved",
   "theorems": [
    "Verif.Hier.C22_accepted_iff"
   ],
   "note": ""
  },
  {
   "property": "C23",
   "status": "proved",
   "theorems": [
    "Verif.GridCons.C23_merge_is_conjunction",
    "Verif.GridCons.C23_check_merge",
    "Verif.GridCons.C23_rejects_mixed"
   ],
   "note": ""
  },
  {
   "property": "C24",
   "status": "proved",
   "theorems": [
    "Verif.GridCons.C24_module_exact",
    "Verif.GridCons.C24_hierarchy_exact",
    "Verif.Hier.C24_leaves_exact"
   ],
   "note": ""
  },
  {
   "property": "C25",
   "status": "proved",
   "theorems": [
    "Verif.Hier.C25_hpwl_agree",
    "Verif.Hier.C25_net_exact",
    "Verif.Hier.C25_differs_unconnected_global"
   ],
   "note": "Well-formed = structure WF; the last theorem shows that the condition on global signal names is needed."
  },
  {
   "property": "C26",
   "status": "proved",
   "theorems": [
    "Verif.Overlap.C26_overlap_exact"
   ],
   "note": "Boxes of leaves given lower left corner first; leaf and module names disjoint (structure WF)."
  },
  {
   "property": "C27",
   "status": "proved",
   "theorems": [
    "Verif.Overlap.C27_reported_iff",
    "Verif.Overlap.C27_round_trip",
    "Verif.Overlap.C27_placement_round_trip",
    "Verif.Overlap.C27_rational_scaling"
   ],
   "note": "Integer scaling; the float branch used for drawing is not modelled."
  },
  {
   "property": "C28",
   "status": "proved",
   "theorems": [
    "Verif.SeqPair.C28_no_overlap",
    "Verif.SeqPair.C28_relation_for_all_permutations"
   ],
   "note": "Exact arithmetic; rounding of the solution is C61."
  },
  {
   "property": "C29",
   "status": "partial",
   "theorems": [
    "Verif.SeqPair.C29_inside",
    "Verif.SeqPair.C29_align",
    "Verif.SeqPair.C29_place_on_boundary",
    "Verif.SeqPair.C29_boundary_partial",
    "Verif.SeqPair.C29_spread",
    "Verif.SeqPair.C29_symmetric_partial",
    "Verif.SeqPair.C29_place_on_grid",
    "Verif.SeqPair.C29_order_partial",
    "Verif.SeqPair.C29_violated_abut",
    "Verif.SeqPair.C29_violated_order_horizontal",
    "Verif.SeqPair.C29_violated_halo",
    "Verif.SeqPair.C29_violated_symmetric_heights"
   ],
   "note": "Proved for the bounding box, directed Order, Align, PlaceOnBoundary, Boundary without halo, Spread, PlaceOnGrid, and SymmetricBlocks with pairs of equal size. The placer ignores abut, undirected orders and halos, and aligns the lower edges of symmetric blocks of different heights (proved witnesses)."
  },
  {
   "property": "C30",
   "status": "partial",
   "theorems": [
    "Verif.SeqPair.C30_exact_partial",
    "Verif.SeqPair.C30_fails_iff",
    "Verif.SeqPair.C30_violated_horizontal"
   ],
   "note": "Exact for directed orders; orders that are only horizontal or vertical are ignored (witness). networkx.all_topological_sorts enters through its specification AllTopo, which is proved satisfiable."
  },
  {
   "property": "C31",
   "status": "partial",
   "theorems": [
    "Verif.SeqPair.C31_variants_exist",
    "Verif.SeqPair.C31_no_duplicates",
    "Verif.SeqPair.C31_same_variant_partial",
    "Verif.SeqPair.C31_complete",
    "Verif.SeqPair.C31_violated_same_template",
    "Verif.SeqPair.C31_violated_limit"
   ],
   "note": "A constraint connecting two earlier groups is joined to the first only, and the limit has no effect (proved witnesses). Proved: variants exist, no duplicates, completeness; same variant if no constraint connects two earlier groups."
  },
  {
   "property": "C32",
   "status": "proved",
   "theorems": [
    "Verif.Hier.C32_topological_order"
   ],
   "note": ""
  },
  {
   "property": "C33",
   "status": "partial",
   "theorems": [
    "Verif.Pnr.PgPins.C33_terminals_partial",
    "Verif.Pnr.PgPins.C33_exists",
    "Verif.Pnr.PgPins.C33_violated_shared",
    "Verif.Pnr.PgPins.C33_violated_capture",
    "Verif.Pnr.PgPins.C33_violated_name"
   ],
   "note": "Instances of one module whose port is tied to different supplies share a copy, a port named like a supply but connected to another net captures it, and a user module with the name of a copy replaces it (witnesses). Terminal by terminal equality of the flat netlists, termination and the final check proved for all other designs."
  },
  {
   "property": "C34",
   "status": "proved",
   "theorems": [
    "Verif.Pnr.C34_renaming",
    "Verif.Pnr.C34_dense",
    "Verif.Pnr.C34_note_leaf_collision"
   ],
   "note": "Concrete names of modules distinct. The note theorem shows that a new name may equal the name of a leaf, which the statement does not exclude."
  },
  {
   "property": "C35",
   "status": "proved",
   "theorems": [
    "Verif.Pnr.C35_exact",
    "Verif.Pnr.C35_returns"
   ],
   "note": "Module names distinct."
  },
  {
   "property": "C36",
   "status": "proved",
   "theorems": [
    "Verif.Schema.C36_snapshots",
    "Verif.Schema.C36_revert_restores"
   ],
   "note": ""
  },
  {
   "property": "C37",
   "status": "partial",
   "theorems": [
    "Verif.Schema.C37_revert_restores_partial",
    "Verif.Schema.C37_new_constraint_partial",
    "Verif.Schema.C37_known_partial",
    "Verif.Schema.C37_violated_append_again",
    "Verif.Schema.C37_violated_remove",
    "Verif.Schema.C37_violated_rejected"
   ],
   "note": "The cache of checked constraints is not undone by revert, remove or a rejected append (proved witnesses). Proved: revert restores the stored constraints and solver assertions, a constraint not in the cache is checked, what is in the cache is left alone."
  },
  {
   "property": "C38",
   "status": "partial",
   "theorems": [
    "Verif.Cons.C38_order_directed",
    "Verif.Cons.C38_order_undirected_partial",
    "Verif.Cons.C38_violated_order_undirected",
    "Verif.Cons.C38_align_side",
    "Verif.Cons.C38_align_center_partial",
    "Verif.Cons.C38_violated_align_center",
    "Verif.Cons.C38_align_any_partial",
    "Verif.Cons.C38_violated_align_any",
    "Verif.Cons.C38_spread_partial",
    "Verif.Cons.C38_violated_spread",
    "Verif.Cons.C38_aspect_ratio_partial",
    "Verif.Cons.C38_violated_aspect_ratio",
    "Verif.Cons.C38_boundary",
    "Verif.Cons.C38_symmetric_blocks",
    "Verif.Cons.C38_symmetric_is_mirror",
    "Verif.Cons.C38_align_in_order_horizontal",
    "Verif.Cons.C38_align_in_order_vertical_partial",
    "Verif.Cons.C38_violated_align_in_order",
    "Verif.Cons.C38_floorplan"
   ],
   "note": "Exact for directed Order, Align on a side, Boundary, SymmetricBlocks, AlignInOrder in a row and Floorplan. The formulas of undirected Order, Align on a center or on any line, Spread, AspectRatio and AlignInOrder in a column differ from their documentation (proved witnesses); the partial theorems state what they do mean."
  },
  {
   "property": "C39",
   "status": "partial",
   "theorems": [
    "Verif.Cons.C39_elements_partial",
    "Verif.Cons.C39_violated"
   ],
   "note": "The no-overlap formulas are never emitted, as the iterator over the elements is used up by the loop before (C39_violated). The partial theorem states exactly what is emitted: positive size and inside the box."
  },
  {
   "property": "C40",
   "status": "partial",
   "theorems": [
    "Verif.Schema.C40_suffix_partial",
    "Verif.Schema.C40_plain",
    "Verif.Schema.C40_accepted_partial",
    "Verif.Schema.C40_violated_meg",
    "Verif.Schema.C40_violated_infinity"
   ],
   "note": "Every number with suffix MEG is rejected, and the word Infinity is accepted (proved). Proved for all other suffixes and for plain numbers."
  },
  {
   "property": "C41",
   "status": "partial",
   "theorems": [
    "Verif.Net.C41_flatten_partial",
    "Verif.Net.C41_names",
    "Verif.Net.C41_exists",
    "Verif.Net.C41_violated_collision",
    "Verif.Net.C41_violated_prefix"
   ],
   "note": "Names joined with underscores can collide, and devices whose model asks for a prefix are rejected inside a subcircuit (witnesses). Connectivity and devices proved for names without underscore."
  },
  {
   "property": "C42",
   "status": "proved",
   "theorems": [
    "Verif.Schema.C42_unique",
    "Verif.Schema.C42_find",
    "Verif.Schema.C42_append"
   ],
   "note": "str.upper is a parameter known to be idempotent."
  },
  {
   "property": "C43",
   "status": "partial",
   "theorems": [
    "Verif.Pre.C43_parallel_partial",
    "Verif.Pre.C43_violated_order",
    "Verif.Pre.C43_violated_multiplicity",
    "Verif.Pre.C43_violated_remaining"
   ],
   "note": "The multiplicity is written to the device with the smallest name but the first device is kept, existing multiplicities are overwritten, and devices that differ in multiplicity are not merged (witnesses). Proved for devices in the order of their names that start with multiplicity one, for every order of nets."
  },
  {
   "property": "C44",
   "status": "proved",
   "theorems": [
    "Verif.Pre.Series.C44_only_series",
    "Verif.Pre.Series.C44_keeps",
    "Verif.Pre.Series.C44_exists"
   ],
   "note": "Device names and pins distinct; STACK is a number; no device has both kinds of ends; success needs that devices of one model have the same pins."
  },
  {
   "property": "C45",
   "status": "partial",
   "theorems": [
    "Verif.Pre.Dummy.C45_partial",
    "Verif.Pre.Dummy.C45_succeeds_partial",
    "Verif.Pre.Dummy.C45_violated_parameters",
    "Verif.Pre.Dummy.C45_violated_order",
    "Verif.Pre.Dummy.C45_violated_internal",
    "Verif.Pre.Dummy.C45_violated_prefix"
   ],
   "note": "Parameters of the instance overwrite those of the element of the same name; the pass fails for shared single-element subcircuits in some orders, for elements on internal nets, and for models with a prefix (witnesses). Equivalence of the flat netlists proved for designs where parameters of one name agree; success proved for trees."
  },
  {
   "property": "C46",
   "status": "partial",
   "theorems": [
    "Verif.Pre.Params.C46_two_levels_partial",
    "Verif.Pre.Params.C46_steady_partial",
    "Verif.Pre.Params.C46_violated_depth",
    "Verif.Pre.Params.C46_violated_name",
    "Verif.Pre.Params.C46_violated_default"
   ],
   "note": "Instances inside a shared subcircuit are overwritten in place, so values of one path leak into another from depth three on, a user module with the name of a copy is reused, and an instance that does not give a parameter gets the value of the first instance instead of the default (witnesses). Exact for two levels, and at any depth where the instances in a subcircuit that occurs with different parameters are given the same values."
  },
  {
   "property": "C47",
   "status": "proved",
   "theorems": [
    "Verif.Net.C47_moves_exactly",
    "Verif.Net.C47_pins",
    "Verif.Net.C47_occurrences",
    "Verif.Net.C47_connectivity",
    "Verif.Net.C47_exists",
    "Verif.Net.C47_needs_distinct"
   ],
   "note": "Distinct instance names, the name of the new instance and of the new module are not in use."
  },
  {
   "property": "C48",
   "status": "partial",
   "theorems": [
    "Verif.Schema.Tr.C48_instances_partial",
    "Verif.Schema.Tr.C48_instances_first",
    "Verif.Schema.Tr.C48_pair",
    "Verif.Schema.Tr.C48_regions_partial",
    "Verif.Schema.Tr.C48_pins",
    "Verif.Schema.Tr.C48_violated_lost",
    "Verif.Schema.Tr.C48_violated_regions",
    "Verif.Schema.Tr.C48_violated_repetition"
   ],
   "note": "If the first merged instance is not in the list the new instance is lost; regions and repeated names go wrong too (witnesses). GroupBlocks constraints are skipped by the code; the branch without child (lines 170-173) is not modelled."
  },
  {
   "property": "C49",
   "status": "proved",
   "theorems": [
    "Verif.Cells.C49_variants",
    "Verif.Cells.C49_complete",
    "Verif.Cells.C49_returns",
    "Verif.Cells.C49_initial_size",
    "Verif.Cells.C49_validate"
   ],
   "note": "floor(sqrt(m)) taken as the exact integer root; logarithms of limit_pairs are a parameter."
  },
  {
   "property": "C50",
   "status": "proved",
   "theorems": [
    "Verif.Cells.C50_equal",
    "Verif.Cells.C50_array"
   ],
   "note": ""
  },
  {
   "property": "C51",
   "status": "partial",
   "theorems": [
    "Verif.Pnr.C51_sound_partial",
    "Verif.Pnr.C51_exact_partial",
    "Verif.Pnr.C51_violated_transitive"
   ],
   "note": "A constraint that connects two earlier groups joins the first only (witness). Exact when no constraint does."
  },
  {
   "property": "C52",
   "status": "partial",
   "theorems": [
    "Verif.Gds.C52_round_trip_partial",
    "Verif.Gds.C52_violated_mag",
    "Verif.Gds.C52_violated_line_break",
    "Verif.Gds.C52_violated_single",
    "Verif.Gds.C52_violated_empty"
   ],
   "note": "Character level round trip for all libraries, cells, boundaries, texts and references without magnification of references, line breaks in strings, lists with one number and empty lists; each of these is shown to be lost. str and float of floating point numbers are parameters known to be inverse."
  },
  {
   "property": "C53",
   "status": "proved",
   "theorems": [
    "Verif.Geometry.C53_jsonPos",
    "Verif.Geometry.C53_nonnegative"
   ],
   "note": ""
  },
  {
   "property": "C54",
   "status": "proved",
   "theorems": [
    "Verif.Pdk.C54_drawings",
    "Verif.Pdk.C54_exists"
   ],
   "note": "Layers have different names and a via joins two different metals; the cut is inside if the enclosures are not negative."
  },
  {
   "property": "C55",
   "status": "partial",
   "theorems": [
    "Verif.Pre.Power.C55_exact_partial",
    "Verif.Pre.Power.C55_exists",
    "Verif.Pre.Power.C55_violated_own",
    "Verif.Pre.Power.C55_violated_mixed",
    "Verif.Pre.Power.C55_violated_shared"
   ],
   "note": "A power constraint of the subcircuit that does not propagate loses the ports from above, mixed flags follow the last constraint, and copies share a constraint object (witnesses). Exactness and termination proved otherwise."
  },
  {
   "property": "C56",
   "status": "partial",
   "theorems": [
    "Verif.Canvas.C56_exact_partial",
    "Verif.Canvas.C56_narrow_partial",
    "Verif.Canvas.C56_violated_wide",
    "Verif.Canvas.C56_violated_off_center"
   ],
   "note": "Ends are exact. Only the track at the center of the rectangle is reported, so tracks on wide rectangles are missed, and a center half a unit off the track is accepted (proved witnesses)."
  },
  {
   "property": "C57",
   "status": "partial",
   "theorems": [
    "Verif.Grid.C57_wire_covers_vias_partial",
    "Verif.Grid.C57_violated_mixed",
    "Verif.Grid.C57_violated_enclosure"
   ],
   "note": "Proved when all vias have the same end extension on a grid with increasing legal lines; violated for mixed extensions and for out-of-order stops (witnesses)."
  },
  {
   "property": "C58",
   "status": "partial",
   "theorems": [
    "Verif.Canvas.C58_on_crossing",
    "Verif.Canvas.C58_added_partial",
    "Verif.Canvas.C58_violated_existing",
    "Verif.Canvas.C58_violated_existing_spacing",
    "Verif.Canvas.C58_violated_two_tracks",
    "Verif.Canvas.C58_violated_abutting"
   ],
   "note": "The matrix of existing vias is built with x and y exchanged, so existing vias are not seen (witnesses). Proved: every added via is on a crossing of wires of one net with its enclosures; vias added in one call are never at the same place and keep the spacing in a row and on neighbouring tracks of a column if they are apart at all."
  },
  {
   "property": "C59",
   "status": "partial",
   "theorems": [
    "Verif.Canvas.C59_consecutive",
    "Verif.Canvas.C59_limit",
    "Verif.Canvas.C59_greedy",
    "Verif.Canvas.C59_arguments",
    "Verif.Canvas.C59_drawn_partial",
    "Verif.Canvas.C59_violated_off_grid"
   ],
   "note": "The choice of wires to join respects the limit for all tracks. The wire drawn is exact if the ends of the wires are on the grid of stop points; otherwise it reaches beyond them and can be longer than the limit (witness)."
  },
  {
   "property": "C60",
   "status": "proved",
   "theorems": [
    "Verif.RemoveDup.C60_ports_survive"
   ],
   "note": ""
  },
  {
   "property": "C61",
   "status": "partial",
   "theorems": [
    "Verif.SeqPair.C61_rounding_partial",
    "Verif.SeqPair.C61_integral_partial",
    "Verif.SeqPair.C61_violated_overlap"
   ],
   "note": "Rounding a solution with half-integral coordinates can make blocks overlap (witness). Proved: sizes are exact and each block moves by at most 1/2; solutions at integers are reproduced exactly."
  },
  {
   "property": "C62",
   "status": "partial",
   "theorems": [
    "Verif.Cells.C62_generic_partial",
    "Verif.Cells.C62_violated_array",
    "Verif.Cells.C62_violated_units"
   ],
   "note": "Arrays are stored under the names of their variants only, so the test never finds them (witnesses). Proved for devices that are no arrays."
  },
  {
   "property": "C63",
   "status": "proved",
   "theorems": [
    "Verif.Cells.C63_common_centroid",
    "Verif.Cells.C63_needs_even"
   ],
   "note": ""
  },
  {
   "property": "C64",
   "status": "partial",
   "theorems": [
    "Verif.Lef.C64_pins",
    "Verif.Lef.C64_obstructions",
    "Verif.Lef.C64_once_partial",
    "Verif.Lef.C64_size_partial",
    "Verif.Lef.C64_grid",
    "Verif.Lef.C64_violated_body",
    "Verif.Lef.C64_violated_size"
   ],
   "note": "A hidden body pin is neither pin nor obstruction, and the size is wrong unless the cell starts at the origin (witnesses). Proved otherwise."
  },
  {
   "property": "C65",
   "status": "partial",
   "theorems": [
    "Verif.Gds.C65_shapes_partial",
    "Verif.Gds.C65_labels",
    "Verif.Gds.C65_text",
    "Verif.Gds.C65_violated_guard"
   ],
   "note": "Wide V0 vias are drawn as a row that can leave the rectangle (witness). Everything else is proved."
  },
  {
   "property": "C66",
   "status": "partial",
   "theorems": [
    "Verif.Pdk.C66_loaded_partial",
    "Verif.Pdk.C66_violated_metal_width",
    "Verif.Pdk.C66_violated_via_height"
   ],
   "note": "The width of metals and the height of vias are not checked (witnesses). Proved for everything else."
  },
  {
   "property": "C67",
   "status": "proved",
   "theorems": [
    "Verif.Schema.Tr.C67_total_current",
    "Verif.Schema.Tr.C67_exists",
    "Verif.Schema.Tr.C67_needs_equal_length"
   ],
   "note": "Lists of currents have equal length and the name of the new instance is fresh."
  },
  {
   "property": "C68",
   "status": "partial",
   "theorems": [
    "Verif.Match.C68_same_circuit_partial",
    "Verif.Match.C68_returns",
    "Verif.Match.C68_violated_port",
    "Verif.Match.C68_violated_name",
    "Verif.Match.C68_violated_hash"
   ],
   "note": "A port that is an inner net of a match is cut off, two instances may get one name, and a hash with finitely many values gives two devices with different parameters one module (witnesses; the last for every such hash). The same circuit and no failing assertion proved otherwise. Constraints are not modelled; the isomorphisms are those networkx guarantees."
  },
  {
   "property": "C69",
   "status": "partial",
   "theorems": [
    "Verif.Lef.C69_library_partial",
    "Verif.Lef.C69_single_partial",
    "Verif.Lef.C69_layout_partial",
    "Verif.Lef.C69_violated_index",
    "Verif.Lef.C69_violated_ports",
    "Verif.Lef.C69_violated_silent"
   ],
   "note": "A name that is not an identifier (A[0]) is written but cannot be read; of a pin with several ports only the last is kept; an unknown character ends reading silently (witnesses; the last for every continuation). The round trip is proved for all other cells and libraries. Numbers are rationals, not floats."
  },
  {
   "property": "C70",
   "status": "partial",
   "theorems": [
    "Verif.Spice.C70_parse_partial",
    "Verif.Spice.C70_violated_blank",
    "Verif.Spice.C70_violated_stop",
    "Verif.Spice.C70_violated_order",
    "Verif.Spice.C70_violated_nested",
    "Verif.Spice.C70_violated_model",
    "Verif.Spice.C70_violated_twice",
    "Verif.Spice.C70_violated_net"
   ],
   "note": "A blank at the end of a line joins it with the next (an instance after `.ENDS x ` is lost silently), an unknown character ends reading silently (for every continuation), a subcircuit must be defined before use, nested subcircuits are rejected, the model of a resistor without parameters is taken for its value, two instances of one name are kept, and nets 1K and 1000 become one net (witnesses). All other netlists with models defined before use are read as written. ASCII only; the pattern of expressions, printing of numbers and evaluation of constraints are parameters; backslash continuation, leading indentation of the first line and generic models for unknown devices are in the model but not in the theorem."
  },
  {
   "property": "C71",
   "status": "proved",
   "theorems": [
    "Verif.Sym.C71_once",
    "Verif.Sym.C71_alike"
   ],
   "note": "For every answer of the solver. C71_alike takes the groups from the search on the same subcircuit, that is, without arrays extracted in between, and needs an unambiguous key (no hash collision, no colon in names)."
  },
  {
   "property": "C72",
   "status": "partial",
   "theorems": [
    "Verif.Sym.C72_pins_partial",
    "Verif.Sym.C72_once_partial",
    "Verif.Sym.C72_violated_twice"
   ],
   "note": "When the user gives an instance two partners, its pin is listed twice, since the test for a repeated pin compares a tuple with strings (witness); all else holds always, and this too when the pairs of the user are disjoint."
  },
  {
   "property": "C73",
   "status": "partial",
   "theorems": [
    "Verif.Sym.C73_ends",
    "Verif.Sym.C73_alike_partial",
    "Verif.Sym.C73_violated_fails",
    "Verif.Sym.C73_violated_double"
   ],
   "note": "On a symmetric netlist with three loads on two pairs of nets the search fails by an assertion, and two instances may be related to one (witnesses). Termination holds always; related nodes are alike whenever it succeeds and keys are unambiguous."
  },
  {
   "property": "C74",
   "status": "partial",
   "theorems": [
    "Verif.Sym.C74_derived_partial",
    "Verif.Sym.C74_violated_alone",
    "Verif.Sym.C74_violated_crossed"
   ],
   "note": "Two constraints over one differential pair make a transistor its own partner, and of two cross-coupled gates the second is listed twice (witnesses). Proved when the constraints are about different instances. The check that the solver accepts the constraint is not modelled."
  },
  {
   "property": "C75",
   "status": "partial",
   "theorems": [
    "Verif.Sd.C75_only",
    "Verif.Sd.C75_all",
    "Verif.Sd.C75_ends",
    "Verif.Sd.C75_violated_wrapper"
   ],
   "note": "A subcircuit with a single transistor is taken for this transistor whatever its ports are connected to, so the exchange may change the circuit (witness). All else is proved. Ties of the distances are left open by the statement."
  },
  {
   "property": "C76",
   "status": "partial",
   "theorems": [
    "Verif.Pre.Off.C76_exact_partial",
    "Verif.Pre.Off.C76_kept_partial",
    "Verif.Pre.Off.C76_violated_last",
    "Verif.Pre.Off.C76_violated_none",
    "Verif.Pre.Off.C76_violated_empty"
   ],
   "note": "Only the last constraint of each kind counts, nothing is removed without any supply, and a subcircuit with a single element becomes empty (witnesses). Proved for one constraint of each kind at most and at least one of both."
  },
  {
   "property": "C77",
   "status": "partial",
   "theorems": [
    "Verif.Pre.Template.C77_groups_partial",
    "Verif.Pre.Template.C77_sound_partial",
    "Verif.Pre.Template.C77_violated_collision"
   ],
   "note": "For every hash there is a subcircuit on which the generation fails by an assertion, as two sets of parameters have the same hash (pigeonhole). Proved when no two texts have the same hash and names have no colon and values no underscore; without this and without groups of blocks, whenever the code succeeds."
  },
  {
   "property": "C78",
   "status": "partial",
   "theorems": [
    "Verif.Arr.C78_ends",
    "Verif.Arr.C78_reach",
    "Verif.Arr.C78_apart",
    "Verif.Arr.C78_rows_partial",
    "Verif.Arr.C78_align_partial",
    "Verif.Arr.C78_violated_fails",
    "Verif.Arr.C78_violated_rows",
    "Verif.Arr.C78_violated_align",
    "Verif.Arr.C78_violated_last",
    "Verif.Arr.C78_violated_order"
   ],
   "note": "The search ends and rows are connected for all circuits; rows of equal length are alike. Violated: the search fails from an instance as start point, rows may have different lengths, instances to be aligned may differ, only the last group is kept, the result depends on the order of a set."
  },
  {
   "property": "C79",
   "status": "partial",
   "theorems": [
    "Verif.Arr.C79_connectivity",
    "Verif.Arr.C79_templates",
    "Verif.Arr.C79_succeeds_partial",
    "Verif.Arr.C79_violated_name",
    "Verif.Arr.C79_violated_empty",
    "Verif.Arr.C79_violated_shared",
    "Verif.Arr.C79_violated_moved"
   ],
   "note": "Connectivity is kept and templates hold exactly the elements of the rows for all circuits. Success only if the name is new and each row keeps an element on the start net. Violated: name taken by an array of another circuit, row emptied by an earlier array, element shared by some rows only, element of a skipped array counts as moved."
  },
  {
   "property": "C80",
   "status": "partial",
   "theorems": [
    "Verif.Arr.C80_only",
    "Verif.Arr.C80_done_partial",
    "Verif.Arr.C80_violated_rest",
    "Verif.Arr.C80_violated_nested"
   ],
   "note": "All groups get their constraints if no given alignment is within a group and no group is within a later one. Violated otherwise: the loop returns at the first such group and forgets all later ones."
  },
  {
   "property": "C81",
   "status": "partial",
   "theorems": [
    "Verif.Group.C81_same_circuit_partial",
    "Verif.Group.C81_succeeds_partial",
    "Verif.Group.C81_canonical",
    "Verif.Group.C81_violated_case",
    "Verif.Group.C81_violated_pins",
    "Verif.Group.C81_violated_prefix",
    "Verif.Group.C81_violated_constraints",
    "Verif.Group.C81_violated_order"
   ],
   "note": "If the grouping succeeds, names are in upper case and hashes do not collide, exactly the named instances are in the new instance and the circuit is the same. Violated: lower-case names (from const.json or the netlist, where they are not changed to upper case) pass the check but are not grouped; the hash ignores the pins, so an equal group with other outward nets fails; groups of devices whose names must not start with M fail; constraints of a second equal group are lost; equal groups listed in another order get different subcircuits."
  },
  {
   "property": "C82",
   "status": "partial",
   "theorems": [
    "Verif.GdsBin.C82_round_trip_partial",
    "Verif.GdsBin.C82_violated",
    "Verif.GdsBin.C82_violated_path",
    "Verif.GdsBin.C82_violated_mag",
    "Verif.GdsBin.C82_violated_aref",
    "Verif.GdsBin.C82_violated_empty"
   ],
   "note": "Proved for layouts of boundaries, texts, paths without BGNEXTN and references without magnification, with at least one library and cell. Violated otherwise: BGNEXTN is taken for the beginning of an object; the magnification of references is dropped; arrays of references write only their end; a library without cells cannot be written again."
  },
  {
   "property": "C83",
   "status": "partial",
   "theorems": [
    "Verif.Charge.C83_flow",
    "Verif.Charge.C83_conserve",
    "Verif.Charge.C83_scaled",
    "Verif.Charge.C83_succeeds_partial",
    "Verif.Charge.C83_violated_zero",
    "Verif.Charge.C83_violated_single",
    "Verif.Charge.C83_violated_case"
   ],
   "note": "All of it is proved when there is a result, and there is one if at least two increasing times are given and the currents of each net add up to zero. Violated otherwise: a pin with current 0 next to a sink, or a single time, make a division by zero; pins in lower case are accepted and have no effect."
  },
  {
   "property": "C84",
   "status": "proved",
   "theorems": [
    "Verif.PnrNet.C84_same",
    "Verif.PnrNet.C84_nets"
   ],
   "note": "The C++ objects of the database are modelled as records; constraints and global signals, which are passed on, are left out."
  },
  {
   "property": "C85",
   "status": "proved",
   "theorems": [
    "Verif.Route.C85_bottom_up"
   ],
   "note": "Whole loop; the routing of a single variant and the C++ traversal order are parameters."
  },
  {
   "property": "C86",
   "status": "partial",
   "theorems": [
    "Verif.Route.C86_top_down_partial",
    "Verif.Route.C86_violated_name"
   ],
   "note": "Trees, parents and copy numbers are proved without conditions. The results are complete only if the top design is not called like another module followed by an underscore and a number: a top A_0 that uses a module A overwrites the layout of A."
  },
  {
   "property": "C87",
   "status": "partial",
   "theorems": [
    "Verif.Settings.C87_settings_partial",
    "Verif.Settings.C87_violated_shared"
   ],
   "note": "Proved for the settings of the top design, and for all settings if every subcircuit is used by one other only. Violated otherwise: a subcircuit that was already visited from elsewhere gets nothing from a second user."
  },
  {
   "property": "C88",
   "status": "partial",
   "theorems": [
    "Verif.UserCons.C88_protected_partial",
    "Verif.UserCons.C88_only",
    "Verif.UserCons.C88_violated_combined",
    "Verif.UserCons.C88_violated_case",
    "Verif.UserCons.C88_violated_floorplan"
   ],
   "note": "Proved for the constraints listed in Covered; exclusion of no other instance is proved in full. Violated: SameTemplate and SymmetricNets in const.json without a file of the design, lower-case names of AlignInOrder in const.json, and a Floorplan that is not both ordered and symmetric."
  },
  {
   "property": "C89",
   "status": "partial",
   "theorems": [
    "Verif.PlaceCheck.C89_exact_partial",
    "Verif.PlaceCheck.C89_within_partial",
    "Verif.PlaceCheck.C89_order_partial",
    "Verif.PlaceCheck.C89_align_partial",
    "Verif.PlaceCheck.C89_violated_accepted",
    "Verif.PlaceCheck.C89_violated_rejected",
    "Verif.PlaceCheck.C89_violated_again"
   ],
   "note": "Exact (both directions) if all boxes are at whole units of the scale factor and the constraint database was not checked before; for any boxes an accepted placement satisfies the constraints up to less than one unit per side. Violated: the quotients are cut to integers, so misaligned instances are accepted and centered ones rejected; and a second check with the same database skips boxes that did not move."
  },
  {
   "property": "C90",
   "status": "proved",
   "theorems": [
    "Verif.Post.C90_cuts",
    "Verif.Post.C90_succeeds"
   ],
   "note": "Model of PostProcessor.register/run, ViaArrayGenerator and the registration by the canvas."
  },
  {
   "property": "C91",
   "status": "partial",
   "theorems": [
    "Verif.Post.C91_colors_partial",
    "Verif.Post.C91_wires_partial",
    "Verif.Post.C91_violated_color",
    "Verif.Post.C91_violated_offgrid"
   ],
   "note": "Proved for layers whose Offset is 0 (an even number of colours, even width). Violated otherwise: ColorClosure ignores the Offset of the layer, so wires on the tracks get a wrong colour or are reported as off grid."
  },
  {
   "property": "C92",
   "status": "proved",
   "theorems": [
    "Verif.Assemble.C92_shapes",
    "Verif.Assemble.C92_nets"
   ],
   "note": "Model of rational_scaling and of gen_viewer_json up to the removal of duplicates; off-grid checks (which only add errors) and drawing of global routes are not modelled."
  },
  {
   "property": "C93",
   "status": "partial",
   "theorems": [
    "Verif.Pre.PrimLib.C93_leads_partial",
    "Verif.Pre.PrimLib.C93_shared_partial",
    "Verif.Pre.PrimLib.C93_units_partial",
    "Verif.Pre.PrimLib.C93_ring",
    "Verif.Pre.PrimLib.C93_closed",
    "Verif.Pre.PrimLib.C93_succeeds",
    "Verif.Pre.PrimLib.C93_violated_hash",
    "Verif.Pre.PrimLib.C93_violated_unit"
   ],
   "note": "Proved for hash functions that keep the parameters of the design apart (C93_leads_partial, C93_shared_partial). Violated in general: for every hash into eight digits two devices with different parameters share a name and the second one has no definition (C93_violated_hash); a unit capacitor named CAP_12F gets 120 fF (C93_violated_unit). Only the definition of unit capacitors without their value is proved (C93_units_partial)."
  },
  {
   "property": "C94",
   "status": "partial",
   "theorems": [
    "Verif.Pre.PrimLib.C94_own_partial",
    "Verif.Pre.PrimLib.C94_violated_generic",
    "Verif.Pre.PrimLib.C94_violated_stale"
   ],
   "note": "Proved if no block is generic. Violated for generic blocks: no generic block is ever drawn as one, it is drawn from the definition of the block before it, or the run fails if it is the first one."
  },
  {
   "property": "C95",
   "status": "partial",
   "theorems": [
    "Verif.Cells.Mos.C95_draws_partial",
    "Verif.Cells.Mos.C95_cells_partial",
    "Verif.Cells.Mos.C95_violated_three"
   ],
   "note": "Proved for one and two transistors with the pattern chosen by the generator. Violated for three or more: only the two first by name are drawn, and no error is raised. The wires added by route() and the shapes inside a cell are not modelled."
  },
  {
   "property": "C96",
   "status": "partial",
   "theorems": [
    "Verif.Cells.Mos.C96_even_partial",
    "Verif.Cells.Mos.C96_odd_partial",
    "Verif.Cells.Mos.C96_violated_stack"
   ],
   "note": "Holds in even rows for all nets; in odd rows exactly if the condition of C96_odd_partial holds. Violated for stacked transistors (source of the second on the drain of the first) in odd rows."
  },
  {
   "property": "C97",
   "status": "partial",
   "theorems": [
    "Verif.ConstDb.C97_nets_partial",
    "Verif.ConstDb.C97_orders",
    "Verif.ConstDb.C97_aligns",
    "Verif.ConstDb.C97_distances",
    "Verif.ConstDb.C97_symmetry",
    "Verif.ConstDb.C97_caps",
    "Verif.ConstDb.C97_symnets",
    "Verif.ConstDb.C97_ports",
    "Verif.ConstDb.C97_matches",
    "Verif.ConstDb.C97_spreads",
    "Verif.ConstDb.C97_dnr_partial",
    "Verif.ConstDb.C97_refused",
    "Verif.ConstDb.C97_violated_zero",
    "Verif.ConstDb.C97_violated_dnr",
    "Verif.ConstDb.C97_violated_shield"
   ],
   "note": "Proved for all lists of the modelled constraints, except that weights need no criticality of 0 and no empty name of a shield net, and nets not to be routed need a single DoNotRoute. The code violates the claim there: a criticality of 0 is dropped, of two DoNotRoute only the last counts, and the net to shield with is not kept. AspectRatio, Boundary, GuardRing, Route and CompactPlacement are not modelled."
  },
  {
   "property": "C98",
   "status": "partial",
   "theorems": [
    "Verif.Moves.C98_start",
    "Verif.Moves.C98_move",
    "Verif.Moves.C98_run_partial",
    "Verif.Moves.C98_same",
    "Verif.Moves.C98_select",
    "Verif.Moves.C98_moved",
    "Verif.Moves.C98_exchanged",
    "Verif.Moves.C98_many",
    "Verif.Moves.C98_groups",
    "Verif.Moves.C98_possible",
    "Verif.Moves.C98_violated_shared"
   ],
   "note": "Proved for all designs in which no block is in two symmetric groups or twice in one. The code violates the claim otherwise: groups are merged only when they share a whole pair or a self-symmetric block, so a block can be in two groups, and exchanging two blocks of one group and then the two groups loses a block and has another twice. Orders and alignments (KeepOrdering, CheckAlign) are not modelled."
  },
  {
   "property": "C99",
   "status": "partial",
   "theorems": [
    "Verif.SymGroups.C99_groups",
    "Verif.SymGroups.C99_once",
    "Verif.SymGroups.C99_axis_partial",
    "Verif.SymGroups.C99_blocks_partial",
    "Verif.SymGroups.C99_lookup_partial",
    "Verif.SymGroups.C99_violated_axis",
    "Verif.SymGroups.C99_violated_block",
    "Verif.SymGroups.C99_violated_lookup"
   ],
   "note": "The classes are proved for all lists of constraints. The code violates the rest: of two constraints with the same pair and different axes one is lost without a message; a block paired with two others is in two groups; the number of the group is used to look up the axis in the list of constraints before merging. Each part is proved under the condition that excludes this."
  }
 ]
}