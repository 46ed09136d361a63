{"id": "C01", "title": "Composed placements act like placing twice", "statement": "For any two placement transformations A and B (offset plus mirroring in x and/or y), the transformation returned by Transformation.mult(A,B) maps every point to the same place as applying B and then A. preMult and postMult are the same composition with the receiver on the inner, respectively outer, side, and composition is associative with Transformation() as unit.", "quantifier": "all integer offsets, all four mirrorings, all points, chains of any length", "why_tests_cant": "Tests apply a few hand-picked transformations to a few points; the law has to hold for every offset, mirroring, point and nesting depth.", "anchors": ["align/cell_fabric/transformation.py: Transformation.mult, preMult, postMult, hit"]}
{"id": "C02", "title": "Inverse placement undoes placement", "statement": "For every placement transformation with mirror factors +1/-1, inv() composed with the original on either side fixes every point, and applying inv() twice gives the original transformation back.", "quantifier": "all integer offsets, all four mirrorings, all points", "why_tests_cant": "A unit test can only try finitely many offset/mirror combinations.", "anchors": ["align/cell_fabric/transformation.py: Transformation.inv, mult, hit"]}
{"id": "C03", "title": "DEF orientations keep a cell on its own footprint", "statement": "genTr(tag,w,h) for tag N/FN/S/FS maps the rectangle [0,w]x[0,h] onto itself exactly (after canonicalisation), realises the orientation named by the tag, and applying the same orientation twice is the identity; any other tag is rejected.", "quantifier": "all widths and heights, all tags, all points of the cell", "why_tests_cant": "Needs every cell size and every point; tests use one or two sizes.", "anchors": ["align/cell_fabric/transformation.py: Transformation.genTr, hitRect, Rect.canonical"]}
{"id": "C04", "title": "Transformed rectangles cover exactly the transformed points", "statement": "For every rectangle r with llx<=urx and lly<=ury, hitRect(r).canonical() is again ordered, has the same width and height, and contains a point exactly when the point is the image of a point of r.", "quantifier": "all ordered rectangles, transformations and points", "why_tests_cant": "Universal over an infinite set of points and rectangles.", "anchors": ["align/cell_fabric/transformation.py: Transformation.hitRect, Rect.canonical, Rect.toList"]}
{"id": "C05", "title": "Canvas transform stack is lexically scoped", "statement": "For any well-nested program of push, pop and add-shape calls on a Canvas, after the program the active transformation is the one before it, and each shape added lands where the composition of the transformations pushed and not yet popped (outermost applied last) puts it. Popping the initial entry is an error.", "quantifier": "all nested sequences of push/pop/add operations", "why_tests_cant": "Histories of arbitrary length and nesting cannot be enumerated by tests.", "anchors": ["align/cell_fabric/canvas.py: pushTr, hitTopTr, popTr, trStack, transform_and_add"]}
{"id": "C06", "title": "Grid coordinates are periodic and strictly increasing", "statement": "For a grid whose first-period points are strictly increasing, value() at consecutive integer indices (negative ones included) is strictly increasing, and advancing by one full period of indices advances the coordinate by exactly the grid period; tuple indices (q,r) and flat indices agree.", "quantifier": "all grids with increasing points, all integer indices", "why_tests_cant": "Needs every index (unbounded, negative too) and every grid.", "anchors": ["align/cell_fabric/grid.py: Grid.value, period, n"]}
{"id": "C07", "title": "inverseBounds brackets every coordinate tightly", "statement": "For a grid with strictly increasing points and any integer coordinate x, inverseBounds(x) returns a pair of grid indices lo,hi with value(lo)<=x<=value(hi); they coincide exactly when x is on the grid, and otherwise are adjacent with no grid point in between.", "quantifier": "all grids with increasing points, all integer coordinates", "why_tests_cant": "Off-by-one errors at period boundaries and negative coordinates are exactly what finite sampling misses.", "anchors": ["align/cell_fabric/grid.py: Grid.inverseBounds, value"]}
{"id": "C08", "title": "snapToLegal returns the nearest legal grid index", "statement": "For a grid with at least one legal index and any index, snapToLegal(idx,-1) (resp. +1) returns a legal index that is not above (resp. not below) the given one and such that no legal index lies strictly between.", "quantifier": "all grids with a non-empty legal set, all indices, both directions", "why_tests_cant": "Quantifies over all legal sets and all indices, in particular at period wrap-around.", "anchors": ["align/cell_fabric/grid.py: Grid.snapToLegal, addGridPoint"]}
{"id": "C09", "title": "Track templates realise the requested pitch, width, offset and colours", "statement": "A center-line grid built with a pitch, an even width, an offset and optionally a list of colours has a track at offset + v*pitch for every integer v. A wire drawn on track v is centred on it and exactly width wide, and wires on neighbouring tracks are exactly pitch - width apart. With colours, track v has the colour v modulo the number of colours, whenever the repeat count is a multiple of the number of colours.", "quantifier": "all pitches, even widths, offsets, colour lists, repeat counts and all (also negative) track indices", "why_tests_cant": "Must hold for every template and every track, including across the period boundary and for negative tracks.", "anchors": ["align/cell_fabric/grid.py: UncoloredCenterLineGrid, ColoredCenterLineGrid", "align/cell_fabric/generators.py: Wire.segment"]}
{"id": "C10", "title": "removeDuplicates keeps the drawn geometry", "statement": "For every list of rectangles of one layer in which rectangles on one scan line have one width, the rectangles returned by removeDuplicates() cover exactly the same points as the input rectangles, and the returned rectangles on a scan line that are joined are no longer abutting.", "quantifier": "all shape lists (any number, order, overlap pattern)", "why_tests_cant": "Merging bugs depend on overlap patterns and order; the number of patterns is unbounded.", "anchors": ["align/cell_fabric/remove_duplicates.py: RemoveDuplicates.build_scan_lines, Scanline.merge, generate_rectangles, remove_duplicates"]}
{"id": "C11", "title": "A short is reported whenever differently named shapes touch on a track", "statement": "If two shapes with different net names overlap or abut on the same scan line with nothing but same-named or unnamed shapes between them, removeDuplicates() records a short; and if no short is recorded, all connected shapes carry one name.", "quantifier": "all shape lists", "why_tests_cant": "The guarantee is about every arrangement of shapes; missed shorts are silent.", "anchors": ["align/cell_fabric/remove_duplicates.py: connectPair, check_shorts_induced_by_vias, build_scan_lines"]}
{"id": "C12", "title": "Connectivity is the equivalence closure of the connections made", "statement": "After any sequence of connect operations on scan-line shapes, two shapes have the same root exactly when they are linked by a chain of performed connections; path compression never changes the answer, and root lookup always terminates.", "quantifier": "all sequences of connect/root operations on any number of shapes", "why_tests_cant": "Histories of unbounded length; aliasing bugs show only for particular orders.", "anchors": ["align/cell_fabric/remove_duplicates.py: UnionFind.root, UnionFind.connect"]}
{"id": "C13", "title": "Open nets are reported exactly when a net is in several pieces", "statement": "check_opens() reports a named net precisely when the shapes carrying this net name fall into more than one connected component (and opens are not allowed for it); the reported groups partition those shapes by component.", "quantifier": "all connectivity states, all names", "why_tests_cant": "All partitions of all shape sets must be considered.", "anchors": ["align/cell_fabric/remove_duplicates.py: check_opens, set_open"]}
{"id": "C14", "title": "Net names survive merging", "statement": "Every named input shape appears in the output of removeDuplicates() covered by a rectangle carrying the same net name, unless a short involving this name is reported.", "quantifier": "all shape lists", "why_tests_cant": "Loss of a name depends on the order in which named, unnamed and blockage shapes meet.", "anchors": ["align/cell_fabric/remove_duplicates.py: connectPair, generate_rectangles"]}
{"id": "C15", "title": "Minimum spacing is checked between all pairs on a track", "statement": "For shapes on one scan line, sorted and pairwise disjoint, the spacing check reports no error exactly when every two distinct shapes on it are either abutting or at least the minimum distance apart (outside exempt regions).", "quantifier": "all scan lines with any number of shapes", "why_tests_cant": "The check looks at neighbours only; that this suffices for all pairs is an inductive fact.", "anchors": ["align/cell_fabric/drc.py: _check_min_spacing, RegionSet.contained_in"]}
{"id": "C16", "title": "Minimum length is checked for every shape", "statement": "The length check reports exactly the shapes shorter than the minimum that are not inside an exempt boundary region: no error list entry is missing, none is spurious.", "quantifier": "all scan lines and region sets", "why_tests_cant": "Universal over shape sets.", "anchors": ["align/cell_fabric/drc.py: _check_min_length, RegionSet.contained_in"]}
{"id": "C17", "title": "Via enclosure lookup finds the covering wire", "statement": "For a metal scan line whose wires are sorted and disjoint, the lookup used by the enclosure rule returns a wire exactly when some wire on the line covers the via centre, and then returns that wire; hence no via without enclosing metal passes.", "quantifier": "all scan lines, all via positions", "why_tests_cant": "Binary-search boundary mistakes appear only for particular lengths and positions.", "anchors": ["align/cell_fabric/drc.py: _find_rect_covering_via, binary_search, check_single_metal"]}
{"id": "C18", "title": "Too many adjacent vias are always reported", "statement": "With MaxAdjacentY (or X) equal to k, the via check reports an error exactly when some k+1 vias on a line sit on consecutive grid tracks.", "quantifier": "all lists of via positions, all limits k", "why_tests_cant": "Runs may start anywhere in the list; tests place one run at the beginning.", "anchors": ["align/cell_fabric/drc.py: _check_via_rules (MaxAdjacentY, MaxAdjacentX)"]}
{"id": "C19", "title": "Extracted wire segments tile the wire", "statement": "For every wire and every sorted list of via positions on its track, the extracted segments are contiguous, each no longer than the poly pitch, start at the wire start, end at the wire end and do not overlap; every via position on the wire is a segment end point.", "quantifier": "all wires, all sorted port lists, all pitches", "why_tests_cant": "Number and position of vias unbounded.", "anchors": ["align/cell_fabric/pex.py: _extract_metal_rectangle, _stamp_netcells"]}
{"id": "C20", "title": "Extraction conserves wire resistance and capacitance", "statement": "The resistances (capacitances) of the components emitted for one wire sum to unit resistance (capacitance) times wire length, whatever the segmentation, and the tee and pi models agree on totals.", "quantifier": "all wires and segmentations, all unit values", "why_tests_cant": "A sum over an unbounded number of cells.", "anchors": ["align/cell_fabric/pex.py: run, pi, tee, compute_dist, getSummaryCaps"]}
{"id": "C21", "title": "Flattening composes placements along the instance path", "statement": "The transformation reported for every leaf of a placed hierarchy is the composition of the transformations of all instances on its path from the top, and every path from top to a leaf instance is reported exactly once.", "quantifier": "all hierarchies (any depth and sharing) and placements", "why_tests_cant": "Depth and sharing of hierarchies are unbounded.", "anchors": ["align/pnr/checker.py: _transform_leaf, _transform_leaves, _flatten_leaves"]}
{"id": "C22", "title": "Place-on-grid acceptance means every leaf is on its grid", "statement": "check_place_on_grid() succeeds exactly when for every flattened leaf instance and each of its PlaceOnGrid constraints some alternative allows its orientation and its origin is congruent to an allowed offset modulo the pitch.", "quantifier": "all placed hierarchies and grid constraints", "why_tests_cant": "All hierarchies, offsets, pitches and orientations.", "anchors": ["align/pnr/checker.py: _check_place_on_grid, check_place_on_grid"]}
{"id": "C23", "title": "Merging grid constraints is conjunction", "statement": "A position and orientation satisfies the constraint computed by merging a list of grid constraints exactly when it satisfies every one of them.", "quantifier": "all lists of constraints with positive pitches, all integer positions, both orientations", "why_tests_cant": "Quantifies over all integers; lcm/Chinese-remainder mistakes hide outside small samples.", "anchors": ["align/pnr/grid_constraints.py: merge, lcm, check, simplify"]}
{"id": "C24", "title": "Module grid constraints are exact", "statement": "A module placed at offset o with orientation s satisfies the grid constraint derived for it from its children exactly when each child instance, placed at the composed location and orientation, satisfies its own constraint; by iteration the same holds for all leaves of a hierarchy.", "quantifier": "all modules, children placements, offsets, orientations, depths", "why_tests_cant": "Infinite number of placements and hierarchies.", "anchors": ["align/pnr/grid_constraints.py: gen_constraints_for_module, gen_constraints, split_directions_and_merge"]}
{"id": "C25", "title": "The two wirelength algorithms agree", "statement": "For a well-formed placed hierarchy the half-perimeter wirelength obtained by flattening top-down equals the one obtained bottom-up.", "quantifier": "all hierarchies, placements and net connections", "why_tests_cant": "Depth, sharing and connectivity are unbounded; the code only logs when the values differ.", "anchors": ["align/pnr/hpwl.py: calculate_HPWL_from_placement_verilog_d_top_down, calculate_HPWL_from_placement_verilog_d_bottom_up, Interval, SemiPerimeter, gen_netlist"]}
{"id": "C26", "title": "The overlap checker is exact", "statement": "standalone_overlap_checker reports an overlap exactly when two distinct leaf instances of the flattened placement have intersecting interiors.", "quantifier": "all placements", "why_tests_cant": "All arrangements of any number of boxes.", "anchors": ["align/pnr/render_placement.py: standalone_overlap_checker, rects_overlap, gen_boxes_and_hovertext"]}
{"id": "C27", "title": "Unit scaling round-trips when it reports no remainder", "statement": "Scaling coordinates by mul/div and back by div/mul gives the original coordinates exactly when the first step had no remainder, and a non-zero remainder is always reported.", "quantifier": "all integer coordinates and positive mul/div", "why_tests_cant": "All integers, in particular negative ones.", "anchors": ["align/pnr/render_placement.py: scalar_rational_scaling, array_rational_scaling, scale_placement_verilog", "align/pnr/checkers.py: rational_scaling"]}
{"id": "C28", "title": "A sequence pair solution never overlaps blocks", "statement": "Whenever the placement inequalities generated from a sequence pair hold, no two placed blocks overlap, for every pair of permutations and all block sizes.", "quantifier": "all block counts, permutations, sizes and coordinates", "why_tests_cant": "n! squared sequence pairs for every n.", "anchors": ["align/pnr/placer_pythonic_sp.py: place_sequence_pair"]}
{"id": "C29", "title": "Feasible placements honour the user constraints", "statement": "Any solution of the inequalities place_sequence_pair emits lies inside the reported bounding box and satisfies each Order, Align, SymmetricBlocks, PlaceOnBoundary, Boundary and PlaceOnGrid constraint in its documented geometric meaning.", "quantifier": "all instances, constraints and solutions", "why_tests_cant": "All solutions of a linear system.", "anchors": ["align/pnr/placer_pythonic_sp.py: place_sequence_pair"]}
{"id": "C30", "title": "Enumerated sequence pairs are exactly the order-respecting ones", "statement": "enumerate_sequence_pairs yields (up to its limit) only sequence pairs in which every ordered pair of instances is forced into the requested horizontal or vertical relation.", "quantifier": "all constraint lists and limits", "why_tests_cant": "Enumeration over permutations of unbounded size.", "anchors": ["align/pnr/placer_pythonic_sp.py: enumerate_sequence_pairs"]}
{"id": "C31", "title": "Same-template instances always get the same variant", "statement": "In every assignment enumerated by enumerate_block_variants, instances connected through SameTemplate constraints (directly or through a chain) have the same concrete variant, each assignment picks an existing variant, no assignment is listed twice, and at most max_variants are returned.", "quantifier": "all instance maps, variant maps, constraint lists", "why_tests_cant": "Chains of constraints of any length.", "anchors": ["align/pnr/placer_pythonic_sp.py: enumerate_block_variants"]}
{"id": "C32", "title": "Topological order lists children first, once", "statement": "The module order computed for bottom-up processing contains every module reachable from the top exactly once, each after all modules it instantiates.", "quantifier": "all acyclic hierarchies", "why_tests_cant": "Arbitrary DAGs.", "anchors": ["align/pnr/placer_pythonic.py: compute_topoorder", "align/pnr/hpwl.py: compute_topoorder"]}
{"id": "C33", "title": "Power pin removal keeps the electrical netlist", "statement": "After power pins are removed from module ports, every flattened device terminal is connected to the same net as before, where removed pins are replaced by the global supply they were tied to.", "quantifier": "all hierarchies and supply connections", "why_tests_cant": "Same module may be used many times with different supplies; all usage patterns must be right.", "anchors": ["align/pnr/manipulate_hierarchy.py: remove_pg_pins, modify_pg_conn_subckt, clean_if_extra"]}
{"id": "C34", "title": "Concrete renaming before routing is consistent", "statement": "change_concrete_names_for_routing renames every module's concrete name injectively, renumbers variants of each abstract template densely from 0 in their original order, and updates every instance reference accordingly.", "quantifier": "all sets of concrete names", "why_tests_cant": "All name sets.", "anchors": ["align/pnr/manipulate_hierarchy.py: change_concrete_names_for_routing"]}
{"id": "C35", "title": "Subsetting a netlist keeps exactly the reachable modules", "statement": "subset_verilog_d(v, nm) returns precisely the modules of v reachable from nm through instances, unchanged and in their original order.", "quantifier": "all netlists", "why_tests_cant": "Arbitrary graphs.", "anchors": ["align/pnr/placer.py: subset_verilog_d"]}
{"id": "C36", "title": "Checkpoint and revert restore the list exactly", "statement": "For any interleaving of checkpoint, append, extend and revert on an ALIGN list, reverting to a checkpoint restores precisely the contents at the time the checkpoint was taken and keeps older checkpoints valid.", "quantifier": "all operation histories", "why_tests_cant": "Histories are unbounded and nested.", "anchors": ["align/schema/types.py: List.checkpoint, List.revert, List._revert"]}
{"id": "C37", "title": "Constraint database state is restored by revert", "statement": "After appending a constraint, reverting to an earlier checkpoint and appending the same constraint again, the constraint is in the database and known to the solver.", "quantifier": "all histories of append/checkpoint/revert/remove", "why_tests_cant": "Depends on the history of the database.", "anchors": ["align/schema/constraint.py: ConstraintDB.append, checkpoint, _revert, _cache"]}
{"id": "C38", "title": "Formal constraint semantics match their documentation", "statement": "A placement satisfies the formula emitted for Order (with abut), Align, Spread, AspectRatio, Boundary, SymmetricBlocks, AlignInOrder exactly when the documented geometric relation holds between the bounding boxes.", "quantifier": "all bounding boxes and instance lists", "why_tests_cant": "All placements and instance lists of any length.", "anchors": ["align/schema/constraint.py: Order.translate, Align.translate, Spread.translate, AspectRatio.translate, Boundary.translate, SymmetricBlocks.translate, AlignInOrder.yield_constraints, Floorplan"]}
{"id": "C39", "title": "Placement formulas exclude overlap and out-of-bounds blocks", "statement": "Any assignment satisfying the formulas of a sub-circuit places each element inside the sub-circuit box with positive size and no two elements overlapping, and conversely every such placement satisfies them.", "quantifier": "all numbers of elements and coordinates", "why_tests_cant": "All placements.", "anchors": ["align/schema/subcircuit.py: SubCircuit.translate", "align/schema/hacks.py: VerilogJsonModule.translate", "align/schema/instance.py: Instance.translate"]}
{"id": "C40", "title": "SPICE numbers with unit suffixes have their SPICE value", "statement": "str2float(d followed by a suffix) is d times the SPICE multiplier of the suffix, for all suffixes including MEG, in either case; strings which are not numbers are rejected.", "quantifier": "all decimal literals and suffixes", "why_tests_cant": "All literals; precedence among suffixes matters.", "anchors": ["align/schema/parser.py: unit_multipliers, str2float"]}
{"id": "C41", "title": "Netlist flattening preserves connectivity", "statement": "Flattening a hierarchical circuit yields exactly one device per leaf instance path, and two device terminals share a net in the flat circuit exactly when they are connected through ports in the hierarchical one.", "quantifier": "all acyclic hierarchies", "why_tests_cant": "Unbounded depth; generated names may collide.", "anchors": ["align/schema/graph.py: Graph.flatten, _replace_subckt_with_components"]}
{"id": "C42", "title": "Library names stay unique", "statement": "After any sequence of appends that does not raise, no two entries of a Library have the same name, find(name) returns the entry with this name if there is one irrespective of letter case, and appending a duplicate raises and changes nothing.", "quantifier": "all append histories", "why_tests_cant": "All histories.", "anchors": ["align/schema/library.py: Library.append, Library.find"]}
{"id": "C43", "title": "Merging parallel devices preserves total multiplicity", "statement": "add_parallel_devices leaves, for every model, pin connection and parameter set, the same total number of parallel units as before, and no two mergeable devices remain.", "quantifier": "all circuits, all element orders", "why_tests_cant": "Depends on the order and naming of elements and on already merged devices.", "anchors": ["align/compiler/preprocess.py: add_parallel_devices"]}
{"id": "C44", "title": "Merging series devices preserves the stack", "statement": "add_series_devices only merges two devices connected in series through a private internal net with identical other connections; the merged device spans the two outer nets and its stack count is the sum; no net other than the internal one changes its connections.", "quantifier": "all circuits and net visiting orders", "why_tests_cant": "Set iteration order varies and merges cascade.", "anchors": ["align/compiler/preprocess.py: add_series_devices"]}
{"id": "C45", "title": "Removing dummy hierarchies preserves the circuit", "statement": "Replacing instances of single-element subcircuits by the element itself leaves every device connected to the same nets with the same parameters, and the pass succeeds for every acyclic design whatever the traversal order.", "quantifier": "all libraries and traversal orders", "why_tests_cant": "Set order is hash dependent and nesting unbounded.", "anchors": ["align/compiler/preprocess.py: remove_dummies, find_dummy_hier"]}
{"id": "C46", "title": "Every device sees the parameters of its own instantiation path", "statement": "After read_inputs resolves parameters, every leaf device's parameters equal the values obtained by substituting parameters along its own instance path from the top.", "quantifier": "all hierarchies and parameter values", "why_tests_cant": "Sharing: the same subcircuit instantiated several times with different values, at any depth.", "anchors": ["align/compiler/create_database.py: resolve_parameters, _update_intermediate_instances, _update_leaf_instances, _find_new_inst_name"]}
{"id": "C47", "title": "Grouping devices into a new hierarchy preserves connectivity", "statement": "create_new_hiearchy moves exactly the given elements into the child, and flattening parent plus child gives back the original connectivity; a net is a pin of the child exactly when it is used outside or is a port of the parent.", "quantifier": "all circuits and element groups", "why_tests_cant": "All groupings.", "anchors": ["align/compiler/create_array_hierarchy.py: create_new_hiearchy", "align/compiler/match_graph.py: create_canonical_primitive"]}
{"id": "C48", "title": "Constraints never refer to instances that were grouped away", "statement": "After instances are merged into a new instance, no instance list of a parent constraint mentions a merged instance, every list that mentioned a merged instance mentions the new instance exactly once, and the remaining instances keep their order.", "quantifier": "all constraint lists and groups", "why_tests_cant": "Order and multiplicity of names in lists vary without bound.", "anchors": ["align/schema/translator.py: ConstraintTranslator._update_const, _list_replace"]}
{"id": "C49", "title": "Generated cell variants have the requested number of units", "statement": "Every variant generated for a transistor array with m units has x_cells*y_cells = m, variants have distinct names, and without size restrictions every factorisation of m is offered when there are at most 12.", "quantifier": "all m and size restrictions", "why_tests_cant": "Number theory over all m.", "anchors": ["align/pdk/finfet/gen_param.py: add_primitive, gen_param.x_by_y, limit_pairs, check_legal", "align/pdk/finfet/transistor_array.py: validate_array"]}
{"id": "C50", "title": "Interleaved arrays use both devices equally often", "statement": "For a two-device array with m units each, the default interleaving assigns exactly m cells to each device, for every legal number of rows and columns.", "quantifier": "all rows, columns, m", "why_tests_cant": "All array shapes.", "anchors": ["align/pdk/finfet/transistor_array.py: interleave_pattern, validate_array, addMOSArray"]}
{"id": "C51", "title": "Same-template groups handed to the placer are transitive", "statement": "The SameTemplate groups written for PnR are disjoint, and two instances are in one group exactly when a chain of SameTemplate constraints links them.", "quantifier": "all lists of SameTemplate constraints", "why_tests_cant": "Chains and their order in the list.", "anchors": ["align/pnr/write_constraint.py: merge_sametemplate_const"]}
{"id": "C52", "title": "GDS text conversion round-trips", "statement": "Converting a GDS JSON structure of boundaries, texts and references to text and back yields the same structure.", "quantifier": "all structures", "why_tests_cant": "Structures of any nesting and length.", "anchors": ["align/gdsconv/json2txt.py", "align/gdsconv/txt2json.py"]}
{"id": "C53", "title": "Layout shifting moves everything together", "statement": "After shifting a layout to the positive quadrant, its bounding box starts at the origin and all relative positions of shapes and pins are unchanged.", "quantifier": "all layouts", "why_tests_cant": "All layouts.", "anchors": ["align/cell_fabric/positive_coord.py: json_pos"]}
{"id": "C54", "title": "Via drawings fit both metals", "statement": "For every via definition, the generated via rectangles are centred, the cut has the via's size and lies within both metal rectangles, which extend beyond it by the stated enclosures.", "quantifier": "all via definitions", "why_tests_cant": "All sizes.", "anchors": ["align/cell_fabric/pdk.py: get_via_table"]}
{"id": "C55", "title": "Power ports propagate down exactly through connections", "statement": "After reading inputs, a sub-circuit port is declared power when an instance on some path from the top connects it to a declared power net of its parent which propagates.", "quantifier": "all hierarchies", "why_tests_cant": "Unbounded depth, sharing.", "anchors": ["align/compiler/create_database.py: _propagate_power_ports, _get_pgc"]}
{"id": "C56", "title": "Global routing stays on grid", "statement": "The mapping of rectangles to grid indices used by the pythonic router is exact: every reported grid index range is on the rectangle and no track on the rectangle is missed.", "quantifier": "all rectangles and pitches", "why_tests_cant": "All coordinates.", "anchors": ["align/pnr/pythonic_router.py: rect_to_grid"]}
{"id": "C57", "title": "A wire added together with its vias covers all of them", "statement": "addWireAndMultiViaSet (and addWireAndViaSet) draw a wire that reaches at least the required end extension beyond each listed via on both sides, and ends on the nearest legal stopping points that do so.", "quantifier": "all stop-point grids, all non-empty via lists, all extensions", "why_tests_cant": "Depends on the position of the extreme vias relative to the legal stops; unboundedly many combinations.", "anchors": ["align/cell_fabric/canvas.py: addWireAndViaSet, addWireAndMultiViaSet", "align/cell_fabric/grid.py: snapToLegal"]}
{"id": "C58", "title": "Dropping vias respects via spacing", "statement": "drop_via() never adds a via on top of an existing via, nor a via closer than the minimum via spacing to a via that exists or was added before, and every via it adds lies where two touching wires of the same net cross.", "quantifier": "all layouts, via sizes and pitches", "why_tests_cant": "Depends on the arrangement of all vias on a layer; the bookkeeping is only right when the stored and the looked-up coordinates agree.", "anchors": ["align/cell_fabric/canvas.py: Canvas.drop_via, _construct_via_matrix, _drop_via_if_dr_clean"]}
{"id": "C59", "title": "Joined wires stay within the limit", "statement": "join_wires() adds only wires that lie between two consecutive wires of the same net on one track, or join such wires into one of the same net, and no joined run is longer than the given maximum.", "quantifier": "all layouts and maximum lengths", "why_tests_cant": "Runs of unbounded length; off-by-one at the limit shows only for special spacings.", "anchors": ["align/cell_fabric/canvas.py: Canvas.join_wires"]}
{"id": "C60", "title": "Ports survive merging", "statement": "Every input shape of type pin lies inside a rectangle returned by removeDuplicates() that has type pin.", "quantifier": "all shape lists", "why_tests_cant": "The flag is lost only for particular overlap orders of pins and plain wires.", "anchors": ["align/cell_fabric/remove_duplicates.py: Scanline.merge_slr, generate_rectangles"]}
{"id": "C61", "title": "Rounding keeps the placement legal", "statement": "The integer placement that the sequence pair placer reports, obtained by rounding a solution of its inequalities, puts every block with its own size inside the reported bounding box and lets no two blocks overlap.", "quantifier": "all instances, constraints and solutions", "why_tests_cant": "Whether halves occur depends on symmetry constraints and odd block widths; tests see one solution of the solver for a few circuits.", "anchors": ["align/pnr/placer_pythonic_sp.py:331-342 (place_sequence_pair)"]}
{"id": "C62", "title": "Different devices of one name are rejected", "statement": "add_primitive() accepts a second device of a name that it has seen before only if its arguments are the same, and then leaves the stored primitives unchanged; different arguments are rejected.", "quantifier": "all sequences of devices and arguments", "why_tests_cant": "All pairs of calls; nothing visible happens when the second device silently takes over the variants of the first.", "anchors": ["align/pdk/finfet/gen_param.py: add_primitive"]}
{"id": "C63", "title": "Interleaved arrays have a common centroid", "statement": "For even numbers of rows and columns the default interleaving of two devices is symmetric under a turn by 180 degrees, so that both devices have the same centroid.", "quantifier": "all even numbers of rows and columns", "why_tests_cant": "All array shapes.", "anchors": ["align/pdk/finfet/transistor_array.py: interleave_pattern"]}
{"id": "C64", "title": "The LEF view shows every routing shape once", "statement": "In the LEF written for routing, every terminal on a routing layer appears exactly once, as a shape of the pin with its net name or as an obstruction, nothing else appears, pins are sorted without repetition, and the size is the extent of the cell.", "quantifier": "all cells and settings without a blocked interior", "why_tests_cant": "Shapes, pins and settings combine freely; tests compare a few golden files.", "anchors": ["align/cell_fabric/gen_lef.py: lef_from_layout_d"]}
{"id": "C65", "title": "The GDS view draws every terminal as its rectangle", "statement": "Each terminal that is not excluded by name is drawn as a closed outline of its rectangle on its layer (pin or drawing data type) or as a via reference at its center, drawings stay on the terminals, every requested pin is labelled inside its shape, once if so requested, and the data survives the conversion to text and back.", "quantifier": "all cells and settings", "why_tests_cant": "Any mix of pins, colours, vias and labels.", "anchors": ["align/cell_fabric/gen_gds_json.py: translate_data"]}
{"id": "C66", "title": "A loaded PDK is well formed", "statement": "If a layer file loads, layers have different names, metals have direction v or h and even pitch and width, vias have even widths and spacings and a stack of two layers defined earlier, and all required entries exist.", "quantifier": "all layer files", "why_tests_cant": "Files are arbitrary JSON; tests use the files of three PDKs.", "anchors": ["align/cell_fabric/pdk.py: Pdk.load, addMetal, addVia"]}
{"id": "C67", "title": "Merging instances keeps the current at every pin", "statement": "When instances are merged into a new instance, the charge flow constraint of the parent gives every pin of the new instance the sum of the currents of all merged pins that are on it, other pins keep their currents, and no current of a merged instance remains.", "quantifier": "all charge flow constraints and groups", "why_tests_cant": "Any number of merged pins can share a pin of the new instance.", "anchors": ["align/schema/translator.py: ConstraintTranslator._update_const"]}
{"id": "C68", "title": "Replacing matched groups by instances keeps the circuit", "statement": "When groups of elements that match a pattern are replaced by instances of new modules, looking into the new instances gives back the circuit: the same devices with the same models and parameters, pins on the same net exactly when they were before, the ports of the module on the same pins, distinct names of the elements, and no change to modules of the library.", "quantifier": "all modules, patterns and lists of matches", "why_tests_cant": "Any number of overlapping and nested matches; nets may be shared with other elements or be ports.", "anchors": ["align/schema/graph.py: Graph.replace_matching_subgraph, find_subgraph_matches, _replace_matches_with_subckt, create_subckt_instance"]}
{"id": "C69", "title": "A LEF file that was written reads back as the same cell", "statement": "Reading a LEF file that the tool wrote, alone or as part of a library of such files, gives the cell back: the same box, every shape of a pin under the name of its pin, and every obstruction, with the same coordinates. A file that is accepted is read completely.", "quantifier": "all cells, names, coordinates and scale factors, and all libraries of any number of cells", "why_tests_cant": "The text is produced and tokenized character by character, with names and numbers of any length, any number of pins and shapes, and any number of cells after each other.", "anchors": ["align/cell_fabric/gen_lef.py: lef_from_layout_d", "align/cell_fabric/lef_parser.py: generate_tokens, LEFParser", "align/cell_fabric/lef_to_json.py: lef_txt_to_layout_d"]}
{"id": "C70", "title": "Parsing a SPICE netlist gives the netlist that was written", "statement": "Reading a SPICE netlist gives exactly what it says: every subcircuit with its ports, parameters, constraints and instances, every model with the pins and parameters of its base, every instance with its nets, model and parameters, in the order of the text, whatever the case of the letters, the units of numbers, the comments, the blanks and the breaks of lines.", "quantifier": "all netlists: any number of subcircuits, models, parameters and instances, any words, numbers and comments", "why_tests_cant": "Netlists are free text; tests read a few short netlists.", "anchors": ["align/schema/parser.py: SpiceParser.parse, _generate_tokens, _dispatch, _decompose, _cast, _process_instance, _process_declaration, _queue_constraint, str2float", "align/schema/model.py: Model", "align/schema/instance.py: Instance", "align/schema/library.py: Library.find"]}
{"id": "C71", "title": "Generated symmetric blocks use every instance at most once", "statement": "The symmetric blocks that are generated automatically for a subcircuit contain each instance at most once over all constraints together; all their names are instances of the subcircuit, none of them is constrained by the user, the two instances of a pair are different, have the same parameters and were found symmetric together, an instance alone is no plain transistor, resistor or capacitor, and no constraint is on a single instance. When the groups come from the search on the same subcircuit, the instances of a pair have the same model and parameters.", "quantifier": "all subcircuits, all groups found, all constraints of the user and all answers of the solver", "why_tests_cant": "The groups overlap in many ways and the list of what has been written grows between the rounds; tests try a few circuits.", "anchors": ["align/compiler/find_constraint.py: add_symmetry_const.loop_through_pairs, pre_filter, filter_symblock_const, filter_symnet_const, add_or_revert_const", "align/schema/constraint.py: SymmetricBlocks.pairs_validator, ConstraintDB.append"]}
{"id": "C72", "title": "Generated symmetric nets list corresponding pins", "statement": "Each pair of symmetric nets that is generated automatically lists terminals of the first net and terminals of the second, in order, such that terminals at the same place correspond: pins of two instances of one model that are connected to the same kinds of device pins (bulk pins apart), the instances being a symmetric pair already and not excluded by the user, or two ports. At least two instances or ports are listed, and no terminal is listed twice.", "quantifier": "all libraries, subcircuits, groups found and constraints of the user, all orders in which Python iterates sets of pins", "why_tests_cant": "The kinds of connections are found through all levels of the hierarchy, and the pairs depend on everything written before.", "anchors": ["align/compiler/find_constraint.py: add_symmetry_const.filter_symnet_const, symmnet_device_pairs", "align/compiler/util.py: get_leaf_connection"]}
{"id": "C73", "title": "The search for symmetry ends, succeeds and relates alike nodes one to one", "statement": "The search for symmetric instances and nets, from pairs of ports with equal connections, ends without an exception on every subcircuit; in each group it finds, two different related nodes are two instances of one model with the same parameters on as many nets, or two nets, no power, ground or clock port is involved, and no node is related to two others.", "quantifier": "all subcircuits, libraries and stop points", "why_tests_cant": "The search is a mutual recursion over pairs of nodes with branching; tests run it on a few circuits.", "anchors": ["align/compiler/find_constraint.py: FindSymmetry, compare_nodes, recursive_start_points, same_params", "align/compiler/util.py: compare_two_nodes, create_node_id, gen_key, reduced_neighbors, reduced_SD_neighbors, get_ports_weight"]}
{"id": "C74", "title": "Symmetric blocks derived from symmetric nets of the user say what the nets say", "statement": "When the user declares symmetric nets, each constraint on symmetric blocks that is derived from them lists an instance at most once; two instances of a pair are partners, that is, they have corresponding pins on the two nets or are paired by the pins given, and an instance that is listed alone is its own partner.", "quantifier": "all subcircuits and all lists of symmetric nets, with or without pins", "why_tests_cant": "Constraints interact through the list of what is constrained already; tests have one constraint on a circuit.", "anchors": ["align/compiler/find_constraint.py: process_input_const.process_symmnet, symmnet_device_pairs"]}
{"id": "C75", "title": "Sources and drains are exchanged exactly where they are the wrong way round", "statement": "Given power and ground ports, the correction of sources and drains ends without an exception and returns the same elements; on each either nothing changes, or source and drain of a transistor are exchanged and nothing else. Every transistor is turned round whose pin that belongs towards the ground is nearer to the power than its other pin, and whose other pin is nearer to the ground; none is turned round whose pins are the right way round as seen from the power or from the ground (distances are counted through sources and drains, from power ports without entering the ground and conversely). The circuit remains electrically the same.", "quantifier": "all subcircuits, libraries and lists of supply ports, all orders of sets", "why_tests_cant": "Two traversals whose results are intersected; distances, ties and loops depend on the whole graph, tests have a few small circuits.", "anchors": ["align/compiler/preprocess.py: define_SD, swap_SD", "align/compiler/util.py: get_next_level, get_base_model"]}
{"id": "C76", "title": "Exactly the transistors that never conduct are removed", "statement": "Removing dummy devices takes away exactly the transistors whose gate is on a supply port that switches them off (PMOS on any power port, NMOS on any ground port) or whose drain, gate and source are one net, whichever chain of models they are derived by. All other elements remain unchanged and in order, and no subcircuit becomes empty.", "quantifier": "all subcircuits, libraries and constraints on supply ports", "why_tests_cant": "Combinations of constraints and of model chains are unbounded; tests cover single constraints.", "anchors": ["align/compiler/preprocess.py: remove_dummy_devices"]}
{"id": "C77", "title": "Generated same-template groups tell which instances are equal", "statement": "The constraints that are generated put two instances of subcircuits into one group exactly if they are instances of the same subcircuit with the same parameters; no instance is in two groups and each group has at least two; the generation never fails.", "quantifier": "all subcircuits and all hash functions with the range used", "why_tests_cant": "Groups are found by a hash; tests do not meet collisions.", "anchors": ["align/compiler/preprocess.py: same_template", "align/compiler/util.py: gen_key", "align/schema/constraint.py: SameTemplate.instances_validator"]}
{"id": "C78", "title": "The search for arrays finds rows that are alike", "statement": "From each start point the search for arrays ends with a result; instances that are to be aligned are of one model with the same parameters; the rows of an array hold the same numbers of instances of each kind and each row is connected over sources and drains without crossing a stop point; all alike instances on the start net are found.", "quantifier": "all subcircuits, libraries, stop points and start points, all iteration orders of sets", "why_tests_cant": "The search walks the circuit graph with sets whose order Python does not fix; tests run a few circuits with one order.", "anchors": ["align/compiler/create_array_hierarchy.py: process_arrays.find_array, trace_template, matching_groups, match_branches, check_non_convergence, process_results"]}
{"id": "C79", "title": "Hierarchies made for arrays keep the circuit", "statement": "When hierarchies are made for the arrays of a circuit, every instance is still there exactly once with its connections, existing subcircuits do not change, each row becomes one subcircuit with exactly the row's elements that no other row shares, and the subcircuits that are to have the same template hold the same numbers of devices of each model; making them never fails.", "quantifier": "all libraries, circuits, arrays and iteration orders of sets", "why_tests_cant": "Two levels of hierarchy are made by moving elements while the circuit changes; tests compare a few netlists.", "anchors": ["align/compiler/create_array_hierarchy.py: process_arrays.add_new_array_hier, add_array_placement_constraints, get_new_subckt_name", "align/compiler/util.py: create_new_hiearchy"]}
{"id": "C80", "title": "Groups of instances to be aligned all get their constraints", "statement": "For each group of instances found for alignment, a same-template constraint is added, and an alignment constraint, ordered if all instances have the same connections; groups for which the user gave an alignment are left out, nothing else is added and no given constraint is lost.", "quantifier": "all lists of groups and of given constraints", "why_tests_cant": "Tests have at most one group beside given alignments; the loop ends early on combinations they do not have.", "anchors": ["align/compiler/create_array_hierarchy.py: process_arrays.add_align_block_const", "align/schema/constraint.py: ConstraintDB.append"]}
{"id": "C81", "title": "Grouping instances by constraint keeps the circuit", "statement": "A GroupBlocks constraint without a library template replaces exactly the named instances (names in any case) by one instance of a subcircuit that holds them: the circuit is the same device for device and net for net, names stay distinct, existing library entries stay as they are, the constraints given for the group hold in the subcircuit about the right devices, and groups with the same circuit share the subcircuit.", "quantifier": "All circuits, libraries, ports, GroupBlocks constraints and hash functions.", "why_tests_cant": "Depends on which nets leave the group, on the order of instances with equal keys, on what earlier groups left in the library and on the case of names; tests group a few transistors once.", "anchors": ["align/compiler/match_graph.py:119-245", "align/compiler/match_graph.py:327-335", "align/schema/constraint.py:1430", "align/schema/instance.py:60-75", "align/schema/model.py:54-56"]}
{"id": "C82", "title": "A layout written as binary GDS reads back as the same layout", "statement": "Converting GDS JSON to a binary GDS file and that file back to GDS JSON gives the same layout: the same libraries, cells and elements in the same order, each with the same fields and values.", "quantifier": "all layouts of boundaries, paths, texts, references and arrays of references with any fields of the format, any number of libraries, cells and elements", "why_tests_cant": "Tests convert a few files that have only some of the elements; the records after one that is not understood are put in the wrong object.", "anchors": ["align/gdsconv/json2gds.py: convert_GDSjson_GDS_fps", "align/gdsconv/gds2json.py: convert_GDS_GDSjson, show_data"]}
{"id": "C83", "title": "Charge flow between pins reaches the placer as scaled currents", "statement": "For each ChargeFlow constraint, the placer gets for each net that is not of power, ground or clock exactly the pairs of pins on this net of which at some time one is a source and the other a sink, each pair once; its value is the root mean square over time of the current between the two pins, where each sink is fed by all sources in proportion to what they give; all values of a module are divided by the largest, so that they lie between 0 and 1 and the ratios stay. The currents between a pin and the others add up to the current of the pin. Each accepted constraint has this effect.", "quantifier": "all modules, ChargeFlow constraints, times and currents, and all orders in which sets are listed", "why_tests_cant": "Pins change between source and sink over time, so that a pair may be stored in either order; sums that are zero, single times and names in lower case are accepted when the constraint is read; tests have no charge flow with such currents.", "anchors": ["align/pnr/write_constraint.py:179-231", "align/schema/constraint.py:1311-1351"]}
{"id": "C84", "title": "The netlist reaches place and route unchanged", "statement": "For every list of subcircuits, writing them as Verilog JSON and reading that into the database of place and route gives one module per subcircuit, in order, with its name and its terminals. Its blocks are the instances in order, with their names, templates and pins. A pin of a block is on a net of the database with the name of the net in the subcircuit, the nets have different names and are exactly the nets with a pin, so two pins share a net exactly when they do in the subcircuit. Every net lists exactly its pins as pairs of pin and block index, each once, and its degree is their number. Looking up a block by name finds the last instance of that name.", "quantifier": "All lists of subcircuits with any instances, pins and nets.", "why_tests_cant": "The indices come from a dictionary that is filled while the pins are walked; a wrong index shows as a wrong route in a large layout only.", "anchors": ["align/compiler/write_verilog_lef.py: WriteVerilog.gen_dict, gen_dict_fa", "align/pnr/build_pnr_model.py: _ReadVerilogJson"]}
{"id": "C85", "title": "Bottom-up routing routes every needed placement once, children first", "statement": "When a design is routed bottom up, exactly one routed node is made for each pair of module and placement that occurs below one of the requested placements of the top design, and none for any other pair. Every block of a routed node refers to the routed node of the block's own module with the placement selected for that block, and that node was made earlier. The parents of a routed node are exactly the routed nodes that use it. Every routed node is listed in the results under its module's name and placement number, and no two share a name.", "quantifier": "all databases of modules with distinct names whose traversal order lists children before parents, all requested placements, every order of iterating over sets", "why_tests_cant": "A test routes a handful of designs, mostly with one placement per module; sharing of a module by several parents with different placements, at any depth, cannot be enumerated.", "anchors": ["align/pnr/router.py: route_bottom_up"]}
{"id": "C86", "title": "Top-down routing gives every occurrence its own node and its own result", "statement": "When a design is routed top down, the routed nodes form one tree for each requested placement of the top design: every block of a routed node refers to a routed node of the block's own module with the placement selected for that block, every node except those of the top design is referred to by exactly one block of exactly one node, which is recorded as its only parent. No two nodes of a module have the same copy number. Every routed node is found in the results under its name, so no layout is lost.", "quantifier": "all databases of modules with distinct names whose traversal order lists children before parents, all requested placements, any number of occurrences of a module at any depth", "why_tests_cant": "The number of occurrences grows with the depth of the hierarchy, and the names collide only for special names of the top design.", "anchors": ["align/pnr/router.py: route_top_down", "align/pnr/router.py: route_top_down_aux", "align/pnr/router.py: route_single_variant"]}
{"id": "C87", "title": "Compiler settings reach every hierarchy below", "statement": "When a design is read, every compiler setting (ConfigureCompiler, DoNotUseLib) that is marked to propagate is present in every subcircuit below the one it was given for, at any depth. Settings that are not marked, and constraints of other kinds, stay where they were given. No constraint is lost or reordered, and no setting is added to a subcircuit twice.", "quantifier": "all hierarchies, including shared subcircuits, all sets of constraints, every order of iterating over sets", "why_tests_cant": "A test has one or two levels with a setting at the top; whether an intermediate setting arrives depends on who else uses a subcircuit and on the order of the traversal.", "anchors": ["align/compiler/create_database.py: CreateDatabase.propagate_const_top_to_bottom", "align/compiler/create_database.py: CreateDatabase.read_inputs"]}
{"id": "C88", "title": "Instances named in user constraints are not grouped automatically", "statement": "Every instance that a constraint of the user mentions (other than constraints that ask for grouping) is excluded from automatic identification of primitives, whether the constraint was given in const.json or in the file of the design, and whatever letter case the user wrote. No other instance is excluded.", "quantifier": "all lists of constraints in both files, all instance names, all designs", "why_tests_cant": "A test has a few constraints in upper case in one kind of file; which instances are protected depends on the kind of constraint, the file and the letter case.", "anchors": ["align/compiler/user_const.py: ConstraintParser.annotate_user_constraints", "align/schema/constraint.py: DoNotIdentify", "align/compiler/match_graph.py: Annotate._is_skip"]}
{"id": "C89", "title": "The check of a placement against the constraints is exact", "statement": "check_placement succeeds for a placement exactly if, for every module, the boxes of its instances, as placed, have positive size, lie in the box of the module and satisfy the constraints of the module, and the constraints name only instances of the module. Otherwise it raises.", "quantifier": "All placements (modules, leaves, transformations, boxes), all scale factors and all lists of constraints.", "why_tests_cant": "The boxes are divided by the scale factor before they are checked, so errors show only for coordinates of certain remainders; tests use boxes at whole units.", "anchors": ["align/pnr/checker.py:9-80", "align/schema/constraint.py:358-380", "align/schema/constraint.py:1515-1559", "align/schema/hacks.py:48-118", "align/schema/checker.py:160-200"]}
{"id": "C90", "title": "Via cuts are drawn as the PDK asks", "statement": "Postprocessing replaces every via of a layer with a ViaCut rule by an array of exactly the requested number of cuts, each of the requested size and with the net and layer of the via. Any two cuts are at least the requested spacing apart, the array is in the middle of the via up to rounding by half a unit, and if the via is large enough every cut lies inside it. Shapes on layers without a postprocessor are unchanged and all shapes keep their order. Postprocessing succeeds if no layer is registered twice and coloured layers have colours and a positive pitch.", "quantifier": "all layouts, all via rules, all coloured layers", "why_tests_cant": "The rounding depends on the parity of the sizes and of the position of the via; tests compare a few cuts at even positions.", "anchors": ["align/cell_fabric/postprocess.py: PostProcessor", "align/primitive/default/via.py: ViaArrayGenerator", "align/primitive/default/canvas.py: DefaultCanvas._create_via"]}
{"id": "C91", "title": "Wires get the colour of their track", "statement": "On a layer with colours, postprocessing adds to every wire that is centred on a track of the layer a copy with the colour of that track, and reports exactly the wires that are not centred on a track.", "quantifier": "all coloured layers (colours, pitch, width, offset, direction), all shapes", "why_tests_cant": "The tracks are built from pitch and offset, the colour from the position; they have to agree for every track and offset, tests use the PDK at hand.", "anchors": ["align/primitive/default/via.py: ColorClosure", "align/primitive/default/canvas.py: DefaultCanvas._create_metal", "align/cell_fabric/grid.py: ColoredCenterLineGrid"]}
{"id": "C92", "title": "The layout of a routed block is made of the layouts of its parts", "statement": "gen_viewer_json puts every shape of the layout of every placed block (except the boundary) exactly where the placement of the block puts it, on the same layer, followed by the shapes drawn for the nets of the block; no shape is lost, added or moved if no error is reported. A shape of a block carries the name of the net its pin is connected to; a shape on a net inside the block carries the name of the block and of the inner net; a global power net keeps its name. Two named shapes carry the same name exactly if they are on the same net of the same block or connected to the same net.", "quantifier": "all nodes with any number of blocks in any placement and orientation, all connections, all layouts of the blocks, all scale factors; names of blocks differ, and names of blocks and nets contain no slash", "why_tests_cant": "A test has a few blocks with fixed names and one scale factor; whether two shapes get the same name depends on all names, and positions depend on divisions for every coordinate.", "anchors": ["align/pnr/checkers.py: gen_viewer_json", "align/pnr/checkers.py: rational_scaling", "align/cell_fabric/transformation.py: Transformation.hitRect"]}
{"id": "C93", "title": "The library of primitives describes every device of the design", "statement": "After the primitives of a design have been collected, every instance of every placed module has a template name that leads to what has to be placed for it: an instance of a subcircuit keeps the name of the subcircuit (and a subcircuit with a generator is in the library), and a device gets the name of a definition in the library with its generator, model, pins and parameters. Two devices share a definition exactly if they have the same model and parameters. Unit capacitors of capacitor groups are in the library with the capacitance of their name. No two definitions have the same name, and the models of all instances in the library are in the library.", "quantifier": "all design libraries, PDK model libraries, instances, parameters, constraints on generators, capacitor groups and guard rings", "why_tests_cant": "The template name is a truncated hash of the parameters; a test cannot try all pairs of parameter sets, and the share of pairs that collide is tiny.", "anchors": ["align/compiler/gen_abstract_name.py: PrimitiveLibrary", "align/compiler/util.py: gen_key", "align/schema/library.py: Library"]}
{"id": "C94", "title": "Each primitive is drawn from its own definition", "statement": "When the primitives are drawn, each block is drawn from the definition of its own template: a block of the primitive library from the subcircuit of that name, guard rings, black boxes and blocks with a generator of the PDK as what they are. The run fails exactly if a definition is missing.", "quantifier": "all libraries of primitives and all lists of blocks", "why_tests_cant": "The definition is held in a variable that survives from one block to the next, so a wrong choice shows only for certain orders of blocks.", "anchors": ["align/primitive/main.py: generate_primitives"]}
{"id": "C95", "title": "The drawing of a transistor primitive has the units of every transistor on its nets", "statement": "When the primitive generator draws a transistor primitive, the layout consists of an array of equal unit transistors, a row of substrate contacts if asked for, and fillers. Every transistor of the primitive has exactly the number of units asked for; the pins of each unit are on the nets of the transistor it belongs to; the contacts are on the body net; the cells do not overlap and fill rows inside the bounding box. A primitive that cannot be drawn so is refused.", "quantifier": "all primitives, pin and net names, numbers of units, rows and columns asked for, interleaving templates, cell shapes and pitches", "why_tests_cant": "Tests draw a few primitives with one or two transistors in one PDK; nothing draws three transistors or compares unit counts for all sizes.", "anchors": ["align/primitive/main.py: generate_MOS_primitive", "align/pdk/finfet/transistor_array.py: MOSGenerator.addMOSArray, mos_array, stamp_cell, place", "align/schema/transistor.py"]}
{"id": "C96", "title": "Every horizontal track of a transistor pair carries one net in each row", "statement": "In the array drawn for a primitive of two transistors, the wires of gate, source and drain of the units of a row lie on horizontal tracks such that wires on the same track belong to the same net, whatever terminals of the two transistors share nets; so the wires of a track can be joined.", "quantifier": "all assignments of nets to the terminals of the two transistors, all rows", "why_tests_cant": "The examples only have differential pairs, mirrors and the like; stacked transistors in arrays of more than one row are not drawn by tests.", "anchors": ["align/pdk/finfet/transistor_array.py: MOSGenerator.mos_array"]}
{"id": "C97", "title": "The database of the placer holds what the constraints of the user say", "statement": "After the constraints of a module are handed to the placer, its database says what they say. Weight and number of parallel wires of a net are those last given for it, or 1; a net is marked for shielding exactly if a constraint asks for it; its counterpart is the net last declared symmetric to it. There is one order for each Order, over the same instances, such that every placement the placer accepts for it is one the user wants, and all of them for the directions left to right and top to bottom; those with abut are also among the abutments. There is one alignment for each Align, accepting exactly the placements the user wants. Minimal distances are those last given, in half nanometres over the scale. Symmetric groups have the axis of the constraint, pairs for its groups of two, single blocks for its groups of one. Groups of capacitors, symmetric nets with their pins, places of ports, blocks to be close, blocks to be spread and nets not to be routed are those of the constraints. A list of constraints over existing instances is refused exactly if it has a direction or line the placer does not know, a symmetric group of other than one or two blocks, or a net or port that does not exist.", "quantifier": "for all modules with unique names, all scales and all lists of constraints", "why_tests_cant": "Two programs in two languages agree on an intermediate format; a test checks some constraints one at a time, while what is lost depends on the combination: the last of two constraints wins, zero counts as absent, names are compared in one case.", "anchors": ["align/pnr/write_constraint.py: PnRConstraintWriter.map_valid_const", "align/pnr/write_constraint.py: PnRConstraintWriter._map_pins", "PlaceRouteHierFlow/PnRDB/ReadConstraint.cpp: PnRdatabase::ReadConstraint_Json", "PlaceRouteHierFlow/placer/ILP_solver.cpp"]}
{"id": "C98", "title": "The random moves of the placer keep every block and every symmetric group", "statement": "The annealing placer starts from a pair of sequences of blocks and changes it at random. At the start and after every move both sequences have every block and the axis of every symmetric group exactly once, every block has an existing variant, and every symmetric group remains placeable: for a vertical axis a is before b in the first sequence exactly if the mirror image of b is before that of a in the second one, for a horizontal axis exactly if the mirror image of a is before that of b. Moving a block puts it at the place drawn and keeps the order of all others; only blocks outside the groups are moved. Exchanging two blocks of a group exchanges them in the first sequence and their mirror images in the second. Exchanging two groups leaves all other blocks where they are and keeps the order within both, the k-th of the smaller group going where the k-th of the larger was. Choosing a variant changes only the variants of this block and of those with the same template, which always agree. What is drawn sensibly is carried out.", "quantifier": "for all designs, all numbers of moves and all outcomes of the random generator", "why_tests_cant": "The moves are random and there are many of them; a test runs one seed, and a lost or doubled block shows only as a bad placement or a crash much later.", "anchors": ["PlaceRouteHierFlow/placer/SeqPair.cpp: SeqPair::SeqPair", "PlaceRouteHierFlow/placer/SeqPair.cpp: SeqPair::CompactSeq", "PlaceRouteHierFlow/placer/SeqPair.cpp: SeqPair::PerturbationNew", "PlaceRouteHierFlow/placer/SeqPair.cpp: SeqPair::SwapTwoSymmetryGroup", "PlaceRouteHierFlow/placer/SeqPair.cpp: SeqPair::SwapTwoListinSeq", "PlaceRouteHierFlow/placer/SeqPair.cpp: SeqPair::SwapTwoBlocksofSameGroup", "PlaceRouteHierFlow/placer/SeqPair.cpp: SeqPair::MoveAsymmetricBlockUnit", "PlaceRouteHierFlow/placer/design.cpp: design::constructSymmGroup"]}
{"id": "C99", "title": "Symmetry constraints that share blocks are merged into one symmetric group", "statement": "The placer turns the symmetry constraints into symmetric groups. Two constraints end in the same group exactly if they are linked by a chain of constraints in which neighbours share a pair or a self-symmetric block. A group has the pairs and self-symmetric blocks of all its constraints and no others, none is in two groups or twice in one, and no block is in two groups. The group has the axis its constraints ask for, and this is the axis looked up later for its blocks.", "quantifier": "for all lists of symmetry constraints", "why_tests_cant": "Constraints are merged transitively and in the order written; tests have one or two separate constraints per design.", "anchors": ["PlaceRouteHierFlow/placer/design.cpp: design::constructSymmGroup", "PlaceRouteHierFlow/placer/design.cpp: design::MergeNewBlockstoSymmetryGroup", "PlaceRouteHierFlow/placer/design.cpp: design::checkSympairInSymmBlock", "PlaceRouteHierFlow/placer/design.cpp: design::checkSelfsymInSymmBlock", "PlaceRouteHierFlow/placer/ILP_solver.cpp: ILP_solver::ILP_solver"]}
{"id": "C100", "title": "Sequence pairs are discarded only if symmetry or alignment cannot be met", "statement": "After every random move the placer checks the sequence pair against symmetric groups and alignments and discards it if the check fails. A sequence pair for which blocks of some sizes can be placed without overlap, in the order it says, with all groups symmetric and all alignments met, is not discarded. One that is kept has no contradiction between two parts of a group, two aligned blocks or two rows: pairs are side by side for a vertical axis and above each other for a horizontal one, single blocks are on the axis, no single block is on the same side of both blocks of a pair, mirror images are on opposite sides, nothing is above one and below the other of two blocks of one row, and of two rows neither is both above and below the other.", "quantifier": "for all designs, all sequence pairs and all sizes of the blocks", "why_tests_cant": "The sets of relations are built from all pairs of blocks; a wrong sign only makes the placer discard good placements or keep hopeless ones, which no test looks at.", "anchors": ["PlaceRouteHierFlow/placer/SeqPair.cpp: SeqPair::CheckSymm", "PlaceRouteHierFlow/placer/SeqPair.cpp: SeqPair::CheckAlign", "PlaceRouteHierFlow/placer/SeqPair.cpp: SeqPair::PerturbationNew", "PlaceRouteHierFlow/placer/ILP_solver.cpp: ILP_solver::GenerateValidSolution"]}
{"id": "C101", "title": "Repairing a sequence pair keeps the blocks and meets the order constraints", "statement": "Before the placer tries a sequence pair it rearranges the two sequences so that blocks are in the order the constraints demand: left of each other for a horizontal constraint, above each other for a vertical one. Whenever some pair of sequences keeps orders, symmetry and alignments, the repair answers yes; when it answers yes, each sequence has the blocks it had before, each once, and all orders hold in the pair; it answers no only if the orders do not hold. Blocks that no constraint names stay where they are.", "quantifier": "for all orders, symmetric groups, alignments and neighbours, all sequence pairs and all outcomes of the random generator", "why_tests_cant": "The sequences come from random moves; a lost block only shows as a block that is never placed or placed on another one in some runs, and a refusal only as a move that is tried again.", "anchors": ["PlaceRouteHierFlow/placer/SeqPair.cpp: SeqPair::KeepOrdering", "PlaceRouteHierFlow/placer/SeqPair.cpp: SeqPair::PerturbationNew", "PlaceRouteHierFlow/placer/SeqPair.cpp: SeqPair::SeqPair"]}
{"id": "C102", "title": "Orders derived for the placer follow from the constraints of the user", "statement": "The placer works with orders of two blocks made from the lists of the user. They say all that the lists say: a placement that keeps them has every list in order. Vertical orders are also given to the mirror images of the two blocks and to blocks in a row with one of them that are not taller. These additions exclude nothing: every placement that meets the orders, symmetries and alignments of the user meets them too. Lists of abutted blocks give their neighbours and nothing else.", "quantifier": "for all lists of orders, symmetric groups, alignments, variants and placements", "why_tests_cant": "An addition that does not follow from the constraints makes the placer miss solutions or find none; tests look at a few circuits that have some solution.", "anchors": ["PlaceRouteHierFlow/placer/design.cpp: design::design", "PlaceRouteHierFlow/placer/SeqPair.cpp: SeqPair::KeepOrdering", "PlaceRouteHierFlow/placer/ILP_solver.cpp: ILP_solver::ILP_solver"]}
{"id": "C103", "title": "A placement accepted by the annealing placer meets the constraints", "statement": "The placer turns a sequence pair into an integer program and gives it to a solver. Whatever solution the solver returns, the placement that is accepted has no overlapping blocks, keeps the distances asked for, is symmetric, aligned, ordered, abutted and on its placement grids as the user asked, keeps the halo, the box and the aspect ratio, and the length of a net is never estimated too short. A sequence pair is refused only if no placement meets the constraints. The placement styles left, right and center obey the same limits, and center moves blocks to the middle of their free space.", "quantifier": "for all designs, sequence pairs, variants, solvers whose answers are solutions, and all solutions", "why_tests_cant": "The program has hundreds of rows that depend on each other, the solver picks one of very many solutions and rows that are wrong in one direction only lose solutions, which no test of a result can notice.", "anchors": ["PlaceRouteHierFlow/placer/ILP_solver.cpp: FrameSolveILPCore", "PlaceRouteHierFlow/placer/ILP_solver.cpp: MoveBlocksUsingSlack", "PlaceRouteHierFlow/placer/ILP_solver.cpp: GenerateValidSolutionCore", "PlaceRouteHierFlow/placer/ILP_solver.cpp: GenerateValidSolution"]}
{"id": "C104", "title": "Small designs are placed for every sequence pair and choice of variants exactly once", "statement": "For a small design the placer does not search at random but goes through the sequence pairs that have the orders asked for, and for each of them through all choices of variants in which blocks that need the same variant have it. When it reports that all are exhausted, each such combination has been placed exactly once, no combination that breaks an order has been placed, and no more combinations have been placed than the limit of iterations under which enumeration was chosen.", "quantifier": "for all designs, orders, groups of equal variants, numbers of variants and limits of iterations", "why_tests_cant": "The placer reports success also if some combinations were skipped; the number of combinations grows with the square of a factorial, and tests see only the best placement.", "anchors": ["PlaceRouteHierFlow/placer/SeqPair.cpp: OrderedEnumerator", "PlaceRouteHierFlow/placer/SeqPair.cpp: SeqPairEnumerator", "PlaceRouteHierFlow/placer/SeqPair.h: NextPermutation", "PlaceRouteHierFlow/placer/Placer.cpp: PlacementCoreAspectRatio_ILP"]}
{"id": "C105", "title": "Shapes keep their place when nodes are turned into the coordinates of the top node and back", "statement": "When the router works on a node, all shapes of the node are moved into the coordinates of the top node: turned and mirrored as its orientation says, such that the node covers the box that its parent gave it; afterwards they are moved back and are as before. A node at any depth is routed where the placements of all nodes above it put it. The shapes of a routed child appear in its parent at the place of the child. The orientations mean the same as in the Python code.", "quantifier": "for all coordinates, sizes, orientations, nodes and trees of nodes of any depth", "why_tests_cant": "Each of eight orientations has its own formulas in four functions for two directions, and 64 compositions come from a table; layouts of tests are small, mostly not mirrored twice, and shapes that are off by a mirrored offset often still overlap their pins.", "anchors": ["PlaceRouteHierFlow/PnRDB/PnRdatabase.cpp: TransformNode", "PlaceRouteHierFlow/PnRDB/PnRdatabase.cpp: TransformPoint", "PlaceRouteHierFlow/PnRDB/PnRdatabase.cpp: TransformBbox", "PlaceRouteHierFlow/PnRDB/PnRdatabase.cpp: RelOrt2AbsOrt", "PlaceRouteHierFlow/PnRDB/PnRdatabase.cpp: CheckinChildnodetoBlock", "align/pnr/router.py: route_top_down_aux"]}
{"id": "C106", "title": "A placement is written to the database as it was found", "statement": "When a placement has been found, every block of the node has the variant chosen for it, at its position, mirrored as the placement says, with all pins, metals and vias of the variant moved along; other variants are untouched. Size and wire lengths of the node are those of the placement plus the halo and the wire inside the variants. Each terminal has exactly the contacts of the pins on its net, on their metals, and symmetric nets get the axis in which their blocks are mirror images.", "quantifier": "for all nodes, placements, variants, nets, terminals and symmetry groups", "why_tests_cant": "The router reads these fields only for some nets, and a wrong axis or metal is compensated by detours; tests compare no coordinates of terminals.", "anchors": ["PlaceRouteHierFlow/placer/ILP_solver.cpp: UpdateHierNode", "PlaceRouteHierFlow/placer/ILP_solver.cpp: UpdateBlockinHierNode", "PlaceRouteHierFlow/placer/ILP_solver.cpp: UpdateTerminalinHierNode", "PlaceRouteHierFlow/placer/ILP_solver.cpp: UpdateSymmetryNetInfo", "PlaceRouteHierFlow/placer/ILP_solver.cpp: ConvertBoundaryData", "PlaceRouteHierFlow/placer/design.cpp: GetPlacedPosition", "PlaceRouteHierFlow/placer/design.cpp: GetPlacedBlockInterMetalAbsBox"]}
{"id": "C107", "title": "The modules are linked to their instances and visited children first", "statement": "When the netlist has been read, every block is linked to the module it is an instance of, if there is one, and every module to the modules that have an instance of it, each once; the top module is found by its name. The traversal of the hierarchy ends, gives exactly the modules below the top module, each once, the top module last, and every module after all the modules it has instances of.", "quantifier": "for all hierarchies of modules with distinct names (for the order: in which no module is an instance below itself)", "why_tests_cant": "Tests have a handful of modules in two or three levels, mostly listed bottom up already, so that any order would pass.", "anchors": ["PlaceRouteHierFlow/PnRDB/PnRdatabase.cpp: semantic0", "PlaceRouteHierFlow/PnRDB/PnRdatabase.cpp: TraverseHierTree", "PlaceRouteHierFlow/PnRDB/PnRdatabase.cpp: TraverseDFS"]}
{"id": "C108", "title": "The placements of a module are the variants of its instances", "statement": "When placements of a module are checked in, every block that is an instance of it gets them as variants, in order, with the file, size, pins, wires and vias of the placement, and its power pins; no other block and no other module but its parents is changed. With the traversal of the hierarchy every module is handed to the placer with exactly the placements made of its modules as variants. Checking out variant k of a module gives what was checked in as k-th placement.", "quantifier": "for all hierarchies, placers, numbers of placements, and sequences of check-ins and check-outs", "why_tests_cant": "Tests place few modules with one or two variants each, and never compare a module that is checked out with what was checked in.", "anchors": ["PlaceRouteHierFlow/PnRDB/PnRdatabase.cpp: CheckinHierNode", "PlaceRouteHierFlow/PnRDB/PnRdatabase.cpp: CheckoutHierNode", "PlaceRouteHierFlow/PnRDB/PnRdatabase.cpp: updatePowerPins", "align/pnr/placer.py: place", "align/pnr/placer.py: placer_driver"]}
{"id": "C109", "title": "Pins, terminals, nets and supplies of the database agree with the netlist", "statement": "In the database that place and route builds of a netlist, every pin and every terminal of a module knows its net by its index, every net lists exactly its pins and terminals, each once, and every net that is a global supply is a power net of the right polarity that lists its pins and terminals, while its pins have no net. Symmetric nets are the counterparts of each other. The database is built for every netlist whose templates have layouts or are modules; constraints that name nets which do not exist are refused.", "quantifier": "for all netlists, global signals, symmetric nets, files and macros", "why_tests_cant": "Tests compare a few routed layouts with golden files; they do not look at the numbers of the nets, and have one or two supplies whose nets come in one order.", "anchors": ["PlaceRouteHierFlow/PnRDB/PnRdatabase.cpp: semantic0", "PlaceRouteHierFlow/PnRDB/PnRdatabase.cpp: semantic1", "PlaceRouteHierFlow/PnRDB/PnRdatabase.cpp: semantic2", "align/pnr/build_pnr_model.py: _semantic", "align/pnr/build_pnr_model.py: _ReadVerilogJson"]}
{"id": "C110", "title": "Every instance of a template has one variant per layout, with the size and the shapes of its macro", "statement": "In the database that place and route builds, the block of an instance of a template with layouts has one variant per layout file, in order, with the file, and the size, pins, wires and vias of the macro called like the file; the block of an instance of a module has no variants yet and is linked to the module. A template that is neither is reported.", "quantifier": "for all netlists, maps from templates to files, paths of files (also with dots in directories or without extension) and macros", "why_tests_cant": "Tests have few templates, files in one directory with one dot, and only complete libraries.", "anchors": ["PlaceRouteHierFlow/PnRDB/PnRdatabase.cpp: MergeLEFMapData", "PlaceRouteHierFlow/PnRDB/PnRdatabase.cpp: stem", "PlaceRouteHierFlow/PnRDB/PnRdatabase.cpp: semantic0"]}
{"id": "C111", "title": "Power pins are lent to the placer and taken back", "statement": "Before a module is placed, every variant of its blocks gets the power pins that the power nets refer to after its own pins, and every power net is told where they are, for all variants alike. After the placement every power net has as its pins those of its connections and its power pins in the variants that were chosen, as they are placed, and the first ground a shape of a guard ring; the blocks are left with exactly the pins they had, and the shapes of all pins, own and lent, have become inner metal. This works for power nets that are connected to terminals as well.", "quantifier": "for all modules, power nets and placements that keep the pins", "why_tests_cant": "Tests have few power nets, mostly with one power pin per block and one variant, and no power net with a terminal; inner metal is not compared.", "anchors": ["PlaceRouteHierFlow/PnRDB/PnRdatabase.cpp: AddingPowerPins", "PlaceRouteHierFlow/PnRDB/PnRdatabase.cpp: Extract_RemovePowerPins", "align/pnr/placer.py: place"]}
{"id": "C112", "title": "The detailed router's search reports only real paths, never faults and always ends", "statement": "If the search of the detailed router reports a path, then the path begins at a source and meets no other source, ends at a destination and meets no other, passes no node twice, and each of its steps is either to the next node of the same track, both being free, or by a via to the next layer at the same point, allowed from both of its ends. On a grid as the constructor makes it the search never reads an element that does not exist and never runs into its error exits, and it ends after at most as many turns as there are sources and neighbours of nodes.", "quantifier": "for all grids, design rules, sources, destinations, wires to be mirrored and costs left over from earlier searches", "why_tests_cant": "Tests route few nets on few grids and see only that some route is found; that no step cuts through a blocked node or a via that is closed from the other side, and that the search always ends, is a claim about all grids.", "anchors": ["PlaceRouteHierFlow/router/A_star.cpp: A_star_algorithm_Sym", "PlaceRouteHierFlow/router/A_star.cpp: Pre_trace_back", "PlaceRouteHierFlow/router/A_star.cpp: found_near_node", "PlaceRouteHierFlow/router/A_star.cpp: parallel_routing"]}
{"id": "C113", "title": "The wires of a route realise the path that was found", "statement": "The wires that the detailed router draws for a path it found begin at the source and end at the destination; each wire begins at the point where the one before ends, on the next layer up or down, at a via that is a step of the path; each runs in the direction of its layer; every node of the path lies on a wire. There is exactly one manner of growing per wire, so that growing never fails, and a grown wire stays on its layer and covers all that it covered before.", "quantifier": "for all grids as the constructor makes them, design rules, sources, destinations and paths found", "why_tests_cant": "Tests route few nets; paths that change layers often, wires of a single node and wires that run downwards are rare in them, and connectivity of the drawn wires is not compared with the path.", "anchors": ["PlaceRouteHierFlow/router/A_star.cpp: ConvertPathintoPhysical", "PlaceRouteHierFlow/router/A_star.cpp: extend_manner_direction_check", "PlaceRouteHierFlow/router/GcellDetailRouter.cpp: returnPath_new", "PlaceRouteHierFlow/router/GcellDetailRouter.cpp: ExtendMetals"]}
{"id": "C114", "title": "Wires between vias reach the shortest length of their layer and cover free nodes only", "statement": "Every wire of a route other than the first and the last is, as drawn, at least as long as the shortest wire its layer allows. No wire, grown or not, covers a node of the grid that is blocked.", "quantifier": "for all grids as the constructor makes them, design rules, sources, destinations and paths found", "why_tests_cant": "Shortest lengths matter only for wires between two close vias; tests see such wires seldom, and the two places that compute the growth round differently, which shows only for odd lengths.", "anchors": ["PlaceRouteHierFlow/router/A_star.cpp: Extention_check_prime", "PlaceRouteHierFlow/router/A_star.cpp: CheckExendable_With_Certain_Length", "PlaceRouteHierFlow/router/A_star.cpp: extend_manner_direction_check", "PlaceRouteHierFlow/router/GcellDetailRouter.cpp: ExtendMetals"]}
{"id": "C115", "title": "The routing grid has a node at every crossing of tracks and all vias, and no other nodes or links", "statement": "The grid on which the detailed router searches has nodes only on the layers asked for, within the box of the block, at points on a track of their layer and on a track of a layer beside it; all are free at first. Nodes are linked only to nodes that are next to them on the same track of the same layer, and by vias only to nodes at the same point of the next layer; links lie in the direction that their name says. Every crossing of a track with one of a neighbouring layer within the tiles of the global route has a node, once; wherever two neighbouring layers have nodes at the same point, the lower has a via to the upper and the upper to the lower. If layers alternate in direction and distances of tracks are positive, the grid is built without failure.", "quantifier": "for all boxes, design rules, rows of tiles and ranges of layers", "why_tests_cant": "Tests use few technologies, in which tracks begin at zero and the borders of tiles are seldom on tracks of both layers; nobody compares the grid with the tracks, as only the routes are looked at.", "anchors": ["PlaceRouteHierFlow/router/Grid.cpp: Grid::Grid(GlobalGrid &GG, std::vector<std::pair<int, int>> &ST, ...)"]}
{"id": "C116", "title": "The cache of sequence pairs answers exactly for pairs that were stored, with the cost stored last", "statement": "The placer remembers the costs of the sequence pairs it has tried. Asked for a sequence pair with a choice of variants, the cache says yes exactly if a cost was stored before for this very pair and choice, and then gives the cost stored last; two different pairs are never taken for each other. When the cache is not in use it always says no. Neither storing nor asking fails or reads outside its tables.", "quantifier": "for all designs with at least one block and all sequences of stores and questions (fewer than 2^64 / 3)", "why_tests_cant": "With twelve blocks there are 2 * 10^17 sequence pairs; that no two share a number cannot be tested, and a pair taken for another only makes the annealing skip a placement or use a wrong cost, which no test notices.", "anchors": ["PlaceRouteHierFlow/placer/design.cpp: getSeqIndex", "PlaceRouteHierFlow/placer/design.cpp: getSelIndex", "PlaceRouteHierFlow/placer/design.cpp: cacheSeq", "PlaceRouteHierFlow/placer/design.cpp: isSeqInCache"]}
{"id": "C117", "title": "The annealing keeps the cheapest of all placements it found, and nothing that is no solution", "statement": "Asked for some number of placements, the annealing of the placer returns at least one and at most this number, in ascending order of cost and no two of the same cost. Each is a solution the solver found, with a cost that is not negative, together with the sequence pair it was found for and filed under its own cost. Of all solutions found on the way the cheapest are returned: one that is not is either as costly as one that is, or costlier than all, and then the number asked for is returned.", "quantifier": "for all designs, costs, random choices, temperatures, cooling rates, efforts and limits on trials", "why_tests_cant": "Runs are random and of thousands of steps, and tests compare neither the solutions dropped nor the sequence pair filed with a solution; that the first search finds nothing at all is rare in the examples.", "anchors": ["PlaceRouteHierFlow/placer/Placer.cpp: PlacementCoreAspectRatio_ILP", "PlaceRouteHierFlow/placer/Placer.cpp: ReshapeSeqPairMap"]}
{"id": "C118", "title": "For small designs the cheapest placements of all sequence pairs are returned", "statement": "For a small design the placer tries every sequence pair that has the orders asked for with every choice of variants and returns, in ascending order of cost, no more placements than asked for; each is a solution found for a sequence pair that has the orders. Of the solutions of all these combinations the cheapest are returned: one that is not is either as costly as one that is, or costlier than all, and then the number asked for is returned.", "quantifier": "for all small designs, orders, groups of equal variants, numbers of variants, costs, numbers of placements and iterations asked for", "why_tests_cant": "Tests see only what is returned, not what was never tried, and use the default number of iterations.", "anchors": ["PlaceRouteHierFlow/placer/Placer.cpp: PlacementCoreAspectRatio_ILP", "PlaceRouteHierFlow/placer/SeqPair.cpp: PerturbationNew", "align/pnr/placer.py: place"]}
{"id": "C119", "title": "The tiles of the global router cover the area and are linked to their neighbours", "statement": "For an area and a range of metals the global router makes layers of tiles, each for the given number of metals. On every layer every point of the area lies in exactly one tile, no tile is empty or reaches beyond the area, and the tiles have the size of the scale times the wire pitches of the two lowest metals, except at the right and the upper border. A tile is linked to the north, south, east and west exactly to the tile that lies along its whole side there, once, and only if a metal of its layer runs in this direction; the capacity is the number of wires that fit across the tile, summed over these metals. It is linked up and down exactly to the tile above and below, once; the capacity is the number of vias that fit.", "quantifier": "for all areas, metal ranges, numbers of metals per layer, scales, directions and pitches of the metals", "why_tests_cant": "Tests route small circuits; a missing link or a wrong capacity only makes a route worse.", "anchors": ["PlaceRouteHierFlow/router/GlobalGrid.cpp: GlobalGrid"]}
{"id": "C120", "title": "The candidate routes of a net connect its pins over open tiles", "statement": "For a net with pins (each a set of tiles), a range of metals and a number of routes, the global router returns as many candidate routes as asked for. Each is a set of links between neighbouring tiles that the net may use and that have room for a wire or via (or a single tile); together with the pins, each of which is one piece, the links join all tiles of all pins. If all tiles can be reached from the first pin over such links, candidates are found.", "quantifier": "for all lists of tiles, metal ranges, pins, possible further tiles and numbers of candidates", "why_tests_cant": "Tests compare few routes; nets with a raised lowest routing layer are rare, and a candidate that misses a pin shows up only if it is chosen.", "anchors": ["PlaceRouteHierFlow/router/GlobalGraph.cpp: CreateAdjacentList_New, SetSrcDest, RMSrcDest, dijkstra, MST, Iterated_Steiner, FindSTs"]}
{"id": "C121", "title": "The connections of a candidate route are shortest", "statement": "The route of a net is built of connections. Each is a shortest way, with distances of tile centres as lengths, from what has been connected so far (pins reached and all tiles of earlier connections) to the tiles of pins that are not reached yet.", "quantifier": "for all graphs, pins and further tiles", "why_tests_cant": "Tests do not look at the length of global routes.", "anchors": ["PlaceRouteHierFlow/router/GlobalGraph.cpp: dijkstra, MST, InitialSrcDest, ChangeSrcDest, Calculate_Weight, CreateAdjacentList_New"]}
{"id": "C122", "title": "Vias at both ends of a stretch of a route have room", "statement": "If a path found by the detailed router goes from a layer to a neighbouring one and, after a stretch there, back to the same layer, then the two vias are at least the size of a via and the space between vias apart, measured in the direction of the layer of the stretch.", "quantifier": "for all grids as the constructor makes them, rules, sources, destinations and costs", "why_tests_cant": "Too close vias are a violation of design rules that only a check of the final layout finds.", "anchors": ["PlaceRouteHierFlow/router/A_star.cpp: Extention_check_prime, A_star_algorithm_Sym"]}
{"id": "C123", "title": "The routes chosen for all nets fit and respect symmetry", "statement": "The global router chooses among the candidate routes of all nets by an integer program. If the solver gives a solution, exactly one of its candidates is taken for every net that has any; for two symmetric nets with equally many candidates the candidates taken have the same number; and no link between tiles is used by more of the chosen routes than it has room for.", "quantifier": "for all nets, candidates, capacities of links and all solutions of the program that is handed to the solver", "why_tests_cant": "The program is built from counters and column numbers; a row with wrong columns still has solutions, and tests do not count the nets on a link.", "anchors": ["PlaceRouteHierFlow/router/GcellGlobalRouter.cpp: ILPSolveRouting"]}
{"id": "C124", "title": "Symmetric nets are matched tile by tile", "statement": "For a tile the router finds the tile on the same layers at the mirrored place, if there is one. If for each pin of two nets that are to be symmetric there are tiles that are mirror images of each other, the nets are found to match; each pin then keeps exactly such tiles, at least one.", "quantifier": "for all lists of tiles as the global grid makes them, axes and pins", "why_tests_cant": "Tests do not look at which nets the global router treats as symmetric: if none are matched, all nets are still routed.", "anchors": ["PlaceRouteHierFlow/router/GcellGlobalRouter.cpp: GenerateSymMap, PrimeSetGenerate, SymNetTerminal_PrimeSet", "PlaceRouteHierFlow/router/Rdatatype.h: tileComp"]}
{"id": "C125", "title": "The candidates of symmetric nets are mirror images", "statement": "When the candidate routes of two symmetric nets are matched, the nets have equally many candidates afterwards; those of the same number are mirror images at the axis of symmetry, and every candidate is one that its net had before or the mirror image of one that the other net had. If there is none, the nets are not symmetric any more and keep their candidates.", "quantifier": "for all lists of tiles as the global grid makes them, nets and candidates", "why_tests_cant": "A wrong candidate is a valid route, only not for this net; this shows up if it is chosen.", "anchors": ["PlaceRouteHierFlow/router/GcellGlobalRouter.cpp: GenerateSTsUniqueV, CopySTs, MirrorSymSTs, CopyPath"]}
{"id": "C126", "title": "A guard ring is a closed ring of touching pins", "statement": "The copies of the guard ring cell that are put around a block lie in a ring: their pins touch without overlap and together are all that lies between two rectangles, one pin apart. No copy is put twice. The inner rectangle is as wide and high as the block with the required spaces on both sides and one step of the grid, or more by less than a pin.", "quantifier": "for all sizes of the block, guard ring cells whose pin is inside the cell, spaces that are not negative and grids", "why_tests_cant": "Tests have few guard rings; a gap or a double cell at a corner occurs only for some sizes.", "anchors": ["PlaceRouteHierFlow/guard_ring/GuardRing.cpp: Pcell_info, DRC_Read, GuardRing"]}
{"id": "C127", "title": "The guard ring keeps its space to the block and lies in the new outline", "statement": "If the pin is in the middle of the guard ring cell, every copy keeps the required space to the block after the block has been moved onto the grid, and all copies are inside the new outline of the block.", "quantifier": "for all sizes of the block, guard ring cells whose pin is in the middle, spaces that are not negative and grids", "why_tests_cant": "The rounding to the grid takes from the space only for some sizes of the block.", "anchors": ["PlaceRouteHierFlow/guard_ring/GuardRing.cpp: GuardRing, movehierNode"]}
{"id": "C128", "title": "Every capacitor of an array gets its number of units", "statement": "The placer of common centroid capacitors gives every capacitor of the constraint exactly as many units of the array as its size says, gives no unit twice, uses units of the array only, and uses none in the border if there is a border of dummies. The array whose size the placer finds itself is large enough for that.", "quantifier": "for all lists of sizes, all arrays with at least as many units as the sum of the sizes, with and without dummies", "why_tests_cant": "Tests have one or two sets of sizes; the number of odd sizes and the parity of the array decide how units are paired.", "anchors": ["PlaceRouteHierFlow/cap_placer/capplacer.cpp: Placer_Router_Cap_function, initial_net_pair_sequence"]}
{"id": "C129", "title": "The capacitors of an array have a common centroid", "statement": "The units of a capacitor with an even size lie in pairs on opposite sides of the middle of the array. Those of a capacitor with an odd size do so when one of them is left out.", "quantifier": "for all lists of sizes, all arrays with at least as many units as the sum of the sizes, with and without dummies", "why_tests_cant": "Whether the pairs are opposite depends on the order that the sort leaves among units of the same distance.", "anchors": ["PlaceRouteHierFlow/cap_placer/capplacer.cpp: Placer_Router_Cap_function, initial_net_pair_sequence"]}
{"id": "C130", "title": "The shapes tried for an array of capacitors have room for it", "statement": "If arrays of different shapes are asked for, at least one array is made, and every array, but for that whose size the user gives, has room for all units.", "quantifier": "for all sums of sizes above zero and all numbers of shapes above zero", "why_tests_cant": "Both loops over the shapes leave shapes out by equations that hold for some sums only.", "anchors": ["PlaceRouteHierFlow/cap_placer/capplacer.cpp: Common_centroid_capacitor_aspect_ratio"]}
{"id": "C131", "title": "GDS records are written as JSON with the same nesting", "statement": "The conversion of a GDS stream to indented JSON writes one JSON text whose objects and lists nest as the libraries, cells and elements of the stream do: each library, cell and element is one object with its records as members, in the order of the stream, with commas and brackets in the right places.", "quantifier": "for all streams of libraries, cells and elements, of any length", "why_tests_cant": "Tests convert a few files; the state of the converter (level, tag of the level, first) depends on what came before, so empty cells and elements in all orders matter.", "anchors": ["align/gdsconv/gds2prettyjson.py: convert_GDS_GDSprettyjson, show_data"]}
{"id": "C132", "title": "Names in the indented JSON are read back", "statement": "A text in a GDS record is written as a JSON string that a reader reads as the same text.", "quantifier": "for all texts", "why_tests_cant": "Tests have names of letters and digits.", "anchors": ["align/gdsconv/gds2prettyjson.py: show_data"]}
{"id": "C133", "title": "Vias connect the metals that the PDK names", "statement": "When the placer and router reads the layers of a PDK, it numbers the metals in the order of the file; each via is read once and gets the numbers of the metals that its stack names, vias on no metal come last, the via above (below) a metal is one that starts (ends) there; if the k-th via of the file on a metal connects the k-th and the next metal, it has the number k. A file with vias of different names is read, and a stack that names a metal that is not in the file is refused.", "quantifier": "for all lists of layers", "why_tests_cant": "PDKs in the repository list vias in the usual order; other orders, vias to devices between others, or other GDS numbers are not tested.", "anchors": ["PlaceRouteHierFlow/PnRDB/ReadDesignRuleJson.cpp: ReadPDKJSON"]}
{"id": "C134", "title": "Vias enclose their cut as the PDK says", "statement": "The rectangles of a via on its two metals extend beyond the cut by the enclosure of the PDK along the direction of that metal and by that across it, each with the values for that metal, and across the metal they are no narrower than a wire; the cut has the size of the PDK and lies in the middle.", "quantifier": "for all lists of layers and all vias and metals in it", "why_tests_cant": "A check of generated layouts sees the vias that are used, with the widths of one PDK.", "anchors": ["PlaceRouteHierFlow/PnRDB/ReadDesignRuleJson.cpp: ReadPDKJSON"]}
{"id": "C135", "title": "A transformer replaces what its methods say, everywhere, and nothing else", "statement": "The result of a transformer whose methods treat strings, numbers and None has the contents of the original with every such value replaced by what the method returns. Objects of the original are not changed. The result is the original object itself if and only if nothing is replaced in it.", "quantifier": "for all objects without cycles, of any depth and with any sharing, and all methods for atoms", "why_tests_cant": "Tests have one object with two levels; the cache and the comparison by identity matter for deeper objects with sharing.", "anchors": ["align/schema/visitor.py: Transformer, cache, Visitor.visit"]}
{"id": "C136", "title": "A transformer keeps shared objects shared", "statement": "An object (a model, a list or a dictionary of the schema) that occurs several times is replaced by one and the same object everywhere.", "quantifier": "for all lists of objects without cycles and all methods for atoms", "why_tests_cant": "Equality of contents does not show sharing; tests compare a single case.", "anchors": ["align/schema/visitor.py: cache, Transformer"]}
{"id": "C137", "title": "A visitor returns the results for all parts in order", "statement": "A visitor whose methods treat strings, numbers and None returns the list of what they return, from left to right, lists joined and None left out; parts of an object that occurs several times are returned each time.", "quantifier": "for all objects without cycles and all methods for atoms", "why_tests_cant": "The cache returns stored lists for objects seen before; a wrong entry shows only with sharing at the right places.", "anchors": ["align/schema/visitor.py: Visitor.generic_visit, flatten, cache"]}
{"id": "C138", "title": "The placer and router reads the LEF files that ALIGN writes", "statement": "When the placer and router reads a LEF file written by ALIGN, it finds exactly the cells of the file, each with its size, its pins with their rectangles on metals and their vias, and its obstructions on metals and vias, with lengths rounded to the nearest half nanometre, whatever the cells and pins are called.", "quantifier": "for all lists of cells, pins and shapes, and all names", "why_tests_cant": "The reader looks for words anywhere in a line, so that names can be mistaken for keywords; tests have a few names.", "anchors": ["PlaceRouteHierFlow/PnRDB/ReadLEF.cpp: _ReadLEF, parse_and_scale", "PlaceRouteHierFlow/PnRDB/readfile.cpp: get_true_word", "align/cell_fabric/gen_lef.py: lef_from_layout_d"]}
{"id": "C139", "title": "The layout that is written shows all wires, vias and pins", "statement": "In the layout (GDS as JSON) that the router writes, every wire with a length, the cut and the two metals of every via and every pin of a block are drawn on their layers as closed paths around their rectangles, scaled to the unit of the file, and no other shapes are drawn.", "quantifier": "for all nodes, units and sub-layouts", "why_tests_cant": "The pins are drawn over shapes of the block, so that missing ones are not seen in a test that looks at the picture.", "anchors": ["PlaceRouteHierFlow/PnRDB/WriteJSON.cpp: WriteJSON, addMetalBoundaries, addViaBoundaries, addContactBoundaries, assignBoxPoints"]}
{"id": "C140", "title": "The layout that is written has the blocks in place", "statement": "In the layout that the router writes, every block is referred to so that each point of its layout comes to where the place and orientation of the block put it.", "quantifier": "for all places, the orientations N, S, FN and FS, all points and layouts of blocks", "why_tests_cant": "The corner of the layout of a block is taken from its last element, which is the outline in all layouts that the flow itself draws.", "anchors": ["PlaceRouteHierFlow/PnRDB/WriteJSON.cpp: WriteJSON, JSONReaderWrite_subcells, addOABoundaries"]}
{"id": "C141", "title": "The layout that is written contains the layouts of its blocks", "statement": "The layouts of all blocks are copied into the layout that the router writes so that cells from different files have different names, references inside a file lead to the copies of the same cells, and the reference to a block leads to the last cell of its own file.", "quantifier": "for all sets of files with any cells and names, and all first numbers", "why_tests_cant": "The names are made from the time; tests have few files with few cells.", "anchors": ["PlaceRouteHierFlow/PnRDB/WriteJSON.cpp: WriteJSON, JSONReaderWrite_subcells"]}
{"id": "C142", "title": "The pins of a black box are where its labels are", "statement": "When a GDS file is made a black box, the pins of its LEF file are named by labels, each name once, and a pin has exactly those shapes (rectangles around the polygons for pins or drawings of a layer) in which a label with its name for that layer lies.", "quantifier": "for all layers files, polygons and labels", "why_tests_cant": "Tests have one layers file, in which every layer has its own number.", "anchors": ["align/gdsconv/gds2lefjson.py: GDS2_LEF_JSON.readLayerInfo, writeLEFJSON"]}
{"id": "C143", "title": "The LEF file of a black box has all shapes", "statement": "When a GDS file is made a black box, every shape on a known layer and type, except labels and the outline, is in the LEF file as a shape of a pin or as an obstruction; obstructions are only such shapes, and no shape for pins or drawings with a label for its layer inside is an obstruction.", "quantifier": "for all layers files, polygons and labels", "why_tests_cant": "A missing obstruction shows only when a wire is routed across it.", "anchors": ["align/gdsconv/gds2lefjson.py: GDS2_LEF_JSON.readLayerInfo, writeLEFJSON"]}
{"id": "C144", "title": "Larger primitives are tried first", "statement": "The primitives with which the circuit is matched are the subcircuits of the library, those with more elements first, among these those with fewer nets first, then those with more different models; those that are the same in all this stay in the order of the library.", "quantifier": "for all libraries whose subcircuits have nets", "why_tests_cant": "Tests use the library of one process; a wrong order shows only if one primitive is part of another.", "anchors": ["align/compiler/read_library.py: order_lib"]}
{"id": "C145", "title": "The output of the compiler has every module and constraint", "statement": "The compiler writes a module for every subcircuit without a generator, in their order, each with its constraints except those for the compiler only (DoNotIdentify, GroupBlocks, DoNotUseLib, ConfigureCompiler), and a file with all its constraints; the power grid gets the first ground port and the first power port of the top, or is left out if one is missing.", "quantifier": "for all circuits and constraints, with names that differ in small letters", "why_tests_cant": "Constraints are taken out of the list by comparison, and tests have few constraints of one kind.", "anchors": ["align/compiler/compiler.py: compiler_output, exclude_const"]}
{"id": "C146", "title": "The capacitor arrays that were placed are those asked for", "statement": "If the placement of capacitor arrays ends without an error, it gives at least one layout for each array that a constraint asks for and no other layouts, and each layout has the name of its array whatever that name is; it ends so whenever the placer has left files for these arrays only.", "quantifier": "for all modules, constraints and files", "why_tests_cant": "The name is found with a pattern that may match in several places; tests have plain names.", "anchors": ["align/pnr/cap_placer.py: cap_placer_driver", "PlaceRouteHierFlow/cap_placer/capplacer.cpp: names of files"]}
{"id": "C147", "title": "The power grid is in one piece", "statement": "After the check of the power grid the active vertices of a power net are all connected with each other along links between active vertices of that net. No vertex that was active and is linked to a kept one is switched off. If the net had active vertices some are kept, and it is the largest connected part that is kept. Vertices of other nets are not touched.", "quantifier": "for all graphs whose links go both ways, all nets and all sets of active vertices", "why_tests_cant": "Tests have power grids in one piece or with small scraps; how a part is counted matters only if two parts have about the same size.", "anchors": ["PlaceRouteHierFlow/router/Graph.cpp: Connection_Check_Power_Grid, power_grid_dsf, collect_nodes, collect_node"]}
{"id": "C148", "title": "No metal of the power grid is lost", "statement": "The metals of a power net in the power grid are those found between linked vertices, each once.", "quantifier": "for all lists of metals found, in any order", "why_tests_cant": "Metals are put in an ordered set, and an order that takes two metals for the same shows only if both occur.", "anchors": ["PlaceRouteHierFlow/router/Graph.cpp: CreatePower_Grid", "PlaceRouteHierFlow/router/Rdatatype.h: MetalComp"]}
{"id": "C149", "title": "Merging the metals of the power grid changes no place", "statement": "Merging the metals of a power net gives metals that go over the same points on the same layers. No metal is continued by the next one in the list, and there are no more metals than before.", "quantifier": "for all lists of metals", "why_tests_cant": "The result is used only to find whether a contact lies inside the grid; tests do not look at points.", "anchors": ["PlaceRouteHierFlow/router/Graph.cpp: MergePowerMetal"]}
{"id": "C150", "title": "A power pin is routed to the nearest metals of the grid", "statement": "Routing a power pin starts from its contacts and aims at the seven metals (all, if there are fewer) on the lowest layer of the power grid that are nearest to it, by the distance along the axes between the middles.", "quantifier": "for all pins and all power grids", "why_tests_cant": "Metals at the same distance on both sides of a pin are rare in tests, and a missing target is seen only if it would have been the best.", "anchors": ["PlaceRouteHierFlow/router/PowerRouter.cpp: SetSrcDest"]}
{"id": "C151", "title": "Pads within the own power grid are not new contacts", "statement": "After routing a power net its contacts are its metals and the pads of its vias, except the pads that lie within a metal of the grid of the same net.", "quantifier": "for all nets, grids, metals, vias and via models", "why_tests_cant": "The contacts serve to keep vias apart; tests look at the layout only, and pads within a grid are rarely near other vias.", "anchors": ["PlaceRouteHierFlow/router/PowerRouter.cpp: InsertRoutingContact, RedundantContact"]}
{"id": "C152", "title": "A power pin is routed in a window around it and its targets", "statement": "The window in which a power pin is routed has just those points of the module that lie at most ten margins beyond the sources and targets on each side; so all sources and targets within the module lie in it. The margin along an axis is the grid unit of that one of the two highest layers that has tracks across it, times the scale.", "quantifier": "for all pins with sources or targets, technologies and sizes of the module", "why_tests_cant": "A window that is too small only makes routes longer or fail now and then, which tests accept.", "anchors": ["PlaceRouteHierFlow/router/PowerRouter.cpp: SetSrcDest"]}
{"id": "C153", "title": "A power net is labelled on the top metal in the middle", "statement": "The label of a power net is put on the metal of its grid that is nearest to the middle of the module among those on the top layer of the power grid.", "quantifier": "for all modules and power grids", "why_tests_cant": "Tests have a full grid; a net without a metal on the top layer is not tested.", "anchors": ["PlaceRouteHierFlow/PnRDB/WriteJSON.cpp: Find_Top_Middle_Metal"]}
{"id": "C154", "title": "The power grid has metal wherever it has vias", "statement": "The metals found for a power net are those between two neighbours on a layer that are active and belong to the net, from left to right or from bottom to top. Its vias, each once, join two vertices one above the other that are active and belong to the net, on the lower of the two layers, and only where the net has metal on both layers.", "quantifier": "for all grids of vertices", "why_tests_cant": "A via without metal on one side is seen only by a check of design rules or of connections on a real layout.", "anchors": ["PlaceRouteHierFlow/router/Graph.cpp: CreatePower_Grid, CheckActive"]}
