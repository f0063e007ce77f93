{"id": "C01", "title": "DOM order equals source order", "statement": "Inside any one HTML node, the nodes rendered by the futures composed under it always appear in the order in which the futures are written in the join/race tree (a depth-first left-to-right reading), whatever the order in which the nodes were actually rendered, and whatever nodes were removed in between.", "quantifier": "every history of renders and un-renders at arbitrary tree positions (any depth, any arity) into one containing node, also when unrelated nodes are already in it", "why_tests_cant": "The render order is decided by wake-ups; the number of interleavings of first polls and drops over an arbitrary component tree is unbounded, a test fixes one tree and one schedule.", "anchors": ["async_ui_web_core/src/context.rs: DomContext::add_child, remove_child, remove_children_here", "async_ui_web_core/src/position.rs: compare_slice_reversed, ChildPosition", "async_ui_web_core/src/node_container.rs: ContainerNodeFuture::poll"]}
{"id": "C02", "title": "Un-rendering removes exactly one subtree", "statement": "When a component is un-rendered, exactly the nodes rendered by it and by the futures composed inside it leave the containing node; every other node stays and keeps its relative order.", "quantifier": "every reachable render state, every tree position", "why_tests_cant": "Needs every set of displayed positions and every position removed; a test only samples a few trees.", "anchors": ["async_ui_web_core/src/context.rs: remove_children_here", "async_ui_web_core/src/position.rs: ChildPosition::next_sibling, is_root"]}
{"id": "C03", "title": "Positions are totally ordered and every subtree is an interval", "statement": "The order on tree positions is a strict total order that agrees with reading the component tree left to right with parents before children, and the positions from p up to p's next sibling are exactly p and its descendants.", "quantifier": "all positions (all finite sequences of u32 indices), including the largest index", "why_tests_cant": "Order laws quantify over all triples of sequences.", "anchors": ["async_ui_web_core/src/position.rs: compare_slice_reversed, next_sibling, Ord for ChildPosition"]}
{"id": "C04", "title": "List-item content stays next to its own marker", "statement": "Content rendered inside a dynamic-list item is always placed immediately before that item's end marker, after the content of the same item that comes earlier in source order, and never interleaves with other content of the same containing node.", "quantifier": "every history of renders and un-renders in any number of sibling groups and in the enclosing node's own group sharing one containing node", "why_tests_cant": "Several groups share one DOM child list; all interleavings of their updates must keep the blocks contiguous.", "anchors": ["async_ui_web_core/src/context.rs: DomContext::Sibling arms of add_child/remove_child", "async_ui_web_core/src/node_sibling.rs: SiblingNodeFuture"]}
{"id": "C05", "title": "Dropping a component un-renders it completely and only once", "statement": "Dropping a future that has rendered removes from the containing node all nodes it rendered there, issues no DOM removal for nodes nested inside removed nodes, never removes a node twice, leaves other components' nodes alone, and leaves detachment enabled again afterwards.", "quantifier": "all component trees built from rendered nodes, list items and combinators, all progress states (never polled, partly rendered, fully rendered)", "why_tests_cant": "Drop order, nesting and progress state combine to an unbounded family of trees.", "anchors": ["async_ui_web_core/src/node_container.rs: PinnedDrop", "async_ui_web_core/src/node_sibling.rs: PinnedDrop", "async_ui_web_core/src/dropping.rs: DetachmentBlocker", "async_ui_web_core/src/combinators/common/{array,vec,tuple}.rs: PinnedDrop"]}
{"id": "C06", "title": "Detachment blocking is balanced", "statement": "For every properly nested sequence of drops, only the outermost drop is told to detach its nodes, all nested drops are told not to, and after the outermost drop ends a later drop is again told to detach.", "quantifier": "all finite forests of nested drops and all assignments of storage addresses to the objects being dropped", "why_tests_cant": "The flag is identified by the address of a zero-sized object; whether addresses coincide depends on layout and cannot be swept by tests.", "anchors": ["async_ui_web_core/src/dropping.rs: DetachmentBlocker::block_until_drop, Drop"]}
{"id": "C07", "title": "Unmounting removes the UI without a failure", "statement": "Dropping the task returned by mount_at removes everything the app rendered from the mount node and does not panic.", "quantifier": "all app component trees in all progress states", "why_tests_cant": "The tests never unmount; any app tree must be covered.", "anchors": ["async_ui_web/src/mount.rs: mount_at", "async_ui_web_core/src/node_container.rs: ContainerNodeFuture::new_root, PinnedDrop", "async_ui_web_core/src/context.rs: DOM_CONTEXT"]}
{"id": "C08", "title": "Dropping a future that never rendered has no effect on the UI", "statement": "Creating a component or a combinator and dropping it without ever polling it leaves every displayed node in place.", "quantifier": "all UI states and all unpolled component trees", "why_tests_cant": "Depends on what is displayed at the current position at the moment of the drop, for any UI state.", "anchors": ["async_ui_web_core/src/combinators/common/array.rs: PinnedDrop", "async_ui_web_core/src/combinators/common/vec.rs: PinnedDrop", "async_ui_web_core/src/combinators/common/tuple.rs: PinnedDrop", "async_ui_web_core/src/node_container.rs: PinnedDrop"]}
{"id": "C09", "title": "No wake-up of the root executor is lost", "statement": "Whenever the root future is woken, it is polled again after that wake: either by the run in progress or by a timer callback that is already queued; at most one timer is queued per quiet period.", "quantifier": "every interleaving of wake-ups (before, during, after polls), timer callbacks, event-triggered runs and re-entrant runs", "why_tests_cant": "A lost wake-up needs one particular interleaving of wake, timer and event; tests only see one.", "anchors": ["async_ui_web_core/src/executor.rs: schedule, run_now, root_waker"]}
{"id": "C10", "title": "Running the executor is never re-entrant and drains", "statement": "The root future is never polled while it is being polled; a run that starts when none is in progress ends only when no wake-up is outstanding, and a nested request to run is absorbed by the run in progress.", "quantifier": "every behaviour of the root future (any finite pattern of self-wakes and nested run requests during a poll)", "why_tests_cant": "Requires all patterns of nested calls made by user code inside a poll.", "anchors": ["async_ui_web_core/src/executor.rs: run_now"]}
{"id": "C11", "title": "Work submitted before the executor future is installed still runs", "statement": "If the root future is woken before it has been installed, it is polled after it is installed.", "quantifier": "every order of schedule, timer callback and installation", "why_tests_cant": "Order of start-up steps.", "anchors": ["async_ui_web_core/src/executor.rs: set_executor_future, run_now", "async_ui_web/src/executor.rs: get_executor"]}
{"id": "C12", "title": "Combinators lose no wake-up", "statement": "For join, race, try_join and race_ok over arrays, vectors and tuples: after a subfuture's waker is woken the combinator's latest task waker is woken (or the wake happened before/during the poll and the task was woken by then), and the next poll of the combinator that is not cut short polls that subfuture if it has not finished.", "quantifier": "every number of subfutures and every interleaving of wakes (including wakes during a poll, by the subfuture itself, and repeated wakes) with polls, also with a change of task waker between polls", "why_tests_cant": "Lost wake-ups are interleaving bugs.", "anchors": ["async_ui_web_core/src/combinators/utils/wakers/array/readiness.rs: ReadinessArray", "async_ui_web_core/src/combinators/utils/wakers/vec/readiness.rs: ReadinessVec", "async_ui_web_core/src/combinators/common/{array,vec,tuple}.rs: Future::poll"]}
{"id": "C13", "title": "Combinators poll only what needs polling", "statement": "In one poll of a combinator a subfuture is polled at most once, only if its waker was woken since it was last polled (or it was never polled), and never after it has finished. On the first poll every subfuture is polled, in index order, until one ends the combinator early.", "quantifier": "every number of subfutures and every interleaving of wakes and polls", "why_tests_cant": "All wake patterns, all sizes.", "anchors": ["async_ui_web_core/src/combinators/utils/wakers/*/readiness.rs: set_woken, clear, awake_list", "async_ui_web_core/src/combinators/common/{array,vec,tuple}.rs: Future::poll"]}
{"id": "C14", "title": "join waits for all and keeps order", "statement": "join completes exactly when the last of its subfutures completes, and its output lists the output of the i-th subfuture at place i; an empty join completes on its first poll.", "quantifier": "every number of subfutures, every completion order, every wake interleaving", "why_tests_cant": "n! completion orders times all interleavings.", "anchors": ["async_ui_web_core/src/combinators/common/{array,vec,tuple}.rs", "async_ui_web_core/src/combinators/join/*.rs: JoinBehavior"]}
{"id": "C15", "title": "race returns the first finisher", "statement": "race completes in the same poll in which the first subfuture completes, with that subfuture's output, polls no further subfuture in that poll, and an empty race never completes.", "quantifier": "every number of subfutures, every completion pattern and wake interleaving", "why_tests_cant": "All completion patterns.", "anchors": ["async_ui_web_core/src/combinators/race/*.rs: RaceBehavior", "async_ui_web_core/src/combinators/common/{array,vec,tuple}.rs"]}
{"id": "C16", "title": "try_join and race_ok short-circuit correctly", "statement": "try_join returns Err(e) in the poll in which the first subfuture fails, with that error, and otherwise Ok of all outputs in place order when all have succeeded; race_ok is the mirror image with Ok and Err exchanged.", "quantifier": "every number of subfutures, every result pattern and wake interleaving", "why_tests_cant": "All result patterns and orders.", "anchors": ["async_ui_web_core/src/combinators/try_join/*.rs: TryJoinBehavior", "async_ui_web_core/src/combinators/race_ok/*.rs: RaceOkBehavior", "async_ui_web_core/src/combinators/common/{array,vec,tuple}.rs"]}
{"id": "C17", "title": "A finished combinator is never driven again silently", "statement": "Polling a combinator again after it has returned Ready panics and does not poll any subfuture that has already completed.", "quantifier": "every number of subfutures, every history that completed, every later wake", "why_tests_cant": "Misuse after any history.", "anchors": ["async_ui_web_core/src/combinators/common/array.rs: assert in poll", "async_ui_web_core/src/combinators/common/vec.rs: assert in poll", "async_ui_web_core/src/combinators/common/tuple.rs: assert in poll"]}
{"id": "C18", "title": "Subfuture outputs are neither leaked nor dropped twice", "statement": "Every output value produced by a subfuture is, exactly once, either returned to the caller or dropped, whether the combinator completes normally, completes early or is dropped while pending.", "quantifier": "every history of polls followed by a drop at any point", "why_tests_cant": "Memory safety of MaybeUninit slots depends on the drop point in every history.", "anchors": ["async_ui_web_core/src/combinators/common/array.rs: items, filled, PinnedDrop", "async_ui_web_core/src/combinators/common/vec.rs", "async_ui_web_core/src/combinators/common/tuple.rs"]}
{"id": "C19", "title": "Shared waker memory lives exactly as long as it is needed", "statement": "The memory shared by a combinator and all wakers handed to its subfutures is freed exactly when the combinator and the last clone of any of these wakers are gone; until then waking any waker marks exactly the subfuture it was handed to.", "quantifier": "every sequence of waker clone, wake, wake_by_ref and drop, interleaved with the drop of the combinator", "why_tests_cant": "Unsafe reference counting: one bad order is a use-after-free.", "anchors": ["async_ui_web_core/src/combinators/utils/wakers/shared_arc.rs: waker_from_redirect_position", "async_ui_web_core/src/combinators/utils/wakers/array/waker_array.rs", "async_ui_web_core/src/combinators/utils/wakers/vec/waker_vec.rs"]}
{"id": "C20", "title": "pend_after and meanwhile", "statement": "f.pend_after() drives f to completion once, never polls it afterwards and never completes; f.meanwhile(g) completes exactly when f does, with f's output, whatever g does.", "quantifier": "all behaviours of f and g, all poll schedules", "why_tests_cant": "All schedules of two arbitrary futures.", "anchors": ["async_ui_web_core/src/combinators/extras/mod.rs: PendAfter, meanwhile"]}
{"id": "C21", "title": "The waker arena is a set of ordered lists", "statement": "The waker arena behaves like independent ordered lists: a slot index given out is not in use elsewhere, adding appends to the list, removing removes exactly that slot, iterating visits exactly the live slots of that list in insertion order with their latest wakers, and no operation on live slots panics or disturbs other lists.", "quantifier": "every history of add_sublist, add, remove, update, remove_sublist_if_empty, of any length and with any number of lists", "why_tests_cant": "Intrusive doubly linked lists over a growing vector with a free list: corner cases at growth and reuse depend on history.", "anchors": ["async_ui_internal_utils/src/wakers_arena.rs: WakersArena"]}
{"id": "C22", "title": "ReactiveCell listeners miss no change", "statement": "Once a listener of a ReactiveCell has been polled, every later mutable borrow (when it ends) wakes it and makes its next poll ready; several changes before that poll count once; without a change it stays pending.", "quantifier": "every history of borrows, listener creation, polls and drops with any number of listeners", "why_tests_cant": "Interleavings of changes and polls over many listeners.", "anchors": ["async_ui_internal_utils/src/reactive_cell/mod.rs", "async_ui_internal_utils/src/reactive_cell/until_change.rs", "async_ui_internal_utils/src/reactive_cell/borrow_mut.rs"]}
{"id": "C23", "title": "A change listener covers the time since its creation", "statement": "A listener created before a change (ReactiveCell::until_change, x-bow until_change) becomes ready at its next poll after the change, also if it had not been polled before the change.", "quantifier": "every history of listener creation, changes and polls", "why_tests_cant": "The window between creation and first poll is a matter of schedule.", "anchors": ["async_ui_internal_utils/src/reactive_cell/until_change.rs: poll_next", "x-bow/src/until_change.rs: poll_next", "x-bow/src/lib.rs: Quick Example", "x-bow/src/path_ext.rs: until_change doc"]}
{"id": "C24", "title": "ReactiveCell::for_each never ends on a stale value", "statement": "The closure given to ReactiveCell::for_each runs once at the start, and whenever the task has run after the last change the last value passed to the closure is the current value.", "quantifier": "every history of changes and polls", "why_tests_cant": "All interleavings of changes with polls.", "anchors": ["async_ui_internal_utils/src/reactive_cell/for_each.rs: for_each"]}
{"id": "C25", "title": "x-bow: a change reaches every listener at or below it", "statement": "After a mutable borrow of path p ends, every polled until_change listener on p or on any path below p is woken and is ready at its next poll, whatever the hash function does (collisions included).", "quantifier": "every tree of paths, every hash function, every history of listens, polls, drops and changes", "why_tests_cant": "Arbitrary hash collisions and histories.", "anchors": ["x-bow/src/until_change.rs: UntilChange", "x-bow/src/borrow_mut_guard.rs: BorrowMutGuard, Drop", "x-bow/src/wakers.rs: StoreWakers", "x-bow/src/hash_visitor.rs: HashVisitor"]}
{"id": "C26", "title": "x-bow: a listener fires only for relevant changes", "statement": "If path hashes do not collide, an until_change listener on q becomes ready only if a path that is q or an enclosing path of q was mutably borrowed since its last poll; a change in a sibling or below q does not fire it.", "quantifier": "every tree of paths, every collision-free hash function, every history", "why_tests_cant": "All histories and path sets.", "anchors": ["x-bow/src/until_change.rs", "x-bow/src/wakers.rs", "x-bow/src/borrow_mut_guard.rs"]}
{"id": "C27", "title": "x-bow: bubbling listeners see every change at or below", "statement": "until_bubbling_change on q becomes ready after a change of q or of any path below q, and (without collisions) after no other change.", "quantifier": "every tree of paths, every hash function (must-fire) / collision-free hash function (must-not-fire), every history", "why_tests_cant": "All histories and path sets.", "anchors": ["x-bow/src/until_change.rs: new_bubbling", "x-bow/src/borrow_mut_guard.rs: notify", "x-bow/src/hash.rs: bubbling_from"]}
{"id": "C28", "title": "x-bow: paths of different length never share a listener key", "statement": "However the hash function behaves, the change-notification keys of two paths of different depth differ, so a deep change never wakes a listener of the whole tree by collision.", "quantifier": "all 64-bit hash values, all depths", "why_tests_cant": "Quantifies over 2^64 hash values and all depths.", "anchors": ["x-bow/src/hash.rs: regular_from, bubbling_from", "x-bow/src/hash_visitor.rs: finish_one", "x-bow/src/lib.rs: Hash Collision section"]}
{"id": "C29", "title": "x-bow: subscriptions are released", "statement": "When all listeners are dropped the store holds no subscription; dropping a listener never panics and never disturbs another listener, even with hash collisions.", "quantifier": "every history of listener creation, polls, changes and drops, every hash function", "why_tests_cant": "Leaks and double removals depend on history and collisions.", "anchors": ["x-bow/src/wakers.rs: remove_waker_slot", "x-bow/src/until_change.rs: Drop"]}
{"id": "C30", "title": "x-bow: store paths obey the lens laws", "statement": "Writing through a path succeeds exactly when reading through it does (shared Rc excepted), reading back gives the written value, data at disjoint paths is unchanged, and guaranteed paths never fail.", "quantifier": "all data trees, all paths through structs, enums, vectors, maps, boxes and Rc", "why_tests_cant": "All data shapes and all pairs of paths.", "anchors": ["x-bow/src/path.rs", "x-bow/src/impls/*.rs: path_borrow, path_borrow_mut", "x-bow-macros/src/generate.rs: access", "x-bow/src/guarantee.rs", "x-bow/src/path_ext.rs: set_opt"]}
{"id": "C31", "title": "x-bow for_each / signal_stream follow the data", "statement": "for_each calls the closure with the data at the first poll and again after every batch of changes made through the path or an enclosing path; after every poll the last value given to the closure is the current data (as long as the data exists and was only changed through such paths). signal_stream yields the current data likewise and ends when the data is missing. for_each_async never polls a future made from outdated data while the data exists.", "quantifier": "every history of changes, removals and re-insertions of the data, and polls", "why_tests_cant": "Interleavings.", "anchors": ["x-bow/src/path_ext/for_each.rs: ForEach::poll", "x-bow/src/path_ext/signal_stream.rs", "x-bow/src/path_ext/for_each_async.rs"]}
{"id": "C32", "title": "x-bow bind_for_each is a faithful two-way binding", "statement": "With bind_for_each the closure is called once at the start and for every change from outside that survives, is not called for changes that come from the incoming stream, the last incoming value is written to the store, and the future ends when the stream ends.", "quantifier": "every history of incoming items, outside changes and polls", "why_tests_cant": "Interleavings of two sources of change.", "anchors": ["x-bow/src/path_ext/bind_for_each.rs: BindForEach::poll", "x-bow/src/path_ext.rs: bind_for_each doc"]}
{"id": "C33", "title": "DynamicList shows its items in list order", "statement": "After any sequence of insert, remove, move_before, retain and swap, the rendered DOM shows the items in the order a plain sequence of keys would have after the same calls, each item's content contiguous between its markers, with no marker of a removed item left.", "quantifier": "every history of calls with arbitrary keys, also while the list is not rendered, with arbitrary content per item", "why_tests_cant": "Unbounded histories of moves.", "anchors": ["async_ui_web/src/lists/dynamic_list.rs: insert, remove, move_before, swap, retain, move_nodes_before"]}
{"id": "C34", "title": "DynamicList keeps its place among its siblings", "statement": "A rendered DynamicList appears at its own source-order place among the nodes of its parent, whatever its siblings do before or after.", "quantifier": "every history of renders and un-renders of siblings", "why_tests_cant": "Schedule dependent.", "anchors": ["async_ui_web/src/lists/dynamic_list.rs: render", "async_ui_web_core/src/context.rs: add_child"]}
{"id": "C35", "title": "DiffedList shows exactly the requested keys in the requested order", "statement": "After DiffedList::update(keys) the rendered items are exactly the given (distinct) keys in the given order, and items present before and after keep their state (are not re-created).", "quantifier": "all pairs of old and new key sequences, all update histories", "why_tests_cant": "All permutations with insertions and deletions.", "anchors": ["async_ui_web/src/lists/diffed_list.rs: update"]}
{"id": "C36", "title": "ModeledList mirrors its model", "statement": "After ModeledList::update(model) the rendered items are exactly the items of the model in order, whatever edits happened to the model since the last update and however many, and whichever model instance was shown before; no edit in range panics.", "quantifier": "every history of model edits (insert, remove, push, pop, swap, move_item, modify_vec, clone) and updates, with distinct keys", "why_tests_cant": "The change log is truncated depending on history; both the log path and the rebuild path must agree.", "anchors": ["async_ui_web/src/lists/modeled_list.rs: ListModel, ModeledList::update"]}
{"id": "C37", "title": "VirtualizedList renders exactly the visible window", "statement": "After each visibility update the rendered items are exactly the indices of the computed window, in increasing order, each once, and never an index beyond the number of items.", "quantifier": "every history of scroll positions, measured sizes and item-count changes", "why_tests_cant": "Geometry and item count vary arbitrarily between updates.", "anchors": ["async_ui_web/src/lists/virtualized_list.rs: update_visible, set_num_items"]}
{"id": "C38", "title": "DynamicSlot shows the last future set", "statement": "After set_future/clear_future calls, the next poll of the slot drops the previous future and runs exactly the most recently set one; a future that is replaced before it is polled is never polled.", "quantifier": "every history of set, clear and poll", "why_tests_cant": "Interleavings of sets and polls.", "anchors": ["async_ui_web/src/components/dynamic_slot.rs"]}
{"id": "C39", "title": "Dropdown value and option list", "statement": "Dropdown shows the options in the given order after update_options, value() returns the value last set by set_value or chosen by the user if it is among the options and None otherwise.", "quantifier": "every history of set_value, update_options and user choices", "why_tests_cant": "Histories.", "anchors": ["async_ui_web/src/components/dropdown.rs"]}
{"id": "C40", "title": "Event streams deliver the latest event and lose no wake-up", "statement": "After its first poll an event stream is woken by every DOM event and its next poll yields the most recent event not yet yielded; each event is yielded at most once; without an event it stays pending.", "quantifier": "every interleaving of events and polls", "why_tests_cant": "Interleavings.", "anchors": ["async_ui_web_html/src/event_handling.rs: EventFutureStream::poll_next"]}
{"id": "C41", "title": "Dropping an event stream removes its listener", "statement": "After an event stream is dropped, its DOM listener is gone, for every combination of listener options.", "quantifier": "all option settings, all histories before the drop", "why_tests_cant": "The DOM matches listeners by type, callback and capture flag; all combinations must match.", "anchors": ["async_ui_web_html/src/event_handling.rs: set_capture, set_passive, Drop"]}
{"id": "C42", "title": "ListModel is a faithful vector with a bounded log", "statement": "The list model's contents after any sequence of edits equal those of a plain vector under the same edits, its version increases with every edit, and its change log, replayed on the contents at an older version it still covers, yields the current contents.", "quantifier": "every history of edits", "why_tests_cant": "Histories of any length with log truncation.", "anchors": ["async_ui_web/src/lists/modeled_list.rs: ListModel::{insert,remove,push,pop,swap,move_item,modify_vec,add_change}"]}
{"id": "C43", "title": "css! gives every class a name that matches the style sheet", "statement": "For every style sheet, each class selector is exported as a constant and the emitted style sheet uses exactly the exported (postfixed) name at every place the class occurs, and is otherwise unchanged.", "quantifier": "all token sequences of style sheets, all postfixes", "why_tests_cant": "All style sheets.", "anchors": ["async_ui_web_macros/src/css.rs: find_classes, generate, generate_postfix"]}
{"id": "C44", "title": "Position index overflow is harmless", "statement": "Un-rendering the component with the largest possible child index still removes exactly its subtree.", "quantifier": "all child indices up to 2^32-1", "why_tests_cant": "Needs 2^32 children.", "anchors": ["async_ui_web_core/src/position.rs: next_sibling"]}
{"id": "C45", "title": "Two components at one place are never silently mixed up", "statement": "If a component renders a node at a place of the component tree at which another node is already displayed (two components run in one place without join or race), the render fails with a panic; it never happens that a displayed node is forgotten and stays in the document after its place has been un-rendered.", "quantifier": "all render histories, all places, all nodes, debug and release builds", "why_tests_cant": "The loss shows only after later un-renders, in release builds, and depends on what is displayed around the place.", "anchors": ["async_ui_web_core/src/context.rs: panic_if_duplicate_node, add_child"]}
{"id": "C46", "title": "The document is the component tree", "statement": "Mount an app made of async blocks, elements and combinators (join, race and so on, nested in any way) at a node that may already have other children. Let it be polled any number of times, with the async blocks creating, awaiting, finishing and cancelling components as they like and combinators polling any of their subfutures in any order, and let other code insert and remove its own nodes anywhere, also between and inside the app's elements. Then nothing ever panics, and at every moment the mount node and every element of the app contain, apart from other code's nodes, exactly the elements of the current component tree in the order of the source.", "quantifier": "all apps, all sequences of polls with all behaviours of user code, all insertions and removals by other code, all memory addresses, debug and release builds", "why_tests_cant": "The result must be independent of the order in which components appear and disappear, at every nesting depth; the number of such histories is unbounded.", "anchors": ["async_ui_web_core/src/context.rs", "async_ui_web_core/src/node_container.rs", "async_ui_web_core/src/combinators/common", "async_ui_web/src/mount.rs: mount_at"]}
{"id": "C47", "title": "Different places of a store are told apart", "statement": "In a store of any type built from structs, enums, vectors, hash maps, boxes and Rcs, with any fields excluded from tracking, two different paths feed different data to the hasher, and the data of one is the beginning of the data of the other exactly if its place encloses the other; provided that map keys are hashed with at least one byte and unambiguously, as numbers and strings are. So as long as the digests of the places involved do not collide, a listener is ready exactly if its place or an enclosing place was changed, and a bubbling listener exactly if its place or one inside was changed.", "quantifier": "all store types, all tracked paths, all key types that are hashed unambiguously, both pointer sizes, all histories of listeners and changes", "why_tests_cant": "The types, indices and keys are unbounded; an overlap of the numbering of fields, variants and layers shows only for particular types.", "anchors": ["x-bow-macros/src/generate.rs: visit_hashes", "x-bow/src/impls/stdlib/vec.rs: visit_hashes", "x-bow/src/impls/stdlib/hash_map.rs: visit_hashes", "x-bow/src/impls/transparent.rs: visit_hashes", "x-bow/src/hash_visitor.rs"]}
{"id": "C48", "title": "Wake-ups pass through nested combinators and lists", "statement": "Let a task consist of async blocks that await join, race, try_join and race_ok combinators or rendered DynamicLists, whose subfutures and items are again such blocks, to any depth, where blocks may replace or abandon what they await and lists gain and lose items at any time. Between polls, if any part of the task has been woken since it was last polled, or has never been polled, then the task's waker has been woken since the task was last polled. And when the task is then polled, every such part that still exists after the poll has been polled in it; except that a list that has run its batch of items lets others go first, and then the task has been woken again for the rest.", "quantifier": "every shape and depth of nesting, every mix of combinator kinds and lists, every interleaving of wakes (before, between and during polls, also by wakers of abandoned parts), polls, completions, cancellations, insertions and removals of items, and renderings of lists", "why_tests_cant": "A lost wake-up needs a particular interleaving at a particular depth; there are infinitely many trees.", "anchors": ["async_ui_web_core/src/combinators/common/{array,vec,tuple}.rs: Future::poll", "async_ui_web_core/src/combinators/utils/wakers: WakerArray, WakerVec, ReadinessArray, ReadinessVec", "async_ui_web_core/src/node_container.rs: Future::poll", "async_ui_web/src/lists/dynamic_list.rs: insert, remove, render"]}
{"id": "C49", "title": "When the browser is idle, nothing in a mounted app waits", "statement": "In an app that has been mounted, whenever no Rust code is running and no timer is queued, no part of any live task, at whatever depth of its combinators and lists, has been woken since it was last polled or has never been polled.", "quantifier": "every number of mounted and spawned tasks, every tree of combinators and lists in them, every interleaving of wakes, timers, event callbacks, cancellations, insertions and removals of items and self-wakes", "why_tests_cant": "Requires all interleavings of three schedulers (browser timers, task queue, combinators).", "anchors": ["async_ui_web_core/src/executor.rs: schedule, run_now", "async_ui_web/src/executor.rs: get_executor", "async_ui_web/src/mount.rs: mount_at", "async_ui_web_core/src/combinators", "async_ui_web/src/lists/dynamic_list.rs: insert, remove, render"]}
{"id": "C50", "title": "Spawned tasks run", "statement": "Every task spawned on the executor returned by get_executor is polled before the browser is idle, unless it is cancelled.", "quantifier": "every order of spawns, mounts, wakes, timers and event callbacks", "why_tests_cant": "Order of start-up steps; tests mount an app first.", "anchors": ["async_ui_web/src/executor.rs: get_executor", "async_ui_web_core/src/executor.rs: set_executor_future, schedule", "async_ui_web/src/mount.rs: mount_at"]}
{"id": "C51", "title": "An idle app has seen the current value of a ReactiveCell", "statement": "Whenever the browser is idle and no mutable borrow of a ReactiveCell is open, a for_each on it that is awaited anywhere inside a live task called its closure last with the current value of the cell; and an awaited until_change has been told of every change.", "quantifier": "every app of nested join/race blocks and lists, every place of the awaiting block in it, every order of polls, wakes, timers, borrows, writes and drops", "why_tests_cant": "The update has to pass the cell's wakers, every combinator on the way up, the task queue and the root executor; a test sees one nesting and one order.", "anchors": ["async_ui_internal_utils/src/reactive_cell/for_each.rs: for_each", "async_ui_internal_utils/src/reactive_cell/until_change.rs: poll_next", "async_ui_internal_utils/src/reactive_cell/borrow_mut.rs: Drop", "async_ui_web_core/src/combinators/utils/wakers: WakerArray, WakerVec", "async_ui_web_core/src/executor.rs: schedule"]}
{"id": "C52", "title": "An idle app has received the last event", "statement": "Whenever the browser is idle, an event stream that is awaited anywhere inside a live task has yielded the last event that the browser delivered to it.", "quantifier": "every app of nested join/race blocks and lists, every place of the awaiting block in it, every order of polls, wakes, timers, event deliveries, stream creations and drops", "why_tests_cant": "The wake-up has to pass from the event callback through every combinator and the executor; a test sees one nesting and one order.", "anchors": ["async_ui_web_html/src/event_handling.rs: EventFutureStream", "async_ui_web_core/src/combinators/utils/wakers: WakerArray, WakerVec", "async_ui_web_core/src/executor.rs: schedule"]}
{"id": "C53", "title": "An idle app has seen the current data of an x-bow store", "statement": "Whenever the browser is idle, a for_each (or signal_stream(true)) on a path, awaited anywhere inside a live task, was last given the current data at the path, if there is data there and it was changed only with notification on the path itself or on an enclosing one.", "quantifier": "every hash function, every path, every data, every app of nested join/race blocks and lists, every place of the awaiting block in it, every order of polls, wakes, timers, writes, subscriptions and drops", "why_tests_cant": "The wake-up has to pass from the hashed subscription through every combinator and the executor; hash collisions and orders of events cannot be enumerated.", "anchors": ["x-bow/src/path_ext/{for_each,signal_stream}.rs", "x-bow/src/until_change.rs: poll_next", "x-bow/src/wakers.rs: StoreWakers", "async_ui_web_core/src/combinators/utils/wakers: WakerArray, WakerVec", "async_ui_web_core/src/executor.rs: schedule"]}
{"id": "C54", "title": "select! evaluates one branch, after releasing the others", "statement": "select! evaluates the expression of exactly the branch whose future finishes first, with that future's output, in the poll in which it finishes. Before that, every future that was evaluated is dropped; the same holds if select! is dropped early. Each future expression is evaluated at most once, and not before the futures of all earlier branches were polled and pending; select! is pending only when all futures are. A future woken while select! is pending wakes its task.", "quantifier": "every number of branches, every order of polls, results, wakes and drops", "why_tests_cant": "Needs every interleaving of wakes and completions for every number of branches; a leaked or twice evaluated future is invisible to a test that looks at the result.", "anchors": ["async_ui_web_macros/src/select.rs: generate", "async_ui_web_core/src/combinators/common/tuple.rs", "async_ui_web_core/src/combinators/race/mod.rs"]}
{"id": "C55", "title": "Class shortcuts add and remove exactly the named classes", "statement": "add_class, add_classes, del_class, del_classes and set_class change only the classes they name: afterwards an added class is there and a removed one is not, whatever else the class attribute says and in whatever order earlier calls came; the last call that names a class decides. A call panics exactly if it is given an empty name or one with whitespace, and then nothing has changed. Afterwards the attribute lists each class once. Every constant that css! declares can be given to add_class, and the element then has the class that the emitted sheet selects.", "quantifier": "every initial class attribute, every sequence of calls, all names; every sheet that css! supports", "why_tests_cant": "Names that are prefixes of others, repeated names, tabs and newlines in the attribute make infinitely many cases.", "anchors": ["async_ui_web/src/shortcuts.rs: ShortcutClassList, ShortcutClassListBuilder", "async_ui_web_macros/src/css.rs"]}
{"id": "C56", "title": "List items show exactly what their futures render, in list order", "statement": "The futures given to a DynamicList render into the list: at any time the document shows, between the list's markers, the items in the order that the calls determine, and within each item exactly the nodes that its components display at that time, in source order. Moving an item moves all its nodes. Rendering the list, dropping the rendering and rendering it again elsewhere keeps everything. A removed item leaves only the nodes that its future displays until the future is dropped, and then these go as well. Nothing panics.", "quantifier": "every document, every history of list calls, of nodes displayed and taken away anywhere inside the items, of futures ending, and of changes of the rest of the page", "why_tests_cant": "Items change while they are moved, removed or outside the document; the number of items, the depth of their components and the interleavings are unbounded.", "anchors": ["async_ui_web/src/lists/dynamic_list.rs: insert, remove, move_before, swap, retain, render", "async_ui_web_core/src/node_sibling.rs: poll, drop", "async_ui_web_core/src/context.rs: add_child, remove_child"]}
{"id": "C57", "title": "VirtualizedList leaves no blank on the screen", "statement": "With items of one size, after every visibility update no spacer that stands for items is in the visible part of the root, every item that would be in view if all items were rendered is in the document, at the place where it would be then, and the list is as long as it would be if all items were rendered. The number of rendered items is bounded by what fills five times the root.", "quantifier": "every number and size of items, every size of the root, every history of scroll positions, resizings and changes of the number of items", "why_tests_cant": "Scroll positions, sizes and numbers of items vary without bound, and an update depends on what the previous ones left on the screen.", "anchors": ["async_ui_web/src/lists/virtualized_list.rs: update_visible, set_num_items"]}
{"id": "C58", "title": "Lists rendered inside items of other lists stay consistent", "statement": "Any number of DynamicLists may be rendered, also directly as the content of items of each other, to any depth. A call on one list (insert, remove, move_before, swap, retain) changes what is between the markers of this list and nothing else in the document; items that are moved take the lists inside them along; a list that is no longer rendered takes everything inside it out and puts it back when it is rendered again. No call panics, also on an inner list while the outer one is not rendered or after it has been rendered elsewhere.", "quantifier": "every number of lists, every nesting, every interleaving of calls, renderings, un-renderings and changes by other parts of the program", "why_tests_cant": "Nesting depth, number of lists and interleavings are unbounded; the lists share the children of one node, and each knows only its own markers.", "anchors": ["async_ui_web/src/lists/dynamic_list.rs: insert, remove, move_before, swap, retain, render, move_nodes_before", "async_ui_web_core/src/node_sibling.rs: SiblingNodeFuture"]}
{"id": "C59", "title": "Lists do the documented amount of work", "statement": "The number of elementary operations (DOM calls, hash map accesses, tasks spawned or dropped, calls of the renderer, steps of loops) is as documented. DynamicList: insert, remove and contains_key take at most a constant number, however long the list is; move_before and swap take a constant number for each HTML node that is moved. DiffedList::update takes a number linear in the old and new keys. ModeledList::update takes a number linear in the number of edits of the model since the last update, however long the list is, also if there were so many edits that the list is rebuilt; after modify_vec or from another model it takes a number linear in the old and new keys.", "quantifier": "every history of calls, renderings and changes by other parts of the program, except the calls after which the document is wrong anyway (C33, C36); every length of the list, every number of nodes per item", "why_tests_cant": "A bound on the work for lists of every length and every history; a test measures single lengths.", "anchors": ["async_ui_web/src/lists/dynamic_list.rs: insert, remove, contains_key, move_before, swap, retain", "async_ui_web/src/lists/diffed_list.rs: update", "async_ui_web/src/lists/modeled_list.rs: add_change, modify_vec, update"]}
{"id": "C60", "title": "The circle drawer undoes and redoes", "statement": "In the circle drawer example, after any sequence of mouse moves, clicks, size changes, undos and redos, the document shows exactly the circles of the present picture, in the order in which they were drawn, with their places and sizes, and only the circle under the mouse is highlighted. Undo shows the picture before the last change, redo shows the picture that was undone, and a new change forgets what was undone. The undo and redo buttons are disabled exactly if there is nothing to undo or redo. The circle under the mouse is the one around the mouse whose centre is nearest. Nothing panics.", "quantifier": "every sequence of events, every document, also while the list is not rendered or rendered elsewhere, and whatever the rest of the program does with other nodes", "why_tests_cant": "Undo histories are unbounded and mix with new changes at every place; a test replays single histories.", "anchors": ["examples/web-simple-examples/src/circles.rs: circles, context_menu, OperationsBar", "async_ui_web/src/lists/dynamic_list.rs: insert, remove"]}
{"id": "C61", "title": "The spreadsheet shows what its formulas say", "statement": "In the spreadsheet example, whenever nothing is left to do every cell shows its value, and the value is what its formula gives for the present values of the cells in it. After the user has typed anything, nothing is left to do after finitely many rounds, unless cells depend on each other in a circle; the values then are the only ones that fit the formulas, whatever was polled in whichever order. `=SUM(a:b)` with two names of cells means the sum of the cells in the rectangle. Nothing panics.", "quantifier": "every sequence of changes of formulas by the user, every order in which the tasks are polled, every formula, every arithmetic of the numbers", "why_tests_cant": "The orders of updates and the dependency graphs are unbounded; glitches and missed updates show only in particular orders.", "anchors": ["examples/web-simple-examples/src/cells.rs: cell, Formula, CellIndex", "async_ui_internal_utils/src/reactive_cell/until_change.rs: UntilChangeFuture"]}
{"id": "C62", "title": "Drags are reported once and correctly", "statement": "With the draggable items of the examples, the stream of moves reports every drag that ends on an item exactly once and in order, with the item dragged, the item it was dropped on and the side on which it was dropped; drags that end elsewhere are not reported. While the pointer is over another item there is room for the dragged item on its side; the room is taken back where it was dropped and where the pointer has left. Whatever the order of events and polls, no report is made up and there are no more reports about a target than drops on it.", "quantifier": "every sequence of drags with every way of the pointer, items coming and going between them, every order of polls; the last sentence for every order of events, polls, mounting and unmounting", "why_tests_cant": "The ways of the pointer and the orders of polls are unbounded; what is left over from one drag shows only in a later one.", "anchors": ["examples/async_ui_web_draggable/src/lib.rs: Dragger::wrap_item, Dragger::until_move"]}
{"id": "C63", "title": "TodoMVC shows its todos", "statement": "In the TodoMVC example, after any sequence of user actions (adding, checking, checking all, clearing, deleting, editing, filtering), the screen shows the todos that these actions amount to: one row per todo, in the order of adding, with its text, its checkbox and its class, hidden exactly if the filter says so; the number of items left is the number of open todos; the checkbox for all is checked exactly if everything is done; the list is hidden exactly if there are no todos and the button for clearing exactly if nothing is done; exactly the present filter is selected. After every action the program comes to rest, after a number of steps linear in the number of todos.", "quantifier": "every sequence of user actions handled one after the other, every order in which the parts of the program are polled in between, every trimming function", "why_tests_cant": "The counts are kept by adding and subtracting in loops that also wake each other; that they stay right over unbounded histories and for every order of polls cannot be sampled.", "anchors": ["examples/web-todomvc/src/app.rs: app_main, FootPart, filter_button, TodoItem"]}
{"id": "C64", "title": "Apps with dynamic lists show what they are", "statement": "Mount any app and let it create dynamic lists, render them in its elements, stop rendering them, drop them, and insert, remove, move, swap and retain items whose futures are arbitrary components; let the app and the items be polled in any order, with user code awaiting, cancelling and completing components, and let other code insert and remove its own nodes outside the lists. There is no panic, and after every event the document shows exactly this: the mount node and every element of the app and of the items contain the elements that their content displays, in the order of the source, besides the nodes of other code and the lists rendered there; every list is in the node in which it is rendered, or in its own fragment while it is not rendered; between its markers it shows its items in the order that the calls amount to, each of them with exactly what its future displays, and besides only what items display that have been removed and whose futures have not been dropped yet. Of a list that has been dropped nothing is in the mount node or in any element, and dropping it changes nothing in the document. An item keeps the future it was given; only polling the item changes it, and dropping the list drops it.", "quantifier": "every app, every document, every number of lists, every sequence of events (polls with every behaviour of user code, calls of lists, renders, drops of lists, foreign insertions and removals)", "why_tests_cant": "It relates three mechanisms (positions of siblings, markers of lists, groups per item) over unbounded histories in which any of them may run between any two steps of the others; the number of interleavings and of component trees is infinite.", "anchors": ["async_ui_web/src/lists/dynamic_list.rs: DynamicList", "async_ui_web_core/src/node_sibling.rs: SiblingNodeFuture", "async_ui_web_core/src/node_container.rs: ContainerNodeFuture", "async_ui_web_core/src/context.rs: DomContext", "async_ui_web/src/mount.rs: mount_at"]}
{"id": "C65", "title": "Items of a list get their turn, and only then are polled", "statement": "An item of a rendered DynamicList that has been woken, or has just been inserted, gets its turn: until it is polled or removed, the list lets others go first at most n / 200 + 1 times, n being the number of items inserted so far, no matter how often other items are woken or inserted meanwhile. Hence when a task renders the list directly, the item has been polled by the time the task has been polled n / 200 + 2 times. An item is polled only when it has been woken since its previous poll or has never been polled, and never after it has returned or has been removed.", "quantifier": "every list, every item, every order of insertions, removals, wakes and polls, also with items that wake themselves all the time; every batch size of the executor in place of 200", "why_tests_cant": "Starvation needs other items that are busy for ever; a test can only wait for a while.", "anchors": ["async_ui_web/src/lists/dynamic_list.rs: insert, render"]}
{"id": "C66", "title": "The list of persons shows what was created, updated and deleted", "statement": "In the create-read-update-delete example, after any sequence of creating, choosing, updating, deleting and filtering, the list shows exactly the persons that were created and not deleted, in the order of creation, each with the name it was last given. At most one person is selected, also after several were chosen at once; updating and deleting affect the selected person and no other. The buttons for updating and deleting are enabled exactly if a person is selected. Exactly the persons whose names do not begin with the text in the field for the filter are hidden. Nothing panics.", "quantifier": "every sequence of events, every choice of several persons, every text, every order in which the hash map is iterated, every document", "why_tests_cant": "Histories are unbounded, and the defects need a particular order of presses that nobody makes on purpose.", "anchors": ["examples/web-simple-examples/src/crud.rs: crud"]}
{"id": "C67", "title": "A loop that reads and then waits has read the current value whenever the app is idle", "statement": "In a component of the form `loop { use(value); race((value.until_change(), other things)).await }`, where the value is a ReactiveCell or a path of an x-bow store: whenever the browser is idle, no mutable borrow is open and the loop is waiting, what it has read is the current value. For a cell, nothing may be written between the read and the first poll of until_change; for a store, what counts as read is the data when until_change is polled, and data at the path is changed only with notification on the path or on an enclosing one. The same app may wait for any number of cells, stores and event streams at once, and what C51 to C53 say holds for all of them.", "quantifier": "every number of cells, stores and event streams in one app, every type of values, every hash function, every app of nested join/race blocks and lists, every place of the loop in it, every order of polls, wakes, timers, borrows, writes, events and drops", "why_tests_cant": "A change may come at any moment between the read, the polls of the combinators around it, and the wake-up on its way through them; a lost one shows only as a page that stays out of date.", "anchors": ["async_ui_internal_utils/src/reactive_cell/until_change.rs: poll_next", "async_ui_internal_utils/src/reactive_cell/borrow_mut.rs: Drop", "x-bow/src/until_change.rs: poll_next", "x-bow/src/wakers.rs: StoreWakers", "async_ui_web_core/src/combinators/utils/wakers: WakerArray, WakerVec", "async_ui_web_core/src/executor.rs: schedule", "examples/web-simple-examples/src/timer.rs"]}
{"id": "C68", "title": "derive(Trackable) gives every field that is not skipped one accessor, which leads to this field", "statement": "For every struct and enum, `#[derive(Trackable)]` generates for each field that is not skipped exactly one method on the path builder, with the documented name (`field`, `t0`, `Variant_field`, `Variant_0`), and none for skipped fields. A field is tracked as its own `#[track(..)]` says, otherwise as that of the struct or enum says, otherwise shallowly. The path of the method reads and writes exactly this field (for an enum only while the value is of this variant), numbers its fields in the order of their declaration, and implements PathExtGuaranteed exactly for fields of structs. The methods of one type, and the types generated in one module, have different names; methods of paths can be called on path builders. The macro reports an error exactly for unions and unknown words in `#[track(..)]`.", "quantifier": "every struct and enum with any number of variants and fields, any names and any attributes", "why_tests_cant": "The names are built by joining identifiers of the user with underscores; clashes and wrong numbers depend on the combination of names, attributes and positions.", "anchors": ["x-bow-macros/src/generate.rs: generate, ToGenField", "x-bow-macros/src/attributes.rs: TrackMode::from_attributes", "x-bow-macros/src/utils.rs: get_field_member", "x-bow/src/lib.rs: Trackable"]}
{"id": "C69", "title": "No event is lost while a component listens for it", "statement": "If the browser is idle whenever an event is delivered to one of the streams of a component, and all of these streams that are listening are awaited then, and no stream is dropped while it has an event that was not yielded, then the component gets every event exactly once and in order: whenever the browser is idle, the events yielded by these streams are those delivered to them. This includes a loop that makes a new stream (`until_click()`) for every event. A single event that is delivered to a stream is yielded by the next poll of the stream, unless a later one replaces it; and this poll has happened whenever the browser is idle and the stream is still awaited.", "quantifier": "every app of nested join/race blocks and lists waiting for any number of cells, stores and streams; every set of streams, every place of the awaiting blocks, every order of polls, wakes, timers, event deliveries, stream creations and drops", "why_tests_cant": "A lost event needs a particular order of deliveries, wake-ups and polls in a particular nesting; the claim is about all events of all orders.", "anchors": ["async_ui_web_html/src/event_handling.rs: EventFutureStream, EmitElementEvent", "async_ui_web_core/src/executor.rs: run_now, schedule", "examples/guide-project/src/events/mod.rs", "examples/web-simple-examples/src/counter.rs"]}
{"id": "C70", "title": "A loop that reads inputs and waits for their events has read what is in them now", "statement": "A component that loops over reading the value of an input and then waiting for an `input` event of it (`loop { use(input.value()); input.until_input().await }`) is up to date whenever the app is idle and the browser has no more listeners to call: the value it read last is the value the input has. This is for any number of inputs and loops, also if a loop reads several inputs and waits for an event of any of them (`race`), and whichever listeners are removed or added while the browser is calling listeners. It requires that the value does not change between the read and the first poll of the wait, and that the program itself does not set the value meanwhile; setting it fires no event and is not noticed.", "quantifier": "every app of nested join/race blocks and lists waiting for any number of cells, stores, streams and inputs; every sequence of edits, listener calls, reads, writes, polls and drops", "why_tests_cant": "An edit that is missed needs a particular order of edits, listener removals, wake-ups and polls in a particular nesting; the claim is about all of them.", "anchors": ["async_ui_web_html/src/event_handling.rs: EventFutureStream", "async_ui_web_html/src/common_events.rs: until_input", "async_ui_web_core/src/executor.rs: run_now", "examples/web-simple-examples/src/flight.rs: flight", "examples/web-simple-examples/src/timer.rs: timer"]}
{"id": "C71", "title": "Loops that compute and wait keep what they show up to date", "statement": "A component that loops over reading some cells and inputs, setting other cells and elements to a function of the values, and then waiting until one of those it read changes (`loop { out.set(f(a.value(), b.borrow())); race((a.until_input(), b.until_change())).await }`) keeps the outputs equal to that function of the current values whenever the app is idle, if nobody else sets the outputs and the inputs are changed by the user only. So in the flight booker, whenever the app is idle, the second date can be entered exactly if a return flight is chosen, the button is enabled exactly if the dates entered can be booked, and exactly the invalid texts are marked; in the timer the duration is what the slider says, the bar shows elapsed / total and the text the elapsed time.", "quantifier": "every app of nested join/race blocks and lists with any number of such loops and anything else in it; every sequence of edits, listener calls, reads, writes, polls and drops", "why_tests_cant": "A missed update needs a particular order of changes, wake-ups and polls of several components that trigger each other; tests see only a few orders.", "anchors": ["examples/web-simple-examples/src/flight.rs: flight", "examples/web-simple-examples/src/timer.rs: timer", "async_ui_internal_utils/src/reactive_cell/until_change.rs: until_change", "async_ui_web_html/src/common_events.rs: until_input"]}
{"id": "C72", "title": "The x-bow playground shows which boxes a change concerns", "statement": "The playground shows the data of a store as nested boxes, one for each path; a click on a box announces a change at its path, after which a box is to be red if the change is at its path or at one around it and green if the change is at its path or inside of it. Whenever the app is idle after a click, exactly the boxes of the clicked path and of the paths inside of it are red, and exactly the box of the clicked path and those around it are green; colors of earlier clicks are gone. After a click on Clear no box has a color. More generally, after any changes since the version was increased, a box is red exactly if a path at or around its own was changed and green exactly if a path at or inside its own was changed. The order in which the merged streams are polled does not matter.", "quantifier": "every app with such a box in it and anything else; every path, every set of changed paths (without collisions of the hashes involved), every order of wake-ups and polls", "why_tests_cant": "The result depends on three streams that become ready together and are polled in any order, on changes made while others are being handled, and on which paths were changed; tests see a few clicks in one order.", "anchors": ["examples/x-bow-playground/src/lib.rs: one_wrapper", "examples/x-bow-playground/src/lib.rs: display_root", "x-bow/src/path_ext.rs: until_change, until_bubbling_change, notify_changed", "async_ui_internal_utils/src/reactive_cell/until_change.rs: until_change"]}
{"id": "C73", "title": "The temperature converter converts what was typed last, and does not undo it", "statement": "The converter has two inputs and two loops; each loop waits for an input event of its own input, reads its text and, if it is a number, sets the text of the other input. If since an idle moment of the app the user has changed one of the inputs any number of times and has left the other alone, then when the app is idle again the changed input has exactly the text that the user typed last (the loops do not overwrite it: setting a text in the program fires no event), and if that text is a number the other input shows what the program computes from it. If none of the texts that were typed is a number, the other input still shows what it showed before. The same holds with the two inputs exchanged.", "quantifier": "every app with such a pair of loops and anything else in it; every sequence of changes of the one input; every parse and format function; every order of wake-ups and polls", "why_tests_cant": "Whether a change is missed depends on what happens between the event and the next await, and whether the two loops feed each other depends on all interleavings of their wake-ups; tests type a few texts slowly.", "anchors": ["examples/web-simple-examples/src/temp_converter.rs: converter", "async_ui_web_html/src/common_events.rs: until_input", "async_ui_web_html/src/event_handling.rs: EventFutureStream"]}
{"id": "C74", "title": "Wrappers of elements, events and input types are what they claim to be", "statement": "Every element wrapper creates an element that implements the web interface the wrapper gives access to, so that no method or property offered by the type is missing at run time; it accepts children exactly if HTML allows the element to have children; it is named after its tag or is one of a few documented exceptions. Every until_... method listens for the event it is named after, and the events it yields implement the interface of its result type. Every Input::new_... function creates an input of the type it is named after, and every input type of HTML has one.", "quantifier": "every wrapper, method and function in the crate (all rows of the tables), against the HTML and UI Events standards", "why_tests_cant": "The casts are unchecked, so a wrong type compiles and fails only when a missing method is called on such an element; tests would have to create every element and call every member.", "anchors": ["async_ui_web_html/src/common_components.rs: component_impl!", "async_ui_web_html/src/common_events.rs: make_event_impl!", "async_ui_web_html/src/input_types.rs: make_input_types!"]}
{"id": "C75", "title": "Counters count every click exactly once", "statement": "A component that shows a state, waits for the first of several events and computes the next state from it counts every event exactly once: whenever the app is idle, its state is what the events that were caused so far make of the initial state, one after the other, and what is shown on the page is that state - provided the app was idle between any two such events. For the counter with two buttons the number shown is the number of clicks on the first minus the number of clicks on the second. Everything else that happens to the page and in the app in the meantime makes no difference.", "quantifier": "every app that contains such a component, every execution, every sequence of events caused by the user with the app idle in between, anything else in between", "why_tests_cant": "The streams are dropped and made anew in every round; a lost or doubled event needs a particular interleaving of listeners being called, wakers, and other components, which a test does not produce.", "anchors": ["examples/web-simple-examples/src/counter.rs: counter", "async_ui_web_html/src/lib.rs: events (documentation)", "README.md: counter", "async_ui_web_html/src/events.rs: EventFutureStream"]}
{"id": "C76", "title": "The clocks show the time", "statement": "The digital clock always shows a time of the day that was right at most a millisecond plus the delay of the timer ago, it never shows a time that is still to come, and it shows every second. The arms of the analog clock point to the time of the last update, and the number n is where the hour arm points at n o'clock.", "quantifier": "every time of the day, every sequence of rounds of the loop, every delay of the timers, every instant in between", "why_tests_cant": "The time at which the loop runs relative to the end of a second cannot be controlled in a test; the failure needs a read in the last instant of a second.", "anchors": ["examples/web-simple-examples/src/clock.rs: next_second", "examples/web-simple-examples/src/clock.rs: digital", "examples/web-simple-examples/src/clock.rs: analog"]}
{"id": "C77", "title": "The login flow shows one stage at a time and nothing behind the login without the password", "statement": "The login example is a sequence of stages: a form, a wait, an error with a Retry button or (after the right credentials) a wait, four choices, a wait and the data of the choice. After any events (typing, clicks on what is on the page, time passing, runs of the executor) the page shows exactly one stage and nothing of an earlier one, and the app neither ends nor hangs. If the page shows anything that comes after the login, then the form contained the right user name and password when Login was clicked, at least 1500 ms before. With any other user name or password the error is shown, and Retry leads to an empty form. The data that is shown is that of the choice that was clicked. From every situation the user can get to the data. For every program written with async blocks, elements, texts, clicks, timers, join, race, meanwhile and pend_after, running the executor again before anything has happened changes nothing.", "quantifier": "every sequence of events of any length, every text typed, every delay of timers and of the executor; the last sentence: every program and every history", "why_tests_cant": "Login, refusal and retry can be repeated any number of times with any texts and with clicks and timers at any moment; tests follow a few paths.", "anchors": ["examples/login-flow/src/lib.rs: app", "examples/login-flow/src/lib.rs: connector", "examples/login-flow/src/lib.rs: show_login_form, login, fetch_list, show_list, get_data", "async_ui_web_core/src/combinators/extras/mod.rs: meanwhile, PendAfter", "async_ui_web_html/src/event_handling.rs: EventFutureStream::poll_next"]}
{"id": "C78", "title": "The programs of the guide show what the guide says, and the combinators leave what they wrap alone", "statement": "For every program f: f.meanwhile(text) waits for the same things as f, finishes at the same moment with the same result, shows what f shows and then the text until f finishes, and then nothing; f.pend_after() shows what f shows and never finishes; an async block next to a text in a join behaves as it does alone, and when it has finished the text stays; run_for_3_seconds(f) has finished at the first run of the executor after the time, whatever f does, unless f never returns from a poll, and then shows nothing. The countdown shows nothing before the executor has run, then the number of seconds, never a number smaller than the seconds that are left, and boom! not before all seconds have passed; if the executor runs after every second it shows n-k after k seconds and boom! after n; a number that is not positive gives boom! at once; it never finishes. The button that disappears shows the button, then the text, then nothing, each for at least three seconds. Every component made of elements, texts, NoChild and join shows exactly what is written, in the order of the source, from the first run of the executor on, and does not finish, whatever is clicked and however much time passes; so lots_of_span shows the button, the spans 1 to n in order and the input field.", "quantifier": "every program f, every sequence of events (typing, clicks, time, runs of the executor) of any length, every number of seconds, every component tree", "why_tests_cant": "The claims are about all programs and all component trees, and timers and the executor can be late by any amount at any moment; tests run a few programs with a few delays.", "anchors": ["examples/guide-project/src/dynamicity/js_api.rs: countdown", "examples/guide-project/src/dynamicity/dynamic_slot.rs: run_for_3_seconds, show_button_and_remove_2", "examples/guide-project/src/building_ui/components.rs: lots_of_span, hundred_spans", "examples/guide-project/src/building_ui/html.rs", "async_ui_web_core/src/combinators/extras/mod.rs: meanwhile, PendAfter"]}
{"id": "C79", "title": "The big list reuses its elements and never mixes them up", "statement": "In the big list example every item takes an element from a pool when it is first polled (or makes one), writes its index into it, and puts it back when it is dropped. After every history of scrolling, changes of the number of items and runs of tasks by the executor, in any order: the rows on the page show increasing indices of the window, each with the text of its own index; every element ever made is either in the pool or in use by exactly one item, so none is shown twice and none is lost; once the executor has worked through its queue the page shows exactly the indices of the window and all other elements are in the pool. If the executor runs tasks in the order in which they were woken, the number of elements ever made is at most the size of the largest window so far. The only panic is that of the virtualized list (from an empty window to one around its start).", "quantifier": "every history of updates with any measurements, every number of items, every order in which the executor runs tasks (the bound on the number: in order of waking)", "why_tests_cant": "Scrolling back and forth mixes removals, insertions and late drops in unboundedly many ways; an element used twice or lost shows only after particular interleavings.", "anchors": ["examples/big-list/src/app.rs: app", "async_ui_web/src/lists/virtualized_list.rs: VirtualizedList::update_visible", "async_ui_web/src/lists/dynamic_list.rs: DynamicList::insert, DynamicList::remove"]}
{"id": "C80", "title": "The timer counts every tick up to the duration, and shows what it counts", "statement": "In the timer example, whenever all loops are waiting, the meter shows the elapsed time divided by the duration on the slider and the text shows the elapsed time. Every tick of the interval adds 0.05 seconds if the elapsed time is below the duration and nothing otherwise, every press of the button sets it to 0, every move of the slider sets the duration: if events are handled one by one the elapsed time is exactly that, and if several come before the loops run it is that for the same events in some order, in which the moves of the slider keep theirs. So after n ticks without other events the timer is at min(n, ceil(20 d)) ticks, stays there, and goes on when the duration is made longer. At all times the elapsed time is a whole number of ticks and less than 0.05 seconds above the longest duration chosen. From every state the component comes to rest. The slider starts at 15.0 seconds and offers the durations from 0.01 to 30 seconds.", "quantifier": "every sequence of ticks, slider moves, clicks and polls of the five loops, in any order and any number", "why_tests_cant": "The five loops share two cells and are woken by three sources; which loop runs when, and how events are batched, cannot be enumerated.", "anchors": ["examples/web-simple-examples/src/timer.rs: timer", "async_ui_web_components/src (ReactiveCell): until_change, borrow_mut"]}
{"id": "C81", "title": "The list of Fibonacci numbers of the guide", "statement": "In the guide's list example (a ListModel of pairs to which one is pushed every second, shown by a ModeledList), after k seconds the page shows exactly the rows 1 to k+2 in order, row n with the n-th Fibonacci number; every second adds one row at the end and leaves the markers and the content of the other rows alone, with a single call on the list; and nothing panics.", "quantifier": "every number of seconds, every document in which the list is created, and anything that the rest of the program does between two seconds (rendering, rows showing their content, other code), as in C33", "why_tests_cant": "The numbers outgrow their type only after a minute and a half, and the log of the model is cut differently at every length.", "anchors": ["examples/guide-project/src/dynamicity/lists.rs: fibonacci", "async_ui_web/src/lists/modeled_list.rs: ListModel::push, ModeledList::update"]}
{"id": "C82", "title": "An event is handled before its listener returns", "statement": "When the browser delivers an event to a listener of an event stream (element.until_click() and so on) that some live block of an app is waiting for, the block is given the event before the listener returns to the browser, so that what it does then (prevent_default, focus, opening a window) still counts as part of the dispatch. The only exceptions are that the stream is dropped or no longer waited for, or that its block or task are gone, by the time of the return. Timers that are queued do not matter.", "quantifier": "every mounted app, every history of polls, wakes, spawns, cancellations, timers and other events, any number of streams, cells and stores, every moment at which the event is delivered", "why_tests_cant": "Whether the task runs inside the dispatch or just after it is visible only in what the browser does by default; it depends on who called whom at that moment.", "anchors": ["async_ui_web_core/src/executor.rs: run_now", "async_ui_web_html/src/event_handling.rs: EventFutureStream::poll_next"]}
{"id": "C83", "title": "A slot shows one component after the other", "statement": "An app that puts a component into a DynamicSlot and then, in a block joined with slot.render(), again and again waits for some time and calls set_future with another component or clear_future, shows nothing before the executor has run; after that it shows at every moment exactly one of the contents (nothing, if cleared), never two of them and never a part of one. They come in their order, none before the waits up to it have passed, and when the executor runs after the current wait the next one is on the page at the end of that run. A run of the executor before that creates nothing and changes nothing: the content is not started again. If the contents do something themselves (wait for clicks, start timers, finish), the slot still holds exactly one of them at every moment, they come in their order and not too early, and at the first run of the executor after a wait the page shows the next one, just started, and nothing of the one before, unless a content never returns from a poll. Consequently the guide's two versions of the button that disappears, one with DynamicSlot and one with race, show the same page at all times.", "quantifier": "every first content, every list of waits (positive) and contents, every sequence of clicks, time steps and runs of the executor of any length; what the page shows exactly: for contents made of elements, texts and join, with typing only if no content has an input", "why_tests_cant": "The number of contents, their shapes and the moments at which timers fire and the executor runs are unbounded; the equality of the two versions is about every history.", "anchors": ["async_ui_web/src/components/dynamic_slot.rs: render, set_future, clear_future", "examples/guide-project/src/dynamicity/dynamic_slot.rs: show_button_and_remove, show_button_and_remove_2"]}
{"id": "C84", "title": "The links of the guide open exactly when the guide says", "statement": "A link that is joined with a block which waits for its click and calls prevent_default: with a single until_click().await the first click of the user does not open the link and every later click does; if the code is in a loop, or uses the stream with for_each, no click ever opens it. prevent_default is called exactly once on each of those clicks, on this very event, and before the browser decides whether to open the link, also if other blocks have event streams on the same link or elsewhere and make, poll and drop them between clicks and during the dispatch of a click, and if the block is polled when nothing has happened. A listener that the loop adds during the dispatch of a click does not get the same click again. Without other event streams there is never more than one listener on the page. A click that a task of the app itself makes while it is polled (link.click()) does open the link, because prevent_default comes too late, but it changes nothing for the clicks of the user before and after it: in a loop and with the stream exactly the clicks of the app open the link.", "quantifier": "the three programs, every sequence of clicks, runs of the executor and operations on other event streams (any number, any options), before, between and during the dispatch of clicks; clicks by the user and by the app in any order", "why_tests_cant": "Whether prevent_default comes in time depends on the order of listeners, on what other tasks do during the dispatch, and on listeners that are added and removed while the browser goes through the list; tests see a few orders.", "anchors": ["examples/guide-project/src/events/mod.rs: return_type, prevent_default_with_stream", "guide/src/events/README.md", "async_ui_web_html/src/event_handling.rs: EventFutureStream::poll_next, Drop", "async_ui_web_core/src/executor.rs: run_now"]}
