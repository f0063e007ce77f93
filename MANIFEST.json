{
 "claims": [
  {
   "property": "C01",
   "status": "proved",
   "theorems": [
    "Verif.Dom.render_history_agrees",
    "Verif.Dom.dom_order_is_source_order",
    "Verif.Dom.render_keeps_others"
   ],
   "note": "All histories of renders, un-renders and foreign insertions/removals over any number of groups and containing nodes."
  },
  {
   "property": "C02",
   "status": "proved",
   "theorems": [
    "Verif.Dom.unrender_exact",
    "Verif.Dom.render_history_agrees"
   ],
   "note": "Indices below the largest u32 (see C44)."
  },
  {
   "property": "C03",
   "status": "partial",
   "theorems": [
    "Verif.Dom.cmp_lt_iff_sourceBefore",
    "Verif.Dom.cmp_eq_iff",
    "Verif.Dom.cmp_swap",
    "Verif.Dom.cmp_trans",
    "Verif.Dom.range_is_subtree_partial"
   ],
   "note": "Order laws for all positions. The interval statement excludes the last index u32::MAX, where it is false (C44)."
  },
  {
   "property": "C04",
   "status": "proved",
   "theorems": [
    "Verif.Dom.item_content_contiguous"
   ],
   "note": "Items with distinct end markers; foreign code does not insert into an item's run."
  },
  {
   "property": "C05",
   "status": "partial",
   "theorems": [
    "Verif.Drop.drop_unrenders_partial",
    "Verif.Drop.drop_unrenders_any_address_partial",
    "Verif.Drop.drop_item_unrenders",
    "Verif.Drop.drop_takes",
    "Verif.Drop.drop_unrenders_iff",
    "Verif.Drop.drop_elsewhere",
    "Verif.Drop.drop_same_address_panics"
   ],
   "note": "Proved for futures dropped at the place where they were polled. Refuted otherwise (drop_elsewhere; drop_unrenders_iff: exactly when it holds, drop_takes: what is removed in any case), and for blockers with coinciding addresses when lists are nested (drop_same_address_panics)."
  },
  {
   "property": "C06",
   "status": "partial",
   "theorems": [
    "Verif.Drop.drops_balanced_partial",
    "Verif.Drop.drops_end_unblocked",
    "Verif.Drop.drops_outermost_detach",
    "Verif.Drop.drops_unbalanced_same_address"
   ],
   "note": "Proved when an object and its parts have different blocker addresses; refuted for arbitrary addresses. End state and outermost answer hold for all addresses."
  },
  {
   "property": "C07",
   "status": "partial",
   "theorems": [
    "Verif.Drop.unmount_panics",
    "Verif.Drop.unmount_panics_iff",
    "Verif.Drop.unmount_removes_partial",
    "Verif.Drop.unmount_idle_partial"
   ],
   "note": "The no-panic half is false for every app with an element on display or an outer combinator, and for no other (unmount_panics_iff); the removal half is proved."
  },
  {
   "property": "C08",
   "status": "partial",
   "theorems": [
    "Verif.Drop.drop_unpolled_partial",
    "Verif.Drop.drop_unpolled_vacant_partial",
    "Verif.Drop.drop_unpolled_combinator",
    "Verif.Drop.drop_unpolled_iff"
   ],
   "note": "False for combinators dropped where something is on display; proved for everything else (drop_unpolled_iff: exactly then)."
  },
  {
   "property": "C09",
   "status": "proved",
   "theorems": [
    "Verif.Exec.wake_not_lost",
    "Verif.Exec.one_timer_per_quiet_period"
   ],
   "note": "For every trace of wakes, timer firings, mounts and poll returns."
  },
  {
   "property": "C10",
   "status": "proved",
   "theorems": [
    "Verif.Exec.never_reentrant",
    "Verif.Exec.no_panic",
    "Verif.Exec.nested_run_absorbed",
    "Verif.Exec.run_drains"
   ],
   "note": "For every trace."
  },
  {
   "property": "C11",
   "status": "partial",
   "theorems": [
    "Verif.Exec.install_after_timer",
    "Verif.Exec.install_before_timer_partial"
   ],
   "note": "False when the timer fires before the future is installed (install_after_timer); proved when it fires later."
  },
  {
   "property": "C12",
   "status": "proved",
   "theorems": [
    "Verif.Comb.wake_reaches_task",
    "Verif.Comb.woken_is_polled",
    "Verif.Comb.answered",
    "Verif.Comb.never_stuck"
   ],
   "note": "All three implementations, any behaviour, any number of subfutures, every interleaving of polls, wake-ups and returns."
  },
  {
   "property": "C13",
   "status": "partial",
   "theorems": [
    "Verif.Comb.once_per_poll",
    "Verif.Comb.poll_justified_partial",
    "Verif.Comb.first_poll_in_order",
    "Verif.Comb.spurious_poll"
   ],
   "note": "At most one poll per combinator poll and never after finishing: proved. 'Woken since it was last polled' is false (spurious_poll): a wake that arrives earlier in the same poll causes one more poll; poll_justified_partial proves 'woken since the previous poll began'."
  },
  {
   "property": "C14",
   "status": "proved",
   "theorems": [
    "Verif.Comb.join_output",
    "Verif.Comb.join_pending",
    "Verif.Comb.join_empty",
    "Verif.Comb.join_no_panic",
    "Verif.Comb.join_completes"
   ],
   "note": ""
  },
  {
   "property": "C15",
   "status": "proved",
   "theorems": [
    "Verif.Comb.race_first_wins",
    "Verif.Comb.race_ready_only",
    "Verif.Comb.race_no_panic"
   ],
   "note": ""
  },
  {
   "property": "C16",
   "status": "proved",
   "theorems": [
    "Verif.Comb.tryJoin_first_failure",
    "Verif.Comb.tryJoin_output",
    "Verif.Comb.tryJoin_pending",
    "Verif.Comb.tryJoin_no_panic",
    "Verif.Comb.raceOk_first_success",
    "Verif.Comb.raceOk_output",
    "Verif.Comb.raceOk_pending",
    "Verif.Comb.raceOk_no_panic",
    "Verif.Comb.tryJoin_completes",
    "Verif.Comb.raceOk_completes"
   ],
   "note": ""
  },
  {
   "property": "C17",
   "status": "partial",
   "theorems": [
    "Verif.Comb.repoll_panics_partial",
    "Verif.Comb.repoll_vec_ready_again",
    "Verif.Comb.repoll_vec_polls_finished",
    "Verif.Comb.repoll_race_polls_finished"
   ],
   "note": "Arrays and tuples that completed with all outputs panic; refuted for vectors and for combinators that returned early."
  },
  {
   "property": "C18",
   "status": "proved",
   "theorems": [
    "Verif.Comb.no_memory_error",
    "Verif.Comb.released_at_most_once",
    "Verif.Comb.released_exactly_once",
    "Verif.Comb.not_kept_is_returned"
   ],
   "note": "Panics of subfutures included."
  },
  {
   "property": "C19",
   "status": "proved",
   "theorems": [
    "Verif.Wakers.no_memory_error",
    "Verif.Wakers.allocated_iff_owned",
    "Verif.Wakers.all_freed",
    "Verif.Wakers.wake_marks_target",
    "Verif.Wakers.woken_counted"
   ],
   "note": "Any number of combinators, polled with each other's wakers. Memory stays allocated while a clone is stored in the memory of another combinator."
  },
  {
   "property": "C20",
   "status": "proved",
   "theorems": [
    "Verif.Comb.pendAfter_never_ready",
    "Verif.Comb.pendAfter_polls",
    "Verif.Comb.pendAfter_drops_inner_once",
    "Verif.Comb.meanwhile_completes_iff",
    "Verif.Comb.meanwhile_no_panic",
    "Verif.Comb.meanwhile_g_not_repolled",
    "Verif.Comb.meanwhile_not_stuck",
    "Verif.Comb.meanwhile_g_returns"
   ],
   "note": ""
  },
  {
   "property": "C21",
   "status": "proved",
   "theorems": [
    "Verif.Arena.arena_call_ok",
    "Verif.Arena.arena_iter",
    "Verif.Arena.arena_handles_distinct"
   ],
   "note": "The vector with its links and free list refines the book of ordered lists kept from calls and results."
  },
  {
   "property": "C22",
   "status": "proved",
   "theorems": [
    "Verif.Cell.change_wakes",
    "Verif.Cell.ready_iff_changed",
    "Verif.Cell.no_panic"
   ],
   "note": "On top of the modelled arena; any number of listeners and one for_each future."
  },
  {
   "property": "C23",
   "status": "partial",
   "theorems": [
    "Verif.Cell.fresh_listener_pending",
    "Verif.Cell.change_before_first_poll_is_lost",
    "Verif.XBow.fresh_listener_pending",
    "Verif.XBow.change_before_first_poll_is_lost",
    "Verif.Cell.polled_listener_covers_partial"
   ],
   "note": "The claim is false for ReactiveCell and for x-bow: the first poll is always pending. Proved for listeners polled before the change (for x-bow see C25)."
  },
  {
   "property": "C24",
   "status": "proved",
   "theorems": [
    "Verif.Cell.forEach_first",
    "Verif.Cell.forEach_next",
    "Verif.Cell.forEach_up_to_date",
    "Verif.Cell.forEach_woken"
   ],
   "note": "Interleaved with any other users of the cell."
  },
  {
   "property": "C25",
   "status": "proved",
   "theorems": [
    "Verif.XBow.change_wakes_below",
    "Verif.XBow.change_ready_below"
   ],
   "note": "On top of the modelled arena; arbitrary hash function, any number of listeners."
  },
  {
   "property": "C26",
   "status": "proved",
   "theorems": [
    "Verif.XBow.ready_iff_enclosing_changed"
   ],
   "note": "Collision freedom is assumed only between the listener's path and the paths changed."
  },
  {
   "property": "C27",
   "status": "proved",
   "theorems": [
    "Verif.XBow.change_wakes_above",
    "Verif.XBow.change_ready_above",
    "Verif.XBow.ready_iff_inside_changed"
   ],
   "note": ""
  },
  {
   "property": "C28",
   "status": "partial",
   "theorems": [
    "Verif.XBow.regular_keys_differ_partial",
    "Verif.XBow.root_not_ready_for_deep_change_partial",
    "Verif.XBow.regular_keys_wrap",
    "Verif.XBow.bubbling_ignores_depth",
    "Verif.XBow.regular_meets_bubbling"
   ],
   "note": "Proved for until_change keys of paths whose lengths differ modulo 256. Refuted otherwise: the depth is one byte, bubbling keys do not contain it and may equal regular keys."
  },
  {
   "property": "C29",
   "status": "proved",
   "theorems": [
    "Verif.XBow.all_released",
    "Verif.XBow.entries_are_needed",
    "Verif.XBow.no_panic"
   ],
   "note": "That dropping one listener does not disturb others is part of C25-C27, whose histories contain drops."
  },
  {
   "property": "C30",
   "status": "proved",
   "theorems": [
    "Verif.XBow.Data.set_iff_get",
    "Verif.XBow.Data.get_set",
    "Verif.XBow.Data.set_get",
    "Verif.XBow.Data.set_set",
    "Verif.XBow.Data.get_set_disjoint",
    "Verif.XBow.Data.get_set_below",
    "Verif.XBow.Data.get_set_enclosing",
    "Verif.XBow.Data.get_typed",
    "Verif.XBow.Data.set_typed",
    "Verif.XBow.Data.guaranteed_ok"
   ],
   "note": ""
  },
  {
   "property": "C31",
   "status": "proved",
   "theorems": [
    "Verif.XBow.forEach_first",
    "Verif.XBow.forEach_next",
    "Verif.XBow.forEach_up_to_date",
    "Verif.XBow.forEach_woken",
    "Verif.XBow.signal_first",
    "Verif.XBow.signal_next",
    "Verif.XBow.signal_up_to_date",
    "Verif.XBow.forEachAsync_up_to_date",
    "Verif.XBow.forEachAsync_replaces",
    "Verif.XBow.forEachAsync_missing",
    "Verif.XBow.announced_of_write",
    "Verif.XBow.announced_of_sub"
   ],
   "note": "For data that is only changed through the followed path and enclosing or disjoint paths; changes made through longer paths are by design not reported (C26)."
  },
  {
   "property": "C32",
   "status": "partial",
   "theorems": [
    "Verif.XBow.bind_in_sync",
    "Verif.XBow.bind_incoming",
    "Verif.XBow.bind_next",
    "Verif.XBow.bind_first_partial",
    "Verif.XBow.bind_first_call_skipped",
    "Verif.XBow.bind_ends"
   ],
   "note": "Both sides agree after every poll, incoming values are written and not echoed: proved. 'Called once at the start' is false if a value comes in before the first poll (bind_first_call_skipped), and values that come in together with the end of the stream are not written (bind_ends)."
  },
  {
   "property": "C33",
   "status": "partial",
   "theorems": [
    "Verif.Lists.dynamicList_in_order_partial",
    "Verif.Lists.shows_exact",
    "Verif.Lists.shows_sublist",
    "Verif.Lists.removed_item_unmarked",
    "Verif.Lists.second_render_panics",
    "Verif.Lists.swap_directly_before",
    "Verif.Lists.swap_directly_before_breaks",
    "Verif.Lists.move_before_itself",
    "Verif.Lists.move_before_itself_breaks",
    "Verif.Lists.missing_key_panics"
   ],
   "note": "Proved for every history without swap(a, b) where a is directly before b, without move_before(k, Some(k)) and without a missing before key; in these three cases, after any history, the document is proved to be wrong or the call to panic. Rendering a list that has been rendered panics."
  },
  {
   "property": "C34",
   "status": "partial",
   "theorems": [
    "Verif.Lists.list_keeps_place_partial",
    "Verif.Lists.earlier_sibling_misplaced",
    "Verif.Lists.second_render_ctx_panics"
   ],
   "note": "False as stated: a sibling in front of the list that is rendered later, while nothing displayed lies between, always ends up behind the list (earlier_sibling_misplaced). Proved for all other histories."
  },
  {
   "property": "C35",
   "status": "partial",
   "theorems": [
    "Verif.Lists.diffed_items",
    "Verif.Lists.diffed_in_order_partial",
    "Verif.Lists.diffed_update_iff",
    "Verif.Lists.smooth_of_same_order",
    "Verif.Lists.diffed_wrong_order",
    "Verif.Lists.diffed_documented_example"
   ],
   "note": "False as stated: [1,2,3] then [2,1,3] shows 3,2,1 (diffed_wrong_order). The items are always exactly the requested ones and kept items keep their state (diffed_items). The order is right if and only if the update is Smooth (diffed_update_iff, diffed_in_order_partial), which holds whenever the keys that stay keep their relative order (smooth_of_same_order)."
  },
  {
   "property": "C36",
   "status": "partial",
   "theorems": [
    "Verif.Lists.modeled_mirrors_partial",
    "Verif.Lists.modeled_keeps_items_partial",
    "Verif.Lists.modeled_swap_neighbours"
   ],
   "note": "False as stated: after swap(i, i+1) on the shown model the next update corrupts the list (modeled_swap_neighbours). Proved for every history in which no update follows such a swap on the log path. Keys are distinct, as documented."
  },
  {
   "property": "C37",
   "status": "partial",
   "theorems": [
    "Verif.Lists.virtual_window_partial",
    "Verif.Lists.virtual_in_bounds_partial",
    "Verif.Lists.virtual_keeps_items_partial",
    "Verif.Lists.virtual_restart_panics",
    "Verif.Lists.virtual_stale",
    "Verif.Lists.virtual_shrink_grow_panics"
   ],
   "note": "False as stated: after shrinking, items beyond the end may stay (virtual_stale); an update from an empty window to one around its start panics (virtual_restart_panics), which shrinking and growing a scrolled list brings about (virtual_shrink_grow_panics). Proved for all measurements and all other histories."
  },
  {
   "property": "C38",
   "status": "proved",
   "theorems": [
    "Verif.Slot.slot_polls",
    "Verif.Slot.slot_only_polls",
    "Verif.Slot.slot_drops",
    "Verif.Slot.slot_replaced",
    "Verif.Slot.slot_wakes",
    "Verif.Slot.slot_total",
    "Verif.Slot.slot_touchy",
    "Verif.Slot.slot_repolls"
   ],
   "note": "All histories of set, clear, poll and stopping to render. Also shown: a destructor that uses the slot panics (slot_touchy) and a completed future is polled again (slot_repolls)."
  },
  {
   "property": "C39",
   "status": "partial",
   "theorems": [
    "Verif.Dropdown.dropdown_shows",
    "Verif.Dropdown.dropdown_order_partial",
    "Verif.Dropdown.dropdown_order_iff",
    "Verif.Dropdown.dropdown_value",
    "Verif.Dropdown.dropdown_value_partial",
    "Verif.Dropdown.dropdown_value_set",
    "Verif.Dropdown.dropdown_deselect_fails",
    "Verif.Dropdown.dropdown_reselects",
    "Verif.Dropdown.dropdown_removed_value",
    "Verif.Dropdown.dropdown_wrong_choice",
    "Verif.Dropdown.dropdown_blank",
    "Verif.Dropdown.dropdown_repeated"
   ],
   "note": "False as stated. Order: right exactly for smooth updates (dropdown_order_iff); otherwise options are permuted and the user's choice is misread (dropdown_wrong_choice). Value: exact formula in dropdown_value; as claimed if nothing is ever deselected (dropdown_value_partial); set_value(None) and removal of the selected option leave the old value (dropdown_deselect_fails, dropdown_removed_value)."
  },
  {
   "property": "C40",
   "status": "proved",
   "theorems": [
    "Verif.Events.stream_poll",
    "Verif.Events.stream_wakes",
    "Verif.Events.stream_listens",
    "Verif.Events.stream_order"
   ],
   "note": "Any number of streams, any interleaving of polls, events and drops."
  },
  {
   "property": "C41",
   "status": "partial",
   "theorems": [
    "Verif.Events.stream_drop_partial",
    "Verif.Events.stream_drop_iff",
    "Verif.Events.stream_leak",
    "Verif.Events.stream_throws_iff"
   ],
   "note": "False with set_capture(true): the listener stays and throws when called (stream_leak). Proved exactly for streams without the capture option at their first poll (stream_drop_iff)."
  },
  {
   "property": "C42",
   "status": "proved",
   "theorems": [
    "Verif.Lists.listModel_contents",
    "Verif.Lists.listModel_edits_iff",
    "Verif.Lists.listModel_log",
    "Verif.Lists.listModel_version",
    "Verif.Lists.listModel_log_bounded"
   ],
   "note": "The contents and the panics for any keys, the rest for distinct keys, as documented; u64 overflow of the version is ignored."
  },
  {
   "property": "C43",
   "status": "partial",
   "theorems": [
    "Verif.Css.css_shipped_iff",
    "Verif.Css.css_pieces",
    "Verif.Css.css_partial",
    "Verif.Css.css_classes_match",
    "Verif.Css.css_postfix",
    "Verif.Css.css_shipped_partial",
    "Verif.Css.css_nested",
    "Verif.Css.css_other_group",
    "Verif.Css.css_comment",
    "Verif.Css.css_escape",
    "Verif.Css.css_clash",
    "Verif.Css.css_backslash"
   ],
   "note": "Proved for all token sequences of supported sheets (css_partial) and, for the JavaScript literal, for exactly the sheets without backtick, backslash, carriage return and ${: these and no others reach the browser as emitted (css_shipped_iff, css_shipped_partial). False otherwise: nested rules (css_nested), other at-rules (css_other_group), comments before the class (css_comment), escapes (css_escape), classes that differ in - and _ only (css_clash), backslashes in the sheet (css_backslash)."
  },
  {
   "property": "C44",
   "status": "partial",
   "theorems": [
    "Verif.Dom.nextSibling_overflow",
    "Verif.Dom.nextSibling_overflow_all",
    "Verif.Dom.range_is_subtree_partial"
   ],
   "note": "The claim is false for index u32::MAX: negation proved; range_is_subtree_partial covers every other index."
  },
  {
   "property": "C45",
   "status": "partial",
   "theorems": [
    "Verif.Dom.second_render_panics",
    "Verif.Dom.second_render_release",
    "Verif.Dom.second_render_leaks"
   ],
   "note": "Proved for debug builds. False in release builds: the first node is displayed after the second and is never removed by any later un-render (second_render_release, second_render_leaks)."
  },
  {
   "property": "C46",
   "status": "proved",
   "theorems": [
    "Verif.Tree.document_is_component_tree"
   ],
   "note": "One component per async block at a time, created when it is first awaited; combinators have fewer than 2^32-1 subfutures (C44). For list items see C64."
  },
  {
   "property": "C47",
   "status": "proved",
   "theorems": [
    "Verif.XBow.Data.bytes_prefix_iff",
    "Verif.XBow.Data.bytes_inj",
    "Verif.XBow.Data.typed_ready_iff",
    "Verif.XBow.Data.typed_bubbling_ready_iff",
    "Verif.XBow.Data.number_keys",
    "Verif.XBow.Data.string_keys",
    "Verif.XBow.Data.unit_key_same_bytes",
    "Verif.XBow.Data.unit_key_false_ready"
   ],
   "note": "The proviso on keys is necessary: for keys that write nothing, such as (), a bubbling listener on an entry is ready after a change of the whole map (unit_key_false_ready)."
  },
  {
   "property": "C48",
   "status": "proved",
   "theorems": [
    "Verif.Nested.nested_wake_reaches_task",
    "Verif.Nested.nested_poll_reaches_part",
    "Verif.Nested.nested_wake_is_served"
   ],
   "note": "Executions in which user code panics are not considered; a subfuture that is itself a combinator is a block that only awaits it. The executor of a list (crate async_executor) is modelled as stated in Nested/Model."
  },
  {
   "property": "C49",
   "status": "proved",
   "theorems": [
    "Verif.App.app_idle_nothing_waits",
    "Verif.App.app_no_executor_panic"
   ],
   "note": "The task queue of the crate async_executor is modelled from its documented behaviour, as stated in App/Model."
  },
  {
   "property": "C50",
   "status": "partial",
   "theorems": [
    "Verif.App.spawned_without_mount_never_polled",
    "Verif.App.spawned_polled_partial"
   ],
   "note": "False in general: before the first mount nothing schedules the root future, so spawned tasks are never polled (spawned_without_mount_never_polled). Proved for apps that have been mounted."
  },
  {
   "property": "C51",
   "status": "proved",
   "theorems": [
    "Verif.Live.idle_cell_forEach",
    "Verif.Live.idle_cell_listener"
   ],
   "note": "An async block is assumed to poll what it awaits before it returns Pending (Live/Model)."
  },
  {
   "property": "C52",
   "status": "proved",
   "theorems": [
    "Verif.Live.idle_event_yielded"
   ],
   "note": "An async block is assumed to poll what it awaits before it returns Pending (Live/Model). The stream keeps only the last event: C40."
  },
  {
   "property": "C53",
   "status": "proved",
   "theorems": [
    "Verif.Live.idle_store_forEach",
    "Verif.Live.idle_store_signal"
   ],
   "note": "An async block is assumed to poll what it awaits before it returns Pending (Live/Model). Changes through sibling hash collisions and without notification are covered by the hypothesis on announced changes."
  },
  {
   "property": "C54",
   "status": "proved",
   "theorems": [
    "Verif.Comb.select_first_wins",
    "Verif.Comb.select_arm_only",
    "Verif.Comb.select_drops",
    "Verif.Comb.select_polls",
    "Verif.Comb.select_in_order",
    "Verif.Comb.select_pending",
    "Verif.Comb.select_wakes",
    "Verif.Comb.select_no_panic"
   ],
   "note": "What the chosen expression does is not modelled."
  },
  {
   "property": "C55",
   "status": "proved",
   "theorems": [
    "Verif.Classes.class_call_panics_iff",
    "Verif.Classes.class_call",
    "Verif.Classes.class_attribute",
    "Verif.Classes.class_last_call_wins",
    "Verif.Classes.css_constant_usable",
    "Verif.Classes.css_class_applies"
   ],
   "note": "The browser's DOMTokenList is modelled after the DOM standard. Identifiers of Rust are assumed not to be empty or contain whitespace."
  },
  {
   "property": "C56",
   "status": "partial",
   "theorems": [
    "Verif.Lists.listItems_shown_partial",
    "Verif.Lists.shownIn_exact",
    "Verif.Lists.removed_item_panics"
   ],
   "note": "Proved for every history in which no item displays something after its removal (it panics if what it displays comes last in the item, removed_item_panics) and without the calls that C33 leaves out."
  },
  {
   "property": "C57",
   "status": "partial",
   "theorems": [
    "Verif.Lists.virtual_noGap",
    "Verif.Lists.virtual_placed",
    "Verif.Lists.virtual_few",
    "Verif.Lists.virtual_in_view_partial",
    "Verif.Lists.virtual_length_partial",
    "Verif.Lists.virtual_in_view_shown_partial",
    "Verif.Lists.virtual_second",
    "Verif.Lists.virtual_first_gap",
    "Verif.Lists.virtual_past_end",
    "Verif.Lists.virtual_setNum_length"
   ],
   "note": "Exact arithmetic instead of f64. False as stated: a jump past the end of the list makes it longer than its items (virtual_past_end), set_num_items does not adapt the length (virtual_setNum_length), and the first update may leave a spacer in sight (virtual_first_gap), which the second one mends (virtual_second). Places and length are proved while the list stays within two roots of the visible part, the absence of blanks for every update of a window that is not empty."
  },
  {
   "property": "C58",
   "status": "partial",
   "theorems": [
    "Verif.Lists.lists_nested_partial",
    "Verif.Lists.nested_call",
    "Verif.Lists.nested_moved_panics",
    "Verif.Lists.nested_outer_dropped",
    "Verif.Lists.nested_outer_elsewhere",
    "Verif.Lists.renderCtx_item"
   ],
   "note": "Proved for calls as in C33 on lists that are children of the node in which they were rendered. False as stated otherwise: an inner list remembers the node in which it was rendered, so after the outer list is un-rendered or rendered in another node every call that changes the inner list panics (nested_moved_panics, nested_outer_dropped, nested_outer_elsewhere)."
  },
  {
   "property": "C59",
   "status": "proved",
   "theorems": [
    "Verif.Lists.dynamic_work",
    "Verif.Lists.dynamic_work_any",
    "Verif.Lists.diffed_update_work",
    "Verif.Lists.modeled_update_work",
    "Verif.Lists.modeled_modified_work",
    "Verif.Lists.modeled_other_work",
    "Verif.Lists.stepW_same"
   ],
   "note": "Bounds for moves and updates are in terms of the number of nodes per item, and for the histories of C33 and C36. Growing hash maps and vectors is not counted."
  },
  {
   "property": "C60",
   "status": "partial",
   "theorems": [
    "Verif.Circles.circles_undo_redo_partial",
    "Verif.Circles.circles_menu_panics",
    "Verif.Circles.circles_menu_after_undo",
    "Verif.Circles.circles_nearest"
   ],
   "note": "Proved for everything but a right click while the last circle under the mouse does not exist any more. False as stated in that case: the program then panics (circles_menu_panics: exactly then; circles_menu_after_undo: draw, undo, right click). Arithmetic is exact."
  },
  {
   "property": "C61",
   "status": "partial",
   "theorems": [
    "Verif.Cells.cells_idle_partial",
    "Verif.Cells.cells_values",
    "Verif.Cells.cells_settle",
    "Verif.Cells.cells_typed",
    "Verif.Cells.cells_circle_restless",
    "Verif.Cells.cells_range",
    "Verif.Cells.cells_sum_text",
    "Verif.Cells.cells_panics",
    "Verif.Cells.cells_self_wrong",
    "Verif.Cells.cells_alias",
    "Verif.Cells.demo_circle"
   ],
   "note": "Proved for formulas without their own cell. False as stated otherwise: a formula with its own cell is computed wrong (cells_self_wrong), a reversed or too long range panics (cells_panics: exactly then). Cells in a circle never come to rest (cells_circle_restless)."
  },
  {
   "property": "C62",
   "status": "partial",
   "theorems": [
    "Verif.Drag.drag_reports_partial",
    "Verif.Drag.drag_room",
    "Verif.Drag.drag_no_gap",
    "Verif.Drag.drag_sound",
    "Verif.Drag.drag_paddings",
    "Verif.Drag.drag_plays",
    "Verif.Drag.drag_self_stale",
    "Verif.Drag.drag_ghost",
    "Verif.Drag.drag_batch_lost"
   ],
   "note": "Proved, the side only for drags in which the pointer was over another item; it is wrong when an item is dropped on itself (drag_self_stale). The reports need events that are handled one by one, as they are (drag_batch_lost), and items that are not removed while dragged (drag_ghost). Lengths are integers."
  },
  {
   "property": "C63",
   "status": "proved",
   "theorems": [
    "Verif.Todo.todo_screen",
    "Verif.Todo.todo_settles",
    "Verif.Todo.todo_plays",
    "Verif.Todo.todo_double_click"
   ],
   "note": "Proved for actions that are handled one after the other, as they are unless one is fired while the program runs; todo_double_click shows that this is needed. The text of the number of items left is its number."
  },
  {
   "property": "C64",
   "status": "partial",
   "theorems": [
    "Verif.Whole.whole_app_partial",
    "Verif.Whole.whole_items"
   ],
   "note": "Missing: a list that an item renders itself, not in an element of the item; the place of a list among its siblings (C34); a blocker of an item at the address of one of its parts (C06); calls that C33 leaves out."
  },
  {
   "property": "C65",
   "status": "proved",
   "theorems": [
    "Verif.Nested.list_item_waits",
    "Verif.Nested.list_item_is_served",
    "Verif.Nested.list_polls_only_woken",
    "Verif.Nested.list_removed_not_polled"
   ],
   "note": "The executor of a list (crate async_executor) is not part of the repository; what is assumed about it is stated in Nested/Model. When a render future is dropped the order of the queue is assumed to stay as it is."
  },
  {
   "property": "C66",
   "status": "partial",
   "theorems": [
    "Verif.Crud.crud_shows_partial",
    "Verif.Crud.crud_panics_iff",
    "Verif.Crud.crud_filter_partial",
    "Verif.Crud.crud_delete_twice",
    "Verif.Crud.crud_filter_stale",
    "Verif.Crud.crud_deletes_hidden"
   ],
   "note": "Proved: what the list shows, until the program panics. False as stated in three places: the buttons stay enabled after a deletion although nothing is selected, and pressing one of them panics (crud_panics_iff: exactly then; crud_delete_twice); the filter is not applied to new and renamed persons (crud_filter_partial: until then it is right; crud_filter_stale). A selected person that the filter hides is updated and deleted all the same (crud_deletes_hidden)."
  },
  {
   "property": "C67",
   "status": "proved",
   "theorems": [
    "Verif.Live.idle_app",
    "Verif.Live.early_change_is_not_seen"
   ],
   "note": "An async block is assumed to poll what it awaits before it returns Pending (Live/Model). early_change_is_not_seen: why nothing may be written between the read and the first poll (C23)."
  },
  {
   "property": "C68",
   "status": "partial",
   "theorems": [
    "Verif.XBow.Derive.every_tracked_field_has_an_accessor",
    "Verif.XBow.Derive.every_accessor_has_a_field",
    "Verif.XBow.Derive.accessors_are_numbered",
    "Verif.XBow.Derive.accessor_target",
    "Verif.XBow.Derive.numbers_agree",
    "Verif.XBow.Derive.derive_fails_iff",
    "Verif.XBow.Derive.struct_names_differ",
    "Verif.XBow.Derive.enum_names_differ_iff",
    "Verif.XBow.Derive.enum_names_differ_partial",
    "Verif.XBow.Derive.module_types_differ_partial",
    "Verif.XBow.Derive.path_method_hidden_iff",
    "Verif.XBow.Derive.enum_hides_no_method",
    "Verif.XBow.Derive.variant_attributes_are_ignored",
    "Verif.XBow.Derive.enum_names_can_clash",
    "Verif.XBow.Derive.types_can_clash",
    "Verif.XBow.Derive.path_methods_can_be_hidden",
    "Verif.XBow.Derive.skip_can_be_overlooked"
   ],
   "note": "Proved except for names: enum accessors can clash (enum_names_differ_iff: exactly when; enum_names_can_clash), generated types of two items can clash (types_can_clash; not if names have no underscore: module_types_differ_partial), a field hides the path method of the same name (path_method_hidden_iff, path_methods_can_be_hidden). Attributes track that are not understood as one word, second ones and those on variants are ignored without an error (skip_can_be_overlooked). Generics and remote types of another shape are not modelled."
  },
  {
   "property": "C69",
   "status": "proved",
   "theorems": [
    "Verif.Live.event_is_yielded",
    "Verif.Live.every_event_is_yielded",
    "Verif.Live.first_of_two_events_is_lost"
   ],
   "note": "An async block is assumed to poll what it awaits before it returns Pending (Live/Model). first_of_two_events_is_lost: a stream keeps only the latest event, so the browser has to be idle at each delivery."
  },
  {
   "property": "C70",
   "status": "proved",
   "theorems": [
    "Verif.Live.idle_form",
    "Verif.Live.told_read_current",
    "Verif.Live.set_is_not_seen"
   ],
   "note": "The page is modelled from the DOM standard: an edit changes the value and then calls the listeners that the element has for the event, except those removed meanwhile. Listeners at ancestors and stopImmediatePropagation are left out. set_is_not_seen: the restriction on program writes is needed."
  },
  {
   "property": "C71",
   "status": "proved",
   "theorems": [
    "Verif.Live.idle_loop",
    "Verif.Apps.flight_idle",
    "Verif.Apps.same_day",
    "Verif.Apps.timer_idle"
   ],
   "note": "Loop.Runs says what it means that a component is such a loop, in terms of the operations it does; the theorems hold for every app with such loops in it. The flight booker and the timer are instances; parsing of dates, division and formatting are parameters."
  },
  {
   "property": "C72",
   "status": "proved",
   "theorems": [
    "Verif.Apps.playground",
    "Verif.Apps.playground_click",
    "Verif.Apps.playground_clear"
   ],
   "note": "Box.Runs says what the code of a box does and what the rest of the app may do; the store, the cell and the page are those of C51-C53, C67 and C70. Paths whose hashes collide (C26, C27) are excluded."
  },
  {
   "property": "C73",
   "status": "proved",
   "theorems": [
    "Verif.Apps.converts",
    "Verif.Apps.converter_celsius",
    "Verif.Apps.converter_fahrenheit"
   ],
   "note": "Reaction.Runs says what the code of a loop does; everything else in the app is arbitrary, except that nobody else sets the two inputs. What is computed from a text (parse, arithmetic, round, to_string) is an arbitrary partial function. Changes of both inputs between two idle moments are not covered."
  },
  {
   "property": "C74",
   "status": "partial",
   "theorems": [
    "Verif.Html.element_typed_iff",
    "Verif.Html.bold_and_italic",
    "Verif.Html.children_iff",
    "Verif.Html.childless_void",
    "Verif.Html.element_named",
    "Verif.Html.event_typed",
    "Verif.Html.element_has_methods",
    "Verif.Html.input_typed",
    "Verif.Html.datetime_is_text"
   ],
   "note": "False as stated in five rows of the tables: Bold is typed as a line break, Italic as an image, Img and Col take children although their elements are void, new_datetime creates a text field (and datetime-local has no function). Proved for exactly all other rows. The theorems are over the complete tables, decided row by row; the parts of the standards are transcribed in Html/Spec."
  },
  {
   "property": "C75",
   "status": "proved",
   "theorems": [
    "Verif.Apps.counter_counts",
    "Verif.Apps.counter_one",
    "Verif.Apps.fold_events",
    "Verif.Apps.counter_loses_click"
   ],
   "note": "Fold.Runs says what the code of the component does; everything else in the app is arbitrary, except that nobody else sets what it shows. The number is an integer, not an i32. counter_loses_click: without the app being idle between two clicks the claim is false, one of two clicks is lost."
  },
  {
   "property": "C76",
   "status": "partial",
   "theorems": [
    "Verif.Apps.Clock.digital_partial",
    "Verif.Apps.Clock.digital_within",
    "Verif.Apps.Clock.digital_every_second",
    "Verif.Apps.Clock.digital_straddles",
    "Verif.Apps.Clock.analog_arms",
    "Verif.Apps.Clock.analog_once",
    "Verif.Apps.Clock.analog_numbers",
    "Verif.Apps.Clock.analog_within"
   ],
   "note": "Proved, the digital clock only if the two calls of now() in a round fall into the same second. False as stated otherwise: the clock then shows the last second during the whole of the next one (digital_straddles). Real numbers instead of f32; the clock of the computer is not adjusted."
  },
  {
   "property": "C77",
   "status": "proved",
   "theorems": [
    "Verif.Flow.poll_idle",
    "Verif.Flow.Login.login_page",
    "Verif.Flow.Login.login_needs_password",
    "Verif.Flow.Login.login_shows_choice",
    "Verif.Flow.Login.login_refuses",
    "Verif.Flow.Login.login_admits",
    "Verif.Flow.Login.login_no_dead_end"
   ],
   "note": "The program is a term of a small language for async UI code (Flow/Lang); the specification is a machine of stages with the page of each."
  },
  {
   "property": "C78",
   "status": "proved",
   "theorems": [
    "Verif.Flow.meanwhile_text",
    "Verif.Flow.pendAfter_page",
    "Verif.Flow.join_text",
    "Verif.Flow.runFor_ends",
    "Verif.Flow.Guide.countdown_page",
    "Verif.Flow.Guide.countdown_not_early",
    "Verif.Flow.Guide.countdown_on_time",
    "Verif.Flow.Guide.showAndRemove_page",
    "Verif.Flow.Guide.showAndRemove_stays",
    "Verif.Flow.Guide.component_page",
    "Verif.Flow.Guide.lotsOfSpan_page"
   ],
   "note": "Programs of the guide as terms of the language of C77. The first group is for every program. The DynamicSlot version of the disappearing button is C83, the Fibonacci list is C81, the links of the events chapter are C84."
  },
  {
   "property": "C79",
   "status": "proved",
   "theorems": [
    "Verif.Apps.BigList.bigList_page",
    "Verif.Apps.BigList.bigList_elements",
    "Verif.Apps.BigList.bigList_settles",
    "Verif.Apps.BigList.bigList_few",
    "Verif.Apps.BigList.bigList_order_matters",
    "Verif.Apps.BigList.bigList_panics_iff"
   ],
   "note": "On top of the calls of C37 and the order of C33, with explicit tasks. The bound on the number of elements assumes that async-executor runs tasks in the order of waking; bigList_order_matters: false without that."
  },
  {
   "property": "C80",
   "status": "partial",
   "theorems": [
    "Verif.Apps.Timer.timer_idle",
    "Verif.Apps.Timer.timer_events",
    "Verif.Apps.Timer.timer_exact",
    "Verif.Apps.Timer.timer_runs",
    "Verif.Apps.Timer.timer_bounds",
    "Verif.Apps.Timer.timer_settles",
    "Verif.Apps.Timer.timer_order_matters",
    "Verif.Apps.Timer.slider_values",
    "Verif.Apps.Timer.slider_start"
   ],
   "note": "Proved, with exact numbers instead of f64, except for the last sentence, which is false: the slider has no step, so by the HTML standard its step is 1 and it offers 0.01, 1.01, ..., 29.01 and starts at 15.01 (slider_values, slider_start). timer_order_matters: events that come together may count in either order."
  },
  {
   "property": "C81",
   "status": "partial",
   "theorems": [
    "Verif.Apps.Fibonacci.fibonacci_rows_partial",
    "Verif.Apps.Fibonacci.fibonacci_fits",
    "Verif.Apps.Fibonacci.fibonacci_overflows",
    "Verif.Apps.Fibonacci.push_calls"
   ],
   "note": "Proved for the first 91 seconds, and modulo 2^64 for ever in builds without debug assertions. False after that: fib 94 does not fit into u64, so the program panics or shows a wrong number (fibonacci_overflows)."
  },
  {
   "property": "C82",
   "status": "partial",
   "theorems": [
    "Verif.Live.event_is_handled_in_time_partial",
    "Verif.Live.returns_idle",
    "Verif.Live.returns_not_woken",
    "Verif.Live.nested_run_now",
    "Verif.Live.nested_event_is_late"
   ],
   "note": "Proved for events delivered while no run_now is running, which are all those that the browser dispatches by itself. False for events that a task dispatches while it is being polled (element.click(), focus(), dispatchEvent): the inner run_now returns at once, and the block gets the event only after the dispatch is over (nested_event_is_late)."
  },
  {
   "property": "C83",
   "status": "proved",
   "theorems": [
    "Verif.Flow.Guide.slot_page",
    "Verif.Flow.Guide.slot_in_time",
    "Verif.Flow.Guide.slot_any_in_time",
    "Verif.Flow.Guide.slot_not_restarted",
    "Verif.Flow.Guide.slot_same_as_race"
   ],
   "note": "The contents of slot_any_in_time are arbitrary programs of the language of C77; those of slot_page, slot_in_time and slot_not_restarted are components without behaviour (elements, texts, join), for which the whole page is given. The waits are positive: the timers of this model fire when time passes. A content that has finished is not polled again (C38 says what happens if it is)."
  },
  {
   "property": "C84",
   "status": "proved",
   "theorems": [
    "Verif.Apps.Link.link_clicks",
    "Verif.Apps.Link.never_opens",
    "Verif.Apps.Link.opens_after_first",
    "Verif.Apps.Link.run_clicks",
    "Verif.Apps.Link.one_listener",
    "Verif.Apps.Link.mixed_clicks",
    "Verif.Apps.Link.opens_iff_by_app",
    "Verif.Apps.Link.nested_always_opens",
    "Verif.Apps.Link.nested_opens"
   ],
   "note": "The first ones for clicks of the user; mixed_clicks and opens_iff_by_app for clicks of the user and of the app in any order. nested_always_opens, nested_opens: a click that a task of the app makes itself (link.click()) while it is polled opens the link although prevent_default is called, because run_now returns at once (see C82)."
  }
 ]
}
