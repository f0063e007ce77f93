# A formal model of async_ui

The subject is the Rust repository in `/repo` (wishawa/async_ui at a pinned
commit).  The code is read as text only; it is neither built nor run here.

## Layout

* `properties.jsonl` – the claims, in terms of the API and its observable effects.
* `lean/Verif/<Area>/Model.lean` – executable model of the code, one definition per
  function, each with the file and lines it models and with its simplifications.
* `lean/Verif/<Area>/Spec.lean` (where a claim needs vocabulary of its own) – the small
  independent specification.
* `lean/Verif/<Area>/Lemmas.lean` – helper lemmas.
* `lean/Verif/<Area>/Props.lean` – the property theorems, each with an `example` that a
  concrete, non-trivial case meets its hypotheses.
* `MANIFEST.json` – claim → theorem names and status.
* `seeded/LOG.jsonl` – mutation log.

## Trusted base

* Lean 4.33.0's kernel.  No axioms are added.  Property theorems depend on at most
  `propext`, `Classical.choice` and `Quot.sound` (list at the end, from `#print axioms`).
  No `sorry`, `admit`, `native_decide`, `bv_decide`, `implemented_by` or `unsafe`.
* The reading of the Rust source: every model definition cites the lines it stands for.
* External contracts, modelled from their documentation and not verified:
  * the DOM: `insertBefore` (moves a node that is already attached, throws if the reference
    is not a child of the container), `removeChild` (throws if not a child),
    `addEventListener`/`removeEventListener` (match on type, callback and capture flag),
    `setTimeout` (runs each callback once, later, when no Rust code is on the stack);
  * `BTreeMap` as a strictly sorted association list under the key order;
  * `HashMap`/`HashSet` as finite maps/sets; the hash function of x-bow is an arbitrary
    parameter;
  * `RefCell` double borrows, `assert!`, slice indexing, `Option::unwrap` – explicit failure
    values where the property is about them;
  * `scoped_tls`: `with` panics when no value is set;
  * `async_executor`/`async_task`: dropping a `Task` schedules it once more and its future is
    dropped when the executor runs it; the `run` future as described in `App/Model` and, for
    lists (queue, batches, wake-ups), in `Nested/Model`;
  * `.await` in an `async` block: before the block returns `Pending` it has polled everything that it is
    awaiting, with the waker it was polled with (C51–C53);
  * Rust drop order: the body of `Drop`, then fields in order of declaration.

## Not modelled

wasm-bindgen, the browser's layout and event dispatch (apart from `Live/Page`), the generated HTML element
wrappers apart from their tables (C74), proc-macro plumbing (parsing with `syn`, quoting), the CSS tokenizer of cssparser,
memory layout (except the address question of C06 and the reference counts of C19), panics
inside user callbacks unless stated, threads (everything in the crate is single threaded;
wakes may nevertheless arrive at any point of a poll).

Files without a model: `async_ui_web_core/src/window.rs` (a thin
wrapper around the DOM), the handling of generics and of `#[x_bow(..)]` in `x-bow-macros`,
`x-bow/src/path_impl.rs` (every method only delegates), the
`examples` except those in the table below, and the tests.

## Plan per property

| id | modelled | proof |
|----|----------|-------|
| C01 | `DomContext::add_child/remove_child` with contexts as a chain Child/Sibling/Container, groups as sorted maps, DOM as child lists | invariant over op lists: tracked nodes appear in map order; map order = source order |
| C02 | `remove_children_here` including its `range().next_back()` loop | the loop removes exactly the keys extending the position; DOM list = filter |
| C03 | `compare_slice_reversed`, `next_sibling` | order laws by induction; `p ≤ q < next p ↔ q` descends from `p` |
| C04 | `Sibling` arms, several groups in one container | block-structure invariant over op lists of several groups |
| C05 | drop glue of `ContainerNodeFuture`, `SiblingNodeFuture`, combinators as a recursive function on component trees with the blocker state | structural induction on trees; `drop_takes` says what a drop removes in every case, `drop_unrenders_iff` when that is right |
| C06 | `DetachmentBlocker` with explicit addresses | induction on drop forests, injective addresses; counterexample for equal addresses |
| C07 | root future drop without ambient context | negation by witness (nested drop accesses an unset context); exact condition in `unmount_panics_iff` |
| C08 | drop of unpolled futures | negation by witness for combinators; exact condition in `drop_unpolled_iff` |
| C09, C10 | `schedule`, `run_now` as a step machine with explicit timer queue and call stack | invariant over all interleavings |
| C11 | the same machine with future = None | negation by witness; partial theorem (mount order used by `mount_at`) |
| C12, C13 | `Readiness{Array,Vec}` and the poll loop as a step machine (begin / poll sub / wake / end) | invariants over all interleavings |
| C14–C16 | poll of `CombinatorArray/Vec/Tuple` with the four behaviours over scripted subfutures | refinement to "set of finished subfutures" by induction on polls |
| C17 | poll after completion | panics for array/tuple after normal completion; negation for vec and for early completion |
| C18 | items/filled slots, drop | invariant "live slots = filled", multiset accounting |
| C19 | strong count protocol of `shared_arc.rs` | invariant over op lists |
| C20 | `PendAfter`, `meanwhile` as race of two | induction on polls |
| C21 | `WakersArena` with its vector, prev/next links and free list | refinement to disjoint lists, invariant over op lists |
| C22–C24 | `ReactiveCell` on top of the arena specification | invariants over histories; C23 negation by witness |
| C25–C29 | x-bow `StoreWakers`, `HashVisitor`, `UntilChange`, guard `notify`; hash function a parameter | invariants over histories |
| C30 | data trees and path segments | lens laws by induction on paths |
| C31, C32 | `ForEach`, `SignalStream`, `BindForEach` polls | induction on histories; C32 negation for the initial call |
| C33 | `DynamicList` on a DOM child list with markers and content blocks | refinement to key lists; swap of adjacent items refuted |
| C34 | `DynamicList::render` inside a parent group | negation by witness; partial theorem |
| C35 | `DiffedList::update` over the list specification | key-set theorem for all inputs; order refuted by witness and proved for order-preserving updates |
| C36, C42 | `ListModel`, `ModeledList::update` | refinement, log replay lemma |
| C37 | `update_visible` with arbitrary geometry | invariant; negations for shrinking lists |
| C38 | `DynamicSlot` | induction on histories |
| C39 | `Dropdown` value logic and options update | decision logic; negations |
| C40, C41 | `EventFutureStream` and a DOM listener table | invariant over histories; C41 negation for capture |
| C43 | `find_classes`/`generate` over token lists | induction over tokens; negation for escaped identifiers |
| C44 | `next_sibling` with 32-bit indices | negation by witness |
| C45 | `add_child` at a taken place, both builds | invariant of C01; in release builds the old node is treated as foreign |
| C46 | whole apps: `poll` of blocks, elements and combinators with their contexts, drops, foreign changes | invariant relating component tree, render history and document; induction on what user code does |
| C47 | what `visit_hashes` writes for every kind of path, field numbers of the derive macro, `usize` as bytes | the layers above one type write a prefix code; induction on paths; combined with C26 and C27 |
| C48 | trees of async blocks, combinators (each the machine of C12) and rendered `DynamicList`s (each an executor of its items); wakers identified by their place | invariant relating readiness flags, parent wakers, the stack of running polls and the log of polls and wakes |
| C49, C50 | root executor (C09), task queue and nested combinators and lists (C48) put together | invariant: a task that needs polling is queued, a non-empty queue has the root scheduled; C50 negation |
| C51–C53 | C49 together with a `ReactiveCell` (C22, C24), event streams (C40), a store with data (C25–C27, C30–C32): a block polls the futures it awaits with its own waker, a waker woken by the source wakes the block | invariant: a waker not woken since it was handed out is still registered with the block's latest poll; then the theorems about each source |
| C54 | the code `select!` generates: blocks around the futures, the race of C12–C15, the `match` | refinement of the race plus an invariant on the blocks |
| C55 | the class shortcuts over the token list of the DOM standard | parsing and serializing a class attribute are inverse up to repetition; induction over the calls |
| C56 | `DynamicList` and the groups of the futures of its items over one document | refinement to rows and displayed parts; the item's own removal refuted |
| C57 | the window and the spacers of `VirtualizedList` on the screen, for items of one size | arithmetic of one update, induction over histories; jumps past the end and changes of the number refuted |
| C58 | any number of `DynamicList`s over one document, rendered anywhere, also as items of each other | refinement to forests of nodes, items and lists; calls on a list whose parent has changed refuted |
| C59 | the three lists with a counter of elementary operations | explicit bounds for all reachable states; the counted functions are proved to be those of the model |
| C60 | the circle drawer of the examples on top of `DynamicList` | refinement to a memory of whole pictures; a right click after undo refuted |
| C61 | the spreadsheet of the examples: formulas, versions, any order of polling | invariant on versions; a decreasing weight for coming to rest; circles and self-reference refuted |
| C62 | the draggable items of the examples: event slots, item polls and the reader of `until_move` as separate steps | one drag from rest to rest for any order of polls; invariant over all action lists; three refutations |
| C63 | TodoMVC: every loop of `app.rs` as a separate poll, cells as values with one flag per listener | invariant while the screen lags behind, for any order of polls; a weight bounds the polls; a refutation for two clicks at once |
| C64 | an app with any number of `DynamicList`s: component trees of the app and of all items over one document | invariant (page and layout of groups) kept by every event, from the lemmas of C46, C56 and C58; partial |
| C65 | the lists of C48: the queue of tasks of a list and the batches of its `run` future | invariant: yields so far times the batch size, plus what is left of the batch, plus the place in the queue, do not grow |
| C66 | the list of persons of the examples on top of `DynamicList`, with the `<select>` of the HTML standard | refinement to a plain list of persons in which panics are explicit; the histories that panic are characterized |
| C67 | C51–C53 with any number of cells, stores and event streams in one app; loops that read a cell or a path of a store and then await `until_change` | every source has a history of its own, in which a future that the app has not been woken for has not been woken; invariant: unless a change is pending that the listener will report, the value is what was read |
| C68 | what `#[derive(Trackable)]` generates: which accessors, their names, numbers and targets, and the names of the generated types | the loops of the macro are lists of the declared fields, filtered by their attributes; member names are resolved as the language does and shown to be those of the field they come from; joined names are compared with a lemma about the underscore between them |
| C69 | the events of any set of streams of an app, over the whole run | a stream that is awaited when the browser is idle has nothing unread (C52); what the streams have yielded plus what is unread is what was delivered, by induction on the history of the streams; prefixes of this history are states of the app at the time |
| C70 | form elements, their values and the calls of their listeners; a loop that reads and then waits for events | after the first poll following the read: the value is the one read, or the stream has an unread event, or its listener is going to be called (`WillTell`), by induction on the history of the page; when idle the last two are false (C52) |
| C71 | loops that read cells and inputs, set others, and wait; the flight booker and the timer | what a loop has set is its function of the values at its last round (induction on the run of the loop); these are the current values, by C70 for inputs and C67 for cells |
| C72 | a box of the x-bow playground: three streams merged, and a closure that sets classes | between two idle moments a listener has been ready exactly if it was notified (from the wake-up theorem of Live at both moments and the exact readiness of C26/C27); an invariant of the closure along the run says that the classes are those of the current version |
| C73 | the temperature converter: two loops, each of which sets the input that the other waits for | invariants along the history of the page between two idle moments: an unhandled edit is pending at the stream of its loop; a loop whose input is left alone does nothing |
| C74 | the tables of element wrappers, event methods and input types | the complete tables against the transcribed standards, row by row; the relation "has all of the interface" is inductive and decided by the chain of parents |
| C75 | counters: a component that shows a state, waits for the first of several events, and computes the next state | invariants along the history of the page between two idle moments: no event is pending at any stream of the component, then one at one of them, then none at the new ones; induction over the idle moments |
| C76 | the digital and the analog clock: the rounds of the loop with the times at which `now()` is called, timers that are up to `d` late, the text, the angles and the places of the numbers | arithmetic on nanoseconds, induction over the rounds; trigonometry over the reals |
| C77 | a language for `async` UI code (blocks, elements, properties, clicks, timers, `join`, `race`, `meanwhile`, `pend_after`, loops) with its `poll`, and the login example as a program in it | induction on programs (`poll_idle`); refinement of a machine of stages, then invariants over event sequences |
| C78 | the guide's programs in the language of C77: the countdown, the button that disappears, components without behaviour | simulation between a program and the same program with something around it (`Around`), for all programs; refinement of machines of stages; induction on component trees |
| C79 | the pool of elements of the big list example, with the tasks of the list and the queue of its executor | invariant over all histories: pool and elements in use are a permutation of all elements; a count of what the queue will still do gives the bound |
| C80 | all of the timer example: five loops, two cells, slider, button and interval | invariant over all interleavings that splits the events into those handled, in the order of handling, and those pending; induction for the closed form |
| C81 | the Fibonacci list of the guide on top of `ListModel` and `ModeledList` of C36 | induction over histories with the invariant of C36; the log has exactly the pushed change |
| C82 | The whole app of C51–C53 and C69, at the moment when the outermost `run_now` returns (`Live/Sync`) | a return leaves only timers that do nothing, so everything known of idle moments holds then; negation for events dispatched by a task (`Live/SyncExample`) |
| C83 | the guide's program with a `DynamicSlot`, a block with timers that changes it, the executor and the page (`Flow/Slot`) | refinement of a list of contents with remaining times, for all lists and histories; equality with the `race` version by their common specification |
| C84 | the links of the guide's events chapter: the event streams of C40, the dispatch of a click with its snapshot of listeners, the block, and other streams (`Apps/Link`, `Apps/LinkSelf`) | induction on histories and, inside, on the listeners of a dispatch, with the invariant of C40; witness for clicks by the app |

## Code and model, file by file

| code in `/repo` | model | claims |
|---|---|---|
| `async_ui_web_core/src/position.rs` | `Dom/Position` | C03, C44 |
| `async_ui_web_core/src/context.rs` | `Dom/Context` (contexts are values, groups sorted maps, `Dom/Tree` is the DOM) | C01, C02, C04 |
| `async_ui_web_core/src/{node_container,node_sibling}.rs`, `PinnedDrop` of `combinators/common/*` | `Drop/Fut` (component trees; bodies of `Drop`, then fields) | C05, C07, C08 |
| `async_ui_web_core/src/dropping.rs` | `Drop/Blocker` (static counter plus address) | C06 |
| `async_ui_web/src/mount.rs` | `Drop/DropProps` (the root is a container future without ambient context) | C07 |
| `poll` of `node_container.rs`, the context handling in `poll` of `combinators/common/*`, `async_ui_web_html/src/common_components.rs` | `Tree/Model` (user code and combinator results are an arbitrary script) | C46 |
| `async_ui_web_core/src/executor.rs`, `async_ui_web/src/executor.rs` | `Exec/Model` (timers, flag, nested calls) | C09–C11 |
| `combinators/common/{array,vec,tuple}.rs`, the four `*Behavior`s | `Comb/Model` (one machine with a variant parameter) | C12–C18 |
| the same, nested, with the wakers of `combinators/utils/wakers` | `Nested/Model` (wakers are places; also lists) | C48, C65 |
| `async_ui_web_core/src/executor.rs`, `async_ui_web/src/{executor,mount}.rs` with all tasks | `App/Model` (`async_executor` as assumed there) | C49, C50 |
| all of it: `async` blocks that await a cell, events or a store | `Live/Model` (composition; the contract of `.await` as stated there), `Live/Family` (several sources), `Live/Page` (form elements; `examples/web-simple-examples/src/flight.rs`, `timer.rs` as instances), `Live/LoopSpec` (loops), `Apps/Flight` (flight.rs 39-67, timer.rs 38-51 and 69-75), `Apps/PlaygroundSpec` (`examples/x-bow-playground/src/lib.rs` 148-198), `Live/ReactSpec` and `Apps/Converter` (`examples/web-simple-examples/src/temp_converter.rs` 11-24), `Live/FoldSpec` and `Apps/Counter` (`examples/web-simple-examples/src/counter.rs` 16-28, `async_ui_web_html/src/lib.rs` 22-28) | C51–C53, C67, C69–C73, C75 |
| `examples/login-flow/src/lib.rs` | `Flow/Login` (in the language of `Flow/Lang`) | C77 |
| `examples/big-list/src/app.rs` | `Apps/BigList` | C79 |
| `examples/web-simple-examples/src/timer.rs` | `Apps/Timer` (all of it; see also `Apps/Flight`) | C80 |
| `examples/guide-project/src/dynamicity/lists.rs` | `Apps/Fibonacci` | C81 |
| `examples/guide-project/src` (`building_ui/`, `dynamicity/js_api.rs`, `dynamicity/dynamic_slot.rs`) | `Flow/Guide`, `Flow/Slot`, `runFor` in `Flow/Laws` | C78, C83 |
| `examples/guide-project/src/events/mod.rs` | `Apps/Link`, `Apps/LinkSelf` (on top of `Events/Model`) | C84 |
| `no_child.rs`, `text_node.rs`, `ShortcutRenderStr` in `shortcuts.rs`, `extras/mod.rs` (`meanwhile`, `pend_after`), `event_handling.rs` as seen by programs | `Flow/Lang` | C77 |
| `examples/web-simple-examples/src/clock.rs` | `Apps/ClockModel` | C76 |
| the tables in `async_ui_web_html/src/{common_components,common_events,input_types}.rs` | `Html/Model` | C74 |
| `combinators/utils/wakers/*/readiness.rs` | `Comb/Readiness` | C12, C13 |
| `combinators/utils/wakers/{shared_arc,array/waker_array,vec/waker_vec}.rs` | `Wakers/Model` (heap of allocations with strong counts) | C19 |
| `combinators/extras/mod.rs` | `Comb/Extras` | C20 |
| `async_ui_internal_utils/src/wakers_arena.rs` | `Arena/Model` | C21 |
| `async_ui_internal_utils/src/reactive_cell/*` | `Cell/Model` | C22–C24 |
| `x-bow/src/{hash,hash_visitor}.rs` | `XBow/Hash` | C28 |
| `x-bow/src/{wakers,until_change,borrow_mut_guard}.rs` | `XBow/Model` | C23, C25–C27, C29 |
| `x-bow/src/{path,guarantee,store,trackable}.rs`, `impls/*`, generated accessors | `XBow/Data` | C30 |
| `visit_hashes` in `x-bow/src/impls/*`, `store.rs`, and as generated by `x-bow-macros/src/generate.rs`; `filtered_fields` there | `XBow/Bytes` (the hasher itself is a parameter) | C47 |
| `x-bow-macros/src/attributes.rs`, `generate.rs` (`ToGenField`, `generate`), `utils.rs` (`get_field_member`) | `XBow/Derive` (generics, where clauses and visibility of types left out) | C68 |
| `x-bow/src/path_ext.rs`, `path_ext/*` | `XBow/Follow` | C31, C32 |
| `async_ui_web/src/lists/dynamic_list.rs` | `Lists/Dynamic`, `Lists/DynamicSystem`, `Lists/Render`, `Lists/Items`, `Lists/NestSystem`, `Lists/Work`, `Whole/Model`, `Nested/Model` (tasks of the list) | C33, C34, C48–C53, C56, C58, C59, C64, C65 |
| `async_ui_web/src/lists/diffed_list.rs` | `Lists/Diffed`, `Lists/Work` | C35, C59 |
| `async_ui_web/src/lists/modeled_list.rs` | `Lists/Modeled`, `Lists/Work` | C36, C42, C59 |
| `async_ui_web/src/lists/virtualized_list.rs` | `Lists/Virtual` (for C37 all measurements are parameters of each update; for C57 they come from a layout with exact arithmetic) | C37, C57 |
| `async_ui_web/src/components/dynamic_slot.rs` | `Components/Slot`, `Flow/Slot` | C38, C83 |
| `async_ui_web/src/components/dropdown.rs` | `Components/Dropdown` (with the HTML `<select>` selectedness rules) | C39 |
| `async_ui_web_html/src/event_handling.rs` | `Events/Model` (with the DOM listener table) | C40, C41 |
| `async_ui_web_macros/src/css.rs` | `Css/Model` | C43 |
| `async_ui_web_macros/src/select.rs` (the generated code) | `Comb/Select` (on top of `Comb/Model`) | C54 |
| `async_ui_web/src/shortcuts.rs` (47-108) | `Components/Classes` (`DOMTokenList` after the DOM standard) | C55 |
| `examples/web-simple-examples/src/circles.rs` | `Apps/Circles` (on top of `Lists/DynamicSystem`) | C60 |
| `examples/web-simple-examples/src/cells.rs` | `Apps/Cells` (`f64` is a parameter) | C61 |
| `examples/async_ui_web_draggable/src/lib.rs` | `Apps/Drag` (lengths are integers, `dragenter` left out) | C62 |
| `examples/web-todomvc/src/app.rs` | `Apps/Todo` (the texts around the number of items left and the style sheet are left out) | C63 |
| `examples/web-simple-examples/src/crud.rs` | `Apps/Crud` (the text fields for names are read, nothing else happens to them) | C66 |

## What is proved, and what is missing

Each theorem name is in `MANIFEST.json`.  "Histories" are arbitrary finite lists of operations
of the library's user, of the browser and of the rest of the program, interleaved at will.

* **C01, C02, C04** (`Dom/HistoryProps`).  `render_history_agrees` is a refinement: after any
  history of renders, un-renders and foreign insertions and removals the children of every
  node are those that the specification `Dom/HistorySpec` (a table of node and path) says, and
  `dom_order_is_source_order` reads the order off it.  `unrender_exact`: exactly the subtree
  leaves.  `item_content_contiguous`: the content of list items (the `Sibling` context).
* **C03, C44** (`Dom/PositionProps`).  `cmp` is the left-to-right order of paths
  (`cmp_lt_iff_sourceBefore`) and a strict total order.  Interval property for indices below
  `u32::MAX` only; at `u32::MAX` the code overflows (`nextSibling_overflow*`): with overflow
  checks it panics, without them the interval is empty or wrong.
* **C45** (`Dom/DuplicateProps`).  Debug builds panic; refuted for release builds, where the first
  node is never removed again (`second_render_leaks`).
* **C46** (`Tree/Props`).  `poll_ok`: induction on the script; the invariant says that the nodes on
  display are those of the component tree, group by group, and `Dom`'s invariant relates them to the
  document.  `Change` is the frame condition: a poll touches only its own places, its own elements and
  new identifiers.  Not included: list items, a future created before it is awaited (C08), two
  components in one block (C45).
* **C05, C08** (`Drop/DropProps`).  Structural induction on component trees.  Missing: futures
  dropped in another context than they were polled in (refuted, `drop_elsewhere`); unpolled
  combinators (refuted, `drop_unpolled_combinator`: dropping one removes whatever is displayed
  at the ambient position).  `Drop/DropExact` says what a drop removes in every case (everything displayed at or
  below the current place, if the future owns an element on display or a combinator), and with it exactly when
  C05, C07 and C08 hold.
* **C06** (`Drop/BlockerProps`).  Induction on drop forests.  Missing: equal addresses of an
  object and a part of it (refuted, `drops_unbalanced_same_address`; zero-sized fields can
  coincide).
* **C07**: refuted, `unmount_panics` – the executor drops the app's future while `DOM_CONTEXT`
  is not set; every app with an element or an outer combinator panics.  The DOM nodes of the
  mount point are removed before (`unmount_removes_partial`).
* **C09, C10** (`Exec/Props`): invariants over all traces.  **C11** refuted
  (`install_after_timer`): the wake-up is consumed if the timer fires before the future is
  installed.  `mount_at` never lets this happen (`install_before_timer_partial`).
* **C12–C18** (`Comb`): one machine for the three implementations and the four behaviours;
  invariants over all interleavings of polls, returns, wakes, drops and panics.  C13's "woken
  since it was last polled" is refuted (`spurious_poll`).  C17 refuted for vectors
  (`repoll_vec_ready_again`, `repoll_vec_polls_finished`) and for combinators that returned
  early (`repoll_race_polls_finished`).  `answered` and `never_stuck` say that every poll has a
  consequence and that the machine goes on; `join_completes`, `tryJoin_completes` and
  `raceOk_completes` are the liveness half of C14 and C16.
* **C48** (`Nested/Props`): the invariant `Inv` (a subfuture or item that needs polling is flagged or queued or about
  to be polled; flagged combinators and lists with queued items have passed the wake on; running polls form a chain)
  and `JX` (what was due at a given moment is handed down, or its list has yielded), both preserved by every event.
  Both are stated over a common interface of combinators and lists (`Nested/Objects`).
* **C65** (`Nested/Fair`): the queue is first in, first out and without duplicates, and the `run` future runs
  `limit` tasks between two yields (`SW`, kept by every event); with C48 for the number of polls of the task.
  No needless polls (`Nested/Idle`): whatever is queued has been woken since its last poll and has not returned, or
  has been removed and is skipped (`PL`, `SG`).
* **C49** (`App/Props`): C48 plus the chain flag – queue – schedule – timer.  **C50** refuted
  (`spawned_without_mount_never_polled`): only `mount_at` calls `schedule` before the `run` future has
  been polled once.
* **C51–C53** (`Live`): the general theorem `idle_not_woken` says that when the browser is idle, the waker of
  the latest poll of an awaited future has not been woken since that poll.  With C22/C24, C40 and
  C25–C32 it follows that nothing has changed since then, and that this poll saw everything before.
* **C54** (`Comb/SelectProps`): every history of `select!` is a history of a race (`raceTrace`); the state of
  the blocks is tied to which branches the race has polled.
* **C55** (`Components/ClassesProps`): `HasClass` says where a class name is written in the attribute's text, and
  the calls are shown to act on it.  `Components/ClassesCss` adds that `css!` (C43) only declares class names.
* **C19** (`Wakers`): reference counts as a heap invariant; `all_freed` says when memory goes
  away.  A combinator polled with a waker of its own subfuture keeps itself alive.
* **C20** (`Comb/ExtrasProps`), **C21** (`Arena`): refinement to disjoint ordered lists.
* **C22, C24** (`Cell`).  **C23** refuted for `ReactiveCell` and x-bow: the first poll of a
  listener is always pending (`fresh_listener_pending`), so a change between creation and
  first poll is lost (`change_before_first_poll_is_lost`).  The example in x-bow's `lib.rs`
  and the doc comment of `until_change` say otherwise.
* **C25–C29** (`XBow`): for every hash function.  **C28** refuted three ways
  (`regular_keys_wrap`: depth is one byte; `bubbling_ignores_depth`; `regular_meets_bubbling`).
* **C47** (`XBow/BytesProps`, `XBow/BytesLink`): induction on both paths; the layers possible above one
  type write a prefix code.  Key types whose hash writes nothing break it (`unit_key_false_ready`).
* **C30** (`XBow/DataProps`): lens laws by induction on paths.
* **C31, C32** (`XBow/FollowProps`).  C32's initial call is refuted
  (`bind_first_call_skipped`), and a value that comes with the end of the stream is not
  written (`bind_ends`).
* **C33** (`Lists/DynamicProps`): refinement to a plain list of items for all histories that
  avoid three calls, for each of which the damage is proved after any history (`Lists/DynamicWrong`):
  `swap(a, b)` with `a` directly before `b` (`swap_directly_before_breaks`), `move_before(k, Some(k))`
  (`move_before_itself_breaks`), and a `before` key that is not in the list (`missing_key_panics`; the
  documentation promises insertion at the end).  `Shows` is exact: between the markers of the list there is nothing but
  the items and the nodes that removed items left and nobody removed yet.
* **C56** (`Lists/ItemsProps`): the items' futures render through `SiblingNodeFuture` into the document that
  the list rearranges.  The invariant ties the group of each future to the block between the item's
  markers.  Refuted for an item that removes itself and then displays more (`removed_item_panics`).
* **C34** (`Lists/RenderProps`): refuted (`earlier_sibling_misplaced`); proved for histories in
  which no such sibling appears.
* **C35** (`Lists/DiffedProps`): the item set is always right (`diffed_items`), the order
  exactly for `Smooth` updates (`diffed_update_iff`); `[1,2,3] → [2,1,3]` shows `3,2,1`.  The
  documented Fibonacci example repeats a key and shows `2,1` (`diffed_documented_example`).
* **C36, C42** (`Lists/ModeledProps`, `Lists/ModelProps`): refuted for `swap(i, i+1)` (inherited
  from C33), proved for everything else.
* **C37** (`Lists/VirtualProps`): proved for all measurements while the window stays in range;
  refuted for shrinking (`virtual_stale`, `virtual_shrink_grow_panics`).
* **C57** (`Lists/VirtualGeoProps`, `Lists/VirtualGeoDoc`): lengths are whole numbers of some unit, arithmetic is exact where
  the code has `f64`. The browser is taken to lay out front spacer, items and back spacer one after the
  other; where the list begins on the screen is arbitrary at every update, so scrolling, scroll
  anchoring and clamping are covered. `window_update` says that the windows are those of C37. An update
  of a window that is not empty never leaves a spacer in sight (`virtual_noGap`); places and length are
  exact while the list stays within two roots of the visible part. When the observer and the scroll
  listener call for an update is not modelled.
* **C58** (`Lists/NestProps`): `Lists/Forest` describes the children of a node as nodes, items and lists in each
  other and the calls as changes of such a description, without referring to the code. In every allowed
  history the document is that description (`lists_nested_partial`). The calls are those of C33. What items
  display is placed and removed by free `place` and `vanish` steps; `renderCtx_item` says where a list goes
  that is the whole content of an item. Refuted for a list whose outer list was un-rendered or rendered in
  another node: exactly the calls that change something panic (`nested_moved_panics`). Simplification: the
  document's check that a node is not inserted into itself is not modelled (a program cannot render a list
  inside an item of itself, because items are polled only by the rendering of the list).
* **C59** (`Lists/WorkProps`): `Lists/Work` repeats the calls of the lists with a counter. `stepW_same` and the
  results in the theorems say that nothing but the counter was added. Counted: DOM calls, accesses to one entry
  of a hash map or set, spawned and dropped tasks, calls of the renderer, steps of loops (`VecDeque::iter` with
  `skip` is taken to reach its place in one step). Not counted: growing vectors and hash maps, straight-line
  code. `insert`, `remove`, `contains_key` and `retain` are bounded in every state (`dynamic_work_any`). That an
  update takes work linear in the edits also when the log was cut is because the log is cut only when it has
  more than half as many changes as there are keys.
* **C60** (`Apps/CirclesProps`): the specification (`Apps/CirclesSpec`) remembers pictures, the program remembers
  operations. The invariant relates the operations before and after the cursor to the pictures (`Back`, `Fwd`), the
  ids of the operations to the keys of the list, and the list to the document (C33). `circles_nearest` says what
  `hit` is, which the specification uses. Events are handled one after the other; that two events come before the
  program runs again, of which the program handles one, is not modelled, nor is rounding.
* **C61** (`Apps/CellsProps`, `Apps/CellsExample`): a step is one round of one cell's loop, in any order. The invariant
  says that a cell that cannot go on has seen the present versions of the cells of its formula, and then its value
  is that of the formula. `cells_typed`: between two idle states a cell's formula is
  that of the text typed into it last. `cells_settle`: every round decreases a weight in which a cell counts more the fewer
  cells its value comes from. `cells_circle_restless`: of the cells in a circle the one polled last has changed
  under the eyes of another one. `cells_panics` says exactly when a round panics; the model has overflow checks (without
  them a reversed range panics for its capacity in most cases). Numbers and their texts are parameters.
* **C62** (`Apps/DragProps`, `Apps/DragExample`): events wait in slots until the item is polled. `handled_eq`: if one
  event is handled before the next one comes, every order of polls has the same effect; this is how events arrive,
  as their listeners run the executor at once (C10). `drag_reports_partial` follows by induction on the way of the pointer.
  `drag_plays`: every drag over present items meets the hypotheses. `drag_sound` and `drag_paddings` hold for any
  order of events, polls, mounting and unmounting. What the browser does with `prevent_default` is not modelled.
* **C63** (`Apps/TodoProps`, `Apps/TodoWork`, `Apps/TodoExample`): the specification (`App.step`, `App.screen` in
  `Apps/TodoSpec`) is a list of todos and what it should look like. `Lag a s`: the cells of `s` are the todos `a`, and what
  the screen does not yet show is due. Every poll keeps it (`lag_poll`), a handled event is a step of the todos
  (`lag_handled`), and if nothing is due the screen is right (`lag_idle`). The count of active todos is that of the
  class `completed`, which the loop of an item changes together with the count. Cells and their listeners are
  flags here, justified by C22 and C23; the order of the rows by C33.
* **C84** (`Apps/Link`): every call goes to `Events.step`, so listeners, wakers and stored events are those of C40. A click is
  dispatched to the listeners that are there when it begins and not removed before their turn; after each callback `run_now` polls the block
  if its waker was woken, then other tasks do what they like with their streams, including streams on the same link and events of
  other targets, but not a click on this link. At the end the browser opens the link unless `prevent_default` was called on this event. The
  proof carries the history `H` of C40's invariant and the place of the block's listener. `passive` is never set on the block's
  stream; `stopImmediatePropagation` by other code and bubbling are left out. `nested_opens`: finding 32 seen
  from here; `nested_always_opens` (`Apps/LinkSelf`): it is so after every history and with each of the programs.
  `mixed_clicks` and `opens_iff_by_app` (`Apps/LinkSelf`) let the user and the app click in any order. Between a click of the app and the poll
  of the block other tasks may do what they like with their streams, but not click on the link again: the second event would replace the first, which
  the block would then never see.
* **C83** (`Flow/Slot`): a machine of its own around the language of C77: the message of the slot, the future it holds, the rest of
  the block and its timer. `set_future` wakes the slot, so a run of the executor in which the block changes something polls
  the slot again. The specification `Plan` knows only what is shown, for how long, and what comes next. `slot_page`: same page
  after every history; `slot_in_time` says the same without `Plan`; `slot_not_restarted`: the content is not built again (found missing by a mutation). `slot_same_as_race` compares with `showAndRemove` of C78.
  `slot_any_in_time` is for contents that are arbitrary programs of `Flow/Lang`: it follows only the block's timer, which no content can touch
  (`poll_grows`), and says what the slot holds (`From`: the content after some polls).
  Simplified: elements of a content are created at its first poll instead of before `set_future`, which is not visible; waits are
  positive; a content that has finished is not polled again, because nothing wakes the slot for it (C38 has the spurious poll).
* **C82** (`Live/Sync`, `Live/SyncExample`): `Returns` is the step in which a `run_now` that was called while none was running
  returns. At that moment nothing is scheduled (`returned_rest`), and firing the timers that are still queued changes
  nothing but their number (`timers_fire`); so the state is an idle one but for those timers (`returns_idle`), and what is known
  of idle moments (`idle_not_woken`, and with it C51–C53, C67, C69, C70) holds when `run_now` returns
  (`returns_not_woken`). `event_is_handled_in_time_partial`: the stream has been polled since the delivery and its first poll
  returned the event, or it was given up unpolled, or the block is gone. Partial: for an event that a task dispatches
  while it is being polled the claim is false (`nested_event_is_late`, finding 32). What the browser does with
  `prevent_default` is not modelled.
* **C81** (`Apps/Fibonacci`, `Apps/FibonacciProps`): partial, false after 91 seconds. A tick reads the model, adds the last two numbers
  as `u64` (`add`: panic with debug assertions, otherwise modulo 2^64), pushes and updates; everything else is C36. `push_calls`:
  the update makes one call. The texts of the rows are content that the rest of the program displays.
* **C80** (`Apps/Timer`, `Apps/TimerProps`): partial, because the slider is not as the program says. The state has the two cells with
  a count of their writes (a future of `until_change` remembers the count at its first poll), what the three streams hold and
  what each loop waits for. Loops are polled in any order, so the order in which `join` polls them does not matter. `Lin` splits
  the events so far into those that have been handled, in the order in which they were, and those that wait; the values
  of the cells are those of the specification (`after`) for the first part. Numbers are rational; with `f64` the sum
  of 20 d ticks can miss d by a rounding error and the timer then runs one tick longer or shorter. That ticks come every 50
  milliseconds is up to the browser. `Slider.sanitize` is from the HTML standard.
* **C79** (`Apps/BigList`, `Apps/BigListLemmas`, `Apps/BigListCalls`, `Apps/BigListProps`): the calls of the list are `virtualCalls` of
  C37, the order of the items is that of C33. The tasks are explicit: a removed item keeps its element until the executor drops its
  future, and an item that is removed before its first poll never had one. `bigList_elements` is a permutation: pool plus elements
  in use = all elements. `bigList_few` needs that tasks run in the order of waking (`async-executor`, not in the sandbox);
  `bigList_order_matters` shows that it fails otherwise. The theorems hold for every history that does not panic;
  `bigList_panics_iff` says which do. Not modelled: where the nodes of removed items are until they are dropped (C33), the texts of
  elements in the pool, `borrow_mut` (both uses end at once).
* **C78** (`Flow/Laws`, `Flow/Guide`): the first group is about all programs. `Around` says when a program around another one does
  nothing but pass on polls: its first poll, every later poll, and what it becomes when the inner one is ready. From that `rel_run`:
  the two stay together through every sequence of events, with the same world. `meanwhile_text`, `pendAfter_page` and `join_text`
  are instances. `runFor_ends`: from `ms` on, one run of the executor ends the race; `f` may finish earlier, and `hang` stands for
  a program whose poll does not return. `countdown_page` and `showAndRemove_page` say that the page is that of a machine of stages
  after every sequence of events; `countdown_not_early`, `countdown_on_time` and `showAndRemove_stays` say what that means in time,
  without the machine. `component_page` is for every tree `Ui`; typing is excluded because it changes what an input field shows.
  Components are built in the order of evaluation of the expression (`Ui.build` makes the nodes, then the futures). Simplified: the
  vector of spans is nested pairs (C01 has the vector), attributes other than value and text are not there.
* **C77** (`Flow/Lang`, `Flow/Idle`, `Flow/Login`, `Flow/LoginSim`, `Flow/LoginProps`): programs are terms of `Fut α`, with `bind` for
  `.await`; `poll` runs them. `Flow/Login` is the example function by function, and next to it the specification: `Stage`, with the
  page of each stage and `Stage.step`. `sim_step`: every event leads from a state of the program that belongs to a stage to one that
  belongs to the next stage; `login_page` follows, the other theorems from `Stage` alone and in terms of pages. `poll_idle` is for all
  programs: a poll fires nothing, and a pending future stays as it is until something fires (`poll_again`). Simplifications: tuples
  and vectors are nested pairs; all subfutures are polled, in the order of the source (the library polls those that were woken, in
  the order of waking; for a pending subfuture that was not woken `poll_again` says that it makes no difference); a click without a
  listener runs the executor; timers fire exactly when they are due, but the executor may run at any time later; the document is
  what the component tree displays (that is C46, not proved again here).
* **C76** (`Apps/ClockModel`, `Apps/Clock`): a round is the pair of times at which the loop calls `now()`; a run is a chain of rounds in which
  each begins when the sleep is over, at most `d` later. The specification reads the text back (`telling`) and says where a rotated arm
  points (`points`). False as stated: `now()` is called twice per round, and if the second ends in between, the sleep is a whole second
  and the text is wrong for all of it (`digital_straddles`; finding 29). Proved if both calls fall into the same second
  (`digital_partial`, `digital_every_second`). The trigonometry uses Mathlib's real numbers.
* **C75** (`Live/FoldSpec`, `Live/Fold`, `Apps/Counter`, example in `Apps/CounterExample`): `Fold.Runs` says what the component does
  (drop the old streams, set the texts, make the streams, poll each, wait), with everything else on the page arbitrary. Between two idle
  moments: `quiet_steps` (nothing is caused, the state stays), `pend_steps` (one event is caused; it is pending at exactly one stream
  until that stream yields it, and the new streams have none). `fold_events` is the induction over the idle moments; the two counters are
  instances. The condition that the app is idle between two clicks is needed (`counter_loses_click`); a click by the user meets it, since
  the listener runs the executor at once (C49), while a program that calls `click()` itself does not. `value` is an integer in the model.
* **C74** (`Html/Model`, `Html/Spec`, `Html/Props`): the macros generate the same code for every row, so the model is the tables;
  `Html/Spec` transcribes what the standards say about the tags, events and types that occur. The domain is finite and complete, so
  the proofs decide every row. Refuted: `Bold` and `Italic` have the interfaces of `<br>` and `<img>`; `Img` and `Col` take
  children; `new_datetime` is a text field. Not covered: which methods the interfaces of `web_sys` declare.
* **C73** (`Live/ReactSpec`, `Live/React`, `Apps/Converter`, `Apps/ConverterExample`): `Reaction.Runs` reads the history of a page as
  that of one with a component that waits for an event of an input, reads it and perhaps sets another element. An edit while
  the component waits leaves its stream with an event or with a listener that is going to be called (`Tells`), and either
  that stays so or the component has set the output after reading the new value (`after_steps`); at an idle moment the former is excluded.
  A component whose input is not changed sets nothing (`bland_steps`), so the two loops do not feed each other. Left out:
  changes of both inputs between two idle moments, and what `f32` parsing and rounding compute.
* **C72** (`Apps/PlaygroundSpec`, `Apps/Playground`, `Apps/PlaygroundExample`; `XBow/Since`, `Live/Since`): `Box.Runs` reads the
  history of an app as that of one with a certain box in it: it makes its three listeners, polls them in any order, and calls
  the closure when one is ready; everything else is arbitrary as long as it leaves the listeners and the classes of the box
  alone and changes the version only by adding one. The theorem is about two idle moments: the version was changed for the
  last time at some point between them, and no path before that point (a click first increases the version and
  then notifies, 193-194). `store_ready_between`: between two idle moments a listener that is awaited at both has been ready exactly
  if it was hit; `cell_ready_between` for the version. Simplified: a class of an element is an element of its own with the
  text "t" or "f"; the text and the boxes inside are left out.
* **C71** (`Live/LoopSpec`, `Live/Loop`, `Apps/Flight`, `Apps/FlightExample`): `Loop.Runs` reads the history of an app as that of a
  loop and of others; a round does `body`, makes the futures and polls each once. `idle_loop` is for any loop. That the
  outputs are set by nobody else, and that inputs are changed by the user only, are conditions on what others do (`Loop.Other`).
  In the timer the interval and the reset button are "others": the elapsed time may change at any time.
* **C70** (`Live/Page`, `Live/Form`, `Live/FormExample`): `pageSource` adds to the event streams the values of the form
  elements and the listeners that the browser is still going to call. `told_page` shows that what C52 needs of the streams
  holds. `ReadThenListens` is the specification, in terms of what happened to the page only. The dispatch of events is an
  assumption about the browser, from the DOM standard; `set_is_not_seen` shows what happens if the program sets a value.
* **C69** (`Events/Every`, `Live/Every`): `yieldedBy_eq` is the induction on the history of the streams; at most one of the streams
  has an unread event at any time, since all of them have read everything when one is delivered (`awaited_quiet`).
  `part_split` finds the state of the app that belongs to a prefix of that history. `first_of_two_events_is_lost` shows that
  idleness at each delivery is needed; in the browser it is given for events that the user causes, because the listener
  runs the executor before it returns (C10), and not for those that a program fires while it runs.
* **C68** (`XBow/DeriveMain`, `XBow/DeriveNames`): `declared` lists the fields with their places; `generate_some` says that the
  accessors are those of the fields that are not skipped, in this order. `numbers_agree` connects the numbers with
  those of C47, `accessor_target` the layers with the data of C30. The statement is false for names: see finding 26.
* **C67** (`Live/Full`): `Source.family` puts any number of sources together; the wakers are numbered for all of them.
  `told_part`: if an awaited future has not been woken since its latest poll, then it has not been woken in the history of
  its own source (`part`), so that the theorems behind C51–C53 apply (`told_cell_forEach` etc.). `ReadThenWaits` (one for
  cells, one for stores) says what a loop has read; `Holds` and `Held` are the invariants. Other futures that the loop
  races with are further awaited futures of the same block. `early_change_is_not_seen` is the app-level consequence of C23.
* **C66** (`Apps/CrudProps`): partial. `Sight` relates the document (C33: `Good`), the attributes of the options and the map
  to a plain list of persons (`Book` in `Apps/CrudSpec`), in which `none` is a panic. `Draws` speaks of the option elements
  among the children of the `<select>`. The value of the `<select>` and what setting it does follow the HTML standard.
  The histories that panic are characterized by `crud_panics_iff`; until somebody is created or renamed the filter is
  right (`crud_filter_partial`).
* **C64** (`Whole/`): partial. One document and one set of groups for a mounted component tree (C46) and any number of
  `DynamicList`s whose items are component trees. A state is described by a page (C58: every node contains a forest of
  nodes, lists and items) and a layout, which says for every group in which node and in which part of it (top, loose in a
  list, in an item) it displays (`Whole/Layout`). Every event keeps them: polls (`poll_keeps` of C46, with `keeps_page`),
  drops of items (`item_drop`), calls (`Paged.call`), render and un-render (`Paged.renderList`, `Paged.unrenderList`), other code.
  `WInv` ties them to the futures; `WInv.step` is the induction step and `WInv.rendered` the specification. When a list is dropped
  the invariant goes on to speak about a system in which it is still there, unused (`Sim` in `Whole/Ends`). `whole_items` says
  that the futures of the items are those that the program has given to the list. Missing: a list rendered by an item
  itself and not in an element of it (the marker of the item is then its reference; for the calls on such lists see C58);
  where among the siblings a list is (C34); blockers at the same
  address as their parts (C06); calls that C33 leaves out. Two hypotheses restrict other code: its nodes are not between
  markers of lists, and not in fragments of lists.
* **C38** (`Components/SlotProps`): proved; additionally a destructor that uses the slot panics
  and a completed future is polled again.
* **C39** (`Components/DropdownProps`): refuted in five ways (see the theorem names); the value
  is given exactly by `dropdown_value`, the order by `dropdown_order_iff`.
* **C40** proved, **C41** refuted for capturing listeners (`stream_leak`), proved exactly
  otherwise (`stream_drop_iff`).
* **C43** (`Css/Props`): proved for supported sheets; refuted for nested rules, unknown or
  upper-case at-rules, comments and escapes, clashing constant names, and backslashes.
  `css_shipped_iff` (`Css/Shipped`) says exactly which sheets the generated JavaScript literal passes on
  unchanged; of `\x` and `\u` escapes it assumes only that they are longer than what they stand for.

## Findings in the code

In the order of severity as it looks from here; each is proved in the model as named.

1. Unmounting panics for every non-trivial app (`Verif.Drop.unmount_panics`).
2. `DiffedList` and `Dropdown` show permuted items in the wrong order
   (`Verif.Lists.diffed_wrong_order`, `Verif.Dropdown.dropdown_wrong_choice`); in a `Dropdown`
   the user then gets a value other than the one displayed.
3. `DynamicList::swap` of neighbours inverts the markers of the list and later content lands in
   the wrong item (`Verif.Lists.swap_directly_before`); `ListModel::swap(i, i+1)` hits it
   (`Verif.Lists.modeled_swap_neighbours`).
4. `VirtualizedList`: shrinking leaves stale items, and shrinking then growing can panic
   (`Verif.Lists.virtual_stale`, `Verif.Lists.virtual_shrink_grow_panics`).
5. Dropping an unpolled combinator removes what is displayed at the ambient position
   (`Verif.Drop.drop_unpolled_combinator`); dropping a future elsewhere than where it was
   polled removes other nodes and leaves its own (`Verif.Drop.drop_elsewhere`).
6. An element rendered late in front of a `DynamicList` lands behind it
   (`Verif.Lists.earlier_sibling_misplaced`).
7. Change listeners miss changes made before their first poll
   (`Verif.Cell.change_before_first_poll_is_lost`, `Verif.XBow.change_before_first_poll_is_lost`).
8. `Dropdown::value` after deselection or removal returns the old option
   (`Verif.Dropdown.dropdown_deselect_fails`, `dropdown_removed_value`).
9. Event streams with `set_capture(true)` leak a listener that throws
   (`Verif.Events.stream_leak`).
10. `css!`: nested rules are not renamed, backslashes are not escaped for JavaScript
    (`Verif.Css.css_nested`, `css_backslash`).
11. `bind_for_each` may skip its first call and loses the last incoming value
    (`Verif.XBow.bind_first_call_skipped`, `bind_ends`).
12. Key collisions of x-bow despite the documentation (`Verif.XBow.regular_keys_wrap`,
    `bubbling_ignores_depth`, `regular_meets_bubbling`).
13. A finished vector combinator can be polled again and polls finished futures
    (`Verif.Comb.repoll_vec_polls_finished`).
14. `next_sibling` overflows at index `u32::MAX` (`Verif.Dom.nextSibling_overflow`).
15. A wake before the executor future is installed can be lost
    (`Verif.Exec.install_after_timer`).
16. Drop bookkeeping relies on distinct addresses (`Verif.Drop.drop_same_address_panics`).
17. Tasks spawned with `get_executor().spawn(..)` do not run before the first mount
    (`Verif.App.spawned_without_mount_never_polled`).
18. In release builds two elements rendered at one place leave the first one in the document for
    good (`Verif.Dom.second_render_leaks`).
19. A list item that removes itself and then displays one more node at its end panics
    (`Verif.Lists.removed_item_panics`).
20. `VirtualizedList`: a jump to a place more than two screens behind the list makes the list longer than
    its items and shows none (`Verif.Lists.virtual_past_end`); after `set_num_items` the scroll length is
    that of the old number until an update does something (`Verif.Lists.virtual_setNum_length`).
21. A `DynamicList` rendered in an item of another one keeps the node in which it was rendered. While the outer
    list is not rendered, or after it is rendered in another node, `insert`, `move_before`, `swap`, and
    `remove` and `retain` if they remove something, panic on the inner list
    (`Verif.Lists.nested_outer_dropped`, `nested_outer_elsewhere`).
22. The circle drawer of the examples panics on a right click after the circle under the mouse was undone
    (`Verif.Circles.circles_menu_after_undo`).
23. The spreadsheet of the examples never comes to rest if two cells refer to each other, so that the page hangs
    (`Verif.Cells.demo_circle`); a cell that refers to itself shows a wrong value (`Verif.Cells.cells_self_wrong`);
    a reversed range panics (`Verif.Cells.cells_panics`); `A150` is taken for `B50` (`Verif.Cells.cells_alias`).
24. The draggable items of the examples report a drop of an item on itself with the side of an earlier drag
    (`drag_self_stale`). If a dragged item is removed its drag never ends, and a file dropped on another item later is
    reported as a move of the item that is gone (`drag_ghost`).
25. The list of persons of the examples panics if Delete is pressed twice, or Update after Delete
    (`crud_panics_iff`, `crud_delete_twice`): the buttons stay enabled while nothing is selected. New and renamed persons
    are not filtered (`crud_filter_stale`).
26. The names that `#[derive(Trackable)]` makes up can clash (`enum_names_can_clash`, `types_can_clash`), and a field hides
    the method of paths of the same name, for example `borrow`, `get` or `set` (`path_methods_can_be_hidden`). `#[track("skip")]`, a second
    `#[track(..)]`, and `#[track(skip)]` on a variant are accepted and have no effect (`skip_can_be_overlooked`).
27. The flight booker requires the return date to be after the start date (`d2 > d1`, flight.rs 50); flights there and
    back on the same day cannot be booked (`Verif.Apps.same_day`). In the 7GUIs task that it implements they can.
28. The wrappers `Bold` and `Italic` have the types of a line break and of an image (`common_components.rs` 94 and 115), `Img` and `Col`
    take children although `<img>` and `<col>` cannot have any (117, 142), and `Input::new_datetime` creates a text field, as
    there is no such type; `datetime-local` is missing (`Verif.Html.element_typed_iff`, `children_iff`, `input_typed`).
29. The digital clock calls `now()` once for the text and again to compute how long to sleep (clock.rs 23 and 15). If a second
    ends between the two calls, it shows the last second during the whole of the next one (`Verif.Apps.Clock.digital_straddles`).
30. The slider of the timer (timer.rs 23-26) sets `min="0.01"` and `max="30.0"` but no `step`, so the step is 1, counted from
    `min`: the user can choose 0.01, 1.01, …, 29.01, the value 15.0 that the program sets becomes 15.01, and 30 cannot be
    chosen (`slider_values`, `slider_start`).
31. The Fibonacci list of the guide adds `u64`s for ever (lists.rs 44-50). The 94th number does not fit: after 92 seconds a
    debug build panics, and a release build shows 1293530146158671551 (`fibonacci_overflows`).
32. **Events that the app itself dispatches are handled too late** (C82, `nested_event_is_late`). `run_now` returns at once while
    it is running (`async_ui_web_core/src/executor.rs:51-53`). If a task calls `element.click()`, `input.focus()` or
    `dispatchEvent`, the listener wakes the waiting block and returns to the browser; the block gets the event after the
    dispatch is over, when `prevent_default` does nothing, contrary to the comment at `executor.rs:45-50`.

Also noticed, not modelled: `race_ok` and `try_join` are implemented for tuples of up to 11
futures, the documentation says 12.

## Axioms per theorem

From `#print axioms` on every theorem named in `MANIFEST.json` (prefix `Verif.` omitted).

* no axioms: Drop.drops_unbalanced_same_address.
* `propext`: Cell.change_before_first_poll_is_lost, Css.css_pieces, Dom.nextSibling_overflow, Drag.drag_batch_lost, Drag.drag_ghost, Drop.drops_balanced_partial, Drop.drops_end_unblocked, Drop.drops_outermost_detach, Html.childless_void, Html.children_iff, Html.datetime_is_text, Html.element_has_methods, Html.event_typed, Html.input_typed, Lists.shows_sublist.
* `Quot.sound`, `propext`: Apps.BigList.bigList_order_matters, Apps.Clock.analog_within, Apps.Clock.digital_straddles, Apps.Clock.digital_within, Apps.Link.nested_opens, Apps.Link.run_clicks, Apps.counter_loses_click, Cells.cells_circle_restless, Cells.cells_idle_partial, Cells.cells_typed, Classes.class_attribute, Classes.class_call, Comb.pendAfter_never_ready, Comb.pendAfter_polls, Comb.repoll_vec_ready_again, Comb.spurious_poll, Css.css_postfix, Css.css_shipped_iff, Drag.drag_no_gap, Drag.drag_paddings, Drag.drag_plays, Drag.drag_reports_partial, Drag.drag_room, Drag.drag_self_stale, Drag.drag_sound, Drop.drop_elsewhere, Drop.drop_same_address_panics, Drop.drop_unpolled_combinator, Drop.drop_unpolled_partial, Drop.unmount_idle_partial, Drop.unmount_panics, Dropdown.dropdown_repeated, Exec.install_after_timer, Exec.install_before_timer_partial, Exec.nested_run_absorbed, Exec.never_reentrant, Exec.no_panic, Exec.wake_not_lost, Flow.Guide.component_page, Flow.Guide.lotsOfSpan_page, Flow.join_text, Flow.meanwhile_text, Flow.pendAfter_page, Flow.poll_idle, Html.element_typed_iff, Lists.diffed_documented_example, Lists.diffed_wrong_order, Lists.dynamic_work_any, Lists.modeled_swap_neighbours, Lists.renderCtx_item, Lists.second_render_ctx_panics, Lists.shownIn_exact, Lists.shows_exact, Lists.smooth_of_same_order, Lists.stepW_same, Lists.virtual_few, Lists.virtual_first_gap, Lists.virtual_in_view_partial, Lists.virtual_length_partial, Lists.virtual_noGap, Lists.virtual_past_end, Lists.virtual_placed, Lists.virtual_second, Lists.virtual_setNum_length, Lists.virtual_shrink_grow_panics, Lists.virtual_stale, Live.early_change_is_not_seen, Live.first_of_two_events_is_lost, Live.nested_event_is_late, Live.nested_run_now, Live.set_is_not_seen, Nested.list_removed_not_polled, Slot.slot_drops, Slot.slot_only_polls, Slot.slot_polls, Slot.slot_repolls, Slot.slot_total, Slot.slot_touchy, Slot.slot_wakes, Todo.todo_double_click, Wakers.woken_counted, XBow.Data.get_set, XBow.Data.get_set_below, XBow.Data.get_set_disjoint, XBow.Data.get_set_enclosing, XBow.Data.get_typed, XBow.Data.guaranteed_ok, XBow.Data.number_keys, XBow.Data.set_get, XBow.Data.set_iff_get, XBow.Data.set_set, XBow.Data.set_typed, XBow.Data.string_keys, XBow.Data.unit_key_same_bytes, XBow.Derive.accessor_target, XBow.announced_of_sub, XBow.announced_of_write, XBow.bind_ends, XBow.change_before_first_poll_is_lost, XBow.forEachAsync_missing, XBow.regular_keys_wrap, XBow.regular_meets_bubbling.
* `Classical.choice`, `Quot.sound`, `propext`: App.app_idle_nothing_waits, App.app_no_executor_panic, App.spawned_polled_partial, App.spawned_without_mount_never_polled, Apps.BigList.bigList_elements, Apps.BigList.bigList_few, Apps.BigList.bigList_page, Apps.BigList.bigList_panics_iff, Apps.BigList.bigList_settles, Apps.Clock.analog_arms, Apps.Clock.analog_numbers, Apps.Clock.analog_once, Apps.Clock.digital_every_second, Apps.Clock.digital_partial, Apps.Fibonacci.fibonacci_fits, Apps.Fibonacci.fibonacci_overflows, Apps.Fibonacci.fibonacci_rows_partial, Apps.Fibonacci.push_calls, Apps.Link.link_clicks, Apps.Link.mixed_clicks, Apps.Link.nested_always_opens, Apps.Link.never_opens, Apps.Link.one_listener, Apps.Link.opens_after_first, Apps.Link.opens_iff_by_app, Apps.Timer.slider_start, Apps.Timer.slider_values, Apps.Timer.timer_bounds, Apps.Timer.timer_events, Apps.Timer.timer_exact, Apps.Timer.timer_idle, Apps.Timer.timer_order_matters, Apps.Timer.timer_runs, Apps.Timer.timer_settles, Apps.converter_celsius, Apps.converter_fahrenheit, Apps.converts, Apps.counter_counts, Apps.counter_one, Apps.flight_idle, Apps.fold_events, Apps.playground, Apps.playground_clear, Apps.playground_click, Apps.same_day, Apps.timer_idle, Arena.arena_call_ok, Arena.arena_handles_distinct, Arena.arena_iter, Cell.change_wakes, Cell.forEach_first, Cell.forEach_next, Cell.forEach_up_to_date, Cell.forEach_woken, Cell.fresh_listener_pending, Cell.no_panic, Cell.polled_listener_covers_partial, Cell.ready_iff_changed, Cells.cells_alias, Cells.cells_panics, Cells.cells_range, Cells.cells_self_wrong, Cells.cells_settle, Cells.cells_sum_text, Cells.cells_values, Cells.demo_circle, Circles.circles_menu_after_undo, Circles.circles_menu_panics, Circles.circles_nearest, Circles.circles_undo_redo_partial, Classes.class_call_panics_iff, Classes.class_last_call_wins, Classes.css_class_applies, Classes.css_constant_usable, Comb.answered, Comb.first_poll_in_order, Comb.join_completes, Comb.join_empty, Comb.join_no_panic, Comb.join_output, Comb.join_pending, Comb.meanwhile_completes_iff, Comb.meanwhile_g_not_repolled, Comb.meanwhile_g_returns, Comb.meanwhile_no_panic, Comb.meanwhile_not_stuck, Comb.never_stuck, Comb.no_memory_error, Comb.not_kept_is_returned, Comb.once_per_poll, Comb.pendAfter_drops_inner_once, Comb.poll_justified_partial, Comb.raceOk_completes, Comb.raceOk_first_success, Comb.raceOk_no_panic, Comb.raceOk_output, Comb.raceOk_pending, Comb.race_first_wins, Comb.race_no_panic, Comb.race_ready_only, Comb.released_at_most_once, Comb.released_exactly_once, Comb.repoll_panics_partial, Comb.repoll_race_polls_finished, Comb.repoll_vec_polls_finished, Comb.select_arm_only, Comb.select_drops, Comb.select_first_wins, Comb.select_in_order, Comb.select_no_panic, Comb.select_pending, Comb.select_polls, Comb.select_wakes, Comb.tryJoin_completes, Comb.tryJoin_first_failure, Comb.tryJoin_no_panic, Comb.tryJoin_output, Comb.tryJoin_pending, Comb.wake_reaches_task, Comb.woken_is_polled, Crud.crud_delete_twice, Crud.crud_deletes_hidden, Crud.crud_filter_partial, Crud.crud_filter_stale, Crud.crud_panics_iff, Crud.crud_shows_partial, Css.css_backslash, Css.css_clash, Css.css_classes_match, Css.css_comment, Css.css_escape, Css.css_nested, Css.css_other_group, Css.css_partial, Css.css_shipped_partial, Dom.cmp_eq_iff, Dom.cmp_lt_iff_sourceBefore, Dom.cmp_swap, Dom.cmp_trans, Dom.dom_order_is_source_order, Dom.item_content_contiguous, Dom.nextSibling_overflow_all, Dom.range_is_subtree_partial, Dom.render_history_agrees, Dom.render_keeps_others, Dom.second_render_leaks, Dom.second_render_panics, Dom.second_render_release, Dom.unrender_exact, Drop.drop_item_unrenders, Drop.drop_takes, Drop.drop_unpolled_iff, Drop.drop_unpolled_vacant_partial, Drop.drop_unrenders_any_address_partial, Drop.drop_unrenders_iff, Drop.drop_unrenders_partial, Drop.unmount_panics_iff, Drop.unmount_removes_partial, Dropdown.dropdown_blank, Dropdown.dropdown_deselect_fails, Dropdown.dropdown_order_iff, Dropdown.dropdown_order_partial, Dropdown.dropdown_removed_value, Dropdown.dropdown_reselects, Dropdown.dropdown_shows, Dropdown.dropdown_value, Dropdown.dropdown_value_partial, Dropdown.dropdown_value_set, Dropdown.dropdown_wrong_choice, Events.stream_drop_iff, Events.stream_drop_partial, Events.stream_leak, Events.stream_listens, Events.stream_order, Events.stream_poll, Events.stream_throws_iff, Events.stream_wakes, Exec.one_timer_per_quiet_period, Exec.run_drains, Flow.Guide.countdown_not_early, Flow.Guide.countdown_on_time, Flow.Guide.countdown_page, Flow.Guide.showAndRemove_page, Flow.Guide.showAndRemove_stays, Flow.Guide.slot_any_in_time, Flow.Guide.slot_in_time, Flow.Guide.slot_not_restarted, Flow.Guide.slot_page, Flow.Guide.slot_same_as_race, Flow.Login.login_admits, Flow.Login.login_needs_password, Flow.Login.login_no_dead_end, Flow.Login.login_page, Flow.Login.login_refuses, Flow.Login.login_shows_choice, Flow.runFor_ends, Html.bold_and_italic, Html.element_named, Lists.diffed_in_order_partial, Lists.diffed_items, Lists.diffed_update_iff, Lists.diffed_update_work, Lists.dynamicList_in_order_partial, Lists.dynamic_work, Lists.earlier_sibling_misplaced, Lists.listItems_shown_partial, Lists.listModel_contents, Lists.listModel_edits_iff, Lists.listModel_log, Lists.listModel_log_bounded, Lists.listModel_version, Lists.list_keeps_place_partial, Lists.lists_nested_partial, Lists.missing_key_panics, Lists.modeled_keeps_items_partial, Lists.modeled_mirrors_partial, Lists.modeled_modified_work, Lists.modeled_other_work, Lists.modeled_update_work, Lists.move_before_itself, Lists.move_before_itself_breaks, Lists.nested_call, Lists.nested_moved_panics, Lists.nested_outer_dropped, Lists.nested_outer_elsewhere, Lists.removed_item_panics, Lists.removed_item_unmarked, Lists.second_render_panics, Lists.swap_directly_before, Lists.swap_directly_before_breaks, Lists.virtual_in_bounds_partial, Lists.virtual_in_view_shown_partial, Lists.virtual_keeps_items_partial, Lists.virtual_restart_panics, Lists.virtual_window_partial, Live.event_is_handled_in_time_partial, Live.event_is_yielded, Live.every_event_is_yielded, Live.idle_app, Live.idle_cell_forEach, Live.idle_cell_listener, Live.idle_event_yielded, Live.idle_form, Live.idle_loop, Live.idle_store_forEach, Live.idle_store_signal, Live.returns_idle, Live.returns_not_woken, Live.told_read_current, Nested.list_item_is_served, Nested.list_item_waits, Nested.list_polls_only_woken, Nested.nested_poll_reaches_part, Nested.nested_wake_is_served, Nested.nested_wake_reaches_task, Slot.slot_replaced, Todo.todo_plays, Todo.todo_screen, Todo.todo_settles, Tree.document_is_component_tree, Wakers.all_freed, Wakers.allocated_iff_owned, Wakers.no_memory_error, Wakers.wake_marks_target, Whole.whole_app_partial, Whole.whole_items, XBow.Data.bytes_inj, XBow.Data.bytes_prefix_iff, XBow.Data.typed_bubbling_ready_iff, XBow.Data.typed_ready_iff, XBow.Data.unit_key_false_ready, XBow.Derive.accessors_are_numbered, XBow.Derive.derive_fails_iff, XBow.Derive.enum_hides_no_method, XBow.Derive.enum_names_can_clash, XBow.Derive.enum_names_differ_iff, XBow.Derive.enum_names_differ_partial, XBow.Derive.every_accessor_has_a_field, XBow.Derive.every_tracked_field_has_an_accessor, XBow.Derive.module_types_differ_partial, XBow.Derive.numbers_agree, XBow.Derive.path_method_hidden_iff, XBow.Derive.path_methods_can_be_hidden, XBow.Derive.skip_can_be_overlooked, XBow.Derive.struct_names_differ, XBow.Derive.types_can_clash, XBow.Derive.variant_attributes_are_ignored, XBow.all_released, XBow.bind_first_call_skipped, XBow.bind_first_partial, XBow.bind_in_sync, XBow.bind_incoming, XBow.bind_next, XBow.bubbling_ignores_depth, XBow.change_ready_above, XBow.change_ready_below, XBow.change_wakes_above, XBow.change_wakes_below, XBow.entries_are_needed, XBow.forEachAsync_replaces, XBow.forEachAsync_up_to_date, XBow.forEach_first, XBow.forEach_next, XBow.forEach_up_to_date, XBow.forEach_woken, XBow.fresh_listener_pending, XBow.no_panic, XBow.ready_iff_enclosing_changed, XBow.ready_iff_inside_changed, XBow.regular_keys_differ_partial, XBow.root_not_ready_for_deep_change_partial, XBow.signal_first, XBow.signal_next, XBow.signal_up_to_date.
