{
 "claims": [
  {
   "property": "C01",
   "status": "proved",
   "theorems": [
    "Verif.Algorithm.find_if_first",
    "Verif.Algorithm.find_first_of_first",
    "Verif.Algorithm.find_last_of_last"
   ],
   "note": ""
  },
  {
   "property": "C02",
   "status": "proved",
   "theorems": [
    "Verif.Algorithm.equal_iff",
    "Verif.Algorithm.equal_isPrefix",
    "Verif.Algorithm.mismatch_first"
   ],
   "note": ""
  },
  {
   "property": "C03",
   "status": "proved",
   "theorems": [
    "Verif.Algorithm.search_first",
    "Verif.Algorithm.search_empty"
   ],
   "note": ""
  },
  {
   "property": "C04",
   "status": "proved",
   "theorems": [
    "Verif.Algorithm.fill_n_effect",
    "Verif.Algorithm.fill_effect",
    "Verif.Algorithm.copy_effect",
    "Verif.Algorithm.copy_n_effect",
    "Verif.Algorithm.copy_backward_effect",
    "Verif.Algorithm.reverse_effect",
    "Verif.Algorithm.reverse_list",
    "Verif.Algorithm.reverse_reverse"
   ],
   "note": ""
  },
  {
   "property": "C05",
   "status": "proved",
   "theorems": [
    "Verif.Algorithm.min_element_spec",
    "Verif.Algorithm.min_max_element_empty",
    "Verif.Algorithm.max_element_spec",
    "Verif.Algorithm.min2_max2_spec",
    "Verif.Algorithm.clamp_spec"
   ],
   "note": ""
  },
  {
   "property": "C06",
   "status": "partial",
   "theorems": [
    "Verif.Heap.make_heap_spec",
    "Verif.Heap.push_heap_spec",
    "Verif.Heap.pop_heap_spec",
    "Verif.Heap.restore_up_spec",
    "Verif.Heap.push_value_spec",
    "Verif.Heap.pop_spec",
    "Verif.Heap.heap_root_extremal",
    "Verif.Heap.make_heap_empty_undefined",
    "Verif.Utility.pop_heap_int_partial",
    "Verif.Utility.pop_heap_single_zeroes"
   ],
   "note": "Proved for every element type swapped through a temporary, and for integers in heaps of two or more. Popping a heap of one integer sets it to zero (pop_heap_single_zeroes). make_heap on an empty range is undefined in the code (make_heap_empty_undefined)."
  },
  {
   "property": "C07",
   "status": "proved",
   "theorems": [
    "Verif.PriorityQueue.priority_queue_history",
    "Verif.PriorityQueue.priority_queue_size",
    "Verif.PriorityQueue.priority_queue_drain",
    "Verif.PriorityQueue.top_extremal",
    "Verif.PriorityQueue.push_spec",
    "Verif.PriorityQueue.pop_spec",
    "Verif.PriorityQueue.erase_spec",
    "Verif.PriorityQueue.erase_if_spec",
    "Verif.PriorityQueue.erase_single_undefined",
    "Verif.PriorityQueue.emplace_returns_other_element"
   ],
   "note": "Also proved: erase/erase_if on queues of two or more; erase of the only element is undefined; emplace's returned accessor can denote another element."
  },
  {
   "property": "C08",
   "status": "proved",
   "theorems": [
    "Verif.Deque.deque_history",
    "Verif.Deque.queue_fifo",
    "Verif.Deque.push_back_full_loses_contents",
    "Verif.Deque.emplace_front_wrong",
    "Verif.Deque.emplace_front_effect"
   ],
   "note": "emplace_front (outside the listed operations) is wrong in the code: emplace_front_wrong. Overfull push_back is outside the contract; its effect is push_back_full_loses_contents."
  },
  {
   "property": "C09",
   "status": "partial",
   "theorems": [
    "Verif.Deque.deque_iteration_partial",
    "Verif.Deque.deque_iteration_full"
   ],
   "note": "Fails in the code for full deques (deque_iteration_full proves that for every full reachable deque); proved for every non-full reachable deque."
  },
  {
   "property": "C10",
   "status": "partial",
   "theorems": [
    "Verif.DynArray.edits_agree_partial",
    "Verif.DynArray.erase_returns",
    "Verif.DynArray.resize_grow_exposes_stale",
    "Verif.DynArray.resize_grow_ignored",
    "Verif.DynArray.erase_bytes_effect",
    "Verif.DynArray.erase_byte_elements",
    "Verif.DynArray.erase_wide_wrong",
    "Verif.DynArray.init_list_holds"
   ],
   "note": "Proved over all in-capacity histories of push_back/append/insert/erase/pop_back/shrinking resize/clear/assign. Missing because the code is wrong there: erase of elements wider than one byte (memmove length not scaled), growing resize."
  },
  {
   "property": "C100",
   "status": "partial",
   "theorems": [
    "Verif.Log.log_lines_partial",
    "Verif.Log.set_restores",
    "Verif.Log.tag_percent_undefined",
    "Verif.Log.tag_percent_lost"
   ],
   "note": "Proved for every history of calls whose tags have no percent sign. Missing because the code is wrong there, each proved generally: the tag is used as a format, so a percent sign in it makes the call undefined, or two of them come out as one. Flags and widths in formats are not modelled; ESP_LOG_BUFFER_HEX expands to nothing."
  },
  {
   "property": "C101",
   "status": "partial",
   "theorems": [
    "Verif.Streams.virtual_texts_partial",
    "Verif.Streams.virtual_chain",
    "Verif.Streams.virtual_put_lost",
    "Verif.Streams.file_chain_partial",
    "Verif.Streams.file_full",
    "Verif.Streams.file_flush_ignored",
    "Verif.Streams.file_endl_does_not_flush",
    "Verif.Streams.file_device_partial",
    "Verif.Streams.file_reads",
    "Verif.Streams.file_readsome_nothing"
   ],
   "note": "Proved for every chain of insertions and every sequence of reads, over a C FILE described from the C standard. Missing because the code is wrong there, each proved for every chain: through the virtual interface single characters, newlines and fills never arrive (overflow drops its argument), and only eofbit tells; flush and endl do not call fflush, so with a fully buffered file nothing reaches the device until its buffer is full; readsome never reads from a file. get, peek and >> on a posix_streambuf do not compile."
  },
  {
   "property": "C102",
   "status": "partial",
   "theorems": [
    "Verif.Lists.Locks.lockable_list_history_partial",
    "Verif.Lists.Locks.forward_moves_balanced_partial",
    "Verif.Lists.Locks.reads_stay_locked",
    "Verif.Lists.Locks.pass_locks_every_node",
    "Verif.Lists.Locks.step_back_unlocks_the_wrong_node",
    "Verif.Lists.Locks.step_back_from_end_undefined",
    "Verif.Lists.Locks.add_moves",
    "Verif.Lists.Locks.add_negative_undefined",
    "Verif.Lists.Locks.sub_int_never_returns",
    "Verif.Lists.Locks.difference_counts",
    "Verif.Lists.Locks.front_back_unprotected"
   ],
   "note": "Proved for every history: contents, positions, and the exact number of locks left on each node. Missing because the code is wrong there, each proved after every history: *it locks and nothing unlocks, so every pass over a list locks every node once more; --it leaves the node it came from locked and unlocks the one it reaches (at the first node: the invalid handle, and the result equals end()); --end() is undefined; += with a negative number is undefined; it - n calls itself for ever; front() and back() return addresses that no lock protects. The before_beginning flag is left out: list iterators never set it."
  },
  {
   "property": "C103",
   "status": "partial",
   "theorems": [
    "Verif.PoolShared.pooled_objects_partial",
    "Verif.PoolShared.pooled_objects_never_destroyed",
    "Verif.PoolShared.pooled_destroy_sole_owner",
    "Verif.PoolShared.pooled_destroy_shared",
    "Verif.PoolShared.pooled_copy_after_reset",
    "Verif.PoolShared.pooled_construct_twice_leaks",
    "Verif.PoolShared.pooled_exhausted_undefined"
   ],
   "note": "Proved for every history of a careful caller on every pool. Missing because the code is wrong there, each proved after every history: the destructor of a pooled object never runs (Deleter destroys the shared pointer only, its room for the object is plain bytes); pool.destroy(p) on the only owner returns the slot twice, so that every later request answers it, and under handles gives their slot to the next object; copies of a handle made after p.reset() are not counted, so the slot goes back under them; construct() on an empty pool is undefined. That pool and pool_item survive the construction of the shared pointer over them is assumed."
  },
  {
   "property": "C104",
   "status": "partial",
   "theorems": [
    "Verif.Unordered.Multi.multi_history_partial",
    "Verif.Unordered.Multi.multi_history_no_erase",
    "Verif.Unordered.Multi.add_order",
    "Verif.Unordered.Multi.find_first_added",
    "Verif.Unordered.Multi.add_refused_iff",
    "Verif.Unordered.Multi.add_undefined_iff",
    "Verif.Unordered.Multi.range_same_bucket",
    "Verif.Unordered.Multi.range_shows_others",
    "Verif.Unordered.Multi.add_clobber_miscounts"
   ],
   "note": "Proved for every history without erasures of single elements, and with erasures for every history in which no insertion takes the slot of an erased element in front of elements of another bucket and erased elements have bucket numbers below 64 (C22). Missing because the code is wrong there, each proved generally: equal_range_exp gives the whole bucket, other keys and erased slots included, even for a key nothing is stored under; an insertion that takes an erased slot hides elements of other buckets; a bucket that reaches the end of the array makes insertion read (and possibly construct) behind it."
  },
  {
   "property": "C105",
   "status": "partial",
   "theorems": [
    "Verif.Bip.Handler.in_shared_partial",
    "Verif.Bip.Handler.in_alone",
    "Verif.Bip.Handler.in_loses",
    "Verif.Bip.Handler.in_overwrites",
    "Verif.Bip.Handler.out_shared_partial",
    "Verif.Bip.Handler.out_alone",
    "Verif.Bip.Handler.out_garbles",
    "Verif.Bip.Handler.out_replays",
    "Verif.Bip.Handler.out_jams",
    "Verif.Bip.Handler.out_overflows"
   ],
   "note": "Proved for every schedule in which a call that an interrupt can cut into never takes the last byte: with the handler as producer, the main program takes the last bytes with interrupts masked; with the handler as consumer, it leaves a byte of the first region while an offer is in progress. Missing because the code is wrong there, each proved for every such buffer: a poll that drains the buffer loses an offer that arrives between its comparison and its stores, or lets two offers overwrite each other; a handler that drains the first region in the middle of an offer makes the offer be replaced by old bytes, makes delivered bytes be delivered again, leaves the buffer refusing everything for ever, or makes the offer be written past the array. One processor and accesses in program order are assumed; the handler is atomic, and the members are plain (not volatile) in the code."
  },
  {
   "property": "C106",
   "status": "partial",
   "theorems": [
    "Verif.DynArray.memmove_insert_partial",
    "Verif.DynArray.memmove_insert_wide_wrong",
    "Verif.DynArray.fixed_check_never_refuses",
    "Verif.DynArray.fixed_check_fits_partial",
    "Verif.DynArray.fixed_check_overruns",
    "Verif.Growable.checked_append_partial",
    "Verif.Growable.checked_history_partial",
    "Verif.Growable.refused_append_loses",
    "Verif.Growable.retried_append_ub",
    "Verif.Growable.unchecked_operations_ub",
    "Verif.Growable.answers_zero"
   ],
   "note": "Proved: the memmove option changes nothing for one-byte elements; a program over a growable vector that stops when an append reports failure does nothing undefined whatever the allocator refuses, and all answers are right. Missing because the code is wrong there, each proved generally: the memmove option corrupts containers of wider elements; over a fixed buffer the check never refuses and overruns as before; a refused append empties the vector, and trying again is undefined; emplace_back, insert and appending an array ignore the check; push_back of an rvalue and appending an array answer 0. With APPEND_TRUNC (builds without exceptions) the option does not compile."
  },
  {
   "property": "C107",
   "status": "partial",
   "theorems": [
    "Verif.Deque.Handler.in_shared_partial",
    "Verif.Deque.Handler.in_alone",
    "Verif.Deque.Handler.in_wipes",
    "Verif.Deque.Handler.in_refuses",
    "Verif.Deque.Handler.out_shared_partial",
    "Verif.Deque.Handler.out_alone",
    "Verif.Deque.Handler.out_garbage",
    "Verif.Deque.Handler.out_replays",
    "Verif.Deque.Handler.out_wrap_replays",
    "Verif.Deque.Handler.out_refuses"
   ],
   "note": "Proved for every schedule in which a handler that pushes does not fill the queue while a pop is between its two looks at the ends, and one that pops does not take the last element while a push is between its stores. Missing because the code is wrong there, each proved for every capacity and contents: filling the queue inside a pop loses all its elements (in_wipes); emptying it inside a push delivers a stale element for the new one (out_garbage) or makes the queue claim to be full of elements already delivered (out_replays, out_wrap_replays); and an empty queue is taken for a full one, so that elements are refused (in_refuses, out_refuses). One core, no reordering except of the two stores named."
  },
  {
   "property": "C108",
   "status": "partial",
   "theorems": [
    "Verif.Pool.Handler.shared_pool_partial",
    "Verif.Pool.Handler.scratch_id",
    "Verif.Pool.Handler.alloc_alone",
    "Verif.Pool.Handler.free_alone",
    "Verif.Pool.Handler.alloc_taken",
    "Verif.Pool.Handler.alloc_twice",
    "Verif.Pool.Handler.alloc_twice_reused",
    "Verif.Pool.Handler.alloc_loses",
    "Verif.Pool.Handler.free_twice",
    "Verif.Pool.Handler.free_loses"
   ],
   "note": "Proved for every schedule in which an interrupt inside a call of the main program gives back all it takes, last first. Missing because the code is wrong there, each proved after every such history: an allocation inside an allocation makes it dereference a null pointer (last block) or gives both the same block; a free inside an allocation or a free loses the block for good; an allocation inside a free leaves the block in the free list, to be given away again. One core, no reordering of stores."
  },
  {
   "property": "C109",
   "status": "partial",
   "theorems": [
    "Verif.SharedPtr.Tasks.tasks_share_partial",
    "Verif.SharedPtr.Tasks.copy_alone",
    "Verif.SharedPtr.Tasks.drop_alone",
    "Verif.SharedPtr.Tasks.short_count_deletes",
    "Verif.SharedPtr.Tasks.copies_miscount",
    "Verif.SharedPtr.Tasks.drops_miscount",
    "Verif.SharedPtr.Tasks.drops_delete_twice",
    "Verif.SharedPtr.Tasks.copy_during_reset"
   ],
   "note": "Proved for any number of tasks whose calls are in critical sections, with copies that are made and destroyed at one go allowed at any time; no copies after the master's reset (C29), fewer than 65535 owners, the master is not destroyed. Missing because the code is wrong there, each proved in every such state: the count is not atomic, so of two overlapping copies one is not counted and the object can be deleted under an owner; of two overlapping releases one is not counted and the object is never deleted; two last owners that go together both delete it; a copy of the master overlapping its reset yields a handle to a deleted object."
  },
  {
   "property": "C11",
   "status": "partial",
   "theorems": [
    "Verif.DynArray.overfull_append_aborts_partial",
    "Verif.DynArray.overfull_insert_aborts_partial",
    "Verif.DynArray.overfull_single_aborts_partial",
    "Verif.DynArray.fitting_request_succeeds",
    "Verif.DynArray.overfull_append_release",
    "Verif.DynArray.overfull_push_release",
    "Verif.DynArray.overfull_append_wraps",
    "Verif.DynArray.terminator_overrun",
    "Verif.DynArray.init_list_overfull_ub",
    "Verif.DynArray.init_list_terminator_ub"
   ],
   "note": "Overfull requests do no damage only when assert is compiled in and the total fits size_type (the program stops); otherwise the code writes outside the buffer, proved for every such request."
  },
  {
   "property": "C110",
   "status": "partial",
   "theorems": [
    "Verif.Pgm.read_value",
    "Verif.Pgm.read_signed",
    "Verif.Pgm.string_shown",
    "Verif.Pgm.string_reads_partial",
    "Verif.Pgm.string_compare_partial",
    "Verif.Pgm.arduino_text",
    "Verif.Pgm.arduino_overruns",
    "Verif.Pgm.long_text",
    "Verif.Pgm.copy_elsewhere_partial",
    "Verif.Pgm.copy_past_end",
    "Verif.Pgm.copy_past_memory",
    "Verif.Pgm.array_reads_partial",
    "Verif.Pgm.array_copy_past_end",
    "Verif.Pgm.test_container_partial",
    "Verif.Pgm.test_container_wrong"
   ],
   "note": "Proved for every contents of program memory. Missing because the code is wrong there, each proved generally: text without a given size is cut at 256 characters, does not equal itself and equals its first 256 characters; copy(dest, count, pos) limits the count by the size and not by what is left after pos, so that what follows in memory is copied and counted too; test_container::operator[] multiplies the index by the element size twice; printing on Arduino ignores the given size. Strings of different lengths are ordered by length, as in C14. Operations that need the text in RAM (find, comparison with other strings, starts_with) do not compile for these types; far addresses are not modelled."
  },
  {
   "property": "C111",
   "status": "partial",
   "theorems": [
    "Verif.Units.number_history",
    "Verif.Units.number_compare_partial",
    "Verif.Units.number_negative",
    "Verif.Units.field_history_partial",
    "Verif.Units.year_plus",
    "Verif.Units.month_beyond",
    "Verif.Units.month_before"
   ],
   "note": "Proved for every history whose end the type can hold. Missing because the code is wrong there, each proved generally: months are not counted round the year (beyond December and before January the result is no month); an unsigned count compared with a negative number is less, by the conversions of C++ that the operators rely on."
  },
  {
   "property": "C112",
   "status": "partial",
   "theorems": [
    "Verif.Streams.Timed.timed_write_partial",
    "Verif.Streams.Timed.one_attempt",
    "Verif.Streams.Timed.write_returns",
    "Verif.Streams.Timed.no_pause_spins",
    "Verif.Streams.Timed.overrun",
    "Verif.Streams.Timed.overrun_undefined",
    "Verif.Streams.Timed.timeout_silent",
    "Verif.Streams.Timed.plain_write",
    "Verif.Streams.Timed.default_never_retries"
   ],
   "note": "Proved for every device that never has room for more than is left, and for every device that takes everything at once. Missing because the code is wrong there, each proved generally: every attempt offers the whole length from where the last one ended, so a device with room to spare receives what follows the text in memory, or memory is read where there is none; that the time is up is not told; without a pause only the clock bounds the attempts; with the default settings the pause is as long as the limit and there is no second attempt."
  },
  {
   "property": "C113",
   "status": "partial",
   "theorems": [
    "Verif.Span.span_history_partial",
    "Verif.Span.spans_are_shallow",
    "Verif.Span.bytes_are_elements",
    "Verif.Span.rest_reaches_past"
   ],
   "note": "Proved for every history of requests inside the spans, with any number of spans over one array. Missing because the code is wrong there, proved generally: subspan(offset) with the count left out keeps the size of the whole span, so that loops and writes below size() reach what follows in memory. first<count>() does not compile. Memory is assumed smaller than the largest size_t."
  },
  {
   "property": "C114",
   "status": "partial",
   "theorems": [
    "Verif.DynArray.Handler.shared_vector_partial",
    "Verif.DynArray.Handler.exactly_once",
    "Verif.DynArray.Handler.undefined_iff",
    "Verif.DynArray.Handler.drain_loses",
    "Verif.DynArray.Handler.take_loses",
    "Verif.DynArray.Handler.push_loses",
    "Verif.DynArray.Handler.push_garbage",
    "Verif.DynArray.Handler.push_replays"
   ],
   "note": "Proved for every schedule in which a handler that runs between the load of the size and its store, or while elements are read and removed, takes back all it put in; between the two stores of a push it may leave elements. Missing because the code is wrong there, each proved for every vector: an element that comes in during a loop-and-clear is lost, one that comes in between back() and pop_back() is removed in place of the one read, one that comes in between load and store of the size is overwritten; a handler that empties the vector inside a push is given stale memory for the new element, or finds the old elements there again. One core, no reordering of loads and stores; a push into a full vector is undefined (C11)."
  },
  {
   "property": "C115",
   "status": "partial",
   "theorems": [
    "Verif.DynArray.Reader.reader_partial",
    "Verif.DynArray.Reader.append_seen",
    "Verif.DynArray.Reader.whole_is_append",
    "Verif.DynArray.Reader.append_garbles",
    "Verif.DynArray.Reader.assign_mixes",
    "Verif.DynArray.Reader.handler_text_lost",
    "Verif.DynArray.Reader.handler_text_spoilt"
   ],
   "note": "Proved for every history of edits and every moment inside an edit that adds at most one character, removes the last or clears. Missing because the code is wrong there, each proved generally and exactly: the terminator is stored before the characters, so that inside a longer append a reader finds what older texts left in memory; inside an assignment it finds a mixture of both texts; and a handler that appends inside a push loses its text or its first character. Stores are not reordered."
  },
  {
   "property": "C116",
   "status": "partial",
   "theorems": [
    "Verif.Lists.Reader.walk_partial",
    "Verif.Lists.Reader.whole_is_step",
    "Verif.Lists.Reader.insert_seen",
    "Verif.Lists.Reader.insert_hides",
    "Verif.Lists.Reader.insert_endless",
    "Verif.Lists.Reader.replace_neither",
    "Verif.Lists.Reader.loop_partial",
    "Verif.Lists.Reader.moved_revisits",
    "Verif.Lists.Reader.moved_away"
   ],
   "note": "Proved for every history and every moment inside a push, pop, erasure, clear, or insertion of a node that is already linked; and for every loop while handlers add nodes and take out any but the one the loop is about to visit. Missing because the code is wrong there, each proved generally: an insertion publishes the node before it is linked, so that a handler does not find the rest, or never comes back; a replacement passes through a list with neither node; a loop whose node is moved starts over or goes on in another list. One core, stores are not reordered."
  },
  {
   "property": "C117",
   "status": "partial",
   "theorems": [
    "Verif.Mailbox.out_shared",
    "Verif.Mailbox.in_shared",
    "Verif.Mailbox.in_single_partial",
    "Verif.Mailbox.flat_single_partial",
    "Verif.Mailbox.over_torn",
    "Verif.Mailbox.in_torn",
    "Verif.Mailbox.flat_torn",
    "Verif.MailboxBits.out_bits_shared",
    "Verif.MailboxBits.out_bits_exact",
    "Verif.MailboxBits.out_bits_arrives",
    "Verif.MailboxBits.in_bits_shared",
    "Verif.MailboxBits.in_bits_single_partial",
    "Verif.MailboxBits.over_bits_undoes_reset",
    "Verif.MailboxBits.in_bits_erased"
   ],
   "note": "Proved for every schedule when the side that puts looks first, in both directions, also for the bit-field flavour whose value and flag share a word; for values of one word also when the handler does not look first (nothing is invented or repeated) and without a flag. Missing because the code is wrong there, each proved generally: a value assigned over another is read torn and the newer one lost; layer1::optional of several words is torn although everyone looked first; the bit-field flavour, assigned over a value, undoes the other side's reset or is undone by it. One core, trivially copied values, accesses are not reordered."
  },
  {
   "property": "C118",
   "status": "partial",
   "theorems": [
    "Verif.Unordered.Reader.insert_whole",
    "Verif.Unordered.Reader.erase_whole",
    "Verif.Unordered.Reader.clear_whole",
    "Verif.Unordered.Reader.insert_answers_partial",
    "Verif.Unordered.Reader.insert_keeps",
    "Verif.Unordered.Reader.erase_keeps_partial",
    "Verif.Unordered.Reader.erase_true",
    "Verif.Unordered.Reader.erase_gone",
    "Verif.Unordered.Reader.clear_true",
    "Verif.Unordered.Reader.clear_rest",
    "Verif.Unordered.Reader.insert_stale",
    "Verif.Unordered.Reader.erase_hides"
   ],
   "note": "Proved for every array, hash and moment: other keys during an insertion are told as before or as after it; during an erasure every key that is not further on in the same bucket is told as before, and whatever is found is true; the erased key is gone from the first store on; a clear shows only elements that were there. Missing because the code is wrong there, each proved generally: the key of an insertion is found with the bytes its slot held before; keys behind an erased one in its bucket are missing until the slot is marked. One core, a key and a value are one store each, stores are not reordered."
  },
  {
   "property": "C119",
   "status": "partial",
   "theorems": [
    "Verif.Heap.Reader.push_whole",
    "Verif.Heap.Reader.pop_whole",
    "Verif.Heap.Reader.push_seen",
    "Verif.Heap.Reader.pop_two_seen",
    "Verif.Heap.Reader.pop_seen_partial",
    "Verif.Heap.Reader.push_first_garbage",
    "Verif.Heap.Reader.pop_shows_last",
    "Verif.Heap.Reader.pop_shows_mix",
    "Verif.Heap.Reader.pop_shows_neither",
    "Verif.Heap.Reader.erase_whole",
    "Verif.Heap.Reader.erase_seen",
    "Verif.Heap.Reader.erase_top_shows_last"
   ],
   "note": "Proved for every push into a queue that is not empty, every pop of two elements, every erasure of an element that is not in front and the size in all calls. Missing because the code is wrong there, each proved generally: the first push tells that there is an element before it is stored; a pop of more shows the last element of the heap, or (integers, swapped with exclusive or) a value that is no element; pop_seen_partial lists everything a pop can show; so does erasing the element in front. One core, an element is one store, stores are not reordered; the vector has a fixed capacity."
  },
  {
   "property": "C12",
   "status": "partial",
   "theorems": [
    "Verif.Strings.find_relative",
    "Verif.Strings.find_partial",
    "Verif.Strings.terminated_no_straddle",
    "Verif.Strings.find_pos_wrong",
    "Verif.Strings.find_reads_past_end",
    "Verif.Strings.find_matches_stale",
    "Verif.Strings.find_pos_past_end",
    "Verif.Strings.find_empty_in_empty",
    "Verif.Strings.rfind_partial",
    "Verif.Strings.rfind_empty_undefined",
    "Verif.Strings.rfind_empty_needle",
    "Verif.Strings.find_char_spec",
    "Verif.Strings.find_first_of_partial",
    "Verif.Strings.find_first_of_past_end",
    "Verif.Strings.find_last_of_partial",
    "Verif.Strings.find_last_of_stale",
    "Verif.Strings.overload_eq",
    "Verif.Strings.search_text_partial",
    "Verif.Strings.find_terminated_partial"
   ],
   "note": "find(ch) proved outright; the other searches proved under the stated side conditions, with the code's deviations (relative result, reads past the end, empty strings) proved as such."
  },
  {
   "property": "C120",
   "status": "partial",
   "theorems": [
    "Verif.Func.Handler.Own.owner_history_partial",
    "Verif.Func.Handler.Own.went_once",
    "Verif.Func.Handler.Point.pointer_history_partial",
    "Verif.Func.Handler.Own.replaced_calls_dead",
    "Verif.Func.Handler.Own.running_dies",
    "Verif.Func.Handler.Own.replaced_twice",
    "Verif.Func.Handler.Own.replaced_leaks",
    "Verif.Func.Handler.Point.tested_then_null"
   ],
   "note": "Proved for every schedule in which handlers call anywhere but between the destruction of the old callback and the clearing of the pointer, and assign where the main program is not assigning, moving or running the callback; for function objects that only point at a callable, for every schedule that does not null one between if(f) and f(). Missing because the code is wrong there, each proved for every state: a guarded call in that window runs a destroyed callback, an assignment in a handler destroys the callback the main program is about to run, destroys one twice or leaks one, and if(f) f() loads the pointer twice."
  },
  {
   "property": "C121",
   "status": "partial",
   "theorems": [
    "Verif.LinkedRef.Handler.visit_restores",
    "Verif.LinkedRef.Handler.visits_history_partial",
    "Verif.LinkedRef.Handler.visit_in_copy",
    "Verif.LinkedRef.Handler.keep_in_copy",
    "Verif.LinkedRef.Handler.keep_in_destroy"
   ],
   "note": "Proved for every schedule in which the handler drops its copy before it returns and does not come between the two stores of an insertion. The code breaks otherwise, each proved in general: in that window the ring is open and a visit follows an unset pointer; a copy the handler keeps while the main program copies the same reference falls out of the ring (the object is destroyed under it, its own destruction never ends); one kept while the main program destroys the next reference is unlinked in its place. Creating and moving are not split."
  },
  {
   "property": "C122",
   "status": "partial",
   "theorems": [
    "Verif.Sum.Shared.looks_partial",
    "Verif.Sum.Shared.assign_across",
    "Verif.Sum.Shared.assign_torn",
    "Verif.Sum.Shared.reads_partial",
    "Verif.Sum.Shared.read_across",
    "Verif.Sum.Shared.read_torn"
   ],
   "note": "Holds in every schedule of a program that changes the alternative with emplace and assigns single words only (looks_partial), and of a handler that puts single words of one alternative (reads_partial). The code departs otherwise, for all alternatives and values: assigning another alternative shows its words under the old index (assign_across), an assignment of several words is seen half done (assign_torn), and a look that a handler cuts takes the words of one alternative for another (read_across) or mixes two values (read_torn)."
  },
  {
   "property": "C123",
   "status": "partial",
   "theorems": [
    "Verif.PriorityQueue.Reentrant.notify_partial",
    "Verif.PriorityQueue.Reentrant.notify_push_loses_order"
   ],
   "note": "Holds for every callback whose new element comes before none of those held (notify_partial). Otherwise the code departs: a callback that pushes leaves a new element that comes before all others stranded at the end but one, and top() is another, for every non-empty queue (notify_push_loses_order)."
  },
  {
   "property": "C124",
   "status": "partial",
   "theorems": [
    "Verif.Unordered.balanced_fits_partial",
    "Verif.Unordered.consecutive_fit",
    "Verif.Unordered.window_fits_partial",
    "Verif.Unordered.spill_starves",
    "Verif.Unordered.five_keys_starve",
    "Verif.Unordered.wrap_refuses"
   ],
   "note": "Proved for every set of keys of which no bucket gets more than fit before the next bucket's start, and so for any keys, in any order, out of N consecutive integers of any type on any target, unless their hashes wrap around in size_t (wrap_refuses). The code is wrong elsewhere, proved in general: one element more is taken from the next bucket's slots, and then every key of that bucket is refused, so five keys can make a map of any size refuse others."
  },
  {
   "property": "C125",
   "status": "partial",
   "theorems": [
    "Verif.IosShared.apart_serial_partial",
    "Verif.IosShared.own_bytes",
    "Verif.IosShared.known_errors_stay",
    "Verif.IosShared.no_error_invented",
    "Verif.IosShared.between_load_and_store",
    "Verif.IosShared.width_forgets_errors",
    "Verif.IosShared.whole_forgets_errors"
   ],
   "note": "Proved for every schedule when the main program's stores leave the handler's fields alone; for every schedule and layout: errors known between two calls of the main program stay known and none is invented; what a handler between load and store loses is stated exactly. Missing because the code is wrong there, proved generally: the fields share memory, so in the default layout setting the width forgets errors the handler has just reported, and where the whole state is stored at once every call does. One core, the handler is not itself interrupted, setf with a mask is two calls."
  },
  {
   "property": "C13",
   "status": "partial",
   "theorems": [
    "Verif.Strings.starts_with_strict",
    "Verif.Strings.starts_with_partial",
    "Verif.Strings.starts_with_self_false",
    "Verif.Strings.starts_with_cstr",
    "Verif.Strings.starts_with_cc",
    "Verif.Strings.ends_with_spec",
    "Verif.Strings.ends_with_cstr",
    "Verif.Strings.starts_ends_with_char_partial",
    "Verif.Strings.char_tests_on_empty"
   ],
   "note": "ends_with and the C-string forms proved outright; starts_with(string) decides the strict prefix relation, so it is wrong for equal strings; single-character forms are wrong on empty strings."
  },
  {
   "property": "C14",
   "status": "partial",
   "theorems": [
    "Verif.Strings.eq_spec",
    "Verif.Strings.compare_shortlex",
    "Verif.Strings.compare_eq_zero",
    "Verif.Strings.compare_total_order",
    "Verif.Strings.compare_lex_partial",
    "Verif.Strings.compare_lex_iff",
    "Verif.Strings.compare_not_lex",
    "Verif.Strings.compare_cstr"
   ],
   "note": "Equality and total order proved; the order is length-first, so it is lexicographic only among strings of equal length."
  },
  {
   "property": "C15",
   "status": "partial",
   "theorems": [
    "Verif.Strings.remove_partial",
    "Verif.Strings.remove_overrun",
    "Verif.Strings.substr_partial",
    "Verif.Strings.substr_overrun",
    "Verif.Strings.subspan_partial",
    "Verif.Strings.subspan_default_overrun",
    "Verif.Strings.copy_out_spec",
    "Verif.Strings.copy_out_past_end"
   ],
   "note": "Proved for requests inside the view; over-long requests are not clamped and subspan's default count overruns."
  },
  {
   "property": "C16",
   "status": "partial",
   "theorems": [
    "Verif.Charconv.to_chars_partial",
    "Verif.Charconv.to_chars_too_large",
    "Verif.Charconv.to_chars_exact_fit_refused",
    "Verif.Charconv.to_chars_min_undefined",
    "Verif.Charconv.to_chars_opt_partial",
    "Verif.Charconv.to_chars_exp_partial",
    "Verif.Charconv.to_chars_exp_sign_overrun",
    "Verif.Charconv.isNumeral_iff"
   ],
   "note": "Fails in the code for a signed minimum (undefined) and for a non-negative numeral exactly as long as the buffer (refused); proved for all other values, bases and buffers."
  },
  {
   "property": "C17",
   "status": "partial",
   "theorems": [
    "Verif.Charconv.from_chars_partial",
    "Verif.Charconv.from_chars_sign_lost",
    "Verif.Charconv.from_chars_empty",
    "Verif.Charconv.from_chars_lone_minus",
    "Verif.Charconv.from_chars_minus_nondigit",
    "Verif.Charconv.from_chars_min_refused",
    "Verif.Charconv.from_chars_overflow_ptr",
    "Verif.Charconv.from_chars_overflow_ptr_wrong",
    "Verif.Charconv.from_chars_empty_signed"
   ],
   "note": "Proved for every non-empty text without a sign and every '-'+digits text not naming the minimum; the code departs from the property elsewhere, shown by the other theorems."
  },
  {
   "property": "C18",
   "status": "partial",
   "theorems": [
    "Verif.Charconv.round_trip_partial",
    "Verif.Charconv.to_chars_min_undefined"
   ],
   "note": "All values except a signed minimum, for which to_chars is undefined."
  },
  {
   "property": "C19",
   "status": "proved",
   "theorems": [
    "Verif.Charconv.from_char_spec",
    "Verif.Charconv.is_in_base_spec",
    "Verif.Charconv.from_char_to_char",
    "Verif.Charconv.to_char_spec",
    "Verif.Charconv.from_char_raw_spec",
    "Verif.Charconv.is_alpha_spec"
   ],
   "note": ""
  },
  {
   "property": "C20",
   "status": "partial",
   "theorems": [
    "Verif.Charconv.num_get_partial",
    "Verif.Charconv.feed_chunks",
    "Verif.Charconv.numGet_feed",
    "Verif.Charconv.num_get_empty_no_fail",
    "Verif.Charconv.num_get_minus_no_fail",
    "Verif.Charconv.num_get_overflow_position",
    "Verif.Charconv.bool_get_spec"
   ],
   "note": "Chunk independence proved outright; value/failbit proved for every text except empty input and a '-' without digits, where the code does not set failbit."
  },
  {
   "property": "C21",
   "status": "partial",
   "theorems": [
    "Verif.Unordered.insert_history_partial",
    "Verif.Unordered.insert_history_readable",
    "Verif.Unordered.first_insert_wins_partial",
    "Verif.Unordered.insert_refused_iff",
    "Verif.Unordered.null_key_refused",
    "Verif.Unordered.lookup_undefined_iff",
    "Verif.Unordered.lookup_undefined_witness",
    "Verif.Unordered.defined_while_last_free",
    "Verif.Unordered.defined_when_readable",
    "Verif.Unordered.insert_behind_end",
    "Verif.Unordered.iteration_always_undefined",
    "Verif.Unordered.iteration_visits_each_once",
    "Verif.Unordered.bucket_size_partial"
   ],
   "note": "Refinement to a finite map over every insertion history, for any hash and bucket count. Excluded, and proved to be exactly where the code departs: a lookup whose bucket runs to the last slot reads past the slots (undefined unless the memory behind is readable), full iteration always does."
  },
  {
   "property": "C22",
   "status": "partial",
   "theorems": [
    "Verif.Unordered.erase_history_partial",
    "Verif.Unordered.fill_then_erase_partial",
    "Verif.Unordered.collision_free_history_partial",
    "Verif.Unordered.gc_active_preserves",
    "Verif.Unordered.gc_active_exact",
    "Verif.Unordered.gc_active_moves",
    "Verif.Unordered.erase_iterator_partial",
    "Verif.Unordered.erase_iterator_last_undefined",
    "Verif.Unordered.erase_reclaims",
    "Verif.Unordered.clobber_breaks",
    "Verif.Unordered.erase_then_insert_duplicates",
    "Verif.Unordered.erase_then_insert_loses",
    "Verif.Unordered.erase_first_slot_undefined",
    "Verif.Unordered.erase_large_bucket_loses",
    "Verif.Unordered.erase_large_bucket_witness",
    "Verif.Unordered.subscript_shows_leftovers",
    "Verif.Unordered.subscript_refused_undefined"
   ],
   "note": "Proved over every mixed history in which no insertion clobbers the mark of an erased slot still needed by its bucket (in particular all insertions before erasures, and collision-free histories). Elsewhere the code is wrong, each proved: duplicates or losses after erase-then-insert, undefined erase in the first slot, buckets longer than the mark can hold."
  },
  {
   "property": "C23",
   "status": "partial",
   "theorems": [
    "Verif.Unordered.set_history_partial",
    "Verif.Unordered.set_insert_history_partial",
    "Verif.Unordered.set_collision_free_history_partial",
    "Verif.Unordered.set_erase_middle_loses",
    "Verif.Unordered.set_erase_middle_witness",
    "Verif.Unordered.set_erase_null_bucket_loses",
    "Verif.Unordered.set_erase_null_bucket_witness",
    "Verif.Unordered.set_erase_last_slot_undefined"
   ],
   "note": "Proved over every history whose erasures hit the last element of their bucket. Erasing another element breaks the chain and loses later members (proved generally)."
  },
  {
   "property": "C24",
   "status": "proved",
   "theorems": [
    "Verif.Lists.forward_list_history",
    "Verif.Lists.erase_after_last_undefined",
    "Verif.Lists.circular_before_begin",
    "Verif.Lists.with_back_push",
    "Verif.Lists.with_back_pop_then_push_loses"
   ],
   "note": "Covers forward_list and intrusive_forward. forward_list_with_back (outside the property) loses elements pushed after pop_front emptied it: with_back_pop_then_push_loses."
  },
  {
   "property": "C25",
   "status": "partial",
   "theorems": [
    "Verif.Lists.remove_if_partial",
    "Verif.Lists.remove_if_effect",
    "Verif.Lists.remove_if_first_only",
    "Verif.Lists.remove_if_adjacent_survives"
   ],
   "note": "Fails in the code when two neighbouring elements match (remove_if_adjacent_survives); remove_if_effect gives the exact result for every list, remove_if_partial the property for lists without adjacent matches."
  },
  {
   "property": "C26",
   "status": "proved",
   "theorems": [
    "Verif.Lists.list_history",
    "Verif.Lists.list_next_prev_inverse",
    "Verif.Lists.insert_at_end_undefined"
   ],
   "note": "insert(end()) on a non-empty list is undefined in the code (insert_at_end_undefined); positions in the property are elements of the list."
  },
  {
   "property": "C27",
   "status": "proved",
   "theorems": [
    "Verif.Pool.pool_create_defined",
    "Verif.Pool.pool_blocks_distinct",
    "Verif.Pool.pool_alloc",
    "Verif.Pool.pool_free_write_defined",
    "Verif.Pool.pool_available"
   ],
   "note": ""
  },
  {
   "property": "C28",
   "status": "partial",
   "theorems": [
    "Verif.Pool.pool_handle_roundtrip_partial",
    "Verif.Pool.pool_handle_out_of_range",
    "Verif.Pool.pool_handle_injective"
   ],
   "note": "Fails in the code for block indices of 128 and above (int8_t handle); the proved theorem is an exact characterisation (iff index < 128)."
  },
  {
   "property": "C29",
   "status": "partial",
   "theorems": [
    "Verif.SharedPtr.shared_ptr_history_partial",
    "Verif.SharedPtr.step_ok",
    "Verif.SharedPtr.copy_after_master_reset",
    "Verif.SharedPtr.premature_delete",
    "Verif.SharedPtr.self_assign_releases",
    "Verif.SharedPtr.access_history_partial",
    "Verif.SharedPtr.get_null_ub",
    "Verif.SharedPtr.moved_from_get_ub",
    "Verif.SharedPtr.reset_master_dangles"
   ],
   "note": "Proved over every history of the 13 operations except two that the code gets wrong (proved as such for every reachable state): copying a handle whose master was reset does not count the copy, and self-assignment releases ownership. get/==/owner_before are right for every handle that points to something, whose object exists; on a null handle they dereference null, and a reset master still hands out its former object (both proved for every state)."
  },
  {
   "property": "C30",
   "status": "partial",
   "theorems": [
    "Verif.LinkedRef.linked_ref_history_partial",
    "Verif.LinkedRef.step_ok",
    "Verif.LinkedRef.count_ok",
    "Verif.LinkedRef.move_sole"
   ],
   "note": "Proved over every history of create/copy/move/destroy except moving a sole reference, where the code breaks the ring (move_sole, for every reachable state); weak references cannot be created (make_weak does not compile)."
  },
  {
   "property": "C31",
   "status": "partial",
   "theorems": [
    "Verif.Bip.fifo_partial",
    "Verif.Bip.offer_spec",
    "Verif.Bip.poll_spec",
    "Verif.Bip.poll_refused",
    "Verif.Bip.peek_spec",
    "Verif.Bip.used_exact",
    "Verif.Bip.accounting",
    "Verif.Bip.empty_accepts",
    "Verif.Bip.offer_begin_end",
    "Verif.Bip.poll_overdraw",
    "Verif.Bip.poll_invents",
    "Verif.Bip.poll_negative"
   ],
   "note": "FIFO proved over every history whose polls stay within the contiguous bytes (or are refused); the code grants larger polls, proved for every reachable state (poll_overdraw, poll_negative)."
  },
  {
   "property": "C32",
   "status": "partial",
   "theorems": [
    "Verif.Sum.Optional.optional_history_partial",
    "Verif.Sum.Optional.eq_spec",
    "Verif.Sum.Optional.self_assign_undefined",
    "Verif.Sum.Layer1.Sentinel.sentinel_history_partial",
    "Verif.Sum.Layer1.Sentinel.ofOptional_spec",
    "Verif.Sum.Layer1.Sentinel.assign_null_empties",
    "Verif.Sum.Layer1.Bits.bits_history",
    "Verif.Sum.Layer1.Bits.bool_history"
   ],
   "note": "Proved over every history on any number of optionals, values and lifetimes, except self-assignment of a non-empty optional of a non-assignable type, which is undefined in the code (proved). The layer1 sentinel flavour cannot store its null value."
  },
  {
   "property": "C33",
   "status": "partial",
   "theorems": [
    "Verif.Sum.Expected.expected_history_partial",
    "Verif.Sum.Expected.copy_of_noncopyable_is_hollow",
    "Verif.Sum.Expected.explicit_assignment_is_lost"
   ],
   "note": "Proved over every history except copying or moving an expected whose current alternative is not copy constructible and assigning only explicitly convertible values, where the code leaves the storage without an object (proved)."
  },
  {
   "property": "C34",
   "status": "partial",
   "theorems": [
    "Verif.Sum.Variant.variant_history_partial",
    "Verif.Sum.Variant.holdsAlternative_spec",
    "Verif.Sum.Variant.emplace_duplicate_type",
    "Verif.Sum.Variant.self_assign_undefined",
    "Verif.Sum.Variant.copy_of_noncopyable_is_hollow"
   ],
   "note": "Proved over every history and number of alternatives except emplace<I> of a type that occurs earlier, self-assignment of a non-assignable alternative and copying a non-copyable one, where the code is wrong (proved)."
  },
  {
   "property": "C35",
   "status": "partial",
   "theorems": [
    "Verif.Streams.sputn_honest",
    "Verif.Streams.span_history_partial",
    "Verif.Streams.span_putn_overrun",
    "Verif.Streams.span_ff_misreported",
    "Verif.Streams.span_seek_before",
    "Verif.Streams.string_history_partial",
    "Verif.Streams.string_putn_wraps",
    "Verif.Streams.string_nul_lost",
    "Verif.Streams.span_takes",
    "Verif.Streams.string_takes",
    "Verif.Streams.buffered_history_partial",
    "Verif.Streams.buffered_putn_loses",
    "Verif.Streams.buffered_putc_drops",
    "Verif.Streams.sync_loses"
   ],
   "note": "Delivered-in-order proved over every history for span, string and buffered output within capacity. Outside that the code is wrong, proved generally: bulk puts past a span overrun, string counts wrap, a buffered bulk put over the room reports lost characters as accepted, 0xFF is misreported."
  },
  {
   "property": "C36",
   "status": "partial",
   "theorems": [
    "Verif.Streams.in_refines_partial",
    "Verif.Streams.no_loss_partial",
    "Verif.Streams.eof_exactly_at_end",
    "Verif.Streams.in_avail_partial",
    "Verif.Streams.in_avail_large",
    "Verif.Streams.ff_reads_as_eof",
    "Verif.Streams.long_text_never_ends",
    "Verif.Streams.sgetn_negative"
   ],
   "note": "Proved over every history of reads, bulk reads, pushbacks and seeks inside the text, for texts under 65536 characters (16-bit position) and, with signed char and the library's own traits, without 0xFF. Outside that the code is wrong: 0xFF reads as eof, long texts wrap and never end, negative bulk counts."
  },
  {
   "property": "C37",
   "status": "partial",
   "theorems": [
    "Verif.Streams.getline_exact",
    "Verif.Streams.getline_partial",
    "Verif.Streams.getline_overruns",
    "Verif.Streams.getline_delimiter_fails",
    "Verif.Streams.getline_limit_drops",
    "Verif.Streams.getline_at_eof",
    "Verif.Streams.getline_ff_ends",
    "Verif.Streams.read_spec",
    "Verif.Streams.readsome_partial",
    "Verif.Streams.readsome_at_end",
    "Verif.Streams.get_spec",
    "Verif.Streams.peek_spec",
    "Verif.Streams.get_unget",
    "Verif.Streams.unget_at_start",
    "Verif.Streams.ignore_spec",
    "Verif.Streams.ignore_until_spec"
   ],
   "note": "read and ignore proved exactly. getline's full effect is characterised (getline_exact); it disagrees with the property: n instead of n-1 characters (overrun proved for every long line), failbit set whenever the delimiter is found."
  },
  {
   "property": "C38",
   "status": "partial",
   "theorems": [
    "Verif.Streams.intTy_range",
    "Verif.Streams.int_output_partial",
    "Verif.Streams.Spec.field_length",
    "Verif.Streams.chain_partial",
    "Verif.Streams.span_accepts",
    "Verif.Streams.string_accepts",
    "Verif.Streams.fits_iff",
    "Verif.Streams.octal_refused",
    "Verif.Streams.fill_round_trip_iff",
    "Verif.Streams.fill_default",
    "Verif.Streams.fill_wrong",
    "Verif.Streams.both_adjustments_fill_twice",
    "Verif.Streams.no_adjustment_no_fill",
    "Verif.Streams.char_output",
    "Verif.Streams.str_output_ignores_width",
    "Verif.Streams.left_manipulator_ignored",
    "Verif.Streams.endl_ok",
    "Verif.Streams.put_integer_partial",
    "Verif.Streams.put_integer_drops",
    "Verif.Streams.put_integer_exposes",
    "Verif.Streams.put_bool"
   ],
   "note": "Proved for every integer type and value, base, case, width and adjustment, over any accepting sink, and for whole chains of insertions. Excluded because the code is wrong there (each proved): octal numerals of large unsigned 16/64-bit values, the signed minimum, fill characters outside the 6-bit field, no or both adjustments, left-adjusted characters, texts with a width."
  },
  {
   "property": "C39",
   "status": "partial",
   "theorems": [
    "Verif.Streams.good_iff",
    "Verif.Streams.fail_iff",
    "Verif.Streams.state_ops",
    "Verif.Streams.ops_frame",
    "Verif.Streams.state_history",
    "Verif.Streams.clear_truncates",
    "Verif.Streams.flag_ops",
    "Verif.Streams.setf_mask_partial",
    "Verif.Streams.setf_mask_leaks",
    "Verif.Streams.setf_mask_leaks_witness",
    "Verif.Streams.width_partial",
    "Verif.Streams.width_truncated"
   ],
   "note": "State bits proved over every history of setstate/clear/unsetstate. setf(f,mask) sets bits of f outside mask (proved), so that part holds only for f inside mask; the width field has 4 bits by default."
  },
  {
   "property": "C40",
   "status": "proved",
   "theorems": [
    "Verif.Chrono.gcd_spec",
    "Verif.Chrono.lcm_spec",
    "Verif.Chrono.ratio_type_spec",
    "Verif.Chrono.ratio_multiply_spec",
    "Verif.Chrono.ratio_divide_spec",
    "Verif.Chrono.ratio_add_spec",
    "Verif.Chrono.ratio_den_pos",
    "Verif.Chrono.ratio_sign_in_den"
   ],
   "note": "Exact and in lowest terms for all ratios; unlike std::ratio the sign can end up in the denominator (ratio_sign_in_den); ratio_den_pos shows positive inputs are unaffected."
  },
  {
   "property": "C41",
   "status": "proved",
   "theorems": [
    "Verif.Chrono.convert_truncates",
    "Verif.Chrono.convert_negative_unsigned",
    "Verif.Chrono.convert_unsigned_wraps",
    "Verif.Chrono.convert_finer",
    "Verif.Chrono.convert_round_trip",
    "Verif.Chrono.exactTicks_common",
    "Verif.Chrono.compare_exact",
    "Verif.Chrono.add_sub_exact",
    "Verif.Chrono.abs_spec",
    "Verif.Chrono.compare_narrow_wrong",
    "Verif.Chrono.add_sub_overflow"
   ],
   "note": "Counts must fit the common type and 64-bit intermediates (the property's 'without overflow'), and a negative count must go to a signed representation: convert_negative_unsigned shows it is otherwise reinterpreted before dividing; compare_narrow_wrong shows the common type keeps narrow representations."
  },
  {
   "property": "C42",
   "status": "partial",
   "theorems": [
    "Verif.Chrono.hh_mm_ss_partial",
    "Verif.Chrono.hh_mm_ss_values",
    "Verif.Chrono.hh_mm_ss_wrong",
    "Verif.Chrono.hours_minutes_subseconds"
   ],
   "note": "Proved for every duration below 256 minutes; hh_mm_ss_wrong proves the code wrong for every longer one (8-bit minute count)."
  },
  {
   "property": "C43",
   "status": "partial",
   "theorems": [
    "Verif.Chrono.isLeap_partial",
    "Verif.Chrono.isLeap_wrong",
    "Verif.Chrono.lastDay_partial",
    "Verif.Chrono.lastDay_wrong",
    "Verif.Chrono.ok_exact",
    "Verif.Chrono.ok_wraps",
    "Verif.Chrono.ymdOk_accepts_impossible",
    "Verif.Chrono.ymdOk_iff",
    "Verif.Chrono.ymdOk_complete",
    "Verif.Chrono.ymd_from_days",
    "Verif.Chrono.ymd_from_days_partial",
    "Verif.Chrono.ymd_from_days_wrong",
    "Verif.Chrono.ymd_month_thirteen",
    "Verif.Chrono.ymd_before_epoch_wrong"
   ],
   "note": "is_leap tests only divisibility by 400 (exact characterisation of where it is right); September is given 31 days; ok() of single fields proved exact; full dates are not validated against the month length; dates from day counts use average months (closed form proved): month 13 occurs and days before the epoch are invalid."
  },
  {
   "property": "C44",
   "status": "proved",
   "theorems": [
    "Verif.Hash.shift_sum_is_prime",
    "Verif.Hash.hash_is_fnv",
    "Verif.Hash.init_values",
    "Verif.Hash.hash_continue",
    "Verif.Hash.container_hash_contents",
    "Verif.Hash.single_octet_change"
   ],
   "note": ""
  },
  {
   "property": "C45",
   "status": "partial",
   "theorems": [
    "Verif.Chooser.choose_partial",
    "Verif.Chooser.choose_skips_unmatched",
    "Verif.Chooser.choose_shared_prefix",
    "Verif.Chooser.choose_one_letter",
    "Verif.Chooser.choose_reads_past_end"
   ],
   "note": "Proved for inputs whose first character begins a registered name of two or more characters (first such name considered); the code violates the property otherwise."
  },
  {
   "property": "C46",
   "status": "partial",
   "theorems": [
    "Verif.Chrono.promoted_holds_iff_partial",
    "Verif.Chrono.promoted_same",
    "Verif.Chrono.promoted_comm",
    "Verif.Chrono.promoted_wrong"
   ],
   "note": "Exact characterisation: fails in the code for an unsigned operand wider than the signed one."
  },
  {
   "property": "C47",
   "status": "partial",
   "theorems": [
    "Verif.Streams.gcount_partial",
    "Verif.Streams.gcount_initially",
    "Verif.Streams.get_gcount",
    "Verif.Streams.ignore_gcount",
    "Verif.Streams.read_short_gcount"
   ],
   "note": "Correct after complete reads, and characters stored after getline; get() never resets the count, ignore counts every character twice and a short read reports the number requested (all proved generally)."
  },
  {
   "property": "C48",
   "status": "proved",
   "theorems": [
    "Verif.Streams.endl_flushes",
    "Verif.Streams.unitbuf_flushes",
    "Verif.Streams.no_unitbuf_no_flush",
    "Verif.Streams.buffered_sync_empties"
   ],
   "note": ""
  },
  {
   "property": "C49",
   "status": "partial",
   "theorems": [
    "Verif.Unordered.equality_iff_slot_order",
    "Verif.Unordered.equal_same_keys_partial",
    "Verif.Unordered.equal_depends_on_order",
    "Verif.Unordered.equal_iff_bucket_orders_partial",
    "Verif.Unordered.equal_any_order",
    "Verif.Unordered.equal_order_matters",
    "Verif.Unordered.equal_ignores_values",
    "Verif.Unordered.equality_undefined"
   ],
   "note": "Exact characterisation: equal iff the same keys appear in the same slot order; so equality implies equal key sets, but equal contents inserted in another order compare different, and values are ignored. For containers filled without crowding a bucket: equal iff each bucket got the same keys in the same order, so keys of different buckets may come in any order."
  },
  {
   "property": "C50",
   "status": "partial",
   "theorems": [
    "Verif.Text.to_string_partial",
    "Verif.Text.to_string_min_undefined",
    "Verif.Text.to_string_into_partial",
    "Verif.Text.to_string_into_exact_fit",
    "Verif.Text.to_string_opt_partial"
   ],
   "note": "Proved for every type and value but the signed minimum (undefined, proved). Filling a caller's string is proved with one character to spare (or a negative value); an exact fit of a non-negative value keeps the old first character, proved for every such case."
  },
  {
   "property": "C51",
   "status": "partial",
   "theorems": [
    "Verif.Text.length_is_max_partial",
    "Verif.Text.length10_int64",
    "Verif.Text.length10_bound",
    "Verif.Text.length8_partial",
    "Verif.Text.digits10_spec",
    "Verif.Text.digits_spec"
   ],
   "note": "length<10> and length<16> are exact except int64 decimal (one too many, proved). length<8> is one too small for uint16 and uint64 (characterised exactly)."
  },
  {
   "property": "C52",
   "status": "partial",
   "theorems": [
    "Verif.Text.ctype_is_exact",
    "Verif.Text.ctype_is_sound",
    "Verif.Text.ctype_is_partial",
    "Verif.Text.ctype_is_missed",
    "Verif.Text.cctype_partial",
    "Verif.Text.cctype_isspace_misses"
   ],
   "note": "is(mask,ch) characterised for every mask and character: sound always, complete for masks of space, digit, upper, xdigit; alpha and punct never match, lower matches only 'a' and is ignored with upper. isspace(int) accepts only the blank."
  },
  {
   "property": "C53",
   "status": "proved",
   "theorems": [
    "Verif.Text.traits_find_spec",
    "Verif.Text.traits_find_early",
    "Verif.Text.traits_length_spec",
    "Verif.Text.traits_compare_spec"
   ],
   "note": ""
  },
  {
   "property": "C54",
   "status": "partial",
   "theorems": [
    "Verif.Chrono.convert_whole",
    "Verif.Chrono.time_point_history_partial",
    "Verif.Chrono.time_point_add_sub",
    "Verif.Chrono.time_point_compare",
    "Verif.Chrono.time_point_diff",
    "Verif.Chrono.time_point_add_truncates"
   ],
   "note": "History, comparison and difference are exact for durations that are whole clock ticks; time_point_add_truncates proves that adding a finer duration silently truncates it (the standard would not compile)."
  },
  {
   "property": "C55",
   "status": "partial",
   "theorems": [
    "Verif.Units.assign_converts",
    "Verif.Units.construct_converts_partial",
    "Verif.Units.construct_same_period",
    "Verif.Units.assign_round_trip",
    "Verif.Units.same_type_ops",
    "Verif.Units.add_sub_neg_offset",
    "Verif.Units.add_sub_neg_partial"
   ],
   "note": "Assignment and construction between different periods preserve the quantity for every offset; construct_same_period proves same-period construction wrong by exactly the target's offset, add_sub_neg_offset gives the exact error of the operators on offset units."
  },
  {
   "property": "C56",
   "status": "partial",
   "theorems": [
    "Verif.Units.percent_partial",
    "Verif.Units.percent_result_partial",
    "Verif.Units.percent_endpoints",
    "Verif.Units.percent_bounds_monotone",
    "Verif.Units.percent_descending_wrong",
    "Verif.Units.percent_offset_wrong"
   ],
   "note": "Exact where the intermediates fit the computed types; percent_descending_wrong and percent_offset_wrong prove the result wrong for max below min with an unsigned percentage and for offset units."
  },
  {
   "property": "C57",
   "status": "partial",
   "theorems": [
    "Verif.Pool.Linked.linked_pool",
    "Verif.Pool.Linked.linked_pool_create",
    "Verif.Pool.Linked.count_free_partial",
    "Verif.Pool.Linked.count_free_zero",
    "Verif.Pool.Linked.count_free_wrong"
   ],
   "note": "Ownership and exhaustion proved over every history. count_free is right until the first deallocation and always right about zero; count_free_wrong characterises exactly when it is wrong afterwards."
  },
  {
   "property": "C58",
   "status": "partial",
   "theorems": [
    "Verif.Pool.Virtual.vm_regions_partial",
    "Verif.Pool.Virtual.vm_allocate",
    "Verif.Pool.Virtual.vm_free",
    "Verif.Pool.Virtual.vm_maint",
    "Verif.Pool.Virtual.alloc_all_undefined",
    "Verif.Pool.Virtual.alloc_overlap",
    "Verif.Pool.Virtual.maint_crash",
    "Verif.Pool.Virtual.maint_leak"
   ],
   "note": "Disjointness, bounds and accounting proved over every history of allocations (multiples of the header size), frees, owner writes and maintenance outside compact mode. Elsewhere the code is wrong, each proved: exact fit at the list head is undefined, a remainder smaller than a header overlaps the region, maintenance after a merge dereferences null or loses a chunk."
  },
  {
   "property": "C59",
   "status": "partial",
   "theorems": [
    "Verif.Streams.bip_out_history_partial",
    "Verif.Streams.bip_refused_overrun",
    "Verif.Streams.bip_short_null",
    "Verif.Streams.bip_short_stale",
    "Verif.Streams.bip_eof_char",
    "Verif.Streams.bip_in_history_partial",
    "Verif.Streams.bip_sync_fails",
    "Verif.Streams.inSource_supplies",
    "Verif.Streams.bip_getn_repeats",
    "Verif.Streams.bip_getn_empty",
    "Verif.Streams.bip_getn_wrap",
    "Verif.Streams.bip_sign_extends",
    "Verif.Streams.bip_ff_is_eof"
   ],
   "note": "Output: proved over every history for sinks that take everything; a sink that refuses makes the next put write past the buffer, one that takes part makes later drains send a null pointer or stale bytes (each proved generally). Input: single reads proved over every history, any source with partial reads; block reads repeat, never refill and overrun wrapped contents, and the first character after a refill is sign-extended (each proved)."
  },
  {
   "property": "C60",
   "status": "partial",
   "theorems": [
    "Verif.Locks.guards_exclude",
    "Verif.Locks.ordered_guards_never_deadlock",
    "Verif.Locks.unordered_guards_deadlock",
    "Verif.Locks.unique_lock_never_unlocks",
    "Verif.Locks.try_to_lock_unprotected"
   ],
   "note": "Proved for lock_guard under every schedule, over an assumed platform mutex. unique_lock is wrong, each proved: it never unlocks, and with try_to_lock its block runs even when the attempt failed."
  },
  {
   "property": "C61",
   "status": "partial",
   "theorems": [
    "Verif.Func.function_history_partial",
    "Verif.Func.function_exactly_once_partial",
    "Verif.Func.copy_empties_original",
    "Verif.Func.const_copy_double_delete",
    "Verif.Func.self_assign_empties",
    "Verif.Func.copy_of_empty_claims"
   ],
   "note": "Proved over every history without copies of const functions and without self-assignment, copying a named function being a transfer. The code is wrong there, each proved for every reachable state: copying empties the original, copies of const functions are deleted twice, self-assignment destroys the callable, a copy of an empty function claims to hold something."
  },
  {
   "property": "C62",
   "status": "partial",
   "theorems": [
    "Verif.Streams.ws_spec",
    "Verif.Streams.ws_not_good",
    "Verif.Streams.extract_partial",
    "Verif.Streams.base_spec",
    "Verif.Streams.extract_list",
    "Verif.Streams.shows_numeral",
    "Verif.Streams.write_read_partial",
    "Verif.Streams.extract_char_partial",
    "Verif.Streams.extract_char_end",
    "Verif.Streams.extract_str_partial",
    "Verif.Streams.iterate_partial",
    "Verif.Streams.post_spec",
    "Verif.Streams.iterate_phantom",
    "Verif.Streams.extract_at_end",
    "Verif.Streams.extract_minus",
    "Verif.Streams.extract_overflow_position",
    "Verif.Streams.extract_overflow_stands",
    "Verif.Streams.extract_overflow_hangs",
    "Verif.Streams.extract_failed_stream",
    "Verif.Streams.extract_no_base",
    "Verif.Streams.extract_hangs",
    "Verif.Streams.extract_char_nul",
    "Verif.Streams.extract_str_failed"
   ],
   "note": "Proved for every text and every list of values, and end to end with formatted output. The code is wrong, each proved: at the end of the text failbit comes without eofbit, a lone '-' reads as 0, after overflow the position is wrong (and 0xFF then hangs), failed streams are still read and their strings emptied, NUL is dropped with the standard traits, an iterator on an exhausted buffer visits a phantom element, no base selected always fails."
  },
  {
   "property": "C63",
   "status": "partial",
   "theorems": [
    "Verif.Variadic.lookup_spec",
    "Verif.Variadic.select_spec",
    "Verif.Variadic.where_spec",
    "Verif.Variadic.contains_partial",
    "Verif.Variadic.contains_repeated",
    "Verif.Variadic.predicates_spec",
    "Verif.Variadic.largest_spec",
    "Verif.Variadic.sequences_spec",
    "Verif.Variadic.visit_spec"
   ],
   "note": "Proved for every pack, evaluator and functor. values::contains is wrong for a value that occurs more than once, proved: it answers false."
  },
  {
   "property": "C64",
   "status": "partial",
   "theorems": [
    "Verif.Variadic.tuple_history",
    "Verif.Variadic.tuple_move_partial",
    "Verif.Variadic.visit_partial",
    "Verif.Variadic.visit_answer",
    "Verif.Variadic.empty_dangles",
    "Verif.Variadic.default_construct",
    "Verif.Variadic.make_tuple_aliases"
   ],
   "note": "Proved for every list of elements and every history of assignments. The code is wrong, each proved: visit's answer is a bool that is true when nothing was accepted and false when the first element was; references to empty-class elements dangle; scalars of a default-constructed tuple are uninitialised; make_tuple keeps references to its lvalue arguments."
  },
  {
   "property": "C65",
   "status": "partial",
   "theorems": [
    "Verif.Streams.obiter_writes",
    "Verif.Streams.obiter_span",
    "Verif.Streams.obiter_null",
    "Verif.Streams.iterated_output",
    "Verif.Streams.iterated_same",
    "Verif.Streams.filter_maps",
    "Verif.Streams.failed_inverted",
    "Verif.Streams.failed_forgets_post",
    "Verif.Streams.failed_uninitialised",
    "Verif.Streams.back_insert_undefined",
    "Verif.Streams.iterated_overfills",
    "Verif.Streams.filter_does_not_filter"
   ],
   "note": "Writes are proved to be puts, for every sink and form. The code is wrong, each proved: failed() answers the opposite, forgets writes through it++ and is undefined before the first other write; back_insert_iterator's assignment never returns; filter_iterator maps instead of filtering; a string inserted through iterators with a width pads its first character only."
  },
  {
   "property": "C66",
   "status": "partial",
   "theorems": [
    "Verif.Streams.device_history_partial",
    "Verif.Streams.device_history_unsigned",
    "Verif.Streams.device_consumes",
    "Verif.Streams.device_read_all",
    "Verif.Streams.device_gbump",
    "Verif.Streams.device_out_partial",
    "Verif.Streams.device_putn_stops",
    "Verif.Streams.device_ff_lost",
    "Verif.Streams.device_int_type",
    "Verif.Streams.device_gbump_negative",
    "Verif.Streams.device_out_ff",
    "Verif.Streams.pico_claims_all",
    "Verif.Streams.pico_out_partial",
    "Verif.Streams.pico_accepts",
    "Verif.Streams.pico_drops_silently",
    "Verif.Streams.pico_out_ff",
    "Verif.Streams.pico_in_partial",
    "Verif.Streams.pico_error_undefined",
    "Verif.Streams.pico_in_ff"
   ],
   "note": "Proved for every interleaving and refusal pattern, over an assumed Arduino Stream/Print contract; without restriction where char is unsigned. The code is wrong with signed char, each proved: 0xFF is consumed and read as eof (so a read loop stops there), bytes from 0x80 differ from to_int_type under the standard traits, a delivered 0xFF is reported refused. Skipping backwards never ends. Pico driver: characters it drops are reported accepted, any read error but no-data returns an uninitialised character, and its input does not compile through the wrapper."
  },
  {
   "property": "C67",
   "status": "partial",
   "theorems": [
    "Verif.Arrays.size_type_fits",
    "Verif.Arrays.size_type_exists",
    "Verif.Arrays.bit_count_digits",
    "Verif.Arrays.arrays_history",
    "Verif.Arrays.init_list",
    "Verif.Arrays.to_array_copies",
    "Verif.Arrays.array_reads",
    "Verif.Arrays.map_history",
    "Verif.Arrays.spec_find_assign",
    "Verif.Arrays.stack_history_partial",
    "Verif.Arrays.init_list_overruns",
    "Verif.Arrays.map_short_init",
    "Verif.Arrays.back_empty",
    "Verif.Arrays.stack_top_empty",
    "Verif.Arrays.stack_pop_empty"
   ],
   "note": "Proved for every aliasing history, map history and stack history within capacity. The code is wrong, each proved: a longer initialiser list runs over the end; a map given fewer entries than its size compares indeterminate keys; back(), top() and pop() of an empty container are not refused. estd::array::back() does not compile."
  },
  {
   "property": "C68",
   "status": "partial",
   "theorems": [
    "Verif.Bits.byteswap_reverses_partial",
    "Verif.Bits.flags_are_sets",
    "Verif.Bits.byteswap_narrow",
    "Verif.Bits.byteswap_int64"
   ],
   "note": "Flags proved for every width and signedness. byteswap proved for 16 and 32 bit types and uint64_t; it is wrong for 8 bit types (always 0, or 0/-1), proved, and does not compile for int64_t."
  },
  {
   "property": "C69",
   "status": "partial",
   "theorems": [
    "Verif.Utility.swap_distinct_partial",
    "Verif.Utility.generic_swap_spec",
    "Verif.Utility.swap_correct_iff",
    "Verif.Utility.swap_self_zeroes",
    "Verif.Utility.reverse_int_unaffected",
    "Verif.Utility.restore_up_unaffected",
    "Verif.Utility.restore_down_unaffected",
    "Verif.Utility.pop_heap_int_partial",
    "Verif.Utility.pop_heap_single_zeroes",
    "Verif.Utility.pop_heap_int_other_cells",
    "Verif.Utility.exchange_spec",
    "Verif.Utility.exchange_self",
    "Verif.Utility.pair_swap_partial",
    "Verif.Utility.pair_swap_self_zeroes",
    "Verif.Utility.pair_lt_iff",
    "Verif.Utility.pair_gt_eq",
    "Verif.Utility.pair_lt_strictWeak",
    "Verif.Utility.pair_eq_iff",
    "Verif.Utility.pair_lt_nan_cycle",
    "Verif.Utility.pair_get_set",
    "Verif.Utility.pair_construct_copies"
   ],
   "note": "swap of two different objects is right for every type; an integer swapped with itself becomes zero (swap_self_zeroes, exact condition swap_correct_iff), so pop_heap of one integer loses it and a pair swapped with itself loses both members. Rvalues are copied into pairs, not moved."
  },
  {
   "property": "C70",
   "status": "partial",
   "theorems": [
    "Verif.Pool.V1.v1_create",
    "Verif.Pool.V1.v1_pool",
    "Verif.Pool.V1.v1_construct",
    "Verif.Pool.V1.v1_lifo",
    "Verif.Pool.V1.v1_double_free",
    "Verif.Pool.V1.v1_empty_undefined"
   ],
   "note": "Proved for all histories; construct on an exhausted pool is undefined instead of failing (second half of v1_construct), a slot returned twice is handed out for ever, and a pool of capacity zero is undefined."
  },
  {
   "property": "C71",
   "status": "partial",
   "theorems": [
    "Verif.Accessor.accessor_history_partial",
    "Verif.Accessor.accessor_assign_noop",
    "Verif.Accessor.accessor_assign_wrong_iff",
    "Verif.Accessor.accessor_variable_rebinds",
    "Verif.Accessor.locking_history",
    "Verif.Accessor.pinned_reference_dies",
    "Verif.Accessor.locking_accessor_leaks",
    "Verif.Accessor.offset_arithmetic_partial",
    "Verif.Accessor.offset_difference_wrong",
    "Verif.Accessor.offset_comparisons",
    "Verif.Accessor.handle_eq_iff"
   ],
   "note": "Proved over every program that assigns no accessor to an accessor. `v[i] = v[j]` changes nothing, for every vector (wrong exactly when the elements differ); assigning to an accessor variable rebinds it. Accessors of moving memory are right under every schedule of compaction; stateful_locking_accessor leaves one lock per conversion to a reference. Differences of 32 bit offsets are wrong when negative."
  },
  {
   "property": "C72",
   "status": "partial",
   "theorems": [
    "Verif.Growable.growable_history_partial",
    "Verif.Growable.push_back_cost",
    "Verif.Growable.pad_bytes",
    "Verif.Growable.push_back_not_amortised",
    "Verif.Growable.reserve_failure_loses",
    "Verif.Growable.append_after_failure",
    "Verif.Growable.append_failure_ub",
    "Verif.Growable.reserve_below_cuts",
    "Verif.Growable.push_back_alias_partial",
    "Verif.Growable.push_back_alias_dangles",
    "Verif.Growable.insert_returns_dangling",
    "Verif.Growable.copy_shares_elements",
    "Verif.Growable.copy_growth_invalidates_original",
    "Verif.Growable.vectors_leak",
    "Verif.Growable.terminated_construction_ub",
    "Verif.Growable.initializer_list_ub"
   ],
   "note": "Proved over every legal history while the allocator grants its requests. Missing because the code is wrong there, each proved in general: growth by a fixed amount (quadratic copying), a refused request loses the contents and makes the next append undefined, reserve below the size cuts elements off, an own element as argument dangles when growing, insert returns the old iterator, copies share the block, destruction leaks it, null-terminated and initializer-list construction write through the invalid handle."
  },
  {
   "property": "C73",
   "status": "partial",
   "theorems": [
    "Verif.Rtos.mutex_exclusive",
    "Verif.Rtos.mutex_exclusive_partial",
    "Verif.Rtos.mutex_answers",
    "Verif.Rtos.foreign_unlock",
    "Verif.Rtos.binary_mutex_never_locks",
    "Verif.Rtos.binary_mutex_foreign_unlock",
    "Verif.Rtos.binary_mutex_alternates",
    "Verif.Rtos.recursive_mutex_history",
    "Verif.Rtos.sem_bound",
    "Verif.Rtos.sem_exact_partial",
    "Verif.Rtos.release_lost",
    "Verif.Rtos.binary_starts_empty",
    "Verif.Rtos.desired_above_max",
    "Verif.Rtos.counting_made",
    "Verif.Rtos.queue_history",
    "Verif.Rtos.queue_results",
    "Verif.Rtos.events_history",
    "Verif.Rtos.wait_iff_met",
    "Verif.Rtos.timeout_ticks",
    "Verif.Rtos.timeout_short",
    "Verif.Rtos.negative_timeout",
    "Verif.Rtos.long_timeout",
    "Verif.Rtos.lifetimes_partial",
    "Verif.Rtos.copy_double_delete"
   ],
   "note": "Proved over every schedule, assuming the kernel calls behave as documented. Missing because the wrappers are wrong there, each proved in general: mutex(true) is born locked and has no owner; without asserts any task may unlock; a release at the maximum is lost silently; a desired count above the maximum gives a null handle; timeouts are rounded down, negative ones wrap to very long or infinite waits and those of 2^32 ticks or more to short ones; copies delete the kernel object twice."
  },
  {
   "property": "C74",
   "status": "partial",
   "theorems": [
    "Verif.Lifetime.raw_history_partial",
    "Verif.Lifetime.raw_end",
    "Verif.Lifetime.full_aborts",
    "Verif.Lifetime.over_history_partial",
    "Verif.Lifetime.push_copy_ub",
    "Verif.Lifetime.insert_middle_ub",
    "Verif.Lifetime.insert_middle_leaks",
    "Verif.Lifetime.resize_leaks",
    "Verif.Lifetime.resize_grow_read_ub",
    "Verif.Lifetime.erase_leaks",
    "Verif.Lifetime.pop_destroys_twice",
    "Verif.Lifetime.push_move_leaks"
   ],
   "note": "Proved for every history of the operations that construct at the end and destroy there on raw memory (layer1), and of those that only assign on an array of objects (layer2, layer3). Missing because the code is wrong there, each proved after any such history: on raw memory a copying push_back and an insertion before the end assign to cells without objects (or, for types that cannot be assigned, lose the objects moved from), clear, resize, erase and the vector's end destroy nothing, a growing resize constructs nothing; over an array pop_back ends a lifetime the array ends again and a moving push_back or emplace_back loses one."
  },
  {
   "property": "C75",
   "status": "partial",
   "theorems": [
    "Verif.Func.Refs.refs_history_partial",
    "Verif.Func.Refs.refs_copy_calls_original",
    "Verif.Func.Refs.refs_copy_dangles",
    "Verif.Func.Refs.refs_second_static_calls_first",
    "Verif.Func.Refs.refs_once_spent",
    "Verif.Func.Refs.refs_null_undefined"
   ],
   "note": "Proved over every history in which an object outlives those that refer to it, one-call callables are called once and then dropped, and at most one callable of each type is made static. Missing because the code is wrong there, each proved after any such history: a copy of an inline_function or thisify_function calls the original's callable, which may be gone; a second static_function of a type calls the first's callable; a one-call model destroys its callable in the call and again in its destructor. Calling an empty function is undefined rather than refused."
  },
  {
   "property": "C76",
   "status": "partial",
   "theorems": [
    "Verif.Layout.struct_member",
    "Verif.Layout.struct_members_apart",
    "Verif.Layout.union_member",
    "Verif.Layout.holds_iff",
    "Verif.Layout.alignedStorage_holds",
    "Verif.Layout.instanceWrapper_holds",
    "Verif.Layout.alignedStorage_without_alignas",
    "Verif.Layout.rawInstance_holds",
    "Verif.Layout.uninitializedArray_holds",
    "Verif.Layout.uninitializedArray_fits",
    "Verif.Layout.estdArray_holds",
    "Verif.Layout.layer1Vector_holds",
    "Verif.Layout.layer1Vector_misaligned",
    "Verif.Layout.largestType_largest",
    "Verif.Layout.variant_holds",
    "Verif.Layout.optional_holds",
    "Verif.Layout.expected_holds",
    "Verif.Layout.optional_misaligned",
    "Verif.Layout.layer1Shared_holds",
    "Verif.Layout.layer1Bip_fits",
    "Verif.Layout.layer1Bip_holds",
    "Verif.Layout.layer1Bip_misaligned",
    "Verif.Layout.pool_link_holds",
    "Verif.Layout.typedPool_holds",
    "Verif.Layout.poolItem_holds",
    "Verif.Layout.meta_holds",
    "Verif.Layout.map_second_offset",
    "Verif.Layout.map_iterator_step",
    "Verif.Layout.map_second_misread",
    "Verif.Layout.layer1Map_holds",
    "Verif.Layout.layer1Map_misaligned",
    "Verif.Layout.emplaced_holds"
   ],
   "note": "The exact condition is proved for each class and all types. Everything is large enough, except aligned_storage where the compiler has no alignas. Alignment is missing where the storage is an array of bytes: elements of layer1 vectors of class types, non-trivial optional and expected values, raw instances, map entries and bip buffer headers are aligned only if nothing need be; others only as far as the neighbouring member is. The iterators of a map with unaligned key and mapped types of odd size read the wrong bytes (map_second_misread)."
  },
  {
   "property": "C77",
   "status": "partial",
   "theorems": [
    "Verif.Throw.sums_survive_throws_partial",
    "Verif.Throw.throw_after_destroy",
    "Verif.Throw.Dq.deque_emplace_throw_partial",
    "Verif.Throw.Dq.push_back_throw_grows",
    "Verif.Throw.Dq.push_back_throw_overruns",
    "Verif.Throw.Dq.push_back_throw_empty",
    "Verif.Throw.Dq.push_front_throw_grows",
    "Verif.Throw.Vec.emplace_throw_dead_element",
    "Verif.Throw.Vec.push_throw_grows",
    "Verif.Throw.Pl.emplace_throw_loses_blocks"
   ],
   "note": "Proved over every program in which exceptions come only where nothing had to be destroyed first, and from emplace of variant, and for deque from emplace_back. Missing because the code is wrong there, each proved after any such program: emplace of an engaged optional or of an expected, assigning another alternative to an expected or variant, and assigning a type without assignment leave a container that names a destroyed object and destroys it again; a deque's push_back and push_front and every vector insertion at the end keep the element that was never made (the deque may run past its array); each throwing emplace of typed_pool loses a block."
  },
  {
   "property": "C78",
   "status": "partial",
   "theorems": [
    "Verif.Unordered.Life.map_lifetimes_partial",
    "Verif.Unordered.Life.no_assign_no_loss_partial",
    "Verif.Unordered.Life.insert_or_assign_loses",
    "Verif.Unordered.Life.subscript_never_constructs",
    "Verif.Unordered.Life.clear_defined_iff_full",
    "Verif.Unordered.Life.end_of_map_leaks",
    "Verif.Unordered.Life.throwing_insert_dead_element",
    "Verif.Unordered.Life.moving_uses_dead",
    "Verif.Unordered.Life.class_keys_broken"
   ],
   "note": "Proved for trivial keys over every history of insert, insert_or_assign, erase and lookups, with the exact count of lost objects. Missing because the code is wrong there, each proved after any such history: insert_or_assign constructs over the living value; m[k] for a new key constructs nothing; clear() destroys in empty slots too; the map's end destroys nothing; an insertion that throws leaves an element without a value; gc_active and erase_and_gc swap with destroyed values; keys with destructors are overwritten on insertion and assigned to after their destruction on erasure."
  },
  {
   "property": "C79",
   "status": "partial",
   "theorems": [
    "Verif.Streams.bool_digit_partial",
    "Verif.Streams.bool_name_partial",
    "Verif.Streams.bool_round_trip",
    "Verif.Streams.boolText_eq",
    "Verif.Streams.bool_one_digit",
    "Verif.Streams.bool_name_cut_short",
    "Verif.Streams.bool_first_letter_free",
    "Verif.Streams.bool_no_name_undefined",
    "Verif.Streams.bool_at_end"
   ],
   "note": "Round trip proved for every list of flags. Outside well-formed texts the code is wrong, each proved for every such text: only one digit is looked at, a name cut short by the end is no error and stores nothing, any first character is taken before `rue`/`alse`, six characters that fit no name read past a name's end, and at the end of the text the two modes set opposite halves of failbit|eofbit."
  },
  {
   "property": "C80",
   "status": "partial",
   "theorems": [
    "Verif.Lists.Nodes.owning_list_history_partial",
    "Verif.Lists.Nodes.owning_list_accounts",
    "Verif.Lists.Nodes.owning_list_leaks",
    "Verif.Lists.Nodes.owning_list_never_destroys",
    "Verif.Lists.Nodes.owning_list_end_leaks",
    "Verif.Lists.Nodes.owning_list_exhausted"
   ],
   "note": "Contents and memory safety proved for every history and choice of addresses (remove_if of all matches only without neighbouring matches, C25). Missing because the code is wrong there, each proved for every history: no value is ever destroyed, erase_after and remove_if never give the node back, the end of the list gives nothing back; an exhausted allocator's invalid handle is dereferenced."
  },
  {
   "property": "C81",
   "status": "partial",
   "theorems": [
    "Verif.Streams.float_partial",
    "Verif.Streams.floats_partial",
    "Verif.Streams.double_partial",
    "Verif.Streams.single_partial",
    "Verif.Streams.float_error_partial",
    "Verif.Streams.double_error_partial",
    "Verif.Streams.ieee_accurate",
    "Verif.Streams.ieee_binary",
    "Verif.Streams.nearest_is_nearest",
    "Verif.Streams.float_refused",
    "Verif.Streams.float_many_places",
    "Verif.Streams.float_long_nan",
    "Verif.Streams.float_two_points",
    "Verif.Streams.float_no_digits",
    "Verif.Streams.float_exponent_left",
    "Verif.Streams.float_at_end"
   ],
   "note": "Correct rounding proved for every binary format and every number whose digits make an integer within its precision (up to 15 digits for double, 7 for float), with the stream's position and state. Missing because the code is wrong there, each proved for all such texts: with 255 or more places the number is not divided at all; long fractions of a float become NaN; a second point moves the point; texts without digits are accepted as 0; exponents are not read; at the end of the text eofbit is not set. Longer numbers are rounded at every step: their relative error is bounded by the number of digits for every format (float_error_partial), for double and up to 250 digits by 1502/2^53."
  },
  {
   "property": "C82",
   "status": "partial",
   "theorems": [
    "Verif.Moving.exec_of_sexec",
    "Verif.Moving.moving_history_partial",
    "Verif.Moving.insert_self_ub",
    "Verif.Moving.insert_self_program_ub",
    "Verif.Moving.insert_self_repeats",
    "Verif.Moving.unallocated_ub",
    "Verif.Moving.data_pins",
    "Verif.Moving.iterate_leaves_locked",
    "Verif.Moving.iterate_empty_ub"
   ],
   "note": "Proved for every legal program and every schedule. Missing because the code is wrong there, each proved for every schedule: inserting a string into itself reallocates a locked block, or with room repeats the beginning; printing, comparing or searching an array that never had memory locks the invalid handle; data() locks for ever, so the array can no longer grow; a loop over iterators locks at every step and unlocks twice at the end. Growing resizes (which leave elements unwritten) and refused requests (C72) are outside."
  },
  {
   "property": "C83",
   "status": "partial",
   "theorems": [
    "Verif.Sum.Optional.compare_history_partial",
    "Verif.Sum.Optional.empty_not_less",
    "Verif.Sum.Optional.hash_partial",
    "Verif.Sum.Optional.hash_empty_ub",
    "Verif.Sum.Layer1.layer1_empty_not_less",
    "Verif.Sum.Layer1.layer1_compares",
    "Verif.Sum.Layer1.Sentinel.sentinel_hash",
    "Verif.Sum.Layer1.Sentinel.never_equals_null",
    "Verif.Sum.Layer1.Bits.bits_hash_differs",
    "Verif.Sum.Layer1.Bits.bits_hash_engaged",
    "Verif.Sum.Layer1.monostate_eq",
    "Verif.Sum.Layer1.monostate_ne_wrong",
    "Verif.Sum.Layer1.integral_hash_injective",
    "Verif.Sum.Layer1.integral_hash_collides"
   ],
   "note": "The comparisons are proved after every legal history, hashes for optionals that have a value. Missing because the code is wrong there, each proved for all values: an empty optional is not less than any value, so < is not the order == and > belong to; hashing an empty optional reads an object that does not exist (for bit fields: equal empty optionals hash differently); != of two monostates is true."
  },
  {
   "property": "C84",
   "status": "partial",
   "theorems": [
    "Verif.Streams.Units.put_unit_int_partial",
    "Verif.Streams.Units.put_unit_double_partial",
    "Verif.Streams.Units.put_double_partial",
    "Verif.Streams.Units.double_numbers",
    "Verif.Streams.Units.hundred_int",
    "Verif.Streams.Units.double_sign_lost",
    "Verif.Streams.Units.double_width_split",
    "Verif.Streams.Units.double_leaves_decimal",
    "Verif.Streams.Units.double_large_wrong",
    "Verif.Streams.Units.double_large_example",
    "Verif.Streams.Units.double_large_ub",
    "Verif.Streams.Units.double_special_ub",
    "Verif.Streams.Units.double_not_nearest",
    "Verif.Streams.Units.giga_missing",
    "Verif.Streams.Units.bytes_ambiguous"
   ],
   "note": "Text, formatting and error state proved for every accepting sink. Missing because the code is wrong there, each proved for every value concerned: numbers between -1 and 0 lose their sign; a width is used up by the whole part; the base stays decimal; whole numbers of 2^53 hundredths and more print digits after the point, from 2^63 hundredths on (and from -2^64 down), and for infinities and NaN, the behaviour is undefined; 0.29 prints as 0.28; no quantity with period giga can be printed; 1000 and 1024 bytes print alike."
  },
  {
   "property": "C85",
   "status": "partial",
   "theorems": [
    "Verif.Sum.Variant.visit_index_history_partial",
    "Verif.Sum.Variant.visit_index_once",
    "Verif.Sum.Variant.visit_index_again",
    "Verif.Sum.Variant.visit_defined_iff",
    "Verif.Sum.Variant.visit_eq_visit_index",
    "Verif.Sum.Variant.visit_ignores_content",
    "Verif.Sum.Variant.destroy_visits",
    "Verif.Sum.Variant.copy_visits",
    "Verif.Sum.Variant.move_visits",
    "Verif.Sum.Variant.convert_partial",
    "Verif.Sum.Variant.convert_prefers_earlier",
    "Verif.Sum.Variant.convert_nothing"
   ],
   "note": "Proved for visit_index after every history. Missing because the code is wrong there, each proved for every case: visit shows the functor every alternative in turn, live or not, so a functor that reads is undefined unless alternative 0 is held and accepted, and one that goes by type gets the same answer whatever is held; a functor that declines after putting in a later alternative is called again; a value becomes the first alternative that can be made from it even when a later one is of its own type, and a variant made from a value that fits nothing is silently valueless."
  },
  {
   "property": "C86",
   "status": "partial",
   "theorems": [
    "Verif.Rtos.Timers.timers_partial",
    "Verif.Rtos.Timers.silent_after_deletion",
    "Verif.Rtos.Timers.destructor_wait",
    "Verif.Rtos.Timers.refused_destructor_leaks",
    "Verif.Rtos.Timers.fires_after_destructor",
    "Verif.Rtos.Timers.static_storage_gone",
    "Verif.Rtos.Timers.deleted_twice",
    "Verif.Rtos.Timers.short_period_stops",
    "Verif.Rtos.Timers.no_memory_stops"
   ],
   "note": "Proved for every schedule of a program that keeps to Spec.legal. Missing because the code is wrong there, each proved after every such schedule: a destructor whose request finds the queue full for a tenth of a second leaks the timer for ever, and an auto-reload timer goes on calling back; the callback can run between the destructor and the deletion; a static timer's memory is gone before the timer task deletes it; free or a copy followed by the destructor deletes twice; a period below a tick, and any use of a timer for which there was no memory, stops the program."
  },
  {
   "property": "C87",
   "status": "partial",
   "theorems": [
    "Verif.Streams.live_device",
    "Verif.Streams.blocking_word_partial",
    "Verif.Streams.blocking_word_returns",
    "Verif.Streams.blocking_word_waits",
    "Verif.Streams.blocking_words_partial",
    "Verif.Streams.blocking_words_schedule",
    "Verif.Streams.blocking_char_partial",
    "Verif.Streams.blocking_char_returns",
    "Verif.Streams.blocking_int_partial",
    "Verif.Streams.blocking_int_end",
    "Verif.Streams.blocking_int_junk",
    "Verif.Streams.blocking_int_no_base",
    "Verif.Streams.blocking_int_cut",
    "Verif.Streams.blocking_int_schedule_error",
    "Verif.Streams.blocking_get_error",
    "Verif.Streams.nonblocking_word",
    "Verif.Streams.nonblocking_nodata",
    "Verif.Streams.nonblocking_end",
    "Verif.Streams.nonblocking_retry",
    "Verif.Streams.nonblocking_race_error",
    "Verif.Streams.nonblocking_again_error",
    "Verif.Streams.word_at_ff_error"
   ],
   "note": "Words and characters proved for every schedule of arrivals; integers when the numeral comes in one piece. Missing because the code is wrong there, each proved generally: a blocking stream does not wait inside a number (the digits that are there make one number, those that come later another), nor in get(); on a non-blocking stream characters that arrive between two calls of the buffer end the word with eofbit, and a second attempt without clear() sets failbit and eofbit; a character shown as end of file (0xFF) ends every word in front of it and is never taken."
  },
  {
   "property": "C88",
   "status": "partial",
   "theorems": [
    "Verif.Chrono.Clocks.elapsed_exact",
    "Verif.Chrono.Clocks.elapsed_turns",
    "Verif.Chrono.Clocks.wait_elapsed",
    "Verif.Chrono.Clocks.steady_partial",
    "Verif.Chrono.Clocks.not_steady",
    "Verif.Chrono.Clocks.wait_deadline_partial",
    "Verif.Chrono.Clocks.wait_deadline_ends_at_once",
    "Verif.Chrono.Clocks.wait_deadline_misses",
    "Verif.Chrono.Clocks.sleep_ticks",
    "Verif.Chrono.Clocks.arduino_sleep_partial",
    "Verif.Chrono.Clocks.arduino_sleep_short",
    "Verif.Chrono.Clocks.arduino_sleep_wraps",
    "Verif.Chrono.Clocks.arduino_sleep_negative",
    "Verif.Chrono.Clocks.freertos_sleep_partial",
    "Verif.Chrono.Clocks.freertos_sleep_short",
    "Verif.Chrono.Clocks.pico_sleep"
   ],
   "note": "Elapsed time and waiting for it are proved for every reading and every number of wraps, sleeping on the pico for whole microseconds. Missing because the code is wrong there, each proved generally: the clocks say is_steady but go back when the counter wraps, and a wait for a time point past the wrap is over at once or lasts a whole turn; sleep_for rounds down (on Arduino it is short unless the duration is a whole number of milliseconds, on FreeRTOS whenever the call is not made exactly on a tick), wraps for long durations, and sleeps 49 days for a negative one."
  },
  {
   "property": "C89",
   "status": "partial",
   "theorems": [
    "Verif.Traits.is_void_iff",
    "Verif.Traits.is_floating_point_iff",
    "Verif.Traits.is_integral_iff_partial",
    "Verif.Traits.char8_not_integral",
    "Verif.Traits.is_arithmetic_iff_partial",
    "Verif.Traits.is_array_iff",
    "Verif.Traits.is_pointer_iff",
    "Verif.Traits.is_reference_iff",
    "Verif.Traits.is_function_iff_partial",
    "Verif.Traits.is_function_with_ellipses",
    "Verif.Traits.variadic_not_function",
    "Verif.Traits.is_class_iff_partial",
    "Verif.Traits.union_is_class",
    "Verif.Traits.is_member_pointer_iff_partial",
    "Verif.Traits.variadic_member_is_object",
    "Verif.Traits.is_enum_iff_partial",
    "Verif.Traits.not_enums",
    "Verif.Traits.is_const_iff",
    "Verif.Traits.const_where",
    "Verif.Traits.is_same_iff",
    "Verif.Traits.is_signed_iff",
    "Verif.Traits.is_unsigned_iff_partial",
    "Verif.Traits.everything_is_unsigned",
    "Verif.Traits.is_base_of_iff_partial",
    "Verif.Traits.union_base_of_itself",
    "Verif.Traits.conjunction_iff",
    "Verif.Traits.disjunction_iff"
   ],
   "note": "Proved for all types with these exceptions, where the code is wrong, each proved for every type concerned: unions are classes (and no type is a union), and bases of themselves; variadic functions are not functions, because the specialisations for them are under a macro nothing defines, and pointers to such members are data member pointers; nullptr_t, member pointers, char8_t and variadic functions are enumerations; char8_t is not integral; every type that is not arithmetic is unsigned."
  },
  {
   "property": "C90",
   "status": "partial",
   "theorems": [
    "Verif.Traits.remove_cv_spec",
    "Verif.Traits.remove_const_spec",
    "Verif.Traits.add_const_spec",
    "Verif.Traits.remove_reference_spec",
    "Verif.Traits.remove_cvref_spec",
    "Verif.Traits.add_lvalue_reference_partial",
    "Verif.Traits.add_lvalue_reference_cv_void",
    "Verif.Traits.add_reference_qualified_function",
    "Verif.Traits.add_rvalue_reference_partial",
    "Verif.Traits.add_rvalue_reference_void",
    "Verif.Traits.references_collapse",
    "Verif.Traits.remove_pointer_spec",
    "Verif.Traits.remove_extent_spec",
    "Verif.Traits.add_pointer_partial",
    "Verif.Traits.add_pointer_noexcept",
    "Verif.Traits.remove_add_pointer",
    "Verif.Traits.decay_partial",
    "Verif.Traits.decays_unique",
    "Verif.Traits.decay_idempotent",
    "Verif.Traits.decay_function_stays",
    "Verif.Traits.decay_qualified_function",
    "Verif.Traits.conditional_spec",
    "Verif.Traits.make_signed_spec",
    "Verif.Traits.make_signed_none",
    "Verif.Traits.make_signed_too_much",
    "Verif.Traits.make_unsigned_width_partial",
    "Verif.Traits.make_unsigned_wrong_type",
    "Verif.Traits.make_unsigned_missing"
   ],
   "note": "Proved for all types with these exceptions, where the code is wrong, each proved for every type concerned: references to qualified void and qualified functions, and rvalue references to void, do not compile; noexcept and variadic functions do not decay to pointers, qualified functions do not compile in decay; add_pointer leaves noexcept functions alone; make_signed accepts bool and nullptr_t; make_unsigned gives two signed types of one size the same type, and does not compile for qualified types, characters and enumerations."
  },
  {
   "property": "C91",
   "status": "proved",
   "theorems": [
    "Verif.Unordered.Stable.references_stable",
    "Verif.Unordered.Stable.references_refer",
    "Verif.Unordered.Stable.write_visible",
    "Verif.Unordered.Stable.assign_in_place",
    "Verif.Unordered.Stable.gc_active_moves",
    "Verif.Unordered.Stable.set_references_stable",
    "Verif.Unordered.Stable.set_erase_moves_one"
   ],
   "note": "Proved for every array of slots, whether or not the faults of C21-C23 have damaged it, and every history; a history with undefined behaviour, which C21-C23 describe, has no end state and is not covered."
  },
  {
   "property": "C92",
   "status": "partial",
   "theorems": [
    "Verif.Unordered.Stable.erase_while_iterating",
    "Verif.Unordered.Stable.erase_while_iterating_ends",
    "Verif.Unordered.Stable.erase_while_iterating_undefined"
   ],
   "note": "Proved for every map and predicate when the slot behind the array can be read and the one in front of it does not look like an erased element. Missing because the code is wrong there: looking for the next element reads the slot behind the last one, so the loop is always undefined when it cannot be read."
  },
  {
   "property": "C93",
   "status": "partial",
   "theorems": [
    "Verif.Observer.history_partial",
    "Verif.Observer.program_partial",
    "Verif.Observer.calls_once",
    "Verif.Observer.not_called_unchanged",
    "Verif.Observer.owners_differ",
    "Verif.Observer.proxy_keeps_context",
    "Verif.Observer.both_does_not_compile"
   ],
   "note": "Proved for every program with subjects whose observers do not have both functions for an event type. Missing because the code is wrong there: an observer with both on_notify(n) and on_notify(n, context) cannot be notified with a context, which does not compile for any subject listing it."
  },
  {
   "property": "C94",
   "status": "partial",
   "theorems": [
    "Verif.PriorityQueue.Edits.queue_edits_partial",
    "Verif.PriorityQueue.Edits.queue_edits_top",
    "Verif.PriorityQueue.Edits.queue_assign_partial",
    "Verif.PriorityQueue.Edits.emplace_returns_new_partial",
    "Verif.PriorityQueue.Edits.emplace_returns_another",
    "Verif.PriorityQueue.Edits.remove_only_undefined",
    "Verif.PriorityQueue.Edits.assign_keeps_comparator",
    "Verif.PriorityQueue.Edits.assign_order_lost"
   ],
   "note": "Proved for every reachable state of queues whose comparators order alike. Missing because the code is wrong there, each proved generally: emplace and emplace_with_notify return the last cell of the array, which is another element whenever the new one comes before all others; erase and erase_if of the only element are undefined; assignment leaves the comparator, so a queue assigned from one of another order is out of order."
  },
  {
   "property": "C95",
   "status": "partial",
   "theorems": [
    "Verif.Descriptor.fixed_descriptor_partial",
    "Verif.Descriptor.fixed_allocate_always_true",
    "Verif.Descriptor.unbounded_size",
    "Verif.Descriptor.fixed_reallocate",
    "Verif.Descriptor.block_descriptor_partial",
    "Verif.Descriptor.failed_request",
    "Verif.Descriptor.failed_reallocate_lost",
    "Verif.Descriptor.second_allocate_lost",
    "Verif.Descriptor.free_forgets_nothing"
   ],
   "note": "Proved for every history on fixed buffers with requests that fit, and on blocks while requests succeed. Missing because the code is wrong there, each proved generally: a descriptor of a fixed buffer grants every request, however large, and (without assertions) every resize; an unbounded buffer has size 255; a request that fails leaves size() at what was asked for; a resize that fails, or a second allocate, loses the block for every further history; free() (which compiles with no allocator of the library) leaves the descriptor claiming the block. construct, destroy and copy_into do not compile for allocators without state; neither do the array constructor of layer2 and the initializer_list constructor of layer3 (fixed.h:400, 425)."
  },
  {
   "property": "C96",
   "status": "partial",
   "theorems": [
    "Verif.StringKinds.refer_terminated",
    "Verif.StringKinds.refer_sized",
    "Verif.StringKinds.append_pointer",
    "Verif.StringKinds.append_string",
    "Verif.StringKinds.append_itself",
    "Verif.StringKinds.assign_pointer",
    "Verif.StringKinds.assign_string",
    "Verif.StringKinds.insert_pointer",
    "Verif.StringKinds.insert_own_partial",
    "Verif.StringKinds.shared_histories",
    "Verif.StringKinds.shared_reads",
    "Verif.StringKinds.insert_own",
    "Verif.StringKinds.insert_straddling_wrong",
    "Verif.StringKinds.assign_own_tail",
    "Verif.StringKinds.assign_tail_string",
    "Verif.StringKinds.layer3_copies_shrink",
    "Verif.StringKinds.layer2_alias_overruns",
    "Verif.StringKinds.same_type_assignment_shares",
    "Verif.StringKinds.const_string_empty_inverted"
   ],
   "note": "Proved for every memory and history of texts that fit. Missing because the code is wrong there, each proved generally: inserting a piece of the string itself that straddles or follows the position inserts other characters; assigning a string a tail of itself cuts the text short, mangles it or is undefined; every layer3 string made from a string has room for one character less; a layer2 string made from a string writes past the other's buffer when its own capacity is larger; assignment between two layer2 or two layer3 strings of one type makes the left one another name for the right one's characters; const_string::empty() says the opposite. operator=(private_array) (internal/string.h:356-361) calls itself and is not modelled."
  },
  {
   "property": "C97",
   "status": "partial",
   "theorems": [
    "Verif.Text.stol_partial",
    "Verif.Text.stoul_partial",
    "Verif.Text.stoi_partial",
    "Verif.Text.sto_pos_tells",
    "Verif.Text.stol_numeral",
    "Verif.Text.to_string_stol",
    "Verif.Text.stol_saturates",
    "Verif.Text.stoul_saturates",
    "Verif.Text.stoi_wraps",
    "Verif.Text.sto_no_number",
    "Verif.Text.stol_unterminated"
   ],
   "note": "Proved for every terminated text that starts with a number the type holds, over the C standard's description of strtol and strtoul. Missing because the code is wrong there, each proved for every such text: a number that does not fit is replaced by the nearest long (or for stoi by its low bits) without a report, a text without a number gives 0, and a string that is not terminated is read past its end."
  },
  {
   "property": "C98",
   "status": "partial",
   "theorems": [
    "Verif.Owned.owned_objects_partial",
    "Verif.Owned.reachable_objects_live",
    "Verif.Owned.acyclic_collected",
    "Verif.Owned.circle_leaks",
    "Verif.Owned.assign_from_member_undefined"
   ],
   "note": "Proved for every correct program: reference counting agrees with a heap that never deletes, and exactly what has no well-founded owner is deleted, once. Missing because the code is wrong there, each proved in every such state: `l = l->next` where l is the only owner is undefined, since the old object is released before the new pointer is read; circles are never deleted and there is no weak_ptr. Copies of a handle whose master was reset are not counted (C29), so such copies are excluded."
  },
  {
   "property": "C99",
   "status": "partial",
   "theorems": [
    "Verif.Text.validate_int_spec",
    "Verif.Text.checked_int_partial",
    "Verif.Text.checked_int_undefined",
    "Verif.Text.checked_int_negative",
    "Verif.Text.checked_uchar_partial",
    "Verif.Text.validate_ushort_spec",
    "Verif.Text.checked_ushort_partial",
    "Verif.Text.checked_char_spec",
    "Verif.Text.legacy_from_chars_partial",
    "Verif.Text.legacy_from_chars_past_end",
    "Verif.Text.legacy_from_chars_unterminated",
    "Verif.Text.legacy_from_chars_lenient",
    "Verif.Text.legacy_from_chars_overwrites"
   ],
   "note": "Proved for every terminated text. Missing because the code is wrong there, each proved generally: the check for int accepts any number of digits, and converting a number that is no int is undefined, and it refuses every negative number; unsigned char and unsigned short accept numbers that do not fit and keep their low bits; legacy::from_chars does not look at the end of its range, needs a terminator, accepts white space and a plus sign, and overwrites the value on errors. float and double (strtof, strtod) are not modelled; the check, toString and legacy::from_chars are compiled only if their FEATURE_ESTD_STRING_LEGACY macros are set."
  }
 ]
}