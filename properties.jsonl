{"id": "C01", "title": "find_if family returns the first match", "statement": "find_if(first,last,p) returns the position of the first element satisfying p, and last when no element satisfies it; find_if never dereferences last.", "quantifier": "every finite range, every element type and every predicate", "why_tests_cant": "The claim ranges over ranges of unbounded length and arbitrary predicates; a test fixes a handful.", "anchors": ["src/estd/algorithm.h: find_if (157-165), find_last_of (238-247), find_first_of (262-280)"]}
{"id": "C02", "title": "equal and mismatch decide range equality", "statement": "equal(a,b) is true exactly when the two sequences agree element by element over the first range; mismatch returns the first position where they differ, or the end of the shorter.", "quantifier": "every pair of ranges, second range at least as long as the first for the three-iterator equal", "why_tests_cant": "Unbounded lengths and all element values.", "anchors": ["src/estd/algorithm.h: equal (54-63), mismatch (186-192)"]}
{"id": "C03", "title": "search finds the first occurrence of a subsequence", "statement": "search(h,n) returns the first position at which n occurs contiguously in h, and the end of h when it does not occur; for an empty needle it returns the beginning.", "quantifier": "every haystack and every needle", "why_tests_cant": "Off-by-one and overlap errors hide at unbounded combinations of needle and haystack.", "anchors": ["src/estd/algorithm.h: search (285-302)"]}
{"id": "C04", "title": "copy, copy_backward, fill and reverse have their exact effects", "statement": "copy/copy_n/fill_n/copy_backward write exactly the documented destination cells and no others; copy_backward and copy are correct on overlapping ranges in the direction they document; reverse reverses the range in place, and applying it twice gives the original.", "quantifier": "every range length, every contents, every legal overlap", "why_tests_cant": "Aliasing behaviour depends on the relative position of the two ranges, for all lengths.", "anchors": ["src/estd/algorithm.h: fill_n (26), fill (40), copy (92), copy_n (109), copy_backward (123), move_backward (138), iter_swap (198), reverse (207-211)"]}
{"id": "C05", "title": "min_element, max_element and clamp pick the extremum", "statement": "min_element returns the first smallest element (end on an empty range), max_element a largest one, and clamp(v,lo,hi) is within [lo,hi], equal to v when v already is, for every strict weak order comparator.", "quantifier": "every range and every comparator that is a strict weak order", "why_tests_cant": "Tie-breaking and emptiness for all ranges.", "anchors": ["src/estd/algorithm.h: min_element (69-82), clamp (168-178)", "src/estd/internal/algorithm/raw.h"]}
{"id": "C06", "title": "k-ary heap operations establish and preserve the heap property", "statement": "make_heap turns any non-empty range into a heap, push_heap extends a heap by its last element, pop_heap moves the extremum to the back and leaves the rest a heap; each only permutes the elements. Holds for each arity k >= 2 and each strict weak order.", "quantifier": "every array contents and size, every arity, every comparator that is a strict weak order", "why_tests_cant": "Heap shape correctness is an invariant over all sizes and all histories of sift operations.", "anchors": ["src/estd/internal/algorithm/heap.h: restore_up, restore_down, pop, push, make"]}
{"id": "C07", "title": "priority_queue pops in order", "statement": "For any history of push and pop on a priority_queue that never exceeds its capacity, top() is a maximal element of the elements pushed and not yet popped, and popping until empty yields them in comparator order.", "quantifier": "every history of pushes and pops", "why_tests_cant": "History-dependent: the array layout differs for each interleaving.", "anchors": ["src/estd/internal/priority_queue.h: push, emplace, pop, top, erase"]}
{"id": "C08", "title": "deque and queue behave as a bounded double-ended sequence", "statement": "Starting from an empty layer1::deque of capacity N, any sequence of push_back, push_front, pop_back, pop_front, with pushes only below capacity and pops only when non-empty, leaves front(), back(), size() and empty() equal to those of the abstract list, and never touches memory outside the N slots. queue is FIFO.", "quantifier": "every capacity and every operation history", "why_tests_cant": "Wrap-around positions arise only after particular long histories; tests sample few.", "anchors": ["src/estd/queue.h: layer1::deque push_back/push_front/pop_back/pop_front/size/front/back (99-417), queue (428-480)"]}
{"id": "C09", "title": "deque iteration visits exactly the contents in order", "statement": "Iterating a deque from begin() to end() visits the stored elements front to back.", "quantifier": "every capacity and every reachable state", "why_tests_cant": "The full/empty ambiguity of the begin==end test only shows at one state in each history.", "anchors": ["src/estd/queue.h: forward_iterator (214-260), begin, end"]}
{"id": "C10", "title": "fixed-capacity vector and string edits agree with sequence edits", "statement": "For layer1/layer2 fixed-capacity containers, push_back, pop_back, insert, erase, append, assign, resize, clear within capacity produce exactly the list the standard operation produces, keep size() <= capacity() and never write outside the buffer.", "quantifier": "every capacity, contents, position and operation history within capacity", "why_tests_cant": "Memory-safety and value claims over all histories.", "anchors": ["src/estd/internal/dynamic_array.h: append, raw_insert, insert, _erase, erase, push_back, pop_back, emplace_back, assign, clear, resize", "src/estd/internal/impl/dynamic_array.h"]}
{"id": "C11", "title": "Overfull requests are refused without damage", "statement": "An append/insert/push_back that does not fit in a fixed-capacity container leaves the stored contents and all neighbouring memory unchanged.", "quantifier": "every fixed capacity and every oversize request", "why_tests_cant": "Memory corruption beyond the buffer is not observable by ordinary assertions and depends on every size.", "anchors": ["src/estd/internal/dynamic_array.h: ensure_additional_capacity (157-179), append (457-485), push_back (605-629), insert (685-708)"]}
{"id": "C12", "title": "String search agrees with the first/last occurrence", "statement": "find(s,pos) returns the lowest index >= pos at which s occurs in the string, npos if there is none; rfind returns the highest index <= pos; find_first_of / find_last_of the first/last index of any listed character.", "quantifier": "every string, needle and start position", "why_tests_cant": "All lengths and positions, including the end where a read could run past the string.", "anchors": ["src/estd/internal/runtime_array.h: find (398-418), rfind (427-467), find_first_of (469-480), find_last_of (482-496)", "src/estd/internal/string.h: find (135-158)"]}
{"id": "C13", "title": "starts_with and ends_with decide prefix and suffix", "statement": "starts_with(x) is true exactly when the string begins with x; ends_with(x) exactly when it ends with x; for strings, single characters and null-terminated arguments.", "quantifier": "every pair of strings, including equal and empty ones", "why_tests_cant": "The failing cases are boundary cases over unbounded lengths.", "anchors": ["src/estd/internal/container/starts_with.h", "src/estd/internal/container/ends_with.h", "src/estd/internal/container/specializer.h (144-174)", "src/estd/internal/runtime_array.h (154-178)"]}
{"id": "C14", "title": "String equality and compare are lexicographic", "statement": "operator== holds exactly for equal contents; compare() is zero exactly for equal strings and its sign is the lexicographic order, which is a total order.", "quantifier": "every pair (and triple, for transitivity) of strings", "why_tests_cant": "Order laws quantify over all triples.", "anchors": ["src/estd/internal/runtime_array.h: operator== (499-507)", "src/estd/internal/string.h: compare (61-70)", "src/estd/internal/container/specializer.h (201-257)"]}
{"id": "C15", "title": "string_view and span slicing stay inside the viewed range", "statement": "remove_prefix/remove_suffix/substr (string_view) and subspan (span) denote exactly the documented sub-range and never extend past the end of the original view.", "quantifier": "every view length, offset and count", "why_tests_cant": "Bounds claims over all sizes.", "anchors": ["src/estd/string_view.h: remove_suffix (75-85), remove_prefix (88-93), substr (104-123)", "src/estd/span.h: subspan (201-208), first"]}
{"id": "C16", "title": "to_chars writes the canonical numeral", "statement": "to_chars(first,last,value,base) writes the canonical numeral of value in the base (no leading zeros, '-' for negatives), returning its bounds; it writes only inside [first,last), and reports value_too_large exactly when the numeral does not fit.", "quantifier": "every integer value of every width, every base 2..36, every buffer length", "why_tests_cant": "2^64 values times bases times buffer sizes.", "anchors": ["src/estd/internal/charconv.hpp: to_chars_integer_opt (38-89)", "src/estd/charconv.h", "src/estd/internal/locale/cbase.h"]}
{"id": "C17", "title": "from_chars parses exactly the longest numeral prefix", "statement": "from_chars consumes the longest prefix that is a numeral in the base, stores its value, and returns a pointer just after it; reports invalid_argument when there is no digit and result_out_of_range, leaving value unmodified, when the numeral does not fit the type.", "quantifier": "every input text, every base, every integer width", "why_tests_cant": "All texts and overflow boundaries.", "anchors": ["src/estd/internal/charconv/from_chars.hpp: from_chars_integer", "src/estd/internal/raise_and_add.h"]}
{"id": "C18", "title": "to_chars/from_chars round trip", "statement": "Formatting any value with to_chars into a large enough buffer and parsing the result with from_chars in the same base yields the same value and consumes the whole text.", "quantifier": "every value of every integer width and every base", "why_tests_cant": "Quantifies over the full 64-bit range.", "anchors": ["src/estd/charconv.h", "src/estd/internal/charconv.hpp", "src/estd/internal/charconv/from_chars.hpp"]}
{"id": "C19", "title": "Digit classification in each base", "statement": "is_in_base, from_char and to_char agree: a character is accepted exactly when it is a digit of the base, and from_char(to_char(d)) = d for each digit d below the base.", "quantifier": "every base 2..36 and every character", "why_tests_cant": "The whole table of bases by characters.", "anchors": ["src/estd/internal/locale/cbase.h (138-241)"]}
{"id": "C20", "title": "Streaming num_get extracts the integer value incrementally", "statement": "Feeding characters one at a time to the incremental integer parser yields, at the first non-digit or at end, the numeral's value, failbit exactly for no digits or overflow, independent of how input is chunked.", "quantifier": "every character sequence and every chunking of it", "why_tests_cant": "Schedules of chunk arrival and all texts.", "anchors": ["src/estd/internal/locale/iterated/num_get.h (120-260)", "src/estd/internal/locale/num_get.h"]}
{"id": "C21", "title": "unordered_map lookups reflect the inserted pairs", "statement": "After any history of insertions into a fixed-size unordered_map, find(k) returns the value from the first successful insert of k, and reports absence for keys never inserted; each key is stored at most once; insertion fails only when there is no room in the bucket run.", "quantifier": "every hash function, bucket layout and insertion history", "why_tests_cant": "Collision chains depend on the hash of every key and on the order of operations.", "anchors": ["src/estd/internal/container/unordered/base.h: index, insert_precheck, find_ll", "src/estd/internal/container/unordered_map.h: insert, try_emplace, find, operator[]"]}
{"id": "C22", "title": "unordered_map erase removes exactly one key", "statement": "erase(k) makes k absent and leaves every other key's lookup unchanged; erased space may be reused without affecting other keys.", "quantifier": "every history of inserts and erases", "why_tests_cant": "Tombstone interactions depend on the history.", "anchors": ["src/estd/internal/container/unordered_map.h: erase_ll (335-364), gc_active_ll (106-138), gc_sparse_ll (313)", "src/estd/internal/container/unordered/base.h: erase_and_gc_ll (449-470)"]}
{"id": "C23", "title": "unordered_set membership reflects inserts and erases", "statement": "contains(k) on unordered_set is true exactly for keys inserted and not erased since.", "quantifier": "every history", "why_tests_cant": "History-dependent layout.", "anchors": ["src/estd/internal/container/unordered_set.h", "src/estd/internal/container/unordered/base.h"]}
{"id": "C24", "title": "forward_list operations agree with list operations", "statement": "push_front, pop_front, insert_after, erase_after on the singly linked list produce exactly the corresponding list; no node is lost or duplicated and the list stays acyclic.", "quantifier": "every list and every history of operations on distinct nodes", "why_tests_cant": "Pointer-graph invariants over all histories.", "anchors": ["src/estd/forward_list.h (117-200)", "src/estd/internal/list_node.h", "src/estd/internal/list/intrusive_forward.h"]}
{"id": "C25", "title": "forward_list::remove_if removes every match", "statement": "remove_if(p) leaves exactly the elements not satisfying p, in order.", "quantifier": "every list and predicate", "why_tests_cant": "Adjacent matches only fail for particular shapes.", "anchors": ["src/estd/forward_list.h: remove_if (201-230), remove (238-273)"]}
{"id": "C26", "title": "Doubly linked list links stay mutually consistent", "statement": "push_back, push_front and insert on list keep next/prev inverse to each other and the element order equal to the abstract list.", "quantifier": "every history", "why_tests_cant": "Pointer-graph invariant over all histories.", "anchors": ["src/estd/list.h", "src/estd/internal/list_node.h"]}
{"id": "C27", "title": "Memory pool never hands out the same block twice", "statement": "Blocks returned by alloc and not yet freed are pairwise distinct and belong to the pool; alloc returns null exactly when all blocks are in use; available_blocks() is capacity minus blocks in use.", "quantifier": "every capacity and every history of alloc/free of owned blocks", "why_tests_cant": "Free-list corruption depends on the order of frees.", "anchors": ["src/estd/internal/memory/v1/pool.h: pool_core, pool_block::reset, pool, typed_pool"]}
{"id": "C28", "title": "Pool handles convert back to the same block", "statement": "from_handle(to_handle(b)) = b for each block b of the pool.", "quantifier": "every pool size and block", "why_tests_cant": "Only large pools expose narrowing.", "anchors": ["src/estd/internal/memory/v1/pool.h: to_handle (140), from_handle (145)"]}
{"id": "C29", "title": "shared_ptr deletes exactly once, when the last owner goes", "statement": "With layer1/layer2 owners and layer3 copies, the deleter runs exactly once, at the moment the last owning pointer is reset or destroyed, never while an owner remains; use_count() equals the number of owners.", "quantifier": "every history of copy, move, reset, swap, assign and destroy", "why_tests_cant": "Histories are unbounded; double delete shows only for particular orders.", "anchors": ["src/estd/memory.h: shared_ptr2_base (193-334), layer1/layer2/layer3::shared_ptr (338-612)"]}
{"id": "C30", "title": "linked_ref ring destroys the object exactly once", "statement": "In a ring of linked references, the shared object is destroyed exactly when the last shared reference goes away, and count_shared() equals the number of shared references.", "quantifier": "every history of copies, moves and destructions", "why_tests_cant": "Ring-pointer invariants over all histories.", "anchors": ["src/estd/internal/linked_ref.h (55-191)"]}
{"id": "C31", "title": "bipbuffer is a byte FIFO", "statement": "Bytes polled from a bip buffer are exactly the offered bytes in order with none lost, duplicated or invented; offer refuses when there is not room; used()+ free accounting is exact.", "quantifier": "every capacity and every history of offers, peeks and polls", "why_tests_cant": "The A/B region switch depends on history and sizes.", "anchors": ["src/estd/ext/willemt/bipbuffer/bipbuffer.c", "src/estd/internal/bip/buffer.h"]}
{"id": "C32", "title": "optional holds the last value and manages its lifetime", "statement": "has_value() and value() reflect the last assignment, emplace or reset; each contained object is constructed once and destroyed once; value() throws when empty; value_or returns the fallback exactly when empty.", "quantifier": "every history of operations on any number of optionals", "why_tests_cant": "Lifetime balance over all histories.", "anchors": ["src/estd/optional.h", "src/estd/internal/optional.h"]}
{"id": "C33", "title": "expected holds exactly one of value and error", "statement": "At all times exactly one of value and error is alive; has_value() tells which; each assignment/emplace destroys the previous alternative exactly once.", "quantifier": "every history", "why_tests_cant": "Lifetime balance over all histories.", "anchors": ["src/estd/expected.h", "src/estd/internal/expected.h"]}
{"id": "C34", "title": "variant holds exactly the alternative index() names", "statement": "index() names the only live alternative; emplace/assignment destroy the old and construct the new exactly once; get<I> succeeds exactly when I = index().", "quantifier": "every history and every number of alternatives", "why_tests_cant": "Lifetime balance over all histories.", "anchors": ["src/estd/internal/variant.h", "src/estd/internal/variant/storage.h"]}
{"id": "C35", "title": "Output stream buffers deliver all accepted characters in order", "statement": "The characters delivered by an output streambuf (string, span, buffered) are exactly those its put operations reported as accepted, in order; nothing is written outside the buffer.", "quantifier": "every sequence of sputc/sputn/sync and every buffer capacity", "why_tests_cant": "Flush points depend on the history and sizes.", "anchors": ["src/estd/internal/impl/streambuf/buffer.h", "src/estd/internal/impl/streambuf/span.h", "src/estd/internal/impl/streambuf/string.h", "src/estd/streambuf.h"]}
{"id": "C36", "title": "Input stream buffers deliver the source characters in order", "statement": "sgetc/sbumpc/snextc/sgetn/sungetc walk the underlying characters in order with no loss or duplication and report eof exactly at the end.", "quantifier": "every source text and every sequence of operations", "why_tests_cant": "All interleavings of get operations.", "anchors": ["src/estd/internal/impl/streambuf/span.h: in_span (130-200)", "src/estd/internal/impl/streambuf/pos.h", "src/estd/internal/impl/streambuf/helpers.h", "src/estd/streambuf.h"]}
{"id": "C37", "title": "istream getline/read/get/ignore obey their limits", "statement": "getline(buf,n,delim) stores at most n-1 characters plus a terminator, stops at and consumes the delimiter, and sets failbit only when the limit is reached or nothing was extracted; read(n) stores at most n; ignore(n) discards at most n.", "quantifier": "every input, limit and delimiter", "why_tests_cant": "Buffer overrun by one only shows for inputs at the limit.", "anchors": ["src/estd/internal/istream.h: get (99-113), read (151-165), getline (168-201), ignore (254-295)"]}
{"id": "C38", "title": "Formatted integer output pads to the field width", "statement": "operator<< of an integer emits max(width, length) characters: the numeral with fill characters on the side the adjustment says; fill(c) makes c the fill character.", "quantifier": "every integer, width, fill and base", "why_tests_cant": "All widths and values.", "anchors": ["src/estd/internal/ostream.h: fill (93-103), fill_n (106-116)", "src/estd/internal/ostream/integer.h (11-95)", "src/estd/internal/locale/num_put.h"]}
{"id": "C39", "title": "ios state bits report accurately", "statement": "good() holds exactly when no state bit is set; setstate only adds bits, clear replaces them; fail() is badbit or failbit; setf(f,mask) changes only bits in mask.", "quantifier": "every state word and mask", "why_tests_cant": "Algebraic laws over all bit patterns.", "anchors": ["src/estd/internal/ios_base.h (60-171)"]}
{"id": "C40", "title": "ratio arithmetic is exact and reduced", "statement": "ratio_multiply, ratio_divide, ratio_add yield the exact rational result; type is in lowest terms; gcd/lcm compute the greatest common divisor and least common multiple.", "quantifier": "every pair of ratios whose products fit intmax_t", "why_tests_cant": "Number-theoretic claim over all integers.", "anchors": ["src/estd/ratio.h", "src/estd/internal/numeric.h"]}
{"id": "C41", "title": "duration conversion and comparison are exact through the common type", "statement": "Converting to a finer period and back is the identity; conversion to a coarser period truncates toward zero; comparison and addition of durations of different periods agree with comparing and adding the exact rational times.", "quantifier": "every period pair and tick counts without overflow", "why_tests_cant": "All ratios and counts.", "anchors": ["src/estd/internal/chrono/duration.h", "src/estd/internal/chrono/ratio.h", "src/estd/internal/chrono/operators.hpp", "src/estd/internal/units/base.h: convert_from (135-164)"]}
{"id": "C42", "title": "hh_mm_ss splits a duration exactly", "statement": "hours()*3600 + minutes()*60 + seconds() (+subseconds) equals the absolute duration with minutes and seconds below 60.", "quantifier": "every duration", "why_tests_cant": "The narrow 8-bit fields only break beyond a range.", "anchors": ["src/estd/internal/chrono/formatter.hpp: hh_mm_ss (140-198)"]}
{"id": "C43", "title": "Calendar validity rules match the Gregorian calendar", "statement": "year::is_leap is the Gregorian rule; the last day of a month is the Gregorian length; ok() accepts exactly valid months and days.", "quantifier": "every year and month", "why_tests_cant": "All years.", "anchors": ["src/estd/internal/chrono/units.hpp: is_leap (79), ok", "src/estd/internal/chrono/formatter.hpp: year_month_day_last::day (90-102)"]}
{"id": "C44", "title": "FNV hashes are the documented functions and depend only on contents", "statement": "The 64-bit shift-and-add hash equals multiplication by the FNV prime 2^40+0x1b3 modulo 2^64 at each step; hashing a concatenation equals continuing the hash; equal contents hash equally across container types.", "quantifier": "every byte sequence", "why_tests_cant": "All byte strings.", "anchors": ["src/estd/internal/functional/hash.h", "src/estd/internal/string/hash.h"]}
{"id": "C45", "title": "Name chooser resolves a streamed name", "statement": "Feeding the characters of one of the registered names selects that name's index; input that is no registered name is rejected.", "quantifier": "every list of names and every input", "why_tests_cant": "Prefix-sharing names only fail for particular name sets.", "anchors": ["src/estd/internal/chooser.h"]}
{"id": "C46", "title": "promoted_type can hold both operands", "statement": "promoted_type<T1, T2> is a type in which every value of T1 and every value of T2 is representable, independent of operand order.", "quantifier": "every pair of fixed-width integer types and every value of them", "why_tests_cant": "A claim about every value of every pair of types; tests sample a few pairs.", "anchors": ["src/estd/internal/promoted_type.h: promoted_type (71-114)", "src/estd/internal/chrono/ratio.h"]}
{"id": "C47", "title": "gcount reports the characters the last unformatted input took", "statement": "After get, getline, read, readsome or ignore, gcount() is the number of characters that operation extracted from the source.", "quantifier": "every text, position, prior gcount and request size", "why_tests_cant": "The count depends on the whole history of calls and on where the text ends.", "anchors": ["src/estd/internal/istream.h: get, readsome, read, getline, ignore, gcount"]}
{"id": "C48", "title": "endl and unitbuf leave nothing pending", "statement": "After inserting endl, and after every write or put on a stream with the unitbuf flag (if the stream is then good), the stream buffer has been synchronised: a buffered stream buffer has no pending characters.", "quantifier": "every stream buffer implementation, stream state, text and character", "why_tests_cant": "Tests observe one sink and one text; the claim is about what sync establishes for every implementation, state and text.", "anchors": ["src/estd/internal/ostream.h: sentry::destroy, flush, write, put", "src/estd/internal/iomanip.h: endl", "src/estd/internal/impl/streambuf/buffer.h: out_buffered_stringbuf::sync"]}
{"id": "C49", "title": "Unordered containers compare equal exactly when they hold the same elements", "statement": "operator== on two unordered containers of the same type is true exactly when both hold the same elements (for maps: the same keys with the same values), whatever order they were inserted in.", "quantifier": "every pair of containers and every history that built them", "why_tests_cant": "Slot order depends on the insertion and erasure history; equal contents can have many layouts.", "anchors": ["src/estd/internal/container/unordered/base.h: operator== (569-585), iterator_base (246-313), skip_empty (93-105)"]}
{"id": "C50", "title": "to_string yields the decimal numeral", "statement": "to_string(value) yields exactly the canonical decimal numeral of the value, for every integer type; to_string(string, value) and to_string_opt(buffer, value, base) leave exactly that numeral as a terminated string whenever it fits the destination.", "quantifier": "every integer type, value, base, destination size and previous destination contents", "why_tests_cant": "Values and leftover buffer contents cannot be enumerated; the failures are at exact fits and at type minima.", "anchors": ["src/estd/internal/to_string.h: to_string (27-42, 82-94), to_string_opt (48-79)", "src/estd/internal/charconv/string.h: shifted_string", "src/estd/charconv.h: to_chars, to_chars_opt"]}
{"id": "C51", "title": "numeric_limits text lengths are right", "statement": "numeric_limits<T>::length<base> is the length of the longest numeral of a value of T in that base; digits10 is the largest d such that T holds every number of d decimal digits; digits is the number of value bits.", "quantifier": "every integer type and every value, bases 8, 10 and 16", "why_tests_cant": "It bounds the numerals of all 2^64 values; tests check constants.", "anchors": ["src/estd/internal/limits/traits.h: uint_strlen (14-38)", "src/estd/internal/limits/integer.h: length, digits, digits10 (28-124)"]}
{"id": "C52", "title": "Character categories", "statement": "ctype<char>::is(mask, ch) is true exactly when ch belongs to one of the categories in mask; the free isupper, islower, isalpha, isdigit and isspace are true exactly for the characters of their category.", "quantifier": "every mask (combination of categories) and every character code", "why_tests_cant": "Tests sample characters; the else-branches make combinations of categories behave differently from single ones.", "anchors": ["src/estd/internal/locale/ctype.h: ctype_base (19-33), isspace, isupper, islower, is (52-111)", "src/estd/cctype.h", "src/estd/internal/cctype.h"]}
{"id": "C53", "title": "char_traits find, length and compare", "statement": "find returns the first position holding the character among the first count, null when there is none; length returns the number of characters before the terminator; compare orders the first count characters lexicographically.", "quantifier": "every character sequence, character and count inside it", "why_tests_cant": "Unbounded sequences and positions.", "anchors": ["src/estd/traits/char_traits.h: find (40-49), length (58-65), compare (71-80)"]}
{"id": "C54", "title": "time_point arithmetic is exact", "statement": "Adding and subtracting durations that are whole numbers of the clock's ticks moves a time point by exactly their sum; adding then subtracting restores it; comparisons and differences of time points are those of the instants they denote.", "quantifier": "every time point, every history of additions and subtractions of durations of any period and representation", "why_tests_cant": "Histories, periods and representations are unbounded; the error is a truncation that depends on the tick ratio.", "anchors": ["src/estd/chrono.h: time_point", "src/estd/internal/chrono/time_point.h"]}
{"id": "C55", "title": "Unit conversions preserve the quantity", "statement": "Converting a unit quantity to another unit of the same kind, by construction or by assignment, gives the same quantity, rounded toward zero to the target's unit, whatever offset projector either side has; comparisons order by quantity; sums and differences are those of the quantities.", "quantifier": "every value, representation, period and projector offset", "why_tests_cant": "Tests try a few literal types; the projector has to be undone on every conversion path for all offsets.", "anchors": ["src/estd/internal/units/base.h: unit_base, convert_from (135-170), converting constructors (183-200), operator= (202-207), operator== (230)", "src/estd/internal/units/operators.hpp: operator+, operator-, comparisons", "src/estd/internal/units/fwd.h: passthrough"]}
{"id": "C56", "title": "get_from_percent interpolates", "statement": "get_from_percent(p, min, max) is min plus p per cent of the range rounded toward min: 0 per cent is min, 100 per cent is max, it is monotone in p and stays between the bounds.", "quantifier": "every percentage, ratio, lower and upper bound and representation whose intermediate products fit", "why_tests_cant": "The arithmetic mixes signed and unsigned types; the failures depend on the sign of the range and the types.", "anchors": ["src/estd/internal/units/percent.h: get_from_percent (46-66)"]}
{"id": "C57", "title": "The linked-list memory pool hands out each item to one owner at a time", "statement": "In the linked-list memory_pool the items in use are pairwise distinct items of the pool, allocate returns null exactly when every item is in use, owners may write to their items without damaging the pool, and count_free reports the number of free items.", "quantifier": "every capacity, initial storage contents and history of allocations, deallocations by owners and writes by owners", "why_tests_cant": "The free list is threaded through the users' own storage, so correctness depends on the whole history of interleaved allocations, writes and deallocations.", "anchors": ["src/estd/exp/memory/memory_pool2.h: memory_pool<T, N, pool_types::linked_list> (29-102)"]}
{"id": "C58", "title": "The handle heap keeps allocated regions apart", "statement": "The regions behind the handles of a virtual_memory are pairwise disjoint and inside the storage, allocate returns -1 exactly when no chunk is large enough, free releases exactly the named handle, total_free is the storage not allocated, and maintenance neither moves handles nor loses memory.", "quantifier": "every storage size, header size, number of handles and history of allocations, frees, writes by owners and maintenance steps", "why_tests_cant": "Chunk headers live inside the free storage; overlap, leaks and dangling list links depend on sizes, order of frees and the maintenance state.", "anchors": ["src/estd/exp/memory/memory_pool2.h: virtual_memory (127-390), allocate, free, total_free, maint, maint_compact, maint_absorb"]}
{"id": "C59", "title": "Streambufs buffered through a bip buffer deliver every character once and in order", "statement": "Output through a bip-buffered streambuf reaches the wrapped sink in order: after any operations the sink holds the characters accepted so far except those still pending, and pubsync hands over all pending ones. Input through one delivers exactly the characters of the wrapped source, in order, then end of file, whatever the sizes of the source's partial reads.", "quantifier": "every buffer size, wrapped sink or source, and history of single puts, bulk puts, single reads, block reads and pubsync", "why_tests_cant": "The bip buffer switches between two regions depending on the exact interleaving of fills, drains and partial transfers; a test fixes one buffer size and one pattern of transfers.", "anchors": ["src/estd/internal/impl/streambuf/bipbuf.h: out_buffered_bipbuf (25-125), in_buffered_bipbuf (133-235)", "src/estd/internal/bip/buffer.h: offer_begin, offer_end", "src/estd/streambuf.h: sputn, sgetc, sbumpc, snextc, sgetn"]}
{"id": "C60", "title": "Scoped locks protect their blocks under every schedule", "statement": "Code run between the construction and the destruction of a scoped lock on a mutex is never interleaved with code another thread runs under a scoped lock on the same mutex; threads that always nest their locks in one order can always proceed.", "quantifier": "any number of threads and mutexes, any nesting of scoped locks in their programs, and every schedule", "why_tests_cant": "Mutual exclusion and absence of deadlock are about all interleavings; a test runs one schedule at a time.", "anchors": ["src/estd/mutex.h: lock_guard, unique_lock (46-129)"]}
{"id": "C61", "title": "A function object owns its callable", "statement": "Calling a function object invokes the callable it holds. Moving and assigning pass the callable on; each callable is destroyed exactly once, when its owner is destroyed or takes another, and nothing remains allocated when all function objects are gone.", "quantifier": "every history of constructions, moves, copies, assignments, destructions, calls and tests on any number of function objects", "why_tests_cant": "Double deletion, leaks and use after free depend on the whole history of copies and moves between objects; tests exercise a few orders.", "anchors": ["src/estd/functional.h: experimental::function (104-248)", "src/estd/internal/functional.h: detail::function (166-233)", "src/estd/internal/impl/functional/fnptr2.h: model (64-105)"]}
{"id": "C62", "title": "Formatted extraction reads numbers, characters and words", "statement": "in >> v skips white space, takes the longest numeral of the stream's base, stores its value and leaves the stream behind it; eofbit is set exactly when the text ran out and failbit exactly when no value could be read; a stream that has failed is left alone, as is the variable. in >> ch and in >> text likewise take the next character and the next word. Numbers written with out << v << ' ' are read back unchanged. Iterating with istreambuf_iterator visits exactly the characters left.", "quantifier": "every text, every sequence of numbers of any integer types and values in any base, every stream state, every target string", "why_tests_cant": "The result depends on the whole text, the base, the type's limits and the stream state together; round trips range over all lists of values.", "anchors": ["src/estd/istream.h: ws, operator >> (89-167)", "src/estd/internal/istreambuf_iterator.h (16-160)", "src/estd/internal/locale/num_get.h (39-222)", "src/estd/internal/istream_runtimearray.hpp: do_input, operator >> (17-129)"]}
{"id": "C63", "title": "Parameter packs: looking up, selecting and visiting", "statement": "The index of a type in a pack is its first position, and is defined exactly when the type is there (and, where it must be unique, there once). Selecting keeps exactly the accepted items, in order, with their positions; contains, are_same, are_trivial, conjunction and disjunction mean member, all equal, all trivial, every and some; largest_type is the first of the largest; index sequences count up or down. Visiting calls the functor on the items in order up to the first it accepts and answers that position, or -1.", "quantifier": "every pack of types or values of every length, every evaluator, every functor including stateful ones", "why_tests_cant": "The results are recursions over packs of any length and arbitrary predicates; tests instantiate a handful of packs.", "anchors": ["src/estd/internal/variadic/type_sequence.h (9-121)", "src/estd/internal/variadic/integer_sequence.h (14-109)", "src/estd/internal/variadic/selector.h (110-182)", "src/estd/internal/variadic/visitor.h (112-316)", "src/estd/internal/variadic.h (18-98)", "src/estd/internal/utility/sequence.h (10-30)"]}
{"id": "C64", "title": "Tuples keep, apply and visit their elements", "statement": "Whatever the element types (empty classes included), get<I> reads the value last given to element I by construction or assignment, apply and make_from_tuple pass all elements in order, get<T> finds the only element of type T, a default-constructed tuple has value-initialised elements, make_tuple copies its arguments, and visit shows the elements in order until one is accepted and tells which.", "quantifier": "every list of element types and values, every sequence of assignments, every functor", "why_tests_cant": "Ranges over all packs, positions and assignment histories, and over stateful functors that write to the elements.", "anchors": ["src/estd/tuple.h (12-65)", "src/estd/internal/tuple.h (21-79)", "src/estd/internal/tuple/get.h (13-111)", "src/estd/internal/tuple/apply.h (10-32)", "src/estd/internal/tuple/make.h (11-31)", "src/estd/internal/tuple/sparse.h (12-56)", "src/estd/internal/variadic/visitor.h: visit_tuple_functor (34-52)"]}
{"id": "C65", "title": "Output iterators put what they are given", "statement": "Characters written through an ostreambuf_iterator, in any of its forms, reach the streambuf in order exactly as if put there directly, and failed() is true exactly when one was refused; copying a range through an ostream_iterator (and inserting a string that way) inserts its characters once each, in order, as inserting the string does; a back_insert_iterator appends; a filter_iterator shows exactly the elements its predicate accepts.", "quantifier": "every sequence of writes in every form, every streambuf, text, width, fill, base range and predicate", "why_tests_cant": "Ranges over all sinks, failure points and write sequences; tests write a short word into a large buffer and never ask failed().", "anchors": ["src/estd/iterator.h: ostreambuf_iterator (66-126), filter_iterator (130-169)", "src/estd/internal/ostream_iterator.h (12-33)", "src/estd/internal/iterator/back_insert.h (9-27)", "src/estd/internal/ostream_basic_string.hpp (14-42)"]}
{"id": "C66", "title": "Device stream buffers neither lose nor invent bytes", "statement": "Reading through a stream buffer over a serial device returns the bytes received, in order, once each, and eof only when none is waiting, however arrivals and calls interleave; each character reads as the same integer as from any other buffer. Writing delivers to the device exactly the characters reported as accepted, whichever it refuses.", "quantifier": "every interleaving of arrivals and calls, every byte, every pattern of refusals", "why_tests_cant": "Depends on arrival schedules and device refusals; there is no device in the tests.", "anchors": ["src/estd/port/arduino/streambuf.h (24-121)", "src/estd/streambuf.h (118-187)", "src/estd/internal/impl/streambuf/helpers.h (56-64)", "src/estd/port/rpi/pico/streambuf.h (63-115)"]}
{"id": "C67", "title": "Arrays are windows on their storage, maps look up the first entry, stacks are last in first out", "statement": "An array of any layer reads, at each index below its length, what was last written to that element by any array over the same storage; filling reaches its elements only; initialising from a list takes exactly the list; iteration, front, back and equality see the elements. map[k] gives the value of the first entry with key k or null, assigning through it changes that entry only; a layer1 map is a copy of the array it was built on and the other layers share it. A stack returns its elements in the reverse of the order they were pushed.", "quantifier": "every set of overlapping arrays, every history of writes, fills, assignments, lookups, pushes and pops, every element and key type with equality", "why_tests_cant": "Aliasing histories and all lengths and keys; tests build one map of two entries and a stack of three.", "anchors": ["src/estd/internal/array.h (14-178)", "src/estd/internal/legacy/array.h (20-350)", "src/estd/array.h: to_array (13-21)", "src/estd/map.h (52, 148-170, 200-219, 252-274)", "src/estd/stack.h (12-74)", "src/estd/internal/deduce_fixed_size.h (16-87)"]}
{"id": "C68", "title": "byteswap reverses bytes and flags are sets", "statement": "byteswap(n) has the bytes of n in reverse order for every integer type, so that swapping twice gives n. For an enumeration used as flags, |, &, ^ and ~ are union, intersection, symmetric difference and complement, the value is true exactly when some flag is set, and equal exactly when the same flags are.", "quantifier": "every integer type and value; every underlying type and pair of flag sets", "why_tests_cant": "All values of all widths; tests swap one 16 and one 32 bit literal.", "anchors": ["src/estd/bit.h (46-95)", "src/estd/flags.h (12-105)"]}
{"id": "C69", "title": "swap trades two values, exchange hands back the old one, pairs compare lexicographically", "statement": "swap(a, b) leaves each object with the other's value and changes nothing else, also when both are the same object; algorithms built on it only rearrange. exchange answers the old value and stores the new one. Two pairs are equal when both members are; pairs are ordered by the first members, then the second, a strict weak order whenever the members are ordered so; a pair holds the values it was made from.", "quantifier": "every integer type, every two objects including the same one, every value; every heap and range the algorithms run on; every component type and order", "why_tests_cant": "Self-swap and all values of all widths; tests swap two different variables once, and never pop a heap of one integer.", "anchors": ["src/estd/utility.h: pair (25-107, 125-165), exchange (173-179), swap (182-227)", "src/estd/internal/algorithm/heap.h: pop (135-139)", "src/estd/algorithm.h: iter_swap, reverse (198-211)"]}
{"id": "C70", "title": "The handle-linked memory pool hands out each slot once", "statement": "Whatever sequence of allocations, constructions, assignments, deallocations and destructions of owned slots has happened, the slots handed out are different, each object keeps the value last given to it, allocate answers null exactly when all slots are out and otherwise a slot nobody owns, count_free is the number of slots not handed out, and the slot returned last is handed out next. Constructing an object fails cleanly when no slot is left.", "quantifier": "every capacity from 1 to 2^32-1, every legal history of any length, every value type", "why_tests_cant": "Unbounded histories and every capacity class of the handle type; the test performs four operations on a pool of ten.", "anchors": ["src/estd/exp/memory/memory_pool.h: memory_pool_internal (355-509), memory_pool_1 (511-534), memory_pool_base (126-205)", "src/estd/forward_list.h: pop_front, push_front (117-132)", "src/estd/internal/deduce_fixed_size.h (16-37)", "src/estd/internal/iterator_standalone.h: distance (38-52)"]}
{"id": "C71", "title": "Element accessors", "statement": "An accessor obtained from a vector or string (v[i], front(), back(), a copy of one) stands for that element: reading or comparing it uses the element's current value, assigning to it (a value or another accessor) changes exactly that element, through any sequence of pushes, pops, stores and reads. Accessors of memory that may move while unlocked read and write the right cell wherever the allocator compacts in between, and leave nothing locked. Offsets add, subtract and compare as numbers.", "quantifier": "all buffer contents, capacities and element types; all programs of binding, reading, comparing, storing, assigning, pushing and popping; all schedules of allocator compaction; all offsets of all widths", "why_tests_cant": "The tests read a few accessors and never assign one to another; whether stores, aliases and lock counts work out depends on the whole history and on when memory moves.", "anchors": ["src/estd/internal/container/accessor.h: accessor_shared, accessor, accessor_stateless, stateful_locking_accessor", "src/estd/internal/container/traditional_accessor.h", "src/estd/internal/container/locking_accessor.h", "src/estd/internal/container/handle_with_offset.h", "src/estd/internal/runtime_array.h: operator[], front, back, swap", "src/estd/vector.h: at"]}
{"id": "C72", "title": "Growable vectors", "statement": "A vector over an allocator that can resize its blocks behaves like std::vector without a capacity limit: after any sequence of edits it holds exactly the sequence the standard operations build; growing never leaks a block and costs amortised constant time per element; a refused allocation leaves the vector as it was; reserve never loses elements; an argument may be one of the vector's own elements; insert returns an iterator to the new element; a copy is independent; a destroyed vector gives its memory back; it can be made from an initializer list.", "quantifier": "all element types and sizes; all sequences of push_back, append (of a buffer, of the vector itself), insert, range insert, erase, pop_back, truncation, clear, assign, reserve, shrink_to_fit of any length; all patterns of allocator answers; all numbers of elements", "why_tests_cant": "The tests push three elements. Growth happens only beyond the slack, failure only when the allocator refuses at a particular moment, and cost bounds range over all lengths.", "anchors": ["src/estd/internal/dynamic_array.h: ensure_total_capacity, ensure_additional_capacity, grow, append, raw_insert, insert, reserve, shrink_to_fit, assign", "src/estd/internal/impl/dynamic_array.h: dynamic_array_base", "src/estd/internal/impl/handle_desc.h: allocator_and_handle_descriptor::reallocate, allocate", "src/estd/allocators/handle_desc.h: handle_descriptor_base", "src/estd/internal/runtime_array.h: allocated_array", "src/estd/internal/container/specializer.h: append, copy_from, copy_to"]}
{"id": "C73", "title": "FreeRTOS mutexes, semaphores, queues, event groups and timeouts", "statement": "Over a kernel that behaves as FreeRTOS documents: at most one task is ever inside a mutex, and lock/try_lock/unlock answer accordingly; a recursive mutex belongs to one task until it has unlocked as often as it locked; a semaphore never hands out more units than it started with plus those released, and loses none; a queue delivers what it accepted, in order and once; an event bit is up exactly if it was last set, and a wait without timeout returns only when its condition holds; a timed call waits at least as long as asked and not at all for a duration of zero or less; every kernel object is deleted exactly once.", "quantifier": "all schedules of any number of tasks and interrupt handlers, of any length; all capacities, maxima, bit patterns, tick rates and durations", "why_tests_cant": "The unit tests run on one task in one interleaving (and the wrappers are not exercised on a host at all); mutual exclusion, order of delivery and unit counts quantify over all interleavings, and the timeout faults need durations that are negative, very long or no multiple of a tick.", "anchors": ["src/estd/port/freertos/mutex.h: mutex, recursive_mutex, timed_mutex", "src/estd/port/freertos/semaphore.h: counting_semaphore, binary_semaphore", "src/estd/port/freertos/queue.h: queue", "src/estd/port/freertos/event_groups.h: event_group", "src/estd/port/freertos/wrapper/semphr.h: semaphore", "src/estd/port/freertos/wrapper/queue.h: queue", "src/estd/port/freertos/wrapper/event_groups.h: event_group", "src/estd/port/freertos/chrono.h: freertos_clock", "src/estd/port/freertos/thread.h: sleep_for"]}
{"id": "C74", "title": "Lifetimes of vector elements", "statement": "For element types with constructors and destructors: every element a fixed-capacity vector constructs is destroyed exactly once (when it is removed, when the vector is cleared, or at the end of the vector), no operation assigns to, reads or destroys a cell that holds no object, and the elements of the vector are objects with the values pushed or inserted.", "quantifier": "all capacities, histories of push_back (copying and moving), emplace_back, pop_back, insert, erase, resize and clear of any length, element values, and both kinds of storage: a layer1 vector's raw memory and the caller's array under a layer2/layer3 vector", "why_tests_cant": "The unit tests mostly use integers, for which a lifetime lost, ended twice or never begun cannot be seen; that the counts balance is a statement about every history.", "anchors": ["src/estd/internal/dynamic_array.h: push_back, emplace_back, pop_back, insert, erase, resize, clear, raw_insert, move_assist", "src/estd/internal/container/specializer.h: copy_from", "src/estd/allocators/fixed.h: layer1::allocator, layer2::allocator", "src/estd/internal/array.h: uninitialized_array", "src/estd/vector.h: layer1::vector, layer2::vector, layer3::vector"]}
{"id": "C75", "title": "Function objects that refer to a callable", "statement": "A function object (function, inline_function, thisify_function/context_function, static_function) calls the callable it was last given, by construction, copy or assignment, with the arguments of the call; operator bool tells whether there is one; and every callable kept is destroyed exactly once.", "quantifier": "all histories of constructing, referring, copying, assigning, testing, calling and destroying any number of function objects of the four kinds and of models that destroy their callable after the call, with any callables and arguments", "why_tests_cant": "The tests call each object once, directly after making it; what a copy calls depends on which objects still exist, and what a static_function calls depends on every one made before.", "anchors": ["src/estd/internal/functional.h: detail::function, thisify_function", "src/estd/functional.h: inline_function, context_function", "src/estd/exp/functional.h: static_function", "src/estd/internal/impl/functional/fnptr2.h: model, function_fnptr2_opt", "src/estd/internal/impl/functional/fnptr1.h: model_base, model", "src/estd/internal/impl/functional.h: function_context_provider"]}
{"id": "C76", "title": "Storage for objects is large enough and aligned", "statement": "Wherever a class keeps an object of a user's type inside storage of its own (vector and array elements, optional, expected and variant alternatives, shared objects, pool blocks and items, map entries, emplaced list values, bip buffer headers), that storage is at least as large as the object and, at every address the enclosing object may have, aligned for it; and where storage is looked at as another type, both types agree on where the parts are.", "quantifier": "all object types (sizes and alignments), all capacities and element positions, all platforms' pointer, size_t, uint16_t, unsigned long and int sizes and alignments, all addresses of the enclosing object", "why_tests_cant": "Tests use a few types and one platform, on which the enclosing object usually happens to lie at a suitable address; being right for all addresses and all types is a statement about the layout rules.", "anchors": ["src/estd/internal/raw/type_traits.h: aligned_storage", "src/estd/internal/array.h: impl::uninitialized_array, array", "src/estd/allocators/fixed.h: layer1::allocator", "src/estd/internal/variant/storage.h: variant_union, variant_storage", "src/estd/internal/variadic.h: largest_type", "src/estd/internal/optional.h: optional_base", "src/estd/expected.h: expected", "src/estd/memory.h: layer1::shared_ptr_base", "src/estd/internal/bip/buffer.h: layer1::bipbuf", "src/estd/internal/memory/v1/pool.h: pool_block, pool, typed_pool", "src/estd/internal/container/unordered/traits.h: unordered_map_traits_control::meta", "src/estd/internal/container/unordered/base.h: cast, iterator_base", "src/estd/traits/list_node.h: alloc_move, alloc_emplace", "src/estd/exp/memory/memory_pool.h: item"]}
{"id": "C77", "title": "An exception thrown by an element leaves the container usable", "statement": "When a constructor or assignment of the held type throws out of an operation, the container goes on saying the truth about what it holds: optional, expected and variant name exactly the object that is alive (variant nothing, after emplace), a deque or vector has the elements it had, a pool still offers every block that nobody holds; and whatever the program does afterwards, including destroying the container, destroys each object once.", "quantifier": "all programs over any number of containers, every operation of which may throw, all held types (trivial or not, assignable or not), all capacities", "why_tests_cant": "The project's tests never throw; an exception may come out of any operation in any state, and what it leaves behind may only show up operations later.", "anchors": ["src/estd/optional.h: assign_value, operator=, emplace", "src/estd/internal/optional.h: destroy, reset", "src/estd/expected.h: operator=, emplace, destroy", "src/estd/internal/variant.h: operator=, emplace, assignment_functor", "src/estd/internal/variant/storage.h: assign_or_init, assignment_helper, direct_init_helper, assignment_emplace_helper", "src/estd/queue.h: layer1::deque push_back, push_front, emplace_back", "src/estd/internal/dynamic_array.h: grow, append, push_back, emplace_back", "src/estd/internal/memory/v1/pool.h: typed_pool::emplace"]}
{"id": "C78", "title": "An unordered map destroys each mapped value once and never shows one that is not there", "statement": "Every mapped value constructed in an unordered map is destroyed exactly once: when its element is erased, replaced by insert_or_assign, cleared, or when the map is destroyed. No operation destroys, assigns, swaps or returns a mapped value (or key) that is not alive; m[k] for a new key constructs one; an insertion whose constructor throws leaves no element behind.", "quantifier": "all hash functions, array sizes, initial memory contents and histories of operations; mapped types with destructors; keys with and without destructors; all elements at which an insertion throws", "why_tests_cant": "The tests use integers and never count destructor calls; which slot holds a living object depends on the whole history of insertions, collisions and erasures.", "anchors": ["src/estd/internal/container/unordered_map.h: destruct, clear, operator[], emplace, try_emplace, insert, insert_or_assign, erase, gc_active, erase_and_gc", "src/estd/internal/container/unordered/base.h: unordered_base, destruct_ll, destruct, erase_and_gc_ll", "src/estd/internal/container/unordered/traits.h: unordered_map_traits_control::meta, swap, set_null"]}
{"id": "C79", "title": "Extracting a bool reads back what was written and reports what is not a flag", "statement": "`in >> flag` skips white space and reads a flag: 0 or 1, or with boolalpha the names false or true. It consumes exactly the flag, stores its value and leaves the stream good; text that is no flag, is cut short or is missing sets failbit, and reaching the end sets eofbit. Flags written by `out << flag` under the same format flags are read back.", "quantifier": "all texts (of any length), positions, amounts of white space, format flags, initial values of the variable, numbers of flags written one after the other; character types and buffers of C62", "why_tests_cant": "Tests parse `true` and `1` from a complete text; texts that end early, begin with another character or continue after a digit are unlimited in number and were not tried.", "anchors": ["src/estd/istream.h: operator>>", "src/estd/internal/locale/num_get.h: get_bool", "src/estd/internal/locale/iterated/num_get.h: bool_get", "src/estd/internal/locale/numpunct.h: truename, falsename", "src/estd/internal/chooser.h: process"]}
{"id": "C80", "title": "A forward list that owns its nodes keeps its values, its memory and their lifetimes in order", "statement": "A forward_list whose nodes hold the values: after any sequence of push_front, emplace_front, pop_front, insert_after, erase_after and remove_if, iteration yields the values of the same sequence of operations on a plain sequence; no operation touches memory already given back; every value taken out is destroyed and its node given back, and the end of the list destroys and gives back the rest.", "quantifier": "all value types, all histories of any length, all addresses the allocator may choose (including re-use of memory given back), all predicates", "why_tests_cant": "A test pushes two values and pops them; leaks, missing destructors and re-use of addresses show only over histories and under particular choices of the allocator.", "anchors": ["src/estd/forward_list.h: push_front, pop_front, insert_after, erase_after, emplace_front, remove_if", "src/estd/traits/list_node.h: inlinevalue_node_traits_new_base, stateful_allocator_node_traits_base", "src/estd/internal/list_node.h: forward_list_base, linkedlist_traits_base", "src/estd/iterators/list.h: InputIterator, ForwardIterator"]}
{"id": "C81", "title": "Extracting a floating-point number stores the nearest representable value", "statement": "`in >> x` for a float or double skips white space and reads a decimal number: optional minus sign, digits, optional decimal point with digits (and an exponent). It consumes exactly the number, stores the representable value nearest to what the text denotes, sets eofbit exactly when the number ends the text, and sets failbit with 0 when there is no number.", "quantifier": "all binary floating-point formats (precision, range), all decimal texts of any length, positions, amounts of white space, what follows, numbers read one after the other; buffers of C62", "why_tests_cant": "Tests read one number with a few places. The result depends on every digit, on the number of places, on the format and on what follows; all of these are unlimited.", "anchors": ["src/estd/istream.h: operator>>", "src/estd/internal/locale/num_get.h: get_signed_number, get_float", "src/estd/internal/locale/iterated/num_get.h: raise_and_add, nominal, finalize, get"]}
{"id": "C82", "title": "Vectors and strings work in memory that moves while it is not locked", "statement": "Over an allocator with the locking tag, which may move a block at any moment at which it is not locked, every vector and string operation reaches its elements only between a lock and the matching unlock. So a program of pushes, appends, assignments, insertions, erasures, comparisons, searches and copies over several arrays gives the same results whatever the allocator moves and whenever; it uses no stale pointer, gives up no locked block, unlocks only what is locked, and leaves nothing locked.", "quantifier": "all programs of 20 kinds of statements over any number of arrays, all element types with equality, all contents, positions and capacities, all schedules of moves (which block moves before which step)", "why_tests_cant": "The library comes with no allocator that moves blocks, so in every test a stale pointer still works. Whether a use is covered by a lock shows only under the schedule that moves the block at that moment.", "anchors": ["src/estd/traits/allocator_traits.h: lock, unlock, clock, cunlock", "src/estd/internal/dynamic_array.h: ensure_total_size, grow, append, raw_insert, _erase, push_back", "src/estd/internal/runtime_array.h: lock, unlock, copy, find_first_of", "src/estd/internal/container/specializer.h: array_helper", "src/estd/internal/string.h: compare, find, insert, erase, data", "src/estd/internal/container/iterator.h: locking_iterator"]}
{"id": "C83", "title": "Optionals compare with values and hash by what they hold", "statement": "Comparing an optional with a value gives, for ==, != , <, <=, > and >=, the answer of the order in which an empty optional comes before every value and otherwise the value's own order decides. Equal optionals have equal hashes, and hashing an optional is defined whether or not it has a value. Two monostates are equal, not different, and hash equally. Two integers of a type no wider than size_t have the same hash only if they are equal.", "quantifier": "all histories of constructions, assignments, emplacements, resets and swaps of optionals, all value types with a strict total order, all values, all hash functions, all integer widths and both signednesses", "why_tests_cant": "Agreement of the six operators with one order is a statement about all values and all ways an optional can have become empty; a hash of an empty optional reads leftover storage, which in a test usually holds something plausible.", "anchors": ["src/estd/optional.h: operator==, operator!=, operator<, operator<=, operator>, operator>=, hash<optional<T>>", "src/estd/internal/raw/variant.h: monostate, hash<monostate>", "src/estd/internal/functional/hash.h: integral_hash"]}
{"id": "C84", "title": "A quantity prints as its count and the name of its unit", "statement": "Inserting put_unit(q) into an output stream emits the count of q in the stream's field and base, then (in the long form after a space) the name or symbol of the SI prefix of its period and that of its unit, and nothing else; two quantities that print alike are equal. A count of type double, or a double inserted by itself, prints with its sign, a point and two places, less than one hundredth away from the value, in one field of the stream's width, and leaves the stream's formatting as it was.", "quantifier": "all accepting sinks, all formatting states, all integer types and values, all doubles (generically: all binary formats of up to 62 bits), all prefixes, all units with a name and a symbol, both forms", "why_tests_cant": "The printed hundredths come from a product that is rounded, and from two separate conversions to integer: whether they always agree is a statement about all values of the format. Tests print 50.00 and 50.70.", "anchors": ["src/estd/internal/units/ostream.h: operator<<(double), write, write_abbrev, write_suffix, write_suffix_abbrev, unit_put, put_unit", "src/estd/internal/units/si.h: traits", "src/estd/internal/units/bytes.h: traits", "src/estd/internal/units/percent.h: traits"]}
{"id": "C85", "title": "Visiting a variant shows the object it holds; making one from a value stores that value", "statement": "visit_index calls the functor exactly once, with the number and the object of the alternative the variant holds, and not at all when it is valueless; it answers index() if the functor accepts and npos otherwise, and changes nothing but what the functor writes. visit does the same. Destroying, copying and moving, which are visits, act on the held alternative only. A variant made from a value holds that value, in the alternative of its own type if there is one.", "quantifier": "every number of alternatives, every history of variants, every functor including ones that keep state, write to the object or replace the content of the variant; every conversion relation between a type and the alternatives", "why_tests_cant": "Which objects the functor is shown depends on the held alternative, the functor's answers and its side effects; tests visit a variant holding the one alternative the functor asks for.", "anchors": ["src/estd/internal/variant.h: visit (193-200), visit_index (286-308), variant(T&&) (233-252), moving_constructor_functor (65-86)", "src/estd/internal/variant/storage.h: index_visitor (132-153), getter_functor2 (168-181), destroy (316-319), visit_instance, visit (544-579), copying_constructor_functor (232-249), converting_constructor_functor2 (631-643)", "src/estd/internal/variadic/visitor.h: type_visitor::visit (281-300)"]}
{"id": "C86", "title": "A software timer calls back only when asked to run, and never after it has been deleted", "statement": "A FreeRTOS timer's callback runs only after a request to run it (start, reset, a new period) was accepted, for a one-shot timer at most once per accepted request. When all requests on a timer have been carried out it is running if the last one was to run it (and it reloads itself or has not fired yet) and not otherwise, its period is the one last asked for, and it has been deleted exactly if its destructor's request was accepted; from then on its callback does not run again.", "quantifier": "every number of timers, every schedule of calls, commands carried out by the timer task, expiries and time-outs, every queue length and tick rate", "why_tests_cant": "When the timer task gets round to a command and when a timer expires is up to the scheduler; the trouble is in the few schedules in which the queue is full or a timer expires between the destructor and the deletion.", "anchors": ["src/estd/port/freertos/timer.h: timer<false> (16-27), timer<true> (40-54)", "src/estd/port/freertos/wrapper/timer.h: free, start, stop, change_period, reset (53-112), internal::timer (160-190)"]}
{"id": "C87", "title": "A blocking stream waits for the text, a non-blocking one says that there is none yet", "statement": "Reading words, characters and integers from a blocking stream gives what the text contains, whatever pieces it arrives in and however long they take: the call comes back only when the item has come completely or the text has ended. On a non-blocking stream an extraction that runs out of characters sets only nodatabit and takes nothing of the word, so that a program that tries again after clear() when more has arrived gets the whole word.", "quantifier": "every text, every division of it into arrivals and every delay between them, every number of extractions, both policies, both stream buffers, signed and unsigned char", "why_tests_cant": "Tests feed the whole text before they read. When the characters come in relative to the calls of the stream buffer is up to the sender; a number or a word cut in an unlucky place shows only there.", "anchors": ["src/estd/internal/ios_policy.h: sgetc (32-35, 61-82), on_nodata (37-46)", "src/estd/internal/istream.h: peek, get, ignore", "src/estd/internal/istream_runtimearray.hpp: do_input (17-62), operator>> (117-129)", "src/estd/istream.h: ws, operator>>", "src/estd/internal/istreambuf_iterator.h", "src/estd/port/arduino/istream.h"]}
{"id": "C88", "title": "Clocks measure elapsed time and sleeping lasts as long as asked", "statement": "The clocks of the ports are steady: a later reading is never less than an earlier one, the difference of two readings is the number of ticks between them, and a program that waits until enough time has passed, or until a deadline, goes on at the first poll after it and not before. sleep_for blocks for at least the duration asked for, and returns at once when that is not positive.", "quantifier": "every true tick count at which the clock is read, counters of every width including readings before and after they wrap, every schedule of polls, every duration (any representation and period) and every moment of the call relative to the tick", "why_tests_cant": "A 32-bit millisecond counter wraps after 49 days, a 16-bit tick counter every few minutes: a test does not wait for that. Whether a sleep is too short depends on the moment of the call within a tick.", "anchors": ["src/estd/port/arduino/chrono.h: arduino_clock (9-30)", "src/estd/port/arduino/thread.h: sleep_for (10-18)", "src/estd/port/freertos/chrono.h: freertos_clock (34-48)", "src/estd/port/freertos/thread.h: sleep_for (106-114)", "src/estd/port/rpi/pico/chrono.h: pico_clock (27-45), sleep_for, sleep_until (73-85)", "src/estd/port/esp-idf/chrono.h: esp_rtc_clock (36-44)", "src/estd/internal/chrono/operators.hpp, time_point.h"]}
{"id": "C89", "title": "Type traits classify every type as the C++ standard does", "statement": "is_void, is_integral, is_floating_point, is_arithmetic, is_array, is_pointer, the reference traits, is_function, the member pointer traits, is_enum, is_union and is_class are true of exactly the types of that category, whatever their const and volatile qualifiers; is_const and is_volatile of exactly the qualified types (an array is what its elements are); is_signed and is_unsigned of exactly the arithmetic types with and without negative values on the platform; is_same of equal types; is_base_of of a class and itself or any class derived from it, through private or ambiguous bases too; conjunction and disjunction are the logical ones and leave everything after the deciding trait alone.", "quantifier": "every C++ type (built from fundamental types, classes, unions, enumerations, pointers, member pointers, arrays, references and function types with every combination of qualifiers, ellipsis and noexcept, nested to any depth), every class hierarchy, every platform's choice of char signedness and sizes, every list of traits", "why_tests_cant": "There are infinitely many types; a test names a few of them, and the wrong answers are in corners such as unions, printf-like functions and pointers to member.", "anchors": ["src/estd/type_traits.h: is_union, is_class (15-28), is_arithmetic (30-33), is_signed, is_unsigned (40-52), is_pointer (37-38, 54), is_floating_point (56-63)", "src/estd/internal/raw/type_traits.h: is_const ... is_rvalue_reference (125-143), is_same (153-157), is_array (168-175), conjunction, disjunction (239-250)", "src/estd/internal/llvm_type_traits.h: is_enum (130-143), is_integral (147-173)", "src/estd/internal/llvm/is_void.h", "src/estd/internal/type_traits/is_function.h", "src/estd/internal/type_traits/is_member.h", "src/estd/internal/type_traits/is_base_of.h"]}
{"id": "C90", "title": "Type transformations give the type the C++ standard says", "statement": "remove_cv and its parts give the one type the given one is a qualified version of; add_const and its like add to what is there and leave references and functions alone; reference traits refer to the type and collapse; add_pointer, remove_pointer and remove_extent add and take away one level; decay gives what an argument passed by value becomes, and is idempotent; conditional and enable_if choose; make_signed and make_unsigned give the corresponding integer type, for other integral types and enumerations the one of least rank and equal size, keeping the qualifiers. Each compiles for every type the standard admits.", "quantifier": "every C++ type as in C89, every platform's sizes that respect the order of the integer types, every choice of the uintN_t types", "why_tests_cant": "There are infinitely many types; whether a transformation is right for qualified arrays, noexcept or variadic functions or a type that shares its size with another depends on the type and the platform the test is compiled for.", "anchors": ["src/estd/internal/raw/type_traits.h: remove_const ... remove_cvref (54-80), add_cv ... add_volatile (96-123), conditional, enable_if (146-165), remove_extent, remove_pointer (177-191)", "src/estd/type_traits.h: add_pointer (68-91), decay (95-109)", "src/estd/internal/llvm_type_traits.h: __apply_cv (17-64), make_signed (111-125, 177-217)", "src/estd/internal/type_traits/make_unsigned.h", "src/estd/limits.h", "src/estd/internal/limits/integer.h"]}
{"id": "C91", "title": "References to the elements of an unordered map stay good until the element is erased", "statement": "An iterator, pointer or reference to an element of an unordered map goes on showing that element, its key and its value, whatever is inserted, erased, assigned or looked up under other keys and whatever else is garbage collected, until the element itself is erased, moved by gc_active or the map cleared. The iterators the map hands out refer to the element they are about; what is written through a reference or by insert_or_assign is what lookups show from then on, and nothing else changes; gc_active moves only the element it is given, no further back, and returns its new place. In a set references survive everything but erase, which moves at most one element, into the place of the erased one.", "quantifier": "every number of slots, hash function, contents (including those left by earlier erasures), every history of map operations with iterators and keys interleaved in any way", "why_tests_cant": "Whether an element is moved depends on the whole history of insertions, erasures and collisions in its bucket; a test holds one reference through one history.", "anchors": ["docs/container/unordered_map.md", "src/estd/internal/container/unordered/base.h: insert_precheck (203-240), iterator_base (246-313), erase_and_gc_ll (449-470)", "src/estd/internal/container/unordered_map.h: gc_active_ll (102-138), insert_or_assign, operator[], erase_ll (335-364), erase (366-381)", "src/estd/internal/container/unordered_set.h: erase (53-61)"]}
{"id": "C92", "title": "Erasing while iterating visits every element once and keeps the others", "statement": "The loop that erases the elements of an unordered map that satisfy a predicate (it = erase(it), otherwise ++it, until end()) looks at every element exactly once and ends with exactly the elements that do not satisfy it in the map, each where it was.", "quantifier": "every number of slots, hash function, contents and predicate", "why_tests_cant": "What erase returns and which slots it clears behind itself depends on the collisions and earlier erasures in the bucket.", "anchors": ["src/estd/internal/container/unordered_map.h: erase(iterator) (374-381), erase_ll (335-364)", "src/estd/internal/container/unordered/base.h: skip_empty (93-105), iterator_base (246-313)"]}
{"id": "C93", "title": "Every observer of a subject is notified exactly once, in order", "statement": "Notifying a subject of an event calls on_notify of each of its observers that has one for that type of event, once for each time it was given to the subject and in the order given, and calls nothing else; with a context, the observer gets it if it has a function taking it, and each sees what the ones before left in it. A proxy passes events of its types on to the observers of its subject, without the context. Named observers are shared with everybody who holds them, temporaries and copies belong to their subject; nothing else changes.", "quantifier": "every set of observer classes and event types, every nesting of subjects and proxies, every program that makes, copies and notifies subjects in any order", "why_tests_cant": "Which function is called is decided by overload resolution for each observer and event type, and what the observers have seen depends on the whole history and on how the subjects share them.", "anchors": ["src/estd/exp/observer.h: notify_helper (20-109), stateless_subject (142-177), layer0::subject (219-307), make_subject (310-323), observer_proxy (424-486)"]}
{"id": "C94", "title": "Editing and assigning priority queues keeps their order", "statement": "On any number of priority queues, in any order of push, emplace, emplace_with_notify, pop, erase and erase_if within capacity, every call adds or removes exactly the element it is about, top() is never preceded by another element, the element emplace returns is the new one, and a queue assigned from another then holds the same elements and gives them out in the same order as the other would.", "quantifier": "every element type, strict weak order (comparators with state included), capacity and interleaving of operations on several queues", "why_tests_cant": "Whether erase leaves a heap depends on where in the array the element was, and which element emplace returns on how far the new one rises; both range over all contents and histories.", "anchors": ["src/estd/internal/priority_queue.h: push, operator=, pop, emplace, emplace_with_notify, erase, erase_if (94-195)", "src/estd/internal/value_evaporator.h: struct_evaporator (65-114)"]}
{"id": "C95", "title": "A handle descriptor tells the truth about the memory it describes", "statement": "For any sequence of allocate, reallocate, construct, copy_into, copy_from, reading, is_allocated and size on a handle descriptor, over a fixed buffer (length known at compile time or at run time) or over an allocator that hands out blocks: is_allocated() says whether the descriptor has memory, size() how many elements, allocate and reallocate succeed exactly when the memory is there, contents written are the ones read and survive a resize, no memory but the described block changes, and no block is lost.", "quantifier": "every element type, buffer, memory around it, allocator state with other blocks in it, sequence of calls and pattern of failing requests", "why_tests_cant": "What size() and is_allocated() say after a request depends on every earlier request and on which of them failed; that nothing else in memory changes ranges over all memories.", "anchors": ["src/estd/internal/impl/handle_desc.h: handle_descriptor_base (217-275), copy_into, copy_from (32-50)", "src/estd/allocators/handle_desc.h: tracked size (51-107)", "src/estd/allocators/fixed.h: allocate, reallocate, max_size", "src/estd/internal/value_evaporator.h: value_evaporator (20-56)"]}
{"id": "C96", "title": "Strings that share characters show one text, and changing a string never depends on where the added characters lie", "statement": "Strings may own their characters or refer to characters kept elsewhere, also another string's. For any sequence of making one string refer to another, assigning, appending, inserting, push_back of one of a string's own characters and clear, through any of the names: all strings over the same characters show the same text, the one that the calls made through any of them spell out; a text that fits its buffer is accepted and one that does not is refused; no characters of other strings change; assignment copies the text, so that later changes to one side do not show on the other; an argument that is a piece of the string itself counts with the value it had before the call; empty() says whether size() is zero.", "quantifier": "every memory, set of buffers, text, terminator, capacity, width of the size type, piece and position, and every sequence of calls", "why_tests_cant": "Which characters an overlapping copy reads depends on the relative position of source and destination, and which names see a change on the whole history of references; tests try a few positions and two or three names.", "anchors": ["src/estd/internal/layer1/string.h", "src/estd/internal/layer2/string.h: basic_string (38-113)", "src/estd/internal/layer3/string.h: basic_string (69-108)", "src/estd/internal/string.h: operator=, append, insert (262-388)", "src/estd/internal/dynamic_array.h: raw_insert, append, ensure_total_size", "src/estd/internal/container/specializer.h: copy_to, append, assign (102-197)", "src/estd/string.h: layer3::const_string (46-67)"]}
{"id": "C97", "title": "stol, stoul and stoi read the number a string starts with", "statement": "For every terminated string that starts, after blanks, with an optional sign and digits of the base (0x allowed for base 16, and with a leading 0 choosing the base when it is 0), stol, stoul and stoi return exactly that number and tell in pos how many characters they took; a string that starts with no number, or with one the result type cannot hold, is reported as such; the functions read no further than the string; and reading what to_string wrote gives the number back.", "quantifier": "every text, whatever lies behind its terminator, every base 0 and 2 to 36, every width of int and long", "why_tests_cant": "Where the number ends, which base applies and when a result no longer fits depends on every character of an unbounded text; a unit test reads a few short numbers.", "anchors": ["src/estd/string.h: stol, stoul, stoi (76-132)", "src/estd/charconv.h: to_chars", "src/estd/internal/string.h: to_string"]}
{"id": "C98", "title": "Objects that own other objects through shared pointers live exactly as long as something owns them", "statement": "When the objects managed by shared pointers have shared pointers as members, then after any sequence of creating objects, copying, moving, swapping, assigning and resetting handles, also those inside objects, an object that can be reached from any master or handle, directly or through members of other objects, has not been deleted and has the members it was given; an object nothing owns any more, directly or through a chain of members, has been deleted exactly once; use_count() is the number of owners; and no operation, in particular replacing a handle by a member of the object it points to, is undefined.", "quantifier": "every number of objects and members, every shape of ownership and every sequence of operations", "why_tests_cant": "How far a deletion cascades depends on the whole ownership graph, which has unbounded size and shape and is the product of the whole history; tests delete one object or a short chain.", "anchors": ["src/estd/memory.h: shared_ptr_control_block, shared_ptr2_base, layer2::shared_ptr, layer3::shared_ptr (58-88, 149-162, 193-334, 445-612)"]}
{"id": "C99", "title": "Text accepted by a check is converted to the number it spells", "statement": "A text that the check for a type accepts (validateString) is converted by the conversion for that type (fromString) to exactly the value it spells, and every text spelling a value of the type is accepted; legacy::from_chars reads only the characters of its range, consumes the longest number at its start, reports no number and numbers out of range, and changes the value only on success.", "quantifier": "every terminated text, every range and memory behind it, every base from 2 to 36, and every width of int and long", "why_tests_cant": "Whether checking and converting agree depends on every text, including those that are too long, signed or followed by other characters; and reading beyond a range shows only in what happens to lie behind it.", "anchors": ["src/estd/internal/string_convert.cpp: validateString<char>, <int>, <unsigned short>, legacy::from_chars (31-49, 74-82, 172-194)", "src/estd/internal/string_convert.h: fromString, validateString<unsigned char> (30-67, 156-159)"]}
{"id": "C100", "title": "Log lines reach the function installed when they are logged, whole and in order", "statement": "Off the target, every error, warning and information line logged is passed to the function installed at that moment as letter, tag, message and new line, whole, in order and to no other function, whatever characters the tag has; debugging lines are not; and esp_log_set_vprintf returns the function it replaces.", "quantifier": "every sequence of log calls and exchanges of the output function, every level, tag, format and arguments", "why_tests_cant": "What each output function has received is the product of the whole history of exchanges and calls, and a tag may contain any characters; tests log fixed tags.", "anchors": ["src/estd/internal/utility.cpp: esp_log_set_vprintf, esp_log_write_header, esp_log_write (20-66)", "src/estd/port/esp-idf/fake/esp_log.h (13-36)"]}
{"id": "C101", "title": "Streams over C files and through the virtual interface carry every character", "statement": "Whatever is inserted into a stream over a C file, or into one that reaches its streambuf through the traditional virtual interface (wrapped_ostream, convert), arrives there whole and in order, with its fills, single characters and newlines, as long as there is room; flush and endl put it on the device; a stream that could not write everything says so; and reading a file gives its characters in order however the reads are cut, with eof exactly if more was asked for than there was.", "quantifier": "every sequence of insertions and formatting changes, every wrapped streambuf, every buffering mode and capacity of the file, and every sequence of reads", "why_tests_cant": "What arrives depends on the whole chain of insertions and on the buffering of a C library that hides what was not sent; the repository's only test of the virtual interface inserts texts, which is just the case that works.", "anchors": ["src/estd/internal/streambuf.h: basic_streambuf_wrapped (15-60)", "src/estd/internal/impl/streambuf.h: basic_streambuf (58-80)", "src/estd/ostream.h: experimental::wrapped_ostream, convert (127-187)", "src/estd/port/posix/streambuf.cpp: posix_streambuf (11-44)", "src/estd/internal/istream.h: readsome, read (137-165)"]}
{"id": "C102", "title": "Walking a list in lockable memory leaves no node locked", "statement": "A doubly linked list whose nodes live in handle-based memory: after any sequence of pushes, insertions, front(), back() and of taking, copying, moving and reading through iterators, the elements and their order are those of the same operations on a plain sequence, every iterator stands at the element it stands at there, a reference obtained from the list stays good while it is used, and every lock taken on the way has been given back, once and on the node it was taken on; it += n and it - n move by n places either way, and the difference of two iterators is the distance between them.", "quantifier": "every history of list edits and iterator operations by a caller that respects the ends of the list, every choice of unused handles, every n", "why_tests_cant": "With the pointer-based allocators of the tests lock and unlock do nothing, so a lock that is never given back, or given back on another node, cannot be observed; how many locks a node holds depends on the whole history of reads.", "anchors": ["src/estd/iterators/list.h: InputIterator, ForwardIterator, ReverseIterator, BidirectionalIterator", "src/estd/traits/list_node.h: stateful_allocator_node_traits_base, inlinevalue_node_traits_new_base", "src/estd/internal/list_node.h: linkedlist_traits_base::prev, set_next, linkedlist_front_base::front", "src/estd/internal/reverse_list.h: reverse_list", "src/estd/list.h: list_base"]}
{"id": "C103", "title": "Shared objects made in a memory pool go back when the last owner goes", "statement": "In a memory pool of shared pointers, after any sequence of making shared objects, holding and copying handles to them, resetting and ending either: no handle points to a slot that is back in the pool, every slot that is out has an owner or is still waiting for its object, use_count() is the number of owners, count_free() is the number of slots not out, two objects alive at once are in different slots, and an object is destroyed exactly once, when its slot goes back; pool.destroy(p) ends the object and returns the slot once.", "quantifier": "every pool size below 2^32, every content of the memory it is built over, every history of operations by a caller who stays within the number of slots and 65534 owners", "why_tests_cant": "The existing tests follow one or two objects through one order of resets and look at the free count; the interleavings of owners going away, slots being reused and handles being copied are unbounded, and a destructor that never runs shows in none of them.", "anchors": ["src/estd/exp/memory/memory_pool.h: memory_pool_item_traits<layer1::shared_ptr>, control_block::Deleter, construct, destroy, destroy_internal, make_shared", "src/estd/memory.h: shared_ptr2_base::eval_delete, reset, layer1::shared_ptr::construct, layer3::shared_ptr", "test/catch/experimental/memory-pool1-test.cpp"]}
{"id": "C104", "title": "An unordered map can hold several elements under one key", "statement": "An unordered map into which elements are inserted with permit_duplicates behaves, for every sequence of operations, like a collection of pairs in which a key may occur several times: insert(value, true) adds an element unless refused for want of room, count(key) is the number of elements under the key, find shows one of them (the first inserted while nothing was erased), insert(value) adds nothing under a key that is there, erase(key) removes one element and says so, insert_or_assign replaces one, and equal_range_exp(key) covers exactly the elements under the key.", "quantifier": "every hash function, array size, bit-field layout, and every history of insertions with and without duplicates, erasures, assignments, lookups, counts and ranges", "why_tests_cant": "The existing tests insert one duplicate next to one other element and look at a bucket size; which slot a duplicate takes depends on the hash values and on every erasure before it, and a range that also covers other keys is only wrong when keys collide.", "anchors": ["src/estd/internal/container/unordered_map.h: insert, emplace, equal_range_exp, erase, insert_or_assign, operator[]", "src/estd/internal/container/unordered/base.h: insert_precheck, local_iterator_base, count, find_ll, skip_sparse", "test/catch/unordered-test.cpp"]}
{"id": "C105", "title": "A bip buffer can be shared by a main program and an interrupt handler", "statement": "When one side of a bip buffer is used by an interrupt handler, which may run between any two accesses of the main program, and the other side by the main program, the bytes taken are at every moment a beginning of the bytes offered, in order; between two calls what was accepted and not yet taken is what the buffer holds; and nothing is read or written outside the array. This holds for the handler as producer and for the handler as consumer.", "quantifier": "every buffer size, all byte strings offered, and every schedule: any number of handler runs between any two accesses of bipbuf_offer, bipbuf_peek and bipbuf_poll to the members and the array", "why_tests_cant": "The tests are single threaded. The failures need an interrupt between two particular loads or stores, and in a system under load they show as a byte lost once in a great many.", "anchors": ["src/estd/ext/willemt/bipbuffer/bipbuffer.c: bipbuf_offer, bipbuf_peek, bipbuf_poll, bipbuf_unused, __check_for_switch_to_b", "src/estd/ext/willemt/bipbuffer/bipbuffer.h"]}
{"id": "C106", "title": "The optional checks and moves of vectors and strings do what they promise", "statement": "Built with bounds checking, append and push_back answer with the number of elements they appended; when the storage cannot be had they answer with an error, nothing undefined happens, and the container holds what it held; otherwise the container behaves as without the option. Built with the memmove option, inserting a range has the same result as without it.", "quantifier": "every container, element width, position, inserted range and history of edits; every pattern of refusals by the allocator", "why_tests_cant": "Neither option is on in any test, and allocation failures can happen at any growth in any history.", "anchors": ["src/estd/internal/feature/dynamic_array.h: FEATURE_ESTD_DYNAMIC_ARRAY_BOUNDS_CHECK, FEATURE_ESTD_DYNAMIC_ARRAY_MEMMOVE", "src/estd/internal/dynamic_array.h: grow, append, push_back, emplace_back, raw_insert, copy_assist, ensure_additional_capacity", "src/estd/internal/container/specializer.h: append"]}
{"id": "C107", "title": "A queue between an interrupt handler and the main program loses, repeats and invents nothing", "statement": "When the main program takes elements out of a queue that an interrupt handler fills, or fills one that the handler empties, each asking first whether there is an element or room, then whenever the handler interrupts: no access leaves the array; the elements taken are, in order, a prefix of those pushed; between calls the queue reports and hands out exactly the rest; and an element is refused only if the queue is full.", "quantifier": "every capacity, sequence of elements and schedule of interrupts between any two memory accesses of the main program; either order in which the compiler makes the two stores of `*m_back++ = value`", "why_tests_cant": "The result depends on where between two memory accesses the handler runs, and each fault needs the queue to be full or empty at just that place.", "anchors": ["src/estd/queue.h: layer1::deque push_back, pop_front, front, size, empty, evaluate_rollover", "src/estd/queue.h: queue push, pop, front, empty"]}
{"id": "C108", "title": "A block pool shared by an interrupt handler and the main program never gives a block to both", "statement": "When the main program and an interrupt handler allocate from and free to one block pool, then whenever the handler interrupts: nothing undefined happens, no block is held twice, and between calls the number of available blocks is that of the blocks nobody holds.", "quantifier": "every pool, history of calls and writes into held blocks, and schedule of interrupts between any two memory accesses of the main program; any choice of the compiler to fetch the head of the free list again or not", "why_tests_cant": "The result depends on where between two memory accesses the handler runs, and the damage shows only when a block is next handed out.", "anchors": ["src/estd/internal/memory/v1/pool.h: pool_core alloc, alloc_next, free, full, available_blocks"]}
{"id": "C109", "title": "An object shared by several tasks is deleted once, when its last owner goes", "statement": "When any number of tasks share an object through shared pointers, each copying, handing over and giving up handles of its own, then however the tasks are interleaved: the object is not deleted while it has an owner, it is deleted when the last owner goes, and only once; and between calls use_count() is the number of owners.", "quantifier": "every number of tasks, history of calls and interleaving of their memory accesses; either choice of the compiler to fetch the count again for the comparison with zero or not", "why_tests_cant": "The result depends on how single memory accesses of different tasks interleave, and a wrong count shows only when the last owners go.", "anchors": ["src/estd/memory.h: shared_ptr2_base eval_delete, reset, copy constructor, use_count", "src/estd/memory.h: layer3::shared_ptr, layer2::shared_ptr, shared_ptr_control_block"]}
{"id": "C110", "title": "Text and arrays in program memory are read as they are there", "statement": "On an AVR, a string or array kept in program memory shows what is there: its size, each element (of any width, signed or unsigned), a loop over it, printing it, copying any part of it out, appending it to a string in RAM and comparing it with one all agree with the text or the values stored, and nothing outside them is read.", "quantifier": "every contents of program memory, text (ended by a zero byte or of a given size), array of integers of any width, index, count and position", "why_tests_cant": "The tests need the target and read a few short texts; the failures need a long text, a copy from the middle near the end, or a wide element type.", "anchors": ["src/estd/exp/pgm/read.h: pgm_read", "src/estd/exp/pgm/policy.h: PgmPolicy::size", "src/estd/exp/pgm/string.h: basic_pgm_string, copy_to, compare, out_string_helper", "src/estd/exp/pgm/array.h: pgm_array, copy_to, test_container", "src/estd/internal/runtime_array.h: operator[], begin, end, copy", "src/estd/internal/string.h: compare, operator=="]}
{"id": "C111", "title": "Quantities and calendar fields add up with plain numbers", "statement": "A quantity of whole units moves by exactly the sum of the numbers added to and taken from it, whatever offset its unit has, and compares with a number as its count does. A year, month or day moves by what is added to it; months are counted round the year, so that every month plus a number of months is a month.", "quantifier": "every unit type (representation, offset), value, history of += and -= whose end the type can hold, and number; every year, month and day", "why_tests_cant": "Offsets, wrap-around of narrow fields on the way, and the conversions C++ makes between signed and unsigned numbers depend on the types and values; tests show a few.", "anchors": ["src/estd/internal/units/operators.hpp: operator+=, operator-=, operator==, operator<, operator> with a number", "src/estd/internal/units/base.h: unit_base", "src/estd/internal/chrono/units.hpp: unit_base, year, month, day, operator+"]}
{"id": "C112", "title": "Writing with a time limit delivers the text, or says that it did not", "statement": "With a time limit set, writing a text to a device that takes it in parts sends the device exactly the text, in order and each character once, as far as the device takes it before the limit. The call returns when everything is sent or the time is up, and in the second case the stream tells so. Without a limit there is one attempt, and the stream tells exactly when something was not taken.", "quantifier": "every memory, text and limit, every pause between attempts, every device (how much it takes at each attempt) and every passing of time", "why_tests_cant": "What is sent depends on how much the device takes at each of any number of attempts and on when the clock passes the limit; tests write to devices that take everything.", "anchors": ["src/estd/internal/ostream.h: basic_ostream::write, write_timeout", "src/estd/internal/ios.h: ios_policy"]}
{"id": "C113", "title": "Spans over the same memory agree with each other and with their bytes", "statement": "Spans made from one array by slicing, copying, assigning, from two pointers, or from a fixed extent are windows on it: each shows what was last written through any of them or through their bytes, has the size of its slice, and its bytes are those of its elements in order. Making or assigning a span changes no element; nothing outside the array changes.", "quantifier": "every element size, array and surrounding memory, any number of spans, and every history of reads, writes, byte accesses and span-making inside the spans", "why_tests_cant": "Aliasing between any number of spans and byte views over any history has no bounded set of cases; tests look at one span.", "anchors": ["src/estd/span.h: span, subspan, first, operator[], operator=, size_bytes, as_bytes, as_writable_bytes"]}
{"id": "C114", "title": "A vector filled and emptied by an interrupt handler and the main program delivers each element once", "statement": "When a main program and an interrupt handler both add elements to a fixed-capacity vector, take its last element, or loop over all elements and clear it, every element that was added is delivered exactly once, in the order of a list, and nothing else is delivered.", "quantifier": "every element type, capacity and contents of memory, every sequence of calls in the main program, every handler and every point inside the calls where it runs", "why_tests_cant": "Where an interrupt cuts into a call cannot be chosen by a test, and the number of points grows with the history.", "anchors": ["src/estd/internal/dynamic_array.h: push_back, append, grow, ensure_additional_capacity, pop_back, clear", "src/estd/internal/runtime_array.h: back, end"]}
{"id": "C115", "title": "An interrupt handler that reads a string finds a text the program has made", "statement": "While the main program edits a string in a fixed buffer by appending, removing the last character, clearing and assigning, an interrupt handler that reads the string at any moment finds either the text before the edit in progress or the text after it; and what a handler appends itself is not lost.", "quantifier": "every buffer and its old contents, every history of edits that fit, every edit in progress and every point between its stores", "why_tests_cant": "What a reader finds depends on the moment and on what older texts have left in the memory behind the terminator; a test sees only finished edits.", "anchors": ["src/estd/internal/impl/dynamic_array.h: dynamic_array_length<Allocator, true, false>::size", "src/estd/internal/dynamic_array.h: append, push_back, grow, pop_back, clear, assign", "src/estd/internal/container/specializer.h: copy_from"]}
{"id": "C116", "title": "A linked list can be walked while it is edited", "statement": "An interrupt handler that walks a linked list at any moment inside an edit of the main program visits the nodes of the list before or after that edit, and comes back; and when the main program walks the list while handlers edit it, its loop visits no node twice and every node that stays in the list, in order.", "quantifier": "every memory of nodes, every history of edits, every edit in progress and every point between its stores; every walk and every handler edit between any two of its steps", "why_tests_cant": "It depends on the order of stores inside one edit and on what a node's link held before; a test sees only finished edits.", "anchors": ["src/estd/internal/list/intrusive_forward.h: push_front, pop_front, insert_after, erase_after, replace_after, clear", "src/estd/internal/list/iterator.h: intrusive_iterator::operator++", "src/estd/forward_list.h: push_front, pop_front, insert_after, erase_after"]}
{"id": "C117", "title": "An optional works as a mailbox between the main program and an interrupt handler", "statement": "When one of a main program and an interrupt handler puts values into an optional and the other takes them out and resets it, the taker gets exactly the values that were put, whole, in order and each once.", "quantifier": "every value type that is copied word by word, every number of words, every contents of memory, every sequence of values and every point inside an assignment or a read where an interrupt comes", "why_tests_cant": "Whether a value is torn or lost depends on the access at which the interrupt comes, which a test does not choose.", "anchors": ["src/estd/optional.h: operator=, assign_value, operator bool, operator*", "src/estd/internal/optional.h: optional_has_value, optional_value_provider::assign_value, optional_base::reset, layer1::optional_base<T, 0, null_value>"]}
{"id": "C118", "title": "An unordered map can be searched by an interrupt handler while it is edited", "statement": "While the main program inserts, erases or clears, a handler that looks a key up is told what the map answers before the edit or after it: never that a key which stays is missing, never a value that was not stored.", "quantifier": "every key and mapped type, hash function, contents of the array, edit and point inside it where an interrupt comes, and every key that is looked up", "why_tests_cant": "A lookup by the main program always runs between whole edits; the answer depends on the store at which the interrupt comes and on what bytes the slots held.", "anchors": ["src/estd/internal/container/unordered_map.h: insert, emplace, erase_ll, gc_sparse_ll, prune_sparse_ll, clear, find", "src/estd/internal/container/unordered/base.h: insert_precheck, find_ll", "src/estd/internal/container/unordered/traits.h: meta, is_sparse", "src/estd/utility.h: pair"]}
{"id": "C119", "title": "An interrupt handler can look at the top of a priority queue while it is edited", "statement": "While the main program pushes, pops or erases an element, a handler that asks for the size and the top element is given the size and the top element from before the call or from after it.", "quantifier": "every element type, comparison, capacity, contents of memory and history of pushes, pops and erasures, every call and every point inside it where an interrupt comes", "why_tests_cant": "A test looks between whole calls; what a handler sees depends on the store at which the interrupt comes and on the shape of the heap.", "anchors": ["src/estd/internal/priority_queue.h: push, pop, erase, top, size, empty", "src/estd/internal/algorithm/heap.h: restore_up, restore_down, pop, make", "src/estd/utility.h: swap, internal::xor_swap", "src/estd/internal/dynamic_array.h: append, pop_back"]}
{"id": "C120", "title": "A callback can be replaced while an interrupt handler calls it", "statement": "When the main program and an interrupt handler share function objects, both calling them, with or without asking first whether there is a callback, and replacing them: every call reaches the callback that was installed at that moment, a guarded call is skipped only when there is none, and a callback that a function object owns is destroyed once, not while it can still be called.", "quantifier": "every schedule of assignments, moves, copies and calls in the main program, interrupted at any point between its loads and stores by a handler that makes any number of calls and assignments; any number of function objects and callables", "why_tests_cant": "What a handler finds depends on the load or store at which the interrupt comes.", "anchors": ["src/estd/functional.h: experimental::function (104-248)", "src/estd/internal/functional.h: detail::function (166-233)", "src/estd/internal/impl/functional/fnptr2.h: model_base, model (20-105)"]}
{"id": "C121", "title": "An interrupt handler can copy and drop references of a linked ring", "statement": "While the main program creates, copies, moves and destroys linked references, an interrupt handler may copy any of them, look at the object and the count, and drop or keep its copy: it gets the object the reference shares, the count is the number of references there are, the object is destroyed once, when the last reference goes, and the main program's references are those its own operations make.", "quantifier": "every sequence of operations of the main program, every schedule of handler visits between the steps of its copies and destructions, every reference visited, any number of references and objects", "why_tests_cant": "What a handler finds depends on the load or store at which the interrupt comes.", "anchors": ["src/estd/internal/linked_ref.h: linked_ref (54-191)", "src/estd/internal/list/intrusive_forward.h: insert_after, erase_after (41-65)"]}
{"id": "C122", "title": "An interrupt handler can look at a variant or an expected that the main program changes, and the reverse", "statement": "While the main program assigns to a variant or an expected, or emplaces into it, an interrupt handler that asks which alternative is there and looks at it sees the value last put there, or, while that is being replaced, no value or the new value: never words of two values, and never the words of one alternative as another. The same holds of a main program that looks while a handler puts values.", "quantifier": "every sequence of assignments, emplacements and clearings, any number of alternatives of any sizes, every schedule of looks between any two loads or stores", "why_tests_cant": "What is seen depends on the load or store at which the interrupt comes.", "anchors": ["src/estd/internal/variant.h: operator= (276-343), index (345), emplace (347-361)", "src/estd/internal/variant/storage.h: assignment_helper, direct_init_helper, assign_or_init (420-520)", "src/estd/expected.h: operator= (183-210), emplace (219-228), has_value (244)"]}
{"id": "C123", "title": "The callback of emplace_with_notify may use the queue itself", "statement": "A callback given to a priority queue's emplace_with_notify may change the new element and then push to the queue or pop from it: afterwards what it took and what is held are together what was held, the new element and what it added, and top() is an element that no other comes before.", "quantifier": "every queue in order, every new element and every change the callback makes to it, every sequence of pushes and pops in the callback, every strict weak order", "why_tests_cant": "Whether the order survives depends on where the new element would have to go and on what the callback pushes; the tests use callbacks that leave the queue alone.", "anchors": ["src/estd/internal/priority_queue.h: emplace_with_notify (148-156), push (99-110), pop (125-129)", "src/estd/internal/algorithm/heap.h: restore_up (57-89)"]}
{"id": "C124", "title": "An unordered container of N slots takes N elements", "statement": "A fixed-size unordered map or set with N slots takes keys, other than the null key, until N of them are held: inserting a new key while fewer are held succeeds, every key taken is found with its value, and size() is their number.", "quantifier": "every number of slots, hash function, null key and mapped type, every list of different keys and every order of inserting them", "why_tests_cant": "Which keys fit depends on how they spread over the buckets and on the order they come in; tests insert a handful of keys into a large table.", "anchors": ["src/estd/internal/container/unordered/base.h: index (140-144), insert_precheck (207-242), max_size (130), find_ll (420-446)", "src/estd/internal/container/unordered/features.h: ESTD_UNORDERED_MAP_BUCKET_SIZE (3-5)", "src/estd/internal/functional/hash.h: integral_hash (174-182)"]}
{"id": "C125", "title": "A stream's state, flags and width can be changed by the main program and an interrupt handler", "statement": "When a main program and an interrupt handler both change a stream's error state, format flags or width, the stream is as if their calls had been made one after the other: an error reported by either side is known until it is cleared, and none is invented.", "quantifier": "every sequence of setstate, clear, setf, unsetf, flags and width calls on both sides, every place of the main program the handler comes in, both layouts of the state, every choice of which fields the processor stores together", "why_tests_cant": "The three settings are bit fields next to each other, so a call loads and stores its neighbours as well; what is lost depends on where the interrupt falls, which a test cannot choose.", "anchors": ["src/estd/internal/ios_base.h: struct state (74-102), unsetstate (109-112), width (122-127), setf (130-139), unsetf (141-142), flags (147-148), clear (153-154), setstate (156-159)", "src/estd/internal/feature/ios.h: FEATURE_ESTD_AGGRESSIVE_BITFIELD"]}
